import Verif.Spec.Depth
import Verif.Lemmas.AtMost
import Verif.Lemmas.Size
import Verif.Props.TreeWitness
/-! C101, C102: trees are balanced and of logarithmic depth, and `Insert` writes logarithmically many times. -/
namespace Appendable
open Spec Tree

theorem Kids.pow_le {cfg : Cfg} {B : Bytes} {h m : Nat} (hm : ∀ p lo hi es ps, Rep cfg B h p lo hi es ps → m ≤ es.length)
    {lo ks ptrs hi es ps} (hk : Kids (Rep cfg B h) lo ks ptrs hi es ps) : (ks.length + 1) * m ≤ es.length := by
  induction hk with
  | one h => simpa using hm _ _ _ _ _ h
  | cons h t ih =>
    have := hm _ _ _ _ _ h
    simp only [List.length_cons, List.length_append]
    rw [Nat.add_mul]
    omega

/-- Every page has two children at least. -/
theorem Rep.pow_le {cfg : Cfg} {B : Bytes} {h : Nat} {off : UInt64} {lo hi es ps} (hr : Rep cfg B h off lo hi es ps) : 2 ^ h ≤ es.length := by
  induction h generalizing off lo hi es ps with
  | zero => exact List.length_pos_iff.2 hr.nonempty
  | succ h ih =>
    obtain ⟨n, qs, hn, rfl, hm⟩ := hr
    have h1 := Kids.pow_le (fun _ _ _ _ _ h => ih h) (hm.2.1 rfl).2
    have h2 : 2 * 2 ^ h ≤ (n.keys.length + 1) * 2 ^ h := Nat.mul_le_mul_right _ (by have := hn.ok.1; omega)
    rw [Nat.pow_succ]; omega

theorem Rep.down {t : Tree} {s : PF} {h : Nat} {off : UInt64} {lo hi es ps} (hr : Rep t.cfg s.file.bytes h off lo hi es ps) (k : Nat) :
    Down t s off k ↔ k = h + 1 := by
  induction h generalizing off lo hi es ps k with
  | zero =>
    obtain ⟨n, qs, hn, rfl, hm⟩ := hr
    have hl := (hm.1 rfl).1.isLeaf hn.ok.1
    have hrd := readNode_ok (t := t) (s := s) hn 0
    constructor
    · intro hd
      cases hd with
      | leaf h _ => rfl
      | step h hl' _ _ => rw [hrd] at h; cases h; rw [hl] at hl'; cases hl'
    · rintro rfl
      exact .leaf hrd hl
  | succ h ih =>
    obtain ⟨n, qs, hn, rfl, hm⟩ := hr
    have hs := hm.2.1 rfl
    have hl : n.leaf = false := by unfold Node.leaf; simp [hs.1.2]
    have hrd := readNode_ok (t := t) (s := s) hn 0
    have hsub : ∀ o ∈ n.intPtrs, ∃ lo hi es ps, Rep t.cfg s.file.bytes h o lo hi es ps := by
      intro o ho
      have := hs.2
      clear hm hs hl hrd ih
      generalize n.keys = ks at this
      generalize n.intPtrs = ptrs at this ho
      induction this with
      | one h => simp at ho; subst ho; exact ⟨_, _, _, _, h⟩
      | cons h t ih =>
        rcases List.mem_cons.1 ho with rfl | ho
        · exact ⟨_, _, _, _, h⟩
        · exact ih ho
    constructor
    · intro hd
      cases hd with
      | leaf h hl' => rw [hrd] at h; cases h; rw [hl] at hl'; cases hl'
      | step h hl' ho hd =>
        rw [hrd] at h; cases h
        obtain ⟨_, _, _, _, hr⟩ := hsub _ ho
        rw [(ih hr _).1 hd]
    · rintro rfl
      obtain ⟨o, ho⟩ : ∃ o, o ∈ n.intPtrs := by
        have := hs.2.length
        exact List.exists_mem_of_length_pos (by omega)
      obtain ⟨_, _, _, _, hr⟩ := hsub o ho
      exact .step hrd hl ho ((ih hr _).2 rfl)

theorem PathTo.length {cfg B key h off path} (hp : PathTo cfg B key h off path) : path.length = h + 1 := by
  induction hp with
  | leaf => rfl
  | step _ _ _ _ ih => simp [ih]

/-- C101: after any history, all ways from the root of a tree down to a leaf pass the same number of pages, at most `1 + log2 n` of them if
`n` entries have been inserted. -/
theorem C101_balanced {ts : List Tree} {s : PF} {c : Nat → List (RV × MemPtr)} {i : Nat} {t : Tree}
    (hf : ForestRun ts s c) (ht : ts[i]? = some t) (hne : c i ≠ []) :
    ∃ n mp s' d, t.root s = (.ok (some (n, mp)), s') ∧ d ≤ (c i).length.log2 + 1 ∧ ∀ k, Down t s mp.offset k ↔ k = d := by
  obtain ⟨free, E, P, hi⟩ := forestInv hf
  obtain ⟨hti, hw, hp⟩ := hi.tree i t ht
  have hlen := hp.length_eq
  have h0 : (c i).length ≠ 0 := fun hc => hne (List.length_eq_zero_iff.1 hc)
  rcases hti.root with ⟨_, he, _⟩ | ⟨hl, h, hr, _⟩
  · rw [he] at hlen; exact absurd hlen.symm h0
  · obtain ⟨n, qs, hn, hps, hm⟩ := rep_iff.1 hr
    obtain ⟨p, hroot⟩ := root_some hti.slotInside hti.slot hl hn
    refine ⟨n, _, _, h + 1, hroot, ?_, fun k => hr.down k⟩
    have := (Nat.le_log2 h0).2 (hlen ▸ hr.pow_le)
    omega

/-- C101: with `m` half of the keys that fit on a page, a tree with `d + 2` pages on the way to a leaf has at least `2 * m * (m + 1) ^ d`
entries.  (With 8-byte values `m` is 53: a tree of less than 16 million entries is at most four pages deep.) -/
theorem C101_fanout {ts : List Tree} {s : PF} {c : Nat → List (RV × MemPtr)} {i : Nat} {t : Tree} {n : Node} {mp : MemPtr} {s' : PF} {d : Nat}
    (hf : ForestRun ts s c) (ht : ts[i]? = some t) (hroot : t.root s = (.ok (some (n, mp)), s')) (hd : Down t s mp.offset (d + 2)) :
    2 * (halfPage t.cfg.width * (halfPage t.cfg.width + 1) ^ d) ≤ (c i).length := by
  obtain ⟨free, E, P, hi⟩ := forestInv hf
  obtain ⟨hti, hw, hp⟩ := hi.tree i t ht
  rw [← hp.length_eq]
  rcases hti.root with ⟨hz, _, _⟩ | ⟨hl, h, hr, _, hdn⟩
  · rw [root_none hti.slotInside hti.slot (by rw [hz])] at hroot
    cases hroot
  · obtain ⟨n', qs, hn, hps, hm⟩ := rep_iff.1 hr
    obtain ⟨p, hroot'⟩ := root_some hti.slotInside hti.slot hl hn
    rw [hroot'] at hroot
    cases hroot
    have := (hr.down _).1 hd
    obtain rfl : h = d + 1 := by omega
    rw [minKeys_eq] at hdn
    exact hr.fanout hdn

/-- The way that a search takes. -/
theorem search_path {t : Tree} {s : PF} {free : List Nat} {es : List Entry} {ps : List Nat} (hti : TreeIs t s free es ps) {n : Node} {mp : MemPtr} {s' : PF}
    (hroot : t.root s = (.ok (some (n, mp)), s')) (key : RV) :
    ∃ path p, t.traverse key (fuel s') n mp s' = (.ok path, s.upd s.file.bytes p) ∧ 2 ^ (path.length - 1) ≤ es.length ∧ path ≠ [] := by
  rcases hti.root with ⟨hz, _, _⟩ | ⟨hl, h, hr, _⟩
  · rw [root_none hti.slotInside hti.slot (by rw [hz])] at hroot
    cases hroot
  · obtain ⟨n', qs, hn, hps, hm⟩ := rep_iff.1 hr
    obtain ⟨p, hroot'⟩ := root_some hti.slotInside hti.slot hl hn
    rw [hroot'] at hroot
    cases hroot
    generalize MemPtr.decode (slice s.file.bytes t.rootPos 12) = mp at *
    have hfuel : h < fuel (s.upd s.file.bytes p) := by
      have := hr.height_lt
      have := pages_count hti.nodup hr.pages
      unfold fuel; simp only [upd_bytes]; omega
    obtain ⟨off, l⟩ := mp
    obtain ⟨path, p1, htr, hpath⟩ := traverse_ok (t := t) (key := key) (s := s.upd s.file.bytes p) (l := l)
      hr hn hfuel (fun l hl => by cases hl) (fun l hl => by cases hl)
    refine ⟨path, p1, by rw [htr]; rfl, ?_, hpath.ne⟩
    rw [hpath.length]
    exact hr.pow_le

/-- C101: every search for a key goes down such a way: it reads at most `1 + log2 n` pages. -/
theorem C101_search {ts : List Tree} {s : PF} {c : Nat → List (RV × MemPtr)} {i : Nat} {t : Tree} {n : Node} {mp : MemPtr} {s' : PF}
    (hf : ForestRun ts s c) (ht : ts[i]? = some t) (hroot : t.root s = (.ok (some (n, mp)), s')) (key : RV) :
    ∃ path s2, t.traverse key (fuel s') n mp s' = (.ok path, s2) ∧ path.length ≤ (c i).length.log2 + 1 := by
  obtain ⟨free, E, P, hi⟩ := forestInv hf
  obtain ⟨hti, hw, hp⟩ := hi.tree i t ht
  obtain ⟨path, p, h1, h2, h3⟩ := search_path hti hroot key
  rw [hp.length_eq] at h2
  have h0 : (c i).length ≠ 0 := by have := Nat.two_pow_pos (path.length - 1); omega
  have := (Nat.le_log2 h0).2 h2
  exact ⟨path, _, h1, by omega⟩

/-- The writes of `Insert`. -/
theorem insert_writes {t : Tree} {s : PF} {free : List Nat} {es : List Entry} {ps : List Nat} (hti : TreeIs t s free es ps) (k : RV) (v : MemPtr) :
    AtMost (4 * (es.length.log2 + 2)) (t.insert k v) s := by
  unfold Tree.insert
  split
  · exact AtMost.throw _ _ _
  · refine AtMost.bind0 (AtMost.root t 0 s) (fun r s1 hr => ?_)
    cases r with
    | none =>
      simp only
      refine AtMost.bind0 (AtMost.lift _ 0 s1) (fun _ s2 _ => ?_)
      exact (AtMost.bind (w := 3) (w' := 1) (AtMost.newPage _ s2) (fun _ s3 _ => AtMost.setRootAt _ _ s3)).mono (by omega)
    | some x =>
      obtain ⟨n, mp⟩ := x
      simp only
      obtain ⟨path, p, h1, h2, h3⟩ := search_path hti hr k
      have h0 : es.length ≠ 0 := by have := Nat.two_pow_pos (path.length - 1); omega
      have hlog := (Nat.le_log2 h0).2 h2
      refine AtMost.dep (f := fun s' => do
        match ← t.traverse k (fuel s') n mp with
        | [] => Act.crash
        | tr :: rest =>
          let (j, found) := bsearch compareRV tr.node.keys k
          if found then Act.throw (.msg "key already exists")
          else t.insertLoop { tr with node := leafInsert tr.node j k v } rest) ?_ (fun b => rfl)
      refine AtMost.bind0 (AtMost.traverse t k _ n mp 0 s1) (fun path' s2 hp' => ?_)
      rw [h1] at hp'
      cases hp'
      cases path with
      | nil => exact AtMost.crash _ _
      | cons tr rest =>
        simp only
        split
        · exact AtMost.throw _ _ _
        · refine (AtMost.insertLoop t _ rest _).mono ?_
          simp only [List.length_cons, Nat.add_sub_cancel] at hlog
          omega

/-- C102: after any history, `Insert` into a tree with `n` entries writes to the file at most `4 * (log2 n + 2)` times: if so many writes
are allowed, it ends as without a limit. -/
theorem C102_insert_writes {ts : List Tree} {s : PF} {c : Nat → List (RV × MemPtr)} {i : Nat} {t : Tree} {k : RV} (v : MemPtr)
    (hf : ForestRun ts s c) (ht : ts[i]? = some t) (hk : KeyOK t.cfg k) {b : Nat} (hb : 4 * ((c i).length.log2 + 2) ≤ b) :
    (t.insert k v (crashAfter b s)).1 = (t.insert k v s).1 ∧
      (t.insert k v (crashAfter b s)).2.file.bytes = (t.insert k v s).2.file.bytes := by
  have hpan := C18_no_panic v hf ht hk
  obtain ⟨free, E, P, hi⟩ := forestInv hf
  obtain ⟨hti, hw, hp⟩ := hi.tree i t ht
  obtain ⟨_, w, h1, h2⟩ := insert_writes hti k v hti.budget hpan
  rw [hp.length_eq] at h1
  have := h2 (b - w)
  rw [show w + (b - w) = b by omega] at this
  show (t.insert k v (withBudget (some b) s)).1 = _ ∧ (t.insert k v (withBudget (some b) s)).2.file.bytes = _
  rw [this]
  exact ⟨rfl, rfl⟩

/-! The hypotheses are met by a tree with three entries on two leaves below the root. -/

example : ∃ s c n mp s' d, ForestRun [Demo.tree] s c ∧ (c 0).length = 3 ∧ Demo.tree.root s = (.ok (some (n, mp)), s') ∧ d ≤ 2 ∧
    (∀ k, Down Demo.tree s mp.offset k ↔ k = d) ∧
    (∃ path s2, Demo.tree.traverse (Demo.key 2) (fuel s') n mp s' = (.ok path, s2) ∧ path.length ≤ 2) ∧
    (Demo.tree.insert (Demo.key 4) (Demo.ptr 4) (crashAfter 12 s)).1 = (Demo.tree.insert (Demo.key 4) (Demo.ptr 4) s).1 := by
  obtain ⟨s, c, hf, hc, _⟩ := Demo.exists_three
  have hl : (c 0).length = 3 := by rw [hc]; rfl
  have hlog : (c 0).length.log2 = 1 := by rw [hl]; decide
  obtain ⟨n, mp, s', d, h1, h2, h3⟩ := C101_balanced (i := 0) (t := Demo.tree) hf rfl (by rw [hc]; simp)
  obtain ⟨path, s2, h4, h5⟩ := C101_search (i := 0) (t := Demo.tree) hf rfl h1 (Demo.key 2)
  rw [hlog] at h2 h5
  exact ⟨s, c, n, mp, s', d, hf, hl, h1, h2, h3, ⟨path, s2, h4, h5⟩,
    (C102_insert_writes (i := 0) (t := Demo.tree) (k := Demo.key 4) (b := 12) (Demo.ptr 4) hf rfl (Demo.keyOK 4) (by rw [hlog]; decide)).1⟩

end Appendable
