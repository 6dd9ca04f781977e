import Verif.Lemmas.Iter
import Verif.Spec.Tree
/-! Iterators over a whole tree. -/
namespace Appendable
open Spec Tree

theorem Fam.append {cfg B h p1 L1 p2 L2} (h1 : Fam cfg B h p1 L1) (h2 : Fam cfg B h p2 L2) :
    Fam cfg B h (p1 ++ p2) (L1 ++ L2) := by
  refine ⟨by simp [h1.1, h2.1], fun i p e hp he => ?_⟩
  by_cases hi : i < p1.length
  · rw [List.getElem?_append_left hi] at hp
    rw [List.getElem?_append_left (by rw [h1.1]; exact hi)] at he
    exact h1.2 i p e hp he
  · rw [List.getElem?_append_right (by omega)] at hp
    rw [List.getElem?_append_right (by rw [h1.1]; omega), h1.1] at he
    exact h2.2 _ p e hp he

theorem Fam.cons {cfg B h p e lo hi ps p2 L2} (h1 : Rep cfg B h p lo hi e ps) (h2 : Fam cfg B h p2 L2) :
    Fam cfg B h (p :: p2) (e :: L2) := by
  refine ⟨by simp [h2.1], fun i p' e' hp he => ?_⟩
  cases i with
  | zero => simp at hp he; subst hp; subst he; exact ⟨_, _, _, h1⟩
  | succ i => simp at hp he; exact h2.2 i p' e' hp he

theorem Fam.nil {cfg B h} : Fam cfg B h [] [] := ⟨rfl, fun i p e hp _ => by simp at hp⟩

theorem Seg.fam {cfg B h lo ks ptrs hi es ps} (hk : Seg (Rep cfg B h) lo ks ptrs hi es ps) :
    ∃ L, Fam cfg B h ptrs L ∧ es = L.flatten := by
  induction hk with
  | nil => exact ⟨[], Fam.nil, rfl⟩
  | cons h t ih =>
    obtain ⟨L, hL, rfl⟩ := ih
    exact ⟨_ :: L, Fam.cons h hL, by simp⟩

theorem TailK.fam {cfg B h hi' ks ptrs hi es ps} (hk : TailK (Rep cfg B h) hi' ks ptrs hi es ps) :
    ∃ L, Fam cfg B h ptrs L ∧ es = L.flatten := by
  rcases hk with ⟨_, rfl, _, rfl, _⟩ | ⟨k, ks', _, _, t⟩
  · exact ⟨[], Fam.nil, rfl⟩
  · exact t.fam

/-- The position of `key` in the entries. -/
def rank (es : List Entry) (key : RV) : Nat := countLt (es.map Prod.fst) key

theorem rank_append (a b : List Entry) (key : RV) : rank (a ++ b) key = rank a key + rank b key := by
  unfold rank countLt; simp

theorem rank_all {a : List Entry} {key : RV} (h : ∀ e ∈ a, KeyLt e.1 key) : rank a key = a.length := by
  unfold rank countLt
  rw [List.filter_eq_self.2]
  · simp
  · intro x hx
    obtain ⟨e, he, rfl⟩ := List.mem_map.1 hx
    simpa using h e he

theorem rank_none {a : List Entry} {key : RV} (h : ∀ e ∈ a, KeyLt key e.1) : rank a key = 0 :=
  countLt_eq_zero_of_le (fun x hx hlt => by
    obtain ⟨e, he, rfl⟩ := List.mem_map.1 hx
    exact (h e he).asymm hlt)

theorem zip_keys {n : Node} (h : LeafShape n) : (n.keys.zip n.leafPtrs).map Prod.fst = n.keys := by
  rw [List.map_fst_zip]; rw [h.1]; omega

/-- The path found by `traverse` is a cursor at the rank of the key. -/
theorem PathTo.cur {cfg B key h off path lo hi es ps} (hp : PathTo cfg B key h off path)
    (hr : Rep cfg B h off lo hi es ps) (hlo : GeB lo key) (hhi : LtB key hi) :
    ∃ on, Cur cfg B h off es path (rank es key) on ∧ ((∃ e ∈ es, e.1 = key) → on = true) := by
  induction hp generalizing lo hi es ps with
  | @leaf off n l hn hl hso =>
    obtain ⟨hs, rfl⟩ := hr.leafEntries hn
    refine ⟨decide (countLt n.keys key < n.keys.length), ?_, ?_⟩
    · unfold rank; rw [zip_keys hs]; exact .leaf hn hs (countLt_le _ _)
    · rintro ⟨e, he, rfl⟩
      have hm := (List.of_mem_zip (a := e.1) (b := e.2) he).1
      obtain ⟨j, hj, hje⟩ := List.mem_iff_getElem.1 hm
      have : ¬ j < countLt n.keys e.1 := by
        rw [← sorted_lt_countLt hso _ j hj, hje]; exact KeyLt.irrefl _
      simp only [decide_eq_true_eq]; omega
  | @step h off n l p path hn hl hidx tp ih =>
    obtain ⟨n', qs, hn', rfl, hm⟩ := rep_iff.1 hr
    cases hn.unique hn'
    have hm' : MemRep cfg (Rep cfg B h) false n lo hi es qs := hm
    obtain ⟨hs, hkids⟩ := hm'.2.1 rfl
    obtain ⟨ks1, ks2, ptrs1, q, ptrs2, lo', hi', es1, es2, es3, ps1, ps2, ps3, a1, a2, a3, a4, a5, a6, a7, a8,
        a9, a10, a11, a12, a13⟩ := hkids.locate (goodR_rep cfg B h) key hlo hhi
    have hpq : p = q := by
      have hidx' := hidx
      rw [a2, ← a5, ← a6] at hidx'
      simp at hidx'
      exact hidx'.symm
    subst hpq
    obtain ⟨on, c1, c2⟩ := ih a8 a10 a11
    obtain ⟨L1, f1, g1⟩ := a7.fam
    obtain ⟨L3, f3, g3⟩ := a9.fam
    have hL : Fam cfg B h n.intPtrs (L1 ++ es2 :: L3) := by rw [a2]; exact f1.append (f3.cons a8)
    have hL1 : L1.length = childIdx n.keys key := by rw [f1.1, a6, a5]
    have hes : es = (L1 ++ es2 :: L3).flatten := by rw [a3, g1, g3]; simp
    refine ⟨on, ?_, ?_⟩
    · have := Cur.step (ptr := ⟨off, l⟩) hn hs hL hidx (e := es2) (by rw [← hL1]; simp) c1
      rw [← hes] at this
      have hrank : rank es key = (List.take (childIdx n.keys key) (L1 ++ es2 :: L3)).flatten.length + rank es2 key := by
        rw [← hL1, List.take_left, ← g1, a3, rank_append, rank_append, rank_all a12, rank_none a13]; omega
      rw [hrank]; exact this
    · rw [a3]
      rintro ⟨e, he, rfl⟩
      rcases List.mem_append.1 he with he | he
      · exact absurd (a12 e he) (KeyLt.irrefl _)
      · rcases List.mem_append.1 he with he | he
        · exact c2 ⟨e, he, rfl⟩
        · exact absurd (a13 e he) (KeyLt.irrefl _)

theorem Cur.zero {cfg B h off es path on} {i : Nat} (hc : Cur cfg B h off es path i on) (h0 : i = 0) : on = true := by
  induction hc with
  | leaf hn hs hj => subst h0; simpa using hn.ok.1
  | step hn hs hL hp he t ih => exact ih (by omega)

theorem Cur.ne {cfg B h off es path i on} (hc : Cur cfg B h off es path i on) : path ≠ [] := by cases hc <;> simp

/-- Whether the head record stands on an entry. -/
theorem Cur.head {cfg B h off es path i on} (hc : Cur cfg B h off es path i on) :
    ∃ r rest, path = r :: rest ∧ decide (r.index ≠ r.node.numPointers) = on := by
  induction hc with
  | @leaf off n ptr j hn hs hj =>
    refine ⟨_, _, rfl, ?_⟩
    rw [numPointers_leaf hs, decide_eq_decide]
    simp only
    omega
  | step hn hs hL hp he t ih =>
    obtain ⟨r, rest, h1, h2⟩ := ih
    exact ⟨r, _, by rw [h1]; rfl, h2⟩

/-- The iterator `it` stands at position `i` of the tree's entries. -/
def IterAt (t : Tree) (s : PF) (it : Iter) (es : List Entry) (i : Nat) (on : Bool) : Prop :=
  it.err = none ∧ ∃ h off path, it.records = some path ∧ Cur t.cfg s.file.bytes h off es path i on

theorem IterAt.upd {t s it es i on} (h : IterAt t s it es i on) (p : Nat) : IterAt t (s.upd s.file.bytes p) it es i on := h

theorem IterAt.le {t s it es i on} (h : IterAt t s it es i on) : i ≤ es.length ∧ (on = true → i < es.length) := by
  obtain ⟨_, _, _, _, _, hc⟩ := h; exact hc.le

theorem IterAt.cur {t s it es i} (h : IterAt t s it es i true) {k v} (hk : es[i]? = some (k, v)) :
    it.curKey = some k ∧ it.curPointer = some v := by
  obtain ⟨_, h', off, path, hr, hc⟩ := h
  obtain ⟨r, rest, j, k', v', h1, h2, h3, h4, h5⟩ := hc.entry rfl
  rw [hk] at h5
  cases h5
  unfold Iter.curKey Iter.curPointer
  rw [hr, h1]
  simp only [h2]
  rw [if_neg (by omega), if_neg (by omega), Int.toNat_natCast]
  exact ⟨h3, h4⟩

theorem Cur.flat {cfg B h off es path on} {i : Nat} (hc : Cur cfg B h off es path i on) (h0 : h = 0) (hi : i < es.length) :
    on = true := by
  cases hc with
  | leaf hn hs hj =>
    rw [List.length_zip, hs.1, Nat.min_self] at hi
    simpa using hi
  | step => omega

/-- The first positioning finds the entry at the rank of the key: the key is stored, or all entries fit on one page and
the key is not behind the last one. -/
def Hit (t : Tree) (es : List Entry) (key : RV) : Prop :=
  (∃ e ∈ es, e.1 = key) ∨ (leafBytes t.cfg.width es ≤ pageSize ∧ rank es key < es.length)

theorem Hit.on {t : Tree} {es : List Entry} {key : RV} {cfg B h off path on} (hh : Hit t es key)
    (hbig : h ≠ 0 → pageSize < leafBytes t.cfg.width es)
    (hc : Cur cfg B h off es path (rank es key) on) (hmem : (∃ e ∈ es, e.1 = key) → on = true) : on = true := by
  rcases hh with hh | ⟨h1, h2⟩
  · exact hmem hh
  · refine hc.flat ?_ h2
    rcases Nat.eq_zero_or_pos h with h | h
    · exact h
    · have := hbig (by omega); omega

/-- First positioning of an iterator on a tree that is not empty. -/
theorem init_path {t : Tree} {s : PF} {free es ps} (ht : TreeIs t s free es ps) (hne : es ≠ []) (key : RV) :
    ∃ h off n path p, h < fuel s ∧ Rep t.cfg s.file.bytes h off none none es ps ∧ NodeAt t.cfg s.file.bytes off n ∧
      off = (MemPtr.decode (slice s.file.bytes t.rootPos 12)).offset ∧
      (h ≠ 0 → pageSize < leafBytes t.cfg.width es) ∧ PathTo t.cfg s.file.bytes key h off path ∧
      (iter key).init t s = (.ok (true, ⟨key, some path, none⟩), s.upd s.file.bytes p) := by
  have hin := ht.slotInside
  rcases ht.root with ⟨h0, h1, _⟩ | ⟨h0, h, hr, hbig, _⟩
  · exact absurd h1 hne
  · obtain ⟨n, hn⟩ := hr.node
    obtain ⟨p0, hroot⟩ := root_some (t := t) hin ht.slot h0 hn
    generalize hmp : MemPtr.decode (slice s.file.bytes t.rootPos 12) = mp at *
    have hfuel : h < fuel s := by
      have := hr.height_lt
      have := pages_count ht.nodup hr.pages
      unfold fuel; omega
    obtain ⟨off, l⟩ := mp
    obtain ⟨path, p1, htr, hpath⟩ := traverse_ok (t := t) (key := key) (s := s.upd s.file.bytes p0) (l := l)
      hr hn hfuel (fun l hl => by cases hl) (fun l hl => by cases hl)
    simp only [upd_bytes, upd_upd] at htr hpath
    refine ⟨h, off, n, path, p1, hfuel, hr, hn, rfl, hbig, hpath, ?_⟩
    unfold Iter.init
    rw [hroot]
    simp only [iter]
    rw [show fuel (s.upd s.file.bytes p0) = fuel s from rfl, htr]

/-- First positioning of an iterator. -/
theorem init_ok {t : Tree} {s : PF} {free es ps} (ht : TreeIs t s free es ps) (key : RV) :
    (es = [] ∧ ∃ p, (iter key).init t s = (.ok (false, iter key), s.upd s.file.bytes p)) ∨
    (es ≠ [] ∧ ∃ it p on, (iter key).init t s = (.ok (true, it), s.upd s.file.bytes p) ∧
      IterAt t s it es (rank es key) on ∧ (Hit t es key → on = true)) := by
  by_cases hne : es = []
  · subst hne
    left
    rcases ht.root with ⟨h0, _, _⟩ | ⟨h0, h, hr, hbig, _⟩
    · refine ⟨rfl, t.rootPos + 12, ?_⟩
      unfold Iter.init
      rw [root_none ht.slotInside ht.slot (by rw [h0])]
    · exact absurd rfl hr.nonempty
  · right
    obtain ⟨h, off, n, path, p, _, hr, hn, _, hbig, hpath, hrun⟩ := init_path ht hne key
    obtain ⟨on, c1, c2⟩ := hpath.cur hr (fun l hl => by cases hl) (fun l hl => by cases hl)
    exact ⟨hne, ⟨key, some path, none⟩, p, on, hrun, ⟨rfl, h, off, path, rfl, c1⟩, fun hh => hh.on hbig c1 c2⟩

/-- The first `Next`. -/
theorem next_first {t : Tree} {s : PF} {free es ps} (ht : TreeIs t s free es ps) (key : RV) :
    ∃ it p on, (iter key).next t s = (.ok (on, it), s.upd s.file.bytes p) ∧ it.err = none ∧
      (es ≠ [] → IterAt t s it es (rank es key) on) ∧ (es = [] → on = false) ∧ (Hit t es key → on = true) := by
  unfold Iter.next
  rcases init_ok ht key with ⟨rfl, p, hi⟩ | ⟨hne, it, p, on, hi, hat, hmem⟩
  · refine ⟨iter key, p, false, ?_, rfl, by simp, by simp, fun hh => by simp [Hit] at hh⟩
    simp only [iter] at *
    rw [Act.bind_ok hi]; rfl
  · refine ⟨it, p, on, ?_, hat.1, fun _ => hat, fun h => absurd h hne, hmem⟩
    obtain ⟨he, h, off, path, hrec, hc⟩ := hat
    obtain ⟨r, rest, h1, h2⟩ := hc.head
    simp only [iter] at *
    rw [Act.bind_ok hi]
    simp only [if_true, hrec, h1]
    rw [h2]; rfl

theorem iter_eta (it : Iter) (rs : List TRec) (h : it.err = none) :
    ({ it with records := some rs, err := match (none : Option Err) with | some e => some e | none => it.err } : Iter)
      = { it with records := some rs } := rfl

/-- `Next` from a position. -/
theorem next_step {t : Tree} {s : PF} {it es i on} (h : IterAt t s it es i on) :
    ((if on then i + 1 else i) < es.length → ∃ it' p, it.next t s = (.ok (true, it'), s.upd s.file.bytes p) ∧
      IterAt t s it' es (if on then i + 1 else i) true) ∧
    (es.length ≤ (if on then i + 1 else i) → ∃ it' p, it.next t s = (.ok (false, it'), s.upd s.file.bytes p) ∧ it'.err = none) := by
  obtain ⟨he, h, off, path, hrec, hc⟩ := h
  obtain ⟨hA, hB⟩ := incr_next hc
  unfold Iter.next Iter.step
  rw [hrec]
  simp only
  constructor
  · intro hlt
    obtain ⟨path', q, h1, h2⟩ := hA hlt
    have h1' := h1 []
    simp only [List.append_nil] at h1'
    exact ⟨{ it with records := some path' }, q, by rw [Act.bind_ok h1']; rfl, ⟨he, h, off, path', rfl, h2⟩⟩
  · intro hge
    obtain ⟨⟨path', h1⟩, _⟩ := hB hge
    have h1' := h1 [] [] none s rfl
    simp only [List.append_nil] at h1'
    exact ⟨{ it with records := some path' }, s.file.pos, by rw [Act.bind_ok h1']; rfl, he⟩

/-- `Prev` from a position. -/
theorem step_prev {t : Tree} {s : PF} {it es i on} (h : IterAt t s it es i on) {rs : List TRec} (hrs : it.records = some rs) :
    (1 ≤ i → ∃ it' p, it.step t (-1) rs s = (.ok (true, it'), s.upd s.file.bytes p) ∧
      IterAt t s it' es (i - 1) true) ∧
    (i = 0 → ∃ it' p, it.step t (-1) rs s = (.ok (false, it'), s.upd s.file.bytes p) ∧ it'.err = none) := by
  obtain ⟨he, h, off, path, hrec, hc⟩ := h
  rw [hrs] at hrec
  cases hrec
  obtain ⟨hA, hB⟩ := incr_prev hc
  unfold Iter.step
  constructor
  · intro hlt
    obtain ⟨path', q, h1, h2⟩ := hA hlt
    have h1' := h1 []
    simp only [List.append_nil] at h1'
    exact ⟨{ it with records := some path' }, q, by rw [Act.bind_ok h1']; rfl, ⟨he, h, off, path', rfl, h2⟩⟩
  · intro hge
    obtain ⟨⟨path', h1⟩, _⟩ := hB hge
    have h1' := h1 [] [] none s rfl
    simp only [List.append_nil] at h1'
    exact ⟨{ it with records := some path' }, s.file.pos, by rw [Act.bind_ok h1']; rfl, he⟩

theorem prev_step {t : Tree} {s : PF} {it es i on} (h : IterAt t s it es i on) :
    (1 ≤ i → ∃ it' p, it.prev t s = (.ok (true, it'), s.upd s.file.bytes p) ∧
      IterAt t s it' es (i - 1) true) ∧
    (i = 0 → ∃ it' p, it.prev t s = (.ok (false, it'), s.upd s.file.bytes p) ∧ it'.err = none) := by
  obtain ⟨rs, hrs⟩ : ∃ rs, it.records = some rs := by obtain ⟨_, _, _, path, hrec, _⟩ := h; exact ⟨path, hrec⟩
  unfold Iter.prev
  rw [hrs]
  exact step_prev h hrs

theorem prev_first {t : Tree} {s : PF} {free es ps} (ht : TreeIs t s free es ps) (key : RV) :
    (1 ≤ rank es key → ∃ it p, (iter key).prev t s = (.ok (true, it), s.upd s.file.bytes p) ∧
      IterAt t s it es (rank es key - 1) true) ∧
    (rank es key = 0 → ∃ it p, (iter key).prev t s = (.ok (false, it), s.upd s.file.bytes p) ∧ it.err = none) := by
  unfold Iter.prev
  rcases init_ok ht key with ⟨rfl, p, hi⟩ | ⟨hne, it, p, on, hi, hat, hmem⟩
  · refine ⟨fun h => by simp [rank, countLt] at h, fun _ => ⟨iter key, p, ?_, rfl⟩⟩
    simp only [iter] at *
    rw [Act.bind_ok hi]; rfl
  · obtain ⟨rs, hrs⟩ : ∃ rs, it.records = some rs := by obtain ⟨_, _, _, path, hrec, _⟩ := hat; exact ⟨path, hrec⟩
    obtain ⟨hA, hB⟩ := step_prev (hat.upd p) hrs
    simp only [upd_bytes, upd_upd] at hA hB
    constructor
    · intro h
      obtain ⟨it', q, h1, h2⟩ := hA h
      refine ⟨it', q, ?_, h2⟩
      simp only [iter] at *
      rw [Act.bind_ok hi]
      simp only [if_true, hrs]
      exact h1
    · intro h
      obtain ⟨it', q, h1, h2⟩ := hB h
      refine ⟨it', q, ?_, h2⟩
      simp only [iter] at *
      rw [Act.bind_ok hi]
      simp only [if_true, hrs]
      exact h1

theorem nextRun_from {t : Tree} {s : PF} {es : List Entry} : ∀ (n : Nat) {it i}, IterAt t s it es i true → es.length - i = n →
    NextRun t it s (es.drop (i + 1)) := by
  intro n
  induction n generalizing s with
  | zero => intro it i h hn; have := h.le.2 rfl; omega
  | succ n ih =>
    intro it i h hn
    obtain ⟨hA, hB⟩ := next_step h
    simp only [if_true] at hA hB
    by_cases hlt : i + 1 < es.length
    · obtain ⟨it', p, h1, h2⟩ := hA hlt
      rw [List.drop_eq_getElem_cons hlt]
      have hc := h2.cur (k := es[i + 1].1) (v := es[i + 1].2) (List.getElem?_eq_getElem hlt)
      exact .step h1 hc.1 hc.2 (ih (h2.upd p) (by omega))
    · obtain ⟨it', p, h1, h2⟩ := hB (by omega)
      rw [List.drop_of_length_le (by omega)]
      exact .stop h1 h2

theorem prevRun_from {t : Tree} {s : PF} {es : List Entry} : ∀ (i : Nat) {it on}, IterAt t s it es i on →
    PrevRun t it s (es.take i).reverse := by
  intro i
  induction i generalizing s with
  | zero =>
    intro it on h
    obtain ⟨it', p, h1, h2⟩ := (prev_step h).2 rfl
    simp only [List.take_zero, List.reverse_nil]
    exact .stop h1 h2
  | succ i ih =>
    intro it on h
    obtain ⟨it', p, h1, h2⟩ := (prev_step h).1 (by omega)
    rw [Nat.add_sub_cancel] at h2
    have hlt := h2.le.2 rfl
    rw [List.take_succ_eq_append_getElem hlt, List.reverse_append, List.reverse_singleton, List.singleton_append]
    have hc := h2.cur (k := es[i].1) (v := es[i].2) (List.getElem?_eq_getElem hlt)
    exact .step h1 hc.1 hc.2 (ih (h2.upd p))

/-- Forward from a key that is stored or below all keys. -/
theorem nextRun_of {t : Tree} {s : PF} {free es ps} (ht : TreeIs t s free es ps) (key : RV)
    (h : Hit t es key ∨ rank es key = 0) : NextRun t (iter key) s (es.drop (rank es key)) := by
  obtain ⟨it, p, on, h1, h2, h3, h4, h5⟩ := next_first ht key
  by_cases hes : es = []
  · subst hes
    rw [h4 rfl] at h1
    simp only [List.drop_nil]
    exact .stop h1 h2
  · have hat := h3 hes
    have hon : on = true := by
      rcases h with h | h
      · exact h5 h
      · obtain ⟨_, _, _, _, _, hc⟩ := hat; exact hc.zero h
    subst hon
    have hlt := hat.le.2 rfl
    rw [List.drop_eq_getElem_cons hlt]
    have hc := hat.cur (k := es[rank es key].1) (v := es[rank es key].2) (List.getElem?_eq_getElem hlt)
    exact .step h1 hc.1 hc.2 (nextRun_from _ (hat.upd p) rfl)

theorem prevRun_of {t : Tree} {s : PF} {free es ps} (ht : TreeIs t s free es ps) (key : RV) :
    PrevRun t (iter key) s (es.take (rank es key)).reverse := by
  obtain ⟨hA, hB⟩ := prev_first ht key
  by_cases h0 : rank es key = 0
  · obtain ⟨it, p, h1, h2⟩ := hB h0
    rw [h0]
    simp only [List.take_zero, List.reverse_nil]
    exact .stop h1 h2
  · obtain ⟨i, hi⟩ : ∃ i, rank es key = i + 1 := ⟨rank es key - 1, by omega⟩
    rw [hi] at hA ⊢
    obtain ⟨it, p, h1, h2⟩ := hA (by omega)
    rw [Nat.add_sub_cancel] at h2
    have hlt := h2.le.2 rfl
    rw [List.take_succ_eq_append_getElem hlt, List.reverse_append, List.reverse_singleton, List.singleton_append]
    have hc := h2.cur (k := es[i].1) (v := es[i].2) (List.getElem?_eq_getElem hlt)
    exact .step h1 hc.1 hc.2 (prevRun_from _ (h2.upd p))

/-- `Find`: the entry at the rank of the key, or nothing. -/
theorem find_ok {t : Tree} {s : PF} {free es ps} (ht : TreeIs t s free es ps) (key : RV) :
    ∃ p on, (Hit t es key → on = true) ∧ (es ≠ [] → rank es key = 0 → on = true) ∧
      ((on = true ∧ ∃ k v, es[rank es key]? = some (k, v) ∧ t.find key s = (.ok (k, v), s.upd s.file.bytes p)) ∨
       (on = false ∧ t.find key s = (.ok (⟨⟨0, 0⟩, []⟩, ⟨0, 0⟩), s.upd s.file.bytes p))) := by
  obtain ⟨it, p, on, h1, h2, h3, h4, h5⟩ := next_first ht key
  refine ⟨p, on, h5, ?_, ?_⟩
  · intro hne h0
    obtain ⟨_, _, _, _, _, hc⟩ := h3 hne
    exact hc.zero h0
  · unfold Tree.find
    cases on with
    | false =>
      right
      refine ⟨rfl, ?_⟩
      rw [Act.bind_ok h1]
      simp only [Bool.not_false, if_true, h2]
      rfl
    | true =>
      left
      refine ⟨rfl, ?_⟩
      have hne : es ≠ [] := fun h => by have := h4 h; simp at this
      have hat := h3 hne
      have hlt := hat.le.2 rfl
      have hc := hat.cur (k := es[rank es key].1) (v := es[rank es key].2) (List.getElem?_eq_getElem hlt)
      refine ⟨es[rank es key].1, es[rank es key].2, List.getElem?_eq_getElem hlt, ?_⟩
      rw [Act.bind_ok h1]
      simp only [Bool.not_true, Bool.false_eq_true, if_false, hc.1, hc.2]
      rfl

end Appendable
