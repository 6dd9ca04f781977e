import Verif.Props.CrashSplit
/-! Which inserts allocate a page. -/
namespace Appendable
open Spec Tree

/-- A successful insert into a tree with entries: the new entry goes into one leaf, and the loop of `Insert` starts with that leaf. -/
theorem insert_leaf {t : Tree} {k : RV} {v : MemPtr} {s s1 : PF} {free : List Nat} {es : List Entry} {ps : List Nat}
    (hk : KeyOK t.cfg k) (ht : TreeIs t s free es ps) (hne : es ≠ []) (hrun : t.insert k v s = (.ok (), s1)) :
    ∃ (tr : TRec) (rest0 : List TRec) (nn : Node) (esL esM esR es' : List Entry) (lo' hi' : Option RV) (p1 : Nat),
      t.insertLoop { tr with node := nn } rest0 (s.upd s.file.bytes p1) = (.ok (), s1) ∧ tr.ptr.offset.toNat ∈ ps ∧
      MemRep t.cfg (fun _ _ _ _ _ => False) true nn lo' hi' es' [] ∧ InsRel esM k v es' ∧ es = esL ++ (esM ++ esR) ∧ 0 < nn.keys.length := by
  have hin := ht.slotInside
  have hv := ht.valid
  rcases ht.root with ⟨_, h1, _⟩ | ⟨h0, h, hr, _⟩
  · exact absurd h1 hne
  obtain ⟨nd, hn⟩ := hr.node
  obtain ⟨p0, hroot⟩ := root_some (t := t) hin ht.slot h0 hn
  generalize hmp : MemPtr.decode (slice s.file.bytes t.rootPos 12) = mp at *
  have hfuel : h < fuel s := by
    have := hr.height_lt
    have := pages_count ht.nodup hr.pages
    unfold fuel; omega
  obtain ⟨off, l⟩ := mp
  obtain ⟨path, p1, htr, hpath⟩ := traverse_ok (t := t) (key := k) (s := s.upd s.file.bytes p0) (l := l)
    hr hn hfuel (fun l hl => by cases hl) (fun l hl => by cases hl)
  simp only [upd_bytes, upd_upd] at htr hpath
  obtain ⟨tr, rest0, lo', hi', esL, esM, esR, e1, e2, e3, e4, e5, e6, e7, e8⟩ := hpath.replace (s := s.upd s.file.bytes p1) (free := free) hr
    (fun l hl => by cases hl) (fun l hl => by cases hl) ht.nodup ht.live
  subst e1
  obtain ⟨hsh, hes, _, hso, _, _⟩ := e5.1 rfl
  unfold Tree.insert at hrun
  rw [if_neg (widthCheck hk), Act.bind_ok hroot] at hrun
  simp only at hrun
  rw [Act.bind_ok (Act.get_run _), Act.bind_ok (by
    rw [show fuel (s.upd s.file.bytes p0) = fuel s from rfl, htr])] at hrun
  simp only at hrun
  rw [bsearch_spec hso] at hrun
  have hnm : k ∉ tr.node.keys := by
    intro hc
    rw [if_pos (by simpa using hc)] at hrun
    cases hrun
  rw [if_neg (by simpa using hnm)] at hrun
  obtain ⟨es', m1, m2, m3⟩ := leafInsert_memRep (v := v) e5 hk e6 e7 hnm
  refine ⟨tr, rest0, _, esL, esM, esR, es', lo', hi', p1, hrun, e3, m1, m2, e2, ?_⟩
  have := countLt_le tr.node.keys k
  simp only [leafInsert, List.length_append, List.length_cons]
  omega

/-- An insert that allocates nothing leaves the root pointer alone. -/
theorem noalloc_slot {t : Tree} {k : RV} {v : MemPtr} {s s1 : PF} {free : List Nat} {es : List Entry} {ps : List Nat}
    (hk : KeyOK t.cfg k) (ht : TreeIs t s free es ps) (hne : es ≠ []) (hrun : t.insert k v s = (.ok (), s1))
    (h1 : s1.lastPage = s.lastPage) (h2 : s1.count = s.count) : slice s1.file.bytes t.rootPos 12 = slice s.file.bytes t.rootPos 12 := by
  obtain ⟨tr, rest0, nn, esL, esM, esR, es', lo', hi', p1, g1, g2, g3, g4, g5, g6⟩ := insert_leaf hk ht hne hrun
  have hv1 := (Frame.upd_pos ht.valid ht.budget p1 []).valid
  obtain ⟨hsz, hs⟩ := insertLoop_single hv1 ht.budget g1 h1 h2
  have hsh := (g3.1 rfl).1
  have hok := nodeOK_of_size g6 (.inl hsh) g3.2.2 hsz
  obtain ⟨sb, w1, w2, _, _⟩ := writeNode_ok (t := t) hv1 ht.budget (ht.live _ g2) hok hsz
  rw [hs, w1] at g1
  cases g1
  have : Frame s free s1 free ps := by
    have := w2.weaken (Q := ps) (by intro x hx; rw [List.mem_singleton] at hx; exact hx ▸ g2)
    exact ⟨this.valid, this.budget, this.live, this.same, this.len⟩
  exact slot_same ht.slot ht.slotLive ht.slotOut this

/-- An insert after which all entries still fit on one page allocates nothing. -/
theorem insert_keeps {t : Tree} {k : RV} {v : MemPtr} {s s1 : PF} {free : List Nat} {es : List Entry} {ps : List Nat}
    (hk : KeyOK t.cfg k) (ht : TreeIs t s free es ps) (hne : es ≠ []) (hrun : t.insert k v s = (.ok (), s1))
    (hfit : leafBytes t.cfg.width ((k, v) :: es) ≤ pageSize) : s1.lastPage = s.lastPage ∧ s1.count = s.count := by
  obtain ⟨tr, rest0, nn, esL, esM, esR, es', lo', hi', p1, g1, g2, g3, g4, g5, g6⟩ := insert_leaf hk ht hne hrun
  have hsh := (g3.1 rfl).1
  have hes := (g3.1 rfl).2.1
  have hsz : nn.size t.cfg.width ≤ pageSize := by
    have h1 := leafBytes_zip (w := t.cfg.width) hsh
    rw [← hes, leafBytes_perm g4.perm] at h1
    rw [← h1]
    refine Nat.le_trans ?_ hfit
    rw [g5]
    unfold leafBytes
    simp only [List.map_cons, List.map_append, List.sum_cons, List.sum_append]
    omega
  have hw1 : t.insertLoop { tr with node := nn } rest0 (s.upd s.file.bytes p1) = t.writeNode tr.ptr.offset nn (s.upd s.file.bytes p1) := by
    rw [insertLoop_eq]
    unfold Tree.writeOrSplit
    simp only
    rw [if_neg (by omega), Act.bind_def, Act.bind_def]
    generalize t.writeNode tr.ptr.offset nn (s.upd s.file.bytes p1) = w
    obtain ⟨w, s2⟩ := w
    cases w <;> rfl
  have := KeepsAt.writeNode t tr.ptr.offset nn (s.upd s.file.bytes p1)
  rw [← hw1, g1] at this
  exact this

end Appendable
