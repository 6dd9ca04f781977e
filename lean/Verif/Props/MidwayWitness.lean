import Verif.Props.Midway
import Verif.Lemmas.Alloc2
import Verif.Props.StaleWitness
/-! Concrete histories for C110. -/
namespace Appendable
open Spec Tree

/-- One of the first 171 inserts of the example of `Props/TsWitness`. -/
theorem bInsert {n : Nat} (hn : n < 171) (h0 : 0 < n) : ∃ s s' c, IndexRun wParse id bData wI s ⟨1, .jsonl, 0, 0⟩ [(bP, bM)] c ∧ c 0 ≠ [] ∧
    c 0 = ((List.range' 0 n).map bEnt).reverse ∧ s.file.bytes.length ≤ 2 ^ 20 + n * 8192 ∧
    (treeAt bData wParse bM.width bP).insert (bEnt n).1 (bEnt n).2 s = (.ok (), s') := by
  obtain ⟨s, c, h1, h2, h3⟩ := bSteps n (by omega)
  have hi := (indexRun_is smallWidths_id h1).1
  have hb := bLen n (by omega)
  rw [← h3] at hb
  have hne : c 0 ≠ [] := by
    intro h; rw [h] at hb; simp [leafBytes] at hb; omega
  rcases hi.insert (k := 0) (p := bP) (m := bM) (key := (bEnt n).1) rfl (bEnt n).2 (bEnt_ok n) with
    ⟨s', e1, _⟩ | ⟨q, _, e, he, hke⟩ | ⟨s', _, _, e3⟩
  · exact ⟨s, s', c, h1, hne, h3, h2, e1⟩
  · exfalso
    rw [h3, List.mem_reverse, List.mem_map] at he
    obtain ⟨j, hj, rfl⟩ := he
    have hj' : j < n := by simpa using hj
    have := bInj (n := j) (n' := n) (by omega) (by omega) (by rw [hke])
    omega
  · exfalso
    unfold pageSize at e3
    omega

/-- The hypotheses of `C110_split_violated` are met: while the 171st number is inserted, an entry stored before is not to be seen. -/
example : ∃ s s' c, IndexRun wParse id bData wI s ⟨1, .jsonl, 0, 0⟩ [(bP, bM)] c ∧
    (treeAt bData wParse bM.width bP).insert (bEnt 170).1 (bEnt 170).2 s = (.ok (), s') ∧
    ∃ n, ∃ e ∈ c 0, ∃ ys, (∀ x ∈ ys, x.1 ≠ e.1) ∧
      Returns (bDb ((treeAt bData wParse bM.width bP).insert (bEnt 170).1 (bEnt 170).2 (crashAfter n s)).2) (fun b => .ok b)
        (bQuery .le .desc 170) (rowsOf bData .ok ys) := by
  obtain ⟨s, s', c, h1, hne, h3, h2, e1⟩ := bInsert (n := 170) (by omega) (by omega)
  have hi := (indexRun_is smallWidths_id h1).1
  obtain ⟨free0, ps0, cnt0, E0, P0, g1, g2, g3⟩ := hi.treeAt
  obtain ⟨ti, tw, tp⟩ := g1.forest.tree 0 _ (g3 0 bP bM rfl)
  have hne0 : E0 0 ≠ [] := by intro h0; rw [h0] at tp; exact hne (List.nil_perm.1 tp)
  have hall : setAt c 0 (((bEnt 170).1, (bEnt 170).2) :: c 0) 0 = ((List.range' 0 171).map bEnt).reverse := by
    rw [List.range'_1_concat]
    simp [setAt, h3]
  have hb := bLen 170 (by omega)
  rw [← h3] at hb
  have moved : slice s'.file.bytes bP.rootPos.toNat 12 ≠ slice s.file.bytes bP.rootPos.toNat 12 := by
    refine insert_moves (t := treeAt bData wParse bM.width bP) tw.vlen (bEnt_ok 170) ti hne0 e1 ?_ ?_
    · rw [leafBytes_perm tp]
      show leafBytes 9 (c 0) ≤ pageSize
      rw [hb]; unfold pageSize; omega
    · rw [leafBytes_perm (tp.cons _)]
      have : leafBytes 9 (setAt c 0 (((bEnt 170).1, (bEnt 170).2) :: c 0) 0) = 4 + 24 * 171 := by rw [hall]; exact bLen 171 (by omega)
      show pageSize < leafBytes 9 (setAt c 0 (((bEnt 170).1, (bEnt 170).2) :: c 0) 0)
      rw [this]; unfold pageSize; omega
  have hal : s'.lastPage ≠ s.lastPage ∨ s'.count ≠ s.count := by
    refine Decidable.byContradiction fun hc => moved ?_
    exact noalloc_slot (t := treeAt bData wParse bM.width bP) (bEnt_ok 170) ti hne0 e1
      (Decidable.byContradiction fun h => hc (.inl h)) (Decidable.byContradiction fun h => hc (.inr h))
  obtain ⟨n, xs, lost, _, ⟨e, a2, a3⟩, a4, a5⟩ := C110_split_violated (β := Bytes) (k := 0) (p := bP) (m := bM) smallWidths_id h1 rfl rfl hne
    (bEnt_ok 170) e1 hal
  obtain ⟨ys, b1, b2⟩ := a5 _ (bQuery .le .desc 170) .le _ (fun b => .ok b)
    (bServed (by unfold pageSize at a4; omega) hall .le .desc (n := 170) (by omega)) (.inr rfl) rfl
  exact ⟨s, s', c, h1, e1, n, e, a2, ys, fun x hx => a3 x ((b1.1 x).1 hx).1, b2⟩

/-- The hypotheses of `C110_oldnew_partial` are met: the inserts of the 101st number, say, allocates nothing. -/
example : ∃ s s' c, IndexRun wParse id bData wI s ⟨1, .jsonl, 0, 0⟩ [(bP, bM)] c ∧ c 0 ≠ [] ∧
    (treeAt bData wParse bM.width bP).insert (bEnt 100).1 (bEnt 100).2 s = (.ok (), s') ∧
    s'.lastPage = s.lastPage ∧ s'.count = s.count := by
  obtain ⟨s, s', c, h1, hne, h3, h2, e1⟩ := bInsert (n := 100) (by omega) (by omega)
  have hi := (indexRun_is smallWidths_id h1).1
  obtain ⟨free0, ps0, cnt0, E0, P0, g1, g2, g3⟩ := hi.treeAt
  obtain ⟨ti, tw, tp⟩ := g1.forest.tree 0 _ (g3 0 bP bM rfl)
  have hne0 : E0 0 ≠ [] := by intro h0; rw [h0] at tp; exact hne (List.nil_perm.1 tp)
  refine ⟨s, s', c, h1, hne, e1, insert_keeps (t := treeAt bData wParse bM.width bP) (bEnt_ok 100) ti hne0 e1 ?_⟩
  rw [leafBytes_perm (tp.cons _)]
  have : leafBytes 9 (bEnt 100 :: c 0) = 4 + 24 * 101 := by
    have h := bLen 101 (by omega)
    rw [List.range'_1_concat] at h
    rw [← h, h3]
    simp
  show leafBytes 9 (bEnt 100 :: c 0) ≤ pageSize
  rw [this]; unfold pageSize; omega

end Appendable
