import Verif.Props.Stale
import Verif.Props.TsWitness
/-! A concrete history for `C90_split_violated`. -/
namespace Appendable
open Spec Tree

set_option maxRecDepth 100000 in
theorem bP_index : bP.index ≠ 0 := by decide +kernel

/-- The hypotheses of `C90_split_violated` are met: the 171st number does not fit into the one page of the index any more.  A client that
has read the fields before that insert loses some of the entries below 170 for ever, and a new client sees them. -/
example : ∃ s s' c, IndexRun wParse id bData wI s ⟨1, .jsonl, 0, 0⟩ [(bP, bM)] c ∧
    (treeAt bData wParse bM.width bP).insert (bEnt 170).1 (bEnt 170).2 s = (.ok (), s') ∧
    ∃ xs lost, (xs ++ lost).Perm (bEnt 170 :: c 0) ∧ lost ≠ [] ∧
      (∃ ys, Answer xs .le (bEnt 170).1.value .desc ys ∧ ∃ N, ∀ fuel, N ≤ fuel →
        ∃ headers, (TsClient.new.fields (serve s.file.bytes) fuel).1 = .ok headers ∧
          ((TsClient.new.fields (serve s.file.bytes) fuel).2.query (bDb s') fuel (fun b => .ok b) (bQuery .le .desc 170)).1 =
            rowsOf bData .ok ys) ∧
      (∃ ys, Answer (bEnt 170 :: c 0) .le (bEnt 170).1.value .desc ys ∧
        Returns (bDb s') (fun b => .ok b) (bQuery .le .desc 170) (rowsOf bData .ok ys)) := by
  obtain ⟨s, c, h1, h2, h3⟩ := bSteps 170 (by omega)
  have hi := (indexRun_is smallWidths_id h1).1
  have hb := bLen 170 (by omega)
  rw [← h3] at hb
  have hne : c 0 ≠ [] := by
    intro h0; rw [h0] at hb; simp [leafBytes] at hb
  rcases hi.insert (k := 0) (p := bP) (m := bM) (key := (bEnt 170).1) rfl (bEnt 170).2 (bEnt_ok 170) with
    ⟨s', e1, _, _, _, e2⟩ | ⟨q, _, e, he, hke⟩ | ⟨s', _, _, e3⟩
  · have hlen : s'.file.bytes.length ≤ 2 ^ 31 := by
      rcases e2 with e2 | e2
      · unfold pageSize at e2; omega
      · exfalso
        have e2' : pageSize < leafBytes 9 (c 0) := e2
        rw [hb] at e2'
        unfold pageSize at e2'; omega
    have hall : setAt c 0 (((bEnt 170).1, (bEnt 170).2) :: c 0) 0 = ((List.range' 0 171).map bEnt).reverse := by
      rw [List.range'_1_concat]
      simp [setAt, h3]
    have moved : slice s'.file.bytes bP.rootPos.toNat 12 ≠ slice s.file.bytes bP.rootPos.toNat 12 := by
      obtain ⟨free0, ps0, cnt0, E0, P0, g1, g2, g3⟩ := hi.treeAt
      obtain ⟨ti, tw, tp⟩ := g1.forest.tree 0 _ (g3 0 bP bM rfl)
      refine insert_moves (t := treeAt bData wParse bM.width bP) tw.vlen (bEnt_ok 170) ti ?_ e1 ?_ ?_
      · intro h0; rw [h0] at tp; exact hne (List.nil_perm.1 tp)
      · rw [leafBytes_perm tp]
        show leafBytes 9 (c 0) ≤ pageSize
        rw [hb]; unfold pageSize; omega
      · rw [leafBytes_perm (tp.cons _)]
        have : leafBytes 9 (setAt c 0 (((bEnt 170).1, (bEnt 170).2) :: c 0) 0) = 4 + 24 * 171 := by rw [hall]; exact bLen 171 (by omega)
        show pageSize < leafBytes 9 (setAt c 0 (((bEnt 170).1, (bEnt 170).2) :: c 0) 0)
        rw [this]; unfold pageSize; omega
    obtain ⟨xs, lost, a1, a2, _, ⟨ys, a3, N, a4⟩, a5⟩ := C90_split_violated (k := 0) (p := bP) (m := bM) smallWidths_id h1 rfl
      (fun x hx => by rw [List.mem_singleton.1 hx]; exact bP_index) rfl hne (bEnt_ok 170) e1 moved (serve s.file.bytes) (serve_faithful _)
      (bServed hlen hall .le .desc (n := 170) (by omega)) (.inr rfl) rfl (fun b => .ok b)
    refine ⟨s, s', c, h1, e1, xs, lost, a1, a2, ⟨ys, a3, max N 1, fun fuel hfu => ?_⟩, a5⟩
    have hh := hi.tsHeaders (serve_faithful s.file.bytes) (by simp) fuel (by simp; omega)
    have hf := ((AsNew.new (serve s.file.bytes) fuel).fields.2 _).2 hh
    exact ⟨_, hf, a4 fuel (by omega) TsClient.new _ _ .start hf .start⟩
  · exfalso
    rw [h3, List.mem_reverse, List.mem_map] at he
    obtain ⟨j, hj, rfl⟩ := he
    have hj' : j < 170 := by simpa using hj
    have := bInj (n := j) (n' := 170) (by omega) (by omega) (by rw [hke])
    omega
  · exfalso
    unfold pageSize at e3
    omega

end Appendable
