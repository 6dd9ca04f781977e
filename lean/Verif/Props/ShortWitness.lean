import Verif.Props.Short
import Verif.Props.TsWitness
/-! A concrete case of C114 and C115. -/
namespace Appendable
open Spec Tree

/-- The hypothesis of C114 is met: the client of files that are cut short, and a request that fails. -/
example : FailsDb (cutDb 4096 100 wDb) wDb ∧ (cutDb 4096 100 wDb).idx [(4096, 8191)] = .err (.msg "416") ∧ wDb.idx [(4096, 8191)] ≠ .err (.msg "416") := by
  refine ⟨⟨fun r => ?_, fun r => ?_, rfl⟩, rfl, by simp [wDb, serve]⟩
  all_goals
    unfold cutDb upTo
    simp only
    split
    · exact .inl rfl
    · exact .inr ⟨_, rfl⟩

def sIns : Res Unit × PF := (treeAt bData wParse 9 bP).insert (bEnt 1).1 (bEnt 1).2 bFind.2

set_option maxRecDepth 100000 in
theorem sIns_ok : sIns.1.isOk = true := by decide +kernel

set_option maxRecDepth 100000 in
theorem sIns_root : (match (bP.root sIns.2).1 with | .ok r => decide (bP.offset.toNat < r.offset.toNat) | _ => false) = true := by decide +kernel

theorem sRun : ∃ c, IndexRun wParse id bData wI sIns.2 ⟨1, .jsonl, 0, 0⟩ [(bP, bM)] c ∧ c 0 = [bEnt 1] := by
  have e : (treeAt bData wParse 9 bP).insert (bEnt 1).1 (bEnt 1).2 bFind.2 = (.ok (), sIns.2) := by
    show sIns = _
    have h := sIns_ok
    generalize sIns = r at h ⊢
    obtain ⟨a, s⟩ := r
    cases a with
    | ok u => rfl
    | err e => simp [Res.isOk] at h
    | panic => simp [Res.isOk] at h
  exact ⟨_, IndexRun.insert (k := 0) (p := bP) (m := bM) (key := (bEnt 1).1) (v := (bEnt 1).2) bRun0 rfl (bEnt_ok 1) e, by simp [setAt]⟩

/-- C115 is violated: an index with one entry, and the answers of a client of the whole file and of a client of the file that is cut short. -/
theorem C115_concrete_violated : ∃ n c, n < sIns.2.file.bytes.length ∧ IndexRun wParse id bData wI sIns.2 ⟨1, .jsonl, 0, 0⟩ [(bP, bM)] c ∧
    (∃ xs, bEnt 1 ∈ xs ∧ Answer (c 0) .eq (bEnt 1).1.value .asc xs) ∧
    Returns ⟨serve (sIns.2.file.bytes.take n), serve bData, fun _ _ b => .ok b⟩ (fun b => .ok b) (bQuery .eq .asc 1) ⟨[], none⟩ := by
  obtain ⟨c, hr, hc⟩ := sRun
  obtain ⟨off, l, h1, h2, h3⟩ := C115_short_violated (k := 0) (p := bP) (m := bM) smallWidths_id hr rfl (by decide) rfl (by rw [hc]; simp)
    (by rw [hc]; have : (encKey 9 (bEnt 1).1).length + (encLeafPtr (bEnt 1).2).length = 24 := bEnt_len ⟨1, by omega⟩; simp only [leafBytes, List.map_cons, List.map_nil, List.sum_cons, List.sum_nil]; 
        have e : (bM.width : UInt16) = 9 := rfl
        rw [e]; omega)
  have hlt : bP.offset.toNat < off.toNat := by
    have := sIns_root
    rw [h1] at this
    simpa using this
  refine ⟨off.toNat + 4, c, by omega, hr, ⟨[bEnt 1], by simp, ?_⟩, ?_⟩
  · rw [hc]
    refine ⟨fun e => ?_, ?_⟩
    · simp only [List.mem_singleton]
      constructor
      · rintro rfl; exact ⟨rfl, rfl⟩
      · exact fun h => h.1
    · exact .cons (by simp) .nil
  · refine h3 (fun x hx => ?_) ⟨serve (sIns.2.file.bytes.take (off.toNat + 4)), serve bData, fun _ _ b => .ok b⟩ (bQuery .eq .asc 1) .eq [97]
      (.num 1) 3 (bEnt 1).1.value (fun b => .ok b) (serve_faithful _) rfl ?_ ⟨rfl, rfl, .inl rfl, fun j x hj => by omega⟩ (by simp [bEnt]) (.inl rfl)
    · obtain rfl : x = (bP, bM) := by simpa using hx
      exact hlt
    · simp only [tsProcessWhere, Option.some.injEq, Prod.mk.injEq, true_and]
      exact bBytes ⟨1, by omega⟩

end Appendable
