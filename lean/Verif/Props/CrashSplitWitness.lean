import Verif.Props.CrashSplit
import Verif.Props.TreeWitness
/-! A case that meets the hypotheses of C38_split_violated. -/
namespace Appendable
open Spec Tree
namespace Demo

theorem inserts_append (t : Tree) (a b : List (RV × MemPtr)) (s : PF) : inserts t (a ++ b) s = (inserts t a s).bind (inserts t b) := by
  induction a generalizing s with
  | nil => rfl
  | cons e a ih =>
    rw [List.cons_append, inserts, inserts]
    generalize t.insert e.1 e.2 s = r
    obtain ⟨r, s1⟩ := r
    cases r with
    | ok u => exact ih s1
    | err e => rfl
    | panic => rfl

theorem bind_inserts (o : Option PF) (t : Tree) (x y z : RV × MemPtr) :
    o.bind (inserts t [x, y, z]) = (o.bind (inserts t [x, y])).bind (inserts t [z]) := by
  cases o with
  | none => rfl
  | some s => exact inserts_append t [x, y] [z] s

/-- Inserting the key 5 into the leaf with the keys 1 and 3 allocates a page. -/
theorem splits : ∃ s c s1, ForestRun [tree] s c ∧ c 0 = [ent 3, ent 1] ∧ tree.insert (key 5) (ptr 5) s = (.ok (), s1) ∧
    (s1.lastPage ≠ s.lastPage ∨ s1.count ≠ s.count) := by
  obtain ⟨s3, h1, _⟩ := opt_check (o := three) (f := check3) three_check
  obtain ⟨s, h2, h3⟩ := opt_check (o := two) (f := check2) two_check
  obtain ⟨c, hf, hc⟩ := two_run h2
  have h4 : three = two.bind (inserts tree [ent 5]) := bind_inserts start tree (ent 1) (ent 3) (ent 5)
  rw [h1, h2, Option.bind_some] at h4
  have hins : ∃ s1, tree.insert (key 5) (ptr 5) s = (.ok (), s1) := by
    rw [inserts] at h4
    generalize hr : tree.insert (key 5) (ptr 5) s = r
    have hr' : tree.insert (ent 5).1 (ent 5).2 s = r := hr
    rw [hr'] at h4
    obtain ⟨r, s1⟩ := r
    cases r with
    | ok u => exact ⟨s1, rfl⟩
    | err e => cases h4
    | panic => cases h4
  obtain ⟨s1, hs1⟩ := hins
  refine ⟨s, c, s1, hf, hc, hs1, Decidable.byContradiction fun hno => ?_⟩
  have hno1 : s1.lastPage = s.lastPage := Decidable.byContradiction fun h => hno (.inl h)
  have hno2 : s1.count = s.count := Decidable.byContradiction fun h => hno (.inr h)
  unfold check2 at h3
  generalize hr : tree.insert (key 5) (ptr 5) (crashAfter 2 s) = r at h3
  obtain ⟨r, sx⟩ := r
  cases r with
  | ok u => cases h3
  | panic => cases h3
  | err e =>
    cases e with
    | eof => cases h3
    | msg m => cases h3
    | io =>
      simp only at h3
      generalize ho : PF.openFile { sx.file with budget := none } = o at h3
      obtain ⟨o, f'⟩ := o
      cases o with
      | err e => cases h3
      | panic => cases h3
      | ok s2 =>
        simp only at h3
        obtain ⟨s2', ho', hall⟩ := C38_crash_partial (i := 0) (t := tree) (v := ptr 5) hf rfl (keyOK 5) (by rw [hc]; simp) hs1 hno1 hno2 2
          (f := { sx.file with budget := none }) (by rw [hr]) rfl
        rw [ho] at ho'
        cases ho'
        obtain ⟨q, hq⟩ := hall 0 tree (ent 3) rfl (by rw [hc]; simp)
        rw [show (ent 3).1 = key 3 from rfl] at hq
        rw [hq] at h3
        have h5 := eq_of_beq h3
        simp only [Res.ok.injEq] at h5
        have h6 := congrArg (fun x => x.2.offset) h5
        simp [ent, ptr] at h6
end Demo

example : ∃ (ts : List Tree) (s s1 : PF) (c : Nat → List (RV × MemPtr)) (t : Tree) (k : RV) (v : MemPtr), ForestRun ts s c ∧ ts[0]? = some t ∧
    KeyOK t.cfg k ∧ c 0 ≠ [] ∧ t.insert k v s = (.ok (), s1) ∧ (s1.lastPage ≠ s.lastPage ∨ s1.count ≠ s.count) := by
  obtain ⟨s, c, s1, h1, h2, h3, h4⟩ := Demo.splits
  exact ⟨[Demo.tree], s, s1, c, Demo.tree, Demo.key 5, Demo.ptr 5, h1, rfl, Demo.keyOK 5, by rw [h2]; simp, h3, h4⟩

end Appendable
