import Verif.Props.CrashFirst
/-! A case that meets the hypotheses of C38_first_partial: two trees, one of them with an entry, and the first insert into the other. -/
namespace Appendable
open Spec Tree
namespace DemoFirst

/-- Two trees for values of one byte, with root slots on the first page. -/
def treeA : Tree := ⟨⟨[], id, 2⟩, 4096⟩
def treeB : Tree := ⟨⟨[], id, 2⟩, 4108⟩

/-- The opened file, after allocating a page, after an insert into the first tree. -/
def s0 : PF := match (PF.openFile ⟨.buffer, [], 0, none⟩).1 with | .ok s => s | _ => ⟨⟨.buffer, [], 0, none⟩, [], 0, 0, 0⟩
def s1 : PF := (PF.newPage none s0).2
def s2 : PF := (treeA.insert ⟨⟨1, 1⟩, [1]⟩ ⟨2, 2⟩ s1).2

theorem run0 : AllocRun s0 [] [] 0 :=
  .opened (f := ⟨.buffer, [], 0, none⟩) (f' := (PF.openFile ⟨.buffer, [], 0, none⟩).2) rfl rfl (by
    obtain ⟨s, h, _⟩ := openFile_empty ⟨.buffer, [], 0, none⟩ rfl rfl
    unfold s0
    rw [h])

set_option maxRecDepth 100000 in
theorem page : PF.newPage none s0 = (.ok 4096, s1) := by
  have h : (PF.newPage none s0).1 = .ok 4096 := by decide +kernel
  unfold s1
  rw [← h]

set_option maxRecDepth 100000 in
theorem zeros : slice s1.file.bytes 4096 12 = List.replicate 12 0 ∧ slice s1.file.bytes 4108 12 = List.replicate 12 0 := by decide +kernel

theorem run1 : ForestRun [treeA, treeB] s1 (fun _ => []) := by
  refine .start (.new run0 page) ⟨by decide, by decide⟩ ?_ ?_ <;> intro t ht
  all_goals simp only [List.mem_cons, List.not_mem_nil, or_false] at ht
  · rcases ht with rfl | rfl <;> (unfold WidthOK; decide)
  rcases ht with rfl | rfl
  · exact ⟨by decide, zeros.1⟩
  · exact ⟨by decide, zeros.2⟩

set_option maxRecDepth 100000 in
theorem ins1 : treeA.insert ⟨⟨1, 1⟩, [1]⟩ ⟨2, 2⟩ s1 = (.ok (), s2) := by
  have h : (treeA.insert ⟨⟨1, 1⟩, [1]⟩ ⟨2, 2⟩ s1).1 = .ok () := by decide +kernel
  unfold s2
  rw [← h]

theorem run2 : ForestRun [treeA, treeB] s2 (setAt (fun _ => []) 0 [(⟨⟨1, 1⟩, [1]⟩, ⟨2, 2⟩)]) :=
  .insert (i := 0) run1 rfl (by decide) ins1

set_option maxRecDepth 100000 in
theorem ins2 : (treeB.insert ⟨⟨1, 1⟩, [1]⟩ ⟨2, 2⟩ s2).1 = .ok () := by decide +kernel

end DemoFirst

/-- Wherever the first insert into the second tree is interrupted, the entry of the first tree is found. -/
example (n : Nat) (f : File) (hb : f.bytes = (DemoFirst.treeB.insert ⟨⟨1, 1⟩, [1]⟩ ⟨2, 2⟩ (crashAfter n DemoFirst.s2)).2.file.bytes) (hu : f.budget = none) :
    ∃ s3, PF.openFile f = (.ok s3, s3.file) ∧ ∃ s4, DemoFirst.treeA.find ⟨⟨1, 1⟩, [1]⟩ s3 = (.ok (⟨⟨1, 1⟩, [1]⟩, ⟨2, 2⟩), s4) := by
  obtain ⟨s3, h1, h2⟩ := C38_first_partial (i := 1) (s1 := (DemoFirst.treeB.insert ⟨⟨1, 1⟩, [1]⟩ ⟨2, 2⟩ DemoFirst.s2).2) DemoFirst.run2 rfl (by decide) rfl
    (by rw [← DemoFirst.ins2]) n hb hu
  exact ⟨s3, h1, h2 0 DemoFirst.treeA (⟨⟨1, 1⟩, [1]⟩, ⟨2, 2⟩) rfl (by simp [setAt])⟩

end Appendable
