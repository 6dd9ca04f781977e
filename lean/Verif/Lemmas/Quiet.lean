import Verif.Model.IndexFile
/-! Calls that do not change the bytes of the file. -/
namespace Appendable
open Tree

/-- `a` never changes the bytes of the file. -/
def Quiet {α : Type} (a : Act PF α) : Prop := ∀ s, (a s).2.file.bytes = s.file.bytes

section
variable {α β : Type}
theorem Quiet.pure (a : α) : Quiet (Pure.pure a : Act PF α) := fun _ => rfl
theorem Quiet.throw (e : Err) : Quiet (Act.throw e : Act PF α) := fun _ => rfl
theorem Quiet.crash : Quiet (Act.crash : Act PF α) := fun _ => rfl
theorem Quiet.lift (r : Res α) : Quiet (Act.lift r : Act PF α) := fun _ => rfl
theorem Quiet.bind {a : Act PF α} {f : α → Act PF β} (h : Quiet a) (g : ∀ x, Quiet (f x)) : Quiet (a >>= f) := by
  intro s
  rw [Act.bind_def]
  have := h s
  split
  · rename_i x s' he; rw [he] at this; exact (g x s').trans this
  · rename_i x s' he; rw [he] at this; exact this
  · rename_i s' he; rw [he] at this; exact this
theorem Quiet.ite {p : Prop} [Decidable p] {a b : Act PF α} (h : Quiet a) (g : Quiet b) : Quiet (if p then a else b) := by
  split
  · exact h
  · exact g
end

theorem Quiet.seek (x : Int) : Quiet (PF.seek x) := by
  intro t
  unfold PF.seek PF.onFile File.seekStart File.seekAbs
  simp only
  split
  · split
    · rfl
    · split <;> rfl
  · rfl

theorem Quiet.read (n : Nat) : Quiet (PF.read n) := by
  unfold PF.read
  refine Quiet.bind (fun t => Quiet.seek _ t) (fun x => Quiet.ite Quiet.crash ?_)
  intro t
  unfold PF.onFile File.read
  simp only
  split
  · split <;> rfl
  · split <;> rfl

theorem Quiet.lpMetadata (m : LP) : Quiet m.metadata := by
  unfold LP.metadata
  refine Quiet.ite (Quiet.throw _) (Quiet.bind (Quiet.seek _) fun _ => Quiet.bind (Quiet.read _) ?_)
  rintro ⟨d, eof⟩
  refine Quiet.ite (Quiet.throw _) ?_
  simp only
  split
  · exact Quiet.crash
  · exact Quiet.ite Quiet.crash (Quiet.pure _)

theorem Quiet.fileMetadata (i : IndexFile) : Quiet i.metadata := by
  unfold IndexFile.metadata
  exact Quiet.bind (Quiet.lpMetadata _) (fun _ => Quiet.lift _)

end Appendable
