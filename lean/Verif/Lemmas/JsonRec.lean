import Verif.Lemmas.JsonDoc
/-! Lines of JSON. -/
namespace Appendable
open Spec

variable {num : Bytes → Option UInt64} {hs : List Bytes} {r : Rec}

theorem Spec.Rec.OK.line (h : r.OK num hs) : LineFields (goLex num) r.text (r.fields num) :=
  goLex_object h.pre h.doc (by have := Stops.ws h.post (rest := []) (by intro c hc; cases hc); rwa [List.append_nil] at this)

theorem Spec.Rec.OK.fieldAt (h : r.OK num hs) : ∀ f ∈ r.fields num, FieldAt num r.text f := by
  intro f hf
  have hd := h.doc
  unfold Doc.WF at hd
  unfold Rec.fields Doc.fields at hf
  refine Members.fieldAt r.members hd.2 h.tight (p := r.pre ++ (123 :: r.ws)) (r := r.post) (first := true) (path := []) ?_ f ?_
  · unfold Rec.text Doc.text; simp
  · have : (r.pre ++ (123 :: r.ws)).length = r.pre.length + 1 + r.ws.length := by simp only [List.length_append, List.length_cons]; omega
    rw [this]; exact hf

theorem Spec.Rec.OK.fields (h : r.OK num hs) : ∀ f ∈ r.fields num, FieldOK (goLex num) hs r.text f :=
  fun f hf => (h.fieldAt f hf).ok (h.names f hf) (h.search f hf)

theorem members_text_pos (ms : Members) (first : Bool) : 0 < (ms.text first).length := by
  cases ms with
  | nil => simp [Members.text]
  | cons => rw [Members.text]; simp only [List.length_append, List.length_cons]; omega

theorem rec_two (r : Rec) : 2 ≤ r.text.length := by
  have := members_text_pos r.members true
  unfold Rec.text Doc.text
  simp only [List.length_append, List.length_cons]
  omega

end Appendable
