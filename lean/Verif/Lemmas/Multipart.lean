import Verif.Model.TsMultipart
import Verif.Lemmas.File
/-! The multipart parser sees the concatenation of the chunks. -/
namespace Appendable

namespace MSt

/-- What holds whenever a byte is asked for. -/
structure Inv (s : MSt) : Prop where
  buf : s.buf.length = cap
  ptr : s.ptr < cap
  fits : s.ptr + s.length ≤ cap

/-- The bytes still to come. -/
def rest (s : MSt) : Bytes := (s.buf.drop s.ptr).take s.length ++ s.residual.getD [] ++ s.chunks.flatten

theorem Inv.left_eq {s : MSt} (h : s.Inv) : s.left = s.rest.length := by
  have := h.buf; have := h.fits
  simp only [left, rest, List.length_append, List.length_take, List.length_drop]
  omega

theorem deliver_spec {s : MSt} (h : s.Inv) (h0 : s.length = 0) (r : Bytes) :
    ∃ n s', s.deliver s.ptr (cap - s.ptr) r = (n, s') ∧ ({ s' with length := s'.length + n } : MSt).Inv ∧
      ({ s' with length := s'.length + n } : MSt).rest = r ++ s.chunks.flatten ∧ s'.chunks = s.chunks ∧ (r ≠ [] → n ≠ 0) ∧
      s'.length = 0 ∧ (n = 0 → r = [] ∧ s'.residual = none) := by
  have h1 := h.buf
  have h2 := h.ptr
  have hn : min r.length (cap - s.ptr) ≤ r.length := Nat.min_le_left _ _
  have hn2 : min r.length (cap - s.ptr) ≤ cap - s.ptr := Nat.min_le_right _ _
  refine ⟨_, _, rfl, ⟨?_, h2, ?_⟩, ?_, rfl, ?_, h0, ?_⟩
  · simp only [List.length_append, List.length_take, List.length_drop, h1]; omega
  · simp only [h0]; omega
  · simp only [rest, h0, Nat.zero_add]
    have e1 : ((List.take s.ptr s.buf ++ List.take (min r.length (cap - s.ptr)) r ++ List.drop (s.ptr + min r.length (cap - s.ptr)) s.buf).drop
        s.ptr).take (min r.length (cap - s.ptr)) = r.take (min r.length (cap - s.ptr)) := by
      rw [List.append_assoc, List.drop_left' (by rw [List.length_take]; omega), List.take_left' (by rw [List.length_take]; omega)]
    rw [e1]
    congr 1
    split
    · rename_i he
      rw [List.take_of_length_le (by omega)]; simp
    · simp
  · intro hr
    have := List.length_pos_iff.2 hr
    omega
  · intro hz
    have : r = [] := by
      by_cases hr : r = []
      · exact hr
      · have := List.length_pos_iff.2 hr; omega
    subst this
    simp

theorem extend_spec {s : MSt} (h : s.Inv) (h0 : s.length = 0) :
    (s.rest = [] ∧ (s.extend = none ∨ ∃ s', s.extend = some s' ∧ s'.Inv ∧ s'.rest = [] ∧ s'.length = 0 ∧
        s'.chunks.length + (if s'.residual.isSome then 1 else 0) < s.chunks.length + (if s.residual.isSome then 1 else 0))) ∨
    ∃ s', s.extend = some s' ∧ s'.Inv ∧ s'.rest = s.rest ∧
      (s'.length ≠ 0 ∨ s'.chunks.length + (if s'.residual.isSome then 1 else 0) < s.chunks.length + (if s.residual.isSome then 1 else 0)) := by
  have hp := h.ptr
  have hext : s.extend = (s.read s.ptr (cap - s.ptr)).map fun (n, s') => { s' with length := s'.length + n } := by
    unfold extend
    rw [h0, Nat.add_zero, if_neg (by omega)]
  have hr0 : s.rest = s.residual.getD [] ++ s.chunks.flatten := by simp [rest, h0]
  rw [hext]
  unfold read
  cases hr : s.residual with
  | some r =>
    right
    obtain ⟨n, s', h1, h2, h3, h4, h5, h6, h7⟩ := deliver_spec h h0 r
    refine ⟨_, by simp only [h1, Option.map_some], h2, ?_, ?_⟩
    · rw [h3, hr0, hr]; rfl
    · by_cases hn : n = 0
      · right
        obtain ⟨h8, h9⟩ := h7 hn
        simp [h4, h9]
      · left; simp [h6, hn]
  | none =>
    cases hc : s.chunks with
    | nil => left; exact ⟨by rw [hr0, hr, hc]; rfl, .inl rfl⟩
    | cons c cs =>
      right
      have hi : ({ s with chunks := cs } : MSt).Inv := ⟨h.buf, h.ptr, h.fits⟩
      obtain ⟨n, s', h1, h2, h3, h4, h5, h6, h7⟩ := deliver_spec hi h0 c
      simp only [hr] at h1
      refine ⟨_, by simp only [h1, Option.map_some], h2, ?_, ?_⟩
      · rw [h3, hr0, hr, hc]; simp
      · by_cases hn : n = 0
        · right
          obtain ⟨h8, h9⟩ := h7 hn
          simp [h4, h9]
        · left; simp [h6, hn]

theorem fill_spec : ∀ (fuel : Nat) {s : MSt}, s.Inv → s.chunks.length + (if s.residual.isSome then 1 else 0) + 1 < fuel →
    (s.rest = [] ∧ fill fuel s = none) ∨ (s.rest ≠ [] ∧ ∃ s', fill fuel s = some s' ∧ s'.Inv ∧ s'.rest = s.rest ∧ s'.length ≠ 0) := by
  intro fuel
  induction fuel with
  | zero => intro s _ hf; omega
  | succ fuel ih =>
    intro s h hf
    by_cases h0 : s.length = 0
    · simp only [fill, if_pos h0]
      have hlast : ∀ s' : MSt, s'.Inv → s'.length ≠ 0 → fuel ≠ 0 → fill fuel s' = some s' ∧ s'.rest ≠ [] := by
        intro s' hi hl hf0
        cases fuel with
        | zero => exact absurd rfl hf0
        | succ fuel =>
          refine ⟨by simp only [fill, if_neg hl], fun hc => ?_⟩
          have := hi.left_eq
          rw [hc] at this
          simp only [left, List.length_nil] at this
          omega
      rcases extend_spec h h0 with ⟨hr, hn | ⟨s', h1, h2, h3, h4, h5⟩⟩ | ⟨s', h1, h2, h3, h4⟩
      · left; exact ⟨hr, by rw [hn]; rfl⟩
      · left
        refine ⟨hr, ?_⟩
        rw [h1, Option.bind_some]
        rcases ih h2 (by omega) with ⟨_, h6⟩ | ⟨h6, _⟩
        · exact h6
        · exact absurd h3 h6
      · rw [h1, Option.bind_some]
        by_cases hz : s'.length = 0
        · have h5 : s'.chunks.length + (if s'.residual.isSome then 1 else 0) < s.chunks.length + (if s.residual.isSome then 1 else 0) := by
            rcases h4 with h4 | h4
            · exact absurd hz h4
            · exact h4
          rcases ih h2 (by omega) with ⟨h6, h7⟩ | ⟨h6, s'', h7, h8, h9, h10⟩
          · left; exact ⟨by rw [← h3]; exact h6, h7⟩
          · right; exact ⟨by rw [← h3]; exact h6, s'', h7, h8, by rw [h9, h3], h10⟩
        · right
          obtain ⟨h6, h7⟩ := hlast s' h2 hz (by omega)
          exact ⟨by rw [← h3]; exact h7, s', h6, h2, h3, hz⟩
    · right
      refine ⟨fun hc => ?_, s, by simp only [fill, if_neg h0], h, rfl, h0⟩
      have := h.left_eq
      rw [hc] at this
      simp only [left, List.length_nil] at this
      omega

/-- Taking a byte. -/
theorem next_spec {s : MSt} (h : s.Inv) : (s.rest = [] ∧ s.next = none) ∨
    ∃ b s', s.next = some (b, s') ∧ s'.Inv ∧ s.rest = b :: s'.rest := by
  rcases fill_spec s.rounds h (by unfold rounds; split <;> omega) with ⟨h1, h2⟩ | ⟨h1, s1, h2, h3, h4, h5⟩
  · left; exact ⟨h1, by unfold next; rw [h2]; rfl⟩
  · right
    have hb := h3.buf
    have hp := h3.ptr
    have hf := h3.fits
    have hlt : s1.ptr < s1.buf.length := by omega
    refine ⟨s1.buf[s1.ptr], { s1 with ptr := (s1.ptr + 1) % cap, length := s1.length - 1 }, by unfold next; rw [h2, Option.bind_some, List.getElem?_eq_getElem hlt]; rfl, ⟨hb, ?_, ?_⟩, ?_⟩
    · exact Nat.mod_lt _ (by unfold cap; omega)
    · simp only
      by_cases he : s1.ptr + 1 = cap
      · rw [he, Nat.mod_self]; omega
      · rw [Nat.mod_eq_of_lt (by omega)]; omega
    · rw [← h4]
      obtain ⟨m, hm⟩ : ∃ m, s1.length = m + 1 := ⟨s1.length - 1, by omega⟩
      simp only [rest, hm, Nat.add_sub_cancel]
      rw [← List.cons_append, ← List.cons_append]
      congr 2
      rw [List.drop_eq_getElem_cons hlt, List.take_succ_cons]
      congr 1
      by_cases he : s1.ptr + 1 = cap
      · have : m = 0 := by omega
        rw [this, List.take_zero, List.take_zero]
      · rw [Nat.mod_eq_of_lt (by omega)]

theorem start_inv (chunks : List Bytes) : (start chunks).Inv := ⟨List.length_replicate, by show 0 < cap; unfold cap; omega, by show 0 + 0 ≤ cap; omega⟩
theorem start_rest (chunks : List Bytes) : (start chunks).rest = chunks.flatten := by simp [rest, start]

end MSt

namespace Multipart

/-- The byte source of a body in one piece. -/
def whole : Bytes → Option (UInt8 × Bytes)
  | [] => none
  | b :: bs => some (b, bs)

/-- The states agree. -/
def Sim (s : MSt) (w : Bytes) : Prop := s.Inv ∧ s.rest = w

/-- The steps agree. -/
def SimStep {α : Type} : MStep MSt α → MStep Bytes α → Prop
  | .ok a s, .ok b w => a = b ∧ Sim s w
  | .stop e, .stop f => e = f
  | _, _ => False

theorem sim_next {s : MSt} {w : Bytes} (h : Sim s w) : (s.next = none ∧ whole w = none) ∨
    ∃ b s' w', s.next = some (b, s') ∧ whole w = some (b, w') ∧ Sim s' w' := by
  obtain ⟨h1, rfl⟩ := h
  rcases MSt.next_spec h1 with ⟨h2, h3⟩ | ⟨b, s', h2, h3, h4⟩
  · left; exact ⟨h3, by rw [h2]; rfl⟩
  · right; exact ⟨b, s', s'.rest, h2, by rw [h4]; rfl, h3, rfl⟩

theorem SimStep.andThen {α β : Type} {x : MStep MSt α} {y : MStep Bytes α} {f : α → MSt → MStep MSt β} {g : α → Bytes → MStep Bytes β}
    (h : SimStep x y) (hf : ∀ a s w, Sim s w → SimStep (f a s) (g a w)) : SimStep (x.andThen f) (y.andThen g) := by
  cases x <;> cases y <;> simp only [SimStep] at h
  · obtain ⟨rfl, h⟩ := h; exact hf _ _ _ h
  · subst h; rfl

theorem sim_lit (cs : Bytes) {s : MSt} {w : Bytes} (h : Sim s w) : SimStep (readLit MSt.next cs s) (readLit whole cs w) := by
  induction cs generalizing s w with
  | nil => exact ⟨rfl, h⟩
  | cons c cs ih =>
    rcases sim_next h with ⟨h1, h2⟩ | ⟨b, s', w', h1, h2, h3⟩
    · simp only [readLit, h1, h2]; rfl
    · simp only [readLit, h1, h2]
      split
      · exact ih h3
      · rfl

theorem sim_break (cs : Bytes) {s : MSt} {w : Bytes} (h : Sim s w) : SimStep (readBreak MSt.next cs s) (readBreak whole cs w) := by
  induction cs generalizing s w with
  | nil => exact ⟨rfl, h⟩
  | cons c cs ih =>
    rcases sim_next h with ⟨h1, h2⟩ | ⟨b, s', w', h1, h2, h3⟩
    · simp only [readBreak, h1, h2]; rfl
    · simp only [readBreak, h1, h2]
      split
      · exact ih h3
      · split <;> rfl

theorem sim_headers (fuel : Nat) (last : UInt8) (hd : Bytes) (hs : List (Bytes × Bytes)) {s : MSt} {w : Bytes} (h : Sim s w) :
    SimStep (readHeaders MSt.next fuel last hd hs s) (readHeaders whole fuel last hd hs w) := by
  induction fuel generalizing s w last hd hs with
  | zero => rfl
  | succ fuel ih =>
    rcases sim_next h with ⟨h1, h2⟩ | ⟨b, s', w', h1, h2, h3⟩
    · simp only [readHeaders, h1, h2]; rfl
    · simp only [readHeaders, h1, h2]
      split
      · split
        · exact ⟨rfl, h3⟩
        · cases headerLine hd with
          | none => rfl
          | some kv => exact ih _ _ _ h3
      · exact ih _ _ _ h3

theorem sim_data (n : Nat) {s : MSt} {w : Bytes} (h : Sim s w) : SimStep (readData MSt.next n s) (readData whole n w) := by
  induction n generalizing s w with
  | zero => exact ⟨rfl, h⟩
  | succ n ih =>
    rcases sim_next h with ⟨h1, h2⟩ | ⟨b, s', w', h1, h2, h3⟩
    · simp only [readData, h1, h2]; rfl
    · simp only [readData, h1, h2]
      exact (ih h3).andThen fun a s w h => ⟨rfl, h⟩

theorem sim_part (num : Bytes → Option Int) (d : Bytes) (fuel : Nat) {s : MSt} {w : Bytes} (h : Sim s w) :
    SimStep (readPart MSt.next num d fuel s) (readPart whole num d fuel w) := by
  refine (sim_lit d h).andThen fun _ s w h => (sim_break _ h).andThen fun _ s w h => (sim_headers _ _ _ _ h).andThen fun hs s w h => ?_
  cases contentLength num hs with
  | none => rfl
  | some n => exact (sim_data n h).andThen fun a s w h => ⟨rfl, h⟩

theorem sim_run (num : Bytes → Option Int) (d : Bytes) (fuel : Nat) {s : MSt} {w : Bytes} (h : Sim s w) :
    run MSt.next num d fuel s = run whole num d fuel w := by
  induction fuel generalizing s w with
  | zero => rfl
  | succ fuel ih =>
    have h1 := sim_part num d (fuel + 1) h
    simp only [run]
    revert h1
    cases readPart MSt.next num d (fuel + 1) s <;> cases readPart whole num d (fuel + 1) w <;> intro h1 <;> simp only [SimStep] at h1
    · obtain ⟨rfl, h1⟩ := h1
      rename_i p s1 w1
      have h2 := sim_lit [13, 10] h1
      simp only
      revert h2
      cases readLit MSt.next [13, 10] s1 <;> cases readLit whole [13, 10] w1 <;> intro h2 <;> simp only [SimStep] at h2
      · obtain ⟨_, h2⟩ := h2
        simp only [ih h2]
      · subst h2; rfl
    · subst h1; rfl

/-- The result depends on the concatenation of the chunks only. -/
theorem parse_whole (num : Bytes → Option Int) (ct : Bytes) (chunks : List Bytes) :
    parseMultipartBody num ct chunks = match delimiter ct with
      | none => ([], .fail)
      | some d => run whole num d (chunks.flatten.length + 1) chunks.flatten := by
  unfold parseMultipartBody
  cases delimiter ct with
  | none => rfl
  | some d =>
    simp only
    rw [(MSt.start_inv chunks).left_eq, MSt.start_rest]
    exact sim_run num d _ ⟨MSt.start_inv chunks, MSt.start_rest chunks⟩

end Multipart
end Appendable
