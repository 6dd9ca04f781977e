import Verif.Lemmas.MultipartWire
/-! A multipart body that breaks off. -/
namespace Appendable
open Spec
namespace Multipart

/-- The same outcome on a longer body. -/
def Ext {α : Type} (x : Bytes) : MStep Bytes α → MStep Bytes α → Prop
  | .ok a w, y => y = .ok a (w ++ x)
  | .stop .hang, _ => True
  | .stop e, y => y = .stop e

theorem Ext.andThen {α β : Type} {x : Bytes} {s t : MStep Bytes α} {f g : α → Bytes → MStep Bytes β} (h : Ext x s t)
    (hf : ∀ a w, Ext x (f a w) (g a (w ++ x))) : Ext x (s.andThen f) (t.andThen g) := by
  cases s with
  | ok a w => simp only [Ext] at h; subst h; exact hf a w
  | stop e => cases e <;> simp only [Ext] at h <;> first | (subst h; rfl) | trivial

theorem ext_lit (x cs w : Bytes) : Ext x (readLit whole cs w) (readLit whole cs (w ++ x)) := by
  induction cs generalizing w with
  | nil => rfl
  | cons c cs ih =>
    cases w with
    | nil => trivial
    | cons b w =>
      simp only [readLit, whole, List.cons_append]
      split
      · exact ih w
      · rfl

theorem ext_break (x cs w : Bytes) : Ext x (readBreak whole cs w) (readBreak whole cs (w ++ x)) := by
  induction cs generalizing w with
  | nil => rfl
  | cons c cs ih =>
    cases w with
    | nil => trivial
    | cons b w =>
      simp only [readBreak, whole, List.cons_append]
      split
      · exact ih w
      · split <;> rfl

theorem ext_headers (x : Bytes) (fuel k : Nat) (last : UInt8) (hd : Bytes) (hs : List (Bytes × Bytes)) (w : Bytes) :
    Ext x (readHeaders whole fuel last hd hs w) (readHeaders whole (fuel + k) last hd hs (w ++ x)) := by
  induction fuel generalizing last hd hs w with
  | zero => trivial
  | succ fuel ih =>
    rw [Nat.add_right_comm]
    cases w with
    | nil => trivial
    | cons b w =>
      simp only [readHeaders, whole, List.cons_append]
      split
      · split
        · rfl
        · cases headerLine hd with
          | none => rfl
          | some kv => exact ih _ _ _ _
      · exact ih _ _ _ _

theorem ext_data (x : Bytes) (n : Nat) (w : Bytes) : Ext x (readData whole n w) (readData whole n (w ++ x)) := by
  induction n generalizing w with
  | zero => rfl
  | succ n ih =>
    cases w with
    | nil => trivial
    | cons b w =>
      simp only [readData, whole, List.cons_append]
      exact (ih w).andThen fun a w => rfl

theorem ext_part (num : Bytes → Option Int) (d x : Bytes) (fuel k : Nat) (w : Bytes) :
    Ext x (readPart whole num d fuel w) (readPart whole num d (fuel + k) (w ++ x)) := by
  refine (ext_lit x d w).andThen fun _ w => (ext_break x _ w).andThen fun _ w => (ext_headers x fuel k _ _ _ w).andThen fun hs w => ?_
  cases contentLength num hs with
  | none => rfl
  | some n => exact (ext_data x n w).andThen fun a w => rfl

/-- If the parser ends, it ends in the same way on every longer body. -/
theorem ext_run (num : Bytes → Option Int) (d x : Bytes) (fuel k : Nat) (w : Bytes)
    (h : (run whole num d fuel w).2 ≠ .hang) : run whole num d (fuel + k) (w ++ x) = run whole num d fuel w := by
  induction fuel generalizing w with
  | zero => exact absurd rfl h
  | succ fuel ih =>
    rw [Nat.add_right_comm]
    have h1 := ext_part num d x (fuel + 1) k w
    rw [Nat.add_right_comm] at h1
    simp only [run] at h ⊢
    revert h h1
    cases readPart whole num d (fuel + 1) w with
    | stop e =>
      cases e <;> intro h h1 <;> simp only [Ext] at h1
      · rw [h1]
      · rw [h1]
      · exact absurd rfl h
    | ok p w1 =>
      intro h h1
      simp only [Ext] at h1
      rw [h1]
      have h2 := ext_lit x [13, 10] w1
      simp only at h ⊢
      revert h h2
      cases readLit whole [13, 10] w1 with
      | stop e =>
        cases e <;> intro h h2 <;> simp only [Ext] at h2
        · rw [h2]
        · rw [h2]
        · exact absurd rfl h
      | ok u w2 =>
        intro h h2
        simp only [Ext] at h2
        rw [h2]
        simp only at h ⊢
        rw [ih w2 h]

/-- A body that lacks the closing delimiter ends differently with different continuations. -/
theorem run_cut {num : Bytes → Option Int} (hnum : ReadsDecimals num) (B : Bytes) (ps : List WirePart)
    (hp : ∀ p ∈ ps, RangePart p ∧ p.data ≠ []) (w x : Bytes) (hw : w ++ x = ps.flatMap (wirePart B) ++ text "--" ++ B) (fuel : Nat) :
    (run whole num (text "--" ++ B) fuel w).2 = .hang := by
  by_cases hh : (run whole num (text "--" ++ B) fuel w).2 = .hang
  · exact hh
  · exfalso
    -- one continuation is the proper end
    have e1 : w ++ (x ++ text "--") = wireBody B ps [] := by
      rw [← List.append_assoc, hw, wireBody]; simp
    have h1 := run_ok hnum B [] ps (fuel + (wireBody B ps []).length + 1) hp (by omega)
    rw [← e1, Nat.add_assoc, ext_run _ _ _ _ _ _ hh] at h1
    -- another one is not
    have key : ∀ (qs : List WirePart) (f : Nat), (∀ p ∈ qs, RangePart p ∧ p.data ≠ []) →
        (qs.flatMap (wirePart B) ++ text "--" ++ B ++ text "!").length < f →
        (run whole num (text "--" ++ B) f (qs.flatMap (wirePart B) ++ text "--" ++ B ++ text "!")).2 = .fail := by
      intro qs
      induction qs with
      | nil =>
        intro f _ hf
        obtain ⟨f, rfl⟩ : ∃ g, f = g + 1 := ⟨f - 1, by omega⟩
        have : readPart whole num (text "--" ++ B) (f + 1) (text "--" ++ B ++ text "!") = .stop .fail := by
          unfold readPart
          rw [lit_ok]
          have : text "!" = [33] := by decide
          simp [MStep.andThen, this, readBreak, whole]
        simp only [run, List.flatMap_nil, List.nil_append, this]
      | cons q qs ih =>
        intro f hq hf
        obtain ⟨f, rfl⟩ : ∃ g, f = g + 1 := ⟨f - 1, by omega⟩
        have e : (q :: qs).flatMap (wirePart B) ++ text "--" ++ B ++ text "!" =
            wirePart B q ++ (qs.flatMap (wirePart B) ++ text "--" ++ B ++ text "!") := by simp
        have hlen := congrArg List.length e
        have hpos : 0 < (wirePart B q).length := by simp [wirePart, crlf]; omega
        rw [List.length_append (as := wirePart B q)] at hlen
        rw [e]
        simp only [run]
        rw [part_ok hnum B (hq q (by simp)).1 (hq q (by simp)).2 _ _ (by omega)]
        simp only
        rw [show ([13, 10] : Bytes) = crlf from rfl, lit_ok]
        exact ih f (fun p hp => hq p (by simp [hp])) (by omega)
    have h2 := key ps (fuel + ((ps.flatMap (wirePart B) ++ text "--" ++ B ++ text "!").length + 1)) hp (by omega)
    rw [← hw, List.append_assoc, ext_run _ _ _ _ _ _ hh, h1] at h2
    cases h2

/-- One part without its line break, and whatever follows. -/
theorem readPart_end {num : Bytes → Option Int} (hnum : ReadsDecimals num) (B : Bytes) {p : WirePart} (hp : RangePart p) (hd : p.data ≠ [])
    (w : Bytes) (fuel : Nat) (hf : (wirePart B p).length ≤ fuel + 2) :
    readPart whole num (text "--" ++ B) fuel (text "--" ++ B ++ crlf ++ p.headers.flatMap wireHeader ++ crlf ++ p.data ++ w) =
      .ok ⟨p.data, p.headers.map (fun h => (h.1, shown h.2))⟩ w := by
  unfold readPart
  simp only [wirePart, List.length_append] at hf
  have e : text "--" ++ B ++ crlf ++ p.headers.flatMap wireHeader ++ crlf ++ p.data ++ w =
      (text "--" ++ B) ++ (crlf ++ ((p.headers.flatMap wireHeader ++ crlf) ++ (p.data ++ w))) := by
    simp only [List.append_assoc]
  rw [e, lit_ok]
  simp only [MStep.andThen]
  have hbr : ∀ w', readBreak whole [13, 10] (crlf ++ w') = .ok () w' := fun w' => by simp [readBreak, whole, crlf]
  rw [hbr]
  simp only
  rw [headers_ok p.headers [] fuel 0 _ hp.keys hp.values (by simpa using hp.names) (by decide)
    (by have : crlf.length = 2 := rfl; omega)]
  simp only [List.nil_append]
  rw [contentLength_ok hnum hp hd]
  simp only
  rw [data_ok]

/-- The parts whose data has arrived are yielded, wherever the body breaks off afterwards. -/
theorem run_arrived {num : Bytes → Option Int} (hnum : ReadsDecimals num) (B : Bytes) : ∀ (ps : List WirePart) (w x y : Bytes) (fuel : Nat),
    (∀ p ∈ ps, RangePart p ∧ p.data ≠ []) → w ++ x = ps.flatMap (wirePart B) ++ y → (ps.flatMap (wirePart B)).length ≤ w.length + 2 →
    w.length < fuel → ∃ more, (run whole num (text "--" ++ B) fuel w).1 = (ps.map fun p => ⟨p.data, p.headers.map (fun h => (h.1, shown h.2))⟩) ++ more := by
  intro ps
  induction ps with
  | nil => intro w x y fuel _ _ _ _; exact ⟨_, rfl⟩
  | cons p ps ih =>
    intro w x y fuel hp hw hlen hf
    obtain ⟨f, rfl⟩ : ∃ f, fuel = f + 1 := ⟨fuel - 1, by omega⟩
    have hpos : 2 < (wirePart B p).length := by
      have : (text "--").length = 2 := by decide
      simp only [wirePart, List.length_append, this, crlf, List.length_cons, List.length_nil]; omega
    rw [List.flatMap_cons, List.length_append] at hlen
    rw [List.flatMap_cons, List.append_assoc] at hw
    -- the part without its line break
    have hcr : (wirePart B p).drop ((wirePart B p).length - 2) = crlf := by
      unfold wirePart
      rw [List.drop_left']
      simp only [List.length_append]
      have : crlf.length = 2 := rfl
      omega
    have hsplit : wirePart B p = (wirePart B p).take ((wirePart B p).length - 2) ++ crlf := by
      conv => lhs; rw [← List.take_append_drop ((wirePart B p).length - 2) (wirePart B p), hcr]
    obtain ⟨r, hr⟩ : ∃ r, w = (wirePart B p).take ((wirePart B p).length - 2) ++ r := by
      refine ⟨w.drop ((wirePart B p).length - 2), ?_⟩
      have h1 : w.take ((wirePart B p).length - 2) = (wirePart B p).take ((wirePart B p).length - 2) := by
        have := congrArg (List.take ((wirePart B p).length - 2)) hw
        rw [List.take_append_of_le_length (by omega), List.take_append_of_le_length (by omega)] at this
        exact this
      rw [← h1, List.take_append_drop]
    have hrl : r.length + (wirePart B p).length = w.length + 2 := by
      have := congrArg List.length hr
      rw [List.length_append, List.length_take] at this; omega
    have hpart : readPart whole num (text "--" ++ B) (f + 1) w = .ok ⟨p.data, p.headers.map (fun h => (h.1, shown h.2))⟩ r := by
      -- as with any continuation
      have hcut := readPart_end hnum B (hp p (by simp)).1 (hp p (by simp)).2 r (f + 1) (by omega)
      rw [hr]
      unfold wirePart at hcut ⊢
      have e : (text "--" ++ B ++ crlf ++ p.headers.flatMap wireHeader ++ crlf ++ p.data ++ crlf).take
          ((text "--" ++ B ++ crlf ++ p.headers.flatMap wireHeader ++ crlf ++ p.data ++ crlf).length - 2) =
          text "--" ++ B ++ crlf ++ p.headers.flatMap wireHeader ++ crlf ++ p.data := by
        rw [List.take_left']
        simp only [List.length_append]
        have : crlf.length = 2 := rfl
        omega
      rw [e]
      exact hcut
    simp only [run]
    rw [hpart]
    simp only
    by_cases hps : ps = []
    · subst hps
      cases readLit whole [13, 10] r with
      | stop e => exact ⟨[], by simp⟩
      | ok u w2 => exact ⟨_, rfl⟩
    · -- the next part has begun
      have hwr : r ++ x = crlf ++ (ps.flatMap (wirePart B) ++ y) := by
        rw [hr, hsplit, List.append_assoc, List.append_assoc] at hw
        have hl : ((wirePart B p).take ((wirePart B p).length - 2) ++ crlf).take (((wirePart B p).take ((wirePart B p).length - 2) ++ crlf).length - 2) =
            (wirePart B p).take ((wirePart B p).length - 2) := by rw [← hsplit]
        rw [hl] at hw
        exact List.append_cancel_left hw
      have hpos2 : 2 < (ps.flatMap (wirePart B)).length := by
        obtain ⟨q, qs, rfl⟩ := List.exists_cons_of_ne_nil hps
        rw [List.flatMap_cons, List.length_append]
        have : (text "--").length = 2 := by decide
        simp only [wirePart, List.length_append, this, crlf, List.length_cons, List.length_nil]; omega
      have hrr : r = crlf ++ r.drop 2 := by
        have := congrArg (List.take 2) hwr
        rw [List.take_append_of_le_length (by omega), show List.take 2 (crlf ++ (ps.flatMap (wirePart B) ++ y)) = crlf from rfl] at this
        conv => lhs; rw [← List.take_append_drop 2 r, this]
      rw [hrr, show ([13, 10] : Bytes) = crlf from rfl, lit_ok]
      simp only
      have hw2 : r.drop 2 ++ x = ps.flatMap (wirePart B) ++ y := by
        rw [hrr, List.append_assoc] at hwr
        exact List.append_cancel_left hwr
      obtain ⟨more, hm⟩ := ih (r.drop 2) x y f (fun q hq => hp q (by simp [hq])) hw2 (by rw [List.length_drop]; omega) (by rw [List.length_drop]; omega)
      exact ⟨more, by rw [hm]; rfl⟩

end Multipart
end Appendable
