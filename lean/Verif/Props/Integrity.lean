import Verif.Props.TsRange
/-! C116: a file whose length has changed is noticed. -/
namespace Appendable
open Spec Multipart RangeRequest

namespace Spec

/-- The request says how long the file should be, and the file `F` has another length. -/
def Outdated (F : Bytes) (r : RangeReq) : Prop := ∃ e, r.expected = some e ∧ e ≠ 0 ∧ e ≠ F.length

end Spec

variable {show_ : Nat → Bytes} {num int : Bytes → Option Int} {F : Bytes} {fetch : Fetch}

theorem individual_reply_served (hs : PrintsDecimals show_) (hnum : ReadsDecimals num) (hF : F.length < 2 ^ 53) (hf : HttpServes F fetch)
    {r : RangeReq} (h1 : r.start ≤ r.stop) (h2 : r.stop < F.length) :
    (Outdated F r → (fetch (ascii "bytes=" ++ rangeText show_ r)).bind (individualReply num r) = .lengthIntegrity) ∧
    (¬Outdated F r → (fetch (ascii "bytes=" ++ rangeText show_ r)).bind (individualReply num r) = .ok ⟨bytesOf F r.start r.stop, some F.length⟩) := by
  obtain ⟨ct, body, _, _, h6, h7⟩ := hf.one r.start r.stop h1 h2
  have hh := rangesText_ok hs [r] (by simp; omega)
  rw [rangesText] at hh
  have hp : pairs [r] = [(r.start, r.stop)] := rfl
  rw [hh, hp, h7]
  simp only [Net.bind, individualReply, totalOf_ok hnum hF, h6, wrongLength]
  constructor
  · rintro ⟨e, he, h0, hn⟩
    have : ¬(F.length : Int) = (e : Int) := by omega
    simp [he, h0, this]
  · intro hn
    cases he : r.expected with
    | none => simp
    | some e =>
      have : ¬(e ≠ 0 ∧ e ≠ F.length) := fun hc => hn ⟨e, he, hc.1, hc.2⟩
      by_cases h0 : e = 0
      · simp [h0]
      · have : (F.length : Int) = (e : Int) := by omega
        simp [this]

theorem individual_outdated (hs : PrintsDecimals show_) (hnum : ReadsDecimals num) (hF : F.length < 2 ^ 53) (hf : HttpServes F fetch) :
    ∀ rs : List RangeReq, (∀ r ∈ rs, r.start ≤ r.stop ∧ r.stop < F.length) → (∃ r ∈ rs, Outdated F r) →
      individual show_ num fetch rs = .lengthIntegrity
  | [], _, h => by obtain ⟨r, hr, _⟩ := h; cases hr
  | r :: rs, hi, h => by
    obtain ⟨g1, g2⟩ := individual_reply_served hs hnum hF hf (hi r (by simp)).1 (hi r (by simp)).2
    unfold individual
    by_cases ho : Outdated F r
    · rw [g1 ho]; rfl
    · rw [g2 ho]
      have : individual show_ num fetch rs = .lengthIntegrity := by
        refine individual_outdated hs hnum hF hf rs (fun x hx => hi x (by simp [hx])) ?_
        obtain ⟨x, hx, hxo⟩ := h
        rcases List.mem_cons.1 hx with rfl | hx
        · exact absurd hxo ho
        · exact ⟨x, hx, hxo⟩
      show (individual show_ num fetch rs).bind _ = _
      rw [this]; rfl

/-- C116 for `useMultipartByteRanges: false`: if one of the requests expects another length than that of the file, all of them end in
LengthIntegrityError; if none does, they are answered. -/
theorem C116_individual_partial (show_ : Nat → Bytes) (num int : Bytes → Option Int) (hs : PrintsDecimals show_) (hnum : ReadsDecimals num)
    (F : Bytes) (hF : F.length < 2 ^ 53) (fetch : Fetch) (hf : HttpServes F fetch) (rs : List RangeReq)
    (hi : ∀ r ∈ rs, r.start ≤ r.stop ∧ r.stop < F.length) :
    ((∃ r ∈ rs, Outdated F r) → requestRanges show_ num int false fetch rs = .lengthIntegrity) ∧
    ((∀ r ∈ rs, ¬Outdated F r) → requestRanges show_ num int false fetch rs = .ok (rightAnswer F rs)) := by
  have e : requestRanges show_ num int false fetch rs = individual show_ num fetch rs := by
    unfold requestRanges
    rw [if_neg (by decide)]
  rw [e]
  refine ⟨individual_outdated hs hnum hF hf rs hi, fun hn => ?_⟩
  clear e
  induction rs with
  | nil => rfl
  | cons r rs ih =>
    unfold individual
    rw [(individual_reply_served hs hnum hF hf (hi r (by simp)).1 (hi r (by simp)).2).2 (hn r (by simp))]
    show (individual show_ num fetch rs).bind _ = _
    rw [ih (fun x hx => hi x (by simp [hx])) (fun x hx => hn x (by simp [hx]))]
    rfl

/-- C116 is violated for `useMultipartByteRanges: true`: whatever length a request for two bytes or more expects, it is answered with the bytes of
the file that the server has now. -/
theorem C116_multipart_violated (show_ : Nat → Bytes) (num int : Bytes → Option Int) (hs : PrintsDecimals show_) (hnum : ReadsDecimals num)
    (F : Bytes) (hF : F.length < 2 ^ 53) (fetch : Fetch) (hf : HttpServes F fetch) (r : RangeReq) (h1 : r.start < r.stop) (h2 : r.stop < F.length) :
    requestRanges show_ num int true fetch [r] = .ok (rightAnswer F [r]) := by
  unfold requestRanges
  rw [if_pos rfl, if_neg (by simp; omega)]
  rw [rangesText_ok hs [r] (by simp; omega)]
  obtain ⟨ct, body, h5, h6, h7, h8⟩ := hf.one r.start r.stop (by omega) h2
  have : pairs [r] = [(r.start, r.stop)] := rfl
  rw [this, h8]
  obtain ⟨c, cs, rfl⟩ := List.exists_cons_of_ne_nil h5
  simp only [Net.bind, manyReply]
  rw [if_neg (by decide), if_pos trivial, show ascii "multipart/byteranges" = text "multipart/byteranges" from rfl, h6, if_neg (by decide)]
  simp [rightAnswer, h7, totalOf_ok hnum hF]

/-- The request is outdated in the last theorem for a suitable expected length: with multipart an outdated request is answered, without it is
refused. -/
theorem C116_choice_violated (show_ : Nat → Bytes) (num int : Bytes → Option Int) (hs : PrintsDecimals show_) (hnum : ReadsDecimals num)
    (F : Bytes) (hF : F.length < 2 ^ 53) (fetch : Fetch) (hf : HttpServes F fetch) (a b : Nat) (h1 : a < b) (h2 : b < F.length) :
    Outdated F ⟨a, b, some (F.length + 1)⟩ ∧
    requestRanges show_ num int true fetch [⟨a, b, some (F.length + 1)⟩] = .ok [⟨bytesOf F a b, some F.length⟩] ∧
    requestRanges show_ num int false fetch [⟨a, b, some (F.length + 1)⟩] = .lengthIntegrity := by
  have ho : Outdated F ⟨a, b, some (F.length + 1)⟩ := ⟨_, rfl, by omega, by omega⟩
  refine ⟨ho, C116_multipart_violated show_ num int hs hnum F hF fetch hf ⟨a, b, some (F.length + 1)⟩ h1 h2, ?_⟩
  exact (C116_individual_partial show_ num int hs hnum F hF fetch hf _ (by simp; omega)).1 ⟨_, List.mem_singleton.2 rfl, ho⟩

theorem rangesText_pairs : ∀ (rs rs' : List RangeReq), pairs rs = pairs rs' → rangesText show_ rs = rangesText show_ rs'
  | [], [], _ => rfl
  | [], _ :: _, h => by simp [pairs] at h
  | _ :: _, [], h => by simp [pairs] at h
  | [r], [r'], h => by
    simp only [pairs, List.map_cons, List.map_nil, List.cons.injEq, Prod.mk.injEq, and_true] at h
    simp only [rangesText, rangeText, h.1, h.2]
  | [_], _ :: _ :: _, h => by simp [pairs] at h
  | _ :: _ :: _, [_], h => by simp [pairs] at h
  | r :: q :: rs, r' :: q' :: rs', h => by
    have ht : pairs (q :: rs) = pairs (q' :: rs') := by
      simp only [pairs, List.map_cons, List.cons.injEq] at h ⊢
      exact h.2
    simp only [pairs, List.map_cons, List.cons.injEq, Prod.mk.injEq] at h
    have ih := rangesText_pairs (q :: rs) (q' :: rs') ht
    simp only [rangesText, rangeText, h.1.1, h.1.2, ih]

/-- C116 is violated for `useMultipartByteRanges: true` by every list of ranges and every server that does not answer with status 200: the
expected lengths do not matter. -/
theorem C116_ignored_violated (show_ : Nat → Bytes) (num int : Bytes → Option Int) (fetch : Fetch) (rs rs' : List RangeReq)
    (h : pairs rs = pairs rs') (h2 : ∀ range res, fetch range = .ok res → res.status ≠ 200) :
    requestRanges show_ num int true fetch rs = requestRanges show_ num int true fetch rs' := by
  have e1 : rs.any (fun r => decide (r.stop ≤ r.start)) = (pairs rs).any (fun x => decide (x.2 ≤ x.1)) := by
    simp [pairs, List.any_map, Function.comp_def]
  have e2 : rs'.any (fun r => decide (r.stop ≤ r.start)) = (pairs rs').any (fun x => decide (x.2 ≤ x.1)) := by
    simp [pairs, List.any_map, Function.comp_def]
  unfold requestRanges
  rw [if_pos rfl, if_pos rfl, e1, e2, h, rangesText_pairs rs rs' h]
  split
  · rfl
  · cases hf : fetch (ascii "bytes=" ++ rangesText show_ rs') with
    | ok res =>
      simp only [Net.bind, manyReply, if_neg (h2 _ res hf)]
    | fail => rfl
    | lengthIntegrity => rfl
    | hang => rfl

/-- C116 for `useMultipartByteRanges: true` and a server that answers several ranges with status 200 (the client then asks for them one by one). -/
theorem C116_fallback_partial (show_ : Nat → Bytes) (num int : Bytes → Option Int) (hs : PrintsDecimals show_) (hnum : ReadsDecimals num)
    (F : Bytes) (hF : F.length < 2 ^ 53) (fetch : Fetch) (hf : HttpServes F fetch) (rs : List RangeReq)
    (hi : ∀ r ∈ rs, r.start < r.stop ∧ r.stop < F.length) (res : Reply) (h : fetch (rangeHeader (pairs rs)) = .ok res) (h2 : res.status = 200)
    (ho : ∃ r ∈ rs, Outdated F r) : requestRanges show_ num int true fetch rs = .lengthIntegrity := by
  unfold requestRanges
  rw [if_pos rfl, if_neg (by
    simp only [List.any_eq_true, decide_eq_true_eq, not_exists, not_and]
    intro r hr; have := hi r hr; omega), rangesText_ok hs rs (fun r hr => by have := hi r hr; omega), h]
  simp only [Net.bind, manyReply]
  rw [if_pos h2]
  exact individual_outdated hs hnum hF hf rs (fun r hr => by have := hi r hr; omega) ho

/-- The hypotheses are met: a server with the file `[5, 6, 7, 8]`, asked by a client that expects five bytes. -/
example : ∃ (show_ : Nat → Bytes) (num int : Bytes → Option Int) (fetch : Fetch),
    requestRanges show_ num int false fetch [⟨0, 1, none⟩, ⟨1, 3, some 5⟩] = .lengthIntegrity ∧
    requestRanges show_ num int true fetch [⟨1, 3, some 5⟩] = .ok [⟨[6, 7, 8], some 4⟩] := by
  obtain ⟨num, hnum⟩ := MDemo.exists_num
  refine ⟨decimal, num, num, RDemo.server [5, 6, 7, 8], ?_, ?_⟩
  · refine (C116_individual_partial decimal num num (fun _ _ => rfl) hnum [5, 6, 7, 8] (by decide) _ (RDemo.server_serves (by decide)) _
      (by simp)).1 ⟨⟨1, 3, some 5⟩, by simp, 5, rfl, by decide, by decide⟩
  · exact C116_multipart_violated decimal num num (fun _ _ => rfl) hnum [5, 6, 7, 8] (by decide) _ (RDemo.server_serves (by decide)) _
      (by decide) (by decide)

end Appendable
