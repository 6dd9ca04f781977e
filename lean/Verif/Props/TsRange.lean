import Verif.Props.TsMultipart
/-! C63: range requests. -/
namespace Appendable
open Spec Multipart RangeRequest

namespace Spec

/-- The ranges as pairs. -/
def pairs (rs : List RangeReq) : List (Nat × Nat) := rs.map fun r => (r.start, r.stop)

/-- The requests are for non-empty ranges inside of the file, and expect its length or nothing. -/
def Inside (F : Bytes) (rs : List RangeReq) : Prop :=
  ∀ r ∈ rs, r.start ≤ r.stop ∧ r.stop < F.length ∧ (r.expected = none ∨ r.expected = some F.length)

/-- The right answer: the bytes of every range, in order, with the length of the file. -/
def rightAnswer (F : Bytes) (rs : List RangeReq) : List Fetched := rs.map fun r => ⟨bytesOf F r.start r.stop, some F.length⟩

end Spec

section
variable {show_ : Nat → Bytes} {num int : Bytes → Option Int} {F : Bytes} {fetch : Fetch}

theorem rangeText_ok (hs : PrintsDecimals show_) {r : RangeReq} (h1 : r.start < 2 ^ 53) (h2 : r.stop < 2 ^ 53) :
    rangeText show_ r = decimal r.start ++ text "-" ++ decimal r.stop := by
  unfold rangeText
  rw [hs _ h1, hs _ h2]
  rfl

theorem rangesText_ok (hs : PrintsDecimals show_) : ∀ (rs : List RangeReq), (∀ r ∈ rs, r.start < 2 ^ 53 ∧ r.stop < 2 ^ 53) →
    ascii "bytes=" ++ rangesText show_ rs = rangeHeader (pairs rs) := by
  intro rs h
  unfold rangeHeader
  rw [show ascii "bytes=" = text "bytes=" from rfl]
  congr 1
  induction rs with
  | nil => rfl
  | cons r rs ih =>
    have hr := h r (by simp)
    cases rs with
    | nil =>
      rw [rangesText, rangeText_ok hs hr.1 hr.2]
      simp [pairs, List.intercalate]
    | cons q qs =>
      rw [rangesText, rangeText_ok hs hr.1 hr.2, ih (fun x hx => h x (by simp [hx]))]
      · simp [pairs, List.intercalate, show text "," = [44] from by decide]
      · simp

theorem totalOf_ok (hnum : ReadsDecimals num) {a b n : Nat} (hn : n < 2 ^ 53) :
    totalOf num (contentRange a b (decimal n)) = some (n : Int) := by
  have e3 : text "/" = [47] := by decide
  have e : contentRange a b (decimal n) = (text "bytes " ++ decimal a ++ text "-" ++ decimal b) ++ (47:UInt8) :: decimal n := by
    unfold contentRange; rw [e3]; simp
  have f : (47:UInt8) ∉ text "bytes " ++ decimal a ++ text "-" ++ decimal b := by
    simp only [List.mem_append, not_or]
    exact ⟨⟨⟨by decide, decimal_free (.inl (by decide))⟩, by decide⟩, decimal_free (.inl (by decide))⟩
  unfold totalOf
  rw [e, jsSplit_cut f, jsSplit_one (decimal_free (.inl (by decide)))]
  exact hnum n hn

theorem individual_ok (hs : PrintsDecimals show_) (hnum : ReadsDecimals num) (hF : F.length < 2 ^ 53) (hf : HttpServes F fetch) :
    ∀ rs : List RangeReq, Inside F rs → individual show_ num fetch rs = .ok (rightAnswer F rs) := by
  intro rs
  induction rs with
  | nil => intro _; rfl
  | cons r rs ih =>
    intro h
    obtain ⟨h1, h2, h3⟩ := h r (by simp)
    obtain ⟨ct, body, _, _, h6, h7⟩ := hf.one r.start r.stop h1 h2
    have hh := rangesText_ok hs [r] (by simp; omega)
    rw [rangesText] at hh
    have hw : wrongLength r.expected (some (F.length : Int)) = false := by
      rcases h3 with h3 | h3 <;> rw [h3] <;> simp [wrongLength]
    have hrep : individualReply num r ⟨206, some ct, some (contentRange r.start r.stop (decimal F.length)), body⟩ =
        .ok ⟨bytesOf F r.start r.stop, some F.length⟩ := by
      simp only [individualReply, totalOf_ok hnum hF, hw, h6]
      rfl
    rw [individual, hh]
    have : pairs [r] = [(r.start, r.stop)] := rfl
    rw [this, h7]
    simp only [Net.bind, hrep, ih (fun x hx => h x (by simp [hx]))]
    rfl

end

/-- C63 in full for `useMultipartByteRanges: false`: against every server that holds the file, every list of ranges inside
of the file gets the right bytes and the length of the file. -/
theorem C63_individual (show_ : Nat → Bytes) (num int : Bytes → Option Int) (hs : PrintsDecimals show_) (hnum : ReadsDecimals num)
    (F : Bytes) (hF : F.length < 2 ^ 53) (fetch : Fetch) (hf : HttpServes F fetch) (rs : List RangeReq) (h : Inside F rs) :
    requestRanges show_ num int false fetch rs = .ok (rightAnswer F rs) := by
  unfold requestRanges
  rw [if_neg (by decide)]
  exact individual_ok hs hnum hF hf rs h

theorem answers_data {F : Bytes} : ∀ (rs : List (Nat × Nat)) (ps : List WirePart), Answers F rs ps →
    ps.map WirePart.data = rs.map (fun r => bytesOf F r.1 r.2) ∧ ∀ p ∈ ps, RangePart p := by
  intro rs
  induction rs with
  | nil =>
    intro ps h
    have : ps = [] := List.length_eq_zero_iff.1 h.1.symm
    subst this; simp
  | cons r rs ih =>
    intro ps h
    cases ps with
    | nil => exact absurd h.1 (by simp)
    | cons p ps =>
      obtain ⟨h1, h2⟩ := ih ps ⟨by have := h.1; simpa using this, fun x hx => h.2 x (by simp [hx])⟩
      obtain ⟨h3, h4, _⟩ := h.2 (r, p) (by simp)
      simp only at h3 h4
      refine ⟨by simp only [List.map_cons, h1, h4], ?_⟩
      intro q hq
      rcases List.mem_cons.1 hq with rfl | hq
      · exact h3
      · exact h2 q hq

/-- C63 for `useMultipartByteRanges: true`: every non-empty list of ranges of at least two bytes gets the right bytes, in
order, from every server that holds the file and however the reply is cut into chunks.  (Partial: one byte ranges and the
length of the file, see below.) -/
theorem C63_multipart_partial (show_ : Nat → Bytes) (num int : Bytes → Option Int) (hs : PrintsDecimals show_) (hnum : ReadsDecimals num)
    (F : Bytes) (hF : F.length < 2 ^ 53) (fetch : Fetch) (hf : HttpServes F fetch) (rs : List RangeReq) (h : Inside F rs)
    (h0 : rs ≠ []) (h2 : ∀ r ∈ rs, r.start < r.stop) :
    ∃ ds, requestRanges show_ num int true fetch rs = .ok ds ∧ ds.map Fetched.data = (rightAnswer F rs).map Fetched.data := by
  unfold requestRanges
  rw [if_pos rfl, if_neg (by
    simp only [List.any_eq_true, decide_eq_true_eq, not_exists, not_and]
    intro r hr; have := h2 r hr; omega)]
  have hb : ∀ r ∈ rs, r.start < 2 ^ 53 ∧ r.stop < 2 ^ 53 := fun r hr => by have := h r hr; omega
  rw [rangesText_ok hs rs hb]
  have hrd : (rightAnswer F rs).map Fetched.data = (pairs rs).map (fun r => bytesOf F r.1 r.2) := by
    simp [rightAnswer, pairs]
  cases rs with
  | nil => exact absurd rfl h0
  | cons r rs' =>
    cases rs' with
    | nil =>
      obtain ⟨h3, h4, _⟩ := h r (by simp)
      obtain ⟨ct, body, h5, h6, h7, h8⟩ := hf.one r.start r.stop h3 h4
      have : pairs [r] = [(r.start, r.stop)] := rfl
      rw [this, h8]
      obtain ⟨c, cs, rfl⟩ := List.exists_cons_of_ne_nil h5
      refine ⟨_, by simp only [Net.bind, manyReply]; rw [if_neg (by decide), if_pos trivial, show ascii "multipart/byteranges" = text "multipart/byteranges" from rfl, h6, if_neg (by decide)], ?_⟩
      simp [rightAnswer, h7]
    | cons q qs =>
      rcases hf.many (pairs (r :: q :: qs)) (by simp [pairs]) (by
          intro x hx
          obtain ⟨y, hy, rfl⟩ := List.mem_map.1 hx
          exact ⟨(h y hy).1, (h y hy).2.1⟩) with ⟨res, h3, h4⟩ | ⟨B, ps, ep, body, h3, h4, h5, h6⟩
      · rw [h3]
        refine ⟨rightAnswer F (r :: q :: qs), ?_, rfl⟩
        simp only [Net.bind, manyReply]
        rw [if_pos h4]
        exact individual_ok hs hnum hF hf _ h
      · rw [h6]
        obtain ⟨h7, h8⟩ := answers_data _ _ h4
        have hne : ∀ p ∈ ps, RangePart p ∧ p.data ≠ [] := by
          intro p hp
          refine ⟨h8 p hp, fun he => ?_⟩
          have hm : p.data ∈ ps.map WirePart.data := List.mem_map.2 ⟨p, hp, rfl⟩
          rw [h7, he] at hm
          obtain ⟨x, hx, hx2⟩ := List.mem_map.1 hm
          obtain ⟨y, hy, rfl⟩ := List.mem_map.1 hx
          have hy2 := h y hy
          have := congrArg List.length hx2
          simp only [bytesOf, List.length_take, List.length_drop, List.length_nil] at this
          omega
        obtain ⟨ms, h9, h10⟩ := C55_data_partial num hnum B ep h3 ps hne body h5
        have hinc : jsIncludes (ascii "multipart/byteranges") (contentTypeOf B) = true := by
          have : contentTypeOf B = 109 :: (contentTypeOf B).tail := rfl
          rw [this, jsIncludes, Bool.or_eq_true]
          left
          rw [← this, List.isPrefixOf_iff_prefix]
          exact ⟨text "; boundary=" ++ B, by unfold contentTypeOf; rw [← List.append_assoc]; rfl⟩
        have hmul : multipartResult num int (contentTypeOf B) body = .ok (ms.map (partResult int)) := by
          unfold multipartResult
          rw [h9]
          cases ms with
          | nil =>
            rw [h7] at h10
            simp [pairs] at h10
          | cons m ms => rfl
        have hct : ∃ c cs, contentTypeOf B = c :: cs := ⟨109, _, rfl⟩
        obtain ⟨c, cs, hct⟩ := hct
        refine ⟨ms.map (partResult int), ?_, ?_⟩
        · simp only [Net.bind, manyReply]
          rw [if_neg (by decide), if_pos trivial, hct]
          simp only
          rw [← hct, if_pos hinc, hmul]
        · rw [List.map_map, hrd, ← h7, ← h10]
          refine List.map_congr_left fun m _ => ?_
          simp only [Function.comp, partResult]
          split
          · rfl
          · split <;> rfl

/-- C63 violated: with `useMultipartByteRanges: true` a range of one byte is refused without asking the server. -/
theorem C63_onebyte_violated (show_ : Nat → Bytes) (num int : Bytes → Option Int) (fetch : Fetch) (rs : List RangeReq) (r : RangeReq)
    (hr : r ∈ rs) (h : r.start = r.stop) : requestRanges show_ num int true fetch rs = .fail := by
  unfold requestRanges
  rw [if_pos rfl, if_pos]
  simp only [List.any_eq_true, decide_eq_true_eq]
  exact ⟨r, hr, by omega⟩

/-- C63 violated: with `useMultipartByteRanges: true` the length of the file is reported as 0 for all ranges of a
multipart reply, because its header is looked up in lower case; and a wrong expected length goes unnoticed. -/
theorem C63_total_violated (show_ : Nat → Bytes) (num int : Bytes → Option Int) (hs : PrintsDecimals show_) (hnum : ReadsDecimals num)
    (fetch : Fetch) (rs : List RangeReq) (hb : ∀ r ∈ rs, r.start < r.stop ∧ r.stop < 2 ^ 53)
    (boundary epilogue : Bytes) (ps : List WirePart) (body : List Bytes) (h1 : BoundaryText boundary) (hps : ps ≠ [])
    (h2 : ∀ p ∈ ps, RangePart p ∧ p.data ≠ [] ∧ ∀ h ∈ p.headers, h.1 ≠ text "content-range")
    (h3 : body.flatten = wireBody boundary ps epilogue)
    (h4 : fetch (rangeHeader (pairs rs)) = .ok ⟨206, some (contentTypeOf boundary), none, body⟩) :
    requestRanges show_ num int true fetch rs = .ok (ps.map fun p => ⟨p.data, some 0⟩) := by
  have hd := fun (p : WirePart) (hp : p ∈ ps) => And.intro (h2 p hp).1 (h2 p hp).2.1
  have hrun : parseMultipartBody num (contentTypeOf boundary) body = (ps.map fun p => ⟨p.data, p.headers.map (fun h => (h.1, shown h.2))⟩, .done) := by
    rw [parse_whole, delimiter_ok h1, h3]
    simp only
    exact Multipart.run_ok hnum boundary epilogue ps _ hd (by omega)
  unfold requestRanges
  rw [if_pos rfl, if_neg (by
    simp only [List.any_eq_true, decide_eq_true_eq, not_exists, not_and]
    intro r hr; have := hb r hr; omega), rangesText_ok hs rs (fun r hr => by have := hb r hr; omega), h4]
  have hinc : jsIncludes (ascii "multipart/byteranges") (contentTypeOf boundary) = true := by
    have : contentTypeOf boundary = 109 :: (contentTypeOf boundary).tail := rfl
    rw [this, jsIncludes, Bool.or_eq_true]
    left
    rw [← this, List.isPrefixOf_iff_prefix]
    exact ⟨text "; boundary=" ++ boundary, by unfold contentTypeOf; rw [← List.append_assoc]; rfl⟩
  have hct : ∃ c cs, contentTypeOf boundary = c :: cs := ⟨109, _, rfl⟩
  obtain ⟨c, cs, hct⟩ := hct
  simp only [Net.bind, manyReply]
  rw [if_neg (by decide), if_pos trivial, hct]
  simp only
  rw [← hct, if_pos hinc, multipartResult, hrun]
  obtain ⟨p, ps', rfl⟩ := List.exists_cons_of_ne_nil hps
  simp only [List.map_cons]
  have hz : ∀ q ∈ p :: ps', partResult int ⟨q.data, q.headers.map (fun h => (h.1, shown h.2))⟩ = ⟨q.data, some 0⟩ := by
    intro q hq
    unfold partResult
    have : recGet (q.headers.map (fun h => (h.1, shown h.2))) (ascii "content-range") = none := by
      unfold recGet
      rw [List.find?_eq_none.2]; · rfl
      intro a ha
      obtain ⟨x, hx, rfl⟩ := List.mem_map.1 ha
      have := (h2 q hq).2.2 x hx
      simpa [show ascii "content-range" = text "content-range" from rfl] using this
    simp only [this]
  rw [hz p (by simp), List.map_map]
  congr 2
  exact List.map_congr_left fun q hq => hz q (by simp [hq])

/-- C64 violated, for the whole request: whatever ranges are asked for, if the multipart reply breaks off before its
closing delimiter is complete, the request neither answers nor fails. -/
theorem C64_request_violated (show_ : Nat → Bytes) (num int : Bytes → Option Int) (hs : PrintsDecimals show_) (hnum : ReadsDecimals num)
    (fetch : Fetch) (rs : List RangeReq) (hb : ∀ r ∈ rs, r.start < r.stop ∧ r.stop < 2 ^ 53)
    (boundary : Bytes) (ps : List WirePart) (body : List Bytes) (h1 : BoundaryText boundary) (hp : ∀ p ∈ ps, RangePart p ∧ p.data ≠ []) (n : Nat)
    (hn : n ≤ (ps.flatMap (wirePart boundary) ++ text "--" ++ boundary).length) (hc : body.flatten = (wireBody boundary ps []).take n)
    (h4 : fetch (rangeHeader (pairs rs)) = .ok ⟨206, some (contentTypeOf boundary), none, body⟩) :
    requestRanges show_ num int true fetch rs = .hang := by
  have hrun := C64_cut_violated num hnum boundary h1 ps hp n body hn hc
  unfold requestRanges
  rw [if_pos rfl, if_neg (by
    simp only [List.any_eq_true, decide_eq_true_eq, not_exists, not_and]
    intro r hr; have := hb r hr; omega), rangesText_ok hs rs (fun r hr => by have := hb r hr; omega), h4]
  have hinc : jsIncludes (ascii "multipart/byteranges") (contentTypeOf boundary) = true := by
    have : contentTypeOf boundary = 109 :: (contentTypeOf boundary).tail := rfl
    rw [this, jsIncludes, Bool.or_eq_true]
    left
    rw [← this, List.isPrefixOf_iff_prefix]
    exact ⟨text "; boundary=" ++ boundary, by unfold contentTypeOf; rw [← List.append_assoc]; rfl⟩
  have hct : ∃ c cs, contentTypeOf boundary = c :: cs := ⟨109, _, rfl⟩
  obtain ⟨c, cs, hct⟩ := hct
  simp only [Net.bind, manyReply]
  rw [if_neg (by decide), if_pos trivial, hct]
  simp only
  rw [← hct, if_pos hinc, multipartResult]
  cases hpb : parseMultipartBody num (contentTypeOf boundary) body with
  | mk a b =>
    rw [hpb] at hrun
    simp only at hrun
    subst hrun
    rfl

/-- C63 violated: with `useMultipartByteRanges: false`, a range outside of the file, which the server refuses with status
416, is answered with the text of the error page, as if it were the bytes of the file. -/
theorem C63_refused_violated (show_ : Nat → Bytes) (num int : Bytes → Option Int) (hs : PrintsDecimals show_) (hnum : ReadsDecimals num)
    (fetch : Fetch) (r : RangeReq) (hb : r.start < 2 ^ 53 ∧ r.stop < 2 ^ 53) (he : r.expected = none) (n : Nat) (hn : n < 2 ^ 53)
    (ct : Option Bytes) (body : List Bytes)
    (h : fetch (rangeHeader [(r.start, r.stop)]) = .ok ⟨416, ct, some (text "bytes */" ++ decimal n), body⟩) :
    requestRanges show_ num int false fetch [r] = .ok [⟨body.flatten, some n⟩] := by
  have hh := rangesText_ok hs [r] (by simpa using hb)
  rw [rangesText] at hh
  have ht : totalOf num (text "bytes */" ++ decimal n) = some (n : Int) := by
    have e : text "bytes */" ++ decimal n = text "bytes *" ++ (47:UInt8) :: decimal n := by
      rw [show text "bytes */" = text "bytes *" ++ [47] from by decide]; simp
    unfold totalOf
    rw [e, jsSplit_cut (by decide), jsSplit_one (decimal_free (.inl (by decide)))]
    exact hnum n hn
  unfold requestRanges
  rw [if_neg (by decide), individual, hh, show pairs [r] = [(r.start, r.stop)] from rfl, h]
  simp only [Net.bind, individualReply, ht, he, wrongLength, individual]
  rfl

/-! ### A server meets the hypotheses -/

namespace RDemo

theorem decimal_inj {a b : Nat} (h : decimal a = decimal b) : a = b := by
  have key : ∀ n, (decimal n).foldl (fun n x => 10 * n + (x.toNat - 48)) 0 = n := by
    intro n
    induction n using decimal.induct with
    | case1 n h => rw [decimal, dif_pos h]; simp; omega
    | case2 n h ih => rw [decimal, dif_neg h, List.foldl_append, ih]; simp; omega
  rw [← key a, ← key b, h]

/-- One range in a header. -/
def one (r : Nat × Nat) : Bytes := decimal r.1 ++ text "-" ++ decimal r.2

theorem one_inj {a b : Nat × Nat} (h : one a = one b) : a = b := by
  have e : ∀ r : Nat × Nat, jsSplit 45 (one r) = [decimal r.1, decimal r.2] := by
    intro r
    have : one r = decimal r.1 ++ (45:UInt8) :: decimal r.2 := by
      unfold one; rw [show text "-" = [45] from by decide]; simp
    rw [this, jsSplit_cut (decimal_free (.inl (by decide))), jsSplit_one (decimal_free (.inl (by decide)))]
  have h2 := congrArg (jsSplit 45) h
  rw [e, e] at h2
  injection h2 with h3 h4
  injection h4 with h4 _
  exact Prod.ext (decimal_inj h3) (decimal_inj h4)

theorem split_ranges : ∀ rs : List (Nat × Nat), rs ≠ [] → jsSplit 44 (List.intercalate (text ",") (rs.map one)) = rs.map one := by
  have hfree : ∀ r, (44:UInt8) ∉ one r := by
    intro r
    unfold one
    simp only [List.mem_append, not_or]
    exact ⟨⟨decimal_free (.inl (by decide)), by decide⟩, decimal_free (.inl (by decide))⟩
  intro rs
  induction rs with
  | nil => intro h; exact absurd rfl h
  | cons r rs ih =>
    intro _
    cases rs with
    | nil => simp only [List.map_cons, List.map_nil]; rw [show List.intercalate (text ",") [one r] = one r from by simp [List.intercalate]]; exact jsSplit_one (hfree r)
    | cons q qs =>
      have e : List.intercalate (text ",") ((r :: q :: qs).map one) = one r ++ (44:UInt8) :: List.intercalate (text ",") ((q :: qs).map one) := by
        simp [List.intercalate, show text "," = [44] from by decide]
      rw [e, jsSplit_cut (hfree r), ih (by simp)]
      rfl

theorem header_inj {rs qs : List (Nat × Nat)} (hr : rs ≠ []) (hq : qs ≠ []) (h : rangeHeader rs = rangeHeader qs) : rs = qs := by
  have h2 := congrArg (jsSplit 44) (List.append_cancel_left h)
  have h3 : rs.map one = qs.map one := by
    rw [← split_ranges rs hr, ← split_ranges qs hq]; exact h2
  exact (List.map_inj_right (fun _ _ => one_inj)).1 h3

/-- The part that answers one range. -/
def partOf (F : Bytes) (r : Nat × Nat) : WirePart := ⟨[(text "Content-Range", contentRange r.1 r.2 (decimal F.length))], bytesOf F r.1 r.2⟩

theorem partOf_ok {F : Bytes} {r : Nat × Nat} (h1 : r.1 ≤ r.2) (h2 : r.2 < F.length) (hF : F.length < 2 ^ 53) : RangePart (partOf F r) := by
  refine ⟨⟨r.1, r.2, decimal F.length, by simp [partOf], ?_, by omega, ?_⟩, by simp [partOf], ?_, ?_⟩
  · simp only [partOf, bytesOf, List.length_take, List.length_drop]; omega
  · intro x hx
    have := decimal_digits _ x hx
    exact ⟨UInt8.lt_iff_toNat_lt.2 (by simp; omega), fun h => by subst h; simp at this⟩
  · simp only [partOf, List.mem_singleton]
    rintro h rfl
    show HeaderText (text "Content-Range")
    exact ⟨by unfold OneLine; decide, by decide, by decide, by decide⟩
  · simp only [partOf, List.mem_singleton]
    rintro h rfl
    have : ∀ c : UInt8, c.toNat < 32 → c ∉ contentRange r.1 r.2 (decimal F.length) := by
      intro c hc
      unfold contentRange
      simp only [List.mem_append, not_or]
      have : ∀ x ∈ text "bytes " ++ text "-" ++ text "/", 32 ≤ x.toNat := by decide
      refine ⟨⟨⟨⟨⟨fun h => ?_, decimal_free (.inl (by omega))⟩, fun h => ?_⟩, decimal_free (.inl (by omega))⟩, fun h => ?_⟩, decimal_free (.inl (by omega))⟩ <;>
      · have := this c (by simp [h]); omega
    exact ⟨this 13 (by decide), this 10 (by decide)⟩

open Classical in
/-- A server that answers several ranges with a multipart body, in one chunk. -/
noncomputable def server (F : Bytes) : Fetch := fun h =>
  if hx : ∃ rs : List (Nat × Nat), rs ≠ [] ∧ h = rangeHeader rs then
    match hx.choose with
    | [r] => .ok ⟨206, some (text "text/plain"), some (contentRange r.1 r.2 (decimal F.length)), [bytesOf F r.1 r.2]⟩
    | rs => .ok ⟨206, some (contentTypeOf (text "B")), none, [wireBody (text "B") (rs.map (partOf F)) []]⟩
  else .fail

theorem zip_self : ∀ (rs : List (Nat × Nat)) (y : (Nat × Nat) × (Nat × Nat)), y ∈ rs.zip rs → y.1 = y.2 := by
  intro rs
  induction rs with
  | nil => intro y hy; simp at hy
  | cons a as ih =>
    intro y hy
    rw [List.zip_cons_cons] at hy
    rcases List.mem_cons.1 hy with h | h
    · rw [h]
    · exact ih y h

theorem server_serves {F : Bytes} (hF : F.length < 2 ^ 53) : HttpServes F (server F) := by
  have hch : ∀ rs : List (Nat × Nat), rs ≠ [] → ∀ hx : ∃ qs : List (Nat × Nat), qs ≠ [] ∧ rangeHeader rs = rangeHeader qs, hx.choose = rs :=
    fun rs hr hx => (header_inj hr hx.choose_spec.1 hx.choose_spec.2).symm
  constructor
  · intro a b _ _
    refine ⟨text "text/plain", [bytesOf F a b], by decide, by decide, by simp, ?_⟩
    have hx : ∃ qs : List (Nat × Nat), qs ≠ [] ∧ rangeHeader [(a, b)] = rangeHeader qs := ⟨[(a, b)], by simp, rfl⟩
    unfold server
    rw [dif_pos hx, hch _ (by simp) hx]
  · intro rs h2 hin
    right
    have hne : rs ≠ [] := by intro h; subst h; simp at h2
    have hx : ∃ qs : List (Nat × Nat), qs ≠ [] ∧ rangeHeader rs = rangeHeader qs := ⟨rs, hne, rfl⟩
    refine ⟨text "B", rs.map (partOf F), [], [wireBody (text "B") (rs.map (partOf F)) []], MDemo.boundary_ok, ⟨by simp, ?_⟩, by simp, ?_⟩
    · intro x hx
      have hx1 := List.of_mem_zip hx
      obtain ⟨r, p⟩ := x
      have hp : p = partOf F r := by
        rw [List.zip_map_right] at hx
        obtain ⟨y, hy, hy2⟩ := List.mem_map.1 hx
        have : y.1 = y.2 := zip_self rs y hy
        simp only [Prod.map] at hy2
        injection hy2 with e1 e2
        rw [← e2, ← e1, id, this]
      subst hp
      exact ⟨partOf_ok (hin r hx1.1).1 (hin r hx1.1).2 hF, rfl, by simp [partOf]⟩
    · unfold server
      rw [dif_pos hx, hch _ hne hx]
      match rs, h2 with
      | _ :: _ :: _, _ => rfl

end RDemo

/-- The hypotheses of C63 are met: by a server with the file `[5, 6, 7, 8]`, for two ranges. -/
example : ∃ (show_ : Nat → Bytes) (num : Bytes → Option Int) (fetch : Fetch), PrintsDecimals show_ ∧ ReadsDecimals num ∧
    HttpServes [5, 6, 7, 8] fetch ∧ Inside [5, 6, 7, 8] [⟨0, 1, none⟩, ⟨1, 3, some 4⟩] ∧
    rightAnswer [5, 6, 7, 8] [⟨0, 1, none⟩, ⟨1, 3, some 4⟩] = [⟨[5, 6], some 4⟩, ⟨[6, 7, 8], some 4⟩] := by
  obtain ⟨num, hnum⟩ := MDemo.exists_num
  exact ⟨decimal, num, RDemo.server [5, 6, 7, 8], fun _ _ => rfl, hnum, RDemo.server_serves (by decide),
    by unfold Inside; simp, rfl⟩

end Appendable
