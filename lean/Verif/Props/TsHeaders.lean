import Verif.Props.TsRange
/-! C55: repeated headers.  C63: replies without parts. -/
namespace Appendable
open Spec Multipart RangeRequest

theorem lastValue_mem {l : List (Bytes × Bytes)} {k v : Bytes} (h : lastValue l k = some v) : (k, v) ∈ l := by
  unfold lastValue at h
  obtain ⟨x, hx, rfl⟩ := Option.map_eq_some_iff.1 h
  have h1 := List.find?_some hx
  have h2 := List.mem_of_find?_eq_some hx
  simp only [decide_eq_true_eq] at h1
  subst h1
  simpa using h2

theorem recGet_last {l : List (Bytes × Bytes)} (hv : ∀ h ∈ l, HeaderText h.2) (a : Bytes) :
    recGet (l.foldl (fun r h => recSet r h.1 (shown h.2)) []) a = lastValue l a := by
  rw [recGet_fold]
  cases h : lastValue l a with
  | none => rfl
  | some v => simp only [shown_clean (hv _ (lastValue_mem h))]

theorem contentLength_last {num : Bytes → Option Int} (hnum : ReadsDecimals num) {p : WirePart} (hp : RepeatPart p) (hd : p.data ≠ []) :
    contentLength num (p.headers.foldl (fun r h => recSet r h.1 (shown h.2)) []) = some p.data.length := by
  obtain ⟨a, b, total, h1, h2, h3, h4⟩ := hp.range
  have hl := List.length_pos_iff.2 hd
  unfold contentLength
  rw [show ascii "Content-Range" = text "Content-Range" from rfl, recGet_last hp.values, h1]
  obtain ⟨c, cs, hc⟩ : ∃ c cs, contentRange a b total = c :: cs := by
    have e1 : text "bytes " = [98, 121, 116, 101, 115, 32] := by decide
    unfold contentRange; rw [e1]; exact ⟨_, _, rfl⟩
  rw [hc]
  simp only
  rw [← hc, parseRange_ok hnum (by omega) h3 h4]
  simp only [show ascii "bytes" = text "bytes" from rfl, if_true]
  rw [if_neg (by omega)]
  congr 1
  omega

theorem part_last {num : Bytes → Option Int} (hnum : ReadsDecimals num) (B : Bytes) {p : WirePart} (hp : RepeatPart p) (hd : p.data ≠ [])
    (w : Bytes) (fuel : Nat) (hf : (wirePart B p).length ≤ fuel) :
    readPart whole num (text "--" ++ B) fuel (wirePart B p ++ w) =
      .ok ⟨p.data, p.headers.foldl (fun r h => recSet r h.1 (shown h.2)) []⟩ (crlf ++ w) := by
  unfold readPart wirePart
  simp only [wirePart, List.length_append] at hf
  have e : text "--" ++ B ++ crlf ++ p.headers.flatMap wireHeader ++ crlf ++ p.data ++ crlf ++ w =
      (text "--" ++ B) ++ (crlf ++ ((p.headers.flatMap wireHeader ++ crlf) ++ (p.data ++ (crlf ++ w)))) := by
    simp only [List.append_assoc]
  rw [e, lit_ok]
  simp only [MStep.andThen]
  have hbr : ∀ w', readBreak whole [13, 10] (crlf ++ w') = .ok () w' := fun w' => by simp [readBreak, whole, crlf]
  rw [hbr]
  simp only
  rw [headers_any p.headers [] fuel 0 _ hp.keys (fun h hh => (hp.values h hh).oneLine) (by decide)
    (by have : crlf.length = 2 := rfl; omega)]
  simp only
  rw [contentLength_last hnum hp hd]
  simp only
  rw [data_ok]

theorem run_last {num : Bytes → Option Int} (hnum : ReadsDecimals num) (B ep : Bytes) : ∀ (ps : List WirePart) (fuel : Nat),
    (∀ p ∈ ps, RepeatPart p ∧ p.data ≠ []) → (wireBody B ps ep).length < fuel →
    run whole num (text "--" ++ B) fuel (wireBody B ps ep) =
      (ps.map fun p => ⟨p.data, p.headers.foldl (fun r h => recSet r h.1 (shown h.2)) []⟩, .done) := by
  intro ps
  induction ps with
  | nil => intro fuel _ hf; exact run_ok hnum B ep [] fuel (by simp) hf
  | cons p ps ih =>
    intro fuel hp hf
    obtain ⟨f, rfl⟩ : ∃ f, fuel = f + 1 := ⟨fuel - 1, by omega⟩
    have e : wireBody B (p :: ps) ep = wirePart B p ++ wireBody B ps ep := by simp [wireBody]
    have hlen := congrArg List.length e
    have hpos : 0 < (wirePart B p).length := by simp [wirePart, crlf]; omega
    rw [List.length_append] at hlen
    rw [e]
    simp only [run]
    rw [part_last hnum B (hp p (by simp)).1 (hp p (by simp)).2 _ _ (by omega)]
    simp only
    rw [show ([13, 10] : Bytes) = crlf from rfl, lit_ok]
    simp only
    rw [ih f (fun q hq => hp q (by simp [hq])) (by omega)]
    rfl

/-- C55, repeated headers: from every body whose parts repeat headers the parser yields the data of all parts, and of several values of a header
the last.  (Partial: as `C55_parts_partial`; that earlier values are lost is what the record of headers admits.) -/
theorem C55_repeated_partial (num : Bytes → Option Int) (hnum : ReadsDecimals num) (boundary epilogue : Bytes) (hb : BoundaryText boundary)
    (ps : List WirePart) (hp : ∀ p ∈ ps, RepeatPart p ∧ p.data ≠ []) (chunks : List Bytes) (hc : chunks.flatten = wireBody boundary ps epilogue) :
    ∃ qs, parseMultipartBody num (contentTypeOf boundary) chunks = (qs, .done) ∧ qs.length = ps.length ∧
      ∀ x ∈ qs.zip ps, x.1.data = x.2.data ∧ ∀ name, recGet x.1.headers name = lastValue x.2.headers name := by
  refine ⟨ps.map fun p => ⟨p.data, p.headers.foldl (fun r h => recSet r h.1 (shown h.2)) []⟩, ?_, by simp, ?_⟩
  · rw [parse_whole, delimiter_ok hb, hc]
    simp only
    rw [run_last hnum boundary epilogue ps _ hp (by omega)]
  · intro x hx
    rw [List.zip_map_left] at hx
    obtain ⟨⟨a, b⟩, hy, rfl⟩ := List.mem_map.1 hx
    have : a = b := by
      rw [show ps.zip ps = ps.map (fun p => (p, p)) from by
        clear hp hc hx hy
        induction ps with
        | nil => rfl
        | cons p ps ih => simp [ih]] at hy
      obtain ⟨q, _, hq⟩ := List.mem_map.1 hy
      cases hq; rfl
    subst this
    have ha : a ∈ ps := (List.of_mem_zip hy).1
    exact ⟨rfl, fun name => recGet_last (hp a ha).1.values name⟩

/-- Non-vacuity: a part with two `Content-Range` headers, of which the first is wrong. -/
example : ∃ p : WirePart, RepeatPart p ∧ p.data ≠ [] ∧ p.headers.length = 3 ∧ ¬ (p.headers.map (·.1)).Nodup := by
  have e0 : decimal 0 = [48] := by simp [decimal]
  have e3 : decimal 3 = [51] := by simp [decimal]
  have e4 : decimal 4 = [52] := by simp [decimal]
  have h34 : contentRange 3 4 (text "9") = text "bytes 3-4/9" := by unfold contentRange; rw [e3, e4]; decide
  have h00 : contentRange 0 0 (text "9") = text "bytes 0-0/9" := by unfold contentRange; rw [e0]; decide
  refine ⟨⟨[(text "Content-Range", text "bytes 0-0/9"), (text "A", text "x"), (text "Content-Range", text "bytes 3-4/9")], [7, 8]⟩,
    ⟨⟨3, 4, text "9", by rw [h34]; decide, rfl, by decide, by decide⟩, ?_, ?_⟩, by decide, rfl, by decide⟩ <;>
  · intro h hh
    simp only [List.mem_cons, List.not_mem_nil, or_false] at hh
    rcases hh with rfl | rfl | rfl <;> exact ⟨by unfold OneLine; decide, by decide, by decide, by decide⟩

/-- C63 (partial: about a server that breaks the protocol): a multipart reply without any part is not taken for an answer, the request fails. -/
theorem C63_noparts_partial (show_ : Nat → Bytes) (num int : Bytes → Option Int) (hs : PrintsDecimals show_) (hnum : ReadsDecimals num)
    (fetch : Fetch) (rs : List RangeReq) (hb : ∀ r ∈ rs, r.start < r.stop ∧ r.stop < 2 ^ 53)
    (boundary epilogue : Bytes) (body : List Bytes) (h1 : BoundaryText boundary) (h3 : body.flatten = wireBody boundary [] epilogue)
    (h4 : fetch (rangeHeader (pairs rs)) = .ok ⟨206, some (contentTypeOf boundary), none, body⟩) :
    requestRanges show_ num int true fetch rs = .fail := by
  have hrun : parseMultipartBody num (contentTypeOf boundary) body = ([], .done) := by
    rw [parse_whole, delimiter_ok h1, h3]
    exact Multipart.run_ok hnum boundary epilogue [] _ (by simp) (by omega)
  unfold requestRanges
  rw [if_pos rfl, if_neg (by
    simp only [List.any_eq_true, decide_eq_true_eq, not_exists, not_and]
    intro r hr; have := hb r hr; omega), rangesText_ok hs rs (fun r hr => by have := hb r hr; omega), h4]
  have hinc : jsIncludes (ascii "multipart/byteranges") (contentTypeOf boundary) = true := by
    have : contentTypeOf boundary = 109 :: (contentTypeOf boundary).tail := rfl
    rw [this, jsIncludes, Bool.or_eq_true]
    left
    rw [← this, List.isPrefixOf_iff_prefix]
    exact ⟨text "; boundary=" ++ boundary, by unfold contentTypeOf; rw [← List.append_assoc]; rfl⟩
  have hct : ∃ c cs, contentTypeOf boundary = c :: cs := ⟨109, _, rfl⟩
  obtain ⟨c, cs, hct⟩ := hct
  simp only [Net.bind, manyReply]
  rw [if_neg (by decide), if_pos trivial, hct]
  simp only
  rw [← hct, if_pos hinc, multipartResult, hrun]
