import Verif.Lemmas.MultipartCut
import Verif.Spec.Range
/-! C55, C63, C64: multipart bodies and range requests. -/
namespace Appendable
open Spec Multipart

/-- C55, first half, in full: the parts and the outcome depend on the bytes of the body only, not on the chunks in which
they arrive; whatever the body is. -/
theorem C55_chunking (num : Bytes → Option Int) (contentType : Bytes) (c1 c2 : List Bytes) (h : c1.flatten = c2.flatten) :
    parseMultipartBody num contentType c1 = parseMultipartBody num contentType c2 := by
  rw [parse_whole, parse_whole, h]

/-- C55, second half: from every body that a server serializes with `Content-Range` headers, however it is cut into
chunks, the parser yields exactly the parts with their headers, and ends.  (Partial: header values with a colon, other
spellings of `Content-Range`, and text before the first part are excluded, see below.) -/
theorem C55_parts_partial (num : Bytes → Option Int) (hnum : ReadsDecimals num) (boundary epilogue : Bytes) (hb : BoundaryText boundary)
    (ps : List WirePart) (hp : ∀ p ∈ ps, RangePart p ∧ p.data ≠ [] ∧ ∀ h ∈ p.headers, HeaderText h.2)
    (chunks : List Bytes) (hc : chunks.flatten = wireBody boundary ps epilogue) :
    parseMultipartBody num (contentTypeOf boundary) chunks = (ps.map fun p => ⟨p.data, p.headers⟩, .done) := by
  rw [parse_whole, delimiter_ok hb, hc]
  simp only
  rw [Multipart.run_ok hnum boundary epilogue ps _ (fun p h => ⟨(hp p h).1, (hp p h).2.1⟩) (by omega)]
  congr 1
  refine List.map_congr_left fun p h => ?_
  congr 1
  conv => rhs; rw [← List.map_id p.headers]
  exact List.map_congr_left fun x hx => by rw [shown_clean ((hp p h).2.2 x hx)]; rfl

/-- C55: the data are right also if other header values contain colons or blanks. -/
theorem C55_data_partial (num : Bytes → Option Int) (hnum : ReadsDecimals num) (boundary epilogue : Bytes) (hb : BoundaryText boundary)
    (ps : List WirePart) (hp : ∀ p ∈ ps, RangePart p ∧ p.data ≠ [])
    (chunks : List Bytes) (hc : chunks.flatten = wireBody boundary ps epilogue) :
    ∃ qs, parseMultipartBody num (contentTypeOf boundary) chunks = (qs, .done) ∧ qs.map MPart.data = ps.map WirePart.data := by
  rw [parse_whole, delimiter_ok hb, hc]
  simp only
  rw [Multipart.run_ok hnum boundary epilogue ps _ hp (by omega)]
  exact ⟨_, rfl, by rw [List.map_map]; rfl⟩

/-- C55 violated: header names are case-insensitive, but a body whose first part spells `Content-Range` in any other way
(or has no such header) is rejected. -/
theorem C55_case_violated (num : Bytes → Option Int) (boundary epilogue : Bytes) (hb : BoundaryText boundary)
    (p : WirePart) (ps : List WirePart) (hn : (p.headers.map (·.1)).Nodup) (hk : ∀ h ∈ p.headers, HeaderText h.1)
    (hv : ∀ h ∈ p.headers, OneLine h.2) (hx : ∀ h ∈ p.headers, h.1 ≠ text "Content-Range")
    (chunks : List Bytes) (hc : chunks.flatten = wireBody boundary (p :: ps) epilogue) :
    parseMultipartBody num (contentTypeOf boundary) chunks = ([], .fail) := by
  rw [parse_whole, delimiter_ok hb, hc]
  simp only
  have e : wireBody boundary (p :: ps) epilogue = (text "--" ++ boundary) ++ (crlf ++ ((p.headers.flatMap wireHeader ++ crlf) ++
      (p.data ++ (crlf ++ wireBody boundary ps epilogue)))) := by
    simp [wireBody, wirePart]
  have hl := congrArg List.length e
  simp only [List.length_append] at hl
  have hbr : ∀ w', readBreak whole [13, 10] (crlf ++ w') = .ok () w' := fun w' => by simp [readBreak, whole, crlf]
  have hget : recGet (p.headers.map (fun h => (h.1, shown h.2))) (ascii "Content-Range") = none := by
    unfold recGet
    rw [List.find?_eq_none.2]; · rfl
    intro a ha
    obtain ⟨h, hh, rfl⟩ := List.mem_map.1 ha
    have := hx h hh
    simpa [show ascii "Content-Range" = text "Content-Range" from rfl] using this
  have : readPart whole num (text "--" ++ boundary) ((wireBody boundary (p :: ps) epilogue).length + 1) (wireBody boundary (p :: ps) epilogue) =
      .stop .fail := by
    unfold readPart
    rw [e, lit_ok]
    simp only [MStep.andThen]
    rw [hbr]
    simp only
    rw [headers_ok p.headers [] _ 0 _ hk hv (by simpa using hn) (by decide) (by simp only [List.length_append]; have : crlf.length = 2 := rfl; omega)]
    simp only [List.nil_append, contentLength, hget]
  simp only [run, this]

/-- C55 violated: a line break before the first delimiter, which the standard allows and nginx sends, makes the parser
reject the body. -/
theorem C55_preamble_violated (num : Bytes → Option Int) (boundary epilogue : Bytes) (hb : BoundaryText boundary)
    (ps : List WirePart) (chunks : List Bytes) (hc : chunks.flatten = crlf ++ wireBody boundary ps epilogue) :
    parseMultipartBody num (contentTypeOf boundary) chunks = ([], .fail) := by
  rw [parse_whole, delimiter_ok hb, hc]
  have : text "--" = [45, 45] := by decide
  simp [run, readPart, this, crlf, readLit, whole, MStep.andThen]

/-- C55 violated: a boundary may be given in quotes, which do not belong to it (RFC 2046, 5.1.1); every body announced so is
rejected. -/
theorem C55_quoted_violated (num : Bytes → Option Int) (boundary epilogue : Bytes) (hb : BoundaryText boundary) (hq : 34 ∉ boundary)
    (ps : List WirePart) (chunks : List Bytes) (hc : chunks.flatten = wireBody boundary ps epilogue) :
    parseMultipartBody num (contentTypeOf (34 :: boundary ++ [34])) chunks = ([], .fail) := by
  have hb' : BoundaryText (34 :: boundary ++ [34]) := by
    refine ⟨by simp, fun x hx => ?_⟩
    simp only [List.cons_append, List.mem_cons, List.mem_append, List.not_mem_nil, or_false] at hx
    rcases hx with rfl | hx | rfl
    · decide
    · exact hb.2 x hx
    · decide
  rw [parse_whole, delimiter_ok hb', hc]
  obtain ⟨c, cs, rfl⟩ : ∃ c cs, boundary = c :: cs := by
    cases boundary with
    | nil => exact absurd rfl hb.1
    | cons c cs => exact ⟨c, cs, rfl⟩
  have hne : c ≠ 34 := fun h => hq (by simp [h])
  have h2 : text "--" = [45, 45] := by decide
  obtain ⟨w, hw⟩ : ∃ w, wireBody (c :: cs) ps epilogue = 45 :: 45 :: c :: w := by
    cases ps with
    | nil => exact ⟨_, by simp only [wireBody, h2, List.flatMap_nil, List.nil_append, List.cons_append, List.append_assoc]; rfl⟩
    | cons p ps => exact ⟨_, by simp only [wireBody, wirePart, h2, List.flatMap_cons, List.nil_append, List.cons_append, List.append_assoc]; rfl⟩
  rw [hw]
  simp [run, readPart, h2, readLit, whole, MStep.andThen, hne]

namespace MDemo

/-- Bytes 3 and 4 of a file of 9 bytes. -/
def part : WirePart := ⟨[(text "Content-Range", contentRange 3 4 (text "9")), (text "Link", text "http://x/")], [7, 8]⟩

theorem part_ok : RangePart part := by
  have h34 : contentRange 3 4 (text "9") = text "bytes 3-4/9" := by
    have e3 : decimal 3 = [51] := by simp [decimal]
    have e4 : decimal 4 = [52] := by simp [decimal]
    unfold contentRange
    rw [e3, e4]; decide
  refine ⟨⟨3, 4, text "9", by simp [part], rfl, by decide, by decide⟩, by decide, ?_, ?_⟩
  · intro h hh
    simp only [part, List.mem_cons, List.not_mem_nil, or_false] at hh
    rcases hh with rfl | rfl
    · exact ⟨by unfold OneLine; decide, by decide, by decide, by decide⟩
    · exact ⟨by unfold OneLine; decide, by decide, by decide, by decide⟩
  · intro h hh
    simp only [part, List.mem_cons, List.not_mem_nil, or_false] at hh
    rcases hh with rfl | rfl
    · unfold OneLine; rw [h34]; decide
    · unfold OneLine; decide

theorem boundary_ok : BoundaryText (text "B") := by unfold BoundaryText; decide

example (num : Bytes → Option Int) : parseMultipartBody num (contentTypeOf (34 :: text "B" ++ [34])) [wireBody (text "B") [part] []] = ([], .fail) :=
  C55_quoted_violated num (text "B") [] boundary_ok (by decide) [part] _ (by simp)

/-- There is such a `Number`. -/
theorem exists_num : ∃ num : Bytes → Option Int, ReadsDecimals num := by
  refine ⟨fun b => some ((b.foldl (fun n x => 10 * n + (x.toNat - 48)) 0 : Nat) : Int), fun n _ => ?_⟩
  suffices h : ∀ n, (decimal n).foldl (fun n x => 10 * n + (x.toNat - 48)) 0 = n by simp only [h]
  intro n
  induction n using decimal.induct with
  | case1 n h =>
    rw [decimal, dif_pos h]
    simp; omega
  | case2 n h ih =>
    rw [decimal, dif_neg h, List.foldl_append, ih]
    simp; omega

end MDemo

/-- C55 violated: a header value with a colon is cut off there. -/
theorem C55_colon_violated : ∃ (boundary : Bytes) (p : WirePart), BoundaryText boundary ∧ RangePart p ∧ p.data ≠ [] ∧
    ∀ num, ReadsDecimals num → ∀ chunks : List Bytes, chunks.flatten = wireBody boundary [p] [] →
      ∃ hs, parseMultipartBody num (contentTypeOf boundary) chunks = ([⟨p.data, hs⟩], .done) ∧ hs ≠ p.headers := by
  refine ⟨text "B", MDemo.part, MDemo.boundary_ok, MDemo.part_ok, by decide, fun num hnum chunks hc => ?_⟩
  rw [parse_whole, delimiter_ok MDemo.boundary_ok, hc]
  simp only
  rw [Multipart.run_ok hnum _ [] [MDemo.part] _ (by simp only [List.mem_singleton]; rintro p rfl; exact ⟨MDemo.part_ok, by decide⟩) (by omega)]
  refine ⟨_, rfl, fun he => ?_⟩
  have := congrArg (fun l => (l[1]?).map Prod.snd) he
  simp only [MDemo.part, List.map_cons] at this
  exact absurd this (by decide)

/-- The theorems above are about something: two parts in three chunks. -/
example : ∃ (num : Bytes → Option Int) (chunks : List Bytes), ReadsDecimals num ∧ chunks.length = 3 ∧
    chunks.flatten = wireBody (text "B") [MDemo.part, MDemo.part] [13, 10] ∧
    ∀ p ∈ [MDemo.part, MDemo.part], RangePart p ∧ p.data ≠ [] := by
  obtain ⟨num, hnum⟩ := MDemo.exists_num
  refine ⟨num, [(wireBody (text "B") [MDemo.part, MDemo.part] [13, 10]).take 1, [], (wireBody (text "B") [MDemo.part, MDemo.part] [13, 10]).drop 1],
    hnum, rfl, by simp only [List.flatten_cons, List.flatten_nil, List.append_nil, List.nil_append, List.take_append_drop], ?_⟩
  intro p hp
  have : p = MDemo.part := by simpa using hp
  subst this
  exact ⟨MDemo.part_ok, by decide⟩

/-! ### C64: replies that break off -/

/-- C64 violated, for every body and every place: if the connection ends (regularly, for the stream) anywhere before the
closing delimiter is complete, then the generator neither ends nor throws: it loops for ever. -/
theorem C64_cut_violated (num : Bytes → Option Int) (hnum : ReadsDecimals num) (boundary : Bytes) (hb : BoundaryText boundary)
    (ps : List WirePart) (hp : ∀ p ∈ ps, RangePart p ∧ p.data ≠ []) (n : Nat) (chunks : List Bytes)
    (hn : n ≤ (ps.flatMap (wirePart boundary) ++ text "--" ++ boundary).length)
    (hc : chunks.flatten = (wireBody boundary ps []).take n) :
    (parseMultipartBody num (contentTypeOf boundary) chunks).2 = .hang := by
  rw [parse_whole, delimiter_ok hb]
  simp only
  refine run_cut hnum boundary ps hp _ ((ps.flatMap (wirePart boundary) ++ text "--" ++ boundary).drop n) ?_ _
  rw [hc]
  have : (wireBody boundary ps []).take n = (ps.flatMap (wirePart boundary) ++ text "--" ++ boundary).take n := by
    unfold wireBody
    rw [List.append_nil, List.take_append_of_le_length hn]
  rw [this, List.take_append_drop]

/-- C64, what the generator has yielded before that: at least the parts whose data had arrived. -/
theorem C64_arrived_partial (num : Bytes → Option Int) (hnum : ReadsDecimals num) (boundary : Bytes) (hb : BoundaryText boundary)
    (ps qs : List WirePart) (hp : ∀ p ∈ ps, RangePart p ∧ p.data ≠ []) (n : Nat) (chunks : List Bytes)
    (hn : (ps.flatMap (wirePart boundary)).length ≤ n + 2) (hc : chunks.flatten = (wireBody boundary (ps ++ qs) []).take n) :
    ∃ more, (parseMultipartBody num (contentTypeOf boundary) chunks).1 =
      (ps.map fun p => ⟨p.data, p.headers.map (fun h => (h.1, shown h.2))⟩) ++ more := by
  rw [parse_whole, delimiter_ok hb]
  simp only
  have hbody : wireBody boundary (ps ++ qs) [] = ps.flatMap (wirePart boundary) ++ wireBody boundary qs [] := by
    unfold wireBody; simp [List.flatMap_append]
  have hwl : 2 ≤ (wireBody boundary qs []).length := by
    have : (text "--").length = 2 := by decide
    unfold wireBody; simp only [List.length_append, this]; omega
  refine run_arrived hnum boundary ps chunks.flatten ((wireBody boundary (ps ++ qs) []).drop n) (wireBody boundary qs []) _ hp ?_ ?_ ?_
  · rw [hc, List.take_append_drop, hbody]
  · rw [hc, List.length_take, hbody, List.length_append]; omega
  · omega

/-- C64 as far as it goes: with the closing delimiter the generator ends. -/
theorem C64_closed_partial (num : Bytes → Option Int) (hnum : ReadsDecimals num) (boundary epilogue : Bytes) (hb : BoundaryText boundary)
    (ps : List WirePart) (hp : ∀ p ∈ ps, RangePart p ∧ p.data ≠ []) (n : Nat) (chunks : List Bytes)
    (hn : (ps.flatMap (wirePart boundary) ++ text "--" ++ boundary).length < n)
    (hc : chunks.flatten = (wireBody boundary ps epilogue).take n) :
    (parseMultipartBody num (contentTypeOf boundary) chunks).2 = .done := by
  rw [parse_whole, delimiter_ok hb]
  simp only
  obtain ⟨m, hm⟩ : ∃ m, n = (ps.flatMap (wirePart boundary) ++ text "--" ++ boundary).length + 1 + m := ⟨_, (Nat.add_sub_of_le hn).symm⟩
  have e : chunks.flatten = (ps.flatMap (wirePart boundary) ++ text "--" ++ boundary) ++ 45 :: ((45 :: epilogue).take m) := by
    have e2 : wireBody boundary ps epilogue = (ps.flatMap (wirePart boundary) ++ text "--" ++ boundary) ++ (45 :: 45 :: epilogue) := by
      have : text "--" = [45, 45] := by decide
      unfold wireBody; rw [this]; simp
    rw [hc, e2, hm, Nat.add_assoc, List.take_length_add_append, Nat.add_comm 1 m, List.take_succ_cons]
  rw [e]
  generalize hx : (45 :: ((45 :: epilogue).take m) : Bytes) = x
  have key : ∀ (qs : List WirePart) (f : Nat), (∀ p ∈ qs, RangePart p ∧ p.data ≠ []) →
      (qs.flatMap (wirePart boundary) ++ text "--" ++ boundary ++ x).length < f →
      (run whole num (text "--" ++ boundary) f (qs.flatMap (wirePart boundary) ++ text "--" ++ boundary ++ x)).2 = .done := by
    intro qs
    induction qs with
    | nil =>
      intro f _ hf
      obtain ⟨f, rfl⟩ : ∃ g, f = g + 1 := ⟨f - 1, by omega⟩
      have : readPart whole num (text "--" ++ boundary) (f + 1) (text "--" ++ boundary ++ x) = .stop .done := by
        unfold readPart
        rw [lit_ok]
        simp [MStep.andThen, ← hx, readBreak, whole]
      simp only [run, List.flatMap_nil, List.nil_append, this]
    | cons q qs ih =>
      intro f hq hf
      obtain ⟨f, rfl⟩ : ∃ g, f = g + 1 := ⟨f - 1, by omega⟩
      have e : (q :: qs).flatMap (wirePart boundary) ++ text "--" ++ boundary ++ x =
          wirePart boundary q ++ (qs.flatMap (wirePart boundary) ++ text "--" ++ boundary ++ x) := by simp
      have hlen := congrArg List.length e
      have hpos : 0 < (wirePart boundary q).length := by simp [wirePart, crlf]; omega
      rw [List.length_append (as := wirePart boundary q)] at hlen
      rw [e]
      simp only [run]
      rw [Multipart.part_ok hnum boundary (hq q (by simp)).1 (hq q (by simp)).2 _ _ (by omega)]
      simp only
      rw [show ([13, 10] : Bytes) = crlf from rfl, lit_ok]
      exact ih f (fun p hp => hq p (by simp [hp])) (by omega)
  exact key ps _ hp (by omega)

/-- An empty body, in no chunks at all. -/
example : ([] : List Bytes).flatten = (wireBody (text "B") [MDemo.part] []).take 0 := rfl

/-- A body of two parts that breaks off right behind the data of the first. -/
example : ([MDemo.part].flatMap (wirePart (text "B"))).length ≤ ([MDemo.part].flatMap (wirePart (text "B"))).length - 2 + 2 ∧
    ([MDemo.part].flatMap (wirePart (text "B"))).length - 2 ≤ (([MDemo.part] ++ [MDemo.part]).flatMap (wirePart (text "B")) ++ text "--" ++ text "B").length ∧
    (∀ p ∈ [MDemo.part] ++ [MDemo.part], RangePart p ∧ p.data ≠ []) := by
  refine ⟨by omega, by decide +kernel, ?_⟩
  intro p hp
  have : p = MDemo.part := by simpa using hp
  subst this
  exact ⟨MDemo.part_ok, by decide⟩

end Appendable
