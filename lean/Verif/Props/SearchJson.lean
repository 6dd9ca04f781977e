import Verif.Spec.SearchJson
import Verif.Props.JsonUtf8
import Verif.Props.QueryJsonl
/-! C76 for files of JSON texts. -/
namespace Appendable
open Spec Tree

variable {num : Bytes → Option UInt64} {nfkd : Bytes → Bytes} {hs : List Bytes} {data tail name like : Bytes} {i : IndexFile} {s : PF} {recs : List Rec}
  {db : TsDb} {S : Type} {A : ScoreArith S} {lo hi : Nat}

/-- The lines of the records and their fields. -/
theorem searchJson_file (h : SearchJson num nfkd hs data i s recs tail name db) :
    SearchFile ⟨goLex num, nfkd⟩ hs data i s (recs.map fun r => (r.text, r.fields num)) tail name db := by
  have hmm : (recs.map (fun r => (r.text, r.fields num))).map (·.1) = recs.map Rec.text := by rw [List.map_map]; rfl
  have hok := recs_line (nfkd := nfkd) h.lines h.ok h.size
  refine ⟨h.run, by rw [hmm]; exact h.lines, ?_, h.size, h.header, ?_, ?_, h.sees⟩
  · intro x hx
    obtain ⟨h1, h2, h3⟩ := hok x hx
    refine ⟨h1, ?_, h3⟩
    obtain ⟨r, hr, rfl⟩ := List.mem_map.1 hx
    have hm : ∀ (m : Members) (f : Bool), 1 ≤ (m.text f).length := by
      intro m f
      cases m with
      | nil => exact Nat.le_refl _
      | cons pre key gap mid v post rest =>
        simp only [Members.text, List.length_append, List.length_cons]
        omega
    have := hm r.members true
    simp only [Rec.text, Doc.text, List.length_append, List.length_cons]
    omega
  · obtain ⟨r, hr, hne⟩ := h.some_
    exact ⟨_, List.mem_map.2 ⟨r, hr, rfl⟩, hne⟩
  · intro x hx t ht
    obtain ⟨_, _, h3⟩ := hok x hx
    obtain ⟨r, hr, rfl⟩ := List.mem_map.1 hx
    obtain ⟨k1, k2⟩ := h.short r hr t ht
    refine ⟨k1, h.valid t ?_, k2⟩
    obtain ⟨f, hf, ht⟩ := List.mem_flatMap.1 ht
    unfold textOf at ht
    split at ht
    · rename_i v hv
      split at ht
      · obtain rfl := List.mem_singleton.1 ht
        obtain ⟨e, rest, hl⟩ := (h3 f hf).text _ hv
        exact C75_decoded_partial num _ _ e (by show _ ∈ (goLex num _).toks; rw [show (goLex num _).toks = _ from hl]; exact List.mem_cons_self)
      · cases ht
    · cases ht

/-- C76 for files of JSON texts (partial: as `C76_found_partial`): a search returns exactly the lines with a text in the field that has an n-gram in common
with the phrase. -/
theorem C76_json_partial (h : SearchJson num nfkd hs data i s recs tail name db) {q : TsSearch} (hq : Asks q name like lo hi)
    (hfill : Filled nfkd name like lo hi (recs.map fun r => (r.text, r.fields num)))
    (hone : OnePage nfkd hs name like lo hi (recs.map fun r => (r.text, r.fields num)))
    {lower : JsString → JsString} (hl : ∀ w : Bytes, Ascii w → lower (utf16 w) = utf16 (w.map lowered)) (rand : Nat → Nat) :
    ∃ rows : List (Bytes × S), Finds db A lower rand q ⟨rows, none⟩ ∧
      ∀ line, line ∈ rows.map (·.1) ↔ ∃ r ∈ recs, r.text = line ∧ LineMatches nfkd name like lo hi (r.fields num) := by
  obtain ⟨rows, h1, h2⟩ := C76_found_partial (A := A) (searchJson_file h) hq hfill hone hl rand
  refine ⟨rows, h1, fun line => (h2 line).trans ?_⟩
  constructor
  · rintro ⟨x, hx, rfl, h3⟩
    obtain ⟨r, hr, rfl⟩ := List.mem_map.1 hx
    exact ⟨r, hr, rfl, h3⟩
  · rintro ⟨r, hr, rfl, h3⟩
    exact ⟨_, List.mem_map.2 ⟨r, hr, rfl⟩, rfl, h3⟩

/-- C76 for files of JSON texts (partial: as `C76_sound_partial`): a search returns only such lines, however large the indexes are. -/
theorem C76_json_sound_partial (h : SearchJson num nfkd hs data i s recs tail name db) {q : TsSearch} (hq : Asks q name like lo hi)
    (hfill : Filled nfkd name like lo hi (recs.map fun r => (r.text, r.fields num)))
    {lower : JsString → JsString} (hl : ∀ w : Bytes, Ascii w → lower (utf16 w) = utf16 (w.map lowered)) (rand : Nat → Nat) :
    ∃ rows : List (Bytes × S), Finds db A lower rand q ⟨rows, none⟩ ∧
      ∀ line ∈ rows.map (·.1), ∃ r ∈ recs, r.text = line ∧ LineMatches nfkd name like lo hi (r.fields num) := by
  obtain ⟨rows, h1, h2⟩ := C76_sound_partial (A := A) (searchJson_file h) hq hfill hl rand
  refine ⟨rows, h1, fun line hline => ?_⟩
  obtain ⟨x, hx, rfl, h3⟩ := h2 line hline
  obtain ⟨r, hr, rfl⟩ := List.mem_map.1 hx
  exact ⟨r, hr, rfl, h3⟩

/-- C77 for files of JSON texts (partial: as `C77_multiplicity_partial`): each line is returned once for every n-gram of the phrase and every
occurrence of that n-gram in the texts of the field. -/
theorem C77_json_partial (h : SearchJson num nfkd hs data i s recs tail name db) {q : TsSearch} (hq : Asks q name like lo hi)
    (hfill : Filled nfkd name like lo hi (recs.map fun r => (r.text, r.fields num)))
    (hone : OnePage nfkd hs name like lo hi (recs.map fun r => (r.text, r.fields num)))
    {lower : JsString → JsString} (hl : ∀ w : Bytes, Ascii w → lower (utf16 w) = utf16 (w.map lowered)) (rand : Nat → Nat) :
    ∃ rows : List (Bytes × S), Finds db A lower rand q ⟨rows, none⟩ ∧
      (rows.map (·.1)).Perm ((tokensOf like lo hi).flatMap fun g => recs.flatMap fun r => (textsOf name (r.fields num)).flatMap fun t =>
        List.replicate ((ngrams g.1 (letters nfkd t)).count g.2) r.text) := by
  obtain ⟨rows, h1, h2⟩ := C77_multiplicity_partial (A := A) (searchJson_file h) hq hfill hone hl rand
  refine ⟨rows, h1, h2.trans (.of_eq ?_)⟩
  congr 1
  funext g
  unfold gramsOf
  rw [List.flatMap_map]
  generalize recs = l
  induction l with
  | nil => rfl
  | cons r l ih =>
    rw [List.flatMap_cons, List.flatMap_cons, List.filter_append, List.map_append, ih]
    congr 1
    generalize textsOf name (r.fields num) = ts
    induction ts with
    | nil => rfl
    | cons t ts ih2 =>
      rw [List.flatMap_cons, List.flatMap_cons, List.filter_append, List.map_append, ih2]
      congr 1
      generalize ngrams g.1 (letters nfkd t) = ws
      induction ws with
      | nil => rfl
      | cons w ws ih3 =>
        rw [List.map_cons, List.count_cons]
        by_cases hw : w = g.2
        · rw [List.filter_cons_of_pos (by simpa using hw), List.map_cons, ih3, hw]
          simp [List.replicate_succ]
        · rw [List.filter_cons_of_neg (by simpa using hw), ih3]
          simp [hw]

/-- C77 is violated for files of JSON texts: a line in which an n-gram of the phrase occurs twice is returned more than once. -/
theorem C77_json_violated (h : SearchJson num nfkd hs data i s recs tail name db) {q : TsSearch} (hq : Asks q name like lo hi)
    (hfill : Filled nfkd name like lo hi (recs.map fun r => (r.text, r.fields num)))
    (hone : OnePage nfkd hs name like lo hi (recs.map fun r => (r.text, r.fields num)))
    {lower : JsString → JsString} (hl : ∀ w : Bytes, Ascii w → lower (utf16 w) = utf16 (w.map lowered)) (rand : Nat → Nat)
    {r : Rec} (hr : r ∈ recs) {t : Bytes} (ht : t ∈ textsOf name (r.fields num)) {n : Nat} {v : Bytes} (h1 : lo ≤ n) (h2 : n ≤ hi)
    (hv : v ∈ ngrams n like) (hc : 2 ≤ (ngrams n (letters nfkd t)).count v) :
    ∃ rows : List (Bytes × S), Finds db A lower rand q ⟨rows, none⟩ ∧ 2 ≤ (rows.map (·.1)).count r.text :=
  C77_violated (A := A) (searchJson_file h) hq hfill hone hl rand (List.mem_map.2 ⟨r, hr, rfl⟩) ht h1 h2 hv hc

/-- C78 for files of JSON texts (partial: scores that can be compared): the rows come in the order of their scores, the best first. -/
theorem C78_json_partial (h : SearchJson num nfkd hs data i s recs tail name db) {q : TsSearch} (hq : Asks q name like lo hi)
    (hfill : Filled nfkd name like lo hi (recs.map fun r => (r.text, r.fields num)))
    {lower : JsString → JsString} (hl : ∀ w : Bytes, Ascii w → lower (utf16 w) = utf16 (w.map lowered)) (rand : Nat → Nat)
    (ht : ∀ a b, A.le a b = true ∨ A.le b a = true) (htr : ∀ a b c, A.le a b = true → A.le b c = true → A.le a c = true) :
    ∃ rows : List (Bytes × S), Finds db A lower rand q ⟨rows, none⟩ ∧ rows.Pairwise (fun x y => A.le y.2 x.2 = true) :=
  C78_sorted_partial (A := A) (searchJson_file h) hq hfill hl rand ht htr

/-- C79 for files of JSON texts (partial: no more hits than lines): all scores are numbers. -/
theorem C79_json_partial (h : SearchJson num nfkd hs data i s recs tail name db) {q : TsSearch} (hq : Asks q name like lo hi)
    (hfill : Filled nfkd name like lo hi (recs.map fun r => (r.text, r.fields num)))
    {lower : JsString → JsString} (hl : ∀ w : Bytes, Ascii w → lower (utf16 w) = utf16 (w.map lowered)) (rand : Nat → Nat)
    (hfew : ∀ n, lo ≤ n → n ≤ hi → hitCount nfkd name like n (recs.map fun r => (r.text, r.fields num)) ≤ recs.length) :
    ∃ rows : List (Bytes × Option Rat), Finds db (nanArith log) lower rand q ⟨rows, none⟩ ∧ ∀ row ∈ rows, ∃ x, row.2 = some x :=
  C79_number_partial (searchJson_file h) hq hfill hl rand (by rwa [List.length_map])

/-- C79 is violated for files of JSON texts: if the n-grams of the phrase of one length have more occurrences in the field than the file has lines,
every line with one of them is returned with the score `NaN`. -/
theorem C79_json_violated (h : SearchJson num nfkd hs data i s recs tail name db) {q : TsSearch} (hq : Asks q name like lo hi)
    (hfill : Filled nfkd name like lo hi (recs.map fun r => (r.text, r.fields num)))
    (hone : OnePage nfkd hs name like lo hi (recs.map fun r => (r.text, r.fields num)))
    {lower : JsString → JsString} (hl : ∀ w : Bytes, Ascii w → lower (utf16 w) = utf16 (w.map lowered))
    {n : Nat} (h1 : lo ≤ n) (h2 : n ≤ hi) (hmany : recs.length < hitCount nfkd name like n (recs.map fun r => (r.text, r.fields num)))
    (rand : Nat → Nat) :
    ∃ rows : List (Bytes × Option Rat), Finds db (nanArith log) lower rand q ⟨rows, none⟩ ∧
      ∀ r ∈ recs, ∀ t ∈ textsOf name (r.fields num), ∀ v ∈ ngrams n like, v ∈ ngrams n (letters nfkd t) → (r.text, none) ∈ rows := by
  obtain ⟨rows, g1, g2⟩ := C79_violated (log := log) (searchJson_file h) hq hfill hone hl h1 h2 (by rwa [List.length_map]) rand
  exact ⟨rows, g1, fun r hr t ht v hv hw => g2 v hv _ (gramsOf_mem.2 ⟨_, List.mem_map.2 ⟨r, hr, rfl⟩, rfl, t, ht, hw⟩)⟩

end Appendable
