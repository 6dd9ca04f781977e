import Verif.Spec.Utf16
import Verif.Props.Search
import Verif.Props.NgramRunes
/-! C49 and C76 on texts outside of ASCII: what the client splits and encodes. -/
namespace Appendable
open Spec

theorem u16 {n : Nat} (h : n < 65536) : (UInt16.ofNat n).toNat = n := by simp; omega

theorem codePoints_units (cs : List Nat) (hc : ∀ c ∈ cs, c < 0x110000) (hn : NoPair cs) : jsCodePoints (cs.flatMap units) = cs := by
  induction cs with
  | nil => rfl
  | cons c cs ih =>
    have ih := ih (fun x hx => hc x (by simp [hx])) (fun a b h => hn a b (h.trans (List.suffix_cons c cs).isInfix))
    have h1 := hc c (by simp)
    rw [List.flatMap_cons]
    unfold units at ih ⊢
    by_cases h : c < 0x10000
    · rw [if_pos h, List.singleton_append]
      cases cs with
      | nil => simp only [List.flatMap_nil, jsCodePoints]; rw [u16 h]
      | cons d ds =>
        have hp := hn c d (by exact ⟨[], ds, rfl⟩)
        rw [List.flatMap_cons] at ih ⊢
        have hd := hc d (by simp)
        by_cases h2 : d < 0x10000
        · rw [if_pos h2, List.singleton_append] at ih ⊢
          rw [jsCodePoints, u16 h, u16 h2, if_neg hp, ih]
        · rw [if_neg h2] at ih ⊢
          simp only [List.cons_append, List.nil_append] at ih ⊢
          rw [jsCodePoints, u16 h, u16 (by omega), if_neg (by omega), ih]
    · rw [if_neg h]
      simp only [List.cons_append, List.nil_append]
      rw [jsCodePoints, u16 (by omega), u16 (by omega), if_pos (by omega), ih,
        show 0x10000 + (0xD800 + (c - 0x10000) / 1024 - 0xD800) * 0x400 + (0xDC00 + (c - 0x10000) % 1024 - 0xDC00) = c from by omega]

/-- C76 (partial: one step of a search): the key that is looked up for an n-gram is its text in UTF-8, with U+FFFD for a surrogate without its
partner. -/
theorem C76_encode_partial (cs : List Nat) (hc : ∀ c ∈ cs, c < 0x110000) (hn : NoPair cs) :
    jsEncode (cs.flatMap units) = cs.flatMap fun c => if c < 0xD800 ∨ 0xE000 ≤ c then utf8 c else [0xEF, 0xBF, 0xBD] := by
  unfold jsEncode
  rw [codePoints_units cs hc hn]
  congr 1
  funext c
  unfold jsScalar
  by_cases h : 0xD800 ≤ c ∧ c < 0xE000
  · rw [if_pos h, if_neg (by omega)]; rfl
  · rw [if_neg h, if_pos (by omega)]; rfl

/-- Non-vacuity: "aé😀" with a lone surrogate after it. -/
example : jsEncode [97, 0xE9, 0xD83D, 0xDE00, 0xDC00] = [97, 0xC3, 0xA9, 0xF0, 0x9F, 0x98, 0x80, 0xEF, 0xBF, 0xBD] := by
  have := C76_encode_partial [97, 0xE9, 0x1F600, 0xDC00] (by decide) (by
    intro a b h
    have : [a, b] ∈ [[97, 0xE9], [0xE9, 0x1F600], [0x1F600, 0xDC00]] := by
      obtain ⟨s, t, h⟩ := h
      have hl := congrArg List.length h
      simp at hl
      match s, h with
      | [], h => simp at h; simp [h]
      | [_], h => simp at h; simp [h]
      | [_, _], h => simp at h; simp [h]
      | _ :: _ :: _ :: _, h => simp at hl; omega
    simp only [List.mem_cons, List.cons.injEq, List.not_mem_nil, or_false, and_true] at this
    omega)
  exact this

/-! ### Words -/

theorem splitAcc_drop {α : Type} (p q r : α → Bool) (xs : List α) (h : ∀ x ∈ xs, r x = false → p x = false ∧ q x = false) : ∀ cur,
    splitAcc p q cur xs = splitAcc p q cur (xs.filter r) := by
  induction xs with
  | nil => intro _; rfl
  | cons x xs ih =>
    intro cur
    have ih := ih (fun y hy => h y (by simp [hy]))
    rw [List.filter_cons]
    cases hr : r x with
    | true => simp only [if_true, splitAcc, ih]
    | false => simp only [Bool.false_eq_true, if_false, splitAcc, h x (by simp) hr, ih]

theorem splitAcc_canon {α : Type} (p q : α → Bool) (g : α → α) (xs : List α) (h : ∀ x ∈ xs, p (g x) = p x ∧ q (g x) = q x ∧ (p x = true → g x = x)) : ∀ cur,
    splitAcc p q cur (xs.map g) = splitAcc p q cur xs := by
  induction xs with
  | nil => intro _; rfl
  | cons x xs ih =>
    intro cur
    have ih := ih (fun y hy => h y (by simp [hy]))
    obtain ⟨h1, h2, h3⟩ := h x (by simp)
    rw [List.map_cons]
    simp only [splitAcc, h1, h2, ih]
    by_cases hp : p x = true
    · rw [if_pos hp, if_pos hp, h3 hp]
    · rw [if_neg hp, if_neg hp]

theorem codePoints_bmp (p : JsString) (h : ∀ u ∈ p, u.toNat < 0xD800 ∨ 0xE000 ≤ u.toNat) : jsCodePoints p = p.map (·.toNat) := by
  induction p with
  | nil => rfl
  | cons u p ih =>
    have ih := ih (fun x hx => h x (by simp [hx]))
    have hu := h u (by simp)
    cases p with
    | nil => rfl
    | cons v p => rw [jsCodePoints, if_neg (by omega), ih]; rfl

/-- The tokens of one length of a phrase without surrogates, by its words. -/
theorem grams_bmp (lower : JsString → JsString) (p : JsString) (h : ∀ u ∈ p, u.toNat < 0xD800 ∨ 0xE000 ≤ u.toNat) (m N ty : Nat) :
    tsGramsOf lower p (tsWords m 0 [] (jsCodePoints p)) N ty =
      ((splitAcc jsWordChar jsSpaceChar [] (p.map (·.toNat))).filter (fun w => decide (m ≤ w.length))).flatMap fun w =>
        (List.range (w.length + 1 - N)).map fun i => ⟨lower (((w.drop i).take N).map UInt16.ofNat), ty⟩ := by
  have hw := tsWords_eq m (jsCodePoints p) 0 []
  simp only [List.map_nil] at hw
  rw [hw, codePoints_bmp p h]
  have hm := splitAcc_map (fun x : Nat × Nat => x.1) jsWordChar jsSpaceChar (p.map (·.toNat)).zipIdx []
  rw [show (p.map (·.toNat)).zipIdx.map (fun x : Nat × Nat => x.1) = p.map (·.toNat) from List.zipIdx_map_fst 0 _, List.map_nil] at hm
  rw [← hm]
  unfold tsGramsOf
  rw [List.filter_map, List.flatMap_map, List.flatMap_map]
  simp only [Function.comp_def, List.length_map]
  rw [List.flatMap_def, List.flatMap_def]
  congr 1
  refine List.map_congr_left fun w hw => ?_
  refine List.map_congr_left fun i _ => ?_
  congr 2
  unfold tsGramStr
  rw [← List.map_drop, ← List.map_take, ← List.map_drop, ← List.map_take, List.map_map, List.map_map]
  refine List.map_congr_left fun x hx => ?_
  have hx : x ∈ (p.map (·.toNat)).zipIdx := by
    have := splitAcc_mem _ _ _ _ _ (List.mem_filter.1 hw).1 x (List.mem_of_mem_drop (List.mem_of_mem_take hx))
    simpa using this
  have := List.mem_zipIdx_iff_getElem?.1 hx
  rw [List.getElem?_map] at this
  obtain ⟨u, hu, he⟩ := Option.map_eq_some_iff.1 this
  simp only [Function.comp_def, List.getD, hu, ← he, Option.getD_some]
  exact UInt16.toNat_inj.1 (by rw [u16 u.toNat_lt])

theorem jsSpace_blanks (c : Nat) : jsSpaceChar c = decide (c ∈ jsBlanks) := by
  rw [Bool.eq_iff_iff]
  simp only [jsSpaceChar, jsBlanks, Bool.or_eq_true, Bool.and_eq_true, decide_eq_true_eq, beq_iff_eq, List.mem_cons, List.not_mem_nil, or_false]
  omega

theorem spaced_words (p : JsString) : splitAcc jsWordChar jsSpaceChar [] (p.map (·.toNat)) =
    splitAcc jsWordChar jsSpaceChar [] ((utf16 (spaced p)).map (·.toNat)) := by
  have hf := splitAcc_drop jsWordChar jsSpaceChar (fun c => decide (c < 128) || decide (c ∈ jsBlanks)) (p.map (·.toNat)) (by
    intro c _ hr
    simp only [Bool.or_eq_false_iff, decide_eq_false_iff_not] at hr
    refine ⟨?_, by rw [jsSpace_blanks]; simpa using hr.2⟩
    unfold jsWordChar
    simp only [Bool.or_eq_false_iff, Bool.and_eq_false_iff, decide_eq_false_iff_not]
    omega) []
  rw [hf]
  have hc := splitAcc_canon jsWordChar jsSpaceChar (fun c => if c < 128 then c else 32)
    ((p.map (·.toNat)).filter (fun c => decide (c < 128) || decide (c ∈ jsBlanks))) (by
      intro c hc
      have hc := (List.mem_filter.1 hc).2
      simp only [Bool.or_eq_true, decide_eq_true_eq] at hc
      by_cases h : c < 128
      · simp only [if_pos h]; exact ⟨trivial, trivial, fun _ => trivial⟩
      · simp only [if_neg h]
        have hb : c ∈ jsBlanks := hc.resolve_left h
        have hw : jsWordChar c = false := by
          unfold jsWordChar
          simp only [Bool.or_eq_false_iff, Bool.and_eq_false_iff, decide_eq_false_iff_not]
          omega
        refine ⟨by rw [hw]; rfl, by rw [jsSpace_blanks, jsSpace_blanks]; simp [hb]; decide, fun h' => by rw [hw] at h'; cases h'⟩) []
  rw [← hc]
  congr 1
  clear hf hc
  induction p with
  | nil => rfl
  | cons u p ih =>
    rw [List.map_cons, List.filter_cons]
    unfold spaced utf16 at ih ⊢
    rw [List.flatMap_cons, List.map_append, List.map_append]
    by_cases h1 : u.toNat < 128
    · simp only [h1, if_true, decide_true, Bool.true_or, List.map_cons, List.map_nil, List.cons_append, List.nil_append]
      rw [ih]
      simp
      omega
    · by_cases h2 : u.toNat ∈ jsBlanks
      · simp only [h1, h2, if_true, if_false, decide_true, decide_false, Bool.or_true, List.map_cons, List.map_nil, List.cons_append, List.nil_append]
        rw [ih]
        rfl
      · simp only [h1, h2, if_false, decide_false, Bool.or_false, Bool.false_eq_true, List.map_nil, List.nil_append]
        exact ih

theorem spaced_ascii (p : JsString) : Ascii (spaced p) := by
  intro b hb
  unfold spaced at hb
  obtain ⟨u, _, hb⟩ := List.mem_flatMap.1 hb
  repeat' split at hb
  · rw [List.mem_singleton.1 hb, u8 (by omega)]; assumption
  · rw [List.mem_singleton.1 hb]; decide
  · cases hb

/-- C49 outside of ASCII: in a phrase without surrogates the client takes every blank of ECMAScript for a space and every other character that is
not ASCII for nothing; so it searches for the n-grams of that ASCII text. -/
theorem C49_unicode (lower : JsString → JsString) (p : JsString) (h : ∀ u ∈ p, u.toNat < 0xD800 ∨ 0xE000 ≤ u.toNat) (minGram maxGram : Nat) :
    tsTokens lower minGram maxGram p = tsTokens lower minGram maxGram (utf16 (spaced p)) := by
  have h2 : ∀ u ∈ utf16 (spaced p), u.toNat < 0xD800 ∨ 0xE000 ≤ u.toNat := by
    intro u hu
    obtain ⟨b, hb, rfl⟩ := List.mem_map.1 hu
    have := spaced_ascii p b hb
    left
    simp
    omega
  have key : ∀ k N, tsGramLoop lower p (tsWords minGram 0 [] (jsCodePoints p)) k N =
      tsGramLoop lower (utf16 (spaced p)) (tsWords minGram 0 [] (jsCodePoints (utf16 (spaced p)))) k N := by
    intro k
    induction k with
    | zero => intro N; rfl
    | succ k ih =>
      intro N
      unfold tsGramLoop
      cases tsGramType N with
      | none => rfl
      | some ty => simp only [ih, grams_bmp lower p h, grams_bmp lower _ h2, spaced_words p]
  exact key _ _

/-- Non-vacuity: "aé" and "b" with an ideographic space between them. -/
example : tsTokens id 1 1 [97, 0xE9, 0x3000, 98] = .ok [⟨[97], 10⟩, ⟨[98], 10⟩] := by
  rw [C49_unicode id [97, 0xE9, 0x3000, 98] (by decide)]
  decide +kernel

/-- C49 is violated outside of ASCII: a line separator ends a word for the client and nothing for the indexer, which so has an n-gram that no search
for the same text looks for. -/
theorem C49_separator_violated (nfkd : Bytes → Bytes) (lower : JsString → JsString)
    (hn : nfkd [97, 0xE2, 0x80, 0xA8, 98] = [97, 0xE2, 0x80, 0xA8, 98]) :
    (buildNgram nfkd [97, 0xE2, 0x80, 0xA8, 98] 2).map (·.word) = [[97, 98]] ∧ tsTokens lower 2 2 [97, 0x2028, 98] = .ok [] := by
  constructor
  · have : normalizeToAscii nfkd [97, 0xE2, 0x80, 0xA8, 98] = normalizeToAscii id [97, 0xE2, 0x80, 0xA8, 98] := by
      unfold normalizeToAscii; rw [hn]; rfl
    unfold buildNgram
    rw [this]
    decide +kernel
  · have hw : tsWords 2 0 [] (jsCodePoints [97, 0x2028, 98]) = [] := by decide +kernel
    simp only [tsTokens]
    rw [hw]
    rfl

end Appendable
