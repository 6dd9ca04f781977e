import Verif.Model.TsNgram
import Verif.Spec.Ngram
/-! C49: the two tokenizers; C50: shuffling. -/
namespace Appendable
open Spec

/-! ### Splitting into words -/

/-- Splitting with an accumulator, for any kind of characters. -/
def splitAcc {α : Type} (p q : α → Bool) : List α → List α → List (List α)
  | cur, [] => [cur]
  | cur, x :: xs => if p x then splitAcc p q (cur ++ [x]) xs else if q x then cur :: splitAcc p q [] xs else splitAcc p q cur xs

theorem splitWords_eq (gl : Nat) (xs : List (UInt8 × Int)) : ∀ cur, splitWords gl cur xs =
    (splitAcc (fun x => isWordChar x.1) (fun x => isSpaceChar x.1) cur xs).filter (fun w => decide (gl ≤ w.length)) := by
  induction xs with
  | nil => intro cur; simp [splitWords, splitAcc, List.filter_cons]
  | cons x xs ih =>
    intro cur
    simp only [splitWords, splitAcc]
    split
    · exact ih _
    · split
      · rw [ih, List.filter_cons]
        by_cases h : gl ≤ cur.length <;> simp [h]
      · exact ih _

theorem splitAcc_eq {α : Type} (p q : α → Bool) (hpq : ∀ x, p x = true → q x = false) (xs : List α) : ∀ acc,
    splitAcc p q (acc.reverse.filter p) xs = (xs.splitOnPPrepend q acc).map (fun piece => piece.filter p) := by
  induction xs with
  | nil => intro acc; simp [splitAcc]
  | cons x xs ih =>
    intro acc
    rw [List.splitOnPPrepend_cons_eq_if]
    simp only [splitAcc]
    by_cases hp : p x = true
    · rw [if_pos hp, hpq x hp]
      have := ih (x :: acc)
      simp only [List.reverse_cons, List.filter_append, List.filter_cons, hp, List.filter_nil, if_true] at this
      simpa using this
    · rw [if_neg hp]
      by_cases hq : q x = true
      · rw [if_pos hq, if_pos hq, List.map_cons]
        congr 1
        have := ih []
        simpa using this
      · rw [if_neg hq, if_neg hq]
        have := ih (x :: acc)
        simp only [List.reverse_cons, List.filter_append, List.filter_cons, hp, List.filter_nil] at this
        simpa using this

theorem splitAcc_nil {α : Type} (p q : α → Bool) (hpq : ∀ x, p x = true → q x = false) (xs : List α) :
    splitAcc p q [] xs = (xs.splitOnP q).map (fun piece => piece.filter p) := by
  simpa using splitAcc_eq p q hpq xs []

theorem splitAcc_map {α β : Type} (f : α → β) (p q : β → Bool) (xs : List α) : ∀ cur,
    (splitAcc (fun x => p (f x)) (fun x => q (f x)) cur xs).map (fun w => w.map f) = splitAcc p q (cur.map f) (xs.map f) := by
  induction xs with
  | nil => intro cur; simp [splitAcc]
  | cons x xs ih =>
    intro cur
    simp only [splitAcc, List.map_cons]
    split
    · rw [ih]; simp
    · split
      · rw [List.map_cons, ih]; simp
      · exact ih _

theorem byte_all {P : UInt8 → Prop} (h : ∀ i : Fin 256, P (UInt8.ofFin i)) : ∀ b, P b := fun b => h b.toFin
theorem word_alnum : ∀ b : UInt8, isWordChar b = alnum b := byte_all (by decide +kernel)
theorem space_white : ∀ b : UInt8, isSpaceChar b = white b := byte_all (by decide +kernel)
theorem lower_lowered : ∀ b : UInt8, lowerChar b = lowered b := byte_all (by decide +kernel)
theorem alnum_white : ∀ b : UInt8, alnum b = true → white b = false := byte_all (by decide +kernel)
theorem jsWord_alnum : ∀ b : UInt8, jsWordChar b.toNat = alnum b := byte_all (by decide +kernel)
theorem jsSpace_white : ∀ b : UInt8, b.toNat < 128 → jsSpaceChar b.toNat = white b := byte_all (by decide +kernel)

/-! ### The Go side -/

theorem asciiFrom_ascii (t : Bytes) : ∀ (fuel i : Nat), Ascii t → t.length ≤ fuel →
    asciiFrom fuel i 0 t = (t.zipIdx i).map (fun x => (x.1, (x.2 : Int))) := by
  induction t with
  | nil => intro fuel i _ _; cases fuel <;> simp [asciiFrom]
  | cons b t ih =>
    intro fuel i ha hf
    cases fuel with
    | zero => simp at hf
    | succ fuel =>
      have hb : b.toNat < 128 := ha b (by simp)
      have hd : decodeRune (b :: t) = (b.toNat, 1) := by
        unfold decodeRune; exact if_pos (by omega)
      have hl : runeLen b.toNat = 1 := by unfold runeLen; rw [if_pos (by omega)]
      have hb' : b.toNat ≤ 127 := by omega
      unfold asciiFrom
      simp only [hd, hl, List.zipIdx_cons, List.map_cons, hb', if_true, List.drop_one, List.tail_cons]
      rw [if_neg (by decide), ih fuel (i + 1) (fun c hc => ha c (by simp [hc])) (by simpa using hf)]
      simp

theorem normalize_ascii {nfkd : Bytes → Bytes} {t : Bytes} (ha : Ascii t) (hn : nfkd t = t) :
    normalizeToAscii nfkd t = t.zipIdx.map (fun x => (x.1, (x.2 : Int))) := by
  unfold normalizeToAscii
  rw [hn]
  exact asciiFrom_ascii t t.length 0 ha (Nat.le_refl _)

theorem flatMap_filter_windows {α β : Type} (gl : Nat) (f : List α → List β) (hf : ∀ w, w.length < gl → f w = []) (ws : List (List α)) :
    (ws.filter (fun w => decide (gl ≤ w.length))).flatMap f = ws.flatMap f := by
  induction ws with
  | nil => rfl
  | cons w ws ih =>
    rw [List.filter_cons]
    by_cases h : gl ≤ w.length
    · simp [h, ih]
    · simp only [h, decide_false, Bool.false_eq_true, if_false, List.flatMap_cons]
      rw [ih, hf w (by omega)]; rfl

theorem buildNgram_words (nfkd : Bytes → Bytes) (t : Bytes) (gl : Nat) :
    buildNgram nfkd t gl = (splitAcc (fun x => isWordChar x.1) (fun x => isSpaceChar x.1) [] (normalizeToAscii nfkd t)).flatMap
      (fun w => (windows gl w).map gramToken) := by
  unfold buildNgram
  rw [splitWords_eq, flatMap_filter_windows]
  intro w hw
  have : w.length + 1 - gl = 0 := by omega
  simp [windows, this]

/-- The words that the indexer builds are the n-grams of the text. -/
theorem go_ngrams {nfkd : Bytes → Bytes} {t : Bytes} (ha : Ascii t) (hn : nfkd t = t) (gl : Nat) :
    (buildNgram nfkd t gl).map (·.word) = ngrams gl t := by
  rw [buildNgram_words, normalize_ascii ha hn]
  have hm := splitAcc_map (fun x : UInt8 × Int => x.1) isWordChar isSpaceChar (t.zipIdx.map (fun x => (x.1, (x.2 : Int)))) []
  have he : (t.zipIdx.map (fun x => (x.1, (x.2 : Int)))).map (fun x : UInt8 × Int => x.1) = t := by
    rw [List.map_map]
    have : ((fun x : UInt8 × Int => x.1) ∘ fun x : UInt8 × Nat => (x.1, (x.2 : Int))) = Prod.fst := rfl
    rw [this, List.zipIdx_map_fst]
  rw [he, show isWordChar = alnum from funext word_alnum, show isSpaceChar = white from funext space_white, List.map_nil,
    splitAcc_nil _ _ alnum_white] at hm
  have hsame : splitAcc (fun x : UInt8 × Int => isWordChar x.1) (fun x => isSpaceChar x.1) = splitAcc (fun x => alnum x.1) (fun x => white x.1) := by
    rw [show isWordChar = alnum from funext word_alnum, show isSpaceChar = white from funext space_white]
  rw [hsame]
  unfold ngrams words
  rw [← hm, List.flatMap_map, List.map_flatMap]
  congr 1
  funext w
  simp only [windows, List.map_map, List.length_map]
  refine List.map_congr_left fun i _ => ?_
  simp only [Function.comp, gramToken, List.map_take, List.map_drop, List.map_map]
  congr 2
  refine List.map_congr_left fun x _ => ?_
  simp [lower_lowered]

/-! ### The TypeScript side -/

/-- ASCII text as a JavaScript string. -/
def utf16 (t : Bytes) : JsString := t.map (·.toUInt16)

theorem codePoints_ascii (t : Bytes) (ha : Ascii t) : jsCodePoints (utf16 t) = t.map (·.toNat) := by
  induction t with
  | nil => rfl
  | cons b t ih =>
    have ih := ih (fun c hc => ha c (by simp [hc]))
    have hb : b.toNat < 128 := ha b (by simp)
    cases t with
    | nil => simp [utf16, jsCodePoints]
    | cons c t =>
      simp only [utf16, List.map_cons] at ih ⊢
      rw [jsCodePoints, if_neg (by simp; omega), ih]
      simp

theorem tsWords_eq (m : Nat) (cs : List Nat) : ∀ (idx : Nat) (cur : List (Nat × Nat)), tsWords m idx (cur.map (·.2)) cs =
    ((splitAcc (fun x => jsWordChar x.1) (fun x => jsSpaceChar x.1) cur (cs.zipIdx idx)).filter
      (fun w => decide (m ≤ w.length))).map (fun w => w.map (·.2)) := by
  induction cs with
  | nil =>
    intro idx cur
    simp only [tsWords, List.zipIdx_nil, splitAcc, List.length_map, List.filter_cons, List.filter_nil]
    by_cases h : m ≤ cur.length <;> simp [h]
  | cons c cs ih =>
    intro idx cur
    simp only [tsWords, List.zipIdx_cons, splitAcc, List.length_map]
    split
    · have := ih (idx + 1) (cur ++ [(c, idx)])
      simpa using this
    · split
      · rw [List.filter_cons]
        have := ih (idx + 1) []
        simp only [List.map_nil] at this
        rw [this]
        by_cases h : m ≤ cur.length <;> simp [h]
      · exact ih _ _

theorem splitAcc_mem {α : Type} (p q : α → Bool) (xs : List α) : ∀ cur w, w ∈ splitAcc p q cur xs → ∀ x ∈ w, x ∈ cur ∨ x ∈ xs := by
  induction xs with
  | nil => intro cur w hw x hx; simp [splitAcc] at hw; subst hw; exact .inl hx
  | cons y ys ih =>
    intro cur w hw x hx
    simp only [splitAcc] at hw
    split at hw
    · rcases ih _ _ hw x hx with h | h
      · rcases List.mem_append.1 h with h | h
        · exact .inl h
        · simp only [List.mem_singleton] at h; subst h; simp
      · simp [h]
    · split at hw
      · rcases List.mem_cons.1 hw with rfl | hw
        · exact .inl hx
        · rcases ih _ _ hw x hx with h | h
          · simp at h
          · simp [h]
      · rcases ih _ _ hw x hx with h | h
        · exact .inl h
        · simp [h]

theorem splitAcc_congr {α : Type} (p q p' q' : α → Bool) (xs : List α) (h : ∀ x ∈ xs, p x = p' x ∧ q x = q' x) : ∀ cur,
    splitAcc p q cur xs = splitAcc p' q' cur xs := by
  induction xs with
  | nil => intro _; rfl
  | cons x xs ih =>
    intro cur
    have ih := ih (fun y hy => h y (by simp [hy]))
    simp only [splitAcc, ih, (h x (by simp)).1, (h x (by simp)).2]

/-- The tokens of length `N`, when words of at least `m ≤ N` characters were kept. -/
theorem ts_grams {lower : JsString → JsString} {t : Bytes} (ha : Ascii t) (m N ty : Nat) (hm : m ≤ N)
    (hl : ∀ w : Bytes, Ascii w → lower (utf16 w) = utf16 (w.map lowered)) :
    tsGramsOf lower (utf16 t) (tsWords m 0 [] (jsCodePoints (utf16 t))) N ty = (ngrams N t).map (fun w => ⟨utf16 w, ty⟩) := by
  have hw := tsWords_eq m (jsCodePoints (utf16 t)) 0 []
  simp only [List.map_nil] at hw
  rw [hw, codePoints_ascii t ha]
  unfold tsGramsOf
  rw [List.flatMap_map, flatMap_filter_windows]
  rotate_left
  · intro w hw
    have : w.length + 1 - N = 0 := by omega
    simp [this]
  have hz : (t.map (·.toNat)).zipIdx = t.zipIdx.map (fun x => (x.1.toNat, x.2)) := by
    rw [List.zipIdx_map]; rfl
  have hm1 := splitAcc_map (fun x : UInt8 × Nat => (x.1.toNat, x.2)) (fun x => jsWordChar x.1) (fun x => jsSpaceChar x.1) t.zipIdx []
  rw [hz, ← List.map_nil, ← hm1]
  have hm2 := splitAcc_map (fun x : UInt8 × Nat => x.1) alnum white t.zipIdx []
  have hf : t.zipIdx.map (fun x : UInt8 × Nat => x.1) = t := List.zipIdx_map_fst 0 t
  rw [hf, List.map_nil, splitAcc_nil _ _ alnum_white] at hm2
  have hsame : splitAcc (fun x : UInt8 × Nat => jsWordChar x.1.toNat) (fun x => jsSpaceChar x.1.toNat) [] t.zipIdx =
      splitAcc (fun x => alnum x.1) (fun x => white x.1) [] t.zipIdx := by
    refine splitAcc_congr _ _ _ _ _ (fun x hx => ⟨jsWord_alnum _, jsSpace_white _ (ha _ (List.fst_mem_of_mem_zipIdx hx))⟩) _
  rw [hsame]
  unfold ngrams words
  rw [← hm2]
  simp only [List.flatMap_map, List.map_flatMap, List.map_map]
  rw [List.flatMap_def, List.flatMap_def]
  congr 1
  refine List.map_congr_left fun w hw => ?_
  simp only [List.length_map]
  refine List.map_congr_left fun i _ => ?_
  simp only [Function.comp]
  congr 1
  have hstr : tsGramStr (utf16 t) (w.map (fun x => x.2)) N i = utf16 (((w.drop i).take N).map (fun x => x.1)) := by
    unfold tsGramStr utf16
    rw [← List.map_drop, ← List.map_take, List.map_map, List.map_map]
    refine List.map_congr_left fun x hx => ?_
    have hx : x ∈ t.zipIdx := by
      have := splitAcc_mem _ _ _ _ _ hw x (List.mem_of_mem_drop (List.mem_of_mem_take hx))
      simpa using this
    have := List.mem_zipIdx_iff_getElem?.1 hx
    simp [List.getD, this]
  have := hl (((w.drop i).take N).map (fun x => x.1)) (by
    intro b hb
    obtain ⟨x, hx, rfl⟩ := List.mem_map.1 hb
    have hx : x ∈ t.zipIdx := by
      have := splitAcc_mem _ _ _ _ _ hw x (List.mem_of_mem_drop (List.mem_of_mem_take hx))
      simpa using this
    exact ha _ (List.fst_mem_of_mem_zipIdx hx))
  rw [← hstr] at this
  simp only [List.map_map, Function.comp_def] at this ⊢
  rw [this]
  simp [List.map_take, List.map_drop, Function.comp_def]

theorem ts_loop {lower : JsString → JsString} {t : Bytes} (ha : Ascii t) (m : Nat)
    (hl : ∀ w : Bytes, Ascii w → lower (utf16 w) = utf16 (w.map lowered)) : ∀ k N, m ≤ N → 1 ≤ N → N + k ≤ 4 →
    tsGramLoop lower (utf16 t) (tsWords m 0 [] (jsCodePoints (utf16 t))) k N =
      .ok ((List.range' N k).flatMap (fun n => (ngrams n t).map (fun w => ⟨utf16 w, 11 - n⟩))) := by
  intro k
  induction k with
  | zero => intro N _ _ _; rfl
  | succ k ih =>
    intro N hm h1 h4
    have hty : tsGramType N = some (11 - N) := by
      rcases (by omega : N = 1 ∨ N = 2 ∨ N = 3) with rfl | rfl | rfl <;> rfl
    unfold tsGramLoop
    rw [hty, ih (N + 1) (by omega) (by omega) (by omega)]
    simp only [Res.bind]
    rw [ts_grams ha m N _ hm hl, List.range'_succ, List.flatMap_cons]

/-- C49: on ASCII text the indexer builds exactly the n-grams of the text, in order, and the client searches, for each
length from `minGram` to `maxGram`, for exactly the same ones in the same order, with the field type of that length
(8, 9, 10 for 3, 2, 1 characters).  About the library functions it is assumed that NFKD normalization leaves ASCII text
unchanged, and that `toLowerCase` changes exactly the letters of ASCII text. -/
theorem C49_tokens {nfkd : Bytes → Bytes} {lower : JsString → JsString} (hn : ∀ w : Bytes, Ascii w → nfkd w = w)
    (hl : ∀ w : Bytes, Ascii w → lower (utf16 w) = utf16 (w.map lowered)) (t : Bytes) (ha : Ascii t) :
    (∀ n, (buildNgram nfkd t n).map (·.word) = ngrams n t) ∧
    ∀ minGram maxGram, 1 ≤ minGram → maxGram ≤ 3 → tsTokens lower minGram maxGram (utf16 t) =
      .ok ((List.range' minGram (maxGram + 1 - minGram)).flatMap
        (fun n => ((buildNgram nfkd t n).map (·.word)).map (fun w => ⟨utf16 w, 11 - n⟩))) := by
  refine ⟨fun n => go_ngrams ha (hn t ha) n, fun m M h1 h3 => ?_⟩
  unfold tsTokens
  by_cases hle : m ≤ M
  · rw [ts_loop ha m hl _ _ (Nat.le_refl _) h1 (by omega)]
    simp only [go_ngrams ha (hn t ha)]
  · have : M + 1 - m = 0 := by omega
    rw [this]; rfl

/-- The client refuses other lengths. -/
theorem C49_refused (lower : JsString → JsString) (phrase : JsString) (minGram maxGram : Nat) (hle : minGram ≤ maxGram)
    (h : minGram = 0 ∨ 3 < maxGram) : ∃ e, tsTokens lower minGram maxGram phrase = .err e := by
  have key : ∀ ws k N, (N = 0 ∧ 0 < k ∨ 3 < N + k - 1 ∧ 0 < k) → ∃ e, tsGramLoop lower phrase ws k N = .err e := by
    intro ws k
    induction k with
    | zero => intro N h; omega
    | succ k ih =>
      intro N h
      unfold tsGramLoop
      cases hty : tsGramType N with
      | none => exact ⟨_, rfl⟩
      | some ty =>
        have : N = 1 ∨ N = 2 ∨ N = 3 := by
          unfold tsGramType at hty
          split at hty <;> simp at hty <;> omega
        obtain ⟨e, he⟩ := ih (N + 1) (by omega)
        rw [he]
        exact ⟨e, rfl⟩
  exact key _ _ _ (by omega)

/-! ### Where the n-grams are -/

/-- A contiguous part of a filtered list comes from a contiguous part that begins and ends with its elements. -/
theorem infix_filter {α : Type} {p : α → Bool} {l : List α} {x : α} {w : List α} {z : α} (hw : x :: w = (x :: w).dropLast ++ [z])
    (h : x :: w <:+: l.filter p) : ∃ d, d <:+: l ∧ d.filter p = x :: w ∧ d.head? = some x ∧ d.getLast? = some z := by
  obtain ⟨a, b, hab⟩ := h
  obtain ⟨l1, l', rfl, h1, h2⟩ := List.filter_eq_append_iff.1 hab.symm
  obtain ⟨l2, l3, rfl, h3, h4⟩ := List.filter_eq_append_iff.1 h1
  obtain ⟨u, v, rfl, h5, h6, h7⟩ := List.filter_eq_cons_iff.1 h4
  rcases w.eq_nil_or_concat with rfl | ⟨w', z', rfl⟩
  · simp at hw
    subst hw
    exact ⟨[x], ⟨l2 ++ u, v ++ l', by simp⟩, by simp [h6], by simp, by simp⟩
  · have hz : z' = z := by
      rw [List.concat_eq_append] at hw
      have := congrArg List.getLast? hw
      simpa [List.getLast?_cons] using this
    subst hz
    rw [List.concat_eq_append] at h7
    obtain ⟨m1, m2, rfl, h8, h9⟩ := List.filter_eq_append_iff.1 h7
    obtain ⟨u', v', rfl, h10, h11, h12⟩ := List.filter_eq_cons_iff.1 h9
    refine ⟨x :: (m1 ++ u' ++ [z']), ⟨l2 ++ u, v' ++ l', by simp⟩, ?_, by simp, by simp [List.getLast?_cons]⟩
    have : u'.filter p = [] := by simpa using h10
    simp [h6, h8, this, h11]

theorem piece_infix {α : Type} (q : α → Bool) (xs : List α) : ∀ acc, ∀ d ∈ xs.splitOnPPrepend q acc,
    (∀ x ∈ acc, q x = false) → d <:+: acc.reverse ++ xs ∧ ∀ x ∈ d, q x = false := by
  induction xs with
  | nil =>
    intro acc d hd hq
    simp at hd
    subst hd
    exact ⟨by simp, by simpa using hq⟩
  | cons y ys ih =>
    intro acc d hd hq
    rw [List.splitOnPPrepend_cons_eq_if] at hd
    by_cases hy : q y = true
    · rw [if_pos hy] at hd
      rcases List.mem_cons.1 hd with rfl | hd
      · exact ⟨List.infix_append' [] _ _, by simpa using hq⟩
      · obtain ⟨h1, h2⟩ := ih [] d hd (by simp)
        refine ⟨h1.trans ⟨acc.reverse ++ [y], [], by simp⟩, h2⟩
    · rw [if_neg hy] at hd
      obtain ⟨h1, h2⟩ := ih (y :: acc) d hd (by simpa [hy] using hq)
      exact ⟨by simpa using h1, h2⟩

theorem zipIdx_infix {α : Type} {l : List α} {d : List (α × Nat)} (h : d <:+: l.zipIdx) :
    ∃ k, d = ((l.drop k).take d.length).zipIdx k := by
  obtain ⟨a, b, hab⟩ := h
  refine ⟨a.length, ?_⟩
  have hlen := congrArg List.length hab
  simp only [List.length_append, List.length_zipIdx] at hlen
  refine List.ext_getElem (by simp; omega) fun i h1 h2 => ?_
  have : l.zipIdx[a.length + i]? = some d[i] := by
    rw [← hab, List.append_assoc, List.getElem?_append_right (by omega), Nat.add_sub_cancel_left,
      List.getElem?_append_left h1, List.getElem?_eq_getElem h1]
  rw [List.getElem?_zipIdx] at this
  obtain ⟨y, hy, he⟩ := Option.map_eq_some_iff.1 this
  rw [List.getElem_zipIdx]
  rw [← he]
  have := (List.getElem?_eq_some_iff.1 hy).2
  simp [this]

/-- C49, the stored position: a token is found at `offset`, where `length` bytes without white space hold exactly the
characters of the token, besides characters that are no letters or digits. -/
theorem C49_offsets {nfkd : Bytes → Bytes} (hn : ∀ w : Bytes, Ascii w → nfkd w = w) (t : Bytes) (ha : Ascii t)
    (hlen : t.length < 2 ^ 32) (n : Nat) (h1 : 1 ≤ n) (g : Token) (hg : g ∈ buildNgram nfkd t n) :
    g.offset.toNat + g.length.toNat ≤ t.length ∧
    ∃ part, part = (t.drop g.offset.toNat).take g.length.toNat ∧ (∀ b ∈ part, white b = false) ∧
      (part.filter alnum).map lowered = g.word := by
  rw [buildNgram_words, normalize_ascii ha (hn t ha)] at hg
  have hm := splitAcc_map (fun x : UInt8 × Nat => (x.1, (x.2 : Int))) (fun x => isWordChar x.1) (fun x => isSpaceChar x.1) t.zipIdx []
  rw [List.map_nil] at hm
  rw [← hm] at hg
  obtain ⟨w', hw', hg⟩ := List.mem_flatMap.1 hg
  obtain ⟨w, hw, rfl⟩ := List.mem_map.1 hw'
  obtain ⟨win', hwin', rfl⟩ := List.mem_map.1 hg
  obtain ⟨i, hi, rfl⟩ := List.mem_map.1 hwin'
  simp only [List.mem_range, List.length_map] at hi
  have hsame : splitAcc (fun x : UInt8 × Nat => isWordChar x.1) (fun x => isSpaceChar x.1) [] t.zipIdx =
      splitAcc (fun x => alnum x.1) (fun x => white x.1) [] t.zipIdx :=
    splitAcc_congr _ _ _ _ _ (fun x _ => ⟨word_alnum _, space_white _⟩) _
  rw [hsame, splitAcc_nil (fun x : UInt8 × Nat => alnum x.1) (fun x => white x.1) (fun x => alnum_white x.1)] at hw
  obtain ⟨piece, hpiece, rfl⟩ := List.mem_map.1 hw
  have hp := piece_infix (fun x : UInt8 × Nat => white x.1) t.zipIdx [] piece hpiece (by simp)
  obtain ⟨win, hwin⟩ : ∃ win, win = ((piece.filter (fun x => alnum x.1)).drop i).take n := ⟨_, rfl⟩
  have hl : win.length = n := by rw [hwin]; simp; omega
  rw [← List.map_drop, ← List.map_take, ← hwin]
  have hinf : win <:+: piece.filter (fun x => alnum x.1) := by
    rw [hwin]; exact (List.take_prefix _ _).isInfix.trans (List.drop_suffix _ _).isInfix
  cases win with
  | nil => simp at hl; omega
  | cons x w =>
    obtain ⟨z, hz⟩ : ∃ z, x :: w = (x :: w).dropLast ++ [z] := ⟨_, (List.dropLast_concat_getLast (by simp)).symm⟩
    obtain ⟨d, hd, hf, hx, hlast⟩ := infix_filter hz hinf
    have hdt : d <:+: t.zipIdx := by simpa using hd.trans hp.1
    obtain ⟨k, hk⟩ := zipIdx_infix hdt
    have hdl : d.length ≤ t.length - k := by
      have := congrArg List.length hk
      simp at this; omega
    have hd0 : 0 < d.length := by
      cases d with
      | nil => simp at hx
      | cons => simp
    have hx2 : x.2 = k := by
      rw [List.head?_eq_getElem?, hk, List.getElem?_zipIdx] at hx
      obtain ⟨y, hy, he⟩ := Option.map_eq_some_iff.1 hx
      rw [← he]; simp
    have hz2 : z.2 = k + (d.length - 1) := by
      rw [List.getLast?_eq_getElem?] at hlast
      generalize hdl' : d.length = L at *
      rw [hk, List.getElem?_zipIdx] at hlast
      obtain ⟨y, hy, he⟩ := Option.map_eq_some_iff.1 hlast
      rw [← he]
    have hfst : d.map (·.1) = (t.drop k).take d.length := by
      generalize hdl' : d.length = L at *
      rw [hk]; exact List.zipIdx_map_fst _ _
    have hoff : (gramToken ((x :: w).map (fun x => (x.1, (x.2 : Int))))).offset.toNat = k := by
      simp only [gramToken, List.map_cons, List.head?_cons, Option.map_some, Option.getD_some, hx2]
      rw [Int.emod_eq_of_lt (by omega) (by omega)]
      simp; omega
    have hlen' : (gramToken ((x :: w).map (fun x => (x.1, (x.2 : Int))))).length.toNat = d.length := by
      have : ((x :: w).map (fun x => (x.1, (x.2 : Int)))).getLast? = some (z.1, (z.2 : Int)) := by
        rw [hz]; simp
      simp only [gramToken]
      rw [this]
      simp only [List.map_cons, List.head?_cons, Option.map_some, Option.getD_some, hx2, hz2]
      rw [Int.emod_eq_of_lt (by omega) (by omega)]
      simp; omega
    rw [hoff, hlen']
    refine ⟨by omega, _, rfl, ?_, ?_⟩
    · intro b hb
      rw [← hfst] at hb
      obtain ⟨y, hy, rfl⟩ := List.mem_map.1 hb
      exact hp.2 y (hd.subset hy)
    · rw [← hfst, List.filter_map, show (alnum ∘ fun x : UInt8 × Nat => x.1) = (fun x => alnum x.1) from rfl, hf]
      simp [gramToken, lower_lowered, Function.comp_def]

/-- Examples of texts: `A b-c!`, with the n-grams `a`, `b`, `c` and `bc`; the token `bc` is at 2, 3 bytes long. -/
def gText : Bytes := [65, 32, 98, 45, 99, 33]
example : Ascii gText := by unfold Ascii gText; decide
example : ngrams 1 gText = [[97], [98], [99]] ∧ ngrams 2 gText = [[98, 99]] := by decide +kernel
example : buildNgram id gText 2 = [⟨[98, 99], 2, 3⟩] := by decide +kernel
/-- A function that changes ASCII letters only. -/
def asciiLower (s : JsString) : JsString := s.map (fun u => if 65 ≤ u ∧ u ≤ 90 then u + 32 else u)
theorem asciiLower_ok (w : Bytes) (_ : Ascii w) : asciiLower (utf16 w) = utf16 (w.map lowered) := by
  unfold asciiLower utf16
  rw [List.map_map, List.map_map]
  exact List.map_congr_left fun b _ => byte_all (P := fun b => ((fun u : UInt16 => if 65 ≤ u ∧ u ≤ 90 then u + 32 else u) ∘ (·.toUInt16)) b =
    ((·.toUInt16) ∘ lowered) b) (by decide +kernel) b
example : tsTokens asciiLower 1 2 (utf16 gText) = .ok [⟨[97], 10⟩, ⟨[98], 10⟩, ⟨[99], 10⟩, ⟨[98, 99], 9⟩] := by
  rw [(C49_tokens (nfkd := id) (fun _ _ => rfl) asciiLower_ok gText (by unfold Ascii gText; decide)).2 1 2 (by decide) (by decide)]
  decide +kernel

/-- Outside ASCII the tokenizers differ: after a character outside the Basic Multilingual Plane the client takes the
wrong code units.  For a text U+1F600, space, `a`, NFKD-normalized already, the indexer stores `a`, and the client
searches for a space. -/
theorem C49_astral_violated (nfkd : Bytes → Bytes) (lower : JsString → JsString)
    (hn : nfkd [0xF0, 0x9F, 0x98, 0x80, 32, 97] = [0xF0, 0x9F, 0x98, 0x80, 32, 97]) (hl : lower [32] = [32]) :
    (buildNgram nfkd [0xF0, 0x9F, 0x98, 0x80, 32, 97] 1).map (·.word) = [[97]] ∧
    tsTokens lower 1 1 [0xD83D, 0xDE00, 32, 97] = .ok [⟨[32], 10⟩] := by
  constructor
  · have : normalizeToAscii nfkd [0xF0, 0x9F, 0x98, 0x80, 32, 97] = normalizeToAscii id [0xF0, 0x9F, 0x98, 0x80, 32, 97] := by
      unfold normalizeToAscii; rw [hn]; rfl
    unfold buildNgram
    rw [this]
    decide +kernel
  · have : tsTokens lower 1 1 [0xD83D, 0xDE00, 32, 97] = .ok [⟨lower [32], 10⟩] := by
      simp only [tsTokens]
      have hw : tsWords 1 0 [] (jsCodePoints [0xD83D, 0xDE00, 32, 97]) = [[2]] := by decide +kernel
      rw [hw]
      rfl
    rw [this, hl]

/-! ### C50 -/

theorem exchange_ok {α : Type} {i j : Nat} {l : List α} (hi : i < l.length) (hj : j < l.length) :
    ∃ l', exchange i j l = .ok l' ∧ l'.Perm l ∧ l'[i]? = l[j]? ∧ ∀ k, i < k → j ≤ i → l'[k]? = l[k]? := by
  unfold exchange
  rw [List.getElem?_eq_getElem hi, List.getElem?_eq_getElem hj]
  refine ⟨_, rfl, List.set_set_perm hi hj, ?_, fun k hk hji => ?_⟩
  · by_cases h : j = i
    · subst h; simp [hj]
    · rw [List.getElem?_set_ne h, List.getElem?_set_self hi]
  · rw [List.getElem?_set_ne (by omega), List.getElem?_set_ne (by omega)]

/-- C50: shuffling succeeds, loses nothing and adds nothing, whatever the random numbers are. -/
theorem C50_shuffle {α : Type} (rand : Nat → Nat) (tokens : List α) : ∃ soup, shuffle rand tokens = .ok soup ∧ soup.Perm tokens := by
  have : ∀ i (l : List α), i ≤ l.length - 1 → ∃ l', shuffleLoop rand i l = .ok l' ∧ l'.Perm l := by
    intro i
    induction i with
    | zero => intro l _; exact ⟨l, rfl, .refl _⟩
    | succ i ih =>
      intro l hl
      obtain ⟨l1, h1, h2, _⟩ := exchange_ok (l := l) (i := i + 1) (j := rand (i + 1) % (i + 2)) (by omega)
        (Nat.lt_of_lt_of_le (Nat.mod_lt _ (by omega)) (by omega))
      obtain ⟨l2, h3, h4⟩ := ih l1 (by rw [h2.length_eq]; omega)
      exact ⟨l2, by unfold shuffleLoop; rw [h1]; exact h3, h4.trans h2⟩
  exact this _ _ (Nat.le_refl _)

/-- C50: every order is possible. -/
theorem C50_every_order {α : Type} (tokens soup : List α) (h : soup.Perm tokens) : ∃ rand, shuffle rand tokens = .ok soup := by
  have key : ∀ i (l : List α), i ≤ l.length - 1 → ∀ l', l'.Perm l → (∀ k, i < k → l'[k]? = l[k]?) →
      ∃ rand, shuffleLoop rand i l = .ok l' := by
    intro i
    induction i with
    | zero =>
      intro l _ l' hp hk
      refine ⟨fun _ => 0, ?_⟩
      have : l' = l := by
        cases l with
        | nil => exact hp.eq_nil
        | cons x xs =>
          cases l' with
          | nil => exact absurd hp.length_eq (by simp)
          | cons y ys =>
            have : ys = xs := List.ext_getElem? fun k => by simpa using hk (k + 1) (by omega)
            subst this
            have := (List.perm_append_right_iff ys (l₁ := [y]) (l₂ := [x])).1 hp
            simp at this
            rw [this]
      rw [this]; rfl
    | succ i ih =>
      intro l hl l' hp hk
      have hi' : i + 1 < l'.length := by rw [hp.length_eq]; omega
      -- the element that belongs at i + 1 is among the first i + 2
      have hmem : l'[i + 1] ∈ l.take (i + 2) := by
        have hd : l'.drop (i + 2) = l.drop (i + 2) := List.ext_getElem? fun k => by
          rw [List.getElem?_drop, List.getElem?_drop]; exact hk _ (by omega)
        have hpt : (l'.take (i + 2)).Perm (l.take (i + 2)) := by
          rw [← List.take_append_drop (i + 2) l', ← List.take_append_drop (i + 2) l, hd] at hp
          exact (List.perm_append_right_iff _).1 hp
        refine hpt.mem_iff.1 ?_
        rw [List.mem_take_iff_getElem]
        exact ⟨i + 1, by omega, rfl⟩
      obtain ⟨j, hj, hje⟩ := List.mem_take_iff_getElem.1 hmem
      obtain ⟨l1, h1, h2, h3, h4⟩ := exchange_ok (l := l) (i := i + 1) (j := j) (by omega) (by omega)
      obtain ⟨rand, hr⟩ := ih l1 (by rw [h2.length_eq]; omega) l' (hp.trans h2.symm) (fun k hki => by
        by_cases he : k = i + 1
        · subst he
          rw [h3, List.getElem?_eq_getElem hi', List.getElem?_eq_getElem (by omega), hje]
        · rw [hk k (by omega), h4 k (by omega) (by omega)])
      refine ⟨fun k => if k = i + 1 then j else rand k, ?_⟩
      have hsame : ∀ n (m : List α), n ≤ i → shuffleLoop (fun k => if k = i + 1 then j else rand k) n m = shuffleLoop rand n m := by
        intro n
        induction n with
        | zero => intros; rfl
        | succ n ihn =>
          intro m hn
          unfold shuffleLoop
          rw [if_neg (by omega), show shuffleLoop (fun k => if k = i + 1 then j else rand k) n = shuffleLoop rand n from
            funext fun m => ihn m (by omega)]
      unfold shuffleLoop
      rw [if_pos rfl, Nat.mod_eq_of_lt (by omega), h1]
      simp only [Res.bind]
      rw [hsame i l1 (Nat.le_refl _)]
      exact hr
  refine key _ tokens (Nat.le_refl _) soup h (fun k hk => ?_)
  rw [List.getElem?_eq_none (by rw [h.length_eq]; omega), List.getElem?_eq_none (by omega)]

example : shuffle (fun _ => 0) [1, 2, 3] = .ok [2, 3, 1] := by decide +kernel

end Appendable
