import Verif.Props.Ngram
/-! C75: where the n-grams of a text with characters beyond ASCII are. -/
namespace Appendable
open Spec

theorem u8 {n : Nat} (h : n < 256) : (UInt8.ofNat n).toNat = n := by simp; omega

/-- Decoding reads back the character that was encoded. -/
theorem decode_utf8 {r : Nat} (h : Scalar r) (rest : Bytes) : decodeRune (utf8 r ++ rest) = (r, runeLen r) ∧ (utf8 r).length = runeLen r ∧
    0 < (utf8 r).length := by
  unfold Scalar at h
  unfold utf8 runeLen
  by_cases h1 : r < 0x80
  · simp only [if_pos h1]
    refine ⟨?_, rfl, by simp⟩
    simp only [List.cons_append, List.nil_append, decodeRune]
    rw [u8 (by omega), if_pos h1]
  · by_cases h2 : r < 0x800
    · simp only [if_neg h1, if_pos h2]
      refine ⟨?_, rfl, by simp⟩
      simp only [List.cons_append, List.nil_append, decodeRune]
      rw [u8 (by omega), u8 (by omega), if_neg (by omega)]
      have : utf8First (0xC0 + r / 64) = some (2, 0x80, 0xBF) := by unfold utf8First; rw [if_pos (by omega)]
      rw [this]
      simp only
      rw [if_neg (by omega), if_pos trivial]
      congr 1
      omega
    · by_cases h3 : r < 0x10000
      · simp only [if_neg h1, if_neg h2, if_pos h3]
        refine ⟨?_, rfl, by simp⟩
        simp only [List.cons_append, List.nil_append, decodeRune]
        rw [u8 (by omega), u8 (by omega), u8 (by omega), if_neg (by omega)]
        have : ∃ lo hi, utf8First (0xE0 + r / 4096) = some (3, lo, hi) ∧ lo ≤ 0x80 + r / 64 % 64 ∧ 0x80 + r / 64 % 64 ≤ hi := by
          unfold utf8First
          rw [if_neg (by omega)]
          by_cases c1 : 0xE0 + r / 4096 = 0xE0
          · rw [if_pos c1]; exact ⟨_, _, rfl, by omega, by omega⟩
          · rw [if_neg c1]
            by_cases c2 : 0xE1 ≤ 0xE0 + r / 4096 ∧ 0xE0 + r / 4096 ≤ 0xEC
            · rw [if_pos c2]; exact ⟨_, _, rfl, by omega, by omega⟩
            · rw [if_neg c2]
              by_cases c3 : 0xE0 + r / 4096 = 0xED
              · rw [if_pos c3]; exact ⟨_, _, rfl, by omega, by omega⟩
              · rw [if_neg c3, if_pos (by omega)]; exact ⟨_, _, rfl, by omega, by omega⟩
        obtain ⟨lo, hi, e, l1, l2⟩ := this
        rw [e]
        simp only
        rw [if_neg (by omega), if_neg (by omega), if_neg (by omega), if_pos trivial]
        congr 1
        omega
      · simp only [if_neg h1, if_neg h2, if_neg h3]
        refine ⟨?_, rfl, by simp⟩
        simp only [List.cons_append, List.nil_append, decodeRune]
        rw [u8 (by omega), u8 (by omega), u8 (by omega), u8 (by omega), if_neg (by omega)]
        have : ∃ lo hi, utf8First (0xF0 + r / 262144) = some (4, lo, hi) ∧ lo ≤ 0x80 + r / 4096 % 64 ∧ 0x80 + r / 4096 % 64 ≤ hi := by
          unfold utf8First
          rw [if_neg (by omega), if_neg (by omega), if_neg (by omega), if_neg (by omega), if_neg (by omega)]
          by_cases c1 : 0xF0 + r / 262144 = 0xF0
          · rw [if_pos c1]; exact ⟨_, _, rfl, by omega, by omega⟩
          · rw [if_neg c1]
            by_cases c2 : 0xF1 ≤ 0xF0 + r / 262144 ∧ 0xF0 + r / 262144 ≤ 0xF3
            · rw [if_pos c2]; exact ⟨_, _, rfl, by omega, by omega⟩
            · rw [if_neg c2, if_pos (by omega)]; exact ⟨_, _, rfl, by omega, by omega⟩
        obtain ⟨lo, hi, e, l1, l2⟩ := this
        rw [e]
        simp only
        rw [if_neg (by omega), if_neg (by omega), if_neg (by omega), if_neg (by omega), if_neg (by omega)]
        congr 1
        omega

/-- What is kept of a character: the byte, if it is ASCII, with its number. -/
def keptRunes (l : List (Nat × Nat)) : List (UInt8 × Int) :=
  (l.filter (fun x => decide (x.1 < 128))).map (fun x => (UInt8.ofNat x.1, (x.2 : Int)))

theorem asciiFrom_runes (rs : List Nat) : ∀ (fuel i k : Nat) (add : Int), (∀ r ∈ rs, Scalar r) → (rs.flatMap utf8).length ≤ fuel →
    (i : Int) - add = k → asciiFrom fuel i add (rs.flatMap utf8) = keptRunes (rs.zipIdx k) := by
  induction rs with
  | nil => intro fuel i k add _ _ _; cases fuel <;> rfl
  | cons r rs ih =>
    intro fuel i k add hs hf hk
    obtain ⟨d1, d2, d3⟩ := decode_utf8 (hs r (by simp)) (rs.flatMap utf8)
    rw [List.flatMap_cons] at hf ⊢
    rw [List.length_append] at hf
    cases fuel with
    | zero => omega
    | succ fuel =>
      obtain ⟨b0, bs, hb⟩ : ∃ b0 bs, utf8 r ++ rs.flatMap utf8 = b0 :: bs := by
        cases hu : utf8 r ++ rs.flatMap utf8 with
        | nil =>
          have := congrArg List.length hu
          rw [List.length_append, List.length_nil] at this
          omega
        | cons a l => exact ⟨a, l, rfl⟩
      rw [hb] at d1 ⊢
      unfold asciiFrom
      rw [d1]
      simp only
      rw [← hb, ← d2, List.drop_append_of_le_length (Nat.le_refl _), List.drop_length, List.nil_append]
      have hpos : 1 ≤ runeLen r := by omega
      have hadd : (if runeLen r > 1 then add + ((runeLen r : Int) - 1) else add) = add + ((runeLen r : Int) - 1) := by
        split
        · rfl
        · have : runeLen r = 1 := by omega
          rw [this]; simp
      rw [d2, hadd, ih fuel _ (k + 1) _ (fun x hx => hs x (by simp [hx])) (by omega) (by omega), List.zipIdx_cons]
      by_cases hr : r < 128
      · have h1 : runeLen r = 1 := by unfold runeLen; rw [if_pos (by omega)]
        rw [if_pos (by omega), h1]
        unfold keptRunes
        rw [List.filter_cons_of_pos (by simpa using hr), List.map_cons]
        congr 2
        simp; omega
      · rw [if_neg (by omega)]
        unfold keptRunes
        rw [List.filter_cons_of_neg (by simpa using hr)]

theorem normalize_runes {nfkd : Bytes → Bytes} {t : Bytes} {rs : List Nat} (hs : ∀ r ∈ rs, Scalar r) (hn : nfkd t = rs.flatMap utf8) :
    normalizeToAscii nfkd t = keptRunes rs.zipIdx := by
  unfold normalizeToAscii
  rw [hn]
  exact asciiFrom_runes rs _ 0 0 0 hs (Nat.le_refl _) (by simp)

theorem splitAcc_filter {α : Type} (a p q : α → Bool) (xs : List α) : ∀ cur,
    splitAcc p q cur (xs.filter a) = splitAcc (fun x => a x && p x) (fun x => a x && q x) cur xs := by
  induction xs with
  | nil => intro cur; rfl
  | cons x xs ih =>
    intro cur
    by_cases ha : a x = true
    · rw [List.filter_cons_of_pos ha]
      simp only [splitAcc, ha, Bool.true_and, ih]
    · rw [List.filter_cons_of_neg ha, ih]
      simp [splitAcc, ha]

/-- A character that is an ASCII letter or digit. -/
def alnumRune (r : Nat) : Bool := decide (r < 128) && alnum (UInt8.ofNat r)

/-- A character that is ASCII white space. -/
def whiteRune (r : Nat) : Bool := decide (r < 128) && white (UInt8.ofNat r)

theorem rune_apart (r : Nat) (h : alnumRune r = true) : whiteRune r = false := by
  unfold alnumRune at h
  unfold whiteRune
  simp only [Bool.and_eq_true] at h
  rw [alnum_white _ h.2, Bool.and_false]

/-- The words of the kept characters, in terms of all characters. -/
theorem runes_words (l : List (Nat × Nat)) :
    splitAcc (fun x : UInt8 × Int => isWordChar x.1) (fun x => isSpaceChar x.1) [] (keptRunes l) =
      ((l.splitOnP (fun x => whiteRune x.1)).map (fun piece => piece.filter (fun x => alnumRune x.1))).map
        (fun w => w.map (fun x => (UInt8.ofNat x.1, (x.2 : Int)))) := by
  unfold keptRunes
  have h1 := splitAcc_map (fun x : Nat × Nat => (UInt8.ofNat x.1, (x.2 : Int))) (fun x => isWordChar x.1) (fun x => isSpaceChar x.1)
    (l.filter (fun x => decide (x.1 < 128))) []
  rw [List.map_nil] at h1
  rw [← h1, splitAcc_filter]
  congr 1
  rw [← splitAcc_nil (fun x : Nat × Nat => alnumRune x.1) (fun x => whiteRune x.1) (fun x => rune_apart x.1)]
  refine splitAcc_congr _ _ _ _ _ (fun x _ => ⟨?_, ?_⟩) _
  · unfold alnumRune; rw [word_alnum]
  · unfold whiteRune; rw [space_white]

/-- C75, the words: the n-grams of a text are those of the ASCII characters of its normal form. -/
theorem C75_words {nfkd : Bytes → Bytes} {t : Bytes} {rs : List Nat} (hs : ∀ r ∈ rs, Scalar r) (hn : nfkd t = rs.flatMap utf8) (n : Nat) :
    (buildNgram nfkd t n).map (·.word) = ngrams n (asciiOf rs) := by
  have ha : Ascii (asciiOf rs) := by
    intro b hb
    obtain ⟨r, hr, rfl⟩ := List.mem_map.1 hb
    have := (List.mem_filter.1 hr).2
    simp only [decide_eq_true_eq] at this
    rw [u8 (by omega)]; exact this
  rw [← go_ngrams (nfkd := id) ha rfl, buildNgram_words, buildNgram_words, normalize_runes hs hn, normalize_ascii (nfkd := id) ha rfl,
    List.map_flatMap, List.map_flatMap]
  have key : ∀ l : List (List (UInt8 × Int)), l.flatMap (fun w => ((windows n w).map gramToken).map (·.word)) =
      (l.map (fun w => w.map (·.1))).flatMap (fun w => (List.range (w.length + 1 - n)).map (fun i => ((w.drop i).take n).map lowerChar)) := by
    intro l
    rw [List.flatMap_map]
    congr 1
    funext w
    simp only [windows, List.map_map, List.length_map]
    refine List.map_congr_left fun i _ => ?_
    simp [gramToken, Function.comp_def]
  rw [key, key, splitAcc_map (fun x : UInt8 × Int => x.1) isWordChar isSpaceChar, splitAcc_map (fun x : UInt8 × Int => x.1) isWordChar isSpaceChar]
  congr 2
  unfold keptRunes asciiOf
  rw [List.map_map, List.map_map]
  have e1 : ((fun x : UInt8 × Int => x.1) ∘ fun x : UInt8 × Nat => (x.1, (x.2 : Int))) = Prod.fst := rfl
  rw [e1, List.zipIdx_map_fst]
  have e2 : ((fun x : UInt8 × Int => x.1) ∘ fun x : Nat × Nat => (UInt8.ofNat x.1, (x.2 : Int))) = UInt8.ofNat ∘ Prod.fst := rfl
  rw [e2, ← List.map_map]
  congr 1
  have := List.filter_map (p := fun r : Nat => decide (r < 128)) (f := Prod.fst) (l := rs.zipIdx)
  rw [List.zipIdx_map_fst] at this
  exact this.symm

/-- C75 as far as the code goes: the offset and the length stored for an n-gram count characters of the normal form of the
text: the characters there, without white space, hold exactly the characters of the n-gram, besides characters that are no
ASCII letters or digits. -/
theorem C75_runes_partial {nfkd : Bytes → Bytes} {t : Bytes} {rs : List Nat} (hs : ∀ r ∈ rs, Scalar r) (hn : nfkd t = rs.flatMap utf8)
    (hlen : rs.length < 2 ^ 32) (n : Nat) (h1 : 1 ≤ n) (g : Token) (hg : g ∈ buildNgram nfkd t n) :
    g.offset.toNat + g.length.toNat ≤ rs.length ∧
    ∃ part, part = (rs.drop g.offset.toNat).take g.length.toNat ∧ (∀ r ∈ part, r < 128 → white (UInt8.ofNat r) = false) ∧
      ((asciiOf part).filter alnum).map lowered = g.word := by
  rw [buildNgram_words, normalize_runes hs hn, runes_words] at hg
  obtain ⟨w', hw', hg⟩ := List.mem_flatMap.1 hg
  obtain ⟨w, hw, rfl⟩ := List.mem_map.1 hw'
  obtain ⟨win', hwin', rfl⟩ := List.mem_map.1 hg
  obtain ⟨i, hi, rfl⟩ := List.mem_map.1 hwin'
  simp only [List.mem_range, List.length_map] at hi
  obtain ⟨piece, hpiece, rfl⟩ := List.mem_map.1 hw
  have hp := piece_infix (fun x : Nat × Nat => whiteRune x.1) rs.zipIdx [] piece hpiece (by simp)
  obtain ⟨win, hwin⟩ : ∃ win, win = ((piece.filter (fun x => alnumRune x.1)).drop i).take n := ⟨_, rfl⟩
  have hl : win.length = n := by rw [hwin]; simp; omega
  rw [← List.map_drop, ← List.map_take, ← hwin]
  have hinf : win <:+: piece.filter (fun x => alnumRune x.1) := by
    rw [hwin]; exact (List.take_prefix _ _).isInfix.trans (List.drop_suffix _ _).isInfix
  cases win with
  | nil => simp at hl; omega
  | cons x w =>
    obtain ⟨z, hz⟩ : ∃ z, x :: w = (x :: w).dropLast ++ [z] := ⟨_, (List.dropLast_concat_getLast (by simp)).symm⟩
    obtain ⟨d, hd, hf, hx, hlast⟩ := infix_filter hz hinf
    have hdt : d <:+: rs.zipIdx := by simpa using hd.trans hp.1
    obtain ⟨k, hk⟩ := zipIdx_infix hdt
    have hdl : d.length ≤ rs.length - k := by
      have := congrArg List.length hk
      simp at this; omega
    have hd0 : 0 < d.length := by
      cases d with
      | nil => simp at hx
      | cons => simp
    have hx2 : x.2 = k := by
      rw [List.head?_eq_getElem?, hk, List.getElem?_zipIdx] at hx
      obtain ⟨y, hy, he⟩ := Option.map_eq_some_iff.1 hx
      rw [← he]; simp
    have hz2 : z.2 = k + (d.length - 1) := by
      rw [List.getLast?_eq_getElem?] at hlast
      generalize hdl' : d.length = L at *
      rw [hk, List.getElem?_zipIdx] at hlast
      obtain ⟨y, hy, he⟩ := Option.map_eq_some_iff.1 hlast
      rw [← he]
    have hfst : d.map (·.1) = (rs.drop k).take d.length := by
      generalize hdl' : d.length = L at *
      rw [hk]; exact List.zipIdx_map_fst _ _
    have hoff : (gramToken ((x :: w).map (fun x => (UInt8.ofNat x.1, (x.2 : Int))))).offset.toNat = k := by
      simp only [gramToken, List.map_cons, List.head?_cons, Option.map_some, Option.getD_some, hx2]
      rw [Int.emod_eq_of_lt (by omega) (by omega)]
      simp; omega
    have hlen' : (gramToken ((x :: w).map (fun x => (UInt8.ofNat x.1, (x.2 : Int))))).length.toNat = d.length := by
      have : ((x :: w).map (fun x => (UInt8.ofNat x.1, (x.2 : Int)))).getLast? = some (UInt8.ofNat z.1, (z.2 : Int)) := by
        rw [hz]; simp
      simp only [gramToken]
      rw [this]
      simp only [List.map_cons, List.head?_cons, Option.map_some, Option.getD_some, hx2, hz2]
      rw [Int.emod_eq_of_lt (by omega) (by omega)]
      simp; omega
    rw [hoff, hlen']
    refine ⟨by omega, _, rfl, ?_, ?_⟩
    · intro b hb hb1
      rw [← hfst] at hb
      obtain ⟨y, hy, rfl⟩ := List.mem_map.1 hb
      have := hp.2 y (hd.subset hy)
      simp only [whiteRune, hb1, decide_true, Bool.true_and] at this
      exact this
    · rw [← hfst]
      have e : ∀ l : List (Nat × Nat), (asciiOf (l.map (·.1))).filter alnum = (l.filter (fun x => alnumRune x.1)).map (fun x => UInt8.ofNat x.1) := by
        intro l
        unfold asciiOf
        induction l with
        | nil => rfl
        | cons a l ih =>
          rw [List.map_cons]
          by_cases h128 : a.1 < 128
          · rw [List.filter_cons_of_pos (by simpa using h128), List.map_cons]
            by_cases hal : alnum (UInt8.ofNat a.1) = true
            · rw [List.filter_cons_of_pos hal, List.filter_cons_of_pos (by unfold alnumRune; rw [hal]; simpa using h128), List.map_cons, ih]
            · rw [List.filter_cons_of_neg hal, List.filter_cons_of_neg (by unfold alnumRune; simp [hal]), ih]
          · rw [List.filter_cons_of_neg (by simpa using h128), List.filter_cons_of_neg (by unfold alnumRune; simp [h128]), ih]
      rw [e, hf]
      simp [gramToken, lower_lowered, Function.comp_def]

/-- C75 violated: the text `日a`, which is its own normal form, has the n-gram `a`, stored as if it were at the second byte. -/
theorem C75_violated (nfkd : Bytes → Bytes) (hn : nfkd [0xE6, 0x97, 0xA5, 97] = [0xE6, 0x97, 0xA5, 97]) :
    ∃ (t : Bytes) (g : Token), nfkd t = t ∧ buildNgram nfkd t 1 = [g] ∧ g.word = [97] ∧
      (t.drop g.offset.toNat).take g.length.toNat = [0x97] := by
  refine ⟨[0xE6, 0x97, 0xA5, 97], ⟨[97], 1, 1⟩, hn, ?_, rfl, by decide⟩
  unfold buildNgram normalizeToAscii
  rw [hn]
  decide

/-- A text to which `C75_runes_partial` applies: `日é a`, normalized: `日`, `e`, an accent, a blank and `a`. -/
example : (∀ r ∈ [0x65E5, 0x65, 0x301, 0x20, 0x61], Scalar r) ∧
    (buildNgram (fun _ => [0x65E5, 0x65, 0x301, 0x20, 0x61].flatMap utf8) [] 1) = [⟨[0x65], 1, 1⟩, ⟨[0x61], 4, 1⟩] := by
  constructor
  · unfold Scalar; decide
  · decide

end Appendable
