import Verif.Spec.Float
import Verif.Lemmas.Jsonl
import Verif.Props.Index
import Verif.Props.IndexWitness
/-! C39, C40: the key values of the handlers. -/
namespace Appendable
open Spec Tree

theorem beNat_cons (x : UInt8) (xs : Bytes) : beNat (x :: xs) = x.toNat * 256 ^ xs.length + beNat xs := by
  unfold beNat
  rw [List.reverse_cons]
  have : ∀ l : Bytes, leNat (l ++ [x]) = leNat l + 256 ^ l.length * x.toNat := by
    intro l
    induction l with
    | nil => simp [leNat]
    | cons a l ih => simp only [List.cons_append, leNat, List.length_cons, ih, Nat.pow_succ]; rw [Nat.mul_add]; rw [Nat.add_assoc]; congr 2; rw [Nat.mul_comm (256 ^ l.length) 256, Nat.mul_assoc]
  rw [this, List.length_reverse, Nat.mul_comm, Nat.add_comm]

theorem beNat_lt (b : Bytes) : beNat b < 256 ^ b.length := by
  have := leNat_lt b.reverse
  rwa [List.length_reverse] at this

/-- On byte strings of the same length the lexicographic order is the order of the big-endian numbers. -/
theorem lex_iff_beNat {a b : Bytes} (h : a.length = b.length) : List.Lex (· < ·) a b ↔ beNat a < beNat b := by
  induction a generalizing b with
  | nil =>
    cases b with
    | nil => simp [beNat, leNat]
    | cons => simp at h
  | cons x xs ih =>
    cases b with
    | nil => simp at h
    | cons y ys =>
      simp only [List.length_cons, Nat.add_right_cancel_iff] at h
      rw [beNat_cons, beNat_cons, h]
      have h1 := beNat_lt xs
      have h2 := beNat_lt ys
      rw [h] at h1
      generalize 256 ^ ys.length = p at *
      rw [List.cons_lex_cons_iff, ih h]
      constructor
      · rintro (hlt | ⟨rfl, hlt⟩)
        · have : x.toNat + 1 ≤ y.toNat := hlt
          have := Nat.mul_le_mul_right p this
          rw [Nat.add_mul] at this
          omega
        · omega
      · intro hlt
        rcases Nat.lt_trichotomy x.toNat y.toNat with hxy | hxy | hxy
        · exact .inl hxy
        · right
          refine ⟨UInt8.toNat.inj hxy, ?_⟩
          rw [hxy] at hlt; omega
        · exfalso
          have := Nat.mul_le_mul_right p (show y.toNat + 1 ≤ x.toNat from hxy)
          rw [Nat.add_mul] at this
          omega

theorem floatMag_lt {a b : UInt64} (h : a.toNat % 2 ^ 63 < b.toNat % 2 ^ 63) : floatMag a < floatMag b := by
  have hea : floatExp a = a.toNat % 2 ^ 63 / 2 ^ 52 := by unfold floatExp; omega
  have heb : floatExp b = b.toNat % 2 ^ 63 / 2 ^ 52 := by unfold floatExp; omega
  have hma : floatMan a = a.toNat % 2 ^ 63 % 2 ^ 52 := by unfold floatMan; omega
  have hmb : floatMan b = b.toNat % 2 ^ 63 % 2 ^ 52 := by unfold floatMan; omega
  have la : floatMan a < 2 ^ 52 := by rw [hma]; exact Nat.mod_lt _ (by decide)
  have lb : floatMan b < 2 ^ 52 := by rw [hmb]; exact Nat.mod_lt _ (by decide)
  have hcase : floatExp a < floatExp b ∨ (floatExp a = floatExp b ∧ floatMan a < floatMan b) := by omega
  unfold floatMag
  generalize floatExp a = ea at *
  generalize floatExp b = eb at *
  generalize floatMan a = ma at *
  generalize floatMan b = mb at *
  rcases hcase with he | ⟨rfl, hm⟩
  · rw [if_neg (show ¬ eb = 0 by omega)]
    have hb1 : 2 ^ 52 * 2 ^ (eb - 1) ≤ (2 ^ 52 + mb) * 2 ^ (eb - 1) := Nat.mul_le_mul_right _ (by omega)
    split
    · have : 1 ≤ 2 ^ (eb - 1) := Nat.one_le_two_pow
      have := Nat.mul_le_mul_left (2 ^ 52) this
      omega
    · have h1 : (2 ^ 52 + ma) * 2 ^ (ea - 1) < 2 ^ 53 * 2 ^ (ea - 1) :=
        Nat.mul_lt_mul_of_pos_right (by omega) (Nat.two_pow_pos _)
      have h2 : 2 ^ 53 * 2 ^ (ea - 1) ≤ 2 ^ 52 * 2 ^ (eb - 1) := by
        rw [← Nat.pow_add, ← Nat.pow_add]
        exact Nat.pow_le_pow_right (by decide) (by omega)
      omega
  · split
    · exact hm
    · exact Nat.mul_lt_mul_of_pos_right (by omega) (Nat.two_pow_pos _)

theorem floatMag_lt_iff (a b : UInt64) : floatMag a < floatMag b ↔ a.toNat % 2 ^ 63 < b.toNat % 2 ^ 63 := by
  refine ⟨fun h => ?_, floatMag_lt⟩
  rcases Nat.lt_trichotomy (a.toNat % 2 ^ 63) (b.toNat % 2 ^ 63) with h1 | h1 | h1
  · exact h1
  · exfalso
    have : floatMag a = floatMag b := by
      unfold floatMag floatExp floatMan
      have e1 : a.toNat / 2 ^ 52 % 2 ^ 11 = b.toNat / 2 ^ 52 % 2 ^ 11 := by omega
      have e2 : a.toNat % 2 ^ 52 = b.toNat % 2 ^ 52 := by omega
      rw [e1, e2]
    omega
  · have := floatMag_lt h1; omega

theorem numKey_lex (a b : UInt64) : List.Lex (· < ·) (beBytes 8 a.toNat) (beBytes 8 b.toNat) ↔ a.toNat < b.toNat := by
  rw [lex_iff_beNat (by simp), beNat_beBytes 8 _ a.toNat_lt, beNat_beBytes 8 _ b.toNat_lt]

/-- C39, partial: for numbers that are not negative, the stored bytes sort exactly as the numbers do.  (Missing:
negative numbers, for which the property is violated.) -/
theorem C39_nonnegative_partial (a b : UInt64) (ha : floatNeg a = false) (hb : floatNeg b = false) :
    List.Lex (· < ·) (Tok.num a).bytes (Tok.num b).bytes ↔ floatVal a < floatVal b := by
  show List.Lex (· < ·) (beBytes 8 a.toNat) (beBytes 8 b.toNat) ↔ _
  rw [numKey_lex]
  unfold floatVal
  rw [if_neg (by simp [ha]), if_neg (by simp [hb]), Int.ofNat_lt, floatMag_lt_iff]
  have h1 := a.toNat_lt; have h2 := b.toNat_lt
  unfold floatNeg at ha hb
  simp only [beq_eq_false_iff_ne] at ha hb
  omega

/-- C39 is violated: exactly how negative numbers sort.  Two negative numbers sort in the reverse order, and every
negative number sorts after every number that is not negative. -/
theorem C39_negative_violated (a b : UInt64) (ha : floatNeg a = true) :
    (floatNeg b = true → (List.Lex (· < ·) (Tok.num a).bytes (Tok.num b).bytes ↔ floatVal b < floatVal a)) ∧
    (floatNeg b = false → List.Lex (· < ·) (Tok.num b).bytes (Tok.num a).bytes) := by
  have h1 := a.toNat_lt; have h2 := b.toNat_lt
  constructor
  · intro hb
    show List.Lex (· < ·) (beBytes 8 a.toNat) (beBytes 8 b.toNat) ↔ _
    rw [numKey_lex]
    unfold floatVal
    rw [if_pos ha, if_pos hb]
    have : (-(floatMag b : Int) < -(floatMag a : Int)) ↔ floatMag a < floatMag b := by omega
    rw [this, floatMag_lt_iff]
    unfold floatNeg at ha hb
    simp only [beq_iff_eq] at ha hb
    omega
  · intro hb
    show List.Lex (· < ·) (beBytes 8 b.toNat) (beBytes 8 a.toNat)
    rw [numKey_lex]
    unfold floatNeg at ha hb
    simp only [beq_iff_eq, beq_eq_false_iff_ne] at ha hb
    omega

/-- A concrete case: -1 < 1 < 2, but 1 sorts before 2 before -1. -/
example : floatVal 0xBFF0000000000000 < floatVal 0x3FF0000000000000 ∧ floatVal 0x3FF0000000000000 < floatVal 0x4000000000000000 ∧
    floatVal 0x4000000000000000 = 2 * floatVal 0x3FF0000000000000 ∧
    List.Lex (· < ·) (Tok.num 0x4000000000000000).bytes (Tok.num 0xBFF0000000000000).bytes := by
  refine ⟨by decide +kernel, by decide +kernel, by decide +kernel, ?_⟩
  exact (C39_negative_violated 0xBFF0000000000000 0x4000000000000000 (by decide)).2 (by decide)

/-- C40: every key that the JSONL handler forms has the length that the width of its index demands (width 0: any
length). -/
theorem C40_jsonl_widths (nfkd : Bytes → Bytes) (hs : List Bytes) (off : Nat) (line : MemPtr) (f : Field) :
    ∀ j ∈ fieldJobs nfkd hs off line f, ∀ e ∈ j.entries,
      determineTypeByte j.ty = 0 ∨ e.1.value.length + 1 = (determineTypeByte j.ty).toNat := by
  intro j hj e he
  unfold fieldJobs at hj
  rcases List.mem_cons.1 hj with rfl | hj
  · simp only at he ⊢
    split at he
    · simp only [List.mem_singleton] at he
      subst he
      rename_i hsc
      cases ht : f.tok with
      | str b => left; rfl
      | num b => right; show (beBytes 8 b.toNat).length + 1 = (9 : UInt16).toNat; rw [beBytes_length]; rfl
      | bool b => right; cases b <;> rfl
      | null => right; rfl
      | _ => rw [ht] at hsc; exact absurd hsc (by simp [isScalar])
    · simp at he
  · have hg : ∀ (text : Bytes) (ty : FieldType) (n : Nat), n + 1 = (determineTypeByte ty.code).toNat →
        e ∈ (gramJob nfkd off line f text ty n).entries → e.1.value.length + 1 = (determineTypeByte ty.code).toNat := by
      intro text ty n hn hm
      unfold gramJob at hm
      obtain ⟨g, hg, rfl⟩ := List.mem_map.1 hm
      simp only
      rw [buildNgram_length nfkd text n g hg, hn]
    split at hj
    · split at hj
      · right
        simp only [List.mem_cons, List.not_mem_nil, or_false] at hj
        rcases hj with rfl | rfl | rfl
        · exact hg _ .unigram 1 rfl he
        · exact hg _ .bigram 2 rfl he
        · exact hg _ .trigram 3 rfl he
      · simp at hj
    · simp at hj

/-- C40: `Insert` rejects no such key for its length: in every reachable index file, inserting a key of the length that
the width of the index demands succeeds, or fails because the key is there already, or because the file is full. -/
theorem C40_insert_accepts {parse : Bytes → Bytes} {data : Bytes} {i : IndexFile} {s : PF} {fm : FileMeta}
    {is : List (LP × IndexMeta)} {c : Nat → List (RV × MemPtr)} (hr : IndexRun parse id data i s fm is c) {k : Nat} {p : LP}
    {m : IndexMeta} (hk : is[k]? = some (p, m)) (hw : m.width ≠ 0) {key : RV} (v : MemPtr)
    (h : key.value.length + 1 = m.width.toNat) :
    ((treeAt data parse m.width p).insert key v s).1 = .ok () ∨
    ((treeAt data parse m.width p).insert key v s).1 = .err (.msg "key already exists") ∨
    ((treeAt data parse m.width p).insert key v s).1 = .err .io := by
  obtain ⟨hi, _⟩ := indexRun_is (wd := id) smallWidths_id hr
  have hko : KeyOK ⟨data, parse, id m.width⟩ key := by
    unfold KeyOK
    rw [if_neg (by exact hw)]
    have h1 : (1 : UInt16) ≤ m.width := by rw [UInt16.le_iff_toNat_le]; show 1 ≤ m.width.toNat; omega
    show key.value.length = (m.width - 1).toNat
    rw [UInt16.toNat_sub_of_le _ _ h1]
    show _ = m.width.toNat - 1
    omega
  rcases hi.insert hk v hko with ⟨s', e, _⟩ | ⟨q, e, _⟩ | ⟨s', e, _⟩
  · exact .inl (by rw [show treeAt data parse m.width p = treeAt data parse (id m.width) p from rfl, e])
  · exact .inr (.inl (by rw [show treeAt data parse m.width p = treeAt data parse (id m.width) p from rfl, e]))
  · exact .inr (.inr (by rw [show treeAt data parse m.width p = treeAt data parse (id m.width) p from rfl, e]))

/-- Non-vacuity: the second index of the history `wRun` is a float index, of width 9; the key of the number 1 has 8 bytes. -/
example : ∃ s : PF, ((treeAt wData wParse 9 (okVal wFind2.1).1).insert ⟨⟨0, 3⟩, (Tok.num 0x3FF0000000000000).bytes⟩ ⟨0, 3⟩ s).1 ≠
    .err (.msg "key does not match with BPTree width") := by
  obtain ⟨s, h⟩ := wRun
  refine ⟨s, fun hc => ?_⟩
  rcases C40_insert_accepts h (k := 1) (key := ⟨⟨0, 3⟩, (Tok.num 0x3FF0000000000000).bytes⟩) rfl (by decide) ⟨0, 3⟩ (by decide) with e | e | e <;>
    · have := e.symm.trans hc
      revert this
      simp

/-- Non-vacuity: a searched string field has four jobs, one of them with two bigrams of width 3. -/
example : (fieldJobs id [[97]] 0 ⟨0, 12⟩ ⟨[97], .str [98, 99, 100], 5, 10⟩).length = 4 ∧
    ((fieldJobs id [[97]] 0 ⟨0, 12⟩ ⟨[97], .str [98, 99, 100], 5, 10⟩).map (fun j => j.entries.length)) = [1, 3, 2, 1] := by
  decide +kernel

end Appendable
