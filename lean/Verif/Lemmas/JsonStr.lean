import Verif.Lemmas.JsonLex
import Verif.Spec.JsonText
import Verif.Props.NgramRunes
/-! String and number literals. -/
namespace Appendable
open Spec

/-! ### Scanning strings -/

theorem scanString_plain {c : UInt8} (h : 32 ≤ c ∧ c ≠ 34 ∧ c ≠ 92) (cs : Bytes) : scanString (c :: cs) = (scanString cs).map (· + 1) := by
  rw [scanString.eq_def]
  have h0 : ¬ (c < 32 ∨ c = 92) := by
    rintro (h' | h')
    · exact absurd (UInt8.lt_iff_toNat_lt.1 h') (by have := UInt8.le_iff_toNat_le.1 h.1; omega)
    · exact h.2.2 h'
  split
  · rename_i h'; cases h'
  · rename_i h'; cases h'; exact absurd rfl h.2.1
  · rename_i h'; cases h'; exact absurd rfl h.2.2
  · rename_i h'; cases h'; rw [if_neg h0]

theorem scanString_plains {p : Bytes} (h : ∀ c ∈ p, 32 ≤ c ∧ c ≠ 34 ∧ c ≠ 92) (cs : Bytes) :
    scanString (p ++ cs) = (scanString cs).map (· + p.length) := by
  induction p with
  | nil => simp
  | cons c p ih =>
    rw [List.cons_append, scanString_plain (h c (by simp)), ih (fun c hc => h c (by simp [hc]))]
    cases scanString cs <;> simp; omega

theorem utf8_bytes {r : Nat} (h : Scalar r) (h80 : 0x80 ≤ r) : ∀ c ∈ utf8 r, 0x80 ≤ c.toNat := by
  unfold Scalar at h
  intro c hc
  unfold utf8 at hc
  rw [if_neg (by omega)] at hc
  repeat' split at hc
  · simp only [List.mem_cons, List.not_mem_nil, or_false] at hc
    rcases hc with rfl | rfl <;> rw [u8 (by omega)] <;> omega
  · simp only [List.mem_cons, List.not_mem_nil, or_false] at hc
    rcases hc with rfl | rfl | rfl <;> rw [u8 (by omega)] <;> omega
  · simp only [List.mem_cons, List.not_mem_nil, or_false] at hc
    rcases hc with rfl | rfl | rfl | rfl <;> rw [u8 (by omega)] <;> omega

theorem plain_bytes {r : Nat} (h : (Chr.plain r).WF) : ∀ c ∈ utf8 r, 32 ≤ c ∧ c ≠ 34 ∧ c ≠ 92 := by
  obtain ⟨hs, h1, h2, h3⟩ := h
  intro c hc
  rw [UInt8.le_iff_toNat_le, ne_eq, ne_eq, ← UInt8.toNat_inj, ← UInt8.toNat_inj]
  show 32 ≤ c.toNat ∧ ¬ c.toNat = 34 ∧ ¬ c.toNat = 92
  by_cases h80 : r < 0x80
  · unfold utf8 at hc
    rw [if_pos h80] at hc
    simp only [List.mem_cons, List.not_mem_nil, or_false] at hc
    subst hc
    rw [u8 (by omega)]
    omega
  · have := utf8_bytes hs (by omega) c hc
    omega

theorem hexChar_hex (up : Bool) {d : Nat} (h : d < 16) : isHex (hexChar up d) = true ∧ hexVal (hexChar up d) = d := by
  have : ∀ up : Bool, ∀ d : Fin 16, isHex (hexChar up d) = true ∧ hexVal (hexChar up d) = d := by decide +kernel
  exact this up ⟨d, h⟩

theorem hex4_length (up : Nat → Bool) (r : Nat) : (hex4 up r).length = 4 := rfl

theorem scanString_hex4 (up : Nat → Bool) (r : Nat) (cs : Bytes) : scanString (92 :: 117 :: (hex4 up r ++ cs)) = (scanString cs).map (· + 6) := by
  unfold hex4
  simp only [List.cons_append, List.nil_append]
  rw [scanString.eq_def]
  simp only [(hexChar_hex _ (Nat.mod_lt _ (by omega))).1, Bool.and_self, if_true]
  rw [if_neg (by decide)]

theorem getu4_hex4 (up : Nat → Bool) {r : Nat} (h : r < 0x10000) (cs : Bytes) : getu4 (92 :: 117 :: (hex4 up r ++ cs)) = some r := by
  unfold hex4
  simp only [List.cons_append, List.nil_append, getu4, (hexChar_hex _ (Nat.mod_lt _ (by omega))).2]
  congr 1
  omega

theorem scanString_chr {c : Chr} (h : c.WF) (cs : Bytes) : scanString (c.text ++ cs) = (scanString cs).map (· + c.text.length) := by
  cases c with
  | plain r => exact scanString_plains (plain_bytes h) cs
  | esc e =>
    have hd : e = 34 ∨ e = 92 ∨ e = 47 ∨ e = 98 ∨ e = 102 ∨ e = 110 ∨ e = 114 ∨ e = 116 := by
      simpa [Chr.WF, escapes] using h
    show scanString (92 :: e :: cs) = _
    rw [scanString.eq_def]
    simp only [if_pos hd]
    rfl
  | hex up r =>
    show scanString (92 :: 117 :: (hex4 up r ++ cs)) = _
    rw [scanString_hex4]
    rfl
  | pair up up' r =>
    show scanString (([92, 117] ++ hex4 up _ ++ ([92, 117] ++ hex4 up' _)) ++ cs) = _
    rw [show ([92, 117] ++ hex4 up (0xD800 + (r - 0x10000) / 1024) ++ ([92, 117] ++ hex4 up' (0xDC00 + (r - 0x10000) % 1024))) ++ cs =
      92 :: 117 :: (hex4 up (0xD800 + (r - 0x10000) / 1024) ++ (92 :: 117 :: (hex4 up' (0xDC00 + (r - 0x10000) % 1024) ++ cs))) from by simp]
    rw [scanString_hex4, scanString_hex4, Option.map_map]
    rfl

theorem scanString_lit {l : Lit} (h : l.WF) (rest : Bytes) :
    scanString (l.flatMap Chr.text ++ 34 :: rest) = some ((l.flatMap Chr.text).length + 1) := by
  induction l with
  | nil => rw [scanString.eq_def]; rfl
  | cons c l ih =>
    rw [List.flatMap_cons, List.append_assoc, scanString_chr (h c (by simp)), ih (fun c hc => h c (by simp [hc]))]
    simp only [Option.map_some, List.length_append, Option.some.injEq]
    omega

/-! ### Unquoting -/

theorem encodeRune_utf8 (r : Nat) : encodeRune r = utf8 r := rfl

theorem chr_text_pos {c : Chr} (h : c.WF) : 0 < c.text.length := by
  cases c with
  | plain r => exact (decode_utf8 h.1 []).2.2
  | esc e => simp [Chr.text]
  | hex up r => simp [Chr.text]
  | pair up up' r => simp [Chr.text]

theorem unquote_chr {c : Chr} (h : c.WF) (fuel : Nat) (cs : Bytes) : unquote (fuel + 1) (c.text ++ cs) = utf8 c.point ++ unquote fuel cs := by
  cases c with
  | plain r =>
    obtain ⟨hs, h1, h2, h3⟩ := h
    show unquote (fuel + 1) (utf8 r ++ cs) = utf8 r ++ unquote fuel cs
    by_cases h80 : r < 0x80
    · have e : utf8 r = [UInt8.ofNat r] := by unfold utf8; rw [if_pos h80]
      have h92 : UInt8.ofNat r ≠ 92 := by
        intro h'; rw [← UInt8.toNat_inj, u8 (by omega)] at h'; exact h3 h'
      have hlt : UInt8.ofNat r < 0x80 := by rw [UInt8.lt_iff_toNat_lt, u8 (by omega)]; exact h80
      rw [e, List.singleton_append]
      generalize UInt8.ofNat r = x at h92 hlt
      rw [unquote.eq_def]
      split
      · rename_i h'; cases h'
      · rename_i h'; cases h'
      · rename_i h'; cases h'; exact absurd rfl h92
      · rename_i h1 h2; cases h1; cases h2; rw [if_pos hlt]; rfl
    · obtain ⟨d1, d2, d3⟩ := decode_utf8 hs cs
      obtain ⟨c0, p, he⟩ : ∃ c0 p, utf8 r = c0 :: p := by
        cases hu : utf8 r with
        | nil => rw [hu] at d3; simp at d3
        | cons c0 p => exact ⟨_, _, rfl⟩
      have hc0 : 0x80 ≤ c0.toNat := utf8_bytes hs (by omega) c0 (by rw [he]; simp)
      have hne : c0 ≠ 92 := by intro h'; subst h'; simp at hc0
      have hlt : ¬ c0 < 0x80 := by rw [UInt8.lt_iff_toNat_lt]; show ¬ c0.toNat < 0x80; omega
      rw [he] at d1 d2 ⊢
      rw [List.cons_append, unquote.eq_def]
      split
      · rename_i h'; cases h'
      · rename_i h'; cases h'
      · rename_i h'; cases h'; exact absurd rfl hne
      · rename_i h1 h2
        cases h1; cases h2
        rw [if_neg hlt, ← List.cons_append, d1]
        simp only
        rw [encodeRune_utf8, he, ← d2, List.drop_left]
  | esc e =>
    have hd : e ∈ escapes.map (·.1) := h
    simp only [escapes, List.map_cons, List.map_nil, List.mem_cons, List.not_mem_nil, or_false] at hd
    rcases hd with rfl | rfl | rfl | rfl | rfl | rfl | rfl | rfl <;> rfl
  | hex up r =>
    obtain ⟨hs, hr⟩ := h
    show unquote (fuel + 1) (92 :: 117 :: (hex4 up r ++ cs)) = utf8 r ++ unquote fuel cs
    rw [unquote]
    rw [getu4_hex4 up hr]
    simp only [Option.getD_some]
    rw [if_neg (by unfold Scalar at hs; omega), encodeRune_utf8]
    rw [show (hex4 up r ++ cs).drop 4 = cs from List.drop_left' (hex4_length up r)]
  | pair up up' r =>
    obtain ⟨h1, h2⟩ := h
    obtain ⟨a, ha⟩ : ∃ a, a = 0xD800 + (r - 0x10000) / 1024 := ⟨_, rfl⟩
    obtain ⟨b, hb⟩ : ∃ b, b = 0xDC00 + (r - 0x10000) % 1024 := ⟨_, rfl⟩
    show unquote (fuel + 1) (([92, 117] ++ hex4 up _ ++ ([92, 117] ++ hex4 up' _)) ++ cs) = utf8 r ++ unquote fuel cs
    rw [← ha, ← hb]
    rw [show ([92, 117] ++ hex4 up a ++ ([92, 117] ++ hex4 up' b)) ++ cs = 92 :: 117 :: (hex4 up a ++ (92 :: 117 :: (hex4 up' b ++ cs))) from by simp]
    rw [unquote, getu4_hex4 up (by omega)]
    simp only [Option.getD_some]
    rw [if_pos (by omega)]
    rw [show (hex4 up a ++ (92 :: 117 :: (hex4 up' b ++ cs))).drop 4 = 92 :: 117 :: (hex4 up' b ++ cs) from List.drop_left' (hex4_length up a)]
    rw [getu4_hex4 up' (by omega)]
    simp only
    rw [if_pos (by omega), encodeRune_utf8]
    rw [show (92 :: 117 :: (hex4 up' b ++ cs)).drop 6 = cs from by rw [← List.cons_append, ← List.cons_append]; exact List.drop_left' (by simp [hex4_length])]
    congr 2
    omega

theorem unquote_lit {l : Lit} (h : l.WF) : ∀ fuel, (l.flatMap Chr.text).length < fuel → unquote fuel (l.flatMap Chr.text) = l.value := by
  induction l with
  | nil =>
    intro fuel hf
    cases fuel with
    | zero => rfl
    | succ f => rfl
  | cons c l ih =>
    intro fuel hf
    rw [List.flatMap_cons, List.length_append] at hf
    have := chr_text_pos (h c (by simp))
    cases fuel with
    | zero => omega
    | succ fuel =>
      rw [List.flatMap_cons, unquote_chr (h c (by simp)), ih (fun c hc => h c (by simp [hc])) fuel (by omega)]
      rfl

theorem readScalar_lit {num : Bytes → Option UInt64} {l : Lit} (h : l.WF) (rest : Bytes) :
    readScalar num (l.text ++ rest) = some (.str l.value, l.text.length) := by
  have e : l.text ++ rest = 34 :: (l.flatMap Chr.text ++ 34 :: rest) := by simp [Lit.text]
  rw [e]
  unfold readScalar
  simp only [if_true]
  rw [scanString_lit h]
  simp only [Option.map_some, Nat.add_sub_cancel, List.take_left]
  rw [unquote_lit h _ (Nat.lt_succ_self _)]
  simp [Lit.text]

/-! ### Numbers -/

theorem isDigit_iff (c : UInt8) : isDigit c = true ↔ 48 ≤ c.toNat ∧ c.toNat ≤ 57 := by
  unfold isDigit
  simp only [Bool.and_eq_true, decide_eq_true_eq, UInt8.le_iff_toNat_le]
  exact Iff.rfl

/-- What may follow a number. -/
def Stops (rest : Bytes) : Prop := ∀ c, rest.head? = some c → isDigit c = false ∧ c ≠ 46 ∧ c ≠ 101 ∧ c ≠ 69

theorem digits_append {ds : Bytes} (h : ∀ c ∈ ds, 48 ≤ c.toNat ∧ c.toNat ≤ 57) {rest : Bytes} (hr : ∀ c, rest.head? = some c → isDigit c = false) :
    digits (ds ++ rest) = ds.length := by
  induction ds with
  | nil =>
    cases rest with
    | nil => rfl
    | cons c cs => simp [digits, hr c rfl]
  | cons c ds ih =>
    rw [List.cons_append, digits, if_pos ((isDigit_iff c).2 (h c (by simp))), ih (fun c hc => h c (by simp [hc]))]
    simp

theorem scanExp_num {n : Num} (h : n.WF) {rest : Bytes} (hr : Stops rest) : scanExp (n.expText ++ rest) = some n.expText.length := by
  unfold Num.expText
  cases he : n.exp with
  | none =>
    simp only [List.nil_append, List.length_nil]
    cases rest with
    | nil => rfl
    | cons c cs =>
      have := hr c rfl
      unfold scanExp
      simp [this.2.2.1, this.2.2.2]
  | some e =>
    obtain ⟨upper, sign, ds⟩ := e
    have hd := h.exp _ he
    simp only at hd ⊢
    have hlen := digits_append hd.2 (fun c hc => (hr c hc).1)
    have hne : ds.length ≠ 0 := by have := hd.1; simpa using this
    have hE : (if upper then (69 : UInt8) else 101) = 101 ∨ (if upper then (69 : UInt8) else 101) = 69 := by cases upper <;> simp
    rw [List.cons_append, List.append_assoc]
    unfold scanExp
    simp only [if_pos hE]
    cases sign with
    | none =>
      cases ds with
      | nil => simp at hne
      | cons d ds =>
        have hdd := hd.2 d (by simp)
        simp only [List.nil_append, List.cons_append]
        rw [if_neg, if_pos ((isDigit_iff d).2 hdd)]
        · rw [← List.cons_append, hlen]; rfl
        · rintro (rfl | rfl) <;> simp at hdd
    | some b =>
      cases b with
      | true =>
        simp only [List.cons_append, List.nil_append]
        rw [if_pos (by simp), if_neg (by rw [hlen]; exact hne), hlen]; rfl
      | false =>
        simp only [List.cons_append, List.nil_append]
        rw [if_pos (by simp), if_neg (by rw [hlen]; exact hne), hlen]; rfl

theorem stops_exp {n : Num} {rest : Bytes} (hr : Stops rest) : ∀ c, (n.expText ++ rest).head? = some c → isDigit c = false ∧ c ≠ 46 := by
  intro c hc
  unfold Num.expText at hc
  cases he : n.exp with
  | none => rw [he] at hc; exact ⟨(hr c hc).1, (hr c hc).2.1⟩
  | some e =>
    rw [he] at hc
    obtain ⟨upper, sign, ds⟩ := e
    simp only [List.cons_append, List.head?_cons, Option.some.injEq] at hc
    subst hc
    cases upper <;> decide

theorem scanFrac_num {n : Num} (h : n.WF) {rest : Bytes} (hr : Stops rest) :
    scanFrac (n.fracText ++ (n.expText ++ rest)) = some (n.fracText ++ n.expText).length := by
  unfold Num.fracText
  cases hf : n.frac with
  | none =>
    simp only [List.nil_append]
    rw [scanFrac.eq_def]
    split
    · rename_i cs he
      exact absurd rfl ((stops_exp hr 46 (by rw [he]; rfl)).2)
    · exact scanExp_num h hr
  | some f =>
    have hd := h.frac _ hf
    have hlen := digits_append hd.2 (fun c hc => (stops_exp (n := n) hr c hc).1)
    have hne : f.length ≠ 0 := by have := hd.1; simpa using this
    simp only [List.cons_append]
    rw [scanFrac, hlen, if_neg hne, List.drop_left, scanExp_num h hr]
    simp only [Option.map_some, List.length_cons, List.length_append, Option.some.injEq]
    omega

theorem stops_frac {n : Num} {rest : Bytes} (hr : Stops rest) : ∀ c, (n.fracText ++ (n.expText ++ rest)).head? = some c → isDigit c = false := by
  intro c hc
  unfold Num.fracText at hc
  cases hf : n.frac with
  | none => rw [hf] at hc; exact (stops_exp hr c hc).1
  | some f =>
    rw [hf] at hc
    simp only [List.cons_append, List.head?_cons, Option.some.injEq] at hc
    subst hc; decide

theorem scanUnsigned_num {n : Num} (h : n.WF) {rest : Bytes} (hr : Stops rest) :
    scanUnsigned (n.int ++ (n.fracText ++ (n.expText ++ rest))) = some (n.int ++ (n.fracText ++ n.expText)).length := by
  cases hi : n.int with
  | nil => exact absurd hi h.int.1
  | cons c ds =>
    have hds := h.int.2
    rw [hi] at hds
    have hdr : ∀ c ∈ ds, 48 ≤ c.toNat ∧ c.toNat ≤ 57 := fun c hc => hds c (by simp [hc])
    rw [List.cons_append]
    unfold scanUnsigned
    simp only
    split
    · rename_i h0
      subst h0
      have := h.zero (by rw [hi]; rfl)
      rw [hi] at this
      simp only [List.cons.injEq, true_and] at this
      subst this
      rw [List.nil_append, scanFrac_num h hr]
      simp
    · rw [if_pos ((isDigit_iff c).2 (hds c (by simp))), digits_append hdr (stops_frac hr), List.drop_left, scanFrac_num h hr]
      simp only [Option.map_some, List.length_append, List.length_cons, Option.some.injEq]
      omega

theorem num_text_assoc (n : Num) (rest : Bytes) : n.text ++ rest = (if n.neg then [45] else []) ++ (n.int ++ (n.fracText ++ (n.expText ++ rest))) := by
  simp [Num.text]

theorem scanNumber_num {n : Num} (h : n.WF) {rest : Bytes} (hr : Stops rest) : scanNumber (n.text ++ rest) = some n.text.length := by
  rw [num_text_assoc]
  cases hn : n.neg with
  | true =>
    simp only [if_true, List.cons_append, List.nil_append]
    rw [scanNumber, scanUnsigned_num h hr]
    simp [Num.text, hn]
  | false =>
    simp only [Bool.false_eq_true, if_false, List.nil_append]
    have : scanNumber (n.int ++ (n.fracText ++ (n.expText ++ rest))) = scanUnsigned (n.int ++ (n.fracText ++ (n.expText ++ rest))) := by
      rw [scanNumber.eq_def]
      split
      · rename_i cs he
        cases hi : n.int with
        | nil => exact absurd hi h.int.1
        | cons c ds =>
          rw [hi] at he
          have := h.int.2 c (by rw [hi]; simp)
          cases he
          simp at this
      · rfl
    rw [this, scanUnsigned_num h hr]
    simp [Num.text, hn]

theorem num_head {n : Num} (h : n.WF) : ∃ c cs, n.text = c :: cs ∧ (c = 45 ∨ (48 ≤ c.toNat ∧ c.toNat ≤ 57)) := by
  unfold Num.text
  cases n.neg with
  | true => exact ⟨45, _, rfl, .inl rfl⟩
  | false =>
    cases hi : n.int with
    | nil => exact absurd hi h.int.1
    | cons c ds => exact ⟨c, _, rfl, .inr (h.int.2 c (by rw [hi]; simp))⟩

theorem readScalar_num {num : Bytes → Option UInt64} {n : Num} (h : n.WF) (hn : (num n.text).isSome) {rest : Bytes} (hr : Stops rest) :
    readScalar num (n.text ++ rest) = some (.num ((num n.text).getD 0), n.text.length) := by
  have hs := scanNumber_num h hr
  obtain ⟨c, cs, he, hc⟩ := num_head h
  obtain ⟨x, hx⟩ := Option.isSome_iff_exists.1 hn
  have hne : c ≠ 34 ∧ c ≠ 116 ∧ c ≠ 102 ∧ c ≠ 110 := by
    refine ⟨?_, ?_, ?_, ?_⟩ <;> (rintro rfl; revert hc; decide)
  have ht : (n.text ++ rest).take n.text.length = n.text := List.take_left
  obtain ⟨k, hk⟩ : ∃ k, k = n.text.length := ⟨_, rfl⟩
  obtain ⟨b, hb⟩ : ∃ b, b = n.text ++ rest := ⟨_, rfl⟩
  have hb' : b = c :: (cs ++ rest) := by rw [hb, he]; rfl
  rw [← hk] at hs ht ⊢
  rw [← hb] at hs ht ⊢
  rw [hb'] at hs ht ⊢
  unfold readScalar
  simp only [if_neg hne.1, if_neg hne.2.1, if_neg hne.2.2.1, if_neg hne.2.2.2, hs, ht, hx]
  rfl

end Appendable
