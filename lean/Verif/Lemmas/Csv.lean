import Verif.Spec.Csv
import Verif.Lemmas.JobSteps
import Verif.Lemmas.JsonlRun
/-! The CSV handler writes the jobs of the rows. -/
namespace Appendable
open Spec Tree

/-! ### Reading a row without quotes -/

theorem csvPlain_end {f : Bytes} (h1 : (34 : UInt8) ∉ f) (h2 : (44 : UInt8) ∉ f) : csvPlain f = some (f, none) := by
  induction f with
  | nil => rfl
  | cons b f ih =>
    simp only [List.mem_cons, not_or] at h1 h2
    unfold csvPlain
    rw [if_neg (fun e => h2.1 e.symm), if_neg (fun e => h1.1 e.symm), ih h1.2 h2.2]

theorem csvPlain_comma {f : Bytes} (h1 : (34 : UInt8) ∉ f) (h2 : (44 : UInt8) ∉ f) (r : Bytes) :
    csvPlain (f ++ 44 :: r) = some (f, some r) := by
  induction f with
  | nil => rfl
  | cons b f ih =>
    simp only [List.mem_cons, not_or] at h1 h2
    rw [List.cons_append]
    unfold csvPlain
    rw [if_neg (fun e => h2.1 e.symm), if_neg (fun e => h1.1 e.symm), ih h1.2 h2.2]

theorem csvFields_plain {fs : List Bytes} (hne : fs ≠ []) (h : ∀ f ∈ fs, (34 : UInt8) ∉ f ∧ (44 : UInt8) ∉ f) {fuel : Nat}
    (hf : fs.length ≤ fuel) : csvFields fuel (joinCommas fs) = some fs := by
  induction fs generalizing fuel with
  | nil => exact absurd rfl hne
  | cons f fs ih =>
    obtain ⟨fuel, rfl⟩ : ∃ k, fuel = k + 1 := ⟨fuel - 1, by simp at hf; omega⟩
    obtain ⟨g1, g2⟩ := h f (by simp)
    have hq : ∀ l : Bytes, l.head? ≠ some 34 → csvField l = csvPlain l := by
      intro l hl
      unfold csvField
      rw [if_neg hl]
    have hhead : ∀ r : Bytes, r.head? ≠ some 34 → (f ++ r).head? ≠ some 34 := by
      intro r hr
      cases f with
      | nil => exact hr
      | cons b f => simp only [List.cons_append, List.head?_cons]; intro e; cases e; exact g1 (by simp)
    unfold csvFields
    cases fs with
    | nil =>
      simp only [joinCommas]
      rw [hq f (by have := hhead [] (by simp); simpa using this), csvPlain_end g1 g2]
    | cons f2 fs =>
      simp only [joinCommas]
      rw [hq _ (hhead _ (by simp)), csvPlain_comma g1 g2]
      simp only [List.length_cons] at hf
      show (csvFields fuel (joinCommas (f2 :: fs))).map _ = _
      rw [ih (by simp) (fun x hx => h x (by simp [hx])) (by simp; omega)]
      rfl

theorem joinCommas_length (fs : List Bytes) : fs.length ≤ (joinCommas fs).length + 1 := by
  induction fs with
  | nil => simp
  | cons f fs ih =>
    cases fs with
    | nil => simp
    | cons g fs => simp only [joinCommas, List.length_append, List.length_cons] at *; omega

theorem joinCommas_mem {fs : List Bytes} {b : UInt8} (hb : b ≠ 44) (h : ∀ f ∈ fs, b ∉ f) : b ∉ joinCommas fs := by
  induction fs with
  | nil => simp [joinCommas]
  | cons f fs ih =>
    cases fs with
    | nil => exact h f (by simp)
    | cons g fs =>
      simp only [joinCommas, List.mem_append, List.mem_cons, not_or]
      exact ⟨h f (by simp), hb, ih (fun x hx => h x (by simp [hx]))⟩

theorem csvRead_plain {text : Bytes} {fs : List Bytes} (h : PlainRow text fs) : csvRead text = some fs := by
  obtain ⟨h1, h2, h3⟩ := h
  have hne : fs ≠ [] := by rintro rfl; exact h2 rfl
  have h13 : (13 : UInt8) ∉ joinCommas fs := joinCommas_mem (by decide) (fun f hf => (h3 f hf).2.2)
  have hd : dropCR text = joinCommas fs := by
    unfold dropCR
    rcases h1 with rfl | rfl
    · rw [if_neg]
      intro hc
      exact h13 (List.mem_of_getLast? hc)
    · simp
  unfold csvRead
  rw [hd, if_neg h2]
  refine csvFields_plain hne (fun f hf => ⟨(h3 f hf).1, (h3 f hf).2.1⟩) ?_
  have := joinCommas_length fs
  rcases h1 with rfl | rfl
  · omega
  · simp only [List.length_append, List.length_cons, List.length_nil]; omega

/-! ### The jobs of a row -/

theorem infer_eq (num : Bytes → Option UInt64) (v : Bytes) : inferCSV num v = cell num v := by
  have e1 : ["1", "t", "T", "TRUE", "true", "True"].map asciiBytes =
    [[49], [116], [84], [84, 82, 85, 69], [116, 114, 117, 101], [84, 114, 117, 101]] := by decide
  have e2 : ["0", "f", "F", "FALSE", "false", "False"].map asciiBytes =
    [[48], [102], [70], [70, 65, 76, 83, 69], [102, 97, 108, 115, 101], [70, 97, 108, 115, 101]] := by decide
  unfold inferCSV cell parseBool
  rw [e1, e2]
  by_cases h : v = []
  · rw [if_pos h, if_pos h]
  · rw [if_neg h, if_neg h]
    cases num v with
    | some b => rfl
    | none =>
      simp only
      generalize ([[49], [116], [84], [84, 82, 85, 69], [116, 114, 117, 101], [84, 114, 117, 101]] : List Bytes) = T
      generalize ([[48], [102], [70], [70, 65, 76, 83, 69], [102, 97, 108, 115, 101], [70, 97, 108, 115, 101]] : List Bytes) = N
      by_cases h1 : v ∈ T
      · simp only [if_pos h1]
      · by_cases h2 : v ∈ N
        · simp only [if_neg h1, if_pos h2]
        · simp only [if_neg h1, if_neg h2]

theorem csvType_eq (num : Bytes → Option UInt64) (v : Bytes) : csvType num v = (kindOf (cell num v)).code := by
  rw [← infer_eq]
  unfold csvType inferCSV
  by_cases h : v = []
  · simp only [h, if_true]; rfl
  · simp only [h, if_false]
    cases num v with
    | some b => rfl
    | none => cases parseBool v <;> rfl

theorem csvParse_eq (num : Bytes → Option UInt64) (v : Bytes) : csvParse num v = valueBytes (cell num v) := by
  unfold csvParse
  rw [valueBytes_eq, infer_eq]

section
variable {num : Bytes → Option UInt64} {i : IndexFile} {data : Bytes} {fm : FileMeta} {s : PF} {is : List (LP × IndexMeta)}
  {c : Nat → List Entry} {js : List Job}

/-- Some text lies in the file at a position. -/
def TextAt (data : Bytes) (pos : Nat) (t : Bytes) : Prop := ∃ r, data.drop pos = t ++ r ∧ pos ≤ data.length

theorem TextAt.left {pos : Nat} {t u : Bytes} (h : TextAt data pos (t ++ u)) : TextAt data pos t := by
  obtain ⟨r, h1, h2⟩ := h
  exact ⟨u ++ r, by rw [h1, List.append_assoc], h2⟩

theorem TextAt.right {pos : Nat} {t u : Bytes} (h : TextAt data pos (t ++ u)) : TextAt data (pos + t.length) u := by
  obtain ⟨r, h1, h2⟩ := h
  refine ⟨r, ?_, ?_⟩
  · rw [← List.drop_drop, h1, List.append_assoc, List.drop_left']; rfl
  · have := congrArg List.length h1
    simp only [List.length_drop, List.length_append] at this; omega

theorem TextAt.len {pos : Nat} {t : Bytes} (h : TextAt data pos t) : pos + t.length ≤ data.length := by
  obtain ⟨r, h1, h2⟩ := h
  have := congrArg List.length h1
  simp only [List.length_drop, List.length_append] at this; omega

theorem TextAt.take {pos : Nat} {t : Bytes} (h : TextAt data pos t) : (data.drop pos).take t.length = t := by
  obtain ⟨r, h1, h2⟩ := h
  rw [h1, List.take_left']; rfl

theorem rowSteps (hi : i.tree = fileSlot) {line : MemPtr} (hd : data.length < 2 ^ 64) {headers : List Bytes}
    (hn : ∀ h ∈ headers, h.length ≤ 236) {vs : List Bytes} (hle : vs.length ≤ headers.length) {pos : Nat} {cum : UInt64}
    (hc : line.offset + cum = UInt64.ofNat pos) (hat : TextAt data pos (joinCommas vs)) (hlen : (joinCommas vs).length + 1 < 2 ^ 32)
    (h : JIs data (csvParse num) (fun _ => 0) s fm is c js) :
    Steps data (csvParse num) (fun _ => 0) fm (csvFieldsLoop num i data line headers vs cum) s (js ++ rowJobs num line pos headers vs)
      (fun _ is' => Handles is is') := by
  induction vs generalizing headers pos cum s is c js with
  | nil =>
    have : rowJobs num line pos headers [] = [] := by cases headers <;> rfl
    rw [this, List.append_nil]
    have : csvFieldsLoop num i data line headers [] cum = (Pure.pure () : Act PF Unit) := by cases headers <;> rfl
    rw [this]
    exact Steps.pure h (Handles.refl _)
  | cons v vs ih =>
    cases headers with
    | nil => simp at hle
    | cons hd' headers =>
      have hv : TextAt data pos v ∧ v.length + 1 < 2 ^ 32 ∧ (vs ≠ [] → TextAt data (pos + v.length + 1) (joinCommas vs) ∧ (joinCommas vs).length + 1 < 2 ^ 32) := by
        cases vs with
        | nil => exact ⟨hat, hlen, fun h => absurd rfl h⟩
        | cons w ws =>
          simp only [joinCommas, List.length_append, List.length_cons] at hat hlen ⊢
          refine ⟨hat.left, by omega, fun _ => ⟨?_, by omega⟩⟩
          have := hat.right
          exact TextAt.right (t := [44]) this
      obtain ⟨hv1, hv2, hv3⟩ := hv
      have hvl := hv1.len
      have hty := csvType_eq num v
      unfold csvFieldsLoop rowJobs
      obtain ⟨e, he⟩ : ∃ e : Entry, e = (⟨⟨UInt64.ofNat pos, UInt32.ofNat v.length⟩, valueBytes (cell num v)⟩, line) := ⟨_, rfl⟩
      rw [← he]
      have hdist : Part (js ++ [⟨hd', (kindOf (cell num v)).code, [e], 0⟩])
          (js ++ ⟨hd', (kindOf (cell num v)).code, [e], 0⟩ :: rowJobs num line (pos + v.length + 1) headers vs) := by
        have := Part.left (js ++ [⟨hd', (kindOf (cell num v)).code, [e], 0⟩]) (rowJobs num line (pos + v.length + 1) headers vs)
        rwa [List.append_assoc] at this
      have hmerge : SameJobs (js ++ [⟨hd', csvType num v, [], 0⟩] ++ [⟨hd', csvType num v, [e], 0⟩]) (js ++ [⟨hd', csvType num v, [e], 0⟩]) := by
        have := sameJobs_merge js hd' (csvType num v) [] [e] 0 0
        simpa using this
      refine Steps.bind (js1 := js ++ [⟨hd', csvType num v, [], 0⟩]) (h.findSteps hi smallWidths_zero (hn hd' (by simp)) (csvType num v)) ?_ ?_
      · have hd1 := hdist
        rw [← hty] at hd1 ⊢
        exact ((Part.left _ _).trans (Part.same hmerge)).trans hd1
      · rintro ⟨p, m⟩ s1 is1 c1 h1 ⟨hm, ⟨k, hk⟩, hh⟩
        simp only at hm
        have hkey : KeyOK ⟨data, csvParse num, 0⟩ e.1 := by
          unfold KeyOK
          rw [if_pos rfl, he]
          have e1 : (UInt64.ofNat pos).toNat = pos := by rw [UInt64.toNat_ofNat', Nat.mod_eq_of_lt]; omega
          have e2 : (UInt32.ofNat v.length).toNat = v.length := by rw [UInt32.toNat_ofNat', Nat.mod_eq_of_lt]; omega
          simp only [e1, e2]
          exact ⟨hvl, by rw [hv1.take, csvParse_eq]⟩
        have hins := (h1.insertSteps hk line hkey).same (ks := js ++ [⟨hd', csvType num v, [e], 0⟩]) (by
          have hel : (e.1, line) = e := by rw [he]
          rw [hm, hel]; exact hmerge)
        have hee : (⟨⟨line.offset + cum, UInt32.ofNat v.length⟩, csvParse num v⟩ : RV) = e.1 := by rw [hc, he, csvParse_eq]
        show Steps _ _ _ _ ((treeAt data (csvParse num) 0 p).insert ⟨⟨line.offset + cum, UInt32.ofNat v.length⟩, csvParse num v⟩ line >>= fun _ =>
          csvFieldsLoop num i data line headers vs (cum + (UInt32.ofNat v.length + 1).toUInt64)) _ _ _
        rw [hee]
        refine Steps.bind hins ?_ ?_
        · rw [hty]; exact hdist
        · rintro _ s2 is2 c2 h2 rfl
          by_cases hvs : vs = []
          · subst hvs
            have e1 : rowJobs num line (pos + v.length + 1) headers [] = [] := by cases headers <;> rfl
            have e2 : csvFieldsLoop num i data line headers [] (cum + (UInt32.ofNat v.length + 1).toUInt64) = (Pure.pure () : Act PF Unit) := by
              cases headers <;> rfl
            rw [e1, e2, ← hty]
            exact Steps.pure h2 hh
          · obtain ⟨hv4, hv5⟩ := hv3 hvs
            have hcum : line.offset + (cum + (UInt32.ofNat v.length + 1).toUInt64) = UInt64.ofNat (pos + v.length + 1) := by
              rw [← UInt64.add_assoc, hc, UInt64.ofNat_add, UInt64.ofNat_add, UInt64.add_assoc]
              congr 1
              apply UInt64.toNat_inj.1
              rw [UInt32.toNat_toUInt64, UInt32.toNat_add, UInt64.toNat_add, UInt32.toNat_ofNat', UInt64.toNat_ofNat']
              show (v.length % 2 ^ 32 + 1) % 2 ^ 32 = (v.length % 2 ^ 64 + 1) % 2 ^ 64
              omega
            have := ih (headers := headers) (fun x hx => hn x (List.mem_cons_of_mem _ hx)) (by simpa using hle) hcum hv4 hv5 h2
            rw [List.append_assoc, hty] at this
            exact this.imp fun _ is' hh' => hh.trans hh'

end
end Appendable
