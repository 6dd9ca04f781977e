import Verif.Lemmas.Multipart
import Verif.Spec.Multipart
/-! The multipart parser on a serialized body. -/
namespace Appendable
open Spec

/-! ### Texts -/

theorem jsSplit_cut {c : UInt8} {x : Bytes} (hx : c ∉ x) (y : Bytes) : jsSplit c (x ++ c :: y) = x :: jsSplit c y := by
  induction x with
  | nil => simp [jsSplit]
  | cons b x ih =>
    have hb : ¬ b = c := fun h => hx (by simp [h])
    have := ih (fun h => hx (by simp [h]))
    simp [jsSplit, hb, this]

theorem jsSplit_one {c : UInt8} {x : Bytes} (hx : c ∉ x) : jsSplit c x = [x] := by
  induction x with
  | nil => rfl
  | cons b x ih =>
    have hb : ¬ b = c := fun h => hx (by simp [h])
    have := ih (fun h => hx (by simp [h]))
    simp [jsSplit, hb, this]

theorem takeWhile_self {α : Type} {p : α → Bool} {l : List α} (h : ∀ x ∈ l, p x = true) : l.takeWhile p = l := by
  induction l with
  | nil => rfl
  | cons a l ih => rw [List.takeWhile_cons, if_pos (h a (by simp)), ih (fun x hx => h x (by simp [hx]))]

/-- The first piece. -/
theorem jsSplit_head (c : UInt8) (x : Bytes) : ∃ ws, jsSplit c x = x.takeWhile (· ≠ c) :: ws := by
  induction x with
  | nil => exact ⟨[], rfl⟩
  | cons b x ih =>
    obtain ⟨ws, h⟩ := ih
    by_cases hb : b = c
    · subst hb; exact ⟨jsSplit b x, by simp [jsSplit]⟩
    · exact ⟨ws, by simp [jsSplit, hb, h]⟩

theorem jsSpace_false {b : UInt8} (h : 32 < b) : jsSpace b = false := by
  unfold jsSpace
  have h1 : 32 < b.toNat := UInt8.lt_iff_toNat_lt.1 h
  have h2 : ¬ b ≤ 13 := fun hc => by have := UInt8.le_iff_toNat_le.1 hc; simp at this; omega
  have h3 : ¬ b = 32 := by rintro rfl; simp at h1
  simp [h2, h3]

theorem jsTrim_self {v : Bytes} (h1 : ∀ b, v.head? = some b → 32 < b) (h2 : ∀ b, v.getLast? = some b → 32 < b) : jsTrim v = v := by
  unfold jsTrim
  have e1 : v.dropWhile jsSpace = v := by
    cases v with
    | nil => rfl
    | cons b v => simp [List.dropWhile_cons, jsSpace_false (h1 b rfl)]
  rw [e1]
  have e2 : v.reverse.dropWhile jsSpace = v.reverse := by
    cases hr : v.reverse with
    | nil => rfl
    | cons b w =>
      have : v.getLast? = some b := by rw [List.getLast?_eq_head?_reverse, hr]; rfl
      simp [List.dropWhile_cons, jsSpace_false (h2 b this)]
  rw [e2, List.reverse_reverse]

theorem jsTrim_space {b : UInt8} (hb : jsSpace b = true) (v : Bytes) : jsTrim (b :: v) = jsTrim v := by
  simp [jsTrim, List.dropWhile_cons, hb]

theorem jsTrim_snoc {b : UInt8} (hb : jsSpace b = true) (v : Bytes) : jsTrim (v ++ [b]) = jsTrim v := by
  induction v with
  | nil => simp [jsTrim, List.dropWhile_cons, hb]
  | cons a v ih =>
    by_cases ha : jsSpace a = true
    · rw [List.cons_append, jsTrim_space ha, jsTrim_space ha, ih]
    · simp [jsTrim, List.dropWhile_cons, ha, hb]

theorem decimal_digits (n : Nat) : ∀ x ∈ decimal n, 48 ≤ x.toNat ∧ x.toNat < 58 := by
  induction n using decimal.induct with
  | case1 n h =>
    rw [decimal, dif_pos h]
    intro x hx
    simp at hx; subst hx
    simp; omega
  | case2 n h ih =>
    rw [decimal, dif_neg h]
    intro x hx
    rcases List.mem_append.1 hx with hx | hx
    · exact ih x hx
    · simp at hx; subst hx
      simp; omega

theorem decimal_free {n : Nat} {c : UInt8} (h : c.toNat < 48 ∨ 58 ≤ c.toNat) : c ∉ decimal n := fun hc => by
  have := decimal_digits n c hc; omega

/-! ### Pieces of the body -/

namespace Multipart

theorem lit_ok (cs w : Bytes) : readLit whole cs (cs ++ w) = .ok () w := by
  induction cs with
  | nil => rfl
  | cons c cs ih => simp [readLit, whole, ih]

theorem data_ok (data w : Bytes) : readData whole data.length (data ++ w) = .ok data w := by
  induction data with
  | nil => rfl
  | cons c cs ih => simp [readData, whole, ih, MStep.andThen]

/-- Reading the text of a line. -/
theorem line_step {line : Bytes} (h : (10:UInt8) ∉ line) : ∀ (k : Nat) (last : UInt8) (hd : Bytes) (hs : List (Bytes × Bytes)) (w : Bytes),
    ∃ last', readHeaders whole (k + line.length) last hd hs (line ++ w) = readHeaders whole k last' (hd ++ line) hs w ∧
      (line = [] → last' = last) ∧ (line ≠ [] → line.getLast? = some last') := by
  induction line with
  | nil => intro k last hd hs w; exact ⟨last, by simp, fun _ => rfl, fun h => absurd rfl h⟩
  | cons b line ih =>
    intro k last hd hs w
    have hb : b ≠ 10 := fun he => h (by simp [he])
    obtain ⟨last', h1, h2, h3⟩ := ih (fun hc => h (by simp [hc])) k b (hd ++ [b]) hs w
    refine ⟨last', ?_, by simp, fun _ => ?_⟩
    · rw [List.length_cons, ← Nat.add_assoc]
      simp only [readHeaders, List.cons_append, whole, hb, and_false, if_false]
      rw [h1]; simp
    · by_cases hl : line = []
      · subst hl; rw [h2 rfl]; rfl
      · rw [List.getLast?_cons, h3 hl]; rfl

/-- What the parser makes of a header value: what precedes the first colon. -/
def shown (v : Bytes) : Bytes := jsTrim (v.takeWhile (· ≠ 58))

theorem headerLine_ok {k v : Bytes} (hk : HeaderText k) : headerLine (k ++ text ": " ++ v ++ [13]) = some (k, shown v) := by
  unfold headerLine
  have e : k ++ text ": " ++ v ++ [13] = k ++ (58:UInt8) :: (32 :: (v ++ [13])) := by
    have : text ": " = [58, 32] := by decide
    rw [this]; simp
  rw [e, jsSplit_cut hk.noColon]
  obtain ⟨ws, hw⟩ := jsSplit_head 58 (32 :: (v ++ [13]))
  rw [hw]
  simp only
  rw [jsTrim_self hk.first hk.last]
  have hv : jsTrim ((32 :: (v ++ [13])).takeWhile (fun x => decide (x ≠ 58))) = shown v := by
    rw [List.takeWhile_cons, if_pos (by decide), jsTrim_space (by decide)]
    unfold shown
    by_cases hc : (58:UInt8) ∈ v
    · congr 1
      clear hw e
      induction v with
      | nil => simp at hc
      | cons a v ih =>
        by_cases ha : a = 58
        · subst ha; simp
        · have : (58:UInt8) ∈ v := by simpa [Ne.symm ha] using hc
          simp only [List.cons_append, List.takeWhile_cons, ih this]
    · have h1 : ∀ x ∈ v ++ [13], decide (x ≠ (58:UInt8)) = true := by
        intro x hx
        rcases List.mem_append.1 hx with hx | hx
        · exact decide_eq_true fun h => hc (h ▸ hx)
        · simp at hx; subst hx; decide
      have h2 : ∀ x ∈ v, decide (x ≠ (58:UInt8)) = true := fun x hx => h1 x (by simp [hx])
      rw [takeWhile_self h1, takeWhile_self h2, jsTrim_snoc (by decide)]
  rw [hv]

theorem recSet_new {r : List (Bytes × Bytes)} {k v : Bytes} (h : k ∉ r.map (·.1)) : recSet r k v = r ++ [(k, v)] := by
  induction r with
  | nil => rfl
  | cons a r ih =>
    obtain ⟨k', v'⟩ := a
    have h1 : ¬ k' = k := fun he => h (by simp [he])
    simp only [recSet, if_neg h1, List.cons_append, ih (fun hc => h (by simp at hc ⊢; exact .inr hc))]

/-- One header, which may have occurred before. -/
theorem header_any {k v : Bytes} (hk : HeaderText k) (hv : OneLine v) (fuel : Nat) (last : UInt8) (hs : List (Bytes × Bytes)) (w : Bytes) :
    readHeaders whole (fuel + (wireHeader (k, v)).length) last [] hs (wireHeader (k, v) ++ w) =
      readHeaders whole fuel 10 [] (recSet hs k (shown v)) w := by
  have e : wireHeader (k, v) = (k ++ text ": " ++ v) ++ [13, 10] := rfl
  have hfree : (10:UInt8) ∉ k ++ text ": " ++ v := by
    have : text ": " = [58, 32] := by decide
    rw [this]
    simp only [List.mem_append, not_or]
    exact ⟨⟨hk.oneLine.2, by decide⟩, hv.2⟩
  rw [e, List.append_assoc (k ++ text ": " ++ v), List.length_append (as := k ++ text ": " ++ v), ← Nat.add_assoc, Nat.add_right_comm]
  obtain ⟨last', h1, _, _⟩ := line_step hfree (fuel + 2) last [] hs ([13, 10] ++ w)
  rw [show ([13, 10] : Bytes).length = 2 from rfl, h1]
  have hlen : (k ++ text ": " ++ v ++ [13]).length ≠ 1 := by
    have : text ": " = [58, 32] := by decide
    rw [this]; simp; omega
  simp only [List.nil_append, List.cons_append, readHeaders, whole]
  rw [if_neg (fun h => absurd h.2 (by decide))]
  simp only [true_and, if_true, if_neg hlen]
  rw [headerLine_ok hk]

/-- One header. -/
theorem header_step {k v : Bytes} (hk : HeaderText k) (hv : OneLine v) (fuel : Nat) (last : UInt8) (hs : List (Bytes × Bytes))
    (hn : k ∉ hs.map (·.1)) (w : Bytes) :
    readHeaders whole (fuel + (wireHeader (k, v)).length) last [] hs (wireHeader (k, v) ++ w) =
      readHeaders whole fuel 10 [] (hs ++ [(k, shown v)]) w := by
  rw [header_any hk hv, recSet_new hn]

/-- All headers, with repetitions, and the empty line. -/
theorem headers_any : ∀ (l : List (Bytes × Bytes)) (hs : List (Bytes × Bytes)) (fuel : Nat) (last : UInt8) (w : Bytes),
    (∀ h ∈ l, HeaderText h.1) → (∀ h ∈ l, OneLine h.2) → last ≠ 13 → (l.flatMap wireHeader).length + 2 ≤ fuel →
    readHeaders whole fuel last [] hs (l.flatMap wireHeader ++ crlf ++ w) = .ok (l.foldl (fun r h => recSet r h.1 (shown h.2)) hs) w := by
  intro l
  induction l with
  | nil =>
    intro hs fuel last w _ _ hl hf
    obtain ⟨f, rfl⟩ : ∃ f, fuel = f + 2 := ⟨fuel - 2, by simp at hf; omega⟩
    simp [readHeaders, whole, crlf, hl]
  | cons h l ih =>
    intro hs fuel last w h1 h2 hl hf
    simp only [List.flatMap_cons, List.length_append] at hf
    obtain ⟨f, rfl⟩ : ∃ f, fuel = f + (wireHeader h).length := ⟨fuel - (wireHeader h).length, by omega⟩
    simp only [List.flatMap_cons, List.append_assoc]
    rw [header_any (h1 h (by simp)) (h2 h (by simp)) f last hs]
    have := ih (recSet hs h.1 (shown h.2)) f 10 w (fun x hx => h1 x (by simp [hx])) (fun x hx => h2 x (by simp [hx])) (by decide) (by omega)
    rw [List.append_assoc] at this
    rw [this]; rfl

theorem recGet_recSet (r : List (Bytes × Bytes)) (k v a : Bytes) : recGet (recSet r k v) a = if a = k then some v else recGet r a := by
  induction r with
  | nil => by_cases h : a = k <;> simp [recSet, recGet, h, Ne.symm]
  | cons x r ih =>
    obtain ⟨b, x⟩ := x
    unfold recSet
    by_cases hb : b = k
    · subst hb
      rw [if_pos rfl]
      by_cases h : a = b
      · subst h; simp [recGet]
      · have : ¬ b = a := fun e => h e.symm
        simp [recGet, h, this]
    · rw [if_neg hb]
      unfold recGet at ih ⊢
      by_cases h : b = a
      · subst h; simp [hb]
      · simp only [List.find?_cons, decide_eq_false h]; exact ih

/-- Of several headers with the same name the last counts. -/
theorem recGet_fold (l : List (Bytes × Bytes)) : ∀ (hs : List (Bytes × Bytes)) (a : Bytes),
    recGet (l.foldl (fun r h => recSet r h.1 (shown h.2)) hs) a = match lastValue l a with | some v => some (shown v) | none => recGet hs a := by
  induction l with
  | nil => intro hs a; rfl
  | cons h l ih =>
    intro hs a
    rw [List.foldl_cons, ih]
    unfold lastValue
    rw [List.reverse_cons, List.find?_append]
    cases List.find? (fun x => decide (x.1 = a)) l.reverse with
    | some v => rfl
    | none =>
      simp only [Option.map_none, recGet_recSet, Option.none_or]
      by_cases e : h.1 = a
      · subst e; simp
      · simp only [List.find?_cons, decide_eq_false e, List.find?_nil, Option.map_none, if_neg (fun x : a = h.1 => e x.symm)]

/-- All headers and the empty line. -/
theorem headers_ok : ∀ (l : List (Bytes × Bytes)) (hs : List (Bytes × Bytes)) (fuel : Nat) (last : UInt8) (w : Bytes),
    (∀ h ∈ l, HeaderText h.1) → (∀ h ∈ l, OneLine h.2) → ((hs ++ l).map (·.1)).Nodup → last ≠ 13 →
    (l.flatMap wireHeader).length + 2 ≤ fuel →
    readHeaders whole fuel last [] hs (l.flatMap wireHeader ++ crlf ++ w) = .ok (hs ++ l.map (fun h => (h.1, shown h.2))) w := by
  intro l
  induction l with
  | nil =>
    intro hs fuel last w _ _ _ hl hf
    obtain ⟨f, rfl⟩ : ∃ f, fuel = f + 2 := ⟨fuel - 2, by simp at hf; omega⟩
    simp [readHeaders, whole, crlf, hl]
  | cons h l ih =>
    intro hs fuel last w h1 h2 h3 hl hf
    simp only [List.flatMap_cons, List.length_append] at hf
    obtain ⟨f, rfl⟩ : ∃ f, fuel = f + (wireHeader h).length := ⟨fuel - (wireHeader h).length, by omega⟩
    have hn : h.1 ∉ hs.map (·.1) := by
      intro hc
      rw [List.map_append, List.nodup_append] at h3
      exact h3.2.2 h.1 hc h.1 (by simp) rfl
    simp only [List.flatMap_cons, List.append_assoc]
    rw [header_step (h1 h (by simp)) (h2 h (by simp)) f last hs hn]
    have := ih (hs ++ [(h.1, shown h.2)]) f 10 w (fun x hx => h1 x (by simp [hx])) (fun x hx => h2 x (by simp [hx]))
      (by simpa using h3) (by decide) (by omega)
    rw [List.append_assoc] at this
    rw [this]; simp

theorem recGet_of_mem {r : List (Bytes × Bytes)} {k v : Bytes} (hn : (r.map (·.1)).Nodup) (h : (k, v) ∈ r) : recGet r k = some v := by
  induction r with
  | nil => simp at h
  | cons a r ih =>
    rw [List.map_cons, List.nodup_cons] at hn
    unfold recGet
    rw [List.find?_cons]
    rcases List.mem_cons.1 h with h | h
    · subst h; simp
    · have : ¬ a.1 = k := fun he => hn.1 (by rw [he]; exact List.mem_map.2 ⟨_, h, rfl⟩)
      simp only [this, decide_false]
      exact ih hn.2 h

theorem contentRange_free {a b : Nat} {total : Bytes} (ht : ∀ x ∈ total, 32 < x ∧ x ≠ 58) :
    (∀ x ∈ contentRange a b total, x ≠ 58) := by
  intro x hx
  have e1 : text "bytes " = [98, 121, 116, 101, 115, 32] := by decide
  have e2 : text "-" = [45] := by decide
  have e3 : text "/" = [47] := by decide
  simp only [contentRange, e1, e2, e3, List.mem_append] at hx
  rcases hx with ((((hx | hx) | hx) | hx) | hx) | hx
  · revert x; decide
  · rintro rfl; exact decimal_free (.inr (by decide)) hx
  · revert x; decide
  · rintro rfl; exact decimal_free (.inr (by decide)) hx
  · revert x; decide
  · exact (ht x hx).2

theorem shown_clean {v : Bytes} (hv : HeaderText v) : shown v = v := by
  unfold shown
  have h : ∀ x ∈ v, decide (x ≠ (58:UInt8)) = true := fun x hx => decide_eq_true fun h => hv.noColon (h ▸ hx)
  rw [takeWhile_self h, jsTrim_self hv.first hv.last]

theorem shown_contentRange {a b : Nat} {total : Bytes} (ht : ∀ x ∈ total, 32 < x ∧ x ≠ 58) :
    shown (contentRange a b total) = contentRange a b total := by
  have e1 : text "bytes " = [98, 121, 116, 101, 115, 32] := by decide
  have e3 : text "/" = [47] := by decide
  unfold shown
  rw [takeWhile_self (fun x hx => decide_eq_true (contentRange_free ht x hx))]
  apply jsTrim_self
  · intro x hx
    simp only [contentRange, e1, List.cons_append, List.head?_cons, Option.some.injEq] at hx
    subst hx; decide
  · intro x hx
    unfold contentRange at hx
    rw [List.getLast?_append, e3, List.getLast?_append] at hx
    cases hl : total.getLast? with
    | none => rw [hl] at hx; simp at hx; subst hx; decide
    | some y =>
      rw [hl] at hx; simp at hx; subst hx
      exact (ht y (List.mem_of_getLast? hl)).1

theorem parseRange_ok {num : Bytes → Option Int} (hnum : ReadsDecimals num) {a b : Nat} (ha : a < 2 ^ 53) (hb : b < 2 ^ 53)
    {total : Bytes} (ht : ∀ x ∈ total, 32 < x ∧ x ≠ 58) :
    parseContentRange num (contentRange a b total) = some (text "bytes", some (a : Int), some (b : Int)) := by
  have e1 : text "bytes " = text "bytes" ++ [32] := by decide
  have e2 : text "-" = [45] := by decide
  have e3 : text "/" = [47] := by decide
  have e : contentRange a b total = text "bytes" ++ (32:UInt8) :: (decimal a ++ (45:UInt8) :: decimal b ++ (47:UInt8) :: total) := by
    unfold contentRange; rw [e1, e2, e3]; simp
  have f1 : (32:UInt8) ∉ decimal a ++ (45:UInt8) :: decimal b ++ (47:UInt8) :: total := by
    intro hc
    simp only [List.append_assoc, List.mem_append, List.mem_cons] at hc
    rcases hc with hc | (hc | hc) | hc | hc
    · exact decimal_free (.inl (by decide)) hc
    · exact absurd hc (by decide)
    · exact decimal_free (.inl (by decide)) hc
    · exact absurd hc (by decide)
    · exact absurd (ht _ hc).1 (by decide)
  have f2 : (47:UInt8) ∉ decimal a ++ (45:UInt8) :: decimal b := by
    intro hc
    simp only [List.mem_append, List.mem_cons] at hc
    rcases hc with hc | hc | hc
    · exact decimal_free (.inl (by decide)) hc
    · exact absurd hc (by decide)
    · exact decimal_free (.inl (by decide)) hc
  unfold parseContentRange
  rw [e, jsSplit_cut (by decide), jsSplit_one f1]
  simp only
  rw [jsSplit_cut f2, List.headD_cons, jsSplit_cut (decimal_free (.inl (by decide))), jsSplit_one (decimal_free (.inl (by decide)))]
  simp only [hnum a ha, hnum b hb]

theorem contentLength_ok {num : Bytes → Option Int} (hnum : ReadsDecimals num) {p : WirePart} (hp : RangePart p) (hd : p.data ≠ []) :
    contentLength num (p.headers.map (fun h => (h.1, shown h.2))) = some p.data.length := by
  obtain ⟨a, b, total, h1, h2, h3, h4⟩ := hp.range
  have hl := List.length_pos_iff.2 hd
  have hm : (text "Content-Range", contentRange a b total) ∈ p.headers.map (fun h => (h.1, shown h.2)) :=
    List.mem_map.2 ⟨_, h1, by simp only [shown_contentRange h4]⟩
  have hn : ((p.headers.map (fun h => (h.1, shown h.2))).map (·.1)).Nodup := by
    rw [List.map_map]; exact hp.names
  unfold contentLength
  rw [show ascii "Content-Range" = text "Content-Range" from rfl, recGet_of_mem hn hm]
  obtain ⟨c, cs, hc⟩ : ∃ c cs, contentRange a b total = c :: cs := by
    have e1 : text "bytes " = [98, 121, 116, 101, 115, 32] := by decide
    unfold contentRange; rw [e1]; exact ⟨_, _, rfl⟩
  rw [hc]
  simp only
  rw [← hc, parseRange_ok hnum (by omega) h3 h4]
  simp only [show ascii "bytes" = text "bytes" from rfl, if_true]
  rw [if_neg (by omega)]
  congr 1
  omega

/-- One part. -/
theorem part_ok {num : Bytes → Option Int} (hnum : ReadsDecimals num) (B : Bytes) {p : WirePart} (hp : RangePart p) (hd : p.data ≠ [])
    (w : Bytes) (fuel : Nat) (hf : (wirePart B p).length ≤ fuel) :
    readPart whole num (text "--" ++ B) fuel (wirePart B p ++ w) =
      .ok ⟨p.data, p.headers.map (fun h => (h.1, shown h.2))⟩ (crlf ++ w) := by
  unfold readPart wirePart
  simp only [wirePart, List.length_append] at hf
  have e : text "--" ++ B ++ crlf ++ p.headers.flatMap wireHeader ++ crlf ++ p.data ++ crlf ++ w =
      (text "--" ++ B) ++ (crlf ++ ((p.headers.flatMap wireHeader ++ crlf) ++ (p.data ++ (crlf ++ w)))) := by
    simp only [List.append_assoc]
  rw [e, lit_ok]
  simp only [MStep.andThen]
  have hbr : ∀ w', readBreak whole [13, 10] (crlf ++ w') = .ok () w' := fun w' => by simp [readBreak, whole, crlf]
  rw [hbr]
  simp only
  rw [headers_ok p.headers [] fuel 0 _ hp.keys hp.values (by simpa using hp.names) (by decide)
    (by have : crlf.length = 2 := rfl; omega)]
  simp only [List.nil_append]
  rw [contentLength_ok hnum hp hd]
  simp only
  rw [data_ok]

/-- All parts. -/
theorem run_ok {num : Bytes → Option Int} (hnum : ReadsDecimals num) (B ep : Bytes) : ∀ (ps : List WirePart) (fuel : Nat),
    (∀ p ∈ ps, RangePart p ∧ p.data ≠ []) → (wireBody B ps ep).length < fuel →
    run whole num (text "--" ++ B) fuel (wireBody B ps ep) =
      (ps.map fun p => ⟨p.data, p.headers.map (fun h => (h.1, shown h.2))⟩, .done) := by
  intro ps
  induction ps with
  | nil =>
    intro fuel _ hf
    obtain ⟨f, rfl⟩ : ∃ f, fuel = f + 1 := ⟨fuel - 1, by omega⟩
    have hlast : readPart whole num (text "--" ++ B) (f + 1) (wireBody B [] ep) = .stop .done := by
      have e : wireBody B [] ep = (text "--" ++ B) ++ (text "--" ++ ep) := by simp [wireBody]
      unfold readPart
      rw [e, lit_ok]
      have : text "--" = [45, 45] := by decide
      simp [MStep.andThen, this, readBreak, whole]
    simp only [run, hlast, List.map_nil]
  | cons p ps ih =>
    intro fuel hp hf
    obtain ⟨f, rfl⟩ : ∃ f, fuel = f + 1 := ⟨fuel - 1, by omega⟩
    have e : wireBody B (p :: ps) ep = wirePart B p ++ wireBody B ps ep := by simp [wireBody]
    have hlen := congrArg List.length e
    have hpos : 0 < (wirePart B p).length := by simp [wirePart, crlf]; omega
    rw [List.length_append] at hlen
    rw [e]
    simp only [run]
    rw [part_ok hnum B (hp p (by simp)).1 (hp p (by simp)).2 _ _ (by omega)]
    simp only
    rw [show ([13, 10] : Bytes) = crlf from rfl, lit_ok]
    simp only
    rw [ih f (fun q hq => hp q (by simp [hq])) (by omega)]
    rfl

theorem delimiter_ok {B : Bytes} (h : BoundaryText B) : delimiter (contentTypeOf B) = some (text "--" ++ B) := by
  have hf1 : (59:UInt8) ∉ (32:UInt8) :: (text "boundary=" ++ B) := by
    intro hc
    rcases List.mem_cons.1 hc with hc | hc
    · exact absurd hc (by decide)
    · rcases List.mem_append.1 hc with hc | hc
      · revert hc; decide
      · exact (h.2 _ hc).2.1 rfl
  have e : contentTypeOf B = text "multipart/byteranges" ++ (59:UInt8) :: ((32:UInt8) :: (text "boundary=" ++ B)) := by
    have : text "multipart/byteranges; boundary=" = text "multipart/byteranges" ++ (59:UInt8) :: ((32:UInt8) :: (text "boundary=")) := by decide
    unfold contentTypeOf; rw [this]; simp
  unfold delimiter
  rw [e, jsSplit_cut (by decide), jsSplit_one hf1]
  simp only [List.head?_cons, List.map_cons, List.map_nil]
  rw [if_pos (by rfl)]
  have ht : jsTrim ((32:UInt8) :: (text "boundary=" ++ B)) = text "boundary=" ++ B := by
    rw [jsTrim_space (by decide)]
    apply jsTrim_self
    · intro x hx
      have : text "boundary=" = [98, 111, 117, 110, 100, 97, 114, 121, 61] := by decide
      rw [this] at hx
      simp at hx; subst hx; decide
    · intro x hx
      rw [List.getLast?_append] at hx
      cases hl : B.getLast? with
      | none => exact absurd (List.getLast?_eq_none_iff.1 hl) h.1
      | some y => rw [hl] at hx; simp at hx; subst hx; exact (h.2 y (List.mem_of_getLast? hl)).1
  rw [ht, jsTrim_self (v := text "multipart/byteranges") (by decide) (by decide)]
  have hp : (ascii "boundary=").isPrefixOf (text "boundary=" ++ B) = true :=
    List.isPrefixOf_iff_prefix.2 (List.prefix_append _ _)
  have hnp : (ascii "boundary=").isPrefixOf (text "multipart/byteranges") = false := by decide
  simp only [List.find?_cons, hnp, hp]
  have e2 : text "boundary=" ++ B = text "boundary" ++ (61:UInt8) :: B := by
    have : text "boundary=" = text "boundary" ++ [61] := by decide
    rw [this]; simp
  rw [e2, jsSplit_cut (by decide), jsSplit_one (fun hc => (h.2 _ hc).2.2 rfl)]
  cases B with
  | nil => exact absurd rfl h.1
  | cons b B => rfl

end Multipart
end Appendable
