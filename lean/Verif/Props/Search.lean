import Verif.Lemmas.TsSearch
import Verif.Props.TsClient
import Verif.Props.Ngram
/-! C76-C79: searching. -/
namespace Appendable
open Spec Tree

variable {parse : Bytes → Bytes} {wd : UInt16 → UInt16} {data : Bytes} {s : PF} {fm : FileMeta}
  {is : List (LP × IndexMeta)} {c : Nat → List (RV × MemPtr)} {db : TsDb} {S : Type} {A : ScoreArith S}

/-! ### The index of a type -/

theorem filter_zip_map {α : Type} {f : α → TsPage} {g : IndexMeta → TsIndexMeta} {Q : TsIndexMeta → Bool} : ∀ l : List (α × IndexMeta),
    ((l.map (fun x => f x.1)).zip (l.map (fun x => g x.2))).filter (fun y => Q y.2) =
      (l.filter (fun x => Q (g x.2))).map (fun x => (f x.1, g x.2))
  | [] => rfl
  | a :: l => by
    simp only [List.map_cons, List.zip_cons_cons]
    by_cases h : Q (g a.2) = true
    · rw [List.filter_cons_of_pos (by exact h), List.filter_cons_of_pos (by exact h), filter_zip_map l]; rfl
    · rw [List.filter_cons_of_neg (by exact h), List.filter_cons_of_neg (by exact h), filter_zip_map l]

theorem filter_unique {α β : Type} {g : α → β} {P : α → Bool} : ∀ {l : List α} {x : α}, (l.map g).Nodup → x ∈ l → P x = true →
    (∀ y ∈ l, P y = true → g y = g x) → l.filter P = [x]
  | [], x, _, h, _, _ => by simp at h
  | a :: l, x, hn, hx, hp, hu => by
    rw [List.map_cons, List.nodup_cons] at hn
    by_cases ha : P a = true
    · have hax : a = x := by
        rcases List.mem_cons.1 hx with h | h
        · exact h.symm
        · exact absurd (by rw [hu a (by simp) ha]; exact List.mem_map_of_mem h) hn.1
      subst hax
      rw [List.filter_cons_of_pos hp, List.filter_eq_nil_iff.2]
      intro y hy hpy
      exact hn.1 (by rw [← hu y (by simp [hy]) hpy]; exact List.mem_map_of_mem hy)
    · rw [List.filter_cons_of_neg ha]
      rcases List.mem_cons.1 hx with rfl | h
      · exact absurd hp ha
      · exact filter_unique hn.2 h hp (fun y hy => hu y (by simp [hy]))

theorem IndexSt.seek_one {w : IndexMeta → UInt16} (h : IndexIs data parse w s fm is c) (hf : Faithful db.idx s.file.bytes) {k : Nat} {p : LP} {m : IndexMeta}
    (hk : is[k]? = some (p, m)) (h3 : m.fieldType.toNat ≠ 3) (fuel : Nat) (hfu : is.length ≤ fuel) :
    tsSeek db.idx fuel m.fieldName m.fieldType.toNat = .ok [(p.ts, m.ts)] := by
  have hm := List.mem_of_getElem? hk
  have hne : is ≠ [] := List.ne_nil_of_mem hm
  unfold tsSeek
  rw [h.tsMetaPages_ok hf hne fuel hfu]
  simp only [Res.bind_ok]
  rw [h.tsMetas hf]
  simp only [Res.bind_ok, Res.pure_eq]
  rw [filter_zip_map (f := LP.ts) (g := IndexMeta.ts) (Q := fun y => tsSeekMatch m.fieldName m.fieldType.toNat y),
    filter_unique (g := fun x : LP × IndexMeta => (x.2.fieldName, x.2.fieldType)) (x := (p, m)) h.2.2 hm]
  · rfl
  · exact seekMatch_iff.2 ⟨rfl, .inl rfl⟩
  · intro y hy hp
    obtain ⟨h1, h2⟩ := seekMatch_iff.1 hp
    rcases h2 with h2 | h2
    · simp only [Prod.mk.injEq]; exact ⟨h1, UInt8.toNat_inj.1 h2⟩
    · exact absurd h2.1 h3

/-- The entries that a look-up finds: all with the value, or none. -/
theorem TsOf.lookup {tt t free es ps} (h : TsOf tt t s free es ps) (hne : es ≠ []) (v : Bytes) :
    ∃ (xs : List (RV × MemPtr)) (on : Bool), Answer es .eq v .asc xs ∧
      (leafBytes t.cfg.width es ≤ 4096 → on = true ∨ xs = []) ∧ ((∀ e ∈ es, ¬ List.Lex (· < ·) e.1.value v) → on = true) ∧
      ∀ depth fl, fuel s ≤ depth → es.length + 1 < fl →
      tsScanFrom tt depth (fun p => .ok p) true (fun k => tsCompareBytes k v ≠ 0) fl (.ok ⟨⟨0, 0⟩, v⟩) =
        ⟨(if on then xs else []).map (fun e => e.2.ts), none⟩ := by
  obtain ⟨xs, on, h1, h2, h3, _, h4⟩ := h.clause_asc (row := fun p => Res.ok p) (op := .eq) (ord := .asc) hne (.inl rfl) v
  have hg : ∀ l : List (RV × MemPtr), gather (fun p => Res.ok p.ts) l = ⟨l.map (fun e => e.2.ts), none⟩ := by
    intro l
    induction l with
    | nil => rfl
    | cons e l ih => simp only [gather, ih, List.map_cons]
  refine ⟨xs, on, h1, fun h5 => ?_, fun h5 => h3 ?_, fun depth fl hd hf => ?_⟩
  · have := one_page_on (t := t) (k := startKey .eq v) h.is.asc (List.Perm.refl es) h5 h2 (start_le (ord := .asc) h.small (.inl rfl) h1)
    cases on with
    | true => exact .inl rfl
    | false => exact .inr (by simpa using this.symm)
  · have := rank_lt_iff h.is.asc (startKey .eq v)
    by_cases hr : rank es (startKey .eq v) = 0
    · exact hr
    · exfalso
      have hlen : 0 < es.length := List.length_pos_iff.2 hne
      have h6 := (this 0 hlen).1 (by omega)
      exact h5 es[0] (List.getElem_mem hlen) ((lt_lowKey _ _).1 h6)
  · rw [← hg]
    exact h4 depth fl hd hf

/-! ### The tokens -/

theorem encode_ascii (w : Bytes) (h : Ascii w) : jsEncode (utf16 w) = w := by
  unfold jsEncode
  rw [codePoints_ascii w h]
  induction w with
  | nil => rfl
  | cons b w ih =>
    have hb : b.toNat < 128 := h b (by simp)
    rw [List.map_cons, List.flatMap_cons, ih (fun x hx => h x (by simp [hx]))]
    have h1 : jsScalar b.toNat = b.toNat := by unfold jsScalar; rw [if_neg (by omega)]
    rw [h1]
    unfold encodeRune
    rw [if_pos (by omega)]
    simp

theorem lowered_ascii : ∀ b : UInt8, b.toNat < 128 → (lowered b).toNat < 128 := by
  exact byte_all (by decide +kernel)

theorem ngrams_ascii {t : Bytes} (h : Ascii t) (n : Nat) : ∀ w ∈ ngrams n t, Ascii w := by
  intro w hw b hb
  unfold ngrams at hw
  obtain ⟨x, hx, hw⟩ := List.mem_flatMap.1 hw
  obtain ⟨j, _, rfl⟩ := List.mem_map.1 hw
  obtain ⟨a, ha, rfl⟩ := List.mem_map.1 hb
  refine lowered_ascii a ?_
  have ha := List.mem_of_mem_drop (List.mem_of_mem_take ha)
  unfold words at hx
  obtain ⟨y, hy, rfl⟩ := List.mem_map.1 hx
  have ha := (List.mem_filter.1 ha).1
  have hp := piece_infix white t [] y hy (by simp)
  have hi : y <:+: t := by simpa using hp.1
  exact h a (hi.subset ha)

theorem grams_flat (t : Bytes) (lo hi : Nat) (ha : Ascii t) :
    ((List.range' lo (hi + 1 - lo)).flatMap (fun n => (ngrams n t).map (fun w => (⟨utf16 w, 11 - n⟩ : TsToken)))).map (fun tk => (tk.type, jsEncode tk.value)) =
      (tokensOf t lo hi).map (fun x => (11 - x.1, x.2)) := by
  unfold tokensOf
  rw [List.map_flatMap, List.map_flatMap]
  congr 1
  funext n
  rw [List.map_map, List.map_map]
  refine List.map_congr_left fun w hw => ?_
  simp only [Function.comp]
  rw [encode_ascii w (ngrams_ascii ha n w hw)]

/-! ### The rows -/

/-- The bytes an object designates. -/
def spanBytes (data : Bytes) (o : TsSpan) : Bytes := slice data o.start.toNat (o.stop + 1 - o.start).toNat

theorem number_bytes (data : Bytes) : ∀ (es : List (RV × MemPtr)) (fresh : Nat),
    (number fresh (es.map (fun e => e.2.ts))).map (spanBytes data) = es.map (fun e => record data e.2)
  | [], _ => rfl
  | e :: es, fresh => by
    rw [List.map_cons, number, List.map_cons, number_bytes data es, List.map_cons]
    congr 1
    unfold spanBytes record
    have ho : e.2.ts.offset = (e.2.offset.toNat : Int) := rfl
    have hl : e.2.ts.length = (e.2.length.toNat : Int) := rfl
    simp only [ho, hl]
    congr 1
    omega

theorem number_get (hd : Faithful db.dat data) : ∀ (es : List (RV × MemPtr)) (fresh : Nat),
    (∀ e ∈ es, 2 ≤ e.2.length.toNat ∧ e.2.offset.toNat < data.length) →
    ∀ o ∈ number fresh (es.map (fun e => e.2.ts)), tsGet db.dat o.start o.stop = .ok (spanBytes data o)
  | [], _, _, o, h => by simp [number] at h
  | e :: es, fresh, he, o, h => by
    rw [List.map_cons, number, List.mem_cons] at h
    rcases h with rfl | h
    · obtain ⟨h1, h2⟩ := he e (by simp)
      have ho : e.2.ts.offset = (e.2.offset.toNat : Int) := rfl
      have hl : e.2.ts.length = (e.2.length.toNat : Int) := rfl
      unfold tsGet
      simp only [ho, hl]
      rw [if_neg (by omega), hd.one (by omega) (by omega) (by omega)]
      unfold spanBytes
      simp only
    · exact number_get hd es _ (fun x hx => he x (by simp [hx])) o h

theorem rows_ok : ∀ {l : List (TsSpan × S)}, (∀ e ∈ l, tsGet db.dat e.1.start e.1.stop = .ok (spanBytes data e.1)) →
    db.searchRows l = ⟨l.map (fun e => (spanBytes data e.1, e.2)), none⟩
  | [], _ => rfl
  | (o, s) :: l, h => by
    have h1 := h (o, s) (by simp)
    simp only at h1
    rw [TsDb.searchRows, h1]
    simp only
    rw [rows_ok (fun e he => h e (by simp [he]))]
    rfl

theorem running_relabel (n : Int) (l before : Nat) (hl : l ≤ 11) : ∀ (xs : List (Nat × Nat)) (acc : S), (∀ x ∈ xs, x.1 ≤ 11) →
    runningScore A n (11 - l) before (xs.map (fun x => (11 - x.1, x.2))) acc = runningScore A n l before xs acc := by
  intro xs
  induction xs generalizing before with
  | nil => intros; rfl
  | cons x xs ih =>
    intro acc h
    obtain ⟨l', k⟩ := x
    have hx : l' ≤ 11 := h (l', k) (by simp)
    rw [List.map_cons, runningScore, runningScore]
    have h' : ∀ x ∈ xs, x.1 ≤ 11 := fun x hx => h x (by simp [hx])
    by_cases hc : l' = l
    · rw [if_pos hc, if_pos (by omega), ih _ _ h']
    · rw [if_neg hc, if_neg (by omega), ih _ _ h']

theorem numbered_get (hd : Faithful db.dat data) : ∀ (toks : List (Nat × List (RV × MemPtr))) (fresh : Nat),
    (∀ x ∈ toks, ∀ e ∈ x.2, 2 ≤ e.2.length.toNat ∧ e.2.offset.toNat < data.length) →
    ∀ o ∈ objects (numbered fresh (toks.map (fun x => (11 - x.1, x.2.map (fun e => e.2.ts))))),
      tsGet db.dat o.start o.stop = .ok (spanBytes data o)
  | [], _, _, o, h => by simp [numbered, objects] at h
  | (l, es) :: toks, fresh, he, o, h => by
    simp only [List.map_cons, numbered, objects, List.flatMap_cons, List.mem_append] at h
    rcases h with h | h
    · exact number_get hd es _ (he (l, es) (by simp)) o h
    · exact numbered_get hd toks _ (fun x hx => he x (by simp [hx])) o h

theorem numbered_lengths : ∀ (toks : List (Nat × List (RV × MemPtr))) (fresh : Nat),
    (numbered fresh (toks.map (fun x => (11 - x.1, x.2.map (fun e => e.2.ts))))).map (fun x => (x.1, x.2.length)) =
      (toks.map (fun x => (x.1, x.2.length))).map (fun x => (11 - x.1, x.2))
  | [], _ => rfl
  | (l, es) :: toks, fresh => by
    simp only [List.map_cons, numbered, number_length, List.length_map]
    rw [numbered_lengths toks]

theorem table_rows (n : Int) : ∀ (toks : List (Nat × List (RV × MemPtr))) (fresh : Nat) (before before' : Nat → Nat), (∀ x ∈ toks, x.1 ≤ 11) →
    (∀ l, l ≤ 11 → before' (11 - l) = before l) →
    (finalTable A n before' (numbered fresh (toks.map (fun x => (11 - x.1, x.2.map (fun e => e.2.ts)))))).map (fun e => (spanBytes data e.1, e.2)) =
      searchRows A data n before toks
  | [], _, _, _, _, _ => rfl
  | (l, es) :: toks, fresh, before, before', h, hb => by
    have hl : l ≤ 11 := h (l, es) (by simp)
    have h' : ∀ x ∈ toks, x.1 ≤ 11 := fun x hx => h x (by simp [hx])
    simp only [List.map_cons, numbered, finalTable, searchRows, List.map_append]
    congr 1
    · rw [number_length, List.length_map, numbered_lengths, hb l hl]
      have := running_relabel (A := A) n l (before l) hl ((l, es.length) :: toks.map (fun x => (x.1, x.2.length))) A.zero (by
        intro x hx
        rcases List.mem_cons.1 hx with rfl | hx
        · exact hl
        · obtain ⟨y, hy, rfl⟩ := List.mem_map.1 hx
          exact h' y hy)
      rw [List.map_cons] at this
      rw [this, List.map_map]
      have e1 := number_bytes data es fresh
      have e2 : ∀ (w : S) (os : List TsSpan), os.map ((fun e : TsSpan × S => (spanBytes data e.1, e.2)) ∘ fun o => (o, w)) = (os.map (spanBytes data)).map (fun b => (b, w)) := by
        intro w os; rw [List.map_map]; rfl
      rw [e2, e1, List.map_map]
      rfl
    · apply table_rows n toks _ _ _ h'
      intro l' hl'
      rw [number_length, List.length_map]
      by_cases hc : l' = l
      · rw [if_pos hc, if_pos (by omega), hb l hl]
      · rw [if_neg hc, if_neg (by omega), hb l' hl']

/-! ### The whole search -/

theorem ascending_nodup {es : List (RV × MemPtr)} (h : Ascending es) : es.Nodup := by
  refine List.Pairwise.imp ?_ h
  intro a b hab heq
  rw [heq] at hab
  exact KeyLt.irrefl _ hab

/-- The n-grams of the phrase as the client's tokenizer makes them. -/
def likeTokens (like : Bytes) (lo hi : Nat) : List TsToken :=
  (List.range' lo (hi + 1 - lo)).flatMap (fun n => (ngrams n like).map (fun w => ⟨utf16 w, 11 - n⟩))

/-- A token as its length and its bytes. -/
def tokenBack (tk : TsToken) : Nat × Bytes := (11 - tk.type, jsEncode tk.value)

theorem tokens_back {like : Bytes} {lo hi : Nat} (ha : Ascii like) (hh : hi ≤ 3) : (likeTokens like lo hi).map tokenBack = tokensOf like lo hi := by
  unfold likeTokens tokensOf tokenBack
  rw [List.map_flatMap, List.flatMap_def, List.flatMap_def]
  congr 1
  refine List.map_congr_left fun n hn => ?_
  rw [List.mem_range'_1] at hn
  rw [List.map_map]
  refine List.map_congr_left fun w hw => ?_
  simp only [Function.comp]
  rw [encode_ascii w (ngrams_ascii ha n w hw), show 11 - (11 - n) = n by omega]

theorem tokensOf_range {like : Bytes} {lo hi : Nat} {x : Nat × Bytes} (h : x ∈ tokensOf like lo hi) : lo ≤ x.1 ∧ x.1 ≤ hi ∧ x.2 ∈ ngrams x.1 like := by
  unfold tokensOf at h
  obtain ⟨n, hn, h⟩ := List.mem_flatMap.1 h
  obtain ⟨w, hw, rfl⟩ := List.mem_map.1 h
  rw [List.mem_range'_1] at hn
  exact ⟨hn.1, by simp only; omega, hw⟩

theorem header_ok {is : List (LP × IndexMeta)} {name : Bytes} {ix : Nat → Nat} {p : Nat → LP} {m : Nat → IndexMeta}
    (h : ∀ n, 1 ≤ n → n ≤ 3 → is[ix n]? = some (p n, m n) ∧ (m n).fieldName = name ∧ (m n).fieldType.toNat = 11 - n) {lo hi : Nat}
    (h1 : 1 ≤ lo) (h2 : lo ≤ hi) (h3 : hi ≤ 3) (conf : Option (Nat × Nat)) (hc : conf.getD (1, 2) = (lo, hi)) :
    ∃ r, jsValidateSearch ⟨name, conf.map (fun x => (.fin x.1, .fin x.2))⟩ (tsCollectMetas (is.map (fun x => x.2.ts))) = .ok r := by
  have hmem : ∀ n, 1 ≤ n → n ≤ 3 → (m n).ts ∈ is.map (fun x => x.2.ts) := fun n a b =>
    List.mem_map.2 ⟨_, List.mem_of_getElem? (h n a b).1, rfl⟩
  have hname : ∀ n, 1 ≤ n → n ≤ 3 → (m n).ts.fieldName = name := fun n a b => (h n a b).2.1
  have htype : ∀ n, 1 ≤ n → n ≤ 3 → (m n).ts.fieldType = 11 - n := fun n a b => (h n a b).2.2
  generalize is.map (fun x => x.2.ts) = ms at hmem
  have hin : name ∈ firstOccurrences (ms.map (·.fieldName)) := by
    rw [mem_firstOccurrences]
    exact List.mem_map.2 ⟨_, hmem 1 (by omega) (by omega), hname 1 (by omega) (by omega)⟩
  have hfind : (tsCollectMetas ms).find? (fun h => h.1 == name) = some (name, (ms.filter (fun m => decide (m.fieldName = name))).map (·.fieldType)) := by
    rw [collectMetas_eq]
    generalize firstOccurrences (ms.map (·.fieldName)) = L at hin
    induction L with
    | nil => simp at hin
    | cons a L ih =>
      rw [List.map_cons, List.find?_cons]
      by_cases ha : a = name
      · subst ha; simp
      · rw [show ((a, (ms.filter (fun m => decide (m.fieldName = a))).map (·.fieldType)).1 == name) = false by simpa using ha]
        exact ih (by
          rcases List.mem_cons.1 hin with h | h
          · exact absurd h.symm ha
          · exact h)
  have hty : ∀ n, 1 ≤ n → n ≤ 3 → ((ms.filter (fun m => decide (m.fieldName = name))).map (·.fieldType)).contains (11 - n) = true := by
    intro n a b
    rw [List.contains_iff_mem]
    exact List.mem_map.2 ⟨_, List.mem_filter.2 ⟨hmem n a b, by simpa using hname n a b⟩, htype n a b⟩
  have t1 := hty 1 (by omega) (by omega)
  have t2 := hty 2 (by omega) (by omega)
  have t3 := hty 3 (by omega) (by omega)
  unfold jsValidateSearch
  simp only [hfind]
  generalize (ms.filter (fun m => decide (m.fieldName = name))).map (·.fieldType) = T at t1 t2 t3
  have hnil : ([10, 9, 8] : List Nat).filter (fun g => !T.contains g) = [] := by
    rw [List.filter_eq_nil_iff]
    intro g hg
    simp only [List.mem_cons, List.not_mem_nil, or_false] at hg
    rcases hg with rfl | rfl | rfl
    · rw [show T.contains 10 = true from t1]; simp
    · rw [show T.contains 9 = true from t2]; simp
    · rw [show T.contains 8 = true from t3]; simp
  rw [hnil, if_neg (by simp)]
  have hcfg : (conf.map (fun x => (JsNum.fin (x.1 : Rat), JsNum.fin (x.2 : Rat)))).getD (.fin 1, .fin 2) = (.fin (lo : Rat), .fin (hi : Rat)) := by
    cases conf with
    | none => simp only [Option.getD_none, Prod.mk.injEq] at hc; rw [← hc.1, ← hc.2]; rfl
    | some x => simp only [Option.getD_some] at hc; rw [hc]; rfl
  refine ⟨(.fin lo, .fin hi), ?_⟩
  rw [hcfg]
  have hlo : lo = 1 ∨ lo = 2 ∨ lo = 3 := by omega
  have hhi : hi = 1 ∨ hi = 2 ∨ hi = 3 := by omega
  rcases hlo with rfl | rfl | rfl <;> rcases hhi with rfl | rfl | rfl <;> first | omega | rfl

/-- What a search returns, for the order of the tokens that the shuffle produced. -/
theorem search_soup (hi' : IndexIs data parse (fun m => wd m.width) s fm is c) {name like : Bytes} {lo hi : Nat} {ix : Nat → Nat} {p : Nat → LP}
    {m : Nat → IndexMeta} (hs : Searchable parse wd data s fm is c db name like lo hi ix p m) (hn : NoneEmpty c like lo hi ix) {q : TsSearch} (hq : Asks q name like lo hi)
    (he : fm.entries.toNat < 2 ^ 31) {lower : JsString → JsString} (hl : ∀ w : Bytes, Ascii w → lower (utf16 w) = utf16 (w.map lowered)) :
    ∃ found : Nat → Bytes → List (RV × MemPtr),
      (∀ n v, lo ≤ n → n ≤ hi → v ∈ ngrams n like → (found n v = [] ∨ (found n v).Perm (hits (c (ix n)) v)) ∧
        (leafBytes (m n).width (c (ix n)) ≤ 4096 ∨ (∀ e ∈ c (ix n), ¬ List.Lex (· < ·) e.1.value v) → (found n v).Perm (hits (c (ix n)) v))) ∧
      ∀ (rand : Nat → Nat) (soup : List TsToken), shuffle rand (likeTokens like lo hi) = .ok soup → soup.Perm (likeTokens like lo hi) →
        Finds db A lower rand q ⟨(tableTop A.toScoreOps (finalTable A fm.entries.toNat (fun _ => 0)
          (numbered 0 ((soup.map tokenBack).map (fun x => (11 - x.1, (found x.1 x.2).map (fun e => e.2.ts))))))).map (fun e => (spanBytes data e.1, e.2)), none⟩ := by
  obtain ⟨hq1, hq2, hq3, hq4, hq5, hq6, hq7⟩ := hq
  have hex : ∀ x : Nat × Bytes, ∃ f : List (RV × MemPtr), lo ≤ x.1 → x.1 ≤ hi → x.2 ∈ ngrams x.1 like →
      ((f = [] ∨ f.Perm (hits (c (ix x.1)) x.2)) ∧
        (leafBytes (m x.1).width (c (ix x.1)) ≤ 4096 ∨ (∀ e ∈ c (ix x.1), ¬ List.Lex (· < ·) e.1.value x.2) → f.Perm (hits (c (ix x.1)) x.2))) ∧
      ∀ fl, fuel s + (c (ix x.1)).length + 2 ≤ fl →
        tsScanFrom (clientTree db fm (p x.1) (m x.1)) fl (fun p => .ok p) true (fun k => tsCompareBytes k x.2 ≠ 0) fl (.ok ⟨⟨0, 0⟩, x.2⟩) =
          ⟨f.map (fun e => e.2.ts), none⟩ := by
    intro x
    obtain ⟨n, v⟩ := x
    by_cases hr : lo ≤ n ∧ n ≤ hi ∧ v ∈ ngrams n like
    · obtain ⟨hix, _, _⟩ := hs.index n (by omega) (by omega)
      obtain ⟨hwm, hent⟩ := hs.readable n hr.1 hr.2.1 (List.ne_nil_of_mem hr.2.2)
      have hne := hn n hr.1 hr.2.1 (List.ne_nil_of_mem hr.2.2)
      obtain ⟨free, es, ps, ho, hperm⟩ := hi'.tsOf (db := db) (k := ix n) (p := p n) (m := m n) hs.sees hix hwm
        (fun e he => ⟨(hent e he).1, (hent e he).2.1⟩)
      have hne' : es ≠ [] := fun h0 => hne (by rw [h0] at hperm; exact hperm.nil_eq.symm)
      obtain ⟨xs, on, h1, h2, h3, h4⟩ := ho.lookup hne' v
      have hxs : xs.Perm (hits (c (ix n)) v) := by
        rw [List.perm_ext_iff_of_nodup]
        · intro a
          unfold hits
          rw [h1.1 a, List.mem_filter, hperm.mem_iff]
          simp [Matches]
        · exact ascending_nodup h1.2
        · exact List.Pairwise.sublist List.filter_sublist (hperm.nodup (ascending_nodup ho.is.asc))
      refine ⟨if on then xs else [], fun _ _ _ => ⟨⟨?_, fun h5 => ?_⟩, fun fl hfl => ?_⟩⟩
      · cases on with
        | true => exact .inr hxs
        | false => exact .inl rfl
      · rcases h5 with h5 | h5
        · have h6 := h2 (by rw [leafBytes_perm hperm]; exact h5)
          rcases h6 with h6 | h6
          · rw [h6]; exact hxs
          · rw [h6] at hxs ⊢
            simpa using hxs
        · rw [h3 (fun e he => h5 e (hperm.mem_iff.1 he))]; exact hxs
      · exact h4 fl fl (by omega) (by have := hperm.length_eq; simp only at hfl; omega)
    · exact ⟨[], fun a b d => absurd ⟨a, b, d⟩ hr⟩
  obtain ⟨f, hf⟩ := Classical.skolem.1 hex
  refine ⟨fun n v => f (n, v), fun n v a b d => (hf (n, v) a b d).1, fun rand soup hsh hsp => ?_⟩
  have hback : (soup.map tokenBack).Perm (tokensOf like lo hi) := by
    rw [← tokens_back hq7 hq6]; exact hsp.map _
  have hrange : ∀ x ∈ soup.map tokenBack, lo ≤ x.1 ∧ x.1 ≤ hi ∧ x.2 ∈ ngrams x.1 like := fun x hx =>
    tokensOf_range (hback.mem_iff.1 hx)
  have hsoup : soup.map (fun tk => (tk.type, jsEncode tk.value)) = (soup.map tokenBack).map (fun x => (11 - x.1, x.2)) := by
    rw [List.map_map]
    refine List.map_congr_left fun tk htk => ?_
    have := hsp.mem_iff.1 htk
    unfold likeTokens at this
    obtain ⟨n, hn, this⟩ := List.mem_flatMap.1 this
    obtain ⟨w, _, rfl⟩ := List.mem_map.1 this
    rw [List.mem_range'_1] at hn
    simp only [Function.comp, tokenBack]
    congr 1
    omega
  refine ⟨is.length + fuel s + (c (ix 1)).length + (c (ix 2)).length + (c (ix 3)).length + 2, fun fl hfl => ?_⟩
  have hne : is ≠ [] := List.ne_nil_of_mem (List.mem_of_getElem? (hs.index 1 (by omega) (by omega)).1)
  have hent : (tsUvarint (putUvarint fm.entries)).1 = fm.entries.toNat := by
    have := (tsUvarint_spec fm.entries []).2.2 he
    rwa [List.append_nil] at this
  obtain ⟨r, hr⟩ := header_ok hs.index hq4 hq5 hq6 q.config hq3
  have htok : tsTokens lower lo hi q.like = .ok (likeTokens like lo hi) := by
    rw [hq2]
    rw [show like.map (·.toUInt16) = utf16 like from rfl, (C49_tokens (nfkd := id) (fun _ _ => rfl) hl like hq7).2 lo hi hq4 hq6]
    unfold likeTokens
    congr 1
    congr 1
    funext n
    rw [go_ngrams hq7 rfl n]
  have hloop := searchTokens_ok (A := A) (db := db) (fuel := fl) (format := fm.format.toByte.toNat) (n := fm.entries.toNat) (name := name)
    (pg := fun ft => (p (11 - ft)).ts) (m := fun ft => (m (11 - ft)).ts) (hit := fun ft v => (f (11 - ft, v)).map (fun e => e.2.ts))
    ((soup.map tokenBack).map (fun x => (11 - x.1, x.2))) ⟨[], [], 0, []⟩ (fun _ => []) (by
      intro tk htk
      obtain ⟨x, hx, rfl⟩ := List.mem_map.1 htk
      obtain ⟨hx1, hx2, hx3⟩ := hrange x hx
      have hxn : 11 - (11 - x.1) = x.1 := by omega
      obtain ⟨hix, hnm, hty⟩ := hs.index x.1 (by omega) (by omega)
      simp only [hxn]
      refine ⟨⟨?_, (hi'.tsIndex hs.sees.idx hix).1, hty⟩, ?_⟩
      · have := hi'.seek_one (db := db) hs.sees.idx hix (by omega) fl (by omega)
        rw [hnm, hty] at this
        exact this
      · have h5 := (hf x hx1 hx2 hx3).2 fl (by
          have : x.1 = 1 ∨ x.1 = 2 ∨ x.1 = 3 := by omega
          rcases this with h6 | h6 | h6 <;> rw [h6] <;> omega)
        rw [← h5]
        unfold clientTree searchTreeOf
        rw [hty]
        rfl)
    (by intro ft p h; simp [tableGet] at h) (by intro ft; left; exact ⟨rfl, rfl⟩) (by simp)
  obtain ⟨st, hst1, hst2⟩ := hloop
  unfold TsDb.search
  rw [hi'.tsFile hs.sees.idx]
  simp only [Res.rows]
  rw [hi'.tsHeaders hs.sees.idx hne fl (by omega)]
  simp only
  unfold TsDb.searchWith
  rw [hq1, hr, hq3]
  simp only [Res.rows]
  rw [htok]
  simp only
  rw [hsh]
  simp only
  rw [hent, hsoup, hst1]
  simp only
  rw [List.map_map] at hst2
  have hnum : ((soup.map tokenBack).map ((fun tk : Nat × Bytes => (tk.1, (f (11 - tk.1, tk.2)).map (fun e => e.2.ts))) ∘ fun x => (11 - x.1, x.2))) =
      (soup.map tokenBack).map (fun x => (11 - x.1, (f (x.1, x.2)).map (fun e => e.2.ts))) := by
    refine List.map_congr_left fun x hx => ?_
    obtain ⟨hx1, hx2, hx3⟩ := hrange x hx
    simp only [Function.comp, show 11 - (11 - x.1) = x.1 by omega]
  rw [hnum, table_log _ (numbered_nodup _ _)] at hst2
  rw [hst2]
  refine rows_ok fun e he => ?_
  have he1 : e ∈ finalTable A fm.entries.toNat (fun _ => 0) (numbered 0 ((soup.map tokenBack).map (fun x => (11 - x.1, (f (x.1, x.2)).map (fun e => e.2.ts))))) :=
    (List.mergeSort_perm _ _).mem_iff.1 he
  have he2 : e.1 ∈ objects (numbered 0 ((soup.map tokenBack).map (fun x => (11 - x.1, (f (x.1, x.2)).map (fun e => e.2.ts))))) := finalTable_mem he1
  have e3 : (soup.map tokenBack).map (fun x => (11 - x.1, (f (x.1, x.2)).map (fun e => e.2.ts))) =
      ((soup.map tokenBack).map (fun x => (x.1, f (x.1, x.2)))).map (fun x => (11 - x.1, x.2.map (fun e => e.2.ts))) := by
    rw [List.map_map (f := fun x : Nat × Bytes => (x.1, f (x.1, x.2)))]; rfl
  rw [e3] at he2
  refine numbered_get hs.sees.dat _ _ ?_ _ he2
  intro x hx y hy
  obtain ⟨z, hz, rfl⟩ := List.mem_map.1 hx
  obtain ⟨hz1, hz2, hz3⟩ := hrange z hz
  have h7 := (hf z hz1 hz2 hz3).1.1
  have h8 : y ∈ c (ix z.1) := by
    rcases h7 with h7 | h7
    · exfalso; have hy' : y ∈ f z := hy; rw [h7] at hy'; simp at hy'
    · exact (List.mem_filter.1 (h7.mem_iff.1 hy)).1
  exact ⟨((hs.readable z.1 hz1 hz2 (List.ne_nil_of_mem hz3)).2 y h8).2.2.1, ((hs.readable z.1 hz1 hz2 (List.ne_nil_of_mem hz3)).2 y h8).2.2.2⟩

theorem searchRows_records (n : Int) : ∀ (toks : List (Nat × List (RV × MemPtr))) (before : Nat → Nat),
    (searchRows A data n before toks).map (·.1) = toks.flatMap (fun x => x.2.map (fun e => record data e.2))
  | [], _ => rfl
  | (l, hs) :: toks, before => by
    rw [searchRows, List.map_append, searchRows_records n toks, List.flatMap_cons, List.map_map]
    rfl

theorem map_self {α : Type} {f : α → α} : ∀ {l : List α}, (∀ a ∈ l, f a = a) → l.map f = l
  | [], _ => rfl
  | a :: l, h => by rw [List.map_cons, h a (by simp), map_self (fun x hx => h x (by simp [hx]))]

theorem flatMap_perm {α β : Type} {f g : α → List β} : ∀ {l : List α}, (∀ a ∈ l, (f a).Perm (g a)) → (l.flatMap f).Perm (l.flatMap g)
  | [], _ => .refl _
  | a :: l, h => by
    rw [List.flatMap_cons, List.flatMap_cons]
    exact (h a (by simp)).append (flatMap_perm (fun x hx => h x (by simp [hx])))

/-- What a search returns: for some order of the n-grams, the rows of `Spec.searchRows`, sorted. -/
theorem search_rows (hi' : IndexIs data parse (fun m => wd m.width) s fm is c) {name like : Bytes} {lo hi : Nat} {ix : Nat → Nat} {p : Nat → LP}
    {m : Nat → IndexMeta} (hs : Searchable parse wd data s fm is c db name like lo hi ix p m) (hn : NoneEmpty c like lo hi ix) {q : TsSearch} (hq : Asks q name like lo hi)
    (he : fm.entries.toNat < 2 ^ 31) {lower : JsString → JsString} (hl : ∀ w : Bytes, Ascii w → lower (utf16 w) = utf16 (w.map lowered)) :
    ∃ found : Nat → Bytes → List (RV × MemPtr),
      (∀ n v, lo ≤ n → n ≤ hi → v ∈ ngrams n like → (found n v = [] ∨ (found n v).Perm (hits (c (ix n)) v)) ∧
        (leafBytes (m n).width (c (ix n)) ≤ 4096 ∨ (∀ e ∈ c (ix n), ¬ List.Lex (· < ·) e.1.value v) → (found n v).Perm (hits (c (ix n)) v))) ∧
      (∀ rand, ∃ (soup : List (Nat × Bytes)) (rows : List (Bytes × S)), soup.Perm (tokensOf like lo hi) ∧ Finds db A lower rand q ⟨rows, none⟩ ∧
        rows.Perm (searchRows A data fm.entries.toNat (fun _ => 0) (soup.map (fun x => (x.1, found x.1 x.2)))) ∧
        ((∀ a b, A.le a b = true ∨ A.le b a = true) → (∀ a b c, A.le a b = true → A.le b c = true → A.le a c = true) →
          rows.Pairwise (fun x y => A.le y.2 x.2 = true))) ∧
      ∀ soup : List (Nat × Bytes), soup.Perm (tokensOf like lo hi) → ∃ (rand : Nat → Nat) (rows : List (Bytes × S)), Finds db A lower rand q ⟨rows, none⟩ ∧
        rows.Perm (searchRows A data fm.entries.toNat (fun _ => 0) (soup.map (fun x => (x.1, found x.1 x.2)))) := by
  obtain ⟨found, hf, hrun⟩ := search_soup (A := A) hi' hs hn hq he hl
  obtain ⟨_, _, _, h1, h2, h3, ha⟩ := hq
  have hperm : ∀ soup : List TsToken, (∀ tk ∈ soup, tk ∈ likeTokens like lo hi) → ((tableTop A.toScoreOps (finalTable A fm.entries.toNat (fun _ => 0)
          (numbered 0 ((soup.map tokenBack).map (fun x => (11 - x.1, (found x.1 x.2).map (fun e => e.2.ts))))))).map (fun e => (spanBytes data e.1, e.2))).Perm
        (searchRows A data fm.entries.toNat (fun _ => 0) ((soup.map tokenBack).map (fun x => (x.1, found x.1 x.2)))) := by
    intro soup hin
    refine ((List.mergeSort_perm _ _).map _).trans ?_
    have e3 : (soup.map tokenBack).map (fun x => (11 - x.1, (found x.1 x.2).map (fun e => e.2.ts))) =
        ((soup.map tokenBack).map (fun x => (x.1, found x.1 x.2))).map (fun x => (11 - x.1, x.2.map (fun e => e.2.ts))) := by
      rw [List.map_map (f := fun x : Nat × Bytes => (x.1, found x.1 x.2))]; rfl
    rw [e3, table_rows (A := A) (data := data) _ _ 0 (fun _ => 0) (fun _ => 0)]
    · intro x hx
      obtain ⟨y, hy, rfl⟩ := List.mem_map.1 hx
      obtain ⟨tk, _, rfl⟩ := List.mem_map.1 hy
      simp only [tokenBack]; omega
    · intro l _; rfl
  refine ⟨found, hf, fun rand => ?_, fun soup hsp => ?_⟩
  · obtain ⟨soup, hsh, hsp⟩ := C50_shuffle rand (likeTokens like lo hi)
    refine ⟨soup.map tokenBack, _, by rw [← tokens_back ha h3]; exact hsp.map _, hrun rand soup hsh hsp, hperm soup (fun tk htk => hsp.mem_iff.1 htk), fun ht htr => ?_⟩
    rw [List.pairwise_map]
    unfold tableTop
    exact List.pairwise_mergeSort (le := fun m n : TsSpan × S => A.le n.2 m.2) (fun a b c h1 h2 => htr _ _ _ h2 h1) (fun a b => by
      rcases ht b.2 a.2 with h | h <;> simp [h]) _
  · have hto : (soup.map (fun x => (⟨utf16 x.2, 11 - x.1⟩ : TsToken))).Perm (likeTokens like lo hi) := by
      refine (hsp.map _).trans ?_
      unfold tokensOf likeTokens
      rw [List.map_flatMap]
      simp only [List.map_map]
      exact .refl _
    obtain ⟨rand, hsh⟩ := C50_every_order _ _ hto
    have hback : (soup.map (fun x => (⟨utf16 x.2, 11 - x.1⟩ : TsToken))).map tokenBack = soup := by
      rw [List.map_map]
      refine map_self fun x hx => ?_
      obtain ⟨g1, g2, g3⟩ := tokensOf_range (hsp.mem_iff.1 hx)
      simp only [Function.comp, tokenBack]
      rw [encode_ascii _ (ngrams_ascii ha _ _ g3), show 11 - (11 - x.1) = x.1 by omega]
    have h5 := hrun rand _ hsh hto
    have h6 := hperm _ (fun tk htk => hto.mem_iff.1 htk)
    rw [hback] at h5 h6
    exact ⟨rand, _, h5, h6⟩

/-! ### An index without entries -/

/-- A scan of a tree whose root pointer is zero reads the free page list, which starts with zeros. -/
theorem scan_empty {tt : TsTree} {B : Bytes} {β : Type} {row : TsPtr → Res β} {stop : Bytes → Bool} (hroot : tt.rootPtr = .ok ⟨0, 0⟩)
    (hidx : Faithful tt.idx B) (hB : 4096 ≤ B.length) (h0 : B.take 4 = [0, 0, 0, 0]) (depth fl : Nat) (k : TsRV) :
    tsScanFrom tt depth row true stop (fl + 1) (.ok k) = ⟨[], some (.msg "empty node")⟩ := by
  have hread : tt.root = .err (.msg "empty node") := by
    unfold TsTree.root
    rw [hroot]
    simp only [Res.bind_ok]
    unfold TsTree.readNode
    simp only
    rw [hidx.one (by omega) (by omega) (by omega)]
    simp only [Res.bind_ok]
    have hsl : slice B (0 : Int).toNat ((0 : Int) + 4096 - 1 + 1 - 0).toNat = B.take 4096 := by
      rw [show ((0 : Int) + 4096 - 1 + 1 - 0).toNat = 4096 by omega]
      unfold slice
      rw [Int.toNat_zero, List.drop_zero]
    rw [hsl]
    unfold tsUnmarshal
    rw [if_neg (by rw [List.length_take]; omega)]
    have : leNat ((B.take 4096).take 4) = 0 := by
      rw [List.take_take, show min 4 4096 = 4 by omega, h0]; rfl
    simp only [this, if_true]
  have hnext : (tsIter k).next tt depth = .err (.msg "empty node") := by
    unfold TsIter.next
    simp only [tsIter]
    unfold TsTree.initRecords
    rw [hread]
    rfl
  unfold tsScanFrom
  simp only
  unfold tsScan
  rw [if_pos rfl, hnext]

theorem TsOf.empty_root {tt t free ps} (h : TsOf tt t s free [] ps) : tt.rootPtr = .ok ⟨0, 0⟩ ∧ 4096 ≤ s.file.bytes.length := by
  rcases h.is.root with ⟨h0, _, _⟩ | ⟨_, _, hr, _⟩
  · refine ⟨by rw [h.root, h0]; rfl, ?_⟩
    have := h.is.slotLive.inside h.is.valid
    unfold pageSize at this; omega
  · exact absurd rfl hr.nonempty

/-- A search that uses an n-gram index without entries throws. -/
theorem search_empty (hi' : IndexIs data parse (fun m => wd m.width) s fm is c) {name like : Bytes} {lo hi : Nat} {ix : Nat → Nat} {p : Nat → LP}
    {m : Nat → IndexMeta} (hs : Searchable parse wd data s fm is c db name like lo hi ix p m) {n0 : Nat} (hn1 : lo ≤ n0) (hn2 : n0 ≤ hi)
    (hn3 : ngrams n0 like ≠ []) (hn4 : c (ix n0) = []) (h0 : s.file.bytes.take 4 = [0, 0, 0, 0]) {q : TsSearch} (hq : Asks q name like lo hi)
    {lower : JsString → JsString} (hl : ∀ w : Bytes, Ascii w → lower (utf16 w) = utf16 (w.map lowered)) (rand : Nat → Nat) :
    Finds db A lower rand q ⟨[], some (.msg "empty node")⟩ := by
  obtain ⟨hq1, hq2, hq3, hq4, hq5, hq6, hq7⟩ := hq
  obtain ⟨soup, hsh, hsp⟩ := C50_shuffle rand (likeTokens like lo hi)
  have hback : (soup.map tokenBack).Perm (tokensOf like lo hi) := by
    rw [← tokens_back hq7 hq6]; exact hsp.map _
  have hrange : ∀ x ∈ soup.map tokenBack, lo ≤ x.1 ∧ x.1 ≤ hi ∧ x.2 ∈ ngrams x.1 like := fun x hx =>
    tokensOf_range (hback.mem_iff.1 hx)
  have hsoup : soup.map (fun tk => (tk.type, jsEncode tk.value)) = (soup.map tokenBack).map (fun x => (11 - x.1, x.2)) := by
    rw [List.map_map]
    refine List.map_congr_left fun tk htk => ?_
    have := hsp.mem_iff.1 htk
    unfold likeTokens at this
    obtain ⟨n, hn, this⟩ := List.mem_flatMap.1 this
    obtain ⟨w, _, rfl⟩ := List.mem_map.1 this
    rw [List.mem_range'_1] at hn
    simp only [Function.comp, tokenBack]
    congr 1
    omega
  refine ⟨is.length + fuel s + (c (ix 1)).length + (c (ix 2)).length + (c (ix 3)).length + 2, fun fl hfl => ?_⟩
  have hscan : ∀ x : Nat × Bytes, lo ≤ x.1 → x.1 ≤ hi → x.2 ∈ ngrams x.1 like →
      (c (ix x.1) ≠ [] → (tsScanFrom (clientTree db fm (p x.1) (m x.1)) fl (fun p => .ok p) true (fun k => tsCompareBytes k x.2 ≠ 0) fl
        (.ok ⟨⟨0, 0⟩, x.2⟩)).fail = none) ∧
      (c (ix x.1) = [] → (tsScanFrom (clientTree db fm (p x.1) (m x.1)) fl (fun p => .ok p) true (fun k => tsCompareBytes k x.2 ≠ 0) fl
        (.ok ⟨⟨0, 0⟩, x.2⟩)).fail = some (.msg "empty node")) := by
    intro x x1 x2 x3
    obtain ⟨hix, _, _⟩ := hs.index x.1 (by omega) (by omega)
    obtain ⟨hwm, hent⟩ := hs.readable x.1 x1 x2 (List.ne_nil_of_mem x3)
    obtain ⟨free, es, ps, ho, hperm⟩ := hi'.tsOf (db := db) (k := ix x.1) (p := p x.1) (m := m x.1) hs.sees hix hwm
      (fun e he => ⟨(hent e he).1, (hent e he).2.1⟩)
    have hcl : fuel s + (c (ix x.1)).length + 2 ≤ fl := by
      have : x.1 = 1 ∨ x.1 = 2 ∨ x.1 = 3 := by omega
      rcases this with h6 | h6 | h6 <;> rw [h6] <;> omega
    constructor
    · intro hne
      have hne' : es ≠ [] := fun h0 => hne (by rw [h0] at hperm; exact hperm.nil_eq.symm)
      obtain ⟨xs, on, _, _, _, h4⟩ := ho.lookup hne' x.2
      rw [h4 fl fl (by omega) (by have := hperm.length_eq; omega)]
    · intro hz
      have : es = [] := by rw [hz] at hperm; exact hperm.eq_nil
      subst this
      obtain ⟨g1, g2⟩ := ho.empty_root
      obtain ⟨fl', rfl⟩ : ∃ k, fl = k + 1 := ⟨fl - 1, by omega⟩
      rw [scan_empty g1 ho.view.idx g2 h0]
  have hne : is ≠ [] := List.ne_nil_of_mem (List.mem_of_getElem? (hs.index 1 (by omega) (by omega)).1)
  obtain ⟨r, hr⟩ := header_ok hs.index hq4 hq5 hq6 q.config hq3
  have htok : tsTokens lower lo hi q.like = .ok (likeTokens like lo hi) := by
    rw [hq2]
    rw [show like.map (·.toUInt16) = utf16 like from rfl, (C49_tokens (nfkd := id) (fun _ _ => rfl) hl like hq7).2 lo hi hq4 hq6]
    unfold likeTokens
    congr 1
    congr 1
    funext n
    rw [go_ngrams hq7 rfl n]
  have htree : ∀ x : Nat × Bytes, lo ≤ x.1 → x.1 ≤ hi →
      searchTreeOf db fm.format.toByte.toNat (11 - x.1) (p x.1).ts (m x.1).ts = clientTree db fm (p x.1) (m x.1) := by
    intro x x1 x2
    obtain ⟨_, _, hty⟩ := hs.index x.1 (by omega) (by omega)
    unfold clientTree searchTreeOf
    rw [hty]
    rfl
  obtain ⟨v0, hv0⟩ := List.exists_mem_of_ne_nil _ hn3
  have hloop := searchTokens_fail (A := A) (db := db) (fuel := fl) (format := fm.format.toByte.toNat) (n := (tsUvarint (putUvarint fm.entries)).1) (name := name)
    (pg := fun ft => (p (11 - ft)).ts) (m := fun ft => (m (11 - ft)).ts) (e := .msg "empty node")
    ((soup.map tokenBack).map (fun x => (11 - x.1, x.2))) ⟨[], [], 0, []⟩ (by
      intro tk htk
      obtain ⟨x, hx, rfl⟩ := List.mem_map.1 htk
      obtain ⟨hx1, hx2, hx3⟩ := hrange x hx
      have hxn : 11 - (11 - x.1) = x.1 := by omega
      obtain ⟨hix, hnm, hty⟩ := hs.index x.1 (by omega) (by omega)
      simp only [hxn]
      refine ⟨⟨?_, (hi'.tsIndex hs.sees.idx hix).1, hty⟩, ?_⟩
      · have := hi'.seek_one (db := db) hs.sees.idx hix (by omega) fl (by omega)
        rw [hnm, hty] at this
        exact this
      · rw [htree x hx1 hx2]
        by_cases hz : c (ix x.1) = []
        · exact .inr ((hscan x hx1 hx2 hx3).2 hz)
        · exact .inl ((hscan x hx1 hx2 hx3).1 hz))
    ⟨(11 - n0, v0), by
      refine List.mem_map.2 ⟨(n0, v0), hback.mem_iff.2 ?_, rfl⟩
      unfold tokensOf
      exact List.mem_flatMap.2 ⟨n0, by rw [List.mem_range'_1]; omega, List.mem_map.2 ⟨v0, hv0, rfl⟩⟩, by
      simp only [show 11 - (11 - n0) = n0 by omega]
      have := htree (n0, v0) hn1 hn2
      simp only at this
      rw [this]
      exact (hscan (n0, v0) hn1 hn2 hv0).2 hn4⟩
    (by intro ft p h; simp [tableGet] at h) (by intro ft; left; rfl)
  unfold TsDb.search
  rw [hi'.tsFile hs.sees.idx]
  simp only [Res.rows]
  rw [hi'.tsHeaders hs.sees.idx hne fl (by omega)]
  simp only
  unfold TsDb.searchWith
  rw [hq1, hr, hq3]
  simp only [Res.rows]
  rw [htok]
  simp only
  rw [hsh]
  simp only
  rw [hsoup, hloop]

end Appendable
