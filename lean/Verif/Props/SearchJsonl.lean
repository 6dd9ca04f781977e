import Verif.Spec.SearchJsonl
import Verif.Props.Search
import Verif.Props.NgramRunes
import Verif.Lemmas.JsonlRun
/-! C76, C77: searching a JSONL file. -/
namespace Appendable
open Spec Tree

variable {env : JEnv} {hs : List Bytes} {data : Bytes} {i : IndexFile} {s : PF} {lf : List (Bytes × List Field)} {tail name like : Bytes}
  {db : TsDb} {S : Type} {A : ScoreArith S} {lo hi : Nat}

/-! ### The n-grams of a text -/

theorem utf8_high {r : Nat} (h : Scalar r) : (utf8 r).filter (fun b => decide (b.toNat < 128)) = if r < 128 then [UInt8.ofNat r] else [] := by
  unfold Scalar at h
  unfold utf8
  have key : ∀ n, 128 ≤ n → n < 256 → decide ((UInt8.ofNat n).toNat < 128) = false := by
    intro n a b
    rw [u8 b]; simp; omega
  by_cases h1 : r < 0x80
  · rw [if_pos h1, if_pos h1, List.filter_cons_of_pos (by rw [u8 (by omega)]; simpa using h1)]; rfl
  · rw [if_neg h1, if_neg h1]
    split
    · simp only [List.filter_cons, List.filter_nil, key (0xC0 + r / 64) (by omega) (by omega), key (0x80 + r % 64) (by omega) (by omega)]
      simp
    · split
      · simp only [List.filter_cons, List.filter_nil, key (0xE0 + r / 4096) (by omega) (by omega), key (0x80 + r / 64 % 64) (by omega) (by omega),
          key (0x80 + r % 64) (by omega) (by omega)]
        simp
      · simp only [List.filter_cons, List.filter_nil, key (0xF0 + r / 262144) (by omega) (by omega), key (0x80 + r / 4096 % 64) (by omega) (by omega),
          key (0x80 + r / 64 % 64) (by omega) (by omega), key (0x80 + r % 64) (by omega) (by omega)]
        simp

theorem ascii_letters {rs : List Nat} (h : ∀ r ∈ rs, Scalar r) : (rs.flatMap utf8).filter (fun b => decide (b.toNat < 128)) = asciiOf rs := by
  induction rs with
  | nil => rfl
  | cons r rs ih =>
    rw [List.flatMap_cons, List.filter_append, utf8_high (h r (by simp)), ih (fun x hx => h x (by simp [hx]))]
    unfold asciiOf
    by_cases hr : r < 128
    · rw [if_pos hr, List.filter_cons_of_pos (by simpa using hr)]; rfl
    · rw [if_neg hr, List.filter_cons_of_neg (by simpa using hr)]; rfl

theorem text_grams {nfkd : Bytes → Bytes} {t : Bytes} (h : ValidUtf8 (nfkd t)) (n : Nat) :
    (buildNgram nfkd t n).map (·.word) = ngrams n (letters nfkd t) := by
  obtain ⟨rs, h1, h2⟩ := h
  rw [C75_words h1 h2]
  unfold letters
  rw [h2, ascii_letters h1]

theorem runes_le {rs : List Nat} (h : ∀ r ∈ rs, Scalar r) : rs.length ≤ (rs.flatMap utf8).length := by
  induction rs with
  | nil => simp
  | cons r rs ih =>
    have := (decode_utf8 (h r (by simp)) []).2.2
    have := ih (fun x hx => h x (by simp [hx]))
    rw [List.flatMap_cons, List.length_append, List.length_cons]; omega

theorem gram_offset {nfkd : Bytes → Bytes} {t : Bytes} (h : ValidUtf8 (nfkd t)) (hl : (nfkd t).length < 2 ^ 30) {n : Nat} (hn : 1 ≤ n) {g : Token}
    (hg : g ∈ buildNgram nfkd t n) : g.offset.toNat < 2 ^ 30 := by
  obtain ⟨rs, h1, h2⟩ := h
  have h3 := runes_le h1
  rw [← h2] at h3
  have := (C75_runes_partial h1 h2 (by omega) n hn g hg).1
  omega

/-! ### The entries of an n-gram index -/

/-- The entry of an n-gram. -/
def gramEntry (off : Nat) (line : MemPtr) (f : Field) (t : Bytes) (g : Token) : RV × MemPtr :=
  (⟨⟨UInt64.ofNat (off + f.start) + g.offset, UInt32.ofNat t.length⟩, g.word⟩, line)

theorem field_grams (nfkd : Bytes → Bytes) (hh : name ∈ hs) (off : Nat) (line : MemPtr) (f : Field) {n : Nat} (h1 : 1 ≤ n) (h3 : n ≤ 3) :
    entriesOf (fieldJobs nfkd hs off line f) name (UInt8.ofNat (11 - n)) =
      (textOf name f).flatMap (fun t => (buildNgram nfkd t n).map (gramEntry off line f t)) := by
  obtain ⟨fn, tok, st, sp⟩ := f
  have hn : n = 1 ∨ n = 2 ∨ n = 3 := by omega
  cases tok with
  | str t =>
    by_cases hf : fn = name
    · subst hf
      rcases hn with rfl | rfl | rfl <;>
        simp [entriesOf, fieldJobs, textOf, gramJob, hh, kindOf, FieldType.code, gramEntry] <;> rfl
    · rcases hn with rfl | rfl | rfl <;> by_cases hq : fn ∈ hs <;>
        simp [entriesOf, fieldJobs, textOf, gramJob, hf, hq]
  | bool b => rcases hn with rfl | rfl | rfl <;> simp [entriesOf, fieldJobs, textOf, kindOf, FieldType.code]
  | num b => rcases hn with rfl | rfl | rfl <;> simp [entriesOf, fieldJobs, textOf, kindOf, FieldType.code]
  | null => rcases hn with rfl | rfl | rfl <;> simp [entriesOf, fieldJobs, textOf, kindOf, FieldType.code]
  | lbrace => rcases hn with rfl | rfl | rfl <;> simp [entriesOf, fieldJobs, textOf, kindOf, FieldType.code]
  | rbrace => rcases hn with rfl | rfl | rfl <;> simp [entriesOf, fieldJobs, textOf, kindOf, FieldType.code]
  | lbrack => rcases hn with rfl | rfl | rfl <;> simp [entriesOf, fieldJobs, textOf, kindOf, FieldType.code]
  | rbrack => rcases hn with rfl | rfl | rfl <;> simp [entriesOf, fieldJobs, textOf, kindOf, FieldType.code]

theorem entriesOf_flatMap {α : Type} (f : α → List Job) (l : List α) (n : Bytes) (t : UInt8) :
    entriesOf (l.flatMap f) n t = l.flatMap (fun a => entriesOf (f a) n t) := by
  unfold entriesOf
  rw [List.flatMap_assoc]

theorem line_grams (nfkd : Bytes → Bytes) (hh : name ∈ hs) (off : Nat) (line : MemPtr) (fs : List Field) {n : Nat} (h1 : 1 ≤ n) (h3 : n ≤ 3) :
    entriesOf (fs.flatMap (fieldJobs nfkd hs off line)) name (UInt8.ofNat (11 - n)) =
      fs.flatMap (fun f => (textOf name f).flatMap (fun t => (buildNgram nfkd t n).map (gramEntry off line f t))) := by
  rw [entriesOf_flatMap]
  congr 1
  funext f
  exact field_grams nfkd hh off line f h1 h3

theorem map_flatMap_eq {α β γ : Type} {f : α → List β} {g : β → γ} {k : α → List γ} : ∀ {l : List α}, (∀ a ∈ l, (f a).map g = k a) →
    (l.flatMap f).map g = l.flatMap k
  | [], _ => rfl
  | a :: l, h => by
    rw [List.flatMap_cons, List.map_append, h a (by simp), map_flatMap_eq (fun x hx => h x (by simp [hx])), List.flatMap_cons]

/-- What is in the n-gram index of a file: for every occurrence one entry, with the record the line; the client can read them. -/
theorem file_grams (nfkd : Bytes → Bytes) (hh : name ∈ hs) {n : Nat} (h1 : 1 ≤ n) (h3 : n ≤ 3) (hd : data.length < 2 ^ 30) :
    ∀ (lf : List (Bytes × List Field)) (pre : Bytes), data = pre ++ fileOf (lf.map (·.1)) tail →
    (∀ x ∈ lf, 2 ≤ x.1.length ∧ ∀ f ∈ x.2, f.start ≤ x.1.length) →
    (∀ x ∈ lf, ∀ t ∈ textsOf name x.2, t.length < 2 ^ 30 ∧ ValidUtf8 (nfkd t) ∧ (nfkd t).length < 2 ^ 30) →
    (entriesOf (linesJobs nfkd hs pre.length lf) name (UInt8.ofNat (11 - n))).map (fun e => (e.1.value, record data e.2)) = gramsOf nfkd name n lf ∧
    ∀ e ∈ entriesOf (linesJobs nfkd hs pre.length lf) name (UInt8.ofNat (11 - n)),
      SmallPtr e.1.dp ∧ SmallPtr e.2 ∧ 2 ≤ e.2.length.toNat ∧ e.2.offset.toNat < data.length := by
  intro lf
  induction lf with
  | nil => intro pre _ _ _; exact ⟨rfl, by intro e he; simp [linesJobs, entriesOf] at he⟩
  | cons x lf ih =>
    intro pre hdata hx ht
    obtain ⟨text, fs⟩ := x
    have hdata' : data = (pre ++ text ++ [10]) ++ fileOf (lf.map (·.1)) tail := by
      rw [hdata]; simp [fileOf]
    obtain ⟨i1, i2⟩ := ih (pre ++ text ++ [10]) hdata' (fun y hy => hx y (by simp [hy])) (fun y hy => ht y (by simp [hy]))
    have hpl : (pre ++ text ++ [10]).length = pre.length + text.length + 1 := by simp; omega
    rw [hpl] at i1 i2
    have hlen : pre.length + text.length + 1 ≤ data.length := by
      have := congrArg List.length hdata'
      simp only [List.length_append, List.length_singleton] at this
      omega
    obtain ⟨hx1, hx2⟩ := hx (text, fs) (by simp)
    simp only at hx1 hx2
    have ho : (UInt64.ofNat pre.length).toNat = pre.length := by rw [UInt64.toNat_ofNat']; omega
    have hl : (UInt32.ofNat text.length).toNat = text.length := by rw [UInt32.toNat_ofNat']; omega
    have hrec : record data ⟨UInt64.ofNat pre.length, UInt32.ofNat text.length⟩ = text := by
      unfold record slice
      rw [ho, hl, hdata', List.append_assoc, List.append_assoc, List.drop_left, List.take_left]
    have hte : ∀ f ∈ fs, ∀ t ∈ textOf name f, t ∈ textsOf name fs := fun f hf t h => List.mem_flatMap.2 ⟨f, hf, h⟩
    rw [linesJobs, entriesOf_append, line_grams nfkd hh _ _ _ h1 h3]
    constructor
    · rw [List.map_append, i1]
      unfold gramsOf
      rw [List.flatMap_cons]
      congr 1
      unfold textsOf
      rw [List.flatMap_assoc]
      refine map_flatMap_eq fun f hf => map_flatMap_eq fun t h => ?_
      rw [← text_grams (ht (text, fs) (by simp) t (hte f hf t h)).2.1, List.map_map, List.map_map]
      refine List.map_congr_left fun g _ => ?_
      simp only [Function.comp, gramEntry, hrec]
    · intro e he
      rw [List.mem_append] at he
      rcases he with he | he
      · obtain ⟨f, hf, he⟩ := List.mem_flatMap.1 he
        obtain ⟨t, h, he⟩ := List.mem_flatMap.1 he
        obtain ⟨g, hg, rfl⟩ := List.mem_map.1 he
        obtain ⟨t1, t2, t3⟩ := ht (text, fs) (by simp) t (hte f hf t h)
        have hgo := gram_offset t2 t3 h1 hg
        have hfs := hx2 f hf
        have hs1 : (UInt64.ofNat (pre.length + f.start)).toNat = pre.length + f.start := by rw [UInt64.toNat_ofNat']; omega
        refine ⟨⟨?_, ?_⟩, ⟨?_, ?_⟩, ?_, ?_⟩ <;> simp only [gramEntry]
        · rw [UInt64.toNat_add, hs1]; omega
        · rw [UInt32.toNat_ofNat']; omega
        · rw [ho]; omega
        · rw [hl]; omega
        · rw [hl]; exact hx1
        · rw [ho]; omega
      · exact i2 e he

/-! ### The indexes -/

theorem job_mem (nfkd : Bytes → Bytes) (hh : name ∈ hs) {n : Nat} (h1 : 1 ≤ n) (h3 : n ≤ 3) : ∀ (lf : List (Bytes × List Field)) (off : Nat),
    (∃ x ∈ lf, textsOf name x.2 ≠ []) → (name, UInt8.ofNat (11 - n)) ∈ (linesJobs nfkd hs off lf).map (fun j => (j.name, j.ty))
  | [], _, h => by obtain ⟨x, hx, _⟩ := h; simp at hx
  | (text, fs) :: lf, off, h => by
    rw [linesJobs, List.map_append, List.mem_append]
    obtain ⟨x, hx, hne⟩ := h
    rcases List.mem_cons.1 hx with rfl | hx
    · left
      obtain ⟨t, ht⟩ := List.exists_mem_of_ne_nil _ hne
      obtain ⟨f, hf, ht⟩ := List.mem_flatMap.1 ht
      rw [List.map_flatMap, List.mem_flatMap]
      refine ⟨f, hf, ?_⟩
      obtain ⟨fn, tok, st, sp⟩ := f
      unfold textOf at ht
      cases tok with
      | str u =>
        simp only at ht
        by_cases hfn : fn = name
        · subst hfn
          have hn : n = 1 ∨ n = 2 ∨ n = 3 := by omega
          rcases hn with rfl | rfl | rfl <;> simp [fieldJobs, gramJob, hh, FieldType.code, kindOf]
        · rw [if_neg hfn] at ht; simp at ht
      | _ => simp at ht
    · right
      exact job_mem nfkd hh h1 h3 lf _ ⟨x, hx, hne⟩

/-- The records of the entries with the value `v`. -/
theorem hits_records {es : List (RV × MemPtr)} {gs : List (Bytes × Bytes)} (h : es.map (fun e => (e.1.value, record data e.2)) = gs) (v : Bytes) :
    (hits es v).map (fun e => record data e.2) = (gs.filter (fun g => decide (g.1 = v))).map (·.2) := by
  subst h
  unfold hits
  induction es with
  | nil => rfl
  | cons e es ih =>
    rw [List.map_cons]
    by_cases hv : e.1.value = v
    · rw [List.filter_cons_of_pos (by simpa using hv), List.filter_cons_of_pos (by simpa using hv), List.map_cons, List.map_cons, ih]
    · rw [List.filter_cons_of_neg (by simpa using hv), List.filter_cons_of_neg (by simpa using hv), ih]

theorem ty_code {n : Nat} (h1 : 1 ≤ n) (h3 : n ≤ 3) : (UInt8.ofNat (11 - n)).toNat = 11 - n ∧ determineTypeByte (UInt8.ofNat (11 - n)) = UInt16.ofNat (n + 1) ∧
    UInt16.ofNat (n + 1) ≠ 0 := by
  have hn : n = 1 ∨ n = 2 ∨ n = 3 := by omega
  rcases hn with rfl | rfl | rfl <;> decide

/-- The indexes of a searched field. -/
theorem searchable_jsonl (h : SearchFile env hs data i s lf tail name db) (like : Bytes) {lo hi : Nat} (q1 : 1 ≤ lo) (q3 : hi ≤ 3) :
    lf.length < 2 ^ 30 ∧ ∃ (is : List (LP × IndexMeta)) (c : Nat → List (RV × MemPtr)) (ix : Nat → Nat) (p : Nat → LP) (m : Nat → IndexMeta),
      JIs data env.parse id s ⟨1, .jsonl, UInt64.ofNat (fileOf (lf.map (·.1)) []).length, UInt64.ofNat lf.length⟩ is c (linesJobs env.nfkd hs 0 lf) ∧
      Searchable env.parse id data s ⟨1, .jsonl, UInt64.ofNat (fileOf (lf.map (·.1)) []).length, UInt64.ofNat lf.length⟩ is c db name like lo hi ix p m ∧
      ∀ n, 1 ≤ n → n ≤ 3 → (m n).width = UInt16.ofNat (n + 1) ∧
        (c (ix n)).Perm (entriesOf (linesJobs env.nfkd hs 0 lf) name (UInt8.ofNat (11 - n))) ∧
        (entriesOf (linesJobs env.nfkd hs 0 lf) name (UInt8.ofNat (11 - n))).map (fun e => (e.1.value, record data e.2)) = gramsOf env.nfkd name n lf := by
  have hsz := h.size
  have hcount : lf.length ≤ data.length := by
    rw [h.lines.1]
    unfold fileOf
    rw [List.length_append]
    have : ∀ l : List (Bytes × List Field), l.length ≤ ((l.map (·.1)).flatMap (· ++ [10])).length := by
      intro l
      induction l with
      | nil => simp
      | cons a l ih =>
        rw [List.map_cons, List.flatMap_cons]
        simp only [List.length_append, List.length_cons]; omega
    have := this lf
    omega
  have hx : ∀ x ∈ lf, x.1.length ≤ data.length := by
    intro x hx
    have h1 : x.1 <:+: data := by
      rw [h.lines.1]
      unfold fileOf
      obtain ⟨a, b, hab⟩ := List.append_of_mem (List.mem_map.2 ⟨x, hx, rfl⟩ : x.1 ∈ lf.map (·.1))
      rw [hab]
      refine ⟨a.flatMap (· ++ [10]), [10] ++ (b.flatMap (· ++ [10]) ++ tail), ?_⟩
      simp
    exact h1.length_le
  obtain ⟨rfl, is, c, hj⟩ := syncRun_is h.run (by omega) h.lines (fun x hxm => ⟨(h.ok x hxm).1, by have := hx x hxm; omega, (h.ok x hxm).2.2⟩)
  have hex : ∀ n : Nat, ∃ y : Nat × LP × IndexMeta, 1 ≤ n → n ≤ 3 → is[y.1]? = some y.2 ∧
      y.2.2 = ⟨name, UInt8.ofNat (11 - n), determineTypeByte (UInt8.ofNat (11 - n)), totalOf (linesJobs env.nfkd hs 0 lf) name (UInt8.ofNat (11 - n))⟩ ∧
      (c y.1).Perm (entriesOf (linesJobs env.nfkd hs 0 lf) name (UInt8.ofNat (11 - n))) := by
    intro n
    by_cases hn : 1 ≤ n ∧ n ≤ 3
    · obtain ⟨k, p, hk, hp⟩ := hj.done.at (job_mem env.nfkd h.header hn.1 hn.2 lf 0 h.some_)
      exact ⟨(k, p, _), fun _ _ => ⟨hk, rfl, hp⟩⟩
    · exact ⟨(0, ⟨0, 0⟩, ⟨[], 0, 0, 0⟩), fun a b => absurd ⟨a, b⟩ hn⟩
  obtain ⟨y, hy⟩ := Classical.skolem.1 hex
  have hg : ∀ n, 1 ≤ n → n ≤ 3 → _ := fun n h1 h3 => file_grams (data := data) (tail := tail) env.nfkd h.header h1 h3 hsz lf [] h.lines.1
    (fun x hxm => ⟨(h.ok x hxm).2.1, fun f hf => by have := ((h.ok x hxm).2.2 f hf).inside; omega⟩) h.texts
  have hs' : Searchable env.parse id data s ⟨1, .jsonl, UInt64.ofNat (fileOf (lf.map (·.1)) []).length, UInt64.ofNat lf.length⟩ is c db name like lo hi
      (fun n => (y n).1) (fun n => (y n).2.1) (fun n => (y n).2.2) := by
    refine ⟨h.sees, fun n h1 h3 => ?_, fun n h1 h3 hne => ⟨rfl, ?_⟩⟩
    · obtain ⟨g1, g2, _⟩ := hy n h1 h3
      refine ⟨g1, by rw [g2], by rw [g2]; exact (ty_code h1 h3).1⟩
    · intro e he
      obtain ⟨_, g2, g3⟩ := hy n (by omega) (by omega)
      obtain ⟨e1, e2, e3, e4⟩ := (hg n (by omega) (by omega)).2 e (g3.mem_iff.1 he)
      refine ⟨⟨e1, fun hw0 => ?_⟩, e2, e3, e4⟩
      rw [g2] at hw0
      simp only at hw0
      rw [(ty_code (by omega) (by omega)).2.1] at hw0
      exact absurd hw0 (ty_code (by omega) (by omega)).2.2
  refine ⟨by omega, is, c, _, _, _, hj, hs', fun n h1 h3 => ?_⟩
  obtain ⟨_, g2, g3⟩ := hy n h1 h3
  refine ⟨by rw [g2]; exact (ty_code h1 h3).2.1, g3, ?_⟩
  have := (hg n h1 h3).1
  simpa only [List.length_nil] using this

/-- A search in a JSONL file. -/
theorem search_jsonl (h : SearchFile env hs data i s lf tail name db) {q : TsSearch} (hq : Asks q name like lo hi)
    (hfill : Filled env.nfkd name like lo hi lf) {lower : JsString → JsString} (hl : ∀ w : Bytes, Ascii w → lower (utf16 w) = utf16 (w.map lowered)) :
    ∃ found : Nat → Bytes → List (RV × MemPtr),
      (∀ n v, lo ≤ n → n ≤ hi → v ∈ ngrams n like →
        (found n v = [] ∨ ((found n v).map (fun e => record data e.2)).Perm (((gramsOf env.nfkd name n lf).filter (fun g => decide (g.1 = v))).map (·.2))) ∧
        (leafBytes (UInt16.ofNat (n + 1)) (entriesOf (linesJobs env.nfkd hs 0 lf) name (UInt8.ofNat (11 - n))) ≤ 4096 →
          ((found n v).map (fun e => record data e.2)).Perm (((gramsOf env.nfkd name n lf).filter (fun g => decide (g.1 = v))).map (·.2)))) ∧
      (∀ rand, ∃ (soup : List (Nat × Bytes)) (rows : List (Bytes × S)), soup.Perm (tokensOf like lo hi) ∧ Finds db A lower rand q ⟨rows, none⟩ ∧
        rows.Perm (searchRows A data lf.length (fun _ => 0) (soup.map (fun x => (x.1, found x.1 x.2)))) ∧
        ((∀ a b, A.le a b = true ∨ A.le b a = true) → (∀ a b c, A.le a b = true → A.le b c = true → A.le a c = true) →
          rows.Pairwise (fun x y => A.le y.2 x.2 = true))) ∧
      ∀ soup : List (Nat × Bytes), soup.Perm (tokensOf like lo hi) → ∃ (rand : Nat → Nat) (rows : List (Bytes × S)), Finds db A lower rand q ⟨rows, none⟩ ∧
        rows.Perm (searchRows A data lf.length (fun _ => 0) (soup.map (fun x => (x.1, found x.1 x.2)))) := by
  obtain ⟨hlen, is, c, ix, p, m, hj, hs', hc⟩ := searchable_jsonl h like hq.2.2.2.1 hq.2.2.2.2.2.1
  have hn : NoneEmpty c like lo hi ix := by
    obtain ⟨_, _, _, q1, q2, q3, _⟩ := hq
    intro n h1 h3 hne h0
    obtain ⟨_, g3, g4⟩ := hc n (by omega) (by omega)
    rw [h0] at g3
    rw [g3.symm.eq_nil] at g4
    exact hfill n h1 h3 hne g4.symm
  have hent : (UInt64.ofNat lf.length).toNat = lf.length := by rw [UInt64.toNat_ofNat']; omega
  obtain ⟨found, f1, f2, f3⟩ := search_rows (A := A) hj.idx hs' hn hq (by simp only; rw [hent]; omega) hl
  simp only [hent] at f2 f3
  obtain ⟨_, _, _, q1, q2, q3, _⟩ := hq
  refine ⟨found, fun n v h1 h3 hv => ?_, f2, f3⟩
  obtain ⟨g1, g2⟩ := f1 n v h1 h3 hv
  obtain ⟨k2, k3, k4⟩ := hc n (by omega) (by omega)
  have hr := hits_records k4 v
  have hperm : (hits (c (ix n)) v).Perm (hits (entriesOf (linesJobs env.nfkd hs 0 lf) name (UInt8.ofNat (11 - n))) v) := k3.filter _
  constructor
  · rcases g1 with g1 | g1
    · exact .inl g1
    · right
      rw [← hr]
      exact (g1.trans hperm).map _
  · intro h4
    rw [← hr]
    refine ((g2 (.inl ?_)).trans hperm).map _
    rw [leafBytes_perm k3, k2]
    exact h4

/-! ### C76: what is found -/

/-- The rows of a search, as records: the hits of the n-grams. -/
theorem rows_records {found : Nat → Bytes → List (RV × MemPtr)} {soup toks : List (Nat × Bytes)} {n : Int} {rows : List (Bytes × S)}
    (hp : soup.Perm toks) (hr : rows.Perm (searchRows A data n (fun _ => 0) (soup.map (fun x => (x.1, found x.1 x.2))))) :
    (rows.map (·.1)).Perm (toks.flatMap (fun x => (found x.1 x.2).map (fun e => record data e.2))) := by
  refine (hr.map _).trans ?_
  rw [searchRows_records, List.flatMap_map]
  exact hp.flatMap_right _

theorem gramsOf_mem {nfkd : Bytes → Bytes} {n : Nat} {v line : Bytes} : (v, line) ∈ gramsOf nfkd name n lf ↔
    ∃ x ∈ lf, x.1 = line ∧ ∃ t ∈ textsOf name x.2, v ∈ ngrams n (letters nfkd t) := by
  unfold gramsOf
  simp only [List.mem_flatMap, List.mem_map, Prod.mk.injEq]
  constructor
  · rintro ⟨x, hx, t, ht, w, hw, rfl, rfl⟩; exact ⟨x, hx, rfl, t, ht, hw⟩
  · rintro ⟨x, hx, rfl, t, ht, hw⟩; exact ⟨x, hx, t, ht, v, hw, rfl, rfl⟩

theorem tokensOf_mem {x : Nat × Bytes} : x ∈ tokensOf like lo hi ↔ lo ≤ x.1 ∧ x.1 ≤ hi ∧ x.2 ∈ ngrams x.1 like := by
  refine ⟨tokensOf_range, fun ⟨h1, h2, h3⟩ => ?_⟩
  unfold tokensOf
  exact List.mem_flatMap.2 ⟨x.1, by rw [List.mem_range'_1]; omega, List.mem_map.2 ⟨x.2, h3, rfl⟩⟩

/-- C77 (partial: indexes of one page): the search returns each line once for every n-gram of the phrase and every occurrence of that
n-gram in the searched field. -/
theorem C77_multiplicity_partial (h : SearchFile env hs data i s lf tail name db) {q : TsSearch} (hq : Asks q name like lo hi)
    (hfill : Filled env.nfkd name like lo hi lf) (hone : OnePage env.nfkd hs name like lo hi lf)
    {lower : JsString → JsString} (hl : ∀ w : Bytes, Ascii w → lower (utf16 w) = utf16 (w.map lowered)) (rand : Nat → Nat) :
    ∃ rows : List (Bytes × S), Finds db A lower rand q ⟨rows, none⟩ ∧
      (rows.map (·.1)).Perm ((tokensOf like lo hi).flatMap (fun g => ((gramsOf env.nfkd name g.1 lf).filter (fun o => decide (o.1 = g.2))).map (·.2))) := by
  obtain ⟨found, f1, f2, _⟩ := search_jsonl (A := A) h hq hfill hl
  obtain ⟨soup, rows, h1, h2, h3, _⟩ := f2 rand
  refine ⟨rows, h2, (rows_records h1 h3).trans (flatMap_perm fun x hx => ?_)⟩
  obtain ⟨g1, g2, g3⟩ := tokensOf_range hx
  exact (f1 x.1 x.2 g1 g2 g3).2 (hone x.1 g1 g2 (List.ne_nil_of_mem g3))

/-- C76 (partial: n-gram indexes of one page each, none of those used empty): the search returns exactly the lines whose field has an
n-gram in common with the phrase. -/
theorem C76_found_partial (h : SearchFile env hs data i s lf tail name db) {q : TsSearch} (hq : Asks q name like lo hi)
    (hfill : Filled env.nfkd name like lo hi lf) (hone : OnePage env.nfkd hs name like lo hi lf)
    {lower : JsString → JsString} (hl : ∀ w : Bytes, Ascii w → lower (utf16 w) = utf16 (w.map lowered)) (rand : Nat → Nat) :
    ∃ rows : List (Bytes × S), Finds db A lower rand q ⟨rows, none⟩ ∧
      ∀ line, line ∈ rows.map (·.1) ↔ ∃ x ∈ lf, x.1 = line ∧ LineMatches env.nfkd name like lo hi x.2 := by
  obtain ⟨rows, h1, h2⟩ := C77_multiplicity_partial (A := A) h hq hfill hone hl rand
  refine ⟨rows, h1, fun line => ?_⟩
  rw [h2.mem_iff]
  simp only [List.mem_flatMap, List.mem_map, List.mem_filter, decide_eq_true_eq]
  constructor
  · rintro ⟨g, hg, o, ⟨ho, hv⟩, rfl⟩
    obtain ⟨g1, g2, g3⟩ := tokensOf_range hg
    obtain ⟨x, hx, hx1, t, ht, hw⟩ := gramsOf_mem.1 (show (o.1, o.2) ∈ _ from ho)
    exact ⟨x, hx, hx1, t, ht, g.1, g.2, g1, g2, g3, hv ▸ hw⟩
  · rintro ⟨x, hx, rfl, t, ht, n, v, g1, g2, g3, hw⟩
    exact ⟨(n, v), tokensOf_mem.2 ⟨g1, g2, g3⟩, (v, x.1), ⟨gramsOf_mem.2 ⟨x, hx, rfl, t, ht, hw⟩, rfl⟩, rfl⟩

/-- C76 (partial: only that nothing wrong is returned; indexes of any size): every line that the search returns has an n-gram in common
with the phrase. -/
theorem C76_sound_partial (h : SearchFile env hs data i s lf tail name db) {q : TsSearch} (hq : Asks q name like lo hi)
    (hfill : Filled env.nfkd name like lo hi lf)
    {lower : JsString → JsString} (hl : ∀ w : Bytes, Ascii w → lower (utf16 w) = utf16 (w.map lowered)) (rand : Nat → Nat) :
    ∃ rows : List (Bytes × S), Finds db A lower rand q ⟨rows, none⟩ ∧
      ∀ line ∈ rows.map (·.1), ∃ x ∈ lf, x.1 = line ∧ LineMatches env.nfkd name like lo hi x.2 := by
  obtain ⟨found, f1, f2, _⟩ := search_jsonl (A := A) h hq hfill hl
  obtain ⟨soup, rows, h1, h2, h3, _⟩ := f2 rand
  refine ⟨rows, h2, fun line hline => ?_⟩
  rw [(rows_records h1 h3).mem_iff, List.mem_flatMap] at hline
  obtain ⟨g, hg, hline⟩ := hline
  obtain ⟨g1, g2, g3⟩ := tokensOf_range hg
  rcases (f1 g.1 g.2 g1 g2 g3).1 with h4 | h4
  · rw [h4] at hline; simp at hline
  · rw [h4.mem_iff, List.mem_map] at hline
    obtain ⟨o, ho, rfl⟩ := hline
    rw [List.mem_filter, decide_eq_true_eq] at ho
    obtain ⟨x, hx, hx1, t, ht, hw⟩ := gramsOf_mem.1 (show (o.1, o.2) ∈ _ from ho.1)
    exact ⟨x, hx, hx1, t, ht, g.1, g.2, g1, g2, g3, ho.2 ▸ hw⟩

/-- C76 is violated: if the phrase has n-grams of a length of which no text of the field has any (for example two characters, when all words
are one character long), the search throws, whatever else is found.  (The four bytes are zero unless pages of the index file
were freed.) -/
theorem C76_empty_violated (h : SearchFile env hs data i s lf tail name db) {q : TsSearch} (hq : Asks q name like lo hi)
    {n : Nat} (h1 : lo ≤ n) (h2 : n ≤ hi) (hne : ngrams n like ≠ []) (hno : gramsOf env.nfkd name n lf = []) (h0 : s.file.bytes.take 4 = [0, 0, 0, 0])
    {lower : JsString → JsString} (hl : ∀ w : Bytes, Ascii w → lower (utf16 w) = utf16 (w.map lowered)) (rand : Nat → Nat) :
    Finds db A lower rand q ⟨[], some (.msg "empty node")⟩ := by
  obtain ⟨_, is, c, ix, p, m, hj, hs', hc⟩ := searchable_jsonl h like hq.2.2.2.1 hq.2.2.2.2.2.1
  refine search_empty hj.idx hs' h1 h2 hne ?_ h0 hq hl rand
  obtain ⟨_, _, _, q1, q2, q3, _⟩ := hq
  obtain ⟨_, g3, g4⟩ := hc n (by omega) (by omega)
  rw [hno, List.map_eq_nil_iff] at g4
  rw [g4] at g3
  exact g3.eq_nil

/-- C77 is violated: a line with two occurrences of an n-gram of the phrase is returned more than once. -/
theorem C77_violated (h : SearchFile env hs data i s lf tail name db) {q : TsSearch} (hq : Asks q name like lo hi)
    (hfill : Filled env.nfkd name like lo hi lf) (hone : OnePage env.nfkd hs name like lo hi lf)
    {lower : JsString → JsString} (hl : ∀ w : Bytes, Ascii w → lower (utf16 w) = utf16 (w.map lowered)) (rand : Nat → Nat)
    {x : Bytes × List Field} (hx : x ∈ lf) {t : Bytes} (ht : t ∈ textsOf name x.2) {n : Nat} {v : Bytes} (h1 : lo ≤ n) (h2 : n ≤ hi)
    (hv : v ∈ ngrams n like) (hc : 2 ≤ (ngrams n (letters env.nfkd t)).count v) :
    ∃ rows : List (Bytes × S), Finds db A lower rand q ⟨rows, none⟩ ∧ 2 ≤ (rows.map (·.1)).count x.1 := by
  obtain ⟨rows, h3, h4⟩ := C77_multiplicity_partial (A := A) h hq hfill hone hl rand
  refine ⟨rows, h3, ?_⟩
  rw [h4.count_eq]
  obtain ⟨a, b, hab⟩ := List.append_of_mem (tokensOf_mem.2 ⟨h1, h2, hv⟩ : (n, v) ∈ tokensOf like lo hi)
  rw [hab, List.flatMap_append, List.flatMap_cons, List.count_append, List.count_append]
  have key : 2 ≤ (((gramsOf env.nfkd name n lf).filter (fun o => decide (o.1 = v))).map (·.2)).count x.1 := by
    obtain ⟨c, d, hcd⟩ := List.append_of_mem hx
    obtain ⟨e, f, hef⟩ := List.append_of_mem ht
    unfold gramsOf
    rw [hcd, List.flatMap_append, List.flatMap_cons, hef, List.flatMap_append, List.flatMap_cons]
    simp only [List.filter_append, List.map_append, List.count_append]
    have : ((((ngrams n (letters env.nfkd t)).map (fun w => (w, x.1))).filter (fun o => decide (o.1 = v))).map (·.2)).count x.1 =
        (ngrams n (letters env.nfkd t)).count v := by
      generalize ngrams n (letters env.nfkd t) = G
      induction G with
      | nil => rfl
      | cons w G ih =>
        rw [List.map_cons, List.count_cons]
        by_cases hw : w = v
        · rw [List.filter_cons_of_pos (by simpa using hw), List.map_cons, List.count_cons, ih]; simp [hw]
        · rw [List.filter_cons_of_neg (by simpa using hw), ih]; simp [hw]
    omega
  simp only at key ⊢
  omega

/-! ### C78, C79: scores -/

/-- C78 (partial: scores that can be compared): the rows are returned in the order of their scores, the best first. -/
theorem C78_sorted_partial (h : SearchFile env hs data i s lf tail name db) {q : TsSearch} (hq : Asks q name like lo hi)
    (hfill : Filled env.nfkd name like lo hi lf)
    {lower : JsString → JsString} (hl : ∀ w : Bytes, Ascii w → lower (utf16 w) = utf16 (w.map lowered)) (rand : Nat → Nat)
    (ht : ∀ a b, A.le a b = true ∨ A.le b a = true) (htr : ∀ a b c, A.le a b = true → A.le b c = true → A.le a c = true) :
    ∃ rows : List (Bytes × S), Finds db A lower rand q ⟨rows, none⟩ ∧ rows.Pairwise (fun x y => A.le y.2 x.2 = true) := by
  obtain ⟨found, f1, f2, _⟩ := search_jsonl (A := A) h hq hfill hl
  obtain ⟨soup, rows, h1, h2, h3, h4⟩ := f2 rand
  exact ⟨rows, h2, h4 ht htr⟩

/-- C78 is violated: with a phrase of two n-grams of the same length, the rows of the one that happens to be looked up first get a
higher score, whichever it is. -/
theorem C78_order_violated (h : SearchFile env hs data i s lf tail name db) {q : TsSearch} {n : Nat} {a b : Bytes} (hq : Asks q name like n n)
    (hfill : Filled env.nfkd name like n n lf) (hone : OnePage env.nfkd hs name like n n lf)
    {lower : JsString → JsString} (hl : ∀ w : Bytes, Ascii w → lower (utf16 w) = utf16 (w.map lowered))
    (hab : ngrams n like = [a, b]) {la lb : List Bytes} (ha : la = ((gramsOf env.nfkd name n lf).filter (fun o => decide (o.1 = a))).map (·.2))
    (hb : lb = ((gramsOf env.nfkd name n lf).filter (fun o => decide (o.1 = b))).map (·.2)) :
    let w : Nat → S := fun k => weight A lf.length k
    let both : S := A.add A.zero (w (la.length + lb.length))
    (∃ (rand : Nat → Nat) (rows : List (Bytes × S)), Finds db A lower rand q ⟨rows, none⟩ ∧
      rows.Perm (la.map (fun x => (x, A.add (A.add A.zero (w la.length)) (w (la.length + lb.length)))) ++ lb.map (fun x => (x, both)))) ∧
    (∃ (rand : Nat → Nat) (rows : List (Bytes × S)), Finds db A lower rand q ⟨rows, none⟩ ∧
      rows.Perm (lb.map (fun x => (x, A.add (A.add A.zero (w lb.length)) (w (la.length + lb.length)))) ++ la.map (fun x => (x, both)))) := by
  obtain ⟨found, f1, _, f3⟩ := search_jsonl (A := A) h hq hfill hl
  have htok : tokensOf like n n = [(n, a), (n, b)] := by
    unfold tokensOf
    rw [show n + 1 - n = 1 by omega]
    simp [hab]
  have hne : ngrams n like ≠ [] := by rw [hab]; simp
  have pa := (f1 n a (Nat.le_refl _) (Nat.le_refl _) (by rw [hab]; simp)).2 (hone n (Nat.le_refl _) (Nat.le_refl _) hne)
  have pb := (f1 n b (Nat.le_refl _) (Nat.le_refl _) (by rw [hab]; simp)).2 (hone n (Nat.le_refl _) (Nat.le_refl _) hne)
  rw [← ha] at pa
  rw [← hb] at pb
  have ca := pa.length_eq
  have cb := pb.length_eq
  rw [List.length_map] at ca cb
  have conv : ∀ (es : List (RV × MemPtr)) (l : List Bytes) (sc : S), (es.map (fun e => record data e.2)).Perm l →
      (es.map (fun e => (record data e.2, sc))).Perm (l.map (fun x => (x, sc))) := by
    intro es l sc hp
    have := hp.map (fun x => (x, sc))
    rw [List.map_map] at this
    exact this
  refine ⟨?_, ?_⟩
  · obtain ⟨rand, rows, r1, r2⟩ := f3 [(n, a), (n, b)] (by rw [htok])
    refine ⟨rand, rows, r1, r2.trans ?_⟩
    simp only [List.map_cons, List.map_nil, searchRows, runningScore, if_true, Nat.zero_add, List.append_nil, ca, cb]
    exact (conv _ _ _ pa).append (conv _ _ _ pb)
  · obtain ⟨rand, rows, r1, r2⟩ := f3 [(n, b), (n, a)] (by rw [htok]; exact List.Perm.swap _ _ _)
    refine ⟨rand, rows, r1, r2.trans ?_⟩
    simp only [List.map_cons, List.map_nil, searchRows, runningScore, if_true, Nat.zero_add, List.append_nil, ca, cb]
    rw [Nat.add_comm lb.length la.length]
    exact (conv _ _ _ pb).append (conv _ _ _ pa)

theorem idf_pos {n k : Nat} (h : k ≤ n) : 0 < ((((n : Int) : Rat) - ((k : Int) : Rat)) + 1 / 2) / (((k : Int) : Rat) + 1 / 2) := by
  have h1 : (0 : Rat) ≤ ((k : Int) : Rat) := by exact_mod_cast Int.natCast_nonneg k
  have h2 : ((k : Int) : Rat) ≤ ((n : Int) : Rat) := by exact_mod_cast h
  have h3 : (0 : Rat) < ((k : Int) : Rat) + 1 / 2 := by grind
  have h4 : (0 : Rat) < (((n : Int) : Rat) - ((k : Int) : Rat)) + 1 / 2 := by grind
  rw [Rat.div_def]
  exact Rat.mul_pos h4 (Rat.inv_pos.2 h3)

theorem idf_neg {n k : Nat} (h : n < k) : ¬ 0 < ((((n : Int) : Rat) - ((k : Int) : Rat)) + 1 / 2) / (((k : Int) : Rat) + 1 / 2) := by
  have h1 : (0 : Rat) ≤ ((k : Int) : Rat) := by exact_mod_cast Int.natCast_nonneg k
  have h2 : ((n : Int) : Rat) + 1 ≤ ((k : Int) : Rat) := by exact_mod_cast h
  have h3 : (0 : Rat) < ((k : Int) : Rat) + 1 / 2 := by grind
  intro h5
  have h6 := Rat.mul_pos h5 h3
  rw [Rat.div_mul_cancel (by grind)] at h6
  grind

variable {log : Rat → Rat}

theorem weight_some {n k : Nat} (h : k ≤ n) : ∃ w, weight (nanArith log) n k = some w := by
  unfold weight
  simp only [nanArith, both]
  rw [if_pos (idf_pos h)]
  exact ⟨_, rfl⟩

theorem weight_none {n k : Nat} (h : n < k) : weight (nanArith log) n k = none := by
  unfold weight
  simp only [nanArith, both]
  rw [if_neg (idf_neg h)]

theorem nan_add (a : Option Rat) : (nanArith log).add none a = none ∧ (nanArith log).add a none = none := by
  cases a <;> exact ⟨rfl, rfl⟩

theorem running_none (n : Int) (l : Nat) : ∀ (xs : List (Nat × Nat)) (before : Nat), runningScore (nanArith log) n l before xs none = none
  | [], _ => rfl
  | (l', h) :: xs, before => by
    unfold runningScore
    split
    · rw [(nan_add _).1]; exact running_none n l xs _
    · exact running_none n l xs _

theorem running_some (n l : Nat) : ∀ (xs : List (Nat × Nat)) (before : Nat) (a : Rat),
    before + ((xs.filter (fun x => decide (x.1 = l))).map (·.2)).sum ≤ n → ∃ w, runningScore (nanArith log) n l before xs (some a) = some w
  | [], _, a, _ => ⟨a, rfl⟩
  | (l', h) :: xs, before, a, hn => by
    unfold runningScore
    by_cases hl : l' = l
    · rw [List.filter_cons_of_pos (by simpa using hl), List.map_cons, List.sum_cons] at hn
      rw [if_pos hl]
      obtain ⟨w, hw⟩ := weight_some (log := log) (n := n) (k := before + h) (by simp only at hn; omega)
      rw [hw]
      exact running_some n l xs _ _ (by simp only at hn; omega)
    · rw [List.filter_cons_of_neg (by simpa using hl)] at hn
      rw [if_neg hl]
      exact running_some n l xs _ _ hn

theorem scores_some (n : Nat) : ∀ (toks : List (Nat × List (RV × MemPtr))) (before : Nat → Nat),
    (∀ l, before l + ((toks.filter (fun x => decide (x.1 = l))).map (fun x => x.2.length)).sum ≤ n) →
    ∀ row ∈ searchRows (nanArith log) data n before toks, ∃ w, row.2 = some w
  | [], _, _, row, h => by simp [searchRows] at h
  | (l, es) :: toks, before, hn, row, h => by
    rw [searchRows, List.mem_append] at h
    rcases h with h | h
    · obtain ⟨e, _, rfl⟩ := List.mem_map.1 h
      refine running_some n l _ _ _ ?_
      have := hn l
      rw [List.filter_cons_of_pos (by simp), List.map_cons, List.sum_cons] at this ⊢
      rw [List.filter_map, List.map_map]
      exact this
    · refine scores_some n toks _ (fun l' => ?_) row h
      have := hn l'
      by_cases hl : l' = l
      · rw [List.filter_cons_of_pos (by simpa using hl.symm), List.map_cons, List.sum_cons] at this
        rw [if_pos hl, ← hl]
        simp only at this; omega
      · have hl' : ¬ l = l' := fun h => hl h.symm
        rw [List.filter_cons_of_neg (by simpa using hl')] at this
        rw [if_neg hl]
        exact this

theorem running_over (n l : Nat) : ∀ (xs : List (Nat × Nat)) (before : Nat) (a : Option Rat), (∃ x ∈ xs, x.1 = l) →
    n < before + ((xs.filter (fun x => decide (x.1 = l))).map (·.2)).sum → runningScore (nanArith log) n l before xs a = none
  | [], _, _, hx, _ => by simp at hx
  | (l', h) :: xs, before, a, hx, hn => by
    unfold runningScore
    by_cases hl : l' = l
    · rw [List.filter_cons_of_pos (by simpa using hl), List.map_cons, List.sum_cons] at hn
      rw [if_pos hl]
      by_cases hm : ∃ x ∈ xs, x.1 = l
      · exact running_over n l xs _ _ hm (by simp only at hn; omega)
      · have : xs.filter (fun x => decide (x.1 = l)) = [] := by
          rw [List.filter_eq_nil_iff]
          intro x hx' hxl
          exact hm ⟨x, hx', by simpa using hxl⟩
        rw [this] at hn
        rw [weight_none (by simp at hn; omega), (nan_add _).2, running_none]
    · rw [List.filter_cons_of_neg (by simpa using hl)] at hn
      rw [if_neg hl]
      refine running_over n l xs _ _ ?_ hn
      obtain ⟨x, hx, hxl⟩ := hx
      rcases List.mem_cons.1 hx with rfl | hx
      · exact absurd hxl hl
      · exact ⟨x, hx, hxl⟩

theorem scores_none (n : Nat) {l : Nat} {es : List (RV × MemPtr)} {e : RV × MemPtr} (he : e ∈ es) :
    ∀ (toks : List (Nat × List (RV × MemPtr))) (before : Nat → Nat), (l, es) ∈ toks →
    n < before l + ((toks.filter (fun x => decide (x.1 = l))).map (fun x => x.2.length)).sum →
    (record data e.2, none) ∈ searchRows (nanArith log) data n before toks
  | [], _, h, _ => by simp at h
  | (l', es') :: toks, before, h, hn => by
    rw [searchRows, List.mem_append]
    rcases List.mem_cons.1 h with h | h
    · cases h
      left
      refine List.mem_map.2 ⟨e, he, ?_⟩
      rw [running_over]
      · exact ⟨_, List.mem_cons_self, rfl⟩
      · rw [List.filter_cons_of_pos (by simp), List.map_cons, List.sum_cons] at hn ⊢
        rw [List.filter_map, List.map_map]
        exact hn
    · refine .inr (scores_none n he toks _ h ?_)
      by_cases hl : l' = l
      · subst hl
        rw [List.filter_cons_of_pos (by simp), List.map_cons, List.sum_cons] at hn
        rw [if_pos rfl]
        simp only at hn; omega
      · rw [List.filter_cons_of_neg (by simpa using hl)] at hn
        rw [if_neg (fun h => hl h.symm)]
        exact hn

theorem tokensOf_length {l : Nat} (h1 : lo ≤ l) (h2 : l ≤ hi) :
    (tokensOf like lo hi).filter (fun x => decide (x.1 = l)) = (ngrams l like).map (fun w => (l, w)) := by
  unfold tokensOf
  have gen : ∀ (k a : Nat), a ≤ l → l < a + k → ((List.range' a k).flatMap (fun n => (ngrams n like).map (fun w => (n, w)))).filter (fun x => decide (x.1 = l)) =
      (ngrams l like).map (fun w => (l, w)) := by
    have none_ : ∀ (k a : Nat), l < a → ((List.range' a k).flatMap (fun n => (ngrams n like).map (fun w => (n, w)))).filter (fun x => decide (x.1 = l)) = [] := by
      intro k a hla
      rw [List.filter_eq_nil_iff]
      intro x hx
      obtain ⟨m, hm, hx⟩ := List.mem_flatMap.1 hx
      obtain ⟨w, _, rfl⟩ := List.mem_map.1 hx
      rw [List.mem_range'_1] at hm
      simp; omega
    intro k
    induction k with
    | zero => intro a h1 h2; omega
    | succ k ih =>
      intro a h1 h2
      rw [List.range'_succ, List.flatMap_cons, List.filter_append]
      by_cases ha : a = l
      · subst ha
        rw [none_ k (a + 1) (by omega), List.append_nil, List.filter_eq_self]
        intro x hx
        obtain ⟨w, _, rfl⟩ := List.mem_map.1 hx
        simp
      · rw [ih (a + 1) (by omega) (by omega), List.filter_eq_nil_iff.2, List.nil_append]
        intro x hx
        obtain ⟨w, _, rfl⟩ := List.mem_map.1 hx
        simpa using ha
  exact gen _ _ h1 (by omega)

/-- C79 (partial: no more hits than lines): if for every length the n-grams of the phrase of that length have no more hits together than
the file has lines, all scores are numbers. -/
theorem C79_number_partial (h : SearchFile env hs data i s lf tail name db) {q : TsSearch} (hq : Asks q name like lo hi)
    (hfill : Filled env.nfkd name like lo hi lf) {lower : JsString → JsString} (hl : ∀ w : Bytes, Ascii w → lower (utf16 w) = utf16 (w.map lowered))
    (rand : Nat → Nat) (hfew : ∀ n, lo ≤ n → n ≤ hi → hitCount env.nfkd name like n lf ≤ lf.length) :
    ∃ rows : List (Bytes × Option Rat), Finds db (nanArith log) lower rand q ⟨rows, none⟩ ∧ ∀ row ∈ rows, ∃ x, row.2 = some x := by
  obtain ⟨found, f1, f2, _⟩ := search_jsonl (A := nanArith log) h hq hfill hl
  obtain ⟨soup, rows, h1, h2, h3, _⟩ := f2 rand
  refine ⟨rows, h2, fun row hrow => scores_some lf.length _ (fun _ => 0) (fun l => ?_) row (h3.mem_iff.1 hrow)⟩
  rw [Nat.zero_add, List.filter_map, List.map_map]
  have hp : (soup.filter ((fun x : Nat × List (RV × MemPtr) => decide (x.1 = l)) ∘ fun x : Nat × Bytes => (x.1, found x.1 x.2))).Perm
      ((tokensOf like lo hi).filter (fun x => decide (x.1 = l))) := h1.filter _
  rw [(hp.map _).sum_nat]
  by_cases hr : lo ≤ l ∧ l ≤ hi
  · have hf := hfew l hr.1 hr.2
    rw [tokensOf_length hr.1 hr.2, List.map_map]
    refine Nat.le_trans ?_ hf
    unfold hitCount
    have hle : ∀ v ∈ ngrams l like, (found l v).length ≤ ((gramsOf env.nfkd name l lf).filter (fun o => decide (o.1 = v))).length := by
      intro v hv
      rcases (f1 l v hr.1 hr.2 hv).1 with h5 | h5
      · rw [h5]; simp
      · have := h5.length_eq
        rw [List.length_map, List.length_map] at this
        omega
    generalize ngrams l like = G at hle
    induction G with
    | nil => simp
    | cons v G ih =>
      rw [List.map_cons, List.map_cons, List.sum_cons, List.sum_cons]
      have h6 := hle v (by simp)
      have h7 := ih (fun x hx => hle x (by simp [hx]))
      simp only [Function.comp] at h6 h7 ⊢
      omega
  · rw [List.filter_eq_nil_iff.2]
    · simp
    · intro x hx
      obtain ⟨g1, g2, _⟩ := tokensOf_range hx
      simp only [decide_eq_true_eq]
      intro hxl
      exact hr (by omega)

/-- C79 is violated: if the n-grams of the phrase of one length have more occurrences in the field than the file has lines, all rows found
for them have `NaN` for a score, whatever the order of the look-ups. -/
theorem C79_violated (h : SearchFile env hs data i s lf tail name db) {q : TsSearch} (hq : Asks q name like lo hi)
    (hfill : Filled env.nfkd name like lo hi lf) (hone : OnePage env.nfkd hs name like lo hi lf)
    {lower : JsString → JsString} (hl : ∀ w : Bytes, Ascii w → lower (utf16 w) = utf16 (w.map lowered))
    {n : Nat} (h1 : lo ≤ n) (h2 : n ≤ hi) (hmany : lf.length < hitCount env.nfkd name like n lf) (rand : Nat → Nat) :
    ∃ rows : List (Bytes × Option Rat), Finds db (nanArith log) lower rand q ⟨rows, none⟩ ∧
      ∀ v ∈ ngrams n like, ∀ line, (v, line) ∈ gramsOf env.nfkd name n lf → (line, none) ∈ rows := by
  obtain ⟨found, f1, f2, _⟩ := search_jsonl (A := nanArith log) h hq hfill hl
  obtain ⟨soup, rows, g1, g2, g3, _⟩ := f2 rand
  have hlen : ∀ v ∈ ngrams n like, (found n v).length = ((gramsOf env.nfkd name n lf).filter (fun o => decide (o.1 = v))).length := by
    intro v hv
    have hp := (f1 n v h1 h2 hv).2 (hone n h1 h2 (List.ne_nil_of_mem hv))
    have hlen := hp.length_eq
    rwa [List.length_map, List.length_map] at hlen
  refine ⟨rows, g2, fun v hv line hline => g3.mem_iff.2 ?_⟩
  have hm : line ∈ (found n v).map (fun e => record data e.2) := by
    rw [((f1 n v h1 h2 hv).2 (hone n h1 h2 (List.ne_nil_of_mem hv))).mem_iff]
    exact List.mem_map.2 ⟨(v, line), List.mem_filter.2 ⟨hline, by simp⟩, rfl⟩
  obtain ⟨e, he, rfl⟩ := List.mem_map.1 hm
  refine scores_none lf.length (l := n) he _ _
    (List.mem_map.2 ⟨(n, v), g1.mem_iff.2 (tokensOf_mem.2 ⟨h1, h2, hv⟩), rfl⟩) ?_
  rw [Nat.zero_add, List.filter_map, List.map_map]
  have hp : (soup.filter ((fun x : Nat × List (RV × MemPtr) => decide (x.1 = n)) ∘ fun x : Nat × Bytes => (x.1, found x.1 x.2))).Perm
      ((tokensOf like lo hi).filter (fun x => decide (x.1 = n))) := g1.filter _
  rw [(hp.map _).sum_nat, tokensOf_length h1 h2, List.map_map]
  refine Nat.lt_of_lt_of_eq hmany ?_
  unfold hitCount
  rw [List.map_congr_left (fun v hv => (hlen v hv).symm)]
  rfl

end Appendable
