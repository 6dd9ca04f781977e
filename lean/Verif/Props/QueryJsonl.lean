import Verif.Lemmas.TsServed
import Verif.Lemmas.JsonRec
import Verif.Props.SearchJsonl
import Verif.Props.Accepts
/-! C82: querying a JSONL file. -/
namespace Appendable
open Spec Tree

variable {num : Bytes → Option UInt64} {nfkd : Bytes → Bytes} {hs : List Bytes} {data tail name : Bytes}

theorem perm_map {α β : Type} (f : α → β) {xs ys : List β} (h : xs.Perm ys) : ∀ M : List α, ys = M.map f → ∃ M' : List α, M'.Perm M ∧ xs = M'.map f := by
  induction h with
  | nil => intro M hM; exact ⟨[], by cases M <;> simp_all, rfl⟩
  | cons x _ ih =>
    intro M hM
    cases M with
    | nil => simp at hM
    | cons a M =>
      simp only [List.map_cons, List.cons.injEq] at hM
      obtain ⟨M', h1, h2⟩ := ih M hM.2
      exact ⟨a :: M', h1.cons a, by rw [List.map_cons, h2, hM.1]⟩
  | swap x y l =>
    intro M hM
    match M, hM with
    | a :: b :: M, hM =>
      simp only [List.map_cons, List.cons.injEq] at hM
      exact ⟨b :: a :: M, .swap .., by simp [hM]⟩
  | trans _ _ ih1 ih2 =>
    intro M hM
    obtain ⟨M2, h1, h2⟩ := ih2 M hM
    obtain ⟨M1, h3, h4⟩ := ih1 M2 h2
    exact ⟨M1, h3.trans h1, h4⟩

theorem gather_rows {β : Type} (select : Bytes → Res β) : ∀ xs : List (RV × MemPtr),
    rowsOf data select xs = rowsFor select (xs.map (fun e => record data e.2))
  | [] => rfl
  | e :: xs => by
    have := gather_rows select xs
    unfold rowsOf at this
    unfold rowsOf gather
    rw [List.map_cons, rowsFor, this]
    rfl

/-! ### Values -/

theorem kind_scalar {a w : Tok} (hw : isScalar w) (h : kindOf a = kindOf w) : isScalar a := by
  cases a <;> cases w <;> simp_all [isScalar, kindOf]

theorem kindOf_code {a w : Tok} (hw : isScalar w) : (kindOf a).code = (kindOf w).code ↔ kindOf a = kindOf w := by
  constructor
  · intro h
    cases a <;> cases w <;> first | rfl | (simp [kindOf, FieldType.code] at h; done) | (simp [isScalar] at hw; done)
  · intro h; rw [h]

theorem num_bytes (bits : UInt64) : valueBytes (.num bits) = beBytes 8 bits.toNat := valueBytes_eq _

theorem byte_ne {a b : Nat} (ha : a < 256) (hb : b < 256) (h : UInt8.ofNat a = UInt8.ofNat b) : a = b := by
  have := congrArg UInt8.toNat h
  rwa [u8 ha, u8 hb] at this

theorem beBytes_inj {a b : UInt64} (h : valueBytes (.num a) = valueBytes (.num b)) : a = b := by
  rw [← UInt64.toNat_inj]
  have ha := a.toNat_lt
  have hb := b.toNat_lt
  simp only [valueBytes, List.cons.injEq, and_true, ← UInt8.toNat_inj, UInt8.toNat_ofNat'] at h
  omega

/-- Two values of the same kind with the same bytes are the same. -/
theorem value_inj {a w : Tok} (hw : isScalar w) (hk : kindOf a = kindOf w) : valueBytes a = valueBytes w ↔ a = w := by
  refine ⟨fun h => ?_, fun h => by rw [h]⟩
  cases a <;> cases w <;> first
    | (simp [kindOf] at hk; done)
    | (simp [isScalar] at hw; done)
    | rfl
    | (simp only [valueBytes] at h; rw [h]; done)
    | (rw [beBytes_inj h]; done)
    | skip
  · rename_i a b
    cases a <;> cases b <;> first | rfl | (simp [valueBytes] at h; done)

theorem meets_iff {a w : Tok} (hw : isScalar w) (hk : kindOf a = kindOf w) (op : TsOp) : Meets op a w ↔ Matches op (valueBytes a) (valueBytes w) := by
  cases op <;> simp only [Meets, Matches, Before, value_inj hw hk]

theorem process_tok {value : JsVal} {w : Tok} (h : tokOf value = some w) :
    isScalar w ∧ tsProcessWhere value = some ((kindOf w).code.toNat, valueBytes w) := by
  cases value <;> simp only [tokOf, Option.some.injEq, reduceCtorEq] at h <;> subst h
  · exact ⟨trivial, rfl⟩
  · rename_i bits; exact ⟨trivial, by rw [num_bytes]; rfl⟩
  · rename_i b; cases b <;> exact ⟨trivial, rfl⟩
  · exact ⟨trivial, rfl⟩

/-! ### What is in the index -/

theorem code_small (w : Tok) : (kindOf w).code.toNat < 8 := by cases w <;> simp [kindOf, FieldType.code]

theorem field_values {w : Tok} (hw : isScalar w) (off : Nat) (line : MemPtr) (f : Field) :
    entriesOf (fieldJobs nfkd hs off line f) name (kindOf w).code =
      if f.name = name ∧ kindOf f.tok = kindOf w then [(⟨valuePtr off f, valueBytes f.tok⟩, line)] else [] := by
  have hg : ∀ l : List Job, (∀ j ∈ l, 8 ≤ j.ty.toNat) → entriesOf l name (kindOf w).code = [] := by
    intro l hl
    apply entriesOf_none
    intro hm
    obtain ⟨j, hj, he⟩ := List.mem_map.1 hm
    simp only [Prod.mk.injEq] at he
    have h1 := hl j hj
    rw [he.2] at h1
    have := code_small w
    omega
  unfold fieldJobs
  rw [show ∀ (j : Job) (l : List Job), j :: l = [j] ++ l from fun _ _ => rfl, entriesOf_append]
  refine (congrArg (_ ++ ·) (hg _ ?_)).trans ?_
  · intro j hj
    split at hj
    · split at hj
      · simp only [List.mem_cons, List.not_mem_nil, or_false] at hj
        rcases hj with rfl | rfl | rfl <;> simp [gramJob, FieldType.code]
      · simp at hj
    · simp at hj
  · simp only [entriesOf, List.flatMap_cons, List.flatMap_nil, List.append_nil, kindOf_code hw]
    by_cases h : f.name = name ∧ kindOf f.tok = kindOf w
    · rw [if_pos h, if_pos h, if_pos (kind_scalar hw h.2)]
    · rw [if_neg h, if_neg h]

/-- An entry of the index for a value in a line. -/
structure Entered (data : Bytes) (w : Tok) (t : Tok × Bytes × (RV × MemPtr)) : Prop where
  kind : kindOf t.1 = kindOf w
  value : t.2.2.1.value = valueBytes t.1
  line : record data t.2.2.2 = t.2.1
  dp : SmallPtr t.2.2.1.dp
  str : ∀ b, t.1 = .str b → ∃ ws l, Ws ws ∧ Lit.WF l ∧ b = Lit.value l ∧
    slice data t.2.2.1.dp.offset.toNat t.2.2.1.dp.length.toNat = ws ++ l.text ∧ 2 ≤ t.2.2.1.dp.length.toNat
  ptr : SmallPtr t.2.2.2 ∧ 2 ≤ t.2.2.2.length.toNat ∧ t.2.2.2.offset.toNat < data.length

theorem Lit.text_two (l : Lit) : 2 ≤ l.text.length := by simp [Lit.text]

theorem file_values {w : Tok} (hw : isScalar w) (hd : data.length < 2 ^ 30) : ∀ (recs : List Rec) (pre : Bytes),
    data = pre ++ fileOf (recs.map Rec.text) tail → (∀ r ∈ recs, r.OK num hs) →
    ∃ L : List (Tok × Bytes × (RV × MemPtr)),
      entriesOf (linesJobs nfkd hs pre.length (recs.map (fun r => (r.text, r.fields num)))) name (kindOf w).code = L.map (fun t => t.2.2) ∧
      valuesOf num name w recs = L.map (fun t => (t.1, t.2.1)) ∧ ∀ t ∈ L, Entered data w t := by
  intro recs
  induction recs with
  | nil => intro pre _ _; exact ⟨[], rfl, rfl, by simp⟩
  | cons r recs ih =>
    intro pre hdata hok
    have hdata' : data = (pre ++ r.text ++ [10]) ++ fileOf (recs.map Rec.text) tail := by
      rw [hdata]; simp [fileOf]
    obtain ⟨L, i1, i2, i3⟩ := ih (pre ++ r.text ++ [10]) hdata' (fun r hr => hok r (by simp [hr]))
    have hpl : (pre ++ r.text ++ [10]).length = pre.length + r.text.length + 1 := by simp; omega
    rw [hpl] at i1
    have hlen : pre.length + r.text.length + 1 ≤ data.length := by
      have := congrArg List.length hdata'
      simp only [List.length_append, List.length_singleton] at this
      omega
    have h2 := rec_two r
    have ho : (UInt64.ofNat pre.length).toNat = pre.length := by rw [UInt64.toNat_ofNat']; omega
    have hl : (UInt32.ofNat r.text.length).toNat = r.text.length := by rw [UInt32.toNat_ofNat']; omega
    have hrec : record data ⟨UInt64.ofNat pre.length, UInt32.ofNat r.text.length⟩ = r.text := by
      unfold record slice
      rw [ho, hl, hdata', List.append_assoc, List.append_assoc, List.drop_left, List.take_left]
    let entry : Field → RV × MemPtr := fun f => (⟨valuePtr pre.length f, valueBytes f.tok⟩, ⟨UInt64.ofNat pre.length, UInt32.ofNat r.text.length⟩)
    refine ⟨((r.fields num).filter (fun f => decide (f.name = name ∧ kindOf f.tok = kindOf w))).map (fun f => (f.tok, r.text, entry f)) ++ L, ?_, ?_, ?_⟩
    · rw [List.map_cons, linesJobs, entriesOf_append, i1, List.map_append, entriesOf_flatMap, List.map_map]
      congr 1
      simp only [field_values hw]
      induction r.fields num with
      | nil => rfl
      | cons f fs ih =>
        rw [List.flatMap_cons, ih, List.filter_cons]
        by_cases h : f.name = name ∧ kindOf f.tok = kindOf w
        · simp [h, entry]
        · simp [h]
    · unfold valuesOf at i2 ⊢
      rw [List.flatMap_cons, i2, List.map_append, List.map_map]
      rfl
    · intro t ht
      rcases List.mem_append.1 ht with ht | ht
      rotate_left
      · exact i3 t ht
      obtain ⟨f, hf, rfl⟩ := List.mem_map.1 ht
      rw [List.mem_filter, decide_eq_true_eq] at hf
      obtain ⟨hf, hn, hk⟩ := hf
      obtain ⟨mid, v, p, q, hm, hv, htok, he, hp, hstop⟩ := (hok r (by simp)).fieldAt f hf
      have hin : f.stop ≤ r.text.length := by
        rw [he]; simp only [List.length_append] at hstop ⊢; omega
      have hoff : (valuePtr pre.length f).offset.toNat = pre.length + f.start := by
        show (UInt64.ofNat _).toNat = _
        rw [UInt64.toNat_ofNat']; omega
      have hln : (valuePtr pre.length f).length.toNat = (mid ++ headText v).length := by
        show (UInt32.ofNat _).toNat = _
        rw [UInt32.toNat_ofNat']; omega
      refine ⟨hk, rfl, hrec, ⟨?_, ?_⟩, ?_, ⟨?_, ?_⟩, ?_, ?_⟩
      · show (valuePtr pre.length f).offset.toNat < _; omega
      · show (valuePtr pre.length f).length.toNat < _; omega
      · intro b hb
        simp only at hb
        rw [htok] at hb
        cases v with
        | str l =>
          unfold Doc.WF at hv
          simp only [Doc.head, Tok.str.injEq] at hb
          have hh : headText (.str l) = l.text := by unfold headText Doc.text; rfl
          refine ⟨mid, l, hm, hv, hb.symm, ?_, ?_⟩
          · show slice data (valuePtr pre.length f).offset.toNat (valuePtr pre.length f).length.toNat = _
            rw [hoff, hln, hh]
            unfold slice
            rw [hdata', he, ← hp, hh]
            rw [show pre ++ (p ++ ((mid ++ l.text) ++ q)) ++ [10] ++ fileOf (recs.map Rec.text) tail =
              (pre ++ p) ++ ((mid ++ l.text) ++ (q ++ [10] ++ fileOf (recs.map Rec.text) tail)) from by simp]
            rw [← List.length_append, List.drop_left, List.take_left]
          · show 2 ≤ (valuePtr pre.length f).length.toNat
            rw [hln, hh, List.length_append]
            have := Lit.text_two l
            omega
        | _ => simp [Doc.head] at hb
      · show (UInt64.ofNat pre.length).toNat < _; omega
      · show (UInt32.ofNat r.text.length).toNat < _; omega
      · show 2 ≤ (UInt32.ofNat r.text.length).toNat; omega
      · show (UInt64.ofNat pre.length).toNat < _; omega

/-! ### The query -/

theorem jobs_ty : ∀ (lf : List (Bytes × List Field)) (off : Nat), ∀ j ∈ linesJobs nfkd hs off lf, j.ty ≠ 1 ∧ j.ty ≠ 2
  | [], _, j, hj => by simp [linesJobs] at hj
  | (text, fs) :: lf, off, j, hj => by
    rw [linesJobs, List.mem_append] at hj
    rcases hj with hj | hj
    · obtain ⟨f, _, hj⟩ := List.mem_flatMap.1 hj
      unfold fieldJobs at hj
      rcases List.mem_cons.1 hj with rfl | hj
      · cases f.tok <;> simp [kindOf, FieldType.code]
      · split at hj
        · split at hj
          · simp only [List.mem_cons, List.not_mem_nil, or_false] at hj
            rcases hj with rfl | rfl | rfl <;> simp [gramJob, FieldType.code]
          · simp at hj
        · simp at hj
    · exact jobs_ty lf _ j hj

theorem done_picks {is : List (LP × IndexMeta)} {c : Nat → List (RV × MemPtr)} {lf : List (Bytes × List Field)}
    (h : Done is c (linesJobs nfkd hs 0 lf)) {k : Nat} {p : LP} {m : IndexMeta} (hk : is[k]? = some (p, m)) :
    Picks is m.fieldName m.fieldType.toNat k p m := by
  refine ⟨hk, rfl, .inl rfl, fun j x hj hx ⟨h1, h2⟩ => ?_⟩
  have hnd := nodup_firstOccurrences ((linesJobs nfkd hs 0 lf).map (fun j => (j.name, j.ty)))
  have hkeys : is.map (fun x => (x.2.fieldName, x.2.fieldType)) = firstOccurrences ((linesJobs nfkd hs 0 lf).map (fun j => (j.name, j.ty))) := h.keys
  rcases h2 with h2 | ⟨h2, h3⟩
  · rw [UInt8.toNat_inj] at h2
    rw [← hkeys] at hnd
    have hjl := (List.getElem?_eq_some_iff.1 hx).1
    have hkl := (List.getElem?_eq_some_iff.1 hk).1
    refine List.pairwise_iff_getElem.1 hnd j k (by simpa using hjl) (by simpa using hkl) hj ?_
    simp only [List.getElem_map, (List.getElem?_eq_some_iff.1 hx).2, (List.getElem?_eq_some_iff.1 hk).2, h1, h2]
  · have hm : (x.2.fieldName, x.2.fieldType) ∈ is.map (fun x => (x.2.fieldName, x.2.fieldType)) :=
      List.mem_map.2 ⟨x, List.mem_of_getElem? hx, rfl⟩
    rw [hkeys, mem_firstOccurrences] at hm
    obtain ⟨j', hj', he⟩ := List.mem_map.1 hm
    simp only [Prod.mk.injEq] at he
    have := jobs_ty lf 0 j' hj'
    rw [he.2] at this
    rcases h3 with h3 | h3 <;> simp [h3] at this

theorem code_width {w : Tok} (hw : isScalar w) (h : determineTypeByte (kindOf w).code = 0) : ∃ b, w = .str b := by
  cases w <;> simp [isScalar, kindOf, FieldType.code, determineTypeByte] at hw h ⊢

theorem ordered_nodup {d : TsDir} {xs : List (RV × MemPtr)} (h : Ordered d xs) : xs.Nodup := by
  cases d with
  | asc => exact ascending_nodup h
  | desc => exact (List.reverse_perm xs).nodup_iff.1 (ascending_nodup (show Ascending xs.reverse from h))

variable {i : IndexFile} {s : PF} {recs : List Rec} {db : TsDb} {β : Type}

theorem line_le (hl : IsLines data (recs.map Rec.text) tail) {r : Rec} (hr : r ∈ recs) : r.text.length < data.length := by
  obtain ⟨a, b, rfl⟩ := List.append_of_mem hr
  rw [hl.1]
  simp only [fileOf, List.map_append, List.map_cons, List.flatMap_append, List.flatMap_cons, List.length_append, List.length_cons, List.length_nil]
  omega

theorem recs_line (hl : IsLines data (recs.map Rec.text) tail) (hok : ∀ r ∈ recs, r.OK num hs) (hd : data.length < 2 ^ 30) :
    ∀ x ∈ recs.map (fun r => (r.text, r.fields num)), LineOK ⟨goLex num, nfkd⟩ hs x := by
  intro x hx
  obtain ⟨r, hr, rfl⟩ := List.mem_map.1 hx
  exact ⟨(hok r hr).line, by have := line_le hl hr; simp only; omega, (hok r hr).fields⟩

theorem sorted_of {d : TsDir} {w : Tok} {M : List (Tok × Bytes × (RV × MemPtr))} (he : ∀ t ∈ M, Entered data w t)
    (h : Ordered d (M.map (fun t => t.2.2))) : Sorted d (M.map (fun t => (t.1, t.2.1))) := by
  have key : ∀ {x y : Tok × Bytes × (RV × MemPtr)}, x ∈ M → y ∈ M → KeyLt x.2.2.1 y.2.2.1 → ¬ Before y.1 x.1 := by
    intro x y hx hy hlt hb
    unfold Before at hb
    rw [← (he x hx).value, ← (he y hy).value] at hb
    exact hlt.asymm (.inl hb)
  cases d with
  | asc =>
    have h : List.Pairwise _ (M.map _) := h
    rw [List.pairwise_map] at h
    show List.Pairwise _ (M.map _)
    rw [List.pairwise_map]
    exact h.imp_of_mem (fun hx hy hlt => key hx hy hlt)
  | desc =>
    have h : List.Pairwise _ (M.map _).reverse := h
    rw [List.pairwise_reverse, List.pairwise_map] at h
    show List.Pairwise _ (M.map _)
    rw [List.pairwise_map]
    exact h.imp_of_mem (fun hx hy hlt => key hy hx hlt)

/-- What the rows for some entries are, in terms of the lines. -/
structure Rows (num : Bytes → Option UInt64) (name : Bytes) (w : Tok) (recs : List Rec) (data : Bytes) (op : TsOp) (es : List (RV × MemPtr)) : Prop where
  out : ∀ (d : TsDir) (xs : List (RV × MemPtr)), Answer es op (valueBytes w) d xs →
    ∃ out : List (Tok × Bytes), IsAnswer num name op w recs d out ∧
      ∀ {β : Type} (select : Bytes → Res β), rowsOf data select xs = rowsFor select (out.map (·.2))

theorem query_served (h : QueryFile num nfkd hs data i s recs tail db) {q : TsQuery} {op : TsOp} {value : JsVal} {w : Tok}
    (hq : q.where_ = [⟨name, op, value⟩]) (hv : tokOf value = some w) (hne : valuesOf num name w recs ≠ []) :
    ∃ (fm : FileMeta) (is : List (LP × IndexMeta)) (c : Nat → List (RV × MemPtr)) (k : Nat) (p : LP) (m : IndexMeta),
      IndexIs data (JEnv.parse ⟨goLex num, nfkd⟩) (fun m => id m.width) s fm is c ∧
      Served (JEnv.parse ⟨goLex num, nfkd⟩) data s fm is c db q op (valueBytes w) k p m ∧
      leafBytes m.width (c k) = indexBytes num nfkd hs name w recs ∧ Rows num name w recs data op (c k) := by
  obtain ⟨hw, hp⟩ := process_tok hv
  have hsz := h.size
  have hmm : (recs.map (fun r => (r.text, r.fields num))).map (·.1) = recs.map Rec.text := by rw [List.map_map]; rfl
  obtain ⟨rfl, is, c, hj⟩ := syncRun_is h.run (by omega) (lf := recs.map (fun r => (r.text, r.fields num))) (tail := tail)
    (by rw [hmm]; exact h.lines) (recs_line h.lines h.ok hsz)
  obtain ⟨L, l1, l2, l3⟩ := file_values (num := num) (nfkd := nfkd) (hs := hs) (name := name) (tail := tail) hw hsz recs [] h.lines.1 h.ok
  have hL : L ≠ [] := by rintro rfl; exact hne l2
  simp only [List.length_nil] at l1
  have hmem : (name, (kindOf w).code) ∈ (linesJobs nfkd hs 0 (recs.map (fun r => (r.text, r.fields num)))).map (fun j => (j.name, j.ty)) := by
    apply Decidable.byContradiction
    intro hn
    rw [entriesOf_none hn] at l1
    exact hL (List.map_eq_nil_iff.1 l1.symm)
  obtain ⟨k, p, hk, hc⟩ := hj.done.at hmem
  obtain ⟨fm, hfm⟩ : ∃ fm : FileMeta, fm = ⟨1, .jsonl, UInt64.ofNat (fileOf ((recs.map (fun r => (r.text, r.fields num))).map (·.1)) []).length,
    UInt64.ofNat (recs.map (fun r => (r.text, r.fields num))).length⟩ := ⟨_, rfl⟩
  rw [← hfm] at hj
  obtain ⟨m, hm⟩ : ∃ m : IndexMeta, m = ⟨name, (kindOf w).code, determineTypeByte (kindOf w).code,
    totalOf (linesJobs nfkd hs 0 (recs.map (fun r => (r.text, r.fields num)))) name (kindOf w).code⟩ := ⟨_, rfl⟩
  have hpick := done_picks hj.done hk
  rw [← hm] at hk
  rw [l1] at hc
  have hserved : Served (JEnv.parse ⟨goLex num, nfkd⟩) data s fm is c db q op (valueBytes w) k p m := by
    refine ⟨h.sees, ⟨name, value, _, hq, hp, by rw [hm]; exact hpick⟩, ?_, ?_⟩
    · intro h0
      rw [h0] at hc
      exact hL (List.map_eq_nil_iff.1 hc.symm.eq_nil)
    · intro e he
      obtain ⟨t, ht, rfl⟩ := List.mem_map.1 (hc.mem_iff.1 he)
      obtain ⟨e1, e2, e3, e4, e5, e6⟩ := l3 t ht
      refine ⟨⟨e4, fun hw0 => ?_⟩, e6⟩
      rw [hm] at hw0
      obtain ⟨b, rfl⟩ := code_width hw hw0
      have : ∃ b', t.1 = .str b' := by
        cases ht1 : t.1 <;> rw [ht1] at e1 <;> simp [kindOf] at e1 ⊢
      obtain ⟨b', hb'⟩ := this
      obtain ⟨ws, l, f1, f2, f3, f4, f5⟩ := e5 b' hb'
      refine ⟨f5, ?_⟩
      rw [e2, hb', f4, f3]
      rw [hm, hfm]
      exact h.json ws l f1 f2
  refine ⟨fm, is, c, k, p, m, hj.idx, hserved, by rw [leafBytes_perm hc, ← l1, hm]; rfl, ⟨fun d xs ⟨x1, x2⟩ => ?_⟩⟩
  obtain ⟨_, _, es, _, ho, hperm, _, _⟩ := hj.idx.served (wd := id) (.inl rfl) hserved (fun b => Res.ok b)
  have hnd : (L.map (fun t => t.2.2)).Nodup := (hperm.trans hc).nodup (ascending_nodup ho.is.asc)
  have hiff : ∀ t ∈ L, (Matches op t.2.2.1.value (valueBytes w) ↔ Meets op t.1 w) := by
    intro t ht
    rw [(l3 t ht).value]
    exact (meets_iff hw (l3 t ht).kind op).symm
  classical
  have hxs : xs.Perm ((L.filter (fun t => decide (Meets op t.1 w))).map (fun t => t.2.2)) := by
    refine (List.perm_ext_iff_of_nodup (ordered_nodup x2) (hnd.sublist ((List.filter_sublist).map _))).2 fun e => ?_
    rw [x1, hc.mem_iff, List.mem_map, List.mem_map]
    constructor
    · rintro ⟨⟨t, ht, rfl⟩, hm⟩
      exact ⟨t, List.mem_filter.2 ⟨ht, by simpa using (hiff t ht).1 hm⟩, rfl⟩
    · rintro ⟨t, ht, rfl⟩
      rw [List.mem_filter, decide_eq_true_eq] at ht
      exact ⟨⟨t, ht.1, rfl⟩, (hiff t ht.1).2 ht.2⟩
  obtain ⟨M, m1, rfl⟩ := perm_map (fun t : Tok × Bytes × (RV × MemPtr) => t.2.2) hxs _ rfl
  have hM : ∀ t ∈ M, Entered data w t := fun t ht => l3 t (List.mem_filter.1 (m1.mem_iff.1 ht)).1
  refine ⟨M.map (fun t => (t.1, t.2.1)), ⟨?_, sorted_of hM x2⟩, fun select => ?_⟩
  · rw [l2, List.filter_map]
    exact m1.map _
  · rw [gather_rows, List.map_map, List.map_map]
    rw [List.map_congr_left (f := (fun e : RV × MemPtr => record data e.2) ∘ fun t : Tok × Bytes × (RV × MemPtr) => t.2.2)
      (g := (fun x : Tok × Bytes => x.2) ∘ fun t : Tok × Bytes × (RV × MemPtr) => (t.1, t.2.1)) (fun t ht => (hM t ht).line)]

/-- C82 (partial: the cases that `Exact` lists, in an index with entries): a query with one condition on a JSONL file returns the lines whose
field meets the condition, each once for each such field, sorted by the value. -/
theorem C82_query_partial (h : QueryFile num nfkd hs data i s recs tail db) {q : TsQuery} {op : TsOp} {value : JsVal} {w : Tok} {d : TsDir}
    (hq : q.where_ = [⟨name, op, value⟩]) (hv : tokOf value = some w) (hne : valuesOf num name w recs ≠ [])
    (hex : Exact op q.dir (indexBytes num nfkd hs name w recs) d) (select : Bytes → Res β) :
    ∃ out : List (Tok × Bytes), IsAnswer num name op w recs d out ∧ Returns db select q (rowsFor select (out.map (·.2))) := by
  obtain ⟨fm, is, c, k, p, m, hi, hserved, hb, hr⟩ := query_served h hq hv hne
  rw [← hb] at hex
  obtain ⟨xs, x1, x2⟩ := hi.exact (wd := id) (.inl rfl) hserved hex select
  obtain ⟨out, h1, h2⟩ := hr.out d xs x1
  rw [h2] at x2
  exact ⟨out, h1, x2⟩

theorem jobs_key : ∀ (lf : List (Bytes × List Field)) (off : Nat), ∀ j ∈ linesJobs nfkd hs off lf,
    ∃ x ∈ lf, ∃ f ∈ x.2, j.name = f.name ∧ (j.ty = (kindOf f.tok).code ∨ 8 ≤ j.ty.toNat)
  | [], _, j, hj => by simp [linesJobs] at hj
  | (text, fs) :: lf, off, j, hj => by
    rw [linesJobs, List.mem_append] at hj
    rcases hj with hj | hj
    · obtain ⟨f, hf, hj⟩ := List.mem_flatMap.1 hj
      refine ⟨_, List.mem_cons_self, f, hf, ?_⟩
      unfold fieldJobs at hj
      rcases List.mem_cons.1 hj with rfl | hj
      · exact ⟨rfl, .inl rfl⟩
      · split at hj
        · split at hj
          · simp only [List.mem_cons, List.not_mem_nil, or_false] at hj
            rcases hj with rfl | rfl | rfl <;> simp [gramJob, FieldType.code]
          · simp at hj
        · simp at hj
    · obtain ⟨x, hx, h⟩ := jobs_key lf _ j hj
      exact ⟨x, List.mem_cons_of_mem _ hx, h⟩

theorem jobs_has : ∀ (lf : List (Bytes × List Field)) (off : Nat), ∀ x ∈ lf, ∀ f ∈ x.2,
    ∃ j ∈ linesJobs nfkd hs off lf, j.name = f.name ∧ j.ty = (kindOf f.tok).code
  | [], _, x, hx => by simp at hx
  | (text, fs) :: lf, off, x, hx => by
    intro f hf
    rw [linesJobs]
    rcases List.mem_cons.1 hx with rfl | hx
    · obtain ⟨j, hj, h⟩ : ∃ j ∈ fieldJobs nfkd hs off ⟨UInt64.ofNat off, UInt32.ofNat text.length⟩ f, j.name = f.name ∧ j.ty = (kindOf f.tok).code := by
        unfold fieldJobs
        exact ⟨_, List.mem_cons_self, rfl, rfl⟩
      exact ⟨j, List.mem_append_left _ (List.mem_flatMap.2 ⟨f, hf, hj⟩), h⟩
    · obtain ⟨j, hj, h⟩ := jobs_has lf (off + text.length + 1) x hx f hf
      exact ⟨j, List.mem_append_right _ hj, h⟩

theorem absent_done (h : QueryFile num nfkd hs data i s recs tail db) {w : Tok} (hw : isScalar w) (hno : valuesOf num name w recs = []) :
    ∃ (fm : FileMeta) (is : List (LP × IndexMeta)) (c : Nat → List (RV × MemPtr)),
      IndexIs data (JEnv.parse ⟨goLex num, nfkd⟩) (fun m => id m.width) s fm is c ∧
      (∀ x ∈ is, ¬ (x.2.fieldName = name ∧ Fits (kindOf w).code.toNat x.2.fieldType)) ∧
      (∀ r ∈ recs, ∀ f ∈ r.fields num, ∃ x ∈ is, x.2.fieldName = f.name) ∧
      (∀ x ∈ is, ∃ r ∈ recs, ∃ f ∈ r.fields num, x.2.fieldName = f.name) := by
  have hsz := h.size
  have hmm : (recs.map (fun r => (r.text, r.fields num))).map (·.1) = recs.map Rec.text := by rw [List.map_map]; rfl
  obtain ⟨rfl, is, c, hj⟩ := syncRun_is h.run (by omega) (lf := recs.map (fun r => (r.text, r.fields num))) (tail := tail)
    (by rw [hmm]; exact h.lines) (recs_line h.lines h.ok hsz)
  have hkey : ∀ x ∈ is, ∃ r ∈ recs, ∃ f ∈ r.fields num, x.2.fieldName = f.name ∧ (x.2.fieldType = (kindOf f.tok).code ∨ 8 ≤ x.2.fieldType.toNat) := by
    intro x hx
    have hm : (x.2.fieldName, x.2.fieldType) ∈ is.map (fun x => (x.2.fieldName, x.2.fieldType)) := List.mem_map.2 ⟨x, hx, rfl⟩
    rw [hj.done.keys] at hm
    obtain ⟨j, hj1, he⟩ := List.mem_map.1 (mem_firstOccurrences.1 hm)
    simp only [Prod.mk.injEq] at he
    obtain ⟨y, hy, f, hf, h1, h2⟩ := jobs_key _ _ j hj1
    obtain ⟨r, hr, rfl⟩ := List.mem_map.1 hy
    rw [he.1] at h1
    rw [he.2] at h2
    exact ⟨r, hr, f, hf, h1, h2⟩
  refine ⟨_, is, c, hj.idx, ?_, ?_, fun x hx => ?_⟩
  · intro x hx ⟨hn, hfit⟩
    obtain ⟨r, hr, f, hf, h1, h2⟩ := hkey x hx
    have hty : x.2.fieldType = (kindOf w).code := by
      rcases hfit with hfit | ⟨hfit, h3⟩
      · exact UInt8.toNat_inj.1 hfit
      · exfalso
        rcases h2 with h2 | h2
        · rw [h2] at h3
          revert h3
          cases f.tok <;> simp [kindOf, FieldType.code]
        · rcases h3 with h3 | h3 <;> simp [h3] at h2
    have hk : kindOf f.tok = kindOf w := by
      rcases h2 with h2 | h2
      · exact (kindOf_code hw).1 (by rw [← h2, hty])
      · rw [hty] at h2
        have := code_small w
        omega
    have : (f.tok, r.text) ∈ valuesOf num name w recs := by
      unfold valuesOf
      exact List.mem_flatMap.2 ⟨r, hr, List.mem_map.2 ⟨f, List.mem_filter.2 ⟨hf, by simp [hk, ← h1, hn]⟩, rfl⟩⟩
    rw [hno] at this
    simp at this
  · intro r hr f hf
    obtain ⟨j, hj1, h1, h2⟩ := jobs_has (nfkd := nfkd) (hs := hs) (recs.map (fun r => (r.text, r.fields num))) 0 _ (List.mem_map.2 ⟨r, hr, rfl⟩) f hf
    have hm : (j.name, j.ty) ∈ is.map (fun x => (x.2.fieldName, x.2.fieldType)) := by
      rw [hj.done.keys]
      exact mem_firstOccurrences.2 (List.mem_map.2 ⟨j, hj1, rfl⟩)
    obtain ⟨x, hx, he⟩ := List.mem_map.1 hm
    simp only [Prod.mk.injEq] at he
    exact ⟨x, hx, he.1.trans h1⟩
  · obtain ⟨r, hr, f, hf, h1, _⟩ := hkey x hx
    exact ⟨r, hr, f, hf, h1⟩

/-- C84 (partial: in the place of no rows, an exception): if no line has a value of that kind in the field, a query returns no lines,
but fails. -/
theorem C84_absent_partial (h : QueryFile num nfkd hs data i s recs tail db) {q : TsQuery} {op : TsOp} {value : JsVal} {w : Tok}
    (hq : q.where_ = [⟨name, op, value⟩]) (hv : tokOf value = some w) (hno : valuesOf num name w recs = []) (select : Bytes → Res β) :
    ∃ e, Returns db select q ⟨[], some e⟩ := by
  obtain ⟨hw, hp⟩ := process_tok hv
  obtain ⟨fm, is, c, hi, h1, h2, h3⟩ := absent_done h hw hno
  obtain ⟨a1, a2, a3⟩ := hi.absent h.sees.idx hq hp h1 select
  by_cases h0 : is = []
  · exact ⟨_, a3 h0⟩
  · by_cases hx : ∃ x ∈ is, x.2.fieldName = name
    · exact ⟨_, a1 hx⟩
    · exact ⟨_, a2 (fun x hxm hn => hx ⟨x, hxm, hn⟩) h0⟩

/-- C84 is violated by every file that has the field with values of other kinds only: the query throws a `TypeError` instead of returning no rows. -/
theorem C84_violated (h : QueryFile num nfkd hs data i s recs tail db) {q : TsQuery} {op : TsOp} {value : JsVal} {w : Tok}
    (hq : q.where_ = [⟨name, op, value⟩]) (hv : tokOf value = some w) (hno : valuesOf num name w recs = [])
    (hf : ∃ r ∈ recs, ∃ f ∈ r.fields num, f.name = name) (select : Bytes → Res β) :
    Returns db select q ⟨[], some (.msg "TypeError")⟩ := by
  obtain ⟨hw, hp⟩ := process_tok hv
  obtain ⟨fm, is, c, hi, h1, h2, h3⟩ := absent_done h hw hno
  obtain ⟨a1, a2, a3⟩ := hi.absent h.sees.idx hq hp h1 select
  obtain ⟨r, hr, f, hf, rfl⟩ := hf
  exact a1 (h2 r hr f hf)

/-- C83: a query `field == value` on a JSONL file returns the lines with that value, all of them or none, and never another line. -/
theorem C83_equality_sound (h : QueryFile num nfkd hs data i s recs tail db) {q : TsQuery} {value : JsVal} {w : Tok}
    (hq : q.where_ = [⟨name, .eq, value⟩]) (hv : tokOf value = some w) (select : Bytes → Res β) :
    ∃ out : List (Tok × Bytes), IsAnswer num name .eq w recs .asc out ∧
      (Returns db select q (rowsFor select (out.map (·.2))) ∨ ∃ fail, Returns db select q ⟨[], fail⟩) := by
  by_cases hne : valuesOf num name w recs = []
  · obtain ⟨e, he⟩ := C84_absent_partial h hq hv hne select
    refine ⟨[], ⟨by rw [hne]; exact .refl _, .nil⟩, .inr ⟨_, he⟩⟩
  obtain ⟨fm, is, c, k, p, m, hi, hserved, hb, hr⟩ := query_served h hq hv hne
  obtain ⟨xs, x1, x2⟩ := hi.allOrNone (wd := id) (.inl rfl) hserved (.inl rfl) select
  obtain ⟨out, h1, h2⟩ := hr.out _ xs x1
  rw [h2] at x2
  exact ⟨out, h1, x2.imp id (fun h => ⟨none, h⟩)⟩

/-! ### Indexing -/

/-- C36 for JSON texts: after any successful history the index holds exactly the fields of the lines. -/
theorem C36_json (hr : SyncRun ⟨goLex num, nfkd⟩ hs data i s) (hd : data.length < 2 ^ 30) (hl : IsLines data (recs.map Rec.text) tail)
    (hok : ∀ r ∈ recs, r.OK num hs) :
    Holds data (JEnv.parse ⟨goLex num, nfkd⟩) id i s ⟨1, .jsonl, UInt64.ofNat (fileOf (recs.map Rec.text) []).length, UInt64.ofNat recs.length⟩
      (linesJobs nfkd hs 0 (recs.map (fun r => (r.text, r.fields num)))) := by
  have hmm : (recs.map (fun r => (r.text, r.fields num))).map (·.1) = recs.map Rec.text := by rw [List.map_map]; rfl
  have := C36_fields_indexed hr (by omega) (lf := recs.map (fun r => (r.text, r.fields num))) (tail := tail) (by rw [hmm]; exact hl)
    (recs_line hl hok hd)
  rw [hmm, List.length_map] at this
  exact this

/-- C80 for JSON texts without searched fields: `Synchronize` accepts every file of such lines, from every earlier state. -/
theorem C80_json (hr : SyncRun ⟨goLex num, nfkd⟩ [] data i s) {more : Bytes} (hd : (data ++ more).length < 2 ^ 30)
    (hl : IsLines (data ++ more) (recs.map Rec.text) tail) (hok : ∀ r ∈ recs, r.OK num []) :
    ∃ s', jsonlSync ⟨goLex num, nfkd⟩ i (data ++ more) s = (.ok (), s') := by
  have hmm : (recs.map (fun r => (r.text, r.fields num))).map (·.1) = recs.map Rec.text := by rw [List.map_map]; rfl
  refine C80_accepts_partial hr (by omega) (lf := recs.map (fun r => (r.text, r.fields num))) (tail := tail) (by rw [hmm]; exact hl) fun x hx => ?_
  obtain ⟨h1, h2, h3⟩ := recs_line (nfkd := nfkd) hl hok hd x hx
  exact ⟨h1, h2, h3, goLex_forward _, fun f _ t _ hf => by simp at hf⟩

/-- C104 for JSON texts without searched fields. -/
theorem C104_json (hr : SyncRun ⟨goLex num, nfkd⟩ [] data i s) (hd : data.length < 2 ^ 30)
    (hl : IsLines data (recs.map Rec.text) tail) (hok : ∀ r ∈ recs, r.OK num []) :
    s.file.bytes.length ≤ 4096 * (2 + 5 * data.length) := by
  have hmm : (recs.map (fun r => (r.text, r.fields num))).map (·.1) = recs.map Rec.text := by rw [List.map_map]; rfl
  refine C104_per_byte hr (by omega) (lf := recs.map (fun r => (r.text, r.fields num))) (tail := tail) (by rw [hmm]; exact hl) fun x hx => ?_
  obtain ⟨h1, h2, h3⟩ := recs_line (nfkd := nfkd) hl hok hd x hx
  exact ⟨h1, h2, h3, goLex_forward _, fun f _ t _ hf => by simp at hf⟩

end Appendable
