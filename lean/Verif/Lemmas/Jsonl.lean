import Verif.Lemmas.JobSteps
import Verif.Props.IndexWitness
/-! The JSONL handler writes the jobs of the fields. -/
namespace Appendable
open Spec Tree

/-! ### n-grams -/

theorem buildNgram_length (nfkd : Bytes → Bytes) (s : Bytes) (n : Nat) : ∀ g ∈ buildNgram nfkd s n, g.word.length = n := by
  intro g hg
  unfold buildNgram at hg
  obtain ⟨w, hw, hg⟩ := List.mem_flatMap.1 hg
  obtain ⟨x, hx, rfl⟩ := List.mem_map.1 hg
  unfold windows at hx
  obtain ⟨k, hk, rfl⟩ := List.mem_map.1 hx
  rw [List.mem_range] at hk
  unfold gramToken
  simp only [List.length_map, List.length_take, List.length_drop]
  omega

/-! ### Tokens of objects -/

theorem Spec.Skips.length_le {n : Nat} {l r : List (Tok × Nat)} (h : Skips n l r) : r.length ≤ l.length := by
  induction h with
  | done => exact Nat.le_refl _
  | opening _ ih => simp; omega
  | closing _ ih => simp; omega
  | other _ _ _ ih => simp; omega

theorem Spec.Skips.skip {n : Nat} {l r : List (Tok × Nat)} (h : Skips (n + 1) l r) : skipArray (n + 1) l = some r := by
  generalize hm : n + 1 = m at h
  induction h generalizing n with
  | done => omega
  | @opening n' e l r h ih =>
    unfold skipArray
    simp only
    rw [if_neg (by omega)]
    exact ih (n := n' + 1) rfl
  | @closing n' e l r h ih =>
    unfold skipArray
    simp only [Nat.add_sub_cancel]
    cases n' with
    | zero => rw [if_pos rfl]; cases h; rfl
    | succ k => rw [if_neg (by omega)]; exact ih (n := k) rfl
  | @other n' e t l r h1 h2 h ih =>
    unfold skipArray
    have : (match t with | .lbrack => n' + 1 + 1 | .rbrack => n' + 1 - 1 | _ => n' + 1) = n' + 1 := by
      cases t <;> first | exact absurd rfl h1 | exact absurd rfl h2 | rfl
    simp only [this]
    rw [if_neg (by omega)]
    exact ih (n := n') rfl

theorem skipArray_skips {n : Nat} {l r : List (Tok × Nat)} (h : skipArray (n + 1) l = some r) : Skips (n + 1) l r := by
  induction l generalizing n with
  | nil => simp [skipArray] at h
  | cons x l ih =>
    obtain ⟨t, e⟩ := x
    unfold skipArray at h
    by_cases h1 : t = .lbrack
    · subst h1
      simp only at h
      rw [if_neg (by omega)] at h
      exact .opening (ih h)
    · by_cases h2 : t = .rbrack
      · subst h2
        simp only [Nat.add_sub_cancel] at h
        cases n with
        | zero => rw [if_pos rfl] at h; cases h; exact .closing .done
        | succ k => rw [if_neg (by omega)] at h; exact .closing (ih h)
      · have : (match t with | .lbrack => n + 1 + 1 | .rbrack => n + 1 - 1 | _ => n + 1) = n + 1 := by
          cases t <;> first | exact absurd rfl h1 | exact absurd rfl h2 | rfl
        simp only [this] at h
        rw [if_neg (by omega)] at h
        exact .other h1 h2 (ih h)

theorem Spec.Obj.length_lt {path : List Bytes} {l r : List (Tok × Nat)} {fs : List Field} (h : Obj path l fs r) : r.length < l.length := by
  induction h with
  | close => simp
  | scalar _ _ ih => simp; omega
  | array hs _ ih => have := hs.length_le; simp; omega
  | object _ _ ih1 ih2 => simp; omega

theorem dotted_cons (a b : Bytes) (l : List Bytes) : dotted (a :: b :: l) = a ++ 46 :: dotted (b :: l) := by
  simp [dotted, List.intercalate, List.intersperse]

theorem joinDots_eq (l : List Bytes) : joinDots l = dotted l := by
  induction l with
  | nil => rfl
  | cons a l ih =>
    cases l with
    | nil => simp [joinDots, dotted, List.intercalate]
    | cons b l => rw [joinDots, dotted_cons, ih]

theorem dotted_snoc (path : List Bytes) (k : Bytes) :
    (dotted (path ++ [k])).length = if path = [] then k.length else (dotted path).length + 1 + k.length := by
  induction path with
  | nil => simp [dotted, List.intercalate]
  | cons a l ih =>
    cases l with
    | nil => simp [dotted, List.intercalate]; omega
    | cons b l =>
      simp only [List.cons_append, dotted_cons, List.length_append, List.length_cons] at *
      rw [ih]
      simp
      omega

theorem Spec.Obj.names {path : List Bytes} {l r : List (Tok × Nat)} {fs : List Field} (h : Obj path l fs r) (hp : path ≠ []) :
    ∀ f ∈ fs, (dotted path).length < f.name.length := by
  induction h with
  | close => simp
  | scalar _ _ ih =>
    intro f hf
    rcases List.mem_cons.1 hf with rfl | hf
    · simp only [dotted_snoc, if_neg hp]; omega
    · exact ih hp f hf
  | array _ _ ih =>
    intro f hf
    rcases List.mem_cons.1 hf with rfl | hf
    · simp only [dotted_snoc, if_neg hp]; omega
    · exact ih hp f hf
  | object _ _ ih1 ih2 =>
    intro f hf
    rcases List.mem_cons.1 hf with rfl | hf
    · simp only [dotted_snoc, if_neg hp]; omega
    · rcases List.mem_append.1 hf with hf | hf
      · have := ih1 (by simp) f hf
        simp only [dotted_snoc, if_neg hp] at this
        omega
      · exact ih2 hp f hf

theorem fieldJobs_name {nfkd : Bytes → Bytes} {hs : List Bytes} {off : Nat} {line : MemPtr} {f : Field} :
    ∀ j ∈ fieldJobs nfkd hs off line f, j.name = f.name := by
  intro j hj
  unfold fieldJobs at hj
  rcases List.mem_cons.1 hj with rfl | hj
  · rfl
  · split at hj
    · split at hj
      · simp only [List.mem_cons, List.not_mem_nil, or_false] at hj
        rcases hj with rfl | rfl | rfl <;> rfl
      · simp at hj
    · simp at hj

/-! ### One value -/

section
variable {env : JEnv} {i : IndexFile} {data text : Bytes} {off : Nat} {line : MemPtr} {fm : FileMeta} {hs : List Bytes}
  {s : PF} {is : List (LP × IndexMeta)} {c : Nat → List Entry} {js : List Job}

/-- The index of a job is in the list. -/
theorem JIs.known {parse : Bytes → Bytes} {wd : UInt16 → UInt16} (h : JIs data parse wd s fm is c js) {k : Nat} {p : LP} {m : IndexMeta} (hk : is[k]? = some (p, m)) :
    (m.fieldName, m.fieldType) ∈ js.map (fun j => (j.name, j.ty)) := by
  have : (m.fieldName, m.fieldType) ∈ indexesOf js := by
    rw [← h.done.keys]; exact List.mem_map.2 ⟨_, List.mem_of_getElem? hk, rfl⟩
  exact mem_firstOccurrences.1 this

theorem insertGramsSteps {parse : Bytes → Bytes} (h : JIs data parse id s fm is c js) {k : Nat} {p : LP} {m : IndexMeta} (hk : is[k]? = some (p, m))
    (hw : m.width ≠ 0) (mp : MemPtr) (len : UInt32) (gs : List Token) (hg : ∀ g ∈ gs, g.word.length = (m.width - 1).toNat) (total : UInt64) :
    Steps data parse id fm (insertGrams (treeAt data parse m.width p) mp len line gs total) s
      (js ++ [⟨m.fieldName, m.fieldType, gs.map (fun g => (⟨⟨mp.offset + g.offset, len⟩, g.word⟩, line)), 0⟩])
      (fun a is' => a = total + (gs.map (fun g => g.length.toUInt64)).foldr (· + ·) 0 ∧ is' = is) := by
  induction gs generalizing s c js total with
  | nil =>
    unfold insertGrams
    exact (Steps.pure h (by simp)).same (sameJobs_noop (h.known hk)).symm
  | cons g gs ih =>
    unfold insertGrams
    have hko : KeyOK ⟨data, parse, m.width⟩ ⟨⟨mp.offset + g.offset, len⟩, g.word⟩ := by
      unfold KeyOK
      rw [if_neg hw]
      exact hg g (List.mem_cons_self ..)
    have hins := h.insertSteps hk line hko
    have hm := sameJobs_merge js m.fieldName m.fieldType [(⟨⟨mp.offset + g.offset, len⟩, g.word⟩, line)]
        (gs.map (fun g => ((⟨⟨mp.offset + g.offset, len⟩, g.word⟩ : RV), line))) 0 0
    refine (Steps.bind hins ?_ ?_).same hm
    · exact Part.left _ _
    · intro a s' is' c' h' hq
      subst hq
      refine (ih h' (fun g' hg' => hg g' (List.mem_cons_of_mem _ hg')) (total + g.length.toUInt64)).imp ?_
      intro a is' hq
      refine ⟨?_, hq.2⟩
      rw [hq.1]
      simp [UInt64.add_assoc]

/-- One round of the loop over the field types. -/
theorem handleTypeSteps {mp : MemPtr} (hi : i.tree = fileSlot) (h : JIs data env.parse id s fm is c js) {name : Bytes} (hn : name.length ≤ 236) {ty : UInt8} {v : Tok}
    {rec : Dec → Act PF Dec} {d d' : Dec} {es : List Entry} {tot : UInt64} {ks : List Job} (hks : totalOf ks name ty = 0)
    (hv : ∀ (k : Nat) (p : LP) (m : IndexMeta) (s' : PF) (is' : List (LP × IndexMeta)) (c' : Nat → List Entry),
      JIs data env.parse id s' fm is' c' (js ++ [⟨name, ty, [], 0⟩]) → is'[k]? = some (p, m) →
      m = ⟨name, ty, determineTypeByte ty, totalOf js name ty⟩ →
      Steps data env.parse id fm (handleValue env data line mp rec p m v ty d) s' (js ++ [⟨name, ty, es, 0⟩] ++ ks)
        (fun a is'' => a = (tot, d') ∧ Handles is' is'')) :
    Steps data env.parse id fm (handleType env i data line name mp rec v ty d) s (js ++ [⟨name, ty, es, tot⟩] ++ ks)
      (fun a is' => a = d' ∧ Handles is is') := by
  unfold handleType
  have hfin : SameJobs (js ++ [⟨name, ty, es, 0⟩] ++ ks ++ [⟨name, ty, [], tot⟩]) (js ++ [⟨name, ty, es, tot⟩] ++ ks) := by
    refine ⟨?_, ?_, ?_⟩
    · unfold indexesOf
      rw [List.map_append, List.map_cons, List.map_nil, firstOccurrences_snoc_old (by simp)]
      simp
    · intro n t; simp only [entriesOf_append]; simp [entriesOf]
    · intro n t
      simp only [totalOf_append]
      simp only [totalOf, UInt64.add_zero, ite_self]
      rw [UInt64.add_assoc, UInt64.add_assoc, UInt64.add_comm (totalOf ks n t)]
  refine Steps.bind (h.findSteps hi smallWidths_id hn ty) ?_ ?_
  · exact Part.opened _ _ _ _ _ _
  · rintro ⟨p, m⟩ s1 is1 c1 h1 ⟨hm, ⟨k, hk⟩, hh1⟩
    simp only at hm
    refine Steps.bind (hv k p m s1 is1 c1 h1 hk hm) (Part.total _ _ _ _ _ _ _) ?_
    · rintro ⟨n2, d2⟩ s2 is2 c2 h2 ⟨he, hh2⟩
      simp only [Prod.mk.injEq] at he
      obtain ⟨rfl, rfl⟩ := he
      obtain ⟨m', hk', hn', ht'⟩ := hh2 k p m hk
      have hm' : m' = m := by
        have := (h2.done.each k p m' hk').1
        rw [this, hn', ht', hm]
        simp only [totalOf_append, hks]
        simp [totalOf]
      subst hm'
      obtain ⟨s3, is3, e1, e2, e3⟩ := h2.setTotal hk' n2
      have hnm : m'.fieldName = name := by rw [hm]
      have htm : m'.fieldType = ty := by rw [hm]
      rw [hnm, htm] at e2
      refine .inl ⟨d2, s3, is3, c2, ?_, e2.same hfin, rfl, hh1.trans (hh2.trans e3)⟩
      have hb : (do let buf ← Act.lift { m' with totalLen := m'.totalLen + n2 }.marshal
                    p.setMetadata buf
                    return d2 : Act PF Dec) s2 = ((do let buf ← Act.lift { m' with totalLen := m'.totalLen + n2 }.marshal
                                                      p.setMetadata buf : Act PF Unit) >>= fun _ => (return d2 : Act PF Dec)) s2 := by
        simp only [Act.bind_def, Act.lift_run]
        cases ({ m' with totalLen := m'.totalLen + n2 } : IndexMeta).marshal <;> rfl
      show (do let buf ← Act.lift { m' with totalLen := m'.totalLen + n2 }.marshal
               p.setMetadata buf
               return d2 : Act PF Dec) s2 = _
      rw [hb, Act.bind_ok e1]
      rfl

theorem valueBytes_eq (t : Tok) : valueBytes t = t.bytes := by
  have e : ∀ n : Nat, UInt8.ofNat (n % 256) = UInt8.ofNat n := fun n => by
    apply UInt8.toNat_inj.1
    simp
  cases t with
  | num bits =>
    show _ = beBytes 8 bits.toNat
    unfold valueBytes beBytes
    simp [leBytes, Nat.div_div_eq_div_mul, e]
  | bool b => cases b <;> rfl
  | _ => rfl

/-- A scalar value. -/
theorem scalarSteps {mp : MemPtr} (hi : i.tree = fileSlot) (h : JIs data env.parse id s fm is c js) {name : Bytes} (hn : name.length ≤ 236) {v : Tok}
    (hv : isScalar v) (rec : Dec → Act PF Dec) (d : Dec)
    (hko : ∀ b, v = .str b → KeyOK ⟨data, env.parse, 0⟩ ⟨mp, b⟩) :
    Steps data env.parse id fm (handleType env i data line name mp rec v (kindOf v).code d) s
      (js ++ [⟨name, (kindOf v).code, [(⟨mp, v.bytes⟩, line)], valueTotal v mp.length⟩])
      (fun a is' => a = d ∧ Handles is is') := by
  have hk0 : KeyOK ⟨data, env.parse, determineTypeByte (kindOf v).code⟩ ⟨mp, v.bytes⟩ := by
    cases v with
    | str b => exact hko b rfl
    | num b =>
      unfold KeyOK
      have e : determineTypeByte (kindOf (Tok.num b)).code = 9 := rfl
      simp only [e]; rw [if_neg (by decide)]; show (beBytes 8 b.toNat).length = (9 - 1 : UInt16).toNat; unfold beBytes; simp [leBytes]
    | bool b =>
      unfold KeyOK
      have e : determineTypeByte (kindOf (Tok.bool b)).code = 2 := rfl
      simp only [e]; rw [if_neg (by decide)]; cases b <;> rfl
    | null =>
      unfold KeyOK
      have e : determineTypeByte (kindOf Tok.null).code = 1 := rfl
      simp only [e]; rw [if_neg (by decide)]; rfl
    | _ => exact absurd hv (by simp [isScalar])
  have hg : ¬ ((kindOf v).code = 10 ∨ (kindOf v).code = 9 ∨ (kindOf v).code = 8) := by
    cases v <;> simp [kindOf, FieldType.code]
  have hr : ∀ p (m : IndexMeta), handleValue env data line mp rec p m v (kindOf v).code d = (do
      (treeAt data env.parse m.width p).insert ⟨mp, v.bytes⟩ line
      return (valueTotal v mp.length, d)) := by
    intro p m
    unfold handleValue
    simp only
    rw [if_neg hg]
    cases v <;> first | rfl | exact absurd hv (by simp [isScalar])
  have := handleTypeSteps (line := line) (mp := mp) hi h hn (ty := (kindOf v).code) (v := v) (rec := rec) (d := d) (d' := d)
    (es := [(⟨mp, v.bytes⟩, line)]) (tot := valueTotal v mp.length) (ks := []) rfl (by
      intro k p m s' is' c' h' hk hm
      rw [hr, List.append_nil]
      have hmn : m.fieldName = name := by rw [hm]
      have hmt : m.fieldType = (kindOf v).code := by rw [hm]
      have hins := h'.insertSteps hk line (key := ⟨mp, v.bytes⟩) (by rw [hm]; exact hk0)
      rw [hmn, hmt] at hins
      have hmg := sameJobs_merge js name (kindOf v).code [] [((⟨mp, v.bytes⟩ : RV), line)] 0 0
      refine Steps.same (Steps.bind hins (Part.refl _) ?_) hmg
      intro a s2 is2 c2 h2 hq
      subst hq
      exact Steps.pure h2 ⟨rfl, Handles.refl _⟩)
  rwa [List.append_nil] at this

/-- The n-grams of a value. -/
theorem gramSteps (hi : i.tree = fileSlot) (h : JIs data env.parse id s fm is c js) {f : Field} (hn : f.name.length ≤ 236) {b : Bytes}
    {ty : FieldType} {n : Nat} (hty : (ty = .unigram ∧ n = 1) ∨ (ty = .bigram ∧ n = 2) ∨ (ty = .trigram ∧ n = 3))
    (rec : Dec → Act PF Dec) (d : Dec) (len : UInt32) :
    Steps data env.parse id fm (handleType env i data line f.name ⟨UInt64.ofNat (off + f.start), len⟩ rec (.str b) ty.code d) s
      (js ++ [gramJob env.nfkd off line f b ty n])
      (fun a is' => a = d ∧ Handles is is') := by
  have hc : ty.code = 10 ∨ ty.code = 9 ∨ ty.code = 8 := by
    rcases hty with ⟨rfl, _⟩ | ⟨rfl, _⟩ | ⟨rfl, _⟩ <;> simp [FieldType.code]
  have hw : (determineTypeByte ty.code - 1).toNat = n ∧ determineTypeByte ty.code ≠ 0 := by
    rcases hty with ⟨rfl, rfl⟩ | ⟨rfl, rfl⟩ | ⟨rfl, rfl⟩ <;> decide
  have := handleTypeSteps (line := line) (mp := ⟨UInt64.ofNat (off + f.start), len⟩) hi h hn (ty := ty.code) (v := .str b) (rec := rec) (d := d) (d' := d)
    (es := (gramJob env.nfkd off line f b ty n).entries) (tot := (gramJob env.nfkd off line f b ty n).total) (ks := []) rfl (by
      intro k p m s' is' c' h' hk hm
      unfold handleValue
      simp only
      rw [if_pos hc, List.append_nil]
      have hmn : m.fieldName = f.name := by rw [hm]
      have hmt : m.fieldType = ty.code := by rw [hm]
      have hmw : m.width = determineTypeByte ty.code := by rw [hm]
      have hwn : (m.width - 1).toNat = n := by rw [hmw]; exact hw.1
      have hins := insertGramsSteps (line := line) h' hk (by rw [hmw]; exact hw.2) ⟨UInt64.ofNat (off + f.start), len⟩ (UInt32.ofNat b.length)
        (buildNgram env.nfkd b (m.width - 1).toNat) (buildNgram_length _ _ _) 0
      rw [hwn] at hins ⊢
      rw [hmn, hmt] at hins
      have hmg := sameJobs_merge js f.name ty.code [] (gramJob env.nfkd off line f b ty n).entries 0 0
      refine Steps.same (Steps.bind hins (Part.refl _) ?_) hmg
      rintro a s2 is2 c2 h2 ⟨hq1, hq2⟩
      subst hq1
      subst hq2
      refine Steps.pure h2 ⟨?_, Handles.refl _⟩
      simp [gramJob])
  rwa [List.append_nil] at this

/-- An array. -/
theorem arraySteps {mp : MemPtr} (hi : i.tree = fileSlot) (h : JIs data env.parse id s fm is c js) {name : Bytes} (hn : name.length ≤ 236)
    (rec : Dec → Act PF Dec) {l r : List (Tok × Nat)} {em : Bool} (hl : Skips 1 l r) :
    Steps data env.parse id fm (handleType env i data line name mp rec .lbrack 5 ⟨l, em⟩) s
      (js ++ [⟨name, 5, [], 0⟩]) (fun a is' => a = ⟨r, em⟩ ∧ Handles is is') := by
  have := handleTypeSteps (line := line) (mp := mp) hi h hn (ty := 5) (v := .lbrack) (rec := rec) (d := ⟨l, em⟩) (d' := ⟨r, em⟩)
    (es := []) (tot := 0) (ks := []) rfl (by
      intro k p m s' is' c' h' hk hm
      unfold handleValue
      simp only
      rw [if_neg (by decide), hl.skip]
      exact Steps.pure (by simpa using h') ⟨rfl, Handles.refl _⟩)
  rwa [List.append_nil] at this

/-- An object. -/
theorem objectSteps {mp : MemPtr} (hi : i.tree = fileSlot) (h : JIs data env.parse id s fm is c js) {name : Bytes} (hn : name.length ≤ 236)
    {rec : Dec → Act PF Dec} {l r : List (Tok × Nat)} {em : Bool} {ks : List Job} (hks : ∀ j ∈ ks, j.name ≠ name)
    (hrec : ∀ (s' : PF) (is' : List (LP × IndexMeta)) (c' : Nat → List Entry), JIs data env.parse id s' fm is' c' (js ++ [⟨name, 4, [], 0⟩]) →
      Steps data env.parse id fm (rec ⟨l, em⟩) s' (js ++ [⟨name, 4, [], 0⟩] ++ ks)
        (fun a is'' => (∃ e, a = ⟨(.rbrace, e) :: r, em⟩) ∧ Handles is' is'')) :
    Steps data env.parse id fm (handleType env i data line name mp rec .lbrace 4 ⟨l, em⟩) s
      (js ++ [⟨name, 4, [], 0⟩] ++ ks) (fun a is' => a = ⟨r, em⟩ ∧ Handles is is') := by
  refine handleTypeSteps (line := line) (mp := mp) hi h hn (ty := 4) (v := .lbrace) (rec := rec) (d := ⟨l, em⟩) (d' := ⟨r, em⟩)
    (es := []) (tot := 0) (ks := ks) ?_ ?_
  · refine totalOf_none ?_
    intro hc
    obtain ⟨j, hj, he⟩ := List.mem_map.1 hc
    simp only [Prod.mk.injEq] at he
    exact hks j hj he.1
  · intro k p m s' is' c' h' hk hm
    unfold handleValue
    simp only
    rw [if_neg (by decide)]
    refine Steps.bind (hrec s' is' c' h') (Part.refl _) ?_
    rintro a s2 is2 c2 h2 ⟨⟨e, rfl⟩, hh⟩
    exact Steps.pure h2 ⟨rfl, hh⟩

/-- The position of the line in the file. -/
structure LineAt (data : Bytes) (off : Nat) (text : Bytes) (line : MemPtr) : Prop where
  slice : (data.drop off).take text.length = text
  len : off + text.length ≤ data.length
  small : text.length < 2 ^ 32
  data : data.length < 2 ^ 64
  line : line = ⟨UInt64.ofNat off, UInt32.ofNat text.length⟩

theorem LineAt.keyOK (hl : LineAt data off text line) {f : Field} (hf : FieldOK env.lex hs text f) {b : Bytes} (hb : f.tok = .str b) :
    KeyOK ⟨data, env.parse, 0⟩ ⟨valuePtr off f, b⟩ := by
  obtain ⟨e, r, he⟩ := hf.text b hb
  obtain ⟨h1, h2⟩ := hf.inside
  have l1 := hl.len; have l2 := hl.small; have l3 := hl.data
  have ho : (UInt64.ofNat (off + f.start)).toNat = off + f.start := by
    rw [UInt64.toNat_ofNat']; omega
  have hle : (UInt32.ofNat (f.stop - f.start)).toNat = f.stop - f.start := by
    rw [UInt32.toNat_ofNat']; omega
  unfold KeyOK valuePtr
  simp only [ho, hle, if_true]
  refine ⟨by omega, ?_⟩
  have hs2 : (data.drop (off + f.start)).take (f.stop - f.start) = (text.drop f.start).take (f.stop - f.start) := by
    conv => rhs; rw [← hl.slice]
    rw [List.drop_take, List.drop_drop, List.take_take]
    congr 1
    omega
  rw [hs2]
  unfold JEnv.parse
  rw [he]
  rfl

theorem handleTypes_one {mp : MemPtr} {name : Bytes} {rec : Dec → Act PF Dec} {v : Tok} {ty : UInt8} {d : Dec} :
    handleTypes env i data line name mp rec v [ty] d = (handleType env i data line name mp rec v ty d >>= fun d' => (return d' : Act PF Dec)) := rfl

/-- The fields of an object. -/
theorem objSteps (hi : i.tree = fileSlot) (hsi : i.searchHeaders = hs) (hl : LineAt data off text line) {path : List Bytes} {l r : List (Tok × Nat)}
    {fs : List Field} (ho : Obj path l fs r) (hf : ∀ f ∈ fs, FieldOK env.lex hs text f) (em : Bool) {fuel : Nat} (hfu : l.length ≤ fuel) 
    (h : JIs data env.parse id s fm is c js) :
    Steps data env.parse id fm (handleObj env i data line fuel path ⟨l, em⟩) s (js ++ fs.flatMap (fieldJobs env.nfkd hs off line))
      (fun a is' => (∃ e, a = ⟨(.rbrace, e) :: r, em⟩) ∧ Handles is is') := by
  induction ho generalizing fuel s is c js with
  | @close path e r =>
    obtain ⟨fuel, rfl⟩ : ∃ k, fuel = k + 1 := ⟨fuel - 1, by simp at hfu; omega⟩
    unfold handleObj
    rw [if_pos (by simp [Dec.more]), List.flatMap_nil, List.append_nil]
    exact Steps.pure h ⟨⟨e, rfl⟩, Handles.refl _⟩
  | @scalar path key ke ve v l r fs hv ho ih =>
    obtain ⟨fuel, rfl⟩ : ∃ k, fuel = k + 1 := ⟨fuel - 1, by simp at hfu; omega⟩
    simp only [List.length_cons] at hfu
    have hf0 := hf _ (List.mem_cons_self ..)
    have hmp : (⟨line.offset + UInt64.ofNat (ke + 1), UInt32.ofNat (((ve : Int) - ((ke + 1 : Nat) : Int)) % 2 ^ 32).toNat⟩ : MemPtr) =
        valuePtr off ⟨dotted (path ++ [key]), v, ke + 1, ve⟩ := by
      obtain ⟨h1, h2⟩ := hf0.inside
      simp only at h1 h2
      have l2 := hl.small
      unfold valuePtr
      rw [hl.line]
      simp only [MemPtr.mk.injEq]
      refine ⟨(UInt64.ofNat_add ..).symm, ?_⟩
      congr 1
      omega
    have hft : v.fieldType = some (kindOf v).code := by cases v <;> first | rfl | exact absurd hv (by simp [isScalar])
    unfold handleObj
    rw [if_neg (by simp [Dec.more])]
    simp only [hft, hmp, joinDots_eq]
    rw [List.flatMap_cons, ← List.append_assoc]
    refine Steps.bind (Q := fun a is' => a = ⟨l, em⟩ ∧ Handles is is') (js1 := js ++ fieldJobs env.nfkd hs off line ⟨dotted (path ++ [key]), v, ke + 1, ve⟩) ?_
      (Part.left _ _) ?_
    · have hsc := scalarSteps (line := line) (mp := valuePtr off ⟨dotted (path ++ [key]), v, ke + 1, ve⟩) hi h hf0.name hv
        (handleObj env i data line fuel (path ++ [key])) ⟨l, em⟩ (fun b hb => hl.keyOK hf0 hb)
      by_cases hse : i.isSearch (dotted (path ++ [key]))
      · have hin : dotted (path ++ [key]) ∈ hs := by
          unfold IndexFile.isSearch at hse
          rw [hsi] at hse
          simpa using hse
        obtain ⟨b, rfl⟩ := hf0.search hin
        unfold fieldJobs
        rw [if_pos hse]
        simp only [hin, hv, if_true]
        rw [show ∀ a b c d : Job, js ++ [a, b, c, d] = js ++ [a] ++ [b] ++ [c] ++ [d] by simp]
        refine Steps.bind hsc (Part.left3 _ _ _ _) ?_
        rintro a s1 is1 c1 h1 ⟨rfl, hh1⟩
        refine Steps.bind (gramSteps (off := off) (line := line) hi h1 (f := ⟨dotted (path ++ [key]), .str b, ke + 1, ve⟩) hf0.name
          (.inl ⟨rfl, rfl⟩) _ _ _) (Part.left2 _ _ _) ?_
        rintro a s2 is2 c2 h2 ⟨rfl, hh2⟩
        refine Steps.bind (gramSteps (off := off) (line := line) hi h2 (f := ⟨dotted (path ++ [key]), .str b, ke + 1, ve⟩) hf0.name
          (.inr (.inl ⟨rfl, rfl⟩)) _ _ _) (Part.left _ _) ?_
        rintro a s3 is3 c3 h3 ⟨rfl, hh3⟩
        refine Steps.bind (gramSteps (off := off) (line := line) hi h3 (f := ⟨dotted (path ++ [key]), .str b, ke + 1, ve⟩) hf0.name
          (.inr (.inr ⟨rfl, rfl⟩)) _ _ _) (Part.refl _) ?_
        rintro a s4 is4 c4 h4 ⟨rfl, hh4⟩
        exact Steps.pure h4 ⟨rfl, hh1.trans (hh2.trans (hh3.trans hh4))⟩
      · have hin : dotted (path ++ [key]) ∉ hs := by
          unfold IndexFile.isSearch at hse
          rw [hsi] at hse
          simpa using hse
        rw [if_neg hse]
        have hjobs : fieldJobs env.nfkd hs off line ⟨dotted (path ++ [key]), v, ke + 1, ve⟩ =
            [⟨dotted (path ++ [key]), (kindOf v).code, [(⟨valuePtr off ⟨dotted (path ++ [key]), v, ke + 1, ve⟩, v.bytes⟩, line)],
              valueTotal v (valuePtr off ⟨dotted (path ++ [key]), v, ke + 1, ve⟩).length⟩] := by
          unfold fieldJobs
          simp only [hv, if_true, valueBytes_eq]
          cases v <;> simp [hin]
        rw [hjobs, handleTypes_one]
        refine Steps.bind hsc (Part.refl _) ?_
        rintro a s1 is1 c1 h1 ⟨rfl, hh1⟩
        exact Steps.pure h1 ⟨rfl, hh1⟩
    · rintro a s1 is1 c1 h1 ⟨rfl, hh1⟩
      refine (ih (fun f hfm => hf f (List.mem_cons_of_mem _ hfm)) (by omega) h1).imp ?_
      rintro a is' ⟨he, hh2⟩
      exact ⟨he, hh1.trans hh2⟩
  | @array path key ke ve l m r fs hs' ho ih =>
    obtain ⟨fuel, rfl⟩ : ∃ k, fuel = k + 1 := ⟨fuel - 1, by simp at hfu; omega⟩
    simp only [List.length_cons] at hfu
    have hf0 := hf _ (List.mem_cons_self ..)
    have hin : ¬ i.isSearch (dotted (path ++ [key])) = true := by
      intro hse
      unfold IndexFile.isSearch at hse
      rw [hsi] at hse
      obtain ⟨b, hb⟩ := hf0.search (by simpa using hse)
      cases hb
    unfold handleObj
    rw [if_neg (by simp [Dec.more])]
    simp only [Tok.fieldType, joinDots_eq]
    rw [if_neg hin, List.flatMap_cons, ← List.append_assoc, handleTypes_one]
    refine Steps.bind (Q := fun a is' => a = ⟨m, em⟩ ∧ Handles is is')
      (js1 := js ++ fieldJobs env.nfkd hs off line ⟨dotted (path ++ [key]), .lbrack, ke + 1, ve⟩) ?_
      (Part.left _ _) ?_
    · refine Steps.bind (arraySteps (line := line) hi h hf0.name _ hs') (Part.refl _) ?_
      rintro a s1 is1 c1 h1 ⟨rfl, hh1⟩
      exact Steps.pure h1 ⟨rfl, hh1⟩
    · rintro a s1 is1 c1 h1 ⟨rfl, hh1⟩
      have := hs'.length_le
      refine (ih (fun f hfm => hf f (List.mem_cons_of_mem _ hfm)) (by omega) h1).imp ?_
      rintro a is' ⟨he, hh2⟩
      exact ⟨he, hh1.trans hh2⟩
  | @object path key ke ve l m r fs gs hn' ho ih1 ih2 =>
    obtain ⟨fuel, rfl⟩ : ∃ k, fuel = k + 1 := ⟨fuel - 1, by simp at hfu; omega⟩
    simp only [List.length_cons] at hfu
    have hf0 := hf _ (List.mem_cons_self ..)
    have hin : ¬ i.isSearch (dotted (path ++ [key])) = true := by
      intro hse
      unfold IndexFile.isSearch at hse
      rw [hsi] at hse
      obtain ⟨b, hb⟩ := hf0.search (by simpa using hse)
      cases hb
    unfold handleObj
    rw [if_neg (by simp [Dec.more])]
    simp only [Tok.fieldType, joinDots_eq]
    rw [if_neg hin, List.flatMap_cons, List.flatMap_append, ← List.append_assoc, ← List.append_assoc, handleTypes_one]
    refine Steps.bind (Q := fun a is' => a = ⟨m, em⟩ ∧ Handles is is')
      (js1 := js ++ fieldJobs env.nfkd hs off line ⟨dotted (path ++ [key]), .lbrace, ke + 1, ve⟩ ++ gs.flatMap (fieldJobs env.nfkd hs off line)) ?_
      (Part.left _ _) ?_
    · refine Steps.bind (objectSteps (line := line) (r := m) (ks := gs.flatMap (fieldJobs env.nfkd hs off line)) hi h hf0.name ?_ ?_) (Part.refl _) ?_
      · intro j hj hc
        obtain ⟨f, hfm, hj⟩ := List.mem_flatMap.1 hj
        have h1 := hn'.names (by simp) f hfm
        rw [fieldJobs_name j hj] at hc
        rw [hc] at h1
        exact absurd h1 (Nat.lt_irrefl _)
      · intro s' is' c' h'
        exact ih1 (fun f hfm => hf f (List.mem_cons_of_mem _ (List.mem_append_left _ hfm))) (by omega) h'
      · rintro a s1 is1 c1 h1 ⟨rfl, hh1⟩
        exact Steps.pure h1 ⟨rfl, hh1⟩
    · rintro a s1 is1 c1 h1 ⟨rfl, hh1⟩
      have := hn'.length_lt
      refine (ih2 (fun f hfm => hf f (List.mem_cons_of_mem _ (List.mem_append_right _ hfm))) (by omega) h1).imp ?_
      rintro a is' ⟨he, hh2⟩
      exact ⟨he, hh1.trans hh2⟩

end
end Appendable
