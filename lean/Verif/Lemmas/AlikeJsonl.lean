import Verif.Lemmas.AlikeIndex
/-! The JSON lines handler on two index files that differ at most in the file metadata, the second with a longer data file. -/
namespace Appendable
open Spec Tree

section
variable {H1 H2 : Bytes} {fm2 : FileMeta} {data : Bytes} {parse : Bytes → Bytes} {wd : UInt16 → UInt16} {s s2 : PF} {fm : FileMeta} {is : List (LP × IndexMeta)}
  {c : Nat → List Entry} {js : List Job} {i : IndexFile} {α β : Type}

/-- The program `m` on `s` writes jobs, and `m2` on `s2` does the same as `m`. -/
def Steps2 (H1 H2 : Bytes) (data : Bytes) (parse : Bytes → Bytes) (wd : UInt16 → UInt16) (fm : FileMeta) (m m2 : Act PF α) (s s2 : PF) (js : List Job)
    (Q : α → List (LP × IndexMeta) → Prop) : Prop :=
  Steps data parse wd fm m s js Q ∧ RelAt H1 H2 m m2 s s2

theorem Steps2.bind {m m2 : Act PF α} {f f2 : α → Act PF β} {js1 js2 : List Job} {Q : α → List (LP × IndexMeta) → Prop}
    {R : β → List (LP × IndexMeta) → Prop} (h : Steps2 H1 H2 data parse wd fm m m2 s s2 js1 Q) (hd : Part js1 js2)
    (g : ∀ a s' is' c', JIs data parse wd s' fm is' c' js1 → Q a is' → ∀ t', Alike H1 H2 s' t' →
      Steps2 H1 H2 data parse wd fm (f a) (f2 a) s' t' js2 R) :
    Steps2 H1 H2 data parse wd fm (m >>= f) (m2 >>= f2) s s2 js2 R := by
  obtain ⟨h1, h2⟩ := h
  rcases h1 with ⟨a, s', is', c', e1, e2, e3⟩ | ⟨s', e1, e2⟩ | ⟨s', e1, e2⟩
  · obtain ⟨t', k1, k2⟩ := h2 a s' e1
    obtain ⟨g1, g2⟩ := g a s' is' c' e2 e3 t' k2
    refine ⟨?_, ?_⟩
    · rcases g1 with ⟨b, s2, is2, c2, g1, g2, g3⟩ | ⟨s2, g1, g2⟩ | ⟨s2, g1, g2⟩
      · exact .inl ⟨b, s2, is2, c2, by rw [Act.bind_ok e1, g1], g2, g3⟩
      · exact .inr (.inl ⟨s2, by rw [Act.bind_ok e1, g1], g2⟩)
      · exact .inr (.inr ⟨s2, by rw [Act.bind_ok e1, g1], g2⟩)
    · intro y u hy
      rw [Act.bind_ok e1] at hy
      obtain ⟨u2, r1, r2⟩ := g2 y u hy
      exact ⟨u2, by rw [Act.bind_ok k1]; exact r1, r2⟩
  · refine ⟨.inr (.inl ⟨s', by rw [Act.bind_err e1], fun hc => e2 (hd.distinct hc)⟩), ?_⟩
    intro y u hy; rw [Act.bind_err e1] at hy; cases hy
  · refine ⟨.inr (.inr ⟨s', by rw [Act.bind_err e1], e2.mono hd⟩), ?_⟩
    intro y u hy; rw [Act.bind_err e1] at hy; cases hy

theorem Steps2.pure {a : α} {Q : α → List (LP × IndexMeta) → Prop} (ha : Alike H1 H2 s s2) (h : JIs data parse wd s fm is c js) (hq : Q a is) :
    Steps2 H1 H2 data parse wd fm (Pure.pure a : Act PF α) (Pure.pure a) s s2 js Q := ⟨Steps.pure h hq, RelAt.pure ha a⟩

theorem Steps2.imp {m m2 : Act PF α} {Q R : α → List (LP × IndexMeta) → Prop} (h : Steps2 H1 H2 data parse wd fm m m2 s s2 js Q)
    (hi : ∀ a is', Q a is' → R a is') : Steps2 H1 H2 data parse wd fm m m2 s s2 js R := ⟨h.1.imp hi, h.2⟩

theorem Steps2.same {m m2 : Act PF α} {Q : α → List (LP × IndexMeta) → Prop} {ks : List Job} (h : Steps2 H1 H2 data parse wd fm m m2 s s2 js Q)
    (hs : SameJobs js ks) : Steps2 H1 H2 data parse wd fm m m2 s s2 ks Q := ⟨h.1.same hs, h.2⟩

theorem JIs.findSteps2 (ha : Alike H1 H2 s s2) (h2 : HeadIs H2 fm2) (h : JIs data parse wd s fm is c js) (hi : i.tree = fileSlot) (hw : SmallWidths wd) {name : Bytes}
    (hn : name.length ≤ 236) (ty : UInt8) :
    Steps2 H1 H2 data parse wd fm (i.findOrCreate name ty) (i.findOrCreate name ty) s s2 (js ++ [⟨name, ty, [], 0⟩]) (fun a is' =>
      a.2 = ⟨name, ty, determineTypeByte ty, totalOf js name ty⟩ ∧ (∃ k : Nat, is'[k]? = some a) ∧ Handles is is') :=
  ⟨h.findSteps hi hw hn ty, findOrCreate_alike h.idx ha h2 hi name ty⟩

theorem JIs.insertSteps2 (ha : Alike H1 H2 s s2) (more : Bytes) (h : JIs data parse wd s fm is c js) {k : Nat} {p : LP} {m : IndexMeta} (hk : is[k]? = some (p, m))
    {key : RV} (v : MemPtr) (hko : KeyOK ⟨data, parse, wd m.width⟩ key) :
    Steps2 H1 H2 data parse wd fm ((treeAt data parse (wd m.width) p).insert key v) ((treeAt (data ++ more) parse (wd m.width) p).insert key v) s s2
      (js ++ [⟨m.fieldName, m.fieldType, [(key, v)], 0⟩]) (fun _ is' => is' = is) :=
  ⟨h.insertSteps hk v hko, h.idx.insert_alike ha more hk key v⟩

theorem JIs.setTotal2 (ha : Alike H1 H2 s s2) (h : JIs data parse wd s fm is c js) {k : Nat} {p : LP} {m : IndexMeta} (hk : is[k]? = some (p, m)) (n : UInt64) :
    RelAt H1 H2 (do let buf ← Act.lift { m with totalLen := m.totalLen + n }.marshal
                    p.setMetadata buf : Act PF Unit)
      (do let buf ← Act.lift { m with totalLen := m.totalLen + n }.marshal
          p.setMetadata buf : Act PF Unit) s s2 := by
  obtain ⟨o, j, ho⟩ := h.idx.other hk
  refine RelAt.bind (RelAt.lift ha _) (fun b t3 t4 e3 _ hc => ?_)
  have et : t3 = s := by
    cases hm : ({ m with totalLen := m.totalLen + n } : IndexMeta).marshal <;> rw [hm] at e3 <;> cases e3
    rfl
  subst et
  exact lp_setMetadata_alike hc ho b

end

section
variable {H1 H2 : Bytes} {fm2 : FileMeta} {env : JEnv} {i : IndexFile} {data more text : Bytes} {off : Nat} {line : MemPtr} {fm : FileMeta} {hs : List Bytes}
  {s s2 : PF} {is : List (LP × IndexMeta)} {c : Nat → List Entry} {js : List Job}

theorem insertGramsSteps2 {parse : Bytes → Bytes} (ha : Alike H1 H2 s s2) (h : JIs data parse id s fm is c js) {k : Nat} {p : LP} {m : IndexMeta} (hk : is[k]? = some (p, m))
    (hw : m.width ≠ 0) (mp : MemPtr) (len : UInt32) (gs : List Token) (hg : ∀ g ∈ gs, g.word.length = (m.width - 1).toNat) (total : UInt64) :
    Steps2 H1 H2 data parse id fm (insertGrams (treeAt data parse m.width p) mp len line gs total)
      (insertGrams (treeAt (data ++ more) parse m.width p) mp len line gs total) s s2
      (js ++ [⟨m.fieldName, m.fieldType, gs.map (fun g => (⟨⟨mp.offset + g.offset, len⟩, g.word⟩, line)), 0⟩])
      (fun a is' => a = total + (gs.map (fun g => g.length.toUInt64)).foldr (· + ·) 0 ∧ is' = is) := by
  induction gs generalizing s s2 c js total with
  | nil =>
    unfold insertGrams
    exact (Steps2.pure ha h (by simp)).same (sameJobs_noop (h.known hk)).symm
  | cons g gs ih =>
    unfold insertGrams
    have hko : KeyOK ⟨data, parse, m.width⟩ ⟨⟨mp.offset + g.offset, len⟩, g.word⟩ := by
      unfold KeyOK
      rw [if_neg hw]
      exact hg g (List.mem_cons_self ..)
    have hins := h.insertSteps2 ha more hk line hko
    have hm := sameJobs_merge js m.fieldName m.fieldType [(⟨⟨mp.offset + g.offset, len⟩, g.word⟩, line)]
        (gs.map (fun g => ((⟨⟨mp.offset + g.offset, len⟩, g.word⟩ : RV), line))) 0 0
    refine (Steps2.bind hins ?_ ?_).same hm
    · exact Part.left _ _
    · intro a s' is' c' h' hq t' ha'
      subst hq
      refine (ih ha' h' (fun g' hg' => hg g' (List.mem_cons_of_mem _ hg')) (total + g.length.toUInt64)).imp ?_
      intro a is' hq
      refine ⟨?_, hq.2⟩
      rw [hq.1]
      simp [UInt64.add_assoc]

/-- One round of the loop over the field types. -/
theorem handleTypeSteps2 {mp : MemPtr} (hH : HeadIs H2 fm2) (ha : Alike H1 H2 s s2) (hi : i.tree = fileSlot) (h : JIs data env.parse id s fm is c js) {name : Bytes} (hn : name.length ≤ 236) {ty : UInt8} {v : Tok}
    {rec rec2 : Dec → Act PF Dec} {d d' : Dec} {es : List Entry} {tot : UInt64} {ks : List Job} (hks : totalOf ks name ty = 0)
    (hv : ∀ (k : Nat) (p : LP) (m : IndexMeta) (s' t' : PF) (is' : List (LP × IndexMeta)) (c' : Nat → List Entry), Alike H1 H2 s' t' →
      JIs data env.parse id s' fm is' c' (js ++ [⟨name, ty, [], 0⟩]) → is'[k]? = some (p, m) →
      m = ⟨name, ty, determineTypeByte ty, totalOf js name ty⟩ →
      Steps2 H1 H2 data env.parse id fm (handleValue env data line mp rec p m v ty d) (handleValue env (data ++ more) line mp rec2 p m v ty d) s' t' (js ++ [⟨name, ty, es, 0⟩] ++ ks)
        (fun a is'' => a = (tot, d') ∧ Handles is' is'')) :
    Steps2 H1 H2 data env.parse id fm (handleType env i data line name mp rec v ty d) (handleType env i (data ++ more) line name mp rec2 v ty d) s s2 (js ++ [⟨name, ty, es, tot⟩] ++ ks)
      (fun a is' => a = d' ∧ Handles is is') := by
  unfold handleType
  have hfin : SameJobs (js ++ [⟨name, ty, es, 0⟩] ++ ks ++ [⟨name, ty, [], tot⟩]) (js ++ [⟨name, ty, es, tot⟩] ++ ks) := by
    refine ⟨?_, ?_, ?_⟩
    · unfold indexesOf
      rw [List.map_append, List.map_cons, List.map_nil, firstOccurrences_snoc_old (by simp)]
      simp
    · intro n t; simp only [entriesOf_append]; simp [entriesOf]
    · intro n t
      simp only [totalOf_append]
      simp only [totalOf, UInt64.add_zero, ite_self]
      rw [UInt64.add_assoc, UInt64.add_assoc, UInt64.add_comm (totalOf ks n t)]
  refine Steps2.bind (h.findSteps2 ha hH hi smallWidths_id hn ty) ?_ ?_
  · exact Part.opened _ _ _ _ _ _
  · rintro ⟨p, m⟩ s1 is1 c1 h1 ⟨hm, ⟨k, hk⟩, hh1⟩ t1 ha1
    simp only at hm
    refine Steps2.bind (hv k p m s1 t1 is1 c1 ha1 h1 hk hm) (Part.total _ _ _ _ _ _ _) ?_
    · rintro ⟨n2, d2⟩ s2 is2 c2 h2 ⟨he, hh2⟩ t2 ha2
      simp only [Prod.mk.injEq] at he
      obtain ⟨rfl, rfl⟩ := he
      obtain ⟨m', hk', hn', ht'⟩ := hh2 k p m hk
      have hm' : m' = m := by
        have := (h2.done.each k p m' hk').1
        rw [this, hn', ht', hm]
        simp only [totalOf_append, hks]
        simp [totalOf]
      subst hm'
      obtain ⟨s3, is3, e1, e2, e3⟩ := h2.setTotal hk' n2
      have hnm : m'.fieldName = name := by rw [hm]
      have htm : m'.fieldType = ty := by rw [hm]
      rw [hnm, htm] at e2
      have hrel := h2.setTotal2 ha2 hk' n2
      have hb : ∀ u : PF, (do
          let buf ← Act.lift { m' with totalLen := m'.totalLen + n2 }.marshal
          p.setMetadata buf
          return d2 : Act PF Dec) u = ((do
            let buf ← Act.lift { m' with totalLen := m'.totalLen + n2 }.marshal
            p.setMetadata buf : Act PF Unit) >>= fun _ => (return d2 : Act PF Dec)) u := by
        intro u
        simp only [Act.bind_def, Act.lift_run]
        cases ({ m' with totalLen := m'.totalLen + n2 } : IndexMeta).marshal <;> rfl
      refine ⟨.inl ⟨d2, s3, is3, c2, ?_, e2.same hfin, rfl, hh1.trans (hh2.trans e3)⟩, ?_⟩
      · show (do let buf ← Act.lift { m' with totalLen := m'.totalLen + n2 }.marshal
                 p.setMetadata buf
                 return d2 : Act PF Dec) s2 = _
        rw [hb, Act.bind_ok e1]
        rfl
      · obtain ⟨t3, k1, k2⟩ := hrel () s3 e1
        refine RelAt.of (x := d2) (t1 := s3) (t2 := t3) ?_ ?_ k2
        · show (do let buf ← Act.lift { m' with totalLen := m'.totalLen + n2 }.marshal
                   p.setMetadata buf
                   return d2 : Act PF Dec) s2 = _
          rw [hb, Act.bind_ok e1]
          rfl
        · show (do let buf ← Act.lift { m' with totalLen := m'.totalLen + n2 }.marshal
                   p.setMetadata buf
                   return d2 : Act PF Dec) t2 = _
          rw [hb, Act.bind_ok k1]
          rfl

/-- A scalar value. -/
theorem scalarSteps2 {mp : MemPtr} (hH : HeadIs H2 fm2) (ha : Alike H1 H2 s s2) (hi : i.tree = fileSlot) (h : JIs data env.parse id s fm is c js) {name : Bytes} (hn : name.length ≤ 236) {v : Tok}
    (hv : isScalar v) (rec rec2 : Dec → Act PF Dec) (d : Dec)
    (hko : ∀ b, v = .str b → KeyOK ⟨data, env.parse, 0⟩ ⟨mp, b⟩) :
    Steps2 H1 H2 data env.parse id fm (handleType env i data line name mp rec v (kindOf v).code d) (handleType env i (data ++ more) line name mp rec2 v (kindOf v).code d) s s2
      (js ++ [⟨name, (kindOf v).code, [(⟨mp, v.bytes⟩, line)], valueTotal v mp.length⟩])
      (fun a is' => a = d ∧ Handles is is') := by
  have hk0 : KeyOK ⟨data, env.parse, determineTypeByte (kindOf v).code⟩ ⟨mp, v.bytes⟩ := by
    cases v with
    | str b => exact hko b rfl
    | num b =>
      unfold KeyOK
      have e : determineTypeByte (kindOf (Tok.num b)).code = 9 := rfl
      simp only [e]; rw [if_neg (by decide)]; show (beBytes 8 b.toNat).length = (9 - 1 : UInt16).toNat; unfold beBytes; simp [leBytes]
    | bool b =>
      unfold KeyOK
      have e : determineTypeByte (kindOf (Tok.bool b)).code = 2 := rfl
      simp only [e]; rw [if_neg (by decide)]; cases b <;> rfl
    | null =>
      unfold KeyOK
      have e : determineTypeByte (kindOf Tok.null).code = 1 := rfl
      simp only [e]; rw [if_neg (by decide)]; rfl
    | _ => exact absurd hv (by simp [isScalar])
  have hg : ¬ ((kindOf v).code = 10 ∨ (kindOf v).code = 9 ∨ (kindOf v).code = 8) := by
    cases v <;> simp [kindOf, FieldType.code]
  have hr : ∀ (data : Bytes) (rec : Dec → Act PF Dec) p (m : IndexMeta), handleValue env data line mp rec p m v (kindOf v).code d = (do
      (treeAt data env.parse m.width p).insert ⟨mp, v.bytes⟩ line
      return (valueTotal v mp.length, d)) := by
    intro data rec p m
    unfold handleValue
    simp only
    rw [if_neg hg]
    cases v <;> first | rfl | exact absurd hv (by simp [isScalar])
  have := handleTypeSteps2 (line := line) (mp := mp) (more := more) hH ha hi h hn (ty := (kindOf v).code) (v := v) (rec := rec) (rec2 := rec2) (d := d) (d' := d)
    (es := [(⟨mp, v.bytes⟩, line)]) (tot := valueTotal v mp.length) (ks := []) rfl (by
      intro k p m s' t' is' c' ha h' hk hm
      rw [hr, hr, List.append_nil]
      have hmn : m.fieldName = name := by rw [hm]
      have hmt : m.fieldType = (kindOf v).code := by rw [hm]
      have hins := h'.insertSteps2 ha more hk line (key := ⟨mp, v.bytes⟩) (by rw [hm]; exact hk0)
      rw [hmn, hmt] at hins
      have hmg := sameJobs_merge js name (kindOf v).code [] [((⟨mp, v.bytes⟩ : RV), line)] 0 0
      refine Steps2.same (Steps2.bind hins (Part.refl _) ?_) hmg
      intro a s2 is2 c2 h2 hq t2 ha2
      subst hq
      exact Steps2.pure ha2 h2 ⟨rfl, Handles.refl _⟩)
  rwa [List.append_nil] at this

/-- The n-grams of a value. -/
theorem gramSteps2 (hH : HeadIs H2 fm2) (ha : Alike H1 H2 s s2) (hi : i.tree = fileSlot) (h : JIs data env.parse id s fm is c js) {f : Field} (hn : f.name.length ≤ 236) {b : Bytes}
    {ty : FieldType} {n : Nat} (hty : (ty = .unigram ∧ n = 1) ∨ (ty = .bigram ∧ n = 2) ∨ (ty = .trigram ∧ n = 3))
    (rec rec2 : Dec → Act PF Dec) (d : Dec) (len : UInt32) :
    Steps2 H1 H2 data env.parse id fm (handleType env i data line f.name ⟨UInt64.ofNat (off + f.start), len⟩ rec (.str b) ty.code d)
      (handleType env i (data ++ more) line f.name ⟨UInt64.ofNat (off + f.start), len⟩ rec2 (.str b) ty.code d) s s2
      (js ++ [gramJob env.nfkd off line f b ty n])
      (fun a is' => a = d ∧ Handles is is') := by
  have hc : ty.code = 10 ∨ ty.code = 9 ∨ ty.code = 8 := by
    rcases hty with ⟨rfl, _⟩ | ⟨rfl, _⟩ | ⟨rfl, _⟩ <;> simp [FieldType.code]
  have hw : (determineTypeByte ty.code - 1).toNat = n ∧ determineTypeByte ty.code ≠ 0 := by
    rcases hty with ⟨rfl, rfl⟩ | ⟨rfl, rfl⟩ | ⟨rfl, rfl⟩ <;> decide
  have := handleTypeSteps2 (line := line) (mp := ⟨UInt64.ofNat (off + f.start), len⟩) (more := more) hH ha hi h hn (ty := ty.code) (v := .str b) (rec := rec) (rec2 := rec2) (d := d) (d' := d)
    (es := (gramJob env.nfkd off line f b ty n).entries) (tot := (gramJob env.nfkd off line f b ty n).total) (ks := []) rfl (by
      intro k p m s' t' is' c' ha h' hk hm
      unfold handleValue
      simp only
      rw [if_pos hc, if_pos hc, List.append_nil]
      have hmn : m.fieldName = f.name := by rw [hm]
      have hmt : m.fieldType = ty.code := by rw [hm]
      have hmw : m.width = determineTypeByte ty.code := by rw [hm]
      have hwn : (m.width - 1).toNat = n := by rw [hmw]; exact hw.1
      have hins := insertGramsSteps2 (line := line) (more := more) ha h' hk (by rw [hmw]; exact hw.2) ⟨UInt64.ofNat (off + f.start), len⟩ (UInt32.ofNat b.length)
        (buildNgram env.nfkd b (m.width - 1).toNat) (buildNgram_length _ _ _) 0
      rw [hwn] at hins ⊢
      rw [hmn, hmt] at hins
      have hmg := sameJobs_merge js f.name ty.code [] (gramJob env.nfkd off line f b ty n).entries 0 0
      refine Steps2.same (Steps2.bind hins (Part.refl _) ?_) hmg
      rintro a s2 is2 c2 h2 ⟨hq1, hq2⟩ t2 ha2
      subst hq1
      subst hq2
      refine Steps2.pure ha2 h2 ⟨?_, Handles.refl _⟩
      simp [gramJob])
  rwa [List.append_nil] at this

/-- An array. -/
theorem arraySteps2 {mp : MemPtr} (hH : HeadIs H2 fm2) (ha : Alike H1 H2 s s2) (hi : i.tree = fileSlot) (h : JIs data env.parse id s fm is c js) {name : Bytes} (hn : name.length ≤ 236)
    (rec rec2 : Dec → Act PF Dec) {l r : List (Tok × Nat)} {em : Bool} (hl : Skips 1 l r) :
    Steps2 H1 H2 data env.parse id fm (handleType env i data line name mp rec .lbrack 5 ⟨l, em⟩) (handleType env i (data ++ more) line name mp rec2 .lbrack 5 ⟨l, em⟩) s s2
      (js ++ [⟨name, 5, [], 0⟩]) (fun a is' => a = ⟨r, em⟩ ∧ Handles is is') := by
  have := handleTypeSteps2 (line := line) (mp := mp) (more := more) hH ha hi h hn (ty := 5) (v := .lbrack) (rec := rec) (rec2 := rec2) (d := ⟨l, em⟩) (d' := ⟨r, em⟩)
    (es := []) (tot := 0) (ks := []) rfl (by
      intro k p m s' t' is' c' ha h' hk hm
      unfold handleValue
      simp only
      rw [if_neg (by decide), hl.skip]
      exact Steps2.pure ha (by simpa using h') ⟨rfl, Handles.refl _⟩)
  rwa [List.append_nil] at this

/-- An object. -/
theorem objectSteps2 {mp : MemPtr} (hH : HeadIs H2 fm2) (ha : Alike H1 H2 s s2) (hi : i.tree = fileSlot) (h : JIs data env.parse id s fm is c js) {name : Bytes} (hn : name.length ≤ 236)
    {rec rec2 : Dec → Act PF Dec} {l r : List (Tok × Nat)} {em : Bool} {ks : List Job} (hks : ∀ j ∈ ks, j.name ≠ name)
    (hrec : ∀ (s' t' : PF) (is' : List (LP × IndexMeta)) (c' : Nat → List Entry), Alike H1 H2 s' t' → JIs data env.parse id s' fm is' c' (js ++ [⟨name, 4, [], 0⟩]) →
      Steps2 H1 H2 data env.parse id fm (rec ⟨l, em⟩) (rec2 ⟨l, em⟩) s' t' (js ++ [⟨name, 4, [], 0⟩] ++ ks)
        (fun a is'' => (∃ e, a = ⟨(.rbrace, e) :: r, em⟩) ∧ Handles is' is'')) :
    Steps2 H1 H2 data env.parse id fm (handleType env i data line name mp rec .lbrace 4 ⟨l, em⟩) (handleType env i (data ++ more) line name mp rec2 .lbrace 4 ⟨l, em⟩) s s2
      (js ++ [⟨name, 4, [], 0⟩] ++ ks) (fun a is' => a = ⟨r, em⟩ ∧ Handles is is') := by
  refine handleTypeSteps2 (line := line) (mp := mp) (more := more) hH ha hi h hn (ty := 4) (v := .lbrace) (rec := rec) (rec2 := rec2) (d := ⟨l, em⟩) (d' := ⟨r, em⟩)
    (es := []) (tot := 0) (ks := ks) ?_ ?_
  · refine totalOf_none ?_
    intro hc
    obtain ⟨j, hj, he⟩ := List.mem_map.1 hc
    simp only [Prod.mk.injEq] at he
    exact hks j hj he.1
  · intro k p m s' t' is' c' ha h' hk hm
    unfold handleValue
    simp only
    rw [if_neg (by decide), if_neg (by decide)]
    refine Steps2.bind (hrec s' t' is' c' ha h') (Part.refl _) ?_
    rintro a s2 is2 c2 h2 ⟨⟨e, rfl⟩, hh⟩ t2 ha2
    exact Steps2.pure ha2 h2 ⟨rfl, hh⟩

/-- The fields of an object. -/
theorem objSteps2 (hH : HeadIs H2 fm2) (ha : Alike H1 H2 s s2) (hi : i.tree = fileSlot) (hsi : i.searchHeaders = hs) (hl : LineAt data off text line) {path : List Bytes} {l r : List (Tok × Nat)}
    {fs : List Field} (ho : Obj path l fs r) (hf : ∀ f ∈ fs, FieldOK env.lex hs text f) (em : Bool) {fuel : Nat} (hfu : l.length ≤ fuel) 
    (h : JIs data env.parse id s fm is c js) :
    Steps2 H1 H2 data env.parse id fm (handleObj env i data line fuel path ⟨l, em⟩) (handleObj env i (data ++ more) line fuel path ⟨l, em⟩) s s2 (js ++ fs.flatMap (fieldJobs env.nfkd hs off line))
      (fun a is' => (∃ e, a = ⟨(.rbrace, e) :: r, em⟩) ∧ Handles is is') := by
  induction ho generalizing fuel s s2 is c js with
  | @close path e r =>
    obtain ⟨fuel, rfl⟩ : ∃ k, fuel = k + 1 := ⟨fuel - 1, by simp at hfu; omega⟩
    unfold handleObj
    rw [if_pos (by simp [Dec.more]), List.flatMap_nil, List.append_nil]
    exact Steps2.pure ha h ⟨⟨e, rfl⟩, Handles.refl _⟩
  | @scalar path key ke ve v l r fs hv ho ih =>
    obtain ⟨fuel, rfl⟩ : ∃ k, fuel = k + 1 := ⟨fuel - 1, by simp at hfu; omega⟩
    simp only [List.length_cons] at hfu
    have hf0 := hf _ (List.mem_cons_self ..)
    have hmp : (⟨line.offset + UInt64.ofNat (ke + 1), UInt32.ofNat (((ve : Int) - ((ke + 1 : Nat) : Int)) % 2 ^ 32).toNat⟩ : MemPtr) =
        valuePtr off ⟨dotted (path ++ [key]), v, ke + 1, ve⟩ := by
      obtain ⟨h1, h2⟩ := hf0.inside
      simp only at h1 h2
      have l2 := hl.small
      unfold valuePtr
      rw [hl.line]
      simp only [MemPtr.mk.injEq]
      refine ⟨(UInt64.ofNat_add ..).symm, ?_⟩
      congr 1
      omega
    have hft : v.fieldType = some (kindOf v).code := by cases v <;> first | rfl | exact absurd hv (by simp [isScalar])
    unfold handleObj
    rw [if_neg (by simp [Dec.more]), if_neg (by simp [Dec.more])]
    simp only [hft, hmp, joinDots_eq]
    rw [List.flatMap_cons, ← List.append_assoc]
    refine Steps2.bind (Q := fun a is' => a = ⟨l, em⟩ ∧ Handles is is') (js1 := js ++ fieldJobs env.nfkd hs off line ⟨dotted (path ++ [key]), v, ke + 1, ve⟩) ?_
      (Part.left _ _) ?_
    · have hsc := scalarSteps2 (line := line) (more := more) (mp := valuePtr off ⟨dotted (path ++ [key]), v, ke + 1, ve⟩) hH ha hi h hf0.name hv
        (handleObj env i data line fuel (path ++ [key])) (handleObj env i (data ++ more) line fuel (path ++ [key])) ⟨l, em⟩ (fun b hb => hl.keyOK hf0 hb)
      by_cases hse : i.isSearch (dotted (path ++ [key]))
      · have hin : dotted (path ++ [key]) ∈ hs := by
          unfold IndexFile.isSearch at hse
          rw [hsi] at hse
          simpa using hse
        obtain ⟨b, rfl⟩ := hf0.search hin
        unfold fieldJobs
        rw [if_pos hse]
        simp only [hin, hv, if_true]
        rw [show ∀ a b c d : Job, js ++ [a, b, c, d] = js ++ [a] ++ [b] ++ [c] ++ [d] by simp]
        refine Steps2.bind hsc (Part.left3 _ _ _ _) ?_
        rintro a s1 is1 c1 h1 ⟨rfl, hh1⟩ t1 ha1
        refine Steps2.bind (gramSteps2 (off := off) (line := line) (more := more) hH ha1 hi h1 (f := ⟨dotted (path ++ [key]), .str b, ke + 1, ve⟩) hf0.name
          (.inl ⟨rfl, rfl⟩) _ _ _ _) (Part.left2 _ _ _) ?_
        rintro a s2 is2 c2 h2 ⟨rfl, hh2⟩ t2 ha2
        refine Steps2.bind (gramSteps2 (off := off) (line := line) (more := more) hH ha2 hi h2 (f := ⟨dotted (path ++ [key]), .str b, ke + 1, ve⟩) hf0.name
          (.inr (.inl ⟨rfl, rfl⟩)) _ _ _ _) (Part.left _ _) ?_
        rintro a s3 is3 c3 h3 ⟨rfl, hh3⟩ t3 ha3
        refine Steps2.bind (gramSteps2 (off := off) (line := line) (more := more) hH ha3 hi h3 (f := ⟨dotted (path ++ [key]), .str b, ke + 1, ve⟩) hf0.name
          (.inr (.inr ⟨rfl, rfl⟩)) _ _ _ _) (Part.refl _) ?_
        rintro a s4 is4 c4 h4 ⟨rfl, hh4⟩ t4 ha4
        exact Steps2.pure ha4 h4 ⟨rfl, hh1.trans (hh2.trans (hh3.trans hh4))⟩
      · have hin : dotted (path ++ [key]) ∉ hs := by
          unfold IndexFile.isSearch at hse
          rw [hsi] at hse
          simpa using hse
        rw [if_neg hse]
        have hjobs : fieldJobs env.nfkd hs off line ⟨dotted (path ++ [key]), v, ke + 1, ve⟩ =
            [⟨dotted (path ++ [key]), (kindOf v).code, [(⟨valuePtr off ⟨dotted (path ++ [key]), v, ke + 1, ve⟩, v.bytes⟩, line)],
              valueTotal v (valuePtr off ⟨dotted (path ++ [key]), v, ke + 1, ve⟩).length⟩] := by
          unfold fieldJobs
          simp only [hv, if_true, valueBytes_eq]
          cases v <;> simp [hin]
        rw [hjobs, handleTypes_one, handleTypes_one]
        refine Steps2.bind hsc (Part.refl _) ?_
        rintro a s1 is1 c1 h1 ⟨rfl, hh1⟩ t1 ha1
        exact Steps2.pure ha1 h1 ⟨rfl, hh1⟩
    · rintro a s1 is1 c1 h1 ⟨rfl, hh1⟩ t1 ha1
      refine (ih ha1 (fun f hfm => hf f (List.mem_cons_of_mem _ hfm)) (by omega) h1).imp ?_
      rintro a is' ⟨he, hh2⟩
      exact ⟨he, hh1.trans hh2⟩
  | @array path key ke ve l m r fs hs' ho ih =>
    obtain ⟨fuel, rfl⟩ : ∃ k, fuel = k + 1 := ⟨fuel - 1, by simp at hfu; omega⟩
    simp only [List.length_cons] at hfu
    have hf0 := hf _ (List.mem_cons_self ..)
    have hin : ¬ i.isSearch (dotted (path ++ [key])) = true := by
      intro hse
      unfold IndexFile.isSearch at hse
      rw [hsi] at hse
      obtain ⟨b, hb⟩ := hf0.search (by simpa using hse)
      cases hb
    unfold handleObj
    rw [if_neg (by simp [Dec.more]), if_neg (by simp [Dec.more])]
    simp only [Tok.fieldType, joinDots_eq]
    rw [if_neg hin, List.flatMap_cons, ← List.append_assoc, handleTypes_one, handleTypes_one]
    refine Steps2.bind (Q := fun a is' => a = ⟨m, em⟩ ∧ Handles is is')
      (js1 := js ++ fieldJobs env.nfkd hs off line ⟨dotted (path ++ [key]), .lbrack, ke + 1, ve⟩) ?_
      (Part.left _ _) ?_
    · refine Steps2.bind (arraySteps2 (line := line) (more := more) hH ha hi h hf0.name _ _ hs') (Part.refl _) ?_
      rintro a s1 is1 c1 h1 ⟨rfl, hh1⟩ t1 ha1
      exact Steps2.pure ha1 h1 ⟨rfl, hh1⟩
    · rintro a s1 is1 c1 h1 ⟨rfl, hh1⟩ t1 ha1
      have := hs'.length_le
      refine (ih ha1 (fun f hfm => hf f (List.mem_cons_of_mem _ hfm)) (by omega) h1).imp ?_
      rintro a is' ⟨he, hh2⟩
      exact ⟨he, hh1.trans hh2⟩
  | @object path key ke ve l m r fs gs hn' ho ih1 ih2 =>
    obtain ⟨fuel, rfl⟩ : ∃ k, fuel = k + 1 := ⟨fuel - 1, by simp at hfu; omega⟩
    simp only [List.length_cons] at hfu
    have hf0 := hf _ (List.mem_cons_self ..)
    have hin : ¬ i.isSearch (dotted (path ++ [key])) = true := by
      intro hse
      unfold IndexFile.isSearch at hse
      rw [hsi] at hse
      obtain ⟨b, hb⟩ := hf0.search (by simpa using hse)
      cases hb
    unfold handleObj
    rw [if_neg (by simp [Dec.more]), if_neg (by simp [Dec.more])]
    simp only [Tok.fieldType, joinDots_eq]
    rw [if_neg hin, List.flatMap_cons, List.flatMap_append, ← List.append_assoc, ← List.append_assoc, handleTypes_one, handleTypes_one]
    refine Steps2.bind (Q := fun a is' => a = ⟨m, em⟩ ∧ Handles is is')
      (js1 := js ++ fieldJobs env.nfkd hs off line ⟨dotted (path ++ [key]), .lbrace, ke + 1, ve⟩ ++ gs.flatMap (fieldJobs env.nfkd hs off line)) ?_
      (Part.left _ _) ?_
    · refine Steps2.bind (objectSteps2 (line := line) (more := more) (r := m) (ks := gs.flatMap (fieldJobs env.nfkd hs off line)) hH ha hi h hf0.name ?_ ?_) (Part.refl _) ?_
      · intro j hj hc
        obtain ⟨f, hfm, hj⟩ := List.mem_flatMap.1 hj
        have h1 := hn'.names (by simp) f hfm
        rw [fieldJobs_name j hj] at hc
        rw [hc] at h1
        exact absurd h1 (Nat.lt_irrefl _)
      · intro s' t' is' c' ha' h'
        exact ih1 ha' (fun f hfm => hf f (List.mem_cons_of_mem _ (List.mem_append_left _ hfm))) (by omega) h'
      · rintro a s1 is1 c1 h1 ⟨rfl, hh1⟩ t1 ha1
        exact Steps2.pure ha1 h1 ⟨rfl, hh1⟩
    · rintro a s1 is1 c1 h1 ⟨rfl, hh1⟩ t1 ha1
      have := hn'.length_lt
      refine (ih2 ha1 (fun f hfm => hf f (List.mem_cons_of_mem _ (List.mem_append_right _ hfm))) (by omega) h1).imp ?_
      rintro a is' ⟨he, hh2⟩
      exact ⟨he, hh1.trans hh2⟩

end
end Appendable
