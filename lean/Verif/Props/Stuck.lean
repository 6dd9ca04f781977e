import Verif.Lemmas.AlikeRun
import Verif.Lemmas.Quiet
import Verif.Lemmas.JsonlObj
import Verif.Model.Csv
/-! C37 in general: a `Synchronize` that fails after a good line can never be repeated successfully.  C87: a data file
that has become shorter. -/
namespace Appendable.Spec
open Appendable

/-- `Retried env hs p i s i' s'`: the index file `i` in state `s` has been synchronized again any number of times, with any
data files that begin with the text `p`, whatever came of it, and closed and opened again any number of times; it is then
`i'` in state `s'`. -/
inductive Retried (env : JEnv) (hs : List Bytes) (p : Bytes) : IndexFile → PF → IndexFile → PF → Prop
  | same {i : IndexFile} {s : PF} : Retried env hs p i s i s
  | sync {i i' : IndexFile} {s s' s2 : PF} {rest : Bytes} {r : Res Unit} (h : Retried env hs p i s i' s')
      (hd : (p ++ rest).length < 2 ^ 64) (hr : jsonlSync env i' (p ++ rest) s' = (r, s2)) : Retried env hs p i s i' s2
  | reopen {i i' i2 : IndexFile} {s s' s2 : PF} {f f' : File} (h : Retried env hs p i s i' s') (hb : f.bytes = s'.file.bytes)
      (hu : f.budget = none) (ho : IndexFile.openIndex .jsonl hs f = (.ok (i2, s2), f')) : Retried env hs p i s i2 s2

end Appendable.Spec

namespace Appendable
open Spec Tree

section
variable {env : JEnv} {hs : List Bytes} {i : IndexFile} {data text : Bytes} {off : Nat} {line : MemPtr} {fm : FileMeta} {s : PF}
  {is : List (LP × IndexMeta)} {c : Nat → List Entry} {js : List Job}

/-- What the handler does with a scalar value. -/
theorem handleValue_scalar {v : Tok} (hv : isScalar v) (mp : MemPtr) (rec : Dec → Act PF Dec) (d : Dec) (p : LP) (m : IndexMeta) :
    handleValue env data line mp rec p m v (kindOf v).code d = (do
      (treeAt data env.parse m.width p).insert ⟨mp, v.bytes⟩ line
      return (valueTotal v mp.length, d)) := by
  have hg : ¬ ((kindOf v).code = 10 ∨ (kindOf v).code = 9 ∨ (kindOf v).code = 8) := by
    cases v <;> simp [kindOf, FieldType.code]
  unfold handleValue
  simp only
  rw [if_neg hg]
  cases v <;> first | rfl | exact absurd hv (by simp [isScalar])

theorem scalar_keyOK {v : Tok} (hv : isScalar v) {mp : MemPtr} (hko : ∀ b, v = .str b → KeyOK ⟨data, env.parse, 0⟩ ⟨mp, b⟩) :
    KeyOK ⟨data, env.parse, determineTypeByte (kindOf v).code⟩ ⟨mp, v.bytes⟩ := by
  cases v with
  | str b => exact hko b rfl
  | num b =>
    unfold KeyOK
    have e : determineTypeByte (kindOf (Tok.num b)).code = 9 := rfl
    simp only [e]; rw [if_neg (by decide)]; show (beBytes 8 b.toNat).length = (9 - 1 : UInt16).toNat; unfold beBytes; simp [leBytes]
  | bool b =>
    unfold KeyOK
    have e : determineTypeByte (kindOf (Tok.bool b)).code = 2 := rfl
    simp only [e]; rw [if_neg (by decide)]; cases b <;> rfl
  | null =>
    unfold KeyOK
    have e : determineTypeByte (kindOf Tok.null).code = 1 := rfl
    simp only [e]; rw [if_neg (by decide)]; rfl
  | _ => exact absurd hv (by simp [isScalar])

/-- A scalar value that is in the index already. -/
theorem handleType_dup (hi : i.tree = fileSlot) (h : JIs data env.parse id s fm is c js) {name : Bytes} (hn : name.length ≤ 236) {v : Tok}
    (hv : isScalar v) {mp : MemPtr} (hko : ∀ b, v = .str b → KeyOK ⟨data, env.parse, 0⟩ ⟨mp, b⟩)
    (hin : (⟨mp, v.bytes⟩ : RV) ∈ (entriesOf js name (kindOf v).code).map (·.1)) (rec : Dec → Act PF Dec) (d : Dec) :
    ∃ q, handleType env i data line name mp rec v (kindOf v).code d s = (.err (.msg "key already exists"), s.upd s.file.bytes q) := by
  have hmem : (name, (kindOf v).code) ∈ js.map (fun j => (j.name, j.ty)) := by
    apply Decidable.byContradiction
    intro hc
    rw [entriesOf_none hc] at hin
    simp at hin
  obtain ⟨k0, p0, hk0, hp0⟩ := h.done.at hmem
  rcases h.idx.findOrCreate hi hn (kindOf v).code (smallWidths_id _) with ⟨k, p, m, q, e1, e2, e3, e4⟩ | ⟨p, s', e1, _⟩ | ⟨s', e1, _⟩
  · obtain ⟨d1, d2⟩ := h.done.each k p m e1
    have h' : IndexIs data env.parse (fun m => id m.width) (s.upd s.file.bytes q) fm is c := h.idx.upd q
    rw [e2, e3] at d2 d1
    have hko' : KeyOK ⟨data, env.parse, id m.width⟩ ⟨mp, v.bytes⟩ := by rw [d1]; exact scalar_keyOK hv hko
    obtain ⟨e, he, hek⟩ := List.mem_map.1 hin
    unfold handleType
    rw [Act.bind_ok e4]
    simp only [handleValue_scalar hv]
    rcases h'.insert e1 line hko' with ⟨s1, _, g2, _⟩ | ⟨q2, g1, _⟩ | ⟨s1, _, g2, _⟩
    · exact absurd hek (g2 e (d2.mem_iff.2 he))
    · refine ⟨q2, ?_⟩
      exact Act.bind_err (Act.bind_err g1)
    · exact absurd hek (g2 e (d2.mem_iff.2 he))
  · exact absurd ⟨rfl, rfl⟩ (e1 _ (List.mem_of_getElem? hk0))
  · exact absurd ⟨rfl, rfl⟩ (e1 _ (List.mem_of_getElem? hk0))

/-- A line whose first field is a scalar that is in the index already. -/
theorem handleLine_dup (hi : i.tree = fileSlot) (hl : LineAt data off text line) (h : JIs data env.parse id s fm is c js) {f : Field} {fs : List Field}
    (hx : LineFields env.lex text (f :: fs)) (hf : FieldOK env.lex hs text f) (hv : isScalar f.tok)
    (hin : (⟨valuePtr off f, f.tok.bytes⟩ : RV) ∈ (entriesOf js f.name (kindOf f.tok).code).map (·.1)) :
    ∃ q, handleLine env i data line text s = (.err (.msg "key already exists"), s.upd s.file.bytes q) := by
  obtain ⟨e, l, r, h1, h2⟩ := hx
  unfold handleLine
  rw [h1]
  simp only
  generalize hfs : f :: fs = gs at h2
  cases h2 with
  | close => cases hfs
  | @scalar _ key ke ve v l _ fs' hv' ho =>
    obtain ⟨rfl, rfl⟩ := List.cons.inj hfs
    have hmp : (⟨line.offset + UInt64.ofNat (ke + 1), UInt32.ofNat (((ve : Int) - ((ke + 1 : Nat) : Int)) % 2 ^ 32).toNat⟩ : MemPtr) =
        valuePtr off ⟨dotted ([] ++ [key]), v, ke + 1, ve⟩ := by
      obtain ⟨h1, h2⟩ := hf.inside
      simp only at h1 h2
      have l2 := hl.small
      unfold valuePtr
      rw [hl.line]
      simp only [MemPtr.mk.injEq]
      refine ⟨(UInt64.ofNat_add ..).symm, ?_⟩
      congr 1
      omega
    have hft : v.fieldType = some (kindOf v).code := by cases v <;> first | rfl | exact absurd hv (by simp [isScalar])
    obtain ⟨q, hq⟩ := handleType_dup (line := line) hi h hf.name hv (mp := valuePtr off ⟨dotted ([] ++ [key]), v, ke + 1, ve⟩)
      (fun b hb => hl.keyOK hf hb) hin (handleObj env i data line (l.length + 2) ([] ++ [key])) ⟨l, (env.lex text).endMore⟩
    refine ⟨q, ?_⟩
    have hobj : handleObj env i data line (((Tok.str key, ke) :: (v, ve) :: l).length + 1) [] ⟨(Tok.str key, ke) :: (v, ve) :: l, (env.lex text).endMore⟩ s =
        (.err (.msg "key already exists"), s.upd s.file.bytes q) := by
      show handleObj env i data line (l.length + 2 + 1) [] _ s = _
      unfold handleObj
      rw [if_neg (by simp [Dec.more])]
      simp only [hft, hmp, joinDots_eq]
      refine Act.bind_err ?_
      split
      · rw [handleTypes_cons]; exact Act.bind_err hq
      · rw [handleTypes_cons]; exact Act.bind_err hq
    exact Act.bind_err hobj
  | array _ _ =>
    obtain ⟨rfl, rfl⟩ := List.cons.inj hfs
    exact absurd hv (by simp [isScalar])
  | object _ _ =>
    obtain ⟨rfl, rfl⟩ := List.cons.inj hfs
    exact absurd hv (by simp [isScalar])

/-- `Synchronize` with a first new line that is in the index already. -/
theorem jsonlSync_dup (hi : i.tree = fileSlot) {old : List Bytes} {rest : Bytes} {f : Field} {fs : List Field}
    (hda : data = fileOf old [] ++ (text ++ 10 :: rest)) (hd : data.length < 2 ^ 64) (hno : (10 : UInt8) ∉ text)
    (hro : fm.readOffset = UInt64.ofNat (fileOf old []).length) (h : JIs data env.parse id s fm is c js)
    (hx : LineFields env.lex text (f :: fs)) (hsm : text.length < 2 ^ 32) (hf : FieldOK env.lex hs text f) (hv : isScalar f.tok)
    (hin : (⟨valuePtr (fileOf old []).length f, f.tok.bytes⟩ : RV) ∈ (entriesOf js f.name (kindOf f.tok).code).map (·.1)) :
    ∃ q, jsonlSync env i data s = (.err (.msg "key already exists"), s.upd s.file.bytes q) := by
  obtain ⟨q, hq⟩ := h.idx.metadata hi
  have h' : JIs data env.parse id (s.upd s.file.bytes q) fm is c js := ⟨h.idx.upd q, h.done⟩
  have hlen : data.length = (fileOf old []).length + (text.length + 1 + rest.length) := by
    rw [hda]; simp only [List.length_append, List.length_cons]; omega
  have hn : fm.readOffset.toNat = (fileOf old []).length := by
    rw [hro, UInt64.toNat_ofNat', Nat.mod_eq_of_lt]; omega
  have hdr : data.drop (fileOf old []).length = text ++ 10 :: rest := by rw [hda, List.drop_left' rfl]
  have hla : LineAt data (fileOf old []).length text ⟨fm.readOffset, UInt32.ofNat text.length⟩ := by
    refine ⟨?_, by omega, hsm, hd, by rw [hro]⟩
    rw [hdr, List.take_left' rfl]
  obtain ⟨q2, hq2⟩ := handleLine_dup hi hla h' hx hf hv hin
  refine ⟨q2, ?_⟩
  unfold jsonlSync
  rw [Act.bind_ok hq]
  refine Act.bind_err ?_
  unfold syncLoop
  rw [if_neg (by omega), hn, hdr, indexNewline_line hno]
  simp only [List.take_left']
  exact Act.bind_err hq2

/-- The loop of `Synchronize` over lines that are handled. -/
theorem syncLoop_lines {D : Bytes} {tail : Bytes} (hd : D.length < 2 ^ 64) (ls pre : List Bytes) (hD : D = fileOf pre [] ++ fileOf ls tail)
    (hno : ∀ x ∈ ls, (10 : UInt8) ∉ x) {m : FileMeta} (hro : m.readOffset = UInt64.ofNat (fileOf pre []).length) {s t : PF}
    (h : linesProg env i D (fileOf pre []).length ls s = (.ok (), t)) (fuel : Nat) :
    syncLoop env i D (ls.length + fuel) m s = syncLoop env i D fuel
      { m with readOffset := UInt64.ofNat (fileOf (pre ++ ls) []).length, entries := m.entries + UInt64.ofNat ls.length } t := by
  induction ls generalizing pre m s with
  | nil =>
    cases h
    simp only [List.append_nil, List.length_nil, Nat.zero_add, ← hro]
    simp
  | cons x ls ih =>
    have hlen : D.length = (fileOf pre []).length + (x.length + 1 + (fileOf ls tail).length) := by
      rw [hD, fileOf_cons]; simp only [List.length_append, List.length_cons]; omega
    have hn : m.readOffset.toNat = (fileOf pre []).length := by
      rw [hro, UInt64.toNat_ofNat', Nat.mod_eq_of_lt]; omega
    have hdr : D.drop (fileOf pre []).length = x ++ 10 :: fileOf ls tail := by
      rw [hD, List.drop_left' rfl, fileOf_cons]
    unfold linesProg at h
    obtain ⟨_, s1, e1, e2⟩ := Act.bind_okE h
    have hp : (fileOf (pre ++ [x]) []).length = (fileOf pre []).length + x.length + 1 := by
      rw [fileOf_append]; simp [fileOf]; omega
    rw [← hp] at e2
    have := ih (pre ++ [x]) (by rw [hD, fileOf_cons, fileOf_append]; simp [fileOf]) (fun y hy => hno y (by simp [hy]))
      (m := { m with readOffset := m.readOffset + UInt64.ofNat x.length + 1, entries := m.entries + 1 })
      (by simp only; rw [hp, hro, UInt64.ofNat_add, UInt64.ofNat_add]; rfl) e2
    rw [show (x :: ls).length + fuel = (ls.length + fuel) + 1 by simp only [List.length_cons]; omega]
    rw [syncLoop]
    rw [if_neg (by omega), hn, hdr, indexNewline_line (hno x (by simp))]
    simp only [List.take_left']
    rw [hro, Act.bind_ok e1, ← hro, this]
    simp only [List.append_assoc, List.singleton_append, List.length_cons]
    congr 2
    rw [UInt64.ofNat_add, UInt64.add_assoc, UInt64.add_comm 1]; rfl


/-- Once the first new line is in the index already, no later `Synchronize` gets past it. -/
theorem stuck_forever {lf : List (Bytes × List Field)} {p rest : Bytes} {f : Field} {fs : List Field} {t : PF}
    (hp : p = fileOf (lf.map (·.1)) [] ++ (text ++ 10 :: rest)) (hno : (10 : UInt8) ∉ text)
    (hj : JIs p env.parse id t (metaOf lf) is c js) (hx : LineOK env hs (text, f :: fs)) (hv : isScalar f.tok)
    (hin : (⟨valuePtr (fileOf (lf.map (·.1)) []).length f, f.tok.bytes⟩ : RV) ∈ (entriesOf js f.name (kindOf f.tok).code).map (·.1))
    {i' : IndexFile} {s' : PF} (hre : Retried env hs p ⟨fileSlot, hs⟩ t i' s') {rest' : Bytes} (hr' : (p ++ rest').length < 2 ^ 64) :
    (jsonlSync env i' (p ++ rest') s').1 = .err (.msg "key already exists") ∧
      (jsonlSync env i' (p ++ rest') s').2.file.bytes = t.file.bytes := by
  obtain ⟨gx1, gx2, gx3⟩ := hx
  have hstep : ∀ {u : PF} {isu cu}, JIs p env.parse id u (metaOf lf) isu cu js →
      ∀ r', (p ++ r').length < 2 ^ 64 → ∃ q, jsonlSync env ⟨fileSlot, hs⟩ (p ++ r') u = (.err (.msg "key already exists"), u.upd u.file.bytes q) := by
    intro u isu cu hu r' hr'
    refine jsonlSync_dup (old := lf.map (·.1)) (text := text) (rest := rest ++ r') rfl ?_ hr' hno rfl (hu.grow r')
      gx1 gx2 (gx3 f (by simp)) hv hin
    rw [hp]
    simp
  have hinv : ∀ {i0 i' : IndexFile} {u0 s' : PF}, Retried env hs p i0 u0 i' s' → i0 = ⟨fileSlot, hs⟩ → u0 = t →
      i' = ⟨fileSlot, hs⟩ ∧ s'.file.bytes = t.file.bytes ∧ ∃ isu cu, JIs p env.parse id s' (metaOf lf) isu cu js := by
    intro i0 i' u0 s' hre
    induction hre with
    | same => rintro rfl rfl; exact ⟨rfl, rfl, is, c, hj⟩
    | sync h hd' hr ih =>
      rename_i r' res
      intro h1 h2
      obtain ⟨rfl, hbb, isu, cu, hu⟩ := ih h1 h2
      obtain ⟨q2, hq2⟩ := hstep hu r' hd'
      rw [hq2] at hr; cases hr
      exact ⟨rfl, hbb, isu, cu, hu.idx.upd q2, hu.done⟩
    | reopen h hb' hu' ho ih =>
      intro h1 h2
      obtain ⟨rfl, hbb, isu, cu, hu⟩ := ih h1 h2
      obtain ⟨r1, _⟩ := hu.idx.reopen hb' hu' .jsonl hs
      obtain ⟨s3, g1, g2, g3, _⟩ := r1 rfl rfl
      rw [g1] at ho; cases ho
      exact ⟨rfl, by rw [g3, hb', hbb], isu, cu, g2, hu.done⟩
  obtain ⟨rfl, hbb, isu, cu, hu⟩ := hinv hre rfl rfl
  obtain ⟨q2, hq2⟩ := hstep hu rest' hr'
  rw [hq2]
  exact ⟨rfl, hbb⟩

/-- The first value of the first new line is among the entries to be written. -/
theorem first_entry {nfkd : Bytes → Bytes} {js : List Job} {off : Nat} {f : Field} {fs : List Field} {g : List (Bytes × List Field)} (hv : isScalar f.tok) :
    (⟨valuePtr off f, f.tok.bytes⟩ : RV) ∈
      (entriesOf (js ++ linesJobs nfkd hs off ((text, f :: fs) :: g)) f.name (kindOf f.tok).code).map (·.1) := by
  rw [entriesOf_append, List.map_append, List.mem_append]
  right
  refine List.mem_map.2 ⟨(⟨valuePtr off f, f.tok.bytes⟩, ⟨UInt64.ofNat off, UInt32.ofNat text.length⟩), ?_, rfl⟩
  unfold entriesOf
  refine List.mem_flatMap.2 ⟨⟨f.name, (kindOf f.tok).code, [(⟨valuePtr off f, f.tok.bytes⟩,
    ⟨UInt64.ofNat off, UInt32.ofNat text.length⟩)], valueTotal f.tok (valuePtr off f).length⟩, ?_, by simp⟩
  refine List.mem_append_left _ (List.mem_flatMap.2 ⟨f, List.mem_cons_self .., ?_⟩)
  unfold fieldJobs
  rw [if_pos hv, valueBytes_eq]
  exact List.mem_cons_self ..

/-- A line that is not an object. -/
theorem handleLine_bad {D : Bytes} {bad : Bytes} (hb : ∀ e r, (env.lex bad).toks ≠ (.lbrace, e) :: r) (t : PF) :
    handleLine env i D line bad t = (.err (.msg "only json objects are supported at the root"), t) := by
  unfold handleLine
  rcases ht : (env.lex bad).toks with _ | ⟨⟨tk, e⟩, r⟩
  · rfl
  · cases tk with
    | lbrace => exact absurd ht (hb e r)
    | _ => rfl

end

section
variable {env : JEnv} {hs : List Bytes} {i : IndexFile} {data : Bytes} {s : PF}

/-- C37 is violated whenever a line that is not an object follows, in one call, good lines of which the first begins with a
string, number, boolean or null: that call fails, and from then on every call fails with "key already exists", whatever
follows the good lines in the data file, however often it is tried and even after the index has been closed and opened
again, which succeeds; the bytes of the index file stay as they are.  (The good lines alone would be synchronized successfully.) -/
theorem C37_stuck_violated (hr : SyncRun env hs data i s) {lf good : List (Bytes × List Field)} {tail p more text : Bytes} {f : Field} {fs : List Field}
    (hl : IsLines data (lf.map (·.1)) tail) (hg : good.head? = some (text, f :: fs)) (hv : isScalar f.tok)
    (hp : IsLines p ((lf ++ good).map (·.1)) []) (hpd : p = data ++ more)
    (hx : ∀ x ∈ lf ++ good, LineFields env.lex x.1 x.2 ∧ x.1.length < 2 ^ 32 ∧ ∀ f ∈ x.2, FieldOK env.lex hs x.1 f)
    {sg : PF} (hok : jsonlSync env i p s = (.ok (), sg))
    {bad rest : Bytes} (hbn : (10 : UInt8) ∉ bad) (hb : ∀ e r, (env.lex bad).toks ≠ (.lbrace, e) :: r)
    (hd : (p ++ (bad ++ 10 :: rest)).length < 2 ^ 64) :
    ∃ s1, jsonlSync env i (p ++ (bad ++ 10 :: rest)) s = (.err (.msg "only json objects are supported at the root"), s1) ∧
      (∀ i' s', Retried env hs p i s1 i' s' → ∀ rest', (p ++ rest').length < 2 ^ 64 →
        (jsonlSync env i' (p ++ rest') s').1 = .err (.msg "key already exists") ∧
        (jsonlSync env i' (p ++ rest') s').2.file.bytes = s1.file.bytes) ∧
      ∀ file : File, file.bytes = s1.file.bytes → file.budget = none →
        ∃ i2 s2 file', IndexFile.openIndex .jsonl hs file = (.ok (i2, s2), file') := by
  have hdp : p.length < 2 ^ 64 := by rw [List.length_append] at hd; omega
  have hdd : data.length < 2 ^ 64 := by rw [hpd, List.length_append] at hdp; omega
  have hxl : ∀ x ∈ lf, LineOK env hs x := fun x hx' => hx x (by simp [hx'])
  have hxg : ∀ x ∈ good, LineOK env hs x := fun x hx' => hx x (by simp [hx'])
  obtain ⟨rfl, is, c, hj⟩ := syncRun_is hr hdd hl hxl
  -- the bytes before
  obtain ⟨t0, ht0⟩ : ∃ t0 : PF, t0.Valid [] ∧ t0.file.budget = none ∧ t0.file.bytes = freshBytes .jsonl := by
    obtain ⟨s', e1, _⟩ := openIndex_fresh [] env.parse (fun m => id m.width) (f := ⟨.buffer, [], 0, none⟩) rfl rfl .jsonl hs
    exact ⟨s', openIndex_freshBytes rfl rfl e1⟩
  obtain ⟨_, _, ha0⟩ := syncRun_bytes hr (more := []) (by rw [List.append_nil]; exact hdd) hl hxl ht0.1 ht0.2.1 ht0.2.2
  have haS : ∀ q, Alike (headOf (metaOf lf)) (headOf (metaOf lf)) (s.upd s.file.bytes q) (s.upd s.file.bytes q) := fun q =>
    Alike.upd (⟨ha0.v1, ha0.v1, ha0.b1, ha0.b1, rfl, ha0.two, fun _ _ => rfl, ha0.h1, ha0.h1⟩) q q
  -- the good lines alone
  have hjp : JIs p env.parse id s (metaOf lf) is c (linesJobs env.nfkd hs 0 lf) := by rw [hpd]; exact hj.grow more
  obtain ⟨q, hq⟩ := hjp.idx.metadata (i := ⟨fileSlot, hs⟩) rfl
  have hjq : JIs p env.parse id (s.upd s.file.bytes q) (metaOf lf) is c _ := ⟨hjp.idx.upd q, hjp.done⟩
  unfold jsonlSync at hok
  rw [Act.bind_ok hq] at hok
  obtain ⟨m', s1, e1, _⟩ := Act.bind_okE hok
  have hp0 : p = fileOf (lf.map (·.1)) [] ++ fileOf (good.map (·.1)) [] := by rw [hp.1, List.map_append, fileOf_append]
  have hno : ∀ x ∈ good, (10 : UInt8) ∉ x.1 := fun x hx => hp.2.1 x.1 (by
    simp only [List.map_append, List.mem_append, List.mem_map]; exact .inr ⟨x, hx, rfl⟩)
  have hle : good.length ≤ p.length := by
    have := fileOf_length_ge (good.map (·.1)) []
    rw [List.length_map] at this
    rw [hp0, List.length_append]; omega
  obtain ⟨t', j1, j2⟩ := loopSteps2 (more := bad ++ 10 :: rest) (headIs_headOf (metaOf lf)) (haS q) rfl rfl hdp (by simp) good (lf.map (·.1)) hp0 hno
    hxg (Nat.lt_succ_of_le hle) rfl hjq e1
  have hlp := loopSteps (i := ⟨fileSlot, hs⟩) rfl rfl hdp (by simp) good (lf.map (·.1)) hp0 hno hxg (Nat.lt_succ_of_le hle) (m := metaOf lf) rfl hjq
  -- the state after the failure
  obtain ⟨is', c', hj1⟩ : ∃ is' c', JIs p env.parse id s1 (metaOf lf) is' c'
      (linesJobs env.nfkd hs 0 lf ++ linesJobs env.nfkd hs (fileOf (lf.map (·.1)) []).length good) := by
    rcases hlp with ⟨a, s3, is', c', g1, g2, _⟩ | ⟨s3, g1, _⟩ | ⟨s3, g1, _⟩
    · rw [show syncLoop env ⟨fileSlot, hs⟩ p (p.length + 1) (metaOf lf) (s.upd s.file.bytes q) = _ from e1] at g1
      cases g1; exact ⟨is', c', g2⟩
    · rw [show syncLoop env ⟨fileSlot, hs⟩ p (p.length + 1) (metaOf lf) (s.upd s.file.bytes q) = _ from e1] at g1; cases g1
    · rw [show syncLoop env ⟨fileSlot, hs⟩ p (p.length + 1) (metaOf lf) (s.upd s.file.bytes q) = _ from e1] at g1; cases g1
  have hjt : JIs p env.parse id t' (metaOf lf) is' c' _ := ⟨hj1.idx.alike j2 (headIs_headOf _), hj1.done⟩
  refine ⟨t', ?_, ?_, fun file hb hu => ?_⟩
  · have hqD : IndexFile.metadata ⟨fileSlot, hs⟩ s = (.ok (metaOf lf), s.upd s.file.bytes q) := hq
    unfold jsonlSync
    rw [Act.bind_ok hqD]
    refine Act.bind_err ?_
    have hD : p ++ (bad ++ 10 :: rest) = fileOf (lf.map (·.1)) [] ++ fileOf (good.map (·.1)) (bad ++ 10 :: rest) := by
      rw [hp0, fileOf_tail _ (bad ++ 10 :: rest), List.append_assoc]
    have hll := syncLoop_lines (m := metaOf lf) hd (good.map (·.1)) (lf.map (·.1)) hD (by
      intro x hx'; obtain ⟨y, hy, rfl⟩ := List.mem_map.1 hx'; exact hno y hy) rfl j1
      ((p ++ (bad ++ 10 :: rest)).length - good.length + 1)
    rw [show (good.map (·.1)).length + ((p ++ (bad ++ 10 :: rest)).length - good.length + 1) = (p ++ (bad ++ 10 :: rest)).length + 1 by
      rw [List.length_map]
      have : p.length ≤ (p ++ (bad ++ 10 :: rest)).length := by rw [List.length_append]; omega
      omega] at hll
    rw [hll]
    have hpl : (fileOf (lf.map (·.1) ++ good.map (·.1)) []).length = p.length := by rw [hp.1, List.map_append]
    have hn : (UInt64.ofNat (fileOf (lf.map (·.1) ++ good.map (·.1)) []).length).toNat = p.length := by
      rw [hpl, UInt64.toNat_ofNat', Nat.mod_eq_of_lt hdp]
    unfold syncLoop
    simp only [hn]
    rw [if_neg (by rw [List.length_append]; omega), List.drop_left' rfl, indexNewline_line hbn]
    simp only [List.take_left']
    exact Act.bind_err (handleLine_bad hb _)
  · -- every later state
    obtain ⟨good', rfl⟩ : ∃ g', good = (text, f :: fs) :: g' := by
      cases good with
      | nil => cases hg
      | cons x g => simp only [List.head?_cons, Option.some.injEq] at hg; exact ⟨g, by rw [hg]⟩
    intro i' s' hre r' hr'
    refine stuck_forever (text := text) (rest := fileOf (good'.map (·.1)) []) ?_ (hno (text, f :: fs) (by simp)) hjt
      (hxg (text, f :: fs) (by simp)) hv (first_entry hv) hre hr'
    rw [hp0, List.map_cons, fileOf_cons]
  · obtain ⟨r1, _⟩ := hjt.idx.reopen hb hu .jsonl hs
    obtain ⟨s2, e1, _⟩ := r1 rfl rfl
    exact ⟨_, _, _, e1⟩

/-! ### C87 -/

/-- C87 is violated in every state: if the data file is shorter than what has been synchronized, `Synchronize` panics
(and the index file stays as it is). -/
theorem C87_truncated_violated {m : FileMeta} (hm : (i.metadata s).1 = .ok m) (hd : data.length < m.readOffset.toNat) :
    (jsonlSync env i data s).1 = .panic ∧ (jsonlSync env i data s).2.file.bytes = s.file.bytes := by
  have hmd : i.metadata s = (.ok m, (i.metadata s).2) := Prod.ext hm rfl
  have : jsonlSync env i data s = (.panic, (i.metadata s).2) := by
    unfold jsonlSync
    rw [Act.bind_ok hmd]
    unfold syncLoop
    rw [if_pos hd]
    rfl
  rw [this]
  exact ⟨rfl, Quiet.fileMetadata i s⟩

/-- The same for CSV files. -/
theorem C87_csv_violated {num : Bytes → Option UInt64} {m : FileMeta} {h : List Bytes} {s1 s2 : PF} (hm : i.metadata s = (.ok m, s1))
    (hh : i.indexFieldNames s1 = (.ok h, s2)) (hd : data.length < m.readOffset.toNat) : csvSync num i data s = (.panic, s2) := by
  unfold csvSync
  rw [Act.bind_ok hm, Act.bind_ok hh]
  unfold csvLoop
  rw [if_pos hd]
  rfl

/-- C87 is violated by every history: after any synchronizations of a file with at least one complete line, `Synchronize`
with any file shorter than its complete lines panics. -/
theorem C87_history_violated (hr : SyncRun env hs data i s) (hd : data.length < 2 ^ 64) {lf : List (Bytes × List Field)} {tail : Bytes}
    (hl : IsLines data (lf.map (·.1)) tail)
    (hx : ∀ x ∈ lf, LineFields env.lex x.1 x.2 ∧ x.1.length < 2 ^ 32 ∧ ∀ f ∈ x.2, FieldOK env.lex hs x.1 f)
    {data' : Bytes} (hs' : data'.length + tail.length < data.length) :
    (jsonlSync env i data' s).1 = .panic := by
  obtain ⟨rfl, is, c, hj⟩ := syncRun_is hr hd hl hx
  obtain ⟨q, hq⟩ := hj.idx.metadata (i := ⟨fileSlot, hs⟩) rfl
  have hlen : data.length = (fileOf (lf.map (·.1)) []).length + tail.length := by
    rw [hl.1, fileOf_tail, List.length_append]
  refine (C87_truncated_violated (by rw [hq]) ?_).1
  simp only [UInt64.toNat_ofNat']
  rw [Nat.mod_eq_of_lt (by omega)]
  omega

end
end Appendable
