import Verif.Props.SyncCrash
import Verif.Props.Torn
/-! C94: a crash while `Synchronize` creates the index of a new field. -/
namespace Appendable
open Spec Tree

/-- `y` fails as `x` does, without anything done in between. -/
def FailsAs {α β : Type} (x : Res α × PF) (y : Res β × PF) : Prop :=
  y.2 = x.2 ∧ (∀ e, x.1 = .err e → y.1 = .err e) ∧ ∀ b, y.1 ≠ .ok b

theorem FailsAs.trans {α β γ : Type} {x : Res α × PF} {y : Res β × PF} {z : Res γ × PF} (h : FailsAs x y) (h' : FailsAs y z) : FailsAs x z :=
  ⟨h'.1.trans h.1, fun e he => h'.2.1 e (h.2.1 e he), h'.2.2⟩

theorem FailsAs.bind {α β γ : Type} {x : Res α × PF} {a : Act PF β} {g : β → Act PF γ} {s : PF} (h : FailsAs x (a s)) : FailsAs x ((a >>= g) s) := by
  obtain ⟨h1, h2, h3⟩ := h
  rw [Act.bind_def]
  generalize a s = y at h1 h2 h3
  obtain ⟨r, t⟩ := y
  cases r with
  | ok v => exact absurd rfl (h3 v)
  | err e => exact ⟨h1, fun e' he => by cases h2 e' he; rfl, by simp⟩
  | panic => exact ⟨h1, fun e' he => (by cases (h2 e' he)), by simp⟩

theorem FailsAs.refl {α : Type} {x : Res α × PF} (h : ∀ b, x.1 ≠ .ok b) : FailsAs x x := ⟨rfl, fun _ h => h, h⟩

section
variable {env : JEnv} {hs : List Bytes} {i : IndexFile} {data text : Bytes} {line : MemPtr} {s : PF}

/-- Handling a line begins with looking for the index of its first field. -/
theorem handleLine_first {f : Field} {fs : List Field} (hx : LineFields env.lex text (f :: fs)) (D : Bytes)
    (h : ∀ b, (i.findOrCreate f.name (kindOf f.tok).code s).1 ≠ .ok b) :
    FailsAs (i.findOrCreate f.name (kindOf f.tok).code s) (handleLine env i D line text s) := by
  obtain ⟨e, l, r, h1, h2⟩ := hx
  have key : ∀ (k : Bytes) (ke ve : Nat) (v : Tok) (l' : List (Tok × Nat)), l = (.str k, ke) :: (v, ve) :: l' → f.name = dotted ([] ++ [k]) → f.tok = v →
      v.fieldType = some (kindOf v).code →
      FailsAs (i.findOrCreate f.name (kindOf f.tok).code s) (handleLine env i D line text s) := by
    intro k ke ve v l' hl hn ht hft
    unfold handleLine
    rw [h1]
    simp only
    refine FailsAs.bind ?_
    rw [hl]
    show FailsAs _ (handleObj env i D line (l'.length + 2 + 1) [] _ s)
    unfold handleObj
    rw [if_neg (by simp [Dec.more])]
    simp only [hft]
    refine FailsAs.bind ?_
    rw [joinDots_eq, ← hn, ← ht]
    have hone : ∀ mp rec d, FailsAs (i.findOrCreate f.name (kindOf f.tok).code s) (handleType env i D line f.name mp rec f.tok (kindOf f.tok).code d s) :=
      fun mp rec d => FailsAs.bind (FailsAs.refl h)
    split
    · rw [handleTypes_cons]; exact FailsAs.bind (hone _ _ _)
    · rw [handleTypes_cons]; exact FailsAs.bind (hone _ _ _)
  generalize hfs : f :: fs = gs at h2
  cases h2 with
  | close => cases hfs
  | @scalar _ k ke ve v l' _ fs' hv' ho =>
    obtain ⟨rfl, rfl⟩ := List.cons.inj hfs
    exact key k ke ve v l' rfl rfl rfl (by cases v <;> first | rfl | exact absurd hv' (by simp [isScalar]))
  | @array _ k ke ve l' _ _ fs' _ _ =>
    obtain ⟨rfl, rfl⟩ := List.cons.inj hfs
    exact key k ke ve _ l' rfl rfl rfl rfl
  | @object _ k ke ve l' _ _ fs' _ _ _ =>
    obtain ⟨rfl, _⟩ := List.cons.inj hfs
    exact key k ke ve _ l' rfl rfl rfl rfl

/-- And so does `Synchronize` after reading the file metadata. -/
theorem jsonlSync_first {old : List Bytes} {rest p : Bytes} {fm : FileMeta} {f : Field} {fs : List Field} {s1 : PF}
    (hp : p = fileOf old [] ++ (text ++ 10 :: rest)) (hd : p.length < 2 ^ 64) (hno : (10 : UInt8) ∉ text)
    (hro : fm.readOffset = UInt64.ofNat (fileOf old []).length) (hm : i.metadata s = (.ok fm, s1))
    (hx : LineFields env.lex text (f :: fs)) (h : ∀ b, (i.findOrCreate f.name (kindOf f.tok).code s1).1 ≠ .ok b) :
    FailsAs (i.findOrCreate f.name (kindOf f.tok).code s1) (jsonlSync env i p s) := by
  have hlen : p.length = (fileOf old []).length + (text.length + 1 + rest.length) := by
    rw [hp]; simp only [List.length_append, List.length_cons]; omega
  have hn : fm.readOffset.toNat = (fileOf old []).length := by
    rw [hro, UInt64.toNat_ofNat', Nat.mod_eq_of_lt]; omega
  have hdr : p.drop (fileOf old []).length = text ++ 10 :: rest := by rw [hp, List.drop_left' rfl]
  unfold jsonlSync
  rw [Act.bind_ok hm]
  refine FailsAs.bind ?_
  unfold syncLoop
  rw [if_neg (by omega), hn, hdr, indexNewline_line hno]
  simp only [List.take_left']
  exact FailsAs.bind (handleLine_first hx _ h)

theorem Torn.upd {fm is} (h : Torn s fm is) (q : Nat) : Torn (s.upd s.file.bytes q) fm is := by
  obtain ⟨free, ps, cnt, x, h1, h2, h3⟩ := h
  exact ⟨free, ps, cnt, x, ⟨(Frame.upd_pos h1.valid h1.budget q []).valid, h1.budget, h1.live, h1.inv⟩, h2, h3⟩

theorem Torn.metadata {fm is} (h : Torn s fm is) (hi : i.tree = fileSlot) : ∃ q, i.metadata s = (.ok fm, s.upd s.file.bytes q) := by
  obtain ⟨free, ps, cnt, x, h1, h2, h3⟩ := h
  obtain ⟨tl, htl, _⟩ := h1.inv.firstSlot
  obtain ⟨q, hq⟩ := h1.inv.metadata (k := 0) (x := (pageSize, 0)) (d := fm.bytes) (by rw [htl]; rfl) rfl (s := s) rfl
  refine ⟨q, ?_⟩
  unfold IndexFile.metadata
  rw [hi]
  have hq : fileSlot.metadata s = (.ok fm.bytes, s.upd s.file.bytes q) := hq
  rw [Act.bind_ok hq, fileMeta_lift]

theorem Blind.fileMetadata (i : IndexFile) : Blind i.metadata := by
  unfold IndexFile.metadata
  exact Blind.bind (Blind.metadata _) (fun _ => Blind.lift _)

/-- In a torn file a field that is not there is not found, and nothing changes. -/
theorem Torn.findNew {fm is} (h : Torn s fm is) (hi : i.tree = fileSlot) {name : Bytes} {ty : UInt8} (hno : ∀ x ∈ is, ¬ (x.2.fieldName = name ∧ x.2.fieldType = ty)) :
    ∃ q, i.findOrCreate name ty s = (.err (.msg "invalid metadata size"), s.upd s.file.bytes q) := by
  obtain ⟨x, h1, h2⟩ := h.from
  have : i.findOrCreate name ty s = IndexFile.findFrom name ty (LP.listFuel s) fileSlot s := by
    unfold IndexFile.findOrCreate; rw [hi]
  rw [this]
  rcases h1.find name ty rfl (LP.listFuel s) (by simpa using h2) with ⟨k, n, m, q, _, e2, e3, e4, _⟩ | ⟨_, q, e⟩
  · obtain ⟨y, hy, rfl⟩ := List.mem_map.1 (List.mem_of_getElem? e2)
    exact absurd ⟨e3, e4⟩ (hno y hy)
  · exact ⟨q, e⟩

/-- `Synchronize` on a torn file, when the next line begins with a new field. -/
theorem Torn.sync {fm is} (h : Torn s fm is) (hi : i.tree = fileSlot) {old : List Bytes} {rest p : Bytes} {f : Field} {fs : List Field}
    (hp : p = fileOf old [] ++ (text ++ 10 :: rest)) (hd : p.length < 2 ^ 64) (hno : (10 : UInt8) ∉ text)
    (hro : fm.readOffset = UInt64.ofNat (fileOf old []).length) (hx : LineFields env.lex text (f :: fs))
    (hnone : ∀ x ∈ is, ¬ (x.2.fieldName = f.name ∧ x.2.fieldType = (kindOf f.tok).code)) :
    ∃ q, jsonlSync env i p s = (.err (.msg "invalid metadata size"), s.upd s.file.bytes q) := by
  obtain ⟨q, hq⟩ := h.metadata hi
  obtain ⟨q2, hq2⟩ := (h.upd q).findNew hi hnone
  have := jsonlSync_first (env := env) hp hd hno hro hq hx (by rw [hq2]; simp)
  rw [hq2] at this
  exact ⟨q2, Prod.ext (this.2.1 _ rfl) this.1⟩

/-- The names of what the lines add are the names of their fields. -/
theorem linesJobs_name {nfkd : Bytes → Bytes} {off : Nat} {lf : List (Bytes × List Field)} {j : Job} (h : j ∈ linesJobs nfkd hs off lf) :
    ∃ x ∈ lf, ∃ f ∈ x.2, f.name = j.name := by
  induction lf generalizing off with
  | nil => simp [linesJobs] at h
  | cons x lf ih =>
    obtain ⟨t, fs⟩ := x
    rw [linesJobs, List.mem_append] at h
    rcases h with h | h
    · obtain ⟨f, hf, hj⟩ := List.mem_flatMap.1 h
      refine ⟨(t, fs), by simp, f, hf, ?_⟩
      unfold fieldJobs at hj
      rcases List.mem_cons.1 hj with rfl | hj
      · rfl
      · split at hj
        · split at hj
          · simp only [List.mem_cons, List.not_mem_nil, or_false] at hj
            rcases hj with rfl | rfl | rfl <;> rfl
          · simp at hj
        · simp at hj
    · obtain ⟨y, hy, g⟩ := ih h
      exact ⟨y, by simp [hy], g⟩

/-- C94 is violated, for `Synchronize`: whenever the first new line begins with a field of a name that no line had before, there
is a moment such that, if the process dies there, the index can be opened again but every later call of `Synchronize` fails with
"invalid metadata size", whatever has been appended to the data file, however often it is tried and even after closing and opening
again. -/
theorem C94_sync_violated (hr : SyncRun env hs data i s) {lf : List (Bytes × List Field)} {tail p rest : Bytes} {f : Field} {fs : List Field}
    (hl : IsLines data (lf.map (·.1)) tail) {more : Bytes} (hpd : p = data ++ more) (hp : p = fileOf (lf.map (·.1)) [] ++ (text ++ 10 :: rest))
    (hno : (10 : UInt8) ∉ text) (hd : p.length < 2 ^ 64)
    (hx : ∀ x ∈ lf, LineFields env.lex x.1 x.2 ∧ x.1.length < 2 ^ 32 ∧ ∀ f ∈ x.2, FieldOK env.lex hs x.1 f)
    (hf : LineFields env.lex text (f :: fs)) (hnew : ∀ x ∈ lf, ∀ g ∈ x.2, g.name ≠ f.name)
    {sg : PF} (hok : jsonlSync env i p s = (.ok (), sg)) :
    ∃ n, (jsonlSync env i p (crashAfter n s)).1 ≠ .ok () ∧
      ∀ file, file.bytes = (jsonlSync env i p (crashAfter n s)).2.file.bytes → file.budget = none →
        ∃ i1 s1 file', IndexFile.openIndex .jsonl hs file = (.ok (i1, s1), file') ∧
          ∀ i' s', Retried env hs p i1 s1 i' s' → ∀ rest', (p ++ rest').length < 2 ^ 64 →
            (jsonlSync env i' (p ++ rest') s').1 = .err (.msg "invalid metadata size") ∧
            (jsonlSync env i' (p ++ rest') s').2.file.bytes = file.bytes := by
  have hdd : data.length < 2 ^ 64 := by rw [hpd, List.length_append] at hd; omega
  obtain ⟨rfl, is, c, hj⟩ := syncRun_is hr hdd hl hx
  obtain ⟨q, hq⟩ := hj.idx.metadata (i := ⟨fileSlot, hs⟩) rfl
  have hjq := hj.idx.upd q
  have hnone : ∀ x ∈ is, ¬ (x.2.fieldName = f.name ∧ x.2.fieldType = (kindOf f.tok).code) := by
    rintro x hx' ⟨h1, h2⟩
    have hm : (f.name, (kindOf f.tok).code) ∈ is.map (fun x => (x.2.fieldName, x.2.fieldType)) := List.mem_map.2 ⟨x, hx', by rw [h1, h2]⟩
    rw [hj.done.keys] at hm
    obtain ⟨j, hj1, hj2⟩ := List.mem_map.1 (mem_firstOccurrences.1 hm)
    obtain ⟨y, hy, g, hg, hgn⟩ := linesJobs_name hj1
    exact hnew y hy g hg (by rw [hgn]; exact (Prod.mk.inj hj2).1)
  obtain ⟨r, s2, hfind⟩ : ∃ r s2, IndexFile.findOrCreate ⟨fileSlot, hs⟩ f.name (kindOf f.tok).code (s.upd s.file.bytes q) = (.ok r, s2) := by
    cases hc : (IndexFile.findOrCreate ⟨fileSlot, hs⟩ f.name (kindOf f.tok).code (s.upd s.file.bytes q)).1 with
    | ok r => exact ⟨r, _, Prod.ext hc rfl⟩
    | err e =>
      have := (jsonlSync_first (env := env) hp hd hno rfl hq hf (by rw [hc]; simp)).2.2 ()
      rw [hok] at this; exact absurd rfl this
    | panic =>
      have := (jsonlSync_first (env := env) hp hd hno rfl hq hf (by rw [hc]; simp)).2.2 ()
      rw [hok] at this; exact absurd rfl this
  obtain ⟨n, t, g1, g2, g3⟩ := torn_point hjq rfl hnone hfind
  have hqc : IndexFile.metadata ⟨fileSlot, hs⟩ (crashAfter n s) = (.ok (metaOf lf), crashAfter n (s.upd s.file.bytes q)) := by
    have := Blind.fileMetadata ⟨fileSlot, hs⟩ (some n) s
    rw [hq] at this
    exact this
  have hfail := jsonlSync_first (env := env) hp hd hno rfl hqc hf g1
  refine ⟨n, hfail.2.2 (), fun file hfb hfu => ?_⟩
  rw [hfail.1, g3] at hfb
  obtain ⟨s3, o1, o2, o3⟩ := g2.reopen hfb hfu rfl hs
  refine ⟨_, _, _, o1, ?_⟩
  have hinv : ∀ {i0 i' : IndexFile} {u0 s' : PF}, Retried env hs p i0 u0 i' s' → i0 = ⟨fileSlot, hs⟩ → u0 = s3 →
      (i' = ⟨fileSlot, hs⟩ ∧ s'.file.bytes = file.bytes ∧ Torn s' (metaOf lf) is) := by
    intro i0 i' u0 s' hre
    induction hre with
    | same => rintro rfl rfl; exact ⟨rfl, o3, o2⟩
    | sync h hd' hr ih =>
      rename_i r' res
      intro h1 h2
      obtain ⟨rfl, hbb, hu⟩ := ih h1 h2
      obtain ⟨q', hq'⟩ := hu.sync (i := ⟨fileSlot, hs⟩) (env := env) (rest := rest ++ r') (p := p ++ r') rfl (by rw [hp]; simp) hd' hno rfl hf hnone
      rw [hq'] at hr; cases hr
      exact ⟨rfl, hbb, hu.upd q'⟩
    | reopen h hb' hu' ho ih =>
      intro h1 h2
      obtain ⟨rfl, hbb, hu⟩ := ih h1 h2
      obtain ⟨s4, k1, k2, k3⟩ := hu.reopen hb' hu' rfl hs
      have k1 : IndexFile.openIndex .jsonl hs _ = _ := k1
      rw [k1] at ho; cases ho
      exact ⟨rfl, by rw [k3, hb', hbb], k2⟩
  intro i' s' hre rest' hd'
  obtain ⟨rfl, hbb, hu⟩ := hinv hre rfl rfl
  obtain ⟨q', hq'⟩ := hu.sync (i := ⟨fileSlot, hs⟩) (env := env) (rest := rest ++ rest') (p := p ++ rest') rfl (by rw [hp]; simp) hd' hno rfl hf hnone
  rw [hq']
  exact ⟨rfl, hbb⟩

end
end Appendable
