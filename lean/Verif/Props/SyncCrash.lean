import Verif.Props.Stuck
import Verif.Lemmas.Writes
import Verif.Spec.Tree
/-! C93: a crash during `Synchronize`. -/
namespace Appendable
open Spec Tree

section
variable {env : JEnv} {hs : List Bytes} {i : IndexFile} {data : Bytes} {s : PF} {fm : FileMeta} {is : List (LP × IndexMeta)}
  {c : Nat → List Entry} {js : List Job}

theorem Writes.linesProg (D : Bytes) (off : Nat) (ls : List Bytes) : Writes (linesProg env i D off ls) := by
  induction ls generalizing off with
  | nil => exact Writes.pure _
  | cons l ls ih => exact Writes.bind (Writes.handleLine _) (fun _ => ih _)

/-- If the loop of `Synchronize` succeeds, it has handled the first lines and then the others. -/
theorem syncLoop_split {D : Bytes} {rest : Bytes} (hd : D.length < 2 ^ 64) (ls pre : List Bytes) (hD : D = fileOf pre [] ++ fileOf ls rest)
    (hno : ∀ x ∈ ls, (10 : UInt8) ∉ x) {m m' : FileMeta} (hro : m.readOffset = UInt64.ofNat (fileOf pre []).length) {s s' : PF} {fuel : Nat}
    (h : syncLoop env i D (ls.length + fuel) m s = (.ok m', s')) :
    ∃ t, linesProg env i D (fileOf pre []).length ls s = (.ok (), t) := by
  induction ls generalizing pre m s with
  | nil => exact ⟨s, rfl⟩
  | cons x ls ih =>
    have hlen : D.length = (fileOf pre []).length + (x.length + 1 + (fileOf ls rest).length) := by
      rw [hD, fileOf_cons]; simp only [List.length_append, List.length_cons]; omega
    have hn : m.readOffset.toNat = (fileOf pre []).length := by
      rw [hro, UInt64.toNat_ofNat', Nat.mod_eq_of_lt]; omega
    have hdr : D.drop (fileOf pre []).length = x ++ 10 :: fileOf ls rest := by
      rw [hD, List.drop_left' rfl, fileOf_cons]
    have hp : (fileOf (pre ++ [x]) []).length = (fileOf pre []).length + x.length + 1 := by
      rw [fileOf_append]; simp [fileOf]; omega
    rw [show (x :: ls).length + fuel = (ls.length + fuel) + 1 by simp only [List.length_cons]; omega] at h
    rw [syncLoop, if_neg (by omega), hn, hdr, indexNewline_line (hno x (by simp))] at h
    simp only [List.take_left'] at h
    obtain ⟨_, s1, e1, e2⟩ := Act.bind_okE h
    obtain ⟨t, ht⟩ := ih (pre ++ [x]) (by rw [hD, fileOf_cons, fileOf_append]; simp [fileOf]) (fun y hy => hno y (by simp [hy]))
      (m := { m with readOffset := m.readOffset + UInt64.ofNat x.length + 1, entries := m.entries + 1 })
      (by simp only; rw [hp, hro, UInt64.ofNat_add, UInt64.ofNat_add]; rfl) e2
    refine ⟨t, ?_⟩
    unfold Appendable.linesProg
    rw [← hro, Act.bind_ok e1, ← hp]
    exact ht

/-- The index after some lines have been handled. -/
theorem linesSteps (hi : i.tree = fileSlot) (hsi : i.searchHeaders = hs) {D : Bytes} {rest : Bytes} (hd : D.length < 2 ^ 64)
    (lf : List (Bytes × List Field)) (pre : List Bytes) (hD : D = fileOf pre [] ++ fileOf (lf.map (·.1)) rest)
    (hx : ∀ x ∈ lf, LineOK env hs x) (h : JIs D env.parse id s fm is c js) {t : PF}
    (hr : linesProg env i D (fileOf pre []).length (lf.map (·.1)) s = (.ok (), t)) :
    ∃ is' c', JIs D env.parse id t fm is' c' (js ++ linesJobs env.nfkd hs (fileOf pre []).length lf) := by
  induction lf generalizing pre s is c js with
  | nil => cases hr; exact ⟨is, c, by simpa [linesJobs] using h⟩
  | cons x lf ih =>
    have hlen : D.length = (fileOf pre []).length + (x.1.length + 1 + (fileOf (lf.map (·.1)) rest).length) := by
      rw [hD, List.map_cons, fileOf_cons]; simp only [List.length_append, List.length_cons]; omega
    have hdr : D.drop (fileOf pre []).length = x.1 ++ 10 :: fileOf (lf.map (·.1)) rest := by
      rw [hD, List.drop_left', List.map_cons, fileOf_cons]
      rfl
    have hp : (fileOf (pre ++ [x.1]) []).length = (fileOf pre []).length + x.1.length + 1 := by
      rw [fileOf_append]; simp [fileOf]; omega
    have hla : LineAt D (fileOf pre []).length x.1 ⟨UInt64.ofNat (fileOf pre []).length, UInt32.ofNat x.1.length⟩ := by
      refine ⟨?_, by omega, (hx x (by simp)).2.1, hd, rfl⟩
      rw [hdr, List.take_left']; rfl
    rw [List.map_cons] at hr
    unfold Appendable.linesProg at hr
    obtain ⟨_, s1, e1, e2⟩ := Act.bind_okE hr
    rcases lineSteps hi hsi hla (hx x (by simp)) h with ⟨a, s3, is', c', g1, g2, g3⟩ | ⟨s3, g1, _⟩ | ⟨s3, g1, _⟩
    · rw [g1] at e1; cases e1
      rw [← hp] at e2
      obtain ⟨is2, c2, h2⟩ := ih (pre ++ [x.1]) (by rw [hD, List.map_cons, fileOf_cons, fileOf_append]; simp [fileOf]) (fun y hy => hx y (by simp [hy])) g2 e2
      rw [hp, List.append_assoc] at h2
      exact ⟨is2, c2, h2⟩
    · rw [g1] at e1; cases e1
    · rw [g1] at e1; cases e1

/-- Without a write the file metadata cannot be changed. -/
theorem setMetadata_stopped (m : FileMeta) {t : PF} (ht : t.file.budget = some 0) : (i.setMetadata m t).1 ≠ .ok () := by
  intro hc
  have hc : i.setMetadata m t = (.ok (), (i.setMetadata m t).2) := Prod.ext hc rfl
  unfold IndexFile.setMetadata at hc
  obtain ⟨buf, t1, e1, e2⟩ := Act.bind_okE hc
  rw [Act.lift_run] at e1
  have ht1 : t1.file.budget = some 0 := by
    have := congrArg Prod.snd e1; simp only at this; rw [← this]; exact ht
  unfold LP.setMetadata LP.seekU64 at e2
  split at e2
  · cases e2
  · split at e2
    · cases e2
    · obtain ⟨_, t2, e3, e4⟩ := Act.bind_okE e2
      have ht2 : t2.file.budget = some 0 := by
        have := ((Writes.seek (int64OfU64 (i.tree.rootPos + 8 + 4).toNat)).stop t1 ht1).2
        rw [e3] at this; exact this
      obtain ⟨_, t3, e5, _⟩ := Act.bind_okE e4
      unfold PF.write at e5
      obtain ⟨p, t4, e6, e7⟩ := Act.bind_okE e5
      have ht4 : t4.file.budget = some 0 := by
        have := ((Writes.calm (Calm.seekCur 0)).stop t2 ht2).2
        rw [e6] at this; exact this
      split at e7
      · cases e7
      · unfold PF.onFile File.write at e7
        simp only [ht4, if_true] at e7
        cases e7

/-- C93 is violated: whenever a `Synchronize` finds new complete lines of which the first begins with a string, number,
boolean or null, then for each number of these lines there is a moment (the one after the writes for them) such that, if the
process dies there, the index can be opened again but every later call of `Synchronize` fails with "key already exists",
whatever has been appended to the data file, however often it is tried and even after closing and opening again. -/
theorem C93_crash_violated (hr : SyncRun env hs data i s) {lf g g' : List (Bytes × List Field)} {tail tail' p text : Bytes} {f : Field} {fs : List Field}
    (hl : IsLines data (lf.map (·.1)) tail) (hg : g.head? = some (text, f :: fs)) (hv : isScalar f.tok)
    {more : Bytes} (hpd : p = data ++ more) (hp : IsLines p ((lf ++ (g ++ g')).map (·.1)) tail') (hd : p.length < 2 ^ 64)
    (hx : ∀ x ∈ lf ++ g, LineFields env.lex x.1 x.2 ∧ x.1.length < 2 ^ 32 ∧ ∀ f ∈ x.2, FieldOK env.lex hs x.1 f)
    {sg : PF} (hok : jsonlSync env i p s = (.ok (), sg)) :
    ∃ n, (jsonlSync env i p (crashAfter n s)).1 ≠ .ok () ∧
      ∀ file, file.bytes = (jsonlSync env i p (crashAfter n s)).2.file.bytes → file.budget = none →
        ∃ i1 s1 file', IndexFile.openIndex .jsonl hs file = (.ok (i1, s1), file') ∧
          ∀ i' s', Retried env hs p i1 s1 i' s' → ∀ rest', (p ++ rest').length < 2 ^ 64 →
            (jsonlSync env i' (p ++ rest') s').1 = .err (.msg "key already exists") ∧
            (jsonlSync env i' (p ++ rest') s').2.file.bytes = file.bytes := by
  have hdd : data.length < 2 ^ 64 := by rw [hpd, List.length_append] at hd; omega
  have hxl : ∀ x ∈ lf, LineOK env hs x := fun x hx' => hx x (by simp [hx'])
  have hxg : ∀ x ∈ g, LineOK env hs x := fun x hx' => hx x (by simp [hx'])
  obtain ⟨rfl, is, c, hj⟩ := syncRun_is hr hdd hl hxl
  have hjp : JIs p env.parse id s (metaOf lf) is c (linesJobs env.nfkd hs 0 lf) := by rw [hpd]; exact hj.grow more
  have hbud : s.file.budget = none := by
    obtain ⟨⟨_, _, _, _, _, h1, _⟩, _⟩ := hjp.idx
    exact h1.slots.budget
  obtain ⟨q, hq⟩ := hjp.idx.metadata (i := ⟨fileSlot, hs⟩) rfl
  have hjq : JIs p env.parse id (s.upd s.file.bytes q) (metaOf lf) is c _ := ⟨hjp.idx.upd q, hjp.done⟩
  have hok0 := hok
  unfold jsonlSync at hok
  rw [Act.bind_ok hq] at hok
  obtain ⟨m', s1, e1, _⟩ := Act.bind_okE hok
  have hp0 : p = fileOf (lf.map (·.1)) [] ++ fileOf (g.map (·.1)) (fileOf (g'.map (·.1)) tail') := by
    rw [hp.1, List.map_append, List.map_append, fileOf_append, fileOf_append, ← fileOf_tail (g.map (·.1)) (fileOf (g'.map (·.1)) tail')]
  have hno : ∀ x ∈ g.map (·.1), (10 : UInt8) ∉ x := by
    intro x hx'
    refine hp.2.1 x ?_
    simp only [List.map_append, List.mem_append]
    exact .inr (.inl hx')
  have hle : g.length ≤ p.length := by
    have := fileOf_length_ge (g.map (·.1)) (fileOf (g'.map (·.1)) tail')
    rw [List.length_map] at this
    rw [hp0, List.length_append]; omega
  obtain ⟨k, hfu⟩ : ∃ k, p.length + 1 = (g.map (·.1)).length + k := ⟨p.length + 1 - g.length, by rw [List.length_map]; omega⟩
  rw [hfu] at e1
  obtain ⟨t, ht⟩ := syncLoop_split hd (g.map (·.1)) (lf.map (·.1)) hp0 hno (m := metaOf lf) rfl e1
  obtain ⟨is', c', hjt⟩ := linesSteps (i := ⟨fileSlot, hs⟩) rfl rfl hd g (lf.map (·.1)) hp0 hxg hjq ht
  -- the number of writes up to there
  obtain ⟨_, w1, hw1⟩ := (Writes.fileMetadata ⟨fileSlot, hs⟩).run s hbud (by rw [hq]; simp)
  rw [hq] at hw1
  have hbq : (s.upd s.file.bytes q).file.budget = none := hbud
  obtain ⟨_, w2, hw2⟩ := (Writes.linesProg p (fileOf (lf.map (·.1)) []).length (g.map (·.1))).run _ hbq (by rw [ht]; simp)
  rw [ht] at hw2
  obtain ⟨M, hrun⟩ : ∃ M, jsonlSync env ⟨fileSlot, hs⟩ p (crashAfter (w1 + w2) s) = (do
      let m' ← syncLoop env ⟨fileSlot, hs⟩ p k M
      IndexFile.setMetadata ⟨fileSlot, hs⟩ m') (withBudget (some 0) t) := by
    have h1 : IndexFile.metadata ⟨fileSlot, hs⟩ (crashAfter (w1 + w2) s) = (.ok (metaOf lf), withBudget (some w2) (s.upd s.file.bytes q)) := hw1 w2
    have h2 := hw2 0
    simp only [Nat.add_zero] at h2
    have h3 := syncLoop_lines (m := metaOf lf) hd (g.map (·.1)) (lf.map (·.1)) hp0 hno rfl h2 k
    obtain ⟨M, hM⟩ : ∃ M, syncLoop env ⟨fileSlot, hs⟩ p (p.length + 1) (metaOf lf) (withBudget (some w2) (s.upd s.file.bytes q)) =
        syncLoop env ⟨fileSlot, hs⟩ p k M (withBudget (some 0) t) := ⟨_, by rw [hfu]; exact h3⟩
    refine ⟨M, ?_⟩
    unfold jsonlSync
    rw [Act.bind_ok h1, Act.bind_def, hM]
    exact (Act.bind_def _ _ _).symm
  refine ⟨w1 + w2, ?_, ?_⟩
  · rw [hrun]
    intro hc
    have hc : _ = (Res.ok (), _) := Prod.ext hc rfl
    obtain ⟨m2, t2, f1, f2⟩ := Act.bind_okE hc
    have hb2 : t2.file.budget = some 0 := by
      have := ((Writes.syncLoop (env := env) (i := ⟨fileSlot, hs⟩) (data := p) k M).stop (withBudget (some 0) t) rfl).2
      rw [f1] at this; exact this
    exact setMetadata_stopped m2 hb2 (by rw [f2])
  · intro file hfb hfu'
    rw [hrun] at hfb
    have hst := ((Writes.bind (Writes.syncLoop (env := env) (i := ⟨fileSlot, hs⟩) (data := p) k M) (fun m' => Writes.setFileMetadata ⟨fileSlot, hs⟩ m')).stop
      (withBudget (some 0) t) rfl).1
    rw [hst] at hfb
    have hfb : file.bytes = t.file.bytes := hfb
    obtain ⟨r1, _⟩ := hjt.idx.reopen hfb hfu' .jsonl hs
    obtain ⟨s3, g1, g2, g3, _⟩ := r1 rfl rfl
    refine ⟨_, _, _, g1, ?_⟩
    obtain ⟨gt, rfl⟩ : ∃ gt, g = (text, f :: fs) :: gt := by
      cases g with
      | nil => cases hg
      | cons x g => simp only [List.head?_cons, Option.some.injEq] at hg; exact ⟨g, by rw [hg]⟩
    intro i' s' hre rest' hr'
    rw [← g3]
    refine stuck_forever (text := text) (rest := fileOf (gt.map (·.1)) (fileOf (g'.map (·.1)) tail')) ?_ (hno text (by simp)) ⟨g2, hjt.done⟩
      (hxg (text, f :: fs) (by simp)) hv (first_entry hv) hre hr'
    rw [hp0, List.map_cons, fileOf_cons]

/-- C93, for a crash before the first write or after the last one: the index that is opened afterwards is one of a history
without the crash.  In between see `C93_crash_violated`. -/
theorem C93_crash_partial (hr : SyncRun env hs data i s) (hd : data.length < 2 ^ 64) {lf : List (Bytes × List Field)} {tail : Bytes} (hl : IsLines data (lf.map (·.1)) tail)
    (hx : ∀ x ∈ lf, LineFields env.lex x.1 x.2 ∧ x.1.length < 2 ^ 32 ∧ ∀ f ∈ x.2, FieldOK env.lex hs x.1 f)
    {more : Bytes} {sg : PF} (hok : jsonlSync env i (data ++ more) s = (.ok (), sg)) :
    ∃ w, ∀ n file i1 s1 file', file.bytes = (jsonlSync env i (data ++ more) (crashAfter n s)).2.file.bytes → file.budget = none →
      IndexFile.openIndex .jsonl hs file = (.ok (i1, s1), file') →
      (n = 0 → SyncRun env hs data i1 s1) ∧ (w ≤ n → (jsonlSync env i (data ++ more) (crashAfter n s)).1 = .ok () ∧ SyncRun env hs (data ++ more) i1 s1) := by
  obtain ⟨rfl, is, c, hj⟩ := syncRun_is hr hd hl hx
  have hbud : s.file.budget = none := by
    obtain ⟨⟨_, _, _, _, _, h1, _⟩, _⟩ := hj.idx
    exact h1.slots.budget
  have hW := Writes.jsonlSync (env := env) (i := ⟨fileSlot, hs⟩) (data := data ++ more)
  obtain ⟨_, w, hw⟩ := hW.run s hbud (by rw [hok]; simp)
  refine ⟨w, fun n file i1 s1 file' hfb hfu ho => ⟨?_, ?_⟩⟩
  · rintro rfl
    have := (hW.stop (crashAfter 0 s) rfl).1
    exact .reopen hr (hfb.trans this) hfu ho
  · intro hn
    obtain ⟨k, rfl⟩ : ∃ k, n = w + k := ⟨n - w, by omega⟩
    have h1 : jsonlSync env ⟨fileSlot, hs⟩ (data ++ more) (crashAfter (w + k) s) = _ := hw k
    rw [h1, hok] at hfb
    exact ⟨by rw [h1, hok], .reopen (.sync hr hok) hfb hfu ho⟩

end
end Appendable
