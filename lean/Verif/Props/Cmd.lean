import Verif.Spec.Cmd
import Verif.Props.Jsonl
/-! C95: runs of the program with different search headers. -/
namespace Appendable
open Spec Tree

section
variable {env : JEnv} {num : Bytes → Option UInt64} {hs : List Bytes} {i : IndexFile} {data : Bytes} {s : PF}

/-- `Synchronize` after any earlier lines, however they were indexed. -/
theorem syncSteps_any {fm : FileMeta} {is : List (LP × IndexMeta)} {c : Nat → List Entry} {js : List Job} (hi : i.tree = fileSlot) (hsi : i.searchHeaders = hs)
    (hd : data.length < 2 ^ 64) {tail : Bytes} {old new : List (Bytes × List Field)}
    (hl : IsLines data ((old ++ new).map (·.1)) tail) (hx : ∀ x ∈ new, LineOK env hs x)
    (h : JIs data env.parse id s ⟨fm.version, fm.format, UInt64.ofNat (fileOf (old.map (·.1)) []).length, UInt64.ofNat old.length⟩ is c js) :
    Steps data env.parse id ⟨fm.version, fm.format, UInt64.ofNat (fileOf ((old ++ new).map (·.1)) []).length, UInt64.ofNat (old ++ new).length⟩
      (jsonlSync env i data) s (js ++ linesJobs env.nfkd hs (fileOf (old.map (·.1)) []).length new) (fun _ is' => Handles is is') := by
  obtain ⟨q, hq⟩ := h.idx.metadata hi
  unfold jsonlSync
  unfold Steps
  rw [Act.bind_ok hq]
  have hd0 : data = fileOf (old.map (·.1)) [] ++ fileOf (new.map (·.1)) tail := by
    rw [hl.1, List.map_append, fileOf_append]
  have hle : new.length ≤ data.length := by
    have : new.length ≤ (fileOf (new.map (·.1)) tail).length := by
      clear hl hx hd0 h hq
      induction new with
      | nil => simp
      | cons x l ih => rw [List.map_cons, fileOf_cons]; simp only [List.length_append, List.length_cons]; omega
    rw [hd0, List.length_append]; omega
  have h' : JIs data env.parse id (s.upd s.file.bytes q) _ is c _ := ⟨h.idx.upd q, h.done⟩
  have hlp := loopSteps (m := ⟨fm.version, fm.format, UInt64.ofNat (fileOf (old.map (·.1)) []).length, UInt64.ofNat old.length⟩) hi hsi hd hl.2.2 new
    (old.map (·.1)) hd0 (fun x hx => hl.2.1 x.1 (by simp only [List.map_append, List.mem_append, List.mem_map]; exact .inr ⟨x, hx, rfl⟩)) hx
    (fuel := data.length + 1) (by omega) rfl h'
  rcases hlp with ⟨a, s', is', c', e1, e2, rfl, hh⟩ | ⟨s', e1, e2⟩ | ⟨s', e1, e2⟩
  · obtain ⟨s2, g1, g2, _⟩ := e2.idx.setMetadata hi ⟨fm.version, fm.format, UInt64.ofNat (fileOf ((old ++ new).map (·.1)) []).length, UInt64.ofNat (old ++ new).length⟩
    refine .inl ⟨(), s2, is', c', ?_, ⟨g2, e2.done⟩, hh⟩
    rw [Act.bind_ok e1]
    rw [List.length_append, UInt64.ofNat_add, List.map_append] at g1
    exact g1
  · exact .inr (.inl ⟨s', by rw [Act.bind_err e1], e2⟩)
  · exact .inr (.inr ⟨s', by rw [Act.bind_err e1], e2⟩)

end

section
variable {env : JEnv} {num : Bytes → Option UInt64} {data index : Bytes} {given : List (List Bytes)}

theorem givenJobs_append {nfkd : Bytes → Bytes} (a b : List ((Bytes × List Field) × List Bytes)) (off : Nat) :
    givenJobs nfkd off (a ++ b) = givenJobs nfkd off a ++ givenJobs nfkd (off + (fileOf (a.map (·.1.1)) []).length) b := by
  induction a generalizing off with
  | nil => simp [givenJobs, fileOf]
  | cons x a ih =>
    obtain ⟨x, hs⟩ := x
    rw [List.cons_append, givenJobs, givenJobs, ih, List.append_assoc, List.map_cons, fileOf_cons]
    congr 3
    simp only [List.length_append, List.length_cons]; omega

theorem givenJobs_same {nfkd : Bytes → Bytes} (lf : List (Bytes × List Field)) (hs : List Bytes) (off : Nat) :
    givenJobs nfkd off (lf.map (fun x => (x, hs))) = linesJobs nfkd hs off lf := by
  induction lf generalizing off with
  | nil => rfl
  | cons x lf ih =>
    obtain ⟨t, fs⟩ := x
    rw [List.map_cons, givenJobs, ih, linesJobs, linesJobs, linesJobs, List.append_nil]

/-- Every run leaves one set of search headers for each complete line. -/
theorem runs_length (h : Runs env num data given index) {lines : List Bytes} {tail : Bytes} (hl : IsLines data lines tail) : given.length = lines.length := by
  induction h generalizing lines tail with
  | none =>
    obtain ⟨rfl, _⟩ := lines_unique hl (show IsLines [] [] [] from ⟨rfl, by simp, by simp⟩)
    rfl
  | @run data more index index' given hs ls t hr hl' h ih =>
    obtain ⟨rfl, _⟩ := lines_unique hl hl'
    obtain ⟨ls', t', hls⟩ := exists_lines data
    obtain ⟨ks, hks, _⟩ := lines_grow hls hl
    have := ih hls
    rw [List.length_append, List.length_replicate, hks, List.length_append, this]
    omega

/-- What a run does. -/
theorem cmdRun_ok {hs : List Bytes} {data index' : Bytes} (h : cmdRun env num .jsonl hs data index = (.ok (), index')) :
    ∃ i s f' s', IndexFile.openIndex .jsonl hs ⟨.mmap, index, 0, none⟩ = (.ok (i, s), f') ∧ jsonlSync env i data s = (.ok (), s') ∧ s'.file.bytes = index' := by
  unfold cmdRun at h
  split at h
  · rename_i i s f' ho
    split at h
    · rename_i s' hs'
      cases h
      exact ⟨i, s, f', s', ho, hs', rfl⟩
    · cases h
  · cases h

/-- The state of the index file after any runs. -/
theorem runs_is (h : Runs env num data given index) (hd : data.length < 2 ^ 64) {lf : List ((Bytes × List Field) × List Bytes)} {tail : Bytes}
    (hl : IsLines data (lf.map (·.1.1)) tail) (hg : lf.map (·.2) = given) (hx : ∀ x ∈ lf, LineOK env x.2 x.1) :
    (data = [] ∧ index = []) ∨ ∃ s is c, s.file.bytes = index ∧ s.file.budget = none ∧
      JIs data env.parse id s ⟨1, .jsonl, UInt64.ofNat (fileOf (lf.map (·.1.1)) []).length, UInt64.ofNat lf.length⟩ is c (givenJobs env.nfkd 0 lf) := by
  induction h generalizing lf tail with
  | none => exact .inl ⟨rfl, rfl⟩
  | @run data more index index' given hs lines t hr hl' h ih =>
    right
    obtain ⟨ls, t0, hls⟩ := exists_lines data
    obtain ⟨ks, hks, hkt⟩ := lines_grow hls hl
    have hlen := runs_length hr hls
    obtain ⟨i, s, f', s', ho, hsy, rfl⟩ := cmdRun_ok h
    obtain ⟨rfl, _⟩ := lines_unique hl hl'
    rw [show lf.map (·.1.1) = (lf.map (·.1)).map (·.1) by rw [List.map_map]; rfl] at hks
    obtain ⟨x, y, hxy, hx1, hy1⟩ := map_fst_append hks
    obtain ⟨old, new, rfl, rfl, rfl⟩ := List.map_eq_append_iff.1 hxy
    have hol : old.length = ls.length := by rw [← hx1]; simp
    have hnl : new.length = ks.length := by rw [← hy1]; simp
    rw [List.map_append] at hg
    have hgs := List.append_inj hg (by rw [List.length_map, hol, hlen])
    have hnew : ∀ z ∈ new, z.2 = hs := by
      intro z hz
      have : z.2 ∈ new.map (·.2) := List.mem_map.2 ⟨z, hz, rfl⟩
      rw [hgs.2] at this
      exact (List.mem_replicate.1 this).2
    have hnew' : new = (new.map (·.1)).map (fun x => (x, hs)) := by
      rw [List.map_map]
      conv => lhs; rw [← List.map_id new]
      refine List.map_congr_left fun z hz => ?_
      obtain ⟨a, b⟩ := z
      have := hnew _ hz
      simp only at this
      rw [this]; rfl
    rw [List.length_append] at hd
    have hls' : IsLines data (old.map (·.1.1)) t0 := by rw [show old.map (·.1.1) = (old.map (·.1)).map (·.1) by rw [List.map_map]; rfl, hx1]; exact hls
    have hstart : ∃ is c, i = ⟨fileSlot, hs⟩ ∧ JIs data env.parse id s ⟨1, .jsonl, UInt64.ofNat (fileOf (old.map (·.1.1)) []).length, UInt64.ofNat old.length⟩ is c
        (givenJobs env.nfkd 0 old) := by
      rcases ih (by omega) hls' hgs.1 (fun z hz => hx z (by simp [hz])) with ⟨rfl, rfl⟩ | ⟨s1, is, c, hb, hu, hj⟩
      · obtain ⟨s1, e1, e2⟩ := openIndex_fresh [] env.parse (fun m => id m.width) (f := ⟨.mmap, [], 0, none⟩) rfl rfl .jsonl hs
        rw [e1] at ho; cases ho
        have : IsLines [] [] [] := ⟨rfl, by simp, by simp⟩
        obtain ⟨u1, _⟩ := lines_unique hls' this
        rw [List.map_eq_nil_iff] at u1
        subst u1
        refine ⟨[], fun _ => [], rfl, ⟨e2, ⟨rfl, ?_⟩⟩⟩
        intro k p m hk
        simp at hk
      · obtain ⟨r1, _⟩ := hj.idx.reopen (f := ⟨.mmap, index, 0, none⟩) hb.symm rfl .jsonl hs
        obtain ⟨s2, e1, e2, _⟩ := r1 rfl rfl
        rw [e1] at ho; cases ho
        exact ⟨is, c, rfl, ⟨e2, hj.done⟩⟩
    obtain ⟨is, c, rfl, hj⟩ := hstart
    have := syncSteps_any (fm := ⟨1, .jsonl, 0, 0⟩) (i := ⟨fileSlot, hs⟩) (old := old.map (·.1)) (new := new.map (·.1)) (tail := tail) rfl rfl
      (by rw [List.length_append]; omega) (by simpa [List.map_map, Function.comp_def] using hl)
      (fun x hx' => by
        obtain ⟨z, hz, rfl⟩ := List.mem_map.1 hx'
        have := hx z (by simp [hz])
        rwa [hnew z hz] at this) (by simpa [List.map_map, Function.comp_def] using hj.grow more)
    rcases this with ⟨a, s1, is', c', e1, e2, _⟩ | ⟨s1, e1, e2⟩ | ⟨s1, e1, e2⟩
    · rw [e1] at hsy; cases hsy
      refine ⟨s', is', c', rfl, e2.idx.budget, ?_⟩
      rw [givenJobs_append, Nat.zero_add]
      rw [hnew', givenJobs_same, ← hnew']
      simpa [List.map_map, Function.comp_def] using e2
    · rw [e1] at hsy; cases hsy
    · rw [e1] at hsy; cases hsy

/-- C95, what does hold: after any runs of the program, each with search headers of its own, the index holds for every complete
line exactly what its fields add with the search headers of the run that indexed it. -/
theorem C95_headers_partial (h : Runs env num data given index) (hd : data.length < 2 ^ 64) {lf : List ((Bytes × List Field) × List Bytes)} {tail : Bytes}
    (hl : IsLines data (lf.map (·.1.1)) tail) (hg : lf.map (·.2) = given)
    (hx : ∀ x ∈ lf, LineFields env.lex x.1.1 x.1.2 ∧ x.1.1.length < 2 ^ 32 ∧ ∀ f ∈ x.1.2, FieldOK env.lex x.2 x.1.1 f) :
    IndexHolds data index env.parse ⟨1, .jsonl, UInt64.ofNat (fileOf (lf.map (·.1.1)) []).length, UInt64.ofNat lf.length⟩ (givenJobs env.nfkd 0 lf) := by
  intro f hs hf hb
  rcases runs_is h hd hl hg hx with ⟨rfl, rfl⟩ | ⟨s, is, c, h1, _, h3⟩
  · obtain ⟨s1, e1, e2⟩ := openIndex_fresh [] env.parse (fun m => id m.width) hf hb .jsonl hs
    have : IsLines [] [] [] := ⟨rfl, by simp, by simp⟩
    obtain ⟨u1, _⟩ := lines_unique hl this
    rw [List.map_eq_nil_iff] at u1
    subst u1
    refine ⟨_, _, _, e1, JIs.holds (is := []) (c := fun _ => []) ⟨e2, ⟨rfl, ?_⟩⟩ rfl⟩
    intro k p m hk
    simp at hk
  · obtain ⟨r1, _⟩ := h3.idx.reopen (hf.trans h1.symm) hb .jsonl hs
    obtain ⟨s2, e1, e2, _⟩ := r1 rfl rfl
    exact ⟨_, _, _, e1, JIs.holds (js := givenJobs env.nfkd 0 lf) ⟨e2, h3.done⟩ rfl⟩

theorem fieldJobs_gram {nfkd : Bytes → Bytes} {hs : List Bytes} {off : Nat} {line : MemPtr} {f : Field} {j : Job} (h : j ∈ fieldJobs nfkd hs off line f)
    {ty : FieldType} (hty : ty = .unigram ∨ ty = .bigram ∨ ty = .trigram) (hj : j.ty = ty.code) : j.name ∈ hs := by
  unfold fieldJobs at h
  rcases List.mem_cons.1 h with rfl | h
  · exfalso
    revert hj
    simp only
    rcases hty with rfl | rfl | rfl <;> cases f.tok <;> exact of_decide_eq_false rfl
  · split at h
    · split at h
      · rename_i hn
        simp only [List.mem_cons, List.not_mem_nil, or_false] at h
        rcases h with rfl | rfl | rfl <;> exact hn
      · simp at h
    · simp at h

theorem fieldJobs_line {nfkd : Bytes → Bytes} {hs : List Bytes} {off : Nat} {line : MemPtr} {f : Field} {j : Job} (h : j ∈ fieldJobs nfkd hs off line f)
    {e : RV × MemPtr} (he : e ∈ j.entries) : e.2 = line := by
  have hg : ∀ text ty n, e ∈ (gramJob nfkd off line f text ty n).entries → e.2 = line := by
    intro text ty n he
    obtain ⟨g, _, rfl⟩ := List.mem_map.1 he
    rfl
  unfold fieldJobs at h
  rcases List.mem_cons.1 h with rfl | h
  · simp only at he
    split at he
    · simp only [List.mem_singleton] at he; rw [he]
    · simp at he
  · split at h
    · split at h
      · simp only [List.mem_cons, List.not_mem_nil, or_false] at h
        rcases h with rfl | rfl | rfl <;> exact hg _ _ _ he
      · simp at h
    · simp at h

/-- Where entries of an n-gram index come from. -/
theorem givenJobs_grams {nfkd : Bytes → Bytes} {name : Bytes} {ty : FieldType} (hty : ty = .unigram ∨ ty = .bigram ∨ ty = .trigram) {e : RV × MemPtr}
    (lf : List ((Bytes × List Field) × List Bytes)) (off : Nat) (he : e ∈ entriesOf (givenJobs nfkd off lf) name ty.code) :
    ∃ a x b, lf = a ++ x :: b ∧ name ∈ x.2 ∧ e.2 = ⟨UInt64.ofNat (off + (fileOf (a.map (·.1.1)) []).length), UInt32.ofNat x.1.1.length⟩ := by
  induction lf generalizing off with
  | nil => simp [givenJobs, entriesOf] at he
  | cons x lf ih =>
    obtain ⟨⟨t, fs⟩, hs⟩ := x
    unfold entriesOf at he
    rw [givenJobs, List.flatMap_append, List.mem_append] at he
    rcases he with he | he
    · obtain ⟨j, hj, he⟩ := List.mem_flatMap.1 he
      split at he
      · rename_i hn
        rw [linesJobs, linesJobs, List.append_nil] at hj
        obtain ⟨f, hf, hj⟩ := List.mem_flatMap.1 hj
        refine ⟨[], _, lf, rfl, ?_, ?_⟩
        · rw [← hn.1]; exact fieldJobs_gram hj hty hn.2
        · exact fieldJobs_line hj he
      · simp at he
    · obtain ⟨a, x, b, rfl, h1, h2⟩ := ih _ he
      refine ⟨((t, fs), hs) :: a, x, b, rfl, h1, ?_⟩
      rw [h2, List.map_cons, fileOf_cons]
      simp only [List.length_append, List.length_cons, MemPtr.mk.injEq, and_true]
      congr 1; omega

/-- C95 is violated: a line that was indexed by a run without the search header `name` has no entry in any n-gram index of `name`,
whatever search headers the later runs (including the last one) had. -/
theorem C95_old_lines_violated (h : Runs env num data given index) (hd : data.length < 2 ^ 64) {lf : List ((Bytes × List Field) × List Bytes)} {tail : Bytes}
    (hl : IsLines data (lf.map (·.1.1)) tail) (hg : lf.map (·.2) = given)
    (hx : ∀ x ∈ lf, LineFields env.lex x.1.1 x.1.2 ∧ x.1.1.length < 2 ^ 32 ∧ ∀ f ∈ x.1.2, FieldOK env.lex x.2 x.1.1 f)
    {a b : List ((Bytes × List Field) × List Bytes)} {x : (Bytes × List Field) × List Bytes} (hlf : lf = a ++ x :: b) {name : Bytes} (hn : name ∉ x.2)
    {ty : FieldType} (hty : ty = .unigram ∨ ty = .bigram ∨ ty = .trigram) :
    ∃ fm js, IndexHolds data index env.parse fm js ∧
      ∀ e ∈ entriesOf js name ty.code, e.2.offset ≠ UInt64.ofNat (fileOf (a.map (·.1.1)) []).length := by
  refine ⟨_, _, C95_headers_partial h hd hl hg hx, fun e he hc => ?_⟩
  obtain ⟨a', x', b', h1, h2, h3⟩ := givenJobs_grams hty lf 0 he
  rw [h3, Nat.zero_add] at hc
  have hlen : ∀ c d : List ((Bytes × List Field) × List Bytes), lf = c ++ d → (fileOf (c.map (·.1.1)) []).length < 2 ^ 64 := by
    intro c d hcd
    have : data = fileOf (c.map (·.1.1)) [] ++ fileOf (d.map (·.1.1)) tail := by rw [hl.1, hcd, List.map_append, fileOf_append]
    rw [this, List.length_append] at hd
    omega
  have hc' : (fileOf (a'.map (·.1.1)) []).length = (fileOf (a.map (·.1.1)) []).length := by
    have := congrArg UInt64.toNat hc
    simp only [UInt64.toNat_ofNat'] at this
    rwa [Nat.mod_eq_of_lt (hlen a' _ h1), Nat.mod_eq_of_lt (hlen a _ hlf)] at this
  have hsplit := List.append_eq_append_iff.1 (h1.symm.trans hlf)
  have hgt : ∀ (p : List ((Bytes × List Field) × List Bytes)) (y : (Bytes × List Field) × List Bytes) (r : List ((Bytes × List Field) × List Bytes)),
      (fileOf (p.map (·.1.1)) []).length < (fileOf ((p ++ y :: r).map (·.1.1)) []).length := by
    intro p y r
    rw [List.map_append, fileOf_append, List.map_cons, fileOf_cons]
    simp only [List.length_append, List.length_cons]; omega
  rcases hsplit with ⟨w, h4, h5⟩ | ⟨w, h4, h5⟩
  · cases w with
    | nil =>
      simp only [List.nil_append, List.cons.injEq] at h5
      rw [h5.1] at h2
      exact hn h2
    | cons y w =>
      rw [h4] at hc'
      have := hgt a' y w
      omega
  · cases w with
    | nil =>
      simp only [List.nil_append, List.cons.injEq] at h5
      rw [← h5.1] at h2
      exact hn h2
    | cons y w =>
      rw [h4] at hc'
      have := hgt a y w
      omega

/-- `Synchronize` when no line has been completed. -/
theorem IndexSt.noop {s : PF} {is : List (LP × IndexMeta)} {c : Nat → List Entry} {m : FileMeta} (h : IndexIs data env.parse (fun m => id m.width) s m is c)
    (hs : List Bytes) {more : Bytes} (hd : (data ++ more).length < 2 ^ 64) {lines : List Bytes} {tail' : Bytes}
    (hl' : IsLines (data ++ more) lines tail') (hro : m.readOffset = UInt64.ofNat (fileOf lines []).length) :
    ∃ s', jsonlSync env ⟨fileSlot, hs⟩ (data ++ more) s = (.ok (), s') ∧ s'.file.bytes = s.file.bytes := by
  obtain ⟨q, hq⟩ := h.fileSlotMd
  have hat : AtSlot s.file.bytes fileSlot 4096 0 := by
    obtain ⟨⟨free, ps, cnt, E, P, h1, h2⟩, h3⟩ := h
    obtain ⟨tl, htl, _⟩ := h1.first
    obtain ⟨m1, m2, _⟩ := places_mem (p := pageSize) (i := 0) (by rw [htl]; simp) h1.slots.inv.cle
    exact h1.slots.inv.pages.atSlot m1 m2
  obtain ⟨r1, r2, s4, r3, r4⟩ := setMetadata_same hat h.budget hq
  refine ⟨s4, ?_, r4⟩
  have hn : m.readOffset.toNat = (fileOf lines []).length := by
    rw [hro, UInt64.toNat_ofNat', Nat.mod_eq_of_lt]
    rw [hl'.1, fileOf_tail _ tail', List.length_append] at hd; omega
  have hloop : syncLoop env ⟨fileSlot, hs⟩ (data ++ more) ((data ++ more).length + 1) m (s.upd s.file.bytes q) = (.ok m, s.upd s.file.bytes q) := by
    unfold syncLoop
    have hdr : (data ++ more).drop (fileOf lines []).length = tail' := by
      rw [hl'.1, fileOf_tail _ tail', List.drop_left']; rfl
    rw [if_neg (by rw [hn, hl'.1, fileOf_tail _ tail', List.length_append]; omega), hn, hdr, indexNewline_none.2 hl'.2.2]
    rfl
  unfold jsonlSync
  have hmd : (⟨fileSlot, hs⟩ : IndexFile).metadata s = (.ok m, s.upd s.file.bytes q) := by
    unfold IndexFile.metadata
    rw [Act.bind_ok hq, fileMeta_lift]
  rw [Act.bind_ok hmd, Act.bind_ok hloop]
  unfold IndexFile.setMetadata
  rw [Act.bind_ok (a := m.bytes) (s' := s.upd s.file.bytes q) (by rw [FileMeta.marshal_eq]; rfl)]
  exact r3

/-- C95 is violated, second way: running the program again after a first run, with whatever search headers, when no line has been
completed since, changes no byte of the index file. -/
theorem C95_again_violated (h : Runs env num data given index) (hne : index ≠ []) {more : Bytes} (hd : (data ++ more).length < 2 ^ 64)
    {lf : List ((Bytes × List Field) × List Bytes)} {tail tail' : Bytes} (hl : IsLines data (lf.map (·.1.1)) tail) (hl' : IsLines (data ++ more) (lf.map (·.1.1)) tail')
    (hg : lf.map (·.2) = given)
    (hx : ∀ x ∈ lf, LineFields env.lex x.1.1 x.1.2 ∧ x.1.1.length < 2 ^ 32 ∧ ∀ f ∈ x.1.2, FieldOK env.lex x.2 x.1.1 f) (hs : List Bytes) :
    cmdRun env num .jsonl hs (data ++ more) index = (.ok (), index) := by
  have hdl : data.length < 2 ^ 64 := by rw [List.length_append] at hd; omega
  rcases runs_is h hdl hl hg hx with ⟨rfl, rfl⟩ | ⟨s0, is, c, h1, _, hj0⟩
  · exact absurd rfl hne
  obtain ⟨r1, _⟩ := hj0.idx.reopen (f := ⟨.mmap, index, 0, none⟩) h1.symm rfl .jsonl hs
  obtain ⟨s, e1, e2, e3, _⟩ := r1 rfl rfl
  obtain ⟨s', g1, g2⟩ := e2.noop hs hd hl' (by simp)
  unfold cmdRun
  rw [e1]
  simp only [cmdSync, g1]
  rw [g2, e3]

end
end Appendable
