import Verif.Lemmas.Jsonl
/-! Lines of a file, and the loop of `Synchronize`. -/
namespace Appendable
open Spec Tree

theorem fileOf_append (a b : List Bytes) (t : Bytes) : fileOf (a ++ b) t = fileOf a [] ++ fileOf b t := by
  simp [fileOf]

theorem fileOf_tail (a : List Bytes) (t : Bytes) : fileOf a t = fileOf a [] ++ t := by simp [fileOf]

theorem fileOf_cons (l : Bytes) (ls : List Bytes) (t : Bytes) : fileOf (l :: ls) t = l ++ 10 :: fileOf ls t := by simp [fileOf]

theorem indexNewline_none {b : Bytes} : indexNewline b = none ↔ (10 : UInt8) ∉ b := by
  induction b with
  | nil => simp [indexNewline]
  | cons x xs ih =>
    unfold indexNewline
    by_cases h : x = 10
    · simp [h]
    · rw [if_neg h]
      simp only [Option.map_eq_none_iff, ih, List.mem_cons, not_or]
      exact ⟨fun a => ⟨fun e => h e.symm, a⟩, fun a => a.2⟩

theorem indexNewline_line {l : Bytes} (h : (10 : UInt8) ∉ l) (r : Bytes) : indexNewline (l ++ 10 :: r) = some l.length := by
  induction l with
  | nil => simp [indexNewline]
  | cons x xs ih =>
    rw [List.cons_append]
    unfold indexNewline
    simp only [List.mem_cons, not_or] at h
    rw [if_neg (fun e => h.1 e.symm), ih h.2]
    simp

/-- Every file consists of lines. -/
theorem exists_lines (b : Bytes) : ∃ ls t, IsLines b ls t := by
  induction b with
  | nil => exact ⟨[], [], rfl, by simp, by simp⟩
  | cons x xs ih =>
    obtain ⟨ls, t, h1, h2, h3⟩ := ih
    by_cases hx : x = 10
    · refine ⟨[] :: ls, t, ?_, ?_, h3⟩
      · rw [fileOf_cons, hx, h1]; rfl
      · intro l hl
        rcases List.mem_cons.1 hl with rfl | hl
        · simp
        · exact h2 l hl
    · cases ls with
      | nil =>
        refine ⟨[], x :: t, ?_, by simp, ?_⟩
        · rw [h1]; rfl
        · simp only [List.mem_cons, not_or]; exact ⟨fun e => hx e.symm, h3⟩
      | cons l ls =>
        refine ⟨(x :: l) :: ls, t, ?_, ?_, h3⟩
        · rw [h1, fileOf_cons, fileOf_cons]; rfl
        · intro l' hl
          rcases List.mem_cons.1 hl with rfl | hl
          · simp only [List.mem_cons, not_or]
            exact ⟨fun e => hx e.symm, h2 l (by simp)⟩
          · exact h2 l' (by simp [hl])

/-- The lines of a file are determined. -/
theorem lines_unique {b : Bytes} {ls ls' : List Bytes} {t t' : Bytes} (h : IsLines b ls t) (h' : IsLines b ls' t') : ls = ls' ∧ t = t' := by
  induction ls generalizing b ls' with
  | nil =>
    obtain ⟨h1, _, h3⟩ := h
    obtain ⟨g1, g2, g3⟩ := h'
    cases ls' with
    | nil => exact ⟨rfl, by rw [h1] at g1; simpa [fileOf] using g1⟩
    | cons l ls' =>
      exfalso; apply h3
      rw [h1, fileOf_cons] at g1
      have : fileOf [] t = t := by simp [fileOf]
      rw [← this, g1]; simp
  | cons l ls ih =>
    obtain ⟨h1, h2, h3⟩ := h
    obtain ⟨g1, g2, g3⟩ := h'
    cases ls' with
    | nil =>
      exfalso; apply g3
      rw [h1, fileOf_cons] at g1
      have : fileOf [] t' = t' := by simp [fileOf]
      rw [← this, ← g1]; simp
    | cons l' ls' =>
      have e1 := indexNewline_line (h2 l (by simp)) (fileOf ls t)
      have e2 := indexNewline_line (g2 l' (by simp)) (fileOf ls' t')
      rw [fileOf_cons] at h1 g1
      rw [← h1] at e1; rw [← g1] at e2
      rw [e1] at e2
      have hlen : l.length = l'.length := by simpa using e2
      rw [h1] at g1
      obtain ⟨a1, a2⟩ := List.append_inj g1 hlen
      simp only [List.cons.injEq, true_and] at a2
      obtain ⟨r1, r2⟩ := ih (b := fileOf ls t) (ls' := ls') ⟨rfl, fun x hx => h2 x (by simp [hx]), h3⟩ ⟨a2, fun x hx => g2 x (by simp [hx]), g3⟩
      exact ⟨by rw [a1, r1], r2⟩

/-- The lines of a file that has grown. -/
theorem lines_grow {b more : Bytes} {ls : List Bytes} {t : Bytes} (h : IsLines b ls t) {ls' : List Bytes} {t' : Bytes}
    (h' : IsLines (b ++ more) ls' t') : ∃ ks, ls' = ls ++ ks ∧ IsLines (t ++ more) ks t' := by
  obtain ⟨ks, u, k1, k2, k3⟩ := exists_lines (t ++ more)
  have : IsLines (b ++ more) (ls ++ ks) u := by
    refine ⟨?_, ?_, k3⟩
    · rw [fileOf_append, ← k1, h.1, fileOf_tail, List.append_assoc]
    · intro l hl
      rcases List.mem_append.1 hl with hl | hl
      · exact h.2.1 l hl
      · exact k2 l hl
  obtain ⟨e1, e2⟩ := lines_unique h' this
  exact ⟨ks, e1, by rw [e2]; exact ⟨k1, k2, k3⟩⟩

theorem linesJobs_append (nfkd : Bytes → Bytes) (hs : List Bytes) (off : Nat) (a b : List (Bytes × List Field)) :
    linesJobs nfkd hs off (a ++ b) = linesJobs nfkd hs off a ++ linesJobs nfkd hs (off + (fileOf (a.map (·.1)) []).length) b := by
  induction a generalizing off with
  | nil => simp [linesJobs, fileOf]
  | cons x a ih =>
    obtain ⟨text, fs⟩ := x
    rw [List.cons_append]
    simp only [linesJobs]
    rw [ih, List.append_assoc]
    have : off + text.length + 1 + (fileOf (a.map (·.1)) []).length = off + (fileOf (((text, fs) :: a).map (·.1)) []).length := by
      rw [List.map_cons, fileOf_cons]
      simp only [List.length_append, List.length_cons]
      omega
    rw [this]

section
variable {env : JEnv} {hs : List Bytes} {i : IndexFile} {data : Bytes} {fm : FileMeta} {s : PF} {is : List (LP × IndexMeta)}
  {c : Nat → List Entry} {js : List Job}

/-- A line that the index supports. -/
def LineOK (env : JEnv) (hs : List Bytes) (x : Bytes × List Field) : Prop :=
  LineFields env.lex x.1 x.2 ∧ x.1.length < 2 ^ 32 ∧ ∀ f ∈ x.2, FieldOK env.lex hs x.1 f

/-- One line. -/
theorem lineSteps (hi : i.tree = fileSlot) (hsi : i.searchHeaders = hs) {off : Nat} {line : MemPtr} {x : Bytes × List Field}
    (hl : LineAt data off x.1 line) (hx : LineOK env hs x) (h : JIs data env.parse id s fm is c js) :
    Steps data env.parse id fm (handleLine env i data line x.1) s (js ++ x.2.flatMap (fieldJobs env.nfkd hs off line))
      (fun _ is' => Handles is is') := by
  obtain ⟨⟨e, l, r, h1, h2⟩, h3, h4⟩ := hx
  unfold handleLine
  rw [h1]
  refine Steps.bind (objSteps hi hsi hl h2 h4 _ (Nat.le_succ _) h) (Part.refl _) ?_
  rintro a s' is' c' h' ⟨⟨e', rfl⟩, hh⟩
  exact Steps.pure h' hh

/-- The loop. -/
theorem loopSteps (hi : i.tree = fileSlot) (hsi : i.searchHeaders = hs) (hd : data.length < 2 ^ 64) {tail : Bytes} (ht : (10 : UInt8) ∉ tail) 
    (lf : List (Bytes × List Field)) (pre : List Bytes)
    (hda : data = fileOf pre [] ++ fileOf (lf.map (·.1)) tail) (hno : ∀ x ∈ lf, (10 : UInt8) ∉ x.1) (hx : ∀ x ∈ lf, LineOK env hs x)
    {fuel : Nat} (hfu : lf.length < fuel) {m : FileMeta} (hro : m.readOffset = UInt64.ofNat (fileOf pre []).length)
    (h : JIs data env.parse id s fm is c js) :
    Steps data env.parse id fm (syncLoop env i data fuel m) s (js ++ linesJobs env.nfkd hs (fileOf pre []).length lf)
      (fun a is' => a = { m with readOffset := UInt64.ofNat (fileOf (pre ++ lf.map (·.1)) []).length, entries := m.entries + UInt64.ofNat lf.length } ∧
        Handles is is') := by
  induction lf generalizing pre fuel m s is c js with
  | nil =>
    obtain ⟨fuel, rfl⟩ : ∃ k, fuel = k + 1 := ⟨fuel - 1, by simp at hfu; omega⟩
    have hn : m.readOffset.toNat = (fileOf pre []).length := by
      rw [hro, UInt64.toNat_ofNat', Nat.mod_eq_of_lt]
      rw [hda, List.length_append] at hd; omega
    unfold syncLoop
    rw [if_neg (by rw [hn, hda, List.length_append]; omega), hn]
    have hdr : data.drop (fileOf pre []).length = tail := by
      rw [hda, List.drop_left']
      · simp [fileOf]
      · rfl
    rw [hdr, indexNewline_none.2 ht]
    simp only [linesJobs, List.append_nil, List.map_nil]
    refine Steps.pure h ⟨?_, Handles.refl _⟩
    rw [← hro]; simp
  | cons x lf ih =>
    obtain ⟨fuel, rfl⟩ : ∃ k, fuel = k + 1 := ⟨fuel - 1, by simp at hfu; omega⟩
    simp only [List.length_cons] at hfu
    have hlen : data.length = (fileOf pre []).length + (x.1.length + 1 + (fileOf (lf.map (·.1)) tail).length) := by
      rw [hda, List.map_cons, fileOf_cons]; simp only [List.length_append, List.length_cons]; omega
    have hn : m.readOffset.toNat = (fileOf pre []).length := by
      rw [hro, UInt64.toNat_ofNat', Nat.mod_eq_of_lt]; omega
    have hdr : data.drop (fileOf pre []).length = x.1 ++ 10 :: fileOf (lf.map (·.1)) tail := by
      rw [hda, List.drop_left', List.map_cons, fileOf_cons]
      rfl
    unfold syncLoop
    rw [if_neg (by rw [hn]; omega), hn, hdr, indexNewline_line (hno x (by simp))]
    simp only [List.take_left']
    have hla : LineAt data (fileOf pre []).length x.1 ⟨m.readOffset, UInt32.ofNat x.1.length⟩ := by
      refine ⟨?_, by omega, (hx x (by simp)).2.1, hd, by rw [hro]⟩
      rw [hdr, List.take_left']; rfl
    refine Steps.bind (js1 := js ++ x.2.flatMap (fieldJobs env.nfkd hs (fileOf pre []).length ⟨m.readOffset, UInt32.ofNat x.1.length⟩))
      (lineSteps hi hsi hla (hx x (by simp)) h) ?_ ?_
    · have := Part.left (js ++ x.2.flatMap (fieldJobs env.nfkd hs (fileOf pre []).length ⟨m.readOffset, UInt32.ofNat x.1.length⟩))
        (linesJobs env.nfkd hs ((fileOf pre []).length + x.1.length + 1) lf)
      rw [List.append_assoc, hro] at this
      rw [hro]
      exact this
    · rintro a s' is' c' h' hh
      have hp : (fileOf (pre ++ [x.1]) []).length = (fileOf pre []).length + x.1.length + 1 := by
        rw [fileOf_append]; simp [fileOf]; omega
      have := ih (pre ++ [x.1]) (m := { m with readOffset := m.readOffset + UInt64.ofNat x.1.length + 1, entries := m.entries + 1 }) (by
          rw [hda, List.map_cons, fileOf_cons, fileOf_append]; simp [fileOf]) (fun y hy => hno y (by simp [hy])) (fun y hy => hx y (by simp [hy]))
        (fuel := fuel) (by omega) (by
          rw [hp, hro, UInt64.ofNat_add, UInt64.ofNat_add]; rfl) h'
      rw [hp, List.append_assoc] at this
      have hjobs : js ++ linesJobs env.nfkd hs (fileOf pre []).length (x :: lf) =
          js ++ (x.2.flatMap (fieldJobs env.nfkd hs (fileOf pre []).length ⟨m.readOffset, UInt32.ofNat x.1.length⟩) ++
            linesJobs env.nfkd hs ((fileOf pre []).length + x.1.length + 1) lf) := by
        rw [hro]; rfl
      rw [hjobs]
      refine this.imp ?_
      rintro a is2 ⟨rfl, hh2⟩
      refine ⟨?_, hh.trans hh2⟩
      simp only [List.append_assoc, List.map_cons, List.length_cons, List.singleton_append, FileMeta.mk.injEq, true_and]
      rw [UInt64.ofNat_add, UInt64.add_assoc, UInt64.add_comm 1]; rfl

/-- The whole of `Synchronize`, after the earlier lines. -/
theorem syncSteps (hi : i.tree = fileSlot) (hsi : i.searchHeaders = hs) (hd : data.length < 2 ^ 64) {tail : Bytes} {old new : List (Bytes × List Field)}
    (hl : IsLines data ((old ++ new).map (·.1)) tail) (hx : ∀ x ∈ new, LineOK env hs x)
    (h : JIs data env.parse id s ⟨fm.version, fm.format, UInt64.ofNat (fileOf (old.map (·.1)) []).length, UInt64.ofNat old.length⟩ is c
      (linesJobs env.nfkd hs 0 old)) :
    Steps data env.parse id ⟨fm.version, fm.format, UInt64.ofNat (fileOf ((old ++ new).map (·.1)) []).length, UInt64.ofNat (old ++ new).length⟩ 
      (jsonlSync env i data) s (linesJobs env.nfkd hs 0 (old ++ new)) (fun _ is' => Handles is is') := by
  obtain ⟨q, hq⟩ := h.idx.metadata hi
  unfold jsonlSync
  unfold Steps
  rw [Act.bind_ok hq]
  have hd0 : data = fileOf (old.map (·.1)) [] ++ fileOf (new.map (·.1)) tail := by
    rw [hl.1, List.map_append, fileOf_append]
  have hle : new.length ≤ data.length := by
    have : new.length ≤ (fileOf (new.map (·.1)) tail).length := by
      clear hl hx hd0 h hq
      induction new with
      | nil => simp
      | cons x l ih => rw [List.map_cons, fileOf_cons]; simp only [List.length_append, List.length_cons]; omega
    rw [hd0, List.length_append]; omega
  have h' : JIs data env.parse id (s.upd s.file.bytes q) _ is c _ := ⟨h.idx.upd q, h.done⟩
  have hlp := loopSteps (m := ⟨fm.version, fm.format, UInt64.ofNat (fileOf (old.map (·.1)) []).length, UInt64.ofNat old.length⟩) hi hsi hd hl.2.2 new
    (old.map (·.1)) hd0 (fun x hx => hl.2.1 x.1 (by simp only [List.map_append, List.mem_append, List.mem_map]; exact .inr ⟨x, hx, rfl⟩)) hx
    (fuel := data.length + 1) (by omega) rfl h'
  have hjobs : linesJobs env.nfkd hs 0 (old ++ new) = linesJobs env.nfkd hs 0 old ++ linesJobs env.nfkd hs (fileOf (old.map (·.1)) []).length new := by
    rw [linesJobs_append, Nat.zero_add]
  rw [hjobs]
  rcases hlp with ⟨a, s', is', c', e1, e2, rfl, hh⟩ | ⟨s', e1, e2⟩ | ⟨s', e1, e2⟩
  · obtain ⟨s2, g1, g2, _⟩ := e2.idx.setMetadata hi ⟨fm.version, fm.format, UInt64.ofNat (fileOf ((old ++ new).map (·.1)) []).length, UInt64.ofNat (old ++ new).length⟩
    refine .inl ⟨(), s2, is', c', ?_, ⟨g2, e2.done⟩, hh⟩
    rw [Act.bind_ok e1]
    rw [List.length_append, UInt64.ofNat_add, List.map_append] at g1
    exact g1
  · exact .inr (.inl ⟨s', by rw [Act.bind_err e1], e2⟩)
  · exact .inr (.inr ⟨s', by rw [Act.bind_err e1], e2⟩)

end
end Appendable
