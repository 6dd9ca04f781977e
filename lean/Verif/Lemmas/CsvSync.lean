import Verif.Lemmas.Csv
/-! The loop of the CSV `Synchronize`, and histories. -/
namespace Appendable
open Spec Tree

/-! ### Field names -/

section
variable {α β : Type} [DecidableEq α] [DecidableEq β]

theorem filter_firstOccurrences (p : α → Bool) (l : List α) : (firstOccurrences l).filter p = firstOccurrences (l.filter p) := by
  induction l with
  | nil => rfl
  | cons a l ih =>
    simp only [firstOccurrences, List.filter_cons]
    cases hp : p a with
    | true =>
      simp only [if_true, firstOccurrences, List.cons.injEq, true_and]
      rw [← ih, List.filter_filter, List.filter_filter]
      apply List.filter_congr
      intro b _; rw [Bool.and_comm]
    | false =>
      simp only [Bool.false_eq_true, if_false]
      rw [← ih, List.filter_filter]
      apply List.filter_congr
      intro b _
      by_cases hb : b = a
      · subst hb; simp [hp]
      · simp [hb]

theorem firstOccurrences_map (f : α → β) (l : List α) : firstOccurrences ((firstOccurrences l).map f) = firstOccurrences (l.map f) := by
  induction l with
  | nil => rfl
  | cons a l ih =>
    simp only [firstOccurrences, List.map_cons, List.cons.injEq, true_and]
    rw [← ih, filter_firstOccurrences (fun b => decide (b ≠ f a)), filter_firstOccurrences (fun b => decide (b ≠ f a))]
    congr 1
    rw [List.filter_map, List.filter_map, List.filter_filter]
    congr 1
    apply List.filter_congr
    intro b _
    simp only [Function.comp]
    by_cases hb : b = a
    · subst hb; simp
    · simp [hb]

theorem firstOccurrences_nodup {l : List α} (h : l.Nodup) : firstOccurrences l = l := by
  induction l with
  | nil => rfl
  | cons a l ih =>
    rw [List.nodup_cons] at h
    simp only [firstOccurrences, ih h.2, List.cons.injEq, true_and]
    rw [List.filter_eq_self]
    intro b hb
    simp only [decide_eq_true_eq]
    rintro rfl
    exact h.1 hb

theorem firstOccurrences_rest {l m : List α} (h : l.Nodup) (hm : ∀ x ∈ m, x ∈ l) : firstOccurrences (l ++ m) = l := by
  rw [firstOccurrences_append, firstOccurrences_nodup h, List.filter_eq_nil_iff.2, List.append_nil]
  intro b hb
  simp only [decide_not, Bool.not_eq_true', decide_eq_false_iff_not]
  exact fun hc => hc (hm b (mem_firstOccurrences.1 hb))
end

section
variable {data : Bytes} {parse : Bytes → Bytes} {s : PF} {fm : FileMeta} {is : List (LP × IndexMeta)}
  {c : Nat → List Entry} {js : List Job} {i : IndexFile}

theorem IndexSt.names {wd : IndexMeta → UInt16} (h : IndexIs data parse wd s fm is c) (hi : i.tree = fileSlot) :
    ∃ q, i.indexFieldNames s = (.ok (firstOccurrences (is.map (·.2.fieldName))), s.upd s.file.bytes q) := by
  obtain ⟨⟨free, ps, cnt, E, P, g1, g2⟩, g3, g4⟩ := h
  obtain ⟨tl, htl, hlk, hc1⟩ := g1.first
  have hma := g1.metasAt (by intro m hm; obtain ⟨y, hy, rfl⟩ := List.mem_map.1 hm; exact g3 y hy)
  have hfu := g1.fuel
  rw [htl, List.tail_cons] at hma hfu
  obtain ⟨q, hq⟩ := namesFrom_linked rfl hlk hma (LP.listFuel s) hfu []
  refine ⟨q, ?_⟩
  unfold IndexFile.indexFieldNames
  rw [hi, hq, namesOf_eq, List.map_map, List.nil_append, List.filter_eq_self.2 (by simp)]
  rfl

theorem Done.names {is : List (LP × IndexMeta)} {c : Nat → List Entry} {js : List Job} (h : Done is c js) :
    firstOccurrences (is.map (·.2.fieldName)) = firstOccurrences (js.map (·.name)) := by
  have : is.map (·.2.fieldName) = (is.map (fun x => (x.2.fieldName, x.2.fieldType))).map Prod.fst := by
    rw [List.map_map]; rfl
  rw [this, h.keys]
  unfold indexesOf
  rw [firstOccurrences_map, List.map_map]
  rfl
end

theorem rowJobs_names (num : Bytes → Option UInt64) (line : MemPtr) (pos : Nat) (hs vs : List Bytes) :
    (rowJobs num line pos hs vs).map (·.name) = hs.take vs.length := by
  induction vs generalizing pos hs with
  | nil => cases hs <;> simp [rowJobs]
  | cons v vs ih =>
    cases hs with
    | nil => simp [rowJobs]
    | cons h hs => simp [rowJobs, ih]

theorem rowsJobs_names (num : Bytes → Option UInt64) (headers : List Bytes) (off : Nat) (rows : List (Bytes × List Bytes)) :
    ∀ x ∈ (rowsJobs num headers off rows).map (·.name), x ∈ headers := by
  induction rows generalizing off with
  | nil => simp [rowsJobs]
  | cons r rows ih =>
    obtain ⟨text, fs⟩ := r
    intro x hx
    simp only [rowsJobs, List.map_append, List.mem_append] at hx
    rcases hx with hx | hx
    · rw [rowJobs_names] at hx; exact List.mem_of_mem_take hx
    · exact ih _ x hx

/-- The field names of the index are the headers. -/
theorem rowsJobs_headers (num : Bytes → Option UInt64) {headers : List Bytes} (hn : headers.Nodup) (off : Nat)
    {rows : List (Bytes × List Bytes)} (hne : rows ≠ []) (hf : ∀ r, rows.head? = some r → r.2.length = headers.length) :
    firstOccurrences ((rowsJobs num headers off rows).map (·.name)) = headers := by
  cases rows with
  | nil => exact absurd rfl hne
  | cons r rows =>
    obtain ⟨text, fs⟩ := r
    have hl := hf (text, fs) rfl
    simp only at hl
    simp only [rowsJobs, List.map_append]
    rw [rowJobs_names, hl, List.take_length]
    exact firstOccurrences_rest hn (rowsJobs_names num headers _ rows)

theorem rowsJobs_append (num : Bytes → Option UInt64) (hs : List Bytes) (off : Nat) (a b : List (Bytes × List Bytes)) :
    rowsJobs num hs off (a ++ b) = rowsJobs num hs off a ++ rowsJobs num hs (off + (fileOf (a.map (·.1)) []).length) b := by
  induction a generalizing off with
  | nil => simp [rowsJobs, fileOf]
  | cons x a ih =>
    obtain ⟨text, fs⟩ := x
    rw [List.cons_append]
    simp only [rowsJobs]
    rw [ih, List.append_assoc]
    have : off + text.length + 1 + (fileOf (a.map (·.1)) []).length = off + (fileOf (((text, fs) :: a).map (·.1)) []).length := by
      rw [List.map_cons, fileOf_cons]
      simp only [List.length_append, List.length_cons]
      omega
    rw [this]

/-! ### No key comes twice -/

/-- The positions of the keys. -/
def keyOffs (js : List Job) : List Nat := js.flatMap (fun j => j.entries.map (fun e => e.1.dp.offset.toNat))

theorem distinct_of_offs {js : List Job} (h : (keyOffs js).Nodup) : Distinct js := by
  intro n t
  have hs : List.Sublist ((entriesOf js n t).map (fun e => e.1.dp.offset.toNat)) (keyOffs js) := by
    clear h
    induction js with
    | nil => simp [entriesOf, keyOffs]
    | cons j js ih =>
      have e1 : entriesOf (j :: js) n t = (if j.name = n ∧ j.ty = t then j.entries else []) ++ entriesOf js n t := rfl
      have e2 : keyOffs (j :: js) = j.entries.map (fun e => e.1.dp.offset.toNat) ++ keyOffs js := rfl
      rw [e1, e2, List.map_append]
      refine List.Sublist.append ?_ ih
      split
      · exact List.Sublist.refl _
      · simp
  have := hs.nodup h
  have h2 : ((entriesOf js n t).map (·.1)).map (fun k : RV => k.dp.offset.toNat) = (entriesOf js n t).map (fun e => e.1.dp.offset.toNat) := by
    rw [List.map_map]; rfl
  rw [← h2] at this
  rw [List.Nodup, List.pairwise_map] at this
  exact this.imp (fun hab he => hab (by rw [he]))

theorem rowJobs_offs (num : Bytes → Option UInt64) (line : MemPtr) (pos : Nat) (hs vs : List Bytes) (hb : pos + (joinCommas vs).length < 2 ^ 64) :
    (keyOffs (rowJobs num line pos hs vs)).Pairwise (· < ·) ∧
    ∀ x ∈ keyOffs (rowJobs num line pos hs vs), pos ≤ x ∧ x ≤ pos + (joinCommas vs).length := by
  induction vs generalizing pos hs with
  | nil => cases hs <;> simp [rowJobs, keyOffs]
  | cons v vs ih =>
    cases hs with
    | nil => simp [rowJobs, keyOffs]
    | cons h hs =>
      have e : keyOffs (rowJobs num line pos (h :: hs) (v :: vs)) = pos :: keyOffs (rowJobs num line (pos + v.length + 1) hs vs) := by
        show (UInt64.ofNat pos).toNat :: _ = _
        rw [UInt64.toNat_ofNat', Nat.mod_eq_of_lt (by omega)]; rfl
      rw [e]
      cases vs with
      | nil =>
        have : keyOffs (rowJobs num line (pos + v.length + 1) hs []) = [] := by cases hs <;> rfl
        rw [this]
        refine ⟨by simp, ?_⟩
        intro x hx
        simp only [List.mem_singleton] at hx
        omega
      | cons w ws =>
        have hj : (joinCommas (v :: w :: ws)).length = v.length + ((joinCommas (w :: ws)).length + 1) := by
          simp only [joinCommas, List.length_append, List.length_cons]
        rw [hj] at hb ⊢
        obtain ⟨i1, i2⟩ := ih (pos + v.length + 1) hs (by omega)
        refine ⟨List.pairwise_cons.2 ⟨?_, i1⟩, ?_⟩
        · intro x hx; have := i2 x hx; omega
        · intro x hx
          rcases List.mem_cons.1 hx with rfl | hx
          · omega
          · have := i2 x hx; omega

theorem plainRow_len {text : Bytes} {fs : List Bytes} (h : PlainRow text fs) : (joinCommas fs).length ≤ text.length := by
  rcases h.1 with rfl | rfl
  · exact Nat.le_refl _
  · simp

theorem rowsJobs_offs (num : Bytes → Option UInt64) (headers : List Bytes) (off : Nat) (rows : List (Bytes × List Bytes))
    (hr : ∀ r ∈ rows, PlainRow r.1 r.2) (hb : off + (fileOf (rows.map (·.1)) []).length < 2 ^ 64) :
    (keyOffs (rowsJobs num headers off rows)).Pairwise (· < ·) ∧ ∀ x ∈ keyOffs (rowsJobs num headers off rows), off ≤ x := by
  induction rows generalizing off with
  | nil => simp [rowsJobs, keyOffs]
  | cons r rows ih =>
    obtain ⟨text, fs⟩ := r
    have hpl := plainRow_len (hr _ (List.mem_cons_self ..))
    simp only at hpl
    rw [List.map_cons, fileOf_cons] at hb
    simp only [List.length_append, List.length_cons] at hb
    obtain ⟨i1, i2⟩ := ih (off + text.length + 1) (fun r hr' => hr r (by simp [hr'])) (by omega)
    obtain ⟨j1, j2⟩ := rowJobs_offs num ⟨UInt64.ofNat off, UInt32.ofNat text.length⟩ off headers fs (by omega)
    have e : keyOffs (rowsJobs num headers off ((text, fs) :: rows)) =
        keyOffs (rowJobs num ⟨UInt64.ofNat off, UInt32.ofNat text.length⟩ off headers fs) ++ keyOffs (rowsJobs num headers (off + text.length + 1) rows) := by
      simp [rowsJobs, keyOffs]
    rw [e]
    refine ⟨List.pairwise_append.2 ⟨j1, i1, ?_⟩, ?_⟩
    · intro x hx y hy
      have := j2 x hx; have := i2 y hy; omega
    · intro x hx
      rcases List.mem_append.1 hx with hx | hx
      · exact (j2 x hx).1
      · have := i2 x hx; omega

/-! ### The loop -/

section
variable {num : Bytes → Option UInt64} {i : IndexFile} {data : Bytes} {fm : FileMeta} {s : PF} {is : List (LP × IndexMeta)}
  {c : Nat → List Entry} {js : List Job}

theorem csvLoopSteps (hi : i.tree = fileSlot) (hd : data.length < 2 ^ 64) {tail : Bytes} (ht : (10 : UInt8) ∉ tail) {headers : List Bytes}
    (hhe : headers ≠ []) (hn : ∀ h ∈ headers, h.length ≤ 236) (rows : List (Bytes × List Bytes)) (pre : List Bytes)
    (hda : data = fileOf pre [] ++ fileOf (rows.map (·.1)) tail) (hno : ∀ x ∈ rows, (10 : UInt8) ∉ x.1)
    (hx : ∀ r ∈ rows, PlainRow r.1 r.2 ∧ r.1.length + 1 < 2 ^ 32 ∧ r.2.length ≤ headers.length)
    {fuel : Nat} (hfu : rows.length < fuel) {m : FileMeta} (hro : m.readOffset = UInt64.ofNat (fileOf pre []).length)
    (h : JIs data (csvParse num) (fun _ => 0) s fm is c js) :
    Steps data (csvParse num) (fun _ => 0) fm (csvLoop num i data fuel headers m) s (js ++ rowsJobs num headers (fileOf pre []).length rows)
      (fun a is' => a = { m with readOffset := UInt64.ofNat (fileOf (pre ++ rows.map (·.1)) []).length } ∧ Handles is is') := by
  induction rows generalizing pre fuel m s is c js with
  | nil =>
    obtain ⟨fuel, rfl⟩ : ∃ k, fuel = k + 1 := ⟨fuel - 1, by simp at hfu; omega⟩
    have hn : m.readOffset.toNat = (fileOf pre []).length := by
      rw [hro, UInt64.toNat_ofNat', Nat.mod_eq_of_lt]
      rw [hda, List.length_append] at hd; omega
    unfold csvLoop
    rw [if_neg (by rw [hn, hda, List.length_append]; omega), hn]
    have hdr : data.drop (fileOf pre []).length = tail := by
      rw [hda, List.drop_left']
      · simp [fileOf]
      · rfl
    rw [hdr, indexNewline_none.2 ht]
    simp only [rowsJobs, List.append_nil, List.map_nil]
    refine Steps.pure h ⟨?_, Handles.refl _⟩
    rw [← hro]
  | cons x rows ih =>
    obtain ⟨fuel, rfl⟩ : ∃ k, fuel = k + 1 := ⟨fuel - 1, by simp at hfu; omega⟩
    simp only [List.length_cons] at hfu
    have hlen : data.length = (fileOf pre []).length + (x.1.length + 1 + (fileOf (rows.map (·.1)) tail).length) := by
      rw [hda, List.map_cons, fileOf_cons]; simp only [List.length_append, List.length_cons]; omega
    have hrn : m.readOffset.toNat = (fileOf pre []).length := by
      rw [hro, UInt64.toNat_ofNat', Nat.mod_eq_of_lt]; omega
    have hdr : data.drop (fileOf pre []).length = x.1 ++ 10 :: fileOf (rows.map (·.1)) tail := by
      rw [hda, List.drop_left', List.map_cons, fileOf_cons]
      rfl
    obtain ⟨hx1, hx2, hx3⟩ := hx x (by simp)
    unfold csvLoop
    rw [if_neg (by rw [hrn]; omega), hrn, hdr, indexNewline_line (hno x (by simp))]
    simp only [List.take_left', if_neg hhe]
    unfold handleCSVLine
    rw [csvRead_plain hx1]
    simp only
    have hat : TextAt data (fileOf pre []).length (joinCommas x.2) := by
      have h1 : TextAt data (fileOf pre []).length x.1 := ⟨_, hdr, by omega⟩
      rcases hx1.1 with he | he
      · rw [← he]; exact h1
      · rw [he] at h1; exact h1.left
    have hjl := plainRow_len hx1
    refine Steps.bind (js1 := js ++ rowJobs num ⟨m.readOffset, UInt32.ofNat x.1.length⟩ (fileOf pre []).length headers x.2)
      (rowSteps hi hd hn hx3 (by rw [hro]; simp) hat (by omega) h) ?_ ?_
    · have := Part.left (js ++ rowJobs num ⟨m.readOffset, UInt32.ofNat x.1.length⟩ (fileOf pre []).length headers x.2)
        (rowsJobs num headers ((fileOf pre []).length + x.1.length + 1) rows)
      rw [List.append_assoc, hro] at this
      rw [hro]
      exact this
    · rintro a s' is' c' h' hh
      have hp : (fileOf (pre ++ [x.1]) []).length = (fileOf pre []).length + x.1.length + 1 := by
        rw [fileOf_append]; simp [fileOf]; omega
      have := ih (pre ++ [x.1]) (m := { m with readOffset := m.readOffset + UInt64.ofNat x.1.length + 1 }) (by
          rw [hda, List.map_cons, fileOf_cons, fileOf_append]; simp [fileOf]) (fun y hy => hno y (by simp [hy])) (fun y hy => hx y (by simp [hy]))
        (fuel := fuel) (by omega) (by
          rw [hp, hro, UInt64.ofNat_add, UInt64.ofNat_add]; rfl) h'
      rw [hp, List.append_assoc] at this
      have hjobs : js ++ rowsJobs num headers (fileOf pre []).length (x :: rows) =
          js ++ (rowJobs num ⟨m.readOffset, UInt32.ofNat x.1.length⟩ (fileOf pre []).length headers x.2 ++
            rowsJobs num headers ((fileOf pre []).length + x.1.length + 1) rows) := by
        rw [hro]; rfl
      rw [hjobs]
      refine this.imp ?_
      rintro a is2 ⟨rfl, hh2⟩
      refine ⟨?_, hh.trans hh2⟩
      simp only [List.append_assoc, List.map_cons, List.singleton_append]

/-- What the index holds after some lines. -/
def csvJobs (num : Bytes → Option UInt64) (hline : Bytes) (headers : List Bytes) (rows : List (Bytes × List Bytes)) : List Job :=
  rowsJobs num headers (hline.length + 1) rows

theorem csv_finish {m : Act PF FileMeta} {fm' : FileMeta} (hi : i.tree = fileSlot)
    (h : Steps data (csvParse num) (fun _ => 0) fm m s js (fun a is' => a = fm' ∧ Handles is is')) :
    Steps data (csvParse num) (fun _ => 0) fm' (m >>= fun m' => i.setMetadata m') s js (fun _ is' => Handles is is') := by
  rcases h with ⟨a, s', is', c', e1, e2, rfl, hh⟩ | ⟨s', e1, e2⟩ | ⟨s', e1, e2⟩
  · obtain ⟨s2, g1, g2, _⟩ := e2.idx.setMetadata hi a
    exact .inl ⟨(), s2, is', c', by rw [Act.bind_ok e1]; exact g1, ⟨g2, e2.done⟩, hh⟩
  · exact .inr (.inl ⟨s', by rw [Act.bind_err e1], e2⟩)
  · exact .inr (.inr ⟨s', by rw [Act.bind_err e1], e2⟩)

end
end Appendable
