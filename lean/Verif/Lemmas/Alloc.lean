import Verif.Lemmas.PageFile2
import Verif.Spec.Alloc
/-! Every history keeps the page file valid. -/
namespace Appendable
open PF Spec

theorem newPage_too_large (s : PF) (buf : Option Bytes) (h : pageSize < (buf.getD []).length) :
    PF.newPage buf s = (.err (.msg "buffer is too large"), s) := by
  unfold PF.newPage
  simp only
  rw [if_pos h]; rfl

/-- The outcome of `NewPage` depends on the free list and the contents only. -/
structure AllocInv (s : PF) (owned freed : List Nat) (n : Nat) : Prop where
  valid : s.Valid freed
  budget : s.file.budget = none
  nodup : owned.Nodup
  owned_iff : ∀ o, o ∈ owned ↔ Live s freed o
  frees : s.tail + freed.length ≤ n

theorem newPage_inv {s : PF} {owned freed : List Nat} {n : Nat} (hi : AllocInv s owned freed n)
    {buf : Option Bytes} {off : Int} {s' : PF} (h : PF.newPage buf s = (.ok off, s')) :
    ∃ o : Nat, off = o ∧ AllocInv s' (o :: owned) (freed.erase o) n ∧ o ∉ owned ∧
      o % pageSize = 0 ∧ pageSize ≤ o ∧
      pageAt s'.file.bytes o = padPage (buf.getD []) ∧
      (∀ p, p % pageSize = 0 → pageSize ≤ p → p < s.file.bytes.length → p ≠ o →
        pageAt s'.file.bytes p = pageAt s.file.bytes p) ∧
      ((∃ fs, freed = o :: fs ∧ s'.file.bytes.length = s.file.bytes.length ∧ s'.lastPage = s.lastPage) ∨
        (freed = [] ∧ o = s.file.bytes.length ∧ s'.file.bytes.length = s.file.bytes.length + pageSize ∧
          s'.lastPage = s.lastPage + 1)) := by
  by_cases hl : (buf.getD []).length ≤ pageSize
  rotate_left
  · rw [newPage_too_large s buf (by omega)] at h; simp at h
  have hplen : (padPage (buf.getD [])).length = pageSize := padPage_length hl
  have hv := hi.valid
  have hne := hv.nonempty
  have hal := hv.aligned
  cases freed with
  | cons o fs =>
    obtain ⟨s1, hr, hv1, hbytes, hbud, hkind, hlp⟩ := newPage_pop hv hi.budget buf hl
    rw [hr] at h
    cases h
    have ho := hv.freeOK o (by simp)
    have hflen : (freePageBytes (fs.map Int.ofNat)).length = pageSize :=
      freePageBytes_length _ (by simpa using hv1.ringOK.len_le)
    have hends : o + pageSize ≤ s.file.bytes.length := by unfold pageSize at *; omega
    have hlen1 : (writeAt s.file.bytes 0 (freePageBytes (fs.map Int.ofNat))).length = s.file.bytes.length := by
      rw [writeAt_length (Nat.zero_le _)]; omega
    have hlen : s'.file.bytes.length = s.file.bytes.length := by
      rw [hbytes, writeAt_length (by omega)]; omega
    have hnd := List.nodup_cons.1 hv.nodup
    have her : (o :: fs).erase o = fs := by simp
    have hno : o ∉ owned := by rw [hi.owned_iff]; intro hc; exact hc.2.2.2 (by simp)
    have htail : s'.tail ≤ s.tail + 1 := by
      have h1 := hv.ringOK.head_eq
      have h2 := hv1.ringOK.head_eq
      have h3 := hv.ringOK.count_eq
      have h4 := hv1.ringOK.count_eq
      have h5 := hv.ringOK.fits
      have h6 := hv1.ringOK.fits
      have hh : s'.head = s.head := by
        have hd := newPage_head hr
        exact hd
      have t1 : s.tail < ringSize := RingOK.tail_lt
      have t2 : s'.tail < ringSize := RingOK.tail_lt
      simp only [List.length_cons] at *
      unfold ringSize at *
      omega
    refine ⟨o, rfl, ⟨by rw [her]; exact hv1, hbud, List.nodup_cons.2 ⟨hno, hi.nodup⟩, ?_, ?_⟩, hno, ho.1, ho.2.1, ?_, ?_,
      .inl ⟨fs, rfl, hlen, hlp⟩⟩
    · intro p
      rw [her, List.mem_cons, hi.owned_iff]
      unfold Live
      rw [hlen]
      constructor
      · rintro (rfl | hp)
        · exact ⟨ho.1, ho.2.1, ho.2.2, hnd.1⟩
        · exact ⟨hp.1, hp.2.1, hp.2.2.1, fun hm => hp.2.2.2 (by simp [hm])⟩
      · intro hp
        by_cases hpo : p = o
        · exact .inl hpo
        · exact .inr ⟨hp.1, hp.2.1, hp.2.2.1, by simp [hpo]; exact hp.2.2.2⟩
    · rw [her]; have := hi.frees; simp only [List.length_cons] at this; omega
    · rw [hbytes]; unfold pageAt
      have := slice_writeAt_same (l := writeAt s.file.bytes 0 (freePageBytes (fs.map Int.ofNat)))
        (off := o) (b := padPage (buf.getD [])) (by omega)
      rwa [hplen] at this
    · intro p hp1 hp2 hp3 hpo
      rw [hbytes]; unfold pageAt
      have hd := page_ne_disjoint hp1 ho.1 hpo
      rw [slice_writeAt_disjoint (by omega) (by omega), slice_writeAt_disjoint (by omega) (by omega)]
  | nil =>
    by_cases hroom : s.file.bytes.length + pageSize < 2 ^ 63
    rotate_left
    · obtain ⟨s1, hr, _⟩ := newPage_full hv hi.budget buf hl (by omega)
      rw [hr] at h; simp at h
    obtain ⟨s1, hr, hv1, hbytes, hbud, hkind, hlp⟩ := newPage_append hv hi.budget buf hl hroom
    have hh := newPage_head hr
    rw [hr] at h
    cases h
    have hlen : s'.file.bytes.length = s.file.bytes.length + pageSize := by
      rw [hbytes, List.length_append, hplen]
    have hno : s.file.bytes.length ∉ owned := by rw [hi.owned_iff]; intro hc; have := hc.2.2.1; omega
    have htail : s'.tail = s.tail := by
      unfold PF.tail
      rw [hh, hv1.ringOK.count_eq, hv.ringOK.count_eq]
    refine ⟨s.file.bytes.length, rfl, ⟨by simpa using hv1, hbud, List.nodup_cons.2 ⟨hno, hi.nodup⟩, ?_, ?_⟩,
      hno, hal, hne, ?_, ?_, .inr ⟨rfl, rfl, hlen, hlp⟩⟩
    · intro p
      rw [List.mem_cons, hi.owned_iff]
      unfold Live
      rw [hlen]
      simp only [List.erase_nil, List.not_mem_nil, not_false_iff, and_true]
      unfold pageSize at *
      constructor
      · rintro (rfl | hp) <;> omega
      · intro hp
        by_cases hpo : p = s.file.bytes.length
        · exact .inl hpo
        · exact .inr (by omega)
    · rw [htail]; exact hi.frees
    · rw [hbytes]; unfold pageAt
      have := slice_append_right s.file.bytes (padPage (buf.getD []))
      rwa [hplen] at this
    · intro p hp1 hp2 hp3 hpo
      rw [hbytes]; unfold pageAt
      rw [slice_append_left (by unfold pageSize at *; omega)]
where
  newPage_head {s s' : PF} {buf : Option Bytes} {off : Int} (h : PF.newPage buf s = (.ok off, s')) :
      s'.head = s.head := by
    have hF : ∀ {α : Type} (m : Act File α) (s : PF), (onFile m s).2.head = s.head := fun _ _ => rfl
    have hB : ∀ {α β : Type} (m : Act PF α) (f : α → Act PF β) (s : PF),
        (m s).2.head = s.head → (∀ a t, (f a t).2.head = t.head) → ((m >>= f) s).2.head = s.head := by
      intro α β m f s h1 h2
      rw [Act.bind_def]
      split
      · rename_i a s1 e; rw [e] at h1; rw [h2, h1]
      · rename_i e1 s1 e; rw [e] at h1; exact h1
      · rename_i s1 e; rw [e] at h1; exact h1
    have hW : ∀ s, (writeFreePageIndices s).2.head = s.head := by
      intro s
      unfold writeFreePageIndices
      split
      · rfl
      · exact hB _ _ _ (hF _ _) (fun a t => hB _ _ _ (hF _ _) (fun _ _ => rfl))
    have hI : ∀ s, (freePageIndex s).2.head = s.head := by
      intro s
      unfold freePageIndex
      split
      · rfl
      · split
        · rfl
        · rw [Act.bind_ok (Act.set_run _ _)]
          exact hB _ _ _ (hW _) (fun _ _ => rfl)
    have hWr : ∀ b s, (PF.write b s).2.head = s.head := by
      intro b s
      unfold PF.write
      refine hB _ _ _ (hF _ _) (fun a t => ?_)
      split
      · rfl
      · exact hF _ _
    have : ((PF.newPage buf) s).2.head = s.head := by
      unfold PF.newPage
      simp only
      split
      · rfl
      · refine hB _ _ _ (hI _) (fun a t => hB _ _ _ ?_ (fun a t => hB _ _ _ ?_ (fun a t => hB _ _ _ (hF _ _)
          (fun a t => hB _ _ _ (hF _ _) (fun a t => rfl)))))
        · split
          · exact hB _ _ _ (hF _ _) (fun _ _ => rfl)
          · exact hB _ _ _ (hF _ _) (fun a t => hB _ _ _ rfl (fun _ _ => rfl))
        · split
          · exact hB _ _ _ (hWr _ _) (fun _ _ => rfl)
          · rfl
    rw [h] at this
    exact this

/-- `NewPage` never panics in a valid state, and its errors leave a valid state. -/
theorem newPage_err_inv {s : PF} {owned freed : List Nat} {n : Nat} (hi : AllocInv s owned freed n)
    {buf : Option Bytes} {r : Res Int} {s' : PF} (h : PF.newPage buf s = (r, s')) (hr : ∀ o, r ≠ .ok o) :
    r ≠ .panic ∧ AllocInv s' owned freed n ∧ s'.file.bytes = s.file.bytes := by
  by_cases hl : (buf.getD []).length ≤ pageSize
  rotate_left
  · rw [newPage_too_large s buf (by omega)] at h; cases h; exact ⟨by simp, hi, rfl⟩
  have hv := hi.valid
  cases freed with
  | cons o fs =>
    obtain ⟨s1, hr1, _⟩ := newPage_pop hv hi.budget buf hl
    rw [hr1] at h; cases h; exact absurd rfl (hr _)
  | nil =>
    by_cases hroom : s.file.bytes.length + pageSize < 2 ^ 63
    · obtain ⟨s1, hr1, _⟩ := newPage_append hv hi.budget buf hl hroom
      rw [hr1] at h; cases h; exact absurd rfl (hr _)
    · have hal := hv.aligned
      have hplen : (padPage (buf.getD [])).length = pageSize := padPage_length hl
      have hfp : freePageIndex s = (.ok (-1), s) := by
        unfold freePageIndex
        rw [if_pos (by have := hv.ringOK.count_eq; simpa using this)]
      let s1 : PF := { (s.upd s.file.bytes s.file.bytes.length) with lastPage := s.lastPage + 1 }
      have hw2 : onFile (File.write (padPage (buf.getD []))) s1 = (.err .io, s1) :=
        onFile_run (File.write_too_large (f := s1.file) hi.budget (by simp [s1, hplen]; omega))
      have : PF.newPage buf s = (.err .io, s1) := by
        unfold PF.newPage
        simp only
        rw [if_neg (by omega), Act.bind_ok hfp]
        rw [if_neg (by simp), Act.bind_ok (a := (s.file.bytes.length : Int)) (s' := s1)
          (by rw [Act.bind_ok (seekEnd_ok' s)]; rfl)]
        rw [← padPage]
        rw [tmod_nat, hal, if_neg (by simp), Act.bind_ok (Act.pure_run _ _), Act.bind_err hw2]
      rw [this] at h
      injection h with h1 h2
      subst h1 h2
      exact ⟨by simp, ⟨⟨hv.ringOK.of_same rfl rfl rfl, hv.aligned, hv.nonempty, hv.small, hv.page0, hv.nodup,
        hv.freeOK⟩, hi.budget, hi.nodup, hi.owned_iff, hi.frees⟩, rfl⟩

/-- The four outcomes of `FreePage` of an owned page. -/
theorem freePage_inv {s : PF} {owned freed : List Nat} {n : Nat} (hi : AllocInv s owned freed n) {o : Nat}
    (ho : o ∈ owned) :
    (s.count = ringSize ∧ PF.freePage o s = (.err (.msg "free page index is full"), s)) ∨
    (s.tail + freed.length < ringSize ∧ ∃ s', PF.freePage o s = (.ok (), s') ∧
      AllocInv s' (owned.erase o) (freed ++ [o]) (n + 1) ∧ s'.tail = s.tail ∧
      s'.file.bytes.length = s.file.bytes.length ∧ s'.lastPage = s.lastPage ∧
      (∀ p, pageSize ≤ p → pageAt s'.file.bytes p = pageAt s.file.bytes p)) ∨
    (s.tail + freed.length = ringSize ∧ freed.length < ringSize ∧ (PF.freePage o s).1 = .panic) := by
  have hlive := (hi.owned_iff o).1 ho
  have hv := hi.valid
  have h3 := hv.ringOK.count_eq
  have h5 := hv.ringOK.fits
  have h0 : o ≠ 0 := by have := hlive.2.1; unfold pageSize at *; omega
  by_cases hfull : s.count = ringSize
  · left
    refine ⟨hfull, ?_⟩
    unfold PF.freePage
    rw [tmod_nat, hlive.1, if_neg (by simp), if_pos hfull]
  · right
    by_cases hroom : s.tail + freed.length < ringSize
    · left
      refine ⟨hroom, ?_⟩
      obtain ⟨s', hr, hv', hbud, _, hlp, hbytes⟩ := freePage_ok hv hi.budget o hlive.1 hlive.2.1 hlive.2.2.1
        hlive.2.2.2 hroom
      have hflen : (freePageBytes ((freed ++ [o]).map Int.ofNat)).length = pageSize :=
        freePageBytes_length _ (by simpa using hv'.ringOK.len_le)
      have hne := hv.nonempty
      have hlen : s'.file.bytes.length = s.file.bytes.length := by
        rw [hbytes, writeAt_length (Nat.zero_le _)]; omega
      have htail : s'.tail = s.tail := by
        have hh : s'.head = (s.head + 1) % ringSize ∧ s'.count = s.count + 1 := by
          have := freePage_head hr
          exact this
        have t1 := hv.ringOK.headLt
        unfold PF.tail
        rw [hh.1, hh.2]
        unfold ringSize at *
        omega
      refine ⟨s', hr, ⟨hv', hbud, hi.nodup.erase _, ?_, ?_⟩, htail, hlen, hlp, ?_⟩
      · intro p
        rw [hi.nodup.mem_erase_iff, hi.owned_iff]
        unfold Live
        rw [hlen]
        simp only [List.mem_append, List.mem_singleton, not_or]
        constructor
        · rintro ⟨h1, h2⟩; exact ⟨h2.1, h2.2.1, h2.2.2.1, h2.2.2.2, h1⟩
        · rintro ⟨h1, h2, h3, h4, h5⟩; exact ⟨h5, h1, h2, h3, h4⟩
      · rw [htail]; have := hi.frees; simp; omega
      · intro p hp
        rw [hbytes]; unfold pageAt
        rw [slice_writeAt_disjoint (Nat.zero_le _) (by omega)]
    · right
      exact ⟨by omega, by omega, freePage_wrap hv.ringOK o hlive.1 h0 hlive.2.2.2 (by omega) (by omega)⟩
where
  freePage_head {s s' : PF} {o : Int} (h : PF.freePage o s = (.ok (), s')) :
      s'.head = (s.head + 1) % ringSize ∧ s'.count = s.count + 1 := by
    have hF : ∀ {α : Type} (m : Act File α) (s : PF), (onFile m s).2.head = s.head ∧ (onFile m s).2.count = s.count :=
      fun _ _ => ⟨rfl, rfl⟩
    have hB : ∀ {α β : Type} (m : Act PF α) (f : α → Act PF β) (s : PF),
        ((m s).2.head = s.head ∧ (m s).2.count = s.count) →
        (∀ a t, (f a t).2.head = t.head ∧ (f a t).2.count = t.count) →
        ((m >>= f) s).2.head = s.head ∧ ((m >>= f) s).2.count = s.count := by
      intro α β m f s h1 h2
      rw [Act.bind_def]
      split
      · rename_i a s1 e; rw [e] at h1; have := h2 a s1; exact ⟨this.1.trans h1.1, this.2.trans h1.2⟩
      · rename_i e1 s1 e; rw [e] at h1; exact h1
      · rename_i s1 e; rw [e] at h1; exact h1
    have hW : ∀ s, (writeFreePageIndices s).2.head = s.head ∧ (writeFreePageIndices s).2.count = s.count := by
      intro s
      unfold writeFreePageIndices
      split
      · exact ⟨rfl, rfl⟩
      · exact hB _ _ _ (hF _ _) (fun a t => hB _ _ _ (hF _ _) (fun _ _ => ⟨rfl, rfl⟩))
    unfold PF.freePage at h
    split at h
    · simp at h
    · split at h
      · simp at h
      · split at h
        · simp at h
        · have := hW { s with ring := s.ring.set s.head o, head := (s.head + 1) % ringSize, count := s.count + 1 }
          rw [h] at this
          exact this

/-- Errors of `FreePage` never change anything in a valid state. -/
theorem freePage_err {s : PF} {freed : List Nat} (hv : s.Valid freed) (hb : s.file.budget = none) {o : Int} {e : Err}
    {s' : PF} (h : PF.freePage o s = (.err e, s')) : s' = s := by
  unfold PF.freePage at h
  split at h
  · cases h; rfl
  · split at h
    · cases h; rfl
    · split at h
      · cases h; rfl
      · exfalso
        unfold writeFreePageIndices at h
        split at h
        · simp at h
        · rename_i offs hsl
          rw [Act.bind_ok (seekZero_ok _)] at h
          have hlen : offs.length ≤ ringSize := by
            have := ringSlice_length hsl
            have h1 := hv.ringOK.count_eq
            have h2 := hv.ringOK.len_le
            simp only at this
            omega
          obtain ⟨n, p, hw⟩ := fileWrite_ok (s := PF.upd
            { s with ring := s.ring.set s.head o, head := (s.head + 1) % ringSize, count := s.count + 1 }
            s.file.bytes 0) (b := freePageBytes offs) hb
            (Nat.zero_le _) (by
              rw [freePageBytes_length _ hlen]
              simp only [upd_pos]
              unfold pageSize; omega)
          rw [Act.bind_ok hw] at h
          simp at h
where
  ringSlice_length {ring : List Int} {i n : Nat} {l : List Int} (h : ringSlice ring i n = some l) :
      l.length = n := by
    induction n generalizing i l with
    | zero => simp [ringSlice] at h; subst h; rfl
    | succ n ih =>
      simp only [ringSlice] at h
      cases hx : ring[i]? with
      | none => rw [hx] at h; simp at h
      | some x =>
        rw [hx] at h
        cases hy : ringSlice ring (i + 1) n with
        | none => rw [hy] at h; simp at h
        | some xs =>
          rw [hy] at h
          simp at h
          subst h
          simp [ih hy]

theorem allocRun_inv {s : PF} {owned freed : List Nat} {n : Nat} (h : AllocRun s owned freed n) :
    AllocInv s owned freed n := by
  induction h with
  | opened he hb h =>
    obtain ⟨s', hr, hv, hbytes, _, hbud, _⟩ := openFile_empty _ he hb
    rw [hr] at h
    cases h
    refine ⟨hv, hbud, by simp, ?_, ?_⟩
    · intro o
      simp only [List.not_mem_nil, false_iff]
      intro hc
      have h1 := hc.2.1
      have h2 := hc.2.2.1
      rw [hbytes, List.length_replicate] at h2
      omega
    · have := hv.ringOK
      have h1 := this.ring_eq
      simp only [List.length_nil, Nat.add_zero, Nat.le_zero]
      have hc := openFile_empty_tail he hb hr
      exact hc
  | reopened hr hf hb h ih =>
    obtain ⟨s2, hr2, hv, hbytes, _, hbud, _, ht⟩ := openFile_valid' ih.valid _ hf
    rw [hr2] at h
    cases h
    refine ⟨hv, by rw [hbud]; exact hb, ih.nodup, ?_, ?_⟩
    · intro o
      rw [ih.owned_iff]; unfold Live; rw [hbytes, hf]
    · rw [ht]; omega
  | new hr h ih =>
    obtain ⟨o, rfl, hi, _⟩ := newPage_inv ih h
    simpa using hi
  | newErr hr h ih => exact (newPage_err_inv ih h (by simp)).2.1
  | free hr ho h ih =>
    rcases freePage_inv ih ho with ⟨_, h1⟩ | ⟨_, s1, h1, hi, _⟩ | ⟨_, _, h1⟩
    · rw [h1] at h; simp at h
    · rw [h1] at h; cases h; exact hi
    · rw [h] at h1; simp at h1
  | freeErr hr h ih =>
    have := freePage_err ih.valid ih.budget h
    rw [this]; exact ih
where
  openFile_empty_tail {f : File} {s : PF} (he : f.bytes = []) (hb : f.budget = none)
      (h : openFile f = (.ok s, s.file)) : s.tail = 0 := by
    obtain ⟨s', hr, _, _, _, _, _, ht⟩ := openFile_empty' f he hb
    rw [h] at hr
    have : s = s' := by injection hr with h1 h2; injection h1
    rw [this]; exact ht

end Appendable
