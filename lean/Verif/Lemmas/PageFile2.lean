import Verif.Lemmas.PageFile
/-! FreePage and opening a page file. -/
namespace Appendable
open PF

theorem RingOK.mem_iff {s : PF} {free : List Nat} (h : RingOK s free) (o : Nat) (ho : o ≠ 0) :
    s.ring.any (· == (o : Int)) = true ↔ o ∈ free := by
  rw [h.ring_eq]
  simp only [List.any_append, Bool.or_eq_true, List.any_eq_true, beq_iff_eq, List.mem_replicate, List.mem_map]
  constructor
  · rintro (⟨x, ⟨_, rfl⟩, h⟩ | ⟨x, ⟨y, hy, rfl⟩, h⟩ | ⟨x, ⟨_, rfl⟩, h⟩)
    · omega
    · have h : (y : Int) = o := h
      have : y = o := by omega
      exact this ▸ hy
    · omega
  · intro hm; exact .inr (.inl ⟨_, ⟨o, hm, rfl⟩, rfl⟩)

theorem RingOK.zero_mem {s : PF} {free : List Nat} (h : RingOK s free) (hc : s.count < ringSize) :
    s.ring.any (· == (0 : Int)) = true := by
  have h2 := h.fits
  have h3 := h.count_eq
  rw [h.ring_eq]
  simp only [List.any_append, Bool.or_eq_true, List.any_eq_true, beq_iff_eq, List.mem_replicate]
  by_cases ht : s.tail = 0
  · right; right; exact ⟨0, ⟨by omega, rfl⟩, rfl⟩
  · left; exact ⟨0, ⟨ht, rfl⟩, rfl⟩

/-- Freeing a page that is not free yet, when the ring has room. -/
theorem freePage_ok {s : PF} {free : List Nat} (h : s.Valid free) (hb : s.file.budget = none) (o : Nat)
    (ha : o % pageSize = 0) (h1 : pageSize ≤ o) (h2 : o < s.file.bytes.length) (hnf : o ∉ free)
    (hroom : s.tail + free.length < ringSize) :
    ∃ s', PF.freePage o s = (.ok (), s') ∧ s'.Valid (free ++ [o]) ∧ s'.file.budget = none ∧
      s'.file.kind = s.file.kind ∧ s'.lastPage = s.lastPage ∧
      s'.file.bytes = writeAt s.file.bytes 0 (freePageBytes ((free ++ [o]).map Int.ofNat)) := by
  have hpush := h.ringOK.push o hroom
  have hne := h.nonempty
  obtain ⟨p, hw⟩ := writeFreePageIndices_ok hpush (by exact hb) (by unfold pageSize; decide)
  have hflen : (freePageBytes ((free ++ [o]).map Int.ofNat)).length = pageSize :=
    freePageBytes_length _ (by simpa using hpush.len_le)
  have hlen : (writeAt s.file.bytes 0 (freePageBytes ((free ++ [o]).map Int.ofNat))).length
      = s.file.bytes.length := by
    rw [writeAt_length (Nat.zero_le _)]; omega
  refine ⟨PF.upd
      { s with ring := s.ring.set s.head (o : Int), head := (s.head + 1) % ringSize, count := s.count + 1 }
      (writeAt s.file.bytes 0 (freePageBytes ((free ++ [o]).map Int.ofNat))) p, ?_, ?_, hb, rfl, rfl, rfl⟩
  · unfold PF.freePage
    rw [tmod_nat, ha, if_neg (by simp), if_neg (by have := h.ringOK.count_eq; omega)]
    rw [if_neg (by rw [h.ringOK.mem_iff o (by unfold pageSize at *; omega)]; exact hnf)]
    exact hw
  · refine ⟨hpush.of_same rfl rfl rfl, ?_, ?_, ?_, ?_, ?_, ?_⟩
    · simp only [upd_bytes]; rw [hlen]; exact h.aligned
    · simp only [upd_bytes]; rw [hlen]; exact hne
    · simp only [upd_bytes]; rw [hlen]; exact h.small
    · simp only [upd_bytes]
      have := slice_writeAt_same (l := s.file.bytes) (off := 0) (b := freePageBytes ((free ++ [o]).map Int.ofNat))
        (Nat.zero_le _)
      rwa [hflen] at this
    · rw [List.nodup_append]
      exact ⟨h.nodup, by simp, by simp; intro a ha hao; exact hnf (hao ▸ ha)⟩
    · intro q hq
      simp only [upd_bytes]; rw [hlen]
      rcases List.mem_append.1 hq with hq | hq
      · exact h.freeOK q hq
      · simp at hq; subst hq; exact ⟨ha, h1, h2⟩

/-- Freeing a page when the ring would wrap around: the code panics. -/
theorem freePage_wrap {s : PF} {free : List Nat} (h : RingOK s free) (o : Nat)
    (ha : o % pageSize = 0) (h0 : o ≠ 0) (hnf : o ∉ free) (hc : free.length < ringSize)
    (hwrap : s.tail + free.length = ringSize) : (PF.freePage o s).1 = .panic := by
  have h1 := h.headLt
  have h3 := h.count_eq
  unfold PF.freePage
  rw [tmod_nat, ha, if_neg (by simp), if_neg (by omega)]
  rw [if_neg (by rw [h.mem_iff o h0]; exact hnf)]
  unfold writeFreePageIndices
  rw [ringSlice_none]
  · simp only [List.length_set, h.length]
    have : PF.tail
      { s with ring := s.ring.set s.head (o : Int), head := (s.head + 1) % ringSize, count := s.count + 1 }
      = s.tail := by
      have ht : s.tail < ringSize := RingOK.tail_lt
      unfold PF.tail ringSize at *
      simp only
      omega
    rw [this]; omega
  · simp

/-! ### Opening -/

theorem u64OfInt_ofNat {o : Nat} (h : o < 2 ^ 64) : u64OfInt (o : Int) = o := by
  unfold u64OfInt; omega

theorem int64OfU64_small {o : Nat} (h : o < 2 ^ 63) : int64OfU64 o = (o : Int) := by
  unfold int64OfU64; rw [if_pos h]

/-- the `i`-th entry on the free list page -/
theorem freePageBytes_entry (free : List Nat) (hf : ∀ o ∈ free, o < 2 ^ 63) (hl : free.length ≤ ringSize)
    (i : Nat) (hi : i < ringSize) :
    leNat (((freePageBytes (free.map Int.ofNat)).drop (i * 8)).take 8) = free.getD i 0 := by
  induction free generalizing i with
  | nil =>
    have : (freePageBytes (([] : List Nat).map Int.ofNat)) = List.replicate (ringSize * 8) 0 := by
      simp [freePageBytes]
    rw [this, List.drop_replicate, List.take_replicate]
    have hz : ∀ n, leNat (List.replicate n 0) = 0 := by
      intro n
      induction n with
      | zero => rfl
      | succ n ih => rw [List.replicate_succ]; simp [leNat, ih]
    rw [hz]; simp
  | cons o free ih =>
    have e : freePageBytes ((o :: free).map Int.ofNat) = leBytes 8 o ++
        ((free.map (fun o => leBytes 8 (u64OfInt (Int.ofNat o)))).flatten ++
          List.replicate (ringSize * 8 - (free.length + 1) * 8) 0) := by
      unfold freePageBytes
      simp only [List.map_cons, List.flatten_cons, List.length_cons, List.length_map, List.map_map,
        List.append_assoc]
      rw [show u64OfInt (Int.ofNat o) = o from
        u64OfInt_ofNat (Nat.lt_trans (hf o (by simp)) (by decide))]
      rfl
    cases i with
    | zero =>
      rw [e]
      simp only [Nat.zero_mul, List.drop_zero]
      rw [List.take_left' (by simp), leNat_leBytes _ _ (Nat.lt_trans (hf o (by simp)) (by decide))]
      rfl
    | succ i =>
      have hl' : free.length + 1 ≤ ringSize := by simpa using hl
      have hi' := ih (fun q hq => hf q (by simp [hq])) (by omega) i (by omega)
      simp only [List.getD_cons_succ]
      rw [← hi', e, show (i + 1) * 8 = (leBytes 8 o).length + i * 8 by simp; omega, List.drop_length_add_append]
      unfold freePageBytes
      simp only [List.length_map, List.map_map]
      have hr : List.replicate (ringSize * 8 - free.length * 8) (0 : UInt8)
          = List.replicate (ringSize * 8 - (free.length + 1) * 8) 0 ++ List.replicate 8 0 := by
        rw [List.replicate_append_replicate]; congr 1; omega
      rw [hr, ← List.append_assoc]
      have hflat : (free.map (fun o => leBytes 8 (u64OfInt (Int.ofNat o)))).flatten.length = free.length * 8 := by
        have := flatten_map_length' free
        exact this
      conv => rhs; rw [List.drop_append_of_le_length (by
        rw [List.length_append]
        simp only [Function.comp_def]
        rw [hflat]; simp; omega)]
      conv => rhs; rw [List.take_append_of_le_length (by
        rw [List.length_drop, List.length_append]
        simp only [Function.comp_def]
        rw [hflat]; simp; omega)]
      rfl
where
  flatten_map_length' (free : List Nat) :
    (free.map (fun o => leBytes 8 (u64OfInt (Int.ofNat o)))).flatten.length = free.length * 8 := by
    induction free with
    | nil => rfl
    | cons a l ih =>
      simp only [List.map_cons, List.flatten_cons, List.length_append, leBytes_length, List.length_cons, ih]; omega

theorem getD_drop_zero {free : List Nat} {i : Nat} (h : free.length ≤ i) : free.getD i 0 = 0 := by
  rw [List.getD_eq_getElem?_getD, List.getElem?_eq_none h]; rfl

theorem loadRing_spec (buf : Bytes) (free : List Nat) (hf : ∀ o ∈ free, 0 < o ∧ o < 2 ^ 63)
    (hl : free.length ≤ ringSize)
    (hbuf : ∀ i, i < ringSize → leNat ((buf.drop (i * 8)).take 8) = free.getD i 0)
    (n i : Nat) (hn : n + i = ringSize) (hi : i ≤ free.length) :
    loadRing buf n i ((free.take i).map Int.ofNat ++ List.replicate (ringSize - i) 0) (i % ringSize) i
      = (free.map Int.ofNat ++ List.replicate (ringSize - free.length) 0, free.length % ringSize, free.length) := by
  induction n generalizing i with
  | zero =>
    have : i = free.length := by omega
    subst this
    simp [loadRing]
  | succ n ih =>
    simp only [loadRing]
    have hri : i < ringSize := by omega
    rw [hbuf i hri]
    by_cases hlt : i < free.length
    · have hg : free.getD i 0 = free[i] := by simp [List.getD_eq_getElem?_getD, hlt]
      have hfi := hf free[i] (List.getElem_mem hlt)
      rw [hg, int64OfU64_small hfi.2, if_pos (by omega), Nat.mod_eq_of_lt hri]
      have := ih (i + 1) (by omega) (by omega)
      rw [← this]
      congr 1
      have hr : ringSize - i = (ringSize - (i + 1)) + 1 := by omega
      rw [List.set_append_right _ _ (by simp; omega), hr, List.replicate_succ]
      have ht : free.take (i + 1) = free.take i ++ [free[i]] := List.take_succ_eq_append_getElem hlt
      rw [ht]
      have hl2 : ((free.take i).map Int.ofNat).length = i := by simp; omega
      rw [hl2, Nat.sub_self, List.set_cons_zero]
      simp only [List.map_append, List.map_cons, List.map_nil, List.append_assoc, List.singleton_append]
      rfl
    · have : i = free.length := by omega
      subst this
      rw [getD_drop_zero (Nat.le_refl _)]
      simp [int64OfU64, Nat.mod_eq_of_lt hri]

/-- Opening an existing valid page file (same bytes) gives the same free list. -/
theorem openFile_valid' {s : PF} {free : List Nat} (h : s.Valid free) (f : File)
    (hf : f.bytes = s.file.bytes) :
    ∃ s', openFile f = (.ok s', s'.file) ∧ s'.Valid free ∧ s'.file.bytes = f.bytes ∧
      s'.file.kind = f.kind ∧ s'.file.budget = f.budget ∧
      s'.lastPage * pageSize = f.bytes.length ∧ s'.tail = 0 := by
  have hne := h.nonempty
  have hal := h.aligned
  have hle := h.ringOK.len_le
  have hfp : ∀ o ∈ free, 0 < o ∧ o < 2 ^ 63 := by
    intro o ho
    have := h.freeOK o ho
    have := h.small
    unfold pageSize at *; omega
  have hpg : slice f.bytes 0 pageSize = freePageBytes (free.map Int.ofNat) := by rw [hf]; exact h.page0
  have hplen : (freePageBytes (free.map Int.ofNat)).length = pageSize :=
    freePageBytes_length _ (by simpa using hle)
  have hload := loadRing_spec (freePageBytes (free.map Int.ofNat)) free hfp hle
    (freePageBytes_entry free (fun o ho => (hfp o ho).2) hle) ringSize 0 (by omega) (by omega)
  simp only [List.take_zero, List.map_nil, List.nil_append, Nat.sub_zero, Nat.zero_mod] at hload
  have hseek0 : File.seekStart 0 f = (.ok 0, { f with pos := 0 }) := File.seekStart_ok (o := 0) (Nat.zero_le _)
  have hread : File.read pageSize { f with pos := 0 }
      = (.ok (freePageBytes (free.map Int.ofNat), false), { f with pos := 0 + pageSize }) := by
    rw [File.read_ok (by unfold pageSize; omega) (by simp; rw [hf]; exact hne)]
    simp only [hpg]
  have hend := File.seekEnd_ok { f with pos := 0 + pageSize }
  simp only at hend
  have hdiv : ((f.bytes.length : Int) / pageSize).toNat = f.bytes.length / pageSize := by
    norm_cast
  refine ⟨⟨{ f with pos := f.bytes.length }, free.map Int.ofNat ++ List.replicate (ringSize - free.length) 0,
    free.length % ringSize, free.length, f.bytes.length / pageSize⟩, ?_, ?_, rfl, rfl, rfl, ?_, by
      unfold PF.tail ringSize at *
      simp only
      omega⟩
  · unfold openFile
    rw [Act.bind_ok hseek0, Act.bind_ok hread]
    simp only [hplen, Nat.sub_self, List.replicate_zero, List.append_nil]
    rw [hload]
    simp only [Bool.false_eq_true, if_false]
    rw [Act.bind_ok (Act.pure_run _ _)]
    simp only
    rw [Act.bind_ok hend, tmod_nat, hf, hal, if_neg (by simp), Act.bind_ok (Act.get_run _)]
    rw [← hf, hdiv]; rfl
  · have ht : PF.tail ⟨{ f with pos := f.bytes.length }, free.map Int.ofNat ++
        List.replicate (ringSize - free.length) 0, free.length % ringSize, free.length,
        f.bytes.length / pageSize⟩ = 0 := by
      unfold PF.tail ringSize at *
      simp only
      omega
    refine ⟨⟨Nat.mod_lt _ (by decide), rfl, by rw [ht]; omega, ?_⟩, ?_, ?_, ?_, ?_, h.nodup, ?_⟩
    · rw [ht]; simp
    · simp only [hf]; exact hal
    · simp only [hf]; exact hne
    · simp only [hf]; exact h.small
    · simp only [hf]; exact h.page0
    · simp only [hf]; exact h.freeOK
  · simp only
    rw [hf]; exact Nat.div_mul_cancel (Nat.dvd_of_mod_eq_zero hal)

/-- Opening an empty file creates a page file with one (zero) page and an empty free list. -/
theorem openFile_empty' (f : File) (hf : f.bytes = []) (hb : f.budget = none) :
    ∃ s', openFile f = (.ok s', s'.file) ∧ s'.Valid [] ∧ s'.file.bytes = List.replicate pageSize 0 ∧
      s'.file.kind = f.kind ∧ s'.file.budget = none ∧ s'.lastPage = 1 ∧ s'.tail = 0 := by
  have hseek0 : File.seekStart 0 f = (.ok 0, { f with pos := 0 }) := File.seekStart_ok (o := 0) (Nat.zero_le _)
  have hread : File.read pageSize { f with pos := 0 } = (.ok ([], true), { f with pos := 0 }) := by
    unfold File.read
    cases hk : f.kind
    · simp [hf]
    · simp [hf, pageSize]
  obtain ⟨n, p, hw⟩ := File.write_ok (f := { f with pos := 0 }) (b := List.replicate pageSize 0) hb
    (Nat.zero_le _) (by rw [List.length_replicate]; unfold pageSize; simp only; omega)
  have hbytes : writeAt f.bytes 0 (List.replicate pageSize 0) = List.replicate pageSize 0 := by
    rw [hf]; have := writeAt_end [] (List.replicate pageSize 0); simpa using this
  simp only [hbytes] at hw
  have hend := File.seekEnd_ok { f with bytes := List.replicate pageSize 0, pos := p }
  simp only [List.length_replicate] at hend
  have ht : PF.tail ⟨{ f with bytes := List.replicate pageSize 0, pos := pageSize },
      List.replicate ringSize 0, 0, 0, 1⟩ = 0 := by
    unfold PF.tail ringSize; simp only
  refine ⟨⟨{ f with bytes := List.replicate pageSize 0, pos := pageSize }, List.replicate ringSize 0, 0, 0, 1⟩,
    ?_, ?_, rfl, rfl, hb, rfl, ht⟩
  · unfold openFile
    rw [Act.bind_ok hseek0, Act.bind_ok hread]
    simp only [List.length_nil, Nat.sub_zero, List.nil_append, if_true]
    rw [Act.bind_ok (a := (List.replicate ringSize 0, 0, 0))
      (s' := { f with bytes := List.replicate pageSize 0, pos := p })
      (by rw [Act.bind_ok hw]; rfl)]
    simp only
    rw [Act.bind_ok hend, tmod_nat, Nat.mod_self, if_neg (by simp), Act.bind_ok (Act.get_run _)]
    rfl
  · refine ⟨⟨by unfold ringSize; simp only; omega, rfl, by rw [ht]; unfold ringSize; simp, by rw [ht]; rfl⟩, ?_, ?_, ?_, ?_, by simp, by simp⟩
    · simp only [List.length_replicate, Nat.mod_self]
    · simp only [List.length_replicate]; omega
    · simp only [List.length_replicate]; unfold pageSize; omega
    · have h1 : freePageBytes ([].map Int.ofNat) = List.replicate pageSize 0 := by
        unfold freePageBytes
        simp only [List.map_nil, List.flatten_nil, List.nil_append, List.length_nil, Nat.zero_mul, Nat.sub_zero]
        rfl
      rw [h1]
      have := slice_all (List.replicate pageSize 0)
      rw [List.length_replicate] at this
      exact this

theorem openFile_empty (f : File) (hf : f.bytes = []) (hb : f.budget = none) :
    ∃ s', openFile f = (.ok s', s'.file) ∧ s'.Valid [] ∧ s'.file.bytes = List.replicate pageSize 0 ∧
      s'.file.kind = f.kind ∧ s'.file.budget = none ∧ s'.lastPage = 1 := by
  obtain ⟨s', h1, h2, h3, h4, h5, h6, _⟩ := openFile_empty' f hf hb
  exact ⟨s', h1, h2, h3, h4, h5, h6⟩

end Appendable
