import Verif.Model.PageFile
import Verif.Lemmas.File
namespace Appendable
open PF

theorem padPage_length {b : Bytes} (h : b.length ≤ pageSize) : (padPage b).length = pageSize := by
  simp [padPage]; omega

/-- Replace contents and position of the file. -/
def PF.upd (s : PF) (bytes : Bytes) (p : Nat) : PF := { s with file := { s.file with bytes := bytes, pos := p } }

@[simp] theorem upd_bytes (s : PF) (b : Bytes) (p : Nat) : (s.upd b p).file.bytes = b := rfl
@[simp] theorem upd_pos (s : PF) (b : Bytes) (p : Nat) : (s.upd b p).file.pos = p := rfl
@[simp] theorem upd_budget (s : PF) (b : Bytes) (p : Nat) : (s.upd b p).file.budget = s.file.budget := rfl
@[simp] theorem upd_kind (s : PF) (b : Bytes) (p : Nat) : (s.upd b p).file.kind = s.file.kind := rfl
@[simp] theorem upd_ring (s : PF) (b : Bytes) (p : Nat) : (s.upd b p).ring = s.ring := rfl
@[simp] theorem upd_head (s : PF) (b : Bytes) (p : Nat) : (s.upd b p).head = s.head := rfl
@[simp] theorem upd_count (s : PF) (b : Bytes) (p : Nat) : (s.upd b p).count = s.count := rfl
@[simp] theorem upd_lastPage (s : PF) (b : Bytes) (p : Nat) : (s.upd b p).lastPage = s.lastPage := rfl
@[simp] theorem upd_tail (s : PF) (b : Bytes) (p : Nat) : (s.upd b p).tail = s.tail := rfl
@[simp] theorem upd_upd (s : PF) (b c : Bytes) (p q : Nat) : (s.upd b p).upd c q = s.upd c q := rfl

theorem onFile_run {α : Type} {m : Act File α} {s : PF} {r : Res α} {f : File} (h : m s.file = (r, f)) :
    onFile m s = (r, { s with file := f }) := by
  unfold onFile; rw [h]

theorem seek_ok {s : PF} {o : Nat} (h : o ≤ s.file.bytes.length) :
    PF.seek (o : Int) s = (.ok (o : Int), s.upd s.file.bytes o) :=
  onFile_run (File.seekStart_ok h)

theorem seekStart_ok' {s : PF} {o : Nat} (h : o ≤ s.file.bytes.length) :
    onFile (File.seekStart (o : Int)) s = (.ok (o : Int), s.upd s.file.bytes o) :=
  onFile_run (File.seekStart_ok h)

theorem seekZero_ok (s : PF) : onFile (File.seekStart 0) s = (.ok 0, s.upd s.file.bytes 0) :=
  seekStart_ok' (o := 0) (Nat.zero_le _)

theorem seekEnd_ok' (s : PF) :
    onFile (File.seekEnd 0) s = (.ok (s.file.bytes.length : Int), s.upd s.file.bytes s.file.bytes.length) :=
  onFile_run (File.seekEnd_ok s.file)

theorem fileWrite_ok {s : PF} {b : Bytes} (hb : s.file.budget = none) (hp : s.file.pos ≤ s.file.bytes.length)
    (hl : s.file.pos + b.length < 2 ^ 63) :
    ∃ n p, onFile (File.write b) s = (.ok n, s.upd (writeAt s.file.bytes s.file.pos b) p) := by
  obtain ⟨n, p, h⟩ := File.write_ok (b := b) hb hp hl
  exact ⟨n, p, onFile_run h⟩

theorem tmod_nat (n : Nat) : (n : Int).tmod pageSize = ((n % pageSize : Nat) : Int) := by
  simp [Int.tmod]

/-- A write through the page file inside one page. -/
theorem write_ok {s : PF} {b : Bytes} (hb : s.file.budget = none) (hp : s.file.pos ≤ s.file.bytes.length)
    (hl : s.file.pos + b.length < 2 ^ 63) (hc : s.file.pos % pageSize + b.length ≤ pageSize) :
    ∃ n p, PF.write b s = (.ok n, s.upd (writeAt s.file.bytes s.file.pos b) p) := by
  obtain ⟨n, p, h⟩ := fileWrite_ok (b := b) hb hp hl
  refine ⟨n, p, ?_⟩
  unfold PF.write
  rw [Act.bind_ok (onFile_run (File.seekCur_ok hp)), tmod_nat, if_neg (by omega)]
  exact h

/-- A write through the page file that crosses a page boundary panics. -/
theorem write_cross {s : PF} {b : Bytes} (hp : s.file.pos ≤ s.file.bytes.length)
    (hc : pageSize < s.file.pos % pageSize + b.length) : PF.write b s = (.panic, s) := by
  unfold PF.write
  rw [Act.bind_ok (onFile_run (File.seekCur_ok hp)), tmod_nat, if_pos (by omega)]; rfl

theorem read_ok {s : PF} {n : Nat} (hn : 0 < n) (h : s.file.pos + n ≤ s.file.bytes.length)
    (hc : s.file.pos % pageSize + n ≤ pageSize) :
    PF.read n s = (.ok (slice s.file.bytes s.file.pos n, false), s.upd s.file.bytes (s.file.pos + n)) := by
  unfold PF.read
  rw [Act.bind_ok (onFile_run (File.seekCur_ok (by omega))), tmod_nat, if_neg (by omega)]
  exact onFile_run (File.read_ok hn h)

/-! ### The free list -/

/-- The in-memory free list represents the queue `free` (oldest first) and has not wrapped around. -/
structure RingOK (s : PF) (free : List Nat) : Prop where
  headLt : s.head < ringSize
  count_eq : s.count = free.length
  fits : s.tail + free.length ≤ ringSize
  ring_eq : s.ring = List.replicate s.tail 0 ++ (free.map Int.ofNat ++
    List.replicate (ringSize - (s.tail + free.length)) 0)

/-- A page file in order: page-aligned, the free list in memory and on page 0 is the queue `free`, which
has distinct page-aligned offsets inside of the file, none of them page 0. -/
structure PF.Valid (s : PF) (free : List Nat) : Prop where
  ringOK : RingOK s free
  aligned : s.file.bytes.length % pageSize = 0
  nonempty : pageSize ≤ s.file.bytes.length
  small : s.file.bytes.length < 2 ^ 63
  page0 : pageAt s.file.bytes 0 = freePageBytes (free.map Int.ofNat)
  nodup : free.Nodup
  freeOK : ∀ o ∈ free, o % pageSize = 0 ∧ pageSize ≤ o ∧ o < s.file.bytes.length

theorem RingOK.of_same {s t : PF} {free : List Nat} (h : RingOK s free) (h1 : t.ring = s.ring)
    (h2 : t.head = s.head) (h3 : t.count = s.count) : RingOK t free := by
  have ht : t.tail = s.tail := by unfold PF.tail; rw [h2, h3]
  exact ⟨by rw [h2]; exact h.headLt, by rw [h3]; exact h.count_eq, by rw [ht]; exact h.fits,
    by rw [h1, ht]; exact h.ring_eq⟩

theorem ringSlice_append (a b c : List Int) : ringSlice (a ++ (b ++ c)) a.length b.length = some b := by
  induction b generalizing a with
  | nil => simp [ringSlice]
  | cons x b ih =>
    simp only [List.length_cons, ringSlice]
    have h1 : (a ++ (x :: b ++ c))[a.length]? = some x := by simp
    have h2 : a ++ (x :: b ++ c) = (a ++ [x]) ++ (b ++ c) := by simp
    have h3 : a.length + 1 = (a ++ [x]).length := by simp
    rw [h1, h2, h3, ih]; rfl

theorem ringSlice_none {ring : List Int} {i n : Nat} (h : ring.length < i + n) (hn : 0 < n) :
    ringSlice ring i n = none := by
  induction n generalizing i with
  | zero => omega
  | succ n ih =>
    simp only [ringSlice]
    by_cases hi : i < ring.length
    · rw [List.getElem?_eq_getElem hi, ih (by omega) (by omega)]; rfl
    · rw [List.getElem?_eq_none (by omega)]; rfl

theorem RingOK.ringSlice {s : PF} {free : List Nat} (h : RingOK s free) :
    ringSlice s.ring s.tail s.count = some (free.map Int.ofNat) := by
  rw [h.ring_eq, h.count_eq]
  have := ringSlice_append (List.replicate s.tail 0) (free.map Int.ofNat)
    (List.replicate (ringSize - (s.tail + free.length)) 0)
  simpa using this

theorem RingOK.length {s : PF} {free : List Nat} (h : RingOK s free) : s.ring.length = ringSize := by
  have := h.fits
  rw [h.ring_eq]; simp; omega

theorem RingOK.tail_lt {s : PF} : s.tail < ringSize := Nat.mod_lt _ (by decide)

theorem RingOK.head_eq {s : PF} {free : List Nat} (h : RingOK s free) :
    s.head = (s.tail + s.count) % ringSize := by
  have h1 := h.headLt
  have h2 := h.fits
  have h3 := h.count_eq
  unfold PF.tail at *
  unfold ringSize at *
  omega

theorem freePageBytes_length (offs : List Int) (h : offs.length ≤ ringSize) :
    (freePageBytes offs).length = pageSize := by
  unfold freePageBytes
  have : (offs.map (fun o => leBytes 8 (u64OfInt o))).flatten.length = offs.length * 8 := by
    induction offs with
    | nil => rfl
    | cons a l ih =>
      simp only [List.map_cons, List.flatten_cons, List.length_append, leBytes_length, List.length_cons]
      rw [ih (by simp at h; omega)]; omega
  rw [List.length_append, this, List.length_replicate]
  unfold ringSize pageSize at *
  omega

theorem RingOK.len_le {s : PF} {free : List Nat} (h : RingOK s free) : free.length ≤ ringSize := by
  have := h.fits; omega

theorem writeFreePageIndices_ok {s : PF} {free : List Nat} (h : RingOK s free) (hb : s.file.budget = none)
    (hl : pageSize < 2 ^ 63) :
    ∃ p, writeFreePageIndices s
      = (.ok (), s.upd (writeAt s.file.bytes 0 (freePageBytes (free.map Int.ofNat))) p) := by
  unfold writeFreePageIndices
  rw [h.ringSlice]
  simp only
  rw [Act.bind_ok (seekZero_ok s)]
  have hlen : (freePageBytes (free.map Int.ofNat)).length = pageSize :=
    freePageBytes_length _ (by simpa using h.len_le)
  obtain ⟨n, p, hw⟩ := fileWrite_ok (s := s.upd s.file.bytes 0) (b := freePageBytes (free.map Int.ofNat)) hb
    (Nat.zero_le _) (by simp only [upd_pos]; omega)
  rw [Act.bind_ok hw]
  exact ⟨p, rfl⟩

theorem map_replicate_zero (n : Nat) : List.replicate (n + 1) (0 : Int) = List.replicate n 0 ++ [0] :=
  List.replicate_succ'

/-- Popping the oldest free page. -/
theorem RingOK.pop {s : PF} {o : Nat} {fs : List Nat} (h : RingOK s (o :: fs)) :
    s.ring[s.tail]? = some (o : Int) ∧
    RingOK { s with ring := s.ring.set s.tail 0, count := s.count - 1 } fs := by
  have h1 := h.headLt
  have h2 := h.fits
  have h3 := h.count_eq
  have htl : s.tail < ringSize := RingOK.tail_lt
  simp only [List.length_cons] at h2 h3
  constructor
  · rw [h.ring_eq]; simp
  · have ht : PF.tail { s with ring := s.ring.set s.tail 0, count := s.count - 1 } = (s.tail + 1) % ringSize := by
      unfold PF.tail ringSize at *
      simp only
      omega
    have hset : s.ring.set s.tail 0 = List.replicate (s.tail + 1) 0 ++ (fs.map Int.ofNat ++
        List.replicate (ringSize - (s.tail + (fs.length + 1))) 0) := by
      conv => lhs; rw [h.ring_eq]
      rw [List.set_append_right _ _ (by simp)]
      simp [List.replicate_succ']
    by_cases hw : s.tail + 1 = ringSize
    · have hfs : fs = [] := by
        cases fs with
        | nil => rfl
        | cons a b => simp at h2; omega
      have ht0 : (s.tail + 1) % ringSize = 0 := by rw [hw]; simp
      refine ⟨h1, by simp only; omega, by rw [ht, ht0]; simp [hfs], ?_⟩
      simp only
      rw [ht, ht0, hset, hfs]
      simp
      rw [show ringSize - (s.tail + 1) = 0 by omega, hw]
    · have ht1 : (s.tail + 1) % ringSize = s.tail + 1 := Nat.mod_eq_of_lt (by omega)
      refine ⟨h1, by simp only; omega, by rw [ht, ht1]; omega, ?_⟩
      simp only
      rw [ht, ht1, hset]
      congr 3
      omega

/-- Pushing a freed page, when there is room before the end of the ring. -/
theorem RingOK.push {s : PF} {free : List Nat} (h : RingOK s free) (o : Nat)
    (hroom : s.tail + free.length < ringSize) :
    RingOK { s with ring := s.ring.set s.head (o : Int), head := (s.head + 1) % ringSize, count := s.count + 1 }
      (free ++ [o]) := by
  have h1 := h.headLt
  have h3 := h.count_eq
  have hhead : s.head = s.tail + free.length := by rw [h.head_eq, h3, Nat.mod_eq_of_lt hroom]
  have ht : PF.tail
      { s with ring := s.ring.set s.head (o : Int), head := (s.head + 1) % ringSize, count := s.count + 1 }
      = s.tail := by
    unfold PF.tail ringSize at *
    simp only
    omega
  refine ⟨Nat.mod_lt _ (by decide), by simp [h3], by rw [ht]; simp; omega, ?_⟩
  simp only
  rw [ht]
  conv => lhs; rw [h.ring_eq]
  have hr : ringSize - (s.tail + free.length) = (ringSize - (s.tail + (free ++ [o]).length)) + 1 := by
    simp; omega
  rw [List.set_append_right _ _ (by simp; omega), List.length_replicate,
    List.set_append_right _ _ (by simp; omega), hr, List.replicate_succ]
  simp only [List.length_map, hhead, Nat.add_sub_cancel_left, Nat.sub_self, List.set_cons_zero, List.map_append,
    List.map_cons, List.map_nil, List.append_assoc, List.singleton_append]
  rfl

/-! ### NewPage -/

theorem page_ne_disjoint {p q : Nat} (hp : p % pageSize = 0) (hq : q % pageSize = 0) (h : p ≠ q) :
    p + pageSize ≤ q ∨ q + pageSize ≤ p := by unfold pageSize at *; omega

/-- What `NewPage` does in a valid page file. -/
theorem newPage_pop {s : PF} {o : Nat} {fs : List Nat} (h : s.Valid (o :: fs)) (hb : s.file.budget = none)
    (buf : Option Bytes) (hl : (buf.getD []).length ≤ pageSize) :
    ∃ s', PF.newPage buf s = (.ok (o : Int), s') ∧ s'.Valid fs ∧
      s'.file.bytes = writeAt (writeAt s.file.bytes 0 (freePageBytes (fs.map Int.ofNat))) o (padPage (buf.getD [])) ∧
      s'.file.budget = none ∧ s'.file.kind = s.file.kind ∧ s'.lastPage = s.lastPage := by
  obtain ⟨hget, hring⟩ := h.ringOK.pop
  have ho := h.freeOK o (by simp)
  have hne := h.nonempty
  have hsm := h.small
  have hal := h.aligned
  have hplen : (padPage (buf.getD [])).length = pageSize := padPage_length hl
  have hflen : (freePageBytes (fs.map Int.ofNat)).length = pageSize :=
    freePageBytes_length _ (by simpa using hring.len_le)
  obtain ⟨p1, hw1⟩ := writeFreePageIndices_ok hring (by exact hb) (by unfold pageSize; decide)
  have hfp : freePageIndex s = (.ok (o : Int),
      (PF.upd { s with ring := s.ring.set s.tail 0, count := s.count - 1 }
        (writeAt s.file.bytes 0 (freePageBytes (fs.map Int.ofNat))) p1)) := by
    unfold freePageIndex
    rw [if_neg (by have := h.ringOK.count_eq; simp at this; omega), hget]
    simp only
    rw [Act.bind_ok (Act.set_run _ _), Act.bind_ok hw1]; rfl
  have hlen1 : (writeAt s.file.bytes 0 (freePageBytes (fs.map Int.ofNat))).length = s.file.bytes.length := by
    rw [writeAt_length (Nat.zero_le _)]; omega
  generalize hs1 : (PF.upd { s with ring := s.ring.set s.tail 0, count := s.count - 1 }
        (writeAt s.file.bytes 0 (freePageBytes (fs.map Int.ofNat))) p1) = s1 at hfp
  have hb1 : s1.file.bytes = writeAt s.file.bytes 0 (freePageBytes (fs.map Int.ofNat)) := by rw [← hs1]; rfl
  have hbl1 : s1.file.bytes.length = s.file.bytes.length := by rw [hb1, hlen1]
  have hbg1 : s1.file.budget = none := by rw [← hs1]; exact hb
  have hends : o + pageSize ≤ s.file.bytes.length := by unfold pageSize at *; omega
  obtain ⟨n2, p2, hw2⟩ := fileWrite_ok (s := s1.upd s1.file.bytes o) (b := padPage (buf.getD [])) hbg1
    (by simp only [upd_pos, upd_bytes]; omega) (by simp only [upd_pos]; omega)
  have hlen2 : (writeAt s1.file.bytes o (padPage (buf.getD []))).length = s.file.bytes.length := by
    rw [writeAt_length (by omega)]; omega
  refine ⟨s1.upd (writeAt s1.file.bytes o (padPage (buf.getD []))) o, ?_, ?_, ?_, hbg1, ?_, ?_⟩
  · unfold PF.newPage
    simp only
    rw [if_neg (by omega), Act.bind_ok hfp]
    rw [if_pos (by omega), Act.bind_ok (a := (o : Int)) (s' := s1.upd s1.file.bytes o)
      (by rw [Act.bind_ok (seekStart_ok' (by omega))]; rfl)]
    rw [tmod_nat, ho.1, if_neg (by simp), Act.bind_ok (Act.pure_run _ _)]
    rw [← padPage]
    rw [Act.bind_ok hw2, Act.bind_ok (seekStart_ok' (by
      simp only [upd_bytes, upd_pos]; omega))]
    simp
  · have hp0 : pageAt (writeAt s1.file.bytes o (padPage (buf.getD []))) 0 = freePageBytes (fs.map Int.ofNat) := by
      unfold pageAt
      rw [slice_writeAt_disjoint (by omega) (by left; omega), hb1]
      have := slice_writeAt_same (l := s.file.bytes) (off := 0) (b := freePageBytes (fs.map Int.ofNat)) (Nat.zero_le _)
      rwa [hflen] at this
    refine ⟨hring.of_same (by rw [← hs1]; rfl) (by rw [← hs1]; rfl) (by rw [← hs1]; rfl), ?_, ?_, ?_, hp0,
      (List.nodup_cons.1 h.nodup).2, ?_⟩
    · simp only [upd_bytes, hlen2]; exact hal
    · simp only [upd_bytes, hlen2]; exact hne
    · simp only [upd_bytes, hlen2]; exact hsm
    · intro q hq
      simp only [upd_bytes, hlen2]; exact h.freeOK q (by simp [hq])
  · simp only [upd_bytes, hb1]
  · rw [← hs1]; rfl
  · rw [← hs1]; rfl

theorem newPage_append {s : PF} (h : s.Valid []) (hb : s.file.budget = none)
    (buf : Option Bytes) (hl : (buf.getD []).length ≤ pageSize)
    (hroom : s.file.bytes.length + pageSize < 2 ^ 63) :
    ∃ s', PF.newPage buf s = (.ok (s.file.bytes.length : Int), s') ∧ s'.Valid [] ∧
      s'.file.bytes = s.file.bytes ++ padPage (buf.getD []) ∧
      s'.file.budget = none ∧ s'.file.kind = s.file.kind ∧ s'.lastPage = s.lastPage + 1 := by
  have hne := h.nonempty
  have hal := h.aligned
  have hplen : (padPage (buf.getD [])).length = pageSize := padPage_length hl
  have hfp : freePageIndex s = (.ok (-1), s) := by
    unfold freePageIndex
    rw [if_pos (by have := h.ringOK.count_eq; simpa using this)]
  let s1 : PF := { (s.upd s.file.bytes s.file.bytes.length) with lastPage := s.lastPage + 1 }
  obtain ⟨n2, p2, hw2⟩ := fileWrite_ok (s := s1) (b := padPage (buf.getD [])) hb
    (by simp [s1]) (by simp [s1]; omega)
  have hb2 : writeAt s1.file.bytes s1.file.pos (padPage (buf.getD [])) = s.file.bytes ++ padPage (buf.getD []) :=
    writeAt_end _ _
  rw [hb2] at hw2
  refine ⟨s1.upd (s.file.bytes ++ padPage (buf.getD [])) s.file.bytes.length, ?_, ?_, rfl, hb, rfl, rfl⟩
  · unfold PF.newPage
    simp only
    rw [if_neg (by omega), Act.bind_ok hfp]
    rw [if_neg (by simp), Act.bind_ok (a := (s.file.bytes.length : Int)) (s' := s1)
      (by rw [Act.bind_ok (seekEnd_ok' s)]; rfl)]
    rw [tmod_nat, hal, if_neg (by simp), Act.bind_ok (Act.pure_run _ _)]
    rw [← padPage]
    rw [Act.bind_ok hw2, Act.bind_ok (seekStart_ok' (by simp))]
    simp
  · have hp0 : pageAt (s.file.bytes ++ padPage (buf.getD [])) 0 = freePageBytes (([] : List Nat).map Int.ofNat) := by
      unfold pageAt
      rw [slice_append_left (by omega)]; exact h.page0
    refine ⟨h.ringOK.of_same rfl rfl rfl, ?_, ?_, ?_, hp0, by simp, by simp⟩
    · simp only [upd_bytes, List.length_append, hplen]; unfold pageSize at *; omega
    · simp only [upd_bytes, List.length_append]; omega
    · simp only [upd_bytes, List.length_append, hplen]; omega

/-- With no free page and no room left, `NewPage` reports an error and writes nothing. -/
theorem newPage_full {s : PF} (h : s.Valid []) (hb : s.file.budget = none)
    (buf : Option Bytes) (hl : (buf.getD []).length ≤ pageSize)
    (hroom : 2 ^ 63 ≤ s.file.bytes.length + pageSize) :
    ∃ s', PF.newPage buf s = (.err .io, s') ∧ s'.file.bytes = s.file.bytes := by
  have hal := h.aligned
  have hplen : (padPage (buf.getD [])).length = pageSize := padPage_length hl
  have hfp : freePageIndex s = (.ok (-1), s) := by
    unfold freePageIndex
    rw [if_pos (by have := h.ringOK.count_eq; simpa using this)]
  let s1 : PF := { (s.upd s.file.bytes s.file.bytes.length) with lastPage := s.lastPage + 1 }
  have hw2 : onFile (File.write (padPage (buf.getD []))) s1 = (.err .io, s1) :=
    onFile_run (File.write_too_large (f := s1.file) hb (by simp [s1, hplen]; omega))
  refine ⟨s1, ?_, rfl⟩
  unfold PF.newPage
  simp only
  rw [if_neg (by omega), Act.bind_ok hfp]
  rw [if_neg (by simp), Act.bind_ok (a := (s.file.bytes.length : Int)) (s' := s1)
    (by rw [Act.bind_ok (seekEnd_ok' s)]; rfl)]
  rw [← padPage]
  rw [tmod_nat, hal, if_neg (by simp), Act.bind_ok (Act.pure_run _ _), Act.bind_err hw2]

/-- An offset in use: a page of the file other than page 0 and not free. -/
def Live (s : PF) (free : List Nat) (o : Nat) : Prop :=
  o % pageSize = 0 ∧ pageSize ≤ o ∧ o < s.file.bytes.length ∧ o ∉ free

/-- The combined specification of `NewPage` in terms of pages. -/
theorem newPage_spec' {s : PF} {free : List Nat} (h : s.Valid free) (hb : s.file.budget = none)
    (buf : Option Bytes) (hl : (buf.getD []).length ≤ pageSize) :
    (∃ (off : Nat) (s' : PF) (free' : List Nat), PF.newPage buf s = (.ok (off : Int), s') ∧ s'.Valid free' ∧
      s'.file.budget = none ∧ ¬ Live s free off ∧ Live s' free' off ∧
      pageAt s'.file.bytes off = padPage (buf.getD []) ∧
      (∀ p, Live s free p → Live s' free' p ∧ pageAt s'.file.bytes p = pageAt s.file.bytes p) ∧
      (∀ p, Live s' free' p → p = off ∨ Live s free p) ∧
      s.file.bytes.length ≤ s'.file.bytes.length ∧
      s'.file.bytes.length ≤ s.file.bytes.length + pageSize ∧ off < 2 ^ 63 ∧ (free = [] → free' = [])) ∨
    (∃ s', PF.newPage buf s = (.err .io, s') ∧ 2 ^ 63 ≤ s.file.bytes.length + pageSize) := by
  have hne := h.nonempty
  have hplen : (padPage (buf.getD [])).length = pageSize := padPage_length hl
  have hsm := h.small
  cases free with
  | cons o fs =>
    left
    obtain ⟨s', hr, hv, hbytes, hbud, hkind, hlp⟩ := newPage_pop h hb buf hl
    have ho := h.freeOK o (by simp)
    have hflen : (freePageBytes (fs.map Int.ofNat)).length = pageSize :=
      freePageBytes_length _ (by simpa using hv.ringOK.len_le)
    have hends : o + pageSize ≤ s.file.bytes.length := by
      have := h.aligned; unfold pageSize at *; omega
    have hlen1 : (writeAt s.file.bytes 0 (freePageBytes (fs.map Int.ofNat))).length = s.file.bytes.length := by
      rw [writeAt_length (Nat.zero_le _)]; omega
    have hlen : s'.file.bytes.length = s.file.bytes.length := by
      rw [hbytes, writeAt_length (by omega)]; omega
    have hnd := List.nodup_cons.1 h.nodup
    refine ⟨o, s', fs, hr, hv, hbud, ?_, ?_, ?_, ?_, ?_, by omega, by omega, by omega, by simp⟩
    · intro hc; exact hc.2.2.2 (by simp)
    · exact ⟨ho.1, ho.2.1, by omega, hnd.1⟩
    · rw [hbytes]; unfold pageAt
      have := slice_writeAt_same (l := writeAt s.file.bytes 0 (freePageBytes (fs.map Int.ofNat)))
        (off := o) (b := padPage (buf.getD [])) (by omega)
      rwa [hplen] at this
    · intro p hp
      have hpo : p ≠ o := by rintro rfl; exact hp.2.2.2 (by simp)
      refine ⟨⟨hp.1, hp.2.1, by have := hp.2.2.1; omega, fun hm => hp.2.2.2 (by simp [hm])⟩, ?_⟩
      rw [hbytes]; unfold pageAt
      have hd := page_ne_disjoint hp.1 ho.1 hpo
      rw [slice_writeAt_disjoint (by omega) (by omega)]
      have := hp.2.1
      rw [slice_writeAt_disjoint (by omega) (by omega)]
    · intro p hp
      by_cases hpo : p = o
      · left; exact hpo
      · right
        exact ⟨hp.1, hp.2.1, by have := hp.2.2.1; omega, by simp [hpo]; exact hp.2.2.2⟩
  | nil =>
    by_cases hroom : s.file.bytes.length + pageSize < 2 ^ 63
    · left
      obtain ⟨s', hr, hv, hbytes, hbud, hkind, hlp⟩ := newPage_append h hb buf hl hroom
      have hlen : s'.file.bytes.length = s.file.bytes.length + pageSize := by
        rw [hbytes, List.length_append, hplen]
      have hal := h.aligned
      refine ⟨s.file.bytes.length, s', [], hr, hv, hbud, ?_, ?_, ?_, ?_, ?_, by omega, by omega, by omega, fun _ => rfl⟩
      · intro hc; have := hc.2.2.1; omega
      · exact ⟨hal, hne, by unfold pageSize at *; omega, by simp⟩
      · rw [hbytes]; unfold pageAt
        have := slice_append_right s.file.bytes (padPage (buf.getD []))
        rwa [hplen] at this
      · intro p hp
        have h3 := hp.2.2.1
        have h4 := hp.1
        refine ⟨⟨hp.1, hp.2.1, by omega, by simp⟩, ?_⟩
        rw [hbytes]; unfold pageAt
        rw [slice_append_left (by unfold pageSize at *; omega)]
      · intro p hp
        have h3 := hp.2.2.1
        have h4 := hp.1
        by_cases hpo : p = s.file.bytes.length
        · left; exact hpo
        · right; exact ⟨hp.1, hp.2.1, by unfold pageSize at *; omega, by simp⟩
    · right
      obtain ⟨s', hr, _⟩ := newPage_full h hb buf hl (by omega)
      exact ⟨s', hr, by omega⟩

theorem newPage_spec {s : PF} {free : List Nat} (h : s.Valid free) (hb : s.file.budget = none)
    (buf : Option Bytes) (hl : (buf.getD []).length ≤ pageSize) :
    (∃ (off : Nat) (s' : PF) (free' : List Nat), PF.newPage buf s = (.ok (off : Int), s') ∧ s'.Valid free' ∧
      s'.file.budget = none ∧ ¬ Live s free off ∧ Live s' free' off ∧
      pageAt s'.file.bytes off = padPage (buf.getD []) ∧
      (∀ p, Live s free p → Live s' free' p ∧ pageAt s'.file.bytes p = pageAt s.file.bytes p) ∧
      (∀ p, Live s' free' p → p = off ∨ Live s free p) ∧
      s.file.bytes.length ≤ s'.file.bytes.length ∧
      s'.file.bytes.length ≤ s.file.bytes.length + pageSize ∧ off < 2 ^ 63) ∨
    (∃ s', PF.newPage buf s = (.err .io, s') ∧ 2 ^ 63 ≤ s.file.bytes.length + pageSize) := by
  rcases newPage_spec' h hb buf hl with ⟨o, s', f', h1, h2, h3, h4, h5, h6, h7, h8, h9, h10, h11, _⟩ | h
  · exact .inl ⟨o, s', f', h1, h2, h3, h4, h5, h6, h7, h8, h9, h10, h11⟩
  · exact .inr h

end Appendable
