import Verif.Lemmas.Alloc
/-! Properties C20–C25: the page allocator, over all histories. -/
namespace Appendable
open PF Spec

/-- C20: in every history, a successful `NewPage(buf)` returns an aligned offset other than page 0; it is the
longest-free page if some page is free and the end of the file otherwise; the page then holds `buf`
followed by zeros; every other page except page 0 (the free list) is unchanged. -/
theorem C20_new_page {s s' : PF} {owned freed : List Nat} {n : Nat} {buf : Option Bytes} {off : Int}
    (hr : AllocRun s owned freed n) (h : PF.newPage buf s = (.ok off, s')) :
    ∃ o : Nat, off = o ∧ o % 4096 = 0 ∧ 4096 ≤ o ∧
      (match freed with
        | [] => o = s.file.bytes.length ∧ s'.file.bytes.length = s.file.bytes.length + 4096
        | oldest :: _ => o = oldest ∧ s'.file.bytes.length = s.file.bytes.length) ∧
      pageAt s'.file.bytes o = padPage (buf.getD []) ∧
      (∀ p, p % 4096 = 0 → 4096 ≤ p → p < s.file.bytes.length → p ≠ o →
        pageAt s'.file.bytes p = pageAt s.file.bytes p) := by
  obtain ⟨o, h1, _, _, h2, h3, h4, h5, h6⟩ := newPage_inv (allocRun_inv hr) h
  refine ⟨o, h1, h2, h3, ?_, h4, h5⟩
  rcases h6 with ⟨fs, rfl, hl, _⟩ | ⟨rfl, ho, hl, _⟩
  · exact ⟨rfl, hl⟩
  · exact ⟨ho, hl⟩

/-- C20: and `NewPage` does succeed for every buffer of at most a page, unless the file is at its maximum
size (2^63 - 1 bytes). -/
theorem C20_new_page_succeeds {s : PF} {owned freed : List Nat} {n : Nat} (buf : Option Bytes)
    (hr : AllocRun s owned freed n) (hl : (buf.getD []).length ≤ 4096)
    (hroom : s.file.bytes.length + 4096 < 2 ^ 63) : ∃ off s', PF.newPage buf s = (.ok off, s') := by
  have hi := allocRun_inv hr
  rcases newPage_spec hi.valid hi.budget buf hl with ⟨o, s', _, h, _⟩ | ⟨_, _, h⟩
  · exact ⟨_, _, h⟩
  · have : pageSize = 4096 := rfl
    omega

/-- C21: in every history, a page returned by `NewPage` is not currently allocated. -/
theorem C21_never_twice {s s' : PF} {owned freed : List Nat} {n : Nat} {buf : Option Bytes} {off : Int}
    (hr : AllocRun s owned freed n) (h : PF.newPage buf s = (.ok off, s')) : off.toNat ∉ owned := by
  obtain ⟨o, rfl, _, h1, _⟩ := newPage_inv (allocRun_inv hr) h
  simpa using h1

/-- C21: so the allocated pages are always pairwise different, and none of them is in the free list. -/
theorem C21_owned_distinct {s : PF} {owned freed : List Nat} {n : Nat} (hr : AllocRun s owned freed n) :
    owned.Nodup ∧ freed.Nodup ∧ ∀ o ∈ owned, o ∉ freed ∧ 4096 ≤ o ∧ o + 4096 ≤ s.file.bytes.length := by
  have hi := allocRun_inv hr
  refine ⟨hi.nodup, hi.valid.nodup, fun o ho => ?_⟩
  have h := (hi.owned_iff o).1 ho
  have ha := hi.valid.aligned
  refine ⟨h.2.2.2, h.2.1, ?_⟩
  have h1 := h.1
  have h3 := h.2.2.1
  unfold pageSize at *
  omega

/-- Two page files that the allocator's client cannot tell apart. -/
private structure Sim (s t : PF) (freed : List Nat) : Prop where
  vs : s.Valid freed
  vt : t.Valid freed
  bs : s.file.budget = none
  bt : t.file.budget = none
  bytes : t.file.bytes = s.file.bytes

private theorem newPage_full' {s : PF} (h : s.Valid []) (hb : s.file.budget = none)
    (buf : Option Bytes) (hl : (buf.getD []).length ≤ pageSize)
    (hroom : 2 ^ 63 ≤ s.file.bytes.length + pageSize) :
    ∃ s', PF.newPage buf s = (.err .io, s') ∧ s'.Valid [] ∧ s'.file.budget = none ∧
      s'.file.bytes = s.file.bytes := by
  obtain ⟨s', hs, _⟩ := newPage_full h hb buf hl hroom
  by_cases hi : ∃ owned : List Nat, owned.Nodup ∧ ∀ o, o ∈ owned ↔ Live s [] o
  · obtain ⟨owned, h1, h2⟩ := hi
    have := newPage_err_inv (owned := owned) (n := s.tail) ⟨h, hb, h1, h2, by simp⟩ hs (by simp)
    exact ⟨s', hs, this.2.1.valid, this.2.1.budget, this.2.2⟩
  · exfalso; apply hi
    refine ⟨(List.range s.file.bytes.length).filter (fun o => o % pageSize = 0 ∧ pageSize ≤ o), ?_, ?_⟩
    · exact List.Nodup.sublist List.filter_sublist List.nodup_range
    · intro o; unfold Live; simp; constructor
      · rintro ⟨a, b, c⟩; exact ⟨b, c, a⟩
      · rintro ⟨a, b, c⟩; exact ⟨c, a, b⟩

private theorem sim_new {s t : PF} {freed : List Nat} (h : Sim s t freed) (buf : Option Bytes) :
    (PF.newPage buf t).1 = (PF.newPage buf s).1 ∧ ∃ freed', Sim (PF.newPage buf s).2 (PF.newPage buf t).2 freed' := by
  by_cases hl : (buf.getD []).length ≤ pageSize
  rotate_left
  · rw [newPage_too_large s buf (by omega), newPage_too_large t buf (by omega)]
    exact ⟨rfl, _, h⟩
  cases freed with
  | cons o fs =>
    obtain ⟨s1, hs, vs, bs, us, _, _⟩ := newPage_pop h.vs h.bs buf hl
    obtain ⟨t1, ht, vt, bt, ut, _, _⟩ := newPage_pop h.vt h.bt buf hl
    rw [hs, ht]
    exact ⟨rfl, fs, vs, vt, us, ut, by rw [bt, bs, h.bytes]⟩
  | nil =>
    by_cases hroom : s.file.bytes.length + pageSize < 2 ^ 63
    · obtain ⟨s1, hs, vs, bs, us, _, _⟩ := newPage_append h.vs h.bs buf hl hroom
      obtain ⟨t1, ht, vt, bt, ut, _, _⟩ := newPage_append h.vt h.bt buf hl (by rw [h.bytes]; exact hroom)
      rw [hs, ht, h.bytes]
      exact ⟨rfl, [], vs, vt, us, ut, by rw [bt, bs, h.bytes]⟩
    · obtain ⟨s1, hs, vs, us, bs⟩ := newPage_full' h.vs h.bs buf hl (by omega)
      obtain ⟨t1, ht, vt, ut, bt⟩ := newPage_full' h.vt h.bt buf hl (by rw [h.bytes]; omega)
      rw [hs, ht]
      exact ⟨rfl, [], vs, vt, us, ut, by rw [bt, bs, h.bytes]⟩

private theorem freePage_cases {s : PF} {freed : List Nat} (h : s.Valid freed) (hb : s.file.budget = none) {o : Nat}
    (ho : o < s.file.bytes.length) :
    (o % pageSize ≠ 0 ∧ PF.freePage o s = (.err (.msg "offset is not a multiple of the page size"), s)) ∨
    (o % pageSize = 0 ∧ freed.length = ringSize ∧ PF.freePage o s = (.err (.msg "free page index is full"), s)) ∨
    (o % pageSize = 0 ∧ freed.length < ringSize ∧ (o = 0 ∨ o ∈ freed) ∧
      PF.freePage o s = (.err (.msg "offset already exists"), s)) ∨
    (o % pageSize = 0 ∧ freed.length < ringSize ∧ o ≠ 0 ∧ o ∉ freed ∧ (PF.freePage o s).1 = .panic) ∨
    (o % pageSize = 0 ∧ freed.length < ringSize ∧ o ≠ 0 ∧ o ∉ freed ∧
      ∃ s', PF.freePage o s = (.ok (), s') ∧ s'.Valid (freed ++ [o]) ∧ s'.file.budget = none ∧
        s'.file.bytes = writeAt s.file.bytes 0 (freePageBytes ((freed ++ [o]).map Int.ofNat))) := by
  have h3 := h.ringOK.count_eq
  have h5 := h.ringOK.fits
  by_cases ha : o % pageSize = 0
  rotate_left
  · left; refine ⟨ha, ?_⟩
    unfold PF.freePage
    rw [tmod_nat, if_pos (by omega)]
  right
  by_cases hf : freed.length = ringSize
  · left; refine ⟨ha, hf, ?_⟩
    unfold PF.freePage
    rw [tmod_nat, ha, if_neg (by simp), if_pos (by omega)]
  right
  have hlt : freed.length < ringSize := by have := h.ringOK.len_le; omega
  by_cases he : o = 0 ∨ o ∈ freed
  · left; refine ⟨ha, hlt, he, ?_⟩
    unfold PF.freePage
    rw [tmod_nat, ha, if_neg (by simp), if_neg (by omega), if_pos]
    by_cases h0 : o = 0
    · subst h0; exact h.ringOK.zero_mem (by omega)
    · rw [h.ringOK.mem_iff o h0]; exact he.resolve_left h0
  · rw [not_or] at he
    by_cases hroom : s.tail + freed.length < ringSize
    · right; right
      obtain ⟨s', h1, h2, h4, _, _, h6⟩ := freePage_ok h hb o ha (by have := he.1; unfold pageSize at *; omega) ho
        he.2 hroom
      exact ⟨ha, hlt, he.1, he.2, s', h1, h2, h4, h6⟩
    · right; left
      exact ⟨ha, hlt, he.1, he.2, freePage_wrap h.ringOK o ha he.1 he.2 hlt (by omega)⟩

private theorem sim_free {s t : PF} {freed : List Nat} (h : Sim s t freed) {o : Nat} (ho : o < s.file.bytes.length)
    (hs : (PF.freePage o s).1 ≠ .panic) (ht : (PF.freePage o t).1 ≠ .panic) :
    (PF.freePage o t).1 = (PF.freePage o s).1 ∧ ∃ freed', Sim (PF.freePage o s).2 (PF.freePage o t).2 freed' := by
  rcases freePage_cases h.vs h.bs ho with ⟨a1, e1⟩ | ⟨a1, b1, e1⟩ | ⟨a1, b1, c1, e1⟩ | ⟨_, _, _, _, e1⟩ |
    ⟨a1, b1, c1, d1, s1, e1, v1, u1, y1⟩ <;>
  rcases freePage_cases h.vt h.bt (o := o) (by rw [h.bytes]; exact ho) with ⟨a2, e2⟩ | ⟨a2, b2, e2⟩ |
    ⟨a2, b2, c2, e2⟩ | ⟨_, _, _, _, e2⟩ | ⟨a2, b2, c2, d2, t1, e2, v2, u2, y2⟩ <;>
  first
  | exact absurd e1 hs
  | exact absurd e2 ht
  | (exfalso; omega)
  | (rw [e1, e2]; exact ⟨rfl, _, h⟩)
  | (exfalso; rcases c1 with c1 | c1 <;> contradiction)
  | (exfalso; rcases c2 with c2 | c2 <;> contradiction)
  | (rw [e1, e2]; exact ⟨rfl, _, v1, v2, u1, u2, by rw [y1, y2, h.bytes]⟩)

private theorem run_free (o : Nat) (s : PF) :
    ((PageOp.free o).run s).2 = (PF.freePage o s).2 ∧
    (((PageOp.free o).run s).1 = .panic ↔ (PF.freePage o s).1 = .panic) ∧
    ∀ t, (PF.freePage o t).1 = (PF.freePage o s).1 → ((PageOp.free o).run t).1 = ((PageOp.free o).run s).1 := by
  refine ⟨rfl, ?_, fun t ht => ?_⟩
  · show Res.bind _ _ = _ ↔ _
    cases (PF.freePage o s).1 <;> simp [Res.bind]
  · show Res.bind _ _ = Res.bind _ _
    rw [ht]

private theorem sim_runOps (ops : List PageOp) {s t : PF} {freed : List Nat} (h : Sim s t freed)
    (hin : FreesInside ops s) (hs : ∀ r ∈ runOps ops s, r ≠ .panic) (ht : ∀ r ∈ runOps ops t, r ≠ .panic) :
    runOps ops t = runOps ops s := by
  induction ops generalizing s t freed with
  | nil => rfl
  | cons op ops ih =>
    simp only [runOps, List.forall_mem_cons] at hs ht ⊢
    cases op with
    | new buf =>
      obtain ⟨h1, fr, h2⟩ := sim_new h buf
      exact congr (congrArg List.cons h1) (ih h2 hin hs.2 ht.2)
    | free o =>
      obtain ⟨hi1, hi2⟩ := hin
      obtain ⟨r1, r2, r3⟩ := run_free o s
      obtain ⟨q1, q2, q3⟩ := run_free o t
      obtain ⟨h1, fr, h2⟩ := sim_free h hi1 (fun hc => hs.1 (r2.2 hc)) (fun hc => ht.1 (q2.2 hc))
      rw [← r1, ← q1] at h2
      rw [ih h2 hi2 hs.2 ht.2, r3 t h1]

/-- C22: in every history, reopening the file (any file object with the same contents, memory-mapped or not)
succeeds without changing a byte, and afterwards every sequence of `NewPage` and `FreePage` calls gives the
same results as without reopening, as long as no call panics (see C24). -/
theorem C22_reopen {s : PF} {owned freed : List Nat} {n : Nat} (hr : AllocRun s owned freed n) (f : File)
    (hf : f.bytes = s.file.bytes) (hb : f.budget = none) :
    ∃ s' f', PF.openFile f = (.ok s', f') ∧ s'.file.bytes = s.file.bytes ∧
      ∀ ops, FreesInside ops s → (∀ r ∈ runOps ops s, r ≠ .panic) → (∀ r ∈ runOps ops s', r ≠ .panic) →
        runOps ops s' = runOps ops s := by
  have hi := allocRun_inv hr
  obtain ⟨s', h1, h2, h3, _, h5, _⟩ := openFile_valid' hi.valid f hf
  exact ⟨s', _, h1, h3.trans hf, fun ops h6 h7 h8 =>
    sim_runOps ops ⟨hi.valid, h2, hi.budget, h5.trans hb, h3.trans hf⟩ h6 h7 h8⟩

/-- C22: the allocations alone never panic, so a sequence of allocations needs no proviso. -/
theorem C22_reopen_allocations {s : PF} {owned freed : List Nat} {n : Nat} (hr : AllocRun s owned freed n) (f : File)
    (hf : f.bytes = s.file.bytes) (hb : f.budget = none) (bufs : List (Option Bytes)) :
    ∃ s' f', PF.openFile f = (.ok s', f') ∧
      runOps (bufs.map PageOp.new) s' = runOps (bufs.map PageOp.new) s := by
  have hi := allocRun_inv hr
  obtain ⟨s', h1, h2, h3, _, h5, _⟩ := openFile_valid' hi.valid f hf
  refine ⟨s', _, h1, ?_⟩
  have : ∀ {s t : PF} {fr : List Nat}, Sim s t fr →
      runOps (bufs.map PageOp.new) t = runOps (bufs.map PageOp.new) s := by
    induction bufs with
    | nil => intros; rfl
    | cons b bs ih =>
      intro s t fr h
      obtain ⟨h1, fr, h2⟩ := sim_new h b
      simp only [List.map_cons, runOps]
      exact congr (congrArg List.cons h1) (ih h2)
  exact this ⟨hi.valid, h2, hi.budget, h5.trans hb, h3.trans hf⟩

/-- C23: in every history the four kinds of bad frees return an error and change nothing (of the file or of
the in-memory state). -/
theorem C23_bad_frees {s : PF} {owned freed : List Nat} {n : Nat} (hr : AllocRun s owned freed n) (o : Int)
    (hbad : o % 4096 ≠ 0 ∨ (∃ p ∈ freed, o = (p : Nat)) ∨ o = 0 ∨ freed.length = 512) :
    ∃ e, PF.freePage o s = (.err e, s) := by
  have hv := (allocRun_inv hr).valid
  have h3 := hv.ringOK.count_eq
  have htm : ∀ x : Int, x.tmod 4096 ≠ 0 ↔ x % 4096 ≠ 0 := by
    intro x
    apply not_congr
    constructor
    · intro h; exact Int.emod_eq_zero_of_dvd (Int.dvd_of_tmod_eq_zero h)
    · intro h; exact Int.tmod_eq_zero_of_dvd (Int.dvd_of_emod_eq_zero h)
  have hp : (pageSize : Int) = 4096 := rfl
  unfold PF.freePage
  rw [hp]
  by_cases h1 : o.tmod 4096 ≠ 0
  · rw [if_pos h1]; exact ⟨_, rfl⟩
  rw [if_neg h1]
  by_cases h2 : s.count = ringSize
  · rw [if_pos h2]; exact ⟨_, rfl⟩
  rw [if_neg h2]
  have hlt : s.count < ringSize := by have := hv.ringOK.len_le; omega
  rw [if_pos]
  · exact ⟨_, rfl⟩
  rcases hbad with h | ⟨p, hp, rfl⟩ | rfl | h
  · exact absurd ((htm o).2 h) h1
  · have := hv.freeOK p hp
    rw [hv.ringOK.mem_iff p (by unfold pageSize at *; omega)]; exact hp
  · exact hv.ringOK.zero_mem hlt
  · unfold ringSize at h2; omega

/-- C23: conversely, freeing an allocated page when fewer than 512 pages are free either works or panics
(C24); it is never rejected. -/
theorem C23_good_frees {s : PF} {owned freed : List Nat} {n : Nat} (hr : AllocRun s owned freed n) {o : Nat}
    (ho : o ∈ owned) (hl : freed.length < 512) (e : Err) : (PF.freePage o s).1 ≠ .err e := by
  have hi := allocRun_inv hr
  rcases freePage_inv hi ho with ⟨h, _⟩ | ⟨_, _, h, _⟩ | ⟨_, _, h⟩
  · have := hi.valid.ringOK.count_eq; unfold ringSize at h; omega
  · rw [h]; simp
  · rw [h]; simp

/-- C24: `NewPage` never panics, in any history. -/
theorem C24_new_page_no_panic {s : PF} {owned freed : List Nat} {n : Nat} (hr : AllocRun s owned freed n)
    (buf : Option Bytes) : (PF.newPage buf s).1 ≠ .panic := by
  rcases h : PF.newPage buf s with ⟨r, s'⟩
  cases r with
  | ok a => simp
  | err e => simp
  | panic => exact absurd rfl (newPage_err_inv (allocRun_inv hr) h (by simp)).1

/-- C24 (partial): `FreePage` of any offset inside of the file does not panic as long as at most 511 pages
were freed since the file was opened, those free at opening included.  Missing: longer histories, where it
can panic, see `C24_free_page_violated`. -/
theorem C24_free_page_no_panic_partial {s : PF} {owned freed : List Nat} {n : Nat} (hr : AllocRun s owned freed n)
    (hn : n < 512) {o : Nat} (ho : o < s.file.bytes.length) : (PF.freePage o s).1 ≠ .panic := by
  have hi := allocRun_inv hr
  rcases freePage_cases hi.valid hi.budget ho with ⟨_, e⟩ | ⟨_, _, e⟩ | ⟨_, _, _, e⟩ | ⟨h1, h2, h3, h4, e⟩ |
    ⟨_, _, _, _, s1, e, _⟩
  · rw [e]; simp
  · rw [e]; simp
  · rw [e]; simp
  · have := hi.frees
    obtain ⟨s1, h, _⟩ := freePage_ok hi.valid hi.budget o h1 (by unfold pageSize at *; omega) ho h4
      (by unfold ringSize; omega)
    rw [h] at e; simp at e
  · rw [e]; simp

/-- `k` allocations -/
private theorem grow (k : Nat) (hk : k ≤ 512) :
    ∃ s owned, AllocRun s owned [] 0 ∧ owned.length = k ∧ s.tail = 0 ∧
      s.file.bytes.length = (k + 1) * pageSize := by
  induction k with
  | zero =>
    obtain ⟨s, h1, _, h3, _, _, _, h7⟩ := openFile_empty' ⟨.buffer, [], 0, none⟩ rfl rfl
    exact ⟨s, [], .opened rfl rfl h1, rfl, h7, by rw [h3]; simp⟩
  | succ k ih =>
    obtain ⟨s, owned, hr, hl, ht, hb⟩ := ih (by omega)
    obtain ⟨off, s', h⟩ := C20_new_page_succeeds none hr (by simp) (by rw [hb]; unfold pageSize; omega)
    obtain ⟨o, rfl, hi, _, _, _, _, _, hc⟩ := newPage_inv (allocRun_inv hr) h
    have hr' := AllocRun.new hr h
    refine ⟨s', _, hr', by simp [hl], ?_, ?_⟩
    · have := (allocRun_inv hr').frees; omega
    · rcases hc with ⟨fs, hc, _⟩ | ⟨_, _, hc, _⟩
      · simp at hc
      · rw [hc, hb, Nat.succ_mul]; unfold pageSize; omega

/-- then `j` frees -/
private theorem shrink (j k : Nat) (hk : k ≤ 512) (hj : j ≤ k) :
    ∃ s owned freed, AllocRun s owned freed j ∧ owned.length = k - j ∧ freed.length = j ∧ s.tail = 0 := by
  induction j with
  | zero =>
    obtain ⟨s, owned, hr, hl, ht, _⟩ := grow k hk
    exact ⟨s, owned, [], hr, by omega, rfl, ht⟩
  | succ j ih =>
    obtain ⟨s, owned, freed, hr, hl, hf, ht⟩ := ih (by omega)
    obtain ⟨o, ho⟩ := List.exists_mem_of_length_pos (l := owned) (by omega)
    rcases freePage_inv (allocRun_inv hr) ho with ⟨h, _⟩ | ⟨_, s', h, _, ht', _⟩ | ⟨h, h', _⟩
    · have := (allocRun_inv hr).valid.ringOK.count_eq; unfold ringSize at h; omega
    · exact ⟨s', _, _, .free hr ho h, by rw [List.length_erase_of_mem ho]; omega, by simp [hf], by omega⟩
    · unfold ringSize at *; omega

/-- C24 is violated: after 512 allocations, 512 frees and one more allocation, freeing that page again
panics (the in-memory ring of free pages has wrapped around and is written out by an index that does not). -/
theorem C24_free_page_violated :
    ∃ (s : PF) (owned freed : List Nat) (n o : Nat), AllocRun s owned freed n ∧ o ∈ owned ∧
      (PF.freePage o s).1 = .panic := by
  obtain ⟨s, owned, freed, hr, hl, hf, ht⟩ := shrink 512 512 (by omega) (by omega)
  have hi := allocRun_inv hr
  rcases newPage_spec hi.valid hi.budget none (by simp) with ⟨o, s', _, h, _⟩ | ⟨s', h, _⟩
  · have hr' := AllocRun.new hr h
    have hi' := allocRun_inv hr'
    obtain ⟨o', ho', _, _, _, _, _, _, hc⟩ := newPage_inv hi h
    have hoo : o' = o := by omega
    subst hoo
    rcases hc with ⟨fs, hc, _⟩ | ⟨hc, _⟩
    rotate_left
    · rw [hc] at hf; simp at hf
    have hlf : (freed.erase (Int.toNat (o' : Int))).length = 511 := by
      rw [List.length_erase_of_mem (by rw [hc]; simp)]; omega
    refine ⟨s', _, _, _, o', hr', by simp, ?_⟩
    rcases freePage_inv hi' (o := o') (by simp) with ⟨h1, _⟩ | ⟨h1, _⟩ | ⟨_, _, h1⟩
    · have := hi'.valid.ringOK.count_eq; unfold ringSize at h1; omega
    · exfalso
      have hh := newPage_inv.newPage_head h
      have c1 := hi.valid.ringOK.count_eq
      have c2 := hi'.valid.ringOK.count_eq
      have hd := hi.valid.ringOK.headLt
      unfold PF.tail at *
      rw [hh] at h1
      unfold ringSize at *
      omega
    · exact h1
  · exfalso
    have := newPage_err_inv hi h (by simp)
    rw [hc_of hf] at hi
    · obtain ⟨_, h2, _⟩ := newPage_pop hi.valid hi.budget none (by simp)
      rw [h2] at h; simp at h
where
  hc_of {freed : List Nat} (h : freed.length = 512) : freed = freed.head! :: freed.tail := by
    cases freed with
    | nil => simp at h
    | cons a b => rfl

private theorem lengths {s : PF} {owned freed : List Nat} {n : Nat} (hr : AllocRun s owned freed n) :
    s.file.bytes.length + pageSize < 2 ^ 63 → s.lastPage * pageSize = s.file.bytes.length := by
  induction hr with
  | opened he hb h =>
    intro _
    obtain ⟨s', h1, _, h3, _, _, h6⟩ := openFile_empty _ he hb
    rw [h1] at h; cases h
    rw [h6, h3]; simp
  | reopened hr hf hb h ih =>
    intro _
    obtain ⟨s', h1, _, h3, _, _, h6, _⟩ := openFile_valid' (allocRun_inv hr).valid _ hf
    rw [h1] at h; cases h
    rw [h6, h3]
  | new hr h ih =>
    intro hsz
    obtain ⟨o, rfl, _, _, _, _, _, _, hc⟩ := newPage_inv (allocRun_inv hr) h
    rcases hc with ⟨fs, _, h1, h2⟩ | ⟨_, _, h1, h2⟩
    · rw [h1, h2]; exact ih (by omega)
    · rw [h1, h2, Nat.succ_mul, ih (by omega)]
  | @newErr s s' owned freed n e buf hr h ih =>
    intro hsz
    have hi := allocRun_inv hr
    have hb := (newPage_err_inv hi h (by simp)).2.2
    by_cases hl : (buf.getD []).length ≤ pageSize
    · rcases newPage_spec hi.valid hi.budget buf hl with ⟨o, s1, _, h1, _⟩ | ⟨s1, h1, h2⟩
      · rw [h1] at h; simp at h
      · rw [hb] at hsz; omega
    · rw [newPage_too_large s buf (by omega)] at h; cases h
      exact ih hsz
  | free hr ho h ih =>
    intro hsz
    rcases freePage_inv (allocRun_inv hr) ho with ⟨_, h1⟩ | ⟨_, s1, h1, _, _, hl, hp, _⟩ | ⟨_, _, h1⟩
    · rw [h1] at h; simp at h
    · rw [h1] at h; cases h
      rw [hl, hp]; exact ih (by omega)
    · rw [h] at h1; simp at h1
  | freeErr hr h ih =>
    have := freePage_err (allocRun_inv hr).valid (allocRun_inv hr).budget h
    rw [this]; exact ih

/-- C25 (partial): after every history of opening, `NewPage` and `FreePage` the page count is the file size
divided by the page size (unless the file is at its maximum size of 2^63 - 1 bytes).  Missing: code that
writes pages past the end by other means, see C25 in Props/LinkedPage. -/
theorem C25_page_count_partial {s : PF} {owned freed : List Nat} {n : Nat} (hr : AllocRun s owned freed n)
    (h : s.file.bytes.length + 4096 < 2 ^ 63) :
    s.pageCount * 4096 = s.file.bytes.length ∧ s.pageCount = s.file.bytes.length / 4096 := by
  have := lengths hr h
  unfold PF.pageCount
  unfold pageSize at this
  omega

/-- Non-vacuity: histories with allocated and free pages exist (here 5 allocations, 2 frees). -/
example : ∃ s owned freed, AllocRun s owned freed 2 ∧ owned.length = 3 ∧ freed.length = 2 ∧
    (∃ o ∈ owned, (PF.freePage (o : Nat) s).1 = .ok ()) ∧ ∃ off s', PF.newPage none s = (.ok off, s') := by
  obtain ⟨s, owned, freed, hr, h1, h2, h3⟩ := shrink 2 5 (by omega) (by omega)
  obtain ⟨o, ho⟩ := List.exists_mem_of_length_pos (l := owned) (by omega)
  have hi := allocRun_inv hr
  refine ⟨s, owned, freed, hr, h1, h2, ⟨o, ho, ?_⟩, ?_⟩
  · rcases freePage_inv hi ho with ⟨h, _⟩ | ⟨_, s', h, _⟩ | ⟨h, _, _⟩
    · have := hi.valid.ringOK.count_eq; unfold ringSize at h; omega
    · rw [h]
    · unfold ringSize at h; omega
  · match freed, h2, hi with
    | a :: b, _, hi =>
      obtain ⟨s', h, _⟩ := newPage_pop hi.valid hi.budget none (by simp)
      exact ⟨_, _, h⟩

end Appendable
