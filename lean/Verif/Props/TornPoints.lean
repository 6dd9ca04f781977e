import Verif.Props.Torn
import Verif.Lemmas.Takes
import Verif.Lemmas.Size
/-! C94: every crash point of `FindOrCreateIndex`. -/
namespace Appendable
open Spec Tree PF

theorem Takes.still {α : Type} {a : Act PF α} {s : PF} (h : ∀ b, a (withBudget b s) = ((a s).1, withBudget b (a s).2)) : Takes 0 a s := by
  intro k
  rw [Nat.zero_add]
  exact h _

theorem Takes.fileWrite {b : Bytes} {s s' : PF} {n : Nat} (hb : s.file.budget = none) (h : PF.onFile (File.write b) s = (.ok n, s')) :
    Takes 1 (PF.onFile (File.write b)) s := by
  intro k
  obtain ⟨⟨kind, bytes, pos, bud⟩, ring, head, count, lp⟩ := s
  simp only at hb
  subst hb
  unfold PF.onFile File.write at h ⊢
  unfold withBudget
  simp only [Option.map_none, Nat.add_sub_cancel_left, Option.map_some, reduceCtorEq, if_false] at h ⊢
  rw [if_neg (by simp)]
  split
  · rename_i hc; rw [if_pos hc] at h; cases h
  · rename_i hc
    rw [if_neg hc] at h
    cases kind with
    | buffer =>
      simp only at h ⊢
      split
      · rename_i hc2; rw [if_pos hc2] at h; cases h
      · rfl
    | mmap => rfl

/-- `NewPage` without free pages takes one write. -/
theorem newPage_takes {s : PF} (h : s.Valid []) (hb : s.file.budget = none) (hroom : s.file.bytes.length + pageSize < 2 ^ 63) :
    Takes 1 (PF.newPage none) s := by
  have hal := h.aligned
  have hplen : (padPage []).length = pageSize := padPage_length (by simp)
  have hc0 : s.count = 0 := by have := h.ringOK.count_eq; simpa using this
  have hfp : freePageIndex s = (.ok (-1), s) := by
    unfold freePageIndex
    rw [if_pos hc0]
  have hfpt : Takes 0 freePageIndex s := Takes.still fun b => by
    rw [hfp]
    unfold freePageIndex
    rw [if_pos (by exact hc0)]
  let s1 : PF := { (s.upd s.file.bytes s.file.bytes.length) with lastPage := s.lastPage + 1 }
  obtain ⟨n2, p2, hw2⟩ := fileWrite_ok (s := s1) (b := padPage []) hb (by simp [s1]) (by simp [s1]; omega)
  unfold PF.newPage
  simp only [Option.getD_none]
  rw [if_neg (by simp)]
  refine Takes.bind (w := 0) (w' := 1) hfpt hfp ?_
  rw [if_neg (by simp)]
  have hoff : (do
        let n ← onFile (File.seekEnd 0)
        (fun s => (.ok (), { s with lastPage := s.lastPage + 1 }) : Act PF Unit)
        return n : Act PF Int) s = (.ok (s.file.bytes.length : Int), s1) := by rw [Act.bind_ok (seekEnd_ok' s)]; rfl
  refine Takes.bind (w := 0) (w' := 1) (Takes.still fun b => ?_) hoff ?_
  · rw [hoff, Act.bind_ok (seekEnd_ok' _)]; rfl
  · rw [tmod_nat, hal, if_neg (by simp)]
    refine Takes.bind (w := 0) (w' := 1) (Takes.blind (Blind.pure _) _) (Act.pure_run _ _) ?_
    rw [← padPage]
    refine Takes.bind (w := 1) (w' := 0) (Takes.fileWrite hb hw2) hw2 ?_
    exact Takes.bind (w := 0) (w' := 0) (Takes.blind (Blind.seek _) _) (seekStart_ok' (by simp only [upd_bytes]; exact writeAt_len_ge _ _ _)) (Takes.blind (Blind.pure _) _)

/-- A state in which everything the index file uses is as before; there may be one page more. -/
structure KeptSlots (s t : PF) : Prop where
  frame : Frame s [] t [] []
  bound : t.file.bytes.length ≤ s.file.bytes.length + pageSize

/-- The crash points of an `AddNext` that succeeds: it takes one write, or three; with fewer nothing in use changes. -/
theorem addNext_points {s : PF} {ps : List Nat} {c : Nat} {ds : List Bytes} (h : SlotsIn s [] ps c ds) {m : LP}
    (ho : m.offset = UInt64.ofNat (lastPg ps)) (hi : m.index + 1 = UInt8.ofNat c) {x : LP} {s' : PF} (hok : m.addNext s = (.ok x, s')) :
    ∃ w, w = (if c < 15 then 1 else 3) ∧ Takes w m.addNext s ∧ ∀ n, n < w → (m.addNext (withBudget (some n) s)).2.file.budget = some 0 ∧
      ∃ t, KeptSlots s t ∧ (m.addNext (withBudget (some n) s)).2.file.bytes = t.file.bytes := by
  have hne := h.inv.ne
  have hlm := lastPg_mem hne
  have hcle := h.inv.cle
  have hlv := h.live _ hlm
  have hon : OnPage s.file.bytes m (lastPg ps) := by
    obtain ⟨o, i⟩ := m
    simp only at ho; subst ho
    exact h.inv.pages.onPage hlm i
  have hin := hon.inside
  have hsm := hon.small
  have hhd := h.inv.chain.last
  have hlt : ¬ m.index + 1 < UInt8.ofNat c := by rw [hi, UInt8.lt_iff_toNat_lt]; omega
  have hkeep : KeptSlots s s := ⟨Frame.refl h.valid h.budget [], by omega⟩
  have hstop := (Writes.addNext m).stop (withBudget (some 0) s) rfl
  by_cases hc : c < 15
  · have hc15 : UInt8.ofNat c ≠ UInt8.ofNat numSlots := by
      intro hcc
      have := congrArg UInt8.toNat hcc
      rw [u8_small (by omega), u8_small (by unfold numSlots; omega)] at this
      unfold numSlots at this; omega
    refine ⟨1, (if_pos hc).symm, ?_, fun n hn => ?_⟩
    · unfold LP.addNext at hok ⊢
      rw [Act.bind_ok (lp_count_ok hon hhd), if_neg hlt, if_pos hc15] at hok
      refine Takes.bind (w := 0) (w' := 1) (Takes.blind (Blind.count m) s) (lp_count_ok hon hhd) ?_
      rw [if_neg hlt, if_pos hc15]
      obtain ⟨y, s1, e1, e2⟩ := Act.bind_okE hok
      obtain ⟨z, s2, e3, e4⟩ := Act.bind_okE e2
      have hb1 : s1.file.budget = none := by
        have := (Calm.seekStart (int64OfU64 (m.offset + 8).toNat)).keep (s.upd s.file.bytes (lastPg ps + 9)).file
        have h3 := congrArg (fun x => x.2.file.budget) e1
        simp only at h3
        rw [← h3]
        exact this.2.trans h.budget
      exact Takes.bind (w := 0) (w' := 1) (Takes.blind (Blind.seek _) _) e1
        (Takes.bind (w := 1) (w' := 0) (Takes.write hb1 e3) e3 (Takes.blind (Blind.pure _) _))
    · obtain rfl : n = 0 := by omega
      exact ⟨hstop.2, s, hkeep, hstop.1⟩
  · have hc15 : c = 15 := by omega
    subst hc15
    obtain ⟨rest, hrest⟩ : ∃ rest : LP → Act PF LP, rest = fun next => (do
        next.reset 1
        let _ ← LP.seekU64 m.offset
        let _ ← PF.write (leBytes 8 next.offset.toNat)
        return next) := ⟨_, rfl⟩
    obtain ⟨s0, hs0⟩ : ∃ s0, s0 = s.upd s.file.bytes (lastPg ps + 8) := ⟨_, rfl⟩
    have hrun : ∀ b, m.addNext (withBudget b s) = (do
        let offset ← PF.newPage none
        rest ⟨UInt64.ofNat (u64OfInt offset), 0⟩) (withBudget b s0) := by
      intro b
      unfold LP.addNext
      rw [Act.bind_ok (show m.count (withBudget b s) = _ from lp_count_ok (s := withBudget b s) hon hhd), if_neg hlt, if_neg (by decide),
        Act.bind_ok (lp_nextPageOffset_ok (s := (withBudget b s).upd (withBudget b s).file.bytes (lastPg ps + 9)) hon hhd), if_neg (by simp), hrest, hs0]
      rfl
    have hbud0 : s0.file.budget = none := by rw [hs0]; exact h.budget
    have hrun0 := hrun none
    rw [show withBudget none s = s by unfold withBudget; rw [← h.budget], show withBudget none s0 = s0 by unfold withBudget; rw [← hbud0], hok] at hrun0
    have hv0 : s0.Valid [] := by rw [hs0]; exact (Frame.upd_pos h.valid h.budget (lastPg ps + 8) []).valid
    have hl0 : s0.file.bytes = s.file.bytes := by rw [hs0]; rfl
    by_cases hroom : s0.file.bytes.length + pageSize < 2 ^ 63
    rotate_left
    · obtain ⟨s1, n1, _⟩ := newPage_full hv0 hbud0 none (by simp) (by omega)
      rw [Act.bind_err n1] at hrun0; cases hrun0
    · obtain ⟨s1, n1, n2, n3, n4, _⟩ := newPage_append hv0 hbud0 none (by simp) hroom
      have t1 := newPage_takes hv0 hbud0 hroom
      rw [Act.bind_ok n1] at hrun0
      obtain ⟨o, hoe⟩ : ∃ o, o = s0.file.bytes.length := ⟨_, rfl⟩
      rw [← hoe] at n1 hrun0
      obtain ⟨nx, hnx⟩ : ∃ nx : LP, nx = ⟨UInt64.ofNat (u64OfInt (o : Int)), 0⟩ := ⟨_, rfl⟩
      rw [← hnx] at hrun0
      rw [hrest] at hrun0
      obtain ⟨_, s2, e1, e2⟩ := Act.bind_okE hrun0.symm
      have t2 : Takes 1 (nx.reset 1) s1 := Takes.seekWrite n4 e1
      have hb2 : s2.file.budget = none := by
        have := ((Writes.reset nx 1).run s1 n4 (by rw [e1]; simp)).1
        rw [e1] at this; exact this
      have t3 : Takes 1 (do
          let _ ← LP.seekU64 m.offset
          let _ ← PF.write (leBytes 8 nx.offset.toNat)
          return nx : Act PF LP) s2 := by
        obtain ⟨_, s3, e3, e4⟩ := Act.bind_okE e2
        obtain ⟨_, s4, e5, e6⟩ := Act.bind_okE e4
        have hb3 : s3.file.budget = none := by
          have := (Calm.seekStart (int64OfU64 m.offset.toNat)).keep s2.file
          have h3 := congrArg (fun x => x.2.file.budget) e3
          simp only at h3
          rw [← h3]
          exact this.2.trans hb2
        exact Takes.bind (w := 0) (w' := 1) (Takes.blind (Blind.seek _) _) e3
          (Takes.bind (w := 1) (w' := 0) (Takes.write hb3 e5) e5 (Takes.blind (Blind.pure _) _))
      have hWr : ∀ nx, Writes (rest nx) := by
        intro nx
        rw [hrest]
        have := Writes.reset nx 1
        have := Writes.pfWrite
        unfold LP.seekU64
        writes
      have h1 : ∀ k, m.addNext (withBudget (some (1 + k)) s) = rest nx (withBudget (some k) s1) := by
        intro k
        have := t1 k
        rw [n1] at this
        rw [hrun, Act.bind_ok this, hnx]
      have hpl : (padPage []).length = pageSize := padPage_length (by simp)
      rw [hl0, Option.getD_none] at n3
      rw [hl0] at hoe hroom
      have hl1 : s1.file.bytes.length = s.file.bytes.length + pageSize := by rw [n3, List.length_append, hpl]
      have hal := h.valid.aligned
      have hps : 0 < pageSize := by decide
      have hlen1 := h.valid.nonempty
      have hk1 : KeptSlots s s1 := by
        refine ⟨⟨n2, n4, fun p hp => ⟨hp.1, hp.2.1, by have := hp.2.2.1; omega, hp.2.2.2⟩, fun p hp _ => ?_, by omega⟩, by omega⟩
        have hpi := hp.inside h.valid
        rw [n3]
        unfold pageAt
        exact slice_append_left hpi
      have hk2 : KeptSlots s s2 := by
        have hou : (UInt64.ofNat o).toNat = o := UInt64.toNat_ofNat_of_lt' (by show o < 2 ^ 64; omega)
        have hu64 : UInt64.ofNat (u64OfInt (o : Int)) = UInt64.ofNat o := by
          have := ofNat_u64OfInt (UInt64.ofNat o); rw [hou] at this; exact this
        have n5 : Live s1 [] o := ⟨by rw [hoe]; exact hal, by rw [hoe]; omega, by omega, by simp⟩
        obtain ⟨a2, p2, w2⟩ := write_ok (s := s1.upd s1.file.bytes o) (b := LP.emptyPage 1) n4
          (by simp only [upd_pos, upd_bytes]; omega) (by simp only [upd_pos]; rw [emptyPage_length]; omega)
          (by simp only [upd_pos]; rw [emptyPage_length, n5.1]; omega)
        have f2 := Frame.write n2 n4 n5 (r := 0) (b := LP.emptyPage 1) (by rw [emptyPage_length]; omega) p2
        rw [Nat.add_zero] at f2
        have hreset : nx.reset 1 s1 = (.ok (), s1.upd (writeAt s1.file.bytes o (LP.emptyPage 1)) p2) := by
          unfold LP.reset
          rw [hnx, hu64, Act.bind_ok (seekU64_ok hou (by omega) (by omega)), Act.bind_ok w2]; rfl
        rw [hreset] at e1
        obtain ⟨-, rfl⟩ := Prod.mk.injEq .. ▸ e1
        refine ⟨hk1.frame.trans f2.1 (fun q hq => .inr fun hc => ?_), ?_⟩
        · simp only [List.mem_singleton] at hq
          have := hc.2.2.1; omega
        · have := f2.2
          simp only [upd_bytes] at this ⊢
          omega
      refine ⟨3, (if_neg hc).symm, ?_, fun n hn => ?_⟩
      · intro k
        rw [hok, show 3 + k = 1 + (2 + k) by omega, h1, hrest]
        simp only
        have := t2 (1 + k)
        rw [e1] at this
        rw [show 2 + k = 1 + (1 + k) by omega, Act.bind_ok this, t3 k, e2]
      · obtain rfl | rfl | rfl : n = 0 ∨ n = 1 ∨ n = 2 := by omega
        · exact ⟨hstop.2, s, hkeep, hstop.1⟩
        · rw [h1 0]
          have := (hWr nx).stop (withBudget (some 0) s1) rfl
          exact ⟨this.2, s1, hk1, this.1⟩
        · rw [h1 1, hrest]
          have := t2 0
          rw [e1] at this
          simp only
          rw [Act.bind_ok this]
          have hst := (show Writes (do
            let _ ← LP.seekU64 m.offset
            let _ ← PF.write (leBytes 8 nx.offset.toNat)
            return nx : Act PF LP) by have := Writes.pfWrite; unfold LP.seekU64; writes).stop (withBudget (some 0) s2) rfl
          exact ⟨hst.2, s2, hk2, hst.1⟩

section
variable {data : Bytes} {parse : Bytes → Bytes} {wd : UInt16 → UInt16} {i : IndexFile} {s t : PF} {fm : FileMeta}
  {is : List (LP × IndexMeta)} {c : Nat → List Entry}

/-- Such a state is one of an index file in order. -/
theorem IndexSt.kept {w : IndexMeta → UInt16} (h : IndexIs data parse w s fm is c) (hk : KeptSlots s t) : IndexSt False data parse w t fm is c := by
  obtain ⟨⟨free, ps, cnt, E, P, h1, h2⟩, h3⟩ := h
  obtain ⟨rfl, hu⟩ := h1.used trivial
  have hf := hk.frame
  have hsame : ∀ p, Live s [] p → ∀ j, j < pageSize → t.file.bytes[p + j]? = s.file.bytes[p + j]? := by
    intro p hp j hj
    have := congrArg (fun x => x[j]?) (hf.same p hp (by simp))
    simpa [pageAt, slice_getElem?, hj] using this
  refine ⟨⟨[], ps, cnt, E, P, ⟨⟨hf.valid, hf.budget, fun p hp => hf.live p (h1.slots.live p hp),
    h1.slots.inv.frame hf.len hf.valid.small fun p hp j hj _ => hsame p (h1.slots.live p hp) j hj⟩, ?_, h1.out, fun hc => hc.elim⟩, h2⟩, h3⟩
  refine h1.forest.frame hf.valid hf.budget hf.live hf.len ?_ ?_
  · intro i u hu p hp
    exact hf.same p (((h1.forest.tree i u hu).1).live p hp) (by simp)
  · intro i u hu
    obtain ⟨y, m', hy, hm', rfl⟩ := idxTrees_getElem? hu
    obtain ⟨y1, y2, _⟩ := places_mem (p := y.1) (i := y.2) (List.mem_of_mem_tail (List.mem_of_getElem? hy)) h1.slots.inv.cle
    refine slice_ext fun j hj => ?_
    have := hsame y.1 (h1.slots.live _ y1) (9 + y.2 * 265 + j) (by unfold pageSize; omega)
    simp only
    rw [show slotPos y.1 y.2 + j = y.1 + (9 + y.2 * 265 + j) by unfold slotPos; omega]
    exact this

/-- The crash points of an `AddNext` at the end of the list of indexes. -/
theorem IndexSt.addPoints {w : IndexMeta → UInt16} (h : IndexIs data parse w s fm is c) {l : LP} (hl : (fileSlot :: is.map (·.1)).getLast? = some l)
    {x : LP} {s1 : PF} (hok : l.addNext s = (.ok x, s1)) :
    ∃ w, w = (if (is.length + 1) % 15 = 0 then 3 else 1) ∧ Takes w l.addNext s ∧ ∀ n, n < w → (l.addNext (withBudget (some n) s)).2.file.budget = some 0 ∧
      ∃ t, KeptSlots s t ∧ (l.addNext (withBudget (some n) s)).2.file.bytes = t.file.bytes := by
  obtain ⟨⟨free, ps, cnt, E, P, h1, h2⟩, h3, _⟩ := h
  obtain ⟨rfl, _⟩ := h1.used trivial
  obtain ⟨tl, htl, _, hc1⟩ := h1.first
  have hlast : (headAt pageSize :: (places ps cnt).map slotAt).getLast? = some l := by
    rw [← h2] at hl
    rw [htl] at hl ⊢
    simp only [List.tail_cons] at hl
    rw [List.map_cons, List.getLast?_cons_cons]
    exact hl
  obtain ⟨g1, g2⟩ := last_handle h1.slots hlast
  obtain ⟨w, hw, h4⟩ := addNext_points h1.slots g1 g2 hok
  refine ⟨w, hw.trans ?_, h4⟩
  have hlen := h1.len
  rw [places_length h1.slots.inv.ne, List.length_map] at hlen
  have := h1.slots.inv.cle
  by_cases hc : cnt < 15
  · rw [if_pos hc, if_neg (by omega)]
  · rw [if_neg hc, if_pos (by omega)]

theorem stop_bind {α β : Type} {a : Act PF α} {f : α → Act PF β} {s : PF} (hf : ∀ x, Writes (f x)) (h : (a s).2.file.budget = some 0) :
    ((a >>= f) s).2.file.bytes = (a s).2.file.bytes := by
  simp only [Act.bind_def]
  generalize a s = r at h
  obtain ⟨r, s1⟩ := r
  cases r with
  | ok x => exact ((hf x).stop s1 h).1
  | err e => rfl
  | panic => rfl

theorem setMetadata_takes {m : LP} {d : Bytes} {s s' : PF} (hb : s.file.budget = none) (h : m.setMetadata d s = (.ok (), s')) :
    Takes 1 (m.setMetadata d) s := by
  unfold LP.setMetadata at h ⊢
  split at h
  · cases h
  · rename_i h1
    rw [if_neg h1]
    split at h
    · cases h
    · rename_i h2
      rw [if_neg h2]
      exact Takes.seekWrite hb h

/-- C94, for fields, at every crash point of a `FindOrCreateIndex` that creates an index.  Exactly one is harmful, after `k`
writes, when the new slot is there but has no metadata: `k` is one, or three when a new meta page is needed (the slot of the file
and those of the indexes fill whole pages).  After fewer
writes the file opens, shows what it showed before the call, and the same call made again succeeds and adds the index; after
more the index that is opened is that of the history in which the call returned. -/
theorem C94_field_partial (hw : SmallWidths wd) (hr : IndexRun parse wd data i s fm is c) (hv : fm.version = 1) {name : Bytes}
    (hn : name.length ≤ 236) {ty : UInt8} (hno : ∀ x ∈ is, ¬ (x.2.fieldName = name ∧ x.2.fieldType = ty)) {p : LP} {m : IndexMeta} {s' : PF}
    (hok : i.findOrCreate name ty s = (.ok (p, m), s')) (hsz : s.file.bytes.length + 2 * pageSize < 2 ^ 63) :
    ∃ k, k = (if (is.length + 1) % 15 = 0 then 3 else 1) ∧ ∀ n file hs, file.bytes = (i.findOrCreate name ty (crashAfter n s)).2.file.bytes → file.budget = none →
      ∃ i1 s1 file', IndexFile.openIndex fm.format hs file = (.ok (i1, s1), file') ∧ s1.file.bytes = file.bytes ∧
        (n < k → Shows data parse wd i1 s1 fm is c ∧ ∃ p1 s2, i1.findOrCreate name ty s1 = (.ok (p1, m), s2) ∧
          Shows data parse wd i1 s2 fm (is ++ [(p1, m)]) c) ∧
        (n = k → NoNewFields file.bytes is i1) ∧
        (k < n → (i.findOrCreate name ty (crashAfter n s)).1 = .ok (p, m) ∧ IndexRun parse wd data i1 s1 fm (is ++ [(p, m)]) c) := by
  obtain ⟨h1, hi⟩ := indexRun_is hw hr
  have hbud := h1.budget
  have hm : m = ⟨name, ty, determineTypeByte ty, 0⟩ ∧ IndexIs data parse (fun m => wd m.width) s' fm (is ++ [(p, m)]) c := by
    rcases h1.findOrCreate hi hn ty (hw ty) with ⟨k, p1, m1, q, e1, e2, e3, e4⟩ | ⟨p1, s1, e1, e2, e3, _⟩ | ⟨s1, _, e2, e3⟩
    · exact absurd ⟨e2, e3⟩ (hno _ (List.mem_of_getElem? e1))
    · rw [hok] at e2; cases e2; exact ⟨rfl, e3⟩
    · rw [hok] at e2; cases e2
  obtain ⟨hm, hi'⟩ := hm
  obtain ⟨l, q, e1, e2⟩ := h1.createPath hi hno
  obtain ⟨su, hsu⟩ : ∃ su, su = s.upd s.file.bytes q := ⟨_, rfl⟩
  rw [← hsu] at e2
  have hu : IndexIs data parse (fun m => wd m.width) su fm is c := hsu ▸ h1.upd q
  have hlu : su.file.bytes.length = s.file.bytes.length := by rw [hsu]; rfl
  have hcr := e2 none
  rw [show withBudget none s = s by unfold withBudget; rw [← hbud], show withBudget none su = su by unfold withBudget; rw [← hu.budget], hok] at hcr
  obtain ⟨rest, hrest⟩ : ∃ rest : LP → Act PF (LP × IndexMeta), rest = fun x => (do
      x.setMetadata m.bytes
      return (x, m)) := ⟨_, rfl⟩
  have hcreate : ∀ b, i.findOrCreate name ty (withBudget b s) = (l.addNext >>= rest) (withBudget b su) := by
    intro b
    rw [e2 b]
    unfold IndexFile.createIndex
    simp only [← hm, IndexMeta.marshal_eq, hrest]
    rfl
  have hWr : ∀ x, Writes (rest x) := by
    intro x; rw [hrest]
    exact Writes.bind (Writes.lpSetMetadata x _) (fun _ => Writes.pure _)
  have hfin : ((Res.ok (p, m), s') : Res (LP × IndexMeta) × PF) = (l.addNext >>= rest) su := by
    rw [hcr]
    unfold IndexFile.createIndex
    simp only [← hm, IndexMeta.marshal_eq, hrest]
    rfl
  obtain ⟨x, s1, a1, a2⟩ := Act.bind_okE hfin.symm
  obtain ⟨k, hk, tk, hlow⟩ := hu.addPoints e1 a1
  have hb1 : s1.file.budget = none := by
    have := ((Writes.addNext l).run su hu.budget (by rw [a1]; simp)).1
    rw [a1] at this; exact this
  have htorn : Torn s1 fm is := by
    rcases hu.addTorn e1 with ⟨x', s1', b1, _, b2⟩ | ⟨s1', b1, _⟩
    · rw [a1] at b1; cases b1; exact b2
    · rw [a1] at b1; cases b1
  refine ⟨k, hk, fun n file hs hfb hfu => ?_⟩
  have hcn := hcreate (some n)
  rw [show withBudget (some n) s = crashAfter n s from rfl] at hcn
  rcases Nat.lt_trichotomy n k with hlt | rfl | hgt
  · obtain ⟨g1, t, g2, g3⟩ := hlow n hlt
    have hbt : file.bytes = t.file.bytes := by rw [hfb, hcn, stop_bind hWr g1, g3]
    have hkt := hu.kept g2
    obtain ⟨s2, o1, o2, o3, _⟩ := (hkt.reopen hbt hfu fm.format hs).1 hv rfl
    refine ⟨_, _, _, o1, o3, fun _ => ⟨o2.shows rfl, ?_⟩, fun hc => by omega, fun hc => by omega⟩
    rcases o2.findOrCreate (i := ⟨fileSlot, hs⟩) rfl hn ty (hw ty) with ⟨k', p1, m1, q', f1, f2, f3, f4⟩ | ⟨p1, s3, f1, f2, f3, _⟩ | ⟨s3, _, f2, f3⟩
    · exact absurd ⟨f2, f3⟩ (hno _ (List.mem_of_getElem? f1))
    · rw [← hm] at f2 f3
      exact ⟨p1, s3, f2, f3.shows rfl⟩
    · have := g2.bound
      rw [o3, hbt] at f3
      omega
  · have ht := tk 0
    rw [Nat.add_zero, a1] at ht
    have hbt : file.bytes = s1.file.bytes := by
      rw [hfb, hcn, Act.bind_ok ht]
      exact ((hWr x).stop (withBudget (some 0) s1) rfl).1
    obtain ⟨s2, o1, o2, o3⟩ := htorn.reopen hbt hfu hv hs
    refine ⟨_, _, _, o1, o3, fun hc => by omega, fun _ => ?_, fun hc => by omega⟩
    have := o2.noNew (i := ⟨fileSlot, hs⟩) rfl
    rw [o3] at this
    exact this
  · obtain ⟨j, rfl⟩ : ∃ j, n = k + (1 + j) := ⟨n - k - 1, by omega⟩
    have ht := tk (1 + j)
    rw [a1] at ht
    rw [Act.bind_ok ht] at hcn
    rw [hrest] at a2 hcn
    obtain ⟨u, s2, b1, b2⟩ := Act.bind_okE a2
    have hts := setMetadata_takes hb1 b1 j
    simp only at hcn
    rw [b1] at hts
    rw [Act.bind_ok hts] at hcn
    obtain ⟨-, rfl⟩ := Prod.mk.injEq .. ▸ b2
    have hx : x = p := by
      have := congrArg Prod.fst b2
      simp only [Act.pure_run, Res.ok.injEq, Prod.mk.injEq] at this
      exact this.1
    subst hx
    have hbt : file.bytes = s2.file.bytes := by rw [hfb, hcn]; rfl
    obtain ⟨s3, o1, o2, o3, _⟩ := (hi'.reopen hbt hfu fm.format hs).1 hv rfl
    refine ⟨_, _, _, o1, o3, fun hc => by omega, fun hc => by omega, fun _ => ⟨by rw [hcn]; rfl, ?_⟩⟩
    have := IndexRun.reopen (.find hr hn hok) hbt hfu o1
    unfold withIndex at this
    rw [if_neg] at this
    · exact this
    · intro hc
      obtain ⟨y, hy, hy2⟩ := List.any_eq_true.1 hc
      simp only [Bool.and_eq_true, beq_iff_eq] at hy2
      exact hno y hy hy2

end

/-! ### Concrete cases: files with any number of fields -/
namespace TornPointsDemo

theorem small : SmallWidths id := by
  intro ty
  simp only [id]
  unfold determineTypeByte
  repeat' split
  all_goals decide

def name (n : Nat) : Bytes := [UInt8.ofNat n]

theorem size {i : IndexFile} {s : PF} {is : List (LP × IndexMeta)} (h1 : IndexRun id id [] i s ⟨1, .jsonl, 0, 0⟩ is (fun _ => []))
    (hn : is.length < 200) (h3 : ∀ x ∈ is, x.2.width.toNat ≤ 2012) : s.file.bytes.length + 2 * pageSize < 2 ^ 63 := by
  have h4 := (indexRun_is small h1).1.space (wd := id) h3
  have h5 : (is.mapIdx fun k x => treePages (id x.2.width) ((fun _ => [] : Nat → List (RV × MemPtr)) k).length) = List.replicate is.length 1 := by
    apply List.ext_getElem
    · simp
    · intro k _ _; simp [treePages]
  rw [h5, List.sum_replicate_nat] at h4
  have : (2 : Nat) ^ 63 = 9223372036854775808 := by decide
  unfold pageSize
  omega

/-- An index file with the fields `[0]`, `[1]`, ..., `[n - 1]`. -/
def Fields (n : Nat) (i : IndexFile) (s : PF) (is : List (LP × IndexMeta)) : Prop :=
  IndexRun id id [] i s ⟨1, .jsonl, 0, 0⟩ is (fun _ => []) ∧ is.length = n ∧
    ∀ x ∈ is, (∃ j, j < n ∧ x.2.fieldName = name j) ∧ x.2.width.toNat ≤ 2012

/-- The next field is a new one and can be added. -/
theorem Fields.next {n : Nat} {i : IndexFile} {s : PF} {is : List (LP × IndexMeta)} (h : Fields n i s is) (hn : n < 200) :
    (∀ x ∈ is, ¬ (x.2.fieldName = name n ∧ x.2.fieldType = 0)) ∧ s.file.bytes.length + 2 * pageSize < 2 ^ 63 ∧
    ∃ p s', i.findOrCreate (name n) 0 s = (.ok (p, ⟨name n, 0, 0, 0⟩), s') ∧ Fields (n + 1) i s' (is ++ [(p, ⟨name n, 0, 0, 0⟩)]) := by
  obtain ⟨h1, h2, h3⟩ := h
  have hno : ∀ x ∈ is, ¬ (x.2.fieldName = name n ∧ x.2.fieldType = 0) := by
    rintro x hx ⟨hc, _⟩
    obtain ⟨⟨j, hj, hx⟩, _⟩ := h3 x hx
    rw [hx] at hc
    unfold name at hc
    simp only [List.cons.injEq, and_true] at hc
    have := congrArg UInt8.toNat hc
    rw [u8_small (by omega), u8_small (by omega)] at this
    omega
  have hsz := size h1 (by omega) (fun x hx => (h3 x hx).2)
  refine ⟨hno, hsz, ?_⟩
  rcases C30_find_or_create_partial small h1 (name := name n) (by unfold name; simp) 0 with ⟨p, m, s', e1, e2, e3, _⟩ | ⟨p, s', _, e2, _⟩ | ⟨_, e2⟩
  · exact absurd ⟨e2, e3⟩ (hno _ e1)
  · refine ⟨p, s', e2, ?_, by simp [h2], ?_⟩
    · have := IndexRun.find h1 (by unfold name; simp) e2
      unfold withIndex at this
      rw [if_neg] at this
      · exact this
      · intro hc
        obtain ⟨y, hy, hy2⟩ := List.any_eq_true.1 hc
        simp only [Bool.and_eq_true, beq_iff_eq] at hy2
        exact hno y hy hy2
    · intro x hx
      rcases List.mem_append.1 hx with hx | hx
      · obtain ⟨⟨j, hj, h4⟩, h5⟩ := h3 x hx
        exact ⟨⟨j, by omega, h4⟩, h5⟩
      · simp only [List.mem_singleton] at hx
        subst hx
        exact ⟨⟨n, by omega, rfl⟩, by simp⟩
  · omega

theorem fields (n : Nat) (hn : n < 200) : ∃ i s is, Fields n i s is := by
  induction n with
  | zero =>
    obtain ⟨i, s, f', h1, _⟩ := C29_open_fresh [] id id ⟨.buffer, [], 0, none⟩ rfl rfl .jsonl []
    exact ⟨i, s, [], .create rfl rfl h1, rfl, by simp⟩
  | succ n ih =>
    obtain ⟨i, s, is, h⟩ := ih (by omega)
    obtain ⟨_, _, p, s', _, h'⟩ := h.next (by omega)
    exact ⟨i, s', _, h'⟩

/-- Non-vacuity of `C94_field_partial`: with fourteen fields the meta page is full, and the fifteenth takes four writes; when the
process dies after two of them the field is not there, and can be added. -/
example : ∃ i s is, Fields 14 i s is ∧ ∀ file, file.bytes = (i.findOrCreate (name 14) 0 (crashAfter 2 s)).2.file.bytes → file.budget = none →
    ∃ i1 s1 file' p1 s2, IndexFile.openIndex .jsonl [] file = (.ok (i1, s1), file') ∧ Shows [] id id i1 s1 ⟨1, .jsonl, 0, 0⟩ is (fun _ => []) ∧
      i1.findOrCreate (name 14) 0 s1 = (.ok (p1, ⟨name 14, 0, 0, 0⟩), s2) := by
  obtain ⟨i, s, is, h⟩ := fields 14 (by omega)
  obtain ⟨h1, h2, p, s', h3, _⟩ := h.next (by omega)
  refine ⟨i, s, is, h, fun file hf hb => ?_⟩
  obtain ⟨k, hk, h4⟩ := C94_field_partial small h.1 rfl (by unfold name; simp) h1 h3 h2
  rw [h.2.1, if_pos (by decide)] at hk
  obtain ⟨i1, s1, file', o1, _, o2, _⟩ := h4 2 file [] hf hb
  obtain ⟨g1, p1, s2, g2, _⟩ := o2 (by omega)
  exact ⟨i1, s1, file', p1, s2, o1, g1, g2⟩

/-- With no field there is room on the meta page: after one write the file is damaged. -/
example : ∃ i s, Fields 0 i s [] ∧ ∀ file, file.bytes = (i.findOrCreate (name 0) 0 (crashAfter 1 s)).2.file.bytes → file.budget = none →
    ∃ i1 s1 file', IndexFile.openIndex .jsonl [] file = (.ok (i1, s1), file') ∧ NoNewFields file.bytes [] i1 := by
  obtain ⟨i, s, is, h⟩ := fields 0 (by omega)
  obtain rfl : is = [] := List.length_eq_zero_iff.1 h.2.1
  obtain ⟨h1, h2, p, s', h3, _⟩ := h.next (by omega)
  refine ⟨i, s, h, fun file hf hb => ?_⟩
  obtain ⟨k, hk, h4⟩ := C94_field_partial small h.1 rfl (by unfold name; simp) h1 h3 h2
  simp only [List.length_nil] at hk
  rw [if_neg (by decide)] at hk
  obtain ⟨i1, s1, file', o1, _, _, o2, _⟩ := h4 1 file [] hf hb
  exact ⟨i1, s1, file', o1, o2 hk.symm⟩

end TornPointsDemo
end Appendable
