import Verif.Props.Crash
import Verif.Lemmas.Writes
/-! Property C38 when `Insert` splits a leaf: there is always a crash point that loses entries. -/
namespace Appendable
open Spec Tree

/-- Replacing the leaf that a search ends in. -/
theorem PathTo.replace {cfg : Cfg} {s : PF} {free : List Nat} {key : RV} {h : Nat} {off : UInt64} {path : List TRec} {lo hi es ps}
    (hp : PathTo cfg s.file.bytes key h off path) (hr : Rep cfg s.file.bytes h off lo hi es ps) (hlo : GeB lo key) (hhi : LtB key hi)
    (hnd : ps.Nodup) (hlive : ∀ p ∈ ps, Live s free p) :
    ∃ tr rest0 lo' hi' esL esM esR, path = tr :: rest0 ∧ es = esL ++ (esM ++ esR) ∧ tr.ptr.offset.toNat ∈ ps ∧
      NodeAt cfg s.file.bytes tr.ptr.offset tr.node ∧ MemRep cfg (fun _ _ _ _ _ => False) true tr.node lo' hi' esM [] ∧
      GeB lo' key ∧ LtB key hi' ∧ ∀ s' free' es2, Frame s free s' free' [tr.ptr.offset.toNat] →
        Rep cfg s'.file.bytes 0 tr.ptr.offset lo' hi' es2 [tr.ptr.offset.toNat] →
        Rep cfg s'.file.bytes h off lo hi (esL ++ (es2 ++ esR)) ps := by
  induction hp generalizing lo hi es ps with
  | @leaf off n l hn hl hso =>
    obtain ⟨n', qs, hn', rfl, hm⟩ := hr
    cases hn.unique hn'
    have hq := (hm.1 rfl).2.2.1
    subst hq
    refine ⟨_, [], lo, hi, [], es, [], rfl, by simp, by simp, hn, hm, hlo, hhi, ?_⟩
    intro s' free' es2 _ h2
    simpa using h2
  | @step h off n l p path hn hl hidx tp ih =>
    obtain ⟨n', qs, hn', rfl, hm⟩ := rep_iff.1 hr
    cases hn.unique hn'
    have hm' : MemRep cfg (Rep cfg s.file.bytes h) false n lo hi es qs := hm
    obtain ⟨hs, hkids⟩ := hm'.2.1 rfl
    have hoffL := hlive off.toNat (by simp)
    have hndc := List.nodup_cons.1 hnd
    obtain ⟨ks1, ks2, ptrs1, q, ptrs2, lo', hi', es1, es2, es3, ps1, ps2, ps3, a1, a2, a3, a4, a5, a6, a7, a8,
        a9, a10, a11, a12, a13⟩ := hkids.locate (goodR_rep cfg s.file.bytes h) key hlo hhi
    have hpq : p = q := by
      rw [a2, ← a5, ← a6] at hidx
      simp at hidx
      exact hidx.symm
    subst hpq
    subst a4
    have hnd2 := hndc.2
    rw [List.nodup_append] at hnd2
    obtain ⟨nd1, nd23, nd1x⟩ := hnd2
    rw [List.nodup_append] at nd23
    obtain ⟨nd2, nd3, nd23x⟩ := nd23
    obtain ⟨tr, rest0, lo2, hi2, esL, esM, esR, r1, r2, r3, r4, r5, r6, r7, r8⟩ := ih a8 a10 a11 nd2 (fun x hx => hlive x (by simp [hx]))
    subst r1
    have hL1 : ∀ x ∈ ps1, Live s free x := fun x hx => hlive x (by simp [hx])
    have hL3 : ∀ x ∈ ps3, Live s free x := fun x hx => hlive x (by simp [hx])
    have hd1 : ∀ x ∈ ps1, x ∉ [tr.ptr.offset.toNat] := by
      intro x hx hc
      rw [List.mem_singleton] at hc; subst hc
      exact nd1x _ hx _ (by simp [r3]) rfl
    have hd3 : ∀ x ∈ ps3, x ∉ [tr.ptr.offset.toNat] := by
      intro x hx hc
      rw [List.mem_singleton] at hc; subst hc
      exact nd23x _ r3 _ hx rfl
    have ho2 : off.toNat ∉ [tr.ptr.offset.toNat] := by
      intro hc
      rw [List.mem_singleton] at hc
      exact hndc.1 (by rw [hc]; simp [r3])
    refine ⟨tr, rest0 ++ [⟨n, (childIdx n.keys key : Nat), ⟨off, l⟩⟩], lo2, hi2, es1 ++ esL, esM, esR ++ es3, by simp, ?_, by simp [r3], r4, r5, r6, r7, ?_⟩
    · rw [a3, r2]; simp
    · intro s' free' es2' frame h2
      have rep := r8 s' free' es2' frame h2
      have hkids' : Kids (Rep cfg s'.file.bytes h) lo n.keys n.intPtrs hi (es1 ++ ((esL ++ (es2' ++ esR)) ++ es3)) (ps1 ++ (ps2 ++ ps3)) := by
        rw [a1, a2]
        refine Seg.kids (a7.mono (fun _ _ _ _ _ hsx hrx => ?_)) (TailK.kids rep (a9.mono (fun _ _ _ _ _ hsx hrx => ?_)))
        · exact hrx.framed frame (fun x hx => hL1 x (hsx x hx)) (fun x hx => hd1 x (hsx x hx))
        · exact hrx.framed frame (fun x hx => hL3 x (hsx x hx)) (fun x hx => hd3 x (hsx x hx))
      have heq : (es1 ++ esL) ++ (es2' ++ (esR ++ es3)) = es1 ++ ((esL ++ (es2' ++ esR)) ++ es3) := by simp
      rw [heq]
      exact ⟨n, _, hn.frame frame.len (frame.same _ hoffL ho2), rfl, ⟨by simp, fun _ => ⟨hs, hkids'⟩, hm'.2.2⟩⟩

/-- An operation that does not touch the allocator. -/
def KeepsAt {α : Type} (m : Act PF α) : Prop := ∀ s, (m s).2.lastPage = s.lastPage ∧ (m s).2.count = s.count
theorem KeepsAt.pure {α : Type} (a : α) : KeepsAt (Pure.pure a : Act PF α) := fun _ => ⟨rfl, rfl⟩
theorem KeepsAt.crash {α : Type} : KeepsAt (Act.crash : Act PF α) := fun _ => ⟨rfl, rfl⟩
theorem KeepsAt.lift {α : Type} (r : Res α) : KeepsAt (Act.lift r : Act PF α) := fun _ => ⟨rfl, rfl⟩
theorem KeepsAt.onFile {α : Type} (m : Act File α) : KeepsAt (PF.onFile m) := fun _ => ⟨rfl, rfl⟩
theorem KeepsAt.bind {α β : Type} {m : Act PF α} {f : α → Act PF β} (h : KeepsAt m) (hf : ∀ a, KeepsAt (f a)) : KeepsAt (m >>= f) := by
  intro s
  rw [Act.bind_def]
  have h1 := h s
  generalize hr : m s = r at *
  obtain ⟨r, s1⟩ := r
  cases r with
  | ok a =>
    have := hf a s1
    exact ⟨this.1.trans h1.1, this.2.trans h1.2⟩
  | err e => exact h1
  | panic => exact h1
theorem KeepsAt.write (b : Bytes) : KeepsAt (PF.write b) := by
  unfold PF.write
  refine KeepsAt.bind (KeepsAt.onFile _) (fun n => ?_)
  split
  · exact KeepsAt.crash
  · exact KeepsAt.onFile _
theorem KeepsAt.writeNode (t : Tree) (o : UInt64) (n : Node) : KeepsAt (t.writeNode o n) := by
  unfold Tree.writeNode
  exact KeepsAt.bind (KeepsAt.onFile _) (fun _ => KeepsAt.bind (KeepsAt.lift _) (fun _ => KeepsAt.bind (KeepsAt.write _) (fun _ => KeepsAt.pure _)))

/-- `Find` in a stored tree: an entry of the tree, or nothing. -/
theorem find_rep {t : Tree} {s : PF} {h : Nat} {es : List Entry} {ps : List Nat} (hin : t.rootPos + 12 ≤ s.file.bytes.length)
    (hsl : t.rootPos % pageSize + 12 ≤ pageSize) (h0 : (MemPtr.decode (slice s.file.bytes t.rootPos 12)).length ≠ 0)
    (hr : Rep t.cfg s.file.bytes h (MemPtr.decode (slice s.file.bytes t.rootPos 12)).offset none none es ps) (hnd : ps.Nodup) (key : RV) :
    ∃ r q, t.find key s = (.ok r, q) ∧ (r ∈ es ∨ r = (minKey, ⟨0, 0⟩)) := by
  obtain ⟨n, hn⟩ := hr.node
  obtain ⟨p0, hroot⟩ := root_some (t := t) hin hsl h0 hn
  generalize hmp : MemPtr.decode (slice s.file.bytes t.rootPos 12) = mp at *
  have hfuel : h < fuel s := by
    have := hr.height_lt
    have := pages_count hnd hr.pages
    unfold fuel; omega
  obtain ⟨off, l⟩ := mp
  obtain ⟨path, p1, htr, hpath⟩ := traverse_ok (t := t) (key := key) (s := s.upd s.file.bytes p0) (l := l)
    hr hn hfuel (fun l hl => by cases hl) (fun l hl => by cases hl)
  simp only [upd_bytes, upd_upd] at htr hpath
  have hrun : (iter key).init t s = (.ok (true, ⟨key, some path, none⟩), s.upd s.file.bytes p1) := by
    unfold Iter.init
    rw [hroot]
    simp only [iter]
    rw [show fuel (s.upd s.file.bytes p0) = fuel s from rfl, htr]
  obtain ⟨on, c1, _⟩ := hpath.cur hr (fun l hl => by cases hl) (fun l hl => by cases hl)
  have hat : IterAt t s ⟨key, some path, none⟩ es (rank es key) on := ⟨rfl, h, off, path, rfl, c1⟩
  have hnext : (iter key).next t s = (.ok (on, ⟨key, some path, none⟩), s.upd s.file.bytes p1) := by
    obtain ⟨r, rest, g1, g2⟩ := c1.head
    unfold Iter.next
    simp only [iter] at *
    rw [Act.bind_ok hrun]
    simp only [if_true, g1]
    rw [g2]; rfl
  unfold Tree.find
  rw [Act.bind_ok hnext]
  cases on with
  | false => exact ⟨_, _, rfl, .inr rfl⟩
  | true =>
    have hlt := hat.le.2 rfl
    have hc := hat.cur (k := es[rank es key].1) (v := es[rank es key].2) (List.getElem?_eq_getElem hlt)
    simp only [Bool.not_true, Bool.false_eq_true, if_false, hc.1, hc.2]
    exact ⟨_, _, rfl, .inl (List.getElem_mem hlt)⟩

theorem Writes.bubble (t : Tree) (rest : List TRec) (k : RV) (n m : UInt64) : Writes (t.bubble rest k n m) := by
  cases rest with
  | nil => exact Writes.newRoot _ _ _ _
  | cons p rest => exact Writes.insertLoop _ _ _

theorem not_keyLt_min (k : RV) : ¬ KeyLt k minKey := by
  rintro (h | ⟨_, h | ⟨_, h⟩⟩)
  · rw [show minKey.value = [] from rfl] at h
    generalize k.value = x at h
    cases h
  · simp [minKey] at h
  · simp [minKey] at h

theorem lost_entry {esL esM esR es1 es2 a b : List Entry} {k : RV} {v : MemPtr} (hasc : Ascending (es1 ++ es2)) (i1 : esM = a ++ b)
    (i2 : es1 ++ es2 = a ++ (k, v) :: b) (hl2 : 2 ≤ es2.length) (hl1 : 1 ≤ es1.length) (hasc0 : Ascending (esL ++ (esM ++ esR))) :
    ∃ e ∈ esM, (∀ x ∈ esL ++ (es1 ++ esR), x.1 ≠ e.1) ∧ ∃ x, KeyLt x e.1 := by
  unfold Ascending at hasc hasc0
  rw [List.pairwise_append] at hasc hasc0
  rw [List.pairwise_append] at hasc0
  have hold : ∃ e ∈ es2, e ∈ esM := by
    have hmem : ∀ e ∈ es2, e ≠ (k, v) → e ∈ esM := by
      intro e he hne
      have : e ∈ a ++ (k, v) :: b := by rw [← i2]; simp [he]
      rw [i1]
      simpa [hne] using this
    match es2, hl2 with
    | x :: y :: rest, _ =>
      have hxy : KeyLt x.1 y.1 := (List.pairwise_cons.1 hasc.2.1).1 y (by simp)
      by_cases hx : x = (k, v)
      · refine ⟨y, by simp, hmem y (by simp) ?_⟩
        rintro rfl
        rw [hx] at hxy
        exact KeyLt.irrefl _ hxy
      · exact ⟨x, by simp, hmem x (by simp) hx⟩
  obtain ⟨e, h1, h2⟩ := hold
  refine ⟨e, h2, ?_, ?_⟩
  · intro x hx hc
    rcases List.mem_append.1 hx with hx | hx
    · have := hasc0.2.2 x hx e (by simp [h2])
      rw [hc] at this; exact KeyLt.irrefl _ this
    · rcases List.mem_append.1 hx with hx | hx
      · have := hasc.2.2 x hx e h1
        rw [hc] at this; exact KeyLt.irrefl _ this
      · have := hasc0.2.1.2.2 e h2 x hx
        rw [hc] at this; exact KeyLt.irrefl _ this
  · match es1, hl1 with
    | x :: rest, _ => exact ⟨x.1, hasc.2.2 x (by simp) e h1⟩

/-- What a split leaves in the leaf when the process dies before the parent is written. -/
theorem split_point {t : Tree} {k : RV} {v : MemPtr} {s : PF} {free : List Nat} {es : List Entry} {ps : List Nat} (hw : vlen t.cfg ≤ 2016)
    (hk : KeyOK t.cfg k) (ht : TreeIs t s free es ps) (hne : es ≠ []) {s1 : PF} (hrun : t.insert k v s = (.ok (), s1))
    (hal : s1.lastPage ≠ s.lastPage ∨ s1.count ≠ s.count) :
    ∃ n s2 free2 es2 h, (t.insert k v (crashAfter n s)).2.file.bytes = s2.file.bytes ∧ Frame s free s2 free2 ps ∧
      Rep t.cfg s2.file.bytes h (MemPtr.decode (slice s2.file.bytes t.rootPos 12)).offset none none es2 ps ∧
      (MemPtr.decode (slice s2.file.bytes t.rootPos 12)).length ≠ 0 ∧
      (∃ lost, (es2 ++ lost).Perm ((k, v) :: es)) ∧ s2.file.bytes.length ≤ s.file.bytes.length + pageSize ∧
      ∃ e ∈ es, (∀ x ∈ es2, x.1 ≠ e.1) ∧ ∃ x, KeyLt x e.1 := by
  have hin := ht.slotInside
  have hv := ht.valid
  rcases ht.root with ⟨_, h1, _⟩ | ⟨h0, h, hr, _⟩
  · exact absurd h1 hne
  obtain ⟨nd, hn⟩ := hr.node
  obtain ⟨p0, hroot⟩ := root_some (t := t) hin ht.slot h0 hn
  generalize hmp : MemPtr.decode (slice s.file.bytes t.rootPos 12) = mp at *
  have hfuel : h < fuel s := by
    have := hr.height_lt
    have := pages_count ht.nodup hr.pages
    unfold fuel; omega
  obtain ⟨off, l⟩ := mp
  obtain ⟨path, p1, htr, hpath⟩ := traverse_ok (t := t) (key := k) (s := s.upd s.file.bytes p0) (l := l)
    hr hn hfuel (fun l hl => by cases hl) (fun l hl => by cases hl)
  simp only [upd_bytes, upd_upd] at htr hpath
  have hv1 := (Frame.upd_pos hv ht.budget p1 []).valid
  have hb1 : (s.upd s.file.bytes p1).file.budget = none := ht.budget
  obtain ⟨tr, rest0, lo', hi', esL, esM, esR, e1, e2, e3, e4, e5, e6, e7, e8⟩ := hpath.replace (s := s.upd s.file.bytes p1) (free := free) hr
    (fun l hl => by cases hl) (fun l hl => by cases hl) ht.nodup ht.live
  subst e1
  obtain ⟨hsh, hes, _, hso, _, _⟩ := e5.1 rfl
  have hlv : Live (s.upd s.file.bytes p1) free tr.ptr.offset.toNat := ht.live _ e3
  obtain ⟨s0, hs0⟩ : ∃ s0, s0 = s.upd s.file.bytes p1 := ⟨_, rfl⟩
  have hgen : ∀ b, t.insert k v (setB b s) = (if decide (k ∈ tr.node.keys) = true then
      Act.throw (.msg "key already exists")
      else t.insertLoop { tr with node := leafInsert tr.node (countLt tr.node.keys k) k v } rest0) (setB b s0) := by
    intro b
    unfold Tree.insert
    rw [if_neg (widthCheck hk), Act.bind_ok (a := some (nd, ⟨off, l⟩)) (s' := setB b (s.upd s.file.bytes p0)) (by rw [Blind.root t b s, hroot])]
    simp only
    rw [Act.bind_ok (Act.get_run _), Act.bind_ok (a := tr :: rest0) (s' := setB b s0) (by
      rw [show fuel (setB b (s.upd s.file.bytes p0)) = fuel s from rfl, Blind.traverse, htr, hs0])]
    simp only
    rw [bsearch_spec hso]
  have hg0 := hgen none
  rw [show setB none s = s by unfold setB; rw [← ht.budget], show setB none s0 = s0 by
    have : s0.file.budget = none := by rw [hs0]; exact ht.budget
    unfold setB; rw [← this], hrun] at hg0
  have hnm : k ∉ tr.node.keys := by
    intro hc
    rw [if_pos (by simpa using hc)] at hg0
    cases hg0
  rw [if_neg (by simpa using hnm)] at hg0
  obtain ⟨es', m1, m2, m3⟩ := leafInsert_memRep (v := v) e5 hk e6 e7 hnm
  generalize hnn : leafInsert tr.node (countLt tr.node.keys k) k v = nn at *
  have hnl : nn.keys.length = tr.node.keys.length + 1 := by
    have := countLt_le tr.node.keys k
    rw [← hnn]; simp only [leafInsert, List.length_append, List.length_cons, List.length_take, List.length_drop]; omega
  have hsz0 := e4.size_le
  by_cases hbig : nn.size t.cfg.width > pageSize
  rotate_left
  · exfalso
    have hw1 : t.insertLoop { tr with node := nn } rest0 s0 = t.writeNode tr.ptr.offset nn s0 := by
      rw [insertLoop_eq]
      unfold Tree.writeOrSplit
      simp only
      rw [if_neg hbig, Act.bind_def, Act.bind_def]
      generalize t.writeNode tr.ptr.offset nn s0 = w
      obtain ⟨w, s2⟩ := w
      cases w <;> rfl
    rw [hw1] at hg0
    have := KeepsAt.writeNode t tr.ptr.offset nn s0
    rw [← hg0, hs0] at this
    rcases hal with hal | hal
    · exact hal this.1
    · exact hal this.2
  obtain ⟨hmid, es1, es2, qs1, qs2, r1, r2, r3, r4, r5, r6, r7, r8⟩ := m1.split (by omega) hw (by omega) (by omega)
  have hq1 := (r3.1 rfl).2.2.1
  subst hq1
  rcases newPage_node (cfg := t.cfg) hv1 hb1 r6 r8 with ⟨moff, sa, free1, n1, n2, n3, n4, n5, n6⟩ | ⟨sa, n1, n2⟩
  rotate_left
  · exfalso
    rw [insertLoop_eq] at hg0
    have : t.writeOrSplit { tr with node := nn } s0 = (.err .io, sa) := by
      unfold writeOrSplit
      simp only
      rw [if_pos (by omega), List.getElem?_eq_getElem hmid]
      simp only
      rw [Act.bind_ok (by rw [marshal_nodeOK r6]; rfl), hs0, Act.bind_err n1]
    rw [Act.bind_err this] at hg0
    cases hg0
  have hl1 := n2.live _ hlv
  obtain ⟨sb, w1, w2, w3, w4⟩ := writeNode_ok (t := t) n2.valid n2.budget hl1 r5 r7
  have hfr : Frame (s.upd s.file.bytes p1) free sb free1 [tr.ptr.offset.toNat] :=
    (n2.weaken (by simp)).trans w2 (fun q hq => .inl hq)
  have hwos : t.writeOrSplit { tr with node := nn } s0 = (.ok (some (nn.keys[nn.keys.length / 2], tr.ptr.offset, moff)), sb) := by
    unfold writeOrSplit
    simp only
    rw [if_pos (by omega), List.getElem?_eq_getElem hmid]
    simp only
    rw [Act.bind_ok (by rw [marshal_nodeOK r6]; rfl), hs0, Act.bind_ok n1, Act.bind_ok w1]
    simp only [Act.pure_run, ofNat_u64OfInt]
  obtain ⟨_, n, hn0⟩ := (Writes.writeOrSplit t { tr with node := nn }).run s0 (by rw [hs0]; exact ht.budget) (by rw [hwos]; simp)
  have hn1 := hn0 0
  rw [Nat.add_zero, hwos] at hn1
  have hcr : (t.insert k v (crashAfter n s)).2.file.bytes = sb.file.bytes := by
    have := hgen (some n)
    rw [if_neg (by simpa using hnm)] at this
    rw [show crashAfter n s = setB (some n) s from rfl, this, insertLoop_eq,
      show setB (some n) s0 = withBudget (some n) s0 from rfl, Act.bind_ok hn1]
    exact ((Writes.bubble t rest0 _ _ _).stop (withBudget (some 0) sb) rfl).1
  have hmidb := (m1.1 rfl).2.2.2.2.1 _ (List.getElem_mem hmid)
  have hleft : Rep t.cfg sb.file.bytes 0 tr.ptr.offset lo' hi' es1 [tr.ptr.offset.toNat] := by
    refine ⟨_, [], w4, rfl, ⟨fun hh => ?_, by simp, r3.2.2⟩⟩
    obtain ⟨b1, b2, b3, b4, b5, b6⟩ := r3.1 hh
    exact ⟨b1, b2, b3, b4, fun x hx => ⟨(b5 x hx).1, fun y hy => ((b5 x hx).2 _ rfl).trans (hmidb.2 y hy)⟩, b6⟩
  have hrep := e8 sb free1 es1 hfr hleft
  have hfr2 : Frame s free sb free1 ps := by
    have := hfr.weaken (Q := ps) (by intro x hx; rw [List.mem_singleton] at hx; exact hx ▸ e3)
    exact ⟨this.valid, this.budget, this.live, this.same, this.len⟩
  have hss := slot_same ht.slot ht.slotLive ht.slotOut hfr2
  refine ⟨n, sb, free1, esL ++ (es1 ++ esR), h, hcr, hfr2, ?_, ?_, ⟨es2, ?_⟩, by rw [w3]; simpa using n5, ?_⟩
  · rw [hss, hmp]; exact hrep
  · rw [hss, hmp]; exact h0
  · obtain ⟨a, b, i1, i2⟩ := m2
    have h1 : (es1 ++ es2).Perm ((k, v) :: esM) := by rw [← r1, i2, i1]; exact List.perm_middle
    rw [e2]
    have h2 : (esL ++ (es1 ++ esR) ++ es2).Perm (esL ++ ((es1 ++ es2) ++ esR)) := by
      rw [List.append_assoc, List.append_assoc, List.append_assoc]
      exact List.Perm.append_left _ (List.Perm.append_left _ List.perm_append_comm)
    refine h2.trans ((List.Perm.append_left _ (h1.append_right _)).trans ?_)
    rw [List.cons_append]
    exact List.perm_middle
  · -- an old entry among the lost ones
    obtain ⟨g1, g2, _, g4, g5, _⟩ := r4.1 rfl
    obtain ⟨f1, f2, _, f4, f5, _⟩ := r3.1 rfl
    have hshn := (m1.1 rfl).1
    have h3 : 3 ≤ nn.keys.length := by
      have a1 := sum_le (keySize t.cfg.width) (vlen t.cfg + 15) nn.keys (fun x hx => (keySize_bounds (m1.2.2 x hx)).2)
      have a2 := sum_le leafPtrSize 15 nn.leafPtrs (fun x _ => (leafPtrSize_bounds x).2)
      rw [hshn.1] at a2
      unfold Node.size at hbig
      rw [hshn.2] at hbig
      simp only [List.map_nil, List.sum_nil] at hbig
      unfold pageSize at hbig
      refine Decidable.byContradiction fun hc => ?_
      have a3 : nn.keys.length * (vlen t.cfg + 15) ≤ 2 * (vlen t.cfg + 15) := Nat.mul_le_mul_right _ (by omega)
      omega
    have hlf : nn.leaf = true := hshn.isLeaf (by omega)
    have hrk : (rightHalf nn (nn.keys.length / 2)).keys = nn.keys.drop (nn.keys.length / 2) := by
      unfold rightHalf; rw [if_pos hlf]
    have hlk : (leftHalf nn (nn.keys.length / 2)).keys = nn.keys.take (nn.keys.length / 2) := by
      unfold leftHalf; rw [if_pos hlf]
    have hl2 : 2 ≤ es2.length := by
      rw [g2, List.length_zip, g1.1, hrk, List.length_drop, Nat.min_self]; omega
    have hl1' : 1 ≤ es1.length := by
      rw [f2, List.length_zip, f1.1, hlk, List.length_take, Nat.min_self]; omega
    obtain ⟨a, b, i1, i2⟩ := m2
    have hasc : Ascending es' := by rw [(m1.1 rfl).2.1]; exact zip_ascending (m1.1 rfl).2.2.2.1
    have hasc0 := hr.ascending
    rw [e2] at hasc0 ⊢
    obtain ⟨e, z1, z2, z3⟩ := lost_entry (r1 ▸ hasc) i1 (r1 ▸ i2) hl2 hl1' hasc0
    exact ⟨e, by simp [z1], z2, z3⟩

/-- C38 is violated by every `Insert` that splits a leaf: whenever an `Insert` into a tree that is not empty allocates a page (its leaf
does not fit any more), there is a number of writes such that, if the process dies after them, the reopened file has lost an entry
that was stored before: `Find` of its key succeeds without finding the key. -/
theorem C38_split_violated {ts : List Tree} {s s1 : PF} {c : Nat → List (RV × MemPtr)} {i : Nat} {t : Tree} {k : RV}
    {v : MemPtr} (hf : ForestRun ts s c) (ht : ts[i]? = some t) (hk : KeyOK t.cfg k) (hne : c i ≠ [])
    (hrun : t.insert k v s = (.ok (), s1)) (hal : s1.lastPage ≠ s.lastPage ∨ s1.count ≠ s.count) :
    ∃ n, ∃ e ∈ c i, ∀ f : File, f.bytes = (t.insert k v (crashAfter n s)).2.file.bytes → f.budget = none →
      ∃ s2 f', PF.openFile f = (.ok s2, f') ∧ ∃ r s3, t.find e.1 s2 = (.ok r, s3) ∧ r.1 ≠ e.1 := by
  obtain ⟨free, E, P, hi⟩ := forestInv hf
  obtain ⟨hti, hw, hp⟩ := hi.tree i t ht
  have hne' : E i ≠ [] := by
    intro hc
    rw [hc] at hp
    exact hne (List.length_eq_zero_iff.1 hp.length_eq.symm)
  obtain ⟨n, s2, free2, es2, h, b1, b2, b3, b4, _, _, e, b5, b6, x, b7⟩ := split_point hw.vlen hk hti hne' hrun hal
  refine ⟨n, e, hp.mem_iff.1 b5, fun f hfb hfu => ?_⟩
  obtain ⟨s', o1, o2, o3, _⟩ := openFile_valid' b2.valid f (hfb.trans b1)
  have hby : s'.file.bytes = s2.file.bytes := o3.trans (hfb.trans b1)
  have hin : t.rootPos + 12 ≤ s'.file.bytes.length := by
    have h1 := hti.slotInside
    have h2 := b2.len
    rw [hby]; omega
  obtain ⟨r, q, f1, f2⟩ := find_rep (t := t) (s := s') hin hti.slot (by rw [hby]; exact b4) (by rw [hby]; exact b3) hti.nodup e.1
  refine ⟨s', _, o1, r, q, f1, ?_⟩
  rcases f2 with f2 | rfl
  · exact b6 r f2
  · intro hc
    exact not_keyLt_min x (by rw [show minKey = e.1 from hc]; exact b7)

end Appendable
