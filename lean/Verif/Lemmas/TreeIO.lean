import Verif.Lemmas.PageFile
import Verif.Lemmas.Fill
/-! Page-level effects of the tree operations: reading, writing and allocating nodes. -/
namespace Appendable
open Spec Tree

/-- What an operation that works on the pages `P` (and on new ones) leaves alone. -/
structure Frame (s : PF) (free : List Nat) (s' : PF) (free' : List Nat) (P : List Nat) : Prop where
  valid : s'.Valid free'
  budget : s'.file.budget = none
  live : ∀ p, Live s free p → Live s' free' p
  same : ∀ p, Live s free p → p ∉ P → pageAt s'.file.bytes p = pageAt s.file.bytes p
  len : s.file.bytes.length ≤ s'.file.bytes.length

theorem Frame.refl {s : PF} {free : List Nat} (hv : s.Valid free) (hb : s.file.budget = none) (P : List Nat) :
    Frame s free s free P := ⟨hv, hb, fun _ h => h, fun _ _ _ => rfl, Nat.le_refl _⟩

theorem Frame.trans {s s' s'' : PF} {free free' free'' P Q : List Nat} (h1 : Frame s free s' free' P)
    (h2 : Frame s' free' s'' free'' Q) (hq : ∀ q ∈ Q, q ∈ P ∨ ¬ Live s free q) : Frame s free s'' free'' P := by
  refine ⟨h2.valid, h2.budget, fun p hp => h2.live p (h1.live p hp), fun p hp hn => ?_, Nat.le_trans h1.len h2.len⟩
  rw [h2.same p (h1.live p hp), h1.same p hp hn]
  intro hpq
  rcases hq p hpq with h | h
  · exact hn h
  · exact h hp

theorem Frame.weaken {s s' : PF} {free free' P Q : List Nat} (h : Frame s free s' free' P) (hpq : ∀ p ∈ P, p ∈ Q) :
    Frame s free s' free' Q :=
  ⟨h.valid, h.budget, h.live, fun p hp hn => h.same p hp (fun hc => hn (hpq p hc)), h.len⟩

theorem Live.upd {s : PF} {free : List Nat} {o p : Nat} {B : Bytes} (h : Live s free o)
    (hl : s.file.bytes.length ≤ B.length) : Live (s.upd B p) free o :=
  ⟨h.1, h.2.1, by have := h.2.2.1; simp only [upd_bytes]; omega, h.2.2.2⟩

/-- The end of a live page. -/
theorem Live.inside {s : PF} {free : List Nat} {o : Nat} (hv : s.Valid free) (h : Live s free o) :
    o + pageSize ≤ s.file.bytes.length := by
  have h1 := h.1; have h2 := h.2.2.1; have h3 := hv.aligned
  unfold pageSize at *; omega

theorem Frame.upd_pos {s : PF} {free : List Nat} (hv : s.Valid free) (hb : s.file.budget = none) (p : Nat)
    (P : List Nat) : Frame s free (s.upd s.file.bytes p) free P :=
  ⟨⟨hv.ringOK.of_same rfl rfl rfl, hv.aligned, hv.nonempty, hv.small, hv.page0, hv.nodup, hv.freeOK⟩, hb,
    fun _ h => h, fun _ _ _ => rfl, Nat.le_refl _⟩

/-- A write inside one live page. -/
theorem Frame.write {s : PF} {free : List Nat} (hv : s.Valid free) (hb : s.file.budget = none) {o r : Nat} {b : Bytes}
    (hl : Live s free o) (hr : r + b.length ≤ pageSize) (p : Nat) :
    Frame s free (s.upd (writeAt s.file.bytes (o + r) b) p) free [o] ∧
    (writeAt s.file.bytes (o + r) b).length = s.file.bytes.length := by
  have hin := hl.inside hv
  have hlen : (writeAt s.file.bytes (o + r) b).length = s.file.bytes.length := by
    rw [writeAt_length (by omega)]; omega
  refine ⟨⟨⟨hv.ringOK.of_same rfl rfl rfl, ?_, ?_, ?_, ?_, hv.nodup, ?_⟩, hb, ?_, ?_, ?_⟩, hlen⟩
  · simp only [upd_bytes, hlen]; exact hv.aligned
  · simp only [upd_bytes, hlen]; exact hv.nonempty
  · simp only [upd_bytes, hlen]; exact hv.small
  · simp only [upd_bytes]
    have := hl.2.1
    unfold pageAt
    rw [slice_writeAt_disjoint (by omega) (by left; omega)]
    exact hv.page0
  · intro q hq; simp only [upd_bytes, hlen]; exact hv.freeOK q hq
  · intro q hq; exact hq.upd (by omega)
  · intro q hq hn
    simp only [upd_bytes]
    have hne : q ≠ o := by simpa using hn
    have := page_ne_disjoint hq.1 hl.1 hne
    unfold pageAt
    rw [slice_writeAt_disjoint (by omega) (by omega)]
  · simp only [upd_bytes]; omega

theorem int64OfU64_small {x : Nat} (h : x < 2 ^ 63) : int64OfU64 x = (x : Int) := by
  unfold int64OfU64; rw [if_pos h]

theorem readNode_ok {t : Tree} {s : PF} {off : UInt64} {n : Node} (h : NodeAt t.cfg s.file.bytes off n) (l : UInt32) :
    t.readNode ⟨off, l⟩ s = (.ok n, s.upd s.file.bytes (off.toNat + pageSize)) := by
  unfold Tree.readNode
  have hin := h.inside
  simp only
  rw [int64OfU64_small h.small, Act.bind_ok (seek_ok (by omega))]
  rw [Act.bind_ok (read_ok (s := s.upd s.file.bytes off.toNat) (by unfold pageSize; omega) hin
    (by simp only [PF.upd]; rw [h.aligned]; omega))]
  simp only [Bool.false_eq_true, if_false, Act.lift_run, upd_bytes, upd_pos, upd_upd]
  have hlen : (slice s.file.bytes off.toNat pageSize).length = pageSize := slice_length hin
  rw [hlen, Nat.sub_self, List.replicate_zero, List.append_nil]
  have := h.unmarshal
  unfold pageAt at this
  rw [this]

theorem marshal_nodeOK {cfg : Cfg} {n : Node} (h : NodeOK cfg n) : n.marshal cfg.width = .ok (n.content cfg.width) := by
  refine marshal_ok ?_
  have h1 := h.1; have h2 := h.2.1
  omega

theorem writeNode_ok {t : Tree} {s : PF} {free : List Nat} {off : UInt64} {n : Node} (hv : s.Valid free)
    (hb : s.file.budget = none) (hl : Live s free off.toNat) (hok : NodeOK t.cfg n)
    (hsz : n.size t.cfg.width ≤ pageSize) :
    ∃ s', t.writeNode off n s = (.ok (), s') ∧ Frame s free s' free [off.toNat] ∧
      s'.file.bytes.length = s.file.bytes.length ∧ NodeAt t.cfg s'.file.bytes off n := by
  have hin := hl.inside hv
  have hsm := hv.small
  have hcl := content_length t.cfg.width n
  obtain ⟨c, p, hw⟩ := write_ok (s := s.upd s.file.bytes off.toNat) (b := n.content t.cfg.width) hb
    (by simp only [upd_pos, upd_bytes]; omega) (by simp only [upd_pos]; omega)
    (by simp only [upd_pos]; rw [hl.1]; omega)
  have hf := Frame.write hv hb hl (r := 0) (b := n.content t.cfg.width) (by omega) p
  refine ⟨s.upd (writeAt s.file.bytes off.toNat (n.content t.cfg.width)) p, ?_, hf.1, hf.2, ?_⟩
  · unfold Tree.writeNode
    rw [int64OfU64_small (by omega), Act.bind_ok (seek_ok (by omega)), Act.bind_ok (by rw [marshal_nodeOK hok]; rfl)]
    rw [Act.bind_ok hw]; rfl
  · refine ⟨hl.1, hl.2.1, ?_, by omega, hok, ?_⟩
    · simp only [upd_bytes]; have := hf.2; rw [Nat.add_zero] at this; omega
    · refine ⟨(pageAt s.file.bytes off.toNat).drop (n.size t.cfg.width), ?_⟩
      simp only [upd_bytes]
      unfold pageAt
      rw [slice_writeAt_inside (by omega) (Nat.le_refl _) (by omega) (by omega), Nat.sub_self,
        writeAt_zero _ _ (by rw [slice_length hin]; omega), hcl]

/-- Allocating a page for a node. -/
theorem newPage_node' {s : PF} {free : List Nat} {cfg : Cfg} {n : Node} (hv : s.Valid free)
    (hb : s.file.budget = none) (hok : NodeOK cfg n) (hsz : n.size cfg.width ≤ pageSize) :
    (∃ (off : UInt64) (s' : PF) (free' : List Nat),
      PF.newPage (some (n.content cfg.width)) s = (.ok (off.toNat : Int), s') ∧
      Frame s free s' free' [] ∧ ¬ Live s free off.toNat ∧ Live s' free' off.toNat ∧
      s'.file.bytes.length ≤ s.file.bytes.length + pageSize ∧ NodeAt cfg s'.file.bytes off n ∧
      (∀ x, Live s' free' x → x = off.toNat ∨ Live s free x) ∧ (free = [] → free' = [])) ∨
    (∃ s', PF.newPage (some (n.content cfg.width)) s = (.err .io, s') ∧
      2 ^ 63 ≤ s.file.bytes.length + pageSize) := by
  have hcl := content_length cfg.width n
  rcases newPage_spec' hv hb (some (n.content cfg.width)) (by simp only [Option.getD_some]; omega) with
    ⟨o, s', free', h1, h2, h3, h4, h5, h6, h7, h8, h9, h10, h11, h12⟩ | ⟨s', h1, h2⟩
  · left
    have hin := h5.inside h2
    have ho : (UInt64.ofNat o).toNat = o := UInt64.toNat_ofNat_of_lt' (by show o < 2 ^ 64; omega)
    refine ⟨UInt64.ofNat o, s', free', by rw [ho]; exact h1, ⟨h2, h3, fun p hp => (h7 p hp).1,
      fun p hp _ => (h7 p hp).2, h9⟩, by rw [ho]; exact h4, by rw [ho]; exact h5, h10, ?_, by rw [ho]; exact h8, h12⟩
    refine ⟨by rw [ho]; exact h5.1, by rw [ho]; exact h5.2.1, by rw [ho]; exact hin, by rw [ho]; exact h11, hok, ?_⟩
    rw [ho, h6]
    exact ⟨_, rfl⟩
  · right; exact ⟨s', h1, h2⟩

theorem newPage_node {s : PF} {free : List Nat} {cfg : Cfg} {n : Node} (hv : s.Valid free)
    (hb : s.file.budget = none) (hok : NodeOK cfg n) (hsz : n.size cfg.width ≤ pageSize) :
    (∃ (off : UInt64) (s' : PF) (free' : List Nat),
      PF.newPage (some (n.content cfg.width)) s = (.ok (off.toNat : Int), s') ∧
      Frame s free s' free' [] ∧ ¬ Live s free off.toNat ∧ Live s' free' off.toNat ∧
      s'.file.bytes.length ≤ s.file.bytes.length + pageSize ∧ NodeAt cfg s'.file.bytes off n) ∨
    (∃ s', PF.newPage (some (n.content cfg.width)) s = (.err .io, s') ∧
      2 ^ 63 ≤ s.file.bytes.length + pageSize) := by
  rcases newPage_node' hv hb hok hsz with ⟨o, s', f', h1, h2, h3, h4, h5, h6, _⟩ | h
  · exact .inl ⟨o, s', f', h1, h2, h3, h4, h5, h6⟩
  · exact .inr h

theorem ofNat_u64OfInt (o : UInt64) : UInt64.ofNat (u64OfInt (o.toNat : Int)) = o := by
  unfold u64OfInt
  have := o.toNat_lt
  rw [Int.emod_eq_of_lt (by omega) (by omega)]
  simp

/-- A tree survives operations on other pages. -/
theorem Rep.framed {cfg s free s' free' P h off lo hi es ps} (hr : Rep cfg s.file.bytes h off lo hi es ps)
    (hf : Frame s free s' free' P) (hl : ∀ p ∈ ps, Live s free p) (hd : ∀ p ∈ ps, p ∉ P) :
    Rep cfg s'.file.bytes h off lo hi es ps :=
  hr.frame hf.len (fun p hp => hf.same p (hl p hp) (hd p hp))

theorem SubRep.framed {cfg s free s' free' P h off lo hi es ps} (hr : SubRep cfg s.file.bytes h off lo hi es ps)
    (hf : Frame s free s' free' P) (hl : ∀ p ∈ ps, Live s free p) (hd : ∀ p ∈ ps, p ∉ P) :
    SubRep cfg s'.file.bytes h off lo hi es ps := by
  cases h with
  | zero => exact hr.elim
  | succ h => exact Rep.framed hr hf hl hd

theorem MemRep.framed {cfg s free s' free' P h leaf n lo hi es qs}
    (hm : MemRep cfg (SubRep cfg s.file.bytes h) leaf n lo hi es qs)
    (hf : Frame s free s' free' P) (hl : ∀ p ∈ qs, Live s free p) (hd : ∀ p ∈ qs, p ∉ P) :
    MemRep cfg (SubRep cfg s'.file.bytes h) leaf n lo hi es qs :=
  hm.mono (fun _ _ _ _ _ _ hs hr => hr.framed hf (fun x hx => hl x (hs x hx)) (fun x hx => hd x (hs x hx)))

theorem leafBytes_zip {n : Node} (hs : LeafShape n) {w : UInt16} : leafBytes w (n.keys.zip n.leafPtrs) = n.size w := by
  have aux : ∀ (ks : List RV) (ps : List MemPtr), ps.length = ks.length →
      ((ks.zip ps).map (fun e => (encKey w e.1).length + (encLeafPtr e.2).length)).sum
        = (ks.map (keySize w)).sum + (ps.map leafPtrSize).sum := by
    intro ks
    induction ks with
    | nil => intro ps h; cases ps with
      | nil => rfl
      | cons p ps => simp at h
    | cons k ks ih =>
      intro ps h
      cases ps with
      | nil => simp at h
      | cons p ps =>
        simp only [List.zip_cons_cons, List.map_cons, List.sum_cons]
        rw [ih ps (by simpa using h), encKey_length, encLeafPtr_length]
        omega
  unfold leafBytes Node.size
  rw [aux _ _ hs.1, hs.2]
  simp only [List.map_nil, List.sum_nil]
  omega

theorem leafBytes_perm {w : UInt16} {a b : List (RV × MemPtr)} (h : a.Perm b) : leafBytes w a = leafBytes w b := by
  unfold leafBytes
  rw [(h.map _).sum_nat]

/-- Outcome of writing back a node that may have to be split. -/
inductive WriteOut (t : Tree) (tr : TRec) (h : Nat) (lo hi : Option RV) (es : List Entry) (qs : List Nat) (s : PF)
    (free : List Nat) : Prop
  | fits (s' : PF) (run : t.writeOrSplit tr s = (.ok none, s'))
      (frame : Frame s free s' free [tr.ptr.offset.toNat]) (len : s'.file.bytes.length = s.file.bytes.length)
      (rep : Rep t.cfg s'.file.bytes h tr.ptr.offset lo hi es (tr.ptr.offset.toNat :: qs))
      (node : NodeAt t.cfg s'.file.bytes tr.ptr.offset tr.node)
  | split (s' : PF) (free' : List Nat) (mid : RV) (moff : UInt64) (es1 es2 : List Entry) (qs1 qs2 : List Nat)
      (run : t.writeOrSplit tr s = (.ok (some (mid, tr.ptr.offset, moff)), s'))
      (frame : Frame s free s' free' [tr.ptr.offset.toNat])
      (len : s'.file.bytes.length ≤ s.file.bytes.length + pageSize)
      (key : KeyOK t.cfg mid) (ents : es = es1 ++ es2) (pages : qs = qs1 ++ qs2)
      (fresh : ¬ Live s free moff.toNat) (liveM : Live s' free' moff.toNat)
      (left : Rep t.cfg s'.file.bytes h tr.ptr.offset lo (some mid) es1 (tr.ptr.offset.toNat :: qs1))
      (right : Rep t.cfg s'.file.bytes h moff (some mid) hi es2 (moff.toNat :: qs2))
      (over : h = 0 → pageSize < leafBytes t.cfg.width es)
      (nodes : ∃ a b, NodeAt t.cfg s'.file.bytes tr.ptr.offset a ∧ NodeAt t.cfg s'.file.bytes moff b ∧ minKeys t.cfg ≤ a.keys.length ∧
        minKeys t.cfg ≤ b.keys.length ∧ (∀ o ∈ a.intPtrs, o ∈ tr.node.intPtrs) ∧ ∀ o ∈ b.intPtrs, o ∈ tr.node.intPtrs)
      (used : ∀ x, Live s' free' x → Live s free x ∨ x = moff.toNat) (nofree : free = [] → free' = [])
  | full (s' : PF) (run : t.writeOrSplit tr s = (.err .io, s')) (big : 2 ^ 63 ≤ s.file.bytes.length + pageSize)

theorem writeOrSplit_out {t : Tree} {tr : TRec} {h : Nat} {lo hi : Option RV} {es : List Entry} {qs : List Nat} {s : PF}
    {free : List Nat} (hw : vlen t.cfg ≤ 2016) (hv : s.Valid free) (hb : s.file.budget = none)
    (hm : MemRep t.cfg (SubRep t.cfg s.file.bytes h) (h == 0) tr.node lo hi es qs) (h0 : 0 < tr.node.keys.length)
    (hsz : tr.node.size t.cfg.width ≤ pageSize + vlen t.cfg + 30)
    (hl : Live s free tr.ptr.offset.toNat) (hq : ∀ p ∈ qs, Live s free p) (hn : tr.ptr.offset.toNat ∉ qs) :
    WriteOut t tr h lo hi es qs s free := by
  have hshape : LeafShape tr.node ∨ InternalShape tr.node := by
    cases h with
    | zero => exact .inl (hm.1 rfl).1
    | succ h => exact .inr (hm.2.1 rfl).1
  by_cases hbig : tr.node.size t.cfg.width ≤ pageSize
  · have hok := nodeOK_of_size h0 hshape hm.2.2 hbig
    obtain ⟨s', e1, e2, e3, e4⟩ := writeNode_ok (t := t) hv hb hl hok hbig
    refine .fits s' ?_ e2 e3 (rep_iff.2 ⟨tr.node, qs, e4, rfl, hm.framed e2 hq ?_⟩) e4
    · unfold writeOrSplit
      simp only
      rw [if_neg (by omega), Act.bind_ok e1]; rfl
    · intro p hp hc
      simp only [List.mem_singleton] at hc
      exact hn (hc ▸ hp)
  · obtain ⟨hmid, es1, es2, qs1, qs2, r1, r2, r3, r4, r5, r6, r7, r8⟩ := hm.split h0 hw (by omega) hsz
    have hmany := keys_of_big hshape hm.2.2 (by omega)
    rcases newPage_node' hv hb r6 r8 with ⟨moff, s1, free1, n1, n2, n3, n4, n5, n6, n7, n8⟩ | ⟨s1, n1, n2⟩
    · have hl1 := n2.live _ hl
      obtain ⟨s2, w1, w2, w3, w4⟩ := writeNode_ok (t := t) n2.valid n2.budget hl1 r5 r7
      have hne : moff.toNat ≠ tr.ptr.offset.toNat := by
        intro he; exact n3 (he ▸ hl)
      have hfr : Frame s free s2 free1 [tr.ptr.offset.toNat] :=
        (n2.weaken (by simp)).trans w2 (fun q hq => .inl hq)
      have hd : ∀ p ∈ qs, p ∉ [tr.ptr.offset.toNat] := by
        intro p hp hc
        simp only [List.mem_singleton] at hc
        exact hn (hc ▸ hp)
      refine .split s2 free1 tr.node.keys[tr.node.keys.length / 2] moff es1 es2 qs1 qs2 ?_ hfr (by omega)
        (hm.2.2 _ (List.getElem_mem _)) r1 r2 n3 (w2.live _ n4) (rep_iff.2 ⟨_, qs1, w4, rfl, ?_⟩)
        (rep_iff.2 ⟨_, qs2, n6.frame w2.len (w2.same _ n4 (by simpa using hne)), rfl, ?_⟩) ?_
        ⟨_, _, w4, n6.frame w2.len (w2.same _ n4 (by simpa using hne)), minKeys_left hmany, minKeys_right hmany, leftHalf_ptrs, rightHalf_ptrs⟩ ?_ n8
      · unfold writeOrSplit
        simp only
        rw [if_pos (by omega), List.getElem?_eq_getElem hmid]
        simp only
        rw [Act.bind_ok (by rw [marshal_nodeOK r6]; rfl), Act.bind_ok n1, Act.bind_ok w1]
        simp only [Act.pure_run, ofNat_u64OfInt]
      · exact r3.framed hfr (fun p hp => hq p (by simp [r2, hp])) (fun p hp => hd p (by simp [r2, hp]))
      · exact r4.framed hfr (fun p hp => hq p (by simp [r2, hp])) (fun p hp => hd p (by simp [r2, hp]))
      · rintro rfl
        obtain ⟨hs, he, _⟩ := hm.1 rfl
        rw [he, leafBytes_zip hs]; omega
      · intro x hx
        rcases n7 x ⟨hx.1, hx.2.1, by have := hx.2.2.1; omega, hx.2.2.2⟩ with h | h
        · exact .inr h
        · exact .inl h
    · refine .full s1 ?_ n2
      unfold writeOrSplit
      simp only
      rw [if_pos (by omega), List.getElem?_eq_getElem hmid]
      simp only
      rw [Act.bind_ok (by rw [marshal_nodeOK r6]; rfl), Act.bind_err n1]

/-! ### Traversal -/

/-- The path that `traverse` returns for `key` below the node at `off`, leaf first. -/
inductive PathTo (cfg : Cfg) (B : Bytes) (key : RV) : Nat → UInt64 → List TRec → Prop
  | leaf {off n l} (h : NodeAt cfg B off n) (hl : n.leaf = true) (hs : SortedKeys n.keys) :
      PathTo cfg B key 0 off [⟨n, (countLt n.keys key : Nat), ⟨off, l⟩⟩]
  | step {h off n l p path} (hn : NodeAt cfg B off n) (hl : n.leaf = false)
      (hp : n.intPtrs[childIdx n.keys key]? = some p) (t : PathTo cfg B key h p path) :
      PathTo cfg B key (h + 1) off (path ++ [⟨n, (childIdx n.keys key : Nat), ⟨off, l⟩⟩])

theorem PathTo.ne {cfg B key h off path} (hp : PathTo cfg B key h off path) : path ≠ [] := by
  cases hp <;> simp

/-- The child that the search for `key` descends into. -/
theorem MemRep.child {cfg B h n lo hi es qs} (hm : MemRep cfg (SubRep cfg B (h + 1)) false n lo hi es qs) (key : RV)
    (hlo : GeB lo key) (hhi : LtB key hi) :
    ∃ p lo' hi' es' ps', n.intPtrs[childIdx n.keys key]? = some p ∧ Rep cfg B h p lo' hi' es' ps' ∧
      GeB lo' key ∧ LtB key hi' ∧ ∀ x ∈ ps', x ∈ qs := by
  obtain ⟨hs, hk⟩ := hm.2.1 rfl
  obtain ⟨ks1, ks2, ptrs1, q, ptrs2, lo', hi', es1', es2', es3', ps1', ps2', ps3', a1, a2, a3, a4, a5, a6, a7, a8,
        a9, a10, a11, a12, a13⟩ := hk.locate (goodR_sub cfg B (h + 1)) key hlo hhi
  refine ⟨q, lo', hi', es2', ps2', ?_, a8, a10, a11, fun x hx => by simp [a4, hx]⟩
  rw [a2, ← a5, ← a6]; simp

theorem traverse_ok {t : Tree} {key : RV} {h fuel : Nat} {s : PF} {off : UInt64} {l : UInt32} {n : Node} {lo hi es ps}
    (hr : Rep t.cfg s.file.bytes h off lo hi es ps) (hn : NodeAt t.cfg s.file.bytes off n) (hf : h < fuel)
    (hlo : GeB lo key) (hhi : LtB key hi) :
    ∃ path p, t.traverse key fuel n ⟨off, l⟩ s = (.ok path, s.upd s.file.bytes p) ∧
      PathTo t.cfg s.file.bytes key h off path := by
  induction h generalizing fuel s off l n lo hi es ps with
  | zero =>
    obtain ⟨fuel, rfl⟩ : ∃ f, fuel = f + 1 := ⟨fuel - 1, by omega⟩
    obtain ⟨n', qs, hn', rfl, hm⟩ := hr
    cases hn.unique hn'
    obtain ⟨hs, _, _, hso, _⟩ := hm.1 rfl
    have hleaf := hs.isLeaf hn.ok.1
    refine ⟨_, s.file.pos, ?_, .leaf (l := l) hn hleaf hso⟩
    unfold traverse
    rw [bsearch_spec hso key]
    simp only
    rw [if_pos hleaf]; rfl
  | succ h ih =>
    obtain ⟨fuel, rfl⟩ : ∃ f, fuel = f + 1 := ⟨fuel - 1, by omega⟩
    obtain ⟨n', qs, hn', rfl, hm⟩ := rep_iff.1 hr
    cases hn.unique hn'
    have hm' : MemRep t.cfg (SubRep t.cfg s.file.bytes (h + 1)) false n lo hi es qs := hm
    obtain ⟨hs, hk⟩ := hm'.2.1 rfl
    have hso := (hm'.good (fun _ => goodR_sub _ _ _) hn.ok.1).2
    have hleaf := hs.isLeaf
    obtain ⟨p, lo', hi', es', ps', c1, c2, c3, c4, _⟩ := hm'.child key hlo hhi
    obtain ⟨nc, _, hnc, _⟩ := rep_iff.1 c2
    obtain ⟨path, q, r1, r2⟩ := ih (s := s.upd s.file.bytes (p.toNat + pageSize)) (l := 0) (fuel := fuel)
      c2 hnc (by omega) c3 c4
    refine ⟨_, q, ?_, .step (l := l) hn hleaf c1 r2⟩
    unfold traverse
    rw [bsearch_spec hso key]
    simp only
    rw [if_neg (by simp [hleaf])]
    have hidx : (if (decide (key ∈ n.keys)) = true then countLt n.keys key + 1 else countLt n.keys key)
        = childIdx n.keys key := by
      unfold childIdx; by_cases hmem : key ∈ n.keys <;> simp [hmem]
    rw [hidx]
    have hptr : n.pointer (childIdx n.keys key) = some ⟨p, 0⟩ := by
      unfold Node.pointer; rw [if_neg (by simp [hleaf]), c1]; rfl
    rw [hptr]
    simp only
    rw [Act.bind_ok (readNode_ok hnc 0), Act.bind_ok r1]
    rfl

end Appendable
