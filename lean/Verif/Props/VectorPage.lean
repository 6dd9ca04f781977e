import Verif.Spec.VectorPage
import Verif.Props.VecRun
import Verif.Props.Hnsw
import Verif.Props.Tree
/-! C60, C74: the vector page manager. -/
namespace Appendable
open Spec

variable {o : FloatOps F32} {vp : VPManager}

theorem friendBytes_total (lv : Nat → Nat) : ∀ xs : List HeapItem, (xs.flatMap (fun x => friendBytes (lv x.id) x.id)).length = 5 * xs.length
  | [] => rfl
  | x :: xs => by
    rw [List.flatMap_cons, List.length_append, friendBytes_total lv xs]
    simp [friendBytes]; omega

/-- A stored vector has a buffer of 40 bytes. -/
theorem nodeBytes_ok (hs : SquareSym o) {g : Hnsw F32} {ps : List (Vec × Int)} (hr : HnswRun o g ps) {id : Nat} (hid : id < ps.length) :
    ∃ b, NodeBytes g id b ∧ b.length = 40 := by
  obtain ⟨fr, r, xs, lv, h1, h2, h3, h4, h5⟩ := C70_flush_partial hs hr (List.getElem?_eq_getElem hid) 8
  refine ⟨_, ⟨fr, h1, h4⟩, ?_⟩
  have : xs.length ≤ 8 := by rw [h3.1]; exact Nat.min_le_left _ _
  rw [List.length_append, friendBytes_total, List.length_replicate]
  omega

theorem nodeBytes_det {g : Hnsw F32} {id : Nat} {a b : Bytes} (ha : NodeBytes g id a) (hb : NodeBytes g id b) : a = b := by
  obtain ⟨f, h1, h2⟩ := ha
  obtain ⟨f', h3, h4⟩ := hb
  rw [h1] at h3; cases h3
  rw [h2] at h4; cases h4; rfl

/-- What the B+ tree holds for the buffers `bs`. -/
def nodeEntries (bs : List Bytes) : List (RV × MemPtr) := bs.map (fun b => (⟨⟨0, 0⟩, b⟩, ⟨0, 0⟩))

/-- What a manager's state looks like. -/
structure VPInv (o : FloatOps F32) (vp : VPManager) (st : VPState) (ps : List (Vec × Int)) (bs : List Bytes) (c : List (RefId × Vec)) : Prop where
  graph : HnswRun o st.graph ps
  dim : st.graph.dim = vp.btree.dim.toNat
  pos : 0 < ps.length
  vecs : VecRun vp.btree st.vecs c
  ids : c.map (·.1.value.toNat) = (List.range' 1 (ps.length - 1)).reverse
  pts : ∀ e ∈ c, e.1.dp = ⟨0, 0⟩ ∧ ∃ p, ps[e.1.value.toNat]? = some p ∧ e.2 = p.1
  nodes : ForestRun [vp.bptree] st.nodes (setAt (fun _ => []) 0 (nodeEntries bs))
  width : vp.bptree.cfg.width = 41

theorem VPInv.hasId {st : VPState} {ps bs c} (hi : VPInv o vp st ps bs c) (i : UInt64) : HasId c i ↔ 1 ≤ i.toNat ∧ i.toNat < ps.length := by
  have hp := hi.pos
  have : HasId c i ↔ i.toNat ∈ c.map (·.1.value.toNat) := by
    unfold HasId
    rw [List.mem_map]
    constructor
    · rintro ⟨e, he, rfl⟩; exact ⟨e, he, rfl⟩
    · rintro ⟨e, he, h⟩; exact ⟨e, he, UInt64.toNat_inj.1 h⟩
  rw [this, hi.ids, List.mem_reverse, List.mem_range'_1]
  omega

/-- The outcomes of `AddNode` with a vector of the right dimension. -/
inductive AddOut (o : FloatOps F32) (vp : VPManager) (st : VPState) (ps : List (Vec × Int)) (bs : List Bytes) (c : List (RefId × Vec))
    (x : Vec) (level : Int) : Prop
  | ok (st' : VPState) (b : Bytes) (run : vp.addNode o x level st = (.ok (), st')) (hb : NodeBytes st'.graph ps.length b) (new : b ∉ bs)
      (gr : Hnsw.insertVector o x level st.graph = (.ok ps.length, st'.graph))
      (inv : VPInv o vp st' (ps ++ [(x, level)]) (b :: bs) ((⟨⟨0, 0⟩, UInt64.ofNat ps.length⟩, x) :: c))
      (vlen : st'.vecs.file.bytes.length ≤ st.vecs.file.bytes.length + ps.length * pageSize)
      (nlen : bs = [] → st'.nodes.file.bytes.length ≤ st.nodes.file.bytes.length + 2 * pageSize)
  | dup (st' : VPState) (b : Bytes) (run : vp.addNode o x level st = (.err (.msg "key already exists"), st'))
      (hb : NodeBytes st'.graph ps.length b) (old : b ∈ bs)
      (gr : Hnsw.insertVector o x level st.graph = (.ok ps.length, st'.graph))
      (inv : VPInv o vp st' (ps ++ [(x, level)]) bs ((⟨⟨0, 0⟩, UInt64.ofNat ps.length⟩, x) :: c))
  | full (st' : VPState) (run : vp.addNode o x level st = (.err .io, st')) (big : ¬ Roomy st.vecs ∨
      (¬ Roomy st.nodes ∧ ∃ b, NodeBytes st'.graph ps.length b ∧ b ∉ bs ∧ Hnsw.insertVector o x level st.graph = (.ok ps.length, st'.graph)))

theorem add_out (hs : SquareSym o) {st : VPState} {ps bs c} (hi : VPInv o vp st ps bs c) (hd : vp.btree.dim.toNat ≤ 500)
    (hn : ps.length < 2 ^ 64) {x : Vec} (hx : x.length = vp.btree.dim.toNat) {level : Int} (hl : 0 ≤ level) :
    AddOut o vp st ps bs c x level := by
  obtain ⟨g', i1, i2, i3, i4, i5⟩ := (C65_insert hs hi.graph x level hl).2.1 (by rw [hi.dim, hx])
  have hid : (UInt64.ofNat ps.length).toNat = ps.length := UInt64.toNat_ofNat_of_lt' hn
  have hnew : ¬ HasId c (UInt64.ofNat ps.length) := by rw [hi.hasId, hid]; omega
  obtain ⟨b, hb, hb40⟩ := nodeBytes_ok hs i2 (id := ps.length) (by simp)
  have hpos := hi.pos
  obtain ⟨h0, hvi⟩ := vec_inv hi.vecs
  obtain ⟨free, es, qs, ht, hp⟩ := hvi (.inl hd)
  have step1 : ∀ st : VPState, Hnsw.insertVector o x level st.graph = (.ok ps.length, g') →
      VPManager.onGraph (Hnsw.insertVector o x level) st = (.ok ps.length, { st with graph := g' }) := by
    intro st h; unfold VPManager.onGraph; rw [h]
  cases V.insert_out (t := vp.btree) (key := ⟨⟨0, 0⟩, UInt64.ofNat ps.length⟩) (value := x) h0 (.inl (by unfold V.vbytes; omega)) hx ht with
  | dup p e he hk run => exact absurd ⟨e, hp.mem_iff.1 he, idKey_eq.1 hk⟩ hnew
  | full s2 new run big =>
    refine .full { st with graph := g', vecs := s2 } ?_ (.inl (by unfold Roomy; omega))
    unfold VPManager.addNode
    rw [Act.bind_ok (step1 st i1), Act.bind_err]
    unfold VPManager.onVecs
    simp only [run]
  | ok s2 free' es' ps' new run rel tree frame fresh len =>
    have hvr : VecRun vp.btree s2 ((⟨⟨0, 0⟩, UInt64.ofNat ps.length⟩, x) :: c) := .insert hi.vecs hx run
    have step2 : VPManager.onVecs (vp.btree.insert ⟨⟨0, 0⟩, UInt64.ofNat ps.length⟩ x) { st with graph := g' } =
        (.ok (), ⟨g', s2, st.nodes⟩) := by unfold VPManager.onVecs; simp only [run]
    have step3 : VPManager.friendsBuf ps.length ⟨g', s2, st.nodes⟩ = (.ok b, ⟨g', s2, st.nodes⟩) := by
      obtain ⟨fr, f1, f2⟩ := hb
      unfold VPManager.friendsBuf
      simp only [f1, Res.bind, f2]
    have hk : KeyOK vp.bptree.cfg ⟨⟨0, 0⟩, b⟩ := by
      unfold KeyOK
      rw [hi.width, if_neg (by decide)]
      rw [hb40]; decide
    have hadd : ∀ r n', vp.bptree.insert ⟨⟨0, 0⟩, b⟩ ⟨0, 0⟩ st.nodes = (r, n') → vp.addNode o x level st = (r, ⟨g', s2, n'⟩) := by
      intro r n' h
      unfold VPManager.addNode
      rw [Act.bind_ok (step1 st i1), Act.bind_ok step2, Act.bind_ok step3]
      unfold VPManager.onNodes
      simp only [h]
    have hids : ((⟨⟨0, 0⟩, UInt64.ofNat ps.length⟩, x) :: c).map (fun e : RefId × Vec => e.1.value.toNat) =
        (List.range' 1 ((ps ++ [(x, level)]).length - 1)).reverse := by
      rw [List.map_cons, hi.ids, hid, List.length_append, List.length_singleton]
      obtain ⟨m, hm⟩ : ∃ m, ps.length = m + 1 := ⟨ps.length - 1, by omega⟩
      rw [hm]
      simp only [Nat.add_sub_cancel]
      rw [List.range'_concat, List.reverse_append]
      simp [Nat.add_comm]
    have hpts : ∀ e ∈ ((⟨⟨0, 0⟩, UInt64.ofNat ps.length⟩, x) :: c : List (RefId × Vec)), e.1.dp = ⟨0, 0⟩ ∧
        ∃ p, (ps ++ [(x, level)])[e.1.value.toNat]? = some p ∧ e.2 = p.1 := by
      intro e he
      rcases List.mem_cons.1 he with rfl | he
      · refine ⟨rfl, (x, level), ?_, rfl⟩
        show (ps ++ [(x, level)])[(UInt64.ofNat ps.length).toNat]? = _
        rw [hid]; simp
      · obtain ⟨d1, p, d2, d3⟩ := hi.pts e he
        exact ⟨d1, p, by rw [List.getElem?_append_left (List.getElem?_eq_some_iff.1 d2).1]; exact d2, d3⟩
    have hmem : ∀ b, (∃ e ∈ setAt (fun _ => []) 0 (nodeEntries bs) 0, e.1 = (⟨⟨0, 0⟩, b⟩ : RV)) ↔ b ∈ bs := by
      intro b
      simp only [setAt, if_true, nodeEntries, List.mem_map]
      constructor
      · rintro ⟨_, ⟨b', hb', rfl⟩, h⟩; cases h; exact hb'
      · intro h; exact ⟨_, ⟨b, h, rfl⟩, rfl⟩
    have hw := hi.width
    have hclen : c.length = ps.length - 1 := by
      have := congrArg List.length hi.ids
      simpa using this
    obtain ⟨freeN, E, P, hfi⟩ := forestInv hi.nodes
    obtain ⟨hti, hwid, hperm⟩ := hfi.tree 0 vp.bptree rfl
    cases insert_out (key := ⟨⟨0, 0⟩, b⟩) (value := ⟨0, 0⟩) hwid.vlen hk hti with
    | dup p e he hk' r1 =>
      exact .dup ⟨g', s2, _⟩ b (hadd _ _ r1) hb ((hmem b).1 ⟨e, hperm.mem_iff.1 he, hk'⟩) i1
        ⟨i2, by rw [← hi.dim]; exact i3, by simp, hvr, hids, hpts, .rejected hi.nodes (i := 0) rfl (.inl hk) r1, hw⟩
    | full n' newN r1 big => exact .full ⟨g', s2, n'⟩ (hadd _ _ r1) (.inr ⟨by unfold Roomy; omega, b, hb, fun h => by
        obtain ⟨e, he, hk⟩ := (hmem b).2 h; exact newN e (hperm.mem_iff.2 he) hk, i1⟩)
    | ok n' freeN' esN' psN' newN r1 relN treeN outN freshN grow =>
      refine .ok ⟨g', s2, n'⟩ b (hadd _ _ r1) hb (fun h => ?_) i1 ⟨i2, by rw [← hi.dim]; exact i3, by simp, hvr, hids, hpts, ?_, hw⟩ ?_ ?_
      · obtain ⟨e, he, hk⟩ := (hmem b).2 h; exact newN e (hperm.mem_iff.2 he) hk
      · have := ForestRun.insert hi.nodes (i := 0) rfl hk r1
        have he : setAt (setAt (fun _ => []) 0 (nodeEntries bs)) 0 ((⟨⟨0, 0⟩, b⟩, ⟨0, 0⟩) :: setAt (fun _ => []) 0 (nodeEntries bs) 0) =
            setAt (fun _ => []) 0 (nodeEntries (b :: bs)) := by
          funext j
          by_cases hj : j = 0 <;> simp [setAt, hj, nodeEntries]
        rw [he] at this; exact this
      · have := hp.length_eq
        rw [this, hclen, Nat.sub_add_cancel hpos] at len
        exact len
      · intro hbs
        rcases grow with grow | grow
        · exact grow
        · rw [hbs] at hperm
          have : E 0 = [] := by simpa [setAt, nodeEntries] using hperm
          rw [this] at grow
          simp [leafBytes, pageSize] at grow

theorem vp_inv (hs : SquareSym o) {st : VPState} {ps bs} (h : VPRun o vp st ps bs) (hd : vp.btree.dim.toNat ≤ 500)
    (hn : ps.length ≤ 2 ^ 64) : ∃ c, VPInv o vp st ps bs c := by
  induction h with
  | @start g vecs nodes d ef M p hg hv hd' hn' hw =>
    refine ⟨[], .new hg, ?_, by simp, hv, by simp, by simp, ?_, hw⟩
    · unfold Hnsw.new at hg
      split at hg
      · cases hg
      · cases hg; exact hd'.symm
    · have : setAt (fun _ => []) 0 (nodeEntries []) = (fun _ => ([] : List (RV × MemPtr))) := by
        funext j; simp [setAt, nodeEntries]
      rw [this]; exact hn'
  | @added st st' ps bs x level b hr hx hl h hb ih =>
    simp only [List.length_append, List.length_singleton] at hn
    obtain ⟨c, hi⟩ := ih (by omega)
    cases add_out hs hi hd (by omega) hx hl with
    | ok st2 b2 run hb2 new _ inv _ _ =>
      rw [run] at h; cases h
      exact ⟨_, (nodeBytes_det hb hb2) ▸ inv⟩
    | dup st2 b2 run hb2 new _ inv => rw [run] at h; cases h
    | full st2 run big => rw [run] at h; cases h
  | @failed st st' ps bs x level m hr hx hl h ih =>
    simp only [List.length_append, List.length_singleton] at hn
    obtain ⟨c, hi⟩ := ih (by omega)
    cases add_out hs hi hd (by omega) hx hl with
    | ok st2 b2 run hb2 new _ inv _ _ => rw [run] at h; cases h
    | dup st2 b2 run hb2 new _ inv => rw [run] at h; cases h; exact ⟨_, inv⟩
    | full st2 run big => rw [run] at h; cases h

/-- C60 as far as the code goes: `AddNode` always gives the vector the next id and a buffer that describes its neighbours;
it succeeds exactly if no earlier call stored the same buffer.  Otherwise it reports an error, and still leaves the vector
in the graph and in the vector tree. -/
theorem C60_add_partial (hs : SquareSym o) {st : VPState} {ps : List (Vec × Int)} {bs : List Bytes} (h : VPRun o vp st ps bs)
    (hd : vp.btree.dim.toNat ≤ 500) (hn : ps.length < 2 ^ 64) (hv : Roomy st.vecs) (hr : Roomy st.nodes) (x : Vec)
    (hx : x.length = vp.btree.dim.toNat) (level : Int) (hl : 0 ≤ level) :
    ∃ (st' : VPState) (b : Bytes), NodeBytes st'.graph ps.length b ∧ b.length = 40 ∧
      (b ∉ bs → vp.addNode o x level st = (.ok (), st') ∧ VPRun o vp st' (ps ++ [(x, level)]) (b :: bs)) ∧
      (b ∈ bs → vp.addNode o x level st = (.err (.msg "key already exists"), st') ∧ VPRun o vp st' (ps ++ [(x, level)]) bs) ∧
      HnswRun o st'.graph (ps ++ [(x, level)]) ∧
      ∃ n, (vp.btree.find ⟨⟨0, 0⟩, UInt64.ofNat ps.length⟩ st'.vecs).1 =
        .ok (some (⟨⟨0, 0⟩, UInt64.ofNat ps.length⟩, converted (n + 1) x)) := by
  obtain ⟨c, hi⟩ := vp_inv hs h hd (by omega)
  have hlen : ∀ {g : Hnsw F32} {ps' b}, HnswRun o g ps' → NodeBytes g ps.length b → ps.length < ps'.length → b.length = 40 := by
    intro g ps' b hg hb hlt
    obtain ⟨b', h1, h2⟩ := nodeBytes_ok hs hg hlt
    rw [nodeBytes_det hb h1]; exact h2
  have hfind : ∀ {s : PF} {c : List (RefId × Vec)}, VecRun vp.btree s ((⟨⟨0, 0⟩, UInt64.ofNat ps.length⟩, x) :: c) →
      ∃ n, (vp.btree.find ⟨⟨0, 0⟩, UInt64.ofNat ps.length⟩ s).1 = .ok (some (⟨⟨0, 0⟩, UInt64.ofNat ps.length⟩, converted (n + 1) x)) := by
    intro s c hc
    obtain ⟨s', _, _, _, h4⟩ := C72_find_partial hc hd ⟨⟨0, 0⟩, UInt64.ofNat ps.length⟩
    obtain ⟨n, hn⟩ := h4 (⟨⟨0, 0⟩, UInt64.ofNat ps.length⟩, x) (by simp) rfl
    exact ⟨n, by rw [hn]⟩
  cases add_out hs hi hd hn hx hl with
  | ok st' b run hb new _ inv _ _ =>
    exact ⟨st', b, hb, hlen inv.graph hb (by simp), fun _ => ⟨run, .added h hx hl run hb⟩, fun hm => absurd hm new, inv.graph, hfind inv.vecs⟩
  | dup st' b run hb old _ inv =>
    exact ⟨st', b, hb, hlen inv.graph hb (by simp), fun hm => absurd old hm, fun _ => ⟨run, .failed h hx hl run⟩, inv.graph, hfind inv.vecs⟩
  | full st' run big => exact big.elim (absurd hv) (fun h => absurd hr h.1)

/-- C74 as far as the code goes: every vector but the first is found in the vector tree under its id (its components went
through one or more conversions). -/
theorem C74_lookup_partial (hs : SquareSym o) {st : VPState} {ps : List (Vec × Int)} {bs : List Bytes} (h : VPRun o vp st ps bs)
    (hd : vp.btree.dim.toNat ≤ 500) (hn : ps.length ≤ 2 ^ 64) {id : Nat} (h1 : 1 ≤ id) {p : Vec × Int} (hp : ps[id]? = some p) :
    ∃ n, (vp.btree.find ⟨⟨0, 0⟩, UInt64.ofNat id⟩ st.vecs).1 = .ok (some (⟨⟨0, 0⟩, UInt64.ofNat id⟩, converted (n + 1) p.1)) := by
  obtain ⟨c, hi⟩ := vp_inv hs h hd hn
  have hlt := (List.getElem?_eq_some_iff.1 hp).1
  have hid : (UInt64.ofNat id).toNat = id := UInt64.toNat_ofNat_of_lt' (by show id < 2 ^ 64; omega)
  obtain ⟨e, he, hk⟩ := (hi.hasId (UInt64.ofNat id)).2 (by rw [hid]; exact ⟨h1, hlt⟩)
  obtain ⟨d1, q, d2, d3⟩ := hi.pts e he
  rw [hk, hid, hp] at d2
  cases d2
  obtain ⟨s', _, _, _, h4⟩ := C72_find_partial hi.vecs hd ⟨⟨0, 0⟩, UInt64.ofNat id⟩
  obtain ⟨n, hn⟩ := h4 e he hk
  refine ⟨n, ?_⟩
  rw [hn, d3]
  obtain ⟨⟨edp, ev⟩, ex⟩ := e
  simp only at d1 hk
  rw [d1, hk]

/-- C74 violated, in every history: the first vector, which is in the graph, is never in the vector tree. -/
theorem C74_first_missing (hs : SquareSym o) {st : VPState} {ps : List (Vec × Int)} {bs : List Bytes} (h : VPRun o vp st ps bs)
    (hd : vp.btree.dim.toNat ≤ 500) (hn : ps.length ≤ 2 ^ 64) :
    (∃ fr, st.graph.neighborhood 0 = .ok fr) ∧
    (2 ≤ ps.length → (vp.btree.find ⟨⟨0, 0⟩, 0⟩ st.vecs).1 = .err (.msg "key not found")) ∧
    (ps.length = 1 → (vp.btree.find ⟨⟨0, 0⟩, 0⟩ st.vecs).1 = .ok none) := by
  obtain ⟨c, hi⟩ := vp_inv hs h hd hn
  have hc : c.length = ps.length - 1 := by
    have := congrArg List.length hi.ids
    simpa using this
  obtain ⟨b, ⟨fr, hf, _⟩, _⟩ := nodeBytes_ok hs hi.graph hi.pos
  obtain ⟨s', _, h2, h3, _⟩ := C72_find_partial hi.vecs hd ⟨⟨0, 0⟩, 0⟩
  refine ⟨⟨fr, hf⟩, fun hl => ?_, fun hl => ?_⟩
  · rw [h3 (by intro h; rw [h] at hc; simp at hc; omega) (by rw [hi.hasId]; simp)]
  · rw [h2 (List.eq_nil_of_length_eq_zero (by omega))]

namespace VPDemo

theorem ml0 : DistHeap.isMinLevel 0 = true := by decide
theorem ml1 : DistHeap.isMinLevel 1 = false := by decide
theorem ml2 : DistHeap.isMinLevel 2 = false := by decide

/-- The neighbours `[0, 1]` on level 0. -/
def near01 : Bytes := [0, 0, 0, 0, 0, 0, 0, 0, 0, 1] ++ List.replicate 30 0

/-- Evaluate the graph's operations, given the order of the distances. -/
macro "run_graph" : tactic => `(tactic| simp (decide := true) only [
  Hnsw.insertVector, Hnsw.insertAtLevel, Friends.new, Friends.topLevel, Hnsw.register, Hnsw.wire, Hnsw.findCloser, 
  Hnsw.entryItem, Res.bind, Hnsw.closerLoop, Hnsw.connect, Hnsw.searchLevel, DistHeap.new, DistHeap.insert, DistHeap.len, 
  DistHeap.up, DistHeap.upLoop, ml0, ml1, ml2, Hnsw.searchLoop, DistHeap.popMin, DistHeap.popMax, DistHeap.swapAt, 
  DistHeap.down, DistHeap.downLoop, DistHeap.lchild, DistHeap.pop, DistHeap.peekMax, DistHeap.maxIndex, DistHeap.pickMax, 
  DistHeap.itemAt, Hnsw.expand, Friends.getAt, Hnsw.visitAll, Hnsw.visit, Hnsw.visitNew, Hnsw.offer, Hnsw.popN, 
  Hnsw.select, Hnsw.linkAll, Hnsw.link, Hnsw.modFriend, Friends.insertAt, Friends.hasLevel, Friends.insertLevels, 
  Hnsw.pruneAll, Hnsw.pruneFriend, shrink, Hnsw.finish, DistHeap.rchild, DistHeap.less, DistHeap.parent, DistHeap.pick, 
  DistHeap.pickRight, DistHeap.grandLoop, DistHeap.fix, DistHeap.setDist, DistHeap.upd, DistHeap.peekMin, ne_eq, 
  not_true_eq_false, if_false, if_true, List.length_cons, List.length_nil, List.getElem?_cons_zero, 
  List.getElem?_cons_succ, List.nil_append, List.cons_append, List.length_append, List.replicate, Nat.zero_add, 
  Nat.add_zero, Nat.sub_self, List.getElem?_nil, Nat.reduceAdd, List.set_cons_zero, List.set_cons_succ, Nat.reduceSub, 
  Int.toNat_zero, Nat.min_self, Nat.lt_irrefl, List.getLast?, List.getLast, List.dropLast, Int.lt_irrefl, or_true, 
  true_or, false_or, or_false, Bool.false_eq_true, decide_true, decide_false, and_true, and_false, false_and, true_and, 
  gt_iff_lt, Nat.reduceMul, Nat.reduceDiv, List.length_set, Nat.reduceLeDiff, Nat.reduceLT, Hnsw.neighborhood, 
  Friends.flush, Friends.flushLoop, Friends.flushItem, Friends.encFriend, *])

/-- Three insertions into a new graph: the second and the third vector get the neighbours 0 and 1, in this order. -/
theorem three {F : Type} {o : FloatOps F} (p x y z : List F) (a b c d e f : Int) (hx : x.length = p.length) (hy : y.length = p.length)
    (hz : z.length = p.length) (e1 : euclid o p x = .ok a) (e2 : euclid o p y = .ok b) (e3 : euclid o x y = .ok c)
    (e4 : euclid o p z = .ok d) (e5 : euclid o x z = .ok e) (e6 : euclid o y z = .ok f)
    (o1 : d < e) (o2 : e < a) (o3 : a < b) (o4 : b < f) (o5 : f < c) :
    ∃ h1, Hnsw.insertVector o x 0 (⟨p.length, 0, [p], [Friends.new 0], 10, 2⟩ : Hnsw F) = (.ok 1, h1) ∧
    (∃ fr, h1.neighborhood 1 = .ok fr ∧ fr.flush 8 = .ok (List.replicate 40 0)) ∧
    ∃ h2, Hnsw.insertVector o y 0 h1 = (.ok 2, h2) ∧ (∃ fr, h2.neighborhood 2 = .ok fr ∧ fr.flush 8 = .ok near01) ∧
    ∃ h3, Hnsw.insertVector o z 0 h2 = (.ok 3, h3) ∧ ∃ fr, h3.neighborhood 3 = .ok fr ∧ fr.flush 8 = .ok near01 := by
  have lde : d < e := by omega
  have nlde : ¬ e < d := by omega
  have lda : d < a := by omega
  have nlda : ¬ a < d := by omega
  have ldb : d < b := by omega
  have nldb : ¬ b < d := by omega
  have ldf : d < f := by omega
  have nldf : ¬ f < d := by omega
  have ldc : d < c := by omega
  have nldc : ¬ c < d := by omega
  have lea : e < a := by omega
  have nlea : ¬ a < e := by omega
  have leb : e < b := by omega
  have nleb : ¬ b < e := by omega
  have lef : e < f := by omega
  have nlef : ¬ f < e := by omega
  have lec : e < c := by omega
  have nlec : ¬ c < e := by omega
  have lab : a < b := by omega
  have nlab : ¬ b < a := by omega
  have laf : a < f := by omega
  have nlaf : ¬ f < a := by omega
  have lac : a < c := by omega
  have nlac : ¬ c < a := by omega
  have lbf : b < f := by omega
  have nlbf : ¬ f < b := by omega
  have lbc : b < c := by omega
  have nlbc : ¬ c < b := by omega
  have lfc : f < c := by omega
  have nlfc : ¬ c < f := by omega
  apply Exists.intro
  constructor
  · run_graph
    rfl
  constructor
  · apply Exists.intro
    constructor
    · run_graph
      rfl
    · run_graph
  apply Exists.intro
  constructor
  · run_graph
    rfl
  constructor
  · apply Exists.intro
    constructor
    · run_graph
      rfl
    · run_graph
  apply Exists.intro
  constructor
  · run_graph
    rfl
  · apply Exists.intro
    constructor
    · run_graph
      rfl
    · run_graph

/-- A new manager for graphs with the first vector `p`. -/
theorem fresh (p : Vec) (h0 : 0 < p.length) (h5 : p.length ≤ 500) : ∃ (vp : VPManager) (st : VPState), VPRun o vp st [(p, 0)] [] ∧
    vp.btree.dim.toNat = p.length ∧ st.graph = ⟨p.length, 0, [p], [Friends.new 0], 10, 2⟩ ∧
    st.vecs.file.bytes.length = 8192 ∧ st.nodes.file.bytes.length = 8192 := by
  obtain ⟨s, owned, n, a1, a2, a3, a4⟩ := fresh_page
  have hd : (UInt64.ofNat p.length).toNat = p.length := UInt64.toNat_ofNat_of_lt' (by show p.length < 2 ^ 64; omega)
  have hne : UInt64.ofNat p.length ≠ 0 := by
    intro h
    have := congrArg UInt64.toNat h
    rw [hd] at this
    have h1 : (0 : UInt64).toNat = 0 := rfl
    omega
  refine ⟨⟨⟨4096, UInt64.ofNat p.length⟩, ⟨⟨[], id, 41⟩, 4096⟩⟩, ⟨⟨p.length, 0, [p], [Friends.new 0], 10, 2⟩, s, s⟩, ?_, hd, rfl, a4, a4⟩
  refine .start (d := p.length) (ef := 10) (M := 2) ?_ (.start a1 hne (by show 4096 % 4096 + 12 ≤ 4096; omega) (by simpa [pageSize] using a2) a3)
    hd (.start a1 ⟨?_, ?_⟩ ?_ ?_) rfl
  · unfold Hnsw.new
    rw [if_neg (by omega)]
  · intro t ht
    simp only [List.mem_singleton] at ht; subst ht; decide
  · exact List.pairwise_singleton _ _
  · intro t ht
    simp only [List.mem_singleton] at ht; subst ht; unfold WidthOK; decide
  · intro t ht
    simp only [List.mem_singleton] at ht; subst ht
    exact ⟨by simpa [pageSize] using a2, a3⟩

end VPDemo

/-- C60 violated, whatever the arithmetic: four vectors, such as 100, 110, 80 and 104, of which the third and the fourth have
the same two nearest vectors in the same order.  Adding the fourth fails, although nothing like it was added before. -/
theorem C60_violated (hs : SquareSym o) (p x y z : Vec) (h0 : 0 < p.length) (h5 : p.length ≤ 500) (hx : x.length = p.length)
    (hy : y.length = p.length) (hz : z.length = p.length) (o1 : metric o p z < metric o x z) (o2 : metric o x z < metric o p x)
    (o3 : metric o p x < metric o p y) (o4 : metric o p y < metric o y z) (o5 : metric o y z < metric o x y) :
    ∃ (vp : VPManager) (st st' : VPState) (bs : List Bytes), VPRun o vp st [(p, 0), (x, 0), (y, 0)] bs ∧ bs.length = 2 ∧
      vp.btree.dim.toNat = p.length ∧ vp.addNode o z 0 st = (.err (.msg "key already exists"), st') := by
  obtain ⟨g1, r1, ⟨f1, n1, b1⟩, g2, r2, ⟨f2, n2, b2⟩, g3, r3, f3, n3, b3⟩ := VPDemo.three (o := o) p x y z _ _ _ _ _ _ hx hy hz
    (euclid_ok o (by omega)) (euclid_ok o (by omega)) (euclid_ok o (by omega)) (euclid_ok o (by omega)) (euclid_ok o (by omega))
    (euclid_ok o (by omega)) o1 o2 o3 o4 o5
  obtain ⟨vp, st0, s0, hd, hg, l1, l2⟩ := VPDemo.fresh (o := o) p h0 h5
  have hd5 : vp.btree.dim.toNat ≤ 500 := by omega
  have bytesIs : ∀ {g : Hnsw F32} {i : Nat} {f : Friends} {b b' : Bytes}, NodeBytes g i b → g.neighborhood i = .ok f → f.flush 8 = .ok b' → b = b' :=
    fun h h1 h2 => nodeBytes_det h ⟨_, h1, h2⟩
  obtain ⟨c0, i0⟩ := vp_inv hs s0 hd5 (by simp)
  cases add_out hs i0 hd5 (by simp) (x := x) (by omega) (level := 0) (by omega) with
  | full st' run big => exfalso; unfold Roomy pageSize at big; omega
  | dup st' b run hb old _ inv => simp at old
  | ok st1 bb1 run1 hb1 new1 gr1 inv1 v1 m1 =>
    have hg1 : st1.graph = g1 := by
      rw [hg, r1] at gr1
      exact (congrArg Prod.snd gr1).symm
    have s1 := VPRun.added s0 (by omega) (by omega) run1 hb1
    replace m1 := m1 rfl
    simp only [List.length_singleton, Nat.one_mul] at v1
    unfold pageSize at v1 m1
    rw [hg1] at hb1
    have hbb1 := bytesIs hb1 n1 b1
    cases add_out hs inv1 hd5 (by simp) (x := y) (by omega) (level := 0) (by omega) with
    | full st' run big => exfalso; unfold Roomy pageSize at big; omega
    | dup st' b run hb old gr2 inv =>
      exfalso
      have hg2 : st'.graph = g2 := by
        rw [hg1, r2] at gr2
        exact (congrArg Prod.snd gr2).symm
      rw [hg2] at hb
      have := bytesIs hb n2 b2
      simp only [List.mem_singleton] at old
      rw [this, hbb1] at old
      revert old
      decide
    | ok st2 bb2 run2 hb2 new2 gr2 inv2 v2 m2 =>
      have hg2 : st2.graph = g2 := by
        rw [hg1, r2] at gr2
        exact (congrArg Prod.snd gr2).symm
      have s2 := VPRun.added s1 (by omega) (by omega) run2 hb2
      simp only [List.length_append, List.length_singleton] at v2
      unfold pageSize at v2
      rw [hg2] at hb2
      have hbb2 := bytesIs hb2 n2 b2
      have key : ∀ {st' : VPState} {b : Bytes}, NodeBytes st'.graph 3 b →
          Hnsw.insertVector o z 0 st2.graph = (.ok 3, st'.graph) → b = bb2 := by
        intro st' b hb gr
        rw [hg2, r3] at gr
        have hg3 : st'.graph = g3 := (congrArg Prod.snd gr).symm
        rw [hg3] at hb
        rw [bytesIs hb n3 b3, hbb2]
      refine ⟨vp, st2, ?_⟩
      cases add_out hs inv2 hd5 (by simp) (x := z) (by omega) (level := 0) (by omega) with
      | full st' run big =>
        exfalso
        rcases big with big | ⟨_, b, hb, hno, gr⟩
        · unfold Roomy pageSize at big; omega
        · exact hno (by rw [key hb gr]; simp)
      | ok st3 bb3 run3 hb3 new3 gr3 inv3 v3 m3 => exact absurd (by rw [key hb3 gr3]; simp) new3
      | dup st3 bb3 run3 hb3 old3 gr3 inv3 => exact ⟨st3, _, s2, rfl, hd, run3⟩

namespace VPDemo

/-- Natural numbers instead of floating point numbers. -/
def nops : FloatOps F32 := ⟨0, (· + ·), fun a b => if a < b then b - a else a - b, (· * ·), fun x => x.toNat⟩

theorem nops_sym : SquareSym nops := by
  intro a b
  have : nops.sub a b = nops.sub b a := by
    show (if a < b then b - a else a - b) = (if b < a then a - b else b - a)
    by_cases h1 : a < b
    · rw [if_pos h1, if_neg (by rw [UInt32.lt_iff_toNat_lt] at *; omega)]
    · by_cases h2 : b < a
      · rw [if_neg h1, if_pos h2]
      · have : a = b := by rw [UInt32.lt_iff_toNat_lt] at *; exact UInt32.toNat_inj.1 (by omega)
        rw [this]
  rw [this]

end VPDemo

/-- The vectors 100, 110, 80 and 104 meet the hypotheses of `C60_violated`; its result and its first call meet those of the
other theorems of this file. -/
example : ∃ (vp : VPManager) (st st' : VPState) (bs : List Bytes), VPRun VPDemo.nops vp st [([100], 0), ([110], 0), ([80], 0)] bs ∧ bs.length = 2 ∧
    vp.btree.dim.toNat = 1 ∧ vp.addNode VPDemo.nops [104] 0 st = (.err (.msg "key already exists"), st') :=
  C60_violated VPDemo.nops_sym [100] [110] [80] [104] (by decide) (by decide) rfl rfl rfl (by decide) (by decide) (by decide) (by decide) (by decide)

/-- C74 violated: a graph of one vector and two added ones; the vector with the id 0 is missing. -/
theorem C74_violated : ∃ (o : FloatOps F32) (vp : VPManager) (st : VPState) (ps : List (Vec × Int)) (bs : List Bytes), VPRun o vp st ps bs ∧ ps.length = 3 ∧
    bs.length = 2 ∧ (vp.btree.find ⟨⟨0, 0⟩, 0⟩ st.vecs).1 = .err (.msg "key not found") := by
  obtain ⟨vp, st, st', bs, h, hb, hd, _⟩ := C60_violated VPDemo.nops_sym [100] [110] [80] [104] (by decide) (by decide) rfl rfl rfl
    (by decide) (by decide) (by decide) (by decide) (by decide)
  exact ⟨_, vp, st, _, bs, h, rfl, hb, (C74_first_missing VPDemo.nops_sym h (by rw [hd]; decide) (by simp)).2.1 (by simp)⟩

/-- A new manager meets the hypotheses of `C60_add_partial` and `C74_first_missing`. -/
example : ∃ (vp : VPManager) (st : VPState), VPRun VPDemo.nops vp st [([100, 7], 0)] [] ∧ vp.btree.dim.toNat ≤ 500 ∧ Roomy st.vecs ∧ Roomy st.nodes := by
  obtain ⟨vp, st, h, hd, _, h1, h2⟩ := VPDemo.fresh (o := VPDemo.nops) [100, 7] (by decide) (by decide)
  exact ⟨vp, st, h, by rw [hd]; decide, by unfold Roomy pageSize; omega, by unfold Roomy pageSize; omega⟩

end Appendable
