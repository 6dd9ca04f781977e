import Verif.Lemmas.VecSplit
import Verif.Lemmas.Insert
/-! `Insert` of the vector tree: the search path and the way back up. -/
namespace Appendable.V
open Spec VTree

/-- Outcome of writing back a node that may have to be split. -/
inductive WriteOut (t : VTree) (tr : VRec) (h : Nat) (lo hi : Option Nat) (es : List VEntry) (qs : List Nat) (s : PF)
    (free : List Nat) : Prop
  | fits (s' : PF) (run : t.writeOrSplit tr s = (.ok none, s'))
      (frame : Frame s free s' free [tr.ptr.offset.toNat]) (len : s'.file.bytes.length = s.file.bytes.length)
      (rep : Rep t.dim s'.file.bytes h tr.ptr.offset lo hi es (tr.ptr.offset.toNat :: qs))
  | split (s' : PF) (free' : List Nat) (mid : RefId) (mv : Vec) (moff : UInt64) (es1 es2 : List VEntry) (qs1 qs2 : List Nat)
      (run : t.writeOrSplit tr s = (.ok (some (mid, mv, tr.ptr.offset, moff)), s'))
      (frame : Frame s free s' free' [tr.ptr.offset.toNat])
      (len : s'.file.bytes.length ≤ s.file.bytes.length + pageSize)
      (mvl : mv.length = t.dim.toNat) (ents : es = es1 ++ es2) (pages : qs = qs1 ++ qs2)
      (fresh : ¬ Live s free moff.toNat) (liveM : Live s' free' moff.toNat)
      (left : Rep t.dim s'.file.bytes h tr.ptr.offset lo (some (idKey mid)) es1 (tr.ptr.offset.toNat :: qs1))
      (right : Rep t.dim s'.file.bytes h moff (some (idKey mid)) hi es2 (moff.toNat :: qs2))
  | full (s' : PF) (run : t.writeOrSplit tr s = (.err .io, s')) (big : 2 ^ 63 ≤ s.file.bytes.length + pageSize)

theorem writeOrSplit_out {t : VTree} {tr : VRec} {h : Nat} {lo hi : Option Nat} {es : List VEntry} {qs : List Nat} {s : PF}
    {free : List Nat} (hd : t.dim ≠ 0)
    (hw : vbytes t.dim ≤ 2000 ∨ (h = 0 ∧ vbytes t.dim ≤ 4000 ∧ tr.node.ids.length ≤ 2)) (hv : s.Valid free) (hb : s.file.budget = none)
    (hm : MemRep t.dim (SubRep t.dim s.file.bytes h) (h == 0) tr.node lo hi es qs) (h0 : 0 < tr.node.ids.length)
    (hsz : tr.node.size ≤ pageSize + vbytes t.dim + 35)
    (hl : Live s free tr.ptr.offset.toNat) (hq : ∀ p ∈ qs, Live s free p) (hn : tr.ptr.offset.toNat ∉ qs) :
    WriteOut t tr h lo hi es qs s free := by
  have hshape : tr.node.offsets = [] ∨ tr.node.offsets.length = tr.node.ids.length + 1 := by
    cases h with
    | zero => exact .inl (hm.1 rfl).1
    | succ h => exact .inr (by have := (hm.2.1 rfl).length; simpa using this)
  have hnd : tr.node.dim ≠ 0 := hm.2.2.1 ▸ hd
  by_cases hbig : tr.node.size ≤ pageSize
  · have hok := ok_of_size h0 hshape hnd hm.2.2.2 hbig
    obtain ⟨s', e1, e2, e3, e4⟩ := vwriteNode_ok hv hb hl hok hbig
    refine .fits s' ?_ e2 e3 (rep_iff.2 ⟨tr.node, qs, e4, rfl, hm.framed e2 hq ?_⟩)
    · unfold writeOrSplit
      simp only
      rw [if_neg hnd, if_neg (by omega), Act.bind_ok e1]; rfl
    · intro p hp hc
      simp only [List.mem_singleton] at hc
      exact hn (hc ▸ hp)
  · obtain ⟨hmid, es1, es2, qs1, qs2, r1, r2, r3, r4, r5, r6, r7, r8⟩ := hm.split hd h0
      (hw.imp id (fun ⟨a, b⟩ => ⟨by simp [a], b⟩)) (by omega) hsz
    have hvl := hm.2.2.2.1
    have hmidv : tr.node.ids.length / 2 < tr.node.vectors.length := by omega
    rcases vnewPage_node hv hb r6 r8 with ⟨moff, s1, free1, n1, n2, n3, n4, n5, n6⟩ | ⟨s1, n1, n2⟩
    · have hl1 := n2.live _ hl
      obtain ⟨s2, w1, w2, w3, w4⟩ := vwriteNode_ok n2.valid n2.budget hl1 r5 r7
      have hne : moff.toNat ≠ tr.ptr.offset.toNat := by
        intro he; exact n3 (he ▸ hl)
      have hfr : Frame s free s2 free1 [tr.ptr.offset.toNat] :=
        (n2.weaken (by simp)).trans w2 (fun q hq => .inl hq)
      have hd : ∀ p ∈ qs, p ∉ [tr.ptr.offset.toNat] := by
        intro p hp hc
        simp only [List.mem_singleton] at hc
        exact hn (hc ▸ hp)
      refine .split s2 free1 tr.node.ids[tr.node.ids.length / 2] (tr.node.vectors[tr.node.ids.length / 2]) moff es1 es2 qs1 qs2 ?_ hfr (by omega)
        ?_ r1 r2 n3 (w2.live _ n4) (rep_iff.2 ⟨_, qs1, w4, rfl, ?_⟩)
        (rep_iff.2 ⟨_, qs2, VNodeAt.frame n6 w2.len (w2.same _ n4 (by simpa using hne)), rfl, ?_⟩)
      · unfold writeOrSplit
        simp only
        rw [if_neg hnd, if_pos (by omega), List.getElem?_eq_getElem hmid, List.getElem?_eq_getElem hmidv]
        simp only
        rw [Act.bind_ok (by rw [VNode.marshal_ok r6]; rfl), Act.bind_ok n1, Act.bind_ok w1]
        simp only [Act.pure_run, ofNat_u64OfInt]
      · rw [hm.2.2.2.2 _ (List.getElem_mem _), hm.2.2.1]
      · exact r3.framed hfr (fun p hp => hq p (by simp [r2, hp])) (fun p hp => hd p (by simp [r2, hp]))
      · exact r4.framed hfr (fun p hp => hq p (by simp [r2, hp])) (fun p hp => hd p (by simp [r2, hp]))
    · refine .full s1 ?_ n2
      unfold writeOrSplit
      simp only
      rw [if_neg hnd, if_pos (by omega), List.getElem?_eq_getElem hmid, List.getElem?_eq_getElem hmidv]
      simp only
      rw [Act.bind_ok (by rw [VNode.marshal_ok r6]; rfl), Act.bind_err n1]

/-! ### Traversal -/

/-- The path that `traverse` returns for `key` below the node at `off`, leaf first. -/
inductive PathTo (B : Bytes) (key : Nat) : Nat → UInt64 → List VRec → Prop
  | leaf {off n l} (h : VNodeAt B off n) (hl : n.offsets = []) :
      PathTo B key 0 off [⟨n.reread, countLt (n.ids.map idKey) key, ⟨off, l⟩⟩]
  | step {h off n l p path} (hn : VNodeAt B off n)
      (hp : n.offsets[childIdx (n.ids.map idKey) key]? = some p) (t : PathTo B key h p path) :
      PathTo B key (h + 1) off (path ++ [⟨n.reread, childIdx (n.ids.map idKey) key, ⟨off, l⟩⟩])

/-- The child that the search for `key` descends into. -/
theorem MemRep.child {d B h n lo hi es qs} (hm : MemRep d (SubRep d B (h + 1)) false n lo hi es qs) (key : Nat)
    (hlo : GeB lo key) (hhi : LtB key hi) :
    ∃ p lo' hi' es' ps', n.offsets[childIdx (n.ids.map idKey) key]? = some p ∧ Rep d B h p lo' hi' es' ps' ∧
      GeB lo' key ∧ LtB key hi' ∧ ∀ x ∈ ps', x ∈ qs := by
  have hk := hm.2.1 rfl
  obtain ⟨ks1, ks2, ptrs1, q, ptrs2, lo', hi', es1', es2', es3', ps1', ps2', ps3', a1, a2, a3, a4, a5, a6, a7, a8,
        a9, a10, a11, a12, a13⟩ := hk.locate (goodR_sub d B (h + 1)) key hlo hhi
  refine ⟨q, lo', hi', es2', ps2', ?_, a8, a10, a11, fun x hx => by simp [a4, hx]⟩
  rw [a2, ← a5, ← a6]; simp

theorem traverse_ok {d : UInt64} {key : RefId} {h fuel : Nat} {s : PF} {off : UInt64} {l : UInt32} {n : VNode} {lo hi es ps}
    (hr : Rep d s.file.bytes h off lo hi es ps) (hn : VNodeAt s.file.bytes off n) (hf : h < fuel)
    (hlo : GeB lo (idKey key)) (hhi : LtB (idKey key) hi) :
    ∃ path p, traverse key fuel n.reread ⟨off, l⟩ s = (.ok path, s.upd s.file.bytes p) ∧
      PathTo s.file.bytes (idKey key) h off path := by
  induction h generalizing fuel s off l n lo hi es ps with
  | zero =>
    obtain ⟨fuel, rfl⟩ : ∃ f, fuel = f + 1 := ⟨fuel - 1, by omega⟩
    obtain ⟨n', qs, hn', rfl, hm⟩ := hr
    have hu := VNodeAt.unique hn hn'
    rw [hu]
    obtain ⟨ho, _, _, hso, _⟩ := hm.1 rfl
    refine ⟨_, s.file.pos, ?_, .leaf (l := l) hn' ho⟩
    unfold traverse
    rw [bsearch_ids (ids := n'.reread.ids) hso key]
    simp only
    rw [if_pos (by unfold VNode.leaf; simp [VNode.reread, ho])]; rfl
  | succ h ih =>
    obtain ⟨fuel, rfl⟩ : ∃ f, fuel = f + 1 := ⟨fuel - 1, by omega⟩
    obtain ⟨n', qs, hn', rfl, hm⟩ := rep_iff.1 hr
    rw [VNodeAt.unique hn hn']
    have hm' : MemRep d (SubRep d s.file.bytes (h + 1)) false n' lo hi es qs := hm
    have hk := hm'.2.1 rfl
    have hso := (hm'.good (fun _ => goodR_sub _ _ _) hn'.ok.ne).2
    have hol := hk.length
    obtain ⟨p, lo', hi', es', ps', c1, c2, c3, c4, _⟩ := hm'.child (idKey key) hlo hhi
    obtain ⟨nc, _, hnc, _⟩ := rep_iff.1 c2
    obtain ⟨path, q, r1, r2⟩ := ih (s := s.upd s.file.bytes (p.toNat + pageSize)) (l := 0) (fuel := fuel)
      c2 hnc (by omega) c3 c4
    refine ⟨_, q, ?_, .step (l := l) hn' c1 r2⟩
    unfold traverse
    rw [bsearch_ids (ids := n'.reread.ids) hso key]
    simp only
    rw [if_neg (by unfold VNode.leaf; simp [VNode.reread]; intro hc; rw [hc] at hol; simp at hol)]
    have hidx : (if (decide (idKey key ∈ n'.reread.ids.map idKey)) = true then countLt (n'.reread.ids.map idKey) (idKey key) + 1
        else countLt (n'.reread.ids.map idKey) (idKey key)) = childIdx (n'.ids.map idKey) (idKey key) := by
      show (if (decide (idKey key ∈ n'.ids.map idKey)) = true then countLt (n'.ids.map idKey) (idKey key) + 1
        else countLt (n'.ids.map idKey) (idKey key)) = _
      unfold childIdx; by_cases hmem : idKey key ∈ n'.ids.map idKey <;> simp only [hmem] <;> rfl
    rw [hidx]
    have hptr : n'.reread.offsets[childIdx (n'.ids.map idKey) (idKey key)]? = some p := c1
    rw [hptr]
    simp only
    rw [Act.bind_ok (vreadNode_ok hnc), Act.bind_ok r1]
    rfl

/-! ### Insertion -/

/-- `es'` is `es` with one more entry. -/
def InsRel (es : List VEntry) (k : RefId) (v : Vec) (es' : List VEntry) : Prop :=
  ∃ a b, es = a ++ b ∧ es' = a ++ (k, v) :: b

theorem InsRel.perm {es k v es'} (h : InsRel es k v es') : es'.Perm ((k, v) :: es) := by
  obtain ⟨a, b, rfl, rfl⟩ := h
  exact List.perm_middle

theorem InsRel.append {es k v es'} (h : InsRel es k v es') (x y : List VEntry) :
    InsRel (x ++ (es ++ y)) k v (x ++ (es' ++ y)) := by
  obtain ⟨a, b, rfl, rfl⟩ := h
  exact ⟨x ++ a, b ++ y, by simp, by simp⟩

/-- Continuing with the rest of the path after a split. -/
def bubble (t : VTree) (rest : List VRec) (k : RefId) (v : Vec) (n m : UInt64) : Act PF Unit :=
  match rest with
  | [] => t.newRoot k v n m
  | p :: rest => t.insertLoop (parentUpdate p k v n m) rest

theorem insertLoop_eq (t : VTree) (tr : VRec) (rest : List VRec) (s : PF) :
    t.insertLoop tr rest s = (do
      match ← t.writeOrSplit tr with
      | none => return ()
      | some (k, v, n, m) => bubble t rest k v n m : Act PF Unit) s := by
  cases rest <;> rfl

/-- Outcome of the loop below the node at `off`. -/
inductive InsOut (t : VTree) (run : List VRec → Res Unit × PF) (h : Nat) (off : UInt64) (lo hi : Option Nat)
    (es' : List VEntry) (ps : List Nat) (s : PF) (free : List Nat) : Prop
  | done (s' : PF) (free' : List Nat) (ps' : List Nat) (eq : ∀ rest, run rest = (.ok (), s'))
      (frame : Frame s free s' free' ps)
      (len : s'.file.bytes.length ≤ s.file.bytes.length + h * pageSize)
      (rep : Rep t.dim s'.file.bytes h off lo hi es' ps') (nodup : ps'.Nodup)
      (live : ∀ x ∈ ps', Live s' free' x) (fresh : ∀ x ∈ ps', x ∈ ps ∨ ¬ Live s free x)
  | split (s' : PF) (free' : List Nat) (mid : RefId) (mv : Vec) (moff : UInt64) (es1 es2 : List VEntry) (ps1 ps2 : List Nat)
      (eq : ∀ rest, run rest = bubble t rest mid mv off moff s')
      (frame : Frame s free s' free' ps)
      (len : s'.file.bytes.length ≤ s.file.bytes.length + (h + 1) * pageSize)
      (mvl : mv.length = t.dim.toNat) (ents : es' = es1 ++ es2)
      (left : Rep t.dim s'.file.bytes h off lo (some (idKey mid)) es1 ps1)
      (right : Rep t.dim s'.file.bytes h moff (some (idKey mid)) hi es2 ps2) (nodup : (ps1 ++ ps2).Nodup)
      (live : ∀ x ∈ ps1 ++ ps2, Live s' free' x) (fresh : ∀ x ∈ ps1 ++ ps2, x ∈ ps ∨ ¬ Live s free x)
  | full (s' : PF) (eq : ∀ rest, run rest = (.err .io, s'))
      (big : 2 ^ 63 ≤ s.file.bytes.length + (h + 1) * pageSize)

/-- The outcome of writing back the node at the top, in the terms of `InsOut`. -/
theorem WriteOut.insOut {t : VTree} {tr : VRec} {h : Nat} {lo hi : Option Nat} {es : List VEntry} {qs ps : List Nat} {s0 s : PF}
    {free0 free : List Nat} {run : List VRec → Res Unit × PF} (ho : WriteOut t tr h lo hi es qs s free)
    (heq : ∀ rest, run rest = t.insertLoop tr rest s)
    (hfr : Frame s0 free0 s free ps) (hlen : s.file.bytes.length ≤ s0.file.bytes.length + h * pageSize)
    (hoff : tr.ptr.offset.toNat ∈ ps) (hl : Live s free tr.ptr.offset.toNat) (hq : ∀ p ∈ qs, Live s free p)
    (hn : (tr.ptr.offset.toNat :: qs).Nodup) (hfresh : ∀ x ∈ qs, x ∈ ps ∨ ¬ Live s0 free0 x) :
    InsOut t run h tr.ptr.offset lo hi es ps s0 free0 := by
  have hin : ∀ q ∈ [tr.ptr.offset.toNat], q ∈ ps ∨ ¬ Live s0 free0 q := by
    intro q hq; simp only [List.mem_singleton] at hq; subst hq; exact .inl hoff
  cases ho with
  | fits s' run' frame len rep =>
    refine .done s' free _ (fun rest => ?_) (hfr.trans frame hin) (by omega) rep hn ?_ ?_
    · rw [heq, insertLoop_eq, Act.bind_ok run']; rfl
    · intro x hx
      rcases List.mem_cons.1 hx with rfl | hx
      · exact frame.live _ hl
      · exact frame.live _ (hq x hx)
    · intro x hx
      rcases List.mem_cons.1 hx with rfl | hx
      · exact .inl hoff
      · exact hfresh x hx
  | split s' free' mid mv moff es1 es2 qs1 qs2 run' frame len mvl ents pages fresh liveM left right =>
    subst pages
    have hmn : ¬ Live s0 free0 moff.toNat := fun hc => fresh (hfr.live _ hc)
    have hmq : ∀ x ∈ tr.ptr.offset.toNat :: (qs1 ++ qs2), x ≠ moff.toNat := by
      rintro x hx rfl
      rcases List.mem_cons.1 hx with hx | hx
      · exact fresh (hx ▸ hl)
      · exact fresh (hq _ hx)
    have key2 : ∀ x ∈ tr.ptr.offset.toNat :: qs1 ++ moff.toNat :: qs2, x = moff.toNat ∨
        x ∈ tr.ptr.offset.toNat :: (qs1 ++ qs2) := by
      intro x hx
      simp only [List.cons_append, List.mem_cons, List.mem_append] at hx ⊢
      rcases hx with h | h | h | h <;> simp [h]
    refine .split s' free' mid mv moff es1 es2 _ _ (fun rest => ?_) (hfr.trans frame hin) ?_ mvl ents
      left right ?_ ?_ ?_
    · rw [heq, insertLoop_eq, Act.bind_ok run']
    · rw [Nat.add_mul]; omega
    · have hp : (tr.ptr.offset.toNat :: qs1 ++ moff.toNat :: qs2).Perm
          (moff.toNat :: (tr.ptr.offset.toNat :: (qs1 ++ qs2))) := by
        rw [show tr.ptr.offset.toNat :: (qs1 ++ qs2) = (tr.ptr.offset.toNat :: qs1) ++ qs2 by simp]
        exact List.perm_middle
      rw [hp.nodup_iff, List.nodup_cons]
      exact ⟨fun hc => hmq _ hc rfl, hn⟩
    · intro x hx
      rcases key2 x hx with rfl | hx
      · exact liveM
      · rcases List.mem_cons.1 hx with rfl | hx
        · exact frame.live _ hl
        · exact frame.live _ (hq x hx)
    · intro x hx
      rcases key2 x hx with rfl | hx
      · exact .inr hmn
      · rcases List.mem_cons.1 hx with rfl | hx
        · exact .inl hoff
        · exact hfresh x hx
  | full s' run' big =>
    refine .full s' (fun rest => ?_) ?_
    · rw [heq, insertLoop_eq, Act.bind_err run']
    · rw [Nat.add_mul]; omega

/-- Inserting into a sorted leaf. -/
theorem leafInsert_memRep {d : UInt64} {R n lo hi es qs} (hm : MemRep d R true n lo hi es qs) {k : RefId} {v : Vec}
    (hv : v.length = d.toNat) (hlo : GeB lo (idKey k)) (hhi : LtB (idKey k) hi) (hnm : idKey k ∉ n.ids.map idKey) :
    ∃ es', MemRep d R true (leafInsert n (countLt (n.ids.map idKey) (idKey k)) k v) lo hi es' qs ∧ InsRel es k v es' ∧
      (leafInsert n (countLt (n.ids.map idKey) (idKey k)) k v).size ≤ n.size + vbytes d + 25 := by
  obtain ⟨ho, hst, hq, hso, hb⟩ := hm.1 rfl
  have hj : countLt (n.ids.map idKey) (idKey k) ≤ n.ids.length := by
    have := countLt_le (n.ids.map idKey) (idKey k); simpa using this
  generalize hjj : countLt (n.ids.map idKey) (idKey k) = j at *
  have hlt : ∀ x ∈ (n.ids.take j).map idKey, x < idKey k := by
    intro x hx
    rw [List.map_take] at hx
    obtain ⟨i, hi, rfl⟩ := List.mem_iff_getElem.1 hx
    rw [List.getElem_take]
    rw [List.length_take] at hi
    exact (sorted_lt_countLt hso (idKey k) i (by omega)).2 (by omega)
  have hgt : ∀ x ∈ (n.ids.drop j).map idKey, idKey k < x := by
    intro x hx
    rw [List.map_drop] at hx
    obtain ⟨i, hi, rfl⟩ := List.mem_iff_getElem.1 hx
    rw [List.getElem_drop]
    rw [List.length_drop] at hi
    have h1 : ¬ (n.ids.map idKey)[j + i] < idKey k := by rw [sorted_lt_countLt hso (idKey k) (j + i) (by omega)]; omega
    have h2 : (n.ids.map idKey)[j + i]'(by omega) ≠ idKey k := fun hc => hnm (hc ▸ List.getElem_mem _)
    omega
  have hkeys : ∀ P : RefId → Prop, P k → (∀ x ∈ n.ids, P x) → ∀ x ∈ n.ids.take j ++ k :: n.ids.drop j, P x := by
    intro P h1 h2 x hx
    rcases List.mem_append.1 hx with hx | hx
    · exact h2 x (List.mem_of_mem_take hx)
    · rcases List.mem_cons.1 hx with rfl | hx
      · exact h1
      · exact h2 x (List.mem_of_mem_drop hx)
  have hdim := hm.2.2.1
  have hD := hm.2.2.2
  refine ⟨es.take j ++ (k, v) :: es.drop j, ⟨fun _ => ⟨ho, ?_, hq, ?_, ?_⟩, by simp, hdim, ?_, ?_⟩,
    ⟨_, _, (List.take_append_drop j es).symm, rfl⟩, ?_⟩
  · exact (hst.take j).append (.cons (.refl v) (hst.drop j))
  · unfold Sorted
    simp only [leafInsert, List.map_append, List.map_cons]
    rw [List.pairwise_append]
    refine ⟨?_, List.pairwise_cons.2 ⟨hgt, ?_⟩, ?_⟩
    · rw [List.map_take]; exact List.Pairwise.sublist (List.take_sublist _ _) hso
    · rw [List.map_drop]; exact List.Pairwise.sublist (List.drop_sublist _ _) hso
    · intro a ha b hb'
      have h1 := hlt a ha
      rcases List.mem_cons.1 hb' with rfl | hb'
      · exact h1
      · have := hgt b hb'; omega
  · exact hkeys _ ⟨hlo, hhi⟩ hb
  · have := hD.1
    simp only [leafInsert, List.length_append, List.length_cons, List.length_take, List.length_drop]; omega
  · intro w hw
    simp only [leafInsert, List.mem_append, List.mem_cons] at hw ⊢
    rcases hw with hw | rfl | hw
    · exact hD.2 w (List.mem_of_mem_take hw)
    · rw [hdim]; exact hv
    · exact hD.2 w (List.mem_of_mem_drop hw)
  · have h1 := (idSize_bounds k).2
    have e1 := sum_take_drop VNode.idSize n.ids j
    have hl := hD.1
    have e2 : (n.vectors.take j ++ v :: n.vectors.drop j).length = n.vectors.length + 1 := by simp; omega
    unfold VNode.size leafInsert
    simp only [e2]
    simp only [List.map_append, List.map_cons, List.sum_append, List.sum_cons, Nat.add_mul, Nat.one_mul, hdim, vbytes]
    omega

theorem insert_rec {t : VTree} {key : RefId} {value : Vec} (hd : t.dim ≠ 0) (hk : value.length = t.dim.toNat)
    {h : Nat} {s : PF} {free : List Nat} {off : UInt64} {path : List VRec} {lo hi es ps}
    (hw : vbytes t.dim ≤ 2000 ∨ (h = 0 ∧ vbytes t.dim ≤ 4000 ∧ es.length ≤ 1))
    (hp : PathTo s.file.bytes (idKey key) h off path)
    (hr : Rep t.dim s.file.bytes h off lo hi es ps) (hlo : GeB lo (idKey key)) (hhi : LtB (idKey key) hi)
    (hv : s.Valid free) (hb : s.file.budget = none) (hnd : ps.Nodup) (hlive : ∀ p ∈ ps, Live s free p) :
    ∃ tr rest0, path = tr :: rest0 ∧ Sorted (tr.node.ids.map idKey) ∧
      (idKey key ∈ tr.node.ids.map idKey ↔ ∃ e ∈ es, idKey e.1 = idKey key) ∧
      (idKey key ∉ tr.node.ids.map idKey → ∃ es', InsRel es key value es' ∧
        InsOut t (fun rest => t.insertLoop { tr with node := leafInsert tr.node (countLt (tr.node.ids.map idKey) (idKey key)) key value }
          (rest0 ++ rest) s) h off lo hi es' ps s free) := by
  induction hp generalizing lo hi es ps with
  | @leaf off n l hn hl =>
    obtain ⟨n', qs, hn', rfl, hm⟩ := hr
    have hu := VNodeAt.unique hn hn'
    have hsz := VNodeAt.size_le hn'
    rw [show countLt (n.ids.map idKey) (idKey key) = countLt (n'.reread.ids.map idKey) (idKey key) by rw [← hu]; rfl, hu]
    have hm := hm.reread
    rw [← size_reread] at hsz
    have h0 : 0 < n'.reread.ids.length := hn'.ok.ne
    generalize n'.reread = n at *
    obtain ⟨ho, hst, hq, hso, _⟩ := hm.1 rfl
    subst hq
    refine ⟨_, [], rfl, hso, ?_, fun hnm => ?_⟩
    · simp only
      rw [hst.ids_eq]
      simp only [List.mem_map]
      constructor
      · rintro ⟨x, ⟨e, he, rfl⟩, hx⟩; exact ⟨e, he, hx⟩
      · rintro ⟨e, he, hx⟩; exact ⟨_, ⟨e, he, rfl⟩, hx⟩
    · obtain ⟨es', m1, m2, m3⟩ := leafInsert_memRep (v := value) hm hk hlo hhi hnm
      refine ⟨es', m2, ?_⟩
      have hlv := hlive off.toNat (by simp)
      have hout := writeOrSplit_out (t := t) (h := 0) (s := s) (free := free)
        (tr := ⟨leafInsert n (countLt (n.ids.map idKey) (idKey key)) key value, countLt (n.ids.map idKey) (idKey key), ⟨off, l⟩⟩)
        hd (hw.imp id (fun hw => ⟨rfl, hw.2.1, by
          have hl' := hst.length.2
          simp only [leafInsert, List.length_append, List.length_cons, List.length_take, List.length_drop]; omega⟩)) hv hb m1 (by simp only [leafInsert, List.length_append, List.length_cons]; omega) (by simp only; omega) hlv (by simp) (by simp)
      exact hout.insOut (s0 := s) (free0 := free) (ps := [off.toNat]) (fun rest => rfl) (Frame.refl hv hb _) (by omega)
        (by simp) hlv (by simp) hnd (by simp)
  | @step h off n l p path hn hidx tp ih =>
    have hw : vbytes t.dim ≤ 2000 := hw.resolve_right (fun hc => by have := hc.1; omega)
    obtain ⟨n', qs, hn', rfl, hm⟩ := rep_iff.1 hr
    have hu := VNodeAt.unique hn hn'
    have hids : n.ids = n'.ids := by have := congrArg VNode.ids hu; exact this
    have hoffs : n.offsets = n'.offsets := by have := congrArg VNode.offsets hu; exact this
    rw [hids, hoffs] at hidx
    rw [hids, hu]
    have hmD : MemRep t.dim (Rep t.dim s.file.bytes h) false n' lo hi es qs := hm
    have hkids := hmD.2.1 rfl
    have hoffL := hlive off.toNat (by simp)
    have hndc := List.nodup_cons.1 hnd
    obtain ⟨ks1, ks2, ptrs1, q, ptrs2, lo', hi', es1, es2, es3, ps1, ps2, ps3, a1, a2, a3, a4, a5, a6, a7, a8,
        a9, a10, a11, a12, a13⟩ := hkids.locate (goodR_rep t.dim s.file.bytes h) (idKey key) hlo hhi
    have hpq : p = q := by
      rw [a2, ← a5, ← a6] at hidx
      simp at hidx
      exact hidx.symm
    subst hpq
    subst a4
    have hnd2 := hndc.2
    rw [List.nodup_append] at hnd2
    obtain ⟨nd1, nd23, nd1x⟩ := hnd2
    rw [List.nodup_append] at nd23
    obtain ⟨nd2, nd3, nd23x⟩ := nd23
    obtain ⟨tr, rest0, r1, r2, r3, r4⟩ := ih (.inl hw) a8 a10 a11 nd2 (fun x hx => hlive x (by simp [hx]))
    subst r1
    refine ⟨tr, rest0 ++ [⟨n'.reread, childIdx (n'.ids.map idKey) (idKey key), ⟨off, l⟩⟩], by simp, r2, ?_, fun hnm => ?_⟩
    · rw [r3, a3]
      constructor
      · rintro ⟨e, he, hx⟩; exact ⟨e, by simp [he], hx⟩
      · rintro ⟨e, he, hx⟩
        rcases List.mem_append.1 he with he | he
        · have := a12 e he; omega
        · rcases List.mem_append.1 he with he | he
          · exact ⟨e, he, hx⟩
          · have := a13 e he; omega
    · obtain ⟨es2', i1, i2⟩ := r4 hnm
      refine ⟨es1 ++ (es2' ++ es3), a3 ▸ i1.append es1 es3, ?_⟩
      have hL1 : ∀ x ∈ ps1, Live s free x := fun x hx => hlive x (by simp [hx])
      have hL3 : ∀ x ∈ ps3, Live s free x := fun x hx => hlive x (by simp [hx])
      have hd1 : ∀ x ∈ ps1, x ∉ ps2 := fun x hx hc => nd1x x hx x (by simp [hc]) rfl
      have hd3 : ∀ x ∈ ps3, x ∉ ps2 := fun x hx hc => nd23x x hc x hx rfl
      have ho2 : off.toNat ∉ ps2 := fun hc => hndc.1 (by simp [hc])
      have hsub : ∀ x ∈ ps2, x ∈ off.toNat :: (ps1 ++ (ps2 ++ ps3)) := fun x hx => by simp [hx]
      have hfreshmem : ∀ x, (x ∈ ps2 ∨ ¬ Live s free x) → x ∈ off.toNat :: (ps1 ++ (ps2 ++ ps3)) ∨ ¬ Live s free x :=
        fun x hx => hx.imp (hsub x) id
      have hdisj : ∀ x, (x ∈ ps2 ∨ ¬ Live s free x) → x ≠ off.toNat ∧ x ∉ ps1 ∧ x ∉ ps3 := by
        rintro x (hx | hx)
        · exact ⟨fun he => ho2 (he ▸ hx), fun hc => hd1 x hc hx, fun hc => hd3 x hc hx⟩
        · exact ⟨fun he => hx (he ▸ hoffL), fun hc => hx (hL1 x hc), fun hc => hx (hL3 x hc)⟩
      cases i2 with
      | done s' free' ps' eq frame len rep nodup live fresh =>
        have hkids' : Kids (Rep t.dim s'.file.bytes h) lo (n'.ids.map idKey) n'.offsets hi (es1 ++ (es2' ++ es3))
            (ps1 ++ (ps' ++ ps3)) := by
          rw [a1, a2]
          refine Seg.kids (a7.mono (fun _ _ _ _ _ hsx hrx => ?_)) (TailK.kids rep (a9.mono (fun _ _ _ _ _ hsx hrx => ?_)))
          · exact hrx.framed frame (fun x hx => hL1 x (hsx x hx)) (fun x hx => hd1 x (hsx x hx))
          · exact hrx.framed frame (fun x hx => hL3 x (hsx x hx)) (fun x hx => hd3 x (hsx x hx))
        refine .done s' free' (off.toNat :: (ps1 ++ (ps' ++ ps3))) (fun rest => ?_) (frame.weaken hsub) (by rw [Nat.add_mul]; omega)
          ⟨n', _, VNodeAt.frame hn' frame.len (frame.same _ hoffL ho2), rfl, ⟨by simp, fun _ => hkids', hmD.2.2⟩⟩ ?_ ?_ ?_
        · have := eq (⟨n'.reread, childIdx (n'.ids.map idKey) (idKey key), ⟨off, l⟩⟩ :: rest)
          simpa using this
        · rw [List.nodup_cons, List.nodup_append, List.nodup_append]
          refine ⟨?_, nd1, ⟨nodup, nd3, ?_⟩, ?_⟩
          · intro hc
            rcases List.mem_append.1 hc with hc | hc
            · exact hndc.1 (by simp [hc])
            · rcases List.mem_append.1 hc with hc | hc
              · exact (hdisj _ (fresh _ hc)).1 rfl
              · exact hndc.1 (by simp [hc])
          · rintro x hx y hy rfl
            exact (hdisj _ (fresh _ hx)).2.2 hy
          · rintro x hx y hy rfl
            rcases List.mem_append.1 hy with hy | hy
            · exact (hdisj _ (fresh _ hy)).2.1 hx
            · exact nd1x x hx x (by simp [hy]) rfl
        · intro x hx
          simp only [List.mem_cons, List.mem_append] at hx
          rcases hx with rfl | hx | hx | hx
          · exact frame.live _ hoffL
          · exact frame.live _ (hL1 x hx)
          · exact live x hx
          · exact frame.live _ (hL3 x hx)
        · intro x hx
          simp only [List.mem_cons, List.mem_append] at hx
          rcases hx with rfl | hx | hx | hx
          · exact .inl (by simp)
          · exact .inl (by simp [hx])
          · exact hfreshmem x (fresh x hx)
          · exact .inl (by simp [hx])
      | split s' free' mid mv moff esl esr psl psr eq frame len mvl ents left right nodup live fresh =>
        have hkids' : Kids (Rep t.dim s'.file.bytes h) lo (ks1 ++ idKey mid :: ks2) (ptrs1 ++ p :: moff :: ptrs2) hi
            (es1 ++ (esl ++ (esr ++ es3))) (ps1 ++ (psl ++ (psr ++ ps3))) := by
          refine Seg.kids (a7.mono (fun _ _ _ _ _ hsx hrx => ?_)) (.cons left (TailK.kids right
            (a9.mono (fun _ _ _ _ _ hsx hrx => ?_))))
          · exact hrx.framed frame (fun x hx => hL1 x (hsx x hx)) (fun x hx => hd1 x (hsx x hx))
          · exact hrx.framed frame (fun x hx => hL3 x (hsx x hx)) (fun x hx => hd3 x (hsx x hx))
        -- the updated parent
        obtain ⟨i, hix⟩ : ∃ i, i = childIdx (n'.ids.map idKey) (idKey key) := ⟨_, rfl⟩
        rw [← hix] at a5 ⊢
        have hil : i ≤ n'.ids.length := by
          have := congrArg List.length a1
          simp only [List.length_map, List.length_append] at this
          omega
        obtain ⟨m, hmdef⟩ : ∃ m : VNode, m = ⟨n'.reread.ids.take i ++ mid :: n'.reread.ids.drop i,
          n'.reread.vectors.take i ++ mv :: n'.reread.vectors.drop i, ptrs1 ++ p :: moff :: ptrs2, n'.dim⟩ := ⟨_, rfl⟩
        have hpu : parentUpdate ⟨n'.reread, i, ⟨off, l⟩⟩ mid mv p moff = ⟨m, i, ⟨off, l⟩⟩ := by
          unfold parentUpdate
          simp only [hmdef]
          congr 2
          show ((n'.offsets.take (i + 1) ++ n'.offsets.drop i).set i p).set (i + 1) moff = _
          rw [a2, ← a5, ← a6, List.drop_left, List.take_length_add_append, List.append_assoc]
          exact set_two ptrs1 p p p moff ptrs2 _ rfl
        have hsz0 := VNodeAt.size_le hn'
        have hmids : m.ids.map idKey = ks1 ++ idKey mid :: ks2 := by
          rw [hmdef]
          simp only [VNode.reread, List.map_append, List.map_cons, List.map_take, List.map_drop]
          rw [a1, ← a5, List.take_left, List.drop_left]
        have hmlen : m.ids.length = n'.ids.length + 1 := by
          rw [hmdef]; simp [VNode.reread]; omega
        have hrD := Dims.reread hmD.2.2.2
        have hmD' : m.Dims := by
          have h1 := hmD.2.2.2.1
          refine ⟨?_, ?_⟩
          · rw [hmdef]; simp [VNode.reread]; omega
          · intro w hw'
            rw [hmdef] at hw' ⊢
            simp only [List.mem_append, List.mem_cons] at hw'
            rcases hw' with hw' | rfl | hw'
            · exact hrD.2 w (List.mem_of_mem_take hw')
            · show w.length = n'.dim.toNat
              rw [hmD.2.2.1]; exact mvl
            · exact hrD.2 w (List.mem_of_mem_drop hw')
        have hmem : MemRep t.dim (SubRep t.dim s'.file.bytes (h + 1)) (h + 1 == 0) m lo hi
            (es1 ++ (esl ++ (esr ++ es3))) (ps1 ++ (psl ++ (psr ++ ps3))) := by
          refine ⟨by simp, fun _ => ?_, by rw [hmdef]; exact hmD.2.2.1, hmD'⟩
          rw [hmids, show m.offsets = ptrs1 ++ p :: moff :: ptrs2 by rw [hmdef]]; exact hkids'
        have hps2 : ∀ x ∈ psl ++ psr, x ≠ off.toNat ∧ x ∉ ps1 ∧ x ∉ ps3 := fun x hx => hdisj x (fresh x hx)
        have hqlive : ∀ x ∈ ps1 ++ (psl ++ (psr ++ ps3)), Live s' free' x := by
          intro x hx
          simp only [List.mem_append] at hx
          rcases hx with hx | hx | hx | hx
          · exact frame.live _ (hL1 x hx)
          · exact live x (by simp [hx])
          · exact live x (by simp [hx])
          · exact frame.live _ (hL3 x hx)
        have hndq : (off.toNat :: (ps1 ++ (psl ++ (psr ++ ps3)))).Nodup := by
          rw [← List.append_assoc psl, List.nodup_cons, List.nodup_append, List.nodup_append]
          refine ⟨?_, nd1, ⟨nodup, nd3, ?_⟩, ?_⟩
          · intro hc
            rcases List.mem_append.1 hc with hc | hc
            · exact hndc.1 (by simp [hc])
            · rcases List.mem_append.1 hc with hc | hc
              · exact (hps2 _ hc).1 rfl
              · exact hndc.1 (by simp [hc])
          · rintro x hx y hy rfl
            exact (hps2 _ hx).2.2 hy
          · rintro x hx y hy rfl
            rcases List.mem_append.1 hy with hy | hy
            · exact (hps2 _ hy).2.1 hx
            · exact nd1x x hx x (by simp [hy]) rfl
        have hszb : m.size ≤ pageSize + vbytes t.dim + 35 := by
          have h1 := (idSize_bounds mid).2
          have h2 := (offSize_bounds moff).2
          have e1 := sum_take_drop VNode.idSize n'.ids i
          have hvl := hmD.2.2.2.1
          have e2 : m.vectors.length = n'.vectors.length + 1 := by rw [hmD'.1, hmlen, hvl]
          unfold VNode.size at hsz0 ⊢
          rw [e2]
          rw [a2] at hsz0
          simp only [hmdef, VNode.reread, List.map_append, List.map_cons, List.sum_append, List.sum_cons, Nat.add_mul, Nat.one_mul] at hsz0 ⊢
          unfold vbytes
          rw [← hmD.2.2.1]
          omega
        have hout := writeOrSplit_out (t := t) (h := h + 1) (s := s') (free := free') (tr := ⟨m, i, ⟨off, l⟩⟩)
          hd (.inl hw) frame.valid frame.budget hmem (by simp only; omega) hszb (frame.live _ hoffL) hqlive
          (List.nodup_cons.1 hndq).1
        have hents : es1 ++ (es2' ++ es3) = es1 ++ (esl ++ (esr ++ es3)) := by rw [ents]; simp
        rw [hents]
        refine hout.insOut (s0 := s) (free0 := free) (ps := off.toNat :: (ps1 ++ (ps2 ++ ps3))) (fun rest => ?_)
          (frame.weaken hsub) len (by simp) (frame.live _ hoffL) hqlive hndq ?_
        · have := eq (⟨n'.reread, i, ⟨off, l⟩⟩ :: rest)
          simp only [List.append_assoc, List.cons_append, List.nil_append]
          rw [this, ← hpu]
          rfl
        · intro x hx
          simp only [List.mem_append] at hx
          rcases hx with hx | hx | hx | hx
          · exact .inl (by simp [hx])
          · exact hfreshmem x (fresh x (by simp [hx]))
          · exact hfreshmem x (fresh x (by simp [hx]))
          · exact .inl (by simp [hx])
      | full s' eq big =>
        refine .full s' (fun rest => ?_) (by rw [Nat.add_mul]; omega)
        have := eq (⟨n'.reread, childIdx (n'.ids.map idKey) (idKey key), ⟨off, l⟩⟩ :: rest)
        simpa using this

end Appendable.V
