import Verif.Lemmas.TreeIO
/-! `Insert`: the recursion up the path. -/
namespace Appendable
open Spec Tree

/-- `es'` is `es` with one more entry. -/
def InsRel (es : List Entry) (k : RV) (v : MemPtr) (es' : List Entry) : Prop :=
  ∃ a b, es = a ++ b ∧ es' = a ++ (k, v) :: b

theorem InsRel.perm {es k v es'} (h : InsRel es k v es') : es'.Perm ((k, v) :: es) := by
  obtain ⟨a, b, rfl, rfl⟩ := h
  exact List.perm_middle

theorem InsRel.append {es k v es'} (h : InsRel es k v es') (x y : List Entry) :
    InsRel (x ++ (es ++ y)) k v (x ++ (es' ++ y)) := by
  obtain ⟨a, b, rfl, rfl⟩ := h
  exact ⟨x ++ a, b ++ y, by simp, by simp⟩

theorem InsRel.bytes {es k v es'} (h : InsRel es k v es') {w : UInt16} : leafBytes w es ≤ leafBytes w es' := by
  obtain ⟨a, b, rfl, rfl⟩ := h
  unfold leafBytes
  simp only [List.map_append, List.map_cons, List.sum_append, List.sum_cons]
  omega

/-- Continuing with the rest of the path after a split. -/
def Tree.bubble (t : Tree) (rest : List TRec) (k : RV) (n m : UInt64) : Act PF Unit :=
  match rest with
  | [] => t.newRoot k n m
  | p :: rest => t.insertLoop (parentUpdate p k n m) rest

theorem insertLoop_eq (t : Tree) (tr : TRec) (rest : List TRec) (s : PF) :
    t.insertLoop tr rest s = (do
      match ← t.writeOrSplit tr with
      | none => return ()
      | some (k, n, m) => t.bubble rest k n m : Act PF Unit) s := by
  cases rest <;> rfl

/-- Outcome of the loop below the node at `off`. -/
inductive InsOut (t : Tree) (run : List TRec → Res Unit × PF) (h : Nat) (off : UInt64) (lo hi : Option RV)
    (es' : List Entry) (ps : List Nat) (s : PF) (free : List Nat) : Prop
  | done (s' : PF) (free' : List Nat) (ps' : List Nat) (eq : ∀ rest, run rest = (.ok (), s'))
      (frame : Frame s free s' free' ps)
      (len : s'.file.bytes.length ≤ s.file.bytes.length + h * pageSize)
      (rep : Rep t.cfg s'.file.bytes h off lo hi es' ps') (nodup : ps'.Nodup)
      (live : ∀ x ∈ ps', Live s' free' x) (fresh : ∀ x ∈ ps', x ∈ ps ∨ ¬ Live s free x)
      (fill : ∀ m, m ≤ minKeys t.cfg → DenseBelow m t.cfg s.file.bytes h off →
        DenseBelow m t.cfg s'.file.bytes h off ∧ (Dense m t.cfg s.file.bytes h off → Dense m t.cfg s'.file.bytes h off))
      (used : ∀ x, Live s' free' x → Live s free x ∨ x ∈ ps') (keep : ∀ x ∈ ps, x ∈ ps') (nofree : free = [] → free' = [])
  | split (s' : PF) (free' : List Nat) (mid : RV) (moff : UInt64) (es1 es2 : List Entry) (ps1 ps2 : List Nat)
      (eq : ∀ rest, run rest = t.bubble rest mid off moff s')
      (frame : Frame s free s' free' ps)
      (len : s'.file.bytes.length ≤ s.file.bytes.length + (h + 1) * pageSize)
      (key : KeyOK t.cfg mid) (ents : es' = es1 ++ es2)
      (left : Rep t.cfg s'.file.bytes h off lo (some mid) es1 ps1)
      (right : Rep t.cfg s'.file.bytes h moff (some mid) hi es2 ps2) (nodup : (ps1 ++ ps2).Nodup)
      (live : ∀ x ∈ ps1 ++ ps2, Live s' free' x) (fresh : ∀ x ∈ ps1 ++ ps2, x ∈ ps ∨ ¬ Live s free x)
      (over : h = 0 → pageSize < leafBytes t.cfg.width es')
      (fill : ∀ m, m ≤ minKeys t.cfg → DenseBelow m t.cfg s.file.bytes h off →
        Dense m t.cfg s'.file.bytes h off ∧ Dense m t.cfg s'.file.bytes h moff)
      (used : ∀ x, Live s' free' x → Live s free x ∨ x ∈ ps1 ++ ps2) (keep : ∀ x ∈ ps, x ∈ ps1 ++ ps2) (nofree : free = [] → free' = [])
  | full (s' : PF) (eq : ∀ rest, run rest = (.err .io, s'))
      (big : 2 ^ 63 ≤ s.file.bytes.length + (h + 1) * pageSize)

/-- A page whose children are those of a node in memory. -/
theorem MemRep.denseBelow {cfg : Cfg} {s s' : PF} {free free' : List Nat} {h m : Nat} {n n' : Node} {lo hi : Option RV} {es : List Entry}
    {qs P : List Nat} {off : UInt64} (hm : MemRep cfg (SubRep cfg s.file.bytes h) (h == 0) n lo hi es qs) (hf : Frame s free s' free' P)
    (hq : ∀ p ∈ qs, Live s free p) (hd : ∀ p ∈ qs, p ∉ P)
    (hc : ∀ h', h = h' + 1 → ∀ o ∈ n.intPtrs, Dense m cfg s.file.bytes h' o) (hn : NodeAt cfg s'.file.bytes off n')
    (hs : ∀ o ∈ n'.intPtrs, o ∈ n.intPtrs) : DenseBelow m cfg s'.file.bytes h off := by
  cases h with
  | zero => trivial
  | succ h =>
    refine ⟨n', hn, fun o ho => ?_⟩
    obtain ⟨_, _, _, ps', c1, _, c3⟩ := (hm.2.1 rfl).2.child (hs o ho)
    exact Rep.dense_frame c1 hf.len (fun x hx => hf.same x (hq x (c3 x hx)) (hd x (c3 x hx))) (hc h rfl o (hs o ho))

/-- The outcome of writing back the node at the top, in the terms of `InsOut`. -/
theorem WriteOut.insOut {t : Tree} {tr : TRec} {h : Nat} {lo hi : Option RV} {es : List Entry} {qs ps : List Nat} {s0 s : PF}
    {free0 free : List Nat} {run : List TRec → Res Unit × PF} (ho : WriteOut t tr h lo hi es qs s free)
    (heq : ∀ rest, run rest = t.insertLoop tr rest s)
    (hfr : Frame s0 free0 s free ps) (hlen : s.file.bytes.length ≤ s0.file.bytes.length + h * pageSize)
    (hoff : tr.ptr.offset.toNat ∈ ps) (hl : Live s free tr.ptr.offset.toNat) (hq : ∀ p ∈ qs, Live s free p)
    (hn : (tr.ptr.offset.toNat :: qs).Nodup) (hfresh : ∀ x ∈ qs, x ∈ ps ∨ ¬ Live s0 free0 x)
    (hm : MemRep t.cfg (SubRep t.cfg s.file.bytes h) (h == 0) tr.node lo hi es qs)
    (hfill : ∀ m, m ≤ minKeys t.cfg → DenseBelow m t.cfg s0.file.bytes h tr.ptr.offset →
      ∀ h', h = h' + 1 → ∀ o ∈ tr.node.intPtrs, Dense m t.cfg s.file.bytes h' o)
    (hmore : ∀ n, NodeAt t.cfg s0.file.bytes tr.ptr.offset n → n.keys.length ≤ tr.node.keys.length)
    (hused : ∀ x, Live s free x → Live s0 free0 x ∨ x ∈ tr.ptr.offset.toNat :: qs) (hkeep : ∀ x ∈ ps, x ∈ tr.ptr.offset.toNat :: qs)
    (hnf : free0 = [] → free = []) :
    InsOut t run h tr.ptr.offset lo hi es ps s0 free0 := by
  have hin : ∀ q ∈ [tr.ptr.offset.toNat], q ∈ ps ∨ ¬ Live s0 free0 q := by
    intro q hq; simp only [List.mem_singleton] at hq; subst hq; exact .inl hoff
  have hd : ∀ p ∈ qs, p ∉ [tr.ptr.offset.toNat] := fun p hp hc => by
    simp only [List.mem_singleton] at hc
    exact (List.nodup_cons.1 hn).1 (hc ▸ hp)
  cases ho with
  | fits s' run' frame len rep node =>
    refine .done s' free _ (fun rest => ?_) (hfr.trans frame hin) (by omega) rep hn ?_ ?_ (fun m hmk hB => ?_) (fun x hx => ?_) hkeep hnf
    rotate_left 3
    · have hB' := hm.denseBelow frame hq hd (hfill m hmk hB) node (fun _ h => h)
      refine ⟨hB', fun hD => Dense.of node ?_ hB'⟩
      obtain ⟨n, h1, h2⟩ := hD.keys
      exact Nat.le_trans h2 (hmore n h1)
    · exact hused x ⟨hx.1, hx.2.1, by have := hx.2.2.1; omega, hx.2.2.2⟩
    · rw [heq, insertLoop_eq, Act.bind_ok run']; rfl
    · intro x hx
      rcases List.mem_cons.1 hx with rfl | hx
      · exact frame.live _ hl
      · exact frame.live _ (hq x hx)
    · intro x hx
      rcases List.mem_cons.1 hx with rfl | hx
      · exact .inl hoff
      · exact hfresh x hx
  | split s' free' mid moff es1 es2 qs1 qs2 run' frame len key ents pages fresh liveM left right over nodes used nofree =>
    subst pages
    have hmn : ¬ Live s0 free0 moff.toNat := fun hc => fresh (hfr.live _ hc)
    have hmq : ∀ x ∈ tr.ptr.offset.toNat :: (qs1 ++ qs2), x ≠ moff.toNat := by
      rintro x hx rfl
      rcases List.mem_cons.1 hx with hx | hx
      · exact fresh (hx ▸ hl)
      · exact fresh (hq _ hx)
    have key2 : ∀ x ∈ tr.ptr.offset.toNat :: qs1 ++ moff.toNat :: qs2, x = moff.toNat ∨
        x ∈ tr.ptr.offset.toNat :: (qs1 ++ qs2) := by
      intro x hx
      simp only [List.cons_append, List.mem_cons, List.mem_append] at hx ⊢
      rcases hx with h | h | h | h <;> simp [h]
    refine .split s' free' mid moff es1 es2 _ _ (fun rest => ?_) (hfr.trans frame hin) ?_ key ents
      left right ?_ ?_ ?_ over (fun m hmk hB => ?_) (fun x hx => ?_) (fun x hx => ?_) (fun h => nofree (hnf h))
    rotate_left 5
    · obtain ⟨a, b, n1, n2, n3, n4, n5, n6⟩ := nodes
      have hc := hfill m hmk hB
      exact ⟨Dense.of n1 (Nat.le_trans hmk n3) (hm.denseBelow frame hq hd hc n1 n5), Dense.of n2 (Nat.le_trans hmk n4) (hm.denseBelow frame hq hd hc n2 n6)⟩
    · rcases used x hx with h | rfl
      · refine (hused x h).imp id (fun h => ?_)
        simp only [List.cons_append, List.mem_cons, List.mem_append] at h ⊢
        rcases h with h | h | h <;> simp [h]
      · exact .inr (by simp)
    · have h := hkeep x hx
      simp only [List.cons_append, List.mem_cons, List.mem_append] at h ⊢
      rcases h with h | h | h <;> simp [h]
    · rw [heq, insertLoop_eq, Act.bind_ok run']
    · rw [Nat.add_mul]; omega
    · have hp : (tr.ptr.offset.toNat :: qs1 ++ moff.toNat :: qs2).Perm
          (moff.toNat :: (tr.ptr.offset.toNat :: (qs1 ++ qs2))) := by
        rw [show tr.ptr.offset.toNat :: (qs1 ++ qs2) = (tr.ptr.offset.toNat :: qs1) ++ qs2 by simp]
        exact List.perm_middle
      rw [hp.nodup_iff, List.nodup_cons]
      exact ⟨fun hc => hmq _ hc rfl, hn⟩
    · intro x hx
      rcases key2 x hx with rfl | hx
      · exact liveM
      · rcases List.mem_cons.1 hx with rfl | hx
        · exact frame.live _ hl
        · exact frame.live _ (hq x hx)
    · intro x hx
      rcases key2 x hx with rfl | hx
      · exact .inr hmn
      · rcases List.mem_cons.1 hx with rfl | hx
        · exact .inl hoff
        · exact hfresh x hx
  | full s' run' big =>
    refine .full s' (fun rest => ?_) ?_
    · rw [heq, insertLoop_eq, Act.bind_err run']
    · rw [Nat.add_mul]; omega

/-- Inserting into a sorted leaf. -/
theorem leafInsert_memRep {cfg : Cfg} {R n lo hi es qs} (hm : MemRep cfg R true n lo hi es qs) {k : RV} {v : MemPtr}
    (hk : KeyOK cfg k) (hlo : GeB lo k) (hhi : LtB k hi) (hnm : k ∉ n.keys) :
    ∃ es', MemRep cfg R true (leafInsert n (countLt n.keys k) k v) lo hi es' qs ∧ InsRel es k v es' ∧
      (leafInsert n (countLt n.keys k) k v).size cfg.width ≤ n.size cfg.width + vlen cfg + 30 := by
  obtain ⟨hs, he, hq, hso, hb, hlm⟩ := hm.1 rfl
  have hj := countLt_le n.keys k
  generalize hjj : countLt n.keys k = j at *
  have hlen := hs.1
  have hpw := hso
  have hlt : ∀ x ∈ n.keys.take j, KeyLt x k := by
    intro x hx
    obtain ⟨i, hi, rfl⟩ := List.mem_iff_getElem.1 hx
    rw [List.getElem_take]
    rw [List.length_take] at hi
    exact (sorted_lt_countLt hso k i (by omega)).2 (by omega)
  have hgt : ∀ x ∈ n.keys.drop j, KeyLt k x := by
    intro x hx
    obtain ⟨i, hi, rfl⟩ := List.mem_iff_getElem.1 hx
    rw [List.getElem_drop]
    rw [List.length_drop] at hi
    have h1 : ¬ KeyLt n.keys[j + i] k := by rw [sorted_lt_countLt hso k (j + i) (by omega)]; omega
    rcases not_keyLt.1 h1 with h | h
    · exact absurd (h ▸ List.getElem_mem _) hnm
    · exact h
  have hkeys : ∀ P : RV → Prop, P k → (∀ x ∈ n.keys, P x) → ∀ x ∈ n.keys.take j ++ k :: n.keys.drop j, P x := by
    intro P h1 h2 x hx
    rcases List.mem_append.1 hx with hx | hx
    · exact h2 x (List.mem_of_mem_take hx)
    · rcases List.mem_cons.1 hx with rfl | hx
      · exact h1
      · exact h2 x (List.mem_of_mem_drop hx)
  refine ⟨es.take j ++ (k, v) :: es.drop j, ⟨fun _ => ⟨⟨?_, hs.2⟩, ?_, hq, ?_, ?_, ?_⟩, by simp, ?_⟩,
    ⟨_, _, (List.take_append_drop j es).symm, rfl⟩, ?_⟩
  · simp only [leafInsert, List.length_append, List.length_take, List.length_cons, List.length_drop]; omega
  · simp only [leafInsert]
    rw [List.zip_append (by simp; omega), List.zip_cons_cons, he, zip_take, zip_drop]
  · unfold SortedKeys
    simp only [leafInsert]
    rw [List.pairwise_append]
    refine ⟨List.Pairwise.sublist (List.take_sublist _ _) hso, List.pairwise_cons.2 ⟨hgt,
      List.Pairwise.sublist (List.drop_sublist _ _) hso⟩, ?_⟩
    intro a ha b hb'
    rcases List.mem_cons.1 hb' with rfl | hb'
    · exact hlt a ha
    · exact (hlt a ha).trans (hgt b hb')
  · exact hkeys _ ⟨hlo, hhi⟩ hb
  · intro l hl
    have := hlm l hl
    rw [← List.take_append_drop j n.keys, List.mem_append] at this
    simp only [leafInsert, List.mem_append, List.mem_cons]
    rcases this with h | h
    · exact .inl h
    · exact .inr (.inr h)
  · exact hkeys _ hk hm.2.2
  · have h1 := (keySize_bounds hk).2
    have h2 := (leafPtrSize_bounds v).2
    have e1 := sum_take_drop (keySize cfg.width) n.keys j
    have e2 := sum_take_drop leafPtrSize n.leafPtrs j
    unfold Node.size leafInsert
    simp only [List.map_append, List.map_cons, List.sum_append, List.sum_cons]
    omega

theorem set_two {α : Type} (a : List α) (x y n m : α) (b : List α) (i : Nat) (hi : i = a.length) :
    ((a ++ x :: y :: b).set i n).set (i + 1) m = a ++ n :: m :: b := by
  subst hi
  rw [List.set_append_right _ _ (by simp), Nat.sub_self, List.set_cons_zero, List.set_append_right _ _ (by omega)]
  simp

theorem insert_rec {t : Tree} {key : RV} {value : MemPtr} (hw : vlen t.cfg ≤ 2016) (hk : KeyOK t.cfg key)
    {h : Nat} {s : PF} {free : List Nat} {off : UInt64} {path : List TRec} {lo hi es ps}
    (hp : PathTo t.cfg s.file.bytes key h off path)
    (hr : Rep t.cfg s.file.bytes h off lo hi es ps) (hlo : GeB lo key) (hhi : LtB key hi)
    (hv : s.Valid free) (hb : s.file.budget = none) (hnd : ps.Nodup) (hlive : ∀ p ∈ ps, Live s free p) :
    ∃ tr rest0, path = tr :: rest0 ∧ SortedKeys tr.node.keys ∧ (key ∈ tr.node.keys ↔ ∃ e ∈ es, e.1 = key) ∧
      (key ∉ tr.node.keys → ∃ es', InsRel es key value es' ∧
        InsOut t (fun rest => t.insertLoop { tr with node := leafInsert tr.node (countLt tr.node.keys key) key value }
          (rest0 ++ rest) s) h off lo hi es' ps s free) := by
  induction hp generalizing lo hi es ps with
  | @leaf off n l hn hl hso =>
    obtain ⟨n', qs, hn', rfl, hm⟩ := hr
    cases hn.unique hn'
    obtain ⟨hs, he, hq, _, _⟩ := hm.1 rfl
    subst hq
    refine ⟨_, [], rfl, hso, ?_, fun hnm => ?_⟩
    · subst he
      simp only
      constructor
      · intro hmem
        obtain ⟨i, hi, rfl⟩ := List.mem_iff_getElem.1 hmem
        have hi2 : i < (n.keys.zip n.leafPtrs).length := by rw [List.length_zip, hs.1]; simpa using hi
        exact ⟨_, List.getElem_mem hi2, by rw [List.getElem_zip]⟩
      · rintro ⟨e, he, rfl⟩
        exact (List.of_mem_zip he).1
    · obtain ⟨es', m1, m2, m3⟩ := leafInsert_memRep (v := value) hm hk hlo hhi hnm
      refine ⟨es', m2, ?_⟩
      have hsz := hn.size_le
      have hlv := hlive off.toNat (by simp)
      have hout := writeOrSplit_out (t := t) (h := 0) (s := s) (free := free)
        (tr := ⟨leafInsert n (countLt n.keys key) key value, (countLt n.keys key : Nat), ⟨off, l⟩⟩)
        hw hv hb m1 (by simp only [leafInsert, List.length_append, List.length_cons]; omega) (by simp only; omega) hlv (by simp) (by simp)
      exact hout.insOut (s0 := s) (free0 := free) (ps := [off.toNat]) (fun rest => rfl) (Frame.refl hv hb _) (by omega)
        (by simp) hlv (by simp) hnd (by simp) m1 (fun m _ _ h' hc => by omega)
        (fun n2 hn2 => by cases hn.unique hn2; simp only [leafInsert, List.length_append, List.length_take, List.length_cons, List.length_drop]; omega)
        (fun x hx => .inl hx) (fun x hx => hx) id
  | @step h off n l p path hn hl hidx tp ih =>
    obtain ⟨n', qs, hn', rfl, hm⟩ := rep_iff.1 hr
    cases hn.unique hn'
    have hm' : MemRep t.cfg (Rep t.cfg s.file.bytes h) false n lo hi es qs := hm
    obtain ⟨hs, hkids⟩ := hm'.2.1 rfl
    have hoffL := hlive off.toNat (by simp)
    have hndc := List.nodup_cons.1 hnd
    obtain ⟨ks1, ks2, ptrs1, q, ptrs2, lo', hi', es1, es2, es3, ps1, ps2, ps3, a1, a2, a3, a4, a5, a6, a7, a8,
        a9, a10, a11, a12, a13⟩ := hkids.locate (goodR_rep t.cfg s.file.bytes h) key hlo hhi
    have hpq : p = q := by
      rw [a2, ← a5, ← a6] at hidx
      simp at hidx
      exact hidx.symm
    subst hpq
    subst a4
    have hnd2 := hndc.2
    rw [List.nodup_append] at hnd2
    obtain ⟨nd1, nd23, nd1x⟩ := hnd2
    rw [List.nodup_append] at nd23
    obtain ⟨nd2, nd3, nd23x⟩ := nd23
    obtain ⟨tr, rest0, r1, r2, r3, r4⟩ := ih a8 a10 a11 nd2 (fun x hx => hlive x (by simp [hx]))
    subst r1
    refine ⟨tr, rest0 ++ [⟨n, (childIdx n.keys key : Nat), ⟨off, l⟩⟩], by simp, r2, ?_, fun hnm => ?_⟩
    · rw [r3, a3]
      constructor
      · rintro ⟨e, he, rfl⟩; exact ⟨e, by simp [he], rfl⟩
      · rintro ⟨e, he, rfl⟩
        rcases List.mem_append.1 he with he | he
        · exact absurd (a12 e he) (KeyLt.irrefl _)
        · rcases List.mem_append.1 he with he | he
          · exact ⟨e, he, rfl⟩
          · exact absurd (a13 e he) (KeyLt.irrefl _)
    · obtain ⟨es2', i1, i2⟩ := r4 hnm
      refine ⟨es1 ++ (es2' ++ es3), a3 ▸ i1.append es1 es3, ?_⟩
      have hL1 : ∀ x ∈ ps1, Live s free x := fun x hx => hlive x (by simp [hx])
      have hL3 : ∀ x ∈ ps3, Live s free x := fun x hx => hlive x (by simp [hx])
      have hd1 : ∀ x ∈ ps1, x ∉ ps2 := fun x hx hc => nd1x x hx x (by simp [hc]) rfl
      have hd3 : ∀ x ∈ ps3, x ∉ ps2 := fun x hx hc => nd23x x hc x hx rfl
      have ho2 : off.toNat ∉ ps2 := fun hc => hndc.1 (by simp [hc])
      have hsub : ∀ x ∈ ps2, x ∈ off.toNat :: (ps1 ++ (ps2 ++ ps3)) := fun x hx => by simp [hx]
      have hfreshmem : ∀ x, (x ∈ ps2 ∨ ¬ Live s free x) → x ∈ off.toNat :: (ps1 ++ (ps2 ++ ps3)) ∨ ¬ Live s free x :=
        fun x hx => hx.imp (hsub x) id
      have hdisj : ∀ x, (x ∈ ps2 ∨ ¬ Live s free x) → x ≠ off.toNat ∧ x ∉ ps1 ∧ x ∉ ps3 := by
        rintro x (hx | hx)
        · exact ⟨fun he => ho2 (he ▸ hx), fun hc => hd1 x hc hx, fun hc => hd3 x hc hx⟩
        · exact ⟨fun he => hx (he ▸ hoffL), fun hc => hx (hL1 x hc), fun hc => hx (hL3 x hc)⟩
      cases i2 with
      | done s' free' ps' eq frame len rep nodup live fresh fill used keep nofree =>
        have hkids' : Kids (Rep t.cfg s'.file.bytes h) lo n.keys n.intPtrs hi (es1 ++ (es2' ++ es3))
            (ps1 ++ (ps' ++ ps3)) := by
          rw [a1, a2]
          refine Seg.kids (a7.mono (fun _ _ _ _ _ hsx hrx => ?_)) (TailK.kids rep (a9.mono (fun _ _ _ _ _ hsx hrx => ?_)))
          · exact hrx.framed frame (fun x hx => hL1 x (hsx x hx)) (fun x hx => hd1 x (hsx x hx))
          · exact hrx.framed frame (fun x hx => hL3 x (hsx x hx)) (fun x hx => hd3 x (hsx x hx))
        refine .done s' free' (off.toNat :: (ps1 ++ (ps' ++ ps3))) (fun rest => ?_) (frame.weaken hsub) (by rw [Nat.add_mul]; omega)
          ⟨n, _, hn.frame frame.len (frame.same _ hoffL ho2), rfl, ⟨by simp, fun _ => ⟨hs, hkids'⟩, hm'.2.2⟩⟩ ?_ ?_ ?_ ?_ ?_ ?_ nofree
        rotate_left 4
        · intro m hmk hB
          obtain ⟨n2, hn2, hch⟩ := hB
          cases hn.unique hn2
          have hn' := hn.frame frame.len (frame.same _ hoffL ho2)
          have hB' : DenseBelow m t.cfg s'.file.bytes (h + 1) off := by
            refine ⟨n, hn', fun o ho => ?_⟩
            have hD := hch o ho
            rw [a2] at ho
            rcases List.mem_append.1 ho with ho | ho
            · obtain ⟨_, _, _, _, c1, _, c3⟩ := a7.child ho
              exact c1.dense_frame frame.len (fun x hx => frame.same x (hL1 x (c3 x hx)) (hd1 x (c3 x hx))) hD
            · rcases List.mem_cons.1 ho with rfl | ho
              · exact (fill m hmk hD.below).2 hD
              · obtain ⟨_, _, _, _, c1, _, c3⟩ := a9.child ho
                exact c1.dense_frame frame.len (fun x hx => frame.same x (hL3 x (c3 x hx)) (hd3 x (c3 x hx))) hD
          refine ⟨hB', fun hD => ?_⟩
          obtain ⟨n3, h3, h4⟩ := hD.keys
          cases hn.unique h3
          exact Dense.of hn' h4 hB'
        · intro x hx
          exact (used x hx).imp id (fun h => by simp [h])
        · intro x hx
          simp only [List.mem_cons, List.mem_append] at hx ⊢
          rcases hx with hx | hx | hx | hx
          · exact .inl hx
          · exact .inr (.inl hx)
          · exact .inr (.inr (.inl (keep x hx)))
          · exact .inr (.inr (.inr hx))
        · have := eq (⟨n, (childIdx n.keys key : Nat), ⟨off, l⟩⟩ :: rest)
          simpa using this
        · rw [List.nodup_cons, List.nodup_append, List.nodup_append]
          refine ⟨?_, nd1, ⟨nodup, nd3, ?_⟩, ?_⟩
          · intro hc
            rcases List.mem_append.1 hc with hc | hc
            · exact hndc.1 (by simp [hc])
            · rcases List.mem_append.1 hc with hc | hc
              · exact (hdisj _ (fresh _ hc)).1 rfl
              · exact hndc.1 (by simp [hc])
          · rintro x hx y hy rfl
            exact (hdisj _ (fresh _ hx)).2.2 hy
          · rintro x hx y hy rfl
            rcases List.mem_append.1 hy with hy | hy
            · exact (hdisj _ (fresh _ hy)).2.1 hx
            · exact nd1x x hx x (by simp [hy]) rfl
        · intro x hx
          simp only [List.mem_cons, List.mem_append] at hx
          rcases hx with rfl | hx | hx | hx
          · exact frame.live _ hoffL
          · exact frame.live _ (hL1 x hx)
          · exact live x hx
          · exact frame.live _ (hL3 x hx)
        · intro x hx
          simp only [List.mem_cons, List.mem_append] at hx
          rcases hx with rfl | hx | hx | hx
          · exact .inl (by simp)
          · exact .inl (by simp [hx])
          · exact hfreshmem x (fresh x hx)
          · exact .inl (by simp [hx])
      | split s' free' mid moff esl esr psl psr eq frame len hkey ents left right nodup live fresh over fill used keep nofree =>
        have hkids' : Kids (Rep t.cfg s'.file.bytes h) lo (ks1 ++ mid :: ks2) (ptrs1 ++ p :: moff :: ptrs2) hi
            (es1 ++ (esl ++ (esr ++ es3))) (ps1 ++ (psl ++ (psr ++ ps3))) := by
          refine Seg.kids (a7.mono (fun _ _ _ _ _ hsx hrx => ?_)) (.cons left (TailK.kids right
            (a9.mono (fun _ _ _ _ _ hsx hrx => ?_))))
          · exact hrx.framed frame (fun x hx => hL1 x (hsx x hx)) (fun x hx => hd1 x (hsx x hx))
          · exact hrx.framed frame (fun x hx => hL3 x (hsx x hx)) (fun x hx => hd3 x (hsx x hx))
        have hpu : parentUpdate ⟨n, (childIdx n.keys key : Nat), ⟨off, l⟩⟩ mid p moff
            = ⟨⟨n.leafPtrs, ptrs1 ++ p :: moff :: ptrs2, ks1 ++ mid :: ks2⟩, (childIdx n.keys key : Nat), ⟨off, l⟩⟩ := by
          unfold parentUpdate
          simp only [Int.toNat_natCast]
          rw [← a5, a1, a2, List.take_left, List.drop_left, ← a6, List.drop_left, List.take_length_add_append]
          congr 2
          rw [List.append_assoc]
          exact set_two ptrs1 p p p moff ptrs2 _ rfl
        have hsz0 := hn.size_le
        have hmem : MemRep t.cfg (SubRep t.cfg s'.file.bytes (h + 1)) (h + 1 == 0)
            ⟨n.leafPtrs, ptrs1 ++ p :: moff :: ptrs2, ks1 ++ mid :: ks2⟩ lo hi
            (es1 ++ (esl ++ (esr ++ es3))) (ps1 ++ (psl ++ (psr ++ ps3))) := by
          refine ⟨by simp, fun _ => ⟨⟨?_, hs.2⟩, hkids'⟩, ?_⟩
          · have := hkids'.length; simpa using this
          · intro x hx
            have hall := hm'.2.2
            rw [a1] at hall
            simp only [List.mem_append, List.mem_cons] at hx
            rcases hx with hx | rfl | hx
            · exact hall x (by simp [hx])
            · exact hkey
            · exact hall x (by simp [hx])
        have hps2 : ∀ x ∈ psl ++ psr, x ≠ off.toNat ∧ x ∉ ps1 ∧ x ∉ ps3 := fun x hx => hdisj x (fresh x hx)
        have hqlive : ∀ x ∈ ps1 ++ (psl ++ (psr ++ ps3)), Live s' free' x := by
          intro x hx
          simp only [List.mem_append] at hx
          rcases hx with hx | hx | hx | hx
          · exact frame.live _ (hL1 x hx)
          · exact live x (by simp [hx])
          · exact live x (by simp [hx])
          · exact frame.live _ (hL3 x hx)
        have hndq : (off.toNat :: (ps1 ++ (psl ++ (psr ++ ps3)))).Nodup := by
          rw [← List.append_assoc psl, List.nodup_cons, List.nodup_append, List.nodup_append]
          refine ⟨?_, nd1, ⟨nodup, nd3, ?_⟩, ?_⟩
          · intro hc
            rcases List.mem_append.1 hc with hc | hc
            · exact hndc.1 (by simp [hc])
            · rcases List.mem_append.1 hc with hc | hc
              · exact (hps2 _ hc).1 rfl
              · exact hndc.1 (by simp [hc])
          · rintro x hx y hy rfl
            exact (hps2 _ hx).2.2 hy
          · rintro x hx y hy rfl
            rcases List.mem_append.1 hy with hy | hy
            · exact (hps2 _ hy).2.1 hx
            · exact nd1x x hx x (by simp [hy]) rfl
        have hszb : (⟨n.leafPtrs, ptrs1 ++ p :: moff :: ptrs2, ks1 ++ mid :: ks2⟩ : Node).size t.cfg.width
            ≤ pageSize + vlen t.cfg + 30 := by
          have h1 := (keySize_bounds hkey).2
          have h2 := (intPtrSize_bounds moff).2
          unfold Node.size at hsz0 ⊢
          rw [a1, a2] at hsz0
          simp only [List.map_append, List.map_cons, List.sum_append, List.sum_cons] at hsz0 ⊢
          omega
        have hout := writeOrSplit_out (t := t) (h := h + 1) (s := s') (free := free')
          (tr := ⟨⟨n.leafPtrs, ptrs1 ++ p :: moff :: ptrs2, ks1 ++ mid :: ks2⟩, (childIdx n.keys key : Nat), ⟨off, l⟩⟩)
          hw frame.valid frame.budget hmem (by simp only [List.length_append, List.length_cons]; omega) hszb (frame.live _ hoffL) hqlive
          (List.nodup_cons.1 hndq).1
        have hents : es1 ++ (es2' ++ es3) = es1 ++ (esl ++ (esr ++ es3)) := by rw [ents]; simp
        rw [hents]
        refine hout.insOut (s0 := s) (free0 := free) (ps := off.toNat :: (ps1 ++ (ps2 ++ ps3))) (fun rest => ?_)
          (frame.weaken hsub) len (by simp) (frame.live _ hoffL) hqlive hndq ?_ hmem ?_ ?_ ?_ ?_ nofree
        rotate_left 2
        · rintro m hmk ⟨n2, hn2, hch⟩ h' heq o ho
          cases heq
          cases hn.unique hn2
          have hpD := fill m hmk (hch p (by rw [a2]; simp)).below
          rcases List.mem_append.1 ho with ho | ho
          · obtain ⟨_, _, _, _, c1, _, c3⟩ := a7.child ho
            exact c1.dense_frame frame.len (fun x hx => frame.same x (hL1 x (c3 x hx)) (hd1 x (c3 x hx))) (hch o (by rw [a2]; simp [ho]))
          · rcases List.mem_cons.1 ho with rfl | ho
            · exact hpD.1
            · rcases List.mem_cons.1 ho with rfl | ho
              · exact hpD.2
              · obtain ⟨_, _, _, _, c1, _, c3⟩ := a9.child ho
                exact c1.dense_frame frame.len (fun x hx => frame.same x (hL3 x (c3 x hx)) (hd3 x (c3 x hx))) (hch o (by rw [a2]; simp [ho]))
        · intro n2 hn2
          cases hn.unique hn2
          rw [a1]
          simp only [List.length_append, List.length_cons]
          omega
        · intro x hx
          refine (used x hx).imp id (fun h => ?_)
          simp only [List.mem_cons, List.mem_append] at h ⊢
          rcases h with h | h <;> simp [h]
        · intro x hx
          simp only [List.mem_cons, List.mem_append] at hx ⊢
          rcases hx with hx | hx | hx | hx
          · exact .inl hx
          · exact .inr (.inl hx)
          · have := keep x hx
            simp only [List.mem_append] at this
            rcases this with h | h <;> simp [h]
          · simp [hx]
        · have := eq (⟨n, (childIdx n.keys key : Nat), ⟨off, l⟩⟩ :: rest)
          simp only [List.append_assoc, List.cons_append, List.nil_append]
          rw [this, ← hpu]
          rfl
        · intro x hx
          simp only [List.mem_append] at hx
          rcases hx with hx | hx | hx | hx
          · exact .inl (by simp [hx])
          · exact hfreshmem x (fresh x (by simp [hx]))
          · exact hfreshmem x (fresh x (by simp [hx]))
          · exact .inl (by simp [hx])
      | full s' eq big =>
        refine .full s' (fun rest => ?_) (by rw [Nat.add_mul]; omega)
        have := eq (⟨n, (childIdx n.keys key : Nat), ⟨off, l⟩⟩ :: rest)
        simpa using this

end Appendable
