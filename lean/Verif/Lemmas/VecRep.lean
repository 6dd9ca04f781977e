import Verif.Lemmas.VecIO
/-! Representation of a list of vectors, sorted by id, by a tree of pages of the vector B-tree. -/
namespace Appendable.V
open Spec VTree

/-- What the order of the tree looks at. -/
def idKey (k : RefId) : Nat := k.value.toNat

abbrev VEntry := RefId × Vec

/-- `w` is `v` after some number of conversions. -/
inductive Kept : Vec → Vec → Prop
  | refl (v : Vec) : Kept v v
  | step {v w : Vec} (h : Kept v w) : Kept v (w.map f32OfU32)

theorem Kept.length {v w : Vec} (h : Kept v w) : w.length = v.length := by
  induction h with
  | refl => rfl
  | step h ih => simpa using ih

/-- The ids and vectors of a leaf hold the entries, the vectors up to conversions. -/
inductive Stored : List VEntry → List RefId → List Vec → Prop
  | nil : Stored [] [] []
  | cons {k v w es ids vs} (h : Kept v w) (t : Stored es ids vs) : Stored ((k, v) :: es) (k :: ids) (w :: vs)

theorem Stored.ids_eq {es ids vs} (h : Stored es ids vs) : ids = es.map Prod.fst := by
  induction h with
  | nil => rfl
  | cons h t ih => simp [ih]

theorem Stored.length {es ids vs} (h : Stored es ids vs) : vs.length = ids.length ∧ es.length = ids.length := by
  induction h with
  | nil => simp
  | cons h t ih => simp [ih]

theorem Stored.take {es ids vs} (h : Stored es ids vs) (m : Nat) : Stored (es.take m) (ids.take m) (vs.take m) := by
  induction h generalizing m with
  | nil => simp only [List.take_nil]; exact .nil
  | cons h t ih =>
    cases m with
    | zero => exact .nil
    | succ m => exact .cons h (ih m)

theorem Stored.drop {es ids vs} (h : Stored es ids vs) (m : Nat) : Stored (es.drop m) (ids.drop m) (vs.drop m) := by
  induction h generalizing m with
  | nil => simp only [List.drop_nil]; exact .nil
  | cons h t ih =>
    cases m with
    | zero => exact .cons h t
    | succ m => exact ih m

theorem Stored.append {es ids vs es' ids' vs'} (h : Stored es ids vs) (h' : Stored es' ids' vs') :
    Stored (es ++ es') (ids ++ ids') (vs ++ vs') := by
  induction h with
  | nil => exact h'
  | cons h t ih => exact .cons h ih

theorem Stored.reread {es ids vs} (h : Stored es ids vs) : Stored es ids (vs.map (·.map f32OfU32)) := by
  induction h with
  | nil => exact .nil
  | cons h t ih => exact .cons h.step ih

theorem Stored.getElem {es ids vs} (h : Stored es ids vs) (i : Nat) (hi : i < es.length) :
    ∃ w, ids[i]? = some es[i].1 ∧ vs[i]? = some w ∧ Kept es[i].2 w := by
  induction h generalizing i with
  | nil => simp at hi
  | cons h t ih =>
    cases i with
    | zero => exact ⟨_, rfl, rfl, h⟩
    | succ i => simpa using ih i (by simpa using hi)

/-- lower bound, inclusive -/
def GeB (lo : Option Nat) (k : Nat) : Prop := ∀ l, lo = some l → l ≤ k
/-- upper bound, exclusive -/
def LtB (k : Nat) (hi : Option Nat) : Prop := ∀ h, hi = some h → k < h

theorem GeB.trans_lt {lo : Option Nat} {a b : Nat} (h : GeB lo a) (h2 : a < b) : GeB lo b :=
  fun l hl => by have := h l hl; omega
theorem GeB.trans_le {lo : Option Nat} {a b : Nat} (h : GeB lo a) (h2 : a ≤ b) : GeB lo b :=
  fun l hl => by have := h l hl; omega
theorem LtB.trans_lt {hi : Option Nat} {a b : Nat} (h : LtB b hi) (h2 : a < b) : LtB a hi :=
  fun l hl => by have := h l hl; omega
theorem LtB.trans_le {hi : Option Nat} {a b : Nat} (h : LtB b hi) (h2 : a ≤ b) : LtB a hi :=
  fun l hl => by have := h l hl; omega

def Sorted (ks : List Nat) : Prop := ks.Pairwise (· < ·)
def Asc (es : List VEntry) : Prop := es.Pairwise (fun a b => idKey a.1 < idKey b.1)

theorem VNodeAt.reads {B : Bytes} {off : UInt64} {n : VNode} (h : VNodeAt B off n) :
    VNode.unmarshal (pageAt B off.toNat) = .ok n.reread := by
  obtain ⟨rest, hr⟩ := h.bytes
  rw [hr]; exact VNode.unmarshal_content h.ok rest

theorem VNodeAt.unique {B : Bytes} {off : UInt64} {n m : VNode} (h : VNodeAt B off n) (h' : VNodeAt B off m) :
    n.reread = m.reread := by
  have := VNodeAt.reads h
  rw [VNodeAt.reads h'] at this
  injection this with this
  exact this.symm

theorem VNodeAt.size_le {B : Bytes} {off : UInt64} {n : VNode} (h : VNodeAt B off n) : n.size ≤ pageSize := by
  obtain ⟨rest, hr⟩ := h.bytes
  have := congrArg List.length hr
  rw [pageAt_length h.inside, List.length_append, VNode.content_length h.ok.dims] at this
  omega

theorem VNodeAt.frame {B B' : Bytes} {off : UInt64} {n : VNode} (h : VNodeAt B off n)
    (hl : B.length ≤ B'.length) (hp : pageAt B' off.toNat = pageAt B off.toNat) : VNodeAt B' off n :=
  ⟨h.aligned, h.past, by have := h.inside; omega, h.small, h.ok, by rw [hp]; exact h.bytes⟩

theorem size_reread (n : VNode) : n.reread.size = n.size := by
  unfold VNode.size VNode.reread; simp

/-! ### Children of an internal node -/

section Kids
variable (R : UInt64 → Option Nat → Option Nat → List VEntry → List Nat → Prop)

/-- The children `ptrs` of a node with keys `ks`, covering the key range from `lo` to `hi`. -/
inductive Kids : Option Nat → List Nat → List UInt64 → Option Nat → List VEntry → List Nat → Prop
  | one {lo hi p es ps} (h : R p lo hi es ps) : Kids lo [] [p] hi es ps
  | cons {lo hi p k ks ptrs es1 es2 ps1 ps2} (h : R p lo (some k) es1 ps1)
      (t : Kids (some k) ks ptrs hi es2 ps2) : Kids lo (k :: ks) (p :: ptrs) hi (es1 ++ es2) (ps1 ++ ps2)

/-- A prefix of the children. -/
inductive Seg : Option Nat → List Nat → List UInt64 → Option Nat → List VEntry → List Nat → Prop
  | nil {lo} : Seg lo [] [] lo [] []
  | cons {lo hi p k ks ptrs es1 es2 ps1 ps2} (h : R p lo (some k) es1 ps1)
      (t : Seg (some k) ks ptrs hi es2 ps2) : Seg lo (k :: ks) (p :: ptrs) hi (es1 ++ es2) (ps1 ++ ps2)

/-- The children after one of them, which ends at `hi'`. -/
def TailK (hi' : Option Nat) (ks : List Nat) (ptrs : List UInt64) (hi : Option Nat) (es : List VEntry)
    (ps : List Nat) : Prop :=
  (ks = [] ∧ ptrs = [] ∧ hi' = hi ∧ es = [] ∧ ps = []) ∨
  ∃ k ks', ks = k :: ks' ∧ hi' = some k ∧ Kids R (some k) ks' ptrs hi es ps

/-- What every child satisfies. -/
def GoodR : Prop := ∀ p lo hi es ps, R p lo hi es ps →
  es ≠ [] ∧ Asc es ∧ ∀ e ∈ es, GeB lo (idKey e.1) ∧ LtB (idKey e.1) hi

variable {R}

theorem Kids.mono {R' : UInt64 → Option Nat → Option Nat → List VEntry → List Nat → Prop}
    {lo ks ptrs hi es ps} (h : Kids R lo ks ptrs hi es ps)
    (hm : ∀ p lo hi es' ps', (∀ x ∈ ps', x ∈ ps) → R p lo hi es' ps' → R' p lo hi es' ps') :
    Kids R' lo ks ptrs hi es ps := by
  induction h with
  | one h => exact .one (hm _ _ _ _ _ (fun _ h => h) h)
  | cons h t ih =>
    exact .cons (hm _ _ _ _ _ (fun _ h => by simp [h]) h)
      (ih (fun p lo hi es' ps' hs => hm p lo hi es' ps' (fun x hx => by simp [hs x hx])))

theorem Seg.mono {R' : UInt64 → Option Nat → Option Nat → List VEntry → List Nat → Prop}
    {lo ks ptrs hi es ps} (h : Seg R lo ks ptrs hi es ps)
    (hm : ∀ p lo hi es' ps', (∀ x ∈ ps', x ∈ ps) → R p lo hi es' ps' → R' p lo hi es' ps') :
    Seg R' lo ks ptrs hi es ps := by
  induction h with
  | nil => exact .nil
  | cons h t ih =>
    exact .cons (hm _ _ _ _ _ (fun _ h => by simp [h]) h)
      (ih (fun p lo hi es' ps' hs => hm p lo hi es' ps' (fun x hx => by simp [hs x hx])))

theorem TailK.mono {R' : UInt64 → Option Nat → Option Nat → List VEntry → List Nat → Prop}
    {hi' ks ptrs hi es ps} (h : TailK R hi' ks ptrs hi es ps)
    (hm : ∀ p lo hi es' ps', (∀ x ∈ ps', x ∈ ps) → R p lo hi es' ps' → R' p lo hi es' ps') :
    TailK R' hi' ks ptrs hi es ps := by
  rcases h with h | ⟨k, ks', h1, h2, h3⟩
  · exact .inl h
  · exact .inr ⟨k, ks', h1, h2, h3.mono hm⟩

theorem Kids.length {lo ks ptrs hi es ps} (h : Kids R lo ks ptrs hi es ps) : ptrs.length = ks.length + 1 := by
  induction h with
  | one h => rfl
  | cons h t ih => simp [ih]

theorem Seg.length {lo ks ptrs hi es ps} (h : Seg R lo ks ptrs hi es ps) : ptrs.length = ks.length := by
  induction h with
  | nil => rfl
  | cons h t ih => simp [ih]

theorem Seg.kids {lo ks ptrs mid es ps ks2 ptrs2 hi es2 ps2} (h : Seg R lo ks ptrs mid es ps)
    (t : Kids R mid ks2 ptrs2 hi es2 ps2) : Kids R lo (ks ++ ks2) (ptrs ++ ptrs2) hi (es ++ es2) (ps ++ ps2) := by
  induction h with
  | nil => exact t
  | cons h _ ih => simp only [List.cons_append, List.append_assoc]; exact .cons h (ih t)

theorem TailK.kids {lo p hi' es ps ks2 ptrs2 hi es2 ps2} (h : R p lo hi' es ps)
    (t : TailK R hi' ks2 ptrs2 hi es2 ps2) : Kids R lo ks2 (p :: ptrs2) hi (es ++ es2) (ps ++ ps2) := by
  rcases t with ⟨rfl, rfl, rfl, rfl, rfl⟩ | ⟨k, ks', rfl, rfl, t⟩
  · simp only [List.append_nil]; exact .one h
  · exact .cons h t

theorem Kids.good (hR : GoodR R) {lo ks ptrs hi es ps} (h : Kids R lo ks ptrs hi es ps) :
    es ≠ [] ∧ Asc es ∧ (∀ e ∈ es, GeB lo (idKey e.1) ∧ LtB (idKey e.1) hi) ∧ Sorted ks ∧
      (∀ k ∈ ks, GeB lo k ∧ LtB k hi) ∧ ∀ k, lo = some k → ∀ x ∈ ks, k < x := by
  induction h with
  | one h =>
    obtain ⟨h1, h2, h3⟩ := hR _ _ _ _ _ h
    exact ⟨h1, h2, h3, List.Pairwise.nil, by simp, by simp⟩
  | @cons lo hi p k ks ptrs es1 es2 ps1 ps2 h t ih =>
    obtain ⟨h1, h2, h3⟩ := hR _ _ _ _ _ h
    obtain ⟨i1, i2, i3, i4, i5, i6⟩ := ih
    obtain ⟨x, hx⟩ := List.exists_mem_of_ne_nil _ h1
    obtain ⟨y, hy⟩ := List.exists_mem_of_ne_nil _ i1
    have hlk : GeB lo k := (h3 x hx).1.trans_lt ((h3 x hx).2 k rfl)
    have hkh : LtB k hi := (i3 y hy).2.trans_le ((i3 y hy).1 k rfl)
    refine ⟨by simp [h1], ?_, ?_, ?_, ?_, ?_⟩
    · unfold Asc
      rw [List.pairwise_append]
      refine ⟨h2, i2, fun a ha b hb => ?_⟩
      have := (h3 a ha).2 k rfl
      have := (i3 b hb).1 k rfl
      omega
    · intro e he
      rcases List.mem_append.1 he with he | he
      · exact ⟨(h3 e he).1, hkh.trans_lt ((h3 e he).2 k rfl)⟩
      · exact ⟨hlk.trans_le ((i3 e he).1 k rfl), (i3 e he).2⟩
    · exact List.pairwise_cons.2 ⟨fun b hb => i6 k rfl b hb, i4⟩
    · intro x hx
      rcases List.mem_cons.1 hx with rfl | hx
      · exact ⟨hlk, hkh⟩
      · exact ⟨hlk.trans_lt (i6 k rfl x hx), (i5 x hx).2⟩
    · rintro l rfl b hb
      have h5 := (h3 x hx).1 l rfl
      have h6 := (h3 x hx).2 k rfl
      rcases List.mem_cons.1 hb with rfl | hb
      · omega
      · have := i6 k rfl b hb; omega

/-- Number of keys strictly below. -/
def countLt (ks : List Nat) (k : Nat) : Nat := (ks.filter (fun x => decide (x < k))).length

theorem countLt_cons (a : Nat) (ks : List Nat) (k : Nat) :
    countLt (a :: ks) k = (if a < k then 1 else 0) + countLt ks k := by
  unfold countLt
  rw [List.filter_cons]
  by_cases h : a < k <;> simp [h]; omega

theorem countLt_eq_zero_of_le {ks : List Nat} {k : Nat} (h : ∀ x ∈ ks, ¬ x < k) : countLt ks k = 0 := by
  unfold countLt
  rw [List.length_eq_zero_iff, List.filter_eq_nil_iff]
  intro a ha; simpa using h a ha

theorem countLt_le (ks : List Nat) (k : Nat) : countLt ks k ≤ ks.length := List.length_filter_le _ _

theorem sorted_lt_countLt {ks : List Nat} (hs : Sorted ks) (k : Nat) (i : Nat) (h : i < ks.length) :
    ks[i] < k ↔ i < countLt ks k := by
  induction ks generalizing i with
  | nil => simp at h
  | cons a ks ih =>
    have hs' := List.pairwise_cons.1 hs
    rw [countLt_cons]
    by_cases ha : a < k
    · cases i with
      | zero => simp [ha]; omega
      | succ i =>
        have := ih hs'.2 i (by simpa using h)
        simp [ha, this]; omega
    · have h0 : countLt ks k = 0 := countLt_eq_zero_of_le (fun x hx hlt => ha (by have := hs'.1 x hx; omega))
      rw [h0]
      simp only [ha, if_false, Nat.add_zero, Nat.not_lt_zero, iff_false]
      cases i with
      | zero => simpa using ha
      | succ i =>
        intro hlt
        have h1 := hs'.1 _ (List.getElem_mem (show i < ks.length by simpa using h))
        simp only [List.getElem_cons_succ] at hlt
        omega

/-- Index of the child to descend into, as `traverse` computes it. -/
def childIdx (ks : List Nat) (key : Nat) : Nat := countLt ks key + if key ∈ ks then 1 else 0

theorem childIdx_cons_le {k : Nat} {ks : List Nat} {key : Nat} (hs : Sorted (k :: ks)) (h : k ≤ key) :
    childIdx (k :: ks) key = childIdx ks key + 1 := by
  have hs' := (List.pairwise_cons.1 hs).1
  unfold childIdx
  rw [countLt_cons]
  by_cases he : k = key
  · subst he
    rw [if_neg (by omega), if_pos (by simp)]
    have h1 : countLt ks k = 0 := countLt_eq_zero_of_le (fun x hx hl => by have := hs' x hx; omega)
    have h2 : k ∉ ks := fun hm => by have := hs' k hm; omega
    rw [h1, if_neg h2]
  · rw [if_pos (by omega)]
    have : (key ∈ k :: ks) ↔ key ∈ ks := by
      rw [List.mem_cons]
      constructor
      · rintro (h' | h')
        · omega
        · exact h'
      · exact .inr
    simp only [this]
    omega

theorem childIdx_cons_gt {k : Nat} {ks : List Nat} {key : Nat} (hs : Sorted (k :: ks)) (h : key < k) :
    childIdx (k :: ks) key = 0 := by
  have hs' := (List.pairwise_cons.1 hs).1
  unfold childIdx
  have h0 : ∀ x ∈ k :: ks, k ≤ x := by
    intro x hx
    rcases List.mem_cons.1 hx with rfl | hx
    · exact Nat.le_refl _
    · exact Nat.le_of_lt (hs' x hx)
  have h1 : countLt (k :: ks) key = 0 := countLt_eq_zero_of_le (fun x hx hl => by have := h0 x hx; omega)
  have h2 : key ∉ k :: ks := by
    intro hm
    have := h0 _ hm; omega
  rw [h1, if_neg h2]

/-- The child whose range contains the key. -/
theorem Kids.locate (hR : GoodR R) {lo ks ptrs hi es ps} (h : Kids R lo ks ptrs hi es ps) (key : Nat)
    (hlo : GeB lo key) (hhi : LtB key hi) :
    ∃ ks1 ks2 ptrs1 p ptrs2 lo' hi' es1 es2 es3 ps1 ps2 ps3,
      ks = ks1 ++ ks2 ∧ ptrs = ptrs1 ++ p :: ptrs2 ∧ es = es1 ++ (es2 ++ es3) ∧ ps = ps1 ++ (ps2 ++ ps3) ∧
      ks1.length = childIdx ks key ∧ ptrs1.length = ks1.length ∧
      Seg R lo ks1 ptrs1 lo' es1 ps1 ∧ R p lo' hi' es2 ps2 ∧ TailK R hi' ks2 ptrs2 hi es3 ps3 ∧
      GeB lo' key ∧ LtB key hi' ∧ (∀ e ∈ es1, idKey e.1 < key) ∧ ∀ e ∈ es3, key < idKey e.1 := by
  induction h with
  | @one lo hi p es ps h =>
    exact ⟨[], [], [], p, [], lo, hi, [], es, [], [], ps, [], rfl, rfl, by simp, by simp, by simp [childIdx, countLt],
      rfl, .nil, h, .inl ⟨rfl, rfl, rfl, rfl, rfl⟩, hlo, hhi, by simp, by simp⟩
  | @cons lo hi p k ks ptrs es1 es2 ps1 ps2 h t ih =>
    have hg := (Kids.cons h t).good hR
    by_cases hk : key < k
    · refine ⟨[], k :: ks, [], p, ptrs, lo, some k, [], es1, es2, [], ps1, ps2, rfl, rfl, rfl, rfl, ?_, rfl, .nil, h,
        .inr ⟨k, ks, rfl, rfl, t⟩, hlo, ?_, by simp, ?_⟩
      · rw [childIdx_cons_gt hg.2.2.2.1 hk]; rfl
      · intro x hx; cases hx; exact hk
      · intro e he
        have := ((t.good hR).2.2.1 e he).1 k rfl
        omega
    · have hk' : k ≤ key := by omega
      obtain ⟨ks1, ks2, ptrs1, q, ptrs2, lo', hi', es1', es2', es3', ps1', ps2', ps3', a1, a2, a3, a4, a5, a6, a7, a8,
        a9, a10, a11, a12, a13⟩ := ih (fun l hl => by cases hl; exact hk') hhi
      refine ⟨k :: ks1, ks2, p :: ptrs1, q, ptrs2, lo', hi', es1 ++ es1', es2', es3', ps1 ++ ps1', ps2', ps3',
        by simp [a1], by simp [a2], by simp [a3], by simp [a4], ?_, by simp [a6], .cons h a7, a8, a9, a10, a11, ?_, a13⟩
      · rw [childIdx_cons_le hg.2.2.2.1 hk', List.length_cons, a5]
      · intro e he
        rcases List.mem_append.1 he with he | he
        · have := ((hR _ _ _ _ _ h).2.2 e he).2 k rfl
          omega
        · exact a12 e he

/-- Cutting the children in two at key number `m`. -/
theorem Kids.cut {lo ks ptrs hi es ps} (h : Kids R lo ks ptrs hi es ps) (m : Nat) (hm : m < ks.length) :
    ∃ es1 es2 ps1 ps2, es = es1 ++ es2 ∧ ps = ps1 ++ ps2 ∧
      Kids R lo (ks.take m) (ptrs.take (m + 1)) (some ks[m]) es1 ps1 ∧
      Kids R (some ks[m]) (ks.drop (m + 1)) (ptrs.drop (m + 1)) hi es2 ps2 := by
  induction h generalizing m with
  | one h => simp at hm
  | @cons lo hi p k ks ptrs es1 es2 ps1 ps2 h t ih =>
    cases m with
    | zero => exact ⟨es1, es2, ps1, ps2, rfl, rfl, .one h, t⟩
    | succ m =>
      obtain ⟨e1, e2, p1, p2, h1, h2, h3, h4⟩ := ih m (by simpa using hm)
      exact ⟨es1 ++ e1, e2, ps1 ++ p1, p2, by simp [h1], by simp [h2], .cons h h3, h4⟩

theorem Kids.all {P : VEntry → Prop}
    (hR : ∀ p lo hi es ps, R p lo hi es ps → ∀ e ∈ es, P e) {lo ks ptrs hi es ps}
    (h : Kids R lo ks ptrs hi es ps) : ∀ e ∈ es, P e := by
  induction h with
  | one h => exact hR _ _ _ _ _ h
  | cons h t ih =>
    intro e he
    rcases List.mem_append.1 he with he | he
    · exact hR _ _ _ _ _ h e he
    · exact ih e he

theorem Kids.pages {P : Nat → Prop}
    (hR : ∀ p lo hi es ps, R p lo hi es ps → ∀ x ∈ ps, P x) {lo ks ptrs hi es ps}
    (h : Kids R lo ks ptrs hi es ps) : ∀ x ∈ ps, P x := by
  induction h with
  | one h => exact hR _ _ _ _ _ h
  | cons h t ih =>
    intro e he
    rcases List.mem_append.1 he with he | he
    · exact hR _ _ _ _ _ h e he
    · exact ih e he

end Kids

theorem compareRefId_lt (a b : RefId) : compareRefId a b < 0 ↔ idKey a < idKey b := by
  unfold compareRefId idKey
  have h1 : a.value > b.value ↔ b.value.toNat < a.value.toNat := UInt64.lt_iff_toNat_lt
  have h2 : a.value < b.value ↔ a.value.toNat < b.value.toNat := UInt64.lt_iff_toNat_lt
  split
  · rename_i h; rw [h1] at h; omega
  · split
    · rename_i h; rw [h2] at h; simp [h]
    · rename_i h; rw [h2] at h; simp; omega

theorem compareRefId_eq (a b : RefId) : compareRefId a b = 0 ↔ idKey a = idKey b := by
  unfold compareRefId idKey
  have h1 : a.value > b.value ↔ b.value.toNat < a.value.toNat := UInt64.lt_iff_toNat_lt
  have h2 : a.value < b.value ↔ a.value.toNat < b.value.toNat := UInt64.lt_iff_toNat_lt
  split
  · rename_i h; rw [h1] at h; simp; omega
  · rename_i h'
    rw [h1] at h'
    split
    · rename_i h; rw [h2] at h; simp; omega
    · rename_i h; rw [h2] at h; simp; omega

theorem bsearch_ids {ids : List RefId} (hs : Sorted (ids.map idKey)) (k : RefId) :
    bsearch compareRefId ids k = (countLt (ids.map idKey) (idKey k), decide (idKey k ∈ ids.map idKey)) := by
  have hle : countLt (ids.map idKey) (idKey k) ≤ ids.length := by
    have := countLt_le (ids.map idKey) (idKey k); simpa using this
  have hcmp : ∀ i (h : i < ids.length), compareRefId ids[i] k < 0 ↔ i < countLt (ids.map idKey) (idKey k) := by
    intro i h
    rw [compareRefId_lt, ← sorted_lt_countLt hs (idKey k) i (by simpa using h)]
    simp
  have h1 : bsearchLoop compareRefId ids k ids.length 0 ids.length = countLt (ids.map idKey) (idKey k) := by
    apply bsearchLoop_spec _ _ _ _ _ _ _ _ _ (Nat.zero_le _) hle (Nat.le_refl _) (by omega)
    · intro i h hi; exact (hcmp i h).2 hi
    · intro i h hi; rw [hcmp i h]; omega
  unfold bsearch
  simp only [h1]
  congr 1
  by_cases hc : countLt (ids.map idKey) (idKey k) < ids.length
  · simp only [List.getElem?_eq_getElem hc]
    rw [Bool.eq_iff_iff]
    simp only [beq_iff_eq, compareRefId_eq, decide_eq_true_eq]
    constructor
    · intro h; rw [← h]; exact List.mem_map_of_mem (List.getElem_mem _)
    · intro h
      obtain ⟨j, hj, hjk⟩ := List.mem_iff_getElem.1 h
      have hj' : j < ids.length := by simpa using hj
      have hjk' : idKey ids[j] = idKey k := by simpa using hjk
      have hnl : ¬ j < countLt (ids.map idKey) (idKey k) := by
        rw [← hcmp j hj', compareRefId_lt]; omega
      by_cases he : countLt (ids.map idKey) (idKey k) = j
      · simp only [he]; exact hjk'
      · have := List.pairwise_iff_getElem.1 hs _ j (by simpa using hc) hj (by omega)
        simp only [List.getElem_map] at this
        have h3 : ¬ compareRefId ids[countLt (ids.map idKey) (idKey k)] k < 0 := by rw [hcmp _ hc]; omega
        rw [compareRefId_lt] at h3
        omega
  · have : ids[countLt (ids.map idKey) (idKey k)]? = none := List.getElem?_eq_none (by omega)
    simp only [this]
    symm
    rw [decide_eq_false_iff_not]
    intro h
    obtain ⟨j, hj, hjk⟩ := List.mem_iff_getElem.1 h
    have hj' : j < ids.length := by simpa using hj
    have h2 := (hcmp j hj').2 (by omega)
    rw [compareRefId_lt] at h2
    simp only [List.getElem_map] at hjk
    omega

/-! ### Trees -/

/-- The in-memory node `n`: a leaf with the entries `es`, or an internal node whose children (on pages `qs`) hold them. -/
def MemRep (d : UInt64) (R : UInt64 → Option Nat → Option Nat → List VEntry → List Nat → Prop) (leaf : Bool) (n : VNode)
    (lo hi : Option Nat) (es : List VEntry) (qs : List Nat) : Prop :=
  (leaf = true → n.offsets = [] ∧ Stored es n.ids n.vectors ∧ qs = [] ∧ Sorted (n.ids.map idKey) ∧
    ∀ k ∈ n.ids, GeB lo (idKey k) ∧ LtB (idKey k) hi) ∧
  (leaf = false → Kids R lo (n.ids.map idKey) n.offsets hi es qs) ∧ n.dim = d ∧ n.Dims

/-- The pages `ps` of the file contents `B` hold a tree of height `h`, rooted at `off`, with the entries `es` in order,
all of them between `lo` and `hi`. -/
def Rep (d : UInt64) (B : Bytes) : Nat → UInt64 → Option Nat → Option Nat → List VEntry → List Nat → Prop
  | 0, off, lo, hi, es, ps => ∃ n qs, VNodeAt B off n ∧ ps = off.toNat :: qs ∧
      MemRep d (fun _ _ _ _ _ => False) true n lo hi es qs
  | h + 1, off, lo, hi, es, ps => ∃ n qs, VNodeAt B off n ∧ ps = off.toNat :: qs ∧
      MemRep d (Rep d B h) false n lo hi es qs

/-- The relation for the children of a node of height `h`. -/
def SubRep (d : UInt64) (B : Bytes) : Nat → UInt64 → Option Nat → Option Nat → List VEntry → List Nat → Prop
  | 0 => fun _ _ _ _ _ => False
  | h + 1 => Rep d B h

theorem rep_iff {d B h off lo hi es ps} : Rep d B h off lo hi es ps ↔
    ∃ n qs, VNodeAt B off n ∧ ps = off.toNat :: qs ∧ MemRep d (SubRep d B h) (h == 0) n lo hi es qs := by
  cases h <;> rfl

theorem Dims.reread {n : VNode} (h : n.Dims) : n.reread.Dims := by
  refine ⟨by simpa [VNode.reread] using h.1, fun v hv => ?_⟩
  simp only [VNode.reread, List.mem_map] at hv
  obtain ⟨w, hw, rfl⟩ := hv
  simpa [VNode.reread] using h.2 w hw

theorem MemRep.reread {d R leaf n lo hi es qs} (h : MemRep d R leaf n lo hi es qs) :
    MemRep d R leaf n.reread lo hi es qs := by
  refine ⟨fun hl => ?_, h.2.1, h.2.2.1, Dims.reread h.2.2.2⟩
  obtain ⟨h1, h2, h3, h4, h5⟩ := h.1 hl
  exact ⟨h1, h2.reread, h3, h4, h5⟩

theorem MemRep.good {d R leaf n lo hi es qs} (hR : leaf = false → GoodR R) (h : MemRep d R leaf n lo hi es qs)
    (h0 : 0 < n.ids.length) :
    (es ≠ [] ∧ Asc es ∧ ∀ e ∈ es, GeB lo (idKey e.1) ∧ LtB (idKey e.1) hi) ∧ Sorted (n.ids.map idKey) := by
  cases leaf with
  | true =>
    obtain ⟨h1, h2, h3, h4, h5⟩ := h.1 rfl
    have he := h2.ids_eq
    refine ⟨⟨?_, ?_, ?_⟩, h4⟩
    · rintro rfl; rw [he] at h0; simp at h0
    · unfold Sorted at h4
      rw [he, List.map_map, List.pairwise_map] at h4
      exact h4
    · intro e hem
      exact h5 _ (by rw [he]; exact List.mem_map_of_mem hem)
  | false =>
    have := (h.2.1 rfl).good (hR rfl)
    exact ⟨⟨this.1, this.2.1, this.2.2.1⟩, this.2.2.2.1⟩

theorem goodR_rep (d : UInt64) (B : Bytes) (h : Nat) : GoodR (Rep d B h) := by
  induction h with
  | zero =>
    intro p lo hi es ps hr
    obtain ⟨n, qs, hn, rfl, hm⟩ := hr
    exact (hm.good (by simp) hn.ok.ne).1
  | succ h ih =>
    intro p lo hi es ps hr
    obtain ⟨n, qs, hn, rfl, hm⟩ := hr
    exact (hm.good (fun _ => ih) hn.ok.ne).1

theorem goodR_sub (d : UInt64) (B : Bytes) (h : Nat) : GoodR (SubRep d B h) := by
  cases h with
  | zero => intro _ _ _ _ _ hf; exact hf.elim
  | succ h => exact goodR_rep d B h

theorem MemRep.mono {d R R' leaf n lo hi es qs} (h : MemRep d R leaf n lo hi es qs)
    (hm : ∀ p lo hi es' ps', (∀ x ∈ ps', x ∈ qs) → R p lo hi es' ps' → R' p lo hi es' ps') :
    MemRep d R' leaf n lo hi es qs :=
  ⟨h.1, fun hl => (h.2.1 hl).mono hm, h.2.2⟩

/-- A tree depends on its pages only. -/
theorem Rep.frame {d B B' h off lo hi es ps} (hr : Rep d B h off lo hi es ps) (hl : B.length ≤ B'.length)
    (hp : ∀ p ∈ ps, pageAt B' p = pageAt B p) : Rep d B' h off lo hi es ps := by
  induction h generalizing off lo hi es ps with
  | zero =>
    obtain ⟨n, qs, hn, rfl, hm⟩ := hr
    exact ⟨n, qs, VNodeAt.frame hn hl (hp _ (by simp)), rfl, hm⟩
  | succ h ih =>
    obtain ⟨n, qs, hn, rfl, hm⟩ := hr
    refine ⟨n, qs, VNodeAt.frame hn hl (hp _ (by simp)), rfl, hm.mono (fun p lo hi es' ps' hs hr => ?_)⟩
    exact ih hr (fun x hx => hp x (by simp [hs x hx]))

theorem Rep.pages {d B h off lo hi es ps} (hr : Rep d B h off lo hi es ps) :
    ∀ x ∈ ps, x % pageSize = 0 ∧ pageSize ≤ x ∧ x + pageSize ≤ B.length := by
  induction h generalizing off lo hi es ps with
  | zero =>
    obtain ⟨n, qs, hn, rfl, hm⟩ := hr
    obtain ⟨_, _, rfl, _⟩ := hm.1 rfl
    intro x hx
    simp at hx
    subst hx
    exact ⟨hn.aligned, hn.past, hn.inside⟩
  | succ h ih =>
    obtain ⟨n, qs, hn, rfl, hm⟩ := hr
    intro x hx
    rcases List.mem_cons.1 hx with rfl | hx
    · exact ⟨hn.aligned, hn.past, hn.inside⟩
    · exact (hm.2.1 rfl).pages (fun p lo hi es ps hr => ih hr) x hx

/-- A tree of height `h` has more than `h` pages. -/
theorem Rep.height_lt {d B h off lo hi es ps} (hr : Rep d B h off lo hi es ps) : h < ps.length := by
  induction h generalizing off lo hi es ps with
  | zero => obtain ⟨n, qs, hn, rfl, hm⟩ := hr; simp
  | succ h ih =>
    obtain ⟨n, qs, hn, rfl, hm⟩ := hr
    have := hm.2.1 rfl
    have : h < qs.length := by
      revert this
      generalize n.ids.map idKey = ks
      generalize n.offsets = ptrs
      intro this
      cases this with
      | one h => exact ih h
      | cons h t => have := ih h; simp; omega
    simp; omega

/-- All vectors stored in the tree have its dimension. -/
theorem Rep.dims {d B h off lo hi es ps} (hr : Rep d B h off lo hi es ps) : ∀ e ∈ es, e.2.length = d.toNat := by
  induction h generalizing off lo hi es ps with
  | zero =>
    obtain ⟨n, qs, hn, rfl, hm⟩ := hr
    obtain ⟨_, hs, _⟩ := hm.1 rfl
    intro e he
    obtain ⟨i, hi, rfl⟩ := List.mem_iff_getElem.1 he
    obtain ⟨w, h1, h2, h3⟩ := hs.getElem i hi
    rw [← h3.length, hm.2.2.2.2 w (List.mem_of_getElem? h2), hm.2.2.1]
  | succ h ih =>
    obtain ⟨n, qs, hn, rfl, hm⟩ := hr
    exact (hm.2.1 rfl).all (fun p lo hi es ps hr => ih hr)

theorem Rep.framed {d s free s' free' P h off lo hi es ps} (hr : Rep d s.file.bytes h off lo hi es ps)
    (hf : Frame s free s' free' P) (hl : ∀ p ∈ ps, Live s free p) (hd : ∀ p ∈ ps, p ∉ P) :
    Rep d s'.file.bytes h off lo hi es ps :=
  hr.frame hf.len (fun p hp => hf.same p (hl p hp) (hd p hp))

theorem SubRep.framed {d s free s' free' P h off lo hi es ps} (hr : SubRep d s.file.bytes h off lo hi es ps)
    (hf : Frame s free s' free' P) (hl : ∀ p ∈ ps, Live s free p) (hd : ∀ p ∈ ps, p ∉ P) :
    SubRep d s'.file.bytes h off lo hi es ps := by
  cases h with
  | zero => exact hr.elim
  | succ h => exact Rep.framed hr hf hl hd

theorem MemRep.framed {d s free s' free' P h leaf n lo hi es qs}
    (hm : MemRep d (SubRep d s.file.bytes h) leaf n lo hi es qs)
    (hf : Frame s free s' free' P) (hl : ∀ p ∈ qs, Live s free p) (hd : ∀ p ∈ qs, p ∉ P) :
    MemRep d (SubRep d s'.file.bytes h) leaf n lo hi es qs :=
  hm.mono (fun _ _ _ _ _ hs hr => hr.framed hf (fun x hx => hl x (hs x hx)) (fun x hx => hd x (hs x hx)))

end Appendable.V
