import Verif.Lemmas.Node
import Verif.Lemmas.Order
import Verif.Lemmas.File
/-! Representation of a sorted entry list by a tree of pages (over plain file contents). -/
namespace Appendable
open Spec

abbrev Entry := RV × MemPtr

/-- lower bound, inclusive -/
def GeB (lo : Option RV) (k : RV) : Prop := ∀ l, lo = some l → KeyLe l k
/-- upper bound, exclusive -/
def LtB (k : RV) (hi : Option RV) : Prop := ∀ h, hi = some h → KeyLt k h

/-- The page at `off` stores the well-formed node `n`. -/
structure NodeAt (cfg : Cfg) (B : Bytes) (off : UInt64) (n : Node) : Prop where
  aligned : off.toNat % pageSize = 0
  pos : pageSize ≤ off.toNat
  inside : off.toNat + pageSize ≤ B.length
  small : off.toNat < 2 ^ 63
  ok : NodeOK cfg n
  stored : ∃ rest, pageAt B off.toNat = n.content cfg.width ++ rest

theorem pageAt_length {B : Bytes} {o : Nat} (h : o + pageSize ≤ B.length) : (pageAt B o).length = pageSize :=
  slice_length h

theorem NodeAt.unmarshal {cfg : Cfg} {B : Bytes} {off : UInt64} {n : Node} (h : NodeAt cfg B off n) :
    Node.unmarshal cfg (pageAt B off.toNat) = .ok n := by
  obtain ⟨rest, hr⟩ := h.stored
  rw [hr]; exact unmarshal_content cfg n h.ok rest

theorem NodeAt.unique {cfg : Cfg} {B : Bytes} {off : UInt64} {n m : Node} (h : NodeAt cfg B off n)
    (h' : NodeAt cfg B off m) : n = m := by
  have := h.unmarshal
  rw [h'.unmarshal] at this
  injection this with this
  exact this.symm

theorem NodeAt.size_le {cfg : Cfg} {B : Bytes} {off : UInt64} {n : Node} (h : NodeAt cfg B off n) :
    n.size cfg.width ≤ pageSize := by
  obtain ⟨rest, hr⟩ := h.stored
  have := congrArg List.length hr
  rw [pageAt_length h.inside, List.length_append, content_length] at this
  omega

theorem NodeAt.frame {cfg : Cfg} {B B' : Bytes} {off : UInt64} {n : Node} (h : NodeAt cfg B off n)
    (hl : B.length ≤ B'.length) (hp : pageAt B' off.toNat = pageAt B off.toNat) : NodeAt cfg B' off n :=
  ⟨h.aligned, h.pos, by have := h.inside; omega, h.small, h.ok, by rw [hp]; exact h.stored⟩

/-! ### Children of an internal node -/

section Kids
variable (R : UInt64 → Option RV → Option RV → List Entry → List Nat → Prop)

/-- The children `ptrs` of a node with keys `ks`, covering the key range from `lo` to `hi`. -/
inductive Kids : Option RV → List RV → List UInt64 → Option RV → List Entry → List Nat → Prop
  | one {lo hi p es ps} (h : R p lo hi es ps) : Kids lo [] [p] hi es ps
  | cons {lo hi p k ks ptrs es1 es2 ps1 ps2} (h : R p lo (some k) es1 ps1)
      (t : Kids (some k) ks ptrs hi es2 ps2) : Kids lo (k :: ks) (p :: ptrs) hi (es1 ++ es2) (ps1 ++ ps2)

/-- A prefix of the children. -/
inductive Seg : Option RV → List RV → List UInt64 → Option RV → List Entry → List Nat → Prop
  | nil {lo} : Seg lo [] [] lo [] []
  | cons {lo hi p k ks ptrs es1 es2 ps1 ps2} (h : R p lo (some k) es1 ps1)
      (t : Seg (some k) ks ptrs hi es2 ps2) : Seg lo (k :: ks) (p :: ptrs) hi (es1 ++ es2) (ps1 ++ ps2)

/-- The children after one of them, which ends at `hi'`. -/
def TailK (hi' : Option RV) (ks : List RV) (ptrs : List UInt64) (hi : Option RV) (es : List Entry)
    (ps : List Nat) : Prop :=
  (ks = [] ∧ ptrs = [] ∧ hi' = hi ∧ es = [] ∧ ps = []) ∨
  ∃ k ks', ks = k :: ks' ∧ hi' = some k ∧ Kids R (some k) ks' ptrs hi es ps

/-- What every child satisfies. -/
def GoodR : Prop := ∀ p lo hi es ps, R p lo hi es ps →
  es ≠ [] ∧ Ascending es ∧ ∀ e ∈ es, GeB lo e.1 ∧ LtB e.1 hi

variable {R}

theorem Kids.mono {R' : UInt64 → Option RV → Option RV → List Entry → List Nat → Prop}
    {lo ks ptrs hi es ps} (h : Kids R lo ks ptrs hi es ps)
    (hm : ∀ p lo hi es' ps', p ∈ ptrs → (∀ x ∈ ps', x ∈ ps) → R p lo hi es' ps' → R' p lo hi es' ps') :
    Kids R' lo ks ptrs hi es ps := by
  induction h with
  | one h => exact .one (hm _ _ _ _ _ (by simp) (fun _ h => h) h)
  | cons h t ih =>
    exact .cons (hm _ _ _ _ _ (by simp) (fun _ h => by simp [h]) h)
      (ih (fun p lo hi es' ps' hp hs => hm p lo hi es' ps' (by simp [hp]) (fun x hx => by simp [hs x hx])))

theorem Seg.mono {R' : UInt64 → Option RV → Option RV → List Entry → List Nat → Prop}
    {lo ks ptrs hi es ps} (h : Seg R lo ks ptrs hi es ps)
    (hm : ∀ p lo hi es' ps', (∀ x ∈ ps', x ∈ ps) → R p lo hi es' ps' → R' p lo hi es' ps') :
    Seg R' lo ks ptrs hi es ps := by
  induction h with
  | nil => exact .nil
  | cons h t ih =>
    exact .cons (hm _ _ _ _ _ (fun _ h => by simp [h]) h)
      (ih (fun p lo hi es' ps' hs => hm p lo hi es' ps' (fun x hx => by simp [hs x hx])))

theorem TailK.mono {R' : UInt64 → Option RV → Option RV → List Entry → List Nat → Prop}
    {hi' ks ptrs hi es ps} (h : TailK R hi' ks ptrs hi es ps)
    (hm : ∀ p lo hi es' ps', (∀ x ∈ ps', x ∈ ps) → R p lo hi es' ps' → R' p lo hi es' ps') :
    TailK R' hi' ks ptrs hi es ps := by
  rcases h with h | ⟨k, ks', h1, h2, h3⟩
  · exact .inl h
  · exact .inr ⟨k, ks', h1, h2, h3.mono (fun p lo hi es' ps' _ => hm p lo hi es' ps')⟩

theorem Kids.length {lo ks ptrs hi es ps} (h : Kids R lo ks ptrs hi es ps) : ptrs.length = ks.length + 1 := by
  induction h with
  | one h => rfl
  | cons h t ih => simp [ih]

theorem Seg.length {lo ks ptrs hi es ps} (h : Seg R lo ks ptrs hi es ps) : ptrs.length = ks.length := by
  induction h with
  | nil => rfl
  | cons h t ih => simp [ih]

theorem Seg.kids {lo ks ptrs mid es ps ks2 ptrs2 hi es2 ps2} (h : Seg R lo ks ptrs mid es ps)
    (t : Kids R mid ks2 ptrs2 hi es2 ps2) : Kids R lo (ks ++ ks2) (ptrs ++ ptrs2) hi (es ++ es2) (ps ++ ps2) := by
  induction h with
  | nil => exact t
  | cons h _ ih => simp only [List.cons_append, List.append_assoc]; exact .cons h (ih t)

theorem TailK.kids {lo p hi' es ps ks2 ptrs2 hi es2 ps2} (h : R p lo hi' es ps)
    (t : TailK R hi' ks2 ptrs2 hi es2 ps2) : Kids R lo ks2 (p :: ptrs2) hi (es ++ es2) (ps ++ ps2) := by
  rcases t with ⟨rfl, rfl, rfl, rfl, rfl⟩ | ⟨k, ks', rfl, rfl, t⟩
  · simp only [List.append_nil]; exact .one h
  · exact .cons h t

theorem TailK.length {hi' ks ptrs hi es ps} (h : TailK R hi' ks ptrs hi es ps) : ptrs.length = ks.length := by
  rcases h with ⟨rfl, rfl, _⟩ | ⟨k, ks', rfl, _, t⟩
  · rfl
  · simp [t.length]

theorem GeB.trans_lt {lo : Option RV} {a b : RV} (h : GeB lo a) (h2 : KeyLt a b) : GeB lo b :=
  fun l hl => KeyLe.trans (h l hl) h2.le
theorem GeB.trans_le {lo : Option RV} {a b : RV} (h : GeB lo a) (h2 : KeyLe a b) : GeB lo b :=
  fun l hl => KeyLe.trans (h l hl) h2
theorem LtB.trans_lt {hi : Option RV} {a b : RV} (h : LtB b hi) (h2 : KeyLt a b) : LtB a hi :=
  fun l hl => h2.trans (h l hl)
theorem LtB.trans_le {hi : Option RV} {a b : RV} (h : LtB b hi) (h2 : KeyLe a b) : LtB a hi :=
  fun l hl => h2.trans_lt (h l hl)

theorem Kids.good (hR : GoodR R) {lo ks ptrs hi es ps} (h : Kids R lo ks ptrs hi es ps) :
    es ≠ [] ∧ Ascending es ∧ (∀ e ∈ es, GeB lo e.1 ∧ LtB e.1 hi) ∧ SortedKeys ks ∧
      (∀ k ∈ ks, GeB lo k ∧ LtB k hi) ∧ ∀ k, lo = some k → ∀ x ∈ ks, KeyLt k x := by
  induction h with
  | one h =>
    obtain ⟨h1, h2, h3⟩ := hR _ _ _ _ _ h
    exact ⟨h1, h2, h3, List.Pairwise.nil, by simp, by simp⟩
  | @cons lo hi p k ks ptrs es1 es2 ps1 ps2 h t ih =>
    obtain ⟨h1, h2, h3⟩ := hR _ _ _ _ _ h
    obtain ⟨i1, i2, i3, i4, i5, i6⟩ := ih
    obtain ⟨x, hx⟩ := List.exists_mem_of_ne_nil _ h1
    obtain ⟨y, hy⟩ := List.exists_mem_of_ne_nil _ i1
    have hlk : GeB lo k := (h3 x hx).1.trans_lt ((h3 x hx).2 k rfl)
    have hkh : LtB k hi := (i3 y hy).2.trans_le ((i3 y hy).1 k rfl)
    refine ⟨by simp [h1], ?_, ?_, ?_, ?_, ?_⟩
    · unfold Ascending
      rw [List.pairwise_append]
      refine ⟨h2, i2, fun a ha b hb => ?_⟩
      exact ((h3 a ha).2 k rfl).trans_le ((i3 b hb).1 k rfl)
    · intro e he
      rcases List.mem_append.1 he with he | he
      · exact ⟨(h3 e he).1, hkh.trans_lt ((h3 e he).2 k rfl)⟩
      · exact ⟨hlk.trans_le ((i3 e he).1 k rfl), (i3 e he).2⟩
    · exact List.pairwise_cons.2 ⟨fun b hb => i6 k rfl b hb, i4⟩
    · intro x hx
      rcases List.mem_cons.1 hx with rfl | hx
      · exact ⟨hlk, hkh⟩
      · exact ⟨hlk.trans_lt (i6 k rfl x hx), (i5 x hx).2⟩
    · rintro l rfl b hb
      have hl : KeyLt l k := KeyLe.trans_lt ((h3 x hx).1 l rfl) ((h3 x hx).2 k rfl)
      rcases List.mem_cons.1 hb with rfl | hb
      · exact hl
      · exact hl.trans (i6 k rfl b hb)

/-- Index of the child to descend into, as `traverse` computes it. -/
def childIdx (ks : List RV) (key : RV) : Nat := countLt ks key + if key ∈ ks then 1 else 0

theorem childIdx_cons_le {k : RV} {ks : List RV} {key : RV} (hs : SortedKeys (k :: ks)) (h : KeyLe k key) :
    childIdx (k :: ks) key = childIdx ks key + 1 := by
  unfold childIdx
  rw [countLt_cons]
  rcases not_keyLt.1 h with h | h
  · subst h
    rw [if_neg (KeyLt.irrefl _), if_pos (by simp)]
    have h1 : countLt ks key = 0 :=
      countLt_eq_zero_of_le (fun x hx hl => KeyLt.irrefl _ (((List.pairwise_cons.1 hs).1 x hx).trans hl))
    have h2 : key ∉ ks := fun hm => KeyLt.irrefl _ ((List.pairwise_cons.1 hs).1 key hm)
    rw [h1, if_neg h2]
  · rw [if_pos h]
    have : (key ∈ k :: ks) ↔ key ∈ ks := by
      rw [List.mem_cons]
      constructor
      · rintro (rfl | h')
        · exact absurd h (KeyLt.irrefl _)
        · exact h'
      · exact .inr
    simp only [this]
    omega

theorem childIdx_cons_gt {k : RV} {ks : List RV} {key : RV} (hs : SortedKeys (k :: ks)) (h : KeyLt key k) :
    childIdx (k :: ks) key = 0 := by
  unfold childIdx
  have h1 : countLt (k :: ks) key = 0 := countLt_eq_zero_of_le (fun x hx hl => by
    rcases List.mem_cons.1 hx with rfl | hx
    · exact h.asymm hl
    · exact (h.trans ((List.pairwise_cons.1 hs).1 x hx)).asymm hl)
  have h2 : key ∉ k :: ks := by
    intro hm
    rcases List.mem_cons.1 hm with rfl | hm
    · exact KeyLt.irrefl _ h
    · exact h.asymm ((List.pairwise_cons.1 hs).1 key hm)
  rw [h1, if_neg h2]

/-- The child whose range contains the key. -/
theorem Kids.locate (hR : GoodR R) {lo ks ptrs hi es ps} (h : Kids R lo ks ptrs hi es ps) (key : RV)
    (hlo : GeB lo key) (hhi : LtB key hi) :
    ∃ ks1 ks2 ptrs1 p ptrs2 lo' hi' es1 es2 es3 ps1 ps2 ps3,
      ks = ks1 ++ ks2 ∧ ptrs = ptrs1 ++ p :: ptrs2 ∧ es = es1 ++ (es2 ++ es3) ∧ ps = ps1 ++ (ps2 ++ ps3) ∧
      ks1.length = childIdx ks key ∧ ptrs1.length = ks1.length ∧
      Seg R lo ks1 ptrs1 lo' es1 ps1 ∧ R p lo' hi' es2 ps2 ∧ TailK R hi' ks2 ptrs2 hi es3 ps3 ∧
      GeB lo' key ∧ LtB key hi' ∧ (∀ e ∈ es1, KeyLt e.1 key) ∧ ∀ e ∈ es3, KeyLt key e.1 := by
  induction h with
  | @one lo hi p es ps h =>
    exact ⟨[], [], [], p, [], lo, hi, [], es, [], [], ps, [], rfl, rfl, by simp, by simp, by simp [childIdx, countLt],
      rfl, .nil, h, .inl ⟨rfl, rfl, rfl, rfl, rfl⟩, hlo, hhi, by simp, by simp⟩
  | @cons lo hi p k ks ptrs es1 es2 ps1 ps2 h t ih =>
    have hg := (Kids.cons h t).good hR
    by_cases hk : KeyLt key k
    · refine ⟨[], k :: ks, [], p, ptrs, lo, some k, [], es1, es2, [], ps1, ps2, rfl, rfl, rfl, rfl, ?_, rfl, .nil, h,
        .inr ⟨k, ks, rfl, rfl, t⟩, hlo, ?_, by simp, ?_⟩
      · rw [childIdx_cons_gt hg.2.2.2.1 hk]; rfl
      · intro x hx; cases hx; exact hk
      · intro e he
        exact hk.trans_le (((t.good hR).2.2.1 e he).1 k rfl)
    · have hk' : KeyLe k key := hk
      obtain ⟨ks1, ks2, ptrs1, q, ptrs2, lo', hi', es1', es2', es3', ps1', ps2', ps3', a1, a2, a3, a4, a5, a6, a7, a8,
        a9, a10, a11, a12, a13⟩ := ih (fun l hl => by cases hl; exact hk') hhi
      refine ⟨k :: ks1, ks2, p :: ptrs1, q, ptrs2, lo', hi', es1 ++ es1', es2', es3', ps1 ++ ps1', ps2', ps3',
        by simp [a1], by simp [a2], by simp [a3], by simp [a4], ?_, by simp [a6], .cons h a7, a8, a9, a10, a11, ?_, a13⟩
      · rw [childIdx_cons_le hg.2.2.2.1 hk', List.length_cons, a5]
      · intro e he
        rcases List.mem_append.1 he with he | he
        · exact ((hR _ _ _ _ _ h).2.2 e he).2 k rfl |>.trans_le hk'
        · exact a12 e he

/-- Cutting the children in two at key number `m`. -/
theorem Kids.cut {lo ks ptrs hi es ps} (h : Kids R lo ks ptrs hi es ps) (m : Nat) (hm : m < ks.length) :
    ∃ es1 es2 ps1 ps2, es = es1 ++ es2 ∧ ps = ps1 ++ ps2 ∧
      Kids R lo (ks.take m) (ptrs.take (m + 1)) (some ks[m]) es1 ps1 ∧
      Kids R (some ks[m]) (ks.drop (m + 1)) (ptrs.drop (m + 1)) hi es2 ps2 := by
  induction h generalizing m with
  | one h => simp at hm
  | @cons lo hi p k ks ptrs es1 es2 ps1 ps2 h t ih =>
    cases m with
    | zero => exact ⟨es1, es2, ps1, ps2, rfl, rfl, .one h, t⟩
    | succ m =>
      obtain ⟨e1, e2, p1, p2, h1, h2, h3, h4⟩ := ih m (by simpa using hm)
      exact ⟨es1 ++ e1, e2, ps1 ++ p1, p2, by simp [h1], by simp [h2], .cons h h3, h4⟩

end Kids

/-! ### Trees -/

/-- The in-memory node `n` of height `h`: a leaf with the entries `es`, or an internal node whose children
(on pages `qs`) hold them. -/
def MemRep (cfg : Cfg) (R : UInt64 → Option RV → Option RV → List Entry → List Nat → Prop) (leaf : Bool) (n : Node)
    (lo hi : Option RV) (es : List Entry) (qs : List Nat) : Prop :=
  (leaf = true → LeafShape n ∧ es = n.keys.zip n.leafPtrs ∧ qs = [] ∧ SortedKeys n.keys ∧
    (∀ k ∈ n.keys, GeB lo k ∧ LtB k hi) ∧ ∀ l, lo = some l → l ∈ n.keys) ∧
  (leaf = false → InternalShape n ∧ Kids R lo n.keys n.intPtrs hi es qs) ∧ ∀ k ∈ n.keys, KeyOK cfg k

/-- `Rep cfg B h off lo hi es ps`: the pages `ps` of the file contents `B` hold a tree of height `h`, rooted at
`off`, with the entries `es` in order, all of them between `lo` and `hi`. -/
def Rep (cfg : Cfg) (B : Bytes) : Nat → UInt64 → Option RV → Option RV → List Entry → List Nat → Prop
  | 0, off, lo, hi, es, ps => ∃ n qs, NodeAt cfg B off n ∧ ps = off.toNat :: qs ∧
      MemRep cfg (fun _ _ _ _ _ => False) true n lo hi es qs
  | h + 1, off, lo, hi, es, ps => ∃ n qs, NodeAt cfg B off n ∧ ps = off.toNat :: qs ∧
      MemRep cfg (Rep cfg B h) false n lo hi es qs

/-- The relation for the children of a node of height `h`. -/
def SubRep (cfg : Cfg) (B : Bytes) : Nat → UInt64 → Option RV → Option RV → List Entry → List Nat → Prop
  | 0 => fun _ _ _ _ _ => False
  | h + 1 => Rep cfg B h

theorem rep_iff {cfg B h off lo hi es ps} : Rep cfg B h off lo hi es ps ↔
    ∃ n qs, NodeAt cfg B off n ∧ ps = off.toNat :: qs ∧ MemRep cfg (SubRep cfg B h) (h == 0) n lo hi es qs := by
  cases h <;> rfl

theorem zip_nonempty {n : Node} (h : LeafShape n) (h0 : 0 < n.keys.length) : n.keys.zip n.leafPtrs ≠ [] := by
  intro hc
  have := congrArg List.length hc
  rw [List.length_zip, h.1] at this
  simp at this
  rw [this] at h0
  simp at h0

theorem zip_ascending {ks : List RV} {ps : List MemPtr} (h : SortedKeys ks) : Ascending (ks.zip ps) := by
  unfold Ascending
  induction ks generalizing ps with
  | nil => simp
  | cons k ks ih =>
    cases ps with
    | nil => simp
    | cons p ps =>
      have := List.pairwise_cons.1 h
      rw [List.zip_cons_cons, List.pairwise_cons]
      exact ⟨fun e he => this.1 _ (List.of_mem_zip he).1, ih this.2⟩

theorem MemRep.good {cfg R leaf n lo hi es qs} (hR : leaf = false → GoodR R) (h : MemRep cfg R leaf n lo hi es qs)
    (h0 : 0 < n.keys.length) :
    (es ≠ [] ∧ Ascending es ∧ ∀ e ∈ es, GeB lo e.1 ∧ LtB e.1 hi) ∧ SortedKeys n.keys := by
  cases leaf with
  | true =>
    obtain ⟨h1, h2, h3, h4, h5, _⟩ := h.1 rfl
    subst h2
    exact ⟨⟨zip_nonempty h1 h0, zip_ascending h4, fun e he => h5 _ (List.of_mem_zip he).1⟩, h4⟩
  | false =>
    obtain ⟨_, h2⟩ := h.2.1 rfl
    have := h2.good (hR rfl)
    exact ⟨⟨this.1, this.2.1, this.2.2.1⟩, this.2.2.2.1⟩

theorem goodR_rep (cfg : Cfg) (B : Bytes) (h : Nat) : GoodR (Rep cfg B h) := by
  induction h with
  | zero =>
    intro p lo hi es ps hr
    obtain ⟨n, qs, hn, rfl, hm⟩ := hr
    exact (hm.good (by simp) hn.ok.1).1
  | succ h ih =>
    intro p lo hi es ps hr
    obtain ⟨n, qs, hn, rfl, hm⟩ := hr
    exact (hm.good (fun _ => ih) hn.ok.1).1

theorem goodR_sub (cfg : Cfg) (B : Bytes) (h : Nat) : GoodR (SubRep cfg B h) := by
  cases h with
  | zero => intro _ _ _ _ _ hf; exact hf.elim
  | succ h => exact goodR_rep cfg B h

theorem Rep.nonempty {cfg B h off lo hi es ps} (hr : Rep cfg B h off lo hi es ps) : es ≠ [] :=
  (goodR_rep cfg B h _ _ _ _ _ hr).1
theorem Rep.ascending {cfg B h off lo hi es ps} (hr : Rep cfg B h off lo hi es ps) : Ascending es :=
  (goodR_rep cfg B h _ _ _ _ _ hr).2.1
theorem Rep.bounds {cfg B h off lo hi es ps} (hr : Rep cfg B h off lo hi es ps) :
    ∀ e ∈ es, GeB lo e.1 ∧ LtB e.1 hi := (goodR_rep cfg B h _ _ _ _ _ hr).2.2

theorem MemRep.mono {cfg R R' leaf n lo hi es qs} (h : MemRep cfg R leaf n lo hi es qs)
    (hm : ∀ p lo hi es' ps', p ∈ n.intPtrs → (∀ x ∈ ps', x ∈ qs) → R p lo hi es' ps' → R' p lo hi es' ps') :
    MemRep cfg R' leaf n lo hi es qs :=
  ⟨h.1, fun hl => ⟨(h.2.1 hl).1, (h.2.1 hl).2.mono hm⟩, h.2.2⟩

/-- A tree depends on its pages only. -/
theorem Rep.frame {cfg B B' h off lo hi es ps} (hr : Rep cfg B h off lo hi es ps) (hl : B.length ≤ B'.length)
    (hp : ∀ p ∈ ps, pageAt B' p = pageAt B p) : Rep cfg B' h off lo hi es ps := by
  induction h generalizing off lo hi es ps with
  | zero =>
    obtain ⟨n, qs, hn, rfl, hm⟩ := hr
    exact ⟨n, qs, hn.frame hl (hp _ (by simp)), rfl, hm⟩
  | succ h ih =>
    obtain ⟨n, qs, hn, rfl, hm⟩ := hr
    refine ⟨n, qs, hn.frame hl (hp _ (by simp)), rfl, hm.mono (fun p lo hi es' ps' _ hs hr => ?_)⟩
    exact ih hr (fun x hx => hp x (by simp [hs x hx]))

/-- A larger data file does not change the tree. -/
theorem keyOK_extend {cfg : Cfg} {k : RV} (h : KeyOK cfg k) (more : Bytes) :
    KeyOK { cfg with data := cfg.data ++ more } k := by
  unfold KeyOK at *
  by_cases hw : cfg.width = 0
  · simp only [hw, if_true, List.length_append] at *
    refine ⟨by omega, ?_⟩
    rw [h.2, List.drop_append_of_le_length (by omega), List.take_append_of_le_length (by simp; omega)]
  · simpa [hw] using h

theorem Rep.extend {cfg B h off lo hi es ps} (hr : Rep cfg B h off lo hi es ps) (more : Bytes) :
    Rep { cfg with data := cfg.data ++ more } B h off lo hi es ps := by
  induction h generalizing off lo hi es ps with
  | zero =>
    obtain ⟨n, qs, hn, rfl, hm⟩ := hr
    exact ⟨n, qs, ⟨hn.aligned, hn.pos, hn.inside, hn.small, ⟨hn.ok.1, hn.ok.2.1, hn.ok.2.2.1,
      fun k hk => keyOK_extend (hn.ok.2.2.2 k hk) more⟩, hn.stored⟩, rfl, hm.1, hm.2.1, fun k hk => keyOK_extend (hm.2.2 k hk) more⟩
  | succ h ih =>
    obtain ⟨n, qs, hn, rfl, hm⟩ := hr
    have hm' := hm.mono (R' := Rep { cfg with data := cfg.data ++ more } B h) (fun p lo hi es' ps' _ hs hr => ih hr)
    exact ⟨n, qs, ⟨hn.aligned, hn.pos, hn.inside, hn.small, ⟨hn.ok.1, hn.ok.2.1, hn.ok.2.2.1,
      fun k hk => keyOK_extend (hn.ok.2.2.2 k hk) more⟩, hn.stored⟩, rfl, hm'.1, hm'.2.1,
      fun k hk => keyOK_extend (hm'.2.2 k hk) more⟩

/-- All entries have storable keys. -/
theorem Kids.all {R : UInt64 → Option RV → Option RV → List Entry → List Nat → Prop} {P : Entry → Prop}
    (hR : ∀ p lo hi es ps, R p lo hi es ps → ∀ e ∈ es, P e) {lo ks ptrs hi es ps}
    (h : Kids R lo ks ptrs hi es ps) : ∀ e ∈ es, P e := by
  induction h with
  | one h => exact hR _ _ _ _ _ h
  | cons h t ih =>
    intro e he
    rcases List.mem_append.1 he with he | he
    · exact hR _ _ _ _ _ h e he
    · exact ih e he

theorem Rep.keyOK {cfg B h off lo hi es ps} (hr : Rep cfg B h off lo hi es ps) : ∀ e ∈ es, KeyOK cfg e.1 := by
  induction h generalizing off lo hi es ps with
  | zero =>
    obtain ⟨n, qs, hn, rfl, hm⟩ := hr
    obtain ⟨_, rfl, _⟩ := hm.1 rfl
    intro e he
    exact hm.2.2 _ (List.of_mem_zip he).1
  | succ h ih =>
    obtain ⟨n, qs, hn, rfl, hm⟩ := hr
    exact (hm.2.1 rfl).2.all (fun p lo hi es ps hr => ih hr)

/-- The pages of a tree are pages of the file. -/
theorem Kids.pages {R : UInt64 → Option RV → Option RV → List Entry → List Nat → Prop} {P : Nat → Prop}
    (hR : ∀ p lo hi es ps, R p lo hi es ps → ∀ x ∈ ps, P x) {lo ks ptrs hi es ps}
    (h : Kids R lo ks ptrs hi es ps) : ∀ x ∈ ps, P x := by
  induction h with
  | one h => exact hR _ _ _ _ _ h
  | cons h t ih =>
    intro e he
    rcases List.mem_append.1 he with he | he
    · exact hR _ _ _ _ _ h e he
    · exact ih e he

theorem Rep.pages {cfg B h off lo hi es ps} (hr : Rep cfg B h off lo hi es ps) :
    ∀ x ∈ ps, x % pageSize = 0 ∧ pageSize ≤ x ∧ x + pageSize ≤ B.length := by
  induction h generalizing off lo hi es ps with
  | zero =>
    obtain ⟨n, qs, hn, rfl, hm⟩ := hr
    obtain ⟨_, _, rfl, _⟩ := hm.1 rfl
    intro x hx
    simp at hx
    subst hx
    exact ⟨hn.aligned, hn.pos, hn.inside⟩
  | succ h ih =>
    obtain ⟨n, qs, hn, rfl, hm⟩ := hr
    intro x hx
    rcases List.mem_cons.1 hx with rfl | hx
    · exact ⟨hn.aligned, hn.pos, hn.inside⟩
    · exact (hm.2.1 rfl).2.pages (fun p lo hi es ps hr => ih hr) x hx

/-- A tree of height `h` has more than `h` pages. -/
theorem Rep.height_lt {cfg B h off lo hi es ps} (hr : Rep cfg B h off lo hi es ps) : h < ps.length := by
  induction h generalizing off lo hi es ps with
  | zero => obtain ⟨n, qs, hn, rfl, hm⟩ := hr; simp
  | succ h ih =>
    obtain ⟨n, qs, hn, rfl, hm⟩ := hr
    have := (hm.2.1 rfl).2
    have : h < qs.length := by
      revert this
      generalize n.keys = ks
      generalize n.intPtrs = ptrs
      intro this
      cases this with
      | one h => exact ih h
      | cons h t => have := ih h; simp; omega
    simp; omega

theorem nodup_length_le : ∀ (m : Nat) (l : List Nat), l.Nodup → (∀ x ∈ l, x < m) → l.length ≤ m := by
  intro m
  induction m with
  | zero =>
    intro l _ h
    cases l with
    | nil => simp
    | cons a l => exact absurd (h a (by simp)) (by omega)
  | succ m ih =>
    intro l hn h
    by_cases hm : m ∈ l
    · have := ih (l.erase m) (hn.erase m) (fun x hx => by
        have h1 := (hn.mem_erase_iff).1 hx
        have := h x h1.2
        omega)
      rw [List.length_erase_of_mem hm] at this; omega
    · have := ih l hn (fun x hx => by
        have := h x hx
        have : x ≠ m := by rintro rfl; exact hm hx
        omega)
      omega

theorem pages_count {B : Bytes} {ps : List Nat} (hn : ps.Nodup)
    (h : ∀ x ∈ ps, x % pageSize = 0 ∧ pageSize ≤ x ∧ x + pageSize ≤ B.length) :
    ps.length < B.length / pageSize + 1 := by
  have hd : (ps.map (· / pageSize)).Nodup := by
    rw [List.Nodup, List.pairwise_map]
    refine hn.imp_of_mem ?_
    intro a b ha hb hne hc
    have h1 := (h a ha).1
    have h2 := (h b hb).1
    unfold pageSize at *
    omega
  have := nodup_length_le (B.length / pageSize) _ hd (by
    intro x hx
    obtain ⟨y, hy, rfl⟩ := List.mem_map.1 hx
    have := h y hy
    unfold pageSize at *
    omega)
  simp at this
  omega

end Appendable
