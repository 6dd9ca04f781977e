import Verif.Lemmas.TreeTop
/-! Cursors: the records of an iterator designate a position in the entry list. -/
namespace Appendable
open Spec Tree

/-- The children `ptrs` of a node of height `h + 1` hold the entry lists `L`. -/
def Fam (cfg : Cfg) (B : Bytes) (h : Nat) (ptrs : List UInt64) (L : List (List Entry)) : Prop :=
  L.length = ptrs.length ∧ ∀ (i : Nat) (p : UInt64) (e : List Entry), ptrs[i]? = some p → L[i]? = some e →
    ∃ lo hi ps, Rep cfg B h p lo hi e ps

theorem Kids.fam {cfg B h lo ks ptrs hi es ps} (hk : Kids (Rep cfg B h) lo ks ptrs hi es ps) :
    ∃ L, Fam cfg B h ptrs L ∧ es = L.flatten := by
  induction hk with
  | @one lo hi p es ps h =>
    refine ⟨[es], ⟨rfl, ?_⟩, by simp⟩
    intro i p' e h1 h2
    cases i with
    | zero => simp at h1 h2; subst h1; subst h2; exact ⟨_, _, _, h⟩
    | succ i => simp at h1
  | @cons lo hi p k ks ptrs es1 es2 ps1 ps2 h t ih =>
    obtain ⟨L, hL, hes⟩ := ih
    refine ⟨es1 :: L, ⟨by simp [hL.1], ?_⟩, by simp [hes]⟩
    intro i p' e h1 h2
    cases i with
    | zero => simp at h1 h2; subst h1; subst h2; exact ⟨_, _, _, h⟩
    | succ i => simp at h1 h2; exact hL.2 i p' e h1 h2

/-- The records `path` (leaf first) below the node at `off` stand at position `i` of the entries; `on` tells
whether the leaf index is the index of an entry or one past the last entry of its leaf. -/
inductive Cur (cfg : Cfg) (B : Bytes) : Nat → UInt64 → List Entry → List TRec → Nat → Bool → Prop
  | leaf {off : UInt64} {n : Node} {ptr : MemPtr} {j : Nat} (hn : NodeAt cfg B off n) (hs : LeafShape n)
      (hj : j ≤ n.keys.length) :
      Cur cfg B 0 off (n.keys.zip n.leafPtrs) [⟨n, (j : Nat), ptr⟩] j (decide (j < n.keys.length))
  | step {h : Nat} {off : UInt64} {n : Node} {ptr : MemPtr} {L : List (List Entry)} {c : Nat} {p : UInt64}
      {e : List Entry} {path : List TRec} {i : Nat} {on : Bool} (hn : NodeAt cfg B off n) (hs : InternalShape n)
      (hL : Fam cfg B h n.intPtrs L) (hp : n.intPtrs[c]? = some p) (he : L[c]? = some e)
      (t : Cur cfg B h p e path i on) :
      Cur cfg B (h + 1) off L.flatten (path ++ [⟨n, (c : Nat), ptr⟩]) ((L.take c).flatten.length + i) on

theorem flatten_take_succ {α : Type} {L : List (List α)} {c : Nat} {e : List α} (h : L[c]? = some e) :
    (L.take (c + 1)).flatten.length = (L.take c).flatten.length + e.length := by
  rw [List.take_add_one, h]; simp

theorem flatten_take_all {α : Type} {L : List (List α)} {c : Nat} (h : L.length ≤ c) :
    (L.take c).flatten.length = L.flatten.length := by
  rw [List.take_of_length_le h]

theorem flatten_take_le {α : Type} (L : List (List α)) (c : Nat) :
    (L.take c).flatten.length ≤ L.flatten.length := by
  have h : L.flatten = (L.take c).flatten ++ (L.drop c).flatten := by
    rw [← List.flatten_append, List.take_append_drop]
  rw [h, List.length_append]; omega

theorem flatten_split {α : Type} {L : List (List α)} {c : Nat} {e : List α} (h : L[c]? = some e) :
    L.flatten = (L.take c).flatten ++ (e ++ (L.drop (c + 1)).flatten) := by
  obtain ⟨hc, rfl⟩ := List.getElem?_eq_some_iff.1 h
  have h2 : L.flatten = (L.take c).flatten ++ (L.drop c).flatten := by
    rw [← List.flatten_append, List.take_append_drop]
  rw [h2, List.drop_eq_getElem_cons hc, List.flatten_cons]

theorem zip_length {n : Node} (h : LeafShape n) : (n.keys.zip n.leafPtrs).length = n.keys.length := by
  rw [List.length_zip, h.1]; simp

theorem Fam.ne {cfg B h ptrs L} (hL : Fam cfg B h ptrs L) {c : Nat} {e : List Entry} (he : L[c]? = some e) : e ≠ [] := by
  obtain ⟨hc, _⟩ := List.getElem?_eq_some_iff.1 he
  obtain ⟨lo, hi, ps, hr⟩ := hL.2 c _ e (List.getElem?_eq_getElem (by rw [← hL.1]; exact hc)) he
  exact hr.nonempty

theorem Cur.le {cfg B h off es path i on} (hc : Cur cfg B h off es path i on) :
    i ≤ es.length ∧ (on = true → i < es.length) := by
  induction hc with
  | leaf hn hs hj => rw [zip_length hs]; exact ⟨hj, by simp⟩
  | @step h off n ptr L c p e path i on hn hs hL hp he t ih =>
    have h1 := flatten_take_succ he
    have h2 := flatten_take_le L (c + 1)
    refine ⟨by omega, fun ho => ?_⟩
    have := ih.2 ho
    omega

/-- The entry under the cursor. -/
theorem Cur.entry {cfg B h off es path i on} (hc : Cur cfg B h off es path i on) (ho : on = true) :
    ∃ r rest j k v, path = r :: rest ∧ r.index = (j : Nat) ∧ r.node.keys[j]? = some k ∧ r.node.pointer j = some v ∧
      es[i]? = some (k, v) := by
  induction hc with
  | @leaf off n ptr j hn hs hj =>
    have hjl : j < n.keys.length := by simpa using ho
    have hleaf := hs.isLeaf hn.ok.1
    refine ⟨_, _, j, n.keys[j], n.leafPtrs[j]'(by rw [hs.1]; exact hjl), rfl, rfl, List.getElem?_eq_getElem hjl, ?_, ?_⟩
    · unfold Node.pointer; rw [if_pos hleaf]; exact List.getElem?_eq_getElem _
    · rw [List.getElem?_eq_getElem (by rw [zip_length hs]; exact hjl), List.getElem_zip]
  | @step h off n ptr L c p e path i on hn hs hL hp he t ih =>
    obtain ⟨r, rest, j, k, v, h1, h2, h3, h4, h5⟩ := ih ho
    refine ⟨r, rest ++ [⟨n, (c : Nat), ptr⟩], j, k, v, by simp [h1], h2, h3, h4, ?_⟩
    rw [flatten_split he, List.getElem?_append_right (by omega), Nat.add_sub_cancel_left,
      List.getElem?_append_left (by obtain ⟨hh, _⟩ := List.getElem?_eq_some_iff.1 h5; exact hh)]
    exact h5

theorem numPointers_leaf {n : Node} (h : LeafShape n) : n.numPointers = n.keys.length := by
  unfold Node.numPointers; rw [h.2, h.1]; simp

theorem numPointers_internal {n : Node} (h : InternalShape n) : n.numPointers = n.intPtrs.length := by
  unfold Node.numPointers; rw [h.2]; simp

theorem pointer_internal {n : Node} (h : InternalShape n) {c : Nat} {p : UInt64} (hp : n.intPtrs[c]? = some p) :
    n.pointer c = some ⟨p, 0⟩ := by
  unfold Node.pointer; rw [if_neg (by simp [h.isLeaf]), hp]; rfl

/-- One level of `incr` without rollover. -/
theorem incr_stay {t : Tree} {delta : Int} {r : TRec} {rs : List TRec} {s : PF} (h0 : 0 ≤ r.index + delta)
    (h1 : r.index + delta < r.node.numPointers) :
    t.incr delta (r :: rs) s = (.ok (true, { r with index := r.index + delta } :: rs, none), s) := by
  unfold incr
  simp only
  rw [if_neg (by omega)]; rfl

/-- One level of `incr` with rollover, when the parent cannot move. -/
theorem incr_roll_false {t : Tree} {delta : Int} {r : TRec} {rs rs' : List TRec} {s s' : PF} {e : Option Err}
    (h : r.index + delta < 0 ∨ r.index + delta ≥ r.node.numPointers)
    (hr : t.incr delta rs s = (.ok (false, rs', e), s')) :
    t.incr delta (r :: rs) s = (.ok (false, { r with index := r.index + delta } :: rs', e), s') := by
  unfold incr
  simp only
  rw [if_pos h, Act.bind_ok hr]
  rfl

/-- One level of `incr` with rollover, when the parent moves. -/
theorem incr_roll_true {t : Tree} {delta : Int} {r p : TRec} {rs rs' : List TRec} {s : PF} {q : Nat} {c : Nat}
    {off : UInt64} {n : Node}
    (h : r.index + delta < 0 ∨ r.index + delta ≥ r.node.numPointers)
    (hr : t.incr delta rs s = (.ok (true, p :: rs', none), s.upd s.file.bytes q)) (hi : p.index = (c : Nat))
    (hp : p.node.pointer c = some ⟨off, 0⟩) (hn : NodeAt t.cfg s.file.bytes off n) :
    t.incr delta (r :: rs) s = (.ok (true, ⟨n, if r.index + delta < 0 then (n.numPointers : Int) - 1 else 0, r.ptr⟩ :: p :: rs', none),
      s.upd s.file.bytes (off.toNat + pageSize)) := by
  unfold incr
  simp only
  rw [if_pos h, Act.bind_ok hr]
  simp only [Bool.not_true, Bool.false_eq_true, if_false, hi]
  rw [if_neg (by omega)]
  simp only [Int.toNat_natCast, hp]
  rw [readNode_ok (t := t) (s := s.upd s.file.bytes q) hn 0]
  rfl

theorem upd_self (s : PF) : s.upd s.file.bytes s.file.pos = s := rfl

/-- The first position of a subtree is entered through the leftmost children. -/
theorem Rep.node {cfg B h off lo hi es ps} (hr : Rep cfg B h off lo hi es ps) : ∃ n, NodeAt cfg B off n := by
  obtain ⟨n, _, hn, _⟩ := rep_iff.1 hr; exact ⟨n, hn⟩

theorem Rep.leafEntries {cfg B off lo hi es ps n} (hr : Rep cfg B 0 off lo hi es ps) (hn : NodeAt cfg B off n) :
    LeafShape n ∧ es = n.keys.zip n.leafPtrs := by
  obtain ⟨n', qs, hn', rfl, hm⟩ := hr
  cases hn.unique hn'
  obtain ⟨hs, he, _⟩ := hm.1 rfl
  exact ⟨hs, he⟩

theorem Rep.family {cfg B h off lo hi es ps n} (hr : Rep cfg B (h + 1) off lo hi es ps) (hn : NodeAt cfg B off n) :
    InternalShape n ∧ ∃ L, Fam cfg B h n.intPtrs L ∧ es = L.flatten := by
  obtain ⟨n', qs, hn', rfl, hm⟩ := hr
  cases hn.unique hn'
  obtain ⟨hs, hk⟩ := hm.2.1 rfl
  exact ⟨hs, hk.fam⟩

/-- `Next` from a cursor. -/
theorem incr_next {t : Tree} {s : PF} {h off es path i on} (hc : Cur t.cfg s.file.bytes h off es path i on) :
    ((if on then i + 1 else i) < es.length → ∃ path' q,
      (∀ rest, t.incr 1 (path ++ rest) s = (.ok (true, path' ++ rest, none), s.upd s.file.bytes q)) ∧
      Cur t.cfg s.file.bytes h off es path' (if on then i + 1 else i) true) ∧
    (es.length ≤ (if on then i + 1 else i) →
      (∃ path', ∀ rest rs' e s', t.incr 1 rest s = (.ok (false, rs', e), s') →
        t.incr 1 (path ++ rest) s = (.ok (false, path' ++ rs', e), s')) ∧
      (∀ q esq lo hi ps, Rep t.cfg s.file.bytes h q lo hi esq ps → ∃ path' x,
        Cur t.cfg s.file.bytes h q esq path' 0 true ∧
        ∀ rest r rs' p1 (c : Nat), t.incr 1 rest s = (.ok (true, r :: rs', none), s.upd s.file.bytes p1) →
          r.index = (c : Nat) → r.node.pointer c = some ⟨q, 0⟩ →
          t.incr 1 (path ++ rest) s = (.ok (true, path' ++ r :: rs', none), s.upd s.file.bytes x))) := by
  induction hc with
  | @leaf off n ptr j hn hs hj =>
    have hnp := numPointers_leaf hs
    have hzl := zip_length hs
    rw [hzl]
    constructor
    · intro hlt
      have hon : j < n.keys.length := by by_cases hh : j < n.keys.length <;> simp [hh] at hlt; omega
      simp only [hon, decide_true, if_true] at hlt ⊢
      refine ⟨[⟨n, ((j + 1 : Nat) : Int), ptr⟩], s.file.pos, fun rest => ?_, ?_⟩
      · have := incr_stay (t := t) (delta := 1) (r := ⟨n, (j : Nat), ptr⟩) (rs := rest) (s := s) (by simp only; omega)
          (by simp only [hnp]; omega)
        simp only [List.singleton_append, this]
        rfl
      · have := Cur.leaf (ptr := ptr) (j := j + 1) hn hs (by omega)
        rw [decide_eq_true hlt] at this
        exact this
    · intro hge
      have hroll : (j : Int) + 1 ≥ n.numPointers := by
        rw [hnp]
        by_cases hh : j < n.keys.length
        · simp [hh] at hge; omega
        · omega
      constructor
      · refine ⟨[⟨n, (j : Int) + 1, ptr⟩], fun rest rs' e s' hr => ?_⟩
        exact incr_roll_false (r := ⟨n, (j : Nat), ptr⟩) (.inr hroll) hr
      · intro q esq lo hi ps hrep
        obtain ⟨nq, hnq⟩ := hrep.node
        obtain ⟨hsq, rfl⟩ := hrep.leafEntries hnq
        have h0 := hnq.ok.1
        refine ⟨[⟨nq, ((0 : Nat) : Int), ptr⟩], q.toNat + pageSize, ?_, ?_⟩
        · have := Cur.leaf (ptr := ptr) (j := 0) hnq hsq (by omega)
          rw [decide_eq_true h0] at this
          exact this
        · intro rest r rs' p1 c h1 h2 h3
          have := incr_roll_true (r := ⟨n, (j : Nat), ptr⟩) (.inr hroll) h1 h2 h3 hnq
          simp only at this
          rw [if_neg (by omega)] at this
          exact this
  | @step h off n ptr L c p e path i on hn hs hL hp he tl ih =>
    obtain ⟨ih1, ih2⟩ := ih
    have hnp := numPointers_internal hs
    have hts := flatten_take_succ he
    have hel := tl.le
    have hpos : (if on then (L.take c).flatten.length + i + 1 else (L.take c).flatten.length + i)
        = (L.take c).flatten.length + (if on then i + 1 else i) := by split <;> omega
    rw [hpos]
    generalize hA : (if on then i + 1 else i) = A at *
    have hAle : A ≤ e.length := by
      subst hA
      split
      · have := hel.2 (by assumption); omega
      · exact hel.1
    obtain ⟨hcp, hcpe⟩ := List.getElem?_eq_some_iff.1 hp
    obtain ⟨hcL, _⟩ := List.getElem?_eq_some_iff.1 he
    by_cases hin : A < e.length
    · obtain ⟨path', q, r1, r2⟩ := ih1 hin
      have hle := flatten_take_le L (c + 1)
      refine ⟨fun _ => ⟨path' ++ [⟨n, (c : Nat), ptr⟩], q, fun rest => ?_, .step hn hs hL hp he r2⟩,
        fun hge => by omega⟩
      have := r1 (⟨n, (c : Nat), ptr⟩ :: rest)
      simpa using this
    · have hAe : A = e.length := by omega
      obtain ⟨⟨pathF, hF⟩, hT⟩ := ih2 (by omega)
      by_cases hc1 : c + 1 < n.intPtrs.length
      · -- move to the next child
        have hp' : n.intPtrs[c + 1]? = some n.intPtrs[c + 1] := List.getElem?_eq_getElem hc1
        have hcL1 : c + 1 < L.length := by rw [hL.1]; exact hc1
        have he' : L[c + 1]? = some L[c + 1] := List.getElem?_eq_getElem hcL1
        obtain ⟨lo, hi, ps, hrep⟩ := hL.2 _ _ _ hp' he'
        obtain ⟨path', x, r1, r2⟩ := hT _ _ _ _ _ hrep
        have hposEq : (L.take c).flatten.length + A = (L.take (c + 1)).flatten.length + 0 := by omega
        have hne := hL.ne he'
        have hnz : 0 < L[c + 1].length := List.length_pos_iff.2 hne
        have hlt : (L.take (c + 1)).flatten.length < L.flatten.length := by
          have := flatten_take_succ he'
          have := flatten_take_le L (c + 1 + 1)
          omega
        refine ⟨fun _ => ⟨path' ++ [⟨n, ((c + 1 : Nat) : Int), ptr⟩], x, fun rest => ?_, ?_⟩, fun hge => by omega⟩
        · have hstay := incr_stay (t := t) (delta := 1) (r := ⟨n, (c : Nat), ptr⟩) (rs := rest) (s := s)
            (by simp only; omega) (by simp only [hnp]; omega)
          have := r2 (⟨n, (c : Nat), ptr⟩ :: rest) _ _ s.file.pos (c + 1) hstay rfl (pointer_internal hs hp')
          simpa using this
        · rw [hposEq]; exact .step hn hs hL hp' he' r1
      · -- past the last child
        have hAll : (L.take c).flatten.length + A = L.flatten.length := by
          have := flatten_take_all (L := L) (c := c + 1) (by rw [hL.1]; omega)
          omega
        have hroll : (c : Int) + 1 ≥ n.numPointers := by rw [hnp]; omega
        refine ⟨fun hlt => by omega, fun _ => ⟨⟨pathF ++ [⟨n, (c : Int) + 1, ptr⟩], fun rest rs' e' s' hr => ?_⟩, ?_⟩⟩
        · have := hF _ _ _ _ (incr_roll_false (r := ⟨n, (c : Nat), ptr⟩) (.inr hroll) hr)
          simpa using this
        · intro q esq lo hi ps hrep
          obtain ⟨nq, hnq⟩ := hrep.node
          obtain ⟨hsq, Lq, hLq, rfl⟩ := hrep.family hnq
          have hk0 := hnq.ok.1
          have hlen := hsq.1
          have hp0 : nq.intPtrs[0]? = some nq.intPtrs[0] := List.getElem?_eq_getElem (by omega)
          have he0 : Lq[0]? = some (Lq[0]'(by rw [hLq.1]; omega)) := List.getElem?_eq_getElem _
          obtain ⟨lo0, hi0, ps0, hrep0⟩ := hLq.2 _ _ _ hp0 he0
          obtain ⟨path', x, r1, r2⟩ := hT _ _ _ _ _ hrep0
          refine ⟨path' ++ [⟨nq, ((0 : Nat) : Int), ptr⟩], x, ?_, ?_⟩
          · have := Cur.step (ptr := ptr) hnq hsq hLq hp0 he0 r1
            simpa using this
          · intro rest r rs' p1 c' h1 h2 h3
            have hroll' := incr_roll_true (r := ⟨n, (c : Nat), ptr⟩) (.inr hroll) h1 h2 h3 hnq
            simp only at hroll'
            rw [if_neg (by omega)] at hroll'
            have := r2 (⟨n, (c : Nat), ptr⟩ :: rest) _ _ _ 0 hroll' rfl (pointer_internal hsq hp0)
            simpa using this

/-- `Prev` from a cursor. -/
theorem incr_prev {t : Tree} {s : PF} {h off es path i on} (hc : Cur t.cfg s.file.bytes h off es path i on) :
    (1 ≤ i → ∃ path' q,
      (∀ rest, t.incr (-1) (path ++ rest) s = (.ok (true, path' ++ rest, none), s.upd s.file.bytes q)) ∧
      Cur t.cfg s.file.bytes h off es path' (i - 1) true) ∧
    (i = 0 →
      (∃ path', ∀ rest rs' e s', t.incr (-1) rest s = (.ok (false, rs', e), s') →
        t.incr (-1) (path ++ rest) s = (.ok (false, path' ++ rs', e), s')) ∧
      (∀ q esq lo hi ps, Rep t.cfg s.file.bytes h q lo hi esq ps → ∃ path' x,
        Cur t.cfg s.file.bytes h q esq path' (esq.length - 1) true ∧
        ∀ rest r rs' p1 (c : Nat), t.incr (-1) rest s = (.ok (true, r :: rs', none), s.upd s.file.bytes p1) →
          r.index = (c : Nat) → r.node.pointer c = some ⟨q, 0⟩ →
          t.incr (-1) (path ++ rest) s = (.ok (true, path' ++ r :: rs', none), s.upd s.file.bytes x))) := by
  induction hc with
  | @leaf off n ptr j hn hs hj =>
    have hnp := numPointers_leaf hs
    constructor
    · intro hge
      refine ⟨[⟨n, ((j - 1 : Nat) : Int), ptr⟩], s.file.pos, fun rest => ?_, ?_⟩
      · have := incr_stay (t := t) (delta := -1) (r := ⟨n, (j : Nat), ptr⟩) (rs := rest) (s := s) (by simp only; omega)
          (by simp only [hnp]; omega)
        have hd : (j : Int) + -1 = ((j - 1 : Nat) : Int) := by omega
        simp only [hd] at this
        simp only [List.singleton_append, this]
        rfl
      · have := Cur.leaf (ptr := ptr) (j := j - 1) hn hs (by omega)
        rw [decide_eq_true (by omega)] at this
        exact this
    · intro hz
      subst hz
      have hroll : ((0 : Nat) : Int) + -1 < 0 := by omega
      constructor
      · refine ⟨[⟨n, ((0 : Nat) : Int) + -1, ptr⟩], fun rest rs' e s' hr => ?_⟩
        exact incr_roll_false (r := ⟨n, ((0 : Nat) : Int), ptr⟩) (.inl hroll) hr
      · intro q esq lo hi ps hrep
        obtain ⟨nq, hnq⟩ := hrep.node
        obtain ⟨hsq, rfl⟩ := hrep.leafEntries hnq
        have h0 := hnq.ok.1
        refine ⟨[⟨nq, ((nq.keys.length - 1 : Nat) : Int), ptr⟩], q.toNat + pageSize, ?_, ?_⟩
        · have := Cur.leaf (ptr := ptr) (j := nq.keys.length - 1) hnq hsq (by omega)
          rw [decide_eq_true (by omega)] at this
          rw [zip_length hsq]
          exact this
        · intro rest r rs' p1 c h1 h2 h3
          have := incr_roll_true (r := ⟨n, ((0 : Nat) : Int), ptr⟩) (.inl hroll) h1 h2 h3 hnq
          simp only at this
          rw [if_pos hroll, numPointers_leaf hsq, show ((nq.keys.length : Int) - 1) = ((nq.keys.length - 1 : Nat) : Int) by omega] at this
          exact this
  | @step h off n ptr L c p e path i on hn hs hL hp he tl ih =>
    obtain ⟨ih1, ih2⟩ := ih
    have hnp := numPointers_internal hs
    obtain ⟨hcp, _⟩ := List.getElem?_eq_some_iff.1 hp
    by_cases hi1 : 1 ≤ i
    · obtain ⟨path', q, r1, r2⟩ := ih1 hi1
      refine ⟨fun _ => ⟨path' ++ [⟨n, (c : Nat), ptr⟩], q, fun rest => ?_, ?_⟩, fun hge => by omega⟩
      · have := r1 (⟨n, (c : Nat), ptr⟩ :: rest)
        simpa using this
      · rw [show (L.take c).flatten.length + i - 1 = (L.take c).flatten.length + (i - 1) by omega]
        exact .step hn hs hL hp he r2
    · have hi0 : i = 0 := by omega
      subst hi0
      obtain ⟨⟨pathF, hF⟩, hT⟩ := ih2 rfl
      by_cases hc0 : 1 ≤ c
      · obtain ⟨d, rfl⟩ : ∃ d, c = d + 1 := ⟨c - 1, by omega⟩
        have hp' : n.intPtrs[d]? = some n.intPtrs[d] := List.getElem?_eq_getElem (by omega)
        have hdL : d < L.length := by rw [hL.1]; omega
        have he' : L[d]? = some L[d] := List.getElem?_eq_getElem hdL
        obtain ⟨lo, hi, ps, hrep⟩ := hL.2 _ _ _ hp' he'
        obtain ⟨path', x, r1, r2⟩ := hT _ _ _ _ _ hrep
        have hts := flatten_take_succ he'
        have hne := hL.ne he'
        have hnz := List.length_pos_iff.2 hne
        refine ⟨fun _ => ⟨path' ++ [⟨n, ((d : Nat) : Int), ptr⟩], x, fun rest => ?_, ?_⟩, fun hge => by omega⟩
        · have hstay := incr_stay (t := t) (delta := -1) (r := ⟨n, ((d + 1 : Nat) : Int), ptr⟩) (rs := rest) (s := s)
            (by simp only; omega) (by simp only [hnp]; omega)
          have := r2 (⟨n, ((d + 1 : Nat) : Int), ptr⟩ :: rest) _ _ s.file.pos d hstay (by simp only; omega) (pointer_internal hs hp')
          have hd : ((d + 1 : Nat) : Int) + -1 = (d : Int) := by omega
          rw [hd] at this
          simpa using this
        · rw [hts, show (L.take d).flatten.length + L[d].length + 0 - 1 = (L.take d).flatten.length + (L[d].length - 1) by omega]
          exact .step hn hs hL hp' he' r1
      · have hc00 : c = 0 := by omega
        subst hc00
        have hroll : ((0 : Nat) : Int) + -1 < 0 := by omega
        refine ⟨fun hlt => by simp at hlt, fun _ => ⟨⟨pathF ++ [⟨n, ((0 : Nat) : Int) + -1, ptr⟩], fun rest rs' e' s' hr => ?_⟩, ?_⟩⟩
        · have := hF _ _ _ _ (incr_roll_false (r := ⟨n, ((0 : Nat) : Int), ptr⟩) (.inl hroll) hr)
          simpa using this
        · intro q esq lo hi ps hrep
          obtain ⟨nq, hnq⟩ := hrep.node
          obtain ⟨hsq, Lq, hLq, rfl⟩ := hrep.family hnq
          have hk0 := hnq.ok.1
          have hlen := hsq.1
          have hm : nq.intPtrs.length - 1 < nq.intPtrs.length := by omega
          have hp0 : nq.intPtrs[nq.intPtrs.length - 1]? = some nq.intPtrs[nq.intPtrs.length - 1] := List.getElem?_eq_getElem hm
          have hmL : nq.intPtrs.length - 1 < Lq.length := by rw [hLq.1]; exact hm
          have he0 : Lq[nq.intPtrs.length - 1]? = some Lq[nq.intPtrs.length - 1] := List.getElem?_eq_getElem hmL
          obtain ⟨lo0, hi0, ps0, hrep0⟩ := hLq.2 _ _ _ hp0 he0
          obtain ⟨path', x, r1, r2⟩ := hT _ _ _ _ _ hrep0
          have hts := flatten_take_succ he0
          rw [flatten_take_all (by rw [hLq.1]; omega)] at hts
          have hnz := List.length_pos_iff.2 (hLq.ne he0)
          refine ⟨path' ++ [⟨nq, ((nq.intPtrs.length - 1 : Nat) : Int), ptr⟩], x, ?_, ?_⟩
          · have := Cur.step (ptr := ptr) hnq hsq hLq hp0 he0 r1
            rw [show (Lq.flatten.length - 1) = (Lq.take (nq.intPtrs.length - 1)).flatten.length +
              (Lq[nq.intPtrs.length - 1].length - 1) by omega]
            exact this
          · intro rest r rs' p1 c' h1 h2 h3
            have hroll' := incr_roll_true (r := ⟨n, ((0 : Nat) : Int), ptr⟩) (.inl hroll) h1 h2 h3 hnq
            simp only at hroll'
            rw [if_pos hroll, numPointers_internal hsq, show ((nq.intPtrs.length : Int) - 1) = ((nq.intPtrs.length - 1 : Nat) : Int) by omega] at hroll'
            have := r2 (⟨n, ((0 : Nat) : Int), ptr⟩ :: rest) _ _ _ _ hroll' rfl (pointer_internal hsq hp0)
            simpa using this

end Appendable
