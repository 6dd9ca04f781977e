import Verif.Model.Heap
/-! The min-max heap: what `up` and `down` preserve. -/
namespace Appendable.DistHeap

theorem isMinLevel_parent {i : Nat} (h : 0 < i) : isMinLevel i = !isMinLevel (parent i) := by
  unfold isMinLevel level parent
  have e : (i - 1) / 2 + 1 = (i + 1) / 2 := by omega
  rw [e, Nat.log2_def (i + 1), if_pos (by omega)]
  generalize Nat.log2 ((i + 1) / 2) = k
  rcases Nat.mod_two_eq_zero_or_one k with hk | hk
  · have : (k + 1) % 2 = 1 := by omega
    simp [hk, this]
  · have : (k + 1) % 2 = 0 := by omega
    simp [hk, this]

theorem isMinLevel_grand {i : Nat} (h : 2 < i) : isMinLevel i = isMinLevel (grandparent i) := by
  have h1 : 0 < parent i := by unfold parent; omega
  rw [isMinLevel_parent (by omega : 0 < i), isMinLevel_parent h1, Bool.not_not]; rfl

/-- `x` is a proper ancestor of `y` in the heap tree. -/
inductive Anc : Nat → Nat → Prop
  | parent {y : Nat} : 0 < y → Anc (parent y) y
  | step {x y : Nat} : 0 < y → Anc x (parent y) → Anc x y

theorem Anc.lt {x y : Nat} (h : Anc x y) : x < y := by
  induction h with
  | parent h => unfold DistHeap.parent; omega
  | step h _ ih => unfold DistHeap.parent at ih; omega

theorem Anc.trans {x y z : Nat} (h1 : Anc x y) (h2 : Anc y z) : Anc x z := by
  induction h2 with
  | parent h => exact .step h h1
  | step h _ ih => exact .step h (ih h1)

theorem Anc.cases_parent {x y : Nat} (h : Anc x y) : 0 < y ∧ (x = DistHeap.parent y ∨ Anc x (DistHeap.parent y)) := by
  cases h with
  | parent h => exact ⟨h, .inl rfl⟩
  | step h h' => exact ⟨h, .inr h'⟩

/-- `a` may be above `c` on a level of the kind `b`. -/
def ord (b : Bool) (a c : Int) : Prop := if b then a ≤ c else c ≤ a

theorem ord_refl (b : Bool) (a : Int) : ord b a a := by unfold ord; split <;> omega
theorem ord_trans {b : Bool} {a c e : Int} (h1 : ord b a c) (h2 : ord b c e) : ord b a e := by
  cases b <;> simp only [ord, if_true, Bool.false_eq_true, if_false] at * <;> omega
theorem ord_not {b : Bool} {a c : Int} : ord (!b) a c ↔ ord b c a := by cases b <;> simp [ord]
theorem ord_true {b : Bool} {a c : Int} (h : decide (a < c) = b) : ord b a c := by
  cases b <;> simp [ord] at * <;> omega
theorem ord_false {b : Bool} {a c : Int} (h : ¬ decide (a < c) = b) : ord b c a := by
  cases b <;> simp [ord] at * <;> omega

/-- All pairs of positions below `n` are in order, except the pairs in `E`. -/
def Pairs (d : Nat → Int) (n : Nat) (E : Nat → Nat → Prop) : Prop :=
  ∀ x y, Anc x y → y < n → ¬ E x y → ord (isMinLevel x) (d x) (d y)

/-- The exchange of two positions. -/
def exch (d : Nat → Int) (i j : Nat) : Nat → Int := fun k => if k = i then d j else if k = j then d i else d k

theorem exch_left (d : Nat → Int) (i j : Nat) : exch d i j i = d j := by simp [exch]
theorem exch_right (d : Nat → Int) (i j : Nat) : exch d i j j = d i := by
  unfold exch; split
  · rename_i h; rw [h]
  · simp
theorem exch_other {d : Nat → Int} {i j k : Nat} (h1 : k ≠ i) (h2 : k ≠ j) : exch d i j k = d k := by simp [exch, h1, h2]

/-- One round of the loop of `up`. -/
theorem up_round {d : Nat → Int} {n i : Nat} {b : Bool} (hb : isMinLevel i = b) (hi : 2 < i) (hn : i < n)
    (hp : Pairs d n (fun x y => y = i ∧ isMinLevel x = b)) (hlt : ord b (d i) (d (grandparent i))) :
    Pairs (exch d i (grandparent i)) n (fun x y => y = grandparent i ∧ isMinLevel x = b) := by
  have hg0 : 0 < parent i := by unfold parent; omega
  have hpi : Anc (parent i) i := .parent (by omega)
  have hgp : Anc (grandparent i) (parent i) := .parent hg0
  have hgi : Anc (grandparent i) i := hgp.trans hpi
  have hgb : isMinLevel (grandparent i) = b := by rw [← isMinLevel_grand hi, hb]
  have hpb : isMinLevel (parent i) = !b := by rw [← hgb, isMinLevel_parent hg0]; rfl
  have hne : grandparent i ≠ i := Nat.ne_of_lt hgi.lt
  have hgl := hgi.lt
  have hpl := hpi.lt
  generalize hg : grandparent i = g at *
  intro x y hxy hy hE
  -- position of y
  by_cases hyi : y = i
  · subst hyi
    rw [exch_left]
    by_cases hxg : x = g
    · subst hxg
      rw [exch_right, hgb]; exact hlt
    · by_cases hxp : x = parent y
      · subst hxp
        rw [exch_other (by omega) hxg, hpb, ord_not]
        have := hp g (parent y) hgp (by have := hpi.lt; omega) (fun h => by have := hpi.lt; omega)
        rwa [hgb] at this
      · have hxa : Anc x g := by
          rcases hxy.cases_parent.2 with h | h
          · exact absurd h hxp
          · rcases h.cases_parent.2 with h | h
            · exact absurd (h.trans hg) hxg
            · rw [← hg]; exact h
        have := hxa.lt
        rw [exch_other (by omega) hxg]
        exact hp x g hxa (by omega) (fun h => hne h.1)
  · by_cases hyg : y = g
    · subst hyg
      have hxl := hxy.lt
      rw [exch_right, exch_other (by omega) (by omega)]
      exact hp x i (hxy.trans hgi) hn (fun h => hE ⟨rfl, h.2⟩)
    · rw [exch_other (k := y) hyi hyg]
      by_cases hxi : x = i
      · subst hxi
        rw [exch_left, hb]
        have := hp g y (hgi.trans hxy) hy (fun h => hyi h.1)
        rwa [hgb] at this
      · by_cases hxg : x = g
        · subst hxg
          rw [exch_right, hgb]
          have := hp x y hxy hy (fun h => hyi h.1)
          rw [hgb] at this
          exact ord_trans hlt this
        · rw [exch_other hxi hxg]
          exact hp x y hxy hy (fun h => hyi h.1)

/-- The loop of `up` ends with a heap. -/
theorem up_stop {d : Nat → Int} {n i : Nat} {b : Bool} (hb : isMinLevel i = b)
    (hp : Pairs d n (fun x y => y = i ∧ isMinLevel x = b)) (h : 2 < i → ord b (d (grandparent i)) (d i)) :
    Pairs d n (fun _ _ => False) := by
  intro x y hxy hy _
  by_cases hE : y = i ∧ isMinLevel x = b
  · obtain ⟨rfl, hx⟩ := hE
    have h0 := hxy.cases_parent
    have hne : x ≠ parent y := fun e => by
      have := isMinLevel_parent h0.1
      rw [← e, hx, hb] at this; cases b <;> simp at this
    have h1 := h0.2.resolve_left hne
    have h2 := h1.cases_parent
    have h3 : 2 < y := by have := h2.1; unfold parent at this; omega
    rcases h2.2 with e | ha
    · have e : x = grandparent y := e
      rw [hx, e]; exact h h3
    · have ha : Anc x (grandparent y) := ha
      have hgl : grandparent y < y := by unfold grandparent parent; omega
      have := hp x (grandparent y) ha (by omega) (fun h => by omega)
      rw [hx] at this ⊢
      exact ord_trans this (h h3)
  · exact hp x y hxy hy hE

/-- The exchange with the parent in `up`. -/
theorem up_parent {d : Nat → Int} {n i : Nat} {b : Bool} (hb : isMinLevel i = b) (hi : 0 < i) (hn : i < n)
    (hp : Pairs d n (fun _ y => y = i)) (hlt : ord b (d (parent i)) (d i)) :
    Pairs (exch d i (parent i)) n (fun x y => y = parent i ∧ isMinLevel x = !b) := by
  have hpi : Anc (parent i) i := .parent hi
  have hpb : isMinLevel (parent i) = !b := by rw [← hb, isMinLevel_parent hi, Bool.not_not]
  have hne : parent i ≠ i := Nat.ne_of_lt hpi.lt
  generalize hg : parent i = p at *
  intro x y hxy hy hE
  by_cases hyi : y = i
  · subst hyi
    rw [exch_left]
    by_cases hxp : x = p
    · subst hxp; rw [exch_right, hpb, ord_not]; exact hlt
    · have hxa : Anc x p := by
        rcases hxy.cases_parent.2 with h | h
        · exact absurd (h.trans hg) hxp
        · rw [← hg]; exact h
      have := hxa.lt
      have := hpi.lt
      rw [exch_other (by omega) hxp]
      exact hp x p hxa (by omega) hne
  · by_cases hyp : y = p
    · subst hyp
      have hxl := hxy.lt
      have := hpi.lt
      rw [exch_right, exch_other (by omega) (by omega)]
      have hx : isMinLevel x = b := by
        cases hxm : isMinLevel x <;> cases b <;> simp_all
      have := hp x y hxy (by omega) hne
      rw [hx] at this ⊢
      exact ord_trans this hlt
    · rw [exch_other (k := y) hyi hyp]
      by_cases hxi : x = i
      · subst hxi
        rw [exch_left, hb]
        have := hp x y hxy hy hyi
        rw [hb] at this
        exact ord_trans hlt this
      · by_cases hxp : x = p
        · subst hxp
          rw [exch_right, hpb]
          have := hp x y hxy hy hyi
          rw [hpb] at this
          exact ord_trans (ord_not.2 hlt) this
        · rw [exch_other hxi hxp]
          exact hp x y hxy hy hyi

/-- When the parent is in order, so are all ancestors of its kind. -/
theorem up_noparent {d : Nat → Int} {n i : Nat} {b : Bool} (hb : isMinLevel i = b) (hi : 0 < i) 
    (hp : Pairs d n (fun _ y => y = i)) (hge : ord b (d i) (d (parent i))) :
    Pairs d n (fun x y => y = i ∧ isMinLevel x = b) := by
  have hpi : Anc (parent i) i := .parent hi
  have hpb : isMinLevel (parent i) = !b := by rw [← hb, isMinLevel_parent hi, Bool.not_not]
  intro x y hxy hy hE
  by_cases hyi : y = i
  · subst hyi
    have hx : isMinLevel x = !b := by cases hxm : isMinLevel x <;> cases b <;> simp_all
    rw [hx]
    rcases hxy.cases_parent.2 with h | h
    · subst h; exact ord_not.2 hge
    · have := hpi.lt
      have := hp x (parent y) h (by omega) (by omega)
      rw [hx] at this
      exact ord_trans this (ord_not.2 hge)
  · exact hp x y hxy hy hyi

/-- The children and grandchildren of `i`. -/
def Near (i y : Nat) : Prop := 0 < y ∧ (parent y = i ∨ 0 < parent y ∧ grandparent y = i)

theorem Anc.near {x y : Nat} (h : Anc x y) : Near x y ∨ ∃ g, Near x g ∧ isMinLevel g = isMinLevel x ∧ Anc g y := by
  induction h with
  | parent h => exact .inl ⟨h, .inl rfl⟩
  | step h h' ih =>
    rename_i y
    rcases ih with hn | ⟨g, hg, hm, ha⟩
    · rcases hn.2 with e | ⟨h0, e⟩
      · exact .inl ⟨h, .inr ⟨hn.1, e⟩⟩
      · refine .inr ⟨DistHeap.parent y, hn, ?_, .parent h⟩
        rw [isMinLevel_parent hn.1, isMinLevel_parent h0, Bool.not_not]
        exact congrArg isMinLevel e
    · exact .inr ⟨g, hg, hm, .step h ha⟩

theorem Near.anc {x y : Nat} (h : Near x y) : Anc x y := by
  rcases h.2 with e | ⟨h0, e⟩
  · rw [← e]; exact .parent h.1
  · rw [← e]; exact .step h.1 (.parent h0)

/-- `down` may stop at `i`. -/
theorem down_stop {d : Nat → Int} {n i : Nat} (hp : Pairs d n (fun x _ => x = i))
    (hm : ∀ y, Near i y → y < n → ord (isMinLevel i) (d i) (d y)) : Pairs d n (fun _ _ => False) := by
  intro x y hxy hy _
  by_cases hx : x = i
  · subst hx
    rcases hxy.near with h | ⟨g, hg, hgm, ha⟩
    · exact hm y h hy
    · have := ha.lt
      have h1 := hm g hg (by omega)
      have h2 := hp g y ha hy (fun e => by have := hg.anc.lt; omega)
      rw [hgm] at h2
      exact ord_trans h1 h2
  · exact hp x y hxy hy hx

/-- `down` exchanges `i` with a child, the extreme one of the children and grandchildren, and stops. -/
theorem down_child {d : Nat → Int} {n i m : Nat} (hi : m < n) (hm : 0 < m) (hpm : parent m = i) (hp : Pairs d n (fun x _ => x = i))
    (hmi : ord (isMinLevel i) (d m) (d i)) (hext : ∀ y, Near i y → y < n → ord (isMinLevel i) (d m) (d y)) :
    Pairs (exch d i m) n (fun _ _ => False) := by
  have him : Anc i m := by rw [← hpm]; exact .parent hm
  have hmb : isMinLevel m = !isMinLevel i := by rw [isMinLevel_parent hm, hpm]
  have hlt := him.lt
  apply down_stop (i := i)
  · intro x y hxy hy hx
    by_cases hyi : y = i
    · subst hyi
      have := hxy.lt
      rw [exch_left, exch_other hx (by omega)]
      exact hp x m (hxy.trans him) hi hx
    · by_cases hym : y = m
      · subst hym
        have hxa : Anc x i := by
          rcases hxy.cases_parent.2 with h | h
          · exact absurd (h.trans hpm) hx
          · rw [← hpm]; exact h
        have := hxa.lt
        rw [exch_right, exch_other hx (by omega)]
        exact hp x i hxa (by omega) hx
      · rw [exch_other (k := y) hyi hym]
        by_cases hxm : x = m
        · subst hxm
          rw [exch_right, hmb]
          have := hp x y hxy hy hx
          rw [hmb] at this
          exact ord_trans (ord_not.2 hmi) this
        · rw [exch_other hx hxm]
          exact hp x y hxy hy hx
  · intro y hy hyn
    rw [exch_left]
    by_cases hym : y = m
    · subst hym; rw [exch_right]; exact hmi
    · have := hy.anc.lt
      rw [exch_other (by omega) hym]
      exact hext y hy hyn

/-- `down` exchanges `i` with a grandchild, the extreme one. -/
theorem down_grand {d : Nat → Int} {n i m : Nat} (hi : m < n) (hm : 2 < m) (hpm : grandparent m = i)
    (hp : Pairs d n (fun x _ => x = i)) (hmi : ord (isMinLevel i) (d m) (d i))
    (hext : ∀ y, Near i y → y < n → ord (isMinLevel i) (d m) (d y)) :
    Pairs (exch d i m) n (fun x y => x = m ∨ x = parent m ∧ y = m) := by
  have h0 : 0 < parent m := by unfold parent; omega
  have hpa : Anc (parent m) m := .parent (by omega)
  have hia : Anc i (parent m) := by rw [← hpm]; exact .parent h0
  have him : Anc i m := hia.trans hpa
  have hlt := him.lt
  intro x y hxy hy hE
  by_cases hyi : y = i
  · subst hyi
    have := hxy.lt
    rw [exch_left, exch_other (by omega) (by omega)]
    exact hp x m (hxy.trans him) hi (by omega)
  · by_cases hym : y = m
    · subst hym
      rw [exch_right]
      by_cases hxi : x = i
      · subst hxi; rw [exch_left]; exact hmi
      · have hxa : Anc x i := by
          rcases hxy.cases_parent.2 with h | h
          · exact absurd (.inr ⟨h, rfl⟩) hE
          · rcases h.cases_parent.2 with h | h
            · exact absurd (h.trans hpm) hxi
            · rw [← hpm]; exact h
        have := hxa.lt
        rw [exch_other hxi (by omega)]
        exact hp x i hxa (by omega) hxi
    · rw [exch_other (k := y) hyi hym]
      by_cases hxi : x = i
      · subst hxi
        rw [exch_left]
        rcases hxy.near with h | ⟨g, hg, hgm, ha⟩
        · exact hext y h hy
        · have := ha.lt
          have h1 := hext g hg (by omega)
          have h2 := hp g y ha hy (fun e => by have := hg.anc.lt; omega)
          rw [hgm] at h2
          exact ord_trans h1 h2
      · by_cases hxm : x = m
        · exact absurd (.inl hxm) hE
        · rw [exch_other hxi hxm]
          exact hp x y hxy hy hxi

/-- After the exchange with a grandchild at `m`, the exchange with the parent of `m`. -/
theorem down_fix {d : Nat → Int} {n m : Nat} {b : Bool} (hb : isMinLevel m = b) (hi : m < n) (hm : 0 < m)
    (hp : Pairs d n (fun x y => x = m ∨ x = parent m ∧ y = m))
    (hanc : ∀ x, Anc x (parent m) → ord (isMinLevel x) (d x) (d m))
    (hanc' : ∀ x, Anc x (parent m) → ord (isMinLevel x) (d x) (d (parent m)))
    (hlt : ord b (d (parent m)) (d m)) : Pairs (exch d m (parent m)) n (fun x _ => x = m) := by
  have hpa : Anc (parent m) m := .parent hm
  have hpb : isMinLevel (parent m) = !b := by rw [← hb, isMinLevel_parent hm, Bool.not_not]
  have hpl := hpa.lt
  generalize hg : parent m = p at *
  intro x y hxy hy hx
  by_cases hym : y = m
  · subst hym
    rw [exch_left]
    by_cases hxp : x = p
    · subst hxp; rw [exch_right, hpb]; exact ord_not.2 hlt
    · have hxa : Anc x p := by
        rcases hxy.cases_parent.2 with h | h
        · exact absurd (h.trans hg) hxp
        · rw [← hg]; exact h
      rw [exch_other hx hxp]
      exact hanc' x hxa
  · by_cases hyp : y = p
    · subst hyp
      have := hxy.lt
      rw [exch_right, exch_other hx (by omega)]
      exact hanc x hxy
    · rw [exch_other (k := y) hym hyp]
      by_cases hxp : x = p
      · subst hxp
        rw [exch_right, hpb]
        have := hp x y hxy hy (by omega)
        rw [hpb] at this
        exact ord_trans (ord_not.2 hlt) this
      · rw [exch_other hx hxp]
        exact hp x y hxy hy (fun h => by rcases h with h | h <;> omega)

end Appendable.DistHeap
