import Verif.Lemmas.Heap
/-! The min-max heap: the operations. -/
namespace Appendable.DistHeap

/-- The distance at a position. -/
def distOf (h : DistHeap) (k : Nat) : Int := (h.items[k]?.map (·.dist)).getD 0

/-- `visited` gives the position of each id; so no id occurs twice. -/
def VOk (h : DistHeap) : Prop := ∀ id k, h.visited id = some k ↔ h.items[k]?.map (·.id) = some id

/-- The items of `h'` are those of `h`, moved only below `n`. -/
structure Moved (n : Nat) (h h' : DistHeap) : Prop where
  perm : h'.items.Perm h.items
  above : ∀ k, n ≤ k → h'.items[k]? = h.items[k]?
  vok : VOk h → VOk h'

theorem Moved.refl (n : Nat) (h : DistHeap) : Moved n h h := ⟨.refl _, fun _ _ => rfl, id⟩
theorem Moved.trans {n : Nat} {h1 h2 h3 : DistHeap} (a : Moved n h1 h2) (b : Moved n h2 h3) : Moved n h1 h3 :=
  ⟨b.perm.trans a.perm, fun k hk => (b.above k hk).trans (a.above k hk), b.vok ∘ a.vok⟩
theorem Moved.len {n : Nat} {h h' : DistHeap} (a : Moved n h h') : h'.items.length = h.items.length := a.perm.length_eq

theorem distOf_get {h : DistHeap} {k : Nat} (hk : k < h.items.length) : distOf h k = h.items[k].dist := by
  unfold distOf; rw [List.getElem?_eq_getElem hk]; rfl

theorem less_ok {h : DistHeap} {i j : Nat} (hi : i < h.items.length) (hj : j < h.items.length) :
    h.less i j = .ok (decide (distOf h i < distOf h j)) := by
  unfold less
  rw [distOf_get hi, distOf_get hj, List.getElem?_eq_getElem hi, List.getElem?_eq_getElem hj]

theorem getElem?_exchange {α : Type} (l : List α) {i j : Nat} (hi : i < l.length) (hj : j < l.length) (k : Nat) :
    ((l.set i l[j]).set j l[i])[k]? = if k = i then l[j]? else if k = j then l[i]? else l[k]? := by
  rw [List.getElem?_set, List.getElem?_set]
  grind

theorem swapAt_ok {h : DistHeap} {n i j : Nat} (hi : i < n) (hj : j < n) (hn : n ≤ h.items.length) :
    ∃ h', h.swapAt i j = .ok h' ∧ distOf h' = exch (distOf h) i j ∧ Moved n h h' ∧ h'.items[j]? = h.items[i]? := by
  have hi' : i < h.items.length := by omega
  have hj' : j < h.items.length := by omega
  unfold swapAt
  rw [List.getElem?_eq_getElem hi', List.getElem?_eq_getElem hj']
  have hget := getElem?_exchange h.items hi' hj'
  refine ⟨_, rfl, ?_, ⟨List.set_set_perm hi' hj', fun k hk => ?_, fun hv id k => ?_⟩, ?_⟩
  · funext k
    simp only [distOf, hget, exch]
    grind
  · simp only [hget]; grind
  · simp only [hget]
    have hva : h.visited h.items[i].id = some i := (hv _ _).2 (by rw [List.getElem?_eq_getElem hi']; rfl)
    have hvb : h.visited h.items[j].id = some j := (hv _ _).2 (by rw [List.getElem?_eq_getElem hj']; rfl)
    have hk := hv id k
    unfold upd
    by_cases hb : id = h.items[j].id
    · rw [if_pos hb]
      subst hb
      rw [hvb] at hk
      constructor
      · intro e
        cases e
        rw [if_pos rfl, List.getElem?_eq_getElem hj']; rfl
      · intro e
        by_cases hki : k = i
        · rw [hki]
        · rw [if_neg hki] at e
          by_cases hkj : k = j
          · rw [if_pos hkj] at e
            have := (hv _ _).2 e
            rw [hvb] at this; rw [hkj]; exact this.symm
          · rw [if_neg hkj] at e
            exact absurd (Option.some.inj (hk.2 e)).symm hkj
    · rw [if_neg hb]
      by_cases ha : id = h.items[i].id
      · rw [if_pos ha]
        subst ha
        rw [hva] at hk
        constructor
        · intro e
          cases e
          by_cases hji : j = i
          · exact absurd (by rw [show h.items[j] = h.items[i] from by simp only [hji]]) hb
          · rw [if_neg hji, if_pos rfl, List.getElem?_eq_getElem hi']; rfl
        · intro e
          by_cases hki : k = i
          · rw [if_pos hki] at e
            have := (hv _ _).2 e
            rw [hva] at this
            have h1 := Option.some.inj this
            exact absurd (by simp only [h1]) hb
          · rw [if_neg hki] at e
            by_cases hkj : k = j
            · rw [hkj]
            · rw [if_neg hkj] at e
              exact absurd (Option.some.inj (hk.2 e)).symm hki
      · rw [if_neg ha, hk]
        by_cases hki : k = i
        · subst hki
          rw [if_pos rfl, List.getElem?_eq_getElem hi', List.getElem?_eq_getElem hj']
          simp only [Option.map_some, Option.some.injEq]
          exact ⟨fun e => absurd e.symm ha, fun e => absurd e.symm hb⟩
        · rw [if_neg hki]
          by_cases hkj : k = j
          · subst hkj
            rw [if_pos rfl, List.getElem?_eq_getElem hi', List.getElem?_eq_getElem hj']
            simp only [Option.map_some, Option.some.injEq]
            exact ⟨fun e => absurd e.symm hb, fun e => absurd e.symm ha⟩
          · rw [if_neg hkj]
  · simp only [hget]; grind

/-! ### `up` -/

/-- The whole heap is in order. -/
def HeapOk (h : DistHeap) : Prop := Pairs (distOf h) h.items.length (fun _ _ => False)

theorem upLoop_ok (b : Bool) : ∀ (fuel i : Nat) (h : DistHeap), i < fuel → i < h.items.length → isMinLevel i = b →
    ∃ h', upLoop b fuel i h = .ok h' ∧ Moved h.items.length h h' ∧
      (Pairs (distOf h) h.items.length (fun x y => y = i ∧ isMinLevel x = b) → HeapOk h') := by
  intro fuel
  induction fuel with
  | zero => intro i h hf; omega
  | succ fuel ih =>
    intro i h hf hi hb
    unfold upLoop
    by_cases h2 : 2 < i
    · rw [if_pos h2]
      have hgl : grandparent i < i := by unfold grandparent parent; omega
      rw [less_ok hi (by omega)]
      simp only [Res.bind]
      by_cases hlt : decide (distOf h i < distOf h (grandparent i)) = b
      · rw [if_neg (by simpa using hlt)]
        obtain ⟨h1, e1, d1, m1, _⟩ := swapAt_ok (h := h) (i := i) (j := grandparent i) hi (by omega) (Nat.le_refl _)
        rw [e1]
        simp only
        obtain ⟨h', e', m', ok'⟩ := ih (grandparent i) h1 (by omega) (by rw [m1.len]; omega)
          (by rw [← isMinLevel_grand h2, hb])
        rw [m1.len] at m' ok'
        refine ⟨h', e', m1.trans m', fun hp => ok' ?_⟩
        have := up_round hb h2 hi hp (ord_true hlt)
        rwa [← d1] at this
      · rw [if_pos (by simpa using hlt)]
        exact ⟨h, rfl, .refl _ _, fun hp => up_stop hb hp (fun _ => ord_false hlt)⟩
    · rw [if_neg h2]
      exact ⟨h, rfl, .refl _ _, fun hp => up_stop hb hp (fun h => absurd h h2)⟩

theorem up_ok {i : Nat} {h : DistHeap} (hi : i < h.items.length) :
    ∃ h', up i h = .ok h' ∧ Moved h.items.length h h' ∧ (Pairs (distOf h) h.items.length (fun _ y => y = i) → HeapOk h') := by
  unfold up
  by_cases h0 : 0 < i
  · rw [if_pos h0]
    have hpl : parent i < i := by unfold parent; omega
    rw [less_ok (by omega) hi]
    simp only [Res.bind]
    by_cases hlt : decide (distOf h (parent i) < distOf h i) = isMinLevel i
    · rw [if_pos hlt]
      obtain ⟨h1, e1, d1, m1, _⟩ := swapAt_ok (h := h) (i := i) (j := parent i) hi (by omega) (Nat.le_refl _)
      rw [e1]
      simp only
      obtain ⟨h', e', m', ok'⟩ := upLoop_ok (!isMinLevel i) (i + 1) (parent i) h1 (by omega) (by rw [m1.len]; omega)
        (by rw [isMinLevel_parent h0, Bool.not_not])
      rw [m1.len] at m' ok'
      refine ⟨h', e', m1.trans m', fun hp => ok' ?_⟩
      have := up_parent rfl h0 hi hp (ord_true hlt)
      rwa [← d1] at this
    · rw [if_neg hlt]
      obtain ⟨h', e', m', ok'⟩ := upLoop_ok _ (i + 1) i h (by omega) hi rfl
      exact ⟨h', e', m', fun hp => ok' (up_noparent rfl h0 hp (ord_false hlt))⟩
  · rw [if_neg h0]
    obtain ⟨h', e', m', ok'⟩ := upLoop_ok _ (i + 1) i h (by omega) hi rfl
    refine ⟨h', e', m', fun hp => ok' fun x y hxy hy hE => ?_⟩
    by_cases hyi : y = i
    · have := hxy.lt; omega
    · exact hp x y hxy hy hyi

/-! ### `down` -/

/-- `m` is the extreme one of some positions. -/
def Best (h : DistHeap) (b : Bool) (S : Nat → Prop) (m : Nat) : Prop := S m ∧ ∀ y, S y → ord b (distOf h m) (distOf h y)

theorem pick_ok {h : DistHeap} {b : Bool} {S : Nat → Prop} {c m : Nat} (hb : Best h b S m) (hc : c < h.items.length)
    (hm : m < h.items.length) : ∃ m', h.pick b c m = .ok m' ∧ Best h b (fun y => S y ∨ y = c) m' := by
  unfold pick
  rw [less_ok hc hm]
  simp only [Res.bind]
  by_cases hlt : decide (distOf h c < distOf h m) = b
  · rw [if_pos hlt]
    refine ⟨c, rfl, .inr rfl, fun y hy => ?_⟩
    rcases hy with hy | rfl
    · exact ord_trans (ord_true hlt) (hb.2 y hy)
    · exact ord_refl _ _
  · rw [if_neg hlt]
    refine ⟨m, rfl, .inl hb.1, fun y hy => ?_⟩
    rcases hy with hy | rfl
    · exact hb.2 y hy
    · exact ord_false hlt

theorem grandLoop_ok {h : DistHeap} {b : Bool} {n last : Nat} (hn : n ≤ h.items.length) : ∀ (k g m : Nat) (S : Nat → Prop),
    Best h b S m → (∀ y, S y → y < n) →
    ∃ m', h.grandLoop b n last k g m = .ok m' ∧ Best h b (fun y => S y ∨ g ≤ y ∧ y < g + k ∧ y < n ∧ y ≤ last) m' := by
  intro k
  induction k with
  | zero =>
    intro g m S hb hS
    exact ⟨m, rfl, .inl hb.1, fun y hy => by rcases hy with hy | hy; exact hb.2 y hy; omega⟩
  | succ k ih =>
    intro g m S hb hS
    unfold grandLoop
    by_cases hg : g < n ∧ g ≤ last
    · rw [if_pos hg]
      have := hS m hb.1
      obtain ⟨m1, e1, b1⟩ := pick_ok hb (by omega : g < h.items.length) (by omega)
      rw [e1]
      simp only [Res.bind]
      obtain ⟨m2, e2, b2⟩ := ih (g + 1) m1 _ b1 (fun y hy => by rcases hy with hy | hy; exact hS y hy; omega)
      refine ⟨m2, e2, ?_, fun y hy => b2.2 y ?_⟩
      · rcases b2.1 with (h1 | h1) | h1
        · exact .inl h1
        · exact .inr (by omega)
        · exact .inr (by omega)
      · rcases hy with hy | hy
        · exact .inl (.inl hy)
        · by_cases hyg : y = g
          · exact .inl (.inr hyg)
          · exact .inr (by omega)
    · rw [if_neg hg]
      refine ⟨m, rfl, .inl hb.1, fun y hy => ?_⟩
      rcases hy with hy | hy
      · exact hb.2 y hy
      · omega

theorem downLoop_ok {b : Bool} {n : Nat} : ∀ (fuel i : Nat) (h : DistHeap), n - i < fuel → n ≤ h.items.length →
    isMinLevel i = b →
    ∃ j h', downLoop b n fuel i h = .ok (j, h') ∧ i ≤ j ∧ Moved n h h' ∧
      (Pairs (distOf h) n (fun x _ => x = i) → Pairs (distOf h') n (fun _ _ => False)) := by
  intro fuel
  induction fuel with
  | zero => intro i h hf; omega
  | succ fuel ih =>
    intro i h hf hn hb
    unfold downLoop
    by_cases hl : n ≤ lchild i
    · rw [if_pos hl]
      refine ⟨i, h, rfl, Nat.le_refl _, .refl _ _, fun hp => down_stop hp (fun y hy hyn => ?_)⟩
      have := hy
      unfold Near parent grandparent parent at this
      unfold lchild at hl
      omega
    · rw [if_neg hl]
      have hl' : lchild i < n := by omega
      have hi : i < n := by unfold lchild at hl'; omega
      obtain ⟨m1, e1, b1⟩ := pick_ok (h := h) (b := b) (S := fun y => y = i) (c := lchild i) (m := i)
        ⟨rfl, fun y hy => by subst hy; exact ord_refl _ _⟩ (by omega) (by omega)
      have hm1 : m1 < n := by rcases b1.1 with e | e <;> omega
      obtain ⟨m2, e2, b2⟩ : ∃ m2, h.pickRight b n (rchild i) m1 = .ok m2 ∧
          Best h b (fun y => (y = i ∨ y = lchild i) ∨ y = rchild i ∧ y < n) m2 := by
        unfold pickRight
        by_cases hr : rchild i < n
        · rw [if_pos hr]
          obtain ⟨m2, e2, b2⟩ := pick_ok b1 (by omega : rchild i < h.items.length) (by omega)
          refine ⟨m2, e2, ?_, fun y hy => b2.2 y ?_⟩
          · rcases b2.1 with h1 | h1
            · exact .inl h1
            · exact .inr ⟨h1, by omega⟩
          · rcases hy with hy | hy
            · exact .inl hy
            · exact .inr hy.1
        · rw [if_neg hr]
          refine ⟨m1, rfl, .inl b1.1, fun y hy => ?_⟩
          rcases hy with hy | hy
          · exact b1.2 y hy
          · omega
      obtain ⟨m, e3, b3⟩ := grandLoop_ok hn (last := rchild (rchild i)) 4 (lchild (lchild i)) m2 _ b2 (fun y hy => by
        rcases hy with (hy | hy) | hy <;> omega)
      rw [e1]
      simp only [Res.bind, e2, e3]
      have hext : ∀ y, Near i y → y < n → ord b (distOf h m) (distOf h y) := by
        intro y hy hyn
        refine b3.2 y ?_
        unfold Near grandparent parent at hy
        unfold lchild rchild
        omega
      have hmi : ord b (distOf h m) (distOf h i) := b3.2 i (.inl (.inl (.inl rfl)))
      have hmn : m < n := by rcases b3.1 with ((h1 | h1) | h1) | h1 <;> omega
      by_cases hme : m = i
      · rw [if_pos hme]
        subst hme
        exact ⟨m, h, rfl, Nat.le_refl _, .refl _ _, fun hp => down_stop hp (by rw [hb]; exact hext)⟩
      · rw [if_neg hme]
        obtain ⟨h1, es, ds, ms, _⟩ := swapAt_ok (h := h) (i := i) (j := m) hi hmn hn
        rw [es]
        simp only
        by_cases hch : m = lchild i ∨ m = rchild i
        · rw [if_pos hch]
          refine ⟨i, h1, rfl, Nat.le_refl _, ms, fun hp => ?_⟩
          rw [ds]
          refine down_child hmn ?_ ?_ hp (by rw [hb]; exact hmi) (by rw [hb]; exact hext)
          · unfold lchild rchild at hch; omega
          · unfold lchild rchild at hch; unfold parent; omega
        · rw [if_neg hch]
          have hm2 : 2 < m := by
            rcases b3.1 with ((h1 | h1) | h1) | h1 <;> unfold lchild rchild at * <;> omega
          have hgp : grandparent m = i := by
            rcases b3.1 with ((h1 | h1) | h1) | h1 <;> unfold lchild rchild grandparent parent at * <;> omega
          have hmb : isMinLevel m = b := by rw [isMinLevel_grand hm2, hgp, hb]
          have hp1 := fun hp => down_grand hmn hm2 hgp hp (by rw [hb]; exact hmi) (by rw [hb]; exact hext)
          rw [← ds] at hp1
          have hpl : parent m < m := by unfold parent; omega
          have hpb : isMinLevel (parent m) = !b := by rw [← hmb, isMinLevel_parent (by omega : 0 < m), Bool.not_not]
          have hpa : Anc (parent m) m := .parent (by omega)
          obtain ⟨h2, ef, mf, pf⟩ : ∃ h2, fixParent b m h1 = .ok h2 ∧ Moved n h1 h2 ∧
              (Pairs (distOf h) n (fun x _ => x = i) → Pairs (distOf h2) n (fun x _ => x = m)) := by
            unfold fixParent
            rw [less_ok (by rw [ms.len]; omega) (by rw [ms.len]; omega)]
            simp only [Res.bind]
            by_cases hlt : decide (distOf h1 (parent m) < distOf h1 m) = b
            · rw [if_pos hlt]
              obtain ⟨h2, e2, d2, m2, _⟩ := swapAt_ok (h := h1) (i := m) (j := parent m) hmn (by omega) (by rw [ms.len]; exact hn)
              refine ⟨h2, e2, m2, fun hp => ?_⟩
              have hp1 := hp1 hp
              rw [d2]
              refine down_fix hmb hmn (by omega) hp1 (fun x hx => ?_) (fun x hx => ?_) (ord_true hlt)
              · have := hx.lt
                exact hp1 x m (hx.trans hpa) hmn (by omega)
              · have := hx.lt
                exact hp1 x (parent m) hx (by omega) (by omega)
            · rw [if_neg hlt]
              refine ⟨h1, rfl, .refl _ _, fun hp x y hxy hy hx => ?_⟩
              by_cases hE : x = parent m ∧ y = m
              · rw [hE.1, hE.2, hpb]; exact ord_not.2 (ord_false hlt)
              · exact hp1 hp x y hxy hy (fun h => h.elim hx hE)
          rw [ef]
          simp only
          have hgl : i < m := by rw [← hgp]; unfold grandparent parent; omega
          obtain ⟨j, h', e', hj, m', p'⟩ := ih m h2 (by omega) (by rw [mf.len, ms.len]; exact hn) hmb
          exact ⟨j, h', e', by omega, (ms.trans mf).trans m', fun hp => p' (pf hp)⟩

theorem down_ok {i n : Nat} {h : DistHeap} (hn : n ≤ h.items.length) :
    ∃ r h', down i n h = .ok (r, h') ∧ Moved n h h' ∧
      (Pairs (distOf h) n (fun x _ => x = i) → Pairs (distOf h') n (fun _ _ => False)) := by
  obtain ⟨j, h', e, hj, hm, hp'⟩ := downLoop_ok (n + 1) i h (by omega) hn rfl
  unfold down
  rw [e]
  exact ⟨_, h', rfl, hm, hp'⟩

/-! ### Least and greatest -/

theorem level_zero : isMinLevel 0 = true := by decide

theorem root_le {h : DistHeap} (hh : HeapOk h) {k : Nat} (hk : k < h.items.length) : distOf h 0 ≤ distOf h k := by
  by_cases h0 : k = 0
  · subst h0; omega
  · have ha : ∀ k, 0 < k → Anc 0 k := by
      intro k
      induction k using Nat.strongRecOn with
      | _ k ih =>
        intro h0
        by_cases hp : parent k = 0
        · rw [← hp]; exact .parent h0
        · exact .step h0 (ih _ (by unfold parent; omega) (by omega))
    have := hh 0 k (ha k (by omega)) hk (fun h => h)
    rw [level_zero] at this
    simpa [ord] using this

theorem level_one (i : Nat) (h : i = 1 ∨ i = 2) : isMinLevel i = false := by
  rcases h with rfl | rfl <;> decide

/-- Below the root, everything is at most one of the root's children. -/
theorem le_top {h : DistHeap} (hh : HeapOk h) {k : Nat} (hk : k < h.items.length) (h0 : 0 < k) :
    ∃ i, (i = 1 ∨ i = 2) ∧ i ≤ k ∧ distOf h k ≤ distOf h i := by
  have ha : ∀ k, 2 < k → ∃ i, (i = 1 ∨ i = 2) ∧ Anc i k := by
    intro k
    induction k using Nat.strongRecOn with
    | _ k ih =>
      intro h2
      by_cases hp : 2 < parent k
      · obtain ⟨i, hi, ha⟩ := ih (parent k) (by unfold parent; omega) hp
        exact ⟨i, hi, .step (by omega) ha⟩
      · exact ⟨parent k, by unfold parent at *; omega, .parent (by omega)⟩
  by_cases h2 : 2 < k
  · obtain ⟨i, hi, ha⟩ := ha k h2
    have := hh i k ha hk (fun h => h)
    rw [level_one i hi] at this
    exact ⟨i, hi, by have := ha.lt; omega, by simpa [ord] using this⟩
  · exact ⟨k, by omega, Nat.le_refl _, by omega⟩

theorem maxIndex_ok {h : DistHeap} (hh : HeapOk h) (hn : 0 < h.items.length) :
    ∃ i, h.maxIndex = .ok i ∧ i < h.items.length ∧ i ≤ 2 ∧ ∀ k, k < h.items.length → distOf h k ≤ distOf h i := by
  unfold maxIndex pickMax
  have hl : lchild 0 = 1 := rfl
  have hr : rchild 0 = 2 := rfl
  simp only [hl, hr, len]
  have h1 := fun (h' : 1 < h.items.length) => root_le hh h'
  by_cases hc1 : 1 < h.items.length
  · rw [if_pos hc1, less_ok hc1 hn]
    have e1 : decide (distOf h 1 < distOf h 0) = false := by have := h1 hc1; simp; omega
    rw [e1]
    simp only [Res.bind, Bool.false_eq_true, if_false]
    by_cases hc2 : 2 < h.items.length
    · rw [if_pos hc2, less_ok hc2 hc1]
      simp only
      have h2 := root_le hh hc2
      by_cases hlt : distOf h 2 < distOf h 1
      · refine ⟨1, by simp [hlt], hc1, by omega, fun k hk => ?_⟩
        by_cases h0 : k = 0
        · subst h0; exact h1 hc1
        · obtain ⟨i, hi, _, hle⟩ := le_top hh hk (by omega)
          rcases hi with rfl | rfl <;> omega
      · refine ⟨2, by simp [hlt], hc2, by omega, fun k hk => ?_⟩
        by_cases h0 : k = 0
        · subst h0; exact h2
        · obtain ⟨i, hi, _, hle⟩ := le_top hh hk (by omega)
          rcases hi with rfl | rfl <;> omega
    · rw [if_neg hc2]
      refine ⟨1, rfl, hc1, by omega, fun k hk => ?_⟩
      rcases (by omega : k = 0 ∨ k = 1) with rfl | rfl
      · exact h1 hc1
      · omega
  · rw [if_neg hc1]
    simp only [Res.bind]
    rw [if_neg (by omega)]
    refine ⟨0, rfl, hn, by omega, fun k hk => ?_⟩
    have : k = 0 := by omega
    subst this; omega

theorem pop_ok {h : DistHeap} {x : HeapItem} (hx : h.items[h.items.length - 1]? = some x) (hv : VOk h)
    (hp : Pairs (distOf h) (h.items.length - 1) (fun _ _ => False)) :
    ∃ h', h.pop = .ok (x, h') ∧ (x :: h'.items).Perm h.items ∧ VOk h' ∧ HeapOk h' := by
  unfold pop
  rw [List.getLast?_eq_getElem?, hx]
  have hlt := (List.getElem?_eq_some_iff.1 hx).1
  have hget : ∀ k, h.items.dropLast[k]? = if k < h.items.length - 1 then h.items[k]? else none := by
    intro k; rw [List.getElem?_dropLast]
  refine ⟨_, rfl, ?_, fun id k => ?_, ?_⟩
  · have : h.items = h.items.dropLast ++ [x] := by
      have hne : h.items ≠ [] := by intro e; rw [e] at hlt; simp at hlt
      have hl : h.items.getLast hne = x := by
        rw [List.getLast_eq_getElem]
        exact (List.getElem?_eq_some_iff.1 hx).2
      rw [← hl, List.dropLast_concat_getLast]
    conv => rhs; rw [this]
    exact List.perm_append_singleton _ _ |>.symm
  · simp only [hget, upd]
    have hvx : h.visited x.id = some (h.items.length - 1) := (hv _ _).2 (by rw [hx]; rfl)
    by_cases he : id = x.id
    · rw [if_pos he]
      subst he
      constructor
      · intro e; cases e
      · intro e
        by_cases hk : k < h.items.length - 1
        · rw [if_pos hk] at e
          have := (hv _ _).2 e
          rw [hvx] at this
          have := Option.some.inj this
          omega
        · rw [if_neg hk] at e; cases e
    · rw [if_neg he]
      by_cases hk : k < h.items.length - 1
      · rw [if_pos hk]; exact hv id k
      · rw [if_neg hk]
        constructor
        · intro e
          have := (hv _ _).1 e
          by_cases hk2 : k = h.items.length - 1
          · rw [hk2, hx] at this; simp at this; exact absurd this.symm he
          · rw [List.getElem?_eq_none (by omega)] at this; cases this
        · intro e; cases e
  · intro x' y hxy hy hE
    simp only [List.length_dropLast] at hy
    have := hp x' y hxy hy hE
    have hl := hxy.lt
    have hd : ∀ k, k < h.items.length - 1 → distOf ⟨h.items.dropLast, upd h.visited x.id none⟩ k = distOf h k := by
      intro k hk; unfold distOf; simp only [hget, if_pos hk]
    rw [hd x' (by omega), hd y hy]
    exact this

/-- Removing the item at position `i`, which has no ancestors but those it is in order with whatever is put there. -/
theorem remove_ok {h : DistHeap} (hv : VOk h) (hh : HeapOk h) {i : Nat} (hi : i < h.items.length) (hi2 : i ≤ 2) :
    ∃ h', ((h.swapAt i (h.len - 1)).bind fun h1 => (h1.down i (h.len - 1)).bind fun (_, h2) => h2.pop) = .ok (h.items[i], h') ∧
      (h.items[i] :: h'.items).Perm h.items ∧ VOk h' ∧ HeapOk h' := by
  unfold len
  obtain ⟨h1, e1, d1, m1, hl1⟩ := swapAt_ok (h := h) (i := i) (j := h.items.length - 1) hi (by omega) (Nat.le_refl _)
  rw [e1]
  simp only [Res.bind]
  have hp1 : Pairs (distOf h1) (h.items.length - 1) (fun x _ => x = i) := by
    intro x y hxy hy hx
    have hl := hxy.lt
    rw [d1, exch_other (k := x) hx (by omega)]
    by_cases hyi : y = i
    · subst hyi
      rw [exch_left]
      have : x = 0 := by
        have := hxy.cases_parent
        rcases this.2 with e | e
        · unfold parent at e; omega
        · have := e.lt; unfold parent at this; omega
      subst this
      have := root_le hh (by omega : h.items.length - 1 < h.items.length)
      rw [level_zero]
      simpa [ord] using this
    · rw [exch_other hyi (by omega)]
      exact hh x y hxy (by omega) (fun h => h)
  obtain ⟨r, h2, e2, m2, p2⟩ := down_ok (i := i) (h := h1) (n := h.items.length - 1) (by rw [m1.len]; omega)
  rw [e2]
  simp only
  have hx : h2.items[h2.items.length - 1]? = some h.items[i] := by
    rw [m2.len, m1.len, m2.above _ (Nat.le_refl _), hl1, List.getElem?_eq_getElem hi]
  obtain ⟨h3, e3, q3, v3, p3⟩ := pop_ok hx (m2.vok (m1.vok hv)) (by rw [m2.len, m1.len]; exact p2 hp1)
  exact ⟨h3, e3, q3.trans (m2.perm.trans m1.perm), v3, p3⟩

theorem insert_new {h : DistHeap} (hv : VOk h) (hh : HeapOk h) {id : Nat} (hid : id ∉ h.items.map (·.id)) (dist : Int) :
    ∃ h', h.insert id dist = .ok h' ∧ h'.items.Perm (⟨id, dist⟩ :: h.items) ∧ VOk h' ∧ HeapOk h' := by
  have hnone : h.visited id = none := by
    cases e : h.visited id with
    | none => rfl
    | some k =>
      exfalso
      have := (hv id k).1 e
      obtain ⟨x, hx, rfl⟩ := Option.map_eq_some_iff.1 this
      exact hid (List.mem_map.2 ⟨x, List.mem_of_getElem? hx, rfl⟩)
  unfold insert
  rw [hnone]
  simp only [len]
  obtain ⟨h1, eh1⟩ : ∃ h1 : DistHeap, h1 = ⟨h.items ++ [⟨id, dist⟩], upd h.visited id (some h.items.length)⟩ := ⟨_, rfl⟩
  rw [← eh1]
  have hl1 : h1.items.length = h.items.length + 1 := by rw [eh1]; simp
  have hget : ∀ k, k < h.items.length → h1.items[k]? = h.items[k]? := by
    intro k hk; rw [eh1]; exact List.getElem?_append_left hk
  have hlast : h1.items[h.items.length]? = some ⟨id, dist⟩ := by rw [eh1]; simp
  have hv1 : VOk h1 := by
    intro id' k
    rw [eh1]
    simp only [upd]
    by_cases he : id' = id
    · rw [if_pos he]
      subst he
      constructor
      · intro e; cases e; simp
      · intro e
        by_cases hk : k < h.items.length
        · rw [List.getElem?_append_left hk] at e
          obtain ⟨x, hx, hxi⟩ := Option.map_eq_some_iff.1 e
          exact absurd (List.mem_map.2 ⟨x, List.mem_of_getElem? hx, hxi⟩) hid
        · by_cases hk2 : k = h.items.length
          · rw [hk2]
          · rw [List.getElem?_eq_none (by simp; omega)] at e; cases e
    · rw [if_neg he, hv id' k]
      by_cases hk : k < h.items.length
      · rw [List.getElem?_append_left hk]
      · by_cases hk2 : k = h.items.length
        · subst hk2
          simp
          exact fun e => he e.symm
        · rw [List.getElem?_eq_none (by omega : h.items.length ≤ k), List.getElem?_eq_none (by simp; omega)]
  have hp1 : Pairs (distOf h1) h1.items.length (fun _ y => y = h.items.length) := by
    intro x y hxy hy hne
    have := hxy.lt
    have hd : ∀ k, k < h.items.length → distOf h1 k = distOf h k := by
      intro k hk; unfold distOf; rw [hget k hk]
    rw [hd x (by omega), hd y (by omega)]
    exact hh x y hxy (by omega) (fun h => h)
  obtain ⟨h2, e2, m2, ok2⟩ := up_ok (by omega : h.items.length < h1.items.length)
  refine ⟨h2, e2, m2.perm.trans ?_, m2.vok hv1, ok2 hp1⟩
  rw [eh1]
  exact List.perm_append_singleton _ _

/-- A new distance at a position. -/
theorem setDist_ok {h : DistHeap} (hv : VOk h) {i : Nat} (hi : i < h.items.length) (dist : Int) :
    ∃ h', h.setDist i dist = .ok h' ∧ h'.items = h.items.set i ⟨h.items[i].id, dist⟩ ∧ VOk h' ∧
      distOf h' = fun k => if k = i then dist else distOf h k := by
  unfold setDist
  rw [List.getElem?_eq_getElem hi]
  refine ⟨_, rfl, rfl, fun id k => ?_, ?_⟩
  · rw [show ({ h with items := h.items.set i { h.items[i] with dist := dist } } : DistHeap).visited id = h.visited id from rfl, hv id k]
    simp only [List.getElem?_set]
    by_cases hk : i = k
    · subst hk; simp [hi, List.getElem?_eq_getElem hi]
    · simp [hk]
  · funext k
    simp only [distOf, List.getElem?_set]
    by_cases hk : i = k
    · subst hk; simp [hi]
    · have hk' : ¬ k = i := fun e => hk e.symm
      simp [hk, hk']

/-- `Fix` always succeeds and keeps the items; it repairs the heap if the item is in order with its ancestors. -/
theorem fix_ok {h : DistHeap} {i : Nat} (hi : i < h.items.length) :
    ∃ h', fix i h = .ok h' ∧ h'.items.Perm h.items ∧ (VOk h → VOk h') ∧
      (Pairs (distOf h) h.items.length (fun x _ => x = i) → HeapOk h') ∧
      (h.items.length ≤ lchild i → Pairs (distOf h) h.items.length (fun _ y => y = i) → HeapOk h') := by
  by_cases hlf : h.items.length ≤ lchild i
  · obtain ⟨h2, e2, m2, ok2⟩ := up_ok (h := h) (i := i) hi
    have hd : down i h.items.length h = .ok (false, h) := by
      unfold down downLoop
      rw [if_pos hlf]
      simp [Res.bind]
    refine ⟨h2, ?_, m2.perm, m2.vok, fun hp => ok2 fun x y hxy hy hE => ?_, fun _ => ok2⟩
    · unfold fix len
      rw [hd]
      simpa [Res.bind] using e2
    · refine hp x y hxy hy (fun hx => ?_)
      subst hx
      have : lchild x ≤ y := by
        rcases hxy.near with hn | ⟨g, hn, _, hg⟩
        · rcases hn.2 with e | ⟨h0, e⟩
          · unfold parent at e; unfold lchild; omega
          · unfold grandparent parent at *; unfold lchild; omega
        · have := hg.lt
          rcases hn.2 with e | ⟨h0, e⟩
          · unfold parent at e; unfold lchild; omega
          · unfold grandparent parent at *; unfold lchild; omega
      omega
  unfold fix len
  obtain ⟨r, h1, e1, m1, p1⟩ := down_ok (i := i) (h := h) (Nat.le_refl _)
  rw [e1]
  simp only [Res.bind]
  cases r with
  | true => exact ⟨h1, rfl, m1.perm, m1.vok, fun hp => by unfold HeapOk; rw [m1.len]; exact p1 hp, fun h => absurd h hlf⟩
  | false =>
    obtain ⟨h2, e2, m2, ok2⟩ := up_ok (h := h1) (i := i) (by rw [m1.len]; exact hi)
    refine ⟨h2, by simpa using e2, m2.perm.trans m1.perm, m2.vok ∘ m1.vok, fun hp => ok2 ?_, fun h => absurd h hlf⟩
    rw [m1.len]
    exact fun x y hxy hy _ => p1 hp x y hxy hy (fun h => h)

theorem insert_old {h : DistHeap} (hv : VOk h) {i : Nat} (hi : i < h.items.length) (dist : Int) :
    ∃ h', h.insert h.items[i].id dist = .ok h' ∧ h'.items.Perm (h.items.set i ⟨h.items[i].id, dist⟩) ∧ VOk h' ∧
      (HeapOk h → (∀ x, Anc x i → ord (isMinLevel x) (distOf h x) dist) → HeapOk h') ∧
      (HeapOk h → h.items.length ≤ lchild i → HeapOk h') := by
  unfold insert
  rw [(hv _ i).2 (by rw [List.getElem?_eq_getElem hi]; rfl)]
  simp only
  obtain ⟨h1, e1, i1, v1, d1⟩ := setDist_ok hv hi dist
  rw [e1]
  simp only [Res.bind]
  obtain ⟨h2, e2, q2, v2, ok2, ok3⟩ := fix_ok (h := h1) (i := i) (by rw [i1]; simpa using hi)
  refine ⟨h2, e2, i1 ▸ q2, v2 v1, fun hh hx => ok2 fun x y hxy hy hne => ?_, fun hh hl => ok3 (by rw [i1, List.length_set]; exact hl) fun x y hxy hy hne => ?_⟩
  · rw [d1]
    rw [i1, List.length_set] at hy
    simp only [if_neg hne]
    by_cases hyi : y = i
    · rw [if_pos hyi]; exact hx x (hyi ▸ hxy)
    · rw [if_neg hyi]; exact hh x y hxy hy (fun h => h)
  · rw [d1]
    rw [i1, List.length_set] at hy
    simp only [if_neg hne]
    by_cases hxi : x = i
    · subst hxi
      exfalso
      have : lchild x ≤ y := by
        rcases hxy.near with hn | ⟨g, hn, _, hg⟩
        · rcases hn.2 with e | ⟨h0, e⟩
          · unfold parent at e; unfold lchild; omega
          · unfold grandparent parent at *; unfold lchild; omega
        · have := hg.lt
          rcases hn.2 with e | ⟨h0, e⟩
          · unfold parent at e; unfold lchild; omega
          · unfold grandparent parent at *; unfold lchild; omega
      omega
    · rw [if_neg hxi]; exact hh x y hxy hy (fun h => h)

end Appendable.DistHeap
