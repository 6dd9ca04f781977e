import Verif.Lemmas.HeapOps
import Verif.Spec.Heap
/-! C52, C53: the distance heap. -/
namespace Appendable
open Spec DistHeap

/-- What holds along a history. -/
structure HeapInv (h : DistHeap) (held : List HeapItem) : Prop where
  perm : h.items.Perm held
  vok : VOk h
  ok : HeapOk h

theorem VOk.nodup {h : DistHeap} (hv : VOk h) : (h.items.map (·.id)).Nodup := by
  rw [List.nodup_iff_pairwise_ne, List.pairwise_iff_getElem]
  intro i j hi hj hij he
  simp only [List.length_map] at hi hj
  simp only [List.getElem_map] at he
  have h1 := (hv h.items[i].id i).2 (by rw [List.getElem?_eq_getElem hi]; rfl)
  have h2 := (hv h.items[j].id j).2 (by rw [List.getElem?_eq_getElem hj]; rfl)
  rw [he, h2] at h1
  have := Option.some.inj h1
  omega

theorem least_of {h : DistHeap} {held : List HeapItem} (hi : HeapInv h held) {x : HeapItem} (hx : h.items[0]? = some x) :
    Least held x := by
  obtain ⟨h0, hx'⟩ := List.getElem?_eq_some_iff.1 hx
  refine ⟨hi.perm.mem_iff.1 (List.mem_of_getElem? hx), fun y hy => ?_⟩
  obtain ⟨k, hk, rfl⟩ := List.getElem_of_mem (hi.perm.mem_iff.2 hy)
  have := root_le hi.ok hk
  rwa [distOf_get h0, distOf_get hk, hx'] at this

theorem peekMin_eq {h : DistHeap} {x : HeapItem} : h.peekMin = .ok x ↔ h.items[0]? = some x := by
  unfold peekMin
  cases h.items <;> simp

theorem popMin_inv {h : DistHeap} {held : List HeapItem} (hi : HeapInv h held) (hne : held ≠ []) :
    ∃ x h', h.popMin = .ok (x, h') ∧ h.peekMin = .ok x ∧ Least held x ∧ (x :: h'.items).Perm held ∧ VOk h' ∧ HeapOk h' := by
  have h0 : 0 < h.items.length := by
    rw [hi.perm.length_eq]; exact List.length_pos_iff.2 hne
  obtain ⟨h', e, q, v, o⟩ := remove_ok hi.vok hi.ok h0 (by omega)
  refine ⟨h.items[0], h', ?_, peekMin_eq.2 (List.getElem?_eq_getElem h0), least_of hi (List.getElem?_eq_getElem h0), q.trans hi.perm, v, o⟩
  unfold popMin
  rw [if_neg (by unfold len; omega)]
  exact e

theorem popMax_inv {h : DistHeap} {held : List HeapItem} (hi : HeapInv h held) (hne : held ≠ []) :
    ∃ x h', h.popMax = .ok (x, h') ∧ h.peekMax = .ok x ∧ Greatest held x ∧ (x :: h'.items).Perm held ∧ VOk h' ∧ HeapOk h' ∧
      ∃ i, i ≤ 2 ∧ h.items[i]? = some x := by
  have h0 : 0 < h.items.length := by
    rw [hi.perm.length_eq]; exact List.length_pos_iff.2 hne
  obtain ⟨i, ei, hil, hi2, hmax⟩ := maxIndex_ok hi.ok h0
  obtain ⟨h', e, q, v, o⟩ := remove_ok hi.vok hi.ok hil hi2
  have hl : ¬ h.len = 0 := by unfold len; omega
  refine ⟨h.items[i], h', ?_, ?_, ⟨hi.perm.mem_iff.1 (List.getElem_mem hil), fun y hy => ?_⟩, q.trans hi.perm, v, o, i, hi2,
    List.getElem?_eq_getElem hil⟩
  · unfold popMax
    rw [if_neg hl, ei]
    exact e
  · unfold peekMax
    rw [if_neg hl, ei]
    simp only [Res.bind, itemAt]
    rw [List.getElem?_eq_getElem hil]
  · obtain ⟨k, hk, rfl⟩ := List.getElem_of_mem (hi.perm.mem_iff.2 hy)
    have := hmax k hk
    rwa [distOf_get hil, distOf_get hk] at this

theorem nil_items {h : DistHeap} (hi : HeapInv h []) : h.items = [] := hi.perm.eq_nil

theorem pop_empty {h : DistHeap} (hi : HeapInv h []) :
    h.peekMin = .err emptyErr ∧ h.peekMax = .err emptyErr ∧ h.popMin = .err emptyErr ∧ h.popMax = .err emptyErr := by
  have := nil_items hi
  simp [peekMin, peekMax, popMin, popMax, len, this]

theorem perm_erase {x : HeapItem} {l held : List HeapItem} (h : (x :: l).Perm held) : l.Perm (held.erase x) := by
  have := h.erase x
  simpa using this

theorem set_perm {l : List HeapItem} {i : Nat} (hi : i < l.length) (y : HeapItem) : (l.set i y).Perm (y :: l.erase l[i]) := by
  have h1 : l = l.take i ++ l[i] :: l.drop (i + 1) := by
    rw [← List.drop_eq_getElem_cons hi, List.take_append_drop]
  have h2 : l.Perm (l[i] :: (l.take i ++ l.drop (i + 1))) := by
    conv => lhs; rw [h1]
    exact List.perm_middle
  have h3 : (l.erase l[i]).Perm (l.take i ++ l.drop (i + 1)) := (perm_erase h2.symm).symm
  rw [List.set_eq_take_append_cons_drop, if_pos hi]
  exact List.perm_middle.trans (h3.symm.cons y)

/-- Inserting an id that is held. -/
theorem again_inv {h : DistHeap} {held : List HeapItem} (hi : HeapInv h held) {x : HeapItem} (hx : x ∈ held) (dist : Int) :
    ∃ h', h.insert x.id dist = .ok h' ∧ h'.items.Perm (⟨x.id, dist⟩ :: held.erase x) ∧ VOk h' ∧
      ∃ i, h.items[i]? = some x ∧ ((∀ a, Anc a i → ord (isMinLevel a) (distOf h a) dist) → HeapOk h') ∧ (h.items.length ≤ lchild i → HeapOk h') := by
  obtain ⟨i, hil, rfl⟩ := List.getElem_of_mem (hi.perm.mem_iff.2 hx)
  obtain ⟨h', e, q, v, o, o2⟩ := insert_old hi.vok hil dist
  refine ⟨h', e, ?_, v, i, List.getElem?_eq_getElem hil, fun ha => o hi.ok ha, o2 hi.ok⟩
  exact q.trans ((set_perm hil _).trans ((hi.perm.erase _).cons _))

theorem heap_inv {h : DistHeap} {held : List HeapItem} (hr : HeapRun h held) : HeapInv h held := by
  induction hr with
  | new =>
    refine ⟨.refl _, fun id k => ?_, fun x y _ hy => ?_⟩
    · simp [DistHeap.new]
    · simp [DistHeap.new] at hy
  | insert hr hid he ih =>
    obtain ⟨h', e, q, v, o⟩ := insert_new ih.vok ih.ok (fun hm => hid ((ih.perm.map _).mem_iff.1 hm)) _
    rw [e] at he
    cases he
    exact ⟨q.trans (ih.perm.cons _), v, o⟩
  | again hr hx hc he ih =>
    rename_i h0 h0' held x dist
    obtain ⟨h', e, q, v, i, hxi, o, o2⟩ := again_inv ih hx dist
    rw [e] at he
    cases he
    by_cases hlf : h0.items.length ≤ lchild i
    · exact ⟨q, v, o2 hlf⟩
    refine ⟨q, v, o fun a ha => ?_⟩
    obtain ⟨hil, hxe⟩ := List.getElem?_eq_some_iff.1 hxi
    have huniq : ∀ j, h0.items[j]? = some x → j = i := by
      intro j hj
      have h1 := (ih.vok x.id i).2 (by rw [hxi]; rfl)
      have h2 := (ih.vok x.id j).2 (by rw [hj]; rfl)
      rw [h1] at h2
      exact (Option.some.inj h2).symm
    rcases hc with rfl | hc | hc | ⟨hc, y, hy, hle⟩
    · have := ih.ok a i ha hil (fun h => h)
      rwa [distOf_get hil, hxe] at this
    · rw [← ih.perm.length_eq] at hc
      have := ha.lt
      unfold lchild at hlf
      omega
    · have := huniq 0 (peekMin_eq.1 hc)
      subst this
      exact absurd ha.lt (by omega)
    · obtain ⟨x', _, _, hp, _, _, _, _, j, hj2, hj⟩ := popMax_inv ih (List.ne_nil_of_mem hx)
      rw [hc] at hp
      cases hp
      have := huniq j hj
      subst this
      have ha0 : a = 0 := by
        have hcp := ha.cases_parent
        rcases hcp.2 with e' | e'
        · unfold parent at e'; omega
        · have := e'.lt; unfold parent at this; omega
      subst ha0
      obtain ⟨h0l, hye⟩ := List.getElem?_eq_some_iff.1 (peekMin_eq.1 hy)
      rw [level_zero, distOf_get h0l, hye]
      simpa [ord] using hle
  | popMin hr he ih =>
    rename_i held x
    by_cases hne : held = []
    · rw [hne] at ih
      rw [(pop_empty ih).2.2.1] at he; cases he
    · obtain ⟨x, h', e, _, _, q, v, o⟩ := popMin_inv ih hne
      rw [e] at he
      cases he
      exact ⟨perm_erase q, v, o⟩
  | popMax hr he ih =>
    rename_i held x
    by_cases hne : held = []
    · rw [hne] at ih
      rw [(pop_empty ih).2.2.2] at he; cases he
    · obtain ⟨x, h', e, _, _, q, v, o, _⟩ := popMax_inv ih hne
      rw [e] at he
      cases he
      exact ⟨perm_erase q, v, o⟩

/-- C52: along every history, `Len` is the number of items held, inserting succeeds, the peeks and pops of an empty heap
report it, and otherwise `PeekMinItem` and `PopMinItem` give the same item, one of least distance, and `PeekMaxItem` and
`PopMaxItem` one of greatest distance.  (The history itself says that popping removes exactly this item: the items held
afterwards are the others, in the same sense.) -/
theorem C52_extremes {h : DistHeap} {held : List HeapItem} (hr : HeapRun h held) :
    h.items.Perm held ∧ h.len = held.length ∧
    (∀ id dist, id ∉ held.map (·.id) → ∃ h', h.insert id dist = .ok h' ∧ h'.items.Perm (⟨id, dist⟩ :: held)) ∧
    (held = [] → h.peekMin = .err emptyErr ∧ h.peekMax = .err emptyErr ∧ h.popMin = .err emptyErr ∧ h.popMax = .err emptyErr) ∧
    (held ≠ [] →
      (∃ x h', h.peekMin = .ok x ∧ h.popMin = .ok (x, h') ∧ Least held x ∧ h'.items.Perm (held.erase x)) ∧
      (∃ x h', h.peekMax = .ok x ∧ h.popMax = .ok (x, h') ∧ Greatest held x ∧ h'.items.Perm (held.erase x))) := by
  have hi := heap_inv hr
  refine ⟨hi.perm, hi.perm.length_eq, fun id dist hid => ?_, fun he => ?_, fun hne => ⟨?_, ?_⟩⟩
  · obtain ⟨h', e, q, _⟩ := insert_new hi.vok hi.ok (fun hm => hid ((hi.perm.map _).mem_iff.1 hm)) dist
    exact ⟨h', e, q.trans (hi.perm.cons _)⟩
  · subst he; exact pop_empty hi
  · obtain ⟨x, h', e, p, l, q, _⟩ := popMin_inv hi hne
    exact ⟨x, h', p, e, l, perm_erase q⟩
  · obtain ⟨x, h', e, p, l, q, _⟩ := popMax_inv hi hne
    exact ⟨x, h', p, e, l, perm_erase q⟩

/-- C53: inserting an id that is held always succeeds and replaces its distance, and in the cases of `HeapRun.again` the
heap goes on to return the extremes (`C52_extremes` of the longer history).  Missing: the other cases, see
`C53_again_violated`. -/
theorem C53_again_partial {h : DistHeap} {held : List HeapItem} (hr : HeapRun h held) {x : HeapItem} (hx : x ∈ held) (dist : Int) :
    ∃ h', h.insert x.id dist = .ok h' ∧ h'.items.Perm (⟨x.id, dist⟩ :: held.erase x) ∧
      ((dist = x.dist ∨ held.length ≤ 3 ∨ h.peekMin = .ok x ∨ (h.peekMax = .ok x ∧ ∃ y, h.peekMin = .ok y ∧ y.dist ≤ dist)) →
        HeapRun h' (⟨x.id, dist⟩ :: held.erase x) ∧ ∃ a b, h'.peekMin = .ok a ∧ h'.peekMax = .ok b ∧
          Least (⟨x.id, dist⟩ :: held.erase x) a ∧ Greatest (⟨x.id, dist⟩ :: held.erase x) b) := by
  obtain ⟨h', e, q, _⟩ := again_inv (heap_inv hr) hx dist
  refine ⟨h', e, q, fun hc => ?_⟩
  have hr' := HeapRun.again hr hx hc e
  obtain ⟨⟨a, _, ha, _, hla, _⟩, ⟨b, _, hb, _, hgb, _⟩⟩ := (C52_extremes hr').2.2.2.2 (by simp)
  exact ⟨hr', a, b, ha, hb, hla, hgb⟩

/-- Four insertions: the ids 1, 2, 3, 4 at the distances 1, 10, 5, 3. -/
def hInsFrom (h : DistHeap) (l : List (Nat × Int)) : Res DistHeap :=
  l.foldl (fun (r : Res DistHeap) x => r.bind (fun h => h.insert x.1 x.2)) (.ok h)
def hIns (l : List (Nat × Int)) : Res DistHeap := hInsFrom DistHeap.new l

/-- What a test can see of the outcome. -/
def hShow (r : Res DistHeap) : Option (List HeapItem × Option HeapItem × Option HeapItem) := match r with
  | .ok h => some (h.items, (match h.peekMin with | .ok x => some x | _ => none), (match h.peekMax with | .ok x => some x | _ => none))
  | _ => none

theorem hIns_run : ∀ (l : List (Nat × Int)) (h0 : DistHeap) (held : List HeapItem), HeapRun h0 held → (l.map (·.1)).Nodup →
    (∀ x ∈ l, x.1 ∉ held.map (·.id)) → ∃ h, hInsFrom h0 l = .ok h ∧
      HeapRun h (l.foldl (fun a x => ⟨x.1, x.2⟩ :: a) held) := by
  intro l
  induction l with
  | nil => intro h0 held hr _ _; exact ⟨h0, rfl, hr⟩
  | cons x l ih =>
    intro h0 held hr hn hm
    obtain ⟨h1, e1, _⟩ := (C52_extremes hr).2.2.1 x.1 x.2 (hm x (by simp))
    rw [List.map_cons, List.nodup_cons] at hn
    obtain ⟨h, e, hr'⟩ := ih h1 _ (.insert hr (hm x (by simp)) e1) hn.2 (fun y hy => by
      simp only [List.map_cons, List.mem_cons, not_or]
      exact ⟨fun he => hn.1 (he ▸ List.mem_map.2 ⟨y, hy, rfl⟩), hm y (by simp [hy])⟩)
    refine ⟨h, ?_, hr'⟩
    unfold hInsFrom
    rw [List.foldl_cons]
    simp only [Res.bind]
    rw [e1]
    exact e

/-- C53 is violated: after inserting the ids 1, 2, 3, 4 at the distances 1, 10, 5, 3, inserting the id 2 again at the
distance 0 leaves a heap whose minimum is said to be 1. -/
theorem C53_again_violated : ∃ h h', HeapRun h [⟨4, 3⟩, ⟨3, 5⟩, ⟨2, 10⟩, ⟨1, 1⟩] ∧ h.insert 2 0 = .ok h' ∧
    h'.items.Perm [⟨2, 0⟩, ⟨4, 3⟩, ⟨3, 5⟩, ⟨1, 1⟩] ∧ h'.peekMin = .ok ⟨1, 1⟩ := by
  obtain ⟨h, e, hr⟩ := hIns_run [(1, 1), (2, 10), (3, 5), (4, 3)] _ _ .new (by decide) (by simp)
  obtain ⟨h', e', q, _⟩ := C53_again_partial hr (x := ⟨2, 10⟩) (by simp) 0
  refine ⟨h, h', hr, e', q, ?_⟩
  have hs : hShow (hIns [(1, 1), (2, 10), (3, 5), (4, 3), (2, 0)]) =
      some ([⟨1, 1⟩, ⟨4, 3⟩, ⟨3, 5⟩, ⟨2, 0⟩], some ⟨1, 1⟩, some ⟨3, 5⟩) := by decide +kernel
  have hc : hIns [(1, 1), (2, 10), (3, 5), (4, 3), (2, 0)] = .ok h' := by
    have : hIns [(1, 1), (2, 10), (3, 5), (4, 3), (2, 0)] = (hIns [(1, 1), (2, 10), (3, 5), (4, 3)]).bind (fun h => h.insert 2 0) := rfl
    rw [this]
    unfold hIns
    rw [e]
    exact e'
  rw [hc] at hs
  simp only [hShow, Option.some.injEq, Prod.mk.injEq] at hs
  exact peekMin_eq.2 (by rw [hs.1]; rfl)

theorem least_unique {held : List HeapItem} {x y : HeapItem} (hx : Least held x) (hy : y ∈ held)
    (h : ∀ z ∈ held, z ≠ y → y.dist < z.dist) : x = y := by
  by_cases he : x = y
  · exact he
  · have := hx.2 y hy; have := h x hx.1 he; omega

theorem greatest_unique {held : List HeapItem} {x y : HeapItem} (hx : Greatest held x) (hy : y ∈ held)
    (h : ∀ z ∈ held, z ≠ y → z.dist < y.dist) : x = y := by
  by_cases he : x = y
  · exact he
  · have := hx.2 y hy; have := h x hx.1 he; omega

/-- A history with insertions of seven items, a removal at each end and the minimum inserted again. -/
example : ∃ h, HeapRun h [⟨7, 8⟩, ⟨6, 6⟩, ⟨5, 4⟩, ⟨3, 5⟩, ⟨2, 9⟩] ∧ h.peekMin = .ok ⟨5, 4⟩ := by
  obtain ⟨h, e, hr⟩ := hIns_run [(1, 1), (2, 9), (3, 5), (4, 12), (5, 4), (6, 6), (7, 2)] _ _ .new (by decide) (by simp)
  obtain ⟨x, h1, _, e1, hl, _⟩ := ((C52_extremes hr).2.2.2.2 (by simp)).1
  have hx : x = ⟨1, 1⟩ := least_unique hl (by decide) (by decide)
  subst hx
  have hr1 := hr.popMin e1
  obtain ⟨x, h2, _, e2, hg, _⟩ := ((C52_extremes hr1).2.2.2.2 (by decide)).2
  have hx : x = ⟨4, 12⟩ := greatest_unique hg (by decide) (by decide)
  subst hx
  have hr2 := hr1.popMax e2
  obtain ⟨x, _, p2, _, hl2, _⟩ := ((C52_extremes hr2).2.2.2.2 (by decide)).1
  have hx : x = ⟨7, 2⟩ := least_unique hl2 (by decide) (by decide)
  subst hx
  obtain ⟨h3, _, _, hc⟩ := C53_again_partial hr2 hl2.1 8
  obtain ⟨hr3, a, _, ha, _, hla, _⟩ := hc (.inr (.inr (.inl p2)))
  have hx : a = ⟨5, 4⟩ := least_unique hla (by decide) (by decide)
  subst hx
  exact ⟨h3, hr3, ha⟩

/-- Three items, and the greatest is inserted again below the minimum. -/
example : ∃ h, HeapRun h [⟨2, 0⟩, ⟨3, 5⟩, ⟨1, 1⟩] ∧ h.peekMin = .ok ⟨2, 0⟩ := by
  obtain ⟨h, e, hr⟩ := hIns_run [(1, 1), (2, 10), (3, 5)] _ _ .new (by decide) (by simp)
  obtain ⟨h', _, _, hc⟩ := C53_again_partial hr (x := ⟨2, 10⟩) (by simp) 0
  obtain ⟨hr', a, _, ha, _, hl, _⟩ := hc (.inr (.inl (by simp)))
  have : a = ⟨2, 0⟩ := least_unique hl (by decide) (by decide)
  subst this
  exact ⟨h', hr', ha⟩

end Appendable
