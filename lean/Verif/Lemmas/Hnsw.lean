import Verif.Props.Heap
import Verif.Spec.Hnsw
/-! The search in one level of the proximity graph. -/
namespace Appendable
open Spec DistHeap

variable {F : Type} {o : FloatOps F}

/-! ### Distances -/

theorem euclidSum_ok (o : FloatOps F) : ∀ (p q : List F) (acc : F), p.length ≤ q.length →
    euclidSum o acc p q = .ok ((p.zip q).foldl (fun acc x => o.add acc (o.mul (o.sub x.1 x.2) (o.sub x.1 x.2))) acc) := by
  intro p
  induction p with
  | nil => intro q acc _; simp [euclidSum]
  | cons a p ih =>
    intro q acc h
    cases q with
    | nil => simp at h
    | cons b q => simp only [List.zip_cons_cons, List.foldl_cons, euclidSum]; exact ih q _ (by simpa using h)

theorem euclid_ok (o : FloatOps F) {p q : List F} (h : p.length ≤ q.length) : euclid o p q = .ok (metric o p q) := by
  unfold euclid metric
  rw [euclidSum_ok o p q _ h]; rfl

theorem metric_comm (hs : SquareSym o) (p q : List F) : metric o p q = metric o q p := by
  have key : ∀ (p q : List F) (acc : F),
      (p.zip q).foldl (fun acc x => o.add acc (o.mul (o.sub x.1 x.2) (o.sub x.1 x.2))) acc =
      (q.zip p).foldl (fun acc x => o.add acc (o.mul (o.sub x.1 x.2) (o.sub x.1 x.2))) acc := by
    intro p
    induction p with
    | nil => intro q acc; simp
    | cons a p ih =>
      intro q acc
      cases q with
      | nil => simp
      | cons b q => simp only [List.zip_cons_cons, List.foldl_cons]; rw [hs a b]; exact ih q _
  unfold metric
  rw [key]

/-! ### Heaps whose distances are a function of the id -/

/-- The ids in a heap. -/
def ids (h : DistHeap) : List Nat := h.items.map (·.id)

structure Sound (D : Nat → Int) (h : DistHeap) : Prop where
  run : ∃ held, HeapRun h held
  dist : ∀ x ∈ h.items, x.dist = D x.id

theorem Sound.inv {D : Nat → Int} {h : DistHeap} (hs : Sound D h) : HeapInv h h.items := by
  obtain ⟨held, hr⟩ := hs.run
  have := heap_inv hr
  exact ⟨.refl _, this.vok, this.ok⟩

theorem Sound.nodup {D : Nat → Int} {h : DistHeap} (hs : Sound D h) : (ids h).Nodup := VOk.nodup hs.inv.vok

theorem sound_new (D : Nat → Int) : Sound D DistHeap.new := ⟨⟨_, .new⟩, by simp [DistHeap.new]⟩

theorem mem_ids {D : Nat → Int} {h : DistHeap} (hs : Sound D h) {i : Nat} : i ∈ ids h ↔ (⟨i, D i⟩ : HeapItem) ∈ h.items := by
  unfold ids
  rw [List.mem_map]
  constructor
  · rintro ⟨x, hx, rfl⟩
    have := hs.dist x hx
    obtain ⟨a, b⟩ := x
    simp only at this
    subst this
    exact hx
  · intro hx; exact ⟨_, hx, rfl⟩

theorem insert_sound {D : Nat → Int} {h : DistHeap} (hs : Sound D h) (id : Nat) :
    ∃ h', h.insert id (D id) = .ok h' ∧ Sound D h' ∧ (∀ i, i ∈ ids h' ↔ i = id ∨ i ∈ ids h) ∧
      h'.len = (if id ∈ ids h then h.len else h.len + 1) := by
  obtain ⟨held, hr⟩ := hs.run
  have hp := (heap_inv hr).perm
  by_cases hid : id ∈ ids h
  · have hx := (mem_ids hs).1 hid
    obtain ⟨h', e, q, hc⟩ := C53_again_partial hr (hp.mem_iff.1 hx) (D id)
    have hrun := (hc (.inl rfl)).1
    have hq : h'.items.Perm h.items := by
      refine q.trans (List.Perm.trans ?_ hp.symm)
      exact (List.perm_cons_erase (hp.mem_iff.1 hx)).symm
    refine ⟨h', e, ⟨⟨_, hrun⟩, fun x hx => hs.dist x (hq.mem_iff.1 hx)⟩, fun i => ?_, ?_⟩
    · unfold ids
      rw [(hq.map _).mem_iff]
      constructor
      · exact .inr
      · rintro (rfl | h)
        · exact hid
        · exact h
    · rw [if_pos hid]; exact hq.length_eq
  · have hid' : id ∉ held.map (·.id) := fun hc => hid ((hp.map _).mem_iff.2 hc)
    obtain ⟨h', e, q⟩ := (C52_extremes hr).2.2.1 id (D id) hid'
    have hq : h'.items.Perm (⟨id, D id⟩ :: h.items) := q.trans (hp.symm.cons _)
    refine ⟨h', e, ⟨⟨_, .insert hr hid' e⟩, fun x hx => ?_⟩, fun i => ?_, ?_⟩
    · rcases List.mem_cons.1 (hq.mem_iff.1 hx) with rfl | h
      · rfl
      · exact hs.dist x h
    · unfold ids
      rw [(hq.map _).mem_iff]; simp
    · rw [if_neg hid]; exact hq.length_eq

theorem popMin_sound {D : Nat → Int} {h : DistHeap} (hs : Sound D h) (hne : h.items ≠ []) :
    ∃ x h', h.popMin = .ok (x, h') ∧ h.peekMin = .ok x ∧ Sound D h' ∧ (x :: h'.items).Perm h.items ∧ Least h.items x := by
  obtain ⟨held, hr⟩ := hs.run
  obtain ⟨x, h', e, p, l, q, _, _⟩ := popMin_inv hs.inv hne
  exact ⟨x, h', e, p, ⟨⟨_, .popMin hr e⟩, fun y hy => hs.dist y (q.mem_iff.1 (by simp [hy]))⟩, q, l⟩

theorem popMax_sound {D : Nat → Int} {h : DistHeap} (hs : Sound D h) (hne : h.items ≠ []) :
    ∃ x h', h.popMax = .ok (x, h') ∧ h.peekMax = .ok x ∧ Sound D h' ∧ (x :: h'.items).Perm h.items ∧ Greatest h.items x := by
  obtain ⟨held, hr⟩ := hs.run
  obtain ⟨x, h', e, p, l, q, _, _, _⟩ := popMax_inv hs.inv hne
  exact ⟨x, h', e, p, ⟨⟨_, .popMax hr e⟩, fun y hy => hs.dist y (q.mem_iff.1 (by simp [hy]))⟩, q, l⟩

theorem ids_length (h : DistHeap) : (ids h).length = h.len := by simp [ids, DistHeap.len]

theorem len_pos {h : DistHeap} : 0 < h.len ↔ h.items ≠ [] := List.length_pos_iff

/-- Removing the farthest items. -/
theorem shrink_sound {D : Nat → Int} (k : Nat) : ∀ (fuel : Nat) (h : DistHeap), Sound D h → h.len < fuel →
    ∃ r, shrink (k : Int) fuel h = .ok r ∧ Sound D r ∧ (∀ x ∈ r.items, x ∈ h.items) ∧ r.len = min k h.len ∧
      (∀ y ∈ h.items, y ∉ r.items → ∀ x ∈ r.items, x.dist ≤ y.dist) ∧ (h.len ≤ k → r = h) := by
  intro fuel
  induction fuel with
  | zero => intro h _ hf; omega
  | succ fuel ih =>
    intro h hs hf
    unfold shrink
    by_cases hk : k < h.len
    · rw [if_pos (by omega)]
      obtain ⟨x, h', e, _, s', q, g⟩ := popMax_sound hs (len_pos.1 (by omega))
      rw [e]
      simp only [Res.bind]
      have hl : h'.len + 1 = h.len := q.length_eq
      obtain ⟨r, e', sr, sub, lr, far, _⟩ := ih h' s' (by omega)
      refine ⟨r, e', sr, fun y hy => q.mem_iff.1 (by simp [sub y hy]), by omega, fun y hy hn z hz => ?_, fun hc => by omega⟩
      rcases List.mem_cons.1 (q.mem_iff.2 hy) with rfl | hy'
      · exact g.2 z (q.mem_iff.1 (by simp [sub z hz]))
      · exact far y hy' hn z hz
    · rw [if_neg (by omega)]
      exact ⟨h, rfl, hs, fun _ h => h, by omega, fun y hy hn => absurd hy hn, fun _ => rfl⟩

/-- Removing more than everything. -/
theorem shrink_neg {D : Nat → Int} {k : Int} (hk : k < 0) : ∀ (fuel : Nat) (h : DistHeap), Sound D h → h.len < fuel →
    shrink k fuel h = .err emptyErr := by
  intro fuel
  induction fuel with
  | zero => intro h _ hf; omega
  | succ fuel ih =>
    intro h hs hf
    unfold shrink
    rw [if_pos (by omega)]
    by_cases h0 : h.items = []
    · have hi := hs.inv
      rw [h0] at hi
      rw [(pop_empty hi).2.2.2]; rfl
    · obtain ⟨x, h', e, _, s', q, _⟩ := popMax_sound hs h0
      rw [e]
      have hl : h'.len + 1 = h.len := q.length_eq
      exact ih h' s' (by omega)

end Appendable
