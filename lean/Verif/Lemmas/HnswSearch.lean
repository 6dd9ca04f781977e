import Verif.Lemmas.Hnsw
import Verif.Lemmas.Rep
/-! `searchLevel`. -/
namespace Appendable
open Spec DistHeap

variable {F : Type} {o : FloatOps F}

/-- The point has the level. -/
def OnLevel (h : Hnsw F) (level id : Nat) : Prop := ∃ fr, h.friends[id]? = some fr ∧ level < fr.levels.length

/-- The friends of `id` on the level. -/
def FriendOf (h : Hnsw F) (level id i : Nat) : Prop :=
  ∃ fr l, h.friends[id]? = some fr ∧ fr.levels[level]? = some l ∧ i ∈ ids l

/-- Friends on a level have that level. -/
def Closed (h : Hnsw F) (level : Nat) : Prop := ∀ id i, FriendOf h level id i → OnLevel h level i

/-- A set of points on the level that a search does not leave. -/
structure Region (h : Hnsw F) (level : Nat) (P : Nat → Prop) : Prop where
  on : ∀ i, P i → OnLevel h level i
  closed : ∀ i j, P i → FriendOf h level i j → P j

/-- The points have the dimension. -/
structure PointsOK (h : Hnsw F) : Prop where
  len : h.points.length = h.friends.length
  dim : ∀ p ∈ h.points, p.length = h.dim

/-- The distance of a stored point from `q`. -/
def distTo (o : FloatOps F) (h : Hnsw F) (q : List F) (id : Nat) : Int := metric o (h.points[id]?.getD []) q

theorem OnLevel.lt {h : Hnsw F} {level id : Nat} (hl : OnLevel h level id) : id < h.friends.length := by
  obtain ⟨fr, hf, _⟩ := hl
  exact (List.getElem?_eq_some_iff.1 hf).1

theorem point_dist {h : Hnsw F} (hp : PointsOK h) {q : List F} (hq : q.length = h.dim) {id : Nat} (hid : id < h.friends.length) :
    ∃ p, h.points[id]? = some p ∧ p.length = h.dim ∧ euclid o p q = .ok (distTo o h q id) := by
  have hid' : id < h.points.length := by rw [hp.len]; exact hid
  have hl := hp.dim _ (List.getElem_mem hid')
  refine ⟨_, List.getElem?_eq_getElem hid', hl, ?_⟩
  unfold distTo
  rw [List.getElem?_eq_getElem hid', Option.getD_some, euclid_ok o (by rw [hl, hq]; exact Nat.le_refl _)]

/-- What holds during a search. -/
structure SearchInv (o : FloatOps F) (h : Hnsw F) (q : List F) (num : Nat) (P : Nat → Prop) (d0 : Int) (st : SearchSt) : Prop where
  cand : Sound (distTo o h q) st.cand
  found : Sound (distTo o h q) st.found
  ne : st.found.items ≠ []
  le : st.found.len ≤ max 1 num
  vlen : st.visited.length = h.friends.length + 1
  candOn : ∀ i ∈ ids st.cand, P i
  foundOn : ∀ i ∈ ids st.found, P i
  near : ∃ x ∈ st.found.items, x.dist ≤ d0

/-- The rounds left. -/
def todo (st : SearchSt) : Nat := st.cand.len + st.visited.count false

/-- Nothing was dropped so far. -/
structure Filled (st : SearchSt) : Prop where
  cand : ∀ i ∈ ids st.cand, i ∈ ids st.found
  seen : ∀ i, st.visited[i]? = some true → i ∈ ids st.found

structure Grow (st st' : SearchSt) : Prop where
  found : ∀ i ∈ ids st.found, i ∈ ids st'.found
  cand : ∀ i ∈ ids st.cand, i ∈ ids st'.cand
  new : ∀ i ∈ ids st'.found, i ∈ ids st.found ∨ i ∈ ids st'.cand

theorem Grow.refl (st : SearchSt) : Grow st st := ⟨fun _ h => h, fun _ h => h, fun _ h => .inl h⟩
theorem Grow.trans {a b c : SearchSt} (h1 : Grow a b) (h2 : Grow b c) : Grow a c :=
  ⟨fun i h => h2.found i (h1.found i h), fun i h => h2.cand i (h1.cand i h), fun i h => by
    rcases h2.new i h with h | h
    · rcases h1.new i h with h | h
      · exact .inl h
      · exact .inr (h2.cand i h)
    · exact .inr h⟩

theorem nodup_bound {l : List Nat} {n : Nat} (hd : l.Nodup) (hb : ∀ i ∈ l, i < n) : l.length ≤ n := nodup_length_le n l hd hb

theorem count_set_true {l : List Bool} {i : Nat} (h : l[i]? = some false) :
    (l.set i true).count false + 1 = l.count false := by
  induction l generalizing i with
  | nil => simp at h
  | cons b l ih =>
    cases i with
    | zero => simp at h; subst h; simp
    | succ i =>
      simp only [List.getElem?_cons_succ] at h
      simp only [List.set_cons_succ, List.count_cons]
      have := ih h
      omega

theorem visit_ok {h : Hnsw F} {q : List F} {num level id : Nat} {P : Nat → Prop} {d0 : Int} {st : SearchSt} (hp : PointsOK h)
    (hq : q.length = h.dim) (hP : Region h level P) (hi : SearchInv o h q num P d0 st) (hid : P id) :
    ∃ st', h.visit o q num id st = .ok st' ∧ SearchInv o h q num P d0 st' ∧ todo st' ≤ todo st ∧
      (h.friends.length ≤ num → Filled st → Filled st' ∧ Grow st st' ∧ id ∈ ids st'.found) := by
  have hlt := (hP.on _ hid).lt
  have hv : id < st.visited.length := by rw [hi.vlen]; omega
  unfold Hnsw.visit
  rw [List.getElem?_eq_getElem hv]
  cases hb : st.visited[id] with
  | true =>
    refine ⟨st, rfl, hi, Nat.le_refl _, fun _ hf => ⟨hf, .refl _, hf.seen id ?_⟩⟩
    rw [List.getElem?_eq_getElem hv, hb]
  | false =>
    simp only
    have hb' : st.visited[id]? = some false := by rw [List.getElem?_eq_getElem hv, hb]
    have hcount := count_set_true hb'
    obtain ⟨p, hpt, _, he⟩ := point_dist (o := o) hp hq hlt
    obtain ⟨fu, _, _, hpk, _, _, hg⟩ := popMax_sound hi.found hi.ne
    unfold Hnsw.visitNew
    rw [hpk, hpt]
    simp only [Res.bind]
    rw [he]
    simp only
    unfold Hnsw.offer
    simp only
    have hseen : ∀ i, (st.visited.set id true)[i]? = some true → i = id ∨ st.visited[i]? = some true := by
      intro i h
      rw [List.getElem?_set] at h
      split at h
      · left; omega
      · exact .inr h
    -- the number of ids is bounded
    by_cases hc : distTo o h q id < fu.dist ∨ st.found.len < num
    · rw [if_pos hc]
      obtain ⟨c, ec, sc, ic, lc⟩ := insert_sound hi.cand id
      obtain ⟨f, ef, sf, jf, lf⟩ := insert_sound hi.found id
      rw [ec]
      simp only [Res.bind]
      rw [ef]
      simp only
      have hcl : c.len ≤ st.cand.len + 1 := by rw [lc]; split <;> omega
      have hcon : ∀ i ∈ ids c, P i := fun i h => by
        rcases (ic i).1 h with rfl | h
        · exact hid
        · exact hi.candOn i h
      have hfon : ∀ i ∈ ids f, P i := fun i h => by
        rcases (jf i).1 h with rfl | h
        · exact hid
        · exact hi.foundOn i h
      have hfl : f.len ≤ max 1 num + 1 := by have := hi.le; rw [lf]; split <;> omega
      have hfne : f.items ≠ [] := by
        have : id ∈ ids f := (jf id).2 (.inl rfl)
        intro h0
        rw [ids, h0] at this; simp at this
      have hnear : ∃ x ∈ f.items, x.dist ≤ d0 := by
        obtain ⟨x, hx, hd⟩ := hi.near
        have := hi.found.dist x hx
        have h1 : x.id ∈ ids f := (jf _).2 (.inr (List.mem_map.2 ⟨x, hx, rfl⟩))
        refine ⟨_, (mem_ids sf).1 h1, ?_⟩
        rw [← this]; exact hd
      have hfn : f.len ≤ h.friends.length := by
        rw [← ids_length]
        exact nodup_bound sf.nodup (fun i hi' => (hP.on _ (hfon i hi')).lt)
      by_cases hpop : f.len > num
      · rw [if_pos hpop]
        obtain ⟨y, f', ep, _, sf', pf, gf⟩ := popMax_sound sf hfne
        rw [ep]
        simp only [Res.bind]
        have hl' : f'.len + 1 = f.len := pf.length_eq
        have hf2 : 2 ≤ f.len := by
          have h1 : 1 ≤ st.found.len := len_pos.2 hi.ne
          rw [lf]
          split
          · rename_i hin
            by_cases hl1 : st.found.len = 1
            · exfalso
              -- the only item is `id` itself
              have hx := (mem_ids hi.found).1 hin
              have hone : st.found.items.length = 1 := hl1
              obtain ⟨z, hz⟩ := List.length_eq_one_iff.1 hone
              rw [hz] at hx
              have hfu := hg.1
              rw [hz] at hfu
              simp only [List.mem_singleton] at hx hfu
              rw [hfu, ← hx] at hc
              simp only [Int.lt_irrefl, false_or] at hc
              rw [lf, if_pos hin] at hpop
              omega
            · omega
          · omega
        refine ⟨_, rfl, ⟨sc, sf', (len_pos (h := f')).1 (by omega), by simp only; omega, by simp [hi.vlen], hcon, ?_, ?_⟩, ?_, ?_⟩
        · intro i h
          obtain ⟨x, hx, rfl⟩ := List.mem_map.1 h
          exact hfon _ (List.mem_map.2 ⟨x, pf.mem_iff.1 (by simp [hx]), rfl⟩)
        · obtain ⟨x, hx, hd⟩ := hnear
          rcases List.mem_cons.1 (pf.mem_iff.2 hx) with rfl | h
          · have hne' : f'.items ≠ [] := len_pos.1 (by omega)
            obtain ⟨z, hz⟩ := List.exists_mem_of_ne_nil _ hne'
            refine ⟨z, hz, ?_⟩
            have := gf.2 z (pf.mem_iff.1 (by simp [hz]))
            omega
          · exact ⟨x, h, hd⟩
        · unfold todo; simp only; omega
        · intro hn; omega
      · rw [if_neg hpop]
        refine ⟨_, rfl, ⟨sc, sf, hfne, by simp only; omega, by simp [hi.vlen], hcon, hfon, hnear⟩, by unfold todo; simp only; omega, ?_⟩
        intro hn hf
        refine ⟨⟨fun i h => ?_, fun i h => ?_⟩, ⟨fun i h => (jf i).2 (.inr h), fun i h => (ic i).2 (.inr h), fun i h => ?_⟩,
          (jf id).2 (.inl rfl)⟩
        · rcases (ic i).1 h with rfl | h
          · exact (jf i).2 (.inl rfl)
          · exact (jf i).2 (.inr (hf.cand i h))
        · rcases hseen i h with rfl | h
          · exact (jf i).2 (.inl rfl)
          · exact (jf i).2 (.inr (hf.seen i h))
        · rcases (jf i).1 h with rfl | h
          · exact .inr ((ic i).2 (.inl rfl))
          · exact .inl h
    · rw [if_neg hc]
      refine ⟨_, rfl, ⟨hi.cand, hi.found, hi.ne, hi.le, by simp [hi.vlen], hi.candOn, hi.foundOn, hi.near⟩, by
        unfold todo; simp only; omega, ?_⟩
      intro hn hf
      have hin : id ∈ ids st.found := by
        by_cases hin : id ∈ ids st.found
        · exact hin
        · exfalso
          apply hc
          right
          have hnd : (id :: ids st.found).Nodup := List.nodup_cons.2 ⟨hin, hi.found.nodup⟩
          have := nodup_bound hnd (n := h.friends.length) (by
            intro i hi'
            rcases List.mem_cons.1 hi' with rfl | hi'
            · exact hlt
            · exact (hP.on _ (hi.foundOn i hi')).lt)
          rw [List.length_cons, ids_length] at this
          omega
      refine ⟨⟨hf.cand, fun i h => ?_⟩, ⟨fun _ h => h, fun _ h => h, fun _ h => .inl h⟩, hin⟩
      rcases hseen i h with rfl | h
      · exact hin
      · exact hf.seen i h

theorem visitAll_ok {h : Hnsw F} {q : List F} {num level : Nat} {P : Nat → Prop} {d0 : Int} (hp : PointsOK h)
    (hq : q.length = h.dim) (hP : Region h level P) :
    ∀ (xs : List HeapItem) (st : SearchSt), SearchInv o h q num P d0 st → (∀ x ∈ xs, P x.id) →
    ∃ st', h.visitAll o q num xs st = .ok st' ∧ SearchInv o h q num P d0 st' ∧ todo st' ≤ todo st ∧
      (h.friends.length ≤ num → Filled st → Filled st' ∧ Grow st st' ∧ ∀ x ∈ xs, x.id ∈ ids st'.found) := by
  intro xs
  induction xs with
  | nil => intro st hi _; exact ⟨st, rfl, hi, Nat.le_refl _, fun _ hf => ⟨hf, .refl _, by simp⟩⟩
  | cons x xs ih =>
    intro st hi hx
    obtain ⟨s1, e1, i1, t1, f1⟩ := visit_ok hp hq hP hi (hx x (by simp))
    obtain ⟨s2, e2, i2, t2, f2⟩ := ih s1 i1 (fun y hy => hx y (by simp [hy]))
    unfold Hnsw.visitAll
    rw [e1]
    refine ⟨s2, e2, i2, by omega, fun hn hf => ?_⟩
    obtain ⟨a1, a2, a3⟩ := f1 hn hf
    obtain ⟨b1, b2, b3⟩ := f2 hn a1
    refine ⟨b1, a2.trans b2, fun y hy => ?_⟩
    rcases List.mem_cons.1 hy with rfl | hy
    · exact b2.found _ a3
    · exact b3 y hy

/-- The outcome of a search. -/
structure SearchOut (o : FloatOps F) (h : Hnsw F) (q : List F) (num level : Nat) (P : Nat → Prop) (ep : HeapItem) (r : DistHeap) : Prop where
  sound : Sound (distTo o h q) r
  ne : r.items ≠ []
  le : r.len ≤ max 1 num
  on : ∀ i ∈ ids r, P i
  near : ∃ x ∈ r.items, x.dist ≤ ep.dist
  full : h.friends.length ≤ num → ep.id ∈ ids r ∧ ∀ i ∈ ids r, ∀ j, FriendOf h level i j → j ∈ ids r

theorem searchLoop_ok {h : Hnsw F} {q : List F} {num level : Nat} {P : Nat → Prop} {ep : HeapItem} (hp : PointsOK h)
    (hq : q.length = h.dim) (hP : Region h level P) :
    ∀ (fuel : Nat) (st : SearchSt), SearchInv o h q num P ep.dist st → todo st < fuel →
      (h.friends.length ≤ num → Filled st ∧ ep.id ∈ ids st.found ∧
        ∀ i ∈ ids st.found, i ∈ ids st.cand ∨ ∀ j, FriendOf h level i j → j ∈ ids st.found) →
      ∃ r, h.searchLoop o q num level fuel st = .ok r ∧ SearchOut o h q num level P ep r := by
  intro fuel
  induction fuel with
  | zero => intro st _ h; omega
  | succ fuel ih =>
    intro st hi hf hfull
    unfold Hnsw.searchLoop
    by_cases h0 : st.cand.len = 0
    · rw [if_pos h0]
      refine ⟨_, rfl, hi.found, hi.ne, hi.le, hi.foundOn, hi.near, fun hn => ?_⟩
      obtain ⟨_, h1, h2⟩ := hfull hn
      refine ⟨h1, fun i hi' => ?_⟩
      rcases h2 i hi' with h | h
      · have := ids_length st.cand
        rw [h0, List.length_eq_zero_iff] at this
        rw [this] at h; simp at h
      · exact h
    · rw [if_neg h0]
      obtain ⟨c, cand, e1, _, s1, p1, l1⟩ := popMin_sound hi.cand (len_pos.1 (by omega))
      obtain ⟨fu, _, _, hpk, _, _, hg⟩ := popMax_sound hi.found hi.ne
      rw [e1]
      simp only [Res.bind]
      rw [hpk]
      simp only
      have hcin : c.id ∈ ids st.cand := List.mem_map.2 ⟨c, l1.1, rfl⟩
      by_cases hgt : c.dist > fu.dist
      · rw [if_pos hgt]
        refine ⟨_, rfl, hi.found, hi.ne, hi.le, hi.foundOn, hi.near, fun hn => ?_⟩
        exfalso
        have h1 := (mem_ids hi.found).1 ((hfull hn).1.cand c.id hcin)
        have h2 := hg.2 _ h1
        have h3 := hi.cand.dist c l1.1
        simp only at h2
        omega
      · rw [if_neg hgt]
        have hcon := hi.candOn _ hcin
        obtain ⟨fr, hfr, hlv⟩ := hP.on _ hcon
        have hlen : cand.len + 1 = st.cand.len := p1.length_eq
        have hsub : ∀ i ∈ ids cand, i ∈ ids st.cand := fun i hi' => by
          obtain ⟨x, hx, rfl⟩ := List.mem_map.1 hi'
          exact List.mem_map.2 ⟨x, p1.mem_iff.1 (by simp [hx]), rfl⟩
        have hi1 : SearchInv o h q num P ep.dist { st with cand := cand } :=
          ⟨s1, hi.found, hi.ne, hi.le, hi.vlen, fun i h => hi.candOn i (hsub i h), hi.foundOn, hi.near⟩
        unfold Hnsw.expand Friends.getAt
        rw [hfr]
        simp only
        rw [List.getElem?_eq_getElem hlv]
        simp only [Res.bind]
        obtain ⟨st', e2, i2, t2, f2⟩ := visitAll_ok hp hq hP fr.levels[level].items _ hi1 (fun x hx =>
          hP.closed c.id x.id hcon ⟨fr, _, hfr, List.getElem?_eq_getElem hlv, List.mem_map.2 ⟨x, hx, rfl⟩⟩)
        rw [e2]
        simp only
        refine ih st' i2 (by unfold todo at *; simp only at t2; omega) fun hn => ?_
        obtain ⟨g1, g2, g3⟩ := hfull hn
        obtain ⟨k1, k2, k3⟩ := f2 hn ⟨fun i h => g1.cand i (hsub i h), g1.seen⟩
        refine ⟨k1, k2.found _ g2, fun i hi' => ?_⟩
        by_cases hic : i = c.id
        · right
          subst hic
          rintro j ⟨fr', l', hf', hl', hj⟩
          rw [hfr] at hf'
          cases hf'
          rw [List.getElem?_eq_getElem hlv] at hl'
          cases hl'
          obtain ⟨x, hx, rfl⟩ := List.mem_map.1 hj
          exact k3 x hx
        · rcases k2.new i hi' with h | h
          · rcases g3 i h with h | h
            · left
              apply k2.cand
              simp only
              obtain ⟨x, hx, rfl⟩ := List.mem_map.1 h
              rcases List.mem_cons.1 (p1.mem_iff.2 hx) with rfl | hx
              · exact absurd rfl hic
              · exact List.mem_map.2 ⟨x, hx, rfl⟩
            · right; exact fun j hj => k2.found j (h j hj)
          · exact .inl h

theorem searchLevel_ok {h : Hnsw F} {q : List F} {num level : Nat} {P : Nat → Prop} {ep : HeapItem} (hp : PointsOK h)
    (hq : q.length = h.dim) (hP : Region h level P) (hep : P ep.id) (hd : ep.dist = distTo o h q ep.id) :
    ∃ r, h.searchLevel o q ep num level = .ok r ∧ SearchOut o h q num level P ep r := by
  unfold Hnsw.searchLevel
  obtain ⟨c, ec, sc, ic, lc⟩ := insert_sound (sound_new (distTo o h q)) ep.id
  rw [hd, ec]
  simp only [Res.bind]
  have hids : ids DistHeap.new = [] := rfl
  rw [hids] at ic lc
  have hl0 : DistHeap.new.len = 0 := rfl
  simp only [List.not_mem_nil, if_false, hl0, or_false] at ic lc
  have hmem := (ic ep.id).2 rfl
  have hon : ∀ i ∈ ids c, P i := fun i h => by rw [(ic i).1 h]; exact hep
  refine searchLoop_ok hp hq hP _ _ ⟨sc, sc, (len_pos (h := c)).1 (by omega), by simp only; omega, by simp, hon, hon,
    ⟨_, (mem_ids sc).1 hmem, by simp [hd]⟩⟩ ?_ ?_
  · unfold todo
    simp only [List.count_replicate_self, lc]
    omega
  · intro _
    refine ⟨⟨fun i h => h, fun i h => ?_⟩, hmem, fun i h => .inl h⟩
    simp only [List.getElem?_replicate] at h
    split at h <;> simp at h

end Appendable
