import Verif.Lemmas.HnswSearch
/-! `InsertVector`. -/
namespace Appendable
open Spec DistHeap

variable {F : Type} {o : FloatOps F}

/-! ### One list of friends -/

structure FrOk (D : Nat → Int) (fr : Friends) : Prop where
  ne : fr.levels ≠ []
  sound : ∀ l ∈ fr.levels, Sound D l
  max : ∀ l ∈ fr.levels, ∀ i ∈ ids l, ∃ m, fr.maxLevels i = some m ∧ m < fr.levels.length

theorem frOk_new (D : Nat → Int) (top : Nat) : FrOk D (Friends.new top) := by
  refine ⟨by simp [Friends.new], fun l hl => ?_, fun l hl i hi => ?_⟩
  · rw [List.eq_of_mem_replicate hl]; exact sound_new D
  · rw [List.eq_of_mem_replicate hl] at hi; simp [ids, DistHeap.new] at hi

theorem insertLevels_ok {D : Nat → Int} (id : Nat) : ∀ (n : Nat) (ls : List DistHeap), n ≤ ls.length → (∀ l ∈ ls, Sound D l) →
    ∃ ls', Friends.insertLevels id (D id) n ls = .ok ls' ∧ ls'.length = ls.length ∧
      ∀ (k : Nat) (l' : DistHeap), ls'[k]? = some l' → ∃ l, ls[k]? = some l ∧ Sound D l' ∧
        (k < n → (∀ i, i ∈ ids l' ↔ i = id ∨ i ∈ ids l) ∧ l'.len = (if id ∈ ids l then l.len else l.len + 1)) ∧ (n ≤ k → l' = l) := by
  intro n
  induction n with
  | zero =>
    intro ls _ hs
    exact ⟨ls, rfl, rfl, fun k l' h => ⟨l', h, hs _ (List.mem_of_getElem? h), fun h => by omega, fun _ => rfl⟩⟩
  | succ n ih =>
    intro ls hn hs
    cases ls with
    | nil => simp at hn
    | cons l ls =>
      obtain ⟨l1, e1, s1, i1, n1⟩ := insert_sound (hs l (by simp)) id
      obtain ⟨ls1, e2, len2, h2⟩ := ih ls (by simpa using hn) (fun x hx => hs x (by simp [hx]))
      unfold Friends.insertLevels
      rw [e1]
      simp only [Res.bind]
      rw [e2]
      refine ⟨l1 :: ls1, rfl, by simp [len2], fun k l' hk => ?_⟩
      cases k with
      | zero =>
        simp only [List.getElem?_cons_zero, Option.some.injEq] at hk
        subst hk
        exact ⟨l, rfl, s1, fun _ => ⟨i1, n1⟩, fun h => by omega⟩
      | succ k =>
        simp only [List.getElem?_cons_succ] at hk
        obtain ⟨l0, a, b, c, d⟩ := h2 k l' hk
        exact ⟨l0, by simpa using a, b, fun h => c (by omega), fun h => d (by omega)⟩

/-- How the lists of friends changed: on the levels up to `level`, `id` was added. -/
structure Added (level id : Nat) (fr fr' : Friends) : Prop where
  len : fr'.levels.length = fr.levels.length
  at_ : ∀ (k : Nat) (l' : DistHeap), fr'.levels[k]? = some l' → ∃ l, fr.levels[k]? = some l ∧
    (∀ i, i ∈ ids l' ↔ (i = id ∧ k ≤ level) ∨ i ∈ ids l) ∧ l'.len ≤ l.len + 1

theorem insertAt_ok {D : Nat → Int} {fr : Friends} (h : FrOk D fr) {level id : Nat} (hl : level < fr.levels.length) :
    ∃ fr', Friends.insertAt level id (D id) fr = .ok fr' ∧ FrOk D fr' ∧ Added level id fr fr' := by
  obtain ⟨ls, e, len, hk⟩ := insertLevels_ok (D := D) id (level + 1) fr.levels (by omega) h.sound
  unfold Friends.insertAt Friends.hasLevel
  rw [if_pos (by simpa using hl), e]
  have hmem : ∀ l' ∈ ls, ∃ l ∈ fr.levels, Sound D l' ∧ ∀ i ∈ ids l', i = id ∨ i ∈ ids l := by
    intro l' hl'
    obtain ⟨k, hk1, rfl⟩ := List.getElem_of_mem hl'
    obtain ⟨l, a, b, c, d⟩ := hk k _ (List.getElem?_eq_getElem hk1)
    refine ⟨l, List.mem_of_getElem? a, b, fun i hi => ?_⟩
    by_cases hkl : k < level + 1
    · exact ((c hkl).1 i).1 hi
    · rw [d (by omega)] at hi; exact .inr hi
  refine ⟨_, rfl, ⟨?_, fun l' hl' => ?_, fun l' hl' i hi => ?_⟩, len, fun k l' hk' => ?_⟩
  · intro h0
    simp only at h0
    rw [h0] at len
    simp at len
    omega
  · obtain ⟨_, _, b, _⟩ := hmem l' hl'
    exact b
  · obtain ⟨l, a, _, b⟩ := hmem l' hl'
    unfold DistHeap.upd
    by_cases hid : i = id
    · exact ⟨level, by simp [hid], by simp only [len]; exact hl⟩
    · rcases b i hi with h' | h'
      · exact absurd h' hid
      · obtain ⟨m, hm, hm'⟩ := h.max l a i h'
        exact ⟨m, by simp [hid, hm], by simp only [len]; exact hm'⟩
  · obtain ⟨l, a, b, c, d⟩ := hk k l' hk'
    refine ⟨l, a, fun i => ?_, ?_⟩
    · by_cases hkl : k < level + 1
      · rw [(c hkl).1 i]
        constructor
        · rintro (h | h)
          · exact .inl ⟨h, by omega⟩
          · exact .inr h
        · rintro (h | h)
          · exact .inl h.1
          · exact .inr h
      · rw [d (by omega)]
        constructor
        · exact .inr
        · rintro (h | h)
          · omega
          · exact h
    · by_cases hkl : k < level + 1
      · rw [(c hkl).2]; split <;> omega
      · rw [d (by omega)]; omega

/-- How the lists of friends changed: on the level `level`, all but `M` may have been removed. -/
structure Pruned (M level : Nat) (fr fr' : Friends) : Prop where
  len : fr'.levels.length = fr.levels.length
  at_ : ∀ (k : Nat) (l' : DistHeap), fr'.levels[k]? = some l' → ∃ l, fr.levels[k]? = some l ∧
    (∀ i ∈ ids l', i ∈ ids l) ∧ (k ≠ level → l' = l) ∧ (k = level → l'.len = min M l.len ∧ (l.len ≤ M → l' = l))

theorem pruneFriend_ok {D : Nat → Int} {fr : Friends} (h : FrOk D fr) {M level : Nat} (hl : level < fr.levels.length) :
    ∃ fr', Hnsw.pruneFriend M level fr = .ok fr' ∧ FrOk D fr' ∧ Pruned M level fr fr' := by
  unfold Hnsw.pruneFriend Friends.getAt
  rw [List.getElem?_eq_getElem hl]
  simp only [Res.bind]
  have hmem := List.getElem_mem hl
  obtain ⟨r, e, sr, sub, lr, _, hsame⟩ := shrink_sound M (fr.levels[level].len + 1) fr.levels[level] (h.sound _ hmem) (by omega)
  rw [e]
  have hsub : ∀ i ∈ ids r, i ∈ ids fr.levels[level] := fun i hi => by
    obtain ⟨x, hx, rfl⟩ := List.mem_map.1 hi
    exact List.mem_map.2 ⟨x, sub x hx, rfl⟩
  refine ⟨_, rfl, ⟨?_, fun l hl' => ?_, fun l hl' i hi => ?_⟩, by simp, fun k l' hk => ?_⟩
  · simp only [ne_eq, List.set_eq_nil_iff]; exact h.ne
  · rcases List.mem_or_eq_of_mem_set hl' with h' | rfl
    · exact h.sound l h'
    · exact sr
  · rcases List.mem_or_eq_of_mem_set hl' with h' | rfl
    · simpa using h.max l h' i hi
    · simpa using h.max _ hmem i (hsub i hi)
  · simp only at hk
    by_cases hkl : k = level
    · subst hkl
      rw [List.getElem?_set_self hl] at hk
      cases hk
      exact ⟨_, List.getElem?_eq_getElem hl, hsub, fun h => absurd rfl h, fun _ => ⟨lr, hsame⟩⟩
    · rw [List.getElem?_set_ne (by omega)] at hk
      exact ⟨l', hk, fun _ h => h, fun _ => rfl, fun h => absurd h hkl⟩

/-! ### The graph -/

/-- The stored point, `[]` if there is none. -/
def pointOf (h : Hnsw F) (id : Nat) : List F := h.points[id]?.getD []

structure Core (o : FloatOps F) (h : Hnsw F) : Prop where
  pts : PointsOK h
  ok : ∀ (id : Nat) (fr : Friends), h.friends[id]? = some fr → FrOk (distTo o h (pointOf h id)) fr
  closed : ∀ level, Closed h level

/-- The same points on the same levels. -/
structure Same (h h' : Hnsw F) : Prop where
  points : h'.points = h.points
  dim : h'.dim = h.dim
  entry : h'.entry = h.entry
  ef : h'.ef = h.ef
  M : h'.M = h.M
  len : h'.friends.length = h.friends.length
  on : ∀ level id, OnLevel h' level id ↔ OnLevel h level id

theorem Same.refl (h : Hnsw F) : Same h h := ⟨rfl, rfl, rfl, rfl, rfl, rfl, fun _ _ => .rfl⟩
theorem Same.trans {a b c : Hnsw F} (h1 : Same a b) (h2 : Same b c) : Same a c :=
  ⟨h2.points.trans h1.points, h2.dim.trans h1.dim, h2.entry.trans h1.entry, h2.ef.trans h1.ef, h2.M.trans h1.M,
    h2.len.trans h1.len, fun l i => (h2.on l i).trans (h1.on l i)⟩

theorem distTo_same {h h' : Hnsw F} (hs : Same h h') (q : List F) : distTo o h' q = distTo o h q := by
  funext i; unfold distTo; rw [hs.points]

theorem pointOf_same {h h' : Hnsw F} (hs : Same h h') (i : Nat) : pointOf h' i = pointOf h i := by
  unfold pointOf; rw [hs.points]

/-- The friends of one point are changed. -/
def setFr (h : Hnsw F) (id : Nat) (fr : Friends) : Hnsw F := { h with friends := h.friends.set id fr }

theorem setFr_get {h : Hnsw F} {id : Nat} {fr fr' : Friends} (hf : h.friends[id]? = some fr) (j : Nat) :
    (setFr h id fr').friends[j]? = if j = id then some fr' else h.friends[j]? := by
  unfold setFr
  simp only
  by_cases hj : j = id
  · subst hj
    rw [List.getElem?_set_self (List.getElem?_eq_some_iff.1 hf).1, if_pos rfl]
  · rw [List.getElem?_set_ne (by omega), if_neg hj]

theorem setFr_same {h : Hnsw F} {id : Nat} {fr fr' : Friends} (hf : h.friends[id]? = some fr)
    (hl : fr'.levels.length = fr.levels.length) : Same h (setFr h id fr') := by
  refine ⟨rfl, rfl, rfl, rfl, rfl, by simp [setFr], fun level j => ?_⟩
  unfold OnLevel
  rw [setFr_get hf]
  by_cases hj : j = id
  · subst hj
    rw [if_pos rfl, hf]
    simp [hl]
  · rw [if_neg hj]

theorem setFr_core {h : Hnsw F} {id : Nat} {fr fr' : Friends} (hc : Core o h) (hf : h.friends[id]? = some fr)
    (hl : fr'.levels.length = fr.levels.length) (hok : FrOk (distTo o h (pointOf h id)) fr')
    (hcl : ∀ (k : Nat) (l' : DistHeap) (i : Nat), fr'.levels[k]? = some l' → i ∈ ids l' → OnLevel h k i) :
    Core o (setFr h id fr') := by
  have hs := setFr_same (fr' := fr') hf hl
  refine ⟨⟨by rw [hs.points, hs.len]; exact hc.pts.len, fun p hp => hc.pts.dim p hp⟩, fun j g hg => ?_, fun level a b hab => ?_⟩
  · rw [distTo_same hs, pointOf_same hs]
    rw [setFr_get hf] at hg
    by_cases hj : j = id
    · rw [if_pos hj] at hg; cases hg; subst hj; exact hok
    · rw [if_neg hj] at hg; exact hc.ok j g hg
  · rw [hs.on]
    obtain ⟨g, l, hg, hl', hb⟩ := hab
    rw [setFr_get hf] at hg
    by_cases hj : a = id
    · rw [if_pos hj] at hg; cases hg; exact hcl level l b hl' hb
    · rw [if_neg hj] at hg; exact hc.closed level a b ⟨g, l, hg, hl', hb⟩

/-- The number of friends of `id` on the level. -/
def Degree (h : Hnsw F) (level id n : Nat) : Prop := ∃ fr l, h.friends[id]? = some fr ∧ fr.levels[level]? = some l ∧ l.len = n

theorem Degree.unique {h : Hnsw F} {level id n m : Nat} (h1 : Degree h level id n) (h2 : Degree h level id m) : n = m := by
  obtain ⟨fr, l, a, b, c⟩ := h1
  obtain ⟨fr', l', a', b', c'⟩ := h2
  rw [a] at a'; cases a'
  rw [b] at b'; cases b'
  rw [← c, ← c']

/-- Linking `id` and `qId`. -/
structure Linked (qId level id : Nat) (h h' : Hnsw F) : Prop where
  same : Same h h'
  iff : ∀ k a b, FriendOf h' k a b ↔ FriendOf h k a b ∨ (k ≤ level ∧ ((a = id ∧ b = qId) ∨ (a = qId ∧ b = id)))
  deg : ∀ k a n, Degree h' k a n → ∃ m, Degree h k a m ∧ n ≤ m + (if a = id then 1 else 0) + (if a = qId then 1 else 0)

theorem added_friend {h : Hnsw F} {level x y : Nat} {fr fr' : Friends} (hf : h.friends[x]? = some fr) (ha : Added level y fr fr')
    (hl : level < fr.levels.length) (k a b : Nat) :
    FriendOf (setFr h x fr') k a b ↔ FriendOf h k a b ∨ (k ≤ level ∧ a = x ∧ b = y) := by
  unfold FriendOf
  rw [setFr_get hf]
  by_cases hax : a = x
  · subst hax
    rw [if_pos rfl]
    constructor
    · rintro ⟨_, l', h1, h2, h3⟩
      cases h1
      obtain ⟨l, q1, q2, _⟩ := ha.at_ k l' h2
      rcases (q2 b).1 h3 with ⟨h, h'⟩ | h
      · exact .inr ⟨h', rfl, h⟩
      · exact .inl ⟨fr, l, hf, q1, h⟩
    · intro hh
      have hk : k < fr'.levels.length := by
        rw [ha.len]
        rcases hh with ⟨fr1, l, h1, h2, _⟩ | ⟨h, _⟩
        · rw [hf] at h1; cases h1
          exact (List.getElem?_eq_some_iff.1 h2).1
        · omega
      obtain ⟨l, q1, q2, _⟩ := ha.at_ k _ (List.getElem?_eq_getElem hk)
      refine ⟨fr', _, rfl, List.getElem?_eq_getElem hk, (q2 b).2 ?_⟩
      rcases hh with ⟨fr1, l1, h1, h2, h3⟩ | ⟨h, _, h'⟩
      · rw [hf] at h1; cases h1
        rw [q1] at h2; cases h2
        exact .inr h3
      · exact .inl ⟨h', h⟩
  · rw [if_neg hax]
    constructor
    · exact .inl
    · rintro (h | ⟨_, h, _⟩)
      · exact h
      · exact absurd h hax

theorem added_degree {h : Hnsw F} {level x y : Nat} {fr fr' : Friends} (hf : h.friends[x]? = some fr) (ha : Added level y fr fr')
    (k a n : Nat) (hd : Degree (setFr h x fr') k a n) : ∃ m, Degree h k a m ∧ n ≤ m + (if a = x then 1 else 0) := by
  obtain ⟨g, l', h1, h2, h3⟩ := hd
  rw [setFr_get hf] at h1
  by_cases hax : a = x
  · rw [if_pos hax] at h1
    cases h1
    obtain ⟨l, q1, _, q3⟩ := ha.at_ k l' h2
    exact ⟨l.len, ⟨fr, l, by rw [hax]; exact hf, q1, rfl⟩, by rw [if_pos hax]; omega⟩
  · rw [if_neg hax] at h1
    exact ⟨n, ⟨g, l', h1, h2, h3⟩, by omega⟩

theorem link_ok {h : Hnsw F} {q : List F} {qId level id : Nat} (hs : SquareSym o) (hc : Core o h) (hq : h.points[qId]? = some q)
    (hon : OnLevel h level id) (hqon : OnLevel h level qId) :
    ∃ h', Hnsw.link o q qId level id h = .ok h' ∧ Core o h' ∧ Linked qId level id h h' := by
  have hqd : q.length = h.dim := hc.pts.dim q (List.mem_of_getElem? hq)
  obtain ⟨p, hp, hpl, he⟩ := point_dist (o := o) hc.pts hqd hon.lt
  have hpq : pointOf h qId = q := by unfold pointOf; rw [hq]; rfl
  have hpi : pointOf h id = p := by unfold pointOf; rw [hp]; rfl
  have hd1 : distTo o h q id = distTo o h (pointOf h id) qId := by
    unfold distTo
    rw [hp, hq, hpi]
    exact metric_comm hs p q
  unfold Hnsw.link
  rw [hp]
  simp only
  rw [he]
  simp only [Res.bind]
  obtain ⟨fr, hf, hlv⟩ := hon
  obtain ⟨fr1, e1, ok1, a1⟩ := insertAt_ok (hc.ok id fr hf) (level := level) (id := qId) hlv
  unfold Hnsw.modFriend
  rw [hf]
  simp only
  rw [hd1, e1]
  simp only [Res.bind]
  have hs1 := setFr_same (h := h) (fr' := fr1) hf a1.len
  have hc1 : Core o (setFr h id fr1) := by
    refine setFr_core hc hf a1.len ok1 fun k l' i hk hi => ?_
    obtain ⟨l, q1, q2, _⟩ := a1.at_ k l' hk
    rcases (q2 i).1 hi with ⟨rfl, hkl⟩ | h'
    · obtain ⟨g, hg, hg2⟩ := hqon
      exact ⟨g, hg, by omega⟩
    · exact hc.closed k id i ⟨fr, l, hf, q1, h'⟩
  have hqon1 : OnLevel (setFr h id fr1) level qId := (hs1.on _ _).2 hqon
  obtain ⟨fr2, hf2, hlv2⟩ := hqon1
  have ok2 := hc1.ok qId fr2 hf2
  obtain ⟨fr3, e3, ok3, a3⟩ := insertAt_ok ok2 (level := level) (id := id) hlv2
  have hd2 : distTo o (setFr h id fr1) (pointOf (setFr h id fr1) qId) id = distTo o h q id := by
    rw [distTo_same hs1, pointOf_same hs1, hpq]
  rw [hd2, hd1] at e3
  show ∃ h', (match (setFr h id fr1).friends[qId]? with
      | none => Res.panic
      | some fr => (Friends.insertAt level id (distTo o h (pointOf h id) qId) fr).bind fun fr' =>
          Res.ok (setFr (setFr h id fr1) qId fr')) = .ok h' ∧ _
  rw [hf2]
  simp only
  rw [e3]
  have hs3 := setFr_same (h := setFr h id fr1) (fr' := fr3) hf2 a3.len
  refine ⟨_, rfl, ?_, hs1.trans hs3, fun k a b => ?_, fun k a n hd => ?_⟩
  · refine setFr_core hc1 hf2 a3.len ok3 fun k l' i hk hi => ?_
    obtain ⟨l, q1, q2, _⟩ := a3.at_ k l' hk
    rcases (q2 i).1 hi with ⟨rfl, hkl⟩ | h'
    · exact (hs1.on _ _).2 ⟨fr, hf, by omega⟩
    · exact hc1.closed k qId i ⟨fr2, l, hf2, q1, h'⟩
  · rw [added_friend hf2 a3 hlv2, added_friend hf a1 hlv]
    grind
  · obtain ⟨m, d1, l1⟩ := added_degree hf2 a3 k a n hd
    obtain ⟨m', d2, l2⟩ := added_degree hf a1 k a m d1
    exact ⟨m', d2, by omega⟩

/-- Linking several points with `qId`. -/
theorem linkAll_ok {q : List F} {qId level : Nat} (hs : SquareSym o) : ∀ (xs : List HeapItem) (h : Hnsw F), Core o h →
    h.points[qId]? = some q → OnLevel h level qId → (∀ x ∈ xs, OnLevel h level x.id) →
    ∃ h', Hnsw.linkAll o q qId level xs h = .ok h' ∧ Core o h' ∧ Same h h' ∧
      (∀ k a b, FriendOf h' k a b ↔ FriendOf h k a b ∨
        (k ≤ level ∧ ((a ∈ xs.map (·.id) ∧ b = qId) ∨ (a = qId ∧ b ∈ xs.map (·.id))))) ∧
      (∀ k a n, Degree h' k a n → ∃ m, Degree h k a m ∧ n ≤ m + (xs.map (·.id)).count a + (if a = qId then xs.length else 0)) := by
  intro xs
  induction xs with
  | nil => intro h hc _ _ _; exact ⟨h, rfl, hc, .refl _, fun k a b => by simp, fun k a n hd => ⟨n, hd, by omega⟩⟩
  | cons x xs ih =>
    intro h hc hq hqon hx
    obtain ⟨h1, e1, c1, l1⟩ := link_ok hs hc hq (hx x (by simp)) hqon
    obtain ⟨h2, e2, c2, s2, f2, d2⟩ := ih h1 c1 (by rw [l1.same.points]; exact hq) ((l1.same.on _ _).2 hqon)
      (fun y hy => (l1.same.on _ _).2 (hx y (by simp [hy])))
    unfold Hnsw.linkAll
    rw [e1]
    refine ⟨h2, e2, c2, l1.same.trans s2, fun k a b => ?_, fun k a n hd => ?_⟩
    · rw [f2, l1.iff]
      simp only [List.map_cons, List.mem_cons]
      grind
    · obtain ⟨m, hm, hle⟩ := d2 k a n hd
      obtain ⟨m', hm', hle'⟩ := l1.deg k a m hm
      refine ⟨m', hm', ?_⟩
      rw [List.map_cons, List.count_cons, List.length_cons]
      have e1 : (if (x.id == a) = true then 1 else 0) = (if a = x.id then 1 else 0) := by
        by_cases h1 : a = x.id
        · simp [h1]
        · have : ¬ x.id = a := fun h => h1 h.symm
          simp [h1, this]
      rw [e1]
      by_cases h2 : a = qId
      · simp only [if_pos h2] at hle hle' ⊢; omega
      · simp only [if_neg h2] at hle hle' ⊢; omega

/-- Pruning the lists of several points. -/
theorem pruneAll_ok {level : Nat} : ∀ (xs : List HeapItem) (h : Hnsw F), Core o h → (∀ x ∈ xs, OnLevel h level x.id) →
    ∃ h', Hnsw.pruneAll level xs h = .ok h' ∧ Core o h' ∧ Same h h' ∧ (∀ k a b, FriendOf h' k a b → FriendOf h k a b) ∧
      ((∀ a n, Degree h level a n → n ≤ h.M) → ∀ k a b, FriendOf h k a b → FriendOf h' k a b) ∧
      (∀ k a n, Degree h' k a n → ∃ m, Degree h k a m ∧ n ≤ m ∧ (k = level → a ∈ xs.map (·.id) → n ≤ h.M)) := by
  intro xs
  induction xs with
  | nil =>
    intro h hc _
    exact ⟨h, rfl, hc, .refl _, fun _ _ _ h => h, fun _ _ _ _ h => h, fun k a n hd => ⟨n, hd, Nat.le_refl _, by simp⟩⟩
  | cons x xs ih =>
    intro h hc hx
    obtain ⟨fr, hf, hlv⟩ := hx x (by simp)
    obtain ⟨fr1, e1, ok1, p1⟩ := pruneFriend_ok (hc.ok x.id fr hf) (M := h.M) hlv
    have hs1 := setFr_same (h := h) (fr' := fr1) hf p1.len
    have hc1 : Core o (setFr h x.id fr1) := by
      refine setFr_core hc hf p1.len ok1 fun k l' i hk hi => ?_
      obtain ⟨l, q1, q2, _⟩ := p1.at_ k l' hk
      exact hc.closed k x.id i ⟨fr, l, hf, q1, q2 i hi⟩
    obtain ⟨h2, e2, c2, s2, f2, g2, d2⟩ := ih (setFr h x.id fr1) hc1 (fun y hy => (hs1.on _ _).2 (hx y (by simp [hy])))
    unfold Hnsw.pruneAll Hnsw.modFriend
    rw [hf]
    simp only
    rw [e1]
    have hstep : ∀ k a n, Degree (setFr h x.id fr1) k a n → ∃ m, Degree h k a m ∧ n ≤ m ∧ (k = level → a = x.id → n ≤ h.M) := by
      rintro k a n ⟨g, l', h1, h2, h3⟩
      rw [setFr_get hf] at h1
      by_cases hax : a = x.id
      · rw [if_pos hax] at h1
        cases h1
        obtain ⟨l, q1, q2, q3, q4⟩ := p1.at_ k l' h2
        refine ⟨l.len, ⟨fr, l, by rw [hax]; exact hf, q1, rfl⟩, ?_, fun hk _ => ?_⟩
        · by_cases hk : k = level
          · have := (q4 hk).1; omega
          · rw [q3 hk] at h3; omega
        · have := (q4 hk).1; omega
      · rw [if_neg hax] at h1
        exact ⟨n, ⟨g, l', h1, h2, h3⟩, Nat.le_refl _, fun _ h => absurd h hax⟩
    refine ⟨h2, e2, c2, hs1.trans s2, fun k a b hab => ?_, fun hM k a b hab => ?_, fun k a n hd => ?_⟩
    · obtain ⟨g, l', h1, h2, h3⟩ := f2 k a b hab
      rw [setFr_get hf] at h1
      by_cases hax : a = x.id
      · rw [if_pos hax] at h1
        cases h1
        obtain ⟨l, q1, q2, _⟩ := p1.at_ k l' h2
        exact ⟨fr, l, by rw [hax]; exact hf, q1, q2 b h3⟩
      · rw [if_neg hax] at h1
        exact ⟨g, l', h1, h2, h3⟩
    · refine g2 (fun a n hd => ?_) k a b ?_
      · obtain ⟨m, hm, hle, _⟩ := hstep level a n hd
        have := hM a m hm
        show n ≤ h.M
        omega
      · obtain ⟨g, l, h1, h2, h3⟩ := hab
        unfold FriendOf
        rw [setFr_get hf]
        by_cases hax : a = x.id
        · rw [if_pos hax]
          rw [hax, hf] at h1
          cases h1
          have hk : k < fr1.levels.length := by rw [p1.len]; exact (List.getElem?_eq_some_iff.1 h2).1
          obtain ⟨l1, q1, q2, q3, q4⟩ := p1.at_ k _ (List.getElem?_eq_getElem hk)
          refine ⟨fr1, _, rfl, List.getElem?_eq_getElem hk, ?_⟩
          rw [h2] at q1
          cases q1
          by_cases hkl : k = level
          · rw [(q4 hkl).2 (hM x.id l.len ⟨fr, l, hf, by rw [← hkl]; exact h2, rfl⟩)]; exact h3
          · rw [q3 hkl]; exact h3
        · rw [if_neg hax]
          exact ⟨g, l, h1, h2, h3⟩
    · obtain ⟨m, hm, hle, hM⟩ := d2 k a n hd
      obtain ⟨m', hm', hle', hM'⟩ := hstep k a m hm
      refine ⟨m', hm', by omega, fun hk ha => ?_⟩
      rw [List.map_cons, List.mem_cons] at ha
      rcases ha with ha | ha
      · have := hM' hk ha; omega
      · exact hM hk ha

/-! ### Selecting neighbours -/

theorem popN_sound {D : Nat → Int} : ∀ (n : Nat) (nn : DistHeap), Sound D nn → n ≤ nn.len →
    ∃ xs r, Hnsw.popN n nn = .ok (xs, r) ∧ Sound D r ∧ xs.length = n ∧ r.len = nn.len - n ∧ (xs ++ r.items).Perm nn.items := by
  intro n
  induction n with
  | zero => intro nn hs _; exact ⟨[], nn, rfl, hs, rfl, by omega, by simp⟩
  | succ n ih =>
    intro nn hs hn
    obtain ⟨x, nn', e, _, s', q, _⟩ := popMin_sound hs (len_pos.1 (by omega))
    have hl : nn'.len + 1 = nn.len := q.length_eq
    obtain ⟨xs, r, e2, s2, l2, l3, p2⟩ := ih nn' s' (by omega)
    unfold Hnsw.popN
    rw [e]
    simp only [Res.bind]
    rw [e2]
    refine ⟨x :: xs, r, rfl, s2, by simp [l2], by omega, ?_⟩
    exact (p2.cons x).trans q

theorem select_sound {D : Nat → Int} {M : Nat} {nn : DistHeap} (hs : Sound D nn) (hne : nn.items ≠ []) :
    ∃ xs r, Hnsw.select M nn = .ok (xs, r) ∧ Sound D r ∧ r.items ≠ [] ∧ xs.length ≤ M ∧ (∀ x ∈ xs, x ∈ nn.items) ∧
      (∀ x ∈ r.items, x ∈ nn.items) ∧ (xs.map (·.id)).Nodup ∧ (nn.len ≤ M → xs = nn.items) := by
  unfold Hnsw.select
  by_cases hl : nn.len ≤ M
  · rw [if_pos hl]
    exact ⟨_, _, rfl, hs, hne, hl, fun _ h => h, fun _ h => h, hs.nodup, fun _ => rfl⟩
  · rw [if_neg hl]
    obtain ⟨xs, r, e, s, l1, l2, p⟩ := popN_sound M nn hs (by omega)
    refine ⟨xs, r, e, s, len_pos.1 (by omega), by omega, fun x hx => p.mem_iff.1 (by simp [hx]),
      fun x hx => p.mem_iff.1 (by simp [hx]), ?_, fun h => absurd h hl⟩
    have := (p.map (fun x : HeapItem => x.id)).nodup_iff.2 hs.nodup
    rw [List.map_append] at this
    exact (List.nodup_append.1 this).1

end Appendable
