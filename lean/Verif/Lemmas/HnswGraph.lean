import Verif.Lemmas.HnswConnect
/-! The invariant of the proximity graph. -/
namespace Appendable
open Spec DistHeap

variable {F : Type} {o : FloatOps F}

theorem Sound.congr {D D' : Nat → Int} {l : DistHeap} (hs : Sound D l) (h : ∀ i ∈ ids l, D' i = D i) : Sound D' l :=
  ⟨hs.run, fun x hx => by rw [h _ (List.mem_map.2 ⟨x, hx, rfl⟩)]; exact hs.dist x hx⟩

theorem FrOk.congr {D D' : Nat → Int} {fr : Friends} (hs : FrOk D fr) (h : ∀ l ∈ fr.levels, ∀ i ∈ ids l, D' i = D i) : FrOk D' fr :=
  ⟨hs.ne, fun l hl => (hs.sound l hl).congr (h l hl), hs.max⟩

theorem reg_old {h : Hnsw F} {q : List F} {L j : Nat} (hj : j < h.friends.length) : (h.register q L).friends[j]? = h.friends[j]? := by
  unfold Hnsw.register; simp only; rw [List.getElem?_append_left hj]

theorem reg_new {h : Hnsw F} {q : List F} {L : Nat} : (h.register q L).friends[h.friends.length]? = some (Friends.new L) := by
  unfold Hnsw.register; simp

theorem reg_cases {h : Hnsw F} {q : List F} {L j : Nat} {fr : Friends} (hf : (h.register q L).friends[j]? = some fr) :
    (j < h.friends.length ∧ h.friends[j]? = some fr) ∨ (j = h.friends.length ∧ fr = Friends.new L) := by
  have hlt := (List.getElem?_eq_some_iff.1 hf).1
  have : (h.register q L).friends.length = h.friends.length + 1 := by simp [Hnsw.register]
  by_cases hj : j < h.friends.length
  · rw [reg_old hj] at hf; exact .inl ⟨hj, hf⟩
  · have : j = h.friends.length := by omega
    subst this
    rw [reg_new] at hf
    cases hf
    exact .inr ⟨rfl, rfl⟩

theorem new_level {L k : Nat} {l : DistHeap} (h : (Friends.new L).levels[k]? = some l) : l = DistHeap.new ∧ k ≤ L := by
  unfold Friends.new at h
  rw [List.getElem?_replicate] at h
  split at h
  · cases h; exact ⟨rfl, by omega⟩
  · simp at h

theorem reg_friend {h : Hnsw F} {q : List F} {L k a b : Nat} : FriendOf (h.register q L) k a b ↔ FriendOf h k a b := by
  constructor
  · rintro ⟨fr, l, hf, hl, hb⟩
    rcases reg_cases hf with ⟨_, hf⟩ | ⟨_, rfl⟩
    · exact ⟨fr, l, hf, hl, hb⟩
    · rw [(new_level hl).1] at hb; simp [ids, DistHeap.new] at hb
  · rintro ⟨fr, l, hf, hl, hb⟩
    exact ⟨fr, l, by rw [reg_old (List.getElem?_eq_some_iff.1 hf).1]; exact hf, hl, hb⟩

theorem reg_on {h : Hnsw F} {q : List F} {L k i : Nat} :
    OnLevel (h.register q L) k i ↔ OnLevel h k i ∨ (i = h.friends.length ∧ k ≤ L) := by
  constructor
  · rintro ⟨fr, hf, hl⟩
    rcases reg_cases hf with ⟨_, hf⟩ | ⟨hi, rfl⟩
    · exact .inl ⟨fr, hf, hl⟩
    · exact .inr ⟨hi, by simp [Friends.new] at hl; omega⟩
  · rintro (⟨fr, hf, hl⟩ | ⟨rfl, hl⟩)
    · exact ⟨fr, by rw [reg_old (List.getElem?_eq_some_iff.1 hf).1]; exact hf, hl⟩
    · exact ⟨_, reg_new, by simp [Friends.new]; omega⟩

theorem reg_point {h : Hnsw F} (hp : PointsOK h) {q : List F} {L i : Nat} (hi : i < h.friends.length) :
    (h.register q L).points[i]? = h.points[i]? := by
  unfold Hnsw.register; simp only; rw [List.getElem?_append_left (by rw [hp.len]; exact hi)]

theorem reg_core {h : Hnsw F} (hc : Core o h) {q : List F} (hq : q.length = h.dim) (L : Nat) : Core o (h.register q L) := by
  refine ⟨⟨by simp [Hnsw.register, hc.pts.len], fun p hp => ?_⟩, fun id fr hf => ?_, fun level a b hf => ?_⟩
  · simp only [Hnsw.register, List.mem_append, List.mem_singleton] at hp ⊢
    rcases hp with hp | rfl
    · exact hc.pts.dim p hp
    · exact hq
  · rcases reg_cases hf with ⟨hid, hf'⟩ | ⟨_, rfl⟩
    · refine (hc.ok id fr hf').congr fun l hl i hi => ?_
      obtain ⟨k, hk, hkl⟩ := List.getElem_of_mem hl
      have hlt : i < h.friends.length := (hc.closed k id i ⟨fr, l, hf', by rw [List.getElem?_eq_getElem hk, hkl], hi⟩).lt
      unfold distTo pointOf
      rw [reg_point hc.pts hid, reg_point hc.pts hlt]
    · exact frOk_new _ L
  · rw [reg_friend] at hf
    exact reg_on.2 (.inl (hc.closed level a b hf))

structure GraphInv (o : FloatOps F) (h : Hnsw F) (ps : List (List F × Int)) : Prop where
  core : Core o h
  dim : h.dim ≠ 0
  points : h.points = ps.map (·.1)
  level : ∀ (i : Nat) (p : List F × Int), ps[i]? = some p → ∃ fr, h.friends[i]? = some fr ∧ (fr.levels.length : Int) = p.2 + 1
  top : ∃ fr, h.friends[h.entry]? = some fr ∧ ∀ g ∈ h.friends, g.levels.length ≤ fr.levels.length
  full : ps.length ≤ h.M → ps.length ≤ h.ef → ∀ k a b, AllFriends h k a b
  flat : (∀ p ∈ ps, p.2 = 0) → (∀ a, ¬ FriendOf h 0 a a) ∧ ∀ a n, Degree h 0 a n → n ≤ h.M

theorem GraphInv.count {h : Hnsw F} {ps : List (List F × Int)} (hi : GraphInv o h ps) : h.friends.length = ps.length := by
  rw [← hi.core.pts.len, hi.points, List.length_map]

theorem new_inv {d ef M : Nat} {p : List F} {h : Hnsw F} (e : Hnsw.new d ef M p = .ok h) :
    GraphInv o h [(p, 0)] ∧ h.dim = d ∧ h.ef = ef ∧ h.M = M := by
  unfold Hnsw.new at e
  split at e
  · cases e
  · rename_i hd
    have h1 : d ≠ 0 := fun h => hd (.inl h)
    have h2 : p.length = d := Decidable.not_not.1 fun h => hd (.inr h)
    cases e
    have hget : ∀ (i : Nat) (fr : Friends), [Friends.new 0][i]? = some fr → i = 0 ∧ fr = Friends.new 0 := by
      intro i fr hf
      cases i with
      | zero => simp at hf; exact ⟨rfl, hf.symm⟩
      | succ i => simp at hf
    have hnof : ∀ k a b, ¬ FriendOf (⟨d, 0, [p], [Friends.new 0], ef, M⟩ : Hnsw F) k a b := by
      rintro k a b ⟨fr, l, hf, hl, hb⟩
      rw [(hget a fr hf).2] at hl
      rw [(new_level hl).1] at hb
      simp [ids, DistHeap.new] at hb
    refine ⟨⟨⟨⟨rfl, by simpa using h2⟩, fun id fr hf => ?_, fun k a b hf => absurd hf (hnof k a b)⟩, h1, rfl, fun i p' hp => ?_, ?_,
      fun _ _ k a b hab hoa hob => ?_, fun _ => ⟨fun a => hnof 0 a a, ?_⟩⟩, rfl, rfl, rfl⟩
    · rw [(hget id fr hf).2]; exact frOk_new _ 0
    · cases i with
      | zero => simp at hp; subst hp; exact ⟨_, rfl, by simp [Friends.new]⟩
      | succ i => simp at hp
    · exact ⟨_, rfl, fun g hg => by simp at hg; subst hg; exact Nat.le_refl _⟩
    · obtain ⟨f1, g1, _⟩ := hoa
      obtain ⟨f2, g2, _⟩ := hob
      exact absurd ((hget a f1 g1).1.trans (hget b f2 g2).1.symm) hab
    · rintro a n ⟨fr, l, hf, hl, rfl⟩
      rw [(hget a fr hf).2] at hl
      rw [(new_level hl).1]
      exact Nat.zero_le _

theorem levels_pos {h : Hnsw F} (hc : Core o h) {i : Nat} {fr : Friends} (hf : h.friends[i]? = some fr) : 0 < fr.levels.length :=
  List.length_pos_iff.2 (hc.ok i fr hf).ne

theorem insert_inv {h : Hnsw F} {ps : List (List F × Int)} (hs : SquareSym o) (hi : GraphInv o h ps) {q : List F} {level : Int}
    (hq : q.length = h.dim) (hl : 0 ≤ level) :
    ∃ h', Hnsw.insertVector o q level h = (.ok ps.length, h') ∧ GraphInv o h' (ps ++ [(q, level)]) ∧
      h'.dim = h.dim ∧ h'.ef = h.ef ∧ h'.M = h.M := by
  obtain ⟨L, rfl⟩ := Int.eq_ofNat_of_zero_le hl
  obtain ⟨fr, hf, htop⟩ := hi.top
  have hN : h.friends.length = ps.length := hi.count
  have hc1 := reg_core hi.core hq L
  have hplen : h.points.length = ps.length := by rw [hi.points, List.length_map]
  have hqp : (h.register q L).points[ps.length]? = some q := by
    unfold Hnsw.register; simp only; rw [← hplen]; simp
  have hflt := (List.getElem?_eq_some_iff.1 hf).1
  have hpos := levels_pos hi.core hf
  have hfr1 : (h.register q L).friends[h.entry]? = some fr := by rw [reg_old hflt]; exact hf
  have hdim1 : (h.register q L).dim = h.dim := rfl
  have hent : ∃ p, (h.register q L).points[h.entry]? = some p ∧ euclid o p q = .ok (distTo o (h.register q L) q h.entry) := by
    obtain ⟨p, h1, _, h2⟩ := point_dist (o := o) hc1.pts (q := q) hq (id := h.entry) (by simp [Hnsw.register]; omega)
    exact ⟨p, h1, h2⟩
  obtain ⟨p, hp, he⟩ := hent
  have hentOn : OnLevel (h.register q L) fr.topLevel h.entry := ⟨fr, hfr1, by unfold Friends.topLevel; omega⟩
  obtain ⟨ep, e1, on1, d1, ne1⟩ := closerLoop_ok (o := o) (stop := L + 1) hc1 (q := q) hq fr.topLevel
    ⟨h.entry, distTo o (h.register q L) q h.entry⟩ (fun i => i ≠ ps.length)
    (fun k i j _ hf => by
      rw [reg_friend] at hf
      have := (hi.core.closed k i j hf).lt
      omega) (by simp only; omega) hentOn rfl
  have hfc : (h.register q L).findCloser o q L = .ok ep := by
    unfold Hnsw.findCloser Hnsw.entryItem
    show ((match (h.register q L).friends[h.entry]?, (h.register q L).points[h.entry]? with
      | some fr, some p => (euclid o p q).bind fun d => Res.ok ((⟨h.entry, d⟩ : HeapItem), fr.topLevel)
      | _, _ => Res.panic).bind _) = _
    rw [hfr1, hp]
    simp only
    rw [he]
    exact e1
  have hqon : ∀ k < min fr.topLevel L + 1, OnLevel (h.register q L) k ps.length := fun k hk =>
    reg_on.2 (.inr ⟨hN.symm, by omega⟩)
  have hepon : ∀ k < min fr.topLevel L + 1, OnLevel (h.register q L) k ep.id := fun k hk => on1.mono (by omega)
  obtain ⟨h2, e2, c2, s2⟩ := connect_ok hs (min fr.topLevel L + 1) ep (h.register q L) hc1 hqp hqon hepon d1
  obtain ⟨h3, he3⟩ : ∃ h3, h3 = if L > fr.topLevel then { h2 with entry := ps.length } else h2 := ⟨_, rfl⟩
  have h3f : h3.friends = h2.friends := by rw [he3]; split <;> rfl
  have h3p : h3.points = h2.points := by rw [he3]; split <;> rfl
  have h3d : h3.dim = h2.dim := by rw [he3]; split <;> rfl
  have h3e : h3.ef = h2.ef := by rw [he3]; split <;> rfl
  have h3M : h3.M = h2.M := by rw [he3]; split <;> rfl
  have h3en : h3.entry = if L > fr.topLevel then ps.length else h2.entry := by rw [he3]; split <;> rfl
  have h3on : ∀ k i, OnLevel h3 k i ↔ OnLevel h2 k i := fun k i => by unfold OnLevel; rw [h3f]
  have h3fr : ∀ k a b, FriendOf h3 k a b ↔ FriendOf h2 k a b := fun k a b => by unfold FriendOf; rw [h3f]
  have h3dg : ∀ k a n, Degree h3 k a n ↔ Degree h2 k a n := fun k a b => by unfold Degree; rw [h3f]
  refine ⟨h3, ?_, ⟨⟨⟨?_, fun p hp => ?_⟩, fun i g hg => ?_, fun k a b hf => ?_⟩, ?_, ?_, ?_, ?_, ?_, ?_⟩, ?_, ?_, ?_⟩
  · unfold Hnsw.insertVector
    rw [if_neg (by simp [hq]), hf]
    unfold Hnsw.insertAtLevel
    simp only [Int.toNat_natCast]
    rw [if_neg (by omega), hplen]
    unfold Hnsw.wire
    rw [hfc]
    simp only [Res.bind]
    rw [e2]
    simp only [Hnsw.finish]
    rw [he3]
  · rw [h3p, h3f]; exact c2.pts.len
  · rw [h3p] at hp; rw [h3d]; exact c2.pts.dim p hp
  · rw [h3f] at hg
    have := c2.ok i g hg
    unfold distTo pointOf at *
    rw [h3p]; exact this
  · rw [h3on]; rw [h3fr] at hf; exact c2.closed k a b hf
  · rw [h3d, s2.dim]; exact hi.dim
  · rw [h3p, s2.points]
    simp [Hnsw.register, hi.points]
  · intro i p' hp'
    -- the number of levels is that given
    have hlev : ∃ g, (h.register q L).friends[i]? = some g ∧ (g.levels.length : Int) = p'.2 + 1 := by
      rw [List.getElem?_append] at hp'
      split at hp'
      · rename_i hlt
        obtain ⟨g, h1, h2⟩ := hi.level i p' hp'
        exact ⟨g, by rw [reg_old (by omega)]; exact h1, h2⟩
      · rename_i hlt
        have hilt := (List.getElem?_eq_some_iff.1 hp').1
        simp only [List.length_cons, List.length_nil] at hilt
        have hi0 : i = ps.length := by omega
        subst hi0
        simp only [Nat.sub_self, List.getElem?_cons_zero, Option.some.injEq] at hp'
        refine ⟨Friends.new L, by rw [← hN]; exact reg_new, ?_⟩
        rw [← hp']
        simp [Friends.new]
    obtain ⟨g, hg, hgl⟩ := hlev
    have hlt : i < h2.friends.length := by rw [s2.len]; exact (List.getElem?_eq_some_iff.1 hg).1
    refine ⟨h2.friends[i], by rw [h3f]; exact List.getElem?_eq_getElem hlt, ?_⟩
    have heq : ∀ k, k < h2.friends[i].levels.length ↔ k < g.levels.length := by
      intro k
      have := s2.on k i
      unfold OnLevel at this
      rw [List.getElem?_eq_getElem hlt, hg] at this
      simpa using this
    have h1 := heq h2.friends[i].levels.length
    have h2' := heq g.levels.length
    have : h2.friends[i].levels.length = g.levels.length := by omega
    rw [this]; exact hgl
  · -- the entry point has the most levels
    have hlv : ∀ (i : Nat) (g2 : Friends), h2.friends[i]? = some g2 → ∃ g : Friends, (h.register q L).friends[i]? = some g ∧ g2.levels.length = g.levels.length := by
      intro i g2 hg2
      have hlt : i < (h.register q L).friends.length := by rw [← s2.len]; exact (List.getElem?_eq_some_iff.1 hg2).1
      refine ⟨_, List.getElem?_eq_getElem hlt, ?_⟩
      have heq : ∀ k, k < g2.levels.length ↔ k < (h.register q L).friends[i].levels.length := by
        intro k
        have := s2.on k i
        unfold OnLevel at this
        rw [List.getElem?_eq_getElem hlt, hg2] at this
        simpa using this
      have h1 := heq g2.levels.length
      have h2' := heq (h.register q L).friends[i].levels.length
      omega
    have hbound : ∀ g ∈ h3.friends, g.levels.length ≤ max fr.levels.length (L + 1) := by
      intro g hg
      rw [h3f] at hg
      obtain ⟨i, hi', rfl⟩ := List.getElem_of_mem hg
      obtain ⟨g1, hg1, hgl⟩ := hlv i _ (List.getElem?_eq_getElem hi')
      rw [hgl]
      rcases reg_cases hg1 with ⟨_, h'⟩ | ⟨_, rfl⟩
      · have := htop g1 (List.mem_of_getElem? h'); omega
      · simp [Friends.new]; omega
    by_cases hgt : L > fr.topLevel
    · rw [if_pos hgt] at h3en
      have hlt : ps.length < h2.friends.length := by rw [s2.len]; simp [Hnsw.register]; omega
      obtain ⟨g1, hg1, hgl⟩ := hlv ps.length _ (List.getElem?_eq_getElem hlt)
      rw [← hN, reg_new] at hg1
      cases hg1
      refine ⟨_, by rw [h3en, h3f]; exact List.getElem?_eq_getElem hlt, fun g hg => ?_⟩
      have := hbound g hg
      rw [hgl]
      simp only [Friends.new, List.length_replicate]
      unfold Friends.topLevel at hgt
      omega
    · rw [if_neg hgt, s2.entry] at h3en
      have hlt : h.entry < h2.friends.length := by rw [s2.len]; simp [Hnsw.register]; omega
      obtain ⟨g1, hg1, hgl⟩ := hlv h.entry _ (List.getElem?_eq_getElem hlt)
      rw [hfr1] at hg1
      cases hg1
      refine ⟨_, by rw [h3en, h3f]; exact List.getElem?_eq_getElem hlt, fun g hg => ?_⟩
      have := hbound g hg
      rw [hgl]
      unfold Friends.topLevel at hgt
      omega
  · -- everybody knows everybody
    intro hM hef k a b hab hoa hob
    rw [h3M, s2.M] at hM
    rw [h3e, s2.ef] at hef
    simp only [List.length_append, List.length_cons, List.length_nil] at hM hef
    have hM' : ps.length + 1 ≤ h.M := hM
    have hef' : ps.length + 1 ≤ h.ef := hef
    have hold := hi.full (by omega) (by omega)
    obtain ⟨m1, m2⟩ := connect_all hs (min fr.topLevel L + 1) ep (h.register q L) h2 hc1 hqp hqon hepon d1
      (by show (h.friends ++ [_]).length ≤ h.M; simp; omega) (by show (h.friends ++ [_]).length ≤ h.ef; simp; omega) e2
      (fun k a b ha hb hab' hoa' hob' => by
        rw [reg_friend]
        rcases reg_on.1 hoa' with h1 | ⟨h1, _⟩
        · rcases reg_on.1 hob' with h2 | ⟨h2, _⟩
          · exact hold k a b hab' h1 h2
          · omega
        · omega) (fun h => absurd h ne1)
    rw [h3on] at hoa hob
    rw [h3fr]
    by_cases hk : k < min fr.topLevel L + 1
    · exact m2 k hk a b hab hoa hob
    · rw [s2.on, reg_on] at hoa hob
      have hnone : ∀ i, OnLevel h k i → k ≤ fr.topLevel := by
        rintro i ⟨g, hg, hgl⟩
        have := htop g (List.mem_of_getElem? hg)
        unfold Friends.topLevel; omega
      rcases hoa with h1 | ⟨h1, h1'⟩ <;> rcases hob with h2 | ⟨h2, h2'⟩
      · apply m1
        rw [reg_friend]
        exact hold k a b hab h1 h2
      · have := hnone a h1; omega
      · have := hnone b h2; omega
      · omega
  · -- a single level
    intro hz
    have hold := hi.flat fun p hp => hz p (by simp [hp])
    have hL : L = 0 := by
      have := hz (q, (L : Int)) (by simp)
      simp only at this
      omega
    subst hL
    have hmin : min fr.topLevel 0 + 1 = 1 := by omega
    rw [hmin] at e2
    obtain ⟨r1, r2⟩ := connect_flat hs hc1 hqp (hqon 0 (by omega)) (hepon 0 (by omega)) d1 ne1
      (fun a b hf => by
        rw [reg_friend] at hf
        have h1 := (hi.core.closed 0 a b hf).lt
        obtain ⟨g, _, hg, _⟩ := hf
        have h2 := (List.getElem?_eq_some_iff.1 hg).1
        omega)
      (fun a hf => hold.1 a (reg_friend.1 hf))
      (fun a n => by
        rintro ⟨g, l, hg, hl, rfl⟩
        rcases reg_cases hg with ⟨_, h'⟩ | ⟨_, rfl⟩
        · exact hold.2 a _ ⟨g, l, h', hl, rfl⟩
        · rw [(new_level hl).1]; exact Nat.zero_le _)
      (fun n => by
        rintro ⟨g, l, hg, hl, rfl⟩
        rw [← hN, reg_new] at hg
        cases hg
        rw [(new_level hl).1]; rfl) e2
    refine ⟨fun a hf => r1 a ((h3fr _ _ _).1 hf), fun a n hd => ?_⟩
    rw [h3M, s2.M]
    exact r2 a n ((h3dg _ _ _).1 hd)
  · rw [h3d, s2.dim]; rfl
  · rw [h3e, s2.ef]; rfl
  · rw [h3M, s2.M]; rfl

/-- An insertion that returns an id was a proper one. -/
theorem insert_ok_args {h h' : Hnsw F} {q : List F} {level : Int} {id : Nat} (e : Hnsw.insertVector o q level h = (.ok id, h')) :
    q.length = h.dim ∧ 0 ≤ level := by
  unfold Hnsw.insertVector at e
  split at e
  · simp at e
  · rename_i hq
    refine ⟨Decidable.not_not.1 hq, ?_⟩
    cases hf : h.friends[h.entry]? with
    | none => rw [hf] at e; simp [Hnsw.insertAtLevel] at e
    | some fr =>
      rw [hf] at e
      unfold Hnsw.insertAtLevel at e
      simp only at e
      split at e
      · simp at e
      · omega

theorem graph_inv (hs : SquareSym o) {h : Hnsw F} {ps : List (List F × Int)} (hr : HnswRun o h ps) : GraphInv o h ps := by
  induction hr with
  | new e => exact (new_inv e).1
  | insert _ e ih =>
    obtain ⟨hq, hl⟩ := insert_ok_args e
    obtain ⟨h', e', hi, _⟩ := insert_inv hs ih hq hl
    rw [e] at e'
    cases e'
    exact hi
  | @refused h h' ps q level er _ e ih =>
    by_cases hq : q.length = h.dim
    · by_cases hl : 0 ≤ level
      · obtain ⟨h', e', _⟩ := insert_inv hs ih hq hl
        rw [e] at e'; cases e'
      · obtain ⟨fr, hf, _⟩ := ih.top
        unfold Hnsw.insertVector Hnsw.insertAtLevel at e
        rw [if_neg (by simp [hq]), hf] at e
        simp only at e
        rw [if_pos (by omega)] at e
        cases e
    · unfold Hnsw.insertVector at e
      rw [if_pos hq] at e
      cases e
      exact ih

/-- Searching never fails. -/
theorem knn_ok {h : Hnsw F} {ps : List (List F × Int)} (hs : SquareSym o) (hi : GraphInv o h ps) {q : List F} (hq : q.length = h.dim) :
    ∃ nn, (∀ k : Int, h.knnSearch o q k = shrink k (nn.len + 1) nn) ∧ Sound (distTo o h q) nn ∧ nn.items ≠ [] ∧
      (∀ i ∈ ids nn, OnLevel h 0 i) ∧ (ps.length ≤ h.M → ps.length ≤ h.ef → ∀ i < ps.length, i ∈ ids nn) := by
  obtain ⟨fr, hf, htop⟩ := hi.top
  have hpos := levels_pos hi.core hf
  have hlt := (List.getElem?_eq_some_iff.1 hf).1
  obtain ⟨p, hp, hpl, _⟩ := point_dist (o := o) hi.core.pts hq hlt
  have he : euclid o q p = .ok (distTo o h q h.entry) := by
    rw [euclid_ok o (by omega), metric_comm hs]
    unfold distTo
    rw [hp]; rfl
  obtain ⟨x, e1, on1, d1, _⟩ := knnLoop_ok (o := o) hi.core hq fr.topLevel ⟨h.entry, distTo o h q h.entry⟩
    ⟨fr, hf, by unfold Friends.topLevel; omega⟩ rfl
  obtain ⟨nn, e2, out⟩ := searchLevel_ok (o := o) (num := h.ef) hi.core.pts hq (hi.core.region 0) on1 d1
  refine ⟨nn, fun k => ?_, out.sound, out.ne, out.on, fun hM hef i hil => ?_⟩
  · unfold Hnsw.knnSearch Hnsw.entryItem
    rw [hf, hp]
    simp only
    rw [he]
    simp only [Res.bind]
    rw [e1]
    simp only
    rw [e2]
  · obtain ⟨h1, h2⟩ := out.full (by rw [hi.count]; exact hef)
    by_cases hx : x.id = i
    · exact hx ▸ h1
    · have hlev : OnLevel h 0 i := by
        have hi' : i < h.friends.length := by rw [hi.count]; exact hil
        exact ⟨_, List.getElem?_eq_getElem hi', levels_pos hi.core (List.getElem?_eq_getElem hi')⟩
      exact h2 _ h1 i (hi.full hM hef 0 x.id i hx on1 hlev)

end Appendable
