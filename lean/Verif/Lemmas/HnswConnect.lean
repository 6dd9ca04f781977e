import Verif.Lemmas.HnswInsert
/-! The rounds of `InsertVector`, and the searches before it. -/
namespace Appendable
open Spec DistHeap

variable {F : Type} {o : FloatOps F}

theorem Core.region {h : Hnsw F} (hc : Core o h) (level : Nat) : Region h level (OnLevel h level) :=
  ⟨fun _ h => h, fun i j _ hf => hc.closed level i j hf⟩

theorem OnLevel.mono {h : Hnsw F} {k level id : Nat} (hl : OnLevel h level id) (hk : k ≤ level) : OnLevel h k id := by
  obtain ⟨fr, a, b⟩ := hl
  exact ⟨fr, a, by omega⟩

/-- No more friends than points. -/
theorem degree_le {h : Hnsw F} (hc : Core o h) {level id n : Nat} (hd : Degree h level id n) : n ≤ h.friends.length := by
  obtain ⟨fr, l, a, b, rfl⟩ := hd
  rw [← ids_length]
  refine nodup_bound ((hc.ok id fr a).sound l (List.mem_of_getElem? b)).nodup fun i hi => ?_
  exact (hc.closed level id i ⟨fr, l, a, b, hi⟩).lt

/-- The result of a search has no more items than there are points. -/
theorem out_le {h : Hnsw F} {q : List F} {num level : Nat} {P : Nat → Prop} {ep : HeapItem} {r : DistHeap} (hP : Region h level P)
    (ho : SearchOut o h q num level P ep r) : r.len ≤ h.friends.length := by
  rw [← ids_length]
  exact nodup_bound ho.sound.nodup fun i hi => (hP.on i (ho.on i hi)).lt

/-- What one round does. -/
structure Round (o : FloatOps F) (q : List F) (qId level : Nat) (P : Nat → Prop) (ep : HeapItem) (h : Hnsw F) (nn : DistHeap)
    (xs : List HeapItem) (x : HeapItem) (h2 : Hnsw F) : Prop where
  core : Core o h2
  same : Same h h2
  out : SearchOut o h q h.ef level P ep nn
  some_ : x ∈ nn.items
  few : xs.length ≤ h.M
  sub : ∀ y ∈ xs, y ∈ nn.items
  nodup : (xs.map (·.id)).Nodup
  all : nn.len ≤ h.M → xs = nn.items
  friend : ∀ k a b, FriendOf h2 k a b → FriendOf h k a b ∨
    (k ≤ level ∧ ((a ∈ xs.map (·.id) ∧ b = qId) ∨ (a = qId ∧ b ∈ xs.map (·.id))))
  keep : h.friends.length ≤ h.M → ∀ k a b, FriendOf h k a b ∨
    (k ≤ level ∧ ((a ∈ xs.map (·.id) ∧ b = qId) ∨ (a = qId ∧ b ∈ xs.map (·.id)))) → FriendOf h2 k a b
  deg : ∀ k a n, Degree h2 k a n → ∃ m, Degree h k a m ∧
    n ≤ m + (xs.map (·.id)).count a + (if a = qId then xs.length else 0) ∧ (k = level → a ∈ xs.map (·.id) → n ≤ h.M)

theorem round_ok {h : Hnsw F} {q : List F} {qId level : Nat} {P : Nat → Prop} {ep : HeapItem} (hs : SquareSym o) (hc : Core o h)
    (hq : h.points[qId]? = some q) (hqon : OnLevel h level qId) (hP : Region h level P) (hep : P ep.id)
    (hd : ep.dist = distTo o h q ep.id) :
    ∃ nn xs x h2, Hnsw.connect o q qId (level + 1) ep h = Hnsw.connect o q qId level x h2 ∧ Round o q qId level P ep h nn xs x h2 := by
  have hqd : q.length = h.dim := hc.pts.dim q (List.mem_of_getElem? hq)
  obtain ⟨nn, e1, out⟩ := searchLevel_ok (o := o) (num := h.ef) hc.pts hqd hP hep hd
  obtain ⟨xs, r, e2, sr, rne, few, sub, rsub, nd, all⟩ := select_sound (M := h.M) out.sound out.ne
  have hon : ∀ y ∈ xs, OnLevel h level y.id := fun y hy => hP.on _ (out.on _ (List.mem_map.2 ⟨y, sub y hy, rfl⟩))
  obtain ⟨h1, e3, c1, s1, f1, d1⟩ := linkAll_ok hs xs h hc hq hqon hon
  obtain ⟨h2, e4, c2, s2, f2, g2, d2⟩ := pruneAll_ok xs h1 c1 (fun y hy => (s1.on _ _).2 (hon y hy))
  obtain ⟨x, r', e5, _, _, pr, lx⟩ := popMin_sound sr rne
  refine ⟨nn, xs, x, h2, ?_, c2, s1.trans s2, out, rsub x lx.1, few, sub, nd, all, fun k a b hab => (f1 k a b).1 (f2 k a b hab),
    fun hM k a b hab => g2 (fun a n hdg => ?_) k a b ((f1 k a b).2 hab), fun k a n hdg => ?_⟩
  · rw [Hnsw.connect.eq_2, e1]
    simp only [Res.bind]
    rw [e2]
    simp only
    rw [e3]
    simp only
    rw [e4]
    simp only
    rw [e5]
  · have := degree_le c1 hdg
    rw [s1.len] at this
    rw [s1.M]
    omega
  · obtain ⟨m, hm, hle, hM⟩ := d2 k a n hdg
    obtain ⟨m', hm', hle'⟩ := d1 k a m hm
    rw [s1.M] at hM
    exact ⟨m', hm', by omega, hM⟩

theorem Round.dist {q : List F} {qId level : Nat} {P : Nat → Prop} {ep : HeapItem} {h : Hnsw F} {nn : DistHeap}
    {xs : List HeapItem} {x : HeapItem} {h2 : Hnsw F} (r : Round o q qId level P ep h nn xs x h2) : x.dist = distTo o h2 q x.id := by
  rw [distTo_same r.same]; exact r.out.sound.dist x r.some_

theorem Round.inP {q : List F} {qId level : Nat} {P : Nat → Prop} {ep : HeapItem} {h : Hnsw F} {nn : DistHeap}
    {xs : List HeapItem} {x : HeapItem} {h2 : Hnsw F} (r : Round o q qId level P ep h nn xs x h2) : P x.id :=
  r.out.on _ (List.mem_map.2 ⟨x, r.some_, rfl⟩)

/-- Connecting the new point never fails. -/
theorem connect_ok {q : List F} {qId : Nat} (hs : SquareSym o) : ∀ (n : Nat) (ep : HeapItem) (h : Hnsw F), Core o h →
    h.points[qId]? = some q → (∀ k < n, OnLevel h k qId) → (∀ k < n, OnLevel h k ep.id) → ep.dist = distTo o h q ep.id →
    ∃ h', Hnsw.connect o q qId n ep h = .ok h' ∧ Core o h' ∧ Same h h' := by
  intro n
  induction n with
  | zero => intro ep h hc _ _ _ _; exact ⟨h, rfl, hc, .refl _⟩
  | succ n ih =>
    intro ep h hc hq hqon hep hd
    obtain ⟨nn, xs, x, h2, e, r⟩ := round_ok hs hc hq (hqon n (by omega)) (hc.region n) (hep n (by omega)) hd
    obtain ⟨h', e', c', s'⟩ := ih x h2 r.core (by rw [r.same.points]; exact hq)
      (fun k hk => (r.same.on _ _).2 (hqon k (by omega))) (fun k hk => (r.same.on _ _).2 (r.inP.mono (by omega))) r.dist
    exact ⟨h', e.trans e', c', r.same.trans s'⟩

/-- Everybody on a level is a friend of everybody else on it. -/
def AllFriends (h : Hnsw F) (k a b : Nat) : Prop := a ≠ b → OnLevel h k a → OnLevel h k b → FriendOf h k a b

/-- With room for everybody, the new point is connected with everybody. -/
theorem connect_all {q : List F} {qId : Nat} (hs : SquareSym o) : ∀ (n : Nat) (ep : HeapItem) (h h' : Hnsw F), Core o h →
    h.points[qId]? = some q → (∀ k < n, OnLevel h k qId) → (∀ k < n, OnLevel h k ep.id) → ep.dist = distTo o h q ep.id →
    h.friends.length ≤ h.M → h.friends.length ≤ h.ef → Hnsw.connect o q qId n ep h = .ok h' →
    (∀ k a b, a ≠ qId → b ≠ qId → AllFriends h k a b) → (ep.id = qId → ∃ a, a ≠ qId ∧ ∀ k < n, FriendOf h k qId a) →
    (∀ k a b, FriendOf h k a b → FriendOf h' k a b) ∧ ∀ k < n, ∀ a b, AllFriends h' k a b := by
  intro n
  induction n with
  | zero =>
    intro ep h h' hc _ _ _ _ _ _ e _ _
    cases e
    exact ⟨fun _ _ _ h => h, fun k hk => by omega⟩
  | succ n ih =>
    intro ep h h' hc hq hqon hep hd hM hef e hall hepq
    obtain ⟨nn, xs, x, h2, e1, r⟩ := round_ok hs hc hq (hqon n (by omega)) (hc.region n) (hep n (by omega)) hd
    rw [e1] at e
    have hxs : xs = nn.items := r.all (Nat.le_trans (out_le (hc.region n) r.out) hM)
    obtain ⟨hin, hcl⟩ := r.out.full hef
    -- a point other than the new one was found
    have hother : ∃ a, a ≠ qId ∧ a ∈ ids nn := by
      by_cases hq1 : ep.id = qId
      · obtain ⟨a, ha, hf⟩ := hepq hq1
        exact ⟨a, ha, hcl _ hin a (hq1 ▸ hf n (by omega))⟩
      · exact ⟨_, hq1, hin⟩
    obtain ⟨a0, ha0, hina⟩ := hother
    -- everybody on the level was found
    have hfound : ∀ b, b ≠ qId → OnLevel h n b → b ∈ ids nn := by
      intro b hb hon
      by_cases hab : a0 = b
      · exact hab ▸ hina
      · exact hcl _ hina b (hall n a0 b ha0 hb hab ((hc.region n).on _ (r.out.on _ hina)) hon)
    have hidsx : xs.map (·.id) = ids nn := by rw [hxs]; rfl
    have keep := r.keep hM
    rw [hidsx] at keep
    have mono : ∀ k a b, FriendOf h k a b → FriendOf h2 k a b := fun k a b hf => keep k a b (.inl hf)
    obtain ⟨m1, m2⟩ := ih x h2 h' r.core (by rw [r.same.points]; exact hq) (fun k hk => (r.same.on _ _).2 (hqon k (by omega)))
      (fun k hk => (r.same.on _ _).2 (r.inP.mono (by omega))) r.dist (by rw [r.same.len, r.same.M]; exact hM)
      (by rw [r.same.len, r.same.ef]; exact hef) e
      (fun k a b ha hb hab hoa hob => mono k a b (hall k a b ha hb hab ((r.same.on _ _).1 hoa) ((r.same.on _ _).1 hob)))
      (fun _ => ⟨a0, ha0, fun k hk => keep k qId a0 (.inr ⟨by omega, .inr ⟨rfl, hina⟩⟩)⟩)
    refine ⟨fun k a b hf => m1 k a b (mono k a b hf), fun k hk a b => ?_⟩
    by_cases hkn : k < n
    · exact m2 k hkn a b
    · have hkn : k = n := by omega
      subst hkn
      intro hab hoa hob
      have hs2 : Same h h' := by
        obtain ⟨h3, e3, _, s3⟩ := connect_ok hs k x h2 r.core (by rw [r.same.points]; exact hq)
          (fun j hj => (r.same.on _ _).2 (hqon j (by omega))) (fun j hj => (r.same.on _ _).2 (r.inP.mono (by omega))) r.dist
        rw [e] at e3; cases e3
        exact r.same.trans s3
      rw [hs2.on] at hoa hob
      apply m1
      apply keep
      by_cases ha : a = qId
      · exact .inr ⟨Nat.le_refl _, .inr ⟨ha, hfound b (fun h => hab (ha.trans h.symm)) hob⟩⟩
      · by_cases hb : b = qId
        · exact .inr ⟨Nat.le_refl _, .inl ⟨hfound a ha hoa, hb⟩⟩
        · exact .inl (hall k a b ha hb hab hoa hob)

/-- On a single level: lists stay short, and nobody is its own friend. -/
theorem connect_flat {q : List F} {qId : Nat} {ep : HeapItem} {h h' : Hnsw F} (hs : SquareSym o) (hc : Core o h)
    (hq : h.points[qId]? = some q) (hqon : OnLevel h 0 qId) (hep : OnLevel h 0 ep.id) (hd : ep.dist = distTo o h q ep.id)
    (hne : ep.id ≠ qId) (hno : ∀ a b, FriendOf h 0 a b → a ≠ qId ∧ b ≠ qId) (hself : ∀ a, ¬ FriendOf h 0 a a)
    (hdeg : ∀ a n, Degree h 0 a n → n ≤ h.M) (hq0 : ∀ n, Degree h 0 qId n → n = 0)
    (e : Hnsw.connect o q qId 1 ep h = .ok h') :
    (∀ a, ¬ FriendOf h' 0 a a) ∧ ∀ a n, Degree h' 0 a n → n ≤ h.M := by
  have hP : Region h 0 (fun i => OnLevel h 0 i ∧ i ≠ qId) :=
    ⟨fun i h => h.1, fun i j _ hf => ⟨hc.closed 0 i j hf, (hno i j hf).2⟩⟩
  obtain ⟨nn, xs, x, h2, e1, r⟩ := round_ok hs hc hq hqon hP ⟨hep, hne⟩ hd
  rw [e1] at e
  cases e
  have hxs : ∀ y ∈ xs, y.id ≠ qId := fun y hy => (r.out.on _ (List.mem_map.2 ⟨y, r.sub y hy, rfl⟩)).2
  have hxq : qId ∉ xs.map (·.id) := fun hm => by
    obtain ⟨y, hy, h⟩ := List.mem_map.1 hm
    exact hxs y hy h
  refine ⟨fun a hf => ?_, fun a n hdn => ?_⟩
  · rcases r.friend 0 a a hf with hf | ⟨_, ⟨h1, h2⟩ | ⟨h1, h2⟩⟩
    · exact hself a hf
    · rw [h2] at h1; exact hxq h1
    · rw [h1] at h2; exact hxq h2
  · obtain ⟨m, hm, hle, hM⟩ := r.deg 0 a n hdn
    by_cases hin : a ∈ xs.map (·.id)
    · exact hM rfl hin
    · rw [List.count_eq_zero.2 hin] at hle
      have := hdeg a m hm
      have := r.few
      by_cases haq : a = qId
      · rw [if_pos haq] at hle
        rw [haq] at hm
        have := hq0 m hm
        omega
      · rw [if_neg haq] at hle; omega

/-! ### Coming from the entry point -/

theorem closerLoop_ok {h : Hnsw F} {q : List F} {stop : Nat} (hc : Core o h) (hqd : q.length = h.dim) : ∀ (level : Nat) (ep : HeapItem)
    (Q : Nat → Prop), (∀ k i j, Q i → FriendOf h k i j → Q j) → Q ep.id →
    OnLevel h level ep.id → ep.dist = distTo o h q ep.id →
    ∃ x, h.closerLoop o q stop level ep = .ok x ∧ OnLevel h (min level stop) x.id ∧ x.dist = distTo o h q x.id ∧ Q x.id := by
  intro level
  induction level with
  | zero => intro ep Q _ hQ hon hd; exact ⟨ep, rfl, hon.mono (by omega), hd, hQ⟩
  | succ level ih =>
    intro ep Q hcl hQ hon hd
    unfold Hnsw.closerLoop
    by_cases hl : level + 1 > stop
    · rw [if_pos hl]
      have hP : Region h (level + 1) (fun i => OnLevel h (level + 1) i ∧ Q i) :=
        ⟨fun i h => h.1, fun i j hi hf => ⟨hc.closed _ i j hf, hcl _ i j hi.2 hf⟩⟩
      obtain ⟨nn, e1, out⟩ := searchLevel_ok (o := o) (num := 1) hc.pts hqd hP ⟨hon, hQ⟩ hd
      obtain ⟨x, nn', e2, _, _, _, lx⟩ := popMin_sound out.sound out.ne
      rw [e1]
      simp only [Hnsw.orPanic, Res.bind]
      rw [if_neg (by have := len_pos.2 out.ne; omega), e2]
      simp only
      have hx := out.on x.id (List.mem_map.2 ⟨x, lx.1, rfl⟩)
      obtain ⟨y, e3, h1, h2, h3⟩ := ih x Q hcl hx.2 (hx.1.mono (by omega)) (out.sound.dist x lx.1)
      refine ⟨y, e3, ?_, h2, h3⟩
      rw [show min (level + 1) stop = min level stop by omega]
      exact h1
    · rw [if_neg hl]
      exact ⟨ep, rfl, hon.mono (by omega), hd, hQ⟩

theorem knnLoop_ok {h : Hnsw F} {q : List F} (hc : Core o h) (hqd : q.length = h.dim) : ∀ (level : Nat) (ep : HeapItem),
    OnLevel h level ep.id → ep.dist = distTo o h q ep.id →
    ∃ x, h.knnLoop o q level ep = .ok x ∧ OnLevel h 0 x.id ∧ x.dist = distTo o h q x.id ∧ x.dist ≤ ep.dist := by
  intro level
  induction level with
  | zero => intro ep hon hd; exact ⟨ep, rfl, hon, hd, Int.le_refl _⟩
  | succ level ih =>
    intro ep hon hd
    unfold Hnsw.knnLoop
    obtain ⟨nn, e1, out⟩ := searchLevel_ok (o := o) (num := 1) hc.pts hqd (hc.region (level + 1)) hon hd
    obtain ⟨x, nn', _, e2, _, _, lx⟩ := popMin_sound out.sound out.ne
    rw [e1]
    simp only [Res.bind]
    rw [e2]
    simp only
    obtain ⟨y, e3, h1, h2, h3⟩ := ih x ((out.on x.id (List.mem_map.2 ⟨x, lx.1, rfl⟩)).mono (by omega)) (out.sound.dist x lx.1)
    refine ⟨y, e3, h1, h2, Int.le_trans h3 ?_⟩
    obtain ⟨z, hz, hzd⟩ := out.near
    exact Int.le_trans (lx.2 z hz) hzd

end Appendable
