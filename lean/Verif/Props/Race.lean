import Verif.Spec.Race
import Verif.Props.TsClient
import Verif.Props.Session
/-! C91: calls of `indexHeaders` at the same time. -/
namespace Appendable
open Spec

/-! ### Lists -/

theorem firstOccurrences_filter {α : Type} [DecidableEq α] (P : α → Bool) : ∀ l : List α,
    firstOccurrences (l.filter P) = (firstOccurrences l).filter P
  | [] => rfl
  | b :: l => by
    by_cases h : P b = true
    · rw [List.filter_cons_of_pos h]
      simp only [firstOccurrences]
      rw [List.filter_cons_of_pos h, firstOccurrences_filter P l, List.filter_filter, List.filter_filter]
      congr 1
      apply List.filter_congr
      intro x _
      exact Bool.and_comm _ _
    · rw [List.filter_cons_of_neg h, firstOccurrences_filter P l]
      simp only [firstOccurrences]
      rw [List.filter_cons_of_neg h, List.filter_filter]
      apply List.filter_congr
      intro x _
      by_cases hx : x = b
      · subst hx; simp [h]
      · simp [hx]

theorem firstOccurrences_mapped {α β : Type} [DecidableEq α] [DecidableEq β] (f : α → β) (l : List α) :
    firstOccurrences (l.map f) = firstOccurrences ((firstOccurrences l).map f) := by
  have key : ∀ l : List α, firstOccurrences (l.reverse.map f) = firstOccurrences ((firstOccurrences l.reverse).map f) := by
    intro l
    induction l with
    | nil => rfl
    | cons a l ih =>
      rw [List.reverse_cons, List.map_append, List.map_cons, List.map_nil, firstOccurrences_snoc, firstOccurrences_snoc]
      by_cases ha : a ∈ l.reverse
      · rw [if_pos ha, if_pos (List.mem_map.2 ⟨a, ha, rfl⟩)]; exact ih
      · rw [if_neg ha, List.map_append, List.map_cons, List.map_nil, firstOccurrences_snoc]
        have : f a ∈ l.reverse.map f ↔ f a ∈ (firstOccurrences l.reverse).map f := by
          simp only [List.mem_map, mem_firstOccurrences]
        by_cases hf : f a ∈ l.reverse.map f
        · rw [if_pos hf, if_pos (this.1 hf)]; exact ih
        · rw [if_neg hf, if_neg (mt this.2 hf), ih]
  have := key l.reverse
  rwa [List.reverse_reverse] at this

/-- First occurrences of a prefix. -/
theorem firstOccurrences_prefix {α : Type} [DecidableEq α] (l m : List α) : ∃ r, firstOccurrences (l ++ m) = firstOccurrences l ++ r := by
  have key : ∀ m : List α, ∃ r, firstOccurrences (l ++ m.reverse) = firstOccurrences l ++ r := by
    intro m
    induction m with
    | nil => exact ⟨[], by simp⟩
    | cons a m ih =>
      obtain ⟨r, hr⟩ := ih
      rw [List.reverse_cons, ← List.append_assoc, firstOccurrences_snoc]
      split
      · exact ⟨r, hr⟩
      · exact ⟨r ++ [a], by rw [hr, List.append_assoc]⟩
  have := key m.reverse
  rwa [List.reverse_reverse] at this

/-! ### The slots of a file -/

/-- The slots in order: after each comes the next one of the list, and after the last none. -/
def Chained (idx : Resolver) (ps : List TsPage) : Prop := ∀ (i : Nat) (p : TsPage), ps[i]? = some p → p.next idx = .ok ps[i + 1]?

theorem tsPagesFrom_chained (idx : Resolver) : ∀ (fuel : Nat) (p : TsPage) (ps : List TsPage), tsPagesFrom idx fuel p = .ok ps →
    ps[0]? = some p ∧ Chained idx ps
  | 0, p, ps, h => by cases h
  | fuel + 1, p, ps, h => by
    rw [tsPagesFrom] at h
    obtain ⟨o, ho, h⟩ := bind_ok_inv.1 h
    cases o with
    | none =>
      simp only [Res.pure_eq, Res.ok.injEq] at h
      subst h
      refine ⟨rfl, fun i q hq => ?_⟩
      cases i with
      | zero => simp at hq; subst hq; rw [ho]; rfl
      | succ i => simp at hq
    | some q =>
      obtain ⟨rest, hr, h⟩ := bind_ok_inv.1 h
      simp only [Res.pure_eq, Res.ok.injEq] at h
      subst h
      obtain ⟨h0, hc⟩ := tsPagesFrom_chained idx fuel q rest hr
      refine ⟨rfl, fun i x hx => ?_⟩
      cases i with
      | zero => simp at hx; subst hx; rw [ho]; simp [h0]
      | succ i => simp at hx; simpa using hc i x hx

/-- What a single call finds. -/
theorem tsIndexHeaders_inv {idx : Resolver} {fuel : Nat} {hs : List (Bytes × List Nat)} (h : tsIndexHeaders idx fuel = .ok hs) :
    ∃ ps ms, tsMetaPages idx fuel = .ok ps ∧ tsMapM (fun p => p.indexMeta idx) ps = .ok ms ∧ hs = tsCollectMetas ms ∧
      tsFilePage.next idx = .ok ps[0]? ∧ ps ≠ [] ∧ Chained idx ps := by
  obtain ⟨ps, hp, h⟩ := bind_ok_inv.1 h
  obtain ⟨ms, hm, h⟩ := bind_ok_inv.1 h
  simp only [Res.pure_eq, Res.ok.injEq] at h
  refine ⟨ps, ms, hp, hm, h.symm, ?_⟩
  obtain ⟨o, ho, hq⟩ := bind_ok_inv.1 hp
  cases o with
  | none => cases hq
  | some p =>
    obtain ⟨h0, hc⟩ := tsPagesFrom_chained idx fuel p ps hq
    exact ⟨by rw [h0]; exact ho, by rintro rfl; simp at h0, hc⟩

theorem tsMapM_get {α β : Type} {f : α → Res β} : ∀ {l : List α} {bs : List β}, tsMapM f l = .ok bs → ∀ a ∈ l, ∃ b, f a = .ok b
  | [], _, _, a, ha => by simp at ha
  | x :: l, bs, h, a, ha => by
    rw [tsMapM] at h
    obtain ⟨b, hb, h⟩ := bind_ok_inv.1 h
    obtain ⟨bs', hbs, _⟩ := bind_ok_inv.1 h
    rcases List.mem_cons.1 ha with rfl | ha
    · exact ⟨b, hb⟩
    · exact tsMapM_get hbs a ha

/-- The metadata of a slot that can be read. -/
def metaAt (idx : Resolver) (p : TsPage) : TsIndexMeta :=
  match p.indexMeta idx with
  | .ok m => m
  | _ => default

theorem tsMapM_eq {idx : Resolver} : ∀ {l : List TsPage} {ms : List TsIndexMeta}, tsMapM (fun p => p.indexMeta idx) l = .ok ms →
    ms = l.map (metaAt idx)
  | [], ms, h => by cases h; rfl
  | p :: l, ms, h => by
    rw [tsMapM] at h
    obtain ⟨b, hb, h⟩ := bind_ok_inv.1 h
    obtain ⟨bs', hbs, h⟩ := bind_ok_inv.1 h
    simp only [Res.pure_eq, Res.ok.injEq] at h
    subst h
    rw [List.map_cons, ← tsMapM_eq hbs]
    unfold metaAt; rw [hb]

/-- Headers depend on the first occurrences of the slots only, up to repeated types. -/
theorem collect_same {idx : Resolver} {L ps : List TsPage} (h : firstOccurrences L = ps) :
    SameHeaders (tsCollectMetas (L.map (metaAt idx))) (tsCollectMetas (ps.map (metaAt idx))) := by
  unfold SameHeaders
  rw [collectMetas_eq, collectMetas_eq]
  simp only [List.map_map]
  have hn : firstOccurrences (L.map ((fun m => m.fieldName) ∘ metaAt idx)) = firstOccurrences (ps.map ((fun m => m.fieldName) ∘ metaAt idx)) := by
    rw [firstOccurrences_mapped, h]
  rw [hn]
  apply List.map_congr_left
  intro n _
  simp only [Function.comp, List.filter_map, List.map_map, Prod.mk.injEq, true_and]
  rw [firstOccurrences_mapped, firstOccurrences_filter, h]

/-! ### Runs -/

/-- What holds between the steps: the slots found so far are the first ones of the file, and a call in the loop of
`fetchMetaPages` is at one of them. -/
structure RaceInv (idx : Resolver) (ps : List TsPage) (s : TsCalls) : Prop where
  found : ∃ k, firstOccurrences s.linked = ps.take k
  walk : ∀ p, TsCall.walk p ∈ s.calls → p ∈ s.linked
  fetched : TsCall.fetched ∈ s.calls → ∃ p ∈ s.linked, p.next idx = .ok none

/-- What holds for a call that has found no slots when it started, or started after another one had found them all. -/
def CallInv (idx : Resolver) (ps L : List TsPage) : TsCall → Prop
  | .start => ∃ p ∈ L, p.next idx = .ok none
  | .first => True
  | .walk _ => True
  | .fetched => True
  | .read i p ms => (∃ p ∈ L, p.next idx = .ok none) ∧ L[i]? = some p ∧ (∀ q ∈ L.take i, q.next idx ≠ .ok none) ∧ ms = (L.take i).map (metaAt idx)
  | .reading i p ms => (∃ p ∈ L, p.next idx = .ok none) ∧ L[i]? = some p ∧ (∀ q ∈ L.take i, q.next idx ≠ .ok none) ∧
      ms = (L.take (i + 1)).map (metaAt idx)
  | .done r => ∃ L', firstOccurrences L' = ps ∧ r = .ok (tsCollectMetas (L'.map (metaAt idx)))

variable {idx : Resolver} {ps : List TsPage}

theorem RaceInv.mem (h : RaceInv idx ps s) {p : TsPage} (hp : p ∈ s.linked) : ∃ k i, firstOccurrences s.linked = ps.take k ∧ i < k ∧ ps[i]? = some p := by
  obtain ⟨k, hk⟩ := h.found
  have : p ∈ ps.take k := by rw [← hk]; exact mem_firstOccurrences.2 hp
  obtain ⟨i, hi⟩ := List.mem_iff_getElem?.1 this
  rw [List.getElem?_take] at hi
  split at hi
  · exact ⟨k, i, hk, by assumption, hi⟩
  · cases hi

theorem RaceInv.all (hc : Chained idx ps) {L : List TsPage} {k : Nat} (hk : firstOccurrences L = ps.take k) {p : TsPage} (hp : p ∈ L)
    (he : p.next idx = .ok none) : firstOccurrences L = ps := by
  have : p ∈ ps.take k := by rw [← hk]; exact mem_firstOccurrences.2 hp
  obtain ⟨i, hi⟩ := List.mem_iff_getElem?.1 this
  rw [List.getElem?_take] at hi
  split at hi
  · have h2 := hc i p hi
    rw [he] at h2
    simp only [Res.ok.injEq] at h2
    have h3 : ps.length ≤ i + 1 := List.getElem?_eq_none_iff.1 h2.symm
    rw [hk, List.take_of_length_le (by omega)]
  · cases hi

/-- Appending the next slot. -/
theorem push_next (hc : Chained idx ps) {L : List TsPage} {k i : Nat} (hk : firstOccurrences L = ps.take k) {p q : TsPage} (hi : i < k)
    (hp : ps[i]? = some p) (hn : p.next idx = .ok (some q)) : ∃ k', firstOccurrences (L ++ [q]) = ps.take k' := by
  rw [firstOccurrences_snoc]
  by_cases hq : q ∈ L
  · rw [if_pos hq]; exact ⟨k, hk⟩
  · rw [if_neg hq]
    have h2 := hc i p hp
    rw [hn] at h2
    simp only [Res.ok.injEq] at h2
    have hkk : k = i + 1 := by
      rcases Nat.lt_or_ge (i + 1) k with h | h
      · exfalso
        apply hq
        rw [← mem_firstOccurrences, hk]
        exact List.mem_iff_getElem?.2 ⟨i + 1, by rw [List.getElem?_take, if_pos h, ← h2]⟩
      · omega
    refine ⟨k + 1, ?_⟩
    rw [hk, List.take_add_one, hkk, ← h2]
    rfl

theorem loopAt_inv (ps : List TsPage) {L : List TsPage} (he : ∃ p ∈ L, p.next idx = .ok none) (i : Nat)
    (hno : ∀ q ∈ L.take i, q.next idx ≠ .ok none) : CallInv idx ps L (tsLoopAt L i ((L.take i).map (metaAt idx))) := by
  unfold tsLoopAt
  cases h : L[i]? with
  | some p => exact ⟨he, h, hno, rfl⟩
  | none =>
    exfalso
    obtain ⟨p, hp, hn⟩ := he
    rw [List.take_of_length_le (List.getElem?_eq_none_iff.1 h)] at hno
    exact hno p hp hn

theorem loopAt_not (L : List TsPage) (i : Nat) (ms : List TsIndexMeta) :
    (∀ p, tsLoopAt L i ms ≠ .walk p) ∧ tsLoopAt L i ms ≠ .fetched := by
  unfold tsLoopAt
  split <;> simp

/-- One step of one call. -/
theorem step_inv (hf : tsFilePage.next idx = .ok ps[0]?) (hc : Chained idx ps) {s : TsCalls} (h : RaceInv idx ps s) (k : Nat) :
    RaceInv idx ps (s.step idx k) ∧ ∃ more, (s.step idx k).linked = s.linked ++ more := by
  unfold TsCalls.step
  cases hck : s.calls[k]? with
  | none => exact ⟨h, [], by simp⟩
  | some c =>
    have hcm : c ∈ s.calls := List.mem_of_getElem? hck
    -- a step that changes no array
    have quiet : ∀ c', (∀ p, c' ≠ .walk p) → c' ≠ .fetched → RaceInv idx ps ⟨s.linked, s.calls.set k c'⟩ ∧ ∃ more, s.linked = s.linked ++ more := by
      intro c' h1 h2
      refine ⟨⟨h.found, ?_, ?_⟩, [], by simp⟩
      · intro p hp
        rcases List.mem_or_eq_of_mem_set hp with hp | hp
        · exact h.walk p hp
        · exact absurd hp.symm (h1 p)
      · intro hp
        rcases List.mem_or_eq_of_mem_set hp with hp | hp
        · exact h.fetched hp
        · exact absurd hp.symm h2
    have push : ∀ q, (∃ k', firstOccurrences (s.linked ++ [q]) = ps.take k') → RaceInv idx ps ⟨s.linked ++ [q], s.calls.set k (.walk q)⟩ ∧
        ∃ more, s.linked ++ [q] = s.linked ++ more := by
      intro q hq
      refine ⟨⟨hq, ?_, ?_⟩, [q], rfl⟩
      · intro p hp
        rcases List.mem_or_eq_of_mem_set hp with hp | hp
        · exact List.mem_append_left _ (h.walk p hp)
        · cases hp; simp
      · intro hp
        rcases List.mem_or_eq_of_mem_set hp with hp | hp
        · obtain ⟨p, h1, h2⟩ := h.fetched hp
          exact ⟨p, List.mem_append_left _ h1, h2⟩
        · cases hp
    cases c with
    | start =>
      simp only [TsCall.step]
      split
      · exact quiet _ (by simp) (by simp)
      · exact quiet _ (loopAt_not _ _ _).1 (loopAt_not _ _ _).2
    | first =>
      simp only [TsCall.step]
      rw [hf]
      cases h0 : ps[0]? with
      | none => exact quiet _ (by simp) (by simp)
      | some p =>
        refine push p ?_
        rw [firstOccurrences_snoc]
        obtain ⟨k', hk'⟩ := h.found
        by_cases hp : p ∈ s.linked
        · rw [if_pos hp]; exact ⟨k', hk'⟩
        · rw [if_neg hp, hk']
          have : k' = 0 := by
            rcases Nat.eq_zero_or_pos k' with h | h
            · exact h
            · exfalso; apply hp
              rw [← mem_firstOccurrences, hk']
              exact List.mem_iff_getElem?.2 ⟨0, by rw [List.getElem?_take, if_pos h, h0]⟩
          exact ⟨1, by rw [this, List.take_add_one, h0]; rfl⟩
    | walk p =>
      simp only [TsCall.step]
      cases hn : p.next idx with
      | panic => exact quiet _ (by simp) (by simp)
      | err e => exact quiet _ (by simp) (by simp)
      | ok o =>
        cases o with
        | some q =>
          obtain ⟨k', i, hk', hi, hp⟩ := h.mem (h.walk p hcm)
          exact push q (push_next hc hk' hi hp hn)
        | none =>
          refine ⟨⟨h.found, ?_, ?_⟩, [], by simp⟩
          · intro p hp
            rcases List.mem_or_eq_of_mem_set hp with hp | hp
            · exact h.walk p hp
            · cases hp
          · intro _; exact ⟨p, h.walk p hcm, hn⟩
    | fetched => exact quiet _ (loopAt_not _ _ _).1 (loopAt_not _ _ _).2
    | read i p ms =>
      simp only [TsCall.step]
      split <;> exact quiet _ (by simp) (by simp)
    | reading i p ms =>
      simp only [TsCall.step]
      split
      · exact quiet _ (by simp) (by simp)
      · exact quiet _ (by simp) (by simp)
      · exact quiet _ (by simp) (by simp)
      · exact quiet _ (loopAt_not _ _ _).1 (loopAt_not _ _ _).2
    | done r =>
      simp only [TsCall.step]
      exact quiet _ (by simp) (by simp)

/-- A call keeps its property when others push slots. -/
theorem CallInv.grow {L : List TsPage} {c : TsCall} (h : CallInv idx ps L c) (more : List TsPage) : CallInv idx ps (L ++ more) c := by
  have hex : ∀ {L : List TsPage}, (∃ p ∈ L, p.next idx = .ok none) → ∃ p ∈ L ++ more, p.next idx = .ok none :=
    fun ⟨p, h1, h2⟩ => ⟨p, List.mem_append_left _ h1, h2⟩
  cases c with
  | start => exact hex h
  | first => trivial
  | walk p => trivial
  | fetched => trivial
  | read i p ms =>
    obtain ⟨h1, h2, h3, h4⟩ := h
    have hi : i < L.length := (List.getElem?_eq_some_iff.1 h2).1
    refine ⟨hex h1, by rw [List.getElem?_append_left hi]; exact h2, ?_, ?_⟩
    · rw [List.take_append_of_le_length (by omega)]; exact h3
    · rw [List.take_append_of_le_length (by omega)]; exact h4
  | reading i p ms =>
    obtain ⟨h1, h2, h3, h4⟩ := h
    have hi : i < L.length := (List.getElem?_eq_some_iff.1 h2).1
    refine ⟨hex h1, by rw [List.getElem?_append_left hi]; exact h2, ?_, ?_⟩
    · rw [List.take_append_of_le_length (by omega)]; exact h3
    · rw [List.take_append_of_le_length (by omega)]; exact h4
  | done r => exact h

/-- The call itself. -/
theorem CallInv.step (hf : tsFilePage.next idx = .ok ps[0]?) (hne : ps ≠ []) (hc : Chained idx ps)
    (hm : ∀ p ∈ ps, ∃ m, p.indexMeta idx = .ok m) {s : TsCalls} (h : RaceInv idx ps s) {c : TsCall} (hcm : c ∈ s.calls)
    (hi : CallInv idx ps s.linked c) : CallInv idx ps (c.step idx s.linked).2 (c.step idx s.linked).1 := by
  have inps : ∀ p ∈ s.linked, p ∈ ps := by
    intro p hp
    obtain ⟨k, i, _, _, h2⟩ := h.mem hp
    exact List.mem_of_getElem? h2
  cases c with
  | start =>
    simp only [TsCall.step]
    obtain ⟨p, hp, hn⟩ := hi
    rw [if_neg (by intro h0; rw [h0] at hp; simp at hp)]
    exact loopAt_inv ps ⟨p, hp, hn⟩ 0 (by simp)
  | first =>
    simp only [TsCall.step]
    rw [hf]
    cases h0 : ps[0]? with
    | none => exact absurd (List.getElem?_eq_none_iff.1 h0) (by have := List.length_pos_iff.2 hne; omega)
    | some p => trivial
  | walk p =>
    simp only [TsCall.step]
    obtain ⟨k, i, _, _, hp⟩ := h.mem (h.walk p hcm)
    rw [hc i p hp]
    cases ps[i + 1]? <;> trivial
  | fetched => exact loopAt_inv ps (h.fetched hcm) 0 (by simp)
  | read i p ms =>
    obtain ⟨h1, h2, h3, h4⟩ := hi
    simp only [TsCall.step]
    obtain ⟨m, hmm⟩ := hm p (inps p (List.mem_of_getElem? h2))
    rw [hmm]
    refine ⟨h1, h2, h3, ?_⟩
    rw [List.take_add_one, h2, h4]
    simp [metaAt, hmm]
  | reading i p ms =>
    obtain ⟨h1, h2, h3, h4⟩ := hi
    simp only [TsCall.step]
    obtain ⟨k, j, hk, _, hp⟩ := h.mem (List.mem_of_getElem? h2)
    rw [hc j p hp]
    cases hj : ps[j + 1]? with
    | none =>
      simp only
      refine ⟨s.linked.take (i + 1), ?_, by rw [h4]⟩
      have hpre := firstOccurrences_prefix (s.linked.take (i + 1)) (s.linked.drop (i + 1))
      rw [List.take_append_drop, hk] at hpre
      obtain ⟨r, hr⟩ := hpre
      have hmem : p ∈ s.linked.take (i + 1) := by rw [List.take_add_one, h2]; simp
      refine RaceInv.all hc (k := (firstOccurrences (s.linked.take (i + 1))).length) ?_ hmem (by rw [hc j p hp, hj])
      have h5 := congrArg (List.take (firstOccurrences (s.linked.take (i + 1))).length) hr
      rw [List.take_left, List.take_take] at h5
      have h6 := congrArg List.length hr
      rw [List.length_take, List.length_append] at h6
      rw [Nat.min_eq_left (by omega)] at h5
      exact h5.symm
    | some q =>
      simp only
      rw [h4]
      refine loopAt_inv ps h1 (i + 1) ?_
      intro x hx
      rw [List.take_add_one, h2] at hx
      rcases List.mem_append.1 hx with hx | hx
      · exact h3 x hx
      · simp only [Option.toList_some, List.mem_singleton] at hx
        subst hx
        rw [hc j x hp, hj]; simp
  | done r => exact hi

theorem run_inv (hf : tsFilePage.next idx = .ok ps[0]?) (hne : ps ≠ []) (hc : Chained idx ps)
    (hm : ∀ p ∈ ps, ∃ m, p.indexMeta idx = .ok m) : ∀ (order : List Nat) (s : TsCalls), RaceInv idx ps s →
    RaceInv idx ps (s.run idx order) ∧ (s.run idx order).calls.length = s.calls.length ∧
      ∀ (k : Nat) (c : TsCall), s.calls[k]? = some c → CallInv idx ps s.linked c →
        ∃ c', (s.run idx order).calls[k]? = some c' ∧ CallInv idx ps (s.run idx order).linked c'
  | [], s, h => ⟨h, rfl, fun k c hk hi => ⟨c, hk, hi⟩⟩
  | j :: order, s, h => by
    obtain ⟨h1, more, hl⟩ := step_inv hf hc h j
    obtain ⟨g1, g2, g3⟩ := run_inv hf hne hc hm order (s.step idx j) h1
    have hlen : (s.step idx j).calls.length = s.calls.length := by
      unfold TsCalls.step; split <;> simp
    refine ⟨g1, by rw [show (s.run idx (j :: order)) = (s.step idx j).run idx order from rfl, g2, hlen], ?_⟩
    intro k c hk hi
    by_cases hkj : j = k
    · subst hkj
      have e : s.step idx j = ⟨(c.step idx s.linked).2, s.calls.set j (c.step idx s.linked).1⟩ := by
        unfold TsCalls.step; rw [hk]
      have hcm := List.mem_of_getElem? hk
      have := hi.step hf hne hc hm h hcm
      refine g3 j (c.step idx s.linked).1 ?_ (by rw [e]; exact this)
      rw [e]
      simp only
      rw [List.getElem?_set_self (List.getElem?_eq_some_iff.1 hk).1]
    · refine g3 k c ?_ (by rw [hl]; exact hi.grow more)
      unfold TsCalls.step
      split
      · exact hk
      · simp only; rw [List.getElem?_set_ne hkj]; exact hk

theorem fresh_inv (n : Nat) : RaceInv idx ps (freshCalls n) := by
  refine ⟨⟨0, rfl⟩, ?_, ?_⟩
  · intro p hp
    have := List.eq_of_mem_replicate hp
    cases this
  · intro hp
    have := List.eq_of_mem_replicate hp
    cases this

/-- **C91**, what holds: whatever the order in which calls of `indexHeaders` on one object make their steps, a call that starts when
no slots have been found (and then looks for them itself), and a call that starts after another one has found all of them, never
fails where a single call succeeds, and it returns the same names and types as a single call, except that a type may be
repeated.  What is missing: that it is not repeated (`C91_duplicate_violated`), and calls that start while another one is
looking for the slots (`C91_missing_violated`). -/
theorem C91_concurrent_partial (idx : Resolver) (fuel : Nat) (hs : List (Bytes × List Nat)) (one : tsIndexHeaders idx fuel = .ok hs)
    (n : Nat) (order later : List Nat) (k : Nat)
    (started : ((freshCalls n).run idx order).calls[k]? = some .first ∨
      (((freshCalls n).run idx order).calls[k]? = some .start ∧ ∃ j : Nat, ((freshCalls n).run idx order).calls[j]? = some TsCall.fetched))
    (r : Res (List (Bytes × List Nat))) (done : ((freshCalls n).run idx (order ++ later)).calls[k]? = some (.done r)) :
    ∃ xs, r = .ok xs ∧ SameHeaders xs hs := by
  obtain ⟨ps, ms, _, hm, rfl, hf, hne, hc⟩ := tsIndexHeaders_inv one
  have hmm := tsMapM_get hm
  obtain ⟨h1, _, _⟩ := run_inv hf hne hc hmm order _ (fresh_inv n)
  obtain ⟨_, _, h3⟩ := run_inv hf hne hc hmm later _ h1
  have e : (freshCalls n).run idx (order ++ later) = ((freshCalls n).run idx order).run idx later := by
    unfold TsCalls.run; rw [List.foldl_append]
  rw [e] at done
  have hdone : CallInv idx ps (((freshCalls n).run idx order).run idx later).linked (.done r) := by
    rcases started with h | ⟨h, j, hj⟩
    · obtain ⟨c', hc', hi⟩ := h3 k _ h trivial
      rw [done] at hc'; cases hc'; exact hi
    · obtain ⟨c', hc', hi⟩ := h3 k _ h (h1.fetched (List.mem_of_getElem? hj))
      rw [done] at hc'; cases hc'; exact hi
  obtain ⟨L', hL, rfl⟩ := hdone
  refine ⟨_, rfl, ?_⟩
  rw [tsMapM_eq hm]
  exact collect_same hL

/-! ### Two calls in turn -/

theorem run_append (s : TsCalls) (a b : List Nat) : s.run idx (a ++ b) = (s.run idx a).run idx b := by
  unfold TsCalls.run; rw [List.foldl_append]

/-- Both calls walk through the rest of the slots in turn. -/
theorem walk_both : ∀ (qs : List TsPage) (L : List TsPage) (p : TsPage), (∀ (i : Nat) (x : TsPage), (p :: qs)[i]? = some x → x.next idx = .ok (p :: qs)[i + 1]?) →
    ∃ order, TsCalls.run idx ⟨L, [.walk p, .walk p]⟩ order = ⟨L ++ qs.flatMap (fun q => [q, q]), [.fetched, .fetched]⟩
  | [], L, p, h => by
    have hn : p.next idx = .ok none := h 0 p rfl
    refine ⟨[0, 1], ?_⟩
    simp [TsCalls.run, TsCalls.step, TsCall.step, hn]
  | q :: qs, L, p, h => by
    have hn : p.next idx = .ok (some q) := h 0 p rfl
    obtain ⟨order, ho⟩ := walk_both qs (L ++ [q, q]) q (fun i x hx => h (i + 1) x hx)
    refine ⟨[0, 1] ++ order, ?_⟩
    rw [run_append]
    have e : TsCalls.run idx ⟨L, [.walk p, .walk p]⟩ [0, 1] = ⟨L ++ [q, q], [.walk q, .walk q]⟩ := by
      simp [TsCalls.run, TsCalls.step, TsCall.step, hn]
    rw [e, ho]
    simp

/-- The first call reads on, up to the first slot without successor. -/
theorem read_on (L : List TsPage) (c2 : TsCall) (e : TsPage) (he : e.next idx = .ok none) (hem : ∃ m, e.indexMeta idx = .ok m) :
    ∀ (S : List TsPage) (i : Nat) (ms : List TsIndexMeta), (∀ x ∈ S, (∃ m, x.indexMeta idx = .ok m) ∧ ∃ y, x.next idx = .ok (some y)) →
    (∃ S2, L.drop i = S ++ e :: S2) →
    ∃ order, TsCalls.run idx ⟨L, [tsLoopAt L i ms, c2]⟩ order = ⟨L, [.done (.ok (tsCollectMetas (ms ++ (S ++ [e]).map (metaAt idx)))), c2]⟩
  | [], i, ms, _, ⟨S2, hd⟩ => by
    obtain ⟨m, hm⟩ := hem
    have hL : L[i]? = some e := by
      have := congrArg (fun l => l[0]?) hd
      simpa using this
    refine ⟨[0, 0], ?_⟩
    simp [TsCalls.run, TsCalls.step, TsCall.step, tsLoopAt, hL, hm, he, metaAt]
  | x :: S, i, ms, hS, ⟨S2, hd⟩ => by
    obtain ⟨⟨m, hm⟩, y, hy⟩ := hS x (by simp)
    have hL : L[i]? = some x := by
      have := congrArg (fun l => l[0]?) hd
      simpa using this
    have hd' : L.drop (i + 1) = S ++ e :: S2 := by
      have := congrArg List.tail hd
      simpa [List.tail_drop] using this
    obtain ⟨order, ho⟩ := read_on L c2 e he hem S (i + 1) (ms ++ [m]) (fun z hz => hS z (by simp [hz])) ⟨S2, hd'⟩
    refine ⟨[0, 0] ++ order, ?_⟩
    rw [run_append]
    have e1 : TsCalls.run idx ⟨L, [tsLoopAt L i ms, c2]⟩ [0, 0] = ⟨L, [tsLoopAt L (i + 1) (ms ++ [m]), c2]⟩ := by
      simp [TsCalls.run, TsCalls.step, TsCall.step, tsLoopAt, hL, hm, hy]
    rw [e1, ho]
    simp [metaAt, hm]

/-- The number of types in the headers. -/
theorem collect_count (ms : List TsIndexMeta) : ((tsCollectMetas ms).map (fun h => h.2.length)).sum = ms.length := by
  have add : ∀ (hs : List (Bytes × List Nat)) (n : Bytes) (t : Nat), ((tsAddHeader hs n t).map (fun h => h.2.length)).sum = (hs.map (fun h => h.2.length)).sum + 1 := by
    intro hs n t
    induction hs with
    | nil => rfl
    | cons h hs ih =>
      obtain ⟨a, ts⟩ := h
      rw [tsAddHeader]
      split
      · simp; omega
      · simp only [List.map_cons, List.sum_cons, ih]; omega
  have key : ∀ (ms : List TsIndexMeta) (hs : List (Bytes × List Nat)),
      ((ms.foldl (fun hs m => tsAddHeader hs m.fieldName m.fieldType) hs).map (fun h => h.2.length)).sum = (hs.map (fun h => h.2.length)).sum + ms.length := by
    intro ms
    induction ms with
    | nil => intro hs; simp
    | cons m ms ih => intro hs; rw [List.foldl_cons, ih, add, List.length_cons]; omega
  have := key ms []
  unfold tsCollectMetas
  simpa using this

/-- Every slot twice. -/
theorem twice_length (l : List TsPage) : (l.flatMap (fun q => [q, q])).length = 2 * l.length := by
  induction l with
  | nil => rfl
  | cons a l ih => rw [List.flatMap_cons, List.length_append, ih, List.length_cons, List.length_cons, List.length_cons, List.length_nil]; omega

/-- **C91** is violated by every index file with more than one index: if two calls of `indexHeaders` on one new object make their
steps in turn, then the first returns, and returns something else than a single call does (types are repeated). -/
theorem C91_duplicate_violated (idx : Resolver) (fuel : Nat) (hs : List (Bytes × List Nat)) (one : tsIndexHeaders idx fuel = .ok hs)
    (many : 2 ≤ (hs.map (fun h => h.2.length)).sum) :
    ∃ (order : List Nat) (xs : List (Bytes × List Nat)), ((freshCalls 2).run idx order).calls[0]? = some (.done (.ok xs)) ∧ xs ≠ hs := by
  obtain ⟨ps, ms, _, hm, rfl, hf, hne, hc⟩ := tsIndexHeaders_inv one
  have hms := tsMapM_eq hm
  rw [collect_count, hms, List.length_map] at many
  have hmm := tsMapM_get hm
  cases ps with
  | nil => exact absurd rfl hne
  | cons p qs =>
    have hf' : tsFilePage.next idx = .ok (some p) := hf
    have e1 : TsCalls.run idx (freshCalls 2) [0, 1, 0, 1] = ⟨[p, p], [.walk p, .walk p]⟩ := by
      simp [TsCalls.run, TsCalls.step, TsCall.step, freshCalls, List.replicate, hf']
    obtain ⟨o2, h2⟩ := walk_both (idx := idx) qs [p, p] p hc
    have hL : [p, p] ++ qs.flatMap (fun q => [q, q]) = (p :: qs).flatMap (fun q => [q, q]) := rfl
    rw [hL] at h2
    -- the last slot
    obtain ⟨ini, e, hie⟩ : ∃ ini e, p :: qs = ini ++ [e] := ⟨_, _, (List.dropLast_concat_getLast (by simp : p :: qs ≠ [])).symm⟩
    rw [hie] at hc h2 hmm hms many
    have he : e.next idx = .ok none := by
      have := hc ini.length e (by simp)
      rw [this, List.getElem?_eq_none (by simp)]
    have hini : ∀ x ∈ ini, (∃ m, x.indexMeta idx = .ok m) ∧ ∃ y, x.next idx = .ok (some y) := by
      intro x hx
      refine ⟨hmm x (by simp [hx]), ?_⟩
      obtain ⟨i, hi⟩ := List.mem_iff_getElem?.1 hx
      have hil := (List.getElem?_eq_some_iff.1 hi).1
      have := hc i x (by rw [List.getElem?_append_left hil]; exact hi)
      rw [this]
      cases hy : (ini ++ [e])[i + 1]? with
      | none =>
        have := List.getElem?_eq_none_iff.1 hy
        simp at this; omega
      | some y => exact ⟨y, rfl⟩
    obtain ⟨L, hLL⟩ : ∃ L, L = (ini ++ [e]).flatMap (fun q => [q, q]) := ⟨_, rfl⟩
    rw [← hLL] at h2
    have e3 : TsCalls.run idx ⟨L, [.fetched, .fetched]⟩ [0] = ⟨L, [tsLoopAt L 0 [], .fetched]⟩ := by
      simp [TsCalls.run, TsCalls.step, TsCall.step]
    obtain ⟨o4, h4⟩ := read_on (idx := idx) L .fetched e he (hmm e (by simp)) (ini.flatMap (fun q => [q, q])) 0 []
      (by
        intro x hx
        obtain ⟨y, hy, hxy⟩ := List.mem_flatMap.1 hx
        have : x = y := by simpa using hxy
        rw [this]; exact hini y hy)
      ⟨[e], by rw [hLL]; simp⟩
    refine ⟨[0, 1, 0, 1] ++ (o2 ++ ([0] ++ o4)), tsCollectMetas ([] ++ List.map (metaAt idx) (List.flatMap (fun q => [q, q]) ini ++ [e])), ?_, ?_⟩
    · rw [run_append, e1, run_append, h2, run_append, e3, h4]
      rfl
    · intro heq
      have := congrArg (fun hs => (hs.map (fun h : Bytes × List Nat => h.2.length)).sum) heq
      simp only [collect_count] at this
      rw [hms] at this
      have hl := twice_length ini
      simp only [List.nil_append, List.length_map, List.length_append, hl, List.length_singleton] at this many
      omega

/-- **C91** is violated in the other direction too: if a second call starts when the first has found one of the slots, it returns
the headers of that one slot only; the other fields of the file are missing. -/
theorem C91_missing_violated (idx : Resolver) (fuel : Nat) (hs : List (Bytes × List Nat)) (one : tsIndexHeaders idx fuel = .ok hs)
    (many : 2 ≤ (hs.map (fun h => h.2.length)).sum) :
    ∃ xs : List (Bytes × List Nat), ((freshCalls 2).run idx [0, 0, 1, 1, 1]).calls[1]? = some (.done (.ok xs)) ∧
      xs.length = 1 ∧ (xs.map (fun h => h.2.length)).sum = 1 := by
  obtain ⟨ps, ms, _, hm, rfl, hf, hne, hc⟩ := tsIndexHeaders_inv one
  have hms := tsMapM_eq hm
  rw [collect_count, hms, List.length_map] at many
  have hmm := tsMapM_get hm
  match ps, many with
  | p :: q :: qs, _ =>
    have hf' : tsFilePage.next idx = .ok (some p) := hf
    obtain ⟨m, hpm⟩ := hmm p (by simp)
    have hn : p.next idx = .ok (some q) := hc 0 p rfl
    refine ⟨[(m.fieldName, [m.fieldType])], ?_, rfl, rfl⟩
    simp [TsCalls.run, TsCalls.step, TsCall.step, freshCalls, List.replicate, hf', tsLoopAt, hpm, hn, tsCollectMetas, tsAddHeader]

/-! ### A concrete case -/

/-- A meta page with the file metadata and two string fields, `a` and `b`. -/
def rPage : Bytes :=
  List.replicate 8 255 ++ [3] ++ sSlot (List.replicate 12 0) ([1, 0] ++ List.replicate 9 0) ++
    sSlot (List.replicate 12 0) [0, 0, 0, 0, 1, 0, 97, 0] ++ sSlot (List.replicate 12 0) [0, 0, 0, 0, 1, 0, 98, 0]
def rServer : Resolver := fun rs => .ok (rs.map (fun _ => rPage))

theorem rOne : tsIndexHeaders rServer 5 = .ok [([97], [0]), ([98], [0])] := by decide +kernel

/-- Non-vacuity of `C91_duplicate_violated`. -/
example : ∃ (order : List Nat) (xs : List (Bytes × List Nat)), ((freshCalls 2).run rServer order).calls[0]? = some (.done (.ok xs)) ∧
    xs ≠ [([97], [0]), ([98], [0])] := C91_duplicate_violated rServer 5 _ rOne (by decide)

/-- Non-vacuity of `C91_missing_violated`. -/
example : ((freshCalls 2).run rServer [0, 0, 1, 1, 1]).calls[1]? = some (.done (.ok [([97], [0])])) := by decide +kernel
example : 2 ≤ (([([97], [0]), ([98], [0])] : List (Bytes × List Nat)).map (fun h => h.2.length)).sum := by decide

/-- Non-vacuity of `C91_concurrent_partial`: a run in which the first call, which looks for the slots, is done while the second is still
looking; and one in which the second starts late. -/
example : ((freshCalls 2).run rServer [0]).calls[0]? = some .first ∧
    ((freshCalls 2).run rServer ([0] ++ [1, 0, 1, 0, 0, 0, 0, 0, 0, 0, 0, 0, 0, 0, 0, 0])).calls[0]? = some (.done (.ok [([97], [0, 0]), ([98], [0])])) := by
  decide +kernel
example : ((freshCalls 2).run rServer [0, 0, 0, 0]).calls[1]? = some .start ∧ ((freshCalls 2).run rServer [0, 0, 0, 0]).calls[0]? = some .fetched ∧
    ((freshCalls 2).run rServer ([0, 0, 0, 0] ++ [1, 1, 1, 1, 1])).calls[1]? = some (.done (.ok [([97], [0]), ([98], [0])])) := by
  decide +kernel

end Appendable
