import Verif.Model.TsCache
/-! C61: the resolver cache. -/
namespace Appendable
namespace Spec

/-- The bytes `a`, …, `b` of a file, as far as they exist. -/
def rangeOf (file : Bytes) (a b : Nat) : Bytes := (file.drop a).take (b + 1 - a)

/-- A resolver that serves a file: each range with its first and last byte. -/
def Serves (r : RangeResolver) (file : Bytes) : Prop :=
  ∀ ranges : List (Nat × Nat), r (ranges.map (fun x => ((x.1 : Int), (x.2 : Int)))) =
    .ok (ranges.map (fun x => ⟨rangeOf file x.1 x.2, file.length⟩))

/-- Histories of single-range requests through a cache in front of the resolver `r`: the ranges requested so far. -/
inductive CacheRun (r : RangeResolver) : List (Nat × Nat) → RangeCache → Prop
  | start : CacheRun r [] []
  | call {asked : List (Nat × Nat)} {c : RangeCache} (a b : Nat) : CacheRun r asked c →
      CacheRun r (asked ++ [(a, b)]) (cacheCall r [((a : Int), (b : Int))] c).2

end Spec
open Spec

theorem serves_one {r : RangeResolver} {file : Bytes} (hr : Serves r file) (a b : Nat) :
    r [((a : Int), (b : Int))] = .ok [⟨rangeOf file a b, file.length⟩] := hr [(a, b)]

/-- The invariant of a cache. -/
theorem cacheRun_inv {r : RangeResolver} {file : Bytes} (hr : Serves r file) {asked : List (Nat × Nat)} {c : RangeCache}
    (h : CacheRun r asked c) :
    (∀ x ∈ c, ∃ a b : Nat, (a, b) ∈ asked ∧ x = (((a : Int), (b : Int)), .ok [⟨rangeOf file a b, file.length⟩])) ∧
    (∀ y ∈ asked, ∃ x ∈ c, x.1.1 ≤ y.1 ∧ (y.2 : Int) ≤ x.1.2) := by
  induction h with
  | start => simp
  | call a b _ ih =>
    rename_i asked c _
    unfold cacheCall
    simp only
    cases hf : c.find? (fun x => decide (x.1.1 ≤ (a : Int)) && decide ((b : Int) ≤ x.1.2)) with
    | some x =>
      simp only
      have hx := List.mem_of_find?_eq_some hf
      have hp := List.find?_some hf
      simp only [Bool.and_eq_true, decide_eq_true_eq] at hp
      refine ⟨fun y hy => ?_, fun y hy => ?_⟩
      · obtain ⟨a', b', h1, h2⟩ := ih.1 y hy
        exact ⟨a', b', List.mem_append_left _ h1, h2⟩
      · rcases List.mem_append.1 hy with hy | hy
        · exact ih.2 y hy
        · rw [List.mem_singleton] at hy; subst hy
          exact ⟨x, hx, hp.1, hp.2⟩
    | none =>
      simp only
      refine ⟨fun y hy => ?_, fun y hy => ?_⟩
      · rcases List.mem_append.1 hy with hy | hy
        · obtain ⟨a', b', h1, h2⟩ := ih.1 y hy
          exact ⟨a', b', List.mem_append_left _ h1, h2⟩
        · rw [List.mem_singleton] at hy; subst hy
          exact ⟨a, b, by simp, by rw [serves_one hr]⟩
      · rcases List.mem_append.1 hy with hy | hy
        · obtain ⟨x, hx, h⟩ := ih.2 y hy
          exact ⟨x, List.mem_append_left _ hx, h⟩
        · rw [List.mem_singleton] at hy; subst hy
          exact ⟨_, List.mem_append_right _ (List.mem_singleton.2 rfl), Int.le_refl _, Int.le_refl _⟩

/-- C61: a range that lies in no range requested before is answered as the resolver answers it.  Missing: all other
ranges (`C61_hit_violated`), and requests for several ranges (`C61_second_range_violated`). -/
theorem C61_miss_partial {r : RangeResolver} {file : Bytes} (hr : Serves r file) {asked : List (Nat × Nat)} {c : RangeCache}
    (h : CacheRun r asked c) (a b : Nat) (hnew : ∀ y ∈ asked, ¬ (y.1 ≤ a ∧ b ≤ y.2)) :
    (cacheCall r [((a : Int), (b : Int))] c).1 = r [((a : Int), (b : Int))] := by
  unfold cacheCall
  simp only
  cases hf : c.find? (fun x => decide (x.1.1 ≤ (a : Int)) && decide ((b : Int) ≤ x.1.2)) with
  | none => rfl
  | some x =>
    exfalso
    have hx := List.mem_of_find?_eq_some hf
    have hp := List.find?_some hf
    simp only [Bool.and_eq_true, decide_eq_true_eq] at hp
    obtain ⟨a', b', h1, rfl⟩ := (cacheRun_inv hr h).1 x hx
    simp only at hp
    exact hnew _ h1 ⟨by omega, by omega⟩

/-- C61 is violated by every range that lies in a range requested before, in every history: the answer lacks the last
byte. -/
theorem C61_hit_violated {r : RangeResolver} {file : Bytes} (hr : Serves r file) {asked : List (Nat × Nat)} {c : RangeCache}
    (h : CacheRun r asked c) (a b : Nat) (hab : a ≤ b) (hb : b < file.length) (y : Nat × Nat) (hy : y ∈ asked)
    (hin : y.1 ≤ a ∧ b ≤ y.2) :
    (cacheCall r [((a : Int), (b : Int))] c).1 = .ok [⟨(rangeOf file a b).dropLast, file.length⟩] ∧
    (cacheCall r [((a : Int), (b : Int))] c).1 ≠ r [((a : Int), (b : Int))] := by
  have hlen : (rangeOf file a b).length = b + 1 - a := by
    unfold rangeOf; rw [List.length_take, List.length_drop]; omega
  have key : (cacheCall r [((a : Int), (b : Int))] c).1 = .ok [⟨(rangeOf file a b).dropLast, file.length⟩] := by
    unfold cacheCall
    simp only
    cases hf : c.find? (fun x => decide (x.1.1 ≤ (a : Int)) && decide ((b : Int) ≤ x.1.2)) with
    | none =>
      exfalso
      obtain ⟨x, hx, h1, h2⟩ := (cacheRun_inv hr h).2 y hy
      have := List.find?_eq_none.1 hf x hx
      simp only [Bool.and_eq_true, decide_eq_true_eq] at this
      exact this ⟨by omega, by omega⟩
    | some x =>
      have hx := List.mem_of_find?_eq_some hf
      have hp := List.find?_some hf
      simp only [Bool.and_eq_true, decide_eq_true_eq] at hp
      obtain ⟨s, e, h1, rfl⟩ := (cacheRun_inv hr h).1 x hx
      simp only at hp
      simp only [cacheHit]
      congr 3
      have hl : (rangeOf file s e).length = min (e + 1 - s) (file.length - s) := by
        unfold rangeOf; rw [List.length_take, List.length_drop]
      have e1 : jsIndex (rangeOf file s e).length ((a : Int) - s) = a - s := by
        unfold jsIndex; rw [if_neg (by omega)]; omega
      have e2 : jsIndex (rangeOf file s e).length ((b : Int) - s) = b - s := by
        unfold jsIndex; rw [if_neg (by omega)]; omega
      unfold jsSlice
      rw [e1, e2, List.dropLast_eq_take, hlen]
      unfold rangeOf
      rw [List.drop_take, List.drop_drop, List.take_take, List.take_take]
      rw [show s + (a - s) = a by omega, show min (b - s - (a - s)) (e + 1 - s - (a - s)) = b - a by omega,
        show min (b + 1 - a - 1) (b + 1 - a) = b - a by omega]
  refine ⟨key, ?_⟩
  rw [key, serves_one hr]
  intro hc
  simp only [Res.ok.injEq, List.cons.injEq, RangeData.mk.injEq, and_true] at hc
  have := congrArg List.length hc
  rw [List.length_dropLast] at this
  omega

/-- C61 is violated by every request for two or more ranges: the answer has at most one element. -/
theorem C61_second_range_violated {r : RangeResolver} {file : Bytes} (hr : Serves r file) {asked : List (Nat × Nat)}
    {c : RangeCache} (h : CacheRun r asked c) (x y : Nat × Nat) (l : List (Nat × Nat)) :
    (cacheCall r ((x :: y :: l).map (fun x => ((x.1 : Int), (x.2 : Int)))) c).1 ≠
      r ((x :: y :: l).map (fun x => ((x.1 : Int), (x.2 : Int)))) := by
  rw [hr]
  unfold cacheCall
  simp only [List.map_cons]
  cases hf : c.find? (fun z => decide (z.1.1 ≤ (x.1 : Int)) && decide ((x.2 : Int) ≤ z.1.2)) with
  | none =>
    simp only
    rw [serves_one hr]
    simp
  | some z =>
    obtain ⟨s, e, h1, rfl⟩ := (cacheRun_inv hr h).1 z (List.mem_of_find?_eq_some hf)
    simp [cacheHit]

/-- C61 is violated when the resolver fails once (say, because of the network): the failure is remembered, and requests
for the same range fail from then on, although the resolver would answer. -/
theorem C61_failure_violated (r r' : RangeResolver) (a b : Int) (e : Err) (hr : r [(a, b)] = .err e) :
    (cacheCall r' [(a, b)] (cacheCall r [(a, b)] []).2).1 = .err e := by
  simp [cacheCall, hr, cacheHit]

/-- A resolver that serves a file. -/
def cServe (file : Bytes) : RangeResolver := fun rs => .ok (rs.map (fun x => ⟨rangeOf file x.1.toNat x.2.toNat, file.length⟩))
theorem cServe_serves (file : Bytes) : Serves (cServe file) file := by
  intro rs
  simp [cServe, List.map_map, Function.comp_def]

/-- The hypotheses are met: after a request for the bytes 0-3, the bytes 1-2 come without the last one. -/
example : (cacheCall (cServe [10, 20, 30, 40, 50]) [(1, 2)] (cacheCall (cServe [10, 20, 30, 40, 50]) [(0, 3)] []).2).1 =
    .ok [⟨[20], 5⟩] := (C61_hit_violated (cServe_serves _) (.call 0 3 .start) 1 2 (by decide) (by decide) (0, 3) (by simp) (by decide)).1
example := C61_miss_partial (cServe_serves [10, 20, 30]) (.call 0 1 .start) 1 2 (by decide)
example := C61_second_range_violated (cServe_serves [10, 20, 30]) .start (0, 1) (1, 2) []

end Appendable
