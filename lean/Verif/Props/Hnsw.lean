import Verif.Lemmas.HnswGraph
/-! The proximity graph: pkg/hnsw. -/
namespace Appendable
open Spec DistHeap

variable {F : Type} {o : FloatOps F}

/-! ### A concrete graph -/

namespace HDemo

/-- Vectors of integers; the square root is left out, which changes no comparison. -/
def iops : FloatOps Int := ⟨0, (· + ·), (· - ·), (· * ·), id⟩

theorem iops_sym : SquareSym iops := by
  intro a b
  show (a - b) * (a - b) = (b - a) * (b - a)
  rw [← Int.neg_sub a b, Int.neg_mul, Int.mul_neg, Int.neg_neg]

/-- Insertions with the levels given. -/
def add (h : Hnsw Int) : List (List Int × Int) → Option (Hnsw Int)
  | [] => some h
  | x :: xs =>
    match Hnsw.insertVector iops x.1 x.2 h with
    | (.ok _, h') => add h' xs
    | _ => none

theorem add_run : ∀ (xs : List (List Int × Int)) {h h' : Hnsw Int} {ps : List (List Int × Int)},
    HnswRun iops h ps → add h xs = some h' → HnswRun iops h' (ps ++ xs) := by
  intro xs
  induction xs with
  | nil => intro h h' ps hr e; cases e; simpa using hr
  | cons x xs ih =>
    intro h h' ps hr e
    unfold add at e
    split at e
    · rename_i id h1 e1
      have := ih (.insert hr e1) e
      simpa using this
    · cases e

/-- The graph of points on a line. -/
def line (ef M : Nat) (p : Int) (xs : List (Int × Int)) : Option (Hnsw Int) :=
  match Hnsw.new 1 ef M [p] with
  | .ok h => add h (xs.map fun x => ([x.1], x.2))
  | _ => none

theorem line_run {ef M : Nat} {p : Int} {xs : List (Int × Int)} {h : Hnsw Int} (e : line ef M p xs = some h) :
    HnswRun iops h (([p], 0) :: xs.map fun x => ([x.1], x.2)) := by
  unfold line at e
  split at e
  · rename_i h0 e0
    exact add_run _ (.new e0) e
  · cases e

/-- What can be seen of a heap. -/
def seen (r : Res DistHeap) : Option (List (Nat × Int)) :=
  match r with
  | .ok h => some (h.items.map fun x => (x.id, x.dist))
  | _ => none

/-- The neighbours of `id`. -/
def nbs (h : Hnsw Int) (id level : Nat) : Res DistHeap := (h.neighborhood id).bind fun fr => fr.getAt level

theorem nbs_iff {h : Hnsw Int} {id level : Nat} {r : DistHeap} (e : nbs h id level = .ok r) : Neighbours h id level r := by
  unfold nbs at e
  cases hn : h.neighborhood id with
  | ok fr => rw [hn] at e; exact ⟨fr, hn, e⟩
  | err _ => rw [hn] at e; cases e
  | panic => rw [hn] at e; cases e

theorem seen_some {r : Res DistHeap} {l : List (Nat × Int)} (e : seen r = some l) :
    ∃ h, r = .ok h ∧ h.items.map (fun x => (x.id, x.dist)) = l := by
  cases r with
  | ok h => exact ⟨h, rfl, by simpa [seen] using e⟩
  | err _ => cases e
  | panic => cases e

theorem get_run {ef M : Nat} {p : Int} {xs : List (Int × Int)} {α : Type} {f : Hnsw Int → Option α} {v : α}
    (e : (line ef M p xs).bind f = some v) :
    ∃ h, HnswRun iops h (([p], 0) :: xs.map fun x => ([x.1], x.2)) ∧ f h = some v := by
  cases hl : line ef M p xs with
  | none => rw [hl] at e; cases e
  | some h => rw [hl] at e; exact ⟨h, line_run hl, e⟩

end HDemo

theorem inv_level {h : Hnsw F} {ps : List (List F × Int)} (hi : GraphInv o h ps) {id : Nat} {fr : Friends} (hf : h.friends[id]? = some fr) :
    ∃ p, ps[id]? = some p ∧ (fr.levels.length : Int) = p.2 + 1 := by
  have hlt := (List.getElem?_eq_some_iff.1 hf).1
  rw [hi.count] at hlt
  obtain ⟨fr', h1, h2⟩ := hi.level id _ (List.getElem?_eq_getElem hlt)
  rw [hf] at h1
  cases h1
  exact ⟨_, List.getElem?_eq_getElem hlt, h2⟩

theorem nb_inv {h : Hnsw F} {id level : Nat} {r : DistHeap} (hn : Neighbours h id level r) :
    ∃ fr, h.friends[id]? = some fr ∧ fr.levels[level]? = some r := by
  obtain ⟨fr, h1, h2⟩ := hn
  unfold Hnsw.neighborhood at h1
  unfold Friends.getAt at h2
  refine ⟨fr, ?_, ?_⟩
  · split at h1
    · rename_i hf; cases h1; exact hf
    · cases h1
  · split at h2
    · rename_i hf; cases h2; exact hf
    · cases h2

theorem nodup_sub {α : Type} [BEq α] [LawfulBEq α] : ∀ {l m : List α}, l.Nodup → (∀ x ∈ l, x ∈ m) → l.length ≤ m.length := by
  intro l
  induction l with
  | nil => intros; simp
  | cons a l ih =>
    intro m hd hs
    have ha := hs a (by simp)
    have hd' := List.nodup_cons.1 hd
    have := ih (m := m.erase a) hd'.2 fun x hx => (List.mem_erase_of_ne (fun (h : x = a) => hd'.1 (h ▸ hx))).2 (hs x (by simp [hx]))
    rw [List.length_erase_of_mem ha] at this
    have := List.length_pos_of_mem ha
    simp only [List.length_cons]
    omega

/-! ### C65 -/

/-- Inserting a vector of the right dimension never fails, whatever the random level: it gets the next id, and all vectors
stored before keep theirs.  A vector of another dimension is refused without effect. -/
theorem C65_insert (hs : SquareSym o) {h : Hnsw F} {ps : List (List F × Int)} (hr : HnswRun o h ps) (q : List F) (level : Int)
    (hl : 0 ≤ level) :
    (∀ p ∈ ps, p.1.length = h.dim) ∧
    (q.length = h.dim → ∃ h', Hnsw.insertVector o q level h = (.ok ps.length, h') ∧ HnswRun o h' (ps ++ [(q, level)]) ∧
      h'.dim = h.dim ∧ h'.ef = h.ef ∧ h'.M = h.M) ∧
    (q.length ≠ h.dim → ∃ e, Hnsw.insertVector o q level h = (.err e, h)) := by
  have hi := graph_inv hs hr
  refine ⟨fun p hp => hi.core.pts.dim _ (by rw [hi.points]; exact List.mem_map.2 ⟨p, hp, rfl⟩), fun hq => ?_, fun hq => ?_⟩
  · obtain ⟨h', e, _, hd, he, hM⟩ := insert_inv hs hi hq hl
    exact ⟨h', e, .insert hr e, hd, he, hM⟩
  · unfold Hnsw.insertVector
    rw [if_pos hq]
    exact ⟨_, rfl⟩

/-- `Neighborhood` returns the neighbourhood of every stored vector, and an error for any other id. -/
theorem C65_neighborhood (hs : SquareSym o) {h : Hnsw F} {ps : List (List F × Int)} (hr : HnswRun o h ps) (id : Nat) :
    (id < ps.length → ∃ fr, h.neighborhood id = .ok fr) ∧ (ps.length ≤ id → ∃ e, h.neighborhood id = .err e) := by
  have hc := (graph_inv hs hr).count
  unfold Hnsw.neighborhood
  constructor
  · intro hi
    rw [List.getElem?_eq_getElem (by omega)]
    exact ⟨_, rfl⟩
  · intro hi
    rw [List.getElem?_eq_none (by omega)]
    exact ⟨_, rfl⟩

/-- `KnnSearch` never fails for a vector of the right dimension and a number that is not negative: it returns at most `k`
stored vectors, no one twice, each with its true distance, and at least one if `k` is not 0. -/
theorem C65_search (hs : SquareSym o) {h : Hnsw F} {ps : List (List F × Int)} (hr : HnswRun o h ps) (q : List F)
    (hq : q.length = h.dim) (k : Nat) :
    ∃ r, h.knnSearch o q k = .ok r ∧ Hits o ps q r.items ∧ r.items.length ≤ k ∧ (0 < k → r.items ≠ []) ∧
      (∃ held, HeapRun r held) := by
  have hi := graph_inv hs hr
  obtain ⟨nn, e, sn, ne, on, _⟩ := knn_ok hs hi hq
  obtain ⟨r, e1, sr, sub, len, far, _⟩ := shrink_sound k (nn.len + 1) nn sn (by omega)
  refine ⟨r, (e k).trans e1, ⟨sr.nodup, fun x hx => ?_⟩, ?_, fun hk => ?_, sr.run⟩
  · have hlt := (on x.id (List.mem_map.2 ⟨x, sub x hx, rfl⟩)).lt
    rw [hi.count] at hlt
    refine ⟨_, List.getElem?_eq_getElem hlt, ?_⟩
    rw [sr.dist x hx]
    unfold distTo
    rw [hi.points, List.getElem?_map, List.getElem?_eq_getElem hlt]
    rfl
  · show r.len ≤ k
    omega
  · exact len_pos.1 (by have := len_pos.2 ne; omega)

/-- For a negative number it returns an error. -/
theorem C65_negative (hs : SquareSym o) {h : Hnsw F} {ps : List (List F × Int)} (hr : HnswRun o h ps) (q : List F)
    (hq : q.length = h.dim) (k : Int) (hk : k < 0) : ∃ e, h.knnSearch o q k = .err e := by
  obtain ⟨nn, e, sn, _⟩ := knn_ok hs (graph_inv hs hr) hq
  exact ⟨_, (e k).trans (shrink_neg hk _ nn sn (by omega))⟩

set_option maxRecDepth 100000 in
/-- Not vacuous: a graph of four points on two levels, and a search in it. -/
example : ∃ h, HnswRun HDemo.iops h [([0], 0), ([1], 1), ([5], 0), ([2], 1)] ∧
    HDemo.seen (h.knnSearch HDemo.iops [4] 2) = some [(2, 1), (3, 4)] :=
  HDemo.get_run (ef := 10) (M := 8) (p := 0) (xs := [(1, 1), (5, 0), (2, 1)]) (by decide +kernel)

/-! ### C66 -/

/-- With all levels 0, no vector has more than `M` neighbours. -/
theorem C66_degree_partial (hs : SquareSym o) {h : Hnsw F} {ps : List (List F × Int)} (hr : HnswRun o h ps)
    (hz : ∀ p ∈ ps, p.2 = 0) {id level : Nat} {r : DistHeap} (hn : Neighbours h id level r) : r.items.length ≤ h.M := by
  have hi := graph_inv hs hr
  obtain ⟨fr, hf, hl⟩ := nb_inv hn
  obtain ⟨p, hp, hlen⟩ := inv_level hi hf
  have := hz p (List.mem_of_getElem? hp)
  have hlt := (List.getElem?_eq_some_iff.1 hl).1
  have h0 : level = 0 := by omega
  subst h0
  exact (hi.flat hz).2 id r.len ⟨fr, r, hf, hl, rfl⟩

set_option maxRecDepth 100000 in
/-- Otherwise lists grow beyond `M`: `InsertFriendsAtLevel` adds to all lower levels, which are not pruned. -/
theorem C66_degree_violated : ∃ (h : Hnsw Int) (ps : List (List Int × Int)) (r : DistHeap), HnswRun HDemo.iops h ps ∧ h.M = 2 ∧
    Neighbours h 1 0 r ∧ 2 < r.items.length := by
  obtain ⟨h, hr, e⟩ := HDemo.get_run (ef := 10) (M := 2) (p := 0) (xs := [(1, 1), (2, 1), (3, 1)])
    (f := fun h => if h.M = 2 then HDemo.seen (HDemo.nbs h 1 0) else none) (v := [(2, 1), (0, 1), (3, 4)]) (by decide +kernel)
  by_cases hM : h.M = 2
  · rw [if_pos hM] at e
    obtain ⟨r, e1, e2⟩ := HDemo.seen_some e
    refine ⟨h, _, r, hr, hM, HDemo.nbs_iff e1, ?_⟩
    have := congrArg List.length e2
    rw [List.length_map] at this
    rw [this]; decide
  · rw [if_neg hM] at e; cases e

/-! ### C67 -/

/-- As long as there are no more vectors than `M` and `efConstruction`, the answer is exact, whatever the levels. -/
theorem C67_nearest_partial (hs : SquareSym o) {h : Hnsw F} {ps : List (List F × Int)} (hr : HnswRun o h ps)
    (hM : ps.length ≤ h.M) (hef : ps.length ≤ h.ef) (q : List F) (hq : q.length = h.dim) (k : Nat) :
    ∃ r, h.knnSearch o q k = .ok r ∧ Nearest o ps q k r.items := by
  have hi := graph_inv hs hr
  obtain ⟨nn, e, sn, ne, on, all⟩ := knn_ok hs hi hq
  obtain ⟨r, e1, sr, sub, len, far, _⟩ := shrink_sound k (nn.len + 1) nn sn (by omega)
  have hcount : nn.len = ps.length := by
    have h1 : nn.len ≤ ps.length := by
      rw [← ids_length]
      exact nodup_bound sn.nodup fun i hi' => by have := (on i hi').lt; rw [hi.count] at this; exact this
    have h2 : ps.length ≤ nn.len := by
      rw [← ids_length, ← List.length_range (n := ps.length)]
      have hn := List.nodup_range (n := ps.length)
      exact nodup_sub hn fun i hi' => all hM hef i (List.mem_range.1 hi')
    omega
  obtain ⟨r', e', ans, _⟩ := C65_search hs hr q hq k
  rw [e k, e1] at e'
  cases e'
  refine ⟨r, (e k).trans e1, ans, by show r.len = _; rw [len, hcount], fun i p hp hnot x hx => ?_⟩
  have hlt := (List.getElem?_eq_some_iff.1 hp).1
  have hin := (mem_ids sn).1 (all hM hef i hlt)
  have hd : metric o p.1 q = distTo o h q i := by
    unfold distTo
    rw [hi.points, List.getElem?_map, hp]
    rfl
  rw [hd]
  exact far _ hin (fun hc => hnot (List.mem_map.2 ⟨_, hc, rfl⟩)) x hx

set_option maxRecDepth 100000 in
/-- Otherwise a stored vector may not be found at all, not even by searching for it: everybody has dropped it. -/
theorem C67_nearest_violated : ∃ (h : Hnsw Int) (ps : List (List Int × Int)) (r : DistHeap), HnswRun HDemo.iops h ps ∧
    ps[3]? = some ([100], 0) ∧ h.knnSearch HDemo.iops [100] 4 = .ok r ∧ 3 ∉ r.items.map (·.id) := by
  obtain ⟨h, hr, e⟩ := HDemo.get_run (ef := 10) (M := 2) (p := 0) (xs := [(1, 0), (2, 0), (100, 0)])
    (f := fun h => HDemo.seen (h.knnSearch HDemo.iops [100] 4)) (v := [(2, 9604), (0, 10000), (1, 9801)]) (by decide +kernel)
  obtain ⟨r, e1, e2⟩ := HDemo.seen_some e
  refine ⟨h, _, r, hr, rfl, e1, fun hc => ?_⟩
  have : (3 : Nat) ∈ (r.items.map fun x => (x.id, x.dist)).map (·.1) := by simpa using hc
  rw [e2] at this
  revert this; decide

/-! ### C68 -/

/-- With all levels 0, no vector is its own neighbour. -/
theorem C68_self_partial (hs : SquareSym o) {h : Hnsw F} {ps : List (List F × Int)} (hr : HnswRun o h ps)
    (hz : ∀ p ∈ ps, p.2 = 0) {id level : Nat} {r : DistHeap} (hn : Neighbours h id level r) : id ∉ r.items.map (·.id) := by
  have hi := graph_inv hs hr
  obtain ⟨fr, hf, hl⟩ := nb_inv hn
  obtain ⟨p, hp, hlen⟩ := inv_level hi hf
  have := hz p (List.mem_of_getElem? hp)
  have hlt := (List.getElem?_eq_some_iff.1 hl).1
  have h0 : level = 0 := by omega
  subst h0
  exact fun hc => (hi.flat hz).1 id ⟨fr, r, hf, hl, hc⟩

set_option maxRecDepth 100000 in
/-- Otherwise it may be: on the second level the search finds the new vector itself. -/
theorem C68_self_violated : ∃ (h : Hnsw Int) (ps : List (List Int × Int)) (r : DistHeap), HnswRun HDemo.iops h ps ∧
    Neighbours h 2 0 r ∧ 2 ∈ r.items.map (·.id) := by
  obtain ⟨h, hr, e⟩ := HDemo.get_run (ef := 10) (M := 2) (p := 0) (xs := [(1, 1), (2, 1)])
    (f := fun h => HDemo.seen (HDemo.nbs h 2 0)) (v := [(2, 0), (1, 1)]) (by decide +kernel)
  obtain ⟨r, e1, e2⟩ := HDemo.seen_some e
  refine ⟨h, _, r, hr, HDemo.nbs_iff e1, ?_⟩
  have : r.items.map (·.id) = (r.items.map fun x => (x.id, x.dist)).map (·.1) := by simp
  rw [this, e2]; decide

/-! ### C69 -/

theorem euclidSum_long {p q : List F} (h : p.length > q.length) (acc : F) : euclidSum o acc p q = .panic := by
  induction p generalizing q acc with
  | nil => simp at h
  | cons a p ih =>
    cases q with
    | nil => rfl
    | cons b q => exact ih (by simpa using h) _

/-- A search for a vector with too many components does not return an error: it panics, in every graph. -/
theorem C69_dimension_violated (hs : SquareSym o) {h : Hnsw F} {ps : List (List F × Int)} (hr : HnswRun o h ps) (q : List F)
    (hq : q.length > h.dim) (k : Int) : h.knnSearch o q k = .panic := by
  have hi := graph_inv hs hr
  obtain ⟨fr, hf, _⟩ := hi.top
  have hlt := (List.getElem?_eq_some_iff.1 hf).1
  rw [← hi.core.pts.len] at hlt
  have hl := hi.core.pts.dim _ (List.getElem_mem hlt)
  unfold Hnsw.knnSearch Hnsw.entryItem euclid
  rw [hf, List.getElem?_eq_getElem hlt]
  simp only
  rw [euclidSum_long (by omega)]
  rfl

set_option maxRecDepth 100000 in
/-- With too few components it answers with distances to the first components only. -/
theorem C69_short_violated : ∃ (h : Hnsw Int) (r : DistHeap), HnswRun HDemo.iops h [([3, 4], 0)] ∧
    h.knnSearch HDemo.iops [3] 1 = .ok r ∧ r.items.map (fun x => (x.id, x.dist)) = [(0, 0)] := by
  obtain ⟨h, e⟩ : ∃ h, (Hnsw.new 2 10 8 [3, 4] : Res (Hnsw Int)) = .ok h := ⟨_, rfl⟩
  have e' : HDemo.seen (h.knnSearch HDemo.iops [3] 1) = some [(0, 0)] := by
    cases e
    decide +kernel
  obtain ⟨r, e1, e2⟩ := HDemo.seen_some e'
  exact ⟨h, r, .new e, e1, e2⟩

/-! ### C70, C71: `Flush` -/

theorem encFriend_eq (level id : Nat) : Friends.encFriend level id = friendBytes level id := by
  have e : ∀ n : Nat, UInt8.ofNat (n % 256) = UInt8.ofNat n := fun n => by
    apply UInt8.toNat_inj.1
    simp
  unfold Friends.encFriend friendBytes beBytes
  simp [leBytes, Nat.div_div_eq_div_mul, e]

theorem flushLoop_ok {D : Nat → Int} {f : Friends} (lv : Nat → Nat) : ∀ (n : Nat) (h : DistHeap), Sound D h →
    (∀ i ∈ ids h, f.maxLevels i = some (lv i)) →
    ∃ xs, Friends.flushLoop f n h = .ok (xs.flatMap (fun x => friendBytes (lv x.id) x.id) ++ List.replicate (5 * (n - xs.length)) 0) ∧
      NearestFirst h.items n xs := by
  intro n
  induction n with
  | zero =>
    intro h hs hm
    exact ⟨[], by simp [Friends.flushLoop], by simp, by simp, h.items, by simp, by simp⟩
  | succ n ih =>
    intro h hs hm
    unfold Friends.flushLoop
    by_cases h0 : h.len = 0
    · rw [if_pos h0]
      obtain ⟨xs, e, hl, hp, rest, hq, hr⟩ := ih h hs hm
      have hn : h.items = [] := List.length_eq_zero_iff.1 h0
      rw [hn] at hl
      have hx : xs = [] := List.length_eq_zero_iff.1 (by simpa using hl)
      subst hx
      rw [e]
      refine ⟨[], ?_, by simp [hn], by simp, h.items, by simp, by simp⟩
      simp only [Res.bind, List.flatMap_nil, List.nil_append, List.length_nil, Nat.sub_zero]
      rw [List.replicate_append_replicate]
      congr 2
      omega
    · rw [if_neg h0]
      obtain ⟨x, h', e, _, s', q, l⟩ := popMin_sound hs (len_pos.1 (by omega))
      have hsub : ∀ i ∈ ids h', i ∈ ids h := fun i hi => by
        obtain ⟨y, hy, rfl⟩ := List.mem_map.1 hi
        exact List.mem_map.2 ⟨y, q.mem_iff.1 (by simp [hy]), rfl⟩
      obtain ⟨xs, e', hl, hp, rest, hq, hr⟩ := ih h' s' fun i hi => hm i (hsub i hi)
      rw [e]
      simp only [Res.bind]
      unfold Friends.flushItem
      rw [hm x.id (List.mem_map.2 ⟨x, l.1, rfl⟩)]
      simp only
      rw [e']
      have hlen := q.length_eq
      simp only [List.length_cons] at hlen
      have hall : ∀ y ∈ xs ++ rest, x.dist ≤ y.dist := fun y hy =>
        l.2 y (q.mem_iff.1 (by simp [hq.mem_iff.1 hy]))
      refine ⟨x :: xs, ?_, by rw [List.length_cons, hl]; omega, ?_, rest, (hq.cons x).trans q, ?_⟩
      · simp only [Res.bind]
        rw [encFriend_eq]
        simp [Nat.add_sub_add_right]
      · exact List.pairwise_cons.2 ⟨fun y hy => hall y (by simp [hy]), hp⟩
      · intro y hy z hz
        rcases List.mem_cons.1 hy with rfl | hy
        · exact hall z (by simp [hz])
        · exact hr y hy z hz

/-- `Flush` never fails for a stored vector: it writes the nearest `n` neighbours, nearest first, five bytes each, with some
level the vector has; what is left is filled with zeros. -/
theorem C70_flush_partial (hs : SquareSym o) {h : Hnsw F} {ps : List (List F × Int)} (hr : HnswRun o h ps) {id : Nat} {p : List F × Int}
    (hp : ps[id]? = some p) (n : Nat) :
    ∃ (fr : Friends) (r : DistHeap) (xs : List HeapItem) (lv : Nat → Nat), h.neighborhood id = .ok fr ∧ fr.getAt 0 = .ok r ∧ NearestFirst r.items n xs ∧
      fr.flush n = .ok (xs.flatMap (fun x => friendBytes (lv x.id) x.id) ++ List.replicate (5 * (n - xs.length)) 0) ∧
      ∀ x ∈ xs, (lv x.id : Int) ≤ p.2 := by
  have hi := graph_inv hs hr
  obtain ⟨fr, hf, hlen⟩ := hi.level id p hp
  have hok := hi.core.ok id fr hf
  cases hls : fr.levels with
  | nil => exact absurd hls hok.ne
  | cons r ls =>
    have hmem : r ∈ fr.levels := by rw [hls]; simp
    obtain ⟨xs, e, hx⟩ := flushLoop_ok (f := fr) (fun i => (fr.maxLevels i).getD 0) n r (hok.sound r hmem) (fun i hi' => by
      obtain ⟨m, hm, _⟩ := hok.max r hmem i hi'
      rw [hm]; rfl)
    refine ⟨fr, r, xs, fun i => (fr.maxLevels i).getD 0, ?_, ?_, hx, ?_, fun x hxm => ?_⟩
    · unfold Hnsw.neighborhood; rw [hf]
    · unfold Friends.getAt; rw [hls]; rfl
    · unfold Friends.flush; rw [hls]; exact e
    · obtain ⟨_, _, rest, hperm, _⟩ := hx
      obtain ⟨m, hm, hml⟩ := hok.max r hmem x.id (List.mem_map.2 ⟨x, hperm.mem_iff.1 (by simp [hxm]), rfl⟩)
      show (((fr.maxLevels x.id).getD 0 : Nat) : Int) ≤ p.2
      rw [hm]
      show (m : Int) ≤ p.2
      omega

namespace HDemo

def okBytes : Res Bytes → Option Bytes
  | .ok b => some b
  | _ => none

def flushed (h : Hnsw Int) (id n : Nat) : Option Bytes := okBytes ((h.neighborhood id).bind fun fr => fr.flush n)

theorem flushed_some {h : Hnsw Int} {id n : Nat} {b : Bytes} (e : flushed h id n = some b) :
    ∃ fr, h.neighborhood id = .ok fr ∧ fr.flush n = .ok b := by
  unfold flushed okBytes at e
  split at e
  · rename_i b' hb
    cases e
    cases hn : h.neighborhood id with
    | ok fr => rw [hn] at hb; exact ⟨fr, rfl, hb⟩
    | err _ => rw [hn] at hb; cases hb
    | panic => rw [hn] at hb; cases hb
  · cases e

end HDemo

set_option maxRecDepth 100000 in
/-- Zeros also stand for the vector with id 0 on level 0, so the neighbours cannot be read back: here one vector has no
neighbours and another has one, and both give the same bytes. -/
theorem C70_readback_violated : ∃ (h h' : Hnsw Int) (ps ps' : List (List Int × Int)) (fr fr' : Friends) (r r' : DistHeap) (b : Bytes),
    HnswRun HDemo.iops h ps ∧ HnswRun HDemo.iops h' ps' ∧ h.neighborhood 0 = .ok fr ∧ h'.neighborhood 1 = .ok fr' ∧
    fr.flush 8 = .ok b ∧ fr'.flush 8 = .ok b ∧ fr.getAt 0 = .ok r ∧ fr'.getAt 0 = .ok r' ∧
    r.items.map (·.id) = [] ∧ r'.items.map (·.id) = [0] := by
  obtain ⟨h, hr, e⟩ := HDemo.get_run (ef := 10) (M := 8) (p := 0) (xs := [])
    (f := fun h => (HDemo.flushed h 0 8).bind fun b => (HDemo.seen (HDemo.nbs h 0 0)).bind fun l => some (b, l))
    (v := (List.replicate 40 0, [])) (by decide +kernel)
  obtain ⟨h', hr', e'⟩ := HDemo.get_run (ef := 10) (M := 8) (p := 0) (xs := [(1, 0)])
    (f := fun h => (HDemo.flushed h 1 8).bind fun b => (HDemo.seen (HDemo.nbs h 1 0)).bind fun l => some (b, l))
    (v := (List.replicate 40 0, [(0, 1)])) (by decide +kernel)
  simp only [Option.bind_eq_some_iff, Option.some.injEq, Prod.mk.injEq] at e e'
  obtain ⟨b, hb, l, hl, rfl, rfl⟩ := e
  obtain ⟨b', hb', l', hl', rfl, rfl⟩ := e'
  obtain ⟨fr, n1, f1⟩ := HDemo.flushed_some hb
  obtain ⟨fr', n2, f2⟩ := HDemo.flushed_some hb'
  obtain ⟨r, e1, e2⟩ := HDemo.seen_some hl
  obtain ⟨r', e3, e4⟩ := HDemo.seen_some hl'
  unfold HDemo.nbs at e1 e3
  rw [n1] at e1
  rw [n2] at e3
  refine ⟨h, h', _, _, fr, fr', r, r', _, hr, hr', n1, n2, f1, f2, e1, e3, ?_, ?_⟩
  · have : r.items.map (·.id) = (r.items.map fun x => (x.id, x.dist)).map (·.1) := by simp
    rw [this, e2]; rfl
  · have : r'.items.map (·.id) = (r'.items.map fun x => (x.id, x.dist)).map (·.1) := by simp
    rw [this, e4]; rfl

set_option maxRecDepth 100000 in
/-- The level written is not the highest on which the two are neighbours: id 2 and id 1 are neighbours on level 1, and the
byte is 0, because `InsertFriendsAtLevel` overwrites it on every lower level. -/
theorem C71_level_violated : ∃ (h : Hnsw Int) (ps : List (List Int × Int)) (fr : Friends) (r : DistHeap) (b : Bytes),
    HnswRun HDemo.iops h ps ∧ h.neighborhood 2 = .ok fr ∧ fr.getAt 1 = .ok r ∧ r.items.map (·.id) = [1] ∧
    fr.flush 2 = .ok b ∧ b = friendBytes 0 2 ++ friendBytes 0 1 := by
  obtain ⟨h, hr, e⟩ := HDemo.get_run (ef := 10) (M := 2) (p := 0) (xs := [(1, 1), (2, 1)])
    (f := fun h => (HDemo.flushed h 2 2).bind fun b => (HDemo.seen (HDemo.nbs h 2 1)).bind fun l => some (b, l))
    (v := (friendBytes 0 2 ++ friendBytes 0 1, [(1, 1)])) (by decide +kernel)
  simp only [Option.bind_eq_some_iff, Option.some.injEq, Prod.mk.injEq] at e
  obtain ⟨b, hb, l, hl, rfl, rfl⟩ := e
  obtain ⟨fr, n1, f1⟩ := HDemo.flushed_some hb
  obtain ⟨r, e1, e2⟩ := HDemo.seen_some hl
  unfold HDemo.nbs at e1
  rw [n1] at e1
  refine ⟨h, _, fr, r, _, hr, n1, e1, ?_, f1, rfl⟩
  have : r.items.map (·.id) = (r.items.map fun x => (x.id, x.dist)).map (·.1) := by simp
  rw [this, e2]; rfl

/-- With all levels 0 the level written is right. -/
theorem C71_level_partial (hs : SquareSym o) {h : Hnsw F} {ps : List (List F × Int)} (hr : HnswRun o h ps) (hz : ∀ p ∈ ps, p.2 = 0)
    {id : Nat} (hid : id < ps.length) (n : Nat) :
    ∃ fr r xs, h.neighborhood id = .ok fr ∧ fr.getAt 0 = .ok r ∧ (∀ k > 0, ∃ e, fr.getAt k = .err e) ∧ NearestFirst r.items n xs ∧
      fr.flush n = .ok (xs.flatMap (fun x => friendBytes 0 x.id) ++ List.replicate (5 * (n - xs.length)) 0) := by
  have hi := graph_inv hs hr
  obtain ⟨fr, r, xs, lv, h1, h2, h3, h4, h5⟩ := C70_flush_partial hs hr (List.getElem?_eq_getElem hid) n
  have h0 := hz _ (List.getElem_mem hid)
  have hlv : ∀ x ∈ xs, lv x.id = 0 := fun x hx => by have := h5 x hx; omega
  refine ⟨fr, r, xs, h1, h2, fun k hk => ?_, h3, ?_⟩
  · obtain ⟨fr', hf, hlen⟩ := hi.level id _ (List.getElem?_eq_getElem hid)
    unfold Hnsw.neighborhood at h1
    rw [hf] at h1
    cases h1
    unfold Friends.getAt
    rw [List.getElem?_eq_none (by omega)]
    exact ⟨_, rfl⟩
  · rw [h4]
    congr 2
    simp only [List.flatMap_def]
    congr 1
    exact List.map_congr_left fun x hx => by rw [hlv x hx]

end Appendable
