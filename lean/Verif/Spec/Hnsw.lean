import Verif.Model.Hnsw
/-! Histories of the proximity graph, and what its answers mean. -/
namespace Appendable.Spec

variable {F : Type}

/-- The distance of two points of the same dimension: the root of the sum of the squared differences. -/
def metric (o : FloatOps F) (p q : List F) : Int :=
  o.rootOrd ((p.zip q).foldl (fun acc x => o.add acc (o.mul (o.sub x.1 x.2) (o.sub x.1 x.2))) o.zero)

/-- `(a - b)² = (b - a)²`, which holds of floating point numbers exactly. -/
def SquareSym (o : FloatOps F) : Prop := ∀ a b, o.mul (o.sub a b) (o.sub a b) = o.mul (o.sub b a) (o.sub b a)

/-- Histories of a graph: created with one point, then insertions (each with some random level), some of which may have
been refused.  `ps` are the points inserted so far with their levels, in this order. -/
inductive HnswRun (o : FloatOps F) : Hnsw F → List (List F × Int) → Prop
  | new {d ef M : Nat} {p : List F} {h : Hnsw F} : Hnsw.new d ef M p = .ok h → HnswRun o h [(p, 0)]
  | insert {h h' : Hnsw F} {ps : List (List F × Int)} {q : List F} {level : Int} {id : Nat} : HnswRun o h ps →
      Hnsw.insertVector o q level h = (.ok id, h') → HnswRun o h' (ps ++ [(q, level)])
  | refused {h h' : Hnsw F} {ps : List (List F × Int)} {q : List F} {level : Int} {e : Err} : HnswRun o h ps →
      Hnsw.insertVector o q level h = (.err e, h') → HnswRun o h' ps

/-- `r` answers a search for `q`: distinct ids of points among `ps`, each with its distance from `q`. -/
def Hits (o : FloatOps F) (ps : List (List F × Int)) (q : List F) (r : List HeapItem) : Prop :=
  (r.map (·.id)).Nodup ∧ ∀ x ∈ r, ∃ p, ps[x.id]? = some p ∧ x.dist = metric o p.1 q

/-- `r` answers a search for the `k` nearest: besides, it has `k` items (or all of them, if there are not so many), and no
point left out is nearer than one in `r`. -/
def Nearest (o : FloatOps F) (ps : List (List F × Int)) (q : List F) (k : Nat) (r : List HeapItem) : Prop :=
  Hits o ps q r ∧ r.length = min k ps.length ∧
    ∀ (i : Nat) (p : List F × Int), ps[i]? = some p → i ∉ r.map (·.id) → ∀ x ∈ r, x.dist ≤ metric o p.1 q

/-- `id`, which is a stored vector, has the neighbours `r` on the level: what `Neighborhood` and `GetFriendsAtLevel` return. -/
def Neighbours (h : Hnsw F) (id level : Nat) (r : DistHeap) : Prop :=
  ∃ fr, h.neighborhood id = .ok fr ∧ fr.getAt level = .ok r

/-- `xs` are the `n` nearest of `all` (all of them, if there are not so many), nearest first. -/
def NearestFirst (all : List HeapItem) (n : Nat) (xs : List HeapItem) : Prop :=
  xs.length = min n all.length ∧ xs.Pairwise (fun a b => a.dist ≤ b.dist) ∧
    ∃ rest, (xs ++ rest).Perm all ∧ ∀ x ∈ xs, ∀ y ∈ rest, x.dist ≤ y.dist

/-- Five bytes for a neighbour: the level, and the id in four bytes, the highest first. -/
def friendBytes (level id : Nat) : Bytes :=
  [UInt8.ofNat level, UInt8.ofNat (id / 2 ^ 24), UInt8.ofNat (id / 2 ^ 16), UInt8.ofNat (id / 2 ^ 8), UInt8.ofNat id]

end Appendable.Spec
