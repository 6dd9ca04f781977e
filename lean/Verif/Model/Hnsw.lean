import Verif.Model.Heap
import Verif.Model.Encoding
/-! pkg/hnsw/friends.go and pkg/hnsw/hnsw.go: the proximity graph. -/
namespace Appendable

/-- The `float32` arithmetic of `EuclidDistance` on the numbers `F`.  `rootOrd` is `float32(math.Sqrt(float64(sum)))` as
the integer with the same position in the order of the numbers that are not NaN (see `HeapItem`); NaN is left out. -/
structure FloatOps (F : Type) where
  zero : F
  add : F → F → F
  sub : F → F → F
  mul : F → F → F
  rootOrd : F → Int

/-- The loop of pkg/hnsw/friends.go:110-113; `p1[i]` out of range panics. -/
def euclidSum {F : Type} (o : FloatOps F) : F → List F → List F → Res F
  | acc, [], _ => .ok acc
  | acc, a :: p0, b :: p1 => euclidSum o (o.add acc (o.mul (o.sub a b) (o.sub a b))) p0 p1
  | _, _ :: _, [] => .panic

/-- pkg/hnsw/friends.go:107-116 `EuclidDistance` -/
def euclid {F : Type} (o : FloatOps F) (p0 p1 : List F) : Res Int := (euclidSum o o.zero p0 p1).bind fun s => .ok (o.rootOrd s)

/-- pkg/hnsw/friends.go:12-15 `Friends` -/
structure Friends where
  levels : List DistHeap
  maxLevels : Nat → Option Nat

namespace Friends

/-- pkg/hnsw/friends.go:18-29 `NewFriends`, for a level that is not negative. -/
def new (topLevel : Nat) : Friends := ⟨List.replicate (topLevel + 1) DistHeap.new, fun _ => none⟩

/-- pkg/hnsw/friends.go:35-37 `TopLevel`; there is always a level 0, see `NewFriends`. -/
def topLevel (f : Friends) : Nat := f.levels.length - 1

/-- pkg/hnsw/friends.go:39-45 `HasLevel`; levels are natural numbers here. -/
def hasLevel (f : Friends) (level : Nat) : Bool := decide (level < f.levels.length)

/-- The loop of pkg/hnsw/friends.go:53-55 over the first `n` levels. -/
def insertLevels (id : Nat) (dist : Int) : Nat → List DistHeap → Res (List DistHeap)
  | 0, ls => .ok ls
  | _ + 1, [] => .panic
  | n + 1, l :: ls => (l.insert id dist).bind fun l' => (insertLevels id dist n ls).bind fun ls' => .ok (l' :: ls')

/-- pkg/hnsw/friends.go:48-58 `InsertFriendsAtLevel` -/
def insertAt (level id : Nat) (dist : Int) (f : Friends) : Res Friends :=
  if f.hasLevel level then (insertLevels id dist (level + 1) f.levels).bind fun ls =>
    .ok ⟨ls, DistHeap.upd f.maxLevels id (some level)⟩
  else .panic

/-- pkg/hnsw/friends.go:60-66 `GetFriendsAtLevel` -/
def getAt (f : Friends) (level : Nat) : Res DistHeap :=
  match f.levels[level]? with
  | some l => .ok l
  | none => .err (.msg "failed to get friends at level")

/-- One entry of the buffer, pkg/hnsw/friends.go:100-101: `byte(level)` and the low 32 bits of the id, big endian. -/
def encFriend (level id : Nat) : Bytes :=
  UInt8.ofNat level :: beBytes 4 id

/-- One round of the loop of pkg/hnsw/friends.go:82-102, given the rest of the loop. -/
def flushItem (f : Friends) (x : HeapItem) (rest : Res Bytes) : Res Bytes :=
  match f.maxLevels x.id with
  | none => .err (.msg "failed to find id in maxLevels map")
  | some l => rest.bind fun r => .ok (encFriend l x.id ++ r)

/-- The loop of pkg/hnsw/friends.go:82-102 on the copy of level 0; without items left the five bytes stay zero.
`Clone` (pkg/hnsw/heap.go:131-141) copies the slice and the map, so the original is not affected. -/
def flushLoop (f : Friends) : Nat → DistHeap → Res Bytes
  | 0, _ => .ok []
  | n + 1, h =>
    if h.len = 0 then (flushLoop f n h).bind fun r => .ok (List.replicate 5 0 ++ r)
    else h.popMin.bind fun (x, h') => f.flushItem x (flushLoop f n h')

/-- pkg/hnsw/friends.go:68-105 `Flush` -/
def flush (f : Friends) (numNeighbors : Nat) : Res Bytes :=
  match f.levels with
  | [] => .panic
  | l :: _ => f.flushLoop numNeighbors l

end Friends

/-- pkg/hnsw/hnsw.go:13-28 `Hnsw`.  The map `friends` has the keys `0, 1, …`, one for every point, and is a list here.
`levelMultiplier` is left out: the random level is an argument of `insertVector`.  `efConstruction` and `M` are natural
numbers. -/
structure Hnsw (F : Type) where
  dim : Nat
  entry : Nat
  points : List (List F)
  friends : List Friends
  ef : Nat
  M : Nat

/-- The variables of `searchLevel`. -/
structure SearchSt where
  visited : List Bool
  cand : DistHeap
  found : DistHeap

/-- The loops of pkg/hnsw/hnsw.go:233-238 and 296-301: remove the farthest until at most `k` are left. -/
def shrink (k : Int) : Nat → DistHeap → Res DistHeap
  | 0, _ => .panic
  | fuel + 1, h => if (h.len : Int) > k then h.popMax.bind fun (_, h') => shrink k fuel h' else .ok h

namespace Hnsw

variable {F : Type} (o : FloatOps F)

/-- pkg/hnsw/hnsw.go:39-62 `NewHnsw` -/
def new (d ef M : Nat) (p : List F) : Res (Hnsw F) :=
  if d = 0 ∨ p.length ≠ d then .panic else .ok ⟨d, 0, [p], [Friends.new 0], ef, M⟩

/-- pkg/hnsw/hnsw.go:30-37 `Neighborhood` -/
def neighborhood (h : Hnsw F) (id : Nat) : Res Friends :=
  match h.friends[id]? with
  | some f => .ok f
  | none => .err (.msg "node not found")

/-- pkg/hnsw/hnsw.go:118-127: insert into both heaps, and drop the farthest if there are too many. -/
def offer (num id : Nat) (d : Int) (furthest : HeapItem) (st : SearchSt) : Res SearchSt :=
  if d < furthest.dist ∨ st.found.len < num then
    (st.cand.insert id d).bind fun c =>
    (st.found.insert id d).bind fun f =>
    if f.len > num then f.popMax.bind fun (_, f') => .ok ⟨st.visited, c, f'⟩ else .ok ⟨st.visited, c, f⟩
  else .ok st

/-- pkg/hnsw/hnsw.go:107-127 for an id that was not visited. -/
def visitNew (h : Hnsw F) (q : List F) (num id : Nat) (st : SearchSt) : Res SearchSt :=
  st.found.peekMax.bind fun furthest =>
  match h.points[id]? with
  | none => .panic
  | some p => (euclid o p q).bind fun d => offer num id d furthest { st with visited := st.visited.set id true }

/-- One round of the loop of pkg/hnsw/hnsw.go:104-129. -/
def visit (h : Hnsw F) (q : List F) (num id : Nat) (st : SearchSt) : Res SearchSt :=
  match st.visited[id]? with
  | none => .panic
  | some true => .ok st
  | some false => h.visitNew o q num id st

/-- The loop of pkg/hnsw/hnsw.go:104-129. -/
def visitAll (h : Hnsw F) (q : List F) (num : Nat) : List HeapItem → SearchSt → Res SearchSt
  | [], st => .ok st
  | x :: xs, st => (h.visit o q num x.id st).bind fun st' => visitAll h q num xs st'

/-- pkg/hnsw/hnsw.go:99-129: the friends of the candidate; a missing entry of the map is a nil pointer. -/
def expand (h : Hnsw F) (q : List F) (num level id : Nat) (st : SearchSt) : Res SearchSt :=
  match h.friends[id]? with
  | none => .panic
  | some fr => (fr.getAt level).bind fun l => h.visitAll o q num l.items st

/-- The loop of pkg/hnsw/hnsw.go:82-131.  `fuel` bounds the number of rounds. -/
def searchLoop (h : Hnsw F) (q : List F) (num level : Nat) : Nat → SearchSt → Res DistHeap
  | 0, _ => .panic
  | fuel + 1, st =>
    if st.cand.len = 0 then .ok st.found
    else
      st.cand.popMin.bind fun (c, cand) =>
      st.found.peekMax.bind fun furthest =>
      if c.dist > furthest.dist then .ok st.found
      else (h.expand o q num level c.id { st with cand := cand }).bind fun st' => searchLoop h q num level fuel st'

/-- pkg/hnsw/hnsw.go:72-134 `searchLevel` -/
def searchLevel (h : Hnsw F) (q : List F) (ep : HeapItem) (num level : Nat) : Res DistHeap :=
  (DistHeap.new.insert ep.id ep.dist).bind fun c =>
  (DistHeap.new.insert ep.id ep.dist).bind fun f =>
  h.searchLoop o q num level (h.friends.length + 3) ⟨List.replicate (h.friends.length + 1) false, c, f⟩

/-- `if err != nil { panic(err) }` -/
def orPanic {α : Type} : Res α → Res α
  | .err _ => .panic
  | r => r

/-- The loop of pkg/hnsw/hnsw.go:145-162, from the level given down to `stop + 1`. -/
def closerLoop (h : Hnsw F) (q : List F) (stop : Nat) : Nat → HeapItem → Res HeapItem
  | 0, ep => .ok ep
  | level + 1, ep =>
    if level + 1 > stop then
      (orPanic (h.searchLevel o q ep 1 (level + 1))).bind fun nn =>
      if nn.len = 0 then .ok ep else (orPanic nn.popMin).bind fun (x, _) => closerLoop h q stop level x
    else .ok ep

/-- The entry point and the number of its levels; a missing map entry panics, pkg/hnsw/hnsw.go:137-144 and 263-275. -/
def entryItem (h : Hnsw F) (dist : List F → Res Int) : Res (HeapItem × Nat) :=
  match h.friends[h.entry]?, h.points[h.entry]? with
  | some fr, some p => (dist p).bind fun d => .ok (⟨h.entry, d⟩, fr.topLevel)
  | _, _ => .panic

/-- pkg/hnsw/hnsw.go:136-165 `findCloserEntryPoint` -/
def findCloser (h : Hnsw F) (q : List F) (qTop : Nat) : Res HeapItem :=
  (h.entryItem (fun p => euclid o p q)).bind fun (ep, top) => h.closerLoop o q (qTop + 1) top ep

/-- The loop of pkg/hnsw/hnsw.go:174-182; it returns the items and what is left of the heap. -/
def popN : Nat → DistHeap → Res (List HeapItem × DistHeap)
  | 0, nn => .ok ([], nn)
  | n + 1, nn => nn.popMin.bind fun (x, nn') => (popN n nn').bind fun (xs, r) => .ok (x :: xs, r)

/-- pkg/hnsw/hnsw.go:167-185 `selectNeighbors` -/
def select (M : Nat) (nn : DistHeap) : Res (List HeapItem × DistHeap) :=
  if nn.len ≤ M then .ok (nn.items, nn) else popN M nn

/-- `h.friends[id]` changed by `f`; a missing entry is a nil pointer. -/
def modFriend (h : Hnsw F) (id : Nat) (f : Friends → Res Friends) : Res (Hnsw F) :=
  match h.friends[id]? with
  | none => .panic
  | some fr => (f fr).bind fun fr' => .ok { h with friends := h.friends.set id fr' }

/-- pkg/hnsw/hnsw.go:221-224 -/
def link (q : List F) (qId level id : Nat) (h : Hnsw F) : Res (Hnsw F) :=
  match h.points[id]? with
  | none => .panic
  | some p => (euclid o p q).bind fun d =>
    (h.modFriend id (Friends.insertAt level qId d)).bind fun h1 => h1.modFriend qId (Friends.insertAt level id d)

/-- The loop of pkg/hnsw/hnsw.go:220-225. -/
def linkAll (q : List F) (qId level : Nat) : List HeapItem → Hnsw F → Res (Hnsw F)
  | [], h => .ok h
  | x :: xs, h => (link o q qId level x.id h).bind fun h' => linkAll q qId level xs h'

/-- pkg/hnsw/hnsw.go:228-240 for one neighbour. -/
def pruneFriend (M level : Nat) (f : Friends) : Res Friends :=
  (f.getAt level).bind fun l => (shrink M (l.len + 1) l).bind fun l' => .ok { f with levels := f.levels.set level l' }

/-- The loop of pkg/hnsw/hnsw.go:227-241. -/
def pruneAll (level : Nat) : List HeapItem → Hnsw F → Res (Hnsw F)
  | [], h => .ok h
  | x :: xs, h => (h.modFriend x.id (pruneFriend h.M level)).bind fun h' => pruneAll level xs h'

/-- The loop of pkg/hnsw/hnsw.go:207-249 over the levels below the number given. -/
def connect (q : List F) (qId : Nat) : Nat → HeapItem → Hnsw F → Res (Hnsw F)
  | 0, _, h => .ok h
  | level + 1, ep, h =>
    (h.searchLevel o q ep h.ef level).bind fun nn =>
    (select h.M nn).bind fun (nbs, nn') =>
    (linkAll o q qId level nbs h).bind fun h1 =>
    (pruneAll level nbs h1).bind fun h2 =>
    nn'.popMin.bind fun (x, _) => connect q qId level x h2

/-- pkg/hnsw/hnsw.go:201-203: register the new point. -/
def register (h : Hnsw F) (q : List F) (qTop : Nat) : Hnsw F :=
  { h with friends := h.friends ++ [Friends.new qTop], points := h.points ++ [q] }

/-- pkg/hnsw/hnsw.go:205-249 -/
def wire (h : Hnsw F) (q : List F) (qId top qTop : Nat) : Res (Hnsw F) :=
  (h.findCloser o q qTop).bind fun ep => connect o q qId (min top qTop + 1) ep h

/-- pkg/hnsw/hnsw.go:251-255 -/
def finish (qId top qTop : Nat) (h1 : Hnsw F) : Res (Hnsw F) → Res Nat × Hnsw F
  | .ok h2 => (.ok qId, if qTop > top then { h2 with entry := qId } else h2)
  | .err e => (.err e, h1)
  | .panic => (.panic, h1)

/-- pkg/hnsw/hnsw.go:192-255 after the check of the dimension; a nil pointer panics. -/
def insertAtLevel (h : Hnsw F) (q : List F) (level : Int) : Option Friends → Res Nat × Hnsw F
  | none => (.panic, h)
  | some fr =>
    if level < 0 then (.panic, h)
    else finish h.points.length fr.topLevel level.toNat (h.register q level.toNat)
      ((h.register q level.toNat).wire o q h.points.length fr.topLevel level.toNat)

/-- pkg/hnsw/hnsw.go:187-256 `InsertVector`; `level` is what `SpawnLevel` (line 64-66) returns.  If it fails after the
point was registered, the state given here is that of line 203 (this does not happen, see `C65_insert`). -/
def insertVector (q : List F) (level : Int) : Act (Hnsw F) Nat := fun h =>
  if q.length ≠ h.dim then (.err (.msg "invalid vector dimensionality"), h)
  else h.insertAtLevel o q level h.friends[h.entry]?

/-- The loop of pkg/hnsw/hnsw.go:277-288. -/
def knnLoop (h : Hnsw F) (q : List F) : Nat → HeapItem → Res HeapItem
  | 0, ep => .ok ep
  | level + 1, ep => (h.searchLevel o q ep 1 (level + 1)).bind fun nn => nn.peekMin.bind fun x => knnLoop h q level x

/-- pkg/hnsw/hnsw.go:262-304 `KnnSearch` -/
def knnSearch (h : Hnsw F) (q : List F) (k : Int) : Res DistHeap :=
  (h.entryItem (fun p => euclid o q p)).bind fun (ep, top) =>
  (h.knnLoop o q top ep).bind fun x =>
  (h.searchLevel o q x h.ef 0).bind fun nn => shrink k (nn.len + 1) nn

end Hnsw
end Appendable
