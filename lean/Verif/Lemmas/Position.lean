import Verif.Model.Csv
import Verif.Model.VecTree
import Verif.Lemmas.Writes
/-! The position in the file that a call leaves behind does not matter to the next call, and look-ups change nothing but that
position. -/
namespace Appendable
open Tree

/-- The same page file with the file position at `p`. -/
def PF.posAt (s : PF) (p : Nat) : PF := { s with file := { s.file with pos := p } }

@[simp] theorem posAt_posAt (s : PF) (p q : Nat) : (s.posAt p).posAt q = s.posAt q := rfl
theorem posAt_self (s : PF) : s.posAt s.file.pos = s := rfl

/-- Outcome and effect do not depend on the position. -/
def PosFree {α : Type} (a : Act PF α) : Prop := ∀ s q, ∃ p, a (s.posAt q) = ((a s).1, (a s).2.posAt p)

/-- ... and after success not even the final position does. -/
def Settles {α : Type} (a : Act PF α) : Prop :=
  ∀ s q, a (s.posAt q) = a s ∨ ((∀ x, (a s).1 ≠ .ok x) ∧ ∃ p, a (s.posAt q) = ((a s).1, (a s).2.posAt p))

/-- Nothing changes but the position. -/
def ReadOnly {α : Type} (a : Act PF α) : Prop := ∀ s, ∃ p, (a s).2 = s.posAt p

section
variable {α β : Type}

theorem Settles.free {a : Act PF α} (h : Settles a) : PosFree a := by
  intro s q
  rcases h s q with h | ⟨_, h⟩
  · exact ⟨(a s).2.file.pos, h⟩
  · exact h

theorem PosFree.still {a : Act PF α} (g : PF → PF) (r : Res α) (h : ∀ s, a s = (r, g s)) (hg : ∀ s q, g (s.posAt q) = (g s).posAt q) :
    PosFree a := by
  intro s q
  refine ⟨q, ?_⟩
  rw [h, h, hg]

theorem PosFree.pure (a : α) : PosFree (Pure.pure a : Act PF α) := PosFree.still id (.ok a) (fun _ => rfl) (fun _ _ => rfl)
theorem PosFree.throw (e : Err) : PosFree (Act.throw e : Act PF α) := PosFree.still id (.err e) (fun _ => rfl) (fun _ _ => rfl)
theorem PosFree.crash : PosFree (Act.crash : Act PF α) := PosFree.still id .panic (fun _ => rfl) (fun _ _ => rfl)
theorem PosFree.lift (r : Res α) : PosFree (Act.lift r : Act PF α) := PosFree.still id r (fun _ => rfl) (fun _ _ => rfl)
theorem Settles.throw (e : Err) : Settles (Act.throw e : Act PF α) := fun _ q => Or.inr ⟨(by simp), q, rfl⟩
theorem Settles.crash : Settles (Act.crash : Act PF α) := fun _ q => Or.inr ⟨(by simp), q, rfl⟩

theorem PosFree.attempt {a : Act PF α} {k : Res α → Act PF β} (h : PosFree a) (g : ∀ r, PosFree (k r)) :
    PosFree (fun s => k (a s).1 (a s).2) := by
  intro s q
  obtain ⟨p, h1⟩ := h s q
  obtain ⟨p', h2⟩ := g (a s).1 (a s).2 p
  exact ⟨p', by simp only [h1, h2]⟩

theorem bind_attempt (a : Act PF α) (f : α → Act PF β) : (a >>= f) = fun s => (fun r : Res α => match r with
      | .ok x => f x
      | .err e => Act.throw e
      | .panic => Act.crash : Res α → Act PF β) (a s).1 (a s).2 := by
  funext s
  rw [Act.bind_def]
  generalize a s = x
  obtain ⟨r, s'⟩ := x
  cases r <;> rfl

theorem PosFree.bind {a : Act PF α} {f : α → Act PF β} (h : PosFree a) (g : ∀ x, PosFree (f x)) : PosFree (a >>= f) := by
  rw [bind_attempt]
  refine PosFree.attempt (k := fun r : Res α => match r with
      | .ok x => f x
      | .err e => Act.throw e
      | .panic => Act.crash) h (fun r => ?_)
  cases r with
  | ok x => exact g x
  | err e => exact PosFree.throw e
  | panic => exact PosFree.crash

/-- After a call that settles the position anything may follow. -/
theorem Settles.bind {a : Act PF α} (h : Settles a) (f : α → Act PF β) : Settles (a >>= f) := by
  intro s q
  rw [Act.bind_def, Act.bind_def]
  rcases h s q with h | ⟨h1, p, h2⟩
  · rw [h]; exact Or.inl rfl
  · rw [h2]
    generalize a s = x at *
    obtain ⟨r, s'⟩ := x
    cases r with
    | ok x => exact absurd rfl (h1 x)
    | err e => exact Or.inr ⟨by simp, p, rfl⟩
    | panic => exact Or.inr ⟨by simp, p, rfl⟩

theorem PosFree.bindSettles {a : Act PF α} {f : α → Act PF β} (h : PosFree a) (g : ∀ x, Settles (f x)) : Settles (a >>= f) := by
  intro s q
  rw [Act.bind_def, Act.bind_def]
  obtain ⟨p, h1⟩ := h s q
  rw [h1]
  generalize a s = x at *
  obtain ⟨r, s'⟩ := x
  cases r with
  | ok x => exact g x s' p
  | err e => exact Or.inr ⟨by simp, p, rfl⟩
  | panic => exact Or.inr ⟨by simp, p, rfl⟩

/-- An operation that looks at the state, but not at the position. -/
theorem PosFree.dep {f : PF → Act PF α} (h : ∀ x, PosFree (f x)) (hf : ∀ q s, f (s.posAt q) = f s) : PosFree (fun s => f s s) := by
  intro s q
  obtain ⟨p, h1⟩ := h s s q
  exact ⟨p, by simp only [hf, h1]⟩
theorem Settles.dep {f : PF → Act PF α} (h : ∀ x, Settles (f x)) (hf : ∀ q s, f (s.posAt q) = f s) : Settles (fun s => f s s) := by
  intro s q
  simp only [hf]
  exact h s s q
theorem PosFree.getBind {f : PF → Act PF α} (h : ∀ x, PosFree (f x)) (hf : ∀ q s, f (s.posAt q) = f s) : PosFree (Act.get >>= f) :=
  PosFree.dep (f := f) h hf

theorem ReadOnly.same {a : Act PF α} (h : ∀ s, (a s).2 = s) : ReadOnly a := fun s => ⟨s.file.pos, h s⟩
theorem ReadOnly.pure (a : α) : ReadOnly (Pure.pure a : Act PF α) := ReadOnly.same fun _ => rfl
theorem ReadOnly.throw (e : Err) : ReadOnly (Act.throw e : Act PF α) := ReadOnly.same fun _ => rfl
theorem ReadOnly.crash : ReadOnly (Act.crash : Act PF α) := ReadOnly.same fun _ => rfl
theorem ReadOnly.lift (r : Res α) : ReadOnly (Act.lift r : Act PF α) := ReadOnly.same fun _ => rfl
theorem ReadOnly.attempt {a : Act PF α} {k : Res α → Act PF β} (h : ReadOnly a) (g : ∀ r, ReadOnly (k r)) :
    ReadOnly (fun s => k (a s).1 (a s).2) := by
  intro s
  obtain ⟨p, h1⟩ := h s
  obtain ⟨p', h2⟩ := g (a s).1 (a s).2
  exact ⟨p', h2.trans (by rw [h1]; rfl)⟩
theorem ReadOnly.bind {a : Act PF α} {f : α → Act PF β} (h : ReadOnly a) (g : ∀ x, ReadOnly (f x)) : ReadOnly (a >>= f) := by
  rw [bind_attempt]
  refine ReadOnly.attempt (k := fun r : Res α => match r with
      | .ok x => f x
      | .err e => Act.throw e
      | .panic => Act.crash) h (fun r => ?_)
  cases r with
  | ok x => exact g x
  | err e => exact ReadOnly.throw e
  | panic => exact ReadOnly.crash
theorem ReadOnly.dep {f : PF → Act PF α} (h : ∀ x, ReadOnly (f x)) : ReadOnly (fun s => f s s) := fun s => h s s
end

/-! ### The file -/

theorem seekAbs_pos (x : Int) (s : PF) :
    ∃ p, (PF.onFile (File.seekAbs x) s).2 = s.posAt p := by
  unfold PF.onFile File.seekAbs
  simp only
  split
  · split
    · exact ⟨s.file.pos, rfl⟩
    · split
      · exact ⟨s.file.pos, rfl⟩
      · exact ⟨_, rfl⟩
  · exact ⟨_, rfl⟩

theorem Settles.seekAbs (x : Int) : Settles (PF.onFile (File.seekAbs x)) := by
  intro s q
  obtain ⟨⟨kind, bytes, pos, bud⟩, ring, head, count, lp⟩ := s
  unfold PF.onFile File.seekAbs PF.posAt
  cases kind with
  | buffer => exact Or.inl rfl
  | mmap =>
    simp only
    split
    · exact Or.inr ⟨by simp, q, rfl⟩
    · split
      · exact Or.inr ⟨by simp, q, rfl⟩
      · exact Or.inl rfl

theorem Settles.seekStart (x : Int) : Settles (PF.onFile (File.seekStart x)) := Settles.seekAbs x
theorem Settles.seek (x : Int) : Settles (PF.seek x) := Settles.seekAbs x
theorem Settles.seekEnd (x : Int) : Settles (PF.onFile (File.seekEnd x)) :=
  Settles.dep (f := fun s => PF.onFile (File.seekAbs (s.file.bytes.length + x))) (fun _ => Settles.seekAbs _) (fun _ _ => rfl)

theorem ReadOnly.seek (x : Int) : ReadOnly (PF.seek x) := fun s => seekAbs_pos x s
theorem ReadOnly.seekStart (x : Int) : ReadOnly (PF.onFile (File.seekStart x)) := fun s => seekAbs_pos x s
theorem ReadOnly.seekCur (x : Int) : ReadOnly (PF.onFile (File.seekCur x)) := fun s => seekAbs_pos (s.file.pos + x) s
theorem ReadOnly.fileRead (n : Nat) : ReadOnly (PF.onFile (File.read n)) := by
  intro s
  unfold PF.onFile File.read
  simp only
  split
  · split
    · exact ⟨s.file.pos, rfl⟩
    · exact ⟨_, rfl⟩
  · split
    · exact ⟨s.file.pos, rfl⟩
    · exact ⟨_, rfl⟩

macro "reads" : tactic => `(tactic| repeat' (first
  | with_reducible exact ReadOnly.pure _ | with_reducible exact ReadOnly.throw _ | with_reducible exact ReadOnly.crash
  | with_reducible exact ReadOnly.lift _
  | with_reducible exact ReadOnly.seek _ | with_reducible exact ReadOnly.seekStart _
  | with_reducible exact ReadOnly.seekCur _ | with_reducible exact ReadOnly.fileRead _
  | with_reducible assumption
  | with_reducible (refine ReadOnly.bind ?_ ?_) | with_reducible intro _ | split | with_reducible solve_by_elim))

macro "posfree" : tactic => `(tactic| repeat' (first
  | with_reducible exact PosFree.pure _ | with_reducible exact PosFree.throw _ | with_reducible exact PosFree.crash
  | with_reducible exact PosFree.lift _
  | with_reducible exact Settles.free (Settles.seek _) | with_reducible exact Settles.free (Settles.bind (Settles.seek _) _)
  | with_reducible assumption
  | with_reducible (refine PosFree.bind ?_ ?_) | with_reducible intro _ | split | with_reducible solve_by_elim))

theorem ReadOnly.read (n : Nat) : ReadOnly (PF.read n) := by unfold PF.read; reads
theorem ReadOnly.readFull (n : Nat) : ReadOnly (PF.readFull n) := by unfold PF.readFull; have := ReadOnly.read n; reads

/-! ### Allocation -/

theorem PosFree.writeFree : PosFree PF.writeFreePageIndices := by
  rw [writeFree_eq]
  refine PosFree.dep (fun x => ?_) (fun b s => rfl)
  unfold writeFreeOf
  split
  · exact PosFree.crash
  · exact (Settles.bind (Settles.seekStart _) _).free

theorem PosFree.freePageIndex : PosFree PF.freePageIndex := by
  have hset : PosFree (fun s => (.ok (), { s with ring := s.ring.set s.tail 0, count := s.count - 1 }) : Act PF Unit) :=
    PosFree.still (fun s => { s with ring := s.ring.set s.tail 0, count := s.count - 1 }) (.ok ()) (fun _ => rfl) (fun _ _ => rfl)
  rw [freePage_eq]
  refine PosFree.dep (fun x => ?_) (fun b s => rfl)
  unfold freePageOf
  split
  · exact PosFree.pure _
  · split
    · exact PosFree.crash
    · exact PosFree.bind hset (fun _ => PosFree.bind PosFree.writeFree (fun _ => PosFree.pure _))

theorem Settles.newPage (b : Option Bytes) : Settles (PF.newPage b) := by
  unfold PF.newPage
  simp only
  split
  · exact Settles.throw _
  · refine PosFree.bindSettles PosFree.freePageIndex (fun off => Settles.bind ?_ _)
    split
    · exact Settles.bind (Settles.seekStart _) _
    · exact Settles.bind (Settles.seekEnd _) _

theorem PosFree.newPage (b : Option Bytes) : PosFree (PF.newPage b) := (Settles.newPage b).free

theorem PosFree.freePage (o : Int) : PosFree (PF.freePage o) := by
  have hset : PosFree (fun s => (.ok (), { s with ring := s.ring.set s.head o, head := (s.head + 1) % ringSize, count := s.count + 1 }) : Act PF Unit) :=
    PosFree.still (fun s => { s with ring := s.ring.set s.head o, head := (s.head + 1) % ringSize, count := s.count + 1 }) (.ok ())
      (fun _ => rfl) (fun _ _ => rfl)
  have h := PosFree.dep (f := fun s => if o.tmod pageSize ≠ 0 then Act.throw (.msg "offset is not a multiple of the page size")
      else if s.count = ringSize then Act.throw (.msg "free page index is full")
      else if s.ring.any (· == o) then Act.throw (.msg "offset already exists")
      else (fun s => (.ok (), { s with ring := s.ring.set s.head o, head := (s.head + 1) % ringSize, count := s.count + 1 }) : Act PF Unit)
        >>= fun _ => PF.writeFreePageIndices) (by
      intro x
      have := PosFree.writeFree
      split
      · exact PosFree.throw _
      · split
        · exact PosFree.throw _
        · split
          · exact PosFree.throw _
          · exact PosFree.bind hset (fun _ => this)) (fun _ _ => rfl)
  refine cast (congrArg PosFree ?_) h
  funext s
  unfold PF.freePage
  split
  · rfl
  · split
    · rfl
    · split <;> rfl

/-! ### Trees -/

theorem PosFree.setRootAt (p : Nat) (m : MemPtr) : PosFree (setRootAt p m) := (Settles.bind (Settles.seek _) _).free
theorem PosFree.rootAt (p : Nat) : PosFree (rootAt p) := (Settles.bind (Settles.seek _) _).free
theorem ReadOnly.rootAt (p : Nat) : ReadOnly (rootAt p) := by
  unfold Appendable.rootAt; have := ReadOnly.readFull 12; reads
theorem PosFree.readNode (t : Tree) (p : MemPtr) : PosFree (t.readNode p) := (Settles.bind (Settles.seek _) _).free
theorem ReadOnly.readNode (t : Tree) (p : MemPtr) : ReadOnly (t.readNode p) := by
  unfold Tree.readNode; have := ReadOnly.read pageSize; reads

/-- `Tree.root` after the root pointer has been read. -/
def rootWith (t : Tree) (r : Res MemPtr) : Act PF (Option (Node × MemPtr)) :=
  match r with
  | .panic => Act.crash
  | .err _ => Pure.pure none
  | .ok mp => if mp.length = 0 then Pure.pure none else do
    let n ← t.readNode mp
    return some (n, mp)

theorem root_attempt (t : Tree) :
    t.root = fun s => rootWith t (Appendable.rootAt t.rootPos s).1 (Appendable.rootAt t.rootPos s).2 := by
  funext s
  unfold Tree.root rootWith
  generalize Appendable.rootAt t.rootPos s = x
  obtain ⟨r, s'⟩ := x
  cases r with
  | ok mp => simp only; split <;> rfl
  | err e => rfl
  | panic => rfl
theorem PosFree.root (t : Tree) : PosFree t.root := by
  rw [root_attempt]
  refine PosFree.attempt (PosFree.rootAt t.rootPos) (fun r => ?_)
  have := PosFree.readNode t
  unfold rootWith
  cases r <;> simp only <;> posfree
theorem ReadOnly.root (t : Tree) : ReadOnly t.root := by
  rw [root_attempt]
  refine ReadOnly.attempt (ReadOnly.rootAt t.rootPos) (fun r => ?_)
  have := ReadOnly.readNode t
  unfold rootWith
  cases r <;> simp only <;> reads

theorem PosFree.traverse (t : Tree) (key : RV) (fuel : Nat) (n : Node) (p : MemPtr) : PosFree (t.traverse key fuel n p) := by
  induction fuel generalizing n p with
  | zero => exact PosFree.crash
  | succ fuel ih =>
    unfold Tree.traverse
    simp only
    have := PosFree.readNode t
    posfree
theorem ReadOnly.traverse (t : Tree) (key : RV) (fuel : Nat) (n : Node) (p : MemPtr) : ReadOnly (t.traverse key fuel n p) := by
  induction fuel generalizing n p with
  | zero => exact ReadOnly.crash
  | succ fuel ih =>
    unfold Tree.traverse
    simp only
    have := ReadOnly.readNode t
    reads

theorem PosFree.writeNode (t : Tree) (o : UInt64) (n : Node) : PosFree (t.writeNode o n) := (Settles.bind (Settles.seek _) _).free
theorem PosFree.writeOrSplit (t : Tree) (tr : TRec) : PosFree (t.writeOrSplit tr) := by
  unfold Tree.writeOrSplit
  have h1 := PosFree.writeNode t; have h2 := PosFree.newPage
  simp only
  posfree
theorem PosFree.newRoot (t : Tree) (k : RV) (n m : UInt64) : PosFree (t.newRoot k n m) := by
  unfold Tree.newRoot
  have h1 := PosFree.setRootAt t.rootPos; have h2 := PosFree.newPage
  posfree
theorem PosFree.insertLoop (t : Tree) (tr : TRec) (rest : List TRec) : PosFree (t.insertLoop tr rest) := by
  induction rest generalizing tr with
  | nil =>
    unfold Tree.insertLoop
    have h1 := PosFree.writeOrSplit t tr; have h2 := PosFree.newRoot t
    posfree
  | cons p rest ih =>
    unfold Tree.insertLoop
    have h1 := PosFree.writeOrSplit t tr
    posfree
theorem PosFree.insert (t : Tree) (key : RV) (v : MemPtr) : PosFree (t.insert key v) := by
  unfold Tree.insert
  have h1 := PosFree.root t; have h2 := PosFree.newPage; have h3 := PosFree.setRootAt t.rootPos
  have h4 := PosFree.traverse t key; have h5 := PosFree.insertLoop t
  split
  · exact PosFree.throw _
  · refine PosFree.bind h1 (fun r => ?_)
    cases r with
    | none => simp only; posfree
    | some x =>
      obtain ⟨a, b⟩ := x
      simp only
      refine PosFree.getBind (fun s => ?_) (fun b s => rfl)
      posfree

/-! ### Iterators -/

/-- `Iter.init` after the path has been read. -/
def pathWith (it : Iter) (r : Res (List TRec)) : Act PF (Bool × Iter) :=
  match r with
  | .panic => Act.crash
  | .err e => Pure.pure (false, { it with err := some e })
  | .ok path => Pure.pure (true, { it with records := some path })

/-- ... with the fuel of the state `x`. -/
def pathOf (t : Tree) (it : Iter) (n : Node) (m : MemPtr) (x : PF) : Act PF (Bool × Iter) := fun s =>
  pathWith it (t.traverse it.key (fuel x) n m s).1 (t.traverse it.key (fuel x) n m s).2

/-- `Iter.init` after the root has been read. -/
def initWith (t : Tree) (it : Iter) (r : Res (Option (Node × MemPtr))) : Act PF (Bool × Iter) :=
  match r with
  | .panic => Act.crash
  | .err e => Pure.pure (false, { it with err := some e })
  | .ok none => Pure.pure (false, it)
  | .ok (some (root, rootOffset)) => fun s => pathOf t it root rootOffset s s

theorem init_eq (t : Tree) (it : Iter) : it.init t = fun s => initWith t it (t.root s).1 (t.root s).2 := by
  funext s
  unfold Iter.init initWith
  generalize t.root s = x
  obtain ⟨r, s1⟩ := x
  cases r with
  | panic => rfl
  | err e => rfl
  | ok o =>
    cases o with
    | none => rfl
    | some y =>
      obtain ⟨n, m⟩ := y
      unfold pathOf pathWith
      simp only
      generalize t.traverse it.key (fuel s1) n m s1 = z
      obtain ⟨r, s2⟩ := z
      cases r <;> rfl

theorem PosFree.init (t : Tree) (it : Iter) : PosFree (it.init t) := by
  rw [init_eq]
  refine PosFree.attempt (PosFree.root t) (fun r => ?_)
  unfold initWith
  split
  · exact PosFree.crash
  · exact PosFree.pure _
  · exact PosFree.pure _
  · refine PosFree.dep (fun x => ?_) (fun _ _ => rfl)
    refine PosFree.attempt (PosFree.traverse t it.key _ _ _) (fun r => ?_)
    unfold pathWith
    cases r <;> posfree

theorem ReadOnly.init (t : Tree) (it : Iter) : ReadOnly (it.init t) := by
  rw [init_eq]
  refine ReadOnly.attempt (ReadOnly.root t) (fun r => ?_)
  unfold initWith
  split
  · exact ReadOnly.crash
  · exact ReadOnly.pure _
  · exact ReadOnly.pure _
  · refine ReadOnly.dep (fun x => ?_)
    refine ReadOnly.attempt (ReadOnly.traverse t it.key _ _ _) (fun r => ?_)
    unfold pathWith
    cases r <;> reads

/-- The end of `incr` after a node has been read. -/
def incrWith (r : TRec) (rs' : List TRec) (index : Int) (left : Bool) (x : Res Node) : Act PF (Bool × List TRec × Option Err) :=
  match x with
  | .panic => Act.crash
  | .err e => Pure.pure (false, { r with index := index } :: rs', some e)
  | .ok node => Pure.pure (true, { r with node := node, index := if left then (node.numPointers : Int) - 1 else 0 } :: rs', none)

theorem incr_node (t : Tree) (r : TRec) (rs' : List TRec) (index : Int) (ptr : MemPtr) :
    (fun s => match t.readNode ptr s with
      | (.panic, s1) => (.panic, s1)
      | (.err e, s1) => (.ok (false, { r with index := index } :: rs', some e), s1)
      | (.ok node, s1) =>
        let index' : Int := if index < 0 then (node.numPointers : Int) - 1 else 0
        (.ok (true, { r with node := node, index := index' } :: rs', none), s1) : Act PF (Bool × List TRec × Option Err)) =
    fun s => incrWith r rs' index (decide (index < 0)) (t.readNode ptr s).1 (t.readNode ptr s).2 := by
  funext s
  unfold incrWith
  generalize t.readNode ptr s = x
  obtain ⟨x, s1⟩ := x
  cases x with
  | panic => rfl
  | err e => rfl
  | ok n => by_cases h : index < 0 <;> simp [h]

theorem PosFree.incr (t : Tree) (δ : Int) (rs : List TRec) : PosFree (t.incr δ rs) := by
  induction rs with
  | nil => exact PosFree.pure _
  | cons r rs ih =>
    unfold Tree.incr
    simp only
    split
    · refine PosFree.bind ih (fun x => ?_)
      obtain ⟨ok, rs', e⟩ := x
      simp only
      split
      · exact PosFree.pure _
      · split
        · exact PosFree.crash
        · split
          · exact PosFree.crash
          · split
            · exact PosFree.crash
            · rename_i ptr _
              refine cast (congrArg PosFree (incr_node t r _ _ ptr).symm) ?_
              refine PosFree.attempt (PosFree.readNode t ptr) (fun x => ?_)
              unfold incrWith
              cases x <;> posfree
    · exact PosFree.pure _

theorem ReadOnly.incr (t : Tree) (δ : Int) (rs : List TRec) : ReadOnly (t.incr δ rs) := by
  induction rs with
  | nil => exact ReadOnly.pure _
  | cons r rs ih =>
    unfold Tree.incr
    simp only
    split
    · refine ReadOnly.bind ih (fun x => ?_)
      obtain ⟨ok, rs', e⟩ := x
      simp only
      split
      · exact ReadOnly.pure _
      · split
        · exact ReadOnly.crash
        · split
          · exact ReadOnly.crash
          · split
            · exact ReadOnly.crash
            · rename_i ptr _
              refine cast (congrArg ReadOnly (incr_node t r _ _ ptr).symm) ?_
              refine ReadOnly.attempt (ReadOnly.readNode t ptr) (fun x => ?_)
              unfold incrWith
              cases x <;> reads
    · exact ReadOnly.pure _

theorem PosFree.step (t : Tree) (δ : Int) (it : Iter) (rs : List TRec) : PosFree (it.step t δ rs) := by
  unfold Iter.step; have := PosFree.incr t δ rs; posfree
theorem ReadOnly.step (t : Tree) (δ : Int) (it : Iter) (rs : List TRec) : ReadOnly (it.step t δ rs) := by
  unfold Iter.step; have := ReadOnly.incr t δ rs; reads
theorem PosFree.iterNext (t : Tree) (it : Iter) : PosFree (it.next t) := by
  unfold Iter.next
  have h1 := PosFree.init t; have h2 := PosFree.step t 1
  posfree
theorem ReadOnly.iterNext (t : Tree) (it : Iter) : ReadOnly (it.next t) := by
  unfold Iter.next
  have h1 := ReadOnly.init t; have h2 := ReadOnly.step t 1
  reads
theorem PosFree.iterPrev (t : Tree) (it : Iter) : PosFree (it.prev t) := by
  unfold Iter.prev
  have h1 := PosFree.init t; have h2 := PosFree.step t (-1)
  posfree
theorem ReadOnly.iterPrev (t : Tree) (it : Iter) : ReadOnly (it.prev t) := by
  unfold Iter.prev
  have h1 := ReadOnly.init t; have h2 := ReadOnly.step t (-1)
  reads
theorem PosFree.find (t : Tree) (k : RV) : PosFree (t.find k) := by
  unfold Tree.find
  have h1 := PosFree.iterNext t
  posfree
theorem ReadOnly.find (t : Tree) (k : RV) : ReadOnly (t.find k) := by
  unfold Tree.find
  have h1 := ReadOnly.iterNext t
  reads
theorem PosFree.contains (t : Tree) (k : RV) : PosFree (t.contains k) := by
  unfold Tree.contains
  have h1 := PosFree.find t k
  posfree
theorem ReadOnly.contains (t : Tree) (k : RV) : ReadOnly (t.contains k) := by
  unfold Tree.contains
  have h1 := ReadOnly.find t k
  reads

/-! ### Slots -/

theorem PosFree.lpRoot (m : LP) : PosFree m.root := by unfold LP.root LP.seekU64; posfree
theorem ReadOnly.lpRoot (m : LP) : ReadOnly m.root := by
  unfold LP.root LP.seekU64; have := ReadOnly.readFull; reads
theorem PosFree.lpSetRoot (m : LP) (p : MemPtr) : PosFree (m.setRoot p) := by unfold LP.setRoot LP.seekU64; posfree
theorem PosFree.lpMetadata (m : LP) : PosFree m.metadata := by unfold LP.metadata LP.seekU64; posfree
theorem ReadOnly.lpMetadata (m : LP) : ReadOnly m.metadata := by
  unfold LP.metadata LP.seekU64
  have := ReadOnly.read
  simp only
  reads
theorem PosFree.lpSetMetadata (m : LP) (d : Bytes) : PosFree (m.setMetadata d) := by
  unfold LP.setMetadata LP.seekU64; posfree
theorem PosFree.nextPageOffset (m : LP) : PosFree m.nextPageOffset := by unfold LP.nextPageOffset LP.seekU64; posfree
theorem ReadOnly.nextPageOffset (m : LP) : ReadOnly m.nextPageOffset := by
  unfold LP.nextPageOffset LP.seekU64; have := ReadOnly.readFull 8; reads
theorem PosFree.count (m : LP) : PosFree m.count := by unfold LP.count; posfree
theorem ReadOnly.count (m : LP) : ReadOnly m.count := by unfold LP.count; have := ReadOnly.readFull 1; reads
theorem PosFree.next (m : LP) : PosFree m.next := by
  unfold LP.next
  have h1 := PosFree.count m; have h2 := PosFree.nextPageOffset m
  posfree
theorem ReadOnly.next (m : LP) : ReadOnly m.next := by
  unfold LP.next
  have h1 := ReadOnly.count m; have h2 := ReadOnly.nextPageOffset m
  reads
theorem PosFree.reset (m : LP) (c : UInt8) : PosFree (m.reset c) := by unfold LP.reset LP.seekU64; posfree
theorem PosFree.addNext (m : LP) : PosFree m.addNext := by
  unfold LP.addNext LP.seekU64
  have h1 := PosFree.count m; have h2 := PosFree.nextPageOffset m; have h4 := PosFree.newPage none
  have h5 := PosFree.reset
  posfree
theorem PosFree.newMulti : PosFree LP.newMulti := by
  unfold LP.newMulti
  posfree

/-- `collectFrom` after the next slot has been read. -/
def collectWith (fuel : Nat) (here : List LP) (r : Res LP) : Act PF (List LP) :=
  match r with
  | .ok nx => do
    let rest ← LP.collectFrom fuel nx
    return here ++ rest
  | .err .eof => Pure.pure here
  | .err e => Act.throw e
  | .panic => Act.crash

theorem collect_step (fuel : Nat) (m : LP) : LP.collectFrom (fuel + 1) m =
    fun s => collectWith fuel (if m.index = 255 then [] else [m]) (m.next s).1 (m.next s).2 := by
  funext s
  rw [LP.collectFrom]
  unfold collectWith
  simp only
  generalize m.next s = x
  obtain ⟨r, s'⟩ := x
  cases r with
  | ok mp => rfl
  | err e => cases e <;> rfl
  | panic => rfl

theorem PosFree.collectFrom (fuel : Nat) (m : LP) : PosFree (LP.collectFrom fuel m) := by
  induction fuel generalizing m with
  | zero => exact PosFree.crash
  | succ fuel ih =>
    rw [collect_step]
    refine PosFree.attempt (PosFree.next m) (fun r => ?_)
    unfold collectWith
    split <;> posfree
theorem ReadOnly.collectFrom (fuel : Nat) (m : LP) : ReadOnly (LP.collectFrom fuel m) := by
  induction fuel generalizing m with
  | zero => exact ReadOnly.crash
  | succ fuel ih =>
    rw [collect_step]
    refine ReadOnly.attempt (ReadOnly.next m) (fun r => ?_)
    unfold collectWith
    split <;> reads
theorem PosFree.collect (m : LP) : PosFree m.collect :=
  PosFree.dep (f := fun s => LP.collectFrom (LP.listFuel s) m) (fun _ => PosFree.collectFrom _ _) (fun _ _ => rfl)
theorem ReadOnly.collect (m : LP) : ReadOnly m.collect :=
  ReadOnly.dep (f := fun s => LP.collectFrom (LP.listFuel s) m) (fun _ => ReadOnly.collectFrom _ _)

/-! ### The index file -/

theorem PosFree.fileMetadata (i : IndexFile) : PosFree i.metadata := by
  unfold IndexFile.metadata; have h1 := PosFree.lpMetadata i.tree; posfree
theorem ReadOnly.fileMetadata (i : IndexFile) : ReadOnly i.metadata := by
  unfold IndexFile.metadata; have h1 := ReadOnly.lpMetadata i.tree; reads
theorem PosFree.setFileMetadata (i : IndexFile) (m : FileMeta) : PosFree (i.setMetadata m) := by
  unfold IndexFile.setMetadata; have h1 := PosFree.lpSetMetadata; posfree

/-- `isEmpty` after the next slot has been read. -/
def emptyWith (r : Res LP) : Act PF Bool :=
  match r with
  | .ok _ => Pure.pure true
  | .err .eof => Pure.pure false
  | .err e => Act.throw e
  | .panic => Act.crash
theorem isEmpty_eq (i : IndexFile) : i.isEmpty = fun s => emptyWith (i.tree.next s).1 (i.tree.next s).2 := by
  funext s
  unfold IndexFile.isEmpty emptyWith
  generalize i.tree.next s = x
  obtain ⟨r, s'⟩ := x
  cases r with
  | ok mp => rfl
  | err e => cases e <;> rfl
  | panic => rfl
theorem PosFree.isEmpty (i : IndexFile) : PosFree i.isEmpty := by
  rw [isEmpty_eq]
  refine PosFree.attempt (PosFree.next _) (fun r => ?_)
  unfold emptyWith
  split <;> posfree
theorem ReadOnly.isEmpty (i : IndexFile) : ReadOnly i.isEmpty := by
  rw [isEmpty_eq]
  refine ReadOnly.attempt (ReadOnly.next _) (fun r => ?_)
  unfold emptyWith
  split <;> reads

/-- `namesFrom` after the next slot has been read. -/
def namesWith (fuel : Nat) (names : List Bytes) (r : Res LP) : Act PF (List Bytes) :=
  match r with
  | .err .eof => Pure.pure names
  | .err e => Act.throw e
  | .panic => Act.crash
  | .ok next => do
    let buf ← next.metadata
    let m ← Act.lift (IndexMeta.unmarshal buf)
    IndexFile.namesFrom fuel next (if m.fieldName ∈ names then names else names ++ [m.fieldName])
theorem names_step (fuel : Nat) (m : LP) (names : List Bytes) : IndexFile.namesFrom (fuel + 1) m names =
    fun s => namesWith fuel names (m.next s).1 (m.next s).2 := by
  funext s
  rw [IndexFile.namesFrom]
  unfold namesWith
  simp only
  generalize m.next s = x
  obtain ⟨r, s'⟩ := x
  cases r with
  | ok mp => rfl
  | err e => cases e <;> rfl
  | panic => rfl
theorem PosFree.namesFrom (fuel : Nat) (m : LP) (names : List Bytes) : PosFree (IndexFile.namesFrom fuel m names) := by
  induction fuel generalizing m names with
  | zero => exact PosFree.crash
  | succ fuel ih =>
    rw [names_step]
    refine PosFree.attempt (PosFree.next m) (fun r => ?_)
    unfold namesWith
    have h2 := PosFree.lpMetadata
    split
    · exact PosFree.pure _
    · exact PosFree.throw _
    · exact PosFree.crash
    · exact PosFree.bind (h2 _) (fun _ => PosFree.bind (PosFree.lift _) (fun _ => ih _ _))
theorem ReadOnly.namesFrom (fuel : Nat) (m : LP) (names : List Bytes) : ReadOnly (IndexFile.namesFrom fuel m names) := by
  induction fuel generalizing m names with
  | zero => exact ReadOnly.crash
  | succ fuel ih =>
    rw [names_step]
    refine ReadOnly.attempt (ReadOnly.next m) (fun r => ?_)
    unfold namesWith
    have h2 := ReadOnly.lpMetadata
    split
    · exact ReadOnly.pure _
    · exact ReadOnly.throw _
    · exact ReadOnly.crash
    · exact ReadOnly.bind (h2 _) (fun _ => ReadOnly.bind (ReadOnly.lift _) (fun _ => ih _ _))
theorem PosFree.indexFieldNames (i : IndexFile) : PosFree i.indexFieldNames :=
  PosFree.dep (f := fun s => IndexFile.namesFrom (LP.listFuel s) i.tree []) (fun _ => PosFree.namesFrom _ _ _) (fun _ _ => rfl)
theorem ReadOnly.indexFieldNames (i : IndexFile) : ReadOnly i.indexFieldNames :=
  ReadOnly.dep (f := fun s => IndexFile.namesFrom (LP.listFuel s) i.tree []) (fun _ => ReadOnly.namesFrom _ _ _)

theorem PosFree.createIndex (m : LP) (n : Bytes) (t : UInt8) : PosFree (IndexFile.createIndex m n t) := by
  unfold IndexFile.createIndex
  have h1 := PosFree.addNext m; have h2 := PosFree.lpSetMetadata
  posfree

/-- `findFrom` after the next slot has been read. -/
def findWith (n : Bytes) (t : UInt8) (fuel : Nat) (m : LP) (r : Res LP) : Act PF (LP × IndexMeta) :=
  match r with
  | .err .eof => IndexFile.createIndex m n t
  | .err e => Act.throw e
  | .panic => Act.crash
  | .ok next => do
    let buf ← next.metadata
    let m ← Act.lift (IndexMeta.unmarshal buf)
    if m.fieldName = n ∧ m.fieldType = t then return (next, m)
    else IndexFile.findFrom n t fuel next
theorem findFrom_step (n : Bytes) (t : UInt8) (fuel : Nat) (m : LP) : IndexFile.findFrom n t (fuel + 1) m =
    fun s => findWith n t fuel m (m.next s).1 (m.next s).2 := by
  funext s
  rw [IndexFile.findFrom]
  unfold findWith
  simp only
  generalize m.next s = x
  obtain ⟨r, s'⟩ := x
  cases r with
  | ok mp => rfl
  | err e => cases e <;> rfl
  | panic => rfl
theorem PosFree.findFrom (n : Bytes) (t : UInt8) (fuel : Nat) (m : LP) : PosFree (IndexFile.findFrom n t fuel m) := by
  induction fuel generalizing m with
  | zero => exact PosFree.crash
  | succ fuel ih =>
    rw [findFrom_step]
    refine PosFree.attempt (PosFree.next m) (fun r => ?_)
    unfold findWith
    have h1 := PosFree.createIndex m n t
    have h2 := PosFree.lpMetadata
    split <;> posfree
theorem PosFree.findOrCreate (i : IndexFile) (n : Bytes) (t : UInt8) : PosFree (i.findOrCreate n t) :=
  PosFree.dep (f := fun s => IndexFile.findFrom n t (LP.listFuel s) i.tree) (fun _ => PosFree.findFrom n t _ _) (fun _ _ => rfl)

/-! ### Vector trees -/

theorem PosFree.vReadNode (o : UInt64) : PosFree (VTree.readNode o) := (Settles.bind (Settles.seek _) _).free
theorem ReadOnly.vReadNode (o : UInt64) : ReadOnly (VTree.readNode o) := by
  unfold VTree.readNode; have := ReadOnly.read pageSize; reads
theorem PosFree.vRoot (t : VTree) : PosFree t.root := by
  unfold VTree.root
  have h1 := PosFree.rootAt t.rootPos; have h2 := PosFree.vReadNode
  posfree
theorem ReadOnly.vRoot (t : VTree) : ReadOnly t.root := by
  unfold VTree.root
  have h1 := ReadOnly.rootAt t.rootPos; have h2 := ReadOnly.vReadNode
  reads
theorem PosFree.vTraverse (key : RefId) (fuel : Nat) (n : VNode) (p : MemPtr) : PosFree (VTree.traverse key fuel n p) := by
  induction fuel generalizing n p with
  | zero => exact PosFree.crash
  | succ fuel ih =>
    unfold VTree.traverse
    simp only
    have := PosFree.vReadNode
    posfree
theorem ReadOnly.vTraverse (key : RefId) (fuel : Nat) (n : VNode) (p : MemPtr) : ReadOnly (VTree.traverse key fuel n p) := by
  induction fuel generalizing n p with
  | zero => exact ReadOnly.crash
  | succ fuel ih =>
    unfold VTree.traverse
    simp only
    have := ReadOnly.vReadNode
    reads
theorem PosFree.vFind (t : VTree) (key : RefId) : PosFree (t.find key) := by
  unfold VTree.find
  refine PosFree.bind (PosFree.vRoot t) (fun r => ?_)
  have := PosFree.vTraverse key
  split
  · exact PosFree.pure _
  · refine PosFree.getBind (fun s => ?_) (fun b s => rfl)
    posfree
theorem ReadOnly.vFind (t : VTree) (key : RefId) : ReadOnly (t.find key) := by
  unfold VTree.find
  refine ReadOnly.bind (ReadOnly.vRoot t) (fun r => ?_)
  have := ReadOnly.vTraverse key
  split
  · exact ReadOnly.pure _
  · refine ReadOnly.bind (ReadOnly.same fun _ => rfl) (fun s => ?_)
    reads
theorem PosFree.vWriteNode (o : UInt64) (n : VNode) : PosFree (VTree.writeNode o n) := (Settles.bind (Settles.seek _) _).free
theorem PosFree.vWriteOrSplit (t : VTree) (tr : VRec) : PosFree (t.writeOrSplit tr) := by
  unfold VTree.writeOrSplit
  have h1 := PosFree.vWriteNode; have h2 := PosFree.newPage
  simp only
  posfree
theorem PosFree.vNewRoot (t : VTree) (k : RefId) (v : Vec) (n m : UInt64) : PosFree (t.newRoot k v n m) := by
  unfold VTree.newRoot
  have h1 := PosFree.setRootAt t.rootPos; have h2 := PosFree.newPage
  posfree
theorem PosFree.vInsertLoop (t : VTree) (tr : VRec) (rest : List VRec) : PosFree (t.insertLoop tr rest) := by
  induction rest generalizing tr with
  | nil =>
    unfold VTree.insertLoop
    have h1 := PosFree.vWriteOrSplit t tr; have h2 := PosFree.vNewRoot t
    posfree
  | cons p rest ih =>
    unfold VTree.insertLoop
    have h1 := PosFree.vWriteOrSplit t tr
    posfree
theorem PosFree.vInsert (t : VTree) (key : RefId) (v : Vec) : PosFree (t.insert key v) := by
  unfold VTree.insert
  have h2 := PosFree.newPage; have h3 := PosFree.setRootAt t.rootPos
  have h4 := PosFree.vTraverse key; have h5 := PosFree.vInsertLoop t
  refine PosFree.bind (PosFree.vRoot t) (fun r => ?_)
  split
  · posfree
  · refine PosFree.getBind (fun s => ?_) (fun b s => rfl)
    posfree

/-! ### Synchronize -/

section
variable {env : JEnv} {num : Bytes → Option UInt64} {i : IndexFile} {data : Bytes} {line mp : MemPtr}

theorem PosFree.insertGrams (t : Tree) (mp : MemPtr) (len : UInt32) (line : MemPtr) (gs : List Token) (n : UInt64) :
    PosFree (insertGrams t mp len line gs n) := by
  induction gs generalizing n with
  | nil => exact PosFree.pure _
  | cons g gs ih => exact PosFree.bind (PosFree.insert _ _ _) (fun _ => ih _)

theorem PosFree.handleValue {rec : Dec → Act PF Dec} (hr : ∀ d, PosFree (rec d)) (p : LP) (m : IndexMeta) (v : Tok) (ft : UInt8) (d : Dec) :
    PosFree (handleValue env data line mp rec p m v ft d) := by
  unfold Appendable.handleValue
  have h1 := fun (t : Tree) mp len line gs n => PosFree.insertGrams t mp len line gs n
  have h2 := fun (t : Tree) k v => PosFree.insert t k v
  simp only
  posfree

theorem PosFree.handleType {rec : Dec → Act PF Dec} (hr : ∀ d, PosFree (rec d)) (name : Bytes) (v : Tok) (ft : UInt8) (d : Dec) :
    PosFree (handleType env i data line name mp rec v ft d) := by
  unfold Appendable.handleType
  have h1 := fun p m v ft d => PosFree.handleValue (env := env) (data := data) (line := line) (mp := mp) hr p m v ft d
  have h2 := PosFree.findOrCreate i; have h3 := PosFree.lpSetMetadata
  posfree

theorem PosFree.handleTypes {rec : Dec → Act PF Dec} (hr : ∀ d, PosFree (rec d)) (name : Bytes) (v : Tok) (fts : List UInt8) (d : Dec) :
    PosFree (handleTypes env i data line name mp rec v fts d) := by
  induction fts generalizing d with
  | nil => exact PosFree.pure _
  | cons ft fts ih => exact PosFree.bind (PosFree.handleType hr _ _ _ _) (fun _ => ih _)

theorem PosFree.handleObj (fuel : Nat) (path : List Bytes) (d : Dec) : PosFree (handleObj env i data line fuel path d) := by
  induction fuel generalizing path d with
  | zero => exact PosFree.crash
  | succ fuel ih =>
    unfold Appendable.handleObj
    have h1 := fun mp path name v fts d => PosFree.handleTypes (env := env) (i := i) (data := data) (line := line) (mp := mp)
      (rec := Appendable.handleObj env i data line fuel path) (ih path) name v fts d
    posfree

theorem PosFree.handleLine (text : Bytes) : PosFree (handleLine env i data line text) := by
  unfold Appendable.handleLine
  have h1 := fun fuel path d => PosFree.handleObj (env := env) (i := i) (data := data) (line := line) fuel path d
  posfree

theorem PosFree.syncLoop (fuel : Nat) (m : FileMeta) : PosFree (syncLoop env i data fuel m) := by
  induction fuel generalizing m with
  | zero => exact PosFree.crash
  | succ fuel ih =>
    unfold Appendable.syncLoop
    have h1 := fun line text => PosFree.handleLine (env := env) (i := i) (data := data) (line := line) text
    posfree

theorem PosFree.jsonlSync : PosFree (jsonlSync env i data) := by
  unfold Appendable.jsonlSync
  have h1 := PosFree.fileMetadata i; have h2 := PosFree.setFileMetadata i
  have h3 := fun fuel m => PosFree.syncLoop (env := env) (i := i) (data := data) fuel m
  posfree

theorem PosFree.csvFieldsLoop (hs vs : List Bytes) (cum : UInt64) : PosFree (csvFieldsLoop num i data line hs vs cum) := by
  induction vs generalizing hs cum with
  | nil => cases hs <;> exact PosFree.pure _
  | cons v vs ih =>
    cases hs with
    | nil => exact PosFree.throw _
    | cons h hs =>
      exact PosFree.bind (PosFree.findOrCreate _ _ _) (fun _ => PosFree.bind (PosFree.insert _ _ _) (fun _ => ih _ _))

theorem PosFree.csvLoop (fuel : Nat) (hs : List Bytes) (m : FileMeta) : PosFree (csvLoop num i data fuel hs m) := by
  induction fuel generalizing hs m with
  | zero => exact PosFree.crash
  | succ fuel ih =>
    have h1 : ∀ hs line text, PosFree (handleCSVLine num i data hs line text) := by
      intro hs line text
      unfold handleCSVLine
      have := fun hs vs cum => PosFree.csvFieldsLoop (num := num) (i := i) (data := data) (line := line) hs vs cum
      posfree
    unfold Appendable.csvLoop
    posfree

theorem PosFree.csvSync : PosFree (csvSync num i data) := by
  unfold Appendable.csvSync
  have h1 := PosFree.fileMetadata i; have h2 := PosFree.setFileMetadata i; have h4 := PosFree.indexFieldNames i
  have h3 := fun fuel hs m => PosFree.csvLoop (num := num) (i := i) (data := data) fuel hs m
  posfree
end

end Appendable
