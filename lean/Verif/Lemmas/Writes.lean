import Verif.Model.Jsonl
import Verif.Lemmas.File
/-! Crash points: what an operation does when only some of its writes still take effect. -/
namespace Appendable
open Tree

/-- The same page file with another write budget. -/
def withBudget (b : Option Nat) (s : PF) : PF := { s with file := { s.file with budget := b } }

/-- There is a number `w` of writes: with at least as many allowed the operation runs as without a limit (unless it panics),
and once none is allowed any more the bytes stay as they are. -/
structure Writes {α : Type} (a : Act PF α) : Prop where
  run : ∀ s, s.file.budget = none → (a s).1 ≠ .panic → (a s).2.file.budget = none ∧
    ∃ w, ∀ n, a (withBudget (some (w + n)) s) = ((a s).1, withBudget (some n) (a s).2)
  stop : ∀ s, s.file.budget = some 0 → (a s).2.file.bytes = s.file.bytes ∧ (a s).2.file.budget = some 0

/-- The same for an operation of the file that does not write. -/
structure Calm {α : Type} (a : Act File α) : Prop where
  blind : ∀ b f, a { f with budget := b } = ((a f).1, { (a f).2 with budget := b })
  keep : ∀ f, (a f).2.bytes = f.bytes ∧ (a f).2.budget = f.budget

theorem Calm.seekAbs (x : Int) : Calm (File.seekAbs x) := by
  constructor
  · intro b f
    obtain ⟨kind, bytes, pos, bud⟩ := f
    unfold File.seekAbs
    cases kind with
    | buffer => rfl
    | mmap =>
      simp only
      split
      · rfl
      · split <;> rfl
  · intro f
    unfold File.seekAbs
    split
    · split
      · exact ⟨rfl, rfl⟩
      · split <;> exact ⟨rfl, rfl⟩
    · exact ⟨rfl, rfl⟩
theorem Calm.seekStart (x : Int) : Calm (File.seekStart x) := Calm.seekAbs x
theorem Calm.seekEnd (x : Int) : Calm (File.seekEnd x) :=
  ⟨fun b f => (Calm.seekAbs (f.bytes.length + x)).blind b f, fun f => (Calm.seekAbs _).keep f⟩
theorem Calm.seekCur (x : Int) : Calm (File.seekCur x) :=
  ⟨fun b f => (Calm.seekAbs (f.pos + x)).blind b f, fun f => (Calm.seekAbs _).keep f⟩
theorem Calm.read (n : Nat) : Calm (File.read n) := by
  constructor
  · intro b f
    obtain ⟨kind, bytes, pos, bud⟩ := f
    unfold File.read
    cases kind <;> simp only <;> split <;> rfl
  · intro f
    unfold File.read
    split <;> split <;> exact ⟨rfl, rfl⟩

section
variable {α β : Type}

theorem Writes.calm {a : Act File α} (h : Calm a) : Writes (PF.onFile a) := by
  constructor
  · intro s hs _
    refine ⟨(h.keep s.file).2.trans hs, 0, fun n => ?_⟩
    unfold PF.onFile
    simp only [withBudget, Nat.zero_add]
    rw [h.blind]
  · intro s hs
    exact ⟨(h.keep s.file).1, (h.keep s.file).2.trans hs⟩

theorem Writes.still {a : Act PF α} (r : Res α) (g : PF → PF) (h : ∀ s, a s = (r, g s)) (hg : ∀ b s, g (withBudget b s) = withBudget b (g s))
    (hf : ∀ s, (g s).file = s.file) : Writes a := by
  constructor
  · intro s hs _
    rw [h s]
    refine ⟨by rw [hf, hs], 0, fun n => ?_⟩
    rw [h, hg, Nat.zero_add]
  · intro s hs
    rw [h s]
    simp only [hf, hs, and_self]

theorem Writes.pure (a : α) : Writes (Pure.pure a : Act PF α) := Writes.still (.ok a) id (fun _ => rfl) (fun _ _ => rfl) (fun _ => rfl)
theorem Writes.throw (e : Err) : Writes (Act.throw e : Act PF α) := Writes.still (.err e) id (fun _ => rfl) (fun _ _ => rfl) (fun _ => rfl)
theorem Writes.crash : Writes (Act.crash : Act PF α) := Writes.still .panic id (fun _ => rfl) (fun _ _ => rfl) (fun _ => rfl)
theorem Writes.lift (r : Res α) : Writes (Act.lift r : Act PF α) := Writes.still r id (fun _ => rfl) (fun _ _ => rfl) (fun _ => rfl)

/-- Go on with whatever came out. -/
theorem Writes.attempt {a : Act PF α} {k : Res α → Act PF β} (h : Writes a) (g : ∀ r, Writes (k r)) (hk : k .panic = Act.crash) :
    Writes (fun s => k (a s).1 (a s).2) := by
  constructor
  · intro s hs hp
    have hp1 : (a s).1 ≠ .panic := fun hc => hp (by simp only [hc, hk]; rfl)
    obtain ⟨h1, w1, h2⟩ := h.run s hs hp1
    obtain ⟨g1, w2, g2⟩ := (g (a s).1).run (a s).2 h1 hp
    refine ⟨g1, w1 + w2, fun n => ?_⟩
    simp only [Nat.add_assoc, h2, g2]
  · intro s hs
    obtain ⟨h1, h2⟩ := h.stop s hs
    obtain ⟨g1, g2⟩ := (g (a s).1).stop (a s).2 h2
    exact ⟨g1.trans h1, g2⟩

theorem Writes.bind {a : Act PF α} {f : α → Act PF β} (h : Writes a) (g : ∀ x, Writes (f x)) : Writes (a >>= f) := by
  have : (a >>= f) = fun s => (fun r : Res α => match r with
      | .ok x => f x
      | .err e => Act.throw e
      | .panic => Act.crash : Res α → Act PF β) (a s).1 (a s).2 := by
    funext s
    rw [Act.bind_def]
    generalize a s = x
    obtain ⟨r, s'⟩ := x
    cases r <;> rfl
  rw [this]
  refine Writes.attempt (k := fun r : Res α => match r with
      | .ok x => f x
      | .err e => Act.throw e
      | .panic => Act.crash) h (fun r => ?_) rfl
  cases r with
  | ok x => exact g x
  | err e => exact Writes.throw e
  | panic => exact Writes.crash

/-- An operation that depends on the state apart from the budget. -/
theorem Writes.dep {f : PF → Act PF α} (h : ∀ x, Writes (f x)) (hf : ∀ b s, f (withBudget b s) = f s) : Writes (fun s => f s s) := by
  constructor
  · intro s hs hp
    obtain ⟨h1, w, h2⟩ := (h s).run s hs hp
    exact ⟨h1, w, fun n => by simp only [hf, h2]⟩
  · intro s hs
    exact (h s).stop s hs

theorem Writes.getBind {f : PF → Act PF α} (h : ∀ x, Writes (f x)) (hf : ∀ b s, f (withBudget b s) = f s) : Writes (Act.get >>= f) :=
  Writes.dep (f := f) h hf
end

theorem Writes.write (b : Bytes) : Writes (PF.onFile (File.write b)) := by
  constructor
  · intro s hs hp
    obtain ⟨⟨kind, bytes, pos, bud⟩, ring, head, count, lp⟩ := s
    simp only at hs
    subst hs
    unfold PF.onFile File.write at hp
    unfold PF.onFile File.write withBudget
    simp only at hp ⊢
    rw [if_neg (by simp)] at hp ⊢
    by_cases h2 : pos + b.length ≥ 2 ^ 63
    · rw [if_pos h2]
      refine ⟨rfl, 0, fun n => ?_⟩
      cases n with
      | zero => simp
      | succ n => simp [h2]
    · rw [if_neg h2] at hp ⊢
      cases kind with
      | buffer =>
        simp only at hp ⊢
        by_cases h3 : pos > bytes.length
        · rw [if_pos h3] at hp
          exact absurd rfl hp
        · rw [if_neg h3]
          refine ⟨rfl, 1, fun n => ?_⟩
          simp [h2, h3, Nat.add_comm 1 n]
      | mmap =>
        refine ⟨rfl, 1, fun n => ?_⟩
        simp [h2, Nat.add_comm 1 n]
  · intro s hs
    unfold PF.onFile File.write
    simp only
    rw [if_pos hs]
    exact ⟨rfl, hs⟩

theorem Writes.seek (x : Int) : Writes (PF.seek x) := Writes.calm (Calm.seekStart x)

macro "writes" : tactic => `(tactic| repeat' (first
  | with_reducible exact Writes.pure _ | with_reducible exact Writes.throw _ | with_reducible exact Writes.crash
  | with_reducible exact Writes.lift _
  | with_reducible exact Writes.seek _ | with_reducible exact Writes.calm (Calm.seekStart _)
  | with_reducible exact Writes.calm (Calm.seekEnd _) | with_reducible exact Writes.calm (Calm.seekCur _)
  | with_reducible exact Writes.calm (Calm.read _) | with_reducible exact Writes.write _
  | with_reducible assumption
  | with_reducible (refine Writes.bind ?_ ?_) | intro _ | split | with_reducible solve_by_elim))

theorem Writes.pfWrite (b : Bytes) : Writes (PF.write b) := by unfold PF.write; writes
theorem Writes.pfRead (n : Nat) : Writes (PF.read n) := by unfold PF.read; writes
theorem Writes.readFull (n : Nat) : Writes (PF.readFull n) := by unfold PF.readFull; have := Writes.pfRead n; writes
/-- `writeFreePageIndices` with the part that looks at the state made explicit. -/
def writeFreeOf (x : PF) : Act PF Unit :=
  match PF.ringSlice x.ring x.tail x.count with
  | none => Act.crash
  | some offs => do
    let _ ← PF.onFile (File.seekStart 0)
    let _ ← PF.onFile (File.write (PF.freePageBytes offs))
    return ()

theorem writeFree_eq : PF.writeFreePageIndices = fun s => writeFreeOf s s := by
  funext s
  unfold PF.writeFreePageIndices writeFreeOf
  cases PF.ringSlice s.ring s.tail s.count <;> rfl

theorem Writes.writeFree : Writes PF.writeFreePageIndices := by
  rw [writeFree_eq]
  refine Writes.dep (fun x => ?_) (fun b s => rfl)
  unfold writeFreeOf
  writes

/-- `freePageIndex` with the part that looks at the state made explicit. -/
def freePageOf (x : PF) : Act PF Int :=
  if x.count = 0 then Pure.pure (-1) else
    match x.ring[x.tail]? with
    | none => Act.crash
    | some offset => do
      (fun s => (.ok (), { s with ring := s.ring.set s.tail 0, count := s.count - 1 }) : Act PF Unit)
      PF.writeFreePageIndices
      return offset

theorem freePage_eq : PF.freePageIndex = fun s => freePageOf s s := by
  funext s
  unfold PF.freePageIndex freePageOf
  split
  · rfl
  · cases s.ring[s.tail]? <;> rfl

theorem Writes.freePageIndex : Writes PF.freePageIndex := by
  have hset : Writes (fun s => (.ok (), { s with ring := s.ring.set s.tail 0, count := s.count - 1 }) : Act PF Unit) :=
    Writes.still (.ok ()) (fun s => { s with ring := s.ring.set s.tail 0, count := s.count - 1 }) (fun _ => rfl) (fun _ _ => rfl) (fun _ => rfl)
  rw [freePage_eq]
  refine Writes.dep (fun x => ?_) (fun b s => rfl)
  unfold freePageOf
  split
  · exact Writes.pure _
  · split
    · exact Writes.crash
    · exact Writes.bind hset (fun _ => Writes.bind Writes.writeFree (fun _ => Writes.pure _))
theorem Writes.newPage (b : Option Bytes) : Writes (PF.newPage b) := by
  unfold PF.newPage
  have h1 := Writes.freePageIndex
  have h2 := Writes.pfWrite
  have h3 : Writes (fun s => (.ok (), { s with lastPage := s.lastPage + 1 }) : Act PF Unit) :=
    Writes.still (.ok ()) (fun s => { s with lastPage := s.lastPage + 1 }) (fun _ => rfl) (fun _ _ => rfl) (fun _ => rfl)
  simp only
  writes
  exact Writes.bind h3 (fun _ => Writes.pure _)
theorem Writes.setRootAt (p : Nat) (m : MemPtr) : Writes (setRootAt p m) := by
  unfold Appendable.setRootAt; have := Writes.pfWrite m.encode; writes
theorem Writes.rootAt (p : Nat) : Writes (rootAt p) := by
  unfold Appendable.rootAt; have := Writes.readFull 12; writes
theorem Writes.readNode (t : Tree) (p : MemPtr) : Writes (t.readNode p) := by
  unfold Tree.readNode; have := Writes.pfRead pageSize; writes
theorem Writes.root (t : Tree) : Writes t.root := by
  have h := Writes.attempt (k := fun r : Res MemPtr => match r with
    | .panic => Act.crash
    | .err _ => Pure.pure none
    | .ok mp => if mp.length = 0 then Pure.pure none else (do
      let n ← t.readNode mp
      return some (n, mp) : Act PF (Option (Node × MemPtr)))) (Writes.rootAt t.rootPos) (by
      intro r
      have := Writes.readNode t
      cases r <;> simp only <;> writes) rfl
  refine cast (congrArg Writes ?_) h
  funext s
  unfold Tree.root
  generalize Appendable.rootAt t.rootPos s = x
  obtain ⟨r, s'⟩ := x
  cases r with
  | ok mp => simp only; split <;> rfl
  | err e => rfl
  | panic => rfl
theorem Writes.traverse (t : Tree) (key : RV) (fuel : Nat) (n : Node) (p : MemPtr) : Writes (t.traverse key fuel n p) := by
  induction fuel generalizing n p with
  | zero => exact Writes.crash
  | succ fuel ih =>
    unfold Tree.traverse
    simp only
    have := Writes.readNode t
    writes
theorem Writes.writeNode (t : Tree) (o : UInt64) (n : Node) : Writes (t.writeNode o n) := by
  unfold Tree.writeNode; have := Writes.pfWrite; writes
theorem Writes.writeOrSplit (t : Tree) (tr : TRec) : Writes (t.writeOrSplit tr) := by
  unfold Tree.writeOrSplit
  have h1 := Writes.writeNode t; have h2 := Writes.newPage
  simp only
  writes
theorem Writes.newRoot (t : Tree) (k : RV) (n m : UInt64) : Writes (t.newRoot k n m) := by
  unfold Tree.newRoot
  have h1 := Writes.setRootAt t.rootPos; have h2 := Writes.newPage
  writes
theorem Writes.insertLoop (t : Tree) (tr : TRec) (rest : List TRec) : Writes (t.insertLoop tr rest) := by
  induction rest generalizing tr with
  | nil =>
    unfold Tree.insertLoop
    have h1 := Writes.writeOrSplit t tr; have h2 := Writes.newRoot t
    writes
  | cons p rest ih =>
    unfold Tree.insertLoop
    have h1 := Writes.writeOrSplit t tr
    writes
theorem Writes.insert (t : Tree) (key : RV) (v : MemPtr) : Writes (t.insert key v) := by
  unfold Tree.insert
  have h1 := Writes.root t; have h2 := Writes.newPage; have h3 := Writes.setRootAt t.rootPos
  have h4 := Writes.traverse t key; have h5 := Writes.insertLoop t
  split
  · exact Writes.throw _
  · refine Writes.bind h1 (fun r => ?_)
    cases r with
    | none => simp only; writes
    | some x =>
      obtain ⟨a, b⟩ := x
      simp only
      refine Writes.getBind (fun s => ?_) (fun b s => rfl)
      writes

theorem Writes.lpMetadata (m : LP) : Writes m.metadata := by
  unfold LP.metadata LP.seekU64
  have := Writes.pfRead
  simp only
  writes
theorem Writes.lpSetMetadata (m : LP) (d : Bytes) : Writes (m.setMetadata d) := by
  unfold LP.setMetadata LP.seekU64
  have := Writes.pfWrite
  writes
theorem Writes.nextPageOffset (m : LP) : Writes m.nextPageOffset := by
  unfold LP.nextPageOffset LP.seekU64
  have := Writes.readFull 8
  writes
theorem Writes.count (m : LP) : Writes m.count := by
  unfold LP.count
  have := Writes.readFull 1
  writes
theorem Writes.next (m : LP) : Writes m.next := by
  unfold LP.next
  have h1 := Writes.count m; have h2 := Writes.nextPageOffset m
  writes
theorem Writes.reset (m : LP) (c : UInt8) : Writes (m.reset c) := by
  unfold LP.reset LP.seekU64
  have := Writes.pfWrite
  writes
theorem Writes.addNext (m : LP) : Writes m.addNext := by
  unfold LP.addNext LP.seekU64
  have h1 := Writes.count m; have h2 := Writes.nextPageOffset m; have h3 := Writes.pfWrite; have h4 := Writes.newPage none
  have h5 := Writes.reset
  writes
theorem Writes.createIndex (m : LP) (n : Bytes) (t : UInt8) : Writes (IndexFile.createIndex m n t) := by
  unfold IndexFile.createIndex
  have h1 := Writes.addNext m; have h2 := Writes.lpSetMetadata
  writes
theorem Writes.findFrom (n : Bytes) (t : UInt8) (fuel : Nat) (m : LP) : Writes (IndexFile.findFrom n t fuel m) := by
  induction fuel generalizing m with
  | zero => exact Writes.crash
  | succ fuel ih =>
    have h := Writes.attempt (k := fun r : Res LP => match r with
      | .err .eof => IndexFile.createIndex m n t
      | .err e => Act.throw e
      | .panic => Act.crash
      | .ok next => (do
        let buf ← next.metadata
        let m ← Act.lift (IndexMeta.unmarshal buf)
        if m.fieldName = n ∧ m.fieldType = t then return (next, m)
        else IndexFile.findFrom n t fuel next)) (Writes.next m) (by
        intro r
        have h1 := Writes.createIndex m n t
        have h2 := fun x => Writes.lpMetadata x
        split <;> writes) rfl
    refine cast (congrArg Writes ?_) h
    funext s
    rw [IndexFile.findFrom]
    simp only
    generalize m.next s = x
    obtain ⟨r, s'⟩ := x
    cases r with
    | ok mp => rfl
    | err e => cases e <;> rfl
    | panic => rfl
theorem Writes.findOrCreate (i : IndexFile) (n : Bytes) (t : UInt8) : Writes (i.findOrCreate n t) :=
  Writes.dep (f := fun s => IndexFile.findFrom n t (LP.listFuel s) i.tree) (fun _ => Writes.findFrom n t _ _) (fun _ _ => rfl)
theorem Writes.fileMetadata (i : IndexFile) : Writes i.metadata := by
  unfold IndexFile.metadata
  have h1 := Writes.lpMetadata i.tree
  writes
theorem Writes.setFileMetadata (i : IndexFile) (m : FileMeta) : Writes (i.setMetadata m) := by
  unfold IndexFile.setMetadata
  have h1 := Writes.lpSetMetadata
  writes

section
variable {env : JEnv} {i : IndexFile} {data : Bytes} {line mp : MemPtr}

theorem Writes.insertGrams (t : Tree) (mp : MemPtr) (len : UInt32) (line : MemPtr) (gs : List Token) (n : UInt64) :
    Writes (insertGrams t mp len line gs n) := by
  induction gs generalizing n with
  | nil => exact Writes.pure _
  | cons g gs ih => exact Writes.bind (Writes.insert _ _ _) (fun _ => ih _)

theorem Writes.handleValue {rec : Dec → Act PF Dec} (hr : ∀ d, Writes (rec d)) (p : LP) (m : IndexMeta) (v : Tok) (ft : UInt8) (d : Dec) :
    Writes (handleValue env data line mp rec p m v ft d) := by
  unfold Appendable.handleValue
  have h1 := fun (t : Tree) mp len line gs n => Writes.insertGrams t mp len line gs n
  have h2 := fun (t : Tree) k v => Writes.insert t k v
  simp only
  writes

theorem Writes.handleType {rec : Dec → Act PF Dec} (hr : ∀ d, Writes (rec d)) (name : Bytes) (v : Tok) (ft : UInt8) (d : Dec) :
    Writes (handleType env i data line name mp rec v ft d) := by
  unfold Appendable.handleType
  have h1 := fun p m v ft d => Writes.handleValue (env := env) (data := data) (line := line) (mp := mp) hr p m v ft d
  have h2 := Writes.findOrCreate i; have h3 := Writes.lpSetMetadata
  writes

theorem Writes.handleTypes {rec : Dec → Act PF Dec} (hr : ∀ d, Writes (rec d)) (name : Bytes) (v : Tok) (fts : List UInt8) (d : Dec) :
    Writes (handleTypes env i data line name mp rec v fts d) := by
  induction fts generalizing d with
  | nil => exact Writes.pure _
  | cons ft fts ih => exact Writes.bind (Writes.handleType hr _ _ _ _) (fun _ => ih _)

theorem Writes.handleObj (fuel : Nat) (path : List Bytes) (d : Dec) : Writes (handleObj env i data line fuel path d) := by
  induction fuel generalizing path d with
  | zero => exact Writes.crash
  | succ fuel ih =>
    unfold Appendable.handleObj
    have h1 := fun mp path name v fts d => Writes.handleTypes (env := env) (i := i) (data := data) (line := line) (mp := mp)
      (rec := Appendable.handleObj env i data line fuel path) (ih path) name v fts d
    writes

theorem Writes.handleLine (text : Bytes) : Writes (handleLine env i data line text) := by
  unfold Appendable.handleLine
  have h1 := fun fuel path d => Writes.handleObj (env := env) (i := i) (data := data) (line := line) fuel path d
  writes

theorem Writes.syncLoop (fuel : Nat) (m : FileMeta) : Writes (syncLoop env i data fuel m) := by
  induction fuel generalizing m with
  | zero => exact Writes.crash
  | succ fuel ih =>
    unfold Appendable.syncLoop
    have h1 := fun line text => Writes.handleLine (env := env) (i := i) (data := data) (line := line) text
    writes

theorem Writes.jsonlSync : Writes (jsonlSync env i data) := by
  unfold Appendable.jsonlSync
  have h1 := Writes.fileMetadata i; have h2 := Writes.setFileMetadata i
  have h3 := fun fuel m => Writes.syncLoop (env := env) (i := i) (data := data) fuel m
  writes
end

end Appendable
