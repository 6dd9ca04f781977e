import Verif.Model.IndexFile
import Verif.Lemmas.File
/-! The index file never shrinks. -/
namespace Appendable
open Tree

/-- The file does not shrink, goes on to accept writes, and stays below the largest size. -/
def GrowF (f f' : File) : Prop := f.bytes.length ≤ f'.bytes.length ∧ (f.budget = none → f'.budget = none) ∧
  (f.bytes.length < 2 ^ 63 → f'.bytes.length < 2 ^ 63)

theorem GrowF.refl (f : File) : GrowF f f := ⟨Nat.le_refl _, id, id⟩
theorem GrowF.trans {f g h : File} (a : GrowF f g) (b : GrowF g h) : GrowF f h :=
  ⟨Nat.le_trans a.1 b.1, fun x => b.2.1 (a.2.1 x), fun x => b.2.2 (a.2.2 x)⟩

/-- No run of `a` shrinks the file. -/
def MonoF {α : Type} (a : Act File α) : Prop := ∀ f, GrowF f (a f).2

/-- No run of `a` shrinks the file. -/
structure Mono {α : Type} (a : Act PF α) : Prop where
  grow : ∀ s, GrowF s.file (a s).2.file

theorem Mono.le {α : Type} {a : Act PF α} (h : Mono a) (s : PF) : s.file.bytes.length ≤ (a s).2.file.bytes.length := (h.grow s).1

theorem writeAt_len_ge (l : Bytes) (off : Nat) (b : Bytes) : l.length ≤ (writeAt l off b).length := by
  unfold writeAt
  simp only [List.length_append, List.length_take, List.length_drop, List.length_replicate]
  omega

theorem writeAt_len_lt (l : Bytes) (off : Nat) (b : Bytes) (h : l.length < 2 ^ 63) (h2 : off + b.length < 2 ^ 63) : (writeAt l off b).length < 2 ^ 63 := by
  unfold writeAt
  simp only [List.length_append, List.length_take, List.length_drop, List.length_replicate]
  omega

theorem MonoF.seekAbs (x : Int) : MonoF (File.seekAbs x) := by
  intro f; unfold File.seekAbs
  split
  · split
    · exact GrowF.refl _
    · split <;> exact GrowF.refl _
  · exact GrowF.refl _
theorem MonoF.seekStart (x : Int) : MonoF (File.seekStart x) := MonoF.seekAbs x
theorem MonoF.seekEnd (x : Int) : MonoF (File.seekEnd x) := fun f => MonoF.seekAbs _ f
theorem MonoF.seekCur (x : Int) : MonoF (File.seekCur x) := fun f => MonoF.seekAbs _ f
theorem MonoF.read (n : Nat) : MonoF (File.read n) := by
  intro f; unfold File.read
  split <;> split <;> exact GrowF.refl _
theorem MonoF.write (b : Bytes) : MonoF (File.write b) := by
  intro f; unfold File.write
  split
  · exact GrowF.refl _
  · split
    · exact GrowF.refl _
    · simp only
      split
      · split
        · exact GrowF.refl _
        · exact ⟨writeAt_len_ge _ _ _, fun h => by simp only [h]; rfl, fun h => writeAt_len_lt _ _ _ h (by omega)⟩
      · exact ⟨writeAt_len_ge _ _ _, fun h => by simp only [h]; rfl, fun h => writeAt_len_lt _ _ _ h (by omega)⟩

section
variable {α β : Type}
theorem Mono.pure (a : α) : Mono (Pure.pure a : Act PF α) := ⟨fun _ => GrowF.refl _⟩
theorem Mono.throw (e : Err) : Mono (Act.throw e : Act PF α) := ⟨fun _ => GrowF.refl _⟩
theorem Mono.crash : Mono (Act.crash : Act PF α) := ⟨fun _ => GrowF.refl _⟩
theorem Mono.get : Mono (Act.get : Act PF PF) := ⟨fun _ => GrowF.refl _⟩
theorem Mono.lift (r : Res α) : Mono (Act.lift r : Act PF α) := ⟨fun _ => GrowF.refl _⟩
theorem Mono.bind {a : Act PF α} {f : α → Act PF β} (h : Mono a) (g : ∀ x, Mono (f x)) : Mono (a >>= f) := by
  refine ⟨fun s => ?_⟩
  rw [Act.bind_def]
  have := h.grow s
  split
  · rename_i x s' he; rw [he] at this; exact GrowF.trans this ((g x).grow s')
  · rename_i x s' he; rw [he] at this; exact this
  · rename_i s' he; rw [he] at this; exact this
theorem Mono.onFile {a : Act File α} (h : MonoF a) : Mono (PF.onFile a) := ⟨fun s => h s.file⟩
end

theorem Mono.seek (x : Int) : Mono (PF.seek x) := Mono.onFile (MonoF.seekStart x)

macro "mono" : tactic => `(tactic| repeat' (first
  | with_reducible exact Mono.pure _ | with_reducible exact Mono.throw _ | with_reducible exact Mono.crash
  | with_reducible exact Mono.lift _ | with_reducible exact Mono.get
  | with_reducible exact Mono.seek _ | with_reducible exact Mono.onFile (MonoF.seekStart _)
  | with_reducible exact Mono.onFile (MonoF.seekEnd _) | with_reducible exact Mono.onFile (MonoF.seekCur _)
  | with_reducible exact Mono.onFile (MonoF.read _) | with_reducible exact Mono.onFile (MonoF.write _)
  | with_reducible assumption
  | with_reducible (refine Mono.bind ?_ ?_) | intro _ | split | with_reducible solve_by_elim))

theorem Mono.pfWrite (b : Bytes) : Mono (PF.write b) := by unfold PF.write; mono
theorem Mono.pfRead (n : Nat) : Mono (PF.read n) := by unfold PF.read; mono
theorem Mono.readFull (n : Nat) : Mono (PF.readFull n) := by unfold PF.readFull; have := Mono.pfRead n; mono
theorem Mono.writeFree : Mono PF.writeFreePageIndices := by
  refine ⟨fun s => ?_⟩; unfold PF.writeFreePageIndices
  split
  · exact GrowF.refl _
  · exact (Mono.bind (Mono.onFile (MonoF.seekStart 0)) (fun _ => Mono.bind (Mono.onFile (MonoF.write _)) (fun _ => Mono.pure _))).grow s
theorem Mono.freePageIndex : Mono PF.freePageIndex := by
  refine ⟨fun s => ?_⟩; unfold PF.freePageIndex
  split
  · exact GrowF.refl _
  · split
    · exact GrowF.refl _
    · rw [Act.bind_ok (Act.set_run _ _)]
      exact (Mono.bind Mono.writeFree (fun _ => Mono.pure _)).grow { s with ring := s.ring.set s.tail 0, count := s.count - 1 }
theorem Mono.newPage (b : Option Bytes) : Mono (PF.newPage b) := by
  unfold PF.newPage
  have h1 := Mono.freePageIndex
  have h2 := Mono.pfWrite
  have h3 : Mono (fun s => (.ok (), { s with lastPage := s.lastPage + 1 }) : Act PF Unit) := ⟨fun _ => GrowF.refl _⟩
  simp only
  mono
  exact Mono.bind h3 (fun _ => Mono.pure _)
theorem Mono.setRootAt (p : Nat) (m : MemPtr) : Mono (setRootAt p m) := by
  unfold Appendable.setRootAt; have := Mono.pfWrite m.encode; mono
theorem Mono.rootAt (p : Nat) : Mono (rootAt p) := by
  unfold Appendable.rootAt; have := Mono.readFull 12; mono
theorem Mono.readNode (t : Tree) (p : MemPtr) : Mono (t.readNode p) := by
  unfold Tree.readNode; have := Mono.pfRead pageSize; mono
theorem Mono.root (t : Tree) : Mono t.root := by
  refine ⟨fun s => ?_⟩; unfold Tree.root
  have := (Mono.rootAt t.rootPos).grow s
  split
  · rename_i h; rw [h] at this; exact this
  · rename_i h; rw [h] at this; exact this
  · rename_i h; rw [h] at this
    split
    · exact this
    · exact GrowF.trans this ((Mono.bind (Mono.readNode t _) (fun _ => Mono.pure _)).grow _)
theorem Mono.traverse (t : Tree) (key : RV) (fuel : Nat) (n : Node) (p : MemPtr) : Mono (t.traverse key fuel n p) := by
  induction fuel generalizing n p with
  | zero => exact Mono.crash
  | succ fuel ih =>
    unfold Tree.traverse
    simp only
    have := Mono.readNode t
    mono
theorem Mono.writeNode (t : Tree) (o : UInt64) (n : Node) : Mono (t.writeNode o n) := by
  unfold Tree.writeNode; have := Mono.pfWrite; mono
theorem Mono.writeOrSplit (t : Tree) (tr : TRec) : Mono (t.writeOrSplit tr) := by
  unfold Tree.writeOrSplit
  have h1 := Mono.writeNode t; have h2 := Mono.newPage
  simp only
  mono
theorem Mono.newRoot (t : Tree) (k : RV) (n m : UInt64) : Mono (t.newRoot k n m) := by
  unfold Tree.newRoot
  have h1 := Mono.setRootAt t.rootPos; have h2 := Mono.newPage
  mono
theorem Mono.insertLoop (t : Tree) (tr : TRec) (rest : List TRec) : Mono (t.insertLoop tr rest) := by
  induction rest generalizing tr with
  | nil =>
    unfold Tree.insertLoop
    have h1 := Mono.writeOrSplit t tr; have h2 := Mono.newRoot t
    mono
  | cons p rest ih =>
    unfold Tree.insertLoop
    have h1 := Mono.writeOrSplit t tr
    mono
theorem Mono.insert (t : Tree) (key : RV) (v : MemPtr) : Mono (t.insert key v) := by
  unfold Tree.insert
  have h1 := Mono.root t; have h2 := Mono.newPage; have h3 := Mono.setRootAt t.rootPos
  have h4 := Mono.traverse t key; have h5 := Mono.insertLoop t
  mono

theorem Mono.lpMetadata (m : LP) : Mono m.metadata := by
  unfold LP.metadata LP.seekU64
  have := Mono.pfRead
  simp only
  mono
theorem Mono.lpSetMetadata (m : LP) (d : Bytes) : Mono (m.setMetadata d) := by
  unfold LP.setMetadata LP.seekU64
  have := Mono.pfWrite
  mono
theorem Mono.nextPageOffset (m : LP) : Mono m.nextPageOffset := by
  unfold LP.nextPageOffset LP.seekU64
  have := Mono.readFull 8
  mono
theorem Mono.count (m : LP) : Mono m.count := by
  unfold LP.count
  have := Mono.readFull 1
  mono
theorem Mono.next (m : LP) : Mono m.next := by
  unfold LP.next
  have h1 := Mono.count m; have h2 := Mono.nextPageOffset m
  mono
theorem Mono.reset (m : LP) (c : UInt8) : Mono (m.reset c) := by
  unfold LP.reset LP.seekU64
  have := Mono.pfWrite
  mono
theorem Mono.addNext (m : LP) : Mono m.addNext := by
  unfold LP.addNext LP.seekU64
  have h1 := Mono.count m; have h2 := Mono.nextPageOffset m; have h3 := Mono.pfWrite; have h4 := Mono.newPage none
  have h5 := Mono.reset
  mono
theorem Mono.createIndex (m : LP) (n : Bytes) (t : UInt8) : Mono (IndexFile.createIndex m n t) := by
  unfold IndexFile.createIndex
  have h1 := Mono.addNext m; have h2 := Mono.lpSetMetadata
  mono
theorem Mono.findFrom (n : Bytes) (t : UInt8) (fuel : Nat) (m : LP) : Mono (IndexFile.findFrom n t fuel m) := by
  induction fuel generalizing m with
  | zero => exact Mono.crash
  | succ fuel ih =>
    refine ⟨fun s => ?_⟩
    unfold IndexFile.findFrom
    have := (Mono.next m).grow s
    split
    · rename_i h; rw [h] at this; exact GrowF.trans this ((Mono.createIndex _ _ _).grow _)
    · rename_i h; rw [h] at this; exact this
    · rename_i h; rw [h] at this; exact this
    · rename_i nx s1 h; rw [h] at this
      refine GrowF.trans this ?_
      have hb : Mono (do let buf ← nx.metadata
                         let m ← Act.lift (IndexMeta.unmarshal buf)
                         if m.fieldName = n ∧ m.fieldType = t then return (nx, m)
                         else IndexFile.findFrom n t fuel nx) := by
        have h1 := Mono.lpMetadata nx; have h2 := ih nx
        mono
      exact hb.grow s1
theorem Mono.findOrCreate (i : IndexFile) (n : Bytes) (t : UInt8) : Mono (i.findOrCreate n t) := ⟨fun s => (Mono.findFrom n t _ _).grow s⟩
theorem Mono.fileMetadata (i : IndexFile) : Mono i.metadata := by
  unfold IndexFile.metadata
  have h1 := Mono.lpMetadata i.tree
  mono
theorem Mono.setFileMetadata (i : IndexFile) (m : FileMeta) : Mono (i.setMetadata m) := by
  unfold IndexFile.setMetadata
  have h1 := Mono.lpSetMetadata
  mono

end Appendable
