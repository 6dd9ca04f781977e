import Verif.Props.Tree
/-! Property C38: crash points of `Insert`. -/
namespace Appendable
open Spec Tree

/-- The same page file with another write budget. -/
def setB (b : Option Nat) (s : PF) : PF := { s with file := { s.file with budget := b } }

/-- An operation that does not write. -/
def Blind {α : Type} (m : Act PF α) : Prop := ∀ b s, m (setB b s) = ((m s).1, setB b (m s).2)

theorem Blind.pure {α : Type} (a : α) : Blind (Pure.pure a : Act PF α) := fun _ _ => rfl
theorem Blind.throw {α : Type} (e : Err) : Blind (Act.throw e : Act PF α) := fun _ _ => rfl
theorem Blind.crash {α : Type} : Blind (Act.crash : Act PF α) := fun _ _ => rfl
theorem Blind.lift {α : Type} (r : Res α) : Blind (Act.lift r : Act PF α) := fun _ _ => rfl
theorem Blind.bind {α β : Type} {m : Act PF α} {f : α → Act PF β} (h : Blind m) (hf : ∀ a, Blind (f a)) :
    Blind (m >>= f) := by
  intro b s
  rw [Act.bind_def, Act.bind_def, h b s]
  generalize m s = r
  obtain ⟨r, s1⟩ := r
  cases r with
  | ok a => exact hf a b s1
  | err e => rfl
  | panic => rfl

theorem Blind.seekAbs (o : Int) : Blind (PF.onFile (File.seekAbs o)) := by
  intro b s
  obtain ⟨⟨kind, bytes, pos, bud⟩, ring, head, count, lp⟩ := s
  unfold PF.onFile File.seekAbs setB
  cases kind with
  | buffer => rfl
  | mmap =>
    simp only
    split
    · rfl
    · split <;> rfl

theorem Blind.seek (o : Int) : Blind (PF.seek o) := Blind.seekAbs o

theorem Blind.seekCur : Blind (PF.onFile (File.seekCur 0)) := by
  intro b s
  have := Blind.seekAbs (s.file.pos + 0) b s
  unfold PF.onFile File.seekCur at *
  exact this

theorem Blind.read (n : Nat) : Blind (PF.read n) := by
  unfold PF.read
  refine Blind.bind Blind.seekCur (fun p => ?_)
  split
  · exact Blind.crash
  · intro b s
    obtain ⟨⟨kind, bytes, pos, bud⟩, ring, head, count, lp⟩ := s
    unfold PF.onFile File.read setB
    cases kind with
    | buffer =>
      simp only
      split <;> rfl
    | mmap =>
      simp only
      split <;> rfl

theorem Blind.readFull (n : Nat) : Blind (PF.readFull n) := by
  unfold PF.readFull
  refine Blind.bind (Blind.read n) (fun x => ?_)
  obtain ⟨d, eof⟩ := x
  simp only
  split
  · exact Blind.throw _
  · split
    · exact Blind.throw _
    · exact Blind.pure _

theorem Blind.rootAt (pos : Nat) : Blind (rootAt pos) := by
  unfold Appendable.rootAt
  exact Blind.bind (Blind.seek _) (fun _ => Blind.bind (Blind.readFull _) (fun _ => Blind.pure _))

theorem Blind.readNode (t : Tree) (p : MemPtr) : Blind (t.readNode p) := by
  unfold Tree.readNode
  refine Blind.bind (Blind.seek _) (fun _ => Blind.bind (Blind.read _) (fun x => ?_))
  obtain ⟨d, eof⟩ := x
  simp only
  split
  · exact Blind.throw _
  · exact Blind.lift _

theorem Blind.root (t : Tree) : Blind t.root := by
  intro b s
  unfold Tree.root
  rw [Blind.rootAt t.rootPos b s]
  generalize Appendable.rootAt t.rootPos s = r
  obtain ⟨r, s1⟩ := r
  cases r with
  | err e => rfl
  | panic => rfl
  | ok mp =>
    simp only
    split
    · rfl
    · exact (Blind.bind (Blind.readNode t mp) (fun n => Blind.pure _)) b s1

theorem Blind.traverse (t : Tree) (k : RV) : ∀ (fuel : Nat) (n : Node) (p : MemPtr), Blind (t.traverse k fuel n p) := by
  intro fuel
  induction fuel with
  | zero => intro n p; exact Blind.crash
  | succ fuel ih =>
    intro n p
    unfold Tree.traverse
    simp only
    split
    · exact Blind.pure _
    · split
      · exact Blind.crash
      · exact Blind.bind (Blind.readNode t _) (fun c => Blind.bind (ih c _) (fun path => Blind.pure _))

/-- The allocator only ever consumes free pages or appends. -/
def Shrinks {α : Type} (m : Act PF α) : Prop := ∀ s, s.lastPage ≤ (m s).2.lastPage ∧ (m s).2.count ≤ s.count

theorem Shrinks.pure {α : Type} (a : α) : Shrinks (Pure.pure a : Act PF α) := fun _ => ⟨Nat.le_refl _, Nat.le_refl _⟩
theorem Shrinks.throw {α : Type} (e : Err) : Shrinks (Act.throw e : Act PF α) := fun _ => ⟨Nat.le_refl _, Nat.le_refl _⟩
theorem Shrinks.crash {α : Type} : Shrinks (Act.crash : Act PF α) := fun _ => ⟨Nat.le_refl _, Nat.le_refl _⟩
theorem Shrinks.lift {α : Type} (r : Res α) : Shrinks (Act.lift r : Act PF α) := fun _ => ⟨Nat.le_refl _, Nat.le_refl _⟩
theorem Shrinks.onFile {α : Type} (m : Act File α) : Shrinks (PF.onFile m) := fun _ => ⟨Nat.le_refl _, Nat.le_refl _⟩
theorem Shrinks.bind {α β : Type} {m : Act PF α} {f : α → Act PF β} (h : Shrinks m) (hf : ∀ a, Shrinks (f a)) : Shrinks (m >>= f) := by
  intro s
  rw [Act.bind_def]
  have h1 := h s
  generalize hr : m s = r at *
  obtain ⟨r, s1⟩ := r
  cases r with
  | ok a =>
    have := hf a s1
    exact ⟨Nat.le_trans h1.1 this.1, Nat.le_trans this.2 h1.2⟩
  | err e => exact h1
  | panic => exact h1

theorem Shrinks.write (b : Bytes) : Shrinks (PF.write b) := by
  unfold PF.write
  refine Shrinks.bind (Shrinks.onFile _) (fun n => ?_)
  split
  · exact Shrinks.crash
  · exact Shrinks.onFile _

theorem Shrinks.freePageIndex : Shrinks PF.freePageIndex := by
  intro s
  unfold PF.freePageIndex
  split
  · exact ⟨Nat.le_refl _, Nat.le_refl _⟩
  · split
    · exact ⟨Nat.le_refl _, Nat.le_refl _⟩
    · rw [Act.bind_ok (Act.set_run _ _)]
      rename_i off _
      have : Shrinks (PF.writeFreePageIndices >>= fun _ => (Pure.pure off : Act PF Int)) := by
        refine Shrinks.bind ?_ (fun _ => Shrinks.pure _)
        intro s
        unfold PF.writeFreePageIndices
        split
        · exact ⟨Nat.le_refl _, Nat.le_refl _⟩
        · exact (Shrinks.bind (Shrinks.onFile _) (fun _ => Shrinks.bind (Shrinks.onFile _) (fun _ => Shrinks.pure _))) s
      have h := this { s with ring := s.ring.set s.tail 0, count := s.count - 1 }
      simp only at h ⊢
      exact ⟨h.1, Nat.le_trans h.2 (Nat.sub_le _ _)⟩

theorem Shrinks.newPage (buf : Option Bytes) : Shrinks (PF.newPage buf) := by
  unfold PF.newPage
  simp only
  split
  · exact Shrinks.throw _
  · refine Shrinks.bind Shrinks.freePageIndex (fun off => Shrinks.bind ?_ (fun off => Shrinks.bind ?_ (fun pad =>
      Shrinks.bind (Shrinks.onFile _) (fun _ => Shrinks.bind (Shrinks.onFile _) (fun _ => Shrinks.pure _)))))
    · split
      · exact Shrinks.bind (Shrinks.onFile _) (fun _ => Shrinks.pure _)
      · refine Shrinks.bind (Shrinks.onFile _) (fun _ => Shrinks.bind ?_ (fun _ => Shrinks.pure _))
        intro s; exact ⟨Nat.le_succ _, Nat.le_refl _⟩
    · split
      · exact Shrinks.bind (Shrinks.write _) (fun _ => Shrinks.pure _)
      · exact Shrinks.pure _

theorem Shrinks.writeNode (t : Tree) (o : UInt64) (n : Node) : Shrinks (t.writeNode o n) := by
  unfold Tree.writeNode
  exact Shrinks.bind (Shrinks.onFile _) (fun _ => Shrinks.bind (Shrinks.lift _) (fun _ => Shrinks.bind (Shrinks.write _) (fun _ => Shrinks.pure _)))

theorem Shrinks.writeOrSplit (t : Tree) (tr : TRec) : Shrinks (t.writeOrSplit tr) := by
  unfold Tree.writeOrSplit
  simp only
  split
  · split
    · exact Shrinks.crash
    · exact Shrinks.bind (Shrinks.lift _) (fun _ => Shrinks.bind (Shrinks.newPage _) (fun _ => Shrinks.bind (Shrinks.writeNode _ _ _) (fun _ => Shrinks.pure _)))
  · exact Shrinks.bind (Shrinks.writeNode _ _ _) (fun _ => Shrinks.pure _)

theorem Shrinks.newRoot (t : Tree) (k : RV) (n m : UInt64) : Shrinks (t.newRoot k n m) := by
  unfold Tree.newRoot
  refine Shrinks.bind (Shrinks.lift _) (fun _ => Shrinks.bind (Shrinks.newPage _) (fun _ => ?_))
  unfold setRootAt
  exact Shrinks.bind (Shrinks.onFile _) (fun _ => Shrinks.bind (Shrinks.write _) (fun _ => Shrinks.pure _))

theorem Shrinks.insertLoop (t : Tree) : ∀ (rest : List TRec) (tr : TRec), Shrinks (t.insertLoop tr rest) := by
  intro rest
  induction rest with
  | nil =>
    intro tr
    unfold Tree.insertLoop
    refine Shrinks.bind (Shrinks.writeOrSplit t tr) (fun r => ?_)
    cases r with
    | none => exact Shrinks.pure _
    | some x => exact Shrinks.newRoot _ _ _ _
  | cons p rest ih =>
    intro tr
    unfold Tree.insertLoop
    refine Shrinks.bind (Shrinks.writeOrSplit t tr) (fun r => ?_)
    cases r with
    | none => exact Shrinks.pure _
    | some x => exact ih _

theorem Shrinks.bubble (t : Tree) (rest : List TRec) (k : RV) (n m : UInt64) : Shrinks (t.bubble rest k n m) := by
  cases rest with
  | nil => exact Shrinks.newRoot _ _ _ _
  | cons p rest => exact Shrinks.insertLoop _ _ _

/-- A successful allocation shows. -/
theorem newPage_shows {s : PF} {free : List Nat} (h : s.Valid free) (hb : s.file.budget = none) {buf : Option Bytes}
    {off : Int} {s' : PF} (hr : PF.newPage buf s = (.ok off, s')) :
    s.lastPage < s'.lastPage ∨ s'.count < s.count := by
  by_cases hl : (buf.getD []).length ≤ pageSize
  rotate_left
  · rw [newPage_too_large s buf (by omega)] at hr; simp at hr
  cases free with
  | cons o fs =>
    obtain ⟨s1, h1, h2, _⟩ := newPage_pop h hb buf hl
    rw [hr] at h1; cases h1
    right
    rw [h2.ringOK.count_eq, h.ringOK.count_eq]; simp
  | nil =>
    by_cases hroom : s.file.bytes.length + pageSize < 2 ^ 63
    · obtain ⟨s1, h1, _, _, _, _, h2⟩ := newPage_append h hb buf hl hroom
      rw [hr] at h1; cases h1
      left; omega
    · obtain ⟨s1, h1, _⟩ := newPage_full h hb buf hl (by omega)
      rw [hr] at h1; cases h1

/-- If a run of the loop allocates nothing, it is a single node write. -/
theorem insertLoop_single {t : Tree} {tr : TRec} {rest : List TRec} {s s' : PF} {free : List Nat} (hv : s.Valid free)
    (hb : s.file.budget = none) (hr : t.insertLoop tr rest s = (.ok (), s')) (h1 : s'.lastPage = s.lastPage)
    (h2 : s'.count = s.count) : tr.node.size t.cfg.width ≤ pageSize ∧ ∀ (s : PF), t.insertLoop tr rest s = t.writeNode tr.ptr.offset tr.node s := by
  by_cases hsz : tr.node.size t.cfg.width > pageSize
  · exfalso
    rw [insertLoop_eq] at hr
    unfold Tree.writeOrSplit at hr
    simp only at hr
    rw [if_pos hsz] at hr
    split at hr
    · simp [Act.bind_def] at hr
    · rename_i midKey _
      generalize hm : (rightHalf tr.node (tr.node.keys.length / 2)).marshal t.cfg.width = mr at hr
      cases mr with
      | err e => simp [Act.bind_def] at hr
      | panic => simp [Act.bind_def] at hr
      | ok mbuf =>
        generalize hn : PF.newPage (some mbuf) s = nr at hr
        obtain ⟨nr, s1⟩ := nr
        cases nr with
        | err e => simp [Act.bind_def, hn] at hr
        | panic => simp [Act.bind_def, hn] at hr
        | ok off =>
          have hsh := newPage_shows hv hb hn
          have hrest : Shrinks (t.writeNode tr.ptr.offset (leftHalf tr.node (tr.node.keys.length / 2)) >>= fun _ =>
              t.bubble rest midKey tr.ptr.offset (UInt64.ofNat (u64OfInt off))) :=
            Shrinks.bind (Shrinks.writeNode _ _ _) (fun _ => Shrinks.bubble _ _ _ _ _)
          have hm := hrest s1
          have heq : (t.writeNode tr.ptr.offset (leftHalf tr.node (tr.node.keys.length / 2)) >>= fun _ =>
              t.bubble rest midKey tr.ptr.offset (UInt64.ofNat (u64OfInt off))) s1 = (.ok (), s') := by
            rw [← hr]
            rw [Act.bind_def, Act.bind_def, Act.bind_def, Act.lift_run]
            simp only
            rw [Act.bind_def, hn]
            simp only
            rw [Act.bind_def]
            generalize t.writeNode tr.ptr.offset (leftHalf tr.node (tr.node.keys.length / 2)) s1 = w
            obtain ⟨w, s2⟩ := w
            cases w <;> rfl
          rw [heq] at hm
          simp only at hm
          omega
  · refine ⟨by omega, fun s => ?_⟩
    rw [insertLoop_eq]
    unfold Tree.writeOrSplit
    simp only
    rw [if_neg hsz, Act.bind_def, Act.bind_def]
    generalize t.writeNode tr.ptr.offset tr.node s = w
    obtain ⟨w, s2⟩ := w
    cases w <;> rfl

/-- One node write with any budget: the write happened or not. -/
theorem writeNode_crash {t : Tree} {s s' : PF} {o : UInt64} {n : Node} (h : t.writeNode o n s = (.ok (), s'))
    (hb : s.file.budget = none) (b : Nat) :
    (t.writeNode o n (setB (some b) s)).2.file.bytes = s.file.bytes ∨
    (t.writeNode o n (setB (some b) s)).2.file.bytes = s'.file.bytes := by
  unfold Tree.writeNode at h ⊢
  rw [Act.bind_def, Blind.seek _ (some b) s]
  rw [Act.bind_def] at h
  have hsb : (PF.seek (int64OfU64 o.toNat) s).2.file.bytes = s.file.bytes ∧ (PF.seek (int64OfU64 o.toNat) s).2.file.budget = none := by
    unfold PF.seek PF.onFile File.seekStart File.seekAbs
    cases s.file.kind with
    | buffer => exact ⟨rfl, hb⟩
    | mmap =>
      simp only
      split
      · exact ⟨rfl, hb⟩
      · split
        · exact ⟨rfl, hb⟩
        · exact ⟨rfl, hb⟩
  generalize hs : PF.seek (int64OfU64 o.toNat) s = r at *
  obtain ⟨r, s1⟩ := r
  cases r with
  | err e => simp at h
  | panic => simp at h
  | ok a =>
    simp only at h hsb ⊢
    rw [Act.bind_def, Act.lift_run] at h ⊢
    generalize n.marshal t.cfg.width = mr at *
    cases mr with
    | err e => simp at h
    | panic => simp at h
    | ok buf =>
      simp only at h ⊢
      rw [Act.bind_def] at h ⊢
      unfold PF.write at h ⊢
      rw [Act.bind_def, Blind.seekCur (some b) s1]
      rw [Act.bind_def] at h
      have hsb2 : (PF.onFile (File.seekCur 0) s1).2.file.bytes = s1.file.bytes ∧ (PF.onFile (File.seekCur 0) s1).2.file.budget = none := by
        unfold PF.onFile File.seekCur File.seekAbs
        cases s1.file.kind with
        | buffer => exact ⟨rfl, hsb.2⟩
        | mmap =>
          simp only
          split
          · exact ⟨rfl, hsb.2⟩
          · split
            · exact ⟨rfl, hsb.2⟩
            · exact ⟨rfl, hsb.2⟩
      generalize hs2 : PF.onFile (File.seekCur 0) s1 = r2 at *
      obtain ⟨r2, s2⟩ := r2
      cases r2 with
      | err e => simp at h
      | panic => simp at h
      | ok p =>
        simp only at h hsb2 ⊢
        by_cases hc : p.tmod pageSize + buf.length > pageSize
        · rw [if_pos hc] at h; simp at h
        · rw [if_neg hc] at h ⊢
          unfold PF.onFile File.write at h ⊢
          have hsb3 : (setB (some b) s2).file.bytes = s2.file.bytes := rfl
          simp only [hsb2.2] at h
          rw [if_neg (by simp)] at h
          cases b with
          | zero =>
            left
            rw [if_pos (by rfl)]
            exact hsb2.1.trans hsb.1
          | succ b =>
            have hne : ¬ (setB (some (b + 1)) s2).file.budget = some 0 := by simp [setB]
            rw [if_neg hne]
            by_cases hbig : s2.file.pos + buf.length ≥ 2 ^ 63
            · rw [if_pos hbig] at h; simp at h
            · have hbig' : ¬ (setB (some (b + 1)) s2).file.pos + buf.length ≥ 2 ^ 63 := hbig
              rw [if_neg hbig] at h
              rw [if_neg hbig']
              right
              cases hk : s2.file.kind with
              | buffer =>
                have hk' : (setB (some (b + 1)) s2).file.kind = .buffer := hk
                rw [hk']
                simp only [hk] at h ⊢
                by_cases hpos : s2.file.pos > s2.file.bytes.length
                · rw [if_pos hpos] at h; simp at h
                · rw [if_neg hpos] at h
                  have hpos' : ¬ (setB (some (b + 1)) s2).file.pos > (setB (some (b + 1)) s2).file.bytes.length := hpos
                  rw [if_neg hpos']
                  simp at h
                  rw [← h]; rfl
              | mmap =>
                have hk' : (setB (some (b + 1)) s2).file.kind = .mmap := hk
                rw [hk']
                simp only [hk] at h ⊢
                simp at h
                rw [← h]; rfl

/-- An insert that allocates nothing is a single node write, with any write budget. -/
theorem insert_noalloc {t : Tree} {k : RV} {v : MemPtr} {s s1 : PF} {free : List Nat} (hv : s.Valid free)
    (hb : s.file.budget = none) (hrun : t.insert k v s = (.ok (), s1)) (h1 : s1.lastPage = s.lastPage)
    (h2 : s1.count = s.count) (hread : ∀ s2, (t.root s).2 = s2 → ∃ p, s2 = s.upd s.file.bytes p)
    (htrav : ∀ n mp s2, t.root s = (.ok (some (n, mp)), s2) → ∃ p, (t.traverse k (fuel s2) n mp s2).2 = s.upd s.file.bytes p)
    (hroot : ∀ s2, t.root s ≠ (.ok none, s2)) (b : Nat) :
    (t.insert k v (crashAfter b s)).2.file.bytes = s.file.bytes ∨
    (t.insert k v (crashAfter b s)).2.file.bytes = s1.file.bytes := by
  show (t.insert k v (setB (some b) s)).2.file.bytes = _ ∨ (t.insert k v (setB (some b) s)).2.file.bytes = _
  unfold Tree.insert at hrun ⊢
  split at hrun
  · simp at hrun
  · rename_i hwid
    rw [if_neg hwid]
    rw [Act.bind_def] at hrun
    rw [Act.bind_def, Blind.root t (some b) s]
    generalize hr : t.root s = r at *
    obtain ⟨r, s2⟩ := r
    obtain ⟨p2, rfl⟩ := hread s2 rfl
    cases r with
    | err e => simp at hrun
    | panic => simp at hrun
    | ok ro =>
      cases ro with
      | none => exact absurd rfl (hroot _)
      | some x =>
        obtain ⟨n, mp⟩ := x
        simp only at hrun ⊢
        rw [Act.bind_ok (Act.get_run _), Act.bind_def] at hrun
        rw [Act.bind_ok (Act.get_run _), Act.bind_def]
        have hfu : fuel (setB (some b) (s.upd s.file.bytes p2)) = fuel (s.upd s.file.bytes p2) := rfl
        rw [hfu, Blind.traverse t k _ n mp (some b) (s.upd s.file.bytes p2)]
        obtain ⟨p3, hp3⟩ := htrav n mp _ rfl
        generalize ht : t.traverse k (fuel (s.upd s.file.bytes p2)) n mp (s.upd s.file.bytes p2) = tr at *
        obtain ⟨tr, s3⟩ := tr
        simp only at hp3
        subst hp3
        cases tr with
        | err e => simp at hrun
        | panic => simp at hrun
        | ok path =>
          cases path with
          | nil => simp at hrun
          | cons tr rest =>
            simp only at hrun ⊢
            by_cases hf : (bsearch compareRV tr.node.keys k).2 = true
            · rw [if_pos hf] at hrun; simp at hrun
            · rw [if_neg hf] at hrun ⊢
              have hv3 := (Frame.upd_pos hv hb p3 []).valid
              obtain ⟨_, hs⟩ := insertLoop_single hv3 hb hrun h1 h2
              rw [hs] at hrun
              rw [hs]
              exact writeNode_crash hrun hb b

/-- After reopening a file with the bytes of a reachable state all stored keys are found. -/
theorem found_again {ts : List Tree} {s : PF} {c : Nat → List (RV × MemPtr)} {f : File} (hf : ForestRun ts s c) (hb : f.bytes = s.file.bytes)
    (hu : f.budget = none) :
    ∃ s2, PF.openFile f = (.ok s2, s2.file) ∧ ∀ j u e, ts[j]? = some u → e ∈ c j → ∃ s3, u.find e.1 s2 = (.ok e, s3) := by
  obtain ⟨free, E, P, hi⟩ := forestInv hf
  obtain ⟨s2, h1, _⟩ := openFile_valid' hi.valid f hb
  exact ⟨s2, h1, fun j u e hj he => C12_find_stored (.reopen hf hb hu h1) hj he⟩

/-- C38, when no page has to be allocated (the insert does not split a node): wherever the process dies during the
`Insert`, the file can be opened again, and every entry that was stored before, in any tree of the file, is still found with its
pointer.  Missing: inserts that split a node (these always have a crash point that loses an entry: `C38_split_violated`).
For the first insert into a tree see `C38_first_partial`. -/
theorem C38_crash_partial {ts : List Tree} {s s1 : PF} {c : Nat → List (RV × MemPtr)} {i : Nat} {t : Tree} {k : RV}
    {v : MemPtr} {f : File} (hf : ForestRun ts s c) (ht : ts[i]? = some t) (hk : KeyOK t.cfg k)
    (hne : c i ≠ []) (hrun : t.insert k v s = (.ok (), s1)) (h1 : s1.lastPage = s.lastPage) (h2 : s1.count = s.count)
    (n : Nat) (hb : f.bytes = (t.insert k v (crashAfter n s)).2.file.bytes) (hu : f.budget = none) :
    ∃ s2, PF.openFile f = (.ok s2, s2.file) ∧ ∀ j u e, ts[j]? = some u → e ∈ c j → ∃ s3, u.find e.1 s2 = (.ok e, s3) := by
  obtain ⟨free, E, P, hi⟩ := forestInv hf
  obtain ⟨hti, hw, hp⟩ := hi.tree i t ht
  have hf1 : ForestRun ts s1 (setAt c i ((k, v) :: c i)) := .insert hf ht hk hrun
  have hbytes : (t.insert k v (crashAfter n s)).2.file.bytes = s.file.bytes ∨
      (t.insert k v (crashAfter n s)).2.file.bytes = s1.file.bytes := by
    rcases hti.root with ⟨_, h0, _⟩ | ⟨h0, h, hr, _⟩
    · rw [h0] at hp
      exact absurd (List.length_eq_zero_iff.1 hp.length_eq.symm) hne
    · obtain ⟨nd, hn⟩ := hr.node
      obtain ⟨p0, hroot⟩ := root_some (t := t) hti.slotInside hti.slot h0 hn
      refine insert_noalloc hi.valid hi.budget hrun h1 h2 ?_ ?_ ?_ n
      · intro s2 hs2; rw [hroot] at hs2; exact ⟨p0, hs2.symm⟩
      · intro nd' mp s2 hs2
        rw [hroot] at hs2
        cases hs2
        have hfuel : h < fuel (s.upd s.file.bytes p0) := by
          have := hr.height_lt
          have := pages_count hti.nodup hr.pages
          unfold fuel; simp only [upd_bytes]; omega
        generalize MemPtr.decode (slice s.file.bytes t.rootPos 12) = mp at *
        obtain ⟨off, l⟩ := mp
        obtain ⟨path, p1, htr, hpath⟩ := traverse_ok (t := t) (key := k) (s := s.upd s.file.bytes p0) (l := l)
          hr hn hfuel (fun l hl => by cases hl) (fun l hl => by cases hl)
        rw [htr]
        exact ⟨p1, rfl⟩
      · intro s2 hs2; rw [hroot] at hs2; simp at hs2
  rcases hbytes with hb' | hb'
  · exact found_again hf (hb.trans hb') hu
  · obtain ⟨s2, g1, g2⟩ := found_again hf1 (hb.trans hb') hu
    refine ⟨s2, g1, fun j u e hj he => g2 j u e hj ?_⟩
    by_cases hji : j = i
    · subst hji; rw [setAt_same]; simp [he]
    · rw [setAt_ne _ _ hji]; exact he

end Appendable
