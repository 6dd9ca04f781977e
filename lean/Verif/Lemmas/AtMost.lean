import Verif.Lemmas.Writes
/-! Bounds on the number of writes of an operation. -/
namespace Appendable
open Tree

/-- On this state the operation takes at most `w` writes (unless it panics). -/
def AtMost {α : Type} (w : Nat) (a : Act PF α) (s : PF) : Prop :=
  s.file.budget = none → (a s).1 ≠ .panic → (a s).2.file.budget = none ∧
    ∃ v, v ≤ w ∧ ∀ n, a (withBudget (some (v + n)) s) = ((a s).1, withBudget (some n) (a s).2)

section
variable {α β : Type}

theorem AtMost.mono {w w' : Nat} {a : Act PF α} {s : PF} (h : AtMost w a s) (hw : w ≤ w') : AtMost w' a s := by
  intro hs hp
  obtain ⟨h1, v, hv, h2⟩ := h hs hp
  exact ⟨h1, v, Nat.le_trans hv hw, h2⟩

theorem AtMost.still {a : Act PF α} (r : Res α) (g : PF → PF) (h : ∀ s, a s = (r, g s)) (hg : ∀ b s, g (withBudget b s) = withBudget b (g s))
    (hk : ∀ s, (g s).file.budget = s.file.budget) (w : Nat) (s : PF) : AtMost w a s := by
  intro hs _
  refine ⟨by rw [h, hk, hs], 0, Nat.zero_le _, fun n => ?_⟩
  rw [h, h, hg, Nat.zero_add]

theorem AtMost.pure (a : α) (w : Nat) (s : PF) : AtMost w (Pure.pure a : Act PF α) s :=
  AtMost.still (.ok a) id (fun _ => rfl) (fun _ _ => rfl) (fun _ => rfl) w s
theorem AtMost.throw (e : Err) (w : Nat) (s : PF) : AtMost w (Act.throw e : Act PF α) s :=
  AtMost.still (.err e) id (fun _ => rfl) (fun _ _ => rfl) (fun _ => rfl) w s
theorem AtMost.crash (w : Nat) (s : PF) : AtMost w (Act.crash : Act PF α) s :=
  AtMost.still .panic id (fun _ => rfl) (fun _ _ => rfl) (fun _ => rfl) w s
theorem AtMost.lift (r : Res α) (w : Nat) (s : PF) : AtMost w (Act.lift r : Act PF α) s :=
  AtMost.still r id (fun _ => rfl) (fun _ _ => rfl) (fun _ => rfl) w s

theorem AtMost.calm {a : Act File α} (h : Calm a) (w : Nat) (s : PF) : AtMost w (PF.onFile a) s := by
  intro hs _
  refine ⟨by show (a s.file).2.budget = none; rw [(h.keep s.file).2, hs], 0, Nat.zero_le _, fun n => ?_⟩
  unfold PF.onFile withBudget
  simp only
  rw [h.blind]
  simp

theorem AtMost.bind {w w' : Nat} {a : Act PF α} {f : α → Act PF β} {s : PF} (h : AtMost w a s)
    (g : ∀ x s1, a s = (.ok x, s1) → AtMost w' (f x) s1) : AtMost (w + w') (a >>= f) s := by
  intro hs hp
  rw [Act.bind_def] at hp ⊢
  obtain ⟨r, s1, hr⟩ : ∃ r s1, a s = (r, s1) := ⟨_, _, rfl⟩
  cases r with
  | panic => rw [hr] at hp; exact absurd rfl hp
  | err e =>
    obtain ⟨h1, v, hv, h2⟩ := h hs (by rw [hr]; simp)
    rw [hr] at h1
    refine ⟨by rw [hr]; exact h1, v, by omega, fun n => ?_⟩
    rw [Act.bind_def, h2 n, hr]
  | ok x =>
    obtain ⟨h1, v, hv, h2⟩ := h hs (by rw [hr]; simp)
    rw [hr] at h1
    obtain ⟨g1, v', hv', g2⟩ := g x s1 hr h1 (by rw [hr] at hp; exact hp)
    refine ⟨by rw [hr]; exact g1, v + v', by omega, fun n => ?_⟩
    rw [Act.bind_def, Nat.add_assoc, h2 (v' + n), hr]
    exact g2 n

theorem AtMost.dep {w : Nat} {f : PF → Act PF α} {s : PF} (h : AtMost w (f s) s) (hf : ∀ b, f (withBudget b s) = f s) :
    AtMost w (fun s => f s s) s := by
  intro hs hp
  obtain ⟨h1, v, hv, h2⟩ := h hs hp
  exact ⟨h1, v, hv, fun n => by simp only [hf, h2]⟩

end

theorem AtMost.write (b : Bytes) (s : PF) : AtMost 1 (PF.onFile (File.write b)) s := by
  intro hs hp
  obtain ⟨⟨kind, bytes, pos, bud⟩, ring, head, count, lp⟩ := s
  simp only at hs
  subst hs
  unfold PF.onFile File.write at hp
  unfold PF.onFile File.write withBudget
  simp only at hp ⊢
  rw [if_neg (by simp)] at hp ⊢
  by_cases h2 : pos + b.length ≥ 2 ^ 63
  · rw [if_pos h2]
    refine ⟨rfl, 0, by omega, fun n => ?_⟩
    cases n with
    | zero => simp
    | succ n => simp [h2]
  · rw [if_neg h2] at hp ⊢
    cases kind with
    | buffer =>
      simp only at hp ⊢
      by_cases h3 : pos > bytes.length
      · rw [if_pos h3] at hp
        exact absurd rfl hp
      · rw [if_neg h3]
        refine ⟨rfl, 1, by omega, fun n => ?_⟩
        simp [h2, h3, Nat.add_comm 1 n]
    | mmap =>
      refine ⟨rfl, 1, by omega, fun n => ?_⟩
      simp [h2, Nat.add_comm 1 n]

theorem AtMost.seek (x : Int) (w : Nat) (s : PF) : AtMost w (PF.seek x) s := AtMost.calm (Calm.seekStart x) w s

/-- Nothing is written before what remains. -/
theorem AtMost.bind0 {α β : Type} {w : Nat} {a : Act PF α} {f : α → Act PF β} {s : PF} (h : AtMost 0 a s)
    (g : ∀ x s1, a s = (.ok x, s1) → AtMost w (f x) s1) : AtMost w (a >>= f) s := by
  have := AtMost.bind h g
  rwa [Nat.zero_add] at this

theorem AtMost.pfWrite (b : Bytes) (s : PF) : AtMost 1 (PF.write b) s := by
  unfold PF.write
  refine AtMost.bind0 (AtMost.calm (Calm.seekCur _) 0 s) (fun n s1 _ => ?_)
  split
  · exact AtMost.crash _ _
  · exact AtMost.write b s1

theorem AtMost.pfRead (n w : Nat) (s : PF) : AtMost w (PF.read n) s := by
  unfold PF.read
  refine AtMost.bind0 (AtMost.calm (Calm.seekCur _) 0 s) (fun n s1 _ => ?_)
  split
  · exact AtMost.crash _ _
  · exact AtMost.calm (Calm.read _) w s1

theorem AtMost.readFull (n w : Nat) (s : PF) : AtMost w (PF.readFull n) s := by
  unfold PF.readFull
  refine AtMost.bind0 (AtMost.pfRead n 0 s) (fun x s1 _ => ?_)
  obtain ⟨d, e⟩ := x
  simp only
  split
  · exact AtMost.throw _ _ _
  · split
    · exact AtMost.throw _ _ _
    · exact AtMost.pure _ _ _

theorem AtMost.writeFree (s : PF) : AtMost 1 PF.writeFreePageIndices s := by
  rw [writeFree_eq]
  refine AtMost.dep ?_ (fun b => rfl)
  unfold writeFreeOf
  split
  · exact AtMost.crash _ _
  · refine AtMost.bind0 (AtMost.calm (Calm.seekStart _) 0 s) (fun _ s1 _ => ?_)
    exact AtMost.bind (w := 1) (w' := 0) (AtMost.write _ s1) (fun _ s2 _ => AtMost.pure _ _ _)

theorem AtMost.freePageIndex (s : PF) : AtMost 1 PF.freePageIndex s := by
  rw [freePage_eq]
  refine AtMost.dep ?_ (fun b => rfl)
  unfold freePageOf
  split
  · exact AtMost.pure _ _ _
  · split
    · exact AtMost.crash _ _
    · refine AtMost.bind0 (AtMost.still (.ok ()) (fun s => { s with ring := s.ring.set s.tail 0, count := s.count - 1 })
        (fun _ => rfl) (fun _ _ => rfl) (fun _ => rfl) 0 s) (fun _ s1 _ => ?_)
      exact AtMost.bind (w := 1) (w' := 0) (AtMost.writeFree s1) (fun _ s2 _ => AtMost.pure _ _ _)

/-- A new page: the free list, the padding of the file to a multiple of the page size, the page. -/
theorem AtMost.newPage (b : Option Bytes) (s : PF) : AtMost 3 (PF.newPage b) s := by
  unfold PF.newPage
  simp only
  split
  · exact AtMost.throw _ _ _
  · refine AtMost.bind (w := 1) (w' := 2) (AtMost.freePageIndex s) (fun off s1 _ => ?_)
    refine AtMost.bind0 ?_ (fun off s2 _ => ?_)
    · split
      · exact AtMost.bind0 (AtMost.calm (Calm.seekStart _) 0 _) (fun _ s2 _ => AtMost.pure _ _ _)
      · refine AtMost.bind0 (AtMost.calm (Calm.seekEnd _) 0 _) (fun _ s2 _ => ?_)
        exact AtMost.bind0 (AtMost.still (.ok ()) (fun s => { s with lastPage := s.lastPage + 1 }) (fun _ => rfl) (fun _ _ => rfl) (fun _ => rfl) 0 s2)
          (fun _ s3 _ => AtMost.pure _ _ _)
    · refine AtMost.bind (w := 1) (w' := 1) ?_ (fun pad s3 _ => ?_)
      · split
        · exact AtMost.bind (w := 1) (w' := 0) (AtMost.pfWrite _ s2) (fun _ s3 _ => AtMost.pure _ _ _)
        · exact AtMost.pure _ _ _
      · refine AtMost.bind (w := 1) (w' := 0) (AtMost.write _ s3) (fun _ s4 _ => ?_)
        exact AtMost.bind0 (AtMost.calm (Calm.seekStart _) 0 s4) (fun _ s5 _ => AtMost.pure _ _ _)

theorem AtMost.setRootAt (p : Nat) (m : MemPtr) (s : PF) : AtMost 1 (setRootAt p m) s := by
  unfold Appendable.setRootAt
  refine AtMost.bind0 (AtMost.seek _ 0 s) (fun _ s1 _ => ?_)
  exact AtMost.bind (w := 1) (w' := 0) (AtMost.pfWrite _ s1) (fun _ s2 _ => AtMost.pure _ _ _)

theorem AtMost.rootAt (p w : Nat) (s : PF) : AtMost w (rootAt p) s := by
  unfold Appendable.rootAt
  refine AtMost.bind0 (AtMost.seek _ 0 s) (fun _ s1 _ => ?_)
  exact AtMost.bind0 (AtMost.readFull _ 0 s1) (fun _ s2 _ => AtMost.pure _ _ _)

theorem AtMost.readNode (t : Tree) (p : MemPtr) (w : Nat) (s : PF) : AtMost w (t.readNode p) s := by
  unfold Tree.readNode
  refine AtMost.bind0 (AtMost.seek _ 0 s) (fun _ s1 _ => ?_)
  refine AtMost.bind0 (AtMost.pfRead _ 0 s1) (fun x s2 _ => ?_)
  obtain ⟨d, e⟩ := x
  simp only
  split
  · exact AtMost.throw _ _ _
  · exact AtMost.lift _ _ _

theorem AtMost.root (t : Tree) (w : Nat) (s : PF) : AtMost w t.root s := by
  intro hs hp
  have hr := AtMost.rootAt t.rootPos 0 s hs
  have hr2 : (Appendable.rootAt t.rootPos s).1 ≠ .panic := by
    intro hc
    apply hp
    unfold Tree.root
    generalize Appendable.rootAt t.rootPos s = x at hc ⊢
    obtain ⟨r, s'⟩ := x
    subst hc
    rfl
  obtain ⟨h1, v, hv, h2⟩ := hr hr2
  obtain rfl : v = 0 := by omega
  unfold Tree.root at hp ⊢
  obtain ⟨r, s', he⟩ : ∃ r s', Appendable.rootAt t.rootPos s = (r, s') := ⟨_, _, rfl⟩
  rw [he] at hp h1 h2 hr2 ⊢
  cases r with
  | panic => exact absurd rfl hr2
  | err e =>
    refine ⟨h1, 0, by omega, fun n => ?_⟩
    simp only
    rw [h2 n]
  | ok mp =>
    simp only at hp h1 ⊢
    split
    · rename_i hc
      refine ⟨h1, 0, by omega, fun n => ?_⟩
      rw [h2 n]
      simp only
      rw [if_pos hc]
    · rename_i hc
      rw [if_neg hc] at hp
      have h3 : AtMost 0 (do let n ← t.readNode mp; return some (n, mp) : Act PF (Option (Node × MemPtr))) s' :=
        AtMost.bind0 (AtMost.readNode t mp 0 s') (fun _ s2 _ => AtMost.pure _ _ _)
      obtain ⟨g1, v, hv, g2⟩ := h3 h1 hp
      obtain rfl : v = 0 := by omega
      refine ⟨g1, 0, by omega, fun n => ?_⟩
      rw [h2 n]
      simp only
      rw [if_neg hc]
      have := g2 n
      rwa [Nat.zero_add] at this

theorem AtMost.traverse (t : Tree) (key : RV) (fuel : Nat) (n : Node) (p : MemPtr) (w : Nat) (s : PF) :
    AtMost w (t.traverse key fuel n p) s := by
  induction fuel generalizing n p s w with
  | zero => exact AtMost.crash _ _
  | succ fuel ih =>
    unfold Tree.traverse
    simp only
    split
    · exact AtMost.pure _ _ _
    · split
      · exact AtMost.crash _ _
      · refine AtMost.bind0 (AtMost.readNode t _ 0 s) (fun c s1 _ => ?_)
        exact AtMost.bind0 (ih _ _ 0 s1) (fun _ s2 _ => AtMost.pure _ _ _)

theorem AtMost.writeNode (t : Tree) (o : UInt64) (n : Node) (s : PF) : AtMost 1 (t.writeNode o n) s := by
  unfold Tree.writeNode
  refine AtMost.bind0 (AtMost.seek _ 0 s) (fun _ s1 _ => ?_)
  refine AtMost.bind0 (AtMost.lift _ 0 s1) (fun _ s2 _ => ?_)
  exact AtMost.bind (w := 1) (w' := 0) (AtMost.pfWrite _ s2) (fun _ s3 _ => AtMost.pure _ _ _)

theorem AtMost.writeOrSplit (t : Tree) (tr : TRec) (s : PF) : AtMost 4 (t.writeOrSplit tr) s := by
  unfold Tree.writeOrSplit
  simp only
  split
  · split
    · exact AtMost.crash _ _
    · refine AtMost.bind0 (AtMost.lift _ 0 s) (fun _ s1 _ => ?_)
      refine AtMost.bind (w := 3) (w' := 1) (AtMost.newPage _ s1) (fun _ s2 _ => ?_)
      exact AtMost.bind (w := 1) (w' := 0) (AtMost.writeNode t _ _ s2) (fun _ s3 _ => AtMost.pure _ _ _)
  · exact (AtMost.bind (w := 1) (w' := 0) (AtMost.writeNode t _ _ s) (fun _ s3 _ => AtMost.pure _ _ _)).mono (by omega)

theorem AtMost.newRoot (t : Tree) (k : RV) (n m : UInt64) (s : PF) : AtMost 4 (t.newRoot k n m) s := by
  unfold Tree.newRoot
  refine AtMost.bind0 (AtMost.lift _ 0 s) (fun _ s1 _ => ?_)
  exact AtMost.bind (w := 3) (w' := 1) (AtMost.newPage _ s1) (fun _ s2 _ => AtMost.setRootAt _ _ s2)

/-- Four writes for every page of the path and four for a new root. -/
theorem AtMost.insertLoop (t : Tree) (tr : TRec) (rest : List TRec) (s : PF) : AtMost (4 * (rest.length + 2)) (t.insertLoop tr rest) s := by
  induction rest generalizing tr s with
  | nil =>
    unfold Tree.insertLoop
    refine AtMost.bind (w := 4) (w' := 4) (AtMost.writeOrSplit t tr s) (fun r s1 _ => ?_)
    split
    · exact AtMost.pure _ _ _
    · exact AtMost.newRoot t _ _ _ s1
  | cons p rest ih =>
    unfold Tree.insertLoop
    refine (AtMost.bind (w := 4) (w' := 4 * (rest.length + 2)) (AtMost.writeOrSplit t tr s) (fun r s1 _ => ?_)).mono
      (by simp only [List.length_cons]; omega)
    split
    · exact AtMost.pure _ _ _
    · exact ih _ s1

end Appendable
