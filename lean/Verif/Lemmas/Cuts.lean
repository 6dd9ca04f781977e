import Verif.Lemmas.Writes
import Verif.Lemmas.PageFile2
/-! The bytes at the crash points of an operation. -/
namespace Appendable
open Tree PF

/-- With any number of writes allowed, the operation either runs as without a limit, or the writes are used up and the bytes
satisfy `P`. -/
def Cuts {α : Type} (a : Act PF α) (s : PF) (P : Bytes → Prop) : Prop :=
  ∀ b, (∃ n, a (withBudget (some b) s) = ((a s).1, withBudget (some n) (a s).2)) ∨
    ((a (withBudget (some b) s)).2.file.budget = some 0 ∧ P (a (withBudget (some b) s)).2.file.bytes)

section
variable {α β : Type} {P Q : Bytes → Prop} {s : PF}

theorem Cuts.imp {a : Act PF α} (h : Cuts a s P) (hp : ∀ b, P b → Q b) : Cuts a s Q :=
  fun b => (h b).imp id fun x => ⟨x.1, hp _ x.2⟩

theorem Cuts.calm {a : Act File α} (h : Calm a) : Cuts (PF.onFile a) s P := fun b => .inl ⟨b, by
  unfold PF.onFile
  simp only [withBudget]
  rw [h.blind]⟩

theorem Cuts.still {a : Act PF α} (r : Res α) (g : PF → PF) (h : ∀ s, a s = (r, g s)) (hg : ∀ b s, g (withBudget b s) = withBudget b (g s)) :
    Cuts a s P := fun b => .inl ⟨b, by rw [h, h, hg]⟩

theorem Cuts.pure (a : α) : Cuts (Pure.pure a : Act PF α) s P := Cuts.still (.ok a) id (fun _ => rfl) (fun _ _ => rfl)
theorem Cuts.lift (r : Res α) : Cuts (Act.lift r : Act PF α) s P := Cuts.still r id (fun _ => rfl) (fun _ _ => rfl)
theorem Cuts.throw (e : Err) : Cuts (Act.throw e : Act PF α) s P := Cuts.still (.err e) id (fun _ => rfl) (fun _ _ => rfl)
theorem Cuts.crash : Cuts (Act.crash : Act PF α) s P := Cuts.still .panic id (fun _ => rfl) (fun _ _ => rfl)

theorem Cuts.bind {a : Act PF α} {f : α → Act PF β} (h : Cuts a s P) (hf : ∀ x s1, a s = (.ok x, s1) → Cuts (f x) s1 P)
    (hw : ∀ x, Writes (f x)) : Cuts (a >>= f) s P := by
  intro b
  simp only [Act.bind_def]
  rcases h b with ⟨n, h1⟩ | ⟨h1, h2⟩
  · rw [h1]
    generalize ha : a s = r
    obtain ⟨r, s1⟩ := r
    cases r with
    | ok x => exact hf x s1 ha n
    | err e => exact .inl ⟨n, rfl⟩
    | panic => exact .inl ⟨n, rfl⟩
  · right
    generalize a (withBudget (some b) s) = r at h1 h2
    obtain ⟨r, s1⟩ := r
    cases r with
    | ok x =>
      obtain ⟨h3, h4⟩ := (hw x).stop s1 h1
      exact ⟨h4, by rw [h3]; exact h2⟩
    | err e => exact ⟨h1, h2⟩
    | panic => exact ⟨h1, h2⟩

theorem Cuts.dep {f : PF → Act PF α} (h : Cuts (f s) s P) (hf : ∀ b, f (withBudget b s) = f s) : Cuts (fun s => f s s) s P := by
  intro b
  have := h b
  simp only [hf]
  exact this

theorem Cuts.write (b : Bytes) (hs : s.file.budget = none) : Cuts (PF.onFile (File.write b)) s (· = s.file.bytes) := by
  intro n
  cases n with
  | zero =>
    right
    obtain ⟨h1, h2⟩ := (Writes.write b).stop (withBudget (some 0) s) rfl
    exact ⟨h2, h1⟩
  | succ n =>
    left
    obtain ⟨⟨kind, bytes, pos, bud⟩, ring, head, count, lp⟩ := s
    simp only at hs
    subst hs
    unfold PF.onFile File.write withBudget
    simp only
    by_cases h2 : pos + b.length ≥ 2 ^ 63
    · exact ⟨n + 1, by simp [h2]⟩
    · cases kind with
      | buffer =>
        by_cases h3 : pos > bytes.length
        · exact ⟨n + 1, by simp [h2, h3]⟩
        · exact ⟨n, by simp [h2, h3]⟩
      | mmap => exact ⟨n, by simp [h2]⟩
end

theorem onFile_calm {α : Type} {a : Act File α} (h : Calm a) {x : α} {s s1 : PF} (ha : PF.onFile a s = (.ok x, s1)) :
    s1.file.bytes = s.file.bytes ∧ s1.file.budget = s.file.budget := by
  have := h.keep s.file
  unfold PF.onFile at ha
  obtain ⟨-, rfl⟩ := Prod.mk.injEq .. ▸ ha
  exact this

theorem Cuts.pfWrite (b : Bytes) {s : PF} (hs : s.file.budget = none) : Cuts (PF.write b) s (· = s.file.bytes) := by
  unfold PF.write
  refine Cuts.bind (Cuts.calm (Calm.seekCur 0)) (fun x s1 hx => ?_) (fun x => by writes)
  obtain ⟨h1, h2⟩ := onFile_calm (Calm.seekCur 0) hx
  split
  · exact Cuts.crash
  · rw [← h1]; exact Cuts.write b (h2.trans hs)

theorem Cuts.setRootAt (p : Nat) (m : MemPtr) {s : PF} (hs : s.file.budget = none) : Cuts (setRootAt p m) s (· = s.file.bytes) := by
  unfold Appendable.setRootAt
  refine Cuts.bind (Cuts.calm (Calm.seekStart _)) (fun x s1 hx => ?_) (fun x => by have := Writes.pfWrite m.encode; writes)
  obtain ⟨h1, h2⟩ := onFile_calm (Calm.seekStart _) hx
  refine Cuts.bind (by rw [← h1]; exact Cuts.pfWrite _ (h2.trans hs)) (fun _ _ _ => Cuts.pure _) (fun _ => Writes.pure _)

theorem Cuts.writeFree {s : PF} (hs : s.file.budget = none) : Cuts PF.writeFreePageIndices s (· = s.file.bytes) := by
  rw [writeFree_eq]
  refine Cuts.dep ?_ (fun b => rfl)
  unfold writeFreeOf
  split
  · exact Cuts.crash
  · refine Cuts.bind (Cuts.calm (Calm.seekStart _)) (fun x s1 hx => ?_) (fun x => by writes)
    obtain ⟨h1, h2⟩ := onFile_calm (Calm.seekStart _) hx
    exact Cuts.bind (by rw [← h1]; exact Cuts.write _ (h2.trans hs)) (fun _ _ _ => Cuts.pure _) (fun _ => Writes.pure _)

theorem Cuts.freePageIndex {s : PF} (hs : s.file.budget = none) : Cuts PF.freePageIndex s (· = s.file.bytes) := by
  rw [freePage_eq]
  refine Cuts.dep ?_ (fun b => rfl)
  unfold freePageOf
  split
  · exact Cuts.pure _
  · split
    · exact Cuts.crash
    · refine Cuts.bind (Cuts.still (.ok ()) (fun s => { s with ring := s.ring.set s.tail 0, count := s.count - 1 }) (fun _ => rfl) (fun _ _ => rfl))
        (fun x s1 hx => ?_) (fun _ => Writes.bind Writes.writeFree (fun _ => Writes.pure _))
      obtain ⟨-, rfl⟩ := Prod.mk.injEq .. ▸ hx
      exact Cuts.bind (Cuts.writeFree hs) (fun _ _ _ => Cuts.pure _) (fun _ => Writes.pure _)

/-- The crash points of `NewPage`: nothing written, or only the free list. -/
theorem newPage_cuts {s : PF} {free : List Nat} (h : s.Valid free) (hb : s.file.budget = none) (buf : Option Bytes) :
    Cuts (PF.newPage buf) s (fun b => b = s.file.bytes ∨ ∃ o fs, free = o :: fs ∧ b = writeAt s.file.bytes 0 (freePageBytes (fs.map Int.ofNat))) := by
  unfold PF.newPage
  simp only
  split
  · exact Cuts.throw _
  · have h2 := Writes.pfWrite
    have h3 : Writes (fun s => (.ok (), { s with lastPage := s.lastPage + 1 }) : Act PF Unit) :=
      Writes.still (.ok ()) (fun s => { s with lastPage := s.lastPage + 1 }) (fun _ => rfl) (fun _ _ => rfl) (fun _ => rfl)
    refine Cuts.bind ((Cuts.freePageIndex hb).imp fun _ => .inl) (fun off s1 hx => ?_) (fun x => by writes; exact Writes.bind h3 (fun _ => Writes.pure _))
    have key : s1.file.budget = none ∧ (off = -1 → s1.file.bytes.length % pageSize = 0 ∧ off = -1) ∧
        (off ≠ -1 → off.tmod pageSize = 0) ∧ (s1.file.bytes = s.file.bytes ∨ ∃ o fs, free = o :: fs ∧ s1.file.bytes = writeAt s.file.bytes 0 (freePageBytes (fs.map Int.ofNat))) := by
      cases free with
      | nil =>
        have hfp : PF.freePageIndex s = (.ok (-1), s) := by
          unfold PF.freePageIndex
          rw [if_pos (by have := h.ringOK.count_eq; simpa using this)]
        rw [hfp] at hx; cases hx
        exact ⟨hb, fun _ => ⟨h.aligned, rfl⟩, fun hc => absurd rfl hc, .inl rfl⟩
      | cons o fs =>
        obtain ⟨hget, hring⟩ := h.ringOK.pop
        have ho := h.freeOK o (by simp)
        obtain ⟨p1, hw1⟩ := writeFreePageIndices_ok hring (by exact hb) (by unfold pageSize; decide)
        have hfp : PF.freePageIndex s = (.ok (o : Int),
            (PF.upd { s with ring := s.ring.set s.tail 0, count := s.count - 1 }
              (writeAt s.file.bytes 0 (freePageBytes (fs.map Int.ofNat))) p1)) := by
          unfold PF.freePageIndex
          rw [if_neg (by have := h.ringOK.count_eq; simp at this; omega), hget]
          simp only
          rw [Act.bind_ok (Act.set_run _ _), Act.bind_ok hw1]; rfl
        rw [hfp] at hx; cases hx
        refine ⟨hb, fun hc => by simp at hc, fun _ => by rw [tmod_nat, ho.1]; rfl, .inr ⟨o, fs, rfl, rfl⟩⟩
    obtain ⟨k1, k2, k3, k4⟩ := key
    have tailCuts : ∀ (o : Int) (s2 : PF), o.tmod pageSize = 0 → s2.file.budget = none → s2.file.bytes = s1.file.bytes →
        Cuts (do
          let pad ← (if o.tmod pageSize ≠ 0 then do
              let pad := (pageSize : Int) - o.tmod pageSize
              let _ ← PF.write (List.replicate pad.toNat 0)
              return pad
            else (return 0 : Act PF Int))
          let _ ← PF.onFile (File.write (buf.getD [] ++ List.replicate (pageSize - (buf.getD []).length) 0))
          let _ ← PF.onFile (File.seekStart o)
          return o + pad) s2 (fun b => b = s.file.bytes ∨ ∃ o fs, free = o :: fs ∧ b = writeAt s.file.bytes 0 (freePageBytes (fs.map Int.ofNat))) := by
      intro o s2 ht hb2 hy2
      rw [if_neg (by simp [ht])]
      refine Cuts.bind (Cuts.pure _) (fun x s3 hx3 => ?_) (fun x => by writes)
      obtain ⟨-, rfl⟩ := Prod.mk.injEq .. ▸ hx3
      refine Cuts.bind ((Cuts.write _ hb2).imp fun b hb' => by subst hb'; rw [hy2]; exact k4) (fun _ _ _ => ?_) (fun x => by writes)
      exact Cuts.bind (Cuts.calm (Calm.seekStart _)) (fun _ _ _ => Cuts.pure _) (fun _ => Writes.pure _)
    by_cases ho : off = -1
    · rw [if_neg (by simp [ho])]
      refine Cuts.bind ?_ (fun x s2 hx2 => ?_) (fun x => by writes)
      · exact Cuts.bind (Cuts.calm (Calm.seekEnd 0)) (fun _ _ _ => Cuts.bind (Cuts.still (.ok ()) (fun s => { s with lastPage := s.lastPage + 1 }) (fun _ => rfl) (fun _ _ => rfl))
          (fun _ _ _ => Cuts.pure _) (fun _ => Writes.pure _)) (fun _ => Writes.bind h3 (fun _ => Writes.pure _))
      · rw [Act.bind_ok (seekEnd_ok' s1)] at hx2
        have : x = (s1.file.bytes.length : Int) ∧ s2 = { (s1.upd s1.file.bytes s1.file.bytes.length) with lastPage := s1.lastPage + 1 } := by
          cases hx2; exact ⟨rfl, rfl⟩
        obtain ⟨rfl, rfl⟩ := this
        exact tailCuts _ _ (by rw [tmod_nat, (k2 ho).1]; rfl) k1 rfl
    · rw [if_pos ho]
      refine Cuts.bind ?_ (fun x s2 hx2 => ?_) (fun x => by writes)
      · exact Cuts.bind (Cuts.calm (Calm.seekStart _)) (fun _ _ _ => Cuts.pure _) (fun _ => Writes.pure _)
      · rw [Act.bind_def] at hx2
        generalize hs3 : PF.onFile (File.seekStart off) s1 = r at hx2
        obtain ⟨r, s3⟩ := r
        cases r with
        | err e => cases hx2
        | panic => cases hx2
        | ok y =>
          obtain ⟨e1, e2⟩ := onFile_calm (Calm.seekStart _) hs3
          cases hx2
          exact tailCuts _ _ (k3 ho) (e2.trans k1) e1

end Appendable
