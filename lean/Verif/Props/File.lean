import Verif.Lemmas.File
/-! Properties C56 and C57: the two files behind an index. -/
namespace Appendable

/-- `Seek(p)` followed by a read of `n` bytes. -/
def File.readBack (p n : Nat) : Act File (Bytes × Bool) := do
  let _ ← File.seekStart p
  File.read n

/-- `Seek(p)` followed by a write. -/
def File.writeBack (p : Nat) (b : Bytes) : Act File Nat := do
  let _ ← File.seekStart p
  File.write b

private theorem write_read (f : File) (p : Nat) (b : Bytes) (hp : p ≤ f.bytes.length) (hb : f.budget = none)
    (hsz : p + b.length < 2 ^ 63) (h0 : b ≠ []) :
    ∃ n g, File.writeBack p b f = (.ok n, g) ∧
      (∃ g', File.readBack p b.length g = (.ok (b, false), g')) ∧
      g.bytes.length = max f.bytes.length (p + b.length) ∧
      (∀ i, i < p ∨ p + b.length ≤ i → g.bytes[i]? = f.bytes[i]?) ∧
      ((f.kind = .buffer ∨ p + b.length ≤ f.bytes.length ∨ f.bytes = []) → n = b.length ∧ g.pos = p + b.length) := by
  have hs := File.seekStart_ok (f := f) hp
  have hl : 0 < b.length := List.length_pos_iff.2 h0
  unfold File.writeBack
  rw [Act.bind_ok hs]
  have key : ∀ (q : Nat) bud, ∃ g', File.readBack p b.length ⟨f.kind, writeAt f.bytes p b, q, bud⟩ = (.ok (b, false), g') := by
    intro q bud
    have hlen : (writeAt f.bytes p b).length = max f.bytes.length (p + b.length) := writeAt_length hp
    unfold File.readBack
    rw [Act.bind_ok (File.seekStart_ok (f := ⟨f.kind, writeAt f.bytes p b, q, bud⟩) (o := p) (by simp only; omega))]
    have := slice_writeAt_same (b := b) hp
    unfold slice at this
    unfold File.read
    cases hk : f.kind
    · simp only
      rw [if_neg (by omega), this]; exact ⟨_, rfl⟩
    · simp only
      rw [if_neg (by omega), this]; simp
  have hother : ∀ i, i < p ∨ p + b.length ≤ i → (writeAt f.bytes p b)[i]? = f.bytes[i]? := by
    intro i hi
    rw [writeAt_getElem? b hp]
    rcases hi with hi | hi
    · rw [if_pos hi]
    · rw [if_neg (by omega), if_neg (by omega)]
  unfold File.write
  simp only
  rw [if_neg (by simp [hb]), if_neg (by omega)]
  cases hk : f.kind
  · rw [if_neg (by omega)]
    refine ⟨_, _, rfl, ?_, writeAt_length hp, hother, fun _ => ⟨rfl, rfl⟩⟩
    have := key (p + b.length) (f.budget.map (· - 1))
    rw [hk] at this; exact this
  · simp only
    refine ⟨_, _, rfl, ?_, writeAt_length hp, hother, fun h => ?_⟩
    · have := fun x => key (p + x) (f.budget.map (· - 1))
      rw [hk] at this; exact this _
    · rcases h with h | h | h
      · simp at h
      · rw [if_neg (by omega)]; exact ⟨rfl, rfl⟩
      · have : p = 0 := by rw [h] at hp; simpa using hp
        subst this
        simp [h]

/-- C57: on the in-memory buffer, a non-empty write at any position inside of the contents reports its
length, advances the position by it, is read back from the same position, and changes no other byte. -/
theorem C57_buffer_write_read (f : File) (hk : f.kind = .buffer) (p : Nat) (b : Bytes) (hp : p ≤ f.bytes.length)
    (hb : f.budget = none) (hsz : p + b.length < 2 ^ 63) (h0 : b ≠ []) :
    ∃ g, File.writeBack p b f = (.ok b.length, g) ∧ g.pos = p + b.length ∧
      (∃ g', File.readBack p b.length g = (.ok (b, false), g')) ∧
      g.bytes.length = max f.bytes.length (p + b.length) ∧
      (∀ i, i < p ∨ p + b.length ≤ i → g.bytes[i]? = f.bytes[i]?) := by
  obtain ⟨n, g, h1, h2, h3, h4, h5⟩ := write_read f p b hp hb hsz h0
  obtain ⟨h6, h7⟩ := h5 (.inl hk)
  subst h6
  exact ⟨g, h1, h7, h2, h3, h4⟩

example : (File.writeBack 1 [7, 8, 9] ⟨.buffer, [1, 2, 3], 0, none⟩)
    = (.ok 3, ⟨.buffer, [1, 7, 8, 9], 4, none⟩) := by decide

/-- C56: on the memory-mapped file the same holds for the contents, for every in-range start position and
also when the file grows. -/
theorem C56_mmap_contents (f : File) (p : Nat) (b : Bytes) (hp : p ≤ f.bytes.length)
    (hb : f.budget = none) (hsz : p + b.length < 2 ^ 63) (h0 : b ≠ []) :
    ∃ n g, File.writeBack p b f = (.ok n, g) ∧
      (∃ g', File.readBack p b.length g = (.ok (b, false), g')) ∧
      g.bytes.length = max f.bytes.length (p + b.length) ∧
      (∀ i, i < p ∨ p + b.length ≤ i → g.bytes[i]? = f.bytes[i]?) := by
  obtain ⟨n, g, h1, h2, h3, h4, _⟩ := write_read f p b hp hb hsz h0
  exact ⟨n, g, h1, h2, h3, h4⟩

/-- C56 (partial): the reported count and the new position are right for writes that do not grow the file,
and for the first write to an empty file.  Missing: growing writes, see `C56_mmap_growth_violated`. -/
theorem C56_mmap_count_partial (f : File) (p : Nat) (b : Bytes) (hp : p ≤ f.bytes.length)
    (hb : f.budget = none) (hsz : p + b.length < 2 ^ 63) (h0 : b ≠ [])
    (hin : p + b.length ≤ f.bytes.length ∨ f.bytes = []) :
    ∃ g, File.writeBack p b f = (.ok b.length, g) ∧ g.pos = p + b.length := by
  obtain ⟨n, g, h1, h2, h3, h4, h5⟩ := write_read f p b hp hb hsz h0
  obtain ⟨h6, h7⟩ := h5 (.inr hin)
  subst h6
  exact ⟨g, h1, h7⟩

/-- C56 is violated by every growing write to a non-empty file at its end: the reported count is the size of
the whole file, not the number of bytes given, and the position moves behind the end of the file. -/
theorem C56_mmap_growth_violated (f : File) (hk : f.kind = .mmap) (b : Bytes) (hb : f.budget = none)
    (hsz : f.bytes.length + b.length < 2 ^ 63) (h0 : b ≠ []) (hne : f.bytes ≠ []) :
    ∃ n g, File.writeBack f.bytes.length b f = (.ok n, g) ∧ n ≠ b.length ∧
      n = f.bytes.length + b.length ∧ g.pos > g.bytes.length := by
  have hl : 0 < b.length := List.length_pos_iff.2 h0
  have hl' : 0 < f.bytes.length := List.length_pos_iff.2 hne
  unfold File.writeBack
  rw [Act.bind_ok (File.seekStart_ok (Nat.le_refl _))]
  unfold File.write
  simp only
  rw [if_neg (by simp [hb]), if_neg (by omega), hk]
  simp only
  rw [if_pos (by omega), if_neg (by omega), writeAt_end]
  refine ⟨_, _, rfl, ?_, by simp, ?_⟩
  · simp; omega
  · simp; omega

example : File.writeBack 3 [9] ⟨.mmap, [1, 2, 3], 0, none⟩ = (.ok 4, ⟨.mmap, [1, 2, 3, 9], 7, none⟩) := by decide

/-- C56: `Seek` of the memory-mapped file succeeds exactly for positions from 0 to the file size, for each
origin, and a rejected seek changes nothing. -/
theorem C56_mmap_seek (f : File) (hk : f.kind = .mmap) (off : Int) :
    (File.seekStart off f = if 0 ≤ off ∧ off ≤ f.bytes.length then (.ok off, { f with pos := off.toNat })
      else ((File.seekStart off f).1, f)) ∧
    ((∃ e, (File.seekStart off f).1 = .err e) ↔ ¬ (0 ≤ off ∧ off ≤ f.bytes.length)) ∧
    File.seekEnd off f = File.seekStart (f.bytes.length + off) f ∧
    File.seekCur off f = File.seekStart (f.pos + off) f := by
  refine ⟨?_, ?_, rfl, rfl⟩
  · unfold File.seekStart File.seekAbs
    rw [hk]
    simp only
    by_cases h1 : off < 0
    · rw [if_pos h1, if_neg (by omega)]
    · by_cases h2 : off > f.bytes.length
      · rw [if_neg h1, if_pos h2, if_neg (by omega)]
      · rw [if_neg h1, if_neg h2, if_pos (by omega)]
  · unfold File.seekStart File.seekAbs
    rw [hk]
    simp only
    by_cases h1 : off < 0
    · rw [if_pos h1]; simp; omega
    · by_cases h2 : off > f.bytes.length
      · rw [if_neg h1, if_pos h2]; simp; omega
      · rw [if_neg h1, if_neg h2]; simp; omega

end Appendable
