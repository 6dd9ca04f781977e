import Verif.Model.File
import Verif.Spec.Pages
import Verif.Lemmas.Encoding
namespace Appendable

theorem slice_getElem? (l : Bytes) (p n i : Nat) : (slice l p n)[i]? = if i < n then l[p + i]? else none := by
  unfold slice
  rw [List.getElem?_take]
  split
  · rw [List.getElem?_drop]
  · rfl

theorem slice_length {l : Bytes} {p n : Nat} (h : p + n ≤ l.length) : (slice l p n).length = n := by
  unfold slice; simp; omega

theorem writeAt_getElem? {l : Bytes} {off : Nat} (b : Bytes) (h : off ≤ l.length) (i : Nat) :
    (writeAt l off b)[i]? = if i < off then l[i]? else if i < off + b.length then b[i - off]? else l[i]? := by
  unfold writeAt
  have h0 : off - l.length = 0 := by omega
  rw [h0, List.replicate_zero, List.append_nil, List.append_assoc]
  have hl : (l.take off).length = off := by simp; omega
  split
  · rename_i hi
    rw [List.getElem?_append_left (by omega), List.getElem?_take_of_lt hi]
  · rename_i hi
    rw [List.getElem?_append_right (by omega), hl]
    split
    · rw [List.getElem?_append_left (by omega)]
    · rw [List.getElem?_append_right (by omega), List.getElem?_drop]
      congr 1; omega

theorem writeAt_length {l : Bytes} {off : Nat} {b : Bytes} (h : off ≤ l.length) :
    (writeAt l off b).length = max l.length (off + b.length) := by
  unfold writeAt
  simp; omega

theorem writeAt_end (l b : Bytes) : writeAt l l.length b = l ++ b := by
  apply List.ext_getElem?
  intro i
  rw [writeAt_getElem? b (Nat.le_refl _)]
  split
  · rename_i h; rw [List.getElem?_append_left h]
  · split
    · rw [List.getElem?_append_right (by omega)]
    · rw [List.getElem?_append_right (by omega), List.getElem?_eq_none (by omega), List.getElem?_eq_none (by omega)]

/-- Reading a range disjoint from the written one. -/
theorem slice_writeAt_disjoint {l : Bytes} {off p n : Nat} {b : Bytes} (h : off ≤ l.length)
    (hd : p + n ≤ off ∨ off + b.length ≤ p) : slice (writeAt l off b) p n = slice l p n := by
  apply List.ext_getElem?
  intro i
  rw [slice_getElem?, slice_getElem?]
  split
  · rw [writeAt_getElem? b h]
    split
    · rfl
    · split
      · omega
      · rfl
  · rfl

/-- Reading a range that contains the written one. -/
theorem slice_writeAt_inside {l : Bytes} {off p n : Nat} {b : Bytes} (h : off ≤ l.length)
    (h1 : p ≤ off) (h2 : off + b.length ≤ p + n) (hn : p + n ≤ l.length) :
    slice (writeAt l off b) p n = writeAt (slice l p n) (off - p) b := by
  apply List.ext_getElem?
  intro i
  have hsl : (slice l p n).length = n := slice_length hn
  rw [slice_getElem?, writeAt_getElem? b (l := slice l p n) (by omega), slice_getElem?]
  split
  · rename_i hi
    rw [writeAt_getElem? b h]
    split
    · rw [if_pos (by omega)]
    · split
      · rw [if_neg (by omega), if_pos (by omega)]; congr 1; omega
      · rw [if_neg (by omega), if_neg (by omega)]
  · rename_i hi
    rw [if_neg (by omega), if_neg (by omega)]

theorem slice_writeAt_same {l : Bytes} {off : Nat} {b : Bytes} (h : off ≤ l.length) :
    slice (writeAt l off b) off b.length = b := by
  apply List.ext_getElem?
  intro i
  rw [slice_getElem?]
  split
  · rw [writeAt_getElem? b h, if_neg (by omega), if_pos (by omega)]; congr 1; omega
  · rw [List.getElem?_eq_none (by omega)]

theorem writeAt_zero (l b : Bytes) (h : b.length ≤ l.length) : writeAt l 0 b = b ++ l.drop b.length := by
  unfold writeAt; simp

/-- Sub-slices. -/
theorem slice_slice {l : Bytes} {p n q m : Nat} (h : q + m ≤ n) : slice (slice l p n) q m = slice l (p + q) m := by
  apply List.ext_getElem?
  intro i
  rw [slice_getElem?, slice_getElem?, slice_getElem?]
  split
  · rw [if_pos (by omega)]; congr 1; omega
  · rfl

theorem slice_append_left {a b : Bytes} {p n : Nat} (h : p + n ≤ a.length) : slice (a ++ b) p n = slice a p n := by
  apply List.ext_getElem?
  intro i
  rw [slice_getElem?, slice_getElem?]
  split
  · rw [List.getElem?_append_left (by omega)]
  · rfl

theorem slice_append_right (a b : Bytes) : slice (a ++ b) a.length b.length = b := by
  unfold slice; simp

theorem slice_all (a : Bytes) : slice a 0 a.length = a := by unfold slice; simp

theorem slice_append_both {a b : Bytes} {p n : Nat} (h : n ≤ a.length) (hb : p = 0) : slice (a ++ b) p n = a.take n := by
  subst hb; unfold slice; simp [List.take_append_of_le_length h]

/-! ### File operations -/
namespace File

theorem seekAbs_ok {f : File} {o : Nat} (h : o ≤ f.bytes.length) :
    seekAbs (o : Int) f = (.ok (o : Int), { f with pos := o }) := by
  unfold seekAbs
  cases f.kind
  · simp only
    rw [if_neg (by omega), if_neg (by omega)]; simp
  · simp only
    rw [if_neg (by omega), if_neg (by omega)]; simp

theorem seekStart_ok {f : File} {o : Nat} (h : o ≤ f.bytes.length) :
    seekStart (o : Int) f = (.ok (o : Int), { f with pos := o }) := seekAbs_ok h

theorem seekEnd_ok (f : File) :
    seekEnd 0 f = (.ok (f.bytes.length : Int), { f with pos := f.bytes.length }) := by
  unfold seekEnd; rw [Int.add_zero]; exact seekAbs_ok (Nat.le_refl _)

theorem seekCur_ok {f : File} (h : f.pos ≤ f.bytes.length) :
    seekCur 0 f = (.ok (f.pos : Int), f) := by
  unfold seekCur; rw [Int.add_zero, seekAbs_ok h]

theorem read_ok {f : File} {n : Nat} (hn : 0 < n) (h : f.pos + n ≤ f.bytes.length) :
    read n f = (.ok (slice f.bytes f.pos n, false), { f with pos := f.pos + n }) := by
  have hl : ((f.bytes.drop f.pos).take n).length = n := slice_length h
  unfold read
  cases f.kind
  · simp only
    rw [if_neg (by omega), hl]; rfl
  · simp only
    rw [if_neg (by omega), hl]; simp [slice]

/-- A write that succeeds: position and reported count are whatever the backend makes of them. -/
theorem write_ok {f : File} {b : Bytes} (hb : f.budget = none) (hp : f.pos ≤ f.bytes.length)
    (hl : f.pos + b.length < 2 ^ 63) :
    ∃ n p, write b f = (.ok n, { f with bytes := writeAt f.bytes f.pos b, pos := p }) := by
  unfold write
  rw [hb, if_neg (by simp), if_neg (by omega)]
  simp only [Option.map_none]
  cases hk : f.kind
  · simp only
    rw [if_neg (by omega)]
    exact ⟨_, f.pos + b.length, rfl⟩
  · simp only
    exact ⟨_, _, rfl⟩

/-- A failing or succeeding write, for an arbitrary budget. -/
theorem write_cases {f : File} {b : Bytes} (hp : f.pos ≤ f.bytes.length) :
    (∃ e, write b f = (.err e, f)) ∨
    (∃ n p, write b f = (.ok n, { f with bytes := writeAt f.bytes f.pos b, pos := p, budget := f.budget.map (· - 1) })
      ∧ f.budget ≠ some 0 ∧ f.pos + b.length < 2 ^ 63) := by
  unfold write
  by_cases hb : f.budget = some 0
  · left; rw [if_pos hb]; exact ⟨_, rfl⟩
  · rw [if_neg hb]
    by_cases hl : f.pos + b.length ≥ 2 ^ 63
    · left; rw [if_pos hl]; exact ⟨_, rfl⟩
    · right
      rw [if_neg hl]
      cases hk : f.kind
      · simp only
        rw [if_neg (by omega)]
        exact ⟨_, _, rfl, hb, by omega⟩
      · simp only
        exact ⟨_, _, rfl, hb, by omega⟩

theorem write_too_large {f : File} {b : Bytes} (hb : f.budget = none) (hl : 2 ^ 63 ≤ f.pos + b.length) :
    write b f = (.err .io, f) := by
  unfold write
  rw [hb, if_neg (by simp), if_pos hl]

end File
end Appendable
