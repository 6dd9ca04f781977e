import Verif.Props.CrashSplit
import Verif.Lemmas.Cuts
/-! Property C38 for the first `Insert` into a tree. -/
namespace Appendable
open Spec Tree PF

theorem writeAt_same {l : Bytes} {o n : Nat} (ho : o + n ≤ l.length) : writeAt l o (slice l o n) = l := by
  have hl : (slice l o n).length = n := by unfold slice; simp; omega
  apply List.ext_getElem?
  intro k
  rw [writeAt_getElem? _ (by omega), hl]
  unfold slice
  split
  · rfl
  · split
    · rw [List.getElem?_take, if_pos (by omega), List.getElem?_drop]
      congr 1; omega
    · rfl

theorem padPage_full {b : Bytes} (h : b.length = pageSize) : padPage b = b := by
  unfold padPage; rw [h]; simp

/-- The bytes at every crash point of a `NewPage` are those of a `NewPage` that was not interrupted (perhaps with other contents), or
nothing was written. -/
theorem newPage_points {s : PF} {free : List Nat} {buf : Option Bytes} (h : s.Valid free) (hb : s.file.budget = none) :
    Cuts (PF.newPage buf) s (fun b => b = s.file.bytes ∨ ∃ buf' off' s'', PF.newPage buf' s = (.ok off', s'') ∧ s''.file.bytes = b) := by
  refine (newPage_cuts h hb buf).imp fun b hb' => ?_
  rcases hb' with rfl | ⟨o, fs, rfl, rfl⟩
  · exact .inl rfl
  · right
    have hofree := h.freeOK o (by simp)
    have hends : o + pageSize ≤ s.file.bytes.length := by
      have := h.aligned; unfold pageSize at *; omega
    have hfl : fs.length ≤ ringSize := (List.length_cons .. ▸ h.ringOK.len_le : fs.length + 1 ≤ ringSize) |> Nat.le_of_succ_le
    have hflen : (freePageBytes (fs.map Int.ofNat)).length = pageSize := freePageBytes_length _ (by simpa using hfl)
    obtain ⟨mid, hmid⟩ : ∃ mid, mid = writeAt s.file.bytes 0 (freePageBytes (fs.map Int.ofNat)) := ⟨_, rfl⟩
    have hml : mid.length = s.file.bytes.length := by
      rw [hmid, writeAt_length (Nat.zero_le _)]; have := h.nonempty; omega
    have hsl : (slice mid o pageSize).length = pageSize := by unfold slice; simp; omega
    obtain ⟨s'', e1, _, e2, _⟩ := newPage_pop h hb (some (slice mid o pageSize)) (by simp only [Option.getD_some]; omega)
    refine ⟨_, _, s'', e1, ?_⟩
    rw [e2, ← hmid, Option.getD_some, padPage_full hsl, writeAt_same (by omega)]

/-- `NewPage` does not depend on the position in the file. -/
theorem newPage_moved {s s' : PF} {free : List Nat} {buf : Option Bytes} {off : Int} {p : Nat} (h : s.Valid free) (hb : s.file.budget = none)
    (hr : PF.newPage buf (s.upd s.file.bytes p) = (.ok off, s')) : s'.file.budget = none ∧ ∃ s'', PF.newPage buf s = (.ok off, s'') ∧ s''.file.bytes = s'.file.bytes := by
  have h0 : (s.upd s.file.bytes p).Valid free := (Frame.upd_pos h hb p []).valid
  by_cases hl : (buf.getD []).length ≤ pageSize
  rotate_left
  · rw [newPage_too_large _ buf (by omega)] at hr; simp at hr
  cases free with
  | cons o fs =>
    obtain ⟨x, h1, _, h2, h3, _⟩ := newPage_pop h hb buf hl
    obtain ⟨y, g1, _, g2, g3, _⟩ := newPage_pop h0 hb buf hl
    rw [hr] at g1; cases g1
    exact ⟨g3, x, h1, by rw [h2, g2]; rfl⟩
  | nil =>
    by_cases hroom : s.file.bytes.length + pageSize < 2 ^ 63
    · obtain ⟨x, h1, _, h2, h3, _⟩ := newPage_append h hb buf hl hroom
      obtain ⟨y, g1, _, g2, g3, _⟩ := newPage_append h0 hb buf hl hroom
      rw [hr] at g1; cases g1
      exact ⟨g3, x, h1, by rw [h2, g2]; rfl⟩
    · obtain ⟨y, g1, _⟩ := newPage_full h0 hb buf hl (by simp only [upd_bytes]; omega)
      rw [hr] at g1; cases g1

/-- C38, partial (see C38_split_violated for the rest): the first `Insert` into a tree can be interrupted anywhere; the file can be
opened again and all keys stored before in any tree are found. -/
theorem C38_first_partial {ts : List Tree} {s s1 : PF} {c : Nat → List (RV × MemPtr)} {i : Nat} {t : Tree} {k : RV} {v : MemPtr} {f : File}
    (hf : ForestRun ts s c) (ht : ts[i]? = some t) (hk : KeyOK t.cfg k) (he : c i = []) (hrun : t.insert k v s = (.ok (), s1))
    (n : Nat) (hb : f.bytes = (t.insert k v (crashAfter n s)).2.file.bytes) (hu : f.budget = none) :
    ∃ s2, PF.openFile f = (.ok s2, s2.file) ∧ ∀ j u e, ts[j]? = some u → e ∈ c j → ∃ s3, u.find e.1 s2 = (.ok e, s3) := by
  obtain ⟨free, E, P, hi⟩ := forestInv hf
  obtain ⟨hti, hw, hp⟩ := hi.tree i t ht
  have hf1 : ForestRun ts s1 (setAt c i ((k, v) :: c i)) := .insert hf ht hk hrun
  have hplant : ∀ {buf off s''}, PF.newPage buf s = (.ok off, s'') → ForestRun ts s'' c := by
    intro buf off s'' h
    have := ForestRun.plant (news := []) hf h ⟨by simp, .nil⟩ (by simp) (by simp)
    rwa [List.append_nil] at this
  rcases hti.root with ⟨h0, _⟩ | ⟨h0, h, hr, h1, h2⟩
  rotate_left
  · rw [he] at hp
    exact absurd (List.length_eq_zero_iff.1 hp.length_eq) hr.nonempty
  have hroot := root_none (t := t) hti.slotInside hti.slot (by rw [h0])
  have hcut : Cuts (t.insert k v) s (fun b => b = s.file.bytes ∨ ∃ buf off s'', PF.newPage buf s = (.ok off, s'') ∧ s''.file.bytes = b) := by
    unfold Tree.insert
    split
    · exact Cuts.throw _
    · refine Cuts.bind (fun b => .inl ⟨b, ?_⟩) (fun x s2 hx => ?_) ?_
      · have := Blind.root t (some b) s
        exact this
      · rw [hroot] at hx
        cases hx
        simp only
        refine Cuts.bind (Cuts.lift _) (fun buf s3 h3 => ?_) ?_
        · have h3' : s3 = s.upd s.file.bytes (t.rootPos + 12) := (congrArg Prod.snd h3).symm
          subst h3'
          have hv0 : (s.upd s.file.bytes (t.rootPos + 12)).Valid free := (Frame.upd_pos hi.valid hi.budget _ []).valid
          refine Cuts.bind ((newPage_points hv0 hi.budget).imp fun b hb' => ?_) (fun off s4 h4 => ?_) (fun _ => Writes.setRootAt _ _)
          · rcases hb' with hb' | ⟨buf', off', s'', e1, e2⟩
            · exact .inl hb'
            · obtain ⟨_, s5, e3, e4⟩ := newPage_moved hi.valid hi.budget e1
              exact .inr ⟨_, _, s5, e3, e4.trans e2⟩
          · obtain ⟨e0, s5, e3, e4⟩ := newPage_moved hi.valid hi.budget h4
            exact (Cuts.setRootAt _ _ e0).imp fun b hb' => .inr ⟨_, _, s5, e3, e4.trans hb'.symm⟩
        · intro x
          exact Writes.bind (Writes.newPage _) fun _ => Writes.setRootAt _ _
      · have h1 := Writes.root t; have h2 := Writes.newPage; have h3 := Writes.setRootAt t.rootPos
        have h4 := Writes.traverse t k; have h5 := Writes.insertLoop t
        intro r
        cases r with
        | none => simp only; writes
        | some x =>
          obtain ⟨a, b⟩ := x
          simp only
          refine Writes.getBind (fun s => ?_) (fun b s => rfl)
          writes
  have hB : (t.insert k v (crashAfter n s)).2.file.bytes = s1.file.bytes ∨ (t.insert k v (crashAfter n s)).2.file.bytes = s.file.bytes ∨
      ∃ buf off s'', PF.newPage buf s = (.ok off, s'') ∧ s''.file.bytes = (t.insert k v (crashAfter n s)).2.file.bytes := by
    rcases hcut n with ⟨m, hm⟩ | ⟨_, hm⟩
    · left
      show (t.insert k v (withBudget (some n) s)).2.file.bytes = _
      rw [hm, hrun]
      rfl
    · exact .inr hm
  rcases hB with hB | hB | ⟨buf, off, s'', e1, e2⟩
  · obtain ⟨s2, h1, h2⟩ := found_again hf1 (hb.trans hB) hu
    refine ⟨s2, h1, fun j u e hj hm => h2 j u e hj ?_⟩
    by_cases hji : j = i
    · subst hji; rw [setAt_same]; simp [hm]
    · rw [setAt_ne _ _ hji]; exact hm
  · exact found_again hf (hb.trans hB) hu
  · exact found_again (hplant e1) (hb.trans e2.symm) hu

end Appendable
