import Verif.Lemmas.JsonlSync
import Verif.Props.Index
import Verif.Props.IndexWitness
/-! Histories of `Synchronize`. -/
namespace Appendable
open Spec Tree

section
variable {data : Bytes} {parse : Bytes → Bytes} {wd : UInt16 → UInt16} {s : PF} {fm : FileMeta} {is : List (LP × IndexMeta)}
  {c : Nat → List Entry} {js : List Job} {i : IndexFile}

theorem JIs.grow (h : JIs data parse wd s fm is c js) (more : Bytes) : JIs (data ++ more) parse wd s fm is c js := ⟨h.idx.grow more, h.done⟩

theorem JIs.holds (h : JIs data parse wd s fm is c js) (hi : i.tree = fileSlot) : Holds data parse wd i s fm js :=
  ⟨is, c, h.idx.shows hi, h.done.keys, h.done.each⟩

end

variable {env : JEnv} {hs : List Bytes} {i : IndexFile} {data : Bytes} {s : PF}

theorem map_fst_append {α β : Type} {lf : List (α × β)} {a b : List α} (h : lf.map (·.1) = a ++ b) :
    ∃ x y, lf = x ++ y ∧ x.map (·.1) = a ∧ y.map (·.1) = b := by
  obtain ⟨x, y, h1, h2, h3⟩ := List.map_eq_append_iff.1 h
  exact ⟨x, y, h1, h2, h3⟩

/-- The index after any history holds the jobs of the lines. -/
theorem syncRun_is (hr : SyncRun env hs data i s) (hd : data.length < 2 ^ 64) {lf : List (Bytes × List Field)} {tail : Bytes}
    (hl : IsLines data (lf.map (·.1)) tail) (hx : ∀ x ∈ lf, LineOK env hs x) :
    i = ⟨fileSlot, hs⟩ ∧ ∃ is c, JIs data env.parse id s ⟨1, .jsonl, UInt64.ofNat (fileOf (lf.map (·.1)) []).length, UInt64.ofNat lf.length⟩ is c
      (linesJobs env.nfkd hs 0 lf) := by
  induction hr generalizing lf tail with
  | @create f f' i s hf hb h =>
    obtain ⟨s', e1, e2⟩ := openIndex_fresh [] env.parse (fun m => id m.width) hf hb .jsonl hs
    rw [e1] at h; cases h
    have : IsLines [] [] [] := ⟨rfl, by simp, by simp⟩
    obtain ⟨u1, u2⟩ := lines_unique hl this
    rw [List.map_eq_nil_iff] at u1
    subst u1
    refine ⟨rfl, [], fun _ => [], ⟨e2, ⟨rfl, ?_⟩⟩⟩
    intro k p m hk
    simp at hk
  | @sync data more i s s' hr h ih =>
    obtain ⟨ls, t, hls⟩ := exists_lines data
    obtain ⟨ks, hks, hkt⟩ := lines_grow hls hl
    obtain ⟨old, new, rfl, ho, hn⟩ := map_fst_append hks
    rw [List.length_append] at hd
    obtain ⟨hi, is, c, hj⟩ := ih (lf := old) (tail := t) (by omega) (by rw [ho]; exact hls) (fun x hx' => hx x (by simp [hx']))
    refine ⟨hi, ?_⟩
    have := syncSteps (fm := ⟨1, .jsonl, 0, 0⟩) (i := i) (by rw [hi]) (by rw [hi]) (by rw [List.length_append]; omega) hl
      (fun x hx' => hx x (by simp [hx'])) (hj.grow more)
    rcases this with ⟨a, s1, is', c', e1, e2, _⟩ | ⟨s1, e1, e2⟩ | ⟨s1, e1, e2⟩
    · rw [e1] at h; cases h
      exact ⟨is', c', e2⟩
    · rw [e1] at h; cases h
    · rw [e1] at h; cases h
  | @reopen data i i' s s' f f' hr hb hu h ih =>
    obtain ⟨hi, is, c, hj⟩ := ih hd hl hx
    obtain ⟨r1, r2⟩ := hj.idx.reopen hb hu .jsonl hs
    obtain ⟨s1, e1, e2, _⟩ := r1 rfl rfl
    rw [e1] at h; cases h
    exact ⟨rfl, is, c, ⟨e2, hj.done⟩⟩

end Appendable
