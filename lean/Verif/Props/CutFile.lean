import Verif.Lemmas.CutFile
import Verif.Props.TreeWitness
/-! C109: look-ups in a file of which only the first pages are left. -/
namespace Appendable
open Spec Tree

variable {ts : List Tree} {s s' : PF} {c : Nat → List (RV × MemPtr)} {i : Nat} {t : Tree}

theorem forest_is (hf : ForestRun ts s c) (ht : ts[i]? = some t) : ∃ free es ps, TreeIs t s free es ps := by
  obtain ⟨free, E, P, hi⟩ := forestInv hf
  exact ⟨_, _, _, (hi.tree i t ht).1⟩

/-- C109 (partial: the root slot of the tree is in the part that is left): after any history, a look-up of any key in the first pages of the file
answers as in the whole file, or fails with an error. -/
theorem C109_find_partial (hf : ForestRun ts s c) (ht : ts[i]? = some t) (hcut : CutOf s s') (hin : t.rootPos + 12 ≤ s'.file.bytes.length) (k : RV) :
    ((t.find k s').1 = (t.find k s).1 ∨ ∃ e, (t.find k s').1 = .err e) ∧
    ((t.contains k s').1 = (t.contains k s).1 ∨ ∃ e, (t.contains k s').1 = .err e) := by
  obtain ⟨free, es, ps, htr⟩ := forest_is hf ht
  have hfind : (t.find k s').1 = (t.find k s).1 ∨ ∃ e, (t.find k s').1 = .err e := by
    unfold Tree.find
    obtain ⟨p, h1 | ⟨it, e, h1, h2⟩⟩ := next_first_cut hcut htr hin k
    · left
      generalize hg : (iter k).next t s = g at h1
      obtain ⟨g1, g2⟩ := g
      cases g1 with
      | err e => rw [Act.bind_err h1, Act.bind_err hg]
      | panic => rw [Act.bind_panic h1, Act.bind_panic hg]
      | ok x =>
        obtain ⟨b, it⟩ := x
        rw [Act.bind_ok h1, Act.bind_ok hg]
        cases b with
        | false => simp only [Bool.not_false, if_true]; cases it.err <;> rfl
        | true => simp only [Bool.not_true, Bool.false_eq_true, if_false]; cases it.curKey <;> cases it.curPointer <;> rfl
    · right
      rw [Act.bind_ok h1]
      simp only [Bool.not_false, if_true, h2]
      exact ⟨e, rfl⟩
  refine ⟨hfind, ?_⟩
  unfold Tree.contains
  revert hfind
  generalize hg : t.find k s = g
  generalize hg' : t.find k s' = g'
  obtain ⟨g1, g2⟩ := g
  obtain ⟨g1', g2'⟩ := g'
  rintro (rfl | ⟨e, rfl⟩)
  · left
    cases g1' with
    | err e => rw [Act.bind_err hg, Act.bind_err hg']
    | panic => rw [Act.bind_panic hg, Act.bind_panic hg']
    | ok x => rw [Act.bind_ok hg, Act.bind_ok hg']; rfl
  · right
    rw [Act.bind_err hg']
    exact ⟨e, rfl⟩

theorem curKey_records {it : Iter} {k : RV} (h : it.curKey = some k) : it.records ≠ none := by
  intro hc
  unfold Iter.curKey at h
  rw [hc] at h
  cases h

theorem nextRun_cut {it : Iter} {xs : List (RV × MemPtr)} (h : NextRun t it s xs) : ∀ {s' : PF}, CutOf s s' →
    StepCut s' (it.next t s) (it.next t s') → NextRun t it s' xs ∨ ∃ ys e, ys <+: xs ∧ NextStops t it s' ys e := by
  induction h with
  | @stop it it' s s1 h he =>
    intro s' hc hs
    obtain ⟨p, h1 | ⟨it2, e, h1, h2⟩⟩ := hs
    · rw [h] at h1; exact .inl (.stop h1 he)
    · exact .inr ⟨[], e, List.nil_prefix, .stop h1 h2⟩
  | @step it it' s s1 k q xs h hk hp rest ih =>
    intro s' hc hs
    obtain ⟨p, h1 | ⟨it2, e, h1, h2⟩⟩ := hs
    · rw [h] at h1
      have hc' := (hc.after (ReadOnly.iterNext t it)).right p
      rw [h] at hc'
      rcases ih hc' (next_cut hc' t (curKey_records hk)) with h3 | ⟨ys, e, h3, h4⟩
      · exact .inl (.step h1 hk hp h3)
      · exact .inr ⟨(k, q) :: ys, e, (List.cons_prefix_cons.2 ⟨rfl, h3⟩), .step h1 hk hp h4⟩
    · exact .inr ⟨[], e, List.nil_prefix, .stop h1 h2⟩

theorem prevRun_cut {it : Iter} {xs : List (RV × MemPtr)} (h : PrevRun t it s xs) : ∀ {s' : PF}, CutOf s s' →
    StepCut s' (it.prev t s) (it.prev t s') → PrevRun t it s' xs ∨ ∃ ys e, ys <+: xs ∧ PrevStops t it s' ys e := by
  induction h with
  | @stop it it' s s1 h he =>
    intro s' hc hs
    obtain ⟨p, h1 | ⟨it2, e, h1, h2⟩⟩ := hs
    · rw [h] at h1; exact .inl (.stop h1 he)
    · exact .inr ⟨[], e, List.nil_prefix, .stop h1 h2⟩
  | @step it it' s s1 k q xs h hk hp rest ih =>
    intro s' hc hs
    obtain ⟨p, h1 | ⟨it2, e, h1, h2⟩⟩ := hs
    · rw [h] at h1
      have hc' := (hc.after (ReadOnly.iterPrev t it)).right p
      rw [h] at hc'
      rcases ih hc' (prev_cut hc' t (curKey_records hk)) with h3 | ⟨ys, e, h3, h4⟩
      · exact .inl (.step h1 hk hp h3)
      · exact .inr ⟨(k, q) :: ys, e, (List.cons_prefix_cons.2 ⟨rfl, h3⟩), .step h1 hk hp h4⟩
    · exact .inr ⟨[], e, List.nil_prefix, .stop h1 h2⟩

/-- C109 (partial: as above): an iteration in the first pages of the file, in either direction, shows the entries it shows in the whole file, or
the first of them and then stops with an error. -/
theorem C109_iterate_partial (hf : ForestRun ts s c) (ht : ts[i]? = some t) (hcut : CutOf s s') (hin : t.rootPos + 12 ≤ s'.file.bytes.length) (k : RV)
    (xs : List (RV × MemPtr)) :
    (NextRun t (iter k) s xs → NextRun t (iter k) s' xs ∨ ∃ ys e, ys <+: xs ∧ NextStops t (iter k) s' ys e) ∧
    (PrevRun t (iter k) s xs → PrevRun t (iter k) s' xs ∨ ∃ ys e, ys <+: xs ∧ PrevStops t (iter k) s' ys e) := by
  obtain ⟨free, es, ps, htr⟩ := forest_is hf ht
  exact ⟨fun h => nextRun_cut h hcut (next_first_cut hcut htr hin k), fun h => prevRun_cut h hcut (prev_first_cut hcut htr hin k)⟩

/-- C109 is violated: if the page with the root slot of the tree is cut off, every look-up and every iteration behaves as if the tree were empty, and
reports no error. -/
theorem C109_root_violated (hcut : CutOf s s') (hout : s'.file.bytes.length ≤ t.rootPos) (k : RV) :
    (t.find k s').1 = .ok (⟨⟨0, 0⟩, []⟩, ⟨0, 0⟩) ∧ NextRun t (iter k) s' [] ∧ PrevRun t (iter k) s' [] := by
  have hw := hcut.whole
  obtain ⟨p, e, hro⟩ : ∃ p e, rootAt t.rootPos s' = (.err e, s'.upd s'.file.bytes p) := by
    unfold rootAt
    rcases seek_cut hcut (t.rootPos : Int) with ⟨e, he⟩ | ⟨p, r, h1, h2, -, h4⟩
    · exact ⟨s'.file.pos, e, by rw [Act.bind_err he]; rfl⟩
    · have : p = s'.file.bytes.length := by
        apply Decidable.byContradiction
        intro hc
        have := h4 (by omega)
        omega
      subst this
      have hrf : PF.readFull 12 (s'.upd s'.file.bytes s'.file.bytes.length) = (.err .eof, s'.upd s'.file.bytes s'.file.bytes.length) := by
        unfold PF.readFull
        rw [Act.bind_ok (read_end (s := s'.upd s'.file.bytes s'.file.bytes.length) (by decide) rfl (by simp only [upd_pos]; unfold pageSize; omega))]
        rfl
      rw [Act.bind_ok h2, Act.bind_err hrf]
      exact ⟨_, _, rfl⟩
  have hroot : t.root s' = (.ok none, s'.upd s'.file.bytes p) := by
    unfold Tree.root
    rw [hro]
  have hinit : (iter k).init t s' = (.ok (false, iter k), s'.upd s'.file.bytes p) := by
    unfold Iter.init
    rw [hroot]
  have hn : (iter k).next t s' = (.ok (false, iter k), s'.upd s'.file.bytes p) := by
    unfold Iter.next
    simp only [iter] at *
    rw [Act.bind_ok hinit]; rfl
  have hp : (iter k).prev t s' = (.ok (false, iter k), s'.upd s'.file.bytes p) := by
    unfold Iter.prev
    simp only [iter] at *
    rw [Act.bind_ok hinit]; rfl
  refine ⟨?_, .stop hn rfl, .stop hp rfl⟩
  unfold Tree.find
  rw [Act.bind_ok hn]
  rfl

/-- Non-vacuity: the tree with three entries of `TreeWitness`, in a file from which the last page has been cut off, which still has the root slot; and
the first page of this file, which has not. -/
example : ∃ s c s' s'', ForestRun [Demo.tree] s c ∧ c 0 = [Demo.ent 5, Demo.ent 3, Demo.ent 1] ∧ CutOf s s' ∧ CutOf s s'' ∧
    s'.file.bytes.length < s.file.bytes.length ∧ Demo.tree.rootPos + 12 ≤ s'.file.bytes.length ∧ s''.file.bytes.length ≤ Demo.tree.rootPos := by
  obtain ⟨s, c, hf, hc, -⟩ := Demo.exists_three
  obtain ⟨free, E, P, hi⟩ := forestInv hf
  obtain ⟨hti, hw, hp⟩ := hi.tree 0 Demo.tree rfl
  have hal : s.file.bytes.length % pageSize = 0 := hti.valid.aligned
  have hroot : ∃ p ∈ P 0, True := by
    rcases hti.root with ⟨_, h, _⟩ | ⟨_, k, hr, _⟩
    · have := hp.length_eq
      rw [h, hc] at this
      cases this
    · obtain ⟨n, qs, -, h, -⟩ := rep_iff.1 hr
      exact ⟨_, by rw [h]; exact List.mem_cons_self, trivial⟩
  obtain ⟨p, hpm, -⟩ := hroot
  have hl1 := (hti.live p hpm).inside hti.valid
  have hl2 := hti.slotInside
  have hpos := (hti.live p hpm).2.1
  have hpa := (hti.live p hpm).1
  have hne : p ≠ 4096 := fun h => hti.slotOut (by rw [show slotPage Demo.tree.rootPos = 4096 from rfl, ← h]; exact hpm)
  have hlen : 12288 ≤ s.file.bytes.length := by unfold pageSize at *; omega
  have hcut : ∀ n, n ≤ s.file.bytes.length → n % 4096 = 0 →
      CutOf s { s with file := { s.file with bytes := s.file.bytes.take n } } ∧ (s.file.bytes.take n).length = n := by
    intro n hn hm
    have : (s.file.bytes.take n).length = n := by rw [List.length_take]; omega
    exact ⟨⟨rfl, ⟨s.file.bytes.drop n, (List.take_append_drop n _).symm⟩, by rw [this]; exact hm⟩, this⟩
  obtain ⟨h1, h2⟩ := hcut (s.file.bytes.length - 4096) (by omega) (by unfold pageSize at *; omega)
  obtain ⟨h3, h4⟩ := hcut 4096 (by omega) rfl
  refine ⟨s, c, _, _, hf, hc, h1, h3, ?_, ?_, ?_⟩
  · simp only [h2]; omega
  · simp only [h2, show Demo.tree.rootPos = 4096 from rfl]; omega
  · simp only [h4, show Demo.tree.rootPos = 4096 from rfl]; omega

end Appendable
