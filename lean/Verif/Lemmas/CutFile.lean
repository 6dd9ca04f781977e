import Verif.Spec.CutFile
import Verif.Lemmas.Iter2
import Verif.Lemmas.SlotOps
import Verif.Lemmas.Position
/-! Look-ups on the first pages of a file. -/
namespace Appendable
open Spec Tree

theorem Spec.CutOf.upd {s s' : PF} (h : CutOf s s') (p p' : Nat) : CutOf (s.upd s.file.bytes p) (s'.upd s'.file.bytes p') := ⟨h.kind, h.front, h.whole⟩

theorem Spec.CutOf.left {s s' : PF} (h : CutOf s s') (p : Nat) : CutOf (s.upd s.file.bytes p) s' := ⟨h.kind, h.front, h.whole⟩

theorem Spec.CutOf.right {s s' : PF} (h : CutOf s s') (p : Nat) : CutOf s (s'.upd s'.file.bytes p) := ⟨h.kind, h.front, h.whole⟩

theorem Spec.CutOf.le {s s' : PF} (h : CutOf s s') : s'.file.bytes.length ≤ s.file.bytes.length := by
  obtain ⟨r, hr⟩ := h.front
  rw [hr, List.length_append]; omega

theorem Spec.CutOf.slice {s s' : PF} (h : CutOf s s') {p n : Nat} (hp : p + n ≤ s'.file.bytes.length) :
    slice s'.file.bytes p n = slice s.file.bytes p n := by
  obtain ⟨r, hr⟩ := h.front
  unfold Appendable.slice
  rw [hr, List.drop_append_of_le_length (by omega), List.take_append_of_le_length (by rw [List.length_drop]; omega)]

theorem seek_err {s : PF} {o : Int} {e : Err} (h : File.seekStart o s.file = (.err e, s.file)) : PF.seek o s = (.err e, s) :=
  onFile_run (s := s) h

theorem seek_cut {s s' : PF} (h : CutOf s s') (o : Int) : (∃ e, PF.seek o s' = (.err e, s')) ∨ ∃ (p : Nat) (r : Int), p ≤ s'.file.bytes.length ∧
    PF.seek o s' = (.ok r, s'.upd s'.file.bytes p) ∧ (p < s'.file.bytes.length → PF.seek o s = (.ok r, s.upd s.file.bytes p)) ∧
    (p < s'.file.bytes.length → p = o.toNat) := by
  have hle := h.le
  have hkk := h.kind
  by_cases h0 : 0 ≤ o ∧ o ≤ s'.file.bytes.length
  · right
    obtain ⟨n, rfl⟩ : ∃ n : Nat, o = n := ⟨o.toNat, by omega⟩
    exact ⟨n, n, by omega, seek_ok (by omega), fun _ => seek_ok (by omega), fun _ => by simp⟩
  · cases hk : s'.file.kind with
    | mmap =>
      left
      by_cases h1 : o < 0
      · exact ⟨_, seek_err (by simp only [File.seekStart, File.seekAbs, hk, if_pos h1]; rfl)⟩
      · exact ⟨_, seek_err (by
          simp only [File.seekStart, File.seekAbs, hk, if_neg h1, if_pos (show o > (s'.file.bytes.length : Int) by omega)]; rfl)⟩
    | buffer =>
      right
      rw [hk] at hkk
      by_cases h1 : o < 0
      · exact ⟨0, 0, by omega, onFile_run (by simp only [File.seekStart, File.seekAbs, hk, if_pos h1]; rfl),
          fun _ => onFile_run (by simp only [File.seekStart, File.seekAbs, ← hkk, if_pos h1]; rfl), fun _ => by omega⟩
      · exact ⟨s'.file.bytes.length, s'.file.bytes.length, by omega,
          onFile_run (by simp only [File.seekStart, File.seekAbs, hk, if_neg h1, if_pos (show o > (s'.file.bytes.length : Int) by omega)]),
          fun h => by omega, fun h => by omega⟩

theorem read_end {s : PF} {n : Nat} (hn : 0 < n) (h : s.file.pos = s.file.bytes.length) (hc : s.file.pos % pageSize + n ≤ pageSize) :
    PF.read n s = (.ok ([], true), s) := by
  unfold PF.read
  rw [Act.bind_ok (onFile_run (File.seekCur_ok (by omega))), tmod_nat, if_neg (by omega)]
  exact onFile_run (File.read_eof hn h)

theorem read_crash {s : PF} {n : Nat} (h : s.file.pos ≤ s.file.bytes.length) (hc : ¬ s.file.pos % pageSize + n ≤ pageSize) :
    PF.read n s = (.panic, s) := by
  unfold PF.read
  rw [Act.bind_ok (onFile_run (File.seekCur_ok (by omega))), tmod_nat, if_pos (by omega)]
  rfl

/-- A node read from the front of the file is the node of the whole file, or there is an error. -/
theorem readNode_cut {s s' : PF} (h : CutOf s s') (t : Tree) (ptr : MemPtr) : ∃ p, t.readNode ptr s' = ((t.readNode ptr s).1, s'.upd s'.file.bytes p) ∨
    ∃ e, t.readNode ptr s' = (.err e, s'.upd s'.file.bytes p) := by
  have hle := h.le
  have hw := h.whole
  unfold Tree.readNode
  rcases seek_cut h (int64OfU64 ptr.offset.toNat) with ⟨e, he⟩ | ⟨p, r, h1, h2, h3, -⟩
  · exact ⟨s'.file.pos, .inr ⟨e, by rw [Act.bind_err he]; rfl⟩⟩
  · rw [Act.bind_ok h2]
    by_cases hp : p < s'.file.bytes.length
    · rw [Act.bind_ok (h3 hp)]
      by_cases ha : p % pageSize = 0
      · have hin : p + pageSize ≤ s'.file.bytes.length := by unfold pageSize at *; omega
        rw [Act.bind_ok (read_ok (s := s'.upd s'.file.bytes p) (by decide) hin (by simp only [upd_pos]; omega)),
          Act.bind_ok (read_ok (s := s.upd s.file.bytes p) (by decide) (by simp only [upd_pos, upd_bytes]; omega) (by simp only [upd_pos]; omega))]
        refine ⟨p + pageSize, .inl ?_⟩
        simp only [upd_bytes, upd_pos, h.slice hin, Bool.false_eq_true, if_false, Act.lift_run, upd_upd]
      · have hc : ¬ p % pageSize + pageSize ≤ pageSize := by omega
        rw [Act.bind_panic (read_crash (s := s'.upd s'.file.bytes p) h1 hc), Act.bind_panic (read_crash (s := s.upd s.file.bytes p) (by simp only [upd_pos, upd_bytes]; omega) hc)]
        exact ⟨p, .inl rfl⟩
    · obtain rfl : p = s'.file.bytes.length := by omega
      rw [Act.bind_ok (read_end (s := s'.upd s'.file.bytes s'.file.bytes.length) (by decide) rfl (by simp only [upd_pos]; unfold pageSize; omega))]
      exact ⟨s'.file.bytes.length, .inr ⟨.eof, rfl⟩⟩

theorem readNode_cutAt {s s' : PF} {t : Tree} {off : UInt64} {n : Node} (h : CutOf s s') (hn : NodeAt t.cfg s.file.bytes off n) (l : UInt32) :
    (off.toNat + pageSize ≤ s'.file.bytes.length ∧ t.readNode ⟨off, l⟩ s' = (.ok n, s'.upd s'.file.bytes (off.toNat + pageSize))) ∨
    ∃ e p, t.readNode ⟨off, l⟩ s' = (.err e, s'.upd s'.file.bytes p) := by
  by_cases hin : off.toNat + pageSize ≤ s'.file.bytes.length
  · exact .inl ⟨hin, readNode_ok ⟨hn.aligned, hn.pos, hin, hn.small, hn.ok, by
      have := hn.stored
      unfold pageAt at this ⊢
      rw [h.slice hin]; exact this⟩ l⟩
  · right
    have hw := h.whole
    have ha := hn.aligned
    unfold Tree.readNode
    simp only
    rw [int64OfU64_small hn.small]
    rcases seek_cut h (off.toNat : Int) with ⟨e, he⟩ | ⟨p, r, h1, h2, -, h4⟩
    · exact ⟨e, s'.file.pos, by rw [Act.bind_err he]; rfl⟩
    · have : p = s'.file.bytes.length := by
        apply Decidable.byContradiction
        intro hc
        have := h4 (by omega)
        unfold pageSize at *
        omega
      subst this
      rw [Act.bind_ok h2, Act.bind_ok (read_end (s := s'.upd s'.file.bytes s'.file.bytes.length) (by decide) rfl (by simp only [upd_pos]; unfold pageSize; omega))]
      exact ⟨.eof, s'.file.bytes.length, rfl⟩

/-- The child on the way to a key, and its pages. -/
theorem MemRep.childPages {cfg B h n lo hi es qs} (hm : MemRep cfg (SubRep cfg B (h + 1)) false n lo hi es qs) (key : RV)
    (hlo : GeB lo key) (hhi : LtB key hi) :
    ∃ p lo' hi' es' ps', n.intPtrs[childIdx n.keys key]? = some p ∧ Rep cfg B h p lo' hi' es' ps' ∧
      GeB lo' key ∧ LtB key hi' ∧ ps'.Sublist qs := by
  obtain ⟨hs, hk⟩ := hm.2.1 rfl
  obtain ⟨ks1, ks2, ptrs1, q, ptrs2, lo', hi', es1', es2', es3', ps1', ps2', ps3', a1, a2, a3, a4, a5, a6, a7, a8,
        a9, a10, a11, a12, a13⟩ := hk.locate (goodR_sub cfg B (h + 1)) key hlo hhi
  refine ⟨q, lo', hi', es2', ps2', ?_, a8, a10, a11, by rw [a4]; exact (List.sublist_append_left _ _).trans (List.sublist_append_right _ _)⟩
  rw [a2, ← a5, ← a6]; simp

/-- A descent in the front of the file takes the way of the whole file, or there is an error. -/
theorem traverse_cut {t : Tree} {key : RV} {h fuel fuel' : Nat} {s s' : PF} {off : UInt64} {l : UInt32} {n : Node} {lo hi es ps} (hcut : CutOf s s')
    (hr : Rep t.cfg s.file.bytes h off lo hi es ps) (hn : NodeAt t.cfg s.file.bytes off n) (hf : h < fuel)
    (hlo : GeB lo key) (hhi : LtB key hi) (hnd : ps.Nodup) (hin : off.toNat + pageSize ≤ s'.file.bytes.length)
    {seen : List Nat} (hseen : seen.Nodup) (hout : ∀ x ∈ seen, x ∉ ps)
    (hpg : ∀ x ∈ seen, x % pageSize = 0 ∧ pageSize ≤ x ∧ x + pageSize ≤ s'.file.bytes.length)
    (hfuel : fuel' + seen.length = Tree.fuel s') :
    ∃ p, t.traverse key fuel' n ⟨off, l⟩ s' = ((t.traverse key fuel n ⟨off, l⟩ s).1, s'.upd s'.file.bytes p) ∨
      ∃ e, t.traverse key fuel' n ⟨off, l⟩ s' = (.err e, s'.upd s'.file.bytes p) := by
  have hcount := pages_count hseen hpg
  obtain ⟨fuel', rfl⟩ : ∃ f, fuel' = f + 1 := ⟨fuel' - 1, by unfold Tree.fuel at hfuel; omega⟩
  induction h generalizing fuel fuel' s s' off l n lo hi es ps seen with
  | zero =>
    obtain ⟨fuel, rfl⟩ : ∃ f, fuel = f + 1 := ⟨fuel - 1, by omega⟩
    obtain ⟨n', qs, hn', rfl, hm⟩ := hr
    cases hn.unique hn'
    obtain ⟨hs, _, _, hso, _⟩ := hm.1 rfl
    have hleaf := hs.isLeaf hn.ok.1
    refine ⟨s'.file.pos, .inl ?_⟩
    unfold traverse
    rw [bsearch_spec hso key]
    simp only
    rw [if_pos hleaf, if_pos hleaf]; rfl
  | succ h ih =>
    obtain ⟨fuel, rfl⟩ : ∃ f, fuel = f + 1 := ⟨fuel - 1, by omega⟩
    obtain ⟨n', qs, hn', rfl, hm⟩ := rep_iff.1 hr
    cases hn.unique hn'
    have hm' : MemRep t.cfg (SubRep t.cfg s.file.bytes (h + 1)) false n lo hi es qs := hm
    obtain ⟨hs, hk⟩ := hm'.2.1 rfl
    have hso := (hm'.good (fun _ => goodR_sub _ _ _) hn.ok.1).2
    have hleaf := hs.isLeaf
    obtain ⟨p, lo', hi', es', ps', c1, c2, c3, c4, c5⟩ := hm'.childPages key hlo hhi
    obtain ⟨nc, _, hnc, _⟩ := rep_iff.1 c2
    have hidx : (if (decide (key ∈ n.keys)) = true then countLt n.keys key + 1 else countLt n.keys key)
        = childIdx n.keys key := by
      unfold childIdx; by_cases hmem : key ∈ n.keys <;> simp [hmem]
    have hptr : n.pointer (childIdx n.keys key) = some ⟨p, 0⟩ := by
      unfold Node.pointer; rw [if_neg (by simp [hleaf]), c1]; rfl
    unfold traverse
    rw [bsearch_spec hso key]
    simp only
    simp only [if_neg (show ¬ n.leaf = true by simp [hleaf]), hidx, hptr]
    have hrd := readNode_ok (t := t) hnc 0
    rw [Act.bind_ok hrd]
    rcases readNode_cutAt (t := t) hcut hnc 0 with ⟨hpin, h1⟩ | ⟨e, q, h1⟩
    · rw [Act.bind_ok h1]
      have hoff : off.toNat ∉ qs := (List.nodup_cons.1 hnd).1
      have hsn : (off.toNat :: seen).Nodup := List.nodup_cons.2 ⟨fun hc => hout _ hc (by simp), hseen⟩
      have hspg : ∀ x ∈ off.toNat :: seen, x % pageSize = 0 ∧ pageSize ≤ x ∧ x + pageSize ≤ s'.file.bytes.length := by
        intro x hx
        rcases List.mem_cons.1 hx with rfl | hx
        · exact ⟨hn.aligned, hn.pos, hin⟩
        · exact hpg x hx
      have hcount' := pages_count hsn hspg
      simp only [List.length_cons] at hcount'
      obtain ⟨f, rfl⟩ : ∃ f, fuel' = f + 1 := ⟨fuel' - 1, by unfold Tree.fuel at hfuel; omega⟩
      have hfu : f + 1 + (off.toNat :: seen).length = Tree.fuel (s'.upd s'.file.bytes (p.toNat + pageSize)) := by
        rw [List.length_cons, show Tree.fuel (s'.upd s'.file.bytes (p.toNat + pageSize)) = Tree.fuel s' from rfl]; omega
      obtain ⟨q, h2 | ⟨e, h2⟩⟩ := ih (s := s.upd s.file.bytes (p.toNat + pageSize)) (s' := s'.upd s'.file.bytes (p.toNat + pageSize)) (l := 0)
        (fuel := fuel) (seen := off.toNat :: seen) (hcut.upd _ _) c2 hnc (by omega) c3 c4 (c5.nodup (List.nodup_cons.1 hnd).2) hpin hsn
        (by
          intro x hx hc
          rcases List.mem_cons.1 hx with rfl | hx
          · exact hoff (c5.subset hc)
          · exact hout x hx (List.mem_cons_of_mem _ (c5.subset hc))) hspg
        (by
          simp only [upd_bytes, List.length_cons]; omega) f hfu
      · obtain ⟨path, p1, htr, -⟩ := traverse_ok (t := t) (key := key) (s := s.upd s.file.bytes (p.toNat + pageSize)) (l := 0) (fuel := fuel)
          c2 hnc (by omega) c3 c4
        rw [htr] at h2
        rw [Act.bind_ok h2, Act.bind_ok htr]
        exact ⟨q, .inl rfl⟩
      · rw [Act.bind_err h2]
        exact ⟨q, .inr ⟨e, rfl⟩⟩
    · rw [Act.bind_err h1]
      exact ⟨q, .inr ⟨e, rfl⟩⟩

theorem Spec.CutOf.after {α : Type} {s s' : PF} {a : Act PF α} (h : CutOf s s') (hr : ReadOnly a) : CutOf (a s).2 s' := by
  obtain ⟨p, hp⟩ := hr s
  rw [hp]; exact h.left p

/-- A move in the front of the file is the move in the whole file, or an error is recorded. -/
theorem incr_cut (t : Tree) (δ : Int) : ∀ (rs : List TRec) {s s' : PF}, CutOf s s' →
    ∃ p, t.incr δ rs s' = ((t.incr δ rs s).1, s'.upd s'.file.bytes p) ∨ ∃ rs' e, t.incr δ rs s' = (.ok (false, rs', some e), s'.upd s'.file.bytes p)
  | [], s, s', _ => ⟨s'.file.pos, .inl rfl⟩
  | r :: rs, s, s', h => by
    unfold incr
    simp only
    split
    · obtain ⟨p, h1 | ⟨rs', e, h1⟩⟩ := incr_cut t δ rs h
      · have hc : CutOf (t.incr δ rs s).2 (s'.upd s'.file.bytes p) := (h.after (ReadOnly.incr t δ rs)).right p
        revert h1 hc
        generalize hg : t.incr δ rs s = g
        obtain ⟨g1, g2⟩ := g
        intro h1 hc
        cases g1 with
        | err e => rw [Act.bind_err h1, Act.bind_err hg]; exact ⟨p, .inl rfl⟩
        | panic => rw [Act.bind_panic h1, Act.bind_panic hg]; exact ⟨p, .inl rfl⟩
        | ok x =>
          obtain ⟨ok, rs', e⟩ := x
          rw [Act.bind_ok h1, Act.bind_ok hg]
          cases ok with
          | false => exact ⟨p, .inl rfl⟩
          | true =>
            simp only [Bool.not_true, Bool.false_eq_true, if_false]
            cases rs' with
            | nil => exact ⟨p, .inl rfl⟩
            | cons q rs' =>
              simp only
              by_cases hq : q.index < 0
              · rw [if_pos hq]; exact ⟨p, .inl rfl⟩
              · rw [if_neg hq]
                cases q.node.pointer q.index.toNat with
                | none => exact ⟨p, .inl rfl⟩
                | some ptr =>
                  simp only
                  obtain ⟨p2, h2 | ⟨e2, h2⟩⟩ := readNode_cut hc t ptr
                  · rw [h2]
                    generalize t.readNode ptr g2 = k
                    obtain ⟨k1, k2⟩ := k
                    cases k1 <;> exact ⟨p2, .inl rfl⟩
                  · rw [h2]
                    exact ⟨p2, .inr ⟨_, _, rfl⟩⟩
      · rw [Act.bind_ok h1]
        exact ⟨p, .inr ⟨_, _, rfl⟩⟩
    · exact ⟨s'.file.pos, .inl rfl⟩

/-- An answer of `Next` or `Prev` in the front of the file is that in the whole file, or it is false and an error is recorded. -/
def StepCut (s' : PF) (r r' : Res (Bool × Iter) × PF) : Prop :=
  ∃ p, r' = (r.1, s'.upd s'.file.bytes p) ∨ ∃ it e, r' = (.ok (false, it), s'.upd s'.file.bytes p) ∧ it.err = some e

theorem step_cut {s s' : PF} (h : CutOf s s') (t : Tree) (δ : Int) (it : Iter) (rs : List TRec) : StepCut s' (it.step t δ rs s) (it.step t δ rs s') := by
  unfold Iter.step
  obtain ⟨p, h1 | ⟨rs', e, h1⟩⟩ := incr_cut t δ rs h
  · generalize hg : t.incr δ rs s = g at h1
    obtain ⟨g1, g2⟩ := g
    cases g1 with
    | err e => rw [Act.bind_err h1, Act.bind_err hg]; exact ⟨p, .inl rfl⟩
    | panic => rw [Act.bind_panic h1, Act.bind_panic hg]; exact ⟨p, .inl rfl⟩
    | ok x => rw [Act.bind_ok h1, Act.bind_ok hg]; exact ⟨p, .inl rfl⟩
  · rw [Act.bind_ok h1]
    exact ⟨p, .inr ⟨_, e, rfl, rfl⟩⟩

theorem next_cut {s s' : PF} (h : CutOf s s') (t : Tree) {it : Iter} (hr : it.records ≠ none) : StepCut s' (it.next t s) (it.next t s') := by
  unfold Iter.next
  cases hc : it.records with
  | none => exact absurd hc hr
  | some rs => exact step_cut h t 1 it rs

theorem prev_cut {s s' : PF} (h : CutOf s s') (t : Tree) {it : Iter} (hr : it.records ≠ none) : StepCut s' (it.prev t s) (it.prev t s') := by
  unfold Iter.prev
  cases hc : it.records with
  | none => exact absurd hc hr
  | some rs => exact step_cut h t (-1) it rs

theorem init_cut {t : Tree} {s s' : PF} {free es ps} (h : CutOf s s') (ht : TreeIs t s free es ps) (hin : t.rootPos + 12 ≤ s'.file.bytes.length) (key : RV) :
    StepCut s' ((iter key).init t s) ((iter key).init t s') := by
  have hsl := h.slice hin
  rcases ht.root with ⟨h0, -, -⟩ | ⟨h0, k, hr, -, -⟩
  · refine ⟨t.rootPos + 12, .inl ?_⟩
    unfold Iter.init
    rw [root_none ht.slotInside ht.slot (by rw [h0]), root_none (s := s') hin ht.slot (by rw [hsl, h0])]
  · obtain ⟨n, hn⟩ := hr.node
    obtain ⟨p0, hroot⟩ := root_some (t := t) ht.slotInside ht.slot h0 hn
    generalize hmp : MemPtr.decode (slice s.file.bytes t.rootPos 12) = mp at *
    obtain ⟨off, l⟩ := mp
    have hroot' : ∀ (r : Res Node) (p : Nat), t.readNode ⟨off, l⟩ (s'.upd s'.file.bytes (t.rootPos + 12)) = (r, s'.upd s'.file.bytes p) →
        t.root s' = (r >>= fun n => .ok (some (n, ⟨off, l⟩)), s'.upd s'.file.bytes p) := by
      intro r p hrd
      unfold Tree.root
      rw [rootAt_ok hin ht.slot, hsl, hmp]
      simp only
      rw [if_neg h0]
      cases r with
      | ok n => rw [Act.bind_ok hrd]; rfl
      | err e => rw [Act.bind_err hrd]; rfl
      | panic => rw [Act.bind_panic hrd]; rfl
    rcases readNode_cutAt (t := t) (s := s) (h.right (t.rootPos + 12)) hn l with ⟨hin', h1⟩ | ⟨e, p, h1⟩
    · have hfuel : k < fuel s := by
        have := hr.height_lt
        have := pages_count ht.nodup hr.pages
        unfold fuel; omega
      have hro := hroot' _ _ h1
      simp only [upd_bytes] at hro hin'
      unfold Iter.init
      rw [hro, hroot]
      simp only [Res.bind_ok]
      obtain ⟨q, h2 | ⟨e, h2⟩⟩ := traverse_cut (t := t) (key := key) (s := s.upd s.file.bytes p0) (s' := s'.upd s'.file.bytes (off.toNat + pageSize)) (l := l)
        (fuel' := fuel (s'.upd s'.file.bytes (off.toNat + pageSize))) (h.upd _ _) hr hn hfuel (fun l hl => by cases hl) (fun l hl => by cases hl) ht.nodup hin' (seen := []) (by simp) (by simp) (by simp) (by simp)
      · refine ⟨q, .inl ?_⟩
        simp only [upd_bytes, upd_upd] at h2
        rw [show (iter key).key = key from rfl, h2, show fuel (s.upd s.file.bytes p0) = fuel s from rfl]
        generalize t.traverse key (fuel s) n ⟨off, l⟩ (s.upd s.file.bytes p0) = g
        obtain ⟨g1, g2⟩ := g
        cases g1 <;> rfl
      · refine ⟨q, .inr ⟨{ iter key with err := some e }, e, ?_, rfl⟩⟩
        simp only [upd_bytes, upd_upd] at h2
        rw [show (iter key).key = key from rfl, h2]
        rfl
    · have hro := hroot' _ _ h1
      unfold Iter.init
      rw [hro]
      exact ⟨p, .inr ⟨_, e, rfl, rfl⟩⟩

theorem next_first_cut {t : Tree} {s s' : PF} {free es ps} (h : CutOf s s') (ht : TreeIs t s free es ps) (hin : t.rootPos + 12 ≤ s'.file.bytes.length) (key : RV) :
    StepCut s' ((iter key).next t s) ((iter key).next t s') := by
  have hi := init_cut h ht hin key
  unfold Iter.next
  simp only [iter] at *
  obtain ⟨p, h1 | ⟨it, e, h1, h2⟩⟩ := hi
  · generalize hg : Iter.init t (⟨key, none, none⟩ : Iter) s = g at h1
    obtain ⟨g1, g2⟩ := g
    cases g1 with
    | err e => rw [Act.bind_err h1, Act.bind_err hg]; exact ⟨p, .inl rfl⟩
    | panic => rw [Act.bind_panic h1, Act.bind_panic hg]; exact ⟨p, .inl rfl⟩
    | ok x =>
      obtain ⟨b, it⟩ := x
      rw [Act.bind_ok h1, Act.bind_ok hg]
      refine ⟨p, .inl ?_⟩
      cases b with
      | false => rfl
      | true =>
        simp only [if_true]
        cases it.records with
        | none => rfl
        | some rs => cases rs <;> rfl
  · rw [Act.bind_ok h1]
    exact ⟨p, .inr ⟨it, e, rfl, h2⟩⟩

theorem prev_first_cut {t : Tree} {s s' : PF} {free es ps} (h : CutOf s s') (ht : TreeIs t s free es ps) (hin : t.rootPos + 12 ≤ s'.file.bytes.length) (key : RV) :
    StepCut s' ((iter key).prev t s) ((iter key).prev t s') := by
  have hi := init_cut h ht hin key
  have hro : CutOf ((iter key).init t s).2 s' := h.after (ReadOnly.init t _)
  unfold Iter.prev
  simp only [iter] at *
  obtain ⟨p, h1 | ⟨it, e, h1, h2⟩⟩ := hi
  · generalize hg : Iter.init t (⟨key, none, none⟩ : Iter) s = g at h1 hro
    obtain ⟨g1, g2⟩ := g
    cases g1 with
    | err e => rw [Act.bind_err h1, Act.bind_err hg]; exact ⟨p, .inl rfl⟩
    | panic => rw [Act.bind_panic h1, Act.bind_panic hg]; exact ⟨p, .inl rfl⟩
    | ok x =>
      obtain ⟨b, it⟩ := x
      rw [Act.bind_ok h1, Act.bind_ok hg]
      cases b with
      | false => exact ⟨p, .inl rfl⟩
      | true =>
        simp only [if_true]
        cases it.records with
        | none => exact ⟨p, .inl rfl⟩
        | some rs =>
          obtain ⟨q, h3⟩ := step_cut (hro.right p) t (-1) it rs
          exact ⟨q, h3⟩
  · rw [Act.bind_ok h1]
    exact ⟨p, .inr ⟨it, e, rfl, h2⟩⟩

/-- `LinkedPage.BPTree` and the tree the handlers get from it are the same tree. -/
theorem treeAt_bptree (data : Bytes) (parse : Bytes → Bytes) (w : UInt16) (p : LP) : treeAt data parse w p = p.bptree ⟨data, parse, w⟩ := rfl

end Appendable
