import Verif.Props.Tree
/-! Concrete histories with a leaf split: they show that the hypotheses of the tree theorems are met by
non-trivial states, and that the properties C11, C13, C14, C17 and C38 are violated as stated.
Keys of 2016 bytes are used because then three of them do not fit on a page. -/
namespace Appendable
open Spec Tree

namespace Demo

/-- A tree for values of 2016 bytes, root slot at the start of the first page. -/
def tree : Tree := ⟨⟨[], id, 2017⟩, 4096⟩
/-- The key `nn…n`, stored at offset `n` of the data file. -/
def key (n : Nat) : RV := ⟨⟨UInt64.ofNat n, 0⟩, List.replicate 2016 (UInt8.ofNat n)⟩
/-- The record pointer stored with it. -/
def ptr (n : Nat) : MemPtr := ⟨UInt64.ofNat (100 + n), 7⟩

/-- Open an empty file and allocate a page. -/
def start : Option PF :=
  match (PF.openFile ⟨.buffer, [], 0, none⟩).1 with
  | .ok s => match PF.newPage none s with
    | (.ok _, s') => if slice s'.file.bytes 4096 12 = List.replicate 12 0 then some s' else none
    | _ => none
  | _ => none

/-- Insert entries one after the other. -/
def inserts (t : Tree) : List (RV × MemPtr) → PF → Option PF
  | [], s => some s
  | e :: es, s => match t.insert e.1 e.2 s with
    | (.ok _, s') => inserts t es s'
    | _ => none

/-- An entry. -/
def ent (n : Nat) : RV × MemPtr := (key n, ptr n)

theorem keyOK (n : Nat) : KeyOK tree.cfg (key n) := by
  unfold KeyOK
  rw [if_neg (by decide)]
  exact List.length_replicate

theorem start_run {t : Tree} (ht : t.rootPos = 4096) (hw : WidthOK t) {s : PF} (h : start = some s) :
    ForestRun [t] s (fun _ => []) := by
  unfold start at h
  split at h
  · rename_i s0 h0
    split at h
    · rename_i off s' h1
      split at h
      · rename_i hz
        cases h
        have hr : AllocRun s0 [] [] 0 := by
          refine .opened (f := ⟨.buffer, [], 0, none⟩) (f' := (PF.openFile ⟨.buffer, [], 0, none⟩).2) rfl rfl ?_
          rw [← h0]
        have hlen : s0.file.bytes.length = 4096 := by
          obtain ⟨s1, h2, _, h3, _⟩ := openFile_empty ⟨.buffer, [], 0, none⟩ rfl rfl
          rw [h2] at h0
          cases h0
          rw [h3]; exact List.length_replicate
        obtain ⟨o, ho, _, _, h4, _⟩ := C20' hr h1
        refine .start (.new hr h1) ⟨by simp [ht, pageSize], by simp⟩ (by simpa using hw) ?_
        intro t' ht'
        simp only [List.mem_singleton] at ht'
        subst ht'
        rw [ht]
        refine ⟨?_, hz⟩
        rw [ho]
        rw [hlen] at h4
        simp [h4, pageSize]
      · cases h
    · cases h
  · cases h
where
  C20' {s s' : PF} {owned : List Nat} {n : Nat} {off : Int} (hr : AllocRun s owned [] n)
      (h : PF.newPage none s = (.ok off, s')) : ∃ o : Nat, off = o ∧ True ∧ True ∧ o = s.file.bytes.length ∧ True := by
    obtain ⟨o, h1, _, _, _, _, _, _, h6⟩ := newPage_inv (allocRun_inv hr) h
    rcases h6 with ⟨fs, h7, _⟩ | ⟨_, h7, _⟩
    · cases h7
    · exact ⟨o, h1, trivial, trivial, h7, trivial⟩

theorem inserts_run {t : Tree} : ∀ (es : List (RV × MemPtr)) {s s' : PF} {c : Nat → List (RV × MemPtr)}, ForestRun [t] s c →
    (∀ e ∈ es, KeyOK t.cfg e.1) → inserts t es s = some s' → ∃ c', ForestRun [t] s' c' ∧ c' 0 = es.reverse ++ c 0 := by
  intro es
  induction es with
  | nil => intro s s' c hf _ h; cases h; exact ⟨c, hf, by simp⟩
  | cons e es ih =>
    intro s s' c hf hk h
    rw [inserts] at h
    generalize hr : t.insert e.1 e.2 s = r at h
    obtain ⟨r, s1⟩ := r
    cases r with
    | ok u =>
      obtain ⟨c', h2, h3⟩ := ih (.insert (i := 0) hf rfl (hk e (by simp)) hr) (fun x hx => hk x (by simp [hx])) h
      refine ⟨c', h2, ?_⟩
      rw [h3, setAt_same, List.reverse_cons, List.append_assoc]; rfl
    | err e => cases h
    | panic => cases h

/-- The state after inserting the keys 1, 3 and 5: two leaves, with the keys 1 and 3, 5. -/
def three : Option PF := start.bind (inserts tree [ent 1, ent 3, ent 5])
/-- The state after inserting the keys 1 and 3: one leaf. -/
def two : Option PF := start.bind (inserts tree [ent 1, ent 3])

theorem three_run {s : PF} (h : three = some s) :
    ∃ c, ForestRun [tree] s c ∧ c 0 = [ent 5, ent 3, ent 1] := by
  obtain ⟨s0, h0, h1⟩ := Option.bind_eq_some_iff.1 h
  obtain ⟨c, h2, h3⟩ := inserts_run _ (start_run rfl (by unfold WidthOK; decide) h0) (by simp only [List.forall_mem_cons]; exact ⟨keyOK 1, keyOK 3, keyOK 5, by simp⟩) h1
  exact ⟨c, h2, by rw [h3]; rfl⟩

theorem two_run {s : PF} (h : two = some s) :
    ∃ c, ForestRun [tree] s c ∧ c 0 = [ent 3, ent 1] := by
  obtain ⟨s0, h0, h1⟩ := Option.bind_eq_some_iff.1 h
  obtain ⟨c, h2, h3⟩ := inserts_run _ (start_run rfl (by unfold WidthOK; decide) h0) (by simp only [List.forall_mem_cons]; exact ⟨keyOK 1, keyOK 3, by simp⟩) h1
  exact ⟨c, h2, by rw [h3]; rfl⟩

/-- What the runs on these states show. -/
def check3 (s : PF) : Bool :=
  (tree.find (key 2) s).1 == .ok (minKey, ⟨0, 0⟩) &&
  (tree.contains ⟨⟨0, 0⟩, (key 3).value⟩ s).1 == .ok false &&
  (drive tree [true, true, true, true, false, false, false, false, false] (iter (key 1)) s).map
      (fun o => match o with | some x => x.2.offset.toNat | none => 0) == [101, 103, 105, 0, 105, 103, 105, 103, 101]

/-- Insert the key 5 and die after two writes; reopen; look for the key 3. -/
def check2 (s : PF) : Bool :=
  match tree.insert (key 5) (ptr 5) (crashAfter 2 s) with
  | (.err .io, s1) =>
    match PF.openFile { s1.file with budget := none } with
    | (.ok s2, _) => (tree.find (key 3) s2).1 == .ok (minKey, ⟨0, 0⟩)
    | _ => false
  | _ => false

/-- A tree for values of one byte. -/
def narrow : Tree := ⟨⟨[], id, 2⟩, 4096⟩
/-- The state after inserting one key into it. -/
def one : Option PF := start.bind (inserts narrow [(⟨⟨1, 1⟩, [1]⟩, ⟨2, 2⟩)])
/-- A key whose length is 1 modulo 2^16. -/
def long : RV := ⟨⟨5, 5⟩, List.replicate 65537 0⟩

theorem one_run {s : PF} (h : one = some s) : ∃ c, ForestRun [narrow] s c ∧ c 0 = [(⟨⟨1, 1⟩, [1]⟩, ⟨2, 2⟩)] := by
  obtain ⟨s0, h0, h1⟩ := Option.bind_eq_some_iff.1 h
  obtain ⟨c, h2, h3⟩ := inserts_run _ (start_run (t := narrow) rfl (by unfold WidthOK; decide) h0) (by decide) h1
  exact ⟨c, h2, by rw [h3]; rfl⟩

/-- Inserting the long key panics, after a page has been allocated. -/
def check1 (s : PF) : Bool :=
  match narrow.insert long ⟨9, 9⟩ s with
  | (.panic, s1) => s1.file.bytes.length == s.file.bytes.length + 4096
  | _ => false

set_option maxRecDepth 100000 in
theorem one_check : (match one with | some s => check1 s | none => false) = true := by decide +kernel

set_option maxRecDepth 100000 in
theorem three_check : (match three with | some s => check3 s | none => false) = true := by decide +kernel

set_option maxRecDepth 100000 in
theorem two_check : (match two with | some s => check2 s | none => false) = true := by decide +kernel

theorem opt_check {o : Option PF} {f : PF → Bool} (h : (match o with | some s => f s | none => false) = true) :
    ∃ s, o = some s ∧ f s = true := by
  cases o with
  | none => cases h
  | some s => exact ⟨s, rfl, h⟩

theorem exists_three : ∃ s c, ForestRun [tree] s c ∧ c 0 = [ent 5, ent 3, ent 1] ∧ check3 s = true := by
  obtain ⟨s, h1, h2⟩ := opt_check (o := three) (f := check3) three_check
  obtain ⟨c, h3, h4⟩ := three_run h1
  exact ⟨s, c, h3, h4, h2⟩

theorem exists_two : ∃ s c, ForestRun [tree] s c ∧ c 0 = [ent 3, ent 1] ∧ check2 s = true := by
  obtain ⟨s, h1, h2⟩ := opt_check (o := two) (f := check2) two_check
  obtain ⟨c, h3, h4⟩ := two_run h1
  exact ⟨s, c, h3, h4, h2⟩

theorem exists_one : ∃ s c, ForestRun [narrow] s c ∧ check1 s = true := by
  obtain ⟨s, h1, h2⟩ := opt_check (o := one) (f := check1) one_check
  obtain ⟨c, h3, h4⟩ := one_run h1
  exact ⟨s, c, h3, h2⟩

/-- `key 2` lies strictly between `key 1` and `key 3`. -/
theorem key_lt {a b : Nat} (h : UInt8.ofNat a < UInt8.ofNat b) : KeyLt (key a) (key b) := .inl (.rel h)

end Demo

/-- C11 violated: a key of 65537 bytes passes the width check of an index for one byte values; the insert then
panics, after it has already allocated a page. -/
theorem C11_width_violated : ∃ (t : Tree) (s : PF) (c : Nat → List (RV × MemPtr)) (k : RV) (v : MemPtr),
    ForestRun [t] s c ∧ t.cfg.width ≠ 0 ∧ k.value.length + 1 ≠ t.cfg.width.toNat ∧ (t.insert k v s).1 = .panic ∧
      (t.insert k v s).2.file.bytes ≠ s.file.bytes := by
  obtain ⟨s, c, h1, h2⟩ := Demo.exists_one
  refine ⟨Demo.narrow, s, c, Demo.long, ⟨9, 9⟩, h1, by decide, ?_, ?_⟩
  · show (List.replicate 65537 (0 : UInt8)).length + 1 ≠ _
    rw [List.length_replicate]; decide
  · unfold Demo.check1 at h2
    generalize hr : Demo.narrow.insert Demo.long ⟨9, 9⟩ s = r at h2
    obtain ⟨r, s1⟩ := r
    cases r with
    | ok u => cases h2
    | err e => cases h2
    | panic =>
      refine ⟨rfl, fun hc => ?_⟩
      simp only at h2 hc
      rw [hc] at h2
      have := eq_of_beq h2
      omega

theorem Demo.check3_parts {s : PF} (h : Demo.check3 s = true) :
    (Demo.tree.find (Demo.key 2) s).1 = .ok (minKey, ⟨0, 0⟩) ∧
    (Demo.tree.contains ⟨⟨0, 0⟩, (Demo.key 3).value⟩ s).1 = .ok false ∧
    (drive Demo.tree [true, true, true, true, false, false, false, false, false] (iter (Demo.key 1)) s).map
      (fun o => match o with | some x => x.2.offset.toNat | none => 0) = [101, 103, 105, 0, 105, 103, 105, 103, 101] := by
  unfold Demo.check3 at h
  rw [Bool.and_eq_true, Bool.and_eq_true] at h
  exact ⟨eq_of_beq h.1.1, eq_of_beq h.1.2, eq_of_beq h.2⟩

/-- C13 violated: with three stored keys on two leaves, `Find` of a key between the leaves reports nothing although
a greater key is stored. -/
theorem C13_find_violated : ∃ (t : Tree) (s : PF) (c : Nat → List (RV × MemPtr)) (k : RV) (e : RV × MemPtr),
    ForestRun [t] s c ∧ e ∈ c 0 ∧ KeyLt k e.1 ∧ (t.find k s).1 = .ok (minKey, ⟨0, 0⟩) := by
  obtain ⟨s, c, h1, h2, h3⟩ := Demo.exists_three
  exact ⟨Demo.tree, s, c, Demo.key 2, Demo.ent 3, h1, by rw [h2]; simp, Demo.key_lt (by decide), (Demo.check3_parts h3).1⟩

/-- C14 violated: an entry with this value is stored (it is the first one of the second leaf), but `Contains` with a
zero data pointer says no. -/
theorem C14_contains_violated : ∃ (t : Tree) (s : PF) (c : Nat → List (RV × MemPtr)) (e : RV × MemPtr),
    ForestRun [t] s c ∧ e ∈ c 0 ∧ (t.contains ⟨⟨0, 0⟩, e.1.value⟩ s).1 = .ok false := by
  obtain ⟨s, c, h1, h2, h3⟩ := Demo.exists_three
  exact ⟨Demo.tree, s, c, Demo.ent 3, h1, by rw [h2]; simp, (Demo.check3_parts h3).2.1⟩

/-- C14 violated: `Contains` of the empty value is true on an empty tree, in every such state. -/
theorem C14_contains_empty_violated {t : Tree} {s : PF} {c : Nat → List (RV × MemPtr)} (hf : ForestRun [t] s c)
    (hc : c 0 = []) : ∃ s', t.contains minKey s = (.ok true, s') := by
  obtain ⟨r, s', h1, h2⟩ := C13_find_partial minKey hf (i := 0) (t := t) rfl
  rcases h2 with ⟨h, _⟩ | ⟨rfl, _⟩
  · rw [hc] at h; simp at h
  · refine ⟨s', ?_⟩
    unfold Tree.contains
    rw [Act.bind_ok h1]; rfl

example : ∃ s, ForestRun [Demo.tree] s (fun _ => []) := by
  obtain ⟨s, h, _⟩ := Option.bind_eq_some_iff.1 (Demo.opt_check (o := Demo.three) (f := Demo.check3) Demo.three_check).choose_spec.1
  exact ⟨s, Demo.start_run rfl (by unfold WidthOK; decide) h⟩

/-- The one page theorems of C13, C14 and C15 apply to a tree with two entries. -/
theorem Demo.two_bytes : leafBytes 2017 [Demo.ent 3, Demo.ent 1] ≤ 4096 := by decide +kernel

example : ∃ s c b s', ForestRun [Demo.tree] s c ∧ Demo.tree.contains ⟨⟨0, 0⟩, (Demo.key 3).value⟩ s = (.ok b, s') ∧ b = true := by
  obtain ⟨s, c, h1, h2, h3⟩ := Demo.exists_two
  obtain ⟨b, s', h4, h5⟩ := C14_contains_one_page_partial (i := 0) (t := Demo.tree) (Demo.key 3).value h1 rfl
    (by rw [h2]; exact Demo.two_bytes) (fun h => absurd ((List.replicate_eq_nil_iff _).1 h) (by decide))
  exact ⟨s, c, b, s', h1, h4, h5.2 ⟨Demo.ent 3, by rw [h2]; simp, rfl⟩⟩

/-- C17 violated: an iterator over three entries (`ptr n` has offset `100 + n`) runs off the end with `Next`; driven
with `Prev` it then shows 5, 3, 5, 3, 1 instead of 5, 3, 1. -/
theorem C17_direction_violated : ∃ (t : Tree) (s : PF) (c : Nat → List (RV × MemPtr)) (k : RV),
    ForestRun [t] s c ∧ (c 0).map (fun e => e.2.offset.toNat) = [105, 103, 101] ∧
    (drive t [true, true, true, true, false, false, false, false, false] (iter k) s).map
      (fun o => match o with | some x => x.2.offset.toNat | none => 0) = [101, 103, 105, 0, 105, 103, 105, 103, 101] := by
  obtain ⟨s, c, h1, h2, h3⟩ := Demo.exists_three
  exact ⟨Demo.tree, s, c, Demo.key 1, h1, by rw [h2]; rfl, (Demo.check3_parts h3).2.2⟩

/-- C38 violated: the process dies after two of the page writes of an `Insert` that splits a leaf; after reopening,
`Find` does not find a key that was stored before. -/
theorem C38_crash_violated : ∃ (t : Tree) (s s1 s2 : PF) (c : Nat → List (RV × MemPtr)) (k : RV) (v : MemPtr) (e : RV × MemPtr)
    (f f' : File), ForestRun [t] s c ∧ KeyOK t.cfg k ∧ e ∈ c 0 ∧ t.insert k v (crashAfter 2 s) = (.err .io, s1) ∧
      f.bytes = s1.file.bytes ∧ f.budget = none ∧ PF.openFile f = (.ok s2, f') ∧
      (t.find e.1 s2).1 = .ok (minKey, ⟨0, 0⟩) := by
  obtain ⟨s, c, h1, h2, h3⟩ := Demo.exists_two
  unfold Demo.check2 at h3
  generalize hr : Demo.tree.insert (Demo.key 5) (Demo.ptr 5) (crashAfter 2 s) = r at h3
  obtain ⟨r, s1⟩ := r
  cases r with
  | ok u => cases h3
  | panic => cases h3
  | err e =>
    cases e with
    | eof => cases h3
    | msg m => cases h3
    | io =>
      simp only at h3
      generalize ho : PF.openFile { s1.file with budget := none } = o at h3
      obtain ⟨o, f'⟩ := o
      cases o with
      | err e => cases h3
      | panic => cases h3
      | ok s2 =>
        exact ⟨Demo.tree, s, s1, s2, c, Demo.key 5, Demo.ptr 5, Demo.ent 3, { s1.file with budget := none }, f', h1,
          Demo.keyOK 5, by rw [h2]; simp, hr, rfl, rfl, ho, eq_of_beq h3⟩

/-! The hypotheses of the general theorems are met by the state with two leaves. -/

example : ∃ (ts : List Tree) (s : PF) (c : Nat → List (RV × MemPtr)) (t : Tree), ForestRun ts s c ∧ ts[0]? = some t ∧
    (c 0).length = 3 := by
  obtain ⟨s, c, h1, h2, _⟩ := Demo.exists_three
  exact ⟨_, s, c, _, h1, rfl, by rw [h2]; rfl⟩

example : ∃ s c xs, ForestRun [Demo.tree] s c ∧ NextRun Demo.tree (iter (Demo.key 3)) s xs ∧ Demo.ent 5 ∈ xs := by
  obtain ⟨s, c, h1, h2, _⟩ := Demo.exists_three
  obtain ⟨xs, h3, _, h4⟩ := C15_forward h1 (i := 0) (t := Demo.tree) (k := Demo.key 3) rfl ⟨Demo.ent 3, by rw [h2]; simp, rfl⟩
  exact ⟨s, c, xs, h1, h3, (h4 _).2 ⟨by rw [h2]; simp, (Demo.key_lt (by decide : UInt8.ofNat 3 < UInt8.ofNat 5)).asymm⟩⟩

example : positions 3 0 [true, true, false, false] = some [1, 2, 1, 0] := by decide

end Appendable
