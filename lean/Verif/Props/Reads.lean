import Verif.Spec.Reads
import Verif.Lemmas.Position
/-! C105: look-ups change nothing, and nothing depends on the look-ups made before. -/
namespace Appendable
open Spec

theorem Spec.Call.posFree (c : Call) : PosFree c.run := by
  cases c with
  | find t k => exact PosFree.find t k
  | contains t k => exact PosFree.contains t k
  | next t it => exact PosFree.iterNext t it
  | prev t it => exact PosFree.iterPrev t it
  | slotRoot p => exact PosFree.lpRoot p
  | slotMetadata p => exact PosFree.lpMetadata p
  | nextSlot p => exact PosFree.next p
  | slots p => exact PosFree.collect p
  | metadata i => exact PosFree.fileMetadata i
  | indexes i => exact PosFree.next i.tree
  | isEmpty i => exact PosFree.isEmpty i
  | fieldNames i => exact PosFree.indexFieldNames i
  | findVector t k => exact PosFree.vFind t k
  | insert t k v => exact PosFree.insert t k v
  | insertVector t k v => exact PosFree.vInsert t k v
  | newPage b => exact PosFree.newPage b
  | freePage o => exact PosFree.freePage o
  | setRoot p r => exact PosFree.lpSetRoot p r
  | setMetadata p d => exact PosFree.lpSetMetadata p d
  | addNext p => exact PosFree.addNext p
  | setFileMetadata i m => exact PosFree.setFileMetadata i m
  | findOrCreate i n t => exact PosFree.findOrCreate i n t
  | syncJsonl env i data => exact PosFree.jsonlSync
  | syncCsv num i data => exact PosFree.csvSync

theorem Spec.Call.readOnly {c : Call} (h : c.looks = true) : ReadOnly c.run := by
  cases c with
  | find t k => exact ReadOnly.find t k
  | contains t k => exact ReadOnly.contains t k
  | next t it => exact ReadOnly.iterNext t it
  | prev t it => exact ReadOnly.iterPrev t it
  | slotRoot p => exact ReadOnly.lpRoot p
  | slotMetadata p => exact ReadOnly.lpMetadata p
  | nextSlot p => exact ReadOnly.next p
  | slots p => exact ReadOnly.collect p
  | metadata i => exact ReadOnly.fileMetadata i
  | indexes i => exact ReadOnly.next i.tree
  | isEmpty i => exact ReadOnly.isEmpty i
  | fieldNames i => exact ReadOnly.indexFieldNames i
  | findVector t k => exact ReadOnly.vFind t k
  | _ => simp [Call.looks] at h

theorem Spec.SameFile.posAt (s : PF) (p : Nat) : SameFile s (s.posAt p) := ⟨rfl, rfl, rfl, rfl, rfl, rfl, rfl⟩

theorem Spec.SameFile.eq {s s' : PF} (h : SameFile s s') : s' = s.posAt s'.file.pos := by
  obtain ⟨h1, h2, h3, h4, h5, h6, h7⟩ := h
  obtain ⟨⟨a, b, c, d⟩, e, f, g, i⟩ := s
  obtain ⟨⟨a', b', c', d'⟩, e', f', g', i'⟩ := s'
  simp only [PF.pageCount] at *
  subst h1 h2 h3 h4 h5 h6 h7
  rfl

/-- **C105 (look-ups).**  In every state of the file whatsoever - healthy, damaged, or with a disk that is full - a look-up,
whatever its outcome, leaves the file and the free list as they are. -/
theorem C105_lookups (c : Call) (h : c.looks = true) (s : PF) : SameFile s (c.run s).2 := by
  obtain ⟨p, h⟩ := c.readOnly h s
  rw [h]
  exact SameFile.posAt s p

/-- **C105 (position).**  What a call returns and does depends on the file only, not on where the previous call left the
position. -/
theorem C105_position (c : Call) (s s' : PF) (h : SameFile s s') :
    (c.run s').1 = (c.run s).1 ∧ SameFile (c.run s).2 (c.run s').2 := by
  rw [h.eq]
  obtain ⟨p, hp⟩ := c.posFree s s'.file.pos
  rw [hp]
  exact ⟨rfl, SameFile.posAt _ p⟩

theorem history_same (cs : List Call) (s s' : PF) (h : SameFile s s') :
    (history cs s').1 = (history cs s).1 ∧ SameFile (history cs s).2 (history cs s').2 := by
  induction cs generalizing s s' with
  | nil => exact ⟨rfl, h⟩
  | cons c cs ih =>
    obtain ⟨h1, h2⟩ := C105_position c s s' h
    obtain ⟨h3, h4⟩ := ih _ _ h2
    simp only [history]
    exact ⟨by rw [h1, h3], h4⟩

theorem Spec.SameFile.symm {s s' : PF} (h : SameFile s s') : SameFile s' s :=
  ⟨h.bytes.symm, h.kind.symm, h.budget.symm, h.ring.symm, h.head.symm, h.count.symm, h.pages.symm⟩

theorem Spec.SameFile.trans {s s' s'' : PF} (h : SameFile s s') (g : SameFile s' s'') : SameFile s s'' :=
  ⟨g.bytes.trans h.bytes, g.kind.trans h.kind, g.budget.trans h.budget, g.ring.trans h.ring, g.head.trans h.head,
    g.count.trans h.count, g.pages.trans h.pages⟩

/-- **C105 (invisible).**  In every history of calls, from every state: leaving out all the look-ups changes neither the
outcome of any other call nor the file at the end. -/
theorem C105_invisible (cs : List Call) (s : PF) :
    (history (cs.filter fun c => !c.looks) s).1 = (history cs s).1.filter (fun d => !d.1.looks) ∧
    SameFile (history (cs.filter fun c => !c.looks) s).2 (history cs s).2 := by
  induction cs generalizing s with
  | nil => exact ⟨rfl, ⟨rfl, rfl, rfl, rfl, rfl, rfl, rfl⟩⟩
  | cons c cs ih =>
    by_cases hc : c.looks = true
    · have h1 := C105_lookups c hc s
      obtain ⟨h2, h3⟩ := ih (c.run s).2
      obtain ⟨h4, h5⟩ := history_same (cs.filter fun c => !c.looks) _ _ h1
      simp only [history, List.filter_cons, hc, Bool.not_true, Bool.false_eq_true, if_false]
      exact ⟨h4.symm.trans h2, h5.trans h3⟩
    · obtain ⟨h2, h3⟩ := ih (c.run s).2
      simp only [history, List.filter_cons, hc, Bool.not_false, if_true]
      exact ⟨by rw [h2], h3⟩

/-- Repeating a look-up gives the same answer. -/
theorem C105_repeatable (c : Call) (h : c.looks = true) (s : PF) : (c.run (c.run s).2).1 = (c.run s).1 :=
  (C105_position c s _ (C105_lookups c h s)).1

/-! ### A concrete history: ask for a key, insert it, ask again -/
namespace ReadsDemo
def file : PF := ⟨⟨.buffer, List.replicate 12 0, 3, none⟩, List.replicate ringSize 0, 0, 0, 0⟩
def tree : Tree := ⟨⟨[], fun b => b, 3⟩, 0⟩
def key : RV := ⟨⟨7, 2⟩, [104, 105]⟩
def calls : List Call := [.contains tree key, .insert tree key ⟨100, 5⟩, .contains tree key, .insert tree key ⟨100, 5⟩, .find tree key]
def s1 : PF := (tree.contains key file).2
def s2 : PF := (tree.insert key ⟨100, 5⟩ s1).2
def s3 : PF := (tree.contains key s2).2
def s4 : PF := (tree.insert key ⟨100, 5⟩ s3).2
set_option maxRecDepth 100000 in
theorem runs : (tree.contains key file).1 = .ok false ∧ (tree.insert key ⟨100, 5⟩ s1).1 = .ok () ∧
    (tree.contains key s2).1 = .ok true ∧ (tree.insert key ⟨100, 5⟩ s3).1 = .err (.msg "key already exists") ∧
    (tree.find key s4).1 = .ok (key, ⟨100, 5⟩) := by
  decide +kernel

/-- The history with and without the look-ups. -/
example : (history calls file).1 = [⟨.contains tree key, .ok false⟩, ⟨.insert tree key ⟨100, 5⟩, .ok ()⟩,
      ⟨.contains tree key, .ok true⟩, ⟨.insert tree key ⟨100, 5⟩, .err (.msg "key already exists")⟩,
      ⟨.find tree key, .ok (key, ⟨100, 5⟩)⟩] ∧
    (history [.insert tree key ⟨100, 5⟩, .insert tree key ⟨100, 5⟩] file).1 =
      [⟨.insert tree key ⟨100, 5⟩, .ok ()⟩, ⟨.insert tree key ⟨100, 5⟩, .err (.msg "key already exists")⟩] := by
  obtain ⟨h1, h2, h3, h4, h5⟩ := runs
  have h : (history calls file).1 = [⟨.contains tree key, .ok false⟩, ⟨.insert tree key ⟨100, 5⟩, .ok ()⟩,
      ⟨.contains tree key, .ok true⟩, ⟨.insert tree key ⟨100, 5⟩, .err (.msg "key already exists")⟩,
      ⟨.find tree key, .ok (key, ⟨100, 5⟩)⟩] := by
    have g : ∀ (a c : Res Bool) (b d : Res Unit) (e : Res (RV × MemPtr)), a = .ok false → b = .ok () → c = .ok true →
        d = .err (.msg "key already exists") → e = .ok (key, ⟨100, 5⟩) →
        ([⟨.contains tree key, a⟩, ⟨.insert tree key ⟨100, 5⟩, b⟩, ⟨.contains tree key, c⟩, ⟨.insert tree key ⟨100, 5⟩, d⟩,
          ⟨.find tree key, e⟩] : List Outcome) = [⟨.contains tree key, .ok false⟩, ⟨.insert tree key ⟨100, 5⟩, .ok ()⟩,
      ⟨.contains tree key, .ok true⟩, ⟨.insert tree key ⟨100, 5⟩, .err (.msg "key already exists")⟩,
      ⟨.find tree key, .ok (key, ⟨100, 5⟩)⟩] := by
      intro a c b d e ha hb hc hd he
      subst ha hb hc hd he
      rfl
    exact g _ _ _ _ _ h1 h2 h3 h4 h5
  refine ⟨h, ?_⟩
  have := (C105_invisible calls file).1
  rw [h] at this
  exact this
end ReadsDemo
end Appendable
