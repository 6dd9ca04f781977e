import Verif.Props.TreeWitness
import Verif.Props.Index
/-! C31 and concrete histories of index files. -/
namespace Appendable
open Spec Tree

/-- The value of a successful call. -/
def okVal {α : Type} [Inhabited α] : Res α → α
  | .ok a => a
  | _ => default

theorem run_ok {σ α : Type} [Inhabited α] {r : Res α × σ} (h : r.1.isOk = true) : r = (.ok (okVal r.1), r.2) := by
  obtain ⟨a, s⟩ := r
  cases a with
  | ok a => rfl
  | err e => cases h
  | panic => cases h

theorem run_ok2 {σ α β : Type} [Inhabited α] [Inhabited β] {r : Res (α × β) × σ} (h : r.1.isOk = true) :
    r = (.ok ((okVal r.1).1, (okVal r.1).2), r.2) := run_ok h

theorem run_unit {σ : Type} {r : Res Unit × σ} (h : r.1.isOk = true) : r = (.ok (), r.2) := run_ok h

theorem run_err {σ α : Type} {r : Res α × σ} {e : Err} (h : r.1 = .err e) : r = (.err e, r.2) := Prod.ext h rfl

instance : Inhabited LP := ⟨⟨0, 0⟩⟩
instance : Inhabited IndexFile := ⟨⟨default, []⟩⟩
instance : Inhabited PF := ⟨⟨⟨.buffer, [], 0, none⟩, [], 0, 0, 0⟩⟩

theorem smallWidths_id : SmallWidths id := by
  intro t
  show (determineTypeByte t).toNat ≤ 2017
  unfold determineTypeByte
  repeat' split
  all_goals decide

theorem smallWidths_zero : SmallWidths (fun _ => 0) := by
  intro t; show (0 : UInt16).toNat ≤ 2017; decide

/-- An empty in-memory file. -/
def wFile : File := ⟨.buffer, [], 0, none⟩
def wOpen : Res (IndexFile × PF) × File := IndexFile.openIndex .jsonl [] wFile
def wI : IndexFile := (okVal wOpen.1).1
def wS0 : PF := (okVal wOpen.1).2
/-- the data file `"b"` with a string in it -/
def wData : Bytes := [34, 98, 34]
/-- `"b"` is parsed to `b` -/
def wParse : Bytes → Bytes := fun b => (b.drop 1).take (b.length - 2)
/-- the string field `a` -/
def wFind1 : Res (LP × IndexMeta) × PF := wI.findOrCreate [97] 0 wS0
def wP : LP := (okVal wFind1.1).1
def wM : IndexMeta := (okVal wFind1.1).2
/-- the float field `a` -/
def wFind2 : Res (LP × IndexMeta) × PF := wI.findOrCreate [97] 3 wFind1.2
def wKey : RV := ⟨⟨0, 3⟩, [98]⟩
def wIns : Res Unit × PF := (treeAt wData wParse wM.width wP).insert wKey ⟨0, 3⟩ wFind2.2

set_option maxRecDepth 100000 in
theorem wOpen_ok : wOpen.1.isOk = true := by decide +kernel
set_option maxRecDepth 100000 in
theorem wFind1_ok : wFind1.1.isOk = true := by decide +kernel
set_option maxRecDepth 100000 in
theorem wFind2_ok : wFind2.1.isOk = true := by decide +kernel
set_option maxRecDepth 100000 in
theorem wIns_ok : wIns.1.isOk = true := by decide +kernel
set_option maxRecDepth 100000 in
theorem wM_eq : wM = ⟨[97], 0, 0, 0⟩ := by decide +kernel

theorem wOpen_eq : IndexFile.openIndex .jsonl [] wFile = (.ok (wI, wS0), wOpen.2) := run_ok2 (r := wOpen) wOpen_ok
theorem wFind1_eq : wI.findOrCreate [97] 0 wS0 = (.ok (wP, wM), wFind1.2) := run_ok2 (r := wFind1) wFind1_ok
theorem wFind2_eq : wI.findOrCreate [97] 3 wFind1.2 = (.ok ((okVal wFind2.1).1, (okVal wFind2.1).2), wFind2.2) :=
  run_ok2 (r := wFind2) wFind2_ok

theorem wIns_eq : (treeAt wData wParse (id (⟨[97], 0, 0, 0⟩ : IndexMeta).width) wP).insert wKey ⟨0, 3⟩ wFind2.2 = (.ok (), wIns.2) := by
  have h : (treeAt wData wParse wM.width wP).insert wKey ⟨0, 3⟩ wFind2.2 = (.ok (), wIns.2) := run_unit (r := wIns) wIns_ok
  rw [wM_eq] at h
  exact h

theorem wRun0 (data : Bytes) : IndexRun wParse id data wI wS0 ⟨1, .jsonl, 0, 0⟩ [] (fun _ => []) :=
  .create (f := wFile) (f' := wOpen.2) (fmt := .jsonl) (hs := []) rfl rfl wOpen_eq

/-- A history with two indexes and one entry. -/
theorem wRun3 : IndexRun wParse id wData wI wIns.2 ⟨1, .jsonl, 0, 0⟩
    [(wP, ⟨[97], 0, 0, 0⟩), ((okVal wFind2.1).1, ⟨[97], 3, 9, 0⟩)] (setAt (fun _ => []) 0 [(wKey, ⟨0, 3⟩)]) := by
  have r0 := wRun0 wData
  have r1 := IndexRun.find (name := [97]) (ty := 0) r0 (by simp) wFind1_eq
  have e1 : withIndex ([] : List (LP × IndexMeta)) [97] 0 wP wM = [(wP, ⟨[97], 0, 0, 0⟩)] := by rw [wM_eq]; rfl
  have r1' : IndexRun wParse id wData wI wFind1.2 ⟨1, .jsonl, 0, 0⟩ [(wP, ⟨[97], 0, 0, 0⟩)] (fun _ => []) := e1 ▸ r1
  have r2 := IndexRun.find (name := [97]) (ty := 3) r1' (by simp) wFind2_eq
  have m2 : (okVal wFind2.1).2 = ⟨[97], 3, 9, 0⟩ := by
    set_option maxRecDepth 100000 in
    decide +kernel
  have e2 : withIndex [(wP, (⟨[97], 0, 0, 0⟩ : IndexMeta))] [97] 3 (okVal wFind2.1).1 (okVal wFind2.1).2 =
      [(wP, ⟨[97], 0, 0, 0⟩), ((okVal wFind2.1).1, ⟨[97], 3, 9, 0⟩)] := by rw [m2]; rfl
  have r2' : IndexRun wParse id wData wI wFind2.2 ⟨1, .jsonl, 0, 0⟩
      [(wP, ⟨[97], 0, 0, 0⟩), ((okVal wFind2.1).1, ⟨[97], 3, 9, 0⟩)] (fun _ => []) := e2 ▸ r2
  exact IndexRun.insert (k := 0) (p := wP) (m := ⟨[97], 0, 0, 0⟩) (key := wKey) (v := ⟨0, 3⟩) (s' := wIns.2) r2' rfl
    (by decide) wIns_eq

/-- Non-vacuity of C29, C30, C32, C62: a history with two indexes, one entry, and a setting of the file metadata. -/
theorem wRun : ∃ s, IndexRun wParse id wData wI s ⟨1, .jsonl, 4, 1⟩
    [(wP, ⟨[97], 0, 0, 0⟩), ((okVal wFind2.1).1, ⟨[97], 3, 9, 0⟩)] (setAt (fun _ => []) 0 [(wKey, ⟨0, 3⟩)]) := by
  have hi := indexRun_is (wd := id) smallWidths_id wRun3
  obtain ⟨s', h1, _⟩ := hi.1.setMetadata hi.2 ⟨1, .jsonl, 4, 1⟩
  exact ⟨s', .setMetadata wRun3 h1⟩

/-- What the history shows: e.g. the scan of the first index shows its one entry. -/
example : ∃ s, Shows wData wParse id wI s ⟨1, .jsonl, 4, 1⟩
    [(wP, ⟨[97], 0, 0, 0⟩), ((okVal wFind2.1).1, ⟨[97], 3, 9, 0⟩)] (setAt (fun _ => []) 0 [(wKey, ⟨0, 3⟩)]) := by
  obtain ⟨s, h⟩ := wRun
  exact ⟨s, (C30_state smallWidths_id h).1⟩

/-- a field name of 300 bytes -/
def wLong : Bytes := List.replicate 300 97
def wBad : Res (LP × IndexMeta) × PF := wI.findOrCreate wLong 0 wS0
def wBad8 : Res (LP × IndexMeta) × PF := wI.findOrCreate (List.replicate 248 97) 0 wS0

set_option maxRecDepth 100000 in
theorem wBad_err : wBad.1 = .err (.msg "metadata too large") := by decide +kernel
set_option maxRecDepth 100000 in
theorem wBad_find : (wI.findOrCreate [98] 0 wBad.2).1 = .err (.msg "invalid metadata size") := by decide +kernel
set_option maxRecDepth 100000 in
theorem wBad_names : (wI.indexFieldNames wBad.2).1 = .err (.msg "invalid metadata size") := by decide +kernel
set_option maxRecDepth 100000 in
theorem wBad8_ok : wBad8.1.isOk = true := by decide +kernel
set_option maxRecDepth 100000 in
theorem wBad8_find : (wI.findOrCreate [98] 0 wBad8.2).1 = .panic := by decide +kernel
theorem wBad_eq : wI.findOrCreate (List.replicate 300 97) 0 wS0 = (.err (.msg "metadata too large"), wBad.2) :=
  run_err (r := wBad) wBad_err
theorem wBad8_eq : wI.findOrCreate (List.replicate 248 97) 0 wS0 = (.ok (okVal wBad8.1), wBad8.2) := run_ok (r := wBad8) wBad8_ok

/-- C31 is violated: on a fresh index file, `FindOrCreateIndex` with a field name of 300 bytes fails (its metadata does
not fit into a slot) but leaves an empty slot behind; from then on `FindOrCreateIndex` fails for the ordinary field name
`b` as well, and `IndexFieldNames` fails. -/
theorem C31_long_name_violated : ∃ (s s1 : PF) (m m1 m2 : String), IndexRun wParse id [] wI s ⟨1, .jsonl, 0, 0⟩ [] (fun _ => []) ∧
    wI.findOrCreate (List.replicate 300 97) 0 s = (.err (.msg m), s1) ∧
    (wI.findOrCreate [98] 0 s1).1 = .err (.msg m1) ∧ (wI.indexFieldNames s1).1 = .err (.msg m2) :=
  ⟨wS0, wBad.2, _, _, _, wRun0 [], wBad_eq, wBad_find, wBad_names⟩

/-- C31 is violated, second way: a field name of 248 bytes is accepted (its metadata has 255 bytes), but from then on
every lookup of another field panics. -/
theorem C31_name_248_violated : ∃ (s s1 : PF) (r : LP × IndexMeta), IndexRun wParse id [] wI s ⟨1, .jsonl, 0, 0⟩ [] (fun _ => []) ∧
    wI.findOrCreate (List.replicate 248 97) 0 s = (.ok r, s1) ∧ (wI.findOrCreate [98] 0 s1).1 = .panic :=
  ⟨wS0, wBad8.2, _, wRun0 [], wBad8_eq, wBad8_find⟩

end Appendable
