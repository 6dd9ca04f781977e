import Verif.Lemmas.Torn
import Verif.Props.Index
import Verif.Lemmas.Alike
/-! C94: a crash while a field's index is created.  C31 in general: field names that are too long. -/
namespace Appendable.Spec
open Appendable

/-- On an index file with these bytes no further field can be indexed: for every name and type that is not among the indexes
`is`, `FindOrCreateIndex` fails; the names of the fields cannot be listed; and both leave the bytes as they are.  This holds
for every way the file is opened. -/
def NoNewFields (bytes : Bytes) (is : List (LP × IndexMeta)) (i : IndexFile) : Prop :=
  ∀ s : PF, s.file.bytes = bytes →
    (∀ (name : Bytes) (ty : UInt8), (∀ x ∈ is, ¬ (x.2.fieldName = name ∧ x.2.fieldType = ty)) →
      (i.findOrCreate name ty s).1 = .err (.msg "invalid metadata size") ∧ (i.findOrCreate name ty s).2.file.bytes = bytes) ∧
    (i.indexFieldNames s).1 = .err (.msg "invalid metadata size") ∧ (i.indexFieldNames s).2.file.bytes = bytes

end Appendable.Spec

namespace Appendable
open Spec Tree

variable {data : Bytes} {parse : Bytes → Bytes} {wd : UInt16 → UInt16} {i : IndexFile} {s : PF} {fm : FileMeta}
  {is : List (LP × IndexMeta)} {c : Nat → List (RV × MemPtr)}

theorem Torn.noNew (h : Torn s fm is) (hi : i.tree = fileSlot) : NoNewFields s.file.bytes is i := by
  obtain ⟨x, h1, h2⟩ := h.from
  intro s2 hs2
  have hfu : LP.listFuel s2 = LP.listFuel s := by unfold LP.listFuel; rw [hs2]
  refine ⟨fun name ty hno => ?_, ?_⟩
  · have : i.findOrCreate name ty s2 = IndexFile.findFrom name ty (LP.listFuel s) fileSlot s2 := by
      unfold IndexFile.findOrCreate; rw [hfu, hi]
    rw [this]
    rcases h1.find name ty hs2 (LP.listFuel s) (by simpa using h2) with ⟨k, n, m, q, _, e2, e3, e4, _⟩ | ⟨_, q, e⟩
    · obtain ⟨y, hy, rfl⟩ := List.mem_map.1 (List.mem_of_getElem? e2)
      exact absurd ⟨e3, e4⟩ (hno y hy)
    · rw [e]; exact ⟨rfl, rfl⟩
  · obtain ⟨q, hq⟩ := h1.names hs2 (LP.listFuel s) (by simpa using h2) []
    unfold IndexFile.indexFieldNames
    rw [hfu, hi, hq]
    exact ⟨rfl, rfl⟩

/-- The indexes that were there before are still found. -/
theorem Torn.finds (h : Torn s fm is) (hi : i.tree = fileSlot) (hnd : (is.map (fun x => (x.2.fieldName, x.2.fieldType))).Nodup) {x : LP × IndexMeta} (hx : x ∈ is) :
    (i.findOrCreate x.2.fieldName x.2.fieldType s).1 = .ok x ∧ (i.findOrCreate x.2.fieldName x.2.fieldType s).2.file.bytes = s.file.bytes := by
  obtain ⟨y, h1, h2⟩ := h.from
  have : i.findOrCreate x.2.fieldName x.2.fieldType s = IndexFile.findFrom x.2.fieldName x.2.fieldType (LP.listFuel s) fileSlot s := by
    unfold IndexFile.findOrCreate; rw [hi]
  rw [this]
  rcases h1.find x.2.fieldName x.2.fieldType rfl (LP.listFuel s) (by simpa using h2) with ⟨k, n, m, q, e1, e2, e3, e4, e⟩ | ⟨h3, _⟩
  · rw [List.getElem?_map] at e1 e2
    obtain ⟨z, hz, rfl⟩ := Option.map_eq_some_iff.1 e1
    rw [hz] at e2
    simp only [Option.map_some, Option.some.injEq] at e2
    subst e2
    have hzx : z = x := by
      obtain ⟨j, hj⟩ := List.getElem?_of_mem hx
      have hk' : (is.map (fun x => (x.2.fieldName, x.2.fieldType)))[k]? = some (x.2.fieldName, x.2.fieldType) := by
        rw [List.getElem?_map, hz]; simp [e3, e4]
      have hj' : (is.map (fun x => (x.2.fieldName, x.2.fieldType)))[j]? = some (x.2.fieldName, x.2.fieldType) := by
        rw [List.getElem?_map, hj]; rfl
      have hkj : k = j := by
        obtain ⟨a1, a2⟩ := List.getElem?_eq_some_iff.1 hk'
        obtain ⟨b1, b2⟩ := List.getElem?_eq_some_iff.1 hj'
        exact (List.getElem_inj (h₀ := a1) (h₁ := b1) hnd).1 (a2.trans b2.symm)
      rw [hkj, hj] at hz
      exact (Option.some.inj hz).symm
    subst hzx
    rw [e]
    exact ⟨rfl, rfl⟩
  · exact absurd ⟨rfl, rfl⟩ (h3 x.2 (List.mem_map.2 ⟨x, hx, rfl⟩))

/-- `AddNext` after the last slot leaves a slot without metadata. -/
theorem IndexSt.addTorn {w : IndexMeta → UInt16} (h : IndexIs data parse w s fm is c) {l : LP} (hl : (fileSlot :: is.map (·.1)).getLast? = some l) :
    (∃ x s1, l.addNext s = (.ok x, s1) ∧ x.index ≠ 255 ∧ Torn s1 fm is) ∨ (∃ s1, l.addNext s = (.err .io, s1) ∧ 2 ^ 63 ≤ s.file.bytes.length + pageSize) := by
  obtain ⟨⟨free, ps, cnt, E, P, h1, h2⟩, h3, _⟩ := h
  obtain ⟨tl, htl, _, hc1⟩ := h1.first
  have hlast : (headAt pageSize :: (places ps cnt).map slotAt).getLast? = some l := by
    rw [← h2] at hl
    rw [htl] at hl ⊢
    simp only [List.tail_cons] at hl
    rw [List.map_cons, List.getLast?_cons_cons]
    exact hl
  obtain ⟨g1, g2⟩ := last_handle h1.slots hlast
  rcases addNext_last h1.slots g1 g2 with ⟨x, s1, free', ps', cnt', e1, e2⟩ | ⟨s1, e1, e2⟩
  · refine .inl ⟨slotAt x, s1, e1, ?_, free', ps', cnt', slotAt x, ?_, ?_, h3⟩
    · have hx : x ∈ places ps' cnt' := by rw [e2.places]; simp
      obtain ⟨_, hx2, _⟩ := places_mem (p := x.1) (i := x.2) hx e2.slots.inv.cle
      unfold slotAt
      intro hc
      have := congrArg UInt8.toNat hc
      simp only [UInt8.toNat_ofNat'] at this
      rw [Nat.mod_eq_of_lt (by omega)] at this
      change x.2 = 255 at this
      omega
    · have := e2.slots
      rw [List.map_map] at this
      exact this
    · rw [e2.places, htl, List.cons_append, List.tail_cons, List.map_append, ← h2, htl]; rfl
  · exact .inr ⟨s1, e1, e2⟩

/-- How the creation of an index goes, for every write budget. -/
theorem IndexSt.createPath {w : IndexMeta → UInt16} (h : IndexIs data parse w s fm is c) (hi : i.tree = fileSlot) {name : Bytes} {ty : UInt8}
    (hno : ∀ x ∈ is, ¬ (x.2.fieldName = name ∧ x.2.fieldType = ty)) :
    ∃ l q, (fileSlot :: is.map (·.1)).getLast? = some l ∧
      ∀ b, i.findOrCreate name ty (withBudget b s) = IndexFile.createIndex l name ty (withBudget b (s.upd s.file.bytes q)) := by
  obtain ⟨⟨free, ps, cnt, E, P, h1, h2⟩, h3, _⟩ := h
  obtain ⟨tl, htl, hlk, hc1⟩ := h1.first
  have htl' : (places ps cnt).tail = tl := by rw [htl]; rfl
  have hsm : ∀ m ∈ is.map (·.2), m.fieldName.length ≤ 236 := by
    intro m hm
    obtain ⟨x, hx, rfl⟩ := List.mem_map.1 hm
    exact h3 x hx
  have hma := h1.metasAt hsm
  have hfu := h1.fuel
  rw [h2] at hma hfu
  rw [htl'] at h2
  rw [h2] at hlk
  obtain ⟨l, q, e1, e2⟩ := findFrom_create name ty rfl hlk hma (LP.listFuel s) hfu (fun m hm => by
    obtain ⟨x, hx, rfl⟩ := List.mem_map.1 hm
    exact hno x hx)
  refine ⟨l, q, e1, fun b => ?_⟩
  rw [← e2 b]
  unfold IndexFile.findOrCreate
  rw [hi]
  rfl

/-- Without a write no metadata can be set. -/
theorem lpSetMetadata_stopped (m : LP) (d : Bytes) {t : PF} (ht : t.file.budget = some 0) : (m.setMetadata d t).1 ≠ .ok () := by
  intro hc
  have e2 : m.setMetadata d t = (.ok (), (m.setMetadata d t).2) := Prod.ext hc rfl
  unfold LP.setMetadata LP.seekU64 at e2
  split at e2
  · cases e2
  · split at e2
    · cases e2
    · obtain ⟨_, t2, e3, e4⟩ := Act.bind_okE e2
      have ht2 : t2.file.budget = some 0 := by
        have := ((Writes.seek (int64OfU64 (m.rootPos + 8 + 4).toNat)).stop t ht).2
        rw [e3] at this; exact this
      obtain ⟨_, t3, e5, _⟩ := Act.bind_okE e4
      unfold PF.write at e5
      obtain ⟨p, t4, e6, e7⟩ := Act.bind_okE e5
      have ht4 : t4.file.budget = some 0 := by
        have := ((Writes.calm (Calm.seekCur 0)).stop t2 ht2).2
        rw [e6] at this; exact this
      split at e7
      · cases e7
      · unfold PF.onFile File.write at e7
        simp only [ht4, if_true] at e7
        cases e7

/-- The crash point between the new slot and its metadata. -/
theorem torn_point {w : IndexMeta → UInt16} (h1 : IndexIs data parse w s fm is c) (hi : i.tree = fileSlot) {name : Bytes} {ty : UInt8}
    (hno : ∀ x ∈ is, ¬ (x.2.fieldName = name ∧ x.2.fieldType = ty)) {r : LP × IndexMeta} {s' : PF} (hok : i.findOrCreate name ty s = (.ok r, s')) :
    ∃ n t, (∀ x, (i.findOrCreate name ty (crashAfter n s)).1 ≠ .ok x) ∧ Torn t fm is ∧
      (i.findOrCreate name ty (crashAfter n s)).2.file.bytes = t.file.bytes := by
  have hbud := h1.budget
  obtain ⟨l, q, e1, e2⟩ := h1.createPath hi hno
  rcases (h1.upd q).addTorn e1 with ⟨x, s1, a1, _, a2⟩ | ⟨s1, a1, _⟩
  · obtain ⟨_, n, hn⟩ := (Writes.addNext l).run (s.upd s.file.bytes q) hbud (by rw [a1]; simp)
    have hn0 := hn 0
    rw [Nat.add_zero, a1] at hn0
    have hrun : i.findOrCreate name ty (crashAfter n s) = (do
        let buf ← Act.lift (IndexMeta.marshal ⟨name, ty, determineTypeByte ty, 0⟩)
        x.setMetadata buf
        return (x, ⟨name, ty, determineTypeByte ty, 0⟩) : Act PF _) (withBudget (some 0) s1) := by
      have := e2 (some n)
      rw [show withBudget (some n) s = crashAfter n s from rfl] at this
      rw [this]
      unfold IndexFile.createIndex
      rw [Act.bind_ok hn0]
    rw [IndexMeta.marshal_eq] at hrun
    have hrun2 : i.findOrCreate name ty (crashAfter n s) = (do
        x.setMetadata (IndexMeta.bytes ⟨name, ty, determineTypeByte ty, 0⟩)
        return (x, ⟨name, ty, determineTypeByte ty, 0⟩) : Act PF _) (withBudget (some 0) s1) := hrun
    refine ⟨n, s1, ?_, a2, ?_⟩
    · intro y hc
      rw [hrun2] at hc
      obtain ⟨_, _, f1, _⟩ := Act.bind_okE (Prod.ext hc rfl : _ = (Res.ok y, _))
      exact lpSetMetadata_stopped x _ (t := withBudget (some 0) s1) rfl (by rw [f1])
    · rw [hrun2]
      exact ((Writes.bind (Writes.lpSetMetadata x _) (fun _ => Writes.pure _)).stop (withBudget (some 0) s1) rfl).1
  · have := e2 none
    rw [show withBudget none s = s by unfold withBudget; rw [← hbud]] at this
    rw [this, show withBudget none (s.upd s.file.bytes q) = s.upd s.file.bytes q by unfold withBudget; rw [show (none : Option Nat) = (s.upd s.file.bytes q).file.budget from hbud.symm]] at hok
    unfold IndexFile.createIndex at hok
    rw [Act.bind_err a1] at hok
    cases hok

/-- C94 is violated, for fields: whenever `FindOrCreateIndex` creates an index, there is a moment such that, if the process
dies there, the file can still be opened, but no field that was not there before can be indexed any more: each call of
`FindOrCreateIndex` for a new field fails, `IndexFieldNames` fails, and neither changes a byte, so that this is so forever. -/
theorem C94_field_violated (hw : SmallWidths wd) (hr : IndexRun parse wd data i s fm is c) (hv : fm.version = 1) {name : Bytes} {ty : UInt8}
    (hno : ∀ x ∈ is, ¬ (x.2.fieldName = name ∧ x.2.fieldType = ty)) {r : LP × IndexMeta} {s' : PF} (hok : i.findOrCreate name ty s = (.ok r, s')) :
    ∃ n, (∀ x, (i.findOrCreate name ty (crashAfter n s)).1 ≠ .ok x) ∧
      ∀ file hs, file.bytes = (i.findOrCreate name ty (crashAfter n s)).2.file.bytes → file.budget = none →
        ∃ i1 s1 file', IndexFile.openIndex fm.format hs file = (.ok (i1, s1), file') ∧ s1.file.bytes = file.bytes ∧
          NoNewFields file.bytes is i1 ∧ ∀ x ∈ is, (i1.findOrCreate x.2.fieldName x.2.fieldType s1).1 = .ok x := by
  obtain ⟨h1, hi⟩ := indexRun_is hw hr
  obtain ⟨n, t, g1, g2, g3⟩ := torn_point h1 hi hno hok
  refine ⟨n, g1, fun file hs hfb hfu => ?_⟩
  obtain ⟨s2, o1, o2, o3⟩ := g2.reopen (hfb.trans g3) hfu hv hs
  refine ⟨_, _, _, o1, o3, ?_, fun x hx => (o2.finds rfl h1.2.2 hx).1⟩
  have := o2.noNew (i := ⟨fileSlot, hs⟩) rfl
  rw [o3] at this
  exact this

/-- C31 is violated for every index file and every field name of 249 bytes or more: `FindOrCreateIndex` fails, and from then on
no other new field can be indexed either, not even after closing and opening the file again.  (The only other outcome is an
I/O error when the file has reached the size limit.) -/
theorem C31_every_long_name_violated (hw : SmallWidths wd) (hr : IndexRun parse wd data i s fm is c) (hv : fm.version = 1) {name : Bytes}
    (hn : 249 ≤ name.length) (ty : UInt8) (hsz : s.file.bytes.length + pageSize < 2 ^ 63) :
    ∃ s1, i.findOrCreate name ty s = (.err (.msg "metadata too large"), s1) ∧ NoNewFields s1.file.bytes is i ∧
      ∀ file hs, file.bytes = s1.file.bytes → file.budget = none →
        ∃ i2 s2 file', IndexFile.openIndex fm.format hs file = (.ok (i2, s2), file') ∧ NoNewFields s1.file.bytes is i2 := by
  obtain ⟨h1, hi⟩ := indexRun_is hw hr
  have hbud := h1.budget
  have hno : ∀ x ∈ is, ¬ (x.2.fieldName = name ∧ x.2.fieldType = ty) := by
    rintro x hx ⟨rfl, _⟩
    have := h1.2.1 x hx
    omega
  obtain ⟨l, q, e1, e2⟩ := h1.createPath hi hno
  rcases (h1.upd q).addTorn e1 with ⟨x, s1, a1, hx255, a2⟩ | ⟨s1, _, a2⟩
  · refine ⟨s1, ?_, a2.noNew hi, fun file hs hfb hfu => ?_⟩
    · have := e2 none
      rw [show withBudget none s = s by unfold withBudget; rw [← hbud]] at this
      rw [this, show withBudget none (s.upd s.file.bytes q) = s.upd s.file.bytes q by unfold withBudget; rw [show (none : Option Nat) = (s.upd s.file.bytes q).file.budget from hbud.symm]]
      unfold IndexFile.createIndex
      rw [Act.bind_ok a1]
      rw [Act.bind_ok (a := IndexMeta.bytes ⟨name, ty, determineTypeByte ty, 0⟩) (s' := s1) (by rw [IndexMeta.marshal_eq]; rfl)]
      refine Act.bind_err ?_
      unfold LP.setMetadata
      rw [if_neg hx255, if_pos]
      · rfl
      · right
        rw [IndexMeta.bytes_length]
        have : 1 ≤ (putUvarint (0 : UInt64)).length := by decide
        simp only
        omega
    · obtain ⟨s2, o1, o2, o3⟩ := a2.reopen hfb hfu hv hs
      refine ⟨_, _, _, o1, ?_⟩
      have := o2.noNew (i := ⟨fileSlot, hs⟩) rfl
      rw [o3, hfb] at this
      exact this
  · exact absurd a2 (by simp only [upd_bytes]; omega)

end Appendable
