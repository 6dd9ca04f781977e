import Verif.Lemmas.IndexApi
import Verif.Lemmas.Writes
import Verif.Props.Crash
/-! An index file whose last slot has been added but has no metadata yet. -/
namespace Appendable
open Spec Tree

theorem Blind.count (m : LP) : Blind m.count := by
  unfold LP.count
  exact Blind.bind (Blind.seek _) (fun _ => Blind.bind (Blind.readFull _) (fun _ => Blind.pure _))

theorem Blind.next (m : LP) : Blind m.next := by
  unfold LP.next
  refine Blind.bind (Blind.count m) (fun c => ?_)
  split
  · exact Blind.pure _
  · unfold LP.nextPageOffset
    refine Blind.bind (Blind.bind (Blind.seek _) (fun _ => Blind.bind (Blind.readFull _) (fun _ => Blind.pure _))) (fun x => ?_)
    split
    · exact Blind.throw _
    · exact Blind.pure _

theorem Blind.metadata (m : LP) : Blind m.metadata := by
  unfold LP.metadata
  split
  · exact Blind.throw _
  · refine Blind.bind (Blind.seek _) (fun _ => Blind.bind (Blind.read _) (fun x => ?_))
    split
    split
    · exact Blind.throw _
    · simp only
      split
      · exact Blind.crash
      · split
        · exact Blind.crash
        · exact Blind.pure _

/-- Where a new index is created, the search for it runs alike for every write budget. -/
theorem findFrom_create {B : Bytes} (name : Bytes) (ty : UInt8) {s : PF} (hs : s.file.bytes = B) {mp : LP} {ns : List LP} {ms : List IndexMeta}
    (h : LinkedFrom B mp ns) (hm : MetasAt B ns ms) (fuel : Nat) (hf : ns.length < fuel) (hno : ∀ m ∈ ms, ¬ (m.fieldName = name ∧ m.fieldType = ty)) :
    ∃ l q, (mp :: ns).getLast? = some l ∧
      ∀ b, IndexFile.findFrom name ty fuel mp (withBudget b s) = IndexFile.createIndex l name ty (withBudget b (s.upd B q)) := by
  induction ns generalizing mp s fuel ms with
  | nil =>
    obtain ⟨fuel, rfl⟩ : ∃ k, fuel = k + 1 := ⟨fuel - 1, by omega⟩
    obtain ⟨q, hq⟩ := h s hs
    refine ⟨mp, q, rfl, fun b => ?_⟩
    have hb := Blind.next mp b s
    rw [hq] at hb
    unfold IndexFile.findFrom
    rw [show withBudget b s = setB b s from rfl, hb]
    rfl
  | cons n ns ih =>
    obtain ⟨fuel, rfl⟩ : ∃ k, fuel = k + 1 := ⟨fuel - 1, by omega⟩
    obtain ⟨q, hq⟩ := (h.1 s hs).1
    cases ms with
    | nil => have := hm.1; simp at this
    | cons m ms =>
      obtain ⟨hn, hmd⟩ := hm.2 0 n m rfl rfl
      obtain ⟨q2, hq2⟩ := hmd (s.upd B q) rfl
      rw [upd_upd] at hq2
      obtain ⟨l, q3, e1, e2⟩ := ih (s := s.upd B q2) rfl h.2 hm.tail fuel (by simp at hf; omega) (fun m' hm' => hno m' (by simp [hm']))
      refine ⟨l, q3, by rw [List.getLast?_cons_cons]; exact e1, fun b => ?_⟩
      rw [show s.upd B q3 = (s.upd B q2).upd B q3 from rfl, ← e2 b]
      have hb := Blind.next mp b s
      rw [hq] at hb
      have hb2 := Blind.metadata n b (s.upd B q)
      rw [hq2] at hb2
      rw [IndexFile.findFrom, show withBudget b s = setB b s from rfl]
      simp only [hb]
      rw [Act.bind_ok hb2]
      have := IndexMeta.unmarshal_bytes m (by omega) []
      rw [List.append_nil] at this
      rw [Act.bind_ok (a := m) (s' := setB b (s.upd B q2)) (by rw [this]; rfl), if_neg (hno m (by simp))]
      rfl

/-- The index file holds the file metadata `fm`, the indexes `is` and after them a slot without metadata. -/
def Torn (s : PF) (fm : FileMeta) (is : List (LP × IndexMeta)) : Prop :=
  ∃ free ps cnt x, SlotsIn s free ps cnt (fm.bytes :: (is.map (·.2.bytes) ++ [[]])) ∧
    (places ps cnt).tail.map slotAt = is.map (·.1) ++ [x] ∧ ∀ i ∈ is, i.2.fieldName.length ≤ 236

theorem MetaInv.firstSlot {B ps cnt ds} {d : Bytes} (h : MetaInv B ps cnt (d :: ds)) :
    ∃ tl, places ps cnt = (pageSize, 0) :: tl ∧ LinkedFrom B fileSlot (tl.map slotAt) ∧ 1 ≤ cnt := by
  obtain ⟨r, hr⟩ := h.first
  have hlen := h.len
  have hc1 : 1 ≤ cnt := by
    by_cases hps : 1 < ps.length
    · exact h.cpos hps
    · have : r = [] := by
        rw [hr] at hps; simp at hps; exact hps
      subst this
      rw [hr] at hlen
      simp [places] at hlen
      omega
  have hch := h.chain
  have hpg := h.pages
  rw [hr] at hch hpg
  obtain ⟨rest, e1, e2⟩ := chain_linked hch hpg h.cle hc1
  have hfs : slotAt (pageSize, 0) = fileSlot := rfl
  rw [← hr] at e1
  have hp0 : ∃ tl, places ps cnt = (pageSize, 0) :: tl := by
    rw [hr]
    cases r with
    | nil =>
      obtain ⟨k, rfl⟩ : ∃ k, cnt = k + 1 := ⟨cnt - 1, by omega⟩
      simp only [places]
      rw [List.range'_succ]
      exact ⟨_, rfl⟩
    | cons a b => exact ⟨_, rfl⟩
  obtain ⟨tl, htl⟩ := hp0
  refine ⟨tl, htl, ?_, hc1⟩
  rw [htl] at e1
  simp only [List.map_cons, List.cons.injEq] at e1
  rw [e1.2, ← hfs]
  exact e2

/-- The walk over the slots of a torn file. -/
structure TornFrom (B : Bytes) (mp : LP) (ns : List LP) (x : LP) (ms : List IndexMeta) : Prop where
  link : LinkedFrom B mp (ns ++ [x])
  metas : MetasAt B ns ms
  last : ∀ s : PF, s.file.bytes = B → ∃ q, x.metadata s = (.ok [], s.upd B q)

theorem Torn.from {s : PF} {fm is} (h : Torn s fm is) : ∃ x, TornFrom s.file.bytes fileSlot (is.map (·.1)) x (is.map (·.2)) ∧ is.length + 1 < LP.listFuel s := by
  obtain ⟨free, ps, cnt, x, h1, h2, h3⟩ := h
  obtain ⟨tl, htl, hlk, hc⟩ := h1.inv.firstSlot
  have htl' : (places ps cnt).tail = tl := by rw [htl]; rfl
  rw [htl'] at h2
  have hlt : tl.length = is.length + 1 := by
    have := congrArg List.length h2
    simpa using this
  refine ⟨x, ⟨by rw [← h2]; exact hlk, ⟨by simp, ?_⟩, ?_⟩, ?_⟩
  · intro k n m hn hm
    rw [List.getElem?_map] at hn hm
    obtain ⟨i, hi, rfl⟩ := Option.map_eq_some_iff.1 hn
    rw [hi] at hm
    simp only [Option.map_some, Option.some.injEq] at hm
    subst hm
    have hk : k < is.length := (List.getElem?_eq_some_iff.1 hi).1
    refine ⟨h3 i (List.mem_of_getElem? hi), fun s' hs' => ?_⟩
    have hx : (tl.map slotAt)[k]? = some i.1 := by rw [h2, List.getElem?_append_left (by simpa using hk)]; simp [hi]
    rw [List.getElem?_map] at hx
    obtain ⟨y, hy, he⟩ := Option.map_eq_some_iff.1 hx
    rw [← he]
    refine h1.inv.metadata (k := k + 1) (x := y) (d := i.2.bytes) (by rw [htl]; simpa using hy) ?_ hs'
    rw [List.getElem?_cons_succ, List.getElem?_append_left (by simpa using hk)]; simp [hi]
  · intro s' hs'
    have hx : (tl.map slotAt)[is.length]? = some x := by rw [h2, List.getElem?_append_right (by simp)]; simp
    rw [List.getElem?_map] at hx
    obtain ⟨y, hy, he⟩ := Option.map_eq_some_iff.1 hx
    rw [← he]
    refine h1.inv.metadata (k := is.length + 1) (x := y) (d := []) (by rw [htl]; simpa using hy) ?_ hs'
    rw [List.getElem?_cons_succ, List.getElem?_append_right (by simp)]; simp
  · have := places_length_le h1.inv.pages h1.inv.nodup h1.inv.cle
    rw [htl, List.length_cons] at this
    unfold LP.listFuel; omega

theorem unmarshal_nil : IndexMeta.unmarshal [] = .err (.msg "invalid metadata size") := rfl

theorem TornFrom.find {B mp ns x ms} (h : TornFrom B mp ns x ms) (name : Bytes) (ty : UInt8) {s : PF} (hs : s.file.bytes = B) (fuel : Nat)
    (hf : ns.length + 1 < fuel) :
    (∃ (k : Nat) (n : LP) (m : IndexMeta) (q : Nat), ns[k]? = some n ∧ ms[k]? = some m ∧ m.fieldName = name ∧ m.fieldType = ty ∧
      IndexFile.findFrom name ty fuel mp s = (.ok (n, m), s.upd B q)) ∨
    ((∀ m ∈ ms, ¬ (m.fieldName = name ∧ m.fieldType = ty)) ∧ ∃ q,
      IndexFile.findFrom name ty fuel mp s = (.err (.msg "invalid metadata size"), s.upd B q)) := by
  induction ns generalizing mp s fuel ms with
  | nil =>
    obtain ⟨fuel, rfl⟩ : ∃ k, fuel = k + 1 := ⟨fuel - 1, by omega⟩
    obtain ⟨q, hq⟩ := (h.link.1 s hs).1
    obtain ⟨q2, hq2⟩ := h.last (s.upd B q) rfl
    have : ms = [] := by have := h.metas.1; simpa using this.symm
    subst this
    refine .inr ⟨by simp, q2, ?_⟩
    unfold IndexFile.findFrom
    rw [hq]
    simp only
    rw [Act.bind_ok hq2, unmarshal_nil]
    rfl
  | cons n ns ih =>
    obtain ⟨fuel, rfl⟩ : ∃ k, fuel = k + 1 := ⟨fuel - 1, by omega⟩
    obtain ⟨q, hq⟩ := (h.link.1 s hs).1
    cases ms with
    | nil => have := h.metas.1; simp at this
    | cons m ms =>
      obtain ⟨hn, hmd⟩ := h.metas.2 0 n m rfl rfl
      obtain ⟨q2, hq2⟩ := readMeta hn hmd (fun m => if m.fieldName = name ∧ m.fieldType = ty then return (n, m)
        else IndexFile.findFrom name ty fuel n) (s := s.upd B q) rfl
      have hrun : IndexFile.findFrom name ty (fuel + 1) mp s =
          (if m.fieldName = name ∧ m.fieldType = ty then return (n, m) else IndexFile.findFrom name ty fuel n : Act PF _) (s.upd B q2) := by
        rw [upd_upd] at hq2
        rw [← hq2, IndexFile.findFrom]
        simp only [hq]
      by_cases hc : m.fieldName = name ∧ m.fieldType = ty
      · left
        refine ⟨0, n, m, q2, rfl, rfl, hc.1, hc.2, ?_⟩
        rw [hrun, if_pos hc]; rfl
      · rw [if_neg hc] at hrun
        rcases ih ⟨h.link.2, h.metas.tail, h.last⟩ (s := s.upd B q2) rfl fuel (by simp at hf; omega) with ⟨k, n', m', q3, e1, e2, e3, e4, e5⟩ | ⟨e1, q3, e3⟩
        · exact .inl ⟨k + 1, n', m', q3, by simpa using e1, by simpa using e2, e3, e4, by rw [hrun, e5]; rfl⟩
        · refine .inr ⟨?_, q3, by rw [hrun, e3]; rfl⟩
          intro m' hm'
          rcases List.mem_cons.1 hm' with rfl | hm'
          · exact hc
          · exact e1 m' hm'

theorem TornFrom.names {B mp ns x ms} (h : TornFrom B mp ns x ms) {s : PF} (hs : s.file.bytes = B) (fuel : Nat)
    (hf : ns.length + 1 < fuel) (names : List Bytes) :
    ∃ q, IndexFile.namesFrom fuel mp names s = (.err (.msg "invalid metadata size"), s.upd B q) := by
  induction ns generalizing mp s fuel ms names with
  | nil =>
    obtain ⟨fuel, rfl⟩ : ∃ k, fuel = k + 1 := ⟨fuel - 1, by omega⟩
    obtain ⟨q, hq⟩ := (h.link.1 s hs).1
    obtain ⟨q2, hq2⟩ := h.last (s.upd B q) rfl
    refine ⟨q2, ?_⟩
    unfold IndexFile.namesFrom
    rw [hq]
    simp only
    rw [Act.bind_ok hq2, unmarshal_nil]
    rfl
  | cons n ns ih =>
    obtain ⟨fuel, rfl⟩ : ∃ k, fuel = k + 1 := ⟨fuel - 1, by omega⟩
    obtain ⟨q, hq⟩ := (h.link.1 s hs).1
    cases ms with
    | nil => have := h.metas.1; simp at this
    | cons m ms =>
      obtain ⟨hn, hmd⟩ := h.metas.2 0 n m rfl rfl
      obtain ⟨q2, hq2⟩ := readMeta hn hmd (fun m => IndexFile.namesFrom fuel n (if m.fieldName ∈ names then names else names ++ [m.fieldName]))
        (s := s.upd B q) rfl
      obtain ⟨q3, hq3⟩ := ih ⟨h.link.2, h.metas.tail, h.last⟩ (s := s.upd B q2) rfl fuel (by simp at hf; omega)
        (if m.fieldName ∈ names then names else names ++ [m.fieldName])
      refine ⟨q3, ?_⟩
      conv => lhs; unfold IndexFile.namesFrom
      rw [hq]
      simp only
      rw [hq2]
      exact hq3

/-- `NewIndexFile` on a torn file. -/
theorem Torn.reopen {s : PF} {fm is} (h : Torn s fm is) {f : File} (hb : f.bytes = s.file.bytes) (hu : f.budget = none) (hv : fm.version = currentVersion)
    (hs : List Bytes) : ∃ s', IndexFile.openIndex fm.format hs f = (.ok (⟨fileSlot, hs⟩, s'), s'.file) ∧ Torn s' fm is ∧ s'.file.bytes = f.bytes := by
  obtain ⟨free, ps, cnt, x, h1, h2, h3⟩ := h
  obtain ⟨s1, e1, e2, e3, e4, e5, _⟩ := openFile_valid' h1.valid f hb
  have hbb : s1.file.bytes = s.file.bytes := by rw [e3, hb]
  have hbud : s1.file.budget = none := by rw [e5, hu]
  have hsl : SlotsIn s1 free ps cnt (fm.bytes :: (is.map (·.2.bytes) ++ [[]])) :=
    ⟨e2, hbud, fun p hp => by have := h1.live p hp; unfold Live at *; rw [hbb]; exact this, by rw [hbb]; exact h1.inv⟩
  obtain ⟨q1, g1⟩ := newMulti_ok hsl.inv
  obtain ⟨tl, htl, _, hc1⟩ := hsl.inv.firstSlot
  obtain ⟨r, hr⟩ := hsl.inv.first
  have hch := hsl.inv.chain
  have hpg := hsl.inv.pages
  rw [hr] at hch hpg
  have hlk := chain_linked_head hch hpg hsl.inv.cle (fun _ => hc1)
  rw [← hr, htl, List.map_cons] at hlk
  obtain ⟨⟨q2, g2⟩, _⟩ := hlk.1 (s1.upd s1.file.bytes q1) rfl
  obtain ⟨q3, g3⟩ := hsl.inv.metadata (k := 0) (x := (pageSize, 0)) (d := fm.bytes) (by rw [htl]; rfl) rfl
    (s := (s1.upd s1.file.bytes q1).upd s1.file.bytes q2) rfl
  refine ⟨s1.upd s1.file.bytes q3, ?_, ⟨free, ps, cnt, x, ⟨(Frame.upd_pos hsl.valid hsl.budget q3 []).valid, hsl.budget, hsl.live, hsl.inv⟩, h2, h3⟩, e3⟩
  unfold IndexFile.openIndex
  rw [e1]
  simp only
  unfold IndexFile.attach
  rw [Act.bind_ok g1]
  unfold IndexFile.attachAt
  rw [g2]
  simp only
  rw [Act.bind_ok g3, Act.bind_ok (fileMeta_lift fm _)]
  rw [if_neg (by rw [hv]; simp), if_neg (by simp)]
  rfl

end Appendable
