import Verif.Lemmas.Alike
import Verif.Lemmas.JsonlRun
/-! Index files that differ at most in the file metadata, under the operations of the index file. -/
namespace Appendable
open Spec Tree

section
variable {H1 H2 : Bytes} {s1 s2 : PF}

/-! ### Slots -/

/-- A slot that is not the one of the file metadata. -/
structure OtherSlot (s : PF) (m : LP) (p i : Nat) : Prop where
  at' : AtSlot s.file.bytes m p i
  ge : pageSize ≤ p
  ne : ¬ (p = pageSize ∧ i = 0)

theorem OtherSlot.ge' {s : PF} {m : LP} {p i : Nat} (h : OtherSlot s m p i) : 4138 ≤ slotPos p i := by
  have h1 := h.at'.aligned; have h2 := h.ge; have h3 := h.ne
  unfold slotPos pageSize at *
  omega

theorem OtherSlot.spot {s : PF} {m : LP} {p i : Nat} (h : OtherSlot s m p i) {d n : Nat} (hd : d + n ≤ 272) (hd' : d ≤ 12) : Spot s (slotPos p i + d) n := by
  obtain ⟨f1, f2, f3⟩ := h.at'.fit
  have h1 := h.ge'
  refine ⟨?_, ?_, ?_, .inr (by omega)⟩
  · generalize slotPos p i = x at *
    unfold pageSize at *
    omega
  · unfold pageSize; omega
  · omega

theorem lp_setMetadata_alike (h : Alike H1 H2 s1 s2) {m : LP} {p i : Nat} (hm : OtherSlot s1 m p i) (d : Bytes) :
    RelAt H1 H2 (m.setMetadata d) (m.setMetadata d) s1 s2 := by
  unfold LP.setMetadata
  rw [if_neg hm.at'.ne255]
  split
  · exact RelAt.throw _ _
  · rename_i hd
    have hsp := hm.spot (d := 12) (n := d.length + 1) (by unfold slotSize at hd; omega) (by omega)
    have hf := hm.at'.fit
    refine write_alike h (x := slotPos p i + 12) (b := UInt8.ofNat d.length :: d) (by rw [List.length_cons]; exact hsp) ?_ (fun _ _ h' => RelAt.pure h' ())
    rw [hm.at'.mdPos, int64OfU64_small (by have := hm.at'.small; omega)]

theorem OnPage.spot {s : PF} {m : LP} {p : Nat} (hm : OnPage s.file.bytes m p) (hp : pageSize ≤ p) {d n : Nat} (hd : d + n ≤ 9) : Spot s (p + d) n := by
  have h1 := hm.inside; have h3 := hm.aligned
  refine ⟨?_, by omega, ?_, ?_⟩ <;> unfold pageSize at * <;> omega

theorem count_alike (h : Alike H1 H2 s1 s2) {m : LP} {p : Nat} (hm : OnPage s1.file.bytes m p) (hp : pageSize ≤ p) :
    RelAt H1 H2 m.count m.count s1 s2 := by
  have h1 := hm.inside; have h2 := hm.small
  unfold LP.count
  refine readFull_alike h (x := p + 8) (n := 1) (by omega) (hm.spot hp (by omega)) ?_ (fun _ _ _ h' => RelAt.pure h' _)
  rw [hm.off, int64OfU64_small (by omega)]; rfl

theorem nextPageOffset_alike (h : Alike H1 H2 s1 s2) {m : LP} {p : Nat} (hm : OnPage s1.file.bytes m p) (hp : pageSize ≤ p) :
    RelAt H1 H2 m.nextPageOffset m.nextPageOffset s1 s2 := by
  have h1 := hm.inside; have h2 := hm.small
  unfold LP.nextPageOffset
  refine readFull_alike h (x := p) (n := 8) (by omega) (hm.spot (d := 0) hp (by omega)) ?_ (fun _ _ _ h' => RelAt.pure h' _)
  rw [hm.off, int64OfU64_small (by omega)]

theorem reset_alike (h : Alike H1 H2 s1 s2) {m : LP} {p : Nat} (hm : OnPage s1.file.bytes m p) (hp : 8192 ≤ p) (c : UInt8) :
    RelAt H1 H2 (m.reset c) (m.reset c) s1 s2 := by
  have h1 := hm.inside; have h2 := hm.small; have h3 := hm.aligned
  unfold LP.reset
  have hl : (LP.emptyPage c).length = pageSize := by unfold LP.emptyPage pageSize; simp only [List.length_append, List.length_replicate, List.length_cons, List.length_nil]
  refine write_alike h (x := p) (b := LP.emptyPage c) ?_ ?_ (fun _ _ h' => RelAt.pure h' _)
  · rw [hl]; exact ⟨by rw [h3]; omega, by unfold pageSize; omega, by unfold pageSize at *; omega, .inr (by omega)⟩
  · rw [hm.off, int64OfU64_small (by omega)]

theorem addNext_alike (h : Alike H1 H2 s1 s2) {m : LP} {p : Nat} (hm : OnPage s1.file.bytes m p) (hp : pageSize ≤ p) :
    RelAt H1 H2 m.addNext m.addNext s1 s2 := by
  have h1 := hm.inside; have h2 := hm.small; have h3 := hm.aligned
  unfold LP.addNext
  refine RelAt.bind (count_alike h hm hp) (fun c t1 t2 e1 _ ha => ?_)
  have hl1 : s1.file.bytes.length ≤ t1.file.bytes.length := by
    have := (Mono.count m).le s1; rw [e1] at this; exact this
  have hm1 : OnPage t1.file.bytes m p := ⟨hm.off, h3, by omega, ha.v1.small⟩
  split
  · exact RelAt.throw _ _
  · split
    · refine write_alike ha (x := p + 8) (b := [c + 1]) (hm1.spot hp (by simp)) ?_ (fun _ _ h' => RelAt.pure h' _)
      rw [show (m.offset + 8).toNat = p + 8 by rw [UInt64.toNat_add, hm.off]; simp; omega, int64OfU64_small (by unfold pageSize at *; omega)]
    · refine RelAt.bind (nextPageOffset_alike ha hm1 hp) (fun nx t3 t4 e3 _ hb => ?_)
      have hl2 : t1.file.bytes.length ≤ t3.file.bytes.length := by
        have := (Mono.nextPageOffset m).le t1; rw [e3] at this; exact this
      split
      · exact RelAt.throw _ _
      · refine RelAt.bind (newPage_alike hb _) (fun o t5 t6 e5 _ hc => ?_)
        obtain ⟨ho, hlo⟩ := newPage_offset hb e5
        have hsm := hc.v1.small
        have h8 := hb.two
        have hou : (UInt64.ofNat (u64OfInt o)).toNat = t3.file.bytes.length := by
          rw [ho]; unfold u64OfInt
          rw [Int.emod_eq_of_lt (by omega) (by omega)]
          simp; omega
        have hn : OnPage t5.file.bytes ⟨UInt64.ofNat (u64OfInt o), 0⟩ t3.file.bytes.length :=
          ⟨hou, hb.v1.aligned, by omega, hsm⟩
        refine RelAt.bind (reset_alike hc hn h8 1) (fun _ t7 t8 e7 _ hd => ?_)
        have hl3 : t5.file.bytes.length ≤ t7.file.bytes.length := by
          have := (Mono.reset ⟨UInt64.ofNat (u64OfInt o), 0⟩ 1).le t5; rw [e7] at this; exact this
        have hm7 : OnPage t7.file.bytes m p := ⟨hm.off, h3, by omega, hd.v1.small⟩
        refine write_alike hd (x := p) ?_ ?_ (fun _ _ h' => RelAt.pure h' _)
        · rw [leBytes_length]; exact hm7.spot (d := 0) hp (by omega)
        · rw [hm.off, int64OfU64_small (by omega)]

/-! ### The index file -/

/-- The bytes `H` of the first slot are the file metadata `fm`. -/
def HeadIs (H : Bytes) (fm : FileMeta) : Prop := H.take (fm.bytes.length + 1) = UInt8.ofNat fm.bytes.length :: fm.bytes ∧ fm.bytes.length ≤ 20

theorem valid_free {s : PF} {free : List Nat} (h : s.Valid []) (h' : s.Valid free) : free = [] := by
  have a := h.ringOK.count_eq
  have b := h'.ringOK.count_eq
  rw [a] at b
  exact List.length_eq_zero_iff.1 b.symm

variable {st : Prop} {data : Bytes} {parse : Bytes → Bytes} {wd : IndexMeta → UInt16} {fm fm2 : FileMeta} {is : List (LP × IndexMeta)}
  {c : Nat → List Entry}

theorem slice_take {B : Bytes} {p n k : Nat} (h : k ≤ n) : (Appendable.slice B p n).take k = Appendable.slice B p k := by
  unfold Appendable.slice; rw [List.take_take]; congr 1; omega

theorem IdxInv.alike {ms : List IndexMeta} {free ps : List Nat} {cnt : Nat} {E : Nat → List Entry} {P : Nat → List Nat}
    (h : IdxInv st data parse wd s1 fm ms c free ps cnt E P) (ha : Alike H1 H2 s1 s2) (h2 : HeadIs H2 fm2) :
    IdxInv st data parse wd s2 fm2 ms c free ps cnt E P := by
  have hfr := valid_free ha.v1 h.slots.valid
  subst hfr
  obtain ⟨tl, htl, _, hc1⟩ := h.first
  have hi := h.slots.inv
  have hlen := ha.len
  have hlive : ∀ p, Live s1 [] p → Live s2 [] p := by intro p hp; unfold Live at *; rw [hlen]; exact hp
  have hpm : pageSize ∈ ps := by obtain ⟨r, hr⟩ := hi.first; rw [hr]; simp
  refine ⟨⟨ha.v2, ha.b2, fun p hp => hlive p (h.slots.live p hp), ?_⟩, ?_, h.out, fun hst => (h.used hst).same hlen⟩
  · refine ⟨⟨fun q hq => by rw [hlen]; exact hi.pages.page q hq, by rw [hlen]; exact hi.pages.small⟩, hi.nodup, hi.first, hi.cle, hi.cpos,
      hi.chain.of_same (fun q hq => ?_), by have := hi.len; simpa using this, ?_, ?_⟩
    · obtain ⟨q1, q2, q3⟩ := hi.pages.page q hq
      exact ha.slice (by unfold pageSize at *; omega)
    · intro k x d hx hd
      cases k with
      | zero =>
        rw [htl] at hx
        simp only [List.getElem?_cons_zero, Option.some.injEq] at hx hd
        subst hx; subst hd
        refine ⟨by have := h2.2; omega, ?_⟩
        unfold MdAt
        have := h2.1
        rw [← ha.h2, slice_take (by have := h2.2; omega)] at this
        exact this
      | succ k =>
        obtain ⟨o1, o2⟩ := hi.md (k + 1) x d hx (by simpa using hd)
        refine ⟨o1, ?_⟩
        obtain ⟨q, j⟩ := x
        obtain ⟨n1, n2, n3⟩ := places_mem (List.mem_of_getElem? hx) hi.cle
        obtain ⟨q1, q2, q3⟩ := hi.pages.page q n1
        have hne : ¬ (q = pageSize ∧ j = 0) := by
          rintro ⟨rfl, rfl⟩
          have hnd := places_nodup hi.nodup hi.cle
          rw [htl] at hnd hx
          exact (List.nodup_cons.1 hnd).1 (List.mem_of_getElem? (by simpa using hx))
        unfold MdAt at *
        rw [← o2]
        refine ha.slice (.inr ?_)
        unfold slotPos pageSize at *
        omega
    · rw [← hi.zero]
      refine ha.slice (.inr ?_)
      obtain ⟨q1, q2, q3⟩ := hi.pages.page _ (lastPg_mem hi.ne)
      unfold slotPos pageSize at *
      omega
  · refine h.forest.frame ha.v2 ha.b2 hlive (by omega) ?_ ?_
    · intro i t ht p hp
      obtain ⟨y, m', hy, hm', _⟩ := idxTrees_getElem? ht
      have hi' : i < ms.length := (List.getElem?_eq_some_iff.1 hm').1
      obtain ⟨l1, l2, _⟩ := ((h.forest.tree i t ht).1).live p hp
      have := h.out i hi' p hp
      have hne : p ≠ pageSize := fun hc => this (hc ▸ hpm)
      exact ha.slice (by unfold pageSize at *; omega)
    · intro i t ht
      obtain ⟨y, m', hy, hm', rfl⟩ := idxTrees_getElem? ht
      rw [List.getElem?_tail] at hy
      obtain ⟨q, j⟩ := y
      obtain ⟨n1, n2, n3⟩ := places_mem (List.mem_of_getElem? hy) hi.cle
      obtain ⟨q1, q2, q3⟩ := hi.pages.page q n1
      refine ha.slice ?_
      simp only
      have hne : ¬ (q = pageSize ∧ j = 0) := by
        rintro ⟨rfl, rfl⟩
        have hnd := places_nodup hi.nodup hi.cle
        rw [htl] at hnd hy
        exact (List.nodup_cons.1 hnd).1 (List.mem_of_getElem? (by simpa using hy))
      unfold slotPos pageSize at *
      omega

theorem IndexSt.alike (h : IndexIs data parse wd s1 fm is c) (ha : Alike H1 H2 s1 s2) (h2 : HeadIs H2 fm2) :
    IndexIs data parse wd s2 fm2 is c := by
  obtain ⟨⟨free, ps, cnt, E, P, g1, g2⟩, g3⟩ := h
  exact ⟨⟨free, ps, cnt, E, P, g1.alike ha h2, g2⟩, g3⟩

/-- The slots of the indexes are not the one of the file metadata. -/
theorem IdxInv.other {s : PF} {ms : List IndexMeta} {free ps : List Nat} {cnt : Nat} {E : Nat → List Entry} {P : Nat → List Nat}
    (h : IdxInv st data parse wd s fm ms c free ps cnt E P) {x : Nat × Nat} (hx : x ∈ (places ps cnt).tail) :
    OtherSlot s (slotAt x) x.1 x.2 := by
  obtain ⟨tl, htl, _, _⟩ := h.first
  have hi := h.slots.inv
  have hxp := List.mem_of_mem_tail hx
  obtain ⟨n1, n2, _⟩ := places_mem (p := x.1) (i := x.2) hxp hi.cle
  refine ⟨hi.pages.atSlot n1 n2, (hi.pages.page _ n1).2.1, ?_⟩
  rintro ⟨e1, e2⟩
  have hnd := places_nodup hi.nodup hi.cle
  rw [htl] at hnd hx
  apply (List.nodup_cons.1 hnd).1
  have : x = (pageSize, 0) := by rw [← e1, ← e2]
  rw [← this]; exact hx

theorem IndexSt.other {s : PF} (h : IndexIs data parse wd s fm is c) {k : Nat} {p : LP} {m : IndexMeta} (hk : is[k]? = some (p, m)) :
    ∃ o j, OtherSlot s p o j := by
  obtain ⟨⟨free, ps, cnt, E, P, g1, g2⟩, g3⟩ := h
  have : p ∈ (places ps cnt).tail.map slotAt := by
    rw [g2]; exact List.mem_map.2 ⟨(p, m), List.mem_of_getElem? hk, rfl⟩
  obtain ⟨x, hx, rfl⟩ := List.mem_map.1 this
  exact ⟨_, _, g1.other hx⟩

theorem createIndex_alike {ms : List IndexMeta} {free ps : List Nat} {cnt : Nat} {E : Nat → List Entry} {P : Nat → List Nat}
    (h : IdxInv st data parse wd s1 fm ms c free ps cnt E P) (ha : Alike H1 H2 s1 s2) {l : LP}
    (hl : (fileSlot :: (places ps cnt).tail.map slotAt).getLast? = some l) (name : Bytes) (ty : UInt8) :
    RelAt H1 H2 (IndexFile.createIndex l name ty) (IndexFile.createIndex l name ty) s1 s2 := by
  obtain ⟨tl, htl, _, hc1⟩ := h.first
  have hi := h.slots.inv
  have hlast : (headAt pageSize :: (places ps cnt).map slotAt).getLast? = some l := by
    rw [htl] at hl ⊢
    simp only [List.tail_cons] at hl
    rw [List.map_cons, List.getLast?_cons_cons]
    exact hl
  obtain ⟨g1, g2⟩ := last_handle h.slots hlast
  have hlp := hi.pages.page _ (lastPg_mem hi.ne)
  have hon : OnPage s1.file.bytes l (lastPg ps) := ⟨by rw [g1, hi.pages.u64 (lastPg_mem hi.ne)], hlp.1, hlp.2.2, hi.pages.small⟩
  unfold IndexFile.createIndex
  refine RelAt.bind (addNext_alike ha hon hlp.2.1) (fun x t1 t2 e1 _ hb => ?_)
  rcases addNext_last h.slots g1 g2 with ⟨y, s', free', ps', cnt', f1, f2⟩ | ⟨s', f1, f2⟩
  · rw [e1] at f1
    cases f1
    have hy : y ∈ places ps' cnt' := by rw [f2.places]; simp
    have hi' := f2.slots.inv
    obtain ⟨n1, n2, _⟩ := places_mem (p := y.1) (i := y.2) hy hi'.cle
    have hos : OtherSlot t1 (slotAt y) y.1 y.2 := by
      refine ⟨hi'.pages.atSlot n1 n2, (hi'.pages.page _ n1).2.1, ?_⟩
      rintro ⟨a1, a2⟩
      have hnd := places_nodup hi'.nodup hi'.cle
      rw [f2.places, htl] at hnd
      have : y = (pageSize, 0) := by rw [← a1, ← a2]
      rw [this] at hnd
      simp at hnd
    refine RelAt.bind (RelAt.lift hb _) (fun b t3 t4 e3 _ hc => ?_)
    have et : t3 = t1 := by
      cases hm : (⟨name, ty, determineTypeByte ty, 0⟩ : IndexMeta).marshal <;> rw [hm] at e3 <;> cases e3
      rfl
    subst et
    exact RelAt.bind (lp_setMetadata_alike hc hos b) (fun _ _ _ _ _ hd => RelAt.pure hd _)
  · rw [e1] at f1; cases f1

/-- `FindOrCreateIndex` -/
theorem findOrCreate_alike (h : IndexIs data parse wd s1 fm is c) (ha : Alike H1 H2 s1 s2) (h2 : HeadIs H2 fm2) {i : IndexFile} (hi : i.tree = fileSlot)
    (name : Bytes) (ty : UInt8) : RelAt H1 H2 (i.findOrCreate name ty) (i.findOrCreate name ty) s1 s2 := by
  obtain ⟨⟨free, ps, cnt, E, P, g1, g2⟩, g3, g4⟩ := h
  have k1 := g1.alike ha h2
  obtain ⟨tl, htl, hlk, _⟩ := g1.first
  obtain ⟨tl', htl', hlk', _⟩ := k1.first
  have ht : (places ps cnt).tail = tl := by rw [htl]; rfl
  have ht' : tl' = tl := by rw [htl] at htl'; simpa using htl'.symm
  subst ht'
  have hsm : ∀ m ∈ is.map (·.2), m.fieldName.length ≤ 236 := by
    intro m hm
    obtain ⟨x, hx, rfl⟩ := List.mem_map.1 hm
    exact g3 x hx
  have hma := g1.metasAt hsm; have hfu := g1.fuel
  have hma' := k1.metasAt hsm; have hfu' := k1.fuel
  rw [ht] at hma hfu hma' hfu'
  have hnd : (is.map (·.2)).map (fun m => (m.fieldName, m.fieldType)) = is.map (fun i => (i.2.fieldName, i.2.fieldType)) := by
    rw [List.map_map]; rfl
  rw [← hnd] at g4
  unfold IndexFile.findOrCreate
  rw [hi]
  rcases findFrom_linked name ty rfl hlk hma (LP.listFuel s1) hfu with ⟨k, n, m, q, e1, e2, e3, e4, e5⟩ | ⟨e1, l, q, e2, e3⟩
  · rcases findFrom_linked name ty rfl hlk' hma' (LP.listFuel s2) hfu' with ⟨k', n', m', q', f1, f2, f3, f4, f5⟩ | ⟨f1, _⟩
    · have hkk : k = k' := by
        have hp := List.pairwise_iff_getElem.1 g4
        obtain ⟨b1, b2⟩ := List.getElem?_eq_some_iff.1 e2
        obtain ⟨d1, d2⟩ := List.getElem?_eq_some_iff.1 f2
        apply Classical.byContradiction
        intro hne
        rcases Nat.lt_or_gt_of_ne hne with hlt | hlt
        · apply hp k k' (by simpa using b1) (by simpa using d1) hlt
          simp only [List.getElem_map] at b2 d2 ⊢
          rw [b2, d2, e3, e4, f3, f4]
        · apply hp k' k (by simpa using d1) (by simpa using b1) hlt
          simp only [List.getElem_map] at b2 d2 ⊢
          rw [b2, d2, e3, e4, f3, f4]
      subst hkk
      rw [e1] at f1; cases f1
      rw [e2] at f2; cases f2
      exact RelAt.of e5 f5 (ha.upd q q')
    · exact absurd ⟨e3, e4⟩ (f1 m (List.mem_of_getElem? e2))
  · rcases findFrom_linked name ty rfl hlk' hma' (LP.listFuel s2) hfu' with ⟨k', n', m', q', f1, f2, f3, f4, f5⟩ | ⟨f1, l', q', f2, f3⟩
    · exact absurd ⟨f3, f4⟩ (e1 m' (List.mem_of_getElem? f2))
    · rw [e2] at f2; cases f2
      intro x t hx
      have hc := createIndex_alike (g1.upd q) (ha.upd q q') (l := l) (by rw [ht]; exact e2) name ty
      have hx' : IndexFile.createIndex l name ty (s1.upd s1.file.bytes q) = (.ok x, t) := by rw [← e3]; exact hx
      obtain ⟨t2, r1, r2⟩ := hc x t hx'
      exact ⟨t2, f3.trans r1, r2⟩

/-- An insert into an index, also with a longer data file. -/
theorem IndexSt.insert_alike (h : IndexIs data parse wd s1 fm is c) (ha : Alike H1 H2 s1 s2) (more : Bytes) {k : Nat} {p : LP} {m : IndexMeta}
    (hk : is[k]? = some (p, m)) (key : RV) (v : MemPtr) :
    RelAt H1 H2 ((Appendable.treeAt data parse (wd m) p).insert key v) ((Appendable.treeAt (data ++ more) parse (wd m) p).insert key v) s1 s2 := by
  obtain ⟨o, j, ho⟩ := h.other hk
  obtain ⟨free, ps, cnt, E, P, h1, h2, h3⟩ := h.treeAt
  have ht := h3 k p m hk
  obtain ⟨ti, _, _⟩ := h1.forest.tree k _ ht
  have hki : k < (is.map (·.2)).length := by have := (List.getElem?_eq_some_iff.1 hk).1; simpa using this
  refine Appendable.insert_alike more ha ti ?_ ?_ key v
  · show Spot s1 p.rootPos.toNat 12
    rw [ho.at'.rootPos]
    exact ho.spot (d := 0) (by omega) (by omega)
  · intro x hx
    obtain ⟨l1, l2, _⟩ := ti.live x hx
    have hn := h1.out k hki x hx
    have hpm : pageSize ∈ ps := by obtain ⟨r, hr⟩ := h1.slots.inv.first; rw [hr]; simp
    have hne : x ≠ pageSize := fun hc => hn (hc ▸ hpm)
    unfold pageSize at *
    omega

end
end Appendable
