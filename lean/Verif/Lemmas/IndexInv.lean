import Verif.Model.IndexFile
import Verif.Lemmas.SlotRun
import Verif.Lemmas.Forest
import Verif.Lemmas.Meta
/-! The invariant of an index file: the slots with their metadata and a tree in every slot but the first. -/
namespace Appendable
open Spec Tree

/-- The trees of the indexes `ms`, whose slots are `xs`. -/
def idxTrees (data : Bytes) (parse : Bytes → Bytes) (wd : IndexMeta → UInt16) (xs : List (Nat × Nat)) (ms : List IndexMeta) : List Tree :=
  List.zipWith (fun x m => (⟨⟨data, parse, wd m⟩, slotPos x.1 x.2⟩ : Tree)) xs ms

theorem idxTrees_getElem? {data parse wd xs ms} {k : Nat} {t : Tree} (h : (idxTrees data parse wd xs ms)[k]? = some t) :
    ∃ x m, xs[k]? = some x ∧ ms[k]? = some m ∧ t = ⟨⟨data, parse, wd m⟩, slotPos x.1 x.2⟩ := by
  unfold idxTrees at h
  rw [List.getElem?_zipWith] at h
  cases hx : xs[k]? with
  | none => rw [hx] at h; simp at h
  | some x =>
    cases hm : ms[k]? with
    | none => rw [hx, hm] at h; simp at h
    | some m =>
      rw [hx, hm] at h
      simp only [Option.some.injEq] at h
      exact ⟨x, m, rfl, rfl, h.symm⟩

theorem idxTrees_of {data parse wd xs ms} {k : Nat} {x : Nat × Nat} {m : IndexMeta} (hx : xs[k]? = some x) (hm : ms[k]? = some m) :
    (idxTrees data parse wd xs ms)[k]? = some ⟨⟨data, parse, wd m⟩, slotPos x.1 x.2⟩ := by
  unfold idxTrees
  rw [List.getElem?_zipWith, hx, hm]

/-- Bytes elsewhere may change. -/
theorem ForestInv.frame {ts : List Tree} {s s' c free free' E P} (h : ForestInv ts s c free E P) (hv : s'.Valid free')
    (hb : s'.file.budget = none) (hl : ∀ p, Live s free p → Live s' free' p) (hlen : s.file.bytes.length ≤ s'.file.bytes.length)
    (hpages : ∀ (i : Nat) (t : Tree), ts[i]? = some t → ∀ p ∈ P i, pageAt s'.file.bytes p = pageAt s.file.bytes p)
    (hslots : ∀ (i : Nat) (t : Tree), ts[i]? = some t → slice s'.file.bytes t.rootPos 12 = slice s.file.bytes t.rootPos 12) :
    ForestInv ts s' c free' E P := by
  refine ⟨hv, hb, ?_, h.apart, h.empty⟩
  intro i t ht
  obtain ⟨a1, a2, a3⟩ := h.tree i t ht
  exact ⟨a1.keep hv hb hl hlen (hpages i t ht) (hslots i t ht), a2, a3⟩

/-- A new empty tree. -/
theorem ForestInv.snoc {ts : List Tree} {s c free E P} (h : ForestInv ts s c free E P) {t : Tree}
    (hs : t.rootPos % pageSize + 12 ≤ pageSize) (hl : Live s free (slotPage t.rootPos)) (hw : WidthOK t)
    (hz : slice s.file.bytes t.rootPos 12 = List.replicate 12 0)
    (hapart : ∀ (i : Nat) (u : Tree), ts[i]? = some u → SlotsApart t u ∧ slotPage t.rootPos ∉ P i) :
    ForestInv (ts ++ [t]) s c free (setAt E ts.length []) (setAt P ts.length []) := by
  have hget : ∀ (i : Nat) (u : Tree), (ts ++ [t])[i]? = some u → (i < ts.length ∧ ts[i]? = some u) ∨ (i = ts.length ∧ u = t) := by
    intro i u hu
    rw [List.getElem?_append] at hu
    split at hu
    · exact .inl ⟨by assumption, hu⟩
    · rename_i hi
      have : i - ts.length = 0 := by
        have := (List.getElem?_eq_some_iff.1 hu).1
        simp at this; omega
      rw [this] at hu
      simp at hu
      exact .inr ⟨by omega, hu.symm⟩
  refine ⟨h.valid, h.budget, ?_, ?_, ?_⟩
  · intro i u hu
    rcases hget i u hu with ⟨hi, hu1⟩ | ⟨hi, hu1⟩
    · rw [setAt_ne _ _ (by omega), setAt_ne _ _ (by omega)]; exact h.tree i u hu1
    · subst hi; subst hu1
      rw [setAt_same, setAt_same]
      refine ⟨⟨h.valid, h.budget, hs, hl, by simp, by simp, by simp, .inl ⟨by rw [hz, decode_zeros], rfl, rfl⟩⟩, hw, ?_⟩
      rw [h.empty _ (Nat.le_refl _)]
  · intro i j u w hij hu hw'
    rcases hget i u hu with ⟨hi, hu1⟩ | ⟨hi, hu1⟩
    · rw [setAt_ne _ _ (show i ≠ ts.length by omega)]
      rcases hget j w hw' with ⟨hj, hw1⟩ | ⟨hj, hw1⟩
      · rw [setAt_ne _ _ (show j ≠ ts.length by omega)]; exact h.apart i j u w hij hu1 hw1
      · subst hj; subst hw1
        rw [setAt_same]
        obtain ⟨a1, a2⟩ := hapart i u hu1
        exact ⟨by simp, a1.symm, a2⟩
    · subst hi; subst hu1
      rw [setAt_same]
      refine ⟨by simp, ?_, by simp⟩
      rcases hget j w hw' with ⟨hj, hw1⟩ | ⟨hj, hw1⟩
      · exact (hapart j w hw1).1
      · omega
  · intro i hi
    simp only [List.length_append, List.length_cons, List.length_nil] at hi
    exact h.empty i (by omega)

/-- No page is free, and every page belongs to the meta pages `ps` or to one of `n` trees. -/
def AllUsed (s : PF) (free ps : List Nat) (P : Nat → List Nat) (n : Nat) : Prop :=
  free = [] ∧ ∀ x, Live s free x → x ∈ ps ∨ ∃ i, i < n ∧ x ∈ P i

theorem AllUsed.same {s s' : PF} {free ps P n} (h : AllUsed s free ps P n) (hl : s'.file.bytes.length = s.file.bytes.length) : AllUsed s' free ps P n :=
  ⟨h.1, fun x hx => h.2 x ⟨hx.1, hx.2.1, hl ▸ hx.2.2.1, hx.2.2.2⟩⟩

/-- The index file `s`: file metadata `fm`, index metadata `ms`; the tree of index `k` holds `E k` on the pages `P k`.  If `st`, there
are no other pages. -/
structure IdxInv (st : Prop) (data : Bytes) (parse : Bytes → Bytes) (wd : IndexMeta → UInt16) (s : PF) (fm : FileMeta) (ms : List IndexMeta)
    (c : Nat → List Entry) (free ps : List Nat) (cnt : Nat) (E : Nat → List Entry) (P : Nat → List Nat) : Prop where
  slots : SlotsIn s free ps cnt (fm.bytes :: ms.map IndexMeta.bytes)
  forest : ForestInv (idxTrees data parse wd (places ps cnt).tail ms) s c free E P
  out : ∀ i, i < ms.length → ∀ p ∈ P i, p ∉ ps
  used : st → AllUsed s free ps P ms.length

theorem IdxInv.len {st data parse wd s fm ms c free ps cnt E P} (h : IdxInv st data parse wd s fm ms c free ps cnt E P) :
    (places ps cnt).length = ms.length + 1 := by
  have := h.slots.inv.len
  simp at this; omega

theorem IdxInv.placeOf {st data parse wd s fm ms c free ps cnt E P} (h : IdxInv st data parse wd s fm ms c free ps cnt E P) {k : Nat}
    (hk : k ≤ ms.length) : ∃ x, (places ps cnt)[k]? = some x ∧ x.1 ∈ ps ∧ x.2 < 15 ∧ AtSlot s.file.bytes (slotAt x) x.1 x.2 := by
  have hl := h.len
  have hlt : k < (places ps cnt).length := by omega
  refine ⟨(places ps cnt)[k], List.getElem?_eq_getElem hlt, ?_⟩
  obtain ⟨m1, m2, _⟩ := places_mem (p := ((places ps cnt)[k]).1) (i := ((places ps cnt)[k]).2) (List.getElem_mem hlt) h.slots.inv.cle
  exact ⟨m1, m2, h.slots.inv.pages.atSlot m1 m2⟩

theorem slotPage_slotPos {p i : Nat} (hp : p % pageSize = 0) (hi : i < 15) : slotPage (slotPos p i) = p ∧
    slotPos p i % pageSize = 9 + i * 265 := by
  have hm : slotPos p i % pageSize = 9 + i * 265 := by
    unfold slotPos pageSize at *
    rw [show p + 9 + i * 265 = (9 + i * 265) + 4096 * (p / 4096) by omega, Nat.add_mul_mod_self_left]
    omega
  have := slotPage_add (slotPos p i)
  rw [hm] at this
  refine ⟨?_, hm⟩
  unfold slotPos at this; unfold slotPos; omega

theorem places_inj {ps : List Nat} {c : Nat} (hn : ps.Nodup) (hc : c ≤ 15) {i j : Nat} {x : Nat × Nat}
    (hi : (places ps c)[i]? = some x) (hj : (places ps c)[j]? = some x) : i = j := by
  obtain ⟨a1, a2⟩ := List.getElem?_eq_some_iff.1 hi
  obtain ⟨b1, b2⟩ := List.getElem?_eq_some_iff.1 hj
  exact (List.getElem_inj (places_nodup hn hc)).1 (a2.trans b2.symm)

/-- Two different places are apart. -/
theorem places_apart {B : Bytes} {ps : List Nat} {c : Nat} (hp : PagesIn B ps) (hc : c ≤ 15) {x y : Nat × Nat}
    (hx : x ∈ places ps c) (hy : y ∈ places ps c) (hne : x ≠ y) :
    slotPos x.1 x.2 + 265 ≤ slotPos y.1 y.2 ∨ slotPos y.1 y.2 + 265 ≤ slotPos x.1 x.2 := by
  obtain ⟨x1, x2⟩ := x
  obtain ⟨y1, y2⟩ := y
  obtain ⟨a1, a2, _⟩ := places_mem hx hc
  obtain ⟨b1, b2, _⟩ := places_mem hy hc
  by_cases h : x1 = y1
  · subst h
    have : x2 ≠ y2 := fun h => hne (by rw [h])
    unfold slotPos; simp only; omega
  · have := page_apart (hp.page _ a1).1 (hp.page _ b1).1 h
    unfold slotPos; simp only; omega

theorem IdxInv.upd {st data parse wd s fm ms c free ps cnt E P} (h : IdxInv st data parse wd s fm ms c free ps cnt E P) (q : Nat) :
    IdxInv st data parse wd (s.upd s.file.bytes q) fm ms c free ps cnt E P :=
  ⟨⟨(Frame.upd_pos h.slots.valid h.slots.budget q []).valid, h.slots.budget, h.slots.live, h.slots.inv⟩, h.forest.upd q, h.out, fun hst => (h.used hst).same rfl⟩

/-- The metadata of a slot. -/
theorem MetaInv.metadata {B ps c ds} (h : MetaInv B ps c ds) {k : Nat} {x : Nat × Nat} {d : Bytes} (hx : (places ps c)[k]? = some x)
    (hd : ds[k]? = some d) {s : PF} (hs : s.file.bytes = B) : ∃ q, (slotAt x).metadata s = (.ok d, s.upd B q) := by
  subst hs
  obtain ⟨m1, m2, _⟩ := places_mem (p := x.1) (i := x.2) (List.mem_of_getElem? hx) h.cle
  have hat := h.pages.atSlot m1 m2
  obtain ⟨d1, d2⟩ := h.md k x d hx hd
  unfold MdAt at d2
  have hn := congrArg (fun y => y[0]?) d2
  have hdd := congrArg (fun y => slice y 1 d.length) d2
  simp only [slice_getElem?, if_pos (show 0 < d.length + 1 by omega), Nat.add_zero, List.getElem?_cons_zero] at hn
  simp only [slice_slice (show 1 + d.length ≤ d.length + 1 by omega)] at hdd
  have hat' : AtSlot s.file.bytes (slotAt x) x.1 x.2 := hat
  rw [lp_metadata_ok hat' hn]
  have hl : (UInt8.ofNat d.length).toNat = d.length := UInt8.toNat_ofNat_of_lt' (by show d.length < 256; omega)
  have hne : UInt8.ofNat d.length ≠ 255 := by
    intro hc
    have := congrArg UInt8.toNat hc
    rw [hl] at this
    have h255 : (255 : UInt8).toNat = 255 := rfl
    omega
  rw [if_neg hne, hl, hdd]
  refine ⟨slotPos x.1 x.2 + 272, ?_⟩
  have he : slice (UInt8.ofNat d.length :: d) 1 d.length = d := by unfold slice; simp
  rw [he]

/-- Writing metadata. -/
theorem IdxInv.writeMd {st data parse wd s fm ms c free ps cnt E P} (h : IdxInv st data parse wd s fm ms c free ps cnt E P) {k : Nat}
    {x : Nat × Nat} (hx : (places ps cnt)[k]? = some x) {d : Bytes} (hd : d.length ≤ 252) :
    ∃ s', (slotAt x).setMetadata d s = (.ok (), s') ∧ SlotsIn s' free ps cnt ((fm.bytes :: ms.map IndexMeta.bytes).set k d) ∧
      ForestInv (idxTrees data parse wd (places ps cnt).tail ms) s' c free E P ∧ s'.file.bytes.length = s.file.bytes.length := by
  obtain ⟨x1, x2⟩ := x
  obtain ⟨m1, m2, _⟩ := places_mem (List.mem_of_getElem? hx) h.slots.inv.cle
  have hat := h.slots.inv.pages.atSlot m1 m2
  obtain ⟨q, hq⟩ := lp_setMetadata_ok hat h.slots.budget (d := d) (by omega)
  obtain ⟨g1, g2, g3⟩ := h.slots.inv.pages.page _ m1
  have hle : slotPos x1 x2 + 12 ≤ s.file.bytes.length := by unfold slotPos pageSize at *; omega
  have hf := Frame.write h.slots.valid h.slots.budget (h.slots.live _ m1) (r := 9 + x2 * 265 + 12) (b := UInt8.ofNat d.length :: d)
    (by simp only [List.length_cons]; unfold pageSize; omega) q
  have e : x1 + (9 + x2 * 265 + 12) = slotPos x1 x2 + 12 := by unfold slotPos; omega
  rw [e] at hf
  refine ⟨_, hq, ⟨hf.1.valid, hf.1.budget, fun y hy => hf.1.live y (h.slots.live y hy), h.slots.inv.setMd hx hd⟩, ?_, hf.2⟩
  refine h.forest.frame hf.1.valid hf.1.budget hf.1.live hf.1.len ?_ ?_
  · intro i t ht p hp
    obtain ⟨y, m, hy, hm, _⟩ := idxTrees_getElem? ht
    have hi : i < ms.length := (List.getElem?_eq_some_iff.1 hm).1
    exact hf.1.same p (((h.forest.tree i t ht).1).live p hp) (by simp; rintro rfl; exact h.out i hi _ hp m1)
  · intro i t ht
    obtain ⟨y, m, hy, hm, rfl⟩ := idxTrees_getElem? ht
    have hy' : y ∈ places ps cnt := List.mem_of_mem_tail (List.mem_of_getElem? hy)
    simp only [upd_bytes]
    rw [slice_writeAt_disjoint hle]
    rw [List.length_cons]
    by_cases hxy : y = (x1, x2)
    · subst hxy; simp only; omega
    · have := places_apart h.slots.inv.pages h.slots.inv.cle hy' (List.mem_of_getElem? hx) hxy
      simp only at this
      omega

theorem idxTrees_set {data parse wd xs ms} {k : Nat} {m m' : IndexMeta} (hm : ms[k]? = some m) (hw : wd m' = wd m) :
    idxTrees data parse wd xs (ms.set k m') = idxTrees data parse wd xs ms := by
  apply List.ext_getElem?
  intro i
  unfold idxTrees
  rw [List.getElem?_zipWith, List.getElem?_zipWith]
  by_cases hi : i = k
  · subst hi
    rw [List.getElem?_set, if_pos rfl, if_pos (List.getElem?_eq_some_iff.1 hm).1, hm]
    cases xs[i]? with
    | none => rfl
    | some x => simp [hw]
  · rw [List.getElem?_set_ne (Ne.symm hi)]

/-- `SetMetadata` of the index file. -/
theorem IdxInv.setFileMeta {st data parse wd s fm ms c free ps cnt E P} (h : IdxInv st data parse wd s fm ms c free ps cnt E P) {x : Nat × Nat}
    (hx : (places ps cnt)[0]? = some x) (fm' : FileMeta) :
    ∃ s', (slotAt x).setMetadata fm'.bytes s = (.ok (), s') ∧ IdxInv st data parse wd s' fm' ms c free ps cnt E P ∧
      s'.file.bytes.length = s.file.bytes.length := by
  have hl : fm'.bytes.length ≤ 252 := by
    rw [FileMeta.bytes_length]; have := putUvarint_length_le fm'.entries; omega
  obtain ⟨s', h1, h2, h3, h4⟩ := h.writeMd hx hl
  exact ⟨s', h1, ⟨h2, h3, h.out, fun hst => (h.used hst).same h4⟩, h4⟩

/-- `SetMetadata` of an index. -/
theorem IdxInv.setIdxMeta {st data parse wd s fm ms c free ps cnt E P} (h : IdxInv st data parse wd s fm ms c free ps cnt E P) {k : Nat}
    {x : Nat × Nat} {m m' : IndexMeta} (hx : (places ps cnt)[k + 1]? = some x) (hm : ms[k]? = some m) (hw : wd m' = wd m)
    (hl : m'.bytes.length ≤ 252) :
    ∃ s', (slotAt x).setMetadata m'.bytes s = (.ok (), s') ∧ IdxInv st data parse wd s' fm (ms.set k m') c free ps cnt E P ∧
      s'.file.bytes.length = s.file.bytes.length := by
  obtain ⟨s', h1, h2, h3, h4⟩ := h.writeMd hx hl
  refine ⟨s', h1, ⟨?_, by rw [idxTrees_set hm hw]; exact h3, by simpa using h.out, by rw [List.length_set]; exact fun hst => (h.used hst).same h4⟩, h4⟩
  simpa [List.map_set] using h2

/-- An insert into the tree of index `k`. -/
theorem IdxInv.insert {st data parse wd s fm ms c free ps cnt E P} (h : IdxInv st data parse wd s fm ms c free ps cnt E P) {k : Nat} {t : Tree}
    {key : RV} {v : MemPtr} {s' : PF} (ht : (idxTrees data parse wd (places ps cnt).tail ms)[k]? = some t) (hk : KeyOK t.cfg key)
    (hrun : t.insert key v s = (.ok (), s')) :
    ∃ free' es' ps', IdxInv st data parse wd s' fm ms (setAt c k ((key, v) :: c k)) free' ps cnt (setAt E k es') (setAt P k ps') ∧
      InsRel (E k) key v es' ∧ (∀ e ∈ E k, e.1 ≠ key) := by
  obtain ⟨free', es', ps', h1, h2, h3, h4, h5, h6, h7, h8⟩ := h.forest.insert' ht hk hrun
  refine ⟨free', es', ps', ⟨⟨h1.valid, h1.budget, fun p hp => h3.live p (h.slots.live p hp), ?_⟩, h1, ?_, fun hst => ⟨h8 (h.used hst).1, ?_⟩⟩, h2, h4⟩
  · obtain ⟨x, m, hx, hm, rfl⟩ := idxTrees_getElem? ht
    have hk' : k < ms.length := (List.getElem?_eq_some_iff.1 hm).1
    refine h.slots.inv.frame h3.len h1.valid.small ?_
    intro p hp j hj hn
    refine h3.same p (h.slots.live p hp) (fun hc => h.out k hk' p hc hp) j hj ?_
    simp only
    have hxm : x ∈ places ps cnt := List.mem_of_mem_tail (List.mem_of_getElem? hx)
    by_cases hpx : p = x.1
    · subst hpx
      have := hn x.2 hxm
      omega
    · have := page_apart (h.slots.inv.pages.page p hp).1
        (h.slots.inv.pages.page x.1 (places_mem (p := x.1) (i := x.2) hxm h.slots.inv.cle).1).1 hpx
      have h15 := (places_mem (p := x.1) (i := x.2) hxm h.slots.inv.cle).2.1
      unfold slotPos pageSize at *; omega
  · intro i hi p hp
    by_cases hik : i = k
    · subst hik
      rw [setAt_same] at hp
      rcases h5 p hp with hp | hp
      · exact h.out i hi p hp
      · intro hc; exact hp (h.slots.live p hc)
    · rw [setAt_ne _ _ hik] at hp
      exact h.out i hi p hp
  · obtain ⟨x', m, hx', hm, rfl⟩ := idxTrees_getElem? ht
    have hk' : k < ms.length := (List.getElem?_eq_some_iff.1 hm).1
    intro x hx
    rcases h6 x hx with hx | hx
    · rcases (h.used hst).2 x hx with hx | ⟨i, hi, hx⟩
      · exact .inl hx
      · refine .inr ⟨i, hi, ?_⟩
        by_cases hik : i = k
        · subst hik; rw [setAt_same]; exact h7 x hx
        · rw [setAt_ne _ _ hik]; exact hx
    · exact .inr ⟨k, hk', by rw [setAt_same]; exact hx⟩

end Appendable
