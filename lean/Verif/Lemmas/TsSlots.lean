import Verif.Lemmas.TsSim
import Verif.Lemmas.IndexApi
/-! The client's view of the meta pages. -/
namespace Appendable
open Spec Tree

/-- The client's handle of a slot. -/
def LP.ts (m : LP) : TsPage := ⟨m.offset.toNat, m.index.toNat⟩

theorem jsSlice_nat {buf : Bytes} {a b : Nat} (h : b ≤ buf.length) : jsSlice buf (a : Int) (b : Int) = slice buf a (b - a) := by
  unfold jsSlice jsIndex slice
  rw [if_neg (by omega), if_neg (by omega), Int.toNat_natCast, Int.toNat_natCast]
  by_cases hab : a ≤ b
  · rw [Nat.min_eq_left (show a ≤ buf.length by omega), Nat.min_eq_left h]
  · rw [Nat.min_eq_left h, show b - min a buf.length = 0 by omega, show b - a = 0 by omega]; simp

theorem jsSliceFrom_nat {buf : Bytes} {a : Nat} (h : a ≤ buf.length) : jsSliceFrom buf (a : Int) = buf.drop a := by
  unfold jsSliceFrom jsIndex
  rw [if_neg (by omega), Int.toNat_natCast, Nat.min_eq_left h]

section
variable {idx : Resolver} {B : Bytes} {m : LP} {p i : Nat}

theorem ts_page (hf : Faithful idx B) (h : OnPage B m p) : m.ts.page idx = .ok (slice B p 4096) := by
  have h1 := h.inside
  unfold TsPage.page LP.ts
  simp only [h.off]
  rw [hf.one (by omega) (by omega) (by unfold pageSize at *; omega)]
  rw [Int.toNat_natCast, show ((p : Int) + 4096 - 1 + 1 - (p : Int)).toNat = 4096 by omega]

theorem ts_root (hf : Faithful idx B) (h : AtSlot B m p i) :
    m.ts.root idx = .ok (MemPtr.decode (slice B (slotPos p i) 12)).ts := by
  have h1 := h.inside; have h2 := h.le
  have hlen : (slice B p 4096).length = 4096 := slice_length (by unfold pageSize at *; omega)
  unfold TsPage.root
  rw [ts_page hf h.onPage]
  simp only [Res.bind_ok]
  have hpos : m.ts.slotPos = 9 + i * 265 := by unfold TsPage.slotPos LP.ts; simp only [h.idx]
  rw [hpos, show (((9 + i * 265 : Nat) : Int) + 8 + 4) = ((9 + i * 265 + 12 : Nat) : Int) by omega, jsSlice_nat (by omega),
    slice_slice (by omega)]
  have hs : slice B (p + (9 + i * 265)) (9 + i * 265 + 12 - (9 + i * 265)) = slice B (slotPos p i) 12 := by
    congr 1
    · unfold slotPos; omega
    · omega
  rw [hs]
  have hl : (slice B (slotPos p i) 12).length = 12 := slice_length (by have := h.fit; omega)
  rw [if_neg (by omega)]
  unfold MemPtr.decode MemPtr.ts
  simp only [Res.pure_eq]
  have b1 := leNat_lt ((slice B (slotPos p i) 12).take 8)
  have b2 := leNat_lt (((slice B (slotPos p i) 12).drop 8).take 4)
  have l1 : ((slice B (slotPos p i) 12).take 8).length = 8 := by simp; omega
  have l2 : (((slice B (slotPos p i) 12).drop 8).take 4).length = 4 := by simp; omega
  rw [l1] at b1; rw [l2] at b2
  rw [UInt64.toNat_ofNat_of_lt' (by simpa using b1), UInt32.toNat_ofNat_of_lt' (by simpa using b2)]

theorem ts_metadata (hf : Faithful idx B) (h : AtSlot B m p i) {d : Bytes} (hd : d.length ≤ 255) (hm : MdAt B (p, i) d) :
    m.ts.metadata idx = .ok d := by
  have h1 := h.inside; have h2 := h.le
  have hlen : (slice B p 4096).length = 4096 := slice_length (by unfold pageSize at *; omega)
  unfold TsPage.metadata
  rw [ts_page hf h.onPage]
  simp only [Res.bind_ok]
  have hpos : m.ts.slotPos = 9 + i * 265 := by unfold TsPage.slotPos LP.ts; simp only [h.idx]
  rw [hpos, show (((9 + i * 265 : Nat) : Int) + (8 + 4)) = ((9 + i * 265 + 12 : Nat) : Int) by omega, jsSliceFrom_nat (by omega)]
  have hsplit : ∃ rest, (slice B p 4096).drop (9 + i * 265 + 12) = (UInt8.ofNat d.length :: d) ++ rest := by
    unfold MdAt at hm
    simp only at hm
    refine ⟨((slice B p 4096).drop (9 + i * 265 + 12)).drop (d.length + 1), ?_⟩
    rw [← hm]
    have : slice B (slotPos p i + 12) (d.length + 1) = ((slice B p 4096).drop (9 + i * 265 + 12)).take (d.length + 1) := by
      have := slice_slice (l := B) (p := p) (n := 4096) (q := 9 + i * 265 + 12) (m := d.length + 1) (by omega)
      rw [show slotPos p i + 12 = p + (9 + i * 265 + 12) by unfold slotPos; omega, ← this]
      rfl
    rw [this, List.take_append_drop]
  obtain ⟨rest, hr⟩ := hsplit
  rw [hr]
  simp only [List.cons_append, Res.pure_eq]
  rw [UInt8.toNat_ofNat_of_lt' (by show d.length < 256; omega), List.take_left' rfl]

theorem hdr_exists (h : OnPage B m p) : ∃ c nx, Hdr B p c nx := by
  have h1 := h.inside
  have hlen : (slice B p 8).length = 8 := slice_length (by unfold pageSize at *; omega)
  have hlt := leNat_lt (slice B p 8)
  rw [hlen] at hlt
  refine ⟨B[p + 8]'(by unfold pageSize at *; omega), UInt64.ofNat (leNat (slice B p 8)), ?_, List.getElem?_eq_getElem _⟩
  rw [UInt64.toNat_ofNat_of_lt' (by simpa using hlt)]
  have := leBytes_leNat (slice B p 8)
  rw [hlen] at this
  exact this.symm

/-- The client's `next` does what the Go code's `Next` does. -/
theorem ts_next (hf : Faithful idx B) (h : AtSlot B m p i) {s : PF} (hs : s.file.bytes = B) :
    (∀ n q, m.next s = (.ok n, q) → m.ts.next idx = .ok (some n.ts)) ∧
    (∀ q, m.next s = (.err .eof, q) → m.ts.next idx = .ok none) := by
  subst hs
  have h1 := h.inside; have h2 := h.le
  obtain ⟨c, nx, hh⟩ := hdr_exists h.onPage
  obtain ⟨q, hn⟩ := lp_next_ok h.onPage hh
  have hlen : (slice s.file.bytes p 4096).length = 4096 := slice_length (by unfold pageSize at *; omega)
  have hc : (slice s.file.bytes p 4096)[8]? = some c := by rw [slice_getElem?, if_pos (by omega)]; exact hh.cnt
  have hx : leNat ((slice s.file.bytes p 4096).take 8) = nx.toNat := by
    have := slice_slice (l := s.file.bytes) (p := p) (n := 4096) (q := 0) (m := 8) (by omega)
    unfold slice at this
    simp only [List.drop_zero, Nat.add_zero] at this
    unfold slice
    rw [this]
    have := hh.next
    unfold slice at this
    rw [this, leNat_leBytes _ _ (by simpa using nx.toNat_lt)]
  have hts : m.ts.next idx = .ok ((if m.index + 1 < c then some ⟨m.offset, m.index + 1⟩
      else if nx = 0xFFFFFFFFFFFFFFFF then none else some ⟨nx, 0⟩ : Option LP).map LP.ts) := by
    unfold TsPage.next
    rw [ts_page hf h.onPage]
    simp only [Res.bind_ok, hc]
    have hi : (m.index + 1).toNat = i + 1 := by rw [UInt8.toNat_add, h.idx]; simp; omega
    have hci : (m.index + 1 < c) ↔ ((m.ts.index : Int) < (c.toNat : Int) - 1) := by
      rw [UInt8.lt_iff_toNat_lt, hi]
      unfold LP.ts
      simp only [h.idx]
      omega
    by_cases hlt : m.index + 1 < c
    · rw [if_pos (hci.1 hlt), if_pos hlt]
      simp only [Res.pure_eq, Option.map_some, LP.ts, hi, h.idx]
    · rw [if_neg (fun hc => hlt (hci.2 hc)), if_neg hlt, hx]
      by_cases hmax : nx = 0xFFFFFFFFFFFFFFFF
      · rw [if_pos hmax, hmax, if_pos (by decide)]; rfl
      · rw [if_neg hmax, if_neg ?_]
        · rfl
        · intro hc
          apply hmax
          apply UInt64.toNat.inj
          unfold tsMaxUint64 at hc
          have : (0xFFFFFFFFFFFFFFFF : UInt64).toNat = 2 ^ 64 - 1 := rfl
          omega
  rw [hn, hts]
  constructor
  · intro n q' hq
    simp only [Prod.mk.injEq] at hq
    obtain ⟨hq, _⟩ := hq
    split at hq
    · rename_i hlt; cases hq; rw [if_pos hlt]; rfl
    · rename_i hlt
      split at hq
      · cases hq
      · rename_i hmax; cases hq; rw [if_neg hlt, if_neg hmax]; rfl
  · intro q' hq
    simp only [Prod.mk.injEq] at hq
    obtain ⟨hq, _⟩ := hq
    split at hq
    · cases hq
    · rename_i hlt
      split at hq
      · rename_i hmax; rw [if_neg hlt, if_pos hmax]; rfl
      · cases hq

theorem ts_pages (hf : Faithful idx B) {s : PF} (hs : s.file.bytes = B) {ns : List LP} (hl : LinkedFrom B m ns)
    (hat : ∀ n ∈ m :: ns, ∃ p i, AtSlot B n p i) : ∀ fuel, ns.length < fuel → tsPagesFrom idx fuel m.ts = .ok ((m :: ns).map LP.ts) := by
  induction ns generalizing m with
  | nil =>
    intro fuel hfu
    obtain ⟨fuel, rfl⟩ : ∃ f, fuel = f + 1 := ⟨fuel - 1, by omega⟩
    obtain ⟨p, i, ha⟩ := hat m (by simp)
    obtain ⟨q, hq⟩ := hl s hs
    rw [tsPagesFrom, (ts_next hf ha hs).2 _ hq]; rfl
  | cons n ns ih =>
    intro fuel hfu
    obtain ⟨fuel, rfl⟩ : ∃ f, fuel = f + 1 := ⟨fuel - 1, by omega⟩
    obtain ⟨p, i, ha⟩ := hat m (by simp)
    obtain ⟨q, hq⟩ := (hl.1 s hs).1
    rw [tsPagesFrom, (ts_next hf ha hs).1 _ _ hq]
    simp only [Res.bind_ok]
    rw [ih hl.2 (fun x hx => hat x (by simp at hx ⊢; exact .inr hx)) fuel (by simp at hfu; omega)]
    rfl

end

/-! ### Metadata -/

theorem ts_readFileMeta (fm : FileMeta) : tsReadFileMeta fm.bytes =
    .ok ⟨fm.version.toNat, fm.format.toByte.toNat, fm.readOffset.toNat, (tsUvarint (putUvarint fm.entries)).1⟩ := by
  have hl := fm.bytes_length
  have hpos : 0 < (putUvarint fm.entries).length := putUvarint_length_pos _
  unfold tsReadFileMeta
  rw [if_neg (by omega)]
  have e : fm.bytes = fm.version :: fm.format.toByte :: (leBytes 8 fm.readOffset.toNat ++ putUvarint fm.entries) := by
    simp [FileMeta.bytes]
  have hj : jsSliceFrom fm.bytes 10 = putUvarint fm.entries := by
    have := jsSliceFrom_nat (buf := fm.bytes) (a := 10) (by omega)
    rw [show ((10 : Nat) : Int) = 10 from rfl] at this
    rw [this, e, show 10 = 8 + 1 + 1 from rfl, List.drop_succ_cons, List.drop_succ_cons]
    exact List.drop_left' (by simp)
  have hr : leNat ((fm.bytes.drop 2).take 8) = fm.readOffset.toNat := by
    rw [e, List.drop_succ_cons, List.drop_succ_cons, List.drop_zero, List.take_left' (by simp),
      leNat_leBytes _ _ (by simpa using fm.readOffset.toNat_lt)]
  rw [hj, hr, e]
  simp only
  rw [if_neg]
  cases fm.format <;> simp [Format.toByte]

theorem ts_readIndexMeta {m : IndexMeta} (hn : m.fieldName.length < 65530) : tsReadIndexMeta m.bytes =
    .ok ⟨m.fieldName, m.fieldType.toNat, m.width.toNat, (tsUvarint (putUvarint m.totalLen)).1⟩ := by
  have hl := m.bytes_length
  unfold tsReadIndexMeta
  rw [if_neg (by omega)]
  have hmod : m.fieldName.length % 2 ^ 16 = m.fieldName.length := Nat.mod_eq_of_lt (by omega)
  have e0 : m.bytes = leBytes 2 m.fieldType.toNat ++ (leBytes 2 m.width.toNat ++
      (leBytes 2 m.fieldName.length ++ (m.fieldName ++ putUvarint m.totalLen))) := by
    simp [IndexMeta.bytes, hmod]
  have d2 : m.bytes.drop 2 = leBytes 2 m.width.toNat ++
      (leBytes 2 m.fieldName.length ++ (m.fieldName ++ putUvarint m.totalLen)) := by
    rw [e0]; exact List.drop_left' (by simp)
  have d4 : m.bytes.drop 4 = leBytes 2 m.fieldName.length ++ (m.fieldName ++ putUvarint m.totalLen) := by
    rw [show 4 = 2 + 2 from rfl, ← List.drop_drop, d2]; exact List.drop_left' (by simp)
  have d6 : m.bytes.drop 6 = m.fieldName ++ putUvarint m.totalLen := by
    rw [show 6 = 4 + 2 from rfl, ← List.drop_drop, d4]; exact List.drop_left' (by simp)
  have hw := m.width.toNat_lt
  have hft := m.fieldType.toNat_lt
  have h1 : leNat (m.bytes.take 2) = m.fieldType.toNat := by
    rw [e0, List.take_left' (by simp), leNat_leBytes _ _ (by omega)]
  have h2 : leNat ((m.bytes.drop 2).take 2) = m.width.toNat := by
    rw [d2, List.take_left' (by simp), leNat_leBytes _ _ (by omega)]
  have h3 : leNat ((m.bytes.drop 4).take 2) = m.fieldName.length := by
    rw [d4, List.take_left' (by simp), leNat_leBytes _ _ (by omega)]
  simp only [h1, h2, h3]
  rw [if_neg (by omega)]
  have j1 : jsSlice m.bytes 6 (6 + (m.fieldName.length : Int)) = m.fieldName := by
    have := jsSlice_nat (buf := m.bytes) (a := 6) (b := 6 + m.fieldName.length) (by omega)
    rw [show ((6 + m.fieldName.length : Nat) : Int) = 6 + (m.fieldName.length : Int) by omega] at this
    rw [show (6 : Int) = ((6 : Nat) : Int) from rfl] at *
    rw [this]
    unfold slice
    rw [d6]
    exact List.take_left' (by omega)
  have j2 : jsSliceFrom m.bytes (6 + (m.fieldName.length : Int)) = putUvarint m.totalLen := by
    have := jsSliceFrom_nat (buf := m.bytes) (a := 6 + m.fieldName.length) (by omega)
    rw [show ((6 + m.fieldName.length : Nat) : Int) = 6 + (m.fieldName.length : Int) by omega] at this
    rw [this, ← List.drop_drop, d6]
    exact List.drop_left' rfl
  rw [j1, j2]

/-! ### The index file -/

/-- The client's image of index metadata. -/
def IndexMeta.ts (m : IndexMeta) : TsIndexMeta :=
  ⟨m.fieldName, m.fieldType.toNat, m.width.toNat, (tsUvarint (putUvarint m.totalLen)).1⟩

section
variable {data : Bytes} {parse : Bytes → Bytes} {wd : IndexMeta → UInt16} {s : PF} {fm : FileMeta} {is : List (LP × IndexMeta)}
  {c : Nat → List Entry} {idx : Resolver}

theorem filePage_ts : tsFilePage = fileSlot.ts := rfl

theorem IndexSt.tsFile (h : IndexIs data parse wd s fm is c) (hf : Faithful idx s.file.bytes) : tsFileMetadata idx =
    .ok ⟨fm.version.toNat, fm.format.toByte.toNat, fm.readOffset.toNat, (tsUvarint (putUvarint fm.entries)).1⟩ := by
  obtain ⟨⟨free, ps, cnt, E, P, h1, h2⟩, h3⟩ := h
  obtain ⟨tl, htl, _⟩ := h1.first
  have hx : (places ps cnt)[0]? = some (pageSize, 0) := by rw [htl]; rfl
  obtain ⟨m1, m2, _⟩ := places_mem (p := pageSize) (i := 0) (List.mem_of_getElem? hx) h1.slots.inv.cle
  have hat := h1.slots.inv.pages.atSlot m1 m2
  obtain ⟨d1, d2⟩ := h1.slots.inv.md 0 _ fm.bytes hx rfl
  unfold tsFileMetadata
  rw [filePage_ts, show fileSlot = slotAt (pageSize, 0) from rfl, ts_metadata hf hat (by omega) d2]
  exact ts_readFileMeta fm

theorem IndexSt.tsMetaPages_ok (h : IndexIs data parse wd s fm is c) (hf : Faithful idx s.file.bytes) (hne : is ≠ []) :
    ∀ fuel, is.length ≤ fuel → tsMetaPages idx fuel = .ok (is.map (fun x => x.1.ts)) := by
  intro fuel hfu
  obtain ⟨⟨free, ps, cnt, E, P, h1, h2⟩, h3⟩ := h
  obtain ⟨tl, htl, hlink, _⟩ := h1.first
  have hat : ∀ n ∈ fileSlot :: tl.map slotAt, ∃ p i, AtSlot s.file.bytes n p i := by
    intro n hn
    have : n ∈ (places ps cnt).map slotAt := by rw [htl]; exact hn
    obtain ⟨x, hx, rfl⟩ := List.mem_map.1 this
    obtain ⟨m1, m2, _⟩ := places_mem (p := x.1) (i := x.2) hx h1.slots.inv.cle
    exact ⟨_, _, h1.slots.inv.pages.atSlot m1 m2⟩
  have h2' : tl.map slotAt = is.map (·.1) := by rw [← h2, htl]; rfl
  rw [h2'] at hlink hat
  obtain ⟨x, xs, rfl⟩ := List.exists_cons_of_ne_nil hne
  obtain ⟨q, hq⟩ := (hlink.1 s rfl).1
  obtain ⟨p, i, ha⟩ := hat fileSlot (by simp)
  unfold tsMetaPages
  rw [filePage_ts, (ts_next hf ha rfl).1 _ _ hq]
  simp only [Res.bind_ok]
  rw [ts_pages hf rfl hlink.2 (fun n hn => hat n (List.mem_cons_of_mem _ hn)) fuel (by simp at hfu ⊢; omega)]
  simp

theorem IndexSt.tsMetaPages_none (h : IndexIs data parse wd s fm [] c) (hf : Faithful idx s.file.bytes) :
    ∀ fuel, tsMetaPages idx fuel = .err (.msg "failed to fetch meta pages") := by
  intro fuel
  obtain ⟨⟨free, ps, cnt, E, P, h1, h2⟩, h3⟩ := h
  obtain ⟨tl, htl, hlink, _⟩ := h1.first
  have h2' : tl.map slotAt = [] := by rw [htl] at h2; exact h2
  rw [h2'] at hlink
  have hx : (places ps cnt)[0]? = some (pageSize, 0) := by rw [htl]; rfl
  obtain ⟨m1, m2, _⟩ := places_mem (p := pageSize) (i := 0) (List.mem_of_getElem? hx) h1.slots.inv.cle
  have hat : AtSlot s.file.bytes fileSlot pageSize 0 := h1.slots.inv.pages.atSlot m1 m2
  obtain ⟨q, hq⟩ := hlink s rfl
  unfold tsMetaPages
  rw [filePage_ts, (ts_next hf hat rfl).2 _ hq]
  rfl

theorem IndexSt.tsIndex (h : IndexIs data parse wd s fm is c) (hf : Faithful idx s.file.bytes) {k : Nat} {p : LP} {m : IndexMeta}
    (hk : is[k]? = some (p, m)) : p.ts.indexMeta idx = .ok m.ts ∧
      p.ts.root idx = .ok (MemPtr.decode (slice s.file.bytes p.rootPos.toNat 12)).ts := by
  obtain ⟨⟨free, ps, cnt, E, P, h1, h2⟩, h3, h4⟩ := h
  have hnm := h3 _ (List.mem_of_getElem? hk)
  have hsl : ((places ps cnt).tail.map slotAt)[k]? = some p := by rw [h2]; simp [hk]
  rw [List.getElem?_map] at hsl
  obtain ⟨x, hx, rfl⟩ := Option.map_eq_some_iff.1 hsl
  rw [List.getElem?_tail] at hx
  obtain ⟨m1, m2, _⟩ := places_mem (p := x.1) (i := x.2) (List.mem_of_getElem? hx) h1.slots.inv.cle
  have hat : AtSlot s.file.bytes (slotAt x) x.1 x.2 := h1.slots.inv.pages.atSlot m1 m2
  obtain ⟨d1, d2⟩ := h1.slots.inv.md (k + 1) x m.bytes hx (by simp [hk])
  constructor
  · unfold TsPage.indexMeta
    rw [ts_metadata hf hat (by omega) d2]
    exact ts_readIndexMeta (by simp only at hnm; omega)
  · rw [ts_root hf hat, hat.rootPos]

theorem tsMapM_ok {α β : Type} {f : α → Res β} {g : α → β} : ∀ {l : List α}, (∀ a ∈ l, f a = .ok (g a)) → tsMapM f l = .ok (l.map g)
  | [], _ => rfl
  | a :: l, h => by
    rw [tsMapM, h a (by simp)]
    simp only [Res.bind_ok]
    rw [tsMapM_ok (fun x hx => h x (by simp [hx]))]
    rfl

theorem IndexSt.tsMetas (h : IndexIs data parse wd s fm is c) (hf : Faithful idx s.file.bytes) :
    tsMapM (fun p => TsPage.indexMeta idx p) (is.map (fun x => x.1.ts)) = .ok (is.map (fun x => x.2.ts)) := by
  have hall : ∀ x ∈ is, x.1.ts.indexMeta idx = .ok x.2.ts := by
    intro x hx
    obtain ⟨k, hk, hke⟩ := List.mem_iff_getElem.1 hx
    exact (h.tsIndex hf (k := k) (p := x.1) (m := x.2) (by rw [List.getElem?_eq_getElem hk, hke])).1
  clear h hf
  induction is with
  | nil => rfl
  | cons x xs ih =>
    rw [List.map_cons, tsMapM, hall x (by simp)]
    simp only [Res.bind_ok]
    rw [ih (fun y hy => hall y (by simp [hy]))]
    rfl

end

end Appendable
