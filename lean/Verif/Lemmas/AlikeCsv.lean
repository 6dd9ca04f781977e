import Verif.Lemmas.AlikeRun
import Verif.Lemmas.CsvRun
/-! The CSV handler on two index files that differ at most in the file metadata, the second with a longer data file. -/
namespace Appendable
open Spec Tree

section
variable {H1 H2 : Bytes} {fm2 : FileMeta} {num : Bytes → Option UInt64} {i : IndexFile} {data more : Bytes} {fm : FileMeta} {s t : PF} {is : List (LP × IndexMeta)}
  {c : Nat → List Entry} {js : List Job}

theorem rowSteps2 (hH : HeadIs H2 fm2) (ha : Alike H1 H2 s t) (hi : i.tree = fileSlot) {line : MemPtr} (hd : data.length < 2 ^ 64) {headers : List Bytes}
    (hn : ∀ h ∈ headers, h.length ≤ 236) {vs : List Bytes} (hle : vs.length ≤ headers.length) {pos : Nat} {cum : UInt64}
    (hc : line.offset + cum = UInt64.ofNat pos) (hat : TextAt data pos (joinCommas vs)) (hlen : (joinCommas vs).length + 1 < 2 ^ 32)
    (h : JIs data (csvParse num) (fun _ => 0) s fm is c js) :
    Steps2 H1 H2 data (csvParse num) (fun _ => 0) fm (csvFieldsLoop num i data line headers vs cum) (csvFieldsLoop num i (data ++ more) line headers vs cum) s t (js ++ rowJobs num line pos headers vs)
      (fun _ is' => Handles is is') := by
  induction vs generalizing headers pos cum s t is c js with
  | nil =>
    have : rowJobs num line pos headers [] = [] := by cases headers <;> rfl
    rw [this, List.append_nil]
    have hp : ∀ D, csvFieldsLoop num i D line headers [] cum = (Pure.pure () : Act PF Unit) := by intro D; cases headers <;> rfl
    rw [hp, hp]
    exact Steps2.pure ha h (Handles.refl _)
  | cons v vs ih =>
    cases headers with
    | nil => simp at hle
    | cons hd' headers =>
      have hv : TextAt data pos v ∧ v.length + 1 < 2 ^ 32 ∧ (vs ≠ [] → TextAt data (pos + v.length + 1) (joinCommas vs) ∧ (joinCommas vs).length + 1 < 2 ^ 32) := by
        cases vs with
        | nil => exact ⟨hat, hlen, fun h => absurd rfl h⟩
        | cons w ws =>
          simp only [joinCommas, List.length_append, List.length_cons] at hat hlen ⊢
          refine ⟨hat.left, by omega, fun _ => ⟨?_, by omega⟩⟩
          have := hat.right
          exact TextAt.right (t := [44]) this
      obtain ⟨hv1, hv2, hv3⟩ := hv
      have hvl := hv1.len
      have hty := csvType_eq num v
      unfold csvFieldsLoop rowJobs
      obtain ⟨e, he⟩ : ∃ e : Entry, e = (⟨⟨UInt64.ofNat pos, UInt32.ofNat v.length⟩, valueBytes (cell num v)⟩, line) := ⟨_, rfl⟩
      rw [← he]
      have hdist : Part (js ++ [⟨hd', (kindOf (cell num v)).code, [e], 0⟩])
          (js ++ ⟨hd', (kindOf (cell num v)).code, [e], 0⟩ :: rowJobs num line (pos + v.length + 1) headers vs) := by
        have := Part.left (js ++ [⟨hd', (kindOf (cell num v)).code, [e], 0⟩]) (rowJobs num line (pos + v.length + 1) headers vs)
        rwa [List.append_assoc] at this
      have hmerge : SameJobs (js ++ [⟨hd', csvType num v, [], 0⟩] ++ [⟨hd', csvType num v, [e], 0⟩]) (js ++ [⟨hd', csvType num v, [e], 0⟩]) := by
        have := sameJobs_merge js hd' (csvType num v) [] [e] 0 0
        simpa using this
      refine Steps2.bind (js1 := js ++ [⟨hd', csvType num v, [], 0⟩]) (h.findSteps2 ha hH hi smallWidths_zero (hn hd' (by simp)) (csvType num v)) ?_ ?_
      · have hd1 := hdist
        rw [← hty] at hd1 ⊢
        exact ((Part.left _ _).trans (Part.same hmerge)).trans hd1
      · rintro ⟨p, m⟩ s1 is1 c1 h1 ⟨hm, ⟨k, hk⟩, hh⟩ t1 ha1
        simp only at hm
        have hkey : KeyOK ⟨data, csvParse num, 0⟩ e.1 := by
          unfold KeyOK
          rw [if_pos rfl, he]
          have e1 : (UInt64.ofNat pos).toNat = pos := by rw [UInt64.toNat_ofNat', Nat.mod_eq_of_lt]; omega
          have e2 : (UInt32.ofNat v.length).toNat = v.length := by rw [UInt32.toNat_ofNat', Nat.mod_eq_of_lt]; omega
          simp only [e1, e2]
          exact ⟨hvl, by rw [hv1.take, csvParse_eq]⟩
        have hins := (h1.insertSteps2 ha1 more hk line hkey).same (ks := js ++ [⟨hd', csvType num v, [e], 0⟩]) (by
          have hel : (e.1, line) = e := by rw [he]
          rw [hm, hel]; exact hmerge)
        have hee : (⟨⟨line.offset + cum, UInt32.ofNat v.length⟩, csvParse num v⟩ : RV) = e.1 := by rw [hc, he, csvParse_eq]
        show Steps2 _ _ _ _ _ _ ((treeAt data (csvParse num) 0 p).insert ⟨⟨line.offset + cum, UInt32.ofNat v.length⟩, csvParse num v⟩ line >>= fun _ =>
          csvFieldsLoop num i data line headers vs (cum + (UInt32.ofNat v.length + 1).toUInt64))
          ((treeAt (data ++ more) (csvParse num) 0 p).insert ⟨⟨line.offset + cum, UInt32.ofNat v.length⟩, csvParse num v⟩ line >>= fun _ =>
          csvFieldsLoop num i (data ++ more) line headers vs (cum + (UInt32.ofNat v.length + 1).toUInt64)) _ _ _ _
        rw [hee]
        refine Steps2.bind hins ?_ ?_
        · rw [hty]; exact hdist
        · rintro _ s2 is2 c2 h2 rfl t2 ha2
          by_cases hvs : vs = []
          · subst hvs
            have e1 : rowJobs num line (pos + v.length + 1) headers [] = [] := by cases headers <;> rfl
            have e2 : ∀ D, csvFieldsLoop num i D line headers [] (cum + (UInt32.ofNat v.length + 1).toUInt64) = (Pure.pure () : Act PF Unit) := by
              intro D; cases headers <;> rfl
            rw [e1, e2, e2, ← hty]
            exact Steps2.pure ha2 h2 hh
          · obtain ⟨hv4, hv5⟩ := hv3 hvs
            have hcum : line.offset + (cum + (UInt32.ofNat v.length + 1).toUInt64) = UInt64.ofNat (pos + v.length + 1) := by
              rw [← UInt64.add_assoc, hc, UInt64.ofNat_add, UInt64.ofNat_add, UInt64.add_assoc]
              congr 1
              apply UInt64.toNat_inj.1
              rw [UInt32.toNat_toUInt64, UInt32.toNat_add, UInt64.toNat_add, UInt32.toNat_ofNat', UInt64.toNat_ofNat']
              show (v.length % 2 ^ 32 + 1) % 2 ^ 32 = (v.length % 2 ^ 64 + 1) % 2 ^ 64
              omega
            have := ih ha2 (headers := headers) (fun x hx => hn x (List.mem_cons_of_mem _ hx)) (by simpa using hle) hcum hv4 hv5 h2
            rw [List.append_assoc, hty] at this
            exact this.imp fun _ is' hh' => hh.trans hh'


/-- Handle the rows that begin at `off` in the data file `D`. -/
def rowsProg (num : Bytes → Option UInt64) (i : IndexFile) (D : Bytes) (headers : List Bytes) : Nat → List Bytes → Act PF Unit
  | _, [] => pure ()
  | off, l :: ls => do
    handleCSVLine num i D headers ⟨UInt64.ofNat off, UInt32.ofNat l.length⟩ l
    rowsProg num i D headers (off + l.length + 1) ls

theorem rowsProg_append {D : Bytes} {headers : List Bytes} (l1 l2 : List Bytes) {off : Nat} {s s' t : PF} (h1 : rowsProg num i D headers off l1 s = (.ok (), s'))
    (h2 : rowsProg num i D headers (off + (fileOf l1 []).length) l2 s' = (.ok (), t)) : rowsProg num i D headers off (l1 ++ l2) s = (.ok (), t) := by
  induction l1 generalizing off s with
  | nil =>
    cases h1
    have e : (fileOf [] []).length = 0 := by simp [fileOf]
    rw [e] at h2
    exact h2
  | cons l ls ih =>
    unfold rowsProg at h1
    obtain ⟨x, s1, e1, e2⟩ := Act.bind_okE h1
    rw [List.cons_append]
    unfold rowsProg
    rw [Act.bind_ok e1]
    refine ih e2 ?_
    have e : (fileOf (l :: ls) []).length = l.length + 1 + (fileOf ls []).length := by
      rw [fileOf_cons]; simp only [List.length_append, List.length_cons]; omega
    rw [e] at h2
    rw [show off + l.length + 1 + (fileOf ls []).length = off + (l.length + 1 + (fileOf ls []).length) by omega]
    exact h2

/-- What the loop of `Synchronize` does to one file, handling the rows does to the other. -/
theorem csvLoopSteps2 (hH : HeadIs H2 fm2) (ha : Alike H1 H2 s t) (hi : i.tree = fileSlot) (hd : data.length < 2 ^ 64) {tail : Bytes} (ht : (10 : UInt8) ∉ tail) {headers : List Bytes}
    (hhe : headers ≠ []) (hn : ∀ h ∈ headers, h.length ≤ 236) (rows : List (Bytes × List Bytes)) (pre : List Bytes)
    (hda : data = fileOf pre [] ++ fileOf (rows.map (·.1)) tail) (hno : ∀ x ∈ rows, (10 : UInt8) ∉ x.1)
    (hx : ∀ r ∈ rows, PlainRow r.1 r.2 ∧ r.1.length + 1 < 2 ^ 32 ∧ r.2.length ≤ headers.length)
    {fuel : Nat} (hfu : rows.length < fuel) {m m' : FileMeta} (hro : m.readOffset = UInt64.ofNat (fileOf pre []).length)
    (h : JIs data (csvParse num) (fun _ => 0) s fm is c js) {s' : PF} (hr : csvLoop num i data fuel headers m s = (.ok m', s')) :
    ∃ t', rowsProg num i (data ++ more) headers (fileOf pre []).length (rows.map (·.1)) t = (.ok (), t') ∧ Alike H1 H2 s' t' ∧
      m' = { m with readOffset := UInt64.ofNat (fileOf (pre ++ rows.map (·.1)) []).length } := by
  induction rows generalizing pre fuel m s t is c js with
  | nil =>
    obtain ⟨fuel, rfl⟩ : ∃ k, fuel = k + 1 := ⟨fuel - 1, by simp at hfu; omega⟩
    have hn : m.readOffset.toNat = (fileOf pre []).length := by
      rw [hro, UInt64.toNat_ofNat', Nat.mod_eq_of_lt]
      rw [hda, List.length_append] at hd; omega
    unfold csvLoop at hr
    have hdr : data.drop (fileOf pre []).length = tail := by
      rw [hda, List.drop_left']
      · simp [fileOf]
      · rfl
    rw [if_neg (by rw [hn, hda, List.length_append]; omega), hn, hdr, indexNewline_none.2 ht] at hr
    cases hr
    refine ⟨t, rfl, ha, ?_⟩
    rw [List.map_nil, List.append_nil, ← hro]
  | cons x rows ih =>
    obtain ⟨fuel, rfl⟩ : ∃ k, fuel = k + 1 := ⟨fuel - 1, by simp at hfu; omega⟩
    simp only [List.length_cons] at hfu
    have hlen : data.length = (fileOf pre []).length + (x.1.length + 1 + (fileOf (rows.map (·.1)) tail).length) := by
      rw [hda, List.map_cons, fileOf_cons]; simp only [List.length_append, List.length_cons]; omega
    have hrn : m.readOffset.toNat = (fileOf pre []).length := by
      rw [hro, UInt64.toNat_ofNat', Nat.mod_eq_of_lt]; omega
    have hdr : data.drop (fileOf pre []).length = x.1 ++ 10 :: fileOf (rows.map (·.1)) tail := by
      rw [hda, List.drop_left', List.map_cons, fileOf_cons]
      rfl
    obtain ⟨hx1, hx2, hx3⟩ := hx x (by simp)
    unfold csvLoop at hr
    rw [if_neg (by rw [hrn]; omega), hrn, hdr, indexNewline_line (hno x (by simp))] at hr
    simp only [List.take_left', if_neg hhe] at hr
    have hat : TextAt data (fileOf pre []).length (joinCommas x.2) := by
      have h1 : TextAt data (fileOf pre []).length x.1 := ⟨_, hdr, by omega⟩
      rcases hx1.1 with he | he
      · rw [← he]; exact h1
      · rw [he] at h1; exact h1.left
    have hjl := plainRow_len hx1
    obtain ⟨u, s1, e1, e2⟩ := Act.bind_okE hr
    have hline : ∀ D, handleCSVLine num i D headers ⟨m.readOffset, UInt32.ofNat x.1.length⟩ x.1 =
        csvFieldsLoop num i D ⟨m.readOffset, UInt32.ofNat x.1.length⟩ headers x.2 0 := by
      intro D; unfold handleCSVLine; rw [csvRead_plain hx1]
    rw [hline] at e1
    obtain ⟨k1, k2⟩ := rowSteps2 (more := more) (num := num) (line := ⟨m.readOffset, UInt32.ofNat x.1.length⟩) (cum := 0) hH ha hi hd hn hx3 (by rw [hro]; simp) hat (by omega) h
    obtain ⟨t1, f1, f2⟩ := k2 _ _ e1
    rcases k1 with ⟨a, s3, is', c', g1, g2, g3⟩ | ⟨s3, g1, _⟩ | ⟨s3, g1, _⟩
    · rw [g1] at e1; cases e1
      have hp : (fileOf (pre ++ [x.1]) []).length = (fileOf pre []).length + x.1.length + 1 := by
        rw [fileOf_append]; simp [fileOf]; omega
      obtain ⟨t', j1, j2, j3⟩ := ih f2 (pre ++ [x.1]) (m := { m with readOffset := m.readOffset + UInt64.ofNat x.1.length + 1 }) (by
          rw [hda, List.map_cons, fileOf_cons, fileOf_append]; simp [fileOf]) (fun y hy => hno y (by simp [hy])) (fun y hy => hx y (by simp [hy]))
        (fuel := fuel) (by omega) (by
          rw [hp, hro, UInt64.ofNat_add, UInt64.ofNat_add]; rfl) g2 e2
      refine ⟨t', ?_, j2, ?_⟩
      · rw [List.map_cons]
        unfold rowsProg
        rw [← hro, hline, Act.bind_ok f1, ← hp]
        exact j1
      · rw [j3, List.map_cons, List.append_assoc]; rfl
    · rw [g1] at e1; cases e1
    · rw [g1] at e1; cases e1

end
/-! ### Histories -/

variable {num : Bytes → Option UInt64} {i : IndexFile} {data : Bytes} {s : PF} {hline : Bytes} {headers : List Bytes}
  {rows : List (Bytes × List Bytes)} {ls : List Bytes}

theorem findOrCreate_tree {i i' : IndexFile} (h : i.tree = i'.tree) (name : Bytes) (ty : UInt8) : i.findOrCreate name ty = i'.findOrCreate name ty := by
  unfold IndexFile.findOrCreate; rw [h]

theorem csvFieldsLoop_tree {i i' : IndexFile} (h : i.tree = i'.tree) (D : Bytes) (line : MemPtr) (hs vs : List Bytes) (cum : UInt64) :
    csvFieldsLoop num i D line hs vs cum = csvFieldsLoop num i' D line hs vs cum := by
  induction vs generalizing hs cum with
  | nil => cases hs <;> rfl
  | cons v vs ih =>
    cases hs with
    | nil => rfl
    | cons x hs =>
      unfold csvFieldsLoop
      rw [findOrCreate_tree h]
      congr 1
      funext y
      obtain ⟨p, m⟩ := y
      simp only [ih]

theorem rowsProg_tree {i i' : IndexFile} (h : i.tree = i'.tree) (D : Bytes) (hs : List Bytes) (off : Nat) (l : List Bytes) :
    rowsProg num i D hs off l = rowsProg num i' D hs off l := by
  induction l generalizing off with
  | nil => rfl
  | cons x l ih =>
    unfold rowsProg handleCSVLine
    simp only [ih, csvFieldsLoop_tree h]

/-- The metadata after the lines `ls`. -/
def csvMeta (ls : List Bytes) : FileMeta := ⟨1, .csv, UInt64.ofNat (fileOf ls []).length, 0⟩

theorem csvRun_bytes {seen : List Bytes} (hr : CsvRun num data seen i s) {more : Bytes} (hd : (data ++ more).length < 2 ^ 64)
    (ht : PlainTable hline headers rows) {tail : Bytes} (hl : IsLines data ls tail) (hpre : ls <+: hline :: rows.map (·.1))
    (hs : ∀ d ∈ seen, ∀ l t, ¬ IsLines d [l] t) {t0 : PF} (hv : t0.Valid []) (hbu : t0.file.budget = none)
    (hb : t0.file.bytes = freshBytes .csv) :
    ∃ t, rowsProg num ⟨fileSlot, []⟩ (data ++ more) headers (hline.length + 1) ls.tail t0 = (.ok (), t) ∧
      Alike (headOf (csvMeta ls)) (headOf (csvMeta [])) s t := by
  induction hr generalizing ls tail more with
  | @create f f' hs' i s hf hfb h =>
    obtain ⟨u1, u2⟩ := lines_unique hl (show IsLines [] [] [] from ⟨rfl, by simp, by simp⟩)
    subst u1
    obtain ⟨g1, g2, g3⟩ := openIndex_freshBytes hf hfb h
    have hh := freshBytes_head .csv
    refine ⟨t0, rfl, g1, hv, g2, hbu, by rw [g3, hb], by rw [g3, freshBytes_length]; omega, fun k _ => by rw [g3, hb], by rw [g3]; exact hh, by rw [hb]; exact hh⟩
  | @sync data more0 seen i s s' hr h ih =>
    obtain ⟨l0, tl, hls⟩ := exists_lines data
    obtain ⟨ks, rfl, hkt⟩ := lines_grow hls hl
    have hd1 : data.length < 2 ^ 64 := by simp only [List.length_append] at hd; omega
    have hd2 : (data ++ more0).length < 2 ^ 64 := by simp only [List.length_append] at hd ⊢; omega
    have hpre0 : l0 <+: hline :: rows.map (·.1) := (List.prefix_append _ _).trans hpre
    have hs0 : ∀ d ∈ seen, ∀ l t, ¬ IsLines d [l] t := fun d hd' => hs d (by simp [hd'])
    obtain ⟨hi, hn, is, c, hj⟩ := csvRun_is hr hd1 ht hls hpre0 hs0
    obtain ⟨t1, k1, k2⟩ := ih (more := more0 ++ more) (by rw [← List.append_assoc]; exact hd) hls hpre0 hs0
    rw [← List.append_assoc] at k1
    have hj' : CsvAt num hline headers rows (data ++ more0) s is c l0 := JIs.grow hj more0
    obtain ⟨q, hq⟩ := hj'.idx.metadata hi
    have hj1 : CsvAt num hline headers rows (data ++ more0) (s.upd s.file.bytes q) is c l0 := ⟨hj'.idx.upd q, hj'.done⟩
    obtain ⟨q2, hq2⟩ := hj1.csvNames hi
    have hj2 : CsvAt num hline headers rows (data ++ more0) ((s.upd s.file.bytes q).upd (s.upd s.file.bytes q).file.bytes q2) is c l0 := ⟨hj1.idx.upd q2, hj1.done⟩
    have ha : Alike (headOf (csvMeta l0)) (headOf (csvMeta [])) ((s.upd s.file.bytes q).upd (s.upd s.file.bytes q).file.bytes q2) t1 :=
      (k2.upd q t1.file.pos).upd q2 t1.file.pos
    obtain ⟨sa, hsa⟩ : ∃ sa, sa = (s.upd s.file.bytes q).upd (s.upd s.file.bytes q).file.bytes q2 := ⟨_, rfl⟩
    rw [← hsa] at hj2 ha hq2
    unfold csvSync at h
    rw [Act.bind_ok hq, Act.bind_ok hq2] at h
    obtain ⟨m', s1, e1, e2⟩ := Act.bind_okE h
    have hls' : l0 ++ ks = (hline :: rows.map (·.1)).take (l0 ++ ks).length := List.prefix_iff_eq_take.1 hpre
    have hlen : (l0 ++ ks).length ≤ rows.length + 1 := by have := hpre.length_le; simpa using this
    have hfin : ∀ {t'}, Alike (headOf (csvMeta l0)) (headOf (csvMeta [])) s1 t' → m' = csvMeta (l0 ++ ks) →
        Alike (headOf (csvMeta (l0 ++ ks))) (headOf (csvMeta [])) s' t' := by
      intro t' g hm
      rw [← hm]
      refine g.setHead (fm := csvMeta l0) rfl ?_ hi e2
      rw [hm]; exact Nat.le_refl _
    cases l0 with
    | nil =>
      simp only [List.nil_append] at *
      cases k1
      have hj0 : csvJobs num hline headers (rows.take (([] : List Bytes).length - 1)) = [] := by simp [csvJobs, rowsJobs]
      rw [hj0] at e1
      change csvLoop num i (data ++ more0) ((data ++ more0).length + 1) [] ⟨1, .csv, 0, 0⟩ sa = _ at e1
      unfold csvLoop at e1
      rw [if_neg (by show ¬ 0 > _; omega)] at e1
      have hz : (⟨1, .csv, 0, 0⟩ : FileMeta).readOffset.toNat = 0 := rfl
      rw [hz, List.drop_zero] at e1
      cases ks with
      | nil =>
        have hdt : data ++ more0 = tail := by rw [hl.1]; simp [fileOf]
        rw [indexNewline_none.2 (by rw [hdt]; exact hl.2.2)] at e1
        cases e1
        exact ⟨t0, rfl, hfin ha rfl⟩
      | cons k ks =>
        simp only [List.length_cons, List.take_succ_cons, List.cons.injEq] at hls'
        obtain ⟨rfl, hks⟩ := hls'
        have hdk : data ++ more0 = k ++ 10 :: fileOf ks tail := by rw [hl.1, fileOf_cons]
        have hk10 := hl.2.1 k (by simp)
        have hin : indexNewline (data ++ more0) = some k.length := by rw [hdk]; exact indexNewline_line hk10 _
        rw [hin] at e1
        simp only [if_true] at e1
        have htk : (data ++ more0).take k.length = k := by rw [hdk, List.take_left']; rfl
        rw [htk, csvRead_plain ht.header] at e1
        simp only at e1
        have hks' : ks = (rows.take ks.length).map (·.1) := by rw [List.map_take]; exact hks
        have e0 : (fileOf [k] []).length = k.length + 1 := by simp [fileOf]
        obtain ⟨t', j1, j2, j3⟩ := csvLoopSteps2 (more := more) (num := num) (headIs_headOf (csvMeta [])) ha hi hd2 hl.2.2 (plainRow_ne ht.header) ht.names
          (rows.take ks.length) [k] (by rw [← hks', hdk]; simp [fileOf]) (by
            intro x hx
            refine hl.2.1 x.1 (List.mem_cons_of_mem _ ?_)
            rw [hks']; exact List.mem_map.2 ⟨x, hx, rfl⟩) (fun r hr => ht.row r (List.mem_of_mem_take hr)) (fuel := (data ++ more0).length) (by
            rw [List.length_take]
            have := fileOf_count ks tail
            rw [hdk]; simp only [List.length_append, List.length_cons]; omega)
          (m := ⟨1, .csv, (0 : UInt64) + UInt64.ofNat k.length + 1, 0⟩) (by
            rw [e0, UInt64.ofNat_add]; simp) hj2 e1
        rw [← hks', e0, rowsProg_tree (i' := ⟨fileSlot, []⟩) hi] at j1
        rw [← hks'] at j3
        exact ⟨t', j1, hfin j2 j3⟩
    | cons k l1 =>
      simp only [List.length_cons] at hn
      have hl10 : l1 ≠ [] := by intro hc; apply hn; rw [hc]; rfl
      have hn : firstOccurrences ((csvJobs num hline headers (rows.take ((k :: l1).length - 1))).map (·.name)) = headers := by
        unfold csvJobs
        refine rowsJobs_headers num ht.distinct _ ?_ ?_
        · intro hc
          have : l1.length = 0 := by
            have h3 := congrArg List.length hc
            simp only [List.length_take, List.length_cons, List.length_append, List.length_nil] at h3 hlen
            omega
          exact hl10 (List.length_eq_zero_iff.1 this)
        · intro r hr
          rw [List.head?_take] at hr
          split at hr
          · cases hr
          · exact ht.first r hr
      rw [hn] at e1
      simp only [List.cons_append, List.length_cons, List.take_succ_cons, List.cons.injEq] at hls'
      obtain ⟨rfl, hks⟩ := hls'
      have hk2 : ks = ((rows.take (l1 ++ ks).length).drop l1.length).map (·.1) := by
        rw [List.map_drop, List.map_take, ← hks, List.drop_left']; rfl
      obtain ⟨t', j1, j2, j3⟩ := csvLoopSteps2 (more := more) (num := num) (headIs_headOf (csvMeta [])) ha hi hd2 hl.2.2 (plainRow_ne ht.header) ht.names
        ((rows.take (l1 ++ ks).length).drop l1.length) (k :: l1) (by
          rw [← hk2, hl.1, fileOf_append]) (by
          intro x hx
          refine hl.2.1 x.1 (List.mem_append_right _ ?_)
          rw [hk2]; exact List.mem_map.2 ⟨x, hx, rfl⟩) (fun r hr => ht.row r (List.mem_of_mem_take (List.mem_of_mem_drop hr)))
        (fuel := (data ++ more0).length + 1) (by
          have e := congrArg List.length hk2
          rw [List.length_map] at e
          rw [← e]
          have := fileOf_count (k :: l1 ++ ks) tail
          rw [← hl.1] at this
          simp only [List.length_append] at this ⊢
          omega)
        (m := csvMeta (k :: l1)) rfl hj2 e1
      rw [← hk2, rowsProg_tree (i' := ⟨fileSlot, []⟩) hi] at j1
      rw [← hk2] at j3
      refine ⟨t', ?_, hfin j2 j3⟩
      have e0 : (fileOf (k :: l1) []).length = k.length + 1 + (fileOf l1 []).length := by
        rw [fileOf_cons]; simp only [List.length_append, List.length_cons]; omega
      rw [e0] at j1
      exact rowsProg_append l1 ks k1 j1
  | @reopen data seen i i' s s' f f' hs' hr hbf hu h ih =>
    have hd1 : data.length < 2 ^ 64 := by simp only [List.length_append] at hd; omega
    obtain ⟨hi, hn, is, c, hj⟩ := csvRun_is hr hd1 ht hl hpre hs
    obtain ⟨t, k1, k2⟩ := ih hd hl hpre hs
    refine ⟨t, k1, ?_⟩
    obtain ⟨⟨free, ps, cnt, E, P, h1, h2⟩, h3⟩ := hj.idx
    have hfr := valid_free k2.v1 h1.slots.valid
    subst hfr
    obtain ⟨s1, e1, e2, e3, e4, e5, _⟩ := openFile_valid' h1.slots.valid f hbf
    have hbb : s1.file.bytes = s.file.bytes := by rw [e3, hbf]
    have hbud : s1.file.budget = none := by rw [e5, hu]
    have hlive : ∀ p, Live s [] p → Live s1 [] p := by intro p hp; unfold Live at *; rw [hbb]; exact hp
    have hinv : IdxInv True data (csvParse num) (fun _ => 0) s1 (csvMeta ls) (is.map (·.2)) c [] ps cnt E P := by
      refine ⟨⟨e2, hbud, fun p hp => hlive p (h1.slots.live p hp), by rw [hbb]; exact h1.slots.inv⟩, ?_, h1.out, fun hst => (h1.used hst).same (by rw [hbb])⟩
      exact h1.forest.frame e2 hbud hlive (by rw [hbb]; omega) (by rw [hbb]; simp) (by rw [hbb]; simp)
    obtain ⟨q, hq⟩ := attach_existing hinv .csv hs'
    rw [if_neg (fun hc => hc rfl), if_neg (fun hc => hc rfl)] at hq
    unfold IndexFile.openIndex at h
    rw [e1] at h
    simp only at h
    rw [hq] at h
    cases h
    have hfin : Alike (headOf (csvMeta ls)) (headOf (csvMeta [])) s1 t :=
      ⟨e2, k2.v2, hbud, k2.b2, by rw [hbb]; exact k2.len, by rw [hbb]; exact k2.two, by rw [hbb]; exact k2.same, by rw [hbb]; exact k2.h1, k2.h2⟩
    exact hfin.upd q t.file.pos

/-- Two histories with the same data file end with the same bytes. -/
theorem csvRun_same {i' : IndexFile} {s' : PF} {seen seen' : List Bytes} (hr : CsvRun num data seen i s) (hr' : CsvRun num data seen' i' s') (hd : data.length < 2 ^ 64)
    (ht : PlainTable hline headers rows) {tail : Bytes} (hl : IsLines data ls tail) (hpre : ls <+: hline :: rows.map (·.1))
    (hs : ∀ d ∈ seen, ∀ l t, ¬ IsLines d [l] t) (hs' : ∀ d ∈ seen', ∀ l t, ¬ IsLines d [l] t) : s.file.bytes = s'.file.bytes := by
  obtain ⟨f, hf1, hf2⟩ : ∃ f : File, f.bytes = [] ∧ f.budget = none := ⟨⟨.mmap, [], 0, none⟩, rfl, rfl⟩
  obtain ⟨t0, e1, _⟩ := openIndex_fresh [] (csvParse num) (fun _ => 0) hf1 hf2 .csv []
  obtain ⟨g1, g2, g3⟩ := openIndex_freshBytes hf1 hf2 e1
  obtain ⟨t, k1, k2⟩ := csvRun_bytes hr (more := []) (by simpa using hd) ht hl hpre hs g1 g2 g3
  obtain ⟨t', k1', k2'⟩ := csvRun_bytes hr' (more := []) (by simpa using hd) ht hl hpre hs' g1 g2 g3
  rw [k1] at k1'
  cases k1'
  apply List.ext_getElem?
  intro k
  by_cases hk : k < 4117 ∨ 4138 ≤ k
  · rw [← k2.same k hk, ← k2'.same k hk]
  · have := k2.h1.trans k2'.h1.symm
    have := congrArg (fun l => l[k - 4117]?) this
    simp only [slice_getElem?, if_pos (show k - 4117 < 21 by omega)] at this
    rw [show 4117 + (k - 4117) = k by omega] at this
    exact this

end Appendable
