import Verif.Lemmas.Forest
/-! Properties C09–C19: the B+ trees, over all histories (`Spec.ForestRun`). -/
namespace Appendable
open Spec Tree

theorem minKey_le (k : RV) : ¬ KeyLt k minKey := by
  rintro (h | ⟨_, h | ⟨_, h⟩⟩)
  · unfold minKey at h; simp only at h; generalize k.value = a at h; cases h
  · exact absurd h (by simp [minKey, UInt64.lt_iff_toNat_lt])
  · exact absurd h (by simp [minKey, UInt32.lt_iff_toNat_lt])

theorem rank_minKey (es : List Entry) : rank es minKey = 0 :=
  countLt_eq_zero_of_le (fun x _ => minKey_le x)

theorem TreeIs.asc {t s free es ps} (h : TreeIs t s free es ps) : Ascending es := by
  rcases h.root with ⟨_, rfl, _⟩ | ⟨_, k, hr, _⟩
  · exact .nil
  · exact hr.ascending

theorem TreeIs.keyOK {t s free es ps} (h : TreeIs t s free es ps) : ∀ e ∈ es, KeyOK t.cfg e.1 := by
  rcases h.root with ⟨_, rfl, _⟩ | ⟨_, k, hr, _⟩
  · simp
  · exact hr.keyOK

theorem asc_sorted {es : List Entry} (h : Ascending es) : SortedKeys (es.map Prod.fst) := by
  unfold SortedKeys; rw [List.pairwise_map]; exact h

theorem rank_lt_iff {es : List Entry} (h : Ascending es) (k : RV) (i : Nat) (hi : i < es.length) :
    i < rank es k ↔ KeyLt es[i].1 k := by
  have := sorted_lt_countLt (asc_sorted h) k i (by simpa using hi)
  simp only [List.getElem_map] at this
  exact this.symm

theorem rank_get {es : List Entry} (h : Ascending es) {e : Entry} (he : e ∈ es) : es[rank es e.1]? = some e := by
  obtain ⟨i, hi, rfl⟩ := List.mem_iff_getElem.1 he
  have h1 : ¬ i < rank es es[i].1 := by rw [rank_lt_iff h _ i hi]; exact KeyLt.irrefl _
  have hle : rank es es[i].1 ≤ i := by omega
  have h2 : ¬ rank es es[i].1 < i := by
    intro hlt
    have h3 : ¬ rank es es[i].1 < rank es es[i].1 := by omega
    rw [rank_lt_iff h _ (rank es es[i].1) (by omega)] at h3
    exact h3 (List.pairwise_iff_getElem.1 h _ _ _ _ hlt)
  have : rank es es[i].1 = i := by omega
  rw [this, List.getElem?_eq_getElem hi]

theorem mem_drop_rank {es : List Entry} (h : Ascending es) (k : RV) (e : Entry) :
    e ∈ es.drop (rank es k) ↔ e ∈ es ∧ ¬ KeyLt e.1 k := by
  constructor
  · intro he
    obtain ⟨i, hi, rfl⟩ := List.mem_iff_getElem.1 he
    simp only [List.length_drop] at hi
    simp only [List.getElem_drop]
    refine ⟨List.getElem_mem _, ?_⟩
    rw [← rank_lt_iff h _ _ (by omega)]; omega
  · rintro ⟨he, hk⟩
    obtain ⟨i, hi, rfl⟩ := List.mem_iff_getElem.1 he
    rw [← rank_lt_iff h _ _ hi] at hk
    rw [List.mem_iff_getElem]
    refine ⟨i - rank es k, by simp only [List.length_drop]; omega, ?_⟩
    simp only [List.getElem_drop]
    congr 1; omega

theorem mem_take_rank {es : List Entry} (h : Ascending es) (k : RV) (e : Entry) :
    e ∈ es.take (rank es k) ↔ e ∈ es ∧ KeyLt e.1 k := by
  constructor
  · intro he
    obtain ⟨i, hi, rfl⟩ := List.mem_iff_getElem.1 he
    simp only [List.length_take] at hi
    simp only [List.getElem_take]
    refine ⟨List.getElem_mem _, ?_⟩
    rw [← rank_lt_iff h _ _ (by omega)]; omega
  · rintro ⟨he, hk⟩
    obtain ⟨i, hi, rfl⟩ := List.mem_iff_getElem.1 he
    rw [← rank_lt_iff h _ _ hi] at hk
    rw [List.mem_iff_getElem]
    exact ⟨i, by simp only [List.length_take]; omega, by simp only [List.getElem_take]⟩

theorem nextRun_unique {t : Tree} {it : Iter} {s : PF} {xs ys : List Entry} (h1 : NextRun t it s xs)
    (h2 : NextRun t it s ys) : xs = ys := by
  induction h1 generalizing ys with
  | stop h he =>
    cases h2 with
    | stop h' he' => rfl
    | step h' hk hp rest => rw [h] at h'; simp at h'
  | step h hk hp rest ih =>
    cases h2 with
    | stop h' he' => rw [h] at h'; simp at h'
    | step h' hk' hp' rest' =>
      rw [h] at h'
      simp at h'
      obtain ⟨rfl, rfl⟩ := h'
      rw [hk] at hk'; rw [hp] at hp'
      cases hk'; cases hp'
      rw [ih rest']

theorem prevRun_unique {t : Tree} {it : Iter} {s : PF} {xs ys : List Entry} (h1 : PrevRun t it s xs)
    (h2 : PrevRun t it s ys) : xs = ys := by
  induction h1 generalizing ys with
  | stop h he =>
    cases h2 with
    | stop h' he' => rfl
    | step h' hk hp rest => rw [h] at h'; simp at h'
  | step h hk hp rest ih =>
    cases h2 with
    | stop h' he' => rw [h] at h'; simp at h'
    | step h' hk' hp' rest' =>
      rw [h] at h'
      simp at h'
      obtain ⟨rfl, rfl⟩ := h'
      rw [hk] at hk'; rw [hp] at hp'
      cases hk'; cases hp'
      rw [ih rest']

/-- C09: after any history, a scan of tree `i` from the smallest key shows exactly the (key, pointer) pairs that
were inserted into it successfully, once each, in strictly ascending key order. -/
theorem C09_sorted_map {ts : List Tree} {s : PF} {c : Nat → List (RV × MemPtr)} {i : Nat} {t : Tree}
    (hf : ForestRun ts s c) (ht : ts[i]? = some t) :
    ∃ xs, NextRun t (iter minKey) s xs ∧ xs.Perm (c i) ∧ Ascending xs := by
  obtain ⟨free, E, P, hi⟩ := forestInv hf
  obtain ⟨hti, _, hp⟩ := hi.tree i t ht
  refine ⟨E i, ?_, hp, hti.asc⟩
  have := nextRun_of hti minKey (.inr (rank_minKey _))
  rwa [rank_minKey, List.drop_zero] at this

/-- C09: and the scan is unique, so nothing else is ever shown. -/
theorem C09_scan_unique {ts : List Tree} {s : PF} {c : Nat → List (RV × MemPtr)} {i : Nat} {t : Tree} {xs : List (RV × MemPtr)}
    (hf : ForestRun ts s c) (ht : ts[i]? = some t) (h : NextRun t (iter minKey) s xs) :
    xs.Perm (c i) ∧ Ascending xs := by
  obtain ⟨ys, h1, h2, h3⟩ := C09_sorted_map hf ht
  rw [nextRun_unique h h1]; exact ⟨h2, h3⟩

/-- C10: inserting a key that is stored returns an error; the file and the allocator are unchanged. -/
theorem C10_duplicate {ts : List Tree} {s : PF} {c : Nat → List (RV × MemPtr)} {i : Nat} {t : Tree} {k : RV} {v v' : MemPtr}
    (hf : ForestRun ts s c) (ht : ts[i]? = some t) (hk : (k, v) ∈ c i) :
    ∃ s', t.insert k v' s = (.err (.msg "key already exists"), s') ∧ s'.file.bytes = s.file.bytes ∧
      s'.ring = s.ring ∧ s'.head = s.head ∧ s'.count = s.count ∧ s'.lastPage = s.lastPage := by
  obtain ⟨free, E, P, hi⟩ := forestInv hf
  obtain ⟨hti, hw, hp⟩ := hi.tree i t ht
  have hm : (k, v) ∈ E i := hp.mem_iff.2 hk
  cases insert_out (key := k) (value := v') hw.vlen (hti.keyOK _ hm) hti with
  | dup p e he hk run => exact ⟨_, run, rfl, rfl, rfl, rfl, rfl⟩
  | full s1 new run big => exact absurd rfl (new _ hm)
  | ok s1 free' es' ps' new run rel tree out fresh => exact absurd rfl (new _ hm)

/-- C10: so successfully inserted keys are pairwise different. -/
theorem C10_keys_distinct {ts : List Tree} {s : PF} {c : Nat → List (RV × MemPtr)} {i : Nat} {t : Tree}
    (hf : ForestRun ts s c) (ht : ts[i]? = some t) : ((c i).map Prod.fst).Nodup := by
  obtain ⟨free, E, P, hi⟩ := forestInv hf
  obtain ⟨hti, hw, hp⟩ := hi.tree i t ht
  rw [← (hp.map Prod.fst).nodup_iff]
  exact (asc_sorted hti.asc).imp (fun h => h.ne)

/-- C11 (keys shorter than 65536 bytes): on a fixed-width index a key of another length is rejected, in any
state, and nothing at all changes.  Missing: longer keys, whose length is truncated to 16 bits before the
comparison (`C11_width_violated`). -/
theorem C11_width_partial (t : Tree) (s : PF) (k : RV) (v : MemPtr) (hw : t.cfg.width ≠ 0)
    (hl : k.value.length + 1 ≠ t.cfg.width.toNat) (hlt : k.value.length < 65536) :
    t.insert k v s = (.err (.msg "key does not match with BPTree width"), s) := by
  refine insert_wrong hw ?_
  intro hc
  have := congrArg UInt16.toNat hc
  rw [UInt16.toNat_ofNat_of_lt' (by show k.value.length < 2 ^ 16; omega)] at this
  have hpos : 0 < t.cfg.width.toNat := by
    rcases Nat.eq_zero_or_pos t.cfg.width.toNat with h0 | h0
    · exact absurd (UInt16.toNat.inj (by simpa using h0)) hw
    · exact h0
  rw [UInt16.toNat_sub_of_le _ _ (by rw [UInt16.le_iff_toNat_le]; exact hpos)] at this
  simp at this
  omega

example : ∃ k : RV, k.value.length + 1 ≠ (9 : UInt16).toNat ∧ k.value.length < 65536 := ⟨⟨⟨0, 0⟩, [1, 2, 3]⟩, by decide, by decide⟩

/-- C12: a stored key is found, with the pointer it was inserted with, at any later time. -/
theorem C12_find_stored {ts : List Tree} {s : PF} {c : Nat → List (RV × MemPtr)} {i : Nat} {t : Tree} {k : RV} {v : MemPtr}
    (hf : ForestRun ts s c) (ht : ts[i]? = some t) (hk : (k, v) ∈ c i) : ∃ s', t.find k s = (.ok (k, v), s') := by
  obtain ⟨free, E, P, hi⟩ := forestInv hf
  obtain ⟨hti, hw, hp⟩ := hi.tree i t ht
  have hm : (k, v) ∈ E i := hp.mem_iff.2 hk
  have hg := rank_get hti.asc hm
  obtain ⟨p, on, h1, _, h2⟩ := find_ok hti k
  rcases h2 with ⟨_, k', v', h3, h4⟩ | ⟨h3, _⟩
  · simp only at hg
    rw [hg] at h3; cases h3
    exact ⟨_, h4⟩
  · rw [h1 (.inl ⟨_, hm, rfl⟩)] at h3; cases h3

/-- C13, soundness: what `Find` returns is the least stored key not below the target, or the zero value.  It does
not fail.  If the target is stored, or is below all stored keys, the least key not below it is returned.
Missing: the zero value may be returned although there is a greater key (`C13_find_violated`). -/
theorem C13_find_partial {ts : List Tree} {s : PF} {c : Nat → List (RV × MemPtr)} {i : Nat} {t : Tree} (k : RV)
    (hf : ForestRun ts s c) (ht : ts[i]? = some t) :
    ∃ r s', t.find k s = (.ok r, s') ∧
      ((r ∈ c i ∧ ¬ KeyLt r.1 k ∧ ∀ e ∈ c i, ¬ KeyLt e.1 k → ¬ KeyLt e.1 r.1) ∨
       (r = (minKey, ⟨0, 0⟩) ∧ (∀ e ∈ c i, e.1 ≠ k) ∧ ((∃ e ∈ c i, KeyLt e.1 k) ∨ c i = []))) := by
  obtain ⟨free, E, P, hi⟩ := forestInv hf
  obtain ⟨hti, hw, hp⟩ := hi.tree i t ht
  obtain ⟨p, on, h1, h0, h2⟩ := find_ok hti k
  rcases h2 with ⟨_, k', v', h3, h4⟩ | ⟨h3, h4⟩
  · refine ⟨_, _, h4, .inl ?_⟩
    obtain ⟨hlt, hget⟩ := List.getElem?_eq_some_iff.1 h3
    have hmem : (k', v') ∈ (E i).drop (rank (E i) k) := by
      rw [List.drop_eq_getElem_cons hlt, hget]; simp
    have := (mem_drop_rank hti.asc k _).1 hmem
    refine ⟨hp.mem_iff.1 this.1, this.2, fun e he hek => ?_⟩
    have hed := (mem_drop_rank hti.asc k e).2 ⟨hp.mem_iff.2 he, hek⟩
    rw [List.drop_eq_getElem_cons hlt, hget] at hed
    rcases List.mem_cons.1 hed with rfl | hed
    · exact KeyLt.irrefl _
    · have hasc : Ascending ((E i).drop (rank (E i) k)) := List.Pairwise.sublist (List.drop_sublist _ _) hti.asc
      rw [List.drop_eq_getElem_cons hlt, hget] at hasc
      exact ((List.pairwise_cons.1 hasc).1 e hed).asymm
  · refine ⟨_, _, h4, .inr ⟨rfl, fun e he hek => ?_, ?_⟩⟩
    · rw [h1 (.inl ⟨e, hp.mem_iff.2 he, hek⟩)] at h3; cases h3
    · by_cases hne : E i = []
      · right
        have := hp.length_eq
        rw [hne] at this
        exact List.length_eq_zero_iff.1 this.symm
      · left
        have hr0 : rank (E i) k ≠ 0 := fun hc => by rw [h0 hne hc] at h3; cases h3
        have hlen : 0 < (E i).length := List.length_pos_iff.2 hne
        refine ⟨(E i)[0], hp.mem_iff.1 (List.getElem_mem _), ?_⟩
        rw [← rank_lt_iff hti.asc k 0 hlen]; omega

theorem hit_of_one {t : Tree} {es es' : List (RV × MemPtr)} {k : RV} (ha : Ascending es) (hp : es.Perm es')
    (h1 : leafBytes t.cfg.width es' ≤ pageSize) (h2 : ∃ e ∈ es', ¬ KeyLt e.1 k) : Hit t es k := by
  refine .inr ⟨by rw [leafBytes_perm hp]; exact h1, ?_⟩
  obtain ⟨e, he, hek⟩ := h2
  have := (mem_drop_rank ha k e).2 ⟨hp.mem_iff.2 he, hek⟩
  have := List.length_pos_of_mem this
  rw [List.length_drop] at this; omega

/-- C13, indexes of one page: as long as the entries, in their file format, fit on one page, `Find` is exact: it
returns the least stored key not below the target, and the zero value if there is none. -/
theorem C13_find_one_page_partial {ts : List Tree} {s : PF} {c : Nat → List (RV × MemPtr)} {i : Nat} {t : Tree} (k : RV)
    (hf : ForestRun ts s c) (ht : ts[i]? = some t) (h1 : leafBytes t.cfg.width (c i) ≤ 4096) :
    ∃ r s', t.find k s = (.ok r, s') ∧
      ((r ∈ c i ∧ ¬ KeyLt r.1 k ∧ ∀ e ∈ c i, ¬ KeyLt e.1 k → ¬ KeyLt e.1 r.1) ∨
       (r = (minKey, ⟨0, 0⟩) ∧ ∀ e ∈ c i, KeyLt e.1 k)) := by
  obtain ⟨r, s', hr, h | h⟩ := C13_find_partial k hf ht
  · exact ⟨r, s', hr, .inl h⟩
  · obtain ⟨free, E, P, hi⟩ := forestInv hf
    obtain ⟨hti, hw, hp⟩ := hi.tree i t ht
    by_cases hex : ∃ e ∈ c i, ¬ KeyLt e.1 k
    · obtain ⟨p, on, g1, _, g2⟩ := find_ok hti k
      rcases g2 with ⟨_, k', v', g3, g4⟩ | ⟨g3, g4⟩
      · exfalso
        rw [hr] at g4
        simp only [Prod.mk.injEq, Res.ok.injEq] at g4
        rw [h.1] at g4
        obtain ⟨e, he, hek⟩ := hex
        have hm := List.mem_of_getElem? g3
        rcases h.2.2 with hl | hl
        · obtain ⟨hlt, hget⟩ := List.getElem?_eq_some_iff.1 g3
          have hmem : (k', v') ∈ (E i).drop (rank (E i) k) := by
            rw [List.drop_eq_getElem_cons hlt, hget]; simp
          have hkk := ((mem_drop_rank hti.asc k _).1 hmem).2
          simp only [Prod.mk.injEq] at g4
          rw [← g4.1.1] at hkk
          have hne : k ≠ minKey := fun hc => by
            obtain ⟨x, _, hx⟩ := hl
            rw [hc] at hx
            exact absurd hx (minKey_le _)
          rcases KeyLt.total minKey k with hx | hx | hx
          · exact hkk hx
          · exact hne hx.symm
          · exact minKey_le _ hx
        · rw [hl] at he; simp at he
      · rw [g1 (hit_of_one hti.asc hp h1 hex)] at g3; cases g3
    · refine ⟨r, s', hr, .inr ⟨h.1, fun e he => ?_⟩⟩
      by_cases hlt : KeyLt e.1 k
      · exact hlt
      · exact absurd ⟨e, he, hlt⟩ hex

/-- C14, soundness: if `Contains` says yes, then some stored entry has the value bytes, unless the value is
empty (then yes is also the answer when nothing was found).  It does not fail.  If the exact key is stored the
answer is yes.  Missing: completeness for probes with a zero data pointer (`C14_contains_violated`), and
soundness for the empty value (`C14_contains_empty_violated`). -/
theorem C14_contains_partial {ts : List Tree} {s : PF} {c : Nat → List (RV × MemPtr)} {i : Nat} {t : Tree} (k : RV)
    (hf : ForestRun ts s c) (ht : ts[i]? = some t) :
    ∃ b s', t.contains k s = (.ok b, s') ∧ (b = true → k.value ≠ [] → ∃ e ∈ c i, e.1.value = k.value) ∧
      ((∃ e ∈ c i, e.1 = k) → b = true) := by
  obtain ⟨r, s', h1, h2⟩ := C13_find_partial k hf ht
  refine ⟨r.1.value == k.value, s', ?_, ?_, ?_⟩
  · unfold Tree.contains
    rw [Act.bind_ok h1]; rfl
  · intro hb hne
    have hb' : r.1.value = k.value := by simpa using hb
    rcases h2 with ⟨h3, _⟩ | ⟨rfl, _⟩
    · exact ⟨r, h3, hb'⟩
    · exact absurd hb'.symm hne
  · rintro ⟨e, he, rfl⟩
    rcases h2 with ⟨h3, h4, h5⟩ | ⟨rfl, h4, _⟩
    · have h6 := h5 e he (KeyLt.irrefl _)
      rcases KeyLt.total r.1 e.1 with h | h | h
      · exact absurd h h4
      · rw [h]; simp
      · exact absurd h h6
    · exact absurd rfl (h4 e he)

/-- C14, indexes of one page: with a zero data pointer in the probe and a value that is not empty, `Contains` is
exact: yes if and only if some stored entry has the value bytes. -/
theorem C14_contains_one_page_partial {ts : List Tree} {s : PF} {c : Nat → List (RV × MemPtr)} {i : Nat} {t : Tree}
    (value : Bytes) (hf : ForestRun ts s c) (ht : ts[i]? = some t) (h1 : leafBytes t.cfg.width (c i) ≤ 4096)
    (hv : value ≠ []) :
    ∃ b s', t.contains ⟨⟨0, 0⟩, value⟩ s = (.ok b, s') ∧ (b = true ↔ ∃ e ∈ c i, e.1.value = value) := by
  obtain ⟨r, s', hr, h2⟩ := C13_find_one_page_partial ⟨⟨0, 0⟩, value⟩ hf ht h1
  refine ⟨r.1.value == value, s', ?_, ?_⟩
  · unfold Tree.contains
    rw [Act.bind_ok hr]; rfl
  · have hle : ∀ e : RV, e.value = value → ¬ KeyLt e ⟨⟨0, 0⟩, value⟩ := by
      intro e he h
      rcases h with h | ⟨_, h | ⟨_, h⟩⟩
      · rw [he] at h; exact lex_irrefl _ h
      · exact absurd h (by simp [UInt64.lt_iff_toNat_lt])
      · exact absurd h (by simp [UInt32.lt_iff_toNat_lt])
    rcases h2 with ⟨h3, h4, h5⟩ | ⟨rfl, h4⟩
    · constructor
      · intro hb; exact ⟨r, h3, by simpa using hb⟩
      · rintro ⟨e, he, hev⟩
        have h6 := h5 e he (hle e.1 hev)
        rcases KeyLt.total r.1 ⟨⟨0, 0⟩, value⟩ with h | h | h
        · exact absurd h h4
        · rw [h]; simp
        · have h7 := not_keyLt.1 h6
          rcases h7 with h7 | h7
          · rw [← h7]; simpa using hev
          · rcases h7 with h7 | ⟨h7, _⟩
            · rw [hev] at h7
              rcases h with h | ⟨h, _⟩
              · exact absurd (lex_trans h7 h) (lex_irrefl _)
              · simp only at h; rw [← h]; simp
            · rw [h7]; simpa using hev
    · constructor
      · intro hb; exact absurd (by simpa [minKey] using hb) hv
      · rintro ⟨e, he, hev⟩; exact absurd (h4 e he) (hle e.1 hev)

/-- C15, indexes of one page: there `Next` from any key, stored or not, shows every key not below it, each once, in
ascending order, and then stops without error. -/
theorem C15_forward_one_page {ts : List Tree} {s : PF} {c : Nat → List (RV × MemPtr)} {i : Nat} {t : Tree} (k : RV)
    (hf : ForestRun ts s c) (ht : ts[i]? = some t) (h1 : leafBytes t.cfg.width (c i) ≤ 4096) :
    ∃ xs, NextRun t (iter k) s xs ∧ Ascending xs ∧ ∀ e, e ∈ xs ↔ e ∈ c i ∧ ¬ KeyLt e.1 k := by
  obtain ⟨free, E, P, hi⟩ := forestInv hf
  obtain ⟨hti, hw, hp⟩ := hi.tree i t ht
  have hmem : ∀ e, e ∈ (E i).drop (rank (E i) k) ↔ e ∈ c i ∧ ¬ KeyLt e.1 k := by
    intro x; rw [mem_drop_rank hti.asc, hp.mem_iff]
  refine ⟨_, ?_, List.Pairwise.sublist (List.drop_sublist _ _) hti.asc, hmem⟩
  by_cases hex : ∃ e ∈ c i, ¬ KeyLt e.1 k
  · exact nextRun_of hti k (.inl (hit_of_one hti.asc hp h1 hex))
  · have hd : (E i).drop (rank (E i) k) = [] := List.eq_nil_iff_forall_not_mem.2 (fun x hx => hex ⟨x, (hmem x).1 hx⟩)
    rw [hd]
    obtain ⟨it, p, on, g1, g2, g3, g4, g5⟩ := next_first hti k
    have hon : on = false := by
      by_cases hne : E i = []
      · exact g4 hne
      · cases on with
        | false => rfl
        | true =>
          have := (g3 hne).le.2 rfl
          have := List.drop_eq_nil_iff.1 hd
          omega
    rw [hon] at g1
    exact .stop g1 g2

/-- C15: `Next` from a stored key shows that key and then every greater one, each once, in ascending order, with
its pointer, and then stops without error. -/
theorem C15_forward {ts : List Tree} {s : PF} {c : Nat → List (RV × MemPtr)} {i : Nat} {t : Tree} {k : RV}
    (hf : ForestRun ts s c) (ht : ts[i]? = some t) (hk : ∃ e ∈ c i, e.1 = k) :
    ∃ xs, NextRun t (iter k) s xs ∧ Ascending xs ∧ ∀ e, e ∈ xs ↔ e ∈ c i ∧ ¬ KeyLt e.1 k := by
  obtain ⟨free, E, P, hi⟩ := forestInv hf
  obtain ⟨hti, hw, hp⟩ := hi.tree i t ht
  obtain ⟨e, he, hek⟩ := hk
  refine ⟨_, nextRun_of hti k (.inl (.inl ⟨e, hp.mem_iff.2 he, hek⟩)), List.Pairwise.sublist (List.drop_sublist _ _) hti.asc, ?_⟩
  intro x
  rw [mem_drop_rank hti.asc, hp.mem_iff]

/-- C16: `Prev` from any key shows every strictly smaller key, each once, in descending order, with its pointer,
and then stops without error. -/
theorem C16_backward {ts : List Tree} {s : PF} {c : Nat → List (RV × MemPtr)} {i : Nat} {t : Tree} (k : RV)
    (hf : ForestRun ts s c) (ht : ts[i]? = some t) :
    ∃ xs, PrevRun t (iter k) s xs ∧ Ascending xs.reverse ∧ ∀ e, e ∈ xs ↔ e ∈ c i ∧ KeyLt e.1 k := by
  obtain ⟨free, E, P, hi⟩ := forestInv hf
  obtain ⟨hti, hw, hp⟩ := hi.tree i t ht
  refine ⟨_, prevRun_of hti k, ?_, ?_⟩
  · rw [List.reverse_reverse]; exact List.Pairwise.sublist (List.take_sublist _ _) hti.asc
  · intro x
    rw [List.mem_reverse, mem_take_rank hti.asc, hp.mem_iff]

theorem drive_at {t : Tree} {es : List Entry} : ∀ (ms : List Bool) {s : PF} {it : Iter} {i : Nat} {js : List Nat},
    IterAt t s it es i true → positions es.length i ms = some js → drive t ms it s = js.map (fun j => es[j]?) := by
  intro ms
  induction ms with
  | nil => intro s it i js _ h; simp [positions] at h; subst h; rfl
  | cons m ms ih =>
    intro s it i js hat h
    cases m with
    | true =>
      simp only [positions] at h
      split at h
      · rename_i hlt
        obtain ⟨js', h1, rfl⟩ := Option.map_eq_some_iff.1 h
        obtain ⟨it', p, h2, h3⟩ := (next_step hat).1 (by simpa using hlt)
        simp only [if_true] at h3
        have hc := h3.cur (k := es[i + 1].1) (v := es[i + 1].2) (List.getElem?_eq_getElem hlt)
        simp only [drive, if_true, h2, hc.1, hc.2, List.map_cons, ih (h3.upd p) h1, List.getElem?_eq_getElem hlt]
      · simp at h
    | false =>
      simp only [positions] at h
      split at h
      · rename_i hpos
        obtain ⟨js', h1, rfl⟩ := Option.map_eq_some_iff.1 h
        obtain ⟨it', p, h2, h3⟩ := (prev_step hat).1 (by omega)
        have hlt := h3.le.2 rfl
        have hc := h3.cur (k := es[i - 1].1) (v := es[i - 1].2) (List.getElem?_eq_getElem hlt)
        simp only [drive, Bool.false_eq_true, if_false, h2, hc.1, hc.2, List.map_cons, ih (h3.upd p) h1, List.getElem?_eq_getElem hlt]
      · simp at h

/-- C17 while the iterator stays on entries: started with `Next` at a stored key, any mixture of `Next` and `Prev`
calls that does not run off either end shows the entries at the expected positions of the sorted list.
Missing: after running off the end, `Prev` does not come back correctly (`C17_direction_violated`). -/
theorem C17_direction_partial {ts : List Tree} {s : PF} {c : Nat → List (RV × MemPtr)} {i : Nat} {t : Tree}
    (hf : ForestRun ts s c) (ht : ts[i]? = some t) :
    ∃ es : List (RV × MemPtr), es.Perm (c i) ∧ Ascending es ∧ ∀ j (hj : j < es.length) ms js,
      positions es.length j ms = some js →
      drive t (true :: ms) (iter es[j].1) s = (j :: js).map (fun j => es[j]?) := by
  obtain ⟨free, E, P, hi⟩ := forestInv hf
  obtain ⟨hti, hw, hp⟩ := hi.tree i t ht
  refine ⟨E i, hp, hti.asc, fun j hj ms js hpos => ?_⟩
  have hmem : (E i)[j] ∈ E i := List.getElem_mem hj
  obtain ⟨it, p, on, h1, h2, h3, h4, h5⟩ := next_first hti (E i)[j].1
  have hat := h3 (List.ne_nil_of_length_pos (by omega))
  rw [h5 (.inl ⟨_, hmem, rfl⟩)] at hat h1
  have hr : rank (E i) (E i)[j].1 = j := by
    have h6 := rank_lt_iff hti.asc (E i)[j].1
    have h7 : ¬ j < rank (E i) (E i)[j].1 := by rw [h6 j hj]; exact KeyLt.irrefl _
    have h8 : ¬ rank (E i) (E i)[j].1 < j := by
      intro hlt
      have h9 := (h6 (rank (E i) (E i)[j].1) (by omega)).2 (List.pairwise_iff_getElem.1 hti.asc _ _ _ _ hlt)
      omega
    omega
  rw [hr] at hat
  have hc := hat.cur (k := (E i)[j].1) (v := (E i)[j].2) (List.getElem?_eq_getElem hj)
  simp only [drive, if_true, h1, hc.1, hc.2, List.map_cons, drive_at ms (hat.upd p) hpos, List.getElem?_eq_getElem hj]

/-- C18: `Insert` of a storable key never panics, whatever the history: it succeeds, or reports a duplicate, or
reports that the file cannot grow (which needs a file of about 2^62 bytes).  (Writing past the end of a page and
writing an empty node are panics.) -/
theorem C18_insert_total {ts : List Tree} {s : PF} {c : Nat → List (RV × MemPtr)} {i : Nat} {t : Tree} {k : RV} (v : MemPtr)
    (hf : ForestRun ts s c) (ht : ts[i]? = some t) (hk : KeyOK t.cfg k) :
    (∃ s', t.insert k v s = (.ok (), s') ∧ ∀ e ∈ c i, e.1 ≠ k) ∨
    (∃ s', t.insert k v s = (.err (.msg "key already exists"), s') ∧ ∃ e ∈ c i, e.1 = k) ∨
    (∃ s', t.insert k v s = (.err .io, s') ∧ ¬ Roomy s) := by
  obtain ⟨free, E, P, hi⟩ := forestInv hf
  obtain ⟨hti, hw, hp⟩ := hi.tree i t ht
  cases insert_out (key := k) (value := v) hw.vlen hk hti with
  | dup p e he hk run => exact .inr (.inl ⟨_, run, e, hp.mem_iff.1 he, hk⟩)
  | full s1 new run big => exact .inr (.inr ⟨_, run, by unfold Roomy; omega⟩)
  | ok s1 free' es' ps' new run rel tree out fresh => exact .inl ⟨_, run, fun e he => new e (hp.mem_iff.2 he)⟩

/-- C18: in particular there is never a panic. -/
theorem C18_no_panic {ts : List Tree} {s : PF} {c : Nat → List (RV × MemPtr)} {i : Nat} {t : Tree} {k : RV} (v : MemPtr)
    (hf : ForestRun ts s c) (ht : ts[i]? = some t) (hk : KeyOK t.cfg k) : (t.insert k v s).1 ≠ .panic := by
  rcases C18_insert_total v hf ht hk with ⟨_, h, _⟩ | ⟨_, h, _⟩ | ⟨_, h, _⟩ <;> rw [h] <;> simp

theorem Kids.exists_of_mem {R : UInt64 → Option RV → Option RV → List Entry → List Nat → Prop} {lo ks ptrs hi es ps}
    (h : Kids R lo ks ptrs hi es ps) {p : Nat} (hp : p ∈ ps) :
    ∃ o ∈ ptrs, ∃ lo hi es' ps', R o lo hi es' ps' ∧ p ∈ ps' := by
  induction h with
  | one h => exact ⟨_, by simp, _, _, _, _, h, hp⟩
  | cons h t ih =>
    rcases List.mem_append.1 hp with hp | hp
    · exact ⟨_, by simp, _, _, _, _, h, hp⟩
    · obtain ⟨o, h1, h2⟩ := ih hp
      exact ⟨o, by simp [h1], h2⟩

theorem Rep.reach {t : Tree} {s : PF} {h off lo hi es ps} (hr : Rep t.cfg s.file.bytes h off lo hi es ps)
    (h0 : Reach t s off.toNat) : ∀ p ∈ ps, Reach t s p := by
  induction h generalizing off lo hi es ps with
  | zero =>
    obtain ⟨n, qs, hn, rfl, hm⟩ := hr
    obtain ⟨_, _, hq, _⟩ := hm.1 rfl
    intro p hp
    rw [hq] at hp
    simp at hp; subst hp; exact h0
  | succ h ih =>
    obtain ⟨n, qs, hn, rfl, hm⟩ := hr
    intro p hp
    rcases List.mem_cons.1 hp with rfl | hp
    · exact h0
    · obtain ⟨o, h1, _, _, _, _, h2, h3⟩ := (hm.2.1 rfl).2.exists_of_mem hp
      exact ih h2 (.child h0 (readNode_ok hn 0) h1) p h3

theorem TreeIs.reach {t s free es ps} (h : TreeIs t s free es ps) : ∀ p ∈ ps, Reach t s p := by
  rcases h.root with ⟨_, _, rfl⟩ | ⟨h0, k, hr, _⟩
  · simp
  · obtain ⟨n, hn⟩ := hr.node
    obtain ⟨p0, hroot⟩ := root_some (t := t) h.slotInside h.slot h0 hn
    exact hr.reach (.root hroot)

theorem not_listed {s : PF} {free : List Nat} (h : s.Valid free) {p : Nat} (hp : ¬ FreeListed s.file.bytes p) : p ∉ free := by
  intro hm
  apply hp
  obtain ⟨i, hi, rfl⟩ := List.mem_iff_getElem.1 hm
  have hle := h.ringOK.len_le
  unfold ringSize at hle
  refine ⟨i, by omega, ?_⟩
  have hf : ∀ o ∈ free, o < 2 ^ 63 := by
    intro o ho
    have := h.freeOK o ho
    have := h.small
    omega
  have he := freePageBytes_entry free hf h.ringOK.len_le i (by unfold ringSize; omega)
  rw [← h.page0] at he
  have h8 : slice s.file.bytes (8 * i) 8 = ((pageAt s.file.bytes 0).drop (i * 8)).take 8 := by
    unfold pageAt
    have := slice_slice (l := s.file.bytes) (p := 0) (n := pageSize) (q := 8 * i) (m := 8) (by unfold pageSize; omega)
    rw [Nat.zero_add] at this
    rw [← this, Nat.mul_comm i 8]; rfl
  rw [h8, he]
  simp [hi]

/-- C19: `Insert` changes only pages of its own tree (`Reach`), pages that were free or did not exist, page 0 (the
free list), and the 12 bytes of its own root pointer: every other byte of the file is unchanged.  (`s'` is the state
after a success; after a rejection no byte at all changes, see C10 and C11.) -/
theorem C19_insert_frame {ts : List Tree} {s s' : PF} {c : Nat → List (RV × MemPtr)} {i : Nat} {t : Tree} {k : RV} {v : MemPtr}
    (hf : ForestRun ts s c) (ht : ts[i]? = some t) (hk : KeyOK t.cfg k) (h : t.insert k v s = (.ok (), s'))
    {p : Nat} (hp : p % 4096 = 0) (hp0 : p ≠ 0) (hin : p < s.file.bytes.length) (hr : ¬ Reach t s p)
    (hfree : ¬ FreeListed s.file.bytes p) {j : Nat} (hj : j < 4096)
    (hslot : p + j < t.rootPos ∨ t.rootPos + 12 ≤ p + j) :
    s'.file.bytes[p + j]? = s.file.bytes[p + j]? := by
  obtain ⟨free, E, P, hi⟩ := forestInv hf
  obtain ⟨free', es', ps', h1, h2, h3, h4⟩ := hi.insert ht hk h
  have hti := (hi.tree i t ht).1
  exact h3.same p ⟨hp, by unfold pageSize; omega, hin, not_listed hi.valid hfree⟩ (fun hm => hr (hti.reach p hm)) j hj hslot

/-- C19: every other tree keeps its contents: scans of it in either direction, and look-ups, have the same results. -/
theorem C19_other_trees {ts : List Tree} {s s' : PF} {c : Nat → List (RV × MemPtr)} {i j : Nat} {t u : Tree} {k : RV} {v : MemPtr}
    (hf : ForestRun ts s c) (ht : ts[i]? = some t) (hu : ts[j]? = some u) (hij : i ≠ j) (hk : KeyOK t.cfg k)
    (h : t.insert k v s = (.ok (), s')) :
    (∀ xs, NextRun u (iter minKey) s xs ↔ NextRun u (iter minKey) s' xs) ∧
    (∀ q xs, PrevRun u (iter q) s xs ↔ PrevRun u (iter q) s' xs) := by
  obtain ⟨free, E, P, hi⟩ := forestInv hf
  obtain ⟨free', es', ps', h1, h2, h3, h4⟩ := hi.insert ht hk h
  have a := (hi.tree j u hu).1
  have b := (h1.tree j u hu).1
  rw [setAt_ne _ _ (Ne.symm hij), setAt_ne _ _ (Ne.symm hij)] at b
  constructor
  · intro xs
    have n1 := nextRun_of a minKey (.inr (rank_minKey _))
    have n2 := nextRun_of b minKey (.inr (rank_minKey _))
    exact ⟨fun h => nextRun_unique n1 h ▸ n2, fun h => nextRun_unique n2 h ▸ n1⟩
  · intro q xs
    have n1 := prevRun_of a q
    have n2 := prevRun_of b q
    exact ⟨fun h => prevRun_unique n1 h ▸ n2, fun h => prevRun_unique n2 h ▸ n1⟩

end Appendable
