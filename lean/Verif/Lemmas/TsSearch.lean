import Verif.Spec.Search
import Verif.Props.Table
/-! The loop of a search over its tokens. -/
namespace Appendable
open Spec

section Maps
variable {K V : Type} [DecidableEq K]

theorem tableGet_set (k : K) (v : V) (k' : K) : ∀ t : PriorityTable K V, tableGet (tableSet k v t) k' = if k' = k then some v else tableGet t k'
  | [] => by
    simp only [tableSet, tableGet, List.find?_cons, List.find?_nil]
    by_cases h : k' = k
    · subst h; simp
    · have : ¬ k = k' := fun x => h x.symm
      rw [show (k == k') = false by simpa using this, if_neg h]
  | e :: t => by
    have ih := tableGet_set k v k' t
    unfold tableSet
    by_cases he : e.1 = k
    · subst he
      simp only [beq_self_eq_true, if_true]
      by_cases h : k' = e.1
      · subst h; simp [tableGet]
      · have : ¬ e.1 = k' := fun x => h x.symm
        simp [tableGet, h, this]
    · rw [if_neg (by simpa using he)]
      by_cases h : e.1 = k'
      · subst h
        rw [if_neg he]
        simp [tableGet]
      · have e1 : tableGet (e :: tableSet k v t) k' = tableGet (tableSet k v t) k' := by simp [tableGet, h]
        have e2 : tableGet (e :: t) k' = tableGet t k' := by simp [tableGet, h]
        rw [e1, e2, ih]

theorem tableGet_absent {k : K} : ∀ {t : PriorityTable K V}, (∀ e ∈ t, e.1 ≠ k) → tableGet t k = none
  | [], _ => rfl
  | e :: t, h => by
    have := tableGet_absent (k := k) (t := t) (fun x hx => h x (by simp [hx]))
    have he := h e (by simp)
    unfold tableGet at this ⊢
    rw [List.find?_cons, show (e.1 == k) = false by simpa using he]
    exact this

theorem tableSet_absent {k : K} {v : V} : ∀ {t : PriorityTable K V}, (∀ e ∈ t, e.1 ≠ k) → tableSet k v t = t ++ [(k, v)]
  | [], _ => rfl
  | e :: t, h => by
    unfold tableSet
    rw [if_neg (by simpa using h e (by simp)), tableSet_absent (fun x hx => h x (by simp [hx]))]
    rfl

end Maps

/-- The objects made for the pointers, numbered from `fresh` on. -/
def number (fresh : Nat) : List TsPtr → List TsSpan
  | [] => []
  | p :: ps => ⟨fresh, p.offset, p.offset + p.length - 1⟩ :: number (fresh + 1) ps

theorem number_length (ps : List TsPtr) : ∀ fresh, (number fresh ps).length = ps.length := by
  induction ps with
  | nil => intro; rfl
  | cons p ps ih => intro fresh; simp [number, ih]

theorem number_ids (ps : List TsPtr) : ∀ fresh, ∀ o ∈ number fresh ps, fresh ≤ o.id ∧ o.id < fresh + ps.length := by
  induction ps with
  | nil => intro fresh o h; simp [number] at h
  | cons p ps ih =>
    intro fresh o h
    simp only [number, List.mem_cons] at h
    rcases h with rfl | h
    · simp
    · have := ih _ o h
      simp; omega

theorem number_nodup (ps : List TsPtr) : ∀ fresh, (number fresh ps).Nodup := by
  induction ps with
  | nil => intro; simp [number]
  | cons p ps ih =>
    intro fresh
    rw [number, List.nodup_cons]
    refine ⟨fun h => ?_, ih _⟩
    have := number_ids ps _ _ h
    simp only at this; omega

/-- `termFrequency` adds a new object with frequency 1 for every entry. -/
theorem visit_all (ps : List TsPtr) : ∀ (os : List TsSpan) (fresh : Nat), (∀ o ∈ os, o.id < fresh) →
    ps.foldl tfVisit (os.map (fun o => (o, 1)), fresh) = ((os ++ number fresh ps).map (fun o => (o, 1)), fresh + ps.length) := by
  induction ps with
  | nil => intro os fresh _; simp [number]
  | cons p ps ih =>
    intro os fresh h
    have habs : ∀ e ∈ os.map (fun o => (o, 1)), e.1 ≠ (⟨fresh, p.offset, p.offset + p.length - 1⟩ : TsSpan) := by
      intro e he heq
      obtain ⟨o, ho, rfl⟩ := List.mem_map.1 he
      have := h o ho
      simp only at heq
      rw [heq] at this
      simp at this
    rw [List.foldl_cons]
    have hv : tfVisit (os.map (fun o => (o, 1)), fresh) p = ((os ++ [(⟨fresh, p.offset, p.offset + p.length - 1⟩ : TsSpan)]).map (fun o => (o, 1)), fresh + 1) := by
      simp only [tfVisit]
      rw [tableGet_absent habs, tableSet_absent habs]
      simp
    rw [hv, ih _ (fresh + 1)]
    · simp [number]; omega
    · intro o ho
      rw [List.mem_append, List.mem_singleton] at ho
      rcases ho with ho | rfl
      · have := h o ho; omega
      · simp

/-- The objects of the tokens. -/
def numbered (fresh : Nat) : List (Nat × List TsPtr) → List (Nat × List TsSpan)
  | [] => []
  | (l, ps) :: rest => (l, number fresh ps) :: numbered (fresh + ps.length) rest

/-- `cur` with the objects `xs` added to type `l`. -/
def addTo (cur : Nat → List TsSpan) (l : Nat) (xs : List TsSpan) : Nat → List TsSpan := fun l' => if l' = l then cur l ++ xs else cur l'

/-- The insertions into the ranking table. -/
def logFrom {S : Type} (w : Nat → S) : (Nat → List TsSpan) → List (Nat × List TsSpan) → List (TsSpan × S)
  | _, [] => []
  | cur, (l, xs) :: rest =>
    (cur l ++ xs).map (fun o => (o, w (cur l ++ xs).length)) ++ logFrom w (addTo cur l xs) rest

variable {S : Type} {A : ScoreArith S}

/-- What the client finds for a type: its page, its metadata, and what each look-up returns. -/
structure Scans (db : TsDb) (fuel format : Nat) (name : Bytes) (ft : Nat) (pg : TsPage) (m : TsIndexMeta) : Prop where
  seek : tsSeek db.idx fuel name ft = .ok [(pg, m)]
  meta_ : pg.indexMeta db.idx = .ok m
  type_ : m.fieldType = ft

/-- The client's tree. -/
def searchTreeOf (db : TsDb) (format ft : Nat) (pg : TsPage) (m : TsIndexMeta) : TsTree := ⟨db.idx, db.dat, db.parse format ft, m.width, pg.root db.idx⟩

theorem score_one (n : Int) (k : Nat) : tsScore A (tsIdf A n k) 1 = weight A n k := rfl

theorem scoreAll_eq (n : Int) (os : List TsSpan) (t : PriorityTable TsSpan S) :
    tsScoreAll A n (os.map (fun o => (o, 1))) t =
      (os.map (fun o => (o, weight A n os.length))).foldl (fun t e => tableInsert A.toScoreOps t e.1 e.2) t := by
  unfold tsScoreAll
  simp only [List.length_map, List.foldl_map]
  rfl

theorem searchTokens_ok {db : TsDb} {fuel format : Nat} {n : Int} {name : Bytes} {pg : Nat → TsPage} {m : Nat → TsIndexMeta}
    {hit : Nat → Bytes → List TsPtr} : ∀ (toks : List (Nat × Bytes)) (st : TsSearchState S) (cur : Nat → List TsSpan),
    (∀ tk ∈ toks, Scans db fuel format name tk.1 (pg tk.1) (m tk.1) ∧
      tsScanFrom (searchTreeOf db format tk.1 (pg tk.1) (m tk.1)) fuel (fun p => .ok p) true (fun k => tsCompareBytes k tk.2 ≠ 0) fuel
        (.ok ⟨⟨0, 0⟩, tk.2⟩) = ⟨hit tk.1 tk.2, none⟩) →
    (∀ ft p, tableGet st.pages ft = some p → p = pg ft) →
    (∀ ft, tableGet st.trees ft = none ∧ cur ft = [] ∨
      tableGet st.trees ft = some (searchTreeOf db format ft (pg ft) (m ft), (cur ft).map (fun o => (o, 1)))) →
    (∀ ft, ∀ o ∈ cur ft, o.id < st.fresh) →
    ∃ st', db.searchTokens A fuel format n name st toks = .ok st' ∧
      st'.table = (logFrom (weight A n) cur (numbered st.fresh (toks.map (fun tk => (tk.1, hit tk.1 tk.2))))).foldl
        (fun t e => tableInsert A.toScoreOps t e.1 e.2) st.table := by
  intro toks
  induction toks with
  | nil => intro st cur _ _ _ _; exact ⟨st, rfl, rfl⟩
  | cons tk toks ih =>
    intro st cur hs hp ht hid
    obtain ⟨ft, v⟩ := tk
    obtain ⟨hsc, hscan⟩ := hs (ft, v) (by simp)
    simp only at hsc hscan
    have hpage : ∃ pages, db.searchPage fuel name st.pages ft = .ok (pg ft, pages) ∧ ∀ ft p, tableGet pages ft = some p → p = pg ft := by
      unfold TsDb.searchPage
      cases hg : tableGet st.pages ft with
      | some p => exact ⟨st.pages, by rw [hp ft p hg], hp⟩
      | none =>
        simp only [hsc.seek]
        refine ⟨_, rfl, fun f p hf => ?_⟩
        rw [tableGet_set] at hf
        split at hf
        · rename_i h; subst h; exact (Option.some.inj hf).symm
        · exact hp f p hf
    obtain ⟨pages, hpg, hp'⟩ := hpage
    obtain ⟨trees, htr⟩ : ∃ trees, trees = db.searchTree format st.trees ft (pg ft) (m ft) := ⟨_, rfl⟩
    have htr1 : tableGet trees ft = some (searchTreeOf db format ft (pg ft) (m ft), (cur ft).map (fun o => (o, 1))) ∧
        ∀ f, f ≠ ft → tableGet trees f = tableGet st.trees f := by
      rw [htr]
      unfold TsDb.searchTree
      rw [hsc.type_]
      rcases ht ft with ⟨h1, h2⟩ | h1
      · rw [h1]
        simp only
        constructor
        · rw [tableGet_set, if_pos rfl, h2]; rfl
        · intro f hf; rw [tableGet_set, if_neg hf]
      · rw [h1]
        exact ⟨h1, fun f _ => rfl⟩
    have htf : tsTermFrequency (searchTreeOf db format ft (pg ft) (m ft)) fuel fuel v ((cur ft).map (fun o => (o, 1))) st.fresh =
        .ok ((cur ft ++ number st.fresh (hit ft v)).map (fun o => (o, 1)), st.fresh + (hit ft v).length) := by
      unfold tsTermFrequency
      simp only [hscan]
      rw [visit_all _ _ _ (hid ft)]
    have hstep : db.searchToken A fuel format n name st ft v = .ok ⟨pages,
        tableSet ft (searchTreeOf db format ft (pg ft) (m ft), (cur ft ++ number st.fresh (hit ft v)).map (fun o => (o, 1))) trees,
        st.fresh + (hit ft v).length,
        tsScoreAll A n ((cur ft ++ number st.fresh (hit ft v)).map (fun o => (o, 1))) st.table⟩ := by
      unfold TsDb.searchToken
      rw [hpg]
      simp only [Res.bind]
      rw [hsc.meta_]
      simp only [← htr]
      unfold TsDb.searchHits
      simp only [htr1.1, htf, Res.bind]
    obtain ⟨st', h1, h2⟩ := ih (cur := addTo cur ft (number st.fresh (hit ft v))) (st := ⟨pages,
        tableSet ft (searchTreeOf db format ft (pg ft) (m ft), (cur ft ++ number st.fresh (hit ft v)).map (fun o => (o, 1))) trees,
        st.fresh + (hit ft v).length,
        tsScoreAll A n ((cur ft ++ number st.fresh (hit ft v)).map (fun o => (o, 1))) st.table⟩) (fun tk htk => hs tk (by simp [htk])) hp'
      (by
        intro f
        simp only
        rw [tableGet_set]
        by_cases hf : f = ft
        · subst hf
          right
          simp [addTo]
        · rw [if_neg hf, htr1.2 f hf]
          simp only [addTo, if_neg hf]
          exact ht f)
      (by
        intro f o ho
        simp only [addTo] at ho ⊢
        split at ho
        · rename_i hf
          rw [List.mem_append] at ho
          rcases ho with ho | ho
          · have := hid ft o ho; omega
          · exact (number_ids _ _ _ ho).2
        · have := hid f o ho; omega)
    refine ⟨st', ?_, ?_⟩
    · rw [TsDb.searchTokens, hstep]
      exact h1
    · rw [h2]
      simp only [List.map_cons, numbered, logFrom, List.foldl_append]
      rw [scoreAll_eq]

/-- A look-up that throws makes the search throw. -/
theorem searchTokens_fail {db : TsDb} {fuel format : Nat} {n : Int} {name : Bytes} {pg : Nat → TsPage} {m : Nat → TsIndexMeta} {e : Err} :
    ∀ (toks : List (Nat × Bytes)) (st : TsSearchState S),
    (∀ tk ∈ toks, Scans db fuel format name tk.1 (pg tk.1) (m tk.1) ∧
      ((tsScanFrom (searchTreeOf db format tk.1 (pg tk.1) (m tk.1)) fuel (fun p => .ok p) true (fun k => tsCompareBytes k tk.2 ≠ 0) fuel
        (.ok ⟨⟨0, 0⟩, tk.2⟩)).fail = none ∨
       (tsScanFrom (searchTreeOf db format tk.1 (pg tk.1) (m tk.1)) fuel (fun p => .ok p) true (fun k => tsCompareBytes k tk.2 ≠ 0) fuel
        (.ok ⟨⟨0, 0⟩, tk.2⟩)).fail = some e)) →
    (∃ tk ∈ toks, (tsScanFrom (searchTreeOf db format tk.1 (pg tk.1) (m tk.1)) fuel (fun p => .ok p) true (fun k => tsCompareBytes k tk.2 ≠ 0) fuel
        (.ok ⟨⟨0, 0⟩, tk.2⟩)).fail = some e) →
    (∀ ft p, tableGet st.pages ft = some p → p = pg ft) →
    (∀ ft, tableGet st.trees ft = none ∨ ∃ tf, tableGet st.trees ft = some (searchTreeOf db format ft (pg ft) (m ft), tf)) →
    db.searchTokens A fuel format n name st toks = .err e := by
  intro toks
  induction toks with
  | nil => intro st _ h; obtain ⟨tk, h, _⟩ := h; simp at h
  | cons tk toks ih =>
    intro st hs hx hp ht
    obtain ⟨ft, v⟩ := tk
    obtain ⟨hsc, hscan⟩ := hs (ft, v) (by simp)
    simp only at hsc hscan
    have hpage : ∃ pages, db.searchPage fuel name st.pages ft = .ok (pg ft, pages) ∧ ∀ ft p, tableGet pages ft = some p → p = pg ft := by
      unfold TsDb.searchPage
      cases hg : tableGet st.pages ft with
      | some p => exact ⟨st.pages, by rw [hp ft p hg], hp⟩
      | none =>
        simp only [hsc.seek]
        refine ⟨_, rfl, fun f p hf => ?_⟩
        rw [tableGet_set] at hf
        split at hf
        · rename_i h; subst h; exact (Option.some.inj hf).symm
        · exact hp f p hf
    obtain ⟨pages, hpg, hp'⟩ := hpage
    obtain ⟨trees, htr⟩ : ∃ trees, trees = db.searchTree format st.trees ft (pg ft) (m ft) := ⟨_, rfl⟩
    have htr1 : ∃ tf, tableGet trees ft = some (searchTreeOf db format ft (pg ft) (m ft), tf) ∧
        ∀ f, f ≠ ft → tableGet trees f = tableGet st.trees f := by
      rw [htr]
      unfold TsDb.searchTree
      rw [hsc.type_]
      rcases ht ft with h1 | ⟨tf, h1⟩
      · rw [h1]
        simp only
        refine ⟨[], ?_, fun f hf => ?_⟩
        · rw [tableGet_set, if_pos rfl]; rfl
        · rw [tableGet_set, if_neg hf]
      · rw [h1]
        exact ⟨tf, h1, fun f _ => rfl⟩
    obtain ⟨tf, htr1, htr2⟩ := htr1
    rw [TsDb.searchTokens]
    rcases hscan with hok | hfail
    · have htf : ∃ r, tsTermFrequency (searchTreeOf db format ft (pg ft) (m ft)) fuel fuel v tf st.fresh = .ok r := by
        unfold tsTermFrequency
        simp only [hok]
        exact ⟨_, rfl⟩
      obtain ⟨r, htf⟩ := htf
      have hstep : db.searchToken A fuel format n name st ft v = .ok ⟨pages,
          tableSet ft (searchTreeOf db format ft (pg ft) (m ft), r.1) trees, r.2, tsScoreAll A n r.1 st.table⟩ := by
        unfold TsDb.searchToken
        rw [hpg]
        simp only [Res.bind]
        rw [hsc.meta_]
        simp only [← htr]
        unfold TsDb.searchHits
        simp only [htr1, htf, Res.bind]
      rw [hstep]
      simp only [Res.bind]
      refine ih _ (fun tk htk => hs tk (by simp [htk])) ?_ hp' ?_
      · obtain ⟨tk, htk, hf⟩ := hx
        rcases List.mem_cons.1 htk with rfl | htk
        · simp only at hf; rw [hok] at hf; simp at hf
        · exact ⟨tk, htk, hf⟩
      · intro f
        simp only
        rw [tableGet_set]
        by_cases hf : f = ft
        · subst hf; right; exact ⟨r.1, by simp⟩
        · rw [if_neg hf, htr2 f hf]
          exact ht f
    · have htf : tsTermFrequency (searchTreeOf db format ft (pg ft) (m ft)) fuel fuel v tf st.fresh = .err e := by
        unfold tsTermFrequency
        simp only [hfail]
      have hstep : db.searchToken A fuel format n name st ft v = .err e := by
        unfold TsDb.searchToken
        rw [hpg]
        simp only [Res.bind]
        rw [hsc.meta_]
        simp only [← htr]
        unfold TsDb.searchHits
        simp only [htr1, htf, Res.bind]
      rw [hstep]
      rfl

/-! ### The ranking table -/

/-- The objects of a list of tokens. -/
def objects (toks : List (Nat × List TsSpan)) : List TsSpan := toks.flatMap (·.2)

theorem numbered_ids : ∀ (toks : List (Nat × List TsPtr)) (fresh : Nat), ∀ o ∈ objects (numbered fresh toks), fresh ≤ o.id
  | [], _, o, h => by simp [objects, numbered] at h
  | (l, ps) :: toks, fresh, o, h => by
    simp only [numbered, objects, List.flatMap_cons, List.mem_append] at h
    rcases h with h | h
    · exact (number_ids _ _ _ h).1
    · have := numbered_ids toks _ o h; omega

theorem numbered_nodup : ∀ (toks : List (Nat × List TsPtr)) (fresh : Nat), (objects (numbered fresh toks)).Nodup
  | [], _ => by simp [objects, numbered]
  | (l, ps) :: toks, fresh => by
    simp only [numbered, objects, List.flatMap_cons]
    refine List.nodup_append.2 ⟨number_nodup _ _, numbered_nodup toks _, fun a ha b hb hab => ?_⟩
    have h1 := (number_ids _ _ _ ha).2
    have h2 := numbered_ids toks _ b hb
    rw [hab] at h1
    omega

/-- Adding a list of keys in the order of first use. -/
theorem seen_fold {K S : Type} [DecidableEq K] (w : S) : ∀ (os L : List K), os.Nodup →
    (os.map (fun o => (o, w))).foldl (fun l e => if e.1 ∈ l then l else l ++ [e.1]) L = L ++ os.filter (fun o => decide (o ∉ L))
  | [], L, _ => by simp
  | o :: os, L, h => by
    rw [List.nodup_cons] at h
    rw [List.map_cons, List.foldl_cons]
    by_cases ho : o ∈ L
    · simp only [if_pos ho]
      rw [seen_fold w os L h.2, List.filter_cons_of_neg (by simpa using ho)]
    · simp only [if_neg ho]
      rw [seen_fold w os _ h.2, List.filter_cons_of_pos (by simpa using ho), List.append_assoc, List.singleton_append]
      congr 2
      refine List.filter_congr fun x hx => ?_
      have : x ≠ o := by rintro rfl; exact h.1 hx
      simp [this]

/-- The objects known so far and those to come are all different. -/
structure Fresh (cur : Nat → List TsSpan) (toks : List (Nat × List TsSpan)) : Prop where
  nodup : ∀ l, (cur l).Nodup
  apart : ∀ l l' o, o ∈ cur l → o ∈ cur l' → l = l'
  new : ∀ l o, o ∈ cur l → o ∉ objects toks
  objs : (objects toks).Nodup

theorem Fresh.step {cur : Nat → List TsSpan} {l : Nat} {xs : List TsSpan} {toks : List (Nat × List TsSpan)} (h : Fresh cur ((l, xs) :: toks)) :
    Fresh (addTo cur l xs) toks ∧ (cur l ++ xs).Nodup := by
  obtain ⟨h1, h2, h3, h4⟩ := h
  have hobj : objects ((l, xs) :: toks) = xs ++ objects toks := rfl
  rw [hobj] at h3 h4
  obtain ⟨g1, g2, g3⟩ := List.nodup_append.1 h4
  have hnd : (cur l ++ xs).Nodup := List.nodup_append.2 ⟨h1 l, g1, fun a ha b hb hab => h3 l a ha (by rw [hab]; simp [hb])⟩
  refine ⟨⟨fun l' => ?_, fun l' l'' o ho ho' => ?_, fun l' o ho hm => ?_, g2⟩, hnd⟩
  · unfold addTo; split
    · exact hnd
    · exact h1 l'
  · unfold addTo at ho ho'
    split at ho <;> split at ho'
    · rename_i a b; rw [a, b]
    · rename_i a b
      rw [List.mem_append] at ho
      rcases ho with ho | ho
      · rw [a]; exact h2 _ _ o ho ho'
      · exact absurd (List.mem_append_left _ ho) (h3 _ o ho')
    · rename_i a b
      rw [List.mem_append] at ho'
      rcases ho' with ho' | ho'
      · rw [b]; exact h2 _ _ o ho ho'
      · exact absurd (List.mem_append_left _ ho') (h3 _ o ho)
    · exact h2 _ _ o ho ho'
  · unfold addTo at ho
    split at ho
    · rw [List.mem_append] at ho
      rcases ho with ho | ho
      · exact h3 _ o ho (List.mem_append_right _ hm)
      · exact g3 o ho o hm rfl
    · exact h3 _ o ho (List.mem_append_right _ hm)

theorem seen_log (w : Nat → S) : ∀ (toks : List (Nat × List TsSpan)) (cur : Nat → List TsSpan) (L : List TsSpan), Fresh cur toks →
    (∀ l, ∀ o ∈ cur l, o ∈ L) → (∀ o ∈ L, o ∉ objects toks) →
    (logFrom w cur toks).foldl (fun l e => if e.1 ∈ l then l else l ++ [e.1]) L = L ++ objects toks
  | [], cur, L, _, _, _ => by simp [logFrom, objects]
  | (l, xs) :: toks, cur, L, hf, hL, hn => by
    obtain ⟨hf', hnd⟩ := hf.step
    have hobj : objects ((l, xs) :: toks) = xs ++ objects toks := rfl
    have hfo := hf.objs
    rw [hobj] at hn hfo ⊢
    rw [logFrom, List.foldl_append, seen_fold _ _ _ hnd]
    have hfil : (cur l ++ xs).filter (fun o => decide (o ∉ L)) = xs := by
      rw [List.filter_append, List.filter_eq_nil_iff.2, List.filter_eq_self.2, List.nil_append]
      · intro o ho
        simp only [decide_eq_true_eq]
        exact fun h => hn o h (List.mem_append_left _ ho)
      · intro o ho
        simp [hL l o ho]
    rw [hfil, seen_log w toks _ (L ++ xs) hf', List.append_assoc]
    · intro l' o ho
      unfold addTo at ho
      split at ho
      · rw [List.mem_append] at ho ⊢
        rcases ho with ho | ho
        · exact .inl (hL _ o ho)
        · exact .inr ho
      · exact List.mem_append_left _ (hL _ o ho)
    · intro o ho hm
      rw [List.mem_append] at ho
      rcases ho with ho | ho
      · exact hn o ho (List.mem_append_right _ hm)
      · exact (List.nodup_append.1 hfo).2.2 o ho o hm rfl

theorem filter_one {α S : Type} [DecidableEq α] (w : S) (o : α) : ∀ {os : List α}, os.Nodup →
    ((os.map (fun x => (x, w))).filter (fun e => decide (e.1 = o))).map (·.2) = if o ∈ os then [w] else []
  | [], _ => rfl
  | x :: os, h => by
    rw [List.nodup_cons] at h
    have ih := filter_one w o h.2
    rw [List.map_cons]
    by_cases hx : x = o
    · subst hx
      rw [List.filter_cons_of_pos (by simp), List.map_cons, ih, if_neg h.1]
      simp
    · rw [List.filter_cons_of_neg (by simpa using hx), ih]
      have : ¬ o = x := fun h => hx h.symm
      simp [this]

/-- The scores that an object gets. -/
theorem score_log (n : Int) (l : Nat) (o : TsSpan) : ∀ (toks : List (Nat × List TsSpan)) (cur : Nat → List TsSpan) (acc : S), Fresh cur toks → o ∈ cur l →
    (((logFrom (weight A n) cur toks).filter (fun e => decide (e.1 = o))).map (·.2)).foldl A.add acc =
      runningScore A n l (cur l).length (toks.map (fun x => (x.1, x.2.length))) acc
  | [], cur, acc, _, _ => rfl
  | (l', xs) :: toks, cur, acc, hf, ho => by
    obtain ⟨hf', hnd⟩ := hf.step
    rw [logFrom, List.filter_append, List.map_append, List.foldl_append, filter_one _ _ hnd]
    rw [List.map_cons, runningScore]
    by_cases hl : l' = l
    · subst hl
      rw [if_pos (List.mem_append_left _ ho), if_pos rfl]
      have := score_log n l' o toks (addTo cur l' xs) (A.add acc (weight A n (cur l' ++ xs).length)) hf' (by simp [addTo, ho])
      simp only [List.foldl_cons, List.foldl_nil]
      rw [this]
      simp [addTo]
    · have hno : o ∉ cur l' ++ xs := by
        rw [List.mem_append]
        rintro (h | h)
        · exact hl (hf.apart _ _ o h ho)
        · exact hf.new _ o ho (List.mem_append_left _ h)
      rw [if_neg hno, if_neg hl]
      have hl' : ¬ l = l' := fun h => hl h.symm
      have := score_log n l o toks (addTo cur l' xs) acc hf' (by simp [addTo, hl', ho])
      simp only [List.foldl_nil]
      rw [this]
      simp [addTo, hl']

/-- The table at the end: every object with its score, in the order of creation. -/
def finalTable (A : ScoreArith S) (n : Int) : (Nat → Nat) → List (Nat × List TsSpan) → List (TsSpan × S)
  | _, [] => []
  | before, (l, xs) :: rest =>
    xs.map (fun o => (o, runningScore A n l (before l) ((l, xs.length) :: rest.map (fun x => (x.1, x.2.length))) A.zero)) ++
      finalTable A n (fun l' => if l' = l then before l + xs.length else before l') rest

theorem finalTable_eq (n : Int) : ∀ (toks : List (Nat × List TsSpan)) (cur : Nat → List TsSpan) (pre : List (TsSpan × S)), Fresh cur toks →
    (∀ e ∈ pre, ∀ o ∈ objects toks, e.1 ≠ o) →
    (objects toks).map (fun o => (o, scoreOf A.toScoreOps (pre ++ logFrom (weight A n) cur toks) o)) = finalTable A n (fun l => (cur l).length) toks
  | [], cur, pre, _, _ => rfl
  | (l, xs) :: toks, cur, pre, hf, hp => by
    obtain ⟨hf', hnd⟩ := hf.step
    have hobj : objects ((l, xs) :: toks) = xs ++ objects toks := rfl
    have hfo := hf.objs
    rw [hobj] at hp hfo ⊢
    rw [List.map_append, finalTable]
    congr 1
    · refine List.map_congr_left fun o ho => ?_
      congr 1
      unfold scoreOf
      have hpre : pre.filter (fun e => decide (e.1 = o)) = [] := by
        rw [List.filter_eq_nil_iff]
        intro e he
        simpa using hp e he o (List.mem_append_left _ ho)
      rw [List.filter_append, hpre, List.nil_append, logFrom, List.filter_append, List.map_append, List.foldl_append, filter_one _ _ hnd,
        if_pos (List.mem_append_right _ ho)]
      have := score_log (A := A) n l o toks (addTo cur l xs) (A.add A.zero (weight A n (cur l ++ xs).length)) hf' (by simp [addTo, ho])
      simp only [List.foldl_cons, List.foldl_nil]
      rw [this, runningScore, if_pos rfl]
      simp [addTo]
    · have := finalTable_eq n toks (addTo cur l xs) (pre ++ (cur l ++ xs).map (fun o => (o, weight A n (cur l ++ xs).length))) hf' (by
        intro e he o ho
        rw [List.mem_append] at he
        rcases he with he | he
        · exact hp e he o (List.mem_append_right _ ho)
        · obtain ⟨o', ho', rfl⟩ := List.mem_map.1 he
          rw [List.mem_append] at ho'
          rintro rfl
          rcases ho' with ho' | ho'
          · exact hf.new _ _ ho' (List.mem_append_right _ ho)
          · exact (List.nodup_append.1 hfo).2.2 _ ho' _ ho rfl)
      rw [logFrom, ← List.append_assoc, this]
      congr 1
      funext l'
      unfold addTo
      split
      · simp
      · rfl

theorem finalTable_mem {n : Int} : ∀ {toks : List (Nat × List TsSpan)} {before : Nat → Nat} {e : TsSpan × S}, e ∈ finalTable A n before toks → e.1 ∈ objects toks
  | [], _, e, h => by simp [finalTable] at h
  | (l, xs) :: toks, before, e, h => by
    simp only [finalTable, List.mem_append] at h
    simp only [objects, List.flatMap_cons, List.mem_append]
    rcases h with h | h
    · obtain ⟨o, ho, rfl⟩ := List.mem_map.1 h
      exact .inl ho
    · exact .inr (finalTable_mem h)

/-- The table after the insertions of a search. -/
theorem table_log (n : Int) {toks : List (Nat × List TsSpan)} (hn : (objects toks).Nodup) :
    (logFrom (weight A n) (fun _ => []) toks).foldl (fun t e => tableInsert A.toScoreOps t e.1 e.2) [] = finalTable A n (fun _ => 0) toks := by
  have hf : Fresh (fun _ => []) toks := ⟨by simp, by simp, by simp, hn⟩
  have h1 := tableAfter_eq A.toScoreOps ((logFrom (weight A n) (fun _ => []) toks).map (fun e => TableOp.insert e.1 e.2))
  have h2 : ∀ ins : List (TsSpan × S), inserted (ins.map (fun e => TableOp.insert e.1 e.2)) = ins := by
    intro ins
    induction ins using reverse_ind with
    | h0 => rfl
    | h1 ins e ih =>
      unfold inserted at ih ⊢
      rw [List.map_append, List.foldl_append, ih]
      rfl
  have h3 := h2 (logFrom (weight A n) (fun _ => []) toks)
  rw [h3] at h1
  have h4 : firstSeen (logFrom (weight A n) (fun _ => []) toks) = objects toks := by
    unfold firstSeen
    rw [seen_log _ _ _ _ hf (by simp) (by simp)]; rfl
  rw [h4] at h1
  have h5 := finalTable_eq (A := A) n toks (fun _ => []) [] hf (by simp)
  rw [List.nil_append] at h5
  rw [h5] at h1
  unfold tableAfter at h1
  rw [List.foldl_map] at h1
  exact h1

end Appendable
