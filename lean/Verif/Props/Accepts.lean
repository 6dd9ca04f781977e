import Verif.Spec.Accepts
import Verif.Props.Jsonl
import Verif.Props.Size
import Verif.Props.NgramRunes
import Verif.Model.Json
/-! C80: which files `Synchronize` accepts. -/
namespace Appendable
open Spec Tree

/-! ### The fields of a line are at different places -/

theorem skips_suffix {n : Nat} {l r : List (Tok × Nat)} (h : Skips n l r) : r <:+ l := by
  induction h with
  | done => exact List.suffix_refl _
  | opening _ ih => exact ih.trans (List.suffix_cons _ _)
  | closing _ ih => exact ih.trans (List.suffix_cons _ _)
  | other _ _ _ ih => exact ih.trans (List.suffix_cons _ _)

theorem obj_suffix {path : List Bytes} {l r : List (Tok × Nat)} {fs : List Field} (h : Obj path l fs r) : r <:+ l := by
  induction h with
  | close => exact List.suffix_cons _ _
  | scalar _ _ ih => exact (ih.trans (List.suffix_cons _ _)).trans (List.suffix_cons _ _)
  | array hs _ ih => exact ((ih.trans (skips_suffix hs)).trans (List.suffix_cons _ _)).trans (List.suffix_cons _ _)
  | object _ _ ihn ih => exact ((ih.trans ihn).trans (List.suffix_cons _ _)).trans (List.suffix_cons _ _)

theorem Spec.Forward.suffix {l r : List (Tok × Nat)} (h : Forward l) (hs : r <:+ l) : Forward r := h.sublist hs.sublist

theorem obj_order {path : List Bytes} {l r : List (Tok × Nat)} {fs : List Field} (h : Obj path l fs r) : Forward l →
    fs.Pairwise (fun f g => f.stop < g.start) ∧
    (∀ f ∈ fs, (∃ a ∈ l, a.2 < f.start) ∧ ((∃ a ∈ l, f.stop = a.2 ∧ ∀ b ∈ r, a.2 < b.2))) := by
  induction h with
  | close => intro _; exact ⟨.nil, by simp⟩
  | @scalar path key ke ve v l r fs hv h ih =>
    intro hf
    have hf2 : Forward ((v, ve) :: l) := hf.suffix (List.suffix_cons _ _)
    obtain ⟨i1, i2⟩ := ih (hf2.suffix (List.suffix_cons _ _))
    have hr := obj_suffix h
    refine ⟨List.pairwise_cons.2 ⟨fun g hg => ?_, i1⟩, fun f hm => ?_⟩
    · obtain ⟨⟨a, ha, h1⟩, _⟩ := i2 g hg
      have := (List.pairwise_cons.1 hf2).1 a ha
      simp only at this ⊢; omega
    · rcases List.mem_cons.1 hm with rfl | hm
      · refine ⟨⟨_, List.mem_cons_self, Nat.lt_succ_self _⟩, ⟨(v, ve), by simp, rfl, fun b hb => (List.pairwise_cons.1 hf2).1 b (hr.subset hb)⟩⟩
      · obtain ⟨⟨a, ha, h1⟩, ⟨b, hb, h2⟩⟩ := i2 f hm
        exact ⟨⟨a, by simp [ha], h1⟩, ⟨b, by simp [hb], h2⟩⟩
  | @array path key ke ve l m r fs hs h ih =>
    intro hf
    have hf2 : Forward ((Tok.lbrack, ve) :: l) := hf.suffix (List.suffix_cons _ _)
    obtain ⟨i1, i2⟩ := ih ((hf2.suffix (List.suffix_cons _ _)).suffix (skips_suffix hs))
    have hm' := skips_suffix hs
    have hr := (obj_suffix h).trans hm'
    refine ⟨List.pairwise_cons.2 ⟨fun g hg => ?_, i1⟩, fun f hm => ?_⟩
    · obtain ⟨⟨a, ha, h1⟩, _⟩ := i2 g hg
      have := (List.pairwise_cons.1 hf2).1 a (hm'.subset ha)
      simp only at this ⊢; omega
    · rcases List.mem_cons.1 hm with rfl | hm
      · refine ⟨⟨_, List.mem_cons_self, Nat.lt_succ_self _⟩, ⟨(Tok.lbrack, ve), by simp, rfl, fun b hb => (List.pairwise_cons.1 hf2).1 b (hr.subset hb)⟩⟩
      · obtain ⟨⟨a, ha, h1⟩, ⟨b, hb, h2⟩⟩ := i2 f hm
        exact ⟨⟨a, by simp [hm'.subset ha], h1⟩, ⟨b, by simp [hm'.subset hb], h2⟩⟩
  | @object path key ke ve l m r fs gs hn h ihn ih =>
    intro hf
    have hf2 : Forward ((Tok.lbrace, ve) :: l) := hf.suffix (List.suffix_cons _ _)
    have hf3 : Forward l := hf2.suffix (List.suffix_cons _ _)
    have hm' := obj_suffix hn
    obtain ⟨j1, j2⟩ := ihn hf3
    obtain ⟨i1, i2⟩ := ih (hf3.suffix hm')
    have hr := (obj_suffix h).trans hm'
    refine ⟨List.pairwise_cons.2 ⟨fun g hg => ?_, List.pairwise_append.2 ⟨j1, i1, fun f hf' g hg => ?_⟩⟩, fun f hm => ?_⟩
    · have hl : ∃ a ∈ l, a.2 < g.start := by
        rcases List.mem_append.1 hg with hg | hg
        · exact (j2 g hg).1
        · obtain ⟨⟨a, ha, h1⟩, _⟩ := i2 g hg
          exact ⟨a, hm'.subset ha, h1⟩
      obtain ⟨a, ha, h1⟩ := hl
      have := (List.pairwise_cons.1 hf2).1 a ha
      simp only at this ⊢; omega
    · obtain ⟨_, a, ha, h1, h2⟩ := j2 f hf'
      obtain ⟨⟨b, hb, h3⟩, _⟩ := i2 g hg
      have := h2 b hb
      omega
    · rcases List.mem_cons.1 hm with rfl | hm
      · refine ⟨⟨_, List.mem_cons_self, Nat.lt_succ_self _⟩, ⟨(Tok.lbrace, ve), by simp, rfl, fun b hb => (List.pairwise_cons.1 hf2).1 b (hr.subset hb)⟩⟩
      · rcases List.mem_append.1 hm with hm | hm
        · obtain ⟨⟨a, ha, h1⟩, ⟨b, hb, h2, h3⟩⟩ := j2 f hm
          exact ⟨⟨a, by simp [ha], h1⟩, ⟨b, by simp [hb], h2, fun c hc => h3 c ((obj_suffix h).subset hc)⟩⟩
        · obtain ⟨⟨a, ha, h1⟩, ⟨b, hb, h2⟩⟩ := i2 f hm
          exact ⟨⟨a, by simp [hm'.subset ha], h1⟩, ⟨b, by simp [hm'.subset hb], h2⟩⟩

/-! ### The n-grams of a text are at different places -/

theorem splitWords_sublist (gl : Nat) : ∀ (xs cur : List (UInt8 × Int)), (splitWords gl cur xs).flatten.Sublist (cur ++ xs)
  | [], cur => by
    unfold splitWords
    split <;> simp
  | x :: xs, cur => by
    unfold splitWords
    split
    · have := splitWords_sublist gl xs (cur ++ [x])
      simpa using this
    · split
      · rw [List.flatten_append]
        refine List.Sublist.append ?_ ?_
        · split <;> simp
        · have := splitWords_sublist gl xs []
          exact this.trans (by simp)
      · exact (splitWords_sublist gl xs cur).trans (List.Sublist.append (List.Sublist.refl _) (List.sublist_cons_self _ _))

/-- The offset of the token of a window. -/
theorem windows_heads {gl : Nat} (h : 1 ≤ gl) (w : List (UInt8 × Int)) :
    (windows gl w).map (fun v => (v.head?.map (·.2)).getD 0) = (w.take (w.length + 1 - gl)).map (·.2) := by
  apply List.ext_getElem
  · unfold windows; simp; omega
  · intro k h1 h2
    unfold windows at h1 ⊢
    simp only [List.map_map, List.length_map, List.length_range] at h1
    have hk : k < w.length := by omega
    simp only [List.getElem_map, List.getElem_range, List.getElem_take, List.head?_take, List.head?_drop]
    rw [if_neg (by omega), List.getElem?_eq_getElem hk]
    rfl

theorem gram_offsets {nfkd : Bytes → Bytes} {t : Bytes} {rs : List Nat} (hs : ∀ r ∈ rs, Scalar r) (hn : nfkd t = rs.flatMap utf8)
    (hlen : rs.length < 2 ^ 32) {n : Nat} (h1 : 1 ≤ n) :
    ((buildNgram nfkd t n).map (fun g => g.offset.toNat)).Nodup ∧ ∀ g ∈ buildNgram nfkd t n, g.offset.toNat < rs.length := by
  have hin : ((normalizeToAscii nfkd t).map (·.2)).Sublist ((List.range rs.length).map (fun (k : Nat) => (k : Int))) := by
    rw [normalize_runes hs hn]
    unfold keptRunes
    rw [List.map_map]
    have : (rs.zipIdx.map (·.2)) = List.range rs.length := by
      rw [List.zipIdx_map_snd, List.range_eq_range']
    rw [← this, List.map_map]
    exact (List.filter_sublist).map _
  have hoff : (buildNgram nfkd t n).map (fun g => g.offset.toNat) =
      ((splitWords n [] (normalizeToAscii nfkd t)).flatMap (fun w => (w.take (w.length + 1 - n)).map (·.2))).map (fun q => (q % 2 ^ 64).toNat % 2 ^ 64) := by
    unfold buildNgram
    rw [List.map_flatMap, List.map_flatMap]
    congr 1
    funext w
    rw [← windows_heads h1, List.map_map, List.map_map]
    apply List.map_congr_left
    intro v _
    simp [gramToken]
  have hsub : ((splitWords n [] (normalizeToAscii nfkd t)).flatMap (fun w => (w.take (w.length + 1 - n)).map (·.2))).Sublist
      ((List.range rs.length).map (fun (k : Nat) => (k : Int))) := by
    refine List.Sublist.trans ?_ hin
    refine List.Sublist.trans ?_ ((splitWords_sublist n (normalizeToAscii nfkd t) []).map (·.2))
    generalize splitWords n [] (normalizeToAscii nfkd t) = W
    induction W with
    | nil => simp
    | cons w W ih =>
      rw [List.flatMap_cons, List.flatten_cons, List.map_append]
      exact ((List.take_sublist _ _).map _).append ih
  have hres : ((buildNgram nfkd t n).map (fun g => g.offset.toNat)).Sublist (List.range rs.length) := by
    rw [hoff]
    have := hsub.map (fun q => (q % 2 ^ 64).toNat % 2 ^ 64)
    rw [List.map_map] at this
    refine this.trans ?_
    have he : (List.range rs.length).map ((fun (q : Int) => (q % 2 ^ 64).toNat % 2 ^ 64) ∘ fun (k : Nat) => (k : Int)) = List.range rs.length := by
      conv => rhs; rw [← List.map_id (List.range rs.length)]
      apply List.map_congr_left
      intro k hk
      rw [List.mem_range] at hk
      simp only [Function.comp, id]
      omega
    rw [he]
    exact List.Sublist.refl _
  refine ⟨hres.nodup (List.nodup_range), fun g hg => ?_⟩
  exact List.mem_range.1 (hres.subset (List.mem_map.2 ⟨g, hg, rfl⟩))

/-! ### No key twice -/

theorem gramJob_offsets {nfkd : Bytes → Bytes} {hs : List Bytes} {off : Nat} {line : MemPtr} {f : Field} {t : Bytes} (ht : f.tok = .str t)
    (hf : f.name ∈ hs) (hfit : GramsFit nfkd hs f) (hb : off + f.stop < 2 ^ 64) (hs32 : f.stop - f.start < 2 ^ 32) (hin : f.start ≤ f.stop) (ty : FieldType)
    {n : Nat} (h1 : 1 ≤ n) :
    ((gramJob nfkd off line f t ty n).entries.map (fun e => e.1.dp.offset.toNat)).Nodup ∧
    ∀ e ∈ (gramJob nfkd off line f t ty n).entries, off + f.start ≤ e.1.dp.offset.toNat ∧ e.1.dp.offset.toNat ≤ off + f.stop := by
  obtain ⟨rs, r1, r2, r3⟩ := hfit t ht hf
  obtain ⟨g1, g2⟩ := gram_offsets r1 r2 (by omega) h1
  have hoff : ∀ g ∈ buildNgram nfkd t n, (UInt64.ofNat (off + f.start) + g.offset).toNat = off + f.start + g.offset.toNat := by
    intro g hg
    have := g2 g hg
    rw [UInt64.toNat_add, UInt64.toNat_ofNat']
    omega
  unfold gramJob
  simp only
  constructor
  · rw [List.map_map]
    have : (buildNgram nfkd t n).map ((fun e : RV × MemPtr => e.1.dp.offset.toNat) ∘ fun g =>
        (⟨⟨UInt64.ofNat (off + f.start) + g.offset, UInt32.ofNat t.length⟩, g.word⟩, line)) =
        ((buildNgram nfkd t n).map (fun g => g.offset.toNat)).map (off + f.start + ·) := by
      rw [List.map_map]
      exact List.map_congr_left hoff
    rw [this]
    refine List.pairwise_map.2 (g1.imp fun h h' => h (by omega))
  · intro e he
    obtain ⟨g, hg, rfl⟩ := List.mem_map.1 he
    have := g2 g hg
    simp only [hoff g hg]
    omega

theorem fieldJobs_offsets {nfkd : Bytes → Bytes} {hs : List Bytes} {off : Nat} {line : MemPtr} {f : Field}
    (hfit : GramsFit nfkd hs f) (hb : off + f.stop < 2 ^ 64) (hs32 : f.stop - f.start < 2 ^ 32) (hin : f.start ≤ f.stop) (n : Bytes) (t : UInt8) :
    ((entriesOf (fieldJobs nfkd hs off line f) n t).map (fun e => e.1.dp.offset.toNat)).Nodup ∧
    ∀ e ∈ entriesOf (fieldJobs nfkd hs off line f) n t, off + f.start ≤ e.1.dp.offset.toNat ∧ e.1.dp.offset.toNat ≤ off + f.stop := by
  have hmain : ((if isScalar f.tok then [((⟨valuePtr off f, valueBytes f.tok⟩ : RV), line)] else []).map (fun e => e.1.dp.offset.toNat)).Nodup ∧
      ∀ e ∈ (if isScalar f.tok then [((⟨valuePtr off f, valueBytes f.tok⟩ : RV), line)] else []),
        off + f.start ≤ e.1.dp.offset.toNat ∧ e.1.dp.offset.toNat ≤ off + f.stop := by
    split
    · refine ⟨by simp, ?_⟩
      intro e he
      rw [List.mem_singleton] at he
      subst he
      simp only [valuePtr, UInt64.toNat_ofNat']
      omega
    · simp
  by_cases hst : ∃ text, f.tok = .str text ∧ f.name ∈ hs
  · obtain ⟨text, h1, h2⟩ := hst
    have hk : (kindOf (Tok.str text)).code = 0 := rfl
    have g1 := gramJob_offsets (line := line) h1 h2 hfit hb hs32 hin .unigram (n := 1) (by omega)
    have g2 := gramJob_offsets (line := line) h1 h2 hfit hb hs32 hin .bigram (n := 2) (by omega)
    have g3 := gramJob_offsets (line := line) h1 h2 hfit hb hs32 hin .trigram (n := 3) (by omega)
    unfold fieldJobs
    rw [h1] at hmain ⊢
    simp only [if_pos h2]
    unfold entriesOf
    simp only [List.flatMap_cons, List.flatMap_nil, List.append_nil, hk]
    by_cases hn : f.name = n
    · by_cases t0 : (0 : UInt8) = t
      · subst t0
        simpa [hn, gramJob, FieldType.code] using hmain
      · by_cases ta : (FieldType.unigram.code) = t
        · subst ta
          simpa [hn, gramJob, FieldType.code] using g1
        · by_cases tb : (FieldType.bigram.code) = t
          · subst tb
            simpa [hn, gramJob, FieldType.code] using g2
          · by_cases tc : (FieldType.trigram.code) = t
            · subst tc
              simpa [hn, gramJob, FieldType.code] using g3
            · have e1 : (gramJob nfkd off line f text .unigram 1).ty = FieldType.unigram.code := rfl
              have e2 : (gramJob nfkd off line f text .bigram 2).ty = FieldType.bigram.code := rfl
              have e3 : (gramJob nfkd off line f text .trigram 3).ty = FieldType.trigram.code := rfl
              simp [e1, e2, e3, t0, ta, tb, tc]
    · have e1 : ∀ ty k, (gramJob nfkd off line f text ty k).name = f.name := fun _ _ => rfl
      simp [e1, hn]
  · have hj : fieldJobs nfkd hs off line f = [⟨f.name, (kindOf f.tok).code, if isScalar f.tok then [(⟨valuePtr off f, valueBytes f.tok⟩, line)] else [],
        valueTotal f.tok (valuePtr off f).length⟩] := by
      unfold fieldJobs
      congr 1
      split
      · rename_i text h
        rw [if_neg (fun h2 => hst ⟨text, h, h2⟩)]
      · rfl
    rw [hj]
    unfold entriesOf
    simp only [List.flatMap_cons, List.flatMap_nil, List.append_nil]
    split
    · exact hmain
    · simp

theorem entriesOf_flatMap' {α : Type} (f : α → List Job) (l : List α) (n : Bytes) (t : UInt8) :
    entriesOf (l.flatMap f) n t = l.flatMap (fun a => entriesOf (f a) n t) := by
  unfold entriesOf
  rw [List.flatMap_assoc]

theorem linesJobs_offsets {env : JEnv} {hs : List Bytes} (n : Bytes) (t : UInt8) : ∀ (lf : List (Bytes × List Field)) (off : Nat),
    (∀ x ∈ lf, LineFits env hs x) → off + (fileOf (lf.map (·.1)) []).length < 2 ^ 64 →
    ((entriesOf (linesJobs env.nfkd hs off lf) n t).map (fun e => e.1.dp.offset.toNat)).Nodup ∧
    ∀ e ∈ entriesOf (linesJobs env.nfkd hs off lf) n t, off ≤ e.1.dp.offset.toNat
  | [], off, _, _ => by simp [linesJobs, entriesOf]
  | (text, fs) :: lf, off, hx, hd => by
    have h := hx (text, fs) (by simp)
    rw [List.map_cons, fileOf_cons, List.length_append, List.length_cons] at hd
    simp only at hd
    obtain ⟨i1, i2⟩ := linesJobs_offsets n t lf (off + text.length + 1) (fun x hm => hx x (by simp [hm])) (by omega)
    obtain ⟨e, l, r, ht, ho⟩ := h.fields
    obtain ⟨o1, o2⟩ := obj_order ho (h.forward.suffix (by rw [ht]; exact List.suffix_cons _ _))
    have hsh := h.short
    simp only at hsh
    have hf : ∀ f ∈ fs, ((entriesOf (fieldJobs env.nfkd hs off ⟨UInt64.ofNat off, UInt32.ofNat text.length⟩ f) n t).map (fun e => e.1.dp.offset.toNat)).Nodup ∧
        (∀ e ∈ entriesOf (fieldJobs env.nfkd hs off ⟨UInt64.ofNat off, UInt32.ofNat text.length⟩ f) n t,
          off + f.start ≤ e.1.dp.offset.toNat ∧ e.1.dp.offset.toNat ≤ off + f.stop) ∧ f.stop ≤ text.length := by
      intro f hm
      have hin := (h.each f hm).inside
      simp only at hin
      have := fieldJobs_offsets (line := ⟨UInt64.ofNat off, UInt32.ofNat text.length⟩) (off := off) (h.fit f hm) (by omega) (by omega) hin.1 n t
      exact ⟨this.1, this.2, hin.2⟩
    unfold linesJobs
    rw [entriesOf_append, entriesOf_flatMap', List.map_append]
    refine ⟨List.pairwise_append.2 ⟨?_, i1, ?_⟩, ?_⟩
    · rw [List.map_flatMap, List.pairwise_flatMap]
      refine ⟨fun f hm => (hf f hm).1, ?_⟩
      refine List.Pairwise.imp_of_mem (fun {f g} hm hm' hfg => ?_) o1
      intro a ha b hb
      obtain ⟨e1, he1, rfl⟩ := List.mem_map.1 ha
      obtain ⟨e2, he2, rfl⟩ := List.mem_map.1 hb
      have := ((hf f hm).2.1 e1 he1).2
      have := ((hf g hm').2.1 e2 he2).1
      omega
    · intro a ha b hb
      obtain ⟨e1, he1, rfl⟩ := List.mem_map.1 ha
      obtain ⟨e2, he2, rfl⟩ := List.mem_map.1 hb
      obtain ⟨f, hm, he1⟩ := List.mem_flatMap.1 he1
      have := ((hf f hm).2.1 e1 he1).2
      have := (hf f hm).2.2
      have := i2 e2 he2
      omega
    · intro e he
      rcases List.mem_append.1 he with he | he
      · obtain ⟨f, hm, he⟩ := List.mem_flatMap.1 he
        have := ((hf f hm).2.1 e he).1
        omega
      · have := i2 e he
        omega

theorem lines_distinct {env : JEnv} {hs : List Bytes} {lf : List (Bytes × List Field)} (hx : ∀ x ∈ lf, LineFits env hs x)
    (hd : (fileOf (lf.map (·.1)) []).length < 2 ^ 64) : Distinct (linesJobs env.nfkd hs 0 lf) := by
  intro n t
  have := (linesJobs_offsets n t lf 0 hx (by omega)).1
  have h2 := List.pairwise_map.1 this
  exact List.pairwise_map.2 (h2.imp fun {a b} h h' => h (by rw [h']))

variable {env : JEnv} {hs : List Bytes} {data : Bytes} {i : IndexFile} {s : PF}

/-! ### The number of entries is at most linear in the size of the file -/

theorem grams_count {nfkd : Bytes → Bytes} {t : Bytes} {rs : List Nat} (hs : ∀ r ∈ rs, Scalar r) (hn : nfkd t = rs.flatMap utf8)
    (hlen : rs.length < 2 ^ 32) {n : Nat} (h1 : 1 ≤ n) : (buildNgram nfkd t n).length ≤ rs.length := by
  obtain ⟨g1, g2⟩ := gram_offsets hs hn hlen h1
  have := g1.length_le_of_subset (l₂ := List.range rs.length) (by
    intro x hx
    obtain ⟨g, hg, rfl⟩ := List.mem_map.1 hx
    exact List.mem_range.2 (g2 g hg))
  simpa using this

theorem fieldJobs_count {nfkd : Bytes → Bytes} {hs : List Bytes} {off : Nat} {line : MemPtr} {f : Field}
    (hfit : GramsFit nfkd hs f) (hs32 : f.stop - f.start < 2 ^ 32) :
    (fieldJobs nfkd hs off line f).length ≤ 4 * (f.stop - f.start + 1) ∧
    ((fieldJobs nfkd hs off line f).map fun j => j.entries.length).sum ≤ 3 * (f.stop - f.start + 1) := by
  have hm : (if isScalar f.tok then [((⟨valuePtr off f, valueBytes f.tok⟩ : RV), line)] else []).length ≤ 1 := by split <;> simp
  unfold fieldJobs
  simp only [List.length_cons, List.map_cons, List.sum_cons]
  split
  · rename_i text h
    split
    · rename_i hin
      obtain ⟨rs, r1, r2, r3⟩ := hfit text h hin
      have g1 := grams_count r1 r2 (by omega) (n := 1) (by omega)
      have g2 := grams_count r1 r2 (by omega) (n := 2) (by omega)
      have g3 := grams_count r1 r2 (by omega) (n := 3) (by omega)
      simp only [List.length_cons, List.length_nil, List.map_cons, List.map_nil, List.sum_cons, List.sum_nil, gramJob, List.length_map]
      omega
    · simp; omega
  · simp; omega

theorem sum_flatMap_le {α β : Type} (f : α → List β) (g : β → Nat) (h : α → Nat) (l : List α) (hl : ∀ a ∈ l, ((f a).map g).sum ≤ h a) :
    ((l.flatMap f).map g).sum ≤ (l.map h).sum := by
  induction l with
  | nil => simp
  | cons a l ih =>
    rw [List.flatMap_cons, List.map_append, List.sum_append, List.map_cons, List.sum_cons]
    have := hl a (by simp)
    have := ih (fun b hb => hl b (by simp [hb]))
    omega

theorem intervals_sum {L : Nat} : ∀ (fs : List Field) (a : Nat), fs.Pairwise (fun f g => f.stop < g.start) →
    (∀ f ∈ fs, a ≤ f.start ∧ f.start ≤ f.stop ∧ f.stop ≤ L) → a ≤ L + 1 → (fs.map fun f => f.stop - f.start + 1).sum + a ≤ L + 1
  | [], a, _, _, ha => by simpa using ha
  | f :: fs, a, hp, hf, _ => by
    rw [List.pairwise_cons] at hp
    obtain ⟨h1, h2, h3⟩ := hf f (by simp)
    have := intervals_sum fs (f.stop + 1) hp.2 (fun g hg => ⟨hp.1 g hg, (hf g (by simp [hg])).2⟩) (by omega)
    rw [List.map_cons, List.sum_cons]
    omega

theorem sum_mul (k : Nat) {α : Type} (f : α → Nat) (l : List α) : (l.map fun a => k * f a).sum = k * (l.map f).sum := by
  induction l with
  | nil => simp
  | cons a l ih => simp only [List.map_cons, List.sum_cons, ih, Nat.mul_add]

theorem sum_ones {α : Type} (l : List α) : (l.map fun _ => 1).sum = l.length := by
  induction l with
  | nil => rfl
  | cons a l ih => simp only [List.map_cons, List.sum_cons, ih, List.length_cons]; omega

theorem linesJobs_count {env : JEnv} {hs : List Bytes} : ∀ (lf : List (Bytes × List Field)) (off : Nat), (∀ x ∈ lf, LineFits env hs x) →
    (linesJobs env.nfkd hs off lf).length ≤ 4 * (fileOf (lf.map (·.1)) []).length ∧
    ((linesJobs env.nfkd hs off lf).map fun j => j.entries.length).sum ≤ 3 * (fileOf (lf.map (·.1)) []).length
  | [], off, _ => by simp [linesJobs]
  | (text, fs) :: lf, off, hx => by
    have h := hx (text, fs) (by simp)
    obtain ⟨i1, i2⟩ := linesJobs_count lf (off + text.length + 1) (fun x hm => hx x (by simp [hm]))
    obtain ⟨e, l, r, ht, ho⟩ := h.fields
    obtain ⟨o1, _⟩ := obj_order ho (h.forward.suffix (by rw [ht]; exact List.suffix_cons _ _))
    have hsh := h.short
    simp only at hsh
    have hin : ∀ f ∈ fs, f.start ≤ f.stop ∧ f.stop ≤ text.length := fun f hm => (h.each f hm).inside
    have hsum := intervals_sum fs 0 o1 (fun f hm => ⟨Nat.zero_le _, hin f hm⟩) (Nat.zero_le _)
    have hf : ∀ f ∈ fs, (fieldJobs env.nfkd hs off ⟨UInt64.ofNat off, UInt32.ofNat text.length⟩ f).length ≤ 4 * (f.stop - f.start + 1) ∧
        ((fieldJobs env.nfkd hs off ⟨UInt64.ofNat off, UInt32.ofNat text.length⟩ f).map fun j => j.entries.length).sum ≤ 3 * (f.stop - f.start + 1) :=
      fun f hm => fieldJobs_count (h.fit f hm) (by have := hin f hm; omega)
    have s1 := sum_flatMap_le (fieldJobs env.nfkd hs off ⟨UInt64.ofNat off, UInt32.ofNat text.length⟩) (fun _ => 1) (fun f => 4 * (f.stop - f.start + 1)) fs
      (fun f hm => by rw [sum_ones]; exact (hf f hm).1)
    have s2 := sum_flatMap_le (fieldJobs env.nfkd hs off ⟨UInt64.ofNat off, UInt32.ofNat text.length⟩) (fun j => j.entries.length)
      (fun f => 3 * (f.stop - f.start + 1)) fs (fun f hm => (hf f hm).2)
    rw [sum_ones, sum_mul] at s1
    rw [sum_mul] at s2
    unfold linesJobs
    rw [List.map_cons, fileOf_cons, List.map_append, List.sum_append]
    simp only [List.length_append, List.length_cons]
    omega

theorem fits_pages {env : JEnv} {hs : List Bytes} {lf : List (Bytes × List Field)} (hx : ∀ x ∈ lf, LineFits env hs x) :
    jobsPages (linesJobs env.nfkd hs 0 lf) ≤ 2 + 5 * (fileOf (lf.map (·.1)) []).length := by
  obtain ⟨h1, h2⟩ := linesJobs_count lf 0 hx
  have h3 := indexesOf_length (linesJobs env.nfkd hs 0 lf)
  unfold jobsPages
  omega

/-- C80 (partial: searched texts whose decomposed form has no more characters than the value has bytes, and files below 2^44 bytes): `Synchronize`
accepts every file whose complete lines are objects with fields that the index supports, from every earlier state of the index. -/
theorem C80_accepts_partial (hr : SyncRun env hs data i s) {more : Bytes} (hd : (data ++ more).length < 2 ^ 44) {lf : List (Bytes × List Field)} {tail : Bytes}
    (hl : IsLines (data ++ more) (lf.map (·.1)) tail) (hx : ∀ x ∈ lf, LineFits env hs x) :
    ∃ s', jsonlSync env i (data ++ more) s = (.ok (), s') := by
  have hle : (fileOf (lf.map (·.1)) []).length < 2 ^ 44 := by
    rw [hl.1, fileOf_tail, List.length_append] at hd
    omega
  rcases C36_succeeds hr (by omega) hl (fun x hm => ⟨(hx x hm).fields, (hx x hm).short, (hx x hm).each⟩) with h | ⟨s', _, h⟩ | ⟨s', _, _, h⟩
  · exact h
  · exact absurd (lines_distinct hx (by omega)) h
  · have := fits_pages hx
    omega

/-- C104: for such lines, the index file has at most 20480 bytes for every byte of the data file, and 8192 more. -/
theorem C104_per_byte (hr : SyncRun env hs data i s) (hd : data.length < 2 ^ 64) {lf : List (Bytes × List Field)} {tail : Bytes}
    (hl : IsLines data (lf.map (·.1)) tail) (hx : ∀ x ∈ lf, LineFits env hs x) :
    s.file.bytes.length ≤ 4096 * (2 + 5 * data.length) := by
  have h1 := C104_jsonl_size hr hd hl (fun x hm => ⟨(hx x hm).fields, (hx x hm).short, (hx x hm).each⟩)
  refine Nat.le_trans h1 (Nat.mul_le_mul_left _ (Nat.le_trans (fits_pages hx) ?_))
  have h2 := congrArg List.length hl.1
  rw [fileOf_tail, List.length_append] at h2
  omega

/-- C80 is violated if two n-grams get the same key: no history ever indexes the file, and every attempt fails. -/
theorem C80_twice_violated {lf : List (Bytes × List Field)} {tail : Bytes} (hd : data.length < 2 ^ 64)
    (hl : IsLines data (lf.map (·.1)) tail)
    (hx : ∀ x ∈ lf, LineFields env.lex x.1 x.2 ∧ x.1.length < 2 ^ 32 ∧ ∀ f ∈ x.2, FieldOK env.lex hs x.1 f)
    (hn : ¬ Distinct (linesJobs env.nfkd hs 0 lf)) : ¬ SyncRun env hs data i s := by
  intro hr
  obtain ⟨is, c, hsh, hk, he⟩ := C36_fields_indexed hr hd hl hx
  refine hn fun n t => ?_
  by_cases hm : (n, t) ∈ (linesJobs env.nfkd hs 0 lf).map (fun j => (j.name, j.ty))
  · obtain ⟨k, p, h1, h2⟩ := Done.at (is := is) (c := c) ⟨hk, he⟩ hm
    obtain ⟨xs, _, x2, x3⟩ := hsh.trees k p _ h1
    refine ((x2.trans h2).map (·.1)).nodup_iff.1 ?_
    exact List.pairwise_map.2 (x3.imp fun h => h.ne)
  · rw [entriesOf_none hm]; simp

/-! ### Concrete files -/

/-- five times U+33AF (rad∕s²), 15 bytes -/
def radText : Bytes := [0xE3, 0x8E, 0xAF, 0xE3, 0x8E, 0xAF, 0xE3, 0x8E, 0xAF, 0xE3, 0x8E, 0xAF, 0xE3, 0x8E, 0xAF]
/-- its decomposed form, 30 characters: five times `r`, `a`, `d`, U+2215, `s`, `2` -/
def radRunes : List Nat := (List.range 5).flatMap (fun _ => [0x72, 0x61, 0x64, 0x2215, 0x73, 0x32])
/-- `{"a":"㎯㎯㎯㎯㎯"}` -/
def radLine : Bytes := [123, 34, 97, 34, 58, 34] ++ radText ++ [34, 125]
/-- that line twice -/
def radData : Bytes := radLine ++ 10 :: radLine ++ [10]
def radFields : List Field := [⟨[97], .str radText, 5, 22⟩]
def radEnv (nfkd : Bytes → Bytes) : JEnv := ⟨goLex (fun _ => none), nfkd⟩

theorem radToks : (goLex (fun _ => none) radLine).toks = [(.lbrace, 1), (.str [97], 4), (.str radText, 22), (.rbrace, 23)] := by decide +kernel
theorem radToksV : (goLex (fun _ => none) ((radLine.drop 5).take (22 - 5))).toks = [(.str radText, 17)] := by decide +kernel

theorem radLines : IsLines radData ([(radLine, radFields), (radLine, radFields)].map (·.1)) [] := by
  refine ⟨by decide, by decide, by simp⟩

theorem radOK (nfkd : Bytes → Bytes) : LineFields (radEnv nfkd).lex radLine radFields ∧ radLine.length < 2 ^ 32 ∧
    ∀ f ∈ radFields, FieldOK (radEnv nfkd).lex [[97]] radLine f := by
  refine ⟨⟨1, _, [], radToks, .scalar trivial .close⟩, by decide, ?_⟩
  intro f hf
  rcases List.mem_cons.1 hf with rfl | hf
  · refine ⟨by decide, fun _ => ⟨_, rfl⟩, by decide, ?_⟩
    intro v hv; cases hv
    exact ⟨17, [], radToksV⟩
  · simp at hf

/-- C80 is violated: a file with the line `{"a":"㎯㎯㎯㎯㎯"}` twice and the search header `a` is never indexed; every `Synchronize` on it fails, from
every earlier state.  (The hypothesis is what Unicode says about U+33AF.) -/
theorem C80_violated (nfkd : Bytes → Bytes) (hn : nfkd radText = radRunes.flatMap utf8) :
    (∀ i s, ¬ SyncRun (radEnv nfkd) [[97]] radData i s) ∧
    ∀ data more i s, SyncRun (radEnv nfkd) [[97]] data i s → data ++ more = radData →
      ∃ s', jsonlSync (radEnv nfkd) i radData s = (.err (.msg "key already exists"), s') := by
  have hx : ∀ x ∈ [(radLine, radFields), (radLine, radFields)], LineFields (radEnv nfkd).lex x.1 x.2 ∧ x.1.length < 2 ^ 32 ∧
      ∀ f ∈ x.2, FieldOK (radEnv nfkd).lex [[97]] x.1 f := by
    intro x hx
    obtain rfl : x = (radLine, radFields) := by simpa using hx
    exact radOK nfkd
  have heq : linesJobs (radEnv nfkd).nfkd [[97]] 0 [(radLine, radFields), (radLine, radFields)] =
      linesJobs (fun _ => radRunes.flatMap utf8) [[97]] 0 [(radLine, radFields), (radLine, radFields)] := by
    simp only [linesJobs, radFields, List.flatMap_cons, List.flatMap_nil, fieldJobs, radEnv, gramJob, buildNgram, normalizeToAscii, hn]
  have hno : ¬ Distinct (linesJobs (radEnv nfkd).nfkd [[97]] 0 [(radLine, radFields), (radLine, radFields)]) := by
    rw [heq]
    intro h
    have := h [97] 10
    revert this
    decide +kernel
  have key : ∀ i s, ¬ SyncRun (radEnv nfkd) [[97]] radData i s := fun i s =>
    C80_twice_violated (by decide) radLines hx hno
  refine ⟨key, fun data more i s hr hdm => ?_⟩
  rcases C36_succeeds hr (more := more) (by rw [hdm]; decide) (by rw [hdm]; exact radLines) hx with ⟨s', h⟩ | ⟨s', h, _⟩ | ⟨s', _, _, h⟩
  · exact absurd (hdm ▸ SyncRun.sync hr h) (key i s')
  · exact ⟨s', hdm ▸ h⟩
  · exfalso
    rw [heq] at h
    revert h
    decide +kernel

/-- `{"a":"x x"}`: a line to which `C80_accepts_partial` applies. -/
example : LineFits (radEnv id) [[97]] ([123, 34, 97, 34, 58, 34, 120, 32, 120, 34, 125], [⟨[97], .str [120, 32, 120], 5, 10⟩]) := by
  have ht : ((radEnv id).lex [123, 34, 97, 34, 58, 34, 120, 32, 120, 34, 125]).toks = [(.lbrace, 1), (.str [97], 4), (.str [120, 32, 120], 10), (.rbrace, 11)] := by
    decide +kernel
  refine ⟨⟨1, _, [], ht, .scalar trivial .close⟩, by decide, ?_, ?_, ?_⟩
  · intro f hf
    rcases List.mem_cons.1 hf with rfl | hf
    · refine ⟨by decide, fun _ => ⟨_, rfl⟩, by decide, ?_⟩
      intro v hv; cases hv
      exact ⟨5, [], by decide +kernel⟩
    · simp at hf
  · rw [ht]; unfold Forward; decide
  · intro f hf
    rcases List.mem_cons.1 hf with rfl | hf
    · intro t ht _
      cases ht
      exact ⟨[120, 32, 120], by intro r hr; left; revert r; decide, by decide, by decide⟩
    · simp at hf

end Appendable
