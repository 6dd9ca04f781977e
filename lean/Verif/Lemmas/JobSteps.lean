import Verif.Lemmas.JobSize
import Verif.Lemmas.Mono
import Verif.Props.Tree
import Verif.Spec.Jsonl
/-! Programs that write jobs: outcomes and sequencing. -/
namespace Appendable
open Spec Tree

variable {data : Bytes} {parse : Bytes → Bytes} {wd : UInt16 → UInt16} {s : PF} {fm : FileMeta} {is : List (LP × IndexMeta)}
  {c : Nat → List Entry} {js : List Job} {i : IndexFile} {α β : Type}

theorem Spec.Distinct.left {js ks : List Job} (h : Distinct (js ++ ks)) : Distinct js := by
  intro n t
  have := h n t
  rw [entriesOf_append, List.map_append] at this
  exact (List.nodup_append.1 this).1

theorem distinct_of_entries {js ks : List Job} (h : ∀ n t, entriesOf js n t = entriesOf ks n t) (hd : Distinct ks) : Distinct js := by
  intro n t; rw [h]; exact hd n t

theorem SameJobs.distinct {js ks : List Job} (h : SameJobs js ks) (hd : Distinct ks) : Distinct js := by
  intro n t; rw [h.2.1]; exact hd n t

theorem SameJobs.symm {js ks : List Job} (h : SameJobs js ks) : SameJobs ks js :=
  ⟨h.1.symm, fun n t => (h.2.1 n t).symm, fun n t => (h.2.2 n t).symm⟩

theorem SameJobs.trans {js ks ls : List Job} (h : SameJobs js ks) (g : SameJobs ks ls) : SameJobs js ls :=
  ⟨h.1.trans g.1, fun n t => (h.2.1 n t).trans (g.2.1 n t), fun n t => (h.2.2 n t).trans (g.2.2 n t)⟩

theorem SameJobs.append {js ks : List Job} (h : SameJobs js ks) (ls : List Job) : SameJobs (js ++ ls) (ks ++ ls) := by
  refine ⟨?_, ?_, ?_⟩
  · have h1 := h.1
    unfold indexesOf at *
    rw [List.map_append, List.map_append, firstOccurrences_append, firstOccurrences_append, h1]
    congr 1
    apply List.filter_congr
    intro b _
    have : b ∈ js.map (fun j => (j.name, j.ty)) ↔ b ∈ ks.map (fun j => (j.name, j.ty)) := by
      rw [← mem_firstOccurrences, h1, mem_firstOccurrences]
    exact decide_eq_decide.2 (not_congr this)
  · intro n t; rw [entriesOf_append, entriesOf_append, h.2.1]
  · intro n t; rw [totalOf_append, totalOf_append, h.2.2]

/-- A job that adds nothing to an index in use. -/
theorem sameJobs_noop {js : List Job} {n : Bytes} {t : UInt8} (h : (n, t) ∈ js.map (fun j => (j.name, j.ty))) :
    SameJobs (js ++ [⟨n, t, [], 0⟩]) js := by
  refine ⟨?_, ?_, ?_⟩
  · unfold indexesOf
    rw [List.map_append, List.map_cons, List.map_nil, firstOccurrences_snoc_old h]
  · intro m u; rw [entriesOf_append]; simp [entriesOf]
  · intro m u; rw [totalOf_append]; simp [totalOf]

/-- The outcomes of a program that writes jobs so that `js` are done afterwards. -/
def Steps (data : Bytes) (parse : Bytes → Bytes) (wd : UInt16 → UInt16) (fm : FileMeta) (m : Act PF α) (s : PF) (js : List Job)
    (Q : α → List (LP × IndexMeta) → Prop) : Prop :=
  (∃ a s' is' c', m s = (.ok a, s') ∧ JIs data parse wd s' fm is' c' js ∧ Q a is') ∨
  (∃ s', m s = (.err (.msg "key already exists"), s') ∧ ¬ Distinct js) ∨
  (∃ s', m s = (.err .io, s') ∧ Full wd js s')

theorem Steps.bind {m : Act PF α} {f : α → Act PF β} {js1 js2 : List Job} {Q : α → List (LP × IndexMeta) → Prop}
    {R : β → List (LP × IndexMeta) → Prop} (h : Steps data parse wd fm m s js1 Q) (hd : Part js1 js2)
    (g : ∀ a s' is' c', JIs data parse wd s' fm is' c' js1 → Q a is' → Steps data parse wd fm (f a) s' js2 R) :
    Steps data parse wd fm (m >>= f) s js2 R := by
  rcases h with ⟨a, s', is', c', e1, e2, e3⟩ | ⟨s', e1, e2⟩ | ⟨s', e1, e2⟩
  · rcases g a s' is' c' e2 e3 with ⟨b, s2, is2, c2, g1, g2, g3⟩ | ⟨s2, g1, g2⟩ | ⟨s2, g1, g2⟩
    · exact .inl ⟨b, s2, is2, c2, by rw [Act.bind_ok e1, g1], g2, g3⟩
    · exact .inr (.inl ⟨s2, by rw [Act.bind_ok e1, g1], g2⟩)
    · exact .inr (.inr ⟨s2, by rw [Act.bind_ok e1, g1], g2⟩)
  · exact .inr (.inl ⟨s', by rw [Act.bind_err e1], fun hc => e2 (hd.distinct hc)⟩)
  · exact .inr (.inr ⟨s', by rw [Act.bind_err e1], e2.mono hd⟩)

theorem Steps.pure {a : α} {Q : α → List (LP × IndexMeta) → Prop} (h : JIs data parse wd s fm is c js) (hq : Q a is) :
    Steps data parse wd fm (Pure.pure a : Act PF α) s js Q := .inl ⟨a, s, is, c, rfl, h, hq⟩

theorem Steps.imp {m : Act PF α} {Q R : α → List (LP × IndexMeta) → Prop} (h : Steps data parse wd fm m s js Q)
    (hi : ∀ a is', Q a is' → R a is') : Steps data parse wd fm m s js R := by
  rcases h with ⟨a, s', is', c', e1, e2, e3⟩ | h | h
  · exact .inl ⟨a, s', is', c', e1, e2, hi _ _ e3⟩
  · exact .inr (.inl h)
  · exact .inr (.inr h)

theorem Steps.same {m : Act PF α} {Q : α → List (LP × IndexMeta) → Prop} {ks : List Job} (h : Steps data parse wd fm m s js Q)
    (hs : SameJobs js ks) : Steps data parse wd fm m s ks Q := by
  rcases h with ⟨a, s', is', c', e1, e2, e3⟩ | ⟨s', e1, e2⟩ | h
  · exact .inl ⟨a, s', is', c', e1, e2.same hs, e3⟩
  · exact .inr (.inl ⟨s', e1, fun hc => e2 (hs.distinct hc)⟩)
  · obtain ⟨s', e1, e2⟩ := h
    exact .inr (.inr ⟨s', e1, e2.mono (Part.same hs)⟩)

theorem Mono.big {m : Act PF α} (hm : Mono m) {s s' : PF} {r : Res α} (h : m s = (r, s')) (hb : Big s) : Big s' := by
  have := hm.le s
  rw [h] at this
  unfold Big at *
  simp only at this
  omega

/-- Finding the index. -/
theorem JIs.findSteps (h : JIs data parse wd s fm is c js) (hi : i.tree = fileSlot) (hw : SmallWidths wd) {name : Bytes}
    (hn : name.length ≤ 236) (ty : UInt8) :
    Steps data parse wd fm (i.findOrCreate name ty) s (js ++ [⟨name, ty, [], 0⟩]) (fun a is' =>
      a.2 = ⟨name, ty, determineTypeByte ty, totalOf js name ty⟩ ∧ (∃ k : Nat, is'[k]? = some a) ∧ Handles is is') := by
  rcases h.find hi hw hn ty with ⟨k, p, m, s', is', e1, e2, e3, e4, e5⟩ | ⟨s', e1, e2⟩
  · exact .inl ⟨(p, m), s', is', c, e1, e4, e3, ⟨k, e2⟩, e5⟩
  · exact .inr (.inr ⟨s', e1, Full.mono ⟨(Mono.findOrCreate i name ty).big e1 e2, h.pages e2⟩ (Part.left _ _)⟩)

/-- Inserting an entry. -/
theorem JIs.insertSteps (h : JIs data parse wd s fm is c js) {k : Nat} {p : LP} {m : IndexMeta} (hk : is[k]? = some (p, m))
    {key : RV} (v : MemPtr) (hko : KeyOK ⟨data, parse, wd m.width⟩ key) :
    Steps data parse wd fm ((treeAt data parse (wd m.width) p).insert key v) s
      (js ++ [⟨m.fieldName, m.fieldType, [(key, v)], 0⟩]) (fun _ is' => is' = is) := by
  by_cases hnew : ∀ e ∈ entriesOf js m.fieldName m.fieldType, e.1 ≠ key
  · rcases h.insert hk v hko hnew with ⟨s', c', e1, e2⟩ | ⟨s', e1, e2⟩
    · exact .inl ⟨(), s', is, c', e1, e2, rfl⟩
    · exact .inr (.inr ⟨s', e1, Full.mono ⟨(Mono.insert _ _ _).big e1 e2, h.pages e2⟩ (Part.left _ _)⟩)
  · obtain ⟨_, d2⟩ := h.done.each k p m hk
    right; left
    rcases h.idx.insert hk v hko with ⟨s1, e1, e2, _⟩ | ⟨q, e1, _⟩ | ⟨s1, e1, e2, e3⟩
    · exact absurd (fun e he => e2 e (d2.mem_iff.2 he)) hnew
    · refine ⟨_, e1, ?_⟩
      intro hd
      have := hd m.fieldName m.fieldType
      rw [entriesOf_append] at this
      simp only [entriesOf, List.flatMap_cons, List.flatMap_nil, and_self, if_true, List.append_nil, List.map_append,
        List.map_cons, List.map_nil] at this
      have hd2 := (List.nodup_append.1 this).2.2
      apply hnew
      intro e he hc
      exact hd2 e.1 (List.mem_map.2 ⟨e, he, rfl⟩) key (by simp) hc
    · exact absurd (fun e he => e2 e (d2.mem_iff.2 he)) hnew

/-- Distinctness follows from the trees. -/
theorem JIs.distinct (h : JIs data parse wd s fm is c js) : Distinct js := by
  intro n t
  by_cases hm : (n, t) ∈ js.map (fun j => (j.name, j.ty))
  · obtain ⟨k, p, hk, hp⟩ := h.done.at hm
    obtain ⟨free, ps, cnt, E, P, h1, h2, h3⟩ := h.idx.treeAt
    obtain ⟨ti, tw, tp⟩ := h1.forest.tree k _ (h3 k p _ hk)
    have hasc := ti.asc
    have : ((E k).map (·.1)).Nodup := by
      rw [List.Nodup, List.pairwise_map]
      refine hasc.imp ?_
      intro a b hab heq
      have := compareRV_neg.2 hab
      rw [(compareRV_eq_zero _ _).2 heq] at this
      exact absurd this (by decide)
    exact ((tp.trans hp).map _).nodup this
  · rw [entriesOf_none hm]; simp

end Appendable
