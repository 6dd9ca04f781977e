import Verif.Lemmas.Size
import Verif.Lemmas.Jobs
import Verif.Spec.Jsonl
/-! Sizes of index files that hold jobs. -/
namespace Appendable
open Spec Tree

theorem IndexSt.space {data : Bytes} {parse : Bytes → Bytes} {wd : UInt16 → UInt16} {s : PF} {fm : FileMeta} {is : List (LP × IndexMeta)}
    {c : Nat → List (RV × MemPtr)} (h : IndexIs data parse (fun m => wd m.width) s fm is c) (hw : ∀ x ∈ is, (wd x.2.width).toNat ≤ 2012) :
    s.file.bytes.length ≤ 4096 * (2 + is.length / 15 + (is.mapIdx fun k x => treePages (wd x.2.width) (c k).length).sum) := by
  obtain ⟨⟨free, ps, cnt, E, P, h1, _⟩, _, _⟩ := h
  have h2 := h1.space (fun m hm => by
    obtain ⟨x, hx, rfl⟩ := List.mem_map.1 hm
    exact hw x hx)
  rw [List.length_map] at h2
  have h3 : ((is.map (·.2)).mapIdx fun k m => treePages (wd m.width) (c k).length) =
      is.mapIdx fun k x => treePages (wd x.2.width) (c k).length := by
    apply List.ext_getElem <;> simp
  rw [h3] at h2
  exact h2

theorem sum_one_key {α : Type} [DecidableEq α] (a : α) (n : Nat) (l : List α) (h : l.Nodup) : (l.map fun b => if a = b then n else 0).sum ≤ n := by
  induction l with
  | nil => simp
  | cons b l ih =>
    rw [List.nodup_cons] at h
    rw [List.map_cons, List.sum_cons]
    by_cases hb : a = b
    · subst hb
      have : (l.map fun b => if a = b then n else 0).sum = 0 := by
        rw [List.sum_eq_zero_iff_forall_eq_nat]
        intro x hx
        obtain ⟨b, hb, rfl⟩ := List.mem_map.1 hx
        rw [if_neg]; rintro rfl; exact h.1 hb
      rw [this, if_pos rfl]; omega
    · rw [if_neg hb]; have := ih h.2; omega

theorem sum_map_add {α : Type} (f g : α → Nat) (l : List α) : (l.map fun x => f x + g x).sum = (l.map f).sum + (l.map g).sum := by
  induction l with
  | nil => rfl
  | cons a l ih => simp only [List.map_cons, List.sum_cons, ih]; omega

/-- The entries of all indexes together are those of the jobs. -/
theorem entries_sum (js : List Job) (l : List (Bytes × UInt8)) (h : l.Nodup) :
    (l.map fun x => (entriesOf js x.1 x.2).length).sum ≤ (js.map fun j => j.entries.length).sum := by
  induction js with
  | nil =>
    suffices (l.map fun x => (entriesOf [] x.1 x.2).length).sum = 0 by omega
    rw [List.sum_eq_zero_iff_forall_eq_nat]
    intro x hx
    obtain ⟨b, hb, rfl⟩ := List.mem_map.1 hx
    rfl
  | cons j js ih =>
    have he : ∀ x : Bytes × UInt8, (entriesOf (j :: js) x.1 x.2).length =
        (if (j.name, j.ty) = x then j.entries.length else 0) + (entriesOf js x.1 x.2).length := by
      rintro ⟨n, t⟩
      simp only [entriesOf, List.flatMap_cons, List.length_append, Prod.mk.injEq]
      congr 1
      split <;> rfl
    simp only [he]
    rw [sum_map_add, List.map_cons, List.sum_cons]
    have := sum_one_key (j.name, j.ty) j.entries.length l h
    omega

theorem sum_mapIdx_le {α : Type} {l : List α} {f g : Nat → α → Nat} (h : ∀ k x, l[k]? = some x → f k x ≤ g k x) :
    (l.mapIdx f).sum ≤ (l.mapIdx g).sum := by
  induction l generalizing f g with
  | nil => simp
  | cons a l ih =>
    rw [List.mapIdx_cons, List.mapIdx_cons, List.sum_cons, List.sum_cons]
    have h1 := h 0 a rfl
    have h2 := ih (f := fun k => f (k + 1)) (g := fun k => g (k + 1)) (fun k x hx => h (k + 1) x (by simpa using hx))
    omega

theorem sum_div_le (a b : Nat) (l : List Nat) : (l.map fun n => 1 + n * a / b).sum ≤ l.length + l.sum * a / b := by
  induction l with
  | nil => simp
  | cons n l ih =>
    rw [List.map_cons, List.sum_cons, List.length_cons, List.sum_cons, Nat.add_mul]
    have : n * a / b + l.sum * a / b ≤ (n * a + l.sum * a) / b := by
      rcases Nat.eq_zero_or_pos b with rfl | hb
      · simp
      · rw [Nat.le_div_iff_mul_le hb, Nat.add_mul]
        have := Nat.div_mul_le_self (n * a) b
        have := Nat.div_mul_le_self (l.sum * a) b
        omega
    omega

/-- The number of entries of the indexes. -/
def entryCount (js : List Job) : Nat := ((indexesOf js).map fun x => (entriesOf js x.1 x.2).length).sum

/-- The size of an index file that holds some jobs. -/
theorem JIs.space' {data : Bytes} {parse : Bytes → Bytes} {wd : UInt16 → UInt16} {s : PF} {fm : FileMeta} {is : List (LP × IndexMeta)}
    {c : Nat → List (RV × MemPtr)} {js : List Job} (h : JIs data parse wd s fm is c js) (a b : Nat)
    (hw : ∀ ty, (wd (determineTypeByte ty)).toNat ≤ 2012 ∧ ∀ n, treePages (wd (determineTypeByte ty)) n ≤ 1 + n * a / b) :
    s.file.bytes.length ≤ 4096 * (2 + (indexesOf js).length / 15 + (indexesOf js).length + entryCount js * a / b) := by
  have hl : is.length = (indexesOf js).length := by rw [← h.done.keys, List.length_map]
  have hm : ∀ (k : Nat) (p : LP) (m : IndexMeta), is[k]? = some (p, m) → m.width = determineTypeByte m.fieldType := by
    intro k p m hk
    rw [(h.done.each k p m hk).1]
  have h1 := h.idx.space (fun x hx => by
    obtain ⟨k, hk⟩ := List.mem_iff_getElem?.1 hx
    rw [hm k x.1 x.2 hk]
    exact (hw _).1)
  refine Nat.le_trans h1 (Nat.mul_le_mul_left _ ?_)
  have h2 : (is.mapIdx fun k x => treePages (wd x.2.width) (c k).length).sum ≤
      (is.mapIdx fun _ x => 1 + (entriesOf js x.2.fieldName x.2.fieldType).length * a / b).sum := by
    refine sum_mapIdx_le (fun k x hk => ?_)
    rw [hm k x.1 x.2 hk, (h.done.each k x.1 x.2 hk).2.length_eq]
    exact (hw _).2 _
  have h3 : (is.mapIdx fun _ x => 1 + (entriesOf js x.2.fieldName x.2.fieldType).length * a / b) =
      (is.map fun x => (entriesOf js x.2.fieldName x.2.fieldType).length).map fun n => 1 + n * a / b := by
    apply List.ext_getElem <;> simp
  rw [h3] at h2
  have h4 := sum_div_le a b (is.map fun x => (entriesOf js x.2.fieldName x.2.fieldType).length)
  have h5 : (is.map fun x => (entriesOf js x.2.fieldName x.2.fieldType).length).sum = entryCount js := by
    unfold entryCount
    rw [← h.done.keys, List.map_map]
    rfl
  rw [List.length_map, h5] at h4
  omega

theorem indexesOf_nodup (js : List Job) : (indexesOf js).Nodup := by
  unfold indexesOf
  generalize js.map (fun j => (j.name, j.ty)) = l
  induction l with
  | nil => exact List.nodup_nil
  | cons a l ih =>
    unfold firstOccurrences
    exact List.nodup_cons.2 ⟨by simp, ih.filter _⟩

theorem entryCount_le (js : List Job) : entryCount js ≤ (js.map fun j => j.entries.length).sum := entries_sum js _ (indexesOf_nodup js)

/-- The size of an index file that holds some jobs. -/
theorem JIs.space {data : Bytes} {parse : Bytes → Bytes} {wd : UInt16 → UInt16} {s : PF} {fm : FileMeta} {is : List (LP × IndexMeta)}
    {c : Nat → List (RV × MemPtr)} {js : List Job} (h : JIs data parse wd s fm is c js) (a b : Nat)
    (hw : ∀ ty, (wd (determineTypeByte ty)).toNat ≤ 2012 ∧ ∀ n, treePages (wd (determineTypeByte ty)) n ≤ 1 + n * a / b) :
    s.file.bytes.length ≤ 4096 * (2 + (indexesOf js).length / 15 + (indexesOf js).length + (js.map fun j => j.entries.length).sum * a / b) := by
  refine Nat.le_trans (h.space' a b hw) (Nat.mul_le_mul_left _ (Nat.add_le_add_left ?_ _))
  exact Nat.div_le_div_right (Nat.mul_le_mul_right _ (entryCount_le js))

theorem treePages_stored (ty : UInt8) :
    (determineTypeByte ty).toNat ≤ 2012 ∧ ∀ n, treePages (determineTypeByte ty) n ≤ 1 + n * 54 / 2809 := by
  have : determineTypeByte ty = 0 ∨ determineTypeByte ty = 1 ∨ determineTypeByte ty = 2 ∨ determineTypeByte ty = 3 ∨
      determineTypeByte ty = 4 ∨ determineTypeByte ty = 9 := by
    unfold determineTypeByte
    repeat (first | split | simp)
  have h0 : halfPage 0 = 68 := by decide
  have h1 : halfPage 1 = 68 := by decide
  have h2 : halfPage 2 = 65 := by decide
  have h3 : halfPage 3 = 63 := by decide
  have h4 : halfPage 4 = 61 := by decide
  have h9 : halfPage 9 = 53 := by decide
  rcases this with h | h | h | h | h | h <;> rw [h] <;> refine ⟨by decide, fun n => ?_⟩ <;> unfold treePages
  · rw [h0]; omega
  · rw [h1]; omega
  · rw [h2]; omega
  · rw [h3]; omega
  · rw [h4]; omega
  · rw [h9]; omega

theorem treePages_zero (n : Nat) : treePages 0 n ≤ 1 + n * 69 / 4624 := by
  have h0 : halfPage 0 = 68 := by decide
  unfold treePages; rw [h0]; omega

/-- The widths are those of the product. -/
def Narrow (wd : UInt16 → UInt16) : Prop :=
  ∀ ty, (wd (determineTypeByte ty)).toNat ≤ 2012 ∧ ∀ n, treePages (wd (determineTypeByte ty)) n ≤ 1 + n * 54 / 2809

theorem narrow_id : Narrow id := treePages_stored
theorem narrow_zero : Narrow (fun _ => 0) := fun ty => ⟨by show (0 : UInt16).toNat ≤ 2012; decide, fun n => by show treePages 0 n ≤ _; have := treePages_zero n; omega⟩

/-- The pages that jobs need at most. -/
def jobPages (js : List Job) : Nat := 2 + (indexesOf js).length / 15 + (indexesOf js).length + entryCount js * 54 / 2809

theorem jobPages_le (js : List Job) : jobPages js ≤ jobsPages js := by
  unfold jobPages jobsPages
  have := entryCount_le js
  omega

/-- The jobs `js` are a part of the jobs `ks`. -/
def Part (js ks : List Job) : Prop :=
  (∀ n t, entriesOf js n t <+: entriesOf ks n t) ∧ ∀ x ∈ indexesOf js, x ∈ indexesOf ks

theorem Part.refl (js : List Job) : Part js js := ⟨fun _ _ => List.prefix_refl _, fun _ h => h⟩

theorem Part.trans {js ks ls : List Job} (h : Part js ks) (g : Part ks ls) : Part js ls :=
  ⟨fun n t => (h.1 n t).trans (g.1 n t), fun x hx => g.2 x (h.2 x hx)⟩

theorem Part.left (js ks : List Job) : Part js (js ++ ks) := by
  refine ⟨fun n t => ?_, fun x hx => ?_⟩
  · rw [entriesOf_append]; exact List.prefix_append _ _
  · unfold indexesOf at *
    rw [mem_firstOccurrences] at *
    rw [List.map_append, List.mem_append]
    exact .inl hx

theorem Part.same {js ks : List Job} (h : SameJobs js ks) : Part js ks :=
  ⟨fun n t => by rw [h.2.1]; exact List.prefix_refl _, fun x hx => by rw [← h.1]; exact hx⟩

theorem Part.left2 (js ks ls : List Job) : Part js (js ++ ks ++ ls) := (Part.left js ks).trans (Part.left _ ls)
theorem Part.left3 (js ks ls ms : List Job) : Part js (js ++ ks ++ ls ++ ms) := (Part.left2 js ks ls).trans (Part.left _ ms)

/-- Opening an index is a part of a job. -/
theorem Part.opened (js : List Job) (n : Bytes) (t : UInt8) (es : List Entry) (tot : UInt64) (ks : List Job) :
    Part (js ++ [⟨n, t, [], 0⟩]) (js ++ [⟨n, t, es, tot⟩] ++ ks) := by
  refine Part.trans ?_ (Part.left _ ks)
  refine ⟨fun m u => ?_, fun x hx => ?_⟩
  · rw [entriesOf_append, entriesOf_append]
    have : entriesOf [⟨n, t, [], 0⟩] m u = [] := by simp [entriesOf]
    rw [this, List.append_nil]
    exact List.prefix_append _ _
  · unfold indexesOf at *
    rw [mem_firstOccurrences] at *
    simpa using hx

theorem Part.total (js : List Job) (n : Bytes) (t : UInt8) (es : List Entry) (tot tot' : UInt64) (ks : List Job) :
    Part (js ++ [⟨n, t, es, tot⟩] ++ ks) (js ++ [⟨n, t, es, tot'⟩] ++ ks) := by
  refine ⟨fun m u => ?_, fun x hx => ?_⟩
  · simp only [entriesOf_append]
    exact List.prefix_refl _
  · unfold indexesOf at *
    simpa using hx

theorem Part.distinct {js ks : List Job} (h : Part js ks) (hd : Distinct ks) : Distinct js := by
  intro n t
  exact (((h.1 n t).sublist).map _).nodup (hd n t)

theorem sum_subset {α : Type} [DecidableEq α] {f g : α → Nat} : ∀ {l m : List α}, l.Nodup → (∀ x ∈ l, x ∈ m) → (∀ x, f x ≤ g x) →
    (l.map f).sum ≤ (m.map g).sum
  | [], _, _, _, _ => by simp
  | a :: l, m, hn, hs, hf => by
    rw [List.nodup_cons] at hn
    have ha := hs a (by simp)
    have h1 := sum_subset (m := m.erase a) hn.2 (fun x hx => (List.mem_erase_of_ne (by rintro rfl; exact hn.1 hx)).2 (hs x (by simp [hx]))) hf
    have h2 := ((List.perm_cons_erase ha).map g).sum_nat
    rw [List.map_cons, List.sum_cons] at h2
    rw [List.map_cons, List.sum_cons, h2]
    have := hf a
    omega

theorem Part.pages {js ks : List Job} (h : Part js ks) : jobPages js ≤ jobPages ks := by
  have h1 : (indexesOf js).length ≤ (indexesOf ks).length := (indexesOf_nodup js).length_le_of_subset h.2
  have h2 : entryCount js ≤ entryCount ks := sum_subset (indexesOf_nodup js) h.2 (fun x => (h.1 x.1 x.2).length_le)
  unfold jobPages
  have := Nat.div_le_div_right (c := 15) h1
  omega

/-- The file is near its largest possible size, and the jobs need so much. -/
def Full (wd : UInt16 → UInt16) (js : List Job) (s : PF) : Prop := Big s ∧ (Narrow wd → 2 ^ 63 ≤ 8192 * jobPages js + 4096)

theorem Full.mono {wd : UInt16 → UInt16} {js ks : List Job} {s : PF} (h : Full wd js s) (hp : Part js ks) : Full wd ks s :=
  ⟨h.1, fun hn => by have := h.2 hn; have := hp.pages; omega⟩

theorem JIs.pages {data : Bytes} {parse : Bytes → Bytes} {wd : UInt16 → UInt16} {s : PF} {fm : FileMeta} {is : List (LP × IndexMeta)}
    {c : Nat → List (RV × MemPtr)} {js : List Job} (h : JIs data parse wd s fm is c js) (hb : Big s) (hn : Narrow wd) :
    2 ^ 63 ≤ 8192 * jobPages js + 4096 := by
  have := h.space' 54 2809 hn
  unfold Big pageSize at hb
  unfold jobPages
  omega

end Appendable
