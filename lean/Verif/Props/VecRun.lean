import Verif.Spec.Vec
import Verif.Lemmas.VecTop
import Verif.Lemmas.Forest
import Verif.Props.VecTree
/-! C72, C73: histories of a vector tree. -/
namespace Appendable
open Spec

theorem V.TreeIs.keep {t : VTree} {s s' : PF} {free es ps} (h : V.TreeIs t s free es ps) (hv : s'.Valid free)
    (hb : s'.file.budget = none) (he : s'.file.bytes = s.file.bytes) : V.TreeIs t s' free es ps := by
  refine ⟨hv, hb, h.slot, ?_, h.slotOut, h.nodup, ?_, by rw [he]; exact h.root⟩
  · have := h.slotLive; unfold Live at *; rw [he]; exact this
  · intro p hp
    have := h.live p hp; unfold Live at *; rw [he]; exact this

/-- The dimensions and histories for which no insertion panics. -/
def Manageable (t : VTree) (c : List (RefId × Vec)) : Prop := t.dim.toNat ≤ 500 ∨ (511 ≤ t.dim.toNat ∧ t.dim.toNat ≤ 1000 ∧ c.length ≤ 2)

theorem insertable {t : VTree} {c : List (RefId × Vec)} {e : RefId × Vec} {es : List V.VEntry} (h : Manageable t (e :: c)) (hp : es.Perm c) :
    V.vbytes t.dim ≤ 2000 ∨ (V.vbytes t.dim ≤ 4000 ∧ es.length ≤ 1) := by
  have := hp.length_eq
  unfold V.vbytes
  rcases h with h | ⟨h0, h1, h2⟩
  · left; omega
  · right; simp only [List.length_cons] at h2; omega

theorem vec_inv {t : VTree} {s : PF} {c : List (RefId × Vec)} (h : VecRun t s c) :
    t.dim ≠ 0 ∧ (Manageable t c → ∃ free es ps, V.TreeIs t s free es ps ∧ es.Perm c) := by
  induction h with
  | @start s owned freed n ha hd hs ho hz =>
    have hi := allocRun_inv ha
    refine ⟨hd, fun _ => ⟨freed, [], [], ⟨hi.valid, hi.budget, hs, ?_, by simp, by simp, by simp, .inl ⟨?_, rfl, rfl⟩⟩, .nil⟩⟩
    · rw [slotPage_eq_div]; exact (hi.owned_iff _).1 ho
    · rw [hz, decode_zeros]
  | @insert s s' c k v hr hv h ih =>
    refine ⟨ih.1, fun hm => ?_⟩
    obtain ⟨free, es, ps, ht, hp⟩ := ih.2 (hm.imp id (fun hm => ⟨hm.1, hm.2.1, by have := hm.2.2; simp at this; omega⟩))
    cases V.insert_out (key := k) ih.1 (insertable hm hp) hv ht with
    | dup p e he hk run => rw [run] at h; cases h
    | ok s2 free' es' ps' new run rel tree frame fresh len =>
      rw [run] at h; cases h
      exact ⟨free', es', ps', tree, rel.perm.trans (hp.cons _)⟩
    | full s2 new run big => rw [run] at h; cases h
  | @rejected s s' c k v m hr hv h ih =>
    refine ⟨ih.1, fun hm => ?_⟩
    obtain ⟨free, es, ps, ht, hp⟩ := ih.2 hm
    have hkeep : ∀ p, s' = s.upd s.file.bytes p → ∃ free es ps, V.TreeIs t s' free es ps ∧ es.Perm c :=
      fun p hs => ⟨free, es, ps, hs ▸ ht.upd_pos p, hp⟩
    by_cases hx : ∃ e ∈ es, V.idKey e.1 = V.idKey k
    · obtain ⟨p, run⟩ := V.dup_out ht k v hx
      rw [run] at h; cases h; exact hkeep p rfl
    · exfalso
      have hnew : ∀ e ∈ es, V.idKey e.1 ≠ V.idKey k := fun e he hk => hx ⟨e, he, hk⟩
      by_cases hd3 : V.vbytes t.dim ≤ 2000 ∨ (V.vbytes t.dim ≤ 4000 ∧ es.length ≤ 1)
      · cases V.insert_out (key := k) ih.1 hd3 hv ht with
        | dup p e he hk run => exact hnew e he hk
        | ok s2 free' es' ps' new run rel tree frame fresh len => rw [run] at h; cases h
        | full s2 new run big => rw [run] at h; cases h
      · have := hp.length_eq
        unfold V.vbytes at hd3
        rcases hm with hm | ⟨m1, m2, m3⟩
        · omega
        · rcases V.third_panics (key := k) (value := v) ih.1 (by unfold V.vbytes; omega) (by unfold V.vbytes; omega) hv ht (by omega) hnew with h3 | h3
          · rw [h] at h3; cases h3
          · rw [h] at h3; cases h3.1
  | @find s s' c k r hr h ih =>
    refine ⟨ih.1, fun hm => ?_⟩
    obtain ⟨free, es, ps, ht, hp⟩ := ih.2 hm
    obtain ⟨p, ho⟩ := V.find_out ht k
    have : s' = s.upd s.file.bytes p := by
      rcases ho with ⟨_, ho⟩ | ⟨_, _, ho⟩ | ⟨_, _, _, _, _, ho⟩ <;> (rw [ho] at h; cases h; rfl)
    exact ⟨free, es, ps, this ▸ ht.upd_pos p, hp⟩
  | @reopen s s' c f f' hr hb hu h ih =>
    refine ⟨ih.1, fun hm => ?_⟩
    obtain ⟨free, es, ps, ht, hp⟩ := ih.2 hm
    obtain ⟨s2, hr2, hv, hbytes, _, hbud, _, _⟩ := openFile_valid' ht.valid f hb
    rw [hr2] at h
    cases h
    exact ⟨free, es, ps, ht.keep hv (by rw [hbud, hu]) (by rw [hbytes, hb]), hp⟩

theorem f32_mono_bound {e y : Nat} (he : e < 32) (h1 : 2 ^ e ≤ y) (h2 : y < 2 ^ (e + 1)) :
    2 ^ 23 ≤ (if e ≤ 23 then y * 2 ^ (23 - e) else roundShift y (e - 23)) ∧
    (if e ≤ 23 then y * 2 ^ (23 - e) else roundShift y (e - 23)) ≤ 2 ^ 24 := by
  split
  · rename_i h
    constructor
    · calc 2 ^ 23 = 2 ^ e * 2 ^ (23 - e) := by rw [← Nat.pow_add]; congr 1; omega
        _ ≤ y * 2 ^ (23 - e) := Nat.mul_le_mul_right _ h1
    · calc y * 2 ^ (23 - e) ≤ 2 ^ (e + 1) * 2 ^ (23 - e) := Nat.mul_le_mul_right _ (by omega)
        _ = 2 ^ 24 := by rw [← Nat.pow_add]; congr 1; omega
  · rename_i h
    have a1 : 2 ^ 23 ≤ y / 2 ^ (e - 23) := by
      rw [Nat.le_div_iff_mul_le (Nat.two_pow_pos _), ← Nat.pow_add]
      exact Nat.le_trans (Nat.pow_le_pow_right (by decide) (by omega)) h1
    have a2 : y / 2 ^ (e - 23) < 2 ^ 24 := by
      rw [Nat.div_lt_iff_lt_mul (Nat.two_pow_pos _), ← Nat.pow_add]
      exact Nat.lt_of_lt_of_le h2 (Nat.pow_le_pow_right (by decide) (by omega))
    unfold roundShift
    simp only
    split <;> omega

theorem roundShift_mono {x y : Nat} (k : Nat) (h : x ≤ y) : roundShift x k ≤ roundShift y k := by
  unfold roundShift
  simp only
  have hp : 0 < 2 ^ k := Nat.two_pow_pos k
  generalize 2 ^ k = m at *
  have hd := Nat.div_le_div_right (c := m) h
  have e1 := Nat.div_add_mod x m
  have e2 := Nat.div_add_mod y m
  by_cases hq : x / m = y / m
  · rw [hq] at e1 ⊢
    split <;> split <;> omega
  · split <;> split <;> omega

/-- The conversion is monotone in the bit patterns. -/
theorem f32OfU32_mono {x y : UInt32} (h : x.toNat ≤ y.toNat) : (f32OfU32 x).toNat ≤ (f32OfU32 y).toNat := by
  unfold f32OfU32
  by_cases hx : x = 0
  · rw [if_pos hx]; simp
  · have hx0 : x.toNat ≠ 0 := fun hc => hx (UInt32.toNat_inj.1 (by simpa using hc))
    have hy0 : y.toNat ≠ 0 := by omega
    have hy : y ≠ 0 := fun hc => hy0 (by rw [hc]; rfl)
    rw [if_neg hx, if_neg hy]
    simp only [UInt32.toNat_ofNat']
    have bx := f32_mono_bound (e := Nat.log2 x.toNat) (y := x.toNat) ((Nat.log2_lt hx0).2 x.toNat_lt) (Nat.log2_self_le hx0) Nat.lt_log2_self
    have bY := f32_mono_bound (e := Nat.log2 y.toNat) (y := y.toNat) ((Nat.log2_lt hy0).2 y.toNat_lt) (Nat.log2_self_le hy0) Nat.lt_log2_self
    have lx := (Nat.log2_lt hx0).2 x.toNat_lt
    have ly := (Nat.log2_lt hy0).2 y.toNat_lt
    have hlog : Nat.log2 x.toNat ≤ Nat.log2 y.toNat := by
      rw [Nat.le_log2 hy0]
      exact Nat.le_trans (Nat.log2_self_le hx0) h
    generalize Nat.log2 x.toNat = e at *
    generalize Nat.log2 y.toNat = f at *
    have hmono : e = f → (if e ≤ 23 then x.toNat * 2 ^ (23 - e) else roundShift x.toNat (e - 23)) ≤
        (if f ≤ 23 then y.toNat * 2 ^ (23 - f) else roundShift y.toNat (f - 23)) := by
      rintro rfl
      split
      · exact Nat.mul_le_mul_right _ h
      · exact roundShift_mono _ h
    generalize (if e ≤ 23 then x.toNat * 2 ^ (23 - e) else roundShift x.toNat (e - 23)) = a at *
    generalize (if f ≤ 23 then y.toNat * 2 ^ (23 - f) else roundShift y.toNat (f - 23)) = b at *
    rw [Nat.mod_eq_of_lt (by omega), Nat.mod_eq_of_lt (by omega)]
    by_cases he : e = f
    · have := hmono he; omega
    · omega

/-- Converting once or more leaves only the two fixed patterns alone. -/
theorem repeat_fixed (n : Nat) (x : UInt32) : Nat.repeat f32OfU32 (n + 1) x = x ↔ x = 0 ∨ x = 0x4e9d3a75 := by
  rw [← f32OfU32_fixed]
  constructor
  · intro h
    rcases Nat.lt_trichotomy (f32OfU32 x).toNat x.toNat with hl | he | hg
    · exfalso
      have : ∀ m, (Nat.repeat f32OfU32 (m + 1) x).toNat < x.toNat := by
        intro m
        induction m with
        | zero => exact hl
        | succ m ih => exact Nat.lt_of_le_of_lt (f32OfU32_mono (Nat.le_of_lt ih)) hl
      have := this n
      rw [h] at this; omega
    · exact UInt32.toNat_inj.1 he
    · exfalso
      have : ∀ m, x.toNat < (Nat.repeat f32OfU32 (m + 1) x).toNat := by
        intro m
        induction m with
        | zero => exact hg
        | succ m ih => exact Nat.lt_of_lt_of_le hg (f32OfU32_mono (Nat.le_of_lt ih))
      have := this n
      rw [h] at this; omega
  · intro h
    induction n with
    | zero => exact h
    | succ n ih => show f32OfU32 (Nat.repeat f32OfU32 (n + 1) x) = x; rw [ih, h]

theorem kept_converted {v w : Vec} (h : V.Kept v w) : ∃ n, w = converted n v := by
  induction h with
  | refl => exact ⟨0, by unfold converted; symm; exact map_eq_self.2 (fun _ _ => rfl)⟩
  | step h ih =>
    obtain ⟨n, rfl⟩ := ih
    exact ⟨n + 1, by unfold converted; rw [List.map_map]; rfl⟩

theorem converted_fixed (n : Nat) (v : Vec) : converted (n + 1) v = v ↔ ∀ x ∈ v, x = 0 ∨ x = 0x4e9d3a75 := by
  unfold converted
  rw [map_eq_self]
  constructor
  · intro h x hx; exact (repeat_fixed n x).1 (h x hx)
  · intro h x hx; exact (repeat_fixed n x).2 (h x hx)

theorem idKey_eq {a b : RefId} : V.idKey a = V.idKey b ↔ a.value = b.value := by
  unfold V.idKey; exact UInt64.toNat_inj

/-- C72 as far as the code goes: after any history of a tree of dimension at most 500, `Find` answers for every id that
was inserted with this id, its data pointer and a vector whose components went through one or more conversions, reports
every other id as missing (in an empty tree: zero values and no error), and changes no byte of the file. -/
theorem C72_find_partial {t : VTree} {s : PF} {c : List (RefId × Vec)} (h : VecRun t s c) (hd : t.dim.toNat ≤ 500) (k : RefId) :
    ∃ s', s'.file.bytes = s.file.bytes ∧
      (c = [] → t.find k s = (.ok none, s')) ∧
      (c ≠ [] → ¬ HasId c k.value → t.find k s = (.err (.msg "key not found"), s')) ∧
      (∀ e ∈ c, e.1.value = k.value → ∃ n, t.find k s = (.ok (some (e.1, converted (n + 1) e.2)), s')) := by
  obtain ⟨h0, hi⟩ := vec_inv h
  obtain ⟨free, es, ps, ht, hp⟩ := hi (.inl hd)
  obtain ⟨p, ho⟩ := V.find_out ht k
  have huniq : ∀ a ∈ es, ∀ b ∈ es, V.idKey a.1 = V.idKey b.1 → a = b := by
    intro a ha b hb hab
    obtain ⟨i, hi', rfl⟩ := List.mem_iff_getElem.1 ha
    obtain ⟨j, hj, rfl⟩ := List.mem_iff_getElem.1 hb
    have hA := List.pairwise_iff_getElem.1 ht.asc
    rcases Nat.lt_trichotomy i j with hl | he | hg
    · have := hA i j hi' hj hl; omega
    · subst he; rfl
    · have := hA j i hj hi' hg; omega
  refine ⟨s.upd s.file.bytes p, rfl, ?_⟩
  rcases ho with ⟨rfl, ho⟩ | ⟨hne, hno, ho⟩ | ⟨e, he, hk, u, hu, ho⟩
  · have hc : c = [] := hp.nil_eq.symm
    subst hc
    exact ⟨fun _ => ho, fun hn => absurd rfl hn, by simp⟩
  · refine ⟨fun hc => absurd (by rw [hc] at hp; exact hp.eq_nil) hne, fun _ _ => ho, ?_⟩
    intro e he hk
    exact absurd (idKey_eq.2 hk) (hno e (hp.mem_iff.2 he))
  · refine ⟨fun hc => absurd (by rw [hc] at hp; exact hp.eq_nil) (List.ne_nil_of_mem he), fun _ hn => ?_, ?_⟩
    · exact absurd ⟨e, hp.mem_iff.1 he, idKey_eq.1 hk⟩ hn
    · intro e' he' hk'
      have : e' = e := huniq e' (hp.mem_iff.2 he') e he (by rw [hk]; exact idKey_eq.2 hk')
      subst this
      obtain ⟨n, rfl⟩ := kept_converted hu
      exact ⟨n, by rw [ho]; unfold converted; rw [List.map_map]; rfl⟩

/-- C72: the ids in the tree are pairwise different. -/
theorem C72_distinct {t : VTree} {s : PF} {c : List (RefId × Vec)} (h : VecRun t s c) (hd : t.dim.toNat ≤ 500) :
    (c.map (·.1.value)).Nodup := by
  obtain ⟨h0, hi⟩ := vec_inv h
  obtain ⟨free, es, ps, ht, hp⟩ := hi (.inl hd)
  rw [← (hp.map _).nodup_iff]
  unfold List.Nodup
  rw [List.pairwise_map]
  exact ht.asc.imp (fun {a b} hab hc => by have := idKey_eq.2 hc; omega)

/-- C72: exactly the vectors made of the components `0` and `0x4e9d3a75` are found as they were inserted. -/
theorem C72_unchanged_iff_partial {t : VTree} {s : PF} {c : List (RefId × Vec)} (h : VecRun t s c) (hd : t.dim.toNat ≤ 500)
    {e : RefId × Vec} (he : e ∈ c) :
    (t.find e.1 s).1 = .ok (some e) ↔ ∀ x ∈ e.2, x = 0 ∨ x = 0x4e9d3a75 := by
  obtain ⟨s', _, _, _, h4⟩ := C72_find_partial h hd e.1
  obtain ⟨n, hn⟩ := h4 e he rfl
  rw [hn, ← converted_fixed n]
  constructor
  · intro hc
    injection hc with hc
    injection hc with hc
    exact congrArg Prod.snd hc
  · intro hc; rw [hc]

/-- C73 as far as the code goes: in a tree of dimension at most 500 with room in the file, inserting a new id succeeds,
and inserting an id again is refused and changes no byte. -/
theorem C73_insert_partial {t : VTree} {s : PF} {c : List (RefId × Vec)} (h : VecRun t s c) (hd : t.dim.toNat ≤ 500)
    (hroom : Roomy s) (k : RefId) (v : Vec) (hv : v.length = t.dim.toNat) :
    (¬ HasId c k.value → ∃ s', t.insert k v s = (.ok (), s') ∧ VecRun t s' ((k, v) :: c)) ∧
    (HasId c k.value → ∃ s', t.insert k v s = (.err (.msg "key already exists"), s') ∧ s'.file.bytes = s.file.bytes) := by
  obtain ⟨h0, hi⟩ := vec_inv h
  obtain ⟨free, es, ps, ht, hp⟩ := hi (.inl hd)
  constructor
  · intro hn
    cases V.insert_out (key := k) h0 (.inl (by unfold V.vbytes; omega)) hv ht with
    | dup p e he hk run => exact absurd ⟨e, hp.mem_iff.1 he, idKey_eq.1 hk⟩ hn
    | ok s2 free' es' ps' new run rel tree frame fresh len => exact ⟨s2, run, .insert h hv run⟩
    | full s2 new run big => unfold Roomy at hroom; omega
  · rintro ⟨e, he, hk⟩
    obtain ⟨p, run⟩ := V.dup_out ht k v ⟨e, hp.mem_iff.2 he, idKey_eq.2 hk⟩
    exact ⟨_, run, rfl⟩

/-- C73 violated, in every history: in a tree of dimension 511 to 1000, the third insertion panics. -/
theorem C73_third_panics {t : VTree} {s : PF} {c : List (RefId × Vec)} (h : VecRun t s c) (hd : 511 ≤ t.dim.toNat)
    (hd2 : t.dim.toNat ≤ 1000) (hc : c.length = 2) (hroom : Roomy s) (k : RefId) (v : Vec) (hv : v.length = t.dim.toNat)
    (hk : ¬ HasId c k.value) : (t.insert k v s).1 = .panic := by
  obtain ⟨h0, hi⟩ := vec_inv h
  obtain ⟨free, es, ps, ht, hp⟩ := hi (.inr ⟨hd, hd2, by omega⟩)
  have := hp.length_eq
  rcases V.third_panics (key := k) (value := v) h0 (by unfold V.vbytes; omega) (by unfold V.vbytes; omega) hv ht (by omega)
    (fun e he hc => hk ⟨e, hp.mem_iff.1 he, idKey_eq.1 hc⟩) with h3 | h3
  · exact h3
  · unfold Roomy at hroom; omega

/-- Two vectors fit into a tree of any dimension up to 1000. -/
theorem two_fit (d : UInt64) (hd0 : d ≠ 0) (hd : d.toNat ≤ 500 ∨ (511 ≤ d.toNat ∧ d.toNat ≤ 1000)) (k1 k2 : RefId) (v1 v2 : Vec)
    (hk : k2.value ≠ k1.value) (h1 : v1.length = d.toNat) (h2 : v2.length = d.toNat) :
    ∃ s, VecRun ⟨4096, d⟩ s [(k2, v2), (k1, v1)] ∧ Roomy s := by
  obtain ⟨s, owned, n, a1, a2, a3, a4⟩ := fresh_page
  have r0 : VecRun ⟨4096, d⟩ s [] := .start a1 hd0 (by show 4096 % 4096 + 12 ≤ 4096; omega) (by simpa [pageSize] using a2) a3
  have hm : ∀ c : List (RefId × Vec), c.length ≤ 2 → Manageable ⟨4096, d⟩ c := fun c hc => hd.imp id (fun hd => ⟨hd.1, hd.2, hc⟩)
  have hb : ∀ es : List V.VEntry, es.length ≤ 1 → V.vbytes d ≤ 2000 ∨ (V.vbytes d ≤ 4000 ∧ es.length ≤ 1) := by
    intro es he; unfold V.vbytes; omega
  obtain ⟨free, es, ps, ht, hp⟩ := (vec_inv r0).2 (hm _ (by simp))
  have hl := hp.length_eq
  simp only [List.length_nil] at hl
  cases V.insert_out (t := ⟨4096, d⟩) (key := k1) (value := v1) hd0 (hb es (by omega)) h1 ht with
  | dup p e he hk run => rw [hp.eq_nil] at he; simp at he
  | full s2 new run big => rw [a4] at big; simp [pageSize] at big
  | ok s2 free' es' ps' new run rel tree frame fresh len =>
    have r1 : VecRun ⟨4096, d⟩ s2 [(k1, v1)] := .insert r0 h1 run
    have hp2 := rel.perm.trans (hp.cons _)
    have hl2 := hp2.length_eq
    simp only [List.length_cons, List.length_nil] at hl2
    rw [hl] at len
    unfold pageSize at len
    cases V.insert_out (t := ⟨4096, d⟩) (key := k2) (value := v2) hd0 (hb es' (by omega)) h2 tree with
    | dup p e he hk' run =>
      have := hp2.mem_iff.1 he
      simp only [List.mem_singleton] at this
      subst this
      exact absurd (idKey_eq.1 hk').symm hk
    | full s3 new run big => unfold pageSize at big; omega
    | ok s3 free2 es2 ps2 new2 run2 rel2 tree2 frame2 fresh2 len2 =>
      refine ⟨s3, .insert r1 h2 run2, ?_⟩
      rw [hl2] at len2
      unfold Roomy
      unfold pageSize at *
      omega

/-- C73 violated: after two embeddings of the usual dimension 768 were stored, storing a third one panics. -/
theorem C73_violated : ∃ (t : VTree) (s : PF) (c : List (RefId × Vec)) (k : RefId) (v : Vec), VecRun t s c ∧ Roomy s ∧
    t.dim = 768 ∧ c.length = 2 ∧ v.length = t.dim.toNat ∧ ¬ HasId c k.value ∧ (t.insert k v s).1 = .panic := by
  obtain ⟨s, hr, hroom⟩ := two_fit 768 (by decide) (.inr (by decide)) ⟨⟨0, 0⟩, 1⟩ ⟨⟨0, 0⟩, 2⟩ (List.replicate 768 0) (List.replicate 768 0)
    (by decide) (by rw [List.length_replicate]; rfl) (by rw [List.length_replicate]; rfl)
  have hno : ¬ HasId [((⟨⟨0, 0⟩, 2⟩ : RefId), (List.replicate 768 0 : Vec)), (⟨⟨0, 0⟩, 1⟩, List.replicate 768 0)] 3 := by
    rintro ⟨e, he, hk⟩
    simp only [List.mem_cons, List.not_mem_nil, or_false] at he
    rcases he with rfl | rfl <;> revert hk <;> decide
  exact ⟨_, s, _, ⟨⟨0, 0⟩, 3⟩, List.replicate 768 0, hr, hroom, rfl, rfl, by rw [List.length_replicate]; rfl, hno,
    C73_third_panics hr (by decide) (by decide) rfl hroom _ _ (by rw [List.length_replicate]; rfl) hno⟩

/-- C72 violated: a history after which `Find` answers with another vector than the one inserted. -/
theorem C72_violated : ∃ (t : VTree) (s : PF) (c : List (RefId × Vec)) (e : RefId × Vec), VecRun t s c ∧ e ∈ c ∧
    (t.find e.1 s).1 ≠ .ok (some e) := by
  obtain ⟨s, hr, _⟩ := two_fit 2 (by decide) (.inl (by decide)) ⟨⟨3, 4⟩, 7⟩ ⟨⟨9, 4⟩, 5⟩ [0x3f800000, 0] [0, 0] (by decide) rfl rfl
  refine ⟨_, s, _, (⟨⟨3, 4⟩, 7⟩, [0x3f800000, 0]), hr, by simp, ?_⟩
  rw [ne_eq, C72_unchanged_iff_partial hr (by decide) (by simp)]
  intro hc
  have := hc 0x3f800000 (by simp)
  revert this
  decide

/-- A history with two entries of dimension 2, to which the theorems above apply. -/
example : ∃ (t : VTree) (s : PF) (c : List (RefId × Vec)), VecRun t s c ∧ t.dim.toNat ≤ 500 ∧ Roomy s ∧ c.length = 2 := by
  obtain ⟨s, hr, hroom⟩ := two_fit 2 (by decide) (.inl (by decide)) ⟨⟨3, 4⟩, 7⟩ ⟨⟨9, 4⟩, 5⟩ [0x3f800000, 0] [0, 0] (by decide) rfl rfl
  exact ⟨_, s, _, hr, by decide, hroom, rfl⟩

end Appendable
