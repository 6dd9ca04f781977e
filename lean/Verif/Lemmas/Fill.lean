import Verif.Lemmas.Split
/-! How full the pages of a tree are. -/
namespace Appendable
open Spec Tree

/-! ### Keys of internal nodes are keys of entries -/

theorem Kids.lows {R : UInt64 → Option RV → Option RV → List Entry → List Nat → Prop}
    (hR : ∀ p lo hi es ps, R p lo hi es ps → ∀ l, lo = some l → ∃ e ∈ es, e.1 = l) {lo ks ptrs hi es ps}
    (h : Kids R lo ks ptrs hi es ps) : (∀ l, lo = some l → ∃ e ∈ es, e.1 = l) ∧ ∀ k ∈ ks, ∃ e ∈ es, e.1 = k := by
  induction h with
  | one h => exact ⟨hR _ _ _ _ _ h, by simp⟩
  | @cons lo hi p k ks ptrs es1 es2 ps1 ps2 h t ih =>
    refine ⟨fun l hl => ?_, fun x hx => ?_⟩
    · obtain ⟨e, he, h1⟩ := hR _ _ _ _ _ h l hl
      exact ⟨e, by simp [he], h1⟩
    · rcases List.mem_cons.1 hx with rfl | hx
      · obtain ⟨e, he, h1⟩ := ih.1 x rfl
        exact ⟨e, by simp [he], h1⟩
      · obtain ⟨e, he, h1⟩ := ih.2 x hx
        exact ⟨e, by simp [he], h1⟩

theorem mem_zip_fst {n : Node} (h : LeafShape n) {k : RV} (hk : k ∈ n.keys) : ∃ e ∈ n.keys.zip n.leafPtrs, e.1 = k := by
  have : (n.keys.zip n.leafPtrs).map Prod.fst = n.keys := List.map_fst_zip (by rw [h.1]; omega)
  rw [← this] at hk
  obtain ⟨e, he, h1⟩ := List.mem_map.1 hk
  exact ⟨e, he, h1⟩

theorem Rep.low {cfg B h off lo hi es ps} (hr : Rep cfg B h off lo hi es ps) : ∀ l, lo = some l → ∃ e ∈ es, e.1 = l := by
  induction h generalizing off lo hi es ps with
  | zero =>
    obtain ⟨n, qs, hn, rfl, hm⟩ := hr
    obtain ⟨hs, rfl, _, _, _, h6⟩ := hm.1 rfl
    exact fun l hl => mem_zip_fst hs (h6 l hl)
  | succ h ih =>
    obtain ⟨n, qs, hn, rfl, hm⟩ := hr
    exact ((hm.2.1 rfl).2.lows (fun p lo hi es ps hr => ih hr)).1

/-- Every key of the root node of a tree is the key of an entry. -/
theorem Rep.nodeKeys {cfg B h off lo hi es ps n} (hr : Rep cfg B h off lo hi es ps) (hn : NodeAt cfg B off n) :
    ∀ k ∈ n.keys, ∃ e ∈ es, e.1 = k := by
  cases h with
  | zero =>
    obtain ⟨n', qs, hn', rfl, hm⟩ := hr
    cases hn.unique hn'
    obtain ⟨hs, rfl, _⟩ := hm.1 rfl
    exact fun k hk => mem_zip_fst hs hk
  | succ h =>
    obtain ⟨n', qs, hn', rfl, hm⟩ := hr
    cases hn.unique hn'
    exact ((hm.2.1 rfl).2.lows (fun p lo hi es ps hr => hr.low)).2

/-! ### Pages with at least `m` keys -/

/-- All pages of the tree of height `h` at `off` have at least `m` keys. -/
def Dense (m : Nat) (cfg : Cfg) (B : Bytes) : Nat → UInt64 → Prop
  | 0, off => ∃ n, NodeAt cfg B off n ∧ m ≤ n.keys.length
  | h + 1, off => ∃ n, NodeAt cfg B off n ∧ m ≤ n.keys.length ∧ ∀ o ∈ n.intPtrs, Dense m cfg B h o

/-- All but its root. -/
def DenseBelow (m : Nat) (cfg : Cfg) (B : Bytes) : Nat → UInt64 → Prop
  | 0, _ => True
  | h + 1, off => ∃ n, NodeAt cfg B off n ∧ ∀ o ∈ n.intPtrs, Dense m cfg B h o

theorem Dense.below {m cfg B h off} (hf : Dense m cfg B h off) : DenseBelow m cfg B h off := by
  cases h with
  | zero => trivial
  | succ h => obtain ⟨n, h1, _, h2⟩ := hf; exact ⟨n, h1, h2⟩

theorem Dense.keys {m cfg B h off} (hf : Dense m cfg B h off) : ∃ n, NodeAt cfg B off n ∧ m ≤ n.keys.length := by
  cases h with
  | zero => exact hf
  | succ h => obtain ⟨n, h1, h2, _⟩ := hf; exact ⟨n, h1, h2⟩

theorem Dense.of {m cfg B h off n} (hn : NodeAt cfg B off n) (hm : m ≤ n.keys.length) (hb : DenseBelow m cfg B h off) : Dense m cfg B h off := by
  cases h with
  | zero => exact ⟨n, hn, hm⟩
  | succ h =>
    obtain ⟨n', hn', h2⟩ := hb
    cases hn.unique hn'
    exact ⟨n, hn, hm, h2⟩

theorem Kids.child {R : UInt64 → Option RV → Option RV → List Entry → List Nat → Prop} {lo ks ptrs hi es ps}
    (h : Kids R lo ks ptrs hi es ps) {o : UInt64} (ho : o ∈ ptrs) :
    ∃ lo' hi' es' ps', R o lo' hi' es' ps' ∧ (∀ e ∈ es', e ∈ es) ∧ ∀ x ∈ ps', x ∈ ps := by
  induction h with
  | one h => simp only [List.mem_singleton] at ho; subst ho; exact ⟨_, _, _, _, h, fun _ h => h, fun _ h => h⟩
  | cons h t ih =>
    rcases List.mem_cons.1 ho with rfl | ho
    · exact ⟨_, _, _, _, h, fun e he => by simp [he], fun x hx => by simp [hx]⟩
    · obtain ⟨a, b, c, d, h1, h2, h3⟩ := ih ho
      exact ⟨a, b, c, d, h1, fun e he => by simp [h2 e he], fun x hx => by simp [h3 x hx]⟩

theorem Seg.child {R : UInt64 → Option RV → Option RV → List Entry → List Nat → Prop} {lo ks ptrs hi es ps}
    (h : Seg R lo ks ptrs hi es ps) {o : UInt64} (ho : o ∈ ptrs) :
    ∃ lo' hi' es' ps', R o lo' hi' es' ps' ∧ (∀ e ∈ es', e ∈ es) ∧ ∀ x ∈ ps', x ∈ ps := by
  induction h with
  | nil => simp at ho
  | cons h t ih =>
    rcases List.mem_cons.1 ho with rfl | ho
    · exact ⟨_, _, _, _, h, fun e he => by simp [he], fun x hx => by simp [hx]⟩
    · obtain ⟨a, b, c, d, h1, h2, h3⟩ := ih ho
      exact ⟨a, b, c, d, h1, fun e he => by simp [h2 e he], fun x hx => by simp [h3 x hx]⟩

theorem TailK.child {R : UInt64 → Option RV → Option RV → List Entry → List Nat → Prop} {hi' ks ptrs hi es ps}
    (h : TailK R hi' ks ptrs hi es ps) {o : UInt64} (ho : o ∈ ptrs) :
    ∃ lo' hi' es' ps', R o lo' hi' es' ps' ∧ (∀ e ∈ es', e ∈ es) ∧ ∀ x ∈ ps', x ∈ ps := by
  rcases h with ⟨_, rfl, _⟩ | ⟨k, ks', _, _, h⟩
  · simp at ho
  · exact h.child ho

/-- Another file or configuration in which the same nodes are on the pages of the tree. -/
theorem Rep.dense_map {cfg cfg' : Cfg} {B B' : Bytes} {m h : Nat} {off : UInt64} {lo hi es ps} (hr : Rep cfg B h off lo hi es ps)
    (hN : ∀ o n, UInt64.toNat o ∈ ps → NodeAt cfg B o n → (∀ k ∈ n.keys, ∃ e ∈ es, e.1 = k) → NodeAt cfg' B' o n)
    (hf : Dense m cfg B h off) : Dense m cfg' B' h off := by
  induction h generalizing off lo hi es ps with
  | zero =>
    obtain ⟨n, h1, h2⟩ := hf
    have hk := hr.nodeKeys h1
    obtain ⟨_, _, _, rfl, _⟩ := hr
    exact ⟨n, hN off n (by simp) h1 hk, h2⟩
  | succ h ih =>
    obtain ⟨n, h1, h2, h3⟩ := hf
    have hk := hr.nodeKeys h1
    obtain ⟨n', qs, hn', rfl, hm⟩ := hr
    cases h1.unique hn'
    refine ⟨n, hN off n (by simp) h1 hk, h2, fun o ho => ?_⟩
    obtain ⟨_, _, es', ps', c1, c2, c3⟩ := (hm.2.1 rfl).2.child ho
    refine ih c1 (fun o' n' ho' hn' hk' => hN o' n' (by simp [c3 _ ho']) hn' (fun k hk => ?_)) (h3 o ho)
    obtain ⟨e, he, h⟩ := hk' k hk
    exact ⟨e, c2 e he, h⟩

theorem Rep.denseBelow_map {cfg cfg' : Cfg} {B B' : Bytes} {m h : Nat} {off : UInt64} {lo hi es ps} (hr : Rep cfg B h off lo hi es ps)
    (hN : ∀ o n, UInt64.toNat o ∈ ps → NodeAt cfg B o n → (∀ k ∈ n.keys, ∃ e ∈ es, e.1 = k) → NodeAt cfg' B' o n)
    (hf : DenseBelow m cfg B h off) : DenseBelow m cfg' B' h off := by
  cases h with
  | zero => trivial
  | succ h =>
    obtain ⟨n, h1, h3⟩ := hf
    have hk := hr.nodeKeys h1
    obtain ⟨n', qs, hn', rfl, hm⟩ := hr
    cases h1.unique hn'
    refine ⟨n, hN off n (by simp) h1 hk, fun o ho => ?_⟩
    obtain ⟨_, _, es', ps', c1, c2, c3⟩ := (hm.2.1 rfl).2.child ho
    refine c1.dense_map (fun o' n' ho' hn' hk' => hN o' n' (by simp [c3 _ ho']) hn' (fun k hk => ?_)) (h3 o ho)
    obtain ⟨e, he, h⟩ := hk' k hk
    exact ⟨e, c2 e he, h⟩

theorem Rep.dense_frame {cfg B B' m h off lo hi es ps} (hr : Rep cfg B h off lo hi es ps) (hl : B.length ≤ B'.length)
    (hp : ∀ p ∈ ps, pageAt B' p = pageAt B p) (hf : Dense m cfg B h off) : Dense m cfg B' h off :=
  hr.dense_map (fun _ _ ho hn _ => hn.frame hl (hp _ ho)) hf

theorem Rep.denseBelow_frame {cfg B B' m h off lo hi es ps} (hr : Rep cfg B h off lo hi es ps) (hl : B.length ≤ B'.length)
    (hp : ∀ p ∈ ps, pageAt B' p = pageAt B p) (hf : DenseBelow m cfg B h off) : DenseBelow m cfg B' h off :=
  hr.denseBelow_map (fun _ _ ho hn _ => hn.frame hl (hp _ ho)) hf

theorem NodeAt.extend {cfg B off n} (h : NodeAt cfg B off n) (more : Bytes) : NodeAt { cfg with data := cfg.data ++ more } B off n :=
  ⟨h.aligned, h.pos, h.inside, h.small, ⟨h.ok.1, h.ok.2.1, h.ok.2.2.1, fun k hk => keyOK_extend (h.ok.2.2.2 k hk) more⟩, h.stored⟩

theorem NodeAt.move {cfg B off n} (h : NodeAt cfg B off n) {data : Bytes} (hk : ∀ k ∈ n.keys, KeyOK { cfg with data := data } k) :
    NodeAt { cfg with data := data } B off n :=
  ⟨h.aligned, h.pos, h.inside, h.small, ⟨h.ok.1, h.ok.2.1, h.ok.2.2.1, hk⟩, h.stored⟩

/-- A lower bound for the number of keys on the pages below the root: a page is split in the middle when it would take more than 4096
bytes, and a key and a pointer take at most `vlen + 30`. -/
def minKeys (cfg : Cfg) : Nat := 4082 / (vlen cfg + 30) / 2

/-- An overfull node has many keys. -/
theorem keys_of_big {cfg : Cfg} {n : Node} (hs : LeafShape n ∨ InternalShape n) (hk : ∀ k ∈ n.keys, KeyOK cfg k)
    (hbig : pageSize < n.size cfg.width) : 4082 / (vlen cfg + 30) < n.keys.length := by
  have h1 := sum_le (keySize cfg.width) (vlen cfg + 15) n.keys (fun k h => (keySize_bounds (hk k h)).2)
  have h2 := sum_le leafPtrSize 15 n.leafPtrs (fun p _ => (leafPtrSize_bounds p).2)
  have h3 := sum_le intPtrSize 10 n.intPtrs (fun p _ => (intPtrSize_bounds p).2)
  unfold Node.size pageSize at hbig
  have h4 : 4082 < n.keys.length * (vlen cfg + 30) := by
    rw [Nat.mul_add] at h1 ⊢
    rcases hs with ⟨a, b⟩ | ⟨a, b⟩
    · rw [a] at h2
      rw [b] at hbig
      simp only [List.map_nil, List.sum_nil] at hbig
      omega
    · rw [a] at h3
      rw [b] at hbig
      simp only [List.map_nil, List.sum_nil] at hbig
      omega
  exact (Nat.div_lt_iff_lt_mul (by omega)).2 h4

theorem minKeys_left {cfg : Cfg} {n : Node} (hn : 4082 / (vlen cfg + 30) < n.keys.length) :
    minKeys cfg ≤ (leftHalf n (n.keys.length / 2)).keys.length := by
  unfold minKeys leftHalf
  split <;> simp only [List.length_take] <;> omega

theorem minKeys_right {cfg : Cfg} {n : Node} (hn : 4082 / (vlen cfg + 30) < n.keys.length) :
    minKeys cfg ≤ (rightHalf n (n.keys.length / 2)).keys.length := by
  unfold minKeys rightHalf
  split <;> simp only [List.length_drop] <;> omega

theorem leftHalf_ptrs {n : Node} {mid : Nat} : ∀ o ∈ (leftHalf n mid).intPtrs, o ∈ n.intPtrs := by
  intro o ho
  unfold leftHalf at ho
  split at ho
  · exact ho
  · exact List.mem_of_mem_take ho

theorem rightHalf_ptrs {n : Node} {mid : Nat} : ∀ o ∈ (rightHalf n mid).intPtrs, o ∈ n.intPtrs := by
  intro o ho
  unfold rightHalf at ho
  split at ho
  · simp at ho
  · exact List.mem_of_mem_drop ho

end Appendable
