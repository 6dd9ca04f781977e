import Verif.Lemmas.IndexApi
import Verif.Lemmas.Alloc
import Verif.Lemmas.Mono
/-! Two index files that differ at most in the file metadata, and programs that do the same to both. -/
namespace Appendable
open Spec Tree

/-- The page files `s1` and `s2` without free pages have the same bytes, except that the 21 bytes from 4117 on (the file
metadata in the first slot) are `H1` in the one and `H2` in the other. -/
structure Alike (H1 H2 : Bytes) (s1 s2 : PF) : Prop where
  v1 : s1.Valid []
  v2 : s2.Valid []
  b1 : s1.file.budget = none
  b2 : s2.file.budget = none
  len : s2.file.bytes.length = s1.file.bytes.length
  two : 8192 ≤ s1.file.bytes.length
  same : ∀ k, (k < 4117 ∨ 4138 ≤ k) → s2.file.bytes[k]? = s1.file.bytes[k]?
  h1 : slice s1.file.bytes 4117 21 = H1
  h2 : slice s2.file.bytes 4117 21 = H2

section
variable {H1 H2 : Bytes} {s1 s2 : PF} {α β : Type}

theorem Alike.slice (h : Alike H1 H2 s1 s2) {p n : Nat} (hd : p + n ≤ 4117 ∨ 4138 ≤ p) : slice s2.file.bytes p n = slice s1.file.bytes p n := by
  apply List.ext_getElem?
  intro j
  simp only [slice_getElem?]
  by_cases hj : j < n
  · rw [if_pos hj, if_pos hj, h.same _ (by omega)]
  · rw [if_neg hj, if_neg hj]

theorem Alike.upd (h : Alike H1 H2 s1 s2) (q1 q2 : Nat) : Alike H1 H2 (s1.upd s1.file.bytes q1) (s2.upd s2.file.bytes q2) :=
  ⟨(Frame.upd_pos h.v1 h.b1 q1 []).valid, (Frame.upd_pos h.v2 h.b2 q2 []).valid, h.b1, h.b2, h.len, h.two, h.same, h.h1, h.h2⟩

/-- A write inside a page and outside of the file metadata. -/
theorem Alike.write (h : Alike H1 H2 s1 s2) {o r : Nat} {b : Bytes} (ho : o % pageSize = 0) (ho1 : pageSize ≤ o) (ho2 : o + pageSize ≤ s1.file.bytes.length)
    (hr : r + b.length ≤ pageSize) (hd : o + r + b.length ≤ 4117 ∨ 4138 ≤ o + r) (q1 q2 : Nat) :
    Alike H1 H2 (s1.upd (writeAt s1.file.bytes (o + r) b) q1) (s2.upd (writeAt s2.file.bytes (o + r) b) q2) := by
  have hp : 0 < pageSize := by unfold pageSize; omega
  have f1 := Frame.write h.v1 h.b1 (o := o) (r := r) (b := b) ⟨ho, ho1, by omega, by simp⟩ hr q1
  have f2 := Frame.write h.v2 h.b2 (o := o) (r := r) (b := b) ⟨ho, ho1, by rw [h.len]; omega, by simp⟩ hr q2
  have hl := h.len
  refine ⟨f1.1.valid, f2.1.valid, h.b1, h.b2, ?_, ?_, ?_, ?_, ?_⟩
  · simp only [upd_bytes]; rw [f1.2, f2.2, h.len]
  · simp only [upd_bytes]; rw [f1.2]; exact h.two
  · intro k hk
    simp only [upd_bytes]
    rw [writeAt_getElem? b (by omega), writeAt_getElem? b (by omega), h.same k hk]
  · simp only [upd_bytes]; rw [slice_writeAt_disjoint (by omega) (by omega)]; exact h.h1
  · simp only [upd_bytes]; rw [slice_writeAt_disjoint (by omega) (by omega)]; exact h.h2

/-- If `a` succeeds on `s1`, then `b` succeeds on `s2` with the same result and the same effect. -/
def RelAt (H1 H2 : Bytes) (a b : Act PF α) (s1 s2 : PF) : Prop :=
  ∀ x t1, a s1 = (.ok x, t1) → ∃ t2, b s2 = (.ok x, t2) ∧ Alike H1 H2 t1 t2

theorem Act.bind_okE {a : Act PF α} {f : α → Act PF β} {s s' : PF} {y : β} (h : (a >>= f) s = (.ok y, s')) :
    ∃ x s1, a s = (.ok x, s1) ∧ f x s1 = (.ok y, s') := by
  rw [Act.bind_def] at h
  split at h
  · rename_i x s1 he; exact ⟨x, s1, he, h⟩
  · cases h
  · cases h

theorem RelAt.bind {a b : Act PF α} {f g : α → Act PF β} (h : RelAt H1 H2 a b s1 s2)
    (k : ∀ x t1 t2, a s1 = (.ok x, t1) → b s2 = (.ok x, t2) → Alike H1 H2 t1 t2 → RelAt H1 H2 (f x) (g x) t1 t2) :
    RelAt H1 H2 (a >>= f) (b >>= g) s1 s2 := by
  intro y t1 hy
  obtain ⟨x, u1, e1, e2⟩ := Act.bind_okE hy
  obtain ⟨u2, g1, g2⟩ := h x u1 e1
  obtain ⟨t2, k1, k2⟩ := k x u1 u2 e1 g1 g2 y t1 e2
  exact ⟨t2, by rw [Act.bind_ok g1, k1], k2⟩

theorem RelAt.of {a b : Act PF α} {x : α} {t1 t2 : PF} (ha : a s1 = (.ok x, t1)) (hb : b s2 = (.ok x, t2)) (h : Alike H1 H2 t1 t2) :
    RelAt H1 H2 a b s1 s2 := by
  intro y u hy
  rw [ha] at hy; cases hy
  exact ⟨t2, hb, h⟩

theorem RelAt.pure (h : Alike H1 H2 s1 s2) (x : α) : RelAt H1 H2 (Pure.pure x : Act PF α) (Pure.pure x) s1 s2 := .of rfl rfl h
theorem RelAt.throw (e : Err) (b : Act PF α) : RelAt H1 H2 (Act.throw e) b s1 s2 := fun _ _ h => by cases h
theorem RelAt.crash (b : Act PF α) : RelAt H1 H2 Act.crash b s1 s2 := fun _ _ h => by cases h
theorem RelAt.lift (h : Alike H1 H2 s1 s2) (r : Res α) : RelAt H1 H2 (Act.lift r : Act PF α) (Act.lift r) s1 s2 := by
  intro x t1 hx
  cases r with
  | ok y => cases hx; exact ⟨s2, rfl, h⟩
  | err e => cases hx
  | panic => cases hx

/-! ### Page file and slots -/

theorem newPage_alike (h : Alike H1 H2 s1 s2) (buf : Option Bytes) : RelAt H1 H2 (PF.newPage buf) (PF.newPage buf) s1 s2 := by
  by_cases hl : (buf.getD []).length ≤ pageSize
  · by_cases hroom : s1.file.bytes.length + pageSize < 2 ^ 63
    · obtain ⟨t1, a1, a2, a3, a4, _⟩ := newPage_append h.v1 h.b1 buf hl hroom
      obtain ⟨t2, c1, c2, c3, c4, _⟩ := newPage_append h.v2 h.b2 buf hl (by rw [h.len]; exact hroom)
      refine .of a1 (by rw [c1, h.len]) ⟨a2, c2, a4, c4, ?_, ?_, ?_, ?_, ?_⟩
      · rw [a3, c3, List.length_append, List.length_append, h.len]
      · rw [a3, List.length_append]; have := h.two; omega
      · intro k hk
        rw [a3, c3, List.getElem?_append, List.getElem?_append, h.len, h.same k hk]
      · rw [a3, slice_append_left (by have := h.two; omega)]; exact h.h1
      · rw [c3, slice_append_left (by have := h.two; have := h.len; omega)]; exact h.h2
    · obtain ⟨t1, a1, a2⟩ := newPage_full h.v1 h.b1 buf hl (by omega)
      intro x t h; rw [a1] at h; cases h
  · intro x t h; rw [newPage_too_large s1 buf (by omega)] at h; cases h

/-- The new page is behind the others. -/
theorem newPage_offset (h : Alike H1 H2 s1 s2) {buf : Option Bytes} {o : Int} {t : PF} (e : PF.newPage buf s1 = (.ok o, t)) :
    o = (s1.file.bytes.length : Int) ∧ t.file.bytes.length = s1.file.bytes.length + pageSize := by
  by_cases hl : (buf.getD []).length ≤ pageSize
  · by_cases hroom : s1.file.bytes.length + pageSize < 2 ^ 63
    · obtain ⟨t1, a1, a2, a3, a4, _⟩ := newPage_append h.v1 h.b1 buf hl hroom
      rw [a1] at e; cases e
      refine ⟨rfl, ?_⟩
      rw [a3, List.length_append, padPage_length hl]
    · obtain ⟨t1, a1, a2⟩ := newPage_full h.v1 h.b1 buf hl (by omega)
      rw [a1] at e; cases e
  · rw [newPage_too_large s1 buf (by omega)] at e; cases e

/-- Where the programs may read and write: within one page, and not in the file metadata. -/
structure Spot (s : PF) (x n : Nat) : Prop where
  fit : x % pageSize + n ≤ pageSize
  ge : pageSize ≤ x
  inside : x < s.file.bytes.length
  out : x + n ≤ 4117 ∨ 4138 ≤ x

theorem Spot.le (h : Alike H1 H2 s1 s2) {x n : Nat} (hs : Spot s1 x n) : x + n ≤ s1.file.bytes.length := by
  have a := h.v1.aligned
  have b := hs.fit; have c := hs.inside
  unfold pageSize at *; omega

theorem write_alike (h : Alike H1 H2 s1 s2) {x : Nat} {b : Bytes} (hs : Spot s1 x b.length) {f : Act PF β} {g : Act PF β} {i : Int} (hi : i = (x : Int))
    (k : ∀ q1 q2, Alike H1 H2 (s1.upd (writeAt s1.file.bytes x b) q1) (s2.upd (writeAt s2.file.bytes x b) q2) →
      RelAt H1 H2 f g (s1.upd (writeAt s1.file.bytes x b) q1) (s2.upd (writeAt s2.file.bytes x b) q2)) :
    RelAt H1 H2 (do let _ ← PF.seek i; let _ ← PF.write b; f) (do let _ ← PF.seek i; let _ ← PF.write b; g) s1 s2 := by
  subst hi
  have hle := hs.le h
  have hlen := h.len
  have sm := h.v1.small
  have hfit := hs.fit
  obtain ⟨n1, q1, w1⟩ := write_ok (s := s1.upd s1.file.bytes x) (b := b) h.b1 (by simp only [upd_pos, upd_bytes]; omega)
    (by simp only [upd_pos]; omega) (by simp only [upd_pos]; omega)
  obtain ⟨n2, q2, w2⟩ := write_ok (s := s2.upd s2.file.bytes x) (b := b) h.b2 (by simp only [upd_pos, upd_bytes]; omega)
    (by simp only [upd_pos]; omega) (by simp only [upd_pos]; omega)
  have hal : (x - x % pageSize) + x % pageSize = x := by have := Nat.mod_le x pageSize; omega
  have hga : (x - x % pageSize) % pageSize = 0 := by unfold pageSize; omega
  have hge := hs.ge; have hin := hs.inside; have ha := h.v1.aligned
  have := h.write (o := x - x % pageSize) (r := x % pageSize) (b := b) hga (by unfold pageSize at *; omega) (by unfold pageSize at *; omega)
    hfit (by rw [hal]; exact hs.out) q1 q2
  rw [hal] at this
  have kk := k q1 q2 this
  intro y t hy
  rw [Act.bind_ok (seek_ok (by omega)), Act.bind_ok w1] at hy
  obtain ⟨t2, k1, k2⟩ := kk y t hy
  exact ⟨t2, by rw [Act.bind_ok (seek_ok (by omega)), Act.bind_ok w2]; exact k1, k2⟩

theorem readFull_alike (h : Alike H1 H2 s1 s2) {x n : Nat} (hn : 0 < n) (hs : Spot s1 x n) {i : Int} (hi : i = (x : Int)) {f g : Bytes → Act PF β}
    (k : ∀ q1 q2 b, Alike H1 H2 (s1.upd s1.file.bytes q1) (s2.upd s2.file.bytes q2) → RelAt H1 H2 (f b) (g b) (s1.upd s1.file.bytes q1) (s2.upd s2.file.bytes q2)) :
    RelAt H1 H2 (do let _ ← PF.seek i; let b ← PF.readFull n; f b) (do let _ ← PF.seek i; let b ← PF.readFull n; g b) s1 s2 := by
  subst hi
  have hle := hs.le h
  have hlen := h.len
  have r1 := readFull_ok (s := s1.upd s1.file.bytes x) hn (by simp only [upd_pos, upd_bytes]; omega) (by simp only [upd_pos]; exact hs.fit)
  have r2 := readFull_ok (s := s2.upd s2.file.bytes x) hn (by simp only [upd_pos, upd_bytes]; omega) (by simp only [upd_pos]; exact hs.fit)
  simp only [upd_pos, upd_bytes, upd_upd] at r1 r2
  rw [h.slice hs.out] at r2
  intro y t hy
  rw [Act.bind_ok (seek_ok (by omega)), Act.bind_ok r1] at hy
  obtain ⟨t2, k1, k2⟩ := k _ _ _ (h.upd _ _) y t hy
  exact ⟨t2, by rw [Act.bind_ok (seek_ok (by omega)), Act.bind_ok r2]; exact k1, k2⟩

/-! ### Trees -/

/-- A page for nodes. -/
def PageOK (s : PF) (o : Nat) : Prop := o % pageSize = 0 ∧ 8192 ≤ o ∧ o < s.file.bytes.length

theorem PageOK.mono {s t : PF} {o : Nat} (h : PageOK s o) (hl : s.file.bytes.length ≤ t.file.bytes.length) : PageOK t o :=
  ⟨h.1, h.2.1, by have := h.2.2; omega⟩

theorem setRootAt_alike (h : Alike H1 H2 s1 s2) {pos : Nat} (mp : MemPtr) (hs : Spot s1 pos 12) :
    RelAt H1 H2 (setRootAt pos mp) (setRootAt pos mp) s1 s2 := by
  unfold setRootAt
  exact write_alike h (by rw [mp.encode_length]; exact hs) rfl (fun _ _ h' => RelAt.pure h' ())

theorem write_crash {s : PF} {b : Bytes} (hp : s.file.pos ≤ s.file.bytes.length) (hc : pageSize < s.file.pos % pageSize + b.length) :
    ∃ t, PF.write b s = (.panic, t) := by
  unfold PF.write
  rw [Act.bind_ok (onFile_run (File.seekCur_ok hp)), tmod_nat, if_pos (by omega)]
  exact ⟨_, rfl⟩

theorem writeNode_alike (h : Alike H1 H2 s1 s2) {t t' : Tree} (ht : t'.cfg.width = t.cfg.width) {off : UInt64} (n : Node) (ho : PageOK s1 off.toNat) :
    RelAt H1 H2 (t.writeNode off n) (t'.writeNode off n) s1 s2 := by
  have hsm := h.v1.small
  obtain ⟨o1, o2, o3⟩ := ho
  unfold Tree.writeNode
  rw [ht, int64OfU64_small (by omega)]
  cases hm : n.marshal t.cfg.width with
  | ok b =>
    by_cases hb : b.length ≤ pageSize
    · exact write_alike h (x := off.toNat) (b := b) ⟨by rw [o1]; omega, by unfold pageSize; omega, o3, by omega⟩ rfl (fun _ _ h' => RelAt.pure h' ())
    · intro x u hx
      obtain ⟨w, hw⟩ := write_crash (s := s1.upd s1.file.bytes off.toNat) (b := b) (by simp only [upd_pos, upd_bytes]; omega)
        (by simp only [upd_pos]; rw [o1]; omega)
      rw [Act.bind_ok (seek_ok (by omega)), Act.bind_ok (show (Act.lift (Res.ok b) : Act PF Bytes) (s1.upd s1.file.bytes off.toNat) = (.ok b, _) from rfl),
        Act.bind_def, hw] at hx
      cases hx
  | err e =>
    intro x u hx
    rw [Act.bind_ok (seek_ok (by omega))] at hx
    cases hx
  | panic =>
    intro x u hx
    rw [Act.bind_ok (seek_ok (by omega))] at hx
    cases hx

theorem writeOrSplit_alike (h : Alike H1 H2 s1 s2) {t t' : Tree} (ht : t'.cfg.width = t.cfg.width) (tr : TRec) (ho : PageOK s1 tr.ptr.offset.toNat) :
    RelAt H1 H2 (t.writeOrSplit tr) (t'.writeOrSplit tr) s1 s2 := by
  unfold writeOrSplit
  rw [ht]
  simp only
  split
  · split
    · exact RelAt.crash _
    · refine RelAt.bind (RelAt.lift h _) (fun b t1 t2 e1 _ h1 => ?_)
      cases e1' : (rightHalf tr.node (tr.node.keys.length / 2)).marshal t.cfg.width <;> rw [e1'] at e1 <;> cases e1
      refine RelAt.bind (newPage_alike h1 _) (fun o t1 t2 e1 _ h2 => ?_)
      have := (newPage_offset h1 e1).2
      refine RelAt.bind (writeNode_alike h2 ht _ (ho.mono (by omega))) (fun _ t1 t2 _ _ h3 => RelAt.pure h3 _)
  · exact RelAt.bind (writeNode_alike h ht _ ho) (fun _ t1 t2 _ _ h3 => RelAt.pure h3 _)

theorem newRoot_alike (h : Alike H1 H2 s1 s2) {t t' : Tree} (ht : t'.cfg.width = t.cfg.width) (hp : t'.rootPos = t.rootPos) (k : RV) (n m : UInt64)
    (hs : Spot s1 t.rootPos 12) : RelAt H1 H2 (t.newRoot k n m) (t'.newRoot k n m) s1 s2 := by
  unfold newRoot
  rw [ht, hp]
  refine RelAt.bind (RelAt.lift h _) (fun b t1 t2 e1 _ h1 => ?_)
  have et : t1 = s1 := by
    cases hm : (⟨[], [n, m], [k]⟩ : Node).marshal t.cfg.width <;> rw [hm] at e1 <;> cases e1
    rfl
  subst et
  refine RelAt.bind (newPage_alike h1 _) (fun o t1 t2 e1 _ h2 => ?_)
  have := (newPage_offset h1 e1).2
  exact setRootAt_alike h2 _ ⟨hs.fit, hs.ge, by have := hs.inside; omega, hs.out⟩

theorem insertLoop_alike {t t' : Tree} (ht : t'.cfg.width = t.cfg.width) (hp : t'.rootPos = t.rootPos) (rest : List TRec) (tr : TRec) 
    (h : Alike H1 H2 s1 s2) (hs : Spot s1 t.rootPos 12) (ho : ∀ r ∈ tr :: rest, PageOK s1 r.ptr.offset.toNat) :
    RelAt H1 H2 (t.insertLoop tr rest) (t'.insertLoop tr rest) s1 s2 := by
  induction rest generalizing tr s1 s2 with
  | nil =>
    unfold insertLoop
    refine RelAt.bind (writeOrSplit_alike h ht tr (ho tr (by simp))) (fun x t1 t2 e1 _ h1 => ?_)
    have hl := (Mono.writeOrSplit t tr).le s1
    rw [e1] at hl
    simp only at hl
    rcases x with _ | ⟨k, n, m⟩
    · exact RelAt.pure h1 _
    · exact newRoot_alike h1 ht hp k n m ⟨hs.fit, hs.ge, by have := hs.inside; omega, hs.out⟩
  | cons p rest ih =>
    unfold insertLoop
    refine RelAt.bind (writeOrSplit_alike h ht tr (ho tr (by simp))) (fun x t1 t2 e1 _ h1 => ?_)
    have hl := (Mono.writeOrSplit t tr).le s1
    rw [e1] at hl
    simp only at hl
    rcases x with _ | ⟨k, n, m⟩
    · exact RelAt.pure h1 _
    · refine ih _ h1 ⟨hs.fit, hs.ge, by have := hs.inside; omega, hs.out⟩ ?_
      intro r hr
      rcases List.mem_cons.1 hr with rfl | hr
      · exact (ho p (by simp)).mono hl
      · exact (ho r (by simp [hr])).mono hl

theorem NodeAt.more {cfg : Cfg} {B : Bytes} {off : UInt64} {n : Node} (h : NodeAt cfg B off n) (more : Bytes) :
    NodeAt { cfg with data := cfg.data ++ more } B off n :=
  ⟨h.aligned, h.pos, h.inside, h.small, ⟨h.ok.1, h.ok.2.1, h.ok.2.2.1, fun k hk => keyOK_extend (h.ok.2.2.2 k hk) more⟩, h.stored⟩

theorem Alike.node (h : Alike H1 H2 s1 s2) {cfg : Cfg} {off : UInt64} {n : Node} (hn : NodeAt cfg s1.file.bytes off n) (ho : 8192 ≤ off.toNat)
    (more : Bytes) : NodeAt { cfg with data := cfg.data ++ more } s2.file.bytes off n :=
  (hn.frame (by rw [h.len]; omega) (h.slice (by omega))).more more

theorem traverse_alike (more : Bytes) {t : Tree} {key : RV} {h fuel : Nat} {off : UInt64} {l : UInt32} {n : Node} {lo hi es ps}
    (ha : Alike H1 H2 s1 s2) (hr : Rep t.cfg s1.file.bytes h off lo hi es ps) (hn : NodeAt t.cfg s1.file.bytes off n) (hf : h < fuel)
    (hlo : GeB lo key) (hhi : LtB key hi) (hps : ∀ p ∈ ps, 8192 ≤ p) :
    ∃ path p1 p2, t.traverse key fuel n ⟨off, l⟩ s1 = (.ok path, s1.upd s1.file.bytes p1) ∧
      (⟨{ t.cfg with data := t.cfg.data ++ more }, t.rootPos⟩ : Tree).traverse key fuel n ⟨off, l⟩ s2 = (.ok path, s2.upd s2.file.bytes p2) ∧
      ∀ r ∈ path, r.ptr.offset.toNat ∈ ps := by
  induction h generalizing fuel s1 s2 off l n lo hi es ps with
  | zero =>
    obtain ⟨fuel, rfl⟩ : ∃ f, fuel = f + 1 := ⟨fuel - 1, by omega⟩
    obtain ⟨n', qs, hn', rfl, hm⟩ := hr
    cases hn.unique hn'
    obtain ⟨hs, _, _, hso, _⟩ := hm.1 rfl
    have hleaf := hs.isLeaf hn.ok.1
    refine ⟨[⟨n, ((countLt n.keys key : Nat) : Int), ⟨off, l⟩⟩], s1.file.pos, s2.file.pos, ?_, ?_, ?_⟩
    · unfold traverse
      rw [bsearch_spec hso key]
      simp only
      rw [if_pos hleaf]; rfl
    · unfold traverse
      rw [bsearch_spec hso key]
      simp only
      rw [if_pos hleaf]; rfl
    · intro r hr
      simp only [List.mem_singleton] at hr
      subst hr; simp
  | succ h ih =>
    obtain ⟨fuel, rfl⟩ : ∃ f, fuel = f + 1 := ⟨fuel - 1, by omega⟩
    obtain ⟨n', qs, hn', rfl, hm⟩ := rep_iff.1 hr
    cases hn.unique hn'
    have hm' : MemRep t.cfg (SubRep t.cfg s1.file.bytes (h + 1)) false n lo hi es qs := hm
    obtain ⟨hs, hk⟩ := hm'.2.1 rfl
    have hso := (hm'.good (fun _ => goodR_sub _ _ _) hn.ok.1).2
    have hleaf := hs.isLeaf
    obtain ⟨p, lo', hi', es', ps', c1, c2, c3, c4, c5⟩ := hm'.child key hlo hhi
    obtain ⟨nc, qc, hnc, hpc, _⟩ := rep_iff.1 c2
    have hp8 : 8192 ≤ p.toNat := hps _ (List.mem_cons_of_mem _ (c5 _ (by rw [hpc]; simp)))
    obtain ⟨path, q1, q2, r1, r2, r3⟩ := ih (s1 := s1.upd s1.file.bytes (p.toNat + pageSize)) (s2 := s2.upd s2.file.bytes (p.toNat + pageSize))
      (l := 0) (fuel := fuel) (ha.upd _ _) c2 hnc (by omega) c3 c4 (fun x hx => hps x (List.mem_cons_of_mem _ (c5 x hx)))
    have hidx : (if (decide (key ∈ n.keys)) = true then countLt n.keys key + 1 else countLt n.keys key)
        = childIdx n.keys key := by
      unfold childIdx; by_cases hmem : key ∈ n.keys <;> simp [hmem]
    have hptr : n.pointer (childIdx n.keys key) = some ⟨p, 0⟩ := by
      unfold Node.pointer; rw [if_neg (by simp [hleaf]), c1]; rfl
    refine ⟨path ++ [⟨n, (childIdx n.keys key : Nat), ⟨off, l⟩⟩], q1, q2, ?_, ?_, ?_⟩
    · unfold traverse
      rw [bsearch_spec hso key]
      simp only
      rw [if_neg (by simp [hleaf]), hidx, hptr]
      simp only
      rw [Act.bind_ok (readNode_ok hnc 0), Act.bind_ok r1]
      rfl
    · unfold traverse
      rw [bsearch_spec hso key]
      simp only
      rw [if_neg (by simp [hleaf]), hidx, hptr]
      simp only
      rw [Act.bind_ok (readNode_ok (ha.node hnc hp8 more) 0), Act.bind_ok r2]
      rfl
    · intro r hr
      rcases List.mem_append.1 hr with hr | hr
      · exact List.mem_cons_of_mem _ (c5 _ (r3 r hr))
      · simp only [List.mem_singleton] at hr
        subst hr; simp

/-- `Insert` does the same to both, also with a longer data file. -/
theorem insert_alike (more : Bytes) (h : Alike H1 H2 s1 s2) {t : Tree} {free es ps} (ht : TreeIs t s1 free es ps) (hs : Spot s1 t.rootPos 12)
    (hps : ∀ p ∈ ps, 8192 ≤ p) (key : RV) (v : MemPtr) :
    RelAt H1 H2 (t.insert key v) ((⟨{ t.cfg with data := t.cfg.data ++ more }, t.rootPos⟩ : Tree).insert key v) s1 s2 := by
  have hin := ht.slotInside
  have hin2 : t.rootPos + 12 ≤ s2.file.bytes.length := by rw [h.len]; exact hin
  have hslot := h.slice hs.out
  unfold Tree.insert
  simp only
  split
  · exact RelAt.throw _ _
  · rcases ht.root with ⟨r1, _, _⟩ | ⟨r0, hh, r1, _⟩
    · have e1 := root_none hin ht.slot (by rw [r1])
      have e2 := root_none (t := ⟨{ t.cfg with data := t.cfg.data ++ more }, t.rootPos⟩) hin2 ht.slot (by simp only [hslot]; rw [r1])
      intro x u hx
      rw [Act.bind_ok e1] at hx
      have h' := h.upd (t.rootPos + 12) (t.rootPos + 12)
      have : RelAt H1 H2 (do
            let buf ← Act.lift ((⟨[v], [], [key]⟩ : Node).marshal t.cfg.width)
            let offset ← PF.newPage (some buf)
            setRootAt t.rootPos ⟨UInt64.ofNat (u64OfInt offset), UInt32.ofNat buf.length⟩)
          (do
            let buf ← Act.lift ((⟨[v], [], [key]⟩ : Node).marshal t.cfg.width)
            let offset ← PF.newPage (some buf)
            setRootAt t.rootPos ⟨UInt64.ofNat (u64OfInt offset), UInt32.ofNat buf.length⟩)
          (s1.upd s1.file.bytes (t.rootPos + 12)) (s2.upd s2.file.bytes (t.rootPos + 12)) := by
        refine RelAt.bind (RelAt.lift h' _) (fun b t1 t2 e1 _ h1 => ?_)
        have et : t1.file.bytes = s1.file.bytes := by
          cases hm : (⟨[v], [], [key]⟩ : Node).marshal t.cfg.width <;> rw [hm] at e1 <;> cases e1
          rfl
        refine RelAt.bind (newPage_alike h1 _) (fun o t1 t2 e1 _ h2 => ?_)
        have := (newPage_offset h1 e1).2
        exact setRootAt_alike h2 _ ⟨hs.fit, hs.ge, by have := hs.inside; rw [et] at *; omega, hs.out⟩
      obtain ⟨u2, g1, g2⟩ := this x u hx
      exact ⟨u2, by rw [Act.bind_ok e2]; exact g1, g2⟩
    · obtain ⟨n, qs, hn, hpq, _⟩ := rep_iff.1 r1
      have hr8 : 8192 ≤ (MemPtr.decode (Appendable.slice s1.file.bytes t.rootPos 12)).offset.toNat := hps _ (by rw [hpq]; simp)
      obtain ⟨p1, e1⟩ := root_some hin ht.slot r0 hn
      obtain ⟨p2, e2⟩ := root_some (t := ⟨{ t.cfg with data := t.cfg.data ++ more }, t.rootPos⟩) hin2 ht.slot (by simp only [hslot]; exact r0)
        (n := n) (by simp only [hslot]; exact h.node hn hr8 more)
      simp only [hslot] at e2
      generalize hmp : MemPtr.decode (slice s1.file.bytes t.rootPos 12) = mp at *
      obtain ⟨off, l⟩ := mp
      have hfu : hh < fuel (s1.upd s1.file.bytes p1) := by
        have := r1.height_lt
        have := pages_count ht.nodup r1.pages
        unfold fuel
        simp only [upd_bytes]
        omega
      obtain ⟨path, q1, q2, a1, a2, a3⟩ := traverse_alike more (key := key) (l := l) (h.upd p1 p2) r1 hn hfu (fun l hl => by cases hl) (fun l hl => by cases hl) hps
      have hfe : fuel (s2.upd s2.file.bytes p2) = fuel (s1.upd s1.file.bytes p1) := by
        unfold fuel; simp only [upd_bytes, h.len]
      intro x u hx
      rw [Act.bind_ok e1] at hx
      simp only at hx
      rw [Act.bind_ok (Act.get_run _), Act.bind_ok a1] at hx
      have : RelAt H1 H2
          (match (generalizing := false) path with
            | [] => Act.crash
            | tr :: rest =>
              if (bsearch compareRV tr.node.keys key).2 = true then Act.throw (.msg "key already exists")
              else t.insertLoop { tr with node := leafInsert tr.node (bsearch compareRV tr.node.keys key).1 key v } rest)
          (match (generalizing := false) path with
            | [] => Act.crash
            | tr :: rest =>
              if (bsearch compareRV tr.node.keys key).2 = true then Act.throw (.msg "key already exists")
              else (⟨{ t.cfg with data := t.cfg.data ++ more }, t.rootPos⟩ : Tree).insertLoop { tr with node := leafInsert tr.node (bsearch compareRV tr.node.keys key).1 key v } rest)
          (s1.upd s1.file.bytes q1) (s2.upd s2.file.bytes q2) := by
        cases path with
        | nil => exact RelAt.crash _
        | cons tr rest =>
          simp only
          split
          · exact RelAt.throw _ _
          · refine insertLoop_alike (t := t) (t' := ⟨{ t.cfg with data := t.cfg.data ++ more }, t.rootPos⟩) rfl rfl rest _ (h.upd q1 q2)
              ⟨hs.fit, hs.ge, hs.inside, hs.out⟩ ?_
            intro r hr
            have hm : r.ptr.offset.toNat ∈ ps := by
              rcases List.mem_cons.1 hr with rfl | hr
              · exact a3 tr (by simp)
              · exact a3 r (by simp [hr])
            have hl := ht.live _ hm
            exact ⟨hl.1, hps _ hm, hl.2.2.1⟩
      obtain ⟨u2, g1, g2⟩ := this x u hx
      refine ⟨u2, ?_, g2⟩
      rw [Act.bind_ok e2]
      simp only
      rw [Act.bind_ok (Act.get_run _), hfe, Act.bind_ok a2]
      exact g1

end
end Appendable
