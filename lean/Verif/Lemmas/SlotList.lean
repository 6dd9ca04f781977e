import Verif.Lemmas.LinkedPage
/-! The linked list of meta pages as a list of slots. -/
namespace Appendable
open Spec

/-- The handle of slot `i` of page `p`. -/
def slotAt (x : Nat × Nat) : LP := ⟨UInt64.ofNat x.1, UInt8.ofNat x.2⟩

/-- The head handle of the list that starts on page `p`. -/
def headAt (p : Nat) : LP := ⟨UInt64.ofNat p, 255⟩

/-- The slots in use: 15 on every page but the last one, which has `c`. -/
def places : List Nat → Nat → List (Nat × Nat)
  | [], _ => []
  | [p], c => (List.range' 0 c).map (fun i => (p, i))
  | p :: q :: r, c => (List.range' 0 15).map (fun i => (p, i)) ++ places (q :: r) c

/-- The headers of the pages. -/
def ChainIs (B : Bytes) : List Nat → Nat → Prop
  | [], _ => False
  | [p], c => Hdr B p (UInt8.ofNat c) 0xFFFFFFFFFFFFFFFF
  | p :: q :: r, c => Hdr B p 15 (UInt64.ofNat q) ∧ ChainIs B (q :: r) c

/-- The last page. -/
def lastPg : List Nat → Nat
  | [] => 0
  | [p] => p
  | _ :: q :: r => lastPg (q :: r)

theorem lastPg_mem : ∀ {ps : List Nat}, ps ≠ [] → lastPg ps ∈ ps
  | [], h => absurd rfl h
  | [p], _ => by simp [lastPg]
  | p :: q :: r, _ => by
    have := lastPg_mem (ps := q :: r) (by simp)
    simp only [lastPg]; exact List.mem_cons_of_mem _ this

theorem lastPg_append (ps : List Nat) (q : Nat) : lastPg (ps ++ [q]) = q := by
  induction ps with
  | nil => rfl
  | cons p r ih =>
    cases r with
    | nil => rfl
    | cons a b => simpa [lastPg] using ih

theorem places_mem {ps : List Nat} {c p i : Nat} (h : (p, i) ∈ places ps c) (hc : c ≤ 15) :
    p ∈ ps ∧ i < 15 ∧ (ps.Nodup → p = lastPg ps → i < c) := by
  induction ps with
  | nil => simp [places] at h
  | cons a r ih =>
    cases r with
    | nil =>
      simp only [places, List.mem_map, List.mem_range', Prod.mk.injEq] at h
      obtain ⟨j, ⟨k, hk, rfl⟩, rfl, rfl⟩ := h
      exact ⟨by simp, by omega, fun _ _ => by omega⟩
    | cons b t =>
      simp only [places, List.mem_append, List.mem_map, List.mem_range', Prod.mk.injEq] at h
      rcases h with ⟨j, ⟨k, hk, rfl⟩, rfl, rfl⟩ | h
      · refine ⟨by simp, by omega, ?_⟩
        intro hn hl
        have := lastPg_mem (ps := b :: t) (by simp)
        simp only [lastPg] at hl
        rw [← hl] at this
        exact absurd this (List.nodup_cons.1 hn).1
      · obtain ⟨h1, h2, h3⟩ := ih h
        refine ⟨List.mem_cons_of_mem _ h1, h2, ?_⟩
        intro hn hl
        exact h3 (List.nodup_cons.1 hn).2 (by simpa [lastPg] using hl)

theorem mem_places {ps : List Nat} {c p i : Nat} (hp : p ∈ ps) (hi : i < 15) (hl : p = lastPg ps → i < c) : (p, i) ∈ places ps c := by
  induction ps with
  | nil => simp at hp
  | cons a r ih =>
    cases r with
    | nil =>
      simp only [List.mem_singleton] at hp
      subst hp
      have := hl rfl
      simp only [places, List.mem_map, List.mem_range', Prod.mk.injEq]
      simp; omega
    | cons b t =>
      simp only [places, List.mem_append, List.mem_map, List.mem_range', Prod.mk.injEq]
      rcases List.mem_cons.1 hp with rfl | hp
      · exact .inl ⟨i, ⟨i, hi, by omega⟩, rfl, rfl⟩
      · exact .inr (ih hp (fun h => hl (by simpa [lastPg] using h)))

theorem places_nodup {ps : List Nat} {c : Nat} (hn : ps.Nodup) (hc : c ≤ 15) : (places ps c).Nodup := by
  induction ps with
  | nil => simp [places]
  | cons a r ih =>
    have key : ∀ n, ((List.range' 0 n).map (fun i => (a, i))).Nodup := by
      intro n
      refine List.Pairwise.map _ ?_ (List.nodup_range' (step := 1))
      intro x y hxy h; exact hxy (by simpa using h)
    cases r with
    | nil => exact key c
    | cons b t =>
      obtain ⟨h1, h2⟩ := List.nodup_cons.1 hn
      simp only [places]
      refine List.nodup_append.2 ⟨key 15, ih h2, ?_⟩
      intro x hx y hy hxy
      subst hxy
      obtain ⟨x1, x2⟩ := x
      simp only [List.mem_map, Prod.mk.injEq] at hx
      obtain ⟨j, _, rfl, rfl⟩ := hx
      exact h1 (places_mem hy hc).1

theorem places_succ {ps : List Nat} {c : Nat} (h : ps ≠ []) : places ps (c + 1) = places ps c ++ [(lastPg ps, c)] := by
  induction ps with
  | nil => exact absurd rfl h
  | cons a r ih =>
    cases r with
    | nil =>
      simp only [places, lastPg]
      rw [List.range'_concat]; simp
    | cons b t => simp only [places, lastPg]; rw [ih (by simp), List.append_assoc]

theorem places_snoc {ps : List Nat} {q : Nat} (h : ps ≠ []) : places (ps ++ [q]) 1 = places ps 15 ++ [(q, 0)] := by
  induction ps with
  | nil => exact absurd rfl h
  | cons a r ih =>
    cases r with
    | nil => rfl
    | cons b t =>
      have := ih (by simp)
      simp only [List.cons_append, places] at this ⊢
      rw [this, List.append_assoc]

theorem ChainIs.of_same {B B' : Bytes} {ps : List Nat} {c : Nat} (h : ChainIs B ps c)
    (hs : ∀ p ∈ ps, slice B' p 9 = slice B p 9) : ChainIs B' ps c := by
  induction ps with
  | nil => exact h
  | cons p r ih =>
    cases r with
    | nil => exact Hdr.of_same h (hs p (by simp))
    | cons q t => exact ⟨h.1.of_same (hs p (by simp)), ih h.2 (fun x hx => hs x (by simp [hx]))⟩

/-- Rewriting the header of the last page. -/
theorem ChainIs.set_last {B B' : Bytes} {ps : List Nat} {c c' : Nat} (h : ChainIs B ps c) (hn : ps.Nodup)
    (hs : ∀ p ∈ ps, p ≠ lastPg ps → slice B' p 9 = slice B p 9)
    (hl : Hdr B' (lastPg ps) (UInt8.ofNat c') 0xFFFFFFFFFFFFFFFF) : ChainIs B' ps c' := by
  induction ps with
  | nil => exact h
  | cons p r ih =>
    cases r with
    | nil => exact hl
    | cons q t =>
      obtain ⟨h1, h2⟩ := List.nodup_cons.1 hn
      have hlm := lastPg_mem (ps := q :: t) (by simp)
      refine ⟨h.1.of_same (hs p (by simp) ?_), ih h.2 h2 (fun x hx hne => hs x (by simp [hx]) (by simpa [lastPg] using hne)) hl⟩
      intro hc; simp only [lastPg] at hc; exact h1 (hc ▸ hlm)

/-- Appending a page. -/
theorem ChainIs.snoc {B B' : Bytes} {ps : List Nat} {c c' q : Nat} (h : ChainIs B ps c) (hn : ps.Nodup)
    (hs : ∀ p ∈ ps, p ≠ lastPg ps → slice B' p 9 = slice B p 9)
    (hl : Hdr B' (lastPg ps) 15 (UInt64.ofNat q)) (hq : Hdr B' q (UInt8.ofNat c') 0xFFFFFFFFFFFFFFFF) : ChainIs B' (ps ++ [q]) c' := by
  induction ps with
  | nil => exact absurd h (by simp [ChainIs])
  | cons p r ih =>
    cases r with
    | nil => exact ⟨hl, hq⟩
    | cons b t =>
      obtain ⟨h1, h2⟩ := List.nodup_cons.1 hn
      have hlm := lastPg_mem (ps := b :: t) (by simp)
      refine ⟨h.1.of_same (hs p (by simp) ?_), ih h.2 h2 (fun x hx hne => hs x (by simp [hx]) (by simpa [lastPg] using hne)) hl⟩
      intro hc; simp only [lastPg] at hc; exact h1 (hc ▸ hlm)

theorem ChainIs.last {B : Bytes} {ps : List Nat} {c : Nat} (h : ChainIs B ps c) :
    Hdr B (lastPg ps) (UInt8.ofNat c) 0xFFFFFFFFFFFFFFFF := by
  induction ps with
  | nil => exact absurd h (by simp [ChainIs])
  | cons p r ih =>
    cases r with
    | nil => exact h
    | cons b t => exact ih h.2

/-- `Next` of `m` is `n`, and `AddNext` of `m` fails without effect. -/
def StepIs (B : Bytes) (m n : LP) : Prop := ∀ s : PF, s.file.bytes = B →
  (∃ q, m.next s = (.ok n, s.upd B q)) ∧ (∃ q, m.addNext s = (.err (.msg "next pointer already exists"), s.upd B q))

/-- `m` is the end of the list. -/
def EndIs (B : Bytes) (m : LP) : Prop := ∀ s : PF, s.file.bytes = B → ∃ q, m.next s = (.err .eof, s.upd B q)

/-- Following `Next` from `m` shows the slots `ns`. -/
def LinkedFrom (B : Bytes) : LP → List LP → Prop
  | m, [] => EndIs B m
  | m, n :: ns => StepIs B m n ∧ LinkedFrom B n ns

theorem stepIs_in {B : Bytes} {m : LP} {p : Nat} {c : UInt8} {nx : UInt64} (ho : OnPage B m p) (hh : Hdr B p c nx)
    (hi : m.index + 1 < c) : StepIs B m ⟨m.offset, m.index + 1⟩ := by
  intro s hs
  subst hs
  refine ⟨?_, ?_⟩
  · obtain ⟨q, h⟩ := lp_next_ok ho hh
    rw [if_pos hi] at h; exact ⟨q, h⟩
  · unfold LP.addNext
    rw [Act.bind_ok (lp_count_ok ho hh), if_pos hi]; exact ⟨_, rfl⟩

theorem stepIs_out {B : Bytes} {m : LP} {p : Nat} {nx : UInt64} (ho : OnPage B m p) (hh : Hdr B p 15 nx)
    (hi : ¬ m.index + 1 < 15) (hx : nx ≠ 0xFFFFFFFFFFFFFFFF) : StepIs B m ⟨nx, 0⟩ := by
  intro s hs
  subst hs
  refine ⟨?_, ?_⟩
  · obtain ⟨q, h⟩ := lp_next_ok ho hh
    rw [if_neg hi, if_neg hx] at h; exact ⟨q, h⟩
  · unfold LP.addNext
    rw [Act.bind_ok (lp_count_ok ho hh), if_neg hi, if_neg (by decide),
      Act.bind_ok (lp_nextPageOffset_ok (s := s.upd s.file.bytes (p + 9)) ho hh), if_pos hx]; exact ⟨_, rfl⟩

theorem endIs_of {B : Bytes} {m : LP} {p : Nat} {c : UInt8} (ho : OnPage B m p) (hh : Hdr B p c 0xFFFFFFFFFFFFFFFF)
    (hi : ¬ m.index + 1 < c) : EndIs B m := by
  intro s hs
  subst hs
  obtain ⟨q, h⟩ := lp_next_ok ho hh
  rw [if_neg hi, if_pos rfl] at h; exact ⟨q, h⟩

/-- All pages are aligned and inside of the file. -/
structure PagesIn (B : Bytes) (ps : List Nat) : Prop where
  page : ∀ p ∈ ps, p % pageSize = 0 ∧ pageSize ≤ p ∧ p + pageSize ≤ B.length
  small : B.length < 2 ^ 63

theorem PagesIn.u64 {B ps p} (h : PagesIn B ps) (hp : p ∈ ps) : (UInt64.ofNat p).toNat = p := by
  have h1 := (h.page p hp).2.2; have := h.small
  exact UInt64.toNat_ofNat_of_lt' (by show p < 2 ^ 64; unfold pageSize at *; omega)

theorem PagesIn.onPage {B ps p} (h : PagesIn B ps) (hp : p ∈ ps) (i : UInt8) : OnPage B ⟨UInt64.ofNat p, i⟩ p :=
  ⟨h.u64 hp, (h.page p hp).1, (h.page p hp).2.2, h.small⟩

theorem u8_small {i : Nat} (h : i < 256) : (UInt8.ofNat i).toNat = i := UInt8.toNat_ofNat_of_lt' h

theorem PagesIn.atSlot {B ps p i} (h : PagesIn B ps) (hp : p ∈ ps) (hi : i < 15) : AtSlot B (slotAt (p, i)) p i :=
  ⟨h.u64 hp, u8_small (by omega), hi, (h.page p hp).1, (h.page p hp).2.2, h.small⟩

theorem PagesIn.tail {B p ps} (h : PagesIn B (p :: ps)) : PagesIn B ps := ⟨fun q hq => h.page q (by simp [hq]), h.small⟩

/-- The slots of one page. -/
theorem page_linked {B : Bytes} {p n : Nat} {nx : UInt64} {rest : List LP} (ho : ∀ i, OnPage B ⟨UInt64.ofNat p, i⟩ p)
    (hn : n ≤ 15) (hh : Hdr B p (UInt8.ofNat n) nx) (hr : LinkedFrom B (slotAt (p, n - 1)) rest) (k i : Nat) (hk : i + 1 + k = n) :
    LinkedFrom B (slotAt (p, i)) (((List.range' (i + 1) k).map (fun i => (p, i))).map slotAt ++ rest) := by
  induction k generalizing i with
  | zero =>
    have : i = n - 1 := by omega
    subst this; exact hr
  | succ k ih =>
    simp only [List.range'_succ, List.map_cons, List.cons_append]
    have h1 : (slotAt (p, i)).index + 1 < UInt8.ofNat n := by
      unfold slotAt
      rw [UInt8.lt_iff_toNat_lt, UInt8.toNat_add, u8_small (by omega), u8_small (by omega)]
      simp; omega
    have h2 := stepIs_in (ho (UInt8.ofNat i)) hh h1
    refine ⟨?_, ih (i + 1) (by omega)⟩
    have h3 : (⟨(slotAt (p, i)).offset, (slotAt (p, i)).index + 1⟩ : LP) = slotAt (p, i + 1) := by
      unfold slotAt; simp
    rw [← h3]; exact h2

theorem u64_ne_max {B ps p} (h : PagesIn B ps) (hp : p ∈ ps) : UInt64.ofNat p ≠ 0xFFFFFFFFFFFFFFFF := by
  intro hc
  have := congrArg UInt64.toNat hc
  rw [h.u64 hp] at this
  have h1 := (h.page p hp).2.2; have := h.small
  simp at *; unfold pageSize at *; omega

theorem range'_one (n : Nat) (h : 1 ≤ n) : List.range' 0 n = 0 :: List.range' 1 (n - 1) := by
  obtain ⟨m, rfl⟩ : ∃ m, n = m + 1 := ⟨n - 1, by omega⟩
  rw [List.range'_succ]; rfl

/-- From the first slot on. -/
theorem chain_linked {B : Bytes} {p : Nat} {r : List Nat} {c : Nat} (h : ChainIs B (p :: r) c) (hp : PagesIn B (p :: r))
    (hc : c ≤ 15) (h1 : 1 ≤ c) :
    ∃ rest, (places (p :: r) c).map slotAt = slotAt (p, 0) :: rest ∧ LinkedFrom B (slotAt (p, 0)) rest := by
  induction r generalizing p with
  | nil =>
    refine ⟨((List.range' 1 (c - 1)).map (fun i => (p, i))).map slotAt ++ [], ?_, ?_⟩
    · simp only [places, range'_one c h1, List.map_cons, List.append_nil]
    · refine page_linked (fun i => hp.onPage (by simp) i) hc h ?_ _ _ (by omega)
      refine endIs_of (hp.onPage (by simp) _) h ?_
      unfold slotAt
      simp only
      rw [UInt8.lt_iff_toNat_lt, UInt8.toNat_add, u8_small (by omega), u8_small (by omega)]
      simp; omega
  | cons q t ih =>
    obtain ⟨rest, e1, e2⟩ := ih h.2 hp.tail
    refine ⟨((List.range' 1 14).map (fun i => (p, i))).map slotAt ++ slotAt (q, 0) :: rest, ?_, ?_⟩
    · simp only [places, List.map_append, e1, range'_one 15 (by omega), List.map_cons, List.cons_append]
    · refine page_linked (n := 15) (fun i => hp.onPage (by simp) i) (by omega) h.1 ?_ 14 0 (by omega)
      refine ⟨?_, e2⟩
      have := stepIs_out (hp.onPage (p := p) (by simp) (UInt8.ofNat 14)) h.1 (by simp only; decide) (u64_ne_max hp (p := q) (by simp))
      exact this

/-- From the head on. -/
theorem chain_linked_head {B : Bytes} {p : Nat} {r : List Nat} {c : Nat} (h : ChainIs B (p :: r) c) (hp : PagesIn B (p :: r))
    (hc : c ≤ 15) (h1 : r ≠ [] → 1 ≤ c) : LinkedFrom B (headAt p) ((places (p :: r) c).map slotAt) := by
  by_cases h0 : 1 ≤ c
  · obtain ⟨rest, e1, e2⟩ := chain_linked h hp hc h0
    rw [e1]
    refine ⟨?_, e2⟩
    have step : ∀ (n : Nat) (nx : UInt64), 1 ≤ n → n ≤ 15 → Hdr B p (UInt8.ofNat n) nx → StepIs B (headAt p) (slotAt (p, 0)) := by
      intro n nx hn hn2 hh
      have := stepIs_in (m := headAt p) (hp.onPage (by simp) _) hh (by
        unfold headAt; simp only
        rw [UInt8.lt_iff_toNat_lt, u8_small (by omega)]
        show 0 < n; omega)
      have e : (⟨(headAt p).offset, (headAt p).index + 1⟩ : LP) = slotAt (p, 0) := by
        unfold headAt slotAt; simp only; rw [show (255 : UInt8) + 1 = UInt8.ofNat 0 from by decide]
      rw [← e]; exact this
    cases r with
    | nil => exact step c _ h0 hc h
    | cons q t => exact step 15 _ (by omega) (by omega) h.1
  · have hr : r = [] := Classical.byContradiction (fun hne => h0 (h1 hne))
    subst hr
    have hc0 : c = 0 := by omega
    subst hc0
    refine endIs_of (m := headAt p) (hp.onPage (by simp) _) h ?_
    unfold headAt; simp only; decide

theorem collect_linked {B : Bytes} {s : PF} (hs : s.file.bytes = B) {m : LP} {ns : List LP} (h : LinkedFrom B m ns)
    (hi : ∀ n ∈ ns, n.index ≠ 255) (fuel : Nat) (hf : ns.length < fuel) :
    ∃ q, LP.collectFrom fuel m s = (.ok ((if m.index = 255 then [] else [m]) ++ ns), s.upd B q) := by
  induction ns generalizing m s fuel with
  | nil =>
    obtain ⟨fuel, rfl⟩ : ∃ k, fuel = k + 1 := ⟨fuel - 1, by omega⟩
    obtain ⟨q, hq⟩ := h s hs
    refine ⟨q, ?_⟩
    unfold LP.collectFrom
    rw [hq]; simp
  | cons n ns ih =>
    obtain ⟨fuel, rfl⟩ : ∃ k, fuel = k + 1 := ⟨fuel - 1, by omega⟩
    obtain ⟨⟨q, hq⟩, _⟩ := h.1 s hs
    obtain ⟨q2, h2⟩ := ih (s := s.upd B q) rfl h.2 (fun x hx => hi x (by simp [hx])) fuel (by simpa using hf)
    refine ⟨q2, ?_⟩
    unfold LP.collectFrom
    simp only
    rw [hq]
    simp only
    rw [Act.bind_ok h2, if_neg (hi n (by simp))]
    rfl

end Appendable
