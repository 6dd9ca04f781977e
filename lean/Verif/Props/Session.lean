import Verif.Spec.Session
/-! What a client object keeps between calls (C88, C89, C90). -/
namespace Appendable
open Spec

/-! ### Agreement -/

theorem Spec.Agree.refl {α : Type} (x : Res α) : Agree x x := fun _ => Iff.rfl

theorem Spec.Agree.symm {α : Type} {x y : Res α} (h : Agree x y) : Agree y x := fun a => (h a).symm

theorem Spec.Agree.trans {α : Type} {x y z : Res α} (h : Agree x y) (h' : Agree y z) : Agree x z := fun a => (h a).trans (h' a)

theorem bind_ok_inv {α β : Type} {x : Res α} {f : α → Res β} {b : β} : (x >>= f) = .ok b ↔ ∃ a, x = .ok a ∧ f a = .ok b := by
  cases x with
  | ok a => simp
  | err e => simp
  | panic => simp

theorem Spec.Agree.bind {α β : Type} {x y : Res α} {f g : α → Res β} (h : Agree x y) (hf : ∀ a, x = .ok a → Agree (f a) (g a)) :
    Agree (x >>= f) (y >>= g) := by
  intro b
  rw [bind_ok_inv, bind_ok_inv]
  constructor
  · rintro ⟨a, ha, hb⟩
    exact ⟨a, (h a).1 ha, (hf a ha b).1 hb⟩
  · rintro ⟨a, ha, hb⟩
    exact ⟨a, (h a).2 ha, (hf a ((h a).2 ha) b).2 hb⟩

/-! ### Pages with a kept reply -/

/-- The kept reply, if any, is the one that `idx` gives. -/
def Good (idx : Resolver) (mp : TsMp) : Prop := ∀ r, mp.kept = some r → r = idx [(mp.page.offset, mp.page.offset + 4096 - 1)]

theorem Good.reply {idx : Resolver} {mp : TsMp} (h : Good idx mp) : mp.reply idx = idx [(mp.page.offset, mp.page.offset + 4096 - 1)] := by
  unfold TsMp.reply
  cases hk : mp.kept with
  | none => rfl
  | some r => exact h r hk

theorem Good.new (idx : Resolver) (p : TsPage) : Good idx ⟨p, none⟩ := fun r h => by simp at h

theorem Good.load {idx : Resolver} {mp : TsMp} (h : Good idx mp) : Good idx (mp.load idx) := by
  intro r hr
  simp only [TsMp.load, Option.some.injEq] at hr
  rw [← hr, h.reply]; rfl

theorem page_const {idx : Resolver} {p : TsPage} {r : Res (List Bytes)} (h : r = idx [(p.offset, p.offset + 4096 - 1)]) :
    p.page (fun _ => r) = p.page idx := by
  subst h; rfl

theorem Good.root {idx : Resolver} {mp : TsMp} (h : Good idx mp) : mp.root idx = mp.page.root idx := by
  unfold TsMp.root TsPage.root
  rw [page_const h.reply]

theorem Good.metadata {idx : Resolver} {mp : TsMp} (h : Good idx mp) : mp.metadata idx = mp.page.metadata idx := by
  unfold TsMp.metadata TsPage.metadata
  rw [page_const h.reply]

theorem Good.indexMeta {idx : Resolver} {mp : TsMp} (h : Good idx mp) : mp.indexMeta idx = mp.page.indexMeta idx := by
  unfold TsMp.indexMeta TsPage.indexMeta TsPage.metadata
  rw [page_const h.reply]

theorem TsPage.next_index {idx : Resolver} {p q : TsPage} (h : p.next idx = .ok (some q)) : q.index = 0 ∨ q.offset = p.offset := by
  unfold TsPage.next at h
  obtain ⟨b, hb, h⟩ := bind_ok_inv.1 h
  split at h
  · cases h
  · split at h
    · simp only [Res.pure_eq, Res.ok.injEq, Option.some.injEq] at h
      exact .inr (by rw [← h])
    · dsimp only at h
      split at h
      · cases h
      · simp only [Res.pure_eq, Res.ok.injEq, Option.some.injEq] at h
        exact .inl (by rw [← h])

theorem Good.next {idx : Resolver} {mp : TsMp} (h : Good idx mp) :
    (mp.page.next idx = .ok none ∧ mp.next idx = .ok none) ∨
      (∃ q, mp.page.next idx = .ok (some q.page) ∧ mp.next idx = .ok (some q) ∧ Good idx q) ∨
      (∃ e, mp.page.next idx = .err e ∧ mp.next idx = .err e) ∨ (mp.page.next idx = .panic ∧ mp.next idx = .panic) := by
  have e : mp.page.next (fun _ => mp.reply idx) = mp.page.next idx := by
    unfold TsPage.next
    rw [page_const h.reply]
  unfold TsMp.next
  rw [e]
  cases hn : mp.page.next idx with
  | panic => exact .inr (.inr (.inr ⟨rfl, rfl⟩))
  | err e => exact .inr (.inr (.inl ⟨e, rfl, rfl⟩))
  | ok o =>
    cases o with
    | none => exact .inl ⟨rfl, rfl⟩
    | some q =>
      refine .inr (.inl ⟨⟨q, if q.index = 0 then none else some (mp.reply idx)⟩, rfl, rfl, ?_⟩)
      intro r hr
      split at hr
      · cases hr
      · rename_i hi
        simp only [Option.some.injEq] at hr
        rcases TsPage.next_index hn with h0 | ho
        · exact absurd h0 hi
        · rw [← hr, h.reply, ho]

/-! ### The loops over the slots -/

theorem seekLoop_agree (idx : Resolver) : ∀ (fuel : Nat) (mp : TsMp), Good idx mp → ∀ xs : List (TsPage × TsIndexMeta),
    (∃ ys, tsSeekLoop idx fuel mp = .ok ys ∧ ys.map (fun y => (y.1.page, y.2)) = xs ∧ ∀ y ∈ ys, Good idx y.1) ↔
      ∃ ps ms, tsPagesFrom idx fuel mp.page = .ok ps ∧ tsMapM (fun p => p.indexMeta idx) ps = .ok ms ∧ ps.zip ms = xs := by
  intro fuel
  induction fuel with
  | zero => intro mp _ xs; simp [tsSeekLoop, tsPagesFrom]
  | succ fuel ih =>
    intro mp g xs
    rw [tsSeekLoop, tsPagesFrom, g.indexMeta]
    rcases g.next with ⟨h1, h2⟩ | ⟨q, h1, h2, gq⟩ | ⟨e, h1, h2⟩ | ⟨h1, h2⟩
    · rw [h1, h2]
      constructor
      · rintro ⟨ys, hy, hx, _⟩
        obtain ⟨m, hm, hy⟩ := bind_ok_inv.1 hy
        simp only [Res.bind_ok, Res.pure_eq, Res.ok.injEq] at hy
        refine ⟨[mp.page], [m], rfl, ?_, ?_⟩
        · simp [tsMapM, hm]
        · rw [← hx, ← hy]; rfl
      · rintro ⟨ps, ms, hp, hm, hz⟩
        simp only [Res.bind_ok, Res.pure_eq, Res.ok.injEq] at hp
        subst hp
        obtain ⟨m, hm1, hm⟩ := bind_ok_inv.1 hm
        dsimp only at hm1
        simp only [tsMapM, Res.bind_ok, Res.pure_eq, Res.ok.injEq] at hm
        subst hm
        refine ⟨[(mp.load idx, m)], ?_, ?_, ?_⟩
        · rw [hm1]; rfl
        · rw [← hz]; rfl
        · intro y hy
          rw [List.mem_singleton.1 hy]; exact g.load
    · rw [h1, h2]
      constructor
      · rintro ⟨ys, hy, hx, hg⟩
        obtain ⟨m, hm, hy⟩ := bind_ok_inv.1 hy
        simp only [Res.bind_ok] at hy
        obtain ⟨rest, hr, hy⟩ := bind_ok_inv.1 hy
        simp only [Res.pure_eq, Res.ok.injEq] at hy
        subst hy
        obtain ⟨ps, ms, hp, hms, hz⟩ := (ih q gq (rest.map (fun y => (y.1.page, y.2)))).1
          ⟨rest, hr, rfl, fun y hy => hg y (List.mem_cons_of_mem _ hy)⟩
        refine ⟨mp.page :: ps, m :: ms, ?_, ?_, ?_⟩
        · simp [hp]
        · simp [tsMapM, hm, hms]
        · rw [← hx, List.zip_cons_cons, hz]; rfl
      · rintro ⟨ps, ms, hp, hm, hz⟩
        simp only [Res.bind_ok] at hp
        obtain ⟨ps', hp', hp⟩ := bind_ok_inv.1 hp
        simp only [Res.pure_eq, Res.ok.injEq] at hp
        subst hp
        obtain ⟨m, hm1, hm⟩ := bind_ok_inv.1 hm
        dsimp only at hm1
        obtain ⟨ms', hms', hm⟩ := bind_ok_inv.1 hm
        simp only [Res.pure_eq, Res.ok.injEq] at hm
        subst hm
        obtain ⟨ys, hy, hx, hg⟩ := (ih q gq (ps'.zip ms')).2 ⟨ps', ms', hp', hms', rfl⟩
        refine ⟨(mp.load idx, m) :: ys, ?_, ?_, ?_⟩
        · rw [hm1]; simp [hy]
        · rw [← hz, List.zip_cons_cons, ← hx]; rfl
        · intro y hy
          rcases List.mem_cons.1 hy with h | h
          · rw [h]; exact g.load
          · exact hg y h
    · rw [h1, h2]
      constructor
      · rintro ⟨ys, hy, _⟩
        obtain ⟨m, hm, hy⟩ := bind_ok_inv.1 hy
        simp at hy
      · rintro ⟨ps, ms, hp, _⟩
        simp at hp
    · rw [h1, h2]
      constructor
      · rintro ⟨ys, hy, _⟩
        obtain ⟨m, hm, hy⟩ := bind_ok_inv.1 hy
        simp at hy
      · rintro ⟨ps, ms, hp, _⟩
        simp at hp

theorem seekLoop_good (idx : Resolver) : ∀ (fuel : Nat) (mp : TsMp), Good idx mp → ∀ all, tsSeekLoop idx fuel mp = .ok all →
    ∀ y ∈ all, Good idx y.1 := by
  intro fuel
  induction fuel with
  | zero => intro mp _ all h; cases h
  | succ fuel ih =>
    intro mp g all h
    rw [tsSeekLoop] at h
    obtain ⟨m, hm, h⟩ := bind_ok_inv.1 h
    rcases g.next with ⟨h1, h2⟩ | ⟨q, h1, h2, gq⟩ | ⟨e, h1, h2⟩ | ⟨h1, h2⟩
    · rw [h2] at h
      simp only [Res.bind_ok, Res.pure_eq, Res.ok.injEq] at h
      subst h
      intro y hy; rw [List.mem_singleton.1 hy]; exact g.load
    · rw [h2] at h
      simp only [Res.bind_ok] at h
      obtain ⟨rest, hr, h⟩ := bind_ok_inv.1 h
      simp only [Res.pure_eq, Res.ok.injEq] at h
      subst h
      intro y hy
      rcases List.mem_cons.1 hy with h | h
      · rw [h]; exact g.load
      · exact ih q gq rest hr y h
    · rw [h2] at h; simp at h
    · rw [h2] at h; simp at h

theorem fetchLoop_none (idx : Resolver) : ∀ (fuel : Nat) (mp : TsMp), Good idx mp → tsFetchLoop idx fuel mp = none →
    ∀ ps, tsPagesFrom idx fuel mp.page ≠ .ok ps := by
  intro fuel
  induction fuel with
  | zero => intro mp _ _ ps h; cases h
  | succ fuel ih =>
    intro mp g h ps hp
    rw [tsFetchLoop] at h
    rw [tsPagesFrom] at hp
    rcases g.next with ⟨h1, h2⟩ | ⟨q, h1, h2, gq⟩ | ⟨e, h1, h2⟩ | ⟨h1, h2⟩
    · rw [h2] at h; cases h
    · rw [h2] at h; rw [h1] at hp
      simp only [Option.map_eq_none_iff] at h
      simp only [Res.bind_ok] at hp
      obtain ⟨ps', hp', _⟩ := bind_ok_inv.1 hp
      exact ih q gq h ps' hp'
    · rw [h2] at h; cases h
    · rw [h2] at h; cases h

/-- What the fetch loop pushes, and what the loop over it reads. -/
theorem fetchLoop_some (idx : Resolver) : ∀ (fuel : Nat) (mp : TsMp), Good idx mp → ∀ r l, tsFetchLoop idx fuel mp = some (r, l) →
    l ≠ [] ∧ (∀ x ∈ l, Good idx x) ∧
      (∀ ms, tsHeaderLoop idx l = .ok ms ↔ ∃ ps, tsPagesFrom idx fuel mp.page = .ok ps ∧ tsMapM (fun p => p.indexMeta idx) ps = .ok ms) ∧
      (r = .ok () ↔ ∃ ps, tsPagesFrom idx fuel mp.page = .ok ps) := by
  intro fuel
  induction fuel with
  | zero => intro mp _ r l h; cases h
  | succ fuel ih =>
    intro mp g r l h
    rw [tsFetchLoop] at h
    rw [tsPagesFrom]
    have gl := g.load
    have e1 : (mp.load idx).page = mp.page := rfl
    have single : ∀ x : TsMp, x ∈ [mp.load idx] → Good idx x := by
      intro x hx; rw [List.mem_singleton.1 hx]; exact gl
    rcases g.next with ⟨h1, h2⟩ | ⟨q, h1, h2, gq⟩ | ⟨e, h1, h2⟩ | ⟨h1, h2⟩
    · rw [h2] at h
      simp only [Option.some.injEq, Prod.mk.injEq] at h
      obtain ⟨hr, hl⟩ := h
      subst hr; subst hl
      refine ⟨by simp, single, ?_, ?_⟩
      · intro ms
        rw [tsHeaderLoop, gl.indexMeta, e1, h1]
        have hn : (mp.load idx).next idx = .ok none := by
          rcases gl.next with ⟨a, b⟩ | ⟨q, a, b, _⟩ | ⟨e, a, b⟩ | ⟨a, b⟩ <;> rw [e1, h1] at a <;> first | exact b | cases a
        rw [hn]
        constructor
        · intro h
          obtain ⟨m, hm, h⟩ := bind_ok_inv.1 h
          simp only [Res.bind_ok, Res.pure_eq, Res.ok.injEq] at h
          exact ⟨[mp.page], rfl, by simp [tsMapM, hm, h]⟩
        · rintro ⟨ps, hp, hm⟩
          simp only [Res.bind_ok, Res.pure_eq, Res.ok.injEq] at hp
          subst hp
          obtain ⟨m, hm1, hm⟩ := bind_ok_inv.1 hm
          dsimp only at hm1
          simp only [tsMapM, Res.bind_ok, Res.pure_eq, Res.ok.injEq] at hm
          rw [hm1, ← hm]; rfl
      · rw [h1]
        exact ⟨fun _ => ⟨_, rfl⟩, fun _ => rfl⟩
    · rw [h2] at h
      simp only [Option.map_eq_some_iff] at h
      obtain ⟨⟨r', l'⟩, hx, h⟩ := h
      simp only [Prod.mk.injEq] at h
      obtain ⟨hr, hl⟩ := h
      subst hr; subst hl
      obtain ⟨_, hg, hh, hrr⟩ := ih q gq r' l' hx
      have hn : ∃ q', (mp.load idx).next idx = .ok (some q') := by
        rcases gl.next with ⟨a, b⟩ | ⟨q', a, b, _⟩ | ⟨e, a, b⟩ | ⟨a, b⟩ <;> rw [e1, h1] at a <;> first | exact ⟨_, b⟩ | cases a
      obtain ⟨q', hn⟩ := hn
      refine ⟨by simp, ?_, ?_, ?_⟩
      · intro x hx
        rcases List.mem_cons.1 hx with h | h
        · rw [h]; exact gl
        · exact hg x h
      · intro ms
        rw [tsHeaderLoop, gl.indexMeta, e1, h1, hn]
        constructor
        · intro h
          obtain ⟨m, hm, h⟩ := bind_ok_inv.1 h
          simp only [Res.bind_ok] at h
          obtain ⟨ms', hms', h⟩ := bind_ok_inv.1 h
          simp only [Res.pure_eq, Res.ok.injEq] at h
          obtain ⟨ps, hp, hm'⟩ := (hh ms').1 hms'
          exact ⟨mp.page :: ps, by simp [hp], by simp [tsMapM, hm, hm', h]⟩
        · rintro ⟨ps, hp, hm⟩
          simp only [Res.bind_ok] at hp
          obtain ⟨ps', hp', hp⟩ := bind_ok_inv.1 hp
          simp only [Res.pure_eq, Res.ok.injEq] at hp
          subst hp
          obtain ⟨m, hm1, hm⟩ := bind_ok_inv.1 hm
          dsimp only at hm1
          obtain ⟨ms', hms', hm⟩ := bind_ok_inv.1 hm
          simp only [Res.pure_eq, Res.ok.injEq] at hm
          have := (hh ms').2 ⟨ps', hp', hms'⟩
          rw [hm1]; simp [this, hm]
      · rw [h1, hrr]
        constructor
        · rintro ⟨ps, hp⟩; exact ⟨mp.page :: ps, by simp [hp]⟩
        · rintro ⟨ps, hp⟩
          simp only [Res.bind_ok] at hp
          obtain ⟨ps', hp', _⟩ := bind_ok_inv.1 hp
          exact ⟨ps', hp'⟩
    · rw [h2] at h
      simp only [Option.some.injEq, Prod.mk.injEq] at h
      obtain ⟨hr, hl⟩ := h
      subst hr; subst hl
      have hn : (mp.load idx).next idx = .err e := by
        rcases gl.next with ⟨a, b⟩ | ⟨q', a, b, _⟩ | ⟨e, a, b⟩ | ⟨a, b⟩ <;> rw [e1, h1] at a <;> first | (cases a; exact b) | cases a
      refine ⟨by simp, single, ?_, ?_⟩
      · intro ms
        rw [tsHeaderLoop, hn, h1]
        constructor
        · intro h
          obtain ⟨m, hm, h⟩ := bind_ok_inv.1 h
          simp at h
        · rintro ⟨ps, hp, _⟩; simp at hp
      · rw [h1]; simp
    · rw [h2] at h
      simp only [Option.some.injEq, Prod.mk.injEq] at h
      obtain ⟨hr, hl⟩ := h
      subst hr; subst hl
      have hn : (mp.load idx).next idx = .panic := by
        rcases gl.next with ⟨a, b⟩ | ⟨q', a, b, _⟩ | ⟨e, a, b⟩ | ⟨a, b⟩ <;> rw [e1, h1] at a <;> first | exact b | cases a
      refine ⟨by simp, single, ?_, ?_⟩
      · intro ms
        rw [tsHeaderLoop, hn, h1]
        constructor
        · intro h
          obtain ⟨m, hm, h⟩ := bind_ok_inv.1 h
          simp at h
        · rintro ⟨ps, hp, _⟩; simp at hp
      · rw [h1]; simp

/-! ### A client of an unchanging file -/

/-- What holds between calls against one server. -/
structure AsNew (idx : Resolver) (fuel : Nat) (c : TsClient) : Prop where
  tree : ∀ mp, c.tree = some mp → mp.page = tsFilePage ∧ Good idx mp
  linked : c.linked = [] ∨ ∃ mp r, Good idx mp ∧ tsFilePage.next idx = .ok (some mp.page) ∧ tsFetchLoop idx fuel mp = some (r, c.linked)
  headers : ∀ h, c.headers = some h → Agree h (tsIndexHeaders idx fuel)

theorem AsNew.filePage {idx : Resolver} {fuel : Nat} {c : TsClient} (f : AsNew idx fuel c) :
    c.filePage.page = tsFilePage ∧ Good idx c.filePage := by
  unfold TsClient.filePage
  cases h : c.tree with
  | none => exact ⟨rfl, Good.new _ _⟩
  | some mp => exact f.tree mp h

theorem AsNew.touch {idx : Resolver} {fuel : Nat} {c : TsClient} (f : AsNew idx fuel c) : AsNew idx fuel (c.touch idx) := by
  refine ⟨?_, f.linked, f.headers⟩
  intro mp h
  simp only [TsClient.touch, Option.some.injEq] at h
  subst h
  exact ⟨f.filePage.1, f.filePage.2.load⟩

theorem AsNew.metadata {idx : Resolver} {fuel : Nat} {c : TsClient} (f : AsNew idx fuel c) :
    (c.metadata idx).1 = tsFileMetadata idx := by
  unfold TsClient.metadata tsFileMetadata
  rw [f.filePage.2.metadata, f.filePage.1]

/-- The pages of a seek, without the kept replies. -/
def seekPages (xs : List (TsMp × TsIndexMeta)) : List (TsPage × TsIndexMeta) := xs.map (fun x => (x.1.page, x.2))

theorem AsNew.seek {idx : Resolver} {fuel : Nat} {c : TsClient} (f : AsNew idx fuel c) (name : Bytes) (ft : Nat)
    (xs : List (TsPage × TsIndexMeta)) :
    tsSeek idx fuel name ft = .ok xs ↔ ∃ ys, (c.seek idx fuel name ft).1 = .ok ys ∧ seekPages ys = xs ∧ ∀ y ∈ ys, Good idx y.1 := by
  unfold TsClient.seek tsSeek tsMetaPages
  rcases f.filePage.2.next with ⟨h1, h2⟩ | ⟨q, h1, h2, gq⟩ | ⟨e, h1, h2⟩ | ⟨h1, h2⟩
  · rw [f.filePage.1] at h1; simp [h1, h2]
  · rw [f.filePage.1] at h1
    simp only [h1, h2, Res.bind_ok]
    constructor
    · intro h
      obtain ⟨ps, hp, h⟩ := bind_ok_inv.1 h
      obtain ⟨ms, hm, h⟩ := bind_ok_inv.1 h
      simp only [Res.pure_eq, Res.ok.injEq] at h
      obtain ⟨ys, hy, hx, hg⟩ := (seekLoop_agree idx fuel q gq _).2 ⟨ps, ms, hp, hm, rfl⟩
      refine ⟨ys.filter (fun x => tsSeekMatch name ft x.2), by rw [hy]; rfl, ?_, ?_⟩
      · rw [← h, ← hx, List.filter_map]; rfl
      · intro y hy; exact hg y (List.mem_filter.1 hy).1
    · rintro ⟨ys, h, hx, hg⟩
      obtain ⟨all, ha, h⟩ := bind_ok_inv.1 h
      simp only [Res.pure_eq, Res.ok.injEq] at h
      obtain ⟨ps, ms, hp, hm, hz⟩ := (seekLoop_agree idx fuel q gq _).1 ⟨all, ha, rfl, seekLoop_good idx fuel q gq all ha⟩
      rw [hp]
      simp only [Res.bind_ok, hm, Res.pure_eq, Res.ok.injEq]
      rw [hz, ← hx, ← h, List.filter_map]; rfl
  · rw [f.filePage.1] at h1; simp [h1, h2]
  · rw [f.filePage.1] at h1; simp [h1, h2]

theorem AsNew.fetch {idx : Resolver} {fuel : Nat} {c : TsClient} (f : AsNew idx fuel c) (hl : c.linked = []) :
    AsNew idx fuel (c.fetchMetaPages idx fuel).2 ∧
      ((c.fetchMetaPages idx fuel).1 = .ok () ↔ ∃ ps, tsMetaPages idx fuel = .ok ps) ∧
      ((c.fetchMetaPages idx fuel).1 = .ok () → (c.fetchMetaPages idx fuel).2.linked ≠ []) := by
  unfold TsClient.fetchMetaPages tsMetaPages
  rcases f.filePage.2.next with ⟨h1, h2⟩ | ⟨q, h1, h2, gq⟩ | ⟨e, h1, h2⟩ | ⟨h1, h2⟩
  · rw [f.filePage.1] at h1; rw [h1, h2]
    refine ⟨f.touch, ?_, ?_⟩ <;> simp
  · rw [f.filePage.1] at h1; rw [h1, h2]
    cases hx : tsFetchLoop idx fuel q with
    | none =>
      simp only [hx]
      refine ⟨f.touch, ?_, ?_⟩
      · simp only [Res.bind_ok, reduceCtorEq, false_iff]
        rintro ⟨ps, hp⟩
        exact fetchLoop_none idx fuel q gq hx ps hp
      · simp
    | some x =>
      simp only [hx]
      obtain ⟨hne, hg, hh, hr⟩ := fetchLoop_some idx fuel q gq x.1 x.2 hx
      have el : c.linked ++ x.2 = x.2 := by rw [hl]; rfl
      refine ⟨⟨f.touch.tree, .inr ⟨q, x.1, gq, h1, ?_⟩, f.headers⟩, ?_, ?_⟩
      · show _ = some (x.1, c.linked ++ x.2)
        rw [el, hx]
      · simpa using hr
      · intro _ h
        have : c.linked ++ x.2 = [] := h
        rw [el] at this
        exact hne this
  · rw [f.filePage.1] at h1; rw [h1, h2]
    refine ⟨f.touch, ?_, ?_⟩ <;> simp
  · rw [f.filePage.1] at h1; rw [h1, h2]
    refine ⟨f.touch, ?_, ?_⟩ <;> simp

theorem AsNew.loop {idx : Resolver} {fuel : Nat} {c : TsClient} (f : AsNew idx fuel c) (hl : c.linked ≠ []) :
    Agree (do let ms ← tsHeaderLoop idx c.linked; return tsCollectMetas ms) (tsIndexHeaders idx fuel) := by
  rcases f.linked with h | ⟨mp, r, g, hn, hx⟩
  · exact absurd h hl
  · obtain ⟨_, _, hh, _⟩ := fetchLoop_some idx fuel mp g r c.linked hx
    intro a
    unfold tsIndexHeaders tsMetaPages
    rw [hn]
    simp only [Res.bind_ok]
    constructor
    · intro h
      obtain ⟨ms, hm, h⟩ := bind_ok_inv.1 h
      obtain ⟨ps, hp, hm'⟩ := (hh ms).1 hm
      rw [hp]
      simp only [Res.bind_ok, hm', h]
    · intro h
      obtain ⟨ps, hp, h⟩ := bind_ok_inv.1 h
      obtain ⟨ms, hm, h⟩ := bind_ok_inv.1 h
      rw [(hh ms).2 ⟨ps, hp, hm⟩]
      exact h

theorem AsNew.indexHeaders {idx : Resolver} {fuel : Nat} {c : TsClient} (f : AsNew idx fuel c) :
    AsNew idx fuel (c.indexHeaders idx fuel).2 ∧ Agree (c.indexHeaders idx fuel).1 (tsIndexHeaders idx fuel) := by
  unfold TsClient.indexHeaders
  by_cases hl : c.linked = []
  · rw [if_pos hl]
    obtain ⟨hf, hr, hne⟩ := f.fetch hl
    have bad : (∀ u, (c.fetchMetaPages idx fuel).1 ≠ .ok u) → ∀ a, tsIndexHeaders idx fuel ≠ .ok a := by
      intro h a ha
      obtain ⟨ps, hp, _⟩ := bind_ok_inv.1 ha
      exact h () (hr.2 ⟨ps, hp⟩)
    obtain ⟨x, hx⟩ : ∃ x, x = c.fetchMetaPages idx fuel := ⟨_, rfl⟩
    rw [← hx] at hf hr hne bad ⊢
    obtain ⟨r, c'⟩ := x
    cases r with
    | panic => exact ⟨hf, fun a => by simp [bad (fun u h => by cases h) a]⟩
    | err e => exact ⟨hf, fun a => by simp [bad (fun u h => by cases h) a]⟩
    | ok u => exact ⟨hf, hf.loop (hne rfl)⟩
  · rw [if_neg hl]
    exact ⟨f, f.loop hl⟩

theorem AsNew.fields {idx : Resolver} {fuel : Nat} {c : TsClient} (f : AsNew idx fuel c) :
    AsNew idx fuel (c.fields idx fuel).2 ∧ Agree (c.fields idx fuel).1 (tsIndexHeaders idx fuel) := by
  unfold TsClient.fields
  cases h : c.headers with
  | some hs => exact ⟨f, f.headers hs h⟩
  | none =>
    obtain ⟨hf, ha⟩ := f.indexHeaders
    refine ⟨⟨hf.tree, hf.linked, ?_⟩, ha⟩
    intro hs hh
    simp only [Option.some.injEq] at hh
    rw [← hh]; exact ha

theorem AsNew.clauseTree {db : TsDb} {fuel : Nat} {c : TsClient} (f : AsNew db.idx fuel c) (fm : TsFileMeta)
    (headers : List (Bytes × List Nat)) (w : TsWhere) : Agree (c.clauseTree db fuel fm headers w) (db.clauseTree fuel fm headers w) := by
  unfold TsClient.clauseTree TsDb.clauseTree
  cases headers.find? (fun h => h.1 == w.key) with
  | none => exact Agree.refl _
  | some _ =>
    simp only
    cases tsProcessWhere w.value with
    | none => exact Agree.refl _
    | some x =>
      obtain ⟨ft, v⟩ := x
      intro a
      simp only
      constructor
      · intro h
        obtain ⟨ys, hy, h⟩ := bind_ok_inv.1 h
        have hall : ∃ xs, tsSeek db.idx fuel w.key ft = .ok xs ∧ seekPages ys = xs ∧ ∀ y ∈ ys, Good db.idx y.1 := by
          have hg : ∃ xs, seekPages ys = xs ∧ ∀ y ∈ ys, Good db.idx y.1 := ⟨_, rfl, ?_⟩
          · obtain ⟨xs, h1, h2⟩ := hg
            exact ⟨xs, (f.seek w.key ft xs).2 ⟨ys, hy, h1, h2⟩, h1, h2⟩
          · unfold TsClient.seek at hy
            obtain ⟨o, ho, hy⟩ := bind_ok_inv.1 hy
            rcases f.filePage.2.next with ⟨h1, h2⟩ | ⟨q, h1, h2, gq⟩ | ⟨e, h1, h2⟩ | ⟨h1, h2⟩ <;> rw [h2] at ho
            · cases ho; cases hy
            · cases ho
              obtain ⟨all, ha, hy⟩ := bind_ok_inv.1 hy
              simp only [Res.pure_eq, Res.ok.injEq] at hy
              intro y hyy
              rw [← hy] at hyy
              have := seekLoop_good db.idx fuel q gq all ha
              exact this y (List.mem_filter.1 hyy).1
            · cases ho
            · cases ho
        obtain ⟨xs, hs, hx, hg⟩ := hall
        rw [hs]
        simp only [Res.bind_ok]
        cases ys with
        | nil => cases h
        | cons y ys =>
          subst hx
          simp only [seekPages, List.map_cons]
          rw [← (hg y (by simp)).root]
          exact h
      · intro h
        obtain ⟨xs, hs, h⟩ := bind_ok_inv.1 h
        obtain ⟨ys, hy, hx, hg⟩ := (f.seek w.key ft xs).1 hs
        rw [hy]
        simp only [Res.bind_ok]
        cases ys with
        | nil => subst hx; cases h
        | cons y ys =>
          subst hx
          simp only [seekPages, List.map_cons] at h
          simp only
          rw [(hg y (by simp)).root]
          exact h

theorem Spec.AgreeRows.refl {β : Type} (x : TsRows β) : AgreeRows x x := ⟨rfl, Iff.rfl⟩

/-- Both throw at once. -/
theorem AgreeRows.throw {β : Type} (e e' : Err) : AgreeRows (⟨[], some e⟩ : TsRows β) ⟨[], some e'⟩ := ⟨rfl, by simp⟩

theorem AgreeRows.andThen {β : Type} (a : TsRows β) {x y : TsRows β} (h : AgreeRows x y) : AgreeRows (a.andThen x) (a.andThen y) := by
  unfold TsRows.andThen
  cases a.fail with
  | some e => exact AgreeRows.refl _
  | none => exact ⟨by rw [h.1], h.2⟩

/-- A result that is not a value. -/
theorem Agree.failed {α : Type} {x y : Res α} (h : Agree x y) (hx : ∀ a, x ≠ .ok a) : ∀ a, y ≠ .ok a := fun a ha => hx a ((h a).2 ha)

theorem AsNew.clauses {β : Type} {db : TsDb} {fuel : Nat} {c : TsClient} (f : AsNew db.idx fuel c) (select : Bytes → Res β) (dir : TsDir)
    (fm : TsFileMeta) (headers : List (Bytes × List Nat)) (ws : List TsWhere) :
    AgreeRows (c.clauses db fuel select dir fm headers ws) (db.clauses fuel select dir fm headers ws) := by
  induction ws with
  | nil => exact AgreeRows.refl _
  | cons w ws ih =>
    rw [TsClient.clauses, TsDb.clauses]
    have ha := f.clauseTree fm headers w
    cases hx : c.clauseTree db fuel fm headers w with
    | ok x =>
      rw [(ha x).1 hx]
      exact AgreeRows.andThen _ ih
    | err e =>
      have hf := Agree.failed ha (by rw [hx]; simp)
      cases hy : db.clauseTree fuel fm headers w with
      | ok y => exact absurd hy (hf y)
      | err e' => exact AgreeRows.throw _ _
      | panic => exact AgreeRows.throw _ _
    | panic =>
      have hf := Agree.failed ha (by rw [hx]; simp)
      cases hy : db.clauseTree fuel fm headers w with
      | ok y => exact absurd hy (hf y)
      | err e' => exact AgreeRows.throw _ _
      | panic => exact AgreeRows.throw _ _

/-- `TsDb.query` in the shape of `TsClient.query`. -/
theorem TsDb.query_eq {β : Type} (db : TsDb) (fuel : Nat) (select : Bytes → Res β) (q : TsQuery) :
    AgreeRows (db.query fuel select q)
      (if q.where_.tail.any (fun x => x.key != (q.where_.headD default).key) then ⟨[], some (.msg "composite indexes not supported")⟩
        else (match (generalizing := false) tsFileMetadata db.idx, tsIndexHeaders db.idx fuel with
          | .ok fm, .ok headers => db.clauses fuel select q.dir fm headers q.where_
          | _, _ => ⟨[], some (.msg "failed")⟩)) := by
  unfold TsDb.query
  cases hw : q.where_ with
  | nil =>
    simp only [List.tail_nil, List.any_nil, Bool.false_eq_true, if_false]
    cases tsFileMetadata db.idx <;> cases tsIndexHeaders db.idx fuel <;> first | exact AgreeRows.refl _ | exact AgreeRows.throw _ _
  | cons w ws =>
    by_cases h : (ws.any fun x => x.key != w.key) = true
    · have h' : ((w :: ws).tail.any fun x => x.key != ((w :: ws).headD default).key) = true := h
      rw [if_pos h']; simp only; rw [if_pos h]; exact AgreeRows.refl _
    · have h' : ¬ ((w :: ws).tail.any fun x => x.key != ((w :: ws).headD default).key) = true := h
      rw [if_neg h']; simp only; rw [if_neg h]
      cases tsFileMetadata db.idx <;> cases tsIndexHeaders db.idx fuel <;> first | exact AgreeRows.refl _ | exact AgreeRows.throw _ _

theorem Spec.AgreeRows.trans {β : Type} {x y z : TsRows β} (h : AgreeRows x y) (h' : AgreeRows y z) : AgreeRows x z :=
  ⟨h.1.trans h'.1, h.2.trans h'.2⟩

theorem Spec.AgreeRows.symm {β : Type} {x y : TsRows β} (h : AgreeRows x y) : AgreeRows y x := ⟨h.1.symm, h.2.symm⟩

theorem AsNew.query {β : Type} {db : TsDb} {fuel : Nat} {c : TsClient} (f : AsNew db.idx fuel c) (select : Bytes → Res β) (q : TsQuery) :
    AsNew db.idx fuel (c.query db fuel select q).2 ∧ AgreeRows (c.query db fuel select q).1 (db.query fuel select q) := by
  have key := db.query_eq fuel select q
  unfold TsClient.query
  split
  · rename_i h
    rw [if_pos h] at key
    exact ⟨f, key.symm⟩
  · rename_i h
    rw [if_neg h] at key
    have hm := f.metadata
    have e : c.metadata db.idx = ((c.metadata db.idx).1, c.touch db.idx) := rfl
    rw [e, hm]
    cases hfm : tsFileMetadata db.idx with
    | panic => rw [hfm] at key; exact ⟨f.touch, (key.trans (AgreeRows.throw _ _)).symm⟩
    | err e => rw [hfm] at key; exact ⟨f.touch, (key.trans (AgreeRows.throw _ _)).symm⟩
    | ok fm =>
      rw [hfm] at key
      obtain ⟨ff, ha⟩ := f.touch.fields
      obtain ⟨x, hx⟩ : ∃ x, x = (c.touch db.idx).fields db.idx fuel := ⟨_, rfl⟩
      simp only
      rw [← hx] at ff ha ⊢
      obtain ⟨r, c2⟩ := x
      cases r with
      | panic =>
        have hf := Agree.failed ha (by simp)
        cases hh : tsIndexHeaders db.idx fuel with
        | ok y => exact absurd hh (hf y)
        | err e => rw [hh] at key; exact ⟨ff, (key.trans (AgreeRows.throw _ _)).symm⟩
        | panic => rw [hh] at key; exact ⟨ff, (key.trans (AgreeRows.throw _ _)).symm⟩
      | err e =>
        have hf := Agree.failed ha (by simp)
        cases hh : tsIndexHeaders db.idx fuel with
        | ok y => exact absurd hh (hf y)
        | err e => rw [hh] at key; exact ⟨ff, (key.trans (AgreeRows.throw _ _)).symm⟩
        | panic => rw [hh] at key; exact ⟨ff, (key.trans (AgreeRows.throw _ _)).symm⟩
      | ok headers =>
        rw [(ha headers).1 rfl] at key
        exact ⟨ff, (ff.clauses select q.dir fm headers q.where_).trans key.symm⟩

theorem AsNew.new (idx : Resolver) (fuel : Nat) : AsNew idx fuel TsClient.new :=
  ⟨fun mp h => by simp [TsClient.new] at h, .inl rfl, fun h hh => by simp [TsClient.new] at hh⟩

theorem Session.fresh {idx : Resolver} {fuel : Nat} {c : TsClient} (s : Session (fun db => db.idx = idx) fuel TsClient.new c) :
    AsNew idx fuel c := by
  induction s with
  | start => exact AsNew.new idx fuel
  | metadata db h _ ih => subst h; exact ih.touch
  | seek db name ft h _ ih => subst h; exact ih.touch
  | headers db h _ ih => subst h; exact ih.indexHeaders.1
  | fields db h _ ih => subst h; exact ih.fields.1
  | query db select q h _ ih => subst h; exact (ih.query select q).1

/-! ### C88 -/

/-- **C88.**  As long as the index file does not change (and its server answers equal requests equally), a client that has made
any calls in any order answers every call as a client without memory does: the same file metadata, the same index headers, the
same slots, the same rows; where the one fails, so does the other.  The data file may change between calls. -/
theorem C88_transparent (idx : Resolver) (fuel : Nat) (c : TsClient) (s : Session (fun db => db.idx = idx) fuel TsClient.new c) :
    (c.metadata idx).1 = tsFileMetadata idx ∧
    Agree (c.indexHeaders idx fuel).1 (tsIndexHeaders idx fuel) ∧
    Agree (c.fields idx fuel).1 (tsIndexHeaders idx fuel) ∧
    (∀ name ft xs, tsSeek idx fuel name ft = .ok xs ↔
      ∃ ys, (c.seek idx fuel name ft).1 = .ok ys ∧ ys.map (fun y => (y.1.page, y.2)) = xs ∧ ∀ y ∈ ys, y.1.root idx = y.1.page.root idx) ∧
    (∀ (β : Type) (db : TsDb) (select : Bytes → Res β) (q : TsQuery), db.idx = idx →
      AgreeRows (c.query db fuel select q).1 (db.query fuel select q)) := by
  have f := Session.fresh s
  refine ⟨f.metadata, f.indexHeaders.2, f.fields.2, ?_, ?_⟩
  · intro name ft xs
    constructor
    · intro h
      obtain ⟨ys, hy, hx, hg⟩ := (f.seek name ft xs).1 h
      exact ⟨ys, hy, hx, fun y h => (hg y h).root⟩
    · rintro ⟨ys, hy, hx, _⟩
      refine (f.seek name ft xs).2 ⟨ys, hy, hx, ?_⟩
      unfold TsClient.seek at hy
      obtain ⟨o, ho, hy⟩ := bind_ok_inv.1 hy
      rcases f.filePage.2.next with ⟨h1, h2⟩ | ⟨q, h1, h2, gq⟩ | ⟨e, h1, h2⟩ | ⟨h1, h2⟩ <;> rw [h2] at ho
      · cases ho; cases hy
      · cases ho
        obtain ⟨all, ha, hy⟩ := bind_ok_inv.1 hy
        simp only [Res.pure_eq, Res.ok.injEq] at hy
        intro y hyy
        rw [← hy] at hyy
        exact seekLoop_good idx fuel q gq all ha y (List.mem_filter.1 hyy).1
      · cases ho
      · cases ho
  · intro β db select q h
    subst h
    exact (f.query select q).2

/-! ### C89 -/

/-- The first page could not be read, and that is all the client will ever know. -/
structure Broken (c : TsClient) : Prop where
  tree : ∃ r : Res (List Bytes), c.tree = some ⟨tsFilePage, some r⟩ ∧ ∀ a, r ≠ .ok a
  linked : c.linked = []
  headers : ∀ h, c.headers = some h → ∀ a, h ≠ .ok a

theorem page_failed {p : TsPage} {r : Res (List Bytes)} (h : ∀ a, r ≠ .ok a) (b : Bytes) : p.page (fun _ => r) ≠ .ok b := by
  intro e
  obtain ⟨a, ha, _⟩ := bind_ok_inv.1 e
  exact h a ha

theorem Broken.load {c : TsClient} (b : Broken c) (idx : Resolver) : c.touch idx = c := by
  obtain ⟨r, hr, _⟩ := b.tree
  unfold TsClient.touch TsClient.filePage
  rw [hr]
  simp only [Option.getD_some, TsMp.load, TsMp.reply]
  rw [← hr]

theorem Broken.next {c : TsClient} (b : Broken c) (idx : Resolver) (a : Option TsMp) : c.filePage.next idx ≠ .ok a := by
  obtain ⟨r, hr, hn⟩ := b.tree
  intro h
  unfold TsMp.next TsPage.next TsClient.filePage at h
  rw [hr] at h
  obtain ⟨o, ho, _⟩ := bind_ok_inv.1 h
  obtain ⟨p, hp, _⟩ := bind_ok_inv.1 ho
  exact page_failed hn p hp

theorem Broken.metadata {c : TsClient} (b : Broken c) (idx : Resolver) (m : TsFileMeta) : (c.metadata idx).1 ≠ .ok m := by
  obtain ⟨r, hr, hn⟩ := b.tree
  intro h
  unfold TsClient.metadata TsMp.metadata TsPage.metadata TsClient.filePage at h
  rw [hr] at h
  obtain ⟨o, ho, _⟩ := bind_ok_inv.1 h
  obtain ⟨p, hp, _⟩ := bind_ok_inv.1 ho
  exact page_failed hn p hp

theorem Broken.fetch {c : TsClient} (b : Broken c) (idx : Resolver) (fuel : Nat) :
    (∀ u, (c.fetchMetaPages idx fuel).1 ≠ .ok u) ∧ (c.fetchMetaPages idx fuel).2 = c := by
  unfold TsClient.fetchMetaPages
  cases h : c.filePage.next idx with
  | panic => exact ⟨by simp, b.load idx⟩
  | err e => exact ⟨by simp, b.load idx⟩
  | ok a => exact absurd h (b.next idx a)

theorem Broken.indexHeaders {c : TsClient} (b : Broken c) (idx : Resolver) (fuel : Nat) :
    (∀ u, (c.indexHeaders idx fuel).1 ≠ .ok u) ∧ (c.indexHeaders idx fuel).2 = c := by
  unfold TsClient.indexHeaders
  rw [if_pos b.linked]
  obtain ⟨h1, h2⟩ := b.fetch idx fuel
  obtain ⟨x, hx⟩ : ∃ x, x = c.fetchMetaPages idx fuel := ⟨_, rfl⟩
  rw [← hx] at h1 h2 ⊢
  obtain ⟨r, c'⟩ := x
  simp only at h2; subst h2
  cases r with
  | panic => exact ⟨by simp, rfl⟩
  | err e => exact ⟨by simp, rfl⟩
  | ok u => exact absurd rfl (h1 u)

theorem Broken.fields {c : TsClient} (b : Broken c) (idx : Resolver) (fuel : Nat) :
    (∀ u, (c.fields idx fuel).1 ≠ .ok u) ∧ Broken (c.fields idx fuel).2 := by
  unfold TsClient.fields
  cases h : c.headers with
  | some hs => exact ⟨b.headers hs h, b⟩
  | none =>
    obtain ⟨h1, h2⟩ := b.indexHeaders idx fuel
    refine ⟨h1, ⟨?_, ?_, ?_⟩⟩
    · simp only [h2]; exact b.tree
    · simp only [h2]; exact b.linked
    · intro hs hh
      simp only [Option.some.injEq] at hh
      rw [← hh]; exact h1

theorem Broken.query {β : Type} {c : TsClient} (b : Broken c) (db : TsDb) (fuel : Nat) (select : Bytes → Res β) (q : TsQuery) :
    (c.query db fuel select q).1.rows = [] ∧ (c.query db fuel select q).1.fail ≠ none ∧ (c.query db fuel select q).2 = c := by
  unfold TsClient.query
  split
  · exact ⟨rfl, by simp, rfl⟩
  · have h1 := b.metadata db.idx
    have h2 : (c.metadata db.idx).2 = c := b.load db.idx
    obtain ⟨x, hx⟩ : ∃ x, x = c.metadata db.idx := ⟨_, rfl⟩
    rw [← hx] at h1 h2 ⊢
    obtain ⟨r, c'⟩ := x
    simp only at h2; subst h2
    cases r with
    | panic => exact ⟨rfl, by simp, rfl⟩
    | err e => exact ⟨rfl, by simp, rfl⟩
    | ok m => exact absurd rfl (h1 m)

theorem Broken.session {P : TsDb → Prop} {fuel : Nat} {c0 c : TsClient} (b : Broken c0) (s : Session P fuel c0 c) : Broken c := by
  induction s with
  | start => exact b
  | metadata db h _ ih => rw [show ((TsClient.metadata db.idx _).2 = _) from ih.load db.idx]; exact ih
  | seek db name ft h _ ih => rw [show ((TsClient.seek db.idx fuel _ name ft).2 = _) from ih.load db.idx]; exact ih
  | headers db h _ ih => rw [(ih.indexHeaders db.idx fuel).2]; exact ih
  | fields db h _ ih => exact (ih.fields db.idx fuel).2
  | query db select q h _ ih => rw [(ih.query db fuel select q).2.2]; exact ih

theorem Broken.dead {c : TsClient} (b : Broken c) (fuel : Nat) : Dead fuel c := by
  intro db
  refine ⟨b.metadata db.idx, (b.indexHeaders db.idx fuel).1, (b.fields db.idx fuel).1, ?_, ?_⟩
  · intro name ft r h
    unfold TsClient.seek at h
    obtain ⟨o, ho, _⟩ := bind_ok_inv.1 h
    exact b.next db.idx o ho
  · intro β select q
    exact ⟨(b.query db fuel select q).1, (b.query db fuel select q).2.1⟩

theorem Broken.of_touch {idx : Resolver} (hf : ∀ r, idx [(4096, 8191)] ≠ .ok r) : Broken (TsClient.new.touch idx) := by
  refine ⟨⟨idx [(4096, 8191)], rfl, hf⟩, rfl, ?_⟩
  intro h hh; cases hh

/-- **C89** is violated: if the very first request of a client fails (the server of the index file is down during its first call,
whichever that is), then this client never answers any call again, whatever the server does later. -/
theorem C89_first_violated (fuel : Nat) (db0 : TsDb) (hf : ∀ r, db0.idx [(4096, 8191)] ≠ .ok r) (c0 c : TsClient)
    (first : c0 = (TsClient.new.metadata db0.idx).2 ∨ c0 = (TsClient.new.indexHeaders db0.idx fuel).2 ∨
      c0 = (TsClient.new.fields db0.idx fuel).2 ∨ (∃ name ft, c0 = (TsClient.new.seek db0.idx fuel name ft).2) ∨
      (∃ (select : Bytes → Res Bytes) (w : TsWhere), c0 = (TsClient.new.query db0 fuel select ⟨[w], none, none, none⟩).2))
    (later : Session (fun _ => True) fuel c0 c) : Dead fuel c := by
  have bt := Broken.of_touch hf
  have nb : ∀ a, (TsClient.new.filePage).next db0.idx ≠ .ok a := by
    have e : TsClient.new.filePage.next db0.idx = (TsClient.new.touch db0.idx).filePage.next db0.idx := rfl
    intro a; rw [e]; exact bt.next db0.idx a
  have hfetch : (∀ u, (TsClient.new.fetchMetaPages db0.idx fuel).1 ≠ .ok u) ∧ (TsClient.new.fetchMetaPages db0.idx fuel).2 = TsClient.new.touch db0.idx := by
    unfold TsClient.fetchMetaPages
    cases h : TsClient.new.filePage.next db0.idx with
    | panic => exact ⟨by simp, rfl⟩
    | err e => exact ⟨by simp, rfl⟩
    | ok a => exact absurd h (nb a)
  have hih : (∀ u, (TsClient.new.indexHeaders db0.idx fuel).1 ≠ .ok u) ∧ (TsClient.new.indexHeaders db0.idx fuel).2 = TsClient.new.touch db0.idx := by
    unfold TsClient.indexHeaders
    rw [if_pos (show TsClient.new.linked = [] from rfl)]
    obtain ⟨h1, h2⟩ := hfetch
    obtain ⟨x, hx⟩ : ∃ x, x = TsClient.new.fetchMetaPages db0.idx fuel := ⟨_, rfl⟩
    rw [← hx] at h1 h2 ⊢
    obtain ⟨r, c'⟩ := x
    simp only at h2; subst h2
    cases r with
    | panic => exact ⟨by simp, rfl⟩
    | err e => exact ⟨by simp, rfl⟩
    | ok u => exact absurd rfl (h1 u)
  have b : Broken c0 := by
    rcases first with h | h | h | ⟨name, ft, h⟩ | ⟨select, w, h⟩
    · rw [h]; exact bt
    · rw [h, hih.2]; exact bt
    · rw [h]
      unfold TsClient.fields
      refine ⟨?_, ?_, ?_⟩
      · show ∃ r, (TsClient.new.indexHeaders db0.idx fuel).2.tree = _ ∧ _
        rw [hih.2]; exact bt.tree
      · show (TsClient.new.indexHeaders db0.idx fuel).2.linked = _
        rw [hih.2]; rfl
      · intro hs hh
        have : some (TsClient.new.indexHeaders db0.idx fuel).1 = some hs := hh
        simp only [Option.some.injEq] at this
        rw [← this]; exact hih.1
    · rw [h]; exact bt
    · rw [h]
      have hm : ∀ m, (TsClient.new.metadata db0.idx).1 ≠ .ok m := by
        have e : (TsClient.new.metadata db0.idx).1 = ((TsClient.new.touch db0.idx).metadata db0.idx).1 := rfl
        intro m; rw [e]; exact bt.metadata db0.idx m
      have h2 : (TsClient.new.metadata db0.idx).2 = TsClient.new.touch db0.idx := rfl
      unfold TsClient.query
      rw [if_neg (by simp)]
      obtain ⟨x, hx⟩ : ∃ x, x = TsClient.new.metadata db0.idx := ⟨_, rfl⟩
      rw [← hx] at hm h2 ⊢
      obtain ⟨r, c'⟩ := x
      simp only at h2; subst h2
      cases r with
      | panic => exact bt
      | err e => exact bt
      | ok m => exact absurd rfl (hm m)
  exact (b.session later).dead fuel

/-! ### What is kept once -/

/-- What a client that has made any calls against any servers looks like. -/
structure Kept (c : TsClient) : Prop where
  tree : ∀ mp, c.tree = some mp → mp.page = tsFilePage ∧ mp.kept ≠ none
  linked : c.linked ≠ [] → c.tree ≠ none
  headers : ∀ h, c.headers = some (.ok h) → c.linked ≠ []

theorem Kept.new : Kept TsClient.new :=
  ⟨fun mp h => by simp [TsClient.new] at h, fun h => absurd rfl h, fun h hh => by simp [TsClient.new] at hh⟩

theorem Kept.touch {c : TsClient} (k : Kept c) (idx : Resolver) : Kept (c.touch idx) := by
  refine ⟨?_, fun _ => by simp [TsClient.touch], k.headers⟩
  intro mp h
  simp only [TsClient.touch, Option.some.injEq] at h
  subst h
  refine ⟨?_, by simp [TsMp.load]⟩
  show c.filePage.page = _
  unfold TsClient.filePage
  cases ht : c.tree with
  | none => rfl
  | some mp => exact (k.tree mp ht).1

theorem Kept.same {c : TsClient} (k : Kept c) (h : c.tree ≠ none) (idx : Resolver) : c.touch idx = c := by
  cases ht : c.tree with
  | none => exact absurd ht h
  | some mp =>
    obtain ⟨_, hk⟩ := k.tree mp ht
    cases hm : mp.kept with
    | none => exact absurd hm hk
    | some r =>
      have : mp.load idx = mp := by
        unfold TsMp.load TsMp.reply
        rw [hm, ← hm]
      unfold TsClient.touch TsClient.filePage
      rw [ht]
      simp only [Option.getD_some, this]
      rw [← ht]

theorem fetchLoop_nonempty (idx : Resolver) (fuel : Nat) (mp : TsMp) (x : Res Unit × List TsMp) (h : tsFetchLoop idx fuel mp = some x) : x.2 ≠ [] := by
  cases fuel with
  | zero => cases h
  | succ fuel =>
    rw [tsFetchLoop] at h
    split at h
    · cases h; simp
    · cases h; simp
    · cases h; simp
    · obtain ⟨y, _, hy⟩ := Option.map_eq_some_iff.1 h
      rw [← hy]; simp

theorem Kept.fetch {c : TsClient} (k : Kept c) (idx : Resolver) (fuel : Nat) :
    Kept (c.fetchMetaPages idx fuel).2 ∧ ((c.fetchMetaPages idx fuel).1 = .ok () → (c.fetchMetaPages idx fuel).2.linked ≠ []) := by
  unfold TsClient.fetchMetaPages
  split
  · exact ⟨k.touch idx, by simp⟩
  · exact ⟨k.touch idx, by simp⟩
  · exact ⟨k.touch idx, by simp⟩
  · split
    · exact ⟨k.touch idx, by simp⟩
    · rename_i x hx
      have hne := fetchLoop_nonempty _ _ _ _ hx
      have hl : c.linked ++ x.2 ≠ [] := by simp [hne]
      exact ⟨⟨(k.touch idx).tree, fun _ => by simp [TsClient.touch], fun _ _ => hl⟩, fun _ => hl⟩

theorem Kept.indexHeaders {c : TsClient} (k : Kept c) (idx : Resolver) (fuel : Nat) :
    Kept (c.indexHeaders idx fuel).2 ∧ (∀ hs, (c.indexHeaders idx fuel).1 = .ok hs → (c.indexHeaders idx fuel).2.linked ≠ []) ∧
      (c.linked ≠ [] → (c.indexHeaders idx fuel).2 = c) := by
  unfold TsClient.indexHeaders
  by_cases hl : c.linked = []
  · rw [if_pos hl]
    obtain ⟨h1, h2⟩ := k.fetch idx fuel
    obtain ⟨x, hx⟩ : ∃ x, x = c.fetchMetaPages idx fuel := ⟨_, rfl⟩
    rw [← hx] at h1 h2 ⊢
    obtain ⟨r, c'⟩ := x
    cases r with
    | panic => exact ⟨h1, by simp, fun h => absurd hl h⟩
    | err e => exact ⟨h1, by simp, fun h => absurd hl h⟩
    | ok u => exact ⟨h1, fun _ _ => h2 rfl, fun h => absurd hl h⟩
  · rw [if_neg hl]
    exact ⟨k, fun _ _ => hl, fun _ => rfl⟩

theorem Kept.fields {c : TsClient} (k : Kept c) (idx : Resolver) (fuel : Nat) :
    Kept (c.fields idx fuel).2 ∧ (c.fields idx fuel).2.headers = some (c.fields idx fuel).1 := by
  unfold TsClient.fields
  cases h : c.headers with
  | some hs => exact ⟨k, h⟩
  | none =>
    obtain ⟨h1, h2, _⟩ := k.indexHeaders idx fuel
    refine ⟨⟨h1.tree, h1.linked, ?_⟩, rfl⟩
    intro hs hh
    simp only [Option.some.injEq] at hh
    exact h2 hs hh

/-- What a query keeps: the client afterwards is the one before, touched, or that after `fields`. -/
theorem query_after {β : Type} (c : TsClient) (db : TsDb) (fuel : Nat) (select : Bytes → Res β) (q : TsQuery) :
    (c.query db fuel select q).2 = c ∨ (c.query db fuel select q).2 = c.touch db.idx ∨
      (c.query db fuel select q).2 = ((c.touch db.idx).fields db.idx fuel).2 := by
  unfold TsClient.query
  split
  · exact .inl rfl
  · have h2 : (c.metadata db.idx).2 = c.touch db.idx := rfl
    obtain ⟨x, hx⟩ : ∃ x, x = c.metadata db.idx := ⟨_, rfl⟩
    rw [← hx] at h2 ⊢
    obtain ⟨r, c'⟩ := x
    simp only at h2; subst h2
    cases r with
    | panic => exact .inr (.inl rfl)
    | err e => exact .inr (.inl rfl)
    | ok fm =>
      refine .inr (.inr ?_)
      simp only
      obtain ⟨y, hy⟩ : ∃ y, y = (c.touch db.idx).fields db.idx fuel := ⟨_, rfl⟩
      rw [← hy]
      obtain ⟨r, c''⟩ := y
      cases r <;> rfl

theorem Kept.session {P : TsDb → Prop} {fuel : Nat} {c0 c : TsClient} (k : Kept c0) (s : Session P fuel c0 c) : Kept c := by
  induction s with
  | start => exact k
  | metadata db h _ ih => exact ih.touch db.idx
  | seek db name ft h _ ih => exact ih.touch db.idx
  | headers db h _ ih => exact (ih.indexHeaders db.idx fuel).1
  | fields db h _ ih => exact (ih.fields db.idx fuel).1
  | query db select q h _ ih =>
    rcases query_after _ db fuel select q with e | e | e <;> rw [e]
    · exact ih
    · exact ih.touch db.idx
    · exact ((ih.touch db.idx).fields db.idx fuel).1

theorem fields_kept {c : TsClient} {h : Res (List (Bytes × List Nat))} (hh : c.headers = some h) (idx : Resolver) (fuel : Nat) :
    c.fields idx fuel = (h, c) := by
  unfold TsClient.fields
  rw [hh]

theorem indexHeaders_headers (c : TsClient) (idx : Resolver) (fuel : Nat) : (c.indexHeaders idx fuel).2.headers = c.headers := by
  have hf : (c.fetchMetaPages idx fuel).2.headers = c.headers := by
    unfold TsClient.fetchMetaPages
    split
    · rfl
    · rfl
    · rfl
    · split <;> rfl
  unfold TsClient.indexHeaders
  split
  · rename_i hx
    split at hx
    · rw [hx] at hf; exact hf
    · cases hx
  · rename_i hx
    split at hx
    · rw [hx] at hf; exact hf
    · cases hx
  · rename_i hx
    split at hx
    · rw [hx] at hf; exact hf
    · cases hx; rfl

theorem Session.headers_kept {P : TsDb → Prop} {fuel : Nat} {c0 c : TsClient} {h : Res (List (Bytes × List Nat))} (hh : c0.headers = some h)
    (s : Session P fuel c0 c) : c.headers = some h := by
  induction s with
  | start => exact hh
  | metadata db _ _ ih => exact ih
  | seek db name ft _ _ ih => exact ih
  | headers db _ _ ih => rw [indexHeaders_headers]; exact ih
  | fields db _ _ ih => rw [fields_kept ih]; exact ih
  | query db select q _ _ ih =>
    rename_i c' _ _ _
    rcases query_after c' db fuel select q with e | e | e <;> rw [e]
    · exact ih
    · exact ih
    · have : (c'.touch db.idx).headers = some h := ih
      rw [fields_kept this]; exact this

theorem fields_headers (c : TsClient) (idx : Resolver) (fuel : Nat) : (c.fields idx fuel).2.headers = some (c.fields idx fuel).1 := by
  unfold TsClient.fields
  cases h : c.headers with
  | some hs => exact h
  | none => rfl

/-- The rows of a query whose headers are kept, or its failure. -/
theorem query_failed {β : Type} {c : TsClient} {h : Res (List (Bytes × List Nat))} (hh : c.headers = some h) (hf : ∀ a, h ≠ .ok a)
    (db : TsDb) (fuel : Nat) (select : Bytes → Res β) (q : TsQuery) :
    (c.query db fuel select q).1.rows = [] ∧ (c.query db fuel select q).1.fail ≠ none := by
  unfold TsClient.query
  split
  · exact ⟨rfl, by simp⟩
  · have h2 : (c.metadata db.idx).2 = c.touch db.idx := rfl
    obtain ⟨x, hx⟩ : ∃ x, x = c.metadata db.idx := ⟨_, rfl⟩
    rw [← hx] at h2 ⊢
    obtain ⟨r, c'⟩ := x
    simp only at h2; subst h2
    cases r with
    | panic => exact ⟨rfl, by simp⟩
    | err e => exact ⟨rfl, by simp⟩
    | ok fm =>
      have : (c.touch db.idx).headers = some h := hh
      simp only [fields_kept this]
      cases h with
      | ok a => exact absurd rfl (hf a)
      | err e => exact ⟨rfl, by simp⟩
      | panic => exact ⟨rfl, by simp⟩

/-- **C89** is violated, part two: if reading the fields fails once, in whatever state of the client (`fields` is also part of each
query), then `fields` gives this failure for ever, and every query fails without rows, whatever the server does later. -/
theorem C89_fields_violated (fuel : Nat) (c0 : TsClient) (idx : Resolver) (e : Err) (hf : (c0.fields idx fuel).1 = .err e) (c : TsClient)
    (later : Session (fun _ => True) fuel (c0.fields idx fuel).2 c) (db : TsDb) :
    (c.fields db.idx fuel).1 = .err e ∧ ∀ (β : Type) (select : Bytes → Res β) (q : TsQuery),
      (c.query db fuel select q).1.rows = [] ∧ (c.query db fuel select q).1.fail ≠ none := by
  have h0 : (c0.fields idx fuel).2.headers = some (.err e) := by rw [fields_headers, hf]
  have h := Session.headers_kept h0 later
  refine ⟨by rw [fields_kept h], ?_⟩
  intro β select q
  exact query_failed h (by simp) db fuel select q

/-- **C89**, what holds: once a client has read the fields (`fields` has succeeded), later failures leave no trace in it: after any
calls against any servers, failing or not, the client is the same as it was right after that success. -/
theorem C89_after_success_partial (fuel : Nat) (c0 : TsClient) (before : Session (fun _ => True) fuel TsClient.new c0) (idx : Resolver)
    (hs : List (Bytes × List Nat)) (ok : (c0.fields idx fuel).1 = .ok hs) (c : TsClient)
    (later : Session (fun _ => True) fuel (c0.fields idx fuel).2 c) : c = (c0.fields idx fuel).2 := by
  have k0 := Kept.new.session before
  obtain ⟨k, _⟩ := k0.fields idx fuel
  have hh : (c0.fields idx fuel).2.headers = some (.ok hs) := by rw [fields_headers, ok]
  generalize (c0.fields idx fuel).2 = c1 at k hh later
  have hl := k.headers hs hh
  have ht := k.linked hl
  induction later with
  | start => rfl
  | metadata db _ _ ih => rw [ih]; exact k.same ht db.idx
  | seek db name ft _ _ ih => rw [ih]; exact k.same ht db.idx
  | headers db _ _ ih => rw [ih]; exact (k.indexHeaders db.idx fuel).2.2 hl
  | fields db _ _ ih => rw [ih, fields_kept hh]
  | query db select q _ _ ih =>
    rw [ih]
    rcases query_after c1 db fuel select q with e | e | e <;> rw [e]
    · exact k.same ht db.idx
    · rw [k.same ht db.idx, fields_kept hh]

/-! ### C90 -/

theorem touch_kept {c : TsClient} {r : Res (List Bytes)} (h : c.tree = some ⟨tsFilePage, some r⟩) (idx : Resolver) : c.touch idx = c := by
  unfold TsClient.touch TsClient.filePage
  rw [h]
  show { c with tree := some _ } = c
  rw [show (TsMp.load idx ((some (⟨tsFilePage, some r⟩ : TsMp)).getD ⟨tsFilePage, none⟩)) = ⟨tsFilePage, some r⟩ from rfl, ← h]

theorem metadata_kept {c : TsClient} {r : Res (List Bytes)} (h : c.tree = some ⟨tsFilePage, some r⟩) (idx idx' : Resolver) :
    (c.metadata idx').1 = (c.metadata idx).1 := by
  unfold TsClient.metadata TsClient.filePage
  rw [h]; rfl

theorem indexHeaders_tree {c : TsClient} {r : Res (List Bytes)} (h : c.tree = some ⟨tsFilePage, some r⟩) (idx : Resolver) (fuel : Nat) :
    (c.indexHeaders idx fuel).2.tree = c.tree := by
  have hf : (c.fetchMetaPages idx fuel).2.tree = c.tree := by
    have ht := touch_kept h idx
    unfold TsClient.fetchMetaPages
    rw [ht]
    split
    · rfl
    · rfl
    · rfl
    · split <;> rfl
  unfold TsClient.indexHeaders
  split
  · rename_i hx
    split at hx
    · rw [hx] at hf; exact hf
    · cases hx
  · rename_i hx
    split at hx
    · rw [hx] at hf; exact hf
    · cases hx
  · rename_i hx
    split at hx
    · rw [hx] at hf; exact hf
    · cases hx; rfl

theorem fields_tree {c : TsClient} {r : Res (List Bytes)} (h : c.tree = some ⟨tsFilePage, some r⟩) (idx : Resolver) (fuel : Nat) :
    (c.fields idx fuel).2.tree = c.tree := by
  unfold TsClient.fields
  cases hh : c.headers with
  | some hs => rfl
  | none => exact indexHeaders_tree h idx fuel

theorem Session.tree_kept {P : TsDb → Prop} {fuel : Nat} {c0 c : TsClient} {r : Res (List Bytes)} (h : c0.tree = some ⟨tsFilePage, some r⟩)
    (s : Session P fuel c0 c) : c.tree = some ⟨tsFilePage, some r⟩ := by
  induction s with
  | start => exact h
  | metadata db _ _ ih => rw [show (TsClient.metadata db.idx _).2 = _ from touch_kept ih db.idx]; exact ih
  | seek db name ft _ _ ih => rw [show (TsClient.seek db.idx fuel _ name ft).2 = _ from touch_kept ih db.idx]; exact ih
  | headers db _ _ ih => rw [indexHeaders_tree ih]; exact ih
  | fields db _ _ ih => rw [fields_tree ih]; exact ih
  | query db select q _ _ ih =>
    rename_i c' _ _ _
    rcases query_after c' db fuel select q with e | e | e <;> rw [e]
    · exact ih
    · rw [touch_kept ih]; exact ih
    · rw [touch_kept ih, fields_tree ih]; exact ih

/-- After any calls the kept reply, if any, is one for the first meta page. -/
theorem Kept.some {c : TsClient} (k : Kept c) (idx : Resolver) : ∃ r, (c.touch idx).tree = some ⟨tsFilePage, some r⟩ := by
  have kt := k.touch idx
  cases h : (c.touch idx).tree with
  | none => simp [TsClient.touch] at h
  | some mp =>
    obtain ⟨h1, h2⟩ := kt.tree mp h
    obtain ⟨p, o⟩ := mp
    cases o with
    | none => exact absurd rfl h2
    | some r => simp only at h1; subst h1; exact ⟨r, rfl⟩

/-- **C90** is violated: once a client has read the file metadata (which every query does), it gives this answer for ever: what is
appended later does not change it, whatever the files then are. -/
theorem C90_metadata_violated (fuel : Nat) (c0 : TsClient) (before : Session (fun _ => True) fuel TsClient.new c0) (db0 : TsDb)
    (m : TsFileMeta) (ok : (c0.metadata db0.idx).1 = .ok m) (c : TsClient)
    (later : Session (fun _ => True) fuel (c0.metadata db0.idx).2 c) (db : TsDb) : (c.metadata db.idx).1 = .ok m := by
  obtain ⟨r, hr⟩ := (Kept.new.session before).some db0.idx
  have h2 : (c0.metadata db0.idx).2 = c0.touch db0.idx := rfl
  rw [h2] at later
  have hc := Session.tree_kept hr later
  rw [← ok]
  unfold TsClient.metadata
  have e : c.filePage = (c0.touch db0.idx).filePage := by unfold TsClient.filePage; rw [hc, hr]
  rw [e]
  rfl

/-- **C90** is violated, part two: a field that is not among the fields of the index file when a client reads them (as its first
query does) does not exist for this client for ever: every later query for it throws without rows, whatever the files then are. -/
theorem C90_new_field_violated (fuel : Nat) (c0 : TsClient) (idx : Resolver) (hs : List (Bytes × List Nat))
    (ok : (c0.fields idx fuel).1 = .ok hs) (c : TsClient) (later : Session (fun _ => True) fuel (c0.fields idx fuel).2 c) (db : TsDb)
    {β : Type} (select : Bytes → Res β) (q : TsQuery) (w : TsWhere) (ws : List TsWhere) (hq : q.where_ = w :: ws)
    (new : ∀ h ∈ hs, h.1 ≠ w.key) : (c.query db fuel select q).1.rows = [] ∧ (c.query db fuel select q).1.fail ≠ none := by
  have h0 : (c0.fields idx fuel).2.headers = some (.ok hs) := by rw [fields_headers, ok]
  have h := Session.headers_kept h0 later
  have hfind : hs.find? (fun h => h.1 == w.key) = none := by
    rw [List.find?_eq_none]
    intro x hx
    simpa using new x hx
  unfold TsClient.query
  split
  · exact ⟨rfl, by simp⟩
  · have h2 : (c.metadata db.idx).2 = c.touch db.idx := rfl
    obtain ⟨x, hx⟩ : ∃ x, x = c.metadata db.idx := ⟨_, rfl⟩
    rw [← hx] at h2 ⊢
    obtain ⟨r, c'⟩ := x
    simp only at h2; subst h2
    cases r with
    | panic => exact ⟨rfl, by simp⟩
    | err e => exact ⟨rfl, by simp⟩
    | ok fm =>
      have : (c.touch db.idx).headers = some (.ok hs) := h
      simp only [fields_kept this, hq, TsClient.clauses, TsClient.clauseTree, hfind]
      exact ⟨trivial, by simp⟩

theorem clauses_tree {β : Type} {c c' : TsClient} (h : c.tree = c'.tree) (db : TsDb) (fuel : Nat) (select : Bytes → Res β) (dir : TsDir)
    (fm : TsFileMeta) (headers : List (Bytes × List Nat)) (ws : List TsWhere) :
    c.clauses db fuel select dir fm headers ws = c'.clauses db fuel select dir fm headers ws := by
  have hf : c.filePage = c'.filePage := by unfold TsClient.filePage; rw [h]
  have ht : ∀ w, c.clauseTree db fuel fm headers w = c'.clauseTree db fuel fm headers w := by
    intro w
    unfold TsClient.clauseTree TsClient.seek
    rw [hf]
  induction ws with
  | nil => rfl
  | cons w ws ih => rw [TsClient.clauses, TsClient.clauses, ht, ih]

theorem clauses_headers {β : Type} (c : TsClient) (db : TsDb) (fuel : Nat) (select : Bytes → Res β) (dir : TsDir)
    (fm : TsFileMeta) (hs hs' : List (Bytes × List Nat)) (ws : List TsWhere)
    (h : ∀ w ∈ ws, (∃ x ∈ hs, x.1 = w.key) ↔ ∃ x ∈ hs', x.1 = w.key) :
    c.clauses db fuel select dir fm hs ws = c.clauses db fuel select dir fm hs' ws := by
  have find : ∀ (l : List (Bytes × List Nat)) (k : Bytes), (l.find? (fun h => h.1 == k)).isSome = true ↔ ∃ x ∈ l, x.1 = k := by
    intro l k; simp [List.find?_isSome]
  have ht : ∀ w ∈ ws, c.clauseTree db fuel fm hs w = c.clauseTree db fuel fm hs' w := by
    intro w hw
    have := h w hw
    rw [← find, ← find] at this
    unfold TsClient.clauseTree
    cases h1 : hs.find? (fun h => h.1 == w.key) <;> cases h2 : hs'.find? (fun h => h.1 == w.key) <;> simp_all
  induction ws with
  | nil => rfl
  | cons w ws ih =>
    rw [TsClient.clauses, TsClient.clauses, ht w (by simp), ih (fun w hw => h w (by simp [hw])) (fun w hw => ht w (by simp [hw]))]

/-- A query of a client that keeps the fields. -/
theorem query_kept {β : Type} {c : TsClient} {hs : List (Bytes × List Nat)} (hh : c.headers = some (.ok hs)) (db : TsDb) (fuel : Nat)
    (select : Bytes → Res β) (q : TsQuery) : (c.query db fuel select q).1 =
      (if q.where_.tail.any (fun x => x.key != (q.where_.headD default).key) then ⟨[], some (.msg "composite indexes not supported")⟩
        else (match (generalizing := false) (c.metadata db.idx).1 with
          | .panic => ⟨[], some (.msg "panic")⟩
          | .err e => ⟨[], some e⟩
          | .ok fm => (c.touch db.idx).clauses db fuel select q.dir fm hs q.where_)) := by
  unfold TsClient.query
  split
  · rfl
  · have h2 : (c.metadata db.idx).2 = c.touch db.idx := rfl
    obtain ⟨x, hx⟩ : ∃ x, x = c.metadata db.idx := ⟨_, rfl⟩
    rw [← hx] at h2 ⊢
    obtain ⟨r, c'⟩ := x
    simp only at h2; subst h2
    cases r with
    | panic => rfl
    | err e => rfl
    | ok fm =>
      have : (c.touch db.idx).headers = some (.ok hs) := hh
      simp only [fields_kept this]

/-- **C90**, what holds.  A client that has read the fields of an index file (served by `idx0` all that time) and then makes any calls
against any servers answers a query on the later files `db` as a new client does, if the first meta page of the index file (the 4096
bytes at 4096) is still the same and the field of the query is among the fields now if and only if it was among them then.  In
particular it sees the entries that have been inserted meanwhile, as long as no root of an index on that page has moved.  What is
missing: see `C90_metadata_violated`, `C90_new_field_violated`. -/
theorem C90_unchanged_partial (fuel : Nat) (idx0 : Resolver) (c0 : TsClient) (before : Session (fun db => db.idx = idx0) fuel TsClient.new c0)
    (hs : List (Bytes × List Nat)) (ok : (c0.fields idx0 fuel).1 = .ok hs) (c : TsClient)
    (later : Session (fun _ => True) fuel (c0.fields idx0 fuel).2 c) (db : TsDb) (same : db.idx [(4096, 8191)] = idx0 [(4096, 8191)])
    (hs' : List (Bytes × List Nat)) (now : tsIndexHeaders db.idx fuel = .ok hs') {β : Type} (select : Bytes → Res β) (q : TsQuery)
    (field : ∀ w ∈ q.where_, (∃ x ∈ hs, x.1 = w.key) ↔ ∃ x ∈ hs', x.1 = w.key) :
    AgreeRows (c.query db fuel select q).1 (db.query fuel select q) := by
  have f0 := Session.fresh before
  obtain ⟨f1, _⟩ := f0.fields
  have hh0 : (c0.fields idx0 fuel).2.headers = some (.ok hs) := by rw [fields_headers, ok]
  have hh := Session.headers_kept hh0 later
  have weaker : ∀ {c : TsClient}, Session (fun db => db.idx = idx0) fuel TsClient.new c → Session (fun _ => True) fuel TsClient.new c := by
    intro c s
    induction s with
    | start => exact .start
    | metadata db _ _ ih => exact .metadata db trivial ih
    | seek db name ft _ _ ih => exact .seek db name ft trivial ih
    | headers db _ _ ih => exact .headers db trivial ih
    | fields db _ _ ih => exact .fields db trivial ih
    | query db select q _ _ ih => exact .query db select q trivial ih
  have hc := C89_after_success_partial fuel c0 (weaker before) idx0 hs ok c later
  rw [← hc] at f1
  have f : AsNew db.idx fuel { c with linked := [], headers := none } := by
    refine ⟨?_, .inl rfl, fun h hh => by cases hh⟩
    intro mp hm
    obtain ⟨hp, hg⟩ := f1.tree mp hm
    refine ⟨hp, ?_⟩
    intro r hr
    rw [hg r hr, hp]
    exact same.symm
  have key := db.query_eq fuel select q
  rw [query_kept hh]
  split
  · rename_i h
    rw [if_pos h] at key
    exact key.symm
  · rename_i h
    rw [if_neg h, now] at key
    have hm : (c.metadata db.idx).1 = tsFileMetadata db.idx := f.metadata
    rw [hm]
    cases hfm : tsFileMetadata db.idx with
    | panic => rw [hfm] at key; exact (key.trans (AgreeRows.throw _ _)).symm
    | err e => rw [hfm] at key; exact (key.trans (AgreeRows.throw _ _)).symm
    | ok fm =>
      rw [hfm] at key
      simp only
      rw [clauses_headers _ _ _ _ _ _ hs hs' q.where_ field]
      have e := clauses_tree (c := c.touch db.idx) (c' := TsClient.touch db.idx { c with linked := [], headers := none }) rfl db fuel select q.dir fm hs' q.where_
      rw [e]
      exact (f.touch.clauses select q.dir fm hs' q.where_).trans key.symm

/-! ### A concrete file -/

/-- One slot of a meta page: a root pointer, the metadata, and zeros. -/
def sSlot (root : Bytes) (m : Bytes) : Bytes := root ++ (UInt8.ofNat m.length :: m) ++ List.replicate (252 - m.length) 0

/-- A meta page with the file metadata (version 1, JSONL, nothing read) and one string field with the name `name`. -/
def sPage (name : Bytes) : Bytes :=
  List.replicate 8 255 ++ [2] ++ sSlot (List.replicate 12 0) ([1, 0] ++ List.replicate 9 0) ++
    sSlot (List.replicate 12 0) ([0, 0, 0, 0, UInt8.ofNat name.length, 0] ++ name ++ [0])

/-- A server of that page. -/
def sServer (name : Bytes) : Resolver := fun rs => .ok (rs.map (fun _ => sPage name))
/-- A server that fails. -/
def sDown : Resolver := fun _ => .err .io

theorem sFields : (TsClient.new.fields (sServer [97]) 5).1 = .ok [([97], [0])] ∧
    (TsClient.new.metadata (sServer [97])).1 = .ok ⟨1, 0, 0, 0⟩ ∧
    tsIndexHeaders (sServer [97, 98]) 5 = .ok [([97, 98], [0])] ∧
    tsIndexHeaders (sServer [97]) 5 = .ok [([97], [0])] := by decide +kernel

/-- Non-vacuity of C88: a client that has read metadata, fields and slots still gives the fields. -/
example : Session (fun db => db.idx = sServer [97]) 5 TsClient.new
    (((TsClient.new.metadata (sServer [97])).2.fields (sServer [97]) 5).2.seek (sServer [97]) 5 [97] 0).2 ∧
    Agree (.ok [([97], [0])]) (((((TsClient.new.metadata (sServer [97])).2.fields (sServer [97]) 5).2.seek (sServer [97]) 5 [97] 0).2).fields (sServer [97]) 5).1 := by
  have s : Session (fun db => db.idx = sServer [97]) 5 TsClient.new
      (((TsClient.new.metadata (sServer [97])).2.fields (sServer [97]) 5).2.seek (sServer [97]) 5 [97] 0).2 :=
    .seek ⟨sServer [97], sDown, fun _ _ b => .ok b⟩ [97] 0 rfl (.fields ⟨sServer [97], sDown, fun _ _ b => .ok b⟩ rfl
      (.metadata ⟨sServer [97], sDown, fun _ _ b => .ok b⟩ rfl .start))
  refine ⟨s, ?_⟩
  have h := (C88_transparent _ _ _ s).2.2.1.symm
  rwa [sFields.2.2.2] at h

/-- Non-vacuity of `C89_first_violated`: the server is down during the first call, and up again later; a new client would then read
the fields, this one does not. -/
example : (∀ hs, ((TsClient.new.metadata sDown).2.fields (sServer [97]) 5).1 ≠ .ok hs) ∧
    (TsClient.new.fields (sServer [97]) 5).1 = .ok [([97], [0])] :=
  ⟨(C89_first_violated 5 ⟨sDown, sDown, fun _ _ b => .ok b⟩ (by simp [sDown]) _ _ (.inl rfl) .start ⟨sServer [97], sDown, fun _ _ b => .ok b⟩).2.2.1,
    sFields.1⟩

/-- Non-vacuity of `C89_fields_violated`: the same with a first call of `fields`. -/
example : ((TsClient.new.fields sDown 5).2.fields (sServer [97]) 5).1 = .err .io :=
  (C89_fields_violated 5 TsClient.new sDown .io (by decide +kernel) _ .start ⟨sServer [97], sDown, fun _ _ b => .ok b⟩).1

/-- Non-vacuity of `C89_after_success_partial`: a failure after that. -/
example : ((TsClient.new.fields (sServer [97]) 5).2.metadata sDown).2 = (TsClient.new.fields (sServer [97]) 5).2 :=
  C89_after_success_partial 5 TsClient.new .start (sServer [97]) _ sFields.1 _ (.metadata ⟨sDown, sDown, fun _ _ b => .ok b⟩ trivial .start)

/-- Non-vacuity of `C90_metadata_violated`, with a server that is down. -/
example : ((TsClient.new.metadata (sServer [97])).2.metadata sDown).1 = .ok ⟨1, 0, 0, 0⟩ :=
  C90_metadata_violated 5 TsClient.new .start ⟨sServer [97], sDown, fun _ _ b => .ok b⟩ _ sFields.2.1 _ .start ⟨sDown, sDown, fun _ _ b => .ok b⟩

/-- Non-vacuity of `C90_new_field_violated`: the file now has the field `ab`; a new client knows it. -/
example : tsIndexHeaders (sServer [97, 98]) 5 = .ok [([97, 98], [0])] ∧
    ((TsClient.new.fields (sServer [97]) 5).2.query ⟨sServer [97, 98], sDown, fun _ _ b => .ok b⟩ 5 (fun b => .ok b)
      ⟨[⟨[97, 98], .eq, .str [99]⟩], none, none, none⟩).1.fail ≠ none :=
  ⟨sFields.2.2.1, (C90_new_field_violated 5 TsClient.new (sServer [97]) _ sFields.1 _ .start _ _ _ _ [] rfl (by simp)).2⟩

/-- Non-vacuity of `C90_unchanged_partial`: the page is the same, the other pages are gone. -/
example : AgreeRows ((TsClient.new.fields (sServer [97]) 5).2.query ⟨fun rs => if rs = [(4096, 8191)] then sServer [97] rs else .err .io, sDown, fun _ _ b => .ok b⟩ 5
      (fun b => Res.ok b) ⟨[⟨[97], .eq, .str [99]⟩], none, none, none⟩).1
    (TsDb.query ⟨fun rs => if rs = [(4096, 8191)] then sServer [97] rs else .err .io, sDown, fun _ _ b => .ok b⟩ 5 (fun b => Res.ok b)
      ⟨[⟨[97], .eq, .str [99]⟩], none, none, none⟩) :=
  C90_unchanged_partial 5 (sServer [97]) TsClient.new .start _ sFields.1 _ .start _ (by simp) [([97], [0])] (by decide +kernel) _ _
    (by simp)

end Appendable
