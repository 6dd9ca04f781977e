import Verif.Lemmas.TsSim
/-! Where a search from a key that is not stored ends behind the last entry of a leaf. -/
namespace Appendable
open Spec Tree

theorem Kids.entries_of {R : UInt64 → Option RV → Option RV → List Entry → List Nat → Prop} {lo ks ptrs hi es ps}
    (h : Kids R lo ks ptrs hi es ps) : ∀ p ∈ ptrs, ∃ lo' hi' es' ps', R p lo' hi' es' ps' ∧ ∀ e ∈ es', e ∈ es := by
  induction h with
  | one h =>
    intro p hp
    rw [List.mem_singleton] at hp; subst hp
    exact ⟨_, _, _, _, h, fun _ h => h⟩
  | cons h t ih =>
    intro p hp
    rcases List.mem_cons.1 hp with rfl | hp
    · exact ⟨_, _, _, _, h, fun e he => by simp [he]⟩
    · obtain ⟨lo', hi', es', ps', g1, g2⟩ := ih p hp
      exact ⟨lo', hi', es', ps', g1, fun e he => by simp [g2 e he]⟩

theorem PathTo.behind {cfg : Cfg} {B : Bytes} {key : RV} {h : Nat} {off : UInt64} {path : List TRec} (hp : PathTo cfg B key h off path) :
    ∀ {lo hi es ps}, Rep cfg B h off lo hi es ps → (∀ e ∈ es, KeyLt e.1 key) →
      ∃ r rest, path = r :: rest ∧ r.index = r.node.numPointers := by
  induction hp with
  | @leaf off n l hn hl hs =>
    intro lo hi es ps hr hall
    obtain ⟨hsh, rfl⟩ := hr.leafEntries hn
    refine ⟨_, [], rfl, ?_⟩
    have hc : countLt n.keys key = n.keys.length := by
      unfold countLt
      rw [List.filter_eq_self.2]
      intro k hk
      obtain ⟨e, he, rfl⟩ := mem_zip_fst hsh hk
      simpa using hall e he
    have : n.numPointers = n.keys.length := by
      unfold Node.numPointers
      rw [hsh.1, hsh.2]; simp
    simp only [hc, this]
  | @step h off n l p path hn hl hpi t ih =>
    intro lo hi es ps hr hall
    obtain ⟨n', qs, hn', rfl, hm⟩ := hr
    cases hn.unique hn'
    obtain ⟨lo', hi', es', ps', g1, g2⟩ := (hm.2.1 rfl).2.entries_of p (List.mem_of_getElem? hpi)
    obtain ⟨r, rest, rfl, h2⟩ := ih g1 (fun e he => hall e (g2 e he))
    exact ⟨r, _, rfl, h2⟩

theorem PathTo.behind_first {cfg : Cfg} {B : Bytes} {key k : RV} {ks : List RV} {h : Nat} {off : UInt64} {path : List TRec} {n : Node}
    {lo hi : Option RV} {es : List Entry} {ps : List Nat}
    (hp : PathTo cfg B key h off path) (hr : Rep cfg B h off lo hi es ps) (hn : NodeAt cfg B off n) (hl : n.leaf = false)
    (hks : n.keys = k :: ks) (hkey : KeyLt key k) (hall : ∀ x ∈ es, KeyLt x.1 k → KeyLt x.1 key) :
    ∃ r rest, path = r :: rest ∧ r.index = r.node.numPointers := by
  cases hp with
  | @leaf _ n' l hn' hl' hs =>
    have heq := hn.unique hn'; subst heq
    rw [hl] at hl'; cases hl'
  | @step h _ n' l p path hn' hl' hpi t =>
    have heq := hn.unique hn'; subst heq
    obtain ⟨n', qs, hn', rfl, hm⟩ := hr
    have heq := hn.unique hn'; subst heq
    obtain ⟨hsh, hk⟩ := hm.2.1 rfl
    have hsort : SortedKeys n.keys := (hk.good (goodR_sub cfg B (h + 1))).2.2.2.1
    generalize hpt : n.intPtrs = ptrs at hk hpi
    rw [hks] at hk hsort hpi
    rw [childIdx_cons_gt hsort hkey] at hpi
    cases hk with
    | @cons _ _ q _ _ ptrs' es1 es2 ps1 ps2 hc htl =>
      simp only [List.getElem?_cons_zero, Option.some.injEq] at hpi
      subst hpi
      obtain ⟨r, rest, rfl, h2⟩ := t.behind hc (fun x hx => hall x (by simp [hx]) ((Rep.bounds hc x hx).2 _ rfl))
      exact ⟨r, _, rfl, h2⟩

/-- In a tree of more than one page there is an entry such that every search from a key between the previous entry and
this one finds nothing. -/
theorem miss {t : Tree} {s : PF} {free es ps} (ht : TreeIs t s free es ps) (hbig : pageSize < leafBytes t.cfg.width es) :
    ∃ e ∈ es, (∃ x ∈ es, KeyLt x.1 e.1) ∧ ∀ key, KeyLt key e.1 → (∀ x ∈ es, KeyLt x.1 e.1 → KeyLt x.1 key) →
      ∃ it q, (iter key).next t s = (.ok (false, it), q) := by
  have hne : es ≠ [] := by
    intro hc; subst hc; unfold leafBytes pageSize at hbig; simp at hbig
  obtain ⟨hh, off, n, path, p, hf, hr, hn, ho, _, _, _⟩ := init_path ht hne minKey
  have h0 : hh ≠ 0 := by
    rintro rfl
    obtain ⟨hs, rfl⟩ := hr.leafEntries hn
    have hsz := hn.size_le
    rw [leafBytes_zip hs] at hbig
    omega
  obtain ⟨hh, rfl⟩ : ∃ k, hh = k + 1 := ⟨hh - 1, by omega⟩
  obtain ⟨n', qs, hn', rfl, hm⟩ := hr
  have heq := hn.unique hn'; subst heq
  obtain ⟨hsh, hk⟩ := hm.2.1 rfl
  have hlf : n.leaf = false := by
    unfold Node.leaf
    rw [hsh.2]; rfl
  cases hks : n.keys with
  | nil => exact absurd hn.ok.1 (by rw [hks]; simp)
  | cons k ks =>
    generalize hpt : n.intPtrs = ptrs at hk
    rw [hks] at hk
    cases hk with
    | @cons _ _ p _ _ ptrs' es1 es2 ps1 ps2 hc htl =>
      obtain ⟨e, he, hek⟩ := (htl.lows (fun p lo hi es ps hr => Rep.low hr)).1 k rfl
      subst hek
      obtain ⟨x, hx⟩ := List.exists_mem_of_ne_nil _ (Rep.nonempty hc)
      refine ⟨e, by simp [he], ⟨x, by simp [hx], (Rep.bounds hc x hx).2 _ rfl⟩, fun key hkey hall => ?_⟩
      obtain ⟨hh', off', m, path, p', hf', hr2, hm2, ho', _, hpath, hrun⟩ := init_path ht hne key
      rw [← ho] at ho'; subst ho'
      obtain ⟨r, rest, g1, g2⟩ := hpath.behind_first hr2 hn hlf hks hkey hall
      refine ⟨⟨key, some path, none⟩, s.upd s.file.bytes p', ?_⟩
      unfold Iter.next
      simp only [iter] at hrun ⊢
      rw [Act.bind_ok hrun]
      simp only [if_true, g1]
      rw [g2]; simp

end Appendable
