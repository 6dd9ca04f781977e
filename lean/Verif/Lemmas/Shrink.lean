import Verif.Lemmas.TsSim
import Verif.Lemmas.JobSteps
import Verif.Lemmas.IndexApi
/-! An index only depends on the parts of the data file that its entries point to. -/
namespace Appendable
open Spec Tree

theorem Kids.move {R R' : UInt64 → Option RV → Option RV → List Entry → List Nat → Prop} {P : Entry → Prop}
    (hR : ∀ p lo hi es ps, (∀ e ∈ es, P e) → R p lo hi es ps → R' p lo hi es ps) {lo ks ptrs hi es ps}
    (h : Kids R lo ks ptrs hi es ps) (hp : ∀ e ∈ es, P e) : Kids R' lo ks ptrs hi es ps := by
  induction h with
  | one h => exact .one (hR _ _ _ _ _ hp h)
  | cons h t ih => exact .cons (hR _ _ _ _ _ (fun e he => hp e (by simp [he])) h) (ih (fun e he => hp e (by simp [he])))

theorem Rep.move {cfg : Cfg} {data : Bytes} {B h off lo hi es ps} (hr : Rep cfg B h off lo hi es ps)
    (hk : ∀ e ∈ es, KeyOK { cfg with data := data } e.1) : Rep { cfg with data := data } B h off lo hi es ps := by
  induction h generalizing off lo hi es ps with
  | zero =>
    obtain ⟨n, qs, hn, rfl, hm⟩ := hr
    obtain ⟨hs, rfl, _⟩ := hm.1 rfl
    have hko : ∀ k ∈ n.keys, KeyOK { cfg with data := data } k := fun k hk' => by
      obtain ⟨e, he, rfl⟩ := mem_zip_fst hs hk'
      exact hk e he
    exact ⟨n, qs, ⟨hn.aligned, hn.pos, hn.inside, hn.small, ⟨hn.ok.1, hn.ok.2.1, hn.ok.2.2.1, hko⟩, hn.stored⟩, rfl, hm.1, hm.2.1, hko⟩
  | succ h ih =>
    obtain ⟨n, qs, hn, rfl, hm⟩ := hr
    obtain ⟨hs, hkids⟩ := hm.2.1 rfl
    have hko : ∀ k ∈ n.keys, KeyOK { cfg with data := data } k := fun k hk' => by
      obtain ⟨e, he, rfl⟩ := (hkids.lows (fun p lo hi es ps hr => hr.low)).2 k hk'
      exact hk e he
    exact ⟨n, qs, ⟨hn.aligned, hn.pos, hn.inside, hn.small, ⟨hn.ok.1, hn.ok.2.1, hn.ok.2.2.1, hko⟩, hn.stored⟩, rfl,
      ⟨(fun hl => by cases hl), fun _ => ⟨hs, hkids.move (fun p lo hi es ps hp hr => ih hr hp) hk⟩, hko⟩⟩

section
variable {data data' : Bytes} {parse : Bytes → Bytes} {s : PF} {fm : FileMeta} {is : List (LP × IndexMeta)} {c : Nat → List Entry}

theorem IndexSt.move {wd : IndexMeta → UInt16} (h : IndexIs data parse wd s fm is c)
    (hk : ∀ k p m, is[k]? = some (p, m) → ∀ e ∈ c k, KeyOK ⟨data', parse, wd m⟩ e.1) : IndexIs data' parse wd s fm is c := by
  obtain ⟨⟨free, ps, cnt, E, P, h1, h2⟩, h3⟩ := h
  refine ⟨⟨free, ps, cnt, E, P, ⟨h1.slots, ?_, h1.out, h1.used⟩, h2⟩, h3⟩
  obtain ⟨f1, f2, f3, f4, f5⟩ := h1.forest
  have hmap : idxTrees data' parse wd (places ps cnt).tail (is.map (·.2)) =
      (idxTrees data parse wd (places ps cnt).tail (is.map (·.2))).map (fun t => { t with cfg := { t.cfg with data := data' } }) := by
    unfold idxTrees
    rw [List.map_zipWith]
  rw [hmap]
  refine ⟨f1, f2, ?_, ?_, ?_⟩
  · intro k t hit
    rw [List.getElem?_map] at hit
    obtain ⟨u, hu, rfl⟩ := Option.map_eq_some_iff.1 hit
    obtain ⟨a1, a2, a3⟩ := f3 k u hu
    obtain ⟨x, m, _, hm, rfl⟩ := idxTrees_getElem? hu
    rw [List.getElem?_map] at hm
    obtain ⟨⟨p, m'⟩, hm1, rfl⟩ := Option.map_eq_some_iff.1 hm
    refine ⟨⟨a1.valid, a1.budget, a1.slot, a1.slotLive, a1.slotOut, a1.nodup, a1.live, ?_⟩, a2, a3⟩
    rcases a1.root with h0 | ⟨h0, j, hr, hbig, hden⟩
    · exact .inl h0
    · refine .inr ⟨h0, j, hr.move (fun e he => hk k p m' hm1 e (a3.mem_iff.1 he)), hbig, hr.denseBelow_map (fun _ _ _ hn hkk => hn.move (fun x hx => ?_)) hden⟩
      obtain ⟨e, he, rfl⟩ := hkk x hx
      exact hk k p m' hm1 e (a3.mem_iff.1 he)
  · intro i j t u hij hit hju
    rw [List.getElem?_map] at hit hju
    obtain ⟨t', ht', rfl⟩ := Option.map_eq_some_iff.1 hit
    obtain ⟨u', hu', rfl⟩ := Option.map_eq_some_iff.1 hju
    exact f4 i j t' u' hij ht' hu'
  · intro i hi; exact f5 i (by simpa using hi)

variable {js : List Job} {wd : UInt16 → UInt16}

/-- The same entries with another data file. -/
theorem JIs.move (h : JIs data parse wd s fm is c js)
    (hk : ∀ n t, ∀ e ∈ entriesOf js n t, KeyOK ⟨data', parse, wd (determineTypeByte t)⟩ e.1) : JIs data' parse wd s fm is c js := by
  refine ⟨h.idx.move (fun k p m hm e he => ?_), h.done⟩
  obtain ⟨d1, d2⟩ := h.done.each k p m hm
  have := hk m.fieldName m.fieldType e (d2.mem_iff.1 he)
  rw [d1]
  exact this

theorem JIs.keysOK (h : JIs data parse wd s fm is c js) :
    ∀ n t, ∀ e ∈ entriesOf js n t, KeyOK ⟨data, parse, wd (determineTypeByte t)⟩ e.1 := by
  intro n t e he
  by_cases hm : (n, t) ∈ js.map (fun j => (j.name, j.ty))
  · obtain ⟨k, p, hk, hp⟩ := h.done.at hm
    obtain ⟨free, ps, cnt, E, P, h1, h2, h3⟩ := h.idx.treeAt
    obtain ⟨ti, _, tp⟩ := h1.forest.tree k _ (h3 k p _ hk)
    have he' : e ∈ E k := tp.mem_iff.2 (hp.mem_iff.2 he)
    rcases ti.root with ⟨_, h0, _⟩ | ⟨_, j, hr, _⟩
    · rw [h0] at he'; cases he'
    · exact hr.keyOK e he'
  · rw [entriesOf_none hm] at he; cases he

end
end Appendable
