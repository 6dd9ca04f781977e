import Verif.Lemmas.Shrink
import Verif.Lemmas.TsQuery
/-! Trees whose values are all empty: whether the values are stored or not makes no difference to the bytes.  (The CSV handler stores no values; the
metadata of its null indexes tell the client to look for values of length 0 behind the keys.) -/
namespace Appendable
open Spec Tree

/-- Another configuration in which the same nodes are on the pages of the tree. -/
theorem Rep.recode {cfg cfg' : Cfg} {B h off lo hi es ps} (hr : Rep cfg B h off lo hi es ps)
    (hN : ∀ o n, NodeAt cfg B o n → (∀ k ∈ n.keys, ∃ e ∈ es, e.1 = k) → NodeAt cfg' B o n) : Rep cfg' B h off lo hi es ps := by
  induction h generalizing off lo hi es ps with
  | zero =>
    have hk := fun n hn => hr.nodeKeys (n := n) hn
    obtain ⟨n, qs, hn, rfl, hm⟩ := hr
    have hn' := hN off n hn (hk n hn)
    exact ⟨n, qs, hn', rfl, hm.1, hm.2.1, hn'.ok.2.2.2⟩
  | succ h ih =>
    have hk := fun n hn => hr.nodeKeys (n := n) hn
    obtain ⟨n, qs, hn, rfl, hm⟩ := hr
    have hn' := hN off n hn (hk n hn)
    obtain ⟨hs, hkids⟩ := hm.2.1 rfl
    refine ⟨n, qs, hn', rfl, ⟨(fun hl => by cases hl), fun _ => ⟨hs, ?_⟩, hn'.ok.2.2.2⟩⟩
    refine hkids.move (P := fun e => e ∈ es) (fun p lo hi es' ps' hp hr' => ih hr' (fun o n' ho hkk => hN o n' ho (fun k hk' => ?_))) (fun _ h => h)
    obtain ⟨e, he, rfl⟩ := hkk k hk'
    exact ⟨e, hp e he, rfl⟩

/-- The bytes of a key without a value. -/
theorem encKey_empty {k : RV} (h : k.value = []) (w w' : UInt16) : encKey w k = encKey w' k := by
  unfold encKey
  rw [h]
  simp

theorem leafBytes_empty {es : List Entry} (h : ∀ e ∈ es, e.1.value = []) (w w' : UInt16) : leafBytes w es = leafBytes w' es := by
  unfold leafBytes
  congr 2
  exact List.map_congr_left fun e he => by rw [encKey_empty (h e he) w w']

theorem NodeAt.empty {data : Bytes} {parse : Bytes → Bytes} {B : Bytes} {off : UInt64} {n : Node} (h : NodeAt ⟨data, parse, 0⟩ B off n)
    (he : ∀ k ∈ n.keys, k.value = []) : NodeAt ⟨data, parse, 1⟩ B off n := by
  refine ⟨h.aligned, h.pos, h.inside, h.small, ⟨h.ok.1, h.ok.2.1, h.ok.2.2.1, fun k hk => ?_⟩, ?_⟩
  · unfold KeyOK
    simp [he k hk]
  · obtain ⟨rest, hr⟩ := h.stored
    refine ⟨rest, hr.trans ?_⟩
    unfold Node.content
    rw [List.map_congr_left fun k hk => encKey_empty (he k hk) 0 1]

/-- A tree of empty values, seen with a width of 1 (values of length 0 behind the keys). -/
theorem TreeIs.empty {data : Bytes} {parse : Bytes → Bytes} {pos : Nat} {s : PF} {free es ps} (h : TreeIs ⟨⟨data, parse, 0⟩, pos⟩ s free es ps)
    (he : ∀ e ∈ es, e.1.value = []) : TreeIs ⟨⟨data, parse, 1⟩, pos⟩ s free es ps := by
  refine ⟨h.valid, h.budget, h.slot, h.slotLive, h.slotOut, h.nodup, h.live, ?_⟩
  rcases h.root with h0 | ⟨h0, j, hr, hbig, hden⟩
  · exact .inl h0
  · have hN : ∀ o n, NodeAt ⟨data, parse, 0⟩ s.file.bytes o n → (∀ k ∈ n.keys, ∃ e ∈ es, e.1 = k) → NodeAt ⟨data, parse, 1⟩ s.file.bytes o n :=
      fun o n hn hk => hn.empty (fun k hk' => by obtain ⟨e, he', rfl⟩ := hk k hk'; exact he e he')
    refine .inr ⟨h0, j, hr.recode hN, fun hj => ?_, ?_⟩
    · rw [leafBytes_empty he 1 0]; exact hbig hj
    · have hm : minKeys ⟨data, parse, 0⟩ = minKeys ⟨data, parse, 1⟩ := by unfold minKeys vlen; simp
      exact hr.denseBelow_map (fun o n _ hn hk => hN o n hn hk) (hm ▸ hden)

/-- The client sees the tree as it is: with its own width, or, if all values are empty, with a width of 1 instead of 0. -/
def SeenWidth (wd : UInt16 → UInt16) (m : IndexMeta) (es : List Entry) : Prop :=
  wd m.width = m.width ∨ (wd m.width = 0 ∧ m.width = 1 ∧ ∀ e ∈ es, e.1.value = [])

variable {parse : Bytes → Bytes} {wd : UInt16 → UInt16} {data : Bytes} {s : PF} {fm : FileMeta} {is : List (LP × IndexMeta)}
  {c : Nat → List Entry} {db : TsDb} {k : Nat} {p : LP} {m : IndexMeta}

/-- The client's tree object for the index it picked. -/
theorem IndexSt.tsOf_seen (h : IndexIs data parse (fun m => wd m.width) s fm is c) (hs : Sees db data s.file.bytes) (hk : is[k]? = some (p, m))
    (hw : SeenWidth wd m (c k))
    (he : ∀ e ∈ c k, Readable (db.parse fm.format.toByte.toNat m.fieldType.toNat) ⟨data, parse, m.width⟩ e.1 ∧ SmallPtr e.2) :
    ∃ free es ps, TsOf (clientTree db fm p m) (Appendable.treeAt data parse m.width p) s free es ps ∧ es.Perm (c k) := by
  rcases hw with hw | ⟨w0, w1, hv⟩
  · exact h.tsOf hs hk hw he
  · obtain ⟨free, ps, cnt, E, P, h1, h2, h3⟩ := h.treeAt
    obtain ⟨ti, tw, tp⟩ := h1.forest.tree k _ (h3 k p m hk)
    simp only [w0] at ti
    have ti' : TreeIs (Appendable.treeAt data parse m.width p) s free (E k) (P k) := by
      rw [w1]
      exact TreeIs.empty ti (fun e hee => hv e (tp.mem_iff.1 hee))
    exact ⟨_, _, _, ⟨ti', ⟨hs.idx, hs.dat, rfl, hs.len, fun e hee => he e (tp.mem_iff.1 hee)⟩, (h.tsIndex hs.idx hk).2⟩, tp⟩

end Appendable
