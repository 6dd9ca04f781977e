import Verif.Lemmas.TsNode
import Verif.Lemmas.TsOrder
import Verif.Lemmas.Iter2
/-! The client's iterator moves as the Go iterator does. -/
namespace Appendable
open Spec Tree

theorem mem_zip_snd {n : Node} (h : LeafShape n) {p : MemPtr} (hp : p ∈ n.leafPtrs) : ∃ e ∈ n.keys.zip n.leafPtrs, e.2 = p := by
  have : (n.keys.zip n.leafPtrs).map Prod.snd = n.leafPtrs := List.map_snd_zip (by rw [h.1]; omega)
  rw [← this] at hp
  obtain ⟨e, he, h1⟩ := List.mem_map.1 hp
  exact ⟨e, he, h1⟩

/-! ### Reading -/

/-- The client's tree object `tt` looks at the tree with configuration `cfg` in the file `B`, whose entries `es` it can
read. -/
structure TsView (tt : TsTree) (cfg : Cfg) (B : Bytes) (es : List Entry) : Prop where
  idx : Faithful tt.idx B
  dat : Faithful tt.dat cfg.data
  width : tt.width = cfg.width.toNat
  len : B.length ≤ 2 ^ 31
  ents : ∀ e ∈ es, Readable tt.parse cfg e.1 ∧ SmallPtr e.2

theorem TsView.sub {tt cfg B es es'} (h : TsView tt cfg B es) (hs : ∀ e ∈ es', e ∈ es) : TsView tt cfg B es' :=
  ⟨h.idx, h.dat, h.width, h.len, fun e he => h.ents e (hs e he)⟩

theorem Spec.Faithful.one {r : Resolver} {file : Bytes} (h : Faithful r file) {a b : Int} (h0 : 0 ≤ a) (h1 : a < b)
    (h2 : a < file.length) : r.one a b = .ok (slice file a.toNat (b + 1 - a).toNat) := by
  unfold Resolver.one
  rw [h [(a, b)] (by intro x hx; simp at hx; subst hx; exact ⟨h0, h1, h2⟩)]
  rfl

theorem readNode_view {tt : TsTree} {cfg : Cfg} {B : Bytes} {es : List Entry} (hv : TsView tt cfg B es)
    {off : UInt64} {n : Node} (hn : NodeAt cfg B off n) (hk : ∀ k ∈ n.keys, Readable tt.parse cfg k)
    (hl : ∀ p ∈ n.leafPtrs, SmallPtr p) (hi : ∀ p ∈ n.intPtrs, p.toNat < 2 ^ 31) (l : Int) :
    tt.readNode (some ⟨off.toNat, l⟩) = .ok n.ts := by
  have h1 := hn.inside
  have e : ((off.toNat : Int) + 4096 - 1 + 1 - (off.toNat : Int)).toNat = pageSize := by unfold pageSize; omega
  have h2 : (off.toNat : Int) < B.length := by unfold pageSize at h1; omega
  have h3 := hv.idx.one (a := (off.toNat : Int)) (b := (off.toNat : Int) + 4096 - 1) (by omega) (by omega) h2
  rw [e, Int.toNat_natCast] at h3
  unfold TsTree.readNode
  simp only
  rw [h3]
  simp only [Res.bind_ok]
  change tsUnmarshal _ _ _ (pageAt B off.toNat) = _
  obtain ⟨rest, hr⟩ := hn.stored
  rw [hr, hv.width]
  exact tsUnmarshal_content hv.dat n hn.ok hk hl hi rest

theorem Fam.mem {cfg B h ptrs L} (hL : Fam cfg B h ptrs L) {p : UInt64} (hp : p ∈ ptrs) :
    ∃ (c : Nat) (e : List Entry) (lo hi : Option RV) (ps : List Nat), ptrs[c]? = some p ∧ L[c]? = some e ∧ Rep cfg B h p lo hi e ps ∧ ∀ x ∈ e, x ∈ L.flatten := by
  obtain ⟨c, hc, rfl⟩ := List.mem_iff_getElem.1 hp
  have hcL : c < L.length := by rw [hL.1]; exact hc
  obtain ⟨lo, hi, ps, hr⟩ := hL.2 c _ _ (List.getElem?_eq_getElem hc) (List.getElem?_eq_getElem hcL)
  exact ⟨c, L[c], lo, hi, ps, List.getElem?_eq_getElem hc, List.getElem?_eq_getElem hcL, hr,
    fun x hx => List.mem_flatten.2 ⟨_, List.getElem_mem hcL, hx⟩⟩

/-- The root node of any subtree is read right. -/
theorem Rep.tsRead {tt cfg B es h off lo hi es' ps n} (hv : TsView tt cfg B es) (hr : Rep cfg B h off lo hi es' ps)
    (hs : ∀ e ∈ es', e ∈ es) (hn : NodeAt cfg B off n) (l : Int) : tt.readNode (some ⟨off.toNat, l⟩) = .ok n.ts := by
  have hk : ∀ k ∈ n.keys, Readable tt.parse cfg k := by
    intro k hk
    obtain ⟨e, he, rfl⟩ := hr.nodeKeys hn k hk
    exact (hv.ents e (hs e he)).1
  cases h with
  | zero =>
    obtain ⟨hsh, rfl⟩ := hr.leafEntries hn
    refine readNode_view hv hn hk ?_ (by simp [hsh.2]) l
    intro p hp
    obtain ⟨e, he, rfl⟩ := mem_zip_snd hsh hp
    exact (hv.ents e (hs e he)).2
  | succ h =>
    obtain ⟨hsh, L, hL, rfl⟩ := hr.family hn
    refine readNode_view hv hn hk (by simp [hsh.2]) ?_ l
    intro p hp
    obtain ⟨c, e, lo, hi, ps, _, _, hr', _⟩ := hL.mem hp
    obtain ⟨n', hn'⟩ := hr'.node
    have := hn'.inside
    have := hv.len
    unfold pageSize at *
    omega

/-- Everything below the node can be read by the client. -/
def TsOK (tt : TsTree) (cfg : Cfg) (B : Bytes) : Nat → Node → Prop
  | 0, n => LeafShape n ∧ 0 < n.keys.length
  | h + 1, n => (InternalShape n ∧ 0 < n.keys.length) ∧ ∀ p ∈ n.intPtrs, ∃ c, NodeAt cfg B p c ∧
      (∀ l, tt.readNode (some ⟨p.toNat, l⟩) = .ok c.ts) ∧ TsOK tt cfg B h c

theorem Rep.tsOK {tt cfg B es h off lo hi es' ps n} (hv : TsView tt cfg B es) (hr : Rep cfg B h off lo hi es' ps)
    (hs : ∀ e ∈ es', e ∈ es) (hn : NodeAt cfg B off n) : TsOK tt cfg B h n := by
  induction h generalizing off lo hi es' ps n with
  | zero =>
    obtain ⟨hsh, rfl⟩ := hr.leafEntries hn
    exact ⟨hsh, hn.ok.1⟩
  | succ h ih =>
    obtain ⟨hsh, L, hL, rfl⟩ := hr.family hn
    refine ⟨⟨hsh, hn.ok.1⟩, fun p hp => ?_⟩
    obtain ⟨c, e, lo, hi, ps, _, _, hr', hm⟩ := hL.mem hp
    obtain ⟨n', hn'⟩ := hr'.node
    have hs' : ∀ x ∈ e, x ∈ es := fun x hx => hs x (hm x hx)
    exact ⟨n', hn', fun l => hr'.tsRead hv hs' hn' l, ih hr' hs' hn'⟩

/-! ### Simulation -/

def TRec.ts (r : TRec) : TsRec := ⟨r.node.ts, r.index⟩

theorem Node.ts_numPointers (n : Node) : n.ts.numPointers = n.numPointers := by
  unfold TsNode.numPointers Node.numPointers Node.ts; simp

theorem Node.ts_leaf (n : Node) : n.ts.leaf = n.leaf := by
  unfold TsNode.leaf Node.leaf Node.ts; simp

theorem Node.ts_pointer (n : Node) (i : Nat) : n.ts.pointer (i : Int) = (n.pointer i).map MemPtr.ts := by
  unfold TsNode.pointer Node.pointer
  rw [if_neg (by omega), Node.ts_leaf]
  unfold Node.ts
  simp only [Int.toNat_natCast, List.getElem?_map]
  split
  · rfl
  · cases n.intPtrs[i]? <;> simp [MemPtr.ts]

/-- Records from level `h` on, leaf first. -/
def RecsOK (tt : TsTree) (cfg : Cfg) (B : Bytes) : Nat → List TRec → Prop
  | _, [] => True
  | h, r :: rs => TsOK tt cfg B h r.node ∧ RecsOK tt cfg B (h + 1) rs

theorem incr_sim {t : Tree} {tt : TsTree} {delta : Int} : ∀ (rs : List TRec) (h : Nat) (s : PF),
    RecsOK tt t.cfg s.file.bytes h rs →
    ∃ b rs' q, t.incr delta rs s = (.ok (b, rs', none), s.upd s.file.bytes q) ∧
      tt.incr delta (rs.map TRec.ts) = .ok (b, rs'.map TRec.ts) ∧
      (b = true → RecsOK tt t.cfg s.file.bytes h rs' ∧ ∃ r rest, rs' = r :: rest ∧ 0 ≤ r.index ∧ r.index < r.node.numPointers) := by
  intro rs
  induction rs with
  | nil => intro h s _; exact ⟨false, [], s.file.pos, rfl, rfl, by simp⟩
  | cons r rs ih =>
    intro h s hok
    obtain ⟨hn, hrs⟩ := hok
    by_cases hroll : r.index + delta < 0 ∨ r.index + delta ≥ r.node.numPointers
    · obtain ⟨b, rs', q, h1, h2, h3⟩ := ih (h + 1) s hrs
      have htroll : (r.ts.index + delta < 0 ∨ r.ts.index + delta ≥ r.ts.node.numPointers) := by
        simpa [TRec.ts, Node.ts_numPointers] using hroll
      cases b with
      | false =>
        refine ⟨false, _, q, incr_roll_false hroll h1, ?_, by simp⟩
        simp only [List.map_cons]
        rw [TsTree.incr]
        simp only
        rw [if_pos htroll, h2]
        rfl
      | true =>
        obtain ⟨hok', p, rest, rfl, hp0, hp1⟩ := h3 rfl
        obtain ⟨hpn, hprest⟩ := hok'
        obtain ⟨⟨hsh, hk0⟩, hkids⟩ := hpn
        obtain ⟨c, hc⟩ : ∃ c : Nat, p.index = c := ⟨p.index.toNat, by omega⟩
        rw [numPointers_internal hsh] at hp1
        have hcl : c < p.node.intPtrs.length := by omega
        have hget : p.node.intPtrs[c]? = some p.node.intPtrs[c] := List.getElem?_eq_getElem hcl
        obtain ⟨n, hn', hread, hnok⟩ := hkids _ (List.getElem_mem hcl)
        have hptr := pointer_internal hsh hget
        refine ⟨true, _, _, incr_roll_true hroll h1 hc hptr hn', ?_, fun _ => ⟨⟨hnok, ⟨⟨⟨hsh, hk0⟩, hkids⟩, hprest⟩⟩, _, _, rfl, ?_⟩⟩
        · simp only [List.map_cons]
          rw [TsTree.incr]
          simp only
          rw [if_pos htroll, h2]
          simp only [Res.bind_ok, Bool.not_true, Bool.false_eq_true, if_false, List.map_cons]
          have : p.ts.node.pointer p.ts.index = some ⟨(p.node.intPtrs[c].toNat : Int), 0⟩ := by
            show p.node.ts.pointer p.index = _
            rw [hc, Node.ts_pointer, hptr]; rfl
          rw [this, hread 0]
          simp only [Res.bind_ok, Res.pure_eq, TRec.ts, Node.ts_numPointers]
        · have hnp : 0 < n.numPointers := by
            unfold Node.numPointers
            have := hn'.ok.1
            rcases hn'.ok.2.2.1 with hs' | hs' <;> have := hs'.1 <;> omega
          simp only
          split <;> omega
    · refine ⟨true, _, s.file.pos, incr_stay (by omega) (by omega), ?_, fun _ => ⟨⟨hn, hrs⟩, _, _, rfl, by simp only; omega, by simp only; omega⟩⟩
      simp only [List.map_cons]
      rw [TsTree.incr]
      simp only
      rw [if_neg (by simpa [TRec.ts, Node.ts_numPointers] using hroll)]
      rfl

/-- `traverse` in both languages. -/
theorem PathTo.sim {tt cfg B es key h off path lo hi es' ps n} (hv : TsView tt cfg B es)
    (hp : PathTo cfg B key h off path) (hr : Rep cfg B h off lo hi es' ps) (hs : ∀ e ∈ es', e ∈ es)
    (hlo : GeB lo key) (hhi : LtB key hi) (hn : NodeAt cfg B off n) :
    (∀ rest, RecsOK tt cfg B (h + 1) rest → RecsOK tt cfg B 0 (path ++ rest)) ∧
    ∀ fuel, h < fuel → tt.traverse key.ts fuel n.ts = .ok (path.map TRec.ts) := by
  induction hp generalizing lo hi es' ps n with
  | @leaf off n' l hn' hl hso =>
    have heq := hn.unique hn'
    subst heq
    obtain ⟨hsh, rfl⟩ := hr.leafEntries hn
    refine ⟨fun rest h => ⟨⟨hsh, hn.ok.1⟩, h⟩, fun fuel hf => ?_⟩
    obtain ⟨fuel, rfl⟩ : ∃ f, fuel = f + 1 := ⟨fuel - 1, by omega⟩
    rw [TsTree.traverse]
    have : n.ts.keys = n.keys.map RV.ts := rfl
    rw [this, tsBinarySearch_eq, bsearch_spec hso key]
    simp only [Node.ts_leaf, hl, if_true]
    rfl
  | @step h off n' l p path hn' hl hidx tp ih =>
    have heq := hn.unique hn'
    subst heq
    have hok := hr.tsOK hv hs hn
    obtain ⟨n', qs, hn2, rfl, hm⟩ := rep_iff.1 hr
    have heq := hn.unique hn2
    subst heq
    have hm' : MemRep cfg (SubRep cfg B (h + 1)) false n lo hi es' qs := hm
    have hso := (hm'.good (fun _ => goodR_sub _ _ _) hn.ok.1).2
    have hfam := hr.family hn
    obtain ⟨hsh, hk⟩ := hm'.2.1 rfl
    obtain ⟨ks1, ks2, ptrs1, q, ptrs2, lo', hi', es1, es2, es3, ps1, ps2, ps3, a1, a2, a3, a4, a5, a6, a7, a8,
        a9, a10, a11, a12, a13⟩ := hk.locate (goodR_sub cfg B (h + 1)) key hlo hhi
    have hpq : p = q := by
      have hidx' := hidx
      rw [a2, ← a5, ← a6] at hidx'
      simp at hidx'
      exact hidx'.symm
    subst hpq
    obtain ⟨nc, hnc⟩ := Rep.node (h := h) a8
    have hsub : ∀ e ∈ es2, e ∈ es := fun e he => hs e (by rw [a3]; simp [he])
    obtain ⟨i1, i2⟩ := ih a8 hsub a10 a11 hnc
    refine ⟨fun rest hrest => ?_, fun fuel hf => ?_⟩
    · rw [List.append_assoc]
      exact i1 _ ⟨hok, hrest⟩
    · obtain ⟨fuel, rfl⟩ : ∃ f, fuel = f + 1 := ⟨fuel - 1, by omega⟩
      rw [TsTree.traverse]
      have : n.ts.keys = n.keys.map RV.ts := rfl
      rw [this, tsBinarySearch_eq, bsearch_spec hso key]
      simp only [Node.ts_leaf, hl, Bool.false_eq_true, if_false]
      have hci : (if (decide (key ∈ n.keys)) = true then countLt n.keys key + 1 else countLt n.keys key)
          = childIdx n.keys key := by
        unfold childIdx; by_cases hmem : key ∈ n.keys <;> simp [hmem]
      rw [hci, Node.ts_pointer, pointer_internal hsh hidx]
      simp only [Option.map_some]
      have := Rep.tsRead hv (h := h) a8 hsub hnc 0
      simp only [MemPtr.ts, UInt32.toNat_zero, Int.cast_ofNat_Int] at this ⊢
      rw [this]
      simp only [Res.bind_ok]
      rw [i2 fuel (by omega)]
      simp only [Res.bind_ok, Res.pure_eq, List.map_append, List.map_cons, List.map_nil, TRec.ts]

end Appendable
