import Verif.Lemmas.Insert
/-! `Insert` on a whole tree. -/
namespace Appendable
open Spec Tree

theorem MemPtr.encode_length (p : MemPtr) : p.encode.length = 12 := by simp [MemPtr.encode]

theorem MemPtr.decode_encode (p : MemPtr) : MemPtr.decode p.encode = p := by
  unfold MemPtr.decode MemPtr.encode
  have h1 := p.offset.toNat_lt
  have h2 := p.length.toNat_lt
  rw [List.take_left' (leBytes_length 8 _), List.drop_left' (leBytes_length 8 _), List.take_of_length_le (by simp),
    leNat_leBytes _ _ (by omega), leNat_leBytes _ _ (by omega)]
  simp

/-- The page of the root slot. -/
def slotPage (pos : Nat) : Nat := pos - pos % pageSize

theorem slotPage_add (pos : Nat) : slotPage pos + pos % pageSize = pos := by
  unfold slotPage; have := Nat.mod_le pos pageSize; omega

theorem readFull_ok {s : PF} {n : Nat} (hn : 0 < n) (h : s.file.pos + n ≤ s.file.bytes.length)
    (hc : s.file.pos % pageSize + n ≤ pageSize) :
    PF.readFull n s = (.ok (slice s.file.bytes s.file.pos n), s.upd s.file.bytes (s.file.pos + n)) := by
  unfold PF.readFull
  rw [Act.bind_ok (read_ok hn h hc)]
  have hl : (slice s.file.bytes s.file.pos n).length = n := slice_length h
  show (if (slice s.file.bytes s.file.pos n).length = 0 then Act.throw .eof
    else if (slice s.file.bytes s.file.pos n).length < n then Act.throw (.msg "unexpected EOF") else pure _ : Act PF Bytes) _ = _
  rw [if_neg (by omega), if_neg (by omega)]; rfl

theorem rootAt_ok {s : PF} {pos : Nat} (h : pos + 12 ≤ s.file.bytes.length) (hc : pos % pageSize + 12 ≤ pageSize) :
    rootAt pos s = (.ok (MemPtr.decode (slice s.file.bytes pos 12)), s.upd s.file.bytes (pos + 12)) := by
  unfold rootAt
  rw [Act.bind_ok (seek_ok (by omega)), Act.bind_ok (readFull_ok (s := s.upd s.file.bytes pos) (by omega) h hc)]
  rfl

theorem setRootAt_ok {s : PF} {pos : Nat} (hb : s.file.budget = none) (h : pos + 12 ≤ s.file.bytes.length)
    (hs : s.file.bytes.length < 2 ^ 63) (hc : pos % pageSize + 12 ≤ pageSize) (mp : MemPtr) :
    ∃ p, setRootAt pos mp s = (.ok (), s.upd (writeAt s.file.bytes pos mp.encode) p) := by
  unfold setRootAt
  have hl := mp.encode_length
  obtain ⟨n, p, hw⟩ := write_ok (s := s.upd s.file.bytes pos) (b := mp.encode) hb
    (by simp only [upd_pos, upd_bytes]; omega) (by simp only [upd_pos]; omega) (by simp only [upd_pos]; omega)
  refine ⟨p, ?_⟩
  rw [Act.bind_ok (seek_ok (by omega)), Act.bind_ok hw]; rfl

/-- The tree `t` in the page file `s` holds the entries `es` on the pages `ps`. -/
structure TreeIs (t : Tree) (s : PF) (free : List Nat) (es : List Entry) (ps : List Nat) : Prop where
  valid : s.Valid free
  budget : s.file.budget = none
  slot : t.rootPos % pageSize + 12 ≤ pageSize
  slotLive : Live s free (slotPage t.rootPos)
  slotOut : slotPage t.rootPos ∉ ps
  nodup : ps.Nodup
  live : ∀ p ∈ ps, Live s free p
  root : (MemPtr.decode (slice s.file.bytes t.rootPos 12) = ⟨0, 0⟩ ∧ es = [] ∧ ps = []) ∨
    ((MemPtr.decode (slice s.file.bytes t.rootPos 12)).length ≠ 0 ∧
      ∃ h, Rep t.cfg s.file.bytes h (MemPtr.decode (slice s.file.bytes t.rootPos 12)).offset none none es ps ∧
        (h ≠ 0 → pageSize < leafBytes t.cfg.width es) ∧
        DenseBelow (minKeys t.cfg) t.cfg s.file.bytes h (MemPtr.decode (slice s.file.bytes t.rootPos 12)).offset)

theorem TreeIs.slotInside {t s free es ps} (h : TreeIs t s free es ps) : t.rootPos + 12 ≤ s.file.bytes.length := by
  have h1 := h.slotLive.inside h.valid
  have h2 := slotPage_add t.rootPos
  have h3 := h.slot
  omega

/-- Everything outside of the pages `ps` and of the root slot is unchanged. -/
structure Outside (t : Tree) (s : PF) (free : List Nat) (s' : PF) (free' : List Nat) (ps : List Nat) : Prop where
  live : ∀ p, Live s free p → Live s' free' p
  same : ∀ p, Live s free p → p ∉ ps → ∀ i, i < pageSize → (p + i < t.rootPos ∨ t.rootPos + 12 ≤ p + i) →
    s'.file.bytes[p + i]? = s.file.bytes[p + i]?
  len : s.file.bytes.length ≤ s'.file.bytes.length

theorem Frame.outside {t s free s' free' ps} (h : Frame s free s' free' ps) : Outside t s free s' free' ps := by
  refine ⟨h.live, fun p hp hn i hi _ => ?_, h.len⟩
  have := congrArg (·[i]?) (h.same p hp hn)
  simp only [pageAt, slice_getElem?, hi, if_true] at this
  exact this

/-- Then writing the root slot. -/
theorem Outside.setRoot {t : Tree} {s free s' free' ps} (h : Outside t s free s' free' ps) {b : Bytes} (hb : b.length = 12)
    (hin : t.rootPos + 12 ≤ s'.file.bytes.length) (p : Nat) :
    Outside t s free (s'.upd (writeAt s'.file.bytes t.rootPos b) p) free' ps := by
  have hlen : (writeAt s'.file.bytes t.rootPos b).length = s'.file.bytes.length := by
    rw [writeAt_length (by omega)]; omega
  refine ⟨fun q hq => (h.live q hq).upd (by omega), fun q hq hn i hi hd => ?_, by simp only [upd_bytes, hlen]; exact h.len⟩
  rw [← h.same q hq hn i hi hd]
  simp only [upd_bytes]
  rw [writeAt_getElem? b (by omega)]
  rcases hd with hd | hd
  · rw [if_pos hd]
  · rw [if_neg (by omega), if_neg (by omega)]

theorem root_none {t : Tree} {s : PF} (h : t.rootPos + 12 ≤ s.file.bytes.length) (hc : t.rootPos % pageSize + 12 ≤ pageSize)
    (h0 : (MemPtr.decode (slice s.file.bytes t.rootPos 12)).length = 0) :
    t.root s = (.ok none, s.upd s.file.bytes (t.rootPos + 12)) := by
  unfold Tree.root
  rw [rootAt_ok h hc]
  simp only
  rw [if_pos h0]

theorem root_some {t : Tree} {s : PF} (h : t.rootPos + 12 ≤ s.file.bytes.length) (hc : t.rootPos % pageSize + 12 ≤ pageSize)
    (h0 : (MemPtr.decode (slice s.file.bytes t.rootPos 12)).length ≠ 0) {n : Node}
    (hn : NodeAt t.cfg s.file.bytes (MemPtr.decode (slice s.file.bytes t.rootPos 12)).offset n) :
    ∃ p, t.root s = (.ok (some (n, MemPtr.decode (slice s.file.bytes t.rootPos 12))), s.upd s.file.bytes p) := by
  unfold Tree.root
  rw [rootAt_ok h hc]
  simp only
  rw [if_neg h0]
  generalize MemPtr.decode (slice s.file.bytes t.rootPos 12) = mp at *
  obtain ⟨off, l⟩ := mp
  rw [Act.bind_ok (readNode_ok (t := t) (s := s.upd s.file.bytes (t.rootPos + 12)) hn l)]
  exact ⟨_, rfl⟩

theorem widthCheck {cfg : Cfg} {k : RV} (h : KeyOK cfg k) :
    ¬ (cfg.width ≠ 0 ∧ UInt16.ofNat k.value.length ≠ cfg.width - 1) := by
  rintro ⟨h1, h2⟩
  unfold KeyOK at h
  rw [if_neg h1] at h
  rw [h] at h2
  simp at h2

theorem Live.of_bytes {s s' : PF} {free : List Nat} {o : Nat} (h : Live s free o)
    (hb : s.file.bytes.length ≤ s'.file.bytes.length) : Live s' free o :=
  ⟨h.1, h.2.1, Nat.lt_of_lt_of_le h.2.2.1 hb, h.2.2.2⟩

theorem TreeIs.upd_pos {t s free es ps} (h : TreeIs t s free es ps) (p : Nat) :
    TreeIs t (s.upd s.file.bytes p) free es ps :=
  ⟨(Frame.upd_pos h.valid h.budget p []).valid, h.budget, h.slot, h.slotLive, h.slotOut, h.nodup, h.live, h.root⟩

/-- Recording a new root page. -/
theorem setRoot_tree {t : Tree} {s : PF} {free : List Nat} {es : List Entry} {ps : List Nat} {off : UInt64} {len h : Nat}
    (hv : s.Valid free) (hb : s.file.budget = none) (hslot : t.rootPos % pageSize + 12 ≤ pageSize)
    (hsl : Live s free (slotPage t.rootPos)) (hso : slotPage t.rootPos ∉ ps) (hnd : ps.Nodup)
    (hlive : ∀ p ∈ ps, Live s free p) (hr : Rep t.cfg s.file.bytes h off none none es ps)
    (hbig : h ≠ 0 → pageSize < leafBytes t.cfg.width es) (hden : DenseBelow (minKeys t.cfg) t.cfg s.file.bytes h off) (hl0 : 0 < len) (hl1 : len ≤ pageSize) :
    ∃ s' p, setRootAt t.rootPos ⟨UInt64.ofNat (u64OfInt (off.toNat : Int)), UInt32.ofNat len⟩ s = (.ok (), s') ∧
      s' = s.upd (writeAt s.file.bytes t.rootPos (MemPtr.mk off (UInt32.ofNat len)).encode) p ∧
      TreeIs t s' free es ps := by
  have hin := hsl.inside hv
  have hpa := slotPage_add t.rootPos
  rw [ofNat_u64OfInt]
  obtain ⟨p, hw⟩ := setRootAt_ok (s := s) (pos := t.rootPos) hb (by omega) hv.small hslot ⟨off, UInt32.ofNat len⟩
  have hel := (MemPtr.mk off (UInt32.ofNat len)).encode_length
  have hf := Frame.write hv hb hsl (r := t.rootPos % pageSize) (b := (MemPtr.mk off (UInt32.ofNat len)).encode) (by omega) p
  rw [hpa] at hf
  have hdec : MemPtr.decode (slice (writeAt s.file.bytes t.rootPos (MemPtr.mk off (UInt32.ofNat len)).encode) t.rootPos 12)
      = ⟨off, UInt32.ofNat len⟩ := by
    rw [← hel, slice_writeAt_same (by omega), MemPtr.decode_encode]
  refine ⟨_, p, hw, rfl, ⟨hf.1.valid, hf.1.budget, hslot, hf.1.live _ hsl, hso, hnd, fun x hx => hf.1.live _ (hlive x hx), .inr ?_⟩⟩
  simp only [upd_bytes]
  rw [hdec]
  have hoth : ∀ x ∈ ps, x ∉ [slotPage t.rootPos] := by
    intro x hx hc
    simp only [List.mem_singleton] at hc
    exact hso (hc ▸ hx)
  refine ⟨?_, h, ?_, hbig, hr.denseBelow_frame hf.1.len (fun x hx => hf.1.same x (hlive x hx) (hoth x hx)) hden⟩
  · simp only [ne_eq]
    intro hc
    have := congrArg UInt32.toNat hc
    rw [UInt32.toNat_ofNat_of_lt' (by unfold pageSize at *; show len < 2 ^ 32; omega)] at this
    simp at this; omega
  · exact hr.framed hf.1 hlive hoth

/-- The root slot lies outside of the tree's pages. -/
theorem slot_same {t : Tree} {s free s' free' ps} (hslot : t.rootPos % pageSize + 12 ≤ pageSize)
    (hsl : Live s free (slotPage t.rootPos)) (hso : slotPage t.rootPos ∉ ps) (hf : Frame s free s' free' ps) :
    slice s'.file.bytes t.rootPos 12 = slice s.file.bytes t.rootPos 12 := by
  have := hf.same _ hsl hso
  have h2 := congrArg (fun x => slice x (t.rootPos % pageSize) 12) this
  simp only [pageAt] at h2
  rw [slice_slice (by omega), slice_slice (by omega), slotPage_add] at h2
  exact h2

/-- Outcome of `Insert`. -/
inductive InsertOut (t : Tree) (key : RV) (value : MemPtr) (s : PF) (free : List Nat) (es : List Entry) (ps : List Nat) : Prop
  | dup (p : Nat) (e : Entry) (he : e ∈ es) (hk : e.1 = key)
      (run : t.insert key value s = (.err (.msg "key already exists"), s.upd s.file.bytes p))
  | ok (s' : PF) (free' : List Nat) (es' : List Entry) (ps' : List Nat) (new : ∀ e ∈ es, e.1 ≠ key)
      (run : t.insert key value s = (.ok (), s')) (rel : InsRel es key value es') (tree : TreeIs t s' free' es' ps')
      (out : Outside t s free s' free' ps) (fresh : ∀ x ∈ ps', x ∈ ps ∨ ¬ Live s free x)
      (grow : s'.file.bytes.length ≤ s.file.bytes.length + 2 * pageSize ∨ pageSize < leafBytes t.cfg.width es)
      (used : ∀ x, Live s' free' x → Live s free x ∨ x ∈ ps') (keep : ∀ x ∈ ps, x ∈ ps') (nofree : free = [] → free' = [])
  | full (s' : PF) (new : ∀ e ∈ es, e.1 ≠ key) (run : t.insert key value s = (.err .io, s'))
      (big : 2 ^ 63 ≤ 2 * s.file.bytes.length + pageSize)

theorem insert_out {t : Tree} {key : RV} {value : MemPtr} {s : PF} {free : List Nat} {es : List Entry} {ps : List Nat}
    (hw : vlen t.cfg ≤ 2016) (hk : KeyOK t.cfg key) (ht : TreeIs t s free es ps) :
    InsertOut t key value s free es ps := by
  have hin := ht.slotInside
  have hsl := ht.slot
  have hv := ht.valid
  rcases ht.root with ⟨h0, rfl, rfl⟩ | ⟨h0, h, hr, hbig, hden⟩
  · -- first entry
    have hroot := root_none hin hsl (by rw [h0])
    have hok : NodeOK t.cfg (⟨[value], [], [key]⟩ : Node) :=
      ⟨by simp, by simp, .inl ⟨rfl, rfl⟩, by intro k hk'; simp at hk'; subst hk'; exact hk⟩
    have hsz : (⟨[value], [], [key]⟩ : Node).size t.cfg.width ≤ pageSize := by
      have h1 := (keySize_bounds hk).2
      have h2 := (leafPtrSize_bounds value).2
      unfold Node.size pageSize
      simp only [List.map_cons, List.map_nil, List.sum_cons, List.sum_nil]
      omega
    have hcl := content_length t.cfg.width (⟨[value], [], [key]⟩ : Node)
    have hge := size_ge t.cfg.width (⟨[value], [], [key]⟩ : Node)
    have hv1 := (Frame.upd_pos hv ht.budget (t.rootPos + 12) []).valid
    rcases newPage_node' hv1 ht.budget hok hsz with ⟨off, s1, free1, n1, n2, n3, n4, n5, n6, n7, n8⟩ | ⟨s1, n1, n2⟩
    · have hrep : Rep t.cfg s1.file.bytes 0 off none none [(key, value)] [off.toNat] := by
        refine ⟨_, [], n6, rfl, ⟨fun _ => ⟨⟨rfl, rfl⟩, rfl, rfl, List.pairwise_singleton _ _, ?_, by simp⟩, by simp, hok.2.2.2⟩⟩
        intro k _; exact ⟨fun l hl => by simp at hl, fun l hl => by simp at hl⟩
      have hsl1 : Live s1 free1 (slotPage t.rootPos) := n2.live _ ht.slotLive
      obtain ⟨s2, p, w1, w2, w3⟩ := setRoot_tree (t := t) n2.valid n2.budget hsl hsl1
        (by simp only [List.mem_singleton]; intro hc; exact n3 (hc ▸ ht.slotLive)) (by simp)
        (by intro x hx; simp only [List.mem_singleton] at hx; exact hx ▸ n4) hrep (by simp) trivial
        (len := ((⟨[value], [], [key]⟩ : Node).content t.cfg.width).length) (by omega) (by omega)
      refine .ok s2 free1 _ _ (by simp) ?_ ⟨[], [], rfl, rfl⟩ w3 ?_ ?_ (.inl ?_) ?_ (by simp) n8
      rotate_left 4
      · intro x hx
        have hl1 := n2.len
        simp only [upd_bytes] at hl1
        have hx1 := hx.2.2.1
        rw [w2] at hx1
        simp only [upd_bytes] at hx1
        rw [writeAt_length (by omega), MemPtr.encode_length] at hx1
        rcases n7 x ⟨hx.1, hx.2.1, by omega, hx.2.2.2⟩ with rfl | h
        · exact .inr (by simp)
        · exact .inl h
      · unfold Tree.insert
        rw [if_neg (widthCheck hk), Act.bind_ok hroot]
        simp only
        rw [Act.bind_ok (by rw [marshal_nodeOK hok]; rfl), Act.bind_ok n1, w1]
      · rw [w2]
        have ho : Outside t s free s1 free1 [] := Frame.outside (t := t) ⟨n2.valid, n2.budget, n2.live, n2.same, n2.len⟩
        have := n2.len
        simp only [upd_bytes] at this
        exact ho.setRoot (MemPtr.encode_length _) (by omega) p
      · intro x hx
        simp only [List.mem_singleton] at hx
        subst hx; exact .inr n3
      · have hl1 := n2.len
        simp only [upd_bytes] at hl1 n5
        rw [w2]
        simp only [upd_bytes]
        rw [writeAt_length (by omega), MemPtr.encode_length]
        omega
    · refine .full s1 (by simp) ?_ (by simp only [upd_bytes] at n2; omega)
      unfold Tree.insert
      rw [if_neg (widthCheck hk), Act.bind_ok hroot]
      simp only
      rw [Act.bind_ok (by rw [marshal_nodeOK hok]; rfl), Act.bind_err n1]
  · generalize hmp : MemPtr.decode (slice s.file.bytes t.rootPos 12) = mp at *
    obtain ⟨n, qs, hn, hps, hm⟩ := rep_iff.1 hr
    obtain ⟨p0, hroot⟩ := root_some (t := t) hin hsl (by rw [hmp]; exact h0) (by rw [hmp]; exact hn)
    rw [hmp] at hroot
    have hfuel : h < fuel (s.upd s.file.bytes p0) := by
      have := hr.height_lt
      have := pages_count ht.nodup hr.pages
      unfold fuel; simp only [upd_bytes]; omega
    have hv0 := (Frame.upd_pos hv ht.budget p0 []).valid
    obtain ⟨off, l⟩ := mp
    obtain ⟨path, p1, htr, hpath⟩ := traverse_ok (t := t) (key := key) (s := s.upd s.file.bytes p0) (l := l)
      hr hn hfuel (fun l hl => by cases hl) (fun l hl => by cases hl)
    simp only [upd_bytes, upd_upd] at htr hpath
    have hv1 := (Frame.upd_pos hv ht.budget p1 []).valid
    obtain ⟨tr, rest0, e1, e2, e3, e4⟩ := insert_rec (t := t) (value := value) (s := s.upd s.file.bytes p1) (free := free)
      hw hk hpath hr (fun l hl => by cases hl) (fun l hl => by cases hl) hv1 ht.budget ht.nodup ht.live
    subst e1
    have hrun : t.insert key value s = (if decide (key ∈ tr.node.keys) = true then
        Act.throw (.msg "key already exists")
        else t.insertLoop { tr with node := leafInsert tr.node (countLt tr.node.keys key) key value } rest0)
          (s.upd s.file.bytes p1) := by
      unfold Tree.insert
      rw [if_neg (widthCheck hk), Act.bind_ok hroot]
      simp only
      rw [Act.bind_ok (Act.get_run _), Act.bind_ok htr]
      simp only
      rw [bsearch_spec e2]
    by_cases hmem : key ∈ tr.node.keys
    · obtain ⟨e, he, hke⟩ := e3.1 hmem
      refine .dup p1 e he hke ?_
      rw [hrun, if_pos (by simpa using hmem)]; rfl
    · have hnew : ∀ e ∈ es, e.1 ≠ key := fun e he hc => hmem (e3.2 ⟨e, he, hc⟩)
      rw [if_neg (by simpa using hmem)] at hrun
      obtain ⟨es', i1, i2⟩ := e4 hmem
      have hbound : (h + 2) * pageSize ≤ s.file.bytes.length + pageSize := by
        have h1 := hr.height_lt
        have h2 := pages_count ht.nodup hr.pages
        unfold pageSize at *; omega
      cases i2 with
      | done s' free' ps' eq frame len rep nodup live fresh fill used keep nofree =>
        have hss := slot_same (s := s.upd s.file.bytes p1) hsl ht.slotLive ht.slotOut frame
        simp only [upd_bytes] at hss
        refine .ok s' free' es' ps' hnew ?_ i1 ⟨frame.valid, frame.budget, hsl, frame.live _ ht.slotLive, ?_, nodup, live, .inr ?_⟩
          (Frame.outside (t := t) ⟨frame.valid, frame.budget, frame.live, frame.same, frame.len⟩) fresh ?_ used keep nofree
        · rw [hrun]; simpa using eq []
        · intro hc
          rcases fresh _ hc with hc | hc
          · exact ht.slotOut hc
          · exact hc ht.slotLive
        · rw [hss, hmp]; exact ⟨h0, h, rep, fun hz => Nat.lt_of_lt_of_le (hbig hz) i1.bytes, (fill _ (Nat.le_refl _) hden).1⟩
        · by_cases hz : h = 0
          · subst hz
            simp only [upd_bytes] at len
            exact .inl (by omega)
          · exact .inr (hbig hz)
      | split s' free' mid moff es1 es2 ps1 ps2 eq frame len hkey ents left right nodup live fresh over fill used keep nofree =>
        have hover : pageSize < leafBytes t.cfg.width es' := by
          by_cases hz : h = 0
          · exact over hz
          · exact Nat.lt_of_lt_of_le (hbig hz) i1.bytes
        have heq : t.insertLoop { tr with node := leafInsert tr.node (countLt tr.node.keys key) key value } rest0
            (s.upd s.file.bytes p1) = t.newRoot mid off moff s' := by
          have := eq []
          rw [List.append_nil] at this
          rw [this]; rfl
        have hok : NodeOK t.cfg (⟨[], [off, moff], [mid]⟩ : Node) :=
          ⟨by simp, by simp, .inr ⟨rfl, rfl⟩, by intro k hk'; simp at hk'; subst hk'; exact hkey⟩
        have hsz : (⟨[], [off, moff], [mid]⟩ : Node).size t.cfg.width ≤ pageSize := by
          have h1 := (keySize_bounds hkey).2
          have h2 := (intPtrSize_bounds off).2
          have h3 := (intPtrSize_bounds moff).2
          unfold Node.size pageSize
          simp only [List.map_cons, List.map_nil, List.sum_cons, List.sum_nil]
          omega
        have hcl := content_length t.cfg.width (⟨[], [off, moff], [mid]⟩ : Node)
        have hge := size_ge t.cfg.width (⟨[], [off, moff], [mid]⟩ : Node)
        have hlen := frame.len
        simp only [upd_bytes] at hlen len
        rcases newPage_node' frame.valid frame.budget hok hsz with ⟨poff, s1, free1, n1, n2, n3, n4, n5, n6, n7, n8⟩ | ⟨s1, n1, n2⟩
        · have hnot : ∀ x ∈ ps1 ++ ps2, x ∉ ([] : List Nat) := by simp
          have hrep : Rep t.cfg s1.file.bytes (h + 1) poff none none (es1 ++ es2) (poff.toNat :: (ps1 ++ ps2)) := by
            refine ⟨_, _, n6, rfl, ⟨by simp, fun _ => ⟨⟨rfl, rfl⟩, ?_⟩, hok.2.2.2⟩⟩
            exact .cons (left.framed n2 (fun x hx => live x (by simp [hx])) (by simp))
              (.one (right.framed n2 (fun x hx => live x (by simp [hx])) (by simp)))
          have hsl1 : Live s1 free1 (slotPage t.rootPos) := n2.live _ (frame.live _ ht.slotLive)
          have hsno : slotPage t.rootPos ∉ poff.toNat :: (ps1 ++ ps2) := by
            intro hc
            rcases List.mem_cons.1 hc with hc | hc
            · exact n3 (hc ▸ frame.live _ ht.slotLive)
            · rcases fresh _ hc with hc | hc
              · exact ht.slotOut hc
              · exact hc ht.slotLive
          obtain ⟨s2, p, w1, w2, w3⟩ := setRoot_tree (t := t) n2.valid n2.budget hsl hsl1 hsno
            (List.nodup_cons.2 ⟨fun hc => n3 (live _ hc), nodup⟩)
            (by
              intro x hx
              rcases List.mem_cons.1 hx with rfl | hx
              · exact n4
              · exact n2.live _ (live x hx)) hrep (fun _ => ents ▸ hover)
            (by
              obtain ⟨f1, f2⟩ := fill _ (Nat.le_refl _) hden
              refine ⟨_, n6, fun o ho => ?_⟩
              simp only [List.mem_cons, List.not_mem_nil, or_false] at ho
              rcases ho with rfl | rfl
              · exact left.dense_frame n2.len (fun x hx => n2.same x (live x (by simp [hx])) (by simp)) f1
              · exact right.dense_frame n2.len (fun x hx => n2.same x (live x (by simp [hx])) (by simp)) f2)
            (len := ((⟨[], [off, moff], [mid]⟩ : Node).content t.cfg.width).length) (by omega) (by omega)
          have hfr : Frame (s.upd s.file.bytes p1) free s1 free1 ps := frame.trans n2 (by simp)
          refine .ok s2 free1 es' _ hnew ?_ i1 (ents ▸ w3) ?_ ?_ ?_ ?_ (fun x hx => List.mem_cons_of_mem _ (keep x hx)) (fun h => n8 (nofree h))
          rotate_left 4
          · intro x hx
            have hl1 := n2.len
            have hx1 := hx.2.2.1
            rw [w2] at hx1
            simp only [upd_bytes] at hx1
            rw [writeAt_length (by omega), MemPtr.encode_length] at hx1
            rcases n7 x ⟨hx.1, hx.2.1, by omega, hx.2.2.2⟩ with rfl | h
            · exact .inr (by simp)
            · exact (used x h).imp id (fun h => List.mem_cons_of_mem _ h)
          · rw [hrun, heq]
            unfold newRoot
            rw [Act.bind_ok (by rw [marshal_nodeOK hok]; rfl), Act.bind_ok n1, w1]
          · rw [w2]
            have ho : Outside t s free s1 free1 ps := Frame.outside (t := t) ⟨hfr.valid, hfr.budget, hfr.live, hfr.same, hfr.len⟩
            have := n2.len
            exact ho.setRoot (MemPtr.encode_length _) (by omega) p
          · intro x hx
            rcases List.mem_cons.1 hx with rfl | hx
            · exact .inr (fun hc => n3 (frame.live _ hc))
            · exact fresh x hx
          · by_cases hz : h = 0
            · subst hz
              have hl1 := n2.len
              rw [w2]
              simp only [upd_bytes]
              rw [writeAt_length (by omega), MemPtr.encode_length]
              exact .inl (by omega)
            · exact .inr (hbig hz)
        · refine .full s1 hnew ?_ ?_
          · rw [hrun, heq]
            unfold newRoot
            rw [Act.bind_ok (by rw [marshal_nodeOK hok]; rfl), Act.bind_err n1]
          · have : (h + 2) * pageSize = (h + 1) * pageSize + pageSize := by rw [Nat.add_mul, Nat.add_mul]; omega
            omega
      | full s' eq big =>
        refine .full s' hnew ?_ ?_
        · rw [hrun]; simpa using eq []
        · simp only [upd_bytes] at big
          have : (h + 2) * pageSize = (h + 1) * pageSize + pageSize := by rw [Nat.add_mul, Nat.add_mul]; omega
          omega

end Appendable
