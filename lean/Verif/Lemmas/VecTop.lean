import Verif.Lemmas.VecInsert
import Verif.Lemmas.TreeTop
/-! `Insert` and `Find` on a whole vector tree. -/
namespace Appendable.V
open Spec VTree

/-- The vector tree `t` in the page file `s` holds the entries `es` on the pages `ps`. -/
structure TreeIs (t : VTree) (s : PF) (free : List Nat) (es : List VEntry) (ps : List Nat) : Prop where
  valid : s.Valid free
  budget : s.file.budget = none
  slot : t.rootPos % pageSize + 12 ≤ pageSize
  slotLive : Live s free (slotPage t.rootPos)
  slotOut : slotPage t.rootPos ∉ ps
  nodup : ps.Nodup
  live : ∀ p ∈ ps, Live s free p
  root : ((MemPtr.decode (slice s.file.bytes t.rootPos 12)).length = 0 ∧ es = [] ∧ ps = []) ∨
    ((MemPtr.decode (slice s.file.bytes t.rootPos 12)).length ≠ 0 ∧
      ∃ h, Rep t.dim s.file.bytes h (MemPtr.decode (slice s.file.bytes t.rootPos 12)).offset none none es ps)

theorem TreeIs.slotInside {t s free es ps} (h : TreeIs t s free es ps) : t.rootPos + 12 ≤ s.file.bytes.length := by
  have h1 := h.slotLive.inside h.valid
  have h2 := slotPage_add t.rootPos
  have h3 := h.slot
  omega

theorem TreeIs.upd_pos {t s free es ps} (h : TreeIs t s free es ps) (p : Nat) :
    TreeIs t (s.upd s.file.bytes p) free es ps :=
  ⟨(Frame.upd_pos h.valid h.budget p []).valid, h.budget, h.slot, h.slotLive, h.slotOut, h.nodup, h.live, h.root⟩

theorem TreeIs.asc {t s free es ps} (h : TreeIs t s free es ps) : Asc es := by
  rcases h.root with ⟨_, rfl, _⟩ | ⟨_, hh, hr⟩
  · exact List.Pairwise.nil
  · exact (goodR_rep t.dim s.file.bytes hh _ _ _ _ _ hr).2.1

theorem TreeIs.dims {t s free es ps} (h : TreeIs t s free es ps) : ∀ e ∈ es, e.2.length = t.dim.toNat := by
  rcases h.root with ⟨_, rfl, _⟩ | ⟨_, hh, hr⟩
  · simp
  · exact hr.dims

/-- Recording a new root page. -/
theorem setRoot_tree {t : VTree} {s : PF} {free : List Nat} {es : List VEntry} {ps : List Nat} {off : UInt64} {len h : Nat}
    (hv : s.Valid free) (hb : s.file.budget = none) (hslot : t.rootPos % pageSize + 12 ≤ pageSize)
    (hsl : Live s free (slotPage t.rootPos)) (hso : slotPage t.rootPos ∉ ps) (hnd : ps.Nodup)
    (hlive : ∀ p ∈ ps, Live s free p) (hr : Rep t.dim s.file.bytes h off none none es ps)
    (hl0 : 0 < len) (hl1 : len ≤ pageSize) :
    ∃ s' p, setRootAt t.rootPos ⟨UInt64.ofNat (u64OfInt (off.toNat : Int)), UInt32.ofNat len⟩ s = (.ok (), s') ∧
      s' = s.upd (writeAt s.file.bytes t.rootPos (MemPtr.mk off (UInt32.ofNat len)).encode) p ∧
      s'.file.bytes.length = s.file.bytes.length ∧
      Frame s free s' free [slotPage t.rootPos] ∧ TreeIs t s' free es ps := by
  have hin := hsl.inside hv
  have hpa := slotPage_add t.rootPos
  rw [ofNat_u64OfInt]
  obtain ⟨p, hw⟩ := setRootAt_ok (s := s) (pos := t.rootPos) hb (by omega) hv.small hslot ⟨off, UInt32.ofNat len⟩
  have hel := (MemPtr.mk off (UInt32.ofNat len)).encode_length
  have hf := Frame.write hv hb hsl (r := t.rootPos % pageSize) (b := (MemPtr.mk off (UInt32.ofNat len)).encode) (by omega) p
  rw [hpa] at hf
  have hdec : MemPtr.decode (slice (writeAt s.file.bytes t.rootPos (MemPtr.mk off (UInt32.ofNat len)).encode) t.rootPos 12)
      = ⟨off, UInt32.ofNat len⟩ := by
    rw [← hel, slice_writeAt_same (by omega), MemPtr.decode_encode]
  refine ⟨_, p, hw, rfl, hf.2, hf.1, ⟨hf.1.valid, hf.1.budget, hslot, hf.1.live _ hsl, hso, hnd, fun x hx => hf.1.live _ (hlive x hx), .inr ?_⟩⟩
  simp only [upd_bytes]
  rw [hdec]
  refine ⟨?_, h, ?_⟩
  · simp only [ne_eq]
    intro hc
    have := congrArg UInt32.toNat hc
    rw [UInt32.toNat_ofNat_of_lt' (by unfold pageSize at *; show len < 2 ^ 32; omega)] at this
    simp at this; omega
  · refine hr.framed hf.1 hlive ?_
    intro x hx hc
    simp only [List.mem_singleton] at hc
    exact hso (hc ▸ hx)

/-- Outcome of `Insert`. -/
inductive InsertOut (t : VTree) (key : RefId) (value : Vec) (s : PF) (free : List Nat) (es : List VEntry) (ps : List Nat) : Prop
  | dup (p : Nat) (e : VEntry) (he : e ∈ es) (hk : idKey e.1 = idKey key)
      (run : t.insert key value s = (.err (.msg "key already exists"), s.upd s.file.bytes p))
  | ok (s' : PF) (free' : List Nat) (es' : List VEntry) (ps' : List Nat) (new : ∀ e ∈ es, idKey e.1 ≠ idKey key)
      (run : t.insert key value s = (.ok (), s')) (rel : InsRel es key value es') (tree : TreeIs t s' free' es' ps')
      (frame : Frame s free s' free' (slotPage t.rootPos :: ps)) (fresh : ∀ x ∈ ps', x ∈ ps ∨ ¬ Live s free x)
      (len : s'.file.bytes.length ≤ s.file.bytes.length + (es.length + 1) * pageSize)
  | full (s' : PF) (new : ∀ e ∈ es, idKey e.1 ≠ idKey key) (run : t.insert key value s = (.err .io, s'))
      (big : 2 ^ 63 ≤ 2 * s.file.bytes.length + pageSize)

theorem frame_slot {t : VTree} {s free s' free' ps} (hslot : t.rootPos % pageSize + 12 ≤ pageSize)
    (hsl : Live s free (slotPage t.rootPos)) (hso : slotPage t.rootPos ∉ ps) (hf : Frame s free s' free' ps) :
    slice s'.file.bytes t.rootPos 12 = slice s.file.bytes t.rootPos 12 :=
  slot_same (t := ⟨⟨[], id, 0⟩, t.rootPos⟩) hslot hsl hso hf

/-- The first entry of a tree. -/
theorem first_out {t : VTree} {key : RefId} {value : Vec} {s : PF} {free : List Nat} (hd : t.dim ≠ 0)
    (hw : vbytes t.dim ≤ 4000) (hk : value.length = t.dim.toNat) (ht : TreeIs t s free [] []) :
    InsertOut t key value s free [] [] := by
  have hin := ht.slotInside
  have hsl := ht.slot
  have hv := ht.valid
  rcases ht.root with ⟨h0, -, -⟩ | ⟨h0, h, hr⟩
  · have hroot := vroot_none hin hsl h0
    have hok : (⟨[key], [value], [], t.dim⟩ : VNode).Ok := ⟨by simp, by simp, hd, ⟨rfl, by simpa using hk⟩, .inl rfl⟩
    have hsz : (⟨[key], [value], [], t.dim⟩ : VNode).size ≤ pageSize := by
      have h1 := (idSize_bounds key).2
      have h2 := (offSize_bounds t.dim).2
      unfold vbytes at hw
      unfold VNode.size pageSize
      simp only [List.map_cons, List.map_nil, List.sum_cons, List.sum_nil, List.length_cons, List.length_nil]
      omega
    have hcl := VNode.content_length hok.dims
    have hge : 4 ≤ (⟨[key], [value], [], t.dim⟩ : VNode).size := by unfold VNode.size; omega
    have hv1 := (Frame.upd_pos hv ht.budget (t.rootPos + 12) []).valid
    rcases vnewPage_node hv1 ht.budget hok hsz with ⟨off, s1, free1, n1, n2, n3, n4, n5, n6⟩ | ⟨s1, n1, n2⟩
    · have hrep : Rep t.dim s1.file.bytes 0 off none none [(key, value)] [off.toNat] := by
        refine ⟨_, [], n6, rfl, ⟨fun _ => ⟨rfl, .cons (.refl _) .nil, rfl, List.pairwise_singleton _ _, ?_⟩, by simp, rfl, hok.dims⟩⟩
        intro k _; exact ⟨fun l hl => by simp at hl, fun l hl => by simp at hl⟩
      have hsl1 : Live s1 free1 (slotPage t.rootPos) := n2.live _ ht.slotLive
      obtain ⟨s2, p, w1, w2, w2', wf, w3⟩ := setRoot_tree (t := t) n2.valid n2.budget hsl hsl1
        (by simp only [List.mem_singleton]; intro hc; exact n3 (hc ▸ ht.slotLive)) (by simp)
        (by intro x hx; simp only [List.mem_singleton] at hx; exact hx ▸ n4) hrep
        (len := ((⟨[key], [value], [], t.dim⟩ : VNode).content).length) (by omega) (by omega)
      refine .ok s2 free1 _ _ (by simp) ?_ ⟨[], [], rfl, rfl⟩ w3 ?_ ?_ (by simp only [upd_bytes] at n5; simp only [List.length_nil]; omega)
      · unfold VTree.insert
        rw [Act.bind_ok hroot]
        simp only
        rw [Act.bind_ok (by rw [VNode.marshal_ok hok]; rfl), Act.bind_ok n1, w1]
      · have hA : Frame s free s1 free1 [] := ⟨n2.valid, n2.budget, n2.live, n2.same, n2.len⟩
        exact (hA.weaken (by simp)).trans wf (fun q hq => .inl hq)
      · intro x hx
        simp only [List.mem_singleton] at hx
        subst hx; exact .inr n3
    · refine .full s1 (by simp) ?_ (by simp only [upd_bytes] at n2; omega)
      unfold VTree.insert
      rw [Act.bind_ok hroot]
      simp only
      rw [Act.bind_ok (by rw [VNode.marshal_ok hok]; rfl), Act.bind_err n1]
  · exact absurd rfl (goodR_rep t.dim s.file.bytes h _ _ _ _ _ hr).1

/-- A subtree holds more entries than its height. -/
theorem Kids.entries {R : UInt64 → Option Nat → Option Nat → List VEntry → List Nat → Prop} {m : Nat}
    (hR : ∀ p lo hi es ps, R p lo hi es ps → m ≤ es.length) {lo ks ptrs hi es ps}
    (h : Kids R lo ks ptrs hi es ps) : m * (ks.length + 1) ≤ es.length := by
  induction h with
  | one h => simpa using hR _ _ _ _ _ h
  | cons h t ih =>
    have := hR _ _ _ _ _ h
    simp only [List.length_append, List.length_cons]
    rw [Nat.mul_add]
    omega

theorem Rep.entries {d B h off lo hi es ps} (hr : Rep d B h off lo hi es ps) : h + 1 ≤ es.length := by
  induction h generalizing off lo hi es ps with
  | zero => exact List.length_pos_iff.2 (goodR_rep d B 0 _ _ _ _ _ hr).1
  | succ h ih =>
    obtain ⟨n, qs, hn, rfl, hm⟩ := hr
    have := Kids.entries (m := h + 1) (fun p lo hi es ps hr => ih hr) (hm.2.1 rfl)
    have h2 := hn.ok.ne
    rw [List.length_map] at this
    have : (h + 1) * (1 + 1) ≤ (h + 1) * (n.ids.length + 1) := Nat.mul_le_mul_left _ (by omega)
    omega

theorem insert_out {t : VTree} {key : RefId} {value : Vec} {s : PF} {free : List Nat} {es : List VEntry} {ps : List Nat}
    (hd : t.dim ≠ 0) (hw : vbytes t.dim ≤ 2000 ∨ (vbytes t.dim ≤ 4000 ∧ es.length ≤ 1)) (hk : value.length = t.dim.toNat) (ht : TreeIs t s free es ps) :
    InsertOut t key value s free es ps := by
  have hin := ht.slotInside
  have hsl := ht.slot
  have hv := ht.valid
  rcases ht.root with ⟨h0, rfl, rfl⟩ | ⟨h0, h, hr⟩
  · exact first_out hd (by rcases hw with hw | hw <;> omega) hk ht
  · generalize hmp : MemPtr.decode (slice s.file.bytes t.rootPos 12) = mp at *
    obtain ⟨n, qs, hn, hps, hm⟩ := rep_iff.1 hr
    obtain ⟨p0, hroot⟩ := vroot_some (t := t) hin hsl (by rw [hmp]; exact h0) (by rw [hmp]; exact hn)
    rw [hmp] at hroot
    have hfuel : h < Tree.fuel (s.upd s.file.bytes p0) := by
      have := hr.height_lt
      have := pages_count ht.nodup hr.pages
      unfold Tree.fuel; simp only [upd_bytes]; omega
    have hv0 := (Frame.upd_pos hv ht.budget p0 []).valid
    obtain ⟨off, l⟩ := mp
    obtain ⟨path, p1, htr, hpath⟩ := traverse_ok (key := key) (s := s.upd s.file.bytes p0) (l := l)
      hr hn hfuel (fun l hl => by cases hl) (fun l hl => by cases hl)
    simp only [upd_bytes, upd_upd] at htr hpath
    have hv1 := (Frame.upd_pos hv ht.budget p1 []).valid
    obtain ⟨tr, rest0, e1, e2, e3, e4⟩ := insert_rec (t := t) (value := value) (s := s.upd s.file.bytes p1) (free := free)
      hd hk (hw.imp id (fun hw => ⟨by have := hr.entries; omega, hw⟩)) hpath hr (fun l hl => by cases hl) (fun l hl => by cases hl) hv1 ht.budget ht.nodup ht.live
    subst e1
    have hrun : t.insert key value s = (if decide (idKey key ∈ tr.node.ids.map idKey) = true then
        Act.throw (.msg "key already exists")
        else t.insertLoop { tr with node := leafInsert tr.node (countLt (tr.node.ids.map idKey) (idKey key)) key value } rest0)
          (s.upd s.file.bytes p1) := by
      unfold VTree.insert
      rw [Act.bind_ok hroot]
      simp only
      rw [Act.bind_ok (Act.get_run _), Act.bind_ok htr]
      simp only
      rw [bsearch_ids e2]
    by_cases hmem : idKey key ∈ tr.node.ids.map idKey
    · obtain ⟨e, he, hke⟩ := e3.1 hmem
      refine .dup p1 e he hke ?_
      rw [hrun, if_pos (by simpa using hmem)]; rfl
    · have hnew : ∀ e ∈ es, idKey e.1 ≠ idKey key := fun e he hc => hmem (e3.2 ⟨e, he, hc⟩)
      rw [if_neg (by simpa using hmem)] at hrun
      obtain ⟨es', i1, i2⟩ := e4 hmem
      have hbound : (h + 2) * pageSize ≤ s.file.bytes.length + pageSize := by
        have h1 := hr.height_lt
        have h2 := pages_count ht.nodup hr.pages
        unfold pageSize at *; omega
      cases i2 with
      | done s' free' ps' eq frame len rep nodup live fresh =>
        have hss := frame_slot (s := s.upd s.file.bytes p1) hsl ht.slotLive ht.slotOut frame
        simp only [upd_bytes] at hss
        refine .ok s' free' es' ps' hnew ?_ i1 ⟨frame.valid, frame.budget, hsl, frame.live _ ht.slotLive, ?_, nodup, live, .inr ?_⟩
          (Frame.weaken (P := ps) ⟨frame.valid, frame.budget, frame.live, frame.same, frame.len⟩ (by intro x hx; simp [hx])) fresh
          (by
            simp only [upd_bytes] at len
            have := Nat.mul_le_mul_right pageSize (show h ≤ es.length + 1 by have := hr.entries; omega)
            omega)
        · rw [hrun]; simpa using eq []
        · intro hc
          rcases fresh _ hc with hc | hc
          · exact ht.slotOut hc
          · exact hc ht.slotLive
        · rw [hss, hmp]; exact ⟨h0, h, rep⟩
      | split s' free' mid mv moff es1 es2 ps1 ps2 eq frame len mvl ents left right nodup live fresh =>
        have heq : t.insertLoop { tr with node := leafInsert tr.node (countLt (tr.node.ids.map idKey) (idKey key)) key value } rest0
            (s.upd s.file.bytes p1) = t.newRoot mid mv off moff s' := by
          have := eq []
          rw [List.append_nil] at this
          rw [this]; rfl
        have hok : (⟨[mid], [mv], [off, moff], t.dim⟩ : VNode).Ok := ⟨by simp, by simp, hd, ⟨rfl, by simpa using mvl⟩, .inr rfl⟩
        have hsz : (⟨[mid], [mv], [off, moff], t.dim⟩ : VNode).size ≤ pageSize := by
          have h1 := (idSize_bounds mid).2
          have h2 := (offSize_bounds t.dim).2
          have h3 := (offSize_bounds off).2
          have h4 := (offSize_bounds moff).2
          have hw : vbytes t.dim ≤ 4000 := by rcases hw with hw | hw <;> omega
          unfold vbytes at hw
          unfold VNode.size pageSize
          simp only [List.map_cons, List.map_nil, List.sum_cons, List.sum_nil, List.length_cons, List.length_nil]
          omega
        have hcl := VNode.content_length hok.dims
        have hge : 4 ≤ (⟨[mid], [mv], [off, moff], t.dim⟩ : VNode).size := by unfold VNode.size; omega
        have hlen := frame.len
        simp only [upd_bytes] at hlen len
        rcases vnewPage_node frame.valid frame.budget hok hsz with ⟨poff, s1, free1, n1, n2, n3, n4, n5, n6⟩ | ⟨s1, n1, n2⟩
        · have hrep : Rep t.dim s1.file.bytes (h + 1) poff none none (es1 ++ es2) (poff.toNat :: (ps1 ++ ps2)) := by
            refine ⟨_, _, n6, rfl, ⟨by simp, fun _ => ?_, rfl, hok.dims⟩⟩
            exact .cons (left.framed n2 (fun x hx => live x (by simp [hx])) (by simp))
              (.one (right.framed n2 (fun x hx => live x (by simp [hx])) (by simp)))
          have hsl1 : Live s1 free1 (slotPage t.rootPos) := n2.live _ (frame.live _ ht.slotLive)
          have hsno : slotPage t.rootPos ∉ poff.toNat :: (ps1 ++ ps2) := by
            intro hc
            rcases List.mem_cons.1 hc with hc | hc
            · exact n3 (hc ▸ frame.live _ ht.slotLive)
            · rcases fresh _ hc with hc | hc
              · exact ht.slotOut hc
              · exact hc ht.slotLive
          obtain ⟨s2, p, w1, w2, w2', wf, w3⟩ := setRoot_tree (t := t) n2.valid n2.budget hsl hsl1 hsno
            (List.nodup_cons.2 ⟨fun hc => n3 (live _ hc), nodup⟩)
            (by
              intro x hx
              rcases List.mem_cons.1 hx with rfl | hx
              · exact n4
              · exact n2.live _ (live x hx)) hrep
            (len := ((⟨[mid], [mv], [off, moff], t.dim⟩ : VNode).content).length) (by omega) (by omega)
          have hfr : Frame (s.upd s.file.bytes p1) free s1 free1 ps := frame.trans n2 (by simp)
          refine .ok s2 free1 es' _ hnew ?_ i1 (ents ▸ w3) ?_ ?_ (by
            have h1 := Nat.mul_le_mul_right pageSize (show h + 2 ≤ es.length + 1 by have := hr.entries; omega)
            have h2 : (h + 2) * pageSize = (h + 1) * pageSize + pageSize := by rw [Nat.add_mul, Nat.add_mul]; omega
            omega)
          · rw [hrun, heq]
            unfold newRoot
            rw [Act.bind_ok (by rw [VNode.marshal_ok hok]; rfl), Act.bind_ok n1, w1]
          · have hA : Frame s free s1 free1 ps := ⟨hfr.valid, hfr.budget, hfr.live, hfr.same, hfr.len⟩
            exact (hA.weaken (by intro x hx; simp [hx])).trans wf (fun q hq => .inl (by simp at hq; simp [hq]))
          · intro x hx
            rcases List.mem_cons.1 hx with rfl | hx
            · exact .inr (fun hc => n3 (frame.live _ hc))
            · exact fresh x hx
        · refine .full s1 hnew ?_ ?_
          · rw [hrun, heq]
            unfold newRoot
            rw [Act.bind_ok (by rw [VNode.marshal_ok hok]; rfl), Act.bind_err n1]
          · have : (h + 2) * pageSize = (h + 1) * pageSize + pageSize := by rw [Nat.add_mul, Nat.add_mul]; omega
            omega
      | full s' eq big =>
        refine .full s' hnew ?_ ?_
        · rw [hrun]; simpa using eq []
        · simp only [upd_bytes] at big
          have : (h + 2) * pageSize = (h + 1) * pageSize + pageSize := by rw [Nat.add_mul, Nat.add_mul]; omega
          omega

/-- An internal node of two ids that is too large cannot be split: its right half has no ids. -/
theorem split_two_panics {t : VTree} {tr : VRec} {s : PF} (hd : tr.node.dim ≠ 0) (hbig : pageSize < tr.node.size)
    (h2 : tr.node.ids.length = 2) (hv : tr.node.vectors.length = 2) (ho : tr.node.offsets ≠ []) :
    t.writeOrSplit tr s = (.panic, s) := by
  unfold writeOrSplit
  simp only
  rw [if_neg hd, if_pos hbig, h2]
  have e1 : tr.node.ids[2 / 2]? = some tr.node.ids[1] := List.getElem?_eq_getElem (by omega)
  have e2 : tr.node.vectors[2 / 2]? = some tr.node.vectors[1] := List.getElem?_eq_getElem (by omega)
  rw [e1, e2]
  simp only
  have hm : (t.rightHalf tr.node (2 / 2)).marshal = .panic := by
    unfold rightHalf VNode.leaf
    rw [if_neg (by simpa using ho)]
    unfold VNode.marshal
    rw [if_pos (by simp [h2])]
  rw [hm]
  rfl

/-- The third vector of a large dimension cannot be stored: whatever its id, if it is new, `Insert` panics (or there is no room
for a page). -/
theorem third_panics {t : VTree} {key : RefId} {value : Vec} {s : PF} {free : List Nat} {es : List VEntry} {ps : List Nat}
    (hd : t.dim ≠ 0) (hw0 : 2043 ≤ vbytes t.dim) (hw : vbytes t.dim ≤ 4000) (hk : value.length = t.dim.toNat)
    (ht : TreeIs t s free es ps) (h2 : es.length = 2) (hnew : ∀ e ∈ es, idKey e.1 ≠ idKey key)
    : (t.insert key value s).1 = .panic ∨ ((t.insert key value s).1 = .err .io ∧ 2 ^ 63 ≤ s.file.bytes.length + pageSize) := by
  have hin := ht.slotInside
  have hsl := ht.slot
  have hv := ht.valid
  have twobig : ∀ n : VNode, n.dim = t.dim → n.ids.length = 2 → n.vectors.length = 2 → pageSize < n.size := by
    intro n h3 h4 h5
    unfold VNode.size
    rw [h5, h3]
    unfold vbytes at hw0
    have h6 : 6 ≤ (n.ids.map VNode.idSize).sum := by
      have := sum_ge VNode.idSize 3 n.ids (fun k _ => (idSize_bounds k).1)
      omega
    have := sizeVarint_pos t.dim
    unfold pageSize
    omega
  rcases ht.root with ⟨h0, rfl, rfl⟩ | ⟨h0, h, hr⟩
  · simp at h2
  · generalize hmp : MemPtr.decode (slice s.file.bytes t.rootPos 12) = mp at *
    have hh := hr.entries
    obtain ⟨n, qs, hn, hps, hm⟩ := rep_iff.1 hr
    obtain ⟨p0, hroot⟩ := vroot_some (t := t) hin hsl (by rw [hmp]; exact h0) (by rw [hmp]; exact hn)
    rw [hmp] at hroot
    obtain ⟨off, l⟩ := mp
    have hfuel : h < Tree.fuel (s.upd s.file.bytes p0) := by
      have := hr.height_lt
      have := pages_count ht.nodup hr.pages
      unfold Tree.fuel; simp only [upd_bytes]; omega
    obtain ⟨path, p1, htr, hpath⟩ := traverse_ok (key := key) (s := s.upd s.file.bytes p0) (l := l)
      hr hn hfuel (fun l hl => by cases hl) (fun l hl => by cases hl)
    simp only [upd_bytes, upd_upd] at htr hpath
    have hv1 := (Frame.upd_pos hv ht.budget p1 []).valid
    cases hpath with
    | leaf hn' hl =>
      exfalso
      obtain ⟨_, hst, _⟩ := hm.1 rfl
      have := hst.length
      have := VNodeAt.size_le hn
      have := twobig n hm.2.2.1 (by omega) (by omega)
      omega
    | @step h _ n2 l3 p path hn2 hp tp =>
      have hu := VNodeAt.unique hn2 hn
      have hids : n2.ids = n.ids := by have := congrArg VNode.ids hu; exact this
      have hoffs : n2.offsets = n.offsets := by have := congrArg VNode.offsets hu; exact this
      rw [hids, hoffs] at hp
      have hkids := hm.2.1 rfl
      have hkl := Kids.entries (m := 1) (fun p lo hi es ps hr => by have := Rep.entries hr; omega) hkids
      have hne := hn.ok.ne
      rw [List.length_map] at hkl
      have hn1 : n.ids.length = 1 := by omega
      obtain ⟨ks1, ks2, ptrs1, q, ptrs2, lo', hi', es1, es2, es3, ps1, ps2, ps3, a1, a2, a3, a4, a5, a6, a7, a8,
        a9, a10, a11, a12, a13⟩ := hkids.locate (goodR_rep t.dim s.file.bytes h) (idKey key) (fun l hl => by cases hl) (fun l hl => by cases hl)
      have hpq : p = q := by
        rw [a2, ← a5, ← a6] at hp
        simp at hp
        exact hp.symm
      subst hpq
      have hh0 : h = 0 := by omega
      subst hh0
      -- the leaf holds one entry
      have hes2 : es2.length = 1 := by
        have h3 := Rep.entries a8
        have h4 : 0 < es1.length ∨ 0 < es3.length := by
          have hk1 := congrArg List.length a1
          rw [List.length_map, List.length_append, hn1] at hk1
          cases a7 with
          | nil =>
            right
            rcases a9 with ⟨_, b2, b3, b4, b5⟩ | ⟨k, ks, rfl, rfl, hk⟩
            · simp_all
            · exact List.length_pos_iff.2 (hk.good (goodR_rep t.dim s.file.bytes 0)).1
          | cons hx _ =>
            left
            have := Rep.entries hx
            rw [List.length_append]; omega
        have := congrArg List.length a3
        simp only [List.length_append] at this
        omega
      cases tp with
      | @leaf _ m l2 hm1 hml =>
        obtain ⟨m', qs', hm', hps', hmm⟩ := a8
        have hu' := VNodeAt.unique hm1 hm'
        rw [show countLt (m.ids.map idKey) (idKey key) = countLt (m'.reread.ids.map idKey) (idKey key) by rw [← hu']; rfl, hu'] at htr
        have hsz := VNodeAt.size_le hm'
        rw [← size_reread] at hsz
        have hmm := hmm.reread
        generalize m'.reread = m at *
        obtain ⟨ho, hst, hq, hso, _⟩ := hmm.1 rfl
        subst hq
        have hstl := hst.length
        have hnm : idKey key ∉ m.ids.map idKey := by
          rw [hst.ids_eq]
          simp only [List.mem_map]
          rintro ⟨x, ⟨e, he, rfl⟩, hx⟩
          exact hnew e (by rw [a3]; simp [he]) hx
        obtain ⟨es', m1, m2, m3⟩ := leafInsert_memRep (v := value) hmm hk a10 a11 hnm
        have hlv : Live s free p.toNat := ht.live _ (by rw [hps, a4, hps']; simp)
        have hlen2 : (leafInsert m (countLt (m.ids.map idKey) (idKey key)) key value).ids.length = 2 := by
          have := countLt_le (m.ids.map idKey) (idKey key)
          rw [List.length_map] at this
          simp only [leafInsert, List.length_append, List.length_cons, List.length_take, List.length_drop]; omega
        have hbig2 := twobig _ m1.2.2.1 hlen2 (by rw [m1.2.2.2.1, hlen2])
        have hout := writeOrSplit_out (t := t) (h := 0) (s := s.upd s.file.bytes p1) (free := free)
          (tr := ⟨leafInsert m (countLt (m.ids.map idKey) (idKey key)) key value, countLt (m.ids.map idKey) (idKey key), ⟨p, l2⟩⟩)
          hd (.inr ⟨rfl, hw, by simp only; omega⟩) hv1 ht.budget m1 (by simp only; omega) (by simp only; omega) hlv (by simp) (by simp)
        have hrun : t.insert key value s = t.insertLoop
            ⟨leafInsert m (countLt (m.ids.map idKey) (idKey key)) key value, countLt (m.ids.map idKey) (idKey key), ⟨p, l2⟩⟩
            [⟨n2.reread, childIdx (n2.ids.map idKey) (idKey key), ⟨off, l3⟩⟩] (s.upd s.file.bytes p1) := by
          unfold VTree.insert
          rw [Act.bind_ok hroot]
          simp only
          rw [Act.bind_ok (Act.get_run _), Act.bind_ok htr]
          simp only [List.cons_append, List.nil_append]
          rw [bsearch_ids hso]
          simp only
          rw [if_neg (by simpa using hnm)]
        cases hout with
        | fits s' run frame len rep =>
          exfalso
          obtain ⟨n3, qs3, hn3, _, hm3⟩ := rep
          have k1 := (m1.1 rfl).2.1.length
          have k2 := (hm3.1 rfl).2.1.length
          have k3 := twobig n3 hm3.2.2.1 (by omega) (by omega)
          have k4 := VNodeAt.size_le hn3
          omega
        | full s' run big =>
          right
          simp only [upd_bytes] at big
          rw [hrun, insertLoop_eq, Act.bind_err run]
          exact ⟨rfl, big⟩
        | split s' free' mid mv moff es1' es2' qs1 qs2 run frame len mvl ents pages fresh liveM left right =>
          left
          rw [hrun, insertLoop_eq, Act.bind_ok run]
          simp only [bubble]
          have hil : childIdx (n2.ids.map idKey) (idKey key) ≤ 1 := by
            have h3 := congrArg List.length a1
            rw [List.length_map, List.length_append, hn1] at h3
            rw [hids]; omega
          have hvl := hm.2.2.2.1
          have hol := hkids.length
          rw [List.length_map] at hol
          have hdimp : n2.reread.dim = t.dim := by rw [hu]; exact hm.2.2.1
          have hi2 : n2.reread.ids.length = 1 := by rw [hu]; exact hn1
          have hv2 : n2.reread.vectors.length = 1 := by rw [hu]; simp [VNode.reread]; omega
          have ho2 : n2.reread.offsets.length = 2 := by rw [hu]; simp [VNode.reread]; omega
          generalize n2.reread = m2 at *
          generalize childIdx (n2.ids.map idKey) (idKey key) = i at *
          obtain ⟨pu, hpu⟩ : ∃ pu : VRec, pu = parentUpdate ⟨m2, i, ⟨off, l3⟩⟩ mid mv p moff := ⟨_, rfl⟩
          have q1 : pu.node.dim = t.dim := by rw [hpu]; exact hdimp
          have q2 : pu.node.ids.length = 2 := by
            rw [hpu]; simp only [parentUpdate, List.length_append, List.length_cons, List.length_take, List.length_drop]; omega
          have q3 : pu.node.vectors.length = 2 := by
            rw [hpu]; simp only [parentUpdate, List.length_append, List.length_cons, List.length_take, List.length_drop]; omega
          have q4 : pu.node.offsets ≠ [] := by
            rw [← List.length_pos_iff, hpu]
            simp only [parentUpdate, List.length_append, List.length_set, List.length_take, List.length_drop]; omega
          have := split_two_panics (t := t) (tr := pu) (s := s') (by rw [q1]; exact hd) (twobig _ q1 q2 q3) q2 q3 q4
          rw [hpu] at this
          rw [insertLoop_eq, Act.bind_def, this]
      
/-! ### Find -/

/-- What the leaf at the end of the search path answers. -/
theorem find_rec {d : UInt64} {B : Bytes} {key : RefId} {h : Nat} {off : UInt64} {path : List VRec} {lo hi es ps}
    (hp : PathTo B (idKey key) h off path) (hr : Rep d B h off lo hi es ps) (hlo : GeB lo (idKey key)) (hhi : LtB (idKey key) hi) :
    ∃ tr rest, path = tr :: rest ∧ Sorted (tr.node.ids.map idKey) ∧
      (∀ e ∈ es, idKey e.1 = idKey key → ∃ u, Kept e.2 u ∧
        entryAt tr.node (countLt (tr.node.ids.map idKey) (idKey key)) (decide (idKey key ∈ tr.node.ids.map idKey)) = .ok (e.1, u.map f32OfU32)) ∧
      ((∀ e ∈ es, idKey e.1 ≠ idKey key) →
        entryAt tr.node (countLt (tr.node.ids.map idKey) (idKey key)) (decide (idKey key ∈ tr.node.ids.map idKey))
          = .err (.msg "key not found")) := by
  induction hp generalizing lo hi es ps with
  | @leaf off n l hn hl =>
    obtain ⟨n', qs, hn', rfl, hm⟩ := hr
    have hu := VNodeAt.unique hn hn'
    rw [hu]
    obtain ⟨ho, hst, hq, hso, _⟩ := hm.1 rfl
    refine ⟨_, [], rfl, hso, ?_, ?_⟩
    · intro e he hk
      obtain ⟨i, hi', rfl⟩ := List.mem_iff_getElem.1 he
      obtain ⟨w, h1, h2, h3⟩ := hst.getElem i hi'
      refine ⟨w, h3, ?_⟩
      have hmem : idKey key ∈ n'.reread.ids.map idKey := by
        rw [← hk]; exact List.mem_map_of_mem (List.mem_of_getElem? h1)
      have hidl : i < (n'.ids.map idKey).length := by
        have := (List.getElem?_eq_some_iff.1 h1).1; simpa using this
      have hgi : (n'.ids.map idKey)[i] = idKey key := by
        rw [List.getElem_map, (List.getElem?_eq_some_iff.1 h1).2, hk]
      have hci : countLt (n'.ids.map idKey) (idKey key) = i := by
        have h4 := sorted_lt_countLt hso (idKey key) i hidl
        rw [hgi] at h4
        have hc : countLt (n'.ids.map idKey) (idKey key) ≤ i := by omega
        by_cases hlt : countLt (n'.ids.map idKey) (idKey key) < i
        · have h5 := List.pairwise_iff_getElem.1 hso _ i (by omega) hidl hlt
          rw [hgi] at h5
          have h6 := sorted_lt_countLt hso (idKey key) _ (show countLt (n'.ids.map idKey) (idKey key) < _ by omega)
          omega
        · omega
      unfold entryAt
      rw [if_pos (by simpa using hmem)]
      show (match n'.ids[countLt (n'.ids.map idKey) (idKey key)]?, (n'.vectors.map (·.map f32OfU32))[countLt (n'.ids.map idKey) (idKey key)]? with
        | some k, some v => .ok (k, v)
        | _, _ => .panic : Res (RefId × Vec)) = _
      rw [hci, h1, List.getElem?_map, h2]
      rfl
    · intro hne
      have : idKey key ∉ n'.reread.ids.map idKey := by
        show idKey key ∉ n'.ids.map idKey
        rw [hst.ids_eq]
        simp only [List.mem_map]
        rintro ⟨x, ⟨e, he, rfl⟩, hx⟩
        exact hne e he hx
      unfold entryAt
      rw [if_neg (by simpa using this)]
  | @step h off n l p path hn hidx tp ih =>
    obtain ⟨n', qs, hn', rfl, hm⟩ := rep_iff.1 hr
    have hu := VNodeAt.unique hn hn'
    have hids : n.ids = n'.ids := by have := congrArg VNode.ids hu; exact this
    have hoffs : n.offsets = n'.offsets := by have := congrArg VNode.offsets hu; exact this
    rw [hids, hoffs] at hidx
    have hmD : MemRep d (Rep d B h) false n' lo hi es qs := hm
    obtain ⟨ks1, ks2, ptrs1, q, ptrs2, lo', hi', es1, es2, es3, ps1, ps2, ps3, a1, a2, a3, a4, a5, a6, a7, a8,
        a9, a10, a11, a12, a13⟩ := (hmD.2.1 rfl).locate (goodR_rep d B h) (idKey key) hlo hhi
    have hpq : p = q := by
      rw [a2, ← a5, ← a6] at hidx
      simp at hidx
      exact hidx.symm
    subst hpq
    obtain ⟨tr, rest0, r1, r2, r3, r4⟩ := ih a8 a10 a11
    subst r1
    refine ⟨tr, rest0 ++ [_], rfl, r2, ?_, ?_⟩
    · intro e he hk
      rw [a3] at he
      rcases List.mem_append.1 he with he | he
      · have := a12 e he; omega
      · rcases List.mem_append.1 he with he | he
        · exact r3 e he hk
        · have := a13 e he; omega
    · intro hne
      exact r4 (fun e he => hne e (by rw [a3]; simp [he]))

/-- `Find` on a tree. -/
theorem find_out {t : VTree} {s : PF} {free : List Nat} {es : List VEntry} {ps : List Nat} (ht : TreeIs t s free es ps) (key : RefId) :
    ∃ p, (es = [] ∧ t.find key s = (.ok none, s.upd s.file.bytes p)) ∨
      (es ≠ [] ∧ (∀ e ∈ es, idKey e.1 ≠ idKey key) ∧ t.find key s = (.err (.msg "key not found"), s.upd s.file.bytes p)) ∨
      (∃ e ∈ es, idKey e.1 = idKey key ∧ ∃ u, Kept e.2 u ∧
        t.find key s = (.ok (some (e.1, u.map f32OfU32)), s.upd s.file.bytes p)) := by
  have hin := ht.slotInside
  have hsl := ht.slot
  rcases ht.root with ⟨h0, rfl, rfl⟩ | ⟨h0, h, hr⟩
  · refine ⟨t.rootPos + 12, .inl ⟨rfl, ?_⟩⟩
    unfold VTree.find
    rw [Act.bind_ok (vroot_none hin hsl h0)]; rfl
  · generalize hmp : MemPtr.decode (slice s.file.bytes t.rootPos 12) = mp at *
    obtain ⟨n, qs, hn, hps, hm⟩ := rep_iff.1 hr
    obtain ⟨p0, hroot⟩ := vroot_some (t := t) hin hsl (by rw [hmp]; exact h0) (by rw [hmp]; exact hn)
    rw [hmp] at hroot
    have hfuel : h < Tree.fuel (s.upd s.file.bytes p0) := by
      have := hr.height_lt
      have := pages_count ht.nodup hr.pages
      unfold Tree.fuel; simp only [upd_bytes]; omega
    obtain ⟨off, l⟩ := mp
    obtain ⟨path, p1, htr, hpath⟩ := traverse_ok (key := key) (s := s.upd s.file.bytes p0) (l := l)
      hr hn hfuel (fun l hl => by cases hl) (fun l hl => by cases hl)
    simp only [upd_bytes, upd_upd] at htr hpath
    obtain ⟨tr, rest0, e1, e2, e3, e4⟩ := find_rec hpath hr (fun l hl => by cases hl) (fun l hl => by cases hl)
    subst e1
    have hrun : t.find key s = (Act.lift (entryAt tr.node (countLt (tr.node.ids.map idKey) (idKey key))
        (decide (idKey key ∈ tr.node.ids.map idKey))) >>= fun e => (return some e : Act PF _)) (s.upd s.file.bytes p1) := by
      unfold VTree.find
      rw [Act.bind_ok hroot]
      simp only
      rw [Act.bind_ok (Act.get_run _), Act.bind_ok htr]
      simp only
      rw [bsearch_ids e2]
    refine ⟨p1, .inr ?_⟩
    by_cases hex : ∃ e ∈ es, idKey e.1 = idKey key
    · obtain ⟨e, he, hk⟩ := hex
      obtain ⟨u, hu, hE⟩ := e3 e he hk
      refine .inr ⟨e, he, hk, u, hu, ?_⟩
      rw [hrun, hE]; rfl
    · have hne : ∀ e ∈ es, idKey e.1 ≠ idKey key := fun e he hk => hex ⟨e, he, hk⟩
      refine .inl ⟨(goodR_rep t.dim s.file.bytes h _ _ _ _ _ hr).1, hne, ?_⟩
      rw [hrun, e4 hne]; rfl

/-- Inserting an id that is there already. -/
theorem dup_out {t : VTree} {s : PF} {free : List Nat} {es : List VEntry} {ps : List Nat} (ht : TreeIs t s free es ps) (key : RefId)
    (value : Vec) (hx : ∃ e ∈ es, idKey e.1 = idKey key) :
    ∃ p, t.insert key value s = (.err (.msg "key already exists"), s.upd s.file.bytes p) := by
  have hin := ht.slotInside
  have hsl := ht.slot
  obtain ⟨e, he, hk⟩ := hx
  rcases ht.root with ⟨h0, rfl, rfl⟩ | ⟨h0, h, hr⟩
  · simp at he
  · generalize hmp : MemPtr.decode (slice s.file.bytes t.rootPos 12) = mp at *
    obtain ⟨n, qs, hn, hps, hm⟩ := rep_iff.1 hr
    obtain ⟨p0, hroot⟩ := vroot_some (t := t) hin hsl (by rw [hmp]; exact h0) (by rw [hmp]; exact hn)
    rw [hmp] at hroot
    have hfuel : h < Tree.fuel (s.upd s.file.bytes p0) := by
      have := hr.height_lt
      have := pages_count ht.nodup hr.pages
      unfold Tree.fuel; simp only [upd_bytes]; omega
    obtain ⟨off, l⟩ := mp
    obtain ⟨path, p1, htr, hpath⟩ := traverse_ok (key := key) (s := s.upd s.file.bytes p0) (l := l)
      hr hn hfuel (fun l hl => by cases hl) (fun l hl => by cases hl)
    simp only [upd_bytes, upd_upd] at htr hpath
    obtain ⟨tr, rest0, e1, e2, e3, e4⟩ := find_rec hpath hr (fun l hl => by cases hl) (fun l hl => by cases hl)
    subst e1
    obtain ⟨u, hu, hE⟩ := e3 e he hk
    have hmem : decide (idKey key ∈ tr.node.ids.map idKey) = true := by
      cases hc : decide (idKey key ∈ tr.node.ids.map idKey) with
      | true => rfl
      | false => rw [hc] at hE; cases hE
    refine ⟨p1, ?_⟩
    unfold VTree.insert
    rw [Act.bind_ok hroot]
    simp only
    rw [Act.bind_ok (Act.get_run _), Act.bind_ok htr]
    simp only
    rw [bsearch_ids e2, hmem]
    rfl

end Appendable.V
