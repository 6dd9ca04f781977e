import Verif.Lemmas.TsClause
/-! What stays at the old root page when an insert moves the root of a tree, and what a client reads from there. -/
namespace Appendable
open Spec Tree

theorem Kids.openHi {R : UInt64 → Option RV → Option RV → List Entry → List Nat → Prop}
    (hR : ∀ p lo hi es ps, R p lo hi es ps → R p lo none es ps) {lo ks ptrs hi es ps} (h : Kids R lo ks ptrs hi es ps) :
    Kids R lo ks ptrs none es ps := by
  induction h with
  | one h => exact .one (hR _ _ _ _ _ h)
  | cons h _ ih => exact .cons h ih

/-- Without the upper bound. -/
theorem Rep.openHi {cfg : Cfg} {B : Bytes} {h : Nat} : ∀ {off lo hi es ps}, Rep cfg B h off lo hi es ps → Rep cfg B h off lo none es ps := by
  induction h with
  | zero =>
    intro off lo hi es ps hr
    obtain ⟨n, qs, hn, hq, hm⟩ := hr
    refine ⟨n, qs, hn, hq, fun hl => ?_, (fun h => by cases h), hm.2.2⟩
    obtain ⟨h1, h2, h3, h4, h5, h6⟩ := hm.1 hl
    exact ⟨h1, h2, h3, h4, fun k hk => ⟨(h5 k hk).1, fun l hl => by cases hl⟩, h6⟩
  | succ h ih =>
    intro off lo hi es ps hr
    obtain ⟨n, qs, hn, hq, hm⟩ := hr
    exact ⟨n, qs, hn, hq, (fun h => by cases h), fun hl => ⟨(hm.2.1 hl).1, (hm.2.1 hl).2.openHi (fun _ _ _ _ _ h => ih h)⟩, hm.2.2⟩

/-- After an insert into a tree with entries, the old root page holds the first part of the new entries, at the same height; a proper
part if the root pointer has moved. -/
theorem insert_moved {t : Tree} {key : RV} {value : MemPtr} {s s' : PF} {free : List Nat} {es : List Entry} {ps : List Nat}
    (hw : vlen t.cfg ≤ 2016) (hk : KeyOK t.cfg key) (ht : TreeIs t s free es ps) (hne : es ≠ [])
    (run : t.insert key value s = (.ok (), s')) :
    ∃ h es1 es2 ps1, Rep t.cfg s'.file.bytes h (MemPtr.decode (slice s.file.bytes t.rootPos 12)).offset none none es1 ps1 ∧
      InsRel es key value (es1 ++ es2) ∧ (slice s'.file.bytes t.rootPos 12 ≠ slice s.file.bytes t.rootPos 12 → es2 ≠ []) ∧
      Ascending (es1 ++ es2) ∧ h < fuel s' ∧ (h ≠ 0 → pageSize < leafBytes t.cfg.width es) := by
  have hin := ht.slotInside
  have hsl := ht.slot
  have hv := ht.valid
  rcases ht.root with ⟨h0, rfl, rfl⟩ | ⟨h0, h, hr, hbig, hden⟩
  · exact absurd rfl hne
  · generalize hmp : MemPtr.decode (slice s.file.bytes t.rootPos 12) = mp at *
    obtain ⟨n, qs, hn, hps, hm⟩ := rep_iff.1 hr
    obtain ⟨p0, hroot⟩ := root_some (t := t) hin hsl (by rw [hmp]; exact h0) (by rw [hmp]; exact hn)
    rw [hmp] at hroot
    have hfuel : h < fuel (s.upd s.file.bytes p0) := by
      have := hr.height_lt
      have := pages_count ht.nodup hr.pages
      unfold fuel; simp only [upd_bytes]; omega
    have hv0 := (Frame.upd_pos hv ht.budget p0 []).valid
    obtain ⟨off, l⟩ := mp
    obtain ⟨path, p1, htr, hpath⟩ := traverse_ok (t := t) (key := key) (s := s.upd s.file.bytes p0) (l := l)
      hr hn hfuel (fun l hl => by cases hl) (fun l hl => by cases hl)
    simp only [upd_bytes, upd_upd] at htr hpath
    have hv1 := (Frame.upd_pos hv ht.budget p1 []).valid
    obtain ⟨tr, rest0, e1, e2, e3, e4⟩ := insert_rec (t := t) (value := value) (s := s.upd s.file.bytes p1) (free := free)
      hw hk hpath hr (fun l hl => by cases hl) (fun l hl => by cases hl) hv1 ht.budget ht.nodup ht.live
    subst e1
    have hrun : t.insert key value s = (if decide (key ∈ tr.node.keys) = true then
        Act.throw (.msg "key already exists")
        else t.insertLoop { tr with node := leafInsert tr.node (countLt tr.node.keys key) key value } rest0)
          (s.upd s.file.bytes p1) := by
      unfold Tree.insert
      rw [if_neg (widthCheck hk), Act.bind_ok hroot]
      simp only
      rw [Act.bind_ok (Act.get_run _), Act.bind_ok htr]
      simp only
      rw [bsearch_spec e2]
    by_cases hmem : key ∈ tr.node.keys
    · rw [hrun, if_pos (by simpa using hmem)] at run
      cases run
    · rw [if_neg (by simpa using hmem)] at hrun
      obtain ⟨es', i1, i2⟩ := e4 hmem
      cases i2 with
      | done s'' free' ps' eq frame len rep nodup live fresh fill used keep nofree =>
        have hss := slot_same (s := s.upd s.file.bytes p1) hsl ht.slotLive ht.slotOut frame
        simp only [upd_bytes] at hss
        have e0 := eq []
        rw [List.append_nil] at e0
        rw [hrun, e0] at run
        cases run
        refine ⟨h, es', [], ps', rep, by simpa using i1, fun moved => absurd hss moved, by simpa using rep.ascending, ?_, hbig⟩
        have h1 := rep.height_lt
        have h2 := pages_count nodup rep.pages
        unfold fuel
        omega
      | split s'' free' mid moff es1 es2 ps1 ps2 eq frame len hkey ents left right nodup live fresh over fill used keep nofree =>
        have heq : t.insertLoop { tr with node := leafInsert tr.node (countLt tr.node.keys key) key value } rest0
            (s.upd s.file.bytes p1) = t.newRoot mid off moff s'' := by
          have := eq []
          rw [List.append_nil] at this
          rw [this]; rfl
        have hok : NodeOK t.cfg (⟨[], [off, moff], [mid]⟩ : Node) :=
          ⟨by simp, by simp, .inr ⟨rfl, rfl⟩, by intro k hk'; simp at hk'; subst hk'; exact hkey⟩
        have hsz : (⟨[], [off, moff], [mid]⟩ : Node).size t.cfg.width ≤ pageSize := by
          have h1 := (keySize_bounds hkey).2
          have h2 := (intPtrSize_bounds off).2
          have h3 := (intPtrSize_bounds moff).2
          unfold Node.size pageSize
          simp only [List.map_cons, List.map_nil, List.sum_cons, List.sum_nil]
          omega
        rcases newPage_node' frame.valid frame.budget hok hsz with ⟨poff, s1, free1, n1, n2, n3, n4, n5, n6, n7, n8⟩ | ⟨s1, n1, n2⟩
        · have hsl1 : Live s1 free1 (slotPage t.rootPos) := n2.live _ (frame.live _ ht.slotLive)
          have hpa := slotPage_add t.rootPos
          have hins := hsl1.inside n2.valid
          obtain ⟨mp2, hmp2⟩ : ∃ m : MemPtr, m = ⟨UInt64.ofNat (u64OfInt (poff.toNat : Int)),
              UInt32.ofNat ((⟨[], [off, moff], [mid]⟩ : Node).content t.cfg.width).length⟩ := ⟨_, rfl⟩
          obtain ⟨p, w1⟩ := setRootAt_ok (s := s1) (pos := t.rootPos) n2.budget (by omega) n2.valid.small hsl mp2
          have hf := Frame.write n2.valid n2.budget hsl1 (r := t.rootPos % pageSize) (b := mp2.encode)
            (by rw [MemPtr.encode_length]; omega) p
          rw [hpa] at hf
          have e0 : t.insert key value s = (.ok (), s1.upd (writeAt s1.file.bytes t.rootPos mp2.encode) p) := by
            rw [hrun, heq]
            unfold newRoot
            rw [Act.bind_ok (by rw [marshal_nodeOK hok]; rfl), Act.bind_ok n1, ← hmp2, w1]
          rw [e0] at run
          cases run
          have hsno : ∀ x ∈ ps1, x ∉ [slotPage t.rootPos] := by
            intro x hx hc
            simp only [List.mem_singleton] at hc
            rcases fresh x (by simp [hx]) with hc' | hc'
            · exact ht.slotOut (hc ▸ hc')
            · exact hc' (hc ▸ ht.slotLive)
          have hl1 : ∀ x ∈ ps1, Live s1 free1 x := fun x hx => n2.live _ (live x (by simp [hx]))
          have hleft := (left.framed n2 (fun x hx => live x (by simp [hx])) (by simp)).framed hf.1 hl1 hsno
          refine ⟨h, es1, es2, ps1, hleft.openHi, ents ▸ i1, fun _ => right.nonempty, ?_, ?_, hbig⟩
          · refine List.pairwise_append.2 ⟨left.ascending, right.ascending, fun a ha b hb => ?_⟩
            have h1 := (left.bounds a ha).2 _ rfl
            have h2 := (right.bounds b hb).1 _ rfl
            exact KeyLt.trans_le h1 h2
          · have h1 := hleft.height_lt
            have h2 := pages_count (List.nodup_append.1 nodup).1 hleft.pages
            unfold fuel
            omega
        · rw [hrun, heq] at run
          unfold newRoot at run
          rw [Act.bind_ok (by rw [marshal_nodeOK hok]; rfl), Act.bind_err n1] at run
          cases run
      | full s'' eq big =>
        have e0 := eq []
        rw [List.append_nil] at e0
        rw [hrun, e0] at run
        cases run

/-- The insert that makes the entries of a tree of one page too many for it moves the root. -/
theorem insert_moves {t : Tree} {key : RV} {value : MemPtr} {s s' : PF} {free : List Nat} {es : List Entry} {ps : List Nat}
    (hw : vlen t.cfg ≤ 2016) (hk : KeyOK t.cfg key) (ht : TreeIs t s free es ps) (hne : es ≠ [])
    (run : t.insert key value s = (.ok (), s')) (h1 : leafBytes t.cfg.width es ≤ pageSize)
    (h2 : pageSize < leafBytes t.cfg.width ((key, value) :: es)) :
    slice s'.file.bytes t.rootPos 12 ≠ slice s.file.bytes t.rootPos 12 := by
  intro same
  obtain ⟨h, es1, es2, ps1, r1, r2, _, _, _, r3⟩ := insert_moved hw hk ht hne run
  have h0 : h = 0 := Decidable.byContradiction fun h0 => by have := r3 h0; omega
  subst h0
  rw [← same] at r1
  cases insert_out (value := value) hw hk ht with
  | dup p e he hk run' => rw [run] at run'; cases run'
  | full s'' new run' big => rw [run] at run'; cases run'
  | ok s'' free' es' ps' new run' rel tree out fresh grow used keep nofree =>
    rw [run] at run'
    cases run'
    rcases tree.root with ⟨_, rfl, _⟩ | ⟨_, h', hr, _⟩
    · exact absurd rel.perm.length_eq (by simp)
    · rw [← leafBytes_perm rel.perm] at h2
      obtain ⟨n, qs, hn, _, hm⟩ := r1
      obtain ⟨hl, _⟩ := hm.1 rfl
      cases h' with
      | zero =>
        obtain ⟨hs, rfl⟩ := hr.leafEntries hn
        have := hn.size_le
        rw [leafBytes_zip hs] at h2
        omega
      | succ h' =>
        obtain ⟨n', qs', hn', _, hm'⟩ := hr
        cases hn.unique hn'
        obtain ⟨hi, hkids⟩ := hm'.2.1 rfl
        rw [hl.2] at hkids
        generalize n.keys = ks at hkids
        cases hkids

variable {β : Type} {tt : TsTree} {t : Tree} {s : PF} {es : List Entry} {row : TsPtr → Res β} {stop : Bytes → Bool}

/-- A backward loop of the client from the root page it knows. -/
theorem rep_backward (hv : TsView tt t.cfg s.file.bytes es) {h : Nat} {off : UInt64} {l : UInt32} {ps : List Nat}
    (hr : Rep t.cfg s.file.bytes h off none none es ps) (hroot : tt.rootPtr = .ok (MemPtr.ts ⟨off, l⟩)) (key : RV) :
    ∀ depth fl, h < depth → es.length + 1 < fl →
      tsScan tt depth row false stop fl (tsIter key.ts) = scanList row stop (es.take (rank es key)).reverse := by
  obtain ⟨n, hn⟩ := hr.node
  obtain ⟨path, p1, _, hpath⟩ := traverse_ok (t := t) (key := key) (s := s) (l := l) hr hn (Nat.lt_succ_self h)
    (fun l hl => by cases hl) (fun l hl => by cases hl)
  obtain ⟨on, c1, _⟩ := hpath.cur hr (fun l hl => by cases hl) (fun l hl => by cases hl)
  obtain ⟨s1, s2⟩ := hpath.sim hv hr (fun _ h => h) (fun l hl => by cases hl) (fun l hl => by cases hl) hn
  have s1' := s1 [] trivial
  rw [List.append_nil] at s1'
  have hrt : tt.root = .ok n.ts := by
    unfold TsTree.root
    rw [hroot]
    simp only [Res.bind_ok]
    exact hr.tsRead hv (fun _ h => h) hn _
  intro depth fl hd hf
  have hat : TsAt tt t s ⟨key.ts, path.map TRec.ts⟩ es (rank es key) on := ⟨h, off, path, rfl, s1', c1⟩
  have hle : rank es key ≤ es.length := c1.le.1
  rw [← tsScan_prev depth _ hat (fuel := fl) (by omega)]
  obtain ⟨fl, rfl⟩ : ∃ f, fl = f + 1 := ⟨fl - 1, by omega⟩
  have hinit : tt.initRecords depth key.ts = .ok (path.map TRec.ts) := by
    unfold TsTree.initRecords
    rw [hrt]
    simp only [Res.bind_ok]
    exact s2 depth hd
  obtain ⟨r, rest, h4, _⟩ := c1.head
  have : (tsIter key.ts).prev tt depth = (TsIter.mk key.ts (path.map TRec.ts)).prev tt depth := by
    unfold TsIter.prev tsIter
    simp only [hinit, Res.bind_ok]
    rw [h4]
    rfl
  rw [tsScan, tsScan]
  simp only [Bool.false_eq_true, if_false, this]

/-- The conditions `<` and `<=` in descending order on the part of the tree that the client knows. -/
theorem rep_clause_desc (hv : TsView tt t.cfg s.file.bytes es) {h : Nat} {off : UInt64} {l : UInt32} {ps : List Nat}
    (hr : Rep t.cfg s.file.bytes h off none none es ps) (hroot : tt.rootPtr = .ok (MemPtr.ts ⟨off, l⟩))
    {op : TsOp} (hop : op = .lt ∨ op = .le) (v : Bytes) :
    ∃ xs, Answer es op v .desc xs ∧ ∀ depth fl, h < depth → es.length + 1 < fl →
      tsClause tt depth fl row op .desc v = gather (fun p => row p.ts) xs := by
  have hsmall : ∀ e ∈ es, e.1.dp.offset.toNat < 2 ^ 31 := fun e he => (hv.ents e he).1.1.1
  rcases hop with rfl | rfl
  · refine ⟨_, answer_lt hr.ascending v, fun depth fl hd hf => ?_⟩
    unfold tsClause tsScanFrom
    simp only
    rw [← lowKey_ts, rep_backward hv hr hroot (lowKey v) depth fl hd hf, scanList_eq, takeWhile_all]
  · refine ⟨_, answer_le hr.ascending hsmall v, fun depth fl hd hf => ?_⟩
    unfold tsClause tsScanFrom
    simp only
    rw [← highKey_ts, rep_backward hv hr hroot (highKey v) depth fl hd hf, scanList_eq, takeWhile_all]

end Appendable
