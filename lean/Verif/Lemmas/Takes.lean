import Verif.Lemmas.Torn
import Verif.Lemmas.AlikeRun
/-! Exact numbers of writes. -/
namespace Appendable
open Spec Tree

/-- Without a limit the operation takes `w` writes on this state: with `w + k` allowed it runs alike and `k` are left. -/
def Takes {α : Type} (w : Nat) (a : Act PF α) (s : PF) : Prop :=
  ∀ k, a (withBudget (some (w + k)) s) = ((a s).1, withBudget (some k) (a s).2)

theorem Takes.blind {α : Type} {a : Act PF α} (h : Blind a) (s : PF) : Takes 0 a s := by
  intro k
  rw [Nat.zero_add]
  exact h (some k) s

theorem Takes.bind {α β : Type} {a : Act PF α} {f : α → Act PF β} {s s1 : PF} {x : α} {w w' : Nat} (h : Takes w a s) (hx : a s = (.ok x, s1))
    (h' : Takes w' (f x) s1) : Takes (w + w') (a >>= f) s := by
  intro k
  have h1 := h (w' + k)
  rw [hx] at h1
  rw [Nat.add_assoc, Act.bind_ok h1, Act.bind_ok hx, h' k]

theorem Takes.write {b : Bytes} {s s' : PF} {n : Nat} (hb : s.file.budget = none) (h : PF.write b s = (.ok n, s')) : Takes 1 (PF.write b) s := by
  have hW : ∀ t t' : PF, t.file.budget = none → PF.onFile (File.write b) t = (.ok n, t') → Takes 1 (PF.onFile (File.write b)) t := by
    intro t t' ht hok k
    obtain ⟨⟨kind, bytes, pos, bud⟩, ring, head, count, lp⟩ := t
    simp only at ht
    subst ht
    unfold PF.onFile File.write at hok ⊢
    unfold withBudget
    simp only [Option.map_none, Nat.add_sub_cancel_left, Option.map_some, reduceCtorEq, if_false] at hok ⊢
    rw [if_neg (by simp)]
    split
    · rename_i hc; rw [if_pos hc] at hok; cases hok
    · rename_i hc
      rw [if_neg hc] at hok
      cases kind with
      | buffer =>
        simp only at hok ⊢
        split
        · rename_i hc2; rw [if_pos hc2] at hok; cases hok
        · rfl
      | mmap => rfl
  unfold PF.write at h ⊢
  obtain ⟨p, s1, e1, e2⟩ := Act.bind_okE h
  have hb1 : s1.file.budget = none := by
    have := (Calm.seekCur 0).keep s.file
    have h3 := congrArg (fun x => x.2.file.budget) e1
    simp only at h3
    rw [← h3]
    exact this.2.trans hb
  refine Takes.bind (w := 0) (w' := 1) (Takes.blind Blind.seekCur s) e1 ?_
  split at e2
  · cases e2
  · rename_i hc
    rw [if_neg hc]
    exact hW s1 s' hb1 e2

/-- Opening a new page file, with any number of writes allowed but none. -/
theorem openFile_new {f : File} (hf : f.bytes = []) (hb : f.budget ≠ some 0) :
    PF.openFile f = (.ok ⟨{ f with bytes := List.replicate pageSize 0, pos := pageSize, budget := f.budget.map (· - 1) }, List.replicate ringSize 0, 0, 0, 1⟩,
      { f with bytes := List.replicate pageSize 0, pos := pageSize, budget := f.budget.map (· - 1) }) := by
  have hseek0 : File.seekStart 0 f = (.ok 0, { f with pos := 0 }) := File.seekStart_ok (o := 0) (Nat.zero_le _)
  have hread : File.read pageSize { f with pos := 0 } = (.ok ([], true), { f with pos := 0 }) := by
    unfold File.read
    cases hk : f.kind
    · simp [hf]
    · simp [hf, pageSize]
  have hbytes : writeAt f.bytes 0 (List.replicate pageSize 0) = List.replicate pageSize 0 := by
    rw [hf]; have := writeAt_end [] (List.replicate pageSize 0); simpa using this
  have hw : ∃ n p, File.write (List.replicate pageSize 0) { f with pos := 0 } =
      (.ok n, { f with bytes := List.replicate pageSize 0, pos := p, budget := f.budget.map (· - 1) }) := by
    unfold File.write
    simp only [hbytes, List.length_replicate]
    rw [if_neg hb, if_neg (by unfold pageSize; omega)]
    cases f.kind
    · simp only
      rw [if_neg (by simp)]
      exact ⟨_, _, rfl⟩
    · exact ⟨_, _, rfl⟩
  obtain ⟨n, p, hw⟩ := hw
  have hend := File.seekEnd_ok { f with bytes := List.replicate pageSize 0, pos := p, budget := f.budget.map (· - 1) }
  simp only [List.length_replicate] at hend
  unfold PF.openFile
  rw [Act.bind_ok hseek0, Act.bind_ok hread]
  simp only [List.length_nil, Nat.sub_zero, List.nil_append, if_true]
  rw [Act.bind_ok (a := (List.replicate ringSize 0, 0, 0))
    (s' := { f with bytes := List.replicate pageSize 0, pos := p, budget := f.budget.map (· - 1) })
    (by rw [Act.bind_ok hw]; rfl)]
  simp only
  rw [Act.bind_ok hend, tmod_nat, Nat.mod_self, if_neg (by simp), Act.bind_ok (Act.get_run _)]
  rfl

/-- The page file of a new index file: a page for the free list and a meta page without slots. -/
def headBytes : Bytes := List.replicate pageSize 0 ++ LP.emptyPage 0

theorem Takes.seekWrite {x : UInt64} {b : Bytes} {s s' : PF} (hb : s.file.budget = none)
    (h : (do let _ ← LP.seekU64 x; let _ ← PF.write b; return () : Act PF Unit) s = (.ok (), s')) :
    Takes 1 (do let _ ← LP.seekU64 x; let _ ← PF.write b; return () : Act PF Unit) s := by
  obtain ⟨_, s1, e1, e2⟩ := Act.bind_okE h
  have hb1 : s1.file.budget = none := by
    have := (Calm.seekStart (int64OfU64 x.toNat)).keep s.file
    have h3 := congrArg (fun x => x.2.file.budget) e1
    simp only at h3
    rw [← h3]
    exact this.2.trans hb
  obtain ⟨n, s2, e3, e4⟩ := Act.bind_okE e2
  exact Takes.bind (w := 0) (w' := 1) (Takes.blind (Blind.seek _) s) e1 (Takes.bind (w := 1) (w' := 0) (Takes.write hb1 e3) e3 (Takes.blind (Blind.pure _) _))

theorem newMulti_takes {s : PF} (hb : s.file.budget = none) (hl : s.file.bytes.length = pageSize) {m : LP} {s' : PF}
    (h : LP.newMulti s = (.ok m, s')) : Takes 1 LP.newMulti s := by
  have hread : PF.read pageSize (s.upd s.file.bytes pageSize) = (.ok ([], true), s.upd s.file.bytes pageSize) := by
    unfold PF.read
    rw [Act.bind_ok (onFile_run (File.seekCur_ok (by simp only [upd_pos, upd_bytes]; omega)))]
    rw [tmod_nat, if_neg (by simp only [upd_pos]; rw [Nat.mod_self]; omega)]
    exact onFile_run (File.read_eof (by unfold pageSize; omega) (by simp only [upd_pos, upd_bytes]; omega))
  have h63 : pageSize < 2 ^ 62 := by decide
  unfold LP.newMulti at h ⊢
  have hp : PF.page 0 = .ok ((pageSize : Nat) : Int) := by decide
  have hp' : (Act.lift (PF.page 0) : Act PF Int) s = (.ok ((pageSize : Nat) : Int), s) := by rw [hp]; rfl
  rw [Act.bind_ok hp'] at h
  simp only at h
  rw [Act.bind_ok (seek_ok (by omega)), Act.bind_ok hread] at h
  simp only [if_true] at h
  refine Takes.bind (w := 0) (w' := 1) (Takes.blind (Blind.lift _) s) hp' ?_
  refine Takes.bind (w := 0) (w' := 1) (Takes.blind (Blind.seek _) s) (seek_ok (by omega)) ?_
  refine Takes.bind (w := 0) (w' := 1) (Takes.blind (Blind.read _) _) hread ?_
  simp only [if_true]
  obtain ⟨_, s1, e1, _⟩ := Act.bind_okE h
  refine Takes.bind (w := 1) (w' := 0) ?_ e1 (Takes.blind (Blind.pure _) _)
  unfold LP.reset at e1 ⊢
  exact Takes.seekWrite hb e1

/-- Creating the slot of the file metadata. -/
structure HeadMade (fmt : Format) (s2 s3 s4 s5 : PF) : Prop where
  next : (headAt pageSize).next s2 = (.err .eof, s3)
  b3 : s3.file.bytes = s2.file.bytes
  add : (headAt pageSize).addNext s3 = (.ok fileSlot, s4)
  addTakes : Takes 1 (headAt pageSize).addNext s3
  set : fileSlot.setMetadata (FileMeta.bytes ⟨currentVersion, fmt, 0, 0⟩) s4 = (.ok (), s5)
  setTakes : Takes 1 (fileSlot.setMetadata (FileMeta.bytes ⟨currentVersion, fmt, 0, 0⟩)) s4
  b4 : s4.file.bytes = writeAt headBytes 4104 [1]
  b5 : s5.file.bytes = freshBytes fmt
  bu5 : s5.file.budget = none
  v5 : s5.Valid []
  slots : ∃ free ps c, SlotsIn s4 free ps c [[]]

theorem head_made {s2 : PF} (g2 : SlotsIn s2 [] [pageSize] 0 []) (hbytes : s2.file.bytes = headBytes) (fmt : Format) :
    ∃ s3 s4 s5, HeadMade fmt s2 s3 s4 s5 := by
  have hlk := chain_linked_head g2.inv.chain g2.inv.pages (by omega) (by simp)
  obtain ⟨q, hq⟩ := hlk s2 rfl
  have hlen : s2.file.bytes.length = 8192 := by rw [hbytes]; unfold headBytes; rw [List.length_append, emptyPage_length, List.length_replicate]; rfl
  obtain ⟨s3, hs3⟩ : ∃ s3, s3 = s2.upd s2.file.bytes q := ⟨_, rfl⟩
  have hb3 : s3.file.bytes = s2.file.bytes := by rw [hs3]; rfl
  have hbu3 : s3.file.budget = none := by rw [hs3]; exact g2.budget
  have hv3 : s3.Valid [] := by rw [hs3]; exact (Frame.upd_pos g2.valid g2.budget q []).valid
  have hsl3 : SlotsIn s3 [] [pageSize] 0 [] := ⟨hv3, hbu3, by rw [hs3]; exact g2.live, by rw [hb3]; exact g2.inv⟩
  rw [← hs3] at hq
  have hlv : Live s3 [] pageSize := by
    refine ⟨Nat.mod_self _, Nat.le_refl _, ?_, by simp⟩
    rw [hb3, hlen]; decide
  have hon : OnPage s3.file.bytes (headAt pageSize) pageSize := by
    rw [hb3]; exact g2.inv.pages.onPage (by simp) 255
  have hhd : Hdr s3.file.bytes pageSize 0 (UInt64.ofNat (2 ^ 64 - 1)) := by
    rw [hb3]; exact g2.inv.chain.last
  obtain ⟨n, q1, hw⟩ := write_ok (s := s3.upd s3.file.bytes 4104) (b := [1]) hbu3
    (by simp only [upd_pos, upd_bytes]; rw [hb3, hlen]; omega) (by simp only [upd_pos, List.length_cons, List.length_nil]; omega)
    (by simp only [upd_pos, List.length_cons, List.length_nil]; unfold pageSize; omega)
  simp only [upd_bytes, upd_pos, upd_upd] at hw
  have hseek := seekU64_ok (s := s3.upd s3.file.bytes (pageSize + 9)) (x := (headAt pageSize).offset + 8) (n := 4104) (by decide) (by simp only [upd_bytes]; rw [hb3, hlen]; omega) (by omega)
  have hadd : (headAt pageSize).addNext s3 = (.ok fileSlot, s3.upd (writeAt s3.file.bytes 4104 [1]) q1) := by
    unfold LP.addNext
    rw [Act.bind_ok (lp_count_ok hon hhd), if_neg (by decide), if_pos (by decide), Act.bind_ok hseek]
    rw [show ((s3.upd s3.file.bytes (pageSize + 9)).upd (s3.upd s3.file.bytes (pageSize + 9)).file.bytes 4104) =
        s3.upd s3.file.bytes 4104 from rfl, show ((0 : UInt8) + 1) = 1 from rfl, Act.bind_ok hw]
    rfl
  have haddT : Takes 1 (headAt pageSize).addNext s3 := by
    unfold LP.addNext
    refine Takes.bind (w := 0) (w' := 1) (Takes.blind (Blind.count _) s3) (lp_count_ok hon hhd) ?_
    rw [if_neg (by decide), if_pos (by decide)]
    refine Takes.bind (w := 0) (w' := 1) (Takes.blind (Blind.seek _) _) hseek ?_
    rw [show ((s3.upd s3.file.bytes (pageSize + 9)).upd (s3.upd s3.file.bytes (pageSize + 9)).file.bytes 4104) =
        s3.upd s3.file.bytes 4104 from rfl, show ((0 : UInt8) + 1) = 1 from rfl]
    exact Takes.bind (w := 1) (w' := 0) (Takes.write hbu3 hw) hw (Takes.blind (Blind.pure _) _)
  have hfr := Frame.write hv3 hbu3 hlv (r := 8) (b := [1]) (by simp; unfold pageSize; omega) q1
  obtain ⟨s4, hs4⟩ : ∃ s4, s4 = s3.upd (writeAt s3.file.bytes 4104 [1]) q1 := ⟨_, rfl⟩
  have hv4 : s4.Valid [] := by rw [hs4]; exact hfr.1.valid
  have hbu4 : s4.file.budget = none := by rw [hs4]; exact hbu3
  have hb4 : s4.file.bytes = writeAt s3.file.bytes 4104 [1] := by rw [hs4]; rfl
  have hl4 : s4.file.bytes.length = 8192 := by rw [hb4, writeAt_length_inside] <;> rw [hb3, hlen]; simp
  rw [← hs4] at hadd
  have hlv4 : Live s4 [] pageSize := by
    refine ⟨Nat.mod_self _, Nat.le_refl _, ?_, by simp⟩
    rw [hl4]; decide
  have hat : AtSlot s4.file.bytes fileSlot pageSize 0 := by
    exact ⟨by decide, by decide, by decide, Nat.mod_self _, by rw [hl4]; decide, hv4.small⟩
  have hslots : ∃ free ps c, SlotsIn s4 free ps c [[]] := by
    obtain ⟨l1, l2⟩ := last_handle hsl3 (m := headAt pageSize) rfl
    rcases addNext_last hsl3 l1 l2 with ⟨x, s4', free', ps', c', a1, a2⟩ | ⟨s4', a1, _⟩
    · rw [hadd] at a1
      have : s4 = s4' := (Prod.mk.inj a1).2
      subst this
      exact ⟨free', ps', c', a2.slots⟩
    · rw [hadd] at a1; cases a1
  generalize hfm : (⟨currentVersion, fmt, 0, 0⟩ : FileMeta) = fm at *
  have hl := fileMeta_len fm
  obtain ⟨q2, hq2⟩ := lp_setMetadata_ok hat hbu4 (d := fm.bytes) (by omega)
  have hfw := Frame.write hv4 hbu4 hlv4 (r := 21) (b := UInt8.ofNat fm.bytes.length :: fm.bytes) (by simp only [List.length_cons]; unfold pageSize; omega) q2
  refine ⟨s3, s4, s4.upd (writeAt s4.file.bytes (slotPos pageSize 0 + 12) (UInt8.ofNat fm.bytes.length :: fm.bytes)) q2, hq, hb3, hadd, haddT, by rw [hfm]; exact hq2, ?_, by rw [hb4, hb3, hbytes], ?_, hbu4, hfw.1.valid, hslots⟩
  · rw [hfm]
    have h := hq2
    unfold LP.setMetadata at h ⊢
    rw [if_neg (by decide), if_neg (by unfold slotSize; omega)] at h ⊢
    exact Takes.seekWrite hbu4 h
  · simp only [upd_bytes]
    rw [hb4, hb3, hbytes]
    unfold freshBytes headBytes
    rw [hfm]
    rfl

/-- The metadata of the file are added to a file without slots. -/
theorem HeadMade.attach {fmt : Format} {s2 s3 s4 s5 : PF} (h : HeadMade fmt s2 s3 s4 s5) (hs : List Bytes) :
    IndexFile.attachAt fmt hs (headAt pageSize) s2 = (.ok ⟨fileSlot, hs⟩, s5) := by
  unfold IndexFile.attachAt
  simp only [h.next]
  rw [Act.bind_ok h.add, Act.bind_ok (a := FileMeta.bytes ⟨currentVersion, fmt, 0, 0⟩) (s' := s4) (by rw [FileMeta.marshal_eq]; rfl), Act.bind_ok h.set]
  rfl

theorem HeadMade.attach_budget {fmt : Format} {s2 s3 s4 s5 : PF} (h : HeadMade fmt s2 s3 s4 s5) (hs : List Bytes) (k : Nat) :
    IndexFile.attachAt fmt hs (headAt pageSize) (withBudget (some (2 + k)) s2) = (.ok ⟨fileSlot, hs⟩, withBudget (some k) s5) := by
  have h1 := Blind.next (headAt pageSize) (some (2 + k)) s2
  rw [h.next] at h1
  have h2 := h.addTakes (1 + k)
  rw [h.add] at h2
  have h3 := h.setTakes k
  rw [h.set] at h3
  unfold IndexFile.attachAt
  rw [show withBudget (some (2 + k)) s2 = setB (some (2 + k)) s2 from rfl]
  simp only [h1]
  rw [show setB (some (2 + k)) s3 = withBudget (some (1 + (1 + k))) s3 by rw [← Nat.add_assoc]; rfl]
  rw [Act.bind_ok h2, Act.bind_ok (a := FileMeta.bytes ⟨currentVersion, fmt, 0, 0⟩) (s' := withBudget (some (1 + k)) s4) (by rw [FileMeta.marshal_eq]; rfl), Act.bind_ok h3]
  rfl

/-- A crash after the slot and before the metadata. -/
theorem HeadMade.attach_one {fmt : Format} {s2 s3 s4 s5 : PF} (h : HeadMade fmt s2 s3 s4 s5) (hs : List Bytes) :
    (IndexFile.attachAt fmt hs (headAt pageSize) (withBudget (some 1) s2)).2.file.bytes = s4.file.bytes := by
  have h1 := Blind.next (headAt pageSize) (some 1) s2
  rw [h.next] at h1
  have h2 := h.addTakes 0
  rw [h.add] at h2
  unfold IndexFile.attachAt
  rw [show withBudget (some 1) s2 = setB (some 1) s2 from rfl]
  simp only [h1]
  rw [show setB (some 1) s3 = withBudget (some (1 + 0)) s3 from rfl]
  rw [Act.bind_ok h2, Act.bind_ok (a := FileMeta.bytes ⟨currentVersion, fmt, 0, 0⟩) (s' := withBudget (some 0) s4) (by rw [FileMeta.marshal_eq]; rfl)]
  exact ((Writes.bind (Writes.lpSetMetadata fileSlot _) (fun _ => Writes.pure _)).stop (withBudget (some 0) s4) rfl).1

/-- A crash before the slot. -/
theorem HeadMade.attach_zero {fmt : Format} {s2 s3 s4 s5 : PF} (h : HeadMade fmt s2 s3 s4 s5) (hs : List Bytes) :
    (IndexFile.attachAt fmt hs (headAt pageSize) (withBudget (some 0) s2)).2.file.bytes = s2.file.bytes := by
  have h1 := Blind.next (headAt pageSize) (some 0) s2
  rw [h.next] at h1
  unfold IndexFile.attachAt
  rw [show withBudget (some 0) s2 = setB (some 0) s2 from rfl]
  simp only [h1]
  refine (Writes.stop ?_ (setB (some 0) s3) rfl).1.trans h.b3
  exact Writes.bind (Writes.addNext _) (fun c => Writes.bind (Writes.lift _) (fun _ => Writes.bind (Writes.lpSetMetadata _ _) (fun _ => Writes.pure _)))

end Appendable
