import Verif.Spec.Ts
import Verif.Lemmas.TsVarint
import Verif.Lemmas.Rep
/-! The client reads a node as the Go code wrote it. -/
namespace Appendable
open Spec

/-- The client's view of a node. -/
def Node.ts (n : Node) : TsNode := ⟨n.keys.map RV.ts, n.leafPtrs.map MemPtr.ts, n.intPtrs.map (fun p => (p.toNat : Int))⟩

theorem At.js {buf s : Bytes} {m : Nat} (h : At buf m s) : jsSliceFrom buf m = s := by
  have := h.2
  unfold jsSliceFrom jsIndex
  rw [if_neg (by omega), Int.toNat_natCast, Nat.min_eq_left this]
  exact h.1

theorem At.jsSlice {buf a s : Bytes} {m : Nat} (h : At buf m (a ++ s)) {e : Int} (he : e = ((m + a.length : Nat) : Int)) :
    jsSlice buf m e = a := by
  have h2 := h.len
  have h3 := h.2
  simp only [List.length_append] at h2
  subst he
  unfold Appendable.jsSlice jsIndex
  rw [if_neg (by omega), if_neg (by omega), Int.toNat_natCast, Int.toNat_natCast, Nat.min_eq_left h3,
    Nat.min_eq_left (by omega), h.1, Nat.add_sub_cancel_left]
  simp

theorem tsUvarint_at {buf s : Bytes} {m : Nat} {v : UInt64} (h : At buf m (putUvarint v ++ s)) (hv : v.toNat < 2 ^ 31) :
    tsUvarint (jsSliceFrom buf m) = ((v.toNat : Int), ((putUvarint v).length : Int)) := by
  rw [h.js, tsUvarint_small hv]

theorem tsReadPtr_at {buf s : Bytes} {m : Nat} {p : MemPtr} (h : At buf m (encLeafPtr p ++ s)) (hp : SmallPtr p) :
    tsReadPtr buf m = (p.ts, ((m + (encLeafPtr p).length : Nat) : Int)) := by
  unfold encLeafPtr at h
  rw [List.append_assoc] at h
  have h2 := h.advance
  unfold tsReadPtr
  rw [tsUvarint_at h hp.1]
  simp only
  rw [show ((m : Int) + ((putUvarint p.offset).length : Int)) = ((m + (putUvarint p.offset).length : Nat) : Int) by omega,
    tsUvarint_at h2 (by simpa using hp.2)]
  simp only [encLeafPtr, List.length_append, MemPtr.ts, Prod.mk.injEq]
  refine ⟨by simp, by omega⟩

theorem tsReadMany_at {α β : Type} {read : Bytes → Int → β × Int} {enc : α → Bytes} {img : α → β} {P : α → Prop}
    (hr : ∀ (buf : Bytes) (m : Nat) (a : α) (s : Bytes), P a → At buf m (enc a ++ s) →
      read buf m = (img a, ((m + (enc a).length : Nat) : Int)))
    (as : List α) {buf : Bytes} {m : Nat} {s : Bytes} (hp : ∀ a ∈ as, P a)
    (h : At buf m ((as.map enc).flatten ++ s)) :
    tsReadMany read buf as.length m = (as.map img, ((m + (as.map enc).flatten.length : Nat) : Int)) := by
  induction as generalizing m with
  | nil => simp [tsReadMany]
  | cons a as ih =>
    simp only [List.map_cons, List.flatten_cons, List.append_assoc] at h
    simp only [List.length_cons, tsReadMany]
    rw [hr _ _ a _ (hp a (by simp)) h]
    simp only
    rw [ih (fun b hb => hp b (by simp [hb])) h.advance]
    simp only [List.map_cons, List.flatten_cons, List.length_append, Nat.add_assoc]

/-- The key as it is read before the values are fetched. -/
def preKey (w : UInt16) (k : RV) : TsRV := ⟨k.dp.ts, if w = 0 then [] else k.value⟩

theorem tsReadKey_at {cfg : Cfg} (buf : Bytes) (m : Nat) (k : RV) (s : Bytes) (hk : KeyOK cfg k ∧ SmallPtr k.dp)
    (h : At buf m (encKey cfg.width k ++ s)) :
    tsReadKey cfg.width.toNat buf m = (preKey cfg.width k, ((m + (encKey cfg.width k).length : Nat) : Int)) := by
  obtain ⟨hk, hs⟩ := hk
  have he : encKey cfg.width k = encLeafPtr k.dp ++ (if cfg.width ≠ 0 then k.value else []) := rfl
  rw [he, List.append_assoc] at h
  unfold tsReadKey
  rw [tsReadPtr_at h hs]
  simp only
  unfold KeyOK at hk
  by_cases hw : cfg.width = 0
  · rw [he]
    simp [hw, preKey]
  · simp only [hw, if_false] at hk
    have hw' : cfg.width.toNat ≠ 0 := fun hc => hw (UInt16.toNat_inj.1 (by simpa using hc))
    have ha := h.advance
    simp only [ne_eq, hw, not_false_iff, if_true] at ha
    have hsub : (cfg.width - 1).toNat = cfg.width.toNat - 1 := by
      rw [UInt16.toNat_sub_of_le]
      · rfl
      · rw [UInt16.le_iff_toNat_le]; simp; omega
    rw [if_neg hw', ha.jsSlice (by rw [hk, hsub]; omega)]
    simp only [he, ne_eq, hw, not_false_iff, if_true, List.length_append, preKey, if_false, Prod.mk.injEq, true_and]
    omega

theorem tsFill_ok {parse : Bytes → Res Bytes} {cfg : Cfg} (hw : cfg.width = 0) : ∀ (ks : List RV),
    (∀ k ∈ ks, Readable parse cfg k) →
    tsFill parse (ks.map (preKey cfg.width)) (ks.map (fun k => slice cfg.data k.dp.offset.toNat k.dp.length.toNat))
      = .ok (ks.map RV.ts) := by
  intro ks
  induction ks with
  | nil => intro _; rfl
  | cons k ks ih =>
    intro h
    simp only [List.map_cons, tsFill]
    rw [((h k (by simp)).2 hw).2]
    simp only [Res.bind_ok]
    rw [ih (fun k' hk' => h k' (by simp [hk']))]
    rfl

/-- Reading a stored node. -/
theorem tsUnmarshal_content {dat : Resolver} {parse : Bytes → Res Bytes} {cfg : Cfg} (hd : Faithful dat cfg.data)
    (n : Node) (h : NodeOK cfg n) (hk : ∀ k ∈ n.keys, Readable parse cfg k) (hl : ∀ p ∈ n.leafPtrs, SmallPtr p)
    (hi : ∀ p ∈ n.intPtrs, p.toNat < 2 ^ 31) (rest : Bytes) :
    tsUnmarshal dat parse cfg.width.toNat (n.content cfg.width ++ rest) = .ok n.ts := by
  obtain ⟨hk0, hk1, hshape, hkeys⟩ := h
  have hlen := content_length cfg.width n
  have hsz := size_ge cfg.width n
  unfold tsUnmarshal
  rw [if_neg (by simp only [List.length_append]; omega)]
  have htake : (n.content cfg.width ++ rest).take 4 = encHeader n := by
    unfold Node.content
    simp only [List.append_assoc]
    exact List.take_left' (by simp [encHeader])
  have hAt : At (n.content cfg.width ++ rest) 4
      ((n.keys.map (encKey cfg.width)).flatten ++ ((n.leafPtrs.map encLeafPtr).flatten
    ++ ((n.intPtrs.map putUvarint).flatten ++ rest))) := by
    have := At.start (n.content cfg.width ++ rest)
    conv at this => rhs; unfold Node.content
    simp only [List.append_assoc] at this
    have := this.advance
    simpa [encHeader] using this
  simp only [htake]
  have hmod : n.keys.length % 2 ^ 32 = n.keys.length := Nat.mod_eq_of_lt (by omega)
  have hKeys := tsReadMany_at (P := fun k => KeyOK cfg k ∧ SmallPtr k.dp) tsReadKey_at n.keys
    (fun k hh => ⟨hkeys k hh, (hk k hh).1⟩) hAt
  -- fetching the values
  have hfetch : tsFetch dat parse cfg.width.toNat (n.keys.map (preKey cfg.width)) = .ok (n.keys.map RV.ts) := by
    unfold tsFetch
    by_cases hw : cfg.width = 0
    · rw [if_pos (by rw [hw]; rfl), List.map_map]
      rw [hd _ ?_]
      · simp only [Res.bind_ok, List.map_map]
        rw [← tsFill_ok hw n.keys hk]
        congr 1
        apply List.map_congr_left
        intro k hkm
        have := hk k hkm
        simp only [Function.comp, preKey, MemPtr.ts]
        congr 1
        have := (this.2 hw).1
        omega
      · intro x hx
        obtain ⟨k, hkm, rfl⟩ := List.mem_map.1 hx
        have h1 := ((hk k hkm).2 hw).1
        have h2 := hkeys k hkm
        unfold KeyOK at h2
        rw [if_pos hw] at h2
        simp only [Function.comp, preKey, MemPtr.ts]
        omega
    · rw [if_neg (fun hc => hw (UInt16.toNat_inj.1 (by simpa using hc)))]
      simp [preKey, hw, RV.ts]
  rcases hshape with ⟨hs1, hs2⟩ | ⟨hs1, hs2⟩
  · have hleaf : n.leaf = true := by unfold Node.leaf; simp; omega
    have hh : leNat (encHeader n) = 2 ^ 32 - n.keys.length := by
      unfold encHeader
      rw [leNat_leBytes _ _ (by split <;> omega), if_pos hleaf, hmod]; omega
    rw [hh, if_neg (by omega)]
    have hd1 : decide (2 ^ 32 - n.keys.length > 2147483647) = true := by simp; omega
    have hsub : 2 ^ 32 - (2 ^ 32 - n.keys.length) = n.keys.length := by omega
    simp only [hd1, if_true, hsub]
    rw [show ((4:Int)) = ((4:Nat):Int) from rfl, hKeys]
    simp only
    rw [hfetch]
    simp only [Res.bind_ok, Res.pure_eq]
    rw [← hs1, tsReadMany_at (P := SmallPtr) (fun buf m a s hp hh => tsReadPtr_at hh hp) n.leafPtrs hl hAt.advance]
    simp [Node.ts, hs2]
  · have hleaf : n.leaf = false := by unfold Node.leaf; simp [hs2]
    have hh : leNat (encHeader n) = n.keys.length := by
      unfold encHeader
      rw [leNat_leBytes _ _ (by split <;> omega), if_neg (by simp [hleaf]), hmod]
    rw [hh, if_neg (by omega)]
    have hd1 : decide (n.keys.length > 2147483647) = false := by simp; omega
    simp only [hd1, Bool.false_eq_true, if_false]
    rw [show ((4:Int)) = ((4:Nat):Int) from rfl, hKeys]
    simp only
    rw [hfetch]
    simp only [Res.bind_ok, Res.pure_eq]
    have h3 := hAt.advance
    rw [hs2] at h3
    simp only [List.map_nil, List.flatten_nil, List.nil_append] at h3
    rw [← hs1, tsReadMany_at (P := fun p : UInt64 => p.toNat < 2 ^ 31) (enc := putUvarint) (img := fun p => (p.toNat : Int))
      (fun buf m a s hp hh => by rw [tsUvarint_at hh hp]; simp) n.intPtrs hi h3]
    simp [Node.ts, hs2]

end Appendable
