import Verif.Lemmas.Miss
import Verif.Props.TreeWitness
/-! C13 and C14 in every index of more than one page. -/
namespace Appendable
open Spec Tree

section
variable {ts : List Tree} {s : PF} {c : Nat → List (RV × MemPtr)} {i : Nat} {t : Tree}

/-- C13 is violated in every tree whose entries do not fit into one page, whatever its history: there is an entry `e` that is not
the first one, such that `Find` returns nothing for every key that lies between the entries before `e` and `e`. -/
theorem C13_every_big_violated (hf : ForestRun ts s c) (ht : ts[i]? = some t) (hbig : 4096 < leafBytes t.cfg.width (c i)) :
    ∃ e ∈ c i, (∃ x ∈ c i, KeyLt x.1 e.1) ∧ ∀ k, KeyLt k e.1 → (∀ x ∈ c i, KeyLt x.1 e.1 → KeyLt x.1 k) → (t.find k s).1 = .ok (minKey, ⟨0, 0⟩) := by
  obtain ⟨free, E, P, hi⟩ := forestInv hf
  obtain ⟨hti, hw, hp⟩ := hi.tree i t ht
  obtain ⟨e, he, ⟨x, hx, hxe⟩, hm⟩ := miss hti (by rw [leafBytes_perm hp]; exact hbig)
  refine ⟨e, hp.mem_iff.1 he, ⟨x, hp.mem_iff.1 hx, hxe⟩, fun k h1 h2 => ?_⟩
  obtain ⟨it, q, hn⟩ := hm k h1 (fun y hy => h2 y (hp.mem_iff.1 hy))
  obtain ⟨r, s', hr, _⟩ := C13_find_partial k hf ht
  unfold Tree.find at hr ⊢
  rw [Act.bind_ok hn] at hr ⊢
  cases hie : it.err with
  | none => simp only [hie]; rfl
  | some e => simp only [hie] at hr; cases hr

/-- C14 is violated in every tree whose entries do not fit into one page and have different values: there is an entry whose value
is denied by `Contains` with a zero data pointer. -/
theorem C14_every_big_violated (hf : ForestRun ts s c) (ht : ts[i]? = some t) (hbig : 4096 < leafBytes t.cfg.width (c i))
    (hv : ∀ e ∈ c i, ∀ x ∈ c i, e.1.value = x.1.value → e = x) (h0 : ∀ e ∈ c i, e.1.dp ≠ ⟨0, 0⟩) :
    ∃ e ∈ c i, (t.contains ⟨⟨0, 0⟩, e.1.value⟩ s).1 = .ok false := by
  obtain ⟨e, he, ⟨x, hx, hxe⟩, hm⟩ := C13_every_big_violated hf ht hbig
  have hkey : KeyLt ⟨⟨0, 0⟩, e.1.value⟩ e.1 := by
    refine .inr ⟨rfl, ?_⟩
    have hne := h0 e he
    by_cases ho : e.1.dp.offset = 0
    · right
      refine ⟨ho.symm, ?_⟩
      rw [UInt32.lt_iff_toNat_lt]
      have : e.1.dp.length ≠ 0 := by
        intro hl; apply hne
        cases hd : e.1.dp with
        | mk a b => rw [hd] at ho hl; simp only at ho hl; rw [ho, hl]
      have : e.1.dp.length.toNat ≠ 0 := fun hc => this (UInt32.toNat_inj.1 hc)
      show (0 : UInt32).toNat < _
      simp only [UInt32.toNat_zero]
      omega
    · left
      rw [UInt64.lt_iff_toNat_lt]
      have : e.1.dp.offset.toNat ≠ 0 := fun hc => ho (UInt64.toNat_inj.1 hc)
      show (0 : UInt64).toNat < _
      simp only [UInt64.toNat_zero]
      omega
  have hbelow : ∀ y ∈ c i, KeyLt y.1 e.1 → List.Lex (· < ·) y.1.value e.1.value := by
    intro y hy hlt
    rcases hlt with hlt | ⟨hvv, hlt⟩
    · exact hlt
    · have := hv y hy e he hvv
      subst this
      exact absurd (Or.inr ⟨rfl, hlt⟩) (KeyLt.irrefl y.1)
  refine ⟨e, he, ?_⟩
  have hfind := hm ⟨⟨0, 0⟩, e.1.value⟩ hkey (fun y hy hlt => .inl (hbelow y hy hlt))
  have hne : e.1.value ≠ [] := by
    intro hc
    have := hbelow x hx hxe
    rw [hc] at this
    generalize x.1.value = v at this
    cases this
  unfold Tree.contains
  obtain ⟨r, q, hr⟩ : ∃ r q, t.find ⟨⟨0, 0⟩, e.1.value⟩ s = (r, q) := ⟨_, _, rfl⟩
  rw [hr] at hfind
  simp only at hfind
  rw [hfind] at hr
  rw [Act.bind_ok hr]
  show Res.ok (minKey.value == e.1.value) = _
  rw [show (minKey.value == e.1.value) = false from beq_false_of_ne (fun hc => hne hc.symm)]

end

/-- Non-vacuity of both: the tree of three entries of 2016 bytes each. -/
example : ∃ s c, ForestRun [Demo.tree] s c ∧ (∃ e ∈ c 0, (Demo.tree.contains ⟨⟨0, 0⟩, e.1.value⟩ s).1 = .ok false) ∧
    ∃ e ∈ c 0, ∃ x ∈ c 0, KeyLt x.1 e.1 := by
  obtain ⟨s, c, h1, h2, _⟩ := Demo.exists_three
  have hbig : 4096 < leafBytes Demo.tree.cfg.width (c 0) := by rw [h2]; decide +kernel
  refine ⟨s, c, h1, C14_every_big_violated h1 rfl hbig ?_ ?_, ?_⟩
  · rw [h2]
    intro e he x hx
    simp only [List.mem_cons, List.not_mem_nil, or_false] at he hx
    intro hv
    have h0 : e.1.value[0]? = x.1.value[0]? := by rw [hv]
    rcases he with rfl | rfl | rfl <;> rcases hx with rfl | rfl | rfl <;> first | rfl | exact absurd h0 (by decide +kernel)
  · rw [h2]
    intro e he
    simp only [List.mem_cons, List.not_mem_nil, or_false] at he
    rcases he with rfl | rfl | rfl <;> decide
  · obtain ⟨e, he, hx, _⟩ := C13_every_big_violated h1 rfl hbig
    exact ⟨e, he, hx⟩

end Appendable
