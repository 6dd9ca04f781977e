import Verif.Lemmas.JsonlRun
/-! `Synchronize` in any state: only objects are accepted, and the file metadata counts complete lines. -/
namespace Appendable
open Spec Tree

section mono
variable {env : JEnv} {i : IndexFile} {data : Bytes} {line mp : MemPtr}

theorem Mono.insertGrams (t : Tree) (mp : MemPtr) (len : UInt32) (line : MemPtr) (gs : List Token) (n : UInt64) :
    Mono (insertGrams t mp len line gs n) := by
  induction gs generalizing n with
  | nil => exact Mono.pure _
  | cons g gs ih => exact Mono.bind (Mono.insert _ _ _) (fun _ => ih _)

theorem Mono.handleValue {rec : Dec → Act PF Dec} (hr : ∀ d, Mono (rec d)) (p : LP) (m : IndexMeta) (v : Tok) (ft : UInt8) (d : Dec) :
    Mono (handleValue env data line mp rec p m v ft d) := by
  unfold Appendable.handleValue
  have h1 := fun (t : Tree) mp len line gs n => Mono.insertGrams t mp len line gs n
  have h2 := fun (t : Tree) k v => Mono.insert t k v
  simp only
  mono

theorem Mono.handleType {rec : Dec → Act PF Dec} (hr : ∀ d, Mono (rec d)) (name : Bytes) (v : Tok) (ft : UInt8) (d : Dec) :
    Mono (handleType env i data line name mp rec v ft d) := by
  unfold Appendable.handleType
  have h1 := fun p m v ft d => Mono.handleValue (env := env) (data := data) (line := line) (mp := mp) hr p m v ft d
  have h2 := Mono.findOrCreate i; have h3 := Mono.lpSetMetadata
  mono

theorem Mono.handleTypes {rec : Dec → Act PF Dec} (hr : ∀ d, Mono (rec d)) (name : Bytes) (v : Tok) (fts : List UInt8) (d : Dec) :
    Mono (handleTypes env i data line name mp rec v fts d) := by
  induction fts generalizing d with
  | nil => exact Mono.pure _
  | cons ft fts ih => exact Mono.bind (Mono.handleType hr _ _ _ _) (fun _ => ih _)

theorem Mono.handleObj (fuel : Nat) (path : List Bytes) (d : Dec) : Mono (handleObj env i data line fuel path d) := by
  induction fuel generalizing path d with
  | zero => exact Mono.crash
  | succ fuel ih =>
    unfold Appendable.handleObj
    have h1 := fun mp path name v fts d => Mono.handleTypes (env := env) (i := i) (data := data) (line := line) (mp := mp)
      (rec := Appendable.handleObj env i data line fuel path) (ih path) name v fts d
    mono

theorem Mono.handleLine (text : Bytes) : Mono (handleLine env i data line text) := by
  unfold Appendable.handleLine
  have h1 := fun fuel path d => Mono.handleObj (env := env) (i := i) (data := data) (line := line) fuel path d
  mono

theorem Mono.syncLoop (fuel : Nat) (m : FileMeta) : Mono (syncLoop env i data fuel m) := by
  induction fuel generalizing m with
  | zero => exact Mono.crash
  | succ fuel ih =>
    unfold Appendable.syncLoop
    have h1 := fun line text => Mono.handleLine (env := env) (i := i) (data := data) (line := line) text
    mono
end mono

section
variable {α β σ : Type}
theorem Act.bind_ok_iff {a : Act σ α} {f : α → Act σ β} {s s' : σ} {b : β} :
    (a >>= f) s = (.ok b, s') ↔ ∃ x s1, a s = (.ok x, s1) ∧ f x s1 = (.ok b, s') := by
  rw [Act.bind_def]
  constructor
  · intro h
    split at h
    · rename_i x s1 he; exact ⟨x, s1, he, h⟩
    · cases h
    · cases h
  · rintro ⟨x, s1, h1, h2⟩
    rw [h1]; exact h2
end

variable {env : JEnv} {i : IndexFile} {data : Bytes} {line mp : MemPtr}

theorem handleType_ok {rec : Dec → Act PF Dec} {name : Bytes} {v : Tok} {ft : UInt8} {d d' : Dec} {s s' : PF}
    (h : handleType env i data line name mp rec v ft d s = (.ok d', s')) :
    ∃ p m n s1 s2, handleValue env data line mp rec p m v ft d s1 = (.ok (n, d'), s2) := by
  unfold handleType at h
  obtain ⟨⟨p, m⟩, s1, _, h⟩ := Act.bind_ok_iff.1 h
  obtain ⟨⟨n, d2⟩, s2, h2, h⟩ := Act.bind_ok_iff.1 h
  obtain ⟨_, s3, _, h⟩ := Act.bind_ok_iff.1 h
  obtain ⟨_, s4, _, h⟩ := Act.bind_ok_iff.1 h
  cases h
  exact ⟨p, m, n, s1, s2, h2⟩

/-- What a successful step says about the tokens. -/
inductive Took (rec : Dec → Act PF Dec) : Tok → Dec → Dec → Prop
  | scalar {v : Tok} {d : Dec} (hv : isScalar v) : Took rec v d d
  | array {d : Dec} {r : List (Tok × Nat)} (h : Skips 1 d.toks r) : Took rec .lbrack d ⟨r, d.endMore⟩
  | object {d d1 : Dec} {s1 s2 : PF} {e : Nat} {r : List (Tok × Nat)} (h : rec d s1 = (.ok d1, s2)) (ht : d1.toks = (.rbrace, e) :: r) :
      Took rec .lbrace d ⟨r, d1.endMore⟩

theorem handleValue_ok {rec : Dec → Act PF Dec} {p : LP} {m : IndexMeta} {v : Tok} {ft : UInt8} {n : UInt64} {d d' : Dec} {s s' : PF}
    (h : handleValue env data line mp rec p m v ft d s = (.ok (n, d'), s')) : Took rec v d d' ∧ (ft = 10 → isScalar v ∧ d' = d) := by
  unfold handleValue at h
  simp only at h
  by_cases hg : ft = 10 ∨ ft = 9 ∨ ft = 8
  · rw [if_pos hg] at h
    cases v with
    | str b =>
      obtain ⟨_, s1, _, h⟩ := Act.bind_ok_iff.1 h
      cases h
      exact ⟨.scalar trivial, fun _ => ⟨trivial, rfl⟩⟩
    | _ => cases h
  · rw [if_neg hg] at h
    refine ⟨?_, fun hc => absurd (.inl hc) hg⟩
    cases v with
    | str b => obtain ⟨_, s1, _, h⟩ := Act.bind_ok_iff.1 h; cases h; exact .scalar trivial
    | num b => obtain ⟨_, s1, _, h⟩ := Act.bind_ok_iff.1 h; cases h; exact .scalar trivial
    | bool b => obtain ⟨_, s1, _, h⟩ := Act.bind_ok_iff.1 h; cases h; exact .scalar trivial
    | null => obtain ⟨_, s1, _, h⟩ := Act.bind_ok_iff.1 h; cases h; exact .scalar trivial
    | lbrack =>
      simp only at h
      cases hs : skipArray 1 d.toks with
      | none => rw [hs] at h; cases h
      | some r => rw [hs] at h; cases h; exact .array (skipArray_skips hs)
    | lbrace =>
      obtain ⟨d1, s1, h1, h⟩ := Act.bind_ok_iff.1 h
      rcases ht : d1.toks with _ | ⟨⟨t, e⟩, r⟩
      · rw [ht] at h; cases h
      · rw [ht] at h
        cases t with
        | rbrace => cases h; exact .object h1 ht
        | _ => cases h
    | rbrace => cases h
    | rbrack => cases h

theorem handleTypes_cons {name : Bytes} {rec : Dec → Act PF Dec} {v : Tok} {ty : UInt8} {fts : List UInt8} {d : Dec} :
    handleTypes env i data line name mp rec v (ty :: fts) d =
      (handleType env i data line name mp rec v ty d >>= fun d' => handleTypes env i data line name mp rec v fts d') := rfl

theorem handleTypes_ok {rec : Dec → Act PF Dec} {name : Bytes} {v : Tok} {ft : UInt8} {b : Bool} {d d' : Dec} {s s' : PF}
    (h : handleTypes env i data line name mp rec v (if b then [ft, 10, 9, 8] else [ft]) d s = (.ok d', s')) : Took rec v d d' := by
  cases b with
  | false =>
    simp only [Bool.false_eq_true, if_false] at h
    rw [handleTypes_one] at h
    obtain ⟨d1, s1, h1, h⟩ := Act.bind_ok_iff.1 h
    cases h
    obtain ⟨p, m, n, a, b, h2⟩ := handleType_ok h1
    exact (handleValue_ok h2).1
  | true =>
    simp only [if_true] at h
    rw [handleTypes_cons] at h
    obtain ⟨d1, s1, h1, hA⟩ := Act.bind_ok_iff.1 h
    obtain ⟨p, m, n, a, b, g1⟩ := handleType_ok h1
    rw [handleTypes_cons] at hA
    obtain ⟨d2, s2, h2, hB⟩ := Act.bind_ok_iff.1 hA
    obtain ⟨p2, m2, n2, a2, b2, g2⟩ := handleType_ok h2
    obtain ⟨_, f2⟩ := handleValue_ok g2
    obtain ⟨hsc, e21⟩ := f2 rfl
    have hd : ∀ {x y : Dec}, Took rec v x y → y = x := by
      intro x y hk; cases hk with
      | scalar _ => rfl
      | array _ => exact absurd hsc (by simp [isScalar])
      | object _ _ => exact absurd hsc (by simp [isScalar])
    rw [handleTypes_cons] at hB
    obtain ⟨d3, s3, h3, hC⟩ := Act.bind_ok_iff.1 hB
    obtain ⟨p3, m3, n3, a3, b3, g3⟩ := handleType_ok h3
    rw [handleTypes_one] at hC
    obtain ⟨d4, s4, h4, hD⟩ := Act.bind_ok_iff.1 hC
    obtain ⟨p4, m4, n4, a4, b4, g4⟩ := handleType_ok h4
    cases hD
    rw [hd (handleValue_ok g4).1, hd (handleValue_ok g3).1, e21]
    exact (handleValue_ok g1).1

/-- If the fields of an object are handled up to a closing brace, then they are the fields of an object. -/
theorem handleObj_ok {fuel : Nat} {path : List Bytes} {d d' : Dec} {s s' : PF} (h : handleObj env i data line fuel path d s = (.ok d', s'))
    {e : Nat} {r : List (Tok × Nat)} (hr : d'.toks = (.rbrace, e) :: r) : ∃ fs, Obj path d.toks fs r := by
  induction fuel generalizing path d d' s s' e r with
  | zero => cases h
  | succ fuel ih =>
    unfold handleObj at h
    by_cases hm : d.more = false
    · rw [if_pos hm] at h
      cases h
      rw [hr]; exact ⟨[], .close⟩
    · rw [if_neg hm] at h
      rcases ht : d.toks with _ | ⟨⟨t, ke⟩, _ | ⟨⟨value, ve⟩, r1⟩⟩
      · rw [ht] at h; cases h
      · rw [ht] at h; cases t <;> cases h
      · rw [ht] at h
        cases t with
        | str key =>
          simp only at h
          rcases hft : value.fieldType with _ | ft
          · rw [hft] at h; cases h
          · rw [hft] at h
            obtain ⟨d1, s1, h1, h⟩ := Act.bind_ok_iff.1 h
            obtain ⟨fs, hfs⟩ := ih h hr
            have := handleTypes_ok h1
            cases this with
            | scalar hv => exact ⟨_, .scalar hv hfs⟩
            | array hs => exact ⟨_, .array hs hfs⟩
            | object g1 g2 =>
              obtain ⟨gs, hgs⟩ := ih g1 g2
              exact ⟨_, .object hgs hfs⟩
        | _ => cases h

theorem handleLine_ok {text : Bytes} {s s' : PF} (h : handleLine env i data line text s = (.ok (), s')) : ∃ fs, LineFields env.lex text fs := by
  unfold handleLine at h
  rcases ht : (env.lex text).toks with _ | ⟨⟨t, e⟩, r⟩
  · rw [ht] at h; cases h
  · rw [ht] at h
    cases t with
    | lbrace =>
      obtain ⟨d, s1, h1, h⟩ := Act.bind_ok_iff.1 h
      rcases hd : d.toks with _ | ⟨⟨t, e'⟩, r'⟩
      · rw [hd] at h; cases h
      · rw [hd] at h
        cases t with
        | rbrace =>
          obtain ⟨fs, hfs⟩ := handleObj_ok h1 hd
          exact ⟨fs, e, r, r', ht, hfs⟩
        | _ => cases h
    | _ => cases h

/-- The loop in any state. -/
theorem syncLoop_ok {tail : Bytes} (ht : (10 : UInt8) ∉ tail) (hd : data.length < 2 ^ 64) (ls : List Bytes) (pre : List Bytes)
    (hda : data = fileOf pre [] ++ fileOf ls tail) (hno : ∀ x ∈ ls, (10 : UInt8) ∉ x) {fuel : Nat} {m m' : FileMeta} {s s' : PF}
    (hro : m.readOffset = UInt64.ofNat (fileOf pre []).length) (h : syncLoop env i data fuel m s = (.ok m', s')) :
    m' = { m with readOffset := UInt64.ofNat (fileOf (pre ++ ls) []).length, entries := m.entries + UInt64.ofNat ls.length } ∧
    (∀ l ∈ ls, ∃ fs, LineFields env.lex l fs) ∧ (ls = [] → s' = s) := by
  induction ls generalizing pre fuel m s with
  | nil =>
    cases fuel with
    | zero => cases h
    | succ fuel =>
      have hn : m.readOffset.toNat = (fileOf pre []).length := by
        rw [hro, UInt64.toNat_ofNat', Nat.mod_eq_of_lt]
        rw [hda, List.length_append] at hd; omega
      unfold syncLoop at h
      have hdr : data.drop (fileOf pre []).length = tail := by
        rw [hda, List.drop_left']
        · simp [fileOf]
        · rfl
      rw [if_neg (by rw [hn, hda, List.length_append]; omega), hn, hdr, indexNewline_none.2 ht] at h
      cases h
      refine ⟨?_, by simp, fun _ => rfl⟩
      rw [List.append_nil, ← hro]; simp
  | cons x ls ih =>
    cases fuel with
    | zero => cases h
    | succ fuel =>
      have hlen : data.length = (fileOf pre []).length + (x.length + 1 + (fileOf ls tail).length) := by
        rw [hda, fileOf_cons]; simp only [List.length_append, List.length_cons]; omega
      have hn : m.readOffset.toNat = (fileOf pre []).length := by
        rw [hro, UInt64.toNat_ofNat', Nat.mod_eq_of_lt]; omega
      have hdr : data.drop (fileOf pre []).length = x ++ 10 :: fileOf ls tail := by
        rw [hda, List.drop_left', fileOf_cons]
        rfl
      unfold syncLoop at h
      rw [if_neg (by rw [hn]; omega), hn, hdr, indexNewline_line (hno x (by simp))] at h
      simp only [List.take_left'] at h
      obtain ⟨_, s1, h1, h⟩ := Act.bind_ok_iff.1 h
      have hp : (fileOf (pre ++ [x]) []).length = (fileOf pre []).length + x.length + 1 := by
        rw [fileOf_append]; simp [fileOf]; omega
      obtain ⟨g1, g2, _⟩ := ih (pre ++ [x]) (by rw [hda, fileOf_cons, fileOf_append]; simp [fileOf]) (fun y hy => hno y (by simp [hy])) (by
        simp only; rw [hp, hro, UInt64.ofNat_add, UInt64.ofNat_add]; rfl) h
      refine ⟨?_, ?_, by simp⟩
      · rw [g1]
        simp only [List.append_assoc, List.singleton_append, List.length_cons, FileMeta.mk.injEq, true_and]
        rw [UInt64.ofNat_add, UInt64.add_assoc, UInt64.add_comm 1]; rfl
      · intro l hl
        rcases List.mem_cons.1 hl with rfl | hl
        · exact handleLine_ok h1
        · exact g2 l hl

end Appendable
