import Verif.Lemmas.JsonStr
/-! The tokens of JSON texts. -/
namespace Appendable
open Spec

variable {num : Bytes → Option UInt64}

theorem Ws.space {ws : Bytes} (h : Ws ws) : ∀ c ∈ ws, jsonSpace c = true := by
  intro c hc
  rcases h c hc with rfl | rfl | rfl | rfl <;> decide

theorem skipSpace_ws {ws : Bytes} (h : Ws ws) (pos : Nat) (rest : Bytes) : skipSpace pos (ws ++ rest) = skipSpace (pos + ws.length) rest := by
  induction ws generalizing pos with
  | nil => rfl
  | cons c ws ih =>
    rw [List.cons_append, skipSpace, if_pos (Ws.space h c (by simp)), ih (fun c hc => h c (by simp [hc]))]
    congr 1
    simp; omega

theorem nextTok_ws {ws : Bytes} (h : Ws ws) (f pos : Nat) (stk : List TState) (st : TState) (rest : Bytes) :
    nextTok num f ⟨stk, st, pos, ws ++ rest⟩ = nextTok num f ⟨stk, st, pos + ws.length, rest⟩ := by
  cases f with
  | zero => rfl
  | succ f => rw [nextTok, nextTok, skipSpace_ws h]

/-- Reading the next token in `x` is reading it in `x'`: between them there are only white space, a comma or a colon. -/
def Leads (num : Bytes → Option UInt64) (x x' : LexState) : Prop := ∀ r, (∀ f, nextTok num (f + 1) x' = some r) → nextTok num 3 x = some r

theorem nextTok_comma_arr (f pos : Nat) (stk : List TState) (rest : Bytes) :
    nextTok num (f + 1) ⟨stk, .arrayComma, pos, 44 :: rest⟩ = nextTok num f ⟨stk, .arrayValue, pos + 1, rest⟩ := by
  rw [nextTok, skipSpace, if_neg (by decide)]
  simp

theorem nextTok_comma_obj (f pos : Nat) (stk : List TState) (rest : Bytes) :
    nextTok num (f + 1) ⟨stk, .objectComma, pos, 44 :: rest⟩ = nextTok num f ⟨stk, .objectKey, pos + 1, rest⟩ := by
  rw [nextTok, skipSpace, if_neg (by decide)]
  simp

theorem nextTok_colon (f pos : Nat) (stk : List TState) (rest : Bytes) :
    nextTok num (f + 1) ⟨stk, .objectColon, pos, 58 :: rest⟩ = nextTok num f ⟨stk, .objectValue, pos + 1, rest⟩ := by
  rw [nextTok, skipSpace, if_neg (by decide)]
  simp

theorem nextTok_rbrack (f pos : Nat) (top : TState) (stk : List TState) (rest : Bytes) {st : TState} (h : st = .arrayStart ∨ st = .arrayComma) :
    nextTok num (f + 1) ⟨top :: stk, st, pos, 93 :: rest⟩ = some (.rbrack, ⟨stk, top.valueEnd, pos + 1, rest⟩) := by
  rw [nextTok, skipSpace, if_neg (by decide)]
  simp [h]

theorem nextTok_rbrace (f pos : Nat) (top : TState) (stk : List TState) (rest : Bytes) {st : TState} (h : st = .objectStart ∨ st = .objectComma) :
    nextTok num (f + 1) ⟨top :: stk, st, pos, 125 :: rest⟩ = some (.rbrace, ⟨stk, top.valueEnd, pos + 1, rest⟩) := by
  rw [nextTok, skipSpace, if_neg (by decide)]
  simp [h]

theorem nextTok_lbrack (f pos : Nat) (stk : List TState) (rest : Bytes) {st : TState} (h : st.valueAllowed = true) :
    nextTok num (f + 1) ⟨stk, st, pos, 91 :: rest⟩ = some (.lbrack, ⟨st :: stk, .arrayStart, pos + 1, rest⟩) := by
  rw [nextTok, skipSpace, if_neg (by decide)]
  simp [h]

theorem nextTok_lbrace (f pos : Nat) (stk : List TState) (rest : Bytes) {st : TState} (h : st.valueAllowed = true) :
    nextTok num (f + 1) ⟨stk, st, pos, 123 :: rest⟩ = some (.lbrace, ⟨st :: stk, .objectStart, pos + 1, rest⟩) := by
  rw [nextTok, skipSpace, if_neg (by decide)]
  simp [h]

theorem nextTok_scalar (f pos : Nat) (stk : List TState) (c : UInt8) (b : Bytes) {st : TState} (h : st.valueAllowed = true) {t : Tok} {n : Nat}
    (hc : jsonSpace c = false ∧ c ≠ 91 ∧ c ≠ 93 ∧ c ≠ 123 ∧ c ≠ 125 ∧ c ≠ 58 ∧ c ≠ 44)
    (hr : readScalar num (c :: b) = some (t, n)) :
    nextTok num (f + 1) ⟨stk, st, pos, c :: b⟩ = some (t, ⟨stk, st.valueEnd, pos + n, (c :: b).drop n⟩) := by
  obtain ⟨h0, h1, h2, h3, h4, h5, h6⟩ := hc
  have hk : ¬ (c = 34 ∧ (st = .objectStart ∨ st = .objectKey)) := by
    rintro ⟨_, rfl | rfl⟩ <;> simp [TState.valueAllowed] at h
  rw [nextTok, skipSpace, h0]
  simp [h1, h2, h3, h4, h5, h6, hk, h, hr]

theorem nextTok_key (f pos : Nat) (stk : List TState) {l : Lit} (hl : l.WF) (rest : Bytes) {st : TState} (h : st = .objectStart ∨ st = .objectKey) :
    nextTok num (f + 1) ⟨stk, st, pos, l.text ++ rest⟩ = some (.str l.value, ⟨stk, .objectColon, pos + l.text.length, rest⟩) := by
  have hr := readScalar_lit (num := num) hl rest
  have hd : (l.text ++ rest).drop l.text.length = rest := List.drop_left
  obtain ⟨b, hb⟩ : ∃ b, l.text ++ rest = 34 :: b := ⟨_, rfl⟩
  obtain ⟨n, hn⟩ : ∃ n, n = l.text.length := ⟨_, rfl⟩
  rw [← hn] at hr hd ⊢
  rw [hb] at hr hd ⊢
  rw [nextTok, skipSpace, if_neg (by decide)]
  simp [h, hr, hd]

theorem Leads.ws {ws : Bytes} (h : Ws ws) (pos : Nat) (stk : List TState) (st : TState) (rest : Bytes) :
    Leads num ⟨stk, st, pos, ws ++ rest⟩ ⟨stk, st, pos + ws.length, rest⟩ := by
  intro r hr
  rw [nextTok_ws h]
  exact hr 2

theorem Leads.item {ws pre : Bytes} (h : Ws ws) (h' : Ws pre) (pos : Nat) (stk : List TState) (rest : Bytes) :
    Leads num ⟨stk, .arrayComma, pos, ws ++ (44 :: (pre ++ rest))⟩ ⟨stk, .arrayValue, pos + ws.length + 1 + pre.length, rest⟩ := by
  intro r hr
  rw [nextTok_ws h, nextTok_comma_arr, nextTok_ws h']
  exact hr 1

theorem Leads.key {ws pre : Bytes} (h : Ws ws) (h' : Ws pre) (pos : Nat) (stk : List TState) (rest : Bytes) :
    Leads num ⟨stk, .objectComma, pos, ws ++ (44 :: (pre ++ rest))⟩ ⟨stk, .objectKey, pos + ws.length + 1 + pre.length, rest⟩ := by
  intro r hr
  rw [nextTok_ws h, nextTok_comma_obj, nextTok_ws h']
  exact hr 1

theorem Leads.value {ws pre : Bytes} (h : Ws ws) (h' : Ws pre) (pos : Nat) (stk : List TState) (rest : Bytes) :
    Leads num ⟨stk, .objectColon, pos, ws ++ (58 :: (pre ++ rest))⟩ ⟨stk, .objectValue, pos + ws.length + 1 + pre.length, rest⟩ := by
  intro r hr
  rw [nextTok_ws h, nextTok_colon, nextTok_ws h']
  exact hr 1

mutual
/-- The tokens of a value at a position, with the positions after them. -/
def Doc.toks (num : Bytes → Option UInt64) (pos : Nat) : Doc → List (Tok × Nat)
  | .arr ws items => (.lbrack, pos + 1) :: Items.toks num (pos + 1 + ws.length) true items
  | .obj ws ms => (.lbrace, pos + 1) :: Members.toks num (pos + 1 + ws.length) true ms
  | .str l => [(.str l.value, pos + l.text.length)]
  | .num n => [(.num ((num n.text).getD 0), pos + n.text.length)]
  | .bool true => [(.bool true, pos + 4)]
  | .bool false => [(.bool false, pos + 5)]
  | .null => [(.null, pos + 4)]
def Items.toks (num : Bytes → Option UInt64) (pos : Nat) (first : Bool) : Items → List (Tok × Nat)
  | .nil => [(.rbrack, pos + 1)]
  | .cons pre v post rest =>
    Doc.toks num (pos + (if first then 0 else 1) + pre.length) v ++
      Items.toks num (pos + (if first then 0 else 1) + pre.length + v.text.length + post.length) false rest
def Members.toks (num : Bytes → Option UInt64) (pos : Nat) (first : Bool) : Members → List (Tok × Nat)
  | .nil => [(.rbrace, pos + 1)]
  | .cons pre key gap mid v post rest =>
    (.str key.value, pos + (if first then 0 else 1) + pre.length + key.text.length) ::
    (Doc.toks num (pos + (if first then 0 else 1) + pre.length + key.text.length + gap.length + 1 + mid.length) v ++
      Members.toks num (pos + (if first then 0 else 1) + pre.length + key.text.length + gap.length + 1 + mid.length + v.text.length + post.length) false rest)
end

theorem Stops.ws {ws : Bytes} (h : Ws ws) {rest : Bytes} (hr : Stops rest) : Stops (ws ++ rest) := by
  cases ws with
  | nil => exact hr
  | cons c ws =>
    intro c' hc'
    cases hc'
    rcases h c (by simp) with rfl | rfl | rfl | rfl <;> decide

theorem stops_items (items : Items) (rest : Bytes) : Stops (items.text false ++ rest) := by
  intro c hc
  cases items <;> (simp [Items.text] at hc; subst hc; decide)

theorem stops_members (ms : Members) (rest : Bytes) : Stops (ms.text false ++ rest) := by
  intro c hc
  cases ms <;> (simp [Members.text] at hc; subst hc; decide)

theorem num_first {n : Num} (h : n.WF) : ∃ c cs, n.text = c :: cs ∧ jsonSpace c = false ∧ c ≠ 91 ∧ c ≠ 93 ∧ c ≠ 123 ∧ c ≠ 125 ∧ c ≠ 58 ∧ c ≠ 44 := by
  obtain ⟨c, cs, he, hc⟩ := num_head h
  refine ⟨c, cs, he, ?_⟩
  revert hc
  revert c
  exact fun c _ => byte_all (P := fun c => (c = 45 ∨ 48 ≤ c.toNat ∧ c.toNat ≤ 57) → jsonSpace c = false ∧ c ≠ 91 ∧ c ≠ 93 ∧ c ≠ 123 ∧ c ≠ 125 ∧ c ≠ 58 ∧ c ≠ 44) (by decide +kernel) c

theorem LexRun.one {x y x' : LexState} {t : Tok} (h : Leads num x x') (h' : ∀ f, nextTok num (f + 1) x' = some (t, y)) : LexRun num x [(t, y.pos)] y :=
  .cons (h _ h') .nil

mutual
theorem Doc.steps (v : Doc) (hv : v.WF num) {stk : List TState} {st : TState} (hs : st.valueAllowed = true) {pos : Nat} {rest : Bytes} (hr : Stops rest)
    {x : LexState} (hx : Leads num x ⟨stk, st, pos, v.text ++ rest⟩) :
    LexRun num x (Doc.toks num pos v) ⟨stk, st.valueEnd, pos + v.text.length, rest⟩ := by
  have lit : ∀ (c : UInt8) (b : Bytes) (t : Tok), v.text = c :: b → (jsonSpace c = false ∧ c ≠ 91 ∧ c ≠ 93 ∧ c ≠ 123 ∧ c ≠ 125 ∧ c ≠ 58 ∧ c ≠ 44) →
      readScalar num (v.text ++ rest) = some (t, v.text.length) → LexRun num x [(t, pos + v.text.length)] ⟨stk, st.valueEnd, pos + v.text.length, rest⟩ := by
    intro c b t he hc hrd
    refine LexRun.one (y := ⟨stk, st.valueEnd, pos + v.text.length, rest⟩) hx fun f => ?_
    have hd : (v.text ++ rest).drop v.text.length = rest := List.drop_left
    obtain ⟨n, hn⟩ : ∃ n, n = v.text.length := ⟨_, rfl⟩
    rw [← hn] at hrd hd ⊢
    rw [he] at hrd hd ⊢
    rw [List.cons_append] at hrd hd ⊢
    rw [nextTok_scalar f pos stk c _ hs hc hrd, hd]
  cases v with
  | str l =>
    unfold Doc.WF at hv
    unfold Doc.toks
    exact lit 34 _ _ (by unfold Doc.text; rfl) (by decide) (by unfold Doc.text; exact readScalar_lit hv rest)
  | num n =>
    unfold Doc.WF at hv
    unfold Doc.toks
    obtain ⟨c, cs, he, hc⟩ := num_first hv.1
    exact lit c cs _ (by unfold Doc.text; exact he) hc (by unfold Doc.text; exact readScalar_num hv.1 hv.2 hr)
  | bool b =>
    cases b
    · unfold Doc.toks; exact lit _ _ (.bool false) (by unfold Doc.text; rfl) (by decide) (by unfold Doc.text; rfl)
    · unfold Doc.toks; exact lit _ _ (.bool true) (by unfold Doc.text; rfl) (by decide) (by unfold Doc.text; rfl)
  | null => unfold Doc.toks; exact lit _ _ .null (by unfold Doc.text; rfl) (by decide) (by unfold Doc.text; rfl)
  | arr ws items =>
    clear lit
    unfold Doc.WF at hv
    unfold Doc.toks
    have e : (Doc.arr ws items).text = 91 :: (ws ++ items.text true) := by rw [Doc.text]
    rw [e, List.cons_append, List.append_assoc] at hx
    refine LexRun.cons (z := ⟨st :: stk, .arrayStart, pos + 1, ws ++ (items.text true ++ rest)⟩) (hx _ fun f => nextTok_lbrack f pos stk _ hs) ?_
    have := Items.steps items hv.2 (first := true) (top := st) (stk := stk) (pos := pos + 1) hv.1 rest
    rw [e]
    simp only [List.length_cons, List.length_append] at this ⊢
    rw [show pos + (ws.length + (items.text true).length + 1) = pos + 1 + ws.length + (items.text true).length from by omega]
    exact this
  | obj ws ms =>
    clear lit
    unfold Doc.WF at hv
    unfold Doc.toks
    have e : (Doc.obj ws ms).text = 123 :: (ws ++ ms.text true) := by rw [Doc.text]
    rw [e, List.cons_append, List.append_assoc] at hx
    refine LexRun.cons (z := ⟨st :: stk, .objectStart, pos + 1, ws ++ (ms.text true ++ rest)⟩) (hx _ fun f => nextTok_lbrace f pos stk _ hs) ?_
    have := Members.steps ms hv.2 (first := true) (top := st) (stk := stk) (pos := pos + 1) hv.1 rest
    rw [e]
    simp only [List.length_cons, List.length_append] at this ⊢
    rw [show pos + (ws.length + (ms.text true).length + 1) = pos + 1 + ws.length + (ms.text true).length from by omega]
    exact this

theorem Items.steps (items : Items) (hv : items.WF num) {first : Bool} {top : TState} {stk : List TState} {pos : Nat} {ws : Bytes} (hw : Ws ws)
    (rest : Bytes) : LexRun num ⟨top :: stk, if first then .arrayStart else .arrayComma, pos, ws ++ (items.text first ++ rest)⟩
      (Items.toks num (pos + ws.length) first items) ⟨stk, top.valueEnd, pos + ws.length + (items.text first).length, rest⟩ := by
  cases items with
  | nil =>
    unfold Items.toks Items.text
    exact LexRun.one (y := ⟨stk, top.valueEnd, pos + ws.length + 1, rest⟩) (Leads.ws hw pos _ _ _)
      fun f => nextTok_rbrack f _ top stk rest (by cases first <;> simp)
  | cons pre v post more =>
    unfold Items.WF at hv
    obtain ⟨h1, h2, h3, h4⟩ := hv
    unfold Items.toks
    have hst : Stops (post ++ (more.text false ++ rest)) := Stops.ws h3 (stops_items _ _)
    have ih := Items.steps more h4 (first := false) (top := top) (stk := stk)
      (pos := pos + ws.length + (if first then 0 else 1) + pre.length + v.text.length) h3 rest
    have e : (Items.cons pre v post more).text first = (if first then [] else [44]) ++ (pre ++ (v.text ++ (post ++ more.text false))) := by rw [Items.text]
    have hlen : pos + ws.length + ((Items.cons pre v post more).text first).length =
        pos + ws.length + (if first then 0 else 1) + pre.length + v.text.length + post.length + (more.text false).length := by
      rw [e]; cases first <;> simp <;> omega
    rw [hlen]
    refine LexRun.append (y := ⟨top :: stk, .arrayComma, pos + ws.length + (if first then 0 else 1) + pre.length + v.text.length, post ++ (more.text false ++ rest)⟩) ?_ (by simpa using ih)
    rw [e]
    cases first with
    | true =>
      have hx := Leads.ws (num := num) (ws := ws ++ pre) (fun c hc => by rcases List.mem_append.1 hc with h | h; exact hw c h; exact h1 c h)
        pos (top :: stk) .arrayStart (v.text ++ (post ++ (more.text false ++ rest)))
      have := Doc.steps v h2 (st := .arrayStart) rfl hst hx
      simpa [TState.valueEnd, Nat.add_assoc] using this
    | false =>
      have hx := Leads.item (num := num) hw h1 pos (top :: stk) (v.text ++ (post ++ (more.text false ++ rest)))
      have := Doc.steps v h2 (st := .arrayValue) rfl hst hx
      simpa [TState.valueEnd, Nat.add_assoc] using this

theorem Members.steps (ms : Members) (hv : ms.WF num) {first : Bool} {top : TState} {stk : List TState} {pos : Nat} {ws : Bytes} (hw : Ws ws)
    (rest : Bytes) : LexRun num ⟨top :: stk, if first then .objectStart else .objectComma, pos, ws ++ (ms.text first ++ rest)⟩
      (Members.toks num (pos + ws.length) first ms) ⟨stk, top.valueEnd, pos + ws.length + (ms.text first).length, rest⟩ := by
  cases ms with
  | nil =>
    unfold Members.toks Members.text
    exact LexRun.one (y := ⟨stk, top.valueEnd, pos + ws.length + 1, rest⟩) (Leads.ws hw pos _ _ _)
      fun f => nextTok_rbrace f _ top stk rest (by cases first <;> simp)
  | cons pre key gap mid v post more =>
    unfold Members.WF at hv
    obtain ⟨h1, hk, hg, hm, h2, h3, h4⟩ := hv
    unfold Members.toks
    have hst : Stops (post ++ (more.text false ++ rest)) := Stops.ws h3 (stops_members _ _)
    obtain ⟨k, hk'⟩ : ∃ k, k = pos + ws.length + (if first then 0 else 1) + pre.length + key.text.length := ⟨_, rfl⟩
    have ih := Members.steps more h4 (first := false) (top := top) (stk := stk) (pos := k + gap.length + 1 + mid.length + v.text.length) h3 rest
    have e : (Members.cons pre key gap mid v post more).text first = (if first then [] else [44]) ++
        (pre ++ (key.text ++ (gap ++ (58 :: (mid ++ (v.text ++ (post ++ more.text false))))))) := by rw [Members.text]
    have hlen : pos + ws.length + ((Members.cons pre key gap mid v post more).text first).length =
        k + gap.length + 1 + mid.length + v.text.length + post.length + (more.text false).length := by
      rw [e, hk']; cases first <;> simp <;> omega
    rw [hlen, ← hk']
    have hx2 := Leads.value (num := num) hg hm k (top :: stk) (v.text ++ (post ++ (more.text false ++ rest)))
    have hvs := Doc.steps v h2 (st := .objectValue) rfl hst hx2
    refine LexRun.cons (z := ⟨top :: stk, .objectColon, k, gap ++ (58 :: (mid ++ (v.text ++ (post ++ (more.text false ++ rest)))))⟩) ?_ ?_
    · rw [e, hk']
      cases first with
      | true =>
        have hx := Leads.ws (num := num) (ws := ws ++ pre) (fun c hc => by rcases List.mem_append.1 hc with h | h; exact hw c h; exact h1 c h)
          pos (top :: stk) .objectStart (key.text ++ (gap ++ (58 :: (mid ++ (v.text ++ (post ++ (more.text false ++ rest)))))))
        have := hx _ fun f => nextTok_key f _ _ hk _ (.inl rfl)
        simpa [Nat.add_assoc] using this
      | false =>
        have hx := Leads.key (num := num) hw h1 pos (top :: stk) (key.text ++ (gap ++ (58 :: (mid ++ (v.text ++ (post ++ (more.text false ++ rest)))))))
        have := hx _ fun f => nextTok_key f _ _ hk _ (.inr rfl)
        simpa [Nat.add_assoc] using this
    · exact LexRun.append hvs (by simpa [TState.valueEnd] using ih)
end

/-! ### The structure of the tokens -/

mutual
theorem Doc.skips (v : Doc) {pos n : Nat} {r r' : List (Tok × Nat)} (h : Skips (n + 1) r r') : Skips (n + 1) (Doc.toks num pos v ++ r) r' := by
  cases v with
  | str l => unfold Doc.toks; exact .other (by simp) (by simp) h
  | num n => unfold Doc.toks; exact .other (by simp) (by simp) h
  | bool b => cases b <;> (unfold Doc.toks; exact .other (by simp) (by simp) h)
  | null => unfold Doc.toks; exact .other (by simp) (by simp) h
  | arr ws items => unfold Doc.toks; exact .opening (Items.skips items h)
  | obj ws ms => unfold Doc.toks; exact .other (by simp) (by simp) (Members.skips ms h)
theorem Items.skips (items : Items) {pos n : Nat} {first : Bool} {r r' : List (Tok × Nat)} (h : Skips n r r') :
    Skips (n + 1) (Items.toks num pos first items ++ r) r' := by
  cases items with
  | nil => unfold Items.toks; exact .closing h
  | cons pre v post more =>
    unfold Items.toks
    rw [List.append_assoc]
    exact Doc.skips v (Items.skips more h)
theorem Members.skips (ms : Members) {pos n : Nat} {first : Bool} {r r' : List (Tok × Nat)} (h : Skips (n + 1) r r') :
    Skips (n + 1) (Members.toks num pos first ms ++ r) r' := by
  cases ms with
  | nil => unfold Members.toks; exact .other (by simp) (by simp) h
  | cons pre key gap mid v post more =>
    unfold Members.toks
    rw [List.cons_append, List.append_assoc]
    exact .other (by simp) (by simp) (Doc.skips v (Members.skips more h))
end

theorem Members.obj (ms : Members) {path : List Bytes} {pos : Nat} {first : Bool} {r : List (Tok × Nat)} :
    Obj path (Members.toks num pos first ms ++ r) (ms.fields num path pos first) r := by
  match ms with
  | .nil => unfold Members.toks Members.fields; exact .close
  | .cons pre key gap mid v post more =>
    unfold Members.toks Members.fields
    rw [List.cons_append, List.append_assoc]
    have scal : ∀ (p : Nat), isScalar (v.head num) → Doc.toks num p v = [(v.head num, p + v.headLen)] → v.fields num (path ++ [key.value]) p = [] →
        p = pos + (if first then 0 else 1) + pre.length + key.text.length + gap.length + 1 + mid.length →
        Obj path ((.str key.value, pos + (if first then 0 else 1) + pre.length + key.text.length) ::
          (Doc.toks num p v ++ (Members.toks num (p + v.text.length + post.length) false more ++ r)))
          (⟨dotted (path ++ [key.value]), v.head num, pos + (if first then 0 else 1) + pre.length + key.text.length + 1, p + v.headLen⟩ ::
            (v.fields num (path ++ [key.value]) p ++ more.fields num path (p + v.text.length + post.length) false)) r := by
      intro p h1 h2 h3 hp
      rw [h2, h3]
      exact .scalar h1 (Members.obj more)
    match v with
    | .str l => exact scal _ trivial (by unfold Doc.toks Doc.headLen Doc.text; rfl) (by unfold Doc.fields; rfl) rfl
    | .num n => exact scal _ trivial (by unfold Doc.toks Doc.headLen Doc.text; rfl) (by unfold Doc.fields; rfl) rfl
    | .bool true => exact scal _ trivial (by unfold Doc.toks Doc.headLen Doc.text; rfl) (by unfold Doc.fields; rfl) rfl
    | .bool false => exact scal _ trivial (by unfold Doc.toks Doc.headLen Doc.text; rfl) (by unfold Doc.fields; rfl) rfl
    | .null => exact scal _ trivial (by unfold Doc.toks Doc.headLen Doc.text; rfl) (by unfold Doc.fields; rfl) rfl
    | .arr ws items =>
      clear scal
      unfold Doc.toks Doc.fields
      exact .array (Items.skips items .done) (Members.obj more)
    | .obj ws ms' =>
      clear scal
      unfold Doc.toks Doc.fields
      exact .object (Members.obj ms') (Members.obj more)

/-- An object in a text, after white space. -/
theorem goLex_object {pre : Bytes} (hp : Ws pre) {ws : Bytes} {ms : Members} (hv : (Doc.obj ws ms).WF num) {post : Bytes} (hs : Stops post) :
    LineFields (goLex num) (pre ++ ((Doc.obj ws ms).text ++ post)) ((Doc.obj ws ms).fields num [] pre.length) := by
  obtain ⟨r, hr⟩ := goLex_steps (Doc.steps (.obj ws ms) hv (stk := []) (st := .topValue) rfl hs (Leads.ws hp 0 [] .topValue _))
  rw [Nat.zero_add] at hr
  unfold Doc.toks at hr
  refine ⟨_, _, r, hr, ?_⟩
  unfold Doc.fields
  exact Members.obj ms

/-- A string literal after white space is read as its value. -/
theorem goLex_string {pre : Bytes} (hp : Ws pre) {l : Lit} (hl : l.WF) :
    ∃ e r, (goLex num (pre ++ l.text)).toks = (.str l.value, e) :: r := by
  have hx := Leads.ws (num := num) hp 0 [] .topValue ((Doc.str l).text ++ [])
  obtain ⟨r, hr⟩ := goLex_steps (Doc.steps (.str l) (by unfold Doc.WF; exact hl) (stk := []) (st := .topValue) rfl (rest := []) (by intro c hc; cases hc) hx)
  unfold Doc.toks Doc.text at hr
  rw [List.append_nil] at hr
  exact ⟨_, _, hr⟩

/-! ### Where the fields are -/

/-- The text of the first token of a value. -/
def headText : Doc → Bytes
  | .arr _ _ => [91]
  | .obj _ _ => [123]
  | v => v.text

theorem headText_len (v : Doc) : (headText v).length = v.headLen := by cases v <;> rfl

theorem text_head (v : Doc) : ∃ r, v.text = headText v ++ r := by
  cases v with
  | arr ws items => exact ⟨_, by rw [Doc.text]; rfl⟩
  | obj ws ms => exact ⟨_, by rw [Doc.text]; rfl⟩
  | _ => exact ⟨[], by simp [headText]⟩

/-- A field of `text`: from one byte after its key to its end there are the white space between key and colon, but for one byte, the white
space after the colon and the first token of its value. -/
def FieldAt (num : Bytes → Option UInt64) (text : Bytes) (f : Field) : Prop :=
  ∃ (mid : Bytes) (v : Doc) (p r : Bytes), Ws mid ∧ v.WF num ∧ f.tok = v.head num ∧ text = p ++ ((mid ++ headText v) ++ r) ∧ p.length = f.start ∧
    f.stop = f.start + (mid ++ headText v).length

theorem Members.fieldAt (ms : Members) (hv : ms.WF num) (ht : ms.Tight) {path : List Bytes} {first : Bool} {text p r : Bytes}
    (he : text = p ++ (ms.text first ++ r)) : ∀ f ∈ ms.fields num path p.length first, FieldAt num text f := by
  match ms with
  | .nil => unfold Members.fields; simp
  | .cons pre key gap mid v post more =>
    unfold Members.WF at hv
    unfold Members.Tight at ht
    obtain ⟨h1, hk, hg, hm, h2, h3, h4⟩ := hv
    obtain ⟨rfl, t1, t2⟩ := ht
    unfold Members.fields
    have e : (Members.cons pre key [] mid v post more).text first = (if first then [] else [44]) ++
        (pre ++ (key.text ++ (58 :: (mid ++ (v.text ++ (post ++ more.text false)))))) := by rw [Members.text]; rfl
    rw [e] at he
    have hc : (if first then ([] : Bytes) else [44]).length = if first then 0 else 1 := by cases first <;> rfl
    obtain ⟨q, hq⟩ : ∃ q, q = p ++ ((if first then [] else [44]) ++ (pre ++ (key.text ++ [58]))) := ⟨_, rfl⟩
    have hql : q.length = p.length + (if first then 0 else 1) + pre.length + key.text.length + 1 := by
      rw [hq]; simp only [List.length_append, List.length_cons, List.length_nil, hc]; omega
    have he1 : text = q ++ (mid ++ (v.text ++ (post ++ (more.text false ++ r)))) := by
      rw [he, hq]; simp
    intro f hf
    rcases List.mem_cons.1 hf with rfl | hf
    · obtain ⟨w, hw⟩ := text_head v
      refine ⟨mid, v, q, w ++ (post ++ (more.text false ++ r)), hm, h2, rfl, ?_, hql, ?_⟩
      · rw [he1, hw]; simp
      · simp only [List.length_append, headText_len, List.length_nil]; omega
    · rcases List.mem_append.1 hf with hf | hf
      · match v with
        | .obj ws ms' =>
          unfold Doc.fields at hf
          unfold Doc.WF at h2
          unfold Doc.Tight at t1
          refine Members.fieldAt ms' h2.2 t1 (p := q ++ (mid ++ (123 :: ws))) (r := post ++ (more.text false ++ r)) ?_ f (first := true) (path := path ++ [key.value]) ?_
          · rw [he1, Doc.text]; simp
          · have : (q ++ (mid ++ (123 :: ws))).length = p.length + (if first then 0 else 1) + pre.length + key.text.length + ([] : Bytes).length + 1 + mid.length + 1 + ws.length := by
              simp only [List.length_append, List.length_cons, List.length_nil]; omega
            rw [this]
            exact hf
        | .arr ws items => unfold Doc.fields at hf; simp at hf
        | .str l => unfold Doc.fields at hf; simp at hf
        | .num n => unfold Doc.fields at hf; simp at hf
        | .bool b => unfold Doc.fields at hf; simp at hf
        | .null => unfold Doc.fields at hf; simp at hf
      · refine Members.fieldAt more h4 t2 (p := q ++ (mid ++ (v.text ++ post))) (r := r) ?_ f (first := false) (path := path) ?_
        · rw [he1]; simp
        · have : (q ++ (mid ++ (v.text ++ post))).length = p.length + (if first then 0 else 1) + pre.length + key.text.length + ([] : Bytes).length + 1 + mid.length + v.text.length + post.length := by
            simp only [List.length_append, List.length_nil]; omega
          rw [this]
          exact hf

theorem FieldAt.ok {text : Bytes} {f : Field} (h : FieldAt num text f) {hs : List Bytes} (hn : f.name.length ≤ 236)
    (hh : f.name ∈ hs → ∃ v, f.tok = .str v) : FieldOK (goLex num) hs text f := by
  obtain ⟨mid, v, p, r, hm, hv, ht, he, hp, hstop⟩ := h
  refine ⟨hn, hh, ⟨by omega, ?_⟩, ?_⟩
  · rw [he]; simp only [List.length_append] at hstop ⊢; omega
  · intro w hw
    have hsl : (text.drop f.start).take (f.stop - f.start) = mid ++ headText v := by
      rw [he, ← hp, List.drop_left, hstop, ← hp, Nat.add_sub_cancel_left, List.take_left]
    rw [hsl]
    rw [ht] at hw
    cases v with
    | str l =>
      unfold Doc.WF at hv
      simp only [Doc.head, Tok.str.injEq] at hw
      subst hw
      unfold headText Doc.text
      exact goLex_string hm hv
    | _ => simp [Doc.head] at hw

end Appendable
