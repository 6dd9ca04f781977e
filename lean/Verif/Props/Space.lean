import Verif.Props.Accepts
import Verif.Props.SearchWitness
/-! C81: white space in JSONL lines. -/
namespace Appendable
open Spec Tree

variable {env : JEnv} {hs : List Bytes}

/-- What a field is, without its position. -/
def Spec.Field.content (f : Field) : Bytes × Tok := (f.name, f.tok)

theorem fieldJobs_values (nfkd : Bytes → Bytes) {off off' : Nat} {line line' : MemPtr} {f f' : Field} (h : f.content = f'.content) :
    (fieldJobs nfkd hs off line f).map (fun j => (j.name, j.ty, j.entries.map (·.1.value))) =
      (fieldJobs nfkd hs off' line' f').map (fun j => (j.name, j.ty, j.entries.map (·.1.value))) := by
  obtain ⟨n, t, a, b⟩ := f
  obtain ⟨n', t', a', b'⟩ := f'
  simp only [Field.content, Prod.mk.injEq] at h
  obtain ⟨rfl, rfl⟩ := h
  have hg : ∀ text ty k, (gramJob nfkd off line ⟨n, t, a, b⟩ text ty k).entries.map (·.1.value) =
      (gramJob nfkd off' line' ⟨n, t, a', b'⟩ text ty k).entries.map (·.1.value) := by
    intro text ty k
    unfold gramJob
    simp only [List.map_map]
    rfl
  have hn : ∀ o l f text ty k, (gramJob nfkd o l f text ty k).name = f.name ∧ (gramJob nfkd o l f text ty k).ty = ty.code := fun _ _ _ _ _ _ => ⟨rfl, rfl⟩
  unfold fieldJobs
  simp only [List.map_cons]
  congr 1
  · congr 2
    split <;> rfl
  · cases t <;> try rfl
    simp only
    split
    · simp only [List.map_cons, List.map_nil, hn, hg]
    · rfl

theorem linesJobs_values (nfkd : Bytes → Bytes) : ∀ (lf lf' : List (Bytes × List Field)) (off off' : Nat),
    lf.map (fun x => x.2.map Field.content) = lf'.map (fun x => x.2.map Field.content) →
    (linesJobs nfkd hs off lf).map (fun j => (j.name, j.ty, j.entries.map (·.1.value))) =
      (linesJobs nfkd hs off' lf').map (fun j => (j.name, j.ty, j.entries.map (·.1.value)))
  | [], [], _, _, _ => rfl
  | [], _ :: _, _, _, h => by simp at h
  | _ :: _, [], _, _, h => by simp at h
  | (t, fs) :: lf, (t', fs') :: lf', off, off', h => by
    simp only [List.map_cons, List.cons.injEq] at h
    unfold linesJobs
    rw [List.map_append, List.map_append, linesJobs_values nfkd lf lf' _ (off' + t'.length + 1) h.2]
    congr 1
    have h1 := h.1
    clear h
    generalize (⟨UInt64.ofNat off, UInt32.ofNat t.length⟩ : MemPtr) = l1
    generalize (⟨UInt64.ofNat off', UInt32.ofNat t'.length⟩ : MemPtr) = l2
    induction fs generalizing fs' with
    | nil =>
      cases fs' with
      | nil => rfl
      | cons _ _ => simp at h1
    | cons f fs ih =>
      cases fs' with
      | nil => simp at h1
      | cons f' fs' =>
        simp only [List.map_cons, List.cons.injEq] at h1
        rw [List.flatMap_cons, List.flatMap_cons, List.map_append, List.map_append, ih fs' h1.2, fieldJobs_values nfkd h1.1]

theorem entries_values {js ks : List Job} (h : js.map (fun j => (j.name, j.ty, j.entries.map (·.1.value))) =
    ks.map (fun j => (j.name, j.ty, j.entries.map (·.1.value)))) (n : Bytes) (t : UInt8) :
    (entriesOf js n t).map (·.1.value) = (entriesOf ks n t).map (·.1.value) := by
  have gen : ∀ js : List Job, (entriesOf js n t).map (·.1.value) =
      (js.map (fun j => (j.name, j.ty, j.entries.map (·.1.value)))).flatMap (fun x => if x.1 = n ∧ x.2.1 = t then x.2.2 else []) := by
    intro js
    unfold entriesOf
    rw [List.map_flatMap, List.flatMap_map]
    congr 1
    funext j
    split <;> rfl
  rw [gen, gen, h]

theorem indexes_values {js ks : List Job} (h : js.map (fun j => (j.name, j.ty, j.entries.map (·.1.value))) =
    ks.map (fun j => (j.name, j.ty, j.entries.map (·.1.value)))) : indexesOf js = indexesOf ks := by
  have gen : ∀ js : List Job, js.map (fun j => (j.name, j.ty)) = (js.map (fun j => (j.name, j.ty, j.entries.map (·.1.value)))).map (fun x => (x.1, x.2.1)) := by
    intro js; rw [List.map_map]; rfl
  unfold indexesOf
  rw [gen, gen, h]

/-- C81 (partial: no white space between a key and its colon, see `FieldOK`): two files whose lines have the same fields with the same values, whatever
the white space, give indexes for the same names and types in the same order, with the same values in each. -/
theorem C81_same_partial {data data' : Bytes} {i i' : IndexFile} {s s' : PF} (hr : SyncRun env hs data i s) (hr' : SyncRun env hs data' i' s')
    (hd : data.length < 2 ^ 64) (hd' : data'.length < 2 ^ 64) {lf lf' : List (Bytes × List Field)} {tail tail' : Bytes}
    (hl : IsLines data (lf.map (·.1)) tail) (hl' : IsLines data' (lf'.map (·.1)) tail')
    (hx : ∀ x ∈ lf, LineFields env.lex x.1 x.2 ∧ x.1.length < 2 ^ 32 ∧ ∀ f ∈ x.2, FieldOK env.lex hs x.1 f)
    (hx' : ∀ x ∈ lf', LineFields env.lex x.1 x.2 ∧ x.1.length < 2 ^ 32 ∧ ∀ f ∈ x.2, FieldOK env.lex hs x.1 f)
    (hsame : lf.map (fun x => x.2.map Field.content) = lf'.map (fun x => x.2.map Field.content)) :
    ∃ fm fm' is is' c c', Shows data env.parse id i s fm is c ∧ Shows data' env.parse id i' s' fm' is' c' ∧
      is.map (fun x => (x.2.fieldName, x.2.fieldType)) = is'.map (fun x => (x.2.fieldName, x.2.fieldType)) ∧
      ∀ k < is.length, ((c k).map (·.1.value)).Perm ((c' k).map (·.1.value)) := by
  obtain ⟨is, c, h1, h2, h3⟩ := C36_fields_indexed hr hd hl hx
  obtain ⟨is', c', h1', h2', h3'⟩ := C36_fields_indexed hr' hd' hl' hx'
  have hv := linesJobs_values (hs := hs) env.nfkd lf lf' 0 0 hsame
  have hk : is.map (fun x => (x.2.fieldName, x.2.fieldType)) = is'.map (fun x => (x.2.fieldName, x.2.fieldType)) := by
    rw [h2, h2', indexes_values hv]
  refine ⟨_, _, is, is', c, c', h1, h1', hk, fun k hlt => ?_⟩
  have hlen : is.length = is'.length := by
    have := congrArg List.length hk
    simpa using this
  obtain ⟨⟨p, m⟩, hp⟩ : ∃ x, is[k] = x := ⟨_, rfl⟩
  obtain ⟨⟨p', m'⟩, hp'⟩ : ∃ x, is'[k]'(hlen ▸ hlt) = x := ⟨_, rfl⟩
  have e1 : is[k]? = some (p, m) := by rw [List.getElem?_eq_getElem hlt, hp]
  have e2 : is'[k]? = some (p', m') := by rw [List.getElem?_eq_getElem (hlen ▸ hlt), hp']
  have hnt : (m.fieldName, m.fieldType) = (m'.fieldName, m'.fieldType) := by
    have := congrArg (fun l => l[k]?) hk
    simpa [e1, e2] using this
  simp only [Prod.mk.injEq] at hnt
  have p1 := (h3 k p m e1).2.map (·.1.value)
  have p2 := (h3' k p' m' e2).2.map (·.1.value)
  rw [← hnt.1, ← hnt.2] at p2
  rw [entries_values hv] at p1
  exact p1.trans p2.symm

/-! ### White space before a colon -/

/-- `{"a" :"x"}` -/
def spLine : Bytes := [123, 34, 97, 34, 32, 58, 34, 120, 34, 125]
def spData : Bytes := spLine ++ [10]
def spEnv : JEnv := ⟨goLex (fun _ => none), id⟩
def spOpen : Res (IndexFile × PF) × File := IndexFile.openIndex .jsonl [] wFile
def spI : IndexFile := (okVal spOpen.1).1
def spS0 : PF := (okVal spOpen.1).2
def spRun : Res Unit × PF := jsonlSync spEnv spI spData spS0

def spLook : Res (LP × IndexMeta) × PF := spI.findOrCreate [97] 0 spRun.2
def spTree : Tree := treeAt spData spEnv.parse 0 (okVal spLook.1).1
/-- looking up `x` -/
def spFind : Res Bool × PF := spTree.contains ⟨⟨0, 0⟩, [120]⟩ spLook.2
/-- the least key -/
def spLeast : Res (RV × MemPtr) × PF := spTree.find ⟨⟨0, 0⟩, []⟩ spLook.2

set_option maxRecDepth 100000 in
theorem spOpen_ok : spOpen.1.isOk = true := by decide +kernel
set_option maxRecDepth 100000 in
theorem spRun_all : (spRun.1.isOk && (decide (spLook.1 = .ok (⟨4096, 1⟩, ⟨[97], 0, 0, 4⟩)) && (decide (spFind.1 = .ok false) &&
   decide (spLeast.1 = .ok (⟨⟨5, 4⟩, []⟩, ⟨0, 10⟩))))) = true := by decide +kernel

theorem spRun_facts : spRun.1.isOk = true ∧ spLook.1 = .ok (⟨4096, 1⟩, ⟨[97], 0, 0, 4⟩) ∧ spFind.1 = .ok false ∧
    spLeast.1 = .ok (⟨⟨5, 4⟩, []⟩, ⟨0, 10⟩) := by
  have := spRun_all
  simp only [Bool.and_eq_true, decide_eq_true_eq] at this
  exact this

theorem spOpen_eq : IndexFile.openIndex .jsonl [] wFile = (.ok (spI, spS0), spOpen.2) := run_ok2 (r := spOpen) spOpen_ok
theorem spRun_eq : jsonlSync spEnv spI spData spS0 = (.ok (), spRun.2) := run_unit (r := spRun) spRun_facts.1
theorem pair_eq {α σ : Type} {r : Res α × σ} {a : α} (h : r.1 = .ok a) : r = (.ok a, r.2) := by rw [← h]
theorem spLook_eq : spI.findOrCreate [97] 0 spRun.2 = (.ok (⟨4096, 1⟩, ⟨[97], 0, 0, 4⟩), spLook.2) := pair_eq (r := spLook) spRun_facts.2.1
theorem spTree_eq : spTree = treeAt spData spEnv.parse 0 ⟨4096, 1⟩ := by unfold spTree; rw [spRun_facts.2.1]; rfl
theorem spToks : (spEnv.lex spLine).toks = [(.lbrace, 1), (.str [97], 4), (.str [120], 9), (.rbrace, 10)] := by decide +kernel

/-- C81 is violated: the line `{"a" :"x"}` is an object whose field `a` is the text `x`.  `Synchronize` accepts it, but the index of the texts of `a`
does not contain `x`: its only key has the empty value, and its position designates the four bytes `:"x"`. -/
theorem C81_violated : LineFields spEnv.lex spLine [⟨[97], .str [120], 5, 9⟩] ∧ SyncRun spEnv [] spData spI spRun.2 ∧
    ∃ p m s', spI.findOrCreate [97] FieldType.string.code spRun.2 = (.ok (p, m), s') ∧
      ((treeAt spData spEnv.parse m.width p).contains ⟨⟨0, 0⟩, [120]⟩ s').1 = .ok false ∧
      ((treeAt spData spEnv.parse m.width p).find ⟨⟨0, 0⟩, []⟩ s').1 = .ok (⟨⟨5, 4⟩, []⟩, ⟨0, 10⟩) := by
  refine ⟨⟨1, _, [], spToks, .scalar trivial .close⟩, ?_, ?_⟩
  · exact .sync (data := []) (more := spData) (.create (f := wFile) rfl rfl spOpen_eq) spRun_eq
  · refine ⟨⟨4096, 1⟩, ⟨[97], 0, 0, 4⟩, spLook.2, spLook_eq, ?_, ?_⟩
    · rw [← spTree_eq]; exact spRun_facts.2.2.1
    · rw [← spTree_eq]; exact spRun_facts.2.2.2

/-- Two lines to which `C81_same_partial` applies: `{"a":"x"}` and `{ "a": "x" }`. -/
example : (∃ fs, LineFields spEnv.lex [123, 34, 97, 34, 58, 34, 120, 34, 125] fs ∧ fs.map Field.content = [([97], .str [120])] ∧
      ∀ f ∈ fs, FieldOK spEnv.lex [] [123, 34, 97, 34, 58, 34, 120, 34, 125] f) ∧
    (∃ fs, LineFields spEnv.lex [123, 32, 34, 97, 34, 58, 32, 34, 120, 34, 32, 125] fs ∧ fs.map Field.content = [([97], .str [120])] ∧
      ∀ f ∈ fs, FieldOK spEnv.lex [] [123, 32, 34, 97, 34, 58, 32, 34, 120, 34, 32, 125] f) := by
  constructor
  · refine ⟨[⟨[97], .str [120], 5, 8⟩], ⟨1, _, [], (by decide +kernel : _ = [(Tok.lbrace, 1), (Tok.str [97], 4), (Tok.str [120], 8), (Tok.rbrace, 9)]), .scalar trivial .close⟩, rfl, ?_⟩
    intro f hf
    obtain rfl := List.mem_singleton.1 hf
    refine ⟨by decide, by simp, by decide, ?_⟩
    intro v hv; cases hv
    exact ⟨3, [], by decide +kernel⟩
  · refine ⟨[⟨[97], .str [120], 6, 10⟩], ⟨1, _, [], (by decide +kernel : _ = [(Tok.lbrace, 1), (Tok.str [97], 5), (Tok.str [120], 10), (Tok.rbrace, 12)]), .scalar trivial .close⟩, rfl, ?_⟩
    intro f hf
    obtain rfl := List.mem_singleton.1 hf
    refine ⟨by decide, by simp, by decide, ?_⟩
    intro v hv; cases hv
    exact ⟨4, [], by decide +kernel⟩

end Appendable
