import Verif.Props.Ask
import Verif.Props.SearchJsonl
import Verif.Props.QueryJsonl
/-! C111, C113 on JSON lines files. -/
namespace Appendable
open Spec Tree

variable {S β : Type} {A : ScoreArith S}

theorem rows_first {γ δ : Type} (f : γ → δ) (rows : List γ) (b : TsRows δ) :
    (TsRows.andThen (TsRows.map f ⟨rows, none⟩) b).rows = rows.map f ++ b.rows := rfl

theorem searchOnly_search (q : TsSearch) : (searchOnly q).search = some ⟨q.key, q.like, q.config.map (fun x => (.fin x.1, .fin x.2))⟩ := rfl

/-- C111 is violated by every JSON lines file: whatever conditions on a field are added to a search, each line that has an n-gram in common
with the phrase is returned. -/
theorem C111_lines_violated {env : JEnv} {hs : List Bytes} {data : Bytes} {i : IndexFile} {s : PF} {lf : List (Bytes × List Field)} {tail name like : Bytes}
    {db : TsDb} {lo hi : Nat} (h : SearchFile env hs data i s lf tail name db) {q : TsSearch} (hq : Asks q name like lo hi)
    (hfill : Filled env.nfkd name like lo hi lf) (hone : OnePage env.nfkd hs name like lo hi lf)
    {lower : JsString → JsString} (hl : ∀ w : Bytes, Ascii w → lower (utf16 w) = utf16 (w.map lowered)) (rand : Nat → Nat) :
    ∃ N, ∀ fuel, N ≤ fuel → ∀ (select : Bytes → Res β) (w : JsCond) (ws : List JsCond) (o : Option (List (Bytes × Bytes))), (∀ x ∈ ws, x.key = w.key) →
      ∀ x ∈ lf, LineMatches env.nfkd name like lo hi x.2 →
        ∃ score, Sum.inl (x.1, score) ∈ (db.ask A lower rand fuel select ⟨(searchOnly q).search, w :: ws, o⟩).rows := by
  obtain ⟨rows, ⟨N, hN⟩, hrows⟩ := C76_found_partial (A := A) h hq hfill hone hl rand
  refine ⟨N, fun fuel hfu select w ws o hk x hx hm => ?_⟩
  obtain ⟨q1, q2, q3, q4, q5, q6, q7⟩ := hq
  have hsm : SmallLengths q := ⟨lo, hi, q3, q4, q5, q6⟩
  have h1 := C111_search_partial db A lower rand fuel select q hsm
  rw [hN fuel hfu] at h1
  obtain ⟨l, hl'⟩ : ∃ l, (searchOnly q).search = some l := ⟨_, searchOnly_search q⟩
  have h0 : searchOnly q = ⟨some l, [], none⟩ := by rw [← hl']; rfl
  rw [h0] at h1
  rw [hl', C111_both_violated db A lower rand fuel select l w ws o hk, h1, rows_first]
  obtain ⟨y, hy, he⟩ := List.mem_map.1 ((hrows x.1).2 ⟨x, hx, rfl, hm⟩)
  refine ⟨y.2, List.mem_append.2 (.inl (List.mem_map.2 ⟨y, hy, ?_⟩))⟩
  rw [← he]

/-- C113 is violated by every JSON lines file that has a value of that kind in the field: a query with an unknown operation returns no rows,
and does not throw. -/
theorem C113_lines_violated {num : Bytes → Option UInt64} {nfkd : Bytes → Bytes} {hs : List Bytes} {data : Bytes} {i : IndexFile} {s : PF}
    {recs : List Rec} {tail name : Bytes} {db : TsDb} (h : QueryFile num nfkd hs data i s recs tail db) {value : JsVal} {w : Tok}
    (hv : tokOf value = some w) (hne : valuesOf num name w recs ≠ []) (text : Bytes) (ht : ∀ op, text ≠ opText op)
    (lower : JsString → JsString) (rand : Nat → Nat) :
    ∃ N, ∀ fuel, N ≤ fuel → ∀ (select : Bytes → Res β) (o : Option (List (Bytes × Bytes))),
      db.ask A lower rand fuel select ⟨none, [⟨name, text, value⟩], o⟩ = ⟨[], none⟩ := by
  obtain ⟨q, hq⟩ : ∃ q : TsQuery, q = ⟨[⟨name, .lt, value⟩], some [(name, .desc)], none, none⟩ := ⟨_, rfl⟩
  obtain ⟨out, _, N, hN⟩ := C82_query_partial h (q := q) (op := .lt) (by rw [hq]) hv hne (d := .desc) (by rw [hq]; exact .below (.inl rfl)) Res.ok
  refine ⟨N, fun fuel hfu select o => ?_⟩
  refine (C113_operation_violated db A lower rand fuel select q name .lt value (by rw [hq]) ?_ text ht o).1
  rw [hN fuel hfu]
  generalize out.map (·.2) = ls
  induction ls with
  | nil => rfl
  | cons l ls ih => exact ih

end Appendable
