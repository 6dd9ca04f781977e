import Verif.Spec.Multipart
import Verif.Model.TsRange
/-! A web server that holds a file. -/
namespace Appendable.Spec
open Appendable

/-- What an HTTP server that holds the file `F` answers to requests for ranges inside of `F`: to one range, the bytes
with status 206 and a `Content-Range` header; to several, the parts in order in a multipart body (in any chunks), or
status 200 if it does not support that. -/
structure HttpServes (F : Bytes) (fetch : Fetch) : Prop where
  one : ∀ a b, a ≤ b → b < F.length → ∃ ct body, ct ≠ [] ∧ RangeRequest.jsIncludes (text "multipart/byteranges") ct = false ∧
    body.flatten = bytesOf F a b ∧
    fetch (rangeHeader [(a, b)]) = .ok ⟨206, some ct, some (contentRange a b (decimal F.length)), body⟩
  many : ∀ rs : List (Nat × Nat), 2 ≤ rs.length → (∀ r ∈ rs, r.1 ≤ r.2 ∧ r.2 < F.length) →
    (∃ res, fetch (rangeHeader rs) = .ok res ∧ res.status = 200) ∨
    ∃ boundary ps epilogue body, BoundaryText boundary ∧ Answers F rs ps ∧ body.flatten = wireBody boundary ps epilogue ∧
      fetch (rangeHeader rs) = .ok ⟨206, some (contentTypeOf boundary), none, body⟩

/-- Numbers are printed in decimal notation. -/
def PrintsDecimals (show_ : Nat → Bytes) : Prop := ∀ n : Nat, n < 2 ^ 53 → show_ n = decimal n

end Appendable.Spec
