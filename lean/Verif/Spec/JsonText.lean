import Verif.Spec.Jsonl
import Verif.Spec.Ngram
/-! JSON texts (RFC 8259): syntax trees that keep every character, their text, and what they mean. -/
namespace Appendable.Spec

/-- White space. -/
def Ws (b : Bytes) : Prop := ∀ c ∈ b, c = 32 ∨ c = 9 ∨ c = 10 ∨ c = 13

/-! ### Strings -/

/-- A hexadecimal digit, in upper or lower case. -/
def hexChar (upper : Bool) (d : Nat) : UInt8 :=
  if d < 10 then UInt8.ofNat (48 + d) else if upper then UInt8.ofNat (55 + d) else UInt8.ofNat (87 + d)

/-- Four hexadecimal digits. -/
def hex4 (up : Nat → Bool) (r : Nat) : Bytes :=
  [hexChar (up 0) (r / 4096 % 16), hexChar (up 1) (r / 256 % 16), hexChar (up 2) (r / 16 % 16), hexChar (up 3) (r % 16)]

/-- A character in a string literal: itself, an escape such as `\n`, `\u` with a code point, or `\u` with the two halves of a code point. -/
inductive Chr where
  | plain (r : Nat)
  | esc (c : UInt8)
  | hex (up : Nat → Bool) (r : Nat)
  | pair (up up' : Nat → Bool) (r : Nat)

/-- The escapes of one character and what they stand for. -/
def escapes : List (UInt8 × Nat) := [(34, 34), (92, 92), (47, 47), (98, 8), (102, 12), (110, 10), (114, 13), (116, 9)]

def Chr.WF : Chr → Prop
  | .plain r => Scalar r ∧ 32 ≤ r ∧ r ≠ 34 ∧ r ≠ 92
  | .esc c => c ∈ escapes.map (·.1)
  | .hex _ r => Scalar r ∧ r < 0x10000
  | .pair _ _ r => 0x10000 ≤ r ∧ r < 0x110000

/-- The spelling of a character. -/
def Chr.text : Chr → Bytes
  | .plain r => utf8 r
  | .esc c => [92, c]
  | .hex up r => [92, 117] ++ hex4 up r
  | .pair up up' r => [92, 117] ++ hex4 up (0xD800 + (r - 0x10000) / 1024) ++ ([92, 117] ++ hex4 up' (0xDC00 + (r - 0x10000) % 1024))

/-- The code point of a character. -/
def Chr.point : Chr → Nat
  | .plain r => r
  | .esc c => (escapes.lookup c).getD 0
  | .hex _ r => r
  | .pair _ _ r => r

/-- A string literal without its quotes. -/
abbrev Lit := List Chr

def Lit.WF (l : Lit) : Prop := ∀ c ∈ l, Chr.WF c
/-- The literal with its quotes. -/
def Lit.text (l : Lit) : Bytes := 34 :: (l.flatMap Chr.text ++ [34])
/-- The string in UTF-8. -/
def Lit.value (l : Lit) : Bytes := l.flatMap (fun c => utf8 c.point)

/-! ### Numbers -/

def Digits (b : Bytes) : Prop := b ≠ [] ∧ ∀ c ∈ b, 48 ≤ c.toNat ∧ c.toNat ≤ 57

/-- A number literal: sign, integer part, fraction, exponent (the letter, the sign, the digits). -/
structure Num where
  neg : Bool
  int : Bytes
  frac : Option Bytes
  exp : Option (Bool × Option Bool × Bytes)

structure Num.WF (n : Num) : Prop where
  int : Digits n.int
  zero : n.int.head? = some 48 → n.int = [48]
  frac : ∀ f, n.frac = some f → Digits f
  exp : ∀ e, n.exp = some e → Digits e.2.2

def Num.fracText (n : Num) : Bytes := match n.frac with | none => [] | some f => 46 :: f
def Num.expText (n : Num) : Bytes := match n.exp with
  | none => []
  | some (upper, sign, ds) => (if upper then 69 else 101) ::
      ((match sign with | none => [] | some true => [45] | some false => [43]) ++ ds)
def Num.text (n : Num) : Bytes := (if n.neg then [45] else []) ++ (n.int ++ (n.fracText ++ n.expText))

/-! ### Values -/

mutual
/-- A JSON value. -/
inductive Doc where
  | str (l : Lit)
  | num (n : Num)
  | bool (b : Bool)
  | null
  | arr (ws : Bytes) (items : Items)
  | obj (ws : Bytes) (ms : Members)
/-- The items of an array, with the white space around each. -/
inductive Items where
  | nil
  | cons (pre : Bytes) (v : Doc) (post : Bytes) (rest : Items)
/-- The members of an object, with the white space before the key, between key and colon, between colon and value, and after the value. -/
inductive Members where
  | nil
  | cons (pre : Bytes) (key : Lit) (gap mid : Bytes) (v : Doc) (post : Bytes) (rest : Members)
end

mutual
/-- The text of a value. -/
def Doc.text : Doc → Bytes
  | .str l => l.text
  | .num n => n.text
  | .bool true => [116, 114, 117, 101]
  | .bool false => [102, 97, 108, 115, 101]
  | .null => [110, 117, 108, 108]
  | .arr ws items => 91 :: (ws ++ items.text true)
  | .obj ws ms => 123 :: (ws ++ ms.text true)
/-- The items from one on, up to the bracket; a comma comes before each but the first. -/
def Items.text : Bool → Items → Bytes
  | _, .nil => [93]
  | first, .cons pre v post rest => (if first then [] else [44]) ++ (pre ++ (v.text ++ (post ++ rest.text false)))
/-- The members from one on, up to the brace. -/
def Members.text : Bool → Members → Bytes
  | _, .nil => [125]
  | first, .cons pre key gap mid v post rest =>
    (if first then [] else [44]) ++ (pre ++ (key.text ++ (gap ++ (58 :: (mid ++ (v.text ++ (post ++ rest.text false)))))))
end

mutual
/-- Valid JSON.  `num` says which numbers a float64 can hold. -/
def Doc.WF (num : Bytes → Option UInt64) : Doc → Prop
  | .str l => l.WF
  | .num n => n.WF ∧ (num n.text).isSome
  | .bool _ => True
  | .null => True
  | .arr ws items => Ws ws ∧ items.WF num
  | .obj ws ms => Ws ws ∧ ms.WF num
def Items.WF (num : Bytes → Option UInt64) : Items → Prop
  | .nil => True
  | .cons pre v post rest => Ws pre ∧ v.WF num ∧ Ws post ∧ rest.WF num
def Members.WF (num : Bytes → Option UInt64) : Members → Prop
  | .nil => True
  | .cons pre key gap mid v post rest => Ws pre ∧ key.WF ∧ Ws gap ∧ Ws mid ∧ v.WF num ∧ Ws post ∧ rest.WF num
end

/-- The (first) token of a value. -/
def Doc.head (num : Bytes → Option UInt64) : Doc → Tok
  | .str l => .str l.value
  | .num n => .num ((num n.text).getD 0)
  | .bool b => .bool b
  | .null => .null
  | .arr _ _ => .lbrack
  | .obj _ _ => .lbrace

/-- The length of the first token. -/
def Doc.headLen : Doc → Nat
  | .arr _ _ => 1
  | .obj _ _ => 1
  | v => v.text.length

mutual
/-- The fields inside of a value at position `pos` reached by `path`. -/
def Doc.fields (num : Bytes → Option UInt64) (path : List Bytes) (pos : Nat) : Doc → List Field
  | .obj ws ms => ms.fields num path (pos + 1 + ws.length) true
  | _ => []
/-- The fields of an object: for each member its value, from just after the key and one more byte (the colon), then the fields inside of it. -/
def Members.fields (num : Bytes → Option UInt64) (path : List Bytes) (pos : Nat) (first : Bool) : Members → List Field
  | .nil => []
  | .cons pre key gap mid v post rest =>
    let keyEnd := pos + (if first then 0 else 1) + pre.length + key.text.length
    let start := keyEnd + gap.length + 1 + mid.length
    ⟨dotted (path ++ [key.value]), v.head num, keyEnd + 1, start + v.headLen⟩ ::
      (v.fields num (path ++ [key.value]) start ++ rest.fields num path (start + v.text.length + post.length) false)
end

mutual
/-- No white space between keys and colons. -/
def Doc.Tight : Doc → Prop
  | .obj _ ms => ms.Tight
  | _ => True
def Members.Tight : Members → Prop
  | .nil => True
  | .cons _ _ gap _ v _ rest => gap = [] ∧ v.Tight ∧ rest.Tight
end

/-! ### Lines -/

/-- A line: an object with white space around it. -/
structure Rec where
  pre : Bytes
  ws : Bytes
  members : Members
  post : Bytes

def Rec.text (r : Rec) : Bytes := r.pre ++ ((Doc.obj r.ws r.members).text ++ r.post)

/-- The fields of the record. -/
def Rec.fields (num : Bytes → Option UInt64) (r : Rec) : List Field := (Doc.obj r.ws r.members).fields num [] r.pre.length

/-- A line that the index supports: valid JSON, without white space between keys and colons, whose names have at most 236 bytes, and
which has strings where the search headers ask for them. -/
structure Rec.OK (num : Bytes → Option UInt64) (headers : List Bytes) (r : Rec) : Prop where
  pre : Ws r.pre
  post : Ws r.post
  doc : (Doc.obj r.ws r.members).WF num
  tight : r.members.Tight
  names : ∀ f ∈ r.fields num, f.name.length ≤ 236
  search : ∀ f ∈ r.fields num, f.name ∈ headers → ∃ v, f.tok = .str v

end Appendable.Spec
