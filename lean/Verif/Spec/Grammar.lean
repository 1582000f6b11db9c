import Verif.Spec.Format
/-
Specification of the byte strings that can be read as a document.  It is more liberal than `Spec.write`: numbers need not be
written in the shortest way, container numbers are arbitrary, and a number payload may lack low-order bytes unless the reading
is `strict`.  Independent of the model of the library.
-/
namespace Spec

/-- A number field: one complete LEB128 number of at most ten bytes, reduced to 64 bits. -/
def NumField (bs : List UInt8) (n : Nat) : Prop := IsLeb bs ∧ bs.length ≤ 10 ∧ n = lebValue bs % 2 ^ 64

/-- `p` is a payload for the leaf `s`: exactly its payload, or, for a number in a reading that is not strict, the payload
without some trailing zero bytes. -/
def FillsPayload (strict : Bool) (s : Scalar) (p : List UInt8) : Prop :=
  match s.number? with
  | some _ => ∃ z, s.payload = p ++ List.replicate z 0 ∧ (strict = true → z = 0)
  | none => s.payload = p

/-- A string: inline with its length, or the id of a dictionary entry. -/
def ReadsStr (dict : Option (Nat → Option (List UInt8))) (b bs : List UInt8) : Prop :=
  match dict with
  | none => ∃ l, NumField l b.length ∧ bs = l ++ b
  | some f => ∃ n, NumField bs n ∧ f (n % 2 ^ 32) = some b

/-- A leaf: its type code, then a string, or the length and the bytes of its payload.  If it is the `last` thing in the content
its inline payload must not be empty. -/
def ReadsScalar (strict last : Bool) (dict : Option (Nat → Option (List UInt8))) (s : Scalar) (bs : List UInt8) : Prop :=
  ∃ rest, bs = s.code :: rest ∧
    (match s with
      | .string b => ReadsStr dict b rest ∧ (last = true → dict = none → b ≠ [])
      | s => ∃ l p, NumField l p.length ∧ FillsPayload strict s p ∧ rest = l ++ p ∧ (last = true → p ≠ []))

mutual
/-- The bytes `bs` can be read as the document `d`; a container is its number of children, any number, and its children.
`last` says that nothing follows `bs` in the content. -/
def Reads (strict last : Bool) (dict : Option (Nat → Option (List UInt8))) : Doc → List UInt8 → Prop
  | .scalar s, bs => ReadsScalar strict last dict s bs
  | .array xs, bs => ∃ c i rest id, bs = c ++ (i ++ rest) ∧ NumField c xs.length ∧ NumField i id ∧ ReadsL strict last dict xs rest
  | .map es, bs => ∃ c i rest id, bs = c ++ (i ++ rest) ∧ NumField c es.length ∧ NumField i id ∧ ReadsE strict last dict es rest
/-- The children of an array: the kind byte and the bytes of each. -/
def ReadsL (strict last : Bool) (dict : Option (Nat → Option (List UInt8))) : List Doc → List UInt8 → Prop
  | [], bs => bs = []
  | x :: xs, bs => ∃ split b rest, bs = kindByte x split :: (b ++ rest) ∧ Reads strict (last && xs.isEmpty) dict x b ∧ ReadsL strict last dict xs rest
/-- The entries of a map: the key, the kind byte and the bytes of each. -/
def ReadsE (strict last : Bool) (dict : Option (Nat → Option (List UInt8))) : List (List UInt8 × Doc) → List UInt8 → Prop
  | [], bs => bs = []
  | (k, x) :: es, bs => ∃ kb split b rest, bs = kb ++ (kindByte x split :: (b ++ rest)) ∧ ReadsStr dict k kb ∧ Reads strict (last && es.isEmpty) dict x b ∧
      ReadsE strict last dict es rest
end

/-- No number field in `content` takes more than nine bytes: among any nine consecutive bytes one has its top bit clear or lies
behind the end. -/
def ShortNumbers (content : List UInt8) : Prop :=
  ∀ a, ∃ j, j < 9 ∧ ∀ b, content[a + j]? = some b → b.toNat < 128

end Spec
