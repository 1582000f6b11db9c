import Verif.Spec.Doc
/-
Specification: what is left of a document when only the lengths of its strings are looked at.
-/
namespace Spec

/-- As many zero bytes. -/
def zeros (b : List UInt8) : List UInt8 := List.replicate b.length 0

/-- A leaf with the bytes of strings and byte arrays replaced by zeros; numbers are kept. -/
def Scalar.blank : Scalar → Scalar
  | .bytes b => .bytes (zeros b)
  | .string b => .string (zeros b)
  | .custom b => .custom (zeros b)
  | s => s

mutual
/-- The document with all bytes of strings, byte arrays and keys replaced by zeros: types, numbers, lengths, sizes and the order of
elements and entries are kept. -/
def Doc.blank : Doc → Doc
  | .scalar s => .scalar s.blank
  | .array xs => .array (blankL xs)
  | .map es => .map (blankE es)
/-- Every element. -/
def blankL : List Doc → List Doc
  | [] => []
  | x :: xs => x.blank :: blankL xs
/-- Every entry. -/
def blankE : List (List UInt8 × Doc) → List (List UInt8 × Doc)
  | [] => []
  | (k, x) :: es => (zeros k, x.blank) :: blankE es
end

end Spec
