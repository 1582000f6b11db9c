import Verif.Spec.Doc
/-
Specification: the text of a dump, line by line.
-/
namespace Spec

/-- The bytes of an ASCII text. -/
def ascii (s : String) : List UInt8 := s.toList.map fun c => UInt8.ofNat c.toNat

/-- A number in decimal. -/
def decimal (n : Nat) : List UInt8 := (Nat.toDigits 10 n).map fun c => UInt8.ofNat c.toNat

/-- `n` spaces. -/
def spaces (n : Nat) : List UInt8 := List.replicate n 32

/-- The name of the type of a scalar. -/
def Scalar.typeName : Scalar → List UInt8
  | .bytes _ => ascii "bytes"
  | .string _ => ascii "string"
  | .int32 _ => ascii "int32"
  | .uint32 _ => ascii "uint32"
  | .int64 _ => ascii "int64"
  | .uint64 _ => ascii "uint64"
  | .float _ => ascii "float"
  | .double _ => ascii "double"
  | .custom _ => ascii "custom"

mutual
/-- The lines of the dump of a document at indentation `n`: one line per scalar and per container, which names its type or its size,
and before each entry of a map a line with its key; elements of an array are one deeper, values of a map two. -/
def Doc.lines : Doc → Nat → List (List UInt8)
  | .scalar s, n => [spaces n ++ ascii "Data[ " ++ s.typeName ++ ascii " ]"]
  | .array xs, n => (spaces n ++ ascii "Array[ " ++ decimal xs.length ++ ascii " ]") :: linesL xs (n + 1)
  | .map es, n => (spaces n ++ ascii "Map[ " ++ decimal es.length ++ ascii " ]") :: linesE es (n + 1)
/-- The lines of the elements of an array. -/
def linesL : List Doc → Nat → List (List UInt8)
  | [], _ => []
  | x :: xs, n => x.lines n ++ linesL xs n
/-- The lines of the entries of a map. -/
def linesE : List (List UInt8 × Doc) → Nat → List (List UInt8)
  | [], _ => []
  | (k, x) :: es, n => (spaces n ++ ascii "< " ++ k ++ ascii " > : ") :: (x.lines (n + 1) ++ linesE es n)
end

/-- Lines with a line feed between each two. -/
def joinLines : List (List UInt8) → List UInt8
  | [] => []
  | [l] => l
  | l :: ls => l ++ 10 :: joinLines ls

mutual
/-- Two documents that differ at most in the values of scalars (not in their types). -/
def Doc.SameShape : Doc → Doc → Prop
  | .scalar s, d => ∃ s', d = .scalar s' ∧ s.typeName = s'.typeName
  | .array xs, d => ∃ ys, d = .array ys ∧ SameShapeL xs ys
  | .map es, d => ∃ es', d = .map es' ∧ SameShapeE es es'
/-- `SameShape` of corresponding elements. -/
def SameShapeL : List Doc → List Doc → Prop
  | [], ys => ys = []
  | x :: xs, ys => ∃ y ys', ys = y :: ys' ∧ x.SameShape y ∧ SameShapeL xs ys'
/-- Equal keys and `SameShape` of corresponding values. -/
def SameShapeE : List (List UInt8 × Doc) → List (List UInt8 × Doc) → Prop
  | [], ys => ys = []
  | (k, x) :: xs, ys => ∃ y ys', ys = (k, y) :: ys' ∧ x.SameShape y ∧ SameShapeE xs ys'
end

mutual
/-- No key of the document contains a line feed. -/
def Doc.NoNewlineKeys : Doc → Prop
  | .scalar _ => True
  | .array xs => noNewlineKeysL xs
  | .map es => noNewlineKeysE es
/-- `NoNewlineKeys` of every element. -/
def noNewlineKeysL : List Doc → Prop
  | [] => True
  | x :: xs => x.NoNewlineKeys ∧ noNewlineKeysL xs
/-- `NoNewlineKeys` of every entry. -/
def noNewlineKeysE : List (List UInt8 × Doc) → Prop
  | [] => True
  | (k, x) :: es => (10 : UInt8) ∉ k ∧ x.NoNewlineKeys ∧ noNewlineKeysE es
end

end Spec
