import Verif.Spec.Format
/-
Specification: a place in a document where a value or a key stands, and what may be put there instead so that it takes the same room.
-/
namespace Spec

/-- A place in a document: a leaf, or the key of an entry, somewhere inside. -/
inductive Place
  /-- the document itself -/
  | here
  /-- in an element of an array -/
  | elem (before : List Doc) (p : Place) (after : List Doc)
  /-- in the value of an entry of a map -/
  | entry (before : List (List UInt8 × Doc)) (k : List UInt8) (p : Place) (after : List (List UInt8 × Doc))
  /-- the key of an entry whose value is `x` -/
  | key (before : List (List UInt8 × Doc)) (x : Doc) (after : List (List UInt8 × Doc))

/-- The document with this leaf in the place.  A key is the bytes of the leaf. -/
def Place.fill : Place → Scalar → Doc
  | .here, s => .scalar s
  | .elem before p after, s => .array (before ++ p.fill s :: after)
  | .entry before k p after, s => .map (before ++ (k, p.fill s) :: after)
  | .key before x after, s => .map (before ++ (s.payload, x) :: after)

/-- Is it the place of a key? -/
def Place.isKey : Place → Bool
  | .here => false
  | .elem _ p _ => p.isKey
  | .entry _ _ p _ => p.isKey
  | .key _ _ _ => true

/-- Two leaves of the same type that take the same room.  (All numbers of one type do.) -/
def Scalar.Alike (s s' : Scalar) : Prop := s.code = s'.code ∧ s.payload.length = s'.payload.length

mutual
/-- Two documents that differ in keys and leaves only, each of which takes the same room; if `strings`, the same keys and strings. -/
def Doc.SameRoom (strings : Bool) : Doc → Doc → Prop
  | .scalar s, .scalar s' => s.Alike s' ∧ (strings = true → s.code = 1 → s = s')
  | .array xs, .array ys => SameRoomL strings xs ys
  | .map es, .map fs => SameRoomE strings es fs
  | _, _ => False
/-- `SameRoom` of the elements of two arrays. -/
def SameRoomL (strings : Bool) : List Doc → List Doc → Prop
  | [], [] => True
  | x :: xs, y :: ys => x.SameRoom strings y ∧ SameRoomL strings xs ys
  | _, _ => False
/-- `SameRoom` of the entries of two maps. -/
def SameRoomE (strings : Bool) : List (List UInt8 × Doc) → List (List UInt8 × Doc) → Prop
  | [], [] => True
  | (k, x) :: es, (k', y) :: fs => k.length = k'.length ∧ (strings = true → k = k') ∧ x.SameRoom strings y ∧ SameRoomE strings es fs
  | _, _ => False
end

end Spec
