import Verif.Spec.Doc
/-
Specification: what a document needs besides its numbers and its structure, the texts that a program keeps in a `std::string` or
a `std::vector<char>`.
-/
namespace Spec

/-- The bytes in one `std::string` or one `std::vector<char>`. -/
inductive Storage
  | string (b : List UInt8)
  | vector (b : List UInt8)
deriving DecidableEq, Repr

/-- The storage of a value: a string, a byte array or the bytes of a user-defined type. -/
def Scalar.storages : Scalar → List Storage
  | .bytes b => [.vector b]
  | .string b => [.string b]
  | .custom b => [.vector b]
  | _ => []

mutual
/-- The storage of all values and all keys of a document. -/
def Doc.storages : Doc → List Storage
  | .scalar s => s.storages
  | .array xs => storagesL xs
  | .map es => storagesE es
/-- The storage of the elements of an array. -/
def storagesL : List Doc → List Storage
  | [] => []
  | x :: xs => x.storages ++ storagesL xs
/-- The storage of the entries of a map. -/
def storagesE : List (List UInt8 × Doc) → List Storage
  | [] => []
  | (k, x) :: es => .string k :: (x.storages ++ storagesE es)
end

end Spec
