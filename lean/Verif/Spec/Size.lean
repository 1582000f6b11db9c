import Verif.Spec.Format
/-
Specification: how large a document is.
-/
namespace Spec

mutual
/-- The number of values in a document: leaves, arrays and maps. -/
def Doc.nodes : Doc → Nat
  | .scalar _ => 1
  | .array xs => nodesL xs + 1
  | .map es => nodesE es + 1
/-- The number of values in the elements of an array. -/
def nodesL : List Doc → Nat
  | [] => 0
  | x :: xs => x.nodes + nodesL xs
/-- The number of values in the entries of a map. -/
def nodesE : List (List UInt8 × Doc) → Nat
  | [] => 0
  | (_, x) :: es => x.nodes + nodesE es
end

/-- The bytes of a string, a byte array or a value of a user-defined type. -/
def Scalar.text : Scalar → Nat
  | .bytes b => b.length
  | .string b => b.length
  | .custom b => b.length
  | _ => 0

mutual
/-- The number of bytes in the strings, byte arrays, values of user-defined types and keys of a document. -/
def Doc.text : Doc → Nat
  | .scalar s => s.text
  | .array xs => textL xs
  | .map es => textE es
/-- `text` of the elements of an array. -/
def textL : List Doc → Nat
  | [] => 0
  | x :: xs => x.text + textL xs
/-- `text` of the entries of a map. -/
def textE : List (List UInt8 × Doc) → Nat
  | [] => 0
  | (k, x) :: es => k.length + x.text + textE es
end

/-- The bytes in a leaf that is not a string. -/
def Scalar.blob : Scalar → Nat
  | .bytes b => b.length
  | .custom b => b.length
  | _ => 0

mutual
/-- The number of bytes in the byte arrays and values of user-defined types of a document. -/
def Doc.blobs : Doc → Nat
  | .scalar s => s.blob
  | .array xs => blobsL xs
  | .map es => blobsE es
/-- `blobs` of the elements of an array. -/
def blobsL : List Doc → Nat
  | [] => 0
  | x :: xs => x.blobs + blobsL xs
/-- `blobs` of the entries of a map. -/
def blobsE : List (List UInt8 × Doc) → Nat
  | [] => 0
  | (_, x) :: es => x.blobs + blobsE es
end

mutual
/-- The number of entries in all maps of a document. -/
def Doc.entries : Doc → Nat
  | .scalar _ => 0
  | .array xs => entriesL xs
  | .map es => entriesE es
/-- `entries` of the elements of an array. -/
def entriesL : List Doc → Nat
  | [] => 0
  | x :: xs => x.entries + entriesL xs
/-- The entries of a map and those of the maps in its values. -/
def entriesE : List (List UInt8 × Doc) → Nat
  | [] => 0
  | (_, x) :: es => 1 + x.entries + entriesE es
end

/-- The lengths of some strings, added up. -/
def total (l : List (List UInt8)) : Nat := (l.map List.length).sum

end Spec
