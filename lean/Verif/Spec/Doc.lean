/-
Specification: documents as a user sees them, independent of the model of the library.
-/
namespace Spec

/-- A leaf value with its type.  Floating point numbers are their bit patterns. -/
inductive Scalar
  | bytes (b : List UInt8)
  | string (b : List UInt8)
  | int32 (v : BitVec 32)
  | uint32 (v : BitVec 32)
  | int64 (v : BitVec 64)
  | uint64 (v : BitVec 64)
  | float (v : BitVec 32)
  | double (v : BitVec 64)
  | custom (b : List UInt8)
deriving DecidableEq, Repr

/-- The size in bytes and the bit pattern of a numeric scalar. -/
def Scalar.number? : Scalar → Option (Nat × Nat)
  | .int32 v => some (4, v.toNat)
  | .uint32 v => some (4, v.toNat)
  | .float v => some (4, v.toNat)
  | .int64 v => some (8, v.toNat)
  | .uint64 v => some (8, v.toNat)
  | .double v => some (8, v.toNat)
  | _ => none

/-- A document.  Arrays and maps list their elements in the order in which an iterator of the library visits them, newest
first; index `n` of an array is the `n`-th element counted from the end of that list, and a lookup by key finds the first
entry with that key. -/
inductive Doc
  | scalar (s : Scalar)
  | array (xs : List Doc)
  | map (es : List (List UInt8 × Doc))

mutual
/-- The document in which the entries of every map, at every depth, are in the opposite order. -/
def Doc.revMaps : Doc → Doc
  | .scalar s => .scalar s
  | .array xs => .array (revMapsL xs)
  | .map es => .map (revMapsE es []) 
/-- `revMaps` of every element of a list. -/
def revMapsL : List Doc → List Doc
  | [] => []
  | x :: xs => x.revMaps :: revMapsL xs
/-- `revMaps` of every value, and the entries reversed onto `acc`. -/
def revMapsE : List (List UInt8 × Doc) → List (List UInt8 × Doc) → List (List UInt8 × Doc)
  | [], acc => acc
  | (k, x) :: es, acc => revMapsE es ((k, x.revMaps) :: acc)
end

mutual
/-- The same document up to the order of the entries of maps. -/
def Doc.Same : Doc → Doc → Prop
  | .scalar s, d => d = .scalar s
  | .array xs, d => ∃ ys, d = .array ys ∧ SameL xs ys
  | .map es, d => ∃ es' es'', d = .map es' ∧ SameE es es'' ∧ es''.Perm es'
/-- Pointwise `Same`. -/
def SameL : List Doc → List Doc → Prop
  | [], ys => ys = []
  | x :: xs, ys => ∃ y ys', ys = y :: ys' ∧ x.Same y ∧ SameL xs ys'
/-- Pointwise `Same` for entries with equal keys. -/
def SameE : List (List UInt8 × Doc) → List (List UInt8 × Doc) → Prop
  | [], es' => es' = []
  | (k, x) :: es, es' => ∃ y ys', es' = (k, y) :: ys' ∧ x.Same y ∧ SameE es ys'
end

mutual
/-- No map of the document, at any depth, has two entries with the same key. -/
def Doc.DistinctKeys : Doc → Prop
  | .scalar _ => True
  | .array xs => distinctKeysL xs
  | .map es => (es.map Prod.fst).Nodup ∧ distinctKeysE es
/-- `DistinctKeys` of every element. -/
def distinctKeysL : List Doc → Prop
  | [] => True
  | x :: xs => x.DistinctKeys ∧ distinctKeysL xs
/-- `DistinctKeys` of every value. -/
def distinctKeysE : List (List UInt8 × Doc) → Prop
  | [] => True
  | (_, x) :: es => x.DistinctKeys ∧ distinctKeysE es
end

mutual
/-- The document holds no value of a user-defined type. -/
def Doc.noCustom : Doc → Bool
  | .scalar (.custom _) => false
  | .scalar _ => true
  | .array xs => noCustomL xs
  | .map es => noCustomE es
/-- `noCustom` of every element. -/
def noCustomL : List Doc → Bool
  | [] => true
  | x :: xs => x.noCustom && noCustomL xs
/-- `noCustom` of every value. -/
def noCustomE : List (List UInt8 × Doc) → Bool
  | [] => true
  | (_, x) :: es => x.noCustom && noCustomE es
end

/-- One step of an access path. -/
inductive Step
  | key (k : List UInt8)
  | index (n : Nat)
deriving DecidableEq, Repr

/-- The first entry with key `k`. -/
def firstEntry (k : List UInt8) : List (List UInt8 × Doc) → Option Doc
  | [] => none
  | (k', x) :: es => if k' = k then some x else firstEntry k es

/-- Follow one step of a path; `none` if there is no such member. -/
def Doc.step : Doc → Step → Option Doc
  | .map es, .key k => firstEntry k es
  | .array xs, .index n => xs.reverse[n]?
  | _, _ => none

/-- Follow a path from the root of the document. -/
def Doc.at : Doc → List Step → Option Doc
  | d, [] => some d
  | d, s :: p => (d.step s).bind (fun d' => d'.at p)

end Spec
