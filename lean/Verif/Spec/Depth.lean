import Verif.Spec.Doc
/-
Specification: how deeply a document is nested.
-/
namespace Spec

mutual
/-- A leaf has depth one; a container is one deeper than its deepest child. -/
def Doc.depth : Doc → Nat
  | .scalar _ => 1
  | .array xs => depthL xs + 1
  | .map es => depthE es + 1
/-- The depth of the deepest child of an array. -/
def depthL : List Doc → Nat
  | [] => 0
  | x :: xs => max x.depth (depthL xs)
/-- The depth of the deepest value of a map. -/
def depthE : List (List UInt8 × Doc) → Nat
  | [] => 0
  | (_, x) :: es => max x.depth (depthE es)
end

end Spec
