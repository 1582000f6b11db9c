import Verif.Spec.Format
/-
Specification: what it means for a document to satisfy a pattern.
-/
namespace Spec

/-- A pattern as its user describes it. -/
inductive Pattern
  /-- a map with an entry for each of these keys that satisfies the pattern of the key, and, if given, with exactly that many
  entries -/
  | map (required : List (List UInt8 × Pattern)) (size : Option Nat)
  /-- any array -/
  | anyArray
  /-- an array of exactly these elements -/
  | array (elements : List Pattern)
  /-- a scalar, if a type code is given of that type -/
  | scalar (code : Option UInt8)
  /-- at least one of the patterns -/
  | anyOf (ps : List Pattern)
  /-- all of the patterns -/
  | allOf (ps : List Pattern)

mutual
/-- The document satisfies the pattern. -/
def Sat : Pattern → Doc → Prop
  | .map required size, d =>
    ∃ es, d = .map es ∧ (∀ n, size = some n → es.length = n) ∧ SatKeys required d
  | .anyArray, d => ∃ xs, d = .array xs
  | .array elements, d => ∃ xs, d = .array xs ∧ xs.length = elements.length ∧ SatFrom elements 0 d
  | .scalar code, d => ∃ s, d = .scalar s ∧ ∀ c, code = some c → s.code = c
  | .anyOf ps, d => SatSome ps d
  | .allOf ps, d => SatAll ps d
/-- Every listed key leads to a member that satisfies its pattern. -/
def SatKeys : List (List UInt8 × Pattern) → Doc → Prop
  | [], _ => True
  | (k, p) :: rest, d => (∃ x, d.step (.key k) = some x ∧ Sat p x) ∧ SatKeys rest d
/-- The elements with indices `i`, `i + 1`, … satisfy the patterns. -/
def SatFrom : List Pattern → Nat → Doc → Prop
  | [], _, _ => True
  | p :: ps, i, d => (∃ x, d.step (.index i) = some x ∧ Sat p x) ∧ SatFrom ps (i + 1) d
/-- Some pattern is satisfied. -/
def SatSome : List Pattern → Doc → Prop
  | [], _ => False
  | p :: ps, d => Sat p d ∨ SatSome ps d
/-- Every pattern is satisfied. -/
def SatAll : List Pattern → Doc → Prop
  | [], _ => True
  | p :: ps, d => Sat p d ∧ SatAll ps d
end

end Spec
