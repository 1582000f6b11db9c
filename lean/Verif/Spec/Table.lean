/-
Specification of the two tables of a document, independent of the model of the library.
-/
namespace Spec

/-- Add `s` at the end unless it is already there. -/
def addNew {α : Type} [DecidableEq α] (l : List α) (s : α) : List α := if s ∈ l then l else l ++ [s]

/-- The distinct elements of a list, in the order of their first occurrence. -/
def firstUse {α : Type} [DecidableEq α] (ss : List α) : List α := ss.foldl addNew []

/-- One call on a dictionary. -/
inductive DictOp
  | register (s : List UInt8)
  | lookup (id : Nat)
deriving DecidableEq, Repr

/-- What a call on a dictionary gives back: an id, or a string (`none`: an exception). -/
inductive DictOut
  | id (n : Nat)
  | str (s : Option (List UInt8))
deriving DecidableEq, Repr

/-- The strings registered by a history, in order. -/
def registered : List DictOp → List (List UInt8)
  | [] => []
  | .register s :: ops => s :: registered ops
  | .lookup _ :: ops => registered ops

/-- What a user expects of a history of calls: equal strings get equal ids, ids count distinct strings from 0, and a lookup
finds every string registered so far. -/
def dictIdeal (before : List (List UInt8)) : List DictOp → List DictOut
  | [] => []
  | .register s :: ops => .id ((addNew before s).idxOf s) :: dictIdeal (addNew before s) ops
  | .lookup id :: ops => .str before[id]? :: dictIdeal before ops

/-- The calls before the first lookup. -/
def beforeLookup : List DictOp → List DictOp
  | [] => []
  | .register s :: ops => .register s :: beforeLookup ops
  | .lookup _ :: _ => []

/-- The last value given to key `id`. -/
def lastValue {α : Type} (id : Nat) : List (Nat × α) → Option α
  | [] => none
  | (k, v) :: rest => (lastValue id rest).or (if k = id then some v else none)

/-- Of the pairs with the string `b`, the first one in `es` has the id `id`. -/
def FirstPair (es : List (List UInt8 × Nat)) (b : List UInt8) (id : Nat) : Prop :=
  ∃ before after, es = before ++ (b, id) :: after ∧ ∀ e ∈ before, e.1 ≠ b

end Spec
