import Verif.Spec.Doc
/-
Specification: the objects of a program as a graph.  An array is the sequence of what was inserted, a map the sequence of the
inserted pairs; nothing is said about memory.
-/
set_option autoImplicit false
namespace Spec

/-- An object.  Children are named by their identity; a null pointer can be inserted too. -/
inductive Node
  /-- a leaf and its value, if it has one -/
  | leaf (view : Bool) (v : Option Scalar)
  /-- an array: its children, first inserted first -/
  | seq (xs : List (Option Nat))
  /-- a map: its pairs, first inserted first -/
  | dict (view : Bool) (es : List (List UInt8 × Option Nat))

/-- The children of an object. -/
def Node.children : Node → List (Option Nat)
  | .leaf _ _ => []
  | .seq xs => xs
  | .dict _ es => es.map Prod.snd

/-- Was the object made with the views of another buffer (`view`) or with its own data? -/
def Node.ofClass (view : Bool) : Node → Prop
  | .leaf v _ => v = view
  | .seq _ => True
  | .dict v _ => v = view

/-- The objects, by identity, and the variables of the program that own one. -/
structure Store where
  node : Nat → Option Node := fun _ => none
  var : Nat → Option Nat := fun _ => none

/-- What a program does. -/
inductive Op
  | make (d : Nat) (n : Node)
  | move (d x : Nat)
  | assign (c : Nat) (v : Scalar)
  | append (c : Nat) (x : Nat)
  | add (c : Nat) (key : List UInt8) (x : Nat)
  | clear (c : Nat)
  | take (d : Nat) (c : Nat) (key : List UInt8)
  | consume (x : Nat)
  /-- a document comes in from outside; `none`: a null pointer does -/
  | parse (d : Nat) (view : Bool) (doc : Option Doc)
  | other

/-- Change a function at one argument. -/
def put {α : Type} (f : Nat → α) (i : Nat) (a : α) : Nat → α := fun j => if j = i then a else f j

/-- The object with identity `r` and everything below it, read as a document: no null pointer, no leaf without a value, and finite.
(`Doc` lists elements newest first.) -/
inductive Store.Unfolds (s : Store) : Option Nat → Doc → Prop
  | leaf {r : Nat} {view : Bool} {v : Scalar} : s.node r = some (.leaf view (some v)) → Unfolds s (some r) (.scalar v)
  | seq {r : Nat} {xs : List (Option Nat)} {ds : List Doc} : s.node r = some (.seq xs) → xs.length = ds.length →
      (∀ p ∈ xs.zip ds, Unfolds s p.1 p.2) → Unfolds s (some r) (.array ds.reverse)
  | dict {r : Nat} {view : Bool} {es : List (List UInt8 × Option Nat)} {ds : List (List UInt8 × Doc)} :
      s.node r = some (.dict view es) → es.map Prod.fst = ds.map Prod.fst →
      (∀ p ∈ es.zip ds, Unfolds s p.1.2 p.2.2) → Unfolds s (some r) (.map ds.reverse)

/-- One operation. -/
inductive Store.Step : Store → Op → Store → Prop
  /-- a new object gets an identity that no object has -/
  | make (s : Store) (d new : Nat) (n : Node) : s.node new = none →
      Step s (.make d n) ⟨put s.node new (some n), put s.var d (some new)⟩
  /-- a moved-from variable is null -/
  | move (s : Store) (d x : Nat) : Step s (.move d x) ⟨s.node, put (put s.var x none) d (s.var x)⟩
  | assign (s : Store) (c : Nat) (v : Scalar) (view : Bool) (old : Option Scalar) : s.node c = some (.leaf view old) →
      Step s (.assign c v) ⟨put s.node c (some (.leaf view (some v))), s.var⟩
  /-- the new child comes last -/
  | append (s : Store) (c x : Nat) (xs : List (Option Nat)) : s.node c = some (.seq xs) →
      Step s (.append c x) ⟨put s.node c (some (.seq (xs ++ [s.var x]))), put s.var x none⟩
  | add (s : Store) (c x : Nat) (key : List UInt8) (view : Bool) (es : List (List UInt8 × Option Nat)) :
      s.node c = some (.dict view es) →
      Step s (.add c key x) ⟨put s.node c (some (.dict view (es ++ [(key, s.var x)]))), put s.var x none⟩
  | clearSeq (s : Store) (c : Nat) (xs : List (Option Nat)) : s.node c = some (.seq xs) →
      Step s (.clear c) ⟨put s.node c (some (.seq [])), s.var⟩
  | clearDict (s : Store) (c : Nat) (view : Bool) (es : List (List UInt8 × Option Nat)) : s.node c = some (.dict view es) →
      Step s (.clear c) ⟨put s.node c (some (.dict view [])), s.var⟩
  /-- the value of the last pair with the key is moved out; the pair stays, with a null pointer -/
  | take (s : Store) (d c : Nat) (key : List UInt8) (view : Bool) (before after : List (List UInt8 × Option Nat)) (y : Option Nat) :
      s.node c = some (.dict view (before ++ (key, y) :: after)) → (∀ e ∈ after, e.1 ≠ key) →
      Step s (.take d c key) ⟨put s.node c (some (.dict view (before ++ (key, none) :: after))), put s.var d y⟩
  /-- no pair has the key: a null pointer -/
  | takeNothing (s : Store) (d c : Nat) (key : List UInt8) (view : Bool) (es : List (List UInt8 × Option Nat)) :
      s.node c = some (.dict view es) → (∀ e ∈ es, e.1 ≠ key) → Step s (.take d c key) ⟨s.node, put s.var d none⟩
  /-- the variable is moved away for good -/
  | consume (s : Store) (x : Nat) : Step s (.consume x) ⟨s.node, put s.var x none⟩
  /-- new objects are made, `d` owns one of them, and below it is the document; the objects that existed do not change, and no new
  object is held twice -/
  | parse (s s' : Store) (d : Nat) (view : Bool) (doc : Option Doc) :
      (∀ r n, s.node r = some n → s'.node r = some n) →
      (∀ y, y ≠ d → s'.var y = s.var y) →
      (∀ r n, s.node r = none → s'.node r = some n → n.ofClass view ∧ ∀ c, some c ∈ n.children → s.node c = none) →
      (∀ r r' n n' (i j : Nat) c, s.node r = none → s.node r' = none → s'.node r = some n → s'.node r' = some n' →
        n.children[i]? = some (some c) → n'.children[j]? = some (some c) → r = r' ∧ i = j) →
      (∀ r n c, s'.var d = some c → s'.node r = some n → some c ∉ n.children) →
      (doc = none → s'.var d = none) →
      (∀ x, doc = some x → ∃ r, s.node r = none ∧ s'.var d = some r ∧ s'.Unfolds (some r) x) →
      Step s (.parse d view doc) s'
  | other (s : Store) : Step s .other s

/-- The operations of a program one after the other. -/
inductive Store.Steps : Store → List Op → Store → Prop
  | nil (s : Store) : Steps s [] s
  | cons {s s' s'' : Store} {op : Op} {ops : List Op} : Store.Step s op s' → Steps s' ops s'' → Steps s (op :: ops) s''

/-- The value of the last pair with a key; a null pointer if there is none. -/
def newestChild (key : List UInt8) (es : List (List UInt8 × Option Nat)) : Option Nat :=
  ((es.reverse.find? fun e => e.1 = key).map Prod.snd).join

end Spec
