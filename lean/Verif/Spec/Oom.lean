import Verif.Model.PoolOom
import Verif.Spec.Ledger
/-
What the pools are supposed to do when memory can run out, in terms of objects alone.
-/
set_option autoImplicit false
namespace Bridge.Pool
open Spec

/-- What the operations do to the objects, in terms of the ledger: as in `Ledger.step`, except that a call that `std::bad_alloc` leaves
makes nothing, and an interrupted `Merge` has moved some of the objects and left the others where they were. -/
inductive OomDoes (l : Ledger) : OomOp → OomOut → Ledger → List Nat → Prop
  | made (p : Nat) (buf vec : Bool) (b i : Nat) (ids : List Nat) : OomDoes l (.alloc p false buf vec) ⟨some (.ptr b i), ids, false⟩ (l.step (.new p)).1 []
  | threw (p : Nat) (buf vec : Bool) (ids : List Nat) : OomDoes l (.alloc p true buf vec) ⟨some .threw, ids, false⟩ l []
  | full (p : Nat) (throws buf : Bool) (ids : List Nat) : OomDoes l (.alloc p throws buf false) ⟨none, ids, true⟩ l []
  | merged (p q : Nat) (stop : Option Nat) (ids : List Nat) : OomDoes l (.merge p q stop) ⟨none, ids, false⟩ (l.step (.merge p q)).1 []
  | part (p q k : Nat) (ids i1 i2 : List Nat) : l.owned q = i1 ++ i2 → OomDoes l (.merge p q (some k)) ⟨none, ids, true⟩
      ⟨l.made, fun x => if x = q then i2 else if x = p then l.owned p ++ i1 else l.owned x⟩ []
  | cleared (p : Nat) (ids : List Nat) : OomDoes l (.clear p) ⟨none, ids, false⟩ (l.step (.clear p)).1 (l.step (.clear p)).2
  | moved (p q : Nat) (ids : List Nat) : OomDoes l (.move p q) ⟨none, ids, false⟩ (l.step (.move p q)).1 (l.step (.move p q)).2

/-- A history. -/
inductive OomHistory : Ledger → List OomOp → List OomOut → Ledger → List Nat → Prop
  | nil (l : Ledger) : OomHistory l [] [] l []
  | cons {l l' l'' : Ledger} {op : OomOp} {ops : List OomOp} {o : OomOut} {os : List OomOut} {gone gone' : List Nat} : OomDoes l op o l' gone →
      OomHistory l' ops os l'' gone' → OomHistory l (op :: ops) (o :: os) l'' (gone ++ gone')

/-- The address that `Alloc` returned. -/
def OomOut.addr (o : OomOut) : List (Nat × Nat) :=
  match o.result with
  | some (.ptr b i) => [(b, i)]
  | _ => []

/-- Merging is between different pools. -/
def OomOp.ok : OomOp → Prop
  | .merge p q _ => p ≠ q
  | _ => True

/-- Pools that may have hollow blocks after an operation: an interrupted `Merge` leaves them in the other pool; completed merges and moves
pass them on; `Clear` removes them. -/
def hollowStep (hol : Nat → Bool) : OomOp → Nat → Bool
  | .alloc .. => hol
  | .merge p q none => fun x => if x = q then false else if x = p then hol p || hol q else hol x
  | .merge _ q (some _) => fun x => if x = q then true else hol x
  | .clear p => fun x => if x = p then false else hol x
  | .move p q => if p = q then hol else fun x => if x = q then false else if x = p then hol q else hol x

/-- No `Merge` is interrupted while it takes blocks from a pool that has hollow ones. -/
def CarefulFrom : (Nat → Bool) → List OomOp → Prop
  | _, [] => True
  | hol, op :: ops => (∀ p q k, op = .merge p q (some k) → hol q = false) ∧ CarefulFrom (hollowStep hol op) ops

end Bridge.Pool
