/-
What a pool of objects is supposed to do, in terms of objects alone: every object belongs to the pool that allocated it until
that pool is merged, moved or cleared.
-/
namespace Spec

/-- Operations on pools named by numbers. -/
inductive PoolOp
  /-- a new object in pool `p` -/
  | new (p : Nat)
  /-- an attempt that failed because the constructor threw -/
  | failedNew (p : Nat)
  /-- the objects of `q` now belong to `p` -/
  | merge (p q : Nat)
  /-- the objects of `p` are given up -/
  | clear (p : Nat)
  /-- the objects of `p` are given up and those of `q` now belong to `p` -/
  | move (p q : Nat)

/-- The objects, numbered in the order in which they were made. -/
structure Ledger where
  made : Nat := 0
  owned : Nat → List Nat := fun _ => []

/-- The new state and the objects given up. -/
def Ledger.step (l : Ledger) : PoolOp → Ledger × List Nat
  | .new p => (⟨l.made + 1, fun x => if x = p then l.owned p ++ [l.made] else l.owned x⟩, [])
  | .failedNew _ => (l, [])
  | .merge p q => (⟨l.made, fun x => if x = q then [] else if x = p then l.owned p ++ l.owned q else l.owned x⟩, [])
  | .clear p => (⟨l.made, fun x => if x = p then [] else l.owned x⟩, l.owned p)
  | .move p q =>
    if p = q then (l, [])
    else (⟨l.made, fun x => if x = q then [] else if x = p then l.owned q else l.owned x⟩, l.owned p)

/-- A history: the final state and what each operation gave up. -/
def Ledger.run (l : Ledger) : List PoolOp → Ledger × List (List Nat)
  | [] => (l, [])
  | op :: ops =>
    let r := l.step op
    let r' := r.1.run ops
    (r'.1, r.2 :: r'.2)

end Spec
