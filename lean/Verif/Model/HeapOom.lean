import Verif.Model.CoHeap
/-
Programs that build, write and read documents (Model/Heap.lean, Model/CoHeap.lean) when requests for memory are refused.
The refused request throws `std::bad_alloc`; the program catches it and goes on.

Not here: `aligned_alloc` returning a null pointer and `BridgePool::Merge` interrupted (C75), the assignment of a text to a `Data` (C65:
the leaf cannot be used any more), and what a refused `Parse` leaves in the pool (C82: objects that nothing refers to).
The other calls of Model/Heap.lean request no memory.
-/
set_option autoImplicit false
namespace Bridge.Heap
open Spec

/-- Which request of a call is refused: one that is made before the call has moved from its argument, or a later one. -/
inductive When
  | before
  | after
deriving DecidableEq

/-- The call throws `std::bad_alloc`, and the memory is `m'` afterwards. -/
inductive Refused (m : Mem) : When → Call → Mem → Prop
  /-- object_pool.h:97 `blocks_.reserve(4)` in one of the pools of `BridgePool p;` -/
  | newPool (p : Nat) : ¬ (m.pools p ∨ m.frames p) → Refused m .before (.newPool p) m
  /-- object_pool.h:112 the pool cannot grow, or the constructor (object.h:173-176) cannot copy the text: 68-69, the place stays free -/
  | leaf (d p : Nat) (view : Bool) (v : Scalar) : m.pools p = true → Refused m .before (.leaf d p view v) m
  | emptyLeaf (d p : Nat) (view : Bool) : m.pools p = true → Refused m .before (.emptyLeaf d p view) m
  | cont (d p : Nat) (k : Kind) : m.pools p = true → Refused m .before (.cont d p k) m
  /-- object.h:516 the item of `Array::Insert` -/
  | insert (c : Option Ref) (x : Nat) (r : Ref) (k : Kind) (pool : Nat) (head : Option Ref) (size : Nat) :
      m.loadCont true c = .ok (r, k, pool, head, size) → m.pools pool = true → Refused m .before (.insert c x) m
  /-- object.h:694, 944 the item of `Map::Insert`, `MapView::Insert` -/
  | insertKey (c : Option Ref) (key : Str) (x : Nat) (r : Ref) (k : Kind) (pool : Nat) (head : Option Ref) (size : Nat) :
      m.loadCont false c = .ok (r, k, pool, head, size) → m.pools pool = true → Refused m .before (.insertKey c key x) m
  /-- object.h:695 `node->key_ = key` in `Map::Insert`: the item has been made and stays in the pool, linked to nothing (a `MapView` copies
  nothing) -/
  | key (c : Option Ref) (key : Str) (x : Nat) (r : Ref) (pool : Nat) (head : Option Ref) (size : Nat) (m' : Mem) (node : Ref) :
      m.loadCont false c = .ok (r, .map false, pool, head, size) → m.alloc pool (.item noKey none none) = .ok (m', node) →
      Refused m .before (.insertKey c key x) m'
  /-- object.h:1625, 1647 the item of the local root map -/
  | serialize (t : SeriType) (p x : Nat) : m.pools p = true → Refused m .before (.serialize t p x) m
  /-- object.h:1626-1640, 1648-1667 anything later: the buffers, the dictionary, the table of the blocks.  The root map is gone, its item
  stays in the pool with what was moved into it. -/
  | writing (t : SeriType) (p x : Nat) (m' : Mem) (node : Ref) : m.rootInsert p x = .ok (m', node) → Refused m .after (.serialize t p x) m'
  /-- any request of `Parse` -/
  | parse (d p : Nat) (ref : Bool) (content : Bytes) : m.pools p = true → Refused m .before (.parse d p ref content) m

/-- A step of a program whose requests may be refused. -/
inductive OAct
  | done (a : Act)
  | refused (w : When) (c : Call)
  | refusedCo (c : CoCall)

/-- The step ends. -/
inductive OExec (w : Cfg) (fuel : Nat) (m : Mem) : OAct → Mem → Prop
  | done (a : Act) (m' : Mem) : Exec w fuel m a m' → OExec w fuel m (.done a) m'
  | refused (t : When) (c : Call) (m' : Mem) : Refused m t c m' → OExec w fuel m (.refused t c) m'
  /-- any request of the parallel `Parse` -/
  | refusedCo (c : CoCall) : m.pools c.p = true → OExec w fuel m (.refusedCo c) m

/-- A program. -/
inductive ORun (w : Cfg) (fuel : Nat) : Mem → List OAct → Mem → Prop
  | nil (m : Mem) : ORun w fuel m [] m
  | cons {m m1 m2 : Mem} {a : OAct} {as : List OAct} : OExec w fuel m a m1 → ORun w fuel m1 as m2 → ORun w fuel m (a :: as) m2

end Bridge.Heap
