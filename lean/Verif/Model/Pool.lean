import Verif.Model.Basic
/-
Model of the object pool (object_pool.h).  Memory is a set of buffers obtained from `std::aligned_alloc`, each an array of
slots.  A slot records the identity of the object constructed in it (the ordinal of its allocation), which is a ghost: the
code itself only sees addresses.  `std::aligned_alloc` is assumed to succeed; it may return any buffer not in use, including
one freed before.
-/
namespace Bridge.Pool

/-- What must not happen. -/
inductive Fault
  /-- placement new into a null or freed buffer -/
  | badConstruct
  /-- a destructor call on a slot without an object -/
  | badDestruct
  /-- `std::free` of a buffer that is not allocated -/
  | badFree
  /-- object_pool.h:117-122 `Merge` of a pool into itself, which appends to the vector it iterates over -/
  | selfMerge
deriving DecidableEq, Repr

/-- The behaviour of `std::aligned_alloc`: the choice may depend on everything that happened before (the number of earlier
calls) but never falls on a buffer in use. -/
structure Malloc where
  pick : (time : Nat) → (live : List Nat) → Nat
  fresh : ∀ time live, pick time live ∉ live

/-- The memory. -/
structure Heap where
  /-- buffers allocated and not freed -/
  live : List Nat := []
  /-- number of allocations so far -/
  time : Nat := 0
  /-- the object in a slot of a buffer -/
  cell : Nat → Nat → Option Nat := fun _ _ => none
  /-- identity of the next object (ghost) -/
  next : Nat := 0

/-- object_pool.h:84-88 the members of `Block`. -/
structure Block where
  buf : Option Nat
  top : Nat
  cap : Nat
deriving DecidableEq, Repr

/-- object_pool.h:49-53 `Block(size_t capacity)`. -/
def Block.make (ma : Malloc) (cap : Nat) (h : Heap) : Block × Heap :=
  if cap > 0 then
    (⟨some (ma.pick h.time h.live), 0, cap⟩, { h with live := ma.pick h.time h.live :: h.live, time := h.time + 1 })
  else (⟨none, 0, cap⟩, h)

/-- object_pool.h:55 `Block(Block&&)`: the new block, and what is left of the old one (`top_` and `capacity_` stay). -/
def Block.move (b : Block) : Block × Block := (b, { b with buf := none })

/-- object_pool.h:60 `Full`. -/
def Block.full (b : Block) : Bool := b.top == b.cap

/-- What `Alloc` returns: a null pointer, the address of a slot, or the exception of the constructor. -/
inductive AllocOut
  | null
  | ptr (buf slot : Nat)
  | threw
deriving DecidableEq, Repr

/-- Write a slot. -/
def Heap.set (h : Heap) (buf i : Nat) (o : Option Nat) : Heap :=
  { h with cell := fun b j => if b = buf ∧ j = i then o else h.cell b j }

/-- object_pool.h:62-71 `Block::Alloc`; `throws` says that the constructor of the object throws. -/
def Block.alloc (throws : Bool) (b : Block) (h : Heap) : Except Fault (AllocOut × Block × Heap) :=
  if b.full then .ok (.null, b, h)
  else
    match b.buf with
    | none => .error .badConstruct
    | some buf =>
      if buf ∈ h.live then
        if throws then .ok (.threw, b, h)
        else .ok (.ptr buf b.top, { b with top := b.top + 1 }, { h.set buf b.top (some h.next) with next := h.next + 1 })
      else .error .badConstruct

/-- object_pool.h:33-40 the loop of `destructor_proxy` over the slots `i, …, i + n - 1`: the identities of the objects
destroyed. -/
def destructFrom (buf : Nat) : (i n : Nat) → Heap → Except Fault (List Nat × Heap)
  | _, 0, h => .ok ([], h)
  | i, n + 1, h =>
    match h.cell buf i with
    | none => .error .badDestruct
    | some id =>
      match destructFrom buf (i + 1) n (h.set buf i none) with
      | .error e => .error e
      | .ok (ids, h) => .ok (id :: ids, h)

/-- object_pool.h:35-44 `destructor_proxy<T>`: `req` says whether `T` asks for destruction. -/
def destructorProxy (req : Bool) (buf top : Nat) (h : Heap) : Except Fault (List Nat × Heap) :=
  if req then destructFrom buf 0 top h else .ok ([], h)

/-- `std::free`. -/
def Heap.free (h : Heap) (buf : Nat) : Except Fault Heap :=
  if buf ∈ h.live then
    .ok { h with live := h.live.erase buf, cell := fun b j => if b = buf then none else h.cell b j }
  else .error .badFree

/-- object_pool.h:73-82 `~Block`. -/
def Block.destroy (req : Bool) (b : Block) (h : Heap) : Except Fault (List Nat × Heap) :=
  match b.buf with
  | none => .ok ([], h)
  | some buf =>
    match destructorProxy req buf b.top h with
    | .error e => .error e
    | .ok (ids, h) =>
      match h.free buf with
      | .error e => .error e
      | .ok h => .ok (ids, h)

/-- `std::vector<Block>::clear`. -/
def destroyAll (req : Bool) : List Block → Heap → Except Fault (List Nat × Heap)
  | [], h => .ok ([], h)
  | b :: bs, h =>
    match b.destroy req h with
    | .error e => .error e
    | .ok (ids, h) =>
      match destroyAll req bs h with
      | .error e => .error e
      | .ok (ids', h) => .ok (ids ++ ids', h)

/-- `std::vector<Block>::push_back(Block&&)` that has to reallocate: every element is moved to the new storage and the
moved-from elements are destroyed, then the moved-from argument is destroyed by the caller.  (Without reallocation the result
is the same.) -/
def vecPush (req : Bool) (bs : List Block) (b : Block) (h : Heap) : Except Fault (List Nat × List Block × Heap) :=
  match destroyAll req (bs.map fun x => x.move.2) h with
  | .error e => .error e
  | .ok (ids, h) =>
    match (b.move.2).destroy req h with
    | .error e => .error e
    | .ok (ids', h) => .ok (ids ++ ids', bs.map (fun x => x.move.1) ++ [b.move.1], h)

/-- object_pool.h:108 `capacity_array`. -/
def capacities : List Nat := [2, 16, 128, 1024, 4096, 10240]

/-- object_pool.h:109-111 the capacity of the next block of a pool of `n` blocks. -/
def capacityFor (n : Nat) : Nat :=
  if n < capacities.length then capacities.getD n 0 else capacities.getD (capacities.length - 1) 0

/-- Replace the last element. -/
def setLast (bs : List Block) (b : Block) : List Block := bs.dropLast ++ [b]

/-- object_pool.h:113-114 `blocks_.back().Alloc(...)`. -/
def backAlloc (throws : Bool) (bs : List Block) (h : Heap) : Except Fault (AllocOut × List Block × Heap) :=
  match bs.getLast? with
  | none => .error .badConstruct
  | some b =>
    match b.alloc throws h with
    | .error e => .error e
    | .ok (r, b, h) => .ok (r, setLast bs b, h)

/-- object_pool.h:106-115 `ObjectPool::Alloc`: what is returned and which objects are destroyed on the way. -/
def poolAlloc (ma : Malloc) (req throws : Bool) (bs : List Block) (h : Heap) :
    Except Fault (AllocOut × List Nat × List Block × Heap) :=
  if bs.isEmpty || (bs.getLast?.map Block.full).getD false then
    let (b, h) := Block.make ma (capacityFor bs.length) h
    match vecPush req bs b h with
    | .error e => .error e
    | .ok (ids, bs, h) =>
      match backAlloc throws bs h with
      | .error e => .error e
      | .ok (r, bs, h) => .ok (r, ids, bs, h)
  else
    match backAlloc throws bs h with
    | .error e => .error e
    | .ok (r, bs, h) => .ok (r, [], bs, h)

/-- object_pool.h:118-120 the loop of `Merge`: the blocks are moved one by one to the end of `bs`; what is left of them is
returned. -/
def mergeLoop (req : Bool) : (other : List Block) → (bs : List Block) → Heap →
    Except Fault (List Nat × List Block × List Block × Heap)
  | [], bs, h => .ok ([], bs, [], h)
  | b :: other, bs, h =>
    match vecPush req bs b.move.1 h with
    | .error e => .error e
    | .ok (ids, bs, h) =>
      match mergeLoop req other bs h with
      | .error e => .error e
      | .ok (ids', bs, left, h) => .ok (ids ++ ids', bs, b.move.2 :: left, h)

/-- object_pool.h:117-122 `ObjectPool::Merge`. -/
def poolMerge (req : Bool) (bs other : List Block) (h : Heap) : Except Fault (List Nat × List Block × List Block × Heap) :=
  match mergeLoop req other bs h with
  | .error e => .error e
  | .ok (ids, bs, left, h) =>
    match destroyAll req left h with
    | .error e => .error e
    | .ok (ids', h) => .ok (ids ++ ids', bs, [], h)

/-- Pools of one element type, and the memory.  A pool that does not exist yet, or no longer, is an empty one. -/
structure World where
  heap : Heap := {}
  pools : Nat → List Block := fun _ => []

/-- Replace a pool. -/
def World.put (w : World) (p : Nat) (bs : List Block) : Nat → List Block := fun q => if q = p then bs else w.pools q

/-- The operations. -/
inductive Op
  /-- object_pool.h:106 `Alloc` on pool `p`; the constructor may throw -/
  | alloc (p : Nat) (throws : Bool)
  /-- object_pool.h:117 `p.Merge(std::move(q))` -/
  | merge (p q : Nat)
  /-- object_pool.h:102-104 `p.Clear()`, and the destructor -/
  | clear (p : Nat)
  /-- object_pool.h:99-100 the defaulted move constructor and assignment `p = std::move(q)` -/
  | move (p q : Nat)
deriving DecidableEq, Repr

/-- The observable effects of an operation. -/
structure Out where
  result : Option AllocOut := none
  destroyed : List Nat := []
deriving DecidableEq, Repr

/-- One operation. -/
def exec (ma : Malloc) (req : Bool) (w : World) : Op → Except Fault (Out × World)
  | .alloc p throws =>
    match poolAlloc ma req throws (w.pools p) w.heap with
    | .error e => .error e
    | .ok (r, ids, bs, h) => .ok (⟨some r, ids⟩, ⟨h, w.put p bs⟩)
  | .merge p q =>
    if p = q then .error .selfMerge
    else
      match poolMerge req (w.pools p) (w.pools q) w.heap with
      | .error e => .error e
      | .ok (ids, bs, left, h) =>
        let w' : World := ⟨h, w.put p bs⟩
        .ok (⟨none, ids⟩, ⟨h, w'.put q left⟩)
  | .clear p =>
    match destroyAll req (w.pools p) w.heap with
    | .error e => .error e
    | .ok (ids, h) => .ok (⟨none, ids⟩, ⟨h, w.put p []⟩)
  | .move p q =>
    if p = q then .ok (⟨none, []⟩, w)
    else
      match destroyAll req (w.pools p) w.heap with
      | .error e => .error e
      | .ok (ids, h) =>
        let w' : World := ⟨h, w.put p (w.pools q)⟩
        .ok (⟨none, ids⟩, ⟨h, w'.put q []⟩)

/-- A history. -/
def run (ma : Malloc) (req : Bool) : World → List Op → Except Fault (List Out × World)
  | w, [] => .ok ([], w)
  | w, op :: ops =>
    match exec ma req w op with
    | .error e => .error e
    | .ok (o, w) =>
      match run ma req w ops with
      | .error e => .error e
      | .ok (os, w) => .ok (o :: os, w)

end Bridge.Pool
