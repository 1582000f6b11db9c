import Verif.Model.Pool
/-
The object pool when memory runs out.  Two things can fail: `std::aligned_alloc`, which then returns a null pointer, and the
enlargement of the vector of blocks, which then throws `std::bad_alloc`.
-/
set_option autoImplicit false
namespace Bridge.Pool

/-- The operations, with what happens to the allocations they ask for. -/
inductive OomOp
  /-- `Alloc` on pool `p`.  If a new block is needed: `buf` says that `aligned_alloc` succeeds, `vec` that the vector can take one more
  block. -/
  | alloc (p : Nat) (throws buf vec : Bool)
  /-- `p.Merge(std::move(q))`; with `stop = some k` the vector of `p` cannot take the block number `k` of `q` -/
  | merge (p q : Nat) (stop : Option Nat)
  | clear (p : Nat)
  | move (p q : Nat)
deriving DecidableEq, Repr

/-- The observable effects of an operation. -/
structure OomOut where
  result : Option AllocOut := none
  destroyed : List Nat := []
  /-- `std::bad_alloc` left the call -/
  badAlloc : Bool := false
deriving DecidableEq, Repr

/-- object_pool.h:49-53 `Block(size_t capacity)`: the result of `aligned_alloc` is not looked at. -/
def Block.makeOom (ma : Malloc) (buf : Bool) (cap : Nat) (h : Heap) : Block × Heap :=
  if buf then Block.make ma cap h else (⟨none, 0, cap⟩, { h with time := h.time + 1 })

/-- object_pool.h:106-115 `ObjectPool::Alloc`.  If `push_back` throws, the vector is as it was, and the temporary block is destroyed. -/
def poolAllocOom (ma : Malloc) (req throws buf vec : Bool) (bs : List Block) (h : Heap) : Except Fault (OomOut × List Block × Heap) :=
  if bs.isEmpty || (bs.getLast?.map Block.full).getD false then
    let (b, h) := Block.makeOom ma buf (capacityFor bs.length) h
    if vec then
      match vecPush req bs b h with
      | .error e => .error e
      | .ok (ids, bs, h) =>
        match backAlloc throws bs h with
        | .error e => .error e
        | .ok (r, bs, h) => .ok (⟨some r, ids, false⟩, bs, h)
    else
      match b.destroy req h with
      | .error e => .error e
      | .ok (ids, h) => .ok (⟨none, ids, true⟩, bs, h)
  else
    match backAlloc throws bs h with
    | .error e => .error e
    | .ok (r, bs, h) => .ok (⟨some r, [], false⟩, bs, h)

/-- object_pool.h:117-122 `ObjectPool::Merge` when `emplace_back` throws for the block number `k`: the blocks before it have been moved, and
what is left of them stays in the vector of the other pool, because `other.blocks_.clear()` is not reached. -/
def poolMergeOom (req : Bool) (stop : Option Nat) (bs other : List Block) (h : Heap) : Except Fault (OomOut × List Block × List Block × Heap) :=
  match stop with
  | some k =>
    if k < other.length then
      match mergeLoop req (other.take k) bs h with
      | .error e => .error e
      | .ok (ids, bs, left, h) => .ok (⟨none, ids, true⟩, bs, left ++ other.drop k, h)
    else
      match poolMerge req bs other h with
      | .error e => .error e
      | .ok (ids, bs, left, h) => .ok (⟨none, ids, false⟩, bs, left, h)
  | none =>
    match poolMerge req bs other h with
    | .error e => .error e
    | .ok (ids, bs, left, h) => .ok (⟨none, ids, false⟩, bs, left, h)

/-- One operation. -/
def execOom (ma : Malloc) (req : Bool) (w : World) : OomOp → Except Fault (OomOut × World)
  | .alloc p throws buf vec =>
    match poolAllocOom ma req throws buf vec (w.pools p) w.heap with
    | .error e => .error e
    | .ok (o, bs, h) => .ok (o, ⟨h, w.put p bs⟩)
  | .merge p q stop =>
    if p = q then .error .selfMerge
    else
      match poolMergeOom req stop (w.pools p) (w.pools q) w.heap with
      | .error e => .error e
      | .ok (o, bs, left, h) =>
        let w' : World := ⟨h, w.put p bs⟩
        .ok (o, ⟨h, w'.put q left⟩)
  | .clear p =>
    match destroyAll req (w.pools p) w.heap with
    | .error e => .error e
    | .ok (ids, h) => .ok (⟨none, ids, false⟩, ⟨h, w.put p []⟩)
  | .move p q =>
    if p = q then .ok (⟨none, [], false⟩, w)
    else
      match destroyAll req (w.pools p) w.heap with
      | .error e => .error e
      | .ok (ids, h) =>
        let w' : World := ⟨h, w.put p (w.pools q)⟩
        .ok (⟨none, ids, false⟩, ⟨h, w'.put q []⟩)

/-- A history: what the operations did, the world at the end, and the fault that stopped it, if there was one. -/
def runOom (ma : Malloc) (req : Bool) : World → List OomOp → List OomOut × World × Option Fault
  | w, [] => ([], w, none)
  | w, op :: ops =>
    match execOom ma req w op with
    | .error e => ([], w, some e)
    | .ok (o, w) =>
      let r := runOom ma req w ops
      (o :: r.1, r.2)

end Bridge.Pool
