import Verif.Model.CoParse
/-
Who owns the objects a parse makes.  The parsers of `Model/Parse.lean` and `Model/CoParse.lean` once more, this time with the
pools: every object and list item has a ghost identity, every coroutine has a `BridgePool` of its own, and pools are merged,
moved and destroyed where the code does so.  A pool is the collection of the objects it owns (`Spec/Ledger.lean`; that the
blocks and buffers of object_pool.h behave like that is C36 and C37).  Pools are values local to one coroutine, handed over
when it ends, so the model needs no interleaving.
-/
set_option autoImplicit false
namespace Bridge.Owner

/-- object.h:116-123 the element types of the eight pools. -/
inductive Kind
  | data | dataView | array | arrayItem | map | mapItem | mapView | mapViewItem
deriving DecidableEq, Repr

/-- A coroutine, by the positions at which it and its callers were started, innermost first. -/
abbrev Path := List Nat

/-- The identity of an object (ghost): its ordinal in the coroutine that made it, and that coroutine. -/
abbrev Oid := Kind × Path

/-- object.h:95-124 `BridgePool`: the objects in each of the eight pools. -/
structure BPool where
  data : List Path := []
  dataView : List Path := []
  array : List Path := []
  arrayItem : List Path := []
  map : List Path := []
  mapItem : List Path := []
  mapView : List Path := []
  mapViewItem : List Path := []

/-- Everything in a pool. -/
def BPool.all (b : BPool) : List Oid :=
  b.data.map (Kind.data, ·) ++ b.dataView.map (Kind.dataView, ·) ++ b.array.map (Kind.array, ·) ++
  b.arrayItem.map (Kind.arrayItem, ·) ++ b.map.map (Kind.map, ·) ++ b.mapItem.map (Kind.mapItem, ·) ++
  b.mapView.map (Kind.mapView, ·) ++ b.mapViewItem.map (Kind.mapViewItem, ·)

/-- object.h:1009-1033 `data`, `data_view`, `array`, `array_item`, `map`, `map_item`, `map_view`, `map_view_item`. -/
def BPool.add (b : BPool) (k : Kind) (id : Path) : BPool :=
  match k with
  | .data => { b with data := b.data ++ [id] }
  | .dataView => { b with dataView := b.dataView ++ [id] }
  | .array => { b with array := b.array ++ [id] }
  | .arrayItem => { b with arrayItem := b.arrayItem ++ [id] }
  | .map => { b with map := b.map ++ [id] }
  | .mapItem => { b with mapItem := b.mapItem ++ [id] }
  | .mapView => { b with mapView := b.mapView ++ [id] }
  | .mapViewItem => { b with mapViewItem := b.mapViewItem ++ [id] }

/-- object_pool.h:117-122 `ObjectPool::Merge`: this pool, and what is left of the other one. -/
def mergeOne (a b : List Path) : List Path × List Path := (a ++ b, [])

/-- object.h:998-1007 `BridgePool::Merge`: this pool, and what is left of the other one. -/
def BPool.merge (a b : BPool) : BPool × BPool :=
  let d := mergeOne a.data b.data
  let dv := mergeOne a.dataView b.dataView
  let ar := mergeOne a.array b.array
  let ai := mergeOne a.arrayItem b.arrayItem
  let m := mergeOne a.map b.map
  let mi := mergeOne a.mapItem b.mapItem
  let mv := mergeOne a.mapView b.mapView
  let mvi := mergeOne a.mapViewItem b.mapViewItem
  (⟨d.1, dv.1, ar.1, ai.1, m.1, mi.1, mv.1, mvi.1⟩, ⟨d.2, dv.2, ar.2, ai.2, m.2, mi.2, mv.2, mvi.2⟩)

/-- A pointer to an object, with the identities of the object and of the items of its list. -/
inductive LObj
  | null
  | data (id : Path) (ref : Bool) (dt : UInt8) (p : Payload)
  | array (id : Path) (pool : PoolRef) (size : Nat) (items : List (Path × LObj))
  | map (id : Path) (ref : Bool) (pool : PoolRef) (size : Nat) (items : List (Path × Str × LObj))

mutual
/-- The object without the identities. -/
def LObj.erase : LObj → Obj
  | .null => .null
  | .data _ ref dt p => .data ref dt p
  | .array _ pool size items => .array pool size (eraseItems items)
  | .map _ ref pool size items => .map ref pool size (eraseKVs items)
def eraseItems : List (Path × LObj) → List Obj
  | [] => []
  | (_, o) :: rest => o.erase :: eraseItems rest
def eraseKVs : List (Path × Str × LObj) → List (Str × Obj)
  | [] => []
  | (_, k, o) :: rest => (k, o.erase) :: eraseKVs rest
end

mutual
/-- All objects and items that can be reached through the pointer, with the pools they must come from. -/
def LObj.objects : LObj → List Oid
  | .null => []
  | .data id ref _ _ => [(if ref then .dataView else .data, id)]
  | .array id _ _ items => (.array, id) :: itemObjects items
  | .map id ref _ _ items => (if ref then .mapView else .map, id) :: kvObjects ref items
def itemObjects : List (Path × LObj) → List Oid
  | [] => []
  | (i, o) :: rest => (.arrayItem, i) :: (o.objects ++ itemObjects rest)
def kvObjects (ref : Bool) : List (Path × Str × LObj) → List Oid
  | [] => []
  | (i, _, o) :: rest => (if ref then .mapViewItem else .mapItem, i) :: (o.objects ++ kvObjects ref rest)
end

/-- A running coroutine (or the caller of `Parse`): the counter for identities, its local pool, and what has been made and
destroyed so far on its behalf (ghosts). -/
structure Fr where
  path : Path := []
  next : Nat := 0
  bp : BPool := {}
  made : List Oid := []
  gone : List Oid := []

/-- A piece of code of a coroutine. -/
def M (α : Type) : Type := Fr → Res α × Fr

def M.ret {α : Type} (a : α) : M α := fun s => (.ok a, s)

def M.andThen {α β : Type} (m : M α) (f : α → M β) : M β := fun s =>
  match m s with
  | (.ok a, s) => f a s
  | (.error e, s) => (.error e, s)

instance : Monad M where
  pure := M.ret
  bind := M.andThen

/-- Code that touches no pool. -/
def lift {α : Type} (r : Res α) : M α := fun s => (r, s)

/-- `Alloc` from the local pool. -/
def alloc (k : Kind) : M Path := fun s =>
  let id := s.next :: s.path
  (.ok id, { s with next := s.next + 1, bp := s.bp.add k id, made := s.made ++ [(k, id)] })

/-- Starting a coroutine. -/
def child : M Path := fun s => (.ok (s.next :: s.path), { s with next := s.next + 1 })

/-- The destructor of a pool. -/
def drop (b : BPool) : M Unit := fun s => (.ok (), { s with gone := s.gone ++ b.all })

/-- `bp.Merge(std::move(other))`, and the destructor of `other` (now empty) some time later. -/
def mergeIn (b : BPool) : M Unit := fun s =>
  let r := s.bp.merge b
  (.ok (), { s with bp := r.1, gone := s.gone ++ r.2.all })

/-- What a coroutine leaves behind when it ends: its outcome, the pool it hands over, and what was made and destroyed. -/
structure Done (α : Type) where
  res : Res α
  bp : BPool
  made : List Oid
  gone : List Oid

/-- A coroutine with a local `BridgePool bp` (object.h:1321, 1373, 1404, 1468, 1531): `co_return ..., std::move(bp)` hands the
pool over, an exception destroys it. -/
def runFrame {α : Type} (path : Path) (m : M α) : Done α :=
  match m { path := path } with
  | (.ok a, s) => ⟨.ok a, s.bp, s.made, s.gone⟩
  | (.error e, s) => ⟨.error e, {}, s.made, s.gone ++ s.bp.all⟩

/-- Account for what a finished coroutine made and destroyed. -/
def note {α : Type} (d : Done α) : M Unit := fun s =>
  (.ok (), { s with made := s.made ++ d.made, gone := s.gone ++ d.gone })

/-- object.h:1035-1053 `object_factory`: which pool the object comes from. -/
def factoryKind (t : ObjectType) (parseRef : Bool) : Option Kind :=
  match t with
  | .data => some (if parseRef then .dataView else .data)
  | .map => some (if parseRef then .mapView else .map)
  | .array => some .array
  | .invalid => none

/-- object.h:693-704 `Map::Insert` and object.h:943-954 `MapView::Insert`: which pool the item comes from. -/
def itemKind (parseRef : Bool) : Kind := if parseRef then .mapViewItem else .mapItem

/-- The recursive parser. -/
structure PV where
  val : ObjectType → Cur → M (LObj × Cur)
  items : (count : Nat) → Cur → M (List (Path × LObj) × Cur)
  kvs : (count : Nat) → Cur → List (Path × Str × LObj) → M (List (Path × Str × LObj) × Cur)

/-- object.h:462-470 `parse_child`, object.h:1768-1776, 1333-1336: `object_factory` and then the `valueParse` methods (object.h:208-224,
327-342, 556-579, 739-755, 863-876) of the new object. -/
def valL (cfg : Cfg) (v : View) (sm : Option StringMap) (parseRef : Bool) (pool : PoolRef) (p : PV) (t : ObjectType) (c : Cur) :
    M (LObj × Cur) :=
  match factoryKind t parseRef with
  | none => lift (.error (.ub .nullDeref))
  | some k => do
    let id ← alloc k
    match t with
    | .invalid => lift (.error (.ub .nullDeref))
    | .data => do
      let r ← lift (if parseRef then parseViewObj cfg v sm c else parseDataObj cfg v sm c)
      match r.1 with
      | .data ref dt p => pure (.data id ref dt p, r.2)
      | _ => pure (.null, r.2)
    | .array => do
      let a ← lift (parseLength cfg v c)
      let b ← lift (parseLength cfg v a.2)
      let items ← p.items a.1 b.2
      pure (.array id pool a.1 items.1, items.2)
    | .map => do
      let a ← lift (parseLength cfg v c)
      let b ← lift (parseLength cfg v a.2)
      let items ← p.kvs a.1 b.2 []
      pure (.map id parseRef pool a.1 items.1, items.2)

/-- object.h:564-576 the loop of `Array::valueParse`: the child, then its item. -/
def itemsL (v : View) (p : PV) (count : Nat) (c : Cur) : M (List (Path × LObj) × Cur) :=
  match count with
  | 0 => pure ([], c)
  | n + 1 => do
    let t ← lift (parseObjectType v c)
    let o ← p.val t.1 t.2
    let i ← alloc .arrayItem
    let rest ← p.items n o.2
    pure ((i, o.1) :: rest.1, rest.2)

/-- object.h:746-753, 869-874 the loops of `Map::valueParse` and `MapView::valueParse`. -/
def kvsL (cfg : Cfg) (v : View) (sm : Option StringMap) (parseRef : Bool) (p : PV) (count : Nat) (c : Cur)
    (acc : List (Path × Str × LObj)) : M (List (Path × Str × LObj) × Cur) :=
  match count with
  | 0 => pure (acc, c)
  | n + 1 => do
    let k ← lift (parseKey cfg v sm c)
    let t ← lift (parseObjectType v k.2)
    let o ← p.val t.1 t.2
    let k' ← lift (ownKey cfg v parseRef k.1)
    let i ← alloc (itemKind parseRef)
    p.kvs n o.2 ((i, k', o.1) :: acc)

/-- The recursive parser, to a depth of `fuel` calls. -/
def pvs (cfg : Cfg) (v : View) (sm : Option StringMap) (parseRef : Bool) (pool : PoolRef) : (fuel : Nat) → PV
  | 0 => ⟨fun _ _ => lift (.error .fuel), fun _ _ => lift (.error .fuel), fun _ _ _ => lift (.error .fuel)⟩
  | f + 1 =>
    let p := pvs cfg v sm parseRef pool f
    ⟨valL cfg v sm parseRef pool p, itemsL v p, kvsL cfg v sm parseRef p⟩

/-- The four coroutines; of the block parsers only the loop (they call themselves in the same frame). -/
structure Cs where
  arrayLoop : (end_ : Nat) → Cur → M (List (Path × LObj))
  array : (os : Nat) → M (LObj × Cur)
  mapLoop : (end_ : Nat) → Cur → M (List (Path × Str × LObj))
  map : (os : Nat) → M (LObj × Cur)

/-- object.h:1339-1343, 1345-1349, 1431-1435, 1437-1441, 1496-1500, 1503-1507: `co_await` a container and merge its pool. -/
def await (m : M (LObj × Cur)) : M (LObj × Cur) := do
  let path ← child
  let pr := runFrame path m
  note pr
  let r ← lift pr.res
  mergeIn pr.bp
  pure r

/-- object.h:1333-1356, 1425-1448, 1490-1513: a child, by the recursive parser in the local pool or by a coroutine of its own. -/
def childL (cs : Cs) (p : PV) (split : Bool) (t : ObjectType) (c : Cur) : M (LObj × Cur) :=
  if split then
    match t with
    | .array => await (cs.array c.idx)
    | .map => await (cs.map c.idx)
    | _ => lift (.error (.exn .dataNeedToSplit))
  else p.val t c

/-- object.h:1328-1366 the loop of `ParseArrayBlock`. -/
def arrayLoopL (v : View) (cs : Cs) (p : PV) (end_ : Nat) (c : Cur) : M (List (Path × LObj)) :=
  if c.off < end_ then do
    let t ← lift (parseObjectTypeSplit v c)
    let o ← childL cs p t.2.1 t.1 t.2.2
    let i ← alloc .arrayItem
    let rest ← cs.arrayLoop end_ o.2
    pure ((i, o.1) :: rest)
  else pure []

/-- object.h:1411-1460 the loop of `ParseMapBlock`, object.h:1475-1525 of `ParseMapViewBlock`. -/
def mapLoopL (cfg : Cfg) (v : View) (sm : Option StringMap) (parseRef : Bool) (cs : Cs) (p : PV) (end_ : Nat) (c : Cur) :
    M (List (Path × Str × LObj)) :=
  if c.off < end_ then do
    let k ← lift (parseKeyBlock cfg v sm parseRef c)
    let t ← lift (parseObjectTypeSplit v k.2)
    let o ← childL cs p t.2.1 t.1 t.2.2
    let i ← alloc (itemKind parseRef)
    let rest ← cs.mapLoop end_ o.2
    pure ((i, k.1, o.1) :: rest)
  else pure []

/-- `co_await collectAllPara(std::move(tasks))`: one coroutine per block. -/
def startAll {α : Type} (f : Nat × Nat → M α) : List (Nat × Nat) → M (List (Done α))
  | [] => pure []
  | be :: bes => do
    let path ← child
    let d := runFrame path (f be)
    note d
    let ds ← startAll f bes
    pure (d :: ds)

/-- The tasks that make the whole process misbehave, as in `joinTasks`. -/
def checkFatal {α : Type} (rs : List (Res α)) : Res Unit :=
  let errs := rs.filterMap failure?
  match errs.find? (fun e => fatalRank e = 3) with
  | some e => .error e
  | none =>
    match errs.find? (fun e => fatalRank e = 2) with
    | some e => .error e
    | none =>
      match errs.find? (fun e => fatalRank e = 1) with
      | some e => .error e
      | none => .ok ()

/-- The destructor of what is left of the vector of results. -/
def dropAll {α : Type} : List (Done α) → M Unit
  | [] => pure ()
  | d :: ds => do
    drop d.bp
    dropAll ds

/-- object.h:1394-1397, 1550-1553, 1565-1568: the merge loop; `items` and `size` are those of the container (object.h:502-513, 680-691,
839-850 `Merge`).  `it->value()` rethrows the exception of a task; the results not merged yet are then destroyed. -/
def mergeLoop {α : Type} : List (Done (List α)) → (items : List α) → (size : Nat) → M (List α × Nat)
  | [], items, size => pure (items, size)
  | d :: ds, items, size =>
    match d.res with
    | .error e => do
      dropAll (d :: ds)
      lift (.error e)
    | .ok b => do
      mergeIn d.bp
      if b.isEmpty then mergeLoop ds items size
      else mergeLoop ds (b ++ items) (addW size b.length)

/-- object.h:1375-1381, 1533-1540: the two lengths, and the bounds of the blocks. -/
def boundsL (cfg : Cfg) (v : View) (si : SplitInfo) (os : Nat) : Res (List (Nat × Nat) × Nat) := do
  let (_, c) ← parseLength cfg v (⟨addW 0 os, os⟩ : Cur)
  let (id, c) ← parseLength cfg v c
  let blocks ← si.getBlocks (toU32 id)
  pure (blockBounds c.idx blocks)

/-- object.h:1371-1399 `ParseArray`. -/
def arrayL (cfg : Cfg) (v : View) (si : SplitInfo) (cs : Cs) (os : Nat) : M (LObj × Cur) := do
  let bounds ← lift (boundsL cfg v si os)
  let ds ← startAll (fun be => cs.arrayLoop be.2 ⟨addW 0 be.1, be.1⟩) bounds.1
  lift (checkFatal (ds.reverse.map Done.res))
  let id ← alloc .array
  let r ← mergeLoop ds.reverse [] 0
  pure (.array id .frame r.2 r.1, ⟨bounds.2, bounds.2⟩)

/-- object.h:1529-1572 `ParseMap`; the map is made before the blocks are started. -/
def mapL (cfg : Cfg) (v : View) (si : SplitInfo) (parseRef : Bool) (cs : Cs) (os : Nat) : M (LObj × Cur) := do
  let bounds ← lift (boundsL cfg v si os)
  let id ← alloc (if parseRef then .mapView else .map)
  let ds ← startAll (fun be => cs.mapLoop be.2 ⟨addW 0 be.1, be.1⟩) bounds.1
  lift (checkFatal (ds.map Done.res))
  let r ← mergeLoop ds [] 0
  pure (.map id parseRef .frame r.2 r.1, ⟨bounds.2, bounds.2⟩)

/-- The coroutines, to a depth of `fuel` calls. -/
def css (cfg : Cfg) (v : View) (sm : Option StringMap) (si : SplitInfo) (parseRef : Bool) : (fuel : Nat) → Cs
  | 0 => ⟨fun _ _ => lift (.error .fuel), fun _ => lift (.error .fuel), fun _ _ => lift (.error .fuel), fun _ => lift (.error .fuel)⟩
  | f + 1 =>
    let cs := css cfg v sm si parseRef f
    let p := pvs cfg v sm parseRef .frame f
    ⟨arrayLoopL v cs p, arrayL cfg v si cs, mapLoopL cfg v sm parseRef cs p, mapL cfg v si parseRef cs⟩

/-- object.h:717-726, 932-941 the loop of `Get`. -/
def takeKeyL (k : Bytes) : List (Path × Str × LObj) → LObj
  | [] => .null
  | (_, k', o) :: rest => if k'.bytes = k then o else takeKeyL k rest

/-- object.h:1781, 1817: the value moved out of the parsed root map. -/
def takeRootL : LObj → LObj
  | .map _ _ _ _ items => takeKeyL rootKey items
  | _ => .null

/-- object.h:1765-1782 `NormalScheduler::Parse`: everything is made in the pool of the caller. -/
def normalL (cfg : Cfg) (parseRef : Bool) (fuel : Nat) (content : Bytes) (s : Sched) : M LObj := do
  let r ← (pvs cfg (View.whole content) s.sm parseRef .caller fuel).val .map ⟨metaSize, metaSize⟩
  if r.2.off ≠ s.total then lift (.error (.exn .parseError))
  else pure (takeRootL r.1)

/-- object.h:1805-1818 `CoroutineScheduler::Parse`: `syncAwait` the root map and merge its pool into the pool of the caller. -/
def coroutineL (cfg : Cfg) (parseRef : Bool) (workers : Nat) (fuel : Nat) (content : Bytes) (s : Sched) : M LObj :=
  if s.split = false then do
    let s ← lift (initFromContent cfg content)
    normalL cfg parseRef fuel content s
  else if workers = 0 then lift (.error .fuel)
  else do
    let r ← await ((css cfg (View.whole content) s.sm s.si parseRef fuel).map metaSize)
    pure (takeRootL r.1)

/-- object.h:1831-1842 `Parse` into a pool of the caller that may already own objects. -/
def parseL (cfg : Cfg) (po : ParseOption) (fuel : Nat) (content : Bytes) : M LObj := do
  let s ← lift (initFromContent cfg content)
  if po.coroutine then coroutineL cfg po.parseRef po.workers fuel content s
  else normalL cfg po.parseRef fuel content s

end Bridge.Owner
