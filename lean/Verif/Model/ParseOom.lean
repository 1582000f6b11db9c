import Verif.Model.Owner
/-
`Parse` when memory runs out.  The parsers of `Model/Owner.lean` once more, and any request for memory may be refused.  What happens to
a request depends on who makes it and when, and is given by a `Supply`, about which nothing is assumed.
-/
set_option autoImplicit false
namespace Bridge.Owner

/-- How an `Alloc` of an object pool goes (`Model/PoolOom.lean`): it succeeds, the vector of blocks cannot grow and `std::bad_alloc` is
thrown, or `aligned_alloc` has returned a null pointer and the object is constructed there. -/
inductive Grant
  | fine | throws | null
deriving DecidableEq, Repr

/-- What the memory does during one call of `Parse`; `true` (for `merge`: `none`) means that there is enough. -/
structure Supply where
  /-- the `Alloc` of the object with this identity -/
  object : Path → Grant := fun _ => .fine
  /-- the string or vector of the `Data` with this identity (parse.h:72-77, object.h:216), or the reverse dictionary (string_map.h:46-51) -/
  leaf : Path → Bool := fun _ => true
  /-- the string for a key that is read next (object.h:1416-1424), or the reverse dictionary -/
  key : Path → Bool := fun _ => true
  /-- the copy of the key into the `MapItem` with this identity (object.h:695, 752, 1452, 1457) -/
  copy : Path → Bool := fun _ => true
  /-- the frame of a coroutine that is awaited, and the vectors of the `BridgePool` of any coroutine (object_pool.h:95) -/
  frame : Path → Bool := fun _ => true
  /-- the vector of the tasks and the frames of the tasks, which are all made before the first of them runs (object.h:1381-1386,
  1538-1546) -/
  tasks : Path → Bool := fun _ => true
  /-- the merge of the pool of a container that was awaited (object.h:1343, 1349, 1816); `some (j, n)`: the vector of the pool number `j` of the
  eight cannot grow after `n` of its objects have been moved -/
  child : Path → Option (Nat × Nat) := fun _ => none
  /-- the same for the pool of a block (object.h:1396, 1552, 1567), by the number of the blocks that come after it -/
  block : Path → Option (Nat × Nat) := fun _ => none
  /-- the tables of the header (object.h:1736-1741) -/
  tables : Bool := true

/-- There was enough of it, or `std::bad_alloc`. -/
def need (enough : Bool) : Res Unit := if enough then .ok () else .error (.exn .badAlloc)

/-- A request of the running coroutine. -/
def request (enough : Path → Bool) : M Unit := fun s => lift (need (enough s.path)) s

/-- A request that is made before the object with the next identity. -/
def requestNext (enough : Path → Bool) : M Unit := fun s => lift (need (enough (s.next :: s.path))) s

/-- object_pool.h:106-115 `Alloc` (C75: one that throws changes nothing). -/
def allocM (sup : Supply) (k : Kind) : M Path := fun s =>
  match sup.object (s.next :: s.path) with
  | .fine => alloc k s
  | .throws => (.error (.exn .badAlloc), s)
  | .null => (.error (.ub .constructAtNull), s)

/-- object_pool.h:117-122 the merge of the pool number `i` of the eight when that of the pool number `j` is interrupted: this pool, and what
is left in the other one. -/
def cutOne (i j n : Nat) (a b : List Path) : List Path × List Path :=
  if i < j then mergeOne a b else if i = j then (a ++ b.take n, b.drop n) else (a, b)

/-- object.h:998-1007 `BridgePool::Merge` when `std::bad_alloc` leaves the pool number `j`. -/
def BPool.mergeCut (a b : BPool) (j n : Nat) : BPool × BPool :=
  let d := cutOne 0 j n a.data b.data
  let dv := cutOne 1 j n a.dataView b.dataView
  let ar := cutOne 2 j n a.array b.array
  let ai := cutOne 3 j n a.arrayItem b.arrayItem
  let m := cutOne 4 j n a.map b.map
  let mi := cutOne 5 j n a.mapItem b.mapItem
  let mv := cutOne 6 j n a.mapView b.mapView
  let mvi := cutOne 7 j n a.mapViewItem b.mapViewItem
  (⟨d.1, dv.1, ar.1, ai.1, m.1, mi.1, mv.1, mvi.1⟩, ⟨d.2, dv.2, ar.2, ai.2, m.2, mi.2, mv.2, mvi.2⟩)

/-- `bp.Merge(std::move(other))`; if it throws, what is left in `other` is destroyed with it. -/
def mergeInM (stop : Option (Nat × Nat)) (b : BPool) : M Unit :=
  match stop with
  | none => mergeIn b
  | some (j, n) => fun s =>
    let r := s.bp.mergeCut b j n
    (.error (.exn .badAlloc), { s with bp := r.1, gone := s.gone ++ r.2.all })

/-- If `m` fails, the results of the tasks that are not merged yet are destroyed with the vector that holds them. -/
def orDrop {α β : Type} (m : M β) (ds : List (Done α)) : M β := fun s =>
  match m s with
  | (.ok b, s) => (.ok b, s)
  | (.error e, s) => (dropAll ds >>= fun _ => lift (.error e)) s

/-- Does reading a text ask for memory?  An in-situ parse without a dictionary makes views only. -/
def asks (sm : Option StringMap) (parseRef : Bool) (enough : Bool) : Bool := (parseRef && sm.isNone) || enough

/-- `valL`.  A text that cannot be allocated is reported before the checks of parse.h:28-33 and object.h:219-220: where both happen either may
come first, and this one covers the other because nothing is assumed of the supply. -/
def valM (sup : Supply) (cfg : Cfg) (v : View) (sm : Option StringMap) (parseRef : Bool) (pool : PoolRef) (p : PV) (t : ObjectType)
    (c : Cur) : M (LObj × Cur) :=
  match factoryKind t parseRef with
  | none => lift (.error (.ub .nullDeref))
  | some k => do
    let id ← allocM sup k
    match t with
    | .invalid => lift (.error (.ub .nullDeref))
    | .data => do
      lift (need (asks sm parseRef (sup.leaf id)))
      let r ← lift (if parseRef then parseViewObj cfg v sm c else parseDataObj cfg v sm c)
      match r.1 with
      | .data ref dt p => pure (.data id ref dt p, r.2)
      | _ => pure (.null, r.2)
    | .array => do
      let a ← lift (parseLength cfg v c)
      let b ← lift (parseLength cfg v a.2)
      let items ← p.items a.1 b.2
      pure (.array id pool a.1 items.1, items.2)
    | .map => do
      let a ← lift (parseLength cfg v c)
      let b ← lift (parseLength cfg v a.2)
      let items ← p.kvs a.1 b.2 []
      pure (.map id parseRef pool a.1 items.1, items.2)

/-- `itemsL`. -/
def itemsM (sup : Supply) (v : View) (p : PV) (count : Nat) (c : Cur) : M (List (Path × LObj) × Cur) :=
  match count with
  | 0 => pure ([], c)
  | n + 1 => do
    let t ← lift (parseObjectType v c)
    let o ← p.val t.1 t.2
    let i ← allocM sup .arrayItem
    let rest ← p.items n o.2
    pure ((i, o.1) :: rest.1, rest.2)

/-- `kvsL`. -/
def kvsM (sup : Supply) (cfg : Cfg) (v : View) (sm : Option StringMap) (parseRef : Bool) (p : PV) (count : Nat) (c : Cur)
    (acc : List (Path × Str × LObj)) : M (List (Path × Str × LObj) × Cur) :=
  match count with
  | 0 => pure (acc, c)
  | n + 1 => do
    requestNext fun id => asks sm parseRef (sup.key id)
    let k ← lift (parseKey cfg v sm c)
    let t ← lift (parseObjectType v k.2)
    let o ← p.val t.1 t.2
    let k' ← lift (ownKey cfg v parseRef k.1)
    let i ← allocM sup (itemKind parseRef)
    lift (need (parseRef || sup.copy i))
    p.kvs n o.2 ((i, k', o.1) :: acc)

/-- `pvs`. -/
def pvsM (sup : Supply) (cfg : Cfg) (v : View) (sm : Option StringMap) (parseRef : Bool) (pool : PoolRef) : (fuel : Nat) → PV
  | 0 => ⟨fun _ _ => lift (.error .fuel), fun _ _ => lift (.error .fuel), fun _ _ _ => lift (.error .fuel)⟩
  | f + 1 =>
    let p := pvsM sup cfg v sm parseRef pool f
    ⟨valM sup cfg v sm parseRef pool p, itemsM sup v p, kvsM sup cfg v sm parseRef p⟩

/-- `await`. -/
def awaitM (sup : Supply) (m : M (LObj × Cur)) : M (LObj × Cur) := do
  let path ← child
  let pr := runFrame path (request sup.frame >>= fun _ => m)
  note pr
  let r ← lift pr.res
  mergeInM (sup.child path) pr.bp
  pure r

/-- `childL`. -/
def childM (sup : Supply) (cs : Cs) (p : PV) (split : Bool) (t : ObjectType) (c : Cur) : M (LObj × Cur) :=
  if split then
    match t with
    | .array => awaitM sup (cs.array c.idx)
    | .map => awaitM sup (cs.map c.idx)
    | _ => lift (.error (.exn .dataNeedToSplit))
  else p.val t c

/-- `arrayLoopL`. -/
def arrayLoopM (sup : Supply) (v : View) (cs : Cs) (p : PV) (end_ : Nat) (c : Cur) : M (List (Path × LObj)) :=
  if c.off < end_ then do
    let t ← lift (parseObjectTypeSplit v c)
    let o ← childM sup cs p t.2.1 t.1 t.2.2
    let i ← allocM sup .arrayItem
    let rest ← cs.arrayLoop end_ o.2
    pure ((i, o.1) :: rest)
  else pure []

/-- `mapLoopL`. -/
def mapLoopM (sup : Supply) (cfg : Cfg) (v : View) (sm : Option StringMap) (parseRef : Bool) (cs : Cs) (p : PV) (end_ : Nat) (c : Cur) :
    M (List (Path × Str × LObj)) :=
  if c.off < end_ then do
    requestNext fun id => asks sm parseRef (sup.key id)
    let k ← lift (parseKeyBlock cfg v sm parseRef c)
    let t ← lift (parseObjectTypeSplit v k.2)
    let o ← childM sup cs p t.2.1 t.1 t.2.2
    let i ← allocM sup (itemKind parseRef)
    lift (need (parseRef || sup.copy i))
    let rest ← cs.mapLoop end_ o.2
    pure ((i, k.1, o.1) :: rest)
  else pure []

/-- `mergeLoop`. -/
def mergeLoopM {α : Type} (sup : Supply) : List (Done (List α)) → (items : List α) → (size : Nat) → M (List α × Nat)
  | [], items, size => pure (items, size)
  | d :: ds, items, size =>
    match d.res with
    | .error e => do
      dropAll (d :: ds)
      lift (.error e)
    | .ok b => do
      orDrop (fun s => mergeInM (sup.block (ds.length :: s.path)) d.bp s) ds
      if b.isEmpty then mergeLoopM sup ds items size
      else mergeLoopM sup ds (b ++ items) (addW size b.length)

/-- `arrayL`. -/
def coArrayM (sup : Supply) (cfg : Cfg) (v : View) (si : SplitInfo) (cs : Cs) (os : Nat) : M (LObj × Cur) := do
  let bounds ← lift (boundsL cfg v si os)
  request sup.tasks
  let ds ← startAll (fun be => request sup.frame >>= fun _ => cs.arrayLoop be.2 ⟨addW 0 be.1, be.1⟩) bounds.1
  lift (checkFatal (ds.reverse.map Done.res))
  let id ← orDrop (allocM sup .array) ds.reverse
  let r ← mergeLoopM sup ds.reverse [] 0
  pure (.array id .frame r.2 r.1, ⟨bounds.2, bounds.2⟩)

/-- `mapL`. -/
def coMapM (sup : Supply) (cfg : Cfg) (v : View) (si : SplitInfo) (parseRef : Bool) (cs : Cs) (os : Nat) : M (LObj × Cur) := do
  let bounds ← lift (boundsL cfg v si os)
  let id ← allocM sup (if parseRef then .mapView else .map)
  request sup.tasks
  let ds ← startAll (fun be => request sup.frame >>= fun _ => cs.mapLoop be.2 ⟨addW 0 be.1, be.1⟩) bounds.1
  lift (checkFatal (ds.map Done.res))
  let r ← mergeLoopM sup ds [] 0
  pure (.map id parseRef .frame r.2 r.1, ⟨bounds.2, bounds.2⟩)

/-- `css`. -/
def cssM (sup : Supply) (cfg : Cfg) (v : View) (sm : Option StringMap) (si : SplitInfo) (parseRef : Bool) : (fuel : Nat) → Cs
  | 0 => ⟨fun _ _ => lift (.error .fuel), fun _ => lift (.error .fuel), fun _ _ => lift (.error .fuel), fun _ => lift (.error .fuel)⟩
  | f + 1 =>
    let cs := cssM sup cfg v sm si parseRef f
    let p := pvsM sup cfg v sm parseRef .frame f
    ⟨arrayLoopM sup v cs p, coArrayM sup cfg v si cs, mapLoopM sup cfg v sm parseRef cs p, coMapM sup cfg v si parseRef cs⟩

/-- object.h:1765-1782 `NormalScheduler::Parse`, as `normalL`. -/
def normalM (sup : Supply) (cfg : Cfg) (parseRef : Bool) (fuel : Nat) (content : Bytes) (s : Sched) : M LObj := do
  let r ← (pvsM sup cfg (View.whole content) s.sm parseRef .caller fuel).val .map ⟨metaSize, metaSize⟩
  if r.2.off ≠ s.total then lift (.error (.exn .parseError))
  else pure (takeRootL r.1)

/-- object.h:1805-1818 `CoroutineScheduler::Parse`, as `coroutineL`.  The memory that the thread pool and its queue use is not part of
the model. -/
def coroutineM (sup : Supply) (cfg : Cfg) (parseRef : Bool) (workers : Nat) (fuel : Nat) (content : Bytes) (s : Sched) : M LObj :=
  if s.split = false then do
    let s ← lift (initFromContent cfg content)
    normalM sup cfg parseRef fuel content s
  else if workers = 0 then lift (.error .fuel)
  else do
    let r ← awaitM sup ((cssM sup cfg (View.whole content) s.sm s.si parseRef fuel).map metaSize)
    pure (takeRootL r.1)

/-- object.h:1831-1842 `Parse` into a pool of the caller, as `parseL`. -/
def parseM (sup : Supply) (cfg : Cfg) (po : ParseOption) (fuel : Nat) (content : Bytes) : M LObj := do
  lift (need sup.tables)
  let s ← lift (initFromContent cfg content)
  if po.coroutine then coroutineM sup cfg po.parseRef po.workers fuel content s
  else normalM sup cfg po.parseRef fuel content s

end Bridge.Owner
