import Verif.Model.Heap
/-
The parallel parser in memory (object.h:1295-1572): coroutines as programs of single accesses to a shared memory, in any interleaving.
Each coroutine has a local `BridgePool` from which it makes its objects; the pools are merged when the results are collected.
Model/CoParse.lean has the same functions on values.
-/
set_option autoImplicit false
namespace Bridge.Heap
open Spec

/-- object.h:1314-1317, 1401-1403, 1465-1467 the result of a block: `(head, tail, count, std::move(bp))`. -/
structure Out where
  head : Option Ref
  tail : Option Ref
  count : Nat
  pool : Nat

/-- What a coroutine does, one access after the other. -/
inductive Prog : Type → Type 1
  /-- finished, with a value or with an exception -/
  | ret {α : Type} (r : Res α) : Prog α
  /-- `BridgePool bp;` -/
  | newPool {α : Type} (k : Nat → Prog α) : Prog α
  /-- `co_return … std::move(bp)`: the pool moves into the result, the variable `bp` ends.  The number `q` denotes the moved pool from
  here on; the containers refer to the variable. -/
  | endPool {α : Type} (q : Nat) (k : Prog α) : Prog α
  /-- `q.Merge(std::move(q'))` (object.h:998-1007) -/
  | mergePool {α : Type} (q q' : Nat) (k : Prog α) : Prog α
  /-- the moved pool `q` is destroyed, with everything that it still owns -/
  | freePool {α : Type} (q : Nat) (k : Prog α) : Prog α
  /-- `Alloc` from a pool -/
  | alloc {α : Type} (q : Nat) (c : Cell) (k : Ref → Prog α) : Prog α
  /-- read an object or an item -/
  | load {α : Type} (r : Option Ref) (k : Ref × Cell → Prog α) : Prog α
  /-- assign to a member of an object or an item -/
  | modify {α : Type} (r : Ref) (f : Cell → Cell) (k : Prog α) : Prog α
  /-- `GetStr` on the dictionary, whose table of strings is built by the first call (string_map.h:36-51; C41) -/
  | dict {α : Type} (k : Prog α) : Prog α
  /-- `co_await collectAllPara(tasks)`: start `n` coroutines and wait for all of them -/
  | par {α : Type} (n : Nat) (ts : Nat → Prog Out) (k : List (Res Out) → Prog α) : Prog α

/-- One after the other; an exception ends the coroutine. -/
def Prog.bind {α β : Type} : Prog α → (α → Prog β) → Prog β
  | .ret (.ok a), f => f a
  | .ret (.error e), _ => .ret (.error e)
  | .newPool k, f => .newPool fun q => (k q).bind f
  | .endPool q k, f => .endPool q (k.bind f)
  | .mergePool q q' k, f => .mergePool q q' (k.bind f)
  | .freePool q k, f => .freePool q (k.bind f)
  | .alloc q c k, f => .alloc q c fun r => (k r).bind f
  | .load r k, f => .load r fun x => (k x).bind f
  | .modify r g k, f => .modify r g (k.bind f)
  | .dict k, f => .dict (k.bind f)
  | .par n ts k, f => .par n ts fun rs => (k rs).bind f

instance : Monad Prog where
  pure a := .ret (.ok a)
  bind := Prog.bind

/-! ### The parser -/

namespace Co

/-- A computation that accesses nothing but the content and the tables. -/
def lift {α : Type} (x : Res α) : Prog α := .ret x

/-- The single accesses. -/
def newPool : Prog Nat := .newPool fun q => .ret (.ok q)
def endPool (q : Nat) : Prog Unit := .endPool q (.ret (.ok ()))
def mergePool (q q' : Nat) : Prog Unit := .mergePool q q' (.ret (.ok ()))
def freePool (q : Nat) : Prog Unit := .freePool q (.ret (.ok ()))
def alloc (q : Nat) (c : Cell) : Prog Ref := .alloc q c fun r => .ret (.ok r)
def load (r : Option Ref) : Prog (Ref × Cell) := .load r fun x => .ret (.ok x)
def modify (r : Ref) (f : Cell → Cell) : Prog Unit := .modify r f (.ret (.ok ()))
def par (n : Nat) (ts : Nat → Prog Out) : Prog (List (Res Out)) := .par n ts fun rs => .ret (.ok rs)

/-- string_map.h:36-44 `GetStr`, if it is called. -/
def useDict (called : Bool) : Prog Unit := if called then .dict (.ret (.ok ())) else .ret (.ok ())

/-- object.h:430-433, 1416-1418, 1480-1482: the key is looked up in the dictionary, if there is one and the id could be read. -/
def keyInDict (cfg : Cfg) (v : View) (sm : Option StringMap) (c : Cur) : Bool :=
  sm.isSome && (parseLength cfg v c).toOption.isSome

/-- object.h:208-216, 327-336: so is the value, if it is a string. -/
def valueInDict (cfg : Cfg) (v : View) (sm : Option StringMap) (c : Cur) : Bool :=
  (parseDataType v c).toOption.any fun x => x.1 == BRIDGE_STRING && keyInDict cfg v sm x.2

/-- object.h:1041-1060 `object_factory`. -/
def factory (q : Nat) (t : ObjectType) (ref : Bool) : Prog (Option Ref) :=
  match t with
  | .data => do
    let r ← alloc q (.data ref BRIDGE_INVALID .none)
    pure (some r)
  | .map => do
    let r ← alloc q (.cont (.map ref) q none 0)
    pure (some r)
  | .array => do
    let r ← alloc q (.cont .array q none 0)
    pure (some r)
  | .invalid => pure none

/-- object.h:693-704 `Map::Insert`, 943-954 `MapView::Insert`. -/
def mapPut (self : Option Ref) (key : Str) (v : Option Ref) : Prog Unit := do
  let (self, cell) ← load self
  match cell with
  | .cont (.map view) pool head size => do
    let node ← alloc pool (.item noKey none none)
    modify node (Cell.setKey (storeKey view key))
    modify node (Cell.setNode v)
    if head.isNone then do
      modify self (Cell.setHead (some node))
      modify self (Cell.setSize (addW size 1))
    else do
      modify node (Cell.setNext head)
      modify self (Cell.setHead (some node))
      modify self (Cell.setSize (addW size 1))
  | _ => lift (.error (.ub .nullDeref))

mutual
/-- object.h:982-986 the dispatch of `valueParse`; 208-224, 327-342 `Data` and `DataView`, 556-579 `Array`, 739-755 `Map`,
863-876 `MapView`. -/
def valueParse (cfg : Cfg) (v : View) (sm : Option StringMap) (ref : Bool) : (fuel : Nat) → Option Ref → Cur → Prog Cur
  | 0, _, _ => lift (.error .fuel)
  | f + 1, self, c => do
    let (r, cell) ← load self
    match cell with
    | .data view _ _ => do
      useDict (valueInDict cfg v sm c)
      let (o, c) ← lift (if view then parseViewObj cfg v sm c else parseDataObj cfg v sm c)
      match o with
      | .data _ dt p => do
        modify r (fun _ => .data view dt p)
        pure c
      | _ => lift (.error (.ub .badCast))
    | .cont .array p _ _ => do
      modify r (Cell.setHead none)
      modify r (Cell.setSize 0)
      let (count, c) ← lift (parseLength cfg v c)
      let (_, c) ← lift (parseLength cfg v c)
      let (head, c) ← arrayLoop cfg v sm ref p f none none count c
      modify r (Cell.setSize count)
      modify r (Cell.setHead head)
      pure c
    | .cont (.map _) p _ _ => do
      modify r (Cell.setHead none)
      modify r (Cell.setSize 0)
      let (count, c) ← lift (parseLength cfg v c)
      let (_, c) ← lift (parseLength cfg v c)
      let c ← mapLoop cfg v sm ref p f (some r) count c
      modify r (Cell.setSize count)
      pure c
    | .item .. => lift (.error (.ub .badCast))
/-- object.h:564-576 the loop of `Array::valueParse` with `parse_child` (462-470). -/
def arrayLoop (cfg : Cfg) (v : View) (sm : Option StringMap) (ref : Bool) (p : Nat) :
    (fuel : Nat) → (head tail : Option Ref) → (count : Nat) → Cur → Prog (Option Ref × Cur)
  | 0, _, _, _, _ => lift (.error .fuel)
  | _ + 1, head, _, 0, c => pure (head, c)
  | f + 1, head, tail, n + 1, c => do
    let (t, c) ← lift (parseObjectType v c)
    let child ← factory p t ref
    let c ← valueParse cfg v sm ref f child c
    let tmp ← alloc p (.item noKey none none)
    modify tmp (Cell.setNode child)
    if head.isNone then arrayLoop cfg v sm ref p f (some tmp) (some tmp) n c
    else do
      let (tl, _) ← load tail
      modify tl (Cell.setNext (some tmp))
      arrayLoop cfg v sm ref p f head (some tmp) n c
/-- object.h:747-753, 869-874 the loops of `Map::valueParse` and `MapView::valueParse` with `parse_child`. -/
def mapLoop (cfg : Cfg) (v : View) (sm : Option StringMap) (ref : Bool) (p : Nat) :
    (fuel : Nat) → (self : Option Ref) → (count : Nat) → Cur → Prog Cur
  | 0, _, _, _ => lift (.error .fuel)
  | _ + 1, _, 0, c => pure c
  | f + 1, self, n + 1, c => do
    useDict (keyInDict cfg v sm c)
    let (k, c) ← lift (parseKey cfg v sm c)
    let (t, c) ← lift (parseObjectType v c)
    let child ← factory p t ref
    let c ← valueParse cfg v sm ref f child c
    let k ← lift (ownKey cfg v ref k)
    mapPut self k child
    mapLoop cfg v sm ref p f self n c
end

/-- object.h:502-513, 680-691, 839-850 `Merge(block)` on the container at `ret`. -/
def merge (ret : Ref) (o : Out) : Prog Unit :=
  if o.head.isNone || o.tail.isNone then pure ()
  else do
    let (_, cell) ← load (some ret)
    match cell with
    | .cont _ _ last size => do
      let (t, _) ← load o.tail
      modify t (Cell.setNext last)
      modify ret (Cell.setHead o.head)
      modify ret (Cell.setSize (addW size o.count))
    | _ => lift (.error (.ub .badCast))

/-- object.h:1394-1397, 1550-1553, 1565-1568 `ret->Merge(…); bp.Merge(GetBPFromTuple(…));` for the blocks in the order given. -/
def mergeAll (bp : Nat) (ret : Ref) : List Out → Prog Unit
  | [] => pure ()
  | o :: os => do
    merge ret o
    mergePool bp o.pool
    mergeAll bp ret os

/-- The vector of the results is destroyed at the end of `ParseArray` / `ParseMap`. -/
def freeAll : List Out → Prog Unit
  | [] => pure ()
  | o :: os => do
    freePool o.pool
    freeAll os

/-- object.h:1357-1366, 1449-1459, 1514-1524: the new item, linked behind the last one. -/
def push (bp : Nat) (head tail : Option Ref) (k : Str) (node : Option Ref) : Prog (Option Ref × Option Ref) :=
  if head.isNone then do
    let i ← alloc bp (.item noKey none none)
    modify i (Cell.setKey k)
    modify i (Cell.setNode node)
    modify i (Cell.setNext none)
    pure (some i, some i)
  else do
    let i ← alloc bp (.item noKey none none)
    modify i (Cell.setKey k)
    modify i (Cell.setNode node)
    let (t, _) ← load tail
    modify t (Cell.setNext (some i))
    pure (head, some i)

/-- object.h:1337-1349, 1429-1441, 1494-1507: a split child.  Its pool is merged into the one of the block. -/
def adopt (bp : Nat) (x : Nat × Ref × Nat) : Prog (Option Ref × Cur) := do
  mergePool bp x.2.2
  freePool x.2.2
  pure (some x.2.1, ⟨x.1, x.1⟩)

/-- object.h:1351-1355, 1443-1447, 1509-1512: any other child, made from the pool of the block. -/
def fromFactory (bp : Nat) (t : ObjectType) (ref : Bool) (value : Option Ref → Prog Cur) : Prog (Option Ref × Cur) := do
  let node ← factory bp t ref
  let c ← value node
  pure (node, c)

/-- object.h:1333-1356, 1425-1448, 1490-1513: a split container is parsed by a coroutine of its own, any other child by the recursive
parser. -/
def child (bp : Nat) (split : Bool) (t : ObjectType) (value : Prog (Option Ref × Cur)) (array map : Prog (Nat × Ref × Nat)) :
    Prog (Option Ref × Cur) :=
  if split then
    match t with
    | .array => do
      let x ← array
      adopt bp x
    | .map => do
      let x ← map
      adopt bp x
    | _ => lift (.error (.exn .dataNeedToSplit))
  else value

mutual
/-- object.h:1328-1366 the loop of `ParseArrayBlock`. -/
def arrayBlock (cfg : Cfg) (v : View) (sm : Option StringMap) (si : SplitInfo) (ref : Bool) (bp : Nat) :
    (fuel : Nat) → (end_ : Nat) → (head tail : Option Ref) → (count : Nat) → Cur → Prog Out
  | 0, _, _, _, _, _ => lift (.error .fuel)
  | f + 1, end_, head, tail, count, c =>
    if c.off < end_ then do
      let (t, split, c) ← lift (parseObjectTypeSplit v c)
      let (node, c) ← child bp split t (fromFactory bp t ref fun node => valueParse cfg v sm ref f node c) (array cfg v sm si ref f c.idx)
        (map cfg v sm si ref f c.idx)
      let (head, tail) ← push bp head tail noKey node
      arrayBlock cfg v sm si ref bp f end_ head tail (addW count 1) c
    else pure ⟨head, tail, count, bp⟩

/-- object.h:1371-1399 `ParseArray`: the offset behind the array, the array and the pool. -/
def array (cfg : Cfg) (v : View) (sm : Option StringMap) (si : SplitInfo) (ref : Bool) :
    (fuel : Nat) → (os : Nat) → Prog (Nat × Ref × Nat)
  | 0, _ => lift (.error .fuel)
  | f + 1, os => do
    let bp ← newPool
    let c : Cur := ⟨addW 0 os, os⟩
    let (_, c) ← lift (parseLength cfg v c)
    let (id, c) ← lift (parseLength cfg v c)
    let blocks ← lift (si.getBlocks (toU32 id))
    let bounds := blockBounds c.idx blocks
    let rs ← par bounds.1.length fun i =>
      match bounds.1[i]? with
      | none => lift (.error .fuel)
      | some be => do
        let q ← newPool
        let o ← arrayBlock cfg v sm si ref q f be.2 none none 0 ⟨addW 0 be.1, be.1⟩
        endPool q
        pure o
    let outs ← lift (joinTasks rs.reverse)
    let ret ← alloc bp (.cont .array bp none 0)
    mergeAll bp ret outs
    freeAll outs
    endPool bp
    pure (bounds.2, ret, bp)

/-- object.h:1411-1460 the loop of `ParseMapBlock`, object.h:1475-1525 of `ParseMapViewBlock`. -/
def mapBlock (cfg : Cfg) (v : View) (sm : Option StringMap) (si : SplitInfo) (ref : Bool) (bp : Nat) :
    (fuel : Nat) → (end_ : Nat) → (head tail : Option Ref) → (count : Nat) → Cur → Prog Out
  | 0, _, _, _, _, _ => lift (.error .fuel)
  | f + 1, end_, head, tail, count, c =>
    if c.off < end_ then do
      useDict (keyInDict cfg v sm c)
      let (k, c) ← lift (parseKeyBlock cfg v sm ref c)
      let (t, split, c) ← lift (parseObjectTypeSplit v c)
      let (node, c) ← child bp split t (fromFactory bp t ref fun node => valueParse cfg v sm ref f node c) (array cfg v sm si ref f c.idx)
        (map cfg v sm si ref f c.idx)
      let (head, tail) ← push bp head tail k node
      mapBlock cfg v sm si ref bp f end_ head tail (addW count 1) c
    else pure ⟨head, tail, count, bp⟩

/-- object.h:1529-1572 `ParseMap`. -/
def map (cfg : Cfg) (v : View) (sm : Option StringMap) (si : SplitInfo) (ref : Bool) :
    (fuel : Nat) → (os : Nat) → Prog (Nat × Ref × Nat)
  | 0, _ => lift (.error .fuel)
  | f + 1, os => do
    let bp ← newPool
    let c : Cur := ⟨addW 0 os, os⟩
    let (_, c) ← lift (parseLength cfg v c)
    let (id, c) ← lift (parseLength cfg v c)
    let blocks ← lift (si.getBlocks (toU32 id))
    let bounds := blockBounds c.idx blocks
    let ret ← alloc bp (.cont (.map ref) bp none 0)
    let rs ← par bounds.1.length fun i =>
      match bounds.1[i]? with
      | none => lift (.error .fuel)
      | some be => do
        let q ← newPool
        let o ← mapBlock cfg v sm si ref q f be.2 none none 0 ⟨addW 0 be.1, be.1⟩
        endPool q
        pure o
    let outs ← lift (joinTasks rs)
    mergeAll bp ret outs
    freeAll outs
    endPool bp
    pure (bounds.2, ret, bp)
end

end Co

/-! ### Interleavings -/

/-- One access by one of the coroutines that can run; `true` if it is a use of the dictionary. -/
inductive Step : {α : Type} → Bool → Mem → Prog α → Mem → Prog α → Prop
  | newPool {α : Type} (m : Mem) (k : Nat → Prog α) :
      Step false m (.newPool k)
        { m with
          pools := upd m.pools m.nextPool true
          frames := upd m.frames m.nextPool true
          nextPool := m.nextPool + 1 } (k m.nextPool)
  | endPool {α : Type} (m : Mem) (q : Nat) (k : Prog α) : m.pools q = true →
      Step false m (.endPool q k) { m with pools := upd m.pools q false } k
  | mergePool {α : Type} (m : Mem) (q q' : Nat) (k : Prog α) : m.pools q = true → q ≠ q' →
      Step false m (.mergePool q q' k) { m with owner := fun r => if m.owner r = some q' then some q else m.owner r } k
  | freePool {α : Type} (m : Mem) (q : Nat) (k : Prog α) :
      Step false m (.freePool q k) { m with owner := fun r => if m.owner r = some q then none else m.owner r } k
  | alloc {α : Type} (m m' : Mem) (q : Nat) (c : Cell) (k : Ref → Prog α) (r : Ref) : m.alloc q c = .ok (m', r) →
      Step false m (.alloc q c k) m' (k r)
  | load {α : Type} (m : Mem) (r : Option Ref) (k : Ref × Cell → Prog α) (x : Ref × Cell) : m.load r = .ok x →
      Step false m (.load r k) m (k x)
  | modify {α : Type} (m : Mem) (r : Ref) (f : Cell → Cell) (k : Prog α) (x : Ref × Cell) : m.load (some r) = .ok x →
      Step false m (.modify r f k) (m.modify r f) k
  | dict {α : Type} (m : Mem) (k : Prog α) : Step true m (.dict k) m k
  /-- one of the coroutines that `collectAllPara` has started -/
  | one {α : Type} (m m' : Mem) (n : Nat) (ts : Nat → Prog Out) (k : List (Res Out) → Prog α) (i : Nat) (t : Prog Out) (u : Bool) : i < n →
      Step u m (ts i) m' t → Step u m (.par n ts k) m' (.par n (upd ts i t) k)
  /-- all of them have finished -/
  | join {α : Type} (m : Mem) (n : Nat) (ts : Nat → Prog Out) (k : List (Res Out) → Prog α) (rs : Nat → Res Out) :
      (∀ i, i < n → ts i = .ret (rs i)) → Step false m (.par n ts k) m (k ((List.range n).map rs))

/-- Any number of accesses. -/
inductive Steps : {α : Type} → Mem → Prog α → Mem → Prog α → Prop
  | refl {α : Type} (m : Mem) (t : Prog α) : Steps m t m t
  | step {α : Type} {m m1 m2 : Mem} {t t1 t2 : Prog α} {u : Bool} : Step u m t m1 t1 → Steps m1 t1 m2 t2 → Steps m t m2 t2

/-- Any number of accesses, and whether the dictionary has its table of strings: the first use builds it (string_map.h:37-39). -/
inductive StepsD : {α : Type} → Bool → Mem → Prog α → Bool → Mem → Prog α → Prop
  | refl {α : Type} (b : Bool) (m : Mem) (t : Prog α) : StepsD b m t b m t
  | step {α : Type} {m m1 m2 : Mem} {t t1 t2 : Prog α} {u b b' : Bool} : Step u m t m1 t1 → StepsD (b || u) m1 t1 b' m2 t2 → StepsD b m t b' m2 t2

/-- The next access of one of the coroutines is undefined behaviour: a null pointer, an object that has been freed, a pool that has
ended. -/
inductive Faulty : {α : Type} → Mem → Prog α → Prop
  | endPool {α : Type} (m : Mem) (q : Nat) (k : Prog α) : m.pools q = false → Faulty m (.endPool q k)
  | mergePool {α : Type} (m : Mem) (q q' : Nat) (k : Prog α) : m.pools q = false ∨ q = q' → Faulty m (.mergePool q q' k)
  | alloc {α : Type} (m : Mem) (q : Nat) (c : Cell) (k : Ref → Prog α) : m.pools q = false → Faulty m (.alloc q c k)
  | load {α : Type} (m : Mem) (r : Option Ref) (k : Ref × Cell → Prog α) (e : Err) : m.load r = .error e → Faulty m (.load r k)
  | modify {α : Type} (m : Mem) (r : Ref) (f : Cell → Cell) (k : Prog α) (e : Err) : m.load (some r) = .error e → Faulty m (.modify r f k)
  | one {α : Type} (m : Mem) (n : Nat) (ts : Nat → Prog Out) (k : List (Res Out) → Prog α) (i : Nat) : i < n → Faulty m (ts i) →
      Faulty m (.par n ts k)

/-! ### Data races -/

/-- What an access touches. -/
inductive Access
  | read (r : Ref)
  | write (r : Ref)
  /-- the lists of a pool (object_pool.h:60-125) -/
  | pool (q : Nat)
  | dictionary
deriving DecidableEq

/-- What the next access of a coroutine, or of one that it waits for, touches. -/
inductive Touches : {α : Type} → Prog α → Access → Prop
  | endPool {α : Type} (q : Nat) (k : Prog α) : Touches (.endPool q k) (.pool q)
  | mergePool {α : Type} (q q' : Nat) (k : Prog α) : Touches (.mergePool q q' k) (.pool q)
  | mergePool' {α : Type} (q q' : Nat) (k : Prog α) : Touches (.mergePool q q' k) (.pool q')
  | freePool {α : Type} (q : Nat) (k : Prog α) : Touches (.freePool q k) (.pool q)
  | alloc {α : Type} (q : Nat) (c : Cell) (k : Ref → Prog α) : Touches (.alloc q c k) (.pool q)
  | load {α : Type} (r : Ref) (k : Ref × Cell → Prog α) : Touches (.load (some r) k) (.read r)
  | modify {α : Type} (r : Ref) (f : Cell → Cell) (k : Prog α) : Touches (.modify r f k) (.write r)
  | dict {α : Type} (k : Prog α) : Touches (.dict k) .dictionary
  | one {α : Type} (n : Nat) (ts : Nat → Prog Out) (k : List (Res Out) → Prog α) (i : Nat) (a : Access) : i < n → Touches (ts i) a →
      Touches (.par n ts k) a

/-- Two accesses that must not happen at the same time. -/
inductive Conflict : Access → Access → Prop
  | readWrite (r : Ref) : Conflict (.read r) (.write r)
  | writeRead (r : Ref) : Conflict (.write r) (.read r)
  | writeWrite (r : Ref) : Conflict (.write r) (.write r)
  | pool (q : Nat) : Conflict (.pool q) (.pool q)
  | dictionary : Conflict .dictionary .dictionary

/-- Two coroutines that run at the same time are both about to make an access, and the two accesses conflict (two uses of the dictionary
only if its table has not been built, see `DataRace`). -/
inductive Race : {α : Type} → Prog α → Access → Prop
  | here {α : Type} (n : Nat) (ts : Nat → Prog Out) (k : List (Res Out) → Prog α) (i j : Nat) (a b : Access) : i < n → j < n → i ≠ j →
      Touches (ts i) a → Touches (ts j) b → Conflict a b → Race (.par n ts k) a
  | inside {α : Type} (n : Nat) (ts : Nat → Prog Out) (k : List (Res Out) → Prog α) (i : Nat) (a : Access) : i < n → Race (ts i) a →
      Race (.par n ts k) a

/-- A data race: `built` says whether the dictionary has its table.  Once it has, using the dictionary only reads. -/
def DataRace {α : Type} (built : Bool) (t : Prog α) (a : Access) : Prop := Race t a ∧ (a = .dictionary → built = false)

/-! ### The caller -/

/-- object.h:1805-1818 the rest of `CoroutineScheduler::Parse` when the root map is at `root` and its memory in the pool `q`:
`GetBridgePool().Merge(std::move(root.bp))`, `Get("root")`, and the end of `root`, which destroys `root.bp`.
(The search of `Get` ends within as many steps as there are addresses in use.) -/
def Mem.receive (m : Mem) (d p : Nat) (root : Ref) (q : Nat) : Res Mem :=
  if m.pools p ∧ p ≠ q then do
    let m := { m with owner := fun r => if m.owner r = some q then some p else m.owner r }
    let m ← m.take m.top d (some root) rootKey
    pure { m with owner := fun r => if m.owner r = some q then none else m.owner r }
  else .error (.ub .danglingPool)

/-- `d = Parse(content, {.type = Coroutine, .parse_ref = ref, .worker_num_ = workers}, p)`. -/
structure CoCall where
  d : Nat
  p : Nat
  ref : Bool
  workers : Nat
  content : Bytes

/-- object.h:1799-1818 with 1728-1754 `CoroutineScheduler::Parse`: what the call can end with, over all interleavings of its coroutines.
Without workers no coroutine ever runs and the call does not return. -/
inductive CoParse (w : Cfg) (fuel : Nat) (m : Mem) (c : CoCall) : Res Mem → Prop
  /-- the constructor throws, or reads outside of the content -/
  | header (e : Err) : initFromContent w c.content = .error e → CoParse w fuel m c (.error e)
  /-- the root is not split: the recursive parser -/
  | whole (s : Sched) : initFromContent w c.content = .ok s → s.split = false →
      CoParse w fuel m c (m.parse w fuel c.d c.p c.ref c.content)
  /-- `ParseMap` ends with an exception, which `syncAwait` rethrows -/
  | fails (s : Sched) (m1 : Mem) (e : Err) : initFromContent w c.content = .ok s → s.split = true → c.workers ≠ 0 →
      Steps m (Co.map w (View.whole c.content) s.sm s.si c.ref fuel metaSize) m1 (.ret (.error e)) → CoParse w fuel m c (.error e)
  /-- `ParseMap` returns -/
  | returns (s : Sched) (m1 : Mem) (off : Nat) (root : Ref) (q : Nat) : initFromContent w c.content = .ok s → s.split = true →
      c.workers ≠ 0 → Steps m (Co.map w (View.whole c.content) s.sm s.si c.ref fuel metaSize) m1 (.ret (.ok (off, root, q))) →
      CoParse w fuel m c (m1.receive c.d c.p root q)

/-! ### Programs that also use the parallel parser -/

/-- A step of a program. -/
inductive Act
  | call (c : Call)
  | coParse (c : CoCall)

/-- The step returns, and the memory is `m'` afterwards.  If the parallel parser throws, the program catches the exception and goes on:
the coroutines have destroyed their pools, nothing refers to what was in them, and the model leaves it out.
A memory has fewer than 2^64 addresses. -/
inductive Exec (w : Cfg) (fuel : Nat) (m : Mem) : Act → Mem → Prop
  | call (c : Call) (m' : Mem) : m.exec w fuel c = .ok m' → Exec w fuel m (.call c) m'
  | coParse (c : CoCall) (m' : Mem) : CoParse w fuel m c (.ok m') → m'.top < 2 ^ 64 → Exec w fuel m (.coParse c) m'
  | coThrow (c : CoCall) (x : Exn) : CoParse w fuel m c (.error (.exn x)) → Exec w fuel m (.coParse c) m

/-- A program: its steps one after the other, as long as they return. -/
inductive Run (w : Cfg) (fuel : Nat) : Mem → List Act → Mem → Prop
  | nil (m : Mem) : Run w fuel m [] m
  | cons {m m1 m2 : Mem} {a : Act} {as : List Act} : Exec w fuel m a m1 → Run w fuel m1 as m2 → Run w fuel m (a :: as) m2

/-- `m` is the memory after some sequence of calls that all returned. -/
def Reachable (w : Cfg) (m : Mem) : Prop := ∃ fuel acts, Run w fuel {} acts m

end Bridge.Heap
