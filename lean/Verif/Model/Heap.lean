import Verif.Model.Seri
import Verif.Model.Dump
import Verif.Model.Abs
import Verif.Model.CoParse
/-
The objects as they lie in memory: cells with addresses, singly linked lists, raw pointers, `unique_ptr` variables and several pools.
Model/Object.lean has the same functions on values, where a container is its list of elements; here `Insert`, `Merge`, `Get`,
`operator[]`, the iterators, `valueSeri` and `dump` follow and change pointers one by one.
The slots of one `ObjectPool` have distinct addresses (C36), so an allocation is a fresh address.
-/
set_option autoImplicit false
namespace Bridge.Heap
open Spec

/-- The address of an object or of an item. -/
abbrev Ref := Nat

/-- Which container class: `Array`, `Map` (`map false`) or `MapView` (`map true`). -/
inductive Kind
  | array
  | map (ref : Bool)
deriving DecidableEq, Repr

/-- What a pool slot holds. -/
inductive Cell
  /-- object.h:257-259, 366-368 the members of `Data` (`ref = false`), `DataView` (`ref = true`) -/
  | data (ref : Bool) (dt : UInt8) (p : Payload)
  /-- object.h:380, 637-639, 808-810, 958-960: `bridge_pool_`, `last_child_` / `last_node_`, `size_` -/
  | cont (k : Kind) (pool : Nat) (head : Option Ref) (size : Nat)
  /-- object.h:490-495 `ArrayItem` (which has no key: it is the empty string here), 642-648 `MapItem`, 813-819 `MapViewItem` -/
  | item (key : Str) (node next : Option Ref)

/-- The memory of a program that uses the library. -/
structure Mem where
  /-- what was constructed at an address; an address is used once -/
  cells : Ref → Option Cell := fun _ => none
  /-- addresses from here on have not been used -/
  top : Nat := 0
  /-- the pool whose blocks contain the slot; `none` when the block has been freed -/
  owner : Ref → Option Nat := fun _ => none
  /-- the variables of type `unique_ptr<Object>` of the program (`none`: null) -/
  vars : Nat → Option Ref := fun _ => none
  /-- the `BridgePool` objects of the program that are within their lifetime -/
  pools : Nat → Bool := fun _ => false
  /-- numbers that have been used for pools that are local variables of coroutines (object.h:1321, 1373, 1404, 1468, 1531) -/
  frames : Nat → Bool := fun _ => false
  /-- numbers from here on have not been used for a pool -/
  nextPool : Nat := 0

/-- Change a function at one argument. -/
def upd.{u} {α : Type u} (f : Nat → α) (i : Nat) (a : α) : Nat → α := fun j => if j = i then a else f j

/-- Read through a pointer. -/
def Mem.load (m : Mem) (r : Option Ref) : Res (Ref × Cell) :=
  match r with
  | none => .error (.ub .nullDeref)
  | some r =>
    match m.owner r, m.cells r with
    | some _, some c => .ok (r, c)
    | _, _ => .error (.ub .useAfterDestroy)

/-- object.h:1042, 1048, 1054 and the other factory functions (object.h:1027-1060): `Alloc` from one of the pools of `BridgePool`
number `p`. -/
def Mem.alloc (m : Mem) (p : Nat) (c : Cell) : Res (Mem × Ref) :=
  if m.pools p then
    .ok ({ m with cells := upd m.cells m.top (some c), top := m.top + 1, owner := upd m.owner m.top (some p) }, m.top)
  else .error (.ub .danglingPool)

/-- Change the members of the object at an address. -/
def Mem.modify (m : Mem) (r : Ref) (f : Cell → Cell) : Mem := { m with cells := upd m.cells r ((m.cells r).map f) }

/-- Assignments to single members. -/
def Cell.setKey (k : Str) : Cell → Cell
  | .item _ v n => .item k v n
  | c => c
def Cell.setNode (v : Option Ref) : Cell → Cell
  | .item k _ n => .item k v n
  | c => c
def Cell.setNext (n : Option Ref) : Cell → Cell
  | .item k v _ => .item k v n
  | c => c
def Cell.setHead (h : Option Ref) : Cell → Cell
  | .cont k p _ s => .cont k p h s
  | c => c
def Cell.setSize (s : Nat) : Cell → Cell
  | .cont k p h _ => .cont k p h s
  | c => c

/-- A `unique_ptr` variable is assigned; what it pointed at before is not destroyed (object_pool.h:131 the deleter does nothing). -/
def Mem.setVar (m : Mem) (x : Nat) (r : Option Ref) : Mem := { m with vars := upd m.vars x r }

/-- The container a pointer refers to: an `Array*` if `array` is set, a `Map*` or `MapView*` otherwise.  Such a pointer comes from
the factory functions or from object.h:1262-1281 `AsMap` / `AsArray`, which give a null pointer for another type. -/
def Mem.loadCont (m : Mem) (array : Bool) (r : Option Ref) : Res (Ref × Kind × Nat × Option Ref × Nat) := do
  let (r, c) ← m.load r
  match c with
  | .cont k p h s => if decide (k = .array) = array then pure (r, k, p, h, s) else .error (.ub .nullDeref)
  | _ => .error (.ub .nullDeref)

/-- The item a pointer refers to. -/
def Mem.loadItem (m : Mem) (r : Option Ref) : Res (Ref × Str × Option Ref × Option Ref) := do
  let (r, c) ← m.load r
  match c with
  | .item k v n => pure (r, k, v, n)
  | _ => .error (.ub .badCast)

/-- The key of an `ArrayItem`, which has none. -/
def noKey : Str := ⟨[], none⟩

/-- object.h:515-525 `Array::Insert(std::move(x))`. -/
def Mem.arrayInsert (m : Mem) (self : Option Ref) (x : Nat) : Res Mem := do
  let (self, _, pool, head, size) ← m.loadCont true self
  let (m, node) ← m.alloc pool (.item noKey none none)
  let m := (m.modify node (Cell.setNode (m.vars x))).setVar x none
  let m := if head.isSome then (m.modify node (Cell.setNext head)).modify self (Cell.setHead (some node))
    else m.modify self (Cell.setHead (some node))
  pure (m.modify self (Cell.setSize (addW size 1)))

/-- object.h:693-704 `Map::Insert(key, std::move(value))`, 943-954 `MapView::Insert`; `v` is the pointer in `value`. -/
def Mem.mapPut (m : Mem) (self : Option Ref) (key : Str) (v : Option Ref) : Res Mem := do
  let (self, k, pool, head, size) ← m.loadCont false self
  let (m, node) ← m.alloc pool (.item noKey none none)
  let m := m.modify node (Cell.setKey (storeKey (k = .map true) key))
  let m := m.modify node (Cell.setNode v)
  let m := if head.isNone then m.modify self (Cell.setHead (some node))
    else (m.modify node (Cell.setNext head)).modify self (Cell.setHead (some node))
  pure (m.modify self (Cell.setSize (addW size 1)))

/-- `Insert(key, std::move(x))` with a variable of the program, which is null afterwards. -/
def Mem.mapInsert (m : Mem) (self : Option Ref) (key : Str) (x : Nat) : Res Mem := do
  let m' ← m.mapPut self key (m.vars x)
  pure (m'.setVar x none)

/-- object.h:527-531, 730-733, 927-930 `Clear`. -/
def Mem.clearCont (m : Mem) (array : Bool) (self : Option Ref) : Res Mem := do
  let (self, _, _, _, _) ← m.loadCont array self
  pure ((m.modify self (Cell.setHead none)).modify self (Cell.setSize 0))

/-- object.h:533, 728, 925 `Size`. -/
def Mem.size (m : Mem) (array : Bool) (self : Option Ref) : Res Nat := do
  let (_, _, _, _, s) ← m.loadCont array self
  pure s

/-- object.h:543-549 the loop of `Array::operator[]`. -/
def Mem.walk (m : Mem) : Option Ref → Nat → Res (Option Ref)
  | tmp, 0 => .ok tmp
  | none, _ + 1 => .ok none
  | some r, n + 1 => do
    let (_, _, _, next) ← m.loadItem (some r)
    m.walk next n

/-- object.h:535-554 `Array::operator[]`. -/
def Mem.index (m : Mem) (self : Option Ref) (n : Nat) : Res (Option Ref) := do
  let (_, _, _, head, size) ← m.loadCont true self
  if n ≥ size then pure none
  else do
    let tmp ← m.walk head (size - 1 - n)
    if tmp.isNone then pure none
    else do
      let (_, _, node, _) ← m.loadItem tmp
      pure node

/-- object.h:707-714, 718-725, 853-860, 933-940 the search loops of maps: the item found.  The number of steps is bounded for the
definition only. -/
def Mem.find (m : Mem) (key : Bytes) : (fuel : Nat) → Option Ref → Res (Option Ref)
  | _, none => .ok none
  | 0, some _ => .error .fuel
  | f + 1, some r => do
    let (_, k, _, next) ← m.loadItem (some r)
    if k.bytes = key then pure (some r) else m.find key f next

/-- object.h:706-715, 852-861 `operator[](key)`. -/
def Mem.lookup (m : Mem) (fuel : Nat) (self : Option Ref) (key : Bytes) : Res (Option Ref) := do
  let (_, _, _, head, _) ← m.loadCont false self
  let it ← m.find key fuel head
  if it.isNone then pure none
  else do
    let (_, _, node, _) ← m.loadItem it
    pure node

/-- object.h:717-726, 932-941 `d = Get(key)`: the pointer is moved out of the item. -/
def Mem.take (m : Mem) (fuel : Nat) (d : Nat) (self : Option Ref) (key : Bytes) : Res Mem := do
  let (_, _, _, head, _) ← m.loadCont false self
  let it ← m.find key fuel head
  if it.isNone then pure (m.setVar d none)
  else do
    let (it, _, node, _) ← m.loadItem it
    pure ((m.modify it (Cell.setNode none)).setVar d node)

/-! ### Iterators: object.h:620-632 `ArrayIterator`, 658-676 `MapIterator`, 826-841 `MapViewIterator` -/

/-- object.h:634, 735, 921 `Begin`. -/
def Mem.begin_ (m : Mem) (array : Bool) (self : Option Ref) : Res (Option Ref) := do
  let (_, _, _, head, _) ← m.loadCont array self
  pure head

/-- `operator++`. -/
def Mem.next (m : Mem) (it : Option Ref) : Res (Option Ref) := do
  let (_, _, _, n) ← m.loadItem it
  pure n

/-- `GetKey` and `GetValue`. -/
def Mem.entry (m : Mem) (it : Option Ref) : Res (Bytes × Option Ref) := do
  let (_, k, v, _) ← m.loadItem it
  pure (k.bytes, v)

/-- The loop `for (auto it = c.Begin(); it != c.End(); ++it)` of a program. -/
def Mem.visit (m : Mem) : (fuel : Nat) → Option Ref → Res (List (Bytes × Option Ref))
  | _, none => .ok []
  | 0, some _ => .error .fuel
  | f + 1, some r => do
    let e ← m.entry (some r)
    let n ← m.next (some r)
    let rest ← m.visit f n
    pure (e :: rest)

/-! ### Serialization and dump along the pointers -/

/-- object.h:39 `GetType`. -/
def Cell.objType : Cell → ObjectType
  | .data .. => .data
  | .cont .array .. => .array
  | .cont (.map _) .. => .map
  | .item .. => .invalid

/-- object.h:446-457 `seri_child`. -/
def Mem.seriChild (m : Mem) (node : Option Ref) (vs : SState → Res (SState × Bool)) (st : SState) : Res SState := do
  let (_, c) ← m.load node
  let pos := st.outer.length
  let st := { st with outer := st.outer ++ [c.objType.toChar] }
  let (st, split) ← vs st
  if split then pure { st with outer := st.outer.set pos (st.outer.getD pos 0 ||| 0x80) } else pure st

mutual
/-- object.h:988-992 with 581-606, 757-784, 878-905 `valueSeri`. -/
def Mem.valueSeri (cfg : Cfg) (m : Mem) : (fuel : Nat) → Option Ref → SState → Res (SState × Bool)
  | 0, _, _ => .error .fuel
  | f + 1, r, st => do
    let (_, c) ← m.load r
    match c with
    | .data ref dt p => dataSeri cfg ref dt p st
    | .cont k _ head size => do
      let st ← seriCount cfg size st
      let (id, st) ← seriSplitId cfg st
      let (st, cur, blocks) ← m.seriLoop cfg (k = .array) f head st st.outer.length []
      pure (finishBlocks cfg id st cur blocks)
    | .item .. => .error (.ub .badCast)
/-- object.h:587-600, 764-778, 885-899 the loops over the items; only maps have keys. -/
def Mem.seriLoop (cfg : Cfg) (m : Mem) (array : Bool) :
    (fuel : Nat) → Option Ref → SState → Nat → List Nat → Res (SState × Nat × List Nat)
  | _, none, st, cur, blocks => .ok (st, cur, blocks)
  | 0, some _, _, _, _ => .error .fuel
  | f + 1, some r, st, cur, blocks => do
    let (_, key, node, next) ← m.loadItem (some r)
    let st ← if array then .ok st else seriKey cfg key st
    let st ← m.seriChild node (m.valueSeri cfg f node) st
    let (cur, blocks) := blockStep cfg st cur blocks
    m.seriLoop cfg array f next st cur blocks
end

mutual
/-- object.h:994 with 241-247, 358-364, 608-618, 786-798, 907-919 `dump`. -/
def Mem.dump (m : Mem) : (fuel : Nat) → Option Ref → Bytes → Int → Res Bytes
  | 0, _, _, _ => .error .fuel
  | f + 1, r, buf, level => do
    let (_, c) ← m.load r
    match c with
    | .data _ dt _ => do
      let pre ← blanks level
      let buf := buf ++ (pre ++ ObjectType.data.toStr)
      let buf := buf ++ lit "[ "
      let buf := buf ++ dataTypeToStr dt
      pure (buf ++ lit " ]")
    | .cont k _ head size => do
      let pre ← blanks level
      let keyPre ← if k = .array then .ok [] else blanks (level + 1)
      m.dumpLoop (k = .array) keyPre f head (buf ++ (pre ++ c.objType.toStr ++ lit "[ " ++ toStringU size ++ lit " ]")) level
    | .item .. => .error (.ub .badCast)
/-- object.h:611-617, 790-797, 911-918 the loops of `dump`. -/
def Mem.dumpLoop (m : Mem) (array : Bool) (keyPre : Bytes) : (fuel : Nat) → Option Ref → Bytes → Int → Res Bytes
  | _, none, buf, _ => .ok buf
  | 0, some _, _, _ => .error .fuel
  | f + 1, some r, buf, level => do
    let (_, key, node, next) ← m.loadItem (some r)
    let buf := buf ++ [10]
    let buf := if array then buf else buf ++ (keyPre ++ lit "< " ++ key.bytes ++ lit " > : ") ++ [10]
    let buf ← m.dump f node buf (level + (if array then 1 else 2))
    m.dumpLoop array keyPre f next buf level
end

/-- object.h:1624-1625, 1644-1647 the beginning of `Serialize(std::move(x), bp)`: the variable is moved into an item of the local root
map.  The item is allocated from `bp` and stays in memory, the root itself is a local variable. -/
def Mem.rootInsert (m : Mem) (bp : Nat) (x : Nat) : Res (Mem × Ref) := do
  let (m, node) ← m.alloc bp (.item noKey none none)
  let m := m.modify node (Cell.setKey ⟨rootKey, none⟩)
  pure ((m.modify node (Cell.setNode (m.vars x))).setVar x none, node)

/-- object.h:1626-1640, 1648-1667 the rest of `Serialize`, where `node` is the only item of the root map. -/
def Mem.serializeRoot (cfg : Cfg) (m : Mem) (fuel : Nat) (t : SeriType) (node : Ref) : Res Bytes := do
  let ret : Bytes := List.replicate 8 0 ++ [t.toChar]
  let pos := ret.length
  let ret := ret ++ [0]
  let st ← seriCount cfg 1 ⟨ret, initDict t, some {}⟩
  let (id, st) ← seriSplitId cfg st
  let (st, cur, blocks) ← m.seriLoop cfg false fuel (some node) st st.outer.length []
  let (st, split) := finishBlocks cfg id st cur blocks
  let ret := if split then st.outer.set pos 0x0A else st.outer
  let total := ret.length
  let ret ← seriTotalSize cfg total ret
  let ret ← match st.sm with
    | none => pure ret
    | some m => do
      let s ← m.serialize cfg
      suffixSecondary cfg ret s
  let s ← (st.si.getD {}).serialize cfg
  suffixSecondary cfg ret s

/-- object.h:1622-1668 `Serialize<t>(std::move(x), bp)`: the content. -/
def Mem.serialize (cfg : Cfg) (m : Mem) (fuel : Nat) (t : SeriType) (bp x : Nat) : Res Bytes := do
  let (m, node) ← m.rootInsert bp x
  m.serializeRoot cfg fuel t node

/-! ### The recursive parser -/

/-- object.h:1041-1060 `object_factory`, with the constructors 170, 276, 499-500, 677-678, 836-837. -/
def Mem.factory (m : Mem) (p : Nat) (t : ObjectType) (ref : Bool) : Res (Mem × Option Ref) :=
  match t with
  | .data => do
    let (m, r) ← m.alloc p (.data ref BRIDGE_INVALID .none)
    pure (m, some r)
  | .map => do
    let (m, r) ← m.alloc p (.cont (.map ref) p none 0)
    pure (m, some r)
  | .array => do
    let (m, r) ← m.alloc p (.cont .array p none 0)
    pure (m, some r)
  | .invalid => pure (m, none)

mutual
/-- object.h:982-986 the dispatch of `valueParse`; 208-224, 327-342 `Data` and `DataView`, 556-579 `Array`, 739-755 `Map`,
863-876 `MapView`. -/
def Mem.valueParse (cfg : Cfg) (v : View) (sm : Option StringMap) (ref : Bool) :
    (fuel : Nat) → Mem → Option Ref → Cur → Res (Mem × Cur)
  | 0, _, _, _ => .error .fuel
  | f + 1, m, self, c => do
    let (r, cell) ← m.load self
    match cell with
    | .data view _ _ => do
      let (o, c) ← if view then parseViewObj cfg v sm c else parseDataObj cfg v sm c
      match o with
      | .data _ dt p => pure (m.modify r fun _ => .data view dt p, c)
      | _ => .error (.ub .badCast)
    | .cont .array p _ _ => do
      let m ← m.clearCont true self
      let (count, c) ← parseLength cfg v c
      let (_, c) ← parseLength cfg v c
      let (m, head, c) ← Mem.parseArrayLoop cfg v sm ref p f m none none count c
      pure ((m.modify r (Cell.setSize count)).modify r (Cell.setHead head), c)
    | .cont (.map _) p _ _ => do
      let m ← m.clearCont false self
      let (count, c) ← parseLength cfg v c
      let (_, c) ← parseLength cfg v c
      let (m, c) ← Mem.parseMapLoop cfg v sm ref p f m self count c
      pure (m.modify r (Cell.setSize count), c)
    | .item .. => .error (.ub .badCast)
/-- object.h:564-576 the loop of `Array::valueParse` with `parse_child` (462-470): the new items are linked at the end. -/
def Mem.parseArrayLoop (cfg : Cfg) (v : View) (sm : Option StringMap) (ref : Bool) (p : Nat) :
    (fuel : Nat) → Mem → (head tail : Option Ref) → (count : Nat) → Cur → Res (Mem × Option Ref × Cur)
  | 0, _, _, _, _, _ => .error .fuel
  | _ + 1, m, head, _, 0, c => .ok (m, head, c)
  | f + 1, m, head, tail, n + 1, c => do
    let (t, c) ← parseObjectType v c
    let (m, child) ← m.factory p t ref
    let (m, c) ← Mem.valueParse cfg v sm ref f m child c
    let (m, tmp) ← m.alloc p (.item noKey none none)
    let m := m.modify tmp (Cell.setNode child)
    if head.isNone then Mem.parseArrayLoop cfg v sm ref p f m (some tmp) (some tmp) n c
    else do
      let (tl, _, _, _) ← m.loadItem tail
      Mem.parseArrayLoop cfg v sm ref p f (m.modify tl (Cell.setNext (some tmp))) head (some tmp) n c
/-- object.h:747-753, 869-874 the loops of `Map::valueParse` and `MapView::valueParse` with `parse_child`. -/
def Mem.parseMapLoop (cfg : Cfg) (v : View) (sm : Option StringMap) (ref : Bool) (p : Nat) :
    (fuel : Nat) → Mem → (self : Option Ref) → (count : Nat) → Cur → Res (Mem × Cur)
  | 0, _, _, _, _ => .error .fuel
  | _ + 1, m, _, 0, c => .ok (m, c)
  | f + 1, m, self, n + 1, c => do
    let (k, c) ← parseKey cfg v sm c
    let (t, c) ← parseObjectType v c
    let (m, child) ← m.factory p t ref
    let (m, c) ← Mem.valueParse cfg v sm ref f m child c
    let k ← ownKey cfg v ref k
    let m ← m.mapPut self k child
    Mem.parseMapLoop cfg v sm ref p f m self n c
end

/-- object.h:1765-1782 `NormalScheduler::Parse` after `initFromContent`, for `d = Parse(content, po, p)`: the root map is made in
the pool and stays there when the value has been moved out of it. -/
def Mem.parse (cfg : Cfg) (m : Mem) (fuel : Nat) (d p : Nat) (ref : Bool) (content : Bytes) : Res Mem := do
  let s ← initFromContent cfg content
  let (m, root) ← m.alloc p (.cont (.map ref) p none 0)
  let (m, c) ← Mem.valueParse cfg (View.whole content) s.sm ref fuel m (some root) ⟨metaSize, metaSize⟩
  if c.off ≠ s.total then .error (.exn .parseError)
  else m.take fuel d (some root) rootKey

/-! ### Programs -/

/-- The calls of a program.  `x`, `d` are its `unique_ptr` variables, `p`, `q` its pools, `c` a raw pointer it has kept. -/
inductive Call
  /-- `BridgePool p;` -/
  | newPool (p : Nat)
  /-- `p.Clear()` (object.h:81-90) -/
  | clearPool (p : Nat)
  /-- the lifetime of `p` ends -/
  | destroyPool (p : Nat)
  /-- `p.Merge(std::move(q))` (object.h:998-1007) -/
  | mergePool (p q : Nat)
  /-- `BridgePool p(std::move(q));` (object.h:75) -/
  | movePool (p q : Nat)
  /-- `p = std::move(q);` (object.h:77) -/
  | assignPool (p q : Nat)
  /-- `d = p.data(v)`, `d = p.data_view(v)` -/
  | leaf (d p : Nat) (view : Bool) (v : Scalar)
  /-- `d = p.data()`, `d = p.data_view()` -/
  | emptyLeaf (d p : Nat) (view : Bool)
  /-- `d = p.array()`, `d = p.map()`, `d = p.map_view()` -/
  | cont (d p : Nat) (k : Kind)
  /-- `d = std::move(x)` -/
  | move (d x : Nat)
  /-- `*c = v` for a `Data*` or `DataView*` -/
  | assign (c : Option Ref) (v : Scalar)
  /-- `c->Insert(std::move(x))` -/
  | insert (c : Option Ref) (x : Nat)
  /-- `c->Insert(key, std::move(x))` -/
  | insertKey (c : Option Ref) (key : Str) (x : Nat)
  /-- `c->Clear()` -/
  | clear (array : Bool) (c : Option Ref)
  /-- `d = c->Get(key)` -/
  | take (d : Nat) (c : Option Ref) (key : Bytes)
  /-- `Serialize<t>(std::move(x), p)` -/
  | serialize (t : SeriType) (p x : Nat)
  /-- `d = Parse(content, po, p)` with the recursive parser; `ref`: `po.parse_ref` -/
  | parse (d p : Nat) (ref : Bool) (content : Bytes)

/-- object.h:178-184, 291-304 `operator=` on a leaf: the payload and the type code are replaced (C22 has the details of the old value,
C65 what happens when the conversion throws). -/
def Mem.assign (w : Cfg) (m : Mem) (c : Option Ref) (v : Scalar) : Res Mem := do
  let (r, cell) ← m.load c
  match cell with
  | .data ref _ _ => do
    let o ← makeLeaf w ref v
    match o with
    | .data _ dt p => pure (m.modify r fun _ => .data ref dt p)
    | _ => .error (.ub .badCast)
  | _ => .error (.ub .nullDeref)

/-- Make an object and let a variable own it (object.h:1027-1060; 170, 276 the constructors without arguments). -/
def Mem.make (m : Mem) (d p : Nat) (c : Cell) : Res Mem := do
  let (m, r) ← m.alloc p c
  pure (m.setVar d (some r))

/-- One call; if `Serialize` or `Parse` throws, the program catches the exception and goes on (the objects that a throwing `Parse` has
made stay in the pool, nothing refers to them, and the model leaves them out).  `fuel` bounds the steps of the loops; a call that gives `.error .fuel` for every bound does not return. -/
def Mem.exec (w : Cfg) (fuel : Nat) (m : Mem) : Call → Res Mem
  | .newPool p =>
    if m.pools p ∨ m.frames p then .error (.ub .danglingPool)
    else .ok { m with pools := upd m.pools p true, nextPool := max m.nextPool (p + 1) }
  | .clearPool p =>
    if m.pools p then .ok { m with owner := fun r => if m.owner r = some p then none else m.owner r }
    else .error (.ub .danglingPool)
  | .destroyPool p =>
    if m.pools p then
      .ok { m with owner := fun r => if m.owner r = some p then none else m.owner r, pools := upd m.pools p false }
    else .error (.ub .danglingPool)
  | .mergePool p q =>
    if m.pools p ∧ m.pools q ∧ p ≠ q then .ok { m with owner := fun r => if m.owner r = some q then some p else m.owner r }
    else .error (.ub .danglingPool)
  | .movePool p q =>
    if ¬ (m.pools p ∨ m.frames p) ∧ m.pools q then
      .ok { m with
        owner := fun r => if m.owner r = some q then some p else m.owner r
        pools := upd m.pools p true
        nextPool := max m.nextPool (p + 1) }
    else .error (.ub .danglingPool)
  | .assignPool p q =>
    if m.pools p ∧ m.pools q ∧ p ≠ q then
      .ok { m with owner := fun r => if m.owner r = some p then none else if m.owner r = some q then some p else m.owner r }
    else .error (.ub .danglingPool)
  | .leaf d p view v => do
    let o ← makeLeaf w view v
    match o with
    | .data ref dt q => m.make d p (.data ref dt q)
    | _ => .error (.ub .badCast)
  | .emptyLeaf d p view => m.make d p (.data view BRIDGE_INVALID .none)
  | .cont d p k => m.make d p (.cont k p none 0)
  | .move d x => .ok ((m.setVar x none).setVar d (m.vars x))
  | .assign c v => m.assign w c v
  | .insert c x => m.arrayInsert c x
  | .insertKey c k x => m.mapInsert c k x
  | .clear a c => m.clearCont a c
  | .take d c k => m.take fuel d c k
  | .serialize t p x => do
    let (m, node) ← m.rootInsert p x
    match m.serializeRoot w fuel t node with
    | .ok _ => pure m
    | .error (.exn _) => pure m
    | .error e => .error e
  | .parse d p ref content =>
    match m.parse w fuel d p ref content with
    | .ok m => .ok m
    | .error (.exn _) => .ok m
    | .error e => .error e

/-- A program: its calls one after the other, as long as they return. -/
def Mem.run (w : Cfg) (fuel : Nat) (m : Mem) : List Call → Res Mem
  | [] => .ok m
  | c :: cs => do
    let m ← m.exec w fuel c
    m.run w fuel cs

end Bridge.Heap
