import Verif.Model.DataType
/-
Model of the object classes of include/bridge/object.h: Data, DataView, Array, Map, MapView, ObjectWrapper and its
iterator, and the As* casts.
-/
namespace Bridge

/-- Which `BridgePool` the reference `bridge_pool_` of a container denotes (object.h:375-380): the pool the caller passed,
or a pool that was a local variable of a finished coroutine (object.h:1321, 1373, 1404, 1468, 1531). -/
inductive PoolRef
  | caller
  | frame
deriving DecidableEq, Repr

/-- A pointer to an `Object`: `null`, or an object with its members.  Linked lists are given in link order, starting at
`last_child_` / `last_node_`.  `ref` is `ref_type_`: `false` for Data / Map, `true` for DataView / MapView.
object.h:35-60 (Object), 167-260 (Data), 274-369 (DataView), 490-640 (Array), 642-811 (Map), 813-961 (MapView). -/
inductive Obj
  | null
  | data (ref : Bool) (dt : UInt8) (p : Payload)
  | array (pool : PoolRef) (size : Nat) (items : List Obj)
  | map (ref : Bool) (pool : PoolRef) (size : Nat) (items : List (Str × Obj))

instance : Inhabited Obj := ⟨.null⟩

/-- object.h:39 `GetType` (on a non-null pointer). -/
def Obj.type? : Obj → Option ObjectType
  | .null => none
  | .data .. => some .data
  | .array .. => some .array
  | .map .. => some .map

/-! ### C++ values and types that can be stored -/

/-- The C++ types that map to a data type code (data_type.h:37-59). -/
inductive CType
  | bytes | string | i32 | u32 | i64 | u64 | f32 | f64 | custom
deriving DecidableEq, Repr

/-- data_type.h:100-104 `DataTypeTrait<T>::dt`. -/
def CType.dt : CType → UInt8
  | .bytes => BRIDGE_BYTES
  | .string => BRIDGE_STRING
  | .i32 => BRIDGE_INT32
  | .u32 => BRIDGE_UINT32
  | .i64 => BRIDGE_INT64
  | .u64 => BRIDGE_UINT64
  | .f32 => BRIDGE_FLOAT
  | .f64 => BRIDGE_DOUBLE
  | .custom => BRIDGE_CUSTOM

/-- A C++ value passed to `Data` / `DataView`.  `custom b` is a user object whose `SerializeToBridge()` returns `b`;
`chars a` is a `char[n]` with `n = a.length`. -/
inductive CVal
  | bytes (b : Bytes)
  | string (b : Bytes)
  | i32 (v : BitVec 32)
  | u32 (v : BitVec 32)
  | i64 (v : BitVec 64)
  | u64 (v : BitVec 64)
  | f32 (v : BitVec 32)
  | f64 (v : BitVec 64)
  | custom (b : Bytes)
  | chars (a : Bytes)
  | strView (b : Bytes)
deriving DecidableEq, Repr

/-- serialize.h:13-20 `serialize(const char (&arr)[n], bridge_variant&)`: one trailing NUL is dropped.  (The overload for views,
serialize.h:22-29, is never selected.) -/
def charsToString (a : Bytes) : Bytes :=
  if a.length > 0 ∧ a.getLast? = some 0 then a.take (a.length - 1) else a

/-- object.h:172-176 `Data(T&&)` with data_type.h:100-114 and serialize.h:13-65.  There is no overload of `serialize` for
a `string_view` and an owning variant, so that case does not compile. -/
def dataOfVal : CVal → Option (UInt8 × Payload)
  | .bytes b => some (BRIDGE_BYTES, .vec b)
  | .string b => some (BRIDGE_STRING, .str b)
  | .i32 v => some (BRIDGE_INT32, .i32 v)
  | .u32 v => some (BRIDGE_UINT32, .u32 v)
  | .i64 v => some (BRIDGE_INT64, .i64 v)
  | .u64 v => some (BRIDGE_UINT64, .u64 v)
  | .f32 v => some (BRIDGE_FLOAT, .f32 v)
  | .f64 v => some (BRIDGE_DOUBLE, .f64 v)
  | .custom b => some (BRIDGE_CUSTOM, .vec b)
  | .chars a => some (BRIDGE_STRING, .str (charsToString a))
  | .strView _ => none

/-- object.h:278-289 `DataView(const T&)`, `DataView(string_view)`.  The view refers to memory of the caller.
serialize.h:52-56 takes `&obj[0]` of a vector, which a hardened library rejects when it is empty.
A `char[n]` does not satisfy `bridge_built_in_type` (type_trait.h:45-62 accepts references to arrays only, and `T` is deduced
as the array), so it is converted to a `std::string_view`, which ends at the first NUL and reads on beyond the array if there
is none. -/
def viewOfVal (cfg : Cfg) : CVal → Option (Res (UInt8 × Payload))
  | .bytes b => some (if cfg.hardened && b.isEmpty then .error .abort else .ok (BRIDGE_BYTES, .view ⟨b, none⟩))
  | .string b => some (.ok (BRIDGE_STRING, .view ⟨b, none⟩))
  | .i32 v => some (.ok (BRIDGE_INT32, .i32 v))
  | .u32 v => some (.ok (BRIDGE_UINT32, .u32 v))
  | .i64 v => some (.ok (BRIDGE_INT64, .i64 v))
  | .u64 v => some (.ok (BRIDGE_UINT64, .u64 v))
  | .f32 v => some (.ok (BRIDGE_FLOAT, .f32 v))
  | .f64 v => some (.ok (BRIDGE_DOUBLE, .f64 v))
  | .custom _ => none
  | .chars a =>
    some (if 0 ∈ a then .ok (BRIDGE_STRING, .view ⟨a.takeWhile (· ≠ 0), none⟩) else .error (.ub .readOutOfBounds))
  | .strView b => some (.ok (BRIDGE_STRING, .view ⟨b, none⟩))

/-- object.h:170 `Data()`. -/
def Obj.dataEmpty : Obj := .data false BRIDGE_INVALID .none

/-- object.h:276 `DataView()`. -/
def Obj.viewEmpty : Obj := .data true BRIDGE_INVALID .none

/-- variant.h:109-119 `get<T>()` of the slot type of `T` for an owning variant.  A custom type reads the vector. -/
def payloadGet (t : CType) (p : Payload) : Res CVal :=
  match t, p with
  | .bytes, .vec b => .ok (.bytes b)
  | .string, .str b => .ok (.string b)
  | .i32, .i32 v => .ok (.i32 v)
  | .u32, .u32 v => .ok (.u32 v)
  | .i64, .i64 v => .ok (.i64 v)
  | .u64, .u64 v => .ok (.u64 v)
  | .f32, .f32 v => .ok (.f32 v)
  | .f64, .f64 v => .ok (.f64 v)
  | .custom, .vec b => .ok (.custom b)
  | _, _ => .error (.ub .wrongVariant)

/-- object.h:186-195 `Data::Get<T>()`; for a custom type the result is `T::ConstructFromBridge(b)`, given as `custom b`. -/
def dataGet (t : CType) (dt : UInt8) (p : Payload) : Res (Option CVal) :=
  if t.dt ≠ dt then .ok none
  else do
    let v ← payloadGet t p
    pure (some v)

/-- object.h:197-204 `Data::GetPtr<T>()`: the value pointed at, or null.  For a custom type this does not compile (object.h:159-163
returns the address of a vector as a `const T*`); the model's answer for `custom` stands for nothing and no theorem speaks of it. -/
def dataGetPtr (t : CType) (dt : UInt8) (p : Payload) : Res (Option CVal) :=
  if t.dt ≠ dt then .ok none
  else do
    let v ← payloadGet t p
    pure (some v)

/-- object.h:308-325 `DataView::Get<T>()` with `view_get_proxy` (object.h:264-270).  There is no overload for custom
types, given as `none`. -/
def viewGet (t : CType) (dt : UInt8) (p : Payload) : Option (Res (Option CVal)) :=
  match t with
  | .custom => none
  | .bytes | .string =>
    some (if dt ≠ BRIDGE_STRING ∧ dt ≠ BRIDGE_BYTES then .ok none
      else if dt ≠ t.dt then .error (.exn .viewTypeMismatch)
      else match p with
        | .view s => .ok (some (.strView s.bytes))
        | _ => .error (.ub .wrongVariant))
  | _ =>
    some (if t.dt ≠ dt then .ok none
      else do
        let v ← payloadGet t p
        pure (some v))

/-! ### Array -/

/-- object.h:497-640 the members of `Array`. -/
structure ArrayS where
  pool : PoolRef := .caller
  size : Nat := 0
  items : List Obj := []

/-- The array as an object. -/
def ArrayS.toObj (a : ArrayS) : Obj := .array a.pool a.size a.items

/-- object.h:515-525 `Array::Insert`; it allocates from `bridge_pool_`. -/
def ArrayS.insert (a : ArrayS) (v : Obj) : Res ArrayS :=
  if a.pool = .frame then .error (.ub .danglingPool)
  else .ok { a with items := v :: a.items, size := addW a.size 1 }

/-- object.h:502-513 `Array::Merge`; a block is its items and its count, an empty block is ignored. -/
def ArrayS.merge (a : ArrayS) (block : List Obj × Nat) : ArrayS :=
  if block.1.isEmpty then a
  else { a with items := block.1 ++ a.items, size := addW a.size block.2 }

/-- object.h:527-531 `Array::Clear`. -/
def ArrayS.clear (a : ArrayS) : ArrayS := { a with items := [], size := 0 }

/-- object.h:541-553 the loop of `operator[]`: `n` steps along the links. -/
def walkItems : List Obj → Nat → Obj
  | [], _ => .null
  | o :: _, 0 => o
  | _ :: os, n + 1 => walkItems os n

/-- object.h:535-554 `Array::operator[]`. -/
def ArrayS.get (a : ArrayS) (n : Nat) : Obj :=
  if n ≥ a.size then .null else walkItems a.items (a.size - 1 - n)

/-! ### Map and MapView (the same code apart from the key type) -/

/-- object.h:651-811 and 822-961 the members of `Map` / `MapView`. -/
structure MapS where
  ref : Bool := false
  pool : PoolRef := .caller
  size : Nat := 0
  items : List (Str × Obj) := []

/-- The map as an object. -/
def MapS.toObj (m : MapS) : Obj := .map m.ref m.pool m.size m.items

/-- The key as stored: `Map` copies it into a `std::string`, `MapView` keeps the view. -/
def storeKey (ref : Bool) (k : Str) : Str := if ref then k else ⟨k.bytes, none⟩

/-- object.h:693-704 `Map::Insert`, object.h:943-954 `MapView::Insert`. -/
def MapS.insert (m : MapS) (k : Str) (v : Obj) : Res MapS :=
  if m.pool = .frame then .error (.ub .danglingPool)
  else .ok { m with items := (storeKey m.ref k, v) :: m.items, size := addW m.size 1 }

/-- object.h:680-691, 839-850 `Merge`. -/
def MapS.merge (m : MapS) (block : List (Str × Obj) × Nat) : MapS :=
  if block.1.isEmpty then m
  else { m with items := block.1 ++ m.items, size := addW m.size block.2 }

/-- object.h:730-733, 927-930 `Clear`. -/
def MapS.clear (m : MapS) : MapS := { m with items := [], size := 0 }

/-- object.h:706-715, 852-861 the loop of `operator[]`. -/
def findKey (k : Bytes) : List (Str × Obj) → Obj
  | [] => .null
  | (k', v) :: rest => if k'.bytes = k then v else findKey k rest

/-- object.h:706-715, 852-861 `operator[]`. -/
def MapS.get (m : MapS) (k : Bytes) : Obj := findKey k m.items

/-- object.h:717-726, 932-941 the loop of `Get`: the value is moved out, which leaves a null pointer behind. -/
def takeKey (k : Bytes) : List (Str × Obj) → List (Str × Obj) × Obj
  | [] => ([], .null)
  | (k', v) :: rest =>
    if k'.bytes = k then ((k', .null) :: rest, v)
    else
      let r := takeKey k rest
      ((k', v) :: r.1, r.2)

/-- object.h:717-726, 932-941 `Get(key)`. -/
def MapS.take (m : MapS) (k : Bytes) : MapS × Obj :=
  let r := takeKey k m.items
  ({ m with items := r.1 }, r.2)

/-! ### ObjectWrapper: a pointer, possibly null -/

/-- object.h:1166-1171 `GetType`. -/
def Obj.wType (o : Obj) : Option ObjectType := o.type?

/-- object.h:1246 `Empty`. -/
def Obj.wEmpty : Obj → Bool
  | .null => true
  | _ => false

/-- object.h:1173-1182 `operator[](const std::string&)`. -/
def Obj.wKey (o : Obj) (k : Bytes) : Obj :=
  match o with
  | .map _ _ _ items => findKey k items
  | _ => .null

/-- object.h:1201-1206 `operator[](size_t)`. -/
def Obj.wIdx (o : Obj) (n : Nat) : Obj :=
  match o with
  | .array pool size items => ArrayS.get ⟨pool, size, items⟩ n
  | _ => .null

/-- object.h:1208-1220 `Size`. -/
def Obj.wSize : Obj → Option Nat
  | .map _ _ size _ => some size
  | .array _ size _ => some size
  | _ => none

/-- object.h:1222-1225 `Get<T>` through `get_proxy_::Get` (object.h:1132-1140). -/
def Obj.wGet (t : CType) : Obj → Res (Option CVal)
  | .data false dt p => dataGet t dt p
  | _ => .ok none

/-- object.h:1227-1230 `GetView<T>` through `get_proxy_::GetView` (object.h:1144-1152); `none` if it does not compile. -/
def Obj.wGetView (t : CType) : Obj → Option (Res (Option CVal))
  | .data true dt p => viewGet t dt p
  | _ => if t = .custom then none else some (.ok none)

/-- object.h:1232-1242 `GetPtr<T>`. -/
def Obj.wGetPtr (t : CType) : Obj → Res (Option CVal)
  | .data false dt p => dataGetPtr t dt p
  | _ => .ok none

/-- object.h:1059-1126 `ObjectWrapperIterator`: the remaining entries.  Array entries carry no key. -/
inductive WIter
  | map (rest : List (Str × Obj))
  | array (rest : List Obj)

/-- object.h:1184-1199 `GetIteraotr`. -/
def Obj.wIter : Obj → Option WIter
  | .map _ _ _ items => some (.map items)
  | .array _ _ items => some (.array items)
  | _ => none

/-- object.h:1081-1090 `Valid`. -/
def WIter.valid : WIter → Bool
  | .map rest => !rest.isEmpty
  | .array rest => !rest.isEmpty

/-- object.h:1092-1103 `operator++`: follows `item_->next_`. -/
def WIter.next : WIter → Res WIter
  | .map (_ :: rest) => .ok (.map rest)
  | .array (_ :: rest) => .ok (.array rest)
  | _ => .error (.ub .nullDeref)

/-- object.h:1105-1113 `GetKey`. -/
def WIter.key : WIter → Res Bytes
  | .map ((k, _) :: _) => .ok k.bytes
  | .map [] => .error (.ub .nullDeref)
  | .array _ => .error (.exn .iteratorGetKey)

/-- object.h:1250-1260 `GetValue`. -/
def WIter.value : WIter → Res Obj
  | .map ((_, v) :: _) => .ok v
  | .array (v :: _) => .ok v
  | _ => .error (.ub .nullDeref)

/-! ### Casts -/

/-- object.h:1262-1271 `AsMap`; a null pointer is dereferenced. -/
def Obj.asMap : Obj → Res (Option MapS)
  | .null => .error (.ub .nullDeref)
  | .map false pool size items => .ok (some ⟨false, pool, size, items⟩)
  | _ => .ok none

/-- object.h:1273-1282 `AsArray`. -/
def Obj.asArray : Obj → Res (Option ArrayS)
  | .null => .error (.ub .nullDeref)
  | .array pool size items => .ok (some ⟨pool, size, items⟩)
  | _ => .ok none

/-- object.h:1284-1293 `AsData`. -/
def Obj.asData : Obj → Res (Option (UInt8 × Payload))
  | .null => .error (.ub .nullDeref)
  | .data false dt p => .ok (some (dt, p))
  | _ => .ok none

end Bridge
