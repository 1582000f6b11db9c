import Verif.Model.Inner
/-
Model of include/bridge/data_type.h, object_type.h, util.h (byte order), and of the payload writers and readers of
serialize.h and parse.h.
-/
namespace Bridge

/-- data_type.h:13 -/
def BRIDGE_BYTES : UInt8 := 0x00
/-- data_type.h:14 -/
def BRIDGE_STRING : UInt8 := 0x01
/-- data_type.h:15 -/
def BRIDGE_INT32 : UInt8 := 0x02
/-- data_type.h:16 -/
def BRIDGE_UINT32 : UInt8 := 0x03
/-- data_type.h:17 -/
def BRIDGE_INT64 : UInt8 := 0x04
/-- data_type.h:18 -/
def BRIDGE_UINT64 : UInt8 := 0x05
/-- data_type.h:19 -/
def BRIDGE_FLOAT : UInt8 := 0x06
/-- data_type.h:20 -/
def BRIDGE_DOUBLE : UInt8 := 0x07
/-- data_type.h:21 -/
def BRIDGE_CUSTOM : UInt8 := 0x0C
/-- data_type.h:22 -/
def BRIDGE_INVALID : UInt8 := 0x0D

/-- data_type.h:24-27 `BRIDGE_CHECK_DATA_TYPE`. -/
def checkDataType (t : UInt8) : Res Unit :=
  if t ≠ BRIDGE_BYTES ∧ t ≠ BRIDGE_STRING ∧ t ≠ BRIDGE_INT32 ∧ t ≠ BRIDGE_UINT32 ∧ t ≠ BRIDGE_INT64 ∧
      t ≠ BRIDGE_UINT64 ∧ t ≠ BRIDGE_FLOAT ∧ t ≠ BRIDGE_DOUBLE ∧ t ≠ BRIDGE_CUSTOM then
    .error (.exn .dataTypeCheck)
  else .ok ()

/-- object_type.h:5-10.  `Invalid` is never the type of an object. -/
inductive ObjectType
  | data
  | map
  | array
  | invalid
deriving DecidableEq, Repr

/-- object_type.h:12 `ObjectTypeToChar`. -/
def ObjectType.toChar : ObjectType → UInt8
  | .data => 0
  | .map => 1
  | .array => 2
  | .invalid => 3

/-- object_type.h:27-36 `CharToObjectType`. -/
def charToObjectType (c : UInt8) : ObjectType :=
  if c = ObjectType.data.toChar then .data
  else if c = ObjectType.map.toChar then .map
  else if c = ObjectType.array.toChar then .array
  else .invalid

/-- What a `bridge_variant` (data_type.h:116) or `bridge_view_variant` (data_type.h:118) holds.
`none` is a variant in which nothing has been constructed.  Numbers are their bit patterns. -/
inductive Payload
  | none
  | vec (b : Bytes)
  | str (b : Bytes)
  | i32 (v : BitVec 32)
  | u32 (v : BitVec 32)
  | i64 (v : BitVec 64)
  | u64 (v : BitVec 64)
  | f32 (v : BitVec 32)
  | f64 (v : BitVec 64)
  | view (s : Str)
deriving DecidableEq, Repr

/-- Memory image of a `k` byte number on a little-endian host: least significant byte first. -/
def leBytes : (k : Nat) → (n : Nat) → Bytes
  | 0, _ => []
  | k + 1, n => UInt8.ofNat n :: leBytes k (n / 256)

/-- The number whose little-endian memory image is given. -/
def ofLeBytes : Bytes → Nat
  | [] => 0
  | b :: bs => b.toNat + 256 * ofLeBytes bs

/-- Memory image (object representation) of a `k` byte number on the host. -/
def image (little : Bool) (k n : Nat) : Bytes := if little then leBytes k n else (leBytes k n).reverse

/-- The number with the given memory image on the host. -/
def ofImage (little : Bool) (b : Bytes) : Nat := if little then ofLeBytes b else ofLeBytes b.reverse

/-- util.h:30-41 `flipByByte`: `ptr1[sizeof(T) - 1 - i] = ptr2[i]` for every `i`, on the memory image `src`. -/
def flipImage (k : Nat) (src : Bytes) : Bytes :=
  (List.range k).foldl (fun r i => r.set (k - 1 - i) (src.getD i 0)) (List.replicate k 0)

/-- util.h:30-41 `flipByByte` on numbers. -/
def flipByByte (little : Bool) (k n : Nat) : Nat := ofImage little (flipImage k (image little k n))

/-- serialize.h:83-88: a number is flipped on a little-endian host and its memory image is appended. -/
def numWire (cfg : Cfg) (k n : Nat) : Bytes :=
  let t := if cfg.little then flipByByte cfg.little k n else n
  image cfg.little k t

/-- serialize.h:74-79 `seriLength`; the parameter is a `uint32_t`, so longer values are reduced. -/
def seriLength (cfg : Cfg) (length : Nat) (outer : Bytes) : Res Bytes := do
  let bytes ← varintEncode cfg (toU32 length) 128
  pure (outer ++ bytes)

/-- serialize.h:81-89 `BRIDGE_SERI`. -/
def seriNum (cfg : Cfg) (k n : Nat) (outer : Bytes) : Res Bytes := do
  let outer ← seriLength cfg k outer
  pure (outer ++ numWire cfg k n)

/-- serialize.h:97 and 120: `outer.append(&tmp[0], tmp.size())` for a vector or string_view.  Indexing element 0 of an
empty range is caught by a hardened library; otherwise the pointer is not dereferenced and nothing is appended. -/
def appendRange (cfg : Cfg) (b : Bytes) (outer : Bytes) : Res Bytes :=
  if cfg.hardened && b.isEmpty then .error .abort else .ok (outer ++ b)

/-- serialize.h:91-112 `seriData(dt, const bridge_variant&, outer)`. -/
def seriDataOwn (cfg : Cfg) (dt : UInt8) (p : Payload) (outer : Bytes) : Res Bytes :=
  if dt = BRIDGE_BYTES ∨ dt = BRIDGE_CUSTOM then
    match p with
    | .vec b => do
      let outer ← seriLength cfg b.length outer
      appendRange cfg b outer
    | _ => .error (.ub .wrongVariant)
  else if dt = BRIDGE_STRING then
    match p with
    | .str b => do
      let outer ← seriLength cfg b.length outer
      pure (outer ++ b)
    | _ => .error (.ub .wrongVariant)
  else if dt = BRIDGE_INT32 then
    match p with | .i32 v => seriNum cfg 4 v.toNat outer | _ => .error (.ub .wrongVariant)
  else if dt = BRIDGE_UINT32 then
    match p with | .u32 v => seriNum cfg 4 v.toNat outer | _ => .error (.ub .wrongVariant)
  else if dt = BRIDGE_INT64 then
    match p with | .i64 v => seriNum cfg 8 v.toNat outer | _ => .error (.ub .wrongVariant)
  else if dt = BRIDGE_UINT64 then
    match p with | .u64 v => seriNum cfg 8 v.toNat outer | _ => .error (.ub .wrongVariant)
  else if dt = BRIDGE_FLOAT then
    match p with | .f32 v => seriNum cfg 4 v.toNat outer | _ => .error (.ub .wrongVariant)
  else if dt = BRIDGE_DOUBLE then
    match p with | .f64 v => seriNum cfg 8 v.toNat outer | _ => .error (.ub .wrongVariant)
  else .error (.exn .seriDataInvalid)

/-- serialize.h:114-131 `seriData(dt, const bridge_view_variant&, outer)`. -/
def seriDataView (cfg : Cfg) (dt : UInt8) (p : Payload) (outer : Bytes) : Res Bytes :=
  if dt = BRIDGE_BYTES ∨ dt = BRIDGE_STRING then
    match p with
    | .view s => do
      let outer ← seriLength cfg s.bytes.length outer
      appendRange cfg s.bytes outer
    | _ => .error (.ub .wrongVariant)
  else if dt = BRIDGE_INT32 then
    match p with | .i32 v => seriNum cfg 4 v.toNat outer | _ => .error (.ub .wrongVariant)
  else if dt = BRIDGE_UINT32 then
    match p with | .u32 v => seriNum cfg 4 v.toNat outer | _ => .error (.ub .wrongVariant)
  else if dt = BRIDGE_INT64 then
    match p with | .i64 v => seriNum cfg 8 v.toNat outer | _ => .error (.ub .wrongVariant)
  else if dt = BRIDGE_UINT64 then
    match p with | .u64 v => seriNum cfg 8 v.toNat outer | _ => .error (.ub .wrongVariant)
  else if dt = BRIDGE_FLOAT then
    match p with | .f32 v => seriNum cfg 4 v.toNat outer | _ => .error (.ub .wrongVariant)
  else if dt = BRIDGE_DOUBLE then
    match p with | .f64 v => seriNum cfg 8 v.toNat outer | _ => .error (.ub .wrongVariant)
  else .error (.exn .seriDataInvalid)

/-- parse.h:59-68 `BRIDGE_PARSE` for a `k` byte number: `assert(sizeof(t) == len); memcpy(&t, ptr, len);` and the flip.
`t{0}` starts out as zero bytes, a shorter copy leaves the rest zero, a longer one overruns `t`. -/
def parseNum (cfg : Cfg) (k : Nat) (mem : Bytes) (ptr len : Nat) : Res Nat :=
  if cfg.asserts && k != len then .error .abort
  else if len > k then .error (.ub .stackSmash)
  else do
    let src ← readRange mem ptr len
    let t := ofImage cfg.little (src ++ List.replicate (k - len) 0)
    pure (if cfg.little then flipByByte cfg.little k t else t)

/-- parse.h:70-85 `parseData(data_type, ptr, len, bridge_variant&)`.
`std::vector<char>(ptr, ptr + len)` forms a pointer outside the string when `len` is too large;
`std::string(ptr, len)` throws above `max_size()` and otherwise reads the range. -/
def parseDataOwn (cfg : Cfg) (dt : UInt8) (mem : Bytes) (ptr len : Nat) : Res Payload :=
  if dt = BRIDGE_BYTES ∨ dt = BRIDGE_CUSTOM then do
    let b ← readRange mem ptr len
    pure (.vec b)
  else if dt = BRIDGE_STRING then
    if len > cfg.strMax then .error (.exn .lengthError)
    else do
      let b ← readRange mem ptr len
      pure (.str b)
  else if dt = BRIDGE_INT32 then do let n ← parseNum cfg 4 mem ptr len; pure (.i32 (BitVec.ofNat 32 n))
  else if dt = BRIDGE_UINT32 then do let n ← parseNum cfg 4 mem ptr len; pure (.u32 (BitVec.ofNat 32 n))
  else if dt = BRIDGE_INT64 then do let n ← parseNum cfg 8 mem ptr len; pure (.i64 (BitVec.ofNat 64 n))
  else if dt = BRIDGE_UINT64 then do let n ← parseNum cfg 8 mem ptr len; pure (.u64 (BitVec.ofNat 64 n))
  else if dt = BRIDGE_FLOAT then do let n ← parseNum cfg 4 mem ptr len; pure (.f32 (BitVec.ofNat 32 n))
  else if dt = BRIDGE_DOUBLE then do let n ← parseNum cfg 8 mem ptr len; pure (.f64 (BitVec.ofNat 64 n))
  else .error (.exn .parseDataInvalid)

/-- parse.h:87-100 `parseData(data_type, ptr, len, bridge_view_variant&)`.  Making a `string_view` reads nothing, so an
excessive `len` goes unnoticed here; there is no branch for `BRIDGE_CUSTOM`. -/
def parseDataView (cfg : Cfg) (dt : UInt8) (mem : Bytes) (ptr len : Nat) : Res Payload :=
  if dt = BRIDGE_BYTES ∨ dt = BRIDGE_STRING then
    pure (.view ⟨slice mem ptr len, some (ptr, len)⟩)
  else if dt = BRIDGE_INT32 then do let n ← parseNum cfg 4 mem ptr len; pure (.i32 (BitVec.ofNat 32 n))
  else if dt = BRIDGE_UINT32 then do let n ← parseNum cfg 4 mem ptr len; pure (.u32 (BitVec.ofNat 32 n))
  else if dt = BRIDGE_INT64 then do let n ← parseNum cfg 8 mem ptr len; pure (.i64 (BitVec.ofNat 64 n))
  else if dt = BRIDGE_UINT64 then do let n ← parseNum cfg 8 mem ptr len; pure (.u64 (BitVec.ofNat 64 n))
  else if dt = BRIDGE_FLOAT then do let n ← parseNum cfg 4 mem ptr len; pure (.f32 (BitVec.ofNat 32 n))
  else if dt = BRIDGE_DOUBLE then do let n ← parseNum cfg 8 mem ptr len; pure (.f64 (BitVec.ofNat 64 n))
  else .error (.exn .parseDataInvalid)

/-- parse.h:49-57 `parseDataType`. -/
def parseDataType (v : View) (c : Cur) : Res (UInt8 × Cur) := do
  checkEmpty v c
  let addr ← curAddr v c
  let tmp ← readByte v.mem addr
  let c := skip c 1
  checkOOR v c
  let c := bump c 1
  pure (tmp, c)

/-- parse.h:117-135 `parseObjectType(inner, offset, need_to_split)`. -/
def parseObjectTypeSplit (v : View) (c : Cur) : Res (ObjectType × Bool × Cur) := do
  checkEmpty v c
  let addr ← curAddr v c
  let tmp ← readByte v.mem addr
  let c := skip c 1
  checkOOR v c
  let c := bump c 1
  let needToSplit := !decide ((tmp &&& 0x80) >>> 1 = 0)
  let tmp := tmp &&& 0x7F
  let ret := charToObjectType tmp
  if ret = .invalid then .error (.exn .parseObjectType)
  else pure (ret, needToSplit, c)

/-- parse.h:102-115 `parseObjectType(inner, offset)`: the split bit is masked away. -/
def parseObjectType (v : View) (c : Cur) : Res (ObjectType × Cur) := do
  checkEmpty v c
  let addr ← curAddr v c
  let tmp ← readByte v.mem addr
  let c := skip c 1
  checkOOR v c
  let c := bump c 1
  let tmp := tmp &&& 0x7F
  let ret := charToObjectType tmp
  if ret = .invalid then .error (.exn .parseObjectType)
  else pure (ret, c)

end Bridge
