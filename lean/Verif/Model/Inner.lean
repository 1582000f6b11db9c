import Verif.Model.Varint
/-
Model of include/bridge/inner.h and of the length readers of include/bridge/parse.h.
-/
namespace Bridge

/-- inner.h:11-35 `InnerWrapper`: the string_view `str_`, given as the string it points into, the offset at which it
starts and its `size()`.  The mutable `current_index_` is kept in `Cur`. -/
structure View where
  mem : Bytes
  base : Nat
  len : Nat

/-- The mutable state of a parse: `InnerWrapper::current_index_` and the separate `size_t& offset` that every parse
function carries along. -/
structure Cur where
  idx : Nat
  off : Nat
deriving DecidableEq, Repr

/-- inner.h:13 the wrapper of a whole string. -/
def View.whole (mem : Bytes) : View := ⟨mem, 0, mem.length⟩

/-- inner.h:15-20 `curAddr`; the address is an offset into `mem`. -/
def curAddr (v : View) (c : Cur) : Res Nat :=
  if c.idx ≥ v.len then .error (.exn .innerCurAddr) else .ok (v.base + c.idx)

/-- inner.h:22 `remain`. -/
def remain (v : View) (c : Cur) : Int := subS v.len c.idx

/-- inner.h:24 `skip` (a `size_t` addition, so it wraps). -/
def skip (c : Cur) (k : Nat) : Cur := { c with idx := addW c.idx k }

/-- The `offset += k` that accompanies a `skip`. -/
def bump (c : Cur) (k : Nat) : Cur := { c with off := addW c.off k }

/-- inner.h:37-40 `BRIDGE_CHECK_OOR` (with inner.h:30 `outOfRange`). -/
def checkOOR (v : View) (c : Cur) : Res Unit :=
  if c.idx > v.len then .error (.exn .innerOutOfRange) else .ok ()

/-- inner.h:42-45 `BRIDGE_CHECK_EMPTY`. -/
def checkEmpty (v : View) (c : Cur) : Res Unit :=
  if remain v c ≤ 0 then .error (.exn .innerEmpty) else .ok ()

/-- parse.h:23-33 `parseLength(inner, offset)`.  `remain()` is narrowed to the `int len` of `varint_decode`. -/
def parseLength (cfg : Cfg) (v : View) (c : Cur) : Res (Nat × Cur) := do
  checkEmpty v c
  let addr ← curAddr v c
  let (tmp, bytes) ← varintDecode cfg v.mem addr (toI32 (remain v c))
  let c := skip c bytes
  checkOOR v c
  let c := bump c bytes
  pure (tmp, c)

/-- parse.h:35-47 `parseLength(const std::string&, offset, skip)`: the value and `skip`. -/
def parseLengthAt (cfg : Cfg) (content : Bytes) (offset : Nat) : Res (Nat × Nat) :=
  if content.length ≤ offset then .error (.exn .lengthInnerEmpty)
  else do
    let (tmp, bytes) ← varintDecode cfg content offset (toI32 (subS content.length offset))
    if content.length < addW offset bytes then .error (.exn .lengthOutOfRange)
    else pure (tmp, bytes)

end Bridge
