import Verif.Model.Object
import Verif.Spec.Doc
/-
The document an object tree represents.  This relates the model to `Spec.Doc`; it models no code.
-/
namespace Bridge
open Spec

/-- The scalar that a `Data` (`ref = false`) or `DataView` (`ref = true`) with type code `dt` holds, if its payload is of
the type the code announces. -/
def scalarOf (ref : Bool) (dt : UInt8) (p : Payload) : Option Scalar :=
  match p with
  | .vec b =>
    if ref then none
    else if dt = BRIDGE_BYTES then some (.bytes b) else if dt = BRIDGE_CUSTOM then some (.custom b) else none
  | .str b => if !ref && dt = BRIDGE_STRING then some (.string b) else none
  | .view s =>
    if !ref then none
    else if dt = BRIDGE_BYTES then some (.bytes s.bytes) else if dt = BRIDGE_STRING then some (.string s.bytes) else none
  | .i32 v => if dt = BRIDGE_INT32 then some (.int32 v) else none
  | .u32 v => if dt = BRIDGE_UINT32 then some (.uint32 v) else none
  | .i64 v => if dt = BRIDGE_INT64 then some (.int64 v) else none
  | .u64 v => if dt = BRIDGE_UINT64 then some (.uint64 v) else none
  | .f32 v => if dt = BRIDGE_FLOAT then some (.float v) else none
  | .f64 v => if dt = BRIDGE_DOUBLE then some (.double v) else none
  | .none => none

mutual
/-- The document an object represents; `none` if some object in the tree is null or a `Data` has no value, or if a
`size_` does not match the number of linked items. -/
def Obj.doc? : Obj → Option Doc
  | .null => none
  | .data ref dt p => (scalarOf ref dt p).map .scalar
  | .array _ size items =>
    if size = items.length then (docs? items).map .array else none
  | .map _ _ size items =>
    if size = items.length then (entries? items).map .map else none
/-- The documents of a list of objects. -/
def docs? : List Obj → Option (List Doc)
  | [] => some []
  | o :: os => do
    let d ← o.doc?
    let ds ← docs? os
    pure (d :: ds)
/-- The documents of a list of entries. -/
def entries? : List (Str × Obj) → Option (List (Bytes × Doc))
  | [] => some []
  | (k, o) :: os => do
    let d ← o.doc?
    let ds ← entries? os
    pure ((k.bytes, d) :: ds)
end

/-- A string view that points at its own bytes inside `mem`. -/
def Str.Inside (mem : Bytes) (s : Str) : Prop :=
  ∃ a, s.loc = some (a, s.bytes.length) ∧ a + s.bytes.length ≤ mem.length ∧ slice mem a s.bytes.length = s.bytes

mutual
/-- Where the parts of a parsed tree live: leaves and maps are views (`ref`) or owning, containers refer to `pool`, and
every view points at its bytes inside `mem`. -/
def Obj.Built (mem : Bytes) (ref : Bool) (pool : PoolRef) : Obj → Prop
  | .null => False
  | .data r _ p => r = ref ∧ ∀ s, p = .view s → s.Inside mem
  | .array pl _ items => pl = pool ∧ builtL mem ref pool items
  | .map r pl _ items => r = ref ∧ pl = pool ∧ builtE mem ref pool items
/-- `Built` for every element. -/
def builtL (mem : Bytes) (ref : Bool) (pool : PoolRef) : List Obj → Prop
  | [] => True
  | o :: os => o.Built mem ref pool ∧ builtL mem ref pool os
/-- `Built` for every value; the keys of a `MapView` are views, those of a `Map` are owned. -/
def builtE (mem : Bytes) (ref : Bool) (pool : PoolRef) : List (Str × Obj) → Prop
  | [] => True
  | (k, o) :: os =>
    (if ref then k.Inside mem else k.loc = none) ∧ o.Built mem ref pool ∧ builtE mem ref pool os
end

/-- The C++ type and value of a scalar. -/
def scalarVal : Scalar → CType × CVal
  | .bytes b => (.bytes, .bytes b)
  | .string b => (.string, .string b)
  | .int32 v => (.i32, .i32 v)
  | .uint32 v => (.u32, .u32 v)
  | .int64 v => (.i64, .i64 v)
  | .uint64 v => (.u64, .u64 v)
  | .float v => (.f32, .f32 v)
  | .double v => (.f64, .f64 v)
  | .custom b => (.custom, .custom b)

/-- object.h:170-176, 276-289 `Data(T)`, `DataView(T)` with the C++ value of the scalar. -/
def makeLeaf (w : Cfg) (view : Bool) (s : Scalar) : Res Obj :=
  if view then
    match viewOfVal w (scalarVal s).2 with
    | some r => do
      let (dt, p) ← r
      pure (.data true dt p)
    | none => .error (.ub .badCast)
  else
    match dataOfVal (scalarVal s).2 with
    | some (dt, p) => .ok (.data false dt p)
    | none => .error (.ub .badCast)

end Bridge
