import Verif.Model.Object
/-
Model of the `dump` functions of include/bridge/object.h.
-/
set_option autoImplicit false
namespace Bridge

/-- A string literal of the source. -/
def lit (s : String) : Bytes := s.toList.map fun c => UInt8.ofNat c.toNat

/-- `std::to_string` of a `size_t`. -/
def toStringU (n : Nat) : Bytes := (Nat.toDigits 10 n).map fun c => UInt8.ofNat c.toNat

/-- object_type.h:14-25 `ObjectTypeToStr`. -/
def ObjectType.toStr : ObjectType → Bytes
  | .data => lit "Data"
  | .map => lit "Map"
  | .array => lit "Array"
  | .invalid => lit "Invalid"

/-- data_type.h:61-94 `DataTypeToStr`. -/
def dataTypeToStr (t : UInt8) : Bytes :=
  if t = BRIDGE_BYTES then lit "bytes"
  else if t = BRIDGE_STRING then lit "string"
  else if t = BRIDGE_INT32 then lit "int32"
  else if t = BRIDGE_UINT32 then lit "uint32"
  else if t = BRIDGE_INT64 then lit "int64"
  else if t = BRIDGE_UINT64 then lit "uint64"
  else if t = BRIDGE_FLOAT then lit "float"
  else if t = BRIDGE_DOUBLE then lit "double"
  else if t = BRIDGE_CUSTOM then lit "custom"
  else lit "invalid"

/-- `std::string prefix(level, ' ')` for an `int level`: a negative number becomes a huge `size_t`, and the constructor throws
`std::length_error`.  (That a large positive level may exhaust the memory, and that `level + 1` may overflow at a depth of 2^31, is
not modelled.) -/
def blanks (level : Int) : Res Bytes :=
  if level < 0 then .error (.exn .lengthError) else .ok (List.replicate level.toNat 32)

mutual
/-- object.h:994 `Object::dump(buf, level)`, dispatched on the type of the object (object.h:963-983): what `buf` is afterwards.
object.h:241-247 (Data), 358-364 (DataView), 608-618 (Array), 786-798 (Map), 907-919 (MapView). -/
def Obj.dump : Obj → Bytes → Int → Res Bytes
  | .null, _, _ => .error (.ub .nullDeref)
  | .data _ dt _, buf, level => do
    let pre ← blanks level
    let buf := buf ++ (pre ++ ObjectType.data.toStr)
    let buf := buf ++ lit "[ "
    let buf := buf ++ dataTypeToStr dt
    pure (buf ++ lit " ]")
  | .array _ size items, buf, level => do
    let pre ← blanks level
    dumpItems items (buf ++ (pre ++ ObjectType.array.toStr ++ lit "[ " ++ toStringU size ++ lit " ]")) level
  | .map _ _ size items, buf, level => do
    let pre ← blanks level
    let keyPre ← blanks (level + 1)
    dumpEntries items keyPre (buf ++ (pre ++ ObjectType.map.toStr ++ lit "[ " ++ toStringU size ++ lit " ]")) level
/-- object.h:611-617 the loop of `Array::dump`. -/
def dumpItems : List Obj → Bytes → Int → Res Bytes
  | [], buf, _ => .ok buf
  | o :: os, buf, level => do
    let buf ← o.dump (buf ++ [10]) (level + 1)
    dumpItems os buf level
/-- object.h:790-797, 911-918 the loop of `Map::dump` and `MapView::dump`. -/
def dumpEntries : List (Str × Obj) → Bytes → Bytes → Int → Res Bytes
  | [], _, buf, _ => .ok buf
  | (k, o) :: os, keyPre, buf, level => do
    let buf := buf ++ [10]
    let buf := buf ++ (keyPre ++ lit "< " ++ k.bytes ++ lit " > : ")
    let buf ← o.dump (buf ++ [10]) (level + 2)
    dumpEntries os keyPre buf level
end

end Bridge
