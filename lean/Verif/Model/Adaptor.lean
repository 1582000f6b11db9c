import Verif.Model.Object
/-
Model of include/bridge/adaptor.h and of the concepts of include/bridge/type_trait.h it uses.
-/
set_option autoImplicit false
namespace Bridge

/-- C++ types.  `vector t`: `std::vector<t>`; `mapS t`, `mapV t`: `std::unordered_map<std::string, t>` and
`std::unordered_map<std::string_view, t>`; `charArray n`: `char[n]`; `custom`: a class with `SerializeToBridge` and
`ConstructFromBridge` (type_trait.h:73-77) that has no conversion to another supported type; `other`: any other type that is neither a
supported scalar nor one of these containers, such as `bool`, `int16_t`, `std::map<…>` or a plain class. -/
inductive Ty
  | char | i32 | u32 | i64 | u64 | f32 | f64 | string | strView
  | charArray (n : Nat)
  | custom
  | other
  | vector (t : Ty)
  | mapS (t : Ty)
  | mapV (t : Ty)
deriving DecidableEq, Repr

/-- type_trait.h:36-40 `bridge_integral`. -/
def Ty.integral : Ty → Bool
  | .i32 | .u32 | .i64 | .u64 => true
  | _ => false

/-- type_trait.h:42-44 `bridge_floating`. -/
def Ty.floating : Ty → Bool
  | .f32 | .f64 => true
  | _ => false

/-- type_trait.h:62-63 `bridge_string`; references to arrays do not occur as the `T` of `const T&`. -/
def Ty.isString : Ty → Bool
  | .string => true
  | _ => false

/-- type_trait.h:65-68 `bridge_binary`. -/
def Ty.binary (t : Ty) : Bool := t == .vector .char

/-- type_trait.h:73-77 `bridge_custom_type`. -/
def Ty.isCustom : Ty → Bool
  | .custom => true
  | _ => false

/-- type_trait.h:79-83 `bridge_built_in_type`. -/
def Ty.builtIn (t : Ty) : Bool := t.integral || t.floating || t.isString || t.binary

/-- type_trait.h:85-87 `bridge_type`. -/
def Ty.bridgeType (t : Ty) : Bool := t.isCustom || t.builtIn

/-- type_trait.h:89-111 `is_bridge_container`. -/
def Ty.isContainer : Ty → Bool
  | .vector _ | .mapS _ | .mapV _ => true
  | _ => false

/-- type_trait.h:113-147 `AdaptorTrait<T>::type`; `none` if there is no such member.  For a container in a container the constrained
specialisation is chosen. -/
def Ty.adaptorTrait : Ty → Option Ty
  | .vector t => if t.isContainer then t.adaptorTrait else some t
  | .mapS t => if t.isContainer then t.adaptorTrait else some t
  | .mapV t => if t.isContainer then t.adaptorTrait else some t
  | _ => none

/-- type_trait.h:149-150 `bridge_adaptor_type`. -/
def Ty.adaptorType (t : Ty) : Bool :=
  match t.adaptorTrait with
  | none => false
  | some l => l.bridgeType

/-- The constraint of the three container overloads on their element type, adaptor.h:18-28. -/
def Ty.element (t : Ty) : Bool := t.adaptorType || t.bridgeType

/-- The overloads of `adaptor`. -/
inductive Overload
  | scalar
  | vector
  | mapS
  | mapV
deriving DecidableEq, Repr

/-- The overloads whose constraints hold for an argument of type `t`: adaptor.h:13-15, 18-20, 22-24, 26-28. -/
def Ty.viable (t : Ty) : List Overload :=
  (if t.bridgeType then [.scalar] else []) ++
  (match t with
  | .vector e => if e.element then [.vector] else []
  | .mapS e => if e.element then [.mapS] else []
  | .mapV e => if e.element then [.mapV] else []
  | _ => [])

/-- Overload resolution: the only viable overload, or of two the one for the container, which is more specialised. -/
def Ty.pick (t : Ty) : Option Overload := t.viable.getLast?

/-- Does the call `adaptor(x, bp)` compile for a constant lvalue `x` of this type?  The scalar overload calls `bp.data(t)` (adaptor.h:15),
whose constructor (object.h:172-176) has no way to store a constant lvalue of a user-defined type: `serialize_proxy` (object.h:136-140)
requires `bridge_custom_type<const T&>`, which no reference satisfies.  The container overloads call `adaptor` for the element
(adaptor.h:37, 48, 58). -/
def Ty.compiles : Ty → Bool
  | .vector e =>
    match (Ty.vector e).pick with
    | some .scalar => true
    | some .vector => e.compiles
    | _ => false
  | .mapS e => (Ty.mapS e).pick == some .mapS && e.compiles
  | .mapV e => (Ty.mapV e).pick == some .mapV && e.compiles
  | t => t.pick == some .scalar && !t.isCustom

/-- Scalars that `adaptor` can convert. -/
inductive Leaf
  | bytes (b : Bytes)
  | string (b : Bytes)
  | i32 (v : BitVec 32)
  | u32 (v : BitVec 32)
  | i64 (v : BitVec 64)
  | u64 (v : BitVec 64)
  | f32 (v : BitVec 32)
  | f64 (v : BitVec 64)
deriving DecidableEq, Repr

/-- A value of such a type.  A `std::vector<char>` is the scalar `bytes`.  A hash table is its entries in iteration order. -/
inductive CxxVal
  | leaf (l : Leaf)
  | vec (xs : List CxxVal)
  | map (view : Bool) (es : List (Bytes × CxxVal))

/-- object.h:172-176 and serialize.h:31-63 what `bp.data(t)` stores. -/
def Leaf.toObj : Leaf → Obj
  | .bytes b => .data false BRIDGE_BYTES (.vec b)
  | .string b => .data false BRIDGE_STRING (.str b)
  | .i32 v => .data false BRIDGE_INT32 (.i32 v)
  | .u32 v => .data false BRIDGE_UINT32 (.u32 v)
  | .i64 v => .data false BRIDGE_INT64 (.i64 v)
  | .u64 v => .data false BRIDGE_UINT64 (.u64 v)
  | .f32 v => .data false BRIDGE_FLOAT (.f32 v)
  | .f64 v => .data false BRIDGE_DOUBLE (.f64 v)

mutual
/-- adaptor.h:13-15 (scalars), 32-41 (vector), 43-51 (map with `std::string` keys: a `Map`), 53-61 (map with `std::string_view` keys: a
`MapView`, whose keys refer to the memory of the caller). -/
def adaptor : CxxVal → Res Obj
  | .leaf l => .ok l.toObj
  | .vec xs => do
    let a ← adaptorItems xs {}
    pure a.toObj
  | .map view es => do
    let m ← adaptorEntries es { ref := view }
    pure m.toObj
/-- adaptor.h:36-39 the loop. -/
def adaptorItems : List CxxVal → ArrayS → Res ArrayS
  | [], a => .ok a
  | x :: xs, a => do
    let v ← adaptor x
    let a ← a.insert v
    adaptorItems xs a
/-- adaptor.h:47-49, 57-59 the loops. -/
def adaptorEntries : List (Bytes × CxxVal) → MapS → Res MapS
  | [], m => .ok m
  | (k, x) :: es, m => do
    let v ← adaptor x
    let m ← m.insert ⟨k, none⟩ v
    adaptorEntries es m
end

end Bridge
