import Verif.Model.Object
/-
Model of the compile-time computations of include/bridge/variant.h on a list of types, given as its first type and the others.
`op` stands for `sizeof` or `alignof`.
-/
set_option autoImplicit false
namespace Bridge

variable {T : Type} [DecidableEq T]

/-- variant.h:9-24 `MaxSize` (`op = sizeof`) and `MaxAlign` (`op = alignof`). -/
def vMax (op : T → Nat) : T → List T → Nat
  | t, [] => op t
  | t, u :: us => if op t > vMax op u us then op t else vMax op u us

/-- variant.h:26-37 `Count<Ts...>::count`. -/
def vCount : T → List T → Nat
  | _, [] => 1
  | _, u :: us => 1 + vCount u us

/-- variant.h:39-50 `Index<T, Ts...>::index`. -/
def vIndex (x : T) : T → List T → Nat
  | t, [] => if x = t then 0 else 1
  | t, u :: us => if x = t then 0 else 1 + vIndex x u us

/-- variant.h:52-64 `NotExist<T, Ts...>::value`. -/
def vNotExist (x : T) : T → List T → Bool
  | t, [] => !decide (x = t)
  | t, u :: us => if x = t then false else vNotExist x u us

/-- variant.h:66-78 `Unique<Ts...>::value`. -/
def vUnique : T → List T → Bool
  | _, [] => true
  | t, u :: us => vUnique u us && vNotExist t u us

/-- variant.h:89-92 `ValidType<T>::value`, the condition under which `construct<T>`, `get<T>`, `move<T>` and `destruct<T>` compile. -/
def vValid (x : T) (t : T) (ts : List T) : Bool := decide (vIndex x t ts < vCount t ts)

/-- The C++ types stored in variants. -/
inductive StoredType
  | vectorChar | string | stringView | int32 | uint32 | int64 | uint64 | float | double
deriving DecidableEq, Repr

/-- data_type.h:116 the types of `bridge_variant`. -/
def ownedTypes : StoredType × List StoredType := (.vectorChar, [.string, .int32, .uint32, .int64, .uint64, .float, .double])

/-- data_type.h:118 the types of `bridge_view_variant`. -/
def viewTypes : StoredType × List StoredType := (.stringView, [.int32, .uint32, .int64, .uint64, .float, .double])

end Bridge
