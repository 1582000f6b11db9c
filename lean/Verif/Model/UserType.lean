import Verif.Model.Wrapper
/-
User-defined types (type_trait.h:73-77 `bridge_custom_type`): a class with `SerializeToBridge` and `ConstructFromBridge`.
-/
namespace Bridge

/-- type_trait.h:73-77: what a user-defined class provides.  `ConstructFromBridge` may throw. -/
structure UserType (α : Type) where
  /-- `std::vector<char> SerializeToBridge() const` -/
  toBridge : α → Bytes
  /-- `static T ConstructFromBridge(const std::vector<char>&)` -/
  fromBridge : Bytes → Res α

variable {α : Type}

/-- object.h:172-176 `Data(T&&)` with the second `serialize_proxy` (object.h:137-141) and data_type.h:41-45. -/
def dataOfUser (T : UserType α) (a : α) : Obj := .data false BRIDGE_CUSTOM (.vec (T.toBridge a))

/-- object.h:1222-1225 `ObjectWrapper::Get<T>` of a user-defined type: object.h:186-195 with the second `get_proxy`
(object.h:148-152). -/
def Obj.getUser (T : UserType α) (o : Obj) : Res (Option α) := do
  let v ← o.ckGet .custom
  match v with
  | some (.custom b) => do
    let a ← T.fromBridge b
    pure (some a)
  | _ => pure none

end Bridge
