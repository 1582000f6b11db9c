import Verif.Model.Object
/-
Model of ObjectWrapper (object.h:1128-1248) with every pointer dereference and cast made explicit, so that a missing check
shows up as undefined behaviour.  The functions of Model/Object.lean are what they compute.
-/
namespace Bridge

/-- `obj_->GetType()` (object.h:39): reads a member through the pointer. -/
def Obj.derefType : Obj → Res ObjectType
  | .null => .error (.ub .nullDeref)
  | .data .. => .ok .data
  | .array .. => .ok .array
  | .map .. => .ok .map

/-- `obj_->IsRefType()` (object.h:41). -/
def Obj.derefRef : Obj → Res Bool
  | .null => .error (.ub .nullDeref)
  | .data ref _ _ => .ok ref
  | .array .. => .ok false
  | .map ref _ _ _ => .ok ref

/-- `static_cast<const Map*>(obj_)` (`ref = false`) or `static_cast<const MapView*>(obj_)` (`ref = true`). -/
def Obj.castMap (ref : Bool) : Obj → Res MapS
  | .map r pool size items => if r = ref then .ok ⟨r, pool, size, items⟩ else .error (.ub .badCast)
  | _ => .error (.ub .badCast)

/-- `static_cast<const Array*>(obj_)`. -/
def Obj.castArray : Obj → Res ArrayS
  | .array pool size items => .ok ⟨pool, size, items⟩
  | _ => .error (.ub .badCast)

/-- `static_cast<const Data*>(obj_)` / `static_cast<const DataView*>(obj_)`. -/
def Obj.castData (ref : Bool) : Obj → Res (UInt8 × Payload)
  | .data r dt p => if r = ref then .ok (dt, p) else .error (.ub .badCast)
  | _ => .error (.ub .badCast)

/-- `obj_ == nullptr`. -/
def Obj.isNull : Obj → Bool
  | .null => true
  | _ => false

/-- object.h:1166-1171 `GetType`. -/
def Obj.ckType (o : Obj) : Res (Option ObjectType) :=
  if o.isNull then .ok none
  else do
    let t ← o.derefType
    pure (some t)

/-- object.h:1173-1182 `operator[](const std::string&)`. -/
def Obj.ckKey (o : Obj) (k : Bytes) : Res Obj :=
  if o.isNull then .ok .null
  else do
    let t ← o.derefType
    if t ≠ .map then pure .null
    else do
      let r ← o.derefRef
      if r = false then do
        let m ← o.castMap false
        pure (m.get k)
      else do
        let m ← o.castMap true
        pure (m.get k)

/-- object.h:1201-1206 `operator[](size_t)`. -/
def Obj.ckIdx (o : Obj) (n : Nat) : Res Obj :=
  if o.isNull then .ok .null
  else do
    let t ← o.derefType
    if t ≠ .array then pure .null
    else do
      let a ← o.castArray
      pure (a.get n)

/-- object.h:1208-1220 `Size`. -/
def Obj.ckSize (o : Obj) : Res (Option Nat) :=
  if o.isNull then .ok none
  else do
    let t ← o.derefType
    if t ≠ .map ∧ t ≠ .array then pure none
    else if t = .map then do
      let r ← o.derefRef
      if r = false then do
        let m ← o.castMap false
        pure (some m.size)
      else do
        let m ← o.castMap true
        pure (some m.size)
    else do
      let a ← o.castArray
      pure (some a.size)

/-- object.h:1184-1199 `GetIteraotr`. -/
def Obj.ckIter (o : Obj) : Res (Option WIter) :=
  if o.isNull then .ok none
  else do
    let t ← o.derefType
    if t ≠ .map ∧ t ≠ .array then pure none
    else if t = .array then do
      let a ← o.castArray
      pure (some (.array a.items))
    else do
      let r ← o.derefRef
      if r = false then do
        let m ← o.castMap false
        pure (some (.map m.items))
      else do
        let m ← o.castMap true
        pure (some (.map m.items))

/-- object.h:1222-1225 `Get<T>`, object.h:1132-1140. -/
def Obj.ckGet (t : CType) (o : Obj) : Res (Option CVal) :=
  if o.isNull then .ok none
  else do
    let ty ← o.derefType
    if ty ≠ .data then pure none
    else do
      let r ← o.derefRef
      if r = false then do
        let d ← o.castData false
        dataGet t d.1 d.2
      else pure none

/-- object.h:1227-1230 `GetView<T>`, object.h:1144-1152, for the types it compiles for. -/
def Obj.ckGetView (t : CType) (o : Obj) : Res (Option CVal) :=
  if o.isNull then .ok none
  else do
    let ty ← o.derefType
    if ty ≠ .data then pure none
    else do
      let r ← o.derefRef
      if r = true then do
        let d ← o.castData true
        (viewGet t d.1 d.2).getD (.ok none)
      else pure none

/-- object.h:1232-1242 `GetPtr<T>`. -/
def Obj.ckGetPtr (t : CType) (o : Obj) : Res (Option CVal) :=
  if o.isNull then .ok none
  else do
    let ty ← o.derefType
    if ty ≠ .data then pure none
    else do
      let r ← o.derefRef
      if r = true then pure none
      else do
        let d ← o.castData false
        dataGetPtr t d.1 d.2

end Bridge
