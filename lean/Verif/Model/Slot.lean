import Verif.Model.Object
/-
Model of the storage of a `Data` object: the raw buffer of `bridge_variant` (variant.h:83-134), which knows nothing about
what it holds, and `data_type_` (object.h:250-260).
-/
namespace Bridge

/-- Does an object of this type own heap memory of its own (`std::string`, `std::vector<char>`)? -/
def Payload.owning : Payload → Bool
  | .vec _ => true
  | .str _ => true
  | _ => false

/-- object.h:250-251 the members of `Data`.  `buf` is the object that lives in `buf_` (`none`: no object, or its destructor
has run); `live` counts the owning objects constructed in `buf_` whose destructor has not run. -/
structure Slot where
  dt : UInt8 := BRIDGE_INVALID
  buf : Payload := .none
  live : Nat := 0
deriving DecidableEq, Repr

/-- variant.h:95-99 `construct<T>`: placement new, whatever was there before. -/
def Slot.construct (s : Slot) (p : Payload) : Slot :=
  { s with buf := p, live := s.live + (if p.owning then 1 else 0) }

/-- variant.h:127-131 `destruct<std::string>()`. -/
def Slot.destructString (s : Slot) : Res Slot :=
  match s.buf with
  | .str _ => .ok { s with buf := .none, live := s.live - 1 }
  | _ => .error (.ub .wrongVariant)

/-- variant.h:127-131 `destruct<std::vector<char>>()`. -/
def Slot.destructVec (s : Slot) : Res Slot :=
  match s.buf with
  | .vec _ => .ok { s with buf := .none, live := s.live - 1 }
  | _ => .error (.ub .wrongVariant)

/-- object.h:253-259 `destruct_by_datatype`. -/
def Slot.destructByDatatype (s : Slot) : Res Slot :=
  if s.dt = BRIDGE_STRING then s.destructString
  else if s.dt = BRIDGE_CUSTOM ∨ s.dt = BRIDGE_BYTES then s.destructVec
  else .ok s

/-- object.h:172-176 `Data(T&&)`. -/
def Slot.ofValue (v : CVal) : Option Slot :=
  (dataOfVal v).map fun d => ({ dt := d.1 } : Slot).construct d.2

/-- object.h:178-184 `operator=(T&&)` with a value that lives elsewhere; `none` if it does not compile.
For a copy or conversion that throws see `assignThrow`. -/
def Slot.assignValue (s : Slot) (v : CVal) : Option (Res Slot) :=
  (dataOfVal v).map fun d => do
    let s ← s.destructByDatatype
    pure (({ s with dt := d.1 } : Slot).construct d.2)

/-- object.h:178-184 `operator=(const T&)` where the argument is the object inside this `Data` (`d = *d.GetPtr<T>()`): the old
object is destroyed first and then read.  A null pointer is dereferenced when `T` is not the stored type. -/
def Slot.assignSelf (s : Slot) (t : CType) : Res Slot := do
  let ptr ← dataGetPtr t s.dt s.buf
  match ptr with
  | none => .error (.ub .nullDeref)
  | some _ => do
    let s ← s.destructByDatatype
    match s.buf with
    | .none => .error (.ub .useAfterDestroy)
    | p => pure (({ s with dt := t.dt } : Slot).construct p)

/-- object.h:178-184 `operator=(T&&)` when making the new value throws: `SerializeToBridge()` of a user-defined type
(object.h:137-141), or `std::bad_alloc` from the copy of a `std::string` or `std::vector<char>` (variant.h:95-99).  Lines 180 and 181
have run, nothing was constructed.  The result is the state in which the exception leaves the `Data`. -/
def Slot.assignThrow (s : Slot) (t : CType) : Res Slot := do
  let s ← s.destructByDatatype
  pure { s with dt := t.dt }

/-- object.h:38, 167: `~Data()` is the implicit destructor; the buffer is an array of `char`, so nothing in it is destroyed.
The result is the number of owning objects that can never be destroyed any more. -/
def Slot.destroy (s : Slot) : Nat := s.live

/-- object.h:210-224: `valueParse` of a `Data` sets the tag and constructs the payload that `parseDataObj` found. -/
def Slot.ofParsed (dt : UInt8) (p : Payload) : Slot := ({ dt := dt } : Slot).construct p

/-- object.h:278-289 `DataView(const T&)`, `DataView(string_view)`; the variant of a `DataView` holds nothing that needs a
destructor, so `live` stays 0. -/
def Slot.viewOf (cfg : Cfg) (v : CVal) : Option (Res Slot) :=
  (viewOfVal cfg v).map fun r => do
    let d ← r
    pure (({ dt := d.1 } : Slot).construct d.2)

/-- object.h:291-304 `DataView::operator=`: the tag is overwritten and a new payload constructed, nothing is destroyed.
`viewOfVal` evaluates the argument; a failure there ends the process, so the order of the two steps does not show. -/
def Slot.assignView (cfg : Cfg) (s : Slot) (v : CVal) : Option (Res Slot) :=
  (viewOfVal cfg v).map fun r => do
    let d ← r
    pure (({ s with dt := d.1 } : Slot).construct d.2)

end Bridge
