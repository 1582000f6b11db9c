import Verif.Model.Object
import Verif.Model.Tables
/-
Model of serialization: the valueSeri methods of object.h and the Serialize functions.
-/
namespace Bridge

/-- The mutable state of a serialization: the output string and the two optional tables. -/
structure SState where
  outer : Bytes
  sm : Option StringMap
  si : Option SplitInfo

/-- object.h:384-389 `seri_count` (`uint32_t count = Size()`). -/
def seriCount (cfg : Cfg) (size : Nat) (st : SState) : Res SState := do
  let o ← seriLength cfg (toU32 size) st.outer
  pure { st with outer := o }

/-- object.h:395-404 `seri_split_id`. -/
def seriSplitId (cfg : Cfg) (st : SState) : Res (Nat × SState) :=
  match st.si with
  | some si => do
    let (si, id) := si.requestId
    let o ← seriLength cfg id st.outer
    pure (id, { st with outer := o, si := some si })
  | none => do
    let o ← seriLength cfg 0 st.outer
    pure (0, { st with outer := o })

/-- object.h:409-420 `seri_key`.  Where a registered view points does not matter while serializing, so it is dropped. -/
def seriKey (cfg : Cfg) (key : Str) (st : SState) : Res SState :=
  match st.sm with
  | none => do
    let o ← seriLength cfg (toU32 key.bytes.length) st.outer
    pure { st with outer := o ++ key.bytes }
  | some m => do
    let (m, id) := m.register ⟨key.bytes, none⟩
    let o ← seriLength cfg id st.outer
    pure { st with outer := o, sm := some m }

/-- object.h:446-457 `seri_child`; `vs` is `cur->valueSeri`. -/
def seriChild (o : Obj) (vs : SState → Res (SState × Bool)) (st : SState) : Res SState :=
  match o.type? with
  | none => .error (.ub .nullDeref)
  | some t => do
    let pos := st.outer.length
    let st := { st with outer := st.outer ++ [t.toChar] }
    let (st, split) ← vs st
    if split then pure { st with outer := st.outer.set pos (st.outer.getD pos 0 ||| 0x80) } else pure st

/-- object.h:479-487 `register_split_info`. -/
def registerSplitInfo (cfg : Cfg) (id : Nat) (blocks : List Nat) (st : SState) : SState × Bool :=
  match st.si with
  | some si =>
    if ¬ blocks.isEmpty ∧ (blocks.length ≥ 2 ∨ blocks.getLastD 0 ≥ cfg.blockSize) then
      ({ st with si := some (si.register id blocks) }, true)
    else (st, false)
  | none => (st, false)

/-- object.h:591-598, 769-776, 890-897: after each child, close a block when it is large enough.
`cur` is `current_size`; the result is the new `current_size` and `block_size`. -/
def blockStep (cfg : Cfg) (st : SState) (cur : Nat) (blocks : List Nat) : Nat × List Nat :=
  match st.si with
  | some _ =>
    if st.outer.length - cur ≥ cfg.blockSize then (st.outer.length, blocks ++ [toU32 (st.outer.length - cur)])
    else (cur, blocks)
  | none => (cur, blocks)

/-- object.h:602-605, 780-783, 901-904: the last block, and the registration. -/
def finishBlocks (cfg : Cfg) (id : Nat) (st : SState) (cur : Nat) (blocks : List Nat) : SState × Bool :=
  let blocks := if st.si.isSome ∧ st.outer.length - cur > 0 then blocks ++ [toU32 (st.outer.length - cur)] else blocks
  registerSplitInfo cfg id blocks st

/-- object.h:226-239 `Data::valueSeri`, object.h:344-356 `DataView::valueSeri`. -/
def dataSeri (cfg : Cfg) (ref : Bool) (dt : UInt8) (p : Payload) (st : SState) : Res (SState × Bool) := do
  checkDataType dt
  let st := { st with outer := st.outer ++ [dt] }
  match st.sm, decide (dt = BRIDGE_STRING) with
  | some m, true =>
    match ref, p with
    | false, .str b => do
      let (m, id) := m.register ⟨b, none⟩
      let o ← seriLength cfg id st.outer
      pure ({ st with outer := o, sm := some m }, false)
    | true, .view s => do
      let (m, id) := m.register ⟨s.bytes, none⟩
      let o ← seriLength cfg id st.outer
      pure ({ st with outer := o, sm := some m }, false)
    | _, _ => .error (.ub .wrongVariant)
  | _, _ => do
    let o ← if ref then seriDataView cfg dt p st.outer else seriDataOwn cfg dt p st.outer
    pure ({ st with outer := o }, false)

mutual
/-- object.h:988-992 the dispatch of `Object::valueSeri`; 581-606 `Array::valueSeri`, 757-784 `Map::valueSeri`,
878-905 `MapView::valueSeri`.  The Boolean is `need_to_split`. -/
def valueSeri (cfg : Cfg) : Obj → SState → Res (SState × Bool)
  | .null, _ => .error (.ub .nullDeref)
  | .data ref dt p, st => dataSeri cfg ref dt p st
  | .array _ size items, st => do
    let st ← seriCount cfg size st
    let (id, st) ← seriSplitId cfg st
    let (st, cur, blocks) ← seriItems cfg items st st.outer.length []
    pure (finishBlocks cfg id st cur blocks)
  | .map _ _ size items, st => do
    let st ← seriCount cfg size st
    let (id, st) ← seriSplitId cfg st
    let (st, cur, blocks) ← seriKVs cfg items st st.outer.length []
    pure (finishBlocks cfg id st cur blocks)

/-- object.h:587-600 the loop over the children of an array. -/
def seriItems (cfg : Cfg) : List Obj → SState → Nat → List Nat → Res (SState × Nat × List Nat)
  | [], st, cur, blocks => .ok (st, cur, blocks)
  | o :: os, st, cur, blocks => do
    let st ← seriChild o (valueSeri cfg o) st
    let (cur, blocks) := blockStep cfg st cur blocks
    seriItems cfg os st cur blocks

/-- object.h:764-778, 885-899 the loop over the entries of a map. -/
def seriKVs (cfg : Cfg) : List (Str × Obj) → SState → Nat → List Nat → Res (SState × Nat × List Nat)
  | [], st, cur, blocks => .ok (st, cur, blocks)
  | (k, o) :: os, st, cur, blocks => do
    let st ← seriKey cfg k st
    let st ← seriChild o (valueSeri cfg o) st
    let (cur, blocks) := blockStep cfg st cur blocks
    seriKVs cfg os st cur blocks
end

/-- object.h:1574-1577 `SeriType`. -/
inductive SeriType
  | normal
  | replace
deriving DecidableEq, Repr

/-- object.h:1579 `SeriTypeToChar`. -/
def SeriType.toChar : SeriType → UInt8
  | .normal => 0
  | .replace => 1

/-- object.h:1581-1589 `SeriTotalSizeToOuter`. -/
def seriTotalSize (cfg : Cfg) (total : Nat) (outer : Bytes) : Res Bytes :=
  if outer.length < 8 then .error (.exn .totalSize)
  else
    let total := if cfg.little then flipByByte cfg.little 8 total else total
    .ok (image cfg.little 8 total ++ outer.drop 8)

/-- object.h:1602-1609 `SuffixSecondary`, given the result of `secondary.Serialize()`. -/
def suffixSecondary (cfg : Cfg) (content : Bytes) (secondary : Bytes) : Res Bytes := do
  let content ← seriLength cfg secondary.length content
  pure (content ++ secondary)

/-- The bytes of "root" (object.h:1625, 1647, 1781, 1817). -/
def rootKey : Bytes := [0x72, 0x6F, 0x6F, 0x74]

/-- object.h:1624-1625, 1644-1647: the local root map with the object inserted. -/
def rootOf (o : Obj) : Obj := .map false .caller 1 [(⟨rootKey, none⟩, o)]

/-- object.h:1633 passes `nullptr` for the dictionary, object.h:1645 and 1658 a new `StringMap`. -/
def initDict : SeriType → Option StringMap
  | .normal => none
  | .replace => some {}

/-- object.h:1622-1641 `SerializeNormal` and 1643-1668 `SerializeReplace`, which differ only in the string map. -/
def serialize (cfg : Cfg) (t : SeriType) (o : Obj) : Res Bytes := do
  let ret : Bytes := List.replicate 8 0 ++ [t.toChar]
  let pos := ret.length
  let ret := ret ++ [0]
  let (st, split) ← valueSeri cfg (rootOf o) ⟨ret, initDict t, some {}⟩
  let ret := if split then st.outer.set pos 0x0A else st.outer
  let total := ret.length
  let ret ← seriTotalSize cfg total ret
  let ret ← match st.sm with
    | none => pure ret
    | some m => do
      let s ← m.serialize cfg
      suffixSecondary cfg ret s
  let s ← (st.si.getD {}).serialize cfg
  suffixSecondary cfg ret s

end Bridge
