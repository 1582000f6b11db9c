import Verif.Model.Seri
/-
Model of the recursive parser: the valueParse methods of object.h, the Scheduler base class and NormalScheduler.
Recursion in the input is bounded by a step counter; running out of it is the outcome `fuel`.
-/
namespace Bridge

/-- object.h:208-224 `Data::valueParse`. -/
def parseDataObj (cfg : Cfg) (v : View) (sm : Option StringMap) (c : Cur) : Res (Obj × Cur) := do
  let (dt, c) ← parseDataType v c
  checkDataType dt
  match sm, decide (dt = BRIDGE_STRING) with
  | some m, true => do
    let (id, c) ← parseLength cfg v c
    let s ← m.lookup cfg (toU32 id)
    pure (.data false dt (.str s.bytes), c)
  | _, _ => do
    let (size, c) ← parseLength cfg v c
    let addr ← curAddr v c
    let p ← parseDataOwn cfg dt v.mem addr size
    let c := skip c size
    checkOOR v c
    let c := bump c size
    pure (.data false dt p, c)

/-- object.h:327-342 `DataView::valueParse`. -/
def parseViewObj (cfg : Cfg) (v : View) (sm : Option StringMap) (c : Cur) : Res (Obj × Cur) := do
  let (dt, c) ← parseDataType v c
  checkDataType dt
  match sm, decide (dt = BRIDGE_STRING) with
  | some m, true => do
    let (id, c) ← parseLength cfg v c
    let s ← m.lookup cfg (toU32 id)
    pure (.data true dt (.view s), c)
  | _, _ => do
    let (size, c) ← parseLength cfg v c
    let addr ← curAddr v c
    let p ← parseDataView cfg dt v.mem addr size
    let c := skip c size
    checkOOR v c
    let c := bump c size
    pure (.data true dt p, c)

/-- object.h:425-441 `parse_key`.  Making the `string_view` reads nothing. -/
def parseKey (cfg : Cfg) (v : View) (sm : Option StringMap) (c : Cur) : Res (Str × Cur) :=
  match sm with
  | none => do
    let (keyLength, c) ← parseLength cfg v c
    let addr ← curAddr v c
    let k : Str := ⟨slice v.mem addr keyLength, some (addr, keyLength)⟩
    let c := skip c keyLength
    checkOOR v c
    let c := bump c keyLength
    pure (k, c)
  | some m => do
    let (id, c) ← parseLength cfg v c
    let k ← m.lookup cfg (toU32 id)
    pure (k, c)

/-- object.h:752 `Insert(std::string(key_view), ...)` copies the key, object.h:873 `Insert(key_view, ...)` keeps it. -/
def ownKey (cfg : Cfg) (v : View) (parseRef : Bool) (k : Str) : Res Str :=
  if parseRef then .ok k
  else match k.loc with
    | none => .ok ⟨k.bytes, none⟩
    | some (a, n) =>
      if n > cfg.strMax then .error (.exn .lengthError)
      else do
        let b ← readRange v.mem a n
        pure ⟨b, none⟩

mutual
/-- object.h:982-986 the dispatch of `Object::valueParse` on a fresh object of type `t`; object.h:556-579
`Array::valueParse`, 739-755 `Map::valueParse`, 863-876 `MapView::valueParse`.  `pool` is the pool of the new object. -/
def parseVal (cfg : Cfg) (v : View) (sm : Option StringMap) (parseRef : Bool) (pool : PoolRef) :
    (fuel : Nat) → ObjectType → Cur → Res (Obj × Cur)
  | 0, _, _ => .error .fuel
  | _ + 1, .invalid, _ => .error (.ub .nullDeref)
  | _ + 1, .data, c => if parseRef then parseViewObj cfg v sm c else parseDataObj cfg v sm c
  | f + 1, .array, c => do
    let (count, c) ← parseLength cfg v c
    let (_, c) ← parseLength cfg v c
    let (items, c) ← parseItems cfg v sm parseRef pool f count c
    pure (.array pool count items, c)
  | f + 1, .map, c => do
    let (count, c) ← parseLength cfg v c
    let (_, c) ← parseLength cfg v c
    let (items, c) ← parseKVs cfg v sm parseRef pool f count c []
    pure (.map parseRef pool count items, c)

/-- object.h:564-576 the loop of `Array::valueParse`, with `parse_child` (462-470). -/
def parseItems (cfg : Cfg) (v : View) (sm : Option StringMap) (parseRef : Bool) (pool : PoolRef) :
    (fuel : Nat) → (count : Nat) → Cur → Res (List Obj × Cur)
  | 0, _, _ => .error .fuel
  | _ + 1, 0, c => .ok ([], c)
  | f + 1, n + 1, c => do
    let (t, c) ← parseObjectType v c
    let (o, c) ← parseVal cfg v sm parseRef pool f t c
    let (rest, c) ← parseItems cfg v sm parseRef pool f n c
    pure (o :: rest, c)

/-- object.h:746-753, 869-874 the loops of `Map::valueParse` and `MapView::valueParse`; `Insert` prepends to `acc`. -/
def parseKVs (cfg : Cfg) (v : View) (sm : Option StringMap) (parseRef : Bool) (pool : PoolRef) :
    (fuel : Nat) → (count : Nat) → Cur → List (Str × Obj) → Res (List (Str × Obj) × Cur)
  | 0, _, _, _ => .error .fuel
  | _ + 1, 0, c, acc => .ok (acc, c)
  | f + 1, n + 1, c, acc => do
    let (k, c) ← parseKey cfg v sm c
    let (t, c) ← parseObjectType v c
    let (o, c) ← parseVal cfg v sm parseRef pool f t c
    let k ← ownKey cfg v parseRef k
    parseKVs cfg v sm parseRef pool f n c ((k, o) :: acc)
end

/-- object.h:1591-1600 `ParseTotalSize`. -/
def parseTotalSize (cfg : Cfg) (content : Bytes) : Res Nat :=
  if content.length < 8 then .error (.exn .totalSize)
  else
    let t := ofImage cfg.little (content.take 8)
    .ok (if cfg.little then flipByByte cfg.little 8 t else t)

/-- object.h:1611-1620 `ParseSecondary`: the bytes of the table as a view into the content, and the new total size.
The length of the table is not checked against the content. -/
def parseSecondary {α : Type} (cfg : Cfg) (construct : View → Res α) (content : Bytes) (total : Nat) :
    Res (α × Nat) := do
  let (size, skip) ← parseLengthAt cfg content total
  let ss ← construct ⟨content, addW total skip, size⟩
  pure (ss, addW (addW total skip) size)

/-- object.h:1714-1719 the members that `initFromContent` computes. -/
structure Sched where
  sm : Option StringMap
  si : SplitInfo
  total : Nat
  split : Bool

/-- object.h:1707 `GetMetaSize`. -/
def metaSize : Nat := 10

/-- object.h:1722-1754 `Scheduler::initFromContent`. -/
def initFromContent (cfg : Cfg) (content : Bytes) : Res Sched :=
  if content.length < metaSize then .error (.exn .metaSize)
  else do
    let total ← parseTotalSize cfg content
    let c := content.getD 8 0
    let (sm, si) ←
      if c = SeriType.normal.toChar then do
        let (si, _) ← parseSecondary cfg (SplitInfo.construct cfg) content total
        pure (none, si)
      else if c = SeriType.replace.toChar then do
        let (sm, t) ← parseSecondary cfg (StringMap.construct cfg) content total
        let (si, _) ← parseSecondary cfg (SplitInfo.construct cfg) content t
        pure (some sm, si)
      else .error (.exn .invalidSeriType)
    let flag := content.getD 9 0
    if flag = 0x00 then pure ⟨sm, si, total, false⟩
    else if flag = 0x0A then pure ⟨sm, si, total, true⟩
    else .error (.exn .invalidSplitFlag)

/-- object.h:1781, 1817: the value moved out of the parsed root map. -/
def takeRoot : Obj → Obj
  | .map _ _ _ items => (takeKey rootKey items).2
  | _ => .null

/-- object.h:1765-1782 `NormalScheduler::Parse`. -/
def normalParse (cfg : Cfg) (parseRef : Bool) (fuel : Nat) (content : Bytes) (s : Sched) : Res Obj := do
  let v := View.whole content
  let (root, c) ← parseVal cfg v s.sm parseRef .caller fuel .map ⟨metaSize, metaSize⟩
  if c.off ≠ s.total then .error (.exn .parseError)
  else pure (takeRoot root)

end Bridge
