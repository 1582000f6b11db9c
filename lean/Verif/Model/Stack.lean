import Verif.Model.CoParse
import Verif.Model.Dump
/-
The recursive functions of object.h on a stack of limited size.  `room` counts the nested calls of `valueParse`, `valueSeri`
or `dump` for which there is still space; the functions are otherwise those of Model/Parse.lean, Model/Seri.lean and
Model/Dump.lean.  Simplification: every level of the recursion takes the same amount of stack (the code has no local arrays
in them, and each level goes through the same fixed chain of calls).
-/
set_option autoImplicit false
namespace Bridge

mutual
/-- object.h:982-986 `Object::valueParse` with 556-579, 739-755, 863-876, as in `parseVal`. -/
def parseValS (cfg : Cfg) (v : View) (sm : Option StringMap) (parseRef : Bool) (pool : PoolRef) :
    (fuel : Nat) → (room : Nat) → ObjectType → Cur → Res (Obj × Cur)
  | 0, _, _, _ => .error .fuel
  | _ + 1, 0, _, _ => .error (.ub .stackOverflow)
  | _ + 1, _ + 1, .invalid, _ => .error (.ub .nullDeref)
  | _ + 1, _ + 1, .data, c => if parseRef then parseViewObj cfg v sm c else parseDataObj cfg v sm c
  | f + 1, r + 1, .array, c => do
    let (count, c) ← parseLength cfg v c
    let (_, c) ← parseLength cfg v c
    let (items, c) ← parseItemsS cfg v sm parseRef pool f r count c
    pure (.array pool count items, c)
  | f + 1, r + 1, .map, c => do
    let (count, c) ← parseLength cfg v c
    let (_, c) ← parseLength cfg v c
    let (items, c) ← parseKVsS cfg v sm parseRef pool f r count c []
    pure (.map parseRef pool count items, c)

/-- object.h:564-576 the loop of `Array::valueParse`, as in `parseItems`. -/
def parseItemsS (cfg : Cfg) (v : View) (sm : Option StringMap) (parseRef : Bool) (pool : PoolRef) :
    (fuel : Nat) → (room : Nat) → (count : Nat) → Cur → Res (List Obj × Cur)
  | 0, _, _, _ => .error .fuel
  | _ + 1, _, 0, c => .ok ([], c)
  | f + 1, r, n + 1, c => do
    let (t, c) ← parseObjectType v c
    let (o, c) ← parseValS cfg v sm parseRef pool f r t c
    let (rest, c) ← parseItemsS cfg v sm parseRef pool f r n c
    pure (o :: rest, c)

/-- object.h:746-753, 869-874 the loops of `Map::valueParse` and `MapView::valueParse`, as in `parseKVs`. -/
def parseKVsS (cfg : Cfg) (v : View) (sm : Option StringMap) (parseRef : Bool) (pool : PoolRef) :
    (fuel : Nat) → (room : Nat) → (count : Nat) → Cur → List (Str × Obj) → Res (List (Str × Obj) × Cur)
  | 0, _, _, _, _ => .error .fuel
  | _ + 1, _, 0, c, acc => .ok (acc, c)
  | f + 1, r, n + 1, c, acc => do
    let (k, c) ← parseKey cfg v sm c
    let (t, c) ← parseObjectType v c
    let (o, c) ← parseValS cfg v sm parseRef pool f r t c
    let k ← ownKey cfg v parseRef k
    parseKVsS cfg v sm parseRef pool f r n c ((k, o) :: acc)
end

/-- object.h:1831-1842 `Parse` with `SchedulerType::Normal`: object.h:1765-1782 `NormalScheduler::Parse`. -/
def parseOnStack (cfg : Cfg) (parseRef : Bool) (room fuel : Nat) (content : Bytes) : Res Obj := do
  let s ← initFromContent cfg content
  let (root, c) ← parseValS cfg (View.whole content) s.sm parseRef .caller fuel room .map ⟨metaSize, metaSize⟩
  if c.off ≠ s.total then .error (.exn .parseError)
  else pure (takeRoot root)

mutual
/-- object.h:988-992 `Object::valueSeri` with 226-239, 344-356, 581-606, 757-784, 878-905, as in `valueSeri`. -/
def valueSeriS (cfg : Cfg) : Obj → (room : Nat) → SState → Res (SState × Bool)
  | .null, _, _ => .error (.ub .nullDeref)
  | _, 0, _ => .error (.ub .stackOverflow)
  | .data ref dt p, _ + 1, st => dataSeri cfg ref dt p st
  | .array _ size items, r + 1, st => do
    let st ← seriCount cfg size st
    let (id, st) ← seriSplitId cfg st
    let (st, cur, blocks) ← seriItemsS cfg items r st st.outer.length []
    pure (finishBlocks cfg id st cur blocks)
  | .map _ _ size items, r + 1, st => do
    let st ← seriCount cfg size st
    let (id, st) ← seriSplitId cfg st
    let (st, cur, blocks) ← seriKVsS cfg items r st st.outer.length []
    pure (finishBlocks cfg id st cur blocks)

/-- object.h:587-600, as in `seriItems`. -/
def seriItemsS (cfg : Cfg) : List Obj → (room : Nat) → SState → Nat → List Nat → Res (SState × Nat × List Nat)
  | [], _, st, cur, blocks => .ok (st, cur, blocks)
  | o :: os, r, st, cur, blocks => do
    let st ← seriChild o (valueSeriS cfg o r) st
    let (cur, blocks) := blockStep cfg st cur blocks
    seriItemsS cfg os r st cur blocks

/-- object.h:764-778, 885-899, as in `seriKVs`. -/
def seriKVsS (cfg : Cfg) : List (Str × Obj) → (room : Nat) → SState → Nat → List Nat → Res (SState × Nat × List Nat)
  | [], _, st, cur, blocks => .ok (st, cur, blocks)
  | (k, o) :: os, r, st, cur, blocks => do
    let st ← seriKey cfg k st
    let st ← seriChild o (valueSeriS cfg o r) st
    let (cur, blocks) := blockStep cfg st cur blocks
    seriKVsS cfg os r st cur blocks
end

/-- object.h:1622-1668 `SerializeNormal` and `SerializeReplace`, as in `serialize`. -/
def serializeOnStack (cfg : Cfg) (t : SeriType) (room : Nat) (o : Obj) : Res Bytes := do
  let ret : Bytes := List.replicate 8 0 ++ [t.toChar]
  let pos := ret.length
  let ret := ret ++ [0]
  let (st, split) ← valueSeriS cfg (rootOf o) room ⟨ret, initDict t, some {}⟩
  let ret := if split then st.outer.set pos 0x0A else st.outer
  let total := ret.length
  let ret ← seriTotalSize cfg total ret
  let ret ← match st.sm with
    | none => pure ret
    | some m => do
      let s ← m.serialize cfg
      suffixSecondary cfg ret s
  let s ← (st.si.getD {}).serialize cfg
  suffixSecondary cfg ret s

mutual
/-- object.h:994 `Object::dump` with 241-247, 358-364, 608-618, 786-798, 907-919, as in `Obj.dump`. -/
def dumpS : Obj → (room : Nat) → Bytes → Int → Res Bytes
  | .null, _, _, _ => .error (.ub .nullDeref)
  | _, 0, _, _ => .error (.ub .stackOverflow)
  | .data _ dt _, _ + 1, buf, level => do
    let pre ← blanks level
    let buf := buf ++ (pre ++ ObjectType.data.toStr)
    let buf := buf ++ lit "[ "
    let buf := buf ++ dataTypeToStr dt
    pure (buf ++ lit " ]")
  | .array _ size items, r + 1, buf, level => do
    let pre ← blanks level
    dumpItemsS items r (buf ++ (pre ++ ObjectType.array.toStr ++ lit "[ " ++ toStringU size ++ lit " ]")) level
  | .map _ _ size items, r + 1, buf, level => do
    let pre ← blanks level
    let keyPre ← blanks (level + 1)
    dumpEntriesS items r keyPre (buf ++ (pre ++ ObjectType.map.toStr ++ lit "[ " ++ toStringU size ++ lit " ]")) level
/-- object.h:611-617, as in `dumpItems`. -/
def dumpItemsS : List Obj → (room : Nat) → Bytes → Int → Res Bytes
  | [], _, buf, _ => .ok buf
  | o :: os, r, buf, level => do
    let buf ← dumpS o r (buf ++ [10]) (level + 1)
    dumpItemsS os r buf level
/-- object.h:790-797, 911-918, as in `dumpEntries`. -/
def dumpEntriesS : List (Str × Obj) → (room : Nat) → Bytes → Bytes → Int → Res Bytes
  | [], _, _, buf, _ => .ok buf
  | (k, o) :: os, r, keyPre, buf, level => do
    let buf := buf ++ [10]
    let buf := buf ++ (keyPre ++ lit "< " ++ k.bytes ++ lit " > : ")
    let buf ← dumpS o r (buf ++ [10]) (level + 2)
    dumpEntriesS os r keyPre buf level
end

end Bridge
