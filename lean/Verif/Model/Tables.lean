import Verif.Model.DataType
/-
Model of include/bridge/string_map.h and include/bridge/split_info.h.
`std::unordered_map`s are association lists in insertion order; whenever the code iterates over one, the order is
the arbitrary permutation given by `Cfg.smOrd` / `Cfg.siOrd`.
-/
namespace Bridge

/-- `m[k] = v` on an `unordered_map` given as an association list. -/
def assocSet {α β : Type} [DecidableEq α] (m : List (α × β)) (k : α) (v : β) : List (α × β) :=
  match m with
  | [] => [(k, v)]
  | (k', v') :: rest => if k' = k then (k, v) :: rest else (k', v') :: assocSet rest k v

/-- `m.find(k)` on an association list. -/
def assocGet {α β : Type} [DecidableEq α] (m : List (α × β)) (k : α) : Option β :=
  match m with
  | [] => none
  | (k', v') :: rest => if k' = k then some v' else assocGet rest k

/-! ### StringMap -/

/-- string_map.h:17, 83-85 the members of `StringMap`. Keys are compared by their bytes. -/
structure StringMap where
  /-- `map_` -/
  map : List (Str × Nat) := []
  /-- `re_map_` (null or a table) -/
  remap : Option (List (Nat × Str)) := none
  /-- `next_id_` -/
  next : Nat := 0
deriving DecidableEq, Repr

/-- `map_.find(str)`. -/
def StringMap.find (m : StringMap) (s : Bytes) : Option Nat :=
  match m.map.find? (fun e => e.1.bytes = s) with
  | some e => some e.2
  | none => none

/-- string_map.h:25-34 `RegisterIdFromString`. -/
def StringMap.register (m : StringMap) (s : Str) : StringMap × Nat :=
  match m.find s.bytes with
  | some id => (m, id)
  | none => ({ m with map := m.map ++ [(s, m.next)], next := toU32 (m.next + 1) }, m.next)

/-- string_map.h:46-51 `buildReMap`. -/
def StringMap.buildReMap (cfg : Cfg) (m : StringMap) : List (Nat × Str) :=
  (cfg.smOrd m.map).foldl (fun r e => assocSet r e.2 e.1) []

/-- string_map.h:36-44 `GetStr`: the reverse map is built on first use and then kept.  Returns the new state of the
object (the method is `const` but casts that away) and the outcome. -/
def StringMap.getStr (cfg : Cfg) (m : StringMap) (id : Nat) : StringMap × Res Str :=
  let re := match m.remap with
    | some re => re
    | none => m.buildReMap cfg
  ({ m with remap := some re },
   match assocGet re id with
   | none => .error (.exn .getStr)
   | some s => .ok s)

/-- The outcome of `GetStr` alone.  The parser uses this and does not thread the cached table: `map_` does not change
during a parse, so the cached table equals the one built afresh (theorem `getStr_cached`). -/
def StringMap.lookup (cfg : Cfg) (m : StringMap) (id : Nat) : Res Str := (m.getStr cfg id).2

/-- string_map.h:58-62 the loop of `Serialize`. -/
def smSerializeGo (cfg : Cfg) : List (Str × Nat) → Bytes → Res Bytes
  | [], ret => .ok ret
  | (s, id) :: rest, ret => do
    let ret ← seriLength cfg s.bytes.length ret
    let ret := ret ++ s.bytes
    let ret ← seriLength cfg id ret
    smSerializeGo cfg rest ret

/-- string_map.h:53-65 `Serialize`. -/
def StringMap.serialize (cfg : Cfg) (m : StringMap) : Res Bytes := do
  let ret ← seriLength cfg m.map.length []
  smSerializeGo cfg (cfg.smOrd m.map) ret

/-- string_map.h:72-79 the loop of `Construct`.  `map_.insert` hashes the key, which reads its bytes; it keeps an
existing entry.  `offset` is bumped before the `skip`, without a range check. -/
def smConstructGo (cfg : Cfg) (v : View) : (count : Nat) → Cur → List (Str × Nat) → Res (List (Str × Nat))
  | 0, _, acc => .ok acc
  | n + 1, c, acc => do
    let (keyLength, c) ← parseLength cfg v c
    let addr ← curAddr v c
    let c := skip (bump c keyLength) keyLength
    let (id, c) ← parseLength cfg v c
    let key ← readRange v.mem addr keyLength
    let s : Str := ⟨key, some (addr, keyLength)⟩
    let acc := if acc.any (fun e => e.1.bytes = key) then acc else acc ++ [(s, toU32 id)]
    smConstructGo cfg v n c acc

/-- string_map.h:67-81 `Construct`; `v` is the view of the table's bytes. `next_id_` stays 0. -/
def StringMap.construct (cfg : Cfg) (v : View) : Res StringMap := do
  let (count, c) ← parseLength cfg v ⟨0, 0⟩
  let m ← smConstructGo cfg v (toU32 count) c []
  pure { map := m }

/-! ### SplitInfo -/

/-- split_info.h:16-18, 80-81 the members of `SplitInfo`. -/
structure SplitInfo where
  /-- `info_` -/
  info : List (Nat × List Nat) := []
  /-- `next_id_` -/
  next : Nat := 1
deriving DecidableEq, Repr

/-- split_info.h:24-28 `RequestId`. -/
def SplitInfo.requestId (si : SplitInfo) : SplitInfo × Nat :=
  ({ si with next := toU32 (si.next + 1) }, si.next)

/-- split_info.h:32-34 `RegisterSplitInfo`. -/
def SplitInfo.register (si : SplitInfo) (id : Nat) (blocks : List Nat) : SplitInfo :=
  { si with info := assocSet si.info id blocks }

/-- split_info.h:36 `GetBlockInfoFromId` (`unordered_map::at`). -/
def SplitInfo.getBlocks (si : SplitInfo) (id : Nat) : Res (List Nat) :=
  match assocGet si.info id with
  | some b => .ok b
  | none => .error (.exn .outOfRangeAt)

/-- split_info.h:48-50 the inner loop of `Serialize`. -/
def siBlocksGo (cfg : Cfg) : List Nat → Bytes → Res Bytes
  | [], ret => .ok ret
  | b :: bs, ret => do
    let ret ← seriLength cfg b ret
    siBlocksGo cfg bs ret

/-- split_info.h:44-51 the loop of `Serialize`.  `count` is a `uint32_t`, so at most that many blocks are written. -/
def siSerializeGo (cfg : Cfg) : List (Nat × List Nat) → Bytes → Res Bytes
  | [], ret => .ok ret
  | (id, blocks) :: rest, ret => do
    let ret ← seriLength cfg id ret
    let count := toU32 blocks.length
    let ret ← seriLength cfg count ret
    let ret ← siBlocksGo cfg (blocks.take count) ret
    siSerializeGo cfg rest ret

/-- split_info.h:40-53 `Serialize`. -/
def SplitInfo.serialize (cfg : Cfg) (si : SplitInfo) : Res Bytes := do
  let ret ← seriLength cfg (toU32 si.info.length) []
  siSerializeGo cfg (cfg.siOrd si.info) ret

/-- split_info.h:63-67 the inner loop of `Construct`. -/
def siParseBlocks (cfg : Cfg) (v : View) : (blocks : Nat) → Cur → Res (List Nat × Cur)
  | 0, c => .ok ([], c)
  | n + 1, c => do
    let (tmp, c) ← parseLength cfg v c
    let (rest, c) ← siParseBlocks cfg v n c
    pure (toU32 tmp :: rest, c)

/-- split_info.h:60-75 the loop of `Construct`. -/
def siConstructGo (cfg : Cfg) (v : View) : (count : Nat) → Cur → SplitInfo → Res SplitInfo
  | 0, _, ret => .ok ret
  | n + 1, c, ret => do
    let (id, c) ← parseLength cfg v c
    let id := toU32 id
    let (blocks, c) ← parseLength cfg v c
    let (blockInfo, c) ← siParseBlocks cfg v (toU32 blocks) c
    if (assocGet ret.info id).isSome then .error (.exn .splitInfoDuplicate)
    else
      let ret := { ret with info := ret.info ++ [(id, blockInfo)] }
      let ret := if id ≥ ret.next then { ret with next := toU32 (id + 1) } else ret
      siConstructGo cfg v n c ret

/-- split_info.h:55-77 `Construct`. -/
def SplitInfo.construct (cfg : Cfg) (v : View) : Res SplitInfo := do
  let (count, c) ← parseLength cfg v ⟨0, 0⟩
  siConstructGo cfg v (toU32 count) c {}

end Bridge
