import Verif.Model.Parse
/-
Model of the coroutine parser (object.h:1295-1572, 1788-1842).  A `Lazy` task is a function of the immutable content and
tables; its result does not depend on when it runs, so the tasks of one `collectAllPara` are evaluated one by one here
and the order in which an executor finishes them is the subject of `Model/Schedule.lean`.
-/
namespace Bridge

/-- Rank of an outcome that makes the whole process misbehave, whatever the other tasks do. -/
def fatalRank : Err → Nat
  | .fuel => 3
  | .ub _ => 2
  | .abort => 1
  | .exn _ => 0

/-- How a task failed, if it did. -/
def failure? {α : Type} : Res α → Option Err
  | .error e => some e
  | .ok _ => none

/-- object.h:1391-1397, 1550-1553, 1565-1568: after `collectAllPara` every task has run; the results are then read in the
order of the merge and the first stored exception is rethrown.  A task that does not return, undefined behaviour or a
failed assertion in any task takes precedence (the order among these three is a choice of the model). -/
def joinTasks {α : Type} (rs : List (Res α)) : Res (List α) :=
  let errs := rs.filterMap failure?
  match errs.find? (fun e => fatalRank e = 3) with
  | some e => .error e
  | none =>
    match errs.find? (fun e => fatalRank e = 2) with
    | some e => .error e
    | none =>
      match errs.find? (fun e => fatalRank e = 1) with
      | some e => .error e
      | none => rs.mapM id

/-- object.h:1382-1388, 1543-1548, 1558-1563: the bounds of the blocks and the end of the last one. -/
def blockBounds : (begin_ : Nat) → List Nat → List (Nat × Nat) × Nat
  | b, [] => ([], b)
  | b, s :: ss =>
    let e := addW b s
    let r := blockBounds e ss
    ((b, e) :: r.1, r.2)

/-- object.h:1414-1423, 1478-1487 the key of a map entry in a block: a `uint32_t` length and no range check. -/
def parseKeyBlock (cfg : Cfg) (v : View) (sm : Option StringMap) (parseRef : Bool) (c : Cur) : Res (Str × Cur) :=
  match sm with
  | none => do
    let (n, c) ← parseLength cfg v c
    let keyLength := toU32 n
    let addr ← curAddr v c
    let k : Str := ⟨slice v.mem addr keyLength, some (addr, keyLength)⟩
    let k ← ownKey cfg v parseRef k
    pure (k, bump (skip c keyLength) keyLength)
  | some m => do
    let (id, c) ← parseLength cfg v c
    let k ← m.lookup cfg (toU32 id)
    let k ← ownKey cfg v parseRef k
    pure (k, c)

/-- object.h:1333-1356, 1425-1448, 1490-1513: a child without the split bit is parsed by the recursive parser, a split
container by a coroutine of its own; a split `Data` is an error.  The arguments are the outcomes of the three ways. -/
def coChild (split : Bool) (t : ObjectType) (value array map : Res (Obj × Cur)) : Res (Obj × Cur) :=
  if split then
    match t with
    | .array => array
    | .map => map
    | _ => .error (.exn .dataNeedToSplit)
  else value

mutual
/-- object.h:1328-1366 the loop of `ParseArrayBlock`. -/
def coArrayBlock (cfg : Cfg) (v : View) (sm : Option StringMap) (si : SplitInfo) (parseRef : Bool) :
    (fuel : Nat) → (end_ : Nat) → Cur → Res (List Obj)
  | 0, _, _ => .error .fuel
  | f + 1, end_, c =>
    if c.off < end_ then do
      let (t, split, c) ← parseObjectTypeSplit v c
      let (o, c) ← coChild split t (parseVal cfg v sm parseRef .frame f t c) (coArray cfg v sm si parseRef f c.idx)
        (coMap cfg v sm si parseRef f c.idx)
      let rest ← coArrayBlock cfg v sm si parseRef f end_ c
      pure (o :: rest)
    else .ok []

/-- object.h:1371-1399 `ParseArray`: parses at offset `os`; the returned cursor is `w.skipTo(parse_result.offset)`,
`offset = w.currentIndex()` of the caller (object.h:1341-1342). -/
def coArray (cfg : Cfg) (v : View) (sm : Option StringMap) (si : SplitInfo) (parseRef : Bool) :
    (fuel : Nat) → (os : Nat) → Res (Obj × Cur)
  | 0, _ => .error .fuel
  | f + 1, os => do
    let c : Cur := ⟨addW 0 os, os⟩
    let (_, c) ← parseLength cfg v c
    let (id, c) ← parseLength cfg v c
    let blocks ← si.getBlocks (toU32 id)
    let bounds := blockBounds c.idx blocks
    let results := bounds.1.map (fun be => coArrayBlock cfg v sm si parseRef f be.2 ⟨addW 0 be.1, be.1⟩)
    let objs ← joinTasks results.reverse
    let ret := objs.foldl (fun (a : ArrayS) b => a.merge (b, b.length)) { pool := .frame }
    pure (ret.toObj, ⟨bounds.2, bounds.2⟩)

/-- object.h:1411-1460 the loop of `ParseMapBlock`, object.h:1475-1525 of `ParseMapViewBlock`. -/
def coMapBlock (cfg : Cfg) (v : View) (sm : Option StringMap) (si : SplitInfo) (parseRef : Bool) :
    (fuel : Nat) → (end_ : Nat) → Cur → Res (List (Str × Obj))
  | 0, _, _ => .error .fuel
  | f + 1, end_, c =>
    if c.off < end_ then do
      let (k, c) ← parseKeyBlock cfg v sm parseRef c
      let (t, split, c) ← parseObjectTypeSplit v c
      let (o, c) ← coChild split t (parseVal cfg v sm parseRef .frame f t c) (coArray cfg v sm si parseRef f c.idx)
        (coMap cfg v sm si parseRef f c.idx)
      let rest ← coMapBlock cfg v sm si parseRef f end_ c
      pure ((k, o) :: rest)
    else .ok []

/-- object.h:1529-1572 `ParseMap`. -/
def coMap (cfg : Cfg) (v : View) (sm : Option StringMap) (si : SplitInfo) (parseRef : Bool) :
    (fuel : Nat) → (os : Nat) → Res (Obj × Cur)
  | 0, _ => .error .fuel
  | f + 1, os => do
    let c : Cur := ⟨addW 0 os, os⟩
    let (_, c) ← parseLength cfg v c
    let (id, c) ← parseLength cfg v c
    let blocks ← si.getBlocks (toU32 id)
    let bounds := blockBounds c.idx blocks
    let results := bounds.1.map (fun be => coMapBlock cfg v sm si parseRef f be.2 ⟨addW 0 be.1, be.1⟩)
    let objs ← joinTasks results
    let ret := objs.foldl (fun (a : MapS) b => a.merge (b, b.length)) { ref := parseRef, pool := .frame }
    pure (ret.toObj, ⟨bounds.2, bounds.2⟩)
end

/-- object.h:1820-1829 `SchedulerType` and `ParseOption`.  `workers` is the number of threads of the process-wide pool
(thread_pool.h:51-54), which the first coroutine parse of the process fixes. -/
structure ParseOption where
  coroutine : Bool := false
  parseRef : Bool := false
  workers : Nat := 1
deriving DecidableEq, Repr

/-- object.h:1805-1818 `CoroutineScheduler::Parse`.  Without worker threads `syncAwait` never returns. -/
def coroutineParse (cfg : Cfg) (parseRef : Bool) (workers : Nat) (fuel : Nat) (content : Bytes) (s : Sched) : Res Obj :=
  if s.split = false then do
    let s ← initFromContent cfg content
    normalParse cfg parseRef fuel content s
  else if workers = 0 then .error .fuel
  else do
    let (root, _) ← coMap cfg (View.whole content) s.sm s.si parseRef fuel metaSize
    pure (takeRoot root)

/-- object.h:1831-1842 `Parse`. -/
def parse (cfg : Cfg) (po : ParseOption) (fuel : Nat) (content : Bytes) : Res Obj := do
  let s ← initFromContent cfg content
  if po.coroutine then coroutineParse cfg po.parseRef po.workers fuel content s
  else normalParse cfg po.parseRef fuel content s

end Bridge
