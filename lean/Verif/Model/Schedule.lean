import Verif.Model.CoParse
/-
The coroutine parser with its schedules.  `Model/CoParse.lean` computes the outcome of `ParseArray`/`ParseMap` as if the block
tasks ran one after the other.  Here the same functions are written as programs whose concurrent actions are explicit: starting the
tasks of a `collectAllPara` and waiting for them, and reading the dictionary, whose reverse table the first read builds
(string_map.h:38-46, a write to shared memory under `const`, without a lock).  Everything else a task does reads the content and the
split table, which nobody writes, and writes its own pool, so it is one silent step.
-/
namespace Bridge

/-- The result of a task: `ParseArrayBlock` (object.h:1369), `ParseMapBlock` and `ParseMapViewBlock` (object.h:1463, 1527), or the
whole parse (object.h:1805-1818). -/
inductive Blk
  | objs (l : List Obj)
  | entries (l : List (Str × Obj))
  | root (o : Obj)

/-- What a task still has to do. -/
inductive Prog
  /-- `co_return`, or an exception stored in the task -/
  | ret (r : Res Blk)
  /-- the next action may call `StringMap::GetStr` -/
  | touch (p : Prog)
  /-- `co_await collectAllPara(ts)`, then go on with the results -/
  | fork (ts : List Prog) (k : List (Res Blk) → Prog)

/-- `GetStr` is called only if there is a dictionary (object.h:1414-1423, 1478-1487, and `valueParse` with `sm`). -/
def dictRead (sm : Option StringMap) (p : Prog) : Prog :=
  match sm with
  | none => p
  | some _ => .touch p

/-- Take the result of `ParseArrayBlock` out of a task. -/
def Blk.toObjs : Res Blk → Res (List Obj)
  | .ok (.objs l) => .ok l
  | .ok _ => .ok []
  | .error e => .error e

/-- Take the result of `ParseMapBlock` out of a task. -/
def Blk.toEntries : Res Blk → Res (List (Str × Obj))
  | .ok (.entries l) => .ok l
  | .ok _ => .ok []
  | .error e => .error e

/-- Apply a function to the result of a task that did not fail. -/
def mapRes {α β : Type} (f : α → β) : Res α → Res β
  | .ok a => .ok (f a)
  | .error e => .error e

/-- The four coroutines as programs; the last argument is what the calling task does with the outcome. -/
structure Coros where
  arrayBlock : (end_ : Nat) → Cur → (Res (List Obj) → Prog) → Prog
  array : (os : Nat) → (Res (Obj × Cur) → Prog) → Prog
  mapBlock : (end_ : Nat) → Cur → (Res (List (Str × Obj)) → Prog) → Prog
  map : (os : Nat) → (Res (Obj × Cur) → Prog) → Prog

/-- object.h:1333-1356, 1425-1448, 1490-1513: the child of type `t`, by the recursive parser or by a coroutine of its own; then `k`.
`cs` are the coroutines it may call. -/
def childP (cfg : Cfg) (v : View) (sm : Option StringMap) (parseRef : Bool) (cs : Coros) (f : Nat) (split : Bool) (t : ObjectType)
    (c : Cur) (k : Res (Obj × Cur) → Prog) : Prog :=
  if split then
    match t with
    | .array => cs.array c.idx k
    | .map => cs.map c.idx k
    | _ => k (.error (.exn .dataNeedToSplit))
  else dictRead sm (k (parseVal cfg v sm parseRef .frame f t c))

/-- Go on if the last action did not throw, else end the coroutine with the exception. -/
def onRes {α : Type} (r : Res α) (fail : Err → Prog) (next : α → Prog) : Prog :=
  match r with
  | .ok a => next a
  | .error e => fail e

/-- object.h:1328-1366 `ParseArrayBlock`. -/
def arrayBlockP (cfg : Cfg) (v : View) (sm : Option StringMap) (parseRef : Bool) (cs : Coros) (f : Nat) (end_ : Nat) (c : Cur)
    (k : Res (List Obj) → Prog) : Prog :=
  if c.off < end_ then
    onRes (parseObjectTypeSplit v c) (fun e => k (.error e)) fun x =>
      childP cfg v sm parseRef cs f x.2.1 x.1 x.2.2 fun r =>
        onRes r (fun e => k (.error e)) fun y => cs.arrayBlock end_ y.2 fun r => k (mapRes (y.1 :: ·) r)
  else k (.ok [])

/-- object.h:1373-1390, 1531-1549: the two lengths, and the bounds of the blocks. -/
def boundsP (cfg : Cfg) (v : View) (si : SplitInfo) (os : Nat) : Res (List (Nat × Nat) × Nat) := do
  let (_, c) ← parseLength cfg v (⟨addW 0 os, os⟩ : Cur)
  let (id, c) ← parseLength cfg v c
  let blocks ← si.getBlocks (toU32 id)
  pure (blockBounds c.idx blocks)

/-- object.h:1391-1398 the results of the blocks in reverse order. -/
def gatherArray (end_ : Nat) (rs : List (Res Blk)) : Res (Obj × Cur) := do
  let objs ← joinTasks (rs.map Blk.toObjs).reverse
  let ret := objs.foldl (fun (a : ArrayS) b => a.merge (b, b.length)) { pool := .frame }
  pure (ret.toObj, ⟨end_, end_⟩)

/-- object.h:1371-1399 `ParseArray`. -/
def arrayP (cfg : Cfg) (v : View) (si : SplitInfo) (cs : Coros) (os : Nat) (k : Res (Obj × Cur) → Prog) : Prog :=
  onRes (boundsP cfg v si os) (fun e => k (.error e)) fun bounds =>
    .fork (bounds.1.map fun be => cs.arrayBlock be.2 ⟨addW 0 be.1, be.1⟩ fun r => .ret (mapRes .objs r))
      fun rs => k (gatherArray bounds.2 rs)

/-- object.h:1411-1460 `ParseMapBlock`, object.h:1475-1525 `ParseMapViewBlock`. -/
def mapBlockP (cfg : Cfg) (v : View) (sm : Option StringMap) (parseRef : Bool) (cs : Coros) (f : Nat) (end_ : Nat) (c : Cur)
    (k : Res (List (Str × Obj)) → Prog) : Prog :=
  if c.off < end_ then
    dictRead sm <|
      onRes (parseKeyBlock cfg v sm parseRef c) (fun e => k (.error e)) fun kc =>
        onRes (parseObjectTypeSplit v kc.2) (fun e => k (.error e)) fun x =>
          childP cfg v sm parseRef cs f x.2.1 x.1 x.2.2 fun r =>
            onRes r (fun e => k (.error e)) fun y => cs.mapBlock end_ y.2 fun r => k (mapRes ((kc.1, y.1) :: ·) r)
  else k (.ok [])

/-- object.h:1550-1555, 1565-1570 the results of the blocks in order. -/
def gatherMap (parseRef : Bool) (end_ : Nat) (rs : List (Res Blk)) : Res (Obj × Cur) := do
  let objs ← joinTasks (rs.map Blk.toEntries)
  let ret := objs.foldl (fun (a : MapS) b => a.merge (b, b.length)) { ref := parseRef, pool := .frame }
  pure (ret.toObj, ⟨end_, end_⟩)

/-- object.h:1529-1572 `ParseMap`. -/
def mapP (cfg : Cfg) (v : View) (si : SplitInfo) (parseRef : Bool) (cs : Coros) (os : Nat) (k : Res (Obj × Cur) → Prog) : Prog :=
  onRes (boundsP cfg v si os) (fun e => k (.error e)) fun bounds =>
    .fork (bounds.1.map fun be => cs.mapBlock be.2 ⟨addW 0 be.1, be.1⟩ fun r => .ret (mapRes .entries r))
      fun rs => k (gatherMap parseRef bounds.2 rs)

/-- The mutually recursive coroutines, to a depth of `fuel` calls. -/
def coros (cfg : Cfg) (v : View) (sm : Option StringMap) (si : SplitInfo) (parseRef : Bool) : (fuel : Nat) → Coros
  | 0 => ⟨fun _ _ k => k (.error .fuel), fun _ k => k (.error .fuel), fun _ _ k => k (.error .fuel), fun _ k => k (.error .fuel)⟩
  | f + 1 =>
    let cs := coros cfg v sm si parseRef f
    ⟨arrayBlockP cfg v sm parseRef cs f, arrayP cfg v si cs, mapBlockP cfg v sm parseRef cs f, mapP cfg v si parseRef cs⟩

/-- object.h:1805-1818 `CoroutineScheduler::Parse` of a split document: the main task. -/
def rootProg (cfg : Cfg) (parseRef : Bool) (fuel : Nat) (content : Bytes) (s : Sched) : Prog :=
  (coros cfg (View.whole content) s.sm s.si parseRef fuel).map metaSize fun r => .ret (mapRes (fun x => .root (takeRoot x.1)) r)

/-- string_map.h:78 `re_map_`: null, being filled by some thread, or complete. -/
inductive Cache
  | unbuilt
  | building
  | built
deriving DecidableEq, Repr

/-- A task and the tasks it waits for. -/
inductive Proc
  /-- runnable -/
  | run (p : Prog)
  /-- inside `buildReMap`, then `p` -/
  | build (p : Prog)
  /-- suspended in `collectAllPara` -/
  | wait (kids : List Proc) (k : List (Res Blk) → Prog)

/-- One step of one task.  Any runnable task may be the next to step: this covers every executor with any number of threads. -/
inductive PStep : Cache → Proc → Cache → Proc → Prop
  /-- string_map.h:38-45 with the table in place -/
  | read (p : Prog) : PStep .built (.run (.touch p)) .built (.run p)
  /-- string_map.h:38-39 finds no table, 49 resets the pointer -/
  | beginBuild (p : Prog) : PStep .unbuilt (.run (.touch p)) .building (.build p)
  /-- string_map.h:50-52 done -/
  | endBuild (p : Prog) : PStep .building (.build p) .built (.run p)
  /-- `collectAllPara` hands the tasks to the executor -/
  | fork (c : Cache) (ts : List Prog) (k : List (Res Blk) → Prog) : PStep c (.run (.fork ts k)) c (.wait (ts.map .run) k)
  /-- one of the tasks waited for makes a step -/
  | kid {c c' : Cache} {q q' : Proc} (pre post : List Proc) (k : List (Res Blk) → Prog) : PStep c q c' q' →
      PStep c (.wait (pre ++ q :: post) k) c' (.wait (pre ++ q' :: post) k)
  /-- the last of them is done: the task that waited goes on with the results, in the order of the tasks -/
  | join (c : Cache) (rs : List (Res Blk)) (k : List (Res Blk) → Prog) :
      PStep c (.wait (rs.map fun r => .run (.ret r)) k) c (.run (k rs))

/-- Any number of steps, and how many. -/
inductive PSteps : Nat → Cache → Proc → Cache → Proc → Prop
  | nil (c : Cache) (p : Proc) : PSteps 0 c p c p
  | snoc {n : Nat} {c c' c'' : Cache} {p p' p'' : Proc} : PSteps n c p c' p' → PStep c' p' c'' p'' → PSteps (n + 1) c p c'' p''

/-- Some task is about to read the dictionary. -/
inductive AtTouch : Proc → Prop
  | here (p : Prog) : AtTouch (.run (.touch p))
  | kid {q : Proc} {kids : List Proc} (k : List (Res Blk) → Prog) : q ∈ kids → AtTouch q → AtTouch (.wait kids k)

/-- A task reads the dictionary while another one builds the table: the unordered map is read while it is written. -/
def Racy (c : Cache) (p : Proc) : Prop := c = .building ∧ AtTouch p

end Bridge
