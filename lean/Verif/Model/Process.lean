import Verif.Model.CoParse
/-
The thread pool is one static object per process.
-/
set_option autoImplicit false
namespace Bridge

/-- One call of `Parse`. -/
structure Call where
  content : Bytes
  opt : ParseOption

/-- The threads of the static pool, if it has been constructed. -/
abbrev Threads := Option Nat

/-- thread_pool.h:51-54 `GetOrConstructInstance`: a function-local static, constructed by the first call with that call's
argument (the language serialises concurrent first calls) and only returned by the later ones.  Simplification: creating the
threads does not fail (`Model/PoolStart.lean` has it fail). -/
def getOrConstructInstance (t : Threads) (workerNum : Nat) : Nat × Threads :=
  match t with
  | some n => (n, some n)
  | none => (workerNum, some workerNum)

/-- object.h:1831-1842 `Parse` and object.h:1805-1818 `CoroutineScheduler::Parse` in a process that has this pool.  The pool
is reached only through `BridgeExecutor::schedule` (executor.h:24-28), that is after the test of the split flag. -/
def parseIn (cfg : Cfg) (fuel : Nat) (t : Threads) (c : Call) : Res Obj × Threads :=
  match initFromContent cfg c.content with
  | .error e => (.error e, t)
  | .ok s =>
    if c.opt.coroutine = false then (normalParse cfg c.opt.parseRef fuel c.content s, t)
    else if s.split = false then (coroutineParse cfg c.opt.parseRef 0 fuel c.content s, t)
    else
      let (n, t) := getOrConstructInstance t c.opt.workers
      (coroutineParse cfg c.opt.parseRef n fuel c.content s, t)

/-- The calls of a process in the order in which they reach the pool. -/
def runCalls (cfg : Cfg) (fuel : Nat) : Threads → List Call → List (Res Obj) × Threads
  | t, [] => ([], t)
  | t, c :: cs =>
    let r := parseIn cfg fuel t c
    let rest := runCalls cfg fuel r.2 cs
    (r.1 :: rest.1, rest.2)

end Bridge
