import Verif.Model.Process
import Verif.Model.ThreadPool
/-
The thread pool when the system refuses what it asks for: threads or memory while the pool is constructed, memory when a task is put
into the queue; and tasks that let an exception out.  `Model/Process.lean` and `Model/ThreadPool.lean` have neither.
-/
set_option autoImplicit false
namespace Bridge

/-- Why `works_.emplace_back(lambda)` throws. -/
inductive Refusal
  /-- `std::bad_alloc`: the vector or the state of the thread -/
  | memory
  /-- `std::system_error`: there can be no further thread -/
  | thread
deriving DecidableEq, Repr

/-- How the construction of the pool ends. -/
inductive Start
  /-- with this many workers -/
  | pool (n : Nat)
  | threw (r : Refusal)
  /-- undefined behaviour or `std::terminate`: neither returns nor throws -/
  | lost
deriving DecidableEq, Repr

/-- thread_pool.h:66-85 the constructor, from the point where `created` threads are there and `todo` are missing; the system refuses the
`i`-th thread with `sys i`.  `emplace_back` that throws leaves the vector as it was.  The exception destroys the members in the reverse order of lines 60-64: with
threads already there, `cond_` and `mut_` that they use (undefined behaviour; glibc waits for ever for a thread that sleeps), and the
vector of threads that nobody has joined (`std::terminate`). -/
def startWorkers (sys : Nat → Option Refusal) : (created todo : Nat) → Start
  | created, 0 => .pool created
  | created, todo + 1 =>
    match sys created with
    | none => startWorkers sys (created + 1) todo
    | some r => if created = 0 then .threw r else .lost

/-- thread_pool.h:51-54 `GetOrConstructInstance`: when the constructor of the function-local static has thrown, the next call tries
again, with its own argument. -/
def getOrStart (t : Threads) (workerNum : Nat) (sys : Nat → Option Refusal) : Start :=
  match t with
  | some n => .pool n
  | none => startWorkers sys 0 workerNum

/-- How a call of `Parse` ends. -/
inductive CallEnd
  | result (r : Res Obj)
  /-- the exception of the constructor of the pool: the first use of the pool is by `syncAwait` on the calling thread, which asks
  `currentThreadInExecutor()` (executor.h:28-35) before it starts the coroutine -/
  | refused (r : Refusal)
  /-- neither: the process has ended or hangs, whatever the caller catches -/
  | lost

/-- object.h:1831-1842 `Parse` and object.h:1805-1818 `CoroutineScheduler::Parse` in a process that has this pool, when the system may
refuse threads. -/
def parseStart (cfg : Cfg) (fuel : Nat) (t : Threads) (c : Call) (sys : Nat → Option Refusal) : CallEnd × Threads :=
  match initFromContent cfg c.content with
  | .error e => (.result (.error e), t)
  | .ok s =>
    if c.opt.coroutine = false then (.result (normalParse cfg c.opt.parseRef fuel c.content s), t)
    else if s.split = false then (.result (coroutineParse cfg c.opt.parseRef 0 fuel c.content s), t)
    else
      match getOrStart t c.opt.workers sys with
      | .pool n => (.result (coroutineParse cfg c.opt.parseRef n fuel c.content s), some n)
      | .threw r => (.refused r, t)
      | .lost => (.lost, t)

/-- The calls of a process, one after the other, each with what the system refuses during it.  A program that catches exceptions goes
on; after a call that is lost there are no further ones. -/
def runStarts (cfg : Cfg) (fuel : Nat) : Threads → List (Call × (Nat → Option Refusal)) → List CallEnd × Threads
  | t, [] => ([], t)
  | t, (c, sys) :: cs =>
    match parseStart cfg fuel t c sys with
    | (.lost, t') => ([.lost], t')
    | (o, t') =>
      let rest := runStarts cfg fuel t' cs
      (o :: rest.1, rest.2)

namespace TP

/-- A pool that is up, or the process has ended while it was in this state. -/
inductive FState
  | up (s : State)
  | dead (s : State)

/-- What an observer sees: the events of the pool, a call of `PushTask` that throws, and a task that lets an exception out. -/
inductive FEvent
  | base (e : Event)
  | pushThrew
  | taskThrew (t : Nat)
deriving DecidableEq, Repr

/-- One step of some thread, where the tasks in `throws` let an exception out instead of returning. -/
inductive FStep (throws : Nat → Prop) : FState → FEvent → FState → Prop
  /-- a step of Model/ThreadPool.lean; the task that returns is one that does -/
  | base (s : State) (e : Event) (s' : State) : Step s e s' → (∀ t, e = .finish t → ¬ throws t) → FStep throws (.up s) (.base e) (.up s')
  /-- thread_pool.h:16-18: `tasks_.emplace` throws `std::bad_alloc`.  The queue is as before, `~unique_lock` releases the mutex, and
  line 20 is not reached. -/
  | pushThrew (s : State) : s.stop = false → FStep throws (.up s) .pushThrew (.up s)
  /-- thread_pool.h:81: nothing around the call of `task()` catches, so the exception leaves the function of the thread, and the
  process ends (`std::terminate`) -/
  | taskThrew (s : State) (pre post : List Worker) (t : Nat) : s.workers = pre ++ .running t :: post → throws t →
      FStep throws (.up s) (.taskThrew t) (.dead s)

/-- Finite executions. -/
inductive FSteps (throws : Nat → Prop) (s : FState) : List FEvent → FState → Prop
  | nil : FSteps throws s [] s
  | snoc {es : List FEvent} {s' s'' : FState} {e : FEvent} : FSteps throws s es s' → FStep throws s' e s'' → FSteps throws s (es ++ [e]) s''

/-- The executions of a pool of `n` workers under any schedule. -/
def FRun (throws : Nat → Prop) (n : Nat) (es : List FEvent) (s : FState) : Prop := FSteps throws (.up (init n)) es s

end TP
end Bridge
