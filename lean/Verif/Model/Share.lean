import Verif.Model.Exec
import Verif.Model.Process
/-
Calls of `Parse` made at the same time, by any number of threads, in one process.  All parallel parses of a process share one pool of
worker threads (async_executor/thread_pool.h:51-54): one queue, and as many tasks on a worker at a time as there are workers.  A thread
may also give a task of its own to that pool (`ThreadPool::PushTask` is public) and the task may call `Parse`: then the thread that waits
inside `syncAwait` is itself a worker.  `Model/Process.lean` has the calls one after the other, `Model/Exec.lean` one parallel parse alone.
-/
set_option autoImplicit false
namespace Bridge

/-- Where a call of `Parse` is. -/
inductive JobSt
  /-- not made yet -/
  | idle
  /-- a task in the queue of the pool that will make the call -/
  | inQueue (ticket : Nat)
  /-- inside `syncAwait` (object.h:1814) on a worker or on another thread, with the dictionary's table and the tasks of this parse -/
  | parsing (onWorker : Bool) (cache : Cache) (main : EProc)
  /-- returned, or threw -/
  | over (r : Res Obj)
  /-- `syncAwait` threw `std::logic_error` because it was called on a worker -/
  | refused

/-- A call of `Parse` with its options.  `via = some k`: it is made by a task that some thread gives to
`ThreadPool::GetOrConstructInstance(k)`; `via = none`: by a thread that is no worker. -/
structure Job where
  via : Option Nat
  call : Call
  state : JobSt

/-- The process: the static pool, the next ticket of its queue, and the calls. -/
structure Shared where
  threads : Threads
  next : Nat
  jobs : List Job

/-- The result of the root task as the result of `Parse` (object.h:1814-1817). -/
def rootResult : Res Blk → Res Obj
  | .ok (.root o) => .ok o
  | .ok _ => .error .fuel
  | .error e => .error e

/-- object.h:1831-1842 `Parse` up to the point where it returns or waits: header and tables are read on the calling thread, and so is
everything if the parse is not parallel (Simplification: one step).  Else the pool is there from now on (executor.h:22-35), and
`syncAwait` asks `currentThreadInExecutor()` (C66: true exactly on a worker): with `guard`, which is what async_simple's `syncAwait` does,
it throws then; without, the main task enters the queue and the thread waits. -/
def enter (cfg : Cfg) (fuel : Nat) (guard onWorker : Bool) (t : Threads) (q : Nat) (c : Call) : JobSt × Threads × Nat :=
  match initFromContent cfg c.content with
  | .error e => (.over (.error e), t, q)
  | .ok s =>
    if c.opt.coroutine = false then (.over (normalParse cfg c.opt.parseRef fuel c.content s), t, q)
    else if s.split = false then (.over (coroutineParse cfg c.opt.parseRef 0 fuel c.content s), t, q)
    else
      let t := (getOrConstructInstance t c.opt.workers).2
      if guard && onWorker then (.refused, t, q)
      else (.parsing onWorker .unbuilt (.queued q (rootProg cfg c.opt.parseRef fuel c.content s)), t, q + 1)

/-- The workers a call has in use: those of the tasks of its parse, and the one that waits in it. -/
def Job.busy (j : Job) : Nat :=
  match j.state with
  | .parsing w _ main => main.busy + if w then 1 else 0
  | _ => 0

/-- The tickets of a call in the queue. -/
def Job.tickets (j : Job) : List Nat :=
  match j.state with
  | .inQueue t => [t]
  | .parsing _ _ main => main.tickets
  | _ => []

def Shared.busy (s : Shared) : Nat := (s.jobs.map Job.busy).sum

def Shared.tickets (s : Shared) : List Nat := s.jobs.flatMap Job.tickets

/-- A worker is free, and (if it takes a task) the task is the one at the front of the one queue of the pool (thread_pool.h:66-85). -/
def Shared.allowed (s : Shared) : Act → Prop
  | .take t => s.busy < s.threads.getD 0 ∧ ∀ t' ∈ s.tickets, t ≤ t'
  | .resume => s.busy < s.threads.getD 0
  | .step => True

/-- One step of one call; `s` is the state of the process before it, and `ok` says which steps that need a worker are possible in it. -/
inductive JobStep (cfg : Cfg) (fuel : Nat) (guard : Bool) (ok : Act → Prop) (s : Shared) : Job → Threads → Nat → Job → Prop
  /-- a thread calls `Parse` -/
  | call (c : Call) :
      JobStep cfg fuel guard ok s ⟨none, c, .idle⟩ (enter cfg fuel guard false s.threads s.next c).2.1
        (enter cfg fuel guard false s.threads s.next c).2.2 ⟨none, c, (enter cfg fuel guard false s.threads s.next c).1⟩
  /-- thread_pool.h:14-21, 51-54: a thread gives the pool a task that will call `Parse` -/
  | submit (k : Nat) (c : Call) :
      JobStep cfg fuel guard ok s ⟨some k, c, .idle⟩ (getOrConstructInstance s.threads k).2 (s.next + 1) ⟨some k, c, .inQueue s.next⟩
  /-- thread_pool.h:72-81: a worker takes that task, which calls `Parse` -/
  | begin (v : Option Nat) (t : Nat) (c : Call) : ok (.take t) →
      JobStep cfg fuel guard ok s ⟨v, c, .inQueue t⟩ (enter cfg fuel guard true s.threads s.next c).2.1
        (enter cfg fuel guard true s.threads s.next c).2.2 ⟨v, c, (enter cfg fuel guard true s.threads s.next c).1⟩
  /-- a step of the tasks of a parse -/
  | work (v : Option Nat) (c : Call) (w : Bool) {cache cache' : Cache} {e e' : EProc} {a : Act} {q : Nat} :
      EStep cache s.next e a cache' q e' → ok a →
      JobStep cfg fuel guard ok s ⟨v, c, .parsing w cache e⟩ s.threads q ⟨v, c, .parsing w cache' e'⟩
  /-- `syncAwait` returns the result of the main task, or rethrows its exception (object.h:1814-1817) -/
  | ret (v : Option Nat) (c : Call) (w : Bool) (cache : Cache) (b : Res Blk) :
      JobStep cfg fuel guard ok s ⟨v, c, .parsing w cache (.done b)⟩ s.threads s.next ⟨v, c, .over (rootResult b)⟩

/-- One step of the process. -/
inductive ShStep (cfg : Cfg) (fuel : Nat) (guard : Bool) : Shared → Shared → Prop
  | mk {t t' : Threads} {q q' : Nat} {j j' : Job} (pre post : List Job) :
      JobStep cfg fuel guard (Shared.mk t q (pre ++ j :: post)).allowed ⟨t, q, pre ++ j :: post⟩ j t' q' j' →
      ShStep cfg fuel guard ⟨t, q, pre ++ j :: post⟩ ⟨t', q', pre ++ j' :: post⟩

/-- Any number of steps, and how many. -/
inductive ShSteps (cfg : Cfg) (fuel : Nat) (guard : Bool) : Nat → Shared → Shared → Prop
  | nil (s : Shared) : ShSteps cfg fuel guard 0 s s
  | snoc {m : Nat} {s s' s'' : Shared} : ShSteps cfg fuel guard m s s' → ShStep cfg fuel guard s' s'' → ShSteps cfg fuel guard (m + 1) s s''

/-- A process in which no call has been made. -/
def Shared.fresh (calls : List (Option Nat × Call)) : Shared := ⟨none, 0, calls.map fun c => ⟨c.1, c.2, .idle⟩⟩

end Bridge
