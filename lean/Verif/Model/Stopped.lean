import Verif.Model.Share
/-
Calls of `Parse` in a process that stops its pool.  `ThreadPool::GetOrConstructInstance` and `ThreadPool::Stop` are public, so any thread may
stop the pool that all parallel parses share (async_executor/thread_pool.h:23-34).  After that `PushTask` drops what it is given
(thread_pool.h:17) and `BridgeExecutor::schedule` still answers true (async_executor/executor.h:22-26), so nobody learns of it; the workers
go on until the queue is empty (thread_pool.h:75, C66).  `Model/Share.lean` is the same process without `Stop`.
-/
set_option autoImplicit false
namespace Bridge

/-- The process, whether its pool is stopped (thread_pool.h:64 `stop_`), and the tasks that were dropped (not in the code). -/
structure Stoppable where
  stop : Bool
  dropped : List Nat
  sh : Shared

/-- As `Shared.allowed`, but a task that was dropped is not in the queue (thread_pool.h:17-18).  A worker that goes on with a task whose
blocks are done (`resume`) is the one that finished the last of them, so it has not returned yet. -/
def Stoppable.allowed (s : Stoppable) : Act → Prop
  | .take t => s.sh.busy < s.sh.threads.getD 0 ∧ t ∉ s.dropped ∧ ∀ t' ∈ s.sh.tickets, t' ∉ s.dropped → t ≤ t'
  | .resume => s.sh.busy < s.sh.threads.getD 0
  | .step => True

/-- One step of the process. -/
inductive StStep (cfg : Cfg) (fuel : Nat) : Stoppable → Stoppable → Prop
  /-- thread_pool.h:23-30: a thread that is no worker calls `ThreadPool::GetOrConstructInstance(k).Stop()` (what it waits for after that:
  `Model/StopCalls.lean`) -/
  | stop (k : Nat) (dropped : List Nat) (t : Threads) (q : Nat) (jobs : List Job) :
      StStep cfg fuel ⟨false, dropped, ⟨t, q, jobs⟩⟩ ⟨true, dropped, ⟨(getOrConstructInstance t k).2, q, jobs⟩⟩
  /-- A step of a call.  What it gives to the pool, under the tickets from `q` on, is dropped if the pool is stopped. -/
  | job {stop : Bool} {dropped : List Nat} {t t' : Threads} {q q' : Nat} {j j' : Job} (pre post : List Job) :
      JobStep cfg fuel true (Stoppable.mk stop dropped ⟨t, q, pre ++ j :: post⟩).allowed ⟨t, q, pre ++ j :: post⟩ j t' q' j' →
      StStep cfg fuel ⟨stop, dropped, ⟨t, q, pre ++ j :: post⟩⟩
        ⟨stop, if stop then dropped ++ List.range' q (q' - q) else dropped, ⟨t', q', pre ++ j' :: post⟩⟩

/-- Any number of steps, and how many. -/
inductive StSteps (cfg : Cfg) (fuel : Nat) : Nat → Stoppable → Stoppable → Prop
  | nil (s : Stoppable) : StSteps cfg fuel 0 s s
  | snoc {m : Nat} {s s' s'' : Stoppable} : StSteps cfg fuel m s s' → StStep cfg fuel s' s'' → StSteps cfg fuel (m + 1) s s''

/-- A process in which no call has been made. -/
def Stoppable.fresh (calls : List (Option Nat × Call)) : Stoppable := ⟨false, [], .fresh calls⟩

end Bridge
