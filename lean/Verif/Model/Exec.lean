import Verif.Model.Schedule
/-
The coroutine parser on a pool of `n` threads.  `Model/Schedule.lean` lets any task that can go on make the next step, as if every task had
a thread of its own.  Here a task goes on only while one of the `n` workers runs it: it enters the queue of the pool when it is
started (async_executor/executor.h:22-26 `schedule`), a free worker takes the task at the front (async_executor/thread_pool.h:66-85), and a
worker that reaches `co_await collectAllPara` starts the tasks, leaves the coroutine suspended and is free again.  That the queue and the
condition variable of the pool work like this is C39 and C40; that `collectAllPara` does is an assumption about async_simple.
-/
set_option autoImplicit false
namespace Bridge

/-- A task and the tasks it waits for, with the threads. -/
inductive EProc
  /-- in the queue of the pool; tickets are given in the order of `PushTask` -/
  | queued (ticket : Nat) (p : Prog)
  /-- on a worker -/
  | active (p : Prog)
  /-- on a worker, inside `buildReMap` -/
  | building (p : Prog)
  /-- suspended in `collectAllPara`, on no worker -/
  | wait (kids : List EProc) (k : List (Res Blk) → Prog)
  /-- over -/
  | done (r : Res Blk)

/-- async_executor/thread_pool.h:14-21 `PushTask`, once per task, in order. -/
def enqueue (next : Nat) : List Prog → List EProc
  | [] => []
  | p :: ps => .queued next p :: enqueue (next + 1) ps

/-- What a step needs: a worker that takes a task from the queue, a worker that goes on with a task whose blocks are done, or nothing
more than the worker it is on. -/
inductive Act
  | take (ticket : Nat)
  | resume
  | step
deriving DecidableEq

/-- One step of one task; the number is the next ticket. -/
inductive EStep : Cache → Nat → EProc → Act → Cache → Nat → EProc → Prop
  /-- thread_pool.h:72-81 a worker takes the task -/
  | take (c : Cache) (q t : Nat) (p : Prog) : EStep c q (.queued t p) (.take t) c q (.active p)
  /-- string_map.h:38-45 with the table in place -/
  | read (q : Nat) (p : Prog) : EStep .built q (.active (.touch p)) .step .built q (.active p)
  /-- string_map.h:38-39 finds no table, 49 resets the pointer -/
  | beginBuild (q : Nat) (p : Prog) : EStep .unbuilt q (.active (.touch p)) .step .building q (.building p)
  /-- string_map.h:50-52 done -/
  | endBuild (q : Nat) (p : Prog) : EStep .building q (.building p) .step .built q (.active p)
  /-- `collectAllPara` hands the tasks to the executor and suspends; the worker is free -/
  | fork (c : Cache) (q : Nat) (ts : List Prog) (k : List (Res Blk) → Prog) :
      EStep c q (.active (.fork ts k)) .step c (q + ts.length) (.wait (enqueue q ts) k)
  /-- the task is over; the worker is free -/
  | finish (c : Cache) (q : Nat) (r : Res Blk) : EStep c q (.active (.ret r)) .step c q (.done r)
  /-- all blocks are done: a worker goes on with the task that waited -/
  | resume (c : Cache) (q : Nat) (rs : List (Res Blk)) (k : List (Res Blk) → Prog) :
      EStep c q (.wait (rs.map .done) k) .resume c q (.active (k rs))
  /-- all blocks are done: or the task that waited enters the queue once more -/
  | reschedule (c : Cache) (q : Nat) (rs : List (Res Blk)) (k : List (Res Blk) → Prog) :
      EStep c q (.wait (rs.map .done) k) .step c (q + 1) (.queued q (k rs))
  /-- one of the tasks waited for makes a step -/
  | kid {c c' : Cache} {q q' : Nat} {e e' : EProc} {a : Act} (pre post : List EProc) (k : List (Res Blk) → Prog) :
      EStep c q e a c' q' e' → EStep c q (.wait (pre ++ e :: post) k) a c' q' (.wait (pre ++ e' :: post) k)

mutual
/-- The number of workers in use. -/
def EProc.busy : EProc → Nat
  | .queued _ _ => 0
  | .active _ => 1
  | .building _ => 1
  | .wait kids _ => busyL kids
  | .done _ => 0
def busyL : List EProc → Nat
  | [] => 0
  | e :: es => e.busy + busyL es
end

mutual
/-- The tickets of the tasks in the queue. -/
def EProc.tickets : EProc → List Nat
  | .queued t _ => [t]
  | .active _ => []
  | .building _ => []
  | .wait kids _ => ticketsL kids
  | .done _ => []
def ticketsL : List EProc → List Nat
  | [] => []
  | e :: es => e.tickets ++ ticketsL es
end

/-- The whole parse: the dictionary's table, the next ticket, and the main task. -/
structure ESt where
  cache : Cache
  next : Nat
  main : EProc

/-- With `n` workers: a worker takes a task only if it is free, and it takes the one at the front of the queue. -/
def Allowed (n : Nat) (e : EProc) : Act → Prop
  | .take t => e.busy < n ∧ ∀ t' ∈ e.tickets, t ≤ t'
  | .resume => e.busy < n
  | .step => True

/-- One step of the pool. -/
inductive GStep (n : Nat) : ESt → ESt → Prop
  | mk {c c' : Cache} {q q' : Nat} {e e' : EProc} {a : Act} : EStep c q e a c' q' e' → Allowed n e a →
      GStep n ⟨c, q, e⟩ ⟨c', q', e'⟩

/-- Any number of steps, and how many. -/
inductive GSteps (n : Nat) : Nat → ESt → ESt → Prop
  | nil (s : ESt) : GSteps n 0 s s
  | snoc {m : Nat} {s s' s'' : ESt} : GSteps n m s s' → GStep n s' s'' → GSteps n (m + 1) s s''

/-- object.h:1805-1818 `CoroutineScheduler::Parse` of a split document: `syncAwait(ParseMap(...).via(&executor))` puts the main task into
the queue and waits. -/
def startE (cfg : Cfg) (parseRef : Bool) (fuel : Nat) (content : Bytes) (s : Sched) : ESt :=
  ⟨.unbuilt, 1, .queued 0 (rootProg cfg parseRef fuel content s)⟩

/-- A task inside another one (or the same). -/
inductive EProc.Within (x : EProc) : EProc → Prop
  | here : Within x x
  | kid {e : EProc} {kids : List EProc} (k : List (Res Blk) → Prog) : e ∈ kids → Within x e → Within x (.wait kids k)

/-- A task that is on a worker. -/
def EProc.onWorker : EProc → Bool
  | .active _ => true
  | .building _ => true
  | _ => false

mutual
/-- The same tasks without the threads. -/
def EProc.plain : EProc → Proc
  | .queued _ p => .run p
  | .active p => .run p
  | .building p => .build p
  | .wait kids k => .wait (plainL kids) k
  | .done r => .run (.ret r)
def plainL : List EProc → List Proc
  | [] => []
  | e :: es => e.plain :: plainL es
end

end Bridge
