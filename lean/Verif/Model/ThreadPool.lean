/-
Model of the thread pool (async_executor/thread_pool.h) as a transition system.  The steps are the critical sections of the
mutex and the actions outside it; the mutex makes each critical section atomic, and every interleaving of the steps of all
threads is allowed.  Tasks are named by the order in which they were accepted.
-/
namespace Bridge.TP

/-- Where a worker thread is. -/
inductive Worker
  /-- before the mutex: thread_pool.h:73, or woken up in `cond_.wait` and about to take the mutex again (line 74) -/
  | ready
  /-- asleep in `cond_.wait` (line 74) -/
  | waiting
  /-- has taken `t` out of the queue and released the mutex (line 80) -/
  | holding (t : Nat)
  /-- inside `task()` (line 81) -/
  | running (t : Nat)
  /-- returned (line 76) -/
  | exited
deriving DecidableEq, Repr

/-- thread_pool.h:60-64 the members, and the threads that are between their critical section and their notification. -/
structure State where
  workers : List Worker
  queue : List Nat := []
  stop : Bool := false
  /-- calls of `PushTask` between line 19 and line 20 -/
  pendOne : Nat := 0
  /-- `Stop` between line 29 and line 30 -/
  pendAll : Bool := false
  /-- the number of tasks accepted so far, which is the name of the next one (not in the code) -/
  accepted : Nat := 0
deriving DecidableEq, Repr

/-- What an observer sees: the calls of `PushTask` that accept task `t` or drop their task, the calls of `Stop`, a worker
taking `t` from the queue, the call `task()` of `t` beginning and returning, and the steps that concern no task. -/
inductive Event
  | push (t : Nat) | pushDropped | notifyOne | stop | stopAgain | notifyAll
  | sleep | exit | take (t : Nat) | start (t : Nat) | finish (t : Nat) | spurious
deriving DecidableEq, Repr

/-- What a worker does when it holds the mutex (thread_pool.h:74-80): sleep, return, or take the first task. -/
def enter (stop : Bool) (queue : List Nat) : Event × Worker × List Nat :=
  if stop || !queue.isEmpty then
    if stop && queue.isEmpty then (.exit, .exited, queue)
    else
      match queue with
      | t :: rest => (.take t, .holding t, rest)
      | [] => (.exit, .exited, queue)
  else (.sleep, .waiting, queue)

/-- One step of some thread. -/
inductive Step : State → Event → State → Prop
  /-- thread_pool.h:16-19 `PushTask` up to the release of the mutex, by any thread (clients, or tasks themselves) -/
  | push (s : State) : s.stop = false →
      Step s (.push s.accepted) { s with queue := s.queue ++ [s.accepted], accepted := s.accepted + 1, pendOne := s.pendOne + 1 }
  /-- thread_pool.h:17 `PushTask` on a stopped pool -/
  | pushDropped (s : State) : s.stop = true → Step s .pushDropped s
  /-- thread_pool.h:20 `notify_one` wakes any one sleeping worker -/
  | notifyOne (s : State) (pre post : List Worker) : 0 < s.pendOne → s.workers = pre ++ .waiting :: post →
      Step s .notifyOne { s with workers := pre ++ .ready :: post, pendOne := s.pendOne - 1 }
  /-- thread_pool.h:20 `notify_one` while nobody sleeps -/
  | notifyNone (s : State) : 0 < s.pendOne → Worker.waiting ∉ s.workers →
      Step s .notifyOne { s with pendOne := s.pendOne - 1 }
  /-- thread_pool.h:24-29 `Stop` up to the release of the mutex -/
  | stop (s : State) : s.stop = false → Step s .stop { s with stop := true, pendAll := true }
  /-- thread_pool.h:25-27 a second `Stop` -/
  | stopAgain (s : State) : s.stop = true → Step s .stopAgain s
  /-- thread_pool.h:30 `notify_all` -/
  | notifyAll (s : State) : s.pendAll = true →
      Step s .notifyAll { s with workers := s.workers.map (fun w => if w = .waiting then .ready else w), pendAll := false }
  /-- thread_pool.h:73-80 a worker gets the mutex -/
  | enter (s : State) (pre post : List Worker) : s.workers = pre ++ .ready :: post →
      Step s (enter s.stop s.queue).1
        { s with
          workers := pre ++ (enter s.stop s.queue).2.1 :: post
          queue := (enter s.stop s.queue).2.2 }
  /-- thread_pool.h:81 the call begins -/
  | start (s : State) (pre post : List Worker) (t : Nat) : s.workers = pre ++ .holding t :: post →
      Step s (.start t) { s with workers := pre ++ .running t :: post }
  /-- thread_pool.h:81-83 the call returns and the loop goes on -/
  | finish (s : State) (pre post : List Worker) (t : Nat) : s.workers = pre ++ .running t :: post →
      Step s (.finish t) { s with workers := pre ++ .ready :: post }
  /-- a spurious wake-up of `cond_.wait` -/
  | spurious (s : State) (pre post : List Worker) : s.workers = pre ++ .waiting :: post →
      Step s .spurious { s with workers := pre ++ .ready :: post }

/-- thread_pool.h:66-85 the constructor: `n` threads at the start of their loop. -/
def init (n : Nat) : State := { workers := List.replicate n .ready }

/-- Finite executions from `s`: the events in order, and the state reached. -/
inductive Steps (s : State) : List Event → State → Prop
  | nil : Steps s [] s
  | snoc {es : List Event} {s' s'' : State} {e : Event} : Steps s es s' → Step s' e s'' → Steps s (es ++ [e]) s''

/-- The executions of a pool of `n` workers under any schedule. -/
def Run (n : Nat) (es : List Event) (s : State) : Prop := Steps (init n) es s

end Bridge.TP
