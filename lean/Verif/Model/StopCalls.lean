import Verif.Model.ThreadPool
/-
The rest of async_executor/thread_pool.h and executor.h: the beginning of a worker thread, the thread-local identity, and the calls
of `Stop` with their `join` loop, on top of the transition system of Model/ThreadPool.lean.
-/
set_option autoImplicit false
namespace Bridge.TP

/-- `size_t(-1)` (thread_pool.h:37, 46). -/
def noId : Nat := 2 ^ 64 - 1

/-- Where the call of `Stop` is that found `stop_` not set.  All other calls return at once (thread_pool.h:25-27). -/
inductive Phase
  /-- thread_pool.h:28-30: before `notify_all` -/
  | notify
  /-- thread_pool.h:31-33: `works_[0]`, ..., `works_[k-1]` are joined -/
  | join (k : Nat)
  /-- thread_pool.h:34: returned -/
  | done
  /-- thread_pool.h:32: `join` of the own thread throws `std::system_error` -/
  | selfJoin
deriving DecidableEq, Repr

/-- A call of `Stop` and who made it: a task on worker `i` (`some i`), or a thread that is no worker. -/
structure StopCall where
  caller : Option Nat
  phase : Phase
deriving DecidableEq, Repr

/-- The pool with the thread-local variable of thread_pool.h:37 of each worker thread. -/
structure XState where
  base : State
  /-- how many of the lines thread_pool.h:69, 70 worker `i` has executed -/
  boot : Nat → Nat := fun _ => 0
  /-- `getCurrent()->first` on worker `i`, and whether `getCurrent()->second` is this pool -/
  ids : Nat → Nat := fun _ => noId
  mine : Nat → Bool := fun _ => false
  call : Option StopCall := none

def upd {α : Type} (f : Nat → α) (i : Nat) (a : α) : Nat → α := fun j => if j = i then a else f j

/-- thread_pool.h:41-47 `GetCurrentId()` and executor.h:32-35 `currentContextId()`, called on worker `i` (`some i`) or elsewhere. -/
def XState.currentId (x : XState) : Option Nat → Nat
  | none => noId
  | some i => if x.mine i then x.ids i else noId

/-- executor.h:28 `currentThreadInExecutor()`: the comparison with `-1` is made after the conversion to `size_t`. -/
def XState.inExecutor (x : XState) (th : Option Nat) : Bool := !decide (x.currentId th = noId)

/-- The events of the pool, and those of this module. -/
inductive XEvent
  | base (e : Event)
  | boot (i : Nat)
  | joined (k : Nat)
  | stopReturned
  | stopThrew
deriving DecidableEq, Repr

/-- Is worker `i` inside a call of `Stop`? -/
def XState.busy (x : XState) (i : Nat) : Prop := ∃ c, x.call = some c ∧ c.caller = some i ∧ c.phase ≠ .done

/-- One step of some thread. -/
inductive XStep : XState → XEvent → XState → Prop
  /-- thread_pool.h:69 -/
  | setId (x : XState) (i : Nat) : i < x.base.workers.length → x.boot i = 0 →
      XStep x (.boot i) { x with ids := upd x.ids i i, boot := upd x.boot i 1 }
  /-- thread_pool.h:70 -/
  | setPool (x : XState) (i : Nat) : i < x.base.workers.length → x.boot i = 1 →
      XStep x (.boot i) { x with mine := upd x.mine i true, boot := upd x.boot i 2 }
  /-- A step of Model/ThreadPool.lean.  A worker takes one only when it is in its loop (line 71) and not inside a call of `Stop`. -/
  | base (x : XState) (e : Event) (b : State) : Step x.base e b → e ≠ .stop → e ≠ .notifyAll →
      (∀ i, x.base.workers[i]? ≠ b.workers[i]? → x.boot i = 2 ∧ ¬ x.busy i) →
      XStep x (.base e) { x with base := b }
  /-- thread_pool.h:24-29 the first `Stop`, by a task or by another thread -/
  | stop (x : XState) (caller : Option Nat) (b : State) : Step x.base .stop b →
      (∀ i, caller = some i → ∃ t, x.base.workers[i]? = some (.running t)) →
      XStep x (.base .stop) { x with base := b, call := some ⟨caller, .notify⟩ }
  /-- thread_pool.h:30 -/
  | notifyAll (x : XState) (caller : Option Nat) (b : State) : Step x.base .notifyAll b → x.call = some ⟨caller, .notify⟩ →
      XStep x (.base .notifyAll) { x with base := b, call := some ⟨caller, .join 0⟩ }
  /-- thread_pool.h:32 `join` returns when the thread has ended -/
  | join (x : XState) (caller : Option Nat) (k : Nat) : x.call = some ⟨caller, .join k⟩ → caller ≠ some k →
      x.base.workers[k]? = some .exited →
      XStep x (.joined k) { x with call := some ⟨caller, .join (k + 1)⟩ }
  /-- thread_pool.h:32 `join` called by the thread itself -/
  | selfJoin (x : XState) (k : Nat) : x.call = some ⟨some k, .join k⟩ →
      XStep x .stopThrew { x with call := some ⟨some k, .selfJoin⟩ }
  /-- thread_pool.h:34 -/
  | ret (x : XState) (caller : Option Nat) : x.call = some ⟨caller, .join x.base.workers.length⟩ →
      XStep x .stopReturned { x with call := some ⟨caller, .done⟩ }

/-- thread_pool.h:66-85 the constructor. -/
def xinit (n : Nat) : XState := { base := init n }

/-- Finite executions. -/
inductive XSteps (x : XState) : List XEvent → XState → Prop
  | nil : XSteps x [] x
  | snoc {es : List XEvent} {x' x'' : XState} {e : XEvent} : XSteps x es x' → XStep x' e x'' → XSteps x (es ++ [e]) x''

/-- The executions of a pool of `n` workers under any schedule. -/
def XRun (n : Nat) (es : List XEvent) (x : XState) : Prop := XSteps (xinit n) es x

end Bridge.TP
