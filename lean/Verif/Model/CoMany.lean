import Verif.Model.Threads
import Verif.Model.CoHeap
/-
Any number of threads in one memory, each of which can have a parallel `Parse` under way: the coroutines of all these calls, access by
access, and the other calls of the threads, in any order.  (The coroutines run on the workers of the one thread pool of the process; which
worker makes which access does not matter here.  C58, C73 and C80 are about the thread pool.)
-/
set_option autoImplicit false
namespace Bridge.Heap

/-- What a thread can do: what it can do in Model/Threads.lean, or a `Parse` with the parallel parser. -/
inductive TaskInstr
  | plain (i : Instr)
  | coParse (c : CoCall)

/-- The pools that an instruction names. -/
def TaskInstr.poolArgs : TaskInstr → List Nat
  | .plain i => i.poolArgs
  | .coParse c => [c.p]

/-- A process. -/
structure Procs where
  mem : Mem
  local_ : Nat → ThreadLocal := fun _ => {}
  /-- what each thread still has to do -/
  todo : Nat → List TaskInstr
  /-- the parallel `Parse` in which a thread is, and what its coroutines still have to do -/
  under : Nat → Option (CoCall × Prog (Nat × Ref × Nat)) := fun _ => none

/-- Something happens in thread `t`, or in a coroutine of its `Parse`. -/
inductive Procs.Step (w : Cfg) (fuel : Nat) (t : Nat) : Procs → Procs → Prop
  /-- an instruction of Model/Threads.lean -/
  | plain (s : Procs) (i : Instr) (is : List TaskInstr) (m : Mem) (l : ThreadLocal) : s.under t = none → s.todo t = .plain i :: is →
      i.exec w fuel s.mem (s.local_ t) = .ok (m, l) →
      Step w fuel t s { s with mem := m, local_ := upd s.local_ t l, todo := upd s.todo t is }
  /-- object.h:1728-1754 the constructor of the scheduler throws -/
  | header (s : Procs) (c : CoCall) (is : List TaskInstr) (e : Exn) : s.under t = none → s.todo t = .coParse c :: is →
      initFromContent w c.content = .error (.exn e) →
      Step w fuel t s { s with local_ := upd s.local_ t ((s.local_ t).say (.threw e)), todo := upd s.todo t is }
  /-- object.h:1799-1804 the root is not split: the recursive parser -/
  | whole (s : Procs) (c : CoCall) (is : List TaskInstr) (sc : Sched) (m : Mem) (l : ThreadLocal) : s.under t = none →
      s.todo t = .coParse c :: is → initFromContent w c.content = .ok sc → sc.split = false →
      (Instr.read c.d c.p c.ref c.content).exec w fuel s.mem (s.local_ t) = .ok (m, l) →
      Step w fuel t s { s with mem := m, local_ := upd s.local_ t l, todo := upd s.todo t is }
  /-- object.h:1805-1810 the coroutine `ParseMap` is started, and the thread waits for it in `syncAwait` -/
  | start (s : Procs) (c : CoCall) (is : List TaskInstr) (sc : Sched) : s.under t = none → s.todo t = .coParse c :: is →
      initFromContent w c.content = .ok sc → sc.split = true → c.workers ≠ 0 →
      Step w fuel t s
        { s with under := upd s.under t (some (c, Co.map w (View.whole c.content) sc.sm sc.si c.ref fuel metaSize)), todo := upd s.todo t is }
  /-- one access of one of the coroutines -/
  | access (s : Procs) (c : CoCall) (k k' : Prog (Nat × Ref × Nat)) (u : Bool) (m : Mem) : s.under t = some (c, k) →
      Heap.Step u s.mem k m k' → Step w fuel t s { s with mem := m, under := upd s.under t (some (c, k')) }
  /-- object.h:1811-1818 the thread takes the result -/
  | returns (s : Procs) (c : CoCall) (off : Nat) (root : Ref) (q : Nat) (m : Mem) : s.under t = some (c, .ret (.ok (off, root, q))) →
      s.mem.receive c.d c.p root q = .ok m →
      Step w fuel t s { s with mem := m, local_ := upd s.local_ t ((s.local_ t).say .done), under := upd s.under t none }
  /-- `syncAwait` throws the exception of the coroutines.  (What they have made is destroyed; nothing refers to it, and the model leaves it
  where it is.) -/
  | throws (s : Procs) (c : CoCall) (e : Exn) : s.under t = some (c, .ret (.error (.exn e))) →
      Step w fuel t s { s with local_ := upd s.local_ t ((s.local_ t).say (.threw e)), under := upd s.under t none }

/-- Any number of things happen, in any order. -/
inductive Procs.Runs (w : Cfg) (fuel : Nat) : Procs → Procs → Prop
  | refl (s : Procs) : Runs w fuel s s
  | step {s s' s'' : Procs} {t : Nat} : Runs w fuel s s' → Procs.Step w fuel t s' s'' → Runs w fuel s s''

/-- The beginning.  The numbers below `b` stand for the pools of the program, the others for those that are variables of coroutines. -/
def Procs.init (b : Nat) (prog : Nat → List TaskInstr) : Procs := { mem := { nextPool := b }, todo := prog }

end Bridge.Heap
