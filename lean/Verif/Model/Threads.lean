import Verif.Model.Heap
/-
Several threads that use the library at the same time.  The calls of one thread happen one after the other; between two calls of a
thread any number of calls of the other threads can happen.  A call is one step here: that calls of threads which share no pool and no
variable do not touch the same memory is part of what is proved (Props/Threads.lean).
-/
set_option autoImplicit false
namespace Bridge.Heap

/-- What a thread gets to know. -/
inductive Said
  /-- the content that `Serialize` returned, or the text of `dump` -/
  | bytes (b : Bytes)
  /-- `Size()` -/
  | size (n : Nat)
  /-- `GetDataType()` and the value of a leaf (object.h:249, 186-206, 306-325) -/
  | leaf (view : Bool) (dt : UInt8) (p : Payload)
  /-- `p == nullptr` -/
  | null (b : Bool)
  /-- the call threw -/
  | threw (e : Exn)
  /-- the call returned -/
  | done

/-- What belongs to one thread only: its raw pointers and iterators, and what it got to know, newest first. -/
structure ThreadLocal where
  ptrs : Nat → Option Ref := fun _ => none
  out : List Said := []

/-- The raw pointer of a call. -/
def Call.at (r : Option Ref) : Call → Call
  | .assign _ v => .assign r v
  | .insert _ x => .insert r x
  | .insertKey _ k x => .insertKey r k x
  | .clear a _ => .clear a r
  | .take d _ k => .take d r k
  | c => c

/-- What a thread can do.  `q`, `q'` are pointer variables of the thread. -/
inductive Instr
  /-- a call; if it goes through a raw pointer, this is the pointer variable `q` (and not the one in `c`) -/
  | call (c : Call) (q : Nat)
  /-- `Serialize<t>(std::move(x), p)`, and the content is kept -/
  | write (t : SeriType) (p x : Nat)
  /-- `d = Parse(content, po, p)` with the recursive parser, and the thread knows whether it threw -/
  | read (d p : Nat) (ref : Bool) (content : Bytes)
  /-- `q = x.get()` -/
  | get (q x : Nat)
  /-- `q = (*q')[n]` -/
  | index (q q' n : Nat)
  /-- `q = (*q')[key]` -/
  | key (q q' : Nat) (key : Bytes)
  /-- `q = q'->Begin()` -/
  | first (q q' : Nat) (array : Bool)
  /-- `q = ++q'` -/
  | next (q q' : Nat)
  /-- `q = q'.GetValue()` -/
  | value (q q' : Nat)
  /-- `q->dump(buf, 0)` with an empty `buf` -/
  | dump (q : Nat)
  /-- `q->Size()` -/
  | size (q : Nat) (array : Bool)
  /-- the type code and the value of the leaf `*q` -/
  | leaf (q : Nat)
  /-- `q == nullptr` -/
  | null (q : Nat)

/-- A pointer variable is assigned. -/
def ThreadLocal.setPtr (l : ThreadLocal) (q : Nat) (r : Option Ref) : ThreadLocal := { l with ptrs := upd l.ptrs q r }

/-- Something gets known. -/
def ThreadLocal.say (l : ThreadLocal) (s : Said) : ThreadLocal := { l with out := s :: l.out }

/-- One instruction. -/
def Instr.exec (w : Cfg) (fuel : Nat) (m : Mem) (l : ThreadLocal) : Instr → Res (Mem × ThreadLocal)
  | .call c q => do
    let m ← m.exec w fuel (c.at (l.ptrs q))
    pure (m, l)
  | .write t p x => do
    let (m, node) ← m.rootInsert p x
    match m.serializeRoot w fuel t node with
    | .ok b => pure (m, l.say (.bytes b))
    | .error (.exn e) => pure (m, l.say (.threw e))
    | .error e => .error e
  | .read d p ref content =>
    match m.parse w fuel d p ref content with
    | .ok m => .ok (m, l.say .done)
    | .error (.exn e) => .ok (m, l.say (.threw e))
    | .error e => .error e
  | .get q x => .ok (m, l.setPtr q (m.vars x))
  | .index q q' n => do
    let r ← m.index (l.ptrs q') n
    pure (m, l.setPtr q r)
  | .key q q' k => do
    let r ← m.lookup fuel (l.ptrs q') k
    pure (m, l.setPtr q r)
  | .first q q' a => do
    let r ← m.begin_ a (l.ptrs q')
    pure (m, l.setPtr q r)
  | .next q q' => do
    let r ← m.next (l.ptrs q')
    pure (m, l.setPtr q r)
  | .value q q' => do
    let e ← m.entry (l.ptrs q')
    pure (m, l.setPtr q e.2)
  | .dump q => do
    let b ← m.dump fuel (l.ptrs q) [] 0
    pure (m, l.say (.bytes b))
  | .size q a => do
    let n ← m.size a (l.ptrs q)
    pure (m, l.say (.size n))
  | .leaf q => do
    let (_, c) ← m.load (l.ptrs q)
    match c with
    | .data ref dt p => pure (m, l.say (.leaf ref dt p))
    | _ => .error (.ub .nullDeref)
  | .null q => .ok (m, l.say (.null (l.ptrs q).isNone))

/-- The instructions of one thread, with nothing in between. -/
def runAlone (w : Cfg) (fuel : Nat) : List Instr → Mem → ThreadLocal → Res (Mem × ThreadLocal)
  | [], m, l => .ok (m, l)
  | i :: is, m, l => do
    let (m, l) ← i.exec w fuel m l
    runAlone w fuel is m l

/-- A process with any number of threads. -/
structure Threads where
  mem : Mem := {}
  local_ : Nat → ThreadLocal := fun _ => {}
  /-- what each thread still has to do -/
  todo : Nat → List Instr

/-- Thread `t` does its next instruction. -/
inductive Threads.Step (w : Cfg) (fuel : Nat) (t : Nat) : Threads → Threads → Prop
  | mk (s : Threads) (i : Instr) (is : List Instr) (m : Mem) (l : ThreadLocal) : s.todo t = i :: is →
      i.exec w fuel s.mem (s.local_ t) = .ok (m, l) → Step w fuel t s ⟨m, upd s.local_ t l, upd s.todo t is⟩

/-- Any threads do any number of instructions, in any order. -/
inductive Threads.Runs (w : Cfg) (fuel : Nat) : Threads → Threads → Prop
  | refl (s : Threads) : Runs w fuel s s
  | step {s s' s'' : Threads} {t : Nat} : Runs w fuel s s' → Threads.Step w fuel t s' s'' → Runs w fuel s s''

/-- The pools that a call names. -/
def Call.poolArgs : Call → List Nat
  | .newPool p => [p]
  | .clearPool p => [p]
  | .destroyPool p => [p]
  | .mergePool p q => [p, q]
  | .movePool p q => [p, q]
  | .assignPool p q => [p, q]
  | .leaf _ p _ _ => [p]
  | .emptyLeaf _ p _ => [p]
  | .cont _ p _ => [p]
  | .serialize _ p _ => [p]
  | .parse _ p _ _ => [p]
  | _ => []

/-- The variables that a call names. -/
def Call.varArgs : Call → List Nat
  | .leaf d _ _ _ => [d]
  | .emptyLeaf d _ _ => [d]
  | .cont d _ _ => [d]
  | .move d x => [d, x]
  | .insert _ x => [x]
  | .insertKey _ _ x => [x]
  | .take d _ _ => [d]
  | .serialize _ _ x => [x]
  | .parse d _ _ _ => [d]
  | _ => []

/-- The pools that an instruction names. -/
def Instr.poolArgs : Instr → List Nat
  | .call c _ => c.poolArgs
  | .write _ p _ => [p]
  | .read _ p _ _ => [p]
  | _ => []

/-- The variables that an instruction names. -/
def Instr.varArgs : Instr → List Nat
  | .call c _ => c.varArgs
  | .write _ _ x => [x]
  | .read d _ _ _ => [d]
  | .get _ x => [x]
  | _ => []

/-- Does the call go through a raw pointer? -/
def Call.usesPtr : Call → Bool
  | .assign .. => true
  | .insert .. => true
  | .insertKey .. => true
  | .clear .. => true
  | .take .. => true
  | _ => false

/-- The pointer variables that an instruction goes through. -/
def Instr.reads : Instr → List Nat
  | .call c q => if c.usesPtr then [q] else []
  | .index _ q' _ => [q']
  | .key _ q' _ => [q']
  | .first _ q' _ => [q']
  | .next _ q' => [q']
  | .value _ q' => [q']
  | .dump q => [q]
  | .size q _ => [q]
  | .leaf q => [q]
  | .null q => [q]
  | _ => []

/-- The pointer variables that an instruction assigns. -/
def Instr.sets : Instr → List Nat
  | .get q _ => [q]
  | .index q _ _ => [q]
  | .key q _ _ => [q]
  | .first q _ _ => [q]
  | .next q _ => [q]
  | .value q _ => [q]
  | _ => []

/-- Calls, `Serialize` and `Parse` change the memory; looking something up, iterating, `dump`, `Size` and reading a leaf do not. -/
def Instr.changes : Instr → Bool
  | .call .. => true
  | .write .. => true
  | .read .. => true
  | _ => false

end Bridge.Heap
