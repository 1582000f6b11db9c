import Verif.Proof.Readers
import Verif.Props.Threads

/-
C74: documents that are complete can be read by any number of threads at the same time, while the threads go on making documents of
their own.
-/
set_option autoImplicit false
namespace Bridge.Heap
open Spec

/-- The setup names the variable. -/
def Named (init : List Instr) (x : Nat) : Prop := ∃ k ∈ init, x ∈ k.varArgs

/-- How the threads share the documents that `init` has made.  `shared t q` says that the pointer variable `q` of thread `t` is one that
points into them.  A thread may get such a pointer from a variable of the setup, and go on from there - elements, values, iterators -
but it does not change anything through it; and it does not use the pools of the setup, or the variables of the setup in any other way.
What the threads make themselves is in pools and variables of their own. -/
structure Sharing (init : List Instr) (prog : Nat → List Instr) (shared : Nat → Nat → Bool) : Prop where
  /-- no two threads use the same pool -/
  pools : ∀ t u, t ≠ u → ∀ i ∈ prog t, ∀ j ∈ prog u, ∀ p ∈ i.poolArgs, p ∉ j.poolArgs
  /-- no thread uses a pool of the setup -/
  setupPools : ∀ t, ∀ i ∈ prog t, ∀ j ∈ init, ∀ p ∈ i.poolArgs, p ∉ j.poolArgs
  /-- no two threads use the same variable, unless it is one of the setup -/
  vars : ∀ t u, t ≠ u → ∀ i ∈ prog t, ∀ j ∈ prog u, ∀ x ∈ i.varArgs, x ∈ j.varArgs → Named init x
  /-- a variable of the setup is only used for `q = x.get()` -/
  setupVars : ∀ t, ∀ i ∈ prog t, ∀ x ∈ i.varArgs, Named init x → ∃ q, i = .get q x
  /-- a pointer from a variable of the setup is a shared one, and no other is -/
  get : ∀ t q x, .get q x ∈ prog t → (shared t q = true ↔ Named init x)
  /-- what is reached from a shared pointer is a shared pointer, and nothing else is -/
  flow : ∀ t, ∀ i ∈ prog t, ∀ q ∈ i.sets, ∀ q' ∈ i.reads, shared t q = shared t q'
  /-- nothing is changed through a shared pointer -/
  changes : ∀ t, ∀ i ∈ prog t, i.changes = true → ∀ q ∈ i.reads, shared t q = false

open Classical in
/-- Who names what. -/
theorem Sharing.disc {init : List Instr} {prog : Nat → List Instr} {shared : Nat → Nat → Bool} (h : Sharing init prog shared) :
    ∃ sh : Thr.Share, Thr.Disc sh init prog shared ∧ ∀ x, Named init x → sh.var x = 0 := by
  let sh : Thr.Share := ⟨fun p => if e : ∃ t, ∃ i ∈ prog t, p ∈ i.poolArgs then e.choose + 1 else 0,
    fun x => if Named init x then 0 else if e : ∃ t, ∃ i ∈ prog t, x ∈ i.varArgs then e.choose + 1 else 0⟩
  have hn : ∀ x, Named init x → sh.var x = 0 := fun x hx => by simp only [sh, if_pos hx]
  have hpool : ∀ t, ∀ i ∈ prog t, ∀ p ∈ i.poolArgs, sh.pool p = t + 1 := by
    intro t i hi p hp
    have e : ∃ t, ∃ i ∈ prog t, p ∈ i.poolArgs := ⟨t, i, hi, hp⟩
    simp only [sh, dif_pos e]
    obtain ⟨j, hj, hpj⟩ := e.choose_spec
    rw [show e.choose = t from Classical.byContradiction fun hne => h.pools _ _ hne j hj i hi p hpj hp]
  have hvar : ∀ t, ∀ i ∈ prog t, ∀ x ∈ i.varArgs, ¬ Named init x → sh.var x = t + 1 := by
    intro t i hi x hx hno
    have e : ∃ t, ∃ i ∈ prog t, x ∈ i.varArgs := ⟨t, i, hi, hx⟩
    simp only [sh, if_neg hno, dif_pos e]
    obtain ⟨j, hj, hxj⟩ := e.choose_spec
    rw [show e.choose = t from Classical.byContradiction fun hne => hno (h.vars _ _ hne j hj i hi x hxj hx)]
  refine ⟨sh, ⟨fun i hi => ⟨fun p hp => ?_, fun x hx => hn x ⟨i, hi, hx⟩⟩, hpool, fun t i hi x hx => ?_, fun t q x hi => ?_, h.changes, h.flow⟩, hn⟩
  · refine dif_neg fun e => ?_
    obtain ⟨t, j, hj, hpj⟩ := e
    exact h.setupPools t j hj i hi p hpj hp
  · by_cases hx' : Named init x
    · exact .inr ⟨hn x hx', h.setupVars t i hi x hx hx'⟩
    · exact .inl (hvar t i hi x hx hx')
  · rw [h.get t q x hi]
    constructor
    · exact hn x
    · intro h0
      refine Classical.byContradiction fun hno => ?_
      have := hvar t _ hi x (by simp [Instr.varArgs]) hno
      omega

/-- The threads when the setup is complete. -/
def Threads.after (m0 : Mem) (prog : Nat → List Instr) : Threads := { mem := m0, todo := prog }

section
variable (w : Cfg) (fuel : Nat) (init : List Instr) (prog : Nat → List Instr) (shared : Nat → Nat → Bool) (hsh : Sharing init prog shared)
  (m0 : Mem) (l0 : ThreadLocal) (h0 : runAlone w fuel init {} {} = .ok (m0, l0)) (s : Threads)
  (hs : Threads.Runs w fuel (Threads.after m0 prog) s)
include hsh h0 hs

/-- C74. At every moment of every interleaving, what a thread has got to know - from the shared documents, and from its own - is what the
same instructions give when no other thread is there. -/
theorem C74_as_if_alone (t : Nat) :
    ∃ done m l, prog t = done ++ s.todo t ∧ runAlone w fuel done m0 {} = .ok (m, l) ∧ (s.local_ t).out = l.out := by
  obtain ⟨sh, hd, _⟩ := hsh.disc
  obtain ⟨side, h⟩ := Thr.every_runs hd h0 hs
  obtain ⟨f, side2, done, m, l, ho⟩ := h.thread t
  exact ⟨done, m, l, ho.prog, ho.alone, ho.own.out.symm⟩

/-- C74. No thread runs into undefined behaviour, a failed check or an endless loop because of another one. -/
theorem C74_own_faults_only (t : Nat) (i : Instr) (is : List Instr) (hi : s.todo t = i :: is) (e : Err)
    (he : i.exec w fuel s.mem (s.local_ t) = .error e) :
    ∃ done m l, prog t = done ++ i :: is ∧ runAlone w fuel done m0 {} = .ok (m, l) ∧ i.exec w fuel m l = .error e := by
  obtain ⟨sh, hd, _⟩ := hsh.disc
  obtain ⟨side, h⟩ := Thr.every_runs hd h0 hs
  obtain ⟨f, side2, done, m, l, ho⟩ := h.thread t
  have hm : i ∈ prog t := by rw [ho.prog, hi]; simp
  have hb := Thr.one_instr hd ho hm
  refine ⟨done, m, l, by rw [ho.prog, hi], ho.alone, ?_⟩
  rw [he] at hb
  revert hb
  generalize i.exec w fuel m l = y
  intro hb
  cases hb
  rfl

/-- C74. If every thread gets to the end of its program when no other thread is there, then no thread is ever stuck, and a thread that has
finished has got to know exactly what it gets to know alone. -/
theorem C74_all_finish (result : Nat → Mem × ThreadLocal) (hok : ∀ t, runAlone w fuel (prog t) m0 {} = .ok (result t)) (t : Nat) :
    (s.todo t = [] ∧ (s.local_ t).out = (result t).2.out) ∨ ∃ s', Threads.Step w fuel t s s' := by
  cases hd : s.todo t with
  | nil =>
    obtain ⟨done, m, l, h1, h2, h3⟩ := C74_as_if_alone w fuel init prog shared hsh m0 l0 h0 s hs t
    rw [hd, List.append_nil] at h1
    have := hok t
    rw [h1, h2] at this
    injection this with this
    exact .inl ⟨rfl, by rw [h3, ← this]⟩
  | cons i is =>
    refine .inr ?_
    cases hx : i.exec w fuel s.mem (s.local_ t) with
    | error e =>
      obtain ⟨done, m, l, h1, h2, h3⟩ := C74_own_faults_only w fuel init prog shared hsh m0 l0 h0 s hs t i is hd e hx
      have := hok t
      rw [h1, Thr.runAlone_append, h2] at this
      change (do let (m, l) ← i.exec w fuel m l; runAlone w fuel is m l) = _ at this
      rw [h3] at this
      cases this
    | ok q => exact ⟨_, .mk s i is q.1 q.2 hd hx⟩

/-- C74. The shared documents stay as they are: every object that was there when the threads started is still what it was, at the same
address, and every variable of the setup still refers to the same object. -/
theorem C74_documents_stay : (∀ r, r < m0.top → s.mem.load (some r) = m0.load (some r)) ∧ ∀ x, Named init x → s.mem.vars x = m0.vars x := by
  obtain ⟨sh, hd, hn⟩ := hsh.disc
  obtain ⟨side, h⟩ := Thr.every_runs hd h0 hs
  refine ⟨h.load, fun x hx => ?_⟩
  have := h.base.vars x (hn x hx)
  rw [this]
  exact (Thr.map_id' _).symm

/-- C74. Whoever prints a shared document, and whenever: the text is the one it had when the threads started. -/
theorem C74_same_text (x : Nat) (hx : Named init x) (buf : Bytes) (level : Nat) :
    s.mem.dump fuel (s.mem.vars x) buf level = m0.dump fuel (m0.vars x) buf level := by
  obtain ⟨sh, hd, hn⟩ := hsh.disc
  obtain ⟨side, h⟩ := Thr.every_runs hd h0 hs
  exact (Thr.dump_rel h.base fuel).1 _ _ _ _ (Thr.rel_vars h.base (hn x hx))
end

/-- C74. Two interleavings: a thread that has done the same number of instructions knows the same. -/
theorem C74_schedule_irrelevant (w : Cfg) (fuel : Nat) (init : List Instr) (prog : Nat → List Instr) (shared : Nat → Nat → Bool)
    (hsh : Sharing init prog shared) (m0 : Mem) (l0 : ThreadLocal) (h0 : runAlone w fuel init {} {} = .ok (m0, l0)) (s s' : Threads)
    (hs : Threads.Runs w fuel (Threads.after m0 prog) s) (hs' : Threads.Runs w fuel (Threads.after m0 prog) s') (t : Nat)
    (h : s.todo t = s'.todo t) : (s.local_ t).out = (s'.local_ t).out := by
  obtain ⟨d, m, l, h1, h2, h3⟩ := C74_as_if_alone w fuel init prog shared hsh m0 l0 h0 s hs t
  obtain ⟨d', m', l', h1', h2', h3'⟩ := C74_as_if_alone w fuel init prog shared hsh m0 l0 h0 s' hs' t
  have e : d = d' := by
    rw [h1', h] at h1
    exact (List.append_cancel_right h1).symm
  subst e
  rw [h2] at h2'
  cases h2'
  rw [h3, h3']

/-! ### examples -/

/-- The setup parses a content, and makes a map with an array of one number in it. -/
def sharedSetup : List Instr :=
  [.call (.newPool 0) 0, .read 0 0 false seven, .call (.cont 1 0 (.map false)) 0, .call (.cont 2 0 .array) 0, .get 0 2, .call (.leaf 3 0 false (.int32 5)) 0,
    .call (.insert none 3) 0, .get 0 1, .call (.insertKey none ⟨lit "k", none⟩ 2) 0]

/-- Thread 0 looks the array up, reads the number in it, and prints the map; thread 1 walks over the parsed array while it makes a document
of its own, in its own pool, and writes it; thread 2 prints both documents; thread 3 reads through a null pointer.  Pointer variables up
to 4 point into the shared documents. -/
def readers : Nat → List Instr
  | 0 => [.get 0 1, .key 1 0 (lit "k"), .index 2 1 0, .leaf 2, .dump 0]
  | 1 => [.call (.newPool 1) 0, .get 0 0, .call (.cont 10 1 .array) 0, .size 0 true, .get 5 10, .index 1 0 0, .call (.leaf 11 1 false (.int32 7)) 0,
      .leaf 1, .call (.insert none 11) 5, .size 5 true, .write .normal 1 10]
  | 2 => [.get 0 1, .dump 0, .get 1 0, .dump 1]
  | 3 => [.size 6 true]
  | _ => []

def readersShared (_ q : Nat) : Bool := decide (q < 5)

theorem readers_named (x : Nat) : Named sharedSetup x ↔ x < 4 := by
  constructor
  · intro h
    obtain ⟨k, hk, hx⟩ := h
    have : ∀ k ∈ sharedSetup, ∀ x ∈ k.varArgs, x < 4 := by decide
    exact this k hk x hx
  · intro h
    have : ∀ x < 4, ∃ k ∈ sharedSetup, x ∈ k.varArgs := by decide
    exact this x h

/-- The hypothesis of the theorems above is met. -/
theorem readers_sharing : Sharing sharedSetup readers readersShared := by
  have key : ∀ t, ∀ i ∈ readers t, (∀ p ∈ i.poolArgs, p = 1 ∧ t = 1) ∧ (∀ x ∈ i.varArgs, (x < 4 ∧ i.poolArgs = [] ∧ i.sets ≠ []) ∨ (4 ≤ x ∧ t = 1)) ∧
      (∀ q ∈ i.sets, ∀ x ∈ i.varArgs, (q < 5 ↔ x < 4)) ∧
      (∀ q ∈ i.sets, ∀ q' ∈ i.reads, readersShared t q = readersShared t q') ∧
      (i.changes = true → ∀ q ∈ i.reads, readersShared t q = false) := by
    intro t
    match t with
    | 0 => decide
    | 1 => decide
    | 2 => decide
    | 3 => decide
    | n + 4 => intro i hi; cases hi
  have hinit : ∀ j ∈ sharedSetup, ∀ p ∈ j.poolArgs, p = 0 := by decide
  refine ⟨fun t u hne i hi j hj p hp hq => ?_, fun t i hi j hj p hp hq => ?_, fun t u hne i hi j hj x hx hy => ?_, fun t i hi x hx hn => ?_,
    fun t q x hi => ?_, fun t i hi => (key t i hi).2.2.2.1, fun t i hi => (key t i hi).2.2.2.2⟩
  · have h1 := ((key t i hi).1 p hp).2
    have h2 := ((key u j hj).1 p hq).2
    omega
  · have h1 := ((key t i hi).1 p hp).1
    have h2 := hinit j hj p hq
    omega
  · rw [readers_named]
    have h1 := (key t i hi).2.1 x hx
    have h2 := (key u j hj).2.1 x hy
    rcases h1 with h1 | h1
    · exact h1.1
    · rcases h2 with h2 | h2
      · exact h2.1
      · omega
  · rw [readers_named] at hn
    rcases (key t i hi).2.1 x hx with h | h
    · cases i with
      | get q y =>
        simp only [Instr.varArgs, List.mem_singleton] at hx
        exact ⟨q, by rw [hx]⟩
      | _ => first | exact absurd rfl h.2.2 | cases hx
    · omega
  · rw [readers_named]
    have := (key t _ hi).2.2.1 q (by simp [Instr.sets]) x (by simp [Instr.varArgs])
    simpa [readersShared] using this

/-- What the threads 0, 1 and 2 have written and printed, and how many instructions they have left. -/
def readersOuts (ts : List Nat) : Option (List Bytes × List Bytes × List Bytes × Nat) :=
  ((runAlone Cfg.x86 20 sharedSetup {} {}).bind fun q => Threads.play Cfg.x86 20 ts (Threads.after q.1 readers)).toOption.map fun s =>
    ((s.local_ 0).out.filterMap Said.bytes?, (s.local_ 1).out.filterMap Said.bytes?, (s.local_ 2).out.filterMap Said.bytes?,
      (s.todo 0).length + (s.todo 1).length + (s.todo 2).length)

/-- In turn, and one after the other: the same contents and texts in both cases. -/
example : readersOuts ((List.range 11).flatMap fun _ => [1, 0, 2]) =
      some ([lit "Map[ 1 ]\n < k > : \n  Array[ 1 ]\n   Data[ int32 ]"], [seven],
        [lit "Array[ 1 ]\n Data[ int32 ]", lit "Map[ 1 ]\n < k > : \n  Array[ 1 ]\n   Data[ int32 ]"], 0) := by
  set_option synthInstance.maxSize 1000 in
  decide +kernel

example : readersOuts (List.replicate 9 2 ++ List.replicate 11 1 ++ List.replicate 5 0) =
      some ([lit "Map[ 1 ]\n < k > : \n  Array[ 1 ]\n   Data[ int32 ]"], [seven],
        [lit "Array[ 1 ]\n Data[ int32 ]", lit "Map[ 1 ]\n < k > : \n  Array[ 1 ]\n   Data[ int32 ]"], 0) := by
  set_option synthInstance.maxSize 1000 in
  decide +kernel

/-- C74. One thread that changes a shared document is enough: the setup makes an array, thread 0 asks for its size, and thread 1 inserts into
it.  The size depends on the order. -/
theorem C74_writer_matters :
    ∃ (init : List Instr) (prog : Nat → List Instr) (m0 : Mem) (l0 : ThreadLocal) (s s' : Threads), runAlone Cfg.x86 9 init {} {} = .ok (m0, l0) ∧
      (∀ t u, t ≠ u → ∀ i ∈ prog t, ∀ j ∈ prog u, ∀ p ∈ i.poolArgs, p ∉ j.poolArgs) ∧
      (∀ t, ∀ i ∈ prog t, ∀ j ∈ init, ∀ p ∈ i.poolArgs, p ∉ j.poolArgs) ∧
      (∀ t, ∀ i ∈ prog t, ∀ x ∈ i.varArgs, Named init x → ∃ q, i = .get q x) ∧
      Threads.Runs Cfg.x86 9 (Threads.after m0 prog) s ∧ Threads.Runs Cfg.x86 9 (Threads.after m0 prog) s' ∧
      s.todo 0 = s'.todo 0 ∧ (s.local_ 0).out ≠ (s'.local_ 0).out := by
  let init : List Instr := [.call (.newPool 0) 0, .call (.cont 0 0 .array) 0]
  let prog : Nat → List Instr := fun t => match t with
    | 0 => [.get 0 0, .size 0 true]
    | 1 => [.call (.newPool 1) 0, .call (.leaf 1 1 false (.int32 5)) 0, .get 0 0, .call (.insert none 1) 0]
    | _ => []
  have key : ∀ t, ∀ i ∈ prog t, (∀ p ∈ i.poolArgs, p = 1 ∧ t = 1) ∧ ∀ x ∈ i.varArgs, x = 1 ∨ (x = 0 ∧ i.sets ≠ []) := by
    intro t
    match t with
    | 0 => decide
    | 1 => decide
    | n + 2 => intro i hi; cases hi
  refine ⟨init, prog, _, _, _, _, rfl, fun t u hne i hi j hj p hp hq => ?_, fun t i hi j hj p hp hq => ?_, fun t i hi x hx hn => ?_,
    Threads.play_runs [0, 0, 1, 1, 1, 1] (.refl _) rfl, Threads.play_runs [1, 1, 1, 1, 0, 0] (.refl _) rfl, rfl, ?_⟩
  · have h1 := ((key t i hi).1 p hp).2
    have h2 := ((key u j hj).1 p hq).2
    omega
  · have h1 := ((key t i hi).1 p hp).1
    have h2 : ∀ j ∈ init, ∀ p ∈ j.poolArgs, p = 0 := by decide
    have h3 := h2 j hj p hq
    omega
  · obtain ⟨k, hk, hxk⟩ := hn
    have h2 : ∀ k ∈ init, ∀ x ∈ k.varArgs, x = 0 := by decide
    have h3 := h2 k hk x hxk
    rcases (key t i hi).2 x hx with h | ⟨_, h⟩
    · omega
    · cases i with
      | get q y =>
        simp only [Instr.varArgs, List.mem_singleton] at hx
        exact ⟨q, by rw [hx]⟩
      | _ => first | exact absurd rfl h | cases hx
  · intro h
    injection h with h _
    injection h with h
    cases h

end Bridge.Heap
