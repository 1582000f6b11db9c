import Verif.Proof.Threads
import Verif.Props.HeapParse
/-
C72: threads that use pools and variables of their own do not notice each other.
-/
set_option autoImplicit false
namespace Bridge.Heap
open Spec

/-- No two threads name the same pool or the same variable.  (Raw pointers and iterators are local to a thread anyway.) -/
def Separate (prog : Nat → List Instr) : Prop :=
  ∀ t u, t ≠ u → ∀ i ∈ prog t, ∀ j ∈ prog u, (∀ p ∈ i.poolArgs, p ∉ j.poolArgs) ∧ ∀ x ∈ i.varArgs, x ∉ j.varArgs

/-- The threads before they start. -/
def Threads.start (prog : Nat → List Instr) : Threads := { todo := prog }

open Classical in
/-- Who names what. -/
theorem Separate.share {prog : Nat → List Instr} (h : Separate prog) :
    ∃ sh : Thr.Share, ∀ t, ∀ i ∈ prog t, (∀ p ∈ i.poolArgs, sh.pool p = t) ∧ ∀ x ∈ i.varArgs, sh.var x = t := by
  refine ⟨⟨fun p => if e : ∃ t, ∃ i ∈ prog t, p ∈ i.poolArgs then e.choose else 0,
    fun x => if e : ∃ t, ∃ i ∈ prog t, x ∈ i.varArgs then e.choose else 0⟩, fun t i hi => ⟨fun p hp => ?_, fun x hx => ?_⟩⟩
  · have e : ∃ t, ∃ i ∈ prog t, p ∈ i.poolArgs := ⟨t, i, hi, hp⟩
    simp only [dif_pos e]
    obtain ⟨j, hj, hpj⟩ := e.choose_spec
    exact Classical.byContradiction fun hne => (h _ _ hne j hj i hi).1 p hpj hp
  · have e : ∃ t, ∃ i ∈ prog t, x ∈ i.varArgs := ⟨t, i, hi, hx⟩
    simp only [dif_pos e]
    obtain ⟨j, hj, hxj⟩ := e.choose_spec
    exact Classical.byContradiction fun hne => (h _ _ hne j hj i hi).2 x hxj hx

/-- C72. At every moment of every interleaving, what a thread has got to know - the contents it has written, the texts, sizes and values it
has read, the exceptions it has caught - is what the same instructions give when the thread is alone. -/
theorem C72_as_if_alone (w : Cfg) (fuel : Nat) (prog : Nat → List Instr) (hsep : Separate prog) (s : Threads)
    (hs : Threads.Runs w fuel (Threads.start prog) s) (t : Nat) :
    ∃ done m l, prog t = done ++ s.todo t ∧ runAlone w fuel done {} {} = .ok (m, l) ∧ (s.local_ t).out = l.out := by
  obtain ⟨sh, hu⟩ := hsep.share
  obtain ⟨side, h⟩ := Thr.all_runs hu hs
  obtain ⟨f, done, m, l, h1, h2, _, h4⟩ := h.thread t
  exact ⟨done, m, l, h1, h2, h4.out.symm⟩

/-- C72. Wherever the others have got to: what the thread does from there on gives in the end exactly what its whole program gives when it
is alone - the same outputs, or the same fault. -/
theorem C72_rest (w : Cfg) (fuel : Nat) (prog : Nat → List Instr) (hsep : Separate prog) (s : Threads)
    (hs : Threads.Runs w fuel (Threads.start prog) s) (t : Nat) :
    (runAlone w fuel (s.todo t) s.mem (s.local_ t)).map (fun q => q.2.out) = (runAlone w fuel (prog t) {} {}).map fun q => q.2.out := by
  obtain ⟨sh, hu⟩ := hsep.share
  obtain ⟨side, h⟩ := Thr.all_runs hu hs
  obtain ⟨f, done, m, l, h1, h2, h3, h4⟩ := h.thread t
  have hb := Thr.run_rel w fuel (s.todo t) h3 h4 (fun i hi => hu t i (by rw [h1]; simp [hi]))
  rw [h1, Thr.runAlone_append, h2]
  change _ = (runAlone w fuel (s.todo t) m l).map _
  revert hb
  generalize runAlone w fuel (s.todo t) s.mem (s.local_ t) = x
  generalize runAlone w fuel (s.todo t) m l = y
  intro hb
  cases hb with
  | ok hab =>
    obtain ⟨_, _, hl⟩ := hab
    simp only [Except.map]
    rw [hl.out]
  | error => rfl

/-- C72. No thread runs into undefined behaviour, a failed check or an endless loop because of another one: the instruction at which that
happens is one at which it happens to the thread alone. -/
theorem C72_own_faults_only (w : Cfg) (fuel : Nat) (prog : Nat → List Instr) (hsep : Separate prog) (s : Threads)
    (hs : Threads.Runs w fuel (Threads.start prog) s) (t : Nat) (i : Instr) (is : List Instr) (hi : s.todo t = i :: is) (e : Err)
    (he : i.exec w fuel s.mem (s.local_ t) = .error e) :
    ∃ done m l, prog t = done ++ i :: is ∧ runAlone w fuel done {} {} = .ok (m, l) ∧ i.exec w fuel m l = .error e := by
  obtain ⟨sh, hu⟩ := hsep.share
  obtain ⟨side, h⟩ := Thr.all_runs hu hs
  obtain ⟨f, done, m, l, h1, h2, h3, h4⟩ := h.thread t
  have hm : i ∈ prog t := by rw [h1, hi]; simp
  have hb := Thr.instr_rel w fuel h3 h4 i (hu t i hm).1 (hu t i hm).2
  refine ⟨done, m, l, by rw [h1, hi], h2, ?_⟩
  rw [he] at hb
  revert hb
  generalize i.exec w fuel m l = y
  intro hb
  cases hb
  rfl

/-- C72. If every thread alone gets to the end of its program, then no thread is ever stuck, and a thread that has finished has got to know
exactly what it gets to know alone - whatever the order in which the threads were run. -/
theorem C72_all_finish (w : Cfg) (fuel : Nat) (prog : Nat → List Instr) (hsep : Separate prog) (result : Nat → Mem × ThreadLocal)
    (hok : ∀ t, runAlone w fuel (prog t) {} {} = .ok (result t)) (s : Threads) (hs : Threads.Runs w fuel (Threads.start prog) s) (t : Nat) :
    (s.todo t = [] ∧ (s.local_ t).out = (result t).2.out) ∨ ∃ s', Threads.Step w fuel t s s' := by
  have hr := C72_rest w fuel prog hsep s hs t
  rw [hok t] at hr
  cases hd : s.todo t with
  | nil =>
    rw [hd] at hr
    exact .inl ⟨rfl, Except.ok.inj hr⟩
  | cons i is =>
    rw [hd] at hr
    refine .inr ?_
    cases hx : i.exec w fuel s.mem (s.local_ t) with
    | error e =>
      simp only [runAlone] at hr
      rw [hx] at hr
      cases hr
    | ok q => exact ⟨_, .mk s i is q.1 q.2 hd hx⟩

/-- C72. Two interleavings of the same programs: a thread that has done the same number of instructions knows the same. -/
theorem C72_schedule_irrelevant (w : Cfg) (fuel : Nat) (prog : Nat → List Instr) (hsep : Separate prog) (s s' : Threads)
    (hs : Threads.Runs w fuel (Threads.start prog) s) (hs' : Threads.Runs w fuel (Threads.start prog) s') (t : Nat) (h : s.todo t = s'.todo t) :
    (s.local_ t).out = (s'.local_ t).out := by
  obtain ⟨d, m, l, h1, h2, h3⟩ := C72_as_if_alone w fuel prog hsep s hs t
  obtain ⟨d', m', l', h1', h2', h3'⟩ := C72_as_if_alone w fuel prog hsep s' hs' t
  have e : d = d' := by
    rw [h1', h] at h1
    exact (List.append_cancel_right h1).symm
  subst e
  rw [h2] at h2'
  cases h2'
  rw [h3, h3']

/-- C72. A step of one thread changes no object that lies in a pool of another thread. -/
theorem C72_others_untouched (w : Cfg) (fuel : Nat) (prog : Nat → List Instr) (hsep : Separate prog) (s s' : Threads)
    (hs : Threads.Runs w fuel (Threads.start prog) s) (t u : Nat) (hne : u ≠ t) (hstep : Threads.Step w fuel t s s')
    (i : Instr) (hi : i ∈ prog u) (p : Nat) (hp : p ∈ i.poolArgs) (r : Ref) (hr : s.mem.owner r = some p) :
    s'.mem.load (some r) = s.mem.load (some r) := by
  obtain ⟨sh, hu⟩ := hsep.share
  obtain ⟨side, h⟩ := Thr.all_runs hu hs
  cases hstep with
  | mk j is m l htodo hexec =>
    obtain ⟨f, done, m2, l2, hd, _, hrel, hl⟩ := h.thread t
    obtain ⟨_, _, _, _, _, _, hrelu, _⟩ := h.thread u
    have hj : j ∈ prog t := by rw [hd, htodo]; simp
    have hb := Thr.instr_rel w fuel hrel hl j (hu t j hj).1 (hu t j hj).2
    rw [hexec] at hb
    revert hb
    generalize j.exec w fuel m2 l2 = y
    intro hb
    cases hb with
    | ok hab =>
      obtain ⟨w', h1, _⟩ := hab
      have hm := hrelu.ownerIn r p hr ((hu u i hi).1 p hp)
      have hside : side r ≠ t := fun e => hne (hm.2.symm.trans e)
      have hc := h1.next.cells r hm.1 hside
      have ho := h1.next.owner r hm.1 hside
      simp only [Mem.load]
      dsimp only at hc ho
      rw [hc, ho]

/-! ### examples -/

/-- The threads in a given order. -/
def Threads.play (w : Cfg) (fuel : Nat) : List Nat → Threads → Res Threads
  | [], s => .ok s
  | t :: ts, s =>
    match s.todo t with
    | [] => Threads.play w fuel ts s
    | i :: is => do
      let (m, l) ← i.exec w fuel s.mem (s.local_ t)
      Threads.play w fuel ts ⟨m, upd s.local_ t l, upd s.todo t is⟩

theorem Threads.play_runs {w : Cfg} {fuel : Nat} (ts : List Nat) : ∀ {s0 s s' : Threads}, Threads.Runs w fuel s0 s →
    Threads.play w fuel ts s = .ok s' → Threads.Runs w fuel s0 s' := by
  induction ts with
  | nil => intro s0 s s' h e; cases e; exact h
  | cons t ts ih =>
    intro s0 s s' h e
    rw [Threads.play] at e
    split at e
    · exact ih h e
    · rename_i i is hd
      cases hx : i.exec w fuel s.mem (s.local_ t) with
      | error e' => rw [hx] at e; cases e
      | ok q =>
        rw [hx] at e
        exact ih (.step h (.mk s i is q.1 q.2 hd hx)) e

/-- Thread 0 makes an array, inserts a value through a raw pointer, writes the array to a content; thread 1 parses a content, appends to
the array in it, prints it, frees its pool and parses again; thread 2 does nothing that is allowed: it reads through a null pointer. -/
def threeThreads : Nat → List Instr
  | 0 => [.call (.newPool 0) 0, .call (.cont 0 0 .array) 0, .get 0 0, .call (.leaf 1 0 false (.int32 7)) 0, .call (.insert none 1) 0, .size 0 true,
      .index 1 0 0, .leaf 1, .write .normal 0 0]
  | 1 => [.call (.newPool 1) 0, .read 2 1 false seven, .get 0 2, .call (.leaf 3 1 false (.int32 5)) 0, .call (.insert none 3) 0, .dump 0,
      .call (.clearPool 1) 0, .read 2 1 true seven, .read 2 1 false [1, 2, 3], .get 0 2, .dump 0]
  | 2 => [.null 5, .size 5 true]
  | _ => []

/-- The hypothesis of the theorems above is met. -/
theorem threeThreads_separate : Separate threeThreads := by
  have key : ∀ t, ∀ i ∈ threeThreads t, (∀ p ∈ i.poolArgs, p = t) ∧ ∀ x ∈ i.varArgs, x / 2 = t := by
    intro t
    match t with
    | 0 => decide
    | 1 => decide
    | 2 => decide
    | n + 3 => intro i hi; cases hi
  intro t u hne i hi j hj
  exact ⟨fun p hp hq => hne (((key t i hi).1 p hp).symm.trans ((key u j hj).1 p hq)),
    fun x hx hy => hne (((key t i hi).2 x hx).symm.trans ((key u j hj).2 x hy))⟩

/-- The bytes among what a thread knows. -/
def Said.bytes? : Said → Option Bytes
  | .bytes b => some b
  | _ => none

/-- What threads 0 and 1 have written and printed after the instructions `ts`, and how many they have left. -/
def Threads.outs (prog : Nat → List Instr) (ts : List Nat) : Option (List Bytes × List Bytes × Nat × Nat) :=
  (Threads.play Cfg.x86 20 ts (Threads.start prog)).toOption.map fun s =>
    ((s.local_ 0).out.filterMap Said.bytes?, (s.local_ 1).out.filterMap Said.bytes?, (s.todo 0).length, (s.todo 1).length)

/-- The threads one instruction at a time in turn, and one after the other: the same contents and texts in both cases. -/
example : Threads.outs threeThreads ((List.range 11).flatMap fun _ => [1, 0]) = Threads.outs threeThreads (List.replicate 9 0 ++ List.replicate 11 1) ∧
    Threads.outs threeThreads ((List.range 11).flatMap fun _ => [1, 0]) =
      some ([seven], [lit "Array[ 1 ]\n Data[ int32 ]", lit "Array[ 2 ]\n Data[ int32 ]\n Data[ int32 ]"], 0, 0) := by
  decide +kernel

/-- An interleaving exists, so the theorems say something about it. -/
example : ∃ s, Threads.Runs Cfg.x86 20 (Threads.start threeThreads) s ∧ s.todo 0 = [] ∧ s.todo 1 = [] ∧ s.todo 2 = [.size 5 true] ∧
    (s.local_ 0).out.length = 3 ∧ (s.local_ 1).out.length = 5 ∧
    (Instr.exec Cfg.x86 20 s.mem (s.local_ 2) (.size 5 true)).isOk = false := by
  have h : (Threads.play Cfg.x86 20 (2 :: (List.range 11).flatMap fun _ => [1, 0]) (Threads.start threeThreads)).toOption.any (fun s =>
      (s.todo 0).isEmpty && (s.todo 1).isEmpty && (s.local_ 0).out.length == 3 && (s.local_ 1).out.length == 5 && (s.todo 2).length == 1 &&
      !(Instr.exec Cfg.x86 20 s.mem (s.local_ 2) (.size 5 true)).isOk) = true := by decide +kernel
  cases hp : Threads.play Cfg.x86 20 (2 :: (List.range 11).flatMap fun _ => [1, 0]) (Threads.start threeThreads) with
  | error e => rw [hp] at h; cases h
  | ok s =>
    rw [hp] at h
    simp only [Except.toOption, Option.any_some, Bool.and_eq_true, List.isEmpty_iff, beq_iff_eq, Bool.not_eq_true'] at h
    obtain ⟨⟨⟨⟨⟨h0, h1⟩, h2⟩, h3⟩, h4⟩, h5⟩ := h
    have hr := Threads.play_runs _ (.refl _) hp
    obtain ⟨done, _, _, hd, _⟩ := C72_as_if_alone _ _ _ threeThreads_separate s hr 2
    refine ⟨s, hr, h0, h1, ?_, h2, h3, h5⟩
    have hd' : [Instr.null 5, .size 5 true] = done ++ s.todo 2 := hd
    match done, hd' with
    | [], hd' => have e : [Instr.null 5, .size 5 true] = s.todo 2 := hd'; rw [← e] at h4; cases h4
    | [a], hd' => exact (List.cons.inj hd').2.symm
    | a :: b :: c, hd' => exfalso; have e := congrArg List.length hd'; rw [List.length_append, h4] at e; simp at e

/-- C72. Without `Separate` nothing of this holds: if thread 1 names the variable of thread 0, or the pool in which the object of thread 0
lies, thread 0 sees another value, or a freed object, or not, depending on the order. -/
theorem C72_sharing_matters :
    ∃ prog prog' : Nat → List Instr, (∃ s s', Threads.Runs Cfg.x86 9 (Threads.start prog) s ∧ Threads.Runs Cfg.x86 9 (Threads.start prog) s' ∧
        s.todo 0 = s'.todo 0 ∧ (s.local_ 0).out ≠ (s'.local_ 0).out) ∧
      (∃ q, runAlone Cfg.x86 9 (prog' 0) {} {} = .ok q) ∧
      ∃ s i is, Threads.Runs Cfg.x86 9 (Threads.start prog') s ∧ s.todo 0 = i :: is ∧ i.exec Cfg.x86 9 s.mem (s.local_ 0) = .error (.ub .useAfterDestroy) := by
  let prog : Nat → List Instr := fun t => match t with
    | 0 => [.call (.newPool 0) 0, .call (.leaf 0 0 false (.int32 7)) 0, .get 0 0, .leaf 0]
    | 1 => [.call (.newPool 1) 0, .call (.leaf 0 1 false (.int32 5)) 0]
    | _ => []
  let prog' : Nat → List Instr := fun t => match t with
    | 0 => [.call (.newPool 0) 0, .call (.leaf 0 0 false (.int32 7)) 0, .get 0 0, .leaf 0]
    | 1 => [.call (.clearPool 0) 0]
    | _ => []
  refine ⟨prog, prog', ⟨_, _, Threads.play_runs [0, 0, 0, 0] (.refl _) rfl, Threads.play_runs [0, 0, 1, 1, 0, 0] (.refl _) rfl, rfl, ?_⟩, ⟨_, rfl⟩,
    _, _, _, Threads.play_runs [0, 0, 0, 1] (.refl _) rfl, rfl, rfl⟩
  intro h
  injection h with h _
  injection h with _ _ h
  injection h with h
  revert h
  decide

end Bridge.Heap
