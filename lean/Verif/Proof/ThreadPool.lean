import Verif.Spec.Events
/-
Invariants of the thread pool.
-/
set_option autoImplicit false
namespace Bridge.TP

def Worker.held : Worker → List Nat
  | .holding t => [t]
  | _ => []
def Worker.runs : Worker → List Nat
  | .running t => [t]
  | _ => []

theorem enter_cases (stop : Bool) (queue : List Nat) :
    (stop = false ∧ queue = [] ∧ enter stop queue = (.sleep, .waiting, [])) ∨
    (stop = true ∧ queue = [] ∧ enter stop queue = (.exit, .exited, [])) ∨
    (∃ t rest, queue = t :: rest ∧ enter stop queue = (.take t, .holding t, rest)) := by
  cases stop <;> cases queue <;> simp [enter]

theorem pushes_snoc (es : List Event) (e : Event) : pushes (es ++ [e]) = pushes es ++ pushes [e] := by simp [pushes]
theorem takes_snoc (es : List Event) (e : Event) : takes (es ++ [e]) = takes es ++ takes [e] := by simp [takes]
theorem starts_snoc (es : List Event) (e : Event) : starts (es ++ [e]) = starts es ++ starts [e] := by simp [starts]
theorem finishes_snoc (es : List Event) (e : Event) : finishes (es ++ [e]) = finishes es ++ finishes [e] := by
  simp [finishes]

/-- The bookkeeping invariant. -/
structure Inv (n : Nat) (es : List Event) (s : State) : Prop where
  len : s.workers.length = n
  acc : pushes es = List.range s.accepted
  fifo : takes es ++ s.queue = pushes es
  held : ∀ t, (takes es).count t = (s.workers.flatMap Worker.held).count t + (starts es).count t
  runs : ∀ t, (starts es).count t = (s.workers.flatMap Worker.runs).count t + (finishes es).count t
  wake : Worker.waiting ∈ s.workers → s.queue.length ≤ s.workers.count .ready + s.pendOne
  stopWake : s.stop = true → Worker.waiting ∈ s.workers → s.pendAll = true
  exited : Worker.exited ∈ s.workers → s.stop = true ∧ s.queue = []

theorem map_wake_held (ws : List Worker) (f : Worker → List Nat) (h : f .waiting = f .ready) :
    (ws.map (fun w => if w = .waiting then .ready else w)).flatMap f = ws.flatMap f := by
  induction ws with
  | nil => rfl
  | cons w ws ih =>
    simp only [List.map_cons, List.flatMap_cons, ih]
    by_cases hw : w = .waiting
    · simp [hw, h]
    · simp [hw]

theorem inv_init (n : Nat) : Inv n [] (init n) := by
  have e1 : (List.replicate n Worker.ready).flatMap Worker.held = [] := by
    rw [List.flatMap_eq_nil_iff]; intro w hw; rw [List.eq_of_mem_replicate hw]; rfl
  have e2 : (List.replicate n Worker.ready).flatMap Worker.runs = [] := by
    rw [List.flatMap_eq_nil_iff]; intro w hw; rw [List.eq_of_mem_replicate hw]; rfl
  refine ⟨by simp [init], by simp [pushes, init], by simp [takes, pushes, init], ?_, ?_, ?_, ?_, ?_⟩
  · intro t; simp [init, takes, starts, e1]
  · intro t; simp [init, starts, finishes, e2]
  · intro h; simp [init]
  · intro h; simp [init] at h
  · intro h; simp [init, List.mem_replicate] at h

theorem inv_step {n : Nat} {es : List Event} {s s' : State} {e : Event} (h : Inv n es s) (hs : Step s e s') :
    Inv n (es ++ [e]) s' := by
  obtain ⟨hl, ha, hf, hh, hr, hw, hsw, hx⟩ := h
  cases hs with
  | push hst =>
    refine ⟨hl, ?_, ?_, ?_, ?_, ?_, ?_, ?_⟩
    · rw [pushes_snoc, ha]; simp [pushes, List.range_succ]
    · rw [pushes_snoc, takes_snoc, ← hf]; simp [pushes, takes, ha]
    · intro t; rw [takes_snoc, starts_snoc]; simpa [takes, starts] using hh t
    · intro t; rw [finishes_snoc, starts_snoc]; simpa [finishes, starts] using hr t
    · intro hm; have := hw hm; simp only [List.length_append, List.length_singleton]; omega
    · exact hsw
    · intro hm; rw [hst] at hx; exact absurd (hx hm).1 (by simp)
  | pushDropped hst =>
    refine ⟨hl, ?_, ?_, ?_, ?_, hw, hsw, hx⟩
    · rw [pushes_snoc, ha]; simp [pushes]
    · rw [pushes_snoc, takes_snoc, ← hf]; simp [pushes, takes]
    · intro t; rw [takes_snoc, starts_snoc]; simpa [takes, starts] using hh t
    · intro t; rw [finishes_snoc, starts_snoc]; simpa [finishes, starts] using hr t
  | notifyOne pre post hp he =>
    refine ⟨?_, ?_, ?_, ?_, ?_, ?_, ?_, ?_⟩
    · rw [he] at hl; simpa using hl
    · rw [pushes_snoc, ha]; simp [pushes]
    · rw [pushes_snoc, takes_snoc, ← hf]; simp [pushes, takes]
    · intro t; have := hh t; rw [he] at this; rw [takes_snoc, starts_snoc]
      simpa [takes, starts, Worker.held] using this
    · intro t; have := hr t; rw [he] at this; rw [finishes_snoc, starts_snoc]
      simpa [finishes, starts, Worker.runs] using this
    · intro hm
      have := hw (by rw [he]; simp)
      rw [he] at this
      simp [List.count_append, List.count_cons] at this ⊢
      omega
    · intro h1 h2; exact hsw h1 (by rw [he]; simp)
    · intro hm; exact hx (by rw [he]; simpa using hm)
  | notifyNone hp he =>
    refine ⟨hl, ?_, ?_, ?_, ?_, ?_, hsw, hx⟩
    · rw [pushes_snoc, ha]; simp [pushes]
    · rw [pushes_snoc, takes_snoc, ← hf]; simp [pushes, takes]
    · intro t; rw [takes_snoc, starts_snoc]; simpa [takes, starts] using hh t
    · intro t; rw [finishes_snoc, starts_snoc]; simpa [finishes, starts] using hr t
    · intro hm; exact absurd hm he
  | stop hst =>
    refine ⟨hl, ?_, ?_, ?_, ?_, hw, ?_, ?_⟩
    · rw [pushes_snoc, ha]; simp [pushes]
    · rw [pushes_snoc, takes_snoc, ← hf]; simp [pushes, takes]
    · intro t; rw [takes_snoc, starts_snoc]; simpa [takes, starts] using hh t
    · intro t; rw [finishes_snoc, starts_snoc]; simpa [finishes, starts] using hr t
    · intro _ _; rfl
    · intro hm; exact ⟨rfl, (hx hm).2⟩
  | stopAgain hst =>
    refine ⟨hl, ?_, ?_, ?_, ?_, hw, hsw, hx⟩
    · rw [pushes_snoc, ha]; simp [pushes]
    · rw [pushes_snoc, takes_snoc, ← hf]; simp [pushes, takes]
    · intro t; rw [takes_snoc, starts_snoc]; simpa [takes, starts] using hh t
    · intro t; rw [finishes_snoc, starts_snoc]; simpa [finishes, starts] using hr t
  | notifyAll hp =>
    have hno : Worker.waiting ∉ s.workers.map (fun w => if w = .waiting then .ready else w) := by
      intro hm
      obtain ⟨w, -, hw2⟩ := List.mem_map.1 hm
      by_cases hw3 : w = .waiting
      · simp [hw3] at hw2
      · simp [hw3] at hw2
    refine ⟨by simpa using hl, ?_, ?_, ?_, ?_, ?_, ?_, ?_⟩
    · rw [pushes_snoc, ha]; simp [pushes]
    · rw [pushes_snoc, takes_snoc, ← hf]; simp [pushes, takes]
    · intro t; rw [takes_snoc, starts_snoc]
      simp only [map_wake_held _ Worker.held rfl]; simpa [takes, starts] using hh t
    · intro t; rw [finishes_snoc, starts_snoc]
      simp only [map_wake_held _ Worker.runs rfl]; simpa [finishes, starts] using hr t
    · intro hm; exact absurd hm hno
    · intro _ hm; exact absurd hm hno
    · intro hm
      obtain ⟨w, hw1, hw2⟩ := List.mem_map.1 hm
      by_cases hw3 : w = .waiting
      · simp [hw3] at hw2
      · simp [hw3] at hw2; exact hx (hw2 ▸ hw1)
  | enter pre post he =>
    rcases enter_cases s.stop s.queue with ⟨h1, h2, h3⟩ | ⟨h1, h2, h3⟩ | ⟨t0, rest, h2, h3⟩
    · rw [h3]
      refine ⟨?_, ?_, ?_, ?_, ?_, ?_, ?_, ?_⟩
      · rw [he] at hl; simpa using hl
      · rw [pushes_snoc, ha]; simp [pushes]
      · rw [pushes_snoc, takes_snoc, ← hf]; simp [pushes, takes, h2]
      · intro t; have := hh t; rw [he] at this; rw [takes_snoc, starts_snoc]
        simpa [takes, starts, Worker.held] using this
      · intro t; have := hr t; rw [he] at this; rw [finishes_snoc, starts_snoc]
        simpa [finishes, starts, Worker.runs] using this
      · intro _; simp
      · intro hst; rw [h1] at hst; cases hst
      · intro hm; have := hx (by rw [he]; simpa using hm); rw [h1] at this; cases this.1
    · rw [h3]
      refine ⟨?_, ?_, ?_, ?_, ?_, ?_, ?_, ?_⟩
      · rw [he] at hl; simpa using hl
      · rw [pushes_snoc, ha]; simp [pushes]
      · rw [pushes_snoc, takes_snoc, ← hf]; simp [pushes, takes, h2]
      · intro t; have := hh t; rw [he] at this; rw [takes_snoc, starts_snoc]
        simpa [takes, starts, Worker.held] using this
      · intro t; have := hr t; rw [he] at this; rw [finishes_snoc, starts_snoc]
        simpa [finishes, starts, Worker.runs] using this
      · intro _; simp
      · intro hst hm; exact hsw hst (by rw [he]; simpa using hm)
      · intro _; exact ⟨h1, rfl⟩
    · rw [h3]
      refine ⟨?_, ?_, ?_, ?_, ?_, ?_, ?_, ?_⟩
      · rw [he] at hl; simpa using hl
      · rw [pushes_snoc, ha]; simp [pushes]
      · rw [pushes_snoc, takes_snoc, ← hf]; simp [pushes, takes, h2]
      · intro t; have := hh t; rw [he] at this; rw [takes_snoc, starts_snoc]
        simp [takes, starts, Worker.held, List.count_append, List.count_cons] at this ⊢
        omega
      · intro t; have := hr t; rw [he] at this; rw [finishes_snoc, starts_snoc]
        simpa [finishes, starts, Worker.runs] using this
      · intro hm
        have := hw (by rw [he]; simpa using hm)
        rw [he, h2] at this
        simp [List.count_append, List.count_cons] at this ⊢
        omega
      · intro hst hm; exact hsw hst (by rw [he]; simpa using hm)
      · intro hm; have := hx (by rw [he]; simpa using hm); rw [h2] at this; cases this.2
  | start pre post t0 he =>
    refine ⟨?_, ?_, ?_, ?_, ?_, ?_, ?_, ?_⟩
    · rw [he] at hl; simpa using hl
    · rw [pushes_snoc, ha]; simp [pushes]
    · rw [pushes_snoc, takes_snoc, ← hf]; simp [pushes, takes]
    · intro t; have := hh t; rw [he] at this; rw [takes_snoc, starts_snoc]
      simp [takes, starts, Worker.held, List.count_append, List.count_cons] at this ⊢
      omega
    · intro t; have := hr t; rw [he] at this; rw [finishes_snoc, starts_snoc]
      simp [finishes, starts, Worker.runs, List.count_append, List.count_cons] at this ⊢
      omega
    · intro hm
      have := hw (by rw [he]; simpa using hm)
      rw [he] at this
      simp [List.count_append, List.count_cons] at this ⊢
      omega
    · intro hst hm; exact hsw hst (by rw [he]; simpa using hm)
    · intro hm; exact hx (by rw [he]; simpa using hm)
  | finish pre post t0 he =>
    refine ⟨?_, ?_, ?_, ?_, ?_, ?_, ?_, ?_⟩
    · rw [he] at hl; simpa using hl
    · rw [pushes_snoc, ha]; simp [pushes]
    · rw [pushes_snoc, takes_snoc, ← hf]; simp [pushes, takes]
    · intro t; have := hh t; rw [he] at this; rw [takes_snoc, starts_snoc]
      simpa [takes, starts, Worker.held] using this
    · intro t; have := hr t; rw [he] at this; rw [finishes_snoc, starts_snoc]
      simp [finishes, starts, Worker.runs, List.count_append, List.count_cons] at this ⊢
      omega
    · intro hm
      have := hw (by rw [he]; simpa using hm)
      rw [he] at this
      simp [List.count_append, List.count_cons] at this ⊢
      omega
    · intro hst hm; exact hsw hst (by rw [he]; simpa using hm)
    · intro hm; exact hx (by rw [he]; simpa using hm)
  | spurious pre post he =>
    refine ⟨?_, ?_, ?_, ?_, ?_, ?_, ?_, ?_⟩
    · rw [he] at hl; simpa using hl
    · rw [pushes_snoc, ha]; simp [pushes]
    · rw [pushes_snoc, takes_snoc, ← hf]; simp [pushes, takes]
    · intro t; have := hh t; rw [he] at this; rw [takes_snoc, starts_snoc]
      simpa [takes, starts, Worker.held] using this
    · intro t; have := hr t; rw [he] at this; rw [finishes_snoc, starts_snoc]
      simpa [finishes, starts, Worker.runs] using this
    · intro hm
      have := hw (by rw [he]; simp)
      rw [he] at this
      simp [List.count_append, List.count_cons] at this ⊢
      omega
    · intro h1 h2; exact hsw h1 (by rw [he]; simp)
    · intro hm; exact hx (by rw [he]; simpa using hm)

theorem inv_run {n : Nat} {es : List Event} {s : State} (h : Run n es s) : Inv n es s := by
  unfold Run at h
  generalize hi : init n = i at h
  induction h with
  | nil => subst hi; exact inv_init n
  | snoc _ h2 ih => exact inv_step ih h2

/-! ### The measure -/

def Worker.weight : Worker → Nat
  | .ready => 1 | .waiting => 0 | .holding _ => 3 | .running _ => 2 | .exited => 0

def weights (ws : List Worker) : Nat := (ws.map Worker.weight).sum

/-- What is left to do. -/
def work (s : State) : Nat :=
  3 * s.queue.length + weights s.workers + 2 * s.pendOne + if s.pendAll then s.workers.length + 1 else 0

@[simp] theorem weights_append (a b : List Worker) : weights (a ++ b) = weights a + weights b := by simp [weights]
@[simp] theorem weights_cons (w : Worker) (b : List Worker) : weights (w :: b) = w.weight + weights b := by
  simp [weights]

theorem weights_wake (ws : List Worker) :
    weights (ws.map (fun w => if w = .waiting then .ready else w)) ≤ weights ws + ws.length := by
  induction ws with
  | nil => simp [weights]
  | cons w ws ih =>
    rw [List.map_cons, weights_cons, weights_cons]
    by_cases hw : w = .waiting
    · simp [hw, Worker.weight]; omega
    · simp [hw]; omega

/-- How much work a step adds. -/
def Event.cost (n : Nat) : Event → Nat
  | .push _ => 5
  | .stop => n + 1
  | .spurious => 1
  | _ => 0

theorem work_step {n : Nat} {s s' : State} {e : Event} (hn : s.workers.length = n) (h : Step s e s') :
    work s' + (if e.external then 0 else 1) ≤ work s + e.cost n := by
  cases h with
  | push hst => simp [work, Event.external, Event.cost]; omega
  | pushDropped hst => simp [Event.external]
  | notifyOne pre post hp he =>
    simp [work, Event.external, Event.cost, he, Worker.weight]; omega
  | notifyNone hp he => simp [work, Event.external, Event.cost]; omega
  | stop hst =>
    simp [work, Event.external, Event.cost, hn]
  | stopAgain hst => simp [Event.external]
  | notifyAll hp =>
    have := weights_wake s.workers
    simp [work, Event.external, Event.cost, hp]; omega
  | enter pre post he =>
    rcases enter_cases s.stop s.queue with ⟨h1, h2, h3⟩ | ⟨h1, h2, h3⟩ | ⟨t0, rest, h2, h3⟩
    · rw [h3]; simp [work, Event.external, Event.cost, he, h2, Worker.weight]; omega
    · rw [h3]; simp [work, Event.external, Event.cost, he, h2, Worker.weight]; omega
    · rw [h3]; simp [work, Event.external, Event.cost, he, h2, Worker.weight]; omega
  | start pre post t he => simp [work, Event.external, Event.cost, he, Worker.weight]; omega
  | finish pre post t he => simp [work, Event.external, Event.cost, he, Worker.weight]; omega
  | spurious pre post he => simp [work, Event.external, Event.cost, he, Worker.weight]; omega

theorem len_step {s s' : State} {e : Event} (h : Step s e s') : s'.workers.length = s.workers.length := by
  cases h <;> simp_all

theorem len_steps {s s' : State} {es : List Event} (h : Steps s es s') : s'.workers.length = s.workers.length := by
  induction h with
  | nil => rfl
  | snoc _ h2 ih => rw [len_step h2, ih]

theorem work_steps {s s' : State} {es : List Event} (h : Steps s es s') :
    work s' + es.countP (fun e => !e.external) ≤ work s + (es.map (Event.cost s.workers.length)).sum := by
  induction h with
  | nil => simp
  | @snoc es s' s'' e h1 h2 ih =>
    have := work_step (len_steps h1) h2
    rw [List.countP_append, List.map_append, List.sum_append]
    cases he : e.external <;> simp [he] at this ⊢ <;> omega

theorem Steps.trans {s s' s'' : State} {es es' : List Event} (h : Steps s es s') (h' : Steps s' es' s'') :
    Steps s (es ++ es') s'' := by
  induction h' with
  | nil => simpa using h
  | snoc _ h2 ih => rw [← List.append_assoc]; exact .snoc ih h2

/-- Every worker that is awake, and every notification under way, can make a step. -/
theorem step_of_awake {s : State} {w : Worker} (hw : w ∈ s.workers) (h1 : w ≠ .waiting) (h2 : w ≠ .exited) :
    ∃ e s', e.external = false ∧ Step s e s' := by
  obtain ⟨pre, post, he⟩ := List.append_of_mem hw
  cases w with
  | ready =>
    refine ⟨(enter s.stop s.queue).1, _, ?_, Step.enter s pre post he⟩
    rcases enter_cases s.stop s.queue with ⟨-, -, h⟩ | ⟨-, -, h⟩ | ⟨_, _, -, h⟩ <;> rw [h] <;> rfl
  | waiting => exact absurd rfl h1
  | holding t => exact ⟨.start t, _, rfl, Step.start s pre post t he⟩
  | running t => exact ⟨.finish t, _, rfl, Step.finish s pre post t he⟩
  | exited => exact absurd rfl h2

end Bridge.TP
