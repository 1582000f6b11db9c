import Verif.Proof.ThreadPool
/-
C39, C40: the thread pool, under every interleaving.  `Run n es s`: a pool of `n` workers has gone through the events `es` and is
now in state `s`.  `pushes es`, `takes es`, `starts es`, `finishes es` are the tasks accepted, taken out of the queue, called and
returned from, each in the order of the events.
-/
set_option autoImplicit false
namespace Bridge.TP

/-! ### C39 -/

/-- C39: tasks leave the queue in the order in which they were accepted, and those not taken are queued in that order. -/
theorem C39_taken_in_order {n : Nat} {es : List Event} {s : State} (h : Run n es s) :
    takes es <+: pushes es ∧ takes es ++ s.queue = pushes es ∧ (pushes es).Nodup := by
  have i := inv_run h
  refine ⟨⟨s.queue, i.fifo⟩, i.fifo, ?_⟩
  rw [i.acc]; exact List.nodup_range

theorem count_le_one {l : List Nat} (h : l.Nodup) (t : Nat) : l.count t ≤ 1 := by
  exact List.nodup_iff_count.1 h t

/-- C39: no task is called twice, and only accepted tasks are called; a call returns at most once. -/
theorem C39_at_most_once {n : Nat} {es : List Event} {s : State} (h : Run n es s) :
    (starts es).Nodup ∧ (∀ t ∈ starts es, t ∈ pushes es) ∧ (finishes es).Nodup ∧ (∀ t ∈ finishes es, t ∈ starts es) := by
  have i := inv_run h
  have hp : (pushes es).Nodup := (C39_taken_in_order h).2.2
  have ht : ∀ t, (takes es).count t ≤ (pushes es).count t := by
    intro t; rw [← i.fifo, List.count_append]; omega
  refine ⟨?_, ?_, ?_, ?_⟩
  · rw [List.nodup_iff_count]; intro t
    have := i.held t; have := ht t; have := count_le_one hp t; omega
  · intro t hm
    have := List.count_pos_iff.2 hm
    have := i.held t; have := ht t
    exact List.count_pos_iff.1 (by omega)
  · rw [List.nodup_iff_count]; intro t
    have := i.held t; have := i.runs t; have := ht t; have := count_le_one hp t; omega
  · intro t hm
    have := List.count_pos_iff.2 hm
    have := i.runs t
    exact List.count_pos_iff.1 (by omega)

/-- C39: whenever no worker is busy and the queue is empty, every accepted task has been called and has returned, exactly
once. -/
theorem C39_exactly_once_when_idle {n : Nat} {es : List Event} {s : State} (h : Run n es s)
    (hidle : ∀ w ∈ s.workers, w = .ready ∨ w = .waiting ∨ w = .exited) (hq : s.queue = []) :
    (starts es).Perm (pushes es) ∧ (finishes es).Perm (pushes es) := by
  have i := inv_run h
  have e1 : s.workers.flatMap Worker.held = [] := by
    rw [List.flatMap_eq_nil_iff]; intro w hw; rcases hidle w hw with rfl | rfl | rfl <;> rfl
  have e2 : s.workers.flatMap Worker.runs = [] := by
    rw [List.flatMap_eq_nil_iff]; intro w hw; rcases hidle w hw with rfl | rfl | rfl <;> rfl
  have hf := i.fifo
  rw [hq, List.append_nil] at hf
  have h1 : ∀ t, (starts es).count t = (pushes es).count t := by
    intro t; have := i.held t; rw [e1, hf] at this; simpa using this.symm
  refine ⟨List.perm_iff_count.2 h1, List.perm_iff_count.2 ?_⟩
  intro t; have := i.runs t; rw [e2, h1] at this; simpa using this.symm

/-- C39: when the workers of a pool (at least one) have all returned, as `Stop` and the destructor wait for, every accepted task
has been called and has returned, exactly once. -/
theorem C39_exactly_once_when_stopped {n : Nat} {es : List Event} {s : State} (h : Run n es s) (hn : 0 < n)
    (hex : ∀ w ∈ s.workers, w = .exited) :
    (starts es).Perm (pushes es) ∧ (finishes es).Perm (pushes es) := by
  have i := inv_run h
  have hq : s.queue = [] := by
    have hl := i.len
    cases hws : s.workers with
    | nil => rw [hws] at hl; simp at hl; omega
    | cons w ws =>
      have : w = .exited := hex w (by rw [hws]; simp)
      exact (i.exited (by rw [hws, this]; simp)).2
  exact C39_exactly_once_when_idle h (fun w hw => .inr (.inr (hex w hw))) hq

/-- C39: after `Stop` has been called no task is accepted. -/
theorem C39_dropped_after_stop {n : Nat} {es es' : List Event} {s s' : State} (_ : Run n es s) (hst : s.stop = true)
    (h' : Steps s es' s') : pushes es' = [] ∧ s'.stop = true := by
  induction h' with
  | nil => exact ⟨rfl, hst⟩
  | @snoc es1 s1 s2 e h1 h2 ih =>
    obtain ⟨ih1, ih2⟩ := ih
    rw [pushes_snoc, ih1, List.nil_append]
    cases h2 with
    | push h => rw [ih2] at h; cases h
    | enter pre post he =>
      refine ⟨?_, ih2⟩
      rcases enter_cases s1.stop s1.queue with ⟨-, -, h⟩ | ⟨-, -, h⟩ | ⟨_, _, -, h⟩ <;> rw [h] <;> rfl
    | stop h => exact ⟨rfl, rfl⟩
    | _ => exact ⟨rfl, ih2⟩

/-- The invariant of a pool of one worker. -/
def OneInv (es : List Event) (s : State) : Prop :=
  ∃ w, s.workers = [w] ∧ takes es = starts es ++ w.held ∧ starts es = finishes es ++ w.runs

theorem one_split {pre post : List Worker} {w w0 : Worker} (h : [w] = pre ++ w0 :: post) : pre = [] ∧ post = [] ∧ w0 = w := by
  cases pre with
  | nil => simp at h; exact ⟨rfl, h.2, h.1.symm⟩
  | cons a b => simp at h

theorem one_inv {es : List Event} {s : State} (h : Run 1 es s) : OneInv es s := by
  unfold Run at h
  induction h with
  | nil => exact ⟨.ready, rfl, rfl, rfl⟩
  | @snoc es s s' e h1 h2 ih =>
    obtain ⟨w, hw, ht, hs⟩ := ih
    cases h2 with
    | push => exact ⟨w, hw, by simpa [takes, starts] using ht, by simpa [starts, finishes] using hs⟩
    | pushDropped => exact ⟨w, hw, by simpa [takes, starts] using ht, by simpa [starts, finishes] using hs⟩
    | notifyOne pre post hp he =>
      obtain ⟨rfl, rfl, rfl⟩ := one_split (hw.symm.trans he)
      exact ⟨.ready, rfl, by simpa [takes, starts, Worker.held] using ht, by simpa [starts, finishes, Worker.runs] using hs⟩
    | notifyNone => exact ⟨w, hw, by simpa [takes, starts] using ht, by simpa [starts, finishes] using hs⟩
    | stop => exact ⟨w, hw, by simpa [takes, starts] using ht, by simpa [starts, finishes] using hs⟩
    | stopAgain => exact ⟨w, hw, by simpa [takes, starts] using ht, by simpa [starts, finishes] using hs⟩
    | notifyAll =>
      refine ⟨if w = .waiting then .ready else w, by simp [hw], ?_, ?_⟩
      · by_cases hw2 : w = .waiting
        · subst hw2; simpa [takes, starts, Worker.held] using ht
        · simpa [takes, starts, hw2] using ht
      · by_cases hw2 : w = .waiting
        · subst hw2; simpa [finishes, starts, Worker.runs] using hs
        · simpa [finishes, starts, hw2] using hs
    | enter pre post he =>
      obtain ⟨rfl, rfl, rfl⟩ := one_split (hw.symm.trans he)
      refine ⟨_, rfl, ?_, ?_⟩
      · rcases enter_cases s.stop s.queue with ⟨-, -, h⟩ | ⟨-, -, h⟩ | ⟨_, _, -, h⟩ <;> rw [h] <;>
          simpa [takes, starts, Worker.held] using ht
      · rcases enter_cases s.stop s.queue with ⟨-, -, h⟩ | ⟨-, -, h⟩ | ⟨_, _, -, h⟩ <;> rw [h] <;>
          simpa [finishes, starts, Worker.runs] using hs
    | start pre post t he =>
      obtain ⟨rfl, rfl, rfl⟩ := one_split (hw.symm.trans he)
      exact ⟨.running t, rfl, by simpa [takes, starts, Worker.held] using ht,
        by simpa [finishes, starts, Worker.runs] using hs⟩
    | finish pre post t he =>
      obtain ⟨rfl, rfl, rfl⟩ := one_split (hw.symm.trans he)
      exact ⟨.ready, rfl, by simpa [takes, starts, Worker.held] using ht,
        by simpa [finishes, starts, Worker.runs] using hs⟩
    | spurious pre post he =>
      obtain ⟨rfl, rfl, rfl⟩ := one_split (hw.symm.trans he)
      exact ⟨.ready, rfl, by simpa [takes, starts, Worker.held] using ht,
        by simpa [finishes, starts, Worker.runs] using hs⟩

/-- C39: with one worker the calls too are made in the order of acceptance, and one returns before the next is made. -/
theorem C39_one_worker_in_order {es : List Event} {s : State} (h : Run 1 es s) :
    starts es <+: pushes es ∧ finishes es <+: starts es ∧ (starts es).length ≤ (finishes es).length + 1 := by
  obtain ⟨w, -, ht, hs⟩ := one_inv h
  have hp := (C39_taken_in_order h).1
  refine ⟨List.IsPrefix.trans ⟨_, ht.symm⟩ hp, ⟨_, hs.symm⟩, ?_⟩
  rw [hs, List.length_append]
  cases w <;> simp [Worker.runs]

/-! ### C40 -/

/-- C40: in every reachable state in which no thread can take a step by itself (a worker is awake, or a notification is under
way), the queue is empty and every worker is asleep, or has returned if the pool was stopped. -/
theorem C40_no_lost_wakeup {n : Nat} {es : List Event} {s : State} (h : Run n es s) (hn : 0 < n)
    (hstuck : ∀ e s', Step s e s' → e.external = true) :
    s.queue = [] ∧ ∀ w ∈ s.workers, w = if s.stop then .exited else .waiting := by
  have i := inv_run h
  have hw : ∀ w ∈ s.workers, w = .waiting ∨ w = .exited := by
    intro w hw
    by_cases h1 : w = .waiting
    · exact .inl h1
    · by_cases h2 : w = .exited
      · exact .inr h2
      · obtain ⟨e, s', he, hs⟩ := step_of_awake hw h1 h2
        rw [hstuck e s' hs] at he; cases he
  have hpend : s.pendOne = 0 := by
    by_cases hp : s.pendOne = 0
    · exact hp
    · exfalso
      have hp : 0 < s.pendOne := by omega
      by_cases hm : Worker.waiting ∈ s.workers
      · obtain ⟨pre, post, he⟩ := List.append_of_mem hm
        have := hstuck _ _ (Step.notifyOne s pre post hp he); cases this
      · have := hstuck _ _ (Step.notifyNone s hp hm); cases this
  have hall : s.pendAll = false := by
    cases hp : s.pendAll with
    | false => rfl
    | true => have := hstuck _ _ (Step.notifyAll s hp); cases this
  have hready : s.workers.count .ready = 0 := by
    rw [List.count_eq_zero]; intro hm
    rcases hw _ hm with h | h <;> cases h
  have hne : ∃ w, w ∈ s.workers := by
    have hl := i.len
    cases hws : s.workers with
    | nil => rw [hws] at hl; simp at hl; omega
    | cons w ws => exact ⟨w, by simp⟩
  cases hst : s.stop with
  | true =>
    have hexit : ∀ w ∈ s.workers, w = .exited := by
      intro w hm
      rcases hw w hm with rfl | h
      · have := i.stopWake hst hm; rw [hall] at this; cases this
      · exact h
    obtain ⟨w, hm⟩ := hne
    exact ⟨(i.exited (hexit w hm ▸ hm)).2, by simpa using hexit⟩
  | false =>
    have hwait : ∀ w ∈ s.workers, w = .waiting := by
      intro w hm
      rcases hw w hm with h | rfl
      · exact h
      · have := (i.exited hm).1; rw [hst] at this; cases this
    obtain ⟨w, hm⟩ := hne
    have := i.wake (hwait w hm ▸ hm)
    rw [hready, hpend] at this
    exact ⟨List.length_eq_zero_iff.1 (by omega), by simpa using hwait⟩

theorem weights_le (ws : List Worker) : weights ws ≤ 3 * ws.length := by
  induction ws with
  | nil => simp [weights]
  | cons w ws ih => rw [weights_cons, List.length_cons]; cases w <;> simp [Worker.weight] <;> omega

/-- C40: the steps that workers and notifications take, in any execution from any state, are bounded by what is queued, the
number of workers and the calls and spurious wake-ups in that execution: no livelock. -/
theorem C40_steps_bounded {n : Nat} {es es' : List Event} {s s' : State} (h : Run n es s) (h' : Steps s es' s') :
    es'.countP (fun e => !e.external) ≤
      3 * s.queue.length + 2 * s.pendOne + (4 * n + 1) +
        5 * (pushes es').length + (n + 1) * es'.count .stop + es'.count .spurious := by
  have hl : s.workers.length = n := (inv_run h).len
  have hw := work_steps h'
  have hb : work s ≤ 3 * s.queue.length + 2 * s.pendOne + (4 * n + 1) := by
    have := weights_le s.workers
    unfold work
    rw [hl] at this ⊢
    split <;> omega
  have hc : (es'.map (Event.cost s.workers.length)).sum =
      5 * (pushes es').length + (n + 1) * es'.count .stop + es'.count .spurious := by
    rw [hl]
    clear hw h'
    induction es' with
    | nil => simp [pushes]
    | cons e es' ih =>
      rw [List.map_cons, List.sum_cons, ih]
      cases e <;> simp [Event.cost, pushes, Nat.mul_add] <;> omega
  rw [hc] at hw
  omega

/-- C40: from every reachable state of a pool with a worker, without further calls, the workers and notifications go on until
the queue is empty and everyone is asleep (or has returned, if stopped); by `C40_steps_bounded` every schedule gets there. -/
theorem C40_drains {n : Nat} {es : List Event} {s : State} (h : Run n es s) (hn : 0 < n) :
    ∃ es' s', Steps s es' s' ∧ (∀ e ∈ es', e.external = false) ∧
      s'.queue = [] ∧ ∀ w ∈ s'.workers, w = if s.stop then .exited else .waiting := by
  generalize hk : work s = k
  induction k using Nat.strongRecOn generalizing es s with
  | _ k ih =>
    by_cases hst : ∃ e s', e.external = false ∧ Step s e s'
    · obtain ⟨e, s1, he, hs1⟩ := hst
      have hwork := work_step (inv_run h).len hs1
      rw [he] at hwork
      have hc : e.cost n = 0 := by cases e <;> simp_all [Event.external, Event.cost]
      rw [hc] at hwork
      obtain ⟨es', s', h1, h2, h3, h4⟩ := ih (work s1) (by simp at hwork; omega) (Steps.snoc h hs1) rfl
      refine ⟨[e] ++ es', s', Steps.trans (by simpa using Steps.snoc .nil hs1) h1, ?_, h3, ?_⟩
      · intro e' hm
        rcases List.mem_append.1 hm with hm | hm
        · rw [List.mem_singleton.1 hm]; exact he
        · exact h2 e' hm
      · have : s1.stop = s.stop := by
          cases hs1 <;> first | rfl | (simp [Event.external] at he)
        rw [← this]; exact h4
    · have hstuck : ∀ e s', Step s e s' → e.external = true := by
        intro e s' hs
        cases he : e.external with
        | true => rfl
        | false => exact absurd ⟨e, s', he, hs⟩ hst
      obtain ⟨h1, h2⟩ := C40_no_lost_wakeup h hn hstuck
      exact ⟨[], s, .nil, by simp, h1, h2⟩

/-- C40: a schedule of workers and notifications that cannot be continued has drained the pool and run every accepted task. -/
theorem C40_every_schedule_drains {n : Nat} {es es' : List Event} {s s' : State} (h : Run n es s) (hn : 0 < n)
    (h' : Steps s es' s') (hend : ∀ e s'', Step s' e s'' → e.external = true) :
    s'.queue = [] ∧ (finishes (es ++ es')).Perm (pushes (es ++ es')) ∧
      ∀ w ∈ s'.workers, w = if s'.stop then .exited else .waiting := by
  have hr : Run n (es ++ es') s' := Steps.trans h h'
  obtain ⟨h1, h2⟩ := C40_no_lost_wakeup hr hn hend
  refine ⟨h1, (C39_exactly_once_when_idle hr ?_ h1).2, h2⟩
  intro w hw; rw [h2 w hw]; split
  · exact .inr (.inr rfl)
  · exact .inr (.inl rfl)

/-- C40: the condition "at least one worker" is needed: a pool of no workers never runs anything. -/
theorem C40_no_workers_no_progress {es : List Event} {s : State} (h : Run 0 es s) :
    starts es = [] ∧ s.queue = pushes es := by
  have i := inv_run h
  have hws : s.workers = [] := List.length_eq_zero_iff.1 i.len
  have key : takes es = [] ∧ starts es = [] := by
    clear i hws
    unfold Run at h
    induction h with
    | nil => exact ⟨rfl, rfl⟩
    | @snoc es s s' e h1 h2 ih =>
      have hl : s.workers = [] := List.length_eq_zero_iff.1 (inv_run h1).len
      rw [takes_snoc, starts_snoc, ih.1, ih.2]
      cases h2 <;> first | exact ⟨rfl, rfl⟩ | (rename_i he; rw [hl] at he; simp at he)
  exact ⟨key.2, by have := i.fifo; rwa [key.1, List.nil_append] at this⟩

/-! ### A concrete run -/

/-- Two workers, three tasks, both workers asleep at first, and `Stop` while a task is queued. -/
def demoEvents : List Event :=
  [.sleep, .sleep, .push 0, .push 1, .notifyOne, .take 0, .notifyOne, .push 2, .start 0, .take 1, .stop, .pushDropped, .start 1,
   .finish 1, .take 2]

def demoState : State :=
  { workers := [.running 0, .holding 2], queue := [], stop := true, pendOne := 1, pendAll := true, accepted := 3 }

theorem demo_run : Run 2 demoEvents demoState := by
  have h := Steps.nil (s := init 2)
  have h := h.snoc (Step.enter _ [] [.ready] rfl)
  have h := h.snoc (Step.enter _ [.waiting] [] rfl)
  have h := h.snoc (Step.push _ rfl)
  have h := h.snoc (Step.push _ rfl)
  have h := h.snoc (Step.notifyOne _ [] [.waiting] (by decide) rfl)
  have h := h.snoc (Step.enter _ [] [.waiting] rfl)
  have h := h.snoc (Step.notifyOne _ [.holding 0] [] (by decide) rfl)
  have h := h.snoc (Step.push _ rfl)
  have h := h.snoc (Step.start _ [] [.ready] 0 rfl)
  have h := h.snoc (Step.enter _ [.running 0] [] rfl)
  have h := h.snoc (Step.stop _ rfl)
  have h := h.snoc (Step.pushDropped _ rfl)
  have h := h.snoc (Step.start _ [.running 0] [] 1 rfl)
  have h := h.snoc (Step.finish _ [.running 0] [] 1 rfl)
  have h := h.snoc (Step.enter _ [.running 0] [] rfl)
  exact h

/-- The rest of that run: the second worker finishes first. -/
def demoRest : List Event := [.start 2, .finish 2, .notifyOne, .exit, .finish 0, .exit, .notifyAll]

def demoEnd : State := { workers := [.exited, .exited], stop := true, accepted := 3 }

theorem demo_rest : Steps demoState demoRest demoEnd := by
  have h := Steps.nil (s := demoState)
  have h := h.snoc (Step.start _ [.running 0] [] 2 rfl)
  have h := h.snoc (Step.finish _ [.running 0] [] 2 rfl)
  have h := h.snoc (Step.notifyNone _ (by decide) (by decide))
  have h := h.snoc (Step.enter _ [.running 0] [] rfl)
  have h := h.snoc (Step.finish _ [] [.exited] 0 rfl)
  have h := h.snoc (Step.enter _ [] [.exited] rfl)
  have h := h.snoc (Step.notifyAll _ rfl)
  exact h

theorem demo_end_stuck : ∀ e s', Step demoEnd e s' → e.external = true := by
  have hw : ∀ (pre post : List Worker) (w : Worker), demoEnd.workers = pre ++ w :: post → w = .exited := by
    intro pre post w he
    have : w ∈ demoEnd.workers := by rw [he]; simp
    simpa [demoEnd] using this
  intro e s' h
  cases h with
  | notifyOne _ _ hp _ => simp [demoEnd] at hp
  | notifyNone hp _ => simp [demoEnd] at hp
  | notifyAll hp => simp [demoEnd] at hp
  | enter pre post he => cases hw _ _ _ he
  | start pre post t he => cases hw _ _ _ he
  | finish pre post t he => cases hw _ _ _ he
  | spurious pre post he => rfl
  | _ => rfl

/-- The hypotheses of the theorems above hold in this run, and their conclusions are not trivial. -/
example : starts (demoEvents ++ demoRest) = [0, 1, 2] ∧ finishes (demoEvents ++ demoRest) = [1, 2, 0] := by decide
example : (starts (demoEvents ++ demoRest)).Perm [0, 1, 2] ∧ (finishes (demoEvents ++ demoRest)).Perm [0, 1, 2] :=
  C39_exactly_once_when_stopped (n := 2) (s := demoEnd) (Steps.trans demo_run demo_rest) (by decide)
    (by intro w hw; simpa [demoEnd] using hw)
example : demoEnd.queue = [] :=
  (C40_every_schedule_drains (n := 2) demo_run (by decide) demo_rest demo_end_stuck).1
example : pushes demoRest = [] := (C39_dropped_after_stop demo_run rfl demo_rest).1
example : ∃ es' s', Steps demoState es' s' ∧ (∀ e ∈ es', e.external = false) ∧ s'.queue = [] ∧
    ∀ w ∈ s'.workers, w = if demoState.stop then .exited else .waiting := C40_drains (n := 2) demo_run (by decide)

/-- A run of a pool of one worker, and of a pool of none. -/
example : Run 1 [.push 0, .push 1, .take 0, .start 0]
    { workers := [.running 0], queue := [1], pendOne := 2, accepted := 2 } := by
  have h := Steps.nil (s := init 1)
  have h := h.snoc (Step.push _ rfl)
  have h := h.snoc (Step.push _ rfl)
  have h := h.snoc (Step.enter _ [] [] rfl)
  have h := h.snoc (Step.start _ [] [] 0 rfl)
  exact h
example : Run 0 [.push 0, .notifyOne] { workers := [], queue := [0], accepted := 1 } := by
  have h := Steps.nil (s := init 0)
  have h := h.snoc (Step.push _ rfl)
  have h := h.snoc (Step.notifyNone _ (by decide) (by decide))
  exact h

end Bridge.TP
