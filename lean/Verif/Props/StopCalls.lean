import Verif.Model.StopCalls
import Verif.Props.ThreadPool
/-
C66: `Stop`, `GetCurrentId` and `currentThreadInExecutor`, under every interleaving.
-/
set_option autoImplicit false
namespace Bridge.TP

/-- The events of the pool itself. -/
def XEvent.base? : XEvent → Option Event
  | .base e => some e
  | _ => none

/-- The tasks accepted, called and returned from in an execution, as in C39. -/
def taskEvents (es : List XEvent) : List Event := es.filterMap XEvent.base?

/-- Forgetting identities and the `join` loop gives an execution of the pool of C39 and C40. -/
theorem xrun_base {n : Nat} {es : List XEvent} {x : XState} (h : XRun n es x) : Run n (taskEvents es) x.base := by
  unfold XRun at h
  induction h with
  | nil => exact .nil
  | @snoc es x x' e h1 h2 ih =>
    unfold taskEvents at ih ⊢
    rw [List.filterMap_append]
    cases h2 with
    | base e b hb => exact ih.snoc hb
    | stop c b hb => exact ih.snoc hb
    | notifyAll c b hb hc => exact ih.snoc hb
    | _ => simpa only [List.filterMap_cons, List.filterMap_nil, XEvent.base?, List.append_nil] using ih

/-- The first index at which a step changes the workers. -/
theorem set_get {α : Type} (pre post : List α) (a b : α) (i : Nat) (h : i ≠ pre.length) :
    (pre ++ a :: post)[i]? = (pre ++ b :: post)[i]? := by
  rcases Nat.lt_or_ge i pre.length with hi | hi
  · rw [List.getElem?_append_left hi, List.getElem?_append_left hi]
  · rw [List.getElem?_append_right hi, List.getElem?_append_right hi]
    obtain ⟨k, hk⟩ : ∃ k, i - pre.length = k + 1 := ⟨i - pre.length - 1, by omega⟩
    rw [hk]; rfl

/-- Invariant of the layer: identities, and what the `join` loop has seen. -/
structure XInv (n : Nat) (x : XState) : Prop where
  len : x.base.workers.length = n
  boot : ∀ i, x.boot i ≤ 2
  id1 : ∀ i, 1 ≤ x.boot i → x.ids i = i
  id2 : ∀ i, x.mine i = true ↔ x.boot i = 2
  lt : ∀ i, 1 ≤ x.boot i → i < n
  fresh : ∀ i, i < n → x.boot i ≠ 2 → x.base.workers[i]? = some .ready
  idle : x.call = none → x.base.stop = false ∧ x.base.pendAll = false
  called : ∀ c, x.call = some c → x.base.stop = true ∧ (x.base.pendAll = true ↔ c.phase = .notify)
  task : ∀ c i, x.call = some c → c.caller = some i → c.phase ≠ .done ∧ ∃ t, x.base.workers[i]? = some (.running t)
  joined : ∀ c k, x.call = some c → c.phase = .join k → k ≤ n ∧ ∀ i < k, x.base.workers[i]? = some .exited
  done : ∀ c, x.call = some c → c.phase = .done → ∀ i < n, x.base.workers[i]? = some .exited

theorem exited_stays {s s' : State} {e : Event} (h : Step s e s') {i : Nat} (hi : s.workers[i]? = some .exited) :
    s'.workers[i]? = some .exited := by
  have key : ∀ (pre post : List Worker) (a b : Worker), s.workers = pre ++ a :: post → a ≠ .exited →
      (pre ++ b :: post)[i]? = some .exited := by
    intro pre post a b he ha
    rw [he] at hi
    by_cases hip : i = pre.length
    · subst hip; simp at hi; exact absurd hi ha
    · rw [← set_get pre post a b i hip]; exact hi
  cases h with
  | notifyOne pre post hp he => exact key _ _ _ _ he (by simp)
  | notifyAll hp => simp [hi]
  | enter pre post he => exact key _ _ _ _ he (by simp)
  | start pre post t he => exact key _ _ _ _ he (by simp)
  | finish pre post t he => exact key _ _ _ _ he (by simp)
  | spurious pre post he => exact key _ _ _ _ he (by simp)
  | _ => exact hi

theorem stop_step {s s' : State} {e : Event} (h : Step s e s') (h1 : e ≠ .stop) (h2 : e ≠ .notifyAll) :
    s'.stop = s.stop ∧ s'.pendAll = s.pendAll := by
  cases h with
  | stop => exact absurd rfl h1
  | notifyAll => exact absurd rfl h2
  | _ => exact ⟨rfl, rfl⟩

theorem stop_inv {s s' : State} (h : Step s .stop s') : s.stop = false ∧ s' = { s with stop := true, pendAll := true } := by
  generalize he : Event.stop = e at h
  cases h with
  | stop hst => exact ⟨hst, rfl⟩
  | enter pre post hw =>
    exfalso
    rcases enter_cases s.stop s.queue with ⟨-, -, h⟩ | ⟨-, -, h⟩ | ⟨_, _, -, h⟩ <;> rw [h] at he <;> cases he
  | _ => cases he

theorem notifyAll_inv {s s' : State} (h : Step s .notifyAll s') : s.pendAll = true ∧
    s' = { s with workers := s.workers.map (fun w => if w = Worker.waiting then Worker.ready else w), pendAll := false } := by
  generalize he : Event.notifyAll = e at h
  cases h with
  | notifyAll hst => exact ⟨hst, rfl⟩
  | enter pre post hw =>
    exfalso
    rcases enter_cases s.stop s.queue with ⟨-, -, h⟩ | ⟨-, -, h⟩ | ⟨_, _, -, h⟩ <;> rw [h] at he <;> cases he
  | _ => cases he

theorem xinv_init (n : Nat) : XInv n (xinit n) := by
  constructor <;> simp [xinit, init]
  all_goals intros; simp_all

theorem xinv_step {n : Nat} {x x' : XState} {e : XEvent} (h : XInv n x) (hs : XStep x e x') : XInv n x' := by
  cases hs with
  | setId i hi hb =>
    refine ⟨h.len, ?_, ?_, ?_, ?_, ?_, h.idle, h.called, h.task, h.joined, h.done⟩
    · intro j; simp only [upd]; have := h.boot j; split <;> omega
    · intro j hj; simp only [upd] at hj ⊢; split
      · rename_i hji; exact hji.symm
      · rename_i hji; simp only [if_neg hji] at hj; exact h.id1 j hj
    · intro j; simp only [upd]; split
      · rename_i hji; subst hji
        have := h.id2 j; rw [hb] at this; simp at this; simp [this]
      · exact h.id2 j
    · intro j hj; simp only [upd] at hj; split at hj
      · rename_i hji; subst hji; rw [← h.len]; exact hi
      · exact h.lt j hj
    · intro j hj hj2; simp only [upd] at hj2
      by_cases hji : j = i
      · subst hji; exact h.fresh j hj (by omega)
      · rw [if_neg hji] at hj2; exact h.fresh j hj hj2
  | setPool i hi hb =>
    refine ⟨h.len, ?_, ?_, ?_, ?_, ?_, h.idle, h.called, h.task, h.joined, h.done⟩
    · intro j; simp only [upd]; have := h.boot j; split <;> omega
    · intro j hj; simp only [upd] at hj
      by_cases hji : j = i
      · subst hji; exact h.id1 j (by omega)
      · rw [if_neg hji] at hj; exact h.id1 j hj
    · intro j; simp only [upd]; split
      · simp
      · exact h.id2 j
    · intro j hj; simp only [upd] at hj; split at hj
      · rename_i hji; subst hji; rw [← h.len]; exact hi
      · exact h.lt j hj
    · intro j hj hj2; simp only [upd] at hj2
      by_cases hji : j = i
      · subst hji; simp at hj2
      · rw [if_neg hji] at hj2; exact h.fresh j hj hj2
  | base e b hb hn1 hn2 hok =>
    obtain ⟨hst, hpa⟩ := stop_step hb hn1 hn2
    have same : ∀ i, x.boot i ≠ 2 ∨ x.busy i → x.base.workers[i]? = b.workers[i]? := by
      intro i hi
      apply Classical.byContradiction
      intro hne
      have := hok i hne
      rcases hi with hi | hi
      · exact hi this.1
      · exact this.2 hi
    refine ⟨by rw [← h.len]; exact len_step hb, h.boot, h.id1, h.id2, h.lt, ?_, ?_, ?_, ?_, ?_, ?_⟩
    · intro i hi hi2; rw [← same i (.inl hi2)]; exact h.fresh i hi hi2
    · intro hc; have := h.idle hc; simp only [hst, hpa]; exact this
    · intro c hc; have := h.called c hc; simp only [hst, hpa]; exact this
    · intro c i hc hi
      obtain ⟨h1, h2⟩ := h.task c i hc hi
      refine ⟨h1, ?_⟩
      rw [← same i (.inr ⟨c, hc, hi, h1⟩)]
      exact h2
    · intro c k hc hp
      obtain ⟨h1, h2⟩ := h.joined c k hc hp
      exact ⟨h1, fun i hi => exited_stays hb (h2 i hi)⟩
    · intro c hc hp i hi; exact exited_stays hb (h.done c hc hp i hi)
  | stop caller b hb hcall =>
    obtain ⟨hst, rfl⟩ := stop_inv hb
    · refine ⟨h.len, h.boot, h.id1, h.id2, h.lt, h.fresh, by simp, ?_, ?_, ?_, ?_⟩
      · intro c hc; cases hc; simp
      · intro c i hc hi; cases hc; exact ⟨by simp, hcall i hi⟩
      · intro c k hc hp; cases hc; cases hp
      · intro c hc hp; cases hc; cases hp
  | notifyAll caller b hb hcall =>
    have hst := h.called _ hcall
    obtain ⟨hp, rfl⟩ := notifyAll_inv hb
    · have get : ∀ (i : Nat) (w : Worker), x.base.workers[i]? = some w → w ≠ .waiting →
          (x.base.workers.map (fun w => if w = Worker.waiting then Worker.ready else w))[i]? = some w := by
        intro i w hi hw; simp [hi, hw]
      refine ⟨by simpa using h.len, h.boot, h.id1, h.id2, h.lt, ?_, by simp, ?_, ?_, ?_, ?_⟩
      · intro i hi hi2; exact get i _ (h.fresh i hi hi2) (by simp)
      · intro c hc; cases hc; simp [hst.1]
      · intro c i hc hi; cases hc
        obtain ⟨-, t, h2⟩ := h.task _ i hcall hi
        exact ⟨by simp, t, get i _ h2 (by simp)⟩
      · intro c k hc hp; cases hc; cases hp; simp
      · intro c hc hp; cases hc; cases hp
  | join caller k hcall hne hex =>
    have hj := h.joined _ k hcall rfl
    refine ⟨h.len, h.boot, h.id1, h.id2, h.lt, h.fresh, by simp, ?_, ?_, ?_, ?_⟩
    · intro c hc; cases hc; have := h.called _ hcall; simpa using this
    · intro c i hc hi; cases hc
      obtain ⟨-, h2⟩ := h.task _ i hcall hi
      exact ⟨by simp, h2⟩
    · intro c k' hc hp; cases hc; cases hp
      have : k < n := by
        rw [← h.len]
        exact (List.getElem?_eq_some_iff.1 hex).1
      refine ⟨by omega, ?_⟩
      intro i hi
      rcases Nat.lt_or_ge i k with hik | hik
      · exact hj.2 i hik
      · have : i = k := by omega
        subst this; exact hex
    · intro c hc hp; cases hc; cases hp
  | selfJoin k hcall =>
    refine ⟨h.len, h.boot, h.id1, h.id2, h.lt, h.fresh, by simp, ?_, ?_, ?_, ?_⟩
    · intro c hc; cases hc; have := h.called _ hcall; simpa using this
    · intro c i hc hi; cases hc
      obtain ⟨-, h2⟩ := h.task _ i hcall hi
      exact ⟨by simp, h2⟩
    · intro c k' hc hp; cases hc; cases hp
    · intro c hc hp; cases hc; cases hp
  | ret caller hcall =>
    have hj := h.joined _ _ hcall rfl
    rw [h.len] at hj
    have hno : ∀ i, caller ≠ some i := by
      intro i hi
      obtain ⟨-, t, h2⟩ := h.task _ i hcall hi
      have hlt : i < n := by rw [← h.len]; exact (List.getElem?_eq_some_iff.1 h2).1
      rw [hj.2 i hlt] at h2
      cases h2
    refine ⟨h.len, h.boot, h.id1, h.id2, h.lt, h.fresh, by simp, ?_, ?_, ?_, ?_⟩
    · intro c hc; cases hc; have := h.called _ hcall; simpa using this
    · intro c i hc hi; cases hc; exact absurd hi (hno i)
    · intro c k' hc hp; cases hc; cases hp
    · intro c hc hp; cases hc; exact hj.2

theorem xinv_run {n : Nat} {es : List XEvent} {x : XState} (h : XRun n es x) : XInv n x := by
  unfold XRun at h
  induction h with
  | nil => exact xinv_init n
  | snoc _ h2 ih => exact xinv_step ih h2

/-- The call of `Stop` is over exactly when it returned. -/
theorem returned_done {n : Nat} {es : List XEvent} {x : XState} (h : XRun n es x) (hr : .stopReturned ∈ es) :
    ∃ c, x.call = some c ∧ c.phase = .done := by
  have hi := xinv_run h
  unfold XRun at h
  induction h with
  | nil => simp at hr
  | @snoc es x x' e h1 h2 ih =>
    have hx := xinv_run h1
    have old : XEvent.stopReturned ∈ es → ∃ c, x.call = some c ∧ c.phase = .done := fun hm => ih hm hx
    cases h2 with
    | setId i _ _ => exact old (by simpa using hr)
    | setPool i _ _ => exact old (by simpa using hr)
    | base e b hb _ _ _ => exact old (by simpa using hr)
    | stop c b hb _ =>
      obtain ⟨c', hc', _⟩ := old (by simpa using hr)
      have := (hx.called c' hc').1
      have hst := (stop_inv hb).1
      rw [this] at hst; cases hst
    | notifyAll c b hb hc =>
      obtain ⟨c', hc', hp⟩ := old (by simpa using hr)
      rw [hc] at hc'; cases hc'; cases hp
    | join c k hc _ _ =>
      obtain ⟨c', hc', hp⟩ := old (by simpa using hr)
      rw [hc] at hc'; cases hc'; cases hp
    | selfJoin k hc =>
      obtain ⟨c', hc', hp⟩ := old (by simpa using hr)
      rw [hc] at hc'; cases hc'; cases hp
    | ret c hc => exact ⟨_, rfl, rfl⟩

/-- C66. When the call of `Stop` that stopped the pool has returned, every worker thread has ended and (if the pool has a worker)
every task that was ever accepted has been called and has returned, exactly once. -/
theorem C66_stop_returns_after_all {n : Nat} {es : List XEvent} {x : XState} (h : XRun n es x) (hr : .stopReturned ∈ es) :
    (∀ w ∈ x.base.workers, w = .exited) ∧
    (0 < n → (starts (taskEvents es)).Perm (pushes (taskEvents es)) ∧ (finishes (taskEvents es)).Perm (pushes (taskEvents es))) := by
  obtain ⟨c, hc, hp⟩ := returned_done h hr
  have hi := xinv_run h
  have hex : ∀ w ∈ x.base.workers, w = .exited := by
    intro w hw
    obtain ⟨i, hlt, rfl⟩ := List.getElem_of_mem hw
    have := hi.done c hc hp i (by rw [← hi.len]; exact hlt)
    rw [List.getElem?_eq_getElem hlt] at this
    simpa using this
  exact ⟨hex, fun hn => C39_exactly_once_when_stopped (xrun_base h) hn hex⟩

/-- C66. A `Stop` made by a task never returns: the task waits for its own thread to end, which `join` notices and throws. -/
theorem C66_stop_in_task_never_returns {n : Nat} {es : List XEvent} {x : XState} (h : XRun n es x) (c : StopCall) (i : Nat)
    (hc : x.call = some c) (hi : c.caller = some i) :
    .stopReturned ∉ es ∧ ∃ t, x.base.workers[i]? = some (.running t) ∧ t ∉ finishes (taskEvents es) := by
  have hx := xinv_run h
  refine ⟨?_, ?_⟩
  · intro hr
    obtain ⟨c', hc', hp⟩ := returned_done h hr
    rw [hc] at hc'; cases hc'
    exact (hx.task c i hc hi).1 hp
  · obtain ⟨-, t, ht⟩ := hx.task c i hc hi
    refine ⟨t, ht, ?_⟩
    intro hf
    have hr := xrun_base h
    have inv := inv_run hr
    have h1 := inv.runs t
    have h2 := count_le_one (C39_at_most_once hr).1 t
    have h3 : 0 < (finishes (taskEvents es)).count t := List.count_pos_iff.2 hf
    have h4 : 0 < (x.base.workers.flatMap Worker.runs).count t := by
      apply List.count_pos_iff.2
      rw [List.mem_flatMap]
      exact ⟨_, List.mem_of_getElem? ht, by simp [Worker.runs]⟩
    omega

/-- The steps a thread takes without being called from outside. -/
def XEvent.external : XEvent → Bool
  | .base e => e.external
  | _ => false

theorem XSteps.trans {x x' x'' : XState} {es es' : List XEvent} (h : XSteps x es x') (h' : XSteps x' es' x'') :
    XSteps x (es ++ es') x'' := by
  induction h' with
  | nil => simpa using h
  | snoc _ h2 ih => rw [← List.append_assoc]; exact ih.snoc h2

/-- All workers reach their loops. -/
theorem boots {n : Nat} (m : Nat) (hm : m ≤ n) : ∀ (x : XState), XInv n x →
    ∃ es x', XSteps x es x' ∧ (∀ e ∈ es, e.external = false) ∧ x'.base = x.base ∧ x'.call = x.call ∧ XInv n x' ∧
      (∀ i < m, x'.boot i = 2) ∧ ∀ i, x.boot i = 2 → x'.boot i = 2 := by
  induction m with
  | zero => intro x h; exact ⟨[], x, .nil, by simp, rfl, rfl, h, by simp, fun _ h => h⟩
  | succ m ih =>
    intro x h
    obtain ⟨es, x1, h1, h2, h3, h4, h5, h6, h7⟩ := ih (by omega) x h
    have two : ∀ (y : XState), XInv n y → y.boot m = 1 → ∃ es y', XSteps y es y' ∧ (∀ e ∈ es, e.external = false) ∧
        y'.base = y.base ∧ y'.call = y.call ∧ XInv n y' ∧ y'.boot m = 2 ∧ ∀ i, y.boot i = 2 → y'.boot i = 2 := by
      intro y hy hb
      have st := XStep.setPool y m (by rw [hy.len]; omega) hb
      exact ⟨[.boot m], _, XSteps.snoc .nil st, by simp [XEvent.external], rfl, rfl, xinv_step hy st, by simp [upd],
        fun i hi => by simp only [upd]; split <;> simp_all⟩
    have any : ∃ es y', XSteps x1 es y' ∧ (∀ e ∈ es, e.external = false) ∧
        y'.base = x1.base ∧ y'.call = x1.call ∧ XInv n y' ∧ y'.boot m = 2 ∧ ∀ i, x1.boot i = 2 → y'.boot i = 2 := by
      have hb := h5.boot m
      rcases (by omega : x1.boot m = 0 ∨ x1.boot m = 1 ∨ x1.boot m = 2) with h0 | h0 | h0
      · have st := XStep.setId x1 m (by rw [h5.len]; omega) h0
        obtain ⟨es', y', g1, g2, g3, g4, g5, g6, g7⟩ := two _ (xinv_step h5 st) (by simp [upd])
        refine ⟨[.boot m] ++ es', y', XSteps.trans (XSteps.snoc .nil st) g1, ?_, g3, g4, g5, g6, ?_⟩
        · intro e he
          rcases List.mem_append.1 he with he | he
          · simp at he; subst he; rfl
          · exact g2 e he
        · intro i hi
          apply g7
          simp only [upd]
          split
          · subst i; omega
          · exact hi
      · exact two x1 h5 h0
      · exact ⟨[], x1, .nil, by simp, rfl, rfl, h5, h0, fun _ h => h⟩
    obtain ⟨es', y', g1, g2, g3, g4, g5, g6, g7⟩ := any
    refine ⟨es ++ es', y', XSteps.trans h1 g1, ?_, by rw [g3, h3], by rw [g4, h4], g5, ?_, fun i hi => g7 i (h7 i hi)⟩
    · intro e he
      rcases List.mem_append.1 he with he | he
      · exact h2 e he
      · exact g2 e he
    · intro i hi
      rcases Nat.lt_or_ge i m with him | him
      · exact g7 i (h6 i him)
      · have : i = m := by omega
        subst this; exact g6

/-- Steps of the pool can be made here too, when all workers are in their loops and no task is inside `Stop`; `notify_all` is made
by the pending call. -/
theorem lift {n : Nat} {s s' : State} {es : List Event} (h : Steps s es s') : ∀ (x : XState), x.base = s → XInv n x →
    (∀ i < n, x.boot i = 2) → (∃ p, x.call = some ⟨none, p⟩ ∧ (p = .notify ∨ p = .join 0)) → (∀ e ∈ es, e.external = false) →
    ∃ es' x', XSteps x es' x' ∧ (∀ e ∈ es', e.external = false) ∧ x'.base = s' ∧ XInv n x' ∧ (∀ i < n, x'.boot i = 2) ∧
      ∃ p, x'.call = some ⟨none, p⟩ ∧ (p = .notify ∨ p = .join 0) := by
  induction h with
  | nil => intro x h1 h2 h3 h4 _; exact ⟨[], x, .nil, by simp, h1, h2, h3, h4⟩
  | @snoc es s1 s2 e h1 h2 ih =>
    intro x hx hi hb hc hext
    obtain ⟨es', x1, g1, g2, g3, g4, g5, p, g6, g7⟩ := ih x hx hi hb hc (fun e he => hext e (by simp [he]))
    have hee : e.external = false := hext e (by simp)
    by_cases hna : e = .notifyAll
    · subst hna
      have hst : p = .notify := by
        have := (g4.called _ g6).2
        rw [g3] at this; exact this.1 (notifyAll_inv h2).1
      subst hst
      have st := XStep.notifyAll x1 none s2 (by rw [g3]; exact h2) g6
      refine ⟨es' ++ [.base .notifyAll], _, g1.snoc st, ?_, rfl, xinv_step g4 st, g5, .join 0, rfl, .inr rfl⟩
      intro e he
      rcases List.mem_append.1 he with he | he
      · exact g2 e he
      · simp at he; subst he; rfl
    · have hns : e ≠ .stop := by rintro rfl; simp [Event.external] at hee
      have st := XStep.base x1 e s2 (by rw [g3]; exact h2) hns hna (by
        intro i hne
        refine ⟨?_, ?_⟩
        · apply g5
          apply Classical.byContradiction
          intro hge
          apply hne
          have e1 : x1.base.workers.length = n := g4.len
          have e2 : s2.workers.length = n := by rw [← e1, g3]; exact len_step h2
          rw [List.getElem?_eq_none (by omega), List.getElem?_eq_none (by omega)]
        · rintro ⟨c, hc1, hc2, -⟩
          rw [g6] at hc1; cases hc1; cases hc2)
      refine ⟨es' ++ [.base e], _, g1.snoc st, ?_, rfl, xinv_step g4 st, g5, p, g6, g7⟩
      intro e' he
      rcases List.mem_append.1 he with he | he
      · exact g2 e' he
      · simp at he; subst he; exact hee

/-- The `join` loop when all workers have ended. -/
theorem joins {n : Nat} (m : Nat) : ∀ (k : Nat) (x : XState), k + m = n → XInv n x → x.call = some ⟨none, .join k⟩ →
    (∀ i < n, x.base.workers[i]? = some .exited) →
    ∃ es x', XSteps x es x' ∧ (∀ e ∈ es, e.external = false) ∧ .stopReturned ∈ es := by
  induction m with
  | zero =>
    intro k x hk hi hc hex
    have st := XStep.ret x none (by rw [hi.len, ← hk]; exact hc)
    exact ⟨[.stopReturned], _, XSteps.snoc .nil st, by simp [XEvent.external], by simp⟩
  | succ m ih =>
    intro k x hk hi hc hex
    have st := XStep.join x none k hc (by simp) (hex k (by omega))
    obtain ⟨es, x', h1, h2, h3⟩ := ih (k + 1) _ (by omega) (xinv_step hi st) rfl hex
    refine ⟨[.joined k] ++ es, x', XSteps.trans (XSteps.snoc .nil st) h1, ?_, by simp [h3]⟩
    intro e he
    rcases List.mem_append.1 he with he | he
    · simp at he; subst he; rfl
    · exact h2 e he

/-- C66. A call of `Stop` (or of the destructor) made by a thread that is no worker can always go on until it returns: from every
state in which it is under way, the workers and the call itself get there without any further call. -/
theorem C66_stop_can_return {n : Nat} {es : List XEvent} {x : XState} (h : XRun n es x) (hn : 0 < n) (p : Phase)
    (hc : x.call = some ⟨none, p⟩) (hp : p ≠ .done) :
    ∃ es' x', XSteps x es' x' ∧ (∀ e ∈ es', e.external = false) ∧ .stopReturned ∈ es' := by
  have hi := xinv_run h
  obtain ⟨es1, x1, a1, a2, a3, a4, a5, a6, -⟩ := boots (n := n) n (Nat.le_refl n) x hi
  have r1 : XRun n (es ++ es1) x1 := XSteps.trans h a1
  have hst : x1.base.stop = true := by rw [a3]; exact (hi.called _ hc).1
  cases p with
  | done => exact absurd rfl hp
  | selfJoin =>
    exfalso
    have : ∀ {es : List XEvent} {x : XState}, XRun n es x → ∀ c, x.call = some c → c.phase = .selfJoin → c.caller ≠ none := by
      intro es x h
      unfold XRun at h
      induction h with
      | nil => intro c hc; simp [xinit] at hc
      | @snoc es x x' e h1 h2 ih =>
        intro c hc hp
        cases h2 with
        | setId _ _ _ => exact ih c hc hp
        | setPool _ _ _ => exact ih c hc hp
        | base _ _ _ _ _ _ => exact ih c hc hp
        | stop _ _ _ _ => cases hc; cases hp
        | notifyAll _ _ _ _ => cases hc; cases hp
        | join _ _ _ _ _ => cases hc; cases hp
        | selfJoin _ _ => cases hc; simp
        | ret _ _ => cases hc; cases hp
    exact this h _ hc rfl rfl
  | notify =>
    obtain ⟨es2, s2, b1, b2, b3, b4⟩ := C40_drains (xrun_base r1) hn
    rw [hst] at b4
    obtain ⟨es3, x3, c1, c2, c3, c4, c5, q, c6, c7⟩ := lift b1 x1 rfl a5 a6 ⟨.notify, by rw [a4]; exact hc, .inl rfl⟩ b2
    have hex : ∀ i < n, x3.base.workers[i]? = some .exited := by
      intro i hi'
      have hl : i < x3.base.workers.length := by rw [c4.len]; exact hi'
      rw [List.getElem?_eq_getElem hl]
      have := b4 x3.base.workers[i] (by rw [← c3]; exact List.getElem_mem hl)
      simpa using this
    have tail : ∀ (y : XState) (es0 : List XEvent), XSteps x es0 y → (∀ e ∈ es0, e.external = false) → XInv n y →
        y.call = some ⟨none, .join 0⟩ → (∀ i < n, y.base.workers[i]? = some .exited) →
        ∃ es' x', XSteps x es' x' ∧ (∀ e ∈ es', e.external = false) ∧ .stopReturned ∈ es' := by
      intro y es0 d1 d2 d3 d4 d5
      obtain ⟨es4, x4, e1, e2, e3⟩ := joins n 0 y (by omega) d3 d4 d5
      refine ⟨es0 ++ es4, x4, XSteps.trans d1 e1, ?_, by simp [e3]⟩
      intro e he
      rcases List.mem_append.1 he with he | he
      · exact d2 e he
      · exact e2 e he
    have pre : XSteps x (es1 ++ es3) x3 := XSteps.trans a1 c1
    have pext : ∀ e ∈ es1 ++ es3, e.external = false := by
      intro e he
      rcases List.mem_append.1 he with he | he
      · exact a2 e he
      · exact c2 e he
    rcases c7 with rfl | rfl
    · have hpa : x3.base.pendAll = true := ((c4.called _ c6).2).2 rfl
      have st := XStep.notifyAll x3 none _ (Step.notifyAll x3.base hpa) c6
      refine tail _ _ (pre.snoc st) ?_ (xinv_step c4 st) rfl ?_
      · intro e he
        rcases List.mem_append.1 he with he | he
        · exact pext e he
        · simp at he; subst he; rfl
      · intro i hi'; simp [hex i hi']
    · exact tail x3 _ pre pext c4 c6 hex
  | join k =>
    obtain ⟨es2, s2, b1, b2, b3, b4⟩ := C40_drains (xrun_base r1) hn
    rw [hst] at b4
    have npa : ∀ {s s' : State} {es : List Event}, Steps s es s' → s.pendAll = false → (∀ e ∈ es, e.external = false) →
        ∀ (y : XState), y.base = s → XInv n y → (∀ i < n, y.boot i = 2) → y.call = some ⟨none, .join k⟩ →
        ∃ es' y', XSteps y es' y' ∧ (∀ e ∈ es', e.external = false) ∧ y'.base = s' ∧ XInv n y' ∧ (∀ i < n, y'.boot i = 2) ∧
          y'.call = some ⟨none, .join k⟩ ∧ s'.pendAll = false := by
      intro s s' es h
      induction h with
      | nil => intro hp _ y h1 h2 h3 h4; exact ⟨[], y, .nil, by simp, h1, h2, h3, h4, hp⟩
      | @snoc es s1 s2 e h1 h2 ih =>
        intro hp hext y hy hi hb hc
        obtain ⟨es', y1, g1, g2, g3, g4, g5, g6, g7⟩ := ih hp (fun e he => hext e (by simp [he])) y hy hi hb hc
        have hee : e.external = false := hext e (by simp)
        have hna : e ≠ .notifyAll := by
          rintro rfl
          have hpp := (notifyAll_inv h2).1
          rw [g7] at hpp; cases hpp
        have hns : e ≠ .stop := by rintro rfl; simp [Event.external] at hee
        have st := XStep.base y1 e s2 (by rw [g3]; exact h2) hns hna (by
          intro i hne
          refine ⟨?_, ?_⟩
          · apply g5
            apply Classical.byContradiction
            intro hge
            apply hne
            have e1 : y1.base.workers.length = n := g4.len
            have e2 : s2.workers.length = n := by rw [← e1, g3]; exact len_step h2
            rw [List.getElem?_eq_none (by omega), List.getElem?_eq_none (by omega)]
          · rintro ⟨c, hc1, hc2, -⟩
            rw [g6] at hc1; cases hc1; cases hc2)
        refine ⟨es' ++ [.base e], _, g1.snoc st, ?_, rfl, xinv_step g4 st, g5, g6, ?_⟩
        · intro e' he
          rcases List.mem_append.1 he with he | he
          · exact g2 e' he
          · simp at he; subst he; exact hee
        · rw [(stop_step h2 hns hna).2]; exact g7
    have hpa : x1.base.pendAll = false := by
      have := (a5.called _ (by rw [a4]; exact hc)).2
      cases hq : x1.base.pendAll with
      | false => rfl
      | true => have := this.1 hq; cases this
    obtain ⟨es3, x3, c1, c2, c3, c4, c5, c6, -⟩ := npa b1 hpa b2 x1 rfl a5 a6 (by rw [a4]; exact hc)
    have hex : ∀ i < n, x3.base.workers[i]? = some .exited := by
      intro i hi'
      have hl : i < x3.base.workers.length := by rw [c4.len]; exact hi'
      rw [List.getElem?_eq_getElem hl]
      have := b4 x3.base.workers[i] (by rw [← c3]; exact List.getElem_mem hl)
      simpa using this
    have hk := (c4.joined _ k c6 rfl).1
    obtain ⟨es4, x4, e1, e2, e3⟩ := joins (n - k) k x3 (by omega) c4 c6 hex
    refine ⟨es1 ++ es3 ++ es4, x4, XSteps.trans (XSteps.trans a1 c1) e1, ?_, by simp [e3]⟩
    intro e he
    rcases List.mem_append.1 he with he | he
    · rcases List.mem_append.1 he with he | he
      · exact a2 e he
      · exact c2 e he
    · exact e2 e he

/-- The first step of a nonempty execution. -/
theorem first_step {x x' : XState} {es : List XEvent} (h : XSteps x es x') : es = [] ∨ ∃ e y, XStep x e y ∧ e ∈ es := by
  induction h with
  | nil => exact .inl rfl
  | @snoc es y y' e h1 h2 ih =>
    rcases ih with hnil | ⟨e', z, h3, h4⟩
    · generalize es = l at h1 hnil
      cases h1 with
      | nil => exact .inr ⟨e, y', h2, by simp⟩
      | snoc _ _ => simp at hnil
    · exact .inr ⟨e', z, h3, by simp [h4]⟩

/-- What is left of the beginnings of the threads and of the `join` loop. -/
def StopCall.left (n : Nat) : Option StopCall → Nat
  | none => n + 1
  | some ⟨_, .notify⟩ => n + 1
  | some ⟨_, .join k⟩ => n - k + 1
  | some _ => 0

def XState.left (n : Nat) (x : XState) : Nat := ((List.range n).map fun i => 2 - x.boot i).sum + StopCall.left n x.call

theorem sum_upd (f : Nat → Nat) (g : Nat → Nat) (n i : Nat) (hi : i < n) (h : g i + 1 = f i) (h' : ∀ j, j ≠ i → g j = f j) :
    ((List.range n).map g).sum + 1 = ((List.range n).map f).sum := by
  induction n with
  | zero => omega
  | succ n ih =>
    simp only [List.range_succ, List.map_append, List.sum_append, List.map_cons, List.map_nil, List.sum_cons, List.sum_nil]
    by_cases hin : i = n
    · subst hin
      have : ((List.range i).map g) = ((List.range i).map f) := by
        apply List.map_congr_left
        intro j hj
        exact h' j (by have := List.mem_range.1 hj; omega)
      rw [this]; omega
    · have := ih (by omega)
      rw [h' n (fun h => hin h.symm)]; omega

theorem left_step {n : Nat} {x x' : XState} {e : XEvent} (hi : XInv n x) (h : XStep x e x') :
    x'.left n + (if e.base?.isSome then 0 else 1) ≤ x.left n := by
  cases h with
  | setId i hl hb =>
    have := sum_upd (fun j => 2 - x.boot j) (fun j => 2 - upd x.boot i 1 j) n i (by rw [← hi.len]; exact hl)
      (by simp [upd, hb]) (fun j hj => by simp [upd, hj])
    simp only [XState.left, XEvent.base?, Option.isSome_none, Bool.false_eq_true, if_false]; omega
  | setPool i hl hb =>
    have := sum_upd (fun j => 2 - x.boot j) (fun j => 2 - upd x.boot i 2 j) n i (by rw [← hi.len]; exact hl)
      (by simp [upd, hb]) (fun j hj => by simp [upd, hj])
    simp only [XState.left, XEvent.base?, Option.isSome_none, Bool.false_eq_true, if_false]; omega
  | base e b _ _ _ _ => simp [XState.left, XEvent.base?]
  | stop c b hb _ =>
    have hc : x.call = none := by
      cases hc : x.call with
      | none => rfl
      | some c => have := (hi.called c hc).1; rw [(stop_inv hb).1] at this; cases this
    simp [XState.left, XEvent.base?, hc, StopCall.left]
  | notifyAll c b hb hc => simp [XState.left, XEvent.base?, hc, StopCall.left]
  | join c k hc _ hex =>
    have : k < n := by rw [← hi.len]; exact (List.getElem?_eq_some_iff.1 hex).1
    simp only [XState.left, XEvent.base?, hc, StopCall.left, Option.isSome_none, Bool.false_eq_true, if_false]; omega
  | selfJoin k hc =>
    simp only [XState.left, XEvent.base?, hc, StopCall.left, Option.isSome_none, Bool.false_eq_true, if_false]; omega
  | ret c hc => simp [XState.left, XEvent.base?, hc, StopCall.left]

/-- C66. Every schedule gets there: an execution from a state in which the call is under way, that goes on without further calls
until nothing but further calls could happen, has made the call return; and no execution at all can go on for ever without further
calls: besides the steps counted in C40 there are at most `3 n + 1`. -/
theorem C66_stop_always_returns {n : Nat} {es es' : List XEvent} {x x' : XState} (h : XRun n es x) (h' : XSteps x es' x') :
    (0 < n → (∃ p, x'.call = some ⟨none, p⟩) → (∀ e y, XStep x' e y → e.external = true) → .stopReturned ∈ es ++ es') ∧
    es'.countP (fun e => !e.external) ≤
      3 * x.base.queue.length + 2 * x.base.pendOne + (4 * n + 1) + 5 * (pushes (taskEvents es')).length +
        (n + 1) * (taskEvents es').count .stop + (taskEvents es').count .spurious + (3 * n + 1) := by
  have hr : XRun n (es ++ es') x' := XSteps.trans h h'
  have back : ∀ {es : List XEvent} {x : XState}, XRun n es x → ∀ c, x.call = some c → c.phase = .done → .stopReturned ∈ es := by
    intro es x h
    unfold XRun at h
    induction h with
    | nil => intro c hc; simp [xinit] at hc
    | @snoc es x x' e h1 h2 ih =>
      intro c hc hp
      rw [List.mem_append]
      cases h2 with
      | setId _ _ _ => exact .inl (ih c hc hp)
      | setPool _ _ _ => exact .inl (ih c hc hp)
      | base _ _ _ _ _ _ => exact .inl (ih c hc hp)
      | stop _ _ _ _ => cases hc; cases hp
      | notifyAll _ _ _ _ => cases hc; cases hp
      | join _ _ _ _ _ => cases hc; cases hp
      | selfJoin _ _ => cases hc; cases hp
      | ret _ _ => exact .inr (by simp)
  refine ⟨?_, ?_⟩
  · rintro hn ⟨p, hc⟩ hstuck
    by_cases hp : p = .done
    · exact back hr _ hc hp
    · exfalso
      obtain ⟨es1, x1, h1, h2, h3⟩ := C66_stop_can_return hr hn p hc hp
      rcases first_step h1 with rfl | ⟨e, y, h4, h5⟩
      · simp at h3
      · have := hstuck e y h4
        rw [h2 e h5] at this; cases this
  · have hb : Steps x.base (taskEvents es') x'.base := by
      clear back hr
      induction h' with
      | nil => exact .nil
      | @snoc es x x' e h1 h2 ih =>
        unfold taskEvents at ih ⊢
        rw [List.filterMap_append]
        cases h2 with
        | base e b hb => exact ih.snoc hb
        | stop c b hb => exact ih.snoc hb
        | notifyAll c b hb hc => exact ih.snoc hb
        | _ => simpa only [List.filterMap_cons, List.filterMap_nil, XEvent.base?, List.append_nil] using ih
    have b1 := C40_steps_bounded (xrun_base h) hb
    have split : es'.countP (fun e => !e.external) ≤
        (taskEvents es').countP (fun e => !e.external) + es'.countP (fun e => !e.base?.isSome) := by
      clear h' hb b1 hr back
      have pb : ∀ e, (fun e : XEvent => !e.external) (.base e) = !e.external := fun e => rfl
      have pn : ∀ e : XEvent, e.base? = none → (fun e : XEvent => !e.base?.isSome) e = true := fun e he => by simp [he]
      have qb : ∀ e, (fun e : XEvent => !e.base?.isSome) (.base e) = false := fun e => rfl
      generalize (fun e : XEvent => !e.external) = p at *
      generalize (fun e : XEvent => !e.base?.isSome) = q at *
      induction es' with
      | nil => simp
      | cons e es' ih =>
        cases he : e.base? with
        | some e' =>
          have : e = .base e' := by cases e <;> simp [XEvent.base?] at he; rw [he]
          subst this
          have h1 : taskEvents (.base e' :: es') = e' :: taskEvents es' := rfl
          rw [h1, List.countP_cons, List.countP_cons, List.countP_cons, pb, qb]
          simp only [Bool.false_eq_true, if_false]
          omega
        | none =>
          have h1 : taskEvents (e :: es') = taskEvents es' := by simp [taskEvents, he]
          rw [h1, List.countP_cons, List.countP_cons, pn e he]
          simp only [if_true]
          split <;> omega
    have b2 : es'.countP (fun e => !e.base?.isSome) + x'.left n ≤ x.left n := by
      have hx := xinv_run h
      clear hb b1 hr back split
      induction h' with
      | nil => simp
      | @snoc es1 y y' e h1 h2 ih =>
        have := left_step (xinv_run (XSteps.trans h h1)) h2
        rw [List.countP_append, List.countP_singleton]
        have ih := ih
        cases he : e.base?.isSome <;> simp only [he, if_true, if_false, Bool.false_eq_true, Bool.not_true, Bool.not_false] at this ⊢ <;>
          omega
    have b3 : x.left n ≤ 3 * n + 1 := by
      have : ((List.range n).map fun i => 2 - x.boot i).sum ≤ 2 * n := by
        generalize x.boot = f
        clear split b1 b2 hb hr back h' h
        induction n with
        | zero => simp
        | succ n ih => simp [List.range_succ]; omega
      have h2 : StopCall.left n x.call ≤ n + 1 := by
        cases x.call with
        | none => simp [StopCall.left]
        | some c => obtain ⟨c, p⟩ := c; cases p <;> simp [StopCall.left]
      simp only [XState.left]; omega
    omega

/-- C66. While a task runs on the `i`-th worker, `GetCurrentId()` (and `currentContextId()`) called by it is `i`, which is below
the number of workers, and `currentThreadInExecutor()` is true; on every other thread they are `size_t(-1)` and false.  So two tasks
that run at the same time see different identities. -/
theorem C66_identity {n : Nat} {es : List XEvent} {x : XState} (h : XRun n es x) (hn : n < 2 ^ 64) :
    (∀ i t, x.base.workers[i]? = some (.running t) → x.currentId (some i) = i ∧ i < n ∧ x.inExecutor (some i) = true) ∧
    x.currentId none = 2 ^ 64 - 1 ∧ x.inExecutor none = false := by
  have hi := xinv_run h
  refine ⟨?_, rfl, by simp [XState.inExecutor, XState.currentId]⟩
  intro i t ht
  have hlt : i < n := by rw [← hi.len]; exact (List.getElem?_eq_some_iff.1 ht).1
  have hb : x.boot i = 2 := by
    apply Classical.byContradiction
    intro hne
    have := hi.fresh i hlt hne
    rw [ht] at this; cases this
  have hid : x.currentId (some i) = i := by
    simp [XState.currentId, (hi.id2 i).2 hb, hi.id1 i (by omega)]
  refine ⟨hid, hlt, ?_⟩
  simp only [XState.inExecutor, hid, noId, Bool.not_eq_true', decide_eq_false_iff_not]
  omega

/-- The first task of a pool of one worker calls `Stop` itself. -/
theorem selfStop_run : XRun 1
    [.boot 0, .boot 0, .base (.push 0), .base (.take 0), .base (.start 0), .base .stop, .base .notifyAll, .stopThrew]
    { base := { workers := [.running 0], stop := true, pendOne := 1, accepted := 1 }
      boot := upd (upd (fun _ => 0) 0 1) 0 2
      ids := upd (fun _ => noId) 0 0
      mine := upd (fun _ => false) 0 true
      call := some ⟨some 0, .selfJoin⟩ } := by
  have h := XSteps.nil (x := xinit 1)
  have h := h.snoc (XStep.setId _ 0 (by decide) rfl)
  have h := h.snoc (XStep.setPool _ 0 (by decide) rfl)
  have h := h.snoc (XStep.base _ _ _ (Step.push _ rfl) (by simp) (by simp) (by simp))
  have h := h.snoc (XStep.base _ _ _ (Step.enter _ [] [] rfl) (by simp [enter, xinit, init]) (by simp [enter, xinit, init]) (by
    intro i hi; cases i with
    | zero => exact ⟨rfl, by rintro ⟨c, hc, _⟩; cases hc⟩
    | succ i => simp [xinit, init, enter] at hi))
  have h := h.snoc (XStep.base _ _ _ (Step.start _ [] [] 0 rfl) (by simp) (by simp) (by
    intro i hi; cases i with
    | zero => exact ⟨rfl, by rintro ⟨c, hc, _⟩; cases hc⟩
    | succ i => simp [xinit, init, enter] at hi))
  have h := h.snoc (XStep.stop _ (some 0) _ (Step.stop _ rfl) (by intro i hi; cases hi; exact ⟨0, rfl⟩))
  have h := h.snoc (XStep.notifyAll _ (some 0) _ (Step.notifyAll _ rfl) rfl)
  have h := h.snoc (XStep.selfJoin _ 0 rfl)
  exact h

/-- C66: the limit.  Only the call that finds the pool running waits: a second `Stop`, made while the first is under way, returns at
once (`stopAgain`), here with one task still queued and never called. -/
theorem C66_second_stop_does_not_wait : ∃ es x, XRun 1 es x ∧ es.getLast? = some (.base .stopAgain) ∧
    pushes (taskEvents es) = [0] ∧ starts (taskEvents es) = [] ∧ x.base.queue = [0] := by
  have h := XSteps.nil (x := xinit 1)
  have h := h.snoc (XStep.base _ _ _ (Step.push _ rfl) (by simp) (by simp) (by simp))
  have h := h.snoc (XStep.stop _ none _ (Step.stop _ rfl) (by simp))
  have h := h.snoc (XStep.base _ _ _ (Step.stopAgain _ rfl) (by simp) (by simp) (by simp))
  exact ⟨_, _, h, rfl, rfl, rfl, rfl⟩

/-- Two workers; a client calls `Stop` while a task is queued. -/
example : ∃ es x, XRun 2 es x ∧ x.call = some ⟨none, .notify⟩ ∧ x.base.queue = [0] := by
  have h := XSteps.nil (x := xinit 2)
  have h := h.snoc (XStep.base _ _ _ (Step.push _ rfl) (by simp) (by simp) (by simp))
  have h := h.snoc (XStep.stop _ none _ (Step.stop _ rfl) (by simp))
  exact ⟨_, _, h, rfl, rfl⟩

/-- So there are executions in which `Stop` returns. -/
example : ∃ es x, XRun 2 es x ∧ .stopReturned ∈ es := by
  have h := XSteps.nil (x := xinit 2)
  have h := h.snoc (XStep.base _ _ _ (Step.push _ rfl) (by simp) (by simp) (by simp))
  have h := h.snoc (XStep.stop _ none _ (Step.stop _ rfl) (by simp))
  obtain ⟨es, x, h1, -, h2⟩ := C66_stop_can_return (n := 2) h (by decide) .notify rfl (by simp)
  exact ⟨_, x, XSteps.trans h h1, by simp [h2]⟩

/-- And states in which a task runs, and in which a task is inside `Stop`. -/
example : ∃ es x c, XRun 1 es x ∧ x.base.workers[0]? = some (.running 0) ∧ x.call = some c ∧ c.caller = some 0 :=
  ⟨_, _, _, selfStop_run, rfl, rfl, rfl⟩

end Bridge.TP
