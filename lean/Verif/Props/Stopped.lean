import Verif.Model.Stopped
import Verif.Props.Share
/-
C80: stopping the pool of a process whose threads call `Parse`.
-/
set_option autoImplicit false
namespace Bridge
open Spec

/-! ### Invariants -/

theorem ststeps_calls {cfg : Cfg} {fuel m : Nat} {s s' : Stoppable} (h : StSteps cfg fuel m s s') :
    s'.sh.jobs.map (fun j => (j.via, j.call)) = s.sh.jobs.map (fun j => (j.via, j.call)) := by
  induction h with
  | nil => rfl
  | snoc _ h2 ih =>
    rw [← ih]
    cases h2 with
    | stop => rfl
    | job pre post hj => cases hj <;> simp

theorem stjobs_inv {cfg : Cfg} {fuel : Nat} {P : Job → Prop}
    (step : ∀ ok s j t q j', JobStep cfg fuel true ok s j t q j' → P j → P j') {m : Nat} {s s' : Stoppable}
    (h : StSteps cfg fuel m s s') (h0 : ∀ j ∈ s.sh.jobs, P j) : ∀ j ∈ s'.sh.jobs, P j := by
  induction h with
  | nil => exact h0
  | snoc _ h2 ih =>
    cases h2 with
    | stop => exact ih h0
    | job pre post hj =>
      have ih := ih h0
      intro x hx
      simp only [List.mem_append, List.mem_cons] at hx ih
      rcases hx with hx | rfl | hx
      · exact ih x (.inl hx)
      · exact step _ _ _ _ _ _ hj (ih _ (.inr (.inl rfl)))
      · exact ih x (.inr (.inr hx))

theorem stjobOk_fresh {cfg : Cfg} {fuel : Nat} {calls : List (Option Nat × Call)} {m : Nat} {s : Stoppable}
    (h : StSteps cfg fuel m (.fresh calls) s) : ∀ j ∈ s.sh.jobs, JobOk cfg fuel true j := by
  refine stjobs_inv jobOk_step h ?_
  intro j hj
  simp only [Stoppable.fresh, Shared.fresh, List.mem_map] at hj
  obtain ⟨c, -, rfl⟩ := hj
  trivial

theorem stjob_call {cfg : Cfg} {fuel : Nat} {calls : List (Option Nat × Call)} {m : Nat} {s : Stoppable}
    (h : StSteps cfg fuel m (.fresh calls) s) {i : Nat} {v : Option Nat} {c : Call} (hc : calls[i]? = some (v, c))
    {j : Job} (hj : s.sh.jobs[i]? = some j) : j.via = v ∧ j.call = c := by
  have := congrArg (·[i]?) (ststeps_calls h)
  simpa only [List.getElem?_map, hj, Stoppable.fresh, Shared.fresh, hc, Option.map_some, Option.some.injEq, Prod.mk.injEq] using this

theorem stallowed_free {s : Stoppable} (a : Act) (h : s.allowed a) (ha : a ≠ .step) : s.sh.busy < s.sh.threads.getD 0 := by
  cases a with
  | take t => exact h.1
  | resume => exact h
  | step => exact absurd rfl ha

/-- The pool is there once a call has reached it. -/
theorem stpool_there {cfg : Cfg} {fuel : Nat} {calls : List (Option Nat × Call)} {m : Nat} {s : Stoppable}
    (h : StSteps cfg fuel m (.fresh calls) s) : (∃ j ∈ s.sh.jobs, j.reached = true) → s.sh.threads.isSome = true := by
  generalize hs0 : Stoppable.fresh calls = s0 at h
  induction h with
  | nil =>
    subst hs0
    rintro ⟨j, hj, hr⟩
    simp only [Stoppable.fresh, Shared.fresh, List.mem_map] at hj
    obtain ⟨c, -, rfl⟩ := hj
    cases hr
  | snoc _ h2 ih =>
    have ih := ih hs0
    cases h2 with
    | stop k dr t q jobs => intro _; rw [getOrConstruct_some]; rfl
    | @job st dr t t' q q' j j' pre post hj =>
      obtain ⟨h1, -, h3⟩ := jobstep_pool hj stallowed_free
      simp only at h1 ih
      have hold : t.isSome = true → t'.isSome = true := by
        intro h
        obtain ⟨n, rfl⟩ := Option.isSome_iff_exists.1 h
        rw [h1 n rfl]; rfl
      rintro ⟨x, hx, hr⟩
      simp only [List.mem_append, List.mem_cons] at hx ih
      rcases hx with hx | rfl | hx
      · exact hold (ih ⟨x, .inl hx, hr⟩)
      · rcases h3 with h3 | h3 | h3
        · exact hold (ih ⟨j, .inr (.inl rfl), h3⟩)
        · exact h3
        · rw [h3] at hr; cases hr
      · exact hold (ih ⟨x, .inr (.inr hx), hr⟩)

/-! ### What the outcomes are -/

/-- C80. Whenever the pool is stopped: a call that returned or threw did what it does in a process of its own.  `Stop` never makes a call
return a part of its document. -/
theorem C80_as_if_alone {cfg : Cfg} {fuel : Nat} {calls : List (Option Nat × Call)} {m : Nat} {s : Stoppable}
    (h : StSteps cfg fuel m (.fresh calls) s) (i : Nat) (v : Option Nat) (c : Call) (hc : calls[i]? = some (v, c))
    (hw : 0 < c.opt.workers) (j : Job) (hj : s.sh.jobs[i]? = some j) (r : Res Obj) (hr : j.state = .over r) :
    r = parse cfg c.opt fuel c.content := by
  obtain ⟨-, hcall⟩ := stjob_call h hc hj
  have := stjobOk_fresh h j (List.mem_of_getElem? hj)
  unfold JobOk at this
  rw [hr, hcall] at this
  rcases this with ⟨-, h⟩ | ⟨hp, h⟩
  · exact h
  · have hco := (parallel_iff.1 hp).1
    rw [h _ hw, ← hco]

/-! ### What is dropped -/

/-- C80. Exactly what is given to the pool after it was stopped is dropped. -/
theorem C80_dropped_exactly_after_stop {cfg : Cfg} {fuel : Nat} {calls : List (Option Nat × Call)} {m : Nat} {s : Stoppable}
    (h : StSteps cfg fuel m (.fresh calls) s) :
    (s.stop = false → s.dropped = []) ∧
    (s.stop = true → ∀ m' s', StSteps cfg fuel m' s s' → s'.stop = true ∧ s.sh.next ≤ s'.sh.next ∧
      ∀ t, t ∈ s'.dropped ↔ t ∈ s.dropped ∨ (s.sh.next ≤ t ∧ t < s'.sh.next)) := by
  constructor
  · generalize hs0 : Stoppable.fresh calls = s0 at h
    induction h with
    | nil => subst hs0; intro _; rfl
    | snoc _ h2 ih =>
      have ih := ih hs0
      cases h2 with
      | stop => intro h; cases h
      | job pre post hj =>
        intro h
        simp only at h ih
        subst h
        simpa using ih
  · intro hst m' s' hs
    induction hs with
    | nil => exact ⟨hst, Nat.le_refl _, fun t => ⟨.inl, fun h => by rcases h with h | h; exact h; omega⟩⟩
    | snoc _ h2 ih =>
      obtain ⟨i1, i2, i3⟩ := ih h hst
      cases h2 with
      | stop => cases i1
      | job pre post hj =>
        obtain ⟨p2, -⟩ := jobstep_tickets hj trivial
        simp only at i1 i2 i3 p2
        subst i1
        refine ⟨rfl, by simp only; omega, fun t => ?_⟩
        simp only [↓reduceIte, List.mem_append, i3, List.mem_range'_1, or_assoc]
        refine or_congr Iff.rfl ?_
        omega

theorem JobStep.mono {cfg : Cfg} {fuel : Nat} {guard : Bool} {ok ok' : Act → Prop} {s : Shared} {j j' : Job} {t : Threads} {q : Nat}
    (h : JobStep cfg fuel guard ok s j t q j') (hok : ∀ a, ok a → ok' a) : JobStep cfg fuel guard ok' s j t q j' := by
  cases h with
  | call c => exact .call c
  | submit k c => exact .submit k c
  | «begin» v t c h => exact .begin v t c (hok _ h)
  | work v c w h1 h2 => exact .work v c w h1 (hok _ h2)
  | ret v c w cache b => exact .ret v c w cache b

theorem allowed_unstopped (sh : Shared) (st : Bool) (a : Act) : (Stoppable.mk st [] sh).allowed a ↔ sh.allowed a := by
  cases a with
  | take t => simp [Stoppable.allowed, Shared.allowed]
  | resume => exact Iff.rfl
  | step => exact Iff.rfl

/-- C80. Until it is stopped the pool is the one of C73: the process can do exactly what it can do there. -/
theorem C80_until_the_stop (cfg : Cfg) (fuel : Nat) (calls : List (Option Nat × Call)) (m : Nat) (sh : Shared) :
    ShSteps cfg fuel true m (.fresh calls) sh ↔ ∃ s, StSteps cfg fuel m (.fresh calls) s ∧ s.stop = false ∧ s.sh = sh := by
  constructor
  · intro h
    generalize hs0 : Shared.fresh calls = s0 at h
    refine ⟨⟨false, [], sh⟩, ?_, rfl, rfl⟩
    induction h with
    | nil => subst hs0; exact .nil _
    | snoc _ h2 ih =>
      refine .snoc (ih hs0) ?_
      cases h2 with
      | mk pre post hj => exact StStep.job (stop := false) (dropped := []) pre post (hj.mono fun a ha => (allowed_unstopped _ _ a).2 ha)
  · rintro ⟨s, h, hs, rfl⟩
    generalize hs0 : Stoppable.fresh calls = s0 at h
    induction h with
    | nil => subst hs0; exact .nil _
    | snoc h1 h2 ih =>
      subst hs0
      cases h2 with
      | stop => cases hs
      | job pre post hj =>
        simp only at hs
        subst hs
        have hd := (C80_dropped_exactly_after_stop h1).1 rfl
        simp only at hd
        subst hd
        exact .snoc (ih rfl rfl) (.mk pre post (hj.mono fun a ha => (allowed_unstopped _ _ a).1 ha))

theorem ended_no_tickets {j : Job} (h : j.ended = true) : j.tickets = [] := by
  unfold Job.ended at h
  unfold Job.tickets
  cases hst : j.state <;> simp [hst] at h ⊢

/-- A dropped task stays where it is. -/
theorem dropped_stays {cfg : Cfg} {fuel m : Nat} {s s' : Stoppable} (h : StSteps cfg fuel m s s') {i t : Nat} {j : Job}
    (hj : s.sh.jobs[i]? = some j) (ht : t ∈ j.tickets) (hd : t ∈ s.dropped) :
    ∃ j', s'.sh.jobs[i]? = some j' ∧ t ∈ j'.tickets ∧ t ∈ s'.dropped := by
  induction h with
  | nil => exact ⟨j, hj, ht, hd⟩
  | snoc _ h2 ih =>
    obtain ⟨x, hx, hxt, hxd⟩ := ih hj hd
    cases h2 with
    | stop => exact ⟨x, hx, hxt, hxd⟩
    | @job st dr tt tt' q q' y y' pre post hs =>
      have hdr : t ∈ (if st = true then dr ++ List.range' q (q' - q) else dr) := by
        split
        · exact List.mem_append.2 (.inl hxd)
        · exact hxd
      by_cases hi : i = pre.length
      · subst hi
        simp only [List.getElem?_append_right (Nat.le_refl _), Nat.sub_self, List.getElem?_cons_zero, Option.some.injEq] at hx
        subst hx
        obtain ⟨-, a, ha, hp⟩ := jobstep_tickets hs trivial
        refine ⟨y', by simp, ?_, hdr⟩
        rcases List.mem_append.1 (hp.mem_iff.2 (List.mem_append.2 (.inl hxt))) with h | h
        · exact h
        · cases a with
          | take u =>
            simp only [Act.taken, List.mem_singleton] at h
            subst h
            exact absurd hxd ha.2.1
          | resume => cases h
          | step => cases h
      · refine ⟨x, ?_, hxt, hdr⟩
        simp only [List.getElem?_append] at hx ⊢
        split at hx
        · rename_i hlt; rw [if_pos hlt]; exact hx
        · rename_i hlt
          rw [if_neg hlt]
          obtain ⟨d, hd'⟩ : ∃ d, i - pre.length = d + 1 := ⟨i - pre.length - 1, by omega⟩
          rw [hd'] at hx ⊢
          simpa using hx

/-- C80. A call one of whose tasks was dropped never ends, under no schedule: the thread that made it waits for ever. -/
theorem C80_dropped_never_ends {cfg : Cfg} {fuel m : Nat} {s s' : Stoppable} (h : StSteps cfg fuel m s s') (i : Nat) (j : Job)
    (hj : s.sh.jobs[i]? = some j) (t : Nat) (ht : t ∈ j.tickets) (hd : t ∈ s.dropped) (j' : Job) (hj' : s'.sh.jobs[i]? = some j') :
    j'.ended = false := by
  obtain ⟨x, hx, hxt, -⟩ := dropped_stays h hj ht hd
  rw [hj'] at hx
  cases hx
  cases he : j'.ended with
  | false => rfl
  | true => rw [ended_no_tickets he] at hxt; cases hxt

/-- C80. Once the pool is stopped, a parallel `Parse` that has not been called yet never returns when it is, and what a thread gives to the
pool is never run. -/
theorem C80_call_after_stop_never_ends {cfg : Cfg} {fuel m : Nat} {s s' : Stoppable} (h : StSteps cfg fuel m s s')
    (hstop : s.stop = true) (i : Nat) (v : Option Nat) (c : Call) (hj : s.sh.jobs[i]? = some ⟨v, c, .idle⟩)
    (hp : v.isSome = true ∨ c.parallel cfg = true) (j' : Job) (hj' : s'.sh.jobs[i]? = some j') : j'.ended = false := by
  suffices key : s'.stop = true ∧ ∃ x, s'.sh.jobs[i]? = some x ∧ (x = ⟨v, c, .idle⟩ ∨ ∃ t ∈ x.tickets, t ∈ s'.dropped) by
    obtain ⟨-, x, hx, h⟩ := key
    rw [hj'] at hx
    cases hx
    rcases h with rfl | ⟨t, ht, -⟩
    · rfl
    · cases he : j'.ended with
      | false => rfl
      | true => rw [ended_no_tickets he] at ht; cases ht
  clear hj' j'
  induction h with
  | nil => exact ⟨hstop, _, hj, .inl rfl⟩
  | @snoc m s s' s'' h1 h2 ih =>
    obtain ⟨i1, x, hx, hor⟩ := ih hstop hj
    have hone : StSteps cfg fuel 1 s' s'' := .snoc (.nil _) h2
    rcases hor with rfl | ⟨t, ht, hd⟩
    · cases h2 with
      | stop => cases i1
      | @job st dr tt tt' q q' y y' pre post hs =>
        simp only at i1
        subst i1
        refine ⟨rfl, ?_⟩
        by_cases hi : i = pre.length
        · subst hi
          simp only [List.getElem?_append_right (Nat.le_refl _), Nat.sub_self, List.getElem?_cons_zero, Option.some.injEq] at hx
          subst hx
          refine ⟨y', by simp, .inr ?_⟩
          cases hs with
          | call c =>
            rcases enter_cases cfg fuel true false tt q c with ⟨hn, -⟩ | ⟨-, -, hw, -⟩ | ⟨-, -, s', -, -, -, he⟩
            · rcases hp with hp | hp
              · cases hp
              · rw [hn] at hp; cases hp
            · cases hw
            · refine ⟨q, ?_, ?_⟩
              · rw [he]; simp [Job.tickets, EProc.tickets]
              · simp [he]
          | submit k c => exact ⟨q, by simp [Job.tickets], by simp⟩
        · refine ⟨⟨v, c, .idle⟩, ?_, .inl rfl⟩
          simp only [List.getElem?_append] at hx ⊢
          split at hx
          · rename_i hlt; rw [if_pos hlt]; exact hx
          · rename_i hlt
            rw [if_neg hlt]
            obtain ⟨d, hd'⟩ : ∃ d, i - pre.length = d + 1 := ⟨i - pre.length - 1, by omega⟩
            rw [hd'] at hx ⊢
            simpa using hx
    · obtain ⟨y, hy, hyt, hyd⟩ := dropped_stays hone hx ht hd
      refine ⟨?_, y, hy, .inr ⟨t, hyt, hyd⟩⟩
      cases h2 with
      | stop => rfl
      | job => exact i1

/-! ### What comes to its end -/

/-- C80. No execution goes on for ever. -/
theorem C80_every_execution_ends (cfg : Cfg) (fuel : Nat) (calls : List (Option Nat × Call)) :
    ∃ bound, ∀ m s, StSteps cfg fuel m (.fresh calls) s → m ≤ bound := by
  refine ⟨(Shared.fresh calls).left cfg fuel + 1, fun m s h => ?_⟩
  have key : ∀ {m : Nat} {s0 s : Stoppable}, StSteps cfg fuel m s0 s →
      s.sh.left cfg fuel + m + (if s.stop then 0 else 1) ≤ s0.sh.left cfg fuel + (if s0.stop then 0 else 1) := by
    intro m s0 s h
    induction h with
    | nil => omega
    | snoc _ h2 ih =>
      cases h2 with
      | stop k dr t q jobs => simp only [Shared.left] at ih ⊢; simp at ih ⊢; omega
      | job pre post hj =>
        have := left_step hj
        simp only [Shared.left, List.map_append, List.map_cons, List.sum_append, List.sum_cons] at ih ⊢
        omega
  have := key h
  simp only [Stoppable.fresh, Bool.false_eq_true, ↓reduceIte] at this
  omega

theorem ststep_of_job {cfg : Cfg} {fuel : Nat} {s : Stoppable} {j : Job} (hj : j ∈ s.sh.jobs) {t : Threads} {q : Nat} {j' : Job}
    (h : JobStep cfg fuel true s.allowed s.sh j t q j') : ∃ s', StStep cfg fuel s s' := by
  obtain ⟨st, dr, ⟨t0, q0, jobs⟩⟩ := s
  obtain ⟨pre, post, hjobs⟩ := List.append_of_mem hj
  simp only at hjobs
  subst hjobs
  exact ⟨_, .job pre post h⟩

/-- A process with a call that has not ended and of which nothing was dropped can go on. -/
theorem stopped_progress {cfg : Cfg} {fuel : Nat} {s : Stoppable} (hok : ∀ j ∈ s.sh.jobs, JobOk cfg fuel true j) (hr : s.sh.noRace)
    (hfree : (∃ j ∈ s.sh.jobs, j.reached = true) → 0 < s.sh.threads.getD 0)
    (hne : ∃ j ∈ s.sh.jobs, j.ended = false ∧ ∀ t ∈ j.tickets, t ∉ s.dropped) : ∃ s', StStep cfg fuel s s' := by
  by_cases hidle : ∃ j ∈ s.sh.jobs, j.state = .idle
  · obtain ⟨⟨v, c, st⟩, hj, h⟩ := hidle
    cases h
    cases v with
    | none => exact ststep_of_job hj (.call c)
    | some k => exact ststep_of_job hj (.submit k c)
  by_cases hdone : ∃ j ∈ s.sh.jobs, ∃ w cache b, j.state = .parsing w cache (.done b)
  · obtain ⟨⟨v, c, st⟩, hj, w, cache, b, h⟩ := hdone
    cases h
    exact ststep_of_job hj (.ret v c w cache b)
  by_cases hwork : ∃ j ∈ s.sh.jobs, ∃ w cache main, j.state = .parsing w cache main ∧ 0 < main.busy
  · obtain ⟨⟨v, c, st⟩, hj, w, cache, main, h, hb⟩ := hwork
    cases h
    obtain ⟨x, hx, hw⟩ := worker_of_busy _ hb
    obtain ⟨c', q', x', hs⟩ := worker_step (q := s.sh.next) hx hw (hr _ hj _ _ _ rfl) (fun hb => builder_cache (hok _ hj) hb)
    obtain ⟨e', he⟩ := within_step hx hs
    exact ststep_of_job hj (.work v c w he trivial)
  have hbusy : s.sh.busy = 0 := by
    have : s.sh.busy = (s.sh.jobs.map Job.held).sum := by
      unfold Shared.busy
      congr 1
      refine List.map_congr_left fun j hj => ?_
      cases hst : j.state with
      | parsing w cache main =>
        have : main.busy = 0 := by
          apply Classical.byContradiction
          intro h0
          exact hwork ⟨j, hj, w, cache, main, hst, by omega⟩
        simp only [Job.busy, Job.held, hst, this]
        cases w <;> rfl
      | _ => simp only [Job.busy, Job.held, hst]
    rw [this, held_guarded hok]
  obtain ⟨j, hj, hje, hjd⟩ := hne
  have hreach : j.reached = true := by
    cases hst : j.state with
    | idle => exact absurd ⟨j, hj, hst⟩ hidle
    | inQueue t => simp [Job.reached, hst]
    | parsing w cache main => simp [Job.reached, hst]
    | over r => simp [Job.ended, hst] at hje
    | refused => simp [Job.ended, hst] at hje
  have hfree : s.sh.busy < s.sh.threads.getD 0 := by rw [hbusy]; exact hfree ⟨j, hj, hreach⟩
  by_cases hq : s.sh.tickets.filter (fun t => !decide (t ∈ s.dropped)) = []
  · have hnone : ∀ t ∈ s.sh.tickets, t ∈ s.dropped := by
      intro t ht
      have := List.filter_eq_nil_iff.1 hq t ht
      simpa using this
    have hjt : j.tickets = [] := by
      apply List.eq_nil_iff_forall_not_mem.2
      intro t ht
      exact hjd t ht (hnone t (List.mem_flatMap.2 ⟨j, hj, ht⟩))
    cases hst : j.state with
    | idle => exact absurd ⟨j, hj, hst⟩ hidle
    | inQueue t => simp [Job.tickets, hst] at hjt
    | over r => simp [Job.ended, hst] at hje
    | refused => simp [Job.ended, hst] at hje
    | parsing w cache main =>
      have hnd : main.isDone = false := by
        cases main with
        | done b => exact absurd ⟨j, hj, w, cache, b, hst⟩ hdone
        | _ => rfl
      have hnt : main.tickets = [] := by simpa [Job.tickets, hst] using hjt
      obtain ⟨v, c, st⟩ := j
      cases hst
      rcases lively main hnd with ⟨x, hx, hw⟩ | ht | ⟨rs, k, hk⟩
      · exact absurd ⟨_, hj, w, cache, main, rfl, busy_of_worker hx hw⟩ hwork
      · exact absurd hnt ht
      · obtain ⟨e', he⟩ := within_step hk (.resume cache s.sh.next rs k)
        exact ststep_of_job hj (.work v c w he hfree)
  · obtain ⟨t, ht, hmin⟩ := min_mem hq
    simp only [List.mem_filter, Bool.not_eq_eq_eq_not, Bool.not_true, decide_eq_false_iff_not] at ht hmin
    have hall : s.allowed (.take t) := ⟨hfree, ht.2, fun t' h1 h2 => hmin t' ⟨h1, h2⟩⟩
    obtain ⟨j, hj, hjt⟩ := List.mem_flatMap.1 ht.1
    obtain ⟨v, c, st⟩ := j
    cases st with
    | idle => cases hjt
    | over r => cases hjt
    | refused => cases hjt
    | inQueue t' =>
      simp only [Job.tickets, List.mem_singleton] at hjt
      subst hjt
      exact ststep_of_job hj (.begin v t c hall)
    | parsing w cache main =>
      obtain ⟨p, hp⟩ := ticket_mem _ hjt
      obtain ⟨e', he⟩ := within_step hp (.take cache s.sh.next t p)
      exact ststep_of_job hj (.work v c w he hall)

/-- C80. And only a dropped task keeps a call from ending: with at least one worker, when no step is left every call has ended except those
that have a task which was given to the pool after the stop.  Everything that was in the queue at the stop has been run. -/
theorem C80_ends_unless_dropped {cfg : Cfg} {fuel : Nat} {calls : List (Option Nat × Call)} {m : Nat} {s : Stoppable}
    (h : StSteps cfg fuel m (.fresh calls) s) (hr : s.sh.noRace) (hw : ∀ n, s.sh.threads = some n → 0 < n)
    (hend : ¬ ∃ s', StStep cfg fuel s s') (j : Job) (hj : j ∈ s.sh.jobs) :
    (j.ended = true ↔ ∀ t ∈ j.tickets, t ∉ s.dropped) ∧ ∀ t ∈ s.sh.tickets, t ∈ s.dropped := by
  have hfree : (∃ j ∈ s.sh.jobs, j.reached = true) → 0 < s.sh.threads.getD 0 := by
    intro hre
    obtain ⟨n, hn⟩ := Option.isSome_iff_exists.1 (stpool_there h hre)
    simpa [hn] using hw n hn
  have hok := stjobOk_fresh h
  refine ⟨⟨fun he t ht => (by rw [ended_no_tickets he] at ht; cases ht), fun hd => ?_⟩, fun t ht => ?_⟩
  · cases he : j.ended with
    | true => rfl
    | false => exact absurd (stopped_progress hok hr hfree ⟨j, hj, he, hd⟩) hend
  · apply Classical.byContradiction
    intro hd
    apply hend
    obtain ⟨x, hx, hxt⟩ := List.mem_flatMap.1 ht
    -- a task that was not dropped is still waiting: take the first of these
    by_cases hb : 0 < s.sh.busy
    · by_cases hwork : ∃ j ∈ s.sh.jobs, ∃ w cache main, j.state = .parsing w cache main ∧ 0 < main.busy
      · obtain ⟨⟨v, c, st⟩, hj, w, cache, main, h, hb⟩ := hwork
        cases h
        obtain ⟨x, hx, hw⟩ := worker_of_busy _ hb
        obtain ⟨c', q', x', hs⟩ := worker_step (q := s.sh.next) hx hw (hr _ hj _ _ _ rfl) (fun hb => builder_cache (hok _ hj) hb)
        obtain ⟨e', he⟩ := within_step hx hs
        exact ststep_of_job hj (.work v c w he trivial)
      · exfalso
        have : s.sh.busy = 0 := by
          unfold Shared.busy
          refine sum_zero fun j hj => ?_
          have hjo := hok j hj
          unfold JobOk at hjo
          unfold Job.busy
          cases hst : j.state with
          | parsing w cache main =>
            rw [hst] at hjo
            have h0 : main.busy = 0 := by
              apply Classical.byContradiction
              intro h0
              exact hwork ⟨j, hj, w, cache, main, hst, by omega⟩
            cases w with
            | false => simp [h0]
            | true => cases (hjo.1 rfl).2
          | _ => rfl
        omega
    · have hre : x.reached = true := by
        cases hst : x.state with
        | inQueue t => simp [Job.reached, hst]
        | parsing w cache main => simp [Job.reached, hst]
        | _ => simp [Job.tickets, hst] at hxt
      have hfr : s.sh.busy < s.sh.threads.getD 0 := by have := hfree ⟨x, hx, hre⟩; omega
      have hq : s.sh.tickets.filter (fun t => !decide (t ∈ s.dropped)) ≠ [] := by
        intro hnil
        have := List.filter_eq_nil_iff.1 hnil t ht
        exact hd (by simpa using this)
      obtain ⟨u, hu, hmin⟩ := min_mem hq
      simp only [List.mem_filter, Bool.not_eq_eq_eq_not, Bool.not_true, decide_eq_false_iff_not] at hu hmin
      have hall : s.allowed (.take u) := ⟨hfr, hu.2, fun t' h1 h2 => hmin t' ⟨h1, h2⟩⟩
      obtain ⟨⟨v, c, st⟩, hj, hjt⟩ := List.mem_flatMap.1 hu.1
      cases st with
      | idle => cases hjt
      | over r => cases hjt
      | refused => cases hjt
      | inQueue t' =>
        simp only [Job.tickets, List.mem_singleton] at hjt
        subst hjt
        exact ststep_of_job hj (.begin v u c hall)
      | parsing w cache main =>
        obtain ⟨p, hp⟩ := ticket_mem _ hjt
        obtain ⟨e', he⟩ := within_step hp (.take cache s.sh.next u p)
        exact ststep_of_job hj (.work v c w he hall)

/-- C80. Calls on documents that `Serialize` wrote, of any kind and at the same time, and a `Stop` of the pool at any moment: no task reads
a table that another one builds, and when no step is left each call either has returned its document (or was refused, if it is a
parallel one made on a worker), or waits for ever for a task that came after the stop. -/
theorem C80_documents (r : Cfg) (calls : List (Option Nat × Call × Doc)) (hwr : ∀ x ∈ calls, x.2.1.Wrote r x.2.2) :
    ∃ N, ∀ fuel, N ≤ fuel → ∀ m s, StSteps r fuel m (.fresh (calls.map fun x => (x.1, x.2.1))) s →
      s.sh.noRace ∧ ((∀ n, s.sh.threads = some n → 0 < n) → (¬ ∃ s', StStep r fuel s s') →
        ∀ (i : Nat) (v : Option Nat) (c : Call) (d : Doc), calls[i]? = some (v, c, d) → ∃ j, s.sh.jobs[i]? = some j ∧
          (j.state = .refused ∧ v.isSome = true ∧ c.parallel r = true ∨
           (∃ o' d', j.state = .over (.ok o') ∧ o'.doc? = some d' ∧ d.Same d') ∨
           ∃ t ∈ j.tickets, t ∈ s.dropped)) := by
  have hN : ∃ N, ∀ fuel, N ≤ fuel → ∀ x ∈ calls, ∃ o' d', parse r x.2.1.opt fuel x.2.1.content = .ok o' ∧ o'.doc? = some d' ∧
      x.2.2.Same d' := by
    induction calls with
    | nil => exact ⟨0, fun _ _ x hx => by cases hx⟩
    | cons a as ih =>
      obtain ⟨N1, h1⟩ := ih fun x hx => hwr x (by simp [hx])
      obtain ⟨o', d', ⟨-, N2, h2⟩, h3, h4⟩ := wrote_parses (hwr a (by simp))
      refine ⟨max N1 N2, fun fuel hf x hx => ?_⟩
      rcases List.mem_cons.1 hx with rfl | hx
      · exact ⟨o', d', h2 fuel (by omega), h3, h4⟩
      · exact h1 fuel (by omega) x hx
  obtain ⟨N, hN⟩ := hN
  refine ⟨N, fun fuel hfu m s h => ?_⟩
  have hmap := ststeps_calls h
  have hok := stjobOk_fresh h
  have hwj : ∀ j ∈ s.sh.jobs, ∃ d, j.call.Wrote r d := by
    intro j hj
    have : (j.via, j.call) ∈ s.sh.jobs.map (fun j => (j.via, j.call)) := List.mem_map_of_mem hj
    rw [hmap] at this
    simp only [Stoppable.fresh, Shared.fresh, List.map_map, List.mem_map, Function.comp_apply, Prod.mk.injEq] at this
    obtain ⟨x, hx, -, h2⟩ := this
    exact ⟨x.2.2, h2 ▸ hwr x hx⟩
  have hnr : s.sh.noRace := by
    intro j hj w cache main hst
    have hjo := hok j hj
    unfold JobOk at hjo
    rw [hst] at hjo
    obtain ⟨-, -, -, s', k, h3, h4, h5⟩ := hjo
    obtain ⟨d, hd⟩ := hwj j hj
    exact wrote_noRace hd h3 h4 h5
  refine ⟨hnr, fun hw hstuck i v c d hi => ?_⟩
  have hlen : s.sh.jobs.length = calls.length := by
    have := congrArg List.length hmap
    simpa [Stoppable.fresh, Shared.fresh] using this
  have hil : i < s.sh.jobs.length := by
    rw [hlen]; exact (List.getElem?_eq_some_iff.1 hi).1
  have hji := List.getElem?_eq_getElem hil
  have hmemj := List.getElem_mem hil
  refine ⟨s.sh.jobs[i], hji, ?_⟩
  have hc' : (calls.map fun x => (x.1, x.2.1))[i]? = some (v, c) := by simp [hi]
  obtain ⟨hv, hcc⟩ := stjob_call h hc' hji
  obtain ⟨hiff, -⟩ := C80_ends_unless_dropped h hnr hw hstuck _ hmemj
  have hmem := List.mem_of_getElem? hi
  cases hst : s.sh.jobs[i].state with
  | refused =>
    left
    have hjo := hok _ hmemj
    unfold JobOk at hjo
    rw [hst, hv, hcc] at hjo
    exact ⟨rfl, hjo.2⟩
  | over x =>
    right; left
    obtain ⟨o', d', h1, h2, h3⟩ := hN fuel hfu _ hmem
    obtain ⟨_, _, _, _, _, _, _, _, hwk, _⟩ := hwr _ hmem
    refine ⟨o', d', ?_, h2, h3⟩
    rw [C80_as_if_alone h i v c hc' hwk _ hji x hst, h1]
  | _ =>
    right; right
    have hne : ¬ s.sh.jobs[i].ended = true := by simp [Job.ended, hst]
    rw [hiff] at hne
    apply Classical.byContradiction
    intro hno
    exact hne fun t ht hd => hno ⟨t, ht, hd⟩

/-! ### Examples -/

/-- A process that stops the pool and then parses the sample in parallel: that call never returns, while one that is not parallel does. -/
example (fuel : Nat) : ∃ s, StSteps Cfg.x86 fuel 1 (.fresh [(none, splitCall 2), (none, ⟨plainSample, ⟨false, false, 1⟩⟩)]) s ∧
    s.stop = true ∧ (∀ m s', StSteps Cfg.x86 fuel m s s' → ∀ j, s'.sh.jobs[0]? = some j → j.ended = false) ∧
    ∃ s', StSteps Cfg.x86 fuel 1 s s' ∧ ∃ j, s'.sh.jobs[1]? = some j ∧ j.ended = true := by
  have h1 := StStep.stop (cfg := Cfg.x86) (fuel := fuel) 4 [] none 0
    [⟨none, splitCall 2, .idle⟩, ⟨none, ⟨plainSample, ⟨false, false, 1⟩⟩, .idle⟩]
  refine ⟨_, .snoc (.nil _) h1, rfl, fun m s' h j hj => ?_, ?_⟩
  · exact C80_call_after_stop_never_ends h rfl 0 none (splitCall 2) rfl (.inr (splitCall_parallel 2)) j hj
  · have h2 := StStep.job (cfg := Cfg.x86) (fuel := fuel) (stop := true) (dropped := []) (t := (getOrConstructInstance none 4).2) (q := 0)
      [⟨none, splitCall 2, .idle⟩] [] (.call ⟨plainSample, ⟨false, false, 1⟩⟩)
    refine ⟨_, .snoc (.nil _) h2, _, rfl, ?_⟩
    have hp : (Call.mk plainSample ⟨false, false, 1⟩).parallel Cfg.x86 = false := by
      cases hp : (Call.mk plainSample ⟨false, false, 1⟩).parallel Cfg.x86 with
      | false => rfl
      | true => cases (parallel_iff.1 hp).1
    rcases enter_cases Cfg.x86 fuel true false (getOrConstructInstance none 4).2 0 ⟨plainSample, ⟨false, false, 1⟩⟩ with
      ⟨-, he⟩ | ⟨h, -⟩ | ⟨h, -⟩
    · simp [he, Job.ended]
    · rw [hp] at h; cases h
    · rw [hp] at h; cases h

/-- A call that is in the queue when the pool is stopped still gets its worker. -/
example (fuel : Nat) : ∃ s, StSteps Cfg.x86 fuel 3 (.fresh [(none, splitCall 2)]) s ∧ s.stop = true ∧ s.dropped = [] ∧ s.sh.busy = 1 := by
  obtain ⟨p, hp⟩ := enter_parallel (fuel := fuel) (guard := true) (w := false) (t := none) (q := 0) (splitCall_parallel 2) rfl
  have h1 := StStep.job (cfg := Cfg.x86) (fuel := fuel) (stop := false) (dropped := []) (t := none) (q := 0) [] []
    (.call (splitCall 2))
  simp only [hp] at h1
  have h2 := StStep.stop (cfg := Cfg.x86) (fuel := fuel) 1 [] (some 2) 1 [⟨none, splitCall 2, .parsing false .unbuilt (.queued 0 p)⟩]
  have h3 := StStep.job (cfg := Cfg.x86) (fuel := fuel) (stop := true) (dropped := []) (t := some 2) (q := 1) [] []
    (.work none (splitCall 2) false (.take .unbuilt 1 0 p)
      ⟨by simp [Shared.busy, Job.busy, EProc.busy], by simp, by simp⟩)
  exact ⟨_, .snoc (.snoc (.snoc (.nil _) h1) h2) h3, rfl, rfl, rfl⟩

end Bridge
