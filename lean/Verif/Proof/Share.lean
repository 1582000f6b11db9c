import Verif.Model.Share
import Verif.Proof.Exec
import Verif.Props.Exec
import Verif.Props.Process
/-
Invariants of calls of `Parse` that share the pool.
-/
set_option autoImplicit false
namespace Bridge

/-- What `enter` does, in cases. -/
theorem enter_cases (cfg : Cfg) (fuel : Nat) (guard w : Bool) (t : Threads) (q : Nat) (c : Call) :
    (c.parallel cfg = false ∧ enter cfg fuel guard w t q c = (.over (parse cfg c.opt fuel c.content), t, q)) ∨
    (c.parallel cfg = true ∧ guard = true ∧ w = true ∧
      enter cfg fuel guard w t q c = (.refused, some (t.getD c.opt.workers), q)) ∨
    (c.parallel cfg = true ∧ (guard && w) = false ∧ ∃ s, initFromContent cfg c.content = .ok s ∧ s.split = true ∧ c.opt.coroutine = true ∧
      enter cfg fuel guard w t q c = (.parsing w .unbuilt (.queued q (rootProg cfg c.opt.parseRef fuel c.content s)),
        some (t.getD c.opt.workers), q + 1)) := by
  have hg : (getOrConstructInstance t c.opt.workers).2 = some (t.getD c.opt.workers) := by cases t <;> rfl
  cases hi : initFromContent cfg c.content with
  | error e =>
    left
    refine ⟨?_, ?_⟩
    · cases hp : c.parallel cfg with
      | false => rfl
      | true => obtain ⟨-, s, hs, -⟩ := parallel_iff.1 hp; rw [hi] at hs; cases hs
    · simp only [enter, parse, hi, error_bind]
  | ok s =>
    cases hco : c.opt.coroutine with
    | false =>
      left
      refine ⟨?_, ?_⟩
      · cases hp : c.parallel cfg with
        | false => rfl
        | true => have := (parallel_iff.1 hp).1; rw [hco] at this; cases this
      · simp [enter, parse, hi, ok_bind, hco]
    | true =>
      cases hs : s.split with
      | false =>
        left
        refine ⟨?_, ?_⟩
        · cases hp : c.parallel cfg with
          | false => rfl
          | true =>
            obtain ⟨-, s', h1, h2⟩ := parallel_iff.1 hp
            rw [hi] at h1; cases h1; rw [hs] at h2; cases h2
        · simp [enter, parse, hi, ok_bind, hco, hs, coroutineParse]
      | true =>
        right
        have hp : c.parallel cfg = true := parallel_iff.2 ⟨hco, s, hi, hs⟩
        cases hgw : guard && w with
        | true =>
          left
          obtain ⟨rfl, rfl⟩ : guard = true ∧ w = true := by simpa using hgw
          exact ⟨hp, rfl, rfl, by simp [enter, hi, hco, hs, hg]⟩
        | false =>
          right
          exact ⟨hp, rfl, s, rfl, hs, rfl, by simp [enter, hi, hco, hs, hg, hgw]⟩

/-! ### What each call is about -/

/-- A call keeps its place and its arguments. -/
theorem shsteps_calls {cfg : Cfg} {fuel : Nat} {guard : Bool} {m : Nat} {s s' : Shared} (h : ShSteps cfg fuel guard m s s') :
    s'.jobs.map (fun j => (j.via, j.call)) = s.jobs.map (fun j => (j.via, j.call)) := by
  induction h with
  | nil => rfl
  | snoc _ h2 ih =>
    rw [← ih]
    cases h2 with
    | mk pre post hj => cases hj <;> simp

/-- An invariant of every call. -/
theorem jobs_inv {cfg : Cfg} {fuel : Nat} {guard : Bool} {P : Job → Prop}
    (step : ∀ ok s j t q j', JobStep cfg fuel guard ok s j t q j' → P j → P j') {m : Nat} {s s' : Shared}
    (h : ShSteps cfg fuel guard m s s') (h0 : ∀ j ∈ s.jobs, P j) : ∀ j ∈ s'.jobs, P j := by
  induction h with
  | nil => exact h0
  | snoc _ h2 ih =>
    cases h2 with
    | mk pre post hj =>
      have ih := ih h0
      intro x hx
      simp only [List.mem_append, List.mem_cons] at hx ih
      rcases hx with hx | rfl | hx
      · exact ih x (.inl hx)
      · exact step _ _ _ _ _ _ hj (ih _ (.inr (.inl rfl)))
      · exact ih x (.inr (.inr hx))

/-- What is known of a call. -/
def JobOk (cfg : Cfg) (fuel : Nat) (guard : Bool) (j : Job) : Prop :=
  match j.state with
  | .idle => True
  | .inQueue _ => j.via.isSome = true
  | .parsing w cache main => (w = true → j.via.isSome = true ∧ guard = false) ∧ (w = false → j.via = none) ∧ j.call.parallel cfg = true ∧
      ∃ s k, initFromContent cfg j.call.content = .ok s ∧
      s.split = true ∧ PSteps k .unbuilt (.run (rootProg cfg j.call.opt.parseRef fuel j.call.content s)) cache main.plain
  | .over r => (j.call.parallel cfg = false ∧ r = parse cfg j.call.opt fuel j.call.content) ∨
      (j.call.parallel cfg = true ∧ ∀ w, 0 < w → r = parse cfg ⟨true, j.call.opt.parseRef, w⟩ fuel j.call.content)
  | .refused => guard = true ∧ j.via.isSome = true ∧ j.call.parallel cfg = true

theorem jobOk_enter {cfg : Cfg} {fuel : Nat} {guard w : Bool} {t : Threads} {q : Nat} {v : Option Nat} {c : Call}
    (hw : w = true → v.isSome = true) (hw' : w = false → v = none) :
    JobOk cfg fuel guard ⟨v, c, (enter cfg fuel guard w t q c).1⟩ := by
  rcases enter_cases cfg fuel guard w t q c with ⟨hp, h⟩ | ⟨hp, hg, hw2, h⟩ | ⟨hp, hg, s, hi, hs, hco, h⟩ <;> rw [h]
  · exact .inl ⟨hp, rfl⟩
  · exact ⟨hg, hw hw2, hp⟩
  · refine ⟨fun hwt => ⟨hw hwt, ?_⟩, hw', hp, s, 0, hi, hs, .nil _ _⟩
    subst hwt
    simpa using hg

theorem jobOk_step {cfg : Cfg} {fuel : Nat} {guard : Bool} (ok : Act → Prop) (s : Shared) (j : Job) (t : Threads) (q : Nat) (j' : Job)
    (h : JobStep cfg fuel guard ok s j t q j') (hj : JobOk cfg fuel guard j) : JobOk cfg fuel guard j' := by
  cases h with
  | call c => exact jobOk_enter (by simp) (by simp)
  | submit k c => rfl
  | begin v t c _ => exact jobOk_enter (fun _ => hj) (by simp)
  | work v c w he _ =>
    obtain ⟨h1, h1', h2, s', k, h3, h4, h5⟩ := hj
    refine ⟨h1, h1', h2, s', ?_⟩
    rcases estep_plain he with ⟨hc, hp⟩ | hp
    · rw [hc, hp]; exact ⟨k, h3, h4, h5⟩
    · exact ⟨k + 1, h3, h4, h5.snoc hp⟩
  | ret v c w cache b =>
    obtain ⟨h1, -, h2, s', k, h3, h4, h5⟩ := hj
    refine .inr ⟨h2, fun w hw => ?_⟩
    have := C13_schedule_independent (w := w) h3 h4 hw h5
    show rootResult b = _
    rw [this]
    cases parse cfg ⟨true, c.opt.parseRef, w⟩ fuel c.content <;> rfl

theorem jobOk_fresh {cfg : Cfg} {fuel : Nat} {guard : Bool} {calls : List (Option Nat × Call)} {m : Nat} {s : Shared}
    (h : ShSteps cfg fuel guard m (.fresh calls) s) : ∀ j ∈ s.jobs, JobOk cfg fuel guard j := by
  refine jobs_inv jobOk_step h ?_
  intro j hj
  simp only [Shared.fresh, List.mem_map] at hj
  obtain ⟨c, -, rfl⟩ := hj
  trivial

/-! ### The pool -/

/-- Somebody has reached the pool. -/
def Job.reached (j : Job) : Bool :=
  match j.state with
  | .inQueue _ => true
  | .parsing _ _ _ => true
  | .refused => true
  | _ => false

/-- The pool is there once it is needed, it never changes, and no more workers are in use than it has. -/
structure PoolOk (s : Shared) : Prop where
  there : (∃ j ∈ s.jobs, j.reached = true) → s.threads.isSome = true
  busy : s.busy ≤ s.threads.getD 0

theorem getOrConstruct_some (t : Threads) (k : Nat) : (getOrConstructInstance t k).2 = some (t.getD k) := by cases t <;> rfl

theorem busy_append (t : Threads) (q : Nat) (pre post : List Job) (j : Job) :
    (Shared.mk t q (pre ++ j :: post)).busy = (pre.map Job.busy).sum + (j.busy + (post.map Job.busy).sum) := by
  simp [Shared.busy]

theorem tickets_append (t : Threads) (q : Nat) (pre post : List Job) (j : Job) :
    (Shared.mk t q (pre ++ j :: post)).tickets = pre.flatMap Job.tickets ++ (j.tickets ++ post.flatMap Job.tickets) := by
  simp [Shared.tickets]

/-- Workers before and after a step of a call. -/
theorem jobstep_pool {cfg : Cfg} {fuel : Nat} {guard : Bool} {ok : Act → Prop} {s : Shared} {j : Job} {t : Threads} {q : Nat} {j' : Job}
    (h : JobStep cfg fuel guard ok s j t q j') (hok : ∀ a, ok a → a ≠ .step → s.busy < s.threads.getD 0) :
    (∀ n, s.threads = some n → t = some n) ∧ (j'.busy ≤ j.busy ∨ (j'.busy ≤ j.busy + 1 ∧ s.busy < s.threads.getD 0)) ∧
      (j.reached = true ∨ t.isSome = true ∨ j'.reached = false) := by
  cases h with
  | call c =>
    rcases enter_cases cfg fuel guard false s.threads s.next c with ⟨hp, h⟩ | ⟨hp, hg, hw2, h⟩ | ⟨hp, hg, s', hi, hs, hco, h⟩
    · rw [h]; exact ⟨fun _ h => h, .inl (Nat.le_refl _), .inr (.inr rfl)⟩
    · cases hw2
    · rw [h]; exact ⟨fun n hn => by simp [hn], .inl (by simp [Job.busy, EProc.busy]), .inr (.inl rfl)⟩
  | submit k c =>
    rw [getOrConstruct_some]
    exact ⟨fun n hn => by simp [hn], .inl (Nat.le_refl _), .inr (.inl rfl)⟩
  | begin v t c ha =>
    rcases enter_cases cfg fuel guard true s.threads s.next c with ⟨hp, h⟩ | ⟨hp, hg, hw2, h⟩ | ⟨hp, hg, s', hi, hs, hco, h⟩
    · rw [h]; exact ⟨fun _ h => h, .inl (Nat.le_refl _), .inr (.inr rfl)⟩
    · rw [h]; exact ⟨fun n hn => by simp [hn], .inl (Nat.le_refl _), .inl rfl⟩
    · rw [h]; exact ⟨fun n hn => by simp [hn], .inr ⟨by simp [Job.busy, EProc.busy], hok _ ha (by simp)⟩, .inl rfl⟩
  | @work v c w cache cache' e e' a q' he ha =>
    refine ⟨fun _ h => h, ?_, .inl rfl⟩
    have hb := estep_busy he
    simp only [Job.busy]
    cases a with
    | take t => right; exact ⟨by simp at hb; omega, hok _ ha (by simp)⟩
    | resume => right; exact ⟨by simp at hb; omega, hok _ ha (by simp)⟩
    | step => left; simp at hb; omega
  | ret v c w cache b => exact ⟨fun _ h => h, .inl (by simp [Job.busy]), .inl rfl⟩

theorem allowed_free {s : Shared} (a : Act) (h : s.allowed a) (ha : a ≠ .step) : s.busy < s.threads.getD 0 := by
  cases a with
  | take t => exact h.1
  | resume => exact h
  | step => exact absurd rfl ha

theorem poolOk_step {cfg : Cfg} {fuel : Nat} {guard : Bool} {s s' : Shared} (h : ShStep cfg fuel guard s s') (hs : PoolOk s) :
    PoolOk s' := by
  cases h with
  | @mk t t' q q' j j' pre post hj =>
    obtain ⟨h1, h2, h3⟩ := jobstep_pool hj allowed_free
    obtain ⟨ht, hb⟩ := hs
    simp only at h1 ht
    refine ⟨fun ⟨x, hx, hr⟩ => ?_, ?_⟩
    · have hold : t.isSome = true → t'.isSome = true := by
        intro h
        obtain ⟨n, rfl⟩ := Option.isSome_iff_exists.1 h
        rw [h1 n rfl]; rfl
      simp only [List.mem_append, List.mem_cons] at hx ht
      rcases hx with hx | rfl | hx
      · exact hold (ht ⟨x, .inl hx, hr⟩)
      · rcases h3 with h3 | h3 | h3
        · exact hold (ht ⟨j, .inr (.inl rfl), h3⟩)
        · exact h3
        · rw [h3] at hr; cases hr
      · exact hold (ht ⟨x, .inr (.inr hx), hr⟩)
    · simp only [busy_append] at h2 hb ⊢
      have : t.getD 0 ≤ t'.getD 0 := by
        cases t with
        | none => simp
        | some n => rw [h1 n rfl]; exact Nat.le_refl _
      omega

theorem poolOk_steps {cfg : Cfg} {fuel : Nat} {guard : Bool} {m : Nat} {s s' : Shared} (h : ShSteps cfg fuel guard m s s')
    (hs : PoolOk s) : PoolOk s' := by
  induction h with
  | nil => exact hs
  | snoc _ h2 ih => exact poolOk_step h2 (ih hs)

theorem sum_zero {α : Type} {f : α → Nat} {l : List α} (h : ∀ x ∈ l, f x = 0) : (l.map f).sum = 0 := by
  induction l with
  | nil => rfl
  | cons a l ih => simp [h a (by simp), ih fun x hx => h x (by simp [hx])]

theorem poolOk_fresh (calls : List (Option Nat × Call)) : PoolOk (.fresh calls) := by
  refine ⟨?_, ?_⟩
  · rintro ⟨j, hj, hr⟩
    simp only [Shared.fresh, List.mem_map] at hj
    obtain ⟨c, -, rfl⟩ := hj
    cases hr
  · have : (Shared.fresh calls).busy = 0 := by
      unfold Shared.busy Shared.fresh
      refine sum_zero fun x hx => ?_
      simp only [List.mem_map] at hx
      obtain ⟨c, -, rfl⟩ := hx
      rfl
    omega

/-- The pool is never made with no workers if nobody asks for none. -/
theorem pool_pos {cfg : Cfg} {fuel : Nat} {guard : Bool} {m : Nat} {s s' : Shared} (h : ShSteps cfg fuel guard m s s')
    (h0 : ∀ n, s.threads = some n → 0 < n) (hj : ∀ j ∈ s.jobs, 0 < j.call.opt.workers ∧ ∀ k, j.via = some k → 0 < k) :
    ∀ n, s'.threads = some n → 0 < n := by
  induction h with
  | nil => exact h0
  | snoc h1 h2 ih =>
    have hih := ih h0 hj
    clear ih
    have hj' := jobs_inv (P := fun j => 0 < j.call.opt.workers ∧ ∀ k, j.via = some k → 0 < k)
      (fun ok s j t q j' h hp => by cases h <;> exact hp) h1 hj
    cases h2 with
    | @mk t t' q q' j j' pre post hs =>
      have hjj := hj' j (by simp)
      simp only at hih
      have get : ∀ k, 0 < k → ∀ n, some (t.getD k) = some n → 0 < n := by
        intro k hk n hn
        cases t with
        | none => simp only [Option.getD_none] at hn; cases hn; exact hk
        | some x => simp only [Option.getD_some] at hn; exact hih n hn
      cases hs with
      | call c =>
        rcases enter_cases cfg fuel guard false t q c with ⟨hp, h⟩ | ⟨hp, hg, hw2, h⟩ | ⟨hp, hg, s', hi, hs, hco, h⟩
        · simp only [h]; exact hih
        · cases hw2
        · simp only [h]; exact get _ hjj.1
      | submit k c => simp only [getOrConstruct_some]; exact get _ (hjj.2 k rfl)
      | begin v u c ha =>
        rcases enter_cases cfg fuel guard true t q c with ⟨hp, h⟩ | ⟨hp, hg, hw2, h⟩ | ⟨hp, hg, s', hi, hs, hco, h⟩
        · simp only [h]; exact hih
        · simp only [h]; exact get _ hjj.1
        · simp only [h]; exact get _ hjj.1
      | work v c w he _ => exact hih
      | ret v c w cache b => exact hih

/-! ### Termination -/

/-- The steps of a call that is parallel, at most. -/
def Call.whole (cfg : Cfg) (fuel : Nat) (c : Call) : Nat :=
  match initFromContent cfg c.content with
  | .ok s => 3 + (rootProg cfg c.opt.parseRef fuel c.content s).esize
  | .error _ => 3

/-- What is left to do of a call. -/
def Job.left (cfg : Cfg) (fuel : Nat) (j : Job) : Nat :=
  match j.state with
  | .idle => j.call.whole cfg fuel + 2
  | .inQueue _ => j.call.whole cfg fuel + 1
  | .parsing _ _ main => 1 + main.esize
  | .over _ => 0
  | .refused => 0

theorem left_enter (cfg : Cfg) (fuel : Nat) (guard w : Bool) (t : Threads) (q : Nat) (v : Option Nat) (c : Call) :
    (Job.mk v c (enter cfg fuel guard w t q c).1).left cfg fuel < (Job.mk v c (.inQueue 0)).left cfg fuel := by
  rcases enter_cases cfg fuel guard w t q c with ⟨hp, h⟩ | ⟨hp, hg, hw2, h⟩ | ⟨hp, hg, s', hi, hs, hco, h⟩ <;> rw [h]
  · simp only [Job.left]; omega
  · simp only [Job.left]; omega
  · simp only [Job.left, Call.whole, hi, EProc.esize]; omega

theorem left_step {cfg : Cfg} {fuel : Nat} {guard : Bool} {ok : Act → Prop} {s : Shared} {j : Job} {t : Threads} {q : Nat} {j' : Job}
    (h : JobStep cfg fuel guard ok s j t q j') : j'.left cfg fuel < j.left cfg fuel := by
  cases h with
  | call c =>
    have := left_enter cfg fuel guard false s.threads s.next none c
    refine Nat.lt_trans this ?_
    simp only [Job.left]; omega
  | submit k c => simp only [Job.left]; omega
  | begin v u c ha => exact left_enter cfg fuel guard true s.threads s.next v c
  | work v c w he _ => have := estep_size he; simp only [Job.left]; omega
  | ret v c w cache b => simp only [Job.left]; omega

def Shared.left (cfg : Cfg) (fuel : Nat) (s : Shared) : Nat := (s.jobs.map (Job.left cfg fuel)).sum

theorem shsteps_left {cfg : Cfg} {fuel : Nat} {guard : Bool} {m : Nat} {s s' : Shared} (h : ShSteps cfg fuel guard m s s') :
    s'.left cfg fuel + m ≤ s.left cfg fuel := by
  induction h with
  | nil => exact Nat.le_refl _
  | snoc _ h2 ih =>
    cases h2 with
    | mk pre post hj =>
      have := left_step hj
      simp only [Shared.left, List.map_append, List.map_cons, List.sum_append, List.sum_cons] at ih ⊢
      omega

/-! ### Progress -/

/-- A call that came to an end. -/
def Job.ended (j : Job) : Bool :=
  match j.state with
  | .over _ => true
  | .refused => true
  | _ => false

/-- No task of any parse reads its dictionary's table while another one of the same parse builds it (C41). -/
def Shared.noRace (s : Shared) : Prop :=
  ∀ j ∈ s.jobs, ∀ w cache main, j.state = .parsing w cache main → ¬ Racy cache main.plain

/-- The workers that wait inside a call. -/
def Job.held (j : Job) : Nat :=
  match j.state with
  | .parsing true _ _ => 1
  | _ => 0

theorem step_of_job {cfg : Cfg} {fuel : Nat} {guard : Bool} {s : Shared} {j : Job} (hj : j ∈ s.jobs) {t : Threads} {q : Nat} {j' : Job}
    (h : JobStep cfg fuel guard s.allowed s j t q j') : ∃ s', ShStep cfg fuel guard s s' := by
  obtain ⟨t0, q0, jobs⟩ := s
  obtain ⟨pre, post, rfl⟩ := List.append_of_mem hj
  exact ⟨_, .mk pre post h⟩

theorem builder_cache {cfg : Cfg} {fuel : Nat} {guard : Bool} {v : Option Nat} {c : Call} {w : Bool} {cache : Cache} {main : EProc}
    (h : JobOk cfg fuel guard ⟨v, c, .parsing w cache main⟩) (hb : AtBuild main.plain) : cache = .building := by
  obtain ⟨-, -, -, s, k, -, -, hp⟩ := h
  have h1 := builders_pos hb
  have h2 := steps_builders hp
  simp only [Proc.builders, Cache.busy] at h2
  by_cases hcb : cache = .building
  · exact hcb
  · rw [if_neg hcb] at h2
    simp at h2
    omega

/-- If no more than the workers that wait in calls are in use, then a process some of whose calls have not ended can go on. -/
theorem share_progress {cfg : Cfg} {fuel : Nat} {guard : Bool} {s : Shared} (hok : ∀ j ∈ s.jobs, JobOk cfg fuel guard j)
    (hr : s.noRace) (hfree : (∃ j ∈ s.jobs, j.reached = true) → (s.jobs.map Job.held).sum < s.threads.getD 0)
    (hne : ∃ j ∈ s.jobs, j.ended = false) : ∃ s', ShStep cfg fuel guard s s' := by
  by_cases hidle : ∃ j ∈ s.jobs, j.state = .idle
  · obtain ⟨⟨v, c, st⟩, hj, h⟩ := hidle
    cases h
    cases v with
    | none => exact step_of_job hj (.call c)
    | some k => exact step_of_job hj (.submit k c)
  by_cases hdone : ∃ j ∈ s.jobs, ∃ w cache b, j.state = .parsing w cache (.done b)
  · obtain ⟨⟨v, c, st⟩, hj, w, cache, b, h⟩ := hdone
    cases h
    exact step_of_job hj (.ret v c w cache b)
  by_cases hwork : ∃ j ∈ s.jobs, ∃ w cache main, j.state = .parsing w cache main ∧ 0 < main.busy
  · obtain ⟨⟨v, c, st⟩, hj, w, cache, main, h, hb⟩ := hwork
    cases h
    obtain ⟨x, hx, hw⟩ := worker_of_busy _ hb
    obtain ⟨c', q', x', hs⟩ := worker_step (q := s.next) hx hw (hr _ hj _ _ _ rfl) (fun hb => builder_cache (hok _ hj) hb)
    obtain ⟨e', he⟩ := within_step hx hs
    exact step_of_job hj (.work v c w he trivial)
  -- no task is on a worker
  have hbusy : s.busy = (s.jobs.map Job.held).sum := by
    unfold Shared.busy
    congr 1
    refine List.map_congr_left fun j hj => ?_
    cases hst : j.state with
    | parsing w cache main =>
      have : main.busy = 0 := by
        apply Classical.byContradiction
        intro h0
        exact hwork ⟨j, hj, w, cache, main, hst, by omega⟩
      simp only [Job.busy, Job.held, hst, this]
      cases w <;> rfl
    | _ => simp only [Job.busy, Job.held, hst]
  obtain ⟨j, hj, hje⟩ := hne
  have hreach : j.reached = true := by
    cases hst : j.state with
    | idle => exact absurd ⟨j, hj, hst⟩ hidle
    | inQueue t => simp [Job.reached, hst]
    | parsing w cache main => simp [Job.reached, hst]
    | over r => simp [Job.ended, hst] at hje
    | refused => simp [Job.ended, hst] at hje
  have hfree : s.busy < s.threads.getD 0 := by rw [hbusy]; exact hfree ⟨j, hj, hreach⟩
  by_cases hq : s.tickets = []
  · -- nothing in the queue: some task has all its blocks
    cases hst : j.state with
    | idle => exact absurd ⟨j, hj, hst⟩ hidle
    | inQueue t =>
      exfalso
      have : t ∈ s.tickets := List.mem_flatMap.2 ⟨j, hj, by simp [Job.tickets, hst]⟩
      rw [hq] at this; cases this
    | over r => simp [Job.ended, hst] at hje
    | refused => simp [Job.ended, hst] at hje
    | parsing w cache main =>
      have hnd : main.isDone = false := by
        cases main with
        | done b => exact absurd ⟨j, hj, w, cache, b, hst⟩ hdone
        | _ => rfl
      have hnt : main.tickets = [] := by
        apply List.eq_nil_iff_forall_not_mem.2
        intro t ht
        have : t ∈ s.tickets := List.mem_flatMap.2 ⟨j, hj, by simpa [Job.tickets, hst] using ht⟩
        rw [hq] at this; cases this
      obtain ⟨v, c, st⟩ := j
      cases hst
      rcases lively main hnd with ⟨x, hx, hw⟩ | ht | ⟨rs, k, hk⟩
      · exact absurd ⟨_, hj, w, cache, main, rfl, busy_of_worker hx hw⟩ hwork
      · exact absurd hnt ht
      · obtain ⟨e', he⟩ := within_step hk (.resume cache s.next rs k)
        exact step_of_job hj (.work v c w he hfree)
  · obtain ⟨t, ht, hmin⟩ := min_mem hq
    obtain ⟨j, hj, hjt⟩ := List.mem_flatMap.1 ht
    obtain ⟨v, c, st⟩ := j
    cases st with
    | idle => cases hjt
    | over r => cases hjt
    | refused => cases hjt
    | inQueue t' =>
      simp only [Job.tickets, List.mem_singleton] at hjt
      subst hjt
      exact step_of_job hj (.begin v t c ⟨hfree, hmin⟩)
    | parsing w cache main =>
      obtain ⟨p, hp⟩ := ticket_mem _ hjt
      obtain ⟨e', he⟩ := within_step hp (.take cache s.next t p)
      exact step_of_job hj (.work v c w he ⟨hfree, hmin⟩)

/-- With the check of `syncAwait` no worker waits in a call. -/
theorem held_guarded {cfg : Cfg} {fuel : Nat} {s : Shared} (hok : ∀ j ∈ s.jobs, JobOk cfg fuel true j) :
    (s.jobs.map Job.held).sum = 0 := by
  refine sum_zero fun j hj => ?_
  have := hok j hj
  unfold JobOk at this
  unfold Job.held
  cases hst : j.state with
  | parsing w cache main =>
    rw [hst] at this
    cases w with
    | false => rfl
    | true => have := (this.1 rfl).2; cases this
  | _ => rfl

/-- Without it, at most the tasks given to the pool that call `Parse` do. -/
theorem held_le {cfg : Cfg} {fuel : Nat} {guard : Bool} {s : Shared} (hok : ∀ j ∈ s.jobs, JobOk cfg fuel guard j) :
    (s.jobs.map Job.held).sum ≤ (s.jobs.filter fun j => j.via.isSome && j.call.parallel cfg).length := by
  obtain ⟨t, q, jobs⟩ := s
  simp only at hok ⊢
  induction jobs with
  | nil => exact Nat.le_refl _
  | cons j js ih =>
    have ih := ih fun x hx => hok x (by simp [hx])
    have hj := hok j (by simp)
    simp only [List.map_cons, List.sum_cons, List.filter_cons]
    have : j.held = 0 ∨ (j.held = 1 ∧ (j.via.isSome && j.call.parallel cfg) = true) := by
      unfold JobOk at hj
      unfold Job.held
      cases hst : j.state with
      | parsing w cache main =>
        rw [hst] at hj
        cases w with
        | false => exact .inl rfl
        | true => right; exact ⟨rfl, by simp [(hj.1 rfl).1, hj.2.2.1]⟩
      | _ => exact .inl rfl
    rcases this with h | ⟨h, hb⟩
    · split <;> simp <;> omega
    · rw [if_pos hb]; simp; omega

end Bridge
