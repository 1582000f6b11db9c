import Verif.Proof.Share
/-
C73: any number of calls of `Parse` at the same time share the one pool of the process.
-/
set_option autoImplicit false
namespace Bridge
open Spec

/-- C73. At no time more tasks are on a worker than the pool has workers, however many parses are under way, and the number of workers
never changes once the pool is there. -/
theorem C73_at_most_n_run {cfg : Cfg} {fuel : Nat} {guard : Bool} {calls : List (Option Nat × Call)} {m : Nat} {s : Shared}
    (h : ShSteps cfg fuel guard m (.fresh calls) s) :
    s.busy ≤ s.threads.getD 0 ∧ ∀ m' s', ShSteps cfg fuel guard m' s s' → ∀ n, s.threads = some n → s'.threads = some n := by
  refine ⟨(poolOk_steps h (poolOk_fresh calls)).busy, fun m' s' h' => ?_⟩
  induction h' with
  | nil => exact fun _ h => h
  | snoc _ h2 ih =>
    intro n hn
    cases h2 with
    | mk pre post hj => exact (jobstep_pool hj allowed_free).1 n (ih h n hn)

/-- C73. A call that has returned or thrown did what it does in a process of its own: neither the other calls nor the number of workers
nor the order in which they take the tasks of all the parses can be seen in the outcome. -/
theorem C73_as_if_alone {cfg : Cfg} {fuel : Nat} {guard : Bool} {calls : List (Option Nat × Call)} {m : Nat} {s : Shared}
    (h : ShSteps cfg fuel guard m (.fresh calls) s) (i : Nat) (v : Option Nat) (c : Call) (hc : calls[i]? = some (v, c))
    (hw : 0 < c.opt.workers) (j : Job) (hj : s.jobs[i]? = some j) (r : Res Obj) (hr : j.state = .over r) :
    r = parse cfg c.opt fuel c.content := by
  have hcall : j.call = c := by
    have := congrArg (·[i]?) (shsteps_calls h)
    simp only [List.getElem?_map, hj, Shared.fresh, hc, Option.map_some, Option.some.injEq, Prod.mk.injEq] at this
    exact this.2
  have := jobOk_fresh h j (List.mem_of_getElem? hj)
  unfold JobOk at this
  rw [hr, hcall] at this
  rcases this with ⟨-, h⟩ | ⟨hp, h⟩
  · exact h
  · have hco := (parallel_iff.1 hp).1
    rw [h _ hw, ← hco]

/-- C73. If no call and no task asks for zero workers, then a process with calls that have not ended can always go on: parses never block
each other (unless a task is about to read the dictionary's table of its document while another one builds it, the race of C41). -/
theorem C73_never_stuck {cfg : Cfg} {fuel : Nat} {calls : List (Option Nat × Call)}
    (hw : ∀ c ∈ calls, 0 < c.2.opt.workers ∧ ∀ k, c.1 = some k → 0 < k) {m : Nat} {s : Shared}
    (h : ShSteps cfg fuel true m (.fresh calls) s) (hr : s.noRace) :
    (∀ j ∈ s.jobs, j.ended = true) ∨ ∃ s', ShStep cfg fuel true s s' := by
  by_cases hne : ∃ j ∈ s.jobs, j.ended = false
  · right
    have hok := jobOk_fresh h
    refine share_progress hok hr (fun hre => ?_) hne
    rw [held_guarded hok]
    obtain ⟨n, hn⟩ := Option.isSome_iff_exists.1 ((poolOk_steps h (poolOk_fresh calls)).there hre)
    have := pool_pos h (by simp [Shared.fresh]) (by
      intro j hj
      simp only [Shared.fresh, List.mem_map] at hj
      obtain ⟨c, hc, rfl⟩ := hj
      exact hw c hc) n hn
    simpa [hn] using this
  · left
    intro j hj
    cases he : j.ended with
    | true => rfl
    | false => exact absurd ⟨j, hj, he⟩ hne

/-- C73. No execution goes on for ever. -/
theorem C73_every_execution_ends (cfg : Cfg) (fuel : Nat) (calls : List (Option Nat × Call)) :
    ∃ bound, ∀ guard m s, ShSteps cfg fuel guard m (.fresh calls) s → m ≤ bound := by
  refine ⟨(Shared.fresh calls).left cfg fuel, fun guard m s h => ?_⟩
  have := shsteps_left h
  omega

/-- C73. The only calls that are refused are the parallel ones made on a worker of the pool; those are refused, and nothing else happens to
them. -/
theorem C73_refused_exactly_on_workers {cfg : Cfg} {fuel : Nat} {calls : List (Option Nat × Call)} {m : Nat} {s : Shared}
    (h : ShSteps cfg fuel true m (.fresh calls) s) (i : Nat) (v : Option Nat) (c : Call) (hc : calls[i]? = some (v, c))
    (j : Job) (hj : s.jobs[i]? = some j) (he : j.ended = true) :
    j.state = .refused ↔ v.isSome = true ∧ c.parallel cfg = true := by
  have hcall : j.via = v ∧ j.call = c := by
    have := congrArg (·[i]?) (shsteps_calls h)
    simpa only [List.getElem?_map, hj, Shared.fresh, hc, Option.map_some, Option.some.injEq, Prod.mk.injEq] using this
  obtain ⟨hv, hcc⟩ := hcall
  have hok := jobOk_fresh h j (List.mem_of_getElem? hj)
  -- a parallel call made by a task never gets into `syncAwait`
  have key : ∀ j ∈ s.jobs, j.via.isSome = true → j.call.parallel cfg = true → ∀ r, j.state ≠ .over r := by
    refine jobs_inv (P := fun j => j.via.isSome = true → j.call.parallel cfg = true →
        (∀ r, j.state ≠ .over r) ∧ ∀ w cache main, j.state ≠ .parsing w cache main) ?_ h ?_ |> fun hh j hj h1 h2 => (hh j hj h1 h2).1
    · intro ok s j t q j' hs hp h1 h2
      cases hs with
      | call c => cases h1
      | submit k c => exact ⟨by simp, by simp⟩
      | begin v u c ha =>
        rcases enter_cases cfg fuel true true s.threads s.next c with ⟨hp, h⟩ | ⟨hp, hg, hw2, h⟩ | ⟨hp, hg, s', hi, hs, hco, h⟩
        · rw [hp] at h2; cases h2
        · rw [h]; exact ⟨by simp, by simp⟩
        · cases hg
      | work v c w he _ => exact absurd rfl ((hp h1 h2).2 _ _ _)
      | ret v c w cache b => exact absurd rfl ((hp h1 h2).2 _ _ _)
    · intro j hj _ _
      simp only [Shared.fresh, List.mem_map] at hj
      obtain ⟨c, -, rfl⟩ := hj
      exact ⟨by simp, by simp⟩
  constructor
  · intro hr
    unfold JobOk at hok
    rw [hr] at hok
    rw [← hv, ← hcc]
    exact hok.2
  · rintro ⟨h1, h2⟩
    rw [← hv] at h1
    rw [← hcc] at h2
    have hk := key j (List.mem_of_getElem? hj) h1 h2
    cases hst : j.state with
    | refused => rfl
    | over r => exact absurd hst (hk r)
    | _ => simp [Job.ended, hst] at he

/-! ### Documents that `Serialize` wrote -/

/-- The content of the call is what `Serialize` wrote for the document `d`, it fits the reader's memory, and the options suit it. -/
def Call.Wrote (r : Cfg) (c : Call) (d : Doc) : Prop :=
  ∃ (w : Cfg) (t : SeriType) (o : Obj), w.charSigned = true ∧ o.doc? = some d ∧ Writable w o ∧ serialize w t o = .ok c.content ∧
    Fits r c.content ∧ 0 < c.opt.workers ∧ (c.opt.parseRef = true → d.noCustom = true)

theorem wrote_parses {r : Cfg} {c : Call} {d : Doc} (h : c.Wrote r d) :
    ∃ o' d', Parses r c.opt c.content (.ok o') ∧ o'.doc? = some d' ∧ d.Same d' := by
  obtain ⟨w, t, o, h1, h2, h3, h4, h5, h6, h7⟩ := h
  rw [serialize_eq h1 t h2 h3] at h4
  obtain ⟨content, co, ref, k⟩ := c
  have hcc : contentOf w t d = content := by simpa using h4
  simp only at h5 h6 h7 ⊢
  have h5' : Fits r (contentOf w t d ++ []) := by rw [hcc, List.append_nil]; exact h5
  cases co with
  | true =>
    obtain ⟨o', d', hp, hd, hs, -⟩ := parses_co (extra := []) h5' ref h7 (k := k) h6
    rw [hcc, List.append_nil] at hp
    exact ⟨o', d', hp, hd, hs⟩
  | false =>
    obtain ⟨o', hp, hd, -⟩ := parses_normal (extra := []) h5' ref h7 k
    rw [hcc, List.append_nil] at hp
    exact ⟨o', _, hp, hd, same_revMaps d⟩

theorem wrote_noRace {r : Cfg} {c : Call} {d : Doc} (h : c.Wrote r d) {s : Sched} (hs : initFromContent r c.content = .ok s)
    (hsplit : s.split = true) {ref : Bool} {fuel n : Nat} {cache : Cache} {p : Proc}
    (hp : PSteps n .unbuilt (.run (rootProg r ref fuel c.content s)) cache p) : ¬ Racy cache p := by
  obtain ⟨w, t, o, h1, h2, h3, h4, h5, -, -⟩ := h
  exact C41_no_race w r h1 t o d h2 h3 h4 h5 hs hsplit ref fuel n cache p hp

/-- C73. Any number of calls at the same time, of any kind, on documents that `Serialize` wrote: there is no race, no execution goes on for
ever, and when no step is left each call has returned its document, except that a parallel call made on a worker of the pool threw
`std::logic_error`. -/
theorem C73_all_complete (r : Cfg) (calls : List (Option Nat × Call × Doc)) (hwr : ∀ x ∈ calls, x.2.1.Wrote r x.2.2)
    (hk : ∀ x ∈ calls, ∀ k, x.1 = some k → 0 < k) :
    ∃ N, ∀ fuel, N ≤ fuel →
      (∃ bound, ∀ m s, ShSteps r fuel true m (.fresh (calls.map fun x => (x.1, x.2.1))) s → m ≤ bound) ∧
      ∀ m s, ShSteps r fuel true m (.fresh (calls.map fun x => (x.1, x.2.1))) s →
        s.noRace ∧ ((¬ ∃ s', ShStep r fuel true s s') →
          ∀ (i : Nat) (v : Option Nat) (c : Call) (d : Doc), calls[i]? = some (v, c, d) → ∃ j, s.jobs[i]? = some j ∧
            ((v.isSome && c.parallel r) = true → j.state = .refused) ∧
            ((v.isSome && c.parallel r) = false → ∃ o' d', j.state = .over (.ok o') ∧ o'.doc? = some d' ∧ d.Same d')) := by
  -- enough fuel for all
  have hN : ∃ N, ∀ fuel, N ≤ fuel → ∀ x ∈ calls, ∃ o' d', parse r x.2.1.opt fuel x.2.1.content = .ok o' ∧ o'.doc? = some d' ∧
      x.2.2.Same d' := by
    clear hk
    induction calls with
    | nil => exact ⟨0, fun _ _ x hx => by cases hx⟩
    | cons a as ih =>
      obtain ⟨N1, h1⟩ := ih fun x hx => hwr x (by simp [hx])
      obtain ⟨o', d', ⟨-, N2, h2⟩, h3, h4⟩ := wrote_parses (hwr a (by simp))
      refine ⟨max N1 N2, fun fuel hf x hx => ?_⟩
      rcases List.mem_cons.1 hx with rfl | hx
      · exact ⟨o', d', h2 fuel (by omega), h3, h4⟩
      · exact h1 fuel (by omega) x hx
  obtain ⟨N, hN⟩ := hN
  refine ⟨N, fun fuel hfu => ⟨?_, fun m s h => ?_⟩⟩
  · obtain ⟨b, hb⟩ := C73_every_execution_ends r fuel (calls.map fun x => (x.1, x.2.1))
    exact ⟨b, fun m s h => hb true m s h⟩
  have hmap := shsteps_calls h
  have hwj : ∀ j ∈ s.jobs, ∃ d, j.call.Wrote r d := by
    intro j hj
    have : (j.via, j.call) ∈ s.jobs.map (fun j => (j.via, j.call)) := List.mem_map_of_mem hj
    rw [hmap] at this
    simp only [Shared.fresh, List.map_map, List.mem_map, Function.comp_apply, Prod.mk.injEq] at this
    obtain ⟨x, hx, -, h2⟩ := this
    exact ⟨x.2.2, h2 ▸ hwr x hx⟩
  have hnr : s.noRace := by
    intro j hj w cache main hst
    have hok := jobOk_fresh h j hj
    unfold JobOk at hok
    rw [hst] at hok
    obtain ⟨-, -, -, s', k, h3, h4, h5⟩ := hok
    obtain ⟨d, hd⟩ := hwj j hj
    exact wrote_noRace hd h3 h4 h5
  refine ⟨hnr, fun hstuck i v c d hi => ?_⟩
  have hall : ∀ j ∈ s.jobs, j.ended = true := by
    rcases C73_never_stuck (calls := calls.map fun x => (x.1, x.2.1)) (by
      intro x hx
      simp only [List.mem_map] at hx
      obtain ⟨y, hy, rfl⟩ := hx
      obtain ⟨_, _, _, _, _, _, _, _, hw, _⟩ := hwr y hy
      exact ⟨hw, hk y hy⟩) h hnr with h | h
    · exact h
    · exact absurd h hstuck
  have hlen : s.jobs.length = calls.length := by
    have := congrArg List.length hmap
    simpa [Shared.fresh] using this
  have hil : i < s.jobs.length := by
    rw [hlen]; exact (List.getElem?_eq_some_iff.1 hi).1
  refine ⟨s.jobs[i], List.getElem?_eq_getElem hil, ?_⟩
  have hc' : (calls.map fun x => (x.1, x.2.1))[i]? = some (v, c) := by simp [hi]
  have hiff := C73_refused_exactly_on_workers h i v c hc' _ (List.getElem?_eq_getElem hil) (hall _ (List.getElem_mem hil))
  refine ⟨fun hb => hiff.2 (by simpa using hb), fun hb => ?_⟩
  have hmem := List.mem_of_getElem? hi
  obtain ⟨o', d', h1, h2, h3⟩ := hN fuel hfu _ hmem
  refine ⟨o', d', ?_, h2, h3⟩
  have hnot : s.jobs[i].state ≠ .refused := by
    intro hr
    have := hiff.1 hr
    rw [this.1, this.2] at hb
    cases hb
  have hend := hall _ (List.getElem_mem hil)
  cases hst : s.jobs[i].state with
  | over x =>
    obtain ⟨_, _, _, _, _, _, _, _, hw, _⟩ := hwr _ hmem
    have := C73_as_if_alone h i v c hc' hw _ (List.getElem?_eq_getElem hil) x hst
    rw [this, h1]
  | refused => exact absurd hst hnot
  | _ => simp [Job.ended, hst] at hend

/-! ### The queue -/

theorem enter_tickets (cfg : Cfg) (fuel : Nat) (guard w : Bool) (t : Threads) (q : Nat) (v : Option Nat) (c : Call) :
    q ≤ (enter cfg fuel guard w t q c).2.2 ∧
      (Job.mk v c (enter cfg fuel guard w t q c).1).tickets = List.range' q ((enter cfg fuel guard w t q c).2.2 - q) := by
  rcases enter_cases cfg fuel guard w t q c with ⟨hp, h⟩ | ⟨hp, hg, hw2, h⟩ | ⟨hp, hg, s', hi, hs, hco, h⟩ <;> rw [h]
  · simp [Job.tickets]
  · simp [Job.tickets]
  · simp [Job.tickets, EProc.tickets]

/-- The ticket that a step takes. -/
theorem jobstep_tickets {cfg : Cfg} {fuel : Nat} {guard : Bool} {ok : Act → Prop} {s : Shared} {j : Job} {t : Threads} {q : Nat} {j' : Job}
    (h : JobStep cfg fuel guard ok s j t q j') (hstep : ok .step) :
    s.next ≤ q ∧ ∃ a : Act, ok a ∧ (j'.tickets ++ a.taken).Perm (j.tickets ++ List.range' s.next (q - s.next)) := by
  cases h with
  | call c =>
    obtain ⟨h1, h2⟩ := enter_tickets cfg fuel guard false s.threads s.next none c
    exact ⟨h1, .step, hstep, by rw [h2]; simp [Act.taken, Job.tickets]⟩
  | submit k c => exact ⟨by omega, .step, hstep, by simp [Act.taken, Job.tickets]⟩
  | begin v u c ha =>
    obtain ⟨h1, h2⟩ := enter_tickets cfg fuel guard true s.threads s.next v c
    exact ⟨h1, .take u, ha, by rw [h2]; simpa [Act.taken, Job.tickets] using List.perm_append_comm⟩
  | @work v c w cache cache' e e' a q' he ha =>
    obtain ⟨h1, h2⟩ := estep_tickets he
    exact ⟨h1, a, ha, by simpa [Job.tickets] using h2⟩
  | ret v c w cache b => exact ⟨by omega, .step, hstep, by simp [Act.taken, Job.tickets, EProc.tickets]⟩

/-- What a step does to the one queue: it takes the task at the front or none, and adds new ones at the back. -/
theorem shstep_tickets {cfg : Cfg} {fuel : Nat} {guard : Bool} {s s' : Shared} (h : ShStep cfg fuel guard s s') :
    s.next ≤ s'.next ∧ ∃ a : Act, s.allowed a ∧ (s'.tickets ++ a.taken).Perm (s.tickets ++ List.range' s.next (s'.next - s.next)) := by
  cases h with
  | mk pre post hj =>
    obtain ⟨h1, a, h2, h3⟩ := jobstep_tickets hj trivial
    refine ⟨h1, a, h2, ?_⟩
    simp only [tickets_append]
    rw [List.perm_iff_count] at h3 ⊢
    intro x
    have := h3 x
    simp only [List.count_append] at this ⊢
    omega

/-- C73. First come, first served, across all parses: the tickets waiting are distinct and were given out, and every step leaves the queue
as it is but for the task at its front, if a worker takes it, and for new tasks behind all those waiting. -/
theorem C73_one_queue {cfg : Cfg} {fuel : Nat} {guard : Bool} {calls : List (Option Nat × Call)} {m : Nat} {s : Shared}
    (h : ShSteps cfg fuel guard m (.fresh calls) s) :
    s.tickets.Nodup ∧ (∀ t ∈ s.tickets, t < s.next) ∧ ∀ s', ShStep cfg fuel guard s s' →
      ∃ new, (∀ t ∈ new, s.next ≤ t) ∧
        (s'.tickets.Perm (s.tickets ++ new) ∨
          ∃ t, (∀ t' ∈ s.tickets, t ≤ t') ∧ s.busy < s.threads.getD 0 ∧ (t :: s'.tickets).Perm (s.tickets ++ new)) := by
  have hinv : s.tickets.Nodup ∧ ∀ t ∈ s.tickets, t < s.next := by
    generalize hst : Shared.fresh calls = s0 at h
    induction h with
    | nil =>
      subst hst
      have : (Shared.fresh calls).tickets = [] := by
        simp only [Shared.tickets, Shared.fresh, List.flatMap_map]
        exact List.flatMap_eq_nil_iff.2 fun x _ => rfl
      rw [this]
      exact ⟨List.nodup_nil, by simp⟩
    | snoc _ h2 ih =>
      obtain ⟨i1, i2⟩ := ih hst
      obtain ⟨h1, a, -, h3⟩ := shstep_tickets h2
      have hall := h3.nodup_iff.2 (by
        rw [List.nodup_append]
        refine ⟨i1, List.nodup_range', fun x hx y hy hxy => ?_⟩
        subst hxy
        have := i2 x hx
        simp only [List.mem_range'_1] at hy
        omega)
      refine ⟨(List.nodup_append.1 hall).1, fun t ht => ?_⟩
      rcases List.mem_append.1 (h3.mem_iff.1 (List.mem_append.2 (.inl ht))) with h | h
      · have := i2 t h; omega
      · simp only [List.mem_range'_1] at h; omega
  refine ⟨hinv.1, hinv.2, fun s' hs => ?_⟩
  obtain ⟨h1, a, h2, h3⟩ := shstep_tickets hs
  refine ⟨List.range' s.next (s'.next - s.next), fun t ht => by simp only [List.mem_range'_1] at ht; omega, ?_⟩
  cases a with
  | take t => exact .inr ⟨t, h2.2, h2.1, (List.perm_append_comm (l₁ := [t])).trans h3⟩
  | resume => exact .inl (by simpa [Act.taken] using h3)
  | step => exact .inl (by simpa [Act.taken] using h3)

/-! ### What the check of `syncAwait` is for -/

/-- C73. Even if `syncAwait` did not check on which thread it is called, nothing would be stuck as long as the tasks given to the pool that
make a parallel call are fewer than the workers. -/
theorem C73_fewer_tasks_than_workers {cfg : Cfg} {fuel : Nat} {guard : Bool} {calls : List (Option Nat × Call)} {m : Nat} {s : Shared}
    (h : ShSteps cfg fuel guard m (.fresh calls) s) (hr : s.noRace)
    (hn : ∀ n, s.threads = some n → (calls.filter fun c => c.1.isSome && c.2.parallel cfg).length < n) :
    (∀ j ∈ s.jobs, j.ended = true) ∨ ∃ s', ShStep cfg fuel guard s s' := by
  by_cases hne : ∃ j ∈ s.jobs, j.ended = false
  · right
    have hok := jobOk_fresh h
    refine share_progress hok hr (fun hre => ?_) hne
    obtain ⟨n, hth⟩ := Option.isSome_iff_exists.1 ((poolOk_steps h (poolOk_fresh calls)).there hre)
    have h1 := hn n hth
    have h2 := held_le hok
    have h3 : (s.jobs.filter fun j => j.via.isSome && j.call.parallel cfg).length =
        (calls.filter fun c => c.1.isSome && c.2.parallel cfg).length := by
      have e1 : ∀ l : List Job, (l.filter fun j => j.via.isSome && j.call.parallel cfg).length =
          ((l.map fun j => (j.via, j.call)).filter fun c => c.1.isSome && c.2.parallel cfg).length := by
        intro l
        rw [List.filter_map, List.length_map]
        rfl
      rw [e1, shsteps_calls h]
      simp [Shared.fresh, List.map_map, Function.comp_def]
    rw [hth]
    simp only [Option.getD_some]
    omega
  · left
    intro j hj
    cases he : j.ended with
    | true => rfl
    | false => exact absurd ⟨j, hj, he⟩ hne

/-- A task in the queue before ticket `K` that will make a parallel call, or a worker waiting inside one. -/
def Job.blocker (cfg : Cfg) (K : Nat) (j : Job) : Nat :=
  match j.state with
  | .inQueue t => if t < K ∧ j.call.parallel cfg = true then 1 else 0
  | .parsing true _ _ => 1
  | _ => 0

/-- Nothing but the main task of a parse has been started, behind the blockers. -/
def Job.waits (cfg : Cfg) (K : Nat) (j : Job) : Prop :=
  match j.state with
  | .parsing _ _ main => ∃ t p, main = .queued t p ∧ K ≤ t
  | .over _ => j.call.parallel cfg = false
  | .refused => False
  | _ => True

theorem held_of_blockers {cfg : Cfg} {K n : Nat} {s : Shared} (hn : n ≤ (s.jobs.map (Job.blocker cfg K)).sum)
    (hq : ∀ t ∈ s.tickets, K ≤ t) : n ≤ s.busy := by
  refine Nat.le_trans hn ?_
  unfold Shared.busy
  have : ∀ j ∈ s.jobs, j.blocker cfg K ≤ j.busy := by
    intro j hj
    unfold Job.blocker Job.busy
    cases hst : j.state with
    | inQueue t =>
      have := hq t (List.mem_flatMap.2 ⟨j, hj, by simp [Job.tickets, hst]⟩)
      simp only
      rw [if_neg (by omega)]
      exact Nat.le_refl _
    | parsing w cache main => cases w <;> simp
    | _ => simp
  clear hn hq
  generalize s.jobs = l at this
  induction l with
  | nil => exact Nat.le_refl _
  | cons a l ih =>
    have h1 := this a (by simp)
    have h2 := ih fun j hj => this j (by simp [hj])
    simp only [List.map_cons, List.sum_cons]
    omega

/-- C73. Without the check the pool would be lost: from any state in which no parallel call has begun and the queue has as many tasks that
will make one as there are workers, no parallel call ever ends, under no schedule. -/
theorem C73_deadlock_without_check {cfg : Cfg} {fuel : Nat} {calls : List (Option Nat × Call)} {m : Nat} {s0 : Shared}
    (h : ShSteps cfg fuel false m (.fresh calls) s0) {n : Nat} (hth : s0.threads = some n)
    (h0 : ∀ j ∈ s0.jobs, j.call.parallel cfg = true → j.state = .idle ∨ ∃ t, j.state = .inQueue t)
    (hmany : n ≤ (s0.jobs.filter fun j => j.call.parallel cfg && !j.tickets.isEmpty).length) :
    ∀ m' s, ShSteps cfg fuel false m' s0 s → ∀ j ∈ s.jobs, j.call.parallel cfg = true → j.ended = false := by
  obtain ⟨-, hlt, -⟩ := C73_one_queue h
  have hok := jobOk_fresh h
  -- the blockers at the beginning
  have hblk : n ≤ (s0.jobs.map (Job.blocker cfg s0.next)).sum := by
    refine Nat.le_trans hmany ?_
    have key : ∀ l : List Job, (∀ j ∈ l, j ∈ s0.jobs) →
        (l.filter fun j => j.call.parallel cfg && !j.tickets.isEmpty).length ≤ (l.map (Job.blocker cfg s0.next)).sum := by
      intro l
      induction l with
      | nil => intro _; exact Nat.le_refl _
      | cons a l ih =>
        intro hl
        have ih := ih fun j hj => hl j (by simp [hj])
        simp only [List.filter_cons, List.map_cons, List.sum_cons]
        split
        · rename_i hb
          simp only [Bool.and_eq_true] at hb
          have : a.blocker cfg s0.next = 1 := by
            rcases h0 a (hl a (by simp)) hb.1 with hst | ⟨t, hst⟩
            · simp [Job.tickets, hst] at hb
            · have := hlt t (List.mem_flatMap.2 ⟨a, hl a (by simp), by simp [Job.tickets, hst]⟩)
              simp only [Job.blocker, hst]
              rw [if_pos ⟨this, hb.1⟩]
          simp only [List.length_cons]
          omega
        · omega
    exact key _ fun _ h => h
  have hwait : ∀ j ∈ s0.jobs, j.waits cfg s0.next := by
    intro j hj
    have hjo := hok j hj
    unfold JobOk at hjo
    unfold Job.waits
    cases hst : j.state with
    | idle => trivial
    | inQueue t => trivial
    | parsing w cache main =>
      rw [hst] at hjo
      rcases h0 j hj hjo.2.2.1 with h | ⟨t, h⟩ <;> rw [hst] at h <;> cases h
    | over r =>
      simp only
      cases hp : j.call.parallel cfg with
      | false => rfl
      | true => rcases h0 j hj hp with h | ⟨t, h⟩ <;> rw [hst] at h <;> cases h
    | refused =>
      rw [hst] at hjo
      cases hjo.1
  intro m' s hs
  generalize hK : s0.next = K at hblk hwait
  have inv : s.threads = some n ∧ K ≤ s.next ∧ n ≤ (s.jobs.map (Job.blocker cfg K)).sum ∧ ∀ j ∈ s.jobs, j.waits cfg K := by
    clear h0 hmany hok hlt h
    induction hs with
    | nil => exact ⟨hth, by omega, hblk, hwait⟩
    | snoc _ h2 ih =>
      obtain ⟨i1, i2, i3, i4⟩ := ih hth hK hblk hwait
      cases h2 with
      | @mk t t' q q' j j' pre post hj =>
        obtain ⟨p1, -, -⟩ := jobstep_pool hj allowed_free
        obtain ⟨p2, -⟩ := jobstep_tickets hj trivial
        simp only at i1 i2 p1 p2
        have hjw : j.waits cfg K := i4 j (by simp)
        suffices hgoal : j.blocker cfg K ≤ j'.blocker cfg K ∧ j'.waits cfg K by
          refine ⟨p1 n i1, by simp only; omega, ?_, ?_⟩
          · simp only [List.map_append, List.map_cons, List.sum_append, List.sum_cons] at i3 ⊢
            omega
          · intro x hx
            simp only [List.mem_append, List.mem_cons] at hx i4
            rcases hx with hx | rfl | hx
            · exact i4 x (.inl hx)
            · exact hgoal.2
            · exact i4 x (.inr (.inr hx))
        have hen : ∀ w v c, (Job.mk v c (enter cfg fuel false w t q c).1).waits cfg K ∧
            (w = true → c.parallel cfg = true → (Job.mk v c (enter cfg fuel false w t q c).1).blocker cfg K = 1) := by
          intro w v c
          rcases enter_cases cfg fuel false w t q c with ⟨hp, h⟩ | ⟨hp, hg, hw2, h⟩ | ⟨hp, hg, s', hi, hs, hco, h⟩
          · rw [h]; exact ⟨hp, fun _ h => by rw [hp] at h; cases h⟩
          · cases hg
          · rw [h]; exact ⟨⟨q, _, rfl, i2⟩, fun hw _ => by subst hw; rfl⟩
        cases hj with
        | call c => exact ⟨by simp [Job.blocker], (hen false none c).1⟩
        | submit k c => exact ⟨by simp [Job.blocker], trivial⟩
        | begin v u c ha =>
          obtain ⟨e1, e2⟩ := hen true v c
          refine ⟨?_, e1⟩
          simp only [Job.blocker]
          split
          · rename_i hb
            have := e2 rfl hb.2
            simp only [Job.blocker] at this
            omega
          · omega
        | @work v c w cache cache' e e' a q' he ha =>
          exfalso
          obtain ⟨u, p, rfl, hu⟩ := hjw
          cases he with
          | take =>
            obtain ⟨hb, hmin⟩ := ha
            have := held_of_blockers i3 fun x hx => Nat.le_trans hu (hmin x hx)
            subst i1
            simp only [Option.getD_some] at hb
            omega
        | ret v c w cache b =>
          obtain ⟨u, p, h, -⟩ := hjw
          cases h
  intro j hj hp
  have := inv.2.2.2 j hj
  unfold Job.waits at this
  unfold Job.ended
  cases hst : j.state with
  | over r => rw [hst] at this; simp only at this; rw [hp] at this; cases this
  | refused => rw [hst] at this; exact this.elim
  | _ => rfl

/-! ### Examples -/

/-- A parallel call on the sample. -/
def splitCall (k : Nat) : Call := ⟨splitSample, ⟨true, false, k⟩⟩

theorem splitCall_parallel (k : Nat) : (splitCall k).parallel Cfg.x86 = true := by
  have h2 : (splitCall 2).parallel Cfg.x86 = true := by decide +kernel
  obtain ⟨-, s, hi, hs⟩ := parallel_iff.1 h2
  exact parallel_iff.2 ⟨rfl, s, hi, hs⟩

theorem splitSample_written : serialize { Cfg.x86 with blockSize := 10 } .normal sampleObj = .ok splitSample := by decide +kernel

theorem splitSample_fits : Fits Cfg.x86 splitSample := ⟨by decide +kernel, by decide +kernel, by decide +kernel⟩

theorem sample_wrote {w : Cfg} {t : SeriType} {content : Bytes} {po : ParseOption} (hw : w.charSigned = true)
    (h : serialize w t sampleObj = .ok content) (hf : Fits Cfg.x86 content) (hk : 0 < po.workers) (hr : po.parseRef = false) :
    (Call.mk content po).Wrote Cfg.x86 sampleDoc :=
  ⟨w, t, sampleObj, hw, sample_doc, sample_writable _, h, hf, hk, fun h => by rw [hr] at h; cases h⟩

theorem splitCall_wrote (k : Nat) (hk : 0 < k) : (splitCall k).Wrote Cfg.x86 sampleDoc :=
  sample_wrote (content := splitSample) (w := { Cfg.x86 with blockSize := 10 }) rfl splitSample_written splitSample_fits hk rfl

theorem plainSample_written : serialize Cfg.x86 .normal sampleObj = .ok plainSample := by decide +kernel

theorem plainSample_fits : Fits Cfg.x86 plainSample := ⟨by decide +kernel, by decide +kernel, by decide +kernel⟩

theorem plainCall_wrote : (Call.mk plainSample ⟨false, false, 1⟩).Wrote Cfg.x86 sampleDoc :=
  sample_wrote (content := plainSample) (w := Cfg.x86) rfl plainSample_written plainSample_fits Nat.one_pos rfl

/-- Three threads that parse at the same time, two of them in parallel, and a task given to the pool that wants to. -/
def demoProcess : List (Option Nat × Call × Doc) :=
  [(none, splitCall 2, sampleDoc), (none, ⟨plainSample, ⟨false, false, 1⟩⟩, sampleDoc), (none, splitCall 5, sampleDoc),
    (some 3, splitCall 1, sampleDoc)]

/-- It meets the hypotheses of `C73_all_complete`. -/
example : (∀ x ∈ demoProcess, x.2.1.Wrote Cfg.x86 x.2.2) ∧ (∀ x ∈ demoProcess, ∀ k, x.1 = some k → 0 < k) := by
  constructor
  · intro x hx
    simp only [demoProcess, List.mem_cons, List.not_mem_nil, or_false] at hx
    rcases hx with rfl | rfl | rfl | rfl
    · exact splitCall_wrote 2 (by decide)
    · exact plainCall_wrote
    · exact splitCall_wrote 5 (by decide)
    · exact splitCall_wrote 1 (by decide)
  · intro x hx k hk
    simp only [demoProcess, List.mem_cons, List.not_mem_nil, or_false] at hx
    rcases hx with rfl | rfl | rfl | rfl <;> cases hk
    decide

/-- The start of a parallel call. -/
theorem enter_parallel {cfg : Cfg} {fuel : Nat} {guard w : Bool} {t : Threads} {q : Nat} {c : Call} (hp : c.parallel cfg = true)
    (hg : (guard && w) = false) : ∃ p, enter cfg fuel guard w t q c = (.parsing w .unbuilt (.queued q p), some (t.getD c.opt.workers), q + 1) := by
  rcases enter_cases cfg fuel guard w t q c with ⟨h, -⟩ | ⟨-, h1, h2, -⟩ | ⟨-, -, s, -, -, -, h⟩
  · rw [hp] at h; cases h
  · rw [h1, h2] at hg; cases hg
  · exact ⟨_, h⟩

/-- Two parallel parses at the same time on the two workers that the first of them asked for. -/
example (fuel : Nat) : ∃ s, ShSteps Cfg.x86 fuel true 4 (.fresh [(none, splitCall 2), (none, splitCall 7)]) s ∧
    s.threads = some 2 ∧ s.busy = 2 := by
  have h1 := ShStep.mk (cfg := Cfg.x86) (fuel := fuel) (guard := true) [] [⟨none, splitCall 7, .idle⟩]
    (.call (s := Shared.fresh [(none, splitCall 2), (none, splitCall 7)]) (splitCall 2))
  obtain ⟨p, hp⟩ := enter_parallel (fuel := fuel) (guard := true) (w := false) (t := none) (q := 0) (splitCall_parallel 2) rfl
  simp only [Shared.fresh, hp] at h1
  have h2 := ShStep.mk (cfg := Cfg.x86) (fuel := fuel) (guard := true) (t := some 2) (q := 1)
    [⟨none, splitCall 2, .parsing false .unbuilt (.queued 0 p)⟩] [] (.call (splitCall 7))
  obtain ⟨p', hp'⟩ := enter_parallel (fuel := fuel) (guard := true) (w := false) (t := some 2) (q := 1) (splitCall_parallel 7) rfl
  simp only [hp'] at h2
  have h3 := ShStep.mk (cfg := Cfg.x86) (fuel := fuel) (guard := true) (t := some 2) (q := 2) []
    [⟨none, splitCall 7, .parsing false .unbuilt (.queued 1 p')⟩]
    (.work none (splitCall 2) false (.take .unbuilt 2 0 p)
      ⟨by simp [Shared.busy, Job.busy, EProc.busy], by simp⟩)
  have h4 := ShStep.mk (cfg := Cfg.x86) (fuel := fuel) (guard := true) (t := some 2) (q := 2)
    [⟨none, splitCall 2, .parsing false .unbuilt (.active p)⟩] []
    (.work none (splitCall 7) false (.take .unbuilt 2 1 p')
      ⟨by simp [Shared.busy, Job.busy, EProc.busy], by simp [Shared.tickets, Job.tickets, EProc.tickets]⟩)
  exact ⟨_, .snoc (.snoc (.snoc (.snoc (.nil _) h1) h2) h3) h4, rfl, rfl⟩

/-- One worker and one task that parses in parallel on it: with the check it is refused, -/
example (fuel : Nat) : ∃ s, ShSteps Cfg.x86 fuel true 2 (.fresh [(some 1, splitCall 1)]) s ∧
    s = ⟨some 1, 1, [⟨some 1, splitCall 1, .refused⟩]⟩ := by
  have h1 := ShStep.mk (cfg := Cfg.x86) (fuel := fuel) (guard := true) [] []
    (.submit (s := Shared.fresh [(some 1, splitCall 1)]) 1 (splitCall 1))
  have h2 := ShStep.mk (cfg := Cfg.x86) (fuel := fuel) (guard := true) (t := some 1) (q := 1) [] []
    (.begin (some 1) 0 (splitCall 1) ⟨by decide, by decide⟩)
  rcases enter_cases Cfg.x86 fuel true true (some 1) 1 (splitCall 1) with ⟨h, -⟩ | ⟨-, -, -, h⟩ | ⟨-, h, -⟩
  · rw [splitCall_parallel] at h; cases h
  · simp only [h] at h2
    exact ⟨_, .snoc (.snoc (.nil _) h1) h2, rfl⟩
  · cases h

/-- and without it neither this call nor that of another thread would ever end. -/
example (fuel : Nat) : ∃ s0, ShSteps Cfg.x86 fuel false 1 (.fresh [(some 1, splitCall 1), (none, splitCall 4)]) s0 ∧
    ∀ m s, ShSteps Cfg.x86 fuel false m s0 s → ∀ j ∈ s.jobs, j.ended = false := by
  have h1 := ShStep.mk (cfg := Cfg.x86) (fuel := fuel) (guard := false) [] [⟨none, splitCall 4, .idle⟩]
    (.submit (s := Shared.fresh [(some 1, splitCall 1), (none, splitCall 4)]) 1 (splitCall 1))
  have h := ShSteps.snoc (.nil _) h1
  refine ⟨_, h, fun m s hs j hj => ?_⟩
  have hcalls : j.call.parallel Cfg.x86 = true := by
    have hm : (j.via, j.call) ∈ s.jobs.map (fun j => (j.via, j.call)) := List.mem_map_of_mem hj
    rw [shsteps_calls hs] at hm
    simp only [List.nil_append, List.map_cons, List.map_nil, List.mem_cons, List.not_mem_nil, or_false, Prod.mk.injEq] at hm
    rcases hm with ⟨-, h⟩ | ⟨-, h⟩ <;> rw [h] <;> exact splitCall_parallel _
  refine C73_deadlock_without_check (calls := [(some 1, splitCall 1), (none, splitCall 4)]) h (n := 1) rfl ?_ ?_ m s hs j hj hcalls
  · intro j hj _
    simp only [List.nil_append, List.mem_cons, List.not_mem_nil, or_false] at hj
    rcases hj with rfl | rfl
    · exact .inr ⟨_, rfl⟩
    · exact .inl rfl
  · simp only [List.nil_append, List.filter_cons, splitCall_parallel, Job.tickets, List.isEmpty_cons, List.isEmpty_nil]
    decide

end Bridge
