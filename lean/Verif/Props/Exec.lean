import Verif.Proof.Exec
import Verif.Props.Schedule
/-
C58: the parallel parse on a pool of `n` threads.
-/
set_option autoImplicit false
namespace Bridge
open Spec

/-- C58. At no time more than `n` tasks are on a worker. -/
theorem C58_at_most_n_run (cfg : Cfg) (ref : Bool) (fuel : Nat) (content : Bytes) (s : Sched) (n m : Nat) (e : ESt)
    (h : GSteps n m (startE cfg ref fuel content s) e) : e.main.busy ≤ n :=
  gsteps_busy h (by simp [startE, EProc.busy])

/-- C58. Tasks are taken in the order in which they were started: a step that takes a task takes the one with the least ticket, of those
waiting no two have the same, and those started later have greater ones. -/
theorem C58_first_come_first_served (cfg : Cfg) (ref : Bool) (fuel : Nat) (content : Bytes) (s : Sched) (n m : Nat) (e : ESt)
    (h : GSteps n m (startE cfg ref fuel content s) e) :
    e.main.tickets.Nodup ∧ (∀ t ∈ e.main.tickets, t < e.next) ∧
    ∀ c' q' x t, EStep e.cache e.next e.main (.take t) c' q' x → Allowed n e.main (.take t) →
      (e.main.tickets.Perm (t :: x.tickets)) ∧ (∀ t' ∈ x.tickets, t < t') ∧ q' = e.next := by
  have ht := gsteps_ticketed h (show Ticketed (startE cfg ref fuel content s) by simp [Ticketed, startE, EProc.tickets])
  refine ⟨ht.1, ht.2, fun c' q' x t hs ha => ?_⟩
  have hq : ∀ {c c' : Cache} {q q' : Nat} {e e' : EProc} {a : Act}, EStep c q e a c' q' e' → (∃ t, a = .take t) → q' = q := by
    intro c c' q q' e e' a h
    induction h with
    | kid _ _ _ _ ih => exact ih
    | take => intro _; rfl
    | _ => rintro ⟨t, h⟩; first | cases h | rfl
  have hq' := hq hs ⟨t, rfl⟩
  have hp := (estep_tickets hs).2
  rw [hq', Nat.sub_self] at hp
  simp only [Act.taken, List.range'_zero, List.append_nil] at hp
  have hp' : e.main.tickets.Perm (t :: x.tickets) := hp.symm.trans (List.perm_append_comm (l₂ := [t]))
  refine ⟨hp', fun t' hm => ?_, hq'⟩
  have hle := ha.2 t' (hp'.mem_iff.2 (List.mem_cons_of_mem _ hm))
  have hnd := (List.nodup_cons.1 (hp'.nodup_iff.1 ht.1)).1
  have : t ≠ t' := fun h => hnd (h ▸ hm)
  omega

/-- C58. A worker never waits for a task: whatever is on a worker can go on by itself (unless it is about to read the dictionary's table
while another one builds it, the race of C41). -/
theorem C58_workers_never_block (cfg : Cfg) (ref : Bool) (fuel : Nat) (content : Bytes) (s : Sched) (n m : Nat) (e : ESt)
    (h : GSteps n m (startE cfg ref fuel content s) e) (hr : ¬ Racy e.cache e.main.plain) (x : EProc) (hx : x.Within e.main)
    (hw : x.onWorker = true) :
    (∃ c' q' x', EStep e.cache e.next x .step c' q' x') ∧ ∃ e', GStep n e e' := by
  obtain ⟨m', hp⟩ := gsteps_plain h
  have hb : AtBuild e.main.plain → e.cache = .building := by
    intro hb
    have h1 := builders_pos hb
    have h2 : e.main.plain.builders + Cache.busy .unbuilt = 0 + e.cache.busy := steps_builders hp
    have h3 : Cache.busy .unbuilt = 0 := rfl
    unfold Cache.busy at h2 h3
    by_cases hcb : e.cache = .building
    · exact hcb
    · rw [if_neg hcb] at h2
      omega
  obtain ⟨c', q', x', hs⟩ := worker_step (q := e.next) hx hw hr hb
  refine ⟨⟨c', q', x', hs⟩, ?_⟩
  obtain ⟨e', he⟩ := within_step hx hs
  exact ⟨_, .mk he trivial⟩

/-- C58. With one worker or more a parse that is not over can always go on, whatever the nesting: it is never stuck. -/
theorem C58_never_stuck (cfg : Cfg) (ref : Bool) (fuel : Nat) (content : Bytes) (s : Sched) (n m : Nat) (hn : 0 < n) (e : ESt)
    (h : GSteps n m (startE cfg ref fuel content s) e) (hr : ¬ Racy e.cache e.main.plain) :
    (∃ r, e.main = .done r) ∨ ∃ e', GStep n e e' := by
  cases hd : e.main.isDone with
  | true =>
    left
    revert hd
    cases e.main with
    | done r => intro _; exact ⟨r, rfl⟩
    | _ => intro h; cases h
  | false =>
    right
    by_cases hb : 0 < e.main.busy
    · obtain ⟨x, hx, hw⟩ := worker_of_busy _ hb
      exact (C58_workers_never_block cfg ref fuel content s n m e h hr x hx hw).2
    · have h0 : e.main.busy < n := by omega
      rcases lively e.main hd with ⟨x, hx, hw⟩ | ht | ⟨rs, k, hk⟩
      · exact absurd (busy_of_worker hx hw) hb
      · obtain ⟨t, ht, hmin⟩ := min_mem ht
        obtain ⟨p, hp⟩ := ticket_mem _ ht
        obtain ⟨e', he⟩ := within_step hp (.take e.cache e.next t p)
        exact ⟨_, .mk he ⟨h0, hmin⟩⟩
      · obtain ⟨e', he⟩ := within_step hk (.resume e.cache e.next rs k)
        exact ⟨_, .mk he h0⟩

/-- C58. No execution goes on for ever. -/
theorem C58_every_execution_ends (cfg : Cfg) (ref : Bool) (fuel : Nat) (content : Bytes) (s : Sched) :
    ∃ bound, ∀ n m e, GSteps n m (startE cfg ref fuel content s) e → m ≤ bound := by
  refine ⟨(startE cfg ref fuel content s).main.esize, fun n m e h => ?_⟩
  have := gsteps_size h
  omega

/-- C58. The outcome of a parse that is over does not depend on the number of workers nor on the order of their steps: it is that of running
the tasks one after the other. -/
theorem C58_outcome_independent {cfg : Cfg} {ref : Bool} {fuel w : Nat} {content : Bytes} {s : Sched}
    (hs : initFromContent cfg content = .ok s) (hsplit : s.split = true) (hw : 0 < w) {n m : Nat} {e : ESt} {b : Res Blk}
    (h : GSteps n m (startE cfg ref fuel content s) e) (hd : e.main = .done b) :
    b = mapRes .root (parse cfg ⟨true, ref, w⟩ fuel content) := by
  obtain ⟨m', hp⟩ := gsteps_plain h
  rw [hd] at hp
  exact C13_schedule_independent hs hsplit hw hp

/-- C58. Without workers nothing ever happens. -/
theorem C58_no_workers (cfg : Cfg) (ref : Bool) (fuel : Nat) (content : Bytes) (s : Sched) (m : Nat) (e : ESt)
    (h : GSteps 0 m (startE cfg ref fuel content s) e) : m = 0 ∧ e = startE cfg ref fuel content s := by
  have no : ∀ e, ¬ GStep 0 (startE cfg ref fuel content s) e := by
    intro e h
    cases h with
    | mk he ha =>
      cases he with
      | take c q t p => exact absurd ha.1 (by simp)
  have key : ∀ m e, GSteps 0 m (startE cfg ref fuel content s) e → m = 0 ∧ e = startE cfg ref fuel content s := by
    intro m
    induction m with
    | zero => intro e h; cases h; exact ⟨rfl, rfl⟩
    | succ m ih =>
      intro e h
      cases h with
      | snoc h1 h2 =>
        obtain ⟨-, rfl⟩ := ih _ h1
        exact absurd h2 (no _)
  exact key m e h

/-- C58. The parallel parse of a split document that `Serialize` wrote, on one worker or more: every execution that cannot be continued is
over, without a race and with the document that was written; and no execution goes on for ever. -/
theorem C58_parallel_parse_completes (w r : Cfg) (hw : w.charSigned = true) (t : SeriType) (o : Obj) (d : Doc) (hd : o.doc? = some d)
    (hh : Writable w o) {content : Bytes} (hc : serialize w t o = .ok content) (hf : Fits r content) {s : Sched}
    (hs : initFromContent r content = .ok s) (hsplit : s.split = true) (ref : Bool) (hcust : ref = true → d.noCustom = true) :
    ∃ N o' d', o'.doc? = some d' ∧ d.Same d' ∧ ∀ fuel, N ≤ fuel → ∀ n, 0 < n →
      (∃ bound, ∀ m e, GSteps n m (startE r ref fuel content s) e → m ≤ bound) ∧
      ∀ m e, GSteps n m (startE r ref fuel content s) e → ¬ Racy e.cache e.main.plain ∧
        ((¬ ∃ e', GStep n e e') → e.main = .done (.ok (.root o'))) := by
  have hc' := hc
  rw [serialize_eq hw t hd hh] at hc'
  have hf' : Fits r (contentOf w t d ++ []) := by cases hc'; simpa using hf
  obtain ⟨o', d', ⟨-, N, hN⟩, h2, h3, -⟩ := parses_co (extra := []) hf' ref hcust (k := 1) (by omega)
  have hN' : ∀ fuel, N ≤ fuel → parse r ⟨true, ref, 1⟩ fuel content = .ok o' := by
    cases hc'; simpa using hN
  refine ⟨N, o', d', h2, h3, fun fuel hfu n hn => ⟨?_, fun m e h => ?_⟩⟩
  · obtain ⟨bound, hb⟩ := C58_every_execution_ends r ref fuel content s
    exact ⟨bound, fun m e h => hb n m e h⟩
  · obtain ⟨m', hp⟩ := gsteps_plain h
    have hr := C41_no_race w r hw t o d hd hh hc hf hs hsplit ref fuel m' _ _ hp
    refine ⟨hr, fun hstuck => ?_⟩
    rcases C58_never_stuck r ref fuel content s n m hn e h hr with ⟨b, hb⟩ | h'
    · rw [hb, C58_outcome_independent hs hsplit (w := 1) (by omega) h hb, hN' fuel hfu]
      rfl
    · exact absurd h' hstuck

/-! ### Examples -/

/-- A main task with two blocks, one of which has two blocks of its own, on one worker: the worker takes the main task, starts the blocks,
and before it goes on with the first of them it must take the tasks in the order of the queue.  Fourteen steps, and the parse is over
although there is no second worker. -/
def demoProg : Prog :=
  .fork [.fork [.ret (.ok (.objs [])), .ret (.ok (.objs []))] fun _ => .ret (.ok (.objs [])), .ret (.ok (.entries []))]
    fun rs => .ret (rs.getD 1 (.error .fuel))

example : ∃ m e, GSteps 1 m ⟨.unbuilt, 1, .queued 0 demoProg⟩ e ∧ e.main = .done (.ok (.entries [])) ∧ 10 < m := by
  have h := GSteps.snoc (GSteps.snoc (GSteps.snoc (GSteps.snoc (GSteps.snoc (GSteps.snoc (GSteps.snoc (GSteps.snoc (GSteps.snoc
      (GSteps.snoc (GSteps.snoc (GSteps.snoc (GSteps.snoc (GSteps.snoc (GSteps.nil _)
      (.mk (.take .unbuilt 1 0 demoProg) (n := 1) ⟨by decide, by decide⟩))
      (.mk (.fork _ _ _ _) trivial))
      (.mk (.kid [] _ _ (.take _ _ _ _)) ⟨by decide, by decide⟩))
      (.mk (.kid [] _ _ (.fork _ _ _ _)) trivial))
      (.mk (.kid [_] [] _ (.take _ _ _ _)) ⟨by decide, by decide⟩))
      (.mk (.kid [_] [] _ (.finish _ _ _)) trivial))
      (.mk (.kid [] _ _ (.kid [] _ _ (.take _ _ _ _))) ⟨by decide, by decide⟩))
      (.mk (.kid [] _ _ (.kid [] _ _ (.finish _ _ _))) trivial))
      (.mk (.kid [] _ _ (.kid [_] [] _ (.take _ _ _ _))) ⟨by decide, by decide⟩))
      (.mk (.kid [] _ _ (.kid [_] [] _ (.finish _ _ _))) trivial))
      (.mk (.kid [] _ _ (.resume _ _ [_, _] _)) (by show _ < _; decide)))
      (.mk (.kid [] _ _ (.finish _ _ _)) trivial))
      (.mk (.resume _ _ [_, _] _) (by show _ < _; decide)))
      (.mk (.finish _ _ _) trivial)
  exact ⟨_, _, h, rfl, by decide⟩

end Bridge
