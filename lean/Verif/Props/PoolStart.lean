import Verif.Model.PoolStart
import Verif.Props.Process
import Verif.Props.ThreadPool
import Verif.Props.RoundTrip
/-
C84: the thread pool when the system refuses threads or memory, and tasks that let an exception out.
-/
set_option autoImplicit false
namespace Bridge
open Spec

/-! ### The construction of the pool -/

theorem start_cases (sys : Nat → Option Refusal) (todo : Nat) : ∀ created : Nat,
    (startWorkers sys created todo = .pool (created + todo) ∧ ∀ i, created ≤ i → i < created + todo → sys i = none) ∨
    (∃ r, startWorkers sys created todo = .threw r ∧ created = 0 ∧ 0 < todo ∧ sys 0 = some r) ∨
    (startWorkers sys created todo = .lost ∧ (0 < created ∨ sys 0 = none) ∧ ∃ i, created ≤ i ∧ i < created + todo ∧ sys i ≠ none) := by
  induction todo with
  | zero => exact fun c => .inl ⟨rfl, fun i h1 h2 => by omega⟩
  | succ n ih =>
    intro c
    unfold startWorkers
    cases h : sys c with
    | none =>
      simp only
      rcases ih (c + 1) with ⟨h1, h2⟩ | ⟨r, h1, h2, -⟩ | ⟨h1, -, i, h2, h3, h4⟩
      · refine .inl ⟨by rw [h1]; congr 1; omega, fun i hi hi' => ?_⟩
        by_cases hc : i = c
        · rw [hc]; exact h
        · exact h2 i (by omega) (by omega)
      · omega
      · refine .inr (.inr ⟨h1, ?_, i, by omega, by omega, h4⟩)
        by_cases hc : c = 0
        · subst hc; exact .inr h
        · exact .inl (by omega)
    | some r =>
      simp only
      by_cases hc : c = 0
      · subst hc
        exact .inr (.inl ⟨r, by simp, rfl, by omega, h⟩)
      · rw [if_neg hc]
        exact .inr (.inr ⟨rfl, .inl (by omega), c, by omega, by omega, by simp [h]⟩)

/-- C84. The construction of a pool of `n` workers: it has all of them exactly when the system refuses none of the `n` threads; it throws
exactly when the first is refused; and the process is lost exactly when the first is there and a later one is refused.  There is no pool
with fewer workers than asked for. -/
theorem C84_construction (sys : Nat → Option Refusal) (n : Nat) :
    (startWorkers sys 0 n = .pool n ↔ ∀ i < n, sys i = none) ∧
    (∀ r, startWorkers sys 0 n = .threw r ↔ 0 < n ∧ sys 0 = some r) ∧
    (startWorkers sys 0 n = .lost ↔ sys 0 = none ∧ ∃ i < n, sys i ≠ none) ∧
    ∀ m, startWorkers sys 0 n = .pool m → m = n := by
  rcases start_cases sys n 0 with ⟨h1, h2⟩ | ⟨r, h1, -, h3, h4⟩ | ⟨h1, h2, i, -, h3, h4⟩
  · simp only [Nat.zero_add] at h1 h2
    have hz : ∀ i < n, sys i = none := fun i hi => h2 i (Nat.zero_le _) hi
    rw [h1]
    refine ⟨⟨fun _ => hz, fun _ => rfl⟩, fun r => ⟨nofun, fun ⟨hn, hr⟩ => ?_⟩, ⟨nofun, fun ⟨_, i, hi, hs⟩ => absurd (hz i hi) hs⟩, ?_⟩
    · rw [hz 0 hn] at hr; cases hr
    · rintro m ⟨⟩; rfl
  · rw [h1]
    refine ⟨⟨nofun, fun hz => ?_⟩, fun r' => ⟨?_, fun ⟨_, hr⟩ => ?_⟩, ⟨nofun, fun ⟨hz, _⟩ => ?_⟩, nofun⟩
    · rw [hz 0 h3] at h4; cases h4
    · rintro ⟨⟩; exact ⟨h3, h4⟩
    · rw [h4] at hr; cases hr; rfl
    · rw [h4] at hz; cases hz
  · simp only [Nat.zero_add, Nat.lt_irrefl, false_or] at h2 h3
    rw [h1]
    exact ⟨⟨nofun, fun hz => absurd (hz i h3) h4⟩, fun r => ⟨nofun, fun ⟨_, hr⟩ => by rw [h2] at hr; cases hr⟩,
      ⟨fun _ => ⟨h2, i, h3, h4⟩, fun _ => rfl⟩, nofun⟩

/-! ### `Parse` -/

/-- What a call of `Parse` does when threads may be refused. -/
theorem parseStart_eq (cfg : Cfg) (fuel : Nat) (t : Threads) (c : Call) (sys : Nat → Option Refusal) :
    parseStart cfg fuel t c sys =
      (if c.parallel cfg = true ∧ t = none then
        match startWorkers sys 0 c.opt.workers with
        | .pool _ => (.result (parseIn cfg fuel t c).1, (parseIn cfg fuel t c).2)
        | .threw r => (.refused r, none)
        | .lost => (.lost, none)
      else (.result (parseIn cfg fuel t c).1, (parseIn cfg fuel t c).2)) := by
  unfold parseStart parseIn
  cases h : initFromContent cfg c.content with
  | error e =>
    have hp : ¬ c.parallel cfg = true := by rw [parallel_iff]; rintro ⟨-, s, h1, -⟩; rw [h] at h1; cases h1
    rw [if_neg (fun x => hp x.1)]
  | ok s =>
    simp only
    by_cases hc : c.opt.coroutine = false
    · have hp : ¬ c.parallel cfg = true := by rw [parallel_iff]; simp [hc]
      rw [if_pos hc, if_pos hc, if_neg (fun x => hp x.1)]
    · rw [if_neg hc, if_neg hc]
      by_cases hs : s.split = false
      · have hp : ¬ c.parallel cfg = true := by rw [parallel_iff]; simp [h, hs]
        rw [if_pos hs, if_pos hs, if_neg (fun x => hp x.1)]
      · rw [if_neg hs, if_neg hs]
        have hp : c.parallel cfg = true := by
          rw [parallel_iff]; exact ⟨by simpa using hc, s, h, by simpa using hs⟩
        cases t with
        | some n => simp [getOrStart, getOrConstructInstance]
        | none =>
          rw [if_pos ⟨hp, rfl⟩]
          simp only [getOrStart, getOrConstructInstance]
          cases hst : startWorkers sys 0 c.opt.workers with
          | pool m => rw [(C84_construction sys c.opt.workers).2.2.2 m hst]
          | threw r => rfl
          | lost => rfl

/-- C84. Calls that are not parallel, and all calls once the pool is there, do not ask the system for threads: nothing that it refuses
matters to them. -/
theorem C84_unaffected (cfg : Cfg) (fuel : Nat) (t : Threads) (c : Call) (sys : Nat → Option Refusal)
    (h : c.parallel cfg = false ∨ t ≠ none) :
    parseStart cfg fuel t c sys = (.result (parseIn cfg fuel t c).1, (parseIn cfg fuel t c).2) := by
  rw [parseStart_eq, if_neg]
  rintro ⟨h1, h2⟩
  rcases h with h | h
  · rw [h1] at h; cases h
  · exact h h2

/-- C84. The first parallel call of a process: with all its threads it does what it does in C56; refused the first thread it throws what
the system threw, and there is still no pool; with the first thread but not all of them the call neither returns nor throws.  The number
of threads is what this call asks for. -/
theorem C84_first_parallel_call (cfg : Cfg) (fuel : Nat) (c : Call) (hp : c.parallel cfg = true) (sys : Nat → Option Refusal) :
    ((∀ i < c.opt.workers, sys i = none) → parseStart cfg fuel none c sys = (.result (parse cfg c.opt fuel c.content), some c.opt.workers)) ∧
    (∀ r, 0 < c.opt.workers → sys 0 = some r → parseStart cfg fuel none c sys = (.refused r, none)) ∧
    ((parseStart cfg fuel none c sys).1 = .lost ↔ sys 0 = none ∧ ∃ i < c.opt.workers, sys i ≠ none) := by
  obtain ⟨h1, h2, h3, -⟩ := C84_construction sys c.opt.workers
  rw [parseStart_eq, if_pos ⟨hp, rfl⟩]
  refine ⟨fun h => ?_, fun r hn h => ?_, ?_⟩
  · rw [h1.2 h, parseIn_eq, if_pos hp]; rfl
  · rw [(h2 r).2 ⟨hn, h⟩]
  · rw [← h3]
    cases startWorkers sys 0 c.opt.workers <;> simp

/-- Is the outcome that of a call that got what it asked for? -/
def CallEnd.result? : CallEnd → Option (Res Obj)
  | .result r => some r
  | _ => none

theorem parseStart_cases (cfg : Cfg) (fuel : Nat) (t : Threads) (c : Call) (sys : Nat → Option Refusal) :
    parseStart cfg fuel t c sys = (.result (parseIn cfg fuel t c).1, (parseIn cfg fuel t c).2) ∨
    (∃ r, parseStart cfg fuel t c sys = (.refused r, t)) ∨ parseStart cfg fuel t c sys = (.lost, t) := by
  rw [parseStart_eq]
  split
  · rename_i h
    rw [h.2]
    cases startWorkers sys 0 c.opt.workers with
    | pool m => exact .inl rfl
    | threw r => exact .inr (.inl ⟨r, rfl⟩)
    | lost => exact .inr (.inr rfl)
  · exact .inl rfl

/-- C84. A call that was refused leaves no trace: if no call of a history is lost, the calls that were not refused end as in the history
that consists of them alone, in a process that is refused nothing, and leave the same pool.  So a refused call can be repeated. -/
theorem C84_refused_calls_leave_no_trace (cfg : Cfg) (fuel : Nat) (calls : List (Call × (Nat → Option Refusal))) (t : Threads)
    (hl : CallEnd.lost ∉ (runStarts cfg fuel t calls).1) :
    (runStarts cfg fuel t calls).1.length = calls.length ∧
    let kept := ((calls.zip (runStarts cfg fuel t calls).1).filter (fun x => x.2.result?.isSome)).map (·.1.1)
    (runStarts cfg fuel t calls).1.filterMap CallEnd.result? = (runCalls cfg fuel t kept).1 ∧
    (runStarts cfg fuel t calls).2 = (runCalls cfg fuel t kept).2 := by
  induction calls generalizing t with
  | nil => exact ⟨rfl, rfl, rfl⟩
  | cons c cs ih =>
    obtain ⟨c, sys⟩ := c
    rcases parseStart_cases cfg fuel t c sys with h | ⟨r, h⟩ | h
    · simp only [runStarts, h, List.mem_cons, not_or] at hl ⊢
      obtain ⟨h1, h2, h3⟩ := ih _ hl.2
      refine ⟨by simp [h1], ?_, ?_⟩
      · simpa [CallEnd.result?, runCalls] using h2
      · simpa [CallEnd.result?, runCalls] using h3
    · simp only [runStarts, h, List.mem_cons, not_or] at hl ⊢
      obtain ⟨h1, h2, h3⟩ := ih _ hl.2
      have e1 : (CallEnd.refused r).result? = none := rfl
      refine ⟨by simp [h1], ?_, ?_⟩
      · rw [List.filterMap_cons_none e1, List.zip_cons_cons, List.filter_cons_of_neg (by simp [e1])]; exact h2
      · rw [List.zip_cons_cons, List.filter_cons_of_neg (by simp [e1])]; exact h3
    · simp [runStarts, h] at hl

/-- C84. A call that is lost is the last one of the process; it is parallel, no call before it was both parallel and not refused, the system
had the first thread for it and refused another of those it asked for. -/
theorem C84_lost_is_last (cfg : Cfg) (fuel : Nat) (calls : List (Call × (Nat → Option Refusal)))
    (h : CallEnd.lost ∈ (runStarts cfg fuel none calls).1) :
    ∃ before c sys after, calls = before ++ (c, sys) :: after ∧
      (runStarts cfg fuel none calls).1 = (runStarts cfg fuel none before).1 ++ [.lost] ∧
      CallEnd.lost ∉ (runStarts cfg fuel none before).1 ∧ (runStarts cfg fuel none before).2 = none ∧
      c.parallel cfg = true ∧ sys 0 = none ∧ ∃ i < c.opt.workers, sys i ≠ none := by
  have key : ∀ (calls : List (Call × (Nat → Option Refusal))) (t : Threads), CallEnd.lost ∈ (runStarts cfg fuel t calls).1 →
      ∃ before c sys after, calls = before ++ (c, sys) :: after ∧
        (runStarts cfg fuel t calls).1 = (runStarts cfg fuel t before).1 ++ [.lost] ∧
        CallEnd.lost ∉ (runStarts cfg fuel t before).1 ∧ (runStarts cfg fuel t before).2 = none ∧
        c.parallel cfg = true ∧ sys 0 = none ∧ ∃ i < c.opt.workers, sys i ≠ none := by
    intro calls
    induction calls with
    | nil => intro t h; exact absurd h List.not_mem_nil
    | cons c cs ih =>
      obtain ⟨c, sys⟩ := c
      intro t h
      rcases parseStart_cases cfg fuel t c sys with h' | ⟨r, h'⟩ | h'
      · simp only [runStarts, h', List.mem_cons] at h
        obtain ⟨b, c1, sys1, af, h1, h2, h3, h4, h5⟩ := ih _ (h.resolve_left nofun)
        exact ⟨(c, sys) :: b, c1, sys1, af, by rw [h1]; rfl, by simp [runStarts, h', h2], by simpa [runStarts, h'] using h3,
          by simpa [runStarts, h'] using h4, h5⟩
      · simp only [runStarts, h', List.mem_cons] at h
        obtain ⟨b, c1, sys1, af, h1, h2, h3, h4, h5⟩ := ih _ (h.resolve_left nofun)
        exact ⟨(c, sys) :: b, c1, sys1, af, by rw [h1]; rfl, by simp [runStarts, h', h2], by simpa [runStarts, h'] using h3,
          by simpa [runStarts, h'] using h4, h5⟩
      · by_cases hu : c.parallel cfg = false ∨ t ≠ none
        · rw [C84_unaffected cfg fuel t c sys hu] at h'; cases h'
        · simp only [not_or, Bool.not_eq_false, ne_eq, Decidable.not_not] at hu
          obtain ⟨hp, rfl⟩ := hu
          obtain ⟨h0, hi⟩ := (C84_first_parallel_call cfg fuel c hp sys).2.2.1 (by rw [h'])
          exact ⟨[], c, sys, cs, rfl, by simp [runStarts, h'], List.not_mem_nil, rfl, hp, h0, hi⟩
  exact key calls none h

/-- C84. In a process that never asks for more than one worker no call is lost, whatever is refused. -/
theorem C84_one_worker_never_lost (cfg : Cfg) (fuel : Nat) (calls : List (Call × (Nat → Option Refusal))) (t : Threads)
    (h : ∀ c ∈ calls, c.1.opt.workers ≤ 1) : CallEnd.lost ∉ (runStarts cfg fuel t calls).1 := by
  induction calls generalizing t with
  | nil => exact List.not_mem_nil
  | cons c cs ih =>
    obtain ⟨c, sys⟩ := c
    have hc : c.opt.workers ≤ 1 := h (c, sys) (by simp)
    have hcs : ∀ c ∈ cs, c.1.opt.workers ≤ 1 := fun x hx => h x (by simp [hx])
    rcases parseStart_cases cfg fuel t c sys with h' | ⟨r, h'⟩ | h'
    · simpa [runStarts, h'] using ih _ hcs
    · simpa [runStarts, h'] using ih _ hcs
    · exfalso
      by_cases hu : c.parallel cfg = false ∨ t ≠ none
      · rw [C84_unaffected cfg fuel t c sys hu] at h'; cases h'
      · simp only [not_or, Bool.not_eq_false, ne_eq, Decidable.not_not] at hu
        obtain ⟨hp, ht⟩ := hu
        subst ht
        have hl := (C84_first_parallel_call cfg fuel c hp sys).2.2.1 (by rw [h'])
        obtain ⟨h0, i, hi, hs⟩ := hl
        have : i = 0 := by omega
        rw [this, h0] at hs
        exact hs rfl

/-- C84. A process that is refused nothing is the one of C56. -/
theorem C84_enough_threads (cfg : Cfg) (fuel : Nat) (calls : List Call) (t : Threads) :
    runStarts cfg fuel t (calls.map (fun c => (c, fun _ => none))) =
      ((runCalls cfg fuel t calls).1.map CallEnd.result, (runCalls cfg fuel t calls).2) := by
  induction calls generalizing t with
  | nil => rfl
  | cons c cs ih =>
    have h : parseStart cfg fuel t c (fun _ => none) = (.result (parseIn cfg fuel t c).1, (parseIn cfg fuel t c).2) := by
      rw [parseStart_eq]
      split
      · rw [(C84_construction (fun _ => none) c.opt.workers).1.2 (fun _ _ => rfl)]
      · rfl
    simp only [List.map_cons, runStarts, h, runCalls, ih]

/-- C84. Reading a written document when threads may be refused, in a process whose pool (if there is one) has a worker: the call returns the
document, or it throws what the system threw and has changed nothing, or it is lost; there is nothing in between. -/
theorem C84_written_document (w r : Cfg) (hw : w.charSigned = true) (t : SeriType) (o : Obj) (d : Doc) (hd : o.doc? = some d)
    (hh : Writable w o) (ref : Bool) (hc : ref = true → d.noCustom = true) (co : Bool) (k : Nat) (hk : 0 < k) :
    ∃ content, serialize w t o = .ok content ∧ (Fits r content → ∃ n, ∀ fuel, n ≤ fuel → ∀ (th : Threads), th ≠ some 0 → ∀ sys,
      (∃ l d', (parseStart r fuel th ⟨content, ⟨co, ref, k⟩⟩ sys).1 = .result (.ok l) ∧ l.doc? = some d' ∧ d.Same d') ∨
      (∃ x, parseStart r fuel th ⟨content, ⟨co, ref, k⟩⟩ sys = (.refused x, th)) ∨
      (parseStart r fuel th ⟨content, ⟨co, ref, k⟩⟩ sys).1 = .lost) := by
  refine ⟨_, serialize_eq hw t hd hh, fun hf => ?_⟩
  have hp : ∃ o' d', Parses r ⟨co, ref, k⟩ (contentOf w t d) (.ok o') ∧ o'.doc? = some d' ∧ d.Same d' := by
    cases co with
    | false =>
      obtain ⟨o1, h1, h2, _⟩ := parses_normal (extra := []) (by simpa using hf) ref hc k
      exact ⟨o1, _, by simpa using h1, h2, same_revMaps d⟩
    | true =>
      obtain ⟨o1, d1, h1, h2, h3, _⟩ := parses_co (extra := []) (by simpa using hf) ref hc hk
      exact ⟨o1, d1, by simpa using h1, h2, h3⟩
  obtain ⟨o', d', ⟨-, n, hn⟩, h2, h3⟩ := hp
  refine ⟨n, fun fuel hfu th hth sys => ?_⟩
  rcases parseStart_cases r fuel th ⟨contentOf w t d, ⟨co, ref, k⟩⟩ sys with h | ⟨x, h⟩ | h
  · refine .inl ⟨o', d', ?_, h2, h3⟩
    have hm : 0 < th.getD k := by
      cases th with
      | none => exact hk
      | some m => exact Nat.pos_of_ne_zero fun e => hth (by simpa using e)
    rw [h, parseIn_eq]
    split
    · simp only
      rw [← hn fuel hfu, ← parse_workers r ⟨co, ref, k⟩ fuel (contentOf w t d) (th.getD k) hm hk]
    · simp only
      rw [hn fuel hfu]
  · exact .inr (.inl ⟨x, h⟩)
  · exact .inr (.inr (by rw [h]))

/-- The calls of `Props/Process.lean` where the system refuses the first thread to the second call, and nothing when it is repeated. -/
def refusedCalls : List (Call × (Nat → Option Refusal)) :=
  [(⟨plainSample, ⟨true, false, 8⟩⟩, fun _ => some .thread), (⟨splitSample, ⟨true, false, 2⟩⟩, fun _ => some .thread),
   (⟨splitSample, ⟨true, false, 2⟩⟩, fun _ => none), (⟨splitSample, ⟨true, false, 5⟩⟩, fun _ => some .memory)]

/-- What each call of a history ended with. -/
def CallEnd.kind : CallEnd → String
  | .result (.ok _) => "ok"
  | .result (.error _) => "error"
  | .refused _ => "refused"
  | .lost => "lost"

theorem refusedCalls_run : (runStarts Cfg.x86 50 none refusedCalls).1.map CallEnd.kind = ["ok", "refused", "ok", "ok"] ∧
    (runStarts Cfg.x86 50 none refusedCalls).2 = some 2 := by decide +kernel

example : CallEnd.lost ∉ (runStarts Cfg.x86 50 none refusedCalls).1 := by
  intro h
  have := List.mem_map_of_mem (f := CallEnd.kind) h
  rw [refusedCalls_run.1] at this
  revert this; decide

/-- The same history with a call that is lost in the place of the third. -/
example : ((runStarts Cfg.x86 50 none (refusedCalls.take 2 ++
    (⟨splitSample, ⟨true, false, 2⟩⟩, fun i => if i = 1 then some .thread else none) :: refusedCalls)).1.map CallEnd.kind) =
    ["ok", "refused", "lost"] := by decide +kernel

/-- Three workers, and the system has threads for two. -/
example : (parseStart Cfg.x86 50 none ⟨splitSample, ⟨true, false, 3⟩⟩ (fun i => if i < 2 then none else some .thread)).1 = .lost :=
  (C84_first_parallel_call Cfg.x86 50 ⟨splitSample, ⟨true, false, 3⟩⟩ (by decide +kernel) _).2.2.2 ⟨rfl, 2, by decide, by decide⟩

end Bridge

namespace Bridge.TP

/-! ### The pool at work -/

/-- The events of the pool itself. -/
def FEvent.base? : FEvent → Option Event
  | .base e => some e
  | _ => none

/-- The state of the pool, or what it was when the process ended. -/
def FState.state : FState → State
  | .up s => s
  | .dead s => s

theorem FSteps.trans {throws : Nat → Prop} {s s' s'' : FState} {es es' : List FEvent} (h : FSteps throws s es s')
    (h' : FSteps throws s' es' s'') : FSteps throws s (es ++ es') s'' := by
  induction h' with
  | nil => simpa using h
  | snoc _ h2 ih => rw [← List.append_assoc]; exact .snoc ih h2

theorem frun_run {throws : Nat → Prop} {n : Nat} {es : List FEvent} {s : FState} (h : FRun throws n es s) :
    Run n (es.filterMap FEvent.base?) s.state ∧ (∀ t ∈ finishes (es.filterMap FEvent.base?), ¬ throws t) ∧
    ((∃ s', s = .up s' ∧ ∀ t, FEvent.taskThrew t ∉ es) ∨
      ∃ es' t, s = .dead s.state ∧ es = es' ++ [.taskThrew t] ∧ throws t ∧ .running t ∈ s.state.workers ∧ ∀ t, FEvent.taskThrew t ∉ es') := by
  unfold FRun at h
  induction h with
  | nil => exact ⟨.nil, fun _ h => by simp [finishes] at h, .inl ⟨_, rfl, fun _ => List.not_mem_nil⟩⟩
  | @snoc es s' s'' e h1 h2 ih =>
    obtain ⟨i1, i2, i3⟩ := ih
    have hup : ∀ x, s' = .up x → ∀ t, FEvent.taskThrew t ∉ es := by
      rintro x rfl
      rcases i3 with ⟨_, -, h⟩ | ⟨_, _, h, -⟩
      · exact h
      · cases h
    cases h2 with
    | base s e s'' hs hf =>
      have he : (es ++ [FEvent.base e]).filterMap FEvent.base? = es.filterMap FEvent.base? ++ [e] := by simp [FEvent.base?]
      rw [he]
      refine ⟨.snoc i1 hs, fun t ht => ?_, .inl ⟨_, rfl, fun t ht => ?_⟩⟩
      · rw [finishes_snoc, List.mem_append] at ht
        rcases ht with ht | ht
        · exact i2 t ht
        · cases e <;> simp [finishes] at ht
          subst ht
          exact hf _ rfl
      · rw [List.mem_append] at ht
        rcases ht with ht | ht
        · exact hup _ rfl t ht
        · simp at ht
    | pushThrew hs =>
      have he : (es ++ [FEvent.pushThrew]).filterMap FEvent.base? = es.filterMap FEvent.base? := by simp [FEvent.base?]
      rw [he]
      refine ⟨i1, i2, .inl ⟨_, rfl, fun t ht => ?_⟩⟩
      rw [List.mem_append] at ht
      rcases ht with ht | ht
      · exact hup _ rfl t ht
      · simp at ht
    | taskThrew s pre post t hs ht =>
      have he : (es ++ [FEvent.taskThrew t]).filterMap FEvent.base? = es.filterMap FEvent.base? := by simp [FEvent.base?]
      rw [he]
      exact ⟨i1, i2, .inr ⟨es, t, rfl, rfl, ht, by simp only [FState.state]; rw [hs]; simp, hup _ rfl⟩⟩

/-- C84. A `PushTask` that throws has accepted nothing and has not changed the pool: without these calls, what the pool does is a run of
C39 and C40, whose theorems hold of it. -/
theorem C84_refused_push {throws : Nat → Prop} {n : Nat} {es : List FEvent} {s : State} (h : FRun throws n es (.up s)) :
    Run n (es.filterMap FEvent.base?) s := (frun_run h).1

/-- C84. As long as no task lets an exception out the process does not end. -/
theorem C84_no_exception_no_end {throws : Nat → Prop} {n : Nat} {es : List FEvent} {s : FState} (h : FRun throws n es s)
    (ht : ∀ t ∈ pushes (es.filterMap FEvent.base?), ¬ throws t) : ∃ s', s = .up s' := by
  obtain ⟨h1, -, ⟨s', h2, -⟩ | ⟨es', t, -, -, h2, h3, -⟩⟩ := frun_run h
  · exact ⟨s', h2⟩
  · exfalso
    have i := inv_run h1
    refine ht t ?_ h2
    refine (C39_at_most_once h1).2.1 t ?_
    have := i.runs t
    rw [← List.count_pos_iff]
    have hc : 0 < (s.state.workers.flatMap Worker.runs).count t := by
      rw [List.count_pos_iff, List.mem_flatMap]; exact ⟨_, h3, by simp [Worker.runs]⟩
    omega

/-- C84. When a task does let an exception out, it is the last event there is.  The task had been accepted and called; every task that
was not called by then never is, and neither is one that was accepted and not yet taken, nor does a task under way on another worker
return. -/
theorem C84_exception_ends_everything {throws : Nat → Prop} {n : Nat} {es : List FEvent} {s : State} (h : FRun throws n es (.dead s)) :
    ∃ es' t, es = es' ++ [.taskThrew t] ∧ throws t ∧ FRun throws n es' (.up s) ∧ (∀ t', FEvent.taskThrew t' ∉ es') ∧
      t ∈ starts (es.filterMap FEvent.base?) ∧ t ∉ finishes (es.filterMap FEvent.base?) ∧ ∀ e s', ¬ FStep throws (.dead s) e s' := by
  obtain ⟨h1, h2, ⟨s', h3, -⟩ | ⟨es', t, -, h3, h4, h5, h6⟩⟩ := frun_run h
  · cases h3
  · refine ⟨es', t, h3, h4, ?_, h6, ?_, fun hf => h2 t hf h4, nofun⟩
    · subst h3
      unfold FRun at h
      generalize hl : es' ++ [FEvent.taskThrew t] = l at h
      generalize hd : FState.dead s = d at h
      cases h with
      | nil => simp at hl
      | @snoc es0 s0 s1 e hs hst =>
        obtain ⟨rfl, he⟩ := List.append_inj' hl rfl
        cases he
        subst hd
        cases hst
        exact hs
    · have : _ = (s.workers.flatMap Worker.runs).count t + _ := (inv_run h1).runs t
      rw [← List.count_pos_iff]
      have hc : 0 < (s.workers.flatMap Worker.runs).count t := by
        rw [List.count_pos_iff, List.mem_flatMap]; exact ⟨_, h5, by simp [Worker.runs]⟩
      omega

theorem finish_running {s s' : State} {t : Nat} (h : Step s (.finish t) s') : ∃ pre post, s.workers = pre ++ .running t :: post := by
  generalize he : Event.finish t = e at h
  cases h with
  | finish pre post t' hw => cases he; exact ⟨pre, post, hw⟩
  | enter pre post hw =>
    rcases enter_cases s.stop s.queue with ⟨-, -, he'⟩ | ⟨-, -, he'⟩ | ⟨_, _, -, he'⟩ <;> rw [he'] at he <;> cases he
  | _ => cases he

/-- Events that somebody outside of the pool causes, or that need not happen. -/
def FEvent.external : FEvent → Bool
  | .base e => e.external
  | .pushThrew => true
  | .taskThrew _ => false

/-- C84. A pool comes to rest only if no accepted task lets an exception out; and then all of them have been called and have returned. -/
theorem C84_at_rest {throws : Nat → Prop} {n : Nat} {es : List FEvent} {s : State} (h : FRun throws n es (.up s)) (hn : 0 < n)
    (hrest : ∀ e s', FStep throws (.up s) e s' → e.external = true) :
    (∀ t ∈ pushes (es.filterMap FEvent.base?), ¬ throws t) ∧
      (finishes (es.filterMap FEvent.base?)).Perm (pushes (es.filterMap FEvent.base?)) ∧ s.queue = [] := by
  obtain ⟨h1, h2, -⟩ := frun_run h
  have hstuck : ∀ e s', Step s e s' → e.external = true := by
    intro e s' hs
    by_cases hf : ∃ t, e = .finish t ∧ throws t
    · obtain ⟨t, rfl, ht⟩ := hf
      obtain ⟨pre, post, he⟩ := finish_running hs
      exact absurd (hrest _ _ (.taskThrew s pre post t he ht)) (by simp [FEvent.external])
    · exact hrest (.base e) _ (.base s e s' hs (fun t h1 h2 => hf ⟨t, h1, h2⟩))
  obtain ⟨h3, h4⟩ := C40_no_lost_wakeup h1 hn hstuck
  have hp := (C39_exactly_once_when_idle h1 (by
    intro w hw
    have := h4 w hw
    split at this
    · exact .inr (.inr this)
    · exact .inr (.inl this)) h3).2
  exact ⟨fun t ht => h2 t (hp.mem_iff.2 ht), hp, h3⟩

theorem steps_or_end (throws : Nat → Prop) {s s' : State} {es : List Event} (h : Steps s es s') (hi : ∀ e ∈ es, e.external = false) :
    (FSteps throws (.up s) (es.map .base) (.up s')) ∨
    ∃ es' x, FSteps throws (.up s) es' (.dead x) ∧ ∀ e ∈ es', e.external = false := by
  induction h with
  | nil => exact .inl .nil
  | @snoc es s1 s2 e h1 h2 ih =>
    rcases ih (fun e he => hi e (by simp [he])) with ih | ih
    · by_cases hf : ∃ t, e = .finish t ∧ throws t
      · obtain ⟨t, rfl, ht⟩ := hf
        obtain ⟨pre, post, hw⟩ := finish_running h2
        refine .inr ⟨es.map .base ++ [.taskThrew t], s1, .snoc ih (.taskThrew s1 pre post t hw ht), fun e he => ?_⟩
        rw [List.mem_append, List.mem_map] at he
        rcases he with ⟨a, ha, rfl⟩ | he
        · exact hi a (by simp [ha])
        · simp only [List.mem_singleton] at he; subst he; rfl
      · left
        rw [List.map_append]
        exact .snoc ih (.base s1 e s2 h2 (fun t h3 h4 => hf ⟨t, h3, h4⟩))
    · exact .inr ih

/-- C84. Left to itself, a pool that has a worker can always go on until either the process has ended or all tasks have been called and
have returned; if a task that lets an exception out has been accepted, only the former. -/
theorem C84_drains_or_ends {throws : Nat → Prop} {n : Nat} {es : List FEvent} {s : State} (h : FRun throws n es (.up s)) (hn : 0 < n) :
    ∃ es' s', FSteps throws (.up s) es' s' ∧ (∀ e ∈ es', e.external = false) ∧
      ((∃ x, s' = .dead x) ∨ (∀ t ∈ pushes (es.filterMap FEvent.base?), ¬ throws t) ∧ ∃ x, s' = .up x ∧ x.queue = [] ∧
        ∀ w ∈ x.workers, w = if s.stop then .exited else .waiting) := by
  obtain ⟨es', s', h1, h2, h3, h4⟩ := C40_drains (C84_refused_push h) hn
  rcases steps_or_end throws h1 h2 with hs | ⟨es2, x, hs, hi⟩
  · refine ⟨_, _, hs, ?_, .inr ⟨fun t ht => ?_, s', rfl, h3, h4⟩⟩
    · intro e he
      obtain ⟨a, ha, rfl⟩ := List.mem_map.1 he
      exact h2 a ha
    · have hr : FRun throws n (es ++ es'.map .base) (.up s') := FSteps.trans h hs
      obtain ⟨r1, r2, -⟩ := frun_run hr
      have hp := (C39_exactly_once_when_idle r1 (by
        intro w hw
        have := h4 w hw
        split at this
        · exact .inr (.inr this)
        · exact .inr (.inl this)) h3).2
      refine r2 t (hp.mem_iff.2 ?_)
      rw [List.filterMap_append, pushes, List.filterMap_append]
      exact List.mem_append_left _ ht
  · exact ⟨es2, _, hs, hi, .inl ⟨x, rfl⟩⟩

/-- One worker, two tasks of which the first lets an exception out, and a `PushTask` that is refused: the second task is never called. -/
def demoThrow : List FEvent :=
  [.base (.push 0), .pushThrew, .base (.push 1), .base (.take 0), .base (.start 0), .taskThrew 0]

theorem demoThrow_run : FRun (· = 0) 1 demoThrow (.dead { workers := [.running 0], queue := [1], pendOne := 2, accepted := 2 }) := by
  have h := FSteps.nil (throws := (· = 0)) (s := .up (init 1))
  have h := h.snoc (.base _ _ _ (Step.push _ rfl) nofun)
  have h := h.snoc (.pushThrew _ rfl)
  have h := h.snoc (.base _ _ _ (Step.push _ rfl) nofun)
  have h := h.snoc (.base _ _ _ (Step.enter _ [] [] rfl) nofun)
  have h := h.snoc (.base _ _ _ (Step.start _ [] [] 0 rfl) nofun)
  have h := h.snoc (.taskThrew _ [] [] 0 rfl rfl)
  exact h

example : ∃ es' t, demoThrow = es' ++ [.taskThrew t] ∧ t = 0 ∧ 0 ∈ starts (demoThrow.filterMap FEvent.base?) ∧
    1 ∉ starts (demoThrow.filterMap FEvent.base?) := by
  obtain ⟨es', t, h1, h2, -, -, h5, -⟩ := C84_exception_ends_everything demoThrow_run
  exact ⟨es', t, h1, h2, h2 ▸ h5, by decide⟩

/-- The same with tasks that return: a pool at rest. -/
def demoQuiet : List FEvent :=
  [.base (.push 0), .pushThrew, .base .notifyOne, .base (.take 0), .base (.start 0), .base (.finish 0), .base .sleep]

theorem demoQuiet_run : FRun (fun _ => False) 1 demoQuiet (.up { workers := [.waiting], accepted := 1 }) := by
  have h := FSteps.nil (throws := fun _ => False) (s := .up (init 1))
  have h := h.snoc (.base _ _ _ (Step.push _ rfl) nofun)
  have h := h.snoc (.pushThrew _ rfl)
  have h := h.snoc (.base _ _ _ (Step.notifyNone _ (by decide) (by decide)) nofun)
  have h := h.snoc (.base _ _ _ (Step.enter _ [] [] rfl) nofun)
  have h := h.snoc (.base _ _ _ (Step.start _ [] [] 0 rfl) nofun)
  have h := h.snoc (.base _ _ _ (Step.finish _ [] [] 0 rfl) (fun _ _ h => h))
  have h := h.snoc (.base _ _ _ (Step.enter _ [] [] rfl) nofun)
  exact h

example : (finishes (demoQuiet.filterMap FEvent.base?)).Perm (pushes (demoQuiet.filterMap FEvent.base?)) := by
  refine (C84_at_rest demoQuiet_run (by decide) ?_).2.1
  have hw : ∀ (pre post : List Worker) (w : Worker), [Worker.waiting] = pre ++ w :: post → w = .waiting := by
    intro pre post w he
    have : w ∈ [Worker.waiting] := by rw [he]; simp
    simpa using this
  intro e s' h
  cases h with
  | pushThrew => rfl
  | taskThrew _ _ _ _ _ ht => exact ht.elim
  | base _ e s1 hs hf =>
    show Event.external _ = true
    cases hs with
    | notifyOne _ _ hp _ => simp at hp
    | notifyNone hp _ => simp at hp
    | notifyAll hp => simp at hp
    | enter pre post he => cases hw _ _ _ he
    | start pre post t he => cases hw _ _ _ he
    | finish pre post t he => cases hw _ _ _ he
    | _ => rfl

end Bridge.TP
