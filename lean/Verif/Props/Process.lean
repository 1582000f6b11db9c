import Verif.Model.Process
import Verif.Proof.Sound
import Verif.Props.Hostile
import Verif.Props.RoundTrip
/-
C56: the process-wide thread pool.
-/
set_option autoImplicit false
namespace Bridge
open Spec

/-- A call that runs on worker threads: the coroutine parser, on content whose header and tables are accepted and whose split
flag (the tenth byte) is set. -/
def Call.parallel (cfg : Cfg) (c : Call) : Bool :=
  c.opt.coroutine && c.content[9]? == some 0x0A &&
    match initFromContent cfg c.content with
    | .ok _ => true
    | .error _ => false

theorem init_flag {cfg : Cfg} {content : Bytes} {s : Sched} (h : initFromContent cfg content = .ok s) :
    s.split = (content[9]? == some 0x0A) := by
  have hl' : 10 ≤ content.length := by
    apply Classical.byContradiction
    intro hn
    unfold initFromContent at h
    rw [if_pos (by unfold metaSize; omega)] at h
    cases h
  rw [init_steps hl'] at h
  have hg : content[9]? = some (content.getD 9 0) := by
    simp [List.getD, show 9 < content.length by omega]
  rw [hg]
  obtain ⟨t, -, h⟩ := bind_ok h
  obtain ⟨p, -, h⟩ := bind_ok h
  generalize content.getD 9 0 = b at h ⊢
  unfold readFlag at h
  by_cases h0 : b = 0
  · subst h0
    simp only [if_true, pure_eq_ok, Except.ok.injEq] at h
    subst h; rfl
  · by_cases h1 : b = 0x0A
    · subst h1
      simp only [if_neg h0, if_true, pure_eq_ok, Except.ok.injEq] at h
      subst h; rfl
    · simp only [if_neg h0, if_neg h1] at h
      cases h

theorem parallel_iff {cfg : Cfg} {c : Call} :
    c.parallel cfg = true ↔ c.opt.coroutine = true ∧ ∃ s, initFromContent cfg c.content = .ok s ∧ s.split = true := by
  unfold Call.parallel
  cases h : initFromContent cfg c.content with
  | error e => simp
  | ok s => simp [init_flag h]

/-- What a call does to the pool, and what it returns. -/
theorem parseIn_eq (cfg : Cfg) (fuel : Nat) (t : Threads) (c : Call) :
    parseIn cfg fuel t c =
      (if c.parallel cfg = true then
        (parse cfg { c.opt with workers := t.getD c.opt.workers } fuel c.content, some (t.getD c.opt.workers))
      else (parse cfg c.opt fuel c.content, t)) := by
  unfold parseIn parse
  cases h : initFromContent cfg c.content with
  | error e =>
    have hp : ¬ c.parallel cfg = true := by rw [parallel_iff]; rintro ⟨-, s, h1, -⟩; rw [h] at h1; cases h1
    rw [if_neg hp]; rfl
  | ok s =>
    simp only [ok_bind]
    cases hc : c.opt.coroutine with
    | false =>
      have hp : ¬ c.parallel cfg = true := by rw [parallel_iff]; simp [hc]
      rw [if_neg hp]; simp
    | true =>
      cases hs : s.split with
      | false =>
        have hp : ¬ c.parallel cfg = true := by rw [parallel_iff]; simp [h, hs]
        rw [if_neg hp]
        simp [coroutineParse, hs]
      | true =>
        have hp : c.parallel cfg = true := by rw [parallel_iff]; exact ⟨hc, s, h, hs⟩
        rw [if_pos hp]
        cases t <;> simp [getOrConstructInstance]

/-- C56. The number of worker threads of a process is the `worker_num_` of its first parallel call, whatever the other calls
ask for; as long as there was none, there is no pool. -/
theorem C56_first_count_wins (cfg : Cfg) (fuel : Nat) (calls : List Call) :
    (runCalls cfg fuel none calls).2 = (calls.find? (Call.parallel cfg)).map (·.opt.workers) := by
  have some_ : ∀ (calls : List Call) n, (runCalls cfg fuel (some n) calls).2 = some n := by
    intro calls n
    induction calls with
    | nil => rfl
    | cons c cs ih =>
      simp only [runCalls, parseIn_eq]
      split <;> exact ih
  induction calls with
  | nil => rfl
  | cons c cs ih =>
    simp only [runCalls, parseIn_eq, List.find?_cons]
    cases hp : c.parallel cfg with
    | true => simpa using some_ cs c.opt.workers
    | false => simpa using ih

theorem parse_workers (cfg : Cfg) (po : ParseOption) (fuel : Nat) (content : Bytes) (n : Nat) (hn : 0 < n) (hp : 0 < po.workers) :
    parse cfg { po with workers := n } fuel content = parse cfg po fuel content := by
  unfold parse
  cases initFromContent cfg content with
  | error e => rfl
  | ok s =>
    simp only [ok_bind]
    cases po.coroutine with
    | false => rfl
    | true =>
      simp only [if_true, coroutineParse]
      split
      · rfl
      · rw [if_neg (by omega), if_neg (by omega)]

/-- C56. In a process in which no call asks for zero workers, every call ends as if it were the only one: neither the worker
number it asks for nor the calls before it matter. -/
theorem C56_history_irrelevant (cfg : Cfg) (fuel : Nat) (calls : List Call) (h : ∀ c ∈ calls, 0 < c.opt.workers) :
    (runCalls cfg fuel none calls).1 = calls.map (fun c => parse cfg c.opt fuel c.content) := by
  have key : ∀ (calls : List Call) (t : Threads), (∀ n, t = some n → 0 < n) → (∀ c ∈ calls, 0 < c.opt.workers) →
      (runCalls cfg fuel t calls).1 = calls.map (fun c => parse cfg c.opt fuel c.content) := by
    intro calls
    induction calls with
    | nil => intros; rfl
    | cons c cs ih =>
      intro t ht h
      have hc := h c (by simp)
      have hn : 0 < t.getD c.opt.workers := by
        cases t with
        | none => simpa using hc
        | some n => simpa using ht n rfl
      simp only [runCalls, parseIn_eq, List.map_cons]
      have hcs : ∀ c ∈ cs, 0 < c.opt.workers := fun x hx => h x (by simp [hx])
      split
      · simp only
        rw [parse_workers cfg c.opt fuel c.content _ hn hc, ih _ (by rintro n ⟨⟩; exact hn) hcs]
      · simp only
        rw [ih t ht hcs]
  exact key calls none (by simp) h

/-- C56. If the first parallel call of a process asks for zero workers, neither it nor any later parallel call ever returns,
whatever number of workers that asks for; all other calls end as usual. -/
theorem C56_zero_first_blocks_all (cfg : Cfg) (before : List Call) (first : Call) (hb : ∀ c ∈ before, c.parallel cfg = false)
    (hf : first.parallel cfg = true) (h0 : first.opt.workers = 0) (after : List Call) (c : Call) (fuel : Nat) :
    let t := (runCalls cfg fuel none (before ++ first :: after)).2
    (parseIn cfg fuel none first).1 = .error .fuel ∧
    (c.parallel cfg = true → (parseIn cfg fuel t c).1 = .error .fuel) ∧
    (c.parallel cfg = false → (parseIn cfg fuel t c).1 = parse cfg c.opt fuel c.content) := by
  have ht : (runCalls cfg fuel none (before ++ first :: after)).2 = some 0 := by
    rw [C56_first_count_wins, List.find?_append, List.find?_eq_none.2 (by simpa using hb)]
    simp [hf, h0]
  have zero : ∀ (c : Call), c.parallel cfg = true → parse cfg { c.opt with workers := 0 } fuel c.content = .error .fuel := by
    intro c hc
    obtain ⟨h1, s, h2, h3⟩ := parallel_iff.1 hc
    unfold parse
    rw [h2]
    simp [ok_bind, h1, coroutineParse, h3]
  intro t
  refine ⟨?_, fun hc => ?_, fun hc => ?_⟩
  · rw [parseIn_eq, if_pos hf]
    simpa [h0] using zero first hf
  · show (parseIn cfg fuel t c).1 = _
    have : t = some 0 := ht
    rw [this, parseIn_eq, if_pos hc]
    simpa using zero c hc
  · rw [parseIn_eq, if_neg (by simp [hc])]

/-- The sample, split into blocks of ten bytes. -/
def splitSample : Bytes := (serialize { Cfg.x86 with blockSize := 10 } .normal sampleObj).toOption.getD []

/-- The sample, not split. -/
def plainSample : Bytes := (serialize Cfg.x86 .normal sampleObj).toOption.getD []

/-- The calls of a process: a plain document asking for eight workers, a split one asking for two, one asking for five. -/
def demoCalls : List Call := [⟨plainSample, ⟨true, false, 8⟩⟩, ⟨splitSample, ⟨true, false, 2⟩⟩, ⟨splitSample, ⟨true, false, 5⟩⟩]

theorem demoCalls_parallel : demoCalls.map (Call.parallel Cfg.x86) = [false, true, true] := by decide +kernel

example : (runCalls Cfg.x86 50 none demoCalls).2 = some 2 := by
  rw [C56_first_count_wins]
  decide +kernel

example : Call.parallel Cfg.x86 ⟨splitSample, ⟨true, false, 0⟩⟩ = true ∧ Call.parallel Cfg.x86 ⟨plainSample, ⟨true, false, 0⟩⟩ = false := by
  decide +kernel

end Bridge
