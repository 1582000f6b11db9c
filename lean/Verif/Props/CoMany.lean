import Verif.Proof.CoMany
import Verif.Props.CoHeap
/-
C81: several parallel `Parse`s under way at the same time, in a program whose threads go on working.  Every access of every coroutine and
every call of every thread can come at any time.
-/
set_option autoImplicit false
namespace Bridge.Heap
open Spec Many

/-- The pools that the program names have numbers below `b`. -/
abbrev NamesBelow (b : Nat) (prog : Nat → List TaskInstr) : Prop := ∀ t i, i ∈ prog t → ∀ p ∈ i.poolArgs, p < b

/-- C81. No coroutine of any of the parses under way is about to do something undefined: none has a null pointer, an object that has been freed
or a pool that has ended, whatever the other parses and the threads have done. -/
theorem C81_no_fault (w : Cfg) (fuel b : Nat) (prog : Nat → List TaskInstr) (hB : NamesBelow b prog) (s : Procs)
    (hs : Procs.Runs w fuel (Procs.init b prog) s) (t : Nat) (c : CoCall) (k : Prog (Nat × Ref × Nat)) (hu : s.under t = some (c, k)) :
    ¬ Faulty s.mem k := by
  obtain ⟨hs, hg⟩ := good_runs hB hs
  obtain ⟨_, sc, _, _, _, h4⟩ := hg.busy t c k hu
  exact fun hf => not_faulty hf _ _ (hg.core.of _) h4

/-- C81. Two coroutines of the same parse never make conflicting accesses at the same time, except to the dictionary of that parse (C71, C41). -/
theorem C81_no_race_inside (w : Cfg) (fuel b : Nat) (prog : Nat → List TaskInstr) (hB : NamesBelow b prog) (s : Procs)
    (hs : Procs.Runs w fuel (Procs.init b prog) s) (t : Nat) (c : CoCall) (k : Prog (Nat × Ref × Nat)) (hu : s.under t = some (c, k))
    (a : Access) (hr : Race k a) : a = .dictionary := by
  obtain ⟨hs, hg⟩ := good_runs hB hs
  obtain ⟨_, sc, _, _, _, h4⟩ := hg.busy t c k hu
  exact no_race hr _ _ (hg.core.of _).closed h4

/-- C81. Coroutines of two different parses never touch the same object or the same pool.  (Each parse has a dictionary of its own: the scheduler
that `Parse` makes reads it, object.h:1728-1754.) -/
theorem C81_no_race_between (w : Cfg) (fuel b : Nat) (prog : Nat → List TaskInstr) (hB : NamesBelow b prog) (s : Procs)
    (hs : Procs.Runs w fuel (Procs.init b prog) s) (t t' : Nat) (hne : t ≠ t') (c c' : CoCall) (k k' : Prog (Nat × Ref × Nat))
    (hu : s.under t = some (c, k)) (hu' : s.under t' = some (c', k')) :
    (∀ r, (Touches k (.read r) ∨ Touches k (.write r)) → ¬ (Touches k' (.read r) ∨ Touches k' (.write r))) ∧
    (∀ q, Touches k (.pool q) → ¬ Touches k' (.pool q)) ∧
    ∀ a a', Touches k a → Touches k' a' → Conflict a a' → a = .dictionary ∧ a' = .dictionary := by
  obtain ⟨hs, hg⟩ := good_runs hB hs
  obtain ⟨_, sc, _, _, _, h4⟩ := hg.busy t c k hu
  obtain ⟨_, sc', _, _, _, h4'⟩ := hg.busy t' c' k' hu'
  have g : ∀ a, Touches k a → a.In (hs (t + 1)) := fun a ha => touches_in ha _ _ (hg.core.of _).closed h4
  have g' : ∀ a, Touches k' a → a.In (hs (t' + 1)) := fun a ha => touches_in ha _ _ (hg.core.of _).closed h4'
  have hij : t + 1 ≠ t' + 1 := fun e => hne (Nat.succ.inj e)
  have pool : ∀ q, (hs (t + 1)).pools q ≠ none → (hs (t' + 1)).pools q ≠ none → False := fun q h1 h2 => h2 (hg.core.apart _ _ q hij h1)
  have cell : ∀ r, (hs (t + 1)).cells r ≠ none → (hs (t' + 1)).cells r ≠ none → False := by
    intro r h1 h2
    cases e1 : (hs (t + 1)).cells r with
    | none => exact h1 e1
    | some x =>
      cases e2 : (hs (t' + 1)).cells r with
      | none => exact h2 e2
      | some y =>
        obtain ⟨q, c⟩ := x
        obtain ⟨q', c'⟩ := y
        obtain ⟨a1, _, a3⟩ := ((hg.core.of _).cells r q c).1 e1
        obtain ⟨b1, _, b3⟩ := ((hg.core.of _).cells r q' c').1 e2
        rw [a1] at b1; cases b1
        exact pool q a3 b3
  refine ⟨fun r h1 h2 => ?_, fun q h1 h2 => pool q (g _ h1) (g' _ h2), fun a a' h1 h2 hc => ?_⟩
  · refine cell r ?_ ?_
    · rcases h1 with h1 | h1 <;> exact g _ h1
    · rcases h2 with h2 | h2 <;> exact g' _ h2
  · have i1 := g _ h1
    have i2 := g' _ h2
    cases hc with
    | readWrite r => exact (cell r i1 i2).elim
    | writeRead r => exact (cell r i1 i2).elim
    | writeWrite r => exact (cell r i1 i2).elim
    | pool q => exact (pool q i1 i2).elim
    | dictionary => exact ⟨rfl, rfl⟩

/-- C81. And none of them touches what the threads can get at: an object or item that a coroutine is about to read or write cannot be reached
from any variable or pointer of any thread and lies in none of the pools of the program, and a pool that it is about to touch is none of these. -/
theorem C81_program_apart (w : Cfg) (fuel b : Nat) (prog : Nat → List TaskInstr) (hB : NamesBelow b prog) (s : Procs)
    (hs : Procs.Runs w fuel (Procs.init b prog) s) (t : Nat) (c : CoCall) (k : Prog (Nat × Ref × Nat)) (hu : s.under t = some (c, k)) :
    (∀ r, (Touches k (.read r) ∨ Touches k (.write r)) → (∀ x, ¬ Reaches s.mem (s.mem.vars x) r) ∧
      (∀ t' q, ¬ Reaches s.mem ((s.local_ t').ptrs q) r) ∧ ∀ p, p < b → s.mem.owner r ≠ some p) ∧
    ∀ q, Touches k (.pool q) → b ≤ q := by
  obtain ⟨hs, hg⟩ := good_runs hB hs
  obtain ⟨_, sc, _, _, _, h4⟩ := hg.busy t c k hu
  have g : ∀ a, Touches k a → a.In (hs (t + 1)) := fun a ha => touches_in ha _ _ (hg.core.of _).closed h4
  have hpool : ∀ q, (hs (t + 1)).pools q ≠ none → b ≤ q := fun q hq => Nat.le_of_not_lt fun hlt => hq ((hg.core.poolOut hlt).2 _)
  refine ⟨fun r hr => ?_, fun q hq => hpool q (g _ hq)⟩
  have hin : (hs (t + 1)).cells r ≠ none := by rcases hr with hr | hr <;> exact g _ hr
  refine ⟨fun x hx => hin ((reaches_out hg.core hx (hg.core.vars x)).2 _), fun t' q hx => hin ((reaches_out hg.core hx (hg.core.ptrs t' q)).2 _),
    fun p hp he => ?_⟩
  cases e : (hs (t + 1)).cells r with
  | none => exact hin e
  | some x =>
    obtain ⟨q, c⟩ := x
    obtain ⟨a1, _, a3⟩ := ((hg.core.of _).cells r q c).1 e
    rw [he] at a1; cases a1
    exact absurd (hpool p a3) (Nat.not_le.2 hp)

/-- C81. What happens elsewhere – a call of another thread, or an access in its parse – does not disturb a parse under way: its coroutines are about
to do what they were about to do, and what they are about to touch is what it was. -/
theorem C81_undisturbed (w : Cfg) (fuel b : Nat) (prog : Nat → List TaskInstr) (hB : NamesBelow b prog) (s : Procs)
    (hs : Procs.Runs w fuel (Procs.init b prog) s) (t t' : Nat) (hne : t ≠ t') (c : CoCall) (k : Prog (Nat × Ref × Nat)) (hu : s.under t = some (c, k))
    (s' : Procs) (hstep : Procs.Step w fuel t' s s') :
    s'.under t = some (c, k) ∧ (∀ r, (Touches k (.read r) ∨ Touches k (.write r)) → s'.mem.load (some r) = s.mem.load (some r)) ∧
    ∀ q, Touches k (.pool q) → s'.mem.pools q = s.mem.pools q := by
  obtain ⟨hs, hg⟩ := good_runs hB hs
  obtain ⟨_, sc, _, _, _, h4⟩ := hg.busy t c k hu
  have g : ∀ a, Touches k a → a.In (hs (t + 1)) := fun a ha => touches_in ha _ _ (hg.core.of _).closed h4
  obtain ⟨hs', hg', hsame⟩ := good_step hg hstep
  have e := hsame t hne
  have ho := hg'.core.of (t + 1)
  rw [e] at ho
  refine ⟨?_, fun r hr => ?_, fun q hq => ?_⟩
  · cases hstep with
    | plain => exact hu
    | header => exact hu
    | whole => exact hu
    | start => show upd _ _ _ _ = _; rw [upd_ne _ _ hne]; exact hu
    | access => show upd _ _ _ _ = _; rw [upd_ne _ _ hne]; exact hu
    | returns => show upd _ _ _ _ = _; rw [upd_ne _ _ hne]; exact hu
    | throws => show upd _ _ _ _ = _; rw [upd_ne _ _ hne]; exact hu
  · have hin : (hs (t + 1)).cells r ≠ none := by rcases hr with hr | hr <;> exact g _ hr
    cases e : (hs (t + 1)).cells r with
    | none => exact absurd e hin
    | some x => obtain ⟨q, c⟩ := x; rw [ho.load e, (hg.core.of _).load e]
  · have hin : (hs (t + 1)).pools q ≠ none := g _ hq
    cases e : (hs (t + 1)).pools q with
    | none => exact absurd e hin
    | some x => rw [(ho.pools q x e).1, ((hg.core.of _).pools q x e).1]

/-- C81. An access of a coroutine changes nothing that a thread can see: through every variable and every pointer one reads the same before and
after, and the pools of the program are as they were. -/
theorem C81_unnoticed (w : Cfg) (fuel b : Nat) (prog : Nat → List TaskInstr) (hB : NamesBelow b prog) (s : Procs)
    (hs : Procs.Runs w fuel (Procs.init b prog) s) (t : Nat) (c : CoCall) (k k' : Prog (Nat × Ref × Nat)) (hu : s.under t = some (c, k))
    (u : Bool) (m : Mem) (hstep : Heap.Step u s.mem k m k') :
    m.vars = s.mem.vars ∧ (∀ x, SameReads s.mem m (s.mem.vars x)) ∧ (∀ t' q, SameReads s.mem m ((s.local_ t').ptrs q)) ∧
    ∀ p, p < b → m.pools p = s.mem.pools p := by
  obtain ⟨hs, hg⟩ := good_runs hB hs
  obtain ⟨_, sc, _, _, _, h4⟩ := hg.busy t c k hu
  obtain ⟨s1, hw, ho, hq, hf⟩ := step_sound hstep _ _ hg.core.wf (hg.core.of (t + 1)) h4
  obtain ⟨hc, hout⟩ := access_core hg.core hw ho hf
  have key : ∀ a, PtrOut hs s.mem a → SameReads s.mem m a := fun a ha => sameReads_of fun c hc => by
    obtain ⟨h1, h2⟩ := reaches_out hg.core hc ha
    exact Many.load_same (hout c h1 h2).2
  refine ⟨hf.vars, fun x => key _ (hg.core.vars x), fun t' q => key _ (hg.core.ptrs t' q), fun p hp => ?_⟩
  have h1 := (hc.poolOut hp).2 (t + 1)
  rw [upd_same] at h1
  exact (hf.pool p h1).1

/-- C81. When the coroutines of a parse are done, they have done what the model of the other properties says: if they ended with an error, so
does that `Parse`; otherwise it returns a tree, and if the pool that the caller gave is alive, the caller gets it: its variable then shows that
tree, and nothing that any thread could see before has changed. -/
theorem C81_result (w : Cfg) (fuel b : Nat) (prog : Nat → List TaskInstr) (hB : NamesBelow b prog) (s : Procs)
    (hs : Procs.Runs w fuel (Procs.init b prog) s) (t : Nat) (c : CoCall) (r : Res (Nat × Ref × Nat)) (hu : s.under t = some (c, .ret r)) :
    (∀ e, r = .error e → Bridge.parse w ⟨true, c.ref, c.workers⟩ fuel c.content = .error e) ∧
    ∀ off root q, r = .ok (off, root, q) → ∃ o, Bridge.parse w ⟨true, c.ref, c.workers⟩ fuel c.content = .ok o ∧
      (s.mem.pools c.p = true → ∃ m, s.mem.receive c.d c.p root q = .ok m ∧ Shows m (m.vars c.d) o ∧ (∀ x, x ≠ c.d → m.vars x = s.mem.vars x) ∧
        (∀ x, SameReads s.mem m (s.mem.vars x)) ∧ ∀ t' q, SameReads s.mem m ((s.local_ t').ptrs q)) := by
  obtain ⟨hs, hg⟩ := good_runs hB hs
  obtain ⟨hp, herr, hok⟩ := hg.ended hu
  refine ⟨herr, fun off root q hr => ?_⟩
  obtain ⟨n, es, h1, h2⟩ := hok off root q hr
  refine ⟨_, h1, fun hl => ?_⟩
  obtain ⟨m, e, _, g1, g2, g3⟩ := receive_core hg.core h2 c.d hp hl
  have key : ∀ a, PtrOut hs s.mem a → SameReads s.mem m a := fun a ha => sameReads_of fun c hc =>
    Many.load_same (g3 c ((reaches_out hg.core hc ha).2 _))
  exact ⟨m, e, g1, g2, fun x => key _ (hg.core.vars x), fun t' q => key _ (hg.core.ptrs t' q)⟩

/-- C81. So does everything that a thread gets to know: a parallel `Parse` that a thread has started ends – by returning or by throwing – as the
model of the other properties says, whatever else goes on. -/
theorem C81_outcome (w : Cfg) (fuel b : Nat) (prog : Nat → List TaskInstr) (hB : NamesBelow b prog) (s s' : Procs)
    (hs : Procs.Runs w fuel (Procs.init b prog) s) (t : Nat) (hstep : Procs.Step w fuel t s s') (c : CoCall) (k : Prog (Nat × Ref × Nat))
    (hu : s.under t = some (c, k)) (hu' : s'.under t = none) :
    (∃ o, Bridge.parse w ⟨true, c.ref, c.workers⟩ fuel c.content = .ok o ∧ Shows s'.mem (s'.mem.vars c.d) o ∧
      (s'.local_ t).out = .done :: (s.local_ t).out) ∨
    ∃ e, Bridge.parse w ⟨true, c.ref, c.workers⟩ fuel c.content = .error (.exn e) ∧ s'.mem = s.mem ∧
      (s'.local_ t).out = .threw e :: (s.local_ t).out := by
  cases hstep with
  | plain i is m l h1 => rw [hu] at h1; cases h1
  | header c is e h1 => rw [hu] at h1; cases h1
  | whole c is sc m l h1 => rw [hu] at h1; cases h1
  | start c is sc h1 => rw [hu] at h1; cases h1
  | access c k k' u m h1 h2 => change upd _ _ _ _ = _ at hu'; rw [upd_same] at hu'; cases hu'
  | returns c' off root q m h1 h2 =>
    rw [hu] at h1; cases h1
    obtain ⟨_, h3⟩ := C81_result w fuel b prog hB s hs t c _ hu
    obtain ⟨o, g1, g2⟩ := h3 off root q rfl
    have hlive : s.mem.pools c.p = true := by
      cases hl : s.mem.pools c.p with
      | true => rfl
      | false => unfold Mem.receive at h2; rw [if_neg (fun h => by rw [hl] at h; cases h.1)] at h2; cases h2
    obtain ⟨m', e, g3, _⟩ := g2 hlive
    rw [e] at h2; cases h2
    exact .inl ⟨o, g1, g3, by show (upd s.local_ t _ t).out = _; rw [upd_same]; rfl⟩
  | throws c' e h1 =>
    rw [hu] at h1; cases h1
    obtain ⟨h3, _⟩ := C81_result w fuel b prog hB s hs t c _ hu
    exact .inr ⟨e, h3 _ rfl, rfl, by show (upd s.local_ t _ t).out = _; rw [upd_same]; rfl⟩

/-- C81. The same holds of a parallel `Parse` that is over before a coroutine is started: its header is malformed, or its root is not split. -/
theorem C81_at_once (w : Cfg) (fuel b : Nat) (prog : Nat → List TaskInstr) (hB : NamesBelow b prog) (s s' : Procs)
    (hs : Procs.Runs w fuel (Procs.init b prog) s) (t : Nat) (hstep : Procs.Step w fuel t s s') (c : CoCall) (is : List TaskInstr)
    (hu : s.under t = none) (hc : s.todo t = .coParse c :: is) (hu' : s'.under t = none) :
    s'.todo t = is ∧ ((∃ o, Bridge.parse w ⟨true, c.ref, c.workers⟩ fuel c.content = .ok o ∧ Shows s'.mem (s'.mem.vars c.d) o ∧
      (s'.local_ t).out = .done :: (s.local_ t).out) ∨
    ∃ e, Bridge.parse w ⟨true, c.ref, c.workers⟩ fuel c.content = .error (.exn e) ∧ s'.mem = s.mem ∧
      (s'.local_ t).out = .threw e :: (s.local_ t).out) := by
  obtain ⟨hs, hg⟩ := good_runs hB hs
  cases hstep with
  | plain i is m l _ h1 => rw [hc] at h1; cases h1
  | start c is sc => change upd _ _ _ _ = _ at hu'; rw [upd_same] at hu'; cases hu'
  | access c k k' u m h1 => rw [hu] at h1; cases h1
  | returns c off root q m h1 => rw [hu] at h1; cases h1
  | throws c e h1 => rw [hu] at h1; cases h1
  | header c' is e _ h1 h2 =>
    rw [hc] at h1; cases h1
    refine ⟨upd_same _ _ _, .inr ⟨e, by unfold Bridge.parse; rw [h2, error_bind], rfl, ?_⟩⟩
    show (upd s.local_ t _ t).out = _; rw [upd_same]; rfl
  | whole c' is sc m l _ h1 h2 h3 h4 =>
    rw [hc] at h1; cases h1
    refine ⟨upd_same _ _ _, ?_⟩
    rw [parse_whole h2 h3 c.ref c.workers 1 fuel]
    simp only [Instr.exec] at h4
    cases hp : s.mem.pools c.p with
    | false =>
      obtain ⟨g1, g2⟩ := parse_dead (cfg := w) hp fuel c.d c.ref 1 c.content
      generalize s.mem.parse w fuel c.d c.p c.ref c.content = y at h4 g1 g2
      cases y with
      | ok m1 => exact absurd rfl (g1 m1)
      | error e =>
        cases e with
        | exn x =>
          cases h4
          exact .inr ⟨x, g2 x rfl, rfl, by show (upd s.local_ t _ t).out = _; rw [upd_same]; rfl⟩
        | _ => cases h4
    | true =>
      have hb := parse_both (cfg := w) (fun i hj => hg.core.wf.fresh i hj) hp fuel c.d c.ref 1 c.content
      generalize s.mem.parse w fuel c.d c.p c.ref c.content = y at h4 hb
      generalize Bridge.parse w ⟨false, c.ref, 1⟩ fuel c.content = x at hb
      cases hb with
      | ok hoq =>
        cases h4
        obtain ⟨m1, hP, _⟩ := hoq
        exact .inl ⟨_, rfl, hP.shows, by show (upd s.local_ t _ t).out = _; rw [upd_same]; rfl⟩
      | error e =>
        cases e with
        | exn x =>
          cases h4
          exact .inr ⟨x, rfl, rfl, by show (upd s.local_ t _ t).out = _; rw [upd_same]; rfl⟩
        | _ => cases h4

/-- C81. If the pool that the caller gave has been destroyed meanwhile, by whatever thread, taking the result is undefined behaviour. -/
theorem C81_needs_pool (s : Procs) (c : CoCall) (root : Ref) (q : Nat) (hp : s.mem.pools c.p = false) :
    s.mem.receive c.d c.p root q = .error (.ub .danglingPool) := by
  unfold Mem.receive
  rw [if_neg (fun h => by rw [hp] at h; cases h.1)]

/-- C81. A parse under way can always go on until its coroutines have a result. -/
theorem C81_goes_on (w : Cfg) (fuel b : Nat) (prog : Nat → List TaskInstr) (hB : NamesBelow b prog) (s : Procs)
    (hs : Procs.Runs w fuel (Procs.init b prog) s) (t : Nat) (c : CoCall) (k : Prog (Nat × Ref × Nat)) (hu : s.under t = some (c, k)) :
    (∃ r, k = .ret r) ∨ ∃ s' k', Procs.Step w fuel t s s' ∧ s'.under t = some (c, k') := by
  rcases progress k s.mem with h | h | ⟨u, m, k', h⟩
  · exact .inl h
  · exact absurd h (C81_no_fault w fuel b prog hB s hs t c k hu)
  · exact .inr ⟨_, k', .access s c k k' u m hu h, upd_same _ _ _⟩

/-- C81. From every moment on which a parse is under way its own coroutines can take it to its result, the rest of the process standing still. -/
theorem C81_can_finish (w : Cfg) (fuel b : Nat) (prog : Nat → List TaskInstr) (hB : NamesBelow b prog) (s : Procs)
    (hs : Procs.Runs w fuel (Procs.init b prog) s) (t : Nat) (c : CoCall) (k : Prog (Nat × Ref × Nat)) (hu : s.under t = some (c, k)) :
    ∃ s' r, Procs.Runs w fuel (Procs.init b prog) s' ∧ s'.under t = some (c, .ret r) ∧ (∀ t', t' ≠ t → s'.under t' = s.under t') ∧
      s'.todo = s.todo ∧ s'.local_ = s.local_ ∧ ∀ p, p < b → s'.mem.pools p = s.mem.pools p := by
  have : ∀ k : Prog (Nat × Ref × Nat), Acc Next k → ∀ s1, Procs.Runs w fuel (Procs.init b prog) s1 → s1.under t = some (c, k) →
      ∃ s' r, Procs.Runs w fuel (Procs.init b prog) s' ∧ s'.under t = some (c, .ret r) ∧ (∀ t', t' ≠ t → s'.under t' = s1.under t') ∧
        s'.todo = s1.todo ∧ s'.local_ = s1.local_ ∧ ∀ p, p < b → s'.mem.pools p = s1.mem.pools p := by
    intro k ha
    induction ha with
    | intro k _ ih =>
      intro s1 hs1 hu1
      rcases progress k s1.mem with ⟨r, h⟩ | h | ⟨u, m, k', h⟩
      · subst h
        exact ⟨s1, r, hs1, hu1, fun _ _ => rfl, rfl, rfl, fun _ _ => rfl⟩
      · exact absurd h (C81_no_fault w fuel b prog hB s1 hs1 t c k hu1)
      · obtain ⟨_, _, _, h4⟩ := C81_unnoticed w fuel b prog hB s1 hs1 t c k k' hu1 u m h
        obtain ⟨s', r, g1, g2, g3, g4, g5, g6⟩ := ih k' ⟨u, _, _, h⟩ _ (.step hs1 (.access s1 c k k' u m hu1 h)) (upd_same _ _ _)
        exact ⟨s', r, g1, g2, fun t' ht => (g3 t' ht).trans (upd_ne _ _ ht), g4, g5, fun p hp => (g6 p hp).trans (h4 p hp)⟩
  exact this k (next_acc k) s hs hu

theorem under_other {w : Cfg} {fuel t t' : Nat} {s s' : Procs} (h : Procs.Step w fuel t' s s') (hne : t ≠ t') : s'.under t = s.under t := by
  cases h with
  | plain => rfl
  | header => rfl
  | whole => rfl
  | start => show upd _ _ _ _ = _; rw [upd_ne _ _ hne]
  | access => show upd _ _ _ _ = _; rw [upd_ne _ _ hne]
  | returns => show upd _ _ _ _ = _; rw [upd_ne _ _ hne]
  | throws => show upd _ _ _ _ = _; rw [upd_ne _ _ hne]

theorem under_ends {w : Cfg} {fuel t : Nat} {f : Nat → Procs} {who : Nat → Nat} (hrun : ∀ i, Procs.Step w fuel (who i) (f i) (f (i + 1)))
    (hfair : ∀ i, ∃ j, i ≤ j ∧ who j = t) : ∀ i, ∃ j, i ≤ j ∧ (f j).under t = none := by
  intro i0
  apply Classical.byContradiction
  intro hn
  have hbusy : ∀ j, i0 ≤ j → (f j).under t ≠ none := fun j hj e => hn ⟨j, hj, e⟩
  have stay : ∀ j n, (∀ i, j ≤ i → i < j + n → who i ≠ t) → (f (j + n)).under t = (f j).under t := by
    intro j n
    induction n with
    | zero => intro _; rfl
    | succ n ih =>
      intro h
      rw [← Nat.add_assoc, under_other (hrun (j + n)) (Ne.symm (h (j + n) (by omega) (by omega)))]
      exact ih (fun i h1 h2 => h i h1 (by omega))
  have first : ∀ j, ∃ n, who (j + n) = t ∧ ∀ i, j ≤ i → i < j + n → who i ≠ t := by
    intro j
    obtain ⟨l, h1, h2⟩ := hfair j
    have : ∀ n, ∀ j, who (j + n) = t → ∃ n, who (j + n) = t ∧ ∀ i, j ≤ i → i < j + n → who i ≠ t := by
      intro n
      induction n with
      | zero => intro j h; exact ⟨0, h, fun i h1 h2 => by omega⟩
      | succ n ih =>
        intro j h
        by_cases hj : who j = t
        · exact ⟨0, hj, fun i h1 h2 => by omega⟩
        · obtain ⟨n', h1, h2⟩ := ih (j + 1) (by rw [show j + 1 + n = j + (n + 1) by omega]; exact h)
          refine ⟨n' + 1, by rw [show j + (n' + 1) = j + 1 + n' by omega]; exact h1, fun i h3 h4 => ?_⟩
          by_cases hi : i = j
          · subst hi; exact hj
          · exact h2 i (by omega) (by omega)
    exact this (l - j) j (by rw [show j + (l - j) = l by omega]; exact h2)
  have : ∀ k : Prog (Nat × Ref × Nat), Acc Next k → ∀ j c, i0 ≤ j → (f j).under t = some (c, k) → False := by
    intro k ha
    induction ha with
    | intro k _ ih =>
      intro j c hj hu
      obtain ⟨n, h1, h2⟩ := first j
      have hu' := stay j n h2
      rw [hu] at hu'
      have hst := hrun (j + n)
      have hb := hbusy (j + n + 1) (by omega)
      rw [h1] at hst
      generalize f (j + n) = s at hst hu'
      generalize e : f (j + n + 1) = s' at hst hb
      cases hst with
      | plain i is m l g1 => rw [hu'] at g1; cases g1
      | header c is e g1 => rw [hu'] at g1; cases g1
      | whole c is sc m l g1 => rw [hu'] at g1; cases g1
      | start c is sc g1 => rw [hu'] at g1; cases g1
      | access c' k0 k' u m g1 g2 =>
        rw [hu'] at g1; cases g1
        exact ih k' ⟨u, _, _, g2⟩ (j + n + 1) c (by omega) (by rw [e]; exact upd_same _ _ _)
      | returns => exact hb (upd_same _ _ _)
      | throws => exact hb (upd_same _ _ _)
  cases hu : (f i0).under t with
  | none => exact hbusy i0 (Nat.le_refl _) hu
  | some x => obtain ⟨c, k⟩ := x; exact this k (next_acc k) i0 c (Nat.le_refl _) hu

theorem todo_other {w : Cfg} {fuel t t' : Nat} {s s' : Procs} (h : Procs.Step w fuel t' s s') (hne : t ≠ t') : s'.todo t = s.todo t := by
  cases h with
  | plain => show upd _ _ _ _ = _; rw [upd_ne _ _ hne]
  | header => show upd _ _ _ _ = _; rw [upd_ne _ _ hne]
  | whole => show upd _ _ _ _ = _; rw [upd_ne _ _ hne]
  | start => show upd _ _ _ _ = _; rw [upd_ne _ _ hne]
  | access => rfl
  | returns => rfl
  | throws => rfl

theorem todo_own {w : Cfg} {fuel t : Nat} {s s' : Procs} (h : Procs.Step w fuel t s s') :
    (s'.todo t).length ≤ (s.todo t).length ∧ (s.under t = none → (s'.todo t).length < (s.todo t).length) := by
  have key : ∀ {i : TaskInstr} {is : List TaskInstr}, s.todo t = i :: is → (upd s.todo t is t).length < (s.todo t).length := by
    intro i is h
    rw [upd_same, h]
    exact Nat.lt_succ_self _
  cases h with
  | plain i is m l h1 h2 => exact ⟨Nat.le_of_lt (key h2), fun _ => key h2⟩
  | header c is e h1 h2 => exact ⟨Nat.le_of_lt (key h2), fun _ => key h2⟩
  | whole c is sc m l h1 h2 => exact ⟨Nat.le_of_lt (key h2), fun _ => key h2⟩
  | start c is sc h1 h2 => exact ⟨Nat.le_of_lt (key h2), fun _ => key h2⟩
  | access c k k' u m h1 => exact ⟨Nat.le_refl _, fun h => by rw [h1] at h; cases h⟩
  | returns c off root q m h1 => exact ⟨Nat.le_refl _, fun h => by rw [h1] at h; cases h⟩
  | throws c e h1 => exact ⟨Nat.le_refl _, fun h => by rw [h1] at h; cases h⟩

/-- C81. However long the process runs – it can have any number of threads –, a thread and the coroutines of its parses together take finitely many
steps: no parse keeps its thread for ever. -/
theorem C81_finitely_many (w : Cfg) (fuel t : Nat) (f : Nat → Procs) (who : Nat → Nat) (hrun : ∀ i, Procs.Step w fuel (who i) (f i) (f (i + 1))) :
    ∃ i, ∀ j, i ≤ j → who j ≠ t := by
  apply Classical.byContradiction
  intro hn
  have hfair : ∀ i, ∃ j, i ≤ j ∧ who j = t := fun i => Classical.byContradiction fun h => hn ⟨i, fun j hj e => h ⟨j, hj, e⟩⟩
  have le : ∀ i, ((f (i + 1)).todo t).length ≤ ((f i).todo t).length := by
    intro i
    by_cases h : who i = t
    · have := hrun i
      rw [h] at this
      exact (todo_own this).1
    · rw [todo_other (hrun i) (Ne.symm h)]; exact Nat.le_refl _
  have mono : ∀ i n, ((f (i + n)).todo t).length ≤ ((f i).todo t).length := by
    intro i n
    induction n with
    | zero => exact Nat.le_refl _
    | succ n ih => exact Nat.le_trans (le (i + n)) ih
  have down : ∀ i, ∃ j, i ≤ j ∧ ((f j).todo t).length < ((f i).todo t).length := by
    intro i
    obtain ⟨j, hj, hu⟩ := under_ends hrun hfair i
    have : ∀ n j, (f j).under t = none → who (j + n) = t → ∃ l, j ≤ l ∧ ((f l).todo t).length < ((f j).todo t).length := by
      intro n
      induction n with
      | zero =>
        intro j hu hw
        have h := hrun j
        have hw : who j = t := hw
        rw [hw] at h
        exact ⟨j + 1, by omega, (todo_own h).2 hu⟩
      | succ n ih =>
        intro j hu hw
        by_cases h : who j = t
        · have g := hrun j
          rw [h] at g
          exact ⟨j + 1, by omega, (todo_own g).2 hu⟩
        · obtain ⟨l, h1, h2⟩ := ih (j + 1) ((under_other (hrun j) (Ne.symm h)).trans hu) (by rw [show j + 1 + n = j + (n + 1) by omega]; exact hw)
          rw [todo_other (hrun j) (Ne.symm h)] at h2
          exact ⟨l, by omega, h2⟩
    obtain ⟨l, h1, h2⟩ := hfair j
    obtain ⟨l', h3, h4⟩ := this (l - j) j hu (by rw [show j + (l - j) = l by omega]; exact h2)
    have := mono i (j - i)
    rw [show i + (j - i) = j by omega] at this
    exact ⟨l', by omega, by omega⟩
  have : ∀ n i, ((f i).todo t).length = n → False := by
    intro n
    induction n using Nat.strongRecOn with
    | ind n ih =>
      intro i hi
      obtain ⟨j, _, h⟩ := down i
      exact ih _ (by rw [← hi]; exact h) j rfl
  exact this _ 0 rfl

/-- C81. And if a thread, or a coroutine of its parse, that can take a step does not wait for ever to take it, then in the end no parse of that thread
is under way – except one whose pool has been destroyed meanwhile, or one that does not end with a tree or an exception anyway. -/
theorem C81_ends (w : Cfg) (fuel b : Nat) (prog : Nat → List TaskInstr) (hB : NamesBelow b prog) (t : Nat) (f : Nat → Procs) (who : Nat → Nat)
    (h0 : f 0 = Procs.init b prog) (hrun : ∀ i, Procs.Step w fuel (who i) (f i) (f (i + 1)))
    (hfair : ∀ i, (∃ s', Procs.Step w fuel t (f i) s') → ∃ j, i ≤ j ∧ who j = t) :
    ∃ i, ∀ j, i ≤ j → ∀ c k, (f j).under t = some (c, k) → (f j).mem.pools c.p = false ∨
      ∃ e, Bridge.parse w ⟨true, c.ref, c.workers⟩ fuel c.content = .error e ∧ ∀ x, e ≠ .exn x := by
  obtain ⟨i, hi⟩ := C81_finitely_many w fuel t f who hrun
  have reach : ∀ j, Procs.Runs w fuel (Procs.init b prog) (f j) := by
    intro j
    induction j with
    | zero => rw [h0]; exact .refl _
    | succ j ih => exact .step ih (hrun j)
  refine ⟨i, fun j hj c k hu => ?_⟩
  have stuck : ¬ ∃ s', Procs.Step w fuel t (f j) s' := fun h => by
    obtain ⟨l, h1, h2⟩ := hfair j h
    exact hi l (by omega) h2
  rcases C81_goes_on w fuel b prog hB _ (reach j) t c k hu with ⟨r, h⟩ | ⟨s', _, h, _⟩
  · subst h
    obtain ⟨h1, h2⟩ := C81_result w fuel b prog hB _ (reach j) t c r hu
    cases r with
    | error e =>
      refine .inr ⟨e, h1 e rfl, fun x hx => ?_⟩
      subst hx
      exact stuck ⟨_, .throws (f j) c x hu⟩
    | ok x =>
      obtain ⟨off, root, q⟩ := x
      cases hp : (f j).mem.pools c.p with
      | false => exact .inl rfl
      | true =>
        obtain ⟨o, _, g⟩ := h2 off root q rfl
        obtain ⟨m, g, _⟩ := g hp
        exact (stuck ⟨_, .returns (f j) c off root q m hu g⟩).elim
  · exact (stuck ⟨s', h⟩).elim

/-! ### Examples -/

/-- Two threads, each of which makes a pool and has a document parsed into it by the parallel parser. -/
def twoParses : Nat → List TaskInstr
  | 0 => [.plain (.call (.newPool 0) 0), .coParse ⟨5, 0, false, 2, noDictSample⟩]
  | 1 => [.plain (.call (.newPool 1) 0), .coParse ⟨6, 1, true, 2, dictSample⟩]
  | _ => []

theorem twoParses_below : NamesBelow 2 twoParses := by
  intro t i hi p hp
  match t with
  | 0 =>
    simp only [twoParses, List.mem_cons, List.not_mem_nil, or_false] at hi
    rcases hi with rfl | rfl <;> simp_all [TaskInstr.poolArgs, Instr.poolArgs, Call.poolArgs]
  | 1 =>
    simp only [twoParses, List.mem_cons, List.not_mem_nil, or_false] at hi
    rcases hi with rfl | rfl <;> simp_all [TaskInstr.poolArgs, Instr.poolArgs, Call.poolArgs]
  | n + 2 => simp [twoParses] at hi

/-- Both are under way at the same time: the hypotheses of `C81_no_fault`, `C81_no_race_inside`, `C81_no_race_between`, `C81_program_apart`,
`C81_goes_on` and `C81_can_finish` are met. -/
theorem twoParses_under_way : ∃ s k k', Procs.Runs Cfg.x86 50 (Procs.init 2 twoParses) s ∧ s.under 0 = some (⟨5, 0, false, 2, noDictSample⟩, k) ∧
    s.under 1 = some (⟨6, 1, true, 2, dictSample⟩, k') ∧ s.mem.pools 0 = true ∧ s.mem.pools 1 = true := by
  obtain ⟨s0, h1, h2, _⟩ := init_of sample_init.1
  obtain ⟨s1, g1, g2, _⟩ := init_of sample_init.2
  refine ⟨_, _, _, .step (.step (.step (.step (.refl _)
    (.plain (t := 0) _ (.call (.newPool 0) 0) _ _ _ rfl rfl rfl))
    (.plain (t := 1) _ (.call (.newPool 1) 0) _ _ _ rfl rfl rfl))
    (.start (t := 0) _ ⟨5, 0, false, 2, noDictSample⟩ _ s0 rfl rfl h1 h2 (by decide)))
    (.start (t := 1) _ ⟨6, 1, true, 2, dictSample⟩ _ s1 rfl rfl g1 g2 (by decide)), rfl, rfl, rfl, rfl⟩

/-- One is done while the other is still where it was, and its caller can take the result: the hypotheses of `C81_result` and `C81_outcome` are
met. -/
example : ∃ s s' k' r, Procs.Runs Cfg.x86 50 (Procs.init 2 twoParses) s ∧ s.under 0 = some (⟨5, 0, false, 2, noDictSample⟩, .ret r) ∧
    s.under 1 = some (⟨6, 1, true, 2, dictSample⟩, k') ∧ Procs.Step Cfg.x86 50 0 s s' ∧ s'.under 0 = none ∧ ∃ o, Shows s'.mem (s'.mem.vars 5) o ∧
    Bridge.parse Cfg.x86 ⟨true, false, 2⟩ 50 noDictSample = .ok o := by
  obtain ⟨s, k, k', hs, h0, h1, hp0, _⟩ := twoParses_under_way
  obtain ⟨s', r, hs', h0', hoth, _, _, hpool⟩ := C81_can_finish _ _ _ _ twoParses_below s hs 0 _ k h0
  obtain ⟨he, hok⟩ := C81_result _ _ _ _ twoParses_below s' hs' 0 _ r h0'
  have h : (parse Cfg.x86 ⟨true, false, 2⟩ 50 noDictSample).toOption.isSome = true := by decide +kernel
  cases r with
  | error e => rw [he e rfl] at h; cases h
  | ok x =>
    obtain ⟨off, root, q⟩ := x
    obtain ⟨o, g1, g2⟩ := hok off root q rfl
    obtain ⟨m, g3, g4, _⟩ := g2 ((hpool 0 (by decide)).trans hp0)
    exact ⟨s', _, k', _, hs', h0', (hoth 1 (by decide)).trans h1, .returns s' _ off root q m h0' g3, rfl, o, g4, g1⟩

/-- A finite run that goes on for ever is an infinite run. -/
theorem extend {w : Cfg} {fuel : Nat} {s s' : Procs} (h : Procs.Runs w fuel s s') : ∀ (g : Nat → Procs) (gw : Nat → Nat), g 0 = s' →
    (∀ i, Procs.Step w fuel (gw i) (g i) (g (i + 1))) →
    ∃ (f : Nat → Procs) (who : Nat → Nat) (N : Nat), f 0 = s ∧ (∀ i, Procs.Step w fuel (who i) (f i) (f (i + 1))) ∧
      ∀ i, f (N + i) = g i ∧ who (N + i) = gw i := by
  induction h with
  | refl => intro g gw h0 hg; exact ⟨g, gw, 0, h0, hg, fun i => by rw [Nat.zero_add]; exact ⟨rfl, rfl⟩⟩
  | @step s1 s2 t _ hst ih =>
    intro g gw h0 hg
    obtain ⟨f, who, N, e1, e2, e3⟩ := ih (fun | 0 => s1 | i + 1 => g i) (fun | 0 => t | i + 1 => gw i) rfl (fun i => by
      cases i with
      | zero => show Procs.Step w fuel t s1 (g 0); rw [h0]; exact hst
      | succ i => exact hg i)
    exact ⟨f, who, N + 1, e1, e2, fun i => by rw [Nat.add_assoc, Nat.add_comm 1 i]; exact e3 (i + 1)⟩

/-- The two parses, in a process with any number of other threads, each of which does something and ends. -/
def parsesAndOthers (t : Nat) : List TaskInstr := if t < 2 then twoParses t else [.plain (.null 0)]

theorem parsesAndOthers_below : NamesBelow 2 parsesAndOthers := by
  intro t i hi p hp
  unfold parsesAndOthers at hi
  by_cases h : t < 2
  · rw [if_pos h] at hi; exact twoParses_below t i hi p hp
  · rw [if_neg h] at hi
    simp only [List.mem_cons, List.not_mem_nil, or_false] at hi
    subst hi
    simp [TaskInstr.poolArgs, Instr.poolArgs] at hp

/-- The threads from number 2 on run one after the other. -/
def others (s : Procs) : Nat → Procs
  | 0 => s
  | i + 1 => { others s i with
      local_ := upd (others s i).local_ (i + 2) (((others s i).local_ (i + 2)).say (.null (((others s i).local_ (i + 2)).ptrs 0).isNone)),
      todo := upd (others s i).todo (i + 2) [] }

theorem others_run {s : Procs} (hu : ∀ t, 2 ≤ t → s.under t = none) (ht : ∀ t, 2 ≤ t → s.todo t = [.plain (.null 0)]) (w : Cfg) (fuel : Nat) :
    ∀ i, Procs.Step w fuel (i + 2) (others s i) (others s (i + 1)) := by
  have key : ∀ i, (others s i).under = s.under ∧ ∀ t, i + 2 ≤ t → (others s i).todo t = s.todo t := by
    intro i
    induction i with
    | zero => exact ⟨rfl, fun _ _ => rfl⟩
    | succ i ih => exact ⟨ih.1, fun t h => (upd_ne _ _ (by omega)).trans (ih.2 t (by omega))⟩
  intro i
  exact .plain (others s i) (.null 0) [] _ _ (by rw [(key i).1]; exact hu _ (by omega))
    (((key i).2 _ (by omega)).trans (ht _ (by omega))) rfl

theorem others_zero (s : Procs) : ∀ i, (others s i).under 0 = s.under 0 ∧ (others s i).todo 0 = s.todo 0 := by
  intro i
  induction i with
  | zero => exact ⟨rfl, rfl⟩
  | succ i ih => exact ⟨ih.1, (upd_ne (j := 0) (i := i + 2) (others s i).todo [] (by omega)).trans ih.2⟩

/-- The hypotheses of `C81_undisturbed` are met: while the first parse is under way, another thread makes a pool. -/
example : ∃ s s' k, Procs.Runs Cfg.x86 50 (Procs.init 2 twoParses) s ∧ s.under 0 = some (⟨5, 0, false, 2, noDictSample⟩, k) ∧
    Procs.Step Cfg.x86 50 1 s s' ∧ s.mem.pools 1 = false ∧ s'.mem.pools 1 = true := by
  obtain ⟨s0, h1, h2, _⟩ := init_of sample_init.1
  exact ⟨_, _, _, .step (.step (.refl _)
    (.plain (t := 0) _ (.call (.newPool 0) 0) _ _ _ rfl rfl rfl))
    (.start (t := 0) _ ⟨5, 0, false, 2, noDictSample⟩ _ s0 rfl rfl h1 h2 (by decide)), rfl,
    .plain (t := 1) _ (.call (.newPool 1) 0) _ _ _ rfl rfl rfl, rfl, rfl⟩

/-- Those of `C81_at_once` by an empty content, which has no header. -/
example : ∃ s s', Procs.Runs Cfg.x86 50 (Procs.init 1 fun _ => [.coParse ⟨5, 0, false, 2, []⟩]) s ∧ Procs.Step Cfg.x86 50 0 s s' ∧
    s.under 0 = none ∧ s.todo 0 = [.coParse ⟨5, 0, false, 2, []⟩] ∧ s'.under 0 = none :=
  ⟨_, _, .refl _, .header (t := 0) _ ⟨5, 0, false, 2, []⟩ [] _ rfl rfl rfl, rfl, rfl, rfl⟩

/-- The hypotheses of `C81_finitely_many` and `C81_ends` are met by an infinite run of this process in which the first parse is under way for some
time. -/
example : ∃ (f : Nat → Procs) (who : Nat → Nat), f 0 = Procs.init 2 parsesAndOthers ∧
    (∀ i, Procs.Step Cfg.x86 50 (who i) (f i) (f (i + 1))) ∧ (∀ i, (∃ s', Procs.Step Cfg.x86 50 0 (f i) s') → ∃ j, i ≤ j ∧ who j = 0) ∧
    ∃ i, (f i).under 0 ≠ none := by
  obtain ⟨s0, h1, h2, _⟩ := init_of sample_init.1
  obtain ⟨s, hs, hu0, hu, ht0, ht, hp⟩ : ∃ s, Procs.Runs Cfg.x86 50 (Procs.init 2 parsesAndOthers) s ∧
      (∃ k, s.under 0 = some (⟨5, 0, false, 2, noDictSample⟩, k)) ∧ (∀ t, 2 ≤ t → s.under t = none) ∧ s.todo 0 = [] ∧
      (∀ t, 2 ≤ t → s.todo t = [.plain (.null 0)]) ∧ s.mem.pools 0 = true := by
    refine ⟨_, .step (.step (.refl _)
      (.plain (t := 0) _ (.call (.newPool 0) 0) _ _ _ rfl rfl rfl))
      (.start (t := 0) _ ⟨5, 0, false, 2, noDictSample⟩ _ s0 rfl rfl h1 h2 (by decide)), ⟨_, rfl⟩, fun t ht => ?_, rfl, fun t ht => ?_, rfl⟩
    · exact (upd_ne _ _ (by omega)).trans rfl
    · refine (upd_ne _ _ (by omega)).trans ((upd_ne _ _ (by omega)).trans ?_)
      show parsesAndOthers t = _
      unfold parsesAndOthers
      rw [if_neg (by omega)]
  obtain ⟨k, hu0⟩ := hu0
  obtain ⟨s', r, hs', h0', hoth, htodo, _, hpool⟩ := C81_can_finish _ _ _ _ parsesAndOthers_below s hs 0 _ k hu0
  obtain ⟨he, hok⟩ := C81_result _ _ _ _ parsesAndOthers_below s' hs' 0 _ r h0'
  have h : (parse Cfg.x86 ⟨true, false, 2⟩ 50 noDictSample).toOption.isSome = true := by decide +kernel
  cases r with
  | error e => rw [he e rfl] at h; cases h
  | ok x =>
    obtain ⟨off, root, q⟩ := x
    obtain ⟨o, _, g2⟩ := hok off root q rfl
    obtain ⟨m, g3, _⟩ := g2 ((hpool 0 (by decide)).trans hp)
    have hret := Procs.Step.returns (w := Cfg.x86) (fuel := 50) s' _ off root q m h0' g3
    generalize e2 : ({ s' with mem := m, local_ := upd s'.local_ 0 ((s'.local_ 0).say .done), under := upd s'.under 0 none } : Procs) = s2 at hret
    have hz : s2.under 0 = none ∧ s2.todo 0 = [] := by subst e2; exact ⟨rfl, (congrFun htodo 0).trans ht0⟩
    have ho := others_run (s := s2) (fun t h => by subst e2; exact (upd_ne _ _ (by omega)).trans ((hoth t (by omega)).trans (hu t h)))
      (fun t h => by subst e2; exact (congrFun htodo t).trans (ht t h)) Cfg.x86 50
    obtain ⟨f, who, N, e1, e3, e4⟩ := extend hs' (fun | 0 => s' | i + 1 => others s2 i) (fun | 0 => 0 | i + 1 => i + 2) rfl (fun i => by
      cases i with
      | zero => exact hret
      | succ i => exact ho i)
    refine ⟨f, who, e1, e3, fun i hi => ?_, N, by rw [show f N = s' from (e4 0).1, h0']; exact fun h => by cases h⟩
    by_cases hle : i ≤ N
    · exact ⟨N, hle, (e4 0).2⟩
    · obtain ⟨s3, h3⟩ := hi
      have e5 := (e4 (i - N)).1
      rw [show N + (i - N) = i by omega, show i - N = (i - N - 1) + 1 by omega] at e5
      have e6 : f i = others s2 (i - N - 1) := e5
      rw [e6] at h3
      have z1 := (others_zero s2 (i - N - 1)).1.trans hz.1
      have z2 := (others_zero s2 (i - N - 1)).2.trans hz.2
      cases h3 with
      | plain i is m l h1 h2 => rw [z2] at h2; cases h2
      | header c is e h1 h2 => rw [z2] at h2; cases h2
      | whole c is sc m l h1 h2 => rw [z2] at h2; cases h2
      | start c is sc h1 h2 => rw [z2] at h2; cases h2
      | access c k k' u m h1 => rw [z1] at h1; cases h1
      | returns c off root q m h1 => rw [z1] at h1; cases h1
      | throws c e h1 => rw [z1] at h1; cases h1

end Bridge.Heap
