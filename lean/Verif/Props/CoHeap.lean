import Verif.Props.HeapParse
import Verif.Props.Schedule
import Verif.Proof.CoAlike
import Verif.Proof.CoLater
/-
C71: the parallel `Parse` in memory, over every interleaving of its coroutines.
-/
set_option autoImplicit false
namespace Bridge.Heap
open Spec

/-- A parallel `Parse` of a split content is under way in a program whose memory was `m` when it was called: the memory is `m1` now,
`t1` is what is left to do, and `built` says whether the dictionary has been used, and so has its table. -/
structure During (w : Cfg) (fuel : Nat) (m : Mem) (c : CoCall) (s : Sched) (built : Bool) (m1 : Mem) (t1 : Prog (Nat × Ref × Nat)) : Prop where
  header : initFromContent w c.content = .ok s
  split : s.split = true
  steps : StepsD false m (Co.map w (View.whole c.content) s.sm s.si c.ref fuel metaSize) built m1 t1

theorem of_empty (m : Mem) : Of m Part.empty :=
  ⟨fun r q c => ⟨(fun e => by cases e), (fun e => absurd rfl e.2.2)⟩, (fun q b e => by cases e)⟩

theorem during_sound {w : Cfg} {fuel : Nat} {m m1 : Mem} {c : CoCall} {s : Sched} {b : Bool} {t1 : Prog (Nat × Ref × Nat)} (hw : WF m)
    (h : During w fuel m c s b m1 t1) : ∃ Q s1, WF m1 ∧ Of m1 s1 ∧ wp t1 s1 Q ∧ Frame m m1 Part.empty s1 := by
  have hruns := (co_runs (cfg := w) (v := View.whole c.content) (sm := s.sm) (si := s.si) (ref := c.ref) fuel).2.2.2 Part.empty metaSize
  exact ⟨_, steps_sound h.steps.steps _ _ hw (of_empty m) hruns⟩

theorem Reachable.wf {w : Cfg} {m : Mem} (h : Reachable w m) : (∃ L, Inv m L) ∧ WF m := by
  obtain ⟨fuel, cs, h⟩ := h
  obtain ⟨L, hi, hw, _⟩ := sim_acts h inv_init wf_init
  exact ⟨⟨L, hi⟩, hw⟩

/-- C71. Whatever the content and the interleaving, no coroutine is ever about to follow a null or dangling pointer or to allocate from a
pool that has ended. -/
theorem C71_no_fault (w : Cfg) (fuel : Nat) (m : Mem) (h : Reachable w m) (c : CoCall) (s : Sched) (b : Bool) (m1 : Mem) (t1 : Prog (Nat × Ref × Nat))
    (hd : During w fuel m c s b m1 t1) : ¬ Faulty m1 t1 := by
  obtain ⟨Q, s1, _, ho, hq, _⟩ := during_sound h.wf.2 hd
  exact fun hf => not_faulty hf s1 Q ho hq

/-- C71. The only thing on which two coroutines can ever race is the dictionary of the content. -/
theorem C71_no_race (w : Cfg) (fuel : Nat) (m : Mem) (h : Reachable w m) (c : CoCall) (s : Sched) (b : Bool) (m1 : Mem)
    (t1 : Prog (Nat × Ref × Nat)) (hd : During w fuel m c s b m1 t1) (a : Access) (hr : DataRace b t1 a) : a = .dictionary := by
  obtain ⟨Q, s1, _, ho, hq, _⟩ := during_sound h.wf.2 hd
  exact no_race hr.1 s1 Q ho.closed hq

/-- C71. A content without a dictionary is parsed without data races. -/
theorem C71_no_race_without_dictionary (w : Cfg) (fuel : Nat) (m : Mem) (h : Reachable w m) (c : CoCall) (s : Sched) (b : Bool) (m1 : Mem)
    (t1 : Prog (Nat × Ref × Nat)) (hd : During w fuel m c s b m1 t1) (hs : s.sm = none) (a : Access) : ¬ DataRace b t1 a := by
  intro hr
  refine noDict_race hr.1 (noDict_steps hd.steps.steps ?_) (C71_no_race w fuel m h c s b m1 t1 hd a hr)
  rw [hs]
  exact (Co.block_noDict w (View.whole c.content) s.si c.ref fuel).2.2.2 metaSize

theorem step_true_uses {α : Type} {u : Bool} {m m' : Mem} {t t' : Prog α} (h : Step u m t m' t') : u = true → Touches t .dictionary ∧ m' = m := by
  induction h with
  | dict m k => exact fun _ => ⟨.dict k, rfl⟩
  | one m m' n ts k i t u hi _ ih => exact fun h => ⟨.one n ts k i _ hi (ih h).1, (ih h).2⟩
  | _ => exact fun h => nomatch h

theorem stepsD_noDict {α : Type} {b b' : Bool} {m m' : Mem} {t t' : Prog α} (h : StepsD b m t b' m' t') : NoDict t → b' = b := by
  induction h with
  | refl => exact fun _ => rfl
  | step h1 _ ih => exact fun h => by rw [ih (noDict_step h1 h), h1.label h, Bool.or_false]

/-- C71. What can settle the matter is only a use of the dictionary: the access after which its table counts as built is one that some coroutine
was about to make of the dictionary, and it changes nothing else; a content without a dictionary has none. -/
theorem C71_table_built_by_use (w : Cfg) (fuel : Nat) (m : Mem) (c : CoCall) (s : Sched) (b : Bool) (m1 : Mem)
    (t1 : Prog (Nat × Ref × Nat)) (hd : During w fuel m c s b m1 t1) :
    (∀ m2 t2, Step true m1 t1 m2 t2 → Touches t1 .dictionary ∧ m2 = m1) ∧ (s.sm = none → b = false) := by
  refine ⟨fun m2 t2 h => step_true_uses h rfl, fun hs => ?_⟩
  refine stepsD_noDict hd.steps ?_
  rw [hs]
  exact (Co.block_noDict w (View.whole c.content) s.si c.ref fuel).2.2.2 metaSize

/-- C71. And those uses are the only way in which the strings of the dictionary can matter: whatever the coroutines have done without one they
could have done with any other dictionary in its place, with the same memory, the same next accesses and the same result. -/
theorem C71_dictionary_read_by_use (w : Cfg) (fuel : Nat) (m : Mem) (c : CoCall) (s : Sched) (m1 : Mem) (t1 : Prog (Nat × Ref × Nat))
    (hd : During w fuel m c s false m1 t1) (strings : StringMap) (hs : s.sm = some strings) (other : StringMap) :
    ∃ t2, StepsD false m (Co.map w (View.whole c.content) (some other) s.si c.ref fuel metaSize) false m1 t2 ∧
      (∀ a, Touches t1 a ↔ Touches t2 a) ∧ ∀ r, t1 = .ret r ↔ t2 = .ret r := by
  have h := hd.steps
  rw [hs] at h
  obtain ⟨t2, e1, e2⟩ := Alike.stepsD h rfl ((Co.block_alike w (View.whole c.content) strings other s.si c.ref fuel).2.2.2 metaSize)
  exact ⟨t2, e1, fun a => ⟨fun ht => Alike.touches ht e2, fun ht => Alike.touches ht e2.symm⟩,
    fun r => ⟨fun h => e2.of_ret h, fun h => e2.symm.of_ret h⟩⟩

/-- C71. Without data races is also every content whose root map has at most one block: the first key of that block builds the table of the dictionary while
no other coroutine exists. -/
theorem C71_no_race_one_block (w : Cfg) (fuel : Nat) (m : Mem) (h : Reachable w m) (c : CoCall) (s : Sched) (b : Bool) (m1 : Mem)
    (t1 : Prog (Nat × Ref × Nat)) (hd : During w fuel m c s b m1 t1)
    (hone : ∀ bs, BlocksAt w (View.whole c.content) s.si metaSize bs → bs.length ≤ 1) (a : Access) : ¬ DataRace b t1 a := by
  intro hr
  have ha := C71_no_race w fuel m h c s b m1 t1 hd a hr
  rcases solo_steps hd.steps (map_solo hone fuel) with hb | hs
  · rw [hr.2 ha] at hb; cases hb
  · exact solo_race hr.1 hs ha

theorem boundsP_of {w : Cfg} {v : View} {si : SplitInfo} {os : Nat} {bs : List (Nat × Nat)} (h : BlocksAt w v si os bs) :
    ∃ e, boundsP w v si os = .ok (bs, e) := by
  obtain ⟨n, c, id, c', blocks, h1, h2, h3, rfl⟩ := h
  refine ⟨(blockBounds c'.idx blocks).2, ?_⟩
  unfold boundsP
  rw [h1, ok_bind]
  dsimp only
  rw [h2, ok_bind]
  dsimp only
  rw [h3, ok_bind]
  exact pure_eq_ok _

/-- C71. And so is every content that `Serialize` has written, with or without a dictionary. -/
theorem C71_no_race_written (w : Cfg) (hw : w.charSigned = true) (t : SeriType) (o : Obj) (d : Doc) (hd : o.doc? = some d) (hh : Writable w o)
    (r : Cfg) (fuel : Nat) (m : Mem) (h : Reachable r m) (c : CoCall) (hc : serialize w t o = .ok c.content) (hf : Fits r c.content) (s : Sched)
    (b : Bool) (m1 : Mem) (t1 : Prog (Nat × Ref × Nat)) (hdur : During r fuel m c s b m1 t1) (a : Access) : ¬ DataRace b t1 a := by
  refine C71_no_race_one_block r fuel m h c s b m1 t1 hdur (fun bs hbs => ?_) a
  rw [serialize_eq hw t hd hh] at hc
  have hc := Except.ok.inj hc
  have hs := hdur.header
  rw [← hc] at hf hbs hs
  have hf' : Fits r (contentOf w t d ++ []) := by simpa using hf
  have hco := hf'.contentOk
  obtain ⟨s0, i1, -, -, i4, -, -⟩ := init_eq [] hco.size hco.lt
  rw [List.append_nil, hs] at i1
  cases i1
  obtain ⟨s', bs', e, j1, -, -, -, jb, jl⟩ := root_one_block hco (by rw [← i4, hdur.split])
  rw [List.append_nil] at j1 jb
  rw [hs] at j1
  cases j1
  obtain ⟨e', he⟩ := boundsP_of hbs
  rw [jb] at he
  cases he
  exact jl

/-- C71. Everything that the coroutines touch is new: the objects, the items and the pools of the program are neither read nor written, and
their contents stay what they were.  (So a program that runs its `Parse` in one thread may go on using its own objects in another.) -/
theorem C71_rest_untouched (w : Cfg) (fuel : Nat) (m : Mem) (h : Reachable w m) (c : CoCall) (s : Sched) (b : Bool) (m1 : Mem) (t1 : Prog (Nat × Ref × Nat))
    (hd : During w fuel m c s b m1 t1) :
    (∀ a, ObjPtr m a → SameReads m m1 a) ∧ m1.vars = m.vars ∧ (∀ p, m.pools p = true → m1.pools p = true) ∧
    (∀ r, Touches t1 (.read r) ∨ Touches t1 (.write r) → m.cells r = none) ∧ (∀ q, Touches t1 (.pool q) → m.pools q = false) := by
  obtain ⟨⟨L, hi⟩, hw⟩ := h.wf
  obtain ⟨Q, s1, hw1, ho, hq, hf⟩ := during_sound hw hd
  have hnew : ∀ q, s1.pools q ≠ none → m.nextPool ≤ q := fun q hq => (hf.newTok q hq).resolve_left (fun h => h rfl)
  have hold : ∀ r : Nat, r < m.top → m1.cells r = m.cells r ∧ m1.owner r = m.owner r := fun r hr => by
    rcases hf.cell r with h | ⟨_, h | ⟨q, _, h⟩⟩
    · exact h
    · exact absurd hr (Nat.not_lt.2 h)
    · exact absurd rfl h
  have htouch : ∀ a, Touches t1 a → a.In s1 := fun a ha => touches_in ha s1 Q ho.closed hq
  have hcell : ∀ r, s1.cells r ≠ none → m.cells r = none := by
    intro r hr
    cases e : s1.cells r with
    | none => rw [e] at hr; exact absurd rfl hr
    | some x =>
      obtain ⟨q, c⟩ := x
      obtain ⟨h1, h2, h3⟩ := (ho.cells r q c).1 e
      rcases Nat.lt_or_ge r m.top with hr' | hr'
      · have := (hold r hr').2
        rw [h1] at this
        exact absurd (hw.owner r q this.symm) (Nat.not_lt.2 (hnew q h3))
      · exact hw.fresh r hr'
  refine ⟨fun a ha => sameReads_of fun c hc => ?_, hf.vars, fun p hp => ?_, fun r hr => ?_, fun q hq => ?_⟩
  · obtain ⟨h1, h2⟩ := hold c (reaches_made hi ha hc)
    simp only [Mem.load, h1, h2]
  · rw [(hf.pool p _).1]; exact hp
    cases e : s1.pools p with
    | none => rfl
    | some b => exact absurd (hw.pools p hp) (Nat.not_lt.2 (hnew p (by rw [e]; simp)))
  · rcases hr with hr | hr
    · exact hcell r (htouch _ hr)
    · exact hcell r (htouch _ hr)
  · have : m.nextPool ≤ q := hnew q (htouch _ hq)
    cases e : m.pools q with
    | false => rfl
    | true => exact absurd (hw.pools q e) (Nat.not_lt.2 this)

/-- C71. Every interleaving ends: there is no infinite one, and as long as the call is not finished some coroutine can go on. -/
theorem C71_every_run_ends (w : Cfg) (fuel : Nat) (m : Mem) (h : Reachable w m) (c : CoCall) (s : Sched) (b : Bool) (m1 : Mem) (t1 : Prog (Nat × Ref × Nat))
    (hd : During w fuel m c s b m1 t1) :
    ((∃ r, t1 = .ret r) ∨ ∃ u m2 t2, Step u m1 t1 m2 t2 ∧ During w fuel m c s (b || u) m2 t2) ∧
    ¬ ∃ f : Nat → Mem × Prog (Nat × Ref × Nat), f 0 = (m1, t1) ∧ ∀ i, ∃ u, Step u (f i).1 (f i).2 (f (i + 1)).1 (f (i + 1)).2 := by
  refine ⟨?_, fun ⟨f, _, hf⟩ => no_infinite_run f hf⟩
  rcases progress t1 m1 with h1 | h1 | ⟨u, m2, t2, h1⟩
  · exact .inl h1
  · exact absurd h1 (C71_no_fault w fuel m h c s b m1 t1 hd)
  · exact .inr ⟨u, m2, t2, h1, hd.header, hd.split, hd.steps.trans (.step h1 (.refl _ _ _))⟩

/-- There is a way for the coroutines to finish. -/
theorem coMap_finishes {w : Cfg} {fuel : Nat} {m : Mem} (hw : WF m) {c : CoCall} {s : Sched} (hs : initFromContent w c.content = .ok s)
    (hsp : s.split = true) : ∃ m1 r, Steps m (Co.map w (View.whole c.content) s.sm s.si c.ref fuel metaSize) m1 (.ret r) := by
  rcases run_ends (Co.map w (View.whole c.content) s.sm s.si c.ref fuel metaSize) m with h1 | ⟨m1, t1, h1, h2⟩
  · exact h1
  · obtain ⟨b, h1⟩ := h1.flag false
    obtain ⟨Q, s1, _, ho, hq, _⟩ := during_sound hw ⟨hs, hsp, h1⟩
    exact (not_faulty h2 s1 Q ho hq).elim

/-- A call of a parallel parse has some outcome. -/
theorem coParse_some {w : Cfg} {fuel : Nat} {m : Mem} (hw : WF m) (c : CoCall) (hk : c.workers ≠ 0) : ∃ r, CoParse w fuel m c r := by
  cases hs : initFromContent w c.content with
  | error e => exact ⟨_, .header e hs⟩
  | ok s =>
    cases hsp : s.split with
    | false => exact ⟨_, .whole s hs hsp⟩
    | true =>
      obtain ⟨m1, r, h1⟩ := coMap_finishes (fuel := fuel) hw hs hsp
      cases r with
      | error e => exact ⟨_, .fails s m1 e hs hsp hk h1⟩
      | ok x => obtain ⟨off, root, q⟩ := x; exact ⟨_, .returns s m1 off root q hs hsp hk h1⟩

/-- C71. If the model of the other properties says that the parallel `Parse` returns `o`, then in any state of a program every interleaving
ends with the memory in which `o` has been built, and nothing else has changed. -/
theorem C71_same_result (w : Cfg) (m : Mem) (h : Reachable w m) (c : CoCall) (hp : m.pools c.p = true) (o : Obj)
    (ho : Parses w ⟨true, c.ref, c.workers⟩ c.content (.ok o)) (s : Sched) (hs : initFromContent w c.content = .ok s) (hsp : s.split = true) :
    ∃ N, ∀ fuel, N ≤ fuel → (∃ r, CoParse w fuel m c r) ∧ ∀ r, CoParse w fuel m c r → ∃ m', r = .ok m' ∧
      (m'.top < 2 ^ 64 → HasParsed m m' c.d c.p (fun q => m'.pools q = false ∧ m'.frames q = true) o) := by
  obtain ⟨⟨L, hi⟩, hw⟩ := h.wf
  obtain ⟨_, N, hN⟩ := ho
  have hk : c.workers ≠ 0 := by
    intro hk
    have h1 := hN N (Nat.le_refl _)
    unfold Bridge.parse coroutineParse at h1
    simp only [hs, ok_bind, hsp, if_true, Bool.true_eq_false, if_false, hk] at h1
    cases h1
  refine ⟨N, fun fuel hf => ⟨coParse_some hw c hk, fun r hr => ?_⟩⟩
  have hpar := hN fuel hf
  have hnoerr : ∀ e, r ≠ .error e := by
    rintro e rfl
    have := coParse_error hi hw hr hp
    rw [hpar] at this
    cases this
  cases hr with
  | header e hh => exact absurd rfl (hnoerr e)
  | fails s m1 e _ _ _ _ => exact absurd rfl (hnoerr e)
  | whole s' h1 h2 => rw [hs] at h1; cases h1; rw [hsp] at h2; cases h2
  | returns s' m1 off root q h1 h2 h3 h4 =>
    rw [parse_split h1 h2 c.ref h3 fuel] at hpar
    have hb := receive_spec hw h4
    generalize coMap w (View.whole c.content) s'.sm s'.si c.ref fuel metaSize = x at hb hpar
    cases hb with
    | @ok a b hab =>
      cases hpar
      obtain ⟨_, _, hpools, hall⟩ := hab
      obtain ⟨m2, mr, g1, g2, g3, g4⟩ := hall c.d c.p hp
      refine ⟨m2, g1, fun ht => hasParsed_of (g4 (by rw [← g2]; exact ht)) hi⟩

/-- C71. And if that model says that it fails, every interleaving fails in the same way. -/
theorem C71_same_failure (w : Cfg) (m : Mem) (h : Reachable w m) (c : CoCall) (hk : c.workers ≠ 0) (hp : m.pools c.p = true) :
    (∀ e, Parses w ⟨true, c.ref, c.workers⟩ c.content (.error e) → ∃ N, ∀ fuel, N ≤ fuel → ∀ r, CoParse w fuel m c r ↔ r = .error e) ∧
    (Diverges w ⟨true, c.ref, c.workers⟩ c.content → ∀ fuel r, CoParse w fuel m c r ↔ r = .error .fuel) := by
  obtain ⟨⟨L, hi⟩, hw⟩ := h.wf
  have key : ∀ fuel e, Bridge.parse w ⟨true, c.ref, c.workers⟩ fuel c.content = .error e → ∀ r, CoParse w fuel m c r ↔ r = .error e := by
    intro fuel e he r
    have one : ∀ r, CoParse w fuel m c r → r = .error e := by
      intro r hr
      cases r with
      | error e' => have := coParse_error hi hw hr hp; rw [he] at this; cases this; rfl
      | ok m' =>
        generalize hr' : (Except.ok m' : Res Mem) = r at hr
        cases hr with
        | header e hh => cases hr'
        | fails => cases hr'
        | whole s h1 h2 =>
          rw [parse_whole h1 h2 c.ref c.workers 1 fuel] at he
          have hb := parse_both (cfg := w) (fun i hj => hi.fresh i hj) hp fuel c.d c.ref 1 c.content
          rw [he, ← hr'] at hb
          cases hb
        | returns s m1 off root q h1 h2 h3 h4 =>
          rw [parse_split h1 h2 c.ref h3 fuel] at he
          have hb := receive_spec hw h4
          generalize coMap w (View.whole c.content) s.sm s.si c.ref fuel metaSize = x at hb he
          cases hb with
          | ok hab => cases he
    refine ⟨one r, fun hr => ?_⟩
    obtain ⟨r', hr'⟩ := coParse_some (fuel := fuel) hw c hk
    rw [hr, ← one r' hr']
    exact hr'
  exact ⟨fun e ⟨_, N, hN⟩ => ⟨N, fun fuel hf => key fuel e (hN fuel hf)⟩, fun hd fuel => key fuel _ (hd fuel)⟩

/-- C71. A content that is not split is given to the recursive parser (C70). -/
theorem C71_not_split (w : Cfg) (fuel : Nat) (m : Mem) (c : CoCall) (s : Sched) (hs : initFromContent w c.content = .ok s) (hsp : s.split = false)
    (r : Res Mem) : CoParse w fuel m c r ↔ r = m.parse w fuel c.d c.p c.ref c.content := by
  refine ⟨fun h => ?_, fun h => h ▸ .whole s hs hsp⟩
  cases h with
  | header e h1 => rw [hs] at h1; cases h1
  | whole s' h1 h2 => rfl
  | fails s' m1 e h1 h2 => rw [hs] at h1; cases h1; rw [hsp] at h2; cases h2
  | returns s' m1 off root q h1 h2 => rw [hs] at h1; cases h1; rw [hsp] at h2; cases h2

/-- C71. Without workers a parallel `Parse` of a split content never returns and never throws. -/
theorem C71_no_workers (w : Cfg) (fuel : Nat) (m : Mem) (c : CoCall) (s : Sched) (hs : initFromContent w c.content = .ok s) (hsp : s.split = true)
    (hk : c.workers = 0) (r : Res Mem) : ¬ CoParse w fuel m c r := by
  intro h
  cases h with
  | header e h1 => rw [hs] at h1; cases h1
  | whole s' h1 h2 => rw [hs] at h1; cases h1; rw [hsp] at h2; cases h2
  | fails s' m1 e h1 h2 h3 => exact h3 hk
  | returns s' m1 off root q h1 h2 h3 => exact h3 hk

/-- C71. The caller needs the pool to be alive. -/
theorem C71_needs_pool (w : Cfg) (fuel : Nat) (m : Mem) (h : Reachable w m) (c : CoCall) (hp : m.pools c.p = false) (m' : Mem)
    (ht : m'.top < 2 ^ 64) : ¬ CoParse w fuel m c (.ok m') := by
  obtain ⟨⟨L, hi⟩, hw⟩ := h.wf
  intro hr
  have := (coParse_ok hi hw hr ht).1
  rw [hp] at this
  cases this

/-- C71. No container of a tree that was parsed in parallel can be inserted into: its pool was the variable of a coroutine, which has
ended.  That stays so whatever the program does next. -/
theorem C71_insert_is_ub (w : Cfg) (m : Mem) (h : Reachable w m) (fuel : Nat) (c : CoCall) (s : Sched) (hs : initFromContent w c.content = .ok s)
    (hsp : s.split = true) (m' : Mem) (hr : CoParse w fuel m c (.ok m')) (ht : m'.top < 2 ^ 64) (r : Ref) (hreach : Reaches m' (m'.vars c.d) r)
    (k : Kind) (q : Nat) (hd : Option Ref) (n : Nat) (hc : m'.cells r = some (.cont k q hd n)) (f : Nat) (acts : List Act) (m2 : Mem)
    (hrun : Run w f m' acts m2) :
    (k = .array → ∀ x, ∃ u, m2.exec w f (.insert (some r) x) = .error (.ub u)) ∧
    (k ≠ .array → ∀ key x, ∃ u, m2.exec w f (.insertKey (some r) key x) = .error (.ub u)) := by
  obtain ⟨⟨L, hi⟩, hw⟩ := h.wf
  have hw' := (coParse_ok hi hw hr ht).2.1
  have hD : (∃ L', Inv m' L') ∧ m'.frames q = true ∧ m'.pools q = false := by
    generalize hr' : (Except.ok m' : Res Mem) = r at hr
    cases hr with
    | header e hh => cases hr'
    | fails => cases hr'
    | whole s' h1 h2 => rw [hs] at h1; cases h1; rw [hsp] at h2; cases h2
    | returns s' m1 off root q' h1 h2 h3 h4 =>
      have hb := receive_spec hw h4
      generalize coMap w (View.whole c.content) s'.sm s'.si c.ref fuel metaSize = x at hb
      cases hb with
      | @ok a b hab =>
        obtain ⟨_, _, hpools, hall⟩ := hab
        cases hp : m.pools c.p with
        | false =>
          unfold Mem.receive at hr'
          rw [if_neg (fun h => by rw [hpools, hp] at h; cases h.1)] at hr'
          cases hr'
        | true =>
          obtain ⟨m2, mr, g1, g2, g3, g4⟩ := hall c.d c.p hp
          dsimp only at g1
          rw [g1] at hr'
          cases hr'
          have hP := g4 (by rw [← g2]; exact ht)
          obtain ⟨L2, _, hi', _⟩ := hP.inv hi
          have := ((hasParsed_of hP hi).inPool r hreach).2.2 k q hd n hc
          exact ⟨⟨_, hi'⟩, this.2, this.1⟩
  obtain ⟨⟨L', hi'⟩, hfr, hdead⟩ := hD
  have hl := later_run hrun hi' hw'
  obtain ⟨hd2, n2, hc2⟩ := hl.cont r k q hd n hc
  have hq2 := (hl.dead q hfr hdead).2
  cases hload : m2.load (some r) with
  | ok x =>
    have hx : x = (r, .cont k q hd2 n2) := by
      simp only [Mem.load, hc2] at hload
      cases ho : m2.owner r with
      | none => rw [ho] at hload; cases hload
      | some p => rw [ho] at hload; cases hload; rfl
    rw [hx] at hload
    obtain ⟨g1, g2⟩ := C69_insert_needs_its_pool w f m2 r k q hd2 n2 hload hq2
    exact ⟨fun hk x => ⟨_, g1 hk x⟩, fun hk key x => ⟨_, g2 hk key x⟩⟩
  | error e =>
    obtain ⟨u, rfl⟩ : ∃ u, e = .ub u := by
      simp only [Mem.load, hc2] at hload
      cases ho : m2.owner r with
      | none => rw [ho] at hload; cases hload; exact ⟨_, rfl⟩
      | some p => rw [ho] at hload; cases hload
    refine ⟨fun hk x => ⟨u, ?_⟩, fun hk key x => ⟨u, ?_⟩⟩
    · simp only [Mem.exec, Mem.arrayInsert, Mem.loadCont, hload, error_bind]
    · simp only [Mem.exec, Mem.mapInsert, Mem.mapPut, Mem.loadCont, hload, error_bind]

/-- Split or not, the document that a parallel `Parse` of `content` gives is built in memory. -/
theorem coParse_builds {w : Cfg} {m : Mem} {L : Ref → List Ref} (hi : Inv m L) (hw : WF m) {c : CoCall} (hk : c.workers ≠ 0) (hp : m.pools c.p = true) {o : Obj}
    (ho : Parses w ⟨true, c.ref, c.workers⟩ c.content (.ok o)) :
    ∃ N, ∀ fuel, N ≤ fuel → (∃ r, CoParse w fuel m c r) ∧ ∀ r, CoParse w fuel m c r → ∃ m', r = .ok m' ∧
      (m'.top < 2 ^ 64 → ∃ D, HasParsed m m' c.d c.p D o) := by
  obtain ⟨_, N, hN⟩ := ho
  refine ⟨N, fun fuel hf => ⟨coParse_some hw c hk, fun r hr => ?_⟩⟩
  cases r with
  | error e =>
    have := coParse_error hi hw hr hp
    rw [hN fuel hf] at this
    cases this
  | ok m' =>
    refine ⟨m', rfl, fun ht => ?_⟩
    obtain ⟨_, _, o', h1, D, f, mr, root, hP, _⟩ := coParse_ok hi hw hr ht
    rw [hN fuel hf] at h1
    cases h1
    exact ⟨D, hasParsed_of hP hi⟩

/-- C71. A program writes an object that it owns and reads it back with the parallel parser: whatever the interleaving, it owns the same
document again (up to the order of the entries of maps and of equal keys, `Same`). -/
theorem C71_write_and_read (w : Cfg) (hw : w.charSigned = true) (hn : w.hardened = false) (fuel : Nat) (cs : List Act) (m : Mem)
    (h : Run w fuel {} cs m) (hf : ∀ c ∈ cs, c.frees = false) (ht : m.top < 2 ^ 64) :
    ∃ s : Store, Store.Steps {} (cs.map (Act.op w fuel)) s ∧ ∀ x doc, s.Unfolds (s.var x) doc → ∀ t p q d ref k, 0 < k → m.pools p = true →
      m.pools q = true → (ref = true → doc.noCustom = true) →
      ∃ content m1, (∃ N, ∀ f, N ≤ f → m.serialize w f t p x = .ok content ∧ m.exec w f (.serialize t p x) = .ok m1) ∧ (Fits w content →
        ∃ o d' N, o.doc? = some d' ∧ doc.Same d' ∧ ∀ f, N ≤ f → (∃ r, CoParse w f m1 ⟨d, q, ref, k, content⟩ r) ∧
          ∀ r, CoParse w f m1 ⟨d, q, ref, k, content⟩ r → ∃ m2, r = .ok m2 ∧ (m2.top < 2 ^ 64 → ∃ D, HasParsed m1 m2 d q D o)) := by
  obtain ⟨L, hi, hwf, hs⟩ := sim_acts h inv_init wf_init
  refine ⟨abs m L, hs, fun x doc hu t p q d ref k hk hp hq hc => ?_⟩
  change Store.Unfolds (abs m L) (m.vars x) doc at hu
  cases hx : m.vars x with
  | none => rw [hx] at hu; cases hu
  | some r =>
    rw [hx] at hu
    obtain ⟨o, ho⟩ := tree_of_var_live hi (live_acts h inv_init wf_init live_init hf) hx
    have hd := doc_of_unfolds hi ht hu o ho
    obtain ⟨N, hN⟩ := serialize_shows hi w t (x := x) hp (by rw [hx]; exact ho)
    have he := serialize_eq hw t hd (hard_of_unhardened hn o)
    have hser := fun f (hf : N ≤ f) => (hN f hf).trans he
    obtain ⟨m1, hm1⟩ : ∃ m1, ∀ f, N ≤ f → m.exec w f (.serialize t p x) = .ok m1 := by
      have h0 := hser N (Nat.le_refl _)
      unfold Mem.serialize at h0
      obtain ⟨⟨m1, node⟩, k1, k2⟩ := bind_ok h0
      refine ⟨m1, fun f hf => ?_⟩
      have h1 := hser f hf
      unfold Mem.serialize at h1
      rw [k1, ok_bind] at h1
      dsimp only at h1
      simp only [Mem.exec]
      rw [k1, ok_bind]
      simp only [h1]
      rfl
    refine ⟨contentOf w t doc, m1, ⟨N, fun f hf => ⟨hser f hf, hm1 f hf⟩⟩, fun hfit => ?_⟩
    obtain ⟨o', d', g1, g2, g3, _⟩ := parses_co (extra := []) (by simpa using hfit) ref hc hk
    have g1 : Parses w ⟨true, ref, k⟩ (contentOf w t doc) (.ok o') := by simpa using g1
    obtain ⟨L1, hi1, _⟩ := sim_exec hi (hm1 N (Nat.le_refl _))
    have hw1 := (wf_exec hi hwf (hm1 N (Nat.le_refl _))).1
    have hq1 : m1.pools q = true := by obtain ⟨_, e⟩ := serialize_call (hm1 N (Nat.le_refl _)); rw [e]; exact hq
    obtain ⟨N', hN'⟩ := coParse_builds hi1 hw1 (c := ⟨d, q, ref, k, contentOf w t doc⟩) (by dsimp only; omega) hq1 g1
    exact ⟨o', d', N', g2, g3, hN'⟩

/-- C71. The race on the dictionary does happen: if the root map of a content with a dictionary has two blocks that are not empty and
whose first lengths can be read, there is an interleaving after which two coroutines are both about to use the dictionary, whose table has
not been built.  (`Serialize` does not write such contents: C71_no_race_written.) -/
theorem C71_dictionary_race (w : Cfg) (fuel : Nat) (hf : 2 ≤ fuel) (m : Mem) (c : CoCall) (s : Sched) (hs : initFromContent w c.content = .ok s)
    (hsp : s.split = true) (hsm : s.sm.isSome = true) (bs : List (Nat × Nat)) (hbs : BlocksAt w (View.whole c.content) s.si metaSize bs)
    (i j : Nat) (hij : i ≠ j) (x y : Nat × Nat) (hx : bs[i]? = some x) (hy : bs[j]? = some y) (hxe : x.1 < x.2) (hye : y.1 < y.2)
    (lx ly : Nat × Cur) (hlx : parseLength w (View.whole c.content) ⟨addW 0 x.1, x.1⟩ = .ok lx)
    (hly : parseLength w (View.whole c.content) ⟨addW 0 y.1, y.1⟩ = .ok ly) :
    ∃ m1 t1, During w fuel m c s false m1 t1 ∧ DataRace false t1 .dictionary := by
  obtain ⟨f, rfl⟩ : ∃ f, fuel = f + 2 := ⟨fuel - 2, by omega⟩
  obtain ⟨sm, hsm⟩ := Option.isSome_iff_exists.1 hsm
  obtain ⟨m1, t1, h1, h2⟩ := map_race (sm := sm) (ref := c.ref) (f := f) hbs hij hx hy hxe hye hlx hly m
  rw [← hsm] at h1
  exact ⟨m1, t1, ⟨hs, hsp, h1⟩, h2, fun _ => rfl⟩

/-! ### Examples -/

/-- The sample with a dictionary, split into blocks of ten bytes. -/
def dictSample : Bytes :=
  [0, 0, 0, 0, 0, 0, 0, 37, 1, 10, 1, 1, 0, 129, 2, 2, 1, 130, 2, 3, 0, 1, 2, 0, 2, 4, 0, 0, 0, 7, 3, 0, 0, 3, 1, 2, 3,
   17, 4, 4, 114, 111, 111, 116, 0, 1, 107, 1, 2, 104, 105, 2, 1, 122, 3, 11, 3, 3, 1, 10, 2, 2, 14, 7, 1, 1, 25]

example : (serialize { Cfg.x86 with blockSize := 10 } .replace sampleObj).toOption = some dictSample := by decide +kernel

/-- The sample without one. -/
def noDictSample : Bytes :=
  [0, 0, 0, 0, 0, 0, 0, 45, 0, 10, 1, 1, 4, 114, 111, 111, 116, 129, 2, 2, 1, 107, 130, 2, 3, 0, 1, 2, 104, 105, 0, 2, 4,
   0, 0, 0, 7, 1, 122, 0, 0, 3, 1, 2, 3, 11, 3, 3, 1, 12, 2, 2, 17, 8, 1, 1, 33]

example : (serialize { Cfg.x86 with blockSize := 10 } .normal sampleObj).toOption = some noDictSample := by decide +kernel

/-- A program that has two pools and an object in one of them. -/
def beforeCo : List Call := [.newPool 0, .newPool 1, .cont 3 0 .array]

theorem beforeCo_run : ∃ m, Reachable Cfg.x86 m ∧ m.pools 1 = true ∧ m.top = 1 ∧ m.vars 3 = some 0 :=
  ⟨_, ⟨20, _, run_calls (cs := beforeCo) rfl⟩, rfl, rfl, rfl⟩

/-- The call that the examples make. -/
def coCall (content : Bytes) : CoCall := ⟨5, 1, false, 2, content⟩

theorem sample_init : (initFromContent Cfg.x86 noDictSample).toOption.map (fun s => (s.split, s.sm.isSome)) = some (true, false) ∧
    (initFromContent Cfg.x86 dictSample).toOption.map (fun s => (s.split, s.sm.isSome)) = some (true, true) := by decide +kernel

theorem init_of {content : Bytes} {a b : Bool} (h : (initFromContent Cfg.x86 content).toOption.map (fun s => (s.split, s.sm.isSome)) = some (a, b)) :
    ∃ s, initFromContent Cfg.x86 content = .ok s ∧ s.split = a ∧ s.sm.isSome = b := by
  cases e : initFromContent Cfg.x86 content with
  | error x => rw [e] at h; cases h
  | ok s => rw [e] at h; cases h; exact ⟨s, rfl, rfl, rfl⟩

/-- The hypotheses of `C71_no_fault`, `C71_no_race`, `C71_rest_untouched`, `C71_every_run_ends` and `C71_no_race_without_dictionary` are met, at
the beginning and at the end of the call. -/
example : ∃ m s b m1 r, Reachable Cfg.x86 m ∧ s.sm = none ∧
    During Cfg.x86 50 m (coCall noDictSample) s false m (Co.map Cfg.x86 (View.whole noDictSample) s.sm s.si false 50 metaSize) ∧
    During Cfg.x86 50 m (coCall noDictSample) s b m1 (.ret r) := by
  obtain ⟨m, hm, _⟩ := beforeCo_run
  obtain ⟨s, h1, h2, h3⟩ := init_of sample_init.1
  obtain ⟨m1, r, hr⟩ := coMap_finishes (fuel := 50) (c := coCall noDictSample) hm.wf.2 h1 h2
  obtain ⟨b, hr⟩ := hr.flag false
  refine ⟨m, s, b, m1, r, hm, ?_, ⟨h1, h2, .refl _ _ _⟩, ⟨h1, h2, hr⟩⟩
  cases e : s.sm with
  | none => rfl
  | some x => rw [e] at h3; cases h3

/-- The hypotheses of `C71_no_race_written`, and with them those of `C71_no_race_one_block`, are met by the sample with a dictionary. -/
example : ∃ m s b m1 r, Reachable Cfg.x86 m ∧ s.sm.isSome = true ∧ During Cfg.x86 50 m (coCall dictSample) s b m1 (.ret r) ∧
    Fits Cfg.x86 dictSample := by
  obtain ⟨m, hm, _⟩ := beforeCo_run
  obtain ⟨s, h1, h2, h3⟩ := init_of sample_init.2
  obtain ⟨m1, r, hr⟩ := coMap_finishes (fuel := 50) (c := coCall dictSample) hm.wf.2 h1 h2
  obtain ⟨b, hr⟩ := hr.flag false
  exact ⟨m, s, b, m1, r, hm, h3, ⟨h1, h2, hr⟩, by decide +kernel, by decide +kernel, by decide +kernel⟩

/-- The hypotheses of `C71_same_result` are met, and so its conclusion: every interleaving builds the sample. -/
example : ∃ m o, Reachable Cfg.x86 m ∧ m.pools 1 = true ∧ Parses Cfg.x86 ⟨true, false, 2⟩ noDictSample (.ok o) ∧ ∃ N, ∀ fuel, N ≤ fuel →
    (∃ r, CoParse Cfg.x86 fuel m (coCall noDictSample) r) ∧ ∀ r, CoParse Cfg.x86 fuel m (coCall noDictSample) r → ∃ m', r = .ok m' ∧
      (m'.top < 2 ^ 64 → HasParsed m m' 5 1 (fun q => m'.pools q = false ∧ m'.frames q = true) o) := by
  obtain ⟨m, hm, hp, _⟩ := beforeCo_run
  obtain ⟨s, h1, h2, h3⟩ := init_of sample_init.1
  have h : (parse Cfg.x86 ⟨true, false, 2⟩ 50 noDictSample).toOption.isSome = true := by decide +kernel
  cases ho : parse Cfg.x86 ⟨true, false, 2⟩ 50 noDictSample with
  | error e => rw [ho] at h; cases h
  | ok o =>
    have hP : Parses Cfg.x86 ⟨true, false, 2⟩ noDictSample (.ok o) := ⟨by simp, 50, fun fuel hf => parse_mono ho (by simp) hf⟩
    exact ⟨m, o, hm, hp, hP, C71_same_result Cfg.x86 m hm (coCall noDictSample) hp o hP s h1 h2⟩

theorem ok_of {α : Type} {x : Res α} {a : α} (h : x.toOption = some a) : x = .ok a := by
  cases x with
  | error e => cases h
  | ok b => cases h; rfl

theorem blocksAt_of {w : Cfg} {v : View} {si : SplitInfo} {os : Nat} {bs : List (Nat × Nat)} {e : Nat} (h : boundsP w v si os = .ok (bs, e)) :
    BlocksAt w v si os bs := by
  unfold boundsP at h
  obtain ⟨⟨n, c⟩, h1, h⟩ := bind_ok h
  dsimp only at h
  obtain ⟨⟨id, c'⟩, h2, h⟩ := bind_ok h
  dsimp only at h
  obtain ⟨blocks, h3, h⟩ := bind_ok h
  exact ⟨n, c, id, c', blocks, h1, h2, h3, (congrArg Prod.fst (Except.ok.inj h)).symm⟩

/-- The hypotheses of `C71_dictionary_race` are met by the content of C41 whose root map has two blocks. -/
example (m : Mem) : ∃ s m1 t1, During Cfg.x86 50 m (coCall racyContent) s false m1 t1 ∧ DataRace false t1 .dictionary := by
  obtain ⟨s, sm, h1, h2, h3, h4⟩ := racy_init
  obtain ⟨m1, t1, h5⟩ := C71_dictionary_race Cfg.x86 50 (by decide) m (coCall racyContent) s h1 h2 (by rw [h3]; rfl) [(12, 16), (16, 20)]
    (blocksAt_of h4) 0 1 (by decide) (12, 16) (16, 20) rfl rfl (by decide) (by decide) (0, ⟨13, 13⟩) (1, ⟨17, 17⟩)
    (ok_of (by decide +kernel)) (ok_of (by decide +kernel))
  exact ⟨s, m1, t1, h5⟩

/-- `C71_same_failure`: a wrong length of the key, a content that is still split and does not parse.
`C71_write_and_read`: the program owns the empty array. -/
example : (parse Cfg.x86 ⟨true, false, 2⟩ 50 (noDictSample.set 12 200)).toOption = none ∧
    (initFromContent Cfg.x86 (noDictSample.set 12 200)).toOption.map (·.split) = some true ∧
    (∀ c ∈ beforeCo, c.frees = false) := by decide +kernel

/-- The hypotheses of `C71_insert_is_ub` are met: the sample that was parsed in parallel is a map. -/
example : ∃ (m m' : Mem) (s : Sched) (fuel : Nat) (r : Ref) (k : Kind) (q : Nat) (hd : Option Ref) (n : Nat), Reachable Cfg.x86 m ∧
    initFromContent Cfg.x86 noDictSample = .ok s ∧ s.split = true ∧ CoParse Cfg.x86 fuel m (coCall noDictSample) (.ok m') ∧
    (m'.top < 2 ^ 64 → Reaches m' (m'.vars 5) r ∧ m'.cells r = some (.cont k q hd n)) := by
  obtain ⟨m, hm, hp, _⟩ := beforeCo_run
  obtain ⟨s, h1, h2, h3⟩ := init_of sample_init.1
  have h : (parse Cfg.x86 ⟨true, false, 2⟩ 50 noDictSample).toOption.map (fun o => match o with | .map .. => true | _ => false) = some true := by decide +kernel
  cases ho : parse Cfg.x86 ⟨true, false, 2⟩ 50 noDictSample with
  | error e => rw [ho] at h; cases h
  | ok o =>
    rw [ho] at h
    have hP : Parses Cfg.x86 ⟨true, false, 2⟩ noDictSample (.ok o) := ⟨by simp, 50, fun fuel hf => parse_mono ho (by simp) hf⟩
    obtain ⟨N, hN⟩ := C71_same_result Cfg.x86 m hm (coCall noDictSample) hp o hP s h1 h2
    obtain ⟨⟨r, hr⟩, hall⟩ := hN N (Nat.le_refl _)
    obtain ⟨m', rfl, hm'⟩ := hall r hr
    by_cases ht : m'.top < 2 ^ 64
    · obtain ⟨hsh, _⟩ := hm' ht
      cases o with
      | map v pr n es =>
        generalize hv : m'.vars (coCall noDictSample).d = a at hsh
        cases hsh with
        | map hl _ =>
          refine ⟨m, m', s, N, _, _, _, _, _, hm, h1, h2, hr, fun _ => ⟨?_, (load_ok hl).2.1⟩⟩
          change Reaches m' (m'.vars 5) _
          rw [show m'.vars 5 = _ from hv]
          exact .here _
      | _ => cases h
    · exact ⟨m, m', s, N, 0, .array, 0, none, 0, hm, h1, h2, hr, fun h => absurd h ht⟩

end Bridge.Heap
