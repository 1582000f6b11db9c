import Verif.Props.PoolStart
import Verif.Props.Witness
import Verif.Props.Checks
import Verif.Props.CoHeap
import Verif.Props.Exec
import Verif.Props.Pool
import Verif.Props.Reject
import Verif.Props.Reread
import Verif.Props.Schedule
import Verif.Props.Stack
import Verif.Props.StopCalls
import Verif.Props.Throw
/-
More theorems applied to a concrete case.
-/
set_option autoImplicit false
namespace Bridge
open Spec

/-! ### C24, C52: trees that are documents have neither null children nor unset values -/

theorem docs?_mem {os : List Obj} : ∀ {ds : List Doc}, docs? os = some ds → ∀ o ∈ os, ∃ d, o.doc? = some d := by
  induction os with
  | nil => intro ds _ o ho; cases ho
  | cons x os ih =>
    intro ds h o ho
    obtain ⟨d, ds', rfl, h1, h2⟩ := docs?_cons h
    rcases List.mem_cons.1 ho with rfl | ho
    · exact ⟨d, h1⟩
    · exact ih h2 o ho

theorem entries?_mem {os : List (Str × Obj)} : ∀ {ds : List (Bytes × Doc)}, entries? os = some ds → ∀ k o, (k, o) ∈ os → ∃ d, o.doc? = some d := by
  induction os with
  | nil => intro ds _ k o ho; cases ho
  | cons x os ih =>
    obtain ⟨k', x⟩ := x
    intro ds h k o ho
    obtain ⟨d, ds', rfl, h1, h2⟩ := entries?_cons h
    rcases List.mem_cons.1 ho with e | ho
    · cases e; exact ⟨d, h1⟩
    · exact ih h2 k o ho

theorem below_doc {o x : Obj} (h : o.Below x) : ∀ {d : Doc}, o.doc? = some d → ∃ d', x.doc? = some d' := by
  induction h with
  | self => intro d hd; exact ⟨d, hd⟩
  | item hm _ ih =>
    intro d hd
    obtain ⟨xs, -, -, hds⟩ := array_doc hd
    obtain ⟨d', hd'⟩ := docs?_mem hds _ hm
    exact ih hd'
  | entry hm _ ih =>
    intro d hd
    obtain ⟨xs, -, -, hds⟩ := map_doc hd
    obtain ⟨d', hd'⟩ := entries?_mem hds _ _ hm
    exact ih hd'

/-- The trees that the other theorems speak about meet the hypotheses of C24 and C52. -/
theorem doc_wellTyped {o : Obj} {d : Doc} (h : o.doc? = some d) : o.WellTyped ∧ ¬ o.HasNull ∧ ¬ o.HasUnset := by
  refine ⟨fun ref dt p hb => ?_, fun hb => ?_, fun hb => ?_⟩
  · obtain ⟨d', hd'⟩ := below_doc hb h
    obtain ⟨s, -, hs⟩ := data_doc hd'
    exact .inr (by rw [hs]; rfl)
  · obtain ⟨d', hd'⟩ := below_doc hb h
    cases hd'
  · rcases hb with hb | hb
    · obtain ⟨d', hd'⟩ := below_doc hb h
      cases hd'
    · obtain ⟨d', hd'⟩ := below_doc hb h
      cases hd'

/-- C24_valid_trees_succeed and C24_only_null_children_are_ub on the sample, C52_hardened_library on it and on an empty byte array. -/
example : ∃ c, serialize w10 .replace sampleObj = .ok c :=
  C24_valid_trees_succeed w10 rfl .replace sampleObj (doc_wellTyped sample_doc).1 (doc_wellTyped sample_doc).2.1 (doc_wellTyped sample_doc).2.2
example := C24_only_null_children_are_ub w10 .normal sampleObj (doc_wellTyped sample_doc).1
example : serialize { w10 with hardened := true } .replace (.array .caller 1 [.data false BRIDGE_BYTES (.vec [])]) = .error .abort :=
  have h := doc_wellTyped (o := .array .caller 1 [.data false BRIDGE_BYTES (.vec [])]) (d := .array [.scalar (.bytes [])]) rfl
  (C52_hardened_library _ rfl .replace _ h.1 h.2.1 h.2.2).1 ⟨false, BRIDGE_BYTES, .vec [], .item (List.mem_singleton.mpr rfl) .self, .inl rfl⟩

/-- C24_unset_values_throw, C24_only_null_children_are_ub and C24_null_children_never_succeed: an array of two leaves, one without value, and
an array with a null child. -/
def unsetObj : Obj := .array .caller 2 [.data false BRIDGE_INT32 (.i32 7), .dataEmpty]

theorem unset_below {x : Obj} (h : unsetObj.Below x) : x = unsetObj ∨ x = .data false BRIDGE_INT32 (.i32 7) ∨ x = .dataEmpty := by
  unfold unsetObj at h
  cases h with
  | self => exact .inl rfl
  | item hm h =>
    simp only [List.mem_cons, List.not_mem_nil, or_false] at hm
    rcases hm with rfl | rfl <;> cases h <;> simp

example : ∃ e : Exn, serialize Cfg.x86 .normal unsetObj = .error (.exn e) ∧ e.isRuntimeError = true := by
  refine C24_unset_values_throw Cfg.x86 rfl .normal unsetObj ?_ ?_ ?_
  · intro ref dt p h
    rcases unset_below h with h | h | h
    · cases h
    · cases h; exact .inr rfl
    · cases h; exact .inl ⟨rfl, rfl⟩
  · intro h
    rcases unset_below h with h | h | h <;> cases h
  · exact .inl (.item (by simp) .self)

/-! ### C13, C41, C58: the parallel parse of the split sample -/

theorem w10_init (t : SeriType) : ∃ content s, serialize w10 t sampleObj = .ok content ∧ Fits w10 content ∧ initFromContent w10 content = .ok s ∧
    s.split = true := by
  obtain ⟨content, h1, h2, h3⟩ := w10_fits t
  have hc := h1
  rw [serialize_eq rfl t sample_doc (sample_writable _)] at hc
  cases hc
  obtain ⟨s, hs, -⟩ := init_eq [] (Fits.contentOk (extra := []) (by simpa using h2)).size (Fits.contentOk (extra := []) (by simpa using h2)).lt
  simp only [List.append_nil] at hs
  refine ⟨_, s, h1, h2, hs, ?_⟩
  rcases (init_inv hs).2.2.2.2 with ⟨h, -⟩ | ⟨-, h⟩
  · rw [h3] at h; cases h
  · exact h

/-- There are executions to the end, with any number of workers: what C58_never_stuck, C58_outcome_independent, C13_schedule_independent and
C13_any_two_schedules speak about.  One worker and four workers end with the same document. -/
example : ∃ content s fuel m m' e e' o, initFromContent w10 content = .ok s ∧ s.split = true ∧ GSteps 1 m (startE w10 false fuel content s) e ∧
    GSteps 4 m' (startE w10 false fuel content s) e' ∧ e.main = .done (.ok (.root o)) ∧ e'.main = e.main ∧ o.doc?.isSome = true := by
  obtain ⟨content, s, h1, h2, h3, h4⟩ := w10_init .replace
  obtain ⟨N, o', d', hd, -, h⟩ := C58_parallel_parse_completes w10 w10 rfl .replace sampleObj sampleDoc sample_doc (sample_writable _) h1 h2 h3 h4 false
    (by intro h; cases h)
  have key : ∀ n, 0 < n → ∃ m e, GSteps n m (startE w10 false N content s) e ∧ e.main = .done (.ok (.root o')) := by
    intro n hn
    obtain ⟨⟨bound, hb⟩, hend⟩ := h N (Nat.le_refl _) n hn
    have go : ∀ k m e, GSteps n m (startE w10 false N content s) e → bound ≤ m + k → ∃ m e, GSteps n m (startE w10 false N content s) e ∧
        ¬ ∃ e', GStep n e e' := by
      intro k
      induction k with
      | zero =>
        intro m e hm hk
        refine ⟨m, e, hm, fun ⟨e', he⟩ => ?_⟩
        have := hb _ _ (.snoc hm he)
        omega
      | succ k ih =>
        intro m e hm hk
        rcases Classical.em (∃ e', GStep n e e') with ⟨e', he⟩ | hno
        · exact ih _ _ (.snoc hm he) (by omega)
        · exact ⟨m, e, hm, hno⟩
    obtain ⟨m, e, hm, hno⟩ := go bound 0 _ (.nil _) (by omega)
    exact ⟨m, e, hm, (hend m e hm).2 hno⟩
  obtain ⟨m, e, h5, h6⟩ := key 1 (by omega)
  obtain ⟨m', e', h7, h8⟩ := key 4 (by omega)
  exact ⟨content, s, N, m, m', e, e', o', h3, h4, h5, h7, h6, by rw [h6, h8], by rw [hd]; rfl⟩

/-! ### C23, C45, C65 -/

/-- C23_replaced_payloads_are_released and C65_throwing_assignment_poisons: a number that becomes a string, then bytes. -/
example := C23_replaced_payloads_are_released (({ dt := BRIDGE_INT32 } : Slot).construct (.i32 7)) (some (.i32 7)) (.value rfl)
  [.string [104, 105], .bytes [1]] (by intro v hv b; simp at hv; rcases hv with rfl | rfl <;> simp)
example := C65_throwing_assignment_poisons (({ dt := BRIDGE_INT32 } : Slot).construct (.i32 7)) (some (.i32 7)) (.value rfl)
  [.string [104, 105], .bytes [1]] (by intro v hv b; simp at hv; rcases hv with rfl | rfl <;> simp) .custom rfl

/-! ### C56 -/

/-- C56_history_irrelevant. -/
example := C56_history_irrelevant Cfg.x86 50 demoCalls (by decide)

/-! ### C61, C63, C62, C59 -/

/-- C61_one_reading and C63_one_reading: contents that no `Serialize` call writes. -/
example (pairs : Option (List (Bytes × Nat))) (dict : Option (Nat → Option Bytes)) (es : List (Bytes × Doc))
    (h : Readable false (2 ^ 63) foreign pairs dict es) : es = [(rootKey, .scalar (.int32 0x05000000))] :=
  ((C61_one_reading false _ _ foreign (by decide) none pairs none dict _ es foreign_readable h).2 (by intro ps h; cases h)).2.symm

/-- C61_accepted_iff: by the reading the content is accepted, in situ too. -/
example : ∃ o, Parses { Cfg.x86 with asserts := false } {} foreign (.ok o) :=
  (C61_accepted_iff { Cfg.x86 with asserts := false } rfl foreign (by decide) (by decide) {} (.inl rfl) (by intro h; cases h)).2
    ⟨_, _, _, foreign_readable, by intro h; cases h⟩

/-- C62_parse_same_or_overflow with room for two frames. -/
example := C62_parse_same_or_overflow Cfg.x86 false dictContent (parse Cfg.x86 {} 50 dictContent) 1
  (parses_of_fuel rfl (by have : (parse Cfg.x86 {} 50 dictContent).toOption.isSome = true := by decide +kernel
                          intro h; rw [h] at this; cases this)) 2

/-! ### C76 -/

example := on_sample (C76_written_edit w10 w10 rfl sampleObj sampleDoc sample_doc (sample_writable _) (by decide) 1)
example := on_sample (C76_overwrite_string w10 w10 rfl sampleObj sampleDoc sample_doc (sample_writable _) (by decide) 1)
example := on_sample (C76_shape_stays w10 w10 rfl .replace sampleObj sampleDoc sample_doc (sample_writable _) (by decide) true 2 (by decide))
example := on_sample (C76_only_shown_bytes w10 w10 rfl .replace sampleObj sampleDoc sample_doc (sample_writable _) (by decide) true 2 (by decide))
example := on_sample (C76_owning_unaffected w10 w10 rfl .replace sampleObj sampleDoc sample_doc (sample_writable _) true 2 (by decide))

end Bridge

namespace Bridge.TP

/-! ### C66 -/

/-- C66_identity on the run of `selfStop_run`: the task on worker 0 sees identity 0. -/
example := (C66_identity selfStop_run (by decide)).1 0 0 rfl

end Bridge.TP

namespace Bridge

/-- C84_written_document on the split sample, in a process without pool. -/
example : ∃ content, serialize w10 .normal sampleObj = .ok content ∧ ∃ n, ∀ fuel, n ≤ fuel → ∀ sys,
    (∃ l d', (parseStart w10 fuel none ⟨content, ⟨true, false, 2⟩⟩ sys).1 = .result (.ok l) ∧ l.doc? = some d' ∧ sampleDoc.Same d') ∨
    (∃ x, parseStart w10 fuel none ⟨content, ⟨true, false, 2⟩⟩ sys = (.refused x, none)) ∨
    (parseStart w10 fuel none ⟨content, ⟨true, false, 2⟩⟩ sys).1 = .lost := by
  obtain ⟨c, h1, n, h2⟩ := on_sample (C84_written_document w10 w10 rfl .normal sampleObj sampleDoc sample_doc (sample_writable _) false (by simp) true 2 (by decide))
  exact ⟨c, h1, n, fun fuel hf sys => h2 fuel hf none nofun sys⟩

/-- C84_unaffected and C84_first_parallel_call on the calls of `refusedCalls`. -/
example := C84_unaffected Cfg.x86 50 none ⟨plainSample, ⟨true, false, 8⟩⟩ (fun _ => some .thread) (.inl (by decide +kernel))
example := (C84_first_parallel_call Cfg.x86 50 ⟨splitSample, ⟨true, false, 2⟩⟩ (by decide +kernel) (fun _ => some .thread)).2.1 .thread (by decide) rfl

end Bridge

namespace Bridge.TP

/-- C84_no_exception_no_end and C84_drains_or_ends. -/
example := C84_no_exception_no_end demoQuiet_run (fun _ _ h => h)
example := C84_drains_or_ends demoQuiet_run (by decide)

end Bridge.TP

namespace Bridge.Heap
open Bridge

/-- C71_not_split, C71_no_workers, C71_needs_pool. -/
example (m : Mem) (r : Res Mem) : ∃ s, initFromContent Cfg.x86 noDictSample = .ok s ∧ ¬ CoParse Cfg.x86 50 m ⟨5, 1, false, 0, noDictSample⟩ r := by
  obtain ⟨s, h1, h2, -⟩ := init_of sample_init.1
  exact ⟨s, h1, C71_no_workers Cfg.x86 50 m ⟨5, 1, false, 0, noDictSample⟩ s h1 h2 rfl r⟩
example (m' : Mem) (ht : m'.top < 2 ^ 64) : ∃ m, Reachable Cfg.x86 m ∧ m.pools 7 = false ∧ ¬ CoParse Cfg.x86 50 m ⟨5, 7, false, 2, noDictSample⟩ (.ok m') := by
  have h : Reachable Cfg.x86 _ := ⟨20, _, run_calls (cs := beforeCo) rfl⟩
  exact ⟨_, h, rfl, C71_needs_pool Cfg.x86 50 _ h ⟨5, 7, false, 2, noDictSample⟩ rfl m' ht⟩

end Bridge.Heap
