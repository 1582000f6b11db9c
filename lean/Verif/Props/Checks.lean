import Verif.Proof.Agree
import Verif.Props.Unsafe
import Verif.Props.RoundTrip
/-
C59: the run-time checks (assertions, and the bounds assertions of the standard library) only ever turn a call into an abort.
`r.fewerChecks x y` is the build `r` without its assertions (`x = false`) and/or without its bounds assertions (`y = false`).
-/
set_option autoImplicit false
namespace Bridge
open Spec

/-- C59. The recursive parser: a build with checks does what the build without them does, or it aborts.  This includes not
returning at all and undefined behaviour. -/
theorem C59_recursive_parse (r : Cfg) (x y : Bool) (po : ParseOption) (hco : po.coroutine = false) (content : Bytes) :
    (∀ res, Parses r po content res → res = .error .abort ∨ Parses (r.fewerChecks x y) po content res) ∧
    (Diverges r po content → Diverges (r.fewerChecks x y) po content) := by
  have key : ∀ f, Agree (· = .abort) (parse r po f content) (parse (r.fewerChecks x y) po f content) :=
    fun f => parse_agree_normal (P := (· = .abort)) rfl r x y po hco f content
  constructor
  · rintro res ⟨hne, n, hn⟩
    by_cases ha : res = .error .abort
    · exact .inl ha
    · refine .inr ⟨hne, n, fun f hf => ?_⟩
      rcases key f with ⟨e, h1, rfl⟩ | h1
      · rw [hn f hf] at h1; exact absurd h1 ha
      · rw [h1, hn f hf]
  · intro hd f
    rcases key f with ⟨e, h1, rfl⟩ | h1
    · rw [hd f] at h1; cases h1
    · rw [h1, hd f]

/-- C59. Either scheduler: if the build with checks returns an object, so does the build without, and it is the same object. -/
theorem C59_same_object (r : Cfg) (x y : Bool) (po : ParseOption) (content : Bytes) (o : Obj)
    (h : Parses r po content (.ok o)) : Parses (r.fewerChecks x y) po content (.ok o) := by
  obtain ⟨hne, n, hn⟩ := h
  refine ⟨hne, n, fun f hf => ?_⟩
  rcases parse_agree r x y po f content with ⟨e, h1, _⟩ | h1
  · rw [hn f hf] at h1; cases h1
  · rw [h1, hn f hf]

/-- C59. Either scheduler: if the build with checks throws, the build without throws the same exception. -/
theorem C59_same_exception (r : Cfg) (x y : Bool) (po : ParseOption) (content : Bytes) (e : Exn)
    (h : Parses r po content (.error (.exn e))) : Parses (r.fewerChecks x y) po content (.error (.exn e)) := by
  obtain ⟨hne, n, hn⟩ := h
  refine ⟨hne, n, fun f hf => ?_⟩
  rcases parse_agree r x y po f content with ⟨e', h1, h2⟩ | h1
  · rw [hn f hf] at h1; cases h1; exact absurd rfl h2
  · rw [h1, hn f hf]

/-- C59. `Serialize`: a build with checks does what the build without them does, or it aborts. -/
theorem C59_serialize (r : Cfg) (x y : Bool) (t : SeriType) (o : Obj) :
    serialize r t o = .error .abort ∨ serialize (r.fewerChecks x y) t o = serialize r t o := by
  rcases serialize_agree (P := (· = .abort)) r x y (fun _ => rfl) t o with ⟨e, h1, rfl⟩ | h1
  · exact .inl h1
  · exact .inr h1

/-- C59. The assertions of the library itself make no difference to `Serialize` on any tree, however large. -/
theorem C59_serialize_asserts (r : Cfg) (x : Bool) (t : SeriType) (o : Obj) :
    serialize (r.fewerChecks x true) t o = serialize r t o := by
  rcases serialize_agree (P := fun _ => False) r x true (fun h => by cases h) t o with ⟨e, _, h⟩ | h1
  · exact h.elim
  · exact h1

/-- The hypotheses are met by the sample document, and the alternative "aborts" is needed: a build with assertions aborts on
`hostileNumber`, where the one without runs into undefined behaviour. -/
example : (∃ content, serialize Cfg.x86 .normal sampleObj = .ok content ∧
      serialize (Cfg.x86.fewerChecks false false) .normal sampleObj = .ok content) ∧
    Parses Cfg.x86 ⟨false, false, 0⟩ hostileNumber (.error .abort) ∧
    Parses (Cfg.x86.fewerChecks false false) ⟨false, false, 0⟩ hostileNumber (.error (.ub .stackSmash)) := by
  refine ⟨⟨(serialize Cfg.x86 .normal sampleObj).toOption.getD [], ?_, ?_⟩, C29_aborts false 0, C29_overruns_stack false 0⟩
  · decide +kernel
  · decide +kernel

/-- A four-byte number written in two bytes: the build with assertions aborts, the one without reads a number. -/
def shortNumber : Bytes := hostileHeader 22 ++ [1, 1, 4, 114, 111, 111, 116, 0, 2, 2, 1, 2] ++ [1, 0]

/-- The checked build may also abort on content that the build without checks accepts. -/
example : Parses (x86Build true) ⟨false, false, 0⟩ shortNumber (.error .abort) ∧
    Parses (x86Build false) ⟨false, false, 0⟩ shortNumber (.ok (.data false BRIDGE_INT32 (.i32 0x01020000))) := by
  constructor
  · exact parses_of_fuel (f := 20) (by decide +kernel) (by intro h; cases h)
  · exact parses_of_fuel (f := 20) (by decide +kernel) (by intro h; cases h)

/-- An exception in both builds. -/
example : Parses (x86Build true) ⟨true, false, 1⟩ [1, 2, 3] (.error (.exn .metaSize)) ∧
    Parses ((x86Build true).fewerChecks false false) ⟨true, false, 1⟩ [1, 2, 3] (.error (.exn .metaSize)) := by
  have h : Parses (x86Build true) ⟨true, false, 1⟩ [1, 2, 3] (.error (.exn .metaSize)) :=
    parses_of_fuel (f := 2) (by decide +kernel) (by intro h; cases h)
  exact ⟨h, C59_same_exception _ _ _ _ _ _ h⟩

end Bridge
