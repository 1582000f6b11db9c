import Verif.Props.RoundTrip
import Verif.Proof.Custom
import Verif.Proof.ObjEq
/-
C11: values of user-defined types and in-situ parsing.
-/
set_option autoImplicit false
namespace Bridge
open Spec

/-! ### C11 -/

/-- Somewhere in the document there is a value of a user-defined type. -/
inductive HasCustom : Doc → Prop
  | leaf (b : Bytes) : HasCustom (.scalar (.custom b))
  | elem {x : Doc} {xs : List Doc} : x ∈ xs → HasCustom x → HasCustom (.array xs)
  | entry {k : Bytes} {x : Doc} {es : List (Bytes × Doc)} : (k, x) ∈ es → HasCustom x → HasCustom (.map es)

theorem noCustomL_false {xs : List Doc} {x : Doc} (h : x ∈ xs) (hx : x.noCustom = false) : noCustomL xs = false := by
  induction xs with
  | nil => cases h
  | cons y ys ih =>
    rcases List.mem_cons.mp h with rfl | h
    · simp [noCustomL, hx]
    · simp [noCustomL, ih h]

theorem noCustomE_false {xs : List (Bytes × Doc)} {k : Bytes} {x : Doc} (h : (k, x) ∈ xs) (hx : x.noCustom = false) :
    noCustomE xs = false := by
  induction xs with
  | nil => cases h
  | cons y ys ih =>
    obtain ⟨k', y⟩ := y
    rcases List.mem_cons.mp h with he | h
    · cases he; simp [noCustomE, hx]
    · simp [noCustomE, ih h]

theorem hasCustom_iff {d : Doc} (h : HasCustom d) : d.noCustom = false := by
  induction h with
  | leaf b => rfl
  | elem hm _ ih => simp only [Doc.noCustom]; exact noCustomL_false hm ih
  | entry hm _ ih => simp only [Doc.noCustom]; exact noCustomE_false hm ih

/-- C11. Parsing in situ a document with a value of a user-defined type anywhere in it throws a `std::runtime_error`: with
either encoding, by the recursive parser and by the coroutine parser with any positive number of workers, and whether or not
other bytes follow. -/
theorem C11_in_situ_custom_throws (w r : Cfg) (hw : w.charSigned = true) (t : SeriType) (o : Obj) (d : Doc)
    (hd : o.doc? = some d) (hh : Writable w o) (hc : HasCustom d) (co : Bool) (k : Nat) (hk : co = true → 0 < k) :
    ∃ content, serialize w t o = .ok content ∧
      ∀ extra, Fits r (content ++ extra) →
        ∃ x : Exn, x.isRuntimeError = true ∧ Parses r ⟨co, true, k⟩ (content ++ extra) (.error (.exn x)) := by
  refine ⟨_, serialize_eq hw t hd hh, fun extra hf => ⟨.parseDataInvalid, rfl, by simp, docFuel (rootDoc d), ?_⟩⟩
  intro fuel hfuel
  cases co with
  | false => exact parse_normal_custom hf.contentOk (hasCustom_iff hc) k hfuel
  | true => exact parse_co_custom hf.contentOk (hasCustom_iff hc) (hk rfl) hfuel

/-- Two elements, the second a custom value; blocks of eight bytes, so that the parallel parser really forks. -/
example :
    let w : Cfg := { Cfg.x86 with blockSize := 8 }
    let o : Obj := .array .caller 2 [.data false BRIDGE_INT32 (.i32 7), .data false BRIDGE_CUSTOM (.vec [1, 2, 3])]
    o.doc? = some (.array [.scalar (.int32 7), .scalar (.custom [1, 2, 3])]) ∧
    HasCustom (.array [.scalar (.int32 7), .scalar (.custom [1, 2, 3])]) ∧ Writable w o ∧
    ((serialize w .normal o).toOption.getD [])[9]? = some 0x0A ∧
    parse w ⟨true, true, 2⟩ 40 ((serialize w .normal o).toOption.getD []) = .error (.exn .parseDataInvalid) :=
  ⟨rfl, .elem (List.mem_cons_of_mem _ List.mem_cons_self) (.leaf _), by simp [Obj.Hard, hardL, leafHard], by decide +kernel,
    by decide +kernel⟩

/-- Parsed with copies the same document comes back. -/
theorem C11_owning_parse_keeps_custom (w r : Cfg) (hw : w.charSigned = true) (t : SeriType) (o : Obj) (d : Doc)
    (hd : o.doc? = some d) (hh : Writable w o) (k : Nat) (hk : 0 < k) (co : Bool) :
    ∃ content, serialize w t o = .ok content ∧
      (Fits r content → ∃ o' d', Parses r ⟨co, false, k⟩ content (.ok o') ∧ o'.doc? = some d' ∧ d.Same d') := by
  refine ⟨_, serialize_eq hw t hd hh, fun hf => ?_⟩
  cases co with
  | false =>
    obtain ⟨o', h1, h2, _⟩ := parses_normal (extra := []) (by simpa using hf) false (by simp) k
    exact ⟨o', _, by simpa using h1, h2, same_revMaps d⟩
  | true =>
    obtain ⟨o', d', h1, h2, h3, _⟩ := parses_co (extra := []) (by simpa using hf) false (by simp) hk
    exact ⟨o', d', by simpa using h1, h2, h3⟩

end Bridge
