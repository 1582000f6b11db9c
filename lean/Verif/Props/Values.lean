import Verif.Model.Slot
import Verif.Props.Wrapper
/-
C22, C23, C51: the value stored in a `Data` or `DataView`.
-/
set_option autoImplicit false
namespace Bridge
open Spec

/-! ### C22 -/

/-- `Data::Get<T>()` on the storage. -/
def Slot.get (t : CType) (s : Slot) : Res (Option CVal) := dataGet t s.dt s.buf

/-- A sequence of assignments `d = v` of values that live elsewhere; `none` if one of them does not compile. -/
def Slot.assigns : Slot → List CVal → Option (Res Slot)
  | s, [] => some (.ok s)
  | s, v :: vs =>
    match s.assignValue v with
    | none => none
    | some (.error e) => some (.error e)
    | some (.ok s') => s'.assigns vs

/-- Does a value of this type own memory on the heap when it is stored in a `Data`? -/
def CType.onHeap : CType → Bool
  | .string => true
  | .bytes => true
  | .custom => true
  | _ => false

/-- Specification: a `Data` that holds nothing. -/
def Slot.HoldsNothing (s : Slot) : Prop := (∀ t, s.get t = .ok none) ∧ s.live = 0

/-- Specification: a `Data` that holds the value `v` (of the storable type `T`): the tag names `T`, `Get<T>()` returns `v`,
`Get` of any other type returns nothing, and there is one live heap payload if `T` lives on the heap and none otherwise. -/
def Slot.Holds (s : Slot) (v : CVal) : Prop :=
  s.dt = v.stored.1.dt ∧ (∀ t, s.get t = .ok (if t = v.stored.1 then some v.stored.2 else none)) ∧
    s.live = (if v.stored.1.onHeap then 1 else 0)

/-- How a `Data` comes into being: default constructor, constructor from a value, parser. -/
inductive Slot.Start : Slot → Option CVal → Prop
  | fresh : Slot.Start {} none
  | value {v : CVal} {s : Slot} : Slot.ofValue v = some s → Slot.Start s (some v)
  | parsed {cfg : Cfg} {v : View} {sm : Option StringMap} {c c' : Cur} {dt : UInt8} {p : Payload} {sc : Scalar} :
      parseDataObj cfg v sm c = .ok (.data false dt p, c') → (Obj.data false dt p).doc? = some (.scalar sc) →
      Slot.Start (Slot.ofParsed dt p) (some (scalarVal sc).2)

/-- The invariant behind C22: tag and payload are those of `dataOfVal v`. -/
def Slot.Inv (s : Slot) : Option CVal → Prop
  | none => s = {}
  | some v => dataOfVal v = some (s.dt, s.buf) ∧ s.live = (if s.buf.owning then 1 else 0)

theorem holds_of_inv {s : Slot} {v : CVal} (h : s.Inv (some v)) : s.Holds v := by
  obtain ⟨h1, h2⟩ := h
  refine ⟨?_, ?_, ?_⟩
  · cases v <;> simp only [dataOfVal, Option.some.injEq, Prod.mk.injEq, reduceCtorEq] at h1 <;> rw [← h1.1] <;> rfl
  · intro t
    have := (C21_typed_reads v s.dt s.buf h1 t).1
    rw [ckGet_eq] at this
    exact this
  · rw [h2]
    cases v <;> simp only [dataOfVal, Option.some.injEq, Prod.mk.injEq, reduceCtorEq] at h1 <;> rw [← h1.2] <;>
      simp [Payload.owning, CType.onHeap, CVal.stored]

theorem holdsNothing_of_inv {s : Slot} (h : s.Inv none) : s.HoldsNothing := by
  simp only [Slot.Inv] at h
  subst h
  refine ⟨?_, rfl⟩
  intro t
  cases t <;> rfl

theorem dataOfVal_scalarVal {dt : UInt8} {p : Payload} {s : Scalar} (h : scalarOf false dt p = some s) :
    dataOfVal (scalarVal s).2 = some (dt, p) := by
  cases p <;> simp only [scalarOf, Bool.not_false, Bool.true_and, if_true, if_false, Bool.false_eq_true, reduceCtorEq,
    decide_eq_true_eq] at h
  all_goals
    repeat' split at h
    all_goals simp only [Option.some.injEq, reduceCtorEq] at h
    all_goals
      rename_i h3
      subst h h3
      rfl

theorem Slot.Start.inv {s : Slot} {v : Option CVal} (h : Slot.Start s v) : s.Inv v := by
  cases h with
  | fresh => rfl
  | @value v s h =>
    simp only [Slot.ofValue, Option.map_eq_some_iff] at h
    obtain ⟨d, h1, rfl⟩ := h
    refine ⟨by rw [h1]; rfl, ?_⟩
    simp [Slot.construct]
  | @parsed _ _ _ _ _ dt p sc _ h =>
    obtain ⟨s', h1, h2⟩ := data_doc h
    cases h1
    refine ⟨dataOfVal_scalarVal h2, ?_⟩
    simp [Slot.ofParsed, Slot.construct]

theorem Slot.Inv.assign {s : Slot} {o : Option CVal} (h : s.Inv o) {v : CVal} (hv : ∀ b, v ≠ .strView b) :
    ∃ s', s.assignValue v = some (.ok s') ∧ s'.Inv (some v) := by
  have hd : ∃ d, dataOfVal v = some d := by
    cases v <;> simp [dataOfVal] at hv ⊢
  obtain ⟨⟨dt, p⟩, hd⟩ := hd
  have hdes : ∃ s1, s.destructByDatatype = .ok s1 ∧ s1.live = 0 := by
    cases o with
    | none =>
      simp only [Slot.Inv] at h; subst h
      exact ⟨{}, rfl, rfl⟩
    | some u =>
      obtain ⟨h1, h2⟩ := h
      obtain ⟨sdt, sbuf, slive⟩ := s
      have h2' : slive = if sbuf.owning = true then 1 else 0 := h2
      simp only at h1
      subst h2'
      cases u <;> simp only [dataOfVal, Option.some.injEq, Prod.mk.injEq, reduceCtorEq] at h1 <;>
        obtain ⟨rfl, rfl⟩ := h1 <;>
        simp [Slot.destructByDatatype, Slot.destructString, Slot.destructVec, Payload.owning, BRIDGE_BYTES, BRIDGE_STRING,
          BRIDGE_INT32, BRIDGE_UINT32, BRIDGE_INT64, BRIDGE_UINT64, BRIDGE_FLOAT, BRIDGE_DOUBLE, BRIDGE_CUSTOM]
  obtain ⟨s1, h1, h2⟩ := hdes
  refine ⟨({ s1 with dt := dt } : Slot).construct p, ?_, ?_⟩
  · simp only [Slot.assignValue, hd, Option.map_some, h1, ok_bind, pure_eq_ok]
  · exact ⟨hd, by simp [Slot.construct, h2]⟩

/-- C22. Take a `Data` created in any way and assign any sequence of values of supported types to it: no assignment fails,
and in the end the `Data` holds exactly the last value (the initial one, or nothing, if there was no assignment). -/
theorem C22_last_value_wins (s : Slot) (start : Option CVal) (hs : s.Start start) (vs : List CVal)
    (hv : ∀ v ∈ vs, ∀ b, v ≠ .strView b) :
    ∃ s', s.assigns vs = some (.ok s') ∧
      match (start.toList ++ vs).getLast? with
      | none => s'.HoldsNothing
      | some v => s'.Holds v := by
  have key : ∀ (vs : List CVal) (s : Slot) (o : Option CVal), s.Inv o → (∀ v ∈ vs, ∀ b, v ≠ .strView b) →
      ∃ s' o', s.assigns vs = some (.ok s') ∧ s'.Inv o' ∧ o' = (o.toList ++ vs).getLast? := by
    intro vs
    induction vs with
    | nil => intro s o h _; exact ⟨s, o, rfl, h, by cases o <;> simp⟩
    | cons v vs ih =>
      intro s o h hv
      obtain ⟨s1, h1, h2⟩ := h.assign (hv v (by simp))
      obtain ⟨s', o', h3, h4, h5⟩ := ih s1 (some v) h2 (fun w hw => hv w (by simp [hw]))
      refine ⟨s', o', by simp only [Slot.assigns, h1, h3], h4, ?_⟩
      rw [h5]
      simp [List.getLast?_append, List.getLast?_cons]
  obtain ⟨s', o', h1, h2, h3⟩ := key vs s start hs.inv hv
  refine ⟨s', h1, ?_⟩
  rw [← h3]
  cases o' with
  | none => exact holdsNothing_of_inv h2
  | some v => exact holds_of_inv h2

/-- A `Data` that was an `int32`, then a string, then bytes, then a `double`. -/
example : Slot.Start (({ dt := BRIDGE_INT32 } : Slot).construct (.i32 7)) (some (.i32 7)) ∧
    (({ dt := BRIDGE_INT32 } : Slot).construct (.i32 7)).assigns [.string [104, 105], .bytes [1], .f64 3] =
      some (.ok { dt := BRIDGE_DOUBLE, buf := .f64 3, live := 0 }) ∧
    (({ dt := BRIDGE_INT32 } : Slot).construct (.i32 7)).assigns [.string [104, 105], .bytes [1]] =
      some (.ok { dt := BRIDGE_BYTES, buf := .vec [1], live := 1 }) :=
  ⟨.value rfl, by decide +kernel, by decide +kernel⟩

/-- C22: the limit of the property.  Assigning to a `Data` a reference to its own string (`d = *d.GetPtr<std::string>()`) or
byte array destroys the string before it is copied: undefined behaviour, whatever the contents. -/
theorem C22_self_assignment_is_ub (s : Slot) (v : CVal) (hs : s.Start (some v)) (hh : v.stored.1 = .string ∨ v.stored.1 = .bytes) :
    s.assignSelf v.stored.1 = .error (.ub .useAfterDestroy) := by
  obtain ⟨h1, h2⟩ := hs.inv
  obtain ⟨sdt, sbuf, slive⟩ := s
  simp only at h1 h2
  cases v <;> simp only [dataOfVal, Option.some.injEq, Prod.mk.injEq, reduceCtorEq] at h1 <;>
    simp only [CVal.stored, reduceCtorEq, or_false, or_self] at hh <;>
    obtain ⟨rfl, rfl⟩ := h1 <;> rfl

/-- C22: the same with a number is harmless and changes nothing. -/
theorem C22_self_assignment_of_numbers (s : Slot) (v : CVal) (hs : s.Start (some v)) (hh : v.stored.1.onHeap = false) :
    s.assignSelf v.stored.1 = .ok s := by
  obtain ⟨h1, h2⟩ := hs.inv
  obtain ⟨sdt, sbuf, slive⟩ := s
  have h2' : slive = if sbuf.owning = true then 1 else 0 := h2
  simp only at h1
  cases v <;> simp only [dataOfVal, Option.some.injEq, Prod.mk.injEq, reduceCtorEq] at h1 <;>
    simp only [CVal.stored, CType.onHeap, reduceCtorEq] at hh <;>
    obtain ⟨rfl, rfl⟩ := h1 <;> subst h2' <;> rfl

example : Slot.Start (({ dt := BRIDGE_STRING } : Slot).construct (.str [104])) (some (.string [104])) := .value rfl

/-! #### DataView -/

/-- A sequence of assignments to a `DataView`; `none` if one of them does not compile. -/
def Slot.assignsView (cfg : Cfg) : Slot → List CVal → Option (Res Slot)
  | s, [] => some (.ok s)
  | s, v :: vs =>
    match s.assignView cfg v with
    | none => none
    | some (.error e) => some (.error e)
    | some (.ok s') => s'.assignsView cfg vs

/-- Specification: a `DataView` that shows the value `v`: the tag names its type, `Get<T>()` returns it (strings and bytes as
a `string_view`) exactly for its type, a request for the other of string and bytes throws, and nothing is owned. -/
def Slot.Shows (s : Slot) (v : CVal) : Prop :=
  s.dt = v.shown.1.dt ∧ s.live = 0 ∧ ∀ t, t ≠ .custom → viewGet t s.dt s.buf = some (
    if t = v.shown.1 then .ok (some v.shown.2.seen)
    else if t ∈ [CType.string, CType.bytes] ∧ v.shown.1 ∈ [CType.string, CType.bytes] then .error (.exn .viewTypeMismatch)
    else .ok none)

/-- Values a `DataView` can be made from without a precondition of the library being violated: no user-defined type, a `char`
array only with a NUL in it, and an empty byte array only without bounds assertions. -/
def CVal.Viewable (cfg : Cfg) : CVal → Prop
  | .custom _ => False
  | .chars a => 0 ∈ a
  | .bytes b => cfg.hardened = true → b ≠ []
  | _ => True

theorem viewOfVal_ok {cfg : Cfg} {v : CVal} (h : v.Viewable cfg) : ∃ d, viewOfVal cfg v = some (.ok d) := by
  cases v with
  | bytes b =>
    simp only [CVal.Viewable] at h
    refine ⟨(BRIDGE_BYTES, .view ⟨b, none⟩), ?_⟩
    simp only [viewOfVal]
    rw [if_neg]
    intro hh
    simp only [Bool.and_eq_true, List.isEmpty_iff] at hh
    exact h hh.1 hh.2
  | custom b => simp [CVal.Viewable] at h
  | chars a =>
    simp only [CVal.Viewable] at h
    exact ⟨(BRIDGE_STRING, .view ⟨a.takeWhile (· ≠ 0), none⟩), by simp only [viewOfVal, if_pos h]⟩
  | _ => exact ⟨_, rfl⟩

theorem shows_of {cfg : Cfg} {v : CVal} {d : UInt8 × Payload} (h : viewOfVal cfg v = some (.ok d)) (s : Slot) (hs : s.live = 0) :
    (({ s with dt := d.1 } : Slot).construct d.2).Shows v := by
  obtain ⟨dt, p⟩ := d
  refine ⟨?_, ?_, ?_⟩
  · cases v <;> simp only [viewOfVal, Option.some.injEq, reduceCtorEq] at h
    case bytes => split at h <;> simp only [Except.ok.injEq, Prod.mk.injEq, reduceCtorEq] at h; simp only [Slot.construct, ← h.1]; rfl
    case chars => split at h <;> simp only [Except.ok.injEq, Prod.mk.injEq, reduceCtorEq] at h; simp only [Slot.construct, ← h.1]; rfl
    all_goals simp only [Except.ok.injEq, Prod.mk.injEq] at h; simp only [Slot.construct, ← h.1]; rfl
  · cases v <;> simp only [viewOfVal, Option.some.injEq, reduceCtorEq] at h
    case bytes => split at h <;> simp only [Except.ok.injEq, Prod.mk.injEq, reduceCtorEq] at h; simp [Slot.construct, ← h.2, hs, Payload.owning]
    case chars => split at h <;> simp only [Except.ok.injEq, Prod.mk.injEq, reduceCtorEq] at h; simp [Slot.construct, ← h.2, hs, Payload.owning]
    all_goals simp only [Except.ok.injEq, Prod.mk.injEq] at h; simp [Slot.construct, ← h.2, hs, Payload.owning]
  · intro t ht
    have h1 := (C21_typed_reads_in_situ cfg v dt p h t).1 ht
    have h2 := ckGetView_eq t ht (.data true dt p)
    rw [h1] at h2
    exact h2.symm

/-- C22 for `DataView`: after any sequence of assignments the last value is shown, with its type, and nothing is owned. -/
theorem C22_last_view_wins (cfg : Cfg) (v : CVal) (s : Slot) (hs : Slot.viewOf cfg v = some (.ok s)) (vs : List CVal)
    (hv : ∀ u ∈ vs, u.Viewable cfg) :
    ∃ s', s.assignsView cfg vs = some (.ok s') ∧ s'.Shows ((v :: vs).getLast (by simp)) := by
  have h0 : s.Shows v := by
    simp only [Slot.viewOf, Option.map_eq_some_iff] at hs
    obtain ⟨r, h1, h2⟩ := hs
    cases r with
    | error e => simp [error_bind] at h2
    | ok d =>
      simp only [ok_bind, pure_eq_ok, Except.ok.injEq] at h2
      subst h2
      exact shows_of h1 {} rfl
  clear hs
  induction vs generalizing s v with
  | nil => exact ⟨s, rfl, h0⟩
  | cons u us ih =>
    obtain ⟨d, hd⟩ := viewOfVal_ok (hv u (by simp))
    have h1 := shows_of hd s h0.2.1
    obtain ⟨s', h2, h3⟩ := ih u _ (fun w hw => hv w (by simp [hw])) h1
    refine ⟨s', ?_, by simpa using h3⟩
    simp only [Slot.assignsView, Slot.assignView, hd, Option.map_some, ok_bind, pure_eq_ok]
    exact h2

example : ∃ s, Slot.viewOf Cfg.x86 (.string [104]) = some (.ok s) ∧
    s.assignsView Cfg.x86 [.i32 5, .bytes [1, 2]] = some (.ok { dt := BRIDGE_BYTES, buf := .view ⟨[1, 2], none⟩, live := 0 }) :=
  ⟨_, rfl, rfl⟩

/-! ### C23 -/

/-- C23. What a user expects is false: when a `Data` is destroyed (and a pool that is cleared does no more than that, see C37),
the heap payload of a string, byte array or user-defined value is never released, after any history. -/
theorem C23_payload_leaks (s : Slot) (start : Option CVal) (hs : s.Start start) (vs : List CVal)
    (hv : ∀ v ∈ vs, ∀ b, v ≠ .strView b) (v : CVal) (hl : (start.toList ++ vs).getLast? = some v) :
    ∃ s', s.assigns vs = some (.ok s') ∧ s'.destroy = if v.stored.1.onHeap then 1 else 0 := by
  obtain ⟨s', h1, h2⟩ := C22_last_value_wins s start hs vs hv
  rw [hl] at h2
  exact ⟨s', h1, h2.2.2⟩

example : ∃ s', (({ dt := BRIDGE_INT32 } : Slot).construct (.i32 7)).assigns [.string [104, 105]] = some (.ok s') ∧ s'.destroy = 1 :=
  ⟨_, rfl, rfl⟩

/-- C23: what does hold. A history leaks at most one payload per `Data`: every payload that was replaced by an assignment was
released, and a `Data` that last held a number, or nothing, leaks nothing. -/
theorem C23_replaced_payloads_are_released (s : Slot) (start : Option CVal) (hs : s.Start start) (vs : List CVal)
    (hv : ∀ v ∈ vs, ∀ b, v ≠ .strView b) :
    ∃ s', s.assigns vs = some (.ok s') ∧ s'.destroy ≤ 1 ∧
      (s'.destroy = 1 ↔ ∃ v, (start.toList ++ vs).getLast? = some v ∧ v.stored.1.onHeap = true) := by
  obtain ⟨s', h1, h2⟩ := C22_last_value_wins s start hs vs hv
  refine ⟨s', h1, ?_⟩
  cases hl : (start.toList ++ vs).getLast? with
  | none =>
    rw [hl] at h2
    have : s'.destroy = 0 := h2.2
    simp [this]
  | some v =>
    rw [hl] at h2
    have : s'.destroy = if v.stored.1.onHeap then 1 else 0 := h2.2.2
    rw [this]
    by_cases h : v.stored.1.onHeap = true <;> simp [h]

/-! ### C51 -/

/-- C51. A character array that ends in NUL is stored without that NUL, inner NULs included; any other array is stored whole;
a `std::string` is stored byte for byte. -/
theorem C51_character_arrays (s : Bytes) :
    (dataOfVal (.chars (s ++ [0]))).map (fun d => dataGet .string d.1 d.2) = some (.ok (some (.string s))) ∧
      (s.getLast? ≠ some 0 → (dataOfVal (.chars s)).map (fun d => dataGet .string d.1 d.2) = some (.ok (some (.string s)))) ∧
      (dataOfVal (.string s)).map (fun d => dataGet .string d.1 d.2) = some (.ok (some (.string s))) := by
  refine ⟨?_, ?_, rfl⟩
  · have : charsToString (s ++ [0]) = s := by simp [charsToString]
    simp only [dataOfVal, this]
    rfl
  · intro h
    have : charsToString s = s := by simp [charsToString, h]
    simp only [dataOfVal, this]
    rfl

/-- C51: what was stored survives a round trip: `Data` made from the C string `s` followed by NUL, serialized and parsed, reads
back as `s`. -/
theorem C51_round_trip (w r : Cfg) (hw : w.charSigned = true) (t : SeriType) (s : Bytes) (d : UInt8 × Payload)
    (hd : dataOfVal (.chars (s ++ [0])) = some d) :
    ∃ content, serialize w t (.data false d.1 d.2) = .ok content ∧
      (Fits r content → ∃ o, Parses r {} content (.ok o) ∧ o.ckGet .string = .ok (some (.string s))) := by
  have hc : charsToString (s ++ [0]) = s := by simp [charsToString]
  simp only [dataOfVal, hc, Option.some.injEq] at hd
  subst hd
  have hdoc : (Obj.data false BRIDGE_STRING (.str s)).doc? = some (.scalar (.string s)) := rfl
  refine ⟨_, serialize_eq hw t hdoc (by simp [Obj.Hard, leafHard]), fun hf => ?_⟩
  obtain ⟨o, h1, h2, h3⟩ := parses_normal (extra := []) (by simpa using hf) false (by simp) 1
  refine ⟨o, by simpa using h1, ?_⟩
  simp only [Doc.revMaps] at h2
  cases o with
  | null => simp [Obj.doc?] at h2
  | array pool size items => obtain ⟨xs, h4, _⟩ := array_doc h2; cases h4
  | map ref pool size items => obtain ⟨xs, h4, _⟩ := map_doc h2; cases h4
  | data ref dt p =>
    simp only [Obj.Built] at h3
    have := C21_leaf_is_its_value ref dt p _ h2 .string (by simp)
    rw [h3.1] at this ⊢
    simpa [scalarVal] using this

/-- C51: an in-situ value made from a character array shows the part before the first NUL, and if there is no NUL the
constructor reads beyond the array. -/
theorem C51_character_array_views (cfg : Cfg) (s rest : Bytes) (hs : (0 : UInt8) ∉ s) :
    (viewOfVal cfg (.chars (s ++ 0 :: rest))) = some (.ok (BRIDGE_STRING, .view ⟨s, none⟩)) ∧
      (viewOfVal cfg (.chars s)) = some (.error (.ub .readOutOfBounds)) := by
  refine ⟨?_, by simp [viewOfVal, hs]⟩
  have : (s ++ 0 :: rest).takeWhile (· ≠ 0) = s := by
    induction s with
    | nil => simp
    | cons b s ih =>
      simp only [List.mem_cons, not_or] at hs
      have hb : b ≠ 0 := fun e => hs.1 e.symm
      simp only [List.cons_append, List.takeWhile_cons, ne_eq, hb, not_false_eq_true, decide_true, if_true]
      congr 1
      exact ih hs.2
  simp only [viewOfVal, List.mem_append, List.mem_cons, true_or, or_true, if_true, this]

example : (0 : UInt8) ∉ [104, 105] ∧ dataOfVal (.chars [104, 0, 105, 0]) = some (BRIDGE_STRING, .str [104, 0, 105]) ∧
    viewOfVal Cfg.x86 (.chars [104, 0, 105, 0]) = some (.ok (BRIDGE_STRING, .view ⟨[104], none⟩)) := by decide +kernel

end Bridge
