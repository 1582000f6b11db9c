import Verif.Props.Reject
import Verif.Proof.Sound
import Verif.Props.UserType
/-
C65: an assignment to a `Data` in which the conversion of the new value throws.
-/
set_option autoImplicit false
namespace Bridge
open Spec

/-- The heap-allocated types are the ones whose construction can throw; none of the slots reachable by C22's histories has a
payload that fits the new tag any more. -/
theorem assignThrow_state {s : Slot} {o : Option CVal} (h : s.Inv o) {t : CType} (ht : t.onHeap = true) :
    ∃ p, s.assignThrow t = .ok { dt := t.dt, buf := p, live := 0 } ∧ p.owning = false ∧ ∀ q, p ≠ .view q := by
  cases o with
  | none =>
    simp only [Slot.Inv] at h; subst h
    exact ⟨.none, rfl, rfl, by simp⟩
  | some u =>
    obtain ⟨h1, h2⟩ := h
    obtain ⟨sdt, sbuf, slive⟩ := s
    have h2' : slive = if sbuf.owning = true then 1 else 0 := h2
    simp only at h1
    subst h2'
    cases u <;> simp only [dataOfVal, Option.some.injEq, Prod.mk.injEq, reduceCtorEq] at h1 <;>
      obtain ⟨rfl, rfl⟩ := h1 <;>
      simp [Slot.assignThrow, Slot.destructByDatatype, Slot.destructString, Slot.destructVec, Payload.owning, BRIDGE_BYTES,
        BRIDGE_STRING, BRIDGE_INT32, BRIDGE_UINT32, BRIDGE_INT64, BRIDGE_UINT64, BRIDGE_FLOAT, BRIDGE_DOUBLE, BRIDGE_CUSTOM,
        ok_bind, pure_eq_ok]

/-- C65. Take a `Data` created in any way, after any sequence of successful assignments, and let one more assignment (of a
user-defined value, a string or a byte array) throw while the new value is made.  The assignment itself is defined and leaks
nothing, but the object is lost: it claims to hold a value of the new type, reading that value is undefined behaviour (every other
read returns nothing), and so is every later assignment, whatever its value: nothing repairs the object.  Only its destruction
remains. -/
theorem C65_throwing_assignment_poisons (s : Slot) (start : Option CVal) (hs : s.Start start) (vs : List CVal)
    (hv : ∀ v ∈ vs, ∀ b, v ≠ .strView b) (t : CType) (ht : t.onHeap = true) :
    ∃ s' s'', s.assigns vs = some (.ok s') ∧ s'.assignThrow t = .ok s'' ∧ s''.dt = t.dt ∧ s''.destroy = 0 ∧
      s''.get t = .error (.ub .wrongVariant) ∧ (∀ u, u ≠ t → s''.get u = .ok none) ∧
      (∀ v, (∀ b, v ≠ .strView b) → s''.assignValue v = some (.error (.ub .wrongVariant))) ∧
      (∀ u, s''.assignThrow u = .error (.ub .wrongVariant)) := by
  have key : ∀ (vs : List CVal) (s : Slot) (o : Option CVal), s.Inv o → (∀ v ∈ vs, ∀ b, v ≠ .strView b) →
      ∃ s' o', s.assigns vs = some (.ok s') ∧ s'.Inv o' := by
    intro vs
    induction vs with
    | nil => intro s o h _; exact ⟨s, o, rfl, h⟩
    | cons v vs ih =>
      intro s o h hv
      obtain ⟨s1, h1, h2⟩ := h.assign (hv v (by simp))
      obtain ⟨s', o', h3, h4⟩ := ih s1 (some v) h2 (fun w hw => hv w (by simp [hw]))
      exact ⟨s', o', by simp [Slot.assigns, h1, h3], h4⟩
  obtain ⟨s', o', h1, h2⟩ := key vs s start hs.inv hv
  obtain ⟨p, h3, h4, h5⟩ := assignThrow_state h2 ht
  have hd : (Slot.mk t.dt p 0).destructByDatatype = .error (.ub .wrongVariant) := by
    cases t <;> simp [CType.onHeap] at ht <;> cases p <;> simp [Payload.owning] at h4 <;>
      simp [Slot.destructByDatatype, CType.dt, Slot.destructString, Slot.destructVec, BRIDGE_STRING, BRIDGE_CUSTOM, BRIDGE_BYTES]
  refine ⟨s', _, h1, h3, rfl, rfl, ?_, ?_, ?_, ?_⟩
  · cases t <;> simp [CType.onHeap] at ht <;> cases p <;> simp [Payload.owning] at h4 <;>
      simp [Slot.get, dataGet, payloadGet, error_bind]
  · intro u hu
    have : u.dt ≠ t.dt := by
      intro h
      apply hu
      revert h
      cases u <;> cases t <;> decide
    simp [Slot.get, dataGet, this]
  · intro v hv
    have : ∃ d, dataOfVal v = some d := by
      cases v <;> simp [dataOfVal] at hv ⊢
    obtain ⟨d, hd'⟩ := this
    simp only [Slot.assignValue, hd', Option.map_some, hd, error_bind]
  · intro u
    simp only [Slot.assignThrow, hd, error_bind]

/-- What serializing a tree needs: each of its nodes is serialized along the way. -/
theorem valueSeri_below (cfg : Cfg) {o x : Obj} (h : o.Below x) :
    ∀ st r, valueSeri cfg o st = .ok r → ∃ st' r', valueSeri cfg x st' = .ok r' := by
  have child : ∀ (c : Obj) (st st' : SState), seriChild c (valueSeri cfg c) st = .ok st' →
      ∃ st1 r1, valueSeri cfg c st1 = .ok r1 := by
    intro c st st' h
    unfold seriChild at h
    split at h
    · cases h
    · simp only at h
      obtain ⟨⟨st1, sp⟩, h1, _⟩ := bind_ok h
      exact ⟨_, _, h1⟩
  have items : ∀ (l : List Obj) (c : Obj), c ∈ l → ∀ st cur bl r, seriItems cfg l st cur bl = .ok r →
      ∃ st1 r1, valueSeri cfg c st1 = .ok r1 := by
    intro l c
    induction l with
    | nil => intro hc; cases hc
    | cons a l ih =>
      intro hc st cur bl r h
      rw [seriItems] at h
      obtain ⟨st1, h1, h2⟩ := bind_ok h
      rcases List.mem_cons.1 hc with rfl | hc
      · exact child _ _ _ h1
      · exact ih hc _ _ _ _ h2
  have kvs : ∀ (l : List (Str × Obj)) (k : Str) (c : Obj), (k, c) ∈ l → ∀ st cur bl r, seriKVs cfg l st cur bl = .ok r →
      ∃ st1 r1, valueSeri cfg c st1 = .ok r1 := by
    intro l k c
    induction l with
    | nil => intro hc; cases hc
    | cons a l ih =>
      obtain ⟨k', a⟩ := a
      intro hc st cur bl r h
      rw [seriKVs] at h
      obtain ⟨st0, h0, h⟩ := bind_ok h
      obtain ⟨st1, h1, h2⟩ := bind_ok h
      rcases List.mem_cons.1 hc with hc | hc
      · cases hc; exact child _ _ _ h1
      · exact ih hc _ _ _ _ h2
  induction h with
  | self => intro st r h; exact ⟨st, r, h⟩
  | item hm _ ih =>
    intro st r h
    rw [valueSeri] at h
    obtain ⟨st0, h0, h⟩ := bind_ok h
    obtain ⟨⟨id, st1⟩, h1, h⟩ := bind_ok h
    obtain ⟨⟨st2, cur, bl⟩, h2, h⟩ := bind_ok h
    obtain ⟨st3, r3, h3⟩ := items _ _ hm _ _ _ _ h2
    exact ih _ _ h3
  | entry hm _ ih =>
    intro st r h
    rw [valueSeri] at h
    obtain ⟨st0, h0, h⟩ := bind_ok h
    obtain ⟨⟨id, st1⟩, h1, h⟩ := bind_ok h
    obtain ⟨⟨st2, cur, bl⟩, h2, h⟩ := bind_ok h
    obtain ⟨st3, r3, h3⟩ := kvs _ _ _ hm _ _ _ _ h2
    exact ih _ _ h3

/-- C65. A tree that contains such an object can not be serialized any more: `Serialize` never returns a document for it, in
either mode; on the object itself it is undefined behaviour. -/
theorem C65_poisoned_tree_not_serializable (s : Slot) (start : Option CVal) (hs : s.Start start) (t : CType) (ht : t.onHeap = true)
    (s' : Slot) (h : s.assignThrow t = .ok s') (cfg : Cfg) (m : SeriType) (o : Obj)
    (hb : o.Below (.data false s'.dt s'.buf)) : (∀ c, serialize cfg m o ≠ .ok c) ∧
      ∀ st, valueSeri cfg (.data false s'.dt s'.buf) st = .error (.ub .wrongVariant) := by
  obtain ⟨p, h1, h2, h3⟩ := assignThrow_state hs.inv ht
  rw [h1] at h
  cases h
  have leaf : ∀ st, valueSeri cfg (.data false t.dt p) st = .error (.ub .wrongVariant) := by
    intro st
    obtain ⟨outer, sm, si⟩ := st
    rw [valueSeri]
    cases t <;> simp [CType.onHeap] at ht <;> cases p <;> simp [Payload.owning] at h2 <;> cases sm <;>
      simp [dataSeri, checkDataType, CType.dt, BRIDGE_STRING, BRIDGE_BYTES, BRIDGE_CUSTOM, BRIDGE_INT32, BRIDGE_UINT32,
        BRIDGE_INT64, BRIDGE_UINT64, BRIDGE_FLOAT, BRIDGE_DOUBLE, seriDataOwn, ok_bind, error_bind, pure_eq_ok]
  refine ⟨?_, leaf⟩
  intro c hc
  unfold serialize at hc
  obtain ⟨⟨st, split⟩, h4, _⟩ := bind_ok hc
  have hb' : (rootOf o).Below (.data false t.dt p) := .entry (k := ⟨rootKey, none⟩) (by simp [rootOf]) hb
  obtain ⟨st', r', h5⟩ := valueSeri_below cfg hb' _ _ h4
  rw [leaf] at h5
  cases h5

/-- C65: reading is not affected by an exception.  `Get<T>` whose `ConstructFromBridge` throws leaves the `Data` as it is (it is
`const`), and the same call can be repeated, or answered by another type. -/
theorem C65_throwing_get_passes_on {α : Type} (T : UserType α) (b : Bytes) (e : Err) (h : T.fromBridge b = .error e) :
    (Obj.data false BRIDGE_CUSTOM (.vec b)).getUser T = .error e ∧
    ∀ {β : Type} (U : UserType β) (x : β), U.fromBridge b = .ok x →
      (Obj.data false BRIDGE_CUSTOM (.vec b)).getUser U = .ok (some x) := by
  have hr : (Obj.data false BRIDGE_CUSTOM (.vec b)).read .custom = .ok (some (.custom b)) := by
    simp [Obj.read, Obj.wGet, dataGet, CType.dt, payloadGet, ok_bind, pure_eq_ok]
  refine ⟨?_, fun U x hx => ?_⟩
  · rw [getUser_custom T hr, h]; rfl
  · rw [getUser_custom U hr, hx]; rfl

/-- A `Data` with the string "hi", to which a user-defined value is assigned whose `SerializeToBridge` throws, inside an array. -/
example : (({ dt := BRIDGE_STRING } : Slot).construct (.str [104, 105])).assignThrow .custom =
      .ok { dt := BRIDGE_CUSTOM, buf := .none, live := 0 } ∧
    Slot.Start (({ dt := BRIDGE_STRING } : Slot).construct (.str [104, 105])) (some (.string [104, 105])) ∧
    (Obj.array .caller 1 [.data false BRIDGE_CUSTOM .none]).Below (.data false BRIDGE_CUSTOM .none) ∧
    testStruct.fromBridge [1] = .error (.exn .viewTypeMismatch) ∧ rawStruct.fromBridge [1] = .ok [1] :=
  ⟨rfl, .value rfl, .item (c := .data false BRIDGE_CUSTOM .none) (by simp) .self, rfl, rfl⟩

end Bridge
