import Verif.Props.Wrapper
/-
C20: what the observers of a wrapper and its iterators return, and the downcasts `AsMap`, `AsArray`, `AsData`.
-/
set_option autoImplicit false
namespace Bridge
open Spec

/-- `k` times `operator++`. -/
def WIter.advance : Nat → WIter → Res WIter
  | 0, it => .ok it
  | k + 1, it => do
    let it ← it.next
    it.advance k

theorem advance_array (xs : List Obj) : ∀ k, k ≤ xs.length → WIter.advance k (.array xs) = .ok (.array (xs.drop k)) := by
  induction xs with
  | nil => intro k hk; simp only [List.length_nil, Nat.le_zero] at hk; subst hk; rfl
  | cons x xs ih =>
    intro k hk
    cases k with
    | zero => rfl
    | succ k =>
      simp only [WIter.advance, WIter.next, ok_bind, List.drop_succ_cons]
      exact ih k (by simpa using hk)

theorem advance_map (xs : List (Str × Obj)) : ∀ k, k ≤ xs.length → WIter.advance k (.map xs) = .ok (.map (xs.drop k)) := by
  induction xs with
  | nil => intro k hk; simp only [List.length_nil, Nat.le_zero] at hk; subst hk; rfl
  | cons x xs ih =>
    intro k hk
    cases k with
    | zero => rfl
    | succ k =>
      simp only [WIter.advance, WIter.next, ok_bind, List.drop_succ_cons]
      exact ih k (by simpa using hk)

/-- C20. `Size` and `GetIterator` of an array: the iterator visits exactly its elements, newest first; it is valid before
the end and not valid at the end, and asking for a key throws wherever it stands. -/
theorem C20_array_observers (pool : PoolRef) (size : Nat) (items : List Obj) :
    (Obj.array pool size items).ckSize = .ok (some size) ∧
      ∃ it, (Obj.array pool size items).ckIter = .ok (some it) ∧
        ∀ k, k ≤ items.length → ∃ it', it.advance k = .ok it' ∧ it'.key = .error (.exn .iteratorGetKey) ∧
          (it'.valid = true ↔ k < items.length) ∧ ∀ v, items[k]? = some v → it'.value = .ok v := by
  refine ⟨by simp [Obj.ckSize, Obj.isNull, Obj.derefType, Obj.castArray, ok_bind, pure_eq_ok], .array items, ?_, ?_⟩
  · simp [Obj.ckIter, Obj.isNull, Obj.derefType, Obj.castArray, ok_bind, pure_eq_ok]
  · intro k hk
    refine ⟨_, advance_array items k hk, rfl, ?_, ?_⟩
    · simp [WIter.valid]
    · intro v hv
      have : items.drop k = v :: items.drop (k + 1) := by
        obtain ⟨hlt, rfl⟩ := List.getElem?_eq_some_iff.1 hv
        exact List.drop_eq_getElem_cons hlt
      rw [this]
      rfl

/-- C20. The same for a map, owning or in situ: keys and values are visited in the order of the entries, newest first. -/
theorem C20_map_observers (ref : Bool) (pool : PoolRef) (size : Nat) (items : List (Str × Obj)) :
    (Obj.map ref pool size items).ckSize = .ok (some size) ∧
      ∃ it, (Obj.map ref pool size items).ckIter = .ok (some it) ∧
        ∀ k, k ≤ items.length → ∃ it', it.advance k = .ok it' ∧ (it'.valid = true ↔ k < items.length) ∧
          ∀ s v, items[k]? = some (s, v) → it'.key = .ok s.bytes ∧ it'.value = .ok v := by
  refine ⟨by cases ref <;> simp [Obj.ckSize, Obj.isNull, Obj.derefType, Obj.derefRef, Obj.castMap, ok_bind, pure_eq_ok], .map items, ?_, ?_⟩
  · cases ref <;> simp [Obj.ckIter, Obj.isNull, Obj.derefType, Obj.derefRef, Obj.castMap, ok_bind, pure_eq_ok]
  · intro k hk
    refine ⟨_, advance_map items k hk, ?_, ?_⟩
    · simp [WIter.valid]
    · intro s v hv
      have : items.drop k = (s, v) :: items.drop (k + 1) := by
        obtain ⟨hlt, h⟩ := List.getElem?_eq_some_iff.1 hv
        rw [← h]
        exact List.drop_eq_getElem_cons hlt
      rw [this]
      exact ⟨rfl, rfl⟩

/-- C20. A wrapper that is empty or holds a value has no size, no iterator and no member. -/
theorem C20_no_container (o : Obj) (h : o.type? ≠ some .array ∧ o.type? ≠ some .map) (s : Step) :
    o.ckSize = .ok none ∧ (∃ r, o.ckIter = .ok r ∧ r.isNone) ∧ o.ckStep s = .ok .null := by
  cases o with
  | array => simp [Obj.type?] at h
  | map => simp [Obj.type?] at h
  | null => cases s <;> simp [Obj.ckSize, Obj.ckIter, Obj.ckStep, Obj.ckKey, Obj.ckIdx, Obj.isNull]
  | data => cases s <;> simp [Obj.ckSize, Obj.ckIter, Obj.ckStep, Obj.ckKey, Obj.ckIdx, Obj.isNull, Obj.derefType, ok_bind, pure_eq_ok]

/-- C20. `AsMap`, `AsArray` and `AsData` return the object itself if it is an owning map, an array, or an owning value, and
`nullptr` for every other object; only the null pointer must not be passed to them. -/
theorem C20_downcasts (o : Obj) (h : o ≠ .null) :
    (∀ m, o.asMap = .ok (some m) ↔ o = .map false m.pool m.size m.items ∧ m.ref = false) ∧
      (o.asMap = .ok none ↔ ∀ pool size items, o ≠ .map false pool size items) ∧
      (∀ a, o.asArray = .ok (some a) ↔ o = .array a.pool a.size a.items) ∧
      (o.asArray = .ok none ↔ ∀ pool size items, o ≠ .array pool size items) ∧
      (∀ d, o.asData = .ok (some d) ↔ o = .data false d.1 d.2) ∧
      (o.asData = .ok none ↔ ∀ dt p, o ≠ .data false dt p) := by
  cases o with
  | null => exact absurd rfl h
  | data ref dt p => cases ref <;> simp [Obj.asMap, Obj.asArray, Obj.asData, Prod.ext_iff]
  | array pool size items =>
    refine ⟨by simp [Obj.asMap], by simp [Obj.asMap], ?_, by simp [Obj.asArray], by simp [Obj.asData], by simp [Obj.asData]⟩
    intro a; cases a; simp [Obj.asArray]
  | map ref pool size items =>
    cases ref
    · refine ⟨?_, by simp [Obj.asMap], by simp [Obj.asArray], by simp [Obj.asArray], by simp [Obj.asData], by simp [Obj.asData]⟩
      intro m; cases m
      simp only [Obj.asMap, Except.ok.injEq, Option.some.injEq, MapS.mk.injEq, Obj.map.injEq, true_and]
      constructor
      · rintro ⟨rfl, rfl, rfl, rfl⟩; simp
      · rintro ⟨⟨rfl, rfl, rfl⟩, rfl⟩; simp
    · simp [Obj.asMap, Obj.asArray, Obj.asData]

/-- The sample tree: its iterator visits three entries; the array below the key `k` has an iterator without keys. -/
example : ∃ o, sampleObj.ckPath [.key [107]] = .ok o ∧ o.ckSize = .ok (some 2) ∧
    ∃ it, o.ckIter = .ok (some it) ∧ it.key = .error (.exn .iteratorGetKey) ∧ it.valid = true := by
  refine ⟨_, by simp only [Obj.ckPath, Obj.ckStep, ckKey_eq, ok_bind]; rfl, ckSize_eq _, _, ckIter_eq _, ?_, ?_⟩
  · rfl
  · rfl

end Bridge
