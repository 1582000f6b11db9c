import Verif.Model.UserType
import Verif.Props.Paths
import Verif.Props.Wrapper
/-
C55: values of user-defined types.
-/
set_option autoImplicit false
namespace Bridge
open Spec

/-- What `Get<T>` of a user-defined type depends on. -/
theorem getUser_read {α : Type} (T : UserType α) (o : Obj) (h : ∀ dt p, o ≠ .data true dt p) :
    o.getUser T = (o.read .custom >>= fun v =>
      match v with
      | some (.custom b) => T.fromBridge b >>= fun a => pure (some a)
      | _ => pure none) := by
  unfold Obj.getUser
  rw [ckGet_eq]
  cases o with
  | data ref dt p =>
    cases ref with
    | true => exact absurd rfl (h dt p)
    | false => rfl
  | _ => rfl

/-- A place that reads as a custom value with these bytes. -/
theorem getUser_custom {α : Type} (T : UserType α) {o : Obj} {b : Bytes} (h : o.read .custom = .ok (some (.custom b))) :
    o.getUser T = (T.fromBridge b >>= fun a => pure (some a)) := by
  rw [getUser_read T o, h]
  · rfl
  · rintro dt p rfl
    simp [Obj.read, Obj.wGetView, viewGet] at h

theorem read_dataOfUser {α : Type} (T : UserType α) (a : α) :
    (dataOfUser T a).read .custom = .ok (some (.custom (T.toBridge a))) := by
  simp [dataOfUser, Obj.read, Obj.wGet, dataGet, CType.dt, payloadGet, ok_bind, pure_eq_ok]

/-- C55. A value of a user-defined type stored anywhere in a tree is, after `Serialize` with either encoding and an owning
`Parse` with either parser, what `ConstructFromBridge` makes of exactly the bytes `SerializeToBridge` gave; hence the value
itself if the two functions of the type are inverse on it, and their exception if the former throws. -/
theorem C55_custom_roundtrip {α : Type} (T : UserType α) (a : α) (w r : Cfg) (hw : w.charSigned = true) (t : SeriType) (o : Obj)
    (d : Doc) (hd : o.doc? = some d) (hh : Writable w o) (hk : d.DistinctKeys) (co : Bool) (k : Nat) (hk0 : 0 < k)
    (p : List Step) (hp : o.wPath p = dataOfUser T a) :
    ∃ content, serialize w t o = .ok content ∧
      (Fits r content → ∃ o', Parses r ⟨co, false, k⟩ content (.ok o') ∧
        (∀ {β : Type} (U : UserType β), (o'.wPath p).getUser U = (U.fromBridge (T.toBridge a) >>= fun x => .ok (some x))) ∧
        (T.fromBridge (T.toBridge a) = .ok a → (o'.wPath p).getUser T = .ok (some a)) ∧
        (∀ e, T.fromBridge (T.toBridge a) = .error e → (o'.wPath p).getUser T = .error e)) := by
  obtain ⟨content, h1, h2⟩ := C15_paths_preserved w r hw t o d hd hh hk false (by simp) co k hk0
  refine ⟨content, h1, fun hf => ?_⟩
  obtain ⟨o', h3, h4⟩ := h2 hf
  have hr : (o'.wPath p).read .custom = .ok (some (.custom (T.toBridge a))) := by
    rw [← (h4 p).2.2.2, hp]
    exact read_dataOfUser T a
  refine ⟨o', h3, fun U => getUser_custom U hr, fun h => ?_, fun e h => ?_⟩
  · rw [getUser_custom T hr, h]; rfl
  · rw [getUser_custom T hr, h]; rfl

/-- C55. Before serialization too, `Get<T>` gives what `ConstructFromBridge` makes of the bytes; the library does not record
*which* user-defined type a value has, so `Get<U>` of another user-defined type runs `U`'s `ConstructFromBridge` on them. -/
theorem C55_types_not_distinguished {α β : Type} (T : UserType α) (U : UserType β) (a : α) :
    (dataOfUser T a).getUser U = (U.fromBridge (T.toBridge a) >>= fun x => .ok (some x)) :=
  getUser_custom U (read_dataOfUser T a)

/-- C55. `Get<T>` of a user-defined type runs no user code and returns nothing at every place that does not hold an owning
value of a user-defined type: a missing place, a container, a scalar of another type and any in-situ value. -/
theorem C55_no_other_place {α : Type} (T : UserType α) (o : Obj) (h : ∀ b, o ≠ .data false BRIDGE_CUSTOM b) :
    o.getUser T = .ok none := by
  unfold Obj.getUser
  rw [ckGet_eq]
  cases o with
  | data ref dt p =>
    cases ref with
    | true => rfl
    | false =>
      have hne : dt ≠ BRIDGE_CUSTOM := by rintro rfl; exact h p rfl
      simp [Obj.wGet, dataGet, CType.dt, Ne.symm hne, ok_bind, pure_eq_ok]
  | _ => rfl

/-- test/object_test.cc:113-127 `TestStruct`: one character, followed by "hello"; `ConstructFromBridge` (here with a check of
the length) takes the first character. -/
def testStruct : UserType UInt8 where
  toBridge c := [c, 104, 101, 108, 108, 111]
  fromBridge
    | [c, 104, 101, 108, 108, 111] => .ok c
    | _ => .error (.exn .viewTypeMismatch)

/-- A second user-defined type: any bytes at all. -/
def rawStruct : UserType Bytes where
  toBridge b := b
  fromBridge b := .ok b

/-- `{"v": [TestStruct{'x'}]}`. -/
def userObj : Obj :=
  .map false .caller 1 [(⟨[118], none⟩, .array .caller 1 [dataOfUser testStruct 120])]

example : userObj.wPath [.key [118], .index 0] = dataOfUser testStruct 120 ∧
    testStruct.fromBridge (testStruct.toBridge 120) = .ok 120 ∧
    (∃ d, userObj.doc? = some d ∧ d.DistinctKeys) ∧
    (dataOfUser testStruct 120).getUser rawStruct = .ok (some [120, 104, 101, 108, 108, 111]) ∧
    (dataOfUser rawStruct [1]).getUser testStruct = .error (.exn .viewTypeMismatch) := by
  refine ⟨rfl, rfl, ⟨.map [([118], .array [.scalar (.custom [120, 104, 101, 108, 108, 111])])], rfl, ?_⟩, rfl, rfl⟩
  simp [Doc.DistinctKeys, distinctKeysE, distinctKeysL]

end Bridge
