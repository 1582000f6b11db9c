import Verif.Model.Wrapper
import Verif.Props.Paths
/-
C20, C21: the read-only API.
-/
set_option autoImplicit false
namespace Bridge
open Spec

/-! ### The checked functions compute what Model/Object.lean says -/

theorem ckType_eq (o : Obj) : o.ckType = .ok o.wType := by
  cases o <;> simp [Obj.ckType, Obj.isNull, Obj.derefType, Obj.wType, Obj.type?, ok_bind, pure_eq_ok]

theorem ckKey_eq (o : Obj) (k : Bytes) : o.ckKey k = .ok (o.wKey k) := by
  cases o with
  | map ref pool size items =>
    cases ref <;> simp [Obj.ckKey, Obj.isNull, Obj.derefType, Obj.derefRef, Obj.castMap, Obj.wKey, MapS.get, ok_bind, pure_eq_ok]
  | _ => simp [Obj.ckKey, Obj.isNull, Obj.derefType, Obj.wKey, ok_bind, pure_eq_ok]

theorem ckIdx_eq (o : Obj) (n : Nat) : o.ckIdx n = .ok (o.wIdx n) := by
  cases o <;> simp [Obj.ckIdx, Obj.isNull, Obj.derefType, Obj.castArray, Obj.wIdx, ok_bind, pure_eq_ok]

theorem ckSize_eq (o : Obj) : o.ckSize = .ok o.wSize := by
  cases o with
  | map ref pool size items =>
    cases ref <;> simp [Obj.ckSize, Obj.isNull, Obj.derefType, Obj.derefRef, Obj.castMap, Obj.wSize, ok_bind, pure_eq_ok]
  | _ => simp [Obj.ckSize, Obj.isNull, Obj.derefType, Obj.castArray, Obj.wSize, ok_bind, pure_eq_ok]

theorem ckIter_eq (o : Obj) : o.ckIter = .ok o.wIter := by
  cases o with
  | map ref pool size items =>
    cases ref <;> simp [Obj.ckIter, Obj.isNull, Obj.derefType, Obj.derefRef, Obj.castMap, Obj.wIter, ok_bind, pure_eq_ok]
  | _ => simp [Obj.ckIter, Obj.isNull, Obj.derefType, Obj.castArray, Obj.wIter, ok_bind, pure_eq_ok]

theorem ckGet_eq (t : CType) (o : Obj) : o.ckGet t = o.wGet t := by
  cases o with
  | data ref dt p =>
    cases ref <;> simp [Obj.ckGet, Obj.isNull, Obj.derefType, Obj.derefRef, Obj.castData, Obj.wGet, ok_bind, pure_eq_ok]
  | _ => simp [Obj.ckGet, Obj.isNull, Obj.derefType, Obj.wGet, ok_bind, pure_eq_ok]

theorem ckGetPtr_eq (t : CType) (o : Obj) : o.ckGetPtr t = o.wGetPtr t := by
  cases o with
  | data ref dt p =>
    cases ref <;> simp [Obj.ckGetPtr, Obj.isNull, Obj.derefType, Obj.derefRef, Obj.castData, Obj.wGetPtr, ok_bind, pure_eq_ok]
  | _ => simp [Obj.ckGetPtr, Obj.isNull, Obj.derefType, Obj.wGetPtr, ok_bind, pure_eq_ok]

theorem ckGetView_eq (t : CType) (ht : t ≠ .custom) (o : Obj) : some (o.ckGetView t) = o.wGetView t := by
  cases o with
  | data ref dt p =>
    cases ref <;> cases t <;>
      simp_all [Obj.ckGetView, Obj.isNull, Obj.derefType, Obj.derefRef, Obj.castData, Obj.wGetView, viewGet, ok_bind, pure_eq_ok]
  | _ => simp [Obj.ckGetView, Obj.isNull, Obj.derefType, Obj.wGetView, ht, ok_bind, pure_eq_ok]

/-! ### C20 -/

/-- One `operator[]` of an `ObjectWrapper`. -/
def Obj.ckStep (o : Obj) : Step → Res Obj
  | .key k => o.ckKey k
  | .index n => o.ckIdx n

/-- A chain of `operator[]` calls. -/
def Obj.ckPath (o : Obj) : List Step → Res Obj
  | [] => .ok o
  | s :: p => do
    let o' ← o.ckStep s
    o'.ckPath p

/-- Specification: the member of a container that a step selects.  A key selects the first entry (in iteration order) with
that key; an index counts from the oldest element, the last one in iteration order. -/
inductive Member : Obj → Step → Obj → Prop
  | key {ref : Bool} {pool : PoolRef} {size : Nat} {pre post : List (Str × Obj)} {k : Str} {v : Obj}
      (h : ∀ e ∈ pre, e.1.bytes ≠ k.bytes) : Member (.map ref pool size (pre ++ (k, v) :: post)) (.key k.bytes) v
  | index {pool : PoolRef} {pre post : List Obj} {v : Obj} :
      Member (.array pool (pre ++ v :: post).length (pre ++ v :: post)) (.index post.length) v

/-- Specification: the object a chain of steps leads to. -/
inductive Reaches : Obj → List Step → Obj → Prop
  | here {o : Obj} : Reaches o [] o
  | step {o m r : Obj} {s : Step} {p : List Step} : Member o s m → Reaches m p r → Reaches o (s :: p) r

mutual
/-- Every array and map of the tree counts its elements correctly (`C18`, `C19`). -/
def Obj.Counted : Obj → Prop
  | .null => True
  | .data _ _ _ => True
  | .array _ size items => size = items.length ∧ countedL items
  | .map _ _ _ items => countedE items
/-- `Counted` for every element. -/
def countedL : List Obj → Prop
  | [] => True
  | o :: os => o.Counted ∧ countedL os
/-- `Counted` for every value. -/
def countedE : List (Str × Obj) → Prop
  | [] => True
  | (_, o) :: os => o.Counted ∧ countedE os
end

theorem countedL_mem {os : List Obj} (h : countedL os) {o : Obj} (ho : o ∈ os) : o.Counted := by
  induction os with
  | nil => simp at ho
  | cons x os ih =>
    simp only [countedL] at h
    rcases List.mem_cons.1 ho with rfl | ho
    · exact h.1
    · exact ih h.2 ho

theorem countedE_mem {os : List (Str × Obj)} (h : countedE os) {e : Str × Obj} (ho : e ∈ os) : e.2.Counted := by
  induction os with
  | nil => simp at ho
  | cons x os ih =>
    obtain ⟨k, x⟩ := x
    simp only [countedE] at h
    rcases List.mem_cons.1 ho with rfl | ho
    · exact h.1
    · exact ih h.2 ho

theorem findKey_split (k : Bytes) (items : List (Str × Obj)) :
    (∃ pre k' v post, items = pre ++ (k', v) :: post ∧ k'.bytes = k ∧ (∀ e ∈ pre, e.1.bytes ≠ k) ∧ findKey k items = v) ∨
      ((∀ e ∈ items, e.1.bytes ≠ k) ∧ findKey k items = .null) := by
  induction items with
  | nil => exact .inr ⟨by simp, rfl⟩
  | cons e items ih =>
    obtain ⟨k', v⟩ := e
    by_cases h : k'.bytes = k
    · exact .inl ⟨[], k', v, items, rfl, h, by simp, by simp [findKey, h]⟩
    · rcases ih with ⟨pre, k2, v2, post, h1, h2, h3, h4⟩ | ⟨h1, h2⟩
      · refine .inl ⟨(k', v) :: pre, k2, v2, post, by rw [h1]; rfl, h2, ?_, by simp [findKey, h, h4]⟩
        intro e he
        rcases List.mem_cons.1 he with rfl | he
        · exact h
        · exact h3 e he
      · refine .inr ⟨?_, by simp [findKey, h, h2]⟩
        intro e he
        rcases List.mem_cons.1 he with rfl | he
        · exact h
        · exact h1 e he

/-- Selecting is deterministic. -/
theorem Member.unique {o : Obj} {s : Step} {a b : Obj} (ha : Member o s a) (hb : Member o s b) : a = b := by
  cases ha with
  | @key ref pool size pre post k v h =>
    have gen : ∀ (items : List (Str × Obj)) (st : Step), items = pre ++ (k, a) :: post → st = .key k.bytes →
        Member (.map ref pool size items) st b → a = b := by
      intro items st h1 h2 hb
      cases hb with
      | @key _ _ _ pre' post' k' v' h' =>
        simp only [Step.key.injEq] at h2
        have hk : ∀ (p : List (Str × Obj)) (x : Str) (y : Obj) (q : List (Str × Obj)), x.bytes = k.bytes →
            (∀ e ∈ p, e.1.bytes ≠ k.bytes) → findKey k.bytes (p ++ (x, y) :: q) = y := by
          intro p
          induction p with
          | nil => intro x y q hx _; simp [findKey, hx]
          | cons e p ih =>
            obtain ⟨k3, v3⟩ := e
            intro x y q hx hp
            have := hp (k3, v3) (by simp)
            simp only [List.cons_append, findKey, if_neg this]
            exact ih x y q hx (fun e he => hp e (by simp [he]))
        rw [← hk pre k a post rfl h, ← h1]
        exact hk pre' k' _ post' h2 (fun e he => h2 ▸ h' e he)
    exact gen _ _ rfl rfl hb
  | @index pool pre post v =>
    have gen : ∀ (items : List Obj) (n : Nat) (st : Step), items = pre ++ a :: post → st = .index post.length →
        Member (.array pool n items) st b → a = b := by
      intro items n st h1 h2 hb
      cases hb with
      | @index _ pre' post' v' =>
        simp only [Step.index.injEq] at h2
        have h3 := congrArg List.length h1
        simp only [List.length_append, List.length_cons] at h3
        have h4 : pre'.length = pre.length := by omega
        have := congrArg (fun l => l[pre.length]?) h1
        simp only [List.getElem?_append_right (Nat.le_refl _), Nat.sub_self, List.getElem?_cons_zero] at this
        rw [← h4, List.getElem?_append_right (Nat.le_refl _)] at this
        simp at this
        exact this.symm
    exact gen _ _ _ rfl rfl hb

theorem wStep_member {o : Obj} (hc : o.Counted) (s : Step) :
    ∃ m, o.ckStep s = .ok m ∧ m.Counted ∧ (Member o s m ∨ (m = .null ∧ ∀ r, ¬ Member o s r)) := by
  cases s with
  | key k =>
    refine ⟨o.wKey k, ckKey_eq o k, ?_⟩
    cases o with
    | map ref pool size items =>
      simp only [Obj.wKey]
      simp only [Obj.Counted] at hc
      rcases findKey_split k items with ⟨pre, k', v, post, h1, h2, h3, h4⟩ | ⟨h1, h2⟩
      · rw [h4]
        refine ⟨countedE_mem hc (e := (k', v)) (by rw [h1]; simp), .inl ?_⟩
        subst h1 h2
        exact Member.key h3
      · rw [h2]
        refine ⟨by simp [Obj.Counted], .inr ⟨rfl, ?_⟩⟩
        intro r hr
        cases hr with
        | @key _ _ _ pre post k v h => exact h1 (k, r) (by simp) rfl
    | _ => exact ⟨by simp [Obj.wKey, Obj.Counted], .inr ⟨rfl, by intro r hr; cases hr⟩⟩
  | index n =>
    refine ⟨o.wIdx n, ckIdx_eq o n, ?_⟩
    cases o with
    | array pool size items =>
      simp only [Obj.Counted] at hc
      obtain ⟨hs, hc⟩ := hc
      simp only [Obj.wIdx, ArrayS.get]
      by_cases hn : n ≥ size
      · rw [if_pos hn]
        refine ⟨by simp [Obj.Counted], .inr ⟨rfl, ?_⟩⟩
        intro r hr
        cases hr with
        | index => simp at hn; omega
      · rw [if_neg hn, walkItems_eq]
        have hlt : size - 1 - n < items.length := by omega
        rw [List.getElem?_eq_getElem hlt, Option.getD_some]
        refine ⟨countedL_mem hc (List.getElem_mem hlt), .inl ?_⟩
        have h1 : items = items.take (size - 1 - n) ++ items[size - 1 - n] :: items.drop (size - 1 - n + 1) := by
          rw [← List.drop_eq_getElem_cons hlt, List.take_append_drop]
        have h2 : (items.drop (size - 1 - n + 1)).length = n := by rw [List.length_drop]; omega
        have h3 : ∀ (l : List Obj) (v : Obj) (pre post : List Obj) (sz m : Nat), l = pre ++ v :: post → sz = l.length → post.length = m →
            Member (.array pool sz l) (.index m) v := by
          intro l v pre post sz m e1 e2 e3
          subst e1 e2 e3
          exact Member.index
        exact h3 _ _ _ _ _ _ h1 hs h2
    | _ => exact ⟨by simp [Obj.wIdx, Obj.Counted], .inr ⟨rfl, by intro r hr; cases hr⟩⟩

theorem ckPath_null (p : List Step) : Obj.ckPath .null p = .ok .null := by
  induction p with
  | nil => rfl
  | cons s p ih =>
    have : Obj.ckStep .null s = .ok .null := by
      cases s
      · rw [Obj.ckStep, ckKey_eq]; rfl
      · rw [Obj.ckStep, ckIdx_eq]; rfl
    simp only [Obj.ckPath, this, ok_bind, ih]

/-- C20. Whatever chain of `operator[]` calls is applied to a wrapper, every call returns; the result is the selected
member, and the empty wrapper if some step selects nothing; the observers return, too. -/
theorem C20_paths_never_fault (o : Obj) (hc : o.Counted) (p : List Step) :
    ∃ r, o.ckPath p = .ok r ∧ (∀ v, Reaches o p v → r = v) ∧ ((∀ v, ¬ Reaches o p v) → r = .null) ∧
      r.ckType = .ok r.type? ∧ (∃ n, r.ckSize = .ok n) ∧ ∃ it, r.ckIter = .ok it := by
  have obs : ∀ r : Obj, r.ckType = .ok r.type? ∧ (∃ n, r.ckSize = .ok n) ∧ ∃ it, r.ckIter = .ok it :=
    fun r => ⟨ckType_eq r, ⟨_, ckSize_eq r⟩, ⟨_, ckIter_eq r⟩⟩
  suffices ∃ r, o.ckPath p = .ok r ∧ (∀ v, Reaches o p v → r = v) ∧ ((∀ v, ¬ Reaches o p v) → r = .null) by
    obtain ⟨r, h1, h2, h3⟩ := this
    exact ⟨r, h1, h2, h3, obs r⟩
  induction p generalizing o with
  | nil => exact ⟨o, rfl, by intro v hv; cases hv; rfl, fun h => absurd Reaches.here (h o)⟩
  | cons s p ih =>
    obtain ⟨m, h1, h2, h3⟩ := wStep_member hc s
    rcases h3 with h3 | ⟨rfl, h3⟩
    · obtain ⟨r, g1, g2, g3⟩ := ih m h2
      refine ⟨r, by simp only [Obj.ckPath, h1, ok_bind, g1], ?_, ?_⟩
      · intro v hv
        cases hv with
        | step a b => exact g2 v (h3.unique a ▸ b)
      · intro h
        exact g3 (fun v hv => h v (.step h3 hv))
    · refine ⟨.null, by simp only [Obj.ckPath, h1, ok_bind, ckPath_null], ?_, fun _ => rfl⟩
      intro v hv
      cases hv with
      | step a b => exact absurd a (h3 _)

/-- C20: below a missing member everything is missing, whatever the rest of the path says; null members behave the same. -/
theorem C20_null_propagates (o : Obj) (p q : List Step) (h : o.ckPath p = .ok .null) : o.ckPath (p ++ q) = .ok .null := by
  induction p generalizing o with
  | nil => simp only [Obj.ckPath, Except.ok.injEq] at h; subst h; exact ckPath_null q
  | cons s p ih =>
    have hs : ∃ m, o.ckStep s = .ok m := by
      cases s
      · exact ⟨_, ckKey_eq o _⟩
      · exact ⟨_, ckIdx_eq o _⟩
    obtain ⟨m, hm⟩ := hs
    simp only [Obj.ckPath, hm, ok_bind, List.cons_append] at h ⊢
    exact ih m h

/-- The sample tree: an existing path, a missing key in the middle, an index too large, a step into a scalar. -/
example : sampleObj.Counted ∧ Reaches sampleObj [.key [107], .index 0] (.data false BRIDGE_INT32 (.i32 7)) ∧
    sampleObj.ckPath [.key [99], .index 0, .key [1]] = .ok .null ∧ sampleObj.ckPath [.key [107], .index 2] = .ok .null ∧
    sampleObj.ckPath [.key [122], .index 0] = .ok .null := by
  refine ⟨by simp [sampleObj, Obj.Counted, countedE, countedL], ?_, ?_, ?_, ?_⟩
  · exact .step (Member.key (pre := []) (k := ⟨[107], none⟩) (by simp))
      (.step (Member.index (pre := [.data false BRIDGE_STRING (.str [104, 105])]) (post := [])) .here)
  · simp [Obj.ckPath, Obj.ckStep, ckKey_eq, ckIdx_eq, sampleObj, Obj.wKey, findKey, Obj.wIdx, ok_bind]
  · simp [Obj.ckPath, Obj.ckStep, ckKey_eq, ckIdx_eq, sampleObj, Obj.wKey, findKey, Obj.wIdx, ArrayS.get, ok_bind]
  · simp [Obj.ckPath, Obj.ckStep, ckKey_eq, ckIdx_eq, sampleObj, Obj.wKey, findKey, Obj.wIdx, ok_bind]

/-! ### C21 -/

/-- Specification: the type under which a C++ value is stored, and the stored value (a `char` array is stored as a string;
which one is the subject of C51). -/
def CVal.stored : CVal → CType × CVal
  | .bytes b => (.bytes, .bytes b)
  | .string b => (.string, .string b)
  | .i32 v => (.i32, .i32 v)
  | .u32 v => (.u32, .u32 v)
  | .i64 v => (.i64, .i64 v)
  | .u64 v => (.u64, .u64 v)
  | .f32 v => (.f32, .f32 v)
  | .f64 v => (.f64, .f64 v)
  | .custom b => (.custom, .custom b)
  | .chars a => (.string, .string (charsToString a))
  | .strView b => (.string, .string b)

/-- Specification: the same for an in-situ value; a `char` array is shown up to its first NUL. -/
def CVal.shown : CVal → CType × CVal
  | .chars a => (.string, .string (a.takeWhile (· ≠ 0)))
  | v => v.stored

/-- What an in-situ accessor returns for a string or byte array: a `string_view` of it. -/
def CVal.seen : CVal → CVal
  | .bytes b => .strView b
  | .string b => .strView b
  | v => v

/-- C21. A `Data` made from a value returns that value from `Get<T>` and `GetPtr<T>` exactly when `T` is its type, and nothing
for every other type.  `GetView<T>` returns nothing.  (`GetPtr<T>` and `GetView<T>` do not compile for a user-defined `T`.) -/
theorem C21_typed_reads (v : CVal) (dt : UInt8) (p : Payload) (h : dataOfVal v = some (dt, p)) (t : CType) :
    (Obj.data false dt p).ckGet t = .ok (if t = v.stored.1 then some v.stored.2 else none) ∧
      (t ≠ .custom → (Obj.data false dt p).ckGetPtr t = .ok (if t = v.stored.1 then some v.stored.2 else none)) ∧
      (t ≠ .custom → (Obj.data false dt p).ckGetView t = .ok none) := by
  cases v <;> simp only [dataOfVal, Option.some.injEq, Prod.mk.injEq, reduceCtorEq] at h <;>
    obtain ⟨rfl, rfl⟩ := h <;> cases t <;>
    simp [ckGet_eq, ckGetPtr_eq, Obj.ckGetView, Obj.isNull, Obj.derefType, Obj.derefRef, Obj.wGet, Obj.wGetPtr, dataGet, dataGetPtr,
      CType.dt, payloadGet, CVal.stored, BRIDGE_BYTES, BRIDGE_STRING, BRIDGE_INT32, BRIDGE_UINT32, BRIDGE_INT64, BRIDGE_UINT64,
      BRIDGE_FLOAT, BRIDGE_DOUBLE, BRIDGE_CUSTOM, ok_bind, pure_eq_ok]

/-- C21: an in-situ value.  `GetView<T>` returns the value exactly when `T` is its type; asking for a string where bytes are
stored, or the other way round, throws; every other type gives nothing.  `Get<T>` and `GetPtr<T>` return nothing. -/
theorem C21_typed_reads_in_situ (cfg : Cfg) (v : CVal) (dt : UInt8) (p : Payload) (h : viewOfVal cfg v = some (.ok (dt, p)))
    (t : CType) :
    (t ≠ .custom → (Obj.data true dt p).ckGetView t =
      if t = v.shown.1 then .ok (some v.shown.2.seen)
      else if t ∈ [CType.string, CType.bytes] ∧ v.shown.1 ∈ [CType.string, CType.bytes] then .error (.exn .viewTypeMismatch)
      else .ok none) ∧
      (Obj.data true dt p).ckGet t = .ok none ∧ (t ≠ .custom → (Obj.data true dt p).ckGetPtr t = .ok none) := by
  cases v <;> simp only [viewOfVal, Option.some.injEq, Prod.mk.injEq, reduceCtorEq, Except.ok.injEq] at h
  case bytes b =>
    split at h
    · simp at h
    simp only [Except.ok.injEq, Prod.mk.injEq] at h
    obtain ⟨rfl, rfl⟩ := h
    cases t <;> simp [ckGet_eq, ckGetPtr_eq, Obj.ckGetView, Obj.isNull, Obj.derefType, Obj.derefRef, Obj.castData, Obj.wGet,
      Obj.wGetPtr, viewGet, CType.dt, payloadGet, CVal.stored, CVal.shown, CVal.seen, BRIDGE_BYTES, BRIDGE_STRING, BRIDGE_INT32, BRIDGE_UINT32,
      BRIDGE_INT64, BRIDGE_UINT64, BRIDGE_FLOAT, BRIDGE_DOUBLE, BRIDGE_CUSTOM, ok_bind, pure_eq_ok]
  case chars a =>
    split at h
    · simp only [Except.ok.injEq, Prod.mk.injEq] at h
      obtain ⟨rfl, rfl⟩ := h
      cases t <;> simp [ckGet_eq, ckGetPtr_eq, Obj.ckGetView, Obj.isNull, Obj.derefType, Obj.derefRef, Obj.castData, Obj.wGet,
        Obj.wGetPtr, viewGet, CType.dt, payloadGet, CVal.shown, CVal.seen, BRIDGE_BYTES, BRIDGE_STRING, BRIDGE_INT32, BRIDGE_UINT32,
        BRIDGE_INT64, BRIDGE_UINT64, BRIDGE_FLOAT, BRIDGE_DOUBLE, BRIDGE_CUSTOM, ok_bind, pure_eq_ok]
    · simp at h
  all_goals
    obtain ⟨rfl, rfl⟩ := h
    cases t <;> simp [ckGet_eq, ckGetPtr_eq, Obj.ckGetView, Obj.isNull, Obj.derefType, Obj.derefRef, Obj.castData, Obj.wGet,
      Obj.wGetPtr, viewGet, CType.dt, payloadGet, CVal.stored, CVal.shown, CVal.seen, BRIDGE_BYTES, BRIDGE_STRING, BRIDGE_INT32, BRIDGE_UINT32,
      BRIDGE_INT64, BRIDGE_UINT64, BRIDGE_FLOAT, BRIDGE_DOUBLE, BRIDGE_CUSTOM, ok_bind, pure_eq_ok]

/-- C21: every leaf that represents a scalar, built or parsed, behaves like a `Data` (or `DataView`) made from that scalar. -/
theorem C21_leaf_is_its_value (ref : Bool) (dt : UInt8) (p : Payload) (s : Scalar)
    (h : (Obj.data ref dt p).doc? = some (.scalar s)) (t : CType) (hu : ref = true → t ≠ .custom) :
    (if ref then (Obj.data ref dt p).ckGetView t else (Obj.data ref dt p).ckGet t) =
      if t = (scalarVal s).1 then .ok (some (if ref then (scalarVal s).2.seen else (scalarVal s).2))
      else if ref = true ∧ t ∈ [CType.string, CType.bytes] ∧ (scalarVal s).1 ∈ [CType.string, CType.bytes] then
        .error (.exn .viewTypeMismatch)
      else .ok none := by
  obtain ⟨s', h1, h2⟩ := data_doc h
  cases h1
  cases ref with
  | false =>
    simp only [Bool.false_eq_true, if_false, false_and]
    rw [ckGet_eq]
    cases p <;> simp only [scalarOf, Bool.not_false, if_true, if_false, Bool.false_eq_true, reduceCtorEq] at h2
    case str b =>
      by_cases h3 : dt = BRIDGE_STRING
      · simp [h3] at h2; subst h2 h3
        cases t <;> simp [Obj.wGet, dataGet, CType.dt, payloadGet, scalarVal, BRIDGE_BYTES, BRIDGE_STRING, BRIDGE_INT32,
          BRIDGE_UINT32, BRIDGE_INT64, BRIDGE_UINT64, BRIDGE_FLOAT, BRIDGE_DOUBLE, BRIDGE_CUSTOM, ok_bind, pure_eq_ok]
      · simp [h3] at h2
    all_goals
      repeat' split at h2
      all_goals simp only [Option.some.injEq, reduceCtorEq] at h2
      all_goals
        rename_i h3
        subst h2 h3
        cases t <;> simp [Obj.wGet, dataGet, CType.dt, payloadGet, scalarVal, BRIDGE_BYTES, BRIDGE_STRING, BRIDGE_INT32,
          BRIDGE_UINT32, BRIDGE_INT64, BRIDGE_UINT64, BRIDGE_FLOAT, BRIDGE_DOUBLE, BRIDGE_CUSTOM, ok_bind, pure_eq_ok]
  | true =>
    simp only [if_true, true_and]
    have hu := hu rfl
    cases p <;> simp only [scalarOf, Bool.not_true, Bool.false_and, if_true, if_false, Bool.false_eq_true, reduceCtorEq] at h2
    all_goals
      repeat' split at h2
      all_goals simp only [Option.some.injEq, reduceCtorEq] at h2
      all_goals
        rename_i h3
        subst h2 h3
        cases t <;> simp_all [Obj.ckGetView, Obj.isNull, Obj.derefType, Obj.derefRef, Obj.castData, viewGet, CType.dt, payloadGet,
          scalarVal, CVal.seen, BRIDGE_BYTES, BRIDGE_STRING, BRIDGE_INT32, BRIDGE_UINT32, BRIDGE_INT64, BRIDGE_UINT64, BRIDGE_FLOAT,
          BRIDGE_DOUBLE, BRIDGE_CUSTOM, ok_bind, pure_eq_ok]

/-- C21: a `Data` or `DataView` without a value, a container and the empty wrapper return nothing for every type. -/
theorem C21_nothing_to_read (o : Obj) (h : o = .dataEmpty ∨ o = .viewEmpty ∨ o.type? ≠ some .data) (t : CType) :
    o.ckGet t = .ok none ∧ (t ≠ .custom → o.ckGetPtr t = .ok none) ∧ (t ≠ .custom → o.ckGetView t = .ok none) := by
  cases o with
  | data ref dt p =>
    rcases h with h | h | h
    · simp only [Obj.dataEmpty, Obj.data.injEq] at h
      obtain ⟨rfl, rfl, rfl⟩ := h
      cases t <;> simp [ckGet_eq, ckGetPtr_eq, Obj.ckGetView, Obj.isNull, Obj.derefType, Obj.derefRef, Obj.wGet, Obj.wGetPtr, dataGet,
        dataGetPtr, CType.dt, BRIDGE_BYTES, BRIDGE_STRING, BRIDGE_INT32, BRIDGE_UINT32, BRIDGE_INT64, BRIDGE_UINT64, BRIDGE_FLOAT,
        BRIDGE_DOUBLE, BRIDGE_CUSTOM, BRIDGE_INVALID, ok_bind, pure_eq_ok]
    · simp only [Obj.viewEmpty, Obj.data.injEq] at h
      obtain ⟨rfl, rfl, rfl⟩ := h
      cases t <;> simp [ckGet_eq, ckGetPtr_eq, Obj.ckGetView, Obj.isNull, Obj.derefType, Obj.derefRef, Obj.castData, Obj.wGet,
        Obj.wGetPtr, viewGet, CType.dt, BRIDGE_BYTES, BRIDGE_STRING, BRIDGE_INT32, BRIDGE_UINT32, BRIDGE_INT64, BRIDGE_UINT64,
        BRIDGE_FLOAT, BRIDGE_DOUBLE, BRIDGE_CUSTOM, BRIDGE_INVALID, ok_bind, pure_eq_ok]
    · simp [Obj.type?] at h
  | _ => simp [ckGet_eq, ckGetPtr_eq, Obj.ckGetView, Obj.isNull, Obj.derefType, Obj.wGet, Obj.wGetPtr, ok_bind, pure_eq_ok]

example : dataOfVal (.i32 7) = some (BRIDGE_INT32, .i32 7) ∧ (Obj.data false BRIDGE_INT32 (.i32 7)).ckGet .i32 = .ok (some (.i32 7)) ∧
    (Obj.data false BRIDGE_INT32 (.i32 7)).ckGet .u32 = .ok none ∧
    (Obj.data true BRIDGE_STRING (.view ⟨[104], none⟩)).ckGetView .bytes = .error (.exn .viewTypeMismatch) := by decide +kernel

end Bridge
