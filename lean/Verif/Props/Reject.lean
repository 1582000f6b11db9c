import Verif.Props.Values
/-
C24, C52: when `Serialize` fails.
-/
set_option autoImplicit false
namespace Bridge
open Spec

/-! ### Specification -/

/-- `x` is the object `o` or lies somewhere below it. -/
inductive Obj.Below : Obj → Obj → Prop
  | self {o : Obj} : Obj.Below o o
  | item {pool : PoolRef} {size : Nat} {items : List Obj} {c x : Obj} (h : c ∈ items) : Obj.Below c x →
      Obj.Below (.array pool size items) x
  | entry {ref : Bool} {pool : PoolRef} {size : Nat} {items : List (Str × Obj)} {k : Str} {c x : Obj} (h : (k, c) ∈ items) :
      Obj.Below c x → Obj.Below (.map ref pool size items) x

/-- Every leaf is either without a value or holds a value of the type its tag names (`C22`: no other state can be reached). -/
def Obj.WellTyped (o : Obj) : Prop :=
  ∀ ref dt p, o.Below (.data ref dt p) → (dt = BRIDGE_INVALID ∧ p = .none) ∨ (scalarOf ref dt p).isSome = true

/-- A null child somewhere in the tree (for instance one whose value was moved out with `Get`). -/
def Obj.HasNull (o : Obj) : Prop := o.Below .null

/-- A `Data` or `DataView` without a value somewhere in the tree. -/
def Obj.HasUnset (o : Obj) : Prop := o.Below .dataEmpty ∨ o.Below .viewEmpty

/-- A leaf that makes the writer index element 0 of an empty range: an empty byte array or user-defined value, an empty
in-situ byte array, or (when there is no dictionary) an empty in-situ string. -/
def Obj.HasEmptyRange (t : SeriType) (o : Obj) : Prop :=
  ∃ ref dt p, o.Below (.data ref dt p) ∧
    (p = .vec [] ∨ ∃ s : Str, p = .view s ∧ s.bytes = [] ∧ (dt = BRIDGE_BYTES ∨ t = .normal))

/-! ### The first problem in the order of serialization -/

/-- What goes wrong at a leaf. -/
def leafProblem (cfg : Cfg) (t : SeriType) (dt : UInt8) (p : Payload) : Option Err :=
  if dt = BRIDGE_INVALID then some (.exn .dataTypeCheck)
  else match p with
    | .vec b => if cfg.hardened && b.isEmpty then some .abort else none
    | .view s => if cfg.hardened && s.bytes.isEmpty && (dt = BRIDGE_BYTES || t = .normal) then some .abort else none
    | _ => none

mutual
/-- The first problem of a tree, in the order in which it is written. -/
def Obj.problem (cfg : Cfg) (t : SeriType) : Obj → Option Err
  | .null => some (.ub .nullDeref)
  | .data _ dt p => leafProblem cfg t dt p
  | .array _ _ items => problemL cfg t items
  | .map _ _ _ items => problemE cfg t items
/-- The first problem of a list of objects. -/
def problemL (cfg : Cfg) (t : SeriType) : List Obj → Option Err
  | [] => none
  | o :: os => (o.problem cfg t).or (problemL cfg t os)
/-- The first problem of a list of entries. -/
def problemE (cfg : Cfg) (t : SeriType) : List (Str × Obj) → Option Err
  | [] => none
  | (_, o) :: os => (o.problem cfg t).or (problemE cfg t os)
end

/-! ### Totality of the length writer -/

theorem varintEncodeGo_total (cfg : Cfg) (k n : Nat) (h : n < 128 ^ k) : ∀ room, k < room → ∃ bs, varintEncodeGo cfg room n = .ok bs := by
  induction k generalizing n with
  | zero =>
    intro room hr
    obtain ⟨r, rfl⟩ : ∃ r, room = r + 1 := ⟨room - 1, by omega⟩
    have hn : n = 0 := by simpa using h
    subst hn
    simp [varintEncodeGo, pure_eq_ok]
  | succ k ih =>
    intro room hr
    obtain ⟨r, rfl⟩ : ∃ r, room = r + 1 := ⟨room - 1, by omega⟩
    simp only [varintEncodeGo]
    split
    · have h2 : n >>> 7 < 128 ^ k := by
        rw [Nat.shiftRight_eq_div_pow]
        rw [Nat.pow_succ] at h
        exact Nat.div_lt_of_lt_mul (by rw [Nat.mul_comm]; exact h)
      obtain ⟨bs, hb⟩ := ih _ h2 r (by omega)
      rw [if_neg (by simp; intro _; omega), hb]
      exact ⟨_, rfl⟩
    · exact ⟨_, rfl⟩

theorem seriLength_total (cfg : Cfg) (n : Nat) (outer : Bytes) : ∃ bs, seriLength cfg n outer = .ok (outer ++ bs) := by
  obtain ⟨bs, h⟩ := varintEncodeGo_total cfg 5 (toU32 n) (Nat.lt_trans (toU32_lt n) (by decide)) 128 (by decide)
  exact ⟨bs, by simp only [seriLength, varintEncode, h, ok_bind, pure_eq_ok]⟩

/-! ### The writer -/

/-- What a step of the writer preserves. -/
def SState.Ext (t : SeriType) (st st' : SState) : Prop :=
  st.outer.length ≤ st'.outer.length ∧ st'.sm.isSome = decide (t = .replace)

/-- The state has a dictionary exactly in `REPLACE` mode. -/
def SState.Mode (t : SeriType) (st : SState) : Prop := st.sm.isSome = decide (t = .replace)

theorem SState.Ext.trans {t : SeriType} {a b c : SState} (h : a.Ext t b) (h' : b.Ext t c) : a.Ext t c :=
  ⟨Nat.le_trans h.1 h'.1, h'.2⟩

theorem seriCount_total (cfg : Cfg) {t : SeriType} (n : Nat) {st : SState} (h : st.Mode t) :
    ∃ st', seriCount cfg n st = .ok st' ∧ st.Ext t st' := by
  obtain ⟨bs, hb⟩ := seriLength_total cfg (toU32 n) st.outer
  exact ⟨{ st with outer := st.outer ++ bs }, by simp only [seriCount, hb, ok_bind, pure_eq_ok], by simp, h⟩

theorem seriSplitId_total (cfg : Cfg) {t : SeriType} {st : SState} (h : st.Mode t) :
    ∃ id st', seriSplitId cfg st = .ok (id, st') ∧ st.Ext t st' := by
  unfold seriSplitId
  split
  · rename_i si _
    obtain ⟨bs, hb⟩ := seriLength_total cfg si.requestId.2 st.outer
    exact ⟨si.requestId.2, { st with outer := st.outer ++ bs, si := some si.requestId.1 },
      by simp only [hb, ok_bind, pure_eq_ok], by simp, h⟩
  · obtain ⟨bs, hb⟩ := seriLength_total cfg 0 st.outer
    exact ⟨0, { st with outer := st.outer ++ bs }, by simp only [hb, ok_bind, pure_eq_ok], by simp, h⟩

theorem seriKey_total (cfg : Cfg) {t : SeriType} (k : Str) {st : SState} (h : st.Mode t) :
    ∃ st', seriKey cfg k st = .ok st' ∧ st.Ext t st' := by
  unfold seriKey
  unfold SState.Mode at h
  split
  · rename_i h1
    obtain ⟨bs, hb⟩ := seriLength_total cfg (toU32 k.bytes.length) st.outer
    exact ⟨{ st with outer := st.outer ++ bs ++ k.bytes }, by simp only [hb, ok_bind, pure_eq_ok], by simp, h⟩
  · rename_i m h1
    obtain ⟨bs, hb⟩ := seriLength_total cfg (m.register ⟨k.bytes, none⟩).2 st.outer
    exact ⟨{ st with outer := st.outer ++ bs, sm := some (m.register ⟨k.bytes, none⟩).1 },
      by simp only [hb, ok_bind, pure_eq_ok], by simp, by rw [← h, h1]; rfl⟩

theorem seriNum_total (cfg : Cfg) (k n : Nat) (outer : Bytes) : ∃ bs, seriNum cfg k n outer = .ok (outer ++ bs) := by
  obtain ⟨bs, hb⟩ := seriLength_total cfg k outer
  exact ⟨bs ++ numWire cfg k n, by simp only [seriNum, hb, ok_bind, pure_eq_ok, List.append_assoc]⟩

theorem seriRange_total (cfg : Cfg) (b outer : Bytes) :
    (do let o ← seriLength cfg b.length outer; appendRange cfg b o) =
      (if cfg.hardened && b.isEmpty then .error .abort else .ok (outer ++ (seriLength cfg b.length []).toOption.getD [] ++ b) : Res Bytes) := by
  obtain ⟨bs, hb⟩ := varintEncodeGo_total cfg 5 (toU32 b.length) (Nat.lt_trans (toU32_lt _) (by decide)) 128 (by decide)
  simp only [seriLength, varintEncode, hb, ok_bind, pure_eq_ok, appendRange]
  rfl

theorem scalarOf_valid {ref : Bool} {dt : UInt8} {p : Payload} (h : (scalarOf ref dt p).isSome = true) :
    checkDataType dt = .ok () ∧ dt ≠ BRIDGE_INVALID := by
  unfold scalarOf at h
  cases p <;> simp only [] at h <;> (repeat' split at h) <;> simp_all [checkDataType] <;> decide

theorem dataSeri_total (cfg : Cfg) {t : SeriType} (ref : Bool) (dt : UInt8) (p : Payload)
    (hp : (dt = BRIDGE_INVALID ∧ p = .none) ∨ (scalarOf ref dt p).isSome = true) {st : SState} (h : st.Mode t) :
    match leafProblem cfg t dt p with
    | some e => dataSeri cfg ref dt p st = .error e
    | none => ∃ st', dataSeri cfg ref dt p st = .ok (st', false) ∧ st.Ext t st' := by
  rcases hp with ⟨rfl, rfl⟩ | hp
  · rfl
  obtain ⟨hchk, hinv⟩ := scalarOf_valid hp
  unfold leafProblem dataSeri
  rw [if_neg hinv, hchk]
  simp only [ok_bind]
  obtain ⟨outer, sm, si⟩ := st
  unfold SState.Mode at h
  simp only at h
  -- numbers are written by `seriNum` whatever the mode is
  have num : ∀ k n : Nat, ∃ bs, seriNum cfg k n (outer ++ [dt]) = .ok (outer ++ [dt] ++ bs) := fun k n => seriNum_total cfg k n _
  have fin : ∀ bs : Bytes, (⟨outer, sm, si⟩ : SState).Ext t ⟨outer ++ [dt] ++ bs, sm, si⟩ := fun bs => ⟨by simp, h⟩
  cases p with
  | none => simp [scalarOf] at hp
  | vec b =>
    cases ref with
    | true => simp [scalarOf] at hp
    | false =>
      have hd : dt ≠ BRIDGE_STRING := by
        rintro rfl; simp [scalarOf, BRIDGE_STRING, BRIDGE_BYTES, BRIDGE_CUSTOM] at hp
      have hd2 : dt = BRIDGE_BYTES ∨ dt = BRIDGE_CUSTOM := by
        apply Decidable.byContradiction
        intro hc
        simp only [not_or] at hc
        simp [scalarOf, hc.1, hc.2] at hp
      simp only [hd, decide_false, seriDataOwn, hd2, if_true, Bool.false_eq_true, if_false, seriRange_total]
      by_cases he : (cfg.hardened && b.isEmpty) = true
      · simp only [he, if_true]; rfl
      · simp only [he, if_false]
        refine ⟨⟨outer ++ [dt] ++ (seriLength cfg b.length []).toOption.getD [] ++ b, sm, si⟩, ?_, ?_⟩
        · cases sm <;> rfl
        · exact ⟨by simp, h⟩
  | str b =>
    cases ref with
    | true => simp [scalarOf] at hp
    | false =>
      have hd : dt = BRIDGE_STRING := by
        apply Decidable.byContradiction
        intro hc
        simp [scalarOf, hc] at hp
      subst hd
      cases sm with
      | none =>
        obtain ⟨bs, hb⟩ := seriLength_total cfg b.length (outer ++ [BRIDGE_STRING])
        refine ⟨⟨outer ++ [BRIDGE_STRING] ++ bs ++ b, none, si⟩, ?_, ⟨by simp, h⟩⟩
        simp [seriDataOwn, show ¬ (BRIDGE_STRING = BRIDGE_BYTES) by decide, show ¬ (BRIDGE_STRING = BRIDGE_CUSTOM) by decide, hb]
      | some m =>
        obtain ⟨bs, hb⟩ := seriLength_total cfg (m.register ⟨b, none⟩).2 (outer ++ [BRIDGE_STRING])
        refine ⟨⟨outer ++ [BRIDGE_STRING] ++ bs, some (m.register ⟨b, none⟩).1, si⟩, ?_, ⟨by simp, h⟩⟩
        simp [hb]
  | view v =>
    cases ref with
    | false => simp [scalarOf] at hp
    | true =>
      by_cases hd : dt = BRIDGE_BYTES
      · subst hd
        simp only [show ¬ (BRIDGE_BYTES = BRIDGE_STRING) by decide, decide_false, seriDataView, true_or, if_true, seriRange_total,
          decide_true, Bool.true_or, Bool.and_true]
        by_cases he : (cfg.hardened && v.bytes.isEmpty) = true
        · simp only [he, if_true]; rfl
        · simp only [he, if_false]
          refine ⟨⟨outer ++ [BRIDGE_BYTES] ++ (seriLength cfg v.bytes.length []).toOption.getD [] ++ v.bytes, sm, si⟩, ?_, ?_⟩
          · cases sm <;> rfl
          · exact ⟨by simp, h⟩
      · have hd2 : dt = BRIDGE_STRING := by
          apply Decidable.byContradiction
          intro hc
          simp [scalarOf, hd, hc] at hp
        subst hd2
        cases t with
        | normal =>
          cases sm with
          | some m => simp at h
          | none =>
            simp only [seriDataView, or_true, if_true, seriRange_total, decide_true, Bool.or_true, Bool.and_true]
            by_cases he : (cfg.hardened && v.bytes.isEmpty) = true
            · simp only [he, if_true]; rfl
            · simp only [he, if_false]
              refine ⟨⟨outer ++ [BRIDGE_STRING] ++ (seriLength cfg v.bytes.length []).toOption.getD [] ++ v.bytes, none, si⟩, rfl, ?_⟩
              exact ⟨by simp, h⟩
        | replace =>
          cases sm with
          | none => simp at h
          | some m =>
            obtain ⟨bs, hb⟩ := seriLength_total cfg (m.register ⟨v.bytes, none⟩).2 (outer ++ [BRIDGE_STRING])
            simp only [hd, decide_false, Bool.false_or, show decide (SeriType.replace = SeriType.normal) = false by decide,
              Bool.and_false, Bool.false_eq_true, if_false]
            refine ⟨⟨outer ++ [BRIDGE_STRING] ++ bs, some (m.register ⟨v.bytes, none⟩).1, si⟩, ?_, ⟨by simp, h⟩⟩
            simp [hb]
  | i32 v =>
    have h0 : dt = BRIDGE_INT32 := by apply Decidable.byContradiction; intro h; simp [scalarOf, h] at hp
    subst h0
    obtain ⟨bs, hb⟩ := num 4 v.toNat
    refine ⟨_, ?_, fin bs⟩
    cases ref <;> cases sm <;> simp [seriDataView, seriDataOwn, hb,
      show ¬ (BRIDGE_INT32 = BRIDGE_STRING) by decide, show ¬ (BRIDGE_INT32 = BRIDGE_BYTES) by decide,
      show ¬ (BRIDGE_INT32 = BRIDGE_CUSTOM) by decide]
  | u32 v =>
    have h0 : dt = BRIDGE_UINT32 := by apply Decidable.byContradiction; intro h; simp [scalarOf, h] at hp
    subst h0
    obtain ⟨bs, hb⟩ := num 4 v.toNat
    refine ⟨_, ?_, fin bs⟩
    cases ref <;> cases sm <;> simp [seriDataView, seriDataOwn, hb,
      show ¬ (BRIDGE_UINT32 = BRIDGE_STRING) by decide, show ¬ (BRIDGE_UINT32 = BRIDGE_BYTES) by decide,
      show ¬ (BRIDGE_UINT32 = BRIDGE_CUSTOM) by decide, show ¬ (BRIDGE_UINT32 = BRIDGE_INT32) by decide]
  | i64 v =>
    have h0 : dt = BRIDGE_INT64 := by apply Decidable.byContradiction; intro h; simp [scalarOf, h] at hp
    subst h0
    obtain ⟨bs, hb⟩ := num 8 v.toNat
    refine ⟨_, ?_, fin bs⟩
    cases ref <;> cases sm <;> simp [seriDataView, seriDataOwn, hb,
      show ¬ (BRIDGE_INT64 = BRIDGE_STRING) by decide, show ¬ (BRIDGE_INT64 = BRIDGE_BYTES) by decide,
      show ¬ (BRIDGE_INT64 = BRIDGE_CUSTOM) by decide, show ¬ (BRIDGE_INT64 = BRIDGE_INT32) by decide,
      show ¬ (BRIDGE_INT64 = BRIDGE_UINT32) by decide]
  | u64 v =>
    have h0 : dt = BRIDGE_UINT64 := by apply Decidable.byContradiction; intro h; simp [scalarOf, h] at hp
    subst h0
    obtain ⟨bs, hb⟩ := num 8 v.toNat
    refine ⟨_, ?_, fin bs⟩
    cases ref <;> cases sm <;> simp [seriDataView, seriDataOwn, hb,
      show ¬ (BRIDGE_UINT64 = BRIDGE_STRING) by decide, show ¬ (BRIDGE_UINT64 = BRIDGE_BYTES) by decide,
      show ¬ (BRIDGE_UINT64 = BRIDGE_CUSTOM) by decide, show ¬ (BRIDGE_UINT64 = BRIDGE_INT32) by decide,
      show ¬ (BRIDGE_UINT64 = BRIDGE_UINT32) by decide, show ¬ (BRIDGE_UINT64 = BRIDGE_INT64) by decide]
  | f32 v =>
    have h0 : dt = BRIDGE_FLOAT := by apply Decidable.byContradiction; intro h; simp [scalarOf, h] at hp
    subst h0
    obtain ⟨bs, hb⟩ := num 4 v.toNat
    refine ⟨_, ?_, fin bs⟩
    cases ref <;> cases sm <;> simp [seriDataView, seriDataOwn, hb,
      show ¬ (BRIDGE_FLOAT = BRIDGE_STRING) by decide, show ¬ (BRIDGE_FLOAT = BRIDGE_BYTES) by decide,
      show ¬ (BRIDGE_FLOAT = BRIDGE_CUSTOM) by decide, show ¬ (BRIDGE_FLOAT = BRIDGE_INT32) by decide,
      show ¬ (BRIDGE_FLOAT = BRIDGE_UINT32) by decide, show ¬ (BRIDGE_FLOAT = BRIDGE_INT64) by decide,
      show ¬ (BRIDGE_FLOAT = BRIDGE_UINT64) by decide]
  | f64 v =>
    have h0 : dt = BRIDGE_DOUBLE := by apply Decidable.byContradiction; intro h; simp [scalarOf, h] at hp
    subst h0
    obtain ⟨bs, hb⟩ := num 8 v.toNat
    refine ⟨_, ?_, fin bs⟩
    cases ref <;> cases sm <;> simp [seriDataView, seriDataOwn, hb,
      show ¬ (BRIDGE_DOUBLE = BRIDGE_STRING) by decide, show ¬ (BRIDGE_DOUBLE = BRIDGE_BYTES) by decide,
      show ¬ (BRIDGE_DOUBLE = BRIDGE_CUSTOM) by decide, show ¬ (BRIDGE_DOUBLE = BRIDGE_INT32) by decide,
      show ¬ (BRIDGE_DOUBLE = BRIDGE_UINT32) by decide, show ¬ (BRIDGE_DOUBLE = BRIDGE_INT64) by decide,
      show ¬ (BRIDGE_DOUBLE = BRIDGE_UINT64) by decide, show ¬ (BRIDGE_DOUBLE = BRIDGE_FLOAT) by decide]

/-- The outcome of a step of the writer that may fail with `pr`. -/
def Outcome (t : SeriType) (st : SState) {α : Type} (pr : Option Err) (r : Res α) (state : α → SState) : Prop :=
  match pr with
  | some e => r = .error e
  | none => ∃ a, r = .ok a ∧ st.Ext t (state a)

theorem seriChild_total {t : SeriType} {o : Obj} {pr : Option Err} {vs : SState → Res (SState × Bool)} {st : SState}
    (h : st.Mode t) (hn : o = .null → pr = some (.ub .nullDeref)) (hv : ∀ st : SState, st.Mode t → Outcome t st pr (vs st) Prod.fst) :
    Outcome t st pr (seriChild o vs st) id := by
  unfold seriChild
  cases ht : o.type? with
  | none =>
    have : o = .null := by cases o <;> simp [Obj.type?] at ht; rfl
    rw [hn this]; rfl
  | some ty =>
    simp only
    have h2 := hv { st with outer := st.outer ++ [ty.toChar] } h
    cases pr with
    | some e =>
      simp only [Outcome] at h2 ⊢
      rw [h2]; rfl
    | none =>
      simp only [Outcome] at h2 ⊢
      obtain ⟨⟨st', sp⟩, h3, h4⟩ := h2
      rw [h3]
      simp only [SState.Ext, List.length_append, List.length_cons, List.length_nil, id_eq] at h4 ⊢
      cases sp with
      | false => exact ⟨st', rfl, by omega, h4.2⟩
      | true => exact ⟨_, rfl, by simp only [List.length_set]; omega, h4.2⟩

theorem finish_ext {cfg : Cfg} {t : SeriType} {id cur : Nat} {blocks : List Nat} {st st' : SState} (h : st.Ext t st') :
    st.Ext t (finishBlocks cfg id st' cur blocks).1 := by
  unfold finishBlocks registerSplitInfo
  simp only
  (repeat' split) <;> exact h

/-- Every leaf is either without a value or of the type its tag names. -/
def leafTyped (ref : Bool) (dt : UInt8) (p : Payload) : Prop :=
  (dt = BRIDGE_INVALID ∧ p = .none) ∨ (scalarOf ref dt p).isSome = true

mutual
theorem valueSeri_total (cfg : Cfg) (t : SeriType) : ∀ (o : Obj), o.WellTyped → ∀ st : SState, st.Mode t →
    Outcome t st (o.problem cfg t) (valueSeri cfg o st) Prod.fst
  | .null, _, _, _ => by simp only [Obj.problem, Outcome, valueSeri]
  | .data ref dt p, hw, st, h => by
    have := dataSeri_total cfg ref dt p (hw ref dt p .self) h
    simp only [Obj.problem, Outcome, valueSeri]
    cases hl : leafProblem cfg t dt p with
    | some e => rw [hl] at this; exact this
    | none =>
      rw [hl] at this
      obtain ⟨st', h1, h2⟩ := this
      exact ⟨_, h1, h2⟩
  | .array pool size items, hw, st, h => by
    obtain ⟨st1, h1, e1⟩ := seriCount_total cfg size h
    obtain ⟨id, st2, h2, e2⟩ := seriSplitId_total cfg (show st1.Mode t from e1.2)
    have h3 := seriItems_total cfg t items (fun o ho => fun ref dt p hb => hw ref dt p (.item ho hb)) st2 e2.2 st2.outer.length []
    simp only [Obj.problem, valueSeri, h1, h2, ok_bind]
    cases hp : problemL cfg t items with
    | some e =>
      rw [hp] at h3
      simp only [Outcome] at h3 ⊢
      rw [h3]; rfl
    | none =>
      rw [hp] at h3
      obtain ⟨⟨st3, cur, blocks⟩, h4, e3⟩ := h3
      rw [h4]
      exact ⟨_, rfl, finish_ext ((e1.trans e2).trans e3)⟩
  | .map ref pool size items, hw, st, h => by
    obtain ⟨st1, h1, e1⟩ := seriCount_total cfg size h
    obtain ⟨id, st2, h2, e2⟩ := seriSplitId_total cfg (show st1.Mode t from e1.2)
    have h3 := seriKVs_total cfg t items (fun k o ho => fun ref dt p hb => hw ref dt p (.entry ho hb)) st2 e2.2 st2.outer.length []
    simp only [Obj.problem, valueSeri, h1, h2, ok_bind]
    cases hp : problemE cfg t items with
    | some e =>
      rw [hp] at h3
      simp only [Outcome] at h3 ⊢
      rw [h3]; rfl
    | none =>
      rw [hp] at h3
      obtain ⟨⟨st3, cur, blocks⟩, h4, e3⟩ := h3
      rw [h4]
      exact ⟨_, rfl, finish_ext ((e1.trans e2).trans e3)⟩
theorem seriItems_total (cfg : Cfg) (t : SeriType) : ∀ (os : List Obj), (∀ o ∈ os, o.WellTyped) → ∀ st : SState, st.Mode t →
    ∀ (cur : Nat) (blocks : List Nat), Outcome t st (problemL cfg t os) (seriItems cfg os st cur blocks) Prod.fst
  | [], _, st, h, cur, blocks => ⟨(st, cur, blocks), by simp only [seriItems], Nat.le_refl _, h⟩
  | o :: os, hw, st, h, cur, blocks => by
    have h1 := seriChild_total (o := o) (pr := o.problem cfg t) h (by rintro rfl; simp only [Obj.problem])
      (fun st hst => valueSeri_total cfg t o (hw o (by simp)) st hst)
    simp only [problemL, seriItems]
    cases hp : o.problem cfg t with
    | some e =>
      rw [hp] at h1
      simp only [Outcome, Option.or] at h1 ⊢
      rw [h1]; rfl
    | none =>
      rw [hp] at h1
      obtain ⟨st1, h1, e1⟩ := h1
      have h2 := seriItems_total cfg t os (fun o ho => hw o (by simp [ho])) st1 e1.2 (blockStep cfg st1 cur blocks).1
        (blockStep cfg st1 cur blocks).2
      rw [h1]
      simp only [ok_bind, Option.none_or]
      cases hq : problemL cfg t os with
      | some e => rw [hq] at h2; exact h2
      | none =>
        rw [hq] at h2
        obtain ⟨a, h3, e3⟩ := h2
        exact ⟨a, h3, SState.Ext.trans (show st.Ext t st1 from e1) e3⟩
theorem seriKVs_total (cfg : Cfg) (t : SeriType) : ∀ (os : List (Str × Obj)), (∀ k o, (k, o) ∈ os → o.WellTyped) → ∀ st : SState,
    st.Mode t → ∀ (cur : Nat) (blocks : List Nat), Outcome t st (problemE cfg t os) (seriKVs cfg os st cur blocks) Prod.fst
  | [], _, st, h, cur, blocks => ⟨(st, cur, blocks), by simp only [seriKVs], Nat.le_refl _, h⟩
  | (k, o) :: os, hw, st, h, cur, blocks => by
    obtain ⟨st0, h0, e0⟩ := seriKey_total cfg k h
    have h1 := seriChild_total (o := o) (pr := o.problem cfg t) (show st0.Mode t from e0.2) (by rintro rfl; simp only [Obj.problem])
      (fun st hst => valueSeri_total cfg t o (hw k o (by simp)) st hst)
    simp only [problemE, seriKVs, h0, ok_bind]
    cases hp : o.problem cfg t with
    | some e =>
      rw [hp] at h1
      simp only [Outcome, Option.or] at h1 ⊢
      rw [h1]; rfl
    | none =>
      rw [hp] at h1
      obtain ⟨st1, h1, e1⟩ := h1
      have h2 := seriKVs_total cfg t os (fun k' o ho => hw k' o (by simp [ho])) st1 e1.2 (blockStep cfg st1 cur blocks).1
        (blockStep cfg st1 cur blocks).2
      rw [h1]
      simp only [ok_bind, Option.none_or]
      cases hq : problemE cfg t os with
      | some e => rw [hq] at h2; exact h2
      | none =>
        rw [hq] at h2
        obtain ⟨a, h3, e3⟩ := h2
        exact ⟨a, h3, (e0.trans (show st0.Ext t st1 from e1)).trans e3⟩
end

theorem smSerializeGo_total (cfg : Cfg) (l : List (Str × Nat)) (r : Bytes) : ∃ r', smSerializeGo cfg l r = .ok r' := by
  induction l generalizing r with
  | nil => exact ⟨r, rfl⟩
  | cons e l ih =>
    obtain ⟨s, id⟩ := e
    obtain ⟨b1, h1⟩ := seriLength_total cfg s.bytes.length r
    obtain ⟨b2, h2⟩ := seriLength_total cfg id (r ++ b1 ++ s.bytes)
    obtain ⟨r', h3⟩ := ih (r ++ b1 ++ s.bytes ++ b2)
    exact ⟨r', by simp only [smSerializeGo, h1, h2, ok_bind, h3]⟩

theorem siBlocksGo_total (cfg : Cfg) (l : List Nat) (r : Bytes) : ∃ r', siBlocksGo cfg l r = .ok r' := by
  induction l generalizing r with
  | nil => exact ⟨r, rfl⟩
  | cons e l ih =>
    obtain ⟨b1, h1⟩ := seriLength_total cfg e r
    obtain ⟨r', h3⟩ := ih (r ++ b1)
    exact ⟨r', by simp only [siBlocksGo, h1, ok_bind, h3]⟩

theorem siSerializeGo_total (cfg : Cfg) (l : List (Nat × List Nat)) (r : Bytes) : ∃ r', siSerializeGo cfg l r = .ok r' := by
  induction l generalizing r with
  | nil => exact ⟨r, rfl⟩
  | cons e l ih =>
    obtain ⟨id, bl⟩ := e
    obtain ⟨b1, h1⟩ := seriLength_total cfg id r
    obtain ⟨b2, h2⟩ := seriLength_total cfg (toU32 bl.length) (r ++ b1)
    obtain ⟨r2, h3⟩ := siBlocksGo_total cfg (bl.take (toU32 bl.length)) (r ++ b1 ++ b2)
    obtain ⟨r', h4⟩ := ih r2
    exact ⟨r', by simp only [siSerializeGo, h1, h2, ok_bind, h3, h4]⟩

theorem suffix_total (cfg : Cfg) (c s : Bytes) : ∃ r, suffixSecondary cfg c s = .ok r := by
  obtain ⟨b1, h1⟩ := seriLength_total cfg s.length c
  exact ⟨_, by simp only [suffixSecondary, h1, ok_bind]; rfl⟩

theorem smSerialize_total (cfg : Cfg) (m : StringMap) : ∃ r, m.serialize cfg = .ok r := by
  obtain ⟨b1, h1⟩ := seriLength_total cfg m.map.length []
  obtain ⟨r, h2⟩ := smSerializeGo_total cfg (cfg.smOrd m.map) ([] ++ b1)
  exact ⟨r, by simp only [StringMap.serialize, h1, ok_bind, h2]⟩

theorem siSerialize_total (cfg : Cfg) (m : SplitInfo) : ∃ r, m.serialize cfg = .ok r := by
  obtain ⟨b1, h1⟩ := seriLength_total cfg (toU32 m.info.length) []
  obtain ⟨r, h2⟩ := siSerializeGo_total cfg (cfg.siOrd m.info) ([] ++ b1)
  exact ⟨r, by simp only [SplitInfo.serialize, h1, ok_bind, h2]⟩

/-- `Serialize` fails with the first problem of the tree, and succeeds if there is none. -/
theorem serialize_total (cfg : Cfg) (t : SeriType) (o : Obj) (hw : o.WellTyped) :
    match o.problem cfg t with
    | some e => serialize cfg t o = .error e
    | none => ∃ c, serialize cfg t o = .ok c := by
  have hroot : (rootOf o).WellTyped := by
    intro ref dt p hb
    unfold rootOf at hb
    cases hb with
    | entry h hb =>
      simp only [List.mem_singleton, Prod.mk.injEq] at h
      obtain ⟨_, rfl⟩ := h
      exact hw ref dt p hb
  have hpr : (rootOf o).problem cfg t = o.problem cfg t := by
    unfold rootOf
    rw [Obj.problem, problemE, problemE]
    cases o.problem cfg t <;> rfl
  have h := valueSeri_total cfg t (rootOf o) hroot ⟨List.replicate 8 0 ++ [t.toChar] ++ [0], initDict t, some {}⟩
    (by cases t <;> rfl)
  rw [hpr] at h
  unfold serialize
  simp only
  cases hp : o.problem cfg t with
  | some e =>
    rw [hp] at h
    simp only [Outcome] at h ⊢
    rw [h]; rfl
  | none =>
    rw [hp] at h
    obtain ⟨⟨st, sp⟩, h1, h2⟩ := h
    simp only [h1, ok_bind]
    simp only [SState.Ext, List.length_append, List.length_replicate, List.length_cons, List.length_nil] at h2
    have hlen : ¬ (if sp = true then st.outer.set (List.replicate 8 (0 : UInt8) ++ [t.toChar]).length 10 else st.outer).length < 8 := by
      split
      · rw [List.length_set]; omega
      · omega
    generalize hret : (if sp = true then st.outer.set (List.replicate 8 (0 : UInt8) ++ [t.toChar]).length 10 else st.outer) = ret at hlen
    simp only [seriTotalSize, if_neg hlen, ok_bind]
    obtain ⟨s1, hs1⟩ := siSerialize_total cfg (st.si.getD {})
    cases hsm : st.sm with
    | none =>
      simp only [pure_eq_ok, ok_bind, hs1]
      exact suffix_total _ _ _
    | some m =>
      obtain ⟨s2, hs2⟩ := smSerialize_total cfg m
      simp only [hs2, ok_bind]
      obtain ⟨c1, hc1⟩ := suffix_total cfg (image cfg.little 8 (if cfg.little = true then flipByByte cfg.little 8 ret.length else ret.length) ++ ret.drop 8) s2
      simp only [hc1, ok_bind, hs1]
      exact suffix_total _ _ _

/-! ### What the problems mean -/

theorem problemL_some {cfg : Cfg} {t : SeriType} {os : List Obj} {e : Err} (h : problemL cfg t os = some e) :
    ∃ o ∈ os, o.problem cfg t = some e := by
  induction os with
  | nil => simp [problemL] at h
  | cons o os ih =>
    simp only [problemL] at h
    cases hp : o.problem cfg t with
    | some e' => rw [hp] at h; simp only [Option.some_or] at h; exact ⟨o, by simp, by rw [hp, h]⟩
    | none =>
      rw [hp] at h
      obtain ⟨x, hx, h2⟩ := ih (by simpa using h)
      exact ⟨x, by simp [hx], h2⟩

theorem problemE_some {cfg : Cfg} {t : SeriType} {os : List (Str × Obj)} {e : Err} (h : problemE cfg t os = some e) :
    ∃ k o, (k, o) ∈ os ∧ o.problem cfg t = some e := by
  induction os with
  | nil => simp [problemE] at h
  | cons x os ih =>
    obtain ⟨k, o⟩ := x
    simp only [problemE] at h
    cases hp : o.problem cfg t with
    | some e' => rw [hp] at h; simp only [Option.some_or] at h; exact ⟨k, o, by simp, by rw [hp, h]⟩
    | none =>
      rw [hp] at h
      obtain ⟨k2, x, hx, h2⟩ := ih (by simpa using h)
      exact ⟨k2, x, by simp [hx], h2⟩

theorem problemL_none {cfg : Cfg} {t : SeriType} {os : List Obj} : problemL cfg t os = none ↔ ∀ o ∈ os, o.problem cfg t = none := by
  induction os with
  | nil => simp [problemL]
  | cons o os ih => simp [problemL, ih]

theorem problemE_none {cfg : Cfg} {t : SeriType} {os : List (Str × Obj)} :
    problemE cfg t os = none ↔ ∀ k o, (k, o) ∈ os → o.problem cfg t = none := by
  induction os with
  | nil => simp [problemE]
  | cons x os ih =>
    obtain ⟨k, o⟩ := x
    simp only [problemE, Option.or_eq_none_iff, ih, List.mem_cons, Prod.mk.injEq]
    constructor
    · rintro ⟨h1, h2⟩ k' o' (⟨rfl, rfl⟩ | h)
      · exact h1
      · exact h2 k' o' h
    · intro h
      exact ⟨h k o (.inl ⟨rfl, rfl⟩), fun k' o' h' => h k' o' (.inr h')⟩

/-- A problem comes from a leaf or a null child. -/
theorem problem_source {cfg : Cfg} {t : SeriType} : ∀ (n : Nat) (o : Obj) (e : Err), sizeOf o ≤ n → o.problem cfg t = some e →
    ∃ x, o.Below x ∧ ((x = .null ∧ e = .ub .nullDeref) ∨ ∃ ref dt p, x = .data ref dt p ∧ leafProblem cfg t dt p = some e)
  | 0, o, e, hn, _ => by cases o <;> simp at hn <;> omega
  | n + 1, o, e, hn, h => by
    cases o with
    | null => simp only [Obj.problem, Option.some.injEq] at h; exact ⟨_, .self, .inl ⟨rfl, h.symm⟩⟩
    | data ref dt p => exact ⟨_, .self, .inr ⟨ref, dt, p, rfl, by simpa only [Obj.problem] using h⟩⟩
    | array pool size items =>
      simp only [Obj.problem] at h
      obtain ⟨c, hc, h2⟩ := problemL_some h
      have := List.sizeOf_lt_of_mem hc
      simp only [Obj.array.sizeOf_spec] at hn
      obtain ⟨x, hx, h3⟩ := problem_source n c e (by omega) h2
      exact ⟨x, .item hc hx, h3⟩
    | map ref pool size items =>
      simp only [Obj.problem] at h
      obtain ⟨k, c, hc, h2⟩ := problemE_some h
      have := List.sizeOf_lt_of_mem hc
      simp only [Obj.map.sizeOf_spec, Prod.mk.sizeOf_spec] at hn this
      obtain ⟨x, hx, h3⟩ := problem_source n c e (by omega) h2
      exact ⟨x, .entry hc hx, h3⟩

/-- A tree without a problem has no problem anywhere. -/
theorem problem_none_below {cfg : Cfg} {t : SeriType} {o x : Obj} (hb : o.Below x) (h : o.problem cfg t = none) :
    x.problem cfg t = none := by
  induction hb with
  | self => exact h
  | item hm _ ih => simp only [Obj.problem] at h; exact ih (problemL_none.1 h _ hm)
  | entry hm _ ih => simp only [Obj.problem] at h; exact ih (problemE_none.1 h _ _ hm)

/-! ### C24 -/

/-- C24. On a tree of well-typed values with no null child and no value that was never set, `Serialize` succeeds, in both
modes, for every platform (a library with bounds assertions: see C52). -/
theorem C24_valid_trees_succeed (cfg : Cfg) (hh : cfg.hardened = false) (t : SeriType) (o : Obj) (hw : o.WellTyped)
    (hn : ¬ o.HasNull) (hu : ¬ o.HasUnset) : ∃ c, serialize cfg t o = .ok c := by
  have h := serialize_total cfg t o hw
  cases hp : o.problem cfg t with
  | none => rw [hp] at h; exact h
  | some e =>
    obtain ⟨x, hb, h2⟩ := problem_source _ o e (Nat.le_refl _) hp
    rcases h2 with ⟨rfl, _⟩ | ⟨ref, dt, p, rfl, h3⟩
    · exact absurd hb hn
    · exfalso
      unfold leafProblem at h3
      split at h3
      · rename_i hd
        rcases hw ref dt p hb with ⟨_, rfl⟩ | hs
        · subst hd
          cases ref
          · exact hu (.inl hb)
          · exact hu (.inr hb)
        · exact (scalarOf_valid hs).2 hd
      · split at h3 <;> simp [hh] at h3

/-- C24. A tree with a value that was never set, and no null child, is rejected with a `std::runtime_error`. -/
theorem C24_unset_values_throw (cfg : Cfg) (hh : cfg.hardened = false) (t : SeriType) (o : Obj) (hw : o.WellTyped)
    (hn : ¬ o.HasNull) (hu : o.HasUnset) : ∃ e : Exn, serialize cfg t o = .error (.exn e) ∧ e.isRuntimeError = true := by
  have h := serialize_total cfg t o hw
  cases hp : o.problem cfg t with
  | none =>
    exfalso
    rcases hu with hu | hu
    · have := problem_none_below hu hp
      simp [Obj.dataEmpty, Obj.problem, leafProblem] at this
    · have := problem_none_below hu hp
      simp [Obj.viewEmpty, Obj.problem, leafProblem] at this
  | some e =>
    rw [hp] at h
    obtain ⟨x, hb, h2⟩ := problem_source _ o e (Nat.le_refl _) hp
    rcases h2 with ⟨rfl, _⟩ | ⟨ref, dt, p, rfl, h3⟩
    · exact absurd hb hn
    · unfold leafProblem at h3
      split at h3
      · simp only [Option.some.injEq] at h3
        exact ⟨_, by rw [h, ← h3], rfl⟩
      · split at h3 <;> simp [hh] at h3

/-- C24. `Serialize` reaches undefined behaviour only through a null child, and then it is a null dereference; it never runs
without end. -/
theorem C24_only_null_children_are_ub (cfg : Cfg) (t : SeriType) (o : Obj) (hw : o.WellTyped) :
    (∀ u, serialize cfg t o = .error (.ub u) → u = .nullDeref ∧ o.HasNull) ∧ serialize cfg t o ≠ .error .fuel := by
  have h := serialize_total cfg t o hw
  cases hp : o.problem cfg t with
  | none =>
    rw [hp] at h
    obtain ⟨c, hc⟩ := h
    simp [hc]
  | some e =>
    rw [hp] at h
    simp only at h
    obtain ⟨x, hb, h2⟩ := problem_source _ o e (Nat.le_refl _) hp
    rcases h2 with ⟨rfl, rfl⟩ | ⟨ref, dt, p, rfl, h3⟩
    · rw [h]
      refine ⟨?_, by simp⟩
      intro u hu
      simp only [Except.error.injEq, Err.ub.injEq] at hu
      exact ⟨hu.symm, hb⟩
    · have : e = .exn .dataTypeCheck ∨ e = .abort := by
        unfold leafProblem at h3
        repeat' split at h3
        all_goals simp only [Option.some.injEq, reduceCtorEq] at h3
        · exact .inl h3.symm
        · exact .inr h3.symm
        · exact .inr h3.symm
      rw [h]
      rcases this with rfl | rfl <;> simp

/-- C24: a null child is always noticed as a null dereference or hidden only by an earlier failure: it never gives a
document. -/
theorem C24_null_children_never_succeed (cfg : Cfg) (t : SeriType) (o : Obj) (hw : o.WellTyped) (hn : o.HasNull) (c : Bytes) :
    serialize cfg t o ≠ .ok c := by
  intro hc
  have h := serialize_total cfg t o hw
  cases hp : o.problem cfg t with
  | none =>
    have := problem_none_below hn hp
    simp [Obj.problem] at this
  | some e => rw [hp] at h; simp only at h; rw [h] at hc; cases hc

/-- C24: moving a child out of a map (`Get`) leaves such a null child behind. -/
theorem C24_get_leaves_a_null_child (m : MapS) (k : Bytes) (h : ∃ e ∈ m.items, e.1.bytes = k) : (m.take k).1.toObj.HasNull := by
  obtain ⟨⟨ref, pool, size, items⟩, rfl⟩ : ∃ m', m' = m := ⟨m, rfl⟩
  have : ∀ items : List (Str × Obj), (∃ e ∈ items, e.1.bytes = k) → ∃ k', (k', Obj.null) ∈ (takeKey k items).1 := by
    intro items
    induction items with
    | nil => rintro ⟨e, he, _⟩; simp at he
    | cons x items ih =>
      obtain ⟨k', v⟩ := x
      rintro ⟨e, he, hk⟩
      simp only [takeKey]
      by_cases hx : k'.bytes = k
      · rw [if_pos hx]; exact ⟨k', by simp⟩
      · rw [if_neg hx]
        rcases List.mem_cons.1 he with rfl | he
        · exact absurd hk hx
        · obtain ⟨k2, h2⟩ := ih ⟨e, he, hk⟩
          exact ⟨k2, by simp [h2]⟩
  obtain ⟨k', hk⟩ := this items h
  exact Obj.Below.entry (k := k') hk .self

/-- A tree with a valid value, an unset value and a value moved out. -/
def rejectObj (third : Obj) : Obj :=
  .map false .caller 3 [(⟨[97], none⟩, .data false BRIDGE_INT32 (.i32 1)), (⟨[98], none⟩, .array .caller 1 [third]),
    (⟨[99], none⟩, .data false BRIDGE_STRING (.str [120]))]

example : serialize Cfg.x86 .normal (rejectObj .dataEmpty) = .error (.exn .dataTypeCheck) ∧
    serialize Cfg.x86 .normal (rejectObj .null) = .error (.ub .nullDeref) ∧
    ((MapS.mk false .caller 1 [(⟨[97], none⟩, .data false BRIDGE_INT32 (.i32 1))]).take [97]).1.toObj.HasNull :=
  ⟨by decide +kernel, by decide +kernel, C24_get_leaves_a_null_child _ _ ⟨(⟨[97], none⟩, .data false BRIDGE_INT32 (.i32 1)), by simp, rfl⟩⟩

example : (rejectObj .dataEmpty).WellTyped ∧ (rejectObj .dataEmpty).HasUnset ∧ ¬ (rejectObj .dataEmpty).HasNull := by
  have all : ∀ x, (rejectObj .dataEmpty).Below x → x = rejectObj .dataEmpty ∨ x = .data false BRIDGE_INT32 (.i32 1) ∨
      x = .array .caller 1 [.dataEmpty] ∨ x = .dataEmpty ∨ x = .data false BRIDGE_STRING (.str [120]) := by
    intro x hx
    have leaf : ∀ {r dt p y}, Obj.Below (.data r dt p) y → y = .data r dt p := by intro r dt p y h; cases h; rfl
    cases hx with
    | self => exact .inl rfl
    | entry h hb =>
      simp only [List.mem_cons, Prod.mk.injEq, List.not_mem_nil, or_false] at h
      rcases h with ⟨_, rfl⟩ | ⟨_, rfl⟩ | ⟨_, rfl⟩
      · exact .inr (.inl (leaf hb))
      · cases hb with
        | self => exact .inr (.inr (.inl rfl))
        | item h hb =>
          simp only [List.mem_singleton] at h
          subst h
          exact .inr (.inr (.inr (.inl (leaf hb))))
      · exact .inr (.inr (.inr (.inr (leaf hb))))
  refine ⟨?_, .inl ?_, ?_⟩
  · intro ref dt p hb
    rcases all _ hb with h | h | h | h | h
    · cases h
    · cases h; exact .inr rfl
    · cases h
    · cases h; exact .inl ⟨rfl, rfl⟩
    · cases h; exact .inr rfl
  · exact .entry (k := ⟨[98], none⟩) (c := .array .caller 1 [.dataEmpty]) (by simp) (.item (List.mem_singleton_self _) .self)
  · intro h
    rcases all _ h with h | h | h | h | h <;> cases h

/-! ### C52 -/

/-- C52. With bounds assertions in the standard library, `Serialize` of a tree of set values and no null child aborts if some
leaf is an empty byte array, an empty user-defined value or (without a dictionary) an empty in-situ string, and succeeds
otherwise. -/
theorem C52_hardened_library (cfg : Cfg) (hh : cfg.hardened = true) (t : SeriType) (o : Obj) (hw : o.WellTyped)
    (hn : ¬ o.HasNull) (hu : ¬ o.HasUnset) :
    (o.HasEmptyRange t → serialize cfg t o = .error .abort) ∧ (¬ o.HasEmptyRange t → ∃ c, serialize cfg t o = .ok c) := by
  have h := serialize_total cfg t o hw
  cases hp : o.problem cfg t with
  | none =>
    rw [hp] at h
    refine ⟨?_, fun _ => h⟩
    rintro ⟨ref, dt, p, hb, h2⟩
    exfalso
    have hx := problem_none_below hb hp
    have hd : dt ≠ BRIDGE_INVALID := by
      rintro rfl
      simp [Obj.problem, leafProblem] at hx
    rcases h2 with rfl | ⟨s, rfl, h3, h4⟩
    · simp [Obj.problem, leafProblem, hd, hh] at hx
    · rcases h4 with h4 | h4
      · simp only [Obj.problem, leafProblem, if_neg hd, hh, h3] at hx
        simp [h4] at hx
      · simp [Obj.problem, leafProblem, hd, hh, h3, h4] at hx
  | some e =>
    rw [hp] at h
    simp only at h
    obtain ⟨x, hb, h2⟩ := problem_source _ o e (Nat.le_refl _) hp
    rcases h2 with ⟨rfl, _⟩ | ⟨ref, dt, p, rfl, h3⟩
    · exact absurd hb hn
    · unfold leafProblem at h3
      split at h3
      · rename_i hd
        exfalso
        rcases hw ref dt p hb with ⟨_, rfl⟩ | hs
        · subst hd
          cases ref
          · exact hu (.inl hb)
          · exact hu (.inr hb)
        · exact (scalarOf_valid hs).2 hd
      · split at h3
        · rename_i b
          split at h3
          · rename_i hc
            simp only [Option.some.injEq] at h3
            subst h3
            refine ⟨fun _ => h, fun hne => absurd ⟨ref, dt, _, hb, .inl ?_⟩ hne⟩
            simp only [Bool.and_eq_true, List.isEmpty_iff] at hc
            rw [hc.2]
          · simp at h3
        · rename_i s
          split at h3
          · rename_i hc
            simp only [Option.some.injEq] at h3
            subst h3
            simp only [Bool.and_eq_true, List.isEmpty_iff, Bool.or_eq_true, decide_eq_true_eq] at hc
            exact ⟨fun _ => h, fun hne => absurd ⟨ref, dt, _, hb, .inr ⟨s, rfl, hc.1.2, hc.2⟩⟩ hne⟩
          · simp at h3
        · simp at h3

/-- C52: making an in-situ value from an empty `std::vector<char>` already aborts with bounds assertions, and is harmless
without them. -/
theorem C52_empty_vector_view (cfg : Cfg) :
    viewOfVal cfg (.bytes []) = some (if cfg.hardened then .error .abort else .ok (BRIDGE_BYTES, .view ⟨[], none⟩)) := by
  cases h : cfg.hardened <;> simp [viewOfVal, h]

example :
    let w : Cfg := { Cfg.x86 with hardened := true }
    serialize w .replace (rejectObj (.data false BRIDGE_BYTES (.vec []))) = .error .abort ∧
      (serialize w .replace (rejectObj (.data true BRIDGE_STRING (.view ⟨[], none⟩)))).toOption.isSome = true ∧
      serialize w .normal (rejectObj (.data true BRIDGE_STRING (.view ⟨[], none⟩))) = .error .abort ∧
      (serialize Cfg.x86 .normal (rejectObj (.data true BRIDGE_STRING (.view ⟨[], none⟩)))).toOption.isSome = true := by
  decide +kernel

end Bridge
