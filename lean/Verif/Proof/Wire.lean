import Verif.Model.Seri
import Verif.Model.Abs
import Verif.Proof.Num
/-
The bytes that serialization appends, as a function of the document (a proof device), and the proof that the modelled
serializer produces exactly them.
-/
namespace Bridge
open Spec

/-- A length as written: `seriLength` takes a `uint32_t`. -/
def lenB (n : Nat) : Bytes := leb128 (toU32 n)

theorem toU32_lt (n : Nat) : toU32 n < 2 ^ 32 := Nat.mod_lt _ (by decide)

theorem toU32_idem (n : Nat) : toU32 (toU32 n) = toU32 n := by unfold toU32; simp

theorem toU32_of_lt {n : Nat} (h : n < 2 ^ 32) : toU32 n = n := Nat.mod_eq_of_lt h

theorem seriLength_eq {cfg : Cfg} (hc : cfg.charSigned = true) (n : Nat) (outer : Bytes) :
    seriLength cfg n outer = .ok (outer ++ lenB n) := by
  unfold seriLength
  have h1 := toU32_lt n
  rw [varintEncode_eq hc _ _ (by omega) (by have := leb128_length_le5 h1; omega)]
  rfl

/-- Tables during serialization. -/
structure Env where
  sm : Option StringMap
  si : SplitInfo

def scalarCode : Scalar → UInt8
  | .bytes _ => BRIDGE_BYTES
  | .string _ => BRIDGE_STRING
  | .int32 _ => BRIDGE_INT32
  | .uint32 _ => BRIDGE_UINT32
  | .int64 _ => BRIDGE_INT64
  | .uint64 _ => BRIDGE_UINT64
  | .float _ => BRIDGE_FLOAT
  | .double _ => BRIDGE_DOUBLE
  | .custom _ => BRIDGE_CUSTOM

def scalarRaw : Scalar → Bytes
  | .bytes b => b
  | .string b => b
  | .int32 v => bigEndian 4 v.toNat
  | .uint32 v => bigEndian 4 v.toNat
  | .int64 v => bigEndian 8 v.toNat
  | .uint64 v => bigEndian 8 v.toNat
  | .float v => bigEndian 4 v.toNat
  | .double v => bigEndian 8 v.toNat
  | .custom b => b

/-- A key, or a string value after its type code. -/
def emitStr (b : Bytes) (e : Env) : Bytes × Env :=
  match e.sm with
  | none => (lenB b.length ++ b, e)
  | some m => (lenB (m.register ⟨b, none⟩).2, { e with sm := some (m.register ⟨b, none⟩).1 })

def emitScalar (s : Scalar) (e : Env) : Bytes × Env :=
  match s with
  | .string b => (BRIDGE_STRING :: (emitStr b e).1, (emitStr b e).2)
  | s => (scalarCode s :: (lenB (scalarRaw s).length ++ scalarRaw s), e)

def docType : Doc → ObjectType
  | .scalar _ => .data
  | .array _ => .array
  | .map _ => .map

def tagByte (t : ObjectType) (split : Bool) : UInt8 := if split then t.toChar ||| 0x80 else t.toChar

/-- Sizes of the blocks for the sizes of the children; `pend` bytes are already in the open block. -/
def groupSizes (B : Nat) : (pend : Nat) → List Nat → List Nat
  | pend, [] => if pend > 0 then [pend] else []
  | pend, l :: ls => if pend + l ≥ B then (pend + l) :: groupSizes B 0 ls else groupSizes B (pend + l) ls

/-- The block list of a container whose children have the given bytes. -/
def blocksOf (cfg : Cfg) (chunks : List Bytes) : List Nat :=
  (groupSizes cfg.blockSize 0 (chunks.map List.length)).map toU32

def mustSplit (cfg : Cfg) (blocks : List Nat) : Bool :=
  decide (¬ blocks.isEmpty ∧ (blocks.length ≥ 2 ∨ blocks.getLastD 0 ≥ cfg.blockSize))

/-- A container's body and bookkeeping, given its count, its split id and the bytes of its children. -/
def emitContainer (cfg : Cfg) (count id : Nat) (chunks : List Bytes) (e : Env) : Bytes × Bool × Env :=
  (lenB count ++ lenB id ++ chunks.flatten, mustSplit cfg (blocksOf cfg chunks),
    if mustSplit cfg (blocksOf cfg chunks) then { e with si := e.si.register id (blocksOf cfg chunks) } else e)

mutual
/-- The bytes of a value without its type byte, whether it was split, and the new tables. -/
def emitDoc (cfg : Cfg) : Doc → Env → Bytes × Bool × Env
  | .scalar s, e => ((emitScalar s e).1, false, (emitScalar s e).2)
  | .array xs, e =>
    let r := emitItems cfg xs { e with si := e.si.requestId.1 }
    emitContainer cfg xs.length e.si.requestId.2 r.1 r.2
  | .map es, e =>
    let r := emitKVs cfg es { e with si := e.si.requestId.1 }
    emitContainer cfg es.length e.si.requestId.2 r.1 r.2
/-- The bytes of each child of an array. -/
def emitItems (cfg : Cfg) : List Doc → Env → List Bytes × Env
  | [], e => ([], e)
  | x :: xs, e =>
    let r := emitDoc cfg x e
    let rs := emitItems cfg xs r.2.2
    ((tagByte (docType x) r.2.1 :: r.1) :: rs.1, rs.2)
/-- The bytes of each entry of a map. -/
def emitKVs (cfg : Cfg) : List (Bytes × Doc) → Env → List Bytes × Env
  | [], e => ([], e)
  | (k, x) :: xs, e =>
    let rk := emitStr k e
    let r := emitDoc cfg x rk.2
    let rs := emitKVs cfg xs r.2.2
    ((rk.1 ++ tagByte (docType x) r.2.1 :: r.1) :: rs.1, rs.2)
end

/-! ### the serializer emits exactly these bytes -/

/-- In a build with library bounds checks, empty byte values and empty string views must be avoided. -/
def leafHard (cfg : Cfg) (p : Payload) : Prop :=
  cfg.hardened = true → (∀ b, p = .vec b → b ≠ []) ∧ (∀ s, p = .view s → s.bytes ≠ [])

mutual
def Obj.Hard (cfg : Cfg) : Obj → Prop
  | .null => True
  | .data _ _ p => leafHard cfg p
  | .array _ _ items => hardL cfg items
  | .map _ _ _ items => hardE cfg items
def hardL (cfg : Cfg) : List Obj → Prop
  | [] => True
  | o :: os => o.Hard cfg ∧ hardL cfg os
def hardE (cfg : Cfg) : List (Str × Obj) → Prop
  | [] => True
  | (_, o) :: os => o.Hard cfg ∧ hardE cfg os
end

mutual
theorem hard_of_unhardened {cfg : Cfg} (h : cfg.hardened = false) : ∀ o : Obj, o.Hard cfg
  | .null => trivial
  | .data _ _ p => by intro hh; rw [h] at hh; simp at hh
  | .array _ _ items => by unfold Obj.Hard; exact hardL_of_unhardened h items
  | .map _ _ _ items => by unfold Obj.Hard; exact hardE_of_unhardened h items
theorem hardL_of_unhardened {cfg : Cfg} (h : cfg.hardened = false) : ∀ o : List Obj, hardL cfg o
  | [] => trivial
  | o :: os => ⟨hard_of_unhardened h o, hardL_of_unhardened h os⟩
theorem hardE_of_unhardened {cfg : Cfg} (h : cfg.hardened = false) : ∀ o : List (Str × Obj), hardE cfg o
  | [] => trivial
  | (_, o) :: os => ⟨hard_of_unhardened h o, hardE_of_unhardened h os⟩
end

theorem appendRange_eq {cfg : Cfg} {b : Bytes} (h : cfg.hardened = true → b ≠ []) (outer : Bytes) :
    appendRange cfg b outer = .ok (outer ++ b) := by
  unfold appendRange
  cases hh : cfg.hardened with
  | false => simp
  | true =>
    have := h hh
    cases b with
    | nil => simp at this
    | cons x xs => simp

theorem seriNum_eq {cfg : Cfg} (hc : cfg.charSigned = true) (k n : Nat) (outer : Bytes) :
    seriNum cfg k n outer = .ok (outer ++ (lenB (bigEndian k n).length ++ bigEndian k n)) := by
  unfold seriNum
  rw [seriLength_eq hc, numWire_eq, bigEndian_length]
  simp

def stOf (outer : Bytes) (e : Env) : SState := ⟨outer, e.sm, some e.si⟩

theorem dataSeri_eq {cfg : Cfg} (hc : cfg.charSigned = true) {ref : Bool} {dt : UInt8} {p : Payload} {s : Scalar}
    (hs : scalarOf ref dt p = some s) (hh : leafHard cfg p) (outer : Bytes) (e : Env) :
    dataSeri cfg ref dt p (stOf outer e) = .ok (stOf (outer ++ (emitScalar s e).1) (emitScalar s e).2, false) := by
  unfold leafHard at hh
  have hchk : checkDataType dt = .ok () := by
    unfold scalarOf at hs
    cases p <;> simp only [] at hs <;> (repeat' split at hs) <;> simp_all [checkDataType] <;> decide
  unfold dataSeri
  rw [hchk]
  simp only [ok_bind, stOf]
  cases p with
  | none => simp [scalarOf] at hs
  | vec b =>
    simp only [scalarOf] at hs
    cases ref with
    | true => simp at hs
    | false =>
      have hb : cfg.hardened = true → b ≠ [] := fun h => (hh h).1 b rfl
      by_cases h0 : dt = BRIDGE_BYTES
      · subst h0; simp at hs; subst hs
        simp [show ¬ (BRIDGE_BYTES = BRIDGE_STRING) by decide, seriDataOwn, seriLength_eq hc, appendRange_eq hb,
          emitScalar, scalarCode, scalarRaw, decide_false]
      · by_cases h1 : dt = BRIDGE_CUSTOM
        · subst h1; simp [h0] at hs; subst hs
          simp [show ¬ (BRIDGE_CUSTOM = BRIDGE_STRING) by decide, seriDataOwn, seriLength_eq hc, appendRange_eq hb,
            emitScalar, scalarCode, scalarRaw, decide_false]
        · simp [h0, h1] at hs
  | str b =>
    simp only [scalarOf] at hs
    cases ref with
    | true => simp at hs
    | false =>
      by_cases h0 : dt = BRIDGE_STRING
      · subst h0; simp at hs; subst hs
        cases hm : e.sm with
        | none =>
          simp [show ¬ (BRIDGE_STRING = BRIDGE_BYTES) by decide, show ¬ (BRIDGE_STRING = BRIDGE_CUSTOM) by decide,
            seriDataOwn, seriLength_eq hc, emitScalar, emitStr, hm]
        | some m => simp [seriLength_eq hc, emitScalar, emitStr, hm]
      · simp [h0] at hs
  | view v =>
    simp only [scalarOf] at hs
    cases ref with
    | false => simp at hs
    | true =>
      have hb : cfg.hardened = true → v.bytes ≠ [] := fun h => (hh h).2 v rfl
      by_cases h0 : dt = BRIDGE_BYTES
      · subst h0; simp at hs; subst hs
        simp [show ¬ (BRIDGE_BYTES = BRIDGE_STRING) by decide, seriDataView, seriLength_eq hc, appendRange_eq hb,
          emitScalar, scalarCode, scalarRaw, decide_false]
      · by_cases h1 : dt = BRIDGE_STRING
        · subst h1; simp [h0] at hs; subst hs
          cases hm : e.sm with
          | none =>
            simp [seriDataView, seriLength_eq hc, emitScalar, emitStr, hm, appendRange_eq hb]
          | some m => simp [seriLength_eq hc, emitScalar, emitStr, hm]
        · simp [h0, h1] at hs
  | i32 v =>
    have h0 : dt = BRIDGE_INT32 := by apply Decidable.byContradiction; intro h; simp [scalarOf, h] at hs
    subst h0; simp [scalarOf] at hs; subst hs
    cases ref <;> cases hm : e.sm <;> simp [hm, seriDataView, seriDataOwn, seriNum_eq hc, emitScalar, scalarCode, scalarRaw,
      show ¬ (BRIDGE_INT32 = BRIDGE_STRING) by decide, show ¬ (BRIDGE_INT32 = BRIDGE_BYTES) by decide,
      show ¬ (BRIDGE_INT32 = BRIDGE_CUSTOM) by decide]
  | u32 v =>
    have h0 : dt = BRIDGE_UINT32 := by apply Decidable.byContradiction; intro h; simp [scalarOf, h] at hs
    subst h0; simp [scalarOf] at hs; subst hs
    cases ref <;> cases hm : e.sm <;> simp [hm, seriDataView, seriDataOwn, seriNum_eq hc, emitScalar, scalarCode, scalarRaw,
      show ¬ (BRIDGE_UINT32 = BRIDGE_STRING) by decide, show ¬ (BRIDGE_UINT32 = BRIDGE_BYTES) by decide,
      show ¬ (BRIDGE_UINT32 = BRIDGE_CUSTOM) by decide, show ¬ (BRIDGE_UINT32 = BRIDGE_INT32) by decide]
  | i64 v =>
    have h0 : dt = BRIDGE_INT64 := by apply Decidable.byContradiction; intro h; simp [scalarOf, h] at hs
    subst h0; simp [scalarOf] at hs; subst hs
    cases ref <;> cases hm : e.sm <;> simp [hm, seriDataView, seriDataOwn, seriNum_eq hc, emitScalar, scalarCode, scalarRaw,
      show ¬ (BRIDGE_INT64 = BRIDGE_STRING) by decide, show ¬ (BRIDGE_INT64 = BRIDGE_BYTES) by decide,
      show ¬ (BRIDGE_INT64 = BRIDGE_CUSTOM) by decide, show ¬ (BRIDGE_INT64 = BRIDGE_INT32) by decide,
      show ¬ (BRIDGE_INT64 = BRIDGE_UINT32) by decide]
  | u64 v =>
    have h0 : dt = BRIDGE_UINT64 := by apply Decidable.byContradiction; intro h; simp [scalarOf, h] at hs
    subst h0; simp [scalarOf] at hs; subst hs
    cases ref <;> cases hm : e.sm <;> simp [hm, seriDataView, seriDataOwn, seriNum_eq hc, emitScalar, scalarCode, scalarRaw,
      show ¬ (BRIDGE_UINT64 = BRIDGE_STRING) by decide, show ¬ (BRIDGE_UINT64 = BRIDGE_BYTES) by decide,
      show ¬ (BRIDGE_UINT64 = BRIDGE_CUSTOM) by decide, show ¬ (BRIDGE_UINT64 = BRIDGE_INT32) by decide,
      show ¬ (BRIDGE_UINT64 = BRIDGE_UINT32) by decide, show ¬ (BRIDGE_UINT64 = BRIDGE_INT64) by decide]
  | f32 v =>
    have h0 : dt = BRIDGE_FLOAT := by apply Decidable.byContradiction; intro h; simp [scalarOf, h] at hs
    subst h0; simp [scalarOf] at hs; subst hs
    cases ref <;> cases hm : e.sm <;> simp [hm, seriDataView, seriDataOwn, seriNum_eq hc, emitScalar, scalarCode, scalarRaw,
      show ¬ (BRIDGE_FLOAT = BRIDGE_STRING) by decide, show ¬ (BRIDGE_FLOAT = BRIDGE_BYTES) by decide,
      show ¬ (BRIDGE_FLOAT = BRIDGE_CUSTOM) by decide, show ¬ (BRIDGE_FLOAT = BRIDGE_INT32) by decide,
      show ¬ (BRIDGE_FLOAT = BRIDGE_UINT32) by decide, show ¬ (BRIDGE_FLOAT = BRIDGE_INT64) by decide,
      show ¬ (BRIDGE_FLOAT = BRIDGE_UINT64) by decide]
  | f64 v =>
    have h0 : dt = BRIDGE_DOUBLE := by apply Decidable.byContradiction; intro h; simp [scalarOf, h] at hs
    subst h0; simp [scalarOf] at hs; subst hs
    cases ref <;> cases hm : e.sm <;> simp [hm, seriDataView, seriDataOwn, seriNum_eq hc, emitScalar, scalarCode, scalarRaw,
      show ¬ (BRIDGE_DOUBLE = BRIDGE_STRING) by decide, show ¬ (BRIDGE_DOUBLE = BRIDGE_BYTES) by decide,
      show ¬ (BRIDGE_DOUBLE = BRIDGE_CUSTOM) by decide, show ¬ (BRIDGE_DOUBLE = BRIDGE_INT32) by decide,
      show ¬ (BRIDGE_DOUBLE = BRIDGE_UINT32) by decide, show ¬ (BRIDGE_DOUBLE = BRIDGE_INT64) by decide,
      show ¬ (BRIDGE_DOUBLE = BRIDGE_UINT64) by decide, show ¬ (BRIDGE_DOUBLE = BRIDGE_FLOAT) by decide]


theorem seriKey_eq {cfg : Cfg} (hc : cfg.charSigned = true) (k : Str) (outer : Bytes) (e : Env) :
    seriKey cfg k (stOf outer e) = .ok (stOf (outer ++ (emitStr k.bytes e).1) (emitStr k.bytes e).2) := by
  unfold seriKey stOf emitStr
  cases hm : e.sm with
  | none => simp [seriLength_eq hc, lenB, toU32_idem, hm]
  | some m => simp [seriLength_eq hc]

/-- `seri_child`, given what the child's `valueSeri` does. -/
theorem seriChild_eq {o : Obj} {t : ObjectType} (ht : o.type? = some t) {vs : SState → Res (SState × Bool)}
    {outer body : Bytes} {split : Bool} {e e' : Env}
    (hvs : vs (stOf (outer ++ [t.toChar]) e) = .ok (stOf (outer ++ [t.toChar] ++ body) e', split)) :
    seriChild o vs (stOf outer e) = .ok (stOf (outer ++ tagByte t split :: body) e') := by
  unfold seriChild
  rw [ht]
  simp only [stOf] at hvs ⊢
  rw [hvs]
  simp only [ok_bind]
  cases split with
  | false => simp [tagByte]
  | true => simp [tagByte, List.set_append, List.getD_eq_getElem?_getD, List.getElem?_append]

theorem blockStep_eq (cfg : Cfg) (outer : Bytes) (e : Env) (cur : Nat) (blocks : List Nat) :
    blockStep cfg (stOf outer e) cur blocks =
      if outer.length - cur ≥ cfg.blockSize then (outer.length, blocks ++ [toU32 (outer.length - cur)])
      else (cur, blocks) := by
  unfold blockStep stOf; rfl

theorem finishBlocks_eq (cfg : Cfg) (id : Nat) (outer : Bytes) (e : Env) (cur : Nat) (pre : List Nat) :
    finishBlocks cfg id (stOf outer e) cur pre =
      (stOf outer (if mustSplit cfg (pre ++ (groupSizes cfg.blockSize (outer.length - cur) []).map toU32)
        then { e with si := e.si.register id (pre ++ (groupSizes cfg.blockSize (outer.length - cur) []).map toU32) } else e),
        mustSplit cfg (pre ++ (groupSizes cfg.blockSize (outer.length - cur) []).map toU32)) := by
  have hb : (if (stOf outer e).si.isSome ∧ (stOf outer e).outer.length - cur > 0
      then pre ++ [toU32 ((stOf outer e).outer.length - cur)] else pre) =
      pre ++ (groupSizes cfg.blockSize (outer.length - cur) []).map toU32 := by
    simp only [stOf, groupSizes, Option.isSome_some, true_and]
    split <;> simp
  unfold finishBlocks
  simp only [hb]
  generalize pre ++ (groupSizes cfg.blockSize (outer.length - cur) []).map toU32 = bl
  unfold registerSplitInfo mustSplit
  simp only [stOf]
  by_cases h : ¬ bl.isEmpty ∧ (bl.length ≥ 2 ∨ bl.getLastD 0 ≥ cfg.blockSize)
  · rw [if_pos h]; simp only [decide_eq_true h]; rfl
  · rw [if_neg h]; simp only [decide_eq_false h]; rfl

/-- What the loops over children leave behind: the final `current_size` and blocks, when `pend` bytes were open. -/
def groupState (B : Nat) : (pend : Nat) → List Nat → Nat × List Nat
  | pend, [] => (pend, [])
  | pend, l :: ls =>
    if pend + l ≥ B then ((groupState B 0 ls).1, (pend + l) :: (groupState B 0 ls).2) else groupState B (pend + l) ls

theorem groupSizes_eq (B : Nat) (pend : Nat) (ls : List Nat) :
    groupSizes B pend ls = (groupState B pend ls).2 ++ groupSizes B (groupState B pend ls).1 [] := by
  induction ls generalizing pend with
  | nil => simp [groupState]
  | cons l ls ih =>
    have e : groupSizes B pend (l :: ls) =
      if pend + l ≥ B then (pend + l) :: groupSizes B 0 ls else groupSizes B (pend + l) ls := rfl
    rw [e]
    simp only [groupState]
    split
    · rw [ih 0]; rfl
    · exact ih _

theorem groupState_le (B : Nat) (pend : Nat) (ls : List Nat) : (groupState B pend ls).1 ≤ pend + ls.sum := by
  induction ls generalizing pend with
  | nil => simp [groupState]
  | cons l ls ih =>
    simp only [groupState, List.sum_cons]
    split
    · have := ih 0; simp; omega
    · have := ih (pend + l); omega

theorem docs?_length {os : List Obj} {ds : List Doc} (h : docs? os = some ds) : ds.length = os.length := by
  induction os generalizing ds with
  | nil => simp [docs?] at h; subst h; rfl
  | cons o os ih =>
    simp only [docs?, bind, Option.bind, pure] at h
    split at h <;> try simp at h
    split at h <;> try simp at h
    subst h
    rename_i h2
    simp [ih h2]

theorem entries?_length {os : List (Str × Obj)} {ds : List (Bytes × Doc)} (h : entries? os = some ds) :
    ds.length = os.length := by
  induction os generalizing ds with
  | nil => simp [entries?] at h; subst h; rfl
  | cons o os ih =>
    obtain ⟨k, o⟩ := o
    simp only [entries?, bind, Option.bind, pure] at h
    split at h <;> try simp at h
    split at h <;> try simp at h
    subst h
    rename_i h2
    simp [ih h2]

theorem docs?_cons {o : Obj} {os : List Obj} {ds : List Doc} (h : docs? (o :: os) = some ds) :
    ∃ d ds', ds = d :: ds' ∧ o.doc? = some d ∧ docs? os = some ds' := by
  simp only [docs?, bind, Option.bind, pure] at h
  split at h <;> try simp at h
  split at h <;> try simp at h
  exact ⟨_, _, h.symm, by assumption, by assumption⟩

theorem entries?_cons {k : Str} {o : Obj} {os : List (Str × Obj)} {ds : List (Bytes × Doc)}
    (h : entries? ((k, o) :: os) = some ds) :
    ∃ d ds', ds = (k.bytes, d) :: ds' ∧ o.doc? = some d ∧ entries? os = some ds' := by
  simp only [entries?, bind, Option.bind, pure] at h
  split at h <;> try simp at h
  split at h <;> try simp at h
  exact ⟨_, _, h.symm, by assumption, by assumption⟩

theorem type?_of_doc {o : Obj} {d : Doc} (h : o.doc? = some d) : o.type? = some (docType d) := by
  cases o with
  | null => simp [Obj.doc?] at h
  | data ref dt p =>
    simp only [Obj.doc?, Option.map_eq_some_iff] at h
    obtain ⟨s, _, rfl⟩ := h; rfl
  | array pool size items =>
    simp only [Obj.doc?] at h
    split at h <;> simp at h
    obtain ⟨s, _, rfl⟩ := h; rfl
  | map ref pool size items =>
    simp only [Obj.doc?] at h
    split at h <;> simp at h
    obtain ⟨s, _, rfl⟩ := h; rfl

theorem seriCount_eq {cfg : Cfg} (hc : cfg.charSigned = true) (size : Nat) (outer : Bytes) (e : Env) :
    seriCount cfg size (stOf outer e) = .ok (stOf (outer ++ lenB size) e) := by
  unfold seriCount stOf
  simp [seriLength_eq hc, lenB, toU32_idem]

theorem seriSplitId_eq {cfg : Cfg} (hc : cfg.charSigned = true) (outer : Bytes) (e : Env) :
    seriSplitId cfg (stOf outer e) =
      .ok (e.si.requestId.2, stOf (outer ++ lenB e.si.requestId.2) { e with si := e.si.requestId.1 }) := by
  unfold seriSplitId stOf
  simp [seriLength_eq hc]

/-- Finishing a container after its children. -/
theorem finish_container (cfg : Cfg) (id : Nat) (outer : Bytes) (e : Env) (chunks : List Bytes) :
    finishBlocks cfg id (stOf (outer ++ chunks.flatten) e)
      ((outer ++ chunks.flatten).length - (groupState cfg.blockSize 0 (chunks.map List.length)).1)
      (((groupState cfg.blockSize 0 (chunks.map List.length)).2).map toU32) =
      (stOf (outer ++ chunks.flatten)
        (if mustSplit cfg (blocksOf cfg chunks) then { e with si := e.si.register id (blocksOf cfg chunks) } else e),
        mustSplit cfg (blocksOf cfg chunks)) := by
  rw [finishBlocks_eq]
  have hle := groupState_le cfg.blockSize 0 (chunks.map List.length)
  have hlen : (outer ++ chunks.flatten).length -
      ((outer ++ chunks.flatten).length - (groupState cfg.blockSize 0 (chunks.map List.length)).1) =
      (groupState cfg.blockSize 0 (chunks.map List.length)).1 := by
    rw [List.length_append, List.length_flatten]
    omega
  rw [hlen]
  have hb : ((groupState cfg.blockSize 0 (chunks.map List.length)).2).map toU32 ++
      (groupSizes cfg.blockSize (groupState cfg.blockSize 0 (chunks.map List.length)).1 []).map toU32 =
      blocksOf cfg chunks := by
    unfold blocksOf
    rw [groupSizes_eq cfg.blockSize 0, List.map_append]
  rw [hb]

/-- One more child in the loop over children. -/
theorem group_step (cfg : Cfg) (outer chunk rest : Bytes) (cur : Nat) (blocks : List Nat) (hcur : cur ≤ outer.length)
    (ls : List Nat) :
    let p := if (outer ++ chunk).length - cur ≥ cfg.blockSize
      then ((outer ++ chunk).length, blocks ++ [toU32 ((outer ++ chunk).length - cur)]) else (cur, blocks)
    p.1 ≤ (outer ++ chunk).length ∧
    (outer ++ chunk ++ rest).length - (groupState cfg.blockSize ((outer ++ chunk).length - p.1) ls).1 =
      (outer ++ (chunk ++ rest)).length - (groupState cfg.blockSize (outer.length - cur) (chunk.length :: ls)).1 ∧
    p.2 ++ ((groupState cfg.blockSize ((outer ++ chunk).length - p.1) ls).2).map toU32 =
      blocks ++ ((groupState cfg.blockSize (outer.length - cur) (chunk.length :: ls)).2).map toU32 := by
  have hs : (outer ++ chunk).length - cur = outer.length - cur + chunk.length := by
    rw [List.length_append]; omega
  simp only [groupState]
  rw [hs]
  split
  · simp
  · simp only []
    rw [hs]
    refine ⟨by rw [List.length_append]; omega, by simp, by simp⟩

mutual
theorem valueSeri_eq {cfg : Cfg} (hc : cfg.charSigned = true) : ∀ (o : Obj) (d : Doc), o.doc? = some d → o.Hard cfg →
    ∀ (outer : Bytes) (e : Env), valueSeri cfg o (stOf outer e) =
      .ok (stOf (outer ++ (emitDoc cfg d e).1) (emitDoc cfg d e).2.2, (emitDoc cfg d e).2.1)
  | .null, d, h, _, _, _ => by simp [Obj.doc?] at h
  | .data ref dt p, d, h, hh, outer, e => by
    simp only [Obj.doc?, Option.map_eq_some_iff] at h
    obtain ⟨s, hs, rfl⟩ := h
    rw [valueSeri, dataSeri_eq hc hs hh]
    simp only [emitDoc]
  | .array pool size items, d, h, hh, outer, e => by
    simp only [Obj.doc?] at h
    split at h
    · simp only [Option.map_eq_some_iff] at h
      obtain ⟨xs, hs, rfl⟩ := h
      rename_i hsz
      have hl := docs?_length hs
      simp only [Obj.Hard] at hh
      rw [valueSeri, seriCount_eq hc]
      simp only [ok_bind]
      rw [seriSplitId_eq hc]
      simp only [ok_bind]
      rw [seriItems_eq hc items xs hs hh _ _ _ _ (by simp [stOf])]
      simp only [ok_bind, stOf, Nat.sub_self, List.nil_append, pure_eq_ok]
      have := finish_container cfg e.si.requestId.2 (outer ++ lenB size ++ lenB e.si.requestId.2)
        (emitItems cfg xs { e with si := e.si.requestId.1 }).2 (emitItems cfg xs { e with si := e.si.requestId.1 }).1
      simp only [stOf] at this
      rw [this]
      simp only [emitDoc, emitContainer, List.append_assoc, hl, hsz]
    · simp at h
  | .map ref pool size items, d, h, hh, outer, e => by
    simp only [Obj.doc?] at h
    split at h
    · simp only [Option.map_eq_some_iff] at h
      obtain ⟨xs, hs, rfl⟩ := h
      rename_i hsz
      have hl := entries?_length hs
      simp only [Obj.Hard] at hh
      rw [valueSeri, seriCount_eq hc]
      simp only [ok_bind]
      rw [seriSplitId_eq hc]
      simp only [ok_bind]
      rw [seriKVs_eq hc items xs hs hh _ _ _ _ (by simp [stOf])]
      simp only [ok_bind, stOf, Nat.sub_self, List.nil_append, pure_eq_ok]
      have := finish_container cfg e.si.requestId.2 (outer ++ lenB size ++ lenB e.si.requestId.2)
        (emitKVs cfg xs { e with si := e.si.requestId.1 }).2 (emitKVs cfg xs { e with si := e.si.requestId.1 }).1
      simp only [stOf] at this
      rw [this]
      simp only [emitDoc, emitContainer, List.append_assoc, hl, hsz]
    · simp at h

theorem seriItems_eq {cfg : Cfg} (hc : cfg.charSigned = true) : ∀ (os : List Obj) (ds : List Doc),
    docs? os = some ds → hardL cfg os → ∀ (outer : Bytes) (e : Env) (cur : Nat) (blocks : List Nat),
    cur ≤ outer.length →
    seriItems cfg os (stOf outer e) cur blocks =
      .ok (stOf (outer ++ (emitItems cfg ds e).1.flatten) (emitItems cfg ds e).2,
        (outer ++ (emitItems cfg ds e).1.flatten).length -
          (groupState cfg.blockSize (outer.length - cur) ((emitItems cfg ds e).1.map List.length)).1,
        blocks ++ ((groupState cfg.blockSize (outer.length - cur) ((emitItems cfg ds e).1.map List.length)).2).map toU32)
  | [], ds, h, hh, outer, e, cur, blocks, hcur => by
    simp [docs?] at h; subst h
    simp [seriItems, emitItems, groupState]
    omega
  | o :: os, ds, h, hh, outer, e, cur, blocks, hcur => by
    obtain ⟨d, ds', rfl, hd, hds⟩ := docs?_cons h
    simp only [hardL] at hh
    rw [seriItems, seriChild_eq (type?_of_doc hd) (valueSeri_eq hc o d hd hh.1 _ e)]
    simp only [ok_bind, blockStep_eq]
    obtain ⟨h1, h2, h3⟩ := group_step cfg outer (tagByte (docType d) (emitDoc cfg d e).2.1 :: (emitDoc cfg d e).1)
      (emitItems cfg ds' (emitDoc cfg d e).2.2).1.flatten cur blocks hcur
      ((emitItems cfg ds' (emitDoc cfg d e).2.2).1.map List.length)
    rw [seriItems_eq hc os ds' hds hh.2 _ _ _ _ h1]
    simp only [emitItems, List.map_cons, List.flatten_cons]
    rw [h2, h3]
    simp

theorem seriKVs_eq {cfg : Cfg} (hc : cfg.charSigned = true) : ∀ (os : List (Str × Obj)) (ds : List (Bytes × Doc)),
    entries? os = some ds → hardE cfg os → ∀ (outer : Bytes) (e : Env) (cur : Nat) (blocks : List Nat),
    cur ≤ outer.length →
    seriKVs cfg os (stOf outer e) cur blocks =
      .ok (stOf (outer ++ (emitKVs cfg ds e).1.flatten) (emitKVs cfg ds e).2,
        (outer ++ (emitKVs cfg ds e).1.flatten).length -
          (groupState cfg.blockSize (outer.length - cur) ((emitKVs cfg ds e).1.map List.length)).1,
        blocks ++ ((groupState cfg.blockSize (outer.length - cur) ((emitKVs cfg ds e).1.map List.length)).2).map toU32)
  | [], ds, h, hh, outer, e, cur, blocks, hcur => by
    simp [entries?] at h; subst h
    simp [seriKVs, emitKVs, groupState]
    omega
  | (k, o) :: os, ds, h, hh, outer, e, cur, blocks, hcur => by
    obtain ⟨d, ds', rfl, hd, hds⟩ := entries?_cons h
    simp only [hardE] at hh
    rw [seriKVs, seriKey_eq hc]
    simp only [ok_bind]
    rw [seriChild_eq (type?_of_doc hd) (valueSeri_eq hc o d hd hh.1 _ _)]
    simp only [ok_bind, blockStep_eq, List.append_assoc]
    obtain ⟨h1, h2, h3⟩ := group_step cfg outer
      ((emitStr k.bytes e).1 ++ tagByte (docType d) (emitDoc cfg d (emitStr k.bytes e).2).2.1 ::
        (emitDoc cfg d (emitStr k.bytes e).2).1)
      (emitKVs cfg ds' (emitDoc cfg d (emitStr k.bytes e).2).2.2).1.flatten cur blocks hcur
      ((emitKVs cfg ds' (emitDoc cfg d (emitStr k.bytes e).2).2.2).1.map List.length)
    rw [seriKVs_eq hc os ds' hds hh.2 _ _ _ _ h1]
    simp only [emitKVs, List.map_cons, List.flatten_cons]
    rw [h2, h3]
    simp
end

end Bridge
