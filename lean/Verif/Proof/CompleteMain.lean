import Verif.Proof.Complete
import Verif.Proof.Format
/-
Every main section that `Spec.Reads` describes is accepted by the recursive parser.
-/
set_option autoImplicit false
set_option linter.unusedSimpArgs false
namespace Bridge
open Spec

/-- What is needed of the parse: a content below 2 GiB if there are assertions, that a string can hold, and a dictionary whose
strings lie in it. -/
structure NCtx (cfg : Cfg) (mem : Bytes) (sm : Option StringMap) : Prop where
  small : cfg.asserts = true → mem.length < 2 ^ 31
  size : mem.length < 2 ^ 63
  max : mem.length < cfg.strMax
  dict : ∀ m, sm = some m → ∀ id s, m.lookup cfg id = .ok s → s.Inside (mem ++ [0])

theorem whole_field {cfg : Cfg} {mem : Bytes} {sm : Option StringMap} (hc : NCtx cfg mem sm) {i n : Nat} {bs : Bytes}
    (hf : NumField bs n) (hat : HasAt mem i bs) (hin : i + bs.length ≤ mem.length) :
    parseLength cfg (View.whole mem) ⟨i, i⟩ = .ok (n, ⟨i + bs.length, i + bs.length⟩) := by
  refine parseLength_field (by simpa [View.whole] using hc.small) (by simpa [View.whole] using hc.size) hf ?_ (by simpa [View.whole] using hin)
  simp only [View.whole, Nat.zero_add]
  exact hasAt_zero' hat (by omega)

theorem parseNum_fill {cfg : Cfg} {k n a z : Nat} (hr : cfg.asserts = true → z = 0) {mem p : Bytes} (hn : n < 256 ^ k)
    (hp : bigEndian k n = p ++ List.replicate z 0) (hat : HasAt mem a p) (ha : a ≤ mem.length) :
    parseNum cfg k mem a p.length = .ok n := by
  have hl : p.length + z = k := by
    have := congrArg List.length hp
    simp only [bigEndian_length, List.length_append, List.length_replicate] at this
    omega
  unfold parseNum
  have hass : ¬ (cfg.asserts && k != p.length) = true := by
    intro h
    simp only [Bool.and_eq_true, bne_iff_ne, ne_eq] at h
    have := hr h.1
    omega
  rw [if_neg hass, if_neg (by omega), hat.readRange ha]
  simp only [ok_bind]
  rw [show k - p.length = z by omega, ← hp, flip_big k n hn cfg.little]
  rfl

theorem ofNat_toNat32 (v : BitVec 32) : BitVec.ofNat 32 v.toNat = v := by simp
theorem ofNat_toNat64 (v : BitVec 64) : BitVec.ofNat 64 v.toNat = v := by simp

theorem own_complete {cfg : Cfg} {mem : Bytes} {sm : Option StringMap} (hc : NCtx cfg mem sm) {s : Scalar} {p : Bytes} {a : Nat}
    (hf : FillsPayload cfg.asserts s p) (hat : HasAt mem a p) (ha : a + p.length ≤ mem.length) :
    ∃ pl, parseDataOwn cfg s.code mem a p.length = .ok pl ∧ scalarOf false s.code pl = some s := by
  have hrr := hat.readRange (show a ≤ mem.length by omega)
  have hmax := hc.max
  have h4 : (256 : Nat) ^ 4 = 2 ^ 32 := by decide
  have h8 : (256 : Nat) ^ 8 = 2 ^ 64 := by decide
  have n32 : ∀ v : BitVec 32, (∃ z, bigEndian 4 v.toNat = p ++ List.replicate z 0 ∧ (cfg.asserts = true → z = 0)) → parseNum cfg 4 mem a p.length = .ok v.toNat := by
    rintro v ⟨z, hz, hst⟩
    exact parseNum_fill hst (by have := v.isLt; omega) hz hat (by omega)
  have n64 : ∀ v : BitVec 64, (∃ z, bigEndian 8 v.toNat = p ++ List.replicate z 0 ∧ (cfg.asserts = true → z = 0)) → parseNum cfg 8 mem a p.length = .ok v.toNat := by
    rintro v ⟨z, hz, hst⟩
    exact parseNum_fill hst (by have := v.isLt; omega) hz hat (by omega)
  cases s with
  | bytes b =>
    have hb : b = p := hf
    subst hb
    exact ⟨.vec b, by simp [parseDataOwn, Scalar.code, BRIDGE_BYTES, hrr, ok_bind, pure_eq_ok], rfl⟩
  | custom b =>
    have hb : b = p := hf
    subst hb
    exact ⟨.vec b, by simp [parseDataOwn, Scalar.code, BRIDGE_CUSTOM, hrr, ok_bind, pure_eq_ok], rfl⟩
  | string b =>
    have hb : b = p := hf
    subst hb
    refine ⟨.str b, ?_, rfl⟩
    have hle : ¬ b.length > cfg.strMax := by omega
    simp [parseDataOwn, Scalar.code, BRIDGE_STRING, BRIDGE_BYTES, BRIDGE_CUSTOM, hrr, ok_bind, pure_eq_ok, hle]
  | int32 v =>
    refine ⟨.i32 v, ?_, rfl⟩
    simp [parseDataOwn, Scalar.code, BRIDGE_BYTES, BRIDGE_CUSTOM, BRIDGE_STRING, BRIDGE_INT32, BRIDGE_UINT32, BRIDGE_INT64, BRIDGE_UINT64,
      BRIDGE_FLOAT, BRIDGE_DOUBLE, n32 v hf, ok_bind, pure_eq_ok]
  | uint32 v =>
    refine ⟨.u32 v, ?_, rfl⟩
    simp [parseDataOwn, Scalar.code, BRIDGE_BYTES, BRIDGE_CUSTOM, BRIDGE_STRING, BRIDGE_INT32, BRIDGE_UINT32, BRIDGE_INT64, BRIDGE_UINT64,
      BRIDGE_FLOAT, BRIDGE_DOUBLE, n32 v hf, ok_bind, pure_eq_ok]
  | int64 v =>
    refine ⟨.i64 v, ?_, rfl⟩
    simp [parseDataOwn, Scalar.code, BRIDGE_BYTES, BRIDGE_CUSTOM, BRIDGE_STRING, BRIDGE_INT32, BRIDGE_UINT32, BRIDGE_INT64, BRIDGE_UINT64,
      BRIDGE_FLOAT, BRIDGE_DOUBLE, n64 v hf, ok_bind, pure_eq_ok]
  | uint64 v =>
    refine ⟨.u64 v, ?_, rfl⟩
    simp [parseDataOwn, Scalar.code, BRIDGE_BYTES, BRIDGE_CUSTOM, BRIDGE_STRING, BRIDGE_INT32, BRIDGE_UINT32, BRIDGE_INT64, BRIDGE_UINT64,
      BRIDGE_FLOAT, BRIDGE_DOUBLE, n64 v hf, ok_bind, pure_eq_ok]
  | float v =>
    refine ⟨.f32 v, ?_, rfl⟩
    simp [parseDataOwn, Scalar.code, BRIDGE_BYTES, BRIDGE_CUSTOM, BRIDGE_STRING, BRIDGE_INT32, BRIDGE_UINT32, BRIDGE_INT64, BRIDGE_UINT64,
      BRIDGE_FLOAT, BRIDGE_DOUBLE, n32 v hf, ok_bind, pure_eq_ok]
  | double v =>
    refine ⟨.f64 v, ?_, rfl⟩
    simp [parseDataOwn, Scalar.code, BRIDGE_BYTES, BRIDGE_CUSTOM, BRIDGE_STRING, BRIDGE_INT32, BRIDGE_UINT32, BRIDGE_INT64, BRIDGE_UINT64,
      BRIDGE_FLOAT, BRIDGE_DOUBLE, n64 v hf, ok_bind, pure_eq_ok]

theorem view_complete {cfg : Cfg} {mem : Bytes} {sm : Option StringMap} (hc : NCtx cfg mem sm) {s : Scalar} {p : Bytes} {a : Nat}
    (hns : ∀ b, s ≠ .custom b) (hf : FillsPayload cfg.asserts s p) (hat : HasAt mem a p) (ha : a + p.length ≤ mem.length) :
    ∃ pl, parseDataView cfg s.code mem a p.length = .ok pl ∧ scalarOf true s.code pl = some s := by
  have hsl := hat.slice
  have h4 : (256 : Nat) ^ 4 = 2 ^ 32 := by decide
  have h8 : (256 : Nat) ^ 8 = 2 ^ 64 := by decide
  have n32 : ∀ v : BitVec 32, (∃ z, bigEndian 4 v.toNat = p ++ List.replicate z 0 ∧ (cfg.asserts = true → z = 0)) → parseNum cfg 4 mem a p.length = .ok v.toNat := by
    rintro v ⟨z, hz, hst⟩
    exact parseNum_fill hst (by have := v.isLt; omega) hz hat (by omega)
  have n64 : ∀ v : BitVec 64, (∃ z, bigEndian 8 v.toNat = p ++ List.replicate z 0 ∧ (cfg.asserts = true → z = 0)) → parseNum cfg 8 mem a p.length = .ok v.toNat := by
    rintro v ⟨z, hz, hst⟩
    exact parseNum_fill hst (by have := v.isLt; omega) hz hat (by omega)
  cases s with
  | bytes b =>
    have hb : b = p := hf
    subst hb
    refine ⟨.view ⟨b, some (a, b.length)⟩, ?_, rfl⟩
    simp [parseDataView, Scalar.code, BRIDGE_BYTES, BRIDGE_STRING, hsl, pure_eq_ok]
  | custom b => exact absurd rfl (hns b)
  | string b =>
    have hb : b = p := hf
    subst hb
    refine ⟨.view ⟨b, some (a, b.length)⟩, ?_, rfl⟩
    simp [parseDataView, Scalar.code, BRIDGE_BYTES, BRIDGE_STRING, hsl, pure_eq_ok]
  | int32 v =>
    refine ⟨.i32 v, ?_, rfl⟩
    simp [parseDataView, Scalar.code, BRIDGE_BYTES, BRIDGE_CUSTOM, BRIDGE_STRING, BRIDGE_INT32, BRIDGE_UINT32, BRIDGE_INT64, BRIDGE_UINT64,
      BRIDGE_FLOAT, BRIDGE_DOUBLE, n32 v hf, ok_bind, pure_eq_ok]
  | uint32 v =>
    refine ⟨.u32 v, ?_, rfl⟩
    simp [parseDataView, Scalar.code, BRIDGE_BYTES, BRIDGE_CUSTOM, BRIDGE_STRING, BRIDGE_INT32, BRIDGE_UINT32, BRIDGE_INT64, BRIDGE_UINT64,
      BRIDGE_FLOAT, BRIDGE_DOUBLE, n32 v hf, ok_bind, pure_eq_ok]
  | int64 v =>
    refine ⟨.i64 v, ?_, rfl⟩
    simp [parseDataView, Scalar.code, BRIDGE_BYTES, BRIDGE_CUSTOM, BRIDGE_STRING, BRIDGE_INT32, BRIDGE_UINT32, BRIDGE_INT64, BRIDGE_UINT64,
      BRIDGE_FLOAT, BRIDGE_DOUBLE, n64 v hf, ok_bind, pure_eq_ok]
  | uint64 v =>
    refine ⟨.u64 v, ?_, rfl⟩
    simp [parseDataView, Scalar.code, BRIDGE_BYTES, BRIDGE_CUSTOM, BRIDGE_STRING, BRIDGE_INT32, BRIDGE_UINT32, BRIDGE_INT64, BRIDGE_UINT64,
      BRIDGE_FLOAT, BRIDGE_DOUBLE, n64 v hf, ok_bind, pure_eq_ok]
  | float v =>
    refine ⟨.f32 v, ?_, rfl⟩
    simp [parseDataView, Scalar.code, BRIDGE_BYTES, BRIDGE_CUSTOM, BRIDGE_STRING, BRIDGE_INT32, BRIDGE_UINT32, BRIDGE_INT64, BRIDGE_UINT64,
      BRIDGE_FLOAT, BRIDGE_DOUBLE, n32 v hf, ok_bind, pure_eq_ok]
  | double v =>
    refine ⟨.f64 v, ?_, rfl⟩
    simp [parseDataView, Scalar.code, BRIDGE_BYTES, BRIDGE_CUSTOM, BRIDGE_STRING, BRIDGE_INT32, BRIDGE_UINT32, BRIDGE_INT64, BRIDGE_UINT64,
      BRIDGE_FLOAT, BRIDGE_DOUBLE, n64 v hf, ok_bind, pure_eq_ok]

theorem code_checked (s : Scalar) : checkDataType s.code = .ok () := by cases s <;> rfl

theorem viewObj_dict {cfg : Cfg} {v : View} {m : StringMap} {c c1 c2 : Cur} {dt : UInt8} {n : Nat} {x : Str}
    (h1 : parseDataType v c = .ok (dt, c1)) (h2 : dt = BRIDGE_STRING) (h3 : parseLength cfg v c1 = .ok (n, c2))
    (h4 : m.lookup cfg (toU32 n) = .ok x) : parseViewObj cfg v (some m) c = .ok (.data true dt (.view x), c2) := by
  subst h2
  unfold parseViewObj
  rw [h1]
  simp only [ok_bind]
  rw [show checkDataType BRIDGE_STRING = .ok () from rfl]
  simp only [ok_bind, decide_true]
  rw [h3]
  simp only [ok_bind]
  rw [h4]
  simp only [ok_bind, pure_eq_ok]

theorem dataObj_dict {cfg : Cfg} {v : View} {m : StringMap} {c c1 c2 : Cur} {dt : UInt8} {n : Nat} {x : Str}
    (h1 : parseDataType v c = .ok (dt, c1)) (h2 : dt = BRIDGE_STRING) (h3 : parseLength cfg v c1 = .ok (n, c2))
    (h4 : m.lookup cfg (toU32 n) = .ok x) : parseDataObj cfg v (some m) c = .ok (.data false dt (.str x.bytes), c2) := by
  subst h2
  unfold parseDataObj
  rw [h1]
  simp only [ok_bind]
  rw [show checkDataType BRIDGE_STRING = .ok () from rfl]
  simp only [ok_bind, decide_true]
  rw [h3]
  simp only [ok_bind]
  rw [h4]
  simp only [ok_bind, pure_eq_ok]

theorem viewObj_inline {cfg : Cfg} {v : View} {sm : Option StringMap} {c c1 c2 : Cur} {dt : UInt8} {n a : Nat} {p : Payload}
    (h1 : parseDataType v c = .ok (dt, c1)) (h0 : checkDataType dt = .ok ()) (h2 : sm = none ∨ dt ≠ BRIDGE_STRING)
    (h3 : parseLength cfg v c1 = .ok (n, c2)) (h4 : curAddr v c2 = .ok a) (h5 : parseDataView cfg dt v.mem a n = .ok p)
    (h6 : checkOOR v (skip c2 n) = .ok ()) : parseViewObj cfg v sm c = .ok (.data true dt p, bump (skip c2 n) n) := by
  unfold parseViewObj
  rw [h1]
  simp only [ok_bind]
  rw [h0]
  simp only [ok_bind]
  cases sm with
  | none =>
    simp only
    rw [h3]
    simp only [ok_bind]
    rw [h4]
    simp only [ok_bind]
    rw [h5]
    simp only [ok_bind]
    rw [h6]
    simp only [ok_bind, pure_eq_ok]
  | some m =>
    have h2 : dt ≠ BRIDGE_STRING := h2.resolve_left (by simp)
    simp only [h2, decide_false]
    rw [h3]
    simp only [ok_bind]
    rw [h4]
    simp only [ok_bind]
    rw [h5]
    simp only [ok_bind]
    rw [h6]
    simp only [ok_bind, pure_eq_ok]

theorem dataObj_inline {cfg : Cfg} {v : View} {sm : Option StringMap} {c c1 c2 : Cur} {dt : UInt8} {n a : Nat} {p : Payload}
    (h1 : parseDataType v c = .ok (dt, c1)) (h0 : checkDataType dt = .ok ()) (h2 : sm = none ∨ dt ≠ BRIDGE_STRING)
    (h3 : parseLength cfg v c1 = .ok (n, c2)) (h4 : curAddr v c2 = .ok a) (h5 : parseDataOwn cfg dt v.mem a n = .ok p)
    (h6 : checkOOR v (skip c2 n) = .ok ()) : parseDataObj cfg v sm c = .ok (.data false dt p, bump (skip c2 n) n) := by
  unfold parseDataObj
  rw [h1]
  simp only [ok_bind]
  rw [h0]
  simp only [ok_bind]
  cases sm with
  | none =>
    simp only
    rw [h3]
    simp only [ok_bind]
    rw [h4]
    simp only [ok_bind]
    rw [h5]
    simp only [ok_bind]
    rw [h6]
    simp only [ok_bind, pure_eq_ok]
  | some m =>
    have h2 : dt ≠ BRIDGE_STRING := h2.resolve_left (by simp)
    simp only [h2, decide_false]
    rw [h3]
    simp only [ok_bind]
    rw [h4]
    simp only [ok_bind]
    rw [h5]
    simp only [ok_bind]
    rw [h6]
    simp only [ok_bind, pure_eq_ok]

theorem dictFn_some {cfg : Cfg} {m : StringMap} {n : Nat} {b : Bytes}
    (h : (match m.lookup cfg n with | .ok s => some s.bytes | .error _ => none) = some b) : ∃ s, m.lookup cfg n = .ok s ∧ s.bytes = b := by
  split at h
  · rename_i s hs
    simp only [Option.some.injEq] at h
    exact ⟨s, hs, h⟩
  · cases h

theorem leaf_complete {cfg : Cfg} {mem : Bytes} {sm : Option StringMap} (hc : NCtx cfg mem sm) {ref : Bool} {s : Scalar} {bs : Bytes} {i : Nat}
    (hns : ref = true → ∀ b, s ≠ .custom b) {last : Bool} (hrd : ReadsScalar cfg.asserts last (dictFn cfg sm) s bs) (hat : HasAt mem i bs) (hin : i + bs.length ≤ mem.length)
    (hla : i + bs.length = mem.length → last = true) :
    ∃ o, (if ref then parseViewObj cfg (View.whole mem) sm ⟨i, i⟩ else parseDataObj cfg (View.whole mem) sm ⟨i, i⟩) =
        .ok (o, ⟨i + bs.length, i + bs.length⟩) ∧ o.doc? = some (.scalar s) := by
  have hs := hc.size
  obtain ⟨rest, rfl, hrd⟩ := hrd
  rw [HasAt.cons] at hat
  obtain ⟨hat0, hat⟩ := hat
  simp only [List.length_cons] at hin ⊢
  -- inline
  have inl : (sm = none ∨ s.code ≠ BRIDGE_STRING) → (∃ l p, NumField l p.length ∧ FillsPayload cfg.asserts s p ∧ rest = l ++ p ∧ (last = true → p ≠ [])) →
      ∃ o, (if ref then parseViewObj cfg (View.whole mem) sm ⟨i, i⟩ else parseDataObj cfg (View.whole mem) sm ⟨i, i⟩) =
        .ok (o, ⟨i + (rest.length + 1), i + (rest.length + 1)⟩) ∧ o.doc? = some (.scalar s) := by
    rintro hsm ⟨l, p, f1, f2, rfl, hne⟩
    rw [HasAt.append] at hat
    simp only [List.length_cons, List.length_append] at hin hla ⊢
    have hlt : i + 1 + l.length < mem.length := by
      rcases Nat.lt_or_ge (i + 1 + l.length) mem.length with hh | hh
      · exact hh
      · have h0 : p.length = 0 := by omega
        exact absurd (List.length_eq_zero_iff.mp h0) (hne (hla (by omega)))
    have hcur : i + (l.length + p.length + 1) = i + 1 + l.length + p.length := by omega
    cases ref with
    | true =>
      obtain ⟨pl, g1, g2⟩ := view_complete hc (hns rfl) f2 hat.2 (by omega)
      refine ⟨.data true s.code pl, ?_, by simp [Obj.doc?, g2]⟩
      simp only [if_true]
      rw [viewObj_inline (readType hs hat0) (code_checked s) hsm (whole_field hc f1 hat.1 (by omega)) (wholeAddr (by omega)) g1
        (by rw [skip_eq (by omega)]; exact wholeOOR (by omega)), skip_eq (by omega), bump_eq (by omega), hcur]
    | false =>
      obtain ⟨pl, g1, g2⟩ := own_complete hc f2 hat.2 (by omega)
      refine ⟨.data false s.code pl, ?_, by simp [Obj.doc?, g2]⟩
      simp only [Bool.false_eq_true, if_false]
      rw [dataObj_inline (readType hs hat0) (code_checked s) hsm (whole_field hc f1 hat.1 (by omega)) (wholeAddr (by omega)) g1
        (by rw [skip_eq (by omega)]; exact wholeOOR (by omega)), skip_eq (by omega), bump_eq (by omega), hcur]
  cases s with
  | string b =>
    cases sm with
    | none =>
      obtain ⟨⟨l, f1, rfl⟩, hne⟩ := hrd
      exact inl (.inl rfl) ⟨l, b, f1, rfl, rfl, fun q => hne q rfl⟩
    | some m =>
      obtain ⟨⟨n, f1, f2⟩, -⟩ := hrd
      obtain ⟨x, g1, rfl⟩ := dictFn_some f2
      have hcur : i + (rest.length + 1) = i + 1 + rest.length := by omega
      have hg : m.lookup cfg (toU32 n) = .ok x := g1
      cases ref with
      | true =>
        refine ⟨.data true (Scalar.string x.bytes).code (.view x), ?_, rfl⟩
        simp only [if_true]
        rw [hcur]
        exact viewObj_dict (readType hs hat0) rfl (whole_field hc f1 hat (by omega)) hg
      | false =>
        refine ⟨.data false (Scalar.string x.bytes).code (.str x.bytes), ?_, rfl⟩
        simp only [Bool.false_eq_true, if_false]
        rw [hcur]
        exact dataObj_dict (readType hs hat0) rfl (whole_field hc f1 hat (by omega)) hg
  | _ => exact inl (.inr (by simp [Scalar.code, BRIDGE_STRING])) hrd

theorem key_complete {cfg : Cfg} {mem : Bytes} {sm : Option StringMap} (hc : NCtx cfg mem sm) (ref : Bool) {b bs : Bytes} {i : Nat}
    (hrd : ReadsStr (dictFn cfg sm) b bs) (hat : HasAt mem i bs) (hin : i + bs.length < mem.length) :
    ∃ k k', parseKey cfg (View.whole mem) sm ⟨i, i⟩ = .ok (k, ⟨i + bs.length, i + bs.length⟩) ∧
      ownKey cfg (View.whole mem) ref k = .ok k' ∧ k'.bytes = b := by
  have hs := hc.size
  have hmax := hc.max
  have own : ∀ k : Str, k.bytes = b → k.Inside (mem ++ [0]) → ∃ k', ownKey cfg (View.whole mem) ref k = .ok k' ∧ k'.bytes = b := by
    intro k hb ⟨a, h1, h2, h3⟩
    cases ref with
    | true => exact ⟨k, rfl, hb⟩
    | false =>
      simp only [List.length_append, List.length_singleton] at h2
      have hrr : readRange mem a k.bytes.length = .ok k.bytes := by
        unfold readRange
        rw [if_pos h2]
        congr 1
      refine ⟨⟨k.bytes, none⟩, ?_, hb⟩
      unfold ownKey
      rw [h1]
      simp only [Bool.false_eq_true, if_false, whole_mem]
      rw [if_neg (by omega), hrr]
      rfl
  unfold parseKey
  cases sm with
  | none =>
    obtain ⟨l, f1, rfl⟩ := hrd
    rw [HasAt.append] at hat
    simp only [List.length_append] at hin ⊢
    obtain ⟨k', g1, g2⟩ := own ⟨slice mem (i + l.length) b.length, some (i + l.length, b.length)⟩ hat.2.slice (inside_zero (by omega))
    refine ⟨_, k', ?_, g1, g2⟩
    rw [whole_field hc f1 hat.1 (by omega)]
    simp only [ok_bind]
    rw [wholeAddr (by omega)]
    simp only [ok_bind, whole_mem]
    rw [skip_eq (by omega), wholeOOR (by omega)]
    simp only [ok_bind]
    rw [bump_eq (by omega), Nat.add_assoc]
    rfl
  | some m =>
    obtain ⟨n, f1, f2⟩ := hrd
    obtain ⟨x, g1, rfl⟩ := dictFn_some f2
    have hg : m.lookup cfg (toU32 n) = .ok x := g1
    obtain ⟨k', g2, g3⟩ := own x rfl (hc.dict m rfl _ _ g1)
    refine ⟨x, k', ?_, g2, g3⟩
    rw [whole_field hc f1 hat (by omega)]
    simp only [ok_bind]
    rw [hg]
    rfl

theorem kind_complete {mem : Bytes} {i : Nat} {d : Doc} {sp : Bool} (hs : mem.length < 2 ^ 63) (h : mem[i]? = some (kindByte d sp)) :
    parseObjectType (View.whole mem) ⟨i, i⟩ = .ok (docType d, ⟨i + 1, i + 1⟩) := by
  rw [← kindByte_eq] at h
  exact readTag hs h (docType_ne_invalid d)

mutual
theorem val_complete {cfg : Cfg} {mem : Bytes} {sm : Option StringMap} (hc : NCtx cfg mem sm) (ref : Bool) (pool : PoolRef) :
    ∀ (last : Bool) (d : Doc) (bs : Bytes) (i : Nat), Reads cfg.asserts last (dictFn cfg sm) d bs → HasAt mem i bs → i + bs.length ≤ mem.length →
    (i + bs.length = mem.length → last = true) →
    (ref = true → d.noCustom = true) →
    ∃ N o, o.doc? = some d.revMaps ∧
      ∀ f, N ≤ f → parseVal cfg (View.whole mem) sm ref pool f (docType d) ⟨i, i⟩ = .ok (o, ⟨i + bs.length, i + bs.length⟩)
  | last, .scalar s, bs, i, h, hat, hin, hla, hcu => by
    obtain ⟨o, h1, h2⟩ := leaf_complete hc (ref := ref) (by
      intro hr b he
      have := hcu hr
      subst he
      simp [Doc.noCustom] at this) h hat hin hla
    refine ⟨1, o, h2, ?_⟩
    intro f hf
    obtain ⟨f, rfl⟩ : ∃ g, f = g + 1 := ⟨f - 1, by omega⟩
    simp only [docType, parseVal]
    exact h1
  | last, .array xs, bs, i, h, hat, hin, hla, hcu => by
    obtain ⟨c, u, rest, id, rfl, f1, f2, f3⟩ := h
    rw [HasAt.append, HasAt.append] at hat
    simp only [List.length_append] at hin hla
    obtain ⟨N, os, h1, h2⟩ := items_complete hc ref pool last xs rest (i + c.length + u.length) f3 hat.2.2 (by omega) (fun q => hla (by omega)) hcu
    refine ⟨N + 1, .array pool xs.length os, ?_, ?_⟩
    · have hl := docs?_length h1
      rw [revMapsL_length] at hl
      simp only [Obj.doc?, h1, Doc.revMaps, Option.map_some]
      rw [if_pos (by omega)]
    · intro f hf
      obtain ⟨f, rfl⟩ : ∃ g, f = g + 1 := ⟨f - 1, by omega⟩
      simp only [docType, parseVal]
      rw [whole_field hc f1 hat.1 (by omega)]
      simp only [ok_bind]
      rw [whole_field hc f2 hat.2.1 (by omega)]
      simp only [ok_bind]
      rw [h2 f (by omega)]
      simp only [ok_bind, List.length_append, Nat.add_assoc]
      rfl
  | last, .map es, bs, i, h, hat, hin, hla, hcu => by
    obtain ⟨c, u, rest, id, rfl, f1, f2, f3⟩ := h
    rw [HasAt.append, HasAt.append] at hat
    simp only [List.length_append] at hin hla
    obtain ⟨N, os, h1, h2⟩ := kvs_complete hc ref pool last es rest (i + c.length + u.length) [] [] rfl f3 hat.2.2 (by omega) (fun q => hla (by omega)) hcu
    refine ⟨N + 1, .map ref pool es.length os, ?_, ?_⟩
    · have hl := entries?_length h1
      rw [revMapsE_length] at hl
      simp only [List.length_nil] at hl
      simp only [Obj.doc?, h1, Doc.revMaps, Option.map_some]
      rw [if_pos (by omega)]
    · intro f hf
      obtain ⟨f, rfl⟩ : ∃ g, f = g + 1 := ⟨f - 1, by omega⟩
      simp only [docType, parseVal]
      rw [whole_field hc f1 hat.1 (by omega)]
      simp only [ok_bind]
      rw [whole_field hc f2 hat.2.1 (by omega)]
      simp only [ok_bind]
      rw [h2 f (by omega)]
      simp only [ok_bind, List.length_append, Nat.add_assoc]
      rfl
theorem items_complete {cfg : Cfg} {mem : Bytes} {sm : Option StringMap} (hc : NCtx cfg mem sm) (ref : Bool) (pool : PoolRef) :
    ∀ (last : Bool) (xs : List Doc) (bs : Bytes) (i : Nat), ReadsL cfg.asserts last (dictFn cfg sm) xs bs → HasAt mem i bs → i + bs.length ≤ mem.length →
    (i + bs.length = mem.length → last = true) →
    (ref = true → noCustomL xs = true) →
    ∃ N os, docs? os = some (revMapsL xs) ∧
      ∀ f, N ≤ f → parseItems cfg (View.whole mem) sm ref pool f xs.length ⟨i, i⟩ = .ok (os, ⟨i + bs.length, i + bs.length⟩)
  | last, [], bs, i, h, hat, hin, hla, hcu => by
    simp only [ReadsL] at h
    subst h
    refine ⟨1, [], rfl, ?_⟩
    intro f hf
    obtain ⟨f, rfl⟩ : ∃ g, f = g + 1 := ⟨f - 1, by omega⟩
    simp [parseItems]
  | last, x :: xs, bs, i, h, hat, hin, hla, hcu => by
    obtain ⟨sp, b, rest, rfl, f1, f2⟩ := h
    rw [HasAt.cons, HasAt.append] at hat
    simp only [List.length_cons, List.length_append] at hin hla
    have hcu' : ref = true → x.noCustom = true ∧ noCustomL xs = true := by
      intro hr
      have := hcu hr
      simpa [noCustomL] using this
    obtain ⟨N1, o, g1, g2⟩ := val_complete hc ref pool _ x b (i + 1) f1 hat.2.1 (by omega) (by
      intro q
      cases xs with
      | nil => simp only [Bool.and_eq_true, List.isEmpty_nil, and_true]; exact hla (by omega)
      | cons y ys => obtain ⟨sp', b', rest', rfl, -⟩ := f2; simp only [List.length_cons] at hin; omega) (fun hr => (hcu' hr).1)
    obtain ⟨N2, os, g3, g4⟩ := items_complete hc ref pool last xs rest (i + 1 + b.length) f2 hat.2.2 (by omega) (fun q => hla (by omega)) (fun hr => (hcu' hr).2)
    refine ⟨N1 + N2 + 1, o :: os, by simp [docs?, g1, g3, revMapsL], ?_⟩
    intro f hf
    obtain ⟨f, rfl⟩ : ∃ g, f = g + 1 := ⟨f - 1, by omega⟩
    simp only [List.length_cons, parseItems]
    rw [kind_complete hc.size hat.1]
    simp only [ok_bind]
    rw [g2 f (by omega)]
    simp only [ok_bind]
    rw [g4 f (by omega)]
    simp only [ok_bind, List.length_append]
    rw [show i + (b.length + rest.length + 1) = i + 1 + b.length + rest.length by omega]
    rfl
theorem kvs_complete {cfg : Cfg} {mem : Bytes} {sm : Option StringMap} (hc : NCtx cfg mem sm) (ref : Bool) (pool : PoolRef) :
    ∀ (last : Bool) (es : List (Bytes × Doc)) (bs : Bytes) (i : Nat) (acc : List (Str × Obj)) (dacc : List (Bytes × Doc)), entries? acc = some dacc →
    ReadsE cfg.asserts last (dictFn cfg sm) es bs → HasAt mem i bs → i + bs.length ≤ mem.length →
    (i + bs.length = mem.length → last = true) → (ref = true → noCustomE es = true) →
    ∃ N os, entries? os = some (revMapsE es dacc) ∧
      ∀ f, N ≤ f → parseKVs cfg (View.whole mem) sm ref pool f es.length ⟨i, i⟩ acc = .ok (os, ⟨i + bs.length, i + bs.length⟩)
  | last, [], bs, i, acc, dacc, hacc, h, hat, hin, hla, hcu => by
    simp only [ReadsE] at h
    subst h
    refine ⟨1, acc, by simpa [revMapsE] using hacc, ?_⟩
    intro f hf
    obtain ⟨f, rfl⟩ : ∃ g, f = g + 1 := ⟨f - 1, by omega⟩
    simp [parseKVs]
  | last, (k, x) :: es, bs, i, acc, dacc, hacc, h, hat, hin, hla, hcu => by
    obtain ⟨kb, sp, b, rest, rfl, f0, f1, f2⟩ := h
    rw [HasAt.append, HasAt.cons, HasAt.append] at hat
    simp only [List.length_cons, List.length_append] at hin hla
    have hcu' : ref = true → x.noCustom = true ∧ noCustomE es = true := by
      intro hr
      have := hcu hr
      simpa [noCustomE] using this
    obtain ⟨ks, ks', q1, q2, rfl⟩ := key_complete hc ref f0 hat.1 (by omega)
    obtain ⟨N1, o, g1, g2⟩ := val_complete hc ref pool _ x b (i + kb.length + 1) f1 hat.2.2.1 (by omega) (by
      intro q
      cases es with
      | nil => simp only [Bool.and_eq_true, List.isEmpty_nil, and_true]; exact hla (by omega)
      | cons y ys => obtain ⟨y1, y2⟩ := y; obtain ⟨kb', sp', b', rest', rfl, -⟩ := f2; simp only [List.length_append, List.length_cons] at hin; omega)
      (fun hr => (hcu' hr).1)
    obtain ⟨N2, os, g3, g4⟩ := kvs_complete hc ref pool last es rest (i + kb.length + 1 + b.length) ((ks', o) :: acc)
      ((ks'.bytes, x.revMaps) :: dacc) (by simp [entries?, g1, hacc]) f2 hat.2.2.2 (by omega) (fun q => hla (by omega)) (fun hr => (hcu' hr).2)
    refine ⟨N1 + N2 + 1, os, by simpa [revMapsE] using g3, ?_⟩
    intro f hf
    obtain ⟨f, rfl⟩ : ∃ g, f = g + 1 := ⟨f - 1, by omega⟩
    simp only [List.length_cons, parseKVs]
    rw [q1]
    simp only [ok_bind]
    rw [kind_complete hc.size hat.2.1]
    simp only [ok_bind]
    rw [g2 f (by omega)]
    simp only [ok_bind]
    rw [q2]
    simp only [ok_bind]
    rw [g4 f (by omega)]
    simp only [List.length_append, List.length_cons]
    rw [show i + (kb.length + (b.length + rest.length + 1)) = i + kb.length + 1 + b.length + rest.length by omega]
end

end Bridge
