import Verif.Proof.Whole
/-
The recursive parser reads back what was emitted.
-/
namespace Bridge
open Spec

/-! ### context -/

/-- `E` is a later state of the tables than `e`. -/
structure Follows (e E : Env) : Prop where
  smNone : e.sm = none → E.sm = none
  sm : ∀ m, e.sm = some m → ∃ m', E.sm = some m' ∧ m.map <+: m'.map
  info : e.si.info <+: E.si.info

theorem Follows.refl (e : Env) : Follows e e := ⟨id, fun m hm => ⟨m, hm, List.prefix_refl _⟩, List.prefix_refl _⟩

theorem Follows.of_grows {e e' E : Env} {n : Nat} (g : Grows e e' n) (hr : Room e n) (h : Follows e' E) : Follows e E where
  smNone := fun hn => h.smNone (g.smNone hn)
  sm := by
    intro m hm
    obtain ⟨m', h1, _, h3, _⟩ := g.sm m hm (hr.sm m hm).1
    obtain ⟨m2, h4, h5⟩ := h.sm m' h1
    exact ⟨m2, h4, h3.trans h5⟩
  info := g.info.trans h.info

/-- What holds during a parse of bytes whose final tables are `E`. -/
structure PCtx (cfg : Cfg) (mem : Bytes) (sm : Option StringMap) (E : Env) : Prop where
  size : SizeOk cfg mem.length
  strMax : mem.length ≤ cfg.strMax
  smNone : E.sm = none → sm = none
  sm : ∀ m, E.sm = some m → ∃ m', sm = some m' ∧ DictOk cfg mem m m'

/-! ### lengths -/

theorem emitItems_length (cfg : Cfg) (xs : List Doc) (e : Env) : (emitItems cfg xs e).1.length = xs.length := by
  induction xs generalizing e with
  | nil => rfl
  | cons x xs ih => simp [emitItems, ih]

theorem emitKVs_length (cfg : Cfg) (xs : List (Bytes × Doc)) (e : Env) : (emitKVs cfg xs e).1.length = xs.length := by
  induction xs generalizing e with
  | nil => rfl
  | cons x xs ih => obtain ⟨k, x⟩ := x; simp [emitKVs, ih]

theorem revMapsL_length (xs : List Doc) : (revMapsL xs).length = xs.length := by
  induction xs with
  | nil => rfl
  | cons x xs ih => simp [revMapsL, ih]

theorem revMapsE_length (xs acc : List (Bytes × Doc)) : (revMapsE xs acc).length = xs.length + acc.length := by
  induction xs generalizing acc with
  | nil => simp [revMapsE]
  | cons x xs ih => obtain ⟨k, x⟩ := x; simp [revMapsE, ih]; omega

/-- Registering a container's blocks extends the table when its id is new. -/
theorem container_info {cfg : Cfg} {count id : Nat} {chunks : List Bytes} {e : Env} (h : id ∉ e.si.info.map Prod.fst) :
    e.si.info <+: (emitContainer cfg count id chunks e).2.2.si.info := by
  unfold emitContainer
  simp only
  split
  · simp only [SplitInfo.register]; rw [assocSet_fresh _ _ h]; exact List.prefix_append _ _
  · exact List.prefix_refl _

theorem container_fresh {e em : Env} {n k : Nat} (h : Room e n) (g : Grows { e with si := e.si.requestId.1 } em k)
    (hn : 0 < n := by omega) : e.si.requestId.2 ∉ em.si.info.map Prod.fst := by
  intro hm
  have hroom := h.siRoom
  have hnext : e.si.requestId.1.next = e.si.next + 1 := by
    simp only [SplitInfo.requestId]; exact toU32_of_lt (by omega)
  have hid : e.si.requestId.2 = e.si.next := rfl
  rcases g.keys _ hm with h1 | h1
  · have := h.si.lt _ h1
    omega
  · simp only [hnext] at h1; omega

/-! ### small readers -/

theorem readLen {cfg : Cfg} {mem : Bytes} {a n : Nat} (hs : SizeOk cfg mem.length) (hn : n < 2 ^ 32)
    (hat : HasAt mem a (lenB n)) (hin : a + (lenB n).length ≤ mem.length) :
    parseLength cfg (View.whole mem) ⟨a, a⟩ = .ok (n, ⟨a + (lenB n).length, a + (lenB n).length⟩) :=
  parseLength_lenB (v := View.whole mem) hs hn (by simpa [View.whole] using hat) (by simpa [View.whole] using hin)

theorem wholeAddr {mem : Bytes} {a b : Nat} (h : a < mem.length) : curAddr (View.whole mem) ⟨a, b⟩ = .ok a := by
  rw [curAddr_ok (by simpa [View.whole] using h)]
  simp [View.whole]

theorem skip_eq {a b k : Nat} (h : a + k < 2 ^ 64) : skip ⟨a, b⟩ k = ⟨a + k, b⟩ := by
  unfold skip; rw [addW_of_lt h]

theorem bump_eq {a b k : Nat} (h : b + k < 2 ^ 64) : bump ⟨a, b⟩ k = ⟨a, b + k⟩ := by
  unfold bump; rw [addW_of_lt h]

theorem wholeOOR {mem : Bytes} {a b : Nat} (h : a ≤ mem.length) : checkOOR (View.whole mem) ⟨a, b⟩ = .ok () :=
  checkOOR_ok (by simpa [View.whole] using h)

theorem wholeEmpty {mem : Bytes} {a b : Nat} (hs : mem.length < 2 ^ 63) (h : a < mem.length) :
    checkEmpty (View.whole mem) ⟨a, b⟩ = .ok () :=
  checkEmpty_ok (by simpa [View.whole] using hs) (by simpa [View.whole] using h)

theorem whole_mem (mem : Bytes) : (View.whole mem).mem = mem := rfl

theorem lt_of_getElem? {mem : Bytes} {a : Nat} {b : UInt8} (h : mem[a]? = some b) : a < mem.length := by
  rw [List.getElem?_eq_some_iff] at h; exact h.1

theorem readType {mem : Bytes} {a : Nat} {b : UInt8} (hs : mem.length < 2 ^ 63) (h : mem[a]? = some b) :
    parseDataType (View.whole mem) ⟨a, a⟩ = .ok (b, ⟨a + 1, a + 1⟩) := by
  have hl := lt_of_getElem? h
  unfold parseDataType
  rw [wholeEmpty hs hl, wholeAddr hl]
  simp only [ok_bind, whole_mem]
  rw [readByte_eq h]
  simp only [ok_bind]
  rw [skip_eq (by omega), wholeOOR (by omega)]
  simp only [ok_bind]
  rw [bump_eq (by omega)]
  rfl

theorem tag_mask (t : ObjectType) (s : Bool) : tagByte t s &&& 0x7F = t.toChar := by
  cases t <;> cases s <;> decide

theorem tag_split (t : ObjectType) (s : Bool) : (!decide ((tagByte t s &&& 0x80) >>> 1 = 0)) = s := by
  cases t <;> cases s <;> decide

theorem toChar_back (t : ObjectType) : charToObjectType t.toChar = t := by cases t <;> rfl

theorem docType_ne_invalid (d : Doc) : docType d ≠ .invalid := by cases d <;> simp [docType]

theorem readTag {mem : Bytes} {a : Nat} {t : ObjectType} {s : Bool} (hs : mem.length < 2 ^ 63)
    (h : mem[a]? = some (tagByte t s)) (ht : t ≠ .invalid) :
    parseObjectType (View.whole mem) ⟨a, a⟩ = .ok (t, ⟨a + 1, a + 1⟩) := by
  have hl := lt_of_getElem? h
  unfold parseObjectType
  rw [wholeEmpty hs hl, wholeAddr hl]
  simp only [ok_bind, whole_mem]
  rw [readByte_eq h]
  simp only [ok_bind]
  rw [skip_eq (by omega), wholeOOR (by omega)]
  simp only [ok_bind]
  rw [bump_eq (by omega), tag_mask, toChar_back, if_neg ht]
  rfl

theorem readTagSplit {mem : Bytes} {a : Nat} {t : ObjectType} {s : Bool} (hs : mem.length < 2 ^ 63)
    (h : mem[a]? = some (tagByte t s)) (ht : t ≠ .invalid) :
    parseObjectTypeSplit (View.whole mem) ⟨a, a⟩ = .ok (t, s, ⟨a + 1, a + 1⟩) := by
  have hl := lt_of_getElem? h
  unfold parseObjectTypeSplit
  rw [wholeEmpty hs hl, wholeAddr hl]
  simp only [ok_bind, whole_mem]
  rw [readByte_eq h]
  simp only [ok_bind]
  rw [skip_eq (by omega), wholeOOR (by omega)]
  simp only [ok_bind]
  rw [bump_eq (by omega), tag_mask, tag_split, toChar_back, if_neg ht]
  rfl

/-! ### strings -/

/-- An emitted string is either inline or an id the dictionary knows. -/
theorem emitStr_cases {cfg : Cfg} {mem : Bytes} {sm : Option StringMap} {E e : Env} {b : Bytes} {n : Nat}
    (hctx : PCtx cfg mem sm E) (hn : 0 < n) (hr : Room e n) (hf : Follows (emitStr b e).2 E) :
    (sm = none ∧ (emitStr b e).1 = lenB b.length ++ b) ∨
    ∃ m' id s', sm = some m' ∧ id < 2 ^ 32 ∧ (emitStr b e).1 = lenB id ∧ m'.lookup cfg id = .ok s' ∧ s'.bytes = b ∧
      s'.Inside mem := by
  unfold emitStr at hf ⊢
  cases he : e.sm with
  | none =>
    rw [he] at hf
    exact .inl ⟨hctx.smNone (hf.smNone he), rfl⟩
  | some m =>
    rw [he] at hf
    obtain ⟨hi, hl⟩ := hr.sm m he
    obtain ⟨r1, r2, r3, r4⟩ := register_spec hi b (by omega)
    obtain ⟨M, hM, hp⟩ := hf.sm _ rfl
    obtain ⟨m', h1, h2⟩ := hctx.sm M hM
    obtain ⟨s', h3, h4, h5⟩ := h2 _ _ (hp.subset r4)
    exact .inr ⟨m', _, s', h1, r1.id_lt r4, rfl, h3, h4, h5⟩

theorem readKey {cfg : Cfg} {mem : Bytes} {sm : Option StringMap} {E e : Env} {k : Bytes} {n a : Nat}
    (hctx : PCtx cfg mem sm E) (hn : 0 < n) (hr : Room e n) (hf : Follows (emitStr k e).2 E)
    (hat : HasAt mem a (emitStr k e).1) (hin : a + (emitStr k e).1.length < mem.length)
    (hlt : (emitStr k e).1.length < 2 ^ 32) :
    ∃ s, parseKey cfg (View.whole mem) sm ⟨a, a⟩ =
      .ok (s, ⟨a + (emitStr k e).1.length, a + (emitStr k e).1.length⟩) ∧ s.bytes = k ∧ s.Inside mem := by
  have hs := hctx.size.1
  rcases emitStr_cases hctx hn hr hf with ⟨h1, h2⟩ | ⟨m', id, s', h1, h2, h3, h4, h5, h6⟩
  · rw [h2] at hat hin hlt ⊢
    rw [HasAt.append] at hat
    simp only [List.length_append] at hin hlt ⊢
    refine ⟨⟨k, some (a + (lenB k.length).length, k.length)⟩, ?_, rfl, Str.inside_of_hasAt hat.2 (by omega)⟩
    unfold parseKey
    rw [h1]
    simp only
    rw [readLen hctx.size (by omega) hat.1 (by omega)]
    simp only [ok_bind]
    by_cases hk : a + (lenB k.length).length < mem.length
    · rw [wholeAddr hk]
      simp only [ok_bind]
      rw [skip_eq (by omega), wholeOOR (by omega)]
      simp only [ok_bind]
      rw [bump_eq (by omega), whole_mem, hat.2.slice]
      simp [Nat.add_assoc]
    · omega
  · rw [h3] at hat hin hlt ⊢
    refine ⟨s', ?_, h5, h6⟩
    unfold parseKey
    rw [h1]
    simp only
    rw [readLen hctx.size h2 hat (by omega)]
    simp only [ok_bind, toU32_of_lt h2]
    rw [h4]
    rfl

theorem ownKey_eq {cfg : Cfg} {mem : Bytes} {s : Str} (hm : mem.length ≤ cfg.strMax) (h : s.Inside mem) (ref : Bool) :
    ∃ s', ownKey cfg (View.whole mem) ref s = .ok s' ∧ s'.bytes = s.bytes ∧ (if ref then s'.Inside mem else s'.loc = none) := by
  cases ref with
  | true => exact ⟨s, rfl, rfl, h⟩
  | false =>
    obtain ⟨a, h1, h2, h3⟩ := h.hasAt
    refine ⟨⟨s.bytes, none⟩, ?_, rfl, rfl⟩
    have := h3.length h2
    unfold ownKey
    rw [h1]
    simp only [Bool.false_eq_true, if_false]
    rw [if_neg (by omega), whole_mem, h3.readRange h2]
    rfl

/-! ### leaves -/

/-- The payload reader of an owning leaf. -/
theorem parseDataOwn_eq {cfg : Cfg} {mem : Bytes} {s : Scalar} {a : Nat} (hm : mem.length ≤ cfg.strMax)
    (ha : a ≤ mem.length) (hat : HasAt mem a (scalarRaw s)) :
    ∃ p, parseDataOwn cfg (scalarCode s) mem a (scalarRaw s).length = .ok p ∧ scalarOf false (scalarCode s) p = some s ∧
      ∀ v, p ≠ .view v := by
  have hl := hat.length ha
  cases s with
  | bytes b =>
    refine ⟨.vec b, ?_, rfl, by simp⟩
    simp only [scalarRaw, scalarCode] at hat hl ⊢
    unfold parseDataOwn
    rw [if_pos (.inl rfl), hat.readRange ha]; rfl
  | custom b =>
    refine ⟨.vec b, ?_, rfl, by simp⟩
    simp only [scalarRaw, scalarCode] at hat hl ⊢
    unfold parseDataOwn
    rw [if_pos (.inr rfl), hat.readRange ha]; rfl
  | string b =>
    refine ⟨.str b, ?_, rfl, by simp⟩
    simp only [scalarRaw, scalarCode] at hat hl ⊢
    unfold parseDataOwn
    rw [if_neg (by decide), if_pos rfl, if_neg (by omega), hat.readRange ha]; rfl
  | int32 v =>
    refine ⟨.i32 v, ?_, rfl, by simp⟩
    simp only [scalarRaw, scalarCode] at hat hl ⊢
    unfold parseDataOwn
    rw [bigEndian_length, parseNum_eq (by exact v.isLt) hat ha]
    simp [BRIDGE_INT32, BRIDGE_BYTES, BRIDGE_CUSTOM, BRIDGE_STRING]
  | uint32 v =>
    refine ⟨.u32 v, ?_, rfl, by simp⟩
    simp only [scalarRaw, scalarCode] at hat hl ⊢
    unfold parseDataOwn
    rw [bigEndian_length, parseNum_eq (by exact v.isLt) hat ha]
    simp [BRIDGE_INT32, BRIDGE_BYTES, BRIDGE_CUSTOM, BRIDGE_STRING, BRIDGE_UINT32]
  | int64 v =>
    refine ⟨.i64 v, ?_, rfl, by simp⟩
    simp only [scalarRaw, scalarCode] at hat hl ⊢
    unfold parseDataOwn
    rw [bigEndian_length, parseNum_eq (k := 8) (by exact v.isLt) hat ha]
    simp [BRIDGE_INT32, BRIDGE_BYTES, BRIDGE_CUSTOM, BRIDGE_STRING, BRIDGE_UINT32, BRIDGE_INT64]
  | uint64 v =>
    refine ⟨.u64 v, ?_, rfl, by simp⟩
    simp only [scalarRaw, scalarCode] at hat hl ⊢
    unfold parseDataOwn
    rw [bigEndian_length, parseNum_eq (k := 8) (by exact v.isLt) hat ha]
    simp [BRIDGE_INT32, BRIDGE_BYTES, BRIDGE_CUSTOM, BRIDGE_STRING, BRIDGE_UINT32, BRIDGE_INT64, BRIDGE_UINT64]
  | float v =>
    refine ⟨.f32 v, ?_, rfl, by simp⟩
    simp only [scalarRaw, scalarCode] at hat hl ⊢
    unfold parseDataOwn
    rw [bigEndian_length, parseNum_eq (by exact v.isLt) hat ha]
    simp [BRIDGE_INT32, BRIDGE_BYTES, BRIDGE_CUSTOM, BRIDGE_STRING, BRIDGE_UINT32, BRIDGE_INT64, BRIDGE_UINT64, BRIDGE_FLOAT]
  | double v =>
    refine ⟨.f64 v, ?_, rfl, by simp⟩
    simp only [scalarRaw, scalarCode] at hat hl ⊢
    unfold parseDataOwn
    rw [bigEndian_length, parseNum_eq (k := 8) (by exact v.isLt) hat ha]
    simp [BRIDGE_INT32, BRIDGE_BYTES, BRIDGE_CUSTOM, BRIDGE_STRING, BRIDGE_UINT32, BRIDGE_INT64, BRIDGE_UINT64, BRIDGE_FLOAT,
      BRIDGE_DOUBLE]


/-- The payload reader of a leaf that refers to the content. -/
theorem parseDataView_eq {cfg : Cfg} {mem : Bytes} {s : Scalar} {a : Nat} (hc : ∀ b, s ≠ .custom b)
    (ha : a ≤ mem.length) (hat : HasAt mem a (scalarRaw s)) :
    ∃ p, parseDataView cfg (scalarCode s) mem a (scalarRaw s).length = .ok p ∧ scalarOf true (scalarCode s) p = some s ∧
      ∀ v, p = .view v → v.Inside mem := by
  have hl := hat.length ha
  cases s with
  | bytes b =>
    refine ⟨.view ⟨b, some (a, b.length)⟩, ?_, rfl, ?_⟩
    · simp only [scalarRaw, scalarCode] at hat hl ⊢
      unfold parseDataView
      rw [if_pos (.inl rfl), hat.slice]; rfl
    · intro v hv; cases hv; exact Str.inside_of_hasAt hat ha
  | custom b => exact absurd rfl (hc b)
  | string b =>
    refine ⟨.view ⟨b, some (a, b.length)⟩, ?_, rfl, ?_⟩
    · simp only [scalarRaw, scalarCode] at hat hl ⊢
      unfold parseDataView
      rw [if_pos (.inr rfl), hat.slice]; rfl
    · intro v hv; cases hv; exact Str.inside_of_hasAt hat ha
  | int32 v =>
    refine ⟨.i32 v, ?_, rfl, by simp⟩
    simp only [scalarRaw, scalarCode] at hat hl ⊢
    unfold parseDataView
    rw [bigEndian_length, parseNum_eq (by exact v.isLt) hat ha]
    simp [BRIDGE_INT32, BRIDGE_BYTES, BRIDGE_CUSTOM, BRIDGE_STRING]
  | uint32 v =>
    refine ⟨.u32 v, ?_, rfl, by simp⟩
    simp only [scalarRaw, scalarCode] at hat hl ⊢
    unfold parseDataView
    rw [bigEndian_length, parseNum_eq (by exact v.isLt) hat ha]
    simp [BRIDGE_INT32, BRIDGE_BYTES, BRIDGE_CUSTOM, BRIDGE_STRING, BRIDGE_UINT32]
  | int64 v =>
    refine ⟨.i64 v, ?_, rfl, by simp⟩
    simp only [scalarRaw, scalarCode] at hat hl ⊢
    unfold parseDataView
    rw [bigEndian_length, parseNum_eq (k := 8) (by exact v.isLt) hat ha]
    simp [BRIDGE_INT32, BRIDGE_BYTES, BRIDGE_CUSTOM, BRIDGE_STRING, BRIDGE_UINT32, BRIDGE_INT64]
  | uint64 v =>
    refine ⟨.u64 v, ?_, rfl, by simp⟩
    simp only [scalarRaw, scalarCode] at hat hl ⊢
    unfold parseDataView
    rw [bigEndian_length, parseNum_eq (k := 8) (by exact v.isLt) hat ha]
    simp [BRIDGE_INT32, BRIDGE_BYTES, BRIDGE_CUSTOM, BRIDGE_STRING, BRIDGE_UINT32, BRIDGE_INT64, BRIDGE_UINT64]
  | float v =>
    refine ⟨.f32 v, ?_, rfl, by simp⟩
    simp only [scalarRaw, scalarCode] at hat hl ⊢
    unfold parseDataView
    rw [bigEndian_length, parseNum_eq (by exact v.isLt) hat ha]
    simp [BRIDGE_INT32, BRIDGE_BYTES, BRIDGE_CUSTOM, BRIDGE_STRING, BRIDGE_UINT32, BRIDGE_INT64, BRIDGE_UINT64, BRIDGE_FLOAT]
  | double v =>
    refine ⟨.f64 v, ?_, rfl, by simp⟩
    simp only [scalarRaw, scalarCode] at hat hl ⊢
    unfold parseDataView
    rw [bigEndian_length, parseNum_eq (k := 8) (by exact v.isLt) hat ha]
    simp [BRIDGE_INT32, BRIDGE_BYTES, BRIDGE_CUSTOM, BRIDGE_STRING, BRIDGE_UINT32, BRIDGE_INT64, BRIDGE_UINT64, BRIDGE_FLOAT,
      BRIDGE_DOUBLE]


theorem scalarCode_ok (s : Scalar) : checkDataType (scalarCode s) = .ok () := by cases s <;> rfl

/-- A leaf is read back with its type and value. -/
theorem parseLeaf {cfg : Cfg} {mem : Bytes} {sm : Option StringMap} {E e : Env} {s : Scalar} {a : Nat} (ref : Bool)
    (pool : PoolRef) (hctx : PCtx cfg mem sm E) (hr : Room e (emitScalar s e).1.length) (hf : Follows (emitScalar s e).2 E)
    (hat : HasAt mem a (emitScalar s e).1) (hin : a + (emitScalar s e).1.length < mem.length)
    (hlt : (emitScalar s e).1.length < 2 ^ 32) (hcust : ref = true → (Doc.scalar s).noCustom = true) :
    ∃ o, (if ref then parseViewObj cfg (View.whole mem) sm ⟨a, a⟩ else parseDataObj cfg (View.whole mem) sm ⟨a, a⟩) =
        .ok (o, ⟨a + (emitScalar s e).1.length, a + (emitScalar s e).1.length⟩) ∧
      o.doc? = some (.scalar s) ∧ o.Built mem ref pool := by
  have hs := hctx.size.1
  -- the inline form
  have inline : ∀ (hsm : sm = none ∨ scalarCode s ≠ BRIDGE_STRING),
      (emitScalar s e).1 = scalarCode s :: (lenB (scalarRaw s).length ++ scalarRaw s) →
      ∃ o, (if ref then parseViewObj cfg (View.whole mem) sm ⟨a, a⟩ else parseDataObj cfg (View.whole mem) sm ⟨a, a⟩) =
        .ok (o, ⟨a + (emitScalar s e).1.length, a + (emitScalar s e).1.length⟩) ∧
      o.doc? = some (.scalar s) ∧ o.Built mem ref pool := by
    intro hsm heq
    rw [heq] at hat hin hlt ⊢
    rw [HasAt.cons, HasAt.append] at hat
    obtain ⟨h1, h2, h3⟩ := hat
    simp only [List.length_cons, List.length_append] at hin hlt ⊢
    have hraw : (scalarRaw s).length < 2 ^ 32 := by omega
    have hcur : (⟨a + 1 + (lenB (scalarRaw s).length).length + (scalarRaw s).length,
        a + 1 + (lenB (scalarRaw s).length).length + (scalarRaw s).length⟩ : Cur) =
        ⟨a + ((lenB (scalarRaw s).length).length + (scalarRaw s).length + 1),
          a + ((lenB (scalarRaw s).length).length + (scalarRaw s).length + 1)⟩ := by
      have : a + 1 + (lenB (scalarRaw s).length).length + (scalarRaw s).length =
        a + ((lenB (scalarRaw s).length).length + (scalarRaw s).length + 1) := by omega
      rw [this]
    cases ref with
    | false =>
      obtain ⟨p, hp1, hp2, hp3⟩ := parseDataOwn_eq (cfg := cfg) hctx.strMax (by omega) h3
      refine ⟨.data false (scalarCode s) p, ?_, by simp [Obj.doc?, hp2], rfl, fun v hv => absurd hv (hp3 v)⟩
      simp only [Bool.false_eq_true, if_false]
      unfold parseDataObj
      rw [readType hs h1]
      simp only [ok_bind]
      rw [scalarCode_ok]
      simp only [ok_bind]
      have hcommon : (do
          let (size, c) ← parseLength cfg (View.whole mem) ⟨a + 1, a + 1⟩
          let addr ← curAddr (View.whole mem) c
          let p ← parseDataOwn cfg (scalarCode s) (View.whole mem).mem addr size
          checkOOR (View.whole mem) (skip c size)
          pure (Obj.data false (scalarCode s) p, bump (skip c size) size) : Res (Obj × Cur)) =
          .ok (.data false (scalarCode s) p, ⟨a + ((lenB (scalarRaw s).length).length + (scalarRaw s).length + 1),
            a + ((lenB (scalarRaw s).length).length + (scalarRaw s).length + 1)⟩) := by
        rw [readLen hctx.size hraw h2 (by omega)]
        simp only [ok_bind]
        rw [wholeAddr (by omega)]
        simp only [ok_bind, whole_mem]
        rw [hp1]
        simp only [ok_bind]
        rw [skip_eq (by omega), wholeOOR (by omega)]
        simp only [ok_bind]
        rw [bump_eq (by omega), hcur]
        rfl
      rcases hsm with hsm | hsm
      · rw [hsm]; exact hcommon
      · cases sm with
        | none => exact hcommon
        | some m => simp only [hsm, decide_false]; exact hcommon
    | true =>
      have hnc : ∀ b, s ≠ .custom b := by
        intro b hb; subst hb; simp [Doc.noCustom] at hcust
      obtain ⟨p, hp1, hp2, hp3⟩ := parseDataView_eq (cfg := cfg) hnc (by omega) h3
      refine ⟨.data true (scalarCode s) p, ?_, by simp [Obj.doc?, hp2], rfl, hp3⟩
      simp only [if_true]
      unfold parseViewObj
      rw [readType hs h1]
      simp only [ok_bind]
      rw [scalarCode_ok]
      simp only [ok_bind]
      have hcommon : (do
          let (size, c) ← parseLength cfg (View.whole mem) ⟨a + 1, a + 1⟩
          let addr ← curAddr (View.whole mem) c
          let p ← parseDataView cfg (scalarCode s) (View.whole mem).mem addr size
          checkOOR (View.whole mem) (skip c size)
          pure (Obj.data true (scalarCode s) p, bump (skip c size) size) : Res (Obj × Cur)) =
          .ok (.data true (scalarCode s) p, ⟨a + ((lenB (scalarRaw s).length).length + (scalarRaw s).length + 1),
            a + ((lenB (scalarRaw s).length).length + (scalarRaw s).length + 1)⟩) := by
        rw [readLen hctx.size hraw h2 (by omega)]
        simp only [ok_bind]
        rw [wholeAddr (by omega)]
        simp only [ok_bind, whole_mem]
        rw [hp1]
        simp only [ok_bind]
        rw [skip_eq (by omega), wholeOOR (by omega)]
        simp only [ok_bind]
        rw [bump_eq (by omega), hcur]
        rfl
      rcases hsm with hsm | hsm
      · rw [hsm]; exact hcommon
      · cases sm with
        | none => exact hcommon
        | some m => simp only [hsm, decide_false]; exact hcommon
  cases s with
  | string b =>
    rcases emitStr_cases (b := b) (e := e) hctx (n := (emitScalar (.string b) e).1.length)
        (by simp [emitScalar]) hr hf with ⟨h1, h2⟩ | ⟨m', id, s', h1, h2, h3, h4, h5, h6⟩
    · exact inline (.inl h1) (by simp only [emitScalar, scalarCode, scalarRaw, h2])
    · simp only [emitScalar, h3] at hat hin hlt ⊢
      rw [HasAt.cons] at hat
      simp only [List.length_cons] at hin hlt ⊢
      have hcur : (⟨a + 1 + (lenB id).length, a + 1 + (lenB id).length⟩ : Cur) =
          ⟨a + ((lenB id).length + 1), a + ((lenB id).length + 1)⟩ := by
        have : a + 1 + (lenB id).length = a + ((lenB id).length + 1) := by omega
        rw [this]
      cases ref with
      | false =>
        refine ⟨.data false BRIDGE_STRING (.str b), ?_, rfl, rfl, by simp⟩
        simp only [Bool.false_eq_true, if_false]
        unfold parseDataObj
        rw [readType hs hat.1, h1]
        simp only [ok_bind]
        rw [show checkDataType BRIDGE_STRING = .ok () from rfl]
        simp only [ok_bind, decide_true]
        rw [readLen hctx.size h2 hat.2 (by omega)]
        simp only [ok_bind, toU32_of_lt h2]
        rw [h4]
        simp only [ok_bind, pure_eq_ok, h5, hcur]
      | true =>
        refine ⟨.data true BRIDGE_STRING (.view s'), ?_, ?_, rfl, ?_⟩
        · simp only [if_true]
          unfold parseViewObj
          rw [readType hs hat.1, h1]
          simp only [ok_bind]
          rw [show checkDataType BRIDGE_STRING = .ok () from rfl]
          simp only [ok_bind, decide_true]
          rw [readLen hctx.size h2 hat.2 (by omega)]
          simp only [ok_bind, toU32_of_lt h2]
          rw [h4]
          simp only [ok_bind, pure_eq_ok, hcur]
        · rw [← h5]; rfl
        · intro v hv; cases hv; exact h6
  | bytes b => exact inline (.inr (by simp only [scalarCode]; decide)) rfl
  | custom b => exact inline (.inr (by simp only [scalarCode]; decide)) rfl
  | int32 b => exact inline (.inr (by simp only [scalarCode]; decide)) rfl
  | uint32 b => exact inline (.inr (by simp only [scalarCode]; decide)) rfl
  | int64 b => exact inline (.inr (by simp only [scalarCode]; decide)) rfl
  | uint64 b => exact inline (.inr (by simp only [scalarCode]; decide)) rfl
  | float b => exact inline (.inr (by simp only [scalarCode]; decide)) rfl
  | double b => exact inline (.inr (by simp only [scalarCode]; decide)) rfl

/-! ### trees -/

mutual
/-- A step bound that suffices to parse a document. -/
def docFuel : Doc → Nat
  | .scalar _ => 1
  | .array xs => 1 + itemsFuel xs
  | .map es => 1 + kvsFuel es
def itemsFuel : List Doc → Nat
  | [] => 1
  | x :: xs => 1 + max (docFuel x) (itemsFuel xs)
def kvsFuel : List (Bytes × Doc) → Nat
  | [] => 1
  | (_, x) :: es => 1 + max (docFuel x) (kvsFuel es)
end

mutual
theorem parseVal_eq {cfg wc : Cfg} {mem : Bytes} {sm : Option StringMap} {E : Env} {ref : Bool} {pool : PoolRef}
    (hctx : PCtx cfg mem sm E) : ∀ (d : Doc) (e : Env) (a f : Nat), Room e (emitDoc wc d e).1.length →
    Follows (emitDoc wc d e).2.2 E → HasAt mem a (emitDoc wc d e).1 → a + (emitDoc wc d e).1.length < mem.length →
    (emitDoc wc d e).1.length < 2 ^ 32 → (ref = true → d.noCustom = true) → docFuel d ≤ f →
    ∃ o, parseVal cfg (View.whole mem) sm ref pool f (docType d) ⟨a, a⟩ =
        .ok (o, ⟨a + (emitDoc wc d e).1.length, a + (emitDoc wc d e).1.length⟩) ∧
      o.doc? = some d.revMaps ∧ o.Built mem ref pool
  | .scalar s, e, a, f, hr, hf, hat, hin, hlt, hcust, hfuel => by
    cases f with
    | zero => simp [docFuel] at hfuel
    | succ f =>
      simp only [emitDoc] at hr hf hat hin hlt ⊢
      obtain ⟨o, h1, h2, h3⟩ := parseLeaf ref pool hctx hr hf hat hin hlt hcust
      exact ⟨o, by simp only [docType, parseVal]; exact h1, by simp only [Doc.revMaps]; exact h2, h3⟩
  | .array xs, e, a, f, hr, hf, hat, hin, hlt, hcust, hfuel => by
    cases f with
    | zero => simp [docFuel] at hfuel
    | succ f =>
      simp only [docFuel] at hfuel
      simp only [emitDoc, emitContainer_length] at hr hf hat hin hlt ⊢
      have hp1 := lenB_length_pos xs.length
      have hroom := request_room (k := (emitItems wc xs { e with si := e.si.requestId.1 }).1.flatten.length) hr (by omega)
      have hcnt := length_le_flatten (emitItems_pos wc xs { e with si := e.si.requestId.1 })
      have hxl : (emitItems wc xs { e with si := e.si.requestId.1 }).1.length = xs.length := emitItems_length wc xs _
      have hid : e.si.requestId.2 < 2 ^ 32 := by have := hr.siRoom; simp only [SplitInfo.requestId]; omega
      have hfol : Follows (emitItems wc xs { e with si := e.si.requestId.1 }).2 E := by
        refine ⟨?_, ?_, ?_⟩
        · intro h; apply hf.smNone; unfold emitContainer; simp only; split <;> exact h
        · intro m h; apply hf.sm; unfold emitContainer; simp only; split <;> exact h
        · refine (container_info ?_).trans hf.info
          exact container_fresh hr (emitItems_grows wc xs _ hroom)
      simp only [emitContainer] at hat
      rw [HasAt.append, HasAt.append, List.length_append] at hat
      obtain ⟨⟨h1, h2⟩, h3⟩ := hat
      rw [← Nat.add_assoc] at h3
      obtain ⟨items, c1, c2, c3⟩ := parseItems_eq hctx xs { e with si := e.si.requestId.1 }
        (a + (lenB xs.length).length + (lenB e.si.requestId.2).length) f hroom hfol h3 (by omega) (by omega)
        (by simpa [Doc.noCustom] using hcust) (by omega)
      refine ⟨.array pool xs.length items, ?_, ?_, rfl, c3⟩
      · simp only [docType, parseVal]
        rw [readLen hctx.size (by omega) h1 (by omega)]
        simp only [ok_bind]
        rw [readLen hctx.size hid h2 (by omega)]
        simp only [ok_bind]
        rw [c1]
        simp only [ok_bind, pure_eq_ok, Nat.add_assoc]
      · have := docs?_length c2
        rw [revMapsL_length] at this
        simp [Obj.doc?, this, c2, Doc.revMaps]
  | .map es, e, a, f, hr, hf, hat, hin, hlt, hcust, hfuel => by
    cases f with
    | zero => simp [docFuel] at hfuel
    | succ f =>
      simp only [docFuel] at hfuel
      simp only [emitDoc, emitContainer_length] at hr hf hat hin hlt ⊢
      have hp1 := lenB_length_pos es.length
      have hroom := request_room (k := (emitKVs wc es { e with si := e.si.requestId.1 }).1.flatten.length) hr (by omega)
      have hcnt := length_le_flatten (emitKVs_pos wc es { e with si := e.si.requestId.1 })
      have hxl : (emitKVs wc es { e with si := e.si.requestId.1 }).1.length = es.length := emitKVs_length wc es _
      have hid : e.si.requestId.2 < 2 ^ 32 := by have := hr.siRoom; simp only [SplitInfo.requestId]; omega
      have hfol : Follows (emitKVs wc es { e with si := e.si.requestId.1 }).2 E := by
        refine ⟨?_, ?_, ?_⟩
        · intro h; apply hf.smNone; unfold emitContainer; simp only; split <;> exact h
        · intro m h; apply hf.sm; unfold emitContainer; simp only; split <;> exact h
        · refine (container_info ?_).trans hf.info
          exact container_fresh hr (emitKVs_grows wc es _ hroom)
      simp only [emitContainer] at hat
      rw [HasAt.append, HasAt.append, List.length_append] at hat
      obtain ⟨⟨h1, h2⟩, h3⟩ := hat
      rw [← Nat.add_assoc] at h3
      obtain ⟨items, c1, c2, c3⟩ := parseKVs_eq hctx es { e with si := e.si.requestId.1 }
        (a + (lenB es.length).length + (lenB e.si.requestId.2).length) f [] [] rfl trivial hroom hfol h3 (by omega) (by omega)
        (by simpa [Doc.noCustom] using hcust) (by omega)
      refine ⟨.map ref pool es.length items, ?_, ?_, rfl, rfl, c3⟩
      · simp only [docType, parseVal]
        rw [readLen hctx.size (by omega) h1 (by omega)]
        simp only [ok_bind]
        rw [readLen hctx.size hid h2 (by omega)]
        simp only [ok_bind]
        rw [c1]
        simp only [ok_bind, pure_eq_ok, Nat.add_assoc]
      · have := entries?_length c2
        rw [revMapsE_length] at this
        simp only [List.length_nil, Nat.add_zero] at this
        simp [Obj.doc?, this, c2, Doc.revMaps]

theorem parseItems_eq {cfg wc : Cfg} {mem : Bytes} {sm : Option StringMap} {E : Env} {ref : Bool} {pool : PoolRef}
    (hctx : PCtx cfg mem sm E) : ∀ (xs : List Doc) (e : Env) (a f : Nat), Room e (emitItems wc xs e).1.flatten.length →
    Follows (emitItems wc xs e).2 E → HasAt mem a (emitItems wc xs e).1.flatten →
    a + (emitItems wc xs e).1.flatten.length < mem.length →
    (emitItems wc xs e).1.flatten.length < 2 ^ 32 → (ref = true → noCustomL xs = true) → itemsFuel xs ≤ f →
    ∃ os, parseItems cfg (View.whole mem) sm ref pool f xs.length ⟨a, a⟩ =
        .ok (os, ⟨a + (emitItems wc xs e).1.flatten.length, a + (emitItems wc xs e).1.flatten.length⟩) ∧
      docs? os = some (revMapsL xs) ∧ builtL mem ref pool os
  | [], e, a, f, _, _, _, _, _, _, hfuel => by
    cases f with
    | zero => simp [itemsFuel] at hfuel
    | succ f => exact ⟨[], by simp [parseItems, emitItems], rfl, trivial⟩
  | x :: xs, e, a, f, hr, hf, hat, hin, hlt, hcust, hfuel => by
    cases f with
    | zero => simp [itemsFuel] at hfuel
    | succ f =>
      simp only [itemsFuel] at hfuel
      simp only [emitItems, List.flatten_cons, List.length_append, List.length_cons] at hr hf hat hin hlt ⊢
      have g1 := emitDoc_grows wc x e (hr.mono (by omega))
      have hr2 : Room (emitDoc wc x e).2.2 (emitItems wc xs (emitDoc wc x e).2.2).1.flatten.length :=
        (hr.mono (by omega)).after g1
      have g2 := emitItems_grows wc xs _ hr2
      rw [HasAt.append, HasAt.cons] at hat
      obtain ⟨⟨h0, h1⟩, h2⟩ := hat
      simp only [List.length_cons] at h2
      have hcust1 : ref = true → x.noCustom = true := fun h => by
        have := hcust h; simp only [noCustomL, Bool.and_eq_true] at this; exact this.1
      have hcust2 : ref = true → noCustomL xs = true := fun h => by
        have := hcust h; simp only [noCustomL, Bool.and_eq_true] at this; exact this.2
      obtain ⟨o, p1, p2, p3⟩ := parseVal_eq (ref := ref) (pool := pool) hctx x e (a + 1) f (hr.mono (by omega))
        (Follows.of_grows g2 hr2 hf) h1 (by omega) (by omega) hcust1 (by omega)
      obtain ⟨os, q1, q2, q3⟩ := parseItems_eq (ref := ref) (pool := pool) hctx xs (emitDoc wc x e).2.2
        (a + 1 + (emitDoc wc x e).1.length) f hr2 hf
        (by rw [Nat.add_assoc, Nat.add_comm 1]; exact h2) (by omega) (by omega) hcust2 (by omega)
      refine ⟨o :: os, ?_, by simp [docs?, p2, q2, revMapsL], p3, q3⟩
      simp only [List.length_cons, parseItems]
      rw [readTag hctx.size.1 h0 (docType_ne_invalid x)]
      simp only [ok_bind]
      rw [p1]
      simp only [ok_bind]
      rw [q1]
      simp only [ok_bind, pure_eq_ok]
      have : a + 1 + (emitDoc wc x e).1.length + (emitItems wc xs (emitDoc wc x e).2.2).1.flatten.length =
        a + ((emitDoc wc x e).1.length + 1 + (emitItems wc xs (emitDoc wc x e).2.2).1.flatten.length) := by omega
      rw [this]

theorem parseKVs_eq {cfg wc : Cfg} {mem : Bytes} {sm : Option StringMap} {E : Env} {ref : Bool} {pool : PoolRef}
    (hctx : PCtx cfg mem sm E) : ∀ (xs : List (Bytes × Doc)) (e : Env) (a f : Nat) (acc : List (Str × Obj))
    (accd : List (Bytes × Doc)), entries? acc = some accd → builtE mem ref pool acc →
    Room e (emitKVs wc xs e).1.flatten.length →
    Follows (emitKVs wc xs e).2 E → HasAt mem a (emitKVs wc xs e).1.flatten →
    a + (emitKVs wc xs e).1.flatten.length < mem.length →
    (emitKVs wc xs e).1.flatten.length < 2 ^ 32 → (ref = true → noCustomE xs = true) → kvsFuel xs ≤ f →
    ∃ os, parseKVs cfg (View.whole mem) sm ref pool f xs.length ⟨a, a⟩ acc =
        .ok (os, ⟨a + (emitKVs wc xs e).1.flatten.length, a + (emitKVs wc xs e).1.flatten.length⟩) ∧
      entries? os = some (revMapsE xs accd) ∧ builtE mem ref pool os
  | [], e, a, f, acc, accd, hacc, hb, _, _, _, _, _, _, hfuel => by
    cases f with
    | zero => simp [kvsFuel] at hfuel
    | succ f => exact ⟨acc, by simp [parseKVs, emitKVs], by simpa [revMapsE] using hacc, hb⟩
  | (k, x) :: xs, e, a, f, acc, accd, hacc, hb, hr, hf, hat, hin, hlt, hcust, hfuel => by
    cases f with
    | zero => simp [kvsFuel] at hfuel
    | succ f =>
      simp only [kvsFuel] at hfuel
      simp only [emitKVs, List.flatten_cons, List.length_append, List.length_cons] at hr hf hat hin hlt ⊢
      have hkp := emitStr_pos k e
      have g0 : Grows e (emitStr k e).2 (emitStr k e).1.length := emitStr_grows hkp (hr.mono (by omega))
      have hr1 : Room (emitStr k e).2 ((emitDoc wc x (emitStr k e).2).1.length +
          (emitKVs wc xs (emitDoc wc x (emitStr k e).2).2.2).1.flatten.length) := (hr.mono (by omega)).after g0
      have g1 := emitDoc_grows wc x (emitStr k e).2 (hr1.mono (by omega))
      have hr2 : Room (emitDoc wc x (emitStr k e).2).2.2
          (emitKVs wc xs (emitDoc wc x (emitStr k e).2).2.2).1.flatten.length := hr1.after g1
      have g2 := emitKVs_grows wc xs _ hr2
      have hf1 := Follows.of_grows g2 hr2 hf
      have hf0 := Follows.of_grows g1 (hr1.mono (by omega)) hf1
      rw [HasAt.append, HasAt.append, HasAt.cons] at hat
      obtain ⟨⟨hk, h0, h1⟩, h2⟩ := hat
      simp only [List.length_append, List.length_cons] at h2
      have hcust1 : ref = true → x.noCustom = true := fun h => by
        have := hcust h; simp only [noCustomE, Bool.and_eq_true] at this; exact this.1
      have hcust2 : ref = true → noCustomE xs = true := fun h => by
        have := hcust h; simp only [noCustomE, Bool.and_eq_true] at this; exact this.2
      obtain ⟨ks, k1, k2, k3⟩ := readKey hctx hkp (hr.mono (by omega)) hf0 hk (by omega) (by omega)
      obtain ⟨o, p1, p2, p3⟩ := parseVal_eq (ref := ref) (pool := pool) hctx x (emitStr k e).2
        (a + (emitStr k e).1.length + 1) f (hr1.mono (by omega)) hf1 h1 (by omega) (by omega) hcust1 (by omega)
      obtain ⟨ks', k4, k5, k6⟩ := ownKey_eq (cfg := cfg) hctx.strMax k3 ref
      have hcur : a + (emitStr k e).1.length + 1 + (emitDoc wc x (emitStr k e).2).1.length =
        a + ((emitStr k e).1.length + ((emitDoc wc x (emitStr k e).2).1.length + 1)) := by omega
      obtain ⟨os, q1, q2, q3⟩ := parseKVs_eq (ref := ref) (pool := pool) hctx xs (emitDoc wc x (emitStr k e).2).2.2
        (a + (emitStr k e).1.length + 1 + (emitDoc wc x (emitStr k e).2).1.length) f ((ks', o) :: acc)
        ((k, x.revMaps) :: accd) (by simp [entries?, p2, hacc, k5, k2]) ⟨k6, p3, hb⟩ hr2 hf
        (by rw [hcur]; exact h2) (by omega) (by omega) hcust2 (by omega)
      refine ⟨os, ?_, by simpa only [revMapsE] using q2, q3⟩
      simp only [List.length_cons, parseKVs]
      rw [k1]
      simp only [ok_bind]
      rw [readTag hctx.size.1 h0 (docType_ne_invalid x)]
      simp only [ok_bind]
      rw [p1]
      simp only [ok_bind]
      rw [k4]
      simp only [ok_bind]
      rw [q1]
      have : a + (emitStr k e).1.length + 1 + (emitDoc wc x (emitStr k e).2).1.length +
          (emitKVs wc xs (emitDoc wc x (emitStr k e).2).2.2).1.flatten.length =
        a + ((emitStr k e).1.length + ((emitDoc wc x (emitStr k e).2).1.length + 1) +
          (emitKVs wc xs (emitDoc wc x (emitStr k e).2).2.2).1.flatten.length) := by omega
      rw [this]
end

end Bridge
