import Verif.Props.Varint
import Verif.Proof.CoRT
import Verif.Spec.Grammar
/-
What an accepted byte string looks like: if the recursive parser returns normally, the bytes it consumed are described by
`Spec.Reads`.
-/
set_option autoImplicit false
namespace Bridge
open Spec

theorem isLeb_pos {bs : Bytes} (h : IsLeb bs) : 0 < bs.length := by
  cases bs with
  | nil => simp [IsLeb] at h
  | cons => simp

theorem parseLength_inv {r : Cfg} {mem : Bytes} {i n : Nat} {c : Cur} (hc : mem.length < 2 ^ 63)
    (h : parseLength r (View.whole mem) ⟨i, i⟩ = .ok (n, c)) :
    ∃ bs, NumField bs n ∧ HasAt mem i bs ∧ i + bs.length ≤ mem.length ∧ c = ⟨i + bs.length, i + bs.length⟩ := by
  rcases C05_parseLength_any r mem hc i with ⟨bs, e, h1, h2, h3, h4⟩ | ⟨x, e, -⟩ | ⟨e, -⟩ | ⟨e, -⟩
  · rw [h] at e
    simp only [Except.ok.injEq, Prod.mk.injEq] at e
    exact ⟨bs, ⟨h1, h2, e.1⟩, h3, h4, e.2⟩
  · rw [h] at e; cases e
  · rw [h] at e; cases e
  · rw [h] at e; cases e

theorem curAddr_inv {mem : Bytes} {i j a : Nat} (h : curAddr (View.whole mem) ⟨i, j⟩ = .ok a) : a = i ∧ i < mem.length := by
  unfold curAddr View.whole at h
  simp only at h
  split at h
  · cases h
  · simp only [Nat.zero_add, Except.ok.injEq] at h
    omega

theorem checkOOR_inv {mem : Bytes} {i j : Nat} {u : Unit} (h : checkOOR (View.whole mem) ⟨i, j⟩ = .ok u) : i ≤ mem.length := by
  unfold checkOOR View.whole at h
  simp only at h
  split at h
  · cases h
  · omega

theorem readByte_inv {mem : Bytes} {a : Nat} {b : UInt8} (ha : a < mem.length) (h : readByte mem a = .ok b) :
    mem[a]? = some b := by
  unfold readByte at h
  rw [List.getElem?_eq_getElem ha] at h ⊢
  simp only [Except.ok.injEq] at h
  rw [h]

theorem parseDataType_inv {mem : Bytes} {i : Nat} {t : UInt8} {c : Cur} (hc : mem.length < 2 ^ 63)
    (h : parseDataType (View.whole mem) ⟨i, i⟩ = .ok (t, c)) :
    mem[i]? = some t ∧ i < mem.length ∧ c = ⟨i + 1, i + 1⟩ := by
  unfold parseDataType at h
  obtain ⟨_, _, h⟩ := bind_ok h
  obtain ⟨a, ha, h⟩ := bind_ok h
  obtain ⟨rfl, hlt⟩ := curAddr_inv ha
  obtain ⟨b, hb, h⟩ := bind_ok h
  obtain ⟨_, _, h⟩ := bind_ok h
  have hb := readByte_inv hlt hb
  rw [skip_eq (by omega), bump_eq (by omega)] at h
  simp only [pure_eq_ok, Except.ok.injEq, Prod.mk.injEq] at h
  exact ⟨by rw [← h.1]; exact hb, hlt, h.2.symm⟩

theorem kindByte_of (b : UInt8) (d : Doc) (h : charToObjectType (b &&& 0x7F) = docType d) : ∃ s, b = kindByte d s := by
  have key : ∀ n : Fin 256, ∀ k : Fin 3,
      (charToObjectType (UInt8.ofNat n.val &&& 0x7F) = (match k with | 0 => .data | 1 => .map | 2 => .array) →
      UInt8.ofNat n.val = UInt8.ofNat k.val ||| (if UInt8.ofNat n.val &&& 0x80 ≠ 0 then 0x80 else 0)) := by decide +kernel
  have hb : UInt8.ofNat b.toNat = b := by simp
  have hs : ∀ k : Fin 3, (charToObjectType (b &&& 0x7F) = (match k with | 0 => .data | 1 => .map | 2 => .array) →
      b = UInt8.ofNat k.val ||| (if b &&& 0x80 ≠ 0 then 0x80 else 0)) := by
    intro k
    have := key ⟨b.toNat, b.toNat_lt⟩ k
    simp only [hb] at this
    exact this
  refine ⟨decide (b &&& 0x80 ≠ 0), ?_⟩
  cases d with
  | scalar s => have := hs 0 h; simpa [kindByte] using this
  | map es => have := hs 1 h; simpa [kindByte] using this
  | array xs => have := hs 2 h; simpa [kindByte] using this

theorem parseObjectType_inv {mem : Bytes} {i : Nat} {t : ObjectType} {c : Cur} (hc : mem.length < 2 ^ 63)
    (h : parseObjectType (View.whole mem) ⟨i, i⟩ = .ok (t, c)) :
    ∃ b, mem[i]? = some b ∧ charToObjectType (b &&& 0x7F) = t ∧ t ≠ .invalid ∧ i < mem.length ∧ c = ⟨i + 1, i + 1⟩ := by
  unfold parseObjectType at h
  obtain ⟨_, _, h⟩ := bind_ok h
  obtain ⟨a, ha, h⟩ := bind_ok h
  obtain ⟨rfl, hlt⟩ := curAddr_inv ha
  obtain ⟨b, hb, h⟩ := bind_ok h
  obtain ⟨_, _, h⟩ := bind_ok h
  have hb := readByte_inv hlt hb
  rw [skip_eq (by omega), bump_eq (by omega)] at h
  simp only at h
  split at h
  · cases h
  · rename_i hne
    simp only [pure_eq_ok, Except.ok.injEq, Prod.mk.injEq] at h
    exact ⟨b, hb, h.1, by rw [← h.1]; exact hne, hlt, h.2.symm⟩

theorem readRange_inv {mem : Bytes} {a n : Nat} {b : Bytes} (h : readRange mem a n = .ok b) :
    a + n ≤ mem.length + 1 ∧ HasAt (mem ++ [0]) a b ∧ b.length = n := by
  unfold readRange at h
  split at h
  · rename_i hle
    simp only [Except.ok.injEq] at h
    have hl : b.length = n := by rw [← h, List.length_take, List.length_drop, List.length_append]; simp; omega
    refine ⟨hle, ?_, hl⟩
    unfold HasAt
    rw [← h]
    exact List.take_prefix _ _
  · cases h

theorem hasAt_zero {mem : Bytes} {a : Nat} {b : Bytes} (h : HasAt (mem ++ [0]) a b) (hl : a + b.length ≤ mem.length) :
    HasAt mem a b := by
  unfold HasAt at h ⊢
  rw [List.drop_append_of_le_length (by omega)] at h
  exact List.prefix_of_prefix_length_le h (List.prefix_append _ _) (by rw [List.length_drop]; omega)

theorem short_field {mem bs : Bytes} {a n : Nat} (hs : ShortNumbers mem) (hf : NumField bs n) (hat : HasAt mem a bs) :
    n < 2 ^ 63 := by
  obtain ⟨hl, _, hn⟩ := hf
  have hle : bs.length ≤ 9 := by
    obtain ⟨j, hj, hb⟩ := hs a
    apply Nat.le_of_not_lt
    intro hlt
    have hcont : ∀ (l : Bytes) (i : Nat), IsLeb l → i + 1 < l.length → ∃ x, l[i]? = some x ∧ 128 ≤ x.toNat := by
      intro l
      induction l with
      | nil => intro i h; simp [IsLeb] at h
      | cons x xs ih =>
        intro i h hi
        cases xs with
        | nil => simp at hi
        | cons y ys =>
          cases i with
          | zero => exact ⟨x, rfl, h.1⟩
          | succ i => simpa using ih i h.2 (by simpa using hi)
    obtain ⟨x, h1, h2⟩ := hcont bs j hl (by omega)
    have hx : mem[a + j]? = some x := by
      obtain ⟨post, hp⟩ := hat
      rw [← List.getElem?_drop, ← hp, List.getElem?_append_left (by omega)]
      exact h1
    have := hb x hx
    omega
  have h2 := lebValue_lt bs
  have h3 : 128 ^ bs.length ≤ 128 ^ 9 := Nat.pow_le_pow_right (by omega) hle
  have h4 : (128 : Nat) ^ 9 = 2 ^ 63 := by decide
  omega

/-! ### leaves -/

theorem parseNum_inv {cfg : Cfg} {k n len a : Nat} {mem : Bytes} (h : parseNum cfg k mem a len = .ok n) :
    a + len ≤ mem.length + 1 ∧ n < 256 ^ k ∧ ∃ src, HasAt (mem ++ [0]) a src ∧ src.length = len ∧
      bigEndian k n = src ++ List.replicate (k - len) 0 ∧ (cfg.asserts = true → k - len = 0) := by
  unfold parseNum at h
  split at h
  · cases h
  rename_i has
  split at h
  · cases h
  rename_i hk
  obtain ⟨src, h1, h⟩ := bind_ok h
  obtain ⟨e1, e2, e3⟩ := readRange_inv h1
  have hl : (src ++ List.replicate (k - len) 0).length = k := by simp; omega
  have hrev : (src ++ List.replicate (k - len) (0 : UInt8)).reverse.length = k := by rw [List.length_reverse, hl]
  have himg : bigEndian k (ofLeBytes (src ++ List.replicate (k - len) 0).reverse) = src ++ List.replicate (k - len) 0 := by
    rw [bigEndian_eq]
    have := leBytes_ofLeBytes (src ++ List.replicate (k - len) 0).reverse
    rw [hrev] at this
    rw [this, List.reverse_reverse]
  have hlt : ofLeBytes (src ++ List.replicate (k - len) 0).reverse < 256 ^ k := by
    have := ofLeBytes_lt (src ++ List.replicate (k - len) 0).reverse
    rw [hrev] at this
    exact this
  have hv := flip_big k _ hlt cfg.little
  rw [himg] at hv
  simp only [pure_eq_ok, Except.ok.injEq] at h
  have hn : n = ofLeBytes (src ++ List.replicate (k - len) 0).reverse := by rw [← hv, ← h]
  refine ⟨e1, ?_, src, e2, e3, ?_⟩
  · rw [hn]; exact hlt
  · refine ⟨by rw [hn]; exact himg, fun hr => ?_⟩
    rw [hr] at has
    simp only [Bool.true_and, bne_iff_ne, ne_eq, Decidable.not_not] at has
    omega

theorem num32 {cfg : Cfg} {len a : Nat} {mem : Bytes} {p : Payload} {mk : BitVec 32 → Payload} {sc : BitVec 32 → Scalar} {dt : UInt8}
    {ref : Bool} (h : (do let n ← parseNum cfg 4 mem a len; pure (mk (BitVec.ofNat 32 n)) : Res Payload) = .ok p)
    (h1 : ∀ v, scalarOf ref dt (mk v) = some (sc v)) (h2 : ∀ v, (sc v).code = dt) (h3 : ∀ v, (sc v).payload = bigEndian 4 v.toNat)
    (h4 : ∀ v, (sc v).number? = some (4, v.toNat)) (h5 : ∀ v s, mk v ≠ .view s) :
    a + len ≤ mem.length + 1 ∧ ∃ src s, HasAt (mem ++ [0]) a src ∧ src.length = len ∧ scalarOf ref dt p = some s ∧ s.code = dt ∧
      FillsPayload cfg.asserts s src ∧ (∀ v, p ≠ .view v) := by
  obtain ⟨n, e1, e2⟩ := bind_ok h
  obtain ⟨g1, g2, src, g3, g4, g5⟩ := parseNum_inv e1
  simp only [pure_eq_ok, Except.ok.injEq] at e2
  subst e2
  refine ⟨g1, src, sc (BitVec.ofNat 32 n), g3, g4, h1 _, h2 _, ?_, h5 _⟩
  unfold FillsPayload
  rw [h4]
  have : (BitVec.ofNat 32 n).toNat = n := by
    have : (256 : Nat) ^ 4 = 2 ^ 32 := by decide
    simp; omega
  exact ⟨4 - len, by rw [h3, this]; exact g5.1, g5.2⟩

theorem num64 {cfg : Cfg} {len a : Nat} {mem : Bytes} {p : Payload} {mk : BitVec 64 → Payload} {sc : BitVec 64 → Scalar} {dt : UInt8}
    {ref : Bool} (h : (do let n ← parseNum cfg 8 mem a len; pure (mk (BitVec.ofNat 64 n)) : Res Payload) = .ok p)
    (h1 : ∀ v, scalarOf ref dt (mk v) = some (sc v)) (h2 : ∀ v, (sc v).code = dt) (h3 : ∀ v, (sc v).payload = bigEndian 8 v.toNat)
    (h4 : ∀ v, (sc v).number? = some (8, v.toNat)) (h5 : ∀ v s, mk v ≠ .view s) :
    a + len ≤ mem.length + 1 ∧ ∃ src s, HasAt (mem ++ [0]) a src ∧ src.length = len ∧ scalarOf ref dt p = some s ∧ s.code = dt ∧
      FillsPayload cfg.asserts s src ∧ (∀ v, p ≠ .view v) := by
  obtain ⟨n, e1, e2⟩ := bind_ok h
  obtain ⟨g1, g2, src, g3, g4, g5⟩ := parseNum_inv e1
  simp only [pure_eq_ok, Except.ok.injEq] at e2
  subst e2
  refine ⟨g1, src, sc (BitVec.ofNat 64 n), g3, g4, h1 _, h2 _, ?_, h5 _⟩
  unfold FillsPayload
  rw [h4]
  have : (BitVec.ofNat 64 n).toNat = n := by
    have : (256 : Nat) ^ 8 = 2 ^ 64 := by decide
    simp; omega
  exact ⟨8 - len, by rw [h3, this]; exact g5.1, g5.2⟩

theorem parseDataOwn_inv {cfg : Cfg} {dt : UInt8} {mem : Bytes} {a len : Nat} {p : Payload}
    (h : parseDataOwn cfg dt mem a len = .ok p) :
    a + len ≤ mem.length + 1 ∧ ∃ src s, HasAt (mem ++ [0]) a src ∧ src.length = len ∧ scalarOf false dt p = some s ∧ s.code = dt ∧
      FillsPayload cfg.asserts s src ∧ (∀ v, p ≠ .view v) := by
  unfold parseDataOwn at h
  split at h
  · rename_i hdt
    obtain ⟨b, e1, e2⟩ := bind_ok h
    obtain ⟨g1, g2, g3⟩ := readRange_inv e1
    simp only [pure_eq_ok, Except.ok.injEq] at e2
    subst e2
    rcases hdt with rfl | rfl
    · exact ⟨g1, b, .bytes b, g2, g3, rfl, rfl, rfl, by simp⟩
    · exact ⟨g1, b, .custom b, g2, g3, rfl, rfl, rfl, by simp⟩
  split at h
  · rename_i hdt
    subst hdt
    split at h
    · cases h
    obtain ⟨b, e1, e2⟩ := bind_ok h
    obtain ⟨g1, g2, g3⟩ := readRange_inv e1
    simp only [pure_eq_ok, Except.ok.injEq] at e2
    subst e2
    exact ⟨g1, b, .string b, g2, g3, rfl, rfl, rfl, by simp⟩
  split at h
  · rename_i hdt; subst hdt
    exact num32 (mk := .i32) (sc := .int32) h (fun _ => rfl) (fun _ => rfl) (fun _ => rfl) (fun _ => rfl) (by simp)
  split at h
  · rename_i hdt; subst hdt
    exact num32 (mk := .u32) (sc := .uint32) h (fun _ => rfl) (fun _ => rfl) (fun _ => rfl) (fun _ => rfl) (by simp)
  split at h
  · rename_i hdt; subst hdt
    exact num64 (mk := .i64) (sc := .int64) h (fun _ => rfl) (fun _ => rfl) (fun _ => rfl) (fun _ => rfl) (by simp)
  split at h
  · rename_i hdt; subst hdt
    exact num64 (mk := .u64) (sc := .uint64) h (fun _ => rfl) (fun _ => rfl) (fun _ => rfl) (fun _ => rfl) (by simp)
  split at h
  · rename_i hdt; subst hdt
    exact num32 (mk := .f32) (sc := .float) h (fun _ => rfl) (fun _ => rfl) (fun _ => rfl) (fun _ => rfl) (by simp)
  split at h
  · rename_i hdt; subst hdt
    exact num64 (mk := .f64) (sc := .double) h (fun _ => rfl) (fun _ => rfl) (fun _ => rfl) (fun _ => rfl) (by simp)
  · cases h

theorem slice_hasAt {mem : Bytes} {a n : Nat} (h : a + n ≤ mem.length) :
    HasAt (mem ++ [0]) a (slice mem a n) ∧ (slice mem a n).length = n := by
  constructor
  · unfold HasAt slice
    rw [List.drop_append_of_le_length (by omega)]
    exact (List.take_prefix _ _).trans (List.prefix_append _ _)
  · unfold slice; rw [List.length_take, List.length_drop]; omega

theorem inside_zero {mem : Bytes} {a n : Nat} (h : a + n ≤ mem.length) :
    Str.Inside (mem ++ [0]) ⟨slice mem a n, some (a, n)⟩ := by
  obtain ⟨h1, h2⟩ := slice_hasAt h
  refine ⟨a, by simp [h2], by simp [h2]; omega, ?_⟩
  simp only
  exact h1.slice

theorem parseDataView_inv {cfg : Cfg} {dt : UInt8} {mem : Bytes} {a len : Nat} {p : Payload}
    (h : parseDataView cfg dt mem a len = .ok p) (hr : a + len ≤ mem.length) :
    ∃ src s, HasAt (mem ++ [0]) a src ∧ src.length = len ∧ scalarOf true dt p = some s ∧ s.code = dt ∧
      FillsPayload cfg.asserts s src ∧ (∀ v, p = .view v → v.Inside (mem ++ [0])) := by
  unfold parseDataView at h
  have num : (a + len ≤ mem.length + 1 ∧ ∃ src s, HasAt (mem ++ [0]) a src ∧ src.length = len ∧ scalarOf true dt p = some s ∧
      s.code = dt ∧ FillsPayload cfg.asserts s src ∧ (∀ v, p ≠ .view v)) →
      ∃ src s, HasAt (mem ++ [0]) a src ∧ src.length = len ∧ scalarOf true dt p = some s ∧ s.code = dt ∧
      FillsPayload cfg.asserts s src ∧ (∀ v, p = .view v → v.Inside (mem ++ [0])) := by
    rintro ⟨_, src, s, h1, h2, h3, h4, h5, h6⟩
    exact ⟨src, s, h1, h2, h3, h4, h5, fun v hv => absurd hv (h6 v)⟩
  split at h
  · rename_i hdt
    simp only [pure_eq_ok, Except.ok.injEq] at h
    subst h
    obtain ⟨g1, g2⟩ := slice_hasAt hr
    have hin : ∀ v, Payload.view ⟨slice mem a len, some (a, len)⟩ = .view v → v.Inside (mem ++ [0]) := by
      intro v hv; cases hv; exact inside_zero hr
    rcases hdt with rfl | rfl
    · exact ⟨_, .bytes (slice mem a len), g1, g2, rfl, rfl, rfl, hin⟩
    · exact ⟨_, .string (slice mem a len), g1, g2, rfl, rfl, rfl, hin⟩
  split at h
  · rename_i hdt; subst hdt
    exact num (num32 (mk := .i32) (sc := .int32) h (fun _ => rfl) (fun _ => rfl) (fun _ => rfl) (fun _ => rfl) (by simp))
  split at h
  · rename_i hdt; subst hdt
    exact num (num32 (mk := .u32) (sc := .uint32) h (fun _ => rfl) (fun _ => rfl) (fun _ => rfl) (fun _ => rfl) (by simp))
  split at h
  · rename_i hdt; subst hdt
    exact num (num64 (mk := .i64) (sc := .int64) h (fun _ => rfl) (fun _ => rfl) (fun _ => rfl) (fun _ => rfl) (by simp))
  split at h
  · rename_i hdt; subst hdt
    exact num (num64 (mk := .u64) (sc := .uint64) h (fun _ => rfl) (fun _ => rfl) (fun _ => rfl) (fun _ => rfl) (by simp))
  split at h
  · rename_i hdt; subst hdt
    exact num (num32 (mk := .f32) (sc := .float) h (fun _ => rfl) (fun _ => rfl) (fun _ => rfl) (fun _ => rfl) (by simp))
  split at h
  · rename_i hdt; subst hdt
    exact num (num64 (mk := .f64) (sc := .double) h (fun _ => rfl) (fun _ => rfl) (fun _ => rfl) (fun _ => rfl) (by simp))
  · cases h

/-- The dictionary of a document as a function from ids to strings. -/
def dictFn (cfg : Cfg) (sm : Option StringMap) : Option (Nat → Option Bytes) :=
  sm.map (fun m id => match m.lookup cfg id with
    | .ok s => some s.bytes
    | .error _ => none)

/-- What is needed of the parse: the content is not longer than any object can be, the strings of the dictionary are views of
it, and a view parse meets only short number fields. -/
structure SCtx (cfg : Cfg) (mem : Bytes) (sm : Option StringMap) (ref : Bool) : Prop where
  size : mem.length < 2 ^ 63
  dict : ∀ m, sm = some m → ∀ id s, m.lookup cfg id = .ok s → s.Inside (mem ++ [0])
  short : ref = true → ShortNumbers mem

mutual
/-- What may be read at the end of a content may be read elsewhere. -/
theorem reads_last {strict : Bool} {dict : Option (Nat → Option Bytes)} : ∀ (last last' : Bool) (d : Doc) (bs : Bytes),
    (last' = true → last = true) → Reads strict last dict d bs → Reads strict last' dict d bs
  | last, last', .scalar s, bs, hl, h => by
    obtain ⟨rest, rfl, h⟩ := h
    refine ⟨rest, rfl, ?_⟩
    cases s with
    | string b => exact ⟨h.1, fun q => h.2 (hl q)⟩
    | _ => obtain ⟨l, p, h1, h2, h3, h4⟩ := h; exact ⟨l, p, h1, h2, h3, fun q => h4 (hl q)⟩
  | last, last', .array xs, bs, hl, h => by
    obtain ⟨c, i, rest, id, h1, h2, h3, h4⟩ := h
    exact ⟨c, i, rest, id, h1, h2, h3, readsL_last last last' xs rest hl h4⟩
  | last, last', .map es, bs, hl, h => by
    obtain ⟨c, i, rest, id, h1, h2, h3, h4⟩ := h
    exact ⟨c, i, rest, id, h1, h2, h3, readsE_last last last' es rest hl h4⟩
theorem readsL_last {strict : Bool} {dict : Option (Nat → Option Bytes)} : ∀ (last last' : Bool) (xs : List Doc) (bs : Bytes),
    (last' = true → last = true) → ReadsL strict last dict xs bs → ReadsL strict last' dict xs bs
  | last, last', [], bs, hl, h => h
  | last, last', x :: xs, bs, hl, h => by
    obtain ⟨sp, b, rest, h1, h2, h3⟩ := h
    refine ⟨sp, b, rest, h1, reads_last _ _ x b ?_ h2, readsL_last last last' xs rest hl h3⟩
    simp only [Bool.and_eq_true]
    exact fun q => ⟨hl q.1, q.2⟩
theorem readsE_last {strict : Bool} {dict : Option (Nat → Option Bytes)} : ∀ (last last' : Bool) (es : List (Bytes × Doc)) (bs : Bytes),
    (last' = true → last = true) → ReadsE strict last dict es bs → ReadsE strict last' dict es bs
  | last, last', [], bs, hl, h => h
  | last, last', (k, x) :: es, bs, hl, h => by
    obtain ⟨kb, sp, b, rest, h1, h0, h2, h3⟩ := h
    refine ⟨kb, sp, b, rest, h1, h0, reads_last _ _ x b ?_ h2, readsE_last last last' es rest hl h3⟩
    simp only [Bool.and_eq_true]
    exact fun q => ⟨hl q.1, q.2⟩
end

theorem leaf_inline {cfg : Cfg} {mem : Bytes} {sm : Option StringMap} {ref : Bool} {pool : PoolRef} {i : Nat} {dt : UInt8}
    {rd : UInt8 → Bytes → Nat → Nat → Res Payload} {o : Obj} {c : Cur} (hctx : SCtx cfg mem sm ref)
    (hsm : sm = none ∨ dt ≠ BRIDGE_STRING) (hi : mem[i]? = some dt)
    (hrd : ∀ a len p, a + len ≤ mem.length ∨ ref = false → rd dt mem a len = .ok p → a + len ≤ mem.length + 1 ∧
      ∃ src s, HasAt (mem ++ [0]) a src ∧ src.length = len ∧ scalarOf ref dt p = some s ∧ s.code = dt ∧
      FillsPayload cfg.asserts s src ∧ (∀ v, p = .view v → v.Inside (mem ++ [0])))
    (h : (do
      let (size, c) ← parseLength cfg (View.whole mem) ⟨i + 1, i + 1⟩
      let addr ← curAddr (View.whole mem) c
      let p ← rd dt (View.whole mem).mem addr size
      let c := skip c size
      checkOOR (View.whole mem) c
      let c := bump c size
      pure (Obj.data ref dt p, c) : Res (Obj × Cur)) = .ok (o, c)) :
    ∃ s bs, HasAt mem i bs ∧ i + bs.length ≤ mem.length ∧ c = ⟨i + bs.length, i + bs.length⟩ ∧ o.doc? = some (.scalar s) ∧
      ReadsScalar cfg.asserts (decide (i + bs.length = mem.length)) (dictFn cfg sm) s bs ∧ o.Built (mem ++ [0]) ref pool := by
  have hs := hctx.size
  obtain ⟨⟨size, c1⟩, e1, h⟩ := bind_ok h
  obtain ⟨l, f1, f2, f3, rfl⟩ := parseLength_inv hs e1
  obtain ⟨addr, e2, h⟩ := bind_ok h
  obtain ⟨rfl, hlt⟩ := curAddr_inv e2
  obtain ⟨p, e3, h⟩ := bind_ok h
  simp only at h
  obtain ⟨_, e4, h⟩ := bind_ok h
  simp only [pure_eq_ok, Except.ok.injEq, Prod.mk.injEq] at h
  obtain ⟨rfl, rfl⟩ := h
  -- the payload lies inside the content
  have hle : i + 1 + l.length + size ≤ mem.length := by
    have hno : i + 1 + l.length + size < 2 ^ 64 := by
      cases href : ref with
      | true => have := short_field (hctx.short href) f1 f2; omega
      | false => have := (hrd _ _ _ (.inr href) e3).1; omega
    rw [skip_eq hno] at e4
    exact checkOOR_inv e4
  obtain ⟨-, src, s, g1, g2, g3, g4, g5, g6⟩ := hrd _ _ _ (.inl hle) e3
  refine ⟨s, dt :: (l ++ src), ?_, ?_, ?_, by simp [Obj.doc?, g3], ?_, rfl, g6⟩
  · rw [HasAt.cons, HasAt.append]
    exact ⟨hi, f2, hasAt_zero g1 (by omega)⟩
  · simp; omega
  · rw [skip_eq (by omega), bump_eq (by omega)]
    simp
    omega
  · refine ⟨l ++ src, by rw [g4], ?_⟩
    have hne : decide (i + (dt :: (l ++ src)).length = mem.length) = true → src ≠ [] := by
      intro hd he
      subst he
      simp only [decide_eq_true_eq, List.length_cons, List.length_append, List.length_nil] at hd
      omega
    cases s with
    | string b =>
      have hb : b = src := g5
      rcases hsm with rfl | hns
      · simp only [dictFn, Option.map_none, ReadsStr]
        exact ⟨⟨l, by rw [hb, g2]; exact f1, by rw [hb]⟩, fun q _ => by rw [hb]; exact hne q⟩
      · exact absurd g4.symm hns
    | _ => exact ⟨l, src, by rw [g2]; exact f1, g5, rfl, hne⟩

theorem leaf_sound {cfg : Cfg} {mem : Bytes} {sm : Option StringMap} {ref : Bool} {pool : PoolRef} {i : Nat} {o : Obj} {c : Cur}
    (hctx : SCtx cfg mem sm ref)
    (h : (if ref then parseViewObj cfg (View.whole mem) sm ⟨i, i⟩ else parseDataObj cfg (View.whole mem) sm ⟨i, i⟩) = .ok (o, c)) :
    ∃ s bs, HasAt mem i bs ∧ i + bs.length ≤ mem.length ∧ c = ⟨i + bs.length, i + bs.length⟩ ∧ o.doc? = some (.scalar s) ∧
      ReadsScalar cfg.asserts (decide (i + bs.length = mem.length)) (dictFn cfg sm) s bs ∧ o.Built (mem ++ [0]) ref pool := by
  have hs := hctx.size
  cases ref with
  | true =>
    simp only [if_true] at h
    unfold parseViewObj at h
    obtain ⟨⟨dt, c1⟩, e1, h⟩ := bind_ok h
    obtain ⟨hi, hlt, rfl⟩ := parseDataType_inv hs e1
    obtain ⟨_, _, h⟩ := bind_ok h
    have hrd : ∀ a len p, a + len ≤ mem.length ∨ true = false → parseDataView cfg dt mem a len = .ok p → a + len ≤ mem.length + 1 ∧
        ∃ src s, HasAt (mem ++ [0]) a src ∧ src.length = len ∧ scalarOf true dt p = some s ∧ s.code = dt ∧
        FillsPayload cfg.asserts s src ∧ (∀ v, p = .view v → v.Inside (mem ++ [0])) := by
      intro a len p hr hp
      rcases hr with hr | hr
      · exact ⟨by omega, parseDataView_inv hp hr⟩
      · cases hr
    cases sm with
    | none => exact leaf_inline (rd := parseDataView cfg) hctx (.inl rfl) hi hrd h
    | some m =>
      by_cases hdt : dt = BRIDGE_STRING
      · subst hdt
        simp only [decide_true] at h
        obtain ⟨⟨n, c2⟩, e2, h⟩ := bind_ok h
        obtain ⟨l, f1, f2, f3, rfl⟩ := parseLength_inv hs e2
        obtain ⟨s, e3, h⟩ := bind_ok h
        simp only [pure_eq_ok, Except.ok.injEq, Prod.mk.injEq] at h
        obtain ⟨rfl, rfl⟩ := h
        refine ⟨.string s.bytes, 1 :: l, ?_, by simp; omega, by simp; omega, rfl, ?_, rfl, ?_⟩
        · rw [HasAt.cons]; exact ⟨hi, f2⟩
        · refine ⟨l, rfl, ⟨n, f1, ?_⟩, fun _ q => by simp [dictFn] at q⟩
          have : m.lookup cfg (n % 2 ^ 32) = .ok s := e3
          simp only [this]
        · intro v hv; cases hv; exact hctx.dict m rfl _ _ e3
      · simp only [hdt, decide_false] at h
        exact leaf_inline (rd := parseDataView cfg) hctx (.inr hdt) hi hrd h
  | false =>
    simp only [Bool.false_eq_true, if_false] at h
    unfold parseDataObj at h
    obtain ⟨⟨dt, c1⟩, e1, h⟩ := bind_ok h
    obtain ⟨hi, hlt, rfl⟩ := parseDataType_inv hs e1
    obtain ⟨_, _, h⟩ := bind_ok h
    have hrd : ∀ a len p, a + len ≤ mem.length ∨ false = false → parseDataOwn cfg dt mem a len = .ok p → a + len ≤ mem.length + 1 ∧
        ∃ src s, HasAt (mem ++ [0]) a src ∧ src.length = len ∧ scalarOf false dt p = some s ∧ s.code = dt ∧
        FillsPayload cfg.asserts s src ∧ (∀ v, p = .view v → v.Inside (mem ++ [0])) := by
      intro a len p _ hp
      obtain ⟨g0, src, s, g1, g2, g3, g4, g5, g6⟩ := parseDataOwn_inv hp
      exact ⟨g0, src, s, g1, g2, g3, g4, g5, fun v hv => absurd hv (g6 v)⟩
    cases sm with
    | none => exact leaf_inline (rd := parseDataOwn cfg) hctx (.inl rfl) hi hrd h
    | some m =>
      by_cases hdt : dt = BRIDGE_STRING
      · subst hdt
        simp only [decide_true] at h
        obtain ⟨⟨n, c2⟩, e2, h⟩ := bind_ok h
        obtain ⟨l, f1, f2, f3, rfl⟩ := parseLength_inv hs e2
        obtain ⟨s, e3, h⟩ := bind_ok h
        simp only [pure_eq_ok, Except.ok.injEq, Prod.mk.injEq] at h
        obtain ⟨rfl, rfl⟩ := h
        refine ⟨.string s.bytes, 1 :: l, ?_, by simp; omega, by simp; omega, rfl, ?_, rfl, by simp⟩
        · rw [HasAt.cons]; exact ⟨hi, f2⟩
        · refine ⟨l, rfl, ⟨n, f1, ?_⟩, fun _ q => by simp [dictFn] at q⟩
          have : m.lookup cfg (n % 2 ^ 32) = .ok s := e3
          simp only [this]
      · simp only [hdt, decide_false] at h
        exact leaf_inline (rd := parseDataOwn cfg) hctx (.inr hdt) hi hrd h

/-! ### keys and trees -/

theorem ownKey_inside {cfg : Cfg} {mem : Bytes} {ref : Bool} {k k' : Str} (hk : k.Inside (mem ++ [0]))
    (h : ownKey cfg (View.whole mem) ref k = .ok k') :
    k'.bytes = k.bytes ∧ (if ref then k'.Inside (mem ++ [0]) else k'.loc = none) := by
  unfold ownKey at h
  cases ref with
  | true =>
    simp only [if_true, Except.ok.injEq] at h
    subst h
    exact ⟨rfl, hk⟩
  | false =>
    simp only [Bool.false_eq_true, if_false] at h
    obtain ⟨a, h1, h2, h3⟩ := hk
    rw [h1] at h
    simp only at h
    split at h
    · cases h
    obtain ⟨b, e1, e2⟩ := bind_ok h
    obtain ⟨g1, g2, g3⟩ := readRange_inv e1
    simp only [pure_eq_ok, Except.ok.injEq] at e2
    subst e2
    have hsl := g2.slice
    rw [g3, whole_mem, h3] at hsl
    exact ⟨hsl.symm, by simp⟩

theorem key_sound {cfg : Cfg} {mem : Bytes} {sm : Option StringMap} {ref : Bool} {i : Nat} {k k' : Str} {c : Cur}
    (hctx : SCtx cfg mem sm ref) (h : parseKey cfg (View.whole mem) sm ⟨i, i⟩ = .ok (k, c))
    (ho : ownKey cfg (View.whole mem) ref k = .ok k') :
    ∃ bs, HasAt mem i bs ∧ i + bs.length ≤ mem.length ∧ c = ⟨i + bs.length, i + bs.length⟩ ∧
      ReadsStr (dictFn cfg sm) k'.bytes bs ∧ (if ref then k'.Inside (mem ++ [0]) else k'.loc = none) := by
  have hs := hctx.size
  unfold parseKey at h
  cases sm with
  | none =>
    simp only at h
    obtain ⟨⟨n, c1⟩, e1, h⟩ := bind_ok h
    obtain ⟨l, f1, f2, f3, rfl⟩ := parseLength_inv hs e1
    obtain ⟨addr, e2, h⟩ := bind_ok h
    obtain ⟨rfl, hlt⟩ := curAddr_inv e2
    simp only at h
    obtain ⟨_, e4, h⟩ := bind_ok h
    simp only [pure_eq_ok, Except.ok.injEq, Prod.mk.injEq] at h
    obtain ⟨rfl, rfl⟩ := h
    have hno : i + l.length + n < 2 ^ 64 := by
      cases href : ref with
      | true => have := short_field (hctx.short href) f1 f2; omega
      | false =>
        subst href
        unfold ownKey at ho
        simp only [Bool.false_eq_true, if_false] at ho
        split at ho
        · cases ho
        obtain ⟨b, g1, -⟩ := bind_ok ho
        have := (readRange_inv g1).1
        rw [whole_mem] at this
        omega
    rw [skip_eq hno] at e4 ⊢
    have hle := checkOOR_inv e4
    rw [bump_eq (by omega)]
    obtain ⟨g1, g2⟩ := ownKey_inside (inside_zero hle) ho
    obtain ⟨q1, q2⟩ := slice_hasAt hle
    refine ⟨l ++ slice mem (i + l.length) n, ?_, ?_, ?_, ?_, g2⟩
    · rw [HasAt.append]; exact ⟨f2, hasAt_zero q1 (by omega)⟩
    · rw [List.length_append, q2]; omega
    · rw [List.length_append, q2, Nat.add_assoc]
    · simp only [dictFn, Option.map_none, ReadsStr]
      exact ⟨l, by rw [g1]; simp only [View.whole, q2]; exact f1, by rw [g1]⟩
  | some m =>
    simp only at h
    obtain ⟨⟨n, c1⟩, e1, h⟩ := bind_ok h
    obtain ⟨l, f1, f2, f3, rfl⟩ := parseLength_inv hs e1
    obtain ⟨s, e3, h⟩ := bind_ok h
    simp only [pure_eq_ok, Except.ok.injEq, Prod.mk.injEq] at h
    obtain ⟨rfl, rfl⟩ := h
    obtain ⟨g1, g2⟩ := ownKey_inside (hctx.dict m rfl _ _ e3) ho
    refine ⟨l, f2, f3, rfl, ?_, g2⟩
    simp only [dictFn, Option.map_some, ReadsStr]
    refine ⟨n, f1, ?_⟩
    have : m.lookup cfg (n % 2 ^ 32) = .ok s := e3
    simp only [this, g1]

theorem parse_sound {cfg : Cfg} {mem : Bytes} {sm : Option StringMap} {ref : Bool} {pool : PoolRef} (hctx : SCtx cfg mem sm ref) :
    ∀ f : Nat,
    (∀ t i o c, i ≤ mem.length → parseVal cfg (View.whole mem) sm ref pool f t ⟨i, i⟩ = .ok (o, c) →
      ∃ d bs, HasAt mem i bs ∧ i + bs.length ≤ mem.length ∧ c = ⟨i + bs.length, i + bs.length⟩ ∧ docType d = t ∧
        o.doc? = some d.revMaps ∧ Reads cfg.asserts (decide (i + bs.length = mem.length)) (dictFn cfg sm) d bs ∧ o.Built (mem ++ [0]) ref pool) ∧
    (∀ n i items c, i ≤ mem.length → parseItems cfg (View.whole mem) sm ref pool f n ⟨i, i⟩ = .ok (items, c) →
      ∃ xs bs, HasAt mem i bs ∧ i + bs.length ≤ mem.length ∧ c = ⟨i + bs.length, i + bs.length⟩ ∧ xs.length = n ∧
        docs? items = some (revMapsL xs) ∧ ReadsL cfg.asserts (decide (i + bs.length = mem.length)) (dictFn cfg sm) xs bs ∧ builtL (mem ++ [0]) ref pool items) ∧
    (∀ n i acc items c dacc, i ≤ mem.length → parseKVs cfg (View.whole mem) sm ref pool f n ⟨i, i⟩ acc = .ok (items, c) →
      entries? acc = some dacc → builtE (mem ++ [0]) ref pool acc →
      ∃ es bs, HasAt mem i bs ∧ i + bs.length ≤ mem.length ∧ c = ⟨i + bs.length, i + bs.length⟩ ∧ es.length = n ∧
        entries? items = some (revMapsE es dacc) ∧ ReadsE cfg.asserts (decide (i + bs.length = mem.length)) (dictFn cfg sm) es bs ∧ builtE (mem ++ [0]) ref pool items) := by
  have hs := hctx.size
  intro f
  induction f with
  | zero =>
    refine ⟨?_, ?_, ?_⟩
    · intro t i o c _ h; simp [parseVal] at h
    · intro n i o c _ h; simp [parseItems] at h
    · intro n i acc items c dacc _ h; simp [parseKVs] at h
  | succ f ih =>
    obtain ⟨ihV, ihI, ihK⟩ := ih
    refine ⟨?_, ?_, ?_⟩
    · intro t i o c hi h
      cases t with
      | invalid => simp [parseVal] at h
      | data =>
        simp only [parseVal] at h
        obtain ⟨s, bs, h1, h2, h3, h4, h5, h6⟩ := leaf_sound (pool := pool) hctx h
        exact ⟨.scalar s, bs, h1, h2, h3, rfl, h4, h5, h6⟩
      | array =>
        simp only [parseVal] at h
        obtain ⟨⟨n, c1⟩, e1, h⟩ := bind_ok h
        obtain ⟨l, f1, f2, f3, rfl⟩ := parseLength_inv hs e1
        obtain ⟨⟨id, c2⟩, e2, h⟩ := bind_ok h
        obtain ⟨l', g1, g2, g3, rfl⟩ := parseLength_inv hs e2
        obtain ⟨⟨items, c3⟩, e3, h⟩ := bind_ok h
        obtain ⟨xs, bs, k1, k2, rfl, k4, k5, k6, k7⟩ := ihI _ _ _ _ g3 e3
        simp only [pure_eq_ok, Except.ok.injEq, Prod.mk.injEq] at h
        obtain ⟨rfl, rfl⟩ := h
        have hl := docs?_length k5
        rw [revMapsL_length] at hl
        refine ⟨.array xs, l ++ (l' ++ bs), ?_, ?_, ?_, rfl, ?_, ?_, rfl, k7⟩
        · rw [HasAt.append, HasAt.append]; exact ⟨f2, g2, k1⟩
        · simp; omega
        · simp; omega
        · simp only [Obj.doc?, k5, Doc.revMaps, Option.map_some]
          rw [if_pos (by omega)]
        · exact ⟨l, l', bs, id, rfl, by rw [k4]; exact f1, g1, by simpa [Nat.add_assoc] using k6⟩
      | map =>
        simp only [parseVal] at h
        obtain ⟨⟨n, c1⟩, e1, h⟩ := bind_ok h
        obtain ⟨l, f1, f2, f3, rfl⟩ := parseLength_inv hs e1
        obtain ⟨⟨id, c2⟩, e2, h⟩ := bind_ok h
        obtain ⟨l', g1, g2, g3, rfl⟩ := parseLength_inv hs e2
        obtain ⟨⟨items, c3⟩, e3, h⟩ := bind_ok h
        obtain ⟨es, bs, k1, k2, rfl, k4, k5, k6, k7⟩ := ihK _ _ _ _ _ [] g3 e3 rfl trivial
        simp only [pure_eq_ok, Except.ok.injEq, Prod.mk.injEq] at h
        obtain ⟨rfl, rfl⟩ := h
        have hl := entries?_length k5
        rw [revMapsE_length] at hl
        simp only [List.length_nil] at hl
        refine ⟨.map es, l ++ (l' ++ bs), ?_, ?_, ?_, rfl, ?_, ?_, rfl, rfl, k7⟩
        · rw [HasAt.append, HasAt.append]; exact ⟨f2, g2, k1⟩
        · simp; omega
        · simp; omega
        · simp only [Obj.doc?, k5, Doc.revMaps, Option.map_some]
          rw [if_pos (by omega)]
        · exact ⟨l, l', bs, id, rfl, by rw [k4]; exact f1, g1, by simpa [Nat.add_assoc] using k6⟩
    · intro n i items c hi h
      cases n with
      | zero =>
        simp only [parseItems, Except.ok.injEq, Prod.mk.injEq] at h
        obtain ⟨rfl, rfl⟩ := h
        exact ⟨[], [], HasAt.nil _ _, by simpa using hi, by simp, rfl, rfl, rfl, trivial⟩
      | succ n =>
        simp only [parseItems] at h
        obtain ⟨⟨t, c1⟩, e1, h⟩ := bind_ok h
        obtain ⟨b, f1, f2, f3, f4, rfl⟩ := parseObjectType_inv hs e1
        obtain ⟨⟨o, c2⟩, e2, h⟩ := bind_ok h
        obtain ⟨d, bs, g1, g2, rfl, g4, g5, g6, g7⟩ := ihV _ _ _ _ (by omega) e2
        obtain ⟨⟨rest, c3⟩, e3, h⟩ := bind_ok h
        obtain ⟨xs, bs', k1, k2, rfl, k4, k5, k6, k7⟩ := ihI _ _ _ _ g2 e3
        simp only [pure_eq_ok, Except.ok.injEq, Prod.mk.injEq] at h
        obtain ⟨rfl, rfl⟩ := h
        obtain ⟨sp, hsp⟩ := kindByte_of b d (by rw [f2, g4])
        refine ⟨d :: xs, b :: (bs ++ bs'), ?_, ?_, ?_, by simp [k4], ?_, ?_, g7, k7⟩
        · rw [HasAt.cons, HasAt.append]; exact ⟨f1, g1, k1⟩
        · simp; omega
        · simp; omega
        · simp [docs?, g5, k5, revMapsL]
        · refine ⟨sp, bs, bs', by rw [hsp], reads_last _ _ d bs ?_ g6, readsL_last _ _ xs bs' ?_ k6⟩
          · simp only [Bool.and_eq_true, decide_eq_true_eq, List.isEmpty_iff, List.length_cons, List.length_append]
            rintro ⟨q1, rfl⟩
            simp only [ReadsL] at k6
            subst k6
            simp only [List.length_nil] at q1
            omega
          · simp only [decide_eq_true_eq, List.length_cons, List.length_append]
            omega
    · intro n i acc items c dacc hi h hacc hbacc
      cases n with
      | zero =>
        simp only [parseKVs, Except.ok.injEq, Prod.mk.injEq] at h
        obtain ⟨rfl, rfl⟩ := h
        exact ⟨[], [], HasAt.nil _ _, by simpa using hi, by simp, rfl, hacc, rfl, hbacc⟩
      | succ n =>
        simp only [parseKVs] at h
        obtain ⟨⟨k, c0⟩, e0, h1⟩ := bind_ok h
        clear h
        obtain ⟨⟨t, c1⟩, e1, h2⟩ := bind_ok h1
        clear h1
        obtain ⟨⟨o, c2⟩, e2, h3⟩ := bind_ok h2
        clear h2
        obtain ⟨k', e3, h⟩ := bind_ok h3
        clear h3
        simp only at e1 e2 e3 h
        obtain ⟨kb, q1, q2, rfl, q4, q5⟩ := key_sound hctx e0 e3
        obtain ⟨b, f1, f2, f3, f4, rfl⟩ := parseObjectType_inv hs e1
        obtain ⟨d, bs, g1, g2, rfl, g4, g5, g6, g7⟩ := ihV _ _ _ _ (by omega) e2
        obtain ⟨es, bs', k1, k2, rfl, k4, k5, k6, k7⟩ := ihK _ _ _ _ _ ((k'.bytes, d.revMaps) :: dacc) g2 h
          (by simp [entries?, g5, hacc]) ⟨q5, g7, hbacc⟩
        obtain ⟨sp, hsp⟩ := kindByte_of b d (by rw [f2, g4])
        refine ⟨(k'.bytes, d) :: es, kb ++ (b :: (bs ++ bs')), ?_, ?_, ?_, by simp [k4], k5, ?_, k7⟩
        · rw [HasAt.append, HasAt.cons, HasAt.append]; exact ⟨q1, f1, g1, k1⟩
        · simp; omega
        · simp; omega
        · refine ⟨kb, sp, bs, bs', by rw [hsp], q4, reads_last _ _ d bs ?_ g6, readsE_last _ _ es bs' ?_ k6⟩
          · simp only [Bool.and_eq_true, decide_eq_true_eq, List.isEmpty_iff, List.length_cons, List.length_append]
            rintro ⟨q1, rfl⟩
            simp only [ReadsE] at k6
            subst k6
            simp only [List.length_nil] at q1
            omega
          · simp only [decide_eq_true_eq, List.length_cons, List.length_append]
            omega

end Bridge
