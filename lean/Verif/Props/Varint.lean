import Verif.Proof.VarintAny
import Verif.Proof.Num
import Verif.Proof.ParseRT
/-
C01 – C06: variable-length integers and the byte order of numbers.
-/
set_option autoImplicit false
namespace Bridge
open Spec

/-! ### C01 -/

/-- C01. `varint_encode(n, buf, len)` with a buffer of at least ten bytes writes some bytes, and `varint_decode` on a
buffer that holds those bytes anywhere, on any build, returns `n` and exactly their number.
`len` is the `int` argument of `varint_decode`, which only the assertion uses. -/
theorem C01_varint_roundtrip (w r : Cfg) (hw : w.charSigned = true) (n buf : Nat) (hn : n < 2 ^ 64) (hbuf : 10 ≤ buf)
    (pre post : Bytes) (len : Int) :
    ∃ bytes, varintEncode w n buf = .ok bytes ∧
      ((r.asserts = true → (bytes.length : Int) ≤ len) →
        varintDecode r (pre ++ bytes ++ post) pre.length len = .ok (n, bytes.length)) := by
  have h10 := leb128_length_le10 hn
  exact ⟨leb128 n, varintEncode_eq hw n buf hn (by omega), fun h => varintDecode_eq hn (HasAt.intro pre _ post) h⟩

/-- C01, through the length writer and reader of the library: `seriLength` appends to any output, and `parseLength`
reads the value back and moves the cursor by exactly the bytes written. -/
theorem C01_length_roundtrip (w r : Cfg) (hw : w.charSigned = true) (n : Nat) (hn : n < 2 ^ 32) (pre post : Bytes) :
    ∃ bytes, seriLength w n pre = .ok (pre ++ bytes) ∧
      (SizeOk r (pre ++ bytes ++ post).length →
        parseLength r (View.whole (pre ++ bytes ++ post)) ⟨pre.length, pre.length⟩ =
          .ok (n, ⟨pre.length + bytes.length, pre.length + bytes.length⟩) ∧
        parseLengthAt r (pre ++ bytes ++ post) pre.length = .ok (n, bytes.length)) := by
  refine ⟨lenB n, seriLength_eq hw n pre, fun hs => ?_⟩
  have hat := HasAt.intro pre (lenB n) post
  refine ⟨?_, ?_⟩
  · exact parseLength_lenB (v := View.whole (pre ++ lenB n ++ post)) (i := pre.length) hs hn (by simpa [View.whole] using hat)
      (by simp [View.whole])
  · have := parseLengthAt_eq (cfg := r) hs (n := toU32 n) (by have := toU32_lt n; omega) hat (by simp)
    rw [this, toU32_of_lt hn]; simp [lenB, toU32_of_lt hn]

example : varintEncode Cfg.x86 300 128 = .ok [172, 2] ∧
    varintDecode Cfg.x86 [9, 9, 172, 2, 255] 2 3 = .ok (300, 2) := by decide +kernel

/-! ### C02 -/

/-- C02. The encoding of `n` is a LEB128 number for `n` (every byte but the last has its top bit set), its length is the one
the table in `varint_encoding_length` gives, at most ten bytes (five for a 32-bit value), and no other LEB128 sequence for `n`
is shorter. -/
theorem C02_varint_minimal (w : Cfg) (hw : w.charSigned = true) (n buf : Nat) (hn : n < 2 ^ 64) (hbuf : 10 ≤ buf) :
    ∃ bytes, varintEncode w n buf = .ok bytes ∧ IsLeb bytes ∧ lebValue bytes = n ∧
      bytes.length = varintEncodingLength n ∧ 1 ≤ bytes.length ∧ bytes.length ≤ 10 ∧ (n < 2 ^ 32 → bytes.length ≤ 5) ∧
      ∀ other, IsLeb other → lebValue other = n → bytes.length ≤ other.length := by
  have h10 := leb128_length_le10 hn
  refine ⟨leb128 n, varintEncode_eq hw n buf hn (by omega), leb128_isLeb n, lebValue_leb128 n, leb128_length_eq hn,
    leb128_length_pos n, h10, leb128_length_le5, ?_⟩
  intro other h1 h2
  refine leb128_minimal ?_ h2
  cases other with
  | nil => simp [IsLeb] at h1
  | cons _ _ => simp

example : varintEncodingLength 16384 = 3 ∧ varintEncode Cfg.x86 16384 128 = .ok [128, 128, 1] := by decide +kernel

/-! ### C03 -/

/-- Write a list of lengths one after another. -/
def seriLengths (cfg : Cfg) (ns : List Nat) (outer : Bytes) : Res Bytes := ns.foldlM (fun o n => seriLength cfg n o) outer

/-- Read `k` lengths one after another. -/
def parseLengths (cfg : Cfg) (v : View) : (k : Nat) → Cur → Res (List Nat × Cur)
  | 0, c => .ok ([], c)
  | k + 1, c => do
    let (n, c) ← parseLength cfg v c
    let (ns, c) ← parseLengths cfg v k c
    pure (n :: ns, c)

theorem seriLengths_eq {cfg : Cfg} (hc : cfg.charSigned = true) (ns : List Nat) (outer : Bytes) :
    seriLengths cfg ns outer = .ok (outer ++ (ns.map lenB).flatten) := by
  unfold seriLengths
  induction ns generalizing outer with
  | nil => simp [pure_eq_ok]
  | cons n ns ih =>
    rw [List.foldlM_cons, seriLength_eq hc]
    simp only [ok_bind]
    rw [ih]; simp

theorem parseLengths_eq {cfg : Cfg} {v : View} (hv : SizeOk cfg v.len) : ∀ (ns : List Nat) (i : Nat),
    (∀ n ∈ ns, n < 2 ^ 32) → HasAt v.mem (v.base + i) (ns.map lenB).flatten → i + (ns.map lenB).flatten.length ≤ v.len →
    parseLengths cfg v ns.length ⟨i, i⟩ =
      .ok (ns, ⟨i + (ns.map lenB).flatten.length, i + (ns.map lenB).flatten.length⟩) := by
  intro ns
  induction ns with
  | nil => intro i _ _ _; simp [parseLengths]
  | cons n ns ih =>
    intro i hb hat hin
    simp only [List.map_cons, List.flatten_cons, List.length_append] at hat hin
    rw [HasAt.append] at hat
    simp only [List.length_cons, parseLengths]
    rw [parseLength_lenB hv (hb n (by simp)) hat.1 (by omega)]
    simp only [ok_bind]
    rw [ih _ (fun m hm => hb m (List.mem_cons_of_mem _ hm)) (by rw [← Nat.add_assoc]; exact hat.2) (by omega)]
    simp only [ok_bind, pure_eq_ok, List.map_cons, List.flatten_cons, List.length_append, Nat.add_assoc]

/-- C03. A list of 32-bit lengths written one after another is read back exactly, wherever it lies in a buffer, and the
reader stops exactly behind it. -/
theorem C03_stream_roundtrip (w r : Cfg) (hw : w.charSigned = true) (ns : List Nat) (hns : ∀ n ∈ ns, n < 2 ^ 32)
    (pre post : Bytes) :
    ∃ bytes, seriLengths w ns pre = .ok (pre ++ bytes) ∧
      (SizeOk r (pre ++ bytes ++ post).length →
        parseLengths r (View.whole (pre ++ bytes ++ post)) ns.length ⟨pre.length, pre.length⟩ =
          .ok (ns, ⟨pre.length + bytes.length, pre.length + bytes.length⟩)) := by
  refine ⟨(ns.map lenB).flatten, seriLengths_eq hw ns pre, fun hs => ?_⟩
  have hat := HasAt.intro pre (ns.map lenB).flatten post
  have := parseLengths_eq (v := View.whole (pre ++ (ns.map lenB).flatten ++ post)) hs ns pre.length hns
    (by simpa [View.whole] using hat) (by simp [View.whole])
  exact this

/-- C03. Two lists of the same number of 32-bit lengths that give the same bytes are equal. -/
theorem C03_stream_injective (w w' : Cfg) (hw : w.charSigned = true) (hw' : w'.charSigned = true) (as bs : List Nat)
    (ha : ∀ n ∈ as, n < 2 ^ 32) (hb : ∀ n ∈ bs, n < 2 ^ 32) (hl : as.length = bs.length) (outer : Bytes)
    (h : seriLengths w as outer = seriLengths w' bs outer) : as = bs := by
  rw [seriLengths_eq hw, seriLengths_eq hw'] at h
  simp only [Except.ok.injEq, List.append_cancel_left_eq] at h
  have e : ∀ l : List Nat, (∀ n ∈ l, n < 2 ^ 32) → l.map lenB = l.map leb128 := by
    intro l hl
    apply List.map_congr_left
    intro n hn
    unfold lenB; rw [toU32_of_lt (hl n hn)]
  rw [e as ha, e bs hb] at h
  exact leb128_stream_inj as bs [] [] hl (by simpa using h)

example : seriLengths Cfg.x86 [300, 0, 5] [7] = .ok [7, 172, 2, 0, 5] ∧
    parseLengths Cfg.x86 (View.whole [7, 172, 2, 0, 5, 9]) 3 ⟨1, 1⟩ = .ok ([300, 0, 5], ⟨5, 5⟩) := by decide +kernel

/-! ### C04 -/

theorem msball_unsigned {cfg : Cfg} (hc : cfg.charSigned = false) {n : Nat} (h : n / 128 % 2 = 0) :
    n &&& msball cfg = 0 := by
  simp only [msball, hc, Bool.false_eq_true, if_false]
  apply Nat.eq_of_testBit_eq
  intro i
  rw [Nat.testBit_and, Nat.zero_testBit]
  have e : (0x80 : Nat) = 2 ^ 7 := by decide
  rw [e, Nat.testBit_two_pow]
  by_cases hi : 7 = i
  · subst hi
    have : n.testBit 7 = false := by
      rw [Nat.testBit_eq_decide_div_mod_eq]
      simp; exact h
    simp [this]
  · simp [hi]

/-- C04. Where plain `char` is unsigned, every value whose bit 7 is clear is written as its low byte alone; from 256 on
the value read back is therefore wrong. -/
theorem C04_unsigned_char_truncates (w r : Cfg) (hw : w.charSigned = false) (n buf : Nat) (hn : 256 ≤ n)
    (hbit : n / 128 % 2 = 0) (hbuf : 0 < buf) (pre post : Bytes) (len : Int) :
    varintEncode w n buf = .ok [UInt8.ofNat n] ∧
      varintDecode r (pre ++ [UInt8.ofNat n] ++ post) pre.length len = .ok (n % 256, 1) ∧ n % 256 ≠ n := by
  obtain ⟨k, rfl⟩ : ∃ k, buf = k + 1 := ⟨buf - 1, by omega⟩
  refine ⟨?_, ?_, by omega⟩
  · rw [varintEncode, varintEncodeGo, if_neg (by rw [msball_unsigned hw hbit]; simp)]
    rfl
  · have hlt : n % 256 < 128 := by omega
    have hb : UInt8.ofNat n = UInt8.ofNat (n % 256) := by
      apply UInt8.toNat_inj.mp; simp
    have hl : leb128 (n % 256) = [UInt8.ofNat n] := by rw [leb128_small hlt, hb]
    have h64 : n % 256 < 2 ^ 64 := by omega
    rw [varintDecode, varintDecodeGo]
    have hat := HasAt.intro pre [UInt8.ofNat n] post
    rw [HasAt.cons] at hat
    rw [Nat.add_zero, readByte_eq hat.1]
    simp only [ok_bind]
    have hs := byte_small hlt
    rw [← hb] at hs
    rw [if_neg hs.2, hs.1]
    simp only [Nat.mul_zero, Nat.shiftLeft_zero, Nat.zero_add, pure_eq_ok, Except.ok.injEq, Prod.mk.injEq, and_true]
    omega

/-- C04. The writer is correct for all 64-bit values exactly where plain `char` is signed. -/
theorem C04_correct_iff_signed (w : Cfg) :
    (∀ n, n < 2 ^ 64 → varintEncode w n 128 = .ok (leb128 n)) ↔ w.charSigned = true := by
  constructor
  · intro h
    cases hw : w.charSigned with
    | true => rfl
    | false =>
      have h1 := (C04_unsigned_char_truncates w w hw 256 128 (by decide) (by decide) (by decide) [] [] 0).1
      rw [h 256 (by decide)] at h1
      simp only [Except.ok.injEq] at h1
      have := congrArg List.length h1
      rw [leb128_length_eq (by decide)] at this
      simp [varintEncodingLength] at this
  · intro hw n hn
    have := leb128_length_le10 hn
    exact varintEncode_eq hw n 128 hn (by omega)

example : varintEncode { Cfg.x86 with charSigned := false } 1000000000000 128 = .ok [0] ∧ 1000000000000 / 128 % 2 = 0 := by
  decide +kernel

/-! ### C05 -/

/-- C05. Reading a length at any position of any buffer: either a complete LEB128 number that lies inside the buffer is
returned (modulo 2^64) and the cursor is moved over exactly its bytes, or an exception is raised, or (assertion builds) the
process aborts; undefined behaviour is reached only if ten consecutive bytes with the top bit set start there. -/
theorem C05_parseLength_any (r : Cfg) (content : Bytes) (hc : content.length < 2 ^ 63) (i : Nat) :
    (∃ bytes, parseLength r (View.whole content) ⟨i, i⟩ =
        .ok (lebValue bytes % 2 ^ 64, ⟨i + bytes.length, i + bytes.length⟩) ∧ IsLeb bytes ∧ bytes.length ≤ 10 ∧
        HasAt content i bytes ∧ i + bytes.length ≤ content.length) ∨
    (∃ e, parseLength r (View.whole content) ⟨i, i⟩ = .error (.exn e) ∧ e.isRuntimeError = true) ∨
    (parseLength r (View.whole content) ⟨i, i⟩ = .error .abort ∧ r.asserts = true) ∨
    (parseLength r (View.whole content) ⟨i, i⟩ = .error (.ub .shiftTooWide) ∧
        ∀ j, j < 10 → ∃ b, content[i + j]? = some b ∧ 128 ≤ b.toNat) := by
  unfold parseLength
  by_cases hlt : i < content.length
  · rw [checkEmpty_ok (by simpa [View.whole] using hc) (by simpa [View.whole] using hlt)]
    simp only [ok_bind]
    rw [curAddr_ok (by simpa [View.whole] using hlt)]
    simp only [ok_bind, View.whole, Nat.zero_add]
    rcases varintDecode_any r content i (toI32 (remain (View.whole content) ⟨i, i⟩)) (by omega) with
      ⟨bs, e1, e2, e3, e4⟩ | ⟨e1, e2⟩ | ⟨e1, e2⟩
    · simp only [View.whole] at e1
      rw [e1]
      simp only [ok_bind, skip, bump]
      rw [addW_of_lt (by omega)]
      by_cases hin : i + bs.length ≤ content.length
      · left
        refine ⟨bs, ?_, e2, e3, ?_, hin⟩
        · rw [checkOOR_ok (by simpa using hin)]; simp only [ok_bind, pure_eq_ok]
        · unfold HasAt at e4 ⊢
          rw [List.drop_append_of_le_length (by omega)] at e4
          exact List.prefix_of_prefix_length_le e4 (List.prefix_append _ _) (by simp; omega)
      · right; left
        refine ⟨.innerOutOfRange, ?_, rfl⟩
        rw [checkOOR, if_pos (by simp; omega)]; rfl
    · simp only [View.whole] at e1
      rw [e1]; exact .inr (.inr (.inl ⟨rfl, e2⟩))
    · simp only [View.whole] at e1
      rw [e1]; exact .inr (.inr (.inr ⟨rfl, e2⟩))
  · right; left
    by_cases hr : remain (View.whole content) ⟨i, i⟩ ≤ 0
    · refine ⟨.innerEmpty, ?_, rfl⟩
      rw [checkEmpty, if_pos hr]; rfl
    · refine ⟨.innerCurAddr, ?_, rfl⟩
      rw [checkEmpty, if_neg hr]
      simp only [ok_bind]
      rw [curAddr, if_pos (by simp [View.whole]; omega)]; rfl

/-- C05 for the reader of table sizes, `parseLength(content, offset, skip)`. -/
theorem C05_parseLengthAt_any (r : Cfg) (content : Bytes) (hc : content.length < 2 ^ 63) (i : Nat) :
    (∃ bytes, parseLengthAt r content i = .ok (lebValue bytes % 2 ^ 64, bytes.length) ∧ IsLeb bytes ∧ bytes.length ≤ 10 ∧
        HasAt content i bytes ∧ i + bytes.length ≤ content.length) ∨
    (∃ e, parseLengthAt r content i = .error (.exn e) ∧ e.isRuntimeError = true) ∨
    (parseLengthAt r content i = .error .abort ∧ r.asserts = true) ∨
    (parseLengthAt r content i = .error (.ub .shiftTooWide) ∧
        ∀ j, j < 10 → ∃ b, content[i + j]? = some b ∧ 128 ≤ b.toNat) := by
  unfold parseLengthAt
  by_cases hlt : i < content.length
  · rw [if_neg (by omega)]
    rcases varintDecode_any r content i (toI32 (subS content.length i)) (by omega) with
      ⟨bs, e1, e2, e3, e4⟩ | ⟨e1, e2⟩ | ⟨e1, e2⟩
    · rw [e1]
      simp only [ok_bind]
      rw [addW_of_lt (by omega)]
      by_cases hin : i + bs.length ≤ content.length
      · left
        refine ⟨bs, ?_, e2, e3, ?_, hin⟩
        · rw [if_neg (by omega)]; simp only [pure_eq_ok]
        · unfold HasAt at e4 ⊢
          rw [List.drop_append_of_le_length (by omega)] at e4
          exact List.prefix_of_prefix_length_le e4 (List.prefix_append _ _) (by simp; omega)
      · right; left
        exact ⟨.lengthOutOfRange, by rw [if_pos (by omega)], rfl⟩
    · rw [e1]; exact .inr (.inr (.inl ⟨rfl, e2⟩))
    · rw [e1]; exact .inr (.inr (.inr ⟨rfl, e2⟩))
  · right; left
    exact ⟨.lengthInnerEmpty, by rw [if_pos (by omega)], rfl⟩

/-- C05: the undefined case is real. -/
theorem C05_overlong_is_ub (r : Cfg) (ha : r.asserts = false) :
    parseLength r (View.whole (List.replicate 11 128)) ⟨0, 0⟩ = .error (.ub .shiftTooWide) := by
  simp [parseLength, View.whole, checkEmpty, remain, subS, curAddr, varintDecode, varintDecodeGo, readByte, ha,
    ok_bind, error_bind, List.replicate]

example : parseLength { Cfg.x86 with asserts := false } (View.whole [1, 172, 172]) ⟨1, 1⟩ = .error (.exn .innerOutOfRange) ∧
    parseLength Cfg.x86 (View.whole [1, 172, 172]) ⟨1, 1⟩ = .error .abort ∧
    parseLength Cfg.x86 (View.whole [1, 172, 2]) ⟨1, 1⟩ = .ok (300, ⟨3, 3⟩) := by decide +kernel

/-! ### C06 -/

/-- C06. A number of `k` bytes is written as its `k` bytes most significant first on every host. -/
theorem C06_big_endian_write (w : Cfg) (k n : Nat) : numWire w k n = bigEndian k n := numWire_eq w k n

/-- C06. Every numeric value, owning or view: the writer on a host of any endianness appends the length byte and the
big-endian bytes; a reader on a host of any endianness (owning or view) gets the same value back. -/
theorem C06_numbers_portable (w r : Cfg) (hw : w.charSigned = true) (ref : Bool) (dt : UInt8) (p : Payload) (s : Scalar)
    (hs : scalarOf ref dt p = some s) (k n : Nat) (hk : s.number? = some (k, n)) (outer pre post : Bytes) :
    dt = scalarCode s ∧
    (if ref then seriDataView w dt p outer else seriDataOwn w dt p outer) =
      .ok (outer ++ UInt8.ofNat k :: bigEndian k n) ∧
    parseDataOwn r dt (pre ++ bigEndian k n ++ post) pre.length k = .ok p ∧
    parseDataView r dt (pre ++ bigEndian k n ++ post) pre.length k = .ok p := by
  have hat := HasAt.intro pre (bigEndian k n) post
  have hle : pre.length ≤ (pre ++ bigEndian k n ++ post).length := by simp
  generalize pre ++ bigEndian k n ++ post = mem at hat hle ⊢
  have l4 : lenB 4 = [4] := by simp [lenB, toU32, leb128]
  have l8 : lenB 8 = [8] := by simp [lenB, toU32, leb128]
  cases p with
  | none => simp [scalarOf] at hs
  | vec b =>
    exfalso
    simp only [scalarOf] at hs
    split at hs
    · simp at hs
    · split at hs
      · simp only [Option.some.injEq] at hs; subst hs; simp [Scalar.number?] at hk
      · split at hs
        · simp only [Option.some.injEq] at hs; subst hs; simp [Scalar.number?] at hk
        · simp at hs
  | str b =>
    simp only [scalarOf] at hs
    exfalso
    split at hs
    · simp only [Option.some.injEq] at hs; subst hs; simp [Scalar.number?] at hk
    · simp at hs
  | view b =>
    exfalso
    simp only [scalarOf] at hs
    split at hs
    · simp at hs
    · split at hs
      · simp only [Option.some.injEq] at hs; subst hs; simp [Scalar.number?] at hk
      · split at hs
        · simp only [Option.some.injEq] at hs; subst hs; simp [Scalar.number?] at hk
        · simp at hs
  | i32 v =>
    simp only [scalarOf] at hs
    split at hs <;> simp at hs
    rename_i hdt
    subst hs hdt
    simp only [Scalar.number?, Option.some.injEq, Prod.mk.injEq] at hk
    obtain ⟨rfl, rfl⟩ := hk
    have hp := parseNum_eq (cfg := r) (k := 4) (n := v.toNat) (by have := v.isLt; omega) hat hle
    refine ⟨rfl, ?_, ?_, ?_⟩
    · cases ref <;> simp [seriDataView, seriDataOwn, seriNum_eq hw, bigEndian_length, l4, BRIDGE_BYTES, BRIDGE_CUSTOM, BRIDGE_STRING, BRIDGE_INT32]
    · simp [parseDataOwn, hp, ok_bind, pure_eq_ok, BRIDGE_BYTES, BRIDGE_CUSTOM, BRIDGE_STRING, BRIDGE_INT32]
    · simp [parseDataView, hp, ok_bind, pure_eq_ok, BRIDGE_BYTES, BRIDGE_CUSTOM, BRIDGE_STRING, BRIDGE_INT32]
  | u32 v =>
    simp only [scalarOf] at hs
    split at hs <;> simp at hs
    rename_i hdt
    subst hs hdt
    simp only [Scalar.number?, Option.some.injEq, Prod.mk.injEq] at hk
    obtain ⟨rfl, rfl⟩ := hk
    have hp := parseNum_eq (cfg := r) (k := 4) (n := v.toNat) (by have := v.isLt; omega) hat hle
    refine ⟨rfl, ?_, ?_, ?_⟩
    · cases ref <;> simp [seriDataView, seriDataOwn, seriNum_eq hw, bigEndian_length, l4, BRIDGE_BYTES, BRIDGE_CUSTOM, BRIDGE_STRING, BRIDGE_INT32, BRIDGE_UINT32]
    · simp [parseDataOwn, hp, ok_bind, pure_eq_ok, BRIDGE_BYTES, BRIDGE_CUSTOM, BRIDGE_STRING, BRIDGE_INT32, BRIDGE_UINT32]
    · simp [parseDataView, hp, ok_bind, pure_eq_ok, BRIDGE_BYTES, BRIDGE_CUSTOM, BRIDGE_STRING, BRIDGE_INT32, BRIDGE_UINT32]
  | i64 v =>
    simp only [scalarOf] at hs
    split at hs <;> simp at hs
    rename_i hdt
    subst hs hdt
    simp only [Scalar.number?, Option.some.injEq, Prod.mk.injEq] at hk
    obtain ⟨rfl, rfl⟩ := hk
    have hp := parseNum_eq (cfg := r) (k := 8) (n := v.toNat) (by have := v.isLt; omega) hat hle
    refine ⟨rfl, ?_, ?_, ?_⟩
    · cases ref <;> simp [seriDataView, seriDataOwn, seriNum_eq hw, bigEndian_length, l8, BRIDGE_BYTES, BRIDGE_CUSTOM, BRIDGE_STRING, BRIDGE_INT32, BRIDGE_UINT32, BRIDGE_INT64]
    · simp [parseDataOwn, hp, ok_bind, pure_eq_ok, BRIDGE_BYTES, BRIDGE_CUSTOM, BRIDGE_STRING, BRIDGE_INT32, BRIDGE_UINT32, BRIDGE_INT64]
    · simp [parseDataView, hp, ok_bind, pure_eq_ok, BRIDGE_BYTES, BRIDGE_CUSTOM, BRIDGE_STRING, BRIDGE_INT32, BRIDGE_UINT32, BRIDGE_INT64]
  | u64 v =>
    simp only [scalarOf] at hs
    split at hs <;> simp at hs
    rename_i hdt
    subst hs hdt
    simp only [Scalar.number?, Option.some.injEq, Prod.mk.injEq] at hk
    obtain ⟨rfl, rfl⟩ := hk
    have hp := parseNum_eq (cfg := r) (k := 8) (n := v.toNat) (by have := v.isLt; omega) hat hle
    refine ⟨rfl, ?_, ?_, ?_⟩
    · cases ref <;> simp [seriDataView, seriDataOwn, seriNum_eq hw, bigEndian_length, l8, BRIDGE_BYTES, BRIDGE_CUSTOM, BRIDGE_STRING, BRIDGE_INT32, BRIDGE_UINT32, BRIDGE_INT64, BRIDGE_UINT64]
    · simp [parseDataOwn, hp, ok_bind, pure_eq_ok, BRIDGE_BYTES, BRIDGE_CUSTOM, BRIDGE_STRING, BRIDGE_INT32, BRIDGE_UINT32, BRIDGE_INT64, BRIDGE_UINT64]
    · simp [parseDataView, hp, ok_bind, pure_eq_ok, BRIDGE_BYTES, BRIDGE_CUSTOM, BRIDGE_STRING, BRIDGE_INT32, BRIDGE_UINT32, BRIDGE_INT64, BRIDGE_UINT64]
  | f32 v =>
    simp only [scalarOf] at hs
    split at hs <;> simp at hs
    rename_i hdt
    subst hs hdt
    simp only [Scalar.number?, Option.some.injEq, Prod.mk.injEq] at hk
    obtain ⟨rfl, rfl⟩ := hk
    have hp := parseNum_eq (cfg := r) (k := 4) (n := v.toNat) (by have := v.isLt; omega) hat hle
    refine ⟨rfl, ?_, ?_, ?_⟩
    · cases ref <;> simp [seriDataView, seriDataOwn, seriNum_eq hw, bigEndian_length, l4, BRIDGE_BYTES, BRIDGE_CUSTOM, BRIDGE_STRING, BRIDGE_INT32, BRIDGE_UINT32, BRIDGE_INT64, BRIDGE_UINT64, BRIDGE_FLOAT]
    · simp [parseDataOwn, hp, ok_bind, pure_eq_ok, BRIDGE_BYTES, BRIDGE_CUSTOM, BRIDGE_STRING, BRIDGE_INT32, BRIDGE_UINT32, BRIDGE_INT64, BRIDGE_UINT64, BRIDGE_FLOAT]
    · simp [parseDataView, hp, ok_bind, pure_eq_ok, BRIDGE_BYTES, BRIDGE_CUSTOM, BRIDGE_STRING, BRIDGE_INT32, BRIDGE_UINT32, BRIDGE_INT64, BRIDGE_UINT64, BRIDGE_FLOAT]
  | f64 v =>
    simp only [scalarOf] at hs
    split at hs <;> simp at hs
    rename_i hdt
    subst hs hdt
    simp only [Scalar.number?, Option.some.injEq, Prod.mk.injEq] at hk
    obtain ⟨rfl, rfl⟩ := hk
    have hp := parseNum_eq (cfg := r) (k := 8) (n := v.toNat) (by have := v.isLt; omega) hat hle
    refine ⟨rfl, ?_, ?_, ?_⟩
    · cases ref <;> simp [seriDataView, seriDataOwn, seriNum_eq hw, bigEndian_length, l8, BRIDGE_BYTES, BRIDGE_CUSTOM, BRIDGE_STRING, BRIDGE_INT32, BRIDGE_UINT32, BRIDGE_INT64, BRIDGE_UINT64, BRIDGE_FLOAT, BRIDGE_DOUBLE]
    · simp [parseDataOwn, hp, ok_bind, pure_eq_ok, BRIDGE_BYTES, BRIDGE_CUSTOM, BRIDGE_STRING, BRIDGE_INT32, BRIDGE_UINT32, BRIDGE_INT64, BRIDGE_UINT64, BRIDGE_FLOAT, BRIDGE_DOUBLE]
    · simp [parseDataView, hp, ok_bind, pure_eq_ok, BRIDGE_BYTES, BRIDGE_CUSTOM, BRIDGE_STRING, BRIDGE_INT32, BRIDGE_UINT32, BRIDGE_INT64, BRIDGE_UINT64, BRIDGE_FLOAT, BRIDGE_DOUBLE]

example : numWire Cfg.x86 4 0x01020304 = [1, 2, 3, 4] ∧ numWire { Cfg.x86 with little := false } 4 0x01020304 = [1, 2, 3, 4] := by
  decide +kernel

end Bridge
