import Verif.Model.Inner
import Verif.Spec.Leb128
/-
Lemmas about varint.h and the length readers.
-/
namespace Bridge
open Spec

@[simp] theorem ok_bind {α β : Type} (a : α) (f : α → Res β) : (Except.ok a >>= f : Res β) = f a := id rfl
@[simp] theorem error_bind {α β : Type} (e : Err) (f : α → Res β) : (Except.error e >>= f : Res β) = .error e := id rfl
@[simp] theorem pure_eq_ok {α : Type} (a : α) : (pure a : Res α) = .ok a := id rfl

theorem bind_ok {α β : Type} {x : Res α} {f : α → Res β} {b : β} (h : (x >>= f) = .ok b) : ∃ a, x = .ok a ∧ f a = .ok b := by
  cases x with
  | error e => simp [error_bind] at h
  | ok a => exact ⟨a, rfl, h⟩

/-! ### LEB128 -/

theorem leb128_small {n : Nat} (h : n < 128) : leb128 n = [UInt8.ofNat n] := by
  rw [leb128]; simp [h]

theorem leb128_big {n : Nat} (h : ¬ n < 128) : leb128 n = UInt8.ofNat (n % 128 + 128) :: leb128 (n / 128) := by
  rw [leb128]; simp [h]

theorem leb128_length_pos (n : Nat) : 0 < (leb128 n).length := by
  by_cases h : n < 128
  · simp [leb128_small h]
  · simp [leb128_big h]

theorem leb128_length_le (k n : Nat) (h : n < 128 ^ k) (hk : 0 < k) : (leb128 n).length ≤ k := by
  induction k generalizing n with
  | zero => omega
  | succ k ih =>
    by_cases hn : n < 128
    · simp [leb128_small hn]
    · rw [leb128_big hn]
      have hk' : 0 < k := by
        rcases Nat.eq_zero_or_pos k with h0 | h0
        · subst h0; simp at h; omega
        · exact h0
      have : n / 128 < 128 ^ k := by
        rw [Nat.div_lt_iff_lt_mul (by decide)]
        rw [Nat.pow_succ] at h; exact h
      have := ih _ this hk'
      simp; omega

theorem leb128_length_le10 {n : Nat} (h : n < 2 ^ 64) : (leb128 n).length ≤ 10 :=
  leb128_length_le 10 n (by have : (128:Nat)^10 = 2^70 := by decide
                            omega) (by decide)

theorem leb128_length_le5 {n : Nat} (h : n < 2 ^ 32) : (leb128 n).length ≤ 5 :=
  leb128_length_le 5 n (by have : (128:Nat)^5 = 2^35 := by decide
                           omega) (by decide)

/-! ### varint_encode -/

theorem and_msball {n : Nat} (h : n < 2 ^ 64) : n &&& 0xFFFFFFFFFFFFFF80 = (n / 128) * 128 := by
  have e : (0xFFFFFFFFFFFFFF80 : Nat) = (2 ^ 57 - 1) <<< 7 := by decide
  rw [e]
  apply Nat.eq_of_testBit_eq
  intro i
  have e2 : (n / 128) * 128 = (n >>> 7) <<< 7 := by
    rw [Nat.shiftLeft_eq, Nat.shiftRight_eq_div_pow]
  rw [e2]
  simp only [Nat.testBit_and, Nat.testBit_shiftLeft, Nat.testBit_shiftRight, Nat.testBit_two_pow_sub_one]
  by_cases h7 : 7 ≤ i
  · have : 7 + (i - 7) = i := by omega
    simp [h7, this]
    intro hb
    apply Decidable.byContradiction
    intro hge
    have : n < 2 ^ i := Nat.lt_of_lt_of_le h (Nat.pow_le_pow_right (by decide) (by omega))
    rw [Nat.testBit_lt_two_pow this] at hb
    simp at hb
  · simp [h7]

theorem msball_test {cfg : Cfg} (hc : cfg.charSigned = true) {n : Nat} (h : n < 2 ^ 64) :
    (n &&& msball cfg ≠ 0) ↔ ¬ n < 128 := by
  simp only [msball, hc, if_true]
  rw [and_msball h]
  omega

theorem low_or (n : Nat) : UInt8.ofNat ((n &&& 0xFF) ||| 0x80) = UInt8.ofNat (n % 128 + 128) := by
  have h1 : n &&& 0xFF = n % 256 := Nat.and_two_pow_sub_one_eq_mod n 8
  have key : ∀ m, m < 256 → m ||| 0x80 = m % 128 + 128 := by decide +kernel
  rw [h1, key _ (Nat.mod_lt _ (by decide))]
  congr 1
  omega

theorem varintEncodeGo_eq {cfg : Cfg} (hc : cfg.charSigned = true) (room n : Nat) (h : n < 2 ^ 64)
    (hr : (leb128 n).length ≤ room) : varintEncodeGo cfg room n = .ok (leb128 n) := by
  induction room generalizing n with
  | zero => have := leb128_length_pos n; omega
  | succ room ih =>
    rw [varintEncodeGo]
    by_cases hn : n < 128
    · have : ¬ (n &&& msball cfg ≠ 0) := by rw [msball_test hc h]; simpa using hn
      simp only [this, if_false]
      rw [leb128_small hn]; rfl
    · have : (n &&& msball cfg ≠ 0) := by rw [msball_test hc h]; exact hn
      rw [if_pos this]
      rw [leb128_big hn] at hr ⊢
      have hd : n >>> 7 = n / 128 := by rw [Nat.shiftRight_eq_div_pow]
      have hp := leb128_length_pos (n / 128)
      simp only [List.length_cons] at hr
      have hroom : 0 < room := by omega
      have e := ih (n / 128) (by omega) (by omega)
      simp only [low_or, hd, e, hroom, decide_true, Bool.not_true, Bool.and_false, Bool.false_eq_true, if_false]
      rfl

theorem varintEncode_eq {cfg : Cfg} (hc : cfg.charSigned = true) (n len : Nat) (h : n < 2 ^ 64)
    (hr : (leb128 n).length ≤ len) : varintEncode cfg n len = .ok (leb128 n) :=
  varintEncodeGo_eq hc len n h hr

/-! ### bytes at a place -/

/-- The string `mem` has the bytes `bs` at offset `a`. -/
def HasAt (mem : Bytes) (a : Nat) (bs : Bytes) : Prop := bs <+: mem.drop a

theorem HasAt.append {mem : Bytes} {a : Nat} {x y : Bytes} :
    HasAt mem a (x ++ y) ↔ HasAt mem a x ∧ HasAt mem (a + x.length) y := by
  unfold HasAt
  constructor
  · rintro ⟨t, ht⟩
    refine ⟨⟨y ++ t, by simpa using ht⟩, ⟨t, ?_⟩⟩
    have : (mem.drop a).drop x.length = y ++ t := by rw [← ht]; simp
    rw [← this]; simp [List.drop_drop]
  · rintro ⟨⟨t, ht⟩, ⟨s, hs⟩⟩
    refine ⟨s, ?_⟩
    have : (mem.drop a).drop x.length = t := by rw [← ht]; simp
    rw [List.append_assoc, hs, ← ht, ← List.drop_drop, this]

theorem HasAt.cons {mem : Bytes} {a : Nat} {b : UInt8} {y : Bytes} :
    HasAt mem a (b :: y) ↔ mem[a]? = some b ∧ HasAt mem (a + 1) y := by
  rw [show b :: y = [b] ++ y from rfl, HasAt.append]
  refine and_congr ?_ (by simp)
  unfold HasAt
  constructor
  · rintro ⟨t, ht⟩
    have : (mem.drop a)[0]? = some b := by rw [← ht]; simp
    simpa using this
  · intro h
    refine ⟨mem.drop (a + 1), ?_⟩
    have hlt : a < mem.length := by
      rw [List.getElem?_eq_some_iff] at h; exact h.1
    rw [List.drop_eq_getElem_cons hlt]
    rw [List.getElem?_eq_some_iff] at h
    simp [h.2]

theorem HasAt.nil (mem : Bytes) (a : Nat) : HasAt mem a [] := by unfold HasAt; simp

theorem HasAt.length {mem : Bytes} {a : Nat} {bs : Bytes} (h : HasAt mem a bs) (ha : a ≤ mem.length) :
    a + bs.length ≤ mem.length := by
  have := h.length_le
  simp at this; omega

theorem HasAt.slice {mem : Bytes} {a : Nat} {bs : Bytes} (h : HasAt mem a bs) : slice mem a bs.length = bs := by
  unfold Bridge.slice
  exact (List.prefix_iff_eq_take.mp h).symm

theorem HasAt.intro (pre bs post : Bytes) : HasAt (pre ++ bs ++ post) pre.length bs := by
  unfold HasAt
  rw [List.append_assoc, List.drop_left]
  exact List.prefix_append _ _

theorem HasAt.readRange {mem : Bytes} {a : Nat} {bs : Bytes} (h : HasAt mem a bs) (ha : a ≤ mem.length) :
    readRange mem a bs.length = .ok bs := by
  have hl := h.length ha
  unfold Bridge.readRange
  rw [if_pos (by omega)]
  congr 1
  rw [List.drop_append_of_le_length ha, List.take_append_of_le_length (by simp; omega)]
  exact (List.prefix_iff_eq_take.mp h).symm

/-! ### varint_decode -/

theorem byte_small {n : Nat} (h : n < 128) :
    ((UInt8.ofNat n).toNat &&& 0x7F) = n ∧ ¬ (UInt8.ofNat n &&& 0x80 ≠ 0) := by
  have key : ∀ m, m < 128 → ((UInt8.ofNat m).toNat &&& 0x7F) = m ∧ ¬ (UInt8.ofNat m &&& 0x80 ≠ 0) := by
    decide +kernel
  exact key n h

theorem byte_big {n : Nat} (h : n < 128) :
    ((UInt8.ofNat (n + 128)).toNat &&& 0x7F) = n ∧ (UInt8.ofNat (n + 128) &&& 0x80 ≠ 0) := by
  have key : ∀ m, m < 128 → ((UInt8.ofNat (m + 128)).toNat &&& 0x7F) = m ∧ (UInt8.ofNat (m + 128) &&& 0x80 ≠ 0) := by
    decide +kernel
  exact key n h

theorem readByte_eq {mem : Bytes} {a : Nat} {b : UInt8} (h : mem[a]? = some b) : readByte mem a = .ok b := by
  unfold readByte; rw [h]

theorem varintDecodeGo_eq {cfg : Cfg} {mem : Bytes} {addr : Nat} {len : Int} (n : Nat) :
    ∀ (k i acc : Nat), HasAt mem (addr + i) (leb128 n) → (leb128 n).length ≤ k → k + i = 10 →
      acc + n * 128 ^ i < 2 ^ 64 →
      (cfg.asserts = true → ((i + (leb128 n).length : Nat) : Int) ≤ len) →
      varintDecodeGo cfg mem addr len k i acc = .ok (acc + n * 128 ^ i, i + (leb128 n).length) := by
  induction n using Nat.strongRecOn with
  | _ n ih =>
  intro k i acc hat hk hki hacc hlen
  cases k with
  | zero => have := leb128_length_pos n; omega
  | succ k =>
    have hsh : ∀ m, (m <<< (7 * i)) = m * 128 ^ i := by
      intro m; rw [Nat.shiftLeft_eq, Nat.pow_mul]
    by_cases hn : n < 128
    · rw [leb128_small hn] at hat
      have hb := (HasAt.cons.mp hat).1
      rw [varintDecodeGo, readByte_eq hb]
      obtain ⟨h1, h2⟩ := byte_small hn
      simp only [bind, Except.bind, h1, h2, if_false, hsh, pure, Except.pure]
      rw [leb128_small hn]
      rw [Nat.mod_eq_of_lt (by omega : n * 128 ^ i < 2 ^ 64), Nat.mod_eq_of_lt hacc]
      simp; omega
    · rw [leb128_big hn] at hat hk hlen
      obtain ⟨hb, hat'⟩ := HasAt.cons.mp hat
      rw [varintDecodeGo, readByte_eq hb]
      obtain ⟨h1, h2⟩ := byte_big (Nat.mod_lt n (by decide : 0 < 128))
      simp only [List.length_cons] at hk hlen
      have hp := leb128_length_pos (n / 128)
      have hnas : (cfg.asserts && !(decide (((i + 1 : Nat) : Int) < len))) = false := by
        cases ha : cfg.asserts with
        | false => simp
        | true =>
          have := hlen ha
          simp; omega
      simp only [bind, Except.bind, h1, hsh, hnas]
      rw [if_pos h2]
      have hsplit : n * 128 ^ i = (n % 128) * 128 ^ i + (n / 128) * 128 ^ (i + 1) := by
        rw [Nat.pow_succ, Nat.mul_comm (128 ^ i) 128, ← Nat.mul_assoc, ← Nat.add_mul]
        congr 1; omega
      have hlt1 : n % 128 * 128 ^ i < 2 ^ 64 := by omega
      have hlt2 : acc + n % 128 * 128 ^ i < 2 ^ 64 := by omega
      rw [Nat.mod_eq_of_lt hlt1, Nat.mod_eq_of_lt hlt2]
      simp only [Bool.false_eq_true, if_false]
      rw [ih (n / 128) (by omega) k (i + 1) _ (by rw [← Nat.add_assoc]; exact hat') (by omega) (by omega) (by omega)
        (by intro ha; have := hlen ha; omega)]
      rw [leb128_big hn]
      simp only [List.length_cons]
      congr 2 <;> omega

theorem varintDecode_eq {cfg : Cfg} {mem : Bytes} {addr : Nat} {len : Int} {n : Nat} (hn : n < 2 ^ 64)
    (hat : HasAt mem addr (leb128 n)) (hlen : cfg.asserts = true → ((leb128 n).length : Int) ≤ len) :
    varintDecode cfg mem addr len = .ok (n, (leb128 n).length) := by
  have := varintDecodeGo_eq (cfg := cfg) (mem := mem) (addr := addr) (len := len) n 10 0 0 (by simpa using hat)
    (leb128_length_le10 hn) (by omega) (by simpa using hn) (by intro ha; have := hlen ha; omega)
  simpa [varintDecode] using this

/-! ### length readers -/

theorem subS_of_le {a b : Nat} (ha : a < 2 ^ 63) (hb : b ≤ a) : subS a b = ((a - b : Nat) : Int) := by
  unfold subS
  have e : (a + 2 ^ 64 - b % 2 ^ 64) % 2 ^ 64 = a - b := by omega
  simp only [e]
  rw [if_pos (by omega)]

theorem toI32_of_lt {i : Int} (h0 : 0 ≤ i) (h1 : i < 2 ^ 31) : toI32 i = i := by
  unfold toI32
  have : i % 2 ^ 32 = i := by omega
  simp only [this]
  rw [if_pos h1]

theorem addW_of_lt {a b : Nat} (h : a + b < 2 ^ 64) : addW a b = a + b := Nat.mod_eq_of_lt h

/-- A size for which the `int` parameter of `varint_decode` cannot be too small for the assertion. -/
def SizeOk (cfg : Cfg) (n : Nat) : Prop := n < 2 ^ 63 ∧ (cfg.asserts = true → n < 2 ^ 31)

theorem checkEmpty_ok {v : View} {c : Cur} (hv : v.len < 2 ^ 63) (h : c.idx < v.len) : checkEmpty v c = .ok () := by
  unfold checkEmpty remain
  rw [subS_of_le hv (by omega), if_neg (by omega)]

theorem curAddr_ok {v : View} {c : Cur} (h : c.idx < v.len) : curAddr v c = .ok (v.base + c.idx) := by
  unfold curAddr; rw [if_neg (by omega)]

theorem checkOOR_ok {v : View} {c : Cur} (h : c.idx ≤ v.len) : checkOOR v c = .ok () := by
  unfold checkOOR; rw [if_neg (by omega)]

theorem parseLength_eq {cfg : Cfg} {v : View} {c : Cur} {n : Nat} (hv : SizeOk cfg v.len) (hn : n < 2 ^ 64)
    (hat : HasAt v.mem (v.base + c.idx) (leb128 n)) (hin : c.idx + (leb128 n).length ≤ v.len)
    (hoff : c.off + (leb128 n).length < 2 ^ 64) :
    parseLength cfg v c = .ok (n, ⟨c.idx + (leb128 n).length, c.off + (leb128 n).length⟩) := by
  have hp := leb128_length_pos n
  obtain ⟨hv1, hv2⟩ := hv
  have hd : varintDecode cfg v.mem (v.base + c.idx) (toI32 (remain v c)) = .ok (n, (leb128 n).length) := by
    apply varintDecode_eq hn hat
    intro ha
    have := hv2 ha
    unfold remain
    rw [subS_of_le hv1 (by omega), toI32_of_lt (by omega) (by omega)]
    omega
  unfold parseLength
  rw [checkEmpty_ok hv1 (by omega), curAddr_ok (by omega)]
  simp only [bind, Except.bind, hd, skip, bump]
  rw [addW_of_lt (by omega : c.idx + (leb128 n).length < 2 ^ 64), addW_of_lt hoff]
  rw [checkOOR_ok (by simpa using hin)]
  rfl

theorem parseLengthAt_eq {cfg : Cfg} {content : Bytes} {offset n : Nat} (hv : SizeOk cfg content.length)
    (hn : n < 2 ^ 64) (hat : HasAt content offset (leb128 n)) (ho : offset ≤ content.length) :
    parseLengthAt cfg content offset = .ok (n, (leb128 n).length) := by
  have hp := leb128_length_pos n
  have hl := hat.length ho
  obtain ⟨hv1, hv2⟩ := hv
  have hd : varintDecode cfg content offset (toI32 (subS content.length offset)) = .ok (n, (leb128 n).length) := by
    apply varintDecode_eq hn hat
    intro ha
    have := hv2 ha
    rw [subS_of_le hv1 (by omega), toI32_of_lt (by omega) (by omega)]
    omega
  unfold parseLengthAt
  rw [if_neg (by omega)]
  simp only [bind, Except.bind, hd]
  rw [addW_of_lt (by omega), if_neg (by omega)]
  rfl

end Bridge
