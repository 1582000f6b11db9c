import Verif.Model.Basic
/-
Model of include/bridge/varint.h.
-/
namespace Bridge

/-- varint.h:6 `static constexpr char MSBALL = ~0x7F;` as converted to `unsigned long long` in `n & MSBALL`:
sign extension gives 0xFFFFFFFFFFFFFF80 when `char` is signed, 0x80 otherwise. -/
def msball (cfg : Cfg) : Nat := if cfg.charSigned then 0xFFFFFFFFFFFFFF80 else 0x80

/-- varint.h:18-30 `varint_encode`, the loop.  `room` is `len - (ptr - buf)`, the free space of the buffer; the result
is the bytes written.  (n & 0xFF) | MSB is truncated to a char, so the sign of MSB does not matter there. -/
def varintEncodeGo (cfg : Cfg) : (room : Nat) → (n : Nat) → Res Bytes
  | 0, _ => .error (.ub .bufferOverflow)
  | room + 1, n =>
    if n &&& msball cfg ≠ 0 then
      let b := UInt8.ofNat ((n &&& 0xFF) ||| 0x80)
      let n' := n >>> 7
      if cfg.asserts && !(decide (0 < room)) then .error .abort
      else do
        let rest ← varintEncodeGo cfg room n'
        pure (b :: rest)
    else pure [UInt8.ofNat n]

/-- varint.h:18-30 `varint_encode(n, buf, len, &bytes)`: the `bytes` first bytes of `buf`. -/
def varintEncode (cfg : Cfg) (n len : Nat) : Res Bytes := varintEncodeGo cfg len n

/-- varint.h:32-50 `varint_decode`, the loop.  `i` is `ptr - buf`, `bits = 7 * i`.  `k` counts the iterations that are
still defined: at `i = 10` the shift amount is 70, which is undefined. -/
def varintDecodeGo (cfg : Cfg) (mem : Bytes) (addr : Nat) (len : Int) : (k : Nat) → (i : Nat) → (acc : Nat) → Res (Nat × Nat)
  | 0, i, _ => do
    let _ ← readByte mem (addr + i)
    .error (.ub .shiftTooWide)
  | k + 1, i, acc => do
    let b ← readByte mem (addr + i)
    let acc' := (acc + (((b.toNat &&& 0x7F) <<< (7 * i)) % 2 ^ 64)) % 2 ^ 64
    if b &&& 0x80 ≠ 0 then
      if cfg.asserts && !(decide (((i + 1 : Nat) : Int) < len)) then .error .abort
      else varintDecodeGo cfg mem addr len k (i + 1) acc'
    else pure (acc', (i + 1) % 256)

/-- varint.h:32-50 `varint_decode(buf, len, &bytes)` where `buf` points at offset `addr` of the string `mem`:
the value and `bytes` (an `unsigned char`). -/
def varintDecode (cfg : Cfg) (mem : Bytes) (addr : Nat) (len : Int) : Res (Nat × Nat) :=
  varintDecodeGo cfg mem addr len 10 0 0

/-- varint.h:52-63 `varint_encoding_length`, with the constants N1 .. N9 (varint.h:8-16) written out. -/
def varintEncodingLength (n : Nat) : Nat :=
  if n < 128 then 1
  else if n < 16384 then 2
  else if n < 2097152 then 3
  else if n < 268435456 then 4
  else if n < 34359738368 then 5
  else if n < 4398046511104 then 6
  else if n < 562949953421312 then 7
  else if n < 72057594037927936 then 8
  else if n < 9223372036854775808 then 9
  else 10

end Bridge
