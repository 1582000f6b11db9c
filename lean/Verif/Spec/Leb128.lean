/-
Specification: unsigned LEB128 numbers and big-endian numbers.  Independent of the model.
-/
namespace Spec

/-- Unsigned LEB128: seven bits per byte, least significant group first, the top bit set on all bytes but the last. -/
def leb128 (n : Nat) : List UInt8 :=
  if n < 128 then [UInt8.ofNat n] else UInt8.ofNat (n % 128 + 128) :: leb128 (n / 128)
termination_by n

/-- The number denoted by a sequence of LEB128 groups. -/
def lebValue : List UInt8 → Nat
  | [] => 0
  | b :: bs => b.toNat % 128 + 128 * lebValue bs

/-- A byte sequence is one complete LEB128 number: every byte but the last has its top bit set. -/
def IsLeb : List UInt8 → Prop
  | [] => False
  | [b] => b.toNat < 128
  | b :: bs => 128 ≤ b.toNat ∧ IsLeb bs

/-- Big-endian representation of `n` in `k` bytes: most significant byte first. -/
def bigEndian (k n : Nat) : List UInt8 :=
  (List.range k).map (fun i => UInt8.ofNat (n / 256 ^ (k - 1 - i)))

end Spec
