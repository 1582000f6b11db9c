import Verif.Proof.Wire
/-
Varints on arbitrary input: what `varint_decode` does on any buffer, minimality of the encoding, and streams.
-/
namespace Bridge
open Spec

/-- Reading through a pointer sees the string followed by its terminator. -/
theorem readByte_cases (mem : Bytes) (a : Nat) :
    (∃ b, (mem ++ [0])[a]? = some b ∧ readByte mem a = .ok b) ∨
      (mem.length < a ∧ readByte mem a = .error (.ub .readOutOfBounds)) := by
  unfold readByte
  by_cases h : a < mem.length
  · left
    refine ⟨mem[a], ?_, ?_⟩
    · rw [List.getElem?_append_left h]; simp [h]
    · simp [h]
  · have hn : mem[a]? = none := List.getElem?_eq_none (by omega)
    by_cases h2 : a = mem.length
    · left; exact ⟨0, by subst h2; simp, by rw [hn]; simp [h2]⟩
    · right; exact ⟨by omega, by rw [hn]; simp [h2]⟩

theorem and7F (b : UInt8) : b.toNat &&& 0x7F = b.toNat % 128 := Nat.and_two_pow_sub_one_eq_mod b.toNat 7

theorem and80 (b : UInt8) : b &&& 0x80 ≠ 0 ↔ 128 ≤ b.toNat := by
  have key : ∀ n : Fin 256, (UInt8.ofNat n.val &&& 0x80 ≠ 0) ↔ 128 ≤ (UInt8.ofNat n.val).toNat := by decide +kernel
  have := key ⟨b.toNat, b.toNat_lt⟩
  simpa using this

theorem isLeb_cons {b : UInt8} {bs : Bytes} (hb : 128 ≤ b.toNat) (h : IsLeb bs) : IsLeb (b :: bs) := by
  cases bs with
  | nil => simp [IsLeb] at h
  | cons c cs => exact ⟨hb, h⟩

theorem getElem?_append_zero_lt {mem : Bytes} {a : Nat} {b : UInt8} (h : (mem ++ [0])[a]? = some b) (hb : 128 ≤ b.toNat) :
    a < mem.length := by
  by_cases ha : a < mem.length
  · exact ha
  · by_cases h2 : a = mem.length
    · subst h2; simp at h; subst h; simp at hb
    · rw [List.getElem?_eq_none (by simp; omega)] at h; simp at h

/-- The outcome of `varint_decode` on any buffer. -/
theorem varintDecodeGo_any (cfg : Cfg) (mem : Bytes) (addr : Nat) (len : Int) : ∀ (k i acc : Nat), k + i = 10 →
    addr + i ≤ mem.length → acc < 2 ^ 64 →
    (∃ bs, varintDecodeGo cfg mem addr len k i acc = .ok ((acc + 128 ^ i * lebValue bs) % 2 ^ 64, i + bs.length) ∧
        IsLeb bs ∧ bs.length ≤ k ∧ HasAt (mem ++ [0]) (addr + i) bs) ∨
    (varintDecodeGo cfg mem addr len k i acc = .error .abort ∧ cfg.asserts = true) ∨
    (varintDecodeGo cfg mem addr len k i acc = .error (.ub .shiftTooWide) ∧
        ∀ j, i ≤ j → j < 10 → ∃ b, mem[addr + j]? = some b ∧ 128 ≤ b.toNat) := by
  intro k
  induction k with
  | zero =>
    intro i acc hk ha hacc
    right; right
    refine ⟨?_, by intro j h1 h2; omega⟩
    rw [varintDecodeGo]
    rcases readByte_cases mem (addr + i) with ⟨b, _, h2⟩ | ⟨h1, _⟩
    · rw [h2]; rfl
    · omega
  | succ k ih =>
    intro i acc hk ha hacc
    rw [varintDecodeGo]
    rcases readByte_cases mem (addr + i) with ⟨b, h1, h2⟩ | ⟨h1, _⟩
    · rw [h2]
      simp only [ok_bind]
      have hval : (acc + (((b.toNat &&& 0x7F) <<< (7 * i)) % 2 ^ 64)) % 2 ^ 64 =
          (acc + 128 ^ i * (b.toNat % 128)) % 2 ^ 64 := by
        rw [and7F, Nat.shiftLeft_eq, show (2:Nat) ^ (7 * i) = 128 ^ i by rw [Nat.pow_mul]]
        rw [Nat.add_mod_mod, Nat.mul_comm]
      by_cases hb : b &&& 0x80 ≠ 0
      · rw [if_pos hb]
        rw [and80] at hb
        have hlt := getElem?_append_zero_lt h1 hb
        by_cases hass : (cfg.asserts && !(decide (((i + 1 : Nat) : Int) < len))) = true
        · rw [if_pos hass]
          right; left
          exact ⟨rfl, by simp at hass; exact hass.1⟩
        · rw [if_neg hass]
          rcases ih (i + 1) _ (by omega) (by omega) (Nat.mod_lt _ (by decide) : (acc + (((b.toNat &&& 0x7F) <<< (7 * i)) % 2 ^ 64)) % 2 ^ 64 < 2 ^ 64) with
            ⟨bs, e1, e2, e3, e4⟩ | ⟨e1, e2⟩ | ⟨e1, e2⟩
          · left
            refine ⟨b :: bs, ?_, isLeb_cons hb e2, by simp; omega, ?_⟩
            · rw [e1, hval, Nat.mod_add_mod]
              congr 2
              · congr 1
                simp only [lebValue, Nat.pow_succ, Nat.mul_add, Nat.add_assoc, Nat.mul_assoc]
              · simp; omega
            · rw [HasAt.cons]
              exact ⟨h1, by rw [Nat.add_assoc]; exact e4⟩
          · exact .inr (.inl ⟨e1, e2⟩)
          · right; right
            refine ⟨e1, ?_⟩
            intro j hj1 hj2
            by_cases hji : j = i
            · subst hji
              rw [List.getElem?_append_left hlt] at h1
              exact ⟨b, h1, hb⟩
            · exact e2 j (by omega) hj2
      · rw [if_neg hb]
        rw [and80] at hb
        left
        refine ⟨[b], ?_, by simp [IsLeb]; omega, by simp, ?_⟩
        · rw [hval]
          have : (i + 1) % 256 = i + 1 := by omega
          simp [lebValue, pure_eq_ok, this]
        · rw [HasAt.cons]; exact ⟨h1, HasAt.nil _ _⟩
    · omega

/-- The outcome of `varint_decode` on any buffer, started inside it. -/
theorem varintDecode_any (cfg : Cfg) (mem : Bytes) (addr : Nat) (len : Int) (ha : addr ≤ mem.length) :
    (∃ bs, varintDecode cfg mem addr len = .ok (lebValue bs % 2 ^ 64, bs.length) ∧ IsLeb bs ∧ bs.length ≤ 10 ∧
        HasAt (mem ++ [0]) addr bs) ∨
    (varintDecode cfg mem addr len = .error .abort ∧ cfg.asserts = true) ∨
    (varintDecode cfg mem addr len = .error (.ub .shiftTooWide) ∧
        ∀ j, j < 10 → ∃ b, mem[addr + j]? = some b ∧ 128 ≤ b.toNat) := by
  rcases varintDecodeGo_any cfg mem addr len 10 0 0 rfl (by omega) (by decide) with ⟨bs, h1, h2, h3, h4⟩ | h | ⟨h1, h2⟩
  · exact .inl ⟨bs, by simpa [varintDecode] using h1, h2, h3, by simpa using h4⟩
  · exact .inr (.inl h)
  · exact .inr (.inr ⟨h1, fun j hj => h2 j (by omega) hj⟩)

/-! ### LEB128 facts -/

theorem leb128_isLeb (n : Nat) : IsLeb (leb128 n) := by
  induction n using Nat.strongRecOn with
  | _ n ih =>
    by_cases h : n < 128
    · rw [leb128_small h]; simp [IsLeb]; omega
    · rw [leb128_big h]
      refine isLeb_cons ?_ (ih _ (by omega))
      simp; omega

theorem lebValue_leb128 (n : Nat) : lebValue (leb128 n) = n := by
  induction n using Nat.strongRecOn with
  | _ n ih =>
    by_cases h : n < 128
    · rw [leb128_small h]; simp [lebValue]; omega
    · rw [leb128_big h]
      simp only [lebValue, ih (n / 128) (by omega)]
      have : (UInt8.ofNat (n % 128 + 128)).toNat = n % 128 + 128 := by simp; omega
      rw [this]; omega

theorem lebValue_lt (bs : Bytes) : lebValue bs < 128 ^ bs.length := by
  induction bs with
  | nil => simp [lebValue]
  | cons b bs ih =>
    simp only [lebValue, List.length_cons, Nat.pow_succ]
    have := Nat.mod_lt b.toNat (show 0 < 128 by decide)
    omega

theorem leb128_length_gt (k n : Nat) (h : 128 ^ k ≤ n) : k < (leb128 n).length := by
  have := lebValue_lt (leb128 n)
  rw [lebValue_leb128] at this
  have h2 : 128 ^ k < 128 ^ (leb128 n).length := Nat.lt_of_le_of_lt h this
  exact (Nat.pow_lt_pow_iff_right (by decide)).mp h2

/-- No byte sequence that denotes `n` is shorter than its LEB128 form. -/
theorem leb128_minimal {n : Nat} {bs : Bytes} (hp : 0 < bs.length) (h : lebValue bs = n) : (leb128 n).length ≤ bs.length := by
  have := lebValue_lt bs
  exact leb128_length_le _ _ (by omega) hp

theorem leb128_length_eq {n : Nat} (h : n < 2 ^ 64) : (leb128 n).length = varintEncodingLength n := by
  have key : ∀ k, 128 ^ k ≤ n → n < 128 ^ (k + 1) → (leb128 n).length = k + 1 := by
    intro k h1 h2
    have := leb128_length_gt k n h1
    have := leb128_length_le (k + 1) n h2 (by omega)
    omega
  unfold varintEncodingLength
  split
  · rw [leb128_small (by omega)]; rfl
  · split
    · exact key 1 (by omega) (by omega)
    · split
      · exact key 2 (by omega) (by omega)
      · split
        · exact key 3 (by omega) (by omega)
        · split
          · exact key 4 (by omega) (by omega)
          · split
            · exact key 5 (by omega) (by omega)
            · split
              · exact key 6 (by omega) (by omega)
              · split
                · exact key 7 (by omega) (by omega)
                · split
                  · exact key 8 (by omega) (by omega)
                  · exact key 9 (by omega) (by omega)

/-- Two complete LEB128 numbers at the same place are the same bytes. -/
theorem isLeb_prefix {a b : Bytes} (ha : IsLeb a) (hb : IsLeb b) {x y : Bytes} (h : a ++ x = b ++ y) : a = b := by
  induction a generalizing b with
  | nil => simp [IsLeb] at ha
  | cons c cs ih =>
    cases b with
    | nil => simp [IsLeb] at hb
    | cons d ds =>
      simp only [List.cons_append, List.cons.injEq] at h
      obtain ⟨rfl, h⟩ := h
      cases cs with
      | nil =>
        cases ds with
        | nil => rfl
        | cons e es => simp only [IsLeb] at ha hb; omega
      | cons e es =>
        cases ds with
        | nil => simp only [IsLeb] at ha hb; omega
        | cons e' es' =>
          have := ih (b := e' :: es') ha.2 hb.2 h
          rw [this]

theorem leb128_inj {a b : Nat} (h : leb128 a = leb128 b) : a = b := by
  rw [← lebValue_leb128 a, h, lebValue_leb128]

theorem leb128_stream_inj : ∀ (as bs : List Nat) (x y : Bytes), as.length = bs.length →
    (as.map leb128).flatten ++ x = (bs.map leb128).flatten ++ y → as = bs := by
  intro as
  induction as with
  | nil => intro bs x y h _; cases bs <;> simp_all
  | cons a as ih =>
    intro bs x y hl h
    cases bs with
    | nil => simp at hl
    | cons b bs =>
      simp only [List.map_cons, List.flatten_cons, List.append_assoc] at h
      have h1 := isLeb_prefix (leb128_isLeb a) (leb128_isLeb b) h
      rw [h1] at h
      have := ih bs x y (by simpa using hl) (List.append_cancel_left h)
      rw [leb128_inj h1, this]

end Bridge
