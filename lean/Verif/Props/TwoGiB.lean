import Verif.Proof.Complete
import Verif.Props.Varint
import Verif.Props.Limits
import Verif.Proof.Agree
/-
C05: what the narrowing of `remain()` to `int` (parse.h:26, 41; varint.h:32 `int len`) does in an assertion build.
-/
set_option autoImplicit false
namespace Bridge
open Spec

theorem decodeGo_abort {cfg : Cfg} {mem : Bytes} {addr : Nat} {len : Int} (ha : cfg.asserts = true) : ∀ (bs : Bytes) (k i acc : Nat), IsLeb bs →
    HasAt (mem ++ [0]) (addr + i) bs → bs.length ≤ k → 2 ≤ bs.length → len < ((i + bs.length : Nat) : Int) →
    varintDecodeGo cfg mem addr len k i acc = .error .abort := by
  intro bs
  induction bs with
  | nil => intro k i acc _ _ _ h; simp at h
  | cons b bs ih =>
    intro k i acc hl hat hk h2 hlen
    cases k with
    | zero => simp at hk
    | succ k =>
      have hat' := hat
      rw [HasAt.cons] at hat'
      have hrb : readByte mem (addr + i) = .ok b := by
        rcases readByte_cases mem (addr + i) with ⟨x, h1, h2⟩ | ⟨h1, _⟩
        · rw [h1] at hat'
          simp only [Option.some.injEq] at hat'
          rw [h2, hat'.1]
        · have := (List.getElem?_eq_some_iff.mp hat'.1).1
          simp at this; omega
      rw [varintDecodeGo, hrb]
      simp only [ok_bind]
      cases bs with
      | nil => simp at h2
      | cons y ys =>
        have hb : b &&& 0x80 ≠ 0 := by rw [and80]; exact hl.1
        rw [if_pos hb, ha]
        by_cases hle : ((i + 1 : Nat) : Int) < len
        · simp only [hle, decide_true, Bool.not_true, Bool.and_false, Bool.false_eq_true, ↓reduceIte]
          refine ih k (i + 1) _ hl.2 (by rw [← Nat.add_assoc]; exact hat'.2) (by simpa using hk) ?_ ?_
          · apply Classical.byContradiction
            intro hn
            simp only [List.length_cons] at hn hlen
            omega
          · simp only [List.length_cons] at hlen ⊢
            omega
        · rw [if_pos (by simpa using hle)]

/-- What the decoder makes of a complete number: the assertion fails exactly if the number has more than one byte and `len` is less than
its length. -/
theorem decode_exact {cfg : Cfg} {mem : Bytes} {addr : Nat} {len : Int} {bs : Bytes} (hl : IsLeb bs) (h10 : bs.length ≤ 10)
    (hat : HasAt (mem ++ [0]) addr bs) :
    varintDecode cfg mem addr len =
      if cfg.asserts = true ∧ 2 ≤ bs.length ∧ len < (bs.length : Int) then .error .abort else .ok (lebValue bs % 2 ^ 64, bs.length) := by
  have haddr : addr ≤ mem.length := by
    have h1 := hat.length_le
    have h2 := isLeb_pos hl
    simp only [List.length_drop, List.length_append, List.length_singleton] at h1
    omega
  by_cases hc : cfg.asserts = true ∧ 2 ≤ bs.length ∧ len < (bs.length : Int)
  · rw [if_pos hc]
    exact decodeGo_abort hc.1 bs 10 0 0 hl (by simpa using hat) h10 hc.2.1 (by simpa using hc.2.2)
  · rw [if_neg hc]
    have hna : varintDecode cfg mem addr len ≠ .error .abort := by
      by_cases h2 : 2 ≤ bs.length
      · exact decode_no_abort hl hat fun ha => by
          apply Classical.byContradiction
          intro h
          exact hc ⟨ha, h2, by omega⟩
      · match bs, hl, h2, hat with
        | [b], hl, _, hat =>
          rw [HasAt.cons] at hat
          have hrb : readByte mem addr = .ok b := by
            rcases readByte_cases mem addr with ⟨x, h1, h2⟩ | ⟨h1, _⟩
            · rw [h1] at hat
              simp only [Option.some.injEq] at hat
              rw [h2, hat.1]
            · have := (List.getElem?_eq_some_iff.mp hat.1).1
              simp at this; omega
          rw [varintDecode, varintDecodeGo, Nat.add_zero, hrb]
          simp only [ok_bind]
          rw [if_neg (by rw [and80]; exact Nat.not_le.2 hl)]
          simp [pure_eq_ok]
        | _ :: _ :: _, _, h2, _ => simp at h2
    rcases varintDecode_any cfg mem addr len haddr with ⟨bs', h1, h2, h3, h4⟩ | ⟨h, -⟩ | ⟨-, h⟩
    · obtain ⟨x, hx⟩ := hat
      obtain ⟨y, hy⟩ := h4
      have : bs' = bs := isLeb_prefix h2 hl (hy.trans hx.symm)
      subst this
      exact h1
    · exact absurd h hna
    · exfalso
      obtain ⟨x, hx1, hx2⟩ := isLeb_last bs hl
      have hpos := isLeb_pos hl
      obtain ⟨b, hb1, hb2⟩ := h (bs.length - 1) (by omega)
      obtain ⟨post, hp⟩ := hat
      have : (mem ++ [0])[addr + (bs.length - 1)]? = some x := by
        rw [← List.getElem?_drop, ← hp, List.getElem?_append_left (by omega)]
        exact hx1
      have hlt := (List.getElem?_eq_some_iff.mp hb1).1
      rw [List.getElem?_append_left hlt, hb1] at this
      simp only [Option.some.injEq] at this
      subst this
      omega

theorem toI32_lt {r k : Nat} (h1 : 1 ≤ k) (h2 : k ≤ 10) :
    toI32 ((r : Nat) : Int) < ((k : Nat) : Int) ↔ ¬ (k ≤ r % 2 ^ 32 ∧ r % 2 ^ 32 < 2 ^ 31) := by
  unfold toI32
  simp only
  split <;> omega

/-- C05. A complete length of `k` bytes is in the buffer at `i`, `m` bytes before its end (modulo 2^32).  A build without assertions reads
it, whatever the size of the buffer.  An assertion build reads it exactly if `k = 1` or `k ≤ m < 2^31`; else it aborts.  So such a build
aborts at the first length of more than one byte that has 2 to 4 GiB behind it, although the content is in order. -/
theorem C05_assertion_exact (r : Cfg) (content : Bytes) (hc : content.length < 2 ^ 63) (i : Nat) (bytes : Bytes) (hl : IsLeb bytes)
    (h10 : bytes.length ≤ 10) (hat : HasAt content i bytes) :
    (r.asserts = false ∨ bytes.length = 1 ∨
        (bytes.length ≤ (content.length - i) % 2 ^ 32 ∧ (content.length - i) % 2 ^ 32 < 2 ^ 31) →
      parseLength r (View.whole content) ⟨i, i⟩ = .ok (lebValue bytes % 2 ^ 64, ⟨i + bytes.length, i + bytes.length⟩) ∧
      parseLengthAt r content i = .ok (lebValue bytes % 2 ^ 64, bytes.length)) ∧
    (r.asserts = true → bytes.length ≠ 1 →
        ¬ (bytes.length ≤ (content.length - i) % 2 ^ 32 ∧ (content.length - i) % 2 ^ 32 < 2 ^ 31) →
      parseLength r (View.whole content) ⟨i, i⟩ = .error .abort ∧ parseLengthAt r content i = .error .abort) := by
  have hpos := isLeb_pos hl
  have hin : i + bytes.length ≤ content.length := by
    have := hat.length_le
    simp only [List.length_drop] at this
    omega
  have hat0 : HasAt (content ++ [0]) i bytes := by
    unfold HasAt at hat ⊢
    rw [List.drop_append_of_le_length (by omega)]
    exact hat.trans (List.prefix_append _ _)
  have hsub : subS content.length i = ((content.length - i : Nat) : Int) := subS_le (by omega) hc
  have hrem : remain (View.whole content) ⟨i, i⟩ = ((content.length - i : Nat) : Int) := hsub
  have hce : checkEmpty (View.whole content) ⟨i, i⟩ = .ok () :=
    checkEmpty_ok (by simpa [View.whole] using hc) (by simp [View.whole]; omega)
  have hca : curAddr (View.whole content) ⟨i, i⟩ = .ok i := by
    rw [curAddr_ok (by simp [View.whole]; omega)]
    simp [View.whole]
  have hdec := decode_exact (cfg := r) (len := toI32 ((content.length - i : Nat) : Int)) hl h10 hat0
  have hiff := toI32_lt (r := content.length - i) (k := bytes.length) hpos h10
  constructor
  · intro hor
    rw [if_neg (by
      rintro ⟨ha, h2, h3⟩
      rw [hiff] at h3
      rcases hor with h | h | h
      · rw [h] at ha; cases ha
      · omega
      · exact h3 h)] at hdec
    constructor
    · unfold parseLength
      rw [hce, hca, hrem]
      simp only [ok_bind, View.whole] at hdec ⊢
      rw [hdec]
      simp only [ok_bind, skip, bump]
      rw [addW_of_lt (by omega), checkOOR_ok (by simpa using hin)]
      simp only [ok_bind, pure_eq_ok]
    · unfold parseLengthAt
      rw [if_neg (by omega), hsub, hdec]
      simp only [ok_bind]
      rw [addW_of_lt (by omega), if_neg (by omega)]
      rfl
  · intro ha h1 hno
    rw [if_pos ⟨ha, by omega, hiff.2 hno⟩] at hdec
    constructor
    · unfold parseLength
      rw [hce, hca, hrem]
      simp only [ok_bind, View.whole] at hdec ⊢
      rw [hdec]
      rfl
    · unfold parseLengthAt
      rw [if_neg (by omega), hsub, hdec]
      rfl

/-- A content of 2 GiB and some, with a length of two bytes at its start: a release build reads 300, an assertion build aborts. -/
example : (∃ c, parseLength { Cfg.x86 with asserts := false } (View.whole ([172, 2] ++ List.replicate (2 ^ 31) 0)) ⟨0, 0⟩ = .ok (300, c)) ∧
    parseLength Cfg.x86 (View.whole ([172, 2] ++ List.replicate (2 ^ 31) 0)) ⟨0, 0⟩ = .error .abort := by
  have hlen : ([172, 2] ++ List.replicate (2 ^ 31) (0 : UInt8)).length = 2 ^ 31 + 2 := by
    rw [List.length_append, List.length_replicate]; simp only [List.length_cons, List.length_nil]
  have hat : HasAt ([172, 2] ++ List.replicate (2 ^ 31) (0 : UInt8)) 0 [172, 2] := List.prefix_append _ _
  have hleb : IsLeb [172, 2] := ⟨by decide, by simp [IsLeb]⟩
  have h1 := C05_assertion_exact { Cfg.x86 with asserts := false } _ (by rw [hlen]; decide) 0 [172, 2] hleb (by decide) hat
  have h2 := C05_assertion_exact Cfg.x86 _ (by rw [hlen]; decide) 0 [172, 2] hleb (by decide) hat
  refine ⟨⟨_, (h1.1 (.inl rfl)).1⟩, (h2.2 rfl (by decide) ?_).1⟩
  rw [hlen]; decide

/-- C30. The limit of an assertion build is 2 GiB: the same build that writes a string or byte array of 2 to 4 GiB aborts when it parses it (a build
without assertions returns it, C07). -/
theorem C30_assertion_build_aborts (k : Long) (w r : Cfg) (hw : w.charSigned = true) (ha : r.asserts = true) (b : Bytes) (hb : 2 ^ 31 ≤ b.length)
    (ref : Bool) (n : Nat) :
    ∃ content, serialize w .normal (k.obj b) = .ok content ∧
      (content.length < 2 ^ 32 → Parses r ⟨false, ref, n⟩ content (.error .abort)) := by
  have hne : k ≠ .string → w.hardened = true → b ≠ [] := fun _ _ => by rintro rfl; simp at hb
  obtain ⟨fl, table, hser⟩ := C30_length_field k w hw b hne
  have hser' := serialize_eq hw (o := k.obj b) (d := .scalar (k.scalar b)) .normal (k.obj_doc b) (k.hard hne)
  refine ⟨_, hser', fun hlt => ?_⟩
  have hc : contentOf w .normal (.scalar (k.scalar b)) = _ := Except.ok.inj (hser'.symm.trans hser)
  obtain ⟨s, i1, i2, -⟩ := big_init (k := k) (w := w) (r := r.fewerChecks false true) (b := b)
    ⟨by omega, fun h => by simp [Cfg.fewerChecks] at h⟩
  generalize hmem : contentOf w .normal (.scalar (k.scalar b)) = mem at hc i1 hlt
  have hat0 : ∀ c, c = mem → HasAt mem 0 c := fun c h => h ▸ HasAt.drop_zero
  have hat0 := hat0 _ hc.symm
  have hlen := congrArg List.length hc
  simp only [List.append_assoc] at hat0
  rw [HasAt.append, bigEndian_length, HasAt.append, HasAt.append, HasAt.append, HasAt.append] at hat0
  obtain ⟨-, -, h1, h2, -, -⟩ := hat0
  simp only [List.length_cons, List.length_nil, Nat.zero_add, Nat.reduceAdd] at h1 h2
  simp only [List.length_append, bigEndian_length, List.length_cons, List.length_nil] at hlen
  have hpos := leb128_length_pos (b.length % 2 ^ 32)
  have hbig : 128 ≤ b.length % 2 ^ 32 := by omega
  have hh := h1
  simp only [HasAt.cons] at hh
  obtain ⟨g0, g1, g2, -, -, -, -, g7, g8, -⟩ := hh
  -- one-byte lengths
  have one : ∀ i (x : UInt8), mem[i]? = some x → x.toNat < 128 →
      parseLength r (View.whole mem) ⟨i, i⟩ = .ok (x.toNat, ⟨i + 1, i + 1⟩) := by
    intro i x hx hx'
    have := ((C05_assertion_exact r mem (by omega) i [x] hx' (by simp) (by
      rw [HasAt.cons]; exact ⟨hx, HasAt.nil _ _⟩)).1 (.inr (.inl rfl))).1
    simpa [lebValue, Nat.mod_eq_of_lt hx', Nat.mod_eq_of_lt (show x.toNat < 18446744073709551616 by omega)] using this
  have e10 := one 10 1 g0 (by decide)
  have e11 := one 11 1 g1 (by decide)
  have e12 := one 12 4 g2 (by decide)
  have hbyte : ∀ i (x : UInt8), mem[i]? = some x → checkEmpty (View.whole mem) ⟨i, i⟩ = .ok () ∧ curAddr (View.whole mem) ⟨i, i⟩ = .ok i ∧
      readByte (View.whole mem).mem i = .ok x ∧ checkOOR (View.whole mem) ⟨i + 1, i⟩ = .ok () ∧ i + 1 < 2 ^ 64 := by
    intro i x hx
    have hil := (List.getElem?_eq_some_iff.1 hx).1
    refine ⟨checkEmpty_ok (by simp [View.whole]; omega) (by simpa [View.whole] using hil), ?_, readByte_eq hx,
      checkOOR_ok (by simp [View.whole]; omega), by omega⟩
    rw [curAddr_ok (by simpa [View.whole] using hil)]
    simp [View.whole]
  have e17 : parseObjectType (View.whole mem) ⟨17, 17⟩ = .ok (.data, ⟨18, 18⟩) := by
    obtain ⟨a1, a2, a3, a4, a5⟩ := hbyte 17 0 g7
    unfold parseObjectType
    simp only [a1, a2, a3, ok_bind, skip, bump]
    rw [addW_of_lt (by omega), a4]
    rfl
  have e18 : parseDataType (View.whole mem) ⟨18, 18⟩ = .ok (k.code, ⟨19, 19⟩) := by
    obtain ⟨a1, a2, a3, a4, a5⟩ := hbyte 18 k.code g8
    unfold parseDataType
    simp only [a1, a2, a3, ok_bind, skip, bump]
    rw [addW_of_lt (by omega), a4]
    rfl
  have e19 : parseLength r (View.whole mem) ⟨19, 19⟩ = .error .abort := by
    have hgt := leb128_length_gt 1 (b.length % 2 ^ 32) (by omega)
    refine ((C05_assertion_exact r mem (by omega) 19 _ (leb128_isLeb (b.length % 2 ^ 32)) (leb128_length_le10 (by omega)) h2).2 ha
      (by omega) ?_).1
    rintro ⟨-, h⟩
    have : (mem.length - 19) % 2 ^ 32 = mem.length - 19 := Nat.mod_eq_of_lt (by omega)
    rw [this] at h
    omega
  have e13 : curAddr (View.whole mem) ⟨13, 13⟩ = .ok 13 := by
    rw [curAddr_ok (by simp [View.whole]; omega)]
    simp [View.whole]
  have ekey : ∃ key, parseKey r (View.whole mem) none ⟨12, 12⟩ = .ok (key, ⟨17, 17⟩) := by
    unfold parseKey
    simp only [e12, e13, ok_bind, skip, bump]
    have : addW 13 (UInt8.toNat 4) = 17 := by decide
    simp only [this]
    rw [checkOOR_ok (by simp [View.whole]; omega)]
    exact ⟨_, rfl⟩
  refine parses_of_fuel (f := 4) ?_ (by simp)
  unfold parse
  rcases init_agree (P := (· = .abort)) rfl r false true mem with ⟨e, he, rfl⟩ | he
  · rw [he]; rfl
  · rw [← he, i1]
    simp only [ok_bind, Bool.false_eq_true, if_false]
    unfold normalParse
    obtain ⟨key, hk⟩ := ekey
    have hval : parseVal r (View.whole mem) s.sm ref .caller 2 .data ⟨18, 18⟩ = .error .abort := by
      rw [parseVal, i2]
      cases ref with
      | true =>
        simp only [↓reduceIte]
        unfold parseViewObj
        simp only [e18, ok_bind]
        have : checkDataType k.code = .ok () := by cases k <;> decide
        rw [this]
        simp only [ok_bind, e19]
        rfl
      | false =>
        simp only [Bool.false_eq_true, ↓reduceIte]
        unfold parseDataObj
        simp only [e18, ok_bind]
        have : checkDataType k.code = .ok () := by cases k <;> decide
        rw [this]
        simp only [ok_bind, e19]
        rfl
    simp only [metaSize]
    rw [parseVal]
    simp only [e10, e11, ok_bind]
    have : UInt8.toNat 1 = 0 + 1 := by decide
    rw [this, parseKVs, i2, hk]
    simp only [ok_bind, e17]
    rw [i2] at hval
    rw [hval]
    rfl

/-- The hypothesis is met by a string of 2 GiB, whose content is 20 to 60 bytes longer (C78). -/
example : 2 ^ 31 ≤ (List.replicate (2 ^ 31) (0x61 : UInt8)).length := by rw [List.length_replicate]; decide

end Bridge
