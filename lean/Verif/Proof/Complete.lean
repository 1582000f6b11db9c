import Verif.Props.ForeignTable
import Verif.Spec.Language
/-
Every byte string that `Spec.Readable` describes is accepted, and the tables of every accepted byte string are as described.
-/
set_option autoImplicit false
namespace Bridge
open Spec

theorem hasAt_zero' {mem : Bytes} {a : Nat} {b : Bytes} (h : HasAt mem a b) (ha : a ≤ mem.length) : HasAt (mem ++ [0]) a b := by
  unfold HasAt at h ⊢
  rw [List.drop_append_of_le_length ha]
  exact h.trans (List.prefix_append _ _)

theorem isLeb_last : ∀ (l : Bytes), IsLeb l → ∃ x, l[l.length - 1]? = some x ∧ x.toNat < 128 := by
  intro l
  induction l with
  | nil => intro h; simp [IsLeb] at h
  | cons x xs ih =>
    intro h
    cases xs with
    | nil => exact ⟨x, rfl, h⟩
    | cons y ys =>
      obtain ⟨z, h1, h2⟩ := ih h.2
      exact ⟨z, by simpa using h1, h2⟩

theorem subS_le {a b : Nat} (h : b ≤ a) (ha : a < 2 ^ 63) : subS a b = ((a - b : Nat) : Int) := by
  unfold subS
  simp only
  have : (a + 2 ^ 64 - b % 2 ^ 64) % 2 ^ 64 = a - b := by omega
  rw [this, if_pos (by omega)]

/-- Reading a complete number of at most ten bytes that lies in the range never trips the assertion of the decoder. -/
theorem decodeGo_no_abort {cfg : Cfg} {mem : Bytes} {addr : Nat} {len : Int} : ∀ (bs : Bytes) (k i acc : Nat), IsLeb bs →
    HasAt (mem ++ [0]) (addr + i) bs → (cfg.asserts = true → ((i + bs.length : Nat) : Int) ≤ len) →
    varintDecodeGo cfg mem addr len k i acc ≠ .error .abort := by
  intro bs
  induction bs with
  | nil => intro k i acc h; simp [IsLeb] at h
  | cons x xs ih =>
    intro k i acc hl hat hlen
    have hat' := hat
    rw [HasAt.cons] at hat'
    have hrb : readByte mem (addr + i) = .ok x := by
      rcases readByte_cases mem (addr + i) with ⟨b, h1, h2⟩ | ⟨h1, _⟩
      · rw [h1] at hat'
        simp only [Option.some.injEq] at hat'
        rw [h2, hat'.1]
      · have := (List.getElem?_eq_some_iff.mp hat'.1).1
        simp at this; omega
    cases k with
    | zero => rw [varintDecodeGo, hrb]; simp [ok_bind]
    | succ k =>
      rw [varintDecodeGo, hrb]
      simp only [ok_bind]
      by_cases hb : x &&& 0x80 ≠ 0
      · rw [if_pos hb]
        rw [and80] at hb
        cases xs with
        | nil => simp only [IsLeb] at hl; omega
        | cons y ys =>
          have hass : ¬ (cfg.asserts && !(decide (((i + 1 : Nat) : Int) < len))) = true := by
            intro h
            simp only [Bool.and_eq_true, Bool.not_eq_true', decide_eq_false_iff_not] at h
            have := hlen h.1
            simp only [List.length_cons] at this
            omega
          rw [if_neg hass]
          refine ih k (i + 1) _ hl.2 (by rw [← Nat.add_assoc]; exact hat'.2) ?_
          intro h
          have := hlen h
          simp only [List.length_cons] at this ⊢
          omega
      · rw [if_neg hb]
        simp [pure_eq_ok]

theorem decode_no_abort {cfg : Cfg} {mem : Bytes} {addr : Nat} {len : Int} {bs : Bytes} (hl : IsLeb bs)
    (hat : HasAt (mem ++ [0]) addr bs) (hlen : cfg.asserts = true → (bs.length : Int) ≤ len) :
    varintDecode cfg mem addr len ≠ .error .abort :=
  decodeGo_no_abort bs 10 0 0 hl (by simpa using hat) (by simpa using hlen)

/-- A number field is read as that number. -/
theorem parseLength_field {r : Cfg} {v : View} (hr : r.asserts = true → v.len < 2 ^ 31) (hv : v.len < 2 ^ 63) {i n : Nat} {bs : Bytes}
    (hf : NumField bs n) (hat : HasAt (v.mem ++ [0]) (v.base + i) bs) (hin : i + bs.length ≤ v.len) :
    parseLength r v ⟨i, i⟩ = .ok (n, ⟨i + bs.length, i + bs.length⟩) := by
  obtain ⟨hl, h10, hn⟩ := hf
  have hpos := isLeb_pos hl
  have haddr : v.base + i ≤ v.mem.length := by
    have := hat.length_le
    simp only [List.length_drop, List.length_append, List.length_singleton] at this
    omega
  unfold parseLength
  have hrem : remain v ⟨i, i⟩ = ((v.len - i : Nat) : Int) := subS_le (b := i) (by omega) hv
  have hce : checkEmpty v ⟨i, i⟩ = .ok () := by
    unfold checkEmpty
    rw [hrem, if_neg (by omega)]
  have hca : curAddr v ⟨i, i⟩ = .ok (v.base + i) := by
    unfold curAddr
    simp only
    rw [if_neg (by omega)]
  rw [hce, hca]
  simp only [ok_bind]
  have hdec : varintDecode r v.mem (v.base + i) (toI32 (remain v ⟨i, i⟩)) = .ok (n, bs.length) := by
    rcases varintDecode_any r v.mem (v.base + i) (toI32 (remain v ⟨i, i⟩)) haddr with ⟨bs', h1, h2, h3, h4⟩ | ⟨h, -⟩ | ⟨-, h⟩
    · obtain ⟨x, hx⟩ := hat
      obtain ⟨y, hy⟩ := h4
      have : bs' = bs := isLeb_prefix h2 hl (hy.trans hx.symm)
      subst this
      rw [h1, hn]
    · exact absurd ‹_› (decode_no_abort hl hat (by
        intro has
        have := hr has
        rw [hrem]
        unfold toI32
        simp only
        split <;> omega))
    · exfalso
      obtain ⟨x, hx1, hx2⟩ := isLeb_last bs hl
      obtain ⟨b, hb1, hb2⟩ := h (bs.length - 1) (by omega)
      obtain ⟨post, hp⟩ := hat
      have : (v.mem ++ [0])[v.base + i + (bs.length - 1)]? = some x := by
        rw [← List.getElem?_drop, ← hp, List.getElem?_append_left (by omega)]
        exact hx1
      have hlt := (List.getElem?_eq_some_iff.mp hb1).1
      rw [List.getElem?_append_left hlt, hb1] at this
      simp only [Option.some.injEq] at this
      subst this
      omega
  rw [hdec]
  simp only [ok_bind]
  rw [skip_eq (by omega)]
  have hoor : checkOOR v ⟨i + bs.length, i⟩ = .ok () := by
    unfold checkOOR
    simp only
    rw [if_neg (by omega)]
  rw [hoor]
  simp only [ok_bind]
  rw [bump_eq (by omega)]
  rfl

/-- Reading a number field of any view. -/
theorem parseLength_view {r : Cfg} {v : View} (hlen : v.len < 2 ^ 64) {i n : Nat} {c : Cur} (hi : i = 0 ∨ v.len < 2 ^ 63)
    (h : parseLength r v ⟨i, i⟩ = .ok (n, c)) :
    ∃ bs, NumField bs n ∧ HasAt (v.mem ++ [0]) (v.base + i) bs ∧ i + bs.length ≤ v.len ∧ v.len < 2 ^ 63 ∧
      c = ⟨i + bs.length, i + bs.length⟩ := by
  unfold parseLength at h
  obtain ⟨_, e0, h⟩ := bind_ok h
  obtain ⟨a, e1, h⟩ := bind_ok h
  obtain ⟨⟨tmp, k⟩, e2, h⟩ := bind_ok h
  have hlt : i < v.len ∧ a = v.base + i := by
    unfold curAddr at e1
    simp only at e1
    split at e1
    · cases e1
    · simp only [Except.ok.injEq] at e1; exact ⟨by omega, e1.symm⟩
  obtain ⟨hlt, rfl⟩ := hlt
  have hsmall : v.len < 2 ^ 63 := by
    rcases Classical.em (v.len < 2 ^ 63) with hs | hs
    · exact hs
    have hi : i = 0 := hi.resolve_right hs
    subst hi
    unfold checkEmpty remain subS at e0
    simp only at e0
    have hm : (v.len + 2 ^ 64 - 0 % 2 ^ 64) % 2 ^ 64 = v.len := by omega
    rw [hm] at e0
    apply Nat.lt_of_not_le
    intro hge
    rw [if_neg (show ¬ v.len < 2 ^ 63 by omega)] at e0
    rw [if_pos (by omega)] at e0
    cases e0
  have haddr : v.base + i ≤ v.mem.length := by
    apply Nat.le_of_not_lt
    intro hgt
    unfold varintDecode at e2
    rw [varintDecodeGo] at e2
    rcases readByte_cases v.mem (v.base + i + 0) with ⟨b, hb, -⟩ | ⟨-, h2⟩
    · have := (List.getElem?_eq_some_iff.mp hb).1
      simp at this; omega
    · rw [h2] at e2; cases e2
  rcases varintDecode_any r v.mem (v.base + i) (toI32 (remain v ⟨i, i⟩)) haddr with ⟨bs, h1, h2, h3, h4⟩ | ⟨h1, -⟩ | ⟨h1, -⟩
  · rw [h1] at e2
    simp only [Except.ok.injEq, Prod.mk.injEq] at e2
    obtain ⟨rfl, rfl⟩ := e2
    simp only at h
    obtain ⟨_, e3, h⟩ := bind_ok h
    simp only [pure_eq_ok, Except.ok.injEq, Prod.mk.injEq] at h
    obtain ⟨rfl, rfl⟩ := h
    rw [skip_eq (by omega)] at e3 ⊢
    refine ⟨bs, ⟨h2, h3, rfl⟩, h4, ?_, hsmall, ?_⟩
    · unfold checkOOR at e3
      simp only at e3
      split at e3
      · cases e3
      · omega
    · rw [bump_eq (by omega)]
  · rw [h1] at e2; cases e2
  · rw [h1] at e2; cases e2

/-! ### the tables, read -/

theorem smGo_complete {r : Cfg} {v : View} (hr : r.asserts = true → v.len < 2 ^ 31) (hv : v.len < 2 ^ 63) :
    ∀ (es : List (Bytes × Nat)) (bs : Bytes) (i : Nat) (acc : List (Str × Nat)), ReadsPairs es bs →
    HasAt (v.mem ++ [0]) (v.base + i) bs → i + bs.length ≤ v.len →
    ∃ l, smConstructGo r v es.length ⟨i, i⟩ acc = .ok l ∧
      l.map (fun e => (e.1.bytes, e.2)) = es.foldl keepFirst (acc.map fun e => (e.1.bytes, e.2)) := by
  intro es
  induction es with
  | nil => intro bs i acc _ _ _; exact ⟨acc, by simp [smConstructGo], rfl⟩
  | cons e es ih =>
    intro bs i acc hrd hat hin
    obtain ⟨s, id⟩ := e
    obtain ⟨l, x, n, rest, f1, f2, rfl, rfl, f3⟩ := hrd
    rw [HasAt.append, HasAt.append, HasAt.append] at hat
    obtain ⟨h1, h2, h3, h4⟩ := hat
    simp only [List.length_append] at hin
    have hp := isLeb_pos f2.1
    simp only [List.length_cons, smConstructGo]
    rw [parseLength_field hr hv f1 h1 (by omega)]
    simp only [ok_bind]
    rw [curAddr_ok (by simp only; omega)]
    simp only [ok_bind]
    rw [skip_bump (by omega)]
    rw [parseLength_field hr hv f2 (by rw [show v.base + (i + l.length + s.length) = v.base + i + l.length + s.length by omega]; exact h3)
      (by omega)]
    simp only [ok_bind]
    rw [show v.base + (i + l.length) = v.base + i + l.length by omega]
    have hlen := h3.length_le
    simp only [List.length_drop, List.length_append, List.length_singleton] at hlen
    rw [(hasAt_zero h2 (by omega)).readRange (by omega)]
    simp only [ok_bind]
    obtain ⟨m, hr1, hr2⟩ := ih rest (i + l.length + s.length + x.length)
      (if acc.any (fun e => decide (e.1.bytes = s)) then acc else
        acc ++ [(⟨s, some (v.base + i + l.length, s.length)⟩, n % 2 ^ 32)]) f3
      (by rw [show v.base + (i + l.length + s.length + x.length) = v.base + i + l.length + s.length + x.length by omega]; exact h4)
      (by omega)
    refine ⟨m, hr1, ?_⟩
    rw [hr2, List.foldl_cons]
    congr 1
    unfold keepFirst
    simp only [List.any_map, Function.comp_def]
    split <;> simp

theorem smGo_inv {r : Cfg} {v : View} (hv : v.len < 2 ^ 63) (hm : v.mem.length < 2 ^ 63) :
    ∀ (n i : Nat) (acc l : List (Str × Nat)), smConstructGo r v n ⟨i, i⟩ acc = .ok l → i ≤ v.len →
    ∃ es bs, es.length = n ∧ ReadsPairs es bs ∧ HasAt (v.mem ++ [0]) (v.base + i) bs ∧ i + bs.length ≤ v.len ∧
      l.map (fun e => (e.1.bytes, e.2)) = es.foldl keepFirst (acc.map fun e => (e.1.bytes, e.2)) := by
  intro n
  induction n with
  | zero =>
    intro i acc l h hi
    simp only [smConstructGo, Except.ok.injEq] at h
    subst h
    exact ⟨[], [], rfl, rfl, HasAt.nil _ _, by simpa using hi, rfl⟩
  | succ n ih =>
    intro i acc l h hi
    simp only [smConstructGo] at h
    obtain ⟨⟨kl, c1⟩, e1, h⟩ := bind_ok h
    obtain ⟨a, f1, f2, f3, -, rfl⟩ := parseLength_view (by omega) (.inr hv) e1
    obtain ⟨ad, e2, h⟩ := bind_ok h
    have had : ad = v.base + (i + a.length) := by
      unfold curAddr at e2
      simp only at e2
      split at e2
      · cases e2
      · simp only [Except.ok.injEq] at e2; exact e2.symm
    subst had
    obtain ⟨⟨id, c2⟩, e3, h⟩ := bind_ok h
    obtain ⟨key, e4, h⟩ := bind_ok h
    simp only at e4 h
    obtain ⟨g1, g2, g3⟩ := readRange_inv e4
    rw [skip_bump (by omega)] at e3
    obtain ⟨b, k1, k2, k3, -, rfl⟩ := parseLength_view (by omega) (.inr hv) e3
    obtain ⟨es, bs, q1, q2, q3, q4, q5⟩ := ih _ _ _ h (by omega)
    refine ⟨(key, id % 2 ^ 32) :: es, a ++ (key ++ (b ++ bs)), by simp [q1], ?_, ?_, ?_, ?_⟩
    · exact ⟨a, b, id, bs, by rw [g3]; exact f1, k1, rfl, rfl, q2⟩
    · rw [HasAt.append, HasAt.append, HasAt.append, g3]
      refine ⟨f2, ?_, ?_, ?_⟩
      · rw [Nat.add_assoc]; exact g2
      · rw [show v.base + i + a.length + kl = v.base + (i + a.length + kl) by omega]; exact k2
      · rw [show v.base + i + a.length + kl + b.length = v.base + (i + a.length + kl + b.length) by omega]; exact q3
    · simp only [List.length_append, g3]; omega
    · rw [q5, List.foldl_cons]
      congr 1
      unfold keepFirst
      simp only [List.any_map, Function.comp_def]
      split <;> simp [toU32]

theorem lookup_defined {r : Cfg} {l : List (Str × Nat)} {e : Str × Nat} {id : Nat} (he : e ∈ l) (hid : e.2 = id) :
    ∃ s, ({ map := l } : StringMap).lookup r id = .ok s := by
  have key : ∀ (l : List (Str × Nat)) (acc : List (Nat × Str)), (id ∈ l.map Prod.snd ∨ (assocGet acc id).isSome) →
      (assocGet (l.foldl (fun r e => assocSet r e.2 e.1) acc) id).isSome := by
    intro l
    induction l with
    | nil => intro acc h; simpa using h
    | cons p l ih =>
      intro acc h
      simp only [List.foldl_cons]
      apply ih
      by_cases hpi : p.2 = id
      · right; rw [hpi, assocGet_set_self]; rfl
      · rw [assocGet_set_ne _ _ (Ne.symm hpi)]
        rcases h with h | h
        · simp only [List.map_cons, List.mem_cons] at h
          rcases h with h | h
          · exact absurd h.symm hpi
          · exact .inl h
        · exact .inr h
  have := key (r.smOrd l) [] (.inl (List.mem_map.mpr ⟨e, (r.smPerm l).mem_iff.mpr he, hid⟩))
  rw [Option.isSome_iff_exists] at this
  obtain ⟨y, hy⟩ := this
  refine ⟨y, ?_⟩
  unfold StringMap.lookup StringMap.getStr StringMap.buildReMap
  simp only
  rw [hy]

theorem dictFn_isDict {r : Cfg} {l : List (Str × Nat)} {es : List (Bytes × Nat)}
    (h : l.map (fun e => (e.1.bytes, e.2)) = es.foldl keepFirst []) :
    ∃ f, dictFn r (some { map := l }) = some f ∧ IsDictOf es f := by
  refine ⟨_, rfl, ?_⟩
  have hmem : ∀ x id, (x, id) ∈ l.map (fun e => (e.1.bytes, e.2)) ↔ FirstPair es x id := by
    intro x id
    rw [h, keepFirst_mem]
    simp
  intro id
  constructor
  · intro b hb
    simp only at hb
    split at hb
    · rename_i s hs
      simp only [Option.some.injEq] at hb
      subst hb
      have := lookup_from (cfg := r) (m := { map := l }) rfl hs
      exact (hmem s.bytes id).mp (List.mem_map.mpr ⟨_, this, rfl⟩)
    · cases hb
  · rintro ⟨x, hx⟩
    obtain ⟨e, he, hxe⟩ := List.mem_map.mp ((hmem x id).mpr hx)
    simp only [Prod.mk.injEq] at hxe
    obtain ⟨s, hs⟩ := lookup_defined (r := r) he hxe.2
    simp only [hs, Option.isSome_some]

theorem construct_complete {r : Cfg} {v : View} (hr : r.asserts = true → v.len < 2 ^ 31) (hv : v.len < 2 ^ 63) {es : List (Bytes × Nat)} {bs : Bytes}
    (h : ReadsDict es bs) (hat : HasAt (v.mem ++ [0]) v.base bs) (hin : bs.length ≤ v.len) :
    ∃ m f, StringMap.construct r v = .ok m ∧ dictFn r (some m) = some f ∧ IsDictOf es f := by
  obtain ⟨c, n, rest, f1, f2, rfl, f3⟩ := h
  rw [HasAt.append] at hat
  simp only [List.length_append] at hin
  obtain ⟨l, h1, h2⟩ := smGo_complete hr hv es rest (0 + c.length) [] f3 (by simpa using hat.2) (by omega)
  obtain ⟨f, h3, h4⟩ := dictFn_isDict (r := r) h2
  refine ⟨{ map := l }, f, ?_, h3, h4⟩
  unfold StringMap.construct
  rw [parseLength_field hr hv f1 (by simpa using hat.1) (by omega)]
  simp only [ok_bind]
  have : toU32 n = es.length := f2.symm
  rw [this, h1]
  rfl

theorem construct_inv {r : Cfg} {v : View} (hlen : v.len < 2 ^ 64) (hm : v.mem.length < 2 ^ 63) {m : StringMap}
    (h : StringMap.construct r v = .ok m) :
    ∃ es bs f, v.len < 2 ^ 63 ∧ ReadsDict es bs ∧ HasAt (v.mem ++ [0]) v.base bs ∧ bs.length ≤ v.len ∧
      dictFn r (some m) = some f ∧ IsDictOf es f := by
  unfold StringMap.construct at h
  obtain ⟨⟨n, c⟩, e1, h⟩ := bind_ok h
  obtain ⟨a, f1, f2, f3, hv, rfl⟩ := parseLength_view hlen (.inl rfl) e1
  obtain ⟨l, e2, h⟩ := bind_ok h
  simp only [pure_eq_ok, Except.ok.injEq] at h
  subst h
  obtain ⟨es, bs, q1, q2, q3, q4, q5⟩ := smGo_inv hv hm _ _ _ _ e2 f3
  obtain ⟨f, h3, h4⟩ := dictFn_isDict (r := r) q5
  refine ⟨es, a ++ bs, f, hv, ⟨a, n, bs, f1, q1, rfl, q2⟩, ?_, by simp only [List.length_append]; omega, h3, h4⟩
  rw [HasAt.append]
  exact ⟨by simpa using f2, by simpa using q3⟩

theorem siBlocks_complete {r : Cfg} {v : View} (hr : r.asserts = true → v.len < 2 ^ 31) (hv : v.len < 2 ^ 63) :
    ∀ (l : List Nat) (bs : Bytes) (i : Nat), ReadsNums l bs → HasAt (v.mem ++ [0]) (v.base + i) bs → i + bs.length ≤ v.len →
    siParseBlocks r v l.length ⟨i, i⟩ = .ok (l, ⟨i + bs.length, i + bs.length⟩) := by
  intro l
  induction l with
  | nil => intro bs i h _ _; simp only [ReadsNums] at h; subst h; simp [siParseBlocks]
  | cons b l ih =>
    intro bs i h hat hin
    obtain ⟨x, n, rest, f1, rfl, rfl, f3⟩ := h
    rw [HasAt.append] at hat
    simp only [List.length_append] at hin
    simp only [List.length_cons, siParseBlocks]
    rw [parseLength_field hr hv f1 hat.1 (by omega)]
    simp only [ok_bind]
    rw [ih rest (i + x.length) f3 (by rw [← Nat.add_assoc]; exact hat.2) (by omega)]
    simp only [ok_bind, List.length_append, Nat.add_assoc]
    rfl

theorem siBlocks_inv {r : Cfg} {v : View} (hv : v.len < 2 ^ 63) :
    ∀ (n i : Nat) (l : List Nat) (c : Cur), i ≤ v.len → siParseBlocks r v n ⟨i, i⟩ = .ok (l, c) →
    ∃ bs, l.length = n ∧ ReadsNums l bs ∧ HasAt (v.mem ++ [0]) (v.base + i) bs ∧ i + bs.length ≤ v.len ∧
      c = ⟨i + bs.length, i + bs.length⟩ := by
  intro n
  induction n with
  | zero =>
    intro i l c hi h
    simp only [siParseBlocks, Except.ok.injEq, Prod.mk.injEq] at h
    obtain ⟨rfl, rfl⟩ := h
    exact ⟨[], rfl, rfl, HasAt.nil _ _, by simpa using hi, by simp⟩
  | succ n ih =>
    intro i l c hi h
    simp only [siParseBlocks] at h
    obtain ⟨⟨x, c1⟩, e1, h⟩ := bind_ok h
    obtain ⟨a, f1, f2, f3, -, rfl⟩ := parseLength_view (by omega) (.inr hv) e1
    obtain ⟨⟨rest, c2⟩, e2, h⟩ := bind_ok h
    obtain ⟨bs, q1, q2, q3, q4, rfl⟩ := ih _ _ _ (by omega) e2
    simp only [pure_eq_ok, Except.ok.injEq, Prod.mk.injEq] at h
    obtain ⟨rfl, rfl⟩ := h
    refine ⟨a ++ bs, by simp [q1], ⟨a, x, bs, f1, rfl, rfl, q2⟩, ?_, by simp only [List.length_append]; omega, ?_⟩
    · rw [HasAt.append, Nat.add_assoc]; exact ⟨f2, q3⟩
    · simp [Nat.add_assoc]

theorem assocGet_none_iff {m : List (Nat × List Nat)} {k : Nat} : assocGet m k = none ↔ k ∉ m.map Prod.fst := by
  induction m with
  | nil => simp [assocGet]
  | cons e m ih =>
    obtain ⟨a, b⟩ := e
    simp only [assocGet, List.map_cons, List.mem_cons, not_or]
    split
    · rename_i h; subst h; simp
    · rename_i h
      rw [ih]
      constructor
      · exact fun h' => ⟨fun e => h e.symm, h'⟩
      · exact fun h' => h'.2

theorem siGo_complete {r : Cfg} {v : View} (hr : r.asserts = true → v.len < 2 ^ 31) (hv : v.len < 2 ^ 63) :
    ∀ (t : List (Nat × List Nat)) (bs : Bytes) (i : Nat) (si : SplitInfo), ReadsRecords t bs →
    HasAt (v.mem ++ [0]) (v.base + i) bs → i + bs.length ≤ v.len → (si.info.map Prod.fst ++ t.map Prod.fst).Nodup →
    ∃ s, siConstructGo r v t.length ⟨i, i⟩ si = .ok s ∧ s.info = si.info ++ t := by
  intro t
  induction t with
  | nil => intro bs i si _ _ _ _; exact ⟨si, by simp [siConstructGo], by simp⟩
  | cons e t ih =>
    intro bs i si h hat hin hnd
    obtain ⟨id, blocks⟩ := e
    obtain ⟨x, n, k, m, b, rest, f1, rfl, f2, f3, f4, rfl, f5⟩ := h
    rw [HasAt.append, HasAt.append, HasAt.append] at hat
    obtain ⟨h1, h2, h3, h4⟩ := hat
    simp only [List.length_append] at hin
    simp only [List.length_cons, siConstructGo]
    rw [parseLength_field hr hv f1 h1 (by omega)]
    simp only [ok_bind]
    rw [parseLength_field hr hv f2 (by rw [← Nat.add_assoc]; exact h2) (by omega)]
    simp only [ok_bind]
    have hm : toU32 m = blocks.length := f3.symm
    rw [hm, siBlocks_complete hr hv blocks b _ f4
      (by rw [show v.base + (i + x.length + k.length) = v.base + i + x.length + k.length by omega]; exact h3) (by omega)]
    simp only [ok_bind]
    have hnone : assocGet si.info (toU32 n) = none := by
      rw [assocGet_none_iff]
      intro hc
      rw [List.map_cons, List.nodup_append] at hnd
      exact hnd.2.2 _ hc _ (List.mem_cons_self ..) rfl
    rw [hnone]
    simp only [Option.isSome_none, Bool.false_eq_true, if_false]
    have hat4 : HasAt (v.mem ++ [0]) (v.base + (i + x.length + k.length + b.length)) rest := by
      rw [show v.base + (i + x.length + k.length + b.length) = v.base + i + x.length + k.length + b.length by omega]
      exact h4
    have fin : ∀ si' : SplitInfo, si'.info = si.info ++ [(toU32 n, blocks)] →
        ∃ s, siConstructGo r v t.length ⟨i + x.length + k.length + b.length, i + x.length + k.length + b.length⟩ si' = .ok s ∧
          s.info = si.info ++ (n % 2 ^ 32, blocks) :: t := by
      intro si' hsi'
      obtain ⟨s, g1, g2⟩ := ih rest _ si' f5 hat4 (by omega) (by rw [hsi']; simpa [List.append_assoc, toU32] using hnd)
      exact ⟨s, g1, by rw [g2, hsi']; simp [toU32]⟩
    split
    · exact fin _ rfl
    · exact fin _ rfl

theorem siGo_inv {r : Cfg} {v : View} (hv : v.len < 2 ^ 63) :
    ∀ (n i : Nat) (si s : SplitInfo), i ≤ v.len → (si.info.map Prod.fst).Nodup → siConstructGo r v n ⟨i, i⟩ si = .ok s →
    ∃ t bs, t.length = n ∧ ReadsRecords t bs ∧ HasAt (v.mem ++ [0]) (v.base + i) bs ∧ i + bs.length ≤ v.len ∧
      s.info = si.info ++ t ∧ (si.info.map Prod.fst ++ t.map Prod.fst).Nodup := by
  intro n
  induction n with
  | zero =>
    intro i si s hi hnd h
    simp only [siConstructGo, Except.ok.injEq] at h
    subst h
    exact ⟨[], [], rfl, rfl, HasAt.nil _ _, by simpa using hi, by simp, by simpa using hnd⟩
  | succ n ih =>
    intro i si s hi hnd h
    simp only [siConstructGo] at h
    obtain ⟨⟨x, c1⟩, e1, h⟩ := bind_ok h
    obtain ⟨a, f1, f2, f3, -, rfl⟩ := parseLength_view (by omega) (.inr hv) e1
    obtain ⟨⟨m, c2⟩, e2, h⟩ := bind_ok h
    obtain ⟨k, g1, g2, g3, -, rfl⟩ := parseLength_view (by omega) (.inr hv) e2
    obtain ⟨⟨blocks, c3⟩, e3, h⟩ := bind_ok h
    obtain ⟨b, k1, k2, k3, k4, rfl⟩ := siBlocks_inv hv _ _ _ _ g3 e3
    simp only at h
    split at h
    · cases h
    rename_i hdup
    have hnone : toU32 x ∉ si.info.map Prod.fst := by
      rw [← assocGet_none_iff]
      cases ha : assocGet si.info (toU32 x) with
      | none => rfl
      | some y => rw [ha] at hdup; simp at hdup
    have hnd' : ((si.info ++ [(toU32 x, blocks)]).map Prod.fst).Nodup := by
      rw [List.map_append, List.nodup_append]
      refine ⟨hnd, by simp, ?_⟩
      intro p hp q hq he
      simp only [List.map_cons, List.map_nil, List.mem_singleton] at hq
      subst hq; subst he
      exact hnone hp
    have fin : ∀ si' : SplitInfo, si'.info = si.info ++ [(toU32 x, blocks)] →
        siConstructGo r v n ⟨i + a.length + k.length + b.length, i + a.length + k.length + b.length⟩ si' = .ok s →
        ∃ t bs, t.length = n + 1 ∧ ReadsRecords t bs ∧ HasAt (v.mem ++ [0]) (v.base + i) bs ∧ i + bs.length ≤ v.len ∧
          s.info = si.info ++ t ∧ (si.info.map Prod.fst ++ t.map Prod.fst).Nodup := by
      intro si' hsi' h'
      obtain ⟨t, bs, q1, q2, q3, q4, q5, q6⟩ := ih _ _ _ k4 (by rw [hsi']; exact hnd') h'
      refine ⟨(x % 2 ^ 32, blocks) :: t, a ++ (k ++ (b ++ bs)), by simp [q1],
        ⟨a, x, k, m, b, bs, f1, rfl, g1, k1, k2, rfl, q2⟩, ?_, by simp only [List.length_append]; omega, ?_, ?_⟩
      · rw [HasAt.append, HasAt.append, HasAt.append]
        refine ⟨f2, ?_, ?_, ?_⟩
        · rw [Nat.add_assoc]; exact g2
        · rw [show v.base + i + a.length + k.length = v.base + (i + a.length + k.length) by omega]; exact k3
        · rw [show v.base + i + a.length + k.length + b.length = v.base + (i + a.length + k.length + b.length) by omega]; exact q3
      · rw [q5, hsi', List.append_assoc]; rfl
      · rw [hsi', List.map_append, List.append_assoc] at q6; exact q6
    split at h
    · exact fin _ rfl h
    · exact fin _ rfl h

theorem siConstruct_complete {r : Cfg} {v : View} (hr : r.asserts = true → v.len < 2 ^ 31) (hv : v.len < 2 ^ 63) {t : List (Nat × List Nat)} {bs : Bytes}
    (h : ReadsTable t bs) (hat : HasAt (v.mem ++ [0]) v.base bs) (hin : bs.length ≤ v.len) :
    ∃ s, SplitInfo.construct r v = .ok s ∧ s.info = t := by
  obtain ⟨hnd, c, n, rest, f1, f2, rfl, f3⟩ := h
  rw [HasAt.append] at hat
  simp only [List.length_append] at hin
  unfold SplitInfo.construct
  rw [parseLength_field hr hv f1 (by simpa using hat.1) (by omega)]
  simp only [ok_bind]
  have : toU32 n = t.length := f2.symm
  rw [this]
  obtain ⟨s, h1, h2⟩ := siGo_complete hr hv t rest (0 + c.length) {} f3 (by simpa using hat.2) (by omega) (by simpa using hnd)
  exact ⟨s, h1, by simpa using h2⟩

theorem siConstruct_inv {r : Cfg} {v : View} (hlen : v.len < 2 ^ 64) {s : SplitInfo} (h : SplitInfo.construct r v = .ok s) :
    ∃ bs, v.len < 2 ^ 63 ∧ ReadsTable s.info bs ∧ HasAt (v.mem ++ [0]) v.base bs ∧ bs.length ≤ v.len := by
  unfold SplitInfo.construct at h
  obtain ⟨⟨n, c⟩, e1, h⟩ := bind_ok h
  obtain ⟨a, f1, f2, f3, hv, rfl⟩ := parseLength_view hlen (.inl rfl) e1
  obtain ⟨t, bs, q1, q2, q3, q4, q5, q6⟩ := siGo_inv hv _ _ _ _ f3 (by simp) h
  simp only [List.nil_append, List.map_nil] at q5 q6
  refine ⟨a ++ bs, hv, ⟨by rw [q5]; exact q6, a, n, bs, f1, by rw [q5]; exact q1, rfl, by rw [q5]; exact q2⟩, ?_,
    by simp only [List.length_append]; omega⟩
  rw [HasAt.append]
  exact ⟨by simpa using f2, by simpa using q3⟩

end Bridge
