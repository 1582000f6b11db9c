import Verif.Proof.CompleteMain
/-
The grammar of Spec/Grammar.lean and Spec/Language.lean is unambiguous: a byte string has at most one reading.
-/
set_option autoImplicit false
namespace Bridge
open Spec

theorem numField_same {a b x y : Bytes} {n m : Nat} (ha : NumField a n) (hb : NumField b m) (h : a ++ x = b ++ y) :
    a = b ∧ n = m ∧ x = y := by
  have := isLeb_prefix ha.1 hb.1 h
  subst this
  exact ⟨rfl, by rw [ha.2.2, hb.2.2], List.append_cancel_left h⟩

theorem bigEndian_inj {k n m : Nat} (hn : n < 256 ^ k) (hm : m < 256 ^ k) (h : bigEndian k n = bigEndian k m) : n = m := by
  have h1 := flip_big k n hn false
  have h2 := flip_big k m hm false
  rw [h] at h1
  exact h1.symm.trans h2

theorem number_same {k : Nat} {n m : Nat} {p : Bytes} (hn : n < 256 ^ k) (hm : m < 256 ^ k)
    (h1 : ∃ z, bigEndian k n = p ++ List.replicate z 0) (h2 : ∃ z, bigEndian k m = p ++ List.replicate z 0) : n = m := by
  obtain ⟨z, h1⟩ := h1
  obtain ⟨z', h2⟩ := h2
  have l1 := congrArg List.length h1
  have l2 := congrArg List.length h2
  simp only [bigEndian_length, List.length_append, List.length_replicate] at l1 l2
  have : z = z' := by omega
  subst this
  exact bigEndian_inj hn hm (h1.trans h2.symm)

theorem fills_same {strict : Bool} {s s' : Scalar} {p : Bytes} (hc : s.code = s'.code) (h : FillsPayload strict s p)
    (h' : FillsPayload strict s' p) : s = s' := by
  have e4 : (256 : Nat) ^ 4 = 2 ^ 32 := by decide
  have e8 : (256 : Nat) ^ 8 = 2 ^ 64 := by decide
  have n32 : ∀ v w : BitVec 32, (∃ z, bigEndian 4 v.toNat = p ++ List.replicate z 0 ∧ (strict = true → z = 0)) →
      (∃ z, bigEndian 4 w.toNat = p ++ List.replicate z 0 ∧ (strict = true → z = 0)) → v = w := by
    rintro v w ⟨z, h1, -⟩ ⟨z', h2, -⟩
    exact BitVec.eq_of_toNat_eq (number_same (k := 4) (by have := v.isLt; omega) (by have := w.isLt; omega) ⟨z, h1⟩ ⟨z', h2⟩)
  have n64 : ∀ v w : BitVec 64, (∃ z, bigEndian 8 v.toNat = p ++ List.replicate z 0 ∧ (strict = true → z = 0)) →
      (∃ z, bigEndian 8 w.toNat = p ++ List.replicate z 0 ∧ (strict = true → z = 0)) → v = w := by
    rintro v w ⟨z, h1, -⟩ ⟨z', h2, -⟩
    exact BitVec.eq_of_toNat_eq (number_same (k := 8) (by have := v.isLt; omega) (by have := w.isLt; omega) ⟨z, h1⟩ ⟨z', h2⟩)
  cases s <;> cases s' <;> first
    | (simp [Scalar.code] at hc; done)
    | (have h1 : _ = p := h; have h2 : _ = p := h'; simp only [Scalar.payload] at h1 h2; subst h1; subst h2; rfl)
    | (rw [n32 _ _ h h'])
    | (rw [n64 _ _ h h'])

theorem str_same {dict : Option (Nat → Option Bytes)} {b b' bs bs' x y : Bytes} (h : ReadsStr dict b bs) (h' : ReadsStr dict b' bs')
    (he : bs ++ x = bs' ++ y) : b = b' ∧ bs = bs' ∧ x = y := by
  cases dict with
  | none =>
    obtain ⟨l, h1, rfl⟩ := h
    obtain ⟨l', h1', rfl⟩ := h'
    rw [List.append_assoc, List.append_assoc] at he
    obtain ⟨rfl, h2, h3⟩ := numField_same h1 h1' he
    obtain ⟨rfl, rfl⟩ := List.append_inj h3 h2
    exact ⟨rfl, rfl, rfl⟩
  | some f =>
    obtain ⟨n, h1, h2⟩ := h
    obtain ⟨n', h1', h2'⟩ := h'
    obtain ⟨rfl, rfl, h3⟩ := numField_same h1 h1' he
    rw [h2] at h2'
    simp only [Option.some.injEq] at h2'
    exact ⟨h2', rfl, h3⟩

theorem scalar_same {strict last last' : Bool} {dict : Option (Nat → Option Bytes)} {s s' : Scalar} {bs bs' x y : Bytes}
    (h : ReadsScalar strict last dict s bs) (h' : ReadsScalar strict last' dict s' bs') (he : bs ++ x = bs' ++ y) : s = s' ∧ bs = bs' ∧ x = y := by
  obtain ⟨rest, rfl, h⟩ := h
  obtain ⟨rest', rfl, h'⟩ := h'
  simp only [List.cons_append, List.cons.injEq] at he
  obtain ⟨hc, he⟩ := he
  have inl : (∃ l p, NumField l p.length ∧ FillsPayload strict s p ∧ rest = l ++ p) →
      (∃ l p, NumField l p.length ∧ FillsPayload strict s' p ∧ rest' = l ++ p) → s = s' ∧ rest = rest' ∧ x = y := by
    rintro ⟨l, p, f1, f2, rfl⟩ ⟨l', p', f1', f2', rfl⟩
    rw [List.append_assoc, List.append_assoc] at he
    obtain ⟨rfl, h2, h3⟩ := numField_same f1 f1' he
    obtain ⟨rfl, rfl⟩ := List.append_inj h3 h2
    exact ⟨fills_same hc f2 f2', rfl, rfl⟩
  have key : s = s' ∧ rest = rest' ∧ x = y := by
    cases s with
    | string b =>
      cases s' with
      | string b' =>
        obtain ⟨rfl, rfl, h3⟩ := str_same h.1 h'.1 he
        exact ⟨rfl, rfl, h3⟩
      | _ => simp [Scalar.code] at hc
    | _ =>
      cases s' with
      | string b' => simp [Scalar.code] at hc
      | _ =>
        obtain ⟨l, p, g1, g2, g3, -⟩ := h
        obtain ⟨l', p', g1', g2', g3', -⟩ := h'
        exact inl ⟨l, p, g1, g2, g3⟩ ⟨l', p', g1', g2', g3'⟩
  exact ⟨key.1, by rw [key.2.1, hc], key.2.2⟩

theorem kind_same {d d' : Doc} {s s' : Bool} (h : kindByte d s = kindByte d' s') : docType d = docType d' := by
  cases d <;> cases d' <;> first | rfl | (exfalso; revert h; cases s <;> cases s' <;> (simp only [kindByte]; decide))

mutual
theorem reads_same {strict : Bool} {dict : Option (Nat → Option Bytes)} : ∀ (last last' : Bool) (d d' : Doc) (bs bs' x y : Bytes), docType d = docType d' →
    Reads strict last dict d bs → Reads strict last' dict d' bs' → bs ++ x = bs' ++ y → d = d' ∧ bs = bs' ∧ x = y
  | last, last', .scalar s, d', bs, bs', x, y, ht, h, h', he => by
    cases d' with
    | scalar s' =>
      obtain ⟨rfl, h1, h2⟩ := scalar_same h h' he
      exact ⟨rfl, h1, h2⟩
    | array => simp [docType] at ht
    | map => simp [docType] at ht
  | last, last', .array xs, d', bs, bs', x, y, ht, h, h', he => by
    cases d' with
    | scalar s' => simp [docType] at ht
    | map => simp [docType] at ht
    | array xs' =>
      obtain ⟨c, i, rest, id, rfl, h1, h2, h3⟩ := h
      obtain ⟨c', i', rest', id', rfl, h1', h2', h3'⟩ := h'
      simp only [List.append_assoc] at he
      obtain ⟨rfl, g1, he⟩ := numField_same h1 h1' he
      obtain ⟨rfl, -, he⟩ := numField_same h2 h2' he
      obtain ⟨rfl, rfl, g⟩ := readsL_same _ _ xs xs' rest rest' x y g1 h3 h3' he
      exact ⟨rfl, rfl, g⟩
  | last, last', .map es, d', bs, bs', x, y, ht, h, h', he => by
    cases d' with
    | scalar s' => simp [docType] at ht
    | array => simp [docType] at ht
    | map es' =>
      obtain ⟨c, i, rest, id, rfl, h1, h2, h3⟩ := h
      obtain ⟨c', i', rest', id', rfl, h1', h2', h3'⟩ := h'
      simp only [List.append_assoc] at he
      obtain ⟨rfl, g1, he⟩ := numField_same h1 h1' he
      obtain ⟨rfl, -, he⟩ := numField_same h2 h2' he
      obtain ⟨rfl, rfl, g⟩ := readsE_same _ _ es es' rest rest' x y g1 h3 h3' he
      exact ⟨rfl, rfl, g⟩
theorem readsL_same {strict : Bool} {dict : Option (Nat → Option Bytes)} : ∀ (last last' : Bool) (xs xs' : List Doc) (bs bs' x y : Bytes), xs.length = xs'.length →
    ReadsL strict last dict xs bs → ReadsL strict last' dict xs' bs' → bs ++ x = bs' ++ y → xs = xs' ∧ bs = bs' ∧ x = y
  | last, last', [], xs', bs, bs', x, y, hl, h, h', he => by
    cases xs' with
    | nil => simp only [ReadsL] at h h'; subst h; subst h'; exact ⟨rfl, rfl, he⟩
    | cons => simp at hl
  | last, last', d :: xs, xs', bs, bs', x, y, hl, h, h', he => by
    cases xs' with
    | nil => simp at hl
    | cons d' xs' =>
      obtain ⟨s, b, rest, rfl, h1, h2⟩ := h
      obtain ⟨s', b', rest', rfl, h1', h2'⟩ := h'
      simp only [List.cons_append, List.append_assoc, List.cons.injEq] at he
      obtain ⟨hk, he⟩ := he
      obtain ⟨rfl, rfl, he2⟩ := reads_same _ _ d d' b b' _ _ (kind_same hk) h1 h1' he
      obtain ⟨rfl, rfl, he3⟩ := readsL_same _ _ xs xs' rest rest' x y (by simpa using hl) h2 h2' he2
      exact ⟨rfl, by rw [hk], he3⟩
theorem readsE_same {strict : Bool} {dict : Option (Nat → Option Bytes)} : ∀ (last last' : Bool) (es es' : List (Bytes × Doc)) (bs bs' x y : Bytes),
    es.length = es'.length → ReadsE strict last dict es bs → ReadsE strict last' dict es' bs' → bs ++ x = bs' ++ y → es = es' ∧ bs = bs' ∧ x = y
  | last, last', [], es', bs, bs', x, y, hl, h, h', he => by
    cases es' with
    | nil => simp only [ReadsE] at h h'; subst h; subst h'; exact ⟨rfl, rfl, he⟩
    | cons => simp at hl
  | last, last', (k, d) :: es, es', bs, bs', x, y, hl, h, h', he => by
    cases es' with
    | nil => simp at hl
    | cons e' es' =>
      obtain ⟨k', d'⟩ := e'
      obtain ⟨kb, s, b, rest, rfl, h0, h1, h2⟩ := h
      obtain ⟨kb', s', b', rest', rfl, h0', h1', h2'⟩ := h'
      simp only [List.append_assoc, List.cons_append] at he
      obtain ⟨rfl, rfl, he1⟩ := str_same h0 h0' he
      simp only [List.cons.injEq] at he1
      obtain ⟨hk, he1⟩ := he1
      obtain ⟨rfl, rfl, he2⟩ := reads_same _ _ d d' b b' _ _ (kind_same hk) h1 h1' he1
      obtain ⟨rfl, rfl, he3⟩ := readsE_same _ _ es es' rest rest' x y (by simpa using hl) h2 h2' he2
      exact ⟨rfl, by rw [hk], he3⟩
end

/-! ### the dictionary -/

theorem readsPairs_same : ∀ (es es' : List (Bytes × Nat)) (bs bs' x y : Bytes), es.length = es'.length → ReadsPairs es bs →
    ReadsPairs es' bs' → bs ++ x = bs' ++ y → es = es'
  | [], es', bs, bs', x, y, hl, h, h', he => by
    cases es' with
    | nil => rfl
    | cons => simp at hl
  | (s, id) :: es, es', bs, bs', x, y, hl, h, h', he => by
    cases es' with
    | nil => simp at hl
    | cons e' es' =>
      obtain ⟨s', id'⟩ := e'
      obtain ⟨l, i, n, rest, h1, h2, h3, rfl, h4⟩ := h
      obtain ⟨l', i', n', rest', h1', h2', h3', rfl, h4'⟩ := h'
      simp only [List.append_assoc] at he
      obtain ⟨rfl, g1, he⟩ := numField_same h1 h1' he
      obtain ⟨rfl, he1⟩ := List.append_inj he g1
      obtain ⟨rfl, rfl, he2⟩ := numField_same h2 h2' he1
      rw [h3, h3', readsPairs_same es es' rest rest' x y (by simpa using hl) h4 h4' he2]

theorem readsDict_same {es es' : List (Bytes × Nat)} {bs bs' x y : Bytes} (h : ReadsDict es bs) (h' : ReadsDict es' bs')
    (he : bs ++ x = bs' ++ y) : es = es' := by
  obtain ⟨c, n, rest, h1, h2, rfl, h3⟩ := h
  obtain ⟨c', n', rest', h1', h2', rfl, h3'⟩ := h'
  simp only [List.append_assoc] at he
  obtain ⟨rfl, rfl, he⟩ := numField_same h1 h1' he
  exact readsPairs_same es es' rest rest' x y (by rw [h2, h2']) h3 h3' he

theorem dictSection_same {es es' : List (Bytes × Nat)} {rest r1 r2 : Bytes} (h : DictSection es rest r1) (h' : DictSection es' rest r2) :
    es = es' := by
  obtain ⟨l, body, bs, h1, h2, ⟨t, rfl⟩, h4⟩ := h
  obtain ⟨l', body', bs', h1', h2', ⟨t', rfl⟩, h4'⟩ := h'
  rw [h1] at h1'
  obtain ⟨rfl, g1, he⟩ := numField_same h2 h2' h1'
  simp only [List.append_assoc] at he
  exact readsDict_same h4 h4' he

end Bridge
