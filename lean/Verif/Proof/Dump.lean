import Verif.Model.Dump
import Verif.Model.Abs
import Verif.Spec.Dump
import Verif.Spec.Format
import Verif.Proof.Pattern
/-
The text of a dump.
-/
set_option autoImplicit false
namespace Bridge
open Spec

theorem blanks_nat (n : Nat) : blanks (n : Int) = .ok (spaces n) := by
  simp [blanks, spaces]

/-- A line feed before each line. -/
def fed : List Bytes → Bytes
  | [] => []
  | l :: ls => 10 :: (l ++ fed ls)

theorem fed_append (a b : List Bytes) : fed (a ++ b) = fed a ++ fed b := by
  induction a with
  | nil => rfl
  | cons x a ih => simp [fed, ih]

theorem joinLines_cons (l : Bytes) (ls : List Bytes) : joinLines (l :: ls) = l ++ fed ls := by
  induction ls generalizing l with
  | nil => simp [joinLines, fed]
  | cons m ls ih => rw [joinLines]; · rw [ih, fed]
                    · simp

theorem lines_ne (d : Doc) (n : Nat) : d.lines n ≠ [] := by
  cases d <;> simp [Doc.lines]

theorem fed_lines (d : Doc) (n : Nat) : 10 :: joinLines (d.lines n) = fed (d.lines n) := by
  cases h : d.lines n with
  | nil => exact absurd h (lines_ne d n)
  | cons l ls => rw [joinLines_cons, fed]

theorem typeName_eq (s : Scalar) : dataTypeToStr s.code = s.typeName := by
  cases s <;> rfl

mutual
theorem dump_doc : ∀ (o : Obj) {d : Doc} (buf : Bytes) (n : Nat), o.doc? = some d →
    o.dump buf (n : Int) = .ok (buf ++ joinLines (d.lines n))
  | .null, d, buf, n, h => by simp [Obj.doc?] at h
  | .data r dt p, d, buf, n, h => by
    obtain ⟨s, rfl, hs⟩ := data_doc h
    have hc := scalarOf_code hs
    simp only [Obj.dump, blanks_nat, ok_bind, pure_eq_ok, Doc.lines, joinLines, ← typeName_eq, hc, ObjectType.toStr]
    simp [lit, ascii]
  | .array pool size items, d, buf, n, h => by
    obtain ⟨xs, rfl, hs, hx⟩ := array_doc h
    have hl : size = xs.length := by rw [hs]; exact (docs?_length hx).symm
    simp only [Obj.dump, blanks_nat, ok_bind, Doc.lines, joinLines_cons]
    rw [dumpItems_doc items _ n hx, hl]
    simp [lit, ascii, ObjectType.toStr, toStringU, decimal]
  | .map ref pool size items, d, buf, n, h => by
    obtain ⟨es, rfl, hs, hx⟩ := map_doc h
    have hl : size = es.length := by rw [hs]; exact (entries?_length hx).symm
    have hb : blanks ((n : Int) + 1) = .ok (spaces (n + 1)) := by
      rw [show (n : Int) + 1 = ((n + 1 : Nat) : Int) by omega, blanks_nat]
    simp only [Obj.dump, blanks_nat, hb, ok_bind, Doc.lines, joinLines_cons]
    rw [dumpEntries_doc items _ n hx, hl]
    simp [lit, ascii, ObjectType.toStr, toStringU, decimal]
theorem dumpItems_doc : ∀ (os : List Obj) {xs : List Doc} (buf : Bytes) (n : Nat), docs? os = some xs →
    dumpItems os buf (n : Int) = .ok (buf ++ fed (linesL xs (n + 1)))
  | [], xs, buf, n, h => by
    simp only [docs?, Option.some.injEq] at h
    subst h
    simp [dumpItems, linesL, fed]
  | o :: os, xs, buf, n, h => by
    obtain ⟨d, ds, rfl, h1, h2⟩ := docs?_cons h
    have e : (n : Int) + 1 = ((n + 1 : Nat) : Int) := by omega
    simp only [dumpItems]
    rw [e, dump_doc o _ (n + 1) h1, ok_bind, dumpItems_doc os _ n h2]
    simp only [linesL, fed_append, ← fed_lines]
    simp
theorem dumpEntries_doc : ∀ (os : List (Str × Obj)) {es : List (Bytes × Doc)} (buf : Bytes) (n : Nat), entries? os = some es →
    dumpEntries os (spaces (n + 1)) buf (n : Int) = .ok (buf ++ fed (linesE es (n + 1)))
  | [], es, buf, n, h => by
    simp only [entries?, Option.some.injEq] at h
    subst h
    simp [dumpEntries, linesE, fed]
  | (k, o) :: os, es, buf, n, h => by
    obtain ⟨d, ds, rfl, h1, h2⟩ := entries?_cons h
    have e : (n : Int) + 2 = ((n + 2 : Nat) : Int) := by omega
    simp only [dumpEntries]
    rw [e, dump_doc o _ (n + 2) h1, ok_bind, dumpEntries_doc os _ n h2]
    simp only [linesE, fed, fed_append, ← fed_lines]
    simp [lit, ascii]
end

/-! ### What a dump determines -/

theorem digit_byte {c : Char} (h : c.isDigit = true) : c.toNat < 128 ∧ 48 ≤ c.toNat := by
  simp only [Char.isDigit, Bool.and_eq_true, decide_eq_true_eq, ge_iff_le, UInt32.le_iff_toNat_le] at h
  have h1 : c.toNat = c.val.toNat := rfl
  have h2 : ('0' : Char).val.toNat = 48 := rfl
  have h3 : ('9' : Char).val.toNat = 57 := rfl
  omega

theorem byte_char {c : Char} (h : c.toNat < 128) : Char.ofNat (UInt8.ofNat c.toNat).toNat = c := by
  have : (UInt8.ofNat c.toNat).toNat = c.toNat := by
    simp only [UInt8.toNat_ofNat']
    omega
  rw [this, Char.ofNat_toNat]

theorem decimal_inj {m n : Nat} (h : decimal m = decimal n) : m = n := by
  have back : ∀ k, (decimal k).map (fun b => Char.ofNat b.toNat) = Nat.toDigits 10 k := by
    intro k
    rw [decimal, List.map_map]
    conv => rhs; rw [← List.map_id (Nat.toDigits 10 k)]
    refine List.map_congr_left fun c hc => ?_
    exact byte_char (digit_byte (Nat.isDigit_of_mem_toDigits (by omega) (by omega) hc)).1
  have := congrArg (List.map fun b => Char.ofNat b.toNat) h
  rw [back, back] at this
  rw [← Nat.ofDigitChars_ten_toDigits (n := m), this, Nat.ofDigitChars_ten_toDigits]

theorem decimal_no_newline (n : Nat) : (10 : UInt8) ∉ decimal n := by
  rw [decimal, List.mem_map]
  rintro ⟨c, hc, h⟩
  have hd := digit_byte (Nat.isDigit_of_mem_toDigits (by omega) (by omega) hc)
  have : (UInt8.ofNat c.toNat).toNat = 10 := by rw [h]; rfl
  simp only [UInt8.toNat_ofNat'] at this
  omega

/-- The header lines of two documents at the same indentation agree only if they are of the same kind. -/
theorem head_data_array (n : Nat) (a b : Bytes) : spaces n ++ ascii "Data[ " ++ a ++ ascii " ]" ≠
    spaces n ++ ascii "Array[ " ++ b ++ ascii " ]" := by
  intro h
  simp only [List.append_assoc, List.append_cancel_left_eq] at h
  simp [ascii] at h
theorem head_data_map (n : Nat) (a b : Bytes) : spaces n ++ ascii "Data[ " ++ a ++ ascii " ]" ≠
    spaces n ++ ascii "Map[ " ++ b ++ ascii " ]" := by
  intro h
  simp only [List.append_assoc, List.append_cancel_left_eq] at h
  simp [ascii] at h
theorem head_array_map (n : Nat) (a b : Bytes) : spaces n ++ ascii "Array[ " ++ a ++ ascii " ]" ≠
    spaces n ++ ascii "Map[ " ++ b ++ ascii " ]" := by
  intro h
  simp only [List.append_assoc, List.append_cancel_left_eq] at h
  simp [ascii] at h
theorem around_inj {a b p q : Bytes} (s : Bytes) (h : s ++ p ++ a ++ q = s ++ p ++ b ++ q) : a = b := by
  simpa using h

mutual
theorem lines_inj : ∀ (d : Doc) {d' : Doc} {n : Nat} {r r' : List Bytes}, d.lines n ++ r = d'.lines n ++ r' →
    d.SameShape d' ∧ r = r'
  | .scalar s, d', n, r, r', h => by
    cases d' with
    | scalar s' =>
      simp only [Doc.lines, List.cons_append, List.nil_append, List.cons.injEq] at h
      exact ⟨⟨s', rfl, around_inj _ h.1⟩, h.2⟩
    | array xs =>
      simp only [Doc.lines, List.cons_append, List.cons.injEq] at h
      exact absurd h.1 (head_data_array n _ _)
    | map es =>
      simp only [Doc.lines, List.cons_append, List.cons.injEq] at h
      exact absurd h.1 (head_data_map n _ _)
  | .array xs, d', n, r, r', h => by
    cases d' with
    | scalar s' =>
      simp only [Doc.lines, List.cons_append, List.cons.injEq] at h
      exact absurd h.1.symm (head_data_array n _ _)
    | array ys =>
      simp only [Doc.lines, List.cons_append, List.cons.injEq] at h
      have := linesL_inj xs (decimal_inj (around_inj _ h.1)) h.2
      exact ⟨⟨ys, rfl, this.1⟩, this.2⟩
    | map es =>
      simp only [Doc.lines, List.cons_append, List.cons.injEq] at h
      exact absurd h.1 (head_array_map n _ _)
  | .map xs, d', n, r, r', h => by
    cases d' with
    | scalar s' =>
      simp only [Doc.lines, List.cons_append, List.cons.injEq] at h
      exact absurd h.1.symm (head_data_map n _ _)
    | map ys =>
      simp only [Doc.lines, List.cons_append, List.cons.injEq] at h
      have := linesE_inj xs (decimal_inj (around_inj _ h.1)) h.2
      exact ⟨⟨ys, rfl, this.1⟩, this.2⟩
    | array es =>
      simp only [Doc.lines, List.cons_append, List.cons.injEq] at h
      exact absurd h.1.symm (head_array_map n _ _)
theorem linesL_inj : ∀ (xs : List Doc) {ys : List Doc} {n : Nat} {r r' : List Bytes}, xs.length = ys.length →
    linesL xs n ++ r = linesL ys n ++ r' → SameShapeL xs ys ∧ r = r'
  | [], ys, n, r, r', hl, h => by
    cases ys with
    | nil => exact ⟨rfl, by simpa [linesL] using h⟩
    | cons _ _ => simp at hl
  | x :: xs, ys, n, r, r', hl, h => by
    cases ys with
    | nil => simp at hl
    | cons y ys =>
      simp only [linesL, List.append_assoc] at h
      obtain ⟨h1, h2⟩ := lines_inj x h
      obtain ⟨h3, h4⟩ := linesL_inj xs (by simpa using hl) h2
      exact ⟨⟨y, ys, rfl, h1, h3⟩, h4⟩
theorem linesE_inj : ∀ (xs : List (Bytes × Doc)) {ys : List (Bytes × Doc)} {n : Nat} {r r' : List Bytes}, xs.length = ys.length →
    linesE xs n ++ r = linesE ys n ++ r' → SameShapeE xs ys ∧ r = r'
  | [], ys, n, r, r', hl, h => by
    cases ys with
    | nil => exact ⟨rfl, by simpa [linesE] using h⟩
    | cons _ _ => simp at hl
  | (k, x) :: xs, ys, n, r, r', hl, h => by
    cases ys with
    | nil => simp at hl
    | cons y ys =>
      obtain ⟨k', y⟩ := y
      simp only [linesE, List.append_assoc, List.cons_append, List.cons.injEq] at h
      obtain ⟨h0, h⟩ := h
      have hk : k = k' := by simpa using h0
      subst hk
      obtain ⟨h1, h2⟩ := lines_inj x h
      obtain ⟨h3, h4⟩ := linesE_inj xs (by simpa using hl) h2
      exact ⟨⟨y, ys, rfl, h1, h3⟩, h4⟩
end

mutual
theorem lines_no_newline : ∀ (d : Doc) (n : Nat), d.NoNewlineKeys → ∀ l ∈ d.lines n, (10 : UInt8) ∉ l
  | .scalar s, n, h, l, hl => by
    simp only [Doc.lines, List.mem_singleton] at hl
    subst hl
    cases s <;> simp [spaces, ascii, Scalar.typeName]
  | .array xs, n, h, l, hl => by
    simp only [Doc.lines, List.mem_cons] at hl
    rcases hl with rfl | hl
    · have := decimal_no_newline xs.length
      simp [spaces, ascii, this]
    · exact linesL_no_newline xs (n + 1) h l hl
  | .map xs, n, h, l, hl => by
    simp only [Doc.lines, List.mem_cons] at hl
    rcases hl with rfl | hl
    · have := decimal_no_newline xs.length
      simp [spaces, ascii, this]
    · exact linesE_no_newline xs (n + 1) h l hl
theorem linesL_no_newline : ∀ (xs : List Doc) (n : Nat), noNewlineKeysL xs → ∀ l ∈ linesL xs n, (10 : UInt8) ∉ l
  | [], n, h, l, hl => by simp [linesL] at hl
  | x :: xs, n, h, l, hl => by
    simp only [noNewlineKeysL] at h
    simp only [linesL, List.mem_append] at hl
    rcases hl with hl | hl
    · exact lines_no_newline x n h.1 l hl
    · exact linesL_no_newline xs n h.2 l hl
theorem linesE_no_newline : ∀ (xs : List (Bytes × Doc)) (n : Nat), noNewlineKeysE xs → ∀ l ∈ linesE xs n, (10 : UInt8) ∉ l
  | [], n, h, l, hl => by simp [linesE] at hl
  | (k, x) :: xs, n, h, l, hl => by
    simp only [noNewlineKeysE] at h
    simp only [linesE, List.mem_cons, List.mem_append] at hl
    rcases hl with rfl | hl | hl
    · have := h.1
      simp [spaces, ascii, this]
    · exact lines_no_newline x (n + 1) h.2.1 l hl
    · exact linesE_no_newline xs n h.2.2 l hl
end

/-- Lines without line feeds can be told apart. -/
theorem cut_unique {a b r r' : Bytes} (ha : (10 : UInt8) ∉ a) (hb : (10 : UInt8) ∉ b) (h : a ++ 10 :: r = b ++ 10 :: r') :
    a = b ∧ r = r' := by
  induction a generalizing b with
  | nil =>
    cases b with
    | nil => simpa using h
    | cons y b => simp at h; simp [← h.1] at hb
  | cons x a ih =>
    cases b with
    | nil => simp at h; simp [h.1] at ha
    | cons y b =>
      simp only [List.cons_append, List.cons.injEq] at h
      simp only [List.mem_cons, not_or] at ha hb
      obtain ⟨h1, h2⟩ := ih ha.2 hb.2 h.2
      exact ⟨by rw [h.1, h1], h2⟩

theorem joinLines_inj {a b : List Bytes} (ha : ∀ l ∈ a, (10 : UInt8) ∉ l) (hb : ∀ l ∈ b, (10 : UInt8) ∉ l) (ha0 : a ≠ [])
    (hb0 : b ≠ []) (h : joinLines a = joinLines b) : a = b := by
  induction a generalizing b with
  | nil => exact absurd rfl ha0
  | cons x a ih =>
    cases b with
    | nil => exact absurd rfl hb0
    | cons y b =>
      rw [joinLines_cons, joinLines_cons] at h
      have hx := ha x (by simp)
      have hy := hb y (by simp)
      cases a with
      | nil =>
        cases b with
        | nil => simp [fed] at h; simp [h]
        | cons z b => simp only [fed, List.append_nil] at h; rw [h] at hx; simp at hx
      | cons z a =>
        cases b with
        | nil => simp only [fed, List.append_nil] at h; rw [← h] at hy; simp at hy
        | cons w b =>
          simp only [fed] at h
          obtain ⟨h1, h2⟩ := cut_unique hx hy h
          have := ih (b := w :: b) (fun l hl => ha l (by simp only [List.mem_cons] at hl ⊢; exact .inr hl))
            (fun l hl => hb l (by simp only [List.mem_cons] at hl ⊢; exact .inr hl)) (by simp) (by simp)
            (by rw [joinLines_cons, joinLines_cons, h2])
          rw [h1, this]

end Bridge
