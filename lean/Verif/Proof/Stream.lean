import Verif.Spec.Stream
import Verif.Proof.Unambiguous
import Verif.Proof.VarintAny
/-
Finding the ends of documents.
-/
set_option autoImplicit false
namespace Bridge
open Spec

theorem readLeb_leb (n : Nat) : ∀ r : Bytes, readLeb (leb128 n ++ r) = some (n, r) := by
  induction n using Nat.strongRecOn with
  | _ n ih =>
    intro r
    by_cases h : n < 128
    · rw [leb128_small h]
      have : (UInt8.ofNat n).toNat = n := by simp; omega
      simp only [List.cons_append, List.nil_append, readLeb, this, if_pos h]
    · rw [leb128_big h]
      have : (UInt8.ofNat (n % 128 + 128)).toNat = n % 128 + 128 := by simp; omega
      have h2 : ¬ n % 128 + 128 < 128 := by omega
      simp only [List.cons_append, readLeb, this, if_neg h2, ih (n / 128) (by omega), Option.map_some, Option.some.injEq, Prod.mk.injEq, and_true]
      omega

theorem readLeb_cut (n : Nat) : ∀ k, k < (leb128 n).length → readLeb ((leb128 n).take k) = none := by
  induction n using Nat.strongRecOn with
  | _ n ih =>
    intro k hk
    by_cases h : n < 128
    · rw [leb128_small h] at hk ⊢
      have : k = 0 := by simpa using hk
      subst this; rfl
    · rw [leb128_big h] at hk ⊢
      cases k with
      | zero => rfl
      | succ k =>
        have : (UInt8.ofNat (n % 128 + 128)).toNat = n % 128 + 128 := by simp; omega
        have h2 : ¬ n % 128 + 128 < 128 := by omega
        simp only [List.take_succ_cons, readLeb, this, if_neg h2, ih (n / 128) (by omega) k (by simpa using hk), Option.map_none]

theorem skipTable_table (x r : Bytes) : skipTable (leb128 x.length ++ x ++ r) = some r := by
  simp [skipTable, List.append_assoc, readLeb_leb]

theorem skipTable_cut (x : Bytes) (k : Nat) (h : k < (leb128 x.length ++ x).length) : skipTable ((leb128 x.length ++ x).take k) = none := by
  unfold skipTable
  by_cases hk : k < (leb128 x.length).length
  · rw [List.take_append_of_le_length (by omega), readLeb_cut _ _ hk]; rfl
  · rw [List.take_append, List.take_of_length_le (by omega : (leb128 x.length).length ≤ k), readLeb_leb]
    have : ¬ x.length ≤ k - (leb128 x.length).length := by simp at h; omega
    simp [this]
    omega

theorem foldl_big (l : Bytes) : ∀ a : Nat, l.foldl (fun n b => 256 * n + b.toNat) a = 256 ^ l.length * a + l.foldl (fun n b => 256 * n + b.toNat) 0 := by
  induction l with
  | nil => simp
  | cons b l ih =>
    intro a
    simp only [List.foldl_cons, List.length_cons]
    rw [ih (256 * a + b.toNat), ih (256 * 0 + b.toNat), Nat.pow_succ]
    simp [Nat.mul_add, Nat.mul_assoc, Nat.add_assoc]

theorem bigValue_big (k : Nat) : ∀ n : Nat, n < 256 ^ k → bigValue (bigEndian k n) = n := by
  induction k with
  | zero => intro n h; simp at h; subst h; rfl
  | succ k ih =>
    intro n h
    have e : bigEndian (k + 1) n = UInt8.ofNat (n / 256 ^ k) :: bigEndian k (n % 256 ^ k) := by
      unfold bigEndian
      rw [List.range_succ_eq_map]
      simp only [List.map_cons, List.map_map, Nat.add_sub_cancel, Nat.sub_zero, List.cons.injEq, true_and]
      apply List.map_congr_left
      intro i hi
      have hi : i < k := by simpa using hi
      simp only [Function.comp]
      have e1 : k - (i + 1) = k - 1 - i := by omega
      rw [e1]
      apply UInt8.eq_of_toBitVec_eq
      apply BitVec.eq_of_toNat_eq
      simp only [UInt8.toBitVec_ofNat', BitVec.toNat_ofNat]
      have e2 : 256 ^ k = 256 ^ (k - 1 - i) * (256 * 256 ^ i) := by
        rw [← Nat.pow_succ', ← Nat.pow_add]; congr 1; omega
      rw [e2, Nat.mod_mul_right_div_self, Nat.mod_mul_right_mod]
    have hl : n / 256 ^ k < 256 := Nat.div_lt_of_lt_mul (by rw [← Nat.pow_succ]; exact h)
    have hv : (UInt8.ofNat (n / 256 ^ k)).toNat = n / 256 ^ k := by simp; omega
    have := ih (n % 256 ^ k) (Nat.mod_lt _ (Nat.pow_pos (by decide)))
    unfold bigValue at this ⊢
    rw [e, List.foldl_cons, foldl_big, this, hv, bigEndian_length, Nat.mul_zero, Nat.zero_add]
    exact Nat.div_add_mod n (256 ^ k)

/-- The end of `x` can be found, and that it is not there yet can be noticed. -/
structure Framed (x : Bytes) : Prop where
  pos : 0 < x.length
  found : ∀ rest, afterFirst (x ++ rest) = some rest
  short : ∀ k, k < x.length → afterFirst (x.take k) = none

/-- Documents of this layout are framed. -/
theorem framed_layout {main dict tbl : Bytes} (h8 : main.take 8 = bigEndian 8 main.length) (h10 : 10 ≤ main.length) (hlt : main.length < 2 ^ 32)
    (hd : (main[8]? = some 0 ∧ dict = []) ∨ (main[8]? ≠ some 0 ∧ ∃ s : Bytes, dict = leb128 s.length ++ s)) :
    Framed (main ++ (dict ++ (leb128 tbl.length ++ tbl))) := by
  have hb : ∀ r : Bytes, bigValue ((main ++ r).take 8) = main.length := fun r => by
    rw [List.take_append_of_le_length (by omega), h8, bigValue_big 8 _ (by omega)]
  have hr : ∀ r : Bytes, ¬ ((main ++ r).length < 10 ∨ (main ++ r).length < main.length) := fun r => by simp; omega
  have h9 : ∀ r : Bytes, (main ++ r)[8]? = main[8]? := fun r => List.getElem?_append_left (by omega)
  have hdrop : ∀ r : Bytes, (main ++ r).drop main.length = r := fun r => by simp
  refine ⟨by simp; omega, fun rest => ?_, fun k hk => ?_⟩
  · unfold afterFirst
    rw [List.append_assoc, hb, if_neg (hr _), h9, hdrop]
    rcases hd with ⟨h, rfl⟩ | ⟨h, s, rfl⟩
    · rw [if_pos h, List.nil_append, skipTable_table]
    · rw [if_neg h, List.append_assoc, skipTable_table, Option.bind_some, skipTable_table]
  · by_cases hm : k < main.length
    · rw [List.take_append_of_le_length (by omega)]
      unfold afterFirst
      by_cases h1 : k < 10
      · rw [if_pos (.inl (by simp; omega))]
      · have h2 : bigValue ((main.take k).take 8) = main.length := by
          rw [List.take_take, Nat.min_eq_left (by omega), h8, bigValue_big 8 _ (by omega)]
        have h3 : (main.take k).length < main.length := by rw [List.length_take]; omega
        rw [if_pos (.inr (by rw [h2]; exact h3))]
    · rw [List.take_append, List.take_of_length_le (by omega : main.length ≤ k)]
      unfold afterFirst
      rw [hb, if_neg (hr _), h9, hdrop]
      have hk' : k - main.length < (dict ++ (leb128 tbl.length ++ tbl)).length := by simp only [List.length_append] at hk ⊢; omega
      generalize k - main.length = j at hk'
      rcases hd with ⟨h, rfl⟩ | ⟨h, s, rfl⟩
      · rw [if_pos h, List.nil_append]
        exact skipTable_cut _ _ (by simpa using hk')
      · rw [if_neg h]
        by_cases hj : j < (leb128 s.length ++ s).length
        · rw [List.take_append_of_le_length (by omega), skipTable_cut _ _ hj]; rfl
        · rw [List.take_append, List.take_of_length_le (by omega : (leb128 s.length ++ s).length ≤ j), skipTable_table, Option.bind_some]
          exact skipTable_cut _ _ (by simp only [List.length_append] at hk' hj ⊢; omega)

theorem cutAll_stops {s : Bytes} (h : afterFirst s = none) : cutAll s = ([], s) := by
  rw [cutAll, h]

theorem cutAll_takes {x rest : Bytes} (h : Framed x) : cutAll (x ++ rest) = (x :: (cutAll rest).1, (cutAll rest).2) := by
  rw [cutAll, h.found]
  have := h.pos
  simp [this]

theorem afterFirst_nil : afterFirst [] = none := by simp [afterFirst]

/-- What has arrived so far is cut at the ends of the documents. -/
theorem cutAll_prefix (l : List Bytes) (hl : ∀ x ∈ l, Framed x) : ∀ s later : Bytes, s ++ later = l.flatten →
    ∃ a b : List Bytes, ∃ r : Bytes, l = a ++ b ∧ cutAll s = (a, r) ∧ afterFirst r = none ∧ r ++ later = b.flatten := by
  induction l with
  | nil =>
    intro s later h
    have hs : s = [] := by have := congrArg List.length h; simp at this; exact this.1
    subst hs
    exact ⟨[], [], [], rfl, cutAll_stops afterFirst_nil, afterFirst_nil, h⟩
  | cons x xs ih =>
    intro s later h
    have hx := hl x (by simp)
    rw [List.flatten_cons] at h
    by_cases hle : x.length ≤ s.length
    · obtain ⟨s', rfl⟩ : ∃ s', s = x ++ s' := by
        refine ⟨s.drop x.length, ?_⟩
        have := congrArg (List.take x.length) h
        rw [List.take_append_of_le_length hle, List.take_left] at this
        have h2 := List.take_append_drop x.length s
        rw [this] at h2
        exact h2.symm
      rw [List.append_assoc, List.append_cancel_left_eq] at h
      obtain ⟨a, b, r, h1, h2, h3, h4⟩ := ih (fun y hy => hl y (by simp [hy])) s' later h
      exact ⟨x :: a, b, r, by rw [h1]; rfl, by rw [cutAll_takes hx, h2], h3, h4⟩
    · have hs : s = x.take s.length := by
        have := congrArg (List.take s.length) h
        rw [List.take_left, List.take_append_of_le_length (by omega)] at this
        exact this
      have hn : afterFirst s = none := by rw [hs]; exact hx.short _ (by omega)
      exact ⟨[], x :: xs, s, rfl, cutAll_stops hn, hn, by rw [List.flatten_cons]; exact h⟩

theorem receive_all (chunks : List Bytes) : ∀ (buf : Bytes) (l : List Bytes), (∀ x ∈ l, Framed x) → afterFirst buf = none →
    buf ++ chunks.flatten = l.flatten → receive buf chunks = (l, []) := by
  induction chunks with
  | nil =>
    intro buf l hl hb h
    cases l with
    | nil =>
      have : buf = [] := by simpa using h
      rw [this]; rfl
    | cons x xs =>
      exfalso
      rw [List.flatten_nil, List.append_nil, List.flatten_cons] at h
      rw [h, (hl x (by simp)).found] at hb
      cases hb
  | cons c cs ih =>
    intro buf l hl hb h
    rw [List.flatten_cons, ← List.append_assoc] at h
    obtain ⟨a, b, r, rfl, h2, h3, h4⟩ := cutAll_prefix l hl _ _ h
    have := ih r b (fun x hx => hl x (by simp [hx])) h3 h4
    simp only [receive, h2, this]

/-! ### Any bytes -/

theorem readLeb_more : ∀ {s : Bytes} {n : Nat} {r : Bytes}, readLeb s = some (n, r) →
    ∃ p, p ≠ [] ∧ s = p ++ r ∧ ∀ x, readLeb (s ++ x) = some (n, r ++ x)
  | [], _, _, h => by cases h
  | b :: bs, n, r, h => by
    unfold readLeb at h
    by_cases hb : b.toNat < 128
    · rw [if_pos hb] at h
      simp only [Option.some.injEq, Prod.mk.injEq] at h
      obtain ⟨rfl, rfl⟩ := h
      exact ⟨[b], by simp, rfl, fun x => by simp only [List.cons_append, readLeb, if_pos hb]⟩
    · rw [if_neg hb, Option.map_eq_some_iff] at h
      obtain ⟨⟨m, r'⟩, h1, h2⟩ := h
      simp only [Prod.mk.injEq] at h2
      obtain ⟨rfl, rfl⟩ := h2
      obtain ⟨p, -, h3, h4⟩ := readLeb_more h1
      exact ⟨b :: p, by simp, by rw [h3]; rfl, fun x => by simp only [List.cons_append, readLeb, if_neg hb, h4, Option.map_some]⟩

theorem skipTable_more {s r : Bytes} (h : skipTable s = some r) : ∃ p, p ≠ [] ∧ s = p ++ r ∧ ∀ x, skipTable (s ++ x) = some (r ++ x) := by
  unfold skipTable at h
  rw [Option.bind_eq_some_iff] at h
  obtain ⟨⟨n, r1⟩, h1, h2⟩ := h
  obtain ⟨p, hp, h3, h4⟩ := readLeb_more h1
  simp only at h2
  by_cases hn : n ≤ r1.length
  · rw [if_pos hn, Option.some.injEq] at h2
    subst h2
    refine ⟨p ++ r1.take n, by simp [hp], by rw [List.append_assoc, List.take_append_drop]; exact h3, fun x => ?_⟩
    unfold skipTable
    rw [h4, Option.bind_some]
    simp only
    rw [if_pos (by rw [List.length_append]; omega), List.drop_append_of_le_length hn]
  · rw [if_neg hn] at h2; cases h2

theorem afterFirst_more {s r : Bytes} (h : afterFirst s = some r) : ∃ p, p ≠ [] ∧ s = p ++ r ∧ ∀ x, afterFirst (s ++ x) = some (r ++ x) := by
  unfold afterFirst at h
  by_cases hl : s.length < 10 ∨ s.length < bigValue (s.take 8)
  · rw [if_pos hl] at h; cases h
  rw [if_neg hl] at h
  have ht : ∀ x : Bytes, (s ++ x).take 8 = s.take 8 := fun x => List.take_append_of_le_length (by omega)
  have h8 : ∀ x : Bytes, (s ++ x)[8]? = s[8]? := fun x => List.getElem?_append_left (by omega)
  have hl' : ∀ x : Bytes, ¬ ((s ++ x).length < 10 ∨ (s ++ x).length < bigValue (s.take 8)) := fun x => by rw [List.length_append]; omega
  have hd : ∀ x : Bytes, (s ++ x).drop (bigValue (s.take 8)) = s.drop (bigValue (s.take 8)) ++ x := fun x =>
    List.drop_append_of_le_length (by omega)
  have hs := (List.take_append_drop (bigValue (s.take 8)) s).symm
  by_cases h0 : s[8]? = some 0
  · rw [if_pos h0] at h
    obtain ⟨p, hp, h1, h2⟩ := skipTable_more h
    refine ⟨s.take (bigValue (s.take 8)) ++ p, by simp [hp], ?_, fun x => ?_⟩
    · rw [List.append_assoc, ← h1]; exact hs
    · unfold afterFirst
      rw [ht, if_neg (hl' x), h8, if_pos h0, hd, h2]
  · rw [if_neg h0, Option.bind_eq_some_iff] at h
    obtain ⟨r1, h3, h⟩ := h
    obtain ⟨p, hp, h1, h2⟩ := skipTable_more h3
    obtain ⟨q, hq, h4, h5⟩ := skipTable_more h
    refine ⟨s.take (bigValue (s.take 8)) ++ p ++ q, by simp [hp], ?_, fun x => ?_⟩
    · rw [List.append_assoc, List.append_assoc, ← h4, ← h1]; exact hs
    · unfold afterFirst
      rw [ht, if_neg (hl' x), h8, if_neg h0, hd, h2, Option.bind_some, h5]

theorem cutAll_some {s r : Bytes} (h : afterFirst s = some r) : ∃ p, p ≠ [] ∧ s = p ++ r ∧ cutAll s = (p :: (cutAll r).1, (cutAll r).2) := by
  obtain ⟨p, hp, h1, -⟩ := afterFirst_more h
  refine ⟨p, hp, h1, ?_⟩
  have : 0 < p.length := List.length_pos_iff.mpr hp
  rw [cutAll, h]
  subst h1
  simp [this]

/-- What is cut off later does not depend on when it arrives. -/
theorem cutAll_later (n : Nat) : ∀ s : Bytes, s.length = n → afterFirst (cutAll s).2 = none ∧ (cutAll s).1.flatten ++ (cutAll s).2 = s ∧
    ∀ x, cutAll (s ++ x) = ((cutAll s).1 ++ (cutAll ((cutAll s).2 ++ x)).1, (cutAll ((cutAll s).2 ++ x)).2) := by
  induction n using Nat.strongRecOn with
  | _ n ih =>
    intro s hs
    cases h : afterFirst s with
    | none => rw [cutAll_stops h]; exact ⟨h, rfl, fun x => rfl⟩
    | some r =>
      obtain ⟨p, hp, h1, h2⟩ := cutAll_some h
      have hpl : 0 < p.length := List.length_pos_iff.mpr hp
      obtain ⟨h3, h4, h5⟩ := ih r.length (by rw [← hs, h1, List.length_append]; omega) r rfl
      rw [h2]
      refine ⟨h3, ?_, fun x => ?_⟩
      · simp only [List.flatten_cons, List.append_assoc]
        rw [h4]; exact h1.symm
      · obtain ⟨-, -, -, h6⟩ := afterFirst_more h
        obtain ⟨q, -, h7, h8⟩ := cutAll_some (h6 x)
        have : q = p := by
          rw [h1, List.append_assoc] at h7
          exact (List.append_cancel_right h7).symm
        rw [h8, this, h5 x]
        rfl

theorem receive_cut (chunks : List Bytes) : ∀ buf : Bytes, afterFirst buf = none → receive buf chunks = cutAll (buf ++ chunks.flatten) := by
  induction chunks with
  | nil => intro buf h; rw [List.flatten_nil, List.append_nil, cutAll_stops h]; rfl
  | cons c cs ih =>
    intro buf _
    obtain ⟨h1, -, h3⟩ := cutAll_later _ (buf ++ c) rfl
    rw [receive, ih _ h1, List.flatten_cons, ← List.append_assoc, h3]

theorem cutAll_good (l : List Bytes) (hl : ∀ x ∈ l, Framed x) (bad : Bytes) :
    cutAll (l.flatten ++ bad) = (l ++ (cutAll bad).1, (cutAll bad).2) := by
  induction l with
  | nil => rfl
  | cons x xs ih =>
    rw [List.flatten_cons, List.append_assoc, cutAll_takes (hl x (by simp)), ih fun y hy => hl y (by simp [hy])]
    rfl

end Bridge
