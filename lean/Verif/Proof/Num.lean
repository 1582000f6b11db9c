import Verif.Model.DataType
import Verif.Proof.Varint
/-
Lemmas about byte order.
-/
namespace Bridge
open Spec

theorem leBytes_length (k n : Nat) : (leBytes k n).length = k := by
  induction k generalizing n with
  | zero => rfl
  | succ k ih => simp [leBytes, ih]

theorem ofLeBytes_leBytes (k n : Nat) : ofLeBytes (leBytes k n) = n % 256 ^ k := by
  induction k generalizing n with
  | zero => simp [leBytes, ofLeBytes, Nat.mod_one]
  | succ k ih =>
    simp only [leBytes, ofLeBytes, ih]
    rw [Nat.pow_succ, Nat.mul_comm (256 ^ k) 256, Nat.mod_mul]
    simp

theorem ofLeBytes_lt (b : Bytes) : ofLeBytes b < 256 ^ b.length := by
  induction b with
  | nil => simp [ofLeBytes]
  | cons x xs ih =>
    simp only [ofLeBytes, List.length_cons, Nat.pow_succ]
    have := x.toNat_lt
    omega

theorem leBytes_ofLeBytes (b : Bytes) : leBytes b.length (ofLeBytes b) = b := by
  induction b with
  | nil => rfl
  | cons x xs ih =>
    have hx := x.toNat_lt
    simp only [List.length_cons, leBytes, ofLeBytes]
    have h1 : (x.toNat + 256 * ofLeBytes xs) / 256 = ofLeBytes xs := by omega
    rw [h1, ih]
    congr 1
    apply UInt8.toNat_inj.mp
    simp

theorem leBytes_getElem? (k n i : Nat) (h : i < k) : (leBytes k n)[i]? = some (UInt8.ofNat (n / 256 ^ i)) := by
  induction k generalizing n i with
  | zero => omega
  | succ k ih =>
    cases i with
    | zero => simp [leBytes]
    | succ i =>
      simp only [leBytes, List.getElem?_cons_succ]
      rw [ih _ _ (by omega), Nat.div_div_eq_div_mul, Nat.pow_succ, Nat.mul_comm]

theorem bigEndian_eq (k n : Nat) : bigEndian k n = (leBytes k n).reverse := by
  apply List.ext_getElem?
  intro i
  by_cases hi : i < k
  · rw [List.getElem?_reverse (by rw [leBytes_length]; exact hi), leBytes_length,
      leBytes_getElem? _ _ _ (by omega)]
    simp [bigEndian, hi]
  · rw [List.getElem?_eq_none (by simp [bigEndian]; omega), List.getElem?_eq_none (by simp [leBytes_length]; omega)]

theorem bigEndian_length (k n : Nat) : (bigEndian k n).length = k := by simp [bigEndian]

theorem flip_fold (k : Nat) (src : Bytes) (j : Nat) (hj : j ≤ k) :
    ((List.range j).foldl (fun r i => r.set (k - 1 - i) (src.getD i 0)) (List.replicate k 0)).length = k ∧
    ∀ m, m < k → ((List.range j).foldl (fun r i => r.set (k - 1 - i) (src.getD i 0)) (List.replicate k (0 : UInt8)))[m]?
      = some (if k - 1 - m < j then src.getD (k - 1 - m) 0 else 0) := by
  induction j with
  | zero =>
    refine ⟨by simp, ?_⟩
    intro m hm
    simp [hm]
  | succ j ih =>
    obtain ⟨h1, h2⟩ := ih (by omega)
    rw [List.range_succ, List.foldl_append]
    refine ⟨by simpa using h1, ?_⟩
    intro m hm
    simp only [List.foldl_cons, List.foldl_nil]
    rw [List.getElem?_set]
    by_cases he : k - 1 - j = m
    · have e2 : k - 1 - m = j := by omega
      rw [if_pos he, if_pos (by omega), e2, if_pos (by omega)]
    · rw [if_neg he, h2 m hm]
      congr 1
      have : k - 1 - m < j + 1 ↔ k - 1 - m < j := by omega
      simp [this]

theorem flipImage_eq (k : Nat) (src : Bytes) (h : src.length = k) : flipImage k src = src.reverse := by
  obtain ⟨h1, h2⟩ := flip_fold k src k (Nat.le_refl _)
  apply List.ext_getElem?
  intro i
  by_cases hi : i < k
  · unfold flipImage
    rw [h2 i hi, List.getElem?_reverse (by omega), if_pos (by omega), h]
    simp [List.getD_eq_getElem?_getD]
    rw [List.getElem?_eq_getElem (by omega)]
    rfl
  · rw [List.getElem?_eq_none (by unfold flipImage; rw [h1]; omega), List.getElem?_eq_none (by simp; omega)]

theorem image_length (l : Bool) (k n : Nat) : (image l k n).length = k := by
  unfold image; split <;> simp [leBytes_length]

theorem numWire_eq (cfg : Cfg) (k n : Nat) : numWire cfg k n = bigEndian k n := by
  rw [bigEndian_eq]
  unfold numWire flipByByte
  cases cfg.little with
  | false => simp [image]
  | true =>
    simp only [image, ofImage, if_true]
    rw [flipImage_eq k _ (leBytes_length k n)]
    have := leBytes_ofLeBytes (leBytes k n).reverse
    simpa [leBytes_length] using this

/-- `flipByByte` exchanges the two byte orders. -/
theorem flip_big (k n : Nat) (h : n < 256 ^ k) (l : Bool) :
    (if l then flipByByte l k (ofImage l (bigEndian k n)) else ofImage l (bigEndian k n)) = n := by
  rw [bigEndian_eq]
  cases l with
  | false => simp [ofImage, ofLeBytes_leBytes, Nat.mod_eq_of_lt h]
  | true =>
    simp only [if_true, flipByByte, ofImage, image]
    have h1 := leBytes_ofLeBytes (leBytes k n).reverse
    simp only [List.length_reverse, leBytes_length] at h1
    rw [h1, flipImage_eq k _ (by simp [leBytes_length])]
    simp [ofLeBytes_leBytes, Nat.mod_eq_of_lt h]

theorem parseNum_eq {cfg : Cfg} {k n : Nat} {mem : Bytes} {a : Nat} (hn : n < 256 ^ k)
    (h : HasAt mem a (bigEndian k n)) (ha : a ≤ mem.length) : parseNum cfg k mem a k = .ok n := by
  have hr := h.readRange ha
  rw [bigEndian_length] at hr
  unfold parseNum
  simp only [bne_self_eq_false, Bool.and_false, Bool.false_eq_true, if_false, Nat.lt_irrefl, hr, ok_bind,
    Nat.sub_self, List.replicate_zero, List.append_nil, pure_eq_ok, gt_iff_lt]
  rw [flip_big k n hn]

end Bridge
