import Verif.Model.Object
/-
Objects can be compared; used to evaluate concrete cases.
-/
set_option autoImplicit false
namespace Bridge

mutual
def objDec : (a b : Obj) → Decidable (a = b)
  | .null, .null => .isTrue rfl
  | .data r dt p, .data r' dt' p' =>
    if h : r = r' ∧ dt = dt' ∧ p = p' then .isTrue (by obtain ⟨rfl, rfl, rfl⟩ := h; rfl)
    else .isFalse (by intro e; cases e; exact h ⟨rfl, rfl, rfl⟩)
  | .array p n xs, .array p' n' ys =>
    match objsDec xs ys with
    | .isTrue e =>
      if h : p = p' ∧ n = n' then .isTrue (by obtain ⟨rfl, rfl⟩ := h; rw [e])
      else .isFalse (by intro e; cases e; exact h ⟨rfl, rfl⟩)
    | .isFalse ne => .isFalse (by intro e; cases e; exact ne rfl)
  | .map r p n xs, .map r' p' n' ys =>
    match kvsDec xs ys with
    | .isTrue e =>
      if h : r = r' ∧ p = p' ∧ n = n' then .isTrue (by obtain ⟨rfl, rfl, rfl⟩ := h; rw [e])
      else .isFalse (by intro e; cases e; exact h ⟨rfl, rfl, rfl⟩)
    | .isFalse ne => .isFalse (by intro e; cases e; exact ne rfl)
  | .null, .data .. | .null, .array .. | .null, .map .. => .isFalse (by intro e; cases e)
  | .data .., .null | .data .., .array .. | .data .., .map .. => .isFalse (by intro e; cases e)
  | .array .., .null | .array .., .data .. | .array .., .map .. => .isFalse (by intro e; cases e)
  | .map .., .null | .map .., .data .. | .map .., .array .. => .isFalse (by intro e; cases e)
def objsDec : (a b : List Obj) → Decidable (a = b)
  | [], [] => .isTrue rfl
  | x :: xs, y :: ys =>
    match objDec x y, objsDec xs ys with
    | .isTrue e, .isTrue e' => .isTrue (by rw [e, e'])
    | .isFalse ne, _ => .isFalse (by intro e; cases e; exact ne rfl)
    | _, .isFalse ne => .isFalse (by intro e; cases e; exact ne rfl)
  | [], _ :: _ => .isFalse (by intro e; cases e)
  | _ :: _, [] => .isFalse (by intro e; cases e)
def kvsDec : (a b : List (Str × Obj)) → Decidable (a = b)
  | [], [] => .isTrue rfl
  | (k, x) :: xs, (k', y) :: ys =>
    match objDec x y, kvsDec xs ys with
    | .isTrue e, .isTrue e' =>
      if h : k = k' then .isTrue (by rw [e, e', h]) else .isFalse (by intro e; cases e; exact h rfl)
    | .isFalse ne, _ => .isFalse (by intro e; cases e; exact ne rfl)
    | _, .isFalse ne => .isFalse (by intro e; cases e; exact ne rfl)
  | [], _ :: _ => .isFalse (by intro e; cases e)
  | _ :: _, [] => .isFalse (by intro e; cases e)
end

instance : DecidableEq Obj := objDec

end Bridge
