import Verif.Proof.Obs
/-
`Doc.Same` is an equivalence.
-/
namespace Bridge
open Spec

mutual
theorem same_refl : ∀ d : Doc, d.Same d
  | .scalar s => rfl
  | .array xs => ⟨xs, rfl, sameL_refl xs⟩
  | .map es => ⟨es, es, rfl, sameE_refl es, List.Perm.refl _⟩
theorem sameL_refl : ∀ xs : List Doc, SameL xs xs
  | [] => rfl
  | x :: xs => ⟨x, xs, rfl, same_refl x, sameL_refl xs⟩
theorem sameE_refl : ∀ es : List (Bytes × Doc), SameE es es
  | [] => rfl
  | (_, x) :: es => ⟨x, es, rfl, same_refl x, sameE_refl es⟩
end

/-- Pointwise equality can be moved across a permutation. -/
theorem sameE_perm {es es1 : List (Bytes × Doc)} (hp : es.Perm es1) : ∀ {es2 : List (Bytes × Doc)}, SameE es1 es2 →
    ∃ es3, SameE es es3 ∧ es3.Perm es2 := by
  induction hp with
  | nil => intro es2 h; exact ⟨es2, h, List.Perm.refl _⟩
  | cons e hp ih =>
    intro es2 h
    obtain ⟨k, x⟩ := e
    obtain ⟨y, ys, rfl, h1, h2⟩ := h
    obtain ⟨es3, h3, h4⟩ := ih h2
    exact ⟨(k, y) :: es3, ⟨y, es3, rfl, h1, h3⟩, h4.cons _⟩
  | swap a b l =>
    intro es2 h
    obtain ⟨k, x⟩ := a
    obtain ⟨k', x'⟩ := b
    obtain ⟨y, ys, rfl, h1, h2⟩ := h
    obtain ⟨y', ys', rfl, h1', h2'⟩ := h2
    exact ⟨(k', y') :: (k, y) :: ys', ⟨y', _, rfl, h1', ⟨y, _, rfl, h1, h2'⟩⟩, List.Perm.swap _ _ _⟩
  | trans _ _ ih1 ih2 =>
    intro es2 h
    obtain ⟨es3, h3, h4⟩ := ih2 h
    obtain ⟨es4, h5, h6⟩ := ih1 h3
    exact ⟨es4, h5, h6.trans h4⟩

mutual
theorem same_trans : ∀ {d d1 d2 : Doc}, d.Same d1 → d1.Same d2 → d.Same d2
  | .scalar s, d1, d2, h1, h2 => by
    simp only [Doc.Same] at h1; subst h1; exact h2
  | .array xs, d1, d2, h1, h2 => by
    obtain ⟨ys, rfl, h1⟩ := h1
    obtain ⟨zs, rfl, h2⟩ := h2
    exact ⟨zs, rfl, sameL_trans h1 h2⟩
  | .map es, d1, d2, h1, h2 => by
    obtain ⟨es1, es'', rfl, h1, hp1⟩ := h1
    obtain ⟨es2, es2'', rfl, h2, hp2⟩ := h2
    obtain ⟨es3, h3, hp3⟩ := sameE_perm hp1 h2
    exact ⟨es2, es3, rfl, sameE_trans h1 h3, hp3.trans hp2⟩
theorem sameL_trans : ∀ {xs ys zs : List Doc}, SameL xs ys → SameL ys zs → SameL xs zs
  | [], ys, zs, h1, h2 => by simp only [SameL] at h1; subst h1; exact h2
  | x :: xs, ys, zs, h1, h2 => by
    obtain ⟨y, ys', rfl, a1, a2⟩ := h1
    obtain ⟨z, zs', rfl, b1, b2⟩ := h2
    exact ⟨z, zs', rfl, same_trans a1 b1, sameL_trans a2 b2⟩
theorem sameE_trans : ∀ {xs ys zs : List (Bytes × Doc)}, SameE xs ys → SameE ys zs → SameE xs zs
  | [], ys, zs, h1, h2 => by simp only [SameE] at h1; subst h1; exact h2
  | (k, x) :: xs, ys, zs, h1, h2 => by
    obtain ⟨y, ys', rfl, a1, a2⟩ := h1
    obtain ⟨z, zs', rfl, b1, b2⟩ := h2
    exact ⟨z, zs', rfl, same_trans a1 b1, sameE_trans a2 b2⟩
end

mutual
theorem same_symm : ∀ {d d1 : Doc}, d.Same d1 → d1.Same d
  | .scalar s, d1, h1 => by simp only [Doc.Same] at h1; subst h1; rfl
  | .array xs, d1, h1 => by
    obtain ⟨ys, rfl, h1⟩ := h1
    exact ⟨xs, rfl, sameL_symm h1⟩
  | .map es, d1, h1 => by
    obtain ⟨es1, es'', rfl, h1, hp1⟩ := h1
    obtain ⟨es3, h3, hp3⟩ := sameE_perm hp1.symm (sameE_symm h1)
    exact ⟨es, es3, rfl, h3, hp3⟩
theorem sameL_symm : ∀ {xs ys : List Doc}, SameL xs ys → SameL ys xs
  | [], ys, h1 => by simp only [SameL] at h1; subst h1; rfl
  | x :: xs, ys, h1 => by
    obtain ⟨y, ys', rfl, a1, a2⟩ := h1
    exact ⟨x, xs, rfl, same_symm a1, sameL_symm a2⟩
theorem sameE_symm : ∀ {xs ys : List (Bytes × Doc)}, SameE xs ys → SameE ys xs
  | [], ys, h1 => by simp only [SameE] at h1; subst h1; rfl
  | (k, x) :: xs, ys, h1 => by
    obtain ⟨y, ys', rfl, a1, a2⟩ := h1
    exact ⟨x, xs, rfl, same_symm a1, sameE_symm a2⟩
end

end Bridge
