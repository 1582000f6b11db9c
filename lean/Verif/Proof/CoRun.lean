import Verif.Proof.CoWp
/-
Coroutines that share a memory: progress and termination.
-/
set_option autoImplicit false
namespace Bridge.Heap
open Spec

/-- Not finished and no undefined behaviour: some coroutine can make an access. -/
theorem progress {α : Type} (t : Prog α) : ∀ m : Mem, (∃ r, t = .ret r) ∨ Faulty m t ∨ ∃ u m' t', Step u m t m' t' := by
  induction t with
  | ret r => intro m; exact .inl ⟨r, rfl⟩
  | newPool k _ => intro m; exact .inr (.inr ⟨_, _, _, .newPool m k⟩)
  | endPool q k _ =>
    intro m
    cases h : m.pools q with
    | false => exact .inr (.inl (.endPool m q k h))
    | true => exact .inr (.inr ⟨_, _, _, .endPool m q k h⟩)
  | mergePool q q' k _ =>
    intro m
    by_cases hq : q = q'
    · exact .inr (.inl (.mergePool m q q' k (.inr hq)))
    · cases h : m.pools q with
      | false => exact .inr (.inl (.mergePool m q q' k (.inl h)))
      | true => exact .inr (.inr ⟨_, _, _, .mergePool m q q' k h hq⟩)
  | freePool q k _ => intro m; exact .inr (.inr ⟨_, _, _, .freePool m q k⟩)
  | alloc q c k _ =>
    intro m
    cases h : m.pools q with
    | false => exact .inr (.inl (.alloc m q c k h))
    | true => exact .inr (.inr ⟨_, _, _, .alloc m _ q c k _ (alloc_push h)⟩)
  | load r k _ =>
    intro m
    cases h : m.load r with
    | error e => exact .inr (.inl (.load m r k e h))
    | ok x => exact .inr (.inr ⟨_, _, _, .load m r k x h⟩)
  | modify r f k _ =>
    intro m
    cases h : m.load (some r) with
    | error e => exact .inr (.inl (.modify m r f k e h))
    | ok x => exact .inr (.inr ⟨_, _, _, .modify m r f k x h⟩)
  | dict k _ => intro m; exact .inr (.inr ⟨_, _, _, .dict m k⟩)
  | par n ts k iht _ =>
    intro m
    right
    by_cases h : ∀ i, i < n → ∃ r, ts i = .ret r
    · have h' : ∀ i, ∃ r, i < n → ts i = .ret r := fun i => by
        by_cases hi : i < n
        · obtain ⟨r, hr⟩ := h i hi; exact ⟨r, fun _ => hr⟩
        · exact ⟨.error .fuel, fun h => absurd h hi⟩
      obtain ⟨rs, hrs⟩ := Classical.axiomOfChoice h'
      exact .inr ⟨_, _, _, .join m n ts k rs hrs⟩
    · have : ∃ i, i < n ∧ ¬ ∃ r, ts i = .ret r := by
        apply Classical.byContradiction; intro hn
        exact h fun i hi => Classical.byContradiction fun hr => hn ⟨i, hi, hr⟩
      obtain ⟨i, hi, hr⟩ := this
      rcases iht i m with h | h | ⟨u, m', t', h⟩
      · exact absurd h hr
      · exact .inl (.one m n ts k i hi h)
      · exact .inr ⟨_, _, _, .one m m' n ts k i t' u hi h⟩

/-- `t'` is what `t` has become by one access. -/
def Next {α : Type} (t' t : Prog α) : Prop := ∃ u m m', Step u m t m' t'

/-- One of the first `n` has made an access. -/
def NextOf (n : Nat) (ts' ts : Nat → Prog Out) : Prop := ∃ i t, i < n ∧ Next t (ts i) ∧ ts' = upd ts i t

theorem nextOf_acc (n : Nat) : ∀ ts : Nat → Prog Out, (∀ i, i < n → Acc Next (ts i)) → Acc (NextOf n) ts := by
  induction n with
  | zero => intro ts _; exact ⟨_, fun _ ⟨i, _, hi, _⟩ => absurd hi (Nat.not_lt_zero _)⟩
  | succ n ih =>
    have key : ∀ a : Prog Out, Acc Next a → ∀ ts, Acc (NextOf n) ts → (∀ i, i < n → Acc Next (ts i)) → ts n = a → Acc (NextOf (n + 1)) ts := by
      intro a ha
      induction ha with
      | intro a _ iha =>
        intro ts hts
        induction hts with
        | intro ts _ ihts =>
          intro hacc he
          refine ⟨_, ?_⟩
          rintro ts' ⟨i, t, hi, hn, e⟩
          subst e
          by_cases h : i = n
          · subst h
            rw [he] at hn
            have hacc' : ∀ j, j < i → Acc Next (upd ts i t j) := fun j hj => by rw [upd_ne _ _ (Nat.ne_of_lt hj)]; exact hacc j hj
            exact iha t hn _ (ih _ hacc') hacc' (upd_same _ _ _)
          · have hi' : i < n := by omega
            refine ihts _ ⟨i, t, hi', hn, rfl⟩ (fun j hj => ?_) (by rw [upd_ne _ _ (by omega)]; exact he)
            by_cases hji : j = i
            · subst hji; rw [upd_same]; exact (hacc j hj).inv hn
            · rw [upd_ne _ _ hji]; exact hacc j hj
    intro ts h
    have h' : ∀ i, i < n → Acc Next (ts i) := fun i hi => h i (by omega)
    exact key _ (h n (Nat.lt_succ_self _)) ts (ih ts h') h' rfl

/-- A result makes no access. -/
theorem next_acc {α : Type} (t : Prog α) : Acc Next t := by
  induction t with
  | ret r => refine ⟨_, ?_⟩; rintro t' ⟨u, m, m', h⟩; cases h
  | newPool k ih => refine ⟨_, ?_⟩; rintro t' ⟨u, m, m', h⟩; cases h; exact ih _
  | endPool q k ih => refine ⟨_, ?_⟩; rintro t' ⟨u, m, m', h⟩; cases h; exact ih
  | mergePool q q' k ih => refine ⟨_, ?_⟩; rintro t' ⟨u, m, m', h⟩; cases h; exact ih
  | freePool q k ih => refine ⟨_, ?_⟩; rintro t' ⟨u, m, m', h⟩; cases h; exact ih
  | alloc q c k ih => refine ⟨_, ?_⟩; rintro t' ⟨u, m, m', h⟩; cases h; exact ih _
  | load r k ih => refine ⟨_, ?_⟩; rintro t' ⟨u, m, m', h⟩; cases h; exact ih _
  | modify r f k ih => refine ⟨_, ?_⟩; rintro t' ⟨u, m, m', h⟩; cases h; exact ih
  | dict k ih => refine ⟨_, ?_⟩; rintro t' ⟨u, m, m', h⟩; cases h; exact ih
  | par n ts k iht ihk =>
    have h := nextOf_acc n ts (fun i _ => iht i)
    clear iht
    induction h with
    | intro ts _ ih =>
      refine ⟨_, ?_⟩
      rintro t' ⟨u, m, m', h⟩
      cases h with
      | one _ _ _ _ _ i t _ hi hs => exact ih _ ⟨i, t, hi, ⟨_, m, m', hs⟩, rfl⟩
      | join _ _ _ _ rs _ => exact ihk _

/-- No run is infinite. -/
theorem no_infinite_run {α : Type} (f : Nat → Mem × Prog α) : ¬ ∀ i, ∃ u, Step u (f i).1 (f i).2 (f (i + 1)).1 (f (i + 1)).2 := by
  intro h
  have : ∀ t : Prog α, Acc Next t → ∀ i, (f i).2 = t → False := by
    intro t ha
    induction ha with
    | intro t _ ih => intro i e; obtain ⟨u, hu⟩ := h i; exact ih _ ⟨u, _, _, e ▸ hu⟩ (i + 1) rfl
  exact this _ (next_acc _) 0 rfl

/-- Every run can be continued until all coroutines have finished, unless undefined behaviour comes first. -/
theorem run_ends {α : Type} (t : Prog α) (m : Mem) : (∃ m' r, Steps m t m' (.ret r)) ∨ ∃ m' t', Steps m t m' t' ∧ Faulty m' t' := by
  have : ∀ t : Prog α, Acc Next t → ∀ m, (∃ m' r, Steps m t m' (.ret r)) ∨ ∃ m' t', Steps m t m' t' ∧ Faulty m' t' := by
    intro t ha
    induction ha with
    | intro t _ ih =>
      intro m
      rcases progress t m with ⟨r, rfl⟩ | h | ⟨u, m', t', h⟩
      · exact .inl ⟨m, r, .refl _ _⟩
      · exact .inr ⟨m, t, .refl _ _, h⟩
      · rcases ih t' ⟨u, m, m', h⟩ m' with ⟨m2, r, h2⟩ | ⟨m2, t2, h2, h3⟩
        · exact .inl ⟨m2, r, .step h h2⟩
        · exact .inr ⟨m2, t2, .step h h2, h3⟩
  exact this t (next_acc t) m

end Bridge.Heap
