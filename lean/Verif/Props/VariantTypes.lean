import Verif.Model.VariantTypes
/-
C48: the arithmetic on type lists in variant.h.
-/
set_option autoImplicit false
namespace Bridge

variable {T : Type} [DecidableEq T]

theorem vCount_eq (t : T) (ts : List T) : vCount t ts = (t :: ts).length := by
  induction ts generalizing t with
  | nil => rfl
  | cons u us ih => rw [vCount, ih]; simp; omega

/-- C48: `Index` is the first position of the type, or the length of the list if the type does not occur. -/
theorem C48_index (x t : T) (ts : List T) :
    (x ∉ t :: ts → vIndex x t ts = (t :: ts).length) ∧
    (x ∈ t :: ts → (t :: ts)[vIndex x t ts]? = some x ∧ ∀ j, j < vIndex x t ts → (t :: ts)[j]? ≠ some x) := by
  induction ts generalizing t with
  | nil =>
    constructor
    · intro h; simp at h; simp [vIndex, h]
    · intro h; simp at h; simp [vIndex, h]
  | cons u us ih =>
    obtain ⟨h1, h2⟩ := ih u
    by_cases e : x = t
    · subst e; simp [vIndex]
    · constructor
      · intro h
        have : x ∉ u :: us := fun hm => h (List.mem_cons_of_mem _ hm)
        rw [vIndex, if_neg e, h1 this]; simp; omega
      · intro h
        have hm : x ∈ u :: us := by
          rcases List.mem_cons.mp h with h | h
          · exact absurd h e
          · exact h
        obtain ⟨h3, h4⟩ := h2 hm
        rw [vIndex, if_neg e]
        refine ⟨by rw [Nat.add_comm]; simpa using h3, ?_⟩
        intro j hj
        cases j with
        | zero => simpa using fun e' => e e'.symm
        | succ j => simpa using h4 j (by omega)

/-- C48: the accessors compile for exactly the types of the list. -/
theorem C48_valid_type (x t : T) (ts : List T) : vValid x t ts = true ↔ x ∈ t :: ts := by
  obtain ⟨h1, h2⟩ := C48_index x t ts
  simp only [vValid, decide_eq_true_eq, vCount_eq]
  constructor
  · intro h
    by_cases hx : x ∈ t :: ts
    · exact hx
    · rw [h1 hx] at h; omega
  · intro h
    obtain ⟨h3, _⟩ := h2 h
    exact (List.getElem?_eq_some_iff.mp h3).1

/-- C48: `NotExist` says that the type does not occur. -/
theorem C48_not_exist (x t : T) (ts : List T) : vNotExist x t ts = true ↔ x ∉ t :: ts := by
  induction ts generalizing t with
  | nil => simp [vNotExist]
  | cons u us ih =>
    rw [vNotExist]
    by_cases e : x = t
    · simp [e]
    · rw [if_neg e, ih]; simp [e]

/-- C48: a variant can be declared exactly if no type occurs twice. -/
theorem C48_unique (t : T) (ts : List T) : vUnique t ts = true ↔ (t :: ts).Nodup := by
  induction ts generalizing t with
  | nil => simp [vUnique]
  | cons u us ih =>
    rw [vUnique, Bool.and_eq_true, ih, C48_not_exist, List.nodup_cons (a := t)]
    exact and_comm

/-- C48: `MaxSize` and `MaxAlign` are the maxima: no type of the list needs more, and one needs as much. -/
theorem C48_maximum (op : T → Nat) (t : T) (ts : List T) :
    (∀ x, x ∈ t :: ts → op x ≤ vMax op t ts) ∧ ∃ x, x ∈ t :: ts ∧ op x = vMax op t ts := by
  induction ts generalizing t with
  | nil => simp [vMax]
  | cons u us ih =>
    obtain ⟨h1, y, hy, h2⟩ := ih u
    rw [vMax]
    split
    · rename_i h
      refine ⟨fun x hx => ?_, t, by simp, rfl⟩
      rcases List.mem_cons.mp hx with rfl | hx
      · omega
      · have := h1 x hx; omega
    · rename_i h
      refine ⟨fun x hx => ?_, y, List.mem_cons_of_mem _ hy, h2⟩
      rcases List.mem_cons.mp hx with rfl | hx
      · omega
      · exact h1 x hx

/-- C48: alignments are powers of two, so an address aligned for the variant is aligned for every type of the list. -/
theorem C48_aligned_for_every_type (alignOf : T → Nat) (hp : ∀ x, ∃ k, alignOf x = 2 ^ k) (t : T) (ts : List T) (addr : Nat)
    (ha : vMax alignOf t ts ∣ addr) (x : T) (hx : x ∈ t :: ts) : alignOf x ∣ addr := by
  obtain ⟨h1, y, _, h2⟩ := C48_maximum alignOf t ts
  obtain ⟨k, hk⟩ := hp x
  obtain ⟨m, hm⟩ := hp y
  have h3 := h1 x hx
  rw [← h2, hk, hm] at h3
  have : k ≤ m := (Nat.pow_le_pow_iff_right (by omega)).mp h3
  refine Nat.dvd_trans ?_ ha
  rw [← h2, hk, hm]
  exact Nat.pow_dvd_pow 2 this

/-- `sizeof` with libstdc++ on x86-64 (used in the example only). -/
def sizeX86 : StoredType → Nat
  | .vectorChar => 24
  | .string => 32
  | .stringView => 16
  | .int32 | .uint32 | .float => 4
  | _ => 8

/-- C48: both variants of the library can be declared; an owning value has no slot for a view and the other way round. -/
theorem C48_library_variants :
    vUnique ownedTypes.1 ownedTypes.2 = true ∧ vUnique viewTypes.1 viewTypes.2 = true ∧
    vValid .stringView ownedTypes.1 ownedTypes.2 = false ∧ vValid .string viewTypes.1 viewTypes.2 = false ∧
    vValid .vectorChar viewTypes.1 viewTypes.2 = false ∧
    ∀ x, x ∈ [StoredType.int32, .uint32, .int64, .uint64, .float, .double] →
      vValid x ownedTypes.1 ownedTypes.2 = true ∧ vValid x viewTypes.1 viewTypes.2 = true := by decide

example : vMax sizeX86 ownedTypes.1 ownedTypes.2 = 32 ∧ vMax sizeX86 viewTypes.1 viewTypes.2 = 16 ∧
    vIndex .float ownedTypes.1 ownedTypes.2 = 6 ∧ vIndex .string viewTypes.1 viewTypes.2 = 7 ∧
    vUnique StoredType.int32 [.float, .int32] = false := by decide

end Bridge
