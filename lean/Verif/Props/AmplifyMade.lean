import Verif.Proof.Cost
import Verif.Props.Owner
import Verif.Props.Amplify
/-
C64, continued: how many objects a parse makes, whatever its outcome.
-/
set_option autoImplicit false
namespace Bridge.Owner
open Spec

theorem cost_bound {α : Type} {b : Nat} {m : M α} (h : Cost b (fun _ n => n ≤ b) m) (s : Fr) :
    (m s).2.made.length ≤ s.made.length + b := by
  obtain ⟨n, h1, h2⟩ := h s
  rcases h2 with ⟨x, -, h2⟩ | ⟨-, h2⟩ <;> omega

/-- C64. A `Parse` that is not parallel makes at most one object (value or list item) for every byte of the content, less nine, whether it
returns, throws or goes wrong, provided no number field takes ten or more bytes. -/
theorem C64_objects_made (cfg : Cfg) (po : ParseOption) (fuel : Nat) (content : Bytes) (s : Fr) (hlen : content.length < 2 ^ 63)
    (hs : ShortNumbers content) (hp : Call.parallel cfg ⟨content, po⟩ = false) :
    (parseL cfg po fuel content s).2.made.length ≤ s.made.length + (content.length - 9) := by
  apply cost_bound
  unfold parseL
  cases hi : initFromContent cfg content with
  | error e => exact fun s => ⟨0, rfl, .inr ⟨⟨e, rfl⟩, Nat.zero_le _⟩⟩
  | ok sc =>
    have h10 := (init_inv hi).1
    have e : ∀ (f : Sched → M LObj), (lift (.ok sc) >>= f) = f sc := fun f => rfl
    rw [e]
    split
    · rename_i hc
      have hsp : sc.split = false := by
        cases hs : sc.split with
        | false => rfl
        | true => rw [parallel_iff.2 ⟨hc, sc, hi, hs⟩] at hp; cases hp
      unfold coroutineL
      rw [if_pos hsp, hi, e]
      exact cost_normal hlen hs h10 _ _ _
    · exact cost_normal hlen hs h10 _ _ _

/-- The sample of C57 (57 bytes) makes eleven objects; the content of `C64_parallel_explodes` for `n = 4` (55 bytes) makes 19 in the
recursive parser and 135 in the parallel one. -/
example : splitSample.length = 57 ∧ (parseL Cfg.x86 ⟨false, false, 1⟩ 50 splitSample {}).2.made.length = 11 := by decide +kernel
example : (blockBomb 4).length = 55 ∧ (parseL Cfg.x86 ⟨false, false, 1⟩ 50 (blockBomb 4) {}).2.made.length = 19 := by decide +kernel
example : (parseL Cfg.x86 ⟨true, false, 1⟩ 50 (blockBomb 4) {}).2.made.length = 135 := by decide +kernel

/-- Both contents meet the hypotheses of the bound. -/
example : ShortNumbers (blockBomb 4) ∧ ShortNumbers splitSample := by
  have key : ∀ (c : Bytes), (∀ a, a < c.length → ∃ j, j < 9 ∧ ∀ b, c[a + j]? = some b → b.toNat < 128) → ShortNumbers c := by
    intro c h a
    by_cases ha : a < c.length
    · exact h a ha
    · refine ⟨0, by omega, fun b hb => ?_⟩
      rw [List.getElem?_eq_none (by omega)] at hb
      cases hb
  constructor <;> (apply key; decide +kernel)

end Bridge.Owner
