import Verif.Proof.Owner
import Verif.Proof.Terminates
/-
How many objects the recursive parser makes, whatever its outcome.
-/
set_option autoImplicit false
namespace Bridge.Owner
open Spec

/-- The code makes `n` objects with `Q _ n` if it ends normally, and at most `b` if not. -/
def Cost {α : Type} (b : Nat) (Q : α → Nat → Prop) (m : M α) : Prop := ∀ s : Fr, ∃ n, (m s).2.made.length = s.made.length + n ∧
  ((∃ x, (m s).1 = .ok x ∧ Q x n) ∨ (∃ e, (m s).1 = .error e) ∧ n ≤ b)

theorem Cost.bind {α β : Type} {b : Nat} {Q : α → Nat → Prop} {R : β → Nat → Prop} {m : M α} {f : α → M β} (h : Cost b Q m)
    (hf : ∀ x n, Q x n → n ≤ b ∧ Cost (b - n) (fun y k => R y (n + k)) (f x)) : Cost b R (m >>= f) := by
  intro s
  obtain ⟨n, h1, h2⟩ := h s
  have e : (m >>= f) s = match m s with | (.ok a, s) => f a s | (.error e, s) => (.error e, s) := rfl
  rw [e]
  revert h1 h2
  cases m s with
  | mk r s1 =>
  intro h1 h2
  simp only at h1 h2
  rcases h2 with ⟨x, rfl, hq⟩ | ⟨⟨e, rfl⟩, hb⟩
  · obtain ⟨g1, g2⟩ := hf x n hq
    obtain ⟨k, g3, g4⟩ := g2 s1
    refine ⟨n + k, by simp only; omega, ?_⟩
    rcases g4 with g4 | ⟨g4, g5⟩
    · exact .inl g4
    · exact .inr ⟨g4, by omega⟩
  · exact ⟨n, h1, .inr ⟨⟨e, rfl⟩, hb⟩⟩

theorem Cost.mono {α : Type} {b b' : Nat} {Q Q' : α → Nat → Prop} {m : M α} (h : Cost b Q m) (hb : b ≤ b') (hq : ∀ x n, Q x n → Q' x n) :
    Cost b' Q' m := by
  intro s
  obtain ⟨n, h1, h2⟩ := h s
  refine ⟨n, h1, ?_⟩
  rcases h2 with ⟨x, h2, h3⟩ | ⟨h2, h3⟩
  · exact .inl ⟨x, h2, hq x n h3⟩
  · exact .inr ⟨h2, by omega⟩

theorem Cost.ret {α : Type} {b : Nat} {Q : α → Nat → Prop} {a : α} (h : Q a 0) : Cost b Q (pure a) := fun _ => ⟨0, rfl, .inl ⟨a, rfl, h⟩⟩

theorem Cost.fail {α : Type} {b : Nat} {Q : α → Nat → Prop} {e : Err} : Cost b Q (lift (.error e)) :=
  fun _ => ⟨0, rfl, .inr ⟨⟨e, rfl⟩, Nat.zero_le _⟩⟩

theorem Cost.good {α : Type} {b : Nat} {P : α → Prop} {r : Res α} (h : Good r P) : Cost b (fun x n => n = 0 ∧ P x) (lift r) := by
  intro s
  refine ⟨0, rfl, ?_⟩
  unfold Good at h
  cases r with
  | ok a => exact .inl ⟨a, rfl, rfl, h⟩
  | error e => exact .inr ⟨⟨e, rfl⟩, Nat.zero_le _⟩

theorem Cost.new {b : Nat} (k : Kind) : Cost b (fun _ n => n = 1) (alloc k) := by
  intro s
  exact ⟨1, by simp [alloc], .inl ⟨_, rfl, rfl⟩⟩

section
variable {cfg : Cfg} {mem : Bytes}

theorem cost_parse (hc : mem.length < 2 ^ 63) (hs : ShortNumbers mem) (sm : Option StringMap) (ref : Bool) (pool : PoolRef) :
    ∀ f : Nat,
    (∀ t i, i ≤ mem.length → Cost (mem.length - i + 1) (fun p n => ∃ j, p.2 = ⟨j, j⟩ ∧ j ≤ mem.length ∧ i + n + 1 ≤ j)
      ((pvs cfg (View.whole mem) sm ref pool f).val t ⟨i, i⟩)) ∧
    (∀ k i, i ≤ mem.length → Cost (mem.length - i) (fun p n => ∃ j, p.2 = ⟨j, j⟩ ∧ j ≤ mem.length ∧ i + n ≤ j)
      ((pvs cfg (View.whole mem) sm ref pool f).items k ⟨i, i⟩)) ∧
    (∀ k i acc, i ≤ mem.length → Cost (mem.length - i) (fun p n => ∃ j, p.2 = ⟨j, j⟩ ∧ j ≤ mem.length ∧ i + n ≤ j)
      ((pvs cfg (View.whole mem) sm ref pool f).kvs k ⟨i, i⟩ acc)) := by
  intro f
  induction f with
  | zero => exact ⟨fun _ _ _ => .fail, fun _ _ _ => .fail, fun _ _ _ _ => .fail⟩
  | succ f ih =>
    obtain ⟨ihV, ihI, ihK⟩ := ih
    refine ⟨?_, ?_, ?_⟩
    · intro t i hi
      show Cost _ _ (valL cfg (View.whole mem) sm ref pool (pvs cfg (View.whole mem) sm ref pool f) t ⟨i, i⟩)
      unfold valL
      cases t with
      | invalid => exact .fail
      | data =>
        simp only [factoryKind]
        refine .bind (.new _) fun id n hn => ?_
        subst hn
        refine ⟨by omega, .bind (Q := fun x n => n = 0 ∧ Fwd mem.length (i + 1) x.2) (.good ?_) fun r n hn => ?_⟩
        · split
          · exact good_leafView2 hc hs sm i
          · exact good_leafOwn2 hc hs sm i
        obtain ⟨rfl, j, hj, h1, h2⟩ := hn
        refine ⟨by omega, ?_⟩
        split
        · exact .ret ⟨j, hj, h2, by omega⟩
        · exact .ret ⟨j, hj, h2, by omega⟩
      | array =>
        simp only [factoryKind]
        refine .bind (.new _) fun id n hn => ?_
        subst hn
        refine ⟨by omega, .bind (.good (good_parseLength hc hs i)) fun p n hn => ?_⟩
        obtain ⟨a, c⟩ := p
        obtain ⟨rfl, ⟨j, rfl, h1, h2⟩, -⟩ := hn
        refine ⟨by omega, .bind (.good (good_parseLength hc hs j)) fun p n hn => ?_⟩
        obtain ⟨b, c⟩ := p
        obtain ⟨rfl, ⟨k, rfl, h3, h4⟩, -⟩ := hn
        refine ⟨by omega, .bind ((ihI a k h4).mono (by omega) fun _ _ h => h) fun p n hn => ?_⟩
        obtain ⟨l, hl, h5, h6⟩ := hn
        exact ⟨by omega, .ret ⟨l, hl, h5, by omega⟩⟩
      | map =>
        simp only [factoryKind]
        refine .bind (.new _) fun id n hn => ?_
        subst hn
        refine ⟨by omega, .bind (.good (good_parseLength hc hs i)) fun p n hn => ?_⟩
        obtain ⟨a, c⟩ := p
        obtain ⟨rfl, ⟨j, rfl, h1, h2⟩, -⟩ := hn
        refine ⟨by omega, .bind (.good (good_parseLength hc hs j)) fun p n hn => ?_⟩
        obtain ⟨b, c⟩ := p
        obtain ⟨rfl, ⟨k, rfl, h3, h4⟩, -⟩ := hn
        refine ⟨by omega, .bind ((ihK a k [] h4).mono (by omega) fun _ _ h => h) fun p n hn => ?_⟩
        obtain ⟨l, hl, h5, h6⟩ := hn
        exact ⟨by omega, .ret ⟨l, hl, h5, by omega⟩⟩
    · intro k i hi
      show Cost _ _ (itemsL (View.whole mem) (pvs cfg (View.whole mem) sm ref pool f) k ⟨i, i⟩)
      unfold itemsL
      cases k with
      | zero => exact .ret ⟨i, rfl, hi, by omega⟩
      | succ k =>
        refine .bind (.good (good_parseObjectType hc i)) fun p n hn => ?_
        obtain ⟨t, c⟩ := p
        obtain ⟨rfl, j, rfl, h1, h2⟩ := hn
        refine ⟨by omega, .bind ((ihV t j h2).mono (by omega) fun _ _ h => h) fun p n hn => ?_⟩
        obtain ⟨o, c⟩ := p
        obtain ⟨l, hl, h3, h4⟩ := hn
        subst hl
        refine ⟨by omega, .bind (.new _) fun id n' hn' => ?_⟩
        subst hn'
        refine ⟨by omega, .bind ((ihI k l h3).mono (by omega) fun _ _ h => h) fun p n' hn' => ?_⟩
        obtain ⟨q, hq, h5, h6⟩ := hn'
        exact ⟨by omega, .ret ⟨q, hq, h5, by omega⟩⟩
    · intro k i acc hi
      show Cost _ _ (kvsL cfg (View.whole mem) sm ref (pvs cfg (View.whole mem) sm ref pool f) k ⟨i, i⟩ acc)
      unfold kvsL
      cases k with
      | zero => exact .ret ⟨i, rfl, hi, by omega⟩
      | succ k =>
        refine .bind (.good (good_parseKey hc hs sm i)) fun p n hn => ?_
        obtain ⟨key, c⟩ := p
        obtain ⟨rfl, i', rfl, h1', h2'⟩ := hn
        refine ⟨by omega, .bind (.good (good_parseObjectType hc i')) fun p n hn => ?_⟩
        obtain ⟨t, c⟩ := p
        obtain ⟨rfl, j, rfl, h1, h2⟩ := hn
        refine ⟨by omega, .bind ((ihV t j h2).mono (by omega) fun _ _ h => h) fun p n hn => ?_⟩
        obtain ⟨o, c⟩ := p
        obtain ⟨l, hl, h3, h4⟩ := hn
        simp only at hl
        subst hl
        refine ⟨by omega, .bind (.good (good_ownKey _ _ _)) fun key' n' hn' => ?_⟩
        obtain ⟨rfl, -⟩ := hn'
        refine ⟨by omega, .bind (.new _) fun id n' hn' => ?_⟩
        subst hn'
        refine ⟨by omega, (ihK k l _ h3).mono (by omega) fun p n' hn' => ?_⟩
        obtain ⟨q, hq, h5, h6⟩ := hn'
        exact ⟨q, hq, h5, by omega⟩

theorem cost_normal (hc : mem.length < 2 ^ 63) (hs : ShortNumbers mem) (h10 : 10 ≤ mem.length) (ref : Bool) (f : Nat) (s : Sched) :
    Cost (mem.length - 9) (fun _ n => n ≤ mem.length - 9) (normalL cfg ref f mem s) := by
  unfold normalL
  refine .bind (((cost_parse hc hs s.sm ref .caller f).1 .map metaSize (by unfold metaSize; omega)).mono (by unfold metaSize; omega) fun _ _ h => h) fun p n hn => ?_
  obtain ⟨j, -, h1, h2⟩ := hn
  simp only [metaSize] at h2
  refine ⟨by omega, ?_⟩
  split
  · exact .fail
  · exact .ret (by omega)

end
end Bridge.Owner
