import Verif.Proof.CoExec
/-
What no call of a program changes: the pool that a container allocates from, and that the variable `bp` of a coroutine has ended.
-/
set_option autoImplicit false
namespace Bridge.Heap
open Spec

structure Later (m m' : Mem) : Prop where
  cont : ∀ (r : Nat) (k : Kind) (p : Nat) (h : Option Ref) (s : Nat), m.cells r = some (.cont k p h s) →
    ∃ h' s', m'.cells r = some (.cont k p h' s')
  dead : ∀ q, m.frames q = true → m.pools q = false → m'.frames q = true ∧ m'.pools q = false

theorem Later.refl (m : Mem) : Later m m := ⟨fun _ _ _ _ _ e => ⟨_, _, e⟩, fun _ h1 h2 => ⟨h1, h2⟩⟩

theorem Later.trans {m m1 m2 : Mem} (h1 : Later m m1) (h2 : Later m1 m2) : Later m m2 := by
  refine ⟨fun r k p h s e => ?_, fun q h h' => ?_⟩
  · obtain ⟨_, _, e1⟩ := h1.cont r k p h s e
    exact h2.cont r k p _ _ e1
  · obtain ⟨g, g'⟩ := h1.dead q h h'
    exact h2.dead q g g'

theorem later_new {m : Mem} (h : WF m) (c : Cell) (owner : Ref → Option Nat) (vars : Nat → Option Ref) :
    Later m { m with cells := upd m.cells m.top (some c), top := m.top + 1, owner := owner, vars := vars } := by
  refine ⟨fun r k p hd s e => ⟨hd, s, ?_⟩, fun _ h1 h2 => ⟨h1, h2⟩⟩
  show upd _ _ _ _ = _
  rw [upd_ne _ _ (show r ≠ m.top from fun hr => by rw [hr, h.fresh m.top (Nat.le_refl _)] at e; cases e)]
  exact e

theorem later_upd {m : Mem} {i : Nat} {c c' : Cell} (e : m.cells i = some c)
    (hc : ∀ k p h s, c = .cont k p h s → ∃ h' s', c' = .cont k p h' s') (vars : Nat → Option Ref) :
    Later m { m with cells := upd m.cells i (some c'), vars := vars } := by
  refine ⟨fun r k p hd s er => ?_, fun _ h1 h2 => ⟨h1, h2⟩⟩
  by_cases hr : r = i
  · subst hr
    rw [e] at er
    cases er
    obtain ⟨h', s', rfl⟩ := hc k p hd s rfl
    exact ⟨h', s', upd_same _ _ _⟩
  · exact ⟨hd, s, (upd_ne _ _ hr).trans er⟩

theorem later_owner {m : Mem} (owner : Ref → Option Nat) (pools : Nat → Bool) (np : Nat)
    (hp : ∀ q, m.frames q = true → m.pools q = false → pools q = false) :
    Later m { m with owner := owner, pools := pools, nextPool := np } :=
  ⟨fun _ _ _ _ _ e => ⟨_, _, e⟩, fun q h1 h2 => ⟨h1, hp q h1 h2⟩⟩

theorem later_ins {m : Mem} (h : WF m) {c : Ref} {k : Kind} {pool : Nat} {head : Option Ref} {size : Nat}
    (hc : m.cells c = some (.cont k pool head size)) (key : Str) (x : Nat) : Later m (m.ins c k pool head size key x) := by
  have h1 := later_new h (.item key (m.vars x) head) (upd m.owner m.top (some pool)) (upd m.vars x none)
  have hne : c ≠ m.top := by intro e; rw [e, h.fresh m.top (Nat.le_refl _)] at hc; cases hc
  refine h1.trans ?_
  exact later_upd (i := c) (c := .cont k pool head size) (c' := .cont k pool (some m.top) (addW size 1))
    (by show upd _ _ _ _ = _; rw [upd_ne _ _ hne]; exact hc) (fun k' p' h' s' e => by cases e; exact ⟨_, _, rfl⟩) (upd m.vars x none)

theorem later_parsed {m m' m1 : Mem} {d p : Nat} {D : Nat → Prop} {ref : Bool} {fuel : Nat} {o : Obj} {root : Nat}
    (hw : WF m) (h : Parsed m m' d p D ref fuel o m1 root) : Later m m' := by
  obtain ⟨hpools, htop, _, etop, hvars, hcells, howner, hnew, hfresh⟩ := h.effect
  refine ⟨fun r k p hd s e => ⟨hd, s, ?_⟩, fun q h1 h2 => ⟨h.frames.2 q h1, by rw [hpools]; exact h2⟩⟩
  rw [hcells r (Nat.lt_of_not_le fun hr => by rw [hw.fresh r hr] at e; cases e)]
  exact e

theorem later_exec {w : Cfg} {fuel : Nat} {m m' : Mem} {L : Ref → List Ref} (hi : Inv m L) (h : WF m) {c : Call}
    (e : m.exec w fuel c = .ok m') : Later m m' := by
  cases c with
  | newPool p =>
    simp only [Mem.exec] at e
    split at e
    · cases e
    · rename_i hc
      cases e
      refine later_owner m.owner _ _ fun q h1 h2 => ?_
      rw [upd_ne _ _ (show q ≠ p from fun hq => hc (.inr (by rw [← hq]; exact h1)))]
      exact h2
  | clearPool p =>
    simp only [Mem.exec] at e
    split at e
    · cases e; exact later_owner _ m.pools m.nextPool fun _ _ h => h
    · cases e
  | destroyPool p =>
    simp only [Mem.exec] at e
    split at e
    · cases e
      refine later_owner _ _ m.nextPool fun q h1 h2 => ?_
      by_cases hqp : q = p
      · subst hqp; exact upd_same _ _ _
      · rw [upd_ne _ _ hqp]; exact h2
    · cases e
  | mergePool p q =>
    simp only [Mem.exec] at e
    split at e
    · cases e; exact later_owner _ m.pools m.nextPool fun _ _ h => h
    · cases e
  | movePool p q =>
    simp only [Mem.exec] at e
    split at e
    · rename_i hc
      cases e
      refine later_owner _ _ _ fun k h1 h2 => ?_
      rw [upd_ne _ _ (show k ≠ p from fun hk => hc.1 (.inr (by rw [← hk]; exact h1)))]
      exact h2
    · cases e
  | assignPool p q =>
    simp only [Mem.exec] at e
    split at e
    · cases e; exact later_owner _ m.pools m.nextPool fun _ _ h => h
    · cases e
  | leaf d p view v =>
    simp only [Mem.exec] at e
    obtain ⟨o, h1, h2⟩ := bind_ok e
    obtain ⟨dt, pl, rfl, hs⟩ := makeLeaf_ok h1
    obtain ⟨hp, rfl⟩ := make_ok h2
    exact later_new h _ _ _
  | emptyLeaf d p view =>
    simp only [Mem.exec] at e
    obtain ⟨hp, rfl⟩ := make_ok e
    exact later_new h _ _ _
  | cont d p k =>
    simp only [Mem.exec] at e
    obtain ⟨hp, rfl⟩ := make_ok e
    exact later_new h _ _ _
  | move d x =>
    simp only [Mem.exec] at e
    cases e
    exact ⟨fun _ _ _ _ _ e => ⟨_, _, e⟩, fun _ h1 h2 => ⟨h1, h2⟩⟩
  | assign c v =>
    simp only [Mem.exec] at e
    obtain ⟨r, ref, dt, p, dt', p', rfl, hc, _, hs, rfl⟩ := assign_ok e
    exact later_upd hc (fun _ _ _ _ e => by cases e) m.vars
  | insert c x =>
    simp only [Mem.exec] at e
    obtain ⟨r, pool, head, size, rfl, hc, _, hp, rfl⟩ := arrayInsert_ok hi.topNone e
    exact later_ins h hc _ _
  | insertKey c k x =>
    simp only [Mem.exec] at e
    obtain ⟨r, ref, pool, head, size, rfl, hc, _, hp, rfl⟩ := mapInsert_ok hi.topNone e
    exact later_ins h hc _ _
  | clear a c =>
    simp only [Mem.exec] at e
    obtain ⟨r, k, pool, head, size, rfl, hc, _, _, rfl⟩ := clearCont_ok e
    exact later_upd hc (fun _ _ _ _ e => by cases e; exact ⟨_, _, rfl⟩) m.vars
  | take d c k =>
    simp only [Mem.exec] at e
    obtain ⟨r, ref, pool, head, size, rfl, hc, _, hcase⟩ := take_ok hi e
    rcases hcase with ⟨_, rfl⟩ | ⟨i, b, a, k, v, n, _, hi', _, _, rfl⟩
    · exact ⟨fun _ _ _ _ _ e => ⟨_, _, e⟩, fun _ h1 h2 => ⟨h1, h2⟩⟩
    · exact later_upd hi' (fun _ _ _ _ e => by cases e) _
  | serialize t p x =>
    obtain ⟨hp, rfl⟩ := serialize_call e
    exact later_new h _ _ _
  | parse d p ref content =>
    simp only [Mem.exec] at e
    cases hp : m.pools p with
    | false =>
      obtain ⟨h1, _⟩ := parse_dead (cfg := w) hp fuel d ref 1 content
      split at e
      · rename_i q hq; exact absurd hq (h1 q)
      · cases e; exact .refl _
      · cases e
    | true =>
      have hb := parse_both (cfg := w) (fun i hj => hi.fresh i hj) hp fuel d ref 1 content
      generalize Bridge.parse w ⟨false, ref, 1⟩ fuel content = x at hb
      generalize m.parse w fuel d p ref content = y at hb e
      cases hb with
      | @ok o q hoq =>
        obtain ⟨m1, hP, _⟩ := hoq
        cases e
        exact later_parsed h hP
      | error er =>
        split at e
        · rename_i hq; cases hq
        · cases e; exact .refl _
        · cases e

theorem later_run {w : Cfg} {fuel : Nat} {m m' : Mem} {as : List Act} (e : Run w fuel m as m') : ∀ {L : Ref → List Ref}, Inv m L → WF m → Later m m' := by
  induction e with
  | nil m => intro L _ _; exact .refl m
  | cons h1 h2 ih =>
    intro L hi hw
    obtain ⟨L', hi', hw', _⟩ := sim_act hi hw h1
    refine Later.trans ?_ (ih hi' hw')
    cases h1 with
    | call c m' e => exact later_exec hi hw e
    | coParse c m' e ht =>
      obtain ⟨_, _, o, _, D, f, mr, root, hP, _⟩ := coParse_ok hi hw e ht
      exact later_parsed hw hP
    | coThrow c x e => exact .refl _

end Bridge.Heap
