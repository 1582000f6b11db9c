import Verif.Model.CoHeap
import Verif.Proof.HeapParse
/-
Coroutines that share a memory (Model/CoHeap.lean): a program logic with separate parts of the memory, and its soundness for every
interleaving.
-/
set_option autoImplicit false
namespace Bridge.Heap
open Spec

/-! ### parts of the memory -/

/-- The part of the memory that one coroutine works on: some pools (`true`: the variable is alive, `false`: it has been moved from), and
the cells in their blocks. -/
structure Part where
  cells : Nat → Option (Nat × Cell)
  pools : Nat → Option Bool

/-- The cell at an address. -/
def Part.cell (s : Part) (r : Ref) : Option Cell := (s.cells r).map Prod.snd

/-- Cells belong to pools of the part. -/
def Part.Closed (s : Part) : Prop := ∀ r q c, s.cells r = some (q, c) → s.pools q ≠ none

def Part.empty : Part := ⟨fun _ => none, fun _ => none⟩
def Part.set (s : Part) (r : Nat) (x : Nat × Cell) : Part := { s with cells := upd s.cells r (some x) }
def Part.setPool (s : Part) (q : Nat) (b : Bool) : Part := { s with pools := upd s.pools q (some b) }
def Part.merge (s : Part) (q q' : Nat) : Part :=
  { s with cells := fun r => (s.cells r).map fun x => if x.1 = q' then (q, x.2) else x }

/-- `s` consists of `s0` and the parts `hs 0`, …, `hs (n-1)`, which have no pool in common. -/
structure Join (s s0 : Part) (n : Nat) (hs : Nat → Part) : Prop where
  cells : ∀ r x, s.cells r = some x ↔ s0.cells r = some x ∨ ∃ i, i < n ∧ (hs i).cells r = some x
  pools : ∀ q b, s.pools q = some b ↔ s0.pools q = some b ∨ ∃ i, i < n ∧ (hs i).pools q = some b
  apart0 : ∀ i q, i < n → s0.pools q ≠ none → (hs i).pools q = none
  apart : ∀ i j q, i < n → j < n → i ≠ j → (hs i).pools q ≠ none → (hs j).pools q = none
  closed0 : s0.Closed
  closed : ∀ i, i < n → (hs i).Closed

/-- Every way to run the program from this part of the memory ends like `Q` says, as long as the others keep to their parts. -/
def wp : {α : Type} → Prog α → Part → (Res α → Part → Prop) → Prop
  | _, .ret r, s, Q => Q r s
  | _, .newPool k, s, Q => s.Closed → ∀ q, s.pools q = none → wp (k q) (s.setPool q true) Q
  | _, .endPool q k, s, Q => s.pools q = some true ∧ wp k (s.setPool q false) Q
  | _, .mergePool q q' k, s, Q => s.pools q = some true ∧ s.pools q' ≠ none ∧ q ≠ q' ∧ wp k (s.merge q q') Q
  | _, .freePool q k, s, Q => s.pools q ≠ none ∧ (∀ r c, s.cells r ≠ some (q, c)) ∧ wp k s Q
  | _, .alloc q c k, s, Q => s.pools q = some true ∧ ∀ r, s.cells r = none → wp (k r) (s.set r (q, c)) Q
  | _, .load r k, s, Q => ∃ r0 q c, r = some r0 ∧ s.cells r0 = some (q, c) ∧ wp (k (r0, c)) s Q
  | _, .modify r f k, s, Q => ∃ q c, s.cells r = some (q, c) ∧ wp k (s.set r (q, f c)) Q
  | _, .dict k, s, Q => wp k s Q
  | _, .par n ts k, s, Q => s.Closed → ∃ (s0 : Part) (hs : Nat → Part) (Qs : Nat → Res Out → Part → Prop), Join s s0 n hs ∧
      (∀ i, i < n → wp (ts i) (hs i) (Qs i)) ∧
      ∀ (rs : Nat → Res Out) (hs' : Nat → Part) (s' : Part), (∀ i, i < n → Qs i (rs i) (hs' i)) → Join s' s0 n hs' →
        wp (k ((List.range n).map rs)) s' Q

theorem wp_mono {α : Type} (t : Prog α) : ∀ (s : Part) (Q Q' : Res α → Part → Prop), (∀ r s', Q r s' → Q' r s') → wp t s Q → wp t s Q' := by
  induction t with
  | ret r => intro s Q Q' h hw; exact h _ _ hw
  | newPool k ih => intro s Q Q' h hw hc q hq; exact ih _ _ _ _ h (hw hc q hq)
  | endPool q k ih => intro s Q Q' h hw; exact ⟨hw.1, ih _ _ _ h hw.2⟩
  | mergePool q q' k ih => intro s Q Q' h hw; exact ⟨hw.1, hw.2.1, hw.2.2.1, ih _ _ _ h hw.2.2.2⟩
  | freePool q k ih => intro s Q Q' h hw; exact ⟨hw.1, hw.2.1, ih _ _ _ h hw.2.2⟩
  | alloc q c k ih => intro s Q Q' h hw; exact ⟨hw.1, fun r hr => ih _ _ _ _ h (hw.2 r hr)⟩
  | load r k ih =>
    intro s Q Q' h hw
    obtain ⟨r0, q, c, h1, h2, h3⟩ := hw
    exact ⟨r0, q, c, h1, h2, ih _ _ _ _ h h3⟩
  | modify r f k ih =>
    intro s Q Q' h hw
    obtain ⟨q, c, h2, h3⟩ := hw
    exact ⟨q, c, h2, ih _ _ _ h h3⟩
  | dict k ih => intro s Q Q' h hw; exact ih _ _ _ h hw
  | par n ts k iht ih =>
    intro s Q Q' h hw hc
    obtain ⟨s0, hs, Qs, h1, h2, h3⟩ := hw hc
    exact ⟨s0, hs, Qs, h1, h2, fun rs hs' s' g1 g2 => ih _ _ _ _ h (h3 rs hs' s' g1 g2)⟩

/-- What comes after a result. -/
def After {α β : Type} (f : α → Prog β) (Q : Res β → Part → Prop) (r : Res α) (s : Part) : Prop :=
  match r with
  | .ok a => wp (f a) s Q
  | .error e => Q (.error e) s

theorem wp_bind {α β : Type} (f : α → Prog β) (t : Prog α) : ∀ (s : Part) (Q : Res β → Part → Prop), wp t s (After f Q) → wp (t.bind f) s Q := by
  induction t with
  | ret r => intro s Q hw; cases r <;> exact hw
  | newPool k ih => intro s Q hw hc q hq; exact ih _ _ _ _ (hw hc q hq)
  | endPool q k ih => intro s Q hw; exact ⟨hw.1, ih _ _ _ hw.2⟩
  | mergePool q q' k ih => intro s Q hw; exact ⟨hw.1, hw.2.1, hw.2.2.1, ih _ _ _ hw.2.2.2⟩
  | freePool q k ih => intro s Q hw; exact ⟨hw.1, hw.2.1, ih _ _ _ hw.2.2⟩
  | alloc q c k ih => intro s Q hw; exact ⟨hw.1, fun r hr => ih _ _ _ _ (hw.2 r hr)⟩
  | load r k ih =>
    intro s Q hw
    obtain ⟨r0, q, c, h1, h2, h3⟩ := hw
    exact ⟨r0, q, c, h1, h2, ih _ _ _ _ h3⟩
  | modify r g k ih =>
    intro s Q hw
    obtain ⟨q, c, h2, h3⟩ := hw
    exact ⟨q, c, h2, ih _ _ _ h3⟩
  | dict k ih => intro s Q hw; exact ih _ _ _ hw
  | par n ts k iht ih =>
    intro s Q hw hc
    obtain ⟨s0, hs, Qs, h1, h2, h3⟩ := hw hc
    exact ⟨s0, hs, Qs, h1, h2, fun rs hs' s' g1 g2 => ih _ _ _ _ (h3 rs hs' s' g1 g2)⟩

/-! ### parts and the memory -/

/-- `s` is a part of the memory. -/
structure Of (m : Mem) (s : Part) : Prop where
  cells : ∀ r q c, s.cells r = some (q, c) ↔ m.owner r = some q ∧ m.cells r = some c ∧ s.pools q ≠ none
  pools : ∀ q b, s.pools q = some b → m.pools q = b ∧ m.frames q = true ∧ q < m.nextPool

theorem Of.closed {m : Mem} {s : Part} (h : Of m s) : s.Closed := fun r q c e => ((h.cells r q c).1 e).2.2

theorem Of.none {m : Mem} {s : Part} (h : Of m s) {r : Nat} (hr : m.cells r = none) : s.cells r = none := by
  cases hs : s.cells r with
  | none => rfl
  | some x => obtain ⟨q, c⟩ := x; rw [((h.cells r q c).1 hs).2.1] at hr; cases hr

theorem Of.load {m : Mem} {s : Part} (h : Of m s) {r : Nat} {q : Nat} {c : Cell} (e : s.cells r = some (q, c)) : m.load (some r) = .ok (r, c) := by
  obtain ⟨h1, h2, _⟩ := (h.cells r q c).1 e
  exact load_eq h2 (by rw [h1]; simp)

/-- What may have changed when the owner of `s` has made a step, after which it has `s'`. -/
structure Frame (m m' : Mem) (s s' : Part) : Prop where
  np : m.nextPool ≤ m'.nextPool
  top : m.top ≤ m'.top
  vars : m'.vars = m.vars
  tok : ∀ q, s.pools q ≠ none → s'.pools q ≠ none
  newTok : ∀ q, s'.pools q ≠ none → s.pools q ≠ none ∨ m.nextPool ≤ q
  cell : ∀ r : Nat, (m'.cells r = m.cells r ∧ m'.owner r = m.owner r) ∨
    ((∃ q, m'.owner r = some q ∧ s'.pools q ≠ none) ∧ (m.top ≤ r ∨ ∃ q, m.owner r = some q ∧ s.pools q ≠ none))
  pool : ∀ q, s'.pools q = none → m'.pools q = m.pools q ∧ m'.frames q = m.frames q

theorem Frame.refl (m : Mem) (s : Part) : Frame m m s s :=
  ⟨Nat.le_refl _, Nat.le_refl _, rfl, fun _ h => h, fun _ h => .inl h, fun _ => .inl ⟨rfl, rfl⟩, fun _ _ => ⟨rfl, rfl⟩⟩

theorem Frame.trans {m m1 m2 : Mem} {s s1 s2 : Part} (h1 : Frame m m1 s s1) (h2 : Frame m1 m2 s1 s2) (hw : WF m) : Frame m m2 s s2 := by
  refine ⟨Nat.le_trans h1.np h2.np, Nat.le_trans h1.top h2.top, h2.vars.trans h1.vars, fun q h => h2.tok q (h1.tok q h), fun q h => ?_,
    fun r => ?_, fun q h => ?_⟩
  · rcases h2.newTok q h with h | h
    · exact h1.newTok q h
    · exact .inr (Nat.le_trans h1.np h)
  · rcases h2.cell r with ⟨a, b⟩ | ⟨a, b⟩
    · rcases h1.cell r with ⟨c, d⟩ | ⟨⟨q, c, c'⟩, d⟩
      · exact .inl ⟨a.trans c, b.trans d⟩
      · exact .inr ⟨⟨q, b.trans c, h2.tok q c'⟩, d⟩
    · refine .inr ⟨a, ?_⟩
      rcases b with b | ⟨q, b, b'⟩
      · exact .inl (Nat.le_trans h1.top b)
      · rcases h1.cell r with ⟨c, d⟩ | ⟨_, d⟩
        · rw [d] at b
          rcases h1.newTok q b' with h | h
          · exact .inr ⟨q, b, h⟩
          · exact absurd (hw.owner r q b) (Nat.not_lt.2 h)
        · exact d
  · have h' : s1.pools q = none := by
      apply Classical.byContradiction; intro hn; exact h2.tok q hn h
    exact ⟨(h2.pool q h).1.trans (h1.pool q h').1, (h2.pool q h).2.trans (h1.pool q h').2⟩

/-- The others keep their parts. -/
theorem Frame.other {m m' : Mem} {s s' f : Part} (h : Frame m m' s s') (hw : WF m) (hf : Of m f) (hd : ∀ q, f.pools q ≠ none → s.pools q = none) :
    Of m' f ∧ ∀ q, f.pools q ≠ none → s'.pools q = none := by
  have hd' : ∀ q, f.pools q ≠ none → s'.pools q = none := by
    intro q hq
    apply Classical.byContradiction; intro hn
    rcases h.newTok q hn with h1 | h1
    · exact h1 (hd q hq)
    · cases hb : f.pools q with
      | none => exact hq hb
      | some b => exact absurd (hf.pools q b hb).2.2 (Nat.not_lt.2 h1)
  refine ⟨⟨fun r q c => ?_, fun q b e => ?_⟩, hd'⟩
  · rw [hf.cells r q c]
    constructor
    · rintro ⟨a, b, g⟩
      rcases h.cell r with ⟨c1, c2⟩ | ⟨_, c1 | ⟨q', c1, c2⟩⟩
      · exact ⟨by rw [c2]; exact a, by rw [c1]; exact b, g⟩
      · rw [hw.fresh r c1] at b; cases b
      · rw [a] at c1; cases c1; exact absurd (hd q g) c2
    · rintro ⟨a, b, g⟩
      rcases h.cell r with ⟨c1, c2⟩ | ⟨⟨q', c1, c2⟩, _⟩
      · exact ⟨by rw [← c2]; exact a, by rw [← c1]; exact b, g⟩
      · rw [a] at c1; cases c1; exact absurd (hd' q g) c2
  · obtain ⟨a, b, g⟩ := hf.pools q b e
    have := h.pool q (hd' q (by rw [e]; simp))
    exact ⟨this.1.trans a, this.2.trans b, Nat.lt_of_lt_of_le g h.np⟩

theorem Join.of {m : Mem} {s s0 : Part} {n : Nat} {hs : Nat → Part} (j : Join s s0 n hs) (h : Of m s) : Of m s0 ∧ ∀ i, i < n → Of m (hs i) := by
  have tok0 : ∀ q, s0.pools q ≠ none → s.pools q ≠ none := by
    intro q hq
    cases e : s0.pools q with
    | none => exact absurd e hq
    | some b => rw [(j.pools q b).2 (.inl e)]; simp
  have tok : ∀ i q, i < n → (hs i).pools q ≠ none → s.pools q ≠ none := by
    intro i q hi hq
    cases e : (hs i).pools q with
    | none => exact absurd e hq
    | some b => rw [(j.pools q b).2 (.inr ⟨i, hi, e⟩)]; simp
  refine ⟨⟨fun r q c => ⟨fun e => ?_, fun ⟨a, b, g⟩ => ?_⟩, fun q b e => h.pools q b ((j.pools q b).2 (.inl e))⟩,
    fun i hi => ⟨fun r q c => ⟨fun e => ?_, fun ⟨a, b, g⟩ => ?_⟩, fun q b e => h.pools q b ((j.pools q b).2 (.inr ⟨i, hi, e⟩))⟩⟩
  · obtain ⟨a, b, _⟩ := (h.cells r q c).1 ((j.cells r (q, c)).2 (.inl e))
    exact ⟨a, b, j.closed0 r q c e⟩
  · rcases (j.cells r (q, c)).1 ((h.cells r q c).2 ⟨a, b, tok0 q g⟩) with e | ⟨i, hi, e⟩
    · exact e
    · exact absurd (j.apart0 i q hi g) (j.closed i hi r q c e)
  · obtain ⟨a, b, _⟩ := (h.cells r q c).1 ((j.cells r (q, c)).2 (.inr ⟨i, hi, e⟩))
    exact ⟨a, b, j.closed i hi r q c e⟩
  · rcases (j.cells r (q, c)).1 ((h.cells r q c).2 ⟨a, b, tok i q hi g⟩) with e | ⟨i', hi', e⟩
    · exact absurd (j.apart0 i q hi (j.closed0 r q c e)) g
    · by_cases he : i' = i
      · subst he; exact e
      · exact absurd (j.apart i' i q hi' hi he (j.closed i' hi' r q c e)) g

open Classical in
/-- The part with the pools of a set. -/
noncomputable def Mem.part (m : Mem) (P : Nat → Prop) : Part where
  cells r := match m.owner r, m.cells r with
    | some q, some c => if P q then some (q, c) else none
    | _, _ => none
  pools q := if P q then some (m.pools q) else none

theorem part_pools (m : Mem) (P : Nat → Prop) (q : Nat) : (m.part P).pools q ≠ none ↔ P q := by
  unfold Mem.part
  dsimp only
  by_cases h : P q <;> simp [h]

theorem part_of {m : Mem} {P : Nat → Prop} (h : ∀ q, P q → m.frames q = true ∧ q < m.nextPool) : Of m (m.part P) := by
  constructor
  · intro r q c
    have hp := part_pools m P q
    rw [hp]
    unfold Mem.part
    dsimp only
    cases m.owner r with
    | none => simp
    | some q' =>
      cases m.cells r with
      | none => simp
      | some c' =>
        dsimp only
        by_cases h' : P q'
        · rw [if_pos h']; simp only [Option.some.injEq, Prod.mk.injEq]
          constructor
          · rintro ⟨rfl, rfl⟩; exact ⟨rfl, rfl, h'⟩
          · rintro ⟨h1, h2, _⟩; exact ⟨h1, h2⟩
        · rw [if_neg h']
          simp only [reduceCtorEq, Option.some.injEq, false_iff]
          rintro ⟨rfl, _, h2⟩; exact h' h2
  · intro q b e
    have hq : P q := (part_pools m P q).1 (by rw [e]; simp)
    unfold Mem.part at e
    dsimp only at e
    rw [if_pos hq] at e
    cases e
    exact ⟨rfl, h q hq⟩

theorem join_of {m : Mem} {s0 : Part} {n : Nat} {hs : Nat → Part} (h0 : Of m s0) (h : ∀ i, i < n → Of m (hs i))
    (a0 : ∀ i q, i < n → s0.pools q ≠ none → (hs i).pools q = none)
    (a : ∀ i j q, i < n → j < n → i ≠ j → (hs i).pools q ≠ none → (hs j).pools q = none) :
    ∃ s, Of m s ∧ Join s s0 n hs ∧ ∀ q, s.pools q ≠ none ↔ s0.pools q ≠ none ∨ ∃ i, i < n ∧ (hs i).pools q ≠ none := by
  obtain ⟨P, hP⟩ : ∃ P : Nat → Prop, P = fun q => s0.pools q ≠ none ∨ ∃ i, i < n ∧ (hs i).pools q ≠ none := ⟨_, rfl⟩
  have hPq : ∀ q, P q ↔ s0.pools q ≠ none ∨ ∃ i, i < n ∧ (hs i).pools q ≠ none := fun q => by rw [hP]
  have tok : ∀ {s : Part} {q}, Of m s → s.pools q ≠ none → s.pools q = some (m.pools q) ∧ m.frames q = true ∧ q < m.nextPool := by
    intro s q hs hq
    cases e : s.pools q with
    | none => exact absurd e hq
    | some b => obtain ⟨h1, h2, h3⟩ := hs.pools q b e; exact ⟨by rw [h1], h2, h3⟩
  have ho := part_of (m := m) (P := P) fun q hq => by
    rcases (hPq q).1 hq with hq | ⟨i, hi, hq⟩
    · exact (tok h0 hq).2
    · exact (tok (h i hi) hq).2
  refine ⟨m.part P, ho, ⟨fun r x => ?_, fun q b => ?_, a0, a, h0.closed, fun i hi => (h i hi).closed⟩, fun q => ?_⟩
  · obtain ⟨q, c⟩ := x
    rw [ho.cells r q c, h0.cells r q c, part_pools, hPq]
    constructor
    · rintro ⟨h1, h2, h3 | ⟨i, hi, h3⟩⟩
      · exact .inl ⟨h1, h2, h3⟩
      · exact .inr ⟨i, hi, ((h i hi).cells r q c).2 ⟨h1, h2, h3⟩⟩
    · rintro (⟨h1, h2, h3⟩ | ⟨i, hi, e⟩)
      · exact ⟨h1, h2, .inl h3⟩
      · obtain ⟨h1, h2, h3⟩ := ((h i hi).cells r q c).1 e
        exact ⟨h1, h2, .inr ⟨i, hi, h3⟩⟩
  · constructor
    · intro e
      have hq : P q := (part_pools m P q).1 (by rw [e]; simp)
      have e' := (ho.pools q b e).1
      rcases (hPq q).1 hq with hq | ⟨i, hi, hq⟩
      · exact .inl (by rw [(tok h0 hq).1, e'])
      · exact .inr ⟨i, hi, by rw [(tok (h i hi) hq).1, e']⟩
    · intro e
      have hq : P q ∧ b = m.pools q := by
        rcases e with e | ⟨i, hi, e⟩
        · exact ⟨(hPq q).2 (.inl (by rw [e]; simp)), (h0.pools q b e).1.symm⟩
        · exact ⟨(hPq q).2 (.inr ⟨i, hi, by rw [e]; simp⟩), ((h i hi).pools q b e).1.symm⟩
      rw [(tok ho ((part_pools m P q).2 hq.1)).1, hq.2]
  · rw [part_pools, hPq]

/-! ### soundness -/

theorem set_of {m : Mem} {s : Part} (h : Of m s) {r q : Nat} {c : Cell} (e : s.cells r = some (q, c)) (f : Cell → Cell) :
    Of (m.modify r f) (s.set r (q, f c)) := by
  obtain ⟨h1, h2, h3⟩ := (h.cells r q c).1 e
  constructor
  · intro r' q' c'
    show upd _ _ _ _ = _ ↔ m.owner r' = _ ∧ upd _ _ _ _ = _ ∧ s.pools q' ≠ none
    by_cases hr : r' = r
    · subst hr
      rw [upd_same, upd_same, h2]
      simp only [Option.some.injEq, Prod.mk.injEq, Option.map_some]
      constructor
      · rintro ⟨rfl, rfl⟩; exact ⟨h1, rfl, h3⟩
      · rintro ⟨g1, g2, _⟩; rw [h1] at g1; cases g1; exact ⟨rfl, g2⟩
    · rw [upd_ne _ _ hr, upd_ne _ _ hr]; exact h.cells r' q' c'
  · exact h.pools

theorem step_sound {α : Type} {u : Bool} {m m' : Mem} {t t' : Prog α} (h : Step u m t m' t') : ∀ (s : Part) (Q : Res α → Part → Prop), WF m → Of m s →
    wp t s Q → ∃ s', WF m' ∧ Of m' s' ∧ wp t' s' Q ∧ Frame m m' s s' := by
  induction h with
  | newPool m k =>
    intro s Q hw ho hwp
    have hno : s.pools m.nextPool = none := by
      cases e : s.pools m.nextPool with
      | none => rfl
      | some b => exact absurd (ho.pools _ b e).2.2 (Nat.lt_irrefl _)
    refine ⟨s.setPool m.nextPool true, ⟨hw.fresh, hw.live, fun r q e => Nat.lt_succ_of_lt (hw.owner r q e), fun q e => ?_, fun q e => ?_⟩,
      ⟨fun r q c => ?_, fun q b e => ?_⟩, hwp ho.closed _ hno, Nat.le_succ _, Nat.le_refl _, rfl, fun q hq => ?_, fun q hq => ?_,
      fun r => .inl ⟨rfl, rfl⟩, fun q hq => ?_⟩
    · change upd _ _ _ _ = _ at e
      by_cases h : q = m.nextPool
      · subst h; exact Nat.lt_succ_self _
      · rw [upd_ne _ _ h] at e; exact Nat.lt_succ_of_lt (hw.pools q e)
    · change upd _ _ _ _ = _ at e
      by_cases h : q = m.nextPool
      · subst h; exact Nat.lt_succ_self _
      · rw [upd_ne _ _ h] at e; exact Nat.lt_succ_of_lt (hw.frames q e)
    · show s.cells r = _ ↔ m.owner r = _ ∧ m.cells r = _ ∧ upd _ _ _ _ ≠ _
      rw [ho.cells r q c]
      constructor
      · rintro ⟨a, b, g⟩
        refine ⟨a, b, ?_⟩
        rw [upd_ne _ _ (Nat.ne_of_lt (hw.owner r q a))]; exact g
      · rintro ⟨a, b, g⟩
        rw [upd_ne _ _ (Nat.ne_of_lt (hw.owner r q a))] at g
        exact ⟨a, b, g⟩
    · change upd _ _ _ _ = _ at e
      show upd _ _ _ _ = _ ∧ upd _ _ _ _ = _ ∧ q < m.nextPool + 1
      by_cases h : q = m.nextPool
      · subst h; rw [upd_same] at e; cases e; rw [upd_same, upd_same]; exact ⟨rfl, rfl, Nat.lt_succ_self _⟩
      · rw [upd_ne _ _ h] at e; rw [upd_ne _ _ h, upd_ne _ _ h]
        obtain ⟨a, b, g⟩ := ho.pools q b e; exact ⟨a, b, Nat.lt_succ_of_lt g⟩
    · show upd _ _ _ _ ≠ _
      by_cases h : q = m.nextPool
      · subst h; rw [upd_same]; simp
      · rw [upd_ne _ _ h]; exact hq
    · change upd _ _ _ _ ≠ _ at hq
      by_cases h : q = m.nextPool
      · exact .inr (Nat.le_of_eq h.symm)
      · rw [upd_ne _ _ h] at hq; exact .inl hq
    · change upd _ _ _ _ = _ at hq
      show upd _ _ _ _ = _ ∧ upd _ _ _ _ = _
      by_cases h : q = m.nextPool
      · subst h; rw [upd_same] at hq; cases hq
      · rw [upd_ne _ _ h, upd_ne _ _ h]; exact ⟨rfl, rfl⟩
  | endPool m q k hq =>
    intro s Q hw ho hwp
    obtain ⟨h1, h2⟩ := hwp
    have hne : ∀ q', (s.setPool q false).pools q' ≠ none ↔ s.pools q' ≠ none := by
      intro q'
      show upd _ _ _ _ ≠ _ ↔ _
      by_cases h : q' = q
      · subst h; rw [upd_same, h1]; simp
      · rw [upd_ne _ _ h]
    refine ⟨s.setPool q false, ⟨hw.fresh, hw.live, hw.owner, fun q' e => ?_, hw.frames⟩, ⟨fun r q' c => ?_, fun q' b e => ?_⟩, h2,
      Nat.le_refl _, Nat.le_refl _, rfl, fun q' h => (hne q').2 h, fun q' h => .inl ((hne q').1 h), fun r => .inl ⟨rfl, rfl⟩, fun q' h => ?_⟩
    · change upd _ _ _ _ = _ at e
      by_cases h : q' = q
      · subst h; rw [upd_same] at e; cases e
      · rw [upd_ne _ _ h] at e; exact hw.pools q' e
    · rw [hne q']; exact ho.cells r q' c
    · change upd _ _ _ _ = _ at e
      show upd _ _ _ _ = _ ∧ m.frames q' = _ ∧ q' < m.nextPool
      by_cases h : q' = q
      · subst h; rw [upd_same] at e; cases e; rw [upd_same]
        exact ⟨rfl, (ho.pools _ _ h1).2⟩
      · rw [upd_ne _ _ h] at e; rw [upd_ne _ _ h]; exact ho.pools q' b e
    · change upd _ _ _ _ = _ at h
      show upd _ _ _ _ = _ ∧ _
      by_cases h' : q' = q
      · subst h'; rw [upd_same] at h; cases h
      · rw [upd_ne _ _ h']; exact ⟨rfl, rfl⟩
  | mergePool m q q' k hq hne =>
    intro s Q hw ho hwp
    obtain ⟨h1, h2, _, h3⟩ := hwp
    refine ⟨s.merge q q', ⟨hw.fresh, fun r e => hw.live r ?_, fun r o e => ?_, hw.pools, hw.frames⟩, ⟨fun r o c => ?_, ho.pools⟩, h3,
      Nat.le_refl _, Nat.le_refl _, rfl, fun _ h => h, fun _ h => .inl h, fun r => ?_, fun _ _ => ⟨rfl, rfl⟩⟩
    · intro e'
      dsimp only at e
      rw [e'] at e
      simp at e
    · dsimp only at e
      split at e
      · cases e; exact (ho.pools _ _ h1).2.2
      · exact hw.owner r o e
    · show (s.cells r).map _ = _ ↔ (if m.owner r = some q' then some q else m.owner r) = _ ∧ m.cells r = _ ∧ s.pools o ≠ none
      constructor
      · intro e
        cases hs : s.cells r with
        | none => rw [hs] at e; cases e
        | some x =>
          obtain ⟨o', c'⟩ := x
          rw [hs] at e
          obtain ⟨g1, g2, g3⟩ := (ho.cells r o' c').1 hs
          simp only [Option.map_some, Option.some.injEq] at e
          by_cases h : o' = q'
          · rw [if_pos h] at e; cases e; subst h
            rw [if_pos g1]
            exact ⟨rfl, g2, by rw [h1]; simp⟩
          · rw [if_neg h] at e; cases e
            rw [if_neg (by rw [g1]; simpa using h)]
            exact ⟨g1, g2, g3⟩
      · rintro ⟨g1, g2, g3⟩
        by_cases h : m.owner r = some q'
        · rw [if_pos h] at g1; cases g1
          rw [(ho.cells r q' c).2 ⟨h, g2, h2⟩]
          simp
        · rw [if_neg h] at g1
          rw [(ho.cells r o c).2 ⟨g1, g2, g3⟩]
          simp only [Option.map_some, Option.some.injEq]
          rw [if_neg (fun e => h (by rw [← e]; exact g1))]
    · by_cases h : m.owner r = some q'
      · refine .inr ⟨⟨q, ?_, by show s.pools q ≠ none; rw [h1]; simp⟩, .inr ⟨q', h, h2⟩⟩
        show (if _ then _ else _) = _
        rw [if_pos h]
      · refine .inl ⟨rfl, ?_⟩
        show (if _ then _ else _) = _
        rw [if_neg h]
  | freePool m q k =>
    intro s Q hw ho hwp
    obtain ⟨h1, h2, h3⟩ := hwp
    have hno : ∀ r, m.owner r ≠ some q := by
      intro r e
      cases hc : m.cells r with
      | none => exact hw.live r (by rw [e]; simp) hc
      | some c => exact h2 r c ((ho.cells r q c).2 ⟨e, hc, h1⟩)
    have : (fun r => if m.owner r = some q then none else m.owner r) = m.owner := by
      funext r; rw [if_neg (hno r)]
    rw [this]
    exact ⟨s, hw, ho, h3, Frame.refl m s⟩
  | alloc m m' q c k r e =>
    intro s Q hw ho hwp
    obtain ⟨h1, h2⟩ := hwp
    obtain ⟨hp, _, hlt⟩ := ho.pools _ _ h1
    rw [alloc_push hp] at e
    cases e
    have hnone := ho.none (hw.fresh _ (Nat.le_refl _))
    refine ⟨s.set m.top (q, c), ⟨fun r hr => ?_, fun r hr => ?_, fun r o e => ?_, hw.pools, hw.frames⟩, ⟨fun r o c' => ?_, ho.pools⟩, h2 _ hnone,
      Nat.le_refl _, Nat.le_succ _, rfl, fun _ h => h, fun _ h => .inl h, fun r => ?_, fun _ _ => ⟨rfl, rfl⟩⟩
    · change m.top + 1 ≤ r at hr
      show upd _ _ _ _ = _
      rw [upd_ne _ _ (by omega)]; exact hw.fresh r (by omega)
    · change upd _ _ _ _ ≠ _ at hr
      show upd _ _ _ _ ≠ _
      by_cases h : r = m.top
      · subst h; rw [upd_same]; simp
      · rw [upd_ne _ _ h] at hr ⊢; exact hw.live r hr
    · change upd _ _ _ _ = _ at e
      by_cases h : r = m.top
      · subst h; rw [upd_same] at e; cases e; exact hlt
      · rw [upd_ne _ _ h] at e; exact hw.owner r o e
    · show upd _ _ _ _ = _ ↔ upd _ _ _ _ = _ ∧ upd _ _ _ _ = _ ∧ s.pools o ≠ none
      by_cases h : r = m.top
      · subst h
        rw [upd_same, upd_same, upd_same]
        simp only [Option.some.injEq, Prod.mk.injEq]
        constructor
        · rintro ⟨rfl, rfl⟩; exact ⟨rfl, rfl, by rw [h1]; simp⟩
        · rintro ⟨a, b, _⟩; exact ⟨a, b⟩
      · rw [upd_ne _ _ h, upd_ne _ _ h, upd_ne _ _ h]; exact ho.cells r o c'
    · by_cases h : r = m.top
      · subst h
        exact .inr ⟨⟨q, upd_same _ _ _, by show s.pools q ≠ none; rw [h1]; simp⟩, .inl (Nat.le_refl _)⟩
      · exact .inl ⟨upd_ne _ _ h, upd_ne _ _ h⟩
  | load m r k x e =>
    intro s Q hw ho hwp
    obtain ⟨r0, q, c, rfl, h2, h3⟩ := hwp
    rw [ho.load h2] at e
    cases e
    exact ⟨s, hw, ho, h3, Frame.refl m s⟩
  | modify m r f k x e =>
    intro s Q hw ho hwp
    obtain ⟨q, c, h2, h3⟩ := hwp
    obtain ⟨g1, g2, g3⟩ := (ho.cells r q c).1 h2
    refine ⟨_, modify_wf hw r f, set_of ho h2 f, h3, Nat.le_refl _, Nat.le_refl _, rfl, fun _ h => h, fun _ h => .inl h, fun i => ?_, fun _ _ => ⟨rfl, rfl⟩⟩
    by_cases h : i = r
    · subst h; exact .inr ⟨⟨q, g1, g3⟩, .inr ⟨q, g1, g3⟩⟩
    · exact .inl ⟨upd_ne _ _ h, rfl⟩
  | dict m k =>
    intro s Q hw ho hwp
    exact ⟨s, hw, ho, hwp, Frame.refl m s⟩
  | one m m' n ts k i t u hi hst ih =>
    intro s Q hw ho hwp
    obtain ⟨s0, hs, Qs, j, h2, h3⟩ := hwp ho.closed
    obtain ⟨o0, oi⟩ := j.of ho
    obtain ⟨h', hw', ho', hwp', hf⟩ := ih (hs i) (Qs i) hw (oi i hi) (h2 i hi)
    have d0 : ∀ q, s0.pools q ≠ none → (hs i).pools q = none := fun q => j.apart0 i q hi
    obtain ⟨o0', d0'⟩ := hf.other hw o0 d0
    have dj : ∀ a, a < n → a ≠ i → Of m' (hs a) ∧ ∀ q, (hs a).pools q ≠ none → h'.pools q = none := fun a ha hne =>
      hf.other hw (oi a ha) (fun q => j.apart a i q ha hi hne)
    obtain ⟨hs', hhs'⟩ : ∃ hs', hs' = upd hs i h' := ⟨_, rfl⟩
    have e1 : hs' i = h' := by rw [hhs']; exact upd_same _ _ _
    have e2 : ∀ a, a ≠ i → hs' a = hs a := fun a ha => by rw [hhs']; exact upd_ne _ _ ha
    obtain ⟨s', os', j', hP⟩ := join_of (m := m') (s0 := s0) (n := n) (hs := hs') o0'
      (fun a ha => by
        by_cases h : a = i
        · subst h; rw [e1]; exact ho'
        · rw [e2 a h]; exact (dj a ha h).1)
      (fun a q ha hq => by
        by_cases h : a = i
        · subst h; rw [e1]; exact d0' q hq
        · rw [e2 a h]; exact j.apart0 a q ha hq)
      (fun a b q ha hb hab hq => by
        by_cases h : a = i
        · subst h
          rw [e2 b (Ne.symm hab)]
          rw [e1] at hq
          apply Classical.byContradiction; intro hn
          exact hq ((dj b hb (Ne.symm hab)).2 q hn)
        · rw [e2 a h] at hq
          by_cases h' : b = i
          · subst h'; rw [e1]; exact (dj a ha h).2 q hq
          · rw [e2 b h']; exact j.apart a b q ha hb hab hq)
    have tokS : ∀ q, s.pools q ≠ none ↔ s0.pools q ≠ none ∨ ∃ a, a < n ∧ (hs a).pools q ≠ none := by
      intro q
      constructor
      · intro hq
        cases e : s.pools q with
        | none => exact absurd e hq
        | some b =>
          rcases (j.pools q b).1 e with e | ⟨a, ha, e⟩
          · exact .inl (by rw [e]; simp)
          · exact .inr ⟨a, ha, by rw [e]; simp⟩
      · rintro (hq | ⟨a, ha, hq⟩)
        · cases e : s0.pools q with
          | none => exact absurd e hq
          | some b => rw [(j.pools q b).2 (.inl e)]; simp
        · cases e : (hs a).pools q with
          | none => exact absurd e hq
          | some b => rw [(j.pools q b).2 (.inr ⟨a, ha, e⟩)]; simp
    refine ⟨s', hw', os', fun _ => ⟨s0, hs', Qs, j', fun a ha => ?_, h3⟩, hf.np, hf.top, hf.vars, fun q hq => ?_, fun q hq => ?_, fun r => ?_, fun q hq => ?_⟩
    · by_cases h : a = i
      · subst h; rw [e1, upd_same]; exact hwp'
      · rw [e2 a h, upd_ne _ _ h]; exact h2 a ha
    · rw [hP]
      rcases (tokS q).1 hq with hq | ⟨a, ha, hq⟩
      · exact .inl hq
      · refine .inr ⟨a, ha, ?_⟩
        by_cases h : a = i
        · subst h; rw [e1]; exact hf.tok q hq
        · rw [e2 a h]; exact hq
    · rw [tokS]
      rcases (hP q).1 hq with hq | ⟨a, ha, hq⟩
      · exact .inl (.inl hq)
      · by_cases h : a = i
        · subst h; rw [e1] at hq
          rcases hf.newTok q hq with hq | hq
          · exact .inl (.inr ⟨a, ha, hq⟩)
          · exact .inr hq
        · rw [e2 a h] at hq; exact .inl (.inr ⟨a, ha, hq⟩)
    · rcases hf.cell r with h | ⟨⟨q, g1, g2⟩, g3⟩
      · exact .inl h
      · refine .inr ⟨⟨q, g1, (hP q).2 (.inr ⟨i, hi, by rw [e1]; exact g2⟩)⟩, ?_⟩
        rcases g3 with g3 | ⟨q', g3, g4⟩
        · exact .inl g3
        · exact .inr ⟨q', g3, (tokS q').2 (.inr ⟨i, hi, g4⟩)⟩
    · apply hf.pool q
      apply Classical.byContradiction; intro hn
      exact ((hP q).2 (.inr ⟨i, hi, by rw [e1]; exact hn⟩)) hq
  | join m n ts k rs hrs =>
    intro s Q hw ho hwp
    obtain ⟨s0, hs, Qs, j, h2, h3⟩ := hwp ho.closed
    refine ⟨s, hw, ho, h3 rs hs s (fun i hi => ?_) j, Frame.refl m s⟩
    have := h2 i hi
    rw [hrs i hi] at this
    exact this

theorem steps_sound {α : Type} {m m' : Mem} {t t' : Prog α} (h : Steps m t m' t') : ∀ (s : Part) (Q : Res α → Part → Prop), WF m → Of m s →
    wp t s Q → ∃ s', WF m' ∧ Of m' s' ∧ wp t' s' Q ∧ Frame m m' s s' := by
  induction h with
  | refl m t => intro s Q hw ho hwp; exact ⟨s, hw, ho, hwp, Frame.refl m s⟩
  | step h1 _ ih =>
    intro s Q hw ho hwp
    obtain ⟨s1, hw1, ho1, hwp1, hf1⟩ := step_sound h1 s Q hw ho hwp
    obtain ⟨s2, hw2, ho2, hwp2, hf2⟩ := ih s1 Q hw1 ho1 hwp1
    exact ⟨s2, hw2, ho2, hwp2, hf1.trans hf2 hw⟩

/-! ### no undefined behaviour, no races -/

theorem not_faulty {α : Type} {m : Mem} {t : Prog α} (h : Faulty m t) : ∀ (s : Part) (Q : Res α → Part → Prop), Of m s → wp t s Q → False := by
  induction h with
  | endPool m q k e => intro s Q ho hw; have := (ho.pools _ _ hw.1).1; rw [e] at this; cases this
  | mergePool m q q' k e =>
    intro s Q ho hw
    rcases e with e | e
    · have := (ho.pools _ _ hw.1).1; rw [e] at this; cases this
    · exact hw.2.2.1 e
  | alloc m q c k e => intro s Q ho hw; have := (ho.pools _ _ hw.1).1; rw [e] at this; cases this
  | load m r k e he =>
    intro s Q ho hw
    obtain ⟨r0, q, c, rfl, h2, _⟩ := hw
    rw [ho.load h2] at he; cases he
  | modify m r f k e he =>
    intro s Q ho hw
    obtain ⟨q, c, h2, _⟩ := hw
    rw [ho.load h2] at he; cases he
  | one m n ts k i hi _ ih =>
    intro s Q ho hw
    obtain ⟨s0, hs, Qs, j, h2, h3⟩ := hw ho.closed
    exact ih (hs i) (Qs i) ((j.of ho).2 i hi) (h2 i hi)

/-- The access is to something in the part. -/
def Access.In (s : Part) : Access → Prop
  | .read r => s.cells r ≠ none
  | .write r => s.cells r ≠ none
  | .pool q => s.pools q ≠ none
  | .dictionary => True

theorem touches_in {α : Type} {t : Prog α} {a : Access} (h : Touches t a) : ∀ (s : Part) (Q : Res α → Part → Prop), s.Closed → wp t s Q → a.In s := by
  induction h with
  | endPool q k => intro s Q hc hw; show s.pools q ≠ none; rw [hw.1]; simp
  | mergePool q q' k => intro s Q hc hw; show s.pools q ≠ none; rw [hw.1]; simp
  | mergePool' q q' k => intro s Q hc hw; exact hw.2.1
  | freePool q k => intro s Q hc hw; exact hw.1
  | alloc q c k => intro s Q hc hw; show s.pools q ≠ none; rw [hw.1]; simp
  | load r k =>
    intro s Q hc hw
    obtain ⟨r0, q, c, e, h2, _⟩ := hw
    cases e
    show s.cells r ≠ none
    rw [h2]; simp
  | modify r f k =>
    intro s Q hc hw
    obtain ⟨q, c, h2, _⟩ := hw
    show s.cells r ≠ none
    rw [h2]; simp
  | dict k => intro s Q hc hw; trivial
  | one n ts k i a hi _ ih =>
    intro s Q hc hw
    obtain ⟨s0, hs, Qs, j, h2, h3⟩ := hw hc
    have := ih (hs i) (Qs i) (j.closed i hi) (h2 i hi)
    have cell : ∀ r, (hs i).cells r ≠ none → s.cells r ≠ none := by
      intro r hr
      cases e : (hs i).cells r with
      | none => exact absurd e hr
      | some x => rw [(j.cells r x).2 (.inr ⟨i, hi, e⟩)]; simp
    have pool : ∀ q, (hs i).pools q ≠ none → s.pools q ≠ none := by
      intro q hq
      cases e : (hs i).pools q with
      | none => exact absurd e hq
      | some x => rw [(j.pools q x).2 (.inr ⟨i, hi, e⟩)]; simp
    cases a with
    | read r => exact cell r this
    | write r => exact cell r this
    | pool q => exact pool q this
    | dictionary => trivial

theorem Join.cell_apart {s s0 : Part} {n : Nat} {hs : Nat → Part} (j : Join s s0 n hs) {i k : Nat} (hi : i < n) (hk : k < n) (hne : i ≠ k) {r : Nat}
    (h1 : (hs i).cells r ≠ none) (h2 : (hs k).cells r ≠ none) : False := by
  cases e1 : (hs i).cells r with
  | none => exact h1 e1
  | some x =>
    cases e2 : (hs k).cells r with
    | none => exact h2 e2
    | some y =>
      have a := (j.cells r x).2 (.inr ⟨i, hi, e1⟩)
      have b := (j.cells r y).2 (.inr ⟨k, hk, e2⟩)
      rw [a] at b
      cases b
      obtain ⟨q, c⟩ := x
      exact j.closed k hk r q c e2 (j.apart i k q hi hk hne (j.closed i hi r q c e1))

theorem no_race {α : Type} {t : Prog α} {a : Access} (h : Race t a) : ∀ (s : Part) (Q : Res α → Part → Prop), s.Closed → wp t s Q → a = .dictionary := by
  induction h with
  | here n ts k i l a b hi hl hne ha hb hc =>
    intro s Q hcl hw
    obtain ⟨s0, hs, Qs, j, h2, h3⟩ := hw hcl
    have g1 := touches_in ha (hs i) (Qs i) (j.closed i hi) (h2 i hi)
    have g2 := touches_in hb (hs l) (Qs l) (j.closed l hl) (h2 l hl)
    cases hc with
    | readWrite r => exact (j.cell_apart hi hl hne g1 g2).elim
    | writeRead r => exact (j.cell_apart hi hl hne g1 g2).elim
    | writeWrite r => exact (j.cell_apart hi hl hne g1 g2).elim
    | pool q => exact (g2 (j.apart i l q hi hl hne g1)).elim
    | dictionary => rfl
  | inside n ts k i a hi _ ih =>
    intro s Q hcl hw
    obtain ⟨s0, hs, Qs, j, h2, h3⟩ := hw hcl
    exact ih (hs i) (Qs i) (j.closed i hi) (h2 i hi)

end Bridge.Heap
