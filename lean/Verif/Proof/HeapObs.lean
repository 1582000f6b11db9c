import Verif.Proof.HeapSim
/-
What the observers of Model/Heap.lean see.
-/
set_option autoImplicit false
namespace Bridge.Heap
open Spec

/-- The call frees memory of a pool. -/
def Call.frees : Call → Bool
  | .clearPool _ => true
  | .destroyPool _ => true
  | .assignPool _ _ => true
  | _ => false

/-- Nothing has been freed, and no container has lost its pool, unless that was a local variable of a coroutine. -/
structure Live (m : Mem) : Prop where
  owner : ∀ r c, m.cells r = some c → m.owner r ≠ none
  pool : ∀ r k p h s, m.cells r = some (.cont k p h s) → m.pools p = true ∨ m.frames p = true

theorem live_new {m : Mem} (h : Live m) (c : Cell) (p : Nat) (vars : Nat → Option Ref) (hc : ∀ k q hd s, c = .cont k q hd s → m.pools q = true ∨ m.frames q = true) :
    Live { m with cells := upd m.cells m.top (some c), top := m.top + 1, owner := upd m.owner m.top (some p), vars := vars } := by
  constructor
  · intro r c' e
    change upd m.cells m.top (some c) r = _ at e
    show upd m.owner m.top (some p) r ≠ none
    by_cases hr : r = m.top
    · rw [hr, upd_same]; simp
    · rw [upd_ne _ _ hr] at e ⊢; exact h.owner r c' e
  · intro r k q hd s e
    change upd m.cells m.top (some c) r = _ at e
    by_cases hr : r = m.top
    · rw [hr, upd_same] at e; cases e; exact hc _ _ _ _ rfl
    · rw [upd_ne _ _ hr] at e; exact h.pool r _ _ _ _ e

theorem live_upd {m : Mem} (h : Live m) {r : Ref} {c c' : Cell} (e : m.cells r = some c) (vars : Nat → Option Ref)
    (hc : ∀ k q hd s, c' = .cont k q hd s → m.pools q = true ∨ m.frames q = true) :
    Live { m with cells := upd m.cells r (some c'), vars := vars } := by
  constructor
  · intro q c'' e'
    change upd m.cells r (some c') q = _ at e'
    show m.owner q ≠ none
    by_cases hr : q = r
    · rw [hr]; exact h.owner r c e
    · rw [upd_ne _ _ hr] at e'; exact h.owner _ _ e'
  · intro q k q' hd s e'
    change upd m.cells r (some c') q = _ at e'
    by_cases hr : q = r
    · rw [hr, upd_same] at e'; cases e'; exact hc _ _ _ _ rfl
    · rw [upd_ne _ _ hr] at e'; exact h.pool _ _ _ _ _ e'

theorem live_ins {m : Mem} {L : Ref → List Ref} (hi : Inv m L) (h : Live m) {c : Ref} {k : Kind} {pool : Nat} {head : Option Ref} {size : Nat}
    (hc : m.cells c = some (.cont k pool head size)) (key : Str) (x : Nat) : Live (m.ins c k pool head size key x) := by
  have hp := h.pool _ _ _ _ _ hc
  have h1 := live_new h (.item key (m.vars x) head) pool (upd m.vars x none) (fun _ _ _ _ e => by cases e)
  have hne : c ≠ m.top := Nat.ne_of_lt (hi.lt hc)
  have h2 := live_upd (r := c) (c := .cont k pool head size) (c' := .cont k pool (some m.top) (addW size 1)) h1
    (by show upd _ _ _ _ = _; rw [upd_ne _ _ hne]; exact hc) (upd m.vars x none) (fun _ _ _ _ e => by cases e; exact hp)
  exact h2

/-! ### observers -/

theorem walk_eq {m : Mem} {h : Option Ref} {l : List Ref} (c : Chain m.cells h l) (ho : ∀ i ∈ l, m.owner i ≠ none) (n : Nat) :
    m.walk h n = .ok l[n]? := by
  induction c generalizing n with
  | nil => cases n <;> simp [Mem.walk]
  | @cons i k v nx l hi c ih =>
    cases n with
    | zero => simp [Mem.walk]
    | succ n =>
      simp only [Mem.walk]
      rw [loadItem_eq hi (ho i List.mem_cons_self), ok_bind]
      dsimp only
      rw [ih (fun j hj => ho j (List.mem_cons_of_mem _ hj))]
      simp

theorem find_eq {m : Mem} {h : Option Ref} {l : List Ref} (c : Chain m.cells h l) (ho : ∀ i ∈ l, m.owner i ≠ none) (key : Bytes)
    {fuel : Nat} (hf : l.length ≤ fuel) : m.find key fuel h = .ok (l.find? fun i => (pairOf m i).1 = key) := by
  induction c generalizing fuel with
  | nil => cases fuel <;> simp [Mem.find]
  | @cons i k v nx l hi c ih =>
    cases fuel with
    | zero => simp at hf
    | succ f =>
      simp only [Mem.find]
      rw [loadItem_eq hi (ho i List.mem_cons_self), ok_bind]
      dsimp only
      have hp : (pairOf m i).1 = k.bytes := by simp only [pairOf, hi]
      rw [List.find?_cons, hp]
      by_cases hk : k.bytes = key
      · rw [if_pos hk]; simp [hk, pure, Except.pure]
      · rw [if_neg hk, ih (fun j hj => ho j (List.mem_cons_of_mem _ hj)) (by simpa using hf)]
        simp [hk]

theorem visit_eq {m : Mem} {h : Option Ref} {l : List Ref} (c : Chain m.cells h l) (ho : ∀ i ∈ l, m.owner i ≠ none)
    {fuel : Nat} (hf : l.length ≤ fuel) : m.visit fuel h = .ok (l.map (pairOf m)) := by
  induction c generalizing fuel with
  | nil => cases fuel <;> simp [Mem.visit]
  | @cons i k v nx l hi c ih =>
    cases fuel with
    | zero => simp at hf
    | succ f =>
      simp only [Mem.visit, Mem.entry, Mem.next]
      rw [loadItem_eq hi (ho i List.mem_cons_self), ok_bind]
      dsimp only
      rw [pure_eq_ok, ok_bind, ok_bind]
      dsimp only
      rw [pure_eq_ok, ok_bind, ih (fun j hj => ho j (List.mem_cons_of_mem _ hj)) (by simpa using hf), ok_bind, pure_eq_ok]
      simp [pairOf, hi]

theorem reverse_get {α : Type} (l : List α) (n : Nat) (h : n < l.length) : l[l.length - 1 - n]? = l.reverse[n]? := by
  rw [List.getElem?_reverse h]

/-- What a program sees of an array. -/
theorem obs_array {m : Mem} {L : Ref → List Ref} (hi : Inv m L) {c : Ref} {p : Nat} {hd : Option Ref} {s : Nat}
    (hc : m.cells c = some (.cont .array p hd s)) (hl : (L c).length < 2 ^ 64) (ho : m.owner c ≠ none) (hio : ∀ i ∈ L c, m.owner i ≠ none) :
    m.size true (some c) = .ok (L c).length ∧
    (∀ n, m.index (some c) n = .ok (((L c).reverse.map (nodeOf m))[n]?).join) ∧
    (∃ it, m.begin_ true (some c) = .ok it ∧ ∀ fuel, (L c).length ≤ fuel → m.visit fuel it = .ok ((L c).map (pairOf m))) := by
  obtain ⟨hch, hsz⟩ := hi.chain hc
  rw [Nat.mod_eq_of_lt hl] at hsz
  have hload := loadCont_eq hc ho
  simp only [decide_true] at hload
  refine ⟨?_, ?_, ?_⟩
  · unfold Mem.size; rw [hload, ok_bind]; dsimp only; rw [pure_eq_ok, hsz]
  · intro n
    unfold Mem.index
    rw [hload, ok_bind]
    dsimp only
    by_cases hn : n ≥ s
    · rw [if_pos hn, pure_eq_ok, List.getElem?_eq_none (by simp; omega)]; rfl
    · rw [if_neg hn, walk_eq hch hio, ok_bind]
      have hn' : n < (L c).length := by omega
      rw [hsz, reverse_get _ _ hn']
      have hlt : n < (L c).reverse.length := by simp; exact hn'
      rw [List.getElem?_eq_getElem hlt]
      simp only [Option.isNone_some, Bool.false_eq_true, if_false]
      have hm : (L c).reverse[n] ∈ L c := List.mem_reverse.1 (List.getElem_mem hlt)
      obtain ⟨k, v, nx, e⟩ := hi.memLt hm
      rw [loadItem_eq e (hio _ hm), ok_bind]
      dsimp only
      rw [pure_eq_ok, List.getElem?_map, List.getElem?_eq_getElem hlt]
      generalize (L c).reverse[n] = q at e
      simp [nodeOf, e]
  · refine ⟨hd, ?_, fun fuel hf => visit_eq hch hio hf⟩
    unfold Mem.begin_; rw [hload, ok_bind]; dsimp only; rw [pure_eq_ok]

/-- What a program sees of a map. -/
theorem obs_map {m : Mem} {L : Ref → List Ref} (hi : Inv m L) {c : Ref} {v : Bool} {p : Nat} {hd : Option Ref} {s : Nat}
    (hc : m.cells c = some (.cont (.map v) p hd s)) (hl : (L c).length < 2 ^ 64) (ho : m.owner c ≠ none) (hio : ∀ i ∈ L c, m.owner i ≠ none) :
    m.size false (some c) = .ok (L c).length ∧
    (∀ key fuel, (L c).length ≤ fuel → m.lookup fuel (some c) key = .ok (newestChild key ((L c).reverse.map (pairOf m)))) ∧
    (∃ it, m.begin_ false (some c) = .ok it ∧ ∀ fuel, (L c).length ≤ fuel → m.visit fuel it = .ok ((L c).map (pairOf m))) := by
  obtain ⟨hch, hsz⟩ := hi.chain hc
  rw [Nat.mod_eq_of_lt hl] at hsz
  have hload := loadCont_eq hc ho
  simp only [reduceCtorEq, decide_false] at hload
  refine ⟨?_, ?_, ?_⟩
  · unfold Mem.size; rw [hload, ok_bind]; dsimp only; rw [pure_eq_ok, hsz]
  · intro key fuel hf
    unfold Mem.lookup newestChild
    rw [hload, ok_bind]
    dsimp only
    rw [find_eq hch hio key hf, ok_bind, ← List.map_reverse, List.reverse_reverse, List.find?_map]
    have hcomp : ((fun e : Bytes × Option Ref => decide (e.1 = key)) ∘ pairOf m) = fun i => decide ((pairOf m i).1 = key) := rfl
    rw [hcomp]
    cases hfd : (L c).find? (fun i => decide ((pairOf m i).1 = key)) with
    | none => rfl
    | some i =>
      simp only [Option.isNone_some, Bool.false_eq_true, if_false]
      have hm := List.mem_of_find?_eq_some hfd
      obtain ⟨k, v, nx, e⟩ := hi.memLt hm
      rw [loadItem_eq e (hio _ hm), ok_bind]
      dsimp only
      rw [pure_eq_ok]
      simp [pairOf, e]
  · refine ⟨hd, ?_, fun fuel hf => visit_eq hch hio hf⟩
    unfold Mem.begin_; rw [hload, ok_bind]; dsimp only; rw [pure_eq_ok]

/-- A list of different numbers below a bound is not longer than the bound. -/
theorem nodup_bound (n : Nat) (l : List Nat) (hd : l.Nodup) (hb : ∀ i ∈ l, i < n) : l.length ≤ n := by
  induction n generalizing l with
  | zero =>
    cases l with
    | nil => simp
    | cons a l => exact absurd (hb a List.mem_cons_self) (Nat.not_lt_zero _)
  | succ n ih =>
    have h1 := ih (l.erase n) (hd.erase n) (fun i hi => by
      have h2 := (hd.mem_erase_iff).1 hi
      have := hb i h2.2
      omega)
    by_cases hm : n ∈ l
    · rw [List.length_erase_of_mem hm] at h1; omega
    · rw [List.erase_of_not_mem hm] at h1; omega

theorem Inv.length_le {m : Mem} {L : Ref → List Ref} (h : Inv m L) (c : Ref) : (L c).length ≤ m.top := by
  by_cases hc : ∃ k p hd s, m.cells c = some (.cont k p hd s)
  · obtain ⟨k, p, hd, s, hc⟩ := hc
    exact nodup_bound _ _ (h.chain hc).1.nodup (fun i hi => by obtain ⟨_, _, _, e⟩ := h.memLt hi; exact h.lt e)
  · rw [h.other c (fun k p hd s e => hc ⟨k, p, hd, s, e⟩)]; simp

end Bridge.Heap
