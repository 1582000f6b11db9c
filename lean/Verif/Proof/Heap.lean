import Verif.Model.Heap
import Verif.Spec.Store
import Verif.Proof.Sound
/-
The linked lists of Model/Heap.lean represent sequences: an invariant of all calls, and the simulation of Spec/Store.lean.
-/
set_option autoImplicit false
namespace Bridge.Heap
open Spec

@[simp] theorem upd_same.{u} {α : Type u} (f : Nat → α) (i : Nat) (a : α) : upd f i a i = a := by simp [upd]
theorem upd_ne.{u} {α : Type u} (f : Nat → α) {i j : Nat} (a : α) (h : j ≠ i) : upd f i a j = f j := by simp [upd, h]
theorem upd_apply.{u} {α : Type u} (f : Nat → α) (i j : Nat) (a : α) : upd f i a j = if j = i then a else f j := rfl
theorem upd_upd.{u} {α : Type u} (f : Nat → α) (i : Nat) (a b : α) : upd (upd f i a) i b = upd f i b := by
  funext j; simp only [upd]; split <;> rfl
theorem upd_comm.{u} {α : Type u} (f : Nat → α) {i j : Nat} (a b : α) (h : i ≠ j) : upd (upd f i a) j b = upd (upd f j b) i a := by
  funext k; simp only [upd]; split <;> split <;> simp_all

/-- A pointer to the first item of a list that ends with a null pointer. -/
inductive Chain (cells : Ref → Option Cell) : Option Ref → List Ref → Prop
  | nil : Chain cells none []
  | cons {i : Ref} {k : Str} {v n : Option Ref} {l : List Ref} : cells i = some (.item k v n) → Chain cells n l →
      Chain cells (some i) (i :: l)

theorem Chain.congr {cells cells' : Ref → Option Cell} {h : Option Ref} {l : List Ref} (c : Chain cells h l)
    (e : ∀ i ∈ l, ∀ k v n, cells i = some (.item k v n) → ∃ k' v', cells' i = some (.item k' v' n)) : Chain cells' h l := by
  induction c with
  | nil => exact .nil
  | @cons i k v n l hi _ ih =>
    obtain ⟨k', v', h'⟩ := e i List.mem_cons_self k v n hi
    exact .cons h' (ih fun j hj => e j (List.mem_cons_of_mem _ hj))

theorem Chain.item {cells : Ref → Option Cell} {h : Option Ref} {l : List Ref} (c : Chain cells h l) {i : Ref} (hi : i ∈ l) :
    ∃ k v n, cells i = some (.item k v n) := by
  induction c with
  | nil => simp at hi
  | @cons j k v n l hj _ ih =>
    rcases List.mem_cons.1 hi with rfl | hi
    · exact ⟨_, _, _, hj⟩
    · exact ih hi

theorem Chain.unique {cells : Ref → Option Cell} {h : Option Ref} {l l' : List Ref} (c : Chain cells h l) (c' : Chain cells h l') :
    l = l' := by
  induction c generalizing l' with
  | nil => cases c'; rfl
  | @cons j k v n l hj _ ih =>
    cases c' with
    | cons hj' c'' => rw [hj] at hj'; cases hj'; rw [ih c'']

theorem Chain.suffix {cells : Ref → Option Cell} {h : Option Ref} {l : List Ref} (c : Chain cells h l) {i : Ref} (hi : i ∈ l) :
    ∃ l', Chain cells (some i) (i :: l') ∧ l'.length < l.length := by
  induction c with
  | nil => simp at hi
  | @cons j k v n l hj c ih =>
    rcases List.mem_cons.1 hi with rfl | hi
    · exact ⟨l, .cons hj c, by simp⟩
    · obtain ⟨l', h1, h2⟩ := ih hi
      exact ⟨l', h1, by simp; omega⟩

theorem Chain.nodup {cells : Ref → Option Cell} {h : Option Ref} {l : List Ref} (c : Chain cells h l) : l.Nodup := by
  induction c with
  | nil => simp
  | @cons j k v n l hj c ih =>
    refine List.nodup_cons.2 ⟨fun hm => ?_, ih⟩
    obtain ⟨l', h1, h2⟩ := c.suffix hm
    have := (Chain.cons hj c).unique h1
    simp only [List.cons.injEq, true_and] at this
    subst this; omega

/-- Is the cell an `Object`? -/
def Cell.isObj : Cell → Bool
  | .item .. => false
  | _ => true

/-- The invariant: `L` gives the items of every container. -/
structure Inv (m : Mem) (L : Ref → List Ref) : Prop where
  fresh : ∀ r, m.top ≤ r → m.cells r = none
  chain : ∀ {c k p h s}, m.cells c = some (.cont k p h s) → Chain m.cells h (L c) ∧ s = (L c).length % 2 ^ 64
  other : ∀ c, (∀ k p h s, m.cells c ≠ some (.cont k p h s)) → L c = []
  disj : ∀ {i c c'}, i ∈ L c → i ∈ L c' → c = c'
  varObj : ∀ {x r}, m.vars x = some r → ∃ c, m.cells r = some c ∧ c.isObj = true
  nodeObj : ∀ {i k r n}, m.cells i = some (.item k (some r) n) → ∃ c, m.cells r = some c ∧ c.isObj = true
  oneItem : ∀ {i j k r n k' n'}, m.cells i = some (.item k (some r) n) → m.cells j = some (.item k' (some r) n') → i = j
  oneVar : ∀ {x y r}, m.vars x = some r → m.vars y = some r → x = y
  notBoth : ∀ {x r i k n}, m.vars x = some r → m.cells i = some (.item k (some r) n) → False

theorem Inv.lt {m : Mem} {L : Ref → List Ref} (h : Inv m L) {r : Ref} {c : Cell} (e : m.cells r = some c) : r < m.top := by
  apply Classical.byContradiction; intro hn
  rw [h.fresh r (Nat.le_of_not_lt hn)] at e; cases e

theorem Inv.topNone {m : Mem} {L : Ref → List Ref} (h : Inv m L) : m.cells m.top = none := h.fresh _ (Nat.le_refl _)

theorem Inv.memLt {m : Mem} {L : Ref → List Ref} (h : Inv m L) {i c : Ref} (hi : i ∈ L c) : ∃ k v n, m.cells i = some (.item k v n) := by
  apply Classical.byContradiction; intro hn
  by_cases hc : ∃ k p hd s, m.cells c = some (.cont k p hd s)
  · obtain ⟨k, p, hd, s, hc⟩ := hc
    exact hn ((h.chain hc).1.item hi)
  · have := h.other c (fun k p hd s e => hc ⟨k, p, hd, s, e⟩)
    rw [this] at hi; simp at hi

theorem Inv.notMem {m : Mem} {L : Ref → List Ref} (h : Inv m L) {i c : Ref} (hi : ∀ k v n, m.cells i ≠ some (.item k v n)) : i ∉ L c := by
  intro hm
  obtain ⟨k, v, n, e⟩ := h.memLt hm
  exact hi _ _ _ e

/-! ### the normal forms of the calls -/

/-- What `Insert` does to the memory. -/
def Mem.ins (m : Mem) (c : Ref) (k : Kind) (pool : Nat) (head : Option Ref) (size : Nat) (key : Str) (x : Nat) : Mem :=
  { m with
    cells := upd (upd m.cells m.top (some (.item key (m.vars x) head))) c (some (.cont k pool (some m.top) (addW size 1)))
    top := m.top + 1
    owner := upd m.owner m.top (some pool)
    vars := upd m.vars x none }

theorem load_ok {m : Mem} {r : Option Ref} {a : Ref × Cell} (h : m.load r = .ok a) :
    r = some a.1 ∧ m.cells a.1 = some a.2 ∧ m.owner a.1 ≠ none := by
  unfold Mem.load at h
  split at h
  · cases h
  · rename_i r
    split at h
    · rename_i ho hc
      cases h
      exact ⟨rfl, hc, by simp [ho]⟩
    · cases h

theorem load_eq {m : Mem} {r : Ref} {c : Cell} (hc : m.cells r = some c) (ho : m.owner r ≠ none) : m.load (some r) = .ok (r, c) := by
  unfold Mem.load
  cases h : m.owner r with
  | none => exact absurd h ho
  | some q => dsimp only; rw [hc, h]

theorem loadCont_ok {m : Mem} {a : Bool} {r : Option Ref} {q : Ref × Kind × Nat × Option Ref × Nat} (h : m.loadCont a r = .ok q) :
    r = some q.1 ∧ m.cells q.1 = some (.cont q.2.1 q.2.2.1 q.2.2.2.1 q.2.2.2.2) ∧ m.owner q.1 ≠ none ∧ (decide (q.2.1 = .array) = a) := by
  unfold Mem.loadCont at h
  obtain ⟨⟨r', c⟩, h1, h2⟩ := bind_ok h
  obtain ⟨e1, e2, e3⟩ := load_ok h1
  dsimp only at h2 e1 e2 e3
  cases c with
  | data => simp at h2
  | item => simp at h2
  | cont k p hd s =>
    dsimp only at h2
    split at h2
    · rename_i hk
      cases h2
      exact ⟨e1, e2, e3, hk⟩
    · cases h2

theorem loadCont_eq {m : Mem} {r : Ref} {k : Kind} {p : Nat} {hd : Option Ref} {s : Nat} (hc : m.cells r = some (.cont k p hd s))
    (ho : m.owner r ≠ none) : m.loadCont (decide (k = .array)) (some r) = .ok (r, k, p, hd, s) := by
  unfold Mem.loadCont
  rw [load_eq hc ho]
  simp [bind, Except.bind, pure, Except.pure]

theorem loadItem_ok {m : Mem} {r : Option Ref} {q : Ref × Str × Option Ref × Option Ref} (h : m.loadItem r = .ok q) :
    r = some q.1 ∧ m.cells q.1 = some (.item q.2.1 q.2.2.1 q.2.2.2) ∧ m.owner q.1 ≠ none := by
  unfold Mem.loadItem at h
  obtain ⟨⟨r', c⟩, h1, h2⟩ := bind_ok h
  obtain ⟨e1, e2, e3⟩ := load_ok h1
  dsimp only at h2 e1 e2 e3
  cases c with
  | data => simp at h2
  | cont => simp at h2
  | item k v n => cases h2; exact ⟨e1, e2, e3⟩

theorem loadItem_eq {m : Mem} {r : Ref} {k : Str} {v n : Option Ref} (hc : m.cells r = some (.item k v n))
    (ho : m.owner r ≠ none) : m.loadItem (some r) = .ok (r, k, v, n) := by
  unfold Mem.loadItem
  rw [load_eq hc ho]
  rfl

theorem alloc_ok {m : Mem} {p : Nat} {c : Cell} {q : Mem × Ref} (h : m.alloc p c = .ok q) :
    q = ({ m with cells := upd m.cells m.top (some c), top := m.top + 1, owner := upd m.owner m.top (some p) }, m.top) ∧
      m.pools p = true := by
  unfold Mem.alloc at h
  split at h
  · rename_i hp; cases h; exact ⟨rfl, hp⟩
  · cases h

theorem alloc_eq {m : Mem} {p : Nat} {c : Cell} (hp : m.pools p = true) :
    m.alloc p c = .ok ({ m with cells := upd m.cells m.top (some c), top := m.top + 1, owner := upd m.owner m.top (some p) }, m.top) := by
  simp [Mem.alloc, hp]

/-- The two branches of `Insert`, spelled out. -/
theorem ins_steps {m : Mem} {c : Ref} {k : Kind} {pool : Nat} {head : Option Ref} {size : Nat} (key : Str) (x : Nat)
    (hc : m.cells c = some (.cont k pool head size)) (ht : m.cells m.top = none) (b : Bool) (hb : b = head.isSome)
    (m1 m2 m3 : Mem)
    (h1 : m1 = { m with cells := upd m.cells m.top (some (.item key none none)), top := m.top + 1, owner := upd m.owner m.top (some pool) })
    (h2 : m2 = (m1.modify m.top (Cell.setNode (m1.vars x))).setVar x none)
    (h3 : m3 = if b then (m2.modify m.top (Cell.setNext head)).modify c (Cell.setHead (some m.top))
      else m2.modify c (Cell.setHead (some m.top))) :
    m3.modify c (Cell.setSize (addW size 1)) = m.ins c k pool head size key x := by
  have hne : c ≠ m.top := by intro e; rw [e, ht] at hc; cases hc
  subst h1; subst h2; subst h3; subst hb
  cases head with
  | none =>
    simp only [Option.isSome_none, Bool.false_eq_true, if_false, Mem.modify, Mem.setVar, Mem.ins, upd_same, Option.map, Cell.setNode, upd_upd,
      upd_ne _ _ hne, hc, Cell.setHead, Cell.setSize]
  | some h =>
    simp only [Option.isSome_some, if_true, Mem.modify, Mem.setVar, Mem.ins, upd_same, Option.map, Cell.setNode, upd_upd,
      upd_ne _ _ hne, hc, Cell.setHead, Cell.setSize, Cell.setNext]

theorem arrayInsert_ok {m m' : Mem} {c : Option Ref} {x : Nat} (ht : m.cells m.top = none) (h : m.arrayInsert c x = .ok m') :
    ∃ r pool head size, c = some r ∧ m.cells r = some (.cont .array pool head size) ∧ m.owner r ≠ none ∧ m.pools pool = true ∧
      m' = m.ins r .array pool head size noKey x := by
  unfold Mem.arrayInsert at h
  obtain ⟨⟨r, k, pool, head, size⟩, h1, h2⟩ := bind_ok h
  obtain ⟨e1, e2, e3, e4⟩ := loadCont_ok h1
  dsimp only at h2 e1 e2 e3 e4
  obtain ⟨q, h3, h4⟩ := bind_ok h2
  obtain ⟨e5, e6⟩ := alloc_ok h3
  subst e5
  have hk : k = .array := by simpa using e4
  subst hk
  refine ⟨r, pool, head, size, e1, e2, e3, e6, ?_⟩
  cases h4
  exact (ins_steps noKey x e2 ht _ rfl _ _ _ rfl rfl rfl).symm ▸ rfl

theorem arrayInsert_eq {m : Mem} {r : Ref} {x : Nat} {pool : Nat} {head : Option Ref} {size : Nat} (ht : m.cells m.top = none)
    (hc : m.cells r = some (.cont .array pool head size)) (ho : m.owner r ≠ none) (hp : m.pools pool = true) :
    m.arrayInsert (some r) x = .ok (m.ins r .array pool head size noKey x) := by
  unfold Mem.arrayInsert
  have := loadCont_eq hc ho
  simp only [decide_true] at this
  rw [this, ok_bind]
  dsimp only
  rw [alloc_eq hp, ok_bind, pure_eq_ok]
  exact congrArg Except.ok (ins_steps noKey x hc ht _ rfl _ _ _ rfl rfl rfl)

/-- What `Insert` into a map does to the memory, apart from the variable. -/
def Mem.put (m : Mem) (c : Ref) (k : Kind) (pool : Nat) (head : Option Ref) (size : Nat) (key : Str) (v : Option Ref) : Mem :=
  { m with
    cells := upd (upd m.cells m.top (some (.item key v head))) c (some (.cont k pool (some m.top) (addW size 1)))
    top := m.top + 1
    owner := upd m.owner m.top (some pool) }

/-- The two branches of `Insert` into a map. -/
theorem put_steps {m : Mem} {c : Ref} {k : Kind} {pool : Nat} {head : Option Ref} {size : Nat} (key : Str) (v : Option Ref)
    (hc : m.cells c = some (.cont k pool head size)) (ht : m.cells m.top = none) (b : Bool) (hb : b = head.isNone)
    (m1 m2 m3 : Mem)
    (h1 : m1 = Mem.modify { m with cells := upd m.cells m.top (some (.item noKey none none)), top := m.top + 1, owner := upd m.owner m.top (some pool) } m.top (Cell.setKey key))
    (h2 : m2 = m1.modify m.top (Cell.setNode v))
    (h3 : m3 = if b then m2.modify c (Cell.setHead (some m.top))
      else (m2.modify m.top (Cell.setNext head)).modify c (Cell.setHead (some m.top))) :
    m3.modify c (Cell.setSize (addW size 1)) = m.put c k pool head size key v := by
  have hne : c ≠ m.top := by intro e; rw [e, ht] at hc; cases hc
  subst h1; subst h2; subst h3; subst hb
  cases head with
  | none =>
    simp only [Option.isNone_none, if_true, Mem.modify, Mem.put, upd_same, Option.map, Cell.setNode, Cell.setKey, upd_upd,
      upd_ne _ _ hne, hc, Cell.setHead, Cell.setSize]
  | some h =>
    simp only [Option.isNone_some, Bool.false_eq_true, if_false, Mem.modify, Mem.put, upd_same, Option.map, Cell.setNode,
      Cell.setKey, upd_upd, upd_ne _ _ hne, hc, Cell.setHead, Cell.setSize, Cell.setNext]

theorem mapPut_ok {m m' : Mem} {c : Option Ref} {key : Str} {v : Option Ref} (ht : m.cells m.top = none) (h : m.mapPut c key v = .ok m') :
    ∃ r ref pool head size, c = some r ∧ m.cells r = some (.cont (.map ref) pool head size) ∧ m.owner r ≠ none ∧ m.pools pool = true ∧
      m' = m.put r (.map ref) pool head size (storeKey ref key) v := by
  unfold Mem.mapPut at h
  obtain ⟨⟨r, k, pool, head, size⟩, h1, h2⟩ := bind_ok h
  obtain ⟨e1, e2, e3, e4⟩ := loadCont_ok h1
  dsimp only at h2 e1 e2 e3 e4
  obtain ⟨q, h3, h4⟩ := bind_ok h2
  obtain ⟨e5, e6⟩ := alloc_ok h3
  subst e5
  cases k with
  | array => simp at e4
  | map ref =>
    refine ⟨r, ref, pool, head, size, e1, e2, e3, e6, ?_⟩
    cases h4
    have hk : (decide (Kind.map ref = Kind.map true)) = ref := by cases ref <;> rfl
    rw [hk]
    exact (put_steps (storeKey ref key) v e2 ht _ rfl _ _ _ rfl rfl rfl).symm ▸ rfl

theorem mapPut_eq {m : Mem} {r : Ref} {v : Option Ref} {ref : Bool} {pool : Nat} {head : Option Ref} {size : Nat} (key : Str)
    (ht : m.cells m.top = none)
    (hc : m.cells r = some (.cont (.map ref) pool head size)) (ho : m.owner r ≠ none) (hp : m.pools pool = true) :
    m.mapPut (some r) key v = .ok (m.put r (.map ref) pool head size (storeKey ref key) v) := by
  unfold Mem.mapPut
  have := loadCont_eq hc ho
  simp only [reduceCtorEq, decide_false] at this
  rw [this, ok_bind]
  dsimp only
  rw [alloc_eq hp, ok_bind, pure_eq_ok]
  have hk : (decide (Kind.map ref = Kind.map true)) = ref := by cases ref <;> rfl
  rw [hk]
  exact congrArg Except.ok (put_steps (storeKey ref key) v hc ht _ rfl _ _ _ rfl rfl rfl)

theorem mapInsert_ok {m m' : Mem} {c : Option Ref} {key : Str} {x : Nat} (ht : m.cells m.top = none) (h : m.mapInsert c key x = .ok m') :
    ∃ r ref pool head size, c = some r ∧ m.cells r = some (.cont (.map ref) pool head size) ∧ m.owner r ≠ none ∧ m.pools pool = true ∧
      m' = m.ins r (.map ref) pool head size (storeKey ref key) x := by
  unfold Mem.mapInsert at h
  obtain ⟨m1, h1, h2⟩ := bind_ok h
  obtain ⟨r, ref, pool, head, size, e1, e2, e3, e4, rfl⟩ := mapPut_ok ht h1
  cases h2
  exact ⟨r, ref, pool, head, size, e1, e2, e3, e4, rfl⟩

theorem mapInsert_eq {m : Mem} {r : Ref} {x : Nat} {ref : Bool} {pool : Nat} {head : Option Ref} {size : Nat} (key : Str)
    (ht : m.cells m.top = none)
    (hc : m.cells r = some (.cont (.map ref) pool head size)) (ho : m.owner r ≠ none) (hp : m.pools pool = true) :
    m.mapInsert (some r) key x = .ok (m.ins r (.map ref) pool head size (storeKey ref key) x) := by
  unfold Mem.mapInsert
  rw [mapPut_eq key ht hc ho hp]
  rfl

theorem clearCont_ok {m m' : Mem} {a : Bool} {c : Option Ref} (h : m.clearCont a c = .ok m') :
    ∃ r k pool head size, c = some r ∧ m.cells r = some (.cont k pool head size) ∧ m.owner r ≠ none ∧ decide (k = .array) = a ∧
      m' = { m with cells := upd m.cells r (some (.cont k pool none 0)) } := by
  unfold Mem.clearCont at h
  obtain ⟨⟨r, k, pool, head, size⟩, h1, h2⟩ := bind_ok h
  obtain ⟨e1, e2, e3, e4⟩ := loadCont_ok h1
  dsimp only at h2 e1 e2 e3 e4
  refine ⟨r, k, pool, head, size, e1, e2, e3, e4, ?_⟩
  cases h2
  simp only [Mem.modify, upd_same, e2, Option.map, upd_upd, Cell.setHead, Cell.setSize]

theorem find_ok {m : Mem} {key : Bytes} {fuel : Nat} {h : Option Ref} {l : List Ref} {it : Option Ref} (c : Chain m.cells h l)
    (e : m.find key fuel h = .ok it) :
    (it = none ∧ ∀ i ∈ l, ∀ k v n, m.cells i = some (.item k v n) → k.bytes ≠ key) ∨
    (∃ i before after k v n, it = some i ∧ l = before ++ i :: after ∧ m.cells i = some (.item k v n) ∧ k.bytes = key ∧
      ∀ j ∈ before, ∀ k v n, m.cells j = some (.item k v n) → k.bytes ≠ key) := by
  induction c generalizing fuel with
  | nil =>
    unfold Mem.find at e
    cases e
    exact .inl ⟨rfl, by simp⟩
  | @cons i k v n l hi c ih =>
    cases fuel with
    | zero => simp [Mem.find] at e
    | succ f =>
      simp only [Mem.find] at e
      obtain ⟨⟨r, k', v', n'⟩, h1, h2⟩ := bind_ok e
      obtain ⟨e1, e2, e3⟩ := loadItem_ok h1
      dsimp only at h2 e1 e2 e3
      cases e1
      rw [hi] at e2; cases e2
      split at h2
      · rename_i hk
        cases h2
        exact .inr ⟨i, [], l, k, v, n, rfl, rfl, hi, hk, by simp⟩
      · rename_i hk
        rcases ih h2 with ⟨g1, g2⟩ | ⟨j, b, a, k1, v1, n1, g1, g2, g3, g4, g5⟩
        · refine .inl ⟨g1, fun j hj k0 v0 n0 hj0 => ?_⟩
          rcases List.mem_cons.1 hj with rfl | hj
          · rw [hi] at hj0; cases hj0; exact hk
          · exact g2 j hj _ _ _ hj0
        · refine .inr ⟨j, i :: b, a, k1, v1, n1, g1, by rw [g2]; rfl, g3, g4, fun j' hj k0 v0 n0 hj0 => ?_⟩
          rcases List.mem_cons.1 hj with rfl | hj
          · rw [hi] at hj0; cases hj0; exact hk
          · exact g5 j' hj _ _ _ hj0

theorem take_ok {m m' : Mem} {L : Ref → List Ref} (inv : Inv m L) {fuel d : Nat} {c : Option Ref} {key : Bytes}
    (h : m.take fuel d c key = .ok m') :
    ∃ r ref pool head size, c = some r ∧ m.cells r = some (.cont (.map ref) pool head size) ∧ m.owner r ≠ none ∧
      (((∀ i ∈ L r, ∀ k v n, m.cells i = some (.item k v n) → k.bytes ≠ key) ∧ m' = m.setVar d none) ∨
       (∃ i before after k v n, L r = before ++ i :: after ∧ m.cells i = some (.item k v n) ∧ k.bytes = key ∧
          (∀ j ∈ before, ∀ k v n, m.cells j = some (.item k v n) → k.bytes ≠ key) ∧
          m' = { m with cells := upd m.cells i (some (.item k none n)), vars := upd m.vars d v })) := by
  unfold Mem.take at h
  obtain ⟨⟨r, k, pool, head, size⟩, h1, h2⟩ := bind_ok h
  obtain ⟨e1, e2, e3, e4⟩ := loadCont_ok h1
  dsimp only at h2 e1 e2 e3 e4
  cases k with
  | array => simp at e4
  | map ref =>
    refine ⟨r, ref, pool, head, size, e1, e2, e3, ?_⟩
    obtain ⟨it, h3, h4⟩ := bind_ok h2
    rcases find_ok (inv.chain e2).1 h3 with ⟨g1, g2⟩ | ⟨i, b, a, k1, v1, n1, g1, g2, g3, g4, g5⟩
    · subst g1
      simp only [Option.isNone_none, if_true] at h4
      cases h4
      exact .inl ⟨g2, rfl⟩
    · subst g1
      simp only [Option.isNone_some, Bool.false_eq_true, if_false] at h4
      obtain ⟨⟨r', k', v', n'⟩, h5, h6⟩ := bind_ok h4
      obtain ⟨f1, f2, f3⟩ := loadItem_ok h5
      dsimp only at h6 f1 f2 f3
      cases f1
      rw [g3] at f2; cases f2
      refine .inr ⟨i, b, a, k1, v1, n1, g2, g3, g4, g5, ?_⟩
      cases h6
      simp only [Mem.setVar, Mem.modify, g3, Option.map, Cell.setNode]

theorem rootInsert_ok {m : Mem} {p x : Nat} {q : Mem × Ref} (h : m.rootInsert p x = .ok q) :
    m.pools p = true ∧ q = ({ m with cells := upd m.cells m.top (some (.item ⟨rootKey, none⟩ (m.vars x) none)), top := m.top + 1, owner := upd m.owner m.top (some p), vars := upd m.vars x none }, m.top) := by
  unfold Mem.rootInsert at h
  obtain ⟨q', h1, h2⟩ := bind_ok h
  obtain ⟨e1, e2⟩ := alloc_ok h1
  subst e1
  refine ⟨e2, ?_⟩
  cases h2
  simp only [Mem.setVar, Mem.modify, upd_same, Option.map, upd_upd, Cell.setKey, Cell.setNode]

theorem rootInsert_eq {m : Mem} {p x : Nat} (h : m.pools p = true) :
    m.rootInsert p x = .ok ({ m with cells := upd m.cells m.top (some (.item ⟨rootKey, none⟩ (m.vars x) none)), top := m.top + 1, owner := upd m.owner m.top (some p), vars := upd m.vars x none }, m.top) := by
  unfold Mem.rootInsert
  rw [alloc_eq h, ok_bind]
  dsimp only
  rw [pure_eq_ok]
  simp only [Mem.setVar, Mem.modify, upd_same, Option.map, upd_upd, Cell.setKey, Cell.setNode]

/-! ### the invariant is kept -/

/-- A new object, owned by a variable. -/
theorem Inv.make {m : Mem} {L : Ref → List Ref} (h : Inv m L) (d : Nat) (c : Cell) (ow : Ref → Option Nat)
    (hc : (∃ ref dt p, c = .data ref dt p) ∨ (∃ k p, c = .cont k p none 0)) :
    Inv { m with cells := upd m.cells m.top (some c), top := m.top + 1, owner := ow, vars := upd m.vars d (some m.top) } L := by
  have hci : ∀ k v n, c ≠ .item k v n := by
    intro k v n e; rcases hc with ⟨_, _, _, e'⟩ | ⟨_, _, e'⟩ <;> rw [e] at e' <;> cases e'
  have hco : c.isObj = true := by rcases hc with ⟨_, _, _, e'⟩ | ⟨_, _, e'⟩ <;> rw [e'] <;> rfl
  have item_old : ∀ {i k v n}, upd m.cells m.top (some c) i = some (.item k v n) → m.cells i = some (.item k v n) := by
    intro i k v n e
    by_cases hi : i = m.top
    · subst hi; rw [upd_same] at e; cases e; exact absurd rfl (hci _ _ _)
    · rwa [upd_ne _ _ hi] at e
  have keep : ∀ {r c'}, m.cells r = some c' → upd m.cells m.top (some c) r = some c' := by
    intro r c' e
    have : r ≠ m.top := Nat.ne_of_lt (h.lt e)
    rwa [upd_ne _ _ this]
  have hLtop : L m.top = [] := h.other _ (fun _ _ _ _ e => by rw [h.topNone] at e; cases e)
  have varCase : ∀ {x r}, upd m.vars d (some m.top) x = some r → (x = d ∧ r = m.top) ∨ (x ≠ d ∧ m.vars x = some r) := by
    intro x r e
    by_cases hx : x = d
    · subst hx; rw [upd_same] at e; cases e; exact .inl ⟨rfl, rfl⟩
    · rw [upd_ne _ _ hx] at e; exact .inr ⟨hx, e⟩
  refine ⟨?_, ?_, ?_, h.disj, ?_, ?_, ?_, ?_, ?_⟩
  · intro r hr
    have : r ≠ m.top := Nat.ne_of_gt hr
    show upd m.cells m.top (some c) r = none
    rw [upd_ne _ _ this]
    exact h.fresh r (Nat.le_of_succ_le hr)
  · intro c' k p hd s e
    change upd m.cells m.top (some c) c' = _ at e
    show Chain (upd m.cells m.top (some c)) hd (L c') ∧ _
    by_cases hi : c' = m.top
    · subst hi
      rw [upd_same] at e
      rw [hLtop]
      cases e
      rcases hc with ⟨_, _, _, e'⟩ | ⟨_, _, e'⟩
      · cases e'
      · cases e'
        exact ⟨.nil, rfl⟩
    · rw [upd_ne _ _ hi] at e
      obtain ⟨g1, g2⟩ := h.chain e
      exact ⟨g1.congr (fun i _ k v n e => ⟨k, v, keep e⟩), g2⟩
  · intro c' hn
    change ∀ k p hd s, upd m.cells m.top (some c) c' ≠ _ at hn
    by_cases hi : c' = m.top
    · rw [hi]; exact hLtop
    · rw [upd_ne _ _ hi] at hn
      exact h.other _ hn
  · intro x r e
    rcases varCase e with ⟨_, g⟩ | ⟨_, g⟩
    · rw [g]; exact ⟨c, upd_same _ _ _, hco⟩
    · obtain ⟨c', g1, g2⟩ := h.varObj g
      exact ⟨c', keep g1, g2⟩
  · intro i k r n e
    obtain ⟨c', g1, g2⟩ := h.nodeObj (item_old e)
    exact ⟨c', keep g1, g2⟩
  · intro i j k r n k' n' e e'
    exact h.oneItem (item_old e) (item_old e')
  · intro x y r e e'
    rcases varCase e with ⟨g0, g⟩ | ⟨g0, g⟩ <;> rcases varCase e' with ⟨g1, g'⟩ | ⟨g1, g'⟩
    · rw [g0, g1]
    · obtain ⟨c', g2, _⟩ := h.varObj g'
      rw [g, h.topNone] at g2; cases g2
    · obtain ⟨c', g2, _⟩ := h.varObj g
      rw [g', h.topNone] at g2; cases g2
    · exact h.oneVar g g'
  · intro x r i k n e e'
    have e' := item_old e'
    rcases varCase e with ⟨g0, g⟩ | ⟨g0, g⟩
    · obtain ⟨c', g2, _⟩ := h.nodeObj e'
      rw [g, h.topNone] at g2; cases g2
    · exact h.notBoth g e'

/-- A variable loses its object, or variables exchange theirs. -/
theorem Inv.vars {m : Mem} {L : Ref → List Ref} (h : Inv m L) (vars : Nat → Option Ref) (ow : Ref → Option Nat) (pl : Nat → Bool)
    (hv : ∀ x r, vars x = some r → ∃ y, m.vars y = some r) (h1 : ∀ x y r, vars x = some r → vars y = some r → x = y) :
    Inv { m with vars := vars, owner := ow, pools := pl } L := by
  refine ⟨h.fresh, h.chain, h.other, h.disj, ?_, h.nodeObj, h.oneItem, ?_, ?_⟩
  · intro x r e
    obtain ⟨y, g⟩ := hv x r e
    exact h.varObj g
  · intro x y r e e'; exact h1 x y r e e'
  · intro x r i k n e e'
    obtain ⟨y, g⟩ := hv x r e
    exact h.notBoth g e'

/-- A variable is moved into a new item; `hd` is the next item. -/
theorem item_new {m : Mem} {L : Ref → List Ref} (h : Inv m L) (key : Str) (x : Nat) (hd : Option Ref) {cells : Ref → Option Cell}
    (ht : cells m.top = some (.item key (m.vars x) hd))
    (hi : ∀ i, i ≠ m.top → ∀ k v n, cells i = some (.item k v n) → m.cells i = some (.item k v n))
    (ho : ∀ r c, m.cells r = some c → c.isObj = true → ∃ c', cells r = some c' ∧ c'.isObj = true) :
    (∀ {y r}, upd m.vars x none y = some r → ∃ c, cells r = some c ∧ c.isObj = true) ∧
    (∀ {i k r n}, cells i = some (.item k (some r) n) → ∃ c, cells r = some c ∧ c.isObj = true) ∧
    (∀ {i j k r n k' n'}, cells i = some (.item k (some r) n) → cells j = some (.item k' (some r) n') → i = j) ∧
    (∀ {y z r}, upd m.vars x none y = some r → upd m.vars x none z = some r → y = z) ∧
    (∀ {y r i k n}, upd m.vars x none y = some r → cells i = some (.item k (some r) n) → False) := by
  have varCase : ∀ {y r}, upd m.vars x none y = some r → y ≠ x ∧ m.vars y = some r := by
    intro y r e
    by_cases hx : y = x
    · subst hx; rw [upd_same] at e; cases e
    · rw [upd_ne _ _ hx] at e; exact ⟨hx, e⟩
  have itemCase : ∀ {i k r n}, cells i = some (.item k (some r) n) →
      (i = m.top ∧ m.vars x = some r) ∨ (i ≠ m.top ∧ m.cells i = some (.item k (some r) n)) := by
    intro i k r n e
    by_cases hx : i = m.top
    · subst hx; rw [ht] at e
      simp only [Option.some.injEq, Cell.item.injEq] at e
      exact .inl ⟨rfl, e.2.1⟩
    · exact .inr ⟨hx, hi i hx _ _ _ e⟩
  refine ⟨?_, ?_, ?_, ?_, ?_⟩
  · intro y r e
    obtain ⟨c, g1, g2⟩ := h.varObj (varCase e).2
    exact ho _ _ g1 g2
  · intro i k r n e
    rcases itemCase e with ⟨_, g⟩ | ⟨_, g⟩
    · obtain ⟨c, g1, g2⟩ := h.varObj g; exact ho _ _ g1 g2
    · obtain ⟨c, g1, g2⟩ := h.nodeObj g; exact ho _ _ g1 g2
  · intro i j k r n k' n' e e'
    rcases itemCase e with ⟨g0, g⟩ | ⟨g0, g⟩ <;> rcases itemCase e' with ⟨g1, g'⟩ | ⟨g1, g'⟩
    · rw [g0, g1]
    · exact (h.notBoth g g').elim
    · exact (h.notBoth g' g).elim
    · exact h.oneItem g g'
  · intro y z r e e'
    exact h.oneVar (varCase e).2 (varCase e').2
  · intro y r i k n e e'
    rcases itemCase e' with ⟨g0, g⟩ | ⟨g0, g⟩
    · exact (varCase e).1 (h.oneVar (varCase e).2 g)
    · exact h.notBoth (varCase e).2 g

/-- `Insert`. -/
theorem Inv.ins {m : Mem} {L : Ref → List Ref} (h : Inv m L) {c : Ref} {k : Kind} {pool : Nat} {head : Option Ref} {size : Nat}
    (hc : m.cells c = some (.cont k pool head size)) (key : Str) (x : Nat) :
    Inv (m.ins c k pool head size key x) (upd L c (m.top :: L c)) := by
  have hne : c ≠ m.top := Nat.ne_of_lt (h.lt hc)
  have hnt : ∀ c', m.top ∉ L c' := fun c' => h.notMem (fun k v n e => by rw [h.topNone] at e; cases e)
  have hcc : (m.ins c k pool head size key x).cells c = some (.cont k pool (some m.top) (addW size 1)) := upd_same _ _ _
  have hct : (m.ins c k pool head size key x).cells m.top = some (.item key (m.vars x) head) := by
    show upd _ _ _ _ = _
    rw [upd_ne _ _ (Ne.symm hne), upd_same]
  have hother : ∀ i, i ≠ m.top → i ≠ c → (m.ins c k pool head size key x).cells i = m.cells i := by
    intro i h1 h2
    show upd _ _ _ _ = _
    rw [upd_ne _ _ h2, upd_ne _ _ h1]
  have item_keep : ∀ {i k' v n}, m.cells i = some (.item k' v n) → (m.ins c k pool head size key x).cells i = some (.item k' v n) := by
    intro i k' v n e
    have h1 : i ≠ m.top := Nat.ne_of_lt (h.lt e)
    have h2 : i ≠ c := by intro e'; rw [e', hc] at e; cases e
    rw [hother i h1 h2, e]
  obtain ⟨p1, p2, p3, p4, p5⟩ := item_new h key x head (cells := (m.ins c k pool head size key x).cells) hct
    (fun i hi k' v n e => by
      by_cases hic : i = c
      · subst hic; rw [hcc] at e; cases e
      · rwa [hother i hi hic] at e)
    (fun r c' e e' => by
      have h1 : r ≠ m.top := Nat.ne_of_lt (h.lt e)
      by_cases hic : r = c
      · rw [hic]; exact ⟨_, hcc, rfl⟩
      · exact ⟨c', by rw [hother r h1 hic]; exact e, e'⟩)
  refine ⟨?_, ?_, ?_, ?_, p1, p2, p3, p4, p5⟩
  · intro r hr
    have h1 : r ≠ m.top := Nat.ne_of_gt hr
    have h2 : r ≠ c := fun e => by
      have := h.lt hc
      subst e
      exact absurd (Nat.lt_of_succ_le hr) (Nat.not_lt.2 (Nat.le_of_lt this))
    rw [hother r h1 h2]
    exact h.fresh r (Nat.le_of_succ_le hr)
  · intro c' k' p hd s e
    by_cases hcc' : c' = c
    · subst hcc'
      rw [hcc] at e
      cases e
      rw [upd_same]
      obtain ⟨g1, g2⟩ := h.chain hc
      refine ⟨.cons hct (g1.congr fun i _ k v n e => ⟨k, v, item_keep e⟩), ?_⟩
      rw [g2]; simp only [addW, List.length_cons]; omega
    · have h1 : c' ≠ m.top := by intro e'; rw [e', hct] at e; cases e
      rw [hother c' h1 hcc'] at e
      rw [upd_ne _ _ hcc']
      obtain ⟨g1, g2⟩ := h.chain e
      exact ⟨g1.congr fun i _ k v n e => ⟨k, v, item_keep e⟩, g2⟩
  · intro c' hn
    by_cases hcc' : c' = c
    · subst hcc'; exact absurd hcc (hn _ _ _ _)
    · rw [upd_ne _ _ hcc']
      by_cases h1 : c' = m.top
      · subst h1; exact h.other _ (fun _ _ _ _ e => by rw [h.topNone] at e; cases e)
      · apply h.other; intro a b d f e; apply hn a b d f; rw [hother c' h1 hcc', e]
  · intro i c1 c2 e1 e2
    have cs : ∀ {c'}, i ∈ upd L c (m.top :: L c) c' → (i = m.top ∧ c' = c) ∨ i ∈ L c' := by
      intro c' e
      by_cases hcc' : c' = c
      · subst hcc'; rw [upd_same] at e
        rcases List.mem_cons.1 e with e | e
        · exact .inl ⟨e, rfl⟩
        · exact .inr e
      · rw [upd_ne _ _ hcc'] at e; exact .inr e
    rcases cs e1 with ⟨g1, g2⟩ | g <;> rcases cs e2 with ⟨g3, g4⟩ | g'
    · rw [g2, g4]
    · rw [g1] at g'; exact absurd g' (hnt _)
    · rw [g3] at g; exact absurd g (hnt _)
    · exact h.disj g g'

/-- The item that `Serialize` makes. -/
theorem Inv.root {m : Mem} {L : Ref → List Ref} (h : Inv m L) (key : Str) (x : Nat) (ow : Ref → Option Nat) :
    Inv { m with cells := upd m.cells m.top (some (.item key (m.vars x) none)), top := m.top + 1, owner := ow, vars := upd m.vars x none } L := by
  have keep : ∀ {r c'}, m.cells r = some c' → upd m.cells m.top (some (.item key (m.vars x) none)) r = some c' := by
    intro r c' e
    have : r ≠ m.top := Nat.ne_of_lt (h.lt e)
    rwa [upd_ne _ _ this]
  obtain ⟨p1, p2, p3, p4, p5⟩ := item_new h key x none (cells := upd m.cells m.top (some (.item key (m.vars x) none))) (upd_same _ _ _)
    (fun i hi k' v n e => by rwa [upd_ne _ _ hi] at e)
    (fun r c' e e' => ⟨c', keep e, e'⟩)
  have hLtop : L m.top = [] := h.other _ (fun _ _ _ _ e => by rw [h.topNone] at e; cases e)
  refine ⟨?_, ?_, ?_, h.disj, p1, p2, p3, p4, p5⟩
  · intro r hr
    have : r ≠ m.top := Nat.ne_of_gt hr
    show upd m.cells m.top _ r = none
    rw [upd_ne _ _ this]
    exact h.fresh r (Nat.le_of_succ_le hr)
  · intro c' k p hd s e
    change upd m.cells m.top _ c' = _ at e
    have hi : c' ≠ m.top := by intro e'; rw [e', upd_same] at e; cases e
    rw [upd_ne _ _ hi] at e
    obtain ⟨g1, g2⟩ := h.chain e
    exact ⟨g1.congr (fun i _ k v n e => ⟨k, v, keep e⟩), g2⟩
  · intro c' hn
    change ∀ k p hd s, upd m.cells m.top _ c' ≠ _ at hn
    by_cases hi : c' = m.top
    · rw [hi]; exact hLtop
    · rw [upd_ne _ _ hi] at hn
      exact h.other _ hn

/-- `Clear`. -/
theorem Inv.clear {m : Mem} {L : Ref → List Ref} (h : Inv m L) {c : Ref} {k : Kind} {pool : Nat} {head : Option Ref} {size : Nat}
    (hc : m.cells c = some (.cont k pool head size)) :
    Inv { m with cells := upd m.cells c (some (.cont k pool none 0)) } (upd L c []) := by
  have item_iff : ∀ {i k' v n}, upd m.cells c (some (.cont k pool none 0)) i = some (.item k' v n) ↔ m.cells i = some (.item k' v n) := by
    intro i k' v n
    by_cases hi : i = c
    · subst hi; rw [upd_same, hc]; constructor <;> intro e <;> cases e
    · rw [upd_ne _ _ hi]
  have keep : ∀ {r c'}, m.cells r = some c' → c'.isObj = true → ∃ c'', upd m.cells c (some (.cont k pool none 0)) r = some c'' ∧ c''.isObj = true := by
    intro r c' e e'
    by_cases hi : r = c
    · rw [hi]; exact ⟨_, upd_same _ _ _, rfl⟩
    · exact ⟨c', by rwa [upd_ne _ _ hi], e'⟩
  refine ⟨?_, ?_, ?_, ?_, ?_, ?_, ?_, h.oneVar, ?_⟩
  · intro r hr
    have : r ≠ c := fun e => by
      have := h.lt hc
      subst e
      exact absurd this (Nat.not_lt.2 hr)
    show upd m.cells c _ r = none
    rw [upd_ne _ _ this]; exact h.fresh r hr
  · intro c' k' p hd s e
    change upd m.cells c _ c' = _ at e
    by_cases hi : c' = c
    · subst hi; rw [upd_same] at e ⊢; cases e; exact ⟨.nil, rfl⟩
    · rw [upd_ne _ _ hi] at e ⊢
      obtain ⟨g1, g2⟩ := h.chain e
      exact ⟨g1.congr (fun i _ k v n e => ⟨k, v, item_iff.2 e⟩), g2⟩
  · intro c' hn
    change ∀ k' p hd s, upd m.cells c _ c' ≠ _ at hn
    by_cases hi : c' = c
    · rw [hi, upd_same]
    · rw [upd_ne _ _ hi] at hn ⊢; exact h.other _ hn
  · intro i c1 c2 e1 e2
    have cs : ∀ {c'}, i ∈ upd L c [] c' → i ∈ L c' := by
      intro c' e
      by_cases hi : c' = c
      · subst hi; rw [upd_same] at e; cases e
      · rwa [upd_ne _ _ hi] at e
    exact h.disj (cs e1) (cs e2)
  · intro x r e
    obtain ⟨c', g1, g2⟩ := h.varObj e
    exact keep g1 g2
  · intro i k' r n e
    obtain ⟨c', g1, g2⟩ := h.nodeObj (item_iff.1 e)
    exact keep g1 g2
  · intro i j k1 r n k2 n' e e'
    exact h.oneItem (item_iff.1 e) (item_iff.1 e')
  · intro x r i k' n e e'
    exact h.notBoth e (item_iff.1 e')

/-- Assignment to a leaf. -/
theorem Inv.assign {m : Mem} {L : Ref → List Ref} (h : Inv m L) {c : Ref} {ref ref' : Bool} {dt dt' : UInt8} {p p' : Payload}
    (hc : m.cells c = some (.data ref dt p)) :
    Inv { m with cells := upd m.cells c (some (.data ref' dt' p')) } L := by
  have item_iff : ∀ {i k' v n}, upd m.cells c (some (.data ref' dt' p')) i = some (.item k' v n) ↔ m.cells i = some (.item k' v n) := by
    intro i k' v n
    by_cases hi : i = c
    · subst hi; rw [upd_same, hc]; constructor <;> intro e <;> cases e
    · rw [upd_ne _ _ hi]
  have cont_iff : ∀ {i k' q hd s}, upd m.cells c (some (.data ref' dt' p')) i = some (.cont k' q hd s) ↔ m.cells i = some (.cont k' q hd s) := by
    intro i k' q hd s
    by_cases hi : i = c
    · subst hi; rw [upd_same, hc]; constructor <;> intro e <;> cases e
    · rw [upd_ne _ _ hi]
  have keep : ∀ {r c'}, m.cells r = some c' → c'.isObj = true → ∃ c'', upd m.cells c (some (.data ref' dt' p')) r = some c'' ∧ c''.isObj = true := by
    intro r c' e e'
    by_cases hi : r = c
    · rw [hi]; exact ⟨_, upd_same _ _ _, rfl⟩
    · exact ⟨c', by rwa [upd_ne _ _ hi], e'⟩
  refine ⟨?_, ?_, ?_, h.disj, ?_, ?_, ?_, h.oneVar, ?_⟩
  · intro r hr
    have : r ≠ c := fun e => by
      have := h.lt hc
      subst e
      exact absurd this (Nat.not_lt.2 hr)
    show upd m.cells c _ r = none
    rw [upd_ne _ _ this]; exact h.fresh r hr
  · intro c' k' p hd s e
    obtain ⟨g1, g2⟩ := h.chain (cont_iff.1 e)
    exact ⟨g1.congr (fun i _ k v n e => ⟨k, v, item_iff.2 e⟩), g2⟩
  · intro c' hn
    exact h.other _ (fun a b d f e => hn a b d f (cont_iff.2 e))
  · intro x r e
    obtain ⟨c', g1, g2⟩ := h.varObj e
    exact keep g1 g2
  · intro i k' r n e
    obtain ⟨c', g1, g2⟩ := h.nodeObj (item_iff.1 e)
    exact keep g1 g2
  · intro i j k1 r n k2 n' e e'
    exact h.oneItem (item_iff.1 e) (item_iff.1 e')
  · intro x r i k' n e e'
    exact h.notBoth e (item_iff.1 e')

/-- The pointer of an item is moved into a variable. -/
theorem Inv.take {m : Mem} {L : Ref → List Ref} (h : Inv m L) (d : Nat) {i : Ref} {k : Str} {v n : Option Ref}
    (hi : m.cells i = some (.item k v n)) :
    Inv { m with cells := upd m.cells i (some (.item k none n)), vars := upd m.vars d v } L := by
  have item_old : ∀ {j k' r n'}, upd m.cells i (some (.item k none n)) j = some (.item k' (some r) n') →
      j ≠ i ∧ m.cells j = some (.item k' (some r) n') := by
    intro j k' r n' e
    by_cases hj : j = i
    · subst hj; rw [upd_same] at e; cases e
    · exact ⟨hj, by rwa [upd_ne _ _ hj] at e⟩
  have cont_iff : ∀ {j k' q hd s}, upd m.cells i (some (.item k none n)) j = some (.cont k' q hd s) ↔ m.cells j = some (.cont k' q hd s) := by
    intro j k' q hd s
    by_cases hj : j = i
    · subst hj; rw [upd_same, hi]; constructor <;> intro e <;> cases e
    · rw [upd_ne _ _ hj]
  have keep : ∀ {r c'}, m.cells r = some c' → c'.isObj = true → ∃ c'', upd m.cells i (some (.item k none n)) r = some c'' ∧ c''.isObj = true := by
    intro r c' e e'
    by_cases hj : r = i
    · subst hj; rw [hi] at e; cases e; cases e'
    · exact ⟨c', by rwa [upd_ne _ _ hj], e'⟩
  have varCase : ∀ {x r}, upd m.vars d v x = some r → (x = d ∧ v = some r) ∨ (x ≠ d ∧ m.vars x = some r) := by
    intro x r e
    by_cases hx : x = d
    · subst hx; rw [upd_same] at e; exact .inl ⟨rfl, e⟩
    · rw [upd_ne _ _ hx] at e; exact .inr ⟨hx, e⟩
  refine ⟨?_, ?_, ?_, h.disj, ?_, ?_, ?_, ?_, ?_⟩
  · intro r hr
    have : r ≠ i := fun e => by
      have := h.lt hi
      subst e
      exact absurd this (Nat.not_lt.2 hr)
    show upd m.cells i _ r = none
    rw [upd_ne _ _ this]; exact h.fresh r hr
  · intro c' k' p hd s e
    obtain ⟨g1, g2⟩ := h.chain (cont_iff.1 e)
    refine ⟨g1.congr (fun j _ k1 v1 n1 e1 => ?_), g2⟩
    by_cases hj : j = i
    · rw [hj, hi] at e1; cases e1; rw [hj]; exact ⟨_, _, upd_same _ _ _⟩
    · exact ⟨k1, v1, by show upd _ _ _ _ = _; rwa [upd_ne _ _ hj]⟩
  · intro c' hn
    exact h.other _ (fun a b d f e => hn a b d f (cont_iff.2 e))
  · intro x r e
    rcases varCase e with ⟨_, g⟩ | ⟨_, g⟩
    · subst g; obtain ⟨c', g1, g2⟩ := h.nodeObj hi; exact keep g1 g2
    · obtain ⟨c', g1, g2⟩ := h.varObj g; exact keep g1 g2
  · intro j k' r n' e
    obtain ⟨c', g1, g2⟩ := h.nodeObj (item_old e).2
    exact keep g1 g2
  · intro j j' k1 r n1 k2 n' e e'
    exact h.oneItem (item_old e).2 (item_old e').2
  · intro x y r e e'
    rcases varCase e with ⟨g0, g⟩ | ⟨g0, g⟩ <;> rcases varCase e' with ⟨g1, g'⟩ | ⟨g1, g'⟩
    · rw [g0, g1]
    · subst g; exact (h.notBoth g' hi).elim
    · subst g'; exact (h.notBoth g hi).elim
    · exact h.oneVar g g'
  · intro x r j k' n' e e'
    obtain ⟨e0, e1⟩ := item_old e'
    rcases varCase e with ⟨_, g⟩ | ⟨_, g⟩
    · subst g; exact e0 (h.oneItem e1 hi)
    · exact h.notBoth g e1

end Bridge.Heap
