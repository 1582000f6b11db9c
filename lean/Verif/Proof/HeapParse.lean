import Verif.Proof.HeapEnd
/-
The recursive parser of Model/Heap.lean builds in memory the tree that Model/Parse.lean computes.
-/
set_option autoImplicit false
namespace Bridge.Heap
open Spec

/-! ### two computations side by side -/

/-- Both succeed with related results, or both fail in the same way. -/
inductive Both {α β : Type} (P : α → β → Prop) : Res α → Res β → Prop
  | ok {a : α} {b : β} : P a b → Both P (.ok a) (.ok b)
  | error (e : Err) : Both P (.error e) (.error e)

theorem Both.bind {α β γ δ : Type} {P : α → β → Prop} {Q : γ → δ → Prop} {x : Res α} {y : Res β} {f : α → Res γ} {g : β → Res δ}
    (h : Both P x y) (k : ∀ a b, P a b → Both Q (f a) (g b)) : Both Q (x >>= f) (y >>= g) := by
  cases h with
  | ok h => exact k _ _ h
  | error e => exact .error e

theorem Both.same {α γ δ : Type} {Q : γ → δ → Prop} (x : Res α) {f : α → Res γ} {g : α → Res δ}
    (k : ∀ a, x = .ok a → Both Q (f a) (g a)) : Both Q (x >>= f) (x >>= g) := by
  cases x with
  | error e => exact .error e
  | ok a => exact k a rfl

theorem Both.imp {α β : Type} {P Q : α → β → Prop} {x : Res α} {y : Res β} (h : Both P x y) (k : ∀ a b, P a b → Q a b) : Both Q x y := by
  cases h with
  | ok h => exact .ok (k _ _ h)
  | error e => exact .error e

/-! ### facts about the value level -/

theorem varintDecodeGo_lt (cfg : Cfg) (mem : Bytes) (addr : Nat) (len : Int) (k : Nat) : ∀ (i acc : Nat) (q : Nat × Nat),
    varintDecodeGo cfg mem addr len k i acc = .ok q → q.1 < 2 ^ 64 := by
  induction k with
  | zero =>
    intro i acc q h
    simp only [varintDecodeGo] at h
    obtain ⟨_, _, h⟩ := bind_ok h
    cases h
  | succ k ih =>
    intro i acc q h
    simp only [varintDecodeGo] at h
    obtain ⟨b, _, h⟩ := bind_ok h
    split at h
    · split at h
      · cases h
      · exact ih _ _ _ h
    · cases h
      exact Nat.mod_lt _ (by decide)

theorem parseLength_lt {cfg : Cfg} {v : View} {c : Cur} {q : Nat × Cur} (h : parseLength cfg v c = .ok q) : q.1 < 2 ^ 64 := by
  unfold parseLength at h
  obtain ⟨_, _, h⟩ := bind_ok h
  obtain ⟨_, _, h⟩ := bind_ok h
  obtain ⟨q', h1, h⟩ := bind_ok h
  obtain ⟨_, _, h⟩ := bind_ok h
  cases h
  exact varintDecodeGo_lt _ _ _ _ _ _ _ _ h1

theorem parseItems_len {cfg : Cfg} {v : View} {sm : Option StringMap} {ref : Bool} {pool : PoolRef} (f : Nat) :
    ∀ (n : Nat) (c : Cur) (q : List Obj × Cur), parseItems cfg v sm ref pool f n c = .ok q → q.1.length = n := by
  induction f with
  | zero => intro n c q h; simp [parseItems] at h
  | succ f ih =>
    intro n c q h
    cases n with
    | zero => simp only [parseItems] at h; cases h; rfl
    | succ n =>
      simp only [parseItems] at h
      obtain ⟨_, _, h⟩ := bind_ok h
      obtain ⟨_, _, h⟩ := bind_ok h
      obtain ⟨q', h1, h⟩ := bind_ok h
      cases h
      simp [ih n _ _ h1]

theorem parseKVs_len {cfg : Cfg} {v : View} {sm : Option StringMap} {ref : Bool} {pool : PoolRef} (f : Nat) :
    ∀ (n : Nat) (c : Cur) (acc : List (Str × Obj)) (q : List (Str × Obj) × Cur), parseKVs cfg v sm ref pool f n c acc = .ok q →
      q.1.length = n + acc.length ∧ n < f := by
  induction f with
  | zero => intro n c acc q h; simp [parseKVs] at h
  | succ f ih =>
    intro n c acc q h
    cases n with
    | zero => simp only [parseKVs] at h; cases h; exact ⟨by simp, by omega⟩
    | succ n =>
      simp only [parseKVs] at h
      obtain ⟨_, _, h⟩ := bind_ok h
      obtain ⟨_, _, h⟩ := bind_ok h
      obtain ⟨_, _, h⟩ := bind_ok h
      obtain ⟨_, _, h⟩ := bind_ok h
      obtain ⟨h1, h2⟩ := ih n _ _ _ h
      refine ⟨?_, by omega⟩
      rw [h1]; simp; omega

/-- A leaf is a leaf of the right class with a value. -/
theorem parseDataObj_ok {cfg : Cfg} {v : View} {sm : Option StringMap} {c : Cur} {q : Obj × Cur} (h : parseDataObj cfg v sm c = .ok q) :
    ∃ dt p s, q.1 = .data false dt p ∧ scalarOf false dt p = some s := by
  unfold parseDataObj at h
  obtain ⟨⟨dt, c1⟩, _, h0⟩ := bind_ok h
  clear h
  obtain ⟨_, _, h⟩ := bind_ok h0
  clear h0
  dsimp only at h
  split at h
  · rename_i hdt
    obtain ⟨_, _, h⟩ := bind_ok h
    obtain ⟨s, _, h⟩ := bind_ok h
    cases h
    have : dt = BRIDGE_STRING := by simpa using hdt
    subst this
    exact ⟨_, _, _, rfl, rfl⟩
  · obtain ⟨_, _, h⟩ := bind_ok h
    obtain ⟨_, _, h⟩ := bind_ok h
    obtain ⟨p, hp, h⟩ := bind_ok h
    obtain ⟨_, _, h⟩ := bind_ok h
    cases h
    refine ⟨dt, p, ?_⟩
    unfold parseDataOwn at hp
    split at hp
    · rename_i hd
      obtain ⟨_, _, hp⟩ := bind_ok hp
      cases hp
      rcases hd with rfl | rfl
      · exact ⟨_, rfl, rfl⟩
      · exact ⟨_, rfl, rfl⟩
    · split at hp
      · rename_i hd
        split at hp
        · cases hp
        · obtain ⟨_, _, hp⟩ := bind_ok hp
          cases hp; subst hd; exact ⟨_, rfl, rfl⟩
      · repeat' (split at hp)
        all_goals first
          | (rename_i hd; obtain ⟨_, _, hp⟩ := bind_ok hp; cases hp; subst hd; exact ⟨_, rfl, rfl⟩)
          | cases hp

theorem parseViewObj_ok {cfg : Cfg} {v : View} {sm : Option StringMap} {c : Cur} {q : Obj × Cur} (h : parseViewObj cfg v sm c = .ok q) :
    ∃ dt p s, q.1 = .data true dt p ∧ scalarOf true dt p = some s := by
  unfold parseViewObj at h
  obtain ⟨⟨dt, c1⟩, _, h0⟩ := bind_ok h
  clear h
  obtain ⟨_, _, h⟩ := bind_ok h0
  clear h0
  dsimp only at h
  split at h
  · rename_i hdt
    obtain ⟨_, _, h⟩ := bind_ok h
    obtain ⟨s, _, h⟩ := bind_ok h
    cases h
    have : dt = BRIDGE_STRING := by simpa using hdt
    subst this
    exact ⟨_, _, _, rfl, rfl⟩
  · obtain ⟨_, _, h⟩ := bind_ok h
    obtain ⟨_, _, h⟩ := bind_ok h
    obtain ⟨p, hp, h⟩ := bind_ok h
    obtain ⟨_, _, h⟩ := bind_ok h
    cases h
    refine ⟨dt, p, ?_⟩
    unfold parseDataView at hp
    split at hp
    · rename_i hd
      cases hp
      rcases hd with rfl | rfl
      · exact ⟨_, rfl, rfl⟩
      · exact ⟨_, rfl, rfl⟩
    · repeat' (split at hp)
      all_goals first
        | (rename_i hd; obtain ⟨_, _, hp⟩ := bind_ok hp; cases hp; subst hd; exact ⟨_, rfl, rfl⟩)
        | cases hp

/-- What the parser returns has a document. -/
theorem parse_doc {cfg : Cfg} {v : View} {sm : Option StringMap} {ref : Bool} {pool : PoolRef} (f : Nat) :
    (∀ t c q, parseVal cfg v sm ref pool f t c = .ok q → ∃ d, q.1.doc? = some d) ∧
    (∀ n c q, parseItems cfg v sm ref pool f n c = .ok q → ∃ ds, docs? q.1 = some ds) ∧
    (∀ n c acc q, (∃ ds, entries? acc = some ds) → parseKVs cfg v sm ref pool f n c acc = .ok q → ∃ ds, entries? q.1 = some ds) := by
  induction f with
  | zero => exact ⟨fun t c q h => by simp [parseVal] at h, fun n c q h => by simp [parseItems] at h, fun n c acc q _ h => by simp [parseKVs] at h⟩
  | succ f ih =>
    obtain ⟨ih1, ih2, ih3⟩ := ih
    refine ⟨?_, ?_, ?_⟩
    · intro t c q h
      cases t with
      | invalid => simp [parseVal] at h
      | data =>
        simp only [parseVal] at h
        split at h
        · obtain ⟨dt, p, s, e, hs⟩ := parseViewObj_ok h
          exact ⟨_, by rw [e]; simp only [Obj.doc?, hs]; rfl⟩
        · obtain ⟨dt, p, s, e, hs⟩ := parseDataObj_ok h
          exact ⟨_, by rw [e]; simp only [Obj.doc?, hs]; rfl⟩
      | array =>
        simp only [parseVal] at h
        obtain ⟨_, _, h⟩ := bind_ok h
        obtain ⟨_, _, h⟩ := bind_ok h
        obtain ⟨q', h1, h⟩ := bind_ok h
        cases h
        obtain ⟨ds, hd⟩ := ih2 _ _ _ h1
        exact ⟨_, by simp only [Obj.doc?, parseItems_len f _ _ _ h1, if_true, hd]; rfl⟩
      | map =>
        simp only [parseVal] at h
        obtain ⟨_, _, h⟩ := bind_ok h
        obtain ⟨_, _, h⟩ := bind_ok h
        obtain ⟨q', h1, h⟩ := bind_ok h
        cases h
        obtain ⟨ds, hd⟩ := ih3 _ _ _ _ ⟨[], rfl⟩ h1
        exact ⟨_, by simp only [Obj.doc?, (parseKVs_len f _ _ _ _ h1).1, List.length_nil, Nat.add_zero, if_true, hd]; rfl⟩
    · intro n c q h
      cases n with
      | zero => simp only [parseItems] at h; cases h; exact ⟨[], rfl⟩
      | succ n =>
        simp only [parseItems] at h
        obtain ⟨_, _, h⟩ := bind_ok h
        obtain ⟨q1, h1, h⟩ := bind_ok h
        obtain ⟨q2, h2, h⟩ := bind_ok h
        cases h
        obtain ⟨d, hd⟩ := ih1 _ _ _ h1
        obtain ⟨ds, hds⟩ := ih2 _ _ _ h2
        exact ⟨d :: ds, by simp only [docs?, hd, hds]; rfl⟩
    · intro n c acc q hacc h
      cases n with
      | zero => simp only [parseKVs] at h; cases h; exact hacc
      | succ n =>
        simp only [parseKVs] at h
        obtain ⟨_, _, h⟩ := bind_ok h
        obtain ⟨_, _, h⟩ := bind_ok h
        obtain ⟨q1, h1, h⟩ := bind_ok h
        obtain ⟨k, _, h⟩ := bind_ok h
        obtain ⟨d, hd⟩ := ih1 _ _ _ h1
        obtain ⟨ds, hds⟩ := hacc
        exact ih3 _ _ _ _ ⟨(k.bytes, d) :: ds, by simp only [entries?, hd, hds]; rfl⟩ h

theorem ownKey_store {cfg : Cfg} {v : View} {ref : Bool} {k k' : Str} (h : ownKey cfg v ref k = .ok k') : storeKey ref k' = k' := by
  unfold ownKey at h
  cases ref with
  | true => rfl
  | false =>
    simp only [Bool.false_eq_true, if_false] at h
    split at h
    · cases h; rfl
    · split at h
      · cases h
      · obtain ⟨b, _, h⟩ := bind_ok h
        cases h; rfl

/-! ### what the parser leaves in memory -/

mutual
/-- The parsed object at `r` is the tree `o`; it lies in the addresses from `r` to `e`, everything made with pool `p`. -/
inductive Tree (cells : Ref → Option Cell) (p : Nat) (ref : Bool) : Nat → Nat → Obj → Prop
  | data {r : Nat} {dt : UInt8} {pl : Payload} : cells r = some (.data ref dt pl) → Tree cells p ref r (r + 1) (.data ref dt pl)
  | array {r e : Nat} {hd : Option Ref} {n : Nat} {os : List Obj} : cells r = some (.cont .array p hd n) → n = os.length → n < 2 ^ 64 →
      Fwd cells p ref (r + 1) e hd os → Tree cells p ref r e (.array .caller n os)
  | map {r e : Nat} {hd : Option Ref} {n : Nat} {es : List (Str × Obj)} : cells r = some (.cont (.map ref) p hd n) → n = es.length → n < 2 ^ 64 →
      Bwd cells p ref none [] (r + 1) e hd es → Tree cells p ref r e (.map ref .caller n es)
/-- Items linked forward. -/
inductive Fwd (cells : Ref → Option Cell) (p : Nat) (ref : Bool) : Nat → Nat → Option Ref → List Obj → Prop
  | nil {t : Nat} : Fwd cells p ref t t none []
  | cons {t t1 e : Nat} {hd : Option Ref} {o : Obj} {os : List Obj} : Tree cells p ref t t1 o →
      cells t1 = some (.item noKey (some t) hd) → Fwd cells p ref (t1 + 1) e hd os → Fwd cells p ref t e (some t1) (o :: os)
/-- Items linked backward, in front of those that `h` leads to. -/
inductive Bwd (cells : Ref → Option Cell) (p : Nat) (ref : Bool) :
    Option Ref → List (Str × Obj) → Nat → Nat → Option Ref → List (Str × Obj) → Prop
  | nil {h : Option Ref} {acc : List (Str × Obj)} {t : Nat} : Bwd cells p ref h acc t t h acc
  | cons {h hd : Option Ref} {acc es : List (Str × Obj)} {t t1 e : Nat} {k : Str} {o : Obj} : Tree cells p ref t t1 o →
      cells t1 = some (.item k (some t) h) → Bwd cells p ref (some t1) ((k, o) :: acc) (t1 + 1) e hd es → Bwd cells p ref h acc t e hd es
end

mutual
theorem Tree.lt {cells : Ref → Option Cell} {p : Nat} {ref : Bool} : {r e : Nat} → {o : Obj} → Tree cells p ref r e o → r < e
  | _, _, _, .data _ => by omega
  | _, _, _, .array _ _ _ l => by have := Fwd.le l; omega
  | _, _, _, .map _ _ _ l => by have := Bwd.le l; omega
theorem Fwd.le {cells : Ref → Option Cell} {p : Nat} {ref : Bool} : {t e : Nat} → {hd : Option Ref} → {os : List Obj} → Fwd cells p ref t e hd os → t ≤ e
  | _, _, _, _, .nil => by omega
  | _, _, _, _, .cons a _ l => by have := Tree.lt a; have := Fwd.le l; omega
theorem Bwd.le {cells : Ref → Option Cell} {p : Nat} {ref : Bool} : {h : Option Ref} → {acc : List (Str × Obj)} → {t e : Nat} → {hd : Option Ref} →
    {es : List (Str × Obj)} → Bwd cells p ref h acc t e hd es → t ≤ e
  | _, _, _, _, _, _, .nil => by omega
  | _, _, _, _, _, _, .cons a _ l => by have := Tree.lt a; have := Bwd.le l; omega
end

mutual
theorem Tree.congr {cells cells' : Ref → Option Cell} {p : Nat} {ref : Bool} : {r e : Nat} → {o : Obj} → Tree cells p ref r e o →
    (∀ i : Nat, r ≤ i → i < e → cells' i = cells i) → Tree cells' p ref r e o
  | r, _, _, .data h, g => .data (by rw [g r (by omega) (by omega)]; exact h)
  | r, e, _, .array h a b l, g => by
    have := Fwd.le l
    exact .array (by rw [g r (by omega) (by omega)]; exact h) a b (Fwd.congr l fun i h1 h2 => g i (by omega) h2)
  | r, e, _, .map h a b l, g => by
    have := Bwd.le l
    exact .map (by rw [g r (by omega) (by omega)]; exact h) a b (Bwd.congr l fun i h1 h2 => g i (by omega) h2)
theorem Fwd.congr {cells cells' : Ref → Option Cell} {p : Nat} {ref : Bool} : {t e : Nat} → {hd : Option Ref} → {os : List Obj} →
    Fwd cells p ref t e hd os → (∀ i : Nat, t ≤ i → i < e → cells' i = cells i) → Fwd cells' p ref t e hd os
  | _, _, _, _, .nil, _ => .nil
  | t, e, _, _, .cons (t1 := t1) a h l, g => by
    have := Tree.lt a; have := Fwd.le l
    exact .cons (Tree.congr a fun i h1 h2 => g i h1 (by omega)) (by rw [g t1 (by omega) (by omega)]; exact h)
      (Fwd.congr l fun i h1 h2 => g i (by omega) h2)
theorem Bwd.congr {cells cells' : Ref → Option Cell} {p : Nat} {ref : Bool} : {h : Option Ref} → {acc : List (Str × Obj)} → {t e : Nat} →
    {hd : Option Ref} → {es : List (Str × Obj)} → Bwd cells p ref h acc t e hd es → (∀ i : Nat, t ≤ i → i < e → cells' i = cells i) →
    Bwd cells' p ref h acc t e hd es
  | _, _, _, _, _, _, .nil, _ => .nil
  | _, _, t, e, _, _, .cons (t1 := t1) a h l, g => by
    have := Tree.lt a; have := Bwd.le l
    exact .cons (Tree.congr a fun i h1 h2 => g i h1 (by omega)) (by rw [g t1 (by omega) (by omega)]; exact h)
      (Bwd.congr l fun i h1 h2 => g i (by omega) h2)
end

/-! ### the parser makes such trees -/

/-- `m'` comes from `m` by allocations from pool `p` and changes of the cell `q` and of new cells. -/
structure Grow (p : Nat) (q : Option Ref) (m m' : Mem) : Prop where
  vars : m'.vars = m.vars
  pools : m'.pools = m.pools
  top : m.top ≤ m'.top
  cells : ∀ i : Nat, i < m.top → some i ≠ q → m'.cells i = m.cells i
  owner : ∀ i : Nat, i < m.top → m'.owner i = m.owner i
  new : ∀ i : Nat, m.top ≤ i → i < m'.top → m'.owner i = some p
  fresh : ∀ i : Nat, m'.top ≤ i → m'.cells i = none
  rest : m'.frames = m.frames ∧ m'.nextPool = m.nextPool ∧ ∀ i : Nat, m'.top ≤ i → m'.owner i = m.owner i

/-- The addresses from `top` on are unused. -/
def Fresh (m : Mem) : Prop := ∀ i : Nat, m.top ≤ i → m.cells i = none

theorem Grow.trans {p : Nat} {q : Option Ref} {m m1 m2 : Mem} (h1 : Grow p q m m1) {q' : Option Ref} (h2 : Grow p q' m1 m2)
    (hq : ∀ i : Nat, some i = q' → i < m.top → some i = q) : Grow p q m m2 := by
  have t1 := h1.top
  have t2 := h2.top
  refine ⟨h2.vars.trans h1.vars, h2.pools.trans h1.pools, by omega, fun i hi hne => ?_, fun i hi => ?_, fun i hi hi' => ?_, h2.fresh,
    h2.rest.1.trans h1.rest.1, h2.rest.2.1.trans h1.rest.2.1, fun i hi => (h2.rest.2.2 i hi).trans (h1.rest.2.2 i (Nat.le_trans t2 hi))⟩
  · rw [h2.cells i (by omega) (fun e => hne (hq i e hi)), h1.cells i hi hne]
  · rw [h2.owner i (by omega), h1.owner i hi]
  · by_cases h : i < m1.top
    · rw [h2.owner i h, h1.new i hi h]
    · exact h2.new i (by omega) hi'

/-- A new cell. -/
def Mem.push (m : Mem) (p : Nat) (c : Cell) : Mem :=
  { m with cells := upd m.cells m.top (some c), top := m.top + 1, owner := upd m.owner m.top (some p) }

theorem alloc_push {m : Mem} {p : Nat} {c : Cell} (hp : m.pools p = true) : m.alloc p c = .ok (m.push p c, m.top) := alloc_eq hp

theorem push_grow {m : Mem} (h : Fresh m) (p : Nat) (c : Cell) (q : Option Ref) : Grow p q m (m.push p c) := by
  refine ⟨rfl, rfl, Nat.le_succ _, fun i hi _ => upd_ne _ _ (Nat.ne_of_lt hi), fun i hi => upd_ne _ _ (Nat.ne_of_lt hi), fun i h1 h2 => ?_,
    fun i hi => ?_, rfl, rfl, fun i hi => upd_ne _ _ (show i ≠ m.top by change m.top + 1 ≤ i at hi; omega)⟩
  · have : i = m.top := by change i < m.top + 1 at h2; omega
    show upd _ _ _ _ = _
    rw [this, upd_same]
  · change m.top + 1 ≤ i at hi
    show upd _ _ _ _ = _
    rw [upd_ne _ _ (by omega)]
    exact h i (by omega)

theorem modify_grow {m : Mem} (h : Fresh m) (p : Nat) {r : Nat} (f : Cell → Cell) : Grow p (some r) m (m.modify r f) := by
  have hc : ∀ i : Nat, i ≠ r → (m.modify r f).cells i = m.cells i := fun i hi => upd_ne _ _ hi
  refine ⟨rfl, rfl, Nat.le_refl _, fun i hi hne => hc i (fun e => hne (by rw [e])), fun i hi => rfl,
    fun i h1 h2 => absurd h2 (Nat.not_lt.2 h1), fun i hi => ?_, rfl, rfl, fun _ _ => rfl⟩
  by_cases hr : i = r
  · subst hr
    show upd _ _ _ _ = _
    rw [upd_same, h i hi]; rfl
  · rw [hc i hr]; exact h i hi

theorem modify_same {m : Mem} {r : Nat} {c : Cell} (h : m.cells r = some c) (f : Cell → Cell) : (m.modify r f).cells r = some (f c) := by
  show upd _ _ _ _ = _
  rw [upd_same, h]; rfl

theorem modify_ne {m : Mem} {r i : Nat} (h : i ≠ r) (f : Cell → Cell) : (m.modify r f).cells i = m.cells i := upd_ne _ _ h

/-- What `object_factory` makes. -/
def blank (p : Nat) (ref : Bool) : ObjectType → Option Cell
  | .data => some (.data ref BRIDGE_INVALID .none)
  | .map => some (.cont (.map ref) p none 0)
  | .array => some (.cont .array p none 0)
  | .invalid => none

theorem factory_eq {m : Mem} {p : Nat} {ref : Bool} {t : ObjectType} (hp : m.pools p = true) {c : Cell} (h : blank p ref t = some c) :
    m.factory p t ref = .ok (m.push p c, some m.top) := by
  cases t <;> simp only [blank, Option.some.injEq, reduceCtorEq] at h <;> subst h <;> simp only [Mem.factory] <;> rw [alloc_eq hp] <;> rfl

theorem objectType_valid {v : View} {c : Cur} {q : ObjectType × Cur} (h : parseObjectType v c = .ok q) (p : Nat) (ref : Bool) :
    ∃ cell, blank p ref q.1 = some cell := by
  have : q.1 ≠ .invalid := by
    unfold parseObjectType at h
    obtain ⟨_, _, h⟩ := bind_ok h
    obtain ⟨_, _, h⟩ := bind_ok h
    obtain ⟨_, _, h⟩ := bind_ok h
    obtain ⟨_, _, h⟩ := bind_ok h
    dsimp only at h
    split at h
    · cases h
    · rename_i hne; cases h; exact hne
  obtain ⟨t, c⟩ := q
  cases t
  all_goals first
    | exact absurd rfl this
    | exact ⟨_, rfl⟩

theorem parse_heap {cfg : Cfg} {v : View} {sm : Option StringMap} {ref : Bool} {p : Nat} (f : Nat) :
    (∀ (m : Mem) (r : Nat) (t : ObjectType) (c : Cur) (cell : Cell), m.pools p = true → Fresh m → m.top = r + 1 → blank p ref t = some cell →
      m.cells r = some cell → m.owner r = some p →
      Both (fun (a : Obj × Cur) (b : Mem × Cur) => a.2 = b.2 ∧ Grow p (some r) m b.1 ∧ Tree b.1.cells p ref r b.1.top a.1)
        (parseVal cfg v sm ref .caller f t c) (Mem.valueParse cfg v sm ref f m (some r) c)) ∧
    (∀ (m : Mem) (head tail : Option Ref) (n : Nat) (c : Cur), m.pools p = true → Fresh m → (head = none → tail = none) →
      (head ≠ none → ∃ (t : Nat) (k : Str) (x : Option Ref), tail = some t ∧ t < m.top ∧ m.cells t = some (.item k x none) ∧ m.owner t = some p) →
      Both (fun (a : List Obj × Cur) (b : Mem × Option Ref × Cur) => a.2 = b.2.2 ∧ Grow p tail m b.1 ∧
          ∃ hd, Fwd b.1.cells p ref m.top b.1.top hd a.1 ∧ (head = none → b.2.1 = hd) ∧
            (head ≠ none → b.2.1 = head ∧ ∀ (t : Nat) (k : Str) (x : Option Ref), tail = some t → m.cells t = some (.item k x none) →
              b.1.cells t = some (.item k x hd)))
        (parseItems cfg v sm ref .caller f n c) (Mem.parseArrayLoop cfg v sm ref p f m head tail n c)) ∧
    (∀ (m : Mem) (r : Nat) (h : Option Ref) (s : Nat) (n : Nat) (c : Cur) (acc : List (Str × Obj)), m.pools p = true → Fresh m → r < m.top →
      m.cells r = some (.cont (.map ref) p h s) → m.owner r = some p →
      Both (fun (a : List (Str × Obj) × Cur) (b : Mem × Cur) => a.2 = b.2 ∧ Grow p (some r) m b.1 ∧
          ∃ hd s', b.1.cells r = some (.cont (.map ref) p hd s') ∧ Bwd b.1.cells p ref h acc m.top b.1.top hd a.1)
        (parseKVs cfg v sm ref .caller f n c acc) (Mem.parseMapLoop cfg v sm ref p f m (some r) n c)) := by
  induction f with
  | zero =>
    refine ⟨fun m r t c cell _ _ _ _ _ _ => ?_, fun m head tail n c _ _ _ _ => ?_, fun m r h s n c acc _ _ _ _ _ => ?_⟩
    · simp only [parseVal, Mem.valueParse]; exact .error _
    · simp only [parseItems, Mem.parseArrayLoop]; exact .error _
    · simp only [parseKVs, Mem.parseMapLoop]; exact .error _
  | succ f ih =>
    obtain ⟨ihA, ihB, ihC⟩ := ih
    -- a child: the factory and `valueParse`
    have child : ∀ (m : Mem) (t : ObjectType) (c : Cur) (cell : Cell), m.pools p = true → Fresh m → blank p ref t = some cell →
        Both (fun (a : Obj × Cur) (b : Mem × Cur) => a.2 = b.2 ∧ Grow p none m b.1 ∧ m.top < b.1.top ∧ Tree b.1.cells p ref m.top b.1.top a.1)
          (parseVal cfg v sm ref .caller f t c) (Mem.valueParse cfg v sm ref f (m.push p cell) (some m.top) c) := by
      intro m t c cell hp hf hb
      have g := push_grow hf p cell none
      refine (ihA (m.push p cell) m.top t c cell hp g.fresh rfl hb (upd_same _ _ _) (upd_same _ _ _)).imp ?_
      rintro a b ⟨h1, h2, h3⟩
      exact ⟨h1, g.trans h2 (fun i e hi => by cases e; exact absurd hi (Nat.lt_irrefl _)), h3.lt, h3⟩
    refine ⟨?_, ?_, ?_⟩
    · intro m r t c cell hp hf ht hb hc ho
      have hload : m.load (some r) = .ok (r, cell) := load_eq hc (by rw [ho]; simp)
      cases t with
      | invalid => cases hb
      | data =>
        simp only [blank, Option.some.injEq] at hb
        subst hb
        simp only [parseVal, Mem.valueParse]
        rw [hload, ok_bind]
        dsimp only
        have key : ∀ q : Res (Obj × Cur), (∀ a, q = .ok a → ∃ dt pl, a.1 = .data ref dt pl) →
            Both (fun (a : Obj × Cur) (b : Mem × Cur) => a.2 = b.2 ∧ Grow p (some r) m b.1 ∧ Tree b.1.cells p ref r b.1.top a.1) q
              (q >>= fun a => match a.1 with
                | .data _ dt p => pure (m.modify r fun _ => .data ref dt p, a.2)
                | _ => .error (.ub .badCast)) := by
          intro q hq
          cases q with
          | error e => exact .error e
          | ok a =>
            obtain ⟨dt, pl, e⟩ := hq a rfl
            obtain ⟨o, c⟩ := a
            dsimp only at e
            subst e
            rw [ok_bind]
            refine .ok ⟨rfl, modify_grow hf p _, ?_⟩
            show Tree _ p ref r m.top _
            rw [ht]
            exact .data (modify_same hc _)
        split
        · rename_i hr
          refine key _ fun a ha => ?_
          obtain ⟨dt, pl, s, e, _⟩ := parseViewObj_ok ha
          exact ⟨dt, pl, by rw [e, hr]⟩
        · rename_i hr
          refine key _ fun a ha => ?_
          obtain ⟨dt, pl, s, e, _⟩ := parseDataObj_ok ha
          exact ⟨dt, pl, by rw [e]; simp at hr; rw [hr]⟩
      | array =>
        simp only [blank, Option.some.injEq] at hb
        subst hb
        simp only [parseVal, Mem.valueParse]
        rw [hload, ok_bind]
        dsimp only
        have hclear : m.clearCont true (some r) = .ok m := by
          have hl := loadCont_eq hc (by rw [ho]; simp)
          simp only [decide_true] at hl
          unfold Mem.clearCont
          rw [hl, ok_bind]
          have : upd m.cells r (some (.cont .array p none 0)) = m.cells := by
            funext i
            by_cases hi : i = r
            · rw [hi, upd_same, hc]
            · rw [upd_ne _ _ hi]
          simp only [Mem.modify, hc, Option.map, upd_same, upd_upd, Cell.setHead, Cell.setSize, this]
          rfl
        rw [hclear, ok_bind]
        refine .same _ fun q1 h1 => .same _ fun q2 h2 => ?_
        have hlt := parseLength_lt h1
        obtain ⟨count, c1⟩ := q1
        obtain ⟨id, c2⟩ := q2
        dsimp only at hlt ⊢
        have hB := ihB m none none count c2 hp hf (fun _ => rfl) (fun h => absurd rfl h)
        generalize hx : parseItems cfg v sm ref .caller f count c2 = x at hB
        generalize Mem.parseArrayLoop cfg v sm ref p f m none none count c2 = y at hB
        cases hB with
        | error e => exact .error e
        | @ok a b hab =>
          obtain ⟨e1, g, hd, hfwd, hh, _⟩ := hab
          obtain ⟨os, c3⟩ := a
          obtain ⟨m', hd', c4⟩ := b
          dsimp only at e1 g hfwd hh ⊢
          have hh := hh rfl
          subst hh; subst e1
          rw [ok_bind, ok_bind]
          have hlen : os.length = count := parseItems_len f _ _ _ hx
          have g1 := modify_grow g.fresh p (r := r) (Cell.setSize count)
          have g2 := modify_grow g1.fresh p (r := r) (Cell.setHead hd')
          have hc' : m'.cells r = some (.cont .array p none 0) := by rw [g.cells r (by omega) (by simp)]; exact hc
          refine .ok ⟨rfl, ?_, ?_⟩
          · have g0 : Grow p (some r) m m' := ⟨g.vars, g.pools, g.top, fun i hi _ => g.cells i hi (by simp), g.owner, g.new, g.fresh, g.rest⟩
            exact (g0.trans g1 (fun i e _ => e)).trans g2 (fun i e _ => e)
          · refine .array (hd := hd') (n := count) ?_ hlen.symm hlt ?_
            · exact modify_same (modify_same hc' _) _
            · have := hfwd
              rw [ht] at this
              refine this.congr fun i h1 h2 => ?_
              rw [modify_ne (show i ≠ r by omega), modify_ne (show i ≠ r by omega)]
      | map =>
        simp only [blank, Option.some.injEq] at hb
        subst hb
        simp only [parseVal, Mem.valueParse]
        rw [hload, ok_bind]
        dsimp only
        have hclear : m.clearCont false (some r) = .ok m := by
          have hl := loadCont_eq hc (by rw [ho]; simp)
          simp only [reduceCtorEq, decide_false] at hl
          unfold Mem.clearCont
          rw [hl, ok_bind]
          have : upd m.cells r (some (.cont (.map ref) p none 0)) = m.cells := by
            funext i
            by_cases hi : i = r
            · rw [hi, upd_same, hc]
            · rw [upd_ne _ _ hi]
          simp only [Mem.modify, hc, Option.map, upd_same, upd_upd, Cell.setHead, Cell.setSize, this]
          rfl
        rw [hclear, ok_bind]
        refine .same _ fun q1 h1 => .same _ fun q2 h2 => ?_
        have hlt := parseLength_lt h1
        obtain ⟨count, c1⟩ := q1
        obtain ⟨id, c2⟩ := q2
        dsimp only at hlt ⊢
        have hC := ihC m r none 0 count c2 [] hp hf (by omega) hc ho
        generalize hx : parseKVs cfg v sm ref .caller f count c2 [] = x at hC
        generalize Mem.parseMapLoop cfg v sm ref p f m (some r) count c2 = y at hC
        cases hC with
        | error e => exact .error e
        | @ok a b hab =>
          obtain ⟨e1, g, hd, s', hc', hbwd⟩ := hab
          obtain ⟨es, c3⟩ := a
          obtain ⟨m', c4⟩ := b
          dsimp only at e1 g hbwd hc' ⊢
          subst e1
          rw [ok_bind, ok_bind]
          have hlen : es.length = count := by simpa using (parseKVs_len f _ _ _ _ hx).1
          have g1 := modify_grow g.fresh p (r := r) (Cell.setSize count)
          refine .ok ⟨rfl, g.trans g1 (fun i e _ => e), ?_⟩
          refine .map (hd := hd) (n := count) (modify_same hc' _) hlen.symm hlt ?_
          have := hbwd
          rw [ht] at this
          exact this.congr fun i h1 h2 => modify_ne (show i ≠ r by omega) _
    · intro m head tail n c hp hf hnone hsome
      cases n with
      | zero =>
        simp only [parseItems, Mem.parseArrayLoop]
        refine .ok ⟨rfl, ⟨rfl, rfl, Nat.le_refl _, fun _ _ _ => rfl, fun _ _ => rfl, fun i h1 h2 => absurd h2 (Nat.not_lt.2 h1), hf, rfl, rfl, fun _ _ => rfl⟩, none, .nil,
          fun h => h, fun _ => ⟨rfl, fun t k x _ h => h⟩⟩
      | succ n =>
        simp only [parseItems, Mem.parseArrayLoop]
        refine .same _ fun q1 h1 => ?_
        obtain ⟨cell, hb⟩ := objectType_valid h1 p ref
        rw [factory_eq hp hb, ok_bind]
        refine (child m q1.1 q1.2 cell hp hf hb).bind ?_
        rintro ⟨o, c2⟩ ⟨m2, c2'⟩ ⟨e2, g2, hlt2, t2⟩
        dsimp only at e2 g2 hlt2 t2 ⊢
        subst e2
        have hp2 : m2.pools p = true := by rw [g2.pools]; exact hp
        rw [alloc_push hp2, ok_bind]
        dsimp only
        have g3 := push_grow g2.fresh p (.item noKey none none) none
        have g4 := modify_grow g3.fresh p (r := m2.top) (Cell.setNode (some m.top))
        have hcell3 : ((m2.push p (.item noKey none none)).modify m2.top (Cell.setNode (some m.top))).cells m2.top = some (.item noKey (some m.top) none) :=
          modify_same (m := m2.push p (.item noKey none none)) (c := .item noKey none none) (upd_same _ _ _) (Cell.setNode (some m.top))
        have g5 := g3.trans g4 (fun i e hi => by cases e; exact absurd hi (Nat.lt_irrefl _))
        have hp3 : ((m2.push p (.item noKey none none)).modify m2.top (Cell.setNode (some m.top))).pools p = true := hp2
        have htop : ((m2.push p (.item noKey none none)).modify m2.top (Cell.setNode (some m.top))).top = m2.top + 1 := rfl
        have hown : ((m2.push p (.item noKey none none)).modify m2.top (Cell.setNode (some m.top))).owner m2.top = some p := upd_same _ _ _
        generalize hm3 : (m2.push p (.item noKey none none)).modify m2.top (Cell.setNode (some m.top)) = m3 at g5 hcell3 hp3 htop hown ⊢
        -- the rest of the loop, from a memory `m4` that differs from `m3` only in the old tail
        have rest : ∀ (m4 : Mem) (hd0 : Option Ref), m4.pools p = true → Fresh m4 → m4.top = m2.top + 1 → hd0 ≠ none →
            m4.cells m2.top = some (.item noKey (some m.top) none) → m4.owner m2.top = some p → Grow p tail m3 m4 →
            (∀ i : Nat, some i = tail → i < m.top) →
            Both (fun (a : List Obj × Cur) (b : Mem × Option Ref × Cur) => a.2 = b.2.2 ∧ Grow p tail m b.1 ∧ b.2.1 = hd0 ∧
                Fwd b.1.cells p ref m.top b.1.top (some m2.top) a.1 ∧ ∀ i : Nat, i < m.top → b.1.cells i = m4.cells i)
              (parseItems cfg v sm ref .caller f n c2 >>= fun x => pure (o :: x.1, x.2))
              (Mem.parseArrayLoop cfg v sm ref p f m4 hd0 (some m2.top) n c2) := by
          intro m4 hd0 hp4 hf4 ht4 hne hc4 ho4 g34 htail
          have hB := ihB m4 hd0 (some m2.top) n c2 hp4 hf4 (fun h => absurd h hne) (fun _ => ⟨m2.top, noKey, some m.top, rfl, by omega, hc4, ho4⟩)
          generalize parseItems cfg v sm ref .caller f n c2 = x at hB
          generalize Mem.parseArrayLoop cfg v sm ref p f m4 hd0 (some m2.top) n c2 = y at hB
          cases hB with
          | error e => exact .error e
          | @ok a b hab =>
            obtain ⟨e1, g, hd, hfwd, _, hh⟩ := hab
            obtain ⟨hh1, hh2⟩ := hh hne
            have hitem := hh2 m2.top noKey (some m.top) rfl hc4
            rw [ok_bind]
            have t32 := g2.top
            have g04 : Grow p tail m m4 :=
              (Grow.trans (q := tail) ⟨g2.vars, g2.pools, g2.top, fun i hi _ => g2.cells i hi (by simp), g2.owner, g2.new, g2.fresh, g2.rest⟩ g5 (fun i e hi => by cases e)).trans g34
                (fun i e _ => e)
            refine .ok ⟨e1, g04.trans g (fun i e hi => by cases e; exact absurd hi (by omega)), hh1, ?_, fun i hi => ?_⟩
            · rw [ht4] at hfwd
              refine .cons (t1 := m2.top) (t2.congr fun i h1 h2 => ?_) hitem hfwd
              rw [g.cells i (by omega) (by intro e; cases e; omega), g34.cells i (by omega) (fun e => by have := htail i e; omega),
                g5.cells i h2 (by simp)]
            · rw [g.cells i (by omega) (by intro e; cases e; omega)]
        by_cases hhd : head = none
        · have htl := hnone hhd
          subst hhd; subst htl
          simp only [Option.isNone_none, if_true]
          have g33 : Grow p none m3 m3 := ⟨rfl, rfl, Nat.le_refl _, fun _ _ _ => rfl, fun _ _ => rfl, fun i h1 h2 => absurd h2 (Nat.not_lt.2 h1), g5.fresh, rfl, rfl, fun _ _ => rfl⟩
          refine (rest m3 (some m2.top) hp3 g5.fresh htop (by simp) hcell3 hown g33 (fun i e => by cases e)).imp ?_
          rintro a b ⟨k1, k2, k3, k4, k5⟩
          exact ⟨k1, k2, some m2.top, k4, fun _ => k3, fun h => absurd rfl h⟩
        · obtain ⟨t, k, x, rfl, htl, hct, hot⟩ := hsome hhd
          have hisn : head.isNone = false := by cases head <;> simp_all
          have t32 := g2.top
          have hct3 : m3.cells t = some (.item k x none) := by
            rw [g5.cells t (by omega) (by simp), g2.cells t htl (by simp)]; exact hct
          have hot3 : m3.owner t ≠ none := by
            rw [g5.owner t (by omega), g2.owner t htl, hot]; simp
          simp only [hisn, Bool.false_eq_true, if_false]
          rw [loadItem_eq hct3 hot3, ok_bind]
          dsimp only
          have g34 := modify_grow g5.fresh p (r := t) (Cell.setNext (some m2.top))
          refine (rest (m3.modify t (Cell.setNext (some m2.top))) head hp3 g34.fresh htop hhd
            (by rw [modify_ne (show m2.top ≠ t by omega)]; exact hcell3) hown g34 (fun i e => by cases e; exact htl)).imp ?_
          rintro a b ⟨k1, k2, k3, k4, k5⟩
          refine ⟨k1, k2, some m2.top, k4, fun h => absurd h hhd, fun _ => ⟨k3, fun t' k' x' e he => ?_⟩⟩
          cases e
          rw [hct] at he
          cases he
          rw [k5 t htl]
          exact modify_same hct3 _
    · intro m r h s n c acc hp hf hr hc ho
      cases n with
      | zero =>
        simp only [parseKVs, Mem.parseMapLoop]
        refine .ok ⟨rfl, ⟨rfl, rfl, Nat.le_refl _, fun _ _ _ => rfl, fun _ _ => rfl, fun i h1 h2 => absurd h2 (Nat.not_lt.2 h1), hf, rfl, rfl, fun _ _ => rfl⟩, h, s, hc, .nil⟩
      | succ n =>
        simp only [parseKVs, Mem.parseMapLoop]
        refine .same _ fun q0 h0 => .same _ fun q1 h1 => ?_
        obtain ⟨cell, hb⟩ := objectType_valid h1 p ref
        rw [factory_eq hp hb, ok_bind]
        refine (child m q1.1 q1.2 cell hp hf hb).bind ?_
        rintro ⟨o, c2⟩ ⟨m2, c2'⟩ ⟨e2, g2, hlt2, t2⟩
        dsimp only at e2 g2 hlt2 t2 ⊢
        subst e2
        refine .same _ fun k hk => ?_
        have hp2 : m2.pools p = true := by rw [g2.pools]; exact hp
        have hc2 : m2.cells r = some (.cont (.map ref) p h s) := by rw [g2.cells r hr (by simp)]; exact hc
        have ho2 : m2.owner r = some p := by rw [g2.owner r hr]; exact ho
        rw [mapPut_eq k (g2.fresh _ (Nat.le_refl _)) hc2 (by rw [ho2]; simp) hp2, ok_bind, ownKey_store hk]
        have hne : r ≠ m2.top := by omega
        have g3 : Grow p (some r) m2 (m2.put r (.map ref) p h s k (some m.top)) := by
          refine ⟨rfl, rfl, Nat.le_succ _, fun i hi hne' => ?_, fun i hi => upd_ne _ _ (Nat.ne_of_lt hi), fun i h1 h2 => ?_, fun i hi => ?_, rfl, rfl,
            fun i hi => upd_ne _ _ (show i ≠ m2.top by change m2.top + 1 ≤ i at hi; omega)⟩
          · show upd (upd _ _ _) _ _ _ = _
            rw [upd_ne _ _ (fun e => hne' (by rw [e])), upd_ne _ _ (Nat.ne_of_lt hi)]
          · have : i = m2.top := by change i < m2.top + 1 at h2; omega
            show upd _ _ _ _ = _
            rw [this, upd_same]
          · change m2.top + 1 ≤ i at hi
            show upd (upd _ _ _) _ _ _ = _
            rw [upd_ne _ _ (by omega), upd_ne _ _ (by omega)]
            exact g2.fresh i (by omega)
        have hcr : (m2.put r (.map ref) p h s k (some m.top)).cells r = some (.cont (.map ref) p (some m2.top) (addW s 1)) := upd_same _ _ _
        have hct : (m2.put r (.map ref) p h s k (some m.top)).cells m2.top = some (.item k (some m.top) h) := by
          show upd (upd _ _ _) _ _ _ = _
          rw [upd_ne _ _ (Ne.symm hne), upd_same]
        have hor : (m2.put r (.map ref) p h s k (some m.top)).owner r = some p := by rw [g3.owner r (by omega)]; exact ho2
        have hpr : (m2.put r (.map ref) p h s k (some m.top)).pools p = true := hp2
        have htop : (m2.put r (.map ref) p h s k (some m.top)).top = m2.top + 1 := rfl
        generalize m2.put r (.map ref) p h s k (some m.top) = m3 at g3 hcr hct hor hpr htop
        refine (ihC m3 r (some m2.top) (addW s 1) n c2 ((k, o) :: acc) hpr g3.fresh (by omega) hcr hor).imp ?_
        rintro a b ⟨k1, g4, hd, s', k2, k3⟩
        have g02 : Grow p (some r) m m2 := ⟨g2.vars, g2.pools, g2.top, fun i hi _ => g2.cells i hi (by simp), g2.owner, g2.new, g2.fresh, g2.rest⟩
        refine ⟨k1, (g02.trans g3 (fun i e _ => e)).trans g4 (fun i e _ => e), hd, s', k2, ?_⟩
        rw [htop] at k3
        refine .cons (t1 := m2.top) (t2.congr fun i h1 h2 => ?_) ?_ k3
        · rw [g4.cells i (by omega) (by intro e; cases e; omega), g3.cells i h2 (by intro e; cases e; omega)]
        · rw [g4.cells m2.top (by omega) (by intro e; cases e; omega)]; exact hct

/-! ### a parsed region satisfies the invariant -/

/-- The invariant for the addresses from `b` to `e`, which refer to nothing outside. -/
structure Local (cells : Ref → Option Cell) (b e : Nat) (L : Ref → List Ref) : Prop where
  chain : ∀ (c : Nat) k p h s, b ≤ c → c < e → cells c = some (.cont k p h s) → Chain cells h (L c) ∧ s = (L c).length % 2 ^ 64
  inside : ∀ (i c : Nat), i ∈ L c → (b ≤ i ∧ i < e) ∧ (b ≤ c ∧ c < e) ∧ ∃ k p h s, cells c = some (.cont k p h s)
  disj : ∀ (i c c' : Nat), i ∈ L c → i ∈ L c' → c = c'
  nodeObj : ∀ (i r : Nat) k n, b ≤ i → i < e → cells i = some (.item k (some r) n) → (b ≤ r ∧ r < e) ∧ ∃ c, cells r = some c ∧ c.isObj = true
  oneItem : ∀ (i j r : Nat) k n k' n', b ≤ i → i < e → b ≤ j → j < e → cells i = some (.item k (some r) n) →
    cells j = some (.item k' (some r) n') → i = j

theorem Local.nil (cells : Ref → Option Cell) (b : Nat) : Local cells b b (fun _ => []) :=
  ⟨(fun c k p h s h1 h2 => by omega), (fun i c h => by cases h), (fun i c c' h => by cases h), (fun i r k n h1 h2 => by omega),
    (fun i j r k n k' n' h1 h2 => by omega)⟩

theorem Local.out {cells : Ref → Option Cell} {b e : Nat} {L : Ref → List Ref} (h : Local cells b e L) {c : Nat} (hc : ¬ (b ≤ c ∧ c < e)) : L c = [] := by
  cases hl : L c with
  | nil => rfl
  | cons i l => exact absurd (h.inside i c (by rw [hl]; simp)).2.1 hc

theorem Local.append {cells : Ref → Option Cell} {a b e : Nat} {L1 L2 : Ref → List Ref} (h1 : Local cells a b L1) (h2 : Local cells b e L2)
    (hab : a ≤ b) (hbe : b ≤ e) : Local cells a e (fun c => L1 c ++ L2 c) := by
  refine ⟨?_, ?_, ?_, ?_, ?_⟩
  · intro c k p h s g1 g2 g3
    by_cases hc : c < b
    · rw [h2.out (by omega), List.append_nil]; exact h1.chain c k p h s g1 hc g3
    · rw [h1.out (by omega), List.nil_append]; exact h2.chain c k p h s (by omega) g2 g3
  · intro i c hi
    rcases List.mem_append.1 hi with hi | hi
    · obtain ⟨g1, g2, g3⟩ := h1.inside i c hi; exact ⟨by omega, by omega, g3⟩
    · obtain ⟨g1, g2, g3⟩ := h2.inside i c hi; exact ⟨by omega, by omega, g3⟩
  · intro i c c' hi hi'
    rcases List.mem_append.1 hi with hi | hi <;> rcases List.mem_append.1 hi' with hi' | hi'
    · exact h1.disj i c c' hi hi'
    · have := (h1.inside i c hi).1; have := (h2.inside i c' hi').1; omega
    · have := (h2.inside i c hi).1; have := (h1.inside i c' hi').1; omega
    · exact h2.disj i c c' hi hi'
  · intro i r k n g1 g2 g3
    by_cases hc : i < b
    · obtain ⟨g4, g5⟩ := h1.nodeObj i r k n g1 hc g3; exact ⟨by omega, g5⟩
    · obtain ⟨g4, g5⟩ := h2.nodeObj i r k n (by omega) g2 g3; exact ⟨by omega, g5⟩
  · intro i j r k n k' n' g1 g2 g3 g4 g5 g6
    by_cases hi : i < b <;> by_cases hj : j < b
    · exact h1.oneItem i j r k n k' n' g1 hi g3 hj g5 g6
    · have := (h1.nodeObj i r k n g1 hi g5).1; have := (h2.nodeObj j r k' n' (by omega) g4 g6).1; omega
    · have := (h2.nodeObj i r k n (by omega) g2 g5).1; have := (h1.nodeObj j r k' n' g3 hj g6).1; omega
    · exact h2.oneItem i j r k n k' n' (by omega) g2 (by omega) g4 g5 g6

/-- An object with everything below it, and the item that holds it. -/
theorem Local.item {cells : Ref → Option Cell} {t t1 : Nat} {L : Ref → List Ref} (h : Local cells t t1 L) (hlt : t < t1)
    (ho : ∃ c, cells t = some c ∧ c.isObj = true) (hn : ∀ (i : Nat) k n, t ≤ i → i < t1 → cells i ≠ some (.item k (some t) n))
    {k : Str} {n : Option Ref} (hc : cells t1 = some (.item k (some t) n)) : Local cells t (t1 + 1) L := by
  refine ⟨?_, ?_, h.disj, ?_, ?_⟩
  · intro c k' p hd s g1 g2 g3
    by_cases hct : c = t1
    · rw [hct, hc] at g3; cases g3
    · exact h.chain c k' p hd s g1 (by omega) g3
  · intro i c hi
    obtain ⟨g1, g2, g3⟩ := h.inside i c hi; exact ⟨by omega, by omega, g3⟩
  · intro i r k' n' g1 g2 g3
    by_cases hi : i = t1
    · rw [hi, hc] at g3; cases g3; exact ⟨by omega, ho⟩
    · obtain ⟨g4, g5⟩ := h.nodeObj i r k' n' g1 (by omega) g3; exact ⟨by omega, g5⟩
  · intro i j r k1 n1 k2 n2 g1 g2 g3 g4 g5 g6
    by_cases hi : i = t1 <;> by_cases hj : j = t1
    · omega
    · rw [hi, hc] at g5; cases g5; exact absurd g6 (hn j _ _ g3 (by omega))
    · rw [hj, hc] at g6; cases g6; exact absurd g5 (hn i _ _ g1 (by omega))
    · exact h.oneItem i j r k1 n1 k2 n2 g1 (by omega) g3 (by omega) g5 g6

/-- A container in front of its items. -/
theorem Local.root {cells : Ref → Option Cell} {r e : Nat} {L : Ref → List Ref} (h : Local cells (r + 1) e L) (hre : r + 1 ≤ e)
    {k : Kind} {p : Nat} {hd : Option Ref} {s : Nat} (hc : cells r = some (.cont k p hd s)) {l : List Ref} (hl : Chain cells hd l)
    (hs : s = l.length % 2 ^ 64) (hin : ∀ i : Nat, i ∈ l → r + 1 ≤ i ∧ i < e) (hnot : ∀ (i c : Nat), i ∈ l → i ∉ L c) : Local cells r e (upd L r l) := by
  refine ⟨?_, ?_, ?_, ?_, ?_⟩
  · intro c k' p' hd' s' g1 g2 g3
    by_cases hcr : c = r
    · subst hcr; rw [hc] at g3; cases g3; rw [upd_same]; exact ⟨hl, hs⟩
    · rw [upd_ne _ _ hcr]; exact h.chain c k' p' hd' s' (by omega) g2 g3
  · intro i c hi
    by_cases hcr : c = r
    · subst hcr; rw [upd_same] at hi; have := hin i hi; exact ⟨by omega, by omega, _, _, _, _, hc⟩
    · rw [upd_ne _ _ hcr] at hi; obtain ⟨g1, g2, g3⟩ := h.inside i c hi; exact ⟨by omega, by omega, g3⟩
  · intro i c c' hi hi'
    by_cases hcr : c = r <;> by_cases hcr' : c' = r
    · omega
    · subst hcr; rw [upd_same] at hi; rw [upd_ne _ _ hcr'] at hi'; exact absurd hi' (hnot _ _ hi)
    · subst hcr'; rw [upd_same] at hi'; rw [upd_ne _ _ hcr] at hi; exact absurd hi (hnot _ _ hi')
    · rw [upd_ne _ _ hcr] at hi; rw [upd_ne _ _ hcr'] at hi'; exact h.disj i c c' hi hi'
  · intro i x k' n g1 g2 g3
    by_cases hi : i = r
    · rw [hi, hc] at g3; cases g3
    · obtain ⟨g4, g5⟩ := h.nodeObj i x k' n (by omega) g2 g3; exact ⟨by omega, g5⟩
  · intro i j x k1 n1 k2 n2 g1 g2 g3 g4 g5 g6
    by_cases hi : i = r
    · rw [hi, hc] at g5; cases g5
    · by_cases hj : j = r
      · rw [hj, hc] at g6; cases g6
      · exact h.oneItem i j x k1 n1 k2 n2 (by omega) g2 (by omega) g4 g5 g6

/-- The root of a parsed tree is an object, and nothing in the tree owns it. -/
def Rooted (cells : Ref → Option Cell) (r e : Nat) : Prop :=
  (∃ c, cells r = some c ∧ c.isObj = true) ∧ ∀ (i : Nat) k n, r ≤ i → i < e → cells i ≠ some (.item k (some r) n)

mutual
theorem Tree.local_ {cells : Ref → Option Cell} {p : Nat} {ref : Bool} : {r e : Nat} → {o : Obj} → Tree cells p ref r e o →
    (∃ L, Local cells r e L) ∧ Rooted cells r e
  | r, _, _, .data h => by
    refine ⟨⟨fun _ => [], ⟨fun c k p h' s h1 h2 h3 => ?_, (fun i c h => by cases h), (fun i c c' h => by cases h), fun i x k n h1 h2 h3 => ?_,
      fun i j x k n k' n' h1 h2 h3 h4 h5 => ?_⟩⟩, ⟨_, h, rfl⟩, fun i k n h1 h2 h3 => ?_⟩
    · have : c = r := by omega
      rw [this, h] at h3; cases h3
    · have : i = r := by omega
      rw [this, h] at h3; cases h3
    · have : i = r := by omega
      rw [this, h] at h5; cases h5
    · have : i = r := by omega
      rw [this, h] at h3; cases h3
  | r, e, _, .array h a b l => by
    obtain ⟨L, li, h1, h2, h3, h4, h5⟩ := Fwd.local_ l
    refine ⟨⟨_, h1.root (Fwd.le l) h h2 (by rw [h5]; omega) h3 h4⟩, ⟨_, h, rfl⟩, fun i k n g1 g2 g3 => ?_⟩
    by_cases hi : i = r
    · rw [hi, h] at g3; cases g3
    · have := (h1.nodeObj i r k n (by omega) g2 g3).1; omega
  | r, e, _, .map h a b l => by
    obtain ⟨L, li, h1, h2, h3, h4, h5⟩ := Bwd.local_ l
    have h2 := h2 [] .nil
    rw [List.append_nil] at h2
    simp only [List.length_nil, Nat.zero_add] at h5
    refine ⟨⟨_, h1.root (Bwd.le l) h h2 (by omega) h3 h4⟩, ⟨_, h, rfl⟩, fun i k n g1 g2 g3 => ?_⟩
    by_cases hi : i = r
    · rw [hi, h] at g3; cases g3
    · have := (h1.nodeObj i r k n (by omega) g2 g3).1; omega
theorem Fwd.local_ {cells : Ref → Option Cell} {p : Nat} {ref : Bool} : {t e : Nat} → {hd : Option Ref} → {os : List Obj} →
    Fwd cells p ref t e hd os →
    ∃ (L : Ref → List Ref) (l : List Ref), Local cells t e L ∧ Chain cells hd l ∧ (∀ i : Nat, i ∈ l → t ≤ i ∧ i < e) ∧ (∀ (i c : Nat), i ∈ l → i ∉ L c) ∧ l.length = os.length
  | t, _, _, _, .nil => ⟨fun _ => [], [], .nil _ _, .nil, (fun i h => by cases h), (fun i c h => by cases h), rfl⟩
  | t, e, _, _, .cons (t1 := t1) a h l => by
    have t1lt := Tree.lt a
    have le := Fwd.le l
    obtain ⟨⟨L1, hL1⟩, ho, hn⟩ := Tree.local_ a
    obtain ⟨L2, li, h1, h2, h3, h4, h5⟩ := Fwd.local_ l
    refine ⟨_, t1 :: li, (hL1.item t1lt ho hn h).append h1 (by omega) le, .cons h h2, ?_, ?_, by simp [h5]⟩
    · intro i hi
      rcases List.mem_cons.1 hi with rfl | hi
      · omega
      · have := h3 i hi; omega
    · intro i c hi hm
      rcases List.mem_append.1 hm with hm | hm
      · have := (hL1.inside i c hm).1
        rcases List.mem_cons.1 hi with rfl | hi
        · omega
        · have := h3 i hi; omega
      · rcases List.mem_cons.1 hi with rfl | hi
        · have := (h1.inside i c hm).1; omega
        · exact h4 i c hi hm
theorem Bwd.local_ {cells : Ref → Option Cell} {p : Nat} {ref : Bool} : {h : Option Ref} → {acc : List (Str × Obj)} → {t e : Nat} →
    {hd : Option Ref} → {es : List (Str × Obj)} → Bwd cells p ref h acc t e hd es →
    ∃ (L : Ref → List Ref) (l : List Ref), Local cells t e L ∧ (∀ l0, Chain cells h l0 → Chain cells hd (l ++ l0)) ∧ (∀ i : Nat, i ∈ l → t ≤ i ∧ i < e) ∧
      (∀ (i c : Nat), i ∈ l → i ∉ L c) ∧ acc.length + l.length = es.length
  | _, _, t, _, _, _, .nil => ⟨fun _ => [], [], .nil _ _, fun l0 h => h, (fun i h => by cases h), (fun i c h => by cases h), rfl⟩
  | _, _, t, e, _, _, .cons (t1 := t1) a h l => by
    have t1lt := Tree.lt a
    have le := Bwd.le l
    obtain ⟨⟨L1, hL1⟩, ho, hn⟩ := Tree.local_ a
    obtain ⟨L2, li, h1, h2, h3, h4, h5⟩ := Bwd.local_ l
    refine ⟨_, li ++ [t1], (hL1.item t1lt ho hn h).append h1 (by omega) le, fun l0 hl0 => ?_, ?_, ?_, ?_⟩
    · have := h2 (t1 :: l0) (.cons h hl0)
      simpa using this
    · intro i hi
      rcases List.mem_append.1 hi with hi | hi
      · have := h3 i hi; omega
      · simp only [List.mem_singleton] at hi; omega
    · intro i c hi hm
      rcases List.mem_append.1 hm with hm | hm
      · have := (hL1.inside i c hm).1
        rcases List.mem_append.1 hi with hi | hi
        · have := h3 i hi; omega
        · simp only [List.mem_singleton] at hi; omega
      · rcases List.mem_append.1 hi with hi | hi
        · exact h4 i c hi hm
        · simp only [List.mem_singleton] at hi
          have := (h1.inside i c hm).1; omega
    · simp only [List.length_cons, List.length_append, List.length_nil] at h5 ⊢; omega
end

/-- Facts about every memory that a program can have. -/
structure WF (m : Mem) : Prop where
  fresh : ∀ r : Nat, m.top ≤ r → m.cells r = none
  live : ∀ r, m.owner r ≠ none → m.cells r ≠ none
  owner : ∀ r q, m.owner r = some q → q < m.nextPool
  pools : ∀ q, m.pools q = true → q < m.nextPool
  frames : ∀ q, m.frames q = true → q < m.nextPool

theorem modify_wf {m : Mem} (h : WF m) (r : Nat) (f : Cell → Cell) : WF (m.modify r f) := by
  refine ⟨fun i hi => ?_, fun i hi => ?_, h.owner, h.pools, h.frames⟩
  · show upd _ _ _ _ = _
    by_cases hr : i = r
    · subst hr; rw [upd_same, h.fresh i hi]; rfl
    · rw [upd_ne _ _ hr]; exact h.fresh i hi
  · show upd _ _ _ _ ≠ _
    by_cases hr : i = r
    · subst hr; rw [upd_same]; have := h.live i hi; cases e : m.cells i with
      | none => exact absurd e this
      | some c => simp
    · rw [upd_ne _ _ hr]; exact h.live i hi

theorem Grow.wf {p : Nat} {m m1 : Mem} (g : Grow p none m m1) (hp : m.pools p = true) (hc : ∀ i : Nat, m.top ≤ i → i < m1.top → m1.cells i ≠ none)
    (h : WF m) : WF m1 := by
  obtain ⟨e1, e2, e3⟩ := g.rest
  refine ⟨g.fresh, fun i hi => ?_, fun i q hi => ?_, fun q hq => by rw [e2]; exact h.pools q (by rw [← g.pools]; exact hq),
    fun q hq => by rw [e2]; exact h.frames q (by rw [← e1]; exact hq)⟩
  · by_cases h1 : i < m.top
    · rw [g.cells i h1 (by simp)]; rw [g.owner i h1] at hi; exact h.live i hi
    · by_cases h2 : i < m1.top
      · exact hc i (Nat.not_lt.1 h1) h2
      · rw [e3 i (Nat.not_lt.1 h2)] at hi
        exact absurd (h.fresh i (Nat.not_lt.1 h1)) (h.live i hi)
  · rw [e2]
    by_cases h1 : i < m.top
    · rw [g.owner i h1] at hi; exact h.owner i q hi
    · by_cases h2 : i < m1.top
      · rw [g.new i (Nat.not_lt.1 h1) h2] at hi; cases hi; exact h.pools p hp
      · rw [e3 i (Nat.not_lt.1 h2)] at hi; exact h.owner i q hi

/-- Leaves and maps of the class, containers that refer to pools of `D`. -/
def OfClass (D : Nat → Prop) (ref : Bool) : Cell → Prop
  | .data v _ _ => v = ref
  | .cont .array q _ _ => D q
  | .cont (.map v) q _ _ => v = ref ∧ D q
  | .item .. => True

/-- The new objects of a parser, from `m` to `m1`: they lie in the memory of pool `p`, form lists and trees of their own, and nothing owns
the object at `root`. -/
structure Region (m m1 : Mem) (p : Nat) (D : Nat → Prop) (ref : Bool) (root : Nat) : Prop where
  vars : m1.vars = m.vars
  pools : m1.pools = m.pools
  frames : ∀ q, m.frames q = true → m1.frames q = true
  top : m.top ≤ m1.top
  cells : ∀ i : Nat, i < m.top → m1.cells i = m.cells i
  owner : ∀ i : Nat, i < m.top → m1.owner i = m.owner i
  new : ∀ (i : Nat) (c : Cell), m.top ≤ i → m1.cells i = some c → m1.owner i = some p ∧ OfClass D ref c
  fresh : ∀ i : Nat, m1.top ≤ i → m1.cells i = none
  loc : ∃ L2, Local m1.cells m.top m1.top L2
  lo : m.top ≤ root
  obj : ∃ c, m1.cells root = some c ∧ c.isObj = true
  free : ∀ (i : Nat) k n, m.top ≤ i → i < m1.top → m1.cells i ≠ some (.item k (some root) n)

/-- A region that a parser has added, with its root in a variable. -/
theorem Inv.region {m m' : Mem} {L L2 : Ref → List Ref} (h : Inv m L) {p : Nat} {D : Nat → Prop} {ref : Bool} {root : Nat}
    (g : Region m m' p D ref root) (hl : Local m'.cells m.top m'.top L2) (d : Nat) :
    Inv (m'.setVar d (some root)) (fun c => L c ++ L2 c) := by
  have gt := g.top
  have old : ∀ {i : Nat}, i < m.top → m'.cells i = m.cells i := fun hi => g.cells _ hi
  have keep : ∀ {i : Nat} {c}, m.cells i = some c → m'.cells i = some c := fun e => by rw [old (h.lt e)]; exact e
  have cellCase : ∀ {i : Nat} {c}, m'.cells i = some c → (i < m.top ∧ m.cells i = some c) ∨ (m.top ≤ i ∧ i < m'.top) := by
    intro i c e
    by_cases hi : i < m.top
    · exact .inl ⟨hi, by rw [← old hi]; exact e⟩
    · refine .inr ⟨by omega, ?_⟩
      apply Classical.byContradiction
      intro hn
      rw [g.fresh i (by omega)] at e; cases e
  have Lold : ∀ {c : Nat}, m.top ≤ c → L c = [] := fun hc => h.other _ (fun _ _ _ _ e => by rw [h.fresh _ hc] at e; cases e)
  have Lnew : ∀ {c : Nat}, c < m.top → L2 c = [] := fun hc => hl.out (by omega)
  have varCase : ∀ {x r}, upd m'.vars d (some root) x = some r → (x = d ∧ r = root) ∨ (x ≠ d ∧ m.vars x = some r) := by
    intro x r e
    by_cases hx : x = d
    · subst hx; rw [upd_same] at e; cases e; exact .inl ⟨rfl, rfl⟩
    · rw [upd_ne _ _ hx, g.vars] at e; exact .inr ⟨hx, e⟩
  have varLt : ∀ {x} {r : Nat}, m.vars x = some r → r < m.top := fun e => by obtain ⟨c, g1, _⟩ := h.varObj e; exact h.lt g1
  have nodeLt : ∀ {i k} {r : Nat} {n}, m.cells i = some (.item k (some r) n) → r < m.top := fun e => by
    obtain ⟨c, g1, _⟩ := h.nodeObj e; exact h.lt g1
  refine ⟨g.fresh, ?_, ?_, ?_, ?_, ?_, ?_, ?_, ?_⟩
  · intro c k q hd s e
    change m'.cells c = _ at e
    show Chain m'.cells _ _ ∧ _
    rcases cellCase e with ⟨hc, e0⟩ | ⟨hc, hc'⟩
    · rw [Lnew hc, List.append_nil]
      obtain ⟨g1, g2⟩ := h.chain e0
      exact ⟨g1.congr (fun i _ k v n e => ⟨k, v, keep e⟩), g2⟩
    · rw [Lold hc, List.nil_append]
      exact hl.chain c k q hd s hc hc' e
  · intro c hn
    change ∀ k p hd s, m'.cells c ≠ _ at hn
    have h1 : L c = [] := h.other c (fun k p hd s e => hn k p hd s (keep e))
    have h2 : L2 c = [] := by
      cases hc : L2 c with
      | nil => rfl
      | cons i l =>
        obtain ⟨_, _, k, p, hd, s, e⟩ := hl.inside i c (by rw [hc]; simp)
        exact absurd e (hn _ _ _ _)
    rw [h1, h2]; rfl
  · intro i c c' hi hi'
    have oldItem : ∀ {c : Nat}, i ∈ L c → i < m.top := fun hi => by obtain ⟨_, _, _, e⟩ := h.memLt hi; exact h.lt e
    rcases List.mem_append.1 hi with hi | hi <;> rcases List.mem_append.1 hi' with hi' | hi'
    · exact h.disj hi hi'
    · exact absurd (oldItem hi) (Nat.not_lt.2 (hl.inside i c' hi').1.1)
    · exact absurd (oldItem hi') (Nat.not_lt.2 (hl.inside i c hi).1.1)
    · exact hl.disj i c c' hi hi'
  · intro x r e
    rcases varCase e with ⟨_, e⟩ | ⟨_, e⟩
    · rw [e]; exact g.obj
    · obtain ⟨c, g1, g2⟩ := h.varObj e; exact ⟨c, keep g1, g2⟩
  · intro i k r n e
    change m'.cells i = _ at e
    rcases cellCase e with ⟨hc, e0⟩ | ⟨hc, hc'⟩
    · obtain ⟨c, g1, g2⟩ := h.nodeObj e0; exact ⟨c, keep g1, g2⟩
    · exact (hl.nodeObj i r k n hc hc' e).2
  · intro i j k r n k' n' e e'
    change m'.cells i = _ at e
    change m'.cells j = _ at e'
    rcases cellCase e with ⟨hc, e0⟩ | ⟨hc, hc'⟩ <;> rcases cellCase e' with ⟨hd, e1⟩ | ⟨hd, hd'⟩
    · exact h.oneItem e0 e1
    · have := nodeLt e0; have := (hl.nodeObj j r k' n' hd hd' e').1; omega
    · have := nodeLt e1; have := (hl.nodeObj i r k n hc hc' e).1; omega
    · exact hl.oneItem i j r k n k' n' hc hc' hd hd' e e'
  · intro x y r e e'
    rcases varCase e with ⟨h0, e1⟩ | ⟨h0, e1⟩ <;> rcases varCase e' with ⟨h1, e2⟩ | ⟨h1, e2⟩
    · rw [h0, h1]
    · exact absurd (varLt e2) (Nat.not_lt.2 (e1 ▸ g.lo))
    · exact absurd (varLt e1) (Nat.not_lt.2 (e2 ▸ g.lo))
    · exact h.oneVar e1 e2
  · intro x r i k n e e'
    change m'.cells i = _ at e'
    rcases varCase e with ⟨_, e⟩ | ⟨_, e⟩ <;> rcases cellCase e' with ⟨hc, e0⟩ | ⟨hc, hc'⟩
    · subst e; exact absurd (nodeLt e0) (Nat.not_lt.2 g.lo)
    · subst e; exact g.free i k n hc hc' e'
    · exact h.notBoth e e0
    · have := varLt e; have := (hl.nodeObj i r k n hc hc' e').1; omega

end Bridge.Heap
