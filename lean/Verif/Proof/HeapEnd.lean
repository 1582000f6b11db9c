import Verif.Proof.HeapTree
/-
What can be reached from a pointer, which calls change it, and the documents of the objects.
-/
set_option autoImplicit false
namespace Bridge.Heap
open Spec

/-- The memory at `c` can be reached from a pointer by following pointers. -/
inductive Reaches (m : Mem) : Option Ref → Ref → Prop
  | here (r : Ref) : Reaches m (some r) r
  | head {r c : Ref} {k : Kind} {p : Nat} {hd : Option Ref} {s : Nat} : m.cells r = some (.cont k p hd s) → Reaches m hd c →
      Reaches m (some r) c
  | node {r c : Ref} {k : Str} {v n : Option Ref} : m.cells r = some (.item k v n) → Reaches m v c → Reaches m (some r) c
  | next {r c : Ref} {k : Str} {v n : Option Ref} : m.cells r = some (.item k v n) → Reaches m n c → Reaches m (some r) c

theorem Reaches.trans {m : Mem} {a : Option Ref} {b c : Ref} (h1 : Reaches m a b) (h2 : Reaches m (some b) c) : Reaches m a c := by
  induction h1 with
  | here r => exact h2
  | head e _ ih => exact .head e (ih h2)
  | node e _ ih => exact .node e (ih h2)
  | next e _ ih => exact .next e (ih h2)

theorem Chain.reaches {m : Mem} {h : Option Ref} {l : List Ref} (c : Chain m.cells h l) {i : Ref} (hi : i ∈ l) : Reaches m h i := by
  induction c with
  | nil => cases hi
  | @cons j k v n l hj c ih =>
    rcases List.mem_cons.1 hi with rfl | hi
    · exact .here _
    · exact .next hj (ih hi)

theorem Inv.reaches_item {m : Mem} {L : Ref → List Ref} (h : Inv m L) {c i : Ref} (hi : i ∈ L c) : Reaches m (some c) i := by
  by_cases hc : ∃ k p hd s, m.cells c = some (.cont k p hd s)
  · obtain ⟨k, p, hd, s, hc⟩ := hc
    exact .head hc ((h.chain hc).1.reaches hi)
  · rw [h.other c (fun k p hd s e => hc ⟨k, p, hd, s, e⟩)] at hi; cases hi

theorem Path.reaches {m : Mem} {L : Ref → List Ref} (h : Inv m L) {r : Ref} {l : List Ref} (p : Path m L r l) :
    ∀ c ∈ l, Reaches m (some r) c := by
  induction p with
  | start => intro c hc; simp at hc; rw [hc]; exact .here _
  | @step q d l p hch ih =>
    intro c hc
    rcases List.mem_cons.1 hc with rfl | hc
    · obtain ⟨i, hi, e⟩ := hch
      obtain ⟨k, n, e⟩ := nodeOf_item e
      exact (ih q List.mem_cons_self).trans ((h.reaches_item hi).trans (.node e (.here _)))
    · exact ih c hc

/-! ### observers only read what can be reached -/

theorem loadItem_congr {m m' : Mem} {a : Option Ref} (h : m'.load a = m.load a) : m'.loadItem a = m.loadItem a := by
  unfold Mem.loadItem; rw [h]

theorem loadCont_congr {m m' : Mem} {b : Bool} {a : Option Ref} (h : m'.load a = m.load a) : m'.loadCont b a = m.loadCont b a := by
  unfold Mem.loadCont; rw [h]

/-- The two memories agree on what can be reached in the first one. -/
def Agree (m m' : Mem) (a : Option Ref) : Prop := ∀ c, Reaches m a c → m'.load (some c) = m.load (some c)

theorem Agree.self {m m' : Mem} {a : Option Ref} (h : Agree m m' a) : m'.load a = m.load a := by
  cases a with
  | none => rfl
  | some r => exact h r (.here r)

theorem Agree.head {m m' : Mem} {r : Ref} {k : Kind} {p : Nat} {hd : Option Ref} {s : Nat} (h : Agree m m' (some r))
    (e : m.cells r = some (.cont k p hd s)) : Agree m m' hd := fun c hc => h c (.head e hc)

theorem Agree.item {m m' : Mem} {r : Ref} {k : Str} {v n : Option Ref} (h : Agree m m' (some r))
    (e : m.cells r = some (.item k v n)) : Agree m m' v ∧ Agree m m' n := ⟨fun c hc => h c (.node e hc), fun c hc => h c (.next e hc)⟩

theorem walk_congr {m m' : Mem} {a : Option Ref} (h : Agree m m' a) (n : Nat) : m'.walk a n = m.walk a n := by
  induction n generalizing a with
  | zero => rfl
  | succ n ih =>
    cases a with
    | none => rfl
    | some r =>
      simp only [Mem.walk]
      rw [loadItem_congr h.self]
      cases e : m.loadItem (some r) with
      | error e => rfl
      | ok q =>
        obtain ⟨e1, e2, _⟩ := loadItem_ok e
        cases e1
        simp only [ok_bind]
        exact ih (h.item e2).2

theorem walk_reaches {m : Mem} {a : Option Ref} {n : Nat} {b : Ref} (h : m.walk a n = .ok (some b)) : Reaches m a b := by
  induction n generalizing a with
  | zero => simp only [Mem.walk] at h; cases h; exact .here _
  | succ n ih =>
    cases a with
    | none => simp [Mem.walk] at h
    | some r =>
      simp only [Mem.walk] at h
      obtain ⟨q, h1, h2⟩ := bind_ok h
      obtain ⟨e1, e2, _⟩ := loadItem_ok h1
      cases e1
      exact .next e2 (ih h2)

theorem find_congr {m m' : Mem} (key : Bytes) (fuel : Nat) {a : Option Ref} (h : Agree m m' a) : m'.find key fuel a = m.find key fuel a := by
  induction fuel generalizing a with
  | zero => cases a <;> rfl
  | succ f ih =>
    cases a with
    | none => rfl
    | some r =>
      simp only [Mem.find]
      rw [loadItem_congr h.self]
      cases e : m.loadItem (some r) with
      | error e => rfl
      | ok q =>
        obtain ⟨e1, e2, _⟩ := loadItem_ok e
        cases e1
        simp only [ok_bind, ih (h.item e2).2]

theorem find_reaches {m : Mem} {key : Bytes} {fuel : Nat} {a : Option Ref} {b : Ref} (h : m.find key fuel a = .ok (some b)) : Reaches m a b := by
  induction fuel generalizing a with
  | zero => cases a <;> simp [Mem.find] at h
  | succ f ih =>
    cases a with
    | none => simp [Mem.find] at h
    | some r =>
      simp only [Mem.find] at h
      obtain ⟨q, h1, h2⟩ := bind_ok h
      obtain ⟨e1, e2, _⟩ := loadItem_ok h1
      cases e1
      split at h2
      · cases h2; exact .here _
      · exact .next e2 (ih h2)

theorem visit_congr {m m' : Mem} (fuel : Nat) {a : Option Ref} (h : Agree m m' a) : m'.visit fuel a = m.visit fuel a := by
  induction fuel generalizing a with
  | zero => cases a <;> rfl
  | succ f ih =>
    cases a with
    | none => rfl
    | some r =>
      simp only [Mem.visit, Mem.entry, Mem.next]
      rw [loadItem_congr h.self]
      cases e : m.loadItem (some r) with
      | error e => rfl
      | ok q =>
        obtain ⟨e1, e2, _⟩ := loadItem_ok e
        cases e1
        simp only [ok_bind, pure_eq_ok, ih (h.item e2).2]

theorem seriChild_congr {m m' : Mem} {a : Option Ref} (h : m'.load a = m.load a) : m'.seriChild a = m.seriChild a := by
  funext vs st; unfold Mem.seriChild; rw [h]

theorem seri_congr {m m' : Mem} (cfg : Cfg) (fuel : Nat) : (∀ a st, Agree m m' a → m'.valueSeri cfg fuel a st = m.valueSeri cfg fuel a st) ∧
    (∀ b a st cur bl, Agree m m' a → m'.seriLoop cfg b fuel a st cur bl = m.seriLoop cfg b fuel a st cur bl) := by
  induction fuel with
  | zero =>
    constructor
    · intro a st _; simp only [Mem.valueSeri]
    · intro b a st cur bl _; cases a <;> simp only [Mem.seriLoop]
  | succ f ih =>
    constructor
    · intro a st h
      simp only [Mem.valueSeri]
      rw [h.self]
      cases e : m.load a with
      | error e => rfl
      | ok q =>
        obtain ⟨r, c⟩ := q
        obtain ⟨e1, e2, _⟩ := load_ok e
        dsimp only at e1 e2
        subst e1
        simp only [ok_bind]
        cases c with
        | data => rfl
        | item => rfl
        | cont k p hd s => simp only [ih.2 _ _ _ _ _ (h.head e2)]
    · intro b a st cur bl h
      cases a with
      | none => simp only [Mem.seriLoop]
      | some r =>
        simp only [Mem.seriLoop]
        rw [loadItem_congr h.self]
        cases e : m.loadItem (some r) with
        | error e => rfl
        | ok q =>
          obtain ⟨e1, e2, _⟩ := loadItem_ok e
          cases e1
          simp only [ok_bind]
          have e3 : m'.valueSeri cfg f q.2.2.1 = m.valueSeri cfg f q.2.2.1 := funext fun st => ih.1 _ st (h.item e2).1
          simp only [e3, seriChild_congr (h.item e2).1.self, fun st cur bl => ih.2 b _ st cur bl (h.item e2).2]

theorem dump_congr {m m' : Mem} (fuel : Nat) : (∀ a buf lv, Agree m m' a → m'.dump fuel a buf lv = m.dump fuel a buf lv) ∧
    (∀ b kp a buf lv, Agree m m' a → m'.dumpLoop b kp fuel a buf lv = m.dumpLoop b kp fuel a buf lv) := by
  induction fuel with
  | zero =>
    constructor
    · intro a buf lv _; simp only [Mem.dump]
    · intro b kp a buf lv _; cases a <;> simp only [Mem.dumpLoop]
  | succ f ih =>
    constructor
    · intro a buf lv h
      simp only [Mem.dump]
      rw [h.self]
      cases e : m.load a with
      | error e => rfl
      | ok q =>
        obtain ⟨r, c⟩ := q
        obtain ⟨e1, e2, _⟩ := load_ok e
        dsimp only at e1 e2
        subst e1
        simp only [ok_bind]
        cases c with
        | data => rfl
        | item => rfl
        | cont k p hd s => simp only [ih.2 _ _ _ _ _ (h.head e2)]
    · intro b kp a buf lv h
      cases a with
      | none => simp only [Mem.dumpLoop]
      | some r =>
        simp only [Mem.dumpLoop]
        rw [loadItem_congr h.self]
        cases e : m.loadItem (some r) with
        | error e => rfl
        | ok q =>
          obtain ⟨e1, e2, _⟩ := loadItem_ok e
          cases e1
          simp only [ok_bind, fun buf lv => ih.1 _ buf lv (h.item e2).1, fun buf lv => ih.2 b kp _ buf lv (h.item e2).2]

/-! ### cycles -/

theorem dump_cycle {m : Mem} {r : Ref} {k : Kind} {p : Nat} {hd : Option Ref} {s : Nat} (hr : m.cells r = some (.cont k p hd s))
    (hc : Reaches m hd r) (fuel : Nat) : (∀ a buf lv b, Reaches m a r → m.dump fuel a buf lv ≠ .ok b) ∧
      (∀ x kp a buf lv b, Reaches m a r → m.dumpLoop x kp fuel a buf lv ≠ .ok b) := by
  induction fuel with
  | zero =>
    constructor
    · intro a buf lv b _; simp [Mem.dump]
    · intro x kp a buf lv b h
      cases h <;> simp [Mem.dumpLoop]
  | succ f ih =>
    constructor
    · intro a buf lv b h e
      simp only [Mem.dump] at e
      obtain ⟨⟨q, c⟩, e1, e2⟩ := bind_ok e
      obtain ⟨e3, e4, _⟩ := load_ok e1
      dsimp only at e2 e3 e4
      subst e3
      cases h with
      | here =>
        rw [hr] at e4; cases e4
        dsimp only at e2
        obtain ⟨_, _, e2⟩ := bind_ok e2
        split at e2
        · exact ih.2 _ _ _ _ _ _ hc e2
        · obtain ⟨_, _, e2⟩ := bind_ok e2
          exact ih.2 _ _ _ _ _ _ hc e2
      | head e5 h =>
        rw [e5] at e4; cases e4
        dsimp only at e2
        obtain ⟨_, _, e2⟩ := bind_ok e2
        split at e2
        · exact ih.2 _ _ _ _ _ _ h e2
        · obtain ⟨_, _, e2⟩ := bind_ok e2
          exact ih.2 _ _ _ _ _ _ h e2
      | node e5 h => rw [e5] at e4; cases e4; cases e2
      | next e5 h => rw [e5] at e4; cases e4; cases e2
    · intro x kp a buf lv b h e
      cases a with
      | none => cases h
      | some i =>
        simp only [Mem.dumpLoop] at e
        obtain ⟨q, e1, e2⟩ := bind_ok e
        obtain ⟨e3, e4, _⟩ := loadItem_ok e1
        cases e3
        obtain ⟨_, e5, e2⟩ := bind_ok e2
        cases h with
        | here => rw [hr] at e4; cases e4
        | head e6 h => rw [e6] at e4; cases e4
        | node e6 h =>
          have := e6.symm.trans e4
          simp only [Option.some.injEq, Cell.item.injEq] at this
          obtain ⟨_, h1, _⟩ := this
          rw [h1] at h
          exact ih.1 _ _ _ _ h e5
        | next e6 h =>
          have := e6.symm.trans e4
          simp only [Option.some.injEq, Cell.item.injEq] at this
          obtain ⟨_, _, h1⟩ := this
          rw [h1] at h
          exact ih.2 _ _ _ _ _ _ h e2

theorem seri_cycle {m : Mem} {r : Ref} {k : Kind} {p : Nat} {hd : Option Ref} {s : Nat} (hr : m.cells r = some (.cont k p hd s))
    (hc : Reaches m hd r) (cfg : Cfg) (fuel : Nat) : (∀ a st b, Reaches m a r → m.valueSeri cfg fuel a st ≠ .ok b) ∧
      (∀ x a st cur bl b, Reaches m a r → m.seriLoop cfg x fuel a st cur bl ≠ .ok b) := by
  induction fuel with
  | zero =>
    constructor
    · intro a buf b _; simp [Mem.valueSeri]
    · intro x a st cur bl b h
      cases h <;> simp [Mem.seriLoop]
  | succ f ih =>
    constructor
    · intro a st b h e
      simp only [Mem.valueSeri] at e
      obtain ⟨⟨q, c⟩, e1, e2⟩ := bind_ok e
      obtain ⟨e3, e4, _⟩ := load_ok e1
      dsimp only at e2 e3 e4
      subst e3
      cases h with
      | here =>
        rw [hr] at e4; cases e4
        dsimp only at e2
        obtain ⟨_, _, e2⟩ := bind_ok e2
        obtain ⟨_, _, e2⟩ := bind_ok e2
        obtain ⟨_, e6, e2⟩ := bind_ok e2
        exact ih.2 _ _ _ _ _ _ hc e6
      | head e5 h =>
        rw [e5] at e4; cases e4
        dsimp only at e2
        obtain ⟨_, _, e2⟩ := bind_ok e2
        obtain ⟨_, _, e2⟩ := bind_ok e2
        obtain ⟨_, e6, e2⟩ := bind_ok e2
        exact ih.2 _ _ _ _ _ _ h e6
      | node e5 h => rw [e5] at e4; cases e4; cases e2
      | next e5 h => rw [e5] at e4; cases e4; cases e2
    · intro x a st cur bl b h e
      cases a with
      | none => cases h
      | some i =>
        simp only [Mem.seriLoop] at e
        obtain ⟨q, e1, e2⟩ := bind_ok e
        obtain ⟨e3, e4, _⟩ := loadItem_ok e1
        cases e3
        have hx : ∃ st', (do
            let st ← m.seriChild q.2.2.1 (m.valueSeri cfg f q.2.2.1) st'
            m.seriLoop cfg x f q.2.2.2 st (blockStep cfg st cur bl).1 (blockStep cfg st cur bl).2) = .ok b := by
          split at e2
          · exact ⟨st, e2⟩
          · obtain ⟨st', _, e2⟩ := bind_ok e2
            exact ⟨st', e2⟩
        obtain ⟨st', e2⟩ := hx
        obtain ⟨_, e5, e2⟩ := bind_ok e2
        cases h with
        | here => rw [hr] at e4; cases e4
        | head e6 h => rw [e6] at e4; cases e4
        | node e6 h =>
          have := e6.symm.trans e4
          simp only [Option.some.injEq, Cell.item.injEq] at this
          obtain ⟨_, h1, _⟩ := this
          rw [h1] at h
          unfold Mem.seriChild at e5
          obtain ⟨_, _, e5⟩ := bind_ok e5
          obtain ⟨_, e7, _⟩ := bind_ok e5
          exact ih.1 _ _ _ h e7
        | next e6 h =>
          have := e6.symm.trans e4
          simp only [Option.some.injEq, Cell.item.injEq] at this
          obtain ⟨_, _, h1⟩ := this
          rw [h1] at h
          exact ih.2 _ _ _ _ _ _ h e2

/-! ### documents -/

theorem mem_zip_reverse {α β : Type} {a : List α} {b : List β} (hl : a.length = b.length) {p : α × β} (h : p ∈ a.zip b) :
    p ∈ a.reverse.zip b.reverse := by
  induction a generalizing b with
  | nil => simp at h
  | cons x a ih =>
    cases b with
    | nil => simp at hl
    | cons y b =>
      simp only [List.length_cons, Nat.add_right_cancel_iff] at hl
      rw [List.reverse_cons, List.reverse_cons, List.zip_append (by simp [hl])]
      rcases List.mem_cons.1 h with rfl | h
      · exact List.mem_append_right _ (by simp)
      · exact List.mem_append_left _ (ih hl h)

theorem showsL_length {m : Mem} {hd : Option Ref} {l : List Ref} (c : Chain m.cells hd l) {items : List (Str × Obj)} (h : ShowsL m hd items) :
    items.length = l.length := by
  induction c generalizing items with
  | nil => cases h; rfl
  | @cons i k v n l hi c ih =>
    cases h with
    | @cons _ k' v' n' o os e s1 s2 =>
      have e2 := (load_ok e).2.1
      dsimp only at e2
      rw [hi] at e2; cases e2
      simp only [List.length_cons, ih s2]

theorem docs_of {m : Mem} {hd : Option Ref} {l : List Ref} (c : Chain m.cells hd l) {items : List (Str × Obj)} (h : ShowsL m hd items)
    (ds : List Doc) (hl : (l.map (nodeOf m)).length = ds.length)
    (hs : ∀ p ∈ (l.map (nodeOf m)).zip ds, ∀ o, Shows m p.1 o → o.doc? = some p.2) : docs? (items.map Prod.snd) = some ds := by
  induction c generalizing items ds with
  | nil => cases h; cases ds with
    | nil => rfl
    | cons => simp at hl
  | @cons i k v n l hi c ih =>
    cases h with
    | @cons _ k' v' n' o os e s1 s2 =>
      have e2 := (load_ok e).2.1
      dsimp only at e2
      have hn : nodeOf m i = v := by simp only [nodeOf, hi]
      rw [hi] at e2; cases e2
      cases ds with
      | nil => simp at hl
      | cons d ds =>
        have h1 := ih s2 ds (by simpa using hl) (fun p hp => hs p (by simp only [List.map_cons, List.zip_cons_cons]; exact List.mem_cons_of_mem _ hp))
        have h2 := hs (nodeOf m i, d) (by simp only [List.map_cons, List.zip_cons_cons]; exact List.mem_cons_self) o (by rw [hn]; exact s1)
        simp only [List.map_cons, docs?, h2, h1]
        rfl

theorem entries_of {m : Mem} {hd : Option Ref} {l : List Ref} (c : Chain m.cells hd l) {items : List (Str × Obj)} (h : ShowsL m hd items)
    (ds : List (Bytes × Doc)) (hl : (l.map (pairOf m)).map Prod.fst = ds.map Prod.fst)
    (hs : ∀ p ∈ (l.map (pairOf m)).zip ds, ∀ o, Shows m p.1.2 o → o.doc? = some p.2.2) : entries? items = some ds := by
  induction c generalizing items ds with
  | nil => cases h; cases ds with
    | nil => rfl
    | cons => simp at hl
  | @cons i k v n l hi c ih =>
    cases h with
    | @cons _ k' v' n' o os e s1 s2 =>
      have e2 := (load_ok e).2.1
      dsimp only at e2
      have hn : pairOf m i = (k.bytes, v) := by simp only [pairOf, hi]
      rw [hi] at e2; cases e2
      cases ds with
      | nil => simp at hl
      | cons d ds =>
        obtain ⟨kd, d⟩ := d
        simp only [List.map_cons, List.cons.injEq, hn] at hl
        have h1 := ih s2 ds hl.2 (fun p hp => hs p (by simp only [List.map_cons, List.zip_cons_cons]; exact List.mem_cons_of_mem _ hp))
        have h2 := hs (pairOf m i, (kd, d)) (by simp only [List.map_cons, List.zip_cons_cons]; exact List.mem_cons_self) o (by rw [hn]; exact s1)
        dsimp only at h2
        simp only [entries?, h2, h1, hl.1]
        rfl

/-- The tree at a pointer is the document that the graph of objects unfolds to. -/
theorem doc_of_unfolds {m : Mem} {L : Ref → List Ref} (h : Inv m L) (ht : m.top < 2 ^ 64) {a : Option Ref} {d : Doc}
    (u : (abs m L).Unfolds a d) : ∀ o, Shows m a o → o.doc? = some d := by
  induction u with
  | @leaf r view v hn =>
    intro o s
    change absNode m L r = _ at hn
    cases s with
    | data e =>
      have e2 := (load_ok e).2.1
      dsimp only at e2
      simp only [absNode, e2, Option.some.injEq, Node.leaf.injEq] at hn
      simp only [Obj.doc?, hn.2]; rfl
    | array e => have e2 := (load_ok e).2.1; dsimp only at e2; simp [absNode, e2] at hn
    | map e => have e2 := (load_ok e).2.1; dsimp only at e2; simp [absNode, e2] at hn
  | @seq r xs ds hn hl hs ih =>
    intro o s
    change absNode m L r = _ at hn
    cases s with
    | data e => have e2 := (load_ok e).2.1; dsimp only at e2; simp [absNode, e2] at hn
    | map e => have e2 := (load_ok e).2.1; dsimp only at e2; simp [absNode, e2] at hn
    | @array _ p hd s items e sl =>
      have e2 := (load_ok e).2.1
      dsimp only at e2
      simp only [absNode, e2, Option.some.injEq, Node.seq.injEq] at hn
      obtain ⟨hc, hsz⟩ := h.chain e2
      rw [Nat.mod_eq_of_lt (Nat.lt_of_le_of_lt (h.length_le r) ht)] at hsz
      have hx : xs.reverse = (L r).map (nodeOf m) := by rw [← hn, ← List.map_reverse, List.reverse_reverse]
      have h1 := docs_of hc sl ds.reverse (by rw [← hx]; simp [hl]) (fun p hp => by
        rw [← hx] at hp
        have := mem_zip_reverse (by simp [hl]) hp
        rw [List.reverse_reverse, List.reverse_reverse] at this
        exact ih p this)
      simp only [Obj.doc?, List.length_map, showsL_length hc sl, hsz, if_true, h1]
      rfl
  | @dict r view es ds hn hl hs ih =>
    intro o s
    change absNode m L r = _ at hn
    cases s with
    | data e => have e2 := (load_ok e).2.1; dsimp only at e2; simp [absNode, e2] at hn
    | array e => have e2 := (load_ok e).2.1; dsimp only at e2; simp [absNode, e2] at hn
    | @map _ v p hd s items e sl =>
      have e2 := (load_ok e).2.1
      dsimp only at e2
      simp only [absNode, e2, Option.some.injEq, Node.dict.injEq] at hn
      obtain ⟨hc, hsz⟩ := h.chain e2
      rw [Nat.mod_eq_of_lt (Nat.lt_of_le_of_lt (h.length_le r) ht)] at hsz
      have hx : es.reverse = (L r).map (pairOf m) := by rw [← hn.2, ← List.map_reverse, List.reverse_reverse]
      have hlen : es.length = ds.length := by simpa using congrArg List.length hl
      have h1 := entries_of hc sl ds.reverse (by rw [← hx, List.map_reverse, List.map_reverse, hl]) (fun p hp => by
        rw [← hx] at hp
        have := mem_zip_reverse (by simp [hlen]) hp
        rw [List.reverse_reverse, List.reverse_reverse] at this
        exact ih p this)
      simp only [Obj.doc?, showsL_length hc sl, hsz, if_true, h1]
      rfl

mutual
theorem Shows.unfolds {m : Mem} {L : Ref → List Ref} (h : Inv m L) : {a : Option Ref} → {o : Obj} → {d : Doc} → Shows m a o → o.doc? = some d →
    (abs m L).Unfolds a d
  | _, _, _, .null, hd => by simp [Obj.doc?] at hd
  | _, _, _, .data (r := r) (ref := ref) (dt := dt) (p := p) e, hd => by
    have e2 := (load_ok e).2.1
    dsimp only at e2
    simp only [Obj.doc?, Option.map_eq_some_iff] at hd
    obtain ⟨v, h1, rfl⟩ := hd
    exact .leaf (view := ref) (by show absNode m L r = _; simp only [absNode, e2, h1])
  | _, _, _, .array (r := r) e sl, hd => by
    have e2 := (load_ok e).2.1
    dsimp only at e2
    simp only [Obj.doc?] at hd
    split at hd
    · simp only [Option.map_eq_some_iff] at hd
      obtain ⟨ds, h1, rfl⟩ := hd
      obtain ⟨hl, hz⟩ := (ShowsL.unfolds h sl _ (h.chain e2).1).1 ds h1
      have := Store.Unfolds.seq (s := abs m L) (r := r) (xs := (L r).reverse.map (nodeOf m)) (ds := ds.reverse)
        (by show absNode m L r = _; simp only [absNode, e2]) (by simp [hl]) (fun p hp => by
          rw [List.map_reverse] at hp
          have := mem_zip_reverse (by simp [hl]) hp
          rw [List.reverse_reverse, List.reverse_reverse] at this
          exact hz p this)
      rw [List.reverse_reverse] at this
      exact this
    · cases hd
  | _, _, _, .map (r := r) (v := v) e sl, hd => by
    have e2 := (load_ok e).2.1
    dsimp only at e2
    simp only [Obj.doc?] at hd
    split at hd
    · simp only [Option.map_eq_some_iff] at hd
      obtain ⟨ds, h1, rfl⟩ := hd
      obtain ⟨hl, hz⟩ := (ShowsL.unfolds h sl _ (h.chain e2).1).2 ds h1
      have hlen : (L r).length = ds.length := by simpa using congrArg List.length hl
      have := Store.Unfolds.dict (s := abs m L) (r := r) (view := v) (es := (L r).reverse.map (pairOf m)) (ds := ds.reverse)
        (by show absNode m L r = _; simp only [absNode, e2]) (by rw [List.map_reverse, List.map_reverse, List.map_reverse, hl]) (fun p hp => by
          rw [List.map_reverse] at hp
          have := mem_zip_reverse (by simp [hlen]) hp
          rw [List.reverse_reverse, List.reverse_reverse] at this
          exact hz p this)
      rw [List.reverse_reverse] at this
      exact this
    · cases hd
theorem ShowsL.unfolds {m : Mem} {L : Ref → List Ref} (h : Inv m L) : {a : Option Ref} → {items : List (Str × Obj)} →
    ShowsL m a items → ∀ l, Chain m.cells a l →
    (∀ ds, docs? (items.map Prod.snd) = some ds → l.length = ds.length ∧ ∀ p ∈ (l.map (nodeOf m)).zip ds, (abs m L).Unfolds p.1 p.2) ∧
    (∀ ds, entries? items = some ds → (l.map (pairOf m)).map Prod.fst = ds.map Prod.fst ∧
      ∀ p ∈ (l.map (pairOf m)).zip ds, (abs m L).Unfolds p.1.2 p.2.2)
  | _, _, .nil => fun l c => by
    cases c
    exact ⟨fun ds e => by simp only [List.map_nil, docs?] at e; cases e; simp, fun ds e => by simp only [entries?] at e; cases e; simp⟩
  | _, _, .cons (i := i) (k := k) (v := v) (n := n) (o := o) (os := os) e s sl => fun l' c' => by
    have e2 := (load_ok e).2.1
    dsimp only at e2
    have hn : nodeOf m i = v := by simp only [nodeOf, e2]
    have hp : pairOf m i = (k.bytes, v) := by simp only [pairOf, e2]
    have hsplit : ∃ l, l' = i :: l ∧ Chain m.cells n l := by
      cases c' with
      | cons hi c => rw [e2] at hi; cases hi; exact ⟨_, rfl, c⟩
    obtain ⟨l, hl', c⟩ := hsplit
    rw [hl']
    have ih := ShowsL.unfolds h sl l c
    have ih1 := fun d => Shows.unfolds h (d := d) s
    constructor
    · intro ds he
      simp only [List.map_cons, docs?, bind, Option.bind_eq_some_iff, pure, Option.some.injEq] at he
      obtain ⟨d, h1, ds', h2, rfl⟩ := he
      obtain ⟨h3, h4⟩ := ih.1 _ h2
      refine ⟨by simp [h3], fun p hm => ?_⟩
      simp only [List.map_cons, List.zip_cons_cons, List.mem_cons] at hm
      rcases hm with rfl | hm
      · dsimp only; rw [hn]; exact ih1 _ h1
      · exact h4 p hm
    · intro ds he
      simp only [entries?, bind, Option.bind_eq_some_iff, pure, Option.some.injEq] at he
      obtain ⟨d, h1, ds', h2, rfl⟩ := he
      obtain ⟨h3, h4⟩ := ih.2 _ h2
      refine ⟨by simp only [List.map_cons, hp, h3], fun p hm => ?_⟩
      simp only [List.map_cons, List.zip_cons_cons, List.mem_cons] at hm
      rcases hm with rfl | hm
      · dsimp only; rw [hp]; exact ih1 _ h1
      · exact h4 p hm
end

end Bridge.Heap
