import Verif.Proof.HeapObs
/-
Objects in memory as trees: an object owned by a variable is always the root of a finite tree, and serialization and dump along the
pointers give what Model/Seri.lean and Model/Dump.lean give for that tree.
-/
set_option autoImplicit false
namespace Bridge.Heap
open Spec

/-- Is the pool that a container refers to within its lifetime? -/
def Mem.poolRef (m : Mem) (p : Nat) : PoolRef := if m.pools p then .caller else .frame

mutual
/-- The pointer leads to the tree `o` (in the sense of Model/Object.lean) and all of it can be read. -/
inductive Shows (m : Mem) : Option Ref → Obj → Prop
  | null : Shows m none .null
  | data {r : Ref} {ref : Bool} {dt : UInt8} {p : Payload} : m.load (some r) = .ok (r, .data ref dt p) →
      Shows m (some r) (.data ref dt p)
  | array {r : Ref} {p : Nat} {hd : Option Ref} {s : Nat} {items : List (Str × Obj)} :
      m.load (some r) = .ok (r, .cont .array p hd s) → ShowsL m hd items →
      Shows m (some r) (.array (m.poolRef p) s (items.map Prod.snd))
  | map {r : Ref} {v : Bool} {p : Nat} {hd : Option Ref} {s : Nat} {items : List (Str × Obj)} :
      m.load (some r) = .ok (r, .cont (.map v) p hd s) → ShowsL m hd items →
      Shows m (some r) (.map v (m.poolRef p) s items)
/-- The items from a pointer on. -/
inductive ShowsL (m : Mem) : Option Ref → List (Str × Obj) → Prop
  | nil : ShowsL m none []
  | cons {i : Ref} {k : Str} {v n : Option Ref} {o : Obj} {os : List (Str × Obj)} : m.load (some i) = .ok (i, .item k v n) →
      Shows m v o → ShowsL m n os → ShowsL m (some i) ((k, o) :: os)
end

/-! ### paths -/

/-- `c` is a child of `p`. -/
def Child (m : Mem) (L : Ref → List Ref) (p c : Ref) : Prop := ∃ i ∈ L p, nodeOf m i = some c

/-- The objects on the way from `r` to the first element of the list. -/
inductive Path (m : Mem) (L : Ref → List Ref) (r : Ref) : List Ref → Prop
  | start : Path m L r [r]
  | step {p c : Ref} {l : List Ref} : Path m L r (p :: l) → Child m L p c → Path m L r (c :: p :: l)

theorem nodeOf_item {m : Mem} {i c : Ref} (h : nodeOf m i = some c) : ∃ k n, m.cells i = some (.item k (some c) n) := by
  unfold nodeOf at h
  split at h
  · rename_i k v n e
    subst h
    exact ⟨k, n, e⟩
  · cases h

theorem Child.unique {m : Mem} {L : Ref → List Ref} (h : Inv m L) {p p' c : Ref} (h1 : Child m L p c) (h2 : Child m L p' c) : p = p' := by
  obtain ⟨i, hi, e⟩ := h1
  obtain ⟨j, hj, e'⟩ := h2
  obtain ⟨k, n, e⟩ := nodeOf_item e
  obtain ⟨k', n', e'⟩ := nodeOf_item e'
  have := h.oneItem e e'
  subst this
  exact h.disj hi hj

theorem Child.notVar {m : Mem} {L : Ref → List Ref} (h : Inv m L) {p c : Ref} {x : Nat} (h1 : Child m L p c) : m.vars x ≠ some c := by
  obtain ⟨i, hi, e⟩ := h1
  obtain ⟨k, n, e⟩ := nodeOf_item e
  intro hx
  exact h.notBoth hx e

theorem Child.obj {m : Mem} {L : Ref → List Ref} (h : Inv m L) {p c : Ref} (h1 : Child m L p c) : ∃ d, m.cells c = some d ∧ d.isObj = true := by
  obtain ⟨i, hi, e⟩ := h1
  obtain ⟨k, n, e⟩ := nodeOf_item e
  exact h.nodeObj e

theorem Path.parent {m : Mem} {L : Ref → List Ref} {r : Ref} {l : List Ref} (p : Path m L r l) {c : Ref} (hc : c ∈ l) :
    c = r ∨ ∃ a q b, l = a ++ c :: q :: b ∧ Child m L q c := by
  induction p with
  | start => simp at hc; exact .inl hc
  | @step q d l p hch ih =>
    rcases List.mem_cons.1 hc with rfl | hc
    · exact .inr ⟨[], q, l, rfl, hch⟩
    · rcases ih hc with h | ⟨a, q', b, e, h⟩
      · exact .inl h
      · exact .inr ⟨d :: a, q', b, by rw [e]; rfl, h⟩

theorem Path.nodup {m : Mem} {L : Ref → List Ref} (h : Inv m L) {r : Ref} (hr : ∀ p, ¬ Child m L p r) {l : List Ref} (p : Path m L r l) :
    l.Nodup := by
  induction p with
  | start => simp
  | @step q d l p hch ih =>
    refine List.nodup_cons.2 ⟨fun hm => ?_, ih⟩
    rcases p.parent hm with rfl | ⟨a, q', b, e, h1⟩
    · exact hr _ hch
    · have hq := Child.unique h hch h1
      subst hq
      cases a with
      | nil =>
        simp only [List.nil_append, List.cons.injEq] at e
        obtain ⟨rfl, rfl⟩ := e
        simp at ih
      | cons x a =>
        simp only [List.cons_append, List.cons.injEq] at e
        obtain ⟨rfl, rfl⟩ := e
        simp at ih

theorem Path.obj {m : Mem} {L : Ref → List Ref} (h : Inv m L) {r : Ref} (hr : ∃ d, m.cells r = some d ∧ d.isObj = true) {l : List Ref}
    (p : Path m L r l) : ∀ c ∈ l, ∃ d, m.cells c = some d ∧ d.isObj = true := by
  induction p with
  | start => intro c hc; simp at hc; rw [hc]; exact hr
  | @step q d l p hch ih =>
    intro c hc
    rcases List.mem_cons.1 hc with rfl | hc
    · exact hch.obj h
    · exact ih c hc

theorem showsL_of_chain {m : Mem} {hd : Option Ref} {l : List Ref} (c : Chain m.cells hd l) (ho : ∀ i ∈ l, m.owner i ≠ none)
    (hs : ∀ i ∈ l, ∃ o, Shows m (nodeOf m i) o) : ∃ items, ShowsL m hd items := by
  induction c with
  | nil => exact ⟨_, .nil⟩
  | @cons i k v n l hi c ih =>
    obtain ⟨os, h1⟩ := ih (fun j hj => ho j (List.mem_cons_of_mem _ hj)) (fun j hj => hs j (List.mem_cons_of_mem _ hj))
    obtain ⟨o, h2⟩ := hs i List.mem_cons_self
    rw [show nodeOf m i = v by simp only [nodeOf, hi]] at h2
    exact ⟨_, .cons (load_eq hi (ho i List.mem_cons_self)) h2 h1⟩

/-- An object without an owner among the items is the root of a finite tree, if all of it can be read. -/
theorem shows_of_root {m : Mem} {L : Ref → List Ref} (h : Inv m L) {r : Ref} (hr : ∀ p, ¬ Child m L p r)
    (ho : ∃ d, m.cells r = some d ∧ d.isObj = true)
    (hl : ∀ c l, Path m L r (c :: l) → m.owner c ≠ none ∧ ∀ i ∈ L c, m.owner i ≠ none) : ∃ o, Shows m (some r) o := by
  have key : ∀ n c l, Path m L r (c :: l) → m.top < (c :: l).length + n → ∃ o, Shows m (some c) o := by
    intro n
    induction n with
    | zero =>
      intro c l p hlen
      have h1 := nodup_bound m.top (c :: l) (p.nodup h hr) (fun i hi => by
        obtain ⟨d, e, _⟩ := p.obj h ho i hi
        exact h.lt e)
      omega
    | succ n ih =>
      intro c l p hlen
      obtain ⟨d, e, hd⟩ := p.obj h ho c List.mem_cons_self
      obtain ⟨o1, o2⟩ := hl c l p
      cases d with
      | item => cases hd
      | data ref dt q => exact ⟨_, .data (load_eq e o1)⟩
      | cont k q hd' s =>
        have hch := (h.chain e).1
        obtain ⟨items, hi⟩ := showsL_of_chain hch o2 (fun i hi => by
          cases hn : nodeOf m i with
          | none => exact ⟨_, .null⟩
          | some c' => exact ih c' (c :: l) (.step p ⟨i, hi, hn⟩) (by simp only [List.length_cons] at hlen ⊢; omega))
        cases k with
        | array => exact ⟨_, .array (load_eq e o1) hi⟩
        | map v => exact ⟨_, .map (load_eq e o1) hi⟩
  exact key (m.top + 1) r [] .start (by simp only [List.length_cons, List.length_nil]; omega)

/-! ### determinism and monotonicity -/

theorem load_fst {m : Mem} {r : Option Ref} {q : Ref × Cell} (h : m.load r = .ok q) : r = some q.1 := (load_ok h).1

mutual
theorem Shows.unique {m : Mem} : {r : Option Ref} → {o o' : Obj} → Shows m r o → Shows m r o' → o = o'
  | _, _, _, .null, .null => rfl
  | _, _, _, .data h1, h => by
    cases h with
    | data h2 => rw [h1] at h2; cases h2; rfl
    | array h2 _ => rw [h1] at h2; cases h2
    | map h2 _ => rw [h1] at h2; cases h2
  | _, _, _, .array h1 l1, h => by
    cases h with
    | data h2 => rw [h1] at h2; cases h2
    | array h2 l2 => rw [h1] at h2; cases h2; rw [ShowsL.unique l1 l2]
    | map h2 _ => rw [h1] at h2; cases h2
  | _, _, _, .map h1 l1, h => by
    cases h with
    | data h2 => rw [h1] at h2; cases h2
    | array h2 l2 => rw [h1] at h2; cases h2
    | map h2 l2 => rw [h1] at h2; cases h2; rw [ShowsL.unique l1 l2]
theorem ShowsL.unique {m : Mem} : {r : Option Ref} → {o o' : List (Str × Obj)} → ShowsL m r o → ShowsL m r o' → o = o'
  | _, _, _, .nil, .nil => rfl
  | _, _, _, .cons h1 s1 l1, h => by
    cases h with
    | cons h2 s2 l2 => rw [h1] at h2; cases h2; rw [Shows.unique s1 s2, ShowsL.unique l1 l2]
end

mutual
theorem Shows.mono {m m' : Mem} (hl : ∀ r q, m.load (some r) = .ok q → m'.load (some r) = .ok q) (hp : ∀ p, m'.poolRef p = m.poolRef p) :
    {r : Option Ref} → {o : Obj} → Shows m r o → Shows m' r o
  | _, _, .null => .null
  | _, _, .data h => .data (hl _ _ h)
  | _, _, .array h l => by rw [← hp]; exact .array (hl _ _ h) (ShowsL.mono hl hp l)
  | _, _, .map h l => by rw [← hp]; exact .map (hl _ _ h) (ShowsL.mono hl hp l)
theorem ShowsL.mono {m m' : Mem} (hl : ∀ r q, m.load (some r) = .ok q → m'.load (some r) = .ok q) (hp : ∀ p, m'.poolRef p = m.poolRef p) :
    {r : Option Ref} → {o : List (Str × Obj)} → ShowsL m r o → ShowsL m' r o
  | _, _, .nil => .nil
  | _, _, .cons h s l => .cons (hl _ _ h) (Shows.mono hl hp s) (ShowsL.mono hl hp l)
end

/-! ### serialization -/

theorem loadItem_of {m : Mem} {i : Ref} {k : Str} {v n : Option Ref} (h : m.load (some i) = .ok (i, .item k v n)) :
    m.loadItem (some i) = .ok (i, k, v, n) := by
  unfold Mem.loadItem; rw [h]; rfl

theorem seriChild_shows {m : Mem} {r : Option Ref} {o : Obj} (h : Shows m r o) (vs : SState → Res (SState × Bool)) (st : SState) :
    m.seriChild r vs st = Bridge.seriChild o vs st := by
  cases h with
  | null => rfl
  | data h => unfold Mem.seriChild Bridge.seriChild; rw [h, ok_bind]; rfl
  | array h _ => unfold Mem.seriChild Bridge.seriChild; rw [h, ok_bind]; rfl
  | map h _ => unfold Mem.seriChild Bridge.seriChild; rw [h, ok_bind]; rfl

mutual
theorem Shows.seri (cfg : Cfg) {m : Mem} : {r : Option Ref} → {o : Obj} → Shows m r o →
    ∃ N, ∀ fuel, N ≤ fuel → ∀ st, m.valueSeri cfg fuel r st = Bridge.valueSeri cfg o st
  | _, _, .null => ⟨1, fun fuel hf st => by
      cases fuel with
      | zero => omega
      | succ f => simp only [Mem.valueSeri, Bridge.valueSeri]; rfl⟩
  | _, _, .data h => ⟨1, fun fuel hf st => by
      cases fuel with
      | zero => omega
      | succ f => simp only [Mem.valueSeri, Bridge.valueSeri]; rw [h, ok_bind]⟩
  | _, _, .array h l => by
      obtain ⟨N, hN⟩ := ShowsL.seri cfg l
      refine ⟨N + 1, fun fuel hf st => ?_⟩
      cases fuel with
      | zero => omega
      | succ f =>
        simp only [Mem.valueSeri, Bridge.valueSeri]
        rw [h, ok_bind]
        dsimp only
        simp only [decide_true, (hN f (by omega) _ _ _).1]
  | _, _, .map (v := v) h l => by
      obtain ⟨N, hN⟩ := ShowsL.seri cfg l
      refine ⟨N + 1, fun fuel hf st => ?_⟩
      cases fuel with
      | zero => omega
      | succ f =>
        simp only [Mem.valueSeri, Bridge.valueSeri]
        rw [h, ok_bind]
        dsimp only
        simp only [reduceCtorEq, decide_false, (hN f (by omega) _ _ _).2]
theorem ShowsL.seri (cfg : Cfg) {m : Mem} : {r : Option Ref} → {os : List (Str × Obj)} → ShowsL m r os →
    ∃ N, ∀ fuel, N ≤ fuel → ∀ st cur bl, m.seriLoop cfg true fuel r st cur bl = Bridge.seriItems cfg (os.map Prod.snd) st cur bl ∧
      m.seriLoop cfg false fuel r st cur bl = Bridge.seriKVs cfg os st cur bl
  | _, _, .nil => ⟨0, fun fuel _ st cur bl => by cases fuel <;> exact ⟨by simp [Mem.seriLoop, seriItems], by simp [Mem.seriLoop, seriKVs]⟩⟩
  | _, _, .cons h s l => by
      obtain ⟨N, hN⟩ := Shows.seri cfg s
      obtain ⟨N', hN'⟩ := ShowsL.seri cfg l
      refine ⟨N + N' + 1, fun fuel hf st cur bl => ?_⟩
      cases fuel with
      | zero => omega
      | succ f =>
        have e1 : m.valueSeri cfg f _ = Bridge.valueSeri cfg _ := funext fun st => hN f (by omega) st
        constructor
        · simp only [Mem.seriLoop, List.map_cons, seriItems]
          rw [loadItem_of h, ok_bind]
          dsimp only
          simp only [if_true, ok_bind, e1, seriChild_shows s, (hN' f (by omega) _ _ _).1]
        · simp only [Mem.seriLoop, seriKVs]
          rw [loadItem_of h, ok_bind]
          dsimp only
          simp only [Bool.false_eq_true, if_false, e1, seriChild_shows s, (hN' f (by omega) _ _ _).2]
end

mutual
theorem Shows.dump {m : Mem} : {r : Option Ref} → {o : Obj} → Shows m r o →
    ∃ N, ∀ fuel, N ≤ fuel → ∀ buf level, m.dump fuel r buf level = o.dump buf level
  | _, _, .null => ⟨1, fun fuel hf buf level => by
      cases fuel with
      | zero => omega
      | succ f => simp only [Mem.dump, Obj.dump]; rfl⟩
  | _, _, .data h => ⟨1, fun fuel hf buf level => by
      cases fuel with
      | zero => omega
      | succ f => simp only [Mem.dump, Obj.dump]; rw [h, ok_bind]⟩
  | _, _, .array h l => by
      obtain ⟨N, hN⟩ := ShowsL.dump l
      refine ⟨N + 1, fun fuel hf buf level => ?_⟩
      cases fuel with
      | zero => omega
      | succ f =>
        simp only [Mem.dump, Obj.dump]
        rw [h, ok_bind]
        dsimp only
        simp only [if_true, ok_bind, decide_true, (hN f (by omega) _ _ _).1, Cell.objType]
  | _, _, .map (v := v) h l => by
      obtain ⟨N, hN⟩ := ShowsL.dump l
      refine ⟨N + 1, fun fuel hf buf level => ?_⟩
      cases fuel with
      | zero => omega
      | succ f =>
        simp only [Mem.dump, Obj.dump]
        rw [h, ok_bind]
        dsimp only
        simp only [reduceCtorEq, if_false, decide_false, (hN f (by omega) _ _ _).2, Cell.objType]
theorem ShowsL.dump {m : Mem} : {r : Option Ref} → {os : List (Str × Obj)} → ShowsL m r os →
    ∃ N, ∀ fuel, N ≤ fuel → ∀ kp buf level, m.dumpLoop true kp fuel r buf level = Bridge.dumpItems (os.map Prod.snd) buf level ∧
      m.dumpLoop false kp fuel r buf level = Bridge.dumpEntries os kp buf level
  | _, _, .nil => ⟨0, fun fuel _ kp buf level => by cases fuel <;> exact ⟨by simp [Mem.dumpLoop, dumpItems], by simp [Mem.dumpLoop, dumpEntries]⟩⟩
  | _, _, .cons h s l => by
      obtain ⟨N, hN⟩ := Shows.dump s
      obtain ⟨N', hN'⟩ := ShowsL.dump l
      refine ⟨N + N' + 1, fun fuel hf kp buf level => ?_⟩
      cases fuel with
      | zero => omega
      | succ f =>
        constructor
        · simp only [Mem.dumpLoop, List.map_cons, dumpItems]
          rw [loadItem_of h, ok_bind]
          dsimp only
          simp only [if_true, hN f (by omega), (hN' f (by omega) kp _ _).1]
        · simp only [Mem.dumpLoop, dumpEntries]
          rw [loadItem_of h, ok_bind]
          dsimp only
          simp only [Bool.false_eq_true, if_false, hN f (by omega), (hN' f (by omega) _ _ _).2]
end

end Bridge.Heap
