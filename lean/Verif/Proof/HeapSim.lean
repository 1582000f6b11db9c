import Verif.Proof.Heap
/-
Every call of Model/Heap.lean does what Spec/Store.lean says.
-/
set_option autoImplicit false
namespace Bridge.Heap
open Spec

/-- The child that an item holds. -/
def nodeOf (m : Mem) (i : Ref) : Option Ref :=
  match m.cells i with
  | some (.item _ v _) => v
  | _ => none

/-- The pair that an item holds. -/
def pairOf (m : Mem) (i : Ref) : Bytes × Option Ref :=
  match m.cells i with
  | some (.item k v _) => (k.bytes, v)
  | _ => ([], none)

/-- The object at an address. -/
def absNode (m : Mem) (L : Ref → List Ref) (r : Ref) : Option Node :=
  match m.cells r with
  | some (.data ref dt p) => some (.leaf ref (scalarOf ref dt p))
  | some (.cont .array _ _ _) => some (.seq ((L r).reverse.map (nodeOf m)))
  | some (.cont (.map v) _ _ _) => some (.dict v ((L r).reverse.map (pairOf m)))
  | _ => none

/-- The memory as a graph of objects. -/
def abs (m : Mem) (L : Ref → List Ref) : Store := ⟨absNode m L, m.vars⟩

theorem makeLeaf_ok {w : Cfg} {view : Bool} {v : Scalar} {o : Obj} (h : makeLeaf w view v = .ok o) :
    ∃ dt p, o = .data view dt p ∧ scalarOf view dt p = some v := by
  cases view with
  | false =>
    cases v <;> (simp only [makeLeaf, scalarVal, dataOfVal, Bool.false_eq_true, if_false] at h; cases h; exact ⟨_, _, rfl, rfl⟩)
  | true =>
    cases v with
    | bytes b =>
      simp only [makeLeaf, scalarVal, viewOfVal, if_true] at h
      split at h
      · cases h
      · cases h; exact ⟨_, _, rfl, rfl⟩
    | custom b => simp [makeLeaf, scalarVal, viewOfVal] at h
    | _ => simp only [makeLeaf, scalarVal, viewOfVal, if_true] at h; cases h; exact ⟨_, _, rfl, rfl⟩

/-- The children of a container look the same if its items hold the same. -/
theorem absNode_congr {m m' : Mem} {L L' : Ref → List Ref} {r : Ref} (hc : m'.cells r = m.cells r) (hL : L' r = L r)
    (hi : ∀ i ∈ L r, m'.cells i = m.cells i) : absNode m' L' r = absNode m L r := by
  unfold absNode
  rw [hc, hL]
  have h1 : (L r).reverse.map (nodeOf m') = (L r).reverse.map (nodeOf m) := by
    apply List.map_congr_left; intro i hm; simp only [nodeOf, hi i (List.mem_reverse.1 hm)]
  have h2 : (L r).reverse.map (pairOf m') = (L r).reverse.map (pairOf m) := by
    apply List.map_congr_left; intro i hm; simp only [pairOf, hi i (List.mem_reverse.1 hm)]
  rw [h1, h2]

theorem absNode_top {m : Mem} {L : Ref → List Ref} (h : Inv m L) : absNode m L m.top = none := by
  simp [absNode, h.topNone]

theorem store_ext {a b : Store} (h1 : ∀ r, a.node r = b.node r) (h2 : ∀ x, a.var x = b.var x) : a = b := by
  cases a; cases b; simp only [Store.mk.injEq]; exact ⟨funext h1, funext h2⟩

theorem step_eq {s s' s'' : Store} {op : Op} (h : s.Step op s') (h1 : ∀ r, s''.node r = s'.node r) (h2 : ∀ x, s''.var x = s'.var x) :
    s.Step op s'' := by
  rw [store_ext h1 h2]; exact h

theorem sim_make {m : Mem} {L : Ref → List Ref} (h : Inv m L) (d : Nat) (c : Cell) (n : Node) (ow : Ref → Option Nat)
    (hc : (∃ ref dt p, c = .data ref dt p ∧ n = .leaf ref (scalarOf ref dt p)) ∨ (∃ p, c = .cont .array p none 0 ∧ n = .seq []) ∨
      (∃ v p, c = .cont (.map v) p none 0 ∧ n = .dict v [])) :
    ∃ L', Inv { m with cells := upd m.cells m.top (some c), top := m.top + 1, owner := ow, vars := upd m.vars d (some m.top) } L' ∧
      (abs m L).Step (.make d n)
        (abs { m with cells := upd m.cells m.top (some c), top := m.top + 1, owner := ow, vars := upd m.vars d (some m.top) } L') := by
  refine ⟨L, h.make d c ow ?_, ?_⟩
  · rcases hc with ⟨_, _, _, e, _⟩ | ⟨_, e, _⟩ | ⟨_, _, e, _⟩
    · exact .inl ⟨_, _, _, e⟩
    · exact .inr ⟨_, _, e⟩
    · exact .inr ⟨_, _, e⟩
  · have := Store.Step.make (abs m L) d m.top n (absNode_top h)
    refine step_eq this ?_ ?_
    · intro r
      show absNode _ L r = put (absNode m L) m.top (some n) r
      by_cases hr : r = m.top
      · subst hr
        have hL : L m.top = [] := h.other _ (fun _ _ _ _ e => by rw [h.topNone] at e; cases e)
        rw [show put (absNode m L) m.top (some n) m.top = some n by simp [put]]
        unfold absNode
        simp only [upd_same, hL]
        rcases hc with ⟨_, _, _, rfl, rfl⟩ | ⟨_, rfl, rfl⟩ | ⟨_, _, rfl, rfl⟩ <;> rfl
      · rw [show put (absNode m L) m.top (some n) r = absNode m L r by simp [put, hr]]
        apply absNode_congr
        · exact upd_ne _ _ hr
        · rfl
        · intro i hi
          obtain ⟨_, _, _, e⟩ := h.memLt hi
          exact upd_ne _ _ (Nat.ne_of_lt (h.lt e))
    · intro x; rfl

theorem sim_ins {m : Mem} {L : Ref → List Ref} (h : Inv m L) {c : Ref} {k : Kind} {pool : Nat} {head : Option Ref} {size : Nat}
    (hc : m.cells c = some (.cont k pool head size)) (key : Str) (x : Nat) (op : Op)
    (hop1 : k = .array → op = .append c x) (hop2 : ∀ v, k = .map v → op = .add c key.bytes x) :
    ∃ L', Inv (m.ins c k pool head size key x) L' ∧ (abs m L).Step op (abs (m.ins c k pool head size key x) L') := by
  refine ⟨_, h.ins hc key x, ?_⟩
  have hne : c ≠ m.top := Nat.ne_of_lt (h.lt hc)
  have hcc : (m.ins c k pool head size key x).cells c = some (.cont k pool (some m.top) (addW size 1)) := upd_same _ _ _
  have hct : (m.ins c k pool head size key x).cells m.top = some (.item key (m.vars x) head) := by
    show upd _ _ _ _ = _
    rw [upd_ne _ _ (Ne.symm hne), upd_same]
  have hold : ∀ i, i ≠ m.top → i ≠ c → (m.ins c k pool head size key x).cells i = m.cells i := by
    intro i h1 h2
    show upd _ _ _ _ = _
    rw [upd_ne _ _ h2, upd_ne _ _ h1]
  have hitems : ∀ {r i}, i ∈ L r → (m.ins c k pool head size key x).cells i = m.cells i := by
    intro r i hi
    obtain ⟨_, _, _, e⟩ := h.memLt hi
    exact hold i (Nat.ne_of_lt (h.lt e)) (by intro e'; rw [e', hc] at e; cases e)
  have rest : ∀ r, r ≠ c → absNode (m.ins c k pool head size key x) (upd L c (m.top :: L c)) r = absNode m L r := by
    intro r hr
    by_cases ht : r = m.top
    · subst ht
      rw [absNode_top h]
      simp [absNode, hct]
    · exact absNode_congr (hold r ht hr) (upd_ne _ _ hr) (fun i hi => hitems hi)
  have hnode : (L c).reverse.map (nodeOf (m.ins c k pool head size key x)) = (L c).reverse.map (nodeOf m) := by
    apply List.map_congr_left; intro i hm; simp only [nodeOf, hitems (List.mem_reverse.1 hm)]
  have hpair : (L c).reverse.map (pairOf (m.ins c k pool head size key x)) = (L c).reverse.map (pairOf m) := by
    apply List.map_congr_left; intro i hm; simp only [pairOf, hitems (List.mem_reverse.1 hm)]
  cases k with
  | array =>
    have hop := hop1 rfl
    subst hop
    have hs := Store.Step.append (abs m L) c x ((L c).reverse.map (nodeOf m)) (by show absNode m L c = _; simp only [absNode, hc])
    refine step_eq hs ?_ ?_
    · intro r
      show absNode _ _ r = put (absNode m L) c _ r
      by_cases hr : r = c
      · subst hr
        simp only [absNode, hcc, upd_same, put, if_true, List.reverse_cons, List.map_append, hnode, List.map_cons, List.map_nil]
        rw [show nodeOf (m.ins r .array pool head size key x) m.top = m.vars x by simp only [nodeOf, hct]]
        rfl
      · rw [rest r hr]; simp [put, hr]
    · intro y; rfl
  | map v =>
    have hop := hop2 v rfl
    subst hop
    have hs := Store.Step.add (abs m L) c x key.bytes v ((L c).reverse.map (pairOf m)) (by show absNode m L c = _; simp only [absNode, hc])
    refine step_eq hs ?_ ?_
    · intro r
      show absNode _ _ r = put (absNode m L) c _ r
      by_cases hr : r = c
      · subst hr
        simp only [absNode, hcc, upd_same, put, if_true, List.reverse_cons, List.map_append, hpair, List.map_cons, List.map_nil]
        rw [show pairOf (m.ins r (.map v) pool head size key x) m.top = (key.bytes, m.vars x) by simp only [pairOf, hct]]
        rfl
      · rw [rest r hr]; simp [put, hr]
    · intro y; rfl

theorem sim_clear {m : Mem} {L : Ref → List Ref} (h : Inv m L) {c : Ref} {k : Kind} {pool : Nat} {head : Option Ref} {size : Nat}
    (hc : m.cells c = some (.cont k pool head size)) :
    ∃ L', Inv { m with cells := upd m.cells c (some (.cont k pool none 0)) } L' ∧
      (abs m L).Step (.clear c) (abs { m with cells := upd m.cells c (some (.cont k pool none 0)) } L') := by
  refine ⟨_, h.clear hc, ?_⟩
  have rest : ∀ r, r ≠ c → absNode { m with cells := upd m.cells c (some (.cont k pool none 0)) } (upd L c []) r = absNode m L r := by
    intro r hr
    refine absNode_congr (upd_ne _ _ hr) (upd_ne _ _ hr) (fun i hi => ?_)
    obtain ⟨_, _, _, e⟩ := h.memLt hi
    exact upd_ne _ _ (by intro e'; rw [e', hc] at e; cases e)
  cases k with
  | array =>
    have hs := Store.Step.clearSeq (abs m L) c ((L c).reverse.map (nodeOf m)) (by show absNode m L c = _; simp only [absNode, hc])
    refine step_eq hs ?_ ?_
    · intro r
      show absNode _ _ r = put (absNode m L) c _ r
      by_cases hr : r = c
      · subst hr; simp [absNode, put]
      · rw [rest r hr]; simp [put, hr]
    · intro y; rfl
  | map v =>
    have hs := Store.Step.clearDict (abs m L) c v ((L c).reverse.map (pairOf m)) (by show absNode m L c = _; simp only [absNode, hc])
    refine step_eq hs ?_ ?_
    · intro r
      show absNode _ _ r = put (absNode m L) c _ r
      by_cases hr : r = c
      · subst hr; simp [absNode, put]
      · rw [rest r hr]; simp [put, hr]
    · intro y; rfl

theorem sim_assign {m : Mem} {L : Ref → List Ref} (h : Inv m L) {c : Ref} {ref : Bool} {dt dt' : UInt8} {p p' : Payload} {v : Scalar}
    (hc : m.cells c = some (.data ref dt p)) (hv : scalarOf ref dt' p' = some v) :
    ∃ L', Inv { m with cells := upd m.cells c (some (.data ref dt' p')) } L' ∧
      (abs m L).Step (.assign c v) (abs { m with cells := upd m.cells c (some (.data ref dt' p')) } L') := by
  refine ⟨L, h.assign hc, ?_⟩
  have hs := Store.Step.assign (abs m L) c v ref (scalarOf ref dt p) (by show absNode m L c = _; simp only [absNode, hc])
  refine step_eq hs ?_ ?_
  · intro r
    show absNode _ _ r = put (absNode m L) c _ r
    by_cases hr : r = c
    · subst hr; simp [absNode, put, hv]
    · rw [show put (absNode m L) c _ r = absNode m L r by simp [put, hr]]
      refine absNode_congr (upd_ne _ _ hr) rfl (fun i hi => ?_)
      obtain ⟨_, _, _, e⟩ := h.memLt hi
      exact upd_ne _ _ (by intro e'; rw [e', hc] at e; cases e)
  · intro y; rfl

theorem sim_take {m m' : Mem} {L : Ref → List Ref} (h : Inv m L) {fuel d : Nat} {c : Option Ref} {key : Bytes}
    (e : m.take fuel d c key = .ok m') :
    Inv m' L ∧ ∃ r, c = some r ∧ (abs m L).Step (.take d r key) (abs m' L) := by
  obtain ⟨r, ref, pool, head, size, rfl, hc, _, hcase⟩ := take_ok h e
  refine ⟨?_, ?_⟩
  · rcases hcase with ⟨_, rfl⟩ | ⟨i, b, a, k, v, n, _, hi, _, _, rfl⟩
    · refine h.vars (upd m.vars d none) m.owner m.pools ?_ ?_
      · intro x q e
        by_cases hx : x = d
        · subst hx; rw [upd_same] at e; cases e
        · rw [upd_ne _ _ hx] at e; exact ⟨x, e⟩
      · intro x y q e e'
        have hx : x ≠ d := by intro hx; rw [hx, upd_same] at e; cases e
        have hy : y ≠ d := by intro hx; rw [hx, upd_same] at e'; cases e'
        rw [upd_ne _ _ hx] at e; rw [upd_ne _ _ hy] at e'
        exact h.oneVar e e'
    · exact h.take d hi
  · refine ⟨r, rfl, ?_⟩
    rcases hcase with ⟨hno, rfl⟩ | ⟨i, b, a, k, v, n, hL, hi, hk, hb, rfl⟩
    · have hs := Store.Step.takeNothing (abs m L) d r key ref ((L r).reverse.map (pairOf m)) (by show absNode m L r = _; simp only [absNode, hc])
        (by
          intro e he
          obtain ⟨i, hi, rfl⟩ := List.mem_map.1 he
          have hi := List.mem_reverse.1 hi
          obtain ⟨k, v, n, hci⟩ := h.memLt hi
          simp only [pairOf, hci]
          exact hno i hi _ _ _ hci)
      exact hs
    · have hnd : (L r).Nodup := (h.chain hc).1.nodup
      have hs := Store.Step.take (abs m L) d r key ref (a.reverse.map (pairOf m)) (b.reverse.map (pairOf m)) v
        (by
          show absNode m L r = _
          simp only [absNode, hc, hL, List.reverse_append, List.reverse_cons, List.append_assoc, List.map_append, List.map_cons, List.map_nil,
            List.cons_append, List.nil_append]
          rw [show pairOf m i = (key, v) by simp only [pairOf, hi, hk]])
        (by
          intro e he
          obtain ⟨j, hj, rfl⟩ := List.mem_map.1 he
          have hj := List.mem_reverse.1 hj
          obtain ⟨k', v', n', hcj⟩ := h.memLt (show j ∈ L r by rw [hL]; simp [hj])
          simp only [pairOf, hcj]
          exact hb j hj _ _ _ hcj)
      refine step_eq hs ?_ ?_
      · intro q
        show absNode _ _ q = put (absNode m L) r _ q
        by_cases hq : q = r
        · subst hq
          have hqi : q ≠ i := by intro e'; rw [e', hi] at hc; cases hc
          rw [hL] at hnd
          have hnd' := List.nodup_append.1 hnd
          have pb : (b.reverse).map (pairOf { m with cells := upd m.cells i (some (.item k none n)), vars := upd m.vars d v }) = b.reverse.map (pairOf m) := by
            apply List.map_congr_left; intro j hj
            have : j ≠ i := fun e => hnd'.2.2 j (List.mem_reverse.1 hj) i (by simp) e
            simp only [pairOf, upd_ne _ _ this]
          have pa : (a.reverse).map (pairOf { m with cells := upd m.cells i (some (.item k none n)), vars := upd m.vars d v }) = a.reverse.map (pairOf m) := by
            apply List.map_congr_left; intro j hj
            have : j ≠ i := fun e => (List.nodup_cons.1 hnd'.2.1).1 (e ▸ List.mem_reverse.1 hj)
            simp only [pairOf, upd_ne _ _ this]
          simp only [absNode, upd_ne _ _ hqi, hc, hL, put, if_true, List.reverse_append, List.reverse_cons, List.append_assoc, List.map_append,
            List.map_cons, List.map_nil, List.cons_append, List.nil_append, pa, pb]
          rw [show pairOf { m with cells := upd m.cells i (some (.item k none n)), vars := upd m.vars d v } i = (key, none) by
            simp only [pairOf, upd_same, hk]]
        · rw [show put (absNode m L) r _ q = absNode m L q by simp [put, hq]]
          by_cases hqi : q = i
          · subst hqi; simp [absNode, hi]
          · refine absNode_congr (upd_ne _ _ hqi) rfl (fun j hj => ?_)
            apply upd_ne
            intro e'
            subst e'
            exact hq (h.disj hj (show j ∈ L r by rw [hL]; simp))
      · intro y; rfl

theorem sim_vars {m : Mem} {L : Ref → List Ref} (h : Inv m L) (vars : Nat → Option Ref) (ow : Ref → Option Nat) (pl : Nat → Bool)
    (hv : ∀ x r, vars x = some r → ∃ y, m.vars y = some r) (h1 : ∀ x y r, vars x = some r → vars y = some r → x = y) :
    Inv { m with vars := vars, owner := ow, pools := pl } L ∧
      abs { m with vars := vars, owner := ow, pools := pl } L = ⟨(abs m L).node, vars⟩ :=
  ⟨h.vars vars ow pl hv h1, rfl⟩

theorem sim_pool {m : Mem} {L : Ref → List Ref} (h : Inv m L) (ow : Ref → Option Nat) (pl : Nat → Bool) (nx : Nat) :
    ∃ L', Inv { m with owner := ow, pools := pl, nextPool := nx } L' ∧
      (abs m L).Step .other (abs { m with owner := ow, pools := pl, nextPool := nx } L') := by
  refine ⟨L, ⟨h.fresh, h.chain, h.other, h.disj, h.varObj, h.nodeObj, h.oneItem, h.oneVar, h.notBoth⟩, ?_⟩
  have e : abs { m with owner := ow, pools := pl, nextPool := nx } L = abs m L := rfl
  rw [e]
  exact .other _

theorem make_ok {m m' : Mem} {d p : Nat} {c : Cell} (h : m.make d p c = .ok m') :
    m.pools p = true ∧
    m' = { m with cells := upd m.cells m.top (some c), top := m.top + 1, owner := upd m.owner m.top (some p), vars := upd m.vars d (some m.top) } := by
  unfold Mem.make at h
  obtain ⟨q, h1, h2⟩ := bind_ok h
  obtain ⟨e1, e2⟩ := alloc_ok h1
  subst e1; cases h2
  exact ⟨e2, rfl⟩

theorem assign_ok {w : Cfg} {m m' : Mem} {c : Option Ref} {v : Scalar} (h : m.assign w c v = .ok m') :
    ∃ r ref dt p dt' p', c = some r ∧ m.cells r = some (.data ref dt p) ∧ m.owner r ≠ none ∧ scalarOf ref dt' p' = some v ∧
      m' = { m with cells := upd m.cells r (some (.data ref dt' p')) } := by
  unfold Mem.assign at h
  obtain ⟨⟨r, cell⟩, h1, h2⟩ := bind_ok h
  obtain ⟨e1, e2, e3⟩ := load_ok h1
  dsimp only at h2 e1 e2 e3
  cases cell with
  | cont => simp at h2
  | item => simp at h2
  | data ref dt p =>
    dsimp only at h2
    obtain ⟨o, h3, h4⟩ := bind_ok h2
    obtain ⟨dt', p', rfl, hs⟩ := makeLeaf_ok h3
    cases h4
    refine ⟨r, ref, dt, p, dt', p', e1, e2, e3, hs, ?_⟩
    simp only [Mem.modify, e2, Option.map]

theorem serialize_call {w : Cfg} {fuel : Nat} {m m' : Mem} {t : SeriType} {p x : Nat} (h : m.exec w fuel (.serialize t p x) = .ok m') :
    m.pools p = true ∧
    m' = { m with cells := upd m.cells m.top (some (.item ⟨rootKey, none⟩ (m.vars x) none)), top := m.top + 1, owner := upd m.owner m.top (some p), vars := upd m.vars x none } := by
  unfold Mem.exec at h
  obtain ⟨q, h1, h2⟩ := bind_ok h
  obtain ⟨e1, e2⟩ := rootInsert_ok h1
  refine ⟨e1, ?_⟩
  subst e2
  dsimp only at h2
  split at h2
  · cases h2; rfl
  · cases h2; rfl
  · cases h2

end Bridge.Heap
