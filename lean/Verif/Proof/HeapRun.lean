import Verif.Proof.HeapRoot
/-
Every call of Model/Heap.lean does what Spec/Store.lean says.
-/
set_option autoImplicit false
namespace Bridge.Heap
open Spec

/-- The operation that a call stands for; `Parse` stands for what the parser of Model/Parse.lean makes of the content, and for nothing if
it throws. -/
def Call.op (w : Cfg) (fuel : Nat) : Call → Op
  | .leaf d _ view v => .make d (.leaf view (some v))
  | .emptyLeaf d _ view => .make d (.leaf view none)
  | .cont d _ .array => .make d (.seq [])
  | .cont d _ (.map v) => .make d (.dict v [])
  | .move d x => .move d x
  | .assign (some c) v => .assign c v
  | .insert (some c) x => .append c x
  | .insertKey (some c) k x => .add c k.bytes x
  | .clear _ (some c) => .clear c
  | .take d (some c) k => .take d c k
  | .serialize _ _ x => .consume x
  | .parse d _ ref content =>
    match Bridge.parse w ⟨false, ref, 1⟩ fuel content with
    | .ok o => .parse d ref o.doc?
    | .error _ => .other
  | _ => .other

theorem nodeOf_pairOf (m : Mem) (i : Ref) : (pairOf m i).2 = nodeOf m i := by
  unfold pairOf nodeOf
  cases m.cells i with
  | none => rfl
  | some c => cases c <;> rfl

/-- The children of an object in memory. -/
theorem absNode_children {m : Mem} {L : Ref → List Ref} {r : Ref} {n : Node} (h : absNode m L r = some n) :
    n.children = [] ∨ n.children = (L r).reverse.map (nodeOf m) := by
  unfold absNode at h
  split at h
  · cases h; exact .inl rfl
  · cases h; exact .inr rfl
  · cases h
    refine .inr ?_
    simp only [Node.children, List.map_map]
    apply List.map_congr_left
    intro i _
    exact nodeOf_pairOf m i
  · cases h

theorem child_of {m : Mem} {L : Ref → List Ref} {r : Ref} {n : Node} (h : absNode m L r = some n) {i : Nat} {c : Nat}
    (hc : n.children[i]? = some (some c)) : ∃ it, (L r).reverse[i]? = some it ∧ nodeOf m it = some c := by
  rcases absNode_children h with e | e
  · rw [e] at hc; simp at hc
  · rw [e, List.getElem?_map] at hc
    cases hx : (L r).reverse[i]? with
    | none => rw [hx] at hc; cases hc
    | some it =>
      rw [hx] at hc
      simp only [Option.map_some, Option.some.injEq] at hc
      exact ⟨it, rfl, hc⟩

/-- `Parse` does what its operation says. -/
theorem sim_parse {m m' m1 : Mem} {d p : Nat} {D : Nat → Prop} {ref : Bool} {fuel : Nat} {o : Obj} {root : Nat}
    (hp : Parsed m m' d p D ref fuel o m1 root) {L : Ref → List Ref}
    (hi : Inv m L) : ∃ L', Inv m' L' ∧ (abs m L).Step (.parse d ref o.doc?) (abs m' L') := by
  obtain ⟨L2, hl, hi', _⟩ := hp.inv hi
  obtain ⟨_, htop, _, etop, hvars, hcells, _, hnew, hfresh⟩ := hp.effect
  obtain ⟨L', hL'⟩ : ∃ L' : Ref → List Ref, L' = fun c => L c ++ L2 c := ⟨_, rfl⟩
  rw [← hL'] at hi'
  have happ : ∀ c, L' c = L c ++ L2 c := fun c => by rw [hL']
  refine ⟨L', hi', ?_⟩
  have hold : ∀ r : Nat, r < m.top → absNode m' L' r = absNode m L r := by
    intro r hr
    refine absNode_congr (hcells r hr) ?_ fun i hm => ?_
    · rw [happ, hl.out (show ¬ (m.top ≤ r ∧ r < m1.top) by omega), List.append_nil]
    · obtain ⟨_, _, _, e⟩ := hi.memLt hm
      exact hcells i (hi.lt e)
  have hfr : ∀ r : Nat, m.top ≤ r → (abs m L).node r = none := by
    intro r hr
    show absNode m L r = none
    unfold absNode
    rw [hi.fresh r hr]
  have hge : ∀ r n, (abs m L).node r = none → (abs m' L').node r = some n → m.top ≤ r ∧ r < m'.top := by
    intro r n h1 h2
    constructor
    · apply Classical.byContradiction
      intro h
      change absNode m' L' r = _ at h2
      rw [hold r (Nat.not_le.1 h)] at h2
      change absNode m L r = _ at h1
      rw [h1] at h2; cases h2
    · apply Classical.byContradiction
      intro h
      change absNode m' L' r = _ at h2
      unfold absNode at h2
      rw [hfresh r (Nat.not_lt.1 h)] at h2; cases h2
  have Lnew : ∀ r : Nat, m.top ≤ r → L r ++ L2 r = L2 r := by
    intro r hr
    rw [hi.other r (fun k q hd s e => by rw [hi.fresh r hr] at e; cases e), List.nil_append]
  refine .parse _ _ d ref o.doc? ?_ hvars ?_ ?_ ?_ ?_ ?_
  · intro r n e
    change absNode m L r = _ at e
    show absNode m' L' r = _
    have hr : r < m.top := by
      apply Classical.byContradiction
      intro h
      have := hfr r (Nat.not_lt.1 h)
      change absNode m L r = _ at this
      rw [this] at e; cases e
    rw [hold r hr, e]
  · intro r n h1 h2
    obtain ⟨g1, g2⟩ := hge r n h1 h2
    change absNode m' L' r = _ at h2
    constructor
    · unfold absNode at h2
      cases hc : m'.cells r with
      | none => rw [hc] at h2; cases h2
      | some c =>
      obtain ⟨_, hcl⟩ := hnew r c g1 hc
      rw [hc] at h2
      cases c with
      | data v dt pl => cases h2; exact hcl
      | cont k q hd s =>
        cases k with
        | array => cases h2; trivial
        | map v => cases h2; exact hcl.1
      | item => cases h2
    · intro c hc
      obtain ⟨i, hi1⟩ := List.getElem?_of_mem hc
      obtain ⟨it, k1, k2⟩ := child_of h2 hi1
      have hm : it ∈ L' r := List.mem_reverse.1 (List.mem_of_getElem? k1)
      rw [happ, Lnew r g1] at hm
      have hin := (hl.inside it r hm).1
      obtain ⟨k, nx, e⟩ := nodeOf_item k2
      refine hfr c ?_
      -- the child of a new item is new
      rcases hp.after with e1 | ⟨t, t1, k', n', q1, q2, q3, e1⟩
      · subst e1
        exact (hl.nodeObj it c k nx hin.1 hin.2 e).1.1
      · subst e1
        by_cases h : it = t1
        · subst h
          change (m1.modify it (Cell.setNode none)).cells it = _ at e
          rw [modify_same q3] at e; cases e
        · change (m1.modify t1 (Cell.setNode none)).cells it = _ at e
          rw [modify_ne h] at e
          exact (hl.nodeObj it c k nx hin.1 hin.2 e).1.1
  · intro r r' n n' i j c _ _ h1 h2 h3 h4
    obtain ⟨it, k1, k2⟩ := child_of h1 h3
    obtain ⟨jt, k3, k4⟩ := child_of h2 h4
    obtain ⟨_, _, e1⟩ := nodeOf_item k2
    obtain ⟨_, _, e2⟩ := nodeOf_item k4
    have he := hi'.oneItem e1 e2
    subst he
    have m1 := List.mem_reverse.1 (List.mem_of_getElem? k1)
    have m2 := List.mem_reverse.1 (List.mem_of_getElem? k3)
    have hr : r = r' := hi'.disj m1 m2
    subst hr
    refine ⟨rfl, ?_⟩
    have hnd : (L' r).Nodup := by
      by_cases hc : ∃ k q hd s, m'.cells r = some (.cont k q hd s)
      · obtain ⟨k, q, hd, s, hc⟩ := hc
        exact (hi'.chain hc).1.nodup
      · rw [hi'.other r (fun k q hd s e => hc ⟨k, q, hd, s, e⟩)]; simp
    have hnd' : ((L' r).reverse).Nodup := List.pairwise_reverse.2 (hnd.imp fun h => Ne.symm h)
    exact (List.getElem?_inj (List.getElem?_eq_some_iff.1 k1).1 hnd').1 (k1.trans k3.symm)
  · intro r n c h1 h2 h3
    obtain ⟨i, hi1⟩ := List.getElem?_of_mem h3
    obtain ⟨it, k1, k2⟩ := child_of h2 hi1
    obtain ⟨_, _, e1⟩ := nodeOf_item k2
    exact hi'.notBoth h1 e1
  · intro h
    rcases hp.value with ⟨_, h1⟩ | ⟨r, q, h1, _, h2⟩
    · exact h1
    · rw [h2] at h; cases h
  · intro x hx
    rcases hp.value with ⟨h0, h1⟩ | ⟨r, q, h1, h3, h2⟩
    · rw [h0] at hx; cases hx
    · refine ⟨r, hfr r h3, h1, ?_⟩
      have := hp.shows.unfolds hi' hx
      rw [h1] at this
      exact this

/-- Every call that returns does what its operation says. -/
theorem sim_exec {w : Cfg} {fuel : Nat} {m m' : Mem} {L : Ref → List Ref} (h : Inv m L) {c : Call} (e : m.exec w fuel c = .ok m') :
    ∃ L', Inv m' L' ∧ (abs m L).Step (c.op w fuel) (abs m' L') := by
  cases c with
  | newPool p =>
    simp only [Mem.exec] at e
    split at e
    · cases e
    · cases e; exact sim_pool h _ _ _
  | clearPool p =>
    simp only [Mem.exec] at e
    split at e
    · cases e; exact sim_pool h _ _ _
    · cases e
  | destroyPool p =>
    simp only [Mem.exec] at e
    split at e
    · cases e; exact sim_pool h _ _ _
    · cases e
  | mergePool p q =>
    simp only [Mem.exec] at e
    split at e
    · cases e; exact sim_pool h _ _ _
    · cases e
  | movePool p q =>
    simp only [Mem.exec] at e
    split at e
    · cases e; exact sim_pool h _ _ _
    · cases e
  | assignPool p q =>
    simp only [Mem.exec] at e
    split at e
    · cases e; exact sim_pool h _ _ _
    · cases e
  | leaf d p view v =>
    simp only [Mem.exec] at e
    obtain ⟨o, h1, h2⟩ := bind_ok e
    obtain ⟨dt, pl, rfl, hs⟩ := makeLeaf_ok h1
    obtain ⟨_, rfl⟩ := make_ok h2
    exact sim_make h d _ _ _ (.inl ⟨_, _, _, rfl, by rw [hs]⟩)
  | emptyLeaf d p view =>
    simp only [Mem.exec] at e
    obtain ⟨_, rfl⟩ := make_ok e
    exact sim_make h d _ _ _ (.inl ⟨_, _, _, rfl, rfl⟩)
  | cont d p k =>
    simp only [Mem.exec] at e
    obtain ⟨_, rfl⟩ := make_ok e
    cases k with
    | array => exact sim_make h d _ _ _ (.inr (.inl ⟨_, rfl, rfl⟩))
    | map v => exact sim_make h d _ _ _ (.inr (.inr ⟨_, _, rfl, rfl⟩))
  | move d x =>
    simp only [Mem.exec] at e
    cases e
    have key : ∀ {y r}, upd (upd m.vars x none) d (m.vars x) y = some r → (y = d ∧ m.vars x = some r) ∨ (y ≠ d ∧ y ≠ x ∧ m.vars y = some r) := by
      intro y r e
      by_cases hy : y = d
      · subst hy; rw [upd_same] at e; exact .inl ⟨rfl, e⟩
      · rw [upd_ne _ _ hy] at e
        by_cases hx : y = x
        · subst hx; rw [upd_same] at e; cases e
        · rw [upd_ne _ _ hx] at e; exact .inr ⟨hy, hx, e⟩
    have := sim_vars h (upd (upd m.vars x none) d (m.vars x)) m.owner m.pools
      (fun y r e => by rcases key e with ⟨_, g⟩ | ⟨_, _, g⟩ <;> exact ⟨_, g⟩)
      (fun y z r e e' => by
        rcases key e with ⟨g0, g⟩ | ⟨g0, g1, g⟩ <;> rcases key e' with ⟨g2, g'⟩ | ⟨g2, g3, g'⟩
        · rw [g0, g2]
        · exact absurd (h.oneVar g' g) g3
        · exact absurd (h.oneVar g g') g1
        · exact h.oneVar g g')
    exact ⟨L, this.1, .move (abs m L) d x⟩
  | assign c v =>
    simp only [Mem.exec] at e
    obtain ⟨r, ref, dt, p, dt', p', rfl, hc, _, hs, rfl⟩ := assign_ok e
    exact sim_assign h hc hs
  | insert c x =>
    simp only [Mem.exec] at e
    obtain ⟨r, pool, head, size, rfl, hc, _, _, rfl⟩ := arrayInsert_ok h.topNone e
    exact sim_ins h hc noKey x _ (fun _ => rfl) (fun v e => by cases e)
  | insertKey c k x =>
    simp only [Mem.exec] at e
    obtain ⟨r, ref, pool, head, size, rfl, hc, _, _, rfl⟩ := mapInsert_ok h.topNone e
    have hk : (storeKey ref k).bytes = k.bytes := by cases ref <;> rfl
    exact sim_ins h hc (storeKey ref k) x _ (fun e => by cases e) (fun v e => by rw [hk]; rfl)
  | clear a c =>
    simp only [Mem.exec] at e
    obtain ⟨r, k, pool, head, size, rfl, hc, _, _, rfl⟩ := clearCont_ok e
    exact sim_clear h hc
  | take d c k =>
    simp only [Mem.exec] at e
    obtain ⟨h1, r, rfl, h2⟩ := sim_take h e
    exact ⟨L, h1, h2⟩
  | serialize t p x =>
    obtain ⟨_, rfl⟩ := serialize_call e
    refine ⟨L, h.root ⟨rootKey, none⟩ x _, ?_⟩
    have hs := Store.Step.consume (abs m L) x
    refine step_eq hs ?_ ?_
    · intro r
      show absNode _ L r = absNode m L r
      by_cases hr : r = m.top
      · subst hr; rw [absNode_top h]; simp [absNode]
      · refine absNode_congr (upd_ne _ _ hr) rfl (fun i hi => ?_)
        obtain ⟨_, _, _, e⟩ := h.memLt hi
        exact upd_ne _ _ (Nat.ne_of_lt (h.lt e))
    · intro y; rfl
  | parse d p ref content =>
    simp only [Mem.exec] at e
    cases hp : m.pools p with
    | false =>
      obtain ⟨h1, h2⟩ := parse_dead (cfg := w) hp fuel d ref 1 content
      split at e
      · rename_i q hq; exact absurd hq (h1 q)
      · rename_i x hq
        cases e
        refine ⟨L, h, ?_⟩
        simp only [Call.op, h2 x hq]
        exact .other _
      · cases e
    | true =>
      have hb := parse_both (cfg := w) (fun i hi => h.fresh i hi) hp fuel d ref 1 content
      simp only [Call.op]
      generalize Bridge.parse w ⟨false, ref, 1⟩ fuel content = x at hb
      generalize m.parse w fuel d p ref content = y at hb e
      cases hb with
      | @ok o q hoq =>
        obtain ⟨m1, hP, _⟩ := hoq
        cases e
        exact sim_parse hP h
      | error er =>
        dsimp only
        split at e
        · rename_i hq; cases hq
        · rename_i hq; cases e; exact ⟨L, h, .other _⟩
        · cases e

theorem inv_init : Inv {} (fun _ => []) :=
  ⟨fun _ _ => rfl, (fun e => by cases e), (fun _ _ => rfl), (fun e => by cases e), (fun e => by cases e), (fun e => by cases e),
    (fun e => by cases e), (fun e => by cases e), (fun e => by cases e)⟩

theorem sim_run {w : Cfg} {fuel : Nat} {m m' : Mem} {L : Ref → List Ref} (h : Inv m L) {cs : List Call} (e : m.run w fuel cs = .ok m') :
    ∃ L', Inv m' L' ∧ (abs m L).Steps (cs.map (Call.op w fuel)) (abs m' L') := by
  induction cs generalizing m L with
  | nil => cases e; exact ⟨L, h, .nil _⟩
  | cons c cs ih =>
    simp only [Mem.run] at e
    obtain ⟨m1, h1, h2⟩ := bind_ok e
    obtain ⟨L1, i1, s1⟩ := sim_exec h h1
    obtain ⟨L2, i2, s2⟩ := ih i1 h2
    exact ⟨L2, i2, .cons s1 s2⟩

theorem live_exec {w : Cfg} {fuel : Nat} {m m' : Mem} {L : Ref → List Ref} (hi : Inv m L) (h : Live m) {c : Call} (hf : c.frees = false)
    (e : m.exec w fuel c = .ok m') : Live m' := by
  cases c with
  | newPool p =>
    simp only [Mem.exec] at e
    split at e
    · cases e
    · cases e
      exact ⟨h.owner, fun r k q hd s e => by
        show upd m.pools p true q = true ∨ m.frames q = true
        by_cases hq : q = p
        · rw [hq, upd_same]; exact .inl rfl
        · rw [upd_ne _ _ hq]; exact h.pool _ _ _ _ _ e⟩
  | clearPool p => cases hf
  | destroyPool p => cases hf
  | mergePool p q =>
    simp only [Mem.exec] at e
    split at e
    · cases e
      refine ⟨fun r c e => ?_, h.pool⟩
      have := h.owner r c e
      show (if m.owner r = some q then some p else m.owner r) ≠ none
      split
      · simp
      · exact this
    · cases e
  | movePool p q =>
    simp only [Mem.exec] at e
    split at e
    · cases e
      refine ⟨fun r c e => ?_, fun r k q hd s e => ?_⟩
      · have := h.owner r c e
        show (if m.owner r = some q then some p else m.owner r) ≠ none
        split
        · simp
        · exact this
      · show upd m.pools p true q = true ∨ m.frames q = true
        by_cases hq : q = p
        · rw [hq, upd_same]; exact .inl rfl
        · rw [upd_ne _ _ hq]; exact h.pool _ _ _ _ _ e
    · cases e
  | assignPool p q => cases hf
  | leaf d p view v =>
    simp only [Mem.exec] at e
    obtain ⟨o, h1, h2⟩ := bind_ok e
    obtain ⟨dt, pl, rfl, hs⟩ := makeLeaf_ok h1
    obtain ⟨_, rfl⟩ := make_ok h2
    exact live_new h _ _ _ (fun _ _ _ _ e => by cases e)
  | emptyLeaf d p view =>
    simp only [Mem.exec] at e
    obtain ⟨_, rfl⟩ := make_ok e
    exact live_new h _ _ _ (fun _ _ _ _ e => by cases e)
  | cont d p k =>
    simp only [Mem.exec] at e
    obtain ⟨hp, rfl⟩ := make_ok e
    exact live_new h _ _ _ (fun _ _ _ _ e => by cases e; exact .inl hp)
  | move d x =>
    simp only [Mem.exec] at e
    cases e
    exact ⟨h.owner, h.pool⟩
  | assign c v =>
    simp only [Mem.exec] at e
    obtain ⟨r, ref, dt, p, dt', p', rfl, hc, _, hs, rfl⟩ := assign_ok e
    exact live_upd h hc m.vars (fun _ _ _ _ e => by cases e)
  | insert c x =>
    simp only [Mem.exec] at e
    obtain ⟨r, pool, head, size, rfl, hc, _, _, rfl⟩ := arrayInsert_ok hi.topNone e
    exact live_ins hi h hc _ _
  | insertKey c k x =>
    simp only [Mem.exec] at e
    obtain ⟨r, ref, pool, head, size, rfl, hc, _, _, rfl⟩ := mapInsert_ok hi.topNone e
    exact live_ins hi h hc _ _
  | clear a c =>
    simp only [Mem.exec] at e
    obtain ⟨r, k, pool, head, size, rfl, hc, _, _, rfl⟩ := clearCont_ok e
    exact live_upd h hc m.vars (fun _ _ _ _ e => by cases e; exact h.pool _ _ _ _ _ hc)
  | take d c k =>
    simp only [Mem.exec] at e
    obtain ⟨r, ref, pool, head, size, rfl, hc, _, hcase⟩ := take_ok hi e
    rcases hcase with ⟨_, rfl⟩ | ⟨i, b, a, k, v, n, _, hi', _, _, rfl⟩
    · exact ⟨h.owner, h.pool⟩
    · exact live_upd h hi' _ (fun _ _ _ _ e => by cases e)
  | serialize t p x =>
    obtain ⟨_, rfl⟩ := serialize_call e
    exact live_new h _ _ _ (fun _ _ _ _ e => by cases e)
  | parse d p ref content =>
    simp only [Mem.exec] at e
    cases hp : m.pools p with
    | false =>
      obtain ⟨h1, _⟩ := parse_dead (cfg := w) hp fuel d ref 1 content
      split at e
      · rename_i q hq; exact absurd hq (h1 q)
      · cases e; exact h
      · cases e
    | true =>
      have hb := parse_both (cfg := w) (fun i hj => hi.fresh i hj) hp fuel d ref 1 content
      generalize Bridge.parse w ⟨false, ref, 1⟩ fuel content = x at hb
      generalize m.parse w fuel d p ref content = y at hb e
      cases hb with
      | @ok o q hoq =>
        obtain ⟨m1, hP, _⟩ := hoq
        cases e
        exact hP.live (fun q e => .inl (by subst e; rw [hP.effect.1]; exact hp)) h
      | error er =>
        split at e
        · rename_i hq; cases hq
        · cases e; exact h
        · cases e

theorem live_run {w : Cfg} {fuel : Nat} {m m' : Mem} {L : Ref → List Ref} (hi : Inv m L) (h : Live m) {cs : List Call}
    (hf : ∀ c ∈ cs, c.frees = false) (e : m.run w fuel cs = .ok m') : Live m' := by
  induction cs generalizing m L with
  | nil => cases e; exact h
  | cons c cs ih =>
    simp only [Mem.run] at e
    obtain ⟨m1, h1, h2⟩ := bind_ok e
    obtain ⟨L1, i1, _⟩ := sim_exec hi h1
    exact ih i1 (live_exec hi h (hf c List.mem_cons_self) h1) (fun c hc => hf c (List.mem_cons_of_mem _ hc)) h2

theorem live_init : Live {} := ⟨(fun _ _ e => nomatch e), (fun _ _ _ _ _ e => nomatch e)⟩

end Bridge.Heap
