import Verif.Proof.CoExec
import Verif.Props.RoundTrip
/-
C67, C68, C69: the objects in memory.  Programs call the library in any order, keep raw pointers into the middle of trees, move
`unique_ptr`s around and use several pools.
-/
set_option autoImplicit false
namespace Bridge.Heap
open Spec

/-- What a program sees through the pointer `r` agrees with the graph `s`. -/
structure Agrees (m : Mem) (s : Store) (r : Ref) : Prop where
  /-- a leaf has the value that was last assigned -/
  leaf : ∀ view v, s.node r = some (.leaf view v) → ∃ dt p, m.load (some r) = .ok (r, .data view dt p) ∧ scalarOf view dt p = v
  /-- an array: `Size`, `operator[]` and the iterator, which goes from the last element to the first -/
  seq : ∀ xs, s.node r = some (.seq xs) → m.size true (some r) = .ok xs.length ∧ (∀ n, m.index (some r) n = .ok xs[n]?.join) ∧
    ∃ it, m.begin_ true (some r) = .ok it ∧ ∀ fuel, xs.length ≤ fuel → ∃ l, m.visit fuel it = .ok l ∧ l.map Prod.snd = xs.reverse
  /-- a map: `Size`, `operator[]` (the last value inserted under the key) and the iterator -/
  dict : ∀ view es, s.node r = some (.dict view es) → m.size false (some r) = .ok es.length ∧
    (∀ key fuel, es.length ≤ fuel → m.lookup fuel (some r) key = .ok (newestChild key es)) ∧
    ∃ it, m.begin_ false (some r) = .ok it ∧ ∀ fuel, es.length ≤ fuel → m.visit fuel it = .ok es.reverse

theorem agrees_of {m : Mem} {L : Ref → List Ref} (h : Inv m L) (hl : Live m) (ht : m.top < 2 ^ 64) (r : Ref) : Agrees m (abs m L) r := by
  have hlen : (L r).length < 2 ^ 64 := Nat.lt_of_le_of_lt (h.length_le r) ht
  have hio : ∀ i ∈ L r, m.owner i ≠ none := fun i hi => by
    obtain ⟨k, v, n, e⟩ := h.memLt hi
    exact hl.owner _ _ e
  constructor
  · intro view v e
    change absNode m L r = _ at e
    unfold absNode at e
    split at e
    · rename_i ref dt p hc
      cases e
      exact ⟨dt, p, load_eq hc (hl.owner _ _ hc), rfl⟩
    all_goals cases e
  · intro xs e
    change absNode m L r = _ at e
    unfold absNode at e
    split at e
    · cases e
    · rename_i p hd s hc
      cases e
      obtain ⟨h1, h2, it, h3, h4⟩ := obs_array h hc hlen (hl.owner _ _ hc) hio
      refine ⟨by rw [h1]; simp, h2, it, h3, fun fuel hf => ⟨_, h4 fuel (by simpa using hf), ?_⟩⟩
      rw [← List.map_reverse, List.reverse_reverse, List.map_map]
      apply List.map_congr_left
      intro i hi
      obtain ⟨k, v, n, e⟩ := h.memLt hi
      simp [nodeOf, pairOf, e]
    all_goals cases e
  · intro view es e
    change absNode m L r = _ at e
    unfold absNode at e
    split at e
    · cases e
    · cases e
    · rename_i v p hd s hc
      cases e
      obtain ⟨h1, h2, it, h3, h4⟩ := obs_map h hc hlen (hl.owner _ _ hc) hio
      refine ⟨by rw [h1]; simp, fun key fuel hf => h2 key fuel (by simpa using hf), it, h3, fun fuel hf => ?_⟩
      rw [h4 fuel (by simpa using hf), ← List.map_reverse, List.reverse_reverse]
    · cases e

/-- C67. The linked lists implement sequences: after any calls that freed nothing - with raw pointers into trees, moved variables, objects
moved from one container into another or into their own descendants - the memory shows the graph that the calls describe.
(`m.top`: the number of allocations so far.) -/
theorem C67_heap_is_graph (w : Cfg) (fuel : Nat) (cs : List Act) (m : Mem) (h : Run w fuel {} cs m)
    (hf : ∀ c ∈ cs, c.frees = false) (ht : m.top < 2 ^ 64) :
    ∃ s : Store, Store.Steps {} (cs.map (Act.op w fuel)) s ∧ (∀ x, m.vars x = s.var x) ∧ ∀ r, Agrees m s r := by
  obtain ⟨L, hi, _, hs⟩ := sim_acts h inv_init wf_init
  exact ⟨abs m L, hs, fun _ => rfl, agrees_of hi (live_acts h inv_init wf_init live_init hf) ht⟩

/-- C67. In such a state every call with a pointer to an object of the right type returns. -/
theorem C67_calls_return (w : Cfg) (fuel : Nat) (cs : List Call) (m : Mem) (h : Mem.run w fuel {} cs = .ok m)
    (hf : ∀ c ∈ cs, c.frees = false) :
    ∃ s : Store, Store.Steps {} (cs.map (Call.op w fuel)) s ∧
      (∀ c xs x, s.node c = some (.seq xs) → ∃ m', m.exec w fuel (.insert (some c) x) = .ok m') ∧
      (∀ c v es key x, s.node c = some (.dict v es) → ∃ m', m.exec w fuel (.insertKey (some c) key x) = .ok m') ∧
      (∀ c xs, s.node c = some (.seq xs) → ∃ m', m.exec w fuel (.clear true (some c)) = .ok m') ∧
      (∀ c v es, s.node c = some (.dict v es) → ∃ m', m.exec w fuel (.clear false (some c)) = .ok m') ∧
      (∀ c v es d key f, s.node c = some (.dict v es) → es.length ≤ f → ∃ m', m.exec w f (.take d (some c) key) = .ok m') ∧
      (∀ c view old v o, s.node c = some (.leaf view old) → makeLeaf w view v = .ok o → ∃ m', m.exec w fuel (.assign (some c) v) = .ok m') := by
  obtain ⟨L, hi, hs⟩ := sim_run inv_init h
  have hl := live_run inv_init live_init hf h
  have hpool : ∀ {c k p hd s}, m.cells c = some (.cont k p hd s) → m.pools p = true := fun e => by
    rcases hl.pool _ _ _ _ _ e with h1 | h1
    · exact h1
    · rw [frames_run inv_init wf_init h] at h1; cases h1
  have hseq : ∀ c xs, (abs m L).node c = some (.seq xs) → ∃ p hd s, m.cells c = some (.cont .array p hd s) := by
    intro c xs e
    change absNode m L c = _ at e
    unfold absNode at e
    split at e
    · cases e
    · rename_i p hd s hc; exact ⟨p, hd, s, hc⟩
    all_goals cases e
  have hdict : ∀ c v es, (abs m L).node c = some (.dict v es) → es.length = (L c).length ∧ ∃ p hd s, m.cells c = some (.cont (.map v) p hd s) := by
    intro c v es e
    change absNode m L c = _ at e
    unfold absNode at e
    split at e
    · cases e
    · cases e
    · rename_i v p hd s hc; cases e; exact ⟨by simp, p, hd, s, hc⟩
    · cases e
  refine ⟨abs m L, hs, ?_, ?_, ?_, ?_, ?_, ?_⟩
  · intro c xs x e
    obtain ⟨p, hd, s, hc⟩ := hseq c xs e
    exact ⟨_, arrayInsert_eq hi.topNone hc (hl.owner _ _ hc) (hpool hc)⟩
  · intro c v es key x e
    obtain ⟨_, p, hd, s, hc⟩ := hdict c v es e
    exact ⟨_, mapInsert_eq key hi.topNone hc (hl.owner _ _ hc) (hpool hc)⟩
  · intro c xs e
    obtain ⟨p, hd, s, hc⟩ := hseq c xs e
    have hload := loadCont_eq hc (hl.owner _ _ hc)
    simp only [decide_true] at hload
    simp only [Mem.exec, Mem.clearCont]
    rw [hload, ok_bind]
    exact ⟨_, rfl⟩
  · intro c v es e
    obtain ⟨_, p, hd, s, hc⟩ := hdict c v es e
    have hload := loadCont_eq hc (hl.owner _ _ hc)
    simp only [reduceCtorEq, decide_false] at hload
    simp only [Mem.exec, Mem.clearCont]
    rw [hload, ok_bind]
    exact ⟨_, rfl⟩
  · intro c v es d key f e hlen
    obtain ⟨he, p, hd, s, hc⟩ := hdict c v es e
    have hload := loadCont_eq hc (hl.owner _ _ hc)
    simp only [reduceCtorEq, decide_false] at hload
    have hio : ∀ i ∈ L c, m.owner i ≠ none := fun i hi' => by
      obtain ⟨k, v, n, e⟩ := hi.memLt hi'
      exact hl.owner _ _ e
    simp only [Mem.exec, Mem.take]
    rw [hload, ok_bind]
    dsimp only
    rw [find_eq (hi.chain hc).1 hio key (by omega), ok_bind]
    cases hfd : (L c).find? (fun i => decide ((pairOf m i).1 = key)) with
    | none => exact ⟨_, rfl⟩
    | some i =>
      simp only [Option.isNone_some, Bool.false_eq_true, if_false]
      have hm := List.mem_of_find?_eq_some hfd
      obtain ⟨k, v, nx, e⟩ := hi.memLt hm
      rw [loadItem_eq e (hio _ hm), ok_bind]
      exact ⟨_, rfl⟩
  · intro c view old v o e hv
    change absNode m L c = _ at e
    unfold absNode at e
    split at e
    · rename_i ref dt p hc
      cases e
      obtain ⟨dt', p', rfl, _⟩ := makeLeaf_ok hv
      simp only [Mem.exec, Mem.assign]
      rw [load_eq hc (hl.owner _ _ hc), ok_bind]
      dsimp only
      rw [hv, ok_bind]
      exact ⟨_, rfl⟩
    all_goals cases e

/-- A program with aliases: a pointer to an inner array is kept, the outer one is filled first; then `Get` moves the inner array out of a
map, and it is inserted elsewhere and extended through the old pointer. -/
def aliases : List Call :=
  [.newPool 0, .cont 0 0 .array, .cont 1 0 (.map false), .insertKey (some 1) ⟨[107], none⟩ 0, .leaf 0 0 false (.int32 7),
    .insert (some 0) 0, .take 2 (some 1) [107], .cont 3 0 .array, .insert (some 5) 2, .leaf 0 0 true (.string [104]), .insert (some 0) 0]

example : ∃ m, Run Cfg.x86 9 {} (aliases.map .call) m ∧ Mem.run Cfg.x86 9 {} aliases = .ok m ∧ (∀ c ∈ aliases, c.frees = false) ∧ m.top < 2 ^ 64 ∧
    m.size true (some 0) = .ok 2 ∧ m.index (some 0) 1 = .ok (some 7) ∧ m.index (some 5) 0 = .ok (some 0) ∧
    m.lookup 9 (some 1) [107] = .ok none ∧ m.size false (some 1) = .ok 1 :=
  ⟨_, run_calls rfl, rfl, by decide, by decide, rfl, rfl, rfl, rfl, rfl⟩

/-! ### C68: ownership -/

/-- A place that can own an object. -/
inductive Place
  | var (x : Nat)
  | item (i : Ref)

/-- The place owns the object. -/
def Owns (m : Mem) : Place → Ref → Prop
  | .var x, r => m.vars x = some r
  | .item i, r => ∃ k n, m.cells i = some (.item k (some r) n)

/-- C68. Whatever a program does, no object is owned twice: by two variables, by two items or by a variable and an item. -/
theorem C68_one_owner (w : Cfg) (m : Mem) (h : Reachable w m) (a b : Place) (r : Ref) (ha : Owns m a r) (hb : Owns m b r) : a = b := by
  obtain ⟨fuel, cs, h⟩ := h
  obtain ⟨L, hi, _, _⟩ := sim_acts h inv_init wf_init
  cases a with
  | var x =>
    cases b with
    | var y => rw [hi.oneVar ha hb]
    | item j => obtain ⟨k, n, hb⟩ := hb; exact (hi.notBoth ha hb).elim
  | item i =>
    obtain ⟨k, n, ha⟩ := ha
    cases b with
    | var y => exact (hi.notBoth hb ha).elim
    | item j => obtain ⟨k', n', hb⟩ := hb; rw [hi.oneItem ha hb]

theorem tree_of_var {m : Mem} {L : Ref → List Ref} (hi : Inv m L) {x : Nat} {r : Ref} (hx : m.vars x = some r)
    (hl : ∀ c, Reaches m (some r) c → m.owner c ≠ none) : ∃ o, Shows m (some r) o :=
  shows_of_root hi (fun p hc => hc.notVar hi hx) (hi.varObj hx) fun c l p =>
    ⟨hl c (p.reaches hi c List.mem_cons_self), fun i hm => hl i ((p.reaches hi c List.mem_cons_self).trans (hi.reaches_item hm))⟩

theorem tree_of_var_live {m : Mem} {L : Ref → List Ref} (hi : Inv m L) (hl : Live m) {x : Nat} {r : Ref} (hx : m.vars x = some r) :
    ∃ o, Shows m (some r) o :=
  shows_of_root hi (fun p hc => hc.notVar hi hx) (hi.varObj hx) fun c l p => by
    obtain ⟨d, e, _⟩ := p.obj hi (hi.varObj hx) c List.mem_cons_self
    exact ⟨hl.owner _ _ e, fun i hm => by obtain ⟨k, v, n, e⟩ := hi.memLt hm; exact hl.owner _ _ e⟩

/-- C68. Whatever a program does - it may insert an array into one of its own descendants - an object that a variable owns is the root
of a finite tree, as long as nothing below it has been freed. -/
theorem C68_owned_is_tree (w : Cfg) (m : Mem) (h : Reachable w m) (x : Nat) (r : Ref) (hx : m.vars x = some r)
    (hl : ∀ c, Reaches m (some r) c → m.owner c ≠ none) : ∃ o, Shows m (some r) o := by
  obtain ⟨fuel, cs, h⟩ := h
  obtain ⟨L, hi, _, _⟩ := sim_acts h inv_init wf_init
  exact tree_of_var hi hx hl

theorem rootInsert_load {m : Mem} {L : Ref → List Ref} (hi : Inv m L) (c : Cell) (p : Nat) (vars : Nat → Option Ref) (r : Ref) (q : Ref × Cell)
    (h : m.load (some r) = .ok q) :
    Mem.load { m with cells := upd m.cells m.top (some c), top := m.top + 1, owner := upd m.owner m.top (some p), vars := vars } (some r) = .ok q := by
  obtain ⟨h1, h2, h3⟩ := load_ok h
  cases h1
  have hne := Nat.ne_of_lt (hi.lt h2)
  refine load_eq ?_ ?_
  · show upd _ _ _ _ = _; rw [upd_ne _ _ hne]; exact h2
  · show upd _ _ _ _ ≠ _; rw [upd_ne _ _ hne]; exact h3

theorem serialize_shows {m : Mem} {L : Ref → List Ref} (hi : Inv m L) (cfg : Cfg) (t : SeriType) {p x : Nat} (hp : m.pools p = true) {o : Obj}
    (hs : Shows m (m.vars x) o) : ∃ N, ∀ fuel, N ≤ fuel → m.serialize cfg fuel t p x = Bridge.serialize cfg t o := by
  let m1 : Mem := { m with cells := upd m.cells m.top (some (.item ⟨rootKey, none⟩ (m.vars x) none)), top := m.top + 1, owner := upd m.owner m.top (some p), vars := upd m.vars x none }
  have hs1 : Shows m1 (m.vars x) o := hs.mono (fun r q e => rootInsert_load hi _ _ _ r q e) (fun _ => rfl)
  have hload : m1.load (some m.top) = .ok (m.top, .item ⟨rootKey, none⟩ (m.vars x) none) :=
    load_eq (upd_same _ _ _) (by show upd _ _ _ _ ≠ _; rw [upd_same]; simp)
  obtain ⟨N, hN⟩ := ShowsL.seri cfg (ShowsL.cons hload hs1 .nil)
  refine ⟨N, fun fuel hf => ?_⟩
  unfold Mem.serialize
  rw [rootInsert_eq hp, ok_bind]
  dsimp only
  unfold Mem.serializeRoot Bridge.serialize
  simp only [rootOf, Bridge.valueSeri, List.append_assoc]
  have e := fun st cur bl => (hN fuel hf st cur bl).2
  change ∀ st cur bl, m1.seriLoop cfg false fuel (some m.top) st cur bl = _ at e
  show (do
    let st ← seriCount cfg 1 ⟨List.replicate 8 0 ++ ([t.toChar] ++ [0]), initDict t, some {}⟩
    let (id, st) ← seriSplitId cfg st
    let (st, cur, blocks) ← m1.seriLoop cfg false fuel (some m.top) st st.outer.length []
    let (st, split) := finishBlocks cfg id st cur blocks
    let ret := if split then st.outer.set (List.replicate 8 0 ++ [t.toChar]).length 0x0A else st.outer
    let total := ret.length
    let ret ← seriTotalSize cfg total ret
    let ret ← match st.sm with
      | none => pure ret
      | some m => do
        let s ← m.serialize cfg
        suffixSecondary cfg ret s
    let s ← (st.si.getD {}).serialize cfg
    suffixSecondary cfg ret s) = _
  simp only [e]
  cases seriCount cfg 1 ⟨List.replicate 8 0 ++ ([t.toChar] ++ [0]), initDict t, some {}⟩ with
  | error e => rfl
  | ok st =>
    simp only [ok_bind]
    cases seriSplitId cfg st with
    | error e => rfl
    | ok q =>
      simp only [ok_bind]
      cases seriKVs cfg [(⟨rootKey, none⟩, o)] q.2 q.2.outer.length [] with
      | error e => rfl
      | ok q2 => rfl

/-- C68. `Serialize` and `dump` along the pointers do to an owned object what the model of the other properties does to the tree, and they
end: the recursion never runs in a circle. -/
theorem C68_serialize_ends (w : Cfg) (fuel : Nat) (cs : List Act) (m : Mem) (h : Run w fuel {} cs m)
    (hf : ∀ c ∈ cs, c.frees = false) (x : Nat) (r : Ref) (hx : m.vars x = some r) :
    ∃ o N, Shows m (some r) o ∧ ∀ f, N ≤ f → (∀ buf level, m.dump f (some r) buf level = o.dump buf level) ∧
      ∀ cfg t p, m.pools p = true → ∃ N', ∀ f, N' ≤ f → m.serialize cfg f t p x = serialize cfg t o := by
  obtain ⟨L, hi, _, _⟩ := sim_acts h inv_init wf_init
  obtain ⟨o, ho⟩ := tree_of_var_live hi (live_acts h inv_init wf_init live_init hf) hx
  obtain ⟨N, hN⟩ := ho.dump
  exact ⟨o, N, ho, fun f hf => ⟨hN f hf, fun cfg t p hp => serialize_shows hi cfg t hp (by rw [hx]; exact ho)⟩⟩

/-- C68. From the calls to the document that a reader gets: if the graph that the calls describe unfolds to the document `d` at the object
that variable `x` owns, then `Serialize(std::move(x))` returns a content that parses to `d`. -/
theorem C68_calls_to_document (w r : Cfg) (hw : w.charSigned = true) (hn : w.hardened = false) (fuel : Nat) (cs : List Act) (m : Mem)
    (h : Run w fuel {} cs m) (hf : ∀ c ∈ cs, c.frees = false) (ht : m.top < 2 ^ 64) :
    ∃ s : Store, Store.Steps {} (cs.map (Act.op w fuel)) s ∧ ∀ x d, s.Unfolds (s.var x) d → ∀ t p, m.pools p = true →
      ∃ content N, (∀ f, N ≤ f → m.serialize w f t p x = .ok content) ∧
        (Fits r content → (∃ o', Parses r {} content (.ok o') ∧ o'.doc? = some d.revMaps) ∧
          ∀ k, 0 < k → ∃ o' d', Parses r ⟨true, false, k⟩ content (.ok o') ∧ o'.doc? = some d' ∧ d.Same d') := by
  obtain ⟨L, hi, _, hs⟩ := sim_acts h inv_init wf_init
  refine ⟨abs m L, hs, fun x d hu t p hp => ?_⟩
  change Store.Unfolds (abs m L) (m.vars x) d at hu
  cases hx : m.vars x with
  | none => rw [hx] at hu; cases hu
  | some q =>
    rw [hx] at hu
    obtain ⟨o, ho⟩ := tree_of_var_live hi (live_acts h inv_init wf_init live_init hf) hx
    have hd := doc_of_unfolds hi ht hu o ho
    obtain ⟨N, hN⟩ := serialize_shows hi w t (x := x) hp (by rw [hx]; exact ho)
    have he := serialize_eq hw t hd (hard_of_unhardened hn o)
    refine ⟨_, N, fun f hf => (hN f hf).trans he, fun hfit => ⟨?_, fun k hk => ?_⟩⟩
    · obtain ⟨o', h1, h2, _⟩ := parses_normal (extra := []) (by simpa using hfit) false (by simp) 1
      exact ⟨o', by simpa using h1, h2⟩
    · obtain ⟨o1, d1, h1, h2, h3, _⟩ := parses_co (extra := []) (by simpa using hfit) false (by simp) hk
      exact ⟨o1, d1, by simpa using h1, h2, h3⟩

/-- C68. And every owned object whose tree has a document is such an object. -/
theorem C68_trees_unfold (w : Cfg) (fuel : Nat) (cs : List Act) (m : Mem) (h : Run w fuel {} cs m) :
    ∃ s : Store, Store.Steps {} (cs.map (Act.op w fuel)) s ∧ ∀ x o d, Shows m (m.vars x) o → o.doc? = some d → s.Unfolds (s.var x) d := by
  obtain ⟨L, hi, _, hs⟩ := sim_acts h inv_init wf_init
  exact ⟨abs m L, hs, fun x o d h1 h2 => h1.unfolds hi h2⟩

theorem chain_next {m : Mem} {h : Option Ref} {l : List Ref} (c : Chain m.cells h l) {i : Ref} (hi : i ∈ l) {k : Str} {v : Option Ref} {n : Ref}
    (e : m.cells i = some (.item k v (some n))) : n ∈ l := by
  induction c with
  | nil => cases hi
  | @cons j k' v' n' l hj c ih =>
    rcases List.mem_cons.1 hi with rfl | hi
    · rw [hj] at e; cases e
      cases c with
      | cons _ _ => simp
    · exact List.mem_cons_of_mem _ (ih hi)

/-- A way to a container ends with the item that owns it. -/
theorem reached_owned {m : Mem} {L : Ref → List Ref} (hi : Inv m L) {a : Option Ref} {r : Ref} (h : Reaches m a r)
    (ha : ∀ q, a = some q → (∃ c, m.cells q = some c ∧ c.isObj = true) ∨ ∃ b, q ∈ L b) {k : Kind} {p : Nat} {hd : Option Ref} {s : Nat}
    (hr : m.cells r = some (.cont k p hd s)) : a = some r ∨ ∃ i k n, m.cells i = some (.item k (some r) n) := by
  have noItem : ∀ b, r ∉ L b := fun b hb => by
    obtain ⟨_, _, _, e⟩ := hi.memLt hb
    rw [hr] at e; cases e
  induction h with
  | here r => exact .inl rfl
  | @head q c k' p' hd' s' e h ih =>
    have hch := (hi.chain e).1
    have hm : ∀ q', hd' = some q' → q' ∈ L q := by
      intro q' hq
      rw [hq] at hch
      generalize L q = l at hch
      cases hch with
      | cons _ _ => simp
    rcases ih (fun q' hq => .inr ⟨q, hm q' hq⟩) hr noItem with h1 | h1
    · exact absurd (hm _ h1) (noItem _)
    · exact .inr h1
  | @node q c k' v' n' e h ih =>
    rcases ih (fun q' hq => .inl (hi.nodeObj (hq ▸ e))) hr noItem with h1 | h1
    · exact .inr ⟨q, k', n', h1 ▸ e⟩
    · exact .inr h1
  | @next q c k' v' n' e h ih =>
    rcases ha q rfl with ⟨d, h1, h2⟩ | ⟨b, hb⟩
    · rw [e] at h1; cases h1; cases h2
    · have hm : ∀ q', n' = some q' → q' ∈ L b := by
        intro q' hq
        by_cases hc : ∃ k p hd s, m.cells b = some (.cont k p hd s)
        · obtain ⟨k, p, hd, s, hc⟩ := hc
          exact chain_next (hi.chain hc).1 hb (hq ▸ e)
        · rw [hi.other b (fun k p hd s e => hc ⟨k, p, hd, s, e⟩)] at hb; cases hb
      rcases ih (fun q' hq => .inr ⟨b, hm q' hq⟩) hr noItem with h1 | h1
      · exact absurd (hm _ h1) (noItem _)
      · exact .inr h1

/-- C68. A container that is among its own descendants is not owned by a variable, so it can only be read through raw pointers, and never
passed to `Serialize`; `dump` and `valueSeri` from a pointer above it never return a result. -/
theorem C68_cycles (w : Cfg) (m : Mem) (h : Reachable w m) (r : Ref) (k : Kind) (p : Nat) (hd : Option Ref) (s : Nat)
    (hr : m.cells r = some (.cont k p hd s)) (hc : Reaches m hd r) :
    (∀ x, m.vars x ≠ some r) ∧
    ∀ a fuel, Reaches m a r → (∀ buf level b, m.dump fuel a buf level ≠ .ok b) ∧ ∀ cfg st b, m.valueSeri cfg fuel a st ≠ .ok b := by
  refine ⟨fun x hx => ?_, fun a fuel ha => ⟨fun buf level b => (dump_cycle hr hc fuel).1 a buf level b ha,
    fun cfg st b => (seri_cycle hr hc cfg fuel).1 a st b ha⟩⟩
  obtain ⟨fuel, cs, h⟩ := h
  obtain ⟨L, hi, _, _⟩ := sim_acts h inv_init wf_init
  have hch := (hi.chain hr).1
  have hm : ∀ q', hd = some q' → q' ∈ L r := by
    intro q' hq
    rw [hq] at hch
    generalize L r = l at hch
    cases hch with
    | cons _ _ => simp
  rcases reached_owned hi hc (fun q hq => .inr ⟨r, hm q hq⟩) hr with h1 | ⟨i, k', n, h1⟩
  · obtain ⟨_, _, _, e⟩ := hi.memLt (hm r h1)
    rw [hr] at e; cases e
  · exact hi.notBoth hx h1

/-- `a = pool.array(); b = pool.array(); a->Insert(std::move(b)); b_raw->Insert(std::move(a))`, and a third array that is fine. -/
def circle : List Call :=
  [.newPool 0, .cont 0 0 .array, .cont 1 0 .array, .insert (some 0) 1, .insert (some 1) 0, .cont 0 0 .array, .leaf 1 0 false (.int32 7),
    .insert (some 4) 1]

example : ∃ m, Run Cfg.x86 9 {} (circle.map .call) m ∧ (∀ c ∈ circle, c.frees = false) ∧
    (∃ s, m.cells 0 = some (.cont .array 0 (some 2) s)) ∧ Reaches m (some 2) 0 ∧ m.vars 0 = some 4 ∧ m.pools 0 = true := by
  refine ⟨_, run_calls rfl, by decide, ⟨1, rfl⟩, ?_, rfl, rfl⟩
  exact .node (k := noKey) (v := some 1) (n := none) rfl (.head (k := .array) (p := 0) (hd := some 3) (s := 1) rfl
    (.node (k := noKey) (v := some 0) (n := none) rfl (.here 0)))

example : ((Mem.run Cfg.x86 9 {} circle).toOption.bind fun m => (m.serialize Cfg.x86 20 .normal 0 0).toOption) =
    (serialize Cfg.x86 .normal (.array .caller 1 [.data false BRIDGE_INT32 (.i32 7)])).toOption ∧
    (serialize Cfg.x86 .normal (.array .caller 1 [.data false BRIDGE_INT32 (.i32 7)])).toOption.isSome = true := by decide +kernel

/-- The graph of `circle` unfolds to `[7]` at the third array. -/
example : ∃ s : Store, Store.Steps {} ((circle.map Act.call).map (Act.op Cfg.x86 9)) s ∧ s.Unfolds (s.var 0) (.array [.scalar (.int32 7)]) := by
  obtain ⟨s, h1, h2⟩ := C68_trees_unfold Cfg.x86 9 (circle.map .call) _ (run_calls rfl)
  refine ⟨s, h1, h2 0 (.array .caller 1 [.data false BRIDGE_INT32 (.i32 7)]) _ ?_ rfl⟩
  exact .array (items := [(noKey, .data false BRIDGE_INT32 (.i32 7))]) (p := 0) (r := 4) (hd := some 6) rfl
    (.cons (i := 6) (k := noKey) (v := some 5) (n := none) rfl (.data (r := 5) rfl) .nil)

/-! ### C69: pools -/

/-- Everything that can be read through the pointer is the same in both memories. -/
structure SameReads (m m' : Mem) (a : Option Ref) : Prop where
  load : m'.load a = m.load a
  size : ∀ b, m'.size b a = m.size b a
  index : ∀ n, m'.index a n = m.index a n
  lookup : ∀ fuel key, m'.lookup fuel a key = m.lookup fuel a key
  visit : ∀ b fuel, (m'.begin_ b a >>= m'.visit fuel) = (m.begin_ b a >>= m.visit fuel)
  dump : ∀ fuel buf level, m'.dump fuel a buf level = m.dump fuel a buf level
  seri : ∀ cfg fuel st, m'.valueSeri cfg fuel a st = m.valueSeri cfg fuel a st

theorem sameReads_of {m m' : Mem} {a : Option Ref} (h : Agree m m' a) : SameReads m m' a := by
  have hcont : ∀ b, m'.loadCont b a = m.loadCont b a := fun b => loadCont_congr h.self
  have hhead : ∀ {b q}, m.loadCont b a = .ok q → Agree m m' q.2.2.2.1 := by
    intro b q e
    obtain ⟨e1, e2, _⟩ := loadCont_ok e
    subst e1
    exact h.head e2
  refine ⟨h.self, ?_, ?_, ?_, ?_, fun fuel buf level => (dump_congr fuel).1 a buf level h, fun cfg fuel st => (seri_congr cfg fuel).1 a st h⟩
  · intro b; unfold Mem.size; rw [hcont]
  · intro n
    unfold Mem.index
    rw [hcont]
    cases e : m.loadCont true a with
    | error e => rfl
    | ok q =>
      have hg := hhead e
      simp only [ok_bind]
      split
      · rfl
      · rw [walk_congr hg]
        cases ew : m.walk q.2.2.2.1 (q.2.2.2.2 - 1 - n) with
        | error e => rfl
        | ok b =>
          simp only [ok_bind]
          cases b with
          | none => rfl
          | some b =>
            have : Agree m m' (some b) := fun c hc => hg c ((walk_reaches ew).trans hc)
            simp only [loadItem_congr this.self]
  · intro fuel key
    unfold Mem.lookup
    rw [hcont]
    cases e : m.loadCont false a with
    | error e => rfl
    | ok q =>
      have hg := hhead e
      simp only [ok_bind]
      rw [find_congr key fuel hg]
      cases ew : m.find key fuel q.2.2.2.1 with
      | error e => rfl
      | ok b =>
        simp only [ok_bind]
        cases b with
        | none => rfl
        | some b =>
          have : Agree m m' (some b) := fun c hc => hg c ((find_reaches ew).trans hc)
          simp only [loadItem_congr this.self]
  · intro b fuel
    unfold Mem.begin_
    rw [hcont]
    cases e : m.loadCont b a with
    | error e => rfl
    | ok q =>
      simp only [ok_bind, pure_eq_ok]
      exact visit_congr fuel (hhead e)

/-- The pool whose memory the call frees. -/
def Call.freed : Call → Option Nat
  | .clearPool p => some p
  | .destroyPool p => some p
  | .assignPool p _ => some p
  | _ => none

theorem freed_exec {w : Cfg} {fuel : Nat} {m m' : Mem} {c : Call} {p : Nat} (hc : c.freed = some p) (e : m.exec w fuel c = .ok m') :
    m'.cells = m.cells ∧ (∀ r, m.owner r = some p → m'.owner r = none) ∧ ∀ r, m.owner r ≠ some p → (m'.owner r = none ↔ m.owner r = none) := by
  cases c <;> simp only [Call.freed, Option.some.injEq, reduceCtorEq] at hc
  all_goals subst hc
  all_goals simp only [Mem.exec] at e
  all_goals split at e
  all_goals cases e
  · exact ⟨rfl, fun r hr => by simp [hr], fun r hr => by simp [hr]⟩
  · exact ⟨rfl, fun r hr => by simp [hr], fun r hr => by simp [hr]⟩
  · rename_i q h
    refine ⟨rfl, fun r hr => by simp [hr], fun r hr => ?_⟩
    dsimp only
    rw [if_neg hr]
    split
    · rename_i h1; simp [h1]
    · rfl

theorem load_same {m m' : Mem} (hc : m'.cells = m.cells) {r : Ref} (ho : m'.owner r = none ↔ m.owner r = none) :
    m'.load (some r) = m.load (some r) := by
  simp only [Mem.load, hc]
  cases h1 : m.owner r with
  | none => simp only [ho.2 h1]
  | some a =>
    cases h2 : m'.owner r with
    | none => rw [ho.1 h2] at h1; cases h1
    | some b => cases m.cells r <;> rfl

/-- C69. `Clear`, the destructor and move assignment of a pool end the life of exactly the objects in its memory: reading one of them is
undefined behaviour, and whatever is reached without touching that memory reads as before. -/
theorem C69_freed (w : Cfg) (fuel : Nat) (m m' : Mem) (c : Call) (p : Nat) (hc : c.freed = some p) (e : m.exec w fuel c = .ok m') :
    (∀ r, m.owner r = some p → m'.load (some r) = .error (.ub .useAfterDestroy) ∧
      (∀ b, m'.size b (some r) = .error (.ub .useAfterDestroy)) ∧ (∀ n, m'.index (some r) n = .error (.ub .useAfterDestroy)) ∧
      (∀ f key, m'.lookup f (some r) key = .error (.ub .useAfterDestroy)) ∧
      ∀ f, (∀ buf level, m'.dump (f + 1) (some r) buf level = .error (.ub .useAfterDestroy)) ∧
        ∀ cfg st, m'.valueSeri cfg (f + 1) (some r) st = .error (.ub .useAfterDestroy)) ∧
    ∀ a, (∀ r, Reaches m a r → m.owner r ≠ some p) → SameReads m m' a := by
  obtain ⟨h1, h2, h3⟩ := freed_exec hc e
  refine ⟨fun r hr => ?_, fun a ha => sameReads_of fun r hr => load_same h1 (h3 r (ha r hr))⟩
  have hl : m'.load (some r) = .error (.ub .useAfterDestroy) := by
    simp only [Mem.load, h2 r hr]
  have hlc : ∀ b, m'.loadCont b (some r) = .error (.ub .useAfterDestroy) := fun b => by unfold Mem.loadCont; rw [hl]; rfl
  refine ⟨hl, fun b => ?_, fun n => ?_, fun f key => ?_, fun f => ⟨fun buf level => ?_, fun cfg st => ?_⟩⟩
  · unfold Mem.size; rw [hlc]; rfl
  · unfold Mem.index; rw [hlc]; rfl
  · unfold Mem.lookup; rw [hlc]; rfl
  · simp only [Mem.dump]; rw [hl]; rfl
  · simp only [Mem.valueSeri]; rw [hl]; rfl

/-- C69. `p.Merge(std::move(q))` and the construction of `p` from `q` keep every object, also when `q` is cleared or destroyed
afterwards. -/
theorem C69_moved (w : Cfg) (fuel : Nat) (m m' : Mem) (c : Call) (p q : Nat) (hc : c = .mergePool p q ∨ c = .movePool p q)
    (e : m.exec w fuel c = .ok m') :
    (∀ a, SameReads m m' a) ∧
    ∀ c', c' = .clearPool q ∨ c' = .destroyPool q → ∃ m'', m'.exec w fuel c' = .ok m'' ∧ ∀ a, SameReads m m'' a := by
  have hq : p ≠ q ∧ m'.pools q = true ∧ m'.cells = m.cells ∧ (∀ r, m'.owner r = if m.owner r = some q then some p else m.owner r) := by
    rcases hc with rfl | rfl
    · simp only [Mem.exec] at e
      split at e
      · rename_i h; cases e; exact ⟨h.2.2, h.2.1, rfl, fun _ => rfl⟩
      · cases e
    · simp only [Mem.exec] at e
      split at e
      · rename_i h
        cases e
        refine ⟨fun hpq => h.1 (hpq ▸ (Or.inl h.2)), ?_, rfl, fun _ => rfl⟩
        show upd _ _ _ _ = true
        unfold upd
        split
        · rfl
        · exact h.2
      · cases e
  obtain ⟨h1, h2, h3, h4⟩ := hq
  have ho : ∀ r, m'.owner r = none ↔ m.owner r = none := fun r => by
    rw [h4]; split
    · rename_i h; simp [h]
    · rfl
  have hne : ∀ r, m'.owner r ≠ some q := fun r => by
    rw [h4]; split
    · intro h; cases h; exact h1 rfl
    · rename_i h; exact h
  refine ⟨fun a => sameReads_of fun r _ => load_same h3 (ho r), fun c' hc' => ?_⟩
  have hf : c'.freed = some q := by rcases hc' with rfl | rfl <;> rfl
  have hex : ∃ m'', m'.exec w fuel c' = .ok m'' := by
    rcases hc' with rfl | rfl
    · simp only [Mem.exec]; rw [if_pos h2]; exact ⟨_, rfl⟩
    · simp only [Mem.exec]; rw [if_pos h2]; exact ⟨_, rfl⟩
  obtain ⟨m'', hm⟩ := hex
  obtain ⟨g1, _, g3⟩ := freed_exec hf hm
  exact ⟨m'', hm, fun a => sameReads_of fun r _ => load_same (g1.trans h3) ((g3 r (hne r)).trans (ho r))⟩

/-- C69. `p = std::move(q)` is possible for any two different pools.  Besides ending the life of the objects of `p` (`C69_freed`) it keeps
those of `q`, also when `q` is cleared or destroyed afterwards; when `p` is, they end. -/
theorem C69_assigned (w : Cfg) (fuel : Nat) (m : Mem) (p q : Nat) (hp : m.pools p = true) (hq : m.pools q = true) (hpq : p ≠ q) :
    ∃ m', m.exec w fuel (.assignPool p q) = .ok m' ∧
    (∀ c', c' = .clearPool q ∨ c' = .destroyPool q → ∃ m'', m'.exec w fuel c' = .ok m'' ∧
      ∀ a, (∀ r, Reaches m a r → m.owner r ≠ some p) → SameReads m m'' a) ∧
    ∀ c', c' = .clearPool p ∨ c' = .destroyPool p → ∃ m'', m'.exec w fuel c' = .ok m'' ∧
      (∀ r, m.owner r = some p ∨ m.owner r = some q → m''.load (some r) = .error (.ub .useAfterDestroy)) ∧
      ∀ a, (∀ r, Reaches m a r → m.owner r ≠ some p ∧ m.owner r ≠ some q) → SameReads m m'' a := by
  let m' : Mem := { m with owner := fun r => if m.owner r = some p then none else if m.owner r = some q then some p else m.owner r }
  have h4 : ∀ r, m'.owner r = if m.owner r = some p then none else if m.owner r = some q then some p else m.owner r := fun _ => rfl
  have ho : ∀ r, m.owner r ≠ some p → (m'.owner r = none ↔ m.owner r = none) := fun r hr => by
    rw [h4, if_neg hr]; split
    · rename_i h; simp [h]
    · rfl
  have hne : ∀ r, m'.owner r ≠ some q := fun r => by
    rw [h4]; split
    · exact fun h => nomatch h
    · split
      · intro h; cases h; exact hpq rfl
      · assumption
  refine ⟨m', by simp only [Mem.exec]; rw [if_pos ⟨hp, hq, hpq⟩], fun c' hc' => ?_, fun c' hc' => ?_⟩
  · have hf : c'.freed = some q := by rcases hc' with rfl | rfl <;> rfl
    have hex : ∃ m'', m'.exec w fuel c' = .ok m'' := by
      rcases hc' with rfl | rfl
      · simp only [Mem.exec]; rw [if_pos hq]; exact ⟨_, rfl⟩
      · simp only [Mem.exec]; rw [if_pos hq]; exact ⟨_, rfl⟩
    obtain ⟨m'', hm⟩ := hex
    obtain ⟨g1, _, g3⟩ := freed_exec hf hm
    exact ⟨m'', hm, fun a ha => sameReads_of fun r hr => load_same (m := m) g1 ((g3 r (hne r)).trans (ho r (ha r hr)))⟩
  · have hf : c'.freed = some p := by rcases hc' with rfl | rfl <;> rfl
    have hex : ∃ m'', m'.exec w fuel c' = .ok m'' := by
      rcases hc' with rfl | rfl
      · simp only [Mem.exec]; rw [if_pos hp]; exact ⟨_, rfl⟩
      · simp only [Mem.exec]; rw [if_pos hp]; exact ⟨_, rfl⟩
    obtain ⟨m'', hm⟩ := hex
    obtain ⟨g1, g2, g3⟩ := freed_exec hf hm
    refine ⟨m'', hm, fun r hr => ?_, fun a ha => sameReads_of fun r hr => load_same (m := m) g1 ?_⟩
    · have : m''.owner r = none := by
        rcases hr with hr | hr
        · by_cases h : m'.owner r = some p
          · exact g2 r h
          · exact (g3 r h).2 (by rw [h4, if_pos hr])
        · refine g2 r ?_
          rw [h4, if_neg (by rw [hr]; intro h; cases h; exact hpq rfl), if_pos hr]
      simp only [Mem.load, this]
    · obtain ⟨h1, h2⟩ := ha r hr
      have h5 : m'.owner r ≠ some p := by rw [h4, if_neg h1, if_neg h2]; exact h1
      exact (g3 r h5).trans (ho r h1)

/-- C69. `Clear`, the destructor, `Merge` with another pool and the construction of one pool from another are possible for every pool
that exists. -/
theorem C69_possible (w : Cfg) (fuel : Nat) (m : Mem) (p : Nat) (hp : m.pools p = true) :
    (∃ m', m.exec w fuel (.clearPool p) = .ok m' ∧ m'.pools p = true) ∧ (∃ m', m.exec w fuel (.destroyPool p) = .ok m' ∧ m'.pools p = false) ∧
    (∀ q, m.pools q = true → q ≠ p → ∃ m', m.exec w fuel (.mergePool p q) = .ok m' ∧ m'.pools = m.pools) ∧
    ∀ q, m.pools q = false → m.frames q = false → ∃ m', m.exec w fuel (.movePool q p) = .ok m' ∧ m'.pools q = true ∧ m'.pools p = true := by
  refine ⟨?_, ?_, fun q hq hqp => ?_, fun q hq hf => ?_⟩
  · simp only [Mem.exec]; rw [if_pos hp]; exact ⟨_, rfl, hp⟩
  · simp only [Mem.exec]; rw [if_pos hp]; exact ⟨_, rfl, upd_same _ _ _⟩
  · simp only [Mem.exec]; rw [if_pos ⟨hp, hq, Ne.symm hqp⟩]; exact ⟨_, rfl, rfl⟩
  · have hne : p ≠ q := fun h => by rw [h, hq] at hp; cases hp
    simp only [Mem.exec]; rw [if_pos ⟨by rw [hq, hf]; simp, hp⟩]; exact ⟨_, rfl, upd_same _ _ _, (upd_ne _ _ hne).trans hp⟩

/-- C69. But a container goes on allocating from the pool it was made with: once that pool is gone, `Insert` is undefined behaviour, even
if the container itself has been moved to another pool. -/
theorem C69_insert_needs_its_pool (w : Cfg) (fuel : Nat) (m : Mem) (r : Ref) (k : Kind) (p : Nat) (hd : Option Ref) (s : Nat)
    (hr : m.load (some r) = .ok (r, .cont k p hd s)) (hp : m.pools p = false) :
    (k = .array → ∀ x, m.exec w fuel (.insert (some r) x) = .error (.ub .danglingPool)) ∧
    (k ≠ .array → ∀ key x, m.exec w fuel (.insertKey (some r) key x) = .error (.ub .danglingPool)) := by
  have ha : ∀ c, m.alloc p c = .error (.ub .danglingPool) := fun c => by unfold Mem.alloc; rw [hp]; rfl
  have hl : m.loadCont (decide (k = .array)) (some r) = .ok (r, k, p, hd, s) := by
    unfold Mem.loadCont
    rw [hr]
    simp [bind, Except.bind, pure, Except.pure]
  constructor
  · intro h x
    simp only [h, decide_true] at hl
    simp only [Mem.exec, Mem.arrayInsert]
    rw [hl, ok_bind]; dsimp only; rw [ha]; rfl
  · intro h key x
    simp only [h, decide_false] at hl
    simp only [Mem.exec, Mem.mapInsert, Mem.mapPut]
    rw [hl, ok_bind]; dsimp only; rw [ha]; rfl

/-- A tree with parts from two pools; the second pool is then moved into a third one and destroyed. -/
def pools : List Call :=
  [.newPool 0, .newPool 1, .cont 0 0 .array, .cont 1 1 .array, .leaf 2 1 false (.int32 7), .insert (some 1) 2, .insert (some 0) 1,
    .movePool 2 1, .destroyPool 1]

example : ∃ m, Mem.run Cfg.x86 9 {} pools = .ok m ∧ m.index (some 0) 0 = .ok (some 1) ∧ m.size true (some 1) = .ok 1 ∧
    m.load (some 1) = .ok (1, .cont .array 1 (some 3) 1) ∧ m.pools 1 = false ∧ m.owner 1 = some 2 ∧
    ∃ m', m.exec Cfg.x86 9 (.clearPool 2) = .ok m' ∧ m'.index (some 0) 0 = .ok (some 1) ∧ m'.size true (some 1) = .error (.ub .useAfterDestroy) :=
  ⟨_, rfl, rfl, rfl, rfl, rfl, rfl, _, rfl, rfl, rfl⟩

/-- Two pools with an array each; the second is then assigned to the first, and destroyed. -/
def assigned : List Call := [.newPool 0, .newPool 1, .cont 0 0 .array, .cont 1 1 .array, .assignPool 0 1, .destroyPool 1]

example : ∃ m, Mem.run Cfg.x86 9 {} assigned = .ok m ∧ m.size true (some 0) = .error (.ub .useAfterDestroy) ∧ m.size true (some 1) = .ok 0 :=
  ⟨_, rfl, rfl, rfl⟩

end Bridge.Heap
