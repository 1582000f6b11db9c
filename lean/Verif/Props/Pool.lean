import Verif.Proof.Pool
/-
C36, C37: the object pool.  The specification is `Spec/Ledger.lean`.
-/
set_option autoImplicit false
namespace Bridge.Pool
open Spec

theorem run_inv (ma : Malloc) (req : Bool) : ∀ (ops : List Op) (w : World) (l : Ledger) (addrs : List (Nat × Nat)),
    Inv w l addrs → (∀ op ∈ ops, op.ok) →
    ∃ outs w', run ma req w ops = .ok (outs, w') ∧ Inv w' (l.run (ops.map Op.spec)).1 (addrs ++ outs.flatMap Out.addr) ∧
      outs.map Out.destroyed = (l.run (ops.map Op.spec)).2.map (fun d => if req then d else []) ∧
      (∀ (n p : Nat), ops[n]? = some (.alloc p false) → ∃ o b i, outs[n]? = some o ∧ o.result = some (.ptr b i)) ∧
      (∀ (n p : Nat), ops[n]? = some (.alloc p true) → ∃ o, outs[n]? = some o ∧ o.result = some .threw) := by
  intro ops
  induction ops with
  | nil => intro w l addrs hi _; exact ⟨[], w, rfl, by simpa [Ledger.run] using hi, rfl, by simp, by simp⟩
  | cons op ops ih =>
    intro w l addrs hi hok
    obtain ⟨o, w1, e1, e2, e3, e4, e5⟩ := exec_inv ma req hi op (hok op List.mem_cons_self)
    obtain ⟨outs, w2, f1, f2, f3, f4, f5⟩ := ih w1 _ _ e3 (fun x hx => hok x (List.mem_cons_of_mem _ hx))
    refine ⟨o :: outs, w2, by simp only [run, e1, f1], ?_, ?_, ?_, ?_⟩
    · simpa [Ledger.run, List.append_assoc] using f2
    · simp only [List.map_cons, Ledger.run, e2, f3]
    · intro n p hn
      cases n with
      | zero =>
        simp only [List.getElem?_cons_zero, Option.some.injEq] at hn
        obtain ⟨b, i, h⟩ := e4 p hn
        exact ⟨o, b, i, rfl, h⟩
      | succ n => simpa using f4 n p (by simpa using hn)
    · intro n p hn
      cases n with
      | zero =>
        simp only [List.getElem?_cons_zero, Option.some.injEq] at hn
        exact ⟨o, rfl, e5 p hn⟩
      | succ n => simpa using f5 n p (by simpa using hn)

/-! ### C36 -/

/-- C36. After any history of `Alloc`, `Merge`, `Clear`, destruction and moves of any number of pools, whatever buffers
`std::aligned_alloc` chose: nothing went wrong on the way; no `Alloc` returned null (one whose constructor throws passes on the
exception); and every object that still belongs to a pool is where its `Alloc` said, in memory that has not been freed, and at
an address of its own.  `Fault`s are placement new outside a live buffer, destruction of a slot without an object and `free` of
a buffer that is not allocated. -/
theorem C36_distinct_live_slots (ma : Malloc) (req : Bool) (ops : List Op) (hok : ∀ op ∈ ops, op.ok) :
    ∃ outs w, run ma req {} ops = .ok (outs, w) ∧
      (∀ (n p : Nat), ops[n]? = some (.alloc p false) → ∃ o b i, outs[n]? = some o ∧ o.result = some (.ptr b i)) ∧
      (∀ (n p : Nat), ops[n]? = some (.alloc p true) → ∃ o, outs[n]? = some o ∧ o.result = some .threw) ∧
      (∀ p, ∀ id ∈ (({} : Ledger).run (ops.map Op.spec)).1.owned p, ∃ b i, (outs.flatMap Out.addr)[id]? = some (b, i) ∧
        b ∈ w.heap.live ∧ w.heap.cell b i = some id) ∧
      (∀ p q, ∀ id ∈ (({} : Ledger).run (ops.map Op.spec)).1.owned p,
        ∀ id' ∈ (({} : Ledger).run (ops.map Op.spec)).1.owned q,
        (outs.flatMap Out.addr)[id]? = (outs.flatMap Out.addr)[id']? → id = id') := by
  obtain ⟨outs, w, h1, h2, -, h4, h5⟩ := run_inv ma req ops {} {} [] inv_empty hok
  simp only [List.nil_append] at h2
  have hold : ∀ p, ∀ id ∈ (({} : Ledger).run (ops.map Op.spec)).1.owned p, ∃ b i, (outs.flatMap Out.addr)[id]? = some (b, i) ∧
        b ∈ w.heap.live ∧ w.heap.cell b i = some id := by
    intro p id hid
    have hc := (h2.pools p).cells
    have hm : some id ∈ (w.pools p).flatMap (slots w.heap) := by
      rw [hc]; exact List.mem_map.mpr ⟨id, hid, rfl⟩
    obtain ⟨b, hb, hs⟩ := List.mem_flatMap.mp hm
    obtain ⟨buf, hbuf, hl, -, -⟩ := (h2.pools p).blocks b hb
    simp only [slots, hbuf, List.mem_map, List.mem_range] at hs
    obtain ⟨i, hi, hcell⟩ := hs
    exact ⟨buf, i, h2.addrs p b hb buf hbuf i hi id hcell, hl, hcell⟩
  refine ⟨outs, w, h1, h4, h5, hold, ?_⟩
  intro p q id hid id' hid' he
  obtain ⟨b, i, a1, -, a3⟩ := hold p id hid
  obtain ⟨b', i', c1, -, c3⟩ := hold q id' hid'
  rw [a1, c1] at he
  simp only [Option.some.injEq, Prod.mk.injEq] at he
  obtain ⟨rfl, rfl⟩ := he
  rw [a3] at c3
  simpa using c3

/-- An allocator that always takes the lowest number not in use, so that freed buffers are reused at once. -/
def lowest : Malloc where
  pick := fun _ live => ((List.range (live.length + 1)).find? (fun b => b ∉ live)).getD (live.sum + 1)
  fresh := by
    intro _ live
    cases h : (List.range (live.length + 1)).find? (fun b => b ∉ live) with
    | some b =>
      have := List.find?_some h
      simpa using this
    | none =>
      simp only [Option.getD_none]
      have hle : ∀ x ∈ live, x ≤ live.sum := by
        intro x hx
        clear h
        induction live with
        | nil => cases hx
        | cons y ys ih =>
          simp only [List.sum_cons]
          rcases List.mem_cons.mp hx with rfl | hx
          · omega
          · have := ih hx; omega
      intro hm
      have := hle _ hm
      omega

/-- Three allocations (the third in a second block, the second one failing at first), a merge into another pool, a clear that
destroys all, and an allocation that gets a freed buffer. -/
example :
    (run lowest true {} [.alloc 0 false, .alloc 0 true, .alloc 0 false, .alloc 0 false, .alloc 1 false, .merge 1 0, .alloc 1 false,
        .clear 0, .clear 1, .alloc 0 false]).map (fun r => r.1) =
      .ok [⟨some (.ptr 0 0), []⟩, ⟨some .threw, []⟩, ⟨some (.ptr 0 1), []⟩, ⟨some (.ptr 1 0), []⟩, ⟨some (.ptr 2 0), []⟩,
        ⟨none, []⟩, ⟨some (.ptr 1 1), []⟩, ⟨none, []⟩, ⟨none, [3, 0, 1, 2, 4]⟩, ⟨some (.ptr 0 0), []⟩] := by
  simp [Except.map]; rfl

/-! ### C37 -/

/-- A ledger in order: every object made so far was given up exactly once (`gone`) or belongs to exactly one pool. -/
structure LInv (l : Ledger) (gone : List Nat) : Prop where
  once : gone.Nodup
  each : ∀ p, (l.owned p).Nodup
  apart : ∀ p q, p ≠ q → ∀ id ∈ l.owned p, id ∉ l.owned q
  alive : ∀ p, ∀ id ∈ l.owned p, id ∉ gone
  small : (∀ id ∈ gone, id < l.made) ∧ ∀ p, ∀ id ∈ l.owned p, id < l.made
  all : ∀ id, id < l.made → id ∈ gone ∨ ∃ p, id ∈ l.owned p

theorem ledger_clear {l : Ledger} {gone : List Nat} (h : LInv l gone) (p : Nat) :
    LInv ⟨l.made, fun x => if x = p then [] else l.owned x⟩ (gone ++ l.owned p) := by
  have hm : ∀ x id, id ∈ (if x = p then [] else l.owned x) → x ≠ p ∧ id ∈ l.owned x := by
    intro x id hx; split at hx
    · cases hx
    · exact ⟨by assumption, hx⟩
  refine ⟨?_, ?_, ?_, ?_, ⟨?_, ?_⟩, ?_⟩
  · rw [List.nodup_append]
    exact ⟨h.once, h.each p, fun a ha b hb he => h.alive p b hb (he ▸ ha)⟩
  · intro x; simp only; split
    · exact List.nodup_nil
    · exact h.each x
  · intro x y hxy id hx hy
    exact h.apart x y hxy id (hm x id hx).2 (hm y id hy).2
  · intro x id hx hg
    obtain ⟨h1, h2⟩ := hm x id hx
    rcases List.mem_append.mp hg with hg | hg
    · exact h.alive x id h2 hg
    · exact h.apart x p h1 id h2 hg
  · intro id hid
    rcases List.mem_append.mp hid with hid | hid
    · exact h.small.1 id hid
    · exact h.small.2 p id hid
  · intro x id hx; exact h.small.2 x id (hm x id hx).2
  · intro id hid
    rcases h.all id hid with hg | ⟨x, hx⟩
    · exact .inl (List.mem_append.mpr (.inl hg))
    · by_cases hxp : x = p
      · subst hxp; exact .inl (List.mem_append.mpr (.inr hx))
      · exact .inr ⟨x, by simpa [hxp] using hx⟩

theorem ledger_merge {l : Ledger} {gone : List Nat} (h : LInv l gone) {p q : Nat} (hpq : p ≠ q) :
    LInv ⟨l.made, fun x => if x = q then [] else if x = p then l.owned p ++ l.owned q else l.owned x⟩ gone := by
  have hm : ∀ x id, id ∈ (if x = q then [] else if x = p then l.owned p ++ l.owned q else l.owned x) →
      x ≠ q ∧ ((x = p ∧ (id ∈ l.owned p ∨ id ∈ l.owned q)) ∨ (x ≠ p ∧ id ∈ l.owned x)) := by
    intro x id hx
    split at hx
    · cases hx
    · refine ⟨by assumption, ?_⟩
      split at hx
      · exact .inl ⟨by assumption, List.mem_append.mp hx⟩
      · exact .inr ⟨by assumption, hx⟩
  refine ⟨h.once, ?_, ?_, ?_, ⟨h.small.1, ?_⟩, ?_⟩
  · intro x; simp only; split
    · exact List.nodup_nil
    · split
      · rw [List.nodup_append]
        exact ⟨h.each p, h.each q, fun a ha b hb he => h.apart p q hpq a ha (he ▸ hb)⟩
      · exact h.each x
  · intro x y hxy id hx hy
    have hx1 := hm x id hx
    have hy1 := hm y id hy
    clear hx hy
    obtain ⟨hxq, hx⟩ := hx1
    obtain ⟨hyq, hy⟩ := hy1
    rcases hx with ⟨rfl, hx⟩ | ⟨hxp, hx⟩
    · rcases hy with ⟨rfl, hy⟩ | ⟨hyp, hy⟩
      · exact hxy rfl
      · rcases hx with hx | hx
        · exact h.apart _ _ (Ne.symm hyp) id hx hy
        · exact h.apart _ _ (Ne.symm hyq) id hx hy
    · rcases hy with ⟨rfl, hy⟩ | ⟨hyp, hy⟩
      · rcases hy with hy | hy
        · exact h.apart _ _ hxp id hx hy
        · exact h.apart _ _ hxq id hx hy
      · exact h.apart _ _ hxy id hx hy
  · intro x id hx
    obtain ⟨-, hx⟩ := hm x id hx
    rcases hx with ⟨-, hx | hx⟩ | ⟨-, hx⟩
    · exact h.alive p id hx
    · exact h.alive q id hx
    · exact h.alive x id hx
  · intro x id hx
    obtain ⟨-, hx⟩ := hm x id hx
    rcases hx with ⟨-, hx | hx⟩ | ⟨-, hx⟩
    · exact h.small.2 p id hx
    · exact h.small.2 q id hx
    · exact h.small.2 x id hx
  · intro id hid
    rcases h.all id hid with hg | ⟨x, hx⟩
    · exact .inl hg
    · by_cases hxq : x = q
      · subst hxq; exact .inr ⟨p, by simp [hpq, hx]⟩
      · by_cases hxp : x = p
        · subst hxp; exact .inr ⟨x, by simp [hpq, hx]⟩
        · exact .inr ⟨x, by simp [hxq, hxp, hx]⟩

theorem ledger_step {l : Ledger} {gone : List Nat} (h : LInv l gone) (op : Op) (hop : op.ok) :
    LInv (l.step op.spec).1 (gone ++ (l.step op.spec).2) := by
  cases op with
  | alloc p throws =>
    cases throws with
    | true => simpa [Op.spec, Ledger.step] using h
    | false =>
      simp only [Op.spec, Bool.false_eq_true, if_false, Ledger.step, List.append_nil]
      have hm : ∀ x id, id ∈ (if x = p then l.owned p ++ [l.made] else l.owned x) →
          id ∈ l.owned x ∨ (x = p ∧ id = l.made) := by
        intro x id hx
        split at hx
        · rename_i hxp; subst hxp; simpa using hx
        · exact .inl hx
      refine ⟨h.once, ?_, ?_, ?_, ⟨?_, ?_⟩, ?_⟩
      · intro x; simp only; split
        · rw [List.nodup_append]
          refine ⟨h.each p, by simp, ?_⟩
          intro a ha b hb he
          simp only [List.mem_singleton] at hb
          have := h.small.2 p a ha
          omega
        · exact h.each x
      · intro x y hxy id hx hy
        rcases hm x id hx with hx1 | ⟨hx1, hx2⟩
        · rcases hm y id hy with hy1 | ⟨hy1, hy2⟩
          · exact h.apart x y hxy id hx1 hy1
          · have := h.small.2 x _ hx1; omega
        · rcases hm y _ hy with hy1 | ⟨hy1, -⟩
          · have := h.small.2 y _ hy1; omega
          · exact hxy (hx1.trans hy1.symm)
      · intro x id hx hg
        rcases hm x id hx with hx | ⟨rfl, rfl⟩
        · exact h.alive x id hx hg
        · have := h.small.1 _ hg; omega
      · intro id hid; have := h.small.1 id hid; simp only; omega
      · intro x id hx
        rcases hm x id hx with hx | ⟨rfl, rfl⟩
        · have := h.small.2 x id hx; simp only; omega
        · simp only; omega
      · intro id hid
        simp only at hid
        by_cases hlt : id < l.made
        · rcases h.all id hlt with hg | ⟨x, hx⟩
          · exact .inl hg
          · refine .inr ⟨x, ?_⟩
            simp only
            split
            · rename_i hxp; subst hxp; exact List.mem_append.mpr (.inl hx)
            · exact hx
        · have : id = l.made := by omega
          subst this
          exact .inr ⟨p, by simp⟩
  | merge p q => simpa [Op.spec, Ledger.step] using ledger_merge h hop
  | clear p => simpa [Op.spec, Ledger.step] using ledger_clear h p
  | move p q =>
    by_cases hpq : p = q
    · simpa [Op.spec, Ledger.step, hpq] using h
    · have h3 := ledger_merge (ledger_clear h p) hpq
      have hqp : ¬ q = p := fun h => hpq h.symm
      simp only [Op.spec, Ledger.step, hpq, if_false]
      have hl : (fun x => if x = q then [] else if x = p then
          l.owned q else if x = p then [] else l.owned x) =
          (fun x => if x = q then [] else if x = p then l.owned q else l.owned x) := by
        funext x
        by_cases hx : x = q
        · simp [hx]
        · by_cases hx2 : x = p <;> simp [hx, hx2]
      simp only [if_true, hqp, if_false, List.nil_append] at h3
      rw [hl] at h3
      exact h3

theorem ledger_run : ∀ (ops : List Op) (l : Ledger) (gone : List Nat), LInv l gone → (∀ op ∈ ops, op.ok) →
    LInv (l.run (ops.map Op.spec)).1 (gone ++ (l.run (ops.map Op.spec)).2.flatten) := by
  intro ops
  induction ops with
  | nil => intro l gone h _; simpa [Ledger.run] using h
  | cons op ops ih =>
    intro l gone h hok
    have h1 := ih _ _ (ledger_step h op (hok op List.mem_cons_self)) (fun x hx => hok x (List.mem_cons_of_mem _ hx))
    simpa [Ledger.run, List.append_assoc] using h1

/-- C37. For a type that asks for destruction, over any history: each operation destroys precisely the objects of the pool that
is cleared, destroyed or overwritten — those allocated in it or merged into it and not given up before (`Spec/Ledger.lean`) —
and no other operation destroys anything.  Hence no object is destroyed twice, no object is both alive and destroyed, and
every object made is either destroyed or belongs to exactly one pool. -/
theorem C37_destroys_exactly_once (ma : Malloc) (ops : List Op) (hok : ∀ op ∈ ops, op.ok) :
    ∃ outs w, run ma true {} ops = .ok (outs, w) ∧
      outs.map Out.destroyed = (({} : Ledger).run (ops.map Op.spec)).2 ∧
      (outs.flatMap Out.destroyed).Nodup ∧
      (∀ id, id < (({} : Ledger).run (ops.map Op.spec)).1.made →
        id ∈ outs.flatMap Out.destroyed ∨ ∃ p, id ∈ (({} : Ledger).run (ops.map Op.spec)).1.owned p) ∧
      (∀ p, (((({} : Ledger).run (ops.map Op.spec)).1.owned p)).Nodup ∧
        ∀ id ∈ (({} : Ledger).run (ops.map Op.spec)).1.owned p, id ∉ outs.flatMap Out.destroyed ∧
          ∀ q, q ≠ p → id ∉ (({} : Ledger).run (ops.map Op.spec)).1.owned q) := by
  obtain ⟨outs, w, h1, -, h3, -, -⟩ := run_inv ma true ops {} {} [] inv_empty hok
  simp only [if_true, List.map_id'] at h3
  have hl := ledger_run ops {} [] ⟨List.nodup_nil, fun _ => List.nodup_nil, by simp, by simp, by simp, by simp⟩ hok
  rw [List.nil_append, ← h3, ← List.flatMap_def] at hl
  exact ⟨outs, w, h1, h3, hl.once, hl.all, fun p => ⟨hl.each p, fun id hid => ⟨hl.alive p id hid, fun q hq => hl.apart p q (Ne.symm hq) id hid⟩⟩⟩

/-- C37: types that do not ask for destruction are never destroyed. -/
theorem C37_no_destruction_unless_asked (ma : Malloc) (ops : List Op) (hok : ∀ op ∈ ops, op.ok) :
    ∃ outs w, run ma false {} ops = .ok (outs, w) ∧ ∀ o ∈ outs, o.destroyed = [] := by
  obtain ⟨outs, w, h1, -, h3, -, -⟩ := run_inv ma false ops {} {} [] inv_empty hok
  refine ⟨outs, w, h1, ?_⟩
  intro o ho
  have hm : o.destroyed ∈ outs.map Out.destroyed := List.mem_map.mpr ⟨o, ho, rfl⟩
  rw [h3] at hm
  simp only [Bool.false_eq_true, if_false, List.mem_map] at hm
  obtain ⟨_, _, h⟩ := hm
  exact h.symm

/-- C37: the memory too is given back: when no pool owns a block any more, no buffer is allocated any more. -/
theorem C37_memory_returned (ma : Malloc) (req : Bool) (ops : List Op) (hok : ∀ op ∈ ops, op.ok) :
    ∃ outs w, run ma req {} ops = .ok (outs, w) ∧ ((∀ p, w.pools p = []) → w.heap.live = []) ∧
      ∀ p, ∃ w', exec ma req w (.clear p) = .ok (⟨none, if req then (({} : Ledger).run (ops.map Op.spec)).1.owned p else []⟩, w') ∧
        w'.pools p = [] ∧ ∀ q, q ≠ p → w'.pools q = w.pools q := by
  obtain ⟨outs, w, h1, h2, -, -, -⟩ := run_inv ma req ops {} {} [] inv_empty hok
  refine ⟨outs, w, h1, ?_, ?_⟩
  · intro hp
    apply List.eq_nil_iff_forall_not_mem.mpr
    intro b hb
    obtain ⟨p, c, hc, -⟩ := h2.noleak b hb
    rw [hp p] at hc
    cases hc
  · intro p
    obtain ⟨h', e1, -⟩ := clear_inv (req := req) h2 p
    refine ⟨⟨h', w.put p []⟩, by simp only [exec, e1], by simp [World.put], fun q hq => by simp [World.put, hq]⟩

/-- Merging a pool into itself is outside the contract: the vector is appended to while it is iterated over. -/
theorem C36_self_merge_faults (ma : Malloc) (req : Bool) (w : World) (p : Nat) : exec ma req w (.merge p p) = .error .selfMerge := by
  simp [exec]

end Bridge.Pool
