import Verif.Proof.PoolOom
/-
C75: the object pool when memory runs out.  The specification is `Spec/Oom.lean`.
-/
set_option autoImplicit false
namespace Bridge.Pool
open Spec

theorem ledger_part {l : Ledger} {gone : List Nat} (h : LInv l gone) {p q : Nat} (hpq : p ≠ q) {i1 i2 : List Nat} (hown : l.owned q = i1 ++ i2) :
    LInv ⟨l.made, fun x => if x = q then i2 else if x = p then l.owned p ++ i1 else l.owned x⟩ gone := by
  have hq : ∀ id, id ∈ i1 ∨ id ∈ i2 ↔ id ∈ l.owned q := fun id => by rw [hown, List.mem_append]
  have hnd := h.each q
  rw [hown, List.nodup_append] at hnd
  have hm : ∀ x id, id ∈ (if x = q then i2 else if x = p then l.owned p ++ i1 else l.owned x) →
      (x = q ∧ id ∈ i2) ∨ (x = p ∧ id ∈ i1) ∨ (x ≠ q ∧ id ∈ l.owned x) := by
    intro x id hx
    split at hx
    · rename_i e; exact .inl ⟨e, hx⟩
    · rename_i e
      split at hx
      · rename_i e2
        rcases List.mem_append.mp hx with hx | hx
        · exact .inr (.inr ⟨e, by rw [e2]; exact hx⟩)
        · exact .inr (.inl ⟨e2, hx⟩)
      · exact .inr (.inr ⟨e, hx⟩)
  refine ⟨h.once, ?_, ?_, ?_, ⟨h.small.1, ?_⟩, ?_⟩
  · intro x
    simp only
    split
    · exact hnd.2.1
    · split
      · rw [List.nodup_append]
        exact ⟨h.each p, hnd.1, fun a ha b hb e => h.apart p q hpq a ha (by rw [e]; exact (hq b).mp (.inl hb))⟩
      · exact h.each x
  · intro x y hxy id hx0 hy0
    have hx1 := hm x id hx0
    have hy1 := hm y id hy0
    clear hx0 hy0
    rcases hx1 with ⟨rfl, hx⟩ | ⟨rfl, hx⟩ | ⟨ex, hx⟩
    · rcases hy1 with ⟨rfl, hy⟩ | ⟨rfl, hy⟩ | ⟨ey, hy⟩
      · exact hxy rfl
      · exact hnd.2.2 id hy id hx rfl
      · exact h.apart _ _ (Ne.symm ey) id ((hq id).mp (.inr hx)) hy
    · rcases hy1 with ⟨rfl, hy⟩ | ⟨rfl, hy⟩ | ⟨ey, hy⟩
      · exact hnd.2.2 id hx id hy rfl
      · exact hxy rfl
      · exact h.apart _ _ (Ne.symm ey) id ((hq id).mp (.inl hx)) hy
    · rcases hy1 with ⟨rfl, hy⟩ | ⟨rfl, hy⟩ | ⟨ey, hy⟩
      · exact h.apart _ _ ex id hx ((hq id).mp (.inr hy))
      · exact h.apart _ _ ex id hx ((hq id).mp (.inl hy))
      · exact h.apart _ _ hxy id hx hy
  · intro x id hx0
    have hx1 := hm x id hx0
    clear hx0
    rcases hx1 with ⟨rfl, hx⟩ | ⟨rfl, hx⟩ | ⟨ex, hx⟩
    · exact h.alive _ id ((hq id).mp (.inr hx))
    · exact h.alive _ id ((hq id).mp (.inl hx))
    · exact h.alive _ id hx
  · intro x id hx0
    have hx1 := hm x id hx0
    clear hx0
    rcases hx1 with ⟨rfl, hx⟩ | ⟨rfl, hx⟩ | ⟨ex, hx⟩
    · exact h.small.2 _ id ((hq id).mp (.inr hx))
    · exact h.small.2 _ id ((hq id).mp (.inl hx))
    · exact h.small.2 _ id hx
  · intro id hid
    rcases h.all id hid with hg | ⟨x, hx⟩
    · exact .inl hg
    · refine .inr ?_
      by_cases e : x = q
      · subst e
        rcases (hq id).mpr hx with hx | hx
        · exact ⟨p, by simp [hpq, hx]⟩
        · exact ⟨x, by simp [hx]⟩
      · by_cases e2 : x = p
        · subst e2; exact ⟨x, by simp [e, hx]⟩
        · exact ⟨x, by simp [e, e2, hx]⟩

theorem does_linv {l l' : Ledger} {gone more : List Nat} (h : LInv l gone) {op : OomOp} {o : OomOut} (hd : OomDoes l op o l' more) (hop : op.ok) :
    LInv l' (gone ++ more) := by
  cases hd with
  | made p => exact ledger_step h (.alloc p false) trivial
  | threw p => simpa using h
  | full p => simpa using h
  | merged p q => exact ledger_step h (.merge p q) hop
  | part p q k ids i1 i2 hown => rw [List.append_nil]; exact ledger_part h hop hown
  | cleared p => exact ledger_step h (.clear p) trivial
  | moved p q => exact ledger_step h (.move p q) trivial

theorem history_linv {ops : List OomOp} : ∀ {l l' : Ledger} {gone more : List Nat} {outs : List OomOut}, LInv l gone →
    OomHistory l ops outs l' more → (∀ op ∈ ops, op.ok) → LInv l' (gone ++ more) := by
  induction ops with
  | nil => intro l l' gone more outs h hh _; cases hh; simpa using h
  | cons op ops ih =>
    intro l l' gone more outs h hh hok
    cases hh with
    | cons hd ht =>
      rw [← List.append_assoc]
      exact ih (does_linv h hd (hok op List.mem_cons_self)) ht (fun x hx => hok x (List.mem_cons_of_mem _ hx))

/-- The operations that were carried out before the fault, if there was one. -/
theorem oom_run (ma : Malloc) (req : Bool) : ∀ (ops : List OomOp) (w : World) (l : Ledger) (addrs : List (Nat × Nat)), Inv w.real l addrs →
    (∀ op ∈ ops, op.ok) → ∃ outs w' f l' gone did rest, runOom ma req w ops = (outs, w', f) ∧ ops = did ++ rest ∧ did.length = outs.length ∧
      OomHistory l did outs l' gone ∧ outs.flatMap OomOut.destroyed = (if req then gone else []) ∧ Inv w'.real l' (addrs ++ outs.flatMap OomOut.addr) ∧
      ((f = none ∧ rest = []) ∨ (f = some .badConstruct ∧ ∃ p throws buf vec post, rest = .alloc p throws buf vec :: post ∧
        ((buf = false ∧ vec = true) ∨ Trap (w'.pools p)))) := by
  intro ops
  induction ops with
  | nil => intro w l addrs hi _; exact ⟨[], w, none, l, [], [], [], rfl, rfl, rfl, .nil l, by simp, by simpa using hi, .inl ⟨rfl, rfl⟩⟩
  | cons op ops ih =>
    intro w l addrs hi hok
    rcases oom_step ma req hi op (hok op List.mem_cons_self) with ⟨o, w1, l1, gone, e1, e2, e3, e4⟩ | ⟨e1, p, throws, buf, vec, e2, e3⟩
    · obtain ⟨outs, w', f, l', gone', did, rest, f1, f2, f3, f4, f5, f6, f7⟩ := ih w1 l1 _ e4 (fun x hx => hok x (List.mem_cons_of_mem _ hx))
      refine ⟨o :: outs, w', f, l', gone ++ gone', op :: did, rest, ?_, by rw [f2]; rfl, by simp [f3], .cons e2 f4, ?_, ?_, f7⟩
      · simp only [runOom, e1, f1]
      · simp only [List.flatMap_cons, e3, f5]; cases req <;> simp
      · simpa [List.append_assoc] using f6
    · exact ⟨[], w, some .badConstruct, l, [], [], op :: ops, by simp only [runOom, e1], rfl, rfl, .nil l, by simp, by simpa using hi,
        .inr ⟨rfl, p, throws, buf, vec, ops, by rw [e2], e3⟩⟩

theorem real_empty : World.real {} = {} := rfl

/-- C75. Whatever allocation fails, whenever, and however often: until an `Alloc` writes through a null pointer - and up to that moment if one
does - the pools do to the objects what `OomHistory` says, nothing else goes wrong, and every object is destroyed exactly once or still
belongs to exactly one pool, at the address that its `Alloc` returned. -/
theorem C75_nothing_lost (ma : Malloc) (ops : List OomOp) (hok : ∀ op ∈ ops, op.ok) :
    ∃ outs w f l gone did rest, runOom ma true {} ops = (outs, w, f) ∧ ops = did ++ rest ∧ (f = none → rest = []) ∧
      (∀ e, f = some e → e = .badConstruct ∧ ∃ p throws buf vec post, rest = .alloc p throws buf vec :: post) ∧
      OomHistory {} did outs l gone ∧ outs.flatMap OomOut.destroyed = gone ∧ gone.Nodup ∧ l.made = (outs.flatMap OomOut.addr).length ∧
      (∀ id, id < l.made → id ∈ gone ∨ ∃ p, id ∈ l.owned p) ∧
      ∀ p, (l.owned p).Nodup ∧ ∀ id ∈ l.owned p, id ∉ gone ∧ (∀ q, q ≠ p → id ∉ l.owned q) ∧
        ∃ b i, (outs.flatMap OomOut.addr)[id]? = some (b, i) ∧ b ∈ w.heap.live ∧ w.heap.cell b i = some id := by
  obtain ⟨outs, w, f, l, gone, did, rest, h1, h2, -, h4, h5, h6, h7⟩ := oom_run ma true ops {} {} [] inv_empty hok
  simp only [List.nil_append, if_true] at h5 h6
  have hl := history_linv (l := {}) (gone := []) ⟨List.nodup_nil, fun _ => List.nodup_nil, by simp, by simp, by simp, by simp⟩ h4
    (fun op hop => hok op (by rw [h2]; exact List.mem_append.mpr (.inl hop)))
  rw [List.nil_append] at hl
  refine ⟨outs, w, f, l, gone, did, rest, h1, h2, ?_, ?_, h4, h5, hl.once, by rw [h6.count, h6.made], hl.all, fun p => ⟨hl.each p, fun id hid =>
    ⟨hl.alive p id hid, fun q hq => hl.apart p q (Ne.symm hq) id hid, ?_⟩⟩⟩
  · intro hf
    rcases h7 with ⟨-, h⟩ | ⟨h, -⟩
    · exact h
    · rw [hf] at h; cases h
  · intro e he
    rcases h7 with ⟨h, -⟩ | ⟨h, p, t, b, v, post, h', -⟩
    · rw [he] at h; cases h
    · rw [he] at h; cases h; exact ⟨rfl, p, t, b, v, post, h'⟩
  · have hc := (h6.pools p).cells
    have hm : some id ∈ (w.real.pools p).flatMap (slots w.heap) := by
      have hc' : (w.real.pools p).flatMap (slots w.heap) = (l.owned p).map some := hc
      rw [hc']; exact List.mem_map.mpr ⟨id, hid, rfl⟩
    obtain ⟨b, hb, hs⟩ := List.mem_flatMap.mp hm
    obtain ⟨buf, hbuf, hlv, -, -⟩ := (h6.pools p).blocks b hb
    simp only [slots, hbuf, List.mem_map, List.mem_range] at hs
    obtain ⟨i, hi, hcell⟩ := hs
    exact ⟨buf, i, h6.addrs p b hb buf hbuf i hi id hcell, hlv, hcell⟩

/-- C75. Clearing the pools afterwards gives everything back: when all of them are empty, no buffer is allocated any more; and clearing one
never fails, also after failures. -/
theorem C75_memory_returned (ma : Malloc) (req : Bool) (ops : List OomOp) (hok : ∀ op ∈ ops, op.ok) :
    ((∀ p, (runOom ma req {} ops).2.1.pools p = []) → (runOom ma req {} ops).2.1.heap.live = []) ∧
    ∀ p, ∃ ids w', execOom ma req (runOom ma req {} ops).2.1 (.clear p) = .ok (⟨none, ids, false⟩, w') ∧ w'.pools p = [] := by
  obtain ⟨outs, w, f, l, gone, did, rest, h1, -, -, -, -, h6, -⟩ := oom_run ma req ops {} {} [] inv_empty hok
  rw [h1]
  refine ⟨fun hp => ?_, fun p => ?_⟩
  · apply List.eq_nil_iff_forall_not_mem.mpr
    intro b hb
    obtain ⟨p, c, hc, -⟩ := h6.noleak b hb
    have : w.real.pools p = [] := by show real (w.pools p) = []; rw [hp p]; rfl
    rw [this] at hc
    cases hc
  · obtain ⟨h', e1, -⟩ := clear_inv (req := req) h6 p
    have e1' : destroyAll req (real (w.pools p)) w.heap = .ok (if req then l.owned p else [], h') := e1
    refine ⟨if req then l.owned p else [], ⟨h', w.put p []⟩, ?_, by simp [World.put]⟩
    simp only [execOom]
    rw [destroyAll_real, e1']

/-- C75. An `Alloc` that `std::bad_alloc` leaves has changed nothing: no pool, no object, and the temporary buffer is given back. -/
theorem C75_bad_alloc_changes_nothing (ma : Malloc) (req : Bool) (w w' : World) (p : Nat) (throws buf vec : Bool) (o : OomOut)
    (he : execOom ma req w (.alloc p throws buf vec) = .ok (o, w')) (hb : o.badAlloc = true) :
    o.result = none ∧ o.destroyed = [] ∧ w'.pools = w.pools ∧ w'.heap.live = w.heap.live ∧
      ∀ b ∈ w.heap.live, ∀ i, w'.heap.cell b i = w.heap.cell b i := by
  have hsame : w.put p (w.pools p) = w.pools := by
    funext x; simp only [World.put]; split
    · rename_i hx; rw [hx]
    · rfl
  simp only [execOom, poolAllocOom] at he
  split at he
  · cases he
  · rename_i o' bs h' heq
    simp only [Except.ok.injEq, Prod.mk.injEq] at he
    obtain ⟨rfl, rfl⟩ := he
    split at heq
    · cases vec with
      | true =>
        simp only [if_true] at heq
        split at heq
        · cases heq
        · split at heq
          · cases heq
          · cases heq; cases hb
      | false =>
        cases buf with
        | false =>
          cases heq
          exact ⟨rfl, rfl, hsame, rfl, fun _ _ _ => rfl⟩
        | true =>
          have hfresh := ma.fresh w.heap.time w.heap.live
          have hmk : Block.makeOom ma true (capacityFor (w.pools p).length) w.heap =
            (⟨some (ma.pick w.heap.time w.heap.live), 0, capacityFor (w.pools p).length⟩,
              { w.heap with live := ma.pick w.heap.time w.heap.live :: w.heap.live, time := w.heap.time + 1 }) :=
            if_pos (capacityFor_pos _)
          rw [hmk] at heq
          generalize ma.pick w.heap.time w.heap.live = nb at hfresh heq
          have hd : (⟨some nb, 0, capacityFor (w.pools p).length⟩ : Block).destroy req { w.heap with live := nb :: w.heap.live, time := w.heap.time + 1 } =
              .ok ([], { w.heap with live := w.heap.live, time := w.heap.time + 1, cell := fun b j => if b = nb then none else w.heap.cell b j }) := by
            cases req <;> simp [Block.destroy, destructorProxy, destructFrom, Heap.free]
          simp only [Bool.false_eq_true, if_false, hd] at heq
          cases heq
          refine ⟨rfl, rfl, hsame, rfl, fun b hb i => ?_⟩
          have : b ≠ nb := fun e => hfresh (e ▸ hb)
          simp [this]
    · split at heq
      · cases heq
      · cases heq; cases hb

/-- The careful histories: no `Merge` is interrupted while it takes blocks from a pool that an earlier interrupted `Merge` has left behind. -/
def Careful (ops : List OomOp) : Prop := CarefulFrom (fun _ => false) ops

theorem careful_run (ma : Malloc) (req : Bool) : ∀ (ops : List OomOp) (hol : Nat → Bool) (w : World) (l : Ledger) (addrs : List (Nat × Nat)),
    Inv w.real l addrs → Hol hol w → (∀ op ∈ ops, op.ok) → CarefulFrom hol ops → ∀ e, (runOom ma req w ops).2.2 = some e →
      e = .badConstruct ∧ ∃ p throws, .alloc p throws false true ∈ ops := by
  intro ops
  induction ops with
  | nil => intro hol w l addrs _ _ _ _ e he; cases he
  | cons op ops ih =>
    intro hol w l addrs hi hh hok hc e he
    rcases oom_step ma req hi op (hok op List.mem_cons_self) with ⟨o, w1, l1, gone, e1, -, -, e4⟩ | ⟨e1, p, throws, buf, vec, e2, e3⟩
    · simp only [runOom, e1] at he
      obtain ⟨h1, p, t, h2⟩ := ih _ w1 l1 _ e4 (hol_step hi hh (hok op List.mem_cons_self) hc.1 e1) (fun x hx => hok x (List.mem_cons_of_mem _ hx)) hc.2 e he
      exact ⟨h1, p, t, List.mem_cons_of_mem _ h2⟩
    · simp only [runOom, e1, Option.some.injEq] at he
      rcases e3 with ⟨rfl, rfl⟩ | h
      · exact ⟨he.symm, p, throws, by rw [e2]; exact List.mem_cons_self⟩
      · exact absurd h (hh.noTrap p)

/-- C75. If `aligned_alloc` does not fail - or only when the vector of blocks cannot grow either, so that `std::bad_alloc` comes first - a
careful program runs into nothing undefined: failing allocations are exceptions, and the program can go on. -/
theorem C75_exceptions_only (ma : Malloc) (req : Bool) (ops : List OomOp) (hok : ∀ op ∈ ops, op.ok) (hc : Careful ops)
    (hbuf : ∀ p throws, .alloc p throws false true ∉ ops) :
    (runOom ma req {} ops).2.2 = none ∧ (runOom ma req {} ops).1.length = ops.length := by
  have hf : (runOom ma req {} ops).2.2 = none := by
    cases h : (runOom ma req {} ops).2.2 with
    | none => rfl
    | some e =>
      obtain ⟨-, p, t, hm⟩ := careful_run ma req ops (fun _ => false) {} {} [] inv_empty ⟨(fun _ _ _ hb => by cases hb), (fun _ _ hb => by cases hb)⟩ hok hc e h
      exact absurd hm (hbuf p t)
  obtain ⟨outs, w, f, l, gone, did, rest, h1, h2, h3, -, -, -, h7⟩ := oom_run ma req ops {} {} [] inv_empty hok
  refine ⟨hf, ?_⟩
  rw [h1] at hf ⊢
  simp only at hf
  subst hf
  rcases h7 with ⟨-, rfl⟩ | ⟨h, -⟩
  · rw [h2, List.append_nil, h3]
  · cases h

/-- C75. The result of `aligned_alloc` is not looked at: an `Alloc` for which it returns null either did not need it (and is as if it had
succeeded) or constructs the object at a null pointer.  A pool without blocks always needs it. -/
theorem C75_null_is_not_checked (ma : Malloc) (req : Bool) (w : World) (p : Nat) (throws : Bool) :
    (execOom ma req w (.alloc p throws false true) = execOom ma req w (.alloc p throws true true) ∨
      execOom ma req w (.alloc p throws false true) = .error .badConstruct) ∧
    (w.pools p = [] → execOom ma req w (.alloc p throws false true) = .error .badConstruct) := by
  have hne : ∀ n, ¬ (0 = capacityFor n) := fun n => by have := capacityFor_pos n; omega
  have key : ((w.pools p).isEmpty || ((w.pools p).getLast?.map Block.full).getD false) = true →
      execOom ma req w (.alloc p throws false true) = .error .badConstruct := by
    intro hc
    simp only [execOom, poolAllocOom, hc, if_true, vecPush_eq]
    simp [Block.makeOom, backAlloc, Block.alloc, Block.full, hne]
  refine ⟨?_, fun h => key (by rw [h]; rfl)⟩
  cases hc : (w.pools p).isEmpty || ((w.pools p).getLast?.map Block.full).getD false with
  | true => exact .inr (key (by rw [hc]))
  | false => exact .inl (by simp only [execOom, poolAllocOom, hc, Bool.false_eq_true, if_false])

/-- The memory never runs out: the model of C36 and C37. -/
theorem C75_same_as_without (ma : Malloc) (req : Bool) (w : World) (op : Op) :
    execOom ma req w (match op with
      | .alloc p throws => .alloc p throws true true
      | .merge p q => .merge p q none
      | .clear p => .clear p
      | .move p q => .move p q) = (exec ma req w op).map fun r => (⟨r.1.result, r.1.destroyed, false⟩, r.2) := by
  cases op with
  | alloc p throws =>
    simp only [execOom, exec, poolAllocOom, poolAlloc, Block.makeOom, if_true]
    by_cases hc : ((w.pools p).isEmpty || ((w.pools p).getLast?.map Block.full).getD false) = true
    · simp only [if_pos hc, vecPush_eq]
      generalize backAlloc throws _ _ = q
      cases q <;> rfl
    · simp only [if_neg hc]
      generalize backAlloc throws _ _ = q
      cases q <;> rfl
  | merge p q =>
    simp only [execOom, exec, poolMergeOom]
    split
    · rfl
    · simp only [poolMerge_eq]; rfl
  | clear p =>
    simp only [execOom, exec]
    cases destroyAll req (w.pools p) w.heap <;> rfl
  | move p q =>
    simp only [execOom, exec]
    split
    · rfl
    · cases destroyAll req (w.pools p) w.heap <;> rfl

/-! ### examples -/

/-- Pool 1 gets three objects in two blocks; its merge into pool 0 is interrupted after the first block; an allocation in pool 0 fails; both
pools go on, and everything is destroyed once. -/
def oomSample : List OomOp :=
  [.alloc 1 false true true, .alloc 1 false true true, .alloc 1 false true true, .merge 0 1 (some 1), .alloc 0 false true false,
    .alloc 0 false true true, .alloc 1 false true true, .merge 0 1 none, .clear 1, .clear 0]

example : (∀ op ∈ oomSample, op.ok) ∧ Careful oomSample ∧ ∀ p throws, .alloc p throws false true ∉ oomSample := by
  refine ⟨?_, ?_, ?_⟩
  · intro op hop
    simp only [oomSample, List.mem_cons, List.not_mem_nil, or_false] at hop
    rcases hop with rfl | rfl | rfl | rfl | rfl | rfl | rfl | rfl | rfl | rfl <;> simp [OomOp.ok]
  · simp [Careful, oomSample, CarefulFrom, hollowStep]
  · intro p t h
    simp [oomSample] at h

example : (runOom lowest true {} oomSample).1.map (fun o => (o.result, o.destroyed, o.badAlloc)) =
    [(some (.ptr 0 0), [], false), (some (.ptr 0 1), [], false), (some (.ptr 1 0), [], false), (none, [], true), (none, [], true),
      (some (.ptr 2 0), [], false), (some (.ptr 1 1), [], false), (none, [], false), (none, [], false), (none, [0, 1, 3, 2, 4], false)] := by
  decide +kernel

/-- C75. Two interrupted merges one after the other are not safe, although no `aligned_alloc` failed: the second one gives the pool a hollow block
that looks as if it had room, and the next `Alloc` constructs an object in it. -/
theorem C75_interrupted_twice : ∃ ops : List OomOp, (∀ op ∈ ops, op.ok) ∧ (∀ p throws vec, .alloc p throws false vec ∉ ops) ∧
    ∀ (ma : Malloc) (req : Bool), (runOom ma req {} ops).2.2 = some .badConstruct := by
  refine ⟨[.alloc 1 false true true, .alloc 2 false true true, .merge 1 2 none, .merge 0 1 (some 1), .merge 3 1 (some 1), .alloc 3 false true true], ?_, ?_, ?_⟩
  · intro op hop
    simp only [List.mem_cons, List.not_mem_nil, or_false] at hop
    rcases hop with rfl | rfl | rfl | rfl | rfl | rfl <;> simp [OomOp.ok]
  · intro p t v h
    simp at h
  · intro ma req
    simp [runOom, execOom, poolAllocOom, Block.makeOom, Block.make, capacityFor, capacities, vecPush_eq, backAlloc, Block.alloc, Block.full, setLast,
      World.put, poolMergeOom, poolMerge_eq, mergeLoop_eq, Block.move]

end Bridge.Pool
