import Verif.Proof.Owner
import Verif.Props.Process
/-
C57: who owns what `Parse` makes.
-/
set_option autoImplicit false
namespace Bridge.Owner

/-- The accounts are in order: everything made so far is in the pool or was destroyed, exactly one of the two and once, and no
identity of the future is in use. -/
structure Tidy (s : Fr) : Prop where
  accounts : s.made.Perm (s.bp.all ++ s.gone)
  once : s.made.Nodup
  past : ∀ x ∈ s.made, Within s.path 0 s.next x.2

theorem tidy_new : Tidy {} := ⟨by simp [BPool.all], by simp, by simp⟩

theorem tidy_step {s s' : Fr} {own gone : List Oid} (h : Tidy s) (hs : Step s s' own [] gone) : Tidy s' := by
  obtain ⟨made, e, hm⟩ := hs.made
  refine ⟨?_, ?_, ?_⟩
  · rw [e, List.perm_iff_count]
    intro x
    have c1 := List.perm_iff_count.1 hm x
    have c2 := List.perm_iff_count.1 h.accounts x
    have c3 := List.perm_iff_count.1 hs.pool x
    have c4 := List.perm_iff_count.1 hs.lost x
    simp only [List.count_append, List.count_nil] at c1 c2 c3 c4 ⊢
    omega
  · rw [e, List.nodup_append]
    refine ⟨h.once, hm.nodup_iff.2 hs.nodup, fun x hx y hy hxy => ?_⟩
    subst hxy
    exact (h.past x hx).apart (hs.within x (hm.mem_iff.1 hy)) (Nat.le_refl _)
  · intro x hx
    rw [e] at hx
    rw [hs.path]
    rcases List.mem_append.1 hx with hx | hx
    · exact (h.past x hx).mono (Nat.le_refl _) hs.next
    · exact (hs.within x (hm.mem_iff.1 hx)).mono (Nat.zero_le _) (Nat.le_refl _)

/-- C57. The parsers with pools have the same outcomes as those without: what follows is about every `Parse`. -/
theorem C57_same_outcome (cfg : Cfg) (po : ParseOption) (fuel : Nat) (content : Bytes) (s : Fr) :
    emap LObj.erase (parseL cfg po fuel content s).1 = parse cfg po fuel content := er_parse cfg po fuel content s

/-- C57. After a `Parse` that returns, by either parser, owning or in situ, every object and list item that can be reached from
the result is in the pool of the caller, in the pool of its type, none of them occurs twice, none was there before, everything
that was in the pool before still is, and nothing at all has been destroyed. -/
theorem C57_owned_by_caller (cfg : Cfg) (po : ParseOption) (fuel : Nat) (content : Bytes) (s s' : Fr) (o : LObj) (ht : Tidy s)
    (h : parseL cfg po fuel content s = (.ok o, s')) :
    (∀ x ∈ o.objects, x ∈ s'.bp.all ∧ x ∉ s.bp.all) ∧ o.objects.Nodup ∧ (∀ x ∈ s.bp.all, x ∈ s'.bp.all) ∧
    s'.gone.Perm s.gone ∧ Tidy s' := by
  have h1 := sat_parse cfg po fuel content s [] [] [] s (Step.refl s)
  rw [h] at h1
  obtain ⟨new, ⟨l, hl, hsub⟩, hst⟩ := h1
  simp only [List.nil_append] at hst
  have hnew : ∀ x ∈ o.objects, x ∈ new := fun x hx => hl.mem_iff.2 (hsub.subset hx)
  have hnd : new.Nodup := by simpa using hst.nodup
  refine ⟨fun x hx => ⟨hst.pool.mem_iff.2 (List.mem_append.2 (.inr (hnew x hx))), fun hold => ?_⟩,
    (hl.nodup_iff.1 hnd).sublist hsub, fun x hx => hst.pool.mem_iff.2 (List.mem_append.2 (.inl hx)), by simpa using hst.lost, tidy_step ht hst⟩
  have h2 := ht.past x (ht.accounts.mem_iff.2 (List.mem_append.2 (.inl hold)))
  exact h2.apart (hst.within x (by simpa using hnew x hx)) (Nat.le_refl _)

/-- C57. After a `Parse` that throws, everything that was in the pool of the caller still is, and what the parse made was destroyed
exactly once or is in the pool of the caller (and will be destroyed with it).  A parallel parse leaves the pool of the caller
as it was; any other destroys nothing. -/
theorem C57_exception_leaves_no_orphans (cfg : Cfg) (po : ParseOption) (fuel : Nat) (content : Bytes) (s s' : Fr) (x : Exn)
    (ht : Tidy s) (h : parseL cfg po fuel content s = (.error (.exn x), s')) :
    (∀ x ∈ s.bp.all, x ∈ s'.bp.all) ∧ Tidy s' ∧
    (Call.parallel cfg ⟨content, po⟩ = true → s'.bp = s.bp) ∧ (Call.parallel cfg ⟨content, po⟩ = false → s'.gone = s.gone) := by
  have h1 := sat_parse cfg po fuel content s [] [] [] s (Step.refl s)
  rw [h] at h1
  obtain ⟨own, out, gone, hst, hout⟩ := h1
  have hout := hout x rfl
  subst hout
  refine ⟨fun y hy => hst.pool.mem_iff.2 (List.mem_append.2 (.inl hy)), tidy_step ht hst, fun hp => ?_, fun hp => ?_⟩
  · obtain ⟨hc, sc, hi, hsp⟩ := parallel_iff.1 hp
    unfold parseL at h
    simp only [run_bind, Owner.lift] at h
    simp only at hi hc
    rw [hi] at h
    simp only [hc, if_true, coroutineL, hsp, Bool.true_eq_false, if_false] at h
    split at h
    · cases h
    · rw [run_bind] at h
      cases ha : await ((css cfg (View.whole content) sc.sm sc.si po.parseRef fuel).map metaSize) s with
      | mk r s2 =>
        rw [ha] at h
        cases r with
        | ok b => simp [run_pure] at h
        | error e =>
          simp only [Prod.mk.injEq, Except.error.injEq] at h
          obtain ⟨-, rfl⟩ := h
          exact await_error ha
  · unfold parseL at h
    simp only [run_bind, Owner.lift] at h
    cases hi : initFromContent cfg content with
    | error e => rw [hi] at h; simp only [Prod.mk.injEq] at h; rw [h.2]
    | ok sc =>
      rw [hi] at h
      simp only at h
      cases hc : po.coroutine with
      | false =>
        rw [hc] at h
        simp only [Bool.false_eq_true, if_false] at h
        have := spares_normal cfg po.parseRef fuel content sc s
        rw [h] at this
        exact this
      | true =>
        rw [hc] at h
        have hsp : sc.split = false := by
          cases hs : sc.split with
          | false => rfl
          | true => rw [parallel_iff.2 ⟨hc, sc, hi, hs⟩] at hp; cases hp
        simp only [if_true, coroutineL, hsp] at h
        rw [run_bind] at h
        simp only [Owner.lift, hi] at h
        have := spares_normal cfg po.parseRef fuel content sc s
        rw [h] at this
        exact this

/-- Several calls that parse into one pool. -/
def parseAllL (cfg : Cfg) (fuel : Nat) : List Call → Fr → Fr
  | [], s => s
  | c :: cs, s => parseAllL cfg fuel cs (parseL cfg c.opt fuel c.content s).2

/-- C57. After any number of calls into one pool, each of which returned or threw, destroying the pool destroys everything that was
made exactly once, counting what was destroyed before. -/
theorem C57_history_exactly_once (cfg : Cfg) (fuel : Nat) (calls : List Call)
    (hcalls : ∀ c ∈ calls, ∀ e, parse cfg c.opt fuel c.content = .error e → ∃ x, e = .exn x) :
    let s := parseAllL cfg fuel calls {}
    Tidy s ∧ (s.gone ++ s.bp.all).Perm s.made ∧ (s.gone ++ s.bp.all).Nodup := by
  have key : ∀ (calls : List Call) (s : Fr), Tidy s →
      (∀ c ∈ calls, ∀ e, parse cfg c.opt fuel c.content = .error e → ∃ x, e = .exn x) → Tidy (parseAllL cfg fuel calls s) := by
    intro calls
    induction calls with
    | nil => intro s h _; exact h
    | cons c cs ih =>
      intro s hs hc
      refine ih _ ?_ fun c' hc' => hc c' (List.mem_cons_of_mem _ hc')
      have ho := C57_same_outcome cfg c.opt fuel c.content s
      cases hp : parseL cfg c.opt fuel c.content s with
      | mk r s' =>
        rw [hp] at ho
        cases r with
        | ok o => exact (C57_owned_by_caller cfg c.opt fuel c.content s s' o hs hp).2.2.2.2
        | error e =>
          obtain ⟨x, rfl⟩ := hc c List.mem_cons_self e ho.symm
          exact (C57_exception_leaves_no_orphans cfg c.opt fuel c.content s s' x hs hp).2.1
  intro s
  have ht : Tidy s := key calls {} tidy_new hcalls
  have hp : (s.gone ++ s.bp.all).Perm s.made := by
    rw [List.perm_iff_count]
    intro x
    have := List.perm_iff_count.1 ht.accounts x
    simp only [List.count_append] at this ⊢
    omega
  exact ⟨ht, hp, hp.nodup_iff.2 ht.once⟩

/-! ### Examples -/

/-- Outcome (0: a result, 1: an exception, 2: anything else), then the number of objects that can be reached from the result, in the pool,
made and destroyed. -/
def demoRun (po : ParseOption) (content : Bytes) : Nat × Nat × Nat × Nat × Nat :=
  let r := parseL Cfg.x86 po 50 content {}
  (match r.1 with | .ok _ => 0 | .error (.exn _) => 1 | .error _ => 2,
   match r.1 with | .ok o => o.objects.length | .error _ => 0, r.2.bp.all.length, r.2.made.length, r.2.gone.length)

/-- The split sample, parsed in parallel, owning and in situ, and by the recursive parser: eleven objects are made; nine can still be
reached once the value has been moved out of the root map. -/
example : demoRun ⟨true, false, 2⟩ splitSample = (0, 9, 11, 11, 0) := by decide +kernel
example : demoRun ⟨true, true, 2⟩ splitSample = (0, 9, 11, 11, 0) := by decide +kernel
example : demoRun ⟨false, true, 2⟩ splitSample = (0, 9, 11, 11, 0) := by decide +kernel

/-- With one byte damaged the blocks of the parallel parser make nine objects before one of them throws, and destroy them all; the
recursive parser leaves nine in the pool of the caller. -/
example : demoRun ⟨true, false, 2⟩ (splitSample.set 40 9) = (1, 0, 0, 9, 9) := by decide +kernel
example : demoRun ⟨false, false, 2⟩ (splitSample.set 40 9) = (1, 0, 9, 9, 0) := by decide +kernel

/-- Three calls into one pool, the second of which throws. -/
example : (let s := parseAllL Cfg.x86 50 [⟨splitSample, ⟨true, false, 2⟩⟩, ⟨splitSample.set 40 9, ⟨true, false, 2⟩⟩,
      ⟨splitSample, ⟨false, true, 2⟩⟩] {}
    (s.bp.all.length, s.made.length, s.gone.length)) = (22, 31, 9) := by decide +kernel

end Bridge.Owner
