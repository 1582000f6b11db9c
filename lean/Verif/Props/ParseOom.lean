import Verif.Proof.ParseOomSame
import Verif.Props.Owner
import Verif.Props.RoundTrip
/-
C82: `Parse` when memory runs out.  `Supply` (`Model/ParseOom.lean`) says which requests for memory are refused, and nothing is assumed
about it except where a theorem says so.
-/
set_option autoImplicit false
namespace Bridge.Owner
open Spec

/-- C82. With enough memory it is the `Parse` of the other properties. -/
theorem C82_enough_memory (cfg : Cfg) (po : ParseOption) (fuel : Nat) (content : Bytes) (s : Fr) :
    parseM {} cfg po fuel content s = parseL cfg po fuel content s := by rw [parseM_fine]

/-- C82. A `Parse` that returns although memory is short returns what it returns with enough memory, and leaves the pool of the caller as
it would then be: there are no partial documents.  In particular none of the objects it made had been refused its own memory, its
text or its key. -/
theorem C82_returned_is_complete (sup : Supply) (cfg : Cfg) (po : ParseOption) (fuel : Nat) (content : Bytes) (s s' : Fr) (o : LObj)
    (h : parseM sup cfg po fuel content s = (.ok o, s')) :
    parseL cfg po fuel content s = (.ok o, s') ∧ parse cfg po fuel content = .ok o.erase ∧ sup.tables = true ∧
    ∀ x ∈ s'.made, x ∉ s.made → sup.object x.2 = .fine ∧ (x.1 = .data → sup.leaf x.2 = true) ∧ (x.1 = .mapItem → sup.copy x.2 = true) := by
  obtain ⟨h1, h2⟩ := (rel_parse (sup := sup) cfg po fuel content).ok s o s' h
  refine ⟨h1, ?_, ?_, fun x hx hn => (h2 x hx).resolve_left hn⟩
  · rw [← C57_same_outcome cfg po fuel content s, h1]; rfl
  · unfold parseM at h
    rw [run_bind] at h
    cases ht : sup.tables with
    | true => rfl
    | false => rw [ht] at h; cases h

/-- C82. A call that does not return fails for lack of memory (`std::bad_alloc`, or the construction of an object at the null pointer that
`aligned_alloc` has returned, if it ever does), or as it does with enough memory; or with enough memory it would not end with
an exception either. -/
theorem C82_failure (sup : Supply) (cfg : Cfg) (po : ParseOption) (fuel : Nat) (content : Bytes) (s s' : Fr) (e : Err)
    (h : parseM sup cfg po fuel content s = (.error e, s')) :
    e = .exn .badAlloc ∨ (e = .ub .constructAtNull ∧ ∃ id, sup.object id = .null) ∨ parse cfg po fuel content = .error e ∨
    ∃ e', parse cfg po fuel content = .error e' ∧ ∀ x, e' ≠ .exn x := by
  have ho := C57_same_outcome cfg po fuel content s
  rcases (rel_parse (sup := sup) cfg po fuel content).error s e s' h with (h1 | h1) | h1 | ⟨e', h1, h2⟩
  · exact .inl h1
  · exact .inr (.inl h1)
  · rw [h1] at ho; exact .inr (.inr (.inl ho.symm))
  · rw [h1] at ho; exact .inr (.inr (.inr ⟨e', ho.symm, h2⟩))

/-- C82. So a content that can be parsed gives its document or `std::bad_alloc` as long as `aligned_alloc` does not return a null
pointer, whatever else is refused; and where it does, undefined behaviour is the only further outcome. -/
theorem C82_document_or_bad_alloc (sup : Supply) (cfg : Cfg) (po : ParseOption) (content : Bytes) (o : Obj)
    (hp : Parses cfg po content (.ok o)) : ∃ n, ∀ fuel, n ≤ fuel → ∀ s,
      (∃ l s', parseM sup cfg po fuel content s = (.ok l, s') ∧ l.erase = o) ∨ (parseM sup cfg po fuel content s).1 = .error (.exn .badAlloc) ∨
      ((parseM sup cfg po fuel content s).1 = .error (.ub .constructAtNull) ∧ ∃ id, sup.object id = .null) := by
  obtain ⟨-, n, hn⟩ := hp
  refine ⟨n, fun fuel hf s => ?_⟩
  cases h : parseM sup cfg po fuel content s with
  | mk r s' =>
    cases r with
    | ok l =>
      have h1 := (C82_returned_is_complete sup cfg po fuel content s s' l h).2.1
      rw [hn fuel hf] at h1
      cases h1
      exact .inl ⟨l, s', rfl, rfl⟩
    | error e =>
      rcases C82_failure sup cfg po fuel content s s' e h with rfl | ⟨rfl, h2⟩ | h1 | ⟨e', h1, -⟩
      · exact .inr (.inl rfl)
      · exact .inr (.inr ⟨rfl, h2⟩)
      · rw [hn fuel hf] at h1; cases h1
      · rw [hn fuel hf] at h1; cases h1

/-- C82. What was written and is read back while memory is short is the document that was written, or `std::bad_alloc`. -/
theorem C82_written_document (w r : Cfg) (hw : w.charSigned = true) (t : SeriType) (o : Obj) (d : Doc) (hd : o.doc? = some d)
    (hh : Writable w o) (ref : Bool) (hc : ref = true → d.noCustom = true) (co : Bool) (k : Nat) (hk : 0 < k) (sup : Supply)
    (hnull : ∀ id, sup.object id ≠ .null) :
    ∃ content, serialize w t o = .ok content ∧ (Fits r content → ∃ n, ∀ fuel, n ≤ fuel → ∀ s,
      (∃ l s' d', parseM sup r ⟨co, ref, k⟩ fuel content s = (.ok l, s') ∧ l.erase.doc? = some d' ∧ d.Same d') ∨
      (parseM sup r ⟨co, ref, k⟩ fuel content s).1 = .error (.exn .badAlloc)) := by
  refine ⟨_, serialize_eq hw t hd hh, fun hf => ?_⟩
  have hp : ∃ o' d', Parses r ⟨co, ref, k⟩ (contentOf w t d) (.ok o') ∧ o'.doc? = some d' ∧ d.Same d' := by
    cases co with
    | false =>
      obtain ⟨o1, h1, h2, _⟩ := parses_normal (extra := []) (by simpa using hf) ref hc k
      exact ⟨o1, _, by simpa using h1, h2, same_revMaps d⟩
    | true =>
      obtain ⟨o1, d1, h1, h2, h3, _⟩ := parses_co (extra := []) (by simpa using hf) ref hc hk
      exact ⟨o1, d1, by simpa using h1, h2, h3⟩
  obtain ⟨o', d', h1, h2, h3⟩ := hp
  obtain ⟨n, hn⟩ := C82_document_or_bad_alloc sup r ⟨co, ref, k⟩ _ o' h1
  refine ⟨n, fun fuel hfu s => ?_⟩
  rcases hn fuel hfu s with ⟨l, s', h4, rfl⟩ | h4 | ⟨-, id, h5⟩
  · exact .inl ⟨l, s', d', h4, h2, h3⟩
  · exact .inr h4
  · exact absurd h5 (hnull id)

/-- C82. After a `Parse` that threw, for lack of memory or otherwise, everything that was in the pool of the caller still is, and what the
call made was destroyed exactly once or is in the pool of the caller.  The recursive parser destroys nothing.  The parallel parser leaves
the pool of the caller as it was, unless it is the last merge, into that pool, that is interrupted. -/
theorem C82_exception_leaves_no_orphans (sup : Supply) (cfg : Cfg) (po : ParseOption) (fuel : Nat) (content : Bytes) (s s' : Fr) (x : Exn)
    (ht : Tidy s) (h : parseM sup cfg po fuel content s = (.error (.exn x), s')) :
    (∀ y ∈ s.bp.all, y ∈ s'.bp.all) ∧ Tidy s' ∧ (Call.parallel cfg ⟨content, po⟩ = false → s'.gone = s.gone) ∧
    (Call.parallel cfg ⟨content, po⟩ = true → sup.child (s.next :: s.path) = none → s'.bp = s.bp) := by
  have h1 := sat_parseM sup cfg po fuel content s [] [] [] s (Step.refl s)
  rw [h] at h1
  obtain ⟨own, out, gone, hst, hout⟩ := h1
  have hout := hout x rfl
  subst hout
  refine ⟨fun y hy => hst.pool.mem_iff.2 (List.mem_append.2 (.inl hy)), tidy_step ht hst, fun hp => ?_, fun hp hch => ?_⟩
  · unfold parseM at h
    rw [run_bind] at h
    rcases need_cases sup.tables with ⟨-, ht⟩ | ⟨-, ht⟩ <;> rw [ht] at h
    rotate_left
    · simp only [Owner.lift, Prod.mk.injEq] at h; rw [h.2]
    simp only [run_bind, Owner.lift] at h
    cases hi : initFromContent cfg content with
    | error e => rw [hi] at h; simp only [Prod.mk.injEq] at h; rw [h.2]
    | ok sc =>
      rw [hi] at h
      simp only at h
      cases hc : po.coroutine with
      | false =>
        rw [hc] at h
        simp only [Bool.false_eq_true, if_false] at h
        have := spares_normalM sup cfg po.parseRef fuel content sc s
        rw [h] at this
        exact this
      | true =>
        rw [hc] at h
        have hsp : sc.split = false := by
          cases hs : sc.split with
          | false => rfl
          | true => rw [parallel_iff.2 ⟨hc, sc, hi, hs⟩] at hp; cases hp
        simp only [if_true, coroutineM, hsp] at h
        rw [run_bind] at h
        simp only [Owner.lift, hi] at h
        have := spares_normalM sup cfg po.parseRef fuel content sc s
        rw [h] at this
        exact this
  · obtain ⟨hc, sc, hi, hsp⟩ := parallel_iff.1 hp
    unfold parseM at h
    rw [run_bind] at h
    rcases need_cases sup.tables with ⟨-, ht⟩ | ⟨-, ht⟩ <;> rw [ht] at h
    rotate_left
    · simp only [Owner.lift, Prod.mk.injEq] at h; rw [h.2]
    simp only [run_bind, Owner.lift] at h
    simp only at hi hc
    rw [hi] at h
    simp only [hc, if_true, coroutineM, hsp, Bool.true_eq_false, if_false] at h
    split at h
    · cases h
    · rw [run_bind] at h
      cases ha : awaitM sup ((cssM sup cfg (View.whole content) sc.sm sc.si po.parseRef fuel).map metaSize) s with
      | mk r s2 =>
        rw [ha] at h
        cases r with
        | ok b => simp [run_pure] at h
        | error e =>
          simp only [Prod.mk.injEq, Except.error.injEq] at h
          obtain ⟨-, rfl⟩ := h
          exact awaitM_error ha hch

/-- Several calls that parse into one pool, each with what the memory does during it. -/
def parseAllM (cfg : Cfg) (fuel : Nat) : List (Call × Supply) → Fr → Fr
  | [], s => s
  | c :: cs, s => parseAllM cfg fuel cs (parseM c.2 cfg c.1.opt fuel c.1.content s).2

/-- C82. After any number of calls into one pool, each of which returns or throws when there is enough memory and none of which was
handed a null pointer, destroying the pool destroys everything that was made exactly once, counting what was destroyed before:
running out of memory leaks nothing and destroys nothing twice. -/
theorem C82_history_exactly_once (cfg : Cfg) (fuel : Nat) (calls : List (Call × Supply))
    (hcalls : ∀ c ∈ calls, ∀ e, parse cfg c.1.opt fuel c.1.content = .error e → ∃ x, e = .exn x)
    (hnull : ∀ c ∈ calls, ∀ id, c.2.object id ≠ .null) :
    let s := parseAllM cfg fuel calls {}
    Tidy s ∧ (s.gone ++ s.bp.all).Perm s.made ∧ (s.gone ++ s.bp.all).Nodup := by
  have key : ∀ (calls : List (Call × Supply)) (s : Fr), Tidy s →
      (∀ c ∈ calls, ∀ e, parse cfg c.1.opt fuel c.1.content = .error e → ∃ x, e = .exn x) → (∀ c ∈ calls, ∀ id, c.2.object id ≠ .null) →
      Tidy (parseAllM cfg fuel calls s) := by
    intro calls
    induction calls with
    | nil => intro s h _ _; exact h
    | cons c cs ih =>
      intro s hs hc hn
      refine ih _ ?_ (fun c' hc' => hc c' (List.mem_cons_of_mem _ hc')) fun c' hc' => hn c' (List.mem_cons_of_mem _ hc')
      cases hp : parseM c.2 cfg c.1.opt fuel c.1.content s with
      | mk r s' =>
        cases r with
        | ok o =>
          have h1 := (C82_returned_is_complete c.2 cfg c.1.opt fuel c.1.content s s' o hp).1
          exact (C57_owned_by_caller cfg c.1.opt fuel c.1.content s s' o hs h1).2.2.2.2
        | error e =>
          have he : ∃ x, e = .exn x := by
            rcases C82_failure c.2 cfg c.1.opt fuel c.1.content s s' e hp with rfl | ⟨-, id, h2⟩ | h1 | ⟨e', h1, h2⟩
            · exact ⟨_, rfl⟩
            · exact absurd h2 (hn c List.mem_cons_self id)
            · exact hc c List.mem_cons_self e h1
            · obtain ⟨x, hx⟩ := hc c List.mem_cons_self e' h1
              exact absurd hx (h2 x)
          obtain ⟨x, rfl⟩ := he
          exact (C82_exception_leaves_no_orphans c.2 cfg c.1.opt fuel c.1.content s s' x hs hp).2.1
  intro s
  have ht : Tidy s := key calls {} tidy_new hcalls hnull
  have hp : (s.gone ++ s.bp.all).Perm s.made := by
    rw [List.perm_iff_count]
    intro x
    have := List.perm_iff_count.1 ht.accounts x
    simp only [List.count_append] at this ⊢
    omega
  exact ⟨ht, hp, hp.nodup_iff.2 ht.once⟩

/-- C82. An in-situ `Parse` of a content without a dictionary asks for no memory for texts and keys: whether there is any does not
matter. -/
theorem C82_in_situ_needs_no_text (sup : Supply) (cfg : Cfg) (po : ParseOption) (href : po.parseRef = true) (fuel : Nat) (content : Bytes)
    (hsm : ∀ sc, initFromContent cfg content = .ok sc → sc.sm = none) (s : Fr) (leaf key copy : Path → Bool) :
    parseM { sup with leaf, key, copy } cfg po fuel content s = parseM sup cfg po fuel content s := by
  have h : ∀ sup : Supply, parseM sup.untexted cfg po fuel content = parseM sup cfg po fuel content := by
    intro sup
    funext s
    unfold parseM
    rw [run_bind, run_bind]
    have hu : sup.untexted.tables = sup.tables := rfl
    rw [hu]
    rcases need_cases sup.tables with ⟨-, ht⟩ | ⟨-, ht⟩ <;> rw [ht]
    rotate_left
    · rfl
    simp only [Owner.lift, run_bind]
    cases hi : initFromContent cfg content with
    | error e => rfl
    | ok sc =>
      have h0 := hsm sc hi
      simp only [href, coroutineM, normalM, h0, pvsM_untexted, cssM_untexted, hi]
      have hn : ∀ m, awaitM sup.untexted m = awaitM sup m := fun m => rfl
      simp only [hn, Owner.lift]
      split
      · split
        · simp only [run_bind, Owner.lift, h0, pvsM_untexted]
        · rfl
      · rfl
  rw [← h sup, ← h { sup with leaf, key, copy }]
  rfl

/-! ### Examples -/

/-- Outcome (0: a result, 1: `std::bad_alloc`, 2: another exception, 3: undefined behaviour, 4: anything else), then the number of objects that
can be reached from the result, in the pool, made and destroyed. -/
def demoOom (sup : Supply) (po : ParseOption) (content : Bytes) : Nat × Nat × Nat × Nat × Nat :=
  let r := parseM sup Cfg.x86 po 50 content {}
  (match r.1 with | .ok _ => 0 | .error (.exn .badAlloc) => 1 | .error (.exn _) => 2 | .error (.ub _) => 3 | .error _ => 4,
   match r.1 with | .ok o => o.objects.length | .error _ => 0, r.2.bp.all.length, r.2.made.length, r.2.gone.length)

/-- The one request is refused. -/
def allBut (p : Path) : Path → Bool := fun x => x ≠ p
def oneObject (p : Path) (g : Grant) : Supply := { object := fun x => if x = p then g else .fine }
def cutAt (p : Path) (j n : Nat) : Path → Option (Nat × Nat) := fun x => if x = p then some (j, n) else none
/-- `splitSample` with a dictionary. -/
def replaceSample : Bytes := (serialize { Cfg.x86 with blockSize := 10 } .replace sampleObj).toOption.getD []

/-- The tables of the header. -/
example : demoOom { tables := false } ⟨true, false, 2⟩ splitSample = (1, 0, 0, 0, 0) := by decide +kernel

/-- The recursive parser leaves what it had made in the pool of the caller: the object, the text of a leaf, that of a key and the copy of
a key. -/
example : demoOom (oneObject [5] .throws) ⟨false, false, 1⟩ splitSample = (1, 0, 5, 5, 0) ∧
    demoOom (oneObject [6] .throws) ⟨false, false, 1⟩ splitSample = (1, 0, 6, 6, 0) ∧
    demoOom (oneObject [9] .throws) ⟨false, false, 1⟩ splitSample = (1, 0, 9, 9, 0) ∧
    demoOom { leaf := allBut [5] } ⟨false, false, 1⟩ splitSample = (1, 0, 6, 6, 0) ∧
    demoOom { key := allBut [8] } ⟨false, false, 1⟩ splitSample = (1, 0, 8, 8, 0) ∧
    demoOom { copy := allBut [9] } ⟨false, false, 1⟩ splitSample = (1, 0, 10, 10, 0) := by decide +kernel

/-- An object at the null pointer. -/
example : demoOom (oneObject [5] .null) ⟨false, false, 1⟩ splitSample = (3, 0, 5, 5, 0) ∧
    demoOom (oneObject [2, 0, 0, 1, 0, 1, 0] .null) ⟨true, false, 2⟩ splitSample = (3, 0, 0, 6, 4) := by decide +kernel

/-- The parallel parser destroys what it had made: an item of the list of a block, the root map, the array of an awaited container
(after its blocks), a leaf, a key and the copy of a key in a block. -/
example : demoOom (oneObject [3, 0, 0, 1, 0, 1, 0] .throws) ⟨true, false, 2⟩ splitSample = (1, 0, 0, 8, 8) ∧
    demoOom (oneObject [0, 0] .throws) ⟨true, false, 2⟩ splitSample = (1, 0, 0, 0, 0) ∧
    demoOom (oneObject [1, 0, 1, 0, 1, 0] .throws) ⟨true, false, 2⟩ splitSample = (1, 0, 0, 8, 8) ∧
    demoOom (oneObject [1, 2, 0, 1, 0] .throws) ⟨true, false, 2⟩ splitSample = (1, 0, 0, 9, 9) := by decide +kernel
example : demoOom { leaf := allBut [2, 0, 0, 1, 0, 1, 0] } ⟨true, false, 2⟩ splitSample = (1, 0, 0, 8, 8) ∧
    demoOom { key := allBut [0, 2, 0, 1, 0] } ⟨true, false, 2⟩ splitSample = (1, 0, 0, 8, 8) ∧
    demoOom { copy := allBut [1, 2, 0, 1, 0] } ⟨true, false, 2⟩ splitSample = (1, 0, 0, 10, 10) := by decide +kernel

/-- The frames of the root, of a block and of an awaited container, and the tasks of a map and of an array. -/
example : demoOom { frame := allBut [0] } ⟨true, false, 2⟩ splitSample = (1, 0, 0, 0, 0) ∧
    demoOom { frame := allBut [2, 0, 1, 0] } ⟨true, false, 2⟩ splitSample = (1, 0, 0, 8, 8) ∧
    demoOom { frame := allBut [0, 0, 1, 0, 1, 0] } ⟨true, false, 2⟩ splitSample = (1, 0, 0, 5, 5) ∧
    demoOom { frame := allBut [0, 1, 0, 1, 0] } ⟨true, false, 2⟩ splitSample = (1, 0, 0, 4, 4) ∧
    demoOom { tasks := allBut [0] } ⟨true, false, 2⟩ splitSample = (1, 0, 0, 1, 1) ∧
    demoOom { tasks := allBut [0, 1, 0, 1, 0] } ⟨true, false, 2⟩ splitSample = (1, 0, 0, 4, 4) := by decide +kernel

/-- A merge that is interrupted: into the pool of the caller, which then holds the five objects that had been moved, into that of a
coroutine from an awaited container, and into that of a container from a block. -/
example : demoOom { child := cutAt [0] 3 1 } ⟨true, false, 2⟩ splitSample = (1, 0, 5, 11, 6) ∧
    demoOom { child := cutAt [0, 1, 0, 1, 0] 3 1 } ⟨true, false, 2⟩ splitSample = (1, 0, 0, 9, 9) ∧
    demoOom { block := cutAt [1, 0, 1, 0] 0 1 } ⟨true, false, 2⟩ splitSample = (1, 0, 0, 10, 10) ∧
    demoOom { block := cutAt [0, 0, 1, 0, 1, 0] 0 1 } ⟨true, false, 2⟩ splitSample = (1, 0, 0, 9, 9) := by decide +kernel

/-- Without a dictionary an in-situ parse needs no text; with one, and in an owning parse, it does. -/
example : demoOom { leaf := fun _ => false, key := fun _ => false, copy := fun _ => false } ⟨true, true, 2⟩ splitSample = (0, 9, 11, 11, 0) ∧
    (∀ sc, initFromContent Cfg.x86 splitSample = .ok sc → sc.sm = none) ∧
    demoOom { leaf := fun _ => false } ⟨true, true, 2⟩ replaceSample = (1, 0, 0, 5, 5) ∧
    demoOom { key := fun _ => false } ⟨false, true, 2⟩ replaceSample = (1, 0, 1, 1, 0) ∧
    demoOom { copy := fun _ => false } ⟨true, true, 2⟩ replaceSample = (0, 9, 11, 11, 0) := by
  refine ⟨by decide +kernel, fun sc h => ?_, by decide +kernel, by decide +kernel, by decide +kernel⟩
  have h1 : (initFromContent Cfg.x86 splitSample).toOption.all (fun sc => sc.sm.isNone) = true := by decide +kernel
  rw [h] at h1
  exact Option.isNone_iff_eq_none.1 h1

/-- Four calls into one pool: one returns, two run out of memory, and one returns. -/
example : (let s := parseAllM Cfg.x86 50 [(⟨splitSample, ⟨true, false, 2⟩⟩, {}), (⟨splitSample, ⟨true, false, 2⟩⟩, { child := cutAt [1] 3 1 }),
      (⟨splitSample, ⟨false, false, 1⟩⟩, oneObject [5] .throws), (⟨splitSample, ⟨false, true, 2⟩⟩, {})] {}
    (s.bp.all.length, s.made.length, s.gone.length)) = (30, 36, 6) := by decide +kernel

end Bridge.Owner
