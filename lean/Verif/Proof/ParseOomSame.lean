import Verif.Proof.ParseOom
/-
`Parse` when memory runs out: what returns is what `Parse` returns with enough memory, and nothing else goes wrong than otherwise.
-/
set_option autoImplicit false
namespace Bridge.Owner

/-- The failures that a lack of memory causes. -/
def MemErr (sup : Supply) (e : Err) : Prop := e = .exn .badAlloc ∨ (e = .ub .constructAtNull ∧ ∃ id, sup.object id = .null)

/-- The end is not an exception. -/
def Fatal {α : Type} (r : Res α) : Prop := ∃ e, r = .error e ∧ ∀ x, e ≠ .exn x

/-- Everything the object needed was there. -/
def Served (sup : Supply) (x : Oid) : Prop :=
  sup.object x.2 = .fine ∧ (x.1 = .data → sup.leaf x.2 = true) ∧ (x.1 = .mapItem → sup.copy x.2 = true)

/-- The code `m'` under the supply `sup` against the code `m` with enough memory. -/
structure Rel {α : Type} (sup : Supply) (m' m : M α) : Prop where
  ok : ∀ s a s', m' s = (.ok a, s') → m s = (.ok a, s') ∧ ∀ x ∈ s'.made, x ∈ s.made ∨ Served sup x
  error : ∀ s e s', m' s = (.error e, s') → MemErr sup e ∨ (m s).1 = .error e ∨ Fatal (m s).1

variable {sup : Supply}

theorem rel_pure {α : Type} (a : α) : Rel sup (pure a : M α) (pure a) :=
  ⟨fun s b s' h => by simp only [run_pure, Prod.mk.injEq, Except.ok.injEq] at h; obtain ⟨rfl, rfl⟩ := h; exact ⟨rfl, fun x hx => .inl hx⟩,
   fun s e s' h => by simp [run_pure] at h⟩

theorem rel_lift {α : Type} (r : Res α) : Rel sup (Owner.lift r) (Owner.lift r) := by
  refine ⟨fun s b s' h => ?_, fun s e s' h => ?_⟩
  · simp only [Owner.lift, Prod.mk.injEq] at h
    obtain ⟨rfl, rfl⟩ := h
    exact ⟨rfl, fun x hx => .inl hx⟩
  · simp only [Owner.lift, Prod.mk.injEq] at h
    exact .inr (.inl h.1)

theorem Rel.bind {α β : Type} {m' m : M α} {f' f : α → M β} (h : Rel sup m' m) (hf : ∀ a, Rel sup (f' a) (f a)) :
    Rel sup (m' >>= f') (m >>= f) := by
  constructor
  · intro s b s' e
    rw [run_bind] at e
    cases hm : m' s with
    | mk r s1 =>
      rw [hm] at e
      cases r with
      | error x => cases e
      | ok a =>
        obtain ⟨h1, h2⟩ := h.ok s a s1 hm
        obtain ⟨h3, h4⟩ := (hf a).ok s1 b s' e
        refine ⟨by rw [run_bind, h1]; exact h3, fun x hx => ?_⟩
        rcases h4 x hx with hx | hx
        · exact h2 x hx
        · exact .inr hx
  · intro s x s' e
    rw [run_bind] at e
    cases hm : m' s with
    | mk r s1 =>
      rw [hm] at e
      cases r with
      | error y =>
        simp only [Prod.mk.injEq, Except.error.injEq] at e
        obtain ⟨rfl, rfl⟩ := e
        rcases h.error s y s1 hm with h1 | h1 | ⟨z, h1, h2⟩
        · exact .inl h1
        · refine .inr (.inl ?_)
          rw [run_bind]
          cases hs : m s with
          | mk r t => rw [hs] at h1; simp only at h1; subst h1; rfl
        · refine .inr (.inr ⟨z, ?_, h2⟩)
          rw [run_bind]
          cases hs : m s with
          | mk r t => rw [hs] at h1; simp only at h1; subst h1; rfl
      | ok a =>
        obtain ⟨h1, -⟩ := h.ok s a s1 hm
        rw [run_bind, h1]
        exact (hf a).error s1 x s' e

theorem need_cases (b : Bool) : (b = true ∧ need b = .ok ()) ∨ (b = false ∧ need b = .error (.exn .badAlloc)) := by
  cases b
  · exact .inr ⟨rfl, rfl⟩
  · exact .inl ⟨rfl, rfl⟩

/-- A request: granted, or refused with nothing changed. -/
def Asks (q : M Unit) : Prop := ∀ s, q s = (.ok (), s) ∨ q s = (.error (.exn .badAlloc), s)

theorem asks_need (b : Bool) : Asks (Owner.lift (need b)) := fun s => by
  rcases need_cases b with ⟨-, h⟩ | ⟨-, h⟩ <;> rw [h]
  · exact .inl rfl
  · exact .inr rfl
theorem asks_request (f : Path → Bool) : Asks (request f) := fun s => asks_need (f s.path) s
theorem asks_requestNext (f : Path → Bool) : Asks (requestNext f) := fun s => asks_need (f (s.next :: s.path)) s

/-- A request on top. -/
theorem Rel.need {α : Type} {q : M Unit} (hq : Asks q) {m' m : M α} (h : Rel sup m' m) : Rel sup (q >>= fun _ => m') m := by
  constructor
  · intro s b s' e
    rw [run_bind] at e
    rcases hq s with h1 | h1 <;> rw [h1] at e
    · exact h.ok s b s' e
    · cases e
  · intro s x s' e
    rw [run_bind] at e
    rcases hq s with h1 | h1 <;> rw [h1] at e
    · exact h.error s x s' e
    · simp only [Prod.mk.injEq, Except.error.injEq] at e
      exact .inl (.inl e.1.symm)

/-- An object, and perhaps its text. -/
theorem Rel.alloc {α : Type} (k : Kind) (c : Path → Bool) {g' g : Path → M α} (hg : ∀ i, Rel sup (g' i) (g i))
    (hc : ∀ i, sup.object i = .fine → c i = true → Served sup (k, i)) :
    Rel sup (allocM sup k >>= fun i => Owner.lift (Owner.need (c i)) >>= fun _ => g' i) (Owner.alloc k >>= g) := by
  constructor
  · intro s b s' e
    rw [run_bind] at e
    unfold allocM at e
    cases ho : sup.object (s.next :: s.path) <;> rw [ho] at e
    · simp only [Owner.alloc] at e
      rw [run_bind] at e
      rcases need_cases (c (s.next :: s.path)) with ⟨h0, h1⟩ | ⟨-, h1⟩ <;> simp only [h1, Owner.lift] at e
      · obtain ⟨h2, h3⟩ := (hg _).ok _ b s' e
        refine ⟨by rw [run_bind]; exact h2, fun x hx => ?_⟩
        rcases h3 x hx with hx | hx
        · simp only [List.mem_append, List.mem_singleton] at hx
          rcases hx with hx | rfl
          · exact .inl hx
          · exact .inr (hc _ ho h0)
        · exact .inr hx
      · cases e
    · cases e
    · cases e
  · intro s x s' e
    rw [run_bind] at e
    unfold allocM at e
    cases ho : sup.object (s.next :: s.path) <;> rw [ho] at e
    · simp only [Owner.alloc] at e
      rw [run_bind] at e
      rcases need_cases (c (s.next :: s.path)) with ⟨h0, h1⟩ | ⟨-, h1⟩ <;> simp only [h1, Owner.lift] at e
      · rw [run_bind]
        exact (hg _).error _ x s' e
      · simp only [Prod.mk.injEq, Except.error.injEq] at e
        exact .inl (.inl e.1.symm)
    · simp only [Prod.mk.injEq, Except.error.injEq] at e
      exact .inl (.inl e.1.symm)
    · simp only [Prod.mk.injEq, Except.error.injEq] at e
      exact .inl (.inr ⟨e.1.symm, _, ho⟩)

/-- An object without text. -/
theorem Rel.alloc' {α : Type} (k : Kind) (h1 : k ≠ .data) (h2 : k ≠ .mapItem) {g' g : Path → M α} (hg : ∀ i, Rel sup (g' i) (g i)) :
    Rel sup (allocM sup k >>= g') (Owner.alloc k >>= g) := by
  have h := Rel.alloc (sup := sup) k (fun _ => true) hg fun i hi _ => ⟨hi, fun h => absurd h h1, fun h => absurd h h2⟩
  have e : (allocM sup k >>= fun i => Owner.lift (Owner.need true) >>= fun _ => g' i) = (allocM sup k >>= g') := by
    funext s
    rw [run_bind, run_bind]
    cases allocM sup k s with
    | mk r s1 => cases r <;> rfl
  rw [← e]
  exact h

/-! ### Coroutines -/

/-- The same for a coroutine that has ended. -/
def RelD {α : Type} (sup : Supply) (d' d : Done α) : Prop :=
  (∀ b, d'.res = .ok b → d' = d ∧ ∀ x ∈ d.made, Served sup x) ∧
  ∀ e, d'.res = .error e → MemErr sup e ∨ d.res = .error e ∨ Fatal d.res

theorem rel_runFrame {α : Type} {m' m : M α} (h : Rel sup m' m) (path : Path) : RelD sup (runFrame path m') (runFrame path m) := by
  constructor
  · intro b hb
    rw [runFrame_res] at hb
    cases hm : m' { path := path } with
    | mk r s' =>
      rw [hm] at hb
      simp only at hb
      subst hb
      obtain ⟨h1, h2⟩ := h.ok _ _ _ hm
      unfold runFrame
      rw [hm, h1]
      refine ⟨rfl, fun x hx => ?_⟩
      rcases h2 x hx with hx | hx
      · simp at hx
      · exact hx
  · intro e he
    rw [runFrame_res] at he
    cases hm : m' { path := path } with
    | mk r s' =>
      rw [hm] at he
      simp only at he
      subst he
      rw [runFrame_res]
      exact h.error _ _ _ hm

theorem rel_await {m' m : M (LObj × Cur)} (h : Rel sup m' m) : Rel sup (awaitM sup m') (await m) := by
  have h0 : Rel sup (request sup.frame >>= fun _ => m') m := Rel.need (asks_request _) h
  constructor
  · intro s b s' e
    obtain ⟨h1, -⟩ := rel_runFrame h0 (s.next :: s.path)
    simp only [awaitM, run_bind, Owner.child, note, Owner.lift] at e
    simp only [await, run_bind, Owner.child, note, Owner.lift]
    cases hr : (runFrame (s.next :: s.path) (request sup.frame >>= fun _ => m')).res with
    | error x => rw [hr] at e; cases e
    | ok a =>
      obtain ⟨h2, h3⟩ := h1 a hr
      rw [hr] at e
      rw [← h2, hr]
      simp only at e ⊢
      cases hc : sup.child (s.next :: s.path) with
      | some jn => rw [hc] at e; simp [mergeInM] at e
      | none =>
        rw [hc] at e
        refine ⟨e, fun x hx => ?_⟩
        simp only [mergeInM, mergeIn, run_pure, Prod.mk.injEq] at e
        rw [← e.2] at hx
        rw [h2] at hx
        rcases List.mem_append.1 hx with hx | hx
        · exact .inl hx
        · exact .inr (h3 x hx)
  · intro s x s' e
    obtain ⟨h1, h2⟩ := rel_runFrame h0 (s.next :: s.path)
    simp only [awaitM, run_bind, Owner.child, note, Owner.lift] at e
    simp only [await, run_bind, Owner.child, note, Owner.lift]
    cases hr : (runFrame (s.next :: s.path) (request sup.frame >>= fun _ => m')).res with
    | error y =>
      rw [hr] at e
      simp only [Prod.mk.injEq, Except.error.injEq] at e
      obtain ⟨rfl, -⟩ := e
      rcases h2 y hr with h3 | h3 | ⟨z, h3, h4⟩
      · exact .inl h3
      · rw [h3]; exact .inr (.inl rfl)
      · rw [h3]; exact .inr (.inr ⟨z, rfl, h4⟩)
    | ok a =>
      rw [hr] at e
      simp only at e
      cases hc : sup.child (s.next :: s.path) with
      | none => rw [hc] at e; simp [mergeInM, mergeIn, run_pure] at e
      | some jn =>
        rw [hc] at e
        simp only [mergeInM, Prod.mk.injEq, Except.error.injEq] at e
        exact .inl (.inl e.1.symm)

theorem rel_startAll {α : Type} {f' f : Nat × Nat → M α} (h : ∀ be, Rel sup (f' be) (f be)) (bes : List (Nat × Nat)) :
    ∀ s t : Fr, s.path = t.path → s.next = t.next → ∃ zs : List (Done α × Done α), ∃ s1 t1,
      startAll f' bes s = (.ok (zs.map Prod.fst), s1) ∧ startAll f bes t = (.ok (zs.map Prod.snd), t1) ∧ (∀ z ∈ zs, RelD sup z.1 z.2) ∧
      ((∀ z ∈ zs, ∃ b, z.1.res = .ok b) → s = t → s1 = t1 ∧ ∀ x ∈ s1.made, x ∈ s.made ∨ Served sup x) := by
  induction bes with
  | nil => intro s t _ _; exact ⟨[], s, t, rfl, rfl, by simp, fun _ e => ⟨e, fun x hx => .inl hx⟩⟩
  | cons be bes ih =>
    intro s t hp hn
    have hd := rel_runFrame (h be) (s.next :: s.path)
    obtain ⟨zs, s1, t1, h1, h2, h3, h4⟩ := ih
      { s with next := s.next + 1, made := s.made ++ (runFrame (s.next :: s.path) (f' be)).made, gone := s.gone ++ (runFrame (s.next :: s.path) (f' be)).gone }
      { t with next := t.next + 1, made := t.made ++ (runFrame (t.next :: t.path) (f be)).made, gone := t.gone ++ (runFrame (t.next :: t.path) (f be)).gone }
      hp (by simp only [hn])
    refine ⟨(runFrame (s.next :: s.path) (f' be), runFrame (t.next :: t.path) (f be)) :: zs, s1, t1, ?_, ?_, ?_, ?_⟩
    · simp only [startAll, run_bind, Owner.child, note, h1]; rfl
    · simp only [startAll, run_bind, Owner.child, note, h2]; rfl
    · intro z hz
      rcases List.mem_cons.1 hz with rfl | hz
      · simp only; rw [← hp, ← hn]; exact hd
      · exact h3 z hz
    · intro hall hst
      subst hst
      obtain ⟨b, hb⟩ := hall _ List.mem_cons_self
      obtain ⟨k1, k2⟩ := hd.1 b hb
      obtain ⟨k3, k4⟩ := h4 (fun z hz => hall z (List.mem_cons_of_mem _ hz)) (by rw [k1])
      refine ⟨k3, fun x hx => ?_⟩
      rcases k4 x hx with hx | hx
      · rcases List.mem_append.1 hx with hx | hx
        · exact .inl hx
        · rw [k1] at hx; exact .inr (k2 x hx)
      · exact .inr hx

theorem checkFatal_from {α : Type} {rs : List (Res α)} {e : Err} (h : checkFatal rs = .error e) : (.error e : Res α) ∈ rs := by
  have key : ∀ n, (rs.filterMap failure?).find? (fun e => fatalRank e = n) = some e → (.error e : Res α) ∈ rs := by
    intro n hn
    obtain ⟨r, hr, he⟩ := List.mem_filterMap.1 (List.mem_of_find?_eq_some hn)
    cases r with
    | ok a => cases he
    | error x => cases he; exact hr
  unfold checkFatal at h
  simp only at h
  split at h
  · cases h; rename_i h1; exact key _ h1
  split at h
  · cases h; rename_i h1; exact key _ h1
  split at h
  · cases h; rename_i h1; exact key _ h1
  · cases h

theorem dropAll_error {α β : Type} (ds : List (Done α)) (e : Err) (s : Fr) :
    ((dropAll ds >>= fun _ => Owner.lift (.error e) : M β) s).1 = .error e := by
  obtain ⟨u, hs⟩ := er_dropAll ds s
  rw [run_bind]
  cases hd : dropAll ds s with
  | mk r s' => rw [hd] at hs; simp only at hs; subst hs; rfl

theorem bind_pure' {α : Type} (m : M α) : (m >>= fun a => pure a) = m := by
  funext s
  rw [run_bind]
  cases m s with
  | mk r s1 => cases r <;> rfl

theorem orDrop_ok {α β : Type} {m : M β} {ds : List (Done α)} {s s' : Fr} {b : β} (h : orDrop m ds s = (.ok b, s')) : m s = (.ok b, s') := by
  unfold orDrop at h
  cases hm : m s with
  | mk r s1 =>
    rw [hm] at h
    cases r with
    | ok c => exact h
    | error e =>
      have := dropAll_error (β := β) ds e s1
      simp only at h
      rw [h] at this
      cases this

theorem orDrop_error {α β : Type} {m : M β} {ds : List (Done α)} {s s' : Fr} {e : Err} (h : orDrop m ds s = (.error e, s')) :
    ∃ s1, m s = (.error e, s1) := by
  unfold orDrop at h
  cases hm : m s with
  | mk r s1 =>
    rw [hm] at h
    cases r with
    | ok c => cases h
    | error x =>
      have := dropAll_error (β := β) ds x s1
      simp only at h
      rw [h] at this
      cases this
      exact ⟨s1, rfl⟩

theorem mergeInM_error {stop : Option (Nat × Nat)} {b : BPool} {s s' : Fr} {e : Err} (h : mergeInM stop b s = (.error e, s')) :
    e = .exn .badAlloc := by
  unfold mergeInM at h
  cases stop with
  | none => simp [mergeIn] at h
  | some jn => simp only [Prod.mk.injEq, Except.error.injEq] at h; exact h.1.symm

theorem mergeInM_ok {stop : Option (Nat × Nat)} {b : BPool} {s s' : Fr} {u : Unit} (h : mergeInM stop b s = (.ok u, s')) :
    mergeIn b s = (.ok u, s') ∧ s'.made = s.made := by
  unfold mergeInM at h
  cases stop with
  | none =>
    refine ⟨h, ?_⟩
    simp only [mergeIn, Prod.mk.injEq] at h
    rw [← h.2]
  | some jn => cases h

theorem rel_mergeLoop {α : Type} (zs : List (Done (List α) × Done (List α))) : (∀ z ∈ zs, RelD sup z.1 z.2) →
    ∀ (items : List α) (size : Nat) (s : Fr),
      (∀ r s', mergeLoopM sup (zs.map Prod.fst) items size s = (.ok r, s') →
        mergeLoop (zs.map Prod.snd) items size s = (.ok r, s') ∧ s'.made = s.made ∧ ∀ z ∈ zs, ∃ b, z.1.res = .ok b) ∧
      ∀ e s', mergeLoopM sup (zs.map Prod.fst) items size s = (.error e, s') →
        MemErr sup e ∨ (∀ t, (mergeLoop (zs.map Prod.snd) items size t).1 = .error e) ∨ ∃ z ∈ zs, Fatal z.2.res := by
  induction zs with
  | nil =>
    intro _ items size s
    refine ⟨fun r s' h => ?_, fun e s' h => ?_⟩
    · simp only [List.map_nil, mergeLoopM, run_pure, Prod.mk.injEq] at h
      rw [← h.2]
      exact ⟨by rw [← h.1]; rfl, rfl, by simp⟩
    · simp [mergeLoopM, run_pure] at h
  | cons z zs ih =>
    intro hz items size s
    have ih := ih fun z hz' => hz z (List.mem_cons_of_mem _ hz')
    obtain ⟨hok, herr⟩ := hz z List.mem_cons_self
    simp only [List.map_cons, mergeLoopM]
    cases hr : z.1.res with
    | error x =>
      refine ⟨fun r s' h => ?_, fun e s' h => ?_⟩
      · have := dropAll_error (β := List α × Nat) (z.1 :: zs.map Prod.fst) x s
        simp only at h
        rw [h] at this
        cases this
      · have h1 := dropAll_error (β := List α × Nat) (z.1 :: zs.map Prod.fst) x s
        simp only at h
        rw [h] at h1
        cases h1
        rcases herr _ hr with h2 | h2 | h2
        · exact .inl h2
        · refine .inr (.inl fun t => ?_)
          unfold mergeLoop
          rw [h2]
          exact dropAll_error _ _ _
        · exact .inr (.inr ⟨z, List.mem_cons_self, h2⟩)
    | ok b =>
      obtain ⟨h1, -⟩ := hok b hr
      simp only
      have h2 : z.2.res = .ok b := by rw [← h1]; exact hr
      refine ⟨fun r s' h => ?_, fun e s' h => ?_⟩
      · rw [run_bind] at h
        cases hm : orDrop (fun s => mergeInM (sup.block ((zs.map Prod.fst).length :: s.path)) z.1.bp s : M Unit) (zs.map Prod.fst) s with
        | mk q s1 =>
          rw [hm] at h
          cases q with
          | error e => cases h
          | ok u =>
            obtain ⟨h3, h4⟩ := mergeInM_ok (orDrop_ok hm)
            simp only at h
            unfold mergeLoop
            rw [h2]
            simp only
            rw [run_bind, ← h1, h3]
            simp only
            by_cases hemp : b.isEmpty = true
            · rw [if_pos hemp] at h ⊢
              obtain ⟨k1, k2, k3⟩ := (ih items size s1).1 r s' h
              exact ⟨k1, k2.trans h4, fun z' hz' => (List.mem_cons.1 hz').elim (fun e => e ▸ ⟨b, hr⟩) (k3 z')⟩
            · rw [if_neg hemp] at h ⊢
              obtain ⟨k1, k2, k3⟩ := (ih _ _ s1).1 r s' h
              exact ⟨k1, k2.trans h4, fun z' hz' => (List.mem_cons.1 hz').elim (fun e => e ▸ ⟨b, hr⟩) (k3 z')⟩
      · rw [run_bind] at h
        cases hm : orDrop (fun s => mergeInM (sup.block ((zs.map Prod.fst).length :: s.path)) z.1.bp s : M Unit) (zs.map Prod.fst) s with
        | mk q s1 =>
          rw [hm] at h
          cases q with
          | error e' =>
            obtain ⟨s2, h3⟩ := orDrop_error hm
            simp only [Prod.mk.injEq, Except.error.injEq] at h
            rw [← h.1]
            exact .inl (.inl (mergeInM_error h3))
          | ok u =>
            simp only at h
            have fin : ∀ items' size', mergeLoopM sup (zs.map Prod.fst) items' size' s1 = (.error e, s') →
                (∀ t, (mergeLoop (z.2 :: zs.map Prod.snd) items size t).1 = (mergeLoop (zs.map Prod.snd) items' size' (mergeIn z.2.bp t).2).1) →
                MemErr sup e ∨ (∀ t, (mergeLoop (z.2 :: zs.map Prod.snd) items size t).1 = .error e) ∨ ∃ z' ∈ z :: zs, Fatal z'.2.res := by
              intro items' size' k1 k2
              rcases (ih items' size' s1).2 e s' k1 with k3 | k3 | ⟨z', k3, k4⟩
              · exact .inl k3
              · exact .inr (.inl fun t => (k2 t).trans (k3 _))
              · exact .inr (.inr ⟨z', List.mem_cons_of_mem _ k3, k4⟩)
            by_cases hemp : b.isEmpty = true
            · rw [if_pos hemp] at h
              refine fin items size h fun t => ?_
              rw [mergeLoop, h2]
              simp only [run_bind, mergeIn]
              rw [if_pos hemp]
            · rw [if_neg hemp] at h
              refine fin _ _ h fun t => ?_
              rw [mergeLoop, h2]
              simp only [run_bind, mergeIn]
              rw [if_neg hemp]

theorem rel_gather {α ι γ : Type} {f' f : Nat × Nat → M (List α)} (hf : ∀ be, Rel sup (f' be) (f be))
    (ord : List (Done (List α)) → List (Done (List α)))
    (hord : ∀ zs : List (Done (List α) × Done (List α)), ∃ ws : List (Done (List α) × Done (List α)), ord (zs.map Prod.fst) = ws.map Prod.fst ∧ ord (zs.map Prod.snd) = ws.map Prod.snd ∧
      ∀ z, z ∈ ws ↔ z ∈ zs)
    {mid' mid : M ι} (hmid : Rel sup mid' mid) (hq : Quiet mid) (k : ι → List α × Nat → γ) (bes : List (Nat × Nat)) :
    Rel sup
      (startAll f' bes >>= fun ds => Owner.lift (checkFatal ((ord ds).map Done.res)) >>= fun _ => orDrop mid' (ord ds) >>= fun i =>
        mergeLoopM sup (ord ds) [] 0 >>= fun r => pure (k i r))
      (startAll f bes >>= fun ds => Owner.lift (checkFatal ((ord ds).map Done.res)) >>= fun _ => mid >>= fun i =>
        mergeLoop (ord ds) [] 0 >>= fun r => pure (k i r)) := by
  constructor
  · intro s y s' e
    obtain ⟨zs, s1, t1, h1, h2, h3, h4⟩ := rel_startAll hf bes s s rfl rfl
    obtain ⟨ws, w1, w2, w3⟩ := hord zs
    rw [run_bind, h1] at e
    simp only at e
    rw [run_bind, w1] at e
    simp only [Owner.lift] at e
    cases hc : checkFatal ((ws.map Prod.fst).map Done.res) with
    | error x => rw [hc] at e; cases e
    | ok u =>
      rw [hc] at e
      simp only at e
      rw [run_bind] at e
      cases hm : orDrop mid' (ws.map Prod.fst) s1 with
      | mk q s2 =>
        rw [hm] at e
        cases q with
        | error x => cases e
        | ok i =>
          obtain ⟨m1, m2⟩ := hmid.ok _ _ _ (orDrop_ok hm)
          simp only at e
          rw [run_bind] at e
          cases hl : mergeLoopM sup (ws.map Prod.fst) [] 0 s2 with
          | mk q s3 =>
            rw [hl] at e
            cases q with
            | error x => cases e
            | ok r =>
              obtain ⟨l1, l2, l3⟩ := (rel_mergeLoop ws (fun z hz => h3 z ((w3 z).1 hz)) [] 0 s2).1 r s3 hl
              simp only [run_pure, Prod.mk.injEq, Except.ok.injEq] at e
              obtain ⟨rfl, rfl⟩ := e
              obtain ⟨g1, g2⟩ := h4 (fun z hz => l3 z ((w3 z).2 hz)) rfl
              have heq : ws.map Prod.snd = ws.map Prod.fst := by
                apply List.map_congr_left
                intro z hz
                obtain ⟨b, hb⟩ := l3 z hz
                exact ((h3 z ((w3 z).1 hz)).1 b hb).1.symm
              refine ⟨?_, fun x hx => ?_⟩
              · rw [run_bind, h2]
                simp only
                rw [run_bind, w2]
                simp only [Owner.lift]
                rw [heq, hc]
                simp only
                rw [run_bind, ← g1, m1]
                simp only
                rw [run_bind, ← heq, l1]
                rfl
              · rw [l2] at hx
                rcases m2 x hx with hx | hx
                · exact g2 x hx
                · exact .inr hx
  · intro s e s' h
    obtain ⟨zs, s1, t1, h1, h2, h3, h4⟩ := rel_startAll hf bes s s rfl rfl
    obtain ⟨ws, w1, w2, w3⟩ := hord zs
    have hres : ∀ x, checkFatal ((ws.map Prod.snd).map Done.res) = .error x →
        ((startAll f bes >>= fun ds => Owner.lift (checkFatal ((ord ds).map Done.res)) >>= fun _ => mid >>= fun i =>
          mergeLoop (ord ds) [] 0 >>= fun r => pure (k i r)) s).1 = .error x := by
      intro x hx
      rw [run_bind, h2]
      simp only
      rw [run_bind, w2]
      simp only [Owner.lift]
      rw [hx]
    cases hc0 : checkFatal ((ws.map Prod.snd).map Done.res) with
    | error x => exact .inr (.inr ⟨x, hres x hc0, checkFatal_error hc0⟩)
    | ok u0 =>
    have hno : ∀ z ∈ zs, ¬ Fatal z.2.res := by
      rintro z hz ⟨x, hx1, hx2⟩
      obtain ⟨y, hy⟩ := checkFatal_ok hc0 _ (List.mem_map.2 ⟨z.2, List.mem_map.2 ⟨z, (w3 z).2 hz, rfl⟩, rfl⟩) x hx1
      exact hx2 y hy
    rw [run_bind, h1] at h
    simp only at h
    rw [run_bind, w1] at h
    simp only [Owner.lift] at h
    cases hc : checkFatal ((ws.map Prod.fst).map Done.res) with
    | error x =>
      rw [hc] at h
      simp only [Prod.mk.injEq, Except.error.injEq] at h
      obtain ⟨rfl, -⟩ := h
      obtain ⟨d, hd, hd2⟩ := List.mem_map.1 (checkFatal_from hc)
      obtain ⟨z, hz, rfl⟩ := List.mem_map.1 hd
      rcases (h3 z ((w3 z).1 hz)).2 _ hd2 with k1 | k1 | k1
      · exact .inl k1
      · exact absurd ⟨x, k1, checkFatal_error hc⟩ (hno z ((w3 z).1 hz))
      · exact absurd k1 (hno z ((w3 z).1 hz))
    | ok u =>
      rw [hc] at h
      simp only at h
      rw [run_bind] at h
      cases hm : orDrop mid' (ws.map Prod.fst) s1 with
      | mk q s2 =>
        rw [hm] at h
        cases q with
        | error x =>
          simp only [Prod.mk.injEq, Except.error.injEq] at h
          obtain ⟨rfl, -⟩ := h
          obtain ⟨s3, h5⟩ := orDrop_error hm
          obtain ⟨i, hi⟩ := hq s1
          rcases hmid.error _ _ _ h5 with k1 | k1 | ⟨y, k1, -⟩
          · exact .inl k1
          · rw [hi] at k1; cases k1
          · rw [hi] at k1; cases k1
        | ok i =>
          simp only at h
          rw [run_bind] at h
          cases hl : mergeLoopM sup (ws.map Prod.fst) [] 0 s2 with
          | mk q s3 =>
            rw [hl] at h
            cases q with
            | ok r => cases h
            | error x =>
              simp only [Prod.mk.injEq, Except.error.injEq] at h
              obtain ⟨rfl, -⟩ := h
              rcases (rel_mergeLoop ws (fun z hz => h3 z ((w3 z).1 hz)) [] 0 s2).2 _ _ hl with k1 | k1 | ⟨z, hz, k1⟩
              · exact .inl k1
              · refine .inr (.inl ?_)
                rw [run_bind, h2]
                simp only
                rw [run_bind, w2]
                simp only [Owner.lift]
                rw [hc0]
                simp only
                rw [run_bind]
                obtain ⟨i', hi'⟩ := hq t1
                cases hmt : mid t1 with
                | mk q t2 =>
                  rw [hmt] at hi'
                  simp only at hi'
                  subst hi'
                  simp only
                  rw [run_bind]
                  have k2 := k1 t2
                  cases hmm : mergeLoop (ws.map Prod.snd) [] 0 t2 with
                  | mk q t3 => rw [hmm] at k2; simp only at k2; subst k2; rfl
              · exact absurd k1 (hno z ((w3 z).1 hz))

/-! ### The parsers -/

structure RelPV (sup : Supply) (p' p : PV) : Prop where
  val : ∀ t c, Rel sup (p'.val t c) (p.val t c)
  items : ∀ n c, Rel sup (p'.items n c) (p.items n c)
  kvs : ∀ n c acc, Rel sup (p'.kvs n c acc) (p.kvs n c acc)

theorem rel_val {cfg : Cfg} {v : View} {sm : Option StringMap} {ref : Bool} {pool : PoolRef} {p' p : PV} (ih : RelPV sup p' p)
    (t : ObjectType) (c : Cur) : Rel sup (valM sup cfg v sm ref pool p' t c) (valL cfg v sm ref pool p t c) := by
  unfold valM valL
  cases t with
  | invalid => exact rel_lift _
  | data =>
    simp only [factoryKind]
    refine Rel.alloc _ (fun i => asks sm ref (sup.leaf i)) (fun i => (rel_lift _).bind fun r => ?_) fun i hi hc => ⟨hi, fun hk => ?_, fun hk => ?_⟩
    · obtain ⟨o, c'⟩ := r
      cases o <;> exact rel_pure _
    · cases ref with
      | false => simpa [asks] using hc
      | true => cases hk
    · cases ref <;> cases hk
  | array =>
    simp only [factoryKind]
    exact Rel.alloc' _ (by simp) (by simp) fun i => (rel_lift _).bind fun a => (rel_lift _).bind fun b => (ih.items _ _).bind fun x => rel_pure _
  | map =>
    simp only [factoryKind]
    exact Rel.alloc' _ (by cases ref <;> simp) (by cases ref <;> simp) fun i => (rel_lift _).bind fun a => (rel_lift _).bind fun b =>
      (ih.kvs _ _ _).bind fun x => rel_pure _

theorem served_item {ref : Bool} {i : Path} (hi : sup.object i = .fine) (hc : (ref || sup.copy i) = true) : Served sup (itemKind ref, i) := by
  refine ⟨hi, fun hk => ?_, fun hk => ?_⟩
  · cases ref <;> cases hk
  · cases ref with
    | false => simpa using hc
    | true => cases hk

theorem rel_pvs (cfg : Cfg) (v : View) (sm : Option StringMap) (ref : Bool) (pool : PoolRef) :
    ∀ f, RelPV sup (pvsM sup cfg v sm ref pool f) (pvs cfg v sm ref pool f) := by
  intro f
  induction f with
  | zero => exact ⟨fun _ _ => rel_lift _, fun _ _ => rel_lift _, fun _ _ _ => rel_lift _⟩
  | succ f ih =>
    refine ⟨fun t c => rel_val ih t c, fun n c => ?_, fun n c acc => ?_⟩
    · show Rel sup (itemsM sup v _ n c) (itemsL v _ n c)
      cases n with
      | zero => exact rel_pure _
      | succ n =>
        exact (rel_lift _).bind fun t => (ih.val _ _).bind fun o => Rel.alloc' _ (by simp) (by simp) fun i =>
          (ih.items _ _).bind fun x => rel_pure _
    · show Rel sup (kvsM sup cfg v sm ref _ n c acc) (kvsL cfg v sm ref _ n c acc)
      cases n with
      | zero => exact rel_pure _
      | succ n =>
        exact Rel.need (asks_requestNext _) ((rel_lift _).bind fun k => (rel_lift _).bind fun t => (ih.val _ _).bind fun o =>
          (rel_lift _).bind fun k' => Rel.alloc _ (fun i => ref || sup.copy i) (fun i => ih.kvs _ _ _) fun i hi hc => served_item hi hc)

structure RelCs (sup : Supply) (cs' cs : Cs) : Prop where
  arrayLoop : ∀ e c, Rel sup (cs'.arrayLoop e c) (cs.arrayLoop e c)
  array : ∀ os, Rel sup (cs'.array os) (cs.array os)
  mapLoop : ∀ e c, Rel sup (cs'.mapLoop e c) (cs.mapLoop e c)
  map : ∀ os, Rel sup (cs'.map os) (cs.map os)

theorem rel_child {cs' cs : Cs} {p' p : PV} (hc : RelCs sup cs' cs) (hp : RelPV sup p' p) (split : Bool) (t : ObjectType) (c : Cur) :
    Rel sup (childM sup cs' p' split t c) (childL cs p split t c) := by
  unfold childM childL
  cases split with
  | false => exact hp.val t c
  | true =>
    cases t with
    | array => exact rel_await (hc.array _)
    | map => exact rel_await (hc.map _)
    | data => exact rel_lift _
    | invalid => exact rel_lift _

theorem rel_css (cfg : Cfg) (v : View) (sm : Option StringMap) (si : SplitInfo) (ref : Bool) :
    ∀ f, RelCs sup (cssM sup cfg v sm si ref f) (css cfg v sm si ref f) := by
  intro f
  induction f with
  | zero => exact ⟨fun _ _ => rel_lift _, fun _ => rel_lift _, fun _ _ => rel_lift _, fun _ => rel_lift _⟩
  | succ f ih =>
    have hp := rel_pvs (sup := sup) cfg v sm ref .frame f
    refine ⟨fun e c => ?_, fun os => ?_, fun e c => ?_, fun os => ?_⟩
    · show Rel sup (arrayLoopM sup v _ _ e c) (arrayLoopL v _ _ e c)
      unfold arrayLoopM arrayLoopL
      split
      · exact (rel_lift _).bind fun t => (rel_child ih hp _ _ _).bind fun o => Rel.alloc' _ (by simp) (by simp) fun i =>
          (ih.arrayLoop _ _).bind fun x => rel_pure _
      · exact rel_pure _
    · show Rel sup (coArrayM sup cfg v si _ os) (arrayL cfg v si _ os)
      unfold coArrayM arrayL
      refine (rel_lift _).bind fun bounds => Rel.need (asks_request _) ?_
      refine rel_gather (fun be => Rel.need (asks_request _) (ih.arrayLoop _ _)) List.reverse
        (fun zs => ⟨zs.reverse, by rw [List.map_reverse], by rw [List.map_reverse], fun z => List.mem_reverse⟩) ?_ (quiet_alloc _) _ _
      have h := Rel.alloc' (sup := sup) .array (by simp) (by simp) fun i => rel_pure (sup := sup) i
      rw [bind_pure', bind_pure'] at h
      exact h
    · show Rel sup (mapLoopM sup cfg v sm ref _ _ e c) (mapLoopL cfg v sm ref _ _ e c)
      unfold mapLoopM mapLoopL
      split
      · exact Rel.need (asks_requestNext _) ((rel_lift _).bind fun k => (rel_lift _).bind fun t => (rel_child ih hp _ _ _).bind fun o =>
          Rel.alloc _ (fun i => ref || sup.copy i) (fun i => (ih.mapLoop _ _).bind fun x => rel_pure _) fun i hi hc => served_item hi hc)
      · exact rel_pure _
    · show Rel sup (coMapM sup cfg v si ref _ os) (mapL cfg v si ref _ os)
      unfold coMapM mapL
      refine (rel_lift _).bind fun bounds => Rel.alloc' _ (by cases ref <;> simp) (by cases ref <;> simp) fun id =>
        Rel.need (asks_request _) ?_
      exact rel_gather (fun be => Rel.need (asks_request _) (ih.mapLoop _ _)) (fun ds => ds)
        (fun zs => ⟨zs, rfl, rfl, fun z => Iff.rfl⟩) (rel_pure ()) (fun s => ⟨(), rfl⟩)
        (fun (_ : Unit) (r : List (Path × Str × LObj) × Nat) => ((LObj.map id ref .frame r.2 r.1, ⟨bounds.2, bounds.2⟩) : LObj × Cur)) bounds.1

theorem rel_normal (cfg : Cfg) (ref : Bool) (fuel : Nat) (content : Bytes) (s : Sched) :
    Rel sup (normalM sup cfg ref fuel content s) (normalL cfg ref fuel content s) := by
  unfold normalM normalL
  refine ((rel_pvs cfg (View.whole content) s.sm ref .caller fuel).val .map ⟨metaSize, metaSize⟩).bind fun r => ?_
  split
  · exact rel_lift _
  · exact rel_pure _

theorem rel_parse (cfg : Cfg) (po : ParseOption) (fuel : Nat) (content : Bytes) :
    Rel sup (parseM sup cfg po fuel content) (parseL cfg po fuel content) := by
  unfold parseM parseL
  refine Rel.need (asks_need _) ((rel_lift _).bind fun s => ?_)
  split
  · unfold coroutineM coroutineL
    split
    · exact (rel_lift _).bind fun s => rel_normal _ _ _ _ _
    split
    · exact rel_lift _
    · exact (rel_await ((rel_css cfg (View.whole content) s.sm s.si po.parseRef fuel).map metaSize)).bind fun r => rel_pure _
  · exact rel_normal _ _ _ _ _

/-! ### Enough memory -/

theorem request_true {α : Type} (m : M α) : ((request fun _ => true) >>= fun _ => m) = m := rfl
theorem requestNext_true {α : Type} (m : M α) : ((requestNext fun _ => true) >>= fun _ => m) = m := rfl
theorem need_true {α : Type} (m : M α) : (Owner.lift (need true) >>= fun _ => m) = m := rfl
theorem allocM_fine (k : Kind) : allocM {} k = alloc k := rfl

theorem awaitM_fine (m : M (LObj × Cur)) : awaitM {} m = await m := rfl

theorem orDrop_quiet {α β : Type} {m : M β} (h : Quiet m) (ds : List (Done α)) : orDrop m ds = m := by
  funext s
  unfold orDrop
  obtain ⟨b, hb⟩ := h s
  cases hm : m s with
  | mk r s1 => rw [hm] at hb; simp only at hb; subst hb; rfl

theorem mergeLoopM_fine {α : Type} (ds : List (Done (List α))) : ∀ items size, mergeLoopM {} ds items size = mergeLoop ds items size := by
  induction ds with
  | nil => intro items size; rfl
  | cons d ds ih =>
    intro items size
    unfold mergeLoopM mergeLoop
    cases d.res with
    | error e => rfl
    | ok b =>
      simp only [ih]
      rw [orDrop_quiet (m := fun s => mergeInM none d.bp s) (quiet_mergeIn d.bp)]
      rfl

theorem asks_true (sm : Option StringMap) (ref : Bool) : asks sm ref true = true := by simp [asks]

theorem pvsM_fine (cfg : Cfg) (v : View) (sm : Option StringMap) (ref : Bool) (pool : PoolRef) (f : Nat) :
    pvsM {} cfg v sm ref pool f = pvs cfg v sm ref pool f := by
  induction f with
  | zero => rfl
  | succ f ih =>
    simp only [pvsM, pvs, ih, PV.mk.injEq]
    refine ⟨?_, ?_, ?_⟩
    · funext t c
      unfold valM valL
      simp only [asks_true, need_true, allocM_fine]
      cases t <;> rfl
    · funext n c
      unfold itemsM itemsL
      simp only [allocM_fine]
      cases n <;> rfl
    · funext n c acc
      unfold kvsM kvsL
      simp only [asks_true, requestNext_true, need_true, allocM_fine, Bool.or_true]
      cases n <;> rfl

theorem childM_fine (cs : Cs) (p : PV) (split : Bool) (t : ObjectType) (c : Cur) : childM {} cs p split t c = childL cs p split t c := rfl

theorem cssM_fine (cfg : Cfg) (v : View) (sm : Option StringMap) (si : SplitInfo) (ref : Bool) (f : Nat) :
    cssM {} cfg v sm si ref f = css cfg v sm si ref f := by
  induction f with
  | zero => rfl
  | succ f ih =>
    simp only [cssM, css, ih, pvsM_fine, Cs.mk.injEq]
    refine ⟨?_, ?_, ?_, ?_⟩
    · funext e c
      unfold arrayLoopM arrayLoopL
      simp only [allocM_fine, childM_fine]
    · funext os
      unfold coArrayM arrayL
      simp only [request_true, allocM_fine, orDrop_quiet (quiet_alloc _), mergeLoopM_fine]
    · funext e c
      unfold mapLoopM mapLoopL
      simp only [asks_true, requestNext_true, need_true, allocM_fine, Bool.or_true, childM_fine]
    · funext os
      unfold coMapM mapL
      simp only [request_true, allocM_fine, mergeLoopM_fine]

theorem parseM_fine (cfg : Cfg) (po : ParseOption) (fuel : Nat) (content : Bytes) :
    parseM {} cfg po fuel content = parseL cfg po fuel content := by
  unfold parseM parseL
  rw [need_true]
  simp only [coroutineM, coroutineL, normalM, normalL, pvsM_fine, cssM_fine, awaitM_fine]

/-! ### What is destroyed -/

theorem Asks.spares {q : M Unit} (h : Asks q) : Spares q := fun s => by rcases h s with h | h <;> rw [h]

theorem spares_allocM (sup : Supply) (k : Kind) : Spares (allocM sup k) := fun s => by
  unfold allocM
  cases sup.object (s.next :: s.path) <;> rfl

theorem spares_pvsM (sup : Supply) (cfg : Cfg) (v : View) (sm : Option StringMap) (ref : Bool) (pool : PoolRef) :
    ∀ f, SparesPV (pvsM sup cfg v sm ref pool f) := by
  intro f
  induction f with
  | zero => exact ⟨fun _ _ => Spares.lift _, fun _ _ => Spares.lift _, fun _ _ _ => Spares.lift _⟩
  | succ f ih =>
    refine ⟨fun t c => ?_, fun n c => ?_, fun n c acc => ?_⟩
    · show Spares (valM sup cfg v sm ref pool _ t c)
      unfold valM
      split
      · exact Spares.lift _
      refine (spares_allocM _ _).bind fun id => ?_
      split
      · exact Spares.lift _
      · refine (Spares.lift _).bind fun _ => (Spares.lift _).bind fun r => ?_
        split <;> exact Spares.pure _
      · exact (Spares.lift _).bind fun _ => (Spares.lift _).bind fun _ => (ih.items _ _).bind fun _ => Spares.pure _
      · exact (Spares.lift _).bind fun _ => (Spares.lift _).bind fun _ => (ih.kvs _ _ _).bind fun _ => Spares.pure _
    · show Spares (itemsM sup v _ n c)
      cases n with
      | zero => exact Spares.pure _
      | succ n => exact (Spares.lift _).bind fun _ => (ih.val _ _).bind fun _ => (spares_allocM _ _).bind fun _ =>
          (ih.items _ _).bind fun _ => Spares.pure _
    · show Spares (kvsM sup cfg v sm ref _ n c acc)
      cases n with
      | zero => exact Spares.pure _
      | succ n => exact (asks_requestNext _).spares.bind fun _ => (Spares.lift _).bind fun _ => (Spares.lift _).bind fun _ =>
          (ih.val _ _).bind fun _ => (Spares.lift _).bind fun _ => (spares_allocM _ _).bind fun _ => (Spares.lift _).bind fun _ => ih.kvs _ _ _

theorem spares_normalM (sup : Supply) (cfg : Cfg) (ref : Bool) (fuel : Nat) (content : Bytes) (s : Sched) :
    Spares (normalM sup cfg ref fuel content s) := by
  unfold normalM
  refine ((spares_pvsM _ _ _ _ _ _ _).val _ _).bind fun r => ?_
  split
  · exact Spares.lift _
  · exact Spares.pure _

theorem awaitM_error {sup : Supply} {m : M (LObj × Cur)} {s s' : Fr} {e : Err} (h : awaitM sup m s = (.error e, s'))
    (hc : sup.child (s.next :: s.path) = none) : s'.bp = s.bp := by
  simp only [awaitM, run_bind, Owner.child, note, Owner.lift, hc] at h
  cases hr : (runFrame (s.next :: s.path) (request sup.frame >>= fun _ => m)).res with
  | error x => rw [hr] at h; simp only [Prod.mk.injEq] at h; rw [← h.2]
  | ok b => rw [hr] at h; simp [mergeInM, mergeIn, run_pure] at h

/-! ### In situ -/

/-- The supply for texts does not matter. -/
def Supply.untexted (sup : Supply) : Supply := { sup with leaf := fun _ => true, key := fun _ => true, copy := fun _ => true }

theorem pvsM_untexted (sup : Supply) (cfg : Cfg) (v : View) (pool : PoolRef) (f : Nat) :
    pvsM sup.untexted cfg v none true pool f = pvsM sup cfg v none true pool f := by
  induction f with
  | zero => rfl
  | succ f ih =>
    simp only [pvsM, ih]
    rfl

theorem mergeLoopM_untexted {α : Type} (sup : Supply) (ds : List (Done (List α))) :
    ∀ items size, mergeLoopM sup.untexted ds items size = mergeLoopM sup ds items size := by
  induction ds with
  | nil => intro items size; rfl
  | cons d ds ih =>
    intro items size
    unfold mergeLoopM
    cases d.res with
    | error e => rfl
    | ok b => simp only [ih]; rfl

theorem cssM_untexted (sup : Supply) (cfg : Cfg) (v : View) (si : SplitInfo) (f : Nat) :
    cssM sup.untexted cfg v none si true f = cssM sup cfg v none si true f := by
  induction f with
  | zero => rfl
  | succ f ih =>
    simp only [cssM, ih, pvsM_untexted, Cs.mk.injEq]
    refine ⟨rfl, ?_, rfl, ?_⟩
    · funext os
      unfold coArrayM
      simp only [mergeLoopM_untexted]
      rfl
    · funext os
      unfold coMapM
      simp only [mergeLoopM_untexted]
      rfl

end Bridge.Owner
