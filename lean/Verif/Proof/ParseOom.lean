import Verif.Model.ParseOom
import Verif.Proof.Owner
/-
`Parse` when memory runs out: the accounts stay in order, and the outcome is the usual one or a failure of the memory.
-/
set_option autoImplicit false
namespace Bridge.Owner

/-! ### Ownership -/

theorem sat_need (b : Bool) : Sat (Owner.lift (need b)) (fun _ new => new = []) := Sat.lift fun _ _ => rfl

theorem sat_request (f : Path → Bool) : Sat (request f) (fun _ new => new = []) :=
  fun a own out gone s hs => sat_need (f s.path) a own out gone s hs

theorem sat_requestNext (f : Path → Bool) : Sat (requestNext f) (fun _ new => new = []) :=
  fun a own out gone s hs => sat_need (f (s.next :: s.path)) a own out gone s hs

theorem sat_allocM (sup : Supply) (k : Kind) : Sat (allocM sup k) (fun id new => new = [(k, id)]) := by
  intro a own out gone s hs
  unfold allocM
  cases sup.object (s.next :: s.path) with
  | fine => exact sat_alloc k a own out gone s hs
  | throws => exact ⟨own, out, gone, hs, fun _ _ => rfl⟩
  | null => exact ⟨own, out, gone, hs, fun _ _ => rfl⟩

theorem cutOne_count (i j n : Nat) (a b : List Path) (k : Kind) (x : Oid) :
    ((cutOne i j n a b).1.map (k, ·)).count x + ((cutOne i j n a b).2.map (k, ·)).count x =
      (a.map (k, ·)).count x + (b.map (k, ·)).count x := by
  unfold cutOne
  split
  · simp [mergeOne, List.count_append]
  · split
    · have : ((b.take n).map (k, ·)).count x + ((b.drop n).map (k, ·)).count x = (b.map (k, ·)).count x := by
        rw [← List.count_append, ← List.map_append, List.take_append_drop]
      simp only [List.map_append, List.count_append]
      omega
    · rfl

/-- An interrupted merge loses nothing. -/
theorem all_mergeCut (a b : BPool) (j n : Nat) : ((a.mergeCut b j n).1.all ++ (a.mergeCut b j n).2.all).Perm (a.all ++ b.all) := by
  rw [List.perm_iff_count]
  intro x
  have h0 := cutOne_count 0 j n a.data b.data .data x
  have h1 := cutOne_count 1 j n a.dataView b.dataView .dataView x
  have h2 := cutOne_count 2 j n a.array b.array .array x
  have h3 := cutOne_count 3 j n a.arrayItem b.arrayItem .arrayItem x
  have h4 := cutOne_count 4 j n a.map b.map .map x
  have h5 := cutOne_count 5 j n a.mapItem b.mapItem .mapItem x
  have h6 := cutOne_count 6 j n a.mapView b.mapView .mapView x
  have h7 := cutOne_count 7 j n a.mapViewItem b.mapViewItem .mapViewItem x
  simp only [BPool.mergeCut, BPool.all, List.count_append] at *
  omega

/-- It takes objects from the other pool only. -/
theorem cutOne_own (i j n : Nat) (a b : List Path) : ∃ c, (cutOne i j n a b).1 = a ++ c := by
  unfold cutOne
  split
  · exact ⟨b, rfl⟩
  · split
    · exact ⟨_, rfl⟩
    · exact ⟨[], by simp⟩

theorem mergeCut_own (a b : BPool) (j n : Nat) : ∃ taken, (a.mergeCut b j n).1.all.Perm (a.all ++ taken) := by
  obtain ⟨c0, h0⟩ := cutOne_own 0 j n a.data b.data
  obtain ⟨c1, h1⟩ := cutOne_own 1 j n a.dataView b.dataView
  obtain ⟨c2, h2⟩ := cutOne_own 2 j n a.array b.array
  obtain ⟨c3, h3⟩ := cutOne_own 3 j n a.arrayItem b.arrayItem
  obtain ⟨c4, h4⟩ := cutOne_own 4 j n a.map b.map
  obtain ⟨c5, h5⟩ := cutOne_own 5 j n a.mapItem b.mapItem
  obtain ⟨c6, h6⟩ := cutOne_own 6 j n a.mapView b.mapView
  obtain ⟨c7, h7⟩ := cutOne_own 7 j n a.mapViewItem b.mapViewItem
  refine ⟨BPool.all ⟨c0, c1, c2, c3, c4, c5, c6, c7⟩, ?_⟩
  rw [List.perm_iff_count]
  intro x
  simp only [BPool.mergeCut, BPool.all, h0, h1, h2, h3, h4, h5, h6, h7, List.count_append, List.map_append]
  omega

/-- Merging a pool held outside, interrupted. -/
theorem step_mergeCut {a s : Fr} {own out gone : List Oid} {b : BPool} (j n : Nat) (hs : Step a s own (out ++ b.all) gone) :
    ∃ own' gone', Step a { s with bp := (s.bp.mergeCut b j n).1, gone := s.gone ++ (s.bp.mergeCut b j n).2.all } own' out gone' := by
  obtain ⟨taken, ht⟩ := mergeCut_own s.bp b j n
  have hp : (own ++ taken ++ out ++ (gone ++ (s.bp.mergeCut b j n).2.all)).Perm (own ++ (out ++ b.all) ++ gone) := by
    rw [List.perm_iff_count]
    intro x
    have c1 := List.perm_iff_count.1 (all_mergeCut s.bp b j n) x
    have c2 := List.perm_iff_count.1 ht x
    simp only [List.count_append] at c1 c2 ⊢
    omega
  obtain ⟨made, e, hm⟩ := hs.made
  refine ⟨own ++ taken, gone ++ (s.bp.mergeCut b j n).2.all, hs.path, hs.next, ?_, ⟨made, e, hm.trans hp.symm⟩, ?_, ?_, ?_⟩
  · refine ht.trans ?_
    rw [← List.append_assoc]
    exact hs.pool.append_right _
  · rw [← List.append_assoc]
    exact hs.lost.append_right _
  · intro x hx; exact hs.within x (hp.mem_iff.1 hx)
  · exact hp.nodup_iff.2 hs.nodup

theorem sat_awaitM (sup : Supply) {m : M (LObj × Cur)} {P : LObj × Cur → List Oid → Prop} (h : Sat m P)
    (hP : ∀ x l l', l.Perm l' → P x l → P x l') : Sat (awaitM sup m) P := by
  intro a own out gone s hs
  have hm : Sat (request sup.frame >>= fun _ => m) P := (sat_request _).bind fun _ new hnew => by subst hnew; simpa using h
  obtain ⟨lost, g, h1, h2, h3⟩ := start_one hm hs
  simp only [awaitM, run_bind, Owner.child, note, Owner.lift]
  cases hr : (runFrame (s.next :: s.path) (request sup.frame >>= fun _ => m)).res with
  | error e =>
    obtain ⟨h4, h5⟩ := h3 e hr
    rw [h4] at h1
    refine ⟨_, _, _, h1, fun x hx => ?_⟩
    rw [h5 ⟨x, hx⟩]
    simp
  | ok b =>
    obtain ⟨rfl, rfl, new, h4, h5⟩ := h2 b hr
    simp only [List.append_nil] at h1
    simp only
    cases sup.child (s.next :: s.path) with
    | none => exact ⟨_, hP _ _ _ h5.symm h4, step_merge h1⟩
    | some jn =>
      obtain ⟨own', gone', h6⟩ := step_mergeCut jn.1 jn.2 h1
      exact ⟨own', out, gone', h6, fun _ _ => rfl⟩

theorem sat_mergeLoopM {α : Type} (sup : Supply) {O : List α → List Oid} (hO0 : O [] = []) (hO : ∀ x y, (O (x ++ y)).Perm (O x ++ O y))
    (ds : List (Done (List α))) : (∀ d ∈ ds, ∀ b, d.res = .ok b → d.bp.all.Perm (O b)) →
    ∀ (items : List α) (size : Nat) {a s : Fr} {own out gone : List Oid}, Step a s own (out ++ held ds) gone →
      match mergeLoopM sup ds items size s with
      | (.ok r, s') => Step a s' (own ++ held ds) out gone ∧ (O r.1).Perm (O items ++ held ds) ∧ ∀ d ∈ ds, ∃ b, d.res = .ok b
      | (.error _, s') => ∃ own' gone', Step a s' own' out gone' := by
  induction ds with
  | nil =>
    intro _ items size a s own out gone hs
    exact ⟨by simpa [held] using hs, by simp [held], by simp⟩
  | cons d ds ih =>
    intro hd items size a s own out gone hs
    unfold mergeLoopM
    cases hr : d.res with
    | error e =>
      obtain ⟨s', h1, h2⟩ := step_dropAll (d :: ds) hs
      simp only [run_bind, h1, Owner.lift]
      exact ⟨_, _, h2⟩
    | ok b =>
      have h1 : Step a s own ((out ++ held ds) ++ d.bp.all) gone := by
        refine hs.perm (List.Perm.refl _) ?_ (List.Perm.refl _)
        rw [List.perm_iff_count]; intro x; simp only [held, List.flatMap_cons, List.count_append]; omega
      simp only [run_bind, orDrop]
      cases hstop : sup.block (ds.length :: s.path) with
      | some jn =>
        obtain ⟨own', gone', h6⟩ := step_mergeCut jn.1 jn.2 h1
        obtain ⟨s', h7, h8⟩ := step_dropAll ds h6
        simp only [mergeInM, run_bind, h7, Owner.lift]
        exact ⟨_, _, h8⟩
      | none =>
      have h2 := step_merge h1
      have h3 := ih (fun d' hd' => hd d' (List.mem_cons_of_mem _ hd'))
      have hb := hd d List.mem_cons_self b hr
      have fin : ∀ items' size', (O items').Perm (O items ++ d.bp.all) →
          (match mergeLoopM sup ds items' size' { s with bp := (s.bp.merge d.bp).1, gone := s.gone ++ (s.bp.merge d.bp).2.all } with
            | (.ok r, s') => Step a s' (own ++ held (d :: ds)) out gone ∧ (O r.1).Perm (O items ++ held (d :: ds)) ∧
                ∀ d' ∈ d :: ds, ∃ b, d'.res = .ok b
            | (.error _, s') => ∃ own' gone', Step a s' own' out gone') := by
        intro items' size' hi
        have h4 := h3 items' size' h2
        cases hm : mergeLoopM sup ds items' size' { s with bp := (s.bp.merge d.bp).1, gone := s.gone ++ (s.bp.merge d.bp).2.all } with
        | mk x s' =>
          rw [hm] at h4
          cases x with
          | error e => exact h4
          | ok r =>
            obtain ⟨k1, k2, k3⟩ := h4
            refine ⟨?_, ?_, ?_⟩
            · simpa [held, List.append_assoc] using k1
            · rw [List.perm_iff_count]
              intro x
              have c1 := List.perm_iff_count.1 k2 x
              have c2 := List.perm_iff_count.1 hi x
              simp only [held, List.flatMap_cons, List.count_append] at c1 c2 ⊢
              omega
            · intro d' hd'
              rcases List.mem_cons.1 hd' with rfl | hd'
              · exact ⟨b, hr⟩
              · exact k3 d' hd'
      simp only [mergeInM, mergeIn]
      by_cases hemp : b.isEmpty = true
      · rw [if_pos hemp]
        have : b = [] := by simpa using hemp
        subst this
        rw [hO0] at hb
        have : d.bp.all = [] := by simpa using hb
        exact fin items size (by rw [this, List.append_nil])
      · rw [if_neg hemp]
        refine fin _ _ ?_
        rw [List.perm_iff_count]
        intro x
        have c1 := List.perm_iff_count.1 hb x
        have c2 := List.perm_iff_count.1 (hO b items) x
        simp only [List.count_append] at c1 c2 ⊢
        omega

theorem sat_gatherM {α ι γ : Type} (sup : Supply) {f : Nat × Nat → M (List α)} {O : List α → List Oid} (hO0 : O [] = [])
    (hO : ∀ x y, (O (x ++ y)).Perm (O x ++ O y)) (hf : ∀ be, Sat (f be) (fun b new => new.Perm (O b)))
    (ord : List (Done (List α)) → List (Done (List α))) (hord : ∀ ds, (ord ds).Perm ds)
    {mid : M ι} {Pm : ι → List Oid → Prop} (hmid : Sat mid Pm) 
    (hkeep : ∀ s e s', mid s = (.error e, s') → s' = s) {k : ι → List α × Nat → γ} {Q : γ → List Oid → Prop}
    (hQ : ∀ i newi r new, Pm i newi → new.Perm (O r.1) → Q (k i r) (newi ++ new)) (bes : List (Nat × Nat)) :
    Sat (startAll f bes >>= fun ds => Owner.lift (checkFatal ((ord ds).map Done.res)) >>= fun _ => orDrop mid (ord ds) >>= fun i =>
      mergeLoopM sup (ord ds) [] 0 >>= fun r => pure (k i r)) Q := by
  intro a own out gone s hs
  obtain ⟨ds, s', lost, g, h1, h2, h3, h4, h5⟩ := sat_startAll hf bes hs
  rw [run_bind, h1]
  simp only
  rw [run_bind]
  simp only [Owner.lift]
  cases hc : checkFatal ((ord ds).map Done.res) with
  | error e => exact ⟨_, _, _, h2, fun x hx => absurd hx (checkFatal_error hc x)⟩
  | ok u =>
    simp only
    have hlost : lost = [] := h3 fun d hd e he => checkFatal_ok hc _ (List.mem_map.2 ⟨d, (hord ds).mem_iff.2 hd, rfl⟩) e he
    subst hlost
    have h2' : Step a s' own (out ++ held (ord ds)) (gone ++ g) := by
      refine h2.perm (List.Perm.refl _) ?_ (List.Perm.refl _)
      rw [List.append_nil]
      exact List.Perm.append_left _ (held_perm (hord ds)).symm
    have h6 := hmid _ _ _ _ _ h2'
    rw [run_bind]
    unfold orDrop
    cases hm : mid s' with
    | mk x s'' =>
      rw [hm] at h6
      cases x with
      | error e =>
        obtain rfl := hkeep _ _ _ hm
        obtain ⟨s3, k3, k4⟩ := step_dropAll (ord ds) h2'
        simp only [run_bind, k3]
        exact ⟨_, _, _, k4, fun _ _ => rfl⟩
      | ok i =>
        obtain ⟨newi, hi, h7⟩ := h6
        simp only
        have h8 := sat_mergeLoopM sup hO0 hO (ord ds) (fun d hd b hb => by
          obtain ⟨new, n1, n2⟩ := h5 d ((hord ds).mem_iff.1 hd) b hb
          exact n2.trans n1) [] 0 h7
        rw [run_bind]
        cases hl : mergeLoopM sup (ord ds) [] 0 s'' with
        | mk y s3 =>
          rw [hl] at h8
          cases y with
          | error e =>
            obtain ⟨own', gone', k1⟩ := h8
            exact ⟨own', out, gone', k1, fun _ _ => rfl⟩
          | ok r =>
            obtain ⟨k1, k2, k3⟩ := h8
            have hg : g = [] := h4 fun d hd => k3 d ((hord ds).mem_iff.2 hd)
            subst hg
            refine ⟨newi ++ held (ord ds), hQ i newi r _ hi ?_, ?_⟩
            · rw [hO0, List.nil_append] at k2
              exact k2.symm
            · simpa [List.append_assoc] using k1

theorem Sat.pre {α β : Type} {m : M α} {f : α → M β} {Q : β → List Oid → Prop} (h : Sat m (fun _ new => new = []))
    (hf : ∀ x, Sat (f x) Q) : Sat (m >>= f) Q :=
  h.bind fun x new hn => by subst hn; simpa using hf x

theorem sat_valM (sup : Supply) {cfg : Cfg} {v : View} {sm : Option StringMap} {ref : Bool} {pool : PoolRef} {p : PV} (ih : SatPV ref p)
    (t : ObjectType) (c : Cur) : Sat (valM sup cfg v sm ref pool p t c) (Makes fun x => x.1.objects) := by
  unfold valM
  cases t with
  | invalid => exact Sat.lift (by simp)
  | data =>
    simp only [factoryKind]
    refine (sat_allocM _ _).bind fun id new hnew => ?_
    subst hnew
    refine Sat.pre (sat_need _) fun _ => ?_
    refine Sat.bind (P := fun x new => new = [] ∧ ∃ dt q, x.1 = .data ref dt q) (Sat.lift fun x hx => ⟨rfl, dataObj_shape hx⟩) ?_
    rintro ⟨o, c'⟩ new ⟨rfl, dt, q, hq⟩
    simp only at hq
    subst hq
    refine Sat.pure ?_
    simp [Makes, LObj.objects]
  | array =>
    simp only [factoryKind]
    refine (sat_allocM _ _).bind fun id new hnew => ?_
    subst hnew
    refine Sat.pre (Sat.lift fun _ _ => rfl) fun a => Sat.pre (Sat.lift fun _ _ => rfl) fun b => ?_
    refine (ih.items _ _).bind fun x new hx => Sat.pure ?_
    simp only [Makes, LObj.objects, List.append_nil, List.nil_append, List.singleton_append]
    exact hx.cons _
  | map =>
    simp only [factoryKind]
    refine (sat_allocM _ _).bind fun id new hnew => ?_
    subst hnew
    refine Sat.pre (Sat.lift fun _ _ => rfl) fun a => Sat.pre (Sat.lift fun _ _ => rfl) fun b => ?_
    refine (ih.kvs _ _ []).bind fun x new hx => Sat.pure ?_
    simp only [Makes, LObj.objects, List.append_nil, List.nil_append, List.singleton_append]
    simp only [kvObjects, List.append_nil] at hx
    exact hx.cons _

theorem sat_pvsM (sup : Supply) (cfg : Cfg) (v : View) (sm : Option StringMap) (ref : Bool) (pool : PoolRef) :
    ∀ f, SatPV ref (pvsM sup cfg v sm ref pool f) := by
  intro f
  induction f with
  | zero => exact ⟨fun t c => Sat.lift (by simp), fun n c => Sat.lift (by simp), fun n c acc => Sat.lift (by simp)⟩
  | succ f ih =>
    refine ⟨fun t c => sat_valM sup ih t c, fun n c => ?_, fun n c acc => ?_⟩
    · show Sat (itemsM sup v _ n c) _
      cases n with
      | zero => exact Sat.pure (by simp [itemObjects, Makes])
      | succ n =>
        simp only [itemsM]
        refine Sat.pre (Sat.lift fun _ _ => rfl) fun t => ?_
        refine (ih.val _ _).bind fun o new ho => (sat_allocM _ _).bind fun i newi hi => ?_
        subst hi
        refine (ih.items _ _).bind fun x newx hx => Sat.pure ?_
        rw [Makes, List.perm_iff_count]
        intro y
        have c1 := List.perm_iff_count.1 ho y
        have c2 := List.perm_iff_count.1 hx y
        simp only [itemObjects, List.count_append, List.count_cons, List.count_nil] at c1 c2 ⊢
        omega
    · show Sat (kvsM sup cfg v sm ref _ n c acc) _
      cases n with
      | zero => exact Sat.pure (by simp)
      | succ n =>
        simp only [kvsM]
        refine Sat.pre (sat_requestNext _) fun _ => Sat.pre (Sat.lift fun _ _ => rfl) fun k => Sat.pre (Sat.lift fun _ _ => rfl) fun t => ?_
        refine (ih.val _ _).bind fun o new ho => ?_
        refine Sat.pre (Sat.lift fun _ _ => rfl) fun k' => ?_
        refine (sat_allocM _ _).bind fun i newi hi => ?_
        subst hi
        refine Sat.pre (sat_need _) fun _ => ?_
        refine (ih.kvs _ _ _).mono fun x newx hx => ?_
        rw [List.perm_iff_count]
        intro y
        have c1 := List.perm_iff_count.1 ho y
        have c2 := List.perm_iff_count.1 hx y
        simp only [kvObjects, List.count_append, List.count_cons, List.count_nil, itemKind] at c1 c2 ⊢
        omega

theorem sat_childM (sup : Supply) {ref : Bool} {cs : Cs} {p : PV} (hc : SatCs ref cs) (hp : SatPV ref p) (split : Bool) (t : ObjectType)
    (c : Cur) : Sat (childM sup cs p split t c) (Makes fun x => x.1.objects) := by
  unfold childM
  cases split with
  | false => exact hp.val t c
  | true =>
    cases t with
    | array => exact sat_awaitM sup (hc.array _) makes_perm
    | map => exact sat_awaitM sup (hc.map _) makes_perm
    | data => exact Sat.lift (by simp)
    | invalid => exact Sat.lift (by simp)

theorem allocM_keeps (sup : Supply) (k : Kind) (s : Fr) (e : Err) (s' : Fr) (h : allocM sup k s = (.error e, s')) : s' = s := by
  unfold allocM at h
  cases ho : sup.object (s.next :: s.path) <;> rw [ho] at h
  · simp [alloc] at h
  · simp only [Prod.mk.injEq] at h; exact h.2.symm
  · simp only [Prod.mk.injEq] at h; exact h.2.symm

theorem sat_cssM (sup : Supply) (cfg : Cfg) (v : View) (sm : Option StringMap) (si : SplitInfo) (ref : Bool) :
    ∀ f, SatCs ref (cssM sup cfg v sm si ref f) := by
  intro f
  induction f with
  | zero => exact ⟨fun e c => Sat.lift (by simp), fun os => Sat.lift (by simp), fun e c => Sat.lift (by simp), fun os => Sat.lift (by simp)⟩
  | succ f ih =>
    have hp := sat_pvsM sup cfg v sm ref .frame f
    refine ⟨fun e c => ?_, fun os => ?_, fun e c => ?_, fun os => ?_⟩
    · show Sat (arrayLoopM sup v _ _ e c) _
      unfold arrayLoopM
      split
      · refine Sat.pre (Sat.lift fun _ _ => rfl) fun t => ?_
        refine (sat_childM sup ih hp _ _ _).bind fun o new ho => (sat_allocM _ _).bind fun i newi hi => ?_
        subst hi
        refine (ih.arrayLoop _ _).bind fun x newx hx => Sat.pure ?_
        rw [Makes, List.perm_iff_count]
        intro y
        have c1 := List.perm_iff_count.1 ho y
        have c2 := List.perm_iff_count.1 hx y
        simp only [itemObjects, List.count_append, List.count_cons, List.count_nil] at c1 c2 ⊢
        omega
      · exact Sat.pure (by simp [itemObjects, Makes])
    · show Sat (coArrayM sup cfg v si _ os) _
      unfold coArrayM
      refine Sat.pre (Sat.lift fun _ _ => rfl) fun bounds => Sat.pre (sat_request _) fun _ => ?_
      refine sat_gatherM sup (O := itemObjects) (by simp [itemObjects]) itemObjects_append
        (fun be => Sat.pre (sat_request _) fun _ => ih.arrayLoop _ _) List.reverse
        List.reverse_perm (sat_allocM _ _) (allocM_keeps sup _) ?_ bounds.1
      rintro id _ r new rfl hr
      simp only [Makes, LObj.objects, List.singleton_append]
      exact hr.cons _
    · show Sat (mapLoopM sup cfg v sm ref _ _ e c) _
      unfold mapLoopM
      split
      · refine Sat.pre (sat_requestNext _) fun _ => Sat.pre (Sat.lift fun _ _ => rfl) fun k => Sat.pre (Sat.lift fun _ _ => rfl) fun t => ?_
        refine (sat_childM sup ih hp _ _ _).bind fun o new ho => (sat_allocM _ _).bind fun i newi hi => ?_
        subst hi
        refine Sat.pre (sat_need _) fun _ => ?_
        refine (ih.mapLoop _ _).bind fun x newx hx => Sat.pure ?_
        rw [Makes, List.perm_iff_count]
        intro y
        have c1 := List.perm_iff_count.1 ho y
        have c2 := List.perm_iff_count.1 hx y
        simp only [kvObjects, List.count_append, List.count_cons, List.count_nil, itemKind] at c1 c2 ⊢
        omega
      · exact Sat.pure (by simp [kvObjects, Makes])
    · show Sat (coMapM sup cfg v si ref _ os) _
      unfold coMapM
      refine Sat.pre (Sat.lift fun _ _ => rfl) fun bounds => ?_
      refine (sat_allocM _ _).bind fun id new hnew => ?_
      subst hnew
      refine Sat.pre (sat_request _) fun _ => ?_
      show Sat (startAll (fun be => request sup.frame >>= fun _ => (cssM sup cfg v sm si ref f).mapLoop be.2 ⟨addW 0 be.1, be.1⟩) bounds.1
        >>= fun ds => Owner.lift (checkFatal (ds.map Done.res)) >>= fun _ => orDrop (pure () : M Unit) ds >>= fun i =>
          mergeLoopM sup ds [] 0 >>= fun r =>
          pure ((fun (_ : Unit) (r : List (Path × Str × LObj) × Nat) =>
            ((LObj.map id ref .frame r.2 r.1, ⟨bounds.2, bounds.2⟩) : LObj × Cur)) i r)) _
      refine sat_gatherM sup (O := kvObjects ref) (by simp [kvObjects]) (kvObjects_append ref)
        (fun be => Sat.pre (sat_request _) fun _ => ih.mapLoop _ _) (fun ds => ds)
        (fun ds => List.Perm.refl _) (Pm := fun _ new => new = []) (Sat.pure rfl) (fun s e s' h => by simp [run_pure] at h) ?_ bounds.1
      rintro _ _ r new rfl hr
      simp only [Makes, LObj.objects, List.nil_append, List.singleton_append]
      exact hr.cons _

theorem sat_normalM (sup : Supply) (cfg : Cfg) (ref : Bool) (fuel : Nat) (content : Bytes) (s : Sched) :
    Sat (normalM sup cfg ref fuel content s) Part := by
  unfold normalM
  refine ((sat_pvsM sup cfg (View.whole content) s.sm ref .caller fuel).val .map ⟨metaSize, metaSize⟩).bind fun r new hr => ?_
  split
  · exact Sat.lift (by simp)
  · exact Sat.pure ⟨_, by simpa using hr, takeRootL_objects _⟩

theorem sat_parseM (sup : Supply) (cfg : Cfg) (po : ParseOption) (fuel : Nat) (content : Bytes) :
    Sat (parseM sup cfg po fuel content) Part := by
  unfold parseM
  refine Sat.pre (sat_need _) fun _ => Sat.pre (Sat.lift fun _ _ => rfl) fun s => ?_
  split
  · unfold coroutineM
    split
    · exact Sat.pre (Sat.lift fun _ _ => rfl) fun s => sat_normalM _ _ _ _ _ _
    split
    · exact Sat.lift (by simp)
    · refine (sat_awaitM sup ((sat_cssM sup cfg (View.whole content) s.sm s.si po.parseRef fuel).map metaSize) makes_perm).bind
        fun r new hr => Sat.pure ⟨_, by simpa using hr, takeRootL_objects _⟩
  · exact sat_normalM _ _ _ _ _ _

end Bridge.Owner
