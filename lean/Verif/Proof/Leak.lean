import Verif.Model.Leak
import Verif.Proof.Owner
import Verif.Proof.Top
/-
Lemmas about what the destruction of a pool gives back.
-/
set_option autoImplicit false
namespace Bridge.Owner
open Spec

theorem parseL_eq (cfg : Cfg) (po : ParseOption) (fuel : Nat) (content : Bytes) :
    parseL cfg po fuel content = (parseRootL cfg po fuel content >>= fun r => pure (takeRootL r)) := by
  have hn : ∀ sc s, normalL cfg po.parseRef fuel content sc s = (normalRootL cfg po.parseRef fuel content sc >>= fun r => pure (takeRootL r)) s := by
    intro sc s
    unfold normalL normalRootL
    simp only [run_bind]
    generalize (pvs cfg (View.whole content) sc.sm po.parseRef .caller fuel).val .map ⟨metaSize, metaSize⟩ s = q
    obtain ⟨r, s'⟩ := q
    cases r with
    | error e => rfl
    | ok r =>
      simp only
      split <;> rfl
  funext s
  unfold parseL parseRootL
  simp only [run_bind, Owner.lift]
  cases initFromContent cfg content with
  | error e => rfl
  | ok sc =>
    simp only
    split
    · unfold coroutineL coroutineRootL
      split
      · simp only [run_bind, Owner.lift]
        cases initFromContent cfg content with
        | error e => rfl
        | ok sc => simp only; rw [hn, run_bind]
      split
      · rfl
      · simp only [run_bind]
        generalize await ((css cfg (View.whole content) sc.sm sc.si po.parseRef fuel).map metaSize) s = q
        obtain ⟨r, s'⟩ := q
        cases r <;> rfl
    · rw [hn, run_bind]

/-! ### The root map without identities -/

/-- `parse` up to the line that moves the value out of the root map. -/
def parseRoot (cfg : Cfg) (po : ParseOption) (fuel : Nat) (content : Bytes) : Res Obj := do
  let s ← initFromContent cfg content
  if po.coroutine ∧ s.split = true then
    if po.workers = 0 then .error .fuel
    else do
      let r ← coMap cfg (View.whole content) s.sm s.si po.parseRef fuel metaSize
      pure r.1
  else do
    let r ← parseVal cfg (View.whole content) s.sm po.parseRef .caller fuel .map ⟨metaSize, metaSize⟩
    if r.2.off ≠ s.total then .error (.exn .parseError)
    else pure r.1

theorem er_normalRoot (cfg : Cfg) (ref : Bool) (fuel : Nat) (content : Bytes) (s : Sched) :
    Er (normalRootL cfg ref fuel content s) LObj.erase (do
      let r ← parseVal cfg (View.whole content) s.sm ref .caller fuel .map ⟨metaSize, metaSize⟩
      if r.2.off ≠ s.total then .error (.exn .parseError)
      else pure r.1) := by
  unfold normalRootL
  refine Er.bind ((er_pvs cfg (View.whole content) s.sm ref .caller fuel).val .map ⟨metaSize, metaSize⟩) fun r => ?_
  obtain ⟨o, c⟩ := r
  show Er _ _ (if c.off ≠ s.total then _ else pure o.erase)
  by_cases h : c.off ≠ s.total
  · rw [if_pos h, if_pos h]
    exact Er.error
  · rw [if_neg h, if_neg h]
    exact Er.pure

theorem er_parseRoot (cfg : Cfg) (po : ParseOption) (fuel : Nat) (content : Bytes) :
    Er (parseRootL cfg po fuel content) LObj.erase (parseRoot cfg po fuel content) := by
  unfold parseRootL parseRoot
  refine Er.lift_bind' fun s hs => ?_
  by_cases hc : po.coroutine = true
  · simp only [hc, if_true, true_and]
    unfold coroutineRootL
    by_cases hsp : s.split = false
    · rw [if_pos hsp, if_neg (by simp [hsp]), hs]
      refine Er.congr (Er.lift_bind (r := .ok s) fun s' => er_normalRoot cfg po.parseRef fuel content s') rfl
    · have hsp' : s.split = true := by simpa using hsp
      rw [if_neg hsp, if_pos hsp']
      split
      · exact Er.error
      · exact Er.bind (er_await ((er_css cfg (View.whole content) s.sm s.si po.parseRef fuel).map metaSize)) fun r => Er.pure
  · rw [if_neg hc, if_neg (by simp [hc])]
    exact er_normalRoot _ _ _ _ _

/-! ### What is made -/

theorem sat_normalRoot (cfg : Cfg) (ref : Bool) (fuel : Nat) (content : Bytes) (s : Sched) :
    Sat (normalRootL cfg ref fuel content s) (Makes LObj.objects) := by
  unfold normalRootL
  refine ((sat_pvs cfg (View.whole content) s.sm ref .caller fuel).val .map ⟨metaSize, metaSize⟩).bind fun r new hr => ?_
  split
  · exact Sat.lift (by simp)
  · exact Sat.pure (by simpa using hr)

theorem sat_parseRoot (cfg : Cfg) (po : ParseOption) (fuel : Nat) (content : Bytes) :
    Sat (parseRootL cfg po fuel content) (Makes LObj.objects) := by
  unfold parseRootL
  refine Sat.bind (P := fun _ new => new = []) (Sat.lift fun _ _ => rfl) ?_
  rintro s _ rfl
  simp only [List.nil_append]
  split
  · unfold coroutineRootL
    split
    · refine Sat.bind (P := fun _ new => new = []) (Sat.lift fun _ _ => rfl) ?_
      rintro s _ rfl
      simp only [List.nil_append]
      exact sat_normalRoot _ _ _ _ _
    split
    · exact Sat.lift (by simp)
    · refine (sat_await ((sat_css cfg (View.whole content) s.sm s.si po.parseRef fuel).map metaSize) makes_perm).bind
        fun r new hr => Sat.pure (by simpa using hr)
  · exact sat_normalRoot _ _ _ _ _

/-! ### Which classes of objects are made -/

/-- The classes that a parse makes: those of an owning document, or those of one in situ. -/
def Kind.ofRef (ref : Bool) : Kind → Bool
  | .data | .map | .mapItem => !ref
  | .dataView | .mapView | .mapViewItem => ref
  | .array | .arrayItem => true

/-- The code makes only objects of the classes in `K`. -/
def Only {α : Type} (K : Kind → Bool) (m : M α) : Prop := ∀ s, ∃ new, (m s).2.made = s.made ++ new ∧ ∀ x ∈ new, K x.1 = true

theorem Only.bind {α β : Type} {K : Kind → Bool} {m : M α} {f : α → M β} (h : Only K m) (hf : ∀ x, Only K (f x)) : Only K (m >>= f) := by
  intro s
  rw [run_bind]
  obtain ⟨new, e, hn⟩ := h s
  cases hm : m s with
  | mk x s' =>
    rw [hm] at e
    cases x with
    | error _ => exact ⟨new, e, hn⟩
    | ok x =>
      obtain ⟨new', e', hn'⟩ := hf x s'
      simp only at e ⊢
      refine ⟨new ++ new', by rw [e', e, List.append_assoc], fun y hy => ?_⟩
      rcases List.mem_append.1 hy with hy | hy
      · exact hn y hy
      · exact hn' y hy

theorem Only.same {α : Type} {K : Kind → Bool} {m : M α} (h : ∀ s, (m s).2.made = s.made) : Only K m :=
  fun s => ⟨[], by simp [h s], by simp⟩

theorem Only.lift {α : Type} {K : Kind → Bool} (r : Res α) : Only K (lift r) := Only.same fun _ => rfl
theorem Only.pure {α : Type} {K : Kind → Bool} (x : α) : Only K (pure x) := Only.same fun _ => rfl
theorem only_alloc {K : Kind → Bool} {k : Kind} (h : K k = true) : Only K (alloc k) :=
  fun s => ⟨[(k, s.next :: s.path)], rfl, by simpa using h⟩
theorem only_child {K : Kind → Bool} : Only K child := Only.same fun _ => rfl
theorem only_drop {K : Kind → Bool} (b : BPool) : Only K (drop b) := Only.same fun _ => rfl
theorem only_mergeIn {K : Kind → Bool} (b : BPool) : Only K (mergeIn b) := Only.same fun _ => rfl

theorem only_run {α : Type} {K : Kind → Bool} {m : M α} (h : Only K m) (path : Path) : ∀ x ∈ (runFrame path m).made, K x.1 = true := by
  unfold runFrame
  obtain ⟨new, e, hn⟩ := h { path := path }
  cases hm : m { path := path } with
  | mk x s' =>
    rw [hm] at e
    simp only [List.nil_append] at e
    cases x with
    | ok _ => intro y hy; exact hn y (e ▸ hy)
    | error _ => intro y hy; exact hn y (e ▸ hy)

theorem only_note {α : Type} {K : Kind → Bool} {m : M α} (h : Only K m) (path : Path) : Only K (note (runFrame path m)) :=
  fun _ => ⟨_, rfl, only_run h path⟩

structure OnlyPV (K : Kind → Bool) (p : PV) : Prop where
  val : ∀ t c, Only K (p.val t c)
  items : ∀ n c, Only K (p.items n c)
  kvs : ∀ n c acc, Only K (p.kvs n c acc)

theorem only_pvs (cfg : Cfg) (v : View) (sm : Option StringMap) (ref : Bool) (pool : PoolRef) :
    ∀ f, OnlyPV (Kind.ofRef ref) (pvs cfg v sm ref pool f) := by
  intro f
  induction f with
  | zero => exact ⟨fun _ _ => Only.lift _, fun _ _ => Only.lift _, fun _ _ _ => Only.lift _⟩
  | succ f ih =>
    refine ⟨fun t c => ?_, fun n c => ?_, fun n c acc => ?_⟩
    · show Only _ (valL cfg v sm ref pool _ t c)
      unfold valL
      cases t with
      | invalid => exact Only.lift _
      | data =>
        simp only [factoryKind]
        refine (only_alloc (by cases ref <;> rfl)).bind fun id => (Only.lift _).bind fun r => ?_
        split <;> exact Only.pure _
      | array =>
        simp only [factoryKind]
        exact (only_alloc rfl).bind fun id => (Only.lift _).bind fun a => (Only.lift _).bind fun b =>
          (ih.items _ _).bind fun r => Only.pure _
      | map =>
        simp only [factoryKind]
        exact (only_alloc (by cases ref <;> rfl)).bind fun id => (Only.lift _).bind fun a => (Only.lift _).bind fun b =>
          (ih.kvs _ _ _).bind fun r => Only.pure _
    · show Only _ (itemsL v _ n c)
      unfold itemsL
      cases n with
      | zero => exact Only.pure _
      | succ n =>
        exact (Only.lift _).bind fun t => (ih.val _ _).bind fun o => (only_alloc rfl).bind fun i => (ih.items _ _).bind fun r => Only.pure _
    · show Only _ (kvsL cfg v sm ref _ n c acc)
      unfold kvsL
      cases n with
      | zero => exact Only.pure _
      | succ n =>
        exact (Only.lift _).bind fun k => (Only.lift _).bind fun t => (ih.val _ _).bind fun o => (Only.lift _).bind fun k' =>
          (only_alloc (by cases ref <;> rfl)).bind fun i => ih.kvs _ _ _

theorem only_await {K : Kind → Bool} {m : M (LObj × Cur)} (h : Only K m) : Only K (await m) :=
  only_child.bind fun path => (only_note h path).bind fun _ => (Only.lift _).bind fun _ => (only_mergeIn _).bind fun _ => Only.pure _

theorem only_startAll {α : Type} {K : Kind → Bool} {f : Nat × Nat → M α} (h : ∀ be, Only K (f be)) :
    ∀ bes, Only K (startAll f bes)
  | [] => Only.pure _
  | be :: bes => only_child.bind fun path => (only_note (h be) path).bind fun _ => (only_startAll h bes).bind fun _ => Only.pure _

theorem only_dropAll {α : Type} {K : Kind → Bool} : ∀ ds : List (Done α), Only K (dropAll ds)
  | [] => Only.pure _
  | d :: ds => (only_drop d.bp).bind fun _ => only_dropAll ds

theorem only_mergeLoop {α : Type} {K : Kind → Bool} : ∀ (ds : List (Done (List α))) (items : List α) (size : Nat),
    Only K (mergeLoop ds items size)
  | [], _, _ => Only.pure _
  | d :: ds, items, size => by
    unfold mergeLoop
    split
    · exact (only_dropAll _).bind fun _ => Only.lift _
    · refine (only_mergeIn _).bind fun _ => ?_
      split <;> exact only_mergeLoop ds _ _

structure OnlyCs (K : Kind → Bool) (cs : Cs) : Prop where
  arrayLoop : ∀ e c, Only K (cs.arrayLoop e c)
  array : ∀ os, Only K (cs.array os)
  mapLoop : ∀ e c, Only K (cs.mapLoop e c)
  map : ∀ os, Only K (cs.map os)

theorem only_childL {K : Kind → Bool} {cs : Cs} {p : PV} (hc : OnlyCs K cs) (hp : OnlyPV K p) (split : Bool) (t : ObjectType) (c : Cur) :
    Only K (childL cs p split t c) := by
  unfold childL
  split
  · split
    · exact only_await (hc.array _)
    · exact only_await (hc.map _)
    · exact Only.lift _
  · exact hp.val _ _

theorem only_css (cfg : Cfg) (v : View) (sm : Option StringMap) (si : SplitInfo) (ref : Bool) :
    ∀ f, OnlyCs (Kind.ofRef ref) (css cfg v sm si ref f) := by
  intro f
  induction f with
  | zero => exact ⟨fun _ _ => Only.lift _, fun _ => Only.lift _, fun _ _ => Only.lift _, fun _ => Only.lift _⟩
  | succ f ih =>
    have hp := only_pvs cfg v sm ref .frame f
    refine ⟨fun e c => ?_, fun os => ?_, fun e c => ?_, fun os => ?_⟩
    · show Only _ (arrayLoopL v _ _ e c)
      unfold arrayLoopL
      split
      · exact (Only.lift _).bind fun t => (only_childL ih hp _ _ _).bind fun o => (only_alloc rfl).bind fun i =>
          (ih.arrayLoop _ _).bind fun r => Only.pure _
      · exact Only.pure _
    · show Only _ (arrayL cfg v si _ os)
      unfold arrayL
      exact (Only.lift _).bind fun b => (only_startAll (fun be => ih.arrayLoop _ _) _).bind fun ds => (Only.lift _).bind fun _ =>
        (only_alloc rfl).bind fun id => (only_mergeLoop _ _ _).bind fun r => Only.pure _
    · show Only _ (mapLoopL cfg v sm ref _ _ e c)
      unfold mapLoopL
      split
      · exact (Only.lift _).bind fun k => (Only.lift _).bind fun t => (only_childL ih hp _ _ _).bind fun o =>
          (only_alloc (by cases ref <;> rfl)).bind fun i => (ih.mapLoop _ _).bind fun r => Only.pure _
      · exact Only.pure _
    · show Only _ (mapL cfg v si ref _ os)
      unfold mapL
      exact (Only.lift _).bind fun b => (only_alloc (by cases ref <;> rfl)).bind fun id =>
        (only_startAll (fun be => ih.mapLoop _ _) _).bind fun ds => (Only.lift _).bind fun _ =>
          (only_mergeLoop _ _ _).bind fun r => Only.pure _

theorem only_normalRoot (cfg : Cfg) (ref : Bool) (fuel : Nat) (content : Bytes) (s : Sched) :
    Only (Kind.ofRef ref) (normalRootL cfg ref fuel content s) := by
  unfold normalRootL
  refine ((only_pvs cfg _ s.sm ref .caller fuel).val _ _).bind fun r => ?_
  split
  · exact Only.lift _
  · exact Only.pure _

theorem only_parseRoot (cfg : Cfg) (po : ParseOption) (fuel : Nat) (content : Bytes) :
    Only (Kind.ofRef po.parseRef) (parseRootL cfg po fuel content) := by
  unfold parseRootL
  refine (Only.lift _).bind fun s => ?_
  split
  · unfold coroutineRootL
    split
    · exact (Only.lift _).bind fun s => only_normalRoot _ _ _ _ _
    split
    · exact Only.lift _
    · exact (only_await ((only_css cfg _ s.sm s.si po.parseRef fuel).map _)).bind fun r => Only.pure _
  · exact only_normalRoot _ _ _ _ _

/-! ### What the objects hold -/

theorem leaked_eq (b : BPool) (held : List (Oid × Storage)) : leaked b held = held.map Prod.snd := by
  unfold leaked
  rw [List.filter_eq_self.2]
  rintro ⟨⟨k, i⟩, s⟩ _
  cases k <;> simp [Kind.runsDestructor, Kind.destructorReleases]

mutual
/-- An owning tree holds the storage of its document. -/
theorem holds_doc : ∀ (o : LObj) (d : Doc), o.erase.doc? = some d → (∀ x ∈ o.objects, Kind.ofRef false x.1 = true) →
    o.holds.map Prod.snd = d.storages
  | .null, d, h, _ => by simp [LObj.erase, Obj.doc?] at h
  | .data id ref dt p, d, h, ho => by
    simp only [LObj.erase, Obj.doc?, Option.map_eq_some_iff] at h
    obtain ⟨s, hs, rfl⟩ := h
    cases ref with
    | true => have := ho _ (by simp only [LObj.objects, if_true]; exact List.mem_singleton.2 rfl); cases this
    | false =>
      cases p <;> simp only [scalarOf, Bool.not_false, Bool.true_and, Bool.false_eq_true, if_false, if_true, reduceCtorEq] at hs
      all_goals (repeat' split at hs)
      all_goals first
        | cases hs
        | skip
      all_goals rfl
  | .array id pool size items, d, h, ho => by
    simp only [LObj.erase, Obj.doc?] at h
    split at h
    · simp only [Option.map_eq_some_iff] at h
      obtain ⟨ds, h, rfl⟩ := h
      exact holds_docs items ds h fun x hx => ho x (List.mem_cons_of_mem _ hx)
    · cases h
  | .map id ref pool size items, d, h, ho => by
    simp only [LObj.erase, Obj.doc?] at h
    split at h
    · simp only [Option.map_eq_some_iff] at h
      obtain ⟨ds, h, rfl⟩ := h
      cases ref with
      | true => have := ho _ (by simp only [LObj.objects, if_true]; exact List.mem_cons_self); cases this
      | false => exact holds_entries items ds h fun x hx => ho x (List.mem_cons_of_mem _ hx)
    · cases h
theorem holds_docs : ∀ (l : List (Path × LObj)) (ds : List Doc), docs? (eraseItems l) = some ds →
    (∀ x ∈ itemObjects l, Kind.ofRef false x.1 = true) → (itemHolds l).map Prod.snd = storagesL ds
  | [], ds, h, _ => by simp only [eraseItems, docs?, Option.some.injEq] at h; subst h; rfl
  | (i, o) :: rest, ds, h, ho => by
    simp only [eraseItems, docs?, Option.bind_eq_bind, Option.bind_eq_some_iff, Option.pure_def, Option.some.injEq] at h
    obtain ⟨d, hd, ds', hds, rfl⟩ := h
    simp only [itemHolds, storagesL, List.map_append]
    rw [holds_doc o d hd fun x hx => ho x (List.mem_cons_of_mem _ (List.mem_append.2 (.inl hx))),
      holds_docs rest ds' hds fun x hx => ho x (List.mem_cons_of_mem _ (List.mem_append.2 (.inr hx)))]
theorem holds_entries : ∀ (l : List (Path × Str × LObj)) (es : List (Bytes × Doc)), entries? (eraseKVs l) = some es →
    (∀ x ∈ kvObjects false l, Kind.ofRef false x.1 = true) → (kvHolds false l).map Prod.snd = storagesE es
  | [], es, h, _ => by simp only [eraseKVs, entries?, Option.some.injEq] at h; subst h; rfl
  | (i, k, o) :: rest, es, h, ho => by
    simp only [eraseKVs, entries?, Option.bind_eq_bind, Option.bind_eq_some_iff, Option.pure_def, Option.some.injEq] at h
    obtain ⟨d, hd, ds', hds, rfl⟩ := h
    simp only [kvHolds, storagesE, List.map_append, Bool.false_eq_true, if_false, List.map_cons, List.map_nil, List.cons_append, List.nil_append]
    rw [holds_doc o d hd fun x hx => ho x (List.mem_cons_of_mem _ (List.mem_append.2 (.inl hx))),
      holds_entries rest ds' hds fun x hx => ho x (List.mem_cons_of_mem _ (List.mem_append.2 (.inr hx)))]
end

mutual
/-- A tree made in situ holds nothing. -/
theorem holds_ref : ∀ o : LObj, (∀ x ∈ o.objects, Kind.ofRef true x.1 = true) → o.holds = []
  | .null, _ => rfl
  | .data id ref dt p, ho => by
    cases ref with
    | true => rfl
    | false => have := ho _ (by simp only [LObj.objects, Bool.false_eq_true, if_false]; exact List.mem_singleton.2 rfl); cases this
  | .array id pool size items, ho => holds_refL items fun x hx => ho x (List.mem_cons_of_mem _ hx)
  | .map id ref pool size items, ho => by
    cases ref with
    | true => exact holds_refE items fun x hx => ho x (List.mem_cons_of_mem _ hx)
    | false => have := ho _ (by simp only [LObj.objects, Bool.false_eq_true, if_false]; exact List.mem_cons_self); cases this
theorem holds_refL : ∀ l : List (Path × LObj), (∀ x ∈ itemObjects l, Kind.ofRef true x.1 = true) → itemHolds l = []
  | [], _ => rfl
  | (i, o) :: rest, ho => by
    simp only [itemHolds]
    rw [holds_ref o fun x hx => ho x (List.mem_cons_of_mem _ (List.mem_append.2 (.inl hx))),
      holds_refL rest fun x hx => ho x (List.mem_cons_of_mem _ (List.mem_append.2 (.inr hx)))]
    rfl
theorem holds_refE : ∀ l : List (Path × Str × LObj), (∀ x ∈ kvObjects true l, Kind.ofRef true x.1 = true) → kvHolds true l = []
  | [], _ => rfl
  | (i, k, o) :: rest, ho => by
    simp only [kvHolds, if_true]
    rw [holds_ref o fun x hx => ho x (List.mem_cons_of_mem _ (List.mem_append.2 (.inl hx))),
      holds_refE rest fun x hx => ho x (List.mem_cons_of_mem _ (List.mem_append.2 (.inr hx)))]
    rfl
end

theorem kvHolds_mem {ref : Bool} {k : Bytes} : ∀ items : List (Path × Str × LObj), ((takeKeyL k items).holds).Sublist (kvHolds ref items)
  | [] => List.nil_sublist _
  | (i, k', o) :: rest => by
    simp only [takeKeyL, kvHolds]
    split
    · exact (List.sublist_append_left _ _).trans (List.sublist_append_right _ _)
    · exact ((kvHolds_mem rest).trans (List.sublist_append_right _ _)).trans (List.sublist_append_right _ _)

theorem takeRootL_holds (o : LObj) : (takeRootL o).holds.Sublist o.holds := by
  cases o with
  | map id ref pool size items => exact kvHolds_mem items
  | _ => exact List.nil_sublist _

/-! ### The storage of equal documents -/

theorem storagesE_perm {a b : List (Bytes × Doc)} (h : a.Perm b) : (storagesE a).Perm (storagesE b) := by
  induction h with
  | nil => exact .refl _
  | cons x _ ih =>
    obtain ⟨k, x⟩ := x
    simp only [storagesE]
    exact (List.Perm.append_left _ ih).cons _
  | swap x y l =>
    obtain ⟨k, x⟩ := x
    obtain ⟨k', y⟩ := y
    simp only [storagesE]
    rw [List.perm_iff_count]
    intro z
    simp only [List.count_cons, List.count_append]
    omega
  | trans _ _ ih1 ih2 => exact ih1.trans ih2

mutual
theorem storages_same : ∀ d d' : Doc, d.Same d' → d.storages.Perm d'.storages
  | .scalar s, d', h => by simp only [Doc.Same] at h; subst h; exact .refl _
  | .array xs, d', h => by
    simp only [Doc.Same] at h
    obtain ⟨ys, rfl, h⟩ := h
    exact storages_sameL xs ys h
  | .map es, d', h => by
    simp only [Doc.Same] at h
    obtain ⟨es', es'', rfl, h, hp⟩ := h
    exact (storages_sameE es es'' h).trans (storagesE_perm hp)
theorem storages_sameL : ∀ xs ys : List Doc, SameL xs ys → (storagesL xs).Perm (storagesL ys)
  | [], ys, h => by simp only [SameL] at h; subst h; exact .refl _
  | x :: xs, ys, h => by
    simp only [SameL] at h
    obtain ⟨y, ys', rfl, h1, h2⟩ := h
    exact (storages_same x y h1).append (storages_sameL xs ys' h2)
theorem storages_sameE : ∀ es es' : List (Bytes × Doc), SameE es es' → (storagesE es).Perm (storagesE es')
  | [], es', h => by simp only [SameE] at h; subst h; exact .refl _
  | (k, x) :: es, es', h => by
    simp only [SameE] at h
    obtain ⟨y, ys', rfl, h1, h2⟩ := h
    exact ((storages_same x y h1).append (storages_sameE es ys' h2)).cons _
end

/-! ### The root map of a written content -/

theorem parseRoot_written {cfg wc : Cfg} {t : SeriType} {d : Doc} {extra : Bytes} (h : ContentOk cfg wc t d extra) (po : ParseOption)
    (hcust : po.parseRef = true → d.noCustom = true) (hw : po.coroutine = true → 0 < po.workers) {f : Nat} (hf : docFuel (rootDoc d) ≤ f) :
    ∃ o d', parseRoot cfg po f (contentOf wc t d ++ extra) = .ok o ∧ o.doc? = some d' ∧ (rootDoc d).Same d' := by
  obtain ⟨s, h1, h2, h3, h4, h5, h6⟩ := init_eq extra h.size h.lt
  have hlt := h.lt
  have hroom := env0_room t (n := (bodyOf wc t d).1.length) (by omega)
  by_cases hp : po.coroutine = true ∧ s.split = true
  · have hb : (emitDoc wc (rootDoc d) (env0 t)).2.1 = true := h4.symm.trans hp.2
    have hg : Grows (env0 t) (bodyOf wc t d).2.2 (bodyOf wc t d).1.length := emitDoc_grows wc (rootDoc d) (env0 t) hroom
    have hctx := cctx_of_sched h.size h.strMax h2 hg.si
    obtain ⟨o, d', p1, p2, p3, p4⟩ := (co_all (ref := po.parseRef) hctx f).2.2 (rootDoc d) (env0 t) 10 hroom (Follows.refl _) h5
      (by simp only [List.length_append]; exact Nat.lt_of_lt_of_le h6 (by omega)) (Nat.lt_of_le_of_lt (Nat.le_of_lt (by
        have : (emitDoc wc (rootDoc d) (env0 t)).1.length < 10 + (bodyOf wc t d).1.length := by
          have : (emitDoc wc (rootDoc d) (env0 t)).1.length = (bodyOf wc t d).1.length := rfl
          omega
        exact this)) (by omega)) (by simpa [rootDoc, Doc.noCustom, noCustomE] using hcust) hf
    refine ⟨o, d', ?_, p2, p3⟩
    unfold parseRoot
    rw [h1]
    simp only [ok_bind]
    have hw := hw hp.1
    rw [if_pos hp, if_neg (by omega)]
    rw [hb] at p1
    simp only [coChild, if_true, rootDoc, docType] at p1
    simp only [metaSize]
    rw [p1]
    rfl
  · obtain ⟨s', o, c, h1', p1, p3, p2, _⟩ := parse_root h po.parseRef hcust hf
    rw [h1] at h1'
    cases h1'
    refine ⟨o, _, ?_, p2, same_revMaps _⟩
    unfold parseRoot
    rw [h1]
    simp only [ok_bind]
    rw [if_neg hp, p1]
    simp only [ok_bind]
    rw [if_neg (by rw [p3]; simp)]
    rfl

end Bridge.Owner
