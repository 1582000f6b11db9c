import Verif.Model.Owner
import Verif.Proof.Fuel
import Verif.Proof.Sound
/-
The parsers with pools: erasing the identities gives the parsers without (`Er`), and what is made is owned, held or destroyed
(`Sat`).
-/
set_option autoImplicit false
namespace Bridge.Owner

/-! ### Running -/

theorem run_pure {α : Type} (a : α) (s : Fr) : (pure a : M α) s = (.ok a, s) := rfl

theorem run_bind {α β : Type} (m : M α) (f : α → M β) (s : Fr) :
    (m >>= f) s = (match m s with
      | (.ok a, s) => f a s
      | (.error e, s) => (.error e, s)) := rfl

/-! ### Erasure -/

/-- Apply a function to an outcome. -/
def emap {α β : Type} (e : α → β) : Res α → Res β
  | .ok a => .ok (e a)
  | .error x => .error x

/-- Whatever the state, the outcome of `m` shown through `e` is `r`. -/
def Er {α β : Type} (m : M α) (e : α → β) (r : Res β) : Prop := ∀ s, emap e (m s).1 = r

theorem Er.pure {α β : Type} {a : α} {e : α → β} : Er (pure a) e (.ok (e a)) := fun _ => rfl

theorem Er.lift {α : Type} {r : Res α} : Er (lift r) id r := by
  intro s; cases r <;> rfl

theorem Er.error {α β : Type} {x : Err} {e : α → β} : Er (Owner.lift (.error x)) e (.error x) := fun _ => rfl

theorem Er.bind {α β γ δ : Type} {m : M α} {e : α → γ} {r : Res γ} {f : α → M β} {e' : β → δ} {g : γ → Res δ}
    (h : Er m e r) (hf : ∀ a, Er (f a) e' (g (e a))) : Er (m >>= f) e' (r >>= g) := by
  intro s
  have := h s
  rw [run_bind]
  cases hm : m s with
  | mk x s' =>
    rw [hm] at this
    cases x with
    | ok a => simp only [emap] at this; subst this; exact hf a s'
    | error x => simp only [emap] at this; subst this; rfl

theorem Er.lift_bind {β γ δ : Type} {r : Res γ} {f : γ → M β} {e' : β → δ} {g : γ → Res δ} (hf : ∀ a, Er (f a) e' (g a)) :
    Er (Owner.lift r >>= f) e' (r >>= g) := Er.bind Er.lift hf

/-- Code whose outcome does not matter for the rest. -/
def Quiet {α : Type} (m : M α) : Prop := ∀ s, ∃ a, (m s).1 = .ok a

theorem Er.quiet {α β γ : Type} {m : M α} (hm : Quiet m) {f : α → M β} {e : β → γ} {r : Res γ} (hf : ∀ a, Er (f a) e r) :
    Er (m >>= f) e r := by
  intro s
  rw [run_bind]
  obtain ⟨a, ha⟩ := hm s
  cases h : m s with
  | mk x s' =>
    rw [h] at ha; simp only at ha; subst ha
    exact hf a s'

theorem quiet_alloc (k : Kind) : Quiet (alloc k) := fun _ => ⟨_, rfl⟩
theorem quiet_child : Quiet child := fun _ => ⟨_, rfl⟩
theorem quiet_drop (b : BPool) : Quiet (drop b) := fun _ => ⟨_, rfl⟩
theorem quiet_mergeIn (b : BPool) : Quiet (mergeIn b) := fun _ => ⟨_, rfl⟩
theorem quiet_note {α : Type} (d : Done α) : Quiet (note d) := fun _ => ⟨_, rfl⟩

theorem Er.congr {α β : Type} {m : M α} {e : α → β} {r r' : Res β} (h : Er m e r) (hr : r = r') : Er m e r' := hr ▸ h

/-- A result with its cursor. -/
def er2 {α β γ : Type} (f : α → β) (x : α × γ) : β × γ := (f x.1, x.2)

structure ErPV (cfg : Cfg) (v : View) (sm : Option StringMap) (parseRef : Bool) (pool : PoolRef) (f : Nat) (p : PV) : Prop where
  val : ∀ t c, Er (p.val t c) (er2 LObj.erase) (parseVal cfg v sm parseRef pool f t c)
  items : ∀ n c, Er (p.items n c) (er2 eraseItems) (parseItems cfg v sm parseRef pool f n c)
  kvs : ∀ n c acc, Er (p.kvs n c acc) (er2 eraseKVs) (parseKVs cfg v sm parseRef pool f n c (eraseKVs acc))

theorem dataObj_shape {cfg : Cfg} {v : View} {sm : Option StringMap} {ref : Bool} {c : Cur} {r : Obj × Cur}
    (h : (if ref then parseViewObj cfg v sm c else parseDataObj cfg v sm c) = .ok r) : ∃ dt p, r.1 = .data ref dt p := by
  cases ref with
  | true =>
    simp only [if_true] at h
    unfold parseViewObj at h
    obtain ⟨a, -, h⟩ := bind_ok h
    obtain ⟨_, -, h⟩ := bind_ok h
    split at h
    · obtain ⟨_, -, h⟩ := bind_ok h
      obtain ⟨_, -, h⟩ := bind_ok h
      cases h; exact ⟨_, _, rfl⟩
    · obtain ⟨_, -, h⟩ := bind_ok h
      obtain ⟨_, -, h⟩ := bind_ok h
      obtain ⟨_, -, h⟩ := bind_ok h
      obtain ⟨_, -, h⟩ := bind_ok h
      cases h; exact ⟨_, _, rfl⟩
  | false =>
    simp only [Bool.false_eq_true, if_false] at h
    unfold parseDataObj at h
    obtain ⟨a, -, h⟩ := bind_ok h
    obtain ⟨_, -, h⟩ := bind_ok h
    split at h
    · obtain ⟨_, -, h⟩ := bind_ok h
      obtain ⟨_, -, h⟩ := bind_ok h
      cases h; exact ⟨_, _, rfl⟩
    · obtain ⟨_, -, h⟩ := bind_ok h
      obtain ⟨_, -, h⟩ := bind_ok h
      obtain ⟨_, -, h⟩ := bind_ok h
      obtain ⟨_, -, h⟩ := bind_ok h
      cases h; exact ⟨_, _, rfl⟩

/-- `Er.lift_bind` knowing that the code succeeded. -/
theorem Er.lift_bind' {β γ δ : Type} {r : Res γ} {f : γ → M β} {e' : β → δ} {g : γ → Res δ}
    (hf : ∀ a, r = .ok a → Er (f a) e' (g a)) : Er (Owner.lift r >>= f) e' (r >>= g) := by
  intro s
  cases hr : r with
  | ok a => exact hf a hr s
  | error x => rfl

theorem er_val {cfg : Cfg} {v : View} {sm : Option StringMap} {ref : Bool} {pool : PoolRef} {f : Nat} {p : PV}
    (ih : ErPV cfg v sm ref pool f p) (t : ObjectType) (c : Cur) :
    Er (valL cfg v sm ref pool p t c) (er2 LObj.erase) (parseVal cfg v sm ref pool (f + 1) t c) := by
  unfold valL
  cases t with
  | invalid => exact Er.error
  | data =>
    simp only [factoryKind, parseVal]
    refine Er.quiet (quiet_alloc _) fun id => ?_
    have e : (if ref = true then parseViewObj cfg v sm c else parseDataObj cfg v sm c) =
        ((if ref = true then parseViewObj cfg v sm c else parseDataObj cfg v sm c) >>= fun r => pure r) := by
      cases (if ref = true then parseViewObj cfg v sm c else parseDataObj cfg v sm c) <;> rfl
    refine Er.congr (Er.lift_bind' (g := fun r => pure r) fun r hr => by
    obtain ⟨dt, q, hq⟩ := dataObj_shape hr
    obtain ⟨o, c'⟩ := r
    simp only at hq
    subst hq
    exact Er.pure) e.symm
  | array =>
    simp only [factoryKind, parseVal]
    refine Er.quiet (quiet_alloc _) fun id => ?_
    refine Er.lift_bind fun a => Er.lift_bind fun b => ?_
    exact Er.bind (ih.items _ _) fun x => Er.pure
  | map =>
    simp only [factoryKind, parseVal]
    refine Er.quiet (quiet_alloc _) fun id => ?_
    refine Er.lift_bind fun a => Er.lift_bind fun b => ?_
    exact Er.bind (ih.kvs _ _ []) fun x => Er.pure

theorem er_pvs (cfg : Cfg) (v : View) (sm : Option StringMap) (ref : Bool) (pool : PoolRef) :
    ∀ f, ErPV cfg v sm ref pool f (pvs cfg v sm ref pool f) := by
  intro f
  induction f with
  | zero =>
    refine ⟨fun t c => ?_, fun n c => ?_, fun n c acc => ?_⟩
    · simp only [parseVal]; exact Er.error
    · simp only [parseItems]; exact Er.error
    · simp only [parseKVs]; exact Er.error
  | succ f ih =>
    refine ⟨fun t c => er_val ih t c, fun n c => ?_, fun n c acc => ?_⟩
    · show Er (itemsL v _ n c) _ _
      cases n with
      | zero => simp only [parseItems, itemsL]; exact Er.pure
      | succ n =>
        simp only [parseItems, itemsL]
        refine Er.lift_bind fun t => Er.bind (ih.val _ _) fun o => Er.quiet (quiet_alloc _) fun i => ?_
        exact Er.bind (ih.items _ _) fun x => Er.pure
    · show Er (kvsL cfg v sm ref _ n c acc) _ _
      cases n with
      | zero => simp only [parseKVs, kvsL]; exact Er.pure
      | succ n =>
        simp only [parseKVs, kvsL]
        refine Er.lift_bind fun k => Er.lift_bind fun t => Er.bind (ih.val _ _) fun o => Er.lift_bind fun k' =>
          Er.quiet (quiet_alloc _) fun i => ?_
        exact (ih.kvs _ _ _).congr (by simp only [eraseKVs]; rfl)

theorem runFrame_res {α : Type} (path : Path) (m : M α) : (runFrame path m).res = (m { path := path }).1 := by
  unfold runFrame
  cases m { path := path } with
  | mk x s => cases x <;> rfl

theorem er_await {β : Type} {m : M (LObj × Cur)} {e : LObj × Cur → β} {r : Res β} (h : Er m e r) : Er (await m) e r := by
  unfold await
  refine Er.quiet quiet_child fun path => Er.quiet (quiet_note _) fun _ => ?_
  intro s
  rw [run_bind]
  simp only [Owner.lift, runFrame_res]
  rw [← h { path := path }]
  cases (m { path := path }).1 with
  | error x => rfl
  | ok a => rfl

theorem er_startAll {α β : Type} {f : Nat × Nat → M α} {e : α → β} {g : Nat × Nat → Res β} (h : ∀ be, Er (f be) e (g be)) :
    ∀ (bes : List (Nat × Nat)) (s : Fr), ∃ ds, (startAll f bes s).1 = .ok ds ∧ ds.map (fun d => emap e d.res) = bes.map g := by
  intro bes
  induction bes with
  | nil => intro s; exact ⟨[], rfl, rfl⟩
  | cons be bes ih =>
    intro s
    simp only [startAll, run_bind, child, note]
    obtain ⟨ds, h1, h2⟩ := ih { s with next := s.next + 1, made := s.made ++ (runFrame (s.next :: s.path) (f be)).made, gone := s.gone ++ (runFrame (s.next :: s.path) (f be)).gone }
    cases hs : startAll f bes { s with next := s.next + 1, made := s.made ++ (runFrame (s.next :: s.path) (f be)).made, gone := s.gone ++ (runFrame (s.next :: s.path) (f be)).gone } with
    | mk x s' =>
      rw [hs] at h1
      simp only at h1
      subst h1
      refine ⟨_, rfl, ?_⟩
      simp only [List.map_cons, h2]
      rw [runFrame_res, h be]

theorem er_dropAll {α : Type} (ds : List (Done α)) : Quiet (dropAll ds) := by
  induction ds with
  | nil => intro s; exact ⟨(), rfl⟩
  | cons d ds ih =>
    intro s
    simp only [dropAll, run_bind, drop]
    exact ih _

/-- object.h:502-513, 680-691 `Merge` of a block. -/
def addBlock {β : Type} (acc : List β × Nat) (b : List β) : List β × Nat :=
  if b.isEmpty then acc else (b ++ acc.1, addW acc.2 b.length)

theorem er_mergeLoop {α β : Type} {e : List α → List β} (happ : ∀ a b, e (a ++ b) = e a ++ e b) (hlen : ∀ a, (e a).length = a.length) :
    ∀ (ds : List (Done (List α))) (items : List α) (size : Nat),
      Er (mergeLoop ds items size) (er2 e)
        ((ds.map (fun d => emap e d.res)).mapM id >>= fun objs => .ok (objs.foldl addBlock (e items, size))) := by
  intro ds
  induction ds with
  | nil => intro items size; exact Er.pure
  | cons d ds ih =>
    intro items size
    unfold mergeLoop
    cases hd : d.res with
    | error x =>
      have hde : emap e d.res = .error x := by rw [hd]; rfl
      simp only [List.map_cons, hde, List.mapM_cons, id]
      exact Er.quiet (er_dropAll _) fun _ => Er.error
    | ok b =>
      have hde : emap e d.res = .ok (e b) := by rw [hd]; rfl
      simp only [List.map_cons, hde, List.mapM_cons, id, ok_bind]
      refine Er.quiet (quiet_mergeIn _) fun _ => ?_
      have hemp : (e b).isEmpty = b.isEmpty := by
        rw [Bool.eq_iff_iff, List.isEmpty_iff_length_eq_zero, List.isEmpty_iff_length_eq_zero, hlen]
      have key : ∀ acc : List β × Nat, ((do
            let as ← List.mapM id (List.map (fun d => emap e d.res) ds)
            pure (e b :: as) : Res (List (List β))) >>= fun objs => .ok (List.foldl addBlock acc objs)) =
          (List.mapM id (List.map (fun d => emap e d.res) ds) >>= fun objs => .ok (List.foldl addBlock (addBlock acc (e b)) objs)) := by
        intro acc
        cases List.mapM id (List.map (fun d => emap e d.res) ds) <;> rfl
      rw [key]
      unfold addBlock
      rw [hemp]
      split
      · exact ih items size
      · refine (ih (b ++ items) _).congr ?_
        rw [happ, hlen]
        rfl

theorem joinTasks_eq {α : Type} (rs : List (Res α)) : joinTasks rs = (checkFatal rs >>= fun _ => rs.mapM id) := by
  unfold joinTasks checkFatal
  simp only
  cases (rs.filterMap failure?).find? (fun e => fatalRank e = 3) with
  | some e => rfl
  | none =>
    cases (rs.filterMap failure?).find? (fun e => fatalRank e = 2) with
    | some e => rfl
    | none =>
      cases (rs.filterMap failure?).find? (fun e => fatalRank e = 1) with
      | some e => rfl
      | none => rfl

theorem checkFatal_emap {α β : Type} (e : α → β) (ds : List (Done α)) :
    checkFatal (ds.map Done.res) = checkFatal (ds.map (fun d => emap e d.res)) := by
  have : (ds.map Done.res).filterMap failure? = (ds.map (fun d => emap e d.res)).filterMap failure? := by
    induction ds with
    | nil => rfl
    | cons d ds ih =>
      simp only [List.map_cons, List.filterMap_cons, ih]
      cases d.res <;> rfl
  unfold checkFatal
  rw [this]

theorem fold_array (objs : List (List Obj)) : ∀ a : ArrayS,
    objs.foldl (fun (a : ArrayS) b => a.merge (b, b.length)) a =
      { pool := a.pool, size := (objs.foldl addBlock (a.items, a.size)).2, items := (objs.foldl addBlock (a.items, a.size)).1 } := by
  induction objs with
  | nil => intro a; rfl
  | cons b objs ih =>
    intro a
    simp only [List.foldl_cons, ih]
    unfold ArrayS.merge addBlock
    simp only
    split <;> rfl

theorem fold_map (objs : List (List (Str × Obj))) : ∀ a : MapS,
    objs.foldl (fun (a : MapS) b => a.merge (b, b.length)) a =
      { ref := a.ref, pool := a.pool, size := (objs.foldl addBlock (a.items, a.size)).2,
        items := (objs.foldl addBlock (a.items, a.size)).1 } := by
  induction objs with
  | nil => intro a; rfl
  | cons b objs ih =>
    intro a
    simp only [List.foldl_cons, ih]
    unfold MapS.merge addBlock
    simp only
    split <;> rfl

theorem eraseItems_append (a b : List (Path × LObj)) : eraseItems (a ++ b) = eraseItems a ++ eraseItems b := by
  induction a with
  | nil => rfl
  | cons x a ih => obtain ⟨i, o⟩ := x; simp [eraseItems, ih]

theorem eraseItems_length (a : List (Path × LObj)) : (eraseItems a).length = a.length := by
  induction a with
  | nil => rfl
  | cons x a ih => obtain ⟨i, o⟩ := x; simp [eraseItems, ih]

theorem eraseKVs_append (a b : List (Path × Str × LObj)) : eraseKVs (a ++ b) = eraseKVs a ++ eraseKVs b := by
  induction a with
  | nil => rfl
  | cons x a ih => obtain ⟨i, k, o⟩ := x; simp [eraseKVs, ih]

theorem eraseKVs_length (a : List (Path × Str × LObj)) : (eraseKVs a).length = a.length := by
  induction a with
  | nil => rfl
  | cons x a ih => obtain ⟨i, k, o⟩ := x; simp [eraseKVs, ih]

structure ErCs (cfg : Cfg) (v : View) (sm : Option StringMap) (si : SplitInfo) (ref : Bool) (f : Nat) (cs : Cs) : Prop where
  arrayLoop : ∀ e c, Er (cs.arrayLoop e c) eraseItems (coArrayBlock cfg v sm si ref f e c)
  array : ∀ os, Er (cs.array os) (er2 LObj.erase) (coArray cfg v sm si ref f os)
  mapLoop : ∀ e c, Er (cs.mapLoop e c) eraseKVs (coMapBlock cfg v sm si ref f e c)
  map : ∀ os, Er (cs.map os) (er2 LObj.erase) (coMap cfg v sm si ref f os)

theorem er_child {cfg : Cfg} {v : View} {sm : Option StringMap} {si : SplitInfo} {ref : Bool} {f : Nat} {cs : Cs}
    (ih : ErCs cfg v sm si ref f cs) (split : Bool) (t : ObjectType) (c : Cur) :
    Er (childL cs (pvs cfg v sm ref .frame f) split t c) (er2 LObj.erase)
      (coChild split t (parseVal cfg v sm ref .frame f t c) (coArray cfg v sm si ref f c.idx) (coMap cfg v sm si ref f c.idx)) := by
  unfold childL coChild
  cases split with
  | false => exact (er_pvs cfg v sm ref .frame f).val t c
  | true =>
    cases t with
    | array => exact er_await (ih.array _)
    | map => exact er_await (ih.map _)
    | data => exact Er.error
    | invalid => exact Er.error

/-- The tasks of a container: started, checked, merged. -/
theorem er_gather {α β γ : Type} {f : Nat × Nat → M (List α)} {e : List α → List β} {g : Nat × Nat → Res (List β)}
    (h : ∀ be, Er (f be) e (g be)) (bes : List (Nat × Nat)) (k : List (Done (List α)) → M γ) (ek : γ → Obj × Cur)
    (r : List (Res (List β)) → Res (Obj × Cur)) (hk : ∀ ds, Er (k ds) ek (r (ds.map (fun d => emap e d.res)))) :
    Er (startAll f bes >>= k) ek (r (bes.map g)) := by
  intro s
  rw [run_bind]
  obtain ⟨ds, h1, h2⟩ := er_startAll h bes s
  cases hs : startAll f bes s with
  | mk x s' =>
    rw [hs] at h1
    simp only at h1
    subst h1
    rw [← h2]
    exact hk ds s'

/-- What `ParseArray` does with the results of its tasks. -/
def joinArray (end_ : Nat) (rs : List (Res (List Obj))) : Res (Obj × Cur) :=
  checkFatal rs.reverse >>= fun _ => (rs.reverse.mapM id >>= fun objs => .ok (objs.foldl addBlock ([], 0))) >>= fun x =>
    .ok (Obj.array .frame x.2 x.1, (⟨end_, end_⟩ : Cur))

/-- What `ParseMap` does with the results of its tasks. -/
def joinMap (ref : Bool) (end_ : Nat) (rs : List (Res (List (Str × Obj)))) : Res (Obj × Cur) :=
  checkFatal rs >>= fun _ => (rs.mapM id >>= fun objs => .ok (objs.foldl addBlock ([], 0))) >>= fun x =>
    .ok (Obj.map ref .frame x.2 x.1, (⟨end_, end_⟩ : Cur))

theorem boundsL_bind {γ : Type} (cfg : Cfg) (v : View) (si : SplitInfo) (os : Nat) (k : List (Nat × Nat) × Nat → Res γ) :
    (boundsL cfg v si os >>= k) = (parseLength cfg v ⟨addW 0 os, os⟩ >>= fun a => parseLength cfg v a.2 >>= fun b =>
      si.getBlocks (toU32 b.1) >>= fun blocks => k (blockBounds b.2.idx blocks)) := by
  unfold boundsL
  cases parseLength cfg v ⟨addW 0 os, os⟩ with
  | error e => rfl
  | ok a =>
    simp only [ok_bind]
    cases parseLength cfg v a.2 with
    | error e => rfl
    | ok b =>
      simp only [ok_bind]
      cases si.getBlocks (toU32 b.1) with
      | error e => rfl
      | ok blocks => rfl

theorem coArray_eq (cfg : Cfg) (v : View) (sm : Option StringMap) (si : SplitInfo) (ref : Bool) (f os : Nat) :
    coArray cfg v sm si ref (f + 1) os = (boundsL cfg v si os >>= fun bounds =>
      joinArray bounds.2 (bounds.1.map (fun be => coArrayBlock cfg v sm si ref f be.2 ⟨addW 0 be.1, be.1⟩))) := by
  rw [boundsL_bind]
  simp only [coArray]
  refine bind_congr fun a => bind_congr fun b => bind_congr fun blocks => ?_
  rw [joinTasks_eq]
  unfold joinArray
  generalize List.map _ (blockBounds _ _).1 = rs
  cases checkFatal rs.reverse with
  | error e => rfl
  | ok u =>
    simp only [ok_bind]
    cases rs.reverse.mapM id with
    | error e => rfl
    | ok objs =>
      simp only [ok_bind, fold_array, ArrayS.toObj]
      rfl

theorem coMap_eq (cfg : Cfg) (v : View) (sm : Option StringMap) (si : SplitInfo) (ref : Bool) (f os : Nat) :
    coMap cfg v sm si ref (f + 1) os = (boundsL cfg v si os >>= fun bounds =>
      joinMap ref bounds.2 (bounds.1.map (fun be => coMapBlock cfg v sm si ref f be.2 ⟨addW 0 be.1, be.1⟩))) := by
  rw [boundsL_bind]
  simp only [coMap]
  refine bind_congr fun a => bind_congr fun b => bind_congr fun blocks => ?_
  rw [joinTasks_eq]
  unfold joinMap
  generalize List.map _ (blockBounds _ _).1 = rs
  cases checkFatal rs with
  | error e => rfl
  | ok u =>
    simp only [ok_bind]
    cases rs.mapM id with
    | error e => rfl
    | ok objs =>
      simp only [ok_bind, fold_map, MapS.toObj]
      rfl

theorem er_css (cfg : Cfg) (v : View) (sm : Option StringMap) (si : SplitInfo) (ref : Bool) :
    ∀ f, ErCs cfg v sm si ref f (css cfg v sm si ref f) := by
  intro f
  induction f with
  | zero =>
    refine ⟨fun e c => ?_, fun os => ?_, fun e c => ?_, fun os => ?_⟩
    · simp only [coArrayBlock]; exact Er.error
    · simp only [coArray]; exact Er.error
    · simp only [coMapBlock]; exact Er.error
    · simp only [coMap]; exact Er.error
  | succ f ih =>
    refine ⟨fun e c => ?_, fun os => ?_, fun e c => ?_, fun os => ?_⟩
    · show Er (arrayLoopL v _ _ e c) _ _
      simp only [coArrayBlock, arrayLoopL]
      split
      · refine Er.lift_bind fun t => Er.bind (er_child ih _ _ _) fun o => Er.quiet (quiet_alloc _) fun i => ?_
        exact Er.bind (ih.arrayLoop _ _) fun x => Er.pure
      · exact Er.pure
    · show Er (arrayL cfg v si _ os) _ _
      unfold arrayL
      rw [coArray_eq]
      refine Er.lift_bind fun bounds => ?_
      refine er_gather (e := eraseItems) (g := fun be => coArrayBlock cfg v sm si ref f be.2 ⟨addW 0 be.1, be.1⟩)
        (fun be => ih.arrayLoop _ _) bounds.1 _ _ (joinArray bounds.2) fun ds => ?_
      unfold joinArray
      rw [checkFatal_emap eraseItems, ← List.map_reverse]
      refine Er.lift_bind fun _ => Er.quiet (quiet_alloc _) fun id => ?_
      exact Er.bind (er_mergeLoop eraseItems_append eraseItems_length ds.reverse [] 0) fun x => Er.pure
    · show Er (mapLoopL cfg v sm ref _ _ e c) _ _
      simp only [coMapBlock, mapLoopL]
      split
      · refine Er.lift_bind fun k => Er.lift_bind fun t => Er.bind (er_child ih _ _ _) fun o => Er.quiet (quiet_alloc _) fun i => ?_
        exact Er.bind (ih.mapLoop _ _) fun x => Er.pure
      · exact Er.pure
    · show Er (mapL cfg v si ref _ os) _ _
      unfold mapL
      rw [coMap_eq]
      refine Er.lift_bind fun bounds => Er.quiet (quiet_alloc _) fun id => ?_
      refine er_gather (e := eraseKVs) (g := fun be => coMapBlock cfg v sm si ref f be.2 ⟨addW 0 be.1, be.1⟩)
        (fun be => ih.mapLoop _ _) bounds.1 _ _ (joinMap ref bounds.2) fun ds => ?_
      unfold joinMap
      rw [checkFatal_emap eraseKVs]
      refine Er.lift_bind fun _ => ?_
      exact Er.bind (er_mergeLoop eraseKVs_append eraseKVs_length ds [] 0) fun x => Er.pure

theorem takeKeyL_erase (k : Bytes) (items : List (Path × Str × LObj)) :
    (takeKeyL k items).erase = (takeKey k (eraseKVs items)).2 := by
  induction items with
  | nil => rfl
  | cons x items ih =>
    obtain ⟨i, k', o⟩ := x
    simp only [takeKeyL, eraseKVs, takeKey]
    split
    · rfl
    · exact ih

theorem takeRootL_erase (o : LObj) : (takeRootL o).erase = takeRoot o.erase := by
  cases o with
  | map id ref pool size items => exact takeKeyL_erase _ _
  | _ => rfl

theorem er_normal (cfg : Cfg) (ref : Bool) (fuel : Nat) (content : Bytes) (s : Sched) :
    Er (normalL cfg ref fuel content s) LObj.erase (normalParse cfg ref fuel content s) := by
  unfold normalL normalParse
  refine Er.bind ((er_pvs cfg (View.whole content) s.sm ref .caller fuel).val .map ⟨metaSize, metaSize⟩) fun r => ?_
  obtain ⟨o, c⟩ := r
  show Er _ _ (if c.off ≠ s.total then _ else pure (takeRoot o.erase))
  by_cases h : c.off ≠ s.total
  · rw [if_pos h, if_pos h]
    exact Er.error
  · rw [if_neg h, if_neg h, ← takeRootL_erase]
    exact Er.pure

theorem er_parse (cfg : Cfg) (po : ParseOption) (fuel : Nat) (content : Bytes) :
    Er (parseL cfg po fuel content) LObj.erase (parse cfg po fuel content) := by
  unfold parseL parse
  refine Er.lift_bind fun s => ?_
  split
  · unfold coroutineL coroutineParse
    split
    · exact Er.lift_bind fun s => er_normal _ _ _ _ _
    split
    · exact Er.error
    · refine Er.bind (er_await ((er_css cfg (View.whole content) s.sm s.si po.parseRef fuel).map metaSize)) fun r => ?_
      simp only [er2]
      rw [← takeRootL_erase]
      exact Er.pure
  · exact er_normal _ _ _ _ _

/-! ### Ownership -/

/-- An identity given by the coroutine `path` or one started by it, at a position from `lo` to `hi`. -/
def Within (path : Path) (lo hi : Nat) (x : Path) : Prop := ∃ pre n, x = pre ++ n :: path ∧ lo ≤ n ∧ n < hi

theorem within_inj {pre pre' path : Path} {n n' : Nat} (h : pre ++ n :: path = pre' ++ n' :: path) : n = n' := by
  have h1 : (pre ++ [n]) ++ path = (pre' ++ [n']) ++ path := by simpa using h
  have h2 := List.append_cancel_right h1
  have h3 := congrArg List.getLast? h2
  simpa using h3

theorem Within.apart {path x : Path} {a b c d : Nat} (h1 : Within path a b x) (h2 : Within path c d x) (h : b ≤ c) : False := by
  obtain ⟨pre, n, e, h3, h4⟩ := h1
  obtain ⟨pre', n', e', h5, h6⟩ := h2
  have := within_inj (e.symm.trans e')
  omega

theorem Within.mono {path x : Path} {a b c d : Nat} (h : Within path a b x) (h1 : c ≤ a) (h2 : b ≤ d) : Within path c d x := by
  obtain ⟨pre, n, e, h3, h4⟩ := h
  exact ⟨pre, n, e, by omega, by omega⟩

theorem Within.inner {path x : Path} {n lo hi : Nat} (h : Within (n :: path) lo hi x) : Within path n (n + 1) x := by
  obtain ⟨pre, m, e, -, -⟩ := h
  exact ⟨pre ++ [m], n, by simp [e], by omega, by omega⟩

theorem all_add (b : BPool) (k : Kind) (id : Path) : (b.add k id).all.Perm (b.all ++ [(k, id)]) := by
  rw [List.perm_iff_count]
  intro x
  cases k <;> simp [BPool.add, BPool.all, List.count_append, List.count_cons] <;> omega

theorem all_merge (a b : BPool) : (a.merge b).1.all.Perm (a.all ++ b.all) := by
  rw [List.perm_iff_count]
  intro x
  simp only [BPool.merge, mergeOne, BPool.all, List.count_append, List.map_append]
  omega

theorem all_left (a b : BPool) : (a.merge b).2.all = [] := rfl

/-- From state `a` to state `b`: what the local pool has got, what is held in pools outside, what was destroyed. -/
structure Step (a b : Fr) (own out gone : List Oid) : Prop where
  path : b.path = a.path
  next : a.next ≤ b.next
  pool : b.bp.all.Perm (a.bp.all ++ own)
  made : ∃ made, b.made = a.made ++ made ∧ made.Perm (own ++ out ++ gone)
  lost : b.gone.Perm (a.gone ++ gone)
  within : ∀ x ∈ own ++ out ++ gone, Within a.path a.next b.next x.2
  nodup : (own ++ out ++ gone).Nodup

theorem Step.refl (a : Fr) : Step a a [] [] [] :=
  ⟨rfl, Nat.le_refl _, by simp, ⟨[], by simp, by simp⟩, by simp, by simp, by simp⟩

/-- The same step, with the lists in another order. -/
theorem Step.perm {a b : Fr} {own out gone own' out' gone' : List Oid} (h : Step a b own out gone) (h1 : own.Perm own')
    (h2 : out.Perm out') (h3 : gone.Perm gone') : Step a b own' out' gone' := by
  have hp : (own ++ out ++ gone).Perm (own' ++ out' ++ gone') := (h1.append h2).append h3
  obtain ⟨made, e, hm⟩ := h.made
  exact ⟨h.path, h.next, h.pool.trans (List.Perm.append_left _ h1), ⟨made, e, hm.trans hp⟩,
    h.lost.trans (List.Perm.append_left _ h3), fun x hx => h.within x (hp.mem_iff.2 hx), hp.nodup_iff.1 h.nodup⟩

/-- Something new at the next position. -/
theorem Step.grow {a b c : Fr} {own out gone own' out' gone' new : List Oid} {made : List Oid} (h : Step a b own out gone)
    (hp : c.path = b.path) (hn : b.next ≤ c.next) (hm : c.made = b.made ++ made) (hmade : made.Perm new)
    (hw : ∀ x ∈ new, Within b.path b.next c.next x.2) (hnd : new.Nodup)
    (hperm : (own' ++ out' ++ gone').Perm ((own ++ out ++ gone) ++ new))
    (hpool : c.bp.all.Perm (a.bp.all ++ own')) (hlost : c.gone.Perm (a.gone ++ gone')) : Step a c own' out' gone' := by
  obtain ⟨m, e, hm'⟩ := h.made
  refine ⟨hp.trans h.path, Nat.le_trans h.next hn, hpool, ⟨m ++ made, by rw [hm, e, List.append_assoc], ?_⟩, hlost, ?_, ?_⟩
  · exact (hm'.append hmade).trans hperm.symm
  · intro x hx
    rcases List.mem_append.1 (hperm.mem_iff.1 hx) with hx | hx
    · exact (h.within x hx).mono (Nat.le_refl _) hn
    · exact (by simpa [h.path] using hw x hx : Within a.path b.next c.next x.2).mono h.next (Nat.le_refl _)
  · rw [hperm.nodup_iff, List.nodup_append]
    refine ⟨h.nodup, hnd, fun x hx y hy e => ?_⟩
    subst e
    have h1 := h.within x hx
    have h2 := hw x hy
    rw [h.path] at h2
    exact h1.apart h2 (Nat.le_refl _)

/-- The code `m` leaves what is held outside alone; if it succeeds it destroys nothing, and what it makes goes to the local pool
and satisfies `P`. -/
def Sat {α : Type} (m : M α) (P : α → List Oid → Prop) : Prop :=
  ∀ a own out gone s, Step a s own out gone →
    match m s with
    | (.ok r, s') => ∃ new, P r new ∧ Step a s' (own ++ new) out gone
    | (.error e, s') => ∃ own' out' gone', Step a s' own' out' gone' ∧ (∀ x, e = .exn x → out' = out)

theorem Sat.pure {α : Type} {x : α} {P : α → List Oid → Prop} (h : P x []) : Sat (pure x) P := by
  intro a own out gone s hs
  exact ⟨[], h, by simpa using hs⟩

theorem Sat.lift {α : Type} {r : Res α} {P : α → List Oid → Prop} (h : ∀ x, r = .ok x → P x []) : Sat (lift r) P := by
  intro a own out gone s hs
  cases r with
  | ok x => exact ⟨[], h x rfl, by simpa using hs⟩
  | error e => exact ⟨own, out, gone, hs, fun _ _ => rfl⟩

theorem Sat.bind {α β : Type} {m : M α} {f : α → M β} {P : α → List Oid → Prop} {Q : β → List Oid → Prop} (h : Sat m P)
    (hf : ∀ x new, P x new → Sat (f x) (fun y new' => Q y (new ++ new'))) : Sat (m >>= f) Q := by
  intro a own out gone s hs
  have h1 := h a own out gone s hs
  rw [run_bind]
  cases hm : m s with
  | mk x s' =>
    rw [hm] at h1
    cases x with
    | error e => exact h1
    | ok x =>
      obtain ⟨new, hp, hs'⟩ := h1
      have h2 := hf x new hp a (own ++ new) out gone s' hs'
      simp only
      cases hf2 : f x s' with
      | mk y s'' =>
        rw [hf2] at h2
        cases y with
        | error e => exact h2
        | ok y =>
          obtain ⟨new', hq, hs''⟩ := h2
          exact ⟨new ++ new', hq, by simpa [List.append_assoc] using hs''⟩

theorem Sat.mono {α : Type} {m : M α} {P Q : α → List Oid → Prop} (h : Sat m P) (hq : ∀ x new, P x new → Q x new) : Sat m Q := by
  intro a own out gone s hs
  have h1 := h a own out gone s hs
  cases hm : m s with
  | mk x s' =>
    rw [hm] at h1
    cases x with
    | error e => exact h1
    | ok x =>
      obtain ⟨new, hp, hs'⟩ := h1
      exact ⟨new, hq _ _ hp, hs'⟩

theorem sat_alloc (k : Kind) : Sat (alloc k) (fun id new => new = [(k, id)]) := by
  intro a own out gone s hs
  refine ⟨_, rfl, ?_⟩
  refine hs.grow (new := [(k, s.next :: s.path)]) rfl (Nat.le_succ _) rfl (List.Perm.refl _) ?_ (by simp) ?_ ?_ ?_
  · intro x hx
    simp only [List.mem_singleton] at hx
    subst hx
    exact ⟨[], s.next, rfl, Nat.le_refl _, Nat.lt_succ_self _⟩
  · rw [List.perm_iff_count]; intro x; simp only [List.count_append]; omega
  · refine (all_add _ _ _).trans ?_
    rw [← List.append_assoc]
    exact hs.pool.append_right _
  · exact hs.lost

/-- A coroutine started in state `s`, and noted. -/
theorem start_one {α : Type} {m : M α} {P : α → List Oid → Prop} (h : Sat m P) {a s : Fr} {own out gone : List Oid}
    (hs : Step a s own out gone) :
    ∃ lost g, Step a
        { s with next := s.next + 1, made := s.made ++ (runFrame (s.next :: s.path) m).made, gone := s.gone ++ (runFrame (s.next :: s.path) m).gone }
        own (out ++ (runFrame (s.next :: s.path) m).bp.all ++ lost) (gone ++ g) ∧
      (∀ b, (runFrame (s.next :: s.path) m).res = .ok b → lost = [] ∧ g = [] ∧ ∃ new, P b new ∧ (runFrame (s.next :: s.path) m).bp.all.Perm new) ∧
      (∀ e, (runFrame (s.next :: s.path) m).res = .error e → (runFrame (s.next :: s.path) m).bp.all = [] ∧ ((∃ x, e = .exn x) → lost = [])) := by
  have h1 := h _ _ _ _ _ (Step.refl { path := s.next :: s.path })
  unfold runFrame
  cases hm : m { path := s.next :: s.path } with
  | mk x s' =>
    rw [hm] at h1
    cases x with
    | ok b =>
      obtain ⟨new, hp, hst⟩ := h1
      simp only [List.nil_append] at hst
      have hpool : s'.bp.all.Perm new := by simpa [BPool.all] using hst.pool
      obtain ⟨made, e, hmade⟩ := hst.made
      have hgone : s'.gone = [] := by simpa using hst.lost
      have hmade' : s'.made.Perm new := by rw [e]; simpa using hmade
      refine ⟨[], [], ?_, fun b' hb => ⟨rfl, rfl, ?_⟩, fun e he => by cases he⟩
      · refine hs.grow (new := new) rfl (Nat.le_succ _) rfl hmade' ?_ (by simpa using hst.nodup) ?_ hs.pool ?_
        · intro x hx
          exact (hst.within x (by simpa using hx)).inner
        · simp only [List.append_nil]
          rw [List.perm_iff_count]
          intro x
          have := List.perm_iff_count.1 hpool x
          simp only [List.count_append]
          omega
        · simpa [hgone] using hs.lost
      · cases hb; exact ⟨new, hp, hpool⟩
    | error e =>
      obtain ⟨own', out', gone', hst, hx⟩ := h1
      have hpool : s'.bp.all.Perm own' := by simpa [BPool.all] using hst.pool
      obtain ⟨made, e', hmade⟩ := hst.made
      have hgone : s'.gone.Perm gone' := by simpa using hst.lost
      have hmade' : s'.made.Perm (own' ++ out' ++ gone') := by rw [e']; simpa using hmade
      refine ⟨out', gone' ++ own', ?_, ⟨fun b hb => by (cases hb), fun e1 he => ⟨rfl, ?_⟩⟩⟩
      · refine hs.grow (new := own' ++ out' ++ gone') rfl (Nat.le_succ _) rfl hmade' ?_ hst.nodup ?_ hs.pool ?_
        · intro x hx
          exact (hst.within x hx).inner
        · rw [List.perm_iff_count]
          intro x
          simp only [List.count_append, BPool.all, List.map_nil, List.count_nil]
          omega
        · rw [List.perm_iff_count]
          intro x
          have h1 := List.perm_iff_count.1 hs.lost x
          have h2 := List.perm_iff_count.1 hgone x
          have h3 := List.perm_iff_count.1 hpool x
          simp only [List.count_append] at h1 h2 h3 ⊢
          omega
      · rintro ⟨x, rfl⟩
        cases he
        exact hx x rfl

/-- Merging a pool held outside. -/
theorem step_merge {a s : Fr} {own out gone : List Oid} {b : BPool} (hs : Step a s own (out ++ b.all) gone) :
    Step a { s with bp := (s.bp.merge b).1, gone := s.gone ++ (s.bp.merge b).2.all } (own ++ b.all) out gone := by
  have hp : (own ++ b.all ++ out ++ gone).Perm (own ++ (out ++ b.all) ++ gone) := by
    rw [List.perm_iff_count]; intro x; simp only [List.count_append]; omega
  obtain ⟨made, e, hm⟩ := hs.made
  refine ⟨hs.path, hs.next, ?_, ⟨made, e, hm.trans hp.symm⟩, ?_, ?_, ?_⟩
  · refine (all_merge _ _).trans ?_
    rw [← List.append_assoc]
    exact hs.pool.append_right _
  · simpa [all_left] using hs.lost
  · intro x hx; exact hs.within x (hp.mem_iff.1 hx)
  · exact hp.nodup_iff.2 hs.nodup

/-- Destroying a pool held outside. -/
theorem step_drop {a s : Fr} {own out gone : List Oid} {b : BPool} (hs : Step a s own (out ++ b.all) gone) :
    Step a { s with gone := s.gone ++ b.all } own out (gone ++ b.all) := by
  have hp : (own ++ out ++ (gone ++ b.all)).Perm (own ++ (out ++ b.all) ++ gone) := by
    rw [List.perm_iff_count]; intro x; simp only [List.count_append]; omega
  obtain ⟨made, e, hm⟩ := hs.made
  refine ⟨hs.path, hs.next, hs.pool, ⟨made, e, hm.trans hp.symm⟩, ?_, ?_, ?_⟩
  · rw [← List.append_assoc]
    exact hs.lost.append_right _
  · intro x hx; exact hs.within x (hp.mem_iff.1 hx)
  · exact hp.nodup_iff.2 hs.nodup

theorem sat_await {m : M (LObj × Cur)} {P : LObj × Cur → List Oid → Prop} (h : Sat m P)
    (hP : ∀ x l l', l.Perm l' → P x l → P x l') : Sat (await m) P := by
  intro a own out gone s hs
  obtain ⟨lost, g, h1, h2, h3⟩ := start_one h hs
  simp only [await, run_bind, child, note, Owner.lift]
  cases hr : (runFrame (s.next :: s.path) m).res with
  | error e =>
    obtain ⟨h4, h5⟩ := h3 e hr
    rw [h4] at h1
    refine ⟨_, _, _, h1, fun x hx => ?_⟩
    rw [h5 ⟨x, hx⟩]
    simp
  | ok b =>
    obtain ⟨rfl, rfl, new, h4, h5⟩ := h2 b hr
    simp only [List.append_nil] at h1
    refine ⟨_, hP _ _ _ h5.symm h4, ?_⟩
    exact step_merge h1

/-- What the results of the tasks hold. -/
def held {α : Type} (ds : List (Done α)) : List Oid := ds.flatMap (fun d => d.bp.all)

theorem sat_startAll {α : Type} {f : Nat × Nat → M α} {P : α → List Oid → Prop} (h : ∀ be, Sat (f be) P)
    (bes : List (Nat × Nat)) : ∀ {a s : Fr} {own out gone : List Oid}, Step a s own out gone →
    ∃ ds s' lost g, startAll f bes s = (.ok ds, s') ∧ Step a s' own (out ++ held ds ++ lost) (gone ++ g) ∧
      ((∀ d ∈ ds, ∀ e, d.res = .error e → ∃ x, e = .exn x) → lost = []) ∧
      ((∀ d ∈ ds, ∃ b, d.res = .ok b) → g = []) ∧
      (∀ d ∈ ds, ∀ b, d.res = .ok b → ∃ new, P b new ∧ d.bp.all.Perm new) := by
  induction bes with
  | nil =>
    intro a s own out gone hs
    exact ⟨[], s, [], [], rfl, by simpa [held] using hs, fun _ => rfl, fun _ => rfl, by simp⟩
  | cons be bes ih =>
    intro a s own out gone hs
    obtain ⟨lost, g, h1, h2, h3⟩ := start_one (h be) hs
    obtain ⟨ds, s', lost', g', k1, k2, k3, k4, k5⟩ := ih h1
    refine ⟨runFrame (s.next :: s.path) (f be) :: ds, s', lost ++ lost', g ++ g', ?_, ?_, ?_, ?_, ?_⟩
    · simp only [startAll, run_bind, child, note, k1]; rfl
    · refine k2.perm (List.Perm.refl _) ?_ (by rw [List.append_assoc])
      rw [List.perm_iff_count]
      intro x
      simp only [held, List.flatMap_cons, List.count_append]
      omega
    · intro hall
      rw [k3 fun d hd => hall d (List.mem_cons_of_mem _ hd), List.append_nil]
      have := hall _ List.mem_cons_self
      cases hr : (runFrame (s.next :: s.path) (f be)).res with
      | ok b => exact (h2 b hr).1
      | error e => exact (h3 e hr).2 (this e hr)
    · intro hall
      rw [k4 fun d hd => hall d (List.mem_cons_of_mem _ hd), List.append_nil]
      obtain ⟨b, hb⟩ := hall _ List.mem_cons_self
      exact (h2 b hb).2.1
    · intro d hd b hb
      rcases List.mem_cons.1 hd with rfl | hd
      · exact (h2 b hb).2.2
      · exact k5 d hd b hb

theorem checkFatal_ok {α : Type} {rs : List (Res α)} (h : checkFatal rs = .ok ()) :
    ∀ r ∈ rs, ∀ e, r = .error e → ∃ x, e = .exn x := by
  intro r hr e he
  subst he
  have hm : e ∈ rs.filterMap failure? := List.mem_filterMap.2 ⟨_, hr, rfl⟩
  unfold checkFatal at h
  simp only at h
  split at h
  · cases h
  rename_i h3
  split at h
  · cases h
  rename_i h2
  split at h
  · cases h
  rename_i h1
  have e1 := List.find?_eq_none.1 h1 e hm
  have e2 := List.find?_eq_none.1 h2 e hm
  have e3 := List.find?_eq_none.1 h3 e hm
  cases e with
  | exn x => exact ⟨x, rfl⟩
  | ub _ => simp [fatalRank] at e2
  | abort => simp [fatalRank] at e1
  | fuel => simp [fatalRank] at e3

theorem checkFatal_error {α : Type} {rs : List (Res α)} {e : Err} (h : checkFatal rs = .error e) (x : Exn) : e ≠ .exn x := by
  rintro rfl
  unfold checkFatal at h
  simp only at h
  split at h
  · cases h; rename_i h1; simpa [fatalRank] using List.find?_some h1
  split at h
  · cases h; rename_i h1; simpa [fatalRank] using List.find?_some h1
  split at h
  · cases h; rename_i h1; simpa [fatalRank] using List.find?_some h1
  · cases h

theorem step_dropAll {α : Type} (ds : List (Done α)) : ∀ {a s : Fr} {own out gone : List Oid}, Step a s own (out ++ held ds) gone →
    ∃ s', dropAll ds s = (.ok (), s') ∧ Step a s' own out (gone ++ held ds) := by
  induction ds with
  | nil => intro a s own out gone hs; exact ⟨s, rfl, by simpa [held] using hs⟩
  | cons d ds ih =>
    intro a s own out gone hs
    have h1 : Step a s own ((out ++ held ds) ++ d.bp.all) gone := by
      refine hs.perm (List.Perm.refl _) ?_ (List.Perm.refl _)
      rw [List.perm_iff_count]; intro x; simp only [held, List.flatMap_cons, List.count_append]; omega
    obtain ⟨s', h2, h3⟩ := ih (step_drop h1)
    refine ⟨s', by simp only [dropAll, run_bind, drop, h2], h3.perm (List.Perm.refl _) (List.Perm.refl _) ?_⟩
    rw [List.perm_iff_count]; intro x; simp only [held, List.flatMap_cons, List.count_append]; omega

theorem sat_mergeLoop {α : Type} {O : List α → List Oid} (hO0 : O [] = []) (hO : ∀ x y, (O (x ++ y)).Perm (O x ++ O y))
    (ds : List (Done (List α))) : (∀ d ∈ ds, ∀ b, d.res = .ok b → d.bp.all.Perm (O b)) →
    ∀ (items : List α) (size : Nat) {a s : Fr} {own out gone : List Oid}, Step a s own (out ++ held ds) gone →
      match mergeLoop ds items size s with
      | (.ok r, s') => Step a s' (own ++ held ds) out gone ∧ (O r.1).Perm (O items ++ held ds) ∧ ∀ d ∈ ds, ∃ b, d.res = .ok b
      | (.error _, s') => ∃ own' gone', Step a s' own' out gone' := by
  induction ds with
  | nil =>
    intro _ items size a s own out gone hs
    exact ⟨by simpa [held] using hs, by simp [held], by simp⟩
  | cons d ds ih =>
    intro hd items size a s own out gone hs
    unfold mergeLoop
    cases hr : d.res with
    | error e =>
      obtain ⟨s', h1, h2⟩ := step_dropAll (d :: ds) hs
      simp only [run_bind, h1, Owner.lift]
      exact ⟨_, _, h2⟩
    | ok b =>
      have h1 : Step a s own ((out ++ held ds) ++ d.bp.all) gone := by
        refine hs.perm (List.Perm.refl _) ?_ (List.Perm.refl _)
        rw [List.perm_iff_count]; intro x; simp only [held, List.flatMap_cons, List.count_append]; omega
      have h2 := step_merge h1
      have h3 := ih (fun d' hd' => hd d' (List.mem_cons_of_mem _ hd'))
      have hb := hd d List.mem_cons_self b hr
      have fin : ∀ items' size', (O items').Perm (O items ++ d.bp.all) →
          (match mergeLoop ds items' size' { s with bp := (s.bp.merge d.bp).1, gone := s.gone ++ (s.bp.merge d.bp).2.all } with
            | (.ok r, s') => Step a s' (own ++ held (d :: ds)) out gone ∧ (O r.1).Perm (O items ++ held (d :: ds)) ∧
                ∀ d' ∈ d :: ds, ∃ b, d'.res = .ok b
            | (.error _, s') => ∃ own' gone', Step a s' own' out gone') := by
        intro items' size' hi
        have h4 := h3 items' size' h2
        cases hm : mergeLoop ds items' size' { s with bp := (s.bp.merge d.bp).1, gone := s.gone ++ (s.bp.merge d.bp).2.all } with
        | mk x s' =>
          rw [hm] at h4
          cases x with
          | error e => exact h4
          | ok r =>
            obtain ⟨k1, k2, k3⟩ := h4
            refine ⟨?_, ?_, ?_⟩
            · simpa [held, List.append_assoc] using k1
            · rw [List.perm_iff_count]
              intro x
              have c1 := List.perm_iff_count.1 k2 x
              have c2 := List.perm_iff_count.1 hi x
              simp only [held, List.flatMap_cons, List.count_append] at c1 c2 ⊢
              omega
            · intro d' hd'
              rcases List.mem_cons.1 hd' with rfl | hd'
              · exact ⟨b, hr⟩
              · exact k3 d' hd'
      simp only [run_bind, mergeIn]
      by_cases hemp : b.isEmpty = true
      · rw [if_pos hemp]
        have : b = [] := by simpa using hemp
        subst this
        rw [hO0] at hb
        have : d.bp.all = [] := by simpa using hb
        exact fin items size (by rw [this, List.append_nil])
      · rw [if_neg hemp]
        refine fin _ _ ?_
        rw [List.perm_iff_count]
        intro x
        have c1 := List.perm_iff_count.1 hb x
        have c2 := List.perm_iff_count.1 (hO b items) x
        simp only [List.count_append] at c1 c2 ⊢
        omega

theorem held_perm {α : Type} {ds ds' : List (Done α)} (h : ds.Perm ds') : (held ds).Perm (held ds') := by
  unfold held
  exact h.flatMap_right _

theorem sat_gather {α ι γ : Type} {f : Nat × Nat → M (List α)} {O : List α → List Oid} (hO0 : O [] = [])
    (hO : ∀ x y, (O (x ++ y)).Perm (O x ++ O y)) (hf : ∀ be, Sat (f be) (fun b new => new.Perm (O b)))
    (ord : List (Done (List α)) → List (Done (List α))) (hord : ∀ ds, (ord ds).Perm ds)
    {mid : M ι} (hq : Quiet mid) {Pm : ι → List Oid → Prop} (hmid : Sat mid Pm) {k : ι → List α × Nat → γ} {Q : γ → List Oid → Prop}
    (hQ : ∀ i newi r new, Pm i newi → new.Perm (O r.1) → Q (k i r) (newi ++ new)) (bes : List (Nat × Nat)) :
    Sat (startAll f bes >>= fun ds => Owner.lift (checkFatal ((ord ds).map Done.res)) >>= fun _ => mid >>= fun i =>
      mergeLoop (ord ds) [] 0 >>= fun r => pure (k i r)) Q := by
  intro a own out gone s hs
  obtain ⟨ds, s', lost, g, h1, h2, h3, h4, h5⟩ := sat_startAll hf bes hs
  rw [run_bind, h1]
  simp only
  rw [run_bind]
  simp only [Owner.lift]
  cases hc : checkFatal ((ord ds).map Done.res) with
  | error e => exact ⟨_, _, _, h2, fun x hx => absurd hx (checkFatal_error hc x)⟩
  | ok u =>
    simp only
    have hlost : lost = [] := h3 fun d hd e he => checkFatal_ok hc _ (List.mem_map.2 ⟨d, (hord ds).mem_iff.2 hd, rfl⟩) e he
    subst hlost
    have h2' : Step a s' own (out ++ held (ord ds)) (gone ++ g) := by
      refine h2.perm (List.Perm.refl _) ?_ (List.Perm.refl _)
      rw [List.append_nil]
      exact List.Perm.append_left _ (held_perm (hord ds)).symm
    have h6 := hmid _ _ _ _ _ h2'
    rw [run_bind]
    cases hm : mid s' with
    | mk x s'' =>
      rw [hm] at h6
      cases x with
      | error e =>
        obtain ⟨i, hi⟩ := hq s'
        rw [hm] at hi
        cases hi
      | ok i =>
        obtain ⟨newi, hi, h7⟩ := h6
        simp only
        have h8 := sat_mergeLoop hO0 hO (ord ds) (fun d hd b hb => by
          obtain ⟨new, n1, n2⟩ := h5 d ((hord ds).mem_iff.1 hd) b hb
          exact n2.trans n1) [] 0 h7
        rw [run_bind]
        cases hl : mergeLoop (ord ds) [] 0 s'' with
        | mk y s3 =>
          rw [hl] at h8
          cases y with
          | error e =>
            obtain ⟨own', gone', k1⟩ := h8
            exact ⟨own', out, gone', k1, fun _ _ => rfl⟩
          | ok r =>
            obtain ⟨k1, k2, k3⟩ := h8
            have hg : g = [] := h4 fun d hd => k3 d ((hord ds).mem_iff.2 hd)
            subst hg
            refine ⟨newi ++ held (ord ds), hQ i newi r _ hi ?_, ?_⟩
            · rw [hO0, List.nil_append] at k2
              exact k2.symm
            · simpa [List.append_assoc] using k1

/-- What is made is exactly what can be reached. -/
abbrev Makes {α : Type} (O : α → List Oid) (x : α) (new : List Oid) : Prop := new.Perm (O x)

structure SatPV (ref : Bool) (p : PV) : Prop where
  val : ∀ t c, Sat (p.val t c) (Makes fun x => x.1.objects)
  items : ∀ n c, Sat (p.items n c) (Makes fun x => itemObjects x.1)
  kvs : ∀ n c acc, Sat (p.kvs n c acc) (fun x new => (new ++ kvObjects ref acc).Perm (kvObjects ref x.1))

theorem sat_val {cfg : Cfg} {v : View} {sm : Option StringMap} {ref : Bool} {pool : PoolRef} {p : PV} (ih : SatPV ref p)
    (t : ObjectType) (c : Cur) : Sat (valL cfg v sm ref pool p t c) (Makes fun x => x.1.objects) := by
  unfold valL
  cases t with
  | invalid => exact Sat.lift (by simp)
  | data =>
    simp only [factoryKind]
    refine (sat_alloc _).bind fun id new hnew => ?_
    subst hnew
    refine Sat.bind (P := fun x new => new = [] ∧ ∃ dt q, x.1 = .data ref dt q) (Sat.lift fun x hx => ⟨rfl, dataObj_shape hx⟩) ?_
    rintro ⟨o, c'⟩ new ⟨rfl, dt, q, hq⟩
    simp only at hq
    subst hq
    refine Sat.pure ?_
    simp [Makes, LObj.objects]
  | array =>
    simp only [factoryKind]
    refine (sat_alloc _).bind fun id new hnew => ?_
    subst hnew
    refine Sat.bind (P := fun _ new => new = []) (Sat.lift fun _ _ => rfl) ?_
    rintro a _ rfl
    refine Sat.bind (P := fun _ new => new = []) (Sat.lift fun _ _ => rfl) ?_
    rintro b _ rfl
    refine (ih.items _ _).bind fun x new hx => Sat.pure ?_
    simp only [Makes, LObj.objects, List.append_nil, List.nil_append, List.singleton_append]
    exact hx.cons _
  | map =>
    simp only [factoryKind]
    refine (sat_alloc _).bind fun id new hnew => ?_
    subst hnew
    refine Sat.bind (P := fun _ new => new = []) (Sat.lift fun _ _ => rfl) ?_
    rintro a _ rfl
    refine Sat.bind (P := fun _ new => new = []) (Sat.lift fun _ _ => rfl) ?_
    rintro b _ rfl
    refine (ih.kvs _ _ []).bind fun x new hx => Sat.pure ?_
    simp only [Makes, LObj.objects, List.append_nil, List.nil_append, List.singleton_append]
    simp only [kvObjects, List.append_nil] at hx
    exact hx.cons _

theorem sat_pvs (cfg : Cfg) (v : View) (sm : Option StringMap) (ref : Bool) (pool : PoolRef) :
    ∀ f, SatPV ref (pvs cfg v sm ref pool f) := by
  intro f
  induction f with
  | zero => exact ⟨fun t c => Sat.lift (by simp), fun n c => Sat.lift (by simp), fun n c acc => Sat.lift (by simp)⟩
  | succ f ih =>
    refine ⟨fun t c => sat_val ih t c, fun n c => ?_, fun n c acc => ?_⟩
    · show Sat (itemsL v _ n c) _
      cases n with
      | zero => exact Sat.pure (by simp [itemObjects, Makes])
      | succ n =>
        simp only [itemsL]
        refine Sat.bind (P := fun _ new => new = []) (Sat.lift fun _ _ => rfl) ?_
        rintro t _ rfl
        refine (ih.val _ _).bind fun o new ho => (sat_alloc _).bind fun i newi hi => ?_
        subst hi
        refine (ih.items _ _).bind fun x newx hx => Sat.pure ?_
        rw [Makes, List.perm_iff_count]
        intro y
        have c1 := List.perm_iff_count.1 ho y
        have c2 := List.perm_iff_count.1 hx y
        simp only [itemObjects, List.count_append, List.count_cons, List.count_nil] at c1 c2 ⊢
        omega
    · show Sat (kvsL cfg v sm ref _ n c acc) _
      cases n with
      | zero => exact Sat.pure (by simp)
      | succ n =>
        simp only [kvsL]
        refine Sat.bind (P := fun _ new => new = []) (Sat.lift fun _ _ => rfl) ?_
        rintro k _ rfl
        refine Sat.bind (P := fun _ new => new = []) (Sat.lift fun _ _ => rfl) ?_
        rintro t _ rfl
        refine (ih.val _ _).bind fun o new ho => ?_
        refine Sat.bind (P := fun _ new => new = []) (Sat.lift fun _ _ => rfl) ?_
        rintro k' _ rfl
        refine (sat_alloc _).bind fun i newi hi => ?_
        subst hi
        refine (ih.kvs _ _ _).mono fun x newx hx => ?_
        rw [List.perm_iff_count]
        intro y
        have c1 := List.perm_iff_count.1 ho y
        have c2 := List.perm_iff_count.1 hx y
        simp only [kvObjects, List.count_append, List.count_cons, List.count_nil, itemKind] at c1 c2 ⊢
        omega

structure SatCs (ref : Bool) (cs : Cs) : Prop where
  arrayLoop : ∀ e c, Sat (cs.arrayLoop e c) (Makes itemObjects)
  array : ∀ os, Sat (cs.array os) (Makes fun x => x.1.objects)
  mapLoop : ∀ e c, Sat (cs.mapLoop e c) (Makes (kvObjects ref))
  map : ∀ os, Sat (cs.map os) (Makes fun x => x.1.objects)

theorem makes_perm (x : LObj × Cur) (l l' : List Oid) (h : l.Perm l') (hl : Makes (fun x : LObj × Cur => x.1.objects) x l) :
    Makes (fun x : LObj × Cur => x.1.objects) x l' := h.symm.trans hl

theorem sat_child {ref : Bool} {cs : Cs} {p : PV} (hc : SatCs ref cs) (hp : SatPV ref p) (split : Bool) (t : ObjectType) (c : Cur) :
    Sat (childL cs p split t c) (Makes fun x => x.1.objects) := by
  unfold childL
  cases split with
  | false => exact hp.val t c
  | true =>
    cases t with
    | array => exact sat_await (hc.array _) makes_perm
    | map => exact sat_await (hc.map _) makes_perm
    | data => exact Sat.lift (by simp)
    | invalid => exact Sat.lift (by simp)

theorem itemObjects_append (a b : List (Path × LObj)) : (itemObjects (a ++ b)).Perm (itemObjects a ++ itemObjects b) := by
  induction a with
  | nil => exact List.Perm.refl _
  | cons x a ih =>
    obtain ⟨i, o⟩ := x
    simp only [List.cons_append, itemObjects, List.append_assoc]
    exact (List.Perm.append_left _ ih).cons _

theorem kvObjects_append (ref : Bool) (a b : List (Path × Str × LObj)) :
    (kvObjects ref (a ++ b)).Perm (kvObjects ref a ++ kvObjects ref b) := by
  induction a with
  | nil => exact List.Perm.refl _
  | cons x a ih =>
    obtain ⟨i, k, o⟩ := x
    simp only [List.cons_append, kvObjects, List.append_assoc]
    exact (List.Perm.append_left _ ih).cons _

theorem sat_css (cfg : Cfg) (v : View) (sm : Option StringMap) (si : SplitInfo) (ref : Bool) :
    ∀ f, SatCs ref (css cfg v sm si ref f) := by
  intro f
  induction f with
  | zero => exact ⟨fun e c => Sat.lift (by simp), fun os => Sat.lift (by simp), fun e c => Sat.lift (by simp), fun os => Sat.lift (by simp)⟩
  | succ f ih =>
    have hp := sat_pvs cfg v sm ref .frame f
    refine ⟨fun e c => ?_, fun os => ?_, fun e c => ?_, fun os => ?_⟩
    · show Sat (arrayLoopL v _ _ e c) _
      unfold arrayLoopL
      split
      · refine Sat.bind (P := fun _ new => new = []) (Sat.lift fun _ _ => rfl) ?_
        rintro t _ rfl
        refine (sat_child ih hp _ _ _).bind fun o new ho => (sat_alloc _).bind fun i newi hi => ?_
        subst hi
        refine (ih.arrayLoop _ _).bind fun x newx hx => Sat.pure ?_
        rw [Makes, List.perm_iff_count]
        intro y
        have c1 := List.perm_iff_count.1 ho y
        have c2 := List.perm_iff_count.1 hx y
        simp only [itemObjects, List.count_append, List.count_cons, List.count_nil] at c1 c2 ⊢
        omega
      · exact Sat.pure (by simp [itemObjects, Makes])
    · show Sat (arrayL cfg v si _ os) _
      unfold arrayL
      refine Sat.bind (P := fun _ new => new = []) (Sat.lift fun _ _ => rfl) ?_
      rintro bounds _ rfl
      refine sat_gather (O := itemObjects) (by simp [itemObjects]) itemObjects_append (fun be => ih.arrayLoop _ _) List.reverse
        List.reverse_perm (quiet_alloc _) (sat_alloc _) ?_ bounds.1
      rintro id _ r new rfl hr
      simp only [Makes, LObj.objects, List.nil_append, List.singleton_append]
      exact hr.cons _
    · show Sat (mapLoopL cfg v sm ref _ _ e c) _
      unfold mapLoopL
      split
      · refine Sat.bind (P := fun _ new => new = []) (Sat.lift fun _ _ => rfl) ?_
        rintro k _ rfl
        refine Sat.bind (P := fun _ new => new = []) (Sat.lift fun _ _ => rfl) ?_
        rintro t _ rfl
        refine (sat_child ih hp _ _ _).bind fun o new ho => (sat_alloc _).bind fun i newi hi => ?_
        subst hi
        refine (ih.mapLoop _ _).bind fun x newx hx => Sat.pure ?_
        rw [Makes, List.perm_iff_count]
        intro y
        have c1 := List.perm_iff_count.1 ho y
        have c2 := List.perm_iff_count.1 hx y
        simp only [kvObjects, List.count_append, List.count_cons, List.count_nil, itemKind] at c1 c2 ⊢
        omega
      · exact Sat.pure (by simp [kvObjects, Makes])
    · show Sat (mapL cfg v si ref _ os) _
      unfold mapL
      refine Sat.bind (P := fun _ new => new = []) (Sat.lift fun _ _ => rfl) ?_
      rintro bounds _ rfl
      refine (sat_alloc _).bind fun id new hnew => ?_
      subst hnew
      show Sat (startAll (fun be => (css cfg v sm si ref f).mapLoop be.2 ⟨addW 0 be.1, be.1⟩) bounds.1 >>= fun ds =>
        Owner.lift (checkFatal (ds.map Done.res)) >>= fun _ => (pure () : M Unit) >>= fun i => mergeLoop ds [] 0 >>= fun r =>
          pure ((fun (_ : Unit) (r : List (Path × Str × LObj) × Nat) =>
            ((LObj.map id ref .frame r.2 r.1, ⟨bounds.2, bounds.2⟩) : LObj × Cur)) i r)) _
      refine sat_gather (O := kvObjects ref) (by simp [kvObjects]) (kvObjects_append ref) (fun be => ih.mapLoop _ _) (fun ds => ds)
        (fun ds => List.Perm.refl _) (fun s => ⟨(), rfl⟩) (Pm := fun _ new => new = []) (Sat.pure rfl) ?_ bounds.1
      rintro _ _ r new rfl hr
      simp only [Makes, LObj.objects, List.nil_append, List.singleton_append]
      exact hr.cons _

theorem takeKeyL_objects (ref : Bool) (k : Bytes) (items : List (Path × Str × LObj)) :
    (takeKeyL k items).objects.Sublist (kvObjects ref items) := by
  induction items with
  | nil => exact List.Sublist.refl _
  | cons x items ih =>
    obtain ⟨i, k', o⟩ := x
    simp only [takeKeyL, kvObjects]
    split
    · exact (List.sublist_append_left _ _).cons _
    · exact (ih.trans (List.sublist_append_right _ _)).cons _

theorem takeRootL_objects (o : LObj) : (takeRootL o).objects.Sublist o.objects := by
  cases o with
  | map id ref pool size items => exact (takeKeyL_objects ref rootKey items).cons _
  | _ => exact List.nil_sublist _

/-- What can be reached is part of what is made. -/
def Part (o : LObj) (new : List Oid) : Prop := ∃ l, new.Perm l ∧ o.objects.Sublist l

theorem sat_normal (cfg : Cfg) (ref : Bool) (fuel : Nat) (content : Bytes) (s : Sched) :
    Sat (normalL cfg ref fuel content s) Part := by
  unfold normalL
  refine ((sat_pvs cfg (View.whole content) s.sm ref .caller fuel).val .map ⟨metaSize, metaSize⟩).bind fun r new hr => ?_
  split
  · exact Sat.lift (by simp)
  · exact Sat.pure ⟨_, by simpa using hr, takeRootL_objects _⟩

theorem sat_parse (cfg : Cfg) (po : ParseOption) (fuel : Nat) (content : Bytes) : Sat (parseL cfg po fuel content) Part := by
  unfold parseL
  refine Sat.bind (P := fun _ new => new = []) (Sat.lift fun _ _ => rfl) ?_
  rintro s _ rfl
  simp only [List.nil_append]
  split
  · unfold coroutineL
    split
    · refine Sat.bind (P := fun _ new => new = []) (Sat.lift fun _ _ => rfl) ?_
      rintro s _ rfl
      simp only [List.nil_append]
      exact sat_normal _ _ _ _ _
    split
    · exact Sat.lift (by simp)
    · refine (sat_await ((sat_css cfg (View.whole content) s.sm s.si po.parseRef fuel).map metaSize) makes_perm).bind
        fun r new hr => Sat.pure ⟨_, by simpa using hr, takeRootL_objects _⟩
  · exact sat_normal _ _ _ _ _

/-- Code that destroys nothing. -/
def Spares {α : Type} (m : M α) : Prop := ∀ s, (m s).2.gone = s.gone

theorem Spares.bind {α β : Type} {m : M α} {f : α → M β} (h : Spares m) (hf : ∀ x, Spares (f x)) : Spares (m >>= f) := by
  intro s
  rw [run_bind]
  have := h s
  cases hm : m s with
  | mk x s' =>
    rw [hm] at this
    cases x with
    | error e => exact this
    | ok x => exact (hf x s').trans this

theorem Spares.lift {α : Type} (r : Res α) : Spares (lift r) := fun _ => rfl
theorem Spares.pure {α : Type} (x : α) : Spares (pure x) := fun _ => rfl
theorem spares_alloc (k : Kind) : Spares (alloc k) := fun _ => rfl

structure SparesPV (p : PV) : Prop where
  val : ∀ t c, Spares (p.val t c)
  items : ∀ n c, Spares (p.items n c)
  kvs : ∀ n c acc, Spares (p.kvs n c acc)

theorem spares_pvs (cfg : Cfg) (v : View) (sm : Option StringMap) (ref : Bool) (pool : PoolRef) :
    ∀ f, SparesPV (pvs cfg v sm ref pool f) := by
  intro f
  induction f with
  | zero => exact ⟨fun _ _ => Spares.lift _, fun _ _ => Spares.lift _, fun _ _ _ => Spares.lift _⟩
  | succ f ih =>
    refine ⟨fun t c => ?_, fun n c => ?_, fun n c acc => ?_⟩
    · show Spares (valL cfg v sm ref pool _ t c)
      unfold valL
      split
      · exact Spares.lift _
      refine (spares_alloc _).bind fun id => ?_
      split
      · exact Spares.lift _
      · refine (Spares.lift _).bind fun r => ?_
        split <;> exact Spares.pure _
      · exact (Spares.lift _).bind fun _ => (Spares.lift _).bind fun _ => (ih.items _ _).bind fun _ => Spares.pure _
      · exact (Spares.lift _).bind fun _ => (Spares.lift _).bind fun _ => (ih.kvs _ _ _).bind fun _ => Spares.pure _
    · show Spares (itemsL v _ n c)
      cases n with
      | zero => exact Spares.pure _
      | succ n => exact (Spares.lift _).bind fun _ => (ih.val _ _).bind fun _ => (spares_alloc _).bind fun _ =>
          (ih.items _ _).bind fun _ => Spares.pure _
    · show Spares (kvsL cfg v sm ref _ n c acc)
      cases n with
      | zero => exact Spares.pure _
      | succ n => exact (Spares.lift _).bind fun _ => (Spares.lift _).bind fun _ => (ih.val _ _).bind fun _ =>
          (Spares.lift _).bind fun _ => (spares_alloc _).bind fun _ => ih.kvs _ _ _

theorem spares_normal (cfg : Cfg) (ref : Bool) (fuel : Nat) (content : Bytes) (s : Sched) :
    Spares (normalL cfg ref fuel content s) := by
  unfold normalL
  refine ((spares_pvs _ _ _ _ _ _).val _ _).bind fun r => ?_
  split
  · exact Spares.lift _
  · exact Spares.pure _

/-- The pool of the caller is not touched. -/
theorem await_error {m : M (LObj × Cur)} {s s' : Fr} {e : Err} (h : await m s = (.error e, s')) : s'.bp = s.bp := by
  simp only [await, run_bind, child, note, Owner.lift] at h
  cases hr : (runFrame (s.next :: s.path) m).res with
  | error x => rw [hr] at h; simp only [Prod.mk.injEq] at h; rw [← h.2]
  | ok b => rw [hr] at h; simp [mergeIn, run_pure] at h

end Bridge.Owner
