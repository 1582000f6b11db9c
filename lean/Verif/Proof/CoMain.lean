import Verif.Proof.CoBlocks
/-
`ParseArray` and `ParseMap` as programs (Model/CoHeap.lean) build what Model/CoParse.lean computes.
-/
set_option autoImplicit false
namespace Bridge.Heap
open Spec

theorem objectTypeSplit_valid {v : View} {c : Cur} {q : ObjectType × Bool × Cur} (h : parseObjectTypeSplit v c = .ok q) (p : Nat) (ref : Bool) :
    ∃ cell, blank p ref q.1 = some cell := by
  have : q.1 ≠ .invalid := by
    unfold parseObjectTypeSplit at h
    obtain ⟨_, _, h⟩ := bind_ok h
    obtain ⟨_, _, h⟩ := bind_ok h
    obtain ⟨_, _, h⟩ := bind_ok h
    obtain ⟨_, _, h⟩ := bind_ok h
    dsimp only at h
    split at h
    · cases h
    · rename_i hne; cases h; exact hne
  obtain ⟨t, c⟩ := q
  cases t
  all_goals first
    | exact absurd rfl this
    | exact ⟨_, rfl⟩

/-- What the loop of a block leaves: the items before it and the new ones. -/
def BlockPost {β : Type} (ref : Bool) (proj : List (Str × Obj) → β) (q : Nat) (s : Part) (old : List Nat) (acc : List (Str × Obj)) (a : β) (b : Out)
    (s' : Part) : Prop :=
  Ext q s s' (· ∈ old) ∧ b.pool = q ∧ ∃ fp rest, proj rest = a ∧ Tailed s'.cell (Dead q s') ref fp b.head b.tail (acc ++ rest) none ∧ fp.Nodup ∧
    (∀ i, i ∈ fp ↔ i ∈ old ∨ New s s' i) ∧ b.count = (acc ++ rest).length % 2 ^ 64

theorem res_bind_pure {α : Type} (x : Res α) : (x >>= fun a => pure a) = x := by cases x <;> rfl

/-- A block with its own pool. -/
theorem task_runs {β : Type} {ref : Bool} {proj : List (Str × Obj) → β} {T : Nat → Prog Out} {x : Res β}
    (h : ∀ q, Runs (T q) (Part.empty.setPool q true) x (BlockPost ref proj q (Part.empty.setPool q true) [] [])) :
    Runs (Co.newPool >>= fun q => T q >>= fun o => Co.endPool q >>= fun _ => pure o) Part.empty x
      (fun a o h => ∃ b : Blk, b.out = o ∧ proj b.es = a ∧ BlkAt ref h b) := by
  refine Runs.newPool fun _ q _ => ?_
  rw [← res_bind_pure x]
  refine (h q).bind ?_
  rintro a o s' ⟨h1, h2, fp, es, h3, h4, h5, h6, h7⟩
  simp only [List.nil_append] at h4 h7
  have hq : s'.pools q = some true := h1.pool q true (upd_same _ _ _)
  refine Runs.endPool hq (Runs.ok ⟨⟨o, fp, es⟩, rfl, h3, ⟨?_, h5, fun i => ?_, h7, ?_, fun i p c e => ?_, fun p => ?_⟩⟩)
  · refine h4.congr ?_ (fun _ _ => rfl)
    rintro p (h | h)
    · subst h; exact upd_same _ _ _
    · have : p ≠ q := fun g => by rw [g, hq] at h; cases h
      show upd _ _ _ p = _
      rw [upd_ne _ _ this]; exact h
  · rw [h6]
    constructor
    · rintro (h | h)
      · cases h
      · exact h.2
    · exact fun h => .inr ⟨rfl, h⟩
  · subst h2; exact upd_same _ _ _
  · rw [h2]; exact h1.new i p c rfl e
  · by_cases hp : p = q
    · subst hp; rw [show (s'.setPool p false).pools p = some false from upd_same _ _ _]; simp
    · have e : (s'.setPool q false).pools p = s'.pools p := upd_ne _ _ hp
      rw [e]
      have e0 : (Part.empty.setPool q true).pools p = none := upd_ne _ _ hp
      rcases h1.ended p e0 with h | h <;> rw [h] <;> simp

/-- A new item for a child that has just been made. -/
theorem item_runs {α β : Type} {ref : Bool} {s s1 : Part} {x : Res β} {P : β → α → Part → Prop} {f : Option Ref × Option Ref → Prog α} {bp r : Nat}
    {head tail : Option Ref} {old : List Nat} {acc : List (Str × Obj)} {key : Str} {o : Obj} (hp : s.pools bp = some true)
    (ht : Tailed s.cell (Dead bp s) ref old head tail acc none) (hn : old.Nodup) (e1 : Ext bp s s1 (fun _ => False)) (hm : Made bp ref s s1 [] r o)
    (k : ∀ s2 hd i fp, s2.pools bp = some true → Ext bp s s2 (· ∈ old) → Tailed s2.cell (Dead bp s2) ref fp hd (some i) (acc ++ [(key, o)]) none →
      fp.Nodup → (∀ j, j ∈ fp ↔ j ∈ old ∨ New s s2 j) → Runs (f (hd, some i)) s2 x P) :
    Runs (Co.push bp head tail key (some r) >>= f) s1 x P := by
  obtain ⟨fpx, h1, h2, h3⟩ := hm
  have hlive : ∀ i ∈ old, ∃ y, s.cells i = some y := fun i hi => by
    cases e : s.cells i with
    | none => exact absurd (by unfold Part.cell; rw [e]; rfl) (ht.live i hi)
    | some y => exact ⟨y, rfl⟩
  have ht1 : Tailed s1.cell (Dead bp s1) ref old head tail acc none := ht.congr e1.dead fun i hi => by
    obtain ⟨y, hy⟩ := hlive i hi
    exact Part.cell_congr (by rw [hy, e1.keep i y hy (fun h => h)])
  refine push_runs (e1.pool _ _ hp) ht1 h1 ?_ ?_
  · refine List.nodup_append.2 ⟨hn, h2, fun a ha b hb hab => ?_⟩
    subst hab
    obtain ⟨y, hy⟩ := hlive a ha
    rcases (h3 a).1 hb with h | h
    · cases h
    · rw [h.1] at hy; cases hy
  · intro s2 hd i fp e2 t2 n2 m2
    have e := (e1.weaken (W' := (· ∈ old)) (fun _ h => h.elim)).trans e2 (fun _ h _ => h)
    refine k s2 hd i fp (e.pool _ _ hp) e t2 n2 fun j => ?_
    rw [m2, New.trans e2 e1, h3]
    simp [or_assoc]

theorem merge_fold (ess : List (List (Str × Obj))) : ∀ (acc : List (Str × Obj)) (sz : Nat), sz = acc.length % 2 ^ 64 → ∀ ref,
    ess.foldl (fun (a : MapS) b => a.merge (b, b.length)) ⟨ref, .frame, sz, acc⟩ =
      ⟨ref, .frame, (ess.foldl (fun a b => b ++ a) acc).length % 2 ^ 64, ess.foldl (fun a b => b ++ a) acc⟩ := by
  induction ess with
  | nil => intro acc sz h ref; simp [h]
  | cons e ess ih =>
    intro acc sz h ref
    simp only [List.foldl_cons]
    rw [← ih (e ++ acc) ((e ++ acc).length % 2 ^ 64) rfl]
    congr 1
    unfold MapS.merge
    cases e with
    | nil => simp [h]
    | cons x e =>
      simp only [List.isEmpty_cons, Bool.false_eq_true, if_false, addW, MapS.mk.injEq, true_and, and_true]
      rw [h, List.length_append]; omega

theorem mergeA_fold (ess : List (List (Str × Obj))) : ∀ (acc : List (Str × Obj)) (sz : Nat), sz = acc.length % 2 ^ 64 →
    (ess.map (·.map Prod.snd)).foldl (fun (a : ArrayS) b => a.merge (b, b.length)) ⟨.frame, sz, acc.map Prod.snd⟩ =
      ⟨.frame, (ess.foldl (fun a b => b ++ a) acc).length % 2 ^ 64, (ess.foldl (fun a b => b ++ a) acc).map Prod.snd⟩ := by
  induction ess with
  | nil => intro acc sz h; simp [h]
  | cons e ess ih =>
    intro acc sz h
    simp only [List.foldl_cons, List.map_cons]
    rw [← ih (e ++ acc) ((e ++ acc).length % 2 ^ 64) rfl]
    congr 1
    unfold ArrayS.merge
    cases e with
    | nil => simp [h]
    | cons x e =>
      simp only [List.map_cons, List.isEmpty_cons, Bool.false_eq_true, if_false, addW, List.length_cons, List.length_map, List.cons_append,
        List.map_append, List.length_append, ArrayS.mk.injEq, true_and, and_true]
      rw [h]; omega

/-- The result of task `i`. -/
def nth {α β : Type} (l : List α) (F : α → β) (d : β) (i : Nat) : β :=
  match l[i]? with
  | none => d
  | some a => F a

/-- The results of the tasks in the order of their numbers. -/
theorem range_map {α β : Type} (l : List α) (F : α → β) (d : β) : l.map F = (List.range l.length).map (nth l F d) := by
  apply List.ext_getElem?
  intro i
  simp only [List.getElem?_map, List.getElem?_range']
  by_cases h : i < l.length
  · rw [List.getElem?_range h, List.getElem?_eq_getElem h]; simp [nth, List.getElem?_eq_getElem h]
  · rw [List.getElem?_eq_none (by omega), List.getElem?_eq_none (by simp; omega)]; rfl

theorem co_runs {cfg : Cfg} {v : View} {sm : Option StringMap} {si : SplitInfo} {ref : Bool} (f : Nat) :
    (∀ (bp : Nat) (s : Part) (end_ : Nat) (head tail : Option Ref) (count : Nat) (c : Cur) (old : List Nat) (acc : List (Str × Obj)),
      s.pools bp = some true → Tailed s.cell (Dead bp s) ref old head tail acc none → old.Nodup → count = acc.length % 2 ^ 64 →
      Runs (Co.arrayBlock cfg v sm si ref bp f end_ head tail count c) s (coArrayBlock cfg v sm si ref f end_ c)
        (BlockPost ref (·.map Prod.snd) bp s old acc)) ∧
    (∀ (bp : Nat) (s : Part) (end_ : Nat) (head tail : Option Ref) (count : Nat) (c : Cur) (old : List Nat) (acc : List (Str × Obj)),
      s.pools bp = some true → Tailed s.cell (Dead bp s) ref old head tail acc none → old.Nodup → count = acc.length % 2 ^ 64 →
      Runs (Co.mapBlock cfg v sm si ref bp f end_ head tail count c) s (coMapBlock cfg v sm si ref f end_ c)
        (BlockPost ref id bp s old acc)) ∧
    (∀ (s : Part) (os : Nat), Runs (Co.array cfg v sm si ref f os) s (coArray cfg v sm si ref f os)
        (fun a b s' => a.2 = ⟨b.1, b.1⟩ ∧ Grown ref s s' b.2.2 b.2.1 a.1)) ∧
    (∀ (s : Part) (os : Nat), Runs (Co.map cfg v sm si ref f os) s (coMap cfg v sm si ref f os)
        (fun a b s' => a.2 = ⟨b.1, b.1⟩ ∧ Grown ref s s' b.2.2 b.2.1 a.1)) := by
  induction f with
  | zero =>
    refine ⟨fun bp s end_ head tail count c old acc _ _ _ _ => ?_, fun bp s end_ head tail count c old acc _ _ _ _ => ?_, fun s os => ?_, fun s os => ?_⟩
    · simp only [coArrayBlock, Co.arrayBlock]; exact Runs.fail _
    · simp only [coMapBlock, Co.mapBlock]; exact Runs.fail _
    · simp only [coArray, Co.array]; exact Runs.fail _
    · simp only [coMap, Co.map]; exact Runs.fail _
  | succ f ih =>
    obtain ⟨ihA, ihM, ihB, ihC⟩ := ih
    -- a child
    have child : ∀ {α β : Type} (bp : Nat) (s : Part) (t : ObjectType) (split : Bool) (c : Cur) (cell : Cell) (k : Obj × Cur → Res β)
        (g : Option Ref × Cur → Prog α) (P : β → α → Part → Prop), s.pools bp = some true → blank bp ref t = some cell →
        (∀ (o : Obj) (c' : Cur) (x : Nat) (s' : Part), Ext bp s s' (fun _ => False) → Made bp ref s s' [] x o →
          Runs (g (some x, c')) s' (k (o, c')) P) →
        Runs (Co.child bp split t (Co.fromFactory bp t ref fun node => Co.valueParse cfg v sm ref f node c) (Co.array cfg v sm si ref f c.idx)
          (Co.map cfg v sm si ref f c.idx) >>= g) s
          (coChild split t (parseVal cfg v sm ref .frame f t c) (coArray cfg v sm si ref f c.idx) (coMap cfg v sm si ref f c.idx) >>= k) P := by
      intro α β bp s t split c cell k g P hp hb hk
      unfold coChild Co.child Co.fromFactory
      cases split with
      | false =>
        simp only [Bool.false_eq_true, if_false, Prog.bind_assoc, Prog.pure_bind]
        refine factory_runs hb hp fun x hx => ?_
        refine ((value_runs (q := bp) f).1 (s.set x (bp, cell)) x t c cell hp hb (Part.set_cells _ _ _)).bind ?_
        rintro ⟨o, c1⟩ c2 s' ⟨h1, h2, fp, h3, h4, h5⟩
        dsimp only at h1
        subst h1
        have e1 := ext_alloc (q := bp) (c := cell) hx (fun _ => False)
        refine hk o c1 x s' (e1.trans h2 (fun i e hi => by subst e; exact absurd hx hi)) ⟨fp, h3, h4, fun i => ?_⟩
        rw [h5, New.trans h2 e1, new_alloc hx]; simp
      | true =>
        simp only [if_true]
        cases t with
        | invalid => cases hb
        | data => exact Runs.fail _
        | array =>
          simp only [Prog.bind_assoc]
          refine (ihB s c.idx).bind ?_
          rintro ⟨o, c1⟩ ⟨off, r, q⟩ s1 ⟨h1, h2⟩
          dsimp only at h1 h2
          subst h1
          exact adopt_runs h2 hp fun s2 e m => hk o _ r s2 e m
        | map =>
          simp only [Prog.bind_assoc]
          refine (ihC s c.idx).bind ?_
          rintro ⟨o, c1⟩ ⟨off, r, q⟩ s1 ⟨h1, h2⟩
          dsimp only at h1 h2
          subst h1
          exact adopt_runs h2 hp fun s2 e m => hk o _ r s2 e m
    refine ⟨?_, ?_, ?_, ?_⟩
    · intro bp s end_ head tail count c old acc hp ht hn hcount
      simp only [coArrayBlock, Co.arrayBlock]
      split
      · refine Runs.lift (parseObjectTypeSplit v c) ?_
        rintro ⟨t, split, c1⟩ hty
        obtain ⟨cell, hb⟩ := objectTypeSplit_valid hty bp ref
        refine child bp s t split c1 cell _ _ _ hp hb fun o c2 x s1 e1 m1 => ?_
        refine item_runs hp ht hn e1 m1 fun s2 hd i fp p2 e2 t2 n2 m2 => ?_
        have hB := ihA bp s2 end_ hd (some i) (addW count 1) c2 fp (acc ++ [(noKey, o)]) p2 t2 n2
          (by rw [hcount]; unfold addW; simp only [List.length_append, List.length_singleton]; omega)
        have := hB.bind (f := fun z => pure z) (g := fun x : List Obj => (pure (o :: x) : Res (List Obj)))
          (Q := BlockPost ref (·.map Prod.snd) bp s old acc) ?_
        · rw [Prog.bind_pure] at this
          exact this
        · rintro a b s' ⟨g1, g2, fp', rs, g3, g4, g5, g6, g7⟩
          refine Runs.ok ⟨e2.trans g1 (fun j hj hl => ((m2 j).1 hj).resolve_right fun h => hl h.1), g2, fp', (noKey, o) :: rs,
            by simp [g3], by simpa using g4, g5, fun j => ?_, by simpa using g7⟩
          rw [g6, New.trans g1 e2, m2, or_assoc]
      · exact Runs.ok ⟨Ext.refl _ _ _, rfl, old, [], rfl, by simpa using ht, hn, fun i => by unfold New; simp, by simpa using hcount⟩
    · intro bp s end_ head tail count c old acc hp ht hn hcount
      simp only [coMapBlock, Co.mapBlock]
      split
      · refine Runs.useDict _ ?_
        refine Runs.lift (parseKeyBlock cfg v sm ref c) ?_
        rintro ⟨k, c0⟩ hk
        refine Runs.lift (parseObjectTypeSplit v c0) ?_
        rintro ⟨t, split, c1⟩ hty
        obtain ⟨cell, hb⟩ := objectTypeSplit_valid hty bp ref
        refine child bp s t split c1 cell _ _ _ hp hb fun o c2 x s1 e1 m1 => ?_
        refine item_runs hp ht hn e1 m1 fun s2 hd i fp p2 e2 t2 n2 m2 => ?_
        have hB := ihM bp s2 end_ hd (some i) (addW count 1) c2 fp (acc ++ [(k, o)]) p2 t2 n2
          (by rw [hcount]; unfold addW; simp only [List.length_append, List.length_singleton]; omega)
        have := hB.bind (f := fun z => pure z) (g := fun x : List (Str × Obj) => (pure ((k, o) :: x) : Res (List (Str × Obj))))
          (Q := BlockPost ref id bp s old acc) ?_
        · rw [Prog.bind_pure] at this
          exact this
        · rintro a b s' ⟨g1, g2, fp', rs, g3, g4, g5, g6, g7⟩
          refine Runs.ok ⟨e2.trans g1 (fun j hj hl => ((m2 j).1 hj).resolve_right fun h => hl h.1), g2, fp', (k, o) :: rs,
            by simpa using g3, by simpa using g4, g5, fun j => ?_, by simpa using g7⟩
          rw [g6, New.trans g1 e2, m2, or_assoc]
      · exact Runs.ok ⟨Ext.refl _ _ _, rfl, old, [], rfl, by simpa using ht, hn, fun i => by unfold New; simp, by simpa using hcount⟩
    · intro s os
      simp only [coArray, Co.array]
      refine Runs.newPool fun hc bp hbp => ?_
      refine Runs.lift (parseLength cfg v ⟨addW 0 os, os⟩) ?_
      rintro ⟨_, c1⟩ _
      refine Runs.lift (parseLength cfg v c1) ?_
      rintro ⟨id, c2⟩ _
      refine Runs.lift (si.getBlocks (toU32 id)) ?_
      rintro blocks _
      dsimp only
      generalize blockBounds c2.idx blocks = bounds
      rw [range_map bounds.1 (fun be => coArrayBlock cfg v sm si ref f be.2 ⟨addW 0 be.1, be.1⟩) (.error .fuel)]
      obtain ⟨G, hG⟩ : ∃ G : Nat → Res (List Obj),
        G = nth bounds.1 (fun be => coArrayBlock cfg v sm si ref f be.2 ⟨addW 0 be.1, be.1⟩) (.error .fuel) := ⟨_, rfl⟩
      rw [← hG]
      refine par_runs (fun i r h => Both (fun a o => ∃ b : Blk, b.out = o ∧ b.es.map Prod.snd = a ∧ BlkAt ref h b) (G i) r) (fun i hi => ?_) ?_
      · show Runs _ _ (G i) _
        rw [hG]
        dsimp only [nth]
        cases bounds.1[i]? with
        | none => exact Runs.fail _
        | some be =>
          exact task_runs (proj := fun es => es.map Prod.snd) fun q => ihA q _ be.2 none none 0 _ [] [] (upd_same _ _ _) .nil List.nodup_nil rfl
      · intro rs hs s' hb j
        rw [← List.map_reverse, ← List.map_reverse]
        refine Runs.bind (P := fun as os s'' => s'' = s' ∧ ∃ z : List (Nat × List Obj × Out), z.map (·.1) = (List.range bounds.1.length).reverse ∧
          z.map (·.2.1) = as ∧ z.map (·.2.2) = os ∧ ∀ y ∈ z, ∃ b : Blk, b.out = y.2.2 ∧ b.es.map Prod.snd = y.2.1 ∧ BlkAt ref (hs y.1) b)
          ((joinTasks_both (R := fun i a o => ∃ b : Blk, b.out = o ∧ b.es.map Prod.snd = a ∧ BlkAt ref (hs i) b) _ fun i hi =>
            hb i (by simpa using hi)).imp fun _ _ h => ⟨rfl, h⟩) ?_
        rintro as os' s'' ⟨rfl, z, z1, z2, z3, z4⟩
        refine Runs.alloc ((j.pools _ _).2 (.inl (upd_same _ _ _))) fun ret hr => ?_
        subst z2 z3
        refine finish_runs (proj := fun es => es.map Prod.snd) (kind := .array) z (fun i => by rw [z1]; simp) (by rw [z1]; exact List.pairwise_reverse.2 (by
          have := List.nodup_range (n := bounds.1.length); exact List.Pairwise.imp (fun h => h.symm) this)) hc hbp ?_
          (j.alloc (q := bp) hr (by show upd _ _ _ bp ≠ _; rw [upd_same]; simp)) z4 ?_
        · cases e : s.cells ret with
          | none => rfl
          | some x => rw [(j.cells ret x).2 (.inl e)] at hr; cases hr
        · intro ess he cells D fp hd h1 h2 h3
          rw [← he]
          have := mergeA_fold ess [] 0 rfl
          simp only [List.map_nil] at this
          rw [this]
          exact .array h1 h2 rfl h3
    · intro s os
      simp only [coMap, Co.map]
      refine Runs.newPool fun hc bp hbp => ?_
      refine Runs.lift (parseLength cfg v ⟨addW 0 os, os⟩) ?_
      rintro ⟨_, c1⟩ _
      refine Runs.lift (parseLength cfg v c1) ?_
      rintro ⟨id', c2⟩ _
      refine Runs.lift (si.getBlocks (toU32 id')) ?_
      rintro blocks _
      dsimp only
      generalize blockBounds c2.idx blocks = bounds
      refine Runs.alloc (upd_same _ _ _) fun ret hr => ?_
      rw [range_map bounds.1 (fun be => coMapBlock cfg v sm si ref f be.2 ⟨addW 0 be.1, be.1⟩) (.error .fuel)]
      obtain ⟨G, hG⟩ : ∃ G : Nat → Res (List (Str × Obj)),
        G = nth bounds.1 (fun be => coMapBlock cfg v sm si ref f be.2 ⟨addW 0 be.1, be.1⟩) (.error .fuel) := ⟨_, rfl⟩
      rw [← hG]
      refine par_runs (fun i r h => Both (fun a o => ∃ b : Blk, b.out = o ∧ id b.es = a ∧ BlkAt ref h b) (G i) r) (fun i hi => ?_) ?_
      · show Runs _ _ (G i) _
        rw [hG]
        dsimp only [nth]
        cases bounds.1[i]? with
        | none => exact Runs.fail _
        | some be =>
          exact task_runs (proj := id) fun q => ihM q _ be.2 none none 0 _ [] [] (upd_same _ _ _) .nil List.nodup_nil rfl
      · intro rs hs s' hb j
        refine Runs.bind (P := fun as os s'' => s'' = s' ∧ ∃ z : List (Nat × List (Str × Obj) × Out), z.map (·.1) = List.range bounds.1.length ∧
          z.map (·.2.1) = as ∧ z.map (·.2.2) = os ∧ ∀ y ∈ z, ∃ b : Blk, b.out = y.2.2 ∧ id b.es = y.2.1 ∧ BlkAt ref (hs y.1) b)
          ((joinTasks_both (R := fun i a o => ∃ b : Blk, b.out = o ∧ id b.es = a ∧ BlkAt ref (hs i) b) _ fun i hi =>
            hb i (by simpa using hi)).imp fun _ _ h => ⟨rfl, h⟩) ?_
        rintro as os' s'' ⟨rfl, z, z1, z2, z3, z4⟩
        subst z2 z3
        refine finish_runs (proj := id) (kind := .map ref) z (fun i => by rw [z1]; simp) (by rw [z1]; exact List.nodup_range) hc hbp hr j z4 ?_
        intro ess he cells D fp hd h1 h2 h3
        rw [← he, List.map_id]
        rw [merge_fold ess [] 0 rfl]
        exact .map h1 h2 rfl h3

end Bridge.Heap
