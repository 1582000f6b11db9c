import Verif.Proof.CoValue
import Verif.Proof.CoSound
/-
The blocks of the parallel parser as programs (Model/CoHeap.lean) build what Model/CoParse.lean computes.
-/
set_option autoImplicit false
namespace Bridge.Heap
open Spec

theorem Part.merge_cell (s : Part) (q q' : Nat) : (s.merge q q').cell = s.cell := by
  funext r
  unfold Part.cell Part.merge
  simp only [Option.map_map]
  cases s.cells r with
  | none => rfl
  | some x => simp only [Option.map_some, Function.comp]; split <;> rfl

theorem Part.merge_cells {s : Part} {q q' i p : Nat} {c : Cell} (h : s.cells i = some (p, c)) :
    (s.merge q q').cells i = some (if p = q' then q else p, c) := by
  unfold Part.merge
  simp only [h, Option.map_some]
  split <;> rfl

theorem Part.merge_none {s : Part} {q q' i : Nat} : (s.merge q q').cells i = none ↔ s.cells i = none := by
  unfold Part.merge
  simp only [Option.map_eq_none_iff]

theorem Part.merge_free {s : Part} {q q' : Nat} (hne : q ≠ q') (i : Nat) (c : Cell) : (s.merge q q').cells i ≠ some (q', c) := by
  intro h
  cases e : s.cells i with
  | none => rw [Part.merge_none.2 e] at h; cases h
  | some x =>
    obtain ⟨p, c'⟩ := x
    rw [Part.merge_cells e] at h
    simp only [Option.some.injEq, Prod.mk.injEq] at h
    split at h
    · exact hne h.1
    · rename_i hp; exact hp h.1

/-! ### a split child -/

/-- What `ParseArray` and `ParseMap` leave: the container at `r` with everything below it belongs to the pool `q`, which has been moved
from. -/
structure Grown (ref : Bool) (s s1 : Part) (q : Nat) (r : Nat) (o : Obj) : Prop where
  fresh : s.pools q = none
  none : ∀ i c, s.cells i ≠ some (q, c)
  ended : s1.pools q = some false
  ext : Ext q s s1 (fun _ => False)
  made : Made q ref s s1 [] r o

theorem adopt_runs {α β : Type} {ref : Bool} {s s1 : Part} {x : Res β} {P : β → α → Part → Prop} {f : Option Ref × Cur → Prog α} {bp q off r : Nat}
    {o : Obj} (g : Grown ref s s1 q r o) (hp : s.pools bp = some true)
    (k : ∀ s2, Ext bp s s2 (fun _ => False) → Made bp ref s s2 [] r o → Runs (f (some r, ⟨off, off⟩)) s2 x P) :
    Runs (Co.adopt bp (off, r, q) >>= f) s1 x P := by
  have hne : bp ≠ q := by rintro rfl; rw [g.fresh] at hp; cases hp
  unfold Co.adopt
  simp only [Prog.bind_assoc, Prog.pure_bind]
  refine Runs.mergePool (g.ext.pool _ _ hp) (by rw [g.ended]; simp) hne ?_
  refine Runs.freePool (show s1.pools q ≠ none by rw [g.ended]; simp) (Part.merge_free hne) ?_
  have hnew : ∀ i, New s (s1.merge bp q) i ↔ New s s1 i := fun i => by unfold New; rw [Ne, Part.merge_none]
  refine k _ ⟨fun i x e hn => ?_, fun i p c e => ?_, fun i p c e e' => ?_, g.ext.pool, g.ext.ended⟩ ?_
  · obtain ⟨p, c⟩ := x
    have hpq : p ≠ q := by rintro rfl; exact g.none i c e
    rw [Part.merge_cells (g.ext.keep i _ e hn), if_neg hpq]
  · obtain ⟨c', e'⟩ := g.ext.own i p c e
    have hpq : p ≠ q := by rintro rfl; exact g.none i c e
    exact ⟨c', by rw [Part.merge_cells e', if_neg hpq]⟩
  · cases e1 : s1.cells i with
    | none => rw [Part.merge_none.2 e1] at e'; cases e'
    | some x =>
      obtain ⟨p1, c1⟩ := x
      rw [Part.merge_cells e1, g.ext.new i p1 c1 e e1, if_pos rfl] at e'
      cases e'; rfl
  · obtain ⟨fp, h1, h2, h3⟩ := g.made
    refine ⟨fp, ?_, h2, fun i => by rw [h3, hnew]⟩
    rw [Part.merge_cell]
    refine h1.congr ?_ (fun _ _ => rfl)
    rintro p (rfl | h)
    · exact .inr g.ended
    · exact .inr h

/-! ### the next item of a block -/

theorem cells_of_cell {s : Part} {r : Nat} {c : Cell} (h : s.cell r = some c) : ∃ p, s.cells r = some (p, c) := by
  unfold Part.cell at h
  cases e : s.cells r with
  | none => rw [e] at h; cases h
  | some x => obtain ⟨p, c'⟩ := x; rw [e] at h; cases h; exact ⟨p, rfl⟩

theorem push_runs {α β : Type} {ref : Bool} {s : Part} {x : Res β} {P : β → α → Part → Prop} {f : Option Ref × Option Ref → Prog α} {bp t : Nat}
    {head tail : Option Ref} {old fpx : List Nat} {acc : List (Str × Obj)} {key : Str} {o : Obj} (hp : s.pools bp = some true)
    (ht : Tailed s.cell (Dead bp s) ref old head tail acc none) (hx : GTree s.cell (Dead bp s) ref fpx t o) (hn : (old ++ fpx).Nodup)
    (k : ∀ s' hd i fp, Ext bp s s' (· ∈ old) → Tailed s'.cell (Dead bp s') ref fp hd (some i) (acc ++ [(key, o)]) none → fp.Nodup →
      (∀ j, j ∈ fp ↔ (j ∈ old ∨ j ∈ fpx) ∨ New s s' j) → Runs (f (hd, some i)) s' x P) :
    Runs (Co.push bp head tail key (some t) >>= f) s x P := by
  have hlive : ∀ i, s.cells i = none → i ∉ old ∧ i ∉ fpx := by
    intro i hi
    have : s.cell i = none := by unfold Part.cell; rw [hi]; rfl
    exact ⟨fun h => ht.live i h this, fun h => hx.live i h this⟩
  unfold Co.push
  rcases ht.tail with ⟨h1, h2, h3, h4⟩ | ⟨h1, h2, l, k0, y, h3, h4, h5⟩
  · subst h1; subst h2; subst h3; subst h4
    simp only [Option.isNone_none, if_true, Prog.bind_assoc, Prog.pure_bind]
    refine Runs.alloc hp fun i hi => ?_
    refine Runs.modify (Part.set_cells _ _ _) ?_
    refine Runs.modify (by rw [Part.set_cells]) ?_
    refine Runs.modify (by rw [Part.set_set, Part.set_cells]) ?_
    simp only [Part.set_set, Cell.setKey, Cell.setNode, Cell.setNext]
    obtain ⟨_, hi2⟩ := hlive i hi
    have e := ext_alloc (q := bp) (c := .item key (some t) none) hi (· ∈ ([] : List Nat))
    refine k _ _ i (i :: fpx) e ?_ ?_ ?_
    · exact .cons (fp0 := []) .nil (Part.cell_of (Part.set_cells _ _ _))
        (hx.congr (e.dead) fun j hj => Part.cell_congr (Part.set_ne _ _ (fun h => hi2 (h ▸ hj))))
    · exact List.nodup_cons.2 ⟨hi2, by simpa using hn⟩
    · intro j; rw [new_alloc hi, List.mem_cons]; constructor
      · rintro (h | h) <;> simp [h]
      · rintro ((h | h) | h)
        · cases h
        · exact .inr h
        · exact .inl h
  · have hh : head.isNone = false := by cases head with
      | none => exact absurd rfl h1
      | some _ => rfl
    subst h3
    simp only [hh, Bool.false_eq_true, if_false, Prog.bind_assoc, Prog.pure_bind]
    refine Runs.alloc hp fun i hi => ?_
    refine Runs.modify (Part.set_cells _ _ _) ?_
    refine Runs.modify (by rw [Part.set_cells]) ?_
    simp only [Part.set_set, Cell.setKey, Cell.setNode]
    obtain ⟨hi1, hi2⟩ := hlive i hi
    have hli : l ≠ i := fun h => hi1 (h ▸ h4)
    obtain ⟨p, h5'⟩ := cells_of_cell h5
    have h5s : (s.set i (bp, .item key (some t) none)).cells l = some (p, .item k0 y none) := by rw [Part.set_ne _ _ hli]; exact h5'
    refine Runs.load h5s (Runs.modify h5s ?_)
    simp only [Cell.setNext]
    have e1 := ext_alloc (q := bp) (c := .item key (some t) none) hi (· ∈ old)
    have e2 := ext_set (q := bp) (c' := .item k0 y (some i)) h5s
    have e := e1.trans e2 (fun j hj _ => hj ▸ h4)
    obtain ⟨hn1, hn2, hn3⟩ := List.nodup_append.1 hn
    have hc : ∀ j, j ≠ i → j ≠ l →
        ((s.set i (bp, .item key (some t) none)).set l (p, .item k0 y (some i))).cell j = s.cell j := fun j g1 g2 => by
      apply Part.cell_congr; rw [Part.set_ne _ _ g2, Part.set_ne _ _ g1]
    refine k _ _ i (old ++ i :: fpx) e ?_ ?_ ?_
    · refine .cons (ht.link hn1 (fun j hj hjl => hc j (fun h => hi1 (h ▸ hj)) hjl) (fun k x hkx => ?_) |>.congr e.dead (fun _ _ => rfl)) ?_
        (hx.congr e.dead fun j hj => hc j (fun h => hi2 (h ▸ hj)) (fun h => hn3 l h4 j hj h.symm))
      · rw [h5] at hkx; cases hkx
        exact Part.cell_of (Part.set_cells _ _ _)
      · apply Part.cell_of (q := bp); rw [Part.set_ne _ _ hli.symm, Part.set_cells]
    · refine List.nodup_append.2 ⟨hn1, List.nodup_cons.2 ⟨hi2, hn2⟩, fun a ha b hb hab => ?_⟩
      rcases List.mem_cons.1 hb with rfl | hb
      · exact hi1 (hab ▸ ha)
      · exact hn3 a ha b hb hab
    · intro j
      rw [New.trans e2 e1, new_alloc hi]
      have := new_set (c' := .item k0 y (some i)) h5s j
      simp only [List.mem_append, List.mem_cons, this, or_false]
      constructor
      · rintro (h | h | h) <;> simp [h]
      · rintro ((h | h) | h) <;> simp [h]

/-! ### starting the blocks -/

theorem par_runs {α β : Type} {s : Part} {x : Res β} {P : β → α → Part → Prop} {n : Nat} {ts : Nat → Prog Out} {f : List (Res Out) → Prog α}
    (Qs : Nat → Res Out → Part → Prop) (ht : ∀ i, i < n → wp (ts i) Part.empty (Qs i))
    (k : ∀ (rs : Nat → Res Out) (hs : Nat → Part) (s' : Part), (∀ i, i < n → Qs i (rs i) (hs i)) → Join s' s n hs →
      Runs (f ((List.range n).map rs)) s' x P) : Runs (Co.par n ts >>= f) s x P := by
  intro hc
  refine ⟨s, fun _ => Part.empty, Qs, ⟨fun r x => ?_, fun q b => ?_, fun _ _ _ _ => rfl, fun _ _ _ _ _ _ h => absurd rfl h, hc,
    (fun _ _ r q c h => by cases h)⟩, ht, k⟩
  · constructor
    · exact .inl
    · rintro (h | ⟨_, _, h⟩)
      · exact h
      · cases h
  · constructor
    · exact .inl
    · rintro (h | ⟨_, _, h⟩)
      · exact h
      · cases h

/-- The results of the tasks, read one after the other. -/
theorem joinTasks_both {γ α β : Type} {R : γ → α → β → Prop} {F : γ → Res α} {G : γ → Res β} (l : List γ) (h : ∀ i ∈ l, Both (R i) (F i) (G i)) :
    Both (fun as bs => ∃ z : List (γ × α × β), z.map (·.1) = l ∧ z.map (·.2.1) = as ∧ z.map (·.2.2) = bs ∧ ∀ y ∈ z, R y.1 y.2.1 y.2.2)
      (joinTasks (l.map F)) (joinTasks (l.map G)) := by
  have he : (l.map G).filterMap failure? = (l.map F).filterMap failure? := by
    induction l with
    | nil => rfl
    | cons i l ih =>
      have h1 := h i (by simp)
      have h2 := ih fun j hj => h j (by simp [hj])
      simp only [List.map_cons, List.filterMap_cons]
      generalize F i = a at h1 ⊢
      generalize G i = b at h1 ⊢
      cases h1 with
      | ok _ => simp only [failure?]; exact h2
      | error e => simp only [failure?]; rw [h2]
  have hm : Both (fun as bs => ∃ z : List (γ × α × β), z.map (·.1) = l ∧ z.map (·.2.1) = as ∧ z.map (·.2.2) = bs ∧ ∀ y ∈ z, R y.1 y.2.1 y.2.2)
      ((l.map F).mapM id) ((l.map G).mapM id) := by
    clear he
    induction l with
    | nil => exact .ok ⟨[], rfl, rfl, rfl, by simp⟩
    | cons i l ih =>
      simp only [List.map_cons, List.mapM_cons, id_eq]
      refine (h i (by simp)).bind fun a b hab => ?_
      refine (ih fun j hj => h j (by simp [hj])).bind fun as bs hz => ?_
      obtain ⟨z, z1, z2, z3, z4⟩ := hz
      refine .ok ⟨(i, a, b) :: z, by simp [z1], by simp [z2], by simp [z3], fun y hy => ?_⟩
      rcases List.mem_cons.1 hy with rfl | hy
      · exact hab
      · exact z4 y hy
  unfold joinTasks
  rw [he]
  dsimp only
  split
  · exact .error _
  · split
    · exact .error _
    · split
      · exact .error _
      · exact hm

/-! ### putting the blocks together -/

/-- A block: its result, its addresses and its entries. -/
structure Blk where
  out : Out
  fp : List Nat
  es : List (Str × Obj)

theorem mergeAll_runs {α β : Type} {ref : Bool} {x : Res β} {P : β → α → Part → Prop} {f : Unit → Prog α} {bp ret : Nat} {kind : Kind} (bs : List Blk) :
    ∀ (s : Part) (hd : Option Ref) (sz : Nat) (old : List Nat) (acc : List (Str × Obj)), s.pools bp = some true →
    s.cells ret = some (bp, .cont kind bp hd sz) → sz = acc.length % 2 ^ 64 → GSeg s.cell (Dead bp s) ref old hd acc none →
    (ret :: (old ++ bs.flatMap (·.fp))).Nodup →
    (∀ b ∈ bs, Tailed s.cell (Dead bp s) ref b.fp b.out.head b.out.tail b.es none ∧ b.out.count = b.es.length % 2 ^ 64 ∧ s.pools b.out.pool ≠ none ∧ b.out.pool ≠ bp) →
    (∀ s' hd' sz' fp, s'.pools = s.pools → s'.cells ret = some (bp, .cont kind bp hd' sz') →
      sz' = (bs.foldl (fun a b => b.es ++ a) acc).length % 2 ^ 64 →
      GSeg s'.cell (Dead bp s') ref fp hd' (bs.foldl (fun a b => b.es ++ a) acc) none → (ret :: fp).Nodup →
      (∀ i, i ∈ fp ↔ i ∈ old ∨ i ∈ bs.flatMap (·.fp)) → (∀ i, s.cells i = none → s'.cells i = none) →
      (∀ i p c, s.cells i = some (p, c) → ∃ c', s'.cells i = some (if ∃ b ∈ bs, b.out.pool = p then bp else p, c') ∧
        (i ≠ ret → i ∉ bs.flatMap (·.fp) → c' = c)) → Runs (f ()) s' x P) →
    Runs (Co.mergeAll bp ret (bs.map (·.out)) >>= f) s x P := by
  induction bs with
  | nil =>
    intro s hd sz old acc hp hr hs hl hn _ k
    simp only [List.map_nil, Co.mergeAll, Prog.pure_bind]
    refine k s hd sz old rfl hr hs hl (by simpa using hn) (fun i => by simp) (fun _ h => h) (fun i p c h => ⟨c, by simp [h], fun _ _ => rfl⟩)
  | cons b bs ih =>
    intro s hd sz old acc hp hr hs hl hn hb k
    obtain ⟨b1, b2, b3, b4⟩ := hb b (by simp)
    simp only [List.map_cons, Co.mergeAll, Prog.bind_assoc]
    simp only [List.flatMap_cons] at hn
    -- after the merge of the container
    have rest : ∀ (s1 : Part) (hd1 : Option Ref) (sz1 : Nat), s1.pools = s.pools → s1.cells ret = some (bp, .cont kind bp hd1 sz1) →
        sz1 = (b.es ++ acc).length % 2 ^ 64 → GSeg s1.cell (Dead bp s1) ref (b.fp ++ old) hd1 (b.es ++ acc) none →
        (∀ i, s.cells i = none → s1.cells i = none) →
        (∀ i p c, s.cells i = some (p, c) → ∃ c', s1.cells i = some (p, c') ∧ (i ≠ ret → i ∉ b.fp → c' = c)) →
        Runs (Co.mergePool bp b.out.pool >>= fun _ => Co.mergeAll bp ret (bs.map (·.out)) >>= f) s1 x P := by
      intro s1 hd1 sz1 hp1 hr1 hs1 hl1 hnone hsome
      have hcells : ∀ i p c, s.cells i = some (p, c) → ∃ c', (s1.merge bp b.out.pool).cells i = some (if p = b.out.pool then bp else p, c') ∧
          (i ≠ ret → i ∉ b.fp → c' = c) := by
        intro i p c h
        obtain ⟨c', h1, h2⟩ := hsome i p c h
        exact ⟨c', Part.merge_cells h1, h2⟩
      refine Runs.mergePool (by rw [hp1]; exact hp) (by rw [hp1]; exact b3) b4.symm ?_
      refine ih (s1.merge bp b.out.pool) hd1 sz1 (b.fp ++ old) (b.es ++ acc) (by show s1.pools bp = _; rw [hp1]; exact hp)
        (by rw [Part.merge_cells hr1, if_neg (fun h => b4 h.symm)]) hs1 (by rw [Part.merge_cell]; exact hl1) ?_ ?_ ?_
      · refine (List.Perm.nodup_iff ?_).1 hn
        rw [List.perm_iff_count]; intro y; simp only [List.count_cons, List.count_append]; omega
      · intro b' hb'
        obtain ⟨c1, c2, c3, c4⟩ := hb b' (by simp [hb'])
        have hD : ∀ p, Dead bp s p → Dead bp (s1.merge bp b.out.pool) p := by
          rintro p (h | h)
          · exact .inl h
          · exact .inr (by show s1.pools p = _; rw [hp1]; exact h)
        refine ⟨?_, c2, by show s1.pools _ ≠ none; rw [hp1]; exact c3, c4⟩
        rw [Part.merge_cell]
        refine c1.congr hD fun i hi => ?_
        obtain ⟨e1, e2⟩ := List.nodup_cons.1 hn
        have hir : i ≠ ret := fun h => e1 (by
          simp only [List.mem_append, List.mem_flatMap]; exact .inr (.inr ⟨b', hb', h ▸ hi⟩))
        have hib : i ∉ b.fp := fun h => by
          obtain ⟨_, e3, _⟩ := List.nodup_append.1 e2
          exact (List.nodup_append.1 e3).2.2 i h i (List.mem_flatMap.2 ⟨b', hb', hi⟩) rfl
        cases hc : s.cells i with
        | none => exact absurd (by unfold Part.cell; rw [hc]; rfl) (c1.live i hi)
        | some y =>
          obtain ⟨p, c⟩ := y
          obtain ⟨c', g1, g2⟩ := hsome i p c hc
          rw [Part.cell_of g1, Part.cell_of hc, g2 hir hib]
      · intro s' hd' sz' fp g1 g2 g3 g4 g5 g6 g7 g8
        refine k s' hd' sz' fp (g1.trans hp1) g2 g3 g4 g5 (fun i => ?_) (fun i h => g7 i (Part.merge_none.2 (hnone i h))) (fun i p c h => ?_)
        · rw [g6]; simp only [List.flatMap_cons, List.mem_append]
          constructor
          · rintro ((h | h) | h) <;> simp [h]
          · rintro (h | h | h) <;> simp [h]
        · obtain ⟨c1, h1, h2⟩ := hcells i p c h
          obtain ⟨c2, h3, h4⟩ := g8 i _ c1 h1
          refine ⟨c2, ?_, fun i1 i2 => ?_⟩
          · rw [h3]
            by_cases hpb : p = b.out.pool
            · subst hpb
              simp only [if_true]
              have : ∃ b' ∈ b :: bs, b'.out.pool = b.out.pool := ⟨b, by simp, rfl⟩
              rw [if_pos this]; split <;> rfl
            · simp only [hpb, if_false]
              congr 2
              by_cases hx : ∃ b ∈ bs, b.out.pool = p
              · obtain ⟨b', hb', e⟩ := hx
                rw [if_pos ⟨b', hb', e⟩, if_pos ⟨b', List.mem_cons_of_mem _ hb', e⟩]
              · rw [if_neg hx, if_neg]
                rintro ⟨b', hb', e⟩
                rcases List.mem_cons.1 hb' with rfl | hb'
                · exact hpb e.symm
                · exact hx ⟨b', hb', e⟩
          · simp only [List.flatMap_cons, List.mem_append, not_or] at i2
            rw [h4 i1 i2.2, h2 i1 i2.1]
    rcases b1.tail with ⟨h1, h2, h3, h4⟩ | ⟨h1, h2, l, k0, y, h3, h4, h5⟩
    · -- an empty block
      have hm : Co.merge ret b.out = pure () := by unfold Co.merge; rw [h1]; rfl
      rw [hm, Prog.pure_bind]
      exact rest s hd sz rfl hr (by rw [h3]; exact hs) (by rw [h3, h4]; exact hl) (fun _ h => h) (fun i p c h => ⟨c, h, fun _ _ => rfl⟩)
    · obtain ⟨e1, e2⟩ := List.nodup_cons.1 hn
      have hh : (b.out.head.isNone || b.out.tail.isNone) = false := by
        rw [h3]
        cases hb0 : b.out.head with
        | none => exact absurd hb0 h1
        | some _ => rfl
      unfold Co.merge
      simp only [hh, Bool.false_eq_true, if_false, Prog.bind_assoc]
      refine Runs.load hr ?_
      obtain ⟨p, h5'⟩ := cells_of_cell h5
      simp only [h3, Prog.bind_assoc]
      have hlr : l ≠ ret := fun h => e1 (by simp only [List.mem_append]; exact .inr (.inl (h ▸ h4)))
      refine Runs.load h5' (Runs.modify h5' ?_)
      have hr1 : (s.set l (p, .item k0 y hd)).cells ret = some (bp, .cont kind bp hd sz) := by rw [Part.set_ne _ _ hlr.symm]; exact hr
      simp only [Cell.setNext]
      refine Runs.modify hr1 (Runs.modify (Part.set_cells _ _ _) ?_)
      simp only [Part.set_set, Cell.setHead, Cell.setSize]
      have hc : ∀ j, j ≠ ret → j ≠ l →
          ((s.set l (p, .item k0 y hd)).set ret (bp, .cont kind bp b.out.head (addW sz b.out.count))).cell j = s.cell j := fun j g1 g2 => by
        apply Part.cell_congr; rw [Part.set_ne _ _ g1, Part.set_ne _ _ g2]
      obtain ⟨e3, e4, e5⟩ := List.nodup_append.1 e2
      refine rest _ b.out.head (addW sz b.out.count) rfl (Part.set_cells _ _ _) ?_ ?_ (fun i h => ?_) (fun i q c h => ?_)
      · rw [hs, b2]; unfold addW; rw [List.length_append]; omega
      · rw [h3] at b1
        refine GSeg.append (md := hd) (b1.link (List.nodup_append.1 e4).1 (fun j hj hjl => hc j (fun h => e1 (by
          simp only [List.mem_append]; exact .inr (.inl (h ▸ hj)))) hjl) (fun k x hkx => ?_)) ?_
        · rw [h5] at hkx; cases hkx
          apply Part.cell_of (q := p); rw [Part.set_ne _ _ hlr, Part.set_cells]
        · refine hl.congr (fun _ h => h) fun j hj => hc j (fun h => e1 (by simp only [List.mem_append]; exact .inl (h ▸ hj))) (fun h => ?_)
          exact e5 j hj l (by simp [h4]) h
      · have hil : i ≠ l := fun g => by rw [g, h5'] at h; cases h
        have hir : i ≠ ret := fun g => by rw [g, hr] at h; cases h
        rw [Part.set_ne _ _ hir, Part.set_ne _ _ hil]; exact h
      · by_cases hir : i = ret
        · subst hir; rw [hr] at h; cases h
          exact ⟨_, Part.set_cells _ _ _, fun h => absurd rfl h⟩
        · by_cases hil : i = l
          · subst hil; rw [h5'] at h; cases h
            refine ⟨_, by rw [Part.set_ne _ _ hir, Part.set_cells], fun _ h => absurd h4 h⟩
          · exact ⟨c, by rw [Part.set_ne _ _ hir, Part.set_ne _ _ hil]; exact h, fun _ _ => rfl⟩

theorem freeAll_runs {α β : Type} {x : Res β} {P : β → α → Part → Prop} {f : Unit → Prog α} {s : Part} (os : List Out)
    (h : ∀ o ∈ os, s.pools o.pool ≠ none ∧ ∀ i c, s.cells i ≠ some (o.pool, c)) (k : Runs (f ()) s x P) : Runs (Co.freeAll os >>= f) s x P := by
  induction os with
  | nil => exact k
  | cons o os ih =>
    simp only [Co.freeAll, Prog.bind_assoc]
    refine Runs.freePool (h o (by simp)).1 (h o (by simp)).2 (ih fun o' ho' => h o' (by simp [ho']))

/-- What a block leaves in its part of the memory. -/
structure BlkAt (ref : Bool) (h : Part) (b : Blk) : Prop where
  tailed : Tailed h.cell (fun p => h.pools p = some false) ref b.fp b.out.head b.out.tail b.es none
  nodup : b.fp.Nodup
  mem : ∀ i, i ∈ b.fp ↔ h.cells i ≠ none
  count : b.out.count = b.es.length % 2 ^ 64
  pool : h.pools b.out.pool = some false
  own : ∀ i p c, h.cells i = some (p, c) → p = b.out.pool
  tok : ∀ p, h.pools p ≠ some true

theorem Join.alloc {s s0 : Part} {n : Nat} {hs : Nat → Part} (j : Join s s0 n hs) {r q : Nat} {c : Cell} (hr : s.cells r = none)
    (hq : s0.pools q ≠ none) : Join (s.set r (q, c)) (s0.set r (q, c)) n hs := by
  have h0 : s0.cells r = none := by
    cases e : s0.cells r with
    | none => rfl
    | some x => rw [(j.cells r x).2 (.inl e)] at hr; cases hr
  have hi : ∀ i, i < n → (hs i).cells r = none := fun i hi => by
    cases e : (hs i).cells r with
    | none => rfl
    | some x => rw [(j.cells r x).2 (.inr ⟨i, hi, e⟩)] at hr; cases hr
  refine ⟨fun i x => ?_, j.pools, j.apart0, j.apart, fun i p c' e => ?_, j.closed⟩
  · by_cases h : i = r
    · subst h
      rw [Part.set_cells, Part.set_cells]
      constructor
      · exact .inl
      · rintro (h | ⟨k, hk, h⟩)
        · exact h
        · rw [hi k hk] at h; cases h
    · rw [Part.set_ne _ _ h, Part.set_ne _ _ h]; exact j.cells i x
  · by_cases h : i = r
    · subst h; rw [Part.set_cells] at e; cases e; exact hq
    · rw [Part.set_ne _ _ h] at e; exact j.closed0 i p c' e

theorem finish_runs {β : Type} {ref : Bool} {proj : List (Str × Obj) → β} {s0 s3 : Part} {bp ret n off : Nat} {hs : Nat → Part} {kind : Kind}
    {o : Obj} (l : List (Nat × β × Out)) (hidx : ∀ i, i ∈ l.map (·.1) ↔ i < n) (hnd : (l.map (·.1)).Nodup) (hc : s0.Closed) (hbp : s0.pools bp = none)
    (hret : s0.cells ret = none) (j : Join s3 ((s0.setPool bp true).set ret (bp, .cont kind bp none 0)) n hs)
    (hl : ∀ y ∈ l, ∃ b : Blk, b.out = y.2.2 ∧ proj b.es = y.2.1 ∧ BlkAt ref (hs y.1) b)
    (hobj : ∀ ess : List (List (Str × Obj)), ess.map proj = l.map (·.2.1) → ∀ (cells : Ref → Option Cell) (D : Nat → Prop) (fp : List Nat) (hd : Option Ref),
      cells ret = some (.cont kind bp hd ((ess.foldl (fun a b => b ++ a) []).length % 2 ^ 64)) → D bp →
      GSeg cells D ref fp hd (ess.foldl (fun a b => b ++ a) []) none → GTree cells D ref (ret :: fp) ret o) :
    Runs (Co.mergeAll bp ret (l.map (·.2.2)) >>= fun _ => Co.freeAll (l.map (·.2.2)) >>= fun _ => Co.endPool bp >>= fun _ => pure (off, ret, bp)) s3
      (pure (o, (⟨off, off⟩ : Cur))) (fun a b s' => a.2 = ⟨b.1, b.1⟩ ∧ Grown ref s0 s' b.2.2 b.2.1 a.1) := by
  -- the blocks with their indices
  have hz : ∃ zs : List (Nat × Blk), zs.map (·.1) = l.map (·.1) ∧ zs.map (·.2.out) = l.map (·.2.2) ∧ zs.map (fun z => proj z.2.es) = l.map (·.2.1) ∧
      ∀ z ∈ zs, BlkAt ref (hs z.1) z.2 := by
    clear hidx hnd hobj
    induction l with
    | nil => exact ⟨[], rfl, rfl, rfl, by simp⟩
    | cons y l ih =>
      obtain ⟨zs, z1, z2, z3, z4⟩ := ih fun y hy => hl y (by simp [hy])
      obtain ⟨b, b1, b2, b3⟩ := hl y (by simp)
      refine ⟨(y.1, b) :: zs, by simp [z1], by simp [z2, b1], by simp [z3, b2], fun z hz => ?_⟩
      rcases List.mem_cons.1 hz with rfl | hz
      · exact b3
      · exact z4 z hz
  obtain ⟨zs, z1, z2, z3, z4⟩ := hz
  rw [← z1] at hidx hnd
  have hlt : ∀ z ∈ zs, z.1 < n := fun z hz => (hidx z.1).1 (List.mem_map.2 ⟨z, hz, rfl⟩)
  have hcov : ∀ i, i < n → ∃ z ∈ zs, z.1 = i := fun i hi => List.mem_map.1 ((hidx i).2 hi)
  obtain ⟨bs, hbs⟩ : ∃ bs, bs = zs.map (·.2) := ⟨_, rfl⟩
  have hout : l.map (·.2.2) = bs.map (·.out) := by rw [← z2, hbs, List.map_map]; rfl
  have hmem : ∀ b ∈ bs, ∃ z ∈ zs, z.2 = b := fun b hb => by rw [hbs] at hb; exact List.mem_map.1 hb
  have hbz : ∀ z ∈ zs, z.2 ∈ bs := fun z hz => by rw [hbs]; exact List.mem_map.2 ⟨z, hz, rfl⟩
  rw [hout]
  -- the old part
  have hbp3 : s3.pools bp = some true := (j.pools bp true).2 (.inl (by show upd _ _ _ bp = _; rw [upd_same]))
  have hs0 : ∀ i x, s0.cells i = some x → s3.cells i = some x := fun i x h =>
    (j.cells i x).2 (.inl (by
      rw [Part.set_ne _ _ (fun g => by rw [g, hret] at h; cases h)]; exact h))
  have hret3 : s3.cells ret = some (bp, .cont kind bp none 0) := (j.cells _ _).2 (.inl (Part.set_cells _ _ _))
  have hnotbp : ∀ i c, s0.cells i ≠ some (bp, c) := fun i c h => hc i bp c h hbp
  have hpool : ∀ z ∈ zs, s3.pools z.2.out.pool = some false := fun z hz => (j.pools _ _).2 (.inr ⟨z.1, hlt z hz, (z4 z hz).pool⟩)
  have hneb : ∀ z ∈ zs, z.2.out.pool ≠ bp := fun z hz h => by have := hpool z hz; rw [h, hbp3] at this; cases this
  have hnes : ∀ z ∈ zs, ∀ p, s0.pools p ≠ none → p ≠ z.2.out.pool := fun z hz p hp h => by
    have hpb : p ≠ bp := fun g => hp (g ▸ hbp)
    have := j.apart0 z.1 p (hlt z hz) (by show upd _ _ _ p ≠ _; rw [upd_ne _ _ hpb]; exact hp)
    rw [h, (z4 z hz).pool] at this; cases this
  have hcell : ∀ z ∈ zs, ∀ i ∈ z.2.fp, ∃ c, (hs z.1).cells i = some (z.2.out.pool, c) ∧ s3.cells i = some (z.2.out.pool, c) := fun z hz i hi => by
    cases e : (hs z.1).cells i with
    | none => exact absurd e (((z4 z hz).mem i).1 hi)
    | some x =>
      obtain ⟨p, c⟩ := x
      obtain rfl := (z4 z hz).own i p c e
      exact ⟨c, rfl, (j.cells _ _).2 (.inr ⟨z.1, hlt z hz, e⟩)⟩
  have hfpret : ∀ z ∈ zs, ret ∉ z.2.fp := fun z hz h => by
    obtain ⟨c, _, e⟩ := hcell z hz ret h
    rw [hret3] at e; cases e
    exact hneb z hz rfl
  have hfp0 : ∀ z ∈ zs, ∀ i ∈ z.2.fp, s0.cells i = none := fun z hz i hi => by
    obtain ⟨c, _, e⟩ := hcell z hz i hi
    cases h0 : s0.cells i with
    | none => rfl
    | some x =>
      obtain ⟨p, c'⟩ := x
      rw [hs0 i _ h0] at e; cases e
      exact absurd rfl (hnes z hz _ (hc _ _ _ h0))
  have hflat : ∀ i, i ∈ bs.flatMap (·.fp) ↔ ∃ z ∈ zs, i ∈ z.2.fp := fun i => by
    rw [List.mem_flatMap, hbs]
    constructor
    · rintro ⟨b, hb, h⟩
      obtain ⟨z, hz, rfl⟩ := List.mem_map.1 hb
      exact ⟨z, hz, h⟩
    · rintro ⟨z, hz, h⟩
      exact ⟨z.2, List.mem_map.2 ⟨z, hz, rfl⟩, h⟩
  have hnodup : (ret :: ([] ++ bs.flatMap (·.fp))).Nodup := by
    refine List.nodup_cons.2 ⟨fun h => ?_, ?_⟩
    · rw [List.nil_append, hflat] at h
      obtain ⟨z, hz, h⟩ := h
      exact hfpret z hz h
    · rw [List.nil_append]
      unfold List.Nodup
      rw [List.pairwise_flatMap]
      refine ⟨fun b hb => ?_, ?_⟩
      · obtain ⟨z, hz, rfl⟩ := hmem b hb
        exact (z4 z hz).nodup
      · rw [hbs, List.pairwise_map]
        have : zs.Pairwise (fun a b => a.1 ≠ b.1) := by
          have := hnd
          unfold List.Nodup at this
          rwa [List.pairwise_map] at this
        refine List.Pairwise.imp_of_mem ?_ this
        intro a b ha hb hab x hx y hy hxy
        subst hxy
        exact j.cell_apart (hlt a ha) (hlt b hb) hab (((z4 a ha).mem x).1 hx) (((z4 b hb).mem x).1 hy)
  refine mergeAll_runs (ref := ref) (kind := kind) bs s3 none 0 [] [] hbp3 hret3 rfl .nil hnodup (fun b hb => ?_) ?_
  · obtain ⟨z, hz, rfl⟩ := hmem b hb
    refine ⟨?_, (z4 z hz).count, by rw [hpool z hz]; simp, hneb z hz⟩
    refine (z4 z hz).tailed.congr (fun p hp => .inr ((j.pools _ _).2 (.inr ⟨z.1, hlt z hz, hp⟩))) fun i hi => ?_
    obtain ⟨c, e1, e2⟩ := hcell z hz i hi
    rw [Part.cell_of e1, Part.cell_of e2]
  · intro s' hd' sz' fp g1 g2 g3 g4 g5 g6 g7 g8
    -- nothing is left in the pools of the blocks
    have hfree : ∀ o ∈ bs.map (·.out), s'.pools o.pool ≠ none ∧ ∀ i c, s'.cells i ≠ some (o.pool, c) := by
      intro o ho
      obtain ⟨b, hb, rfl⟩ := List.mem_map.1 ho
      obtain ⟨z, hz, rfl⟩ := hmem b hb
      refine ⟨by rw [g1, hpool z hz]; simp, fun i c h => ?_⟩
      cases e : s3.cells i with
      | none => rw [g7 i e] at h; cases h
      | some x =>
        obtain ⟨p, c1⟩ := x
        obtain ⟨c2, h2, _⟩ := g8 i p c1 e
        rw [h2] at h
        split at h
        · cases h; exact hneb z hz rfl
        · rename_i hx; cases h; exact hx ⟨z.2, hb, rfl⟩
    refine freeAll_runs _ hfree ?_
    have hb' : s'.pools bp = some true := by rw [g1]; exact hbp3
    refine Runs.endPool hb' ?_
    -- the cells at the end
    have hold : ∀ i p c, s0.cells i = some (p, c) → s'.cells i = some (p, c) := by
      intro i p c h
      obtain ⟨c', e1, e2⟩ := g8 i p c (hs0 i _ h)
      rw [if_neg] at e1
      · rw [e1, e2 (fun g => by rw [g, hret] at h; cases h)]
        intro hi
        obtain ⟨z, hz, hi⟩ := (hflat i).1 hi
        rw [hfp0 z hz i hi] at h; cases h
      · rintro ⟨b, hb, rfl⟩
        obtain ⟨z, hz, rfl⟩ := hmem b hb
        exact hnes z hz _ (hc _ _ _ h) rfl
    have hnew : ∀ i p c, s0.cells i = none → s'.cells i = some (p, c) → p = bp ∧ (i = ret ∨ i ∈ bs.flatMap (·.fp)) := by
      intro i p c h0 h
      cases e : s3.cells i with
      | none => rw [g7 i e] at h; cases h
      | some x =>
        obtain ⟨p1, c1⟩ := x
        obtain ⟨c2, h2, _⟩ := g8 i p1 c1 e
        rw [h2] at h
        rcases (j.cells i _).1 e with g | ⟨k, hk, g⟩
        · by_cases hi : i = ret
          · subst hi; rw [Part.set_cells] at g; cases g
            refine ⟨?_, .inl rfl⟩
            split at h <;> (cases h; rfl)
          · rw [Part.set_ne _ _ hi, show (s0.setPool bp true).cells i = s0.cells i from rfl, h0] at g; cases g
        · obtain ⟨z, hz, rfl⟩ := hcov k hk
          obtain rfl := (z4 z hz).own i p1 c1 g
          rw [if_pos ⟨z.2, hbz z hz, rfl⟩] at h; cases h
          exact ⟨rfl, .inr ((hflat i).2 ⟨z, hz, ((z4 z hz).mem i).2 (by rw [g]; simp)⟩)⟩
    have hlive : ∀ i, i = ret ∨ i ∈ bs.flatMap (·.fp) → s'.cells i ≠ none ∧ s0.cells i = none := by
      rintro i (rfl | hi)
      · exact ⟨by rw [g2]; simp, hret⟩
      · obtain ⟨z, hz, hi⟩ := (hflat i).1 hi
        obtain ⟨c, _, e⟩ := hcell z hz i hi
        obtain ⟨c', e', _⟩ := g8 i _ c e
        exact ⟨by rw [e']; simp, hfp0 z hz i hi⟩
    have hended : (s'.setPool bp false).pools bp = some false := by show upd _ _ _ bp = _; rw [upd_same]
    have hpools : ∀ p, p ≠ bp → (s'.setPool bp false).pools p = s3.pools p := fun p hp => by
      show upd _ _ _ p = _; rw [upd_ne _ _ hp, g1]
    refine Runs.ok ⟨rfl, hbp, hnotbp, hended, ⟨?_, ?_, ?_, ?_, ?_⟩, ret :: fp, ?_, g5, ?_⟩
    · intro i x h _; obtain ⟨p, c⟩ := x; exact hold i p c h
    · intro i p c h; exact ⟨c, hold i p c h⟩
    · intro i p c h h'; exact (hnew i p c h h').1
    · intro p b h
      have hp : p ≠ bp := fun g => by rw [g, hbp] at h; cases h
      rw [hpools p hp]
      exact (j.pools p b).2 (.inl (by show upd _ _ _ p = _; rw [upd_ne _ _ hp]; exact h))
    · intro p h
      by_cases hp : p = bp
      · subst hp; exact .inr hended
      · rw [hpools p hp]
        cases e : s3.pools p with
        | none => exact .inl rfl
        | some b =>
          rcases (j.pools p b).1 e with g | ⟨k, hk, g⟩
          · have : s0.pools p = some b := by
              have g : upd s0.pools bp (some true) p = some b := g
              rwa [upd_ne _ _ hp] at g
            rw [h] at this; cases this
          · obtain ⟨z, hz, rfl⟩ := hcov k hk
            cases b with
            | true => exact absurd g ((z4 z hz).tok p)
            | false => exact .inr rfl
    · have hes : bs.foldl (fun a b => b.es ++ a) [] = (bs.map (·.es)).foldl (fun a b => b ++ a) [] := by rw [List.foldl_map]
      rw [hes] at g3 g4
      have hcl : (s'.setPool bp false).cell = s'.cell := rfl
      rw [hcl]
      refine hobj (bs.map (·.es)) (by rw [hbs, List.map_map, List.map_map, ← z3]; rfl) s'.cell _ fp hd' ?_ (.inl rfl) (g4.congr ?_ fun _ _ => rfl)
      · rw [Part.cell_of g2, g3]
      · rintro p (h | h)
        · exact .inl h
        · have hp : p ≠ bp := fun g => by rw [g, hb'] at h; cases h
          exact .inr (by rw [hpools p hp, ← g1]; exact h)
    · intro i
      have hcl : New s0 (s'.setPool bp false) i ↔ New s0 s' i := Iff.rfl
      rw [hcl]
      constructor
      · intro h
        refine .inr ?_
        have : i = ret ∨ i ∈ bs.flatMap (·.fp) := by
          rcases List.mem_cons.1 h with h | h
          · exact .inl h
          · exact .inr (((g6 i).1 h).resolve_left (by simp))
        exact ⟨(hlive i this).2, (hlive i this).1⟩
      · rintro (h | ⟨h0, h1⟩)
        · cases h
        · cases e : s'.cells i with
          | none => exact absurd e h1
          | some x =>
            obtain ⟨p, c⟩ := x
            rcases (hnew i p c h0 e).2 with h | h
            · exact List.mem_cons.2 (.inl h)
            · exact List.mem_cons.2 (.inr ((g6 i).2 (.inr h)))

end Bridge.Heap
