import Verif.Proof.CoTree
/-
`valueParse` as a program of single accesses (Model/CoHeap.lean) builds what Model/Parse.lean computes.
-/
set_option autoImplicit false
namespace Bridge.Heap
open Spec

/-- What a coroutine has made: the tree `o` at `r`, from the new cells and those of `old`. -/
def Made (q : Nat) (ref : Bool) (s s' : Part) (old : List Nat) (r : Nat) (o : Obj) : Prop :=
  ∃ fp, GTree s'.cell (Dead q s') ref fp r o ∧ fp.Nodup ∧ ∀ i, i ∈ fp ↔ i ∈ old ∨ New s s' i

theorem factory_runs {α β : Type} {s : Part} {x : Res β} {P : β → α → Part → Prop} {f : Option Ref → Prog α} {q : Nat} {ref : Bool} {t : ObjectType}
    {cell : Cell} (hb : blank q ref t = some cell) (hp : s.pools q = some true)
    (h : ∀ r, s.cells r = none → Runs (f (some r)) (s.set r (q, cell)) x P) : Runs (Co.factory q t ref >>= f) s x P := by
  cases t <;> simp only [blank, Option.some.injEq, reduceCtorEq] at hb <;> subst hb <;> simp only [Co.factory, Prog.bind_assoc, Prog.pure_bind] <;>
    exact Runs.alloc hp h

theorem mapPut_runs {α β : Type} {s : Part} {x : Res β} {P : β → α → Part → Prop} {f : Unit → Prog α} {q r : Nat} {ref : Bool} {h : Option Ref} {sz : Nat}
    {k : Str} {v : Option Ref} (hc : s.cells r = some (q, .cont (.map ref) q h sz)) (hp : s.pools q = some true)
    (hk : ∀ i, s.cells i = none →
      Runs (f ()) ((s.set i (q, .item (storeKey ref k) v h)).set r (q, .cont (.map ref) q (some i) (addW sz 1))) x P) :
    Runs (Co.mapPut (some r) k v >>= f) s x P := by
  unfold Co.mapPut
  simp only [Prog.bind_assoc]
  refine Runs.load hc ?_
  simp only [Prog.bind_assoc]
  refine Runs.alloc hp fun i hi => ?_
  have hne : r ≠ i := by rintro rfl; rw [hc] at hi; cases hi
  refine Runs.modify (Part.set_cells _ _ _) ?_
  refine Runs.modify (by rw [Part.set_cells]) ?_
  rw [Part.set_set, Part.set_set]
  simp only [Cell.setKey, Cell.setNode]
  have hc' : ∀ c, (s.set i (q, c)).cells r = some (q, .cont (.map ref) q h sz) := fun c => by rw [Part.set_ne _ _ hne]; exact hc
  cases h with
  | none =>
    simp only [Option.isNone_none, if_true, Prog.bind_assoc]
    refine Runs.modify (hc' _) ?_
    refine Runs.modify (Part.set_cells _ _ _) ?_
    rw [Part.set_set]
    exact hk i hi
  | some h =>
    simp only [Option.isNone_some, Bool.false_eq_true, if_false, Prog.bind_assoc]
    refine Runs.modify (Part.set_cells _ _ _) ?_
    rw [Part.set_set]
    refine Runs.modify (hc' _) ?_
    refine Runs.modify (Part.set_cells _ _ _) ?_
    rw [Part.set_set]
    exact hk i hi

theorem value_runs {cfg : Cfg} {v : View} {sm : Option StringMap} {ref : Bool} {q : Nat} (f : Nat) :
    (∀ (s : Part) (r : Nat) (t : ObjectType) (c : Cur) (cell : Cell), s.pools q = some true → blank q ref t = some cell → s.cells r = some (q, cell) →
      Runs (Co.valueParse cfg v sm ref f (some r) c) s (parseVal cfg v sm ref .frame f t c)
        (fun a b s' => a.2 = b ∧ Ext q s s' (· = r) ∧ Made q ref s s' [r] r a.1)) ∧
    (∀ (s : Part) (head tail : Option Ref) (n : Nat) (c : Cur) (old : List Nat) (acc : List (Str × Obj)), s.pools q = some true →
      Tailed s.cell (Dead q s) ref old head tail acc none → old.Nodup →
      Runs (Co.arrayLoop cfg v sm ref q f head tail n c) s (parseItems cfg v sm ref .frame f n c)
        (fun a b s' => a.2 = b.2 ∧ Ext q s s' (· ∈ old) ∧ ∃ fp rest, rest.map Prod.snd = a.1 ∧ GSeg s'.cell (Dead q s') ref fp b.1 (acc ++ rest) none ∧
          fp.Nodup ∧ ∀ i, i ∈ fp ↔ i ∈ old ∨ New s s' i)) ∧
    (∀ (s : Part) (r : Nat) (h : Option Ref) (sz n : Nat) (c : Cur) (old : List Nat) (acc : List (Str × Obj)), s.pools q = some true →
      s.cells r = some (q, .cont (.map ref) q h sz) → GSeg s.cell (Dead q s) ref old h acc none → old.Nodup → r ∉ old →
      Runs (Co.mapLoop cfg v sm ref q f (some r) n c) s (parseKVs cfg v sm ref .frame f n c acc)
        (fun a b s' => a.2 = b ∧ Ext q s s' (· = r) ∧ ∃ fp hd sz', s'.cells r = some (q, .cont (.map ref) q hd sz') ∧
          GSeg s'.cell (Dead q s') ref fp hd a.1 none ∧ fp.Nodup ∧ ∀ i, i ∈ fp ↔ i ∈ old ∨ New s s' i)) := by
  induction f with
  | zero =>
    refine ⟨fun s r t c cell _ _ _ => ?_, fun s head tail n c old acc _ _ _ => ?_, fun s r h sz n c old acc _ _ _ _ _ => ?_⟩
    · simp only [parseVal, Co.valueParse]; exact Runs.fail _
    · simp only [parseItems, Co.arrayLoop]; exact Runs.fail _
    · simp only [parseKVs, Co.mapLoop]; exact Runs.fail _
  | succ f ih =>
    obtain ⟨ihA, ihB, ihC⟩ := ih
    -- a child: the factory and `valueParse`
    have child : ∀ {α β : Type} (s : Part) (t : ObjectType) (c : Cur) (cell : Cell) (k : Obj × Cur → Res β) (g : Option Ref → Cur → Prog α)
        (P : β → α → Part → Prop), s.pools q = some true → blank q ref t = some cell →
        (∀ (o : Obj) (c' : Cur) (x : Nat) (s' : Part), Ext q s s' (fun _ => False) → Made q ref s s' [] x o → Runs (g (some x) c') s' (k (o, c')) P) →
        Runs (Co.factory q t ref >>= fun ch => Co.valueParse cfg v sm ref f ch c >>= g ch) s (parseVal cfg v sm ref .frame f t c >>= k) P := by
      intro α β s t c cell k g P hp hb hk
      refine factory_runs hb hp fun x hx => ?_
      refine (ihA (s.set x (q, cell)) x t c cell hp hb (Part.set_cells _ _ _)).bind ?_
      rintro ⟨o, c1⟩ c2 s' ⟨h1, h2, fp, h3, h4, h5⟩
      dsimp only at h1
      subst h1
      have e1 := ext_alloc (q := q) (c := cell) hx (fun _ => False)
      refine hk o c1 x s' (e1.trans h2 (fun i e hi => by subst e; exact absurd hx hi)) ⟨fp, h3, h4, fun i => ?_⟩
      rw [h5, New.trans h2 e1, new_alloc hx]; simp
    refine ⟨?_, ?_, ?_⟩
    · intro s r t c cell hp hb hc
      cases t with
      | invalid => cases hb
      | data =>
        simp only [blank, Option.some.injEq] at hb
        subst hb
        simp only [parseVal, Co.valueParse]
        refine Runs.load hc ?_
        dsimp only
        refine Runs.useDict _ ?_
        have key : ∀ y : Res (Obj × Cur), (∀ a, y = .ok a → ∃ dt pl, a.1 = .data ref dt pl ∧ scalarOf ref dt pl ≠ none) →
            Runs (Co.lift y >>= fun a => match a.1 with
              | .data _ dt p => Co.modify r (fun _ => .data ref dt p) >>= fun _ => pure a.2
              | _ => Co.lift (.error (.ub .badCast))) s y (fun a b s' => a.2 = b ∧ Ext q s s' (· = r) ∧ Made q ref s s' [r] r a.1) := by
          intro y hy
          cases y with
          | error e => exact Runs.fail e
          | ok a =>
            obtain ⟨dt, pl, e, hsc⟩ := hy a rfl
            obtain ⟨o, c⟩ := a
            dsimp only at e
            subst e
            refine Runs.modify hc ?_
            refine Runs.ok ⟨rfl, ext_set hc, [r], .data (Part.cell_of (Part.set_cells _ _ _)) hsc, by simp, fun i => ?_⟩
            have := new_set (c' := .data ref dt pl) hc i
            simp [this]
        split
        · rename_i hr
          refine key _ fun a ha => ?_
          obtain ⟨dt, pl, s, e, hs⟩ := parseViewObj_ok ha
          exact ⟨dt, pl, by rw [e, hr], by rw [hr, hs]; simp⟩
        · rename_i hr
          refine key _ fun a ha => ?_
          obtain ⟨dt, pl, s, e, hs⟩ := parseDataObj_ok ha
          simp at hr
          exact ⟨dt, pl, by rw [e, hr], by rw [hr, hs]; simp⟩
      | array =>
        simp only [blank, Option.some.injEq] at hb
        subst hb
        simp only [parseVal, Co.valueParse]
        refine Runs.load hc ?_
        dsimp only
        refine Runs.modify hc ?_
        refine Runs.modify (Part.set_cells _ _ _) ?_
        rw [Part.set_set]
        simp only [Cell.setHead, Cell.setSize]
        refine Runs.lift _ fun q1 h1 => Runs.lift _ fun q2 h2 => ?_
        have hlt := parseLength_lt h1
        have e0 := ext_set (q := q) (c' := .cont .array q none 0) hc
        have n0 := new_set (c' := .cont .array q none 0) hc
        have c0 := Part.set_cells s r (q, .cont .array q none 0)
        have p0 : (s.set r (q, .cont .array q none 0)).pools q = some true := hp
        generalize s.set r (q, .cont .array q none 0) = s0 at e0 n0 c0 p0
        refine (ihB s0 none none q1.1 q2.2 [] [] p0 .nil (by simp)).bindE ?_
        rintro ⟨os, c3⟩ ⟨hd, c4⟩ s1 hx ⟨g1, g2, fp, rest, g3, g4, g5, g6⟩
        have hlen := parseItems_len f _ _ _ hx
        dsimp only at g1 g3 g4 hlen ⊢
        subst g1; subst g3
        rw [List.nil_append] at g4
        rw [List.length_map] at hlen
        have c1 : s1.cells r = some (q, .cont .array q none 0) := g2.keep _ _ c0 (by simp)
        refine Runs.modify c1 ?_
        refine Runs.modify (Part.set_cells _ _ _) ?_
        rw [Part.set_set]
        simp only [Cell.setHead, Cell.setSize]
        have hr : ∀ i, New s0 s1 i → i ≠ r := by rintro i ⟨a, _⟩ rfl; rw [c0] at a; cases a
        refine Runs.ok ⟨rfl, ?_, r :: fp, .array (Part.cell_of (Part.set_cells _ _ _)) (.inl rfl) (by omega) ?_, ?_, fun i => ?_⟩
        · exact (e0.trans g2 (fun i hi => by cases hi)).trans (ext_set c1) (fun i hi _ => hi)
        · refine g4.congr (fun p hp => hp) fun i hi => Part.cell_congr (Part.set_ne _ _ (hr i ?_))
          simpa using (g6 i).1 hi
        · refine List.nodup_cons.2 ⟨fun hm => ?_, g5⟩
          exact hr r (by simpa using (g6 r).1 hm) rfl
        · rw [New.trans (ext_set (q := q) c1) (e0.trans g2 (fun i hi => by cases hi)), New.trans g2 e0, List.mem_cons, g6]
          have := n0 i
          have := new_set (c' := .cont .array q hd q1.1) c1 i
          simp_all
      | map =>
        simp only [blank, Option.some.injEq] at hb
        subst hb
        simp only [parseVal, Co.valueParse]
        refine Runs.load hc ?_
        dsimp only
        refine Runs.modify hc ?_
        refine Runs.modify (Part.set_cells _ _ _) ?_
        rw [Part.set_set]
        simp only [Cell.setHead, Cell.setSize]
        refine Runs.lift _ fun q1 h1 => Runs.lift _ fun q2 h2 => ?_
        have hlt := parseLength_lt h1
        have e0 := ext_set (q := q) (c' := .cont (.map ref) q none 0) hc
        have n0 := new_set (c' := .cont (.map ref) q none 0) hc
        have c0 := Part.set_cells s r (q, .cont (.map ref) q none 0)
        have p0 : (s.set r (q, .cont (.map ref) q none 0)).pools q = some true := hp
        generalize s.set r (q, .cont (.map ref) q none 0) = s0 at e0 n0 c0 p0
        refine (ihC s0 r none 0 q1.1 q2.2 [] [] p0 c0 .nil (by simp) (by simp)).bindE ?_
        rintro ⟨es, c3⟩ c4 s1 hx ⟨g1, g2, fp, hd, sz', c1, g4, g5, g6⟩
        have hlen := (parseKVs_len f _ _ _ _ hx).1
        dsimp only at g1 g4 hlen ⊢
        subst g1
        simp only [List.length_nil, Nat.add_zero] at hlen
        refine Runs.modify c1 ?_
        simp only [Cell.setSize]
        have hr : ∀ i, New s0 s1 i → i ≠ r := by rintro i ⟨a, _⟩ rfl; rw [c0] at a; cases a
        refine Runs.ok ⟨rfl, ?_, r :: fp, .map (Part.cell_of (Part.set_cells _ _ _)) (.inl rfl) (by omega) ?_, ?_, fun i => ?_⟩
        · exact (e0.trans g2 (fun i hi _ => hi)).trans (ext_set c1) (fun i hi _ => hi)
        · refine g4.congr (fun p hp => hp) fun i hi => Part.cell_congr (Part.set_ne _ _ (hr i ?_))
          simpa using (g6 i).1 hi
        · refine List.nodup_cons.2 ⟨fun hm => ?_, g5⟩
          exact hr r (by simpa using (g6 r).1 hm) rfl
        · rw [New.trans (ext_set (q := q) c1) (e0.trans g2 (fun i hi _ => hi)), New.trans g2 e0, List.mem_cons, g6]
          have := n0 i
          have := new_set (c' := .cont (.map ref) q hd q1.1) c1 i
          simp_all
    · intro s head tail n c old acc hp ht hn
      cases n with
      | zero =>
        simp only [parseItems, Co.arrayLoop]
        refine Runs.ok ⟨rfl, Ext.refl _ _ _, old, [], rfl, by rw [List.append_nil]; exact ht.seg, hn, fun i => ?_⟩
        have : ¬ New s s i := fun h => h.2 h.1
        simp [this]
      | succ n =>
        simp only [parseItems, Co.arrayLoop]
        refine Runs.lift _ fun q1 h1 => ?_
        obtain ⟨cell, hb⟩ := objectType_valid h1 q ref
        refine child s q1.1 q1.2 cell _ _ _ hp hb ?_
        rintro o c' x s1 e1 ⟨fpx, t1, n1, m1⟩
        dsimp only
        have hp1 := e1.pool _ _ hp
        have hlive := ht.live
        have live1 : ∀ i, i ∈ old → s1.cells i ≠ none := fun i hi => e1.live (fun h => hlive i hi (by unfold Part.cell; rw [h]; rfl))
        have ht1 : Tailed s1.cell (Dead q s1) ref old head tail acc none :=
          ht.congr (fun p hp => e1.dead p hp) fun i hi => by
            cases hx : s.cells i with
            | none => exact absurd (by unfold Part.cell; rw [hx]; rfl) (hlive i hi)
            | some y => exact Part.cell_congr (by rw [e1.keep i y hx (by simp), hx])
        refine Runs.alloc hp1 fun tmp htmp => ?_
        refine Runs.modify (Part.set_cells _ _ _) ?_
        rw [Part.set_set]
        simp only [Cell.setNode]
        have e2 := ext_alloc (q := q) (c := .item noKey (some x) none) htmp (fun _ => False)
        have nw2 := new_alloc (q := q) (c := .item noKey (some x) none) htmp
        have c2 := Part.set_cells s1 tmp (q, .item noKey (some x) none)
        have k2 : ∀ i, i ≠ tmp → (s1.set tmp (q, .item noKey (some x) none)).cells i = s1.cells i := fun i hi => Part.set_ne _ _ hi
        generalize s1.set tmp (q, .item noKey (some x) none) = s2 at e2 nw2 c2 k2
        have tmpOld : tmp ∉ old := fun hm => live1 tmp hm htmp
        have tmpX : tmp ∉ fpx := fun hm => t1.live tmp hm (by unfold Part.cell; rw [htmp]; rfl)
        have dX : ∀ i ∈ fpx, i ∉ old := by
          intro i hi hm
          have := (m1 i).1 hi
          simp only [List.not_mem_nil, false_or] at this
          exact hlive i hm (by unfold Part.cell; rw [this.1]; rfl)
        have tX : GTree s2.cell (Dead q s2) ref fpx x o :=
          t1.congr (fun p hp => e2.dead p hp) fun i hi => Part.cell_congr (k2 i (fun e => tmpX (e ▸ hi)))
        have newAll : ∀ i, New s s2 i ↔ i ∈ fpx ∨ i = tmp := by
          intro i
          rw [New.trans e2 e1, nw2, m1]; simp
        -- the rest of the loop, from a part `s3` that differs from `s2` only in the old tail
        have rest : ∀ (s3 : Part) (hd0 : Option Ref), Ext q s2 s3 (· ∈ old) → (∀ i, ¬ New s2 s3 i) →
            Tailed s3.cell (Dead q s3) ref (old ++ tmp :: fpx) hd0 (some tmp) (acc ++ [(noKey, o)]) none →
            Runs (Co.arrayLoop cfg v sm ref q f hd0 (some tmp) n c') s3
              (parseItems cfg v sm ref .frame f n c' >>= fun x => pure (o :: x.1, x.2))
              (fun a b s' => a.2 = b.2 ∧ Ext q s s' (· ∈ old) ∧ ∃ fp rest, rest.map Prod.snd = a.1 ∧ GSeg s'.cell (Dead q s') ref fp b.1 (acc ++ rest) none ∧
                fp.Nodup ∧ ∀ i, i ∈ fp ↔ i ∈ old ∨ New s s' i) := by
          intro s3 hd0 e3 n3 t3
          have hnod : (old ++ tmp :: fpx).Nodup := by
            rw [List.nodup_append]
            refine ⟨hn, List.nodup_cons.2 ⟨tmpX, n1⟩, ?_⟩
            intro a ha b hb e
            subst e
            rcases List.mem_cons.1 hb with rfl | hb
            · exact tmpOld ha
            · exact dX a hb ha
          have e03 : Ext q s s3 (· ∈ old) :=
            ((e1.weaken (W' := (· ∈ old)) (fun i h => h.elim)).trans e2 (fun i h => h.elim)).trans e3 (fun i h _ => h)
          have n03 : ∀ i, New s s3 i ↔ i ∈ fpx ∨ i = tmp := by
            intro i
            rw [New.trans e3 ((e1.trans e2 (fun i h => h.elim))), newAll]
            have := n3 i
            simp [this]
          have hB := ihB s3 hd0 (some tmp) n c' (old ++ tmp :: fpx) (acc ++ [(noKey, o)]) (e03.pool _ _ hp) t3 hnod
          have := hB.bind (f := fun z => pure z) (g := fun x : List Obj × Cur => (pure (o :: x.1, x.2) : Res (List Obj × Cur)))
            (Q := fun a b s' => a.2 = b.2 ∧ Ext q s s' (· ∈ old) ∧ ∃ fp rest, rest.map Prod.snd = a.1 ∧ GSeg s'.cell (Dead q s') ref fp b.1 (acc ++ rest) none ∧
                fp.Nodup ∧ ∀ i, i ∈ fp ↔ i ∈ old ∨ New s s' i) ?_
          · rw [Prog.bind_pure] at this
            exact this
          · rintro a b s' ⟨g1, g2, fp, rs, g3, g4, g5, g6⟩
            refine Runs.ok ⟨g1, e03.trans g2 (fun i hi hl => ?_), fp, (noKey, o) :: rs, by simp [g3], by simpa using g4, g5, fun i => ?_⟩
            · rcases List.mem_append.1 hi with h | h
              · exact h
              · exfalso
                have : New s s3 i := (n03 i).2 (by rcases List.mem_cons.1 h with h | h <;> simp [h])
                exact hl this.1
            · rw [g6, New.trans g2 e03, n03]
              simp only [List.mem_append, List.mem_cons]
              constructor
              · rintro ((h | h | h) | h) <;> simp [h]
              · rintro (h | (h | h) | h) <;> simp [h]
        rcases ht1.tail with ⟨h1, h2, h3, h4⟩ | ⟨h1, h2, t, k, y, h3, h4, h5⟩
        · subst h1; subst h2; subst h3; subst h4
          simp only [Option.isNone_none, if_true]
          exact rest s2 (some tmp) (Ext.refl _ _ _) (fun i h => h.2 h.1) (.cons (fp0 := []) .nil (Part.cell_of c2) tX)
        · have hisn : head.isNone = false := by cases head <;> simp_all
          subst h3
          simp only [hisn, Bool.false_eq_true, if_false]
          have htne : t ≠ tmp := fun e => tmpOld (e ▸ h4)
          obtain ⟨pt, ht2⟩ : ∃ p, s2.cells t = some (p, .item k y none) := by
            rw [k2 t htne]
            unfold Part.cell at h5
            cases hz : s1.cells t with
            | none => rw [hz] at h5; cases h5
            | some z => obtain ⟨p, cc⟩ := z; rw [hz] at h5; cases h5; exact ⟨p, rfl⟩
          refine Runs.load ht2 ?_
          dsimp only
          refine Runs.modify ht2 ?_
          simp only [Cell.setNext]
          have e3 := (ext_set (q := q) (c' := .item k y (some tmp)) ht2).weaken (W' := (· ∈ old)) (fun i hi _ => by rw [hi]; exact h4)
          refine rest _ head e3 (new_set ht2) (.cons ?_ (Part.cell_of (by rw [Part.set_ne _ _ (Ne.symm htne)]; exact c2)) (tX.congr (fun p hp => hp) ?_))
          · refine (ht1.congr (D' := Dead q s2) (fun p hp => e2.dead p hp) (fun i hi => Part.cell_congr (k2 i (fun e => tmpOld (e ▸ hi))))).link hn
              (fun i hi hne => Part.cell_congr (Part.set_ne _ _ hne)) (fun k' x' h => ?_)
            rw [Part.cell_of ht2] at h
            cases h
            exact Part.cell_of (Part.set_cells _ _ _)
          · exact fun i hi => Part.cell_congr (Part.set_ne _ _ (fun e => dX i hi (e ▸ h4)))
    · intro s r h sz n c old acc hp hc hg hn hr
      cases n with
      | zero =>
        simp only [parseKVs, Co.mapLoop]
        refine Runs.ok ⟨rfl, Ext.refl _ _ _, old, h, sz, hc, hg, hn, fun i => ?_⟩
        have : ¬ New s s i := fun h => h.2 h.1
        simp [this]
      | succ n =>
        simp only [parseKVs, Co.mapLoop]
        refine Runs.useDict _ ?_
        refine Runs.lift _ fun q0 h0 => Runs.lift _ fun q1 h1 => ?_
        obtain ⟨cell, hb⟩ := objectType_valid h1 q ref
        refine child s q1.1 q1.2 cell _ _ _ hp hb ?_
        rintro o c' x s1 e1 ⟨fpx, t1, n1, m1⟩
        dsimp only
        refine Runs.lift _ fun k hk => ?_
        have hp1 := e1.pool _ _ hp
        have hc1 := e1.keep _ _ hc (by simp)
        have hlive := hg.live
        have g1 : GSeg s1.cell (Dead q s1) ref old h acc none :=
          hg.congr (fun p hp => e1.dead p hp) fun i hi => by
            cases hx : s.cells i with
            | none => exact absurd (by unfold Part.cell; rw [hx]; rfl) (hlive i hi)
            | some y => exact Part.cell_congr (by rw [e1.keep i y hx (by simp), hx])
        refine mapPut_runs hc1 hp1 fun j hj => ?_
        rw [ownKey_store hk]
        have hrj : r ≠ j := by rintro rfl; rw [hc1] at hj; cases hj
        have e2 := ext_alloc (q := q) (c := .item k (some x) h) hj (fun i => i = r)
        have nw2 := new_alloc (q := q) (c := .item k (some x) h) hj
        have hc2 : (s1.set j (q, .item k (some x) h)).cells r = some (q, .cont (.map ref) q h sz) := by rw [Part.set_ne _ _ hrj]; exact hc1
        have e3 := ext_set (q := q) (c' := .cont (.map ref) q (some j) (addW sz 1)) hc2
        have nw3 := new_set (c' := .cont (.map ref) q (some j) (addW sz 1)) hc2
        have cr := Part.set_cells (s1.set j (q, .item k (some x) h)) r (q, .cont (.map ref) q (some j) (addW sz 1))
        have cj : ((s1.set j (q, .item k (some x) h)).set r (q, .cont (.map ref) q (some j) (addW sz 1))).cells j = some (q, .item k (some x) h) := by
          rw [Part.set_ne _ _ (Ne.symm hrj)]; exact Part.set_cells _ _ _
        have ck : ∀ i, i ≠ r → i ≠ j → ((s1.set j (q, .item k (some x) h)).set r (q, .cont (.map ref) q (some j) (addW sz 1))).cells i = s1.cells i :=
          fun i h1 h2 => by rw [Part.set_ne _ _ h1, Part.set_ne _ _ h2]
        have e23 := e2.trans e3 (fun i hi _ => hi)
        have nw23 : ∀ i, New s1 ((s1.set j (q, .item k (some x) h)).set r (q, .cont (.map ref) q (some j) (addW sz 1))) i ↔ i = j := by
          intro i; rw [New.trans e3 e2, nw2]; have := nw3 i; simp [this]
        generalize (s1.set j (q, .item k (some x) h)).set r (q, .cont (.map ref) q (some j) (addW sz 1)) = s3 at cr cj ck e23 nw23
        have jOld : j ∉ old := fun hm => g1.live j hm (by unfold Part.cell; rw [hj]; rfl)
        have jX : j ∉ fpx := fun hm => t1.live j hm (by unfold Part.cell; rw [hj]; rfl)
        have dX : ∀ i ∈ fpx, i ∉ old := by
          intro i hi hm
          have := (m1 i).1 hi
          simp only [List.not_mem_nil, false_or] at this
          exact hlive i hm (by unfold Part.cell; rw [this.1]; rfl)
        have rX : r ∉ fpx := by
          intro hm
          have := (m1 r).1 hm
          simp only [List.not_mem_nil, false_or] at this
          rw [this.1] at hc; cases hc
        have g3 : GSeg s3.cell (Dead q s3) ref (j :: (fpx ++ old)) (some j) ((k, o) :: acc) none :=
          .cons (Part.cell_of cj)
            (t1.congr (fun p hp => e23.dead p hp) fun i hi => Part.cell_congr (ck i (fun e => rX (e ▸ hi)) (fun e => jX (e ▸ hi))))
            (g1.congr (fun p hp => e23.dead p hp) fun i hi => Part.cell_congr (ck i (fun e => hr (e ▸ hi)) (fun e => jOld (e ▸ hi))))
        have hnod : (j :: (fpx ++ old)).Nodup := by
          refine List.nodup_cons.2 ⟨by simp [jX, jOld], List.nodup_append.2 ⟨n1, hn, ?_⟩⟩
          intro a ha b hb e
          subst e; exact dX a ha hb
        have e03 := (e1.weaken (W' := (· = r)) (fun i h => h.elim)).trans e23 (fun i hi _ => hi)
        have n03 : ∀ i, New s s3 i ↔ i ∈ fpx ∨ i = j := by
          intro i; rw [New.trans e23 e1, nw23, m1]; simp
        refine (ihC s3 r (some j) (addW sz 1) n c' (j :: (fpx ++ old)) ((k, o) :: acc) (e03.pool _ _ hp) cr g3 hnod
          (by simp only [List.mem_cons, List.mem_append, not_or]; exact ⟨hrj, rX, hr⟩)).imp ?_
        rintro a b s' ⟨k1, k2, fp, hd, sz', k3, k4, k5, k6⟩
        refine ⟨k1, e03.trans k2 (fun i hi _ => hi), fp, hd, sz', k3, k4, k5, fun i => ?_⟩
        rw [k6, New.trans k2 e03, n03]
        simp only [List.mem_append, List.mem_cons]
        constructor
        · rintro ((h | h | h) | h) <;> simp [h]
        · rintro (h | (h | h) | h) <;> simp [h]

end Bridge.Heap
