import Verif.Proof.CoExec
import Verif.Proof.CoRun
/-
Without a dictionary in the content no coroutine uses one; runs of a part of a program are runs of the program.
-/
set_option autoImplicit false
namespace Bridge.Heap
open Spec

/-! ### the dictionary -/

/-- No access to the dictionary, now or later. -/
def NoDict : {α : Type} → Prog α → Prop
  | _, .ret _ => True
  | _, .newPool k => ∀ q, NoDict (k q)
  | _, .endPool _ k => NoDict k
  | _, .mergePool _ _ k => NoDict k
  | _, .freePool _ k => NoDict k
  | _, .alloc _ _ k => ∀ r, NoDict (k r)
  | _, .load _ k => ∀ x, NoDict (k x)
  | _, .modify _ _ k => NoDict k
  | _, .dict _ => False
  | _, .par _ ts k => (∀ i, NoDict (ts i)) ∧ ∀ rs, NoDict (k rs)

theorem noDict_bind {α β : Type} (f : α → Prog β) (hf : ∀ a, NoDict (f a)) (t : Prog α) : NoDict t → NoDict (t.bind f) := by
  induction t with
  | ret r =>
    intro _
    cases r with
    | ok a => exact hf a
    | error e => trivial
  | newPool k ih => exact fun h q => ih q f hf (h q)
  | endPool q k ih => exact fun h => ih f hf h
  | mergePool q q' k ih => exact fun h => ih f hf h
  | freePool q k ih => exact fun h => ih f hf h
  | alloc q c k ih => exact fun h r => ih r f hf (h r)
  | load r k ih => exact fun h x => ih x f hf (h x)
  | modify r g k ih => exact fun h => ih f hf h
  | dict k ih => exact fun h => h.elim
  | par n ts k ihs ih => exact fun h => ⟨h.1, fun rs => ih rs f hf (h.2 rs)⟩

theorem noDict_step {α : Type} {u : Bool} {m m' : Mem} {t t' : Prog α} (h : Step u m t m' t') : NoDict t → NoDict t' := by
  induction h with
  | newPool m k => exact fun h => h _
  | endPool m q k _ => exact id
  | mergePool m q q' k _ _ => exact id
  | freePool m q k => exact id
  | alloc m m' q c k r _ => exact fun h => h r
  | load m r k x _ => exact fun h => h x
  | modify m r f k x _ => exact id
  | dict m k => exact fun h => h.elim
  | one m m' n ts k i t u hi _ ih =>
    refine fun h => ⟨fun j => ?_, h.2⟩
    by_cases hj : j = i
    · subst hj; rw [upd_same]; exact ih (h.1 j)
    · rw [upd_ne _ _ hj]; exact h.1 j
  | join m n ts k rs _ => exact fun h => h.2 _

theorem noDict_steps {α : Type} {m m' : Mem} {t t' : Prog α} (h : Steps m t m' t') : NoDict t → NoDict t' := by
  induction h with
  | refl => exact id
  | step h1 _ ih => exact fun h => ih (noDict_step h1 h)

theorem noDict_touches {α : Type} {t : Prog α} {a : Access} (h : Touches t a) : NoDict t → a ≠ .dictionary := by
  induction h with
  | dict k => exact fun h => h.elim
  | one n ts k i a hi _ ih => exact fun h => ih (h.1 i)
  | _ => exact fun _ e => nomatch e

theorem noDict_race {α : Type} {t : Prog α} {a : Access} (h : Race t a) : NoDict t → a ≠ .dictionary := by
  induction h with
  | here n ts k i j a b _ _ _ h1 _ _ => exact fun h => noDict_touches h1 (h.1 i)
  | inside n ts k i a _ _ ih => exact fun h => ih (h.1 i)

namespace Co

theorem noDict_ret {α : Type} (r : Res α) : NoDict (Prog.ret r) := trivial

theorem noDict_then {α β : Type} {t : Prog α} {f : α → Prog β} (ht : NoDict t) (hf : ∀ a, NoDict (f a)) : NoDict (t >>= f) := noDict_bind f hf t ht

theorem pure_noDict {α : Type} (a : α) : NoDict (pure a : Prog α) := trivial
theorem lift_noDict {α : Type} (r : Res α) : NoDict (lift r) := trivial
theorem newPool_noDict : NoDict newPool := fun _ => trivial
theorem endPool_noDict (q : Nat) : NoDict (endPool q) := trivial
theorem mergePool_noDict (q q' : Nat) : NoDict (mergePool q q') := trivial
theorem freePool_noDict (q : Nat) : NoDict (freePool q) := trivial
theorem alloc_noDict (q : Nat) (c : Cell) : NoDict (alloc q c) := fun _ => trivial
theorem load_noDict (r : Option Ref) : NoDict (load r) := fun _ => trivial
theorem modify_noDict (r : Ref) (f : Cell → Cell) : NoDict (modify r f) := trivial
theorem par_noDict {n : Nat} {ts : Nat → Prog Out} (h : ∀ i, NoDict (ts i)) : NoDict (par n ts) := ⟨h, fun _ => trivial⟩
theorem keyInDict_none (cfg : Cfg) (v : View) (c : Cur) : keyInDict cfg v none c = false := by
  simp only [keyInDict, Option.isSome_none, Bool.false_and]
theorem any_false {α : Type} (o : Option α) : o.any (fun _ => false) = false := by cases o <;> rfl
theorem valueInDict_none (cfg : Cfg) (v : View) (c : Cur) : valueInDict cfg v none c = false := by
  unfold valueInDict
  simp only [keyInDict_none, Bool.and_false, any_false]
theorem useDict_noDict : NoDict (useDict false) := trivial
theorem useKey_noDict (cfg : Cfg) (v : View) (c : Cur) : NoDict (useDict (keyInDict cfg v none c)) := by
  rw [keyInDict_none]; exact useDict_noDict
theorem useValue_noDict (cfg : Cfg) (v : View) (c : Cur) : NoDict (useDict (valueInDict cfg v none c)) := by
  rw [valueInDict_none]; exact useDict_noDict

/-- Step through a `do` block. -/
macro "nodict" : tactic => `(tactic| repeat' (first
      | exact pure_noDict _
      | exact lift_noDict _
      | exact newPool_noDict
      | exact endPool_noDict _
      | exact mergePool_noDict _ _
      | exact freePool_noDict _
      | exact alloc_noDict _ _
      | exact load_noDict _
      | exact modify_noDict _ _
      | assumption
      | (apply noDict_then)
      | (apply par_noDict)
      | (intro _)
      | split))

theorem factory_noDict (q : Nat) (t : ObjectType) (ref : Bool) : NoDict (factory q t ref) := by
  cases t <;> unfold factory <;> nodict

theorem mapPut_noDict (self : Option Ref) (key : Str) (v : Option Ref) : NoDict (mapPut self key v) := by
  unfold mapPut; nodict

theorem merge_noDict (ret : Ref) (o : Out) : NoDict (merge ret o) := by
  unfold merge; nodict

theorem mergeAll_noDict (bp : Nat) (ret : Ref) (os : List Out) : NoDict (mergeAll bp ret os) := by
  induction os with
  | nil => exact pure_noDict _
  | cons o os ih => exact noDict_then (merge_noDict ret o) fun _ => noDict_then (mergePool_noDict _ _) fun _ => ih

theorem freeAll_noDict (os : List Out) : NoDict (freeAll os) := by
  induction os with
  | nil => exact pure_noDict _
  | cons o os ih => exact noDict_then (freePool_noDict _) fun _ => ih

theorem push_noDict (bp : Nat) (head tail : Option Ref) (k : Str) (node : Option Ref) : NoDict (push bp head tail k node) := by
  unfold push; nodict

theorem adopt_noDict (bp : Nat) (x : Nat × Ref × Nat) : NoDict (adopt bp x) := by
  unfold adopt; nodict

theorem fromFactory_noDict (bp : Nat) (t : ObjectType) (ref : Bool) {value : Option Ref → Prog Cur} (h : ∀ n, NoDict (value n)) :
    NoDict (fromFactory bp t ref value) :=
  noDict_then (factory_noDict _ _ _) fun n => noDict_then (h n) fun _ => pure_noDict _

theorem child_noDict (bp : Nat) (split : Bool) (t : ObjectType) {value : Prog (Option Ref × Cur)} {array map : Prog (Nat × Ref × Nat)}
    (h1 : NoDict value) (h2 : NoDict array) (h3 : NoDict map) : NoDict (child bp split t value array map) := by
  unfold child
  split
  · split
    · exact noDict_then h2 fun x => adopt_noDict _ _
    · exact noDict_then h3 fun x => adopt_noDict _ _
    · exact lift_noDict _
  · exact h1

theorem value_noDict (cfg : Cfg) (v : View) (ref : Bool) (f : Nat) :
    (∀ self c, NoDict (valueParse cfg v none ref f self c)) ∧
    (∀ p head tail n c, NoDict (arrayLoop cfg v none ref p f head tail n c)) ∧
    (∀ p self n c, NoDict (mapLoop cfg v none ref p f self n c)) := by
  induction f with
  | zero =>
    refine ⟨fun self c => ?_, fun p head tail n c => ?_, fun p self n c => ?_⟩
    · rw [valueParse]; exact lift_noDict _
    · rw [arrayLoop]; exact lift_noDict _
    · rw [mapLoop]; exact lift_noDict _
  | succ f ih =>
    obtain ⟨ih1, ih2, ih3⟩ := ih
    refine ⟨fun self c => ?_, fun p head tail n c => ?_, fun p self n c => ?_⟩
    · rw [valueParse]
      refine noDict_then (load_noDict _) fun ⟨r, cell⟩ => ?_
      dsimp only
      split
      · refine noDict_then (useValue_noDict _ _ _) fun _ => ?_
        nodict
      · refine noDict_then (modify_noDict _ _) fun _ => noDict_then (modify_noDict _ _) fun _ => noDict_then (lift_noDict _) fun ⟨_, _⟩ =>
          noDict_then (lift_noDict _) fun ⟨_, _⟩ => noDict_then (ih2 _ _ _ _ _) fun ⟨_, _⟩ => ?_
        nodict
      · refine noDict_then (modify_noDict _ _) fun _ => noDict_then (modify_noDict _ _) fun _ => noDict_then (lift_noDict _) fun ⟨_, _⟩ =>
          noDict_then (lift_noDict _) fun ⟨_, _⟩ => noDict_then (ih3 _ _ _ _) fun _ => ?_
        nodict
      · exact lift_noDict _
    · cases n with
      | zero => rw [arrayLoop]; exact pure_noDict _
      | succ n =>
        rw [arrayLoop]
        refine noDict_then (lift_noDict _) fun ⟨_, _⟩ => noDict_then (factory_noDict _ _ _) fun _ => noDict_then (ih1 _ _) fun _ =>
          noDict_then (alloc_noDict _ _) fun _ => noDict_then (modify_noDict _ _) fun _ => ?_
        split
        · exact ih2 _ _ _ _ _
        · exact noDict_then (load_noDict _) fun ⟨_, _⟩ => noDict_then (modify_noDict _ _) fun _ => ih2 _ _ _ _ _
    · cases n with
      | zero => rw [mapLoop]; exact pure_noDict _
      | succ n =>
        rw [mapLoop]
        exact noDict_then (useKey_noDict _ _ _) fun _ => noDict_then (lift_noDict _) fun ⟨_, _⟩ => noDict_then (lift_noDict _) fun ⟨_, _⟩ =>
          noDict_then (factory_noDict _ _ _) fun _ => noDict_then (ih1 _ _) fun _ => noDict_then (lift_noDict _) fun _ =>
          noDict_then (mapPut_noDict _ _ _) fun _ => ih3 _ _ _ _

theorem block_noDict (cfg : Cfg) (v : View) (si : SplitInfo) (ref : Bool) (f : Nat) :
    (∀ bp e head tail n c, NoDict (arrayBlock cfg v none si ref bp f e head tail n c)) ∧
    (∀ os, NoDict (array cfg v none si ref f os)) ∧
    (∀ bp e head tail n c, NoDict (mapBlock cfg v none si ref bp f e head tail n c)) ∧
    (∀ os, NoDict (map cfg v none si ref f os)) := by
  induction f with
  | zero =>
    refine ⟨fun bp e head tail n c => ?_, fun os => ?_, fun bp e head tail n c => ?_, fun os => ?_⟩
    · rw [arrayBlock]; exact lift_noDict _
    · rw [array]; exact lift_noDict _
    · rw [mapBlock]; exact lift_noDict _
    · rw [map]; exact lift_noDict _
  | succ f ih =>
    obtain ⟨ih1, ih2, ih3, ih4⟩ := ih
    refine ⟨fun bp e head tail n c => ?_, fun os => ?_, fun bp e head tail n c => ?_, fun os => ?_⟩
    · rw [arrayBlock]
      split
      · exact noDict_then (lift_noDict _) fun ⟨_, _, _⟩ => noDict_then
          (child_noDict _ _ _ (fromFactory_noDict _ _ _ fun n => (value_noDict cfg v ref f).1 _ _) (ih2 _) (ih4 _)) fun ⟨_, _⟩ =>
          noDict_then (push_noDict _ _ _ _ _) fun ⟨_, _⟩ => ih1 _ _ _ _ _ _
      · exact pure_noDict _
    · rw [array]
      refine noDict_then newPool_noDict fun bp => noDict_then (lift_noDict _) fun ⟨_, _⟩ => noDict_then (lift_noDict _) fun ⟨_, _⟩ =>
        noDict_then (lift_noDict _) fun _ => noDict_then (par_noDict fun i => ?_) fun _ => noDict_then (lift_noDict _) fun _ =>
        noDict_then (alloc_noDict _ _) fun _ => noDict_then (mergeAll_noDict _ _ _) fun _ => noDict_then (freeAll_noDict _) fun _ =>
        noDict_then (endPool_noDict _) fun _ => pure_noDict _
      split
      · exact lift_noDict _
      · exact noDict_then newPool_noDict fun q => noDict_then (ih1 _ _ _ _ _ _) fun _ => noDict_then (endPool_noDict _) fun _ => pure_noDict _
    · rw [mapBlock]
      split
      · exact noDict_then (useKey_noDict _ _ _) fun _ => noDict_then (lift_noDict _) fun ⟨_, _⟩ => noDict_then (lift_noDict _) fun ⟨_, _, _⟩ => noDict_then
          (child_noDict _ _ _ (fromFactory_noDict _ _ _ fun n => (value_noDict cfg v ref f).1 _ _) (ih2 _) (ih4 _)) fun ⟨_, _⟩ =>
          noDict_then (push_noDict _ _ _ _ _) fun ⟨_, _⟩ => ih3 _ _ _ _ _ _
      · exact pure_noDict _
    · rw [map]
      refine noDict_then newPool_noDict fun bp => noDict_then (lift_noDict _) fun ⟨_, _⟩ => noDict_then (lift_noDict _) fun ⟨_, _⟩ =>
        noDict_then (lift_noDict _) fun _ => noDict_then (alloc_noDict _ _) fun _ => noDict_then (par_noDict fun i => ?_) fun _ =>
        noDict_then (lift_noDict _) fun _ => noDict_then (mergeAll_noDict _ _ _) fun _ => noDict_then (freeAll_noDict _) fun _ =>
        noDict_then (endPool_noDict _) fun _ => pure_noDict _
      split
      · exact lift_noDict _
      · exact noDict_then newPool_noDict fun q => noDict_then (ih3 _ _ _ _ _ _) fun _ => noDict_then (endPool_noDict _) fun _ => pure_noDict _

end Co

/-! ### parts of programs -/

theorem Step.bind {α β : Type} (f : α → Prog β) {u : Bool} {m m' : Mem} {t t' : Prog α} (h : Step u m t m' t') : Step u m (t.bind f) m' (t'.bind f) := by
  cases h with
  | newPool m k => exact .newPool m _
  | endPool m q k h => exact .endPool m q _ h
  | mergePool m q q' k h h' => exact .mergePool m q q' _ h h'
  | freePool m q k => exact .freePool m q _
  | alloc m m' q c k r h => exact .alloc _ _ q c (fun r => (k r).bind f) r h
  | load m r k x h => exact .load m r (fun x => (k x).bind f) x h
  | modify m r g k x h => exact .modify m r g _ x h
  | dict m k => exact .dict m _
  | one m m' n ts k i t u hi h => exact .one _ _ n ts _ i t u hi h
  | join m n ts k rs h => exact .join m n ts (fun rs => (k rs).bind f) rs h

theorem Steps.trans {α : Type} {m m1 m2 : Mem} {t t1 t2 : Prog α} (h1 : Steps m t m1 t1) (h2 : Steps m1 t1 m2 t2) : Steps m t m2 t2 := by
  induction h1 with
  | refl => exact h2
  | step h _ ih => exact .step h (ih h2)

theorem StepsD.trans {α : Type} {b b1 b2 : Bool} {m m1 m2 : Mem} {t t1 t2 : Prog α} (h1 : StepsD b m t b1 m1 t1) (h2 : StepsD b1 m1 t1 b2 m2 t2) :
    StepsD b m t b2 m2 t2 := by
  induction h1 with
  | refl => exact h2
  | step h _ ih => exact .step h (ih h2)

theorem StepsD.steps {α : Type} {b b1 : Bool} {m m1 : Mem} {t t1 : Prog α} (h : StepsD b m t b1 m1 t1) : Steps m t m1 t1 := by
  induction h with
  | refl => exact .refl _ _
  | step h _ ih => exact .step h ih

theorem Steps.flag {α : Type} {m m1 : Mem} {t t1 : Prog α} (h : Steps m t m1 t1) : ∀ b, ∃ b1, StepsD b m t b1 m1 t1 := by
  induction h with
  | refl => exact fun b => ⟨b, .refl _ _ _⟩
  | @step m m1 m2 t t1 t2 u h _ ih =>
    intro b
    obtain ⟨b1, h1⟩ := ih (b || u)
    exact ⟨b1, .step h h1⟩

/-- A use of the dictionary is remembered. -/
theorem StepsD.stays {α : Type} {b b1 : Bool} {m m1 : Mem} {t t1 : Prog α} (h : StepsD b m t b1 m1 t1) (hb : b = true) : b1 = true := by
  induction h with
  | refl => exact hb
  | step h _ ih => exact ih (by rw [hb]; rfl)

/-- Without a dictionary nothing is remembered. -/
theorem Step.label {α : Type} {u : Bool} {m m' : Mem} {t t' : Prog α} (h : Step u m t m' t') : NoDict t → u = false := by
  induction h with
  | dict m k => exact fun h => h.elim
  | one m m' n ts k i t u hi _ ih => exact fun h => ih (h.1 i)
  | _ => exact fun _ => rfl

theorem StepsD.one {α : Type} {b b1 : Bool} {m m' : Mem} {n : Nat} {i : Nat} (hi : i < n) {k : List (Res Out) → Prog α} {s t : Prog Out}
    (h : StepsD b m s b1 m' t) : ∀ ts : Nat → Prog Out, ts i = s → StepsD b m (.par n ts k) b1 m' (.par n (upd ts i t) k) := by
  suffices H : ∀ {β : Type} {b b1 : Bool} {m m' : Mem} {s t : Prog β}, StepsD b m s b1 m' t → ∀ (e : β = Out) (ts : Nat → Prog Out), ts i = e ▸ s →
      ∃ ts', ts' i = e ▸ t ∧ (∀ j, j ≠ i → ts' j = ts j) ∧ StepsD b m (.par n ts k) b1 m' (.par n ts' k) by
    intro ts e
    obtain ⟨ts', h1, h2, h3⟩ := H h rfl ts e
    have : ts' = upd ts i t := by
      funext j
      by_cases hj : j = i
      · subst hj; rw [upd_same]; exact h1
      · rw [upd_ne _ _ hj]; exact h2 j hj
    rw [← this]; exact h3
  intro β b b1 m m' s t h
  induction h with
  | refl b m t => intro e ts h; exact ⟨ts, h, fun _ _ => rfl, .refl _ _ _⟩
  | @step m m1 m2 t t1 t2 u b b' h1 _ ih =>
    intro e ts h
    subst e
    change ts i = t at h
    obtain ⟨ts', g1, g2, g3⟩ := ih rfl (upd ts i t1) (upd_same _ _ _)
    refine ⟨ts', g1, fun j hj => by rw [g2 j hj, upd_ne _ _ hj], .step (.one _ _ n ts k i t1 u hi (by rw [h]; exact h1)) g3⟩

/-! ### only one coroutine can be the first to use the dictionary -/

/-- Until the dictionary has been used, only the first coroutine can use it. -/
def Solo : {α : Type} → Prog α → Prop
  | _, .ret _ => True
  | _, .newPool k => ∀ q, Solo (k q)
  | _, .endPool _ k => Solo k
  | _, .mergePool _ _ k => Solo k
  | _, .freePool _ k => Solo k
  | _, .alloc _ _ k => ∀ r, Solo (k r)
  | _, .load _ k => ∀ x, Solo (k x)
  | _, .modify _ _ k => Solo k
  | _, .dict _ => True
  | _, .par _ ts k => Solo (ts 0) ∧ (∀ i, i ≠ 0 → NoDict (ts i)) ∧ ∀ rs, NoDict (k rs)

theorem NoDict.solo {α : Type} (t : Prog α) : NoDict t → Solo t := by
  induction t with
  | ret r => exact fun _ => trivial
  | newPool k ih => exact fun h q => ih q (h q)
  | endPool q k ih => exact ih
  | mergePool q q' k ih => exact ih
  | freePool q k ih => exact ih
  | alloc q c k ih => exact fun h r => ih r (h r)
  | load r k ih => exact fun h x => ih x (h x)
  | modify r g k ih => exact ih
  | dict k ih => exact fun _ => trivial
  | par n ts k ihs ih => exact fun h => ⟨ihs 0 (h.1 0), fun i _ => h.1 i, h.2⟩

theorem solo_step {α : Type} {u : Bool} {m m' : Mem} {t t' : Prog α} (h : Step u m t m' t') : Solo t → u = true ∨ Solo t' := by
  induction h with
  | newPool m k => exact fun h => .inr (h _)
  | endPool m q k _ => exact .inr
  | mergePool m q q' k _ _ => exact .inr
  | freePool m q k => exact .inr
  | alloc m m' q c k r _ => exact fun h => .inr (h r)
  | load m r k x _ => exact fun h => .inr (h x)
  | modify m r f k x _ => exact .inr
  | dict m k => exact fun _ => .inl rfl
  | one m m' n ts k i t u hi hst ih =>
    intro h
    by_cases h0 : i = 0
    · subst h0
      rcases ih h.1 with h1 | h1
      · exact .inl h1
      · refine .inr ⟨by rw [upd_same]; exact h1, fun j hj => by rw [upd_ne _ _ hj]; exact h.2.1 j hj, h.2.2⟩
    · refine .inr ⟨by rw [upd_ne _ _ (Ne.symm h0)]; exact h.1, fun j hj => ?_, h.2.2⟩
      by_cases hji : j = i
      · subst hji; rw [upd_same]; exact noDict_step hst (h.2.1 j hj)
      · rw [upd_ne _ _ hji]; exact h.2.1 j hj
  | join m n ts k rs _ => exact fun h => .inr (NoDict.solo _ (h.2.2 _))

theorem solo_steps {α : Type} {b b1 : Bool} {m m' : Mem} {t t' : Prog α} (h : StepsD b m t b1 m' t') : Solo t → b1 = true ∨ Solo t' := by
  induction h with
  | refl => exact .inr
  | @step m m1 m2 t t1 t2 u b b' h1 h2 ih =>
    intro hs
    rcases solo_step h1 hs with hu | hs
    · exact .inl (h2.stays (by rw [hu, Bool.or_true]))
    · exact ih hs

theorem solo_race {α : Type} {t : Prog α} {a : Access} (h : Race t a) : Solo t → a ≠ .dictionary := by
  induction h with
  | here n ts k i j a b _ _ hij h1 h2 h3 =>
    rintro h rfl
    cases h3
    by_cases hi : i = 0
    · exact noDict_touches h2 (h.2.1 j (by omega)) rfl
    · exact noDict_touches h1 (h.2.1 i hi) rfl
  | inside n ts k i a _ hr ih =>
    intro h
    by_cases hi : i = 0
    · subst hi; exact ih h.1
    · exact noDict_race hr (h.2.1 i hi)

/-! ### two blocks use the dictionary at the same time -/

/-- At offset `os` there is a split container; its blocks are at `bs`. -/
def BlocksAt (w : Cfg) (v : View) (si : SplitInfo) (os : Nat) (bs : List (Nat × Nat)) : Prop :=
  ∃ n c id c' blocks, parseLength w v ⟨addW 0 os, os⟩ = .ok (n, c) ∧ parseLength w v c = .ok (id, c') ∧ si.getBlocks (toU32 id) = .ok blocks ∧
    bs = (blockBounds c'.idx blocks).1

/-- The coroutine of a block of a map. -/
def mapTask (w : Cfg) (v : View) (sm : Option StringMap) (si : SplitInfo) (ref : Bool) (f : Nat) (bs : List (Nat × Nat)) (i : Nat) : Prog Out :=
  match bs[i]? with
  | none => Co.lift (.error .fuel)
  | some be => do
    let q ← Co.newPool
    let o ← Co.mapBlock w v sm si ref q f be.2 none none 0 ⟨addW 0 be.1, be.1⟩
    Co.endPool q
    pure o

/-- What `ParseMap` does when the blocks have been parsed. -/
def mapRest (endOff bp : Nat) (ret : Ref) (rs : List (Res Out)) : Prog (Nat × Ref × Nat) := do
  let outs ← Co.lift (joinTasks rs)
  Co.mergeAll bp ret outs
  Co.freeAll outs
  Co.endPool bp
  pure (endOff, ret, bp)

section
variable {α β : Type}
theorem newPool_bind (f : Nat → Prog β) : (Co.newPool >>= f) = .newPool f := rfl
theorem alloc_bind (q : Nat) (c : Cell) (f : Ref → Prog β) : (Co.alloc q c >>= f) = .alloc q c f := rfl
theorem par_bind (n : Nat) (ts : Nat → Prog Out) (f : List (Res Out) → Prog β) : (Co.par n ts >>= f) = .par n ts f := rfl
theorem lift_bind (a : α) (f : α → Prog β) : (Co.lift (.ok a) >>= f) = f a := rfl
theorem useDict_bind (f : Unit → Prog β) : (Co.useDict true >>= f) = .dict (f ()) := rfl
theorem lift_bind_error (e : Err) (f : α → Prog β) : (Co.lift (.error e) >>= f) = .ret (.error e) := rfl
theorem ret_bind_error (e : Err) (f : α → Prog β) : (Prog.ret (.error e) >>= f) = .ret (.error e) := rfl
theorem pure_bind_ok (a : α) (f : α → Prog β) : ((pure a : Prog α) >>= f) = f a := rfl
theorem useDict_bind_false (f : Unit → Prog β) : (Co.useDict false >>= f) = f () := rfl
theorem solo_ret (r : Res α) : Solo (Prog.ret r) := trivial
theorem solo_dict (k : Prog α) : Solo (Prog.dict k) := trivial
theorem dict_bind (k : Prog α) (f : α → Prog β) : (Prog.dict k >>= f) = .dict (k >>= f) := rfl
theorem bind_eq (k : Prog α) (f : α → Prog β) : k >>= f = k.bind f := rfl
end

theorem par_congr {α : Type} {n : Nat} {ts ts' : Nat → Prog Out} {k k' : List (Res Out) → Prog α} (h : ∀ i, ts i = ts' i) (hk : ∀ rs, k rs = k' rs) :
    Prog.par n ts k = .par n ts' k' := by rw [funext h, funext hk]

theorem map_head {w : Cfg} {v : View} {sm : Option StringMap} {si : SplitInfo} {ref : Bool} {f os : Nat} {bs : List (Nat × Nat)} (h : BlocksAt w v si os bs) :
    ∃ e, Co.map w v sm si ref (f + 1) os =
      .newPool fun bp => .alloc bp (.cont (.map ref) bp none 0) fun ret => .par bs.length (mapTask w v sm si ref f bs) (mapRest e bp ret) := by
  obtain ⟨n, c, id, c', blocks, h1, h2, h3, rfl⟩ := h
  refine ⟨(blockBounds c'.idx blocks).2, ?_⟩
  rw [Co.map, newPool_bind]
  refine congrArg _ (funext fun bp => ?_)
  dsimp only
  rw [h1, lift_bind]
  dsimp only
  rw [h2, lift_bind]
  dsimp only
  rw [h3, lift_bind, alloc_bind]
  refine congrArg _ (funext fun ret => ?_)
  rw [par_bind]
  refine par_congr (fun i => ?_) fun rs => ?_
  · unfold mapTask
    generalize (blockBounds c'.idx blocks).1[i]? = o
    cases o <;> dsimp only
  · unfold mapRest
    dsimp only

/-- `ParseMap` starts the coroutines of the blocks. -/
theorem map_starts {w : Cfg} {v : View} {sm : Option StringMap} {si : SplitInfo} {ref : Bool} {f os : Nat} {bs : List (Nat × Nat)} (h : BlocksAt w v si os bs)
    (m : Mem) : ∃ m' k, StepsD false m (Co.map w v sm si ref (f + 1) os) false m' (.par bs.length (mapTask w v sm si ref f bs) k) := by
  obtain ⟨e, hK⟩ := map_head (sm := sm) (ref := ref) (f := f) h
  rw [hK]
  obtain ⟨m1, hm1⟩ : ∃ m1 : Mem, m1 = { m with pools := upd m.pools m.nextPool true, frames := upd m.frames m.nextPool true, nextPool := m.nextPool + 1 } := ⟨_, rfl⟩
  obtain ⟨x, hx⟩ : ∃ x, m1.alloc m.nextPool (.cont (.map ref) m.nextPool none 0) = .ok x := by
    unfold Mem.alloc
    rw [hm1, if_pos (upd_same _ _ _)]
    exact ⟨_, rfl⟩
  exact ⟨x.1, _, .step (.newPool _ _) (.step (.alloc _ x.1 _ _ _ x.2 (by rw [hm1] at hx; exact hx)) (.refl _ _ _))⟩

/-- A block that is not empty begins with a key. -/
theorem mapTask_key {w : Cfg} {v : View} {sm : StringMap} {si : SplitInfo} {ref : Bool} {f : Nat} {bs : List (Nat × Nat)} {i : Nat} {b : Nat × Nat}
    (hb : bs[i]? = some b) (hne : b.1 < b.2) {x : Nat × Cur} (hx : parseLength w v ⟨addW 0 b.1, b.1⟩ = .ok x) (m : Mem) :
    ∃ m' k, StepsD false m (mapTask w v (some sm) si ref (f + 1) bs i) false m' (.dict k) := by
  have hkey : Co.keyInDict w v (some sm) ⟨addW 0 b.1, b.1⟩ = true := by
    unfold Co.keyInDict; rw [hx]; rfl
  have h : ∀ q, ∃ k, Co.mapBlock w v (some sm) si ref q (f + 1) b.2 none none 0 ⟨addW 0 b.1, b.1⟩ = .dict k := by
    intro q
    rw [Co.mapBlock, if_pos hne, hkey, useDict_bind]
    exact ⟨_, rfl⟩
  unfold mapTask
  rw [hb]
  dsimp only
  rw [newPool_bind]
  obtain ⟨k, hk⟩ := h m.nextPool
  obtain ⟨m1, hm1⟩ : ∃ m1 : Mem, m1 = { m with pools := upd m.pools m.nextPool true, frames := upd m.frames m.nextPool true, nextPool := m.nextPool + 1 } := ⟨_, rfl⟩
  have h1 := Step.newPool m fun q => (do
    let o ← Co.mapBlock w v (some sm) si ref q (f + 1) b.2 none none 0 ⟨addW 0 b.1, b.1⟩
    Co.endPool q
    pure o : Prog Out)
  rw [← hm1] at h1
  rw [hk, dict_bind] at h1
  exact ⟨m1, _, .step h1 (.refl _ _ _)⟩

theorem map_race {w : Cfg} {v : View} {sm : StringMap} {si : SplitInfo} {ref : Bool} {f os : Nat} {bs : List (Nat × Nat)} (h : BlocksAt w v si os bs)
    {i j : Nat} {a b : Nat × Nat} (hij : i ≠ j) (ha : bs[i]? = some a) (hb : bs[j]? = some b) (hae : a.1 < a.2) (hbe : b.1 < b.2)
    {x y : Nat × Cur} (hx : parseLength w v ⟨addW 0 a.1, a.1⟩ = .ok x) (hy : parseLength w v ⟨addW 0 b.1, b.1⟩ = .ok y) (m : Mem) :
    ∃ m' t, StepsD false m (Co.map w v (some sm) si ref (f + 2) os) false m' t ∧ Race t .dictionary := by
  obtain ⟨m1, k, h1⟩ := map_starts (sm := some sm) (ref := ref) (f := f + 1) h m
  have hi := (List.getElem?_eq_some_iff.1 ha).1
  have hj := (List.getElem?_eq_some_iff.1 hb).1
  obtain ⟨m2, k2, h2⟩ := mapTask_key (w := w) (v := v) (sm := sm) (si := si) (ref := ref) (f := f) ha hae hx m1
  obtain ⟨m3, k3, h3⟩ := mapTask_key (w := w) (v := v) (sm := sm) (si := si) (ref := ref) (f := f) hb hbe hy m2
  have g1 := StepsD.one hi (k := k) h2 _ rfl
  have g2 := StepsD.one hj (k := k) h3 (upd (mapTask w v (some sm) si ref (f + 1) bs) i (.dict k2)) (upd_ne _ _ (Ne.symm hij))
  refine ⟨m3, _, h1.trans (g1.trans g2), .here _ _ _ i j .dictionary .dictionary hi hj hij ?_ ?_ .dictionary⟩
  · rw [upd_ne _ _ hij, upd_same]; exact .dict _
  · rw [upd_same]; exact .dict _

/-! ### one block -/

theorem mapBlock_solo (w : Cfg) (v : View) (sm : StringMap) (si : SplitInfo) (ref : Bool) (q f e : Nat) (head tail : Option Ref) (n : Nat) (c : Cur)
    (g : Out → Prog Out) (hg : ∀ o, NoDict (g o)) : Solo (Co.mapBlock w v (some sm) si ref q f e head tail n c >>= g) := by
  cases f with
  | zero => rw [Co.mapBlock, lift_bind_error]; exact solo_ret _
  | succ f =>
    rw [Co.mapBlock]
    split
    · cases hx : parseLength w v c with
      | ok x =>
        have hkey : Co.keyInDict w v (some sm) c = true := by unfold Co.keyInDict; rw [hx]; rfl
        rw [hkey, useDict_bind, dict_bind]
        exact solo_dict _
      | error er =>
        have hkey : Co.keyInDict w v (some sm) c = false := by unfold Co.keyInDict; rw [hx]; rfl
        have hp : ∃ er, parseKeyBlock w v (some sm) ref c = .error er := by
          unfold parseKeyBlock
          dsimp only
          rw [hx, error_bind]
          exact ⟨_, rfl⟩
        obtain ⟨er, hp⟩ := hp
        rw [hkey, useDict_bind_false, hp, lift_bind_error, ret_bind_error]
        exact solo_ret _
    · rw [pure_bind_ok]; exact NoDict.solo _ (hg _)

theorem mapTask_solo (w : Cfg) (v : View) (sm : StringMap) (si : SplitInfo) (ref : Bool) (f : Nat) (bs : List (Nat × Nat)) (i : Nat) :
    Solo (mapTask w v (some sm) si ref f bs i) := by
  unfold mapTask
  split
  · exact solo_ret _
  · rw [newPool_bind]
    intro q
    exact mapBlock_solo _ _ _ _ _ _ _ _ _ _ _ _ _ fun o => Co.noDict_then (Co.endPool_noDict _) fun _ => Co.pure_noDict _

theorem mapRest_noDict (e bp : Nat) (ret : Ref) (rs : List (Res Out)) : NoDict (mapRest e bp ret rs) :=
  Co.noDict_then (Co.lift_noDict _) fun _ => Co.noDict_then (Co.mergeAll_noDict _ _ _) fun _ => Co.noDict_then (Co.freeAll_noDict _) fun _ =>
    Co.noDict_then (Co.endPool_noDict _) fun _ => Co.pure_noDict _

theorem em {α : Type} (x : Res α) : (∃ e, x = .error e) ∨ ∃ a, x = .ok a := by
  cases x with
  | error e => exact .inl ⟨e, rfl⟩
  | ok a => exact .inr ⟨a, rfl⟩

/-- A map with at most one block: the first key comes before everything else. -/
theorem map_solo {w : Cfg} {v : View} {sm : Option StringMap} {si : SplitInfo} {ref : Bool} {os : Nat}
    (h : ∀ bs, BlocksAt w v si os bs → bs.length ≤ 1) (f : Nat) : Solo (Co.map w v sm si ref f os) := by
  cases sm with
  | none => exact NoDict.solo _ ((Co.block_noDict w v si ref f).2.2.2 os)
  | some sm =>
    cases f with
    | zero => rw [Co.map]; exact solo_ret _
    | succ f =>
      by_cases hb : ∃ bs, BlocksAt w v si os bs
      · obtain ⟨bs, hb⟩ := hb
        have hlen := h bs hb
        obtain ⟨e, he⟩ := map_head (sm := some sm) (ref := ref) (f := f) hb
        rw [he]
        intro bp ret
        refine ⟨mapTask_solo _ _ _ _ _ _ _ _, fun i hi => ?_, mapRest_noDict _ _ _⟩
        unfold mapTask
        rw [List.getElem?_eq_none (by omega)]
        exact Co.lift_noDict _
      · obtain ⟨er, he⟩ : ∃ er, Co.map w v (some sm) si ref (f + 1) os = .newPool fun _ => .ret (.error er) := by
          have hcase : (∃ er, parseLength w v ⟨addW 0 os, os⟩ = .error er) ∨ (∃ n c, parseLength w v ⟨addW 0 os, os⟩ = .ok (n, c) ∧
              ((∃ er, parseLength w v c = .error er) ∨ ∃ id c', parseLength w v c = .ok (id, c') ∧ ∃ er, si.getBlocks (toU32 id) = .error er)) := by
            rcases em (parseLength w v ⟨addW 0 os, os⟩) with ⟨er, h1⟩ | ⟨⟨n, c⟩, h1⟩
            · exact .inl ⟨er, h1⟩
            · refine .inr ⟨n, c, h1, ?_⟩
              rcases em (parseLength w v c) with ⟨er, h2⟩ | ⟨⟨id, c'⟩, h2⟩
              · exact .inl ⟨er, h2⟩
              · rcases em (si.getBlocks (toU32 id)) with ⟨er, h3⟩ | ⟨blocks, h3⟩
                · exact .inr ⟨id, c', h2, er, h3⟩
                · exact absurd ⟨_, n, c, id, c', blocks, h1, h2, h3, rfl⟩ hb
          rcases hcase with ⟨er, h1⟩ | ⟨n, c, h1, ⟨er, h2⟩ | ⟨id, c', h2, er, h3⟩⟩
          · refine ⟨er, ?_⟩
            rw [Co.map, newPool_bind]
            refine congrArg _ (funext fun bp => ?_)
            dsimp only
            rw [h1, lift_bind_error]
          · refine ⟨er, ?_⟩
            rw [Co.map, newPool_bind]
            refine congrArg _ (funext fun bp => ?_)
            dsimp only
            rw [h1, lift_bind]
            dsimp only
            rw [h2, lift_bind_error]
          · refine ⟨er, ?_⟩
            rw [Co.map, newPool_bind]
            refine congrArg _ (funext fun bp => ?_)
            dsimp only
            rw [h1, lift_bind]
            dsimp only
            rw [h2, lift_bind]
            dsimp only
            rw [h3, lift_bind_error]
        rw [he]
        exact fun _ => solo_ret _

end Bridge.Heap
