import Verif.Proof.CoDict
/-
What the coroutines do before they use the dictionary does not depend on what is in it.
-/
set_option autoImplicit false
namespace Bridge.Heap
open Spec

/-- The two programs make the same accesses until they use the dictionary. -/
inductive Alike : {α : Type} → Prog α → Prog α → Prop
  | ret {α : Type} (r : Res α) : Alike (.ret r) (.ret r)
  | newPool {α : Type} (k k' : Nat → Prog α) : (∀ q, Alike (k q) (k' q)) → Alike (.newPool k) (.newPool k')
  | endPool {α : Type} (q : Nat) (k k' : Prog α) : Alike k k' → Alike (.endPool q k) (.endPool q k')
  | mergePool {α : Type} (q q' : Nat) (k k' : Prog α) : Alike k k' → Alike (.mergePool q q' k) (.mergePool q q' k')
  | freePool {α : Type} (q : Nat) (k k' : Prog α) : Alike k k' → Alike (.freePool q k) (.freePool q k')
  | alloc {α : Type} (q : Nat) (c : Cell) (k k' : Ref → Prog α) : (∀ r, Alike (k r) (k' r)) → Alike (.alloc q c k) (.alloc q c k')
  | load {α : Type} (r : Option Ref) (k k' : Ref × Cell → Prog α) : (∀ x, Alike (k x) (k' x)) → Alike (.load r k) (.load r k')
  | modify {α : Type} (r : Ref) (f : Cell → Cell) (k k' : Prog α) : Alike k k' → Alike (.modify r f k) (.modify r f k')
  | dict {α : Type} (k k' : Prog α) : Alike (.dict k) (.dict k')
  | par {α : Type} (n : Nat) (ts ts' : Nat → Prog Out) (k k' : List (Res Out) → Prog α) : (∀ i, Alike (ts i) (ts' i)) →
      (∀ rs, Alike (k rs) (k' rs)) → Alike (.par n ts k) (.par n ts' k')

theorem Alike.refl {α : Type} (t : Prog α) : Alike t t := by
  induction t with
  | ret r => exact .ret r
  | newPool k ih => exact .newPool _ _ ih
  | endPool q k ih => exact .endPool _ _ _ ih
  | mergePool q q' k ih => exact .mergePool _ _ _ _ ih
  | freePool q k ih => exact .freePool _ _ _ ih
  | alloc q c k ih => exact .alloc _ _ _ _ ih
  | load r k ih => exact .load _ _ _ ih
  | modify r g k ih => exact .modify _ _ _ _ ih
  | dict k ih => exact .dict _ _
  | par n ts k ihs ih => exact .par _ _ _ _ _ ihs ih

theorem Alike.bind {α β : Type} {t t' : Prog α} (h : Alike t t') : ∀ {f f' : α → Prog β}, (∀ a, Alike (f a) (f' a)) → Alike (t.bind f) (t'.bind f') := by
  induction h with
  | ret r => intro f f' hf; cases r with
    | ok a => exact hf a
    | error e => exact .ret _
  | newPool k k' _ ih => exact fun hf => .newPool _ _ fun q => ih q hf
  | endPool q k k' _ ih => exact fun hf => .endPool _ _ _ (ih hf)
  | mergePool q q' k k' _ ih => exact fun hf => .mergePool _ _ _ _ (ih hf)
  | freePool q k k' _ ih => exact fun hf => .freePool _ _ _ (ih hf)
  | alloc q c k k' _ ih => exact fun hf => .alloc _ _ _ _ fun q => ih q hf
  | load r k k' _ ih => exact fun hf => .load _ _ _ fun q => ih q hf
  | modify r g k k' _ ih => exact fun hf => .modify _ _ _ _ (ih hf)
  | dict k k' => exact fun hf => .dict _ _
  | par n ts ts' k k' h1 _ _ ih => exact fun hf => .par _ _ _ _ _ h1 fun rs => ih rs hf

theorem Alike.of_ret {α : Type} {t t' : Prog α} (h : Alike t t') {r : Res α} (e : t = .ret r) : t' = .ret r := by
  cases h with
  | ret => exact e
  | _ => cases e

theorem Alike.step {α : Type} {u : Bool} {m m1 : Mem} {t t1 : Prog α} (h : Step u m t m1 t1) :
    u = false → ∀ {t'}, Alike t t' → ∃ t1', Step false m t' m1 t1' ∧ Alike t1 t1' := by
  induction h with
  | newPool m k => intro _ t' h; cases h with | newPool _ k' h => exact ⟨_, .newPool m k', h _⟩
  | endPool m q k e => intro _ t' h; cases h with | endPool _ _ k' h => exact ⟨_, .endPool m q k' e, h⟩
  | mergePool m q q' k e e' => intro _ t' h; cases h with | mergePool _ _ _ k' h => exact ⟨_, .mergePool m q q' k' e e', h⟩
  | freePool m q k => intro _ t' h; cases h with | freePool _ _ k' h => exact ⟨_, .freePool m q k', h⟩
  | alloc m m' q c k r e => intro _ t' h; cases h with | alloc _ _ _ k' h => exact ⟨_, .alloc m m' q c k' r e, h _⟩
  | load m r k x e => intro _ t' h; cases h with | load _ _ k' h => exact ⟨_, .load m r k' x e, h _⟩
  | modify m r f k x e => intro _ t' h; cases h with | modify _ _ _ k' h => exact ⟨_, .modify m r f k' x e, h⟩
  | dict m k => exact fun h => nomatch h
  | one m m' n ts k i t u hi hs ih =>
    intro hu t' h
    cases h with
    | par _ _ ts' _ k' h1 h2 =>
      obtain ⟨t1', e1, e2⟩ := ih hu (h1 i)
      refine ⟨_, .one m m' n ts' k' i t1' false hi e1, .par _ _ _ _ _ (fun j => ?_) h2⟩
      by_cases hj : j = i
      · subst hj; rw [upd_same, upd_same]; exact e2
      · rw [upd_ne _ _ hj, upd_ne _ _ hj]; exact h1 j
  | join m n ts k rs hd =>
    intro _ t' h
    cases h with
    | par _ _ ts' _ k' h1 h2 =>
      refine ⟨_, .join m n ts' k' rs fun i hi => ?_, h2 _⟩
      exact (h1 i).of_ret (hd i hi)

theorem stepsD_mono {α : Type} {b b' : Bool} {m m' : Mem} {t t' : Prog α} (h : StepsD b m t b' m' t') : b = true → b' = true := by
  induction h with
  | refl => exact id
  | step _ _ ih => exact fun h => ih (by rw [h]; rfl)

theorem Alike.stepsD {α : Type} {b b' : Bool} {m m1 : Mem} {t t1 : Prog α} (h : StepsD b m t b' m1 t1) :
    b' = false → ∀ {t'}, Alike t t' → ∃ t1', StepsD b m t' b' m1 t1' ∧ Alike t1 t1' := by
  induction h with
  | refl b m t => exact fun _ t' h => ⟨t', .refl b m t', h⟩
  | @step m m1 m2 t t1 t2 u b b' h1 h2 ih =>
    intro hb t' h
    have hu : u = false := by
      cases u with
      | false => rfl
      | true => rw [stepsD_mono h2 (by cases b <;> rfl)] at hb; cases hb
    subst hu
    obtain ⟨t1', e1, e2⟩ := Alike.step h1 rfl h
    obtain ⟨t2', e3, e4⟩ := ih hb e2
    exact ⟨t2', .step e1 e3, e4⟩

theorem Alike.symm {α : Type} {t t' : Prog α} (h : Alike t t') : Alike t' t := by
  induction h with
  | ret r => exact .ret r
  | newPool k k' _ ih => exact .newPool _ _ ih
  | endPool q k k' _ ih => exact .endPool _ _ _ ih
  | mergePool q q' k k' _ ih => exact .mergePool _ _ _ _ ih
  | freePool q k k' _ ih => exact .freePool _ _ _ ih
  | alloc q c k k' _ ih => exact .alloc _ _ _ _ ih
  | load r k k' _ ih => exact .load _ _ _ ih
  | modify r g k k' _ ih => exact .modify _ _ _ _ ih
  | dict k k' => exact .dict _ _
  | par n ts ts' k k' _ _ ih1 ih2 => exact .par _ _ _ _ _ ih1 ih2

theorem Alike.touches {α : Type} {t : Prog α} {a : Access} (h : Touches t a) : ∀ {t'}, Alike t t' → Touches t' a := by
  induction h with
  | endPool q k => intro t' h; cases h; exact .endPool _ _
  | mergePool q q' k => intro t' h; cases h; exact .mergePool _ _ _
  | mergePool' q q' k => intro t' h; cases h; exact .mergePool' _ _ _
  | freePool q k => intro t' h; cases h; exact .freePool _ _
  | alloc q c k => intro t' h; cases h; exact .alloc _ _ _
  | load r k => intro t' h; cases h; exact .load _ _
  | modify r f k => intro t' h; cases h; exact .modify _ _ _
  | dict k => intro t' h; cases h; exact .dict _
  | one n ts k i a hi _ ih => intro t' h; cases h with | par _ _ ts' _ k' h1 h2 => exact .one n ts' k' i a hi (ih (h1 i))

namespace Co

theorem alike_then {α β : Type} {t t' : Prog α} {f f' : α → Prog β} (ht : Alike t t') (hf : ∀ a, Alike (f a) (f' a)) :
    Alike (t >>= f) (t' >>= f') := ht.bind hf

theorem alike_same {α β : Type} (t : Prog α) {f f' : α → Prog β} (hf : ∀ a, Alike (f a) (f' a)) : Alike (t >>= f) (t >>= f') :=
  (Alike.refl t).bind hf

theorem keyInDict_some (cfg : Cfg) (v : View) (a b : StringMap) (c : Cur) : keyInDict cfg v (some a) c = keyInDict cfg v (some b) c := by
  unfold keyInDict; simp only [Option.isSome_some]

theorem valueInDict_some (cfg : Cfg) (v : View) (a b : StringMap) (c : Cur) : valueInDict cfg v (some a) c = valueInDict cfg v (some b) c := by
  unfold valueInDict; simp only [keyInDict_some cfg v a b]

/-- After a look into the dictionary the programs need not agree; without one the rest must. -/
theorem alike_use {β : Type} {called called' : Bool} (hc : called = called') {f f' : Unit → Prog β} (hf : called = false → Alike (f ()) (f' ())) :
    Alike (useDict called >>= f) (useDict called' >>= f') := by
  subst hc
  cases called with
  | true => exact .dict _ _
  | false => exact hf rfl

theorem length_error {cfg : Cfg} {v : View} {a : StringMap} {c : Cur} (h : keyInDict cfg v (some a) c = false) :
    ∃ e, parseLength cfg v c = .error e := by
  cases h1 : parseLength cfg v c with
  | error e => exact ⟨e, rfl⟩
  | ok x =>
    unfold keyInDict at h
    rw [h1] at h
    cases h

theorem parseKey_some {cfg : Cfg} {v : View} {a b : StringMap} {c : Cur} (h : keyInDict cfg v (some a) c = false) :
    parseKey cfg v (some a) c = parseKey cfg v (some b) c := by
  obtain ⟨e, h⟩ := length_error h
  simp only [parseKey, h]
  rfl

theorem parseKeyBlock_some {cfg : Cfg} {v : View} {a b : StringMap} {ref : Bool} {c : Cur} (h : keyInDict cfg v (some a) c = false) :
    parseKeyBlock cfg v (some a) ref c = parseKeyBlock cfg v (some b) ref c := by
  obtain ⟨e, h⟩ := length_error h
  simp only [parseKeyBlock, h]
  rfl

theorem valueInDict_false {cfg : Cfg} {v : View} {a : StringMap} {c c1 : Cur} {dt : UInt8} (h : valueInDict cfg v (some a) c = false)
    (h1 : parseDataType v c = .ok (dt, c1)) (hd : decide (dt = BRIDGE_STRING) = true) : ∃ e, parseLength cfg v c1 = .error e := by
  have hd' : (dt == BRIDGE_STRING) = true := hd
  unfold valueInDict at h
  rw [h1] at h
  simp only [Except.toOption, Option.any_some, hd', Bool.true_and] at h
  exact length_error h

theorem parseObj_some {cfg : Cfg} {v : View} {a b : StringMap} {c : Cur} (h : valueInDict cfg v (some a) c = false) :
    parseDataObj cfg v (some a) c = parseDataObj cfg v (some b) c ∧ parseViewObj cfg v (some a) c = parseViewObj cfg v (some b) c := by
  unfold parseDataObj parseViewObj
  cases h1 : parseDataType v c with
  | error e => simp only [error_bind, and_self]
  | ok x =>
    obtain ⟨dt, c1⟩ := x
    have hv := valueInDict_false h h1
    simp only [ok_bind]
    generalize checkDataType dt = z
    cases z with
    | error e => simp only [error_bind, and_self]
    | ok _ =>
      simp only [ok_bind]
      generalize decide (dt = BRIDGE_STRING) = y at hv
      cases y with
      | true =>
        obtain ⟨e, he⟩ := hv rfl
        simp only [he, error_bind, and_self]
      | false => simp only [and_self]

theorem fromFactory_alike (bp : Nat) (t : ObjectType) (ref : Bool) {x y : Option Ref → Prog Cur} (h : ∀ n, Alike (x n) (y n)) :
    Alike (fromFactory bp t ref x) (fromFactory bp t ref y) :=
  alike_same _ fun n => alike_then (h n) fun _ => Alike.refl _

theorem child_alike (bp : Nat) (split : Bool) (t : ObjectType) {x x' : Prog (Option Ref × Cur)} {a a' m m' : Prog (Nat × Ref × Nat)}
    (h1 : Alike x x') (h2 : Alike a a') (h3 : Alike m m') : Alike (child bp split t x a m) (child bp split t x' a' m') := by
  unfold child
  split
  · split
    · exact alike_then h2 fun _ => Alike.refl _
    · exact alike_then h3 fun _ => Alike.refl _
    · exact Alike.refl _
  · exact h1

theorem value_alike (cfg : Cfg) (v : View) (a b : StringMap) (ref : Bool) (f : Nat) :
    (∀ self c, Alike (valueParse cfg v (some a) ref f self c) (valueParse cfg v (some b) ref f self c)) ∧
    (∀ p head tail n c, Alike (arrayLoop cfg v (some a) ref p f head tail n c) (arrayLoop cfg v (some b) ref p f head tail n c)) ∧
    (∀ p self n c, Alike (mapLoop cfg v (some a) ref p f self n c) (mapLoop cfg v (some b) ref p f self n c)) := by
  induction f with
  | zero =>
    refine ⟨fun self c => ?_, fun p head tail n c => ?_, fun p self n c => ?_⟩
    · simp only [valueParse]; exact Alike.refl _
    · simp only [arrayLoop]; exact Alike.refl _
    · simp only [mapLoop]; exact Alike.refl _
  | succ f ih =>
    obtain ⟨ih1, ih2, ih3⟩ := ih
    refine ⟨fun self c => ?_, fun p head tail n c => ?_, fun p self n c => ?_⟩
    · rw [valueParse, valueParse]
      refine alike_same _ fun ⟨r, cell⟩ => ?_
      dsimp only
      cases cell with
      | data view dt p =>
        refine alike_use (valueInDict_some cfg v a b c) fun h => ?_
        obtain ⟨e1, e2⟩ := parseObj_some (b := b) h
        simp only [e1, e2]
        exact Alike.refl _
      | cont k p hd s =>
        cases k with
        | array =>
          exact alike_same _ fun _ => alike_same _ fun _ => alike_same _ fun ⟨_, _⟩ => alike_same _ fun ⟨_, _⟩ =>
            alike_then (ih2 _ _ _ _ _) fun ⟨_, _⟩ => Alike.refl _
        | map view =>
          exact alike_same _ fun _ => alike_same _ fun _ => alike_same _ fun ⟨_, _⟩ => alike_same _ fun ⟨_, _⟩ =>
            alike_then (ih3 _ _ _ _) fun _ => Alike.refl _
      | item k v n => exact Alike.refl _
    · cases n with
      | zero => rw [arrayLoop, arrayLoop]; exact Alike.refl _
      | succ n =>
        rw [arrayLoop, arrayLoop]
        refine alike_same _ fun ⟨_, _⟩ => alike_same _ fun _ => alike_then (ih1 _ _) fun _ =>
          alike_same _ fun _ => alike_same _ fun _ => ?_
        split
        · exact ih2 _ _ _ _ _
        · exact alike_same _ fun ⟨_, _⟩ => alike_same _ fun _ => ih2 _ _ _ _ _
    · cases n with
      | zero => rw [mapLoop, mapLoop]; exact Alike.refl _
      | succ n =>
        rw [mapLoop, mapLoop]
        refine alike_use (keyInDict_some cfg v a b c) fun h => ?_
        rw [parseKey_some (b := b) h]
        exact alike_same _ fun ⟨_, _⟩ => alike_same _ fun ⟨_, _⟩ => alike_same _ fun _ => alike_then (ih1 _ _) fun _ =>
          alike_same _ fun _ => alike_same _ fun _ => ih3 _ _ _ _

theorem block_alike (cfg : Cfg) (v : View) (a b : StringMap) (si : SplitInfo) (ref : Bool) (f : Nat) :
    (∀ bp e head tail n c, Alike (arrayBlock cfg v (some a) si ref bp f e head tail n c) (arrayBlock cfg v (some b) si ref bp f e head tail n c)) ∧
    (∀ os, Alike (array cfg v (some a) si ref f os) (array cfg v (some b) si ref f os)) ∧
    (∀ bp e head tail n c, Alike (mapBlock cfg v (some a) si ref bp f e head tail n c) (mapBlock cfg v (some b) si ref bp f e head tail n c)) ∧
    (∀ os, Alike (map cfg v (some a) si ref f os) (map cfg v (some b) si ref f os)) := by
  induction f with
  | zero =>
    refine ⟨fun bp e head tail n c => ?_, fun os => ?_, fun bp e head tail n c => ?_, fun os => ?_⟩
    · simp only [arrayBlock]; exact Alike.refl _
    · simp only [array]; exact Alike.refl _
    · simp only [mapBlock]; exact Alike.refl _
    · simp only [map]; exact Alike.refl _
  | succ f ih =>
    obtain ⟨ih1, ih2, ih3, ih4⟩ := ih
    refine ⟨fun bp e head tail n c => ?_, fun os => ?_, fun bp e head tail n c => ?_, fun os => ?_⟩
    · rw [arrayBlock, arrayBlock]
      split
      · exact alike_same _ fun ⟨_, _, _⟩ => alike_then
          (child_alike _ _ _ (fromFactory_alike _ _ _ fun n => (value_alike cfg v a b ref f).1 _ _) (ih2 _) (ih4 _)) fun ⟨_, _⟩ =>
          alike_same _ fun ⟨_, _⟩ => ih1 _ _ _ _ _ _
      · exact Alike.refl _
    · rw [array, array]
      refine alike_same _ fun bp => alike_same _ fun ⟨_, _⟩ => alike_same _ fun ⟨_, _⟩ =>
        alike_same _ fun _ => alike_then (Alike.par _ _ _ _ _ (fun i => ?_) fun _ => Alike.refl _) fun _ => Alike.refl _
      split
      · exact Alike.refl _
      · exact alike_same _ fun q => alike_then (ih1 _ _ _ _ _ _) fun _ => Alike.refl _
    · rw [mapBlock, mapBlock]
      split
      · refine alike_use (keyInDict_some cfg v a b c) fun h => ?_
        rw [parseKeyBlock_some (b := b) h]
        exact alike_same _ fun ⟨_, _⟩ => alike_same _ fun ⟨_, _, _⟩ => alike_then
          (child_alike _ _ _ (fromFactory_alike _ _ _ fun n => (value_alike cfg v a b ref f).1 _ _) (ih2 _) (ih4 _)) fun ⟨_, _⟩ =>
          alike_same _ fun ⟨_, _⟩ => ih3 _ _ _ _ _ _
      · exact Alike.refl _
    · rw [map, map]
      refine alike_same _ fun bp => alike_same _ fun ⟨_, _⟩ => alike_same _ fun ⟨_, _⟩ =>
        alike_same _ fun _ => alike_same _ fun _ => alike_then (Alike.par _ _ _ _ _ (fun i => ?_) fun _ => Alike.refl _) fun _ => Alike.refl _
      split
      · exact Alike.refl _
      · exact alike_same _ fun q => alike_then (ih3 _ _ _ _ _ _) fun _ => Alike.refl _

end Co
end Bridge.Heap
