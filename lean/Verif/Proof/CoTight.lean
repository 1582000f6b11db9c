import Verif.Model.CoParse
import Verif.Proof.ParseRT
/-
The parallel parser with the one difference that every block has to end exactly where the table says.  On the contents for which this reads
something it is the parallel parser.
-/
set_option autoImplicit false
namespace Bridge
open Spec

mutual
/-- `coArrayBlock`, given up when the last child ends behind the block. -/
def tightArrayBlock (cfg : Cfg) (v : View) (sm : Option StringMap) (si : SplitInfo) (parseRef : Bool) :
    (fuel : Nat) → (end_ : Nat) → Cur → Res (List Obj)
  | 0, _, _ => .error .fuel
  | f + 1, end_, c =>
    if c.off < end_ then do
      let (t, split, c) ← parseObjectTypeSplit v c
      let (o, c) ← coChild split t (parseVal cfg v sm parseRef .frame f t c) (tightArray cfg v sm si parseRef f c.idx)
        (tightMap cfg v sm si parseRef f c.idx)
      let rest ← tightArrayBlock cfg v sm si parseRef f end_ c
      pure (o :: rest)
    else if c.off = end_ then .ok [] else .error .fuel
/-- `coArray`. -/
def tightArray (cfg : Cfg) (v : View) (sm : Option StringMap) (si : SplitInfo) (parseRef : Bool) :
    (fuel : Nat) → (os : Nat) → Res (Obj × Cur)
  | 0, _ => .error .fuel
  | f + 1, os => do
    let c : Cur := ⟨addW 0 os, os⟩
    let (_, c) ← parseLength cfg v c
    let (id, c) ← parseLength cfg v c
    let blocks ← si.getBlocks (toU32 id)
    let bounds := blockBounds c.idx blocks
    let results := bounds.1.map (fun be => tightArrayBlock cfg v sm si parseRef f be.2 ⟨addW 0 be.1, be.1⟩)
    let objs ← joinTasks results.reverse
    let ret := objs.foldl (fun (a : ArrayS) b => a.merge (b, b.length)) { pool := .frame }
    pure (ret.toObj, ⟨bounds.2, bounds.2⟩)
/-- `coMapBlock`, given up when the last child ends behind the block. -/
def tightMapBlock (cfg : Cfg) (v : View) (sm : Option StringMap) (si : SplitInfo) (parseRef : Bool) :
    (fuel : Nat) → (end_ : Nat) → Cur → Res (List (Str × Obj))
  | 0, _, _ => .error .fuel
  | f + 1, end_, c =>
    if c.off < end_ then do
      let (k, c) ← parseKeyBlock cfg v sm parseRef c
      let (t, split, c) ← parseObjectTypeSplit v c
      let (o, c) ← coChild split t (parseVal cfg v sm parseRef .frame f t c) (tightArray cfg v sm si parseRef f c.idx)
        (tightMap cfg v sm si parseRef f c.idx)
      let rest ← tightMapBlock cfg v sm si parseRef f end_ c
      pure ((k, o) :: rest)
    else if c.off = end_ then .ok [] else .error .fuel
/-- `coMap`. -/
def tightMap (cfg : Cfg) (v : View) (sm : Option StringMap) (si : SplitInfo) (parseRef : Bool) :
    (fuel : Nat) → (os : Nat) → Res (Obj × Cur)
  | 0, _ => .error .fuel
  | f + 1, os => do
    let c : Cur := ⟨addW 0 os, os⟩
    let (_, c) ← parseLength cfg v c
    let (id, c) ← parseLength cfg v c
    let blocks ← si.getBlocks (toU32 id)
    let bounds := blockBounds c.idx blocks
    let results := bounds.1.map (fun be => tightMapBlock cfg v sm si parseRef f be.2 ⟨addW 0 be.1, be.1⟩)
    let objs ← joinTasks results
    let ret := objs.foldl (fun (a : MapS) b => a.merge (b, b.length)) { ref := parseRef, pool := .frame }
    pure (ret.toObj, ⟨bounds.2, bounds.2⟩)
end

theorem tight_child {t : ObjectType} {split : Bool} {v a a' m m' : Res (Obj × Cur)} {x : Obj × Cur} (ha : ∀ x, a' = .ok x → a = .ok x)
    (hm : ∀ x, m' = .ok x → m = .ok x) (h : coChild split t v a' m' = .ok x) : coChild split t v a m = .ok x := by
  unfold coChild at h ⊢
  cases split with
  | false => exact h
  | true => cases t <;> first | exact h | exact ha _ h | exact hm _ h

theorem tight_tasks {α β : Type} {F G : β → Res α} (h : ∀ b x, F b = .ok x → G b = .ok x) : ∀ (l : List β) (xs : List α),
    l.map F = xs.map .ok → l.map G = xs.map .ok
  | [], [], _ => rfl
  | [], _ :: _, h => by simp at h
  | _ :: _, [], h => by simp at h
  | b :: l, x :: xs, e => by
    simp only [List.map_cons, List.cons.injEq] at e ⊢
    exact ⟨h _ _ e.1, tight_tasks h l xs e.2⟩

theorem mapM_inv {α : Type} : ∀ {rs : List (Res α)} {xs : List α}, rs.mapM id = .ok xs → rs = xs.map .ok := by
  intro rs
  induction rs with
  | nil => intro xs h; rw [List.mapM_nil] at h; cases h; rfl
  | cons r rs ih =>
    intro xs h
    rw [List.mapM_cons] at h
    obtain ⟨x, h1, h⟩ := bind_ok h
    obtain ⟨ys, h2, h⟩ := bind_ok h
    simp only [pure_eq_ok, Except.ok.injEq] at h
    subst h
    simp only [id_eq] at h1
    rw [h1, ih h2]
    rfl

theorem joinTasks_inv {α : Type} {rs : List (Res α)} {xs : List α} (h : joinTasks rs = .ok xs) : rs = xs.map .ok := by
  unfold joinTasks at h
  simp only at h
  split at h
  · cases h
  split at h
  · cases h
  split at h
  · cases h
  · exact mapM_inv h

theorem joinTasks_ok {α : Type} (xs : List α) : joinTasks (xs.map (fun x => (.ok x : Res α))) = .ok xs := by
  have he : (xs.map (fun x => (.ok x : Res α))).filterMap failure? = [] := by
    induction xs with
    | nil => rfl
    | cons x xs ih => simp [failure?, ih]
  have hm : (xs.map (fun x => (.ok x : Res α))).mapM id = (.ok xs : Res (List α)) := by
    induction xs with
    | nil => rfl
    | cons x xs ih =>
      simp only [List.map_cons, List.mapM_cons, id_eq, ok_bind]
      rw [ih (by simp only [List.map_cons, List.filterMap_cons, failure?] at he; exact he)]
      rfl
  unfold joinTasks
  simp only [he, List.find?_nil]
  exact hm

theorem tight_join {α β : Type} {F G : β → Res α} (h : ∀ b x, F b = .ok x → G b = .ok x) {l : List β} {xs : List α}
    (e : joinTasks (l.map F) = .ok xs) : joinTasks (l.map G) = .ok xs := by
  rw [tight_tasks h l xs (joinTasks_inv e)]
  exact joinTasks_ok xs

/-- What the tight parser reads the parallel parser reads. -/
theorem tight_co {cfg : Cfg} {v : View} {sm : Option StringMap} {si : SplitInfo} {ref : Bool} (f : Nat) :
    (∀ e c x, tightArrayBlock cfg v sm si ref f e c = .ok x → coArrayBlock cfg v sm si ref f e c = .ok x) ∧
    (∀ i x, tightArray cfg v sm si ref f i = .ok x → coArray cfg v sm si ref f i = .ok x) ∧
    (∀ e c x, tightMapBlock cfg v sm si ref f e c = .ok x → coMapBlock cfg v sm si ref f e c = .ok x) ∧
    (∀ i x, tightMap cfg v sm si ref f i = .ok x → coMap cfg v sm si ref f i = .ok x) := by
  induction f with
  | zero => refine ⟨?_, ?_, ?_, ?_⟩ <;> intros <;> simp_all [tightArrayBlock, tightArray, tightMapBlock, tightMap]
  | succ f ih =>
    obtain ⟨ihA, ihB, ihC, ihD⟩ := ih
    refine ⟨?_, ?_, ?_, ?_⟩
    · intro e c x h
      rw [tightArrayBlock] at h
      rw [coArrayBlock]
      split at h
      · rename_i hlt
        rw [if_pos hlt]
        obtain ⟨⟨t, sp, c1⟩, e1, h⟩ := bind_ok h
        rw [e1]
        simp only [ok_bind] at h ⊢
        obtain ⟨⟨o, c2⟩, e2, h⟩ := bind_ok h
        rw [tight_child (ihB _) (ihD _) e2]
        simp only [ok_bind] at h ⊢
        obtain ⟨xs, e3, h⟩ := bind_ok h
        rw [ihA _ _ _ e3]
        exact h
      · rename_i hlt
        rw [if_neg hlt]
        split at h
        · exact h
        · cases h
    · intro i x h
      rw [tightArray] at h
      rw [coArray]
      simp only at h ⊢
      obtain ⟨⟨n, c1⟩, e1, h⟩ := bind_ok h
      rw [e1]
      simp only [ok_bind] at h ⊢
      obtain ⟨⟨id, c2⟩, e2, h⟩ := bind_ok h
      rw [e2]
      simp only [ok_bind] at h ⊢
      obtain ⟨blocks, e3, h⟩ := bind_ok h
      rw [e3]
      simp only [ok_bind] at h ⊢
      obtain ⟨os, e4, h⟩ := bind_ok h
      rw [← List.map_reverse] at e4 ⊢
      rw [tight_join (fun be x => ihA be.2 ⟨addW 0 be.1, be.1⟩ x) e4]
      exact h
    · intro e c x h
      rw [tightMapBlock] at h
      rw [coMapBlock]
      split at h
      · rename_i hlt
        rw [if_pos hlt]
        obtain ⟨⟨k, c0⟩, e0, h⟩ := bind_ok h
        rw [e0]
        simp only [ok_bind] at h ⊢
        obtain ⟨⟨t, sp, c1⟩, e1, h⟩ := bind_ok h
        rw [e1]
        simp only [ok_bind] at h ⊢
        obtain ⟨⟨o, c2⟩, e2, h⟩ := bind_ok h
        rw [tight_child (ihB _) (ihD _) e2]
        simp only [ok_bind] at h ⊢
        obtain ⟨xs, e3, h⟩ := bind_ok h
        rw [ihC _ _ _ e3]
        exact h
      · rename_i hlt
        rw [if_neg hlt]
        split at h
        · exact h
        · cases h
    · intro i x h
      rw [tightMap] at h
      rw [coMap]
      simp only at h ⊢
      obtain ⟨⟨n, c1⟩, e1, h⟩ := bind_ok h
      rw [e1]
      simp only [ok_bind] at h ⊢
      obtain ⟨⟨id, c2⟩, e2, h⟩ := bind_ok h
      rw [e2]
      simp only [ok_bind] at h ⊢
      obtain ⟨blocks, e3, h⟩ := bind_ok h
      rw [e3]
      simp only [ok_bind] at h ⊢
      obtain ⟨os, e4, h⟩ := bind_ok h
      rw [tight_join (fun be x => ihC be.2 ⟨addW 0 be.1, be.1⟩ x) e4]
      exact h

end Bridge
