import Verif.Proof.Schedule
/-
The programs of `Model/Schedule.lean` compute what the functions of `Model/CoParse.lean` compute.
-/
set_option autoImplicit false
namespace Bridge

/-! ### The programs compute what the functions compute -/

theorem evalL_map' {α : Type} (l : List α) (f : α → Prog) : evalL (l.map f) = l.map fun x => (f x).eval := by
  rw [evalL_map, List.map_map]; rfl

theorem eval_dictRead (sm : Option StringMap) (p : Prog) : (dictRead sm p).eval = p.eval := by
  cases sm <;> simp [dictRead, Prog.eval]

theorem toObjs_map (r : Res (List Obj)) : Blk.toObjs (mapRes .objs r) = r := by cases r <;> rfl
theorem toEntries_map (r : Res (List (Str × Obj))) : Blk.toEntries (mapRes .entries r) = r := by cases r <;> rfl

/-- What the programs of one depth compute. -/
structure CorosOk (cfg : Cfg) (v : View) (sm : Option StringMap) (si : SplitInfo) (parseRef : Bool) (f : Nat) (cs : Coros) : Prop where
  arrayBlock : ∀ end_ c k, (cs.arrayBlock end_ c k).eval = (k (coArrayBlock cfg v sm si parseRef f end_ c)).eval
  array : ∀ os k, (cs.array os k).eval = (k (coArray cfg v sm si parseRef f os)).eval
  mapBlock : ∀ end_ c k, (cs.mapBlock end_ c k).eval = (k (coMapBlock cfg v sm si parseRef f end_ c)).eval
  map : ∀ os k, (cs.map os k).eval = (k (coMap cfg v sm si parseRef f os)).eval

theorem childP_eval {cfg : Cfg} {v : View} {sm : Option StringMap} {si : SplitInfo} {parseRef : Bool} {f : Nat} {cs : Coros}
    (h : CorosOk cfg v sm si parseRef f cs) (split : Bool) (t : ObjectType) (c : Cur) (k : Res (Obj × Cur) → Prog) :
    (childP cfg v sm parseRef cs f split t c k).eval =
      (k (coChild split t (parseVal cfg v sm parseRef .frame f t c) (coArray cfg v sm si parseRef f c.idx)
        (coMap cfg v sm si parseRef f c.idx))).eval := by
  cases split with
  | false => simp [childP, coChild, eval_dictRead]
  | true => cases t <;> simp [childP, coChild, h.array, h.map]

theorem res_bind_assoc {α β γ : Type} (r : Res α) (g : α → Res β) (h : β → Res γ) :
    (r >>= g) >>= h = r >>= fun a => g a >>= h := by
  cases r <;> rfl

theorem coArray_eq (cfg : Cfg) (v : View) (sm : Option StringMap) (si : SplitInfo) (parseRef : Bool) (f os : Nat) :
    coArray cfg v sm si parseRef (f + 1) os =
      boundsP cfg v si os >>= fun b => gatherArray b.2
        (b.1.map fun be => mapRes .objs (coArrayBlock cfg v sm si parseRef f be.2 ⟨addW 0 be.1, be.1⟩)) := by
  rw [coArray]
  unfold boundsP gatherArray
  simp only [res_bind_assoc, List.map_map]
  have : (Blk.toObjs ∘ fun be : Nat × Nat => mapRes Blk.objs (coArrayBlock cfg v sm si parseRef f be.2 ⟨addW 0 be.1, be.1⟩)) =
      fun be => coArrayBlock cfg v sm si parseRef f be.2 ⟨addW 0 be.1, be.1⟩ := by
    funext be; exact toObjs_map _
  simp only [this]
  congr 1

theorem coMap_eq (cfg : Cfg) (v : View) (sm : Option StringMap) (si : SplitInfo) (parseRef : Bool) (f os : Nat) :
    coMap cfg v sm si parseRef (f + 1) os =
      boundsP cfg v si os >>= fun b => gatherMap parseRef b.2
        (b.1.map fun be => mapRes .entries (coMapBlock cfg v sm si parseRef f be.2 ⟨addW 0 be.1, be.1⟩)) := by
  rw [coMap]
  unfold boundsP gatherMap
  simp only [res_bind_assoc, List.map_map]
  have : (Blk.toEntries ∘ fun be : Nat × Nat => mapRes Blk.entries (coMapBlock cfg v sm si parseRef f be.2 ⟨addW 0 be.1, be.1⟩)) =
      fun be => coMapBlock cfg v sm si parseRef f be.2 ⟨addW 0 be.1, be.1⟩ := by
    funext be; exact toEntries_map _
  simp only [this]
  congr 1

theorem onRes_eval {α β : Type} (r : Res α) (k : Res β → Prog) (next : α → Prog) (g : α → Res β)
    (h : ∀ a, (next a).eval = (k (g a)).eval) : (onRes r (fun e => k (.error e)) next).eval = (k (r >>= g)).eval := by
  cases r with
  | error e => rfl
  | ok a => exact h a

theorem mapRes_bind {α β : Type} (f : α → β) (r : Res α) : mapRes f r = r >>= fun a => pure (f a) := by
  cases r <;> rfl

theorem coArrayBlock_eq (cfg : Cfg) (v : View) (sm : Option StringMap) (si : SplitInfo) (parseRef : Bool) (f end_ : Nat) (c : Cur) :
    coArrayBlock cfg v sm si parseRef (f + 1) end_ c =
      if c.off < end_ then
        parseObjectTypeSplit v c >>= fun x =>
          coChild x.2.1 x.1 (parseVal cfg v sm parseRef .frame f x.1 x.2.2) (coArray cfg v sm si parseRef f x.2.2.idx)
            (coMap cfg v sm si parseRef f x.2.2.idx) >>= fun y =>
              mapRes (y.1 :: ·) (coArrayBlock cfg v sm si parseRef f end_ y.2)
      else .ok [] := by
  simp only [mapRes_bind]
  rw [coArrayBlock]

theorem coMapBlock_eq (cfg : Cfg) (v : View) (sm : Option StringMap) (si : SplitInfo) (parseRef : Bool) (f end_ : Nat) (c : Cur) :
    coMapBlock cfg v sm si parseRef (f + 1) end_ c =
      if c.off < end_ then
        parseKeyBlock cfg v sm parseRef c >>= fun kc =>
          parseObjectTypeSplit v kc.2 >>= fun x =>
            coChild x.2.1 x.1 (parseVal cfg v sm parseRef .frame f x.1 x.2.2) (coArray cfg v sm si parseRef f x.2.2.idx)
              (coMap cfg v sm si parseRef f x.2.2.idx) >>= fun y =>
                mapRes ((kc.1, y.1) :: ·) (coMapBlock cfg v sm si parseRef f end_ y.2)
      else .ok [] := by
  simp only [mapRes_bind]
  rw [coMapBlock]

theorem coros_zero (cfg : Cfg) (v : View) (sm : Option StringMap) (si : SplitInfo) (parseRef : Bool) :
    CorosOk cfg v sm si parseRef 0 (coros cfg v sm si parseRef 0) := by
  refine ⟨?_, ?_, ?_, ?_⟩
  · intro end_ c k; rw [coArrayBlock]; rfl
  · intro end_ k; rw [coArray]; rfl
  · intro end_ c k; rw [coMapBlock]; rfl
  · intro end_ k; rw [coMap]; rfl

theorem coros_succ {cfg : Cfg} {v : View} {sm : Option StringMap} {si : SplitInfo} {parseRef : Bool} {f : Nat} {cs : Coros}
    (ih : CorosOk cfg v sm si parseRef f cs) :
    CorosOk cfg v sm si parseRef (f + 1)
      ⟨arrayBlockP cfg v sm parseRef cs f, arrayP cfg v si cs, mapBlockP cfg v sm parseRef cs f, mapP cfg v si parseRef cs⟩ := by
  refine ⟨?_, ?_, ?_, ?_⟩
  · intro end_ c k
    rw [coArrayBlock_eq]
    show (arrayBlockP cfg v sm parseRef cs f end_ c k).eval = _
    unfold arrayBlockP
    split
    · apply onRes_eval
      intro x
      rw [childP_eval ih]
      apply onRes_eval
      intro y
      rw [ih.arrayBlock]
    · rfl
  · intro os k
    rw [coArray_eq]
    show (arrayP cfg v si cs os k).eval = _
    unfold arrayP
    apply onRes_eval
    intro b
    simp only [Prog.eval, evalL_map', ih.arrayBlock]
  · intro end_ c k
    rw [coMapBlock_eq]
    show (mapBlockP cfg v sm parseRef cs f end_ c k).eval = _
    unfold mapBlockP
    split
    · rw [eval_dictRead]
      apply onRes_eval
      intro kc
      apply onRes_eval
      intro x
      rw [childP_eval ih]
      apply onRes_eval
      intro y
      rw [ih.mapBlock]
    · rfl
  · intro os k
    rw [coMap_eq]
    show (mapP cfg v si parseRef cs os k).eval = _
    unfold mapP
    apply onRes_eval
    intro b
    simp only [Prog.eval, evalL_map', ih.mapBlock]

theorem coros_ok (cfg : Cfg) (v : View) (sm : Option StringMap) (si : SplitInfo) (parseRef : Bool) :
    ∀ f, CorosOk cfg v sm si parseRef f (coros cfg v sm si parseRef f)
  | 0 => coros_zero cfg v sm si parseRef
  | f + 1 => coros_succ (coros_ok cfg v sm si parseRef f)

end Bridge
