import Verif.Model.Schedule
import Verif.Proof.Top
/-
Every schedule of the coroutine parser computes what `Model/CoParse.lean` computes.
-/
set_option autoImplicit false
namespace Bridge

mutual
/-- The outcome of a program when its tasks run one after the other. -/
def Prog.eval : Prog → Res Blk
  | .ret r => r
  | .touch p => p.eval
  | .fork ts k => (k (evalL ts)).eval

def evalL : List Prog → List (Res Blk)
  | [] => []
  | p :: ps => p.eval :: evalL ps
end

mutual
/-- The number of steps of a program. -/
def Prog.size : Prog → Nat
  | .ret _ => 0
  | .touch p => 2 + p.size
  | .fork ts k => 2 + sizeL ts + (k (evalL ts)).size

def sizeL : List Prog → Nat
  | [] => 0
  | p :: ps => p.size + sizeL ps
end

mutual
def Proc.eval : Proc → Res Blk
  | .run p => p.eval
  | .build p => p.eval
  | .wait kids k => (k (evalQ kids)).eval

def evalQ : List Proc → List (Res Blk)
  | [] => []
  | p :: ps => p.eval :: evalQ ps
end

mutual
def Proc.size : Proc → Nat
  | .run p => p.size
  | .build p => 1 + p.size
  | .wait kids k => 1 + sizeQ kids + (k (evalQ kids)).size

def sizeQ : List Proc → Nat
  | [] => 0
  | p :: ps => p.size + sizeQ ps
end

theorem evalL_map (ts : List Prog) : evalL ts = ts.map Prog.eval := by
  induction ts with
  | nil => rfl
  | cons t ts ih => simp [evalL, ih]

theorem evalQ_map (ts : List Proc) : evalQ ts = ts.map Proc.eval := by
  induction ts with
  | nil => rfl
  | cons t ts ih => simp [evalQ, ih]

theorem sizeQ_append (a b : List Proc) : sizeQ (a ++ b) = sizeQ a + sizeQ b := by
  induction a with
  | nil => simp [sizeQ]
  | cons t ts ih => simp only [List.cons_append, sizeQ, ih]; omega

theorem sizeQ_run (ts : List Prog) : sizeQ (ts.map .run) = sizeL ts := by
  induction ts with
  | nil => rfl
  | cons t ts ih => simp only [List.map_cons, sizeQ, sizeL, ih, Proc.size]

theorem evalQ_run (ts : List Prog) : evalQ (ts.map .run) = evalL ts := by
  induction ts with
  | nil => rfl
  | cons t ts ih => simp only [List.map_cons, evalQ, evalL, ih, Proc.eval]

theorem evalQ_ret (rs : List (Res Blk)) : evalQ (rs.map fun r => .run (.ret r)) = rs := by
  induction rs with
  | nil => rfl
  | cons t ts ih => simp only [List.map_cons, evalQ, ih, Proc.eval, Prog.eval]

theorem step_eval {c c' : Cache} {p p' : Proc} (h : PStep c p c' p') : p'.eval = p.eval := by
  induction h with
  | read p => simp [Proc.eval, Prog.eval]
  | beginBuild p => simp [Proc.eval, Prog.eval]
  | endBuild p => simp [Proc.eval]
  | fork c ts k => simp [Proc.eval, Prog.eval, evalQ_run]
  | kid pre post k _ ih => simp [Proc.eval, evalQ_map, ih]
  | join c rs k => simp [Proc.eval, evalQ_ret]

theorem step_size {c c' : Cache} {p p' : Proc} (h : PStep c p c' p') : p'.size < p.size := by
  induction h with
  | read p => simp only [Proc.size, Prog.size]; omega
  | beginBuild p => simp only [Proc.size, Prog.size]; omega
  | endBuild p => simp only [Proc.size]; omega
  | fork c ts k => simp only [Proc.size, Prog.size, sizeQ_run, evalQ_run]; omega
  | kid pre post k h ih =>
    have he := step_eval h
    simp only [Proc.size, sizeQ_append, sizeQ, evalQ_map, List.map_append, List.map_cons, he]; omega
  | join c rs k => simp only [Proc.size, evalQ_ret]; omega

theorem steps_eval {n : Nat} {c c' : Cache} {p p' : Proc} (h : PSteps n c p c' p') : p'.eval = p.eval := by
  induction h with
  | nil => rfl
  | snoc _ h2 ih => rw [step_eval h2, ih]

theorem steps_size {n : Nat} {c c' : Cache} {p p' : Proc} (h : PSteps n c p c' p') : p'.size + n ≤ p.size := by
  induction h with
  | nil => simp
  | snoc _ h2 ih => have := step_size h2; omega

/-! ### Progress -/

/-- The tasks that are inside `buildReMap`. -/
inductive AtBuild : Proc → Prop
  | here (p : Prog) : AtBuild (.build p)
  | kid {q : Proc} {kids : List Proc} (k : List (Res Blk) → Prog) : q ∈ kids → AtBuild q → AtBuild (.wait kids k)

def Proc.done : Proc → Prop
  | .run (.ret _) => True
  | _ => False

theorem all_done {kids : List Proc} (h : ∀ q ∈ kids, q.done) : ∃ rs : List (Res Blk), kids = rs.map fun r => .run (.ret r) := by
  induction kids with
  | nil => exact ⟨[], rfl⟩
  | cons q qs ih =>
    obtain ⟨rs, hrs⟩ := ih fun x hx => h x (by simp [hx])
    have := h q (by simp)
    match q, this with
    | .run (.ret r), _ => exact ⟨r :: rs, by simp [hrs]⟩

mutual
theorem progress (c : Cache) : ∀ p : Proc, ¬ p.done → ¬ Racy c p → (AtBuild p → c = .building) →
    ∃ c' p', PStep c p c' p'
  | .run (.ret r), h, _, _ => absurd trivial h
  | .run (.touch p), _, hr, _ => by
    cases c with
    | unbuilt => exact ⟨_, _, .beginBuild p⟩
    | building => exact absurd ⟨rfl, .here p⟩ hr
    | built => exact ⟨_, _, .read p⟩
  | .run (.fork ts k), _, _, _ => ⟨_, _, .fork c ts k⟩
  | .build p, _, _, h => by
    have := h (.here p); subst this
    exact ⟨_, _, .endBuild p⟩
  | .wait kids k, _, hr, h => by
    rcases progressL c kids (fun q hq hrq => hr ⟨hrq.1, .kid k hq hrq.2⟩) (fun q hq hq2 => h (.kid k hq hq2)) with hd | hs
    · obtain ⟨rs, rfl⟩ := all_done hd
      exact ⟨_, _, .join c rs k⟩
    · obtain ⟨pre, q, q', post, c', rfl, hq⟩ := hs
      exact ⟨_, _, .kid pre post k hq⟩

theorem progressL (c : Cache) : ∀ kids : List Proc, (∀ q ∈ kids, ¬ Racy c q) →
    (∀ q ∈ kids, AtBuild q → c = .building) →
    (∀ q ∈ kids, q.done) ∨ ∃ pre q q' post c', kids = pre ++ q :: post ∧ PStep c q c' q'
  | [], _, _ => .inl (by simp)
  | q :: qs, hr, h => by
    by_cases hd : q.done
    · rcases progressL c qs (fun x hx => hr x (by simp [hx])) (fun x hx => h x (by simp [hx])) with hd2 | ⟨pre, x, x', post, c', h1, h2⟩
      · left; intro x hx
        rcases List.mem_cons.1 hx with rfl | hx
        · exact hd
        · exact hd2 x hx
      · right; exact ⟨q :: pre, x, x', post, c', by simp [h1], h2⟩
    · right
      obtain ⟨c', q', hs⟩ := progress c q hd (hr q (by simp)) (h q (by simp))
      exact ⟨[], q, q', qs, c', rfl, hs⟩
end

mutual
def Proc.builders : Proc → Nat
  | .run _ => 0
  | .build _ => 1
  | .wait kids _ => buildersQ kids

def buildersQ : List Proc → Nat
  | [] => 0
  | p :: ps => p.builders + buildersQ ps
end

theorem buildersQ_append (a b : List Proc) : buildersQ (a ++ b) = buildersQ a + buildersQ b := by
  induction a with
  | nil => simp [buildersQ]
  | cons t ts ih => simp only [List.cons_append, buildersQ, ih]; omega

theorem buildersQ_run (ts : List Prog) : buildersQ (ts.map .run) = 0 := by
  induction ts with
  | nil => rfl
  | cons t ts ih => simp only [List.map_cons, buildersQ, ih, Proc.builders]

theorem buildersQ_ret (rs : List (Res Blk)) : buildersQ (rs.map fun r => .run (.ret r)) = 0 := by
  induction rs with
  | nil => rfl
  | cons t ts ih => simp only [List.map_cons, buildersQ, ih, Proc.builders]

theorem buildersQ_mem {q : Proc} {kids : List Proc} (h : q ∈ kids) : q.builders ≤ buildersQ kids := by
  induction kids with
  | nil => cases h
  | cons t ts ih =>
    simp only [buildersQ]
    rcases List.mem_cons.1 h with rfl | h
    · omega
    · have := ih h; omega

theorem builders_pos {p : Proc} (h : AtBuild p) : 0 < p.builders := by
  induction h with
  | here p => simp [Proc.builders]
  | kid k hq _ ih => have := buildersQ_mem hq; simp only [Proc.builders]; omega

/-- One builder while the table is being built, none otherwise. -/
def Cache.busy (c : Cache) : Nat := if c = .building then 1 else 0

theorem step_builders {c c' : Cache} {p p' : Proc} (h : PStep c p c' p') : p'.builders + c.busy = p.builders + c'.busy := by
  induction h with
  | read p => simp [Proc.builders]
  | beginBuild p => simp [Proc.builders, Cache.busy]
  | endBuild p => simp [Proc.builders, Cache.busy]
  | fork c ts k => simp [Proc.builders, buildersQ_run]
  | kid pre post k h ih => simp only [Proc.builders, buildersQ_append, buildersQ]; omega
  | join c rs k => simp only [Proc.builders, buildersQ_ret]

theorem steps_builders {n : Nat} {c c' : Cache} {p p' : Proc} (h : PSteps n c p c' p') :
    p'.builders + c.busy = p.builders + c'.busy := by
  induction h with
  | nil => rfl
  | snoc _ h2 ih => have := step_builders h2; omega

/-! ### Reading the dictionary before forking -/

/-- The program reads the dictionary before it has two tasks at a time, if it ever does. -/
inductive Solo : Prog → Prop
  | ret (r : Res Blk) : Solo (.ret r)
  | touch (p : Prog) : Solo (.touch p)
  | none (k : List (Res Blk) → Prog) : (∀ rs, Solo (k rs)) → Solo (.fork [] k)
  | one (t : Prog) (k : List (Res Blk) → Prog) : Solo t → (∀ rs, Solo (k rs)) → Solo (.fork [t] k)

inductive SoloQ : Proc → Prop
  | run {p : Prog} : Solo p → SoloQ (.run p)
  | none (k : List (Res Blk) → Prog) : (∀ rs, Solo (k rs)) → SoloQ (.wait [] k)
  | one (t : Proc) (k : List (Res Blk) → Prog) : SoloQ t → (∀ rs, Solo (k rs)) → SoloQ (.wait [t] k)

/-- A single chain of tasks, the last of which builds the table. -/
inductive BuildQ : Proc → Prop
  | build (p : Prog) : BuildQ (.build p)
  | one (t : Proc) (k : List (Res Blk) → Prog) : BuildQ t → BuildQ (.wait [t] k)

/-- The invariant: while the table is not complete there is a single chain of tasks. -/
def Calm (c : Cache) (p : Proc) : Prop :=
  match c with
  | .unbuilt => SoloQ p
  | .building => BuildQ p
  | .built => True

theorem split_one {α : Type} {pre post : List α} {w w0 : α} (h : pre ++ w0 :: post = [w]) : pre = [] ∧ post = [] ∧ w0 = w := by
  cases pre with
  | nil => simp at h; exact ⟨rfl, h.2, h.1⟩
  | cons a b => simp at h

theorem cache_mono {c c' : Cache} {p p' : Proc} (h : PStep c p c' p') :
    (c ≠ .unbuilt → c' ≠ .unbuilt) ∧ (c = .built → c' = .built) := by
  induction h with
  | kid _ _ _ _ ih => exact ih
  | _ => simp

theorem calm_step {c c' : Cache} {p p' : Proc} (h : PStep c p c' p') : Calm c p → Calm c' p' := by
  induction h with
  | read p => intro _; trivial
  | beginBuild p => intro _; exact .build p
  | endBuild p => intro _; trivial
  | fork c ts k =>
    intro hc
    cases c with
    | unbuilt =>
      cases hc with
      | run hs =>
        cases hs with
        | none k hk => exact .none k hk
        | one t k ht hk => exact .one (.run t) k (.run ht) hk
    | building => cases hc
    | built => trivial
  | @kid c c' q q' pre post k h ih =>
    intro hc
    cases c with
    | unbuilt =>
      have hc : SoloQ (.wait (pre ++ q :: post) k) := hc
      generalize hkids : pre ++ q :: post = kids at hc
      cases hc with
      | none k hk => simp at hkids
      | one t k ht hk =>
        obtain ⟨rfl, rfl, rfl⟩ := split_one hkids
        have := ih ht
        cases c' with
        | unbuilt => exact .one q' k this hk
        | building => exact .one q' k this
        | built => trivial
    | building =>
      have hc : BuildQ (.wait (pre ++ q :: post) k) := hc
      generalize hkids : pre ++ q :: post = kids at hc
      cases hc with
      | one t k ht =>
        obtain ⟨rfl, rfl, rfl⟩ := split_one hkids
        have := ih ht
        cases c' with
        | unbuilt => exact absurd rfl ((cache_mono h).1 (by simp))
        | building => exact .one q' k this
        | built => trivial
    | built =>
      have := (cache_mono h).2 rfl
      subst this; trivial
  | join c rs k =>
    intro hc
    cases c with
    | unbuilt =>
      have hc : SoloQ (.wait (rs.map fun r => .run (.ret r)) k) := hc
      generalize hkids : (rs.map fun r => Proc.run (.ret r)) = kids at hc
      cases hc with
      | none k hk => exact .run (hk rs)
      | one t k ht hk => exact .run (hk rs)
    | building =>
      have hc : BuildQ (.wait (rs.map fun r => .run (.ret r)) k) := hc
      generalize hkids : (rs.map fun r => Proc.run (.ret r)) = kids at hc
      cases hc with
      | one t k ht =>
        have : t ∈ rs.map fun r => Proc.run (.ret r) := by rw [hkids]; simp
        obtain ⟨r, -, rfl⟩ := List.mem_map.1 this
        cases ht
    | built => trivial

theorem calm_steps {n : Nat} {c c' : Cache} {p p' : Proc} (h : PSteps n c p c' p') (h0 : Calm c p) : Calm c' p' := by
  induction h with
  | nil => exact h0
  | snoc _ h2 ih => exact calm_step h2 (ih h0)

theorem buildQ_not_touch {p : Proc} (h : BuildQ p) : ¬ AtTouch p := by
  induction h with
  | build p => intro h; cases h
  | one t k _ ih =>
    intro h
    cases h with
    | kid _ hq h => rw [List.mem_singleton.1 hq] at h; exact ih h

theorem calm_not_racy {c : Cache} {p : Proc} (h : Calm c p) : ¬ Racy c p := by
  rintro ⟨rfl, h2⟩
  exact buildQ_not_touch h h2

end Bridge
