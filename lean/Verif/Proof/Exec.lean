import Verif.Model.Exec
import Verif.Proof.Schedule
/-
A parse on a pool of `n` threads is one of the schedules of `Model/Schedule.lean`.
-/
set_option autoImplicit false
namespace Bridge

theorem plainL_map (es : List EProc) : plainL es = es.map EProc.plain := by
  induction es with
  | nil => rfl
  | cons e es ih => simp [plainL, ih]

theorem plainL_enqueue (q : Nat) (ts : List Prog) : plainL (enqueue q ts) = ts.map .run := by
  induction ts generalizing q with
  | nil => rfl
  | cons t ts ih => simp [enqueue, plainL, EProc.plain, ih]

theorem plainL_done (rs : List (Res Blk)) : plainL (rs.map .done) = rs.map fun r => .run (.ret r) := by
  induction rs with
  | nil => rfl
  | cons t ts ih => simp [plainL, EProc.plain, ih]

/-- A step of the pool is a step of the schedule, or taking a task from the queue, or its end. -/
theorem estep_plain {c c' : Cache} {q q' : Nat} {e e' : EProc} {a : Act} (h : EStep c q e a c' q' e') :
    (c' = c ∧ e'.plain = e.plain) ∨ PStep c e.plain c' e'.plain := by
  induction h with
  | take c q t p => exact .inl ⟨rfl, rfl⟩
  | read q p => exact .inr (.read p)
  | beginBuild q p => exact .inr (.beginBuild p)
  | endBuild q p => exact .inr (.endBuild p)
  | fork c q ts k =>
    right
    simp only [EProc.plain, plainL_enqueue]
    exact .fork c ts k
  | finish c q r => exact .inl ⟨rfl, rfl⟩
  | resume c q rs k =>
    right
    simp only [EProc.plain, plainL_done]
    exact .join c rs k
  | reschedule c q rs k =>
    right
    simp only [EProc.plain, plainL_done]
    exact .join c rs k
  | kid pre post k _ ih =>
    simp only [EProc.plain, plainL_map, List.map_append, List.map_cons]
    rcases ih with ⟨h1, h2⟩ | h
    · exact .inl ⟨h1, by rw [h2]⟩
    · exact .inr (.kid _ _ k h)

theorem gsteps_plain {n m : Nat} {s s' : ESt} (h : GSteps n m s s') :
    ∃ m', PSteps m' s.cache s.main.plain s'.cache s'.main.plain := by
  induction h with
  | nil s => exact ⟨0, .nil _ _⟩
  | snoc _ h2 ih =>
    obtain ⟨m', hm⟩ := ih
    cases h2 with
    | mk he _ =>
      rcases estep_plain he with ⟨h1, h2⟩ | h
      · simp only at h1 h2 hm ⊢
        rw [h1, h2]
        exact ⟨m', hm⟩
      · exact ⟨m' + 1, hm.snoc h⟩

/-! ### Workers -/

theorem busyL_append (a b : List EProc) : busyL (a ++ b) = busyL a + busyL b := by
  induction a with
  | nil => simp [busyL]
  | cons t ts ih => simp only [List.cons_append, busyL, ih]; omega

theorem busyL_enqueue (q : Nat) (ts : List Prog) : busyL (enqueue q ts) = 0 := by
  induction ts generalizing q with
  | nil => rfl
  | cons t ts ih => simp only [enqueue, busyL, EProc.busy, ih]

theorem busyL_done (rs : List (Res Blk)) : busyL (rs.map .done) = 0 := by
  induction rs with
  | nil => rfl
  | cons t ts ih => simp only [List.map_cons, busyL, EProc.busy, ih]

theorem estep_busy {c c' : Cache} {q q' : Nat} {e e' : EProc} {a : Act} (h : EStep c q e a c' q' e') :
    e'.busy ≤ e.busy + (if a = .step then 0 else 1) := by
  induction h with
  | take c q t p => simp [EProc.busy]
  | read q p => simp [EProc.busy]
  | beginBuild q p => simp [EProc.busy]
  | endBuild q p => simp [EProc.busy]
  | fork c q ts k => simp [EProc.busy, busyL_enqueue]
  | finish c q r => simp [EProc.busy]
  | resume c q rs k => simp [EProc.busy]
  | reschedule c q rs k => simp [EProc.busy]
  | kid pre post k _ ih => simp only [EProc.busy, busyL_append, busyL]; omega

theorem gstep_busy {n : Nat} {s s' : ESt} (h : GStep n s s') (hb : s.main.busy ≤ n) : s'.main.busy ≤ n := by
  cases h with
  | @mk c c' q q' e e' a he ha =>
    have := estep_busy he
    cases a with
    | take t => have := ha.1; simp at *; omega
    | resume => have : e.busy < n := ha; simp at *; omega
    | step => simp at *; omega

theorem gsteps_busy {n m : Nat} {s s' : ESt} (h : GSteps n m s s') (hb : s.main.busy ≤ n) : s'.main.busy ≤ n := by
  induction h with
  | nil => exact hb
  | snoc _ h2 ih => exact gstep_busy h2 (ih hb)

/-! ### Termination -/

mutual
/-- The number of steps of a program, with those of the pool. -/
def Prog.esize : Prog → Nat
  | .ret _ => 1
  | .touch p => 2 + p.esize
  | .fork ts k => 3 + esizeL ts + (k (evalL ts)).esize
def esizeL : List Prog → Nat
  | [] => 0
  | p :: ps => 1 + p.esize + esizeL ps
end

mutual
def EProc.esize : EProc → Nat
  | .queued _ p => 1 + p.esize
  | .active p => p.esize
  | .building p => 1 + p.esize
  | .wait kids k => 2 + esizeE kids + (k (evalQ (plainL kids))).esize
  | .done _ => 0
def esizeE : List EProc → Nat
  | [] => 0
  | e :: es => e.esize + esizeE es
end

theorem esizeE_append (a b : List EProc) : esizeE (a ++ b) = esizeE a + esizeE b := by
  induction a with
  | nil => simp [esizeE]
  | cons t ts ih => simp only [List.cons_append, esizeE, ih]; omega

theorem esizeE_enqueue (q : Nat) (ts : List Prog) : esizeE (enqueue q ts) = esizeL ts := by
  induction ts generalizing q with
  | nil => rfl
  | cons t ts ih => simp only [enqueue, esizeE, EProc.esize, esizeL, ih]

theorem estep_eval {c c' : Cache} {q q' : Nat} {e e' : EProc} {a : Act} (h : EStep c q e a c' q' e') :
    e'.plain.eval = e.plain.eval := by
  rcases estep_plain h with ⟨-, h⟩ | h
  · rw [h]
  · exact step_eval h

theorem estep_size {c c' : Cache} {q q' : Nat} {e e' : EProc} {a : Act} (h : EStep c q e a c' q' e') : e'.esize < e.esize := by
  induction h with
  | take c q t p => simp only [EProc.esize]; omega
  | read q p => simp only [EProc.esize, Prog.esize]; omega
  | beginBuild q p => simp only [EProc.esize, Prog.esize]; omega
  | endBuild q p => simp only [EProc.esize]; omega
  | fork c q ts k => simp only [EProc.esize, Prog.esize, esizeE_enqueue, plainL_enqueue, evalQ_run]; omega
  | finish c q r => simp only [EProc.esize, Prog.esize]; omega
  | resume c q rs k => simp only [EProc.esize, plainL_done, evalQ_ret]; omega
  | reschedule c q rs k => simp only [EProc.esize, plainL_done, evalQ_ret]; omega
  | kid pre post k h ih =>
    have he := estep_eval h
    simp only [EProc.esize, esizeE_append, esizeE, plainL_map, evalQ_map, List.map_append, List.map_cons, he]; omega

theorem gsteps_size {n m : Nat} {s s' : ESt} (h : GSteps n m s s') : s'.main.esize + m ≤ s.main.esize := by
  induction h with
  | nil => simp
  | snoc _ h2 ih =>
    cases h2 with
    | mk he _ => have := estep_size he; simp only at *; omega

/-! ### Progress -/

theorem within_touch {x e : EProc} (h : x.Within e) : ∀ {p : Prog}, x = .active (.touch p) → AtTouch e.plain := by
  induction h with
  | here => rintro p rfl; exact .here p
  | kid k hm _ ih =>
    intro p hp
    refine AtTouch.kid k ?_ (ih hp)
    rw [plainL_map]
    exact List.mem_map_of_mem hm

theorem within_build {x e : EProc} (h : x.Within e) : ∀ {p : Prog}, x = .building p → AtBuild e.plain := by
  induction h with
  | here => rintro p rfl; exact .here p
  | kid k hm _ ih =>
    intro p hp
    refine AtBuild.kid k ?_ (ih hp)
    rw [plainL_map]
    exact List.mem_map_of_mem hm

/-- A step of a task is a step of the whole. -/
theorem within_step {x e : EProc} (h : x.Within e) : ∀ {c c' : Cache} {q q' : Nat} {x' : EProc} {a : Act},
    EStep c q x a c' q' x' → ∃ e', EStep c q e a c' q' e' := by
  induction h with
  | here => intro _ _ _ _ x' _ h; exact ⟨x', h⟩
  | kid k hm _ ih =>
    intro _ _ _ _ _ _ hs
    obtain ⟨e', he⟩ := ih hs
    obtain ⟨pre, post, rfl⟩ := List.append_of_mem hm
    exact ⟨_, .kid pre post k he⟩

/-- A task on a worker can go on. -/
theorem worker_step {c : Cache} {q : Nat} {x e : EProc} (h : x.Within e) (hw : x.onWorker = true) (hr : ¬ Racy c e.plain)
    (hb : AtBuild e.plain → c = .building) : ∃ c' q' x', EStep c q x .step c' q' x' := by
  cases x with
  | queued t p => cases hw
  | wait kids k => cases hw
  | done r => cases hw
  | building p =>
    have := hb (within_build h rfl)
    subst this
    exact ⟨_, _, _, .endBuild q p⟩
  | active p =>
    cases p with
    | ret r => exact ⟨_, _, _, .finish c q r⟩
    | fork ts k => exact ⟨_, _, _, .fork c q ts k⟩
    | touch p =>
      cases c with
      | unbuilt => exact ⟨_, _, _, .beginBuild q p⟩
      | building => exact absurd ⟨rfl, within_touch h rfl⟩ hr
      | built => exact ⟨_, _, _, .read q p⟩

def EProc.isDone : EProc → Bool
  | .done _ => true
  | _ => false

theorem all_isDone {kids : List EProc} (h : ∀ q ∈ kids, q.isDone = true) : ∃ rs : List (Res Blk), kids = rs.map .done := by
  induction kids with
  | nil => exact ⟨[], rfl⟩
  | cons q qs ih =>
    obtain ⟨rs, hrs⟩ := ih fun x hx => h x (by simp [hx])
    have := h q (by simp)
    match q, this with
    | .done r, _ => exact ⟨r :: rs, by simp [hrs]⟩

/-- What there is in a parse that is not over. -/
def Lively (e : EProc) : Prop :=
  (∃ x : EProc, x.Within e ∧ x.onWorker = true) ∨ e.tickets ≠ [] ∨ ∃ (rs : List (Res Blk)) (k : List (Res Blk) → Prog), (EProc.wait (rs.map .done) k).Within e

mutual
theorem lively : ∀ e : EProc, e.isDone = false → Lively e
  | .queued t p, _ => .inr (.inl (by simp [EProc.tickets]))
  | .active p, _ => .inl ⟨_, .here, rfl⟩
  | .building p, _ => .inl ⟨_, .here, rfl⟩
  | .done r, h => by cases h
  | .wait kids k, _ => by
    rcases livelyL kids with hd | ⟨e, he, hl⟩
    · obtain ⟨rs, rfl⟩ := all_isDone hd
      exact .inr (.inr ⟨rs, k, .here⟩)
    · rcases hl with ⟨x, hx, hw⟩ | ht | ⟨rs, k', hk⟩
      · exact .inl ⟨x, .kid k he hx, hw⟩
      · refine .inr (.inl ?_)
        simp only [EProc.tickets]
        intro h0
        apply ht
        clear ht
        induction kids with
        | nil => cases he
        | cons a as ih =>
          simp only [ticketsL, List.append_eq_nil_iff] at h0
          rcases List.mem_cons.1 he with rfl | he
          · exact h0.1
          · exact ih rfl he h0.2
      · exact .inr (.inr ⟨rs, k', .kid k he hk⟩)
theorem livelyL : ∀ es : List EProc, (∀ e ∈ es, e.isDone = true) ∨ ∃ e ∈ es, Lively e
  | [] => .inl (by simp)
  | e :: es => by
    cases hd : e.isDone with
    | false => exact .inr ⟨e, by simp, lively e hd⟩
    | true =>
      rcases livelyL es with h | ⟨x, hx, hl⟩
      · refine .inl fun x hx => ?_
        rcases List.mem_cons.1 hx with rfl | hx
        · exact hd
        · exact h x hx
      · exact .inr ⟨x, List.mem_cons_of_mem _ hx, hl⟩
end

theorem ticket_mem {t : Nat} : ∀ (e : EProc), t ∈ e.tickets → ∃ p, (EProc.queued t p).Within e := by
  intro e
  induction hn : sizeOf e using Nat.strongRecOn generalizing e with
  | _ n ih =>
    cases e with
    | queued t' p => intro h; simp only [EProc.tickets, List.mem_singleton] at h; subst h; exact ⟨p, .here⟩
    | active p => intro h; cases h
    | building p => intro h; cases h
    | done r => intro h; cases h
    | wait kids k =>
      intro h
      simp only [EProc.tickets] at h
      have key : ∀ l : List EProc, t ∈ ticketsL l → ∃ e ∈ l, t ∈ e.tickets := by
        intro l
        induction l with
        | nil => intro h; cases h
        | cons a as ih =>
          intro h
          simp only [ticketsL, List.mem_append] at h
          rcases h with h | h
          · exact ⟨a, by simp, h⟩
          · obtain ⟨e, he, h⟩ := ih h
            exact ⟨e, List.mem_cons_of_mem _ he, h⟩
      obtain ⟨e, he, ht⟩ := key kids h
      have hlt := List.sizeOf_lt_of_mem he
      obtain ⟨p, hp⟩ := ih (sizeOf e) (by subst hn; simp only [EProc.wait.sizeOf_spec]; omega) e rfl ht
      exact ⟨p, .kid k he hp⟩

theorem min_mem : ∀ {l : List Nat}, l ≠ [] → ∃ t ∈ l, ∀ t' ∈ l, t ≤ t'
  | [a], _ => ⟨a, by simp, by simp⟩
  | a :: b :: l, _ => by
    obtain ⟨t, ht, hm⟩ := min_mem (l := b :: l) (by simp)
    by_cases hat : a ≤ t
    · refine ⟨a, by simp, fun t' h => ?_⟩
      rcases List.mem_cons.1 h with rfl | h
      · exact Nat.le_refl _
      · exact Nat.le_trans hat (hm t' h)
    · refine ⟨t, List.mem_cons_of_mem _ ht, fun t' h => ?_⟩
      rcases List.mem_cons.1 h with rfl | h
      · omega
      · exact hm t' h

theorem busyL_mem {e : EProc} {kids : List EProc} (h : e ∈ kids) : e.busy ≤ busyL kids := by
  induction kids with
  | nil => cases h
  | cons t ts ih =>
    simp only [busyL]
    rcases List.mem_cons.1 h with rfl | h
    · omega
    · have := ih h; omega

theorem busy_of_worker {x e : EProc} (h : x.Within e) (hw : x.onWorker = true) : 0 < e.busy := by
  induction h with
  | here => cases x <;> simp_all [EProc.onWorker, EProc.busy]
  | kid k hm _ ih => have := busyL_mem hm; simp only [EProc.busy]; omega

/-- If no task is on a worker, no worker is in use. -/
theorem worker_of_busy : ∀ (e : EProc), 0 < e.busy → ∃ x : EProc, x.Within e ∧ x.onWorker = true := by
  intro e
  induction hn : sizeOf e using Nat.strongRecOn generalizing e with
  | _ n ih =>
    cases e with
    | queued t' p => intro h; simp [EProc.busy] at h
    | active p => intro _; exact ⟨_, .here, rfl⟩
    | building p => intro _; exact ⟨_, .here, rfl⟩
    | done r => intro h; simp [EProc.busy] at h
    | wait kids k =>
      intro h
      simp only [EProc.busy] at h
      have key : ∀ l : List EProc, 0 < busyL l → ∃ e ∈ l, 0 < e.busy := by
        intro l
        induction l with
        | nil => intro h; simp [busyL] at h
        | cons a as ih =>
          intro h
          simp only [busyL] at h
          by_cases ha : 0 < a.busy
          · exact ⟨a, by simp, ha⟩
          · obtain ⟨e, he, h⟩ := ih (by omega)
            exact ⟨e, List.mem_cons_of_mem _ he, h⟩
      obtain ⟨e, he, ht⟩ := key kids h
      have hlt := List.sizeOf_lt_of_mem he
      obtain ⟨x, hx, hw⟩ := ih (sizeOf e) (by subst hn; simp only [EProc.wait.sizeOf_spec]; omega) e rfl ht
      exact ⟨x, .kid k he hx, hw⟩

/-! ### Tickets -/

theorem ticketsL_append (a b : List EProc) : ticketsL (a ++ b) = ticketsL a ++ ticketsL b := by
  induction a with
  | nil => rfl
  | cons t ts ih => simp only [List.cons_append, ticketsL, ih, List.append_assoc]

theorem ticketsL_enqueue (q : Nat) (ts : List Prog) : ticketsL (enqueue q ts) = List.range' q ts.length := by
  induction ts generalizing q with
  | nil => rfl
  | cons t ts ih => simp only [enqueue, ticketsL, EProc.tickets, ih, List.length_cons, List.range'_succ, List.singleton_append]

theorem ticketsL_done (rs : List (Res Blk)) : ticketsL (rs.map .done) = [] := by
  induction rs with
  | nil => rfl
  | cons t ts ih => simp only [List.map_cons, ticketsL, EProc.tickets, ih, List.append_nil]

/-- The ticket of the task taken. -/
def Act.taken : Act → List Nat
  | .take t => [t]
  | _ => []

/-- A step removes at most one ticket, that of the task taken, and adds new ones. -/
theorem estep_tickets {c c' : Cache} {q q' : Nat} {e e' : EProc} {a : Act} (h : EStep c q e a c' q' e') :
    q ≤ q' ∧ (e'.tickets ++ a.taken).Perm (e.tickets ++ List.range' q (q' - q)) := by
  induction h with
  | take c q t p => simp [Act.taken, EProc.tickets]
  | read q p => simp [Act.taken, EProc.tickets]
  | beginBuild q p => simp [Act.taken, EProc.tickets]
  | endBuild q p => simp [Act.taken, EProc.tickets]
  | fork c q ts k => simp [Act.taken, EProc.tickets, ticketsL_enqueue]
  | finish c q r => simp [Act.taken, EProc.tickets]
  | resume c q rs k => simp [Act.taken, EProc.tickets, ticketsL_done]
  | reschedule c q rs k => simp [Act.taken, EProc.tickets, ticketsL_done]
  | kid pre post k _ ih =>
    refine ⟨ih.1, ?_⟩
    have ih := ih.2
    simp only [EProc.tickets, ticketsL_append, ticketsL]
    rw [List.perm_iff_count] at ih ⊢
    intro x
    have := ih x
    simp only [List.count_append] at this ⊢
    omega

/-- The tickets in the queue are distinct and were given out. -/
def Ticketed (s : ESt) : Prop := s.main.tickets.Nodup ∧ ∀ t ∈ s.main.tickets, t < s.next

theorem gstep_ticketed {n : Nat} {s s' : ESt} (h : GStep n s s') (ht : Ticketed s) : Ticketed s' := by
  cases h with
  | @mk c c' q q' e e' a he ha =>
    obtain ⟨hq, hp⟩ := estep_tickets he
    obtain ⟨h1, h2⟩ := ht
    simp only at h1 h2
    have hall : (e.tickets ++ List.range' q (q' - q)).Nodup := by
      rw [List.nodup_append]
      refine ⟨h1, List.nodup_range', fun x hx y hy hxy => ?_⟩
      subst hxy
      have := h2 x hx
      simp only [List.mem_range'_1] at hy
      omega
    refine ⟨(List.nodup_append.1 (hp.nodup_iff.2 hall)).1, fun t hm => ?_⟩
    have := hp.mem_iff.1 (List.mem_append.2 (.inl hm))
    rcases List.mem_append.1 this with h | h
    · have := h2 t h; simp only; omega
    · simp only [List.mem_range'_1] at h; simp only; omega

theorem gsteps_ticketed {n m : Nat} {s s' : ESt} (h : GSteps n m s s') (ht : Ticketed s) : Ticketed s' := by
  induction h with
  | nil => exact ht
  | snoc _ h2 ih => exact gstep_ticketed h2 (ih ht)

end Bridge
