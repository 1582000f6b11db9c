import Verif.Model.HeapOom
import Verif.Proof.CoExec
/-
Refused requests leave the graph of the objects alone.
-/
set_option autoImplicit false
namespace Bridge.Heap
open Spec

/-- A new item that nothing refers to and that refers to nothing. -/
def Mem.orphan (m : Mem) (p : Nat) : Mem :=
  { m with cells := upd m.cells m.top (some (.item noKey none none)), top := m.top + 1, owner := upd m.owner m.top (some p) }

/-- What `Serialize` leaves behind. -/
def Mem.eaten (m : Mem) (p x : Nat) : Mem :=
  { m with
    cells := upd m.cells m.top (some (.item ⟨rootKey, none⟩ (m.vars x) none)), top := m.top + 1, owner := upd m.owner m.top (some p),
    vars := upd m.vars x none }

theorem refused_cases {m m' : Mem} {t : When} {c : Call} (h : Refused m t c m') :
    (t = .before ∧ m' = m) ∨
    (t = .before ∧ ∃ c' key x r pool head size, c = .insertKey c' key x ∧ m.loadCont false c' = .ok (r, .map false, pool, head, size) ∧
      m.pools pool = true ∧ m' = m.orphan pool) ∨
    (t = .after ∧ ∃ ty p x, c = .serialize ty p x ∧ m.pools p = true ∧ m' = m.eaten p x) := by
  cases h with
  | key c key x r pool head size _ node h1 h2 =>
    obtain ⟨e, hp⟩ := alloc_ok h2
    cases e
    exact .inr (.inl ⟨rfl, _, _, _, _, _, _, _, rfl, h1, hp, rfl⟩)
  | writing t p x _ node h1 =>
    obtain ⟨hp, e⟩ := rootInsert_ok h1
    cases e
    exact .inr (.inr ⟨rfl, _, _, _, rfl, hp, rfl⟩)
  | _ => exact .inl ⟨rfl, rfl⟩

theorem inv_orphan {m : Mem} {L : Ref → List Ref} (h : Inv m L) (p : Nat) : Inv (m.orphan p) L := by
  have keep : ∀ {r c}, m.cells r = some c → (m.orphan p).cells r = some c := by
    intro r c e
    show upd _ _ _ _ = _
    rw [upd_ne _ _ (Nat.ne_of_lt (h.lt e))]; exact e
  have back : ∀ {r c}, (m.orphan p).cells r = some c → (r = m.top ∧ c = .item noKey none none) ∨ m.cells r = some c := by
    intro r c e
    change upd _ _ _ _ = _ at e
    by_cases hr : r = m.top
    · rw [hr, upd_same] at e; cases e; exact .inl ⟨hr, rfl⟩
    · rw [upd_ne _ _ hr] at e; exact .inr e
  have item : ∀ {i k r n}, (m.orphan p).cells i = some (.item k (some r) n) → m.cells i = some (.item k (some r) n) := by
    intro i k r n e
    rcases back e with ⟨_, e⟩ | e
    · cases e
    · exact e
  refine ⟨fun r hr => ?_, fun e => ?_, fun c hn => ?_, h.disj, fun e => ?_, fun e => ?_, fun e e' => h.oneItem (item e) (item e'), h.oneVar,
    fun e e' => h.notBoth e (item e')⟩
  · have hr' : m.top + 1 ≤ r := hr
    show upd _ _ _ _ = _
    rw [upd_ne _ _ (show r ≠ m.top by omega)]
    exact h.fresh r (by omega)
  · rcases back e with ⟨_, e⟩ | e
    · cases e
    · obtain ⟨g1, g2⟩ := h.chain e
      exact ⟨g1.congr fun i _ k v n e => ⟨k, v, keep e⟩, g2⟩
  · exact h.other c fun k p hd s e => hn k p hd s (keep e)
  · obtain ⟨c, h1, h2⟩ := h.varObj e
    exact ⟨c, keep h1, h2⟩
  · obtain ⟨c, h1, h2⟩ := h.nodeObj (item e)
    exact ⟨c, keep h1, h2⟩

theorem node_item {m m' : Mem} {L : Ref → List Ref} (h : Inv m L) {k : Str} {v n : Option Ref}
    (hm : m'.cells = upd m.cells m.top (some (.item k v n))) (r : Ref) : absNode m' L r = absNode m L r := by
  by_cases hr : r = m.top
  · subst hr
    rw [absNode_top h]
    simp [absNode, hm]
  · refine absNode_congr (by rw [hm, upd_ne _ _ hr]) rfl fun i hi => ?_
    obtain ⟨_, _, _, e⟩ := h.memLt hi
    rw [hm, upd_ne _ _ (Nat.ne_of_lt (h.lt e))]

/-- The operation that a step stands for: a refused call stands for none, unless it had already taken its argument. -/
def OAct.op (w : Cfg) (fuel : Nat) : OAct → Op
  | .done a => a.op w fuel
  | .refused .after (.serialize _ _ x) => .consume x
  | _ => .other

/-- The step frees memory of a pool. -/
def OAct.frees : OAct → Bool
  | .done a => a.frees
  | _ => false

theorem sim_oact {w : Cfg} {fuel : Nat} {m m' : Mem} {L : Ref → List Ref} (h : Inv m L) (hw : WF m) {a : OAct} (e : OExec w fuel m a m') :
    ∃ L', Inv m' L' ∧ WF m' ∧ (abs m L).Step (a.op w fuel) (abs m' L') := by
  cases e with
  | done a m' e => exact sim_act h hw e
  | refusedCo c _ => exact ⟨L, h, hw, .other _⟩
  | refused t c m' e =>
    rcases refused_cases e with ⟨rfl, rfl⟩ | ⟨rfl, c', key, x, r, pool, hd, size, rfl, h1, hp, rfl⟩ | ⟨rfl, ty, p, x, rfl, hp, rfl⟩
    · exact ⟨L, h, hw, .other _⟩
    · refine ⟨L, inv_orphan h pool, wf_new hw (.item noKey none none) hp m.vars, ?_⟩
      exact step_eq (.other (abs m L)) (node_item h rfl) fun _ => rfl
    · refine ⟨L, h.root ⟨rootKey, none⟩ x _, wf_new hw _ hp _, ?_⟩
      exact step_eq (.consume (abs m L) x) (node_item h rfl) fun _ => rfl

theorem sim_oacts {w : Cfg} {fuel : Nat} {m m' : Mem} {as : List OAct} (e : ORun w fuel m as m') : ∀ {L : Ref → List Ref}, Inv m L → WF m →
    ∃ L', Inv m' L' ∧ WF m' ∧ (abs m L).Steps (as.map (OAct.op w fuel)) (abs m' L') := by
  induction e with
  | nil m => intro L h hw; exact ⟨L, h, hw, .nil _⟩
  | cons e _ ih =>
    intro L h hw
    obtain ⟨L1, i1, w1, s1⟩ := sim_oact h hw e
    obtain ⟨L2, i2, w2, s2⟩ := ih i1 w1
    exact ⟨L2, i2, w2, .cons s1 s2⟩

theorem live_oact {w : Cfg} {fuel : Nat} {m m' : Mem} {L : Ref → List Ref} (hi : Inv m L) (hw : WF m) (h : Live m) {a : OAct} (hf : a.frees = false)
    (e : OExec w fuel m a m') : Live m' := by
  cases e with
  | done a m' e => exact live_act hi hw h hf e
  | refusedCo c _ => exact h
  | refused t c m' e =>
    rcases refused_cases e with ⟨rfl, rfl⟩ | ⟨rfl, c', key, x, r, pool, hd, size, rfl, h1, hp, rfl⟩ | ⟨rfl, ty, p, x, rfl, hp, rfl⟩
    · exact h
    · exact live_new h _ _ m.vars (fun _ _ _ _ e => by cases e)
    · exact live_new h _ _ _ (fun _ _ _ _ e => by cases e)

theorem live_oacts {w : Cfg} {fuel : Nat} {m m' : Mem} {as : List OAct} (e : ORun w fuel m as m') : ∀ {L : Ref → List Ref}, Inv m L → WF m → Live m →
    (∀ a ∈ as, a.frees = false) → Live m' := by
  induction e with
  | nil m => intro L _ _ h _; exact h
  | cons e _ ih =>
    intro L h hw hl hf
    obtain ⟨L1, i1, w1, _⟩ := sim_oact h hw e
    exact ih i1 w1 (live_oact h hw hl (hf _ List.mem_cons_self) e) (fun a ha => hf a (List.mem_cons_of_mem _ ha))

end Bridge.Heap
