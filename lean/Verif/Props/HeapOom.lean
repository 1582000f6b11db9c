import Verif.Props.CoHeap
import Verif.Proof.HeapOom
/-
C83: programs that build, write and read documents while requests for memory are refused.
-/
set_option autoImplicit false
namespace Bridge.Heap
open Spec

/-- C83. Whatever is refused, the memory shows the graph that the calls that returned describe: a refused call has done nothing to it,
except that a `Serialize` that fails while it writes has taken the document. -/
theorem C83_graph (w : Cfg) (fuel : Nat) (acts : List OAct) (m : Mem) (h : ORun w fuel {} acts m) (hf : ∀ a ∈ acts, a.frees = false)
    (ht : m.top < 2 ^ 64) :
    ∃ s : Store, Store.Steps {} (acts.map (OAct.op w fuel)) s ∧ (∀ x, m.vars x = s.var x) ∧ ∀ r, Agrees m s r := by
  obtain ⟨L, hi, _, hs⟩ := sim_oacts h inv_init wf_init
  exact ⟨abs m L, hs, fun _ => rfl, agrees_of hi (live_oacts h inv_init wf_init live_init hf) ht⟩

/-- C83. Every object still has one owner. -/
theorem C83_one_owner (w : Cfg) (fuel : Nat) (acts : List OAct) (m : Mem) (h : ORun w fuel {} acts m) (a b : Place) (r : Ref)
    (ha : Owns m a r) (hb : Owns m b r) : a = b := by
  obtain ⟨L, hi, _, _⟩ := sim_oacts h inv_init wf_init
  cases a with
  | var x =>
    cases b with
    | var y => rw [hi.oneVar ha hb]
    | item j => obtain ⟨k, n, hb⟩ := hb; exact (hi.notBoth ha hb).elim
  | item i =>
    obtain ⟨k, n, ha⟩ := ha
    cases b with
    | var y => exact (hi.notBoth hb ha).elim
    | item j => obtain ⟨k', n', hb⟩ := hb; rw [hi.oneItem ha hb]

/-- C83. From the calls to the reader: if the graph that the calls that returned describe unfolds to the document `d` at the object that
variable `x` owns, then a `Serialize(std::move(x))` that is not refused returns a content that parses to `d`. -/
theorem C83_calls_to_document (w r : Cfg) (hw : w.charSigned = true) (hn : w.hardened = false) (fuel : Nat) (acts : List OAct) (m : Mem)
    (h : ORun w fuel {} acts m) (hf : ∀ a ∈ acts, a.frees = false) (ht : m.top < 2 ^ 64) :
    ∃ s : Store, Store.Steps {} (acts.map (OAct.op w fuel)) s ∧ ∀ x d, s.Unfolds (s.var x) d → ∀ t p, m.pools p = true →
      ∃ content N, (∀ f, N ≤ f → m.serialize w f t p x = .ok content) ∧
        (Fits r content → (∃ o', Parses r {} content (.ok o') ∧ o'.doc? = some d.revMaps) ∧
          ∀ k, 0 < k → ∃ o' d', Parses r ⟨true, false, k⟩ content (.ok o') ∧ o'.doc? = some d' ∧ d.Same d') := by
  obtain ⟨L, hi, _, hs⟩ := sim_oacts h inv_init wf_init
  refine ⟨abs m L, hs, fun x d hu t p hp => ?_⟩
  change Store.Unfolds (abs m L) (m.vars x) d at hu
  cases hx : m.vars x with
  | none => rw [hx] at hu; cases hu
  | some q =>
    rw [hx] at hu
    obtain ⟨o, ho⟩ := tree_of_var_live hi (live_oacts h inv_init wf_init live_init hf) hx
    have hd := doc_of_unfolds hi ht hu o ho
    obtain ⟨N, hN⟩ := serialize_shows hi w t (x := x) hp (by rw [hx]; exact ho)
    have he := serialize_eq hw t hd (hard_of_unhardened hn o)
    refine ⟨_, N, fun f hf => (hN f hf).trans he, fun hfit => ⟨?_, fun k hk => ?_⟩⟩
    · obtain ⟨o', h1, h2, _⟩ := parses_normal (extra := []) (by simpa using hfit) false (by simp) 1
      exact ⟨o', by simpa using h1, h2⟩
    · obtain ⟨o1, d1, h1, h2, h3, _⟩ := parses_co (extra := []) (by simpa using hfit) false (by simp) hk
      exact ⟨o1, d1, by simpa using h1, h2, h3⟩

/-- C83. A refused call changes no variable but the argument of a `Serialize` that had begun to write, no pool, and nothing that can be read
through any pointer to an object. -/
theorem C83_refused_changes_nothing (w : Cfg) (fuel : Nat) (acts : List OAct) (m : Mem) (h : ORun w fuel {} acts m) (t : When) (c : Call)
    (m' : Mem) (hr : Refused m t c m') :
    (t = .before → m'.vars = m.vars) ∧ (∀ ty p x, c = .serialize ty p x → ∀ y, y ≠ x → m'.vars y = m.vars y) ∧ m'.pools = m.pools ∧
    (∀ p, m.pools p = true → ∀ r, m.owner r = some p → m'.owner r = some p) ∧ ∀ a, ObjPtr m a → SameReads m m' a := by
  obtain ⟨L, hi, hw, _⟩ := sim_oacts h inv_init wf_init
  have hnew : ∀ (c : Cell) (p : Nat) (vars : Nat → Option Ref) (a : Option Ref), ObjPtr m a →
      SameReads m { m with cells := upd m.cells m.top (some c), top := m.top + 1, owner := upd m.owner m.top (some p), vars := vars } a := by
    intro c p vars a ha
    refine sameReads_of fun r hr => ?_
    have hne : r ≠ m.top := Nat.ne_of_lt (reaches_made hi ha hr)
    simp only [Mem.load, upd_ne _ _ hne]
  have hown : ∀ (p q : Nat) (r : Ref), m.owner r = some q → upd m.owner m.top (some p) r = some q := by
    intro p q r e
    by_cases hr : r = m.top
    · have := hw.live r (by rw [e]; simp)
      rw [hr, hi.topNone] at this
      exact absurd rfl this
    · rw [upd_ne _ _ hr]; exact e
  rcases refused_cases hr with ⟨rfl, rfl⟩ | ⟨rfl, c', key, x, r, pool, hd, size, rfl, h1, hp, rfl⟩ | ⟨rfl, ty, p, x, rfl, hp, rfl⟩
  · exact ⟨fun _ => rfl, fun _ _ _ _ _ _ => rfl, rfl, fun _ _ _ e => e, fun a _ => sameReads_of fun _ _ => rfl⟩
  · exact ⟨fun _ => rfl, (fun _ _ _ e => by cases e), rfl, fun q _ r e => hown _ q r e, fun a ha => hnew _ _ m.vars a ha⟩
  · refine ⟨(fun e => by cases e), fun _ _ _ e y hy => ?_, rfl, fun q _ r e => hown _ q r e, fun a ha => hnew _ _ _ a ha⟩
    cases e
    exact upd_ne _ _ hy

/-- C83. A refused call can be made again: if it would have returned, it does so after the refusal (with enough memory), unless it was a
`Serialize` that had begun to write. -/
theorem C83_retry (w : Cfg) (fuel : Nat) (acts : List OAct) (m : Mem) (h : ORun w fuel {} acts m) (c : Call) (m' : Mem)
    (hr : Refused m .before c m') (m1 : Mem) (he : m.exec w fuel c = .ok m1) : ∃ m2, m'.exec w fuel c = .ok m2 := by
  obtain ⟨L, hi, hw, _⟩ := sim_oacts h inv_init wf_init
  rcases refused_cases hr with ⟨_, rfl⟩ | ⟨_, c', key, x, r, pool, hd, size, rfl, h1, hp, rfl⟩ | ⟨e, _⟩
  · exact ⟨m1, he⟩
  · obtain ⟨e1, e2, e3, _⟩ := loadCont_ok h1
    dsimp only at e1 e2 e3
    subst e1
    have hne : r ≠ m.top := Nat.ne_of_lt (hi.lt e2)
    refine ⟨_, mapInsert_eq key (inv_orphan hi pool).topNone (r := r) (ref := false) (pool := pool) (head := hd) (size := size) ?_ ?_ hp⟩
    · show upd _ _ _ _ = _; rw [upd_ne _ _ hne]; exact e2
    · show upd _ _ _ _ ≠ _; rw [upd_ne _ _ hne]; exact e3
  · cases e

/-- C83. The order matters: a `Serialize` whose first request is refused leaves its argument alone and can be made again. One that is refused
a later request has consumed it: the variable is null, no variable leads to the document any more, and a second
`Serialize(std::move(x))` never returns a content (it follows the null pointer). -/
theorem C83_serialize_consumes (w : Cfg) (fuel : Nat) (acts : List OAct) (m : Mem) (h : ORun w fuel {} acts m) (ty : SeriType) (p x : Nat)
    (t : When) (m' : Mem) (hr : Refused m t (.serialize ty p x) m') :
    (t = .before → m' = m) ∧
    (t = .after → m'.vars x = none ∧ (∀ r, m.vars x = some r → ∀ y, ¬ Reaches m' (m'.vars y) r) ∧
      ∀ cfg f ty' p' content, m'.serialize cfg f ty' p' x ≠ .ok content) := by
  obtain ⟨L, hi, hw, _⟩ := sim_oacts h inv_init wf_init
  rcases refused_cases hr with ⟨rfl, rfl⟩ | ⟨_, c', key, x', r, pool, hd, size, e, _⟩ | ⟨rfl, ty', p', x', e, hp, rfl⟩
  · exact ⟨fun _ => rfl, (fun e => by cases e)⟩
  · cases e
  · cases e
    have hi' : Inv (m.eaten p x) L := hi.root ⟨rootKey, none⟩ x _
    have hcell : (m.eaten p x).cells m.top = some (.item ⟨rootKey, none⟩ (m.vars x) none) := upd_same _ _ _
    refine ⟨(fun e => by cases e), fun _ => ⟨upd_same _ _ _, fun r hx y hreach => ?_, fun cfg f ty' p' content hs => ?_⟩⟩
    · rw [hx] at hcell
      obtain ⟨cr, hcr, hobj⟩ := hi'.nodeObj hcell
      have hS := reach_closed hi' (fun c => c ≠ m.top ∧ c ≠ r) (fun b i _ hm => ?_) (fun i k q n hs e => ?_) hreach (fun q hq => ?_)
      · exact hS.2 rfl
      · constructor
        · intro e
          obtain ⟨_, _, _, e'⟩ := hi.memLt hm
          rw [e, hi.topNone] at e'
          cases e'
        · intro e
          obtain ⟨_, _, _, e'⟩ := hi'.memLt hm
          rw [e, hcr] at e'
          cases e'
          cases hobj
      · constructor
        · intro e'
          obtain ⟨_, h1, h2⟩ := hi'.nodeObj e
          rw [e', hcell] at h1
          cases h1
          cases h2
        · intro e'
          rw [e'] at e
          exact hs.1 (hi'.oneItem e hcell)
      · obtain ⟨c, h1, h2⟩ := hi'.varObj hq
        refine ⟨⟨fun e => ?_, fun e => ?_⟩, .inl ⟨c, h1, h2⟩⟩
        · rw [e, hcell] at h1
          cases h1
          cases h2
        · rw [e] at hq
          exact hi'.notBoth hq hcell
    · unfold Mem.serialize at hs
      obtain ⟨⟨m2, node⟩, h1, h2⟩ := bind_ok hs
      obtain ⟨_, e⟩ := rootInsert_ok h1
      cases e
      have hv : (m.eaten p x).vars x = none := upd_same _ _ _
      dsimp only at h2
      rw [hv] at h2
      unfold Mem.serializeRoot at h2
      obtain ⟨st, _, h2⟩ := bind_ok h2
      obtain ⟨⟨id, st1⟩, _, h2⟩ := bind_ok h2
      dsimp only at h2
      obtain ⟨y, h3, _⟩ := bind_ok h2
      cases f with
      | zero => cases h3
      | succ f =>
        simp only [Mem.seriLoop] at h3
        obtain ⟨⟨_, key, nd, nx⟩, h4, h3⟩ := bind_ok h3
        obtain ⟨e0, e, _⟩ := loadItem_ok h4
        dsimp only at e0 e h3
        cases e0
        rw [upd_same] at e
        cases e
        obtain ⟨st2, _, h3⟩ := bind_ok h3
        obtain ⟨st3, h5, _⟩ := bind_ok h3
        unfold Mem.seriChild at h5
        obtain ⟨_, h6, _⟩ := bind_ok h5
        cases h6
/-! ### Examples -/

/-- An array with a leaf in variable 1, and a map in variable 2, built while the leaf, the insertion into the array, the key of the entry of
the map and a `Parse` are refused once each. -/
def oomProgram : List OAct :=
  [.done (.call (.newPool 0)), .refused .before (.newPool 1), .done (.call (.cont 1 0 .array)), .refused .before (.leaf 0 0 false (.int32 7)),
    .done (.call (.leaf 0 0 false (.int32 7))), .refused .before (.insert (some 0) 0), .done (.call (.insert (some 0) 0)),
    .done (.call (.cont 2 0 (.map false))), .done (.call (.leaf 0 0 false (.int32 8))),
    .refused .before (.insertKey (some 3) ⟨[107], none⟩ 0), .done (.call (.insertKey (some 3) ⟨[107], none⟩ 0)),
    .refused .before (.parse 5 0 false []), .refusedCo ⟨5, 0, false, 2, []⟩, .refused .before (.serialize .normal 0 1)]

/-- The hypotheses of the theorems are met: the array has its element, the map its entry, and between them is the item whose key could not be
copied. -/
theorem oomProgram_runs : ∃ m, ORun Cfg.x86 9 {} oomProgram m ∧ m.top = 7 ∧ m.size true (some 0) = .ok 1 ∧ m.size false (some 3) = .ok 1 ∧
    m.lookup 9 (some 3) [107] = .ok (some 4) ∧ m.cells 5 = some (.item noKey none none) ∧ m.vars 1 = some 0 ∧ m.vars 2 = some 3 ∧ m.pools 0 = true := by
  refine ⟨_, .cons (.done _ _ (.call _ _ rfl)) <| .cons (.refused _ _ _ (.newPool _ (by decide))) <| .cons (.done _ _ (.call _ _ rfl)) <|
    .cons (.refused _ _ _ (.leaf _ _ _ _ rfl)) <| .cons (.done _ _ (.call _ _ rfl)) <| .cons (.refused _ _ _ (.insert _ _ _ _ _ _ _ rfl rfl)) <|
    .cons (.done _ _ (.call _ _ rfl)) <| .cons (.done _ _ (.call _ _ rfl)) <| .cons (.done _ _ (.call _ _ rfl)) <|
    .cons (.refused _ _ _ (.key _ _ _ _ _ _ _ _ _ rfl rfl)) <| .cons (.done _ _ (.call _ _ rfl)) <| .cons (.refused _ _ _ (.parse _ _ _ _ rfl)) <|
    .cons (.refusedCo _ rfl) <| .cons (.refused _ _ _ (.serialize _ _ _ rfl)) <| .nil _, rfl, rfl, rfl, rfl, rfl, rfl, rfl, rfl⟩

example : ∀ a ∈ oomProgram, a.frees = false := by decide

/-- The operations that the program stands for are those of the calls that returned. -/
example : (oomProgram.map (OAct.op Cfg.x86 9)).filter (fun o => match o with | .other => false | _ => true) =
    [.make 1 (.seq []), .make 0 (.leaf false (some (.int32 7))), .append 0 0, .make 2 (.dict false []), .make 0 (.leaf false (some (.int32 8))),
      .add 3 [107] 0] := rfl

/-- After it a `Serialize` that fails while it writes takes the array; the map stays. -/
example : ∃ m m', ORun Cfg.x86 9 {} oomProgram m ∧ Refused m .after (.serialize .normal 0 1) m' ∧ m.vars 1 = some 0 ∧ m'.vars 1 = none ∧
    m'.vars 2 = some 3 := by
  obtain ⟨m, h, _, _, _, _, _, h1, h2, h3⟩ := oomProgram_runs
  have hr : ∃ q, m.rootInsert 0 1 = .ok q := by unfold Mem.rootInsert; rw [alloc_eq h3]; exact ⟨_, rfl⟩
  obtain ⟨⟨m', node⟩, hr⟩ := hr
  refine ⟨m, m', h, .writing _ _ _ _ _ hr, h1, ?_, ?_⟩
  · obtain ⟨_, e⟩ := rootInsert_ok hr
    cases e
    exact upd_same m.vars 1 none
  · obtain ⟨_, e⟩ := rootInsert_ok hr
    cases e
    exact (upd_ne m.vars none (show (2 : Nat) ≠ 1 by decide)).trans h2

/-- `C83_retry`: the refused insertion of the key returns when it is made again. -/
example : ∃ m m' m1, ORun Cfg.x86 9 {} [.done (.call (.newPool 0)), .done (.call (.cont 2 0 (.map false)))] m ∧
    Refused m .before (.insertKey (some 0) ⟨[107], none⟩ 0) m' ∧ m' ≠ m ∧ m.exec Cfg.x86 9 (.insertKey (some 0) ⟨[107], none⟩ 0) = .ok m1 :=
  ⟨_, _, _, .cons (.done _ _ (.call _ _ rfl)) <| .cons (.done _ _ (.call _ _ rfl)) <| .nil _, .key _ _ _ _ _ _ _ _ _ rfl rfl,
    fun h => absurd (congrArg Mem.top h) (by decide), rfl⟩

end Bridge.Heap
