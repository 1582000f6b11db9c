import Verif.Props.Heap
/-
C70: `Parse` in memory, in the middle of a program.
-/
set_option autoImplicit false
namespace Bridge.Heap
open Spec

/-- A set of addresses that contains the items of its containers and the children of its items cannot be left along the pointers. -/
theorem reach_closed {m : Mem} {L : Ref → List Ref} (hi : Inv m L) (S : Ref → Prop) (hL : ∀ b i, S b → i ∈ L b → S i)
    (hN : ∀ i k r n, S i → m.cells i = some (.item k (some r) n) → S r) {a : Option Ref} {c : Ref} (h : Reaches m a c)
    (ha : ∀ q, a = some q → S q ∧ ((∃ c, m.cells q = some c ∧ c.isObj = true) ∨ ∃ b, S b ∧ q ∈ L b)) : S c := by
  induction h with
  | here r => exact (ha r rfl).1
  | @head q c k' p' hd' s' e h ih =>
    refine ih fun q' hq => ?_
    have hch := (hi.chain e).1
    have hm : q' ∈ L q := by
      rw [hq] at hch
      generalize L q = l at hch
      cases hch with
      | cons _ _ => simp
    have hs := (ha q rfl).1
    exact ⟨hL q q' hs hm, .inr ⟨q, hs, hm⟩⟩
  | @node q c k' v' n' e h ih =>
    refine ih fun q' hq => ?_
    subst hq
    exact ⟨hN q k' q' n' (ha q rfl).1 e, .inl (hi.nodeObj e)⟩
  | @next q c k' v' n' e h ih =>
    refine ih fun q' hq => ?_
    subst hq
    rcases (ha q rfl).2 with ⟨d, h1, h2⟩ | ⟨b, hb, hb'⟩
    · rw [e] at h1; cases h1; cases h2
    · have hm : q' ∈ L b := by
        by_cases hc : ∃ k p hd s, m.cells b = some (.cont k p hd s)
        · obtain ⟨k, p, hd, s, hc⟩ := hc
          exact chain_next (hi.chain hc).1 hb' e
        · rw [hi.other b (fun k p hd s e => hc ⟨k, p, hd, s, e⟩)] at hb'; cases hb'
      exact ⟨hL b q' hb hm, .inr ⟨b, hb, hm⟩⟩

/-- The pointer is null or points to an object. -/
def ObjPtr (m : Mem) (a : Option Ref) : Prop := ∀ r, a = some r → ∃ c, m.cells r = some c ∧ c.isObj = true

theorem reaches_made {m : Mem} {L : Ref → List Ref} (hi : Inv m L) {a : Option Ref} (ha : ObjPtr m a) {c : Ref} (h : Reaches m a c) : c < m.top := by
  refine reach_closed hi (fun c => c < m.top) (fun b i _ hm => ?_) (fun i k r n _ e => ?_) h (fun q hq => ?_)
  · obtain ⟨_, _, _, e⟩ := hi.memLt hm; exact hi.lt e
  · obtain ⟨_, e', _⟩ := hi.nodeObj e; exact hi.lt e'
  · obtain ⟨d, h1, h2⟩ := ha q hq; exact ⟨hi.lt h1, .inl ⟨d, h1, h2⟩⟩

theorem reaches_live {m : Mem} {L : Ref → List Ref} (hi : Inv m L) {a : Option Ref} (ha : ObjPtr m a) {c : Ref} (h : Reaches m a c) :
    ∃ d, m.cells c = some d := by
  refine reach_closed hi (fun c => ∃ d, m.cells c = some d) (fun b i _ hm => ?_) (fun i k r n _ e => ?_) h (fun q hq => ?_)
  · obtain ⟨_, _, _, e⟩ := hi.memLt hm; exact ⟨_, e⟩
  · obtain ⟨_, e', _⟩ := hi.nodeObj e; exact ⟨_, e'⟩
  · obtain ⟨d, h1, h2⟩ := ha q hq; exact ⟨⟨d, h1⟩, .inl ⟨d, h1, h2⟩⟩

/-- What a `Parse` into variable `d` with pool `p` has changed: nothing that the program could see before, and the variable now owns the
tree `o`, all of it in the memory of the pool.  The pools that its containers allocate from are in `D`. -/
structure HasParsed (m m' : Mem) (d p : Nat) (D : Nat → Prop) (o : Obj) : Prop where
  shows : Shows m' (m'.vars d) o
  others : ∀ y, y ≠ d → m'.vars y = m.vars y
  pools : m'.pools = m.pools
  reads : ∀ a, ObjPtr m a → SameReads m m' a
  inPool : ∀ c, Reaches m' (m'.vars d) c → m.cells c = none ∧ m'.owner c = some p ∧ ∀ k q h s, m'.cells c = some (.cont k q h s) → D q

theorem hasParsed_of {m m' m1 : Mem} {d p : Nat} {D : Nat → Prop} {ref : Bool} {fuel : Nat} {o : Obj} {root : Nat}
    (h : Parsed m m' d p D ref fuel o m1 root) {L : Ref → List Ref} (hi : Inv m L) : HasParsed m m' d p D o := by
  obtain ⟨L2, hl, hi', _⟩ := h.inv hi
  obtain ⟨hpools, htop, _, etop, hvars, hcells, howner, hnew, hfresh⟩ := h.effect
  refine ⟨h.shows, hvars, hpools, fun a ha => sameReads_of fun c hc => ?_, fun c hc => ?_⟩
  · have hlt := reaches_made hi ha hc
    simp only [Mem.load, hcells c hlt, howner c hlt]
  · have hS : m.top ≤ c ∧ c < m'.top := by
      refine reach_closed hi' (fun c => m.top ≤ c ∧ c < m'.top) (fun b i hb hm => ?_) (fun i k r n hb e => ?_) hc (fun q hq => ?_)
      · rcases List.mem_append.1 hm with hm | hm
        · rw [hi.other b (fun k q hd s e => by rw [hi.fresh b hb.1] at e; cases e)] at hm; cases hm
        · have := (hl.inside i b hm).1; rw [etop]; exact this
      · have hin : m.top ≤ i ∧ i < m1.top := by rw [← etop]; exact hb
        have : m1.cells i = some (.item k (some r) n) := by
          rcases h.after with e1 | ⟨t, t1, k', n', q1, q2, q3, e1⟩
          · subst e1; exact e
          · subst e1
            by_cases hit : i = t1
            · subst hit
              change (m1.modify i (Cell.setNode none)).cells i = _ at e
              rw [modify_same q3] at e; cases e
            · change (m1.modify t1 (Cell.setNode none)).cells i = _ at e
              rw [modify_ne hit] at e; exact e
        have := (hl.nodeObj i r k n hin.1 hin.2 this).1
        rw [etop]; exact this
      · obtain ⟨c, e, ho⟩ := hi'.varObj hq
        refine ⟨⟨?_, hi'.lt e⟩, .inl ⟨c, e, ho⟩⟩
        rcases h.value with ⟨_, h1⟩ | ⟨r, _, h1, h2, _⟩
        · rw [h1] at hq; cases hq
        · rw [h1] at hq; cases hq; exact h2
    obtain ⟨c', h2⟩ := reaches_live hi' (fun q hq => hi'.varObj hq) hc
    obtain ⟨h1, h3⟩ := hnew c c' hS.1 h2
    refine ⟨hi.fresh c hS.1, h1, fun k q hd s e => ?_⟩
    rw [h2] at e
    cases e
    cases k with
    | array => exact h3
    | map v => exact h3.2

/-- C70. In any state of a program, `d = Parse(content, {.parse_ref = ref}, p)` with the recursive parser builds in memory what the
model of the other properties returns, changes nothing else, and puts everything into the memory of `p`. -/
theorem C70_parse_builds (w : Cfg) (m : Mem) (h : Reachable w m) (p : Nat) (hp : m.pools p = true) (d : Nat) (ref : Bool) (k : Nat)
    (content : Bytes) (o : Obj) (ho : Parses w ⟨false, ref, k⟩ content (.ok o)) :
    ∃ N, ∀ fuel, N ≤ fuel → ∃ m', m.exec w fuel (.parse d p ref content) = .ok m' ∧ HasParsed m m' d p (· = p) o := by
  obtain ⟨fuel0, cs, h⟩ := h
  obtain ⟨L, hi, _, _⟩ := sim_acts h inv_init wf_init
  obtain ⟨_, N, hN⟩ := ho
  refine ⟨N, fun fuel hf => ?_⟩
  have hb := parse_both (cfg := w) (fun i hj => hi.fresh i hj) hp fuel d ref k content
  rw [hN fuel hf] at hb
  simp only [Mem.exec]
  generalize m.parse w fuel d p ref content = y at hb
  cases hb with
  | @ok _ m' hoq =>
    obtain ⟨m1, hP, _⟩ := hoq
    exact ⟨m', rfl, hasParsed_of hP hi⟩

/-- C70. And it fails in the same way: the same exception, the same undefined behaviour, or no return. -/
theorem C70_same_failure (w : Cfg) (m : Mem) (h : Reachable w m) (p : Nat) (hp : m.pools p = true) (d : Nat) (ref : Bool) (k : Nat)
    (content : Bytes) :
    (∀ e, Parses w ⟨false, ref, k⟩ content (.error e) → ∃ N, ∀ fuel, N ≤ fuel → m.parse w fuel d p ref content = .error e) ∧
    (Diverges w ⟨false, ref, k⟩ content → ∀ fuel, m.parse w fuel d p ref content = .error .fuel) := by
  obtain ⟨fuel0, cs, h⟩ := h
  obtain ⟨L, hi, _, _⟩ := sim_acts h inv_init wf_init
  have key : ∀ fuel e, Bridge.parse w ⟨false, ref, k⟩ fuel content = .error e → m.parse w fuel d p ref content = .error e := by
    intro fuel e he
    have hb := parse_both (cfg := w) (fun i hj => hi.fresh i hj) hp fuel d ref k content
    rw [he] at hb
    generalize m.parse w fuel d p ref content = y at hb
    cases hb with
    | error e => rfl
  exact ⟨fun e ⟨_, N, hN⟩ => ⟨N, fun fuel hf => key fuel e (hN fuel hf)⟩, fun hd fuel => key fuel _ (hd fuel)⟩

/-- C70. The only further way to fail: the pool is not alive. -/
theorem C70_needs_pool (w : Cfg) (m : Mem) (p : Nat) (hp : m.pools p = false) (fuel d : Nat) (ref : Bool) (content : Bytes) (m' : Mem) :
    m.parse w fuel d p ref content ≠ .ok m' := (parse_dead hp fuel d ref 1 content).1 m'

/-- C70. A program writes an object that it owns and reads it back into a variable: it owns the same document again, as a new tree in the
pool it has chosen.  What the pool contained before, and all other variables, are as they were. -/
theorem C70_write_and_read (w : Cfg) (hw : w.charSigned = true) (hn : w.hardened = false) (fuel : Nat) (cs : List Act) (m : Mem)
    (h : Run w fuel {} cs m) (hf : ∀ c ∈ cs, c.frees = false) (ht : m.top < 2 ^ 64) :
    ∃ s : Store, Store.Steps {} (cs.map (Act.op w fuel)) s ∧ ∀ x doc, s.Unfolds (s.var x) doc → ∀ t p q d ref, m.pools p = true → m.pools q = true →
      (ref = true → doc.noCustom = true) →
      ∃ content N, (∀ f, N ≤ f → m.serialize w f t p x = .ok content) ∧ (Fits w content → ∀ f, N ≤ f →
        ∃ m1 m2 o, m.exec w f (.serialize t p x) = .ok m1 ∧ m1.exec w f (.parse d q ref content) = .ok m2 ∧ HasParsed m1 m2 d q (· = q) o ∧
          o.doc? = some doc.revMaps) := by
  obtain ⟨L, hi, _, hs⟩ := sim_acts h inv_init wf_init
  refine ⟨abs m L, hs, fun x doc hu t p q d ref hp hq hc => ?_⟩
  change Store.Unfolds (abs m L) (m.vars x) doc at hu
  cases hx : m.vars x with
  | none => rw [hx] at hu; cases hu
  | some r =>
    rw [hx] at hu
    obtain ⟨o, ho⟩ := tree_of_var_live hi (live_acts h inv_init wf_init live_init hf) hx
    have hd := doc_of_unfolds hi ht hu o ho
    obtain ⟨N, hN⟩ := serialize_shows hi w t (x := x) hp (by rw [hx]; exact ho)
    have he := serialize_eq hw t hd (hard_of_unhardened hn o)
    by_cases hfit : Fits w (contentOf w t doc)
    · obtain ⟨o', h1, h2, _⟩ := parses_normal (extra := []) (by simpa using hfit) ref hc 1
      have h1 : Parses w ⟨false, ref, 1⟩ (contentOf w t doc) (.ok o') := by simpa using h1
      obtain ⟨_, N', hN'⟩ := h1
      refine ⟨_, N + N', fun f hf => (hN f (by omega)).trans he, fun _ f hf => ?_⟩
      have hser := (hN f (by omega)).trans he
      unfold Mem.serialize at hser
      obtain ⟨⟨m1, node⟩, k1, k2⟩ := bind_ok hser
      dsimp only at k2
      have hex : m.exec w f (.serialize t p x) = .ok m1 := by
        simp only [Mem.exec]
        rw [k1, ok_bind]
        simp only [k2]
        rfl
      obtain ⟨L1, hi1, _⟩ := sim_exec hi hex
      have hq1 : m1.pools q = true := by obtain ⟨_, e⟩ := serialize_call hex; rw [e]; exact hq
      have hb := parse_both (cfg := w) (fun i hj => hi1.fresh i hj) hq1 f d ref 1 (contentOf w t doc)
      rw [hN' f (by omega)] at hb
      cases hy : m1.parse w f d q ref (contentOf w t doc) with
      | error e => rw [hy] at hb; cases hb
      | ok m2 =>
        rw [hy] at hb
        cases hb with
        | ok hoq =>
          obtain ⟨m3, hP, _⟩ := hoq
          refine ⟨m1, m2, o', hex, ?_, hasParsed_of hP hi1, h2⟩
          simp only [Mem.exec, hy]
    · exact ⟨_, N, fun f hf => (hN f hf).trans he, fun hfit' => absurd hfit' hfit⟩

/-- The content of an array with the number 7. -/
def seven : Bytes := [0, 0, 0, 0, 0, 0, 0, 27, 0, 0, 1, 1, 4, 114, 111, 111, 116, 2, 1, 2, 0, 2, 4, 0, 0, 0, 7, 1, 0]

/-- A program that reads a document into one pool, extends it through a raw pointer with an object of another pool and writes it. -/
def readModify : List Call :=
  [.newPool 0, .newPool 1, .leaf 3 0 false (.int32 5), .parse 0 1 false seven, .insert (some 2) 3]

example : (Mem.run Cfg.x86 20 {} readModify).toOption.map (fun m => (m.top, m.vars 0, m.vars 3)) = some (7, some 2, none) ∧
    (∀ c ∈ readModify, c.frees = false) ∧
    ((Mem.run Cfg.x86 20 {} readModify).toOption.bind fun m => (m.serialize Cfg.x86 20 .normal 0 0).toOption) =
      some [0, 0, 0, 0, 0, 0, 0, 34, 0, 0, 1, 1, 4, 114, 111, 111, 116, 2, 2, 2, 0, 2, 4, 0, 0, 0, 5, 0, 2, 4, 0, 0, 0, 7, 1, 0] := by
  decide +kernel

/-- The hypotheses of `C70_parse_builds` are met: after two calls of `readModify` a content comes in. -/
example : ∃ m o, Reachable Cfg.x86 m ∧ m.pools 1 = true ∧ Parses Cfg.x86 ⟨false, false, 1⟩ seven (.ok o) := by
  have h : (parse Cfg.x86 ⟨false, false, 1⟩ 20 seven).toOption.isSome = true := by decide +kernel
  cases hp : parse Cfg.x86 ⟨false, false, 1⟩ 20 seven with
  | error e => rw [hp] at h; cases h
  | ok o => exact ⟨_, o, ⟨20, [.call (.newPool 0), .call (.newPool 1)], run_calls (cs := [.newPool 0, .newPool 1]) rfl⟩, rfl, by simp, 20, fun fuel hf => parse_mono hp (by simp) hf⟩

/-- `C70_write_and_read` for the third array of `circle`, which unfolds to `[7]` (see the examples of C68). -/
example : ((Mem.run Cfg.x86 9 {} circle).toOption.bind fun m => (m.serialize Cfg.x86 20 .normal 0 0).toOption) = some seven ∧
    (Mem.run Cfg.x86 20 {} (circle ++ [.serialize .normal 0 0, .parse 6 0 true seven])).toOption.map
      (fun m => (m.vars 0, m.vars 6, m.index (m.vars 6) 0 |>.toOption, m.size true (m.vars 6) |>.toOption)) =
        some (none, some 9, some (some 10), some 1) := by
  decide +kernel

end Bridge.Heap
