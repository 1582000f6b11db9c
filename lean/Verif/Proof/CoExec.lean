import Verif.Proof.CoLocal
/-
Programs that also use the parallel parser: it returns what Model/CoParse.lean computes, whatever the interleaving.
-/
set_option autoImplicit false
namespace Bridge.Heap
open Spec

/-! ### every call keeps the memory well formed -/

theorem wf_init : WF {} := ⟨fun _ _ => rfl, (fun _ h => absurd rfl h), (fun _ _ e => nomatch e), (fun _ e => nomatch e), (fun _ e => nomatch e)⟩

theorem wf_new {m : Mem} (h : WF m) (c : Cell) {p : Nat} (hp : m.pools p = true) (vars : Nat → Option Ref) :
    WF { m with cells := upd m.cells m.top (some c), top := m.top + 1, owner := upd m.owner m.top (some p), vars := vars } := by
  refine ⟨fun r hr => ?_, fun r hr => ?_, fun r q e => ?_, h.pools, h.frames⟩
  · show upd _ _ _ _ = _
    have hr' : m.top + 1 ≤ r := hr
    rw [upd_ne _ _ (show r ≠ m.top by omega)]
    exact h.fresh r (by omega)
  · change upd _ _ _ _ ≠ _ at hr
    show upd _ _ _ _ ≠ _
    by_cases hi : r = m.top
    · subst hi; rw [upd_same]; simp
    · rw [upd_ne _ _ hi] at hr ⊢; exact h.live r hr
  · change upd _ _ _ _ = _ at e
    by_cases hi : r = m.top
    · subst hi; rw [upd_same] at e; cases e; exact h.pools p hp
    · rw [upd_ne _ _ hi] at e; exact h.owner r q e

theorem wf_upd {m : Mem} (h : WF m) {r : Ref} {c : Cell} (e : m.cells r = some c) (c' : Cell) (vars : Nat → Option Ref) :
    WF { m with cells := upd m.cells r (some c'), vars := vars } := by
  refine ⟨fun i hi => ?_, fun i hi => ?_, h.owner, h.pools, h.frames⟩
  · show upd _ _ _ _ = _
    by_cases hr : i = r
    · subst hr; rw [h.fresh i hi] at e; cases e
    · rw [upd_ne _ _ hr]; exact h.fresh i hi
  · show upd _ _ _ _ ≠ _
    by_cases hr : i = r
    · subst hr; rw [upd_same]; simp
    · rw [upd_ne _ _ hr]; exact h.live i hi

theorem wf_ins {m : Mem} (h : WF m) {c : Ref} {k : Kind} {pool : Nat} {head : Option Ref} {size : Nat}
    (hc : m.cells c = some (.cont k pool head size)) (hp : m.pools pool = true) (key : Str) (x : Nat) : WF (m.ins c k pool head size key x) := by
  have h1 := wf_new h (.item key (m.vars x) head) hp (upd m.vars x none)
  have hne : c ≠ m.top := by intro e; rw [e, h.fresh m.top (Nat.le_refl _)] at hc; cases hc
  exact wf_upd (r := c) (c := .cont k pool head size) h1 (by show upd _ _ _ _ = _; rw [upd_ne _ _ hne]; exact hc)
    (.cont k pool (some m.top) (addW size 1)) (upd m.vars x none)

theorem wf_owner {m : Mem} (h : WF m) (owner : Ref → Option Nat) (pools : Nat → Bool) (np : Nat) (hn : m.nextPool ≤ np)
    (ho : ∀ r q, owner r = some q → m.owner r ≠ none ∧ q < np) (hp : ∀ q, pools q = true → q < np) :
    WF { m with owner := owner, pools := pools, nextPool := np } := by
  refine ⟨h.fresh, fun r hr => ?_, fun r q e => (ho r q e).2, hp, fun q hq => Nat.lt_of_lt_of_le (h.frames q hq) hn⟩
  change owner r ≠ none at hr
  cases e : owner r with
  | none => exact absurd e hr
  | some q => exact h.live r (ho r q e).1

theorem wf_take {m m' : Mem} (h : WF m) {fuel d : Nat} {c : Option Ref} {k : Bytes} (e : m.take fuel d c k = .ok m') :
    WF m' ∧ m'.frames = m.frames ∧ m'.nextPool = m.nextPool := by
  unfold Mem.take at e
  obtain ⟨⟨_, _, _, head, _⟩, _, e⟩ := bind_ok e
  dsimp only at e
  obtain ⟨it, _, e⟩ := bind_ok e
  by_cases hn : it.isNone = true
  · rw [if_pos hn] at e
    cases e
    exact ⟨⟨h.fresh, h.live, h.owner, h.pools, h.frames⟩, rfl, rfl⟩
  · rw [if_neg hn] at e
    obtain ⟨⟨t, _, node, _⟩, _, e⟩ := bind_ok e
    cases e
    have := modify_wf h t (Cell.setNode none)
    exact ⟨⟨this.fresh, this.live, this.owner, this.pools, this.frames⟩, rfl, rfl⟩

theorem wf_call {w : Cfg} {fuel : Nat} {m m' : Mem} (h : WF m) {c : Call}
    (e : m.exec w fuel c = .ok m') : WF m' ∧ m'.frames = m.frames ∧ m.nextPool ≤ m'.nextPool := by
  have keep : ∀ {owner : Ref → Option Nat} {r q}, owner r = some q → owner r = m.owner r → m.owner r ≠ none ∧ q < m.nextPool := by
    intro owner r q e1 e2
    rw [e2] at e1
    exact ⟨by rw [e1]; simp, h.owner r q e1⟩
  cases c with
  | newPool p =>
    simp only [Mem.exec] at e
    split at e
    · cases e
    · cases e
      refine ⟨wf_owner h m.owner _ _ (Nat.le_max_left _ _) (fun r q e => ⟨by rw [e]; simp, ?_⟩) (fun q hq => ?_), rfl, Nat.le_max_left _ _⟩
      · exact Nat.lt_of_lt_of_le (h.owner r q e) (Nat.le_max_left _ _)
      · by_cases hqp : q = p
        · subst hqp; exact Nat.lt_of_lt_of_le (Nat.lt_succ_self _) (Nat.le_max_right _ _)
        · rw [upd_ne _ _ hqp] at hq; exact Nat.lt_of_lt_of_le (h.pools q hq) (Nat.le_max_left _ _)
  | clearPool p =>
    simp only [Mem.exec] at e
    split at e
    · cases e
      refine ⟨wf_owner h _ m.pools m.nextPool (Nat.le_refl _) (fun r q e => ?_) h.pools, rfl, Nat.le_refl _⟩
      split at e
      · cases e
      · exact keep e rfl
    · cases e
  | destroyPool p =>
    simp only [Mem.exec] at e
    split at e
    · cases e
      refine ⟨wf_owner h _ _ m.nextPool (Nat.le_refl _) (fun r q e => ?_) (fun q hq => ?_), rfl, Nat.le_refl _⟩
      · split at e
        · cases e
        · exact keep e rfl
      · by_cases hqp : q = p
        · subst hqp; rw [upd_same] at hq; cases hq
        · rw [upd_ne _ _ hqp] at hq; exact h.pools q hq
    · cases e
  | mergePool p q =>
    simp only [Mem.exec] at e
    split at e
    · rename_i hc
      cases e
      refine ⟨wf_owner h _ m.pools m.nextPool (Nat.le_refl _) (fun r k e => ?_) h.pools, rfl, Nat.le_refl _⟩
      split at e
      · rename_i hq; cases e; exact ⟨by rw [hq]; simp, h.pools p hc.1⟩
      · exact keep e rfl
    · cases e
  | movePool p q =>
    simp only [Mem.exec] at e
    split at e
    · rename_i hc
      cases e
      refine ⟨wf_owner h _ _ _ (Nat.le_max_left _ _) (fun r k e => ?_) (fun k hk => ?_), rfl, Nat.le_max_left _ _⟩
      · split at e
        · rename_i hq; cases e; exact ⟨by rw [hq]; simp, Nat.lt_of_lt_of_le (Nat.lt_succ_self _) (Nat.le_max_right _ _)⟩
        · obtain ⟨g1, g2⟩ := keep e rfl; exact ⟨g1, Nat.lt_of_lt_of_le g2 (Nat.le_max_left _ _)⟩
      · by_cases hqp : k = p
        · subst hqp; exact Nat.lt_of_lt_of_le (Nat.lt_succ_self _) (Nat.le_max_right _ _)
        · rw [upd_ne _ _ hqp] at hk; exact Nat.lt_of_lt_of_le (h.pools k hk) (Nat.le_max_left _ _)
    · cases e
  | assignPool p q =>
    simp only [Mem.exec] at e
    split at e
    · rename_i hc
      cases e
      refine ⟨wf_owner h _ m.pools m.nextPool (Nat.le_refl _) (fun r k e => ?_) h.pools, rfl, Nat.le_refl _⟩
      split at e
      · cases e
      · split at e
        · rename_i hq; cases e; exact ⟨by rw [hq]; simp, h.pools p hc.1⟩
        · exact keep e rfl
    · cases e
  | leaf d p view v =>
    simp only [Mem.exec] at e
    obtain ⟨o, h1, h2⟩ := bind_ok e
    obtain ⟨dt, pl, rfl, hs⟩ := makeLeaf_ok h1
    obtain ⟨hp, rfl⟩ := make_ok h2
    exact ⟨wf_new h _ hp _, rfl, Nat.le_refl _⟩
  | emptyLeaf d p view =>
    simp only [Mem.exec] at e
    obtain ⟨hp, rfl⟩ := make_ok e
    exact ⟨wf_new h _ hp _, rfl, Nat.le_refl _⟩
  | cont d p k =>
    simp only [Mem.exec] at e
    obtain ⟨hp, rfl⟩ := make_ok e
    exact ⟨wf_new h _ hp _, rfl, Nat.le_refl _⟩
  | move d x =>
    simp only [Mem.exec] at e
    cases e
    exact ⟨⟨h.fresh, h.live, h.owner, h.pools, h.frames⟩, rfl, Nat.le_refl _⟩
  | assign c v =>
    simp only [Mem.exec] at e
    obtain ⟨r, ref, dt, p, dt', p', rfl, hc, _, hs, rfl⟩ := assign_ok e
    exact ⟨wf_upd h hc _ m.vars, rfl, Nat.le_refl _⟩
  | insert c x =>
    simp only [Mem.exec] at e
    obtain ⟨r, pool, head, size, rfl, hc, _, hp, rfl⟩ := arrayInsert_ok (h.fresh m.top (Nat.le_refl _)) e
    exact ⟨wf_ins h hc hp _ _, rfl, Nat.le_refl _⟩
  | insertKey c k x =>
    simp only [Mem.exec] at e
    obtain ⟨r, ref, pool, head, size, rfl, hc, _, hp, rfl⟩ := mapInsert_ok (h.fresh m.top (Nat.le_refl _)) e
    exact ⟨wf_ins h hc hp _ _, rfl, Nat.le_refl _⟩
  | clear a c =>
    simp only [Mem.exec] at e
    obtain ⟨r, k, pool, head, size, rfl, hc, _, _, rfl⟩ := clearCont_ok e
    exact ⟨wf_upd h hc _ m.vars, rfl, Nat.le_refl _⟩
  | take d c k =>
    simp only [Mem.exec] at e
    obtain ⟨h1, h2, h3⟩ := wf_take h e
    exact ⟨h1, h2, Nat.le_of_eq h3.symm⟩
  | serialize t p x =>
    obtain ⟨hp, rfl⟩ := serialize_call e
    exact ⟨wf_new h _ hp _, rfl, Nat.le_refl _⟩
  | parse d p ref content =>
    simp only [Mem.exec] at e
    cases hp : m.pools p with
    | false =>
      obtain ⟨h1, _⟩ := parse_dead (cfg := w) hp fuel d ref 1 content
      split at e
      · rename_i q hq; exact absurd hq (h1 q)
      · cases e; exact ⟨h, rfl, Nat.le_refl _⟩
      · cases e
    | true =>
      have hb := parse_both (cfg := w) (fun i hj => h.fresh i hj) hp fuel d ref 1 content
      generalize Bridge.parse w ⟨false, ref, 1⟩ fuel content = x at hb
      generalize m.parse w fuel d p ref content = y at hb e
      cases hb with
      | @ok o q hoq =>
        obtain ⟨m1, _, hw, hfr⟩ := hoq
        cases e
        exact ⟨hw h, hfr.1, Nat.le_of_eq hfr.2.symm⟩
      | error er =>
        split at e
        · rename_i hq; cases hq
        · cases e; exact ⟨h, rfl, Nat.le_refl _⟩
        · cases e

theorem wf_exec {w : Cfg} {fuel : Nat} {m m' : Mem} {L : Ref → List Ref} (_ : Inv m L) (h : WF m) {c : Call}
    (e : m.exec w fuel c = .ok m') : WF m' ∧ m'.frames = m.frames := ⟨(wf_call h e).1, (wf_call h e).2.1⟩

/-! ### the parallel parser -/

/-- `ParseMap` gives a map. -/
theorem coMap_map {cfg : Cfg} {v : View} {sm : Option StringMap} {si : SplitInfo} {ref : Bool} {f os : Nat} {q : Obj × Cur}
    (h : coMap cfg v sm si ref f os = .ok q) : ∃ n es, q.1 = .map ref .frame n es := by
  cases f with
  | zero => simp [coMap] at h
  | succ f =>
    simp only [coMap] at h
    obtain ⟨_, _, h⟩ := bind_ok h
    obtain ⟨_, _, h⟩ := bind_ok h
    obtain ⟨_, _, h⟩ := bind_ok h
    obtain ⟨bs, _, h⟩ := bind_ok h
    cases h
    suffices ∀ (bs : List (List (Str × Obj))) (o : MapS), o.ref = ref → o.pool = .frame →
        (bs.foldl (fun (a : MapS) b => a.merge (b, b.length)) o).ref = ref ∧ (bs.foldl (fun (a : MapS) b => a.merge (b, b.length)) o).pool = .frame by
      obtain ⟨h1, h2⟩ := this bs { ref := ref, pool := .frame } rfl rfl
      dsimp only
      generalize bs.foldl (fun (a : MapS) b => a.merge (b, b.length)) { ref := ref, pool := .frame } = q at h1 h2
      exact ⟨q.size, q.items, by unfold MapS.toObj; rw [h1, h2]⟩
    intro bs
    induction bs with
    | nil => intro o h1 h2; exact ⟨h1, h2⟩
    | cons b bs ih =>
      intro o h1 h2
      refine ih _ ?_ ?_
      · dsimp only [MapS.merge]; cases b.isEmpty <;> exact h1
      · dsimp only [MapS.merge]; cases b.isEmpty <;> exact h2

theorem load_owner {m : Mem} (owner : Ref → Option Nat) {r : Nat} (h : owner r = none ↔ m.owner r = none) :
    Mem.load { m with owner := owner } (some r) = m.load (some r) := by
  simp only [Mem.load]
  cases h1 : m.owner r with
  | none => simp only [h.2 h1]
  | some a =>
    cases h2 : owner r with
    | none => rw [h.1 h2] at h1; cases h1
    | some b => cases m.cells r <;> rfl

/-- The memory that `ParseMap` leaves, and what the caller makes of it. -/
theorem receive_spec {w : Cfg} {fuel : Nat} {m m1 : Mem} (hw : WF m) {v : View} {sm : Option StringMap} {si : SplitInfo} {ref : Bool} {os : Nat}
    {r : Res (Nat × Ref × Nat)} (hs : Steps m (Co.map w v sm si ref fuel os) m1 (.ret r)) :
    Both (fun a b => a.2 = ⟨b.1, b.1⟩ ∧ WF m1 ∧ m1.pools = m.pools ∧ ∀ d p, m.pools p = true → ∃ m' mr, m1.receive d p b.2.1 b.2.2 = .ok m' ∧ m'.top = m1.top ∧ WF m' ∧
      (m1.top < 2 ^ 64 → Parsed m m' d p (fun k => m'.pools k = false ∧ m'.frames k = true) ref mr.top (takeRoot a.1) mr b.2.1))
      (coMap w v sm si ref fuel os) r := by
  have hruns := (co_runs (cfg := w) (v := v) (sm := sm) (si := si) (ref := ref) fuel).2.2.2 Part.empty os
  have hempty : Of m Part.empty := ⟨fun r q c => ⟨(fun e => by cases e), (fun e => absurd rfl e.2.2)⟩, (fun q b e => by cases e)⟩
  obtain ⟨s', hw1, ho, hq, hf⟩ := steps_sound hs _ _ hw hempty hruns
  change Both _ _ _ at hq
  have hx : ∀ q, coMap w v sm si ref fuel os = .ok q → ∃ n es, q.1 = .map ref .frame n es := fun q => coMap_map
  generalize coMap w v sm si ref fuel os = x at hq hx
  cases hq with
  | error e => exact .error e
  | @ok a b hab =>
  refine .ok ?_
  obtain ⟨o, cur⟩ := a
  obtain ⟨off, root, q⟩ := b
  obtain ⟨hoff, hg⟩ := hab
  dsimp only at hoff hg ⊢
  obtain ⟨n, es, rfl⟩ : ∃ n es, o = .map ref .frame n es := hx _ rfl
  obtain ⟨fp, htree, hnd, hfp⟩ := hg.made
  have hended : ∀ k, s'.pools k = none ∨ s'.pools k = some false := fun k => hg.ext.ended k rfl
  have htok : ∀ k, s'.pools k ≠ none → s'.pools k = some false := fun k hk => (hended k).resolve_left hk
  have hnew : ∀ k, s'.pools k ≠ none → m.nextPool ≤ k := fun k hk => (hf.newTok k hk).resolve_left (fun h => h rfl)
  have hpools : m1.pools = m.pools := by
    funext k
    by_cases hk : s'.pools k = none
    · exact (hf.pool k hk).1
    · rw [(ho.pools k _ (htok k hk)).1]
      cases hb : m.pools k with
      | false => rfl
      | true => exact absurd (hw.pools k hb) (Nat.not_lt.2 (hnew k hk))
  -- the new cells
  have hcell : ∀ i : Nat, m1.cells i = m.cells i ∧ m1.owner i = m.owner i ∨ m.top ≤ i ∧ i ∈ fp := by
    intro i
    rcases hf.cell i with h | ⟨⟨k, h1, h2⟩, h3⟩
    · exact .inl h
    · refine .inr ⟨h3.resolve_right (fun ⟨_, _, h⟩ => h rfl), (hfp i).2 (.inr ⟨rfl, ?_⟩)⟩
      cases hc : m1.cells i with
      | none => exact absurd hc (hw1.live i (by rw [h1]; simp))
      | some c => rw [(ho.cells i k c).2 ⟨h1, hc, h2⟩]; simp
  have hin : ∀ i : Nat, i ∈ fp → m.top ≤ i ∧ i < m1.top ∧ m1.owner i = some q ∧ m1.cells i = s'.cell i := by
    intro i hi
    have hN := ((hfp i).1 hi).resolve_left (by simp)
    cases hc : s'.cells i with
    | none => exact absurd hc hN.2
    | some xx =>
      obtain ⟨k, c⟩ := xx
      obtain ⟨h1, h2, h3⟩ := (ho.cells i k c).1 hc
      have hkq := hg.ext.new i k c rfl hc
      subst hkq
      refine ⟨?_, ?_, h1, by rw [Part.cell_of hc]; exact h2⟩
      · apply Classical.byContradiction
        intro hlt
        rcases hf.cell i with h | ⟨_, h4⟩
        · rw [h1] at h
          exact absurd (hw.owner i k h.2.symm) (Nat.not_lt.2 (hnew k h3))
        · rcases h4 with h4 | ⟨_, _, h4⟩
          · exact hlt h4
          · exact h4 rfl
      · apply Classical.byContradiction
        intro hlt
        rw [hw1.fresh i (Nat.not_lt.1 hlt)] at h2; cases h2
  have htree1 : GTree m1.cells (fun k => m1.pools k = false ∧ m1.frames k = true) ref fp root (.map ref .frame n es) := by
    refine GTree.congr (fun k hk => ?_) htree (fun i hi => (hin i hi).2.2.2)
    have : s'.pools k = some false := by
      rcases hk with rfl | hk
      · exact hg.ended
      · exact hk
    obtain ⟨h1, h2, _⟩ := ho.pools k _ this
    exact ⟨h1, h2⟩
  refine ⟨hoff, hw1, hpools, fun d p hp => ?_⟩
  have hqn : m.nextPool ≤ q := hnew q (by rw [hg.ended]; simp)
  have hpq : p ≠ q := fun e => absurd (hw.pools p hp) (Nat.not_lt.2 (e ▸ hqn))
  obtain ⟨m2, hm2⟩ : ∃ m2 : Mem, m2 = { m1 with owner := fun r => if m1.owner r = some q then some p else m1.owner r } := ⟨_, rfl⟩
  have hown : ∀ i : Nat, i ∈ fp → m2.owner i = some p := fun i hi => by rw [hm2]; show (if _ then _ else _) = _; rw [if_pos (hin i hi).2.2.1]
  have hc2 : m2.cells = m1.cells := by rw [hm2]
  have ht2 : m2.top = m1.top := by rw [hm2]
  have hno : ∀ i, m2.owner i ≠ some q := by
    intro i; rw [hm2]; show (if _ then _ else _) ≠ _
    split
    · intro h; cases h; exact hpq rfl
    · assumption
  have hw2 : WF m2 := by
    rw [hm2]
    refine ⟨hw1.fresh, fun i hi => ?_, fun i k e => ?_, hw1.pools, hw1.frames⟩
    · change (if _ then _ else _) ≠ _ at hi
      split at hi
      · rename_i h; exact hw1.live i (by rw [h]; simp)
      · exact hw1.live i hi
    · change (if _ then _ else _) = _ at e
      split at e
      · cases e; exact Nat.lt_of_lt_of_le (hw.pools p hp) hf.np
      · exact hw1.owner i k e
  have htree2 : GTree m2.cells (fun k => m2.pools k = false ∧ m2.frames k = true) ref fp root (.map ref .frame n es) := by
    rw [hm2]; exact htree1
  -- the region
  obtain ⟨⟨L2, hL2⟩, hobj, hfree⟩ := htree2.loc hnd
  have hreg : Region m m2 p (fun k => m2.pools k = false ∧ m2.frames k = true) ref root := by
    refine ⟨by rw [hm2]; exact hf.vars, by rw [hm2]; exact hpools, fun k hk => ?_, by rw [ht2]; exact hf.top, fun i hi => ?_, fun i hi => ?_, fun i c h1 h2 => ?_,
      hw2.fresh, ⟨L2, hL2.range (fun i hi => ?_) (fun i h1 h2 h3 => ?_)⟩, (hin root htree2.root).1, hobj, fun i k nx h1 h2 h3 => ?_⟩
    · rw [hm2]
      show m1.frames k = true
      have : s'.pools k = none := by
        apply Classical.byContradiction
        intro h
        exact absurd (hw.frames k hk) (Nat.not_lt.2 (hnew k h))
      rw [(hf.pool k this).2]; exact hk
    · rw [hc2]
      rcases hcell i with h | ⟨h, _⟩
      · exact h.1
      · omega
    · rcases hcell i with h | ⟨h, _⟩
      · rw [hm2]; show (if _ then _ else _) = _
        rw [h.2]
        split
        · rename_i he; exact absurd (hw.owner i q he) (Nat.not_lt.2 hqn)
        · rfl
      · omega
    · have hi : i ∈ fp := by
        rcases hcell i with h | ⟨_, h⟩
        · rw [hc2, h.1, hw.fresh i h1] at h2; cases h2
        · exact h
      obtain ⟨c', e', hcl⟩ := htree2.cls i hi
      rw [e'] at h2; cases h2
      exact ⟨hown i hi, hcl⟩
    · rw [ht2]; exact ⟨(hin i hi).1, (hin i hi).2.1⟩
    · rcases hcell i with h | ⟨_, h⟩
      · rw [hc2, h.1, hw.fresh i h1] at h3; exact absurd rfl h3
      · exact h
    · have hi : i ∈ fp := by
        rcases hcell i with h | ⟨_, h⟩
        · rw [hc2, h.1, hw.fresh i h1] at h3; cases h3
        · exact h
      exact hfree i k nx hi h3
  -- the root map
  have hroot : ∀ {fp : List Nat} {r : Nat} {o : Obj}, GTree m2.cells (fun k => m2.pools k = false ∧ m2.frames k = true) ref fp r o → o = .map ref .frame n es →
      ∃ pk hd fp', m2.cells r = some (.cont (.map ref) pk hd n) ∧ fp = r :: fp' ∧
        GSeg m2.cells (fun k => m2.pools k = false ∧ m2.frames k = true) ref fp' hd es none := by
    intro fp r o ht e
    cases ht with
    | data => cases e
    | array => cases e
    | map hc _ _ l => cases e; exact ⟨_, _, _, hc, rfl, l⟩
  obtain ⟨pk, hd, fp', hc, rfl, l⟩ := hroot htree2 rfl
  obtain ⟨hnd1, hnd2⟩ := List.nodup_cons.1 hnd
  have hlen : (root :: fp').length ≤ m2.top := nodup_bound _ _ hnd (fun i hi => by rw [ht2]; exact (hin i hi).2.1)
  have hlen' := GSeg.length l
  rw [List.length_cons] at hlen
  have hload : m2.loadCont false (some root) = .ok (root, .map ref, pk, hd, n) := by
    have := loadCont_eq hc (by rw [hown root (by simp)]; simp)
    simpa using this
  have hrec : ∀ m' : Mem, m2.take m2.top d (some root) rootKey = .ok m' → (∀ i, m'.owner i = m2.owner i) → m1.receive d p root q = .ok m' := by
    intro m' h1 h2
    unfold Mem.receive
    rw [if_pos ⟨by rw [hpools]; exact hp, hpq⟩]
    dsimp only
    rw [← hm2, ← ht2, h1, ok_bind, pure_eq_ok]
    congr 1
    have : (fun r => if m'.owner r = some q then none else m'.owner r) = m'.owner := by
      funext i
      rw [h2 i]
      split
      · rename_i h; exact absurd h (hno i)
      · rfl
    rw [this]
  have hPwf : ∀ m' : Mem, (m' = m2.setVar d none ∨ ∃ (t t1 : Nat), m' = (m2.modify t1 (Cell.setNode none)).setVar d (some t)) → WF m' := by
    rintro m' (rfl | ⟨t, t1, rfl⟩)
    · exact ⟨hw2.fresh, hw2.live, hw2.owner, hw2.pools, hw2.frames⟩
    · have := modify_wf hw2 t1 (Cell.setNode none)
      exact ⟨this.fresh, this.live, this.owner, this.pools, this.frames⟩
  rcases GSeg.find rootKey l rfl (fun i hi => by rw [hown i (by simp [hi])]; simp) hnd2 m2.top (by omega) with ⟨k1, k2⟩ | ⟨t, t1, k, nx, fp1, k1, k2, k3, k4, k5, k6⟩
  · have htake : m2.take m2.top d (some root) rootKey = .ok (m2.setVar d none) := by
      unfold Mem.take
      rw [hload, ok_bind]; dsimp only
      rw [k1, ok_bind]; rfl
    refine ⟨m2.setVar d none, m2, hrec _ htake (fun _ => rfl), ht2, hPwf _ (.inl rfl), fun _ => ?_⟩
    have hv : (m2.setVar d none).vars d = none := upd_same _ _ _
    exact ⟨hp, hreg, htake, .inl rfl, by rw [hv]; simp only [takeRoot]; rw [k2]; exact .null, .inl ⟨by simp only [takeRoot]; rw [k2], hv⟩⟩
  · have htake : m2.take m2.top d (some root) rootKey = .ok ((m2.modify t1 (Cell.setNode none)).setVar d (some t)) := by
      unfold Mem.take
      rw [hload, ok_bind]; dsimp only
      rw [k1, ok_bind]
      simp only [Option.isNone_some, Bool.false_eq_true, if_false]
      rw [loadItem_eq k2 (by rw [hown t1 (by simp [k3])]; simp), ok_bind]
      rfl
    refine ⟨(m2.modify t1 (Cell.setNode none)).setVar d (some t), m2, hrec _ htake (fun _ => rfl), ht2, hPwf _ (.inr ⟨_, _, rfl⟩), fun htop => ?_⟩
    have hv : ((m2.modify t1 (Cell.setNode none)).setVar d (some t)).vars d = some t := upd_same _ _ _
    have ht1 := hin t1 (by simp [k3])
    refine ⟨hp, hreg, htake, .inr ⟨t, t1, k, nx, ht1.1, by rw [ht2]; exact ht1.2.1, k2, rfl⟩, ?_, .inr ?_⟩
    · rw [hv]
      refine GTree.shows (m := (m2.modify t1 (Cell.setNode none)).setVar d (some t)) (D := fun k => m2.pools k = false ∧ m2.frames k = true) (ref := ref)
        (fp := fp1) (fun k hk => hk.1) (k6.congr (fun k hk => hk) fun i hi => ?_) (fun i hi => ?_)
      · exact modify_ne (show i ≠ t1 from fun e => k5 (e ▸ hi)) _
      · show m2.owner i ≠ none
        rw [hown i (by simp [k4 i hi])]; simp
    · obtain ⟨_, hds⟩ := GSeg.doc l (by omega)
      rcases takeKey_doc_some (key := rootKey) hds with h | ⟨qd, h⟩
      · rw [h] at k6; cases k6
      · exact ⟨t, qd, hv, (hin t (by simp [k4 t k6.root])).1, h⟩

/-- The root is not split: the parallel parser is the recursive parser. -/
theorem parse_whole {w : Cfg} {content : Bytes} {s : Sched} (hs : initFromContent w content = .ok s) (h : s.split = false) (ref : Bool) (k k' fuel : Nat) :
    Bridge.parse w ⟨true, ref, k⟩ fuel content = Bridge.parse w ⟨false, ref, k'⟩ fuel content := by
  unfold Bridge.parse coroutineParse
  simp only [hs, ok_bind, h, if_true, Bool.false_eq_true, if_false]

theorem parse_split {w : Cfg} {content : Bytes} {s : Sched} (hs : initFromContent w content = .ok s) (h : s.split = true) (ref : Bool) {k : Nat} (hk : k ≠ 0)
    (fuel : Nat) : Bridge.parse w ⟨true, ref, k⟩ fuel content =
      (coMap w (View.whole content) s.sm s.si ref fuel metaSize >>= fun q => pure (takeRoot q.1)) := by
  unfold Bridge.parse coroutineParse
  simp only [hs, ok_bind, h, if_true, Bool.true_eq_false, if_false, hk]

/-- What a parallel `Parse` that returned has done. -/
def CoParsed (m m' : Mem) (c : CoCall) (o : Obj) : Prop :=
  ∃ D f mr root, Parsed m m' c.d c.p D c.ref f o mr root ∧ ∀ k, D k → m'.pools k = true ∨ m'.frames k = true

theorem coParse_ok {w : Cfg} {fuel : Nat} {m m' : Mem} {L : Ref → List Ref} (hi : Inv m L) (hw : WF m) {c : CoCall} (h : CoParse w fuel m c (.ok m'))
    (ht : m'.top < 2 ^ 64) : m.pools c.p = true ∧ WF m' ∧
      ∃ o, Bridge.parse w ⟨true, c.ref, c.workers⟩ fuel c.content = .ok o ∧ CoParsed m m' c o := by
  generalize hr : (Except.ok m' : Res Mem) = r at h
  cases h with
  | header e h => cases hr
  | fails => cases hr
  | whole s h1 h2 =>
    rw [parse_whole h1 h2 c.ref c.workers 1 fuel]
    cases hp : m.pools c.p with
    | false => exact absurd hr.symm ((parse_dead hp fuel c.d c.ref 1 c.content).1 m')
    | true =>
      have hb := parse_both (cfg := w) (fun i hj => hi.fresh i hj) hp fuel c.d c.ref 1 c.content
      rw [← hr] at hb
      generalize Bridge.parse w ⟨false, c.ref, 1⟩ fuel c.content = x at hb
      cases hb with
      | ok hoq =>
        obtain ⟨m1, hP, hwf, _⟩ := hoq
        exact ⟨rfl, hwf hw, _, rfl, _, _, _, _, hP, fun k e => .inl (by rw [e, hP.effect.1]; exact hp)⟩
  | returns s m1 off root q h1 h2 h3 h4 =>
    rw [parse_split h1 h2 c.ref h3 fuel]
    have hb := receive_spec hw h4
    generalize coMap w (View.whole c.content) s.sm s.si c.ref fuel metaSize = x at hb
    cases hb with
    | ok hab =>
      obtain ⟨_, _, hpools, hall⟩ := hab
      cases hp : m.pools c.p with
      | false =>
        unfold Mem.receive at hr
        rw [if_neg (fun h => by rw [hpools, hp] at h; cases h.1)] at hr
        cases hr
      | true =>
        obtain ⟨m2, mr, g1, g2, g3, g4⟩ := hall c.d c.p hp
        dsimp only at g1
        rw [g1] at hr
        cases hr
        exact ⟨rfl, g3, _, rfl, _, _, _, _, g4 (by rw [← g2]; exact ht), fun k hk => .inr hk.2⟩

theorem coParse_error {w : Cfg} {fuel : Nat} {m : Mem} {L : Ref → List Ref} (hi : Inv m L) (hw : WF m) {c : CoCall} {e : Err} (h : CoParse w fuel m c (.error e))
    (hp : m.pools c.p = true) : Bridge.parse w ⟨true, c.ref, c.workers⟩ fuel c.content = .error e := by
  generalize hr : (Except.error e : Res Mem) = r at h
  cases h with
  | header e h => cases hr; unfold Bridge.parse; rw [h, error_bind]
  | fails s m1 e' h1 h2 h3 h4 =>
    cases hr
    rw [parse_split h1 h2 c.ref h3 fuel]
    have hb := receive_spec hw h4
    generalize coMap w (View.whole c.content) s.sm s.si c.ref fuel metaSize = x at hb
    cases hb with
    | error => rfl
  | whole s h1 h2 =>
    rw [parse_whole h1 h2 c.ref c.workers 1 fuel]
    have hb := parse_both (cfg := w) (fun i hj => hi.fresh i hj) hp fuel c.d c.ref 1 c.content
    rw [← hr] at hb
    generalize Bridge.parse w ⟨false, c.ref, 1⟩ fuel c.content = x at hb
    cases hb with
    | error => rfl
  | returns s m1 off root q h1 h2 h3 h4 =>
    have hb := receive_spec hw h4
    generalize coMap w (View.whole c.content) s.sm s.si c.ref fuel metaSize = x at hb
    cases hb with
    | ok hab =>
      obtain ⟨_, _, hpools, hall⟩ := hab
      obtain ⟨m2, mr, g1, g2, g3, g4⟩ := hall c.d c.p hp
      dsimp only at g1
      rw [g1] at hr
      cases hr

theorem coParse_exn {w : Cfg} {fuel : Nat} {m : Mem} {L : Ref → List Ref} (hi : Inv m L) (hw : WF m) {c : CoCall} {x : Exn} (h : CoParse w fuel m c (.error (.exn x))) :
    Bridge.parse w ⟨true, c.ref, c.workers⟩ fuel c.content = .error (.exn x) := by
  cases hp : m.pools c.p with
  | true => exact coParse_error hi hw h hp
  | false =>
    generalize hr : (Except.error (Err.exn x) : Res Mem) = r at h
    cases h with
    | header e h => cases hr; unfold Bridge.parse; rw [h, error_bind]
    | fails s m1 e' h1 h2 h3 h4 =>
      cases hr
      rw [parse_split h1 h2 c.ref h3 fuel]
      have hb := receive_spec hw h4
      generalize coMap w (View.whole c.content) s.sm s.si c.ref fuel metaSize = x at hb
      cases hb with
      | error => rfl
    | whole s h1 h2 =>
      rw [parse_whole h1 h2 c.ref c.workers 1 fuel]
      exact (parse_dead hp fuel c.d c.ref 1 c.content).2 x hr.symm
    | returns s m1 off root q h1 h2 h3 h4 =>
      have hb := receive_spec hw h4
      generalize coMap w (View.whole c.content) s.sm s.si c.ref fuel metaSize = x at hb
      cases hb with
      | ok hab =>
        unfold Mem.receive at hr
        rw [if_neg (fun h => by rw [hab.2.2.1, hp] at h; cases h.1)] at hr
        cases hr

/-! ### programs -/

/-- The operation that a step stands for. -/
def Act.op (w : Cfg) (fuel : Nat) : Act → Op
  | .call c => c.op w fuel
  | .coParse c =>
    match Bridge.parse w ⟨true, c.ref, c.workers⟩ fuel c.content with
    | .ok o => .parse c.d c.ref o.doc?
    | .error _ => .other

/-- The step frees memory of a pool. -/
def Act.frees : Act → Bool
  | .call c => c.frees
  | .coParse _ => false

theorem sim_act {w : Cfg} {fuel : Nat} {m m' : Mem} {L : Ref → List Ref} (h : Inv m L) (hw : WF m) {a : Act} (e : Exec w fuel m a m') :
    ∃ L', Inv m' L' ∧ WF m' ∧ (abs m L).Step (a.op w fuel) (abs m' L') := by
  cases e with
  | call c m' e =>
    obtain ⟨L', h1, h2⟩ := sim_exec h e
    exact ⟨L', h1, (wf_exec h hw e).1, h2⟩
  | coParse c m' e ht =>
    obtain ⟨_, h1, o, h2, _, _, _, _, hP, _⟩ := coParse_ok h hw e ht
    obtain ⟨L', h3, h4⟩ := sim_parse hP h
    refine ⟨L', h3, h1, ?_⟩
    simp only [Act.op, h2]
    exact h4
  | coThrow c x e =>
    refine ⟨L, h, hw, ?_⟩
    simp only [Act.op, coParse_exn h hw e]
    exact .other _

theorem sim_acts {w : Cfg} {fuel : Nat} {m m' : Mem} {as : List Act} (e : Run w fuel m as m') : ∀ {L : Ref → List Ref}, Inv m L → WF m →
    ∃ L', Inv m' L' ∧ WF m' ∧ (abs m L).Steps (as.map (Act.op w fuel)) (abs m' L') := by
  induction e with
  | nil m => intro L h hw; exact ⟨L, h, hw, .nil _⟩
  | cons e _ ih =>
    intro L h hw
    obtain ⟨L1, i1, w1, s1⟩ := sim_act h hw e
    obtain ⟨L2, i2, w2, s2⟩ := ih i1 w1
    exact ⟨L2, i2, w2, .cons s1 s2⟩

theorem live_act {w : Cfg} {fuel : Nat} {m m' : Mem} {L : Ref → List Ref} (hi : Inv m L) (hw : WF m) (h : Live m) {a : Act} (hf : a.frees = false)
    (e : Exec w fuel m a m') : Live m' := by
  cases e with
  | call c m' e => exact live_exec hi h hf e
  | coParse c m' e ht =>
    obtain ⟨_, h1, o, h2, _, _, _, _, hP, hD⟩ := coParse_ok hi hw e ht
    exact hP.live hD h
  | coThrow c x e => exact h

theorem live_acts {w : Cfg} {fuel : Nat} {m m' : Mem} {as : List Act} (e : Run w fuel m as m') : ∀ {L : Ref → List Ref}, Inv m L → WF m → Live m →
    (∀ a ∈ as, a.frees = false) → Live m' := by
  induction e with
  | nil m => intro L _ _ h _; exact h
  | cons e _ ih =>
    intro L h hw hl hf
    obtain ⟨L1, i1, w1, _⟩ := sim_act h hw e
    exact ih i1 w1 (live_act h hw hl (hf _ List.mem_cons_self) e) (fun a ha => hf a (List.mem_cons_of_mem _ ha))

/-- A program of calls. -/
theorem run_calls {w : Cfg} {fuel : Nat} {m m' : Mem} {cs : List Call} (h : m.run w fuel cs = .ok m') : Run w fuel m (cs.map .call) m' := by
  induction cs generalizing m with
  | nil => cases h; exact .nil _
  | cons c cs ih =>
    simp only [Mem.run] at h
    obtain ⟨m1, h1, h2⟩ := bind_ok h
    exact .cons (.call c m1 h1) (ih h2)

theorem frames_run {w : Cfg} {fuel : Nat} {m m' : Mem} {L : Ref → List Ref} (hi : Inv m L) (hw : WF m) {cs : List Call} (h : m.run w fuel cs = .ok m') :
    m'.frames = m.frames := by
  induction cs generalizing m L with
  | nil => cases h; rfl
  | cons c cs ih =>
    simp only [Mem.run] at h
    obtain ⟨m1, h1, h2⟩ := bind_ok h
    obtain ⟨L1, i1, _⟩ := sim_exec hi h1
    obtain ⟨w1, f1⟩ := wf_exec hi hw h1
    rw [ih i1 w1 h2, f1]

end Bridge.Heap
