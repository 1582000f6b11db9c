import Verif.Model.CoMany
import Verif.Proof.Threads
import Verif.Proof.CoLater
/-
Parallel parses of several threads under way in one memory: each has a part of the memory of its own, and the threads have the rest.
-/
set_option autoImplicit false
namespace Bridge.Heap.Many
open Spec

/-- The address is in none of the parts. -/
def Outside (hs : Nat → Part) (r : Ref) : Prop := ∀ i, (hs i).cells r = none

/-- The pool number has been used, and is in none of the parts. -/
def PoolOut (hs : Nat → Part) (m : Mem) (p : Nat) : Prop := p < m.nextPool ∧ ∀ i, (hs i).pools p = none

def PtrOut (hs : Nat → Part) (m : Mem) (p : Option Ref) : Prop := ∀ r, p = some r → r < m.top ∧ Outside hs r

def CellOut (hs : Nat → Part) (m : Mem) : Cell → Prop
  | .data .. => True
  | .cont _ p h _ => PoolOut hs m p ∧ PtrOut hs m h
  | .item _ v n => PtrOut hs m v ∧ PtrOut hs m n

/-- The parts `hs i` belong to the coroutines, everything else to the threads; no pointer leads from there into a part. -/
structure Core (b : Nat) (m : Mem) (ls : Nat → ThreadLocal) (hs : Nat → Part) : Prop where
  wf : WF m
  of : ∀ i, Of m (hs i)
  apart : ∀ i j q, i ≠ j → (hs i).pools q ≠ none → (hs j).pools q = none
  names : ∀ q, m.frames q = true → b ≤ q
  next : b ≤ m.nextPool
  vars : ∀ x, PtrOut hs m (m.vars x)
  ptrs : ∀ t q, PtrOut hs m ((ls t).ptrs q)
  cells : ∀ r c, Outside hs r → m.cells r = some c → CellOut hs m c

theorem wf_top {m : Mem} (h : WF m) {r : Nat} {c : Cell} (e : m.cells r = some c) : r < m.top :=
  Nat.lt_of_not_le fun hn => by rw [h.fresh r hn] at e; cases e

theorem Core.poolOut {b : Nat} {m : Mem} {ls : Nat → ThreadLocal} {hs : Nat → Part} (h : Core b m ls hs) {p : Nat} (hp : p < b) :
    PoolOut hs m p := by
  refine ⟨Nat.lt_of_lt_of_le hp h.next, fun i => ?_⟩
  cases e : (hs i).pools p with
  | none => rfl
  | some x => exact absurd (h.names p ((h.of i).pools p x e).2.1) (Nat.not_le.2 hp)

theorem outside_top {m : Mem} {hs : Nat → Part} (hw : WF m) (ho : ∀ i, Of m (hs i)) {r : Nat} (hr : m.top ≤ r) : Outside hs r :=
  fun i => (ho i).none (hw.fresh r hr)

/-- What the owner of an address tells. -/
theorem not_outside {m : Mem} {hs : Nat → Part} (hw : WF m) (ho : ∀ i, Of m (hs i)) {r q i : Nat} (h1 : m.owner r = some q)
    (h2 : (hs i).pools q ≠ none) : ¬ Outside hs r := by
  intro h
  cases hc : m.cells r with
  | none => exact hw.live r (by rw [h1]; simp) hc
  | some c =>
    have := ((ho i).cells r q c).2 ⟨h1, hc, h2⟩
    rw [h i] at this; cases this

/-! ### instructions -/

theorem instr_wf {w : Cfg} {fuel : Nat} {m m' : Mem} {l l' : ThreadLocal} (h : WF m) {i : Instr} (e : i.exec w fuel m l = .ok (m', l')) :
    WF m' ∧ m'.frames = m.frames ∧ m.nextPool ≤ m'.nextPool := by
  have same : ∀ {α : Type} {x : Res α} {f : α → ThreadLocal}, (x >>= fun a => pure (m, f a)) = Except.ok (m', l') →
      WF m' ∧ m'.frames = m.frames ∧ m.nextPool ≤ m'.nextPool := by
    intro α x f e
    obtain ⟨a, _, e⟩ := bind_ok e
    cases e
    exact ⟨h, rfl, Nat.le_refl _⟩
  cases i with
  | call c q =>
    simp only [Instr.exec] at e
    obtain ⟨m1, h1, e⟩ := bind_ok e
    cases e
    exact wf_call h h1
  | write t p x =>
    simp only [Instr.exec] at e
    obtain ⟨q, h1, e⟩ := bind_ok e
    obtain ⟨hp, rfl⟩ := rootInsert_ok h1
    dsimp only at e
    have hw := wf_new h (.item ⟨rootKey, none⟩ (m.vars x) none) hp (upd m.vars x none)
    split at e
    · cases e; exact ⟨hw, rfl, Nat.le_refl _⟩
    · cases e; exact ⟨hw, rfl, Nat.le_refl _⟩
    · cases e
  | read d p ref content =>
    simp only [Instr.exec] at e
    have hc : m.exec w fuel (.parse d p ref content) = .ok m' := by
      simp only [Mem.exec]
      split at e
      · rename_i hq; rw [hq]; cases e; rfl
      · rename_i hq; rw [hq]; cases e; rfl
      · cases e
    exact wf_call h hc
  | get q x => cases e; exact ⟨h, rfl, Nat.le_refl _⟩
  | index q q' n => exact same e
  | key q q' k => exact same e
  | first q q' a => exact same e
  | next q q' => exact same e
  | value q q' => exact same e
  | dump q => exact same e
  | size q a => exact same e
  | leaf q =>
    simp only [Instr.exec] at e
    obtain ⟨⟨r, c⟩, _, e⟩ := bind_ok e
    dsimp only at e
    cases c with
    | data => cases e; exact ⟨h, rfl, Nat.le_refl _⟩
    | cont => cases e
    | item => cases e
  | null q => cases e; exact ⟨h, rfl, Nat.le_refl _⟩

open Classical in
/-- An instruction of a thread keeps to what belongs to the threads. -/
theorem instr_core {w : Cfg} {fuel : Nat} {b : Nat} {m m' : Mem} {ls : Nat → ThreadLocal} {hs : Nat → Part} (h : Core b m ls hs) {t : Nat} {i : Instr}
    {l' : ThreadLocal} (hp : ∀ p ∈ i.poolArgs, p < b) (e : i.exec w fuel m (ls t) = .ok (m', l')) :
    Core b m' (upd ls t l') hs ∧ ∀ k (r : Ref), (hs k).cells r ≠ none → m'.cells r = m.cells r ∧ m'.owner r = m.owner r := by
  obtain ⟨hw', hfr, hnp⟩ := instr_wf h.wf e
  obtain ⟨sh, hsh⟩ : ∃ sh : Thr.Share, sh = ⟨fun q => if PoolOut hs m' q then 0 else 1, fun _ => 0⟩ := ⟨_, rfl⟩
  obtain ⟨W, hW⟩ : ∃ W : Thr.World, W = ⟨fun r => if Outside hs r then 0 else 1, id⟩ := ⟨_, rfl⟩
  have hpool : ∀ q, sh.pool q = 0 ↔ PoolOut hs m' q := by
    intro q; rw [hsh]; dsimp only; by_cases hq : PoolOut hs m' q
    · simp [hq]
    · simp [hq]
  have hvar : ∀ x, sh.var x = 0 := by intro x; rw [hsh]
  have hside : ∀ r, W.side r = 0 ↔ Outside hs r := by
    intro r; rw [hW]; dsimp only; by_cases hq : Outside hs r
    · simp [hq]
    · simp [hq]
  have hf : ∀ r, W.f r = r := by intro r; rw [hW]; rfl
  have hid : W.f = id := by rw [hW]
  have hmine : ∀ r, Thr.Mine 0 W m r ↔ r < m.top ∧ Outside hs r := fun r => and_congr_right fun _ => hside r
  have hptr : ∀ p, PtrOut hs m p → Thr.PIn 0 W m p := fun p hp r hr => (hmine r).2 (hp r hr)
  have hren : ∀ c, Thr.ren W.f c = c := by
    intro c; rw [hid]
    cases c <;> simp [Thr.ren]
  have hgrow : ∀ q, PoolOut hs m q → PoolOut hs m' q := fun q hq => ⟨Nat.lt_of_lt_of_le hq.1 hnp, hq.2⟩
  have hrel : Thr.Rel sh 0 W m m := by
    refine ⟨fun r _ => ?_, fun r _ => by rw [hf], fun r r' _ _ e => by rw [hf, hf] at e; exact e, fun r hr => by rw [hf]; exact hr.1,
      fun r c hr e => ?_, fun r p hr e => ?_, fun r p e hp => ?_, fun x _ => by rw [hid]; simp, fun x _ => hptr _ (h.vars x), fun _ _ => rfl,
      fun r hr => ?_, fun _ _ => rfl⟩
    · rw [hf]
      cases m.cells r with
      | none => rfl
      | some c => simp only [Option.map_some, hren]
    · have := h.cells r c ((hmine r).1 hr).2 e
      cases c with
      | data => trivial
      | cont k p hd s => exact ⟨(hpool p).2 (hgrow p this.1), hptr _ this.2⟩
      | item k v n => exact ⟨hptr _ this.1, hptr _ this.2⟩
    · rw [hpool]
      refine ⟨Nat.lt_of_lt_of_le (h.wf.owner r p e) hnp, fun i => ?_⟩
      apply Classical.byContradiction
      intro hn
      exact not_outside h.wf h.of e hn ((hmine r).1 hr).2
    · rw [hmine]
      have hc : ∃ c, m.cells r = some c := by
        cases hc : m.cells r with
        | none => exact absurd hc (h.wf.live r (by rw [e]; simp))
        | some c => exact ⟨c, rfl⟩
      obtain ⟨c, hc⟩ := hc
      refine ⟨wf_top h.wf hc, fun i => ?_⟩
      cases hi : (hs i).cells r with
      | none => rfl
      | some x =>
        obtain ⟨q, c'⟩ := x
        obtain ⟨g1, _, g3⟩ := ((h.of i).cells r q c').1 hi
        rw [e] at g1; cases g1
        exact absurd (((hpool p).1 hp).2 i) g3
    · cases ho : m.owner r with
      | none => rfl
      | some q => exact absurd (h.wf.fresh r hr) (h.wf.live r (by rw [ho]; simp))
  have hlocal : Thr.LocalR 0 W m (ls t) (ls t) := ⟨fun q => ⟨hptr _ (h.ptrs t q), by rw [hid]; simp⟩, rfl⟩
  have hboth := Thr.instr_rel w fuel hrel hlocal i (fun p hp' => (hpool p).2 (hgrow p (h.poolOut (hp p hp')))) (fun x _ => hvar x)
  rw [e] at hboth
  obtain ⟨W', hthen, hloc⟩ : Thr.Same sh 0 W m (m', l') (m', l') := by
    generalize hx : (Except.ok (m', l') : Res (Mem × ThreadLocal)) = x at hboth
    cases hboth with
    | ok hab => cases hx; exact hab
    | error => cases hx
  dsimp only at hthen hloc
  obtain ⟨hr', hn⟩ := hthen
  have hout : ∀ r, Thr.Mine 0 W' m' r ↔ r < m'.top ∧ Outside hs r := by
    intro r
    refine and_congr_right fun hr => ?_
    rcases Nat.lt_or_ge r m.top with h1 | h1
    · rw [hn.side r h1]; exact hside r
    · exact iff_of_true (hn.new r h1 hr) (outside_top h.wf h.of h1)
  have hptr' : ∀ p, Thr.PIn 0 W' m' p → PtrOut hs m' p := fun p hp r hr => (hout r).1 (hp r hr)
  have hin : ∀ k (r : Ref), (hs k).cells r ≠ none → m'.cells r = m.cells r ∧ m'.owner r = m.owner r := by
    intro k r hr
    have h1 : r < m.top := by
      cases hc : (hs k).cells r with
      | none => exact absurd hc hr
      | some x => obtain ⟨q, c⟩ := x; exact wf_top h.wf (((h.of k).cells r q c).1 hc).2.1
    have h2 : W.side r ≠ 0 := fun hs0 => hr ((hside r).1 hs0 k)
    exact ⟨hn.cells r h1 h2, hn.owner r h1 h2⟩
  refine ⟨⟨hw', fun i => ⟨fun r q c => ⟨fun hc => ?_, fun ⟨h1, h2, h3⟩ => ?_⟩, fun q x hx => ?_⟩, h.apart, fun q hq => h.names q (by rw [← hfr]; exact hq),
    Nat.le_trans h.next hnp, fun x => hptr' _ (hr'.varsIn x (hvar x)), fun t' q => ?_, fun r c hr hc => ?_⟩, hin⟩
  · obtain ⟨g1, g2⟩ := hin i r (by rw [hc]; simp)
    rw [g1, g2]
    exact ((h.of i).cells r q c).1 hc
  · have hno : ¬ Outside hs r := fun ho => by
      have := (hpool q).1 (hr'.ownerOf r q ((hout r).2 ⟨wf_top hw' h2, ho⟩) h1)
      exact h3 (this.2 i)
    obtain ⟨k, hk⟩ : ∃ k, (hs k).cells r ≠ none := Classical.not_forall.1 hno
    obtain ⟨g1, g2⟩ := hin k r hk
    rw [g1] at h2; rw [g2] at h1
    exact ((h.of i).cells r q c).2 ⟨h1, h2, h3⟩
  · obtain ⟨g1, g2, g3⟩ := (h.of i).pools q x hx
    have hq : sh.pool q ≠ 0 := fun h0 => by have := ((hpool q).1 h0).2 i; rw [hx] at this; cases this
    exact ⟨by rw [hn.pools q hq]; exact g1, by rw [hn.frames]; exact g2, Nat.lt_of_lt_of_le g3 hnp⟩
  · by_cases ht : t' = t
    · subst ht; rw [upd_same]; exact hptr' _ (hloc.ptrs q).1
    · rw [upd_ne _ _ ht]
      intro r hr
      obtain ⟨g1, g2⟩ := h.ptrs t' q r hr
      exact ⟨Nat.lt_of_lt_of_le g1 hn.top, g2⟩
  · have := hr'.closed r c ((hout r).2 ⟨wf_top hw' hc, hr⟩) hc
    cases c with
    | data => trivial
    | cont k p hd s => exact ⟨(hpool p).1 this.1, hptr' _ this.2⟩
    | item k v n => exact ⟨hptr' _ this.1, hptr' _ this.2⟩

/-! ### accesses of coroutines -/

/-- The outcome of an access of the coroutines with the part `hs j`, after which they have `s'`. -/
theorem access_core {b : Nat} {m m' : Mem} {ls : Nat → ThreadLocal} {hs : Nat → Part} (h : Core b m ls hs) {j : Nat} {s' : Part} (hw : WF m')
    (ho : Of m' s') (hf : Frame m m' (hs j) s') :
    Core b m' ls (upd hs j s') ∧ ∀ r : Ref, r < m.top → Outside hs r → Outside (upd hs j s') r ∧ m'.cells r = m.cells r ∧ m'.owner r = m.owner r := by
  obtain ⟨hs', hhs⟩ : ∃ hs', hs' = upd hs j s' := ⟨_, rfl⟩
  have e1 : hs' j = s' := by rw [hhs]; exact upd_same _ _ _
  have e2 : ∀ i, i ≠ j → hs' i = hs i := fun i hi => by rw [hhs]; exact upd_ne _ _ hi
  rw [← hhs]
  have hother : ∀ i, i ≠ j → Of m' (hs i) ∧ ∀ q, (hs i).pools q ≠ none → s'.pools q = none := fun i hi =>
    hf.other h.wf (h.of i) (fun q hq => h.apart i j q hi hq)
  have hof : ∀ i, Of m' (hs' i) := by
    intro i
    by_cases hi : i = j
    · subst hi; rw [e1]; exact ho
    · rw [e2 i hi]; exact (hother i hi).1
  have hto : ∀ r : Ref, r < m.top → Outside hs r → Outside hs' r := by
    intro r hr hout i
    by_cases hi : i = j
    · subst hi; rw [e1]
      cases hc : s'.cells r with
      | none => rfl
      | some x =>
        obtain ⟨q, c⟩ := x
        obtain ⟨g1, _, g3⟩ := (ho.cells r q c).1 hc
        rcases hf.cell r with ⟨_, h2⟩ | ⟨_, h2 | ⟨q', h2, h3⟩⟩
        · rw [g1] at h2
          rcases hf.newTok q g3 with h3 | h3
          · exact absurd hout (not_outside h.wf h.of h2.symm h3)
          · exact absurd (h.wf.owner r q h2.symm) (Nat.not_lt.2 h3)
        · exact absurd hr (Nat.not_lt.2 h2)
        · exact absurd hout (not_outside h.wf h.of h2 h3)
    · rw [e2 i hi]; exact hout i
  have hlive : ∀ {r q : Nat}, m'.owner r = some q → s'.pools q ≠ none → s'.cells r ≠ none := by
    intro r q h1 h2
    cases hc : m'.cells r with
    | none => exact absurd hc (hw.live r (by rw [h1]; simp))
    | some c => rw [(ho.cells r q c).2 ⟨h1, hc, h2⟩]; simp
  have hsame : ∀ r : Ref, Outside hs' r → Outside hs r ∧ m'.cells r = m.cells r ∧ m'.owner r = m.owner r := by
    intro r hout
    have hj : s'.cells r = none := by rw [← e1]; exact hout j
    have hcell : m'.cells r = m.cells r ∧ m'.owner r = m.owner r := by
      rcases hf.cell r with h1 | ⟨⟨q, h1, h2⟩, _⟩
      · exact h1
      · exact absurd hj (hlive h1 h2)
    refine ⟨fun i => ?_, hcell⟩
    by_cases hi : i = j
    · subst hi
      cases hc : (hs i).cells r with
      | none => rfl
      | some x =>
        obtain ⟨q, c⟩ := x
        obtain ⟨g1, _, g3⟩ := ((h.of i).cells r q c).1 hc
        exact absurd hj (hlive (by rw [hcell.2]; exact g1) (hf.tok q g3))
    · have := hout i; rw [e2 i hi] at this; exact this
  have hptr : ∀ p, PtrOut hs m p → PtrOut hs' m' p := fun p hp r hr =>
    ⟨Nat.lt_of_lt_of_le (hp r hr).1 hf.top, hto r (hp r hr).1 (hp r hr).2⟩
  have hpool : ∀ p, PoolOut hs m p → PoolOut hs' m' p := by
    intro p hp
    refine ⟨Nat.lt_of_lt_of_le hp.1 hf.np, fun i => ?_⟩
    by_cases hi : i = j
    · subst hi; rw [e1]
      apply Classical.byContradiction; intro hn
      rcases hf.newTok p hn with h1 | h1
      · exact h1 (hp.2 i)
      · exact absurd hp.1 (Nat.not_lt.2 h1)
    · rw [e2 i hi]; exact hp.2 i
  refine ⟨⟨hw, hof, fun i k q hik hq => ?_, fun q hq => ?_, Nat.le_trans h.next hf.np, fun x => by rw [hf.vars]; exact hptr _ (h.vars x),
    fun t q => hptr _ (h.ptrs t q), fun r c hr hc => ?_⟩, fun r h1 h2 => ⟨hto r h1 h2, (hsame r (hto r h1 h2)).2⟩⟩
  · by_cases hi : i = j
    · subst hi
      rw [e1] at hq
      rw [e2 k (Ne.symm hik)]
      apply Classical.byContradiction; intro hn
      exact hq ((hother k (Ne.symm hik)).2 q hn)
    · rw [e2 i hi] at hq
      by_cases hk : k = j
      · subst hk; rw [e1]; exact (hother i hi).2 q hq
      · rw [e2 k hk]; exact h.apart i k q hik hq
  · by_cases hs0 : s'.pools q = none
    · exact h.names q (by rw [← (hf.pool q hs0).2]; exact hq)
    · rcases hf.newTok q hs0 with h1 | h1
      · cases hx : (hs j).pools q with
        | none => exact absurd hx h1
        | some x => exact h.names q ((h.of j).pools q x hx).2.1
      · exact Nat.le_trans h.next h1
  · obtain ⟨g1, g2, _⟩ := hsame r hr
    rw [g2] at hc
    have := h.cells r c g1 hc
    cases c with
    | data => trivial
    | cont k p hd s => exact ⟨hpool p this.1, hptr _ this.2⟩
    | item k v n => exact ⟨hptr _ this.1, hptr _ this.2⟩

/-! ### the end of a parse -/

/-- Other parts that make up the same. -/
theorem Core.repart {b : Nat} {m : Mem} {ls : Nat → ThreadLocal} {hs hs' : Nat → Part} (h : Core b m ls hs) (ho : ∀ i, Of m (hs' i))
    (ha : ∀ i j q, i ≠ j → (hs' i).pools q ≠ none → (hs' j).pools q = none)
    (hp : ∀ q, (∀ i, (hs' i).pools q = none) ↔ ∀ i, (hs i).pools q = none) : Core b m ls hs' := by
  have hout : ∀ r, Outside hs' r ↔ Outside hs r := by
    have key : ∀ (ks ks' : Nat → Part), (∀ i, Of m (ks i)) → (∀ i, Of m (ks' i)) → (∀ q, (∀ i, (ks' i).pools q = none) → ∀ i, (ks i).pools q = none) →
        ∀ r, Outside ks' r → Outside ks r := by
      intro ks ks' o1 o2 hq r hr i
      cases hc : (ks i).cells r with
      | none => rfl
      | some x =>
        obtain ⟨q, c⟩ := x
        obtain ⟨g1, g2, g3⟩ := ((o1 i).cells r q c).1 hc
        refine absurd (hq q (fun k => ?_) i) g3
        apply Classical.byContradiction; intro hn
        have := ((o2 k).cells r q c).2 ⟨g1, g2, hn⟩
        rw [hr k] at this; cases this
    intro r
    exact ⟨key hs hs' h.of ho (fun q => (hp q).1) r, key hs' hs ho h.of (fun q => (hp q).2) r⟩
  have hptr : ∀ p, PtrOut hs m p → PtrOut hs' m p := fun p h1 r hr => ⟨(h1 r hr).1, (hout r).2 (h1 r hr).2⟩
  refine ⟨h.wf, ho, ha, h.names, h.next, fun x => hptr _ (h.vars x), fun t q => hptr _ (h.ptrs t q), fun r c hr hc => ?_⟩
  have := h.cells r c ((hout r).1 hr) hc
  cases c with
  | data => trivial
  | cont k p hd s => exact ⟨⟨this.1.1, (hp p).2 this.1.2⟩, hptr _ this.2⟩
  | item k v n => exact ⟨hptr _ this.1, hptr _ this.2⟩

theorem of_none (m : Mem) : Of m Part.empty :=
  ⟨fun r q c => ⟨(fun e => by cases e), (fun e => absurd rfl e.2.2)⟩, (fun q b e => by cases e)⟩

/-- What a parse that threw has made is left where it is. -/
theorem throw_core {b : Nat} {m : Mem} {ls : Nat → ThreadLocal} {hs : Nat → Part} (h : Core b m ls hs) {j : Nat} (hj : j ≠ 0) :
    ∃ s, Core b m ls (upd (upd hs 0 s) j Part.empty) := by
  obtain ⟨s, ho, _, hs0⟩ := join_of (m := m) (s0 := hs 0) (n := 1) (hs := fun _ => hs j) (h.of 0) (fun _ _ => h.of j)
    (fun i q _ hq => h.apart 0 j q (Ne.symm hj) hq) (fun i k q h1 h2 hne => absurd (show i = k by omega) hne)
  have hs1 : ∀ q, s.pools q = none ↔ (hs 0).pools q = none ∧ (hs j).pools q = none := by
    intro q
    have := hs0 q
    constructor
    · intro e
      constructor
      · apply Classical.byContradiction; intro hn; exact this.2 (.inl hn) e
      · apply Classical.byContradiction; intro hn; exact this.2 (.inr ⟨0, Nat.zero_lt_one, hn⟩) e
    · rintro ⟨g1, g2⟩
      apply Classical.byContradiction; intro hn
      rcases this.1 hn with g | ⟨_, _, g⟩
      · exact g g1
      · exact g g2
  obtain ⟨hs', hhs⟩ : ∃ hs', hs' = upd (upd hs 0 s) j Part.empty := ⟨_, rfl⟩
  have e0 : hs' 0 = s := by rw [hhs, upd_ne _ _ (Ne.symm hj), upd_same]
  have ej : hs' j = Part.empty := by rw [hhs, upd_same]
  have ei : ∀ i, i ≠ 0 → i ≠ j → hs' i = hs i := fun i h0 h1 => by rw [hhs, upd_ne _ _ h1, upd_ne _ _ h0]
  refine ⟨s, ?_⟩
  rw [← hhs]
  refine h.repart (fun i => ?_) (fun i k q hik hq => ?_) (fun q => ⟨fun hq i => ?_, fun hq i => ?_⟩)
  · by_cases h0 : i = 0
    · subst h0; rw [e0]; exact ho
    · by_cases h1 : i = j
      · subst h1; rw [ej]; exact of_none m
      · rw [ei i h0 h1]; exact h.of i
  · by_cases hk1 : k = j
    · subst hk1; rw [ej]; rfl
    · by_cases h1 : i = j
      · subst h1; rw [ej] at hq; exact absurd rfl hq
      · by_cases h0 : i = 0
        · subst h0
          rw [e0] at hq
          rw [ei k (Ne.symm hik) hk1]
          apply Classical.byContradiction; intro hn
          exact hq ((hs1 q).2 ⟨h.apart k 0 q (Ne.symm hik) hn, h.apart k j q hk1 hn⟩)
        · rw [ei i h0 h1] at hq
          by_cases hk0 : k = 0
          · subst hk0; rw [e0]
            exact (hs1 q).2 ⟨h.apart i 0 q hik hq, h.apart i j q h1 hq⟩
          · rw [ei k hk0 hk1]; exact h.apart i k q hik hq
  · have g0 := hq 0; rw [e0] at g0
    by_cases h0 : i = 0
    · subst h0; exact ((hs1 q).1 g0).1
    · by_cases h1 : i = j
      · subst h1; exact ((hs1 q).1 g0).2
      · have := hq i; rw [ei i h0 h1] at this; exact this
  · by_cases h0 : i = 0
    · subst h0; rw [e0]; exact (hs1 q).2 ⟨hq 0, hq j⟩
    · by_cases h1 : i = j
      · subst h1; rw [ej]; rfl
      · rw [ei i h0 h1]; exact hq i

/-- The pointers of a cell. -/
def CellP (P : Nat → Prop) : Cell → Prop
  | .data .. => True
  | .cont _ _ h _ => ∀ r, h = some r → P r
  | .item _ v n => (∀ r, v = some r → P r) ∧ ∀ r, n = some r → P r

theorem CellP.imp {P Q : Nat → Prop} (hPQ : ∀ r, P r → Q r) {c : Cell} (h : CellP P c) : CellP Q c := by
  cases c with
  | data => trivial
  | cont k p hd s => exact fun r e => hPQ r (h r e)
  | item k v n => exact ⟨fun r e => hPQ r (h.1 r e), fun r e => hPQ r (h.2 r e)⟩

mutual
/-- No pointer leads out of a tree. -/
theorem tree_inside {cells : Ref → Option Cell} {D : Nat → Prop} {ref : Bool} : {fp : List Nat} → {r : Nat} → {o : Obj} → GTree cells D ref fp r o →
    ∀ i ∈ fp, ∃ c, cells i = some c ∧ CellP (· ∈ fp) c
  | _, _, _, .data h _, i, hi => by rw [List.mem_singleton.1 hi]; exact ⟨_, h, trivial⟩
  | _, _, _, .array h _ _ l, i, hi => by
    obtain ⟨h1, h2⟩ := seg_inside l
    rcases List.mem_cons.1 hi with rfl | hi
    · exact ⟨_, h, fun r e => List.mem_cons_of_mem _ ((h2 r e).resolve_right (by simp))⟩
    · obtain ⟨c, e, hc⟩ := h1 i hi
      exact ⟨c, e, hc.imp fun r hr => List.mem_cons_of_mem _ (hr.resolve_right (by simp))⟩
  | _, _, _, .map h _ _ l, i, hi => by
    obtain ⟨h1, h2⟩ := seg_inside l
    rcases List.mem_cons.1 hi with rfl | hi
    · exact ⟨_, h, fun r e => List.mem_cons_of_mem _ ((h2 r e).resolve_right (by simp))⟩
    · obtain ⟨c, e, hc⟩ := h1 i hi
      exact ⟨c, e, hc.imp fun r hr => List.mem_cons_of_mem _ (hr.resolve_right (by simp))⟩
theorem seg_inside {cells : Ref → Option Cell} {D : Nat → Prop} {ref : Bool} : {fp : List Nat} → {hd : Option Ref} → {es : List (Str × Obj)} →
    {nx : Option Ref} → GSeg cells D ref fp hd es nx →
    (∀ i ∈ fp, ∃ c, cells i = some c ∧ CellP (fun r => r ∈ fp ∨ nx = some r) c) ∧ ∀ r : Nat, hd = some r → r ∈ fp ∨ nx = some r
  | _, _, _, _, .nil => ⟨(fun _ h => by cases h), fun _ e => .inr e⟩
  | _, _, _, _, .cons (i := i) (t := t) h a l => by
    obtain ⟨h1, h2⟩ := seg_inside l
    have h3 := tree_inside a
    refine ⟨fun k hk => ?_, fun r e => by cases e; exact .inl (by simp)⟩
    rcases List.mem_cons.1 hk with rfl | hk
    · refine ⟨_, h, fun r e => ?_, fun r e => ?_⟩
      · cases e; exact .inl (by simp [a.root])
      · rcases h2 r e with g | g
        · exact .inl (by simp [g])
        · exact .inr g
    · rcases List.mem_append.1 hk with hk | hk
      · obtain ⟨c, e, hc⟩ := h3 k hk
        exact ⟨c, e, hc.imp fun r hr => .inl (by simp [hr])⟩
      · obtain ⟨c, e, hc⟩ := h1 k hk
        refine ⟨c, e, hc.imp fun r hr => ?_⟩
        rcases hr with hr | hr
        · exact .inl (by simp [hr])
        · exact .inr hr
end

/-- The thread takes the result of its parse: what the coroutines have made belongs to the threads from now on. -/
theorem receive_core {b : Nat} {m : Mem} {ls : Nat → ThreadLocal} {hs : Nat → Part} (h : Core b m ls hs) {j : Nat} {ref : Bool} {q root n : Nat}
    {es : List (Str × Obj)} (hg : Grown ref Part.empty (hs j) q root (.map ref .frame n es)) (d : Nat) {p : Nat} (hpb : p < b) (hp : m.pools p = true) :
    ∃ m', m.receive d p root q = .ok m' ∧ Core b m' ls (upd hs j Part.empty) ∧ Shows m' (m'.vars d) (takeRoot (.map ref .frame n es)) ∧
      (∀ x, x ≠ d → m'.vars x = m.vars x) ∧ ∀ r, (hs j).cells r = none → m'.cells r = m.cells r ∧ m'.owner r = m.owner r := by
  obtain ⟨s', hs'⟩ : ∃ s', s' = hs j := ⟨_, rfl⟩
  have ho : Of m s' := hs' ▸ h.of j
  rw [← hs'] at hg
  obtain ⟨fp, htree, hnd, hfp⟩ := hg.made
  have hpo := h.poolOut hpb
  have hpq : p ≠ q := by
    rintro rfl
    have := hpo.2 j
    rw [← hs', hg.ended] at this; cases this
  have hin : ∀ i : Nat, i ∈ fp → i < m.top ∧ m.owner i = some q ∧ m.cells i = s'.cell i := by
    intro i hi
    have hN := ((hfp i).1 hi).resolve_left (by simp)
    cases hc : s'.cells i with
    | none => exact absurd hc hN.2
    | some xx =>
      obtain ⟨k, c⟩ := xx
      obtain ⟨h1, h2, _⟩ := (ho.cells i k c).1 hc
      have hkq := hg.ext.new i k c rfl hc
      subst hkq
      exact ⟨wf_top h.wf h2, h1, by rw [Part.cell_of hc]; exact h2⟩
  have hmem : ∀ i : Nat, s'.cells i ≠ none → i ∈ fp := fun i hi => (hfp i).2 (.inr ⟨rfl, hi⟩)
  have htree1 : GTree m.cells (fun k => s'.pools k = some false) ref fp root (.map ref .frame n es) := by
    refine GTree.congr (fun k hk => ?_) htree (fun i hi => (hin i hi).2.2)
    rcases hk with rfl | hk
    · exact hg.ended
    · exact hk
  obtain ⟨m2, hm2⟩ : ∃ m2 : Mem, m2 = { m with owner := fun r => if m.owner r = some q then some p else m.owner r } := ⟨_, rfl⟩
  have hown : ∀ i : Nat, i ∈ fp → m2.owner i = some p := fun i hi => by rw [hm2]; show (if _ then _ else _) = _; rw [if_pos (hin i hi).2.1]
  have hc2 : m2.cells = m.cells := by rw [hm2]
  have ht2 : m2.top = m.top := by rw [hm2]
  have hno : ∀ i, m2.owner i ≠ some q := by
    intro i; rw [hm2]; show (if _ then _ else _) ≠ _
    split
    · intro h; cases h; exact hpq rfl
    · assumption
  have hkeep : ∀ i, s'.cells i = none → m2.owner i = m.owner i := by
    intro i hi
    rw [hm2]; show (if _ then _ else _) = _
    rw [if_neg]
    intro he
    cases hc : m.cells i with
    | none => exact h.wf.live i (by rw [he]; simp) hc
    | some c =>
      have := (ho.cells i q c).2 ⟨he, hc, by rw [hg.ended]; simp⟩
      rw [hi] at this; cases this
  have hw2 : WF m2 := by
    rw [hm2]
    refine ⟨h.wf.fresh, fun i hi => ?_, fun i k e => ?_, h.wf.pools, h.wf.frames⟩
    · change (if _ then _ else _) ≠ _ at hi
      split at hi
      · rename_i h'; exact h.wf.live i (by rw [h']; simp)
      · exact h.wf.live i hi
    · change (if _ then _ else _) = _ at e
      split at e
      · cases e; exact h.wf.pools p hp
      · exact h.wf.owner i k e
  have htree2 : GTree m2.cells (fun k => s'.pools k = some false) ref fp root (.map ref .frame n es) := by rw [hc2]; exact htree1
  -- the parts that are left
  obtain ⟨hs2, hhs2⟩ : ∃ hs2, hs2 = upd hs j Part.empty := ⟨_, rfl⟩
  have ej : hs2 j = Part.empty := by rw [hhs2]; exact upd_same _ _ _
  have ei : ∀ i, i ≠ j → hs2 i = hs i := fun i hi => by rw [hhs2]; exact upd_ne _ _ hi
  have hfpout : ∀ r, r ∈ fp → Outside hs2 r := by
    intro r hr i
    by_cases hi : i = j
    · subst hi; rw [ej]; rfl
    · rw [ei i hi]
      cases hc : (hs i).cells r with
      | none => rfl
      | some x =>
        obtain ⟨k, c⟩ := x
        obtain ⟨g1, _, g3⟩ := ((h.of i).cells r k c).1 hc
        rw [(hin r hr).2.1] at g1; cases g1
        have := h.apart i j q hi g3
        rw [← hs', hg.ended] at this; cases this
  have hout : ∀ r, Outside hs r → Outside hs2 r := by
    intro r hr i
    by_cases hi : i = j
    · subst hi; rw [ej]; rfl
    · rw [ei i hi]; exact hr i
  have hout' : ∀ r, Outside hs2 r → Outside hs r ∨ r ∈ fp := by
    intro r hr
    by_cases hc : s'.cells r = none
    · refine .inl fun i => ?_
      by_cases hi : i = j
      · subst hi; rw [← hs']; exact hc
      · have := hr i; rw [ei i hi] at this; exact this
    · exact .inr (hmem r hc)
  -- whatever the pointers of one item become, if they stay inside
  have hcore : ∀ (m' : Mem) (v : Option Ref), WF m' → m'.owner = m2.owner → m'.pools = m2.pools → m'.frames = m2.frames → m'.nextPool = m2.nextPool →
      m'.top = m2.top → m'.vars = upd m2.vars d v → (∀ r, v = some r → r ∈ fp) →
      (∀ r, r ∉ fp → m'.cells r = m.cells r) → (∀ r c, r ∈ fp → m'.cells r = some c → CellP (· ∈ fp) c ∧ OfClass (fun k => s'.pools k = some false) ref c) →
      Core b m' ls hs2 := by
    intro m' v hw' c1 c2 c3 c4 c5 c6 c7 c8 c9
    have hfpP : ∀ r, r ∈ fp → r < m'.top ∧ Outside hs2 r := fun r hr => ⟨by rw [c5, ht2]; exact (hin r hr).1, hfpout r hr⟩
    have htop : m'.top = m.top := by rw [c5, ht2]
    have hnp : m'.nextPool = m.nextPool := by rw [c4, hm2]
    have hptr : ∀ x, PtrOut hs m x → PtrOut hs2 m' x := fun x hx r hr => ⟨by rw [htop]; exact (hx r hr).1, hout r (hx r hr).2⟩
    have hpool : ∀ k, PoolOut hs m k → PoolOut hs2 m' k := by
      intro k hk
      refine ⟨by rw [hnp]; exact hk.1, fun i => ?_⟩
      by_cases hi : i = j
      · subst hi; rw [ej]; rfl
      · rw [ei i hi]; exact hk.2 i
    have hdead : ∀ k, s'.pools k = some false → PoolOut hs2 m' k := by
      intro k hk
      refine ⟨by rw [hnp]; exact (ho.pools k _ hk).2.2, fun i => ?_⟩
      by_cases hi : i = j
      · subst hi; rw [ej]; rfl
      · rw [ei i hi]; exact h.apart j i k (Ne.symm hi) (by rw [← hs', hk]; simp)
    refine ⟨hw', fun i => ?_, fun i k x hik hx => ?_, fun x hx => h.names x (by rw [c3, hm2] at hx; exact hx), by rw [hnp]; exact h.next, fun x => ?_,
      fun t x => hptr _ (h.ptrs t x), fun r c hr hc => ?_⟩
    · by_cases hi : i = j
      · subst hi; rw [ej]; exact of_none _
      · rw [ei i hi]
        have hq : (hs i).pools q = none := h.apart j i q (Ne.symm hi) (by rw [← hs', hg.ended]; simp)
        have hp' : (hs i).pools p = none := hpo.2 i
        refine ⟨fun r k c => ?_, fun k x hx => ?_⟩
        · rw [(h.of i).cells r k c, c1, hm2]
          show _ ↔ (if _ then _ else _) = _ ∧ _
          by_cases hr : r ∈ fp
          · have hq' := (hin r hr).2.1
            rw [if_pos hq', hq']
            constructor
            · rintro ⟨g1, _, g3⟩; cases g1; exact absurd hq g3
            · rintro ⟨g1, _, g3⟩; cases g1; exact absurd hp' g3
          · rw [c8 r hr]
            by_cases hq' : m.owner r = some q
            · rw [if_pos hq', hq']
              constructor
              · rintro ⟨g1, _, g3⟩; cases g1; exact absurd hq g3
              · rintro ⟨g1, _, g3⟩; cases g1; exact absurd hp' g3
            · rw [if_neg hq']
        · rw [c2, c3, hnp, hm2]
          exact (h.of i).pools k x hx
    · by_cases hi : i = j
      · subst hi; rw [ej] at hx; exact absurd rfl hx
      · rw [ei i hi] at hx
        by_cases hk : k = j
        · subst hk; rw [ej]; rfl
        · rw [ei k hk]; exact h.apart i k x hik hx
    · rw [c6]
      by_cases hxd : x = d
      · subst hxd; rw [upd_same]; exact fun r hr => hfpP r (c7 r hr)
      · rw [upd_ne _ _ hxd, hm2]; exact hptr _ (h.vars x)
    · by_cases hr' : r ∈ fp
      · obtain ⟨g1, g2⟩ := c9 r c hr' hc
        cases c with
        | data => trivial
        | cont k p hd s =>
          refine ⟨hdead p ?_, fun r hr => hfpP r (g1 r hr)⟩
          cases k with
          | array => exact g2
          | map => exact g2.2
        | item k v n => exact ⟨fun r hr => hfpP r (g1.1 r hr), fun r hr => hfpP r (g1.2 r hr)⟩
      · rw [c8 r hr'] at hc
        have := h.cells r c ((hout' r hr).resolve_right hr') hc
        cases c with
        | data => trivial
        | cont k p hd s => exact ⟨hpool p this.1, hptr _ this.2⟩
        | item k v n => exact ⟨hptr _ this.1, hptr _ this.2⟩
  have hold : ∀ r c, r ∈ fp → m2.cells r = some c → CellP (· ∈ fp) c ∧ OfClass (fun k => s'.pools k = some false) ref c := by
    intro r c hr hc
    obtain ⟨c', e', h1⟩ := tree_inside htree2 r hr
    rw [hc] at e'; cases e'
    obtain ⟨c', e', h2⟩ := htree2.cls r hr
    rw [hc] at e'; cases e'
    exact ⟨h1, h2⟩
  -- the root map
  have hroot : ∀ {fp : List Nat} {r : Nat} {o : Obj}, GTree m2.cells (fun k => s'.pools k = some false) ref fp r o → o = .map ref .frame n es →
      ∃ pk hd fp', m2.cells r = some (.cont (.map ref) pk hd n) ∧ fp = r :: fp' ∧
        GSeg m2.cells (fun k => s'.pools k = some false) ref fp' hd es none := by
    intro fp r o ht e
    cases ht with
    | data => cases e
    | array => cases e
    | map hc _ _ l => cases e; exact ⟨_, _, _, hc, rfl, l⟩
  obtain ⟨pk, hd, fp', hc, hfpe, l⟩ := hroot htree2 rfl
  have hrf : root ∈ fp := htree2.root
  have hsub : ∀ i, i ∈ fp' → i ∈ fp := fun i hi => by rw [hfpe]; simp [hi]
  have hnd2 : fp'.Nodup := by rw [hfpe] at hnd; exact (List.nodup_cons.1 hnd).2
  have hlen : fp.length ≤ m2.top := nodup_bound _ _ hnd (fun i hi => by rw [ht2]; exact (hin i hi).1)
  have hlen' := GSeg.length l
  rw [hfpe, List.length_cons] at hlen
  have hload : m2.loadCont false (some root) = .ok (root, .map ref, pk, hd, n) := by
    have := loadCont_eq hc (by rw [hown root hrf]; simp)
    simpa using this
  have hrec : ∀ m' : Mem, m2.take m2.top d (some root) rootKey = .ok m' → m'.owner = m2.owner → m.receive d p root q = .ok m' := by
    intro m' h1 h2
    unfold Mem.receive
    rw [if_pos ⟨hp, hpq⟩]
    dsimp only
    rw [← hm2, ← ht2, h1, ok_bind, pure_eq_ok]
    congr 1
    have : (fun r => if m'.owner r = some q then none else m'.owner r) = m'.owner := by
      funext i
      rw [h2]
      split
      · rename_i h'; exact absurd h' (hno i)
      · rfl
    rw [this]
  have hvm : m2.vars = m.vars := by rw [hm2]
  have hrest : ∀ (m' : Mem), m'.owner = m2.owner → (∀ r, r ∉ fp → m'.cells r = m.cells r) → ∀ r, (hs j).cells r = none →
      m'.cells r = m.cells r ∧ m'.owner r = m.owner r := by
    intro m' h1 h2 r hr
    rw [← hs'] at hr
    refine ⟨h2 r fun hr' => ?_, by rw [h1]; exact hkeep r hr⟩
    exact (((hfp r).1 hr').resolve_left (by simp)).2 hr
  rw [← hhs2]
  rcases GSeg.find rootKey l rfl (fun i hi => by rw [hown i (hsub i hi)]; simp) hnd2 m2.top (by omega) with ⟨k1, k2⟩ | ⟨t, t1, k, nx, fp1, k1, k2, k3, k4, k5, k6⟩
  · have htake : m2.take m2.top d (some root) rootKey = .ok (m2.setVar d none) := by
      unfold Mem.take
      rw [hload, ok_bind]; dsimp only
      rw [k1, ok_bind]; rfl
    have hv : (m2.setVar d none).vars d = none := upd_same _ _ _
    refine ⟨m2.setVar d none, hrec _ htake rfl,
      hcore _ none ⟨hw2.fresh, hw2.live, hw2.owner, hw2.pools, hw2.frames⟩ rfl rfl rfl rfl rfl rfl (by simp) (fun r _ => by rw [← hc2]; rfl) hold, ?_,
      fun x hx => ?_, hrest _ rfl (fun r _ => by rw [← hc2]; rfl)⟩
    · rw [hv]; simp only [takeRoot]; rw [k2]; exact .null
    · show upd _ _ _ _ = _; rw [upd_ne _ _ hx, hvm]
  · have htake : m2.take m2.top d (some root) rootKey = .ok ((m2.modify t1 (Cell.setNode none)).setVar d (some t)) := by
      unfold Mem.take
      rw [hload, ok_bind]; dsimp only
      rw [k1, ok_bind]
      simp only [Option.isNone_some, Bool.false_eq_true, if_false]
      rw [loadItem_eq k2 (by rw [hown t1 (hsub t1 k3)]; simp), ok_bind]
      rfl
    have hv : ((m2.modify t1 (Cell.setNode none)).setVar d (some t)).vars d = some t := upd_same _ _ _
    have ht1 : t1 ∈ fp := hsub t1 k3
    have hmw := modify_wf hw2 t1 (Cell.setNode none)
    have hce : ∀ r, r ∉ fp → ((m2.modify t1 (Cell.setNode none)).setVar d (some t)).cells r = m.cells r := by
      intro r hr
      rw [← hc2]
      exact modify_ne (show r ≠ t1 from fun e => hr (e ▸ ht1)) _
    refine ⟨(m2.modify t1 (Cell.setNode none)).setVar d (some t), hrec _ htake rfl,
      hcore _ (some t) ⟨hmw.fresh, hmw.live, hmw.owner, hmw.pools, hmw.frames⟩ rfl rfl rfl rfl rfl rfl
        (fun r e => by cases e; exact hsub _ (k4 _ k6.root)) hce (fun r c hr hc' => ?_), ?_, fun x hx => ?_, hrest _ rfl hce⟩
    · change (m2.modify t1 (Cell.setNode none)).cells r = some c at hc'
      by_cases hr1 : r = t1
      · subst hr1
        have : (m2.modify r (Cell.setNode none)).cells r = some (.item k none nx) := by
          show upd _ _ _ _ = _; rw [upd_same, k2]; rfl
        rw [this] at hc'; cases hc'
        obtain ⟨g1, g2⟩ := hold r _ hr k2
        exact ⟨⟨(fun r e => by cases e), g1.2⟩, g2⟩
      · rw [modify_ne hr1] at hc'; exact hold r c hr hc'
    · rw [hv]
      refine GTree.shows (m := (m2.modify t1 (Cell.setNode none)).setVar d (some t)) (D := fun k => s'.pools k = some false) (ref := ref)
        (fp := fp1) (fun k hk => ?_) (k6.congr (fun k hk => hk) fun i hi => ?_) (fun i hi => ?_)
      · show m2.pools k = false
        rw [hm2]; exact (ho.pools k _ hk).1
      · exact modify_ne (show i ≠ t1 from fun e => k5 (e ▸ hi)) _
      · show m2.owner i ≠ none
        rw [hown i (hsub i (k4 i hi))]; simp
    · show upd _ _ _ _ = _; rw [upd_ne _ _ hx]; exact congrFun hvm x

/-! ### processes -/

/-- How the coroutines of a parse end. -/
def Post (w : Cfg) (fuel : Nat) (c : CoCall) (sc : Sched) (r : Res (Nat × Ref × Nat)) (s : Part) : Prop :=
  Both (fun a b => a.2 = ⟨b.1, b.1⟩ ∧ Grown c.ref Part.empty s b.2.2 b.2.1 a.1) (coMap w (View.whole c.content) sc.sm sc.si c.ref fuel metaSize) r

/-- The invariant: part 0 is what parses that threw have left, part `t + 1` belongs to the parse of thread `t`. -/
structure Good (w : Cfg) (fuel : Nat) (b : Nat) (s : Procs) (hs : Nat → Part) : Prop where
  core : Core b s.mem s.local_ hs
  idle : ∀ t, s.under t = none → hs (t + 1) = Part.empty
  busy : ∀ t c k, s.under t = some (c, k) → c.p < b ∧ ∃ sc, initFromContent w c.content = .ok sc ∧ sc.split = true ∧ c.workers ≠ 0 ∧
    wp k (hs (t + 1)) (Post w fuel c sc)
  args : ∀ t i, i ∈ s.todo t → ∀ p ∈ i.poolArgs, p < b

theorem Core.says {b : Nat} {m : Mem} {ls : Nat → ThreadLocal} {hs : Nat → Part} (h : Core b m ls hs) (t : Nat) (x : Said) :
    Core b m (upd ls t ((ls t).say x)) hs := by
  refine ⟨h.wf, h.of, h.apart, h.names, h.next, h.vars, fun t' q => ?_, h.cells⟩
  by_cases ht : t' = t
  · subst ht; rw [upd_same]; exact h.ptrs t' q
  · rw [upd_ne _ _ ht]; exact h.ptrs t' q

theorem good_init (w : Cfg) (fuel b : Nat) (prog : Nat → List TaskInstr) (hB : ∀ t i, i ∈ prog t → ∀ p ∈ i.poolArgs, p < b) :
    Good w fuel b (Procs.init b prog) (fun _ => Part.empty) := by
  refine ⟨⟨⟨fun _ _ => rfl, (fun _ h => absurd rfl h), (fun _ _ e => nomatch e), (fun _ e => nomatch e), (fun _ e => nomatch e)⟩, fun _ => of_none _,
    fun _ _ _ _ h => absurd rfl h, (fun _ e => nomatch e), Nat.le_refl _, (fun _ _ e => nomatch e), (fun _ _ _ e => nomatch e), (fun _ _ _ e => nomatch e)⟩,
    fun _ _ => rfl, (fun _ _ _ e => nomatch e), hB⟩

section
variable {w : Cfg} {fuel b : Nat} {s s' : Procs} {hs : Nat → Part}

theorem args_tail (h : Good w fuel b s hs) {t : Nat} {i : TaskInstr} {is : List TaskInstr} (e : s.todo t = i :: is) :
    (∀ p ∈ i.poolArgs, p < b) ∧ ∀ t' i', i' ∈ upd s.todo t is t' → ∀ p ∈ i'.poolArgs, p < b := by
  refine ⟨h.args t i (by rw [e]; simp), fun t' i' hi => ?_⟩
  by_cases ht : t' = t
  · subst ht; rw [upd_same] at hi; exact h.args t' i' (by rw [e]; simp [hi])
  · rw [upd_ne _ _ ht] at hi; exact h.args t' i' hi

/-- The result of the coroutines of thread `t`. -/
theorem Good.ended (h : Good w fuel b s hs) {t : Nat} {c : CoCall} {r : Res (Nat × Ref × Nat)} (hu : s.under t = some (c, .ret r)) :
    c.p < b ∧ (∀ e, r = .error e → Bridge.parse w ⟨true, c.ref, c.workers⟩ fuel c.content = .error e) ∧
    ∀ off root q, r = .ok (off, root, q) → ∃ n es, Bridge.parse w ⟨true, c.ref, c.workers⟩ fuel c.content = .ok (takeRoot (.map c.ref .frame n es)) ∧
      Grown c.ref Part.empty (hs (t + 1)) q root (.map c.ref .frame n es) := by
  obtain ⟨hp, sc, h1, h2, h3, h4⟩ := h.busy t c _ hu
  change Both _ _ _ at h4
  rw [parse_split h1 h2 c.ref h3 fuel]
  have hx : ∀ q, coMap w (View.whole c.content) sc.sm sc.si c.ref fuel metaSize = .ok q → ∃ n es, q.1 = .map c.ref .frame n es := fun q => coMap_map
  generalize coMap w (View.whole c.content) sc.sm sc.si c.ref fuel metaSize = x at h4 hx
  refine ⟨hp, fun e he => ?_, fun off root q he => ?_⟩
  · subst he
    cases h4 with
    | error => rfl
  · subst he
    cases h4 with
    | @ok a _ hab =>
      obtain ⟨n, es, e⟩ := hx a rfl
      obtain ⟨a1, a2⟩ := a
      dsimp only at e
      subst e
      exact ⟨n, es, rfl, hab.2⟩

/-- What happens in one thread keeps the invariant, and leaves the parts of the others alone. -/
theorem good_step (h : Good w fuel b s hs) {t : Nat} (hst : Procs.Step w fuel t s s') :
    ∃ hs', Good w fuel b s' hs' ∧ ∀ i, i ≠ t → hs' (i + 1) = hs (i + 1) := by
  cases hst with
  | plain i is m l hu ht e =>
    obtain ⟨h1, h2⟩ := args_tail h ht
    exact ⟨hs, ⟨(instr_core h.core h1 e).1, h.idle, h.busy, h2⟩, fun _ _ => rfl⟩
  | header c is e hu ht he => exact ⟨hs, ⟨h.core.says t _, h.idle, h.busy, (args_tail h ht).2⟩, fun _ _ => rfl⟩
  | whole c is sc m l hu ht h1 h2 e =>
    obtain ⟨h3, h4⟩ := args_tail h ht
    exact ⟨hs, ⟨(instr_core (i := .read c.d c.p c.ref c.content) h.core (show ∀ p ∈ [c.p], p < b from h3) e).1, h.idle, h.busy, h4⟩, fun _ _ => rfl⟩
  | start c is sc hu ht h1 h2 h3 =>
    obtain ⟨h4, h5⟩ := args_tail h ht
    refine ⟨hs, ⟨h.core, fun t' e => ?_, fun t' c' k e => ?_, h5⟩, fun _ _ => rfl⟩
    · change upd _ _ _ _ = _ at e
      by_cases htt : t' = t
      · subst htt; rw [upd_same] at e; cases e
      · rw [upd_ne _ _ htt] at e; exact h.idle t' e
    · change upd _ _ _ _ = _ at e
      by_cases htt : t' = t
      · subst htt; rw [upd_same] at e; cases e
        refine ⟨h4 _ (by simp [TaskInstr.poolArgs]), sc, h1, h2, h3, ?_⟩
        rw [h.idle t' hu]
        exact (co_runs (cfg := w) (v := View.whole c.content) (sm := sc.sm) (si := sc.si) (ref := c.ref) fuel).2.2.2 Part.empty metaSize
      · rw [upd_ne _ _ htt] at e; exact h.busy t' c' k e
  | access c k k' u m hu hst =>
    obtain ⟨hp, sc, h1, h2, h3, h4⟩ := h.busy t c k hu
    obtain ⟨s1, hw, ho, hq, hf⟩ := step_sound hst _ _ h.core.wf (h.core.of (t + 1)) h4
    refine ⟨upd hs (t + 1) s1, ⟨(access_core h.core hw ho hf).1, fun t' e => ?_, fun t' c' k1 e => ?_, h.args⟩,
      fun i hi => upd_ne _ _ (fun e => hi (Nat.succ.inj e))⟩
    · change upd _ _ _ _ = _ at e
      by_cases htt : t' = t
      · subst htt; rw [upd_same] at e; cases e
      · rw [upd_ne _ _ htt] at e
        rw [upd_ne _ _ (fun e => htt (Nat.succ.inj e))]; exact h.idle t' e
    · change upd _ _ _ _ = _ at e
      by_cases htt : t' = t
      · subst htt; rw [upd_same] at e; cases e
        rw [upd_same]; exact ⟨hp, sc, h1, h2, h3, hq⟩
      · rw [upd_ne _ _ htt] at e
        rw [upd_ne _ _ (fun e => htt (Nat.succ.inj e))]; exact h.busy t' c' k1 e
  | returns c off root q m hu hr =>
    obtain ⟨hp, _, hok⟩ := h.ended hu
    obtain ⟨n, es, _, hg⟩ := hok off root q rfl
    have hlive : s.mem.pools c.p = true := by
      cases hl : s.mem.pools c.p with
      | true => rfl
      | false => unfold Mem.receive at hr; rw [if_neg (fun h => by rw [hl] at h; cases h.1)] at hr; cases hr
    obtain ⟨m', e, hc, _⟩ := receive_core h.core hg c.d hp hlive
    rw [e] at hr; cases hr
    refine ⟨upd hs (t + 1) Part.empty, ⟨hc.says t _, fun t' e => ?_, fun t' c' k1 e => ?_, h.args⟩,
      fun i hi => upd_ne _ _ (fun e => hi (Nat.succ.inj e))⟩
    · change upd _ _ _ _ = _ at e
      by_cases htt : t' = t
      · subst htt; rw [upd_same]
      · rw [upd_ne _ _ htt] at e
        rw [upd_ne _ _ (fun e => htt (Nat.succ.inj e))]; exact h.idle t' e
    · change upd _ _ _ _ = _ at e
      by_cases htt : t' = t
      · subst htt; rw [upd_same] at e; cases e
      · rw [upd_ne _ _ htt] at e
        rw [upd_ne _ _ (fun e => htt (Nat.succ.inj e))]; exact h.busy t' c' k1 e
  | throws c e hu =>
    obtain ⟨p0, hc⟩ := throw_core h.core (j := t + 1) (by omega)
    have hsame : ∀ i, i ≠ t → upd (upd hs 0 p0) (t + 1) Part.empty (i + 1) = hs (i + 1) := fun i hi => by
      rw [upd_ne _ _ (fun e => hi (Nat.succ.inj e)), upd_ne _ _ (by omega)]
    refine ⟨upd (upd hs 0 p0) (t + 1) Part.empty, ⟨hc.says t _, fun t' e => ?_, fun t' c' k1 e => ?_, h.args⟩, hsame⟩
    · change upd _ _ _ _ = _ at e
      by_cases htt : t' = t
      · subst htt; rw [upd_same]
      · rw [upd_ne _ _ htt] at e
        rw [hsame t' htt]; exact h.idle t' e
    · change upd _ _ _ _ = _ at e
      by_cases htt : t' = t
      · subst htt; rw [upd_same] at e; cases e
      · rw [upd_ne _ _ htt] at e
        rw [hsame t' htt]; exact h.busy t' c' k1 e

theorem good_runs {prog : Nat → List TaskInstr} (hB : ∀ t i, i ∈ prog t → ∀ p ∈ i.poolArgs, p < b)
    (hr : Procs.Runs w fuel (Procs.init b prog) s) : ∃ hs, Good w fuel b s hs := by
  induction hr with
  | refl => exact ⟨_, good_init w fuel b prog hB⟩
  | step _ hst ih =>
    obtain ⟨hs, hg⟩ := ih
    obtain ⟨hs', hg', _⟩ := good_step hg hst
    exact ⟨hs', hg'⟩

/-- From outside no pointer leads into the parts. -/
theorem reaches_out {m : Mem} {ls : Nat → ThreadLocal} (h : Core b m ls hs) {a : Option Ref} {r : Ref} (hr : Reaches m a r) (ha : PtrOut hs m a) :
    r < m.top ∧ Outside hs r := by
  induction hr with
  | here r => exact ha r rfl
  | head e _ ih => exact ih (h.cells _ _ (ha _ rfl).2 e).2
  | node e _ ih => exact ih (h.cells _ _ (ha _ rfl).2 e).1
  | next e _ ih => exact ih (h.cells _ _ (ha _ rfl).2 e).2

theorem load_same {m m' : Mem} {r : Ref} (h : m'.cells r = m.cells r ∧ m'.owner r = m.owner r) : m'.load (some r) = m.load (some r) := by
  simp only [Mem.load, h.1, h.2]
end

end Bridge.Heap.Many
