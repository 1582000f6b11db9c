import Verif.Proof.Threads
/-
Threads that share documents which none of them changes.  The shared objects are those of index 0, thread `t` has index `t + 1`.
-/
set_option autoImplicit false
namespace Bridge.Heap.Thr
open Spec

/-- As `LocalR`, for some of the pointer variables. -/
structure LocalO (ok : Nat → Prop) (t : Nat) (w : World) (m : Mem) (l1 l2 : ThreadLocal) : Prop where
  ptrs : ∀ q, ok q → PR t w m (l1.ptrs q) (l2.ptrs q)
  out : l2.out = l1.out

section
variable {sh : Share} {t : Nat} {w : World} {m1 m2 : Mem} {ok : Nat → Prop}

theorem Next.localO {w' : World} {m m' : Mem} (h : Next sh t w m w' m') {l1 l2 : ThreadLocal} (hl : LocalO ok t w m l1 l2) :
    LocalO ok t w' m' l1 l2 := ⟨fun q hq => h.pr (hl.ptrs q hq), hl.out⟩

theorem LocalO.setPtr {m : Mem} {l1 l2 : ThreadLocal} (hl : LocalO ok t w m l1 l2) (q : Nat) {p1 p2 : Option Ref} (hp : PR t w m p1 p2) :
    LocalO ok t w m (l1.setPtr q p1) (l2.setPtr q p2) := by
  refine ⟨fun q' hq => ?_, hl.out⟩
  simp only [ThreadLocal.setPtr]
  by_cases e : q' = q
  · subst e; rw [upd_same, upd_same]; exact hp
  · rw [upd_ne _ _ e, upd_ne _ _ e]; exact hl.ptrs q' hq

theorem LocalO.say {m : Mem} {l1 l2 : ThreadLocal} (hl : LocalO ok t w m l1 l2) (s : Said) : LocalO ok t w m (l1.say s) (l2.say s) :=
  ⟨hl.ptrs, by simp only [ThreadLocal.say]; rw [hl.out]⟩

/-- Both the memory and what belongs to the thread. -/
abbrev SameO (sh : Share) (ok : Nat → Prop) (t : Nat) (w : World) (m : Mem) (a b : Mem × ThreadLocal) : Prop :=
  ∃ w', Then sh t w m w' a.1 b.1 ∧ LocalO ok t w' a.1 a.2 b.2

theorem at_noPtr {c : Call} (h : c.usesPtr = false) (p : Option Ref) : c.at p = c.at none := by
  cases c <;> first | rfl | cases h

theorem instr_relO (cfg : Cfg) (fuel : Nat) (h : Rel sh t w m1 m2) {l1 l2 : ThreadLocal} (hl : LocalO ok t w m1 l1 l2) (i : Instr)
    (hp : ∀ p ∈ i.poolArgs, sh.pool p = t) (hv : ∀ x ∈ i.varArgs, sh.var x = t) (hr : ∀ q ∈ i.reads, ok q) :
    Both (SameO sh ok t w m1) (i.exec cfg fuel m1 l1) (i.exec cfg fuel m2 l2) := by
  cases i with
  | call c q =>
    have key : Both (After sh t w m1) (m1.exec cfg fuel (c.at (l1.ptrs q))) (m2.exec cfg fuel (c.at (l2.ptrs q))) := by
      cases hu : c.usesPtr with
      | true => exact exec_rel cfg fuel h c hp hv (hl.ptrs q (hr q (by simp [Instr.reads, hu])))
      | false =>
        rw [at_noPtr hu (l1.ptrs q), at_noPtr hu (l2.ptrs q)]
        exact exec_rel cfg fuel h c hp hv PR.none
    refine key.bind fun a b hab => ?_
    obtain ⟨w1, h1⟩ := hab
    exact .ok ⟨w1, h1, h1.next.localO hl⟩
  | write ty p x =>
    refine (rootInsert_rel h (hp p (by simp [Instr.poolArgs])) (hv x (by simp [Instr.varArgs]))).bind fun a b hab => ?_
    obtain ⟨n1, i⟩ := a
    obtain ⟨n2, i'⟩ := b
    obtain ⟨w1, h1, hi, e⟩ := hab
    dsimp only at h1 hi e ⊢
    subst e
    rw [serializeRoot_rel cfg h1.rel fuel ty hi]
    generalize n2.serializeRoot cfg fuel ty (w1.f i) = r
    cases r with
    | ok b => exact .ok ⟨w1, h1, (h1.next.localO hl).say _⟩
    | error e => cases e with
      | exn e => exact .ok ⟨w1, h1, (h1.next.localO hl).say _⟩
      | abort => exact .error _
      | ub u => exact .error _
      | fuel => exact .error _
  | read d p ref content =>
    simp only [Instr.exec]
    have := parse_rel cfg h fuel (hv d (by simp [Instr.varArgs])) (hp p (by simp [Instr.poolArgs])) ref content
    revert this
    generalize m1.parse cfg fuel d p ref content = r1
    generalize m2.parse cfg fuel d p ref content = r2
    intro this
    cases this with
    | ok hab =>
      obtain ⟨w1, h1⟩ := hab
      exact .ok ⟨w1, h1, (h1.next.localO hl).say _⟩
    | error e => cases e with
      | exn e => exact .ok ⟨w, Then.refl h, hl.say _⟩
      | abort => exact .error _
      | ub u => exact .error _
      | fuel => exact .error _
  | get q x => exact .ok ⟨w, Then.refl h, hl.setPtr q (rel_vars h (hv x (by simp [Instr.varArgs])))⟩
  | index q q' n =>
    exact (index_rel h (hl.ptrs q' (hr q' (by simp [Instr.reads]))) n).bind fun a b hab => .ok ⟨w, Then.refl h, hl.setPtr q hab⟩
  | key q q' k =>
    exact (lookup_rel h (hl.ptrs q' (hr q' (by simp [Instr.reads]))) fuel k).bind fun a b hab => .ok ⟨w, Then.refl h, hl.setPtr q hab⟩
  | first q q' a =>
    exact (begin_rel h (hl.ptrs q' (hr q' (by simp [Instr.reads]))) a).bind fun a b hab => .ok ⟨w, Then.refl h, hl.setPtr q hab⟩
  | next q q' =>
    exact (next_rel h (hl.ptrs q' (hr q' (by simp [Instr.reads])))).bind fun a b hab => .ok ⟨w, Then.refl h, hl.setPtr q hab⟩
  | value q q' =>
    exact (entry_rel h (hl.ptrs q' (hr q' (by simp [Instr.reads])))).bind fun a b hab => .ok ⟨w, Then.refl h, hl.setPtr q hab⟩
  | dump q =>
    simp only [Instr.exec]
    rw [(dump_rel h fuel).1 _ _ _ _ (hl.ptrs q (hr q (by simp [Instr.reads])))]
    exact Both.same _ fun b _ => .ok ⟨w, Then.refl h, hl.say _⟩
  | size q a =>
    refine (size_rel h (hl.ptrs q (hr q (by simp [Instr.reads]))) a).bind fun a b hab => ?_
    subst hab
    exact .ok ⟨w, Then.refl h, hl.say _⟩
  | leaf q =>
    refine (load_rel h (hl.ptrs q (hr q (by simp [Instr.reads])))).bind fun a b hab => ?_
    obtain ⟨r, cell⟩ := a
    obtain ⟨r', cell'⟩ := b
    obtain ⟨hm, e1, e2, hi⟩ := hab
    dsimp only at hm e1 e2 hi ⊢
    subst e1; subst e2
    cases cell with
    | data => exact .ok ⟨w, Then.refl h, hl.say _⟩
    | cont => exact .error _
    | item => exact .error _
  | null q =>
    simp only [Instr.exec]
    rw [(hl.ptrs q (hr q (by simp [Instr.reads]))).isNone]
    exact .ok ⟨w, Then.refl h, hl.say _⟩
end

/-- A pointer variable that an instruction does not assign keeps its value. -/
theorem exec_keeps {cfg : Cfg} {fuel : Nat} {m m' : Mem} {l l' : ThreadLocal} {i : Instr} (h : i.exec cfg fuel m l = .ok (m', l')) (q : Nat)
    (hq : q ∉ i.sets) : l'.ptrs q = l.ptrs q := by
  cases i with
  | call c q' =>
    obtain ⟨a, _, h⟩ := bind_ok h
    cases h; rfl
  | write ty p x =>
    obtain ⟨a, _, h⟩ := bind_ok h
    obtain ⟨a1, a2⟩ := a
    dsimp only at h
    split at h <;> cases h <;> rfl
  | read d p ref content =>
    simp only [Instr.exec] at h
    split at h <;> cases h <;> rfl
  | get q' x =>
    cases h
    exact upd_ne _ _ (by simpa [Instr.sets] using hq)
  | index q' q'' n =>
    obtain ⟨a, _, h⟩ := bind_ok h
    cases h
    exact upd_ne _ _ (by simpa [Instr.sets] using hq)
  | key q' q'' n =>
    obtain ⟨a, _, h⟩ := bind_ok h
    cases h
    exact upd_ne _ _ (by simpa [Instr.sets] using hq)
  | first q' q'' n =>
    obtain ⟨a, _, h⟩ := bind_ok h
    cases h
    exact upd_ne _ _ (by simpa [Instr.sets] using hq)
  | next q' q'' =>
    obtain ⟨a, _, h⟩ := bind_ok h
    cases h
    exact upd_ne _ _ (by simpa [Instr.sets] using hq)
  | value q' q'' =>
    obtain ⟨a, _, h⟩ := bind_ok h
    cases h
    exact upd_ne _ _ (by simpa [Instr.sets] using hq)
  | dump q' => obtain ⟨a, _, h⟩ := bind_ok h; cases h; rfl
  | size q' b => obtain ⟨a, _, h⟩ := bind_ok h; cases h; rfl
  | leaf q' =>
    obtain ⟨a, _, h⟩ := bind_ok h
    obtain ⟨a1, a2⟩ := a
    dsimp only at h
    split at h <;> cases h
    rfl
  | null q' => cases h; rfl

/-- Reading changes nothing. -/
theorem exec_reads {cfg : Cfg} {fuel : Nat} {m m' : Mem} {l l' : ThreadLocal} {i : Instr} (h : i.exec cfg fuel m l = .ok (m', l'))
    (hc : i.changes = false) : m' = m := by
  cases i with
  | call c q' => cases hc
  | write ty p x => cases hc
  | read d p ref content => cases hc
  | get q' x => cases h; rfl
  | index q' q'' n => obtain ⟨a, _, h⟩ := bind_ok h; cases h; rfl
  | key q' q'' n => obtain ⟨a, _, h⟩ := bind_ok h; cases h; rfl
  | first q' q'' n => obtain ⟨a, _, h⟩ := bind_ok h; cases h; rfl
  | next q' q'' => obtain ⟨a, _, h⟩ := bind_ok h; cases h; rfl
  | value q' q'' => obtain ⟨a, _, h⟩ := bind_ok h; cases h; rfl
  | dump q' => obtain ⟨a, _, h⟩ := bind_ok h; cases h; rfl
  | size q' b => obtain ⟨a, _, h⟩ := bind_ok h; cases h; rfl
  | leaf q' =>
    obtain ⟨a, _, h⟩ := bind_ok h
    obtain ⟨a1, a2⟩ := a
    dsimp only at h
    split at h <;> cases h
    rfl
  | null q' => cases h; rfl

theorem map_id' {α : Type} (p : Option α) : p.map id = p := by cases p <;> rfl

theorem ren_id (c : Cell) : ren id c = c := by cases c <;> simp [ren, map_id']

/-- Objects of a thread side by side with themselves. -/
theorem Rel.self {sh : Share} {t : Nat} {w : World} {m m2 : Mem} (h : Rel sh t w m m2) : Rel sh t ⟨w.side, id⟩ m m where
  cells := fun r _ => by
    have key : ∀ o : Option Cell, o = o.map (ren id) := by
      intro o
      cases o with
      | none => rfl
      | some c => simp only [Option.map_some]; rw [ren_id]
    exact key _
  owner := fun _ _ => rfl
  inj := fun _ _ _ _ e => e
  low := fun _ hr => hr.1
  closed := fun r c hr hc => by
    have := h.closed r c hr hc
    cases c with
    | data => trivial
    | cont => exact this
    | item => exact this
  ownerOf := h.ownerOf
  ownerIn := h.ownerIn
  vars := fun _ _ => (map_id' _).symm
  varsIn := h.varsIn
  pools := fun _ _ => rfl
  fresh := h.fresh
  frames := fun _ _ => rfl

/-- The alone memory makes a step of thread `s`, which leaves the shared objects alone. -/
theorem Rel.right {sh : Share} {s : Nat} (hne : 0 ≠ s) {side : Ref → Nat} {m m2 m2' : Mem} {v v' : World} (h : Rel sh 0 ⟨side, id⟩ m m2)
    (hb : ∀ r, Mine 0 ⟨side, id⟩ m r → r < m2.top ∧ v.side r = 0) (hn : Next sh s v m2 v' m2') : Rel sh 0 ⟨side, id⟩ m m2' where
  cells := fun r hr => by
    obtain ⟨h1, h2⟩ := hb r hr
    have := hn.cells r h1 (by rw [h2]; exact hne)
    show m2'.cells r = _
    rw [this]
    exact h.cells r hr
  owner := fun r hr => by
    obtain ⟨h1, h2⟩ := hb r hr
    have := hn.owner r h1 (by rw [h2]; exact hne)
    show m2'.owner r = _
    rw [this]
    exact h.owner r hr
  inj := fun _ _ _ _ e => e
  low := fun r hr => Nat.lt_of_lt_of_le (hb r hr).1 hn.top
  closed := h.closed
  ownerOf := h.ownerOf
  ownerIn := h.ownerIn
  vars := fun x hx => by rw [hn.vars x (by rw [hx]; exact hne)]; exact h.vars x hx
  varsIn := h.varsIn
  pools := fun p hp => by rw [hn.pools p (by rw [hp]; exact hne)]; exact h.pools p hp
  fresh := h.fresh
  frames := fun p hp => by rw [hn.frames]; exact h.frames p hp

/-! ### the threads -/

/-- Who names what: the setup has index 0, thread `t` has index `t + 1`. -/
structure Disc (sh : Share) (init : List Instr) (prog : Nat → List Instr) (shared : Nat → Nat → Bool) : Prop where
  init : ∀ i ∈ init, (∀ p ∈ i.poolArgs, sh.pool p = 0) ∧ ∀ x ∈ i.varArgs, sh.var x = 0
  pool : ∀ t, ∀ i ∈ prog t, ∀ p ∈ i.poolArgs, sh.pool p = t + 1
  var : ∀ t, ∀ i ∈ prog t, ∀ x ∈ i.varArgs, sh.var x = t + 1 ∨ (sh.var x = 0 ∧ ∃ q, i = .get q x)
  get : ∀ t q x, .get q x ∈ prog t → (shared t q = true ↔ sh.var x = 0)
  changes : ∀ t, ∀ i ∈ prog t, i.changes = true → ∀ q ∈ i.reads, shared t q = false
  flow : ∀ t, ∀ i ∈ prog t, ∀ q ∈ i.sets, ∀ q' ∈ i.reads, shared t q = shared t q'

/-- One thread, side by side with what it has when it runs alone after the setup. -/
structure One (cfg : Cfg) (fuel : Nat) (sh : Share) (prog : Nat → List Instr) (shared : Nat → Nat → Bool) (m0 : Mem) (s : Threads)
    (side : Ref → Nat) (t : Nat) (f : Ref → Ref) (side2 : Ref → Nat) (done : List Instr) (m2 : Mem) (l2 : ThreadLocal) : Prop where
  prog : prog t = done ++ s.todo t
  alone : runAlone cfg fuel done m0 {} = .ok (m2, l2)
  rel : Rel sh (t + 1) ⟨side, f⟩ s.mem m2
  self : Rel sh (t + 1) ⟨side2, id⟩ m2 m2
  base : Rel sh 0 ⟨side, id⟩ s.mem m2
  low : ∀ r, Mine 0 ⟨side, id⟩ s.mem r → r < m2.top ∧ side2 r = 0
  own : LocalO (fun q => shared t q = false) (t + 1) ⟨side, f⟩ s.mem (s.local_ t) l2
  ownIn : LocalO (fun q => shared t q = false) (t + 1) ⟨side2, id⟩ m2 l2 l2
  shr : LocalO (fun q => shared t q = true) 0 ⟨side, id⟩ s.mem (s.local_ t) l2

/-- All threads, and the shared objects. -/
structure Every (cfg : Cfg) (fuel : Nat) (sh : Share) (prog : Nat → List Instr) (shared : Nat → Nat → Bool) (m0 : Mem) (s : Threads)
    (side : Ref → Nat) : Prop where
  thread : ∀ t, ∃ f side2 done m2 l2, One cfg fuel sh prog shared m0 s side t f side2 done m2 l2
  base : Rel sh 0 ⟨side, id⟩ s.mem m0
  mine : ∀ r, r < m0.top → Mine 0 ⟨side, id⟩ s.mem r

theorem LocalO.next {ok : Nat → Prop} {sh : Share} {s t : Nat} {w w' : World} {f : Ref → Ref} {m m' : Mem} {l1 l2 : ThreadLocal}
    (hl : LocalO ok t ⟨w.side, f⟩ m l1 l2) (hn : Next sh s w m w' m') : LocalO ok t ⟨w'.side, f⟩ m' l1 l2 := by
  refine ⟨fun q hq => ⟨fun r er => ?_, (hl.ptrs q hq).2⟩, hl.out⟩
  have := (hl.ptrs q hq).1 r er
  exact ⟨Nat.lt_of_lt_of_le this.1 hn.top, by rw [← this.2]; exact hn.side r this.1⟩

theorem LocalO.keep {ok : Nat → Prop} {t : Nat} {w : World} {m : Mem} {l1 l2 l1' l2' : ThreadLocal} (hl : LocalO ok t w m l1 l2)
    (h1 : ∀ q, ok q → l1'.ptrs q = l1.ptrs q) (h2 : ∀ q, ok q → l2'.ptrs q = l2.ptrs q) (ho : l2'.out = l1'.out) : LocalO ok t w m l1' l2' :=
  ⟨fun q hq => by rw [h1 q hq, h2 q hq]; exact hl.ptrs q hq, ho⟩

/-- The objects of index 0 before and after a step of a thread. -/
theorem Next.mine0 {sh : Share} {s : Nat} {w w' : World} {m m' : Mem} (hn : Next sh (s + 1) w m w' m') {g : Ref → Ref} {r : Ref}
    (h : Mine 0 ⟨w'.side, g⟩ m' r) : Mine 0 ⟨w.side, g⟩ m r := by
  have h1 : r < m.top := by
    refine Nat.lt_of_not_le fun h2 => ?_
    have := hn.new r h2 h.1
    have h3 : w'.side r = 0 := h.2
    omega
  exact ⟨h1, by rw [← hn.side r h1]; exact h.2⟩

theorem Every.start {cfg : Cfg} {fuel : Nat} {sh : Share} {init : List Instr} {prog : Nat → List Instr} {shared : Nat → Nat → Bool}
    (hd : Disc sh init prog shared) {m0 : Mem} {l0 : ThreadLocal} (h0 : runAlone cfg fuel init {} {} = .ok (m0, l0)) :
    ∃ side, Every cfg fuel sh prog shared m0 { mem := m0, todo := prog } side := by
  have hb := run_rel (sh := sh) (t := 0) cfg fuel init (rel_init sh 0 ⟨fun _ => 0, id⟩)
    (l1 := {}) (l2 := {}) ⟨fun _ => PR.none, rfl⟩ hd.init
  rw [h0] at hb
  cases hb with
  | ok hab =>
    obtain ⟨w, ht, _⟩ := hab
    dsimp only at ht
    have hself : Rel sh 0 ⟨w.side, id⟩ m0 m0 := ht.rel.self
    have hmine : ∀ r, r < m0.top → Mine 0 ⟨w.side, id⟩ m0 r := fun r hr => ⟨hr, ht.next.new r (Nat.zero_le _) hr⟩
    refine ⟨w.side, ⟨fun t => ?_, hself, hmine⟩⟩
    have ho : Rel sh (t + 1) ⟨w.side, id⟩ m0 m0 :=
      (Rel.other (s := 0) (t := t + 1) (by omega) (w := ⟨fun _ => 0, id⟩) (f := id) (rel_init sh _ _) ht.rel ht.next).self
    exact ⟨id, w.side, [], m0, {}, rfl, rfl, ho, ho, hself, fun r hr => hr, ⟨fun _ _ => PR.none, rfl⟩, ⟨fun _ _ => PR.none, rfl⟩,
      ⟨fun _ _ => PR.none, rfl⟩⟩

/-- An instruction of a thread is about its own objects or about the shared ones. -/
theorem Disc.kind {sh : Share} {init : List Instr} {prog : Nat → List Instr} {shared : Nat → Nat → Bool} (hd : Disc sh init prog shared)
    {t : Nat} {i : Instr} (hi : i ∈ prog t) :
    ((∀ x ∈ i.varArgs, sh.var x = t + 1) ∧ (∀ q ∈ i.reads, shared t q = false) ∧ ∀ q ∈ i.sets, shared t q = false) ∨
    (i.poolArgs = [] ∧ i.changes = false ∧ (∀ x ∈ i.varArgs, sh.var x = 0) ∧ (∀ q ∈ i.reads, shared t q = true) ∧
      ∀ q ∈ i.sets, shared t q = true) := by
  have hv := hd.var t i hi
  have hc := hd.changes t i hi
  have hf := hd.flow t i hi
  cases i with
  | get q x =>
    have hg := hd.get t q x hi
    rcases hv x (by simp [Instr.varArgs]) with h | ⟨h, _⟩
    · refine .inl ⟨by simp [Instr.varArgs, h], by simp [Instr.reads], ?_⟩
      simp only [Instr.sets, List.mem_singleton, forall_eq]
      cases hs : shared t q with
      | false => rfl
      | true => have := hg.mp hs; omega
    · exact .inr ⟨rfl, rfl, by simp [Instr.varArgs, h], by simp [Instr.reads], by simp [Instr.sets, hg.mpr h]⟩
  | call c q =>
    refine .inl ⟨fun x hx => ?_, fun q hq => hc rfl q hq, by simp [Instr.sets]⟩
    rcases hv x hx with h | ⟨_, q', h⟩
    · exact h
    · cases h
  | write ty p x =>
    refine .inl ⟨fun x hx => ?_, fun q hq => hc rfl q hq, by simp [Instr.sets]⟩
    rcases hv x hx with h | ⟨_, q', h⟩
    · exact h
    · cases h
  | read d p ref content =>
    refine .inl ⟨fun x hx => ?_, fun q hq => hc rfl q hq, by simp [Instr.sets]⟩
    rcases hv x hx with h | ⟨_, q', h⟩
    · exact h
    · cases h
  | index q q' n =>
    have := hf q (by simp [Instr.sets]) q' (by simp [Instr.reads])
    cases hs : shared t q' with
    | false => exact .inl ⟨by simp [Instr.varArgs], by simp [Instr.reads, hs], by simp [Instr.sets, this, hs]⟩
    | true => exact .inr ⟨rfl, rfl, by simp [Instr.varArgs], by simp [Instr.reads, hs], by simp [Instr.sets, this, hs]⟩
  | key q q' n =>
    have := hf q (by simp [Instr.sets]) q' (by simp [Instr.reads])
    cases hs : shared t q' with
    | false => exact .inl ⟨by simp [Instr.varArgs], by simp [Instr.reads, hs], by simp [Instr.sets, this, hs]⟩
    | true => exact .inr ⟨rfl, rfl, by simp [Instr.varArgs], by simp [Instr.reads, hs], by simp [Instr.sets, this, hs]⟩
  | first q q' n =>
    have := hf q (by simp [Instr.sets]) q' (by simp [Instr.reads])
    cases hs : shared t q' with
    | false => exact .inl ⟨by simp [Instr.varArgs], by simp [Instr.reads, hs], by simp [Instr.sets, this, hs]⟩
    | true => exact .inr ⟨rfl, rfl, by simp [Instr.varArgs], by simp [Instr.reads, hs], by simp [Instr.sets, this, hs]⟩
  | next q q' =>
    have := hf q (by simp [Instr.sets]) q' (by simp [Instr.reads])
    cases hs : shared t q' with
    | false => exact .inl ⟨by simp [Instr.varArgs], by simp [Instr.reads, hs], by simp [Instr.sets, this, hs]⟩
    | true => exact .inr ⟨rfl, rfl, by simp [Instr.varArgs], by simp [Instr.reads, hs], by simp [Instr.sets, this, hs]⟩
  | value q q' =>
    have := hf q (by simp [Instr.sets]) q' (by simp [Instr.reads])
    cases hs : shared t q' with
    | false => exact .inl ⟨by simp [Instr.varArgs], by simp [Instr.reads, hs], by simp [Instr.sets, this, hs]⟩
    | true => exact .inr ⟨rfl, rfl, by simp [Instr.varArgs], by simp [Instr.reads, hs], by simp [Instr.sets, this, hs]⟩
  | dump q =>
    cases hs : shared t q with
    | false => exact .inl ⟨by simp [Instr.varArgs], by simp [Instr.reads, hs], by simp [Instr.sets]⟩
    | true => exact .inr ⟨rfl, rfl, by simp [Instr.varArgs], by simp [Instr.reads, hs], by simp [Instr.sets]⟩
  | size q b =>
    cases hs : shared t q with
    | false => exact .inl ⟨by simp [Instr.varArgs], by simp [Instr.reads, hs], by simp [Instr.sets]⟩
    | true => exact .inr ⟨rfl, rfl, by simp [Instr.varArgs], by simp [Instr.reads, hs], by simp [Instr.sets]⟩
  | leaf q =>
    cases hs : shared t q with
    | false => exact .inl ⟨by simp [Instr.varArgs], by simp [Instr.reads, hs], by simp [Instr.sets]⟩
    | true => exact .inr ⟨rfl, rfl, by simp [Instr.varArgs], by simp [Instr.reads, hs], by simp [Instr.sets]⟩
  | null q =>
    cases hs : shared t q with
    | false => exact .inl ⟨by simp [Instr.varArgs], by simp [Instr.reads, hs], by simp [Instr.sets]⟩
    | true => exact .inr ⟨rfl, rfl, by simp [Instr.varArgs], by simp [Instr.reads, hs], by simp [Instr.sets]⟩

/-- What the two runs have in common after one instruction: for the shared memory, and for the alone memory side by side with itself. -/
structure Did (sh : Share) (shared : Nat → Nat → Bool) (t : Nat) (side side2 : Ref → Nat) (f : Ref → Ref) (m m2 : Mem) (l l2 : ThreadLocal)
    (a b : Mem × ThreadLocal) : Prop where
  out : b.2.out = a.2.out
  step : (∃ w' w2', Then sh (t + 1) ⟨side, f⟩ m w' a.1 b.1 ∧ LocalO (fun q => shared t q = false) (t + 1) w' a.1 a.2 b.2 ∧
      Then sh (t + 1) ⟨side2, id⟩ m2 w2' b.1 b.1 ∧ LocalO (fun q => shared t q = false) (t + 1) w2' b.1 b.2 b.2 ∧
      (∀ q, shared t q = true → a.2.ptrs q = l.ptrs q) ∧ ∀ q, shared t q = true → b.2.ptrs q = l2.ptrs q) ∨
    (a.1 = m ∧ b.1 = m2 ∧ LocalO (fun q => shared t q = true) 0 ⟨side, id⟩ m a.2 b.2 ∧
      (∀ q, shared t q = false → a.2.ptrs q = l.ptrs q) ∧ ∀ q, shared t q = false → b.2.ptrs q = l2.ptrs q)

theorem Both.and_eq {α β : Type} {R : α → β → Prop} {x : Res α} {y : Res β} (h : Both R x y) :
    Both (fun a b => R a b ∧ x = .ok a ∧ y = .ok b) x y := by
  cases h with
  | ok h => exact .ok ⟨h, rfl, rfl⟩
  | error e => exact .error e

theorem one_instr {cfg : Cfg} {fuel : Nat} {sh : Share} {init : List Instr} {prog : Nat → List Instr} {shared : Nat → Nat → Bool}
    (hd : Disc sh init prog shared) {m0 : Mem} {s : Threads} {side : Ref → Nat} {t : Nat} {f : Ref → Ref} {side2 : Ref → Nat} {done : List Instr}
    {m2 : Mem} {l2 : ThreadLocal} (h : One cfg fuel sh prog shared m0 s side t f side2 done m2 l2) {i : Instr} (hi : i ∈ prog t) :
    Both (Did sh shared t side side2 f s.mem m2 (s.local_ t) l2) (i.exec cfg fuel s.mem (s.local_ t)) (i.exec cfg fuel m2 l2) := by
  rcases hd.kind hi with ⟨hv, hr, hst⟩ | ⟨hp, hc, hv, hr, hst⟩
  · have h1 := Both.and_eq (instr_relO cfg fuel h.rel h.own i (hd.pool t i hi) hv hr)
    have h2 := instr_relO cfg fuel h.self h.ownIn i (hd.pool t i hi) hv hr
    refine h1.imp fun a b hab => ?_
    obtain ⟨⟨w', ht, hl⟩, e1, e2⟩ := hab
    rw [e2] at h2
    cases h2 with
    | ok hbb =>
      obtain ⟨w2', ht2, hl2⟩ := hbb
      exact ⟨hl.out, .inl ⟨w', w2', ht, hl, ht2, hl2, (fun q hq => exec_keeps e1 q fun hm => by rw [hst q hm] at hq; cases hq),
        (fun q hq => exec_keeps e2 q fun hm => by rw [hst q hm] at hq; cases hq)⟩⟩
  · have h1 := Both.and_eq (instr_relO cfg fuel h.base h.shr i (by rw [hp]; intro p hp; cases hp) hv hr)
    refine h1.imp fun a b hab => ?_
    obtain ⟨⟨w', ht, hl⟩, e1, e2⟩ := hab
    have hm := exec_reads e1 hc
    have hm2 := exec_reads e2 hc
    refine ⟨hl.out, .inr ⟨hm, hm2, ⟨fun q hq => ?_, hl.out⟩, (fun q hq => exec_keeps e1 q fun hm => by rw [hst q hm] at hq; cases hq),
        (fun q hq => exec_keeps e2 q fun hm => by rw [hst q hm] at hq; cases hq)⟩⟩
    have hpq := hl.ptrs q hq
    rw [hm] at hpq
    have hn := ht.next
    rw [hm] at hn
    have hmn : ∀ r, Mine 0 w' s.mem r → Mine 0 ⟨side, id⟩ s.mem r := fun r hr => ⟨hr.1, by rw [← hn.side r hr.1]; exact hr.2⟩
    refine ⟨fun r e => hmn r (hpq.1 r e), ?_⟩
    rw [hpq.2]
    cases hx : a.2.ptrs q with
    | none => rfl
    | some r => exact congrArg some (hn.f r (hmn r (hpq.1 r hx)))

theorem every_step {cfg : Cfg} {fuel : Nat} {sh : Share} {init : List Instr} {prog : Nat → List Instr} {shared : Nat → Nat → Bool}
    (hd : Disc sh init prog shared) {m0 : Mem} {s s' : Threads} {side : Ref → Nat} {t : Nat} (h : Every cfg fuel sh prog shared m0 s side)
    (hs : Threads.Step cfg fuel t s s') : ∃ side', Every cfg fuel sh prog shared m0 s' side' := by
  cases hs with
  | mk i is m l htodo hexec =>
    obtain ⟨f, side2, done, m2, l2, ho⟩ := h.thread t
    have hi : i ∈ prog t := by rw [ho.prog, htodo]; simp
    have hb := Both.and_eq (one_instr hd ho hi)
    rw [hexec] at hb
    revert hb
    generalize hx : i.exec cfg fuel m2 l2 = x
    intro hb
    cases hb with
    | ok hab =>
      rename_i b
      obtain ⟨⟨hout, hdid⟩, -, -⟩ := hab
      have hprog : prog t = (done ++ [i]) ++ is := by rw [ho.prog, htodo]; simp
      have halone : runAlone cfg fuel (done ++ [i]) m0 {} = .ok (b.1, b.2) := by
        rw [runAlone_append, ho.alone]
        change (do let (m, l) ← i.exec cfg fuel m2 l2; runAlone cfg fuel [] m l) = _
        rw [hx]
        rfl
      dsimp only at hout hdid
      rcases hdid with ⟨w', w2', ht, hl, ht2, hl2, hk1, hk2⟩ | ⟨hm, hm2, hl, hk1, hk2⟩
      · refine ⟨w'.side, ⟨fun u => ?_, ?_, ?_⟩⟩
        · by_cases e : u = t
          · subst e
            refine ⟨w'.f, w2'.side, done ++ [i], b.1, b.2, ?_, halone, ht.rel, ht2.rel.self, ?_, ?_, ?_, ?_, ?_⟩
            · simp only [upd_same]; exact hprog
            · exact Rel.other (w := ⟨side, f⟩) (by omega) (Rel.right (by omega) ho.base ho.low ht2.next) ht.rel ht.next
            · intro r hr
              have h1 := ht.next.mine0 hr
              have h2 := ho.low r h1
              exact ⟨Nat.lt_of_lt_of_le h2.1 ht2.next.top, by rw [ht2.next.side r h2.1]; exact h2.2⟩
            · simp only [upd_same]; exact hl
            · refine ⟨fun q hq => ⟨(hl2.ptrs q hq).1, (map_id' _).symm⟩, rfl⟩
            · simp only [upd_same]
              exact (ho.shr.next (w := ⟨side, f⟩) ht.next).keep hk1 hk2 hout
          · obtain ⟨g, side3, done', n2, k2, hu⟩ := h.thread u
            refine ⟨g, side3, done', n2, k2, ?_, hu.alone, ?_, hu.self, ?_, ?_, ?_, hu.ownIn, ?_⟩
            · simp only [upd_ne _ _ e]; exact hu.prog
            · exact Rel.other (w := ⟨side, f⟩) (by omega) hu.rel ht.rel ht.next
            · exact Rel.other (w := ⟨side, f⟩) (by omega) hu.base ht.rel ht.next
            · intro r hr; exact hu.low r (ht.next.mine0 hr)
            · simp only [upd_ne _ _ e]; exact hu.own.next (w := ⟨side, f⟩) ht.next
            · simp only [upd_ne _ _ e]; exact hu.shr.next (w := ⟨side, f⟩) ht.next
        · exact Rel.other (w := ⟨side, f⟩) (by omega) h.base ht.rel ht.next
        · intro r hr
          have h1 := h.mine r hr
          exact ⟨Nat.lt_of_lt_of_le h1.1 ht.next.top, by show w'.side r = 0; rw [ht.next.side r h1.1]; exact h1.2⟩
      · subst hm
        refine ⟨side, ⟨fun u => ?_, h.base, h.mine⟩⟩
        by_cases e : u = t
        · subst e
          refine ⟨f, side2, done ++ [i], b.1, b.2, ?_, halone, ?_, ?_, ?_, ?_, ?_, ?_, ?_⟩
          · simp only [upd_same]; exact hprog
          · rw [hm2]; exact ho.rel
          · rw [hm2]; exact ho.self
          · rw [hm2]; exact ho.base
          · rw [hm2]; exact ho.low
          · simp only [upd_same]; exact ho.own.keep hk1 hk2 hout
          · rw [hm2]; exact ho.ownIn.keep hk2 hk2 rfl
          · simp only [upd_same]; exact hl
        · obtain ⟨g, side3, done', n2, k2, hu⟩ := h.thread u
          refine ⟨g, side3, done', n2, k2, ?_, hu.alone, hu.rel, hu.self, hu.base, hu.low, ?_, hu.ownIn, ?_⟩
          · simp only [upd_ne _ _ e]; exact hu.prog
          · simp only [upd_ne _ _ e]; exact hu.own
          · simp only [upd_ne _ _ e]; exact hu.shr

theorem every_runs {cfg : Cfg} {fuel : Nat} {sh : Share} {init : List Instr} {prog : Nat → List Instr} {shared : Nat → Nat → Bool}
    (hd : Disc sh init prog shared) {m0 : Mem} {l0 : ThreadLocal} (h0 : runAlone cfg fuel init {} {} = .ok (m0, l0)) {s : Threads}
    (hs : Threads.Runs cfg fuel { mem := m0, todo := prog } s) : ∃ side, Every cfg fuel sh prog shared m0 s side := by
  generalize he : ({ mem := m0, todo := prog } : Threads) = s0 at hs
  induction hs with
  | refl => subst he; exact Every.start hd h0
  | step _ h1 ih =>
    obtain ⟨side, h⟩ := ih
    exact every_step hd h h1

/-- The shared objects are as they were. -/
theorem Every.load {cfg : Cfg} {fuel : Nat} {sh : Share} {prog : Nat → List Instr} {shared : Nat → Nat → Bool} {m0 : Mem} {s : Threads}
    {side : Ref → Nat} (h : Every cfg fuel sh prog shared m0 s side) (r : Ref) (hr : r < m0.top) : s.mem.load (some r) = m0.load (some r) := by
  have hm := h.mine r hr
  have h1 := h.base.cells r hm
  have h2 := h.base.owner r hm
  have h3 : m0.cells r = s.mem.cells r := by
    have h1 : m0.cells r = (s.mem.cells r).map (ren id) := h1
    rw [h1]
    cases s.mem.cells r with
    | none => rfl
    | some c => simp only [Option.map_some]; rw [ren_id]
  have h4 : m0.owner r = s.mem.owner r := h2
  simp only [Mem.load]
  rw [h3, h4]

end Bridge.Heap.Thr
