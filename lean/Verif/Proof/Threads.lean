import Verif.Model.Threads
import Verif.Proof.HeapParse
/-
What one thread does in a memory that it shares with others, side by side with the same done alone.  The addresses differ: `f` maps
the addresses of the objects of the thread to those they have when it runs alone.
-/
set_option autoImplicit false
namespace Bridge.Heap.Thr
open Spec

/-- The same cell with other addresses. -/
def ren (f : Ref → Ref) : Cell → Cell
  | .data r d p => .data r d p
  | .cont k p h s => .cont k p (h.map f) s
  | .item k v n => .item k (v.map f) (n.map f)

/-- Which pools and variables belong to which thread. -/
structure Share where
  pool : Nat → Nat
  var : Nat → Nat

/-- Whose objects are where, and how the addresses correspond. -/
structure World where
  side : Ref → Nat
  f : Ref → Ref

/-- The address has been used by thread `t`. -/
def Mine (t : Nat) (w : World) (m : Mem) (r : Ref) : Prop := r < m.top ∧ w.side r = t

/-- A pointer of thread `t`. -/
def PIn (t : Nat) (w : World) (m : Mem) (p : Option Ref) : Prop := ∀ r, p = some r → Mine t w m r

/-- All pointers in a cell are pointers of thread `t`. -/
def CIn (sh : Share) (t : Nat) (w : World) (m : Mem) : Cell → Prop
  | .data .. => True
  | .cont _ p h _ => sh.pool p = t ∧ PIn t w m h
  | .item _ v n => PIn t w m v ∧ PIn t w m n

/-- The objects of thread `t` in the shared memory `m1` are those of the memory `m2`. -/
structure Rel (sh : Share) (t : Nat) (w : World) (m1 m2 : Mem) : Prop where
  cells : ∀ r, Mine t w m1 r → m2.cells (w.f r) = (m1.cells r).map (ren w.f)
  owner : ∀ r, Mine t w m1 r → m2.owner (w.f r) = m1.owner r
  inj : ∀ r r', Mine t w m1 r → Mine t w m1 r' → w.f r = w.f r' → r = r'
  low : ∀ r, Mine t w m1 r → w.f r < m2.top
  closed : ∀ r c, Mine t w m1 r → m1.cells r = some c → CIn sh t w m1 c
  ownerOf : ∀ r p, Mine t w m1 r → m1.owner r = some p → sh.pool p = t
  ownerIn : ∀ r p, m1.owner r = some p → sh.pool p = t → Mine t w m1 r
  vars : ∀ x, sh.var x = t → m2.vars x = (m1.vars x).map w.f
  varsIn : ∀ x, sh.var x = t → PIn t w m1 (m1.vars x)
  pools : ∀ p, sh.pool p = t → m2.pools p = m1.pools p
  fresh : ∀ r, m1.top ≤ r → m1.owner r = none
  frames : ∀ p, sh.pool p = t → m2.frames p = m1.frames p

/-- Thread `t` has done something: nothing of the others has changed. -/
structure Next (sh : Share) (t : Nat) (w : World) (m : Mem) (w' : World) (m' : Mem) : Prop where
  top : m.top ≤ m'.top
  side : ∀ r, r < m.top → w'.side r = w.side r
  f : ∀ r, Mine t w m r → w'.f r = w.f r
  cells : ∀ r, r < m.top → w.side r ≠ t → m'.cells r = m.cells r
  owner : ∀ r, r < m.top → w.side r ≠ t → m'.owner r = m.owner r
  new : ∀ r, m.top ≤ r → r < m'.top → w'.side r = t
  vars : ∀ x, sh.var x ≠ t → m'.vars x = m.vars x
  pools : ∀ p, sh.pool p ≠ t → m'.pools p = m.pools p
  frames : ∀ p, m'.frames p = m.frames p

theorem Next.refl (sh : Share) (t : Nat) (w : World) (m : Mem) : Next sh t w m w m :=
  ⟨Nat.le_refl _, fun _ _ => rfl, fun _ _ => rfl, fun _ _ _ => rfl, fun _ _ _ => rfl, fun r h1 h2 => absurd h2 (Nat.not_lt.mpr h1), fun _ _ => rfl,
    fun _ _ => rfl, fun _ => rfl⟩

theorem Next.mine {sh : Share} {t : Nat} {w w' : World} {m m' : Mem} (h : Next sh t w m w' m') {r : Ref} (hr : Mine t w m r) : Mine t w' m' r :=
  ⟨Nat.lt_of_lt_of_le hr.1 h.top, by rw [h.side r hr.1]; exact hr.2⟩

theorem Next.trans {sh : Share} {t : Nat} {w w' w'' : World} {m m' m'' : Mem} (h : Next sh t w m w' m') (h' : Next sh t w' m' w'' m'') :
    Next sh t w m w'' m'' where
  top := Nat.le_trans h.top h'.top
  side := fun r hr => by rw [h'.side r (Nat.lt_of_lt_of_le hr h.top), h.side r hr]
  f := fun r hr => by rw [h'.f r (h.mine hr), h.f r hr]
  cells := fun r hr hs => by rw [h'.cells r (Nat.lt_of_lt_of_le hr h.top) (by rw [h.side r hr]; exact hs), h.cells r hr hs]
  owner := fun r hr hs => by rw [h'.owner r (Nat.lt_of_lt_of_le hr h.top) (by rw [h.side r hr]; exact hs), h.owner r hr hs]
  new := fun r h1 h2 => by
    rcases Nat.lt_or_ge r m'.top with h3 | h3
    · rw [h'.side r h3, h.new r h1 h3]
    · exact h'.new r h3 h2
  vars := fun x hx => by rw [h'.vars x hx, h.vars x hx]
  pools := fun p hp => by rw [h'.pools p hp, h.pools p hp]
  frames := fun p => by rw [h'.frames p, h.frames p]

/-- A pointer of the thread and the same pointer when it runs alone. -/
def PR (t : Nat) (w : World) (m : Mem) (p1 p2 : Option Ref) : Prop := PIn t w m p1 ∧ p2 = p1.map w.f

theorem Next.pr {sh : Share} {t : Nat} {w w' : World} {m m' : Mem} (h : Next sh t w m w' m') {p1 p2 : Option Ref} (hp : PR t w m p1 p2) :
    PR t w' m' p1 p2 := by
  refine ⟨fun r e => h.mine (hp.1 r e), ?_⟩
  rw [hp.2]
  cases p1 with
  | none => rfl
  | some r => simp only [Option.map_some]; rw [h.f r (hp.1 r rfl)]

theorem PR.none {t : Nat} {w : World} {m : Mem} : PR t w m none none := ⟨(fun _ e => by cases e), rfl⟩

theorem PR.some {t : Nat} {w : World} {m : Mem} {r : Ref} (h : Mine t w m r) : PR t w m (some r) (some (w.f r)) := ⟨(fun _ e => by cases e; exact h), rfl⟩

theorem PR.isSome {t : Nat} {w : World} {m : Mem} {p1 p2 : Option Ref} (h : PR t w m p1 p2) : p2.isSome = p1.isSome := by
  rw [h.2]; cases p1 <;> rfl

theorem PR.isNone {t : Nat} {w : World} {m : Mem} {p1 p2 : Option Ref} (h : PR t w m p1 p2) : p2.isNone = p1.isNone := by
  rw [h.2]; cases p1 <;> rfl

theorem ren_congr {sh : Share} {t : Nat} {w w' : World} {m : Mem} (hf : ∀ r, Mine t w m r → w'.f r = w.f r) {c : Cell} (hc : CIn sh t w m c) :
    ren w'.f c = ren w.f c := by
  have hp : ∀ p : Option Ref, PIn t w m p → p.map w'.f = p.map w.f := by
    intro p h
    cases p with
    | none => rfl
    | some r => simp only [Option.map_some]; rw [hf r (h r rfl)]
  cases c with
  | data => rfl
  | cont k p h s => simp only [ren]; rw [hp _ hc.2]
  | item k v n => simp only [ren]; rw [hp _ hc.1, hp _ hc.2]

theorem Next.cin {sh : Share} {t : Nat} {w w' : World} {m m' : Mem} (h : Next sh t w m w' m') {c : Cell} (hc : CIn sh t w m c) : CIn sh t w' m' c := by
  cases c with
  | data => trivial
  | cont k p hd s => exact ⟨hc.1, fun r e => h.mine (hc.2 r e)⟩
  | item k v n => exact ⟨fun r e => h.mine (hc.1 r e), fun r e => h.mine (hc.2 r e)⟩

/-! ### the other threads -/

/-- What thread `s` does leaves the objects of thread `t` alone. -/
theorem Rel.other {sh : Share} {s t : Nat} (hne : t ≠ s) {w w' : World} {f : Ref → Ref} {m m' m2 ms : Mem} (h : Rel sh t ⟨w.side, f⟩ m m2)
    (hs : Rel sh s w' m' ms) (hn : Next sh s w m w' m') : Rel sh t ⟨w'.side, f⟩ m' m2 := by
  have hm : ∀ r, Mine t ⟨w'.side, f⟩ m' r ↔ Mine t ⟨w.side, f⟩ m r := by
    intro r
    constructor
    · intro hr
      have h1 : r < m.top := by
        refine Nat.lt_of_not_le fun h2 => ?_
        have := hn.new r h2 hr.1
        exact hne (hr.2.symm.trans this)
      exact ⟨h1, by rw [← hn.side r h1]; exact hr.2⟩
    · intro hr
      exact ⟨Nat.lt_of_lt_of_le hr.1 hn.top, by rw [hn.side r hr.1]; exact hr.2⟩
  have hside : ∀ r, Mine t ⟨w.side, f⟩ m r → w.side r ≠ s := fun r hr e => hne (hr.2.symm.trans e)
  have hc : ∀ r, Mine t ⟨w.side, f⟩ m r → m'.cells r = m.cells r := fun r hr => hn.cells r hr.1 (hside r hr)
  have ho : ∀ r, Mine t ⟨w.side, f⟩ m r → m'.owner r = m.owner r := fun r hr => hn.owner r hr.1 (hside r hr)
  have hcin : ∀ c, CIn sh t ⟨w.side, f⟩ m c → CIn sh t ⟨w'.side, f⟩ m' c := by
    intro c hc
    cases c with
    | data => trivial
    | cont k p hd sz => exact ⟨hc.1, fun r e => (hm r).mpr (hc.2 r e)⟩
    | item k v n => exact ⟨fun r e => (hm r).mpr (hc.1 r e), fun r e => (hm r).mpr (hc.2 r e)⟩
  constructor
  · intro r hr; rw [hm] at hr; rw [hc r hr]; exact h.cells r hr
  · intro r hr; rw [hm] at hr; rw [ho r hr]; exact h.owner r hr
  · intro r r' hr hr' e; rw [hm] at hr hr'; exact h.inj r r' hr hr' e
  · intro r hr; rw [hm] at hr; exact h.low r hr
  · intro r c hr e; rw [hm] at hr; rw [hc r hr] at e; exact hcin c (h.closed r c hr e)
  · intro r p hr e; rw [hm] at hr; rw [ho r hr] at e; exact h.ownerOf r p hr e
  · intro r p e hp
    rw [hm]
    rcases Nat.lt_or_ge r m.top with h1 | h1
    · by_cases h2 : w.side r = s
      · have h3 : Mine s w' m' r := ⟨Nat.lt_of_lt_of_le h1 hn.top, by rw [hn.side r h1]; exact h2⟩
        exact absurd (hp.symm.trans (hs.ownerOf r p h3 e)) hne
      · rw [hn.owner r h1 h2] at e
        exact h.ownerIn r p e hp
    · rcases Nat.lt_or_ge r m'.top with h2 | h2
      · have h3 : Mine s w' m' r := ⟨h2, by exact hn.new r h1 h2⟩
        exact absurd (hp.symm.trans (hs.ownerOf r p h3 e)) hne
      · rw [hs.fresh r h2] at e; cases e
  · intro x hx; rw [hn.vars x (by rw [hx]; exact hne)]; exact h.vars x hx
  · intro x hx; rw [hn.vars x (by rw [hx]; exact hne)]; exact fun r e => (hm r).mpr (h.varsIn x hx r e)
  · intro p hp; rw [hn.pools p (by rw [hp]; exact hne)]; exact h.pools p hp
  · exact hs.fresh
  · intro p hp; rw [hn.frames]; exact h.frames p hp

/-! ### reading -/

/-- Two cells read through the same pointer. -/
structure LR (sh : Share) (t : Nat) (w : World) (m : Mem) (a b : Ref × Cell) : Prop where
  mine : Mine t w m a.1
  addr : b.1 = w.f a.1
  cell : b.2 = ren w.f a.2
  cin : CIn sh t w m a.2

section
variable {sh : Share} {t : Nat} {w : World} {m1 m2 : Mem}

theorem load_rel (h : Rel sh t w m1 m2) {p1 p2 : Option Ref} (hp : PR t w m1 p1 p2) : Both (LR sh t w m1) (m1.load p1) (m2.load p2) := by
  obtain ⟨h1, rfl⟩ := hp
  cases p1 with
  | none => exact .error _
  | some r =>
    have hr := h1 r rfl
    simp only [Option.map_some, Mem.load]
    rw [h.owner r hr, h.cells r hr]
    cases ho : m1.owner r with
    | none => exact .error _
    | some q =>
      cases hc : m1.cells r with
      | none => exact .error _
      | some c => exact .ok ⟨hr, rfl, rfl, h.closed r c hr hc⟩

/-- A container read through the same pointer. -/
structure CR (sh : Share) (t : Nat) (w : World) (m : Mem) (a b : Ref × Kind × Nat × Option Ref × Nat) : Prop where
  mine : Mine t w m a.1
  addr : b.1 = w.f a.1
  kind : b.2.1 = a.2.1
  pool : b.2.2.1 = a.2.2.1
  poolIn : sh.pool a.2.2.1 = t
  head : PR t w m a.2.2.2.1 b.2.2.2.1
  size : b.2.2.2.2 = a.2.2.2.2

theorem loadCont_rel (h : Rel sh t w m1 m2) {p1 p2 : Option Ref} (hp : PR t w m1 p1 p2) (array : Bool) :
    Both (CR sh t w m1) (m1.loadCont array p1) (m2.loadCont array p2) := by
  refine (load_rel h hp).bind fun a b hab => ?_
  obtain ⟨r, c⟩ := a
  obtain ⟨r', c'⟩ := b
  obtain ⟨hm, rfl, rfl, hi⟩ := hab
  cases c with
  | data => exact .error _
  | item => exact .error _
  | cont k p hd s =>
    simp only [ren]
    split
    · exact .ok ⟨hm, rfl, rfl, rfl, hi.1, ⟨hi.2, rfl⟩, rfl⟩
    · exact .error _

/-- An item read through the same pointer. -/
structure IR (t : Nat) (w : World) (m : Mem) (a b : Ref × Str × Option Ref × Option Ref) : Prop where
  mine : Mine t w m a.1
  addr : b.1 = w.f a.1
  key : b.2.1 = a.2.1
  node : PR t w m a.2.2.1 b.2.2.1
  next : PR t w m a.2.2.2 b.2.2.2

theorem loadItem_rel (h : Rel sh t w m1 m2) {p1 p2 : Option Ref} (hp : PR t w m1 p1 p2) :
    Both (IR t w m1) (m1.loadItem p1) (m2.loadItem p2) := by
  refine (load_rel h hp).bind fun a b hab => ?_
  obtain ⟨r, c⟩ := a
  obtain ⟨r', c'⟩ := b
  obtain ⟨hm, rfl, rfl, hi⟩ := hab
  cases c with
  | data => exact .error _
  | cont => exact .error _
  | item k v n => exact .ok ⟨hm, rfl, rfl, ⟨hi.1, rfl⟩, ⟨hi.2, rfl⟩⟩

theorem walk_rel (h : Rel sh t w m1 m2) : ∀ (n : Nat) {p1 p2 : Option Ref}, PR t w m1 p1 p2 → Both (PR t w m1) (m1.walk p1 n) (m2.walk p2 n) := by
  intro n
  induction n with
  | zero => intro p1 p2 hp; cases p1 <;> cases p2 <;> exact .ok hp
  | succ n ih =>
    intro p1 p2 hp
    cases p1 with
    | none => obtain ⟨_, rfl⟩ := hp; exact .ok PR.none
    | some r =>
      have hp' := hp
      obtain ⟨_, rfl⟩ := hp
      exact (loadItem_rel h hp').bind fun a b hab => ih hab.next

theorem index_rel (h : Rel sh t w m1 m2) {p1 p2 : Option Ref} (hp : PR t w m1 p1 p2) (n : Nat) :
    Both (PR t w m1) (m1.index p1 n) (m2.index p2 n) := by
  refine (loadCont_rel h hp true).bind fun a b hab => ?_
  obtain ⟨r, k, p, hd, s⟩ := a
  obtain ⟨r', k', p', hd', s'⟩ := b
  obtain ⟨_, _, _, _, _, hh, hs⟩ := hab
  dsimp only at hs hh ⊢
  subst hs
  split
  · exact .ok PR.none
  · refine (walk_rel h _ hh).bind fun q q' hq => ?_
    rw [hq.isNone]
    split
    · exact .ok PR.none
    · exact (loadItem_rel h hq).bind fun a b hab => .ok hab.node

theorem find_rel (h : Rel sh t w m1 m2) (key : Bytes) : ∀ (f : Nat) {p1 p2 : Option Ref}, PR t w m1 p1 p2 →
    Both (PR t w m1) (m1.find key f p1) (m2.find key f p2) := by
  intro f
  induction f with
  | zero =>
    intro p1 p2 hp
    obtain ⟨_, rfl⟩ := hp
    cases p1 with
    | none => exact .ok PR.none
    | some r => exact .error _
  | succ f ih =>
    intro p1 p2 hp
    have hp' := hp
    obtain ⟨_, rfl⟩ := hp
    cases p1 with
    | none => exact .ok PR.none
    | some r =>
      refine (loadItem_rel h hp').bind fun a b hab => ?_
      obtain ⟨r, k, v, n⟩ := a
      obtain ⟨r', k', v', n'⟩ := b
      obtain ⟨_, _, hk, _, hn⟩ := hab
      dsimp only at hk hn ⊢
      subst hk
      split
      · exact .ok hp'
      · exact ih hn

theorem lookup_rel (h : Rel sh t w m1 m2) {p1 p2 : Option Ref} (hp : PR t w m1 p1 p2) (fuel : Nat) (key : Bytes) :
    Both (PR t w m1) (m1.lookup fuel p1 key) (m2.lookup fuel p2 key) := by
  refine (loadCont_rel h hp false).bind fun a b hab => ?_
  refine (find_rel h key fuel hab.head).bind fun q q' hq => ?_
  rw [hq.isNone]
  split
  · exact .ok PR.none
  · exact (loadItem_rel h hq).bind fun a b hab => .ok hab.node

theorem begin_rel (h : Rel sh t w m1 m2) {p1 p2 : Option Ref} (hp : PR t w m1 p1 p2) (a : Bool) :
    Both (PR t w m1) (m1.begin_ a p1) (m2.begin_ a p2) :=
  (loadCont_rel h hp a).bind fun _ _ hab => .ok hab.head

theorem next_rel (h : Rel sh t w m1 m2) {p1 p2 : Option Ref} (hp : PR t w m1 p1 p2) : Both (PR t w m1) (m1.next p1) (m2.next p2) :=
  (loadItem_rel h hp).bind fun _ _ hab => .ok hab.next

theorem entry_rel (h : Rel sh t w m1 m2) {p1 p2 : Option Ref} (hp : PR t w m1 p1 p2) :
    Both (fun a b => PR t w m1 a.2 b.2) (m1.entry p1) (m2.entry p2) :=
  (loadItem_rel h hp).bind fun _ _ hab => .ok hab.node

theorem size_rel (h : Rel sh t w m1 m2) {p1 p2 : Option Ref} (hp : PR t w m1 p1 p2) (a : Bool) :
    Both Eq (m1.size a p1) (m2.size a p2) :=
  (loadCont_rel h hp a).bind fun _ _ hab => .ok hab.size.symm

/-! ### Serialize and dump -/

theorem objType_ren (f : Ref → Ref) (c : Cell) : (ren f c).objType = c.objType := by
  cases c with
  | data => rfl
  | cont k p h s => cases k <;> rfl
  | item => rfl

theorem both_eq {α : Type} {x y : Res α} (h : Both Eq x y) : x = y := by
  cases h with
  | ok h => rw [h]
  | error => rfl

theorem both_refl {α : Type} (x : Res α) : Both Eq x x := by
  cases x with
  | ok a => exact .ok rfl
  | error e => exact .error e

theorem seri_rel (cfg : Cfg) (h : Rel sh t w m1 m2) : ∀ (f : Nat),
    (∀ (p1 p2 : Option Ref) (st : SState), PR t w m1 p1 p2 → m1.valueSeri cfg f p1 st = m2.valueSeri cfg f p2 st) ∧
    (∀ (array : Bool) (p1 p2 : Option Ref) (st : SState) (cur : Nat) (bl : List Nat), PR t w m1 p1 p2 →
      m1.seriLoop cfg array f p1 st cur bl = m2.seriLoop cfg array f p2 st cur bl) := by
  intro f
  induction f with
  | zero =>
    constructor
    · intro p1 p2 st _
      rw [Mem.valueSeri, Mem.valueSeri]
    · intro array p1 p2 st cur bl hp
      obtain ⟨_, rfl⟩ := hp
      cases p1 with
      | none => simp only [Option.map_none]; rw [Mem.seriLoop, Mem.seriLoop]
      | some r => simp only [Option.map_some]; rw [Mem.seriLoop, Mem.seriLoop]
  | succ f ih =>
    constructor
    · intro p1 p2 st hp
      rw [Mem.valueSeri, Mem.valueSeri]
      apply both_eq
      refine (load_rel h hp).bind fun a b hab => ?_
      obtain ⟨r, c⟩ := a
      obtain ⟨r', c'⟩ := b
      obtain ⟨hm, rfl, rfl, hi⟩ := hab
      cases c with
      | data => exact both_refl _
      | item => exact .error _
      | cont k p hd s =>
        simp only [ren]
        refine Both.same _ fun st _ => Both.same _ fun q _ => ?_
        rw [ih.2 _ _ _ _ _ _ ⟨hi.2, rfl⟩]
        exact both_refl _
    · intro array p1 p2 st cur bl hp
      have hp' := hp
      obtain ⟨_, rfl⟩ := hp
      cases p1 with
      | none => simp only [Option.map_none]; rw [Mem.seriLoop, Mem.seriLoop]
      | some r =>
        simp only [Option.map_some]
        rw [Mem.seriLoop, Mem.seriLoop]
        apply both_eq
        refine (loadItem_rel h hp').bind fun a b hab => ?_
        obtain ⟨r, k, v, n⟩ := a
        obtain ⟨r', k', v', n'⟩ := b
        obtain ⟨_, _, hk, hv, hn⟩ := hab
        dsimp only at hk hv hn ⊢
        subst hk
        have hfun : m1.valueSeri cfg f v = m2.valueSeri cfg f v' := funext fun st => ih.1 _ _ st hv
        have hchild : ∀ st, m1.seriChild v (m1.valueSeri cfg f v) st = m2.seriChild v' (m2.valueSeri cfg f v') st := by
          intro st
          rw [hfun]
          apply both_eq
          refine (load_rel h hv).bind fun a b hab => ?_
          obtain ⟨r, c⟩ := a
          obtain ⟨r', c'⟩ := b
          obtain ⟨_, rfl, rfl, _⟩ := hab
          simp only [objType_ren]
          exact both_refl _
        have hrest : ∀ st : SState, (m1.seriChild v (m1.valueSeri cfg f v) st >>= fun st =>
            m1.seriLoop cfg array f n st (blockStep cfg st cur bl).1 (blockStep cfg st cur bl).2) =
            (m2.seriChild v' (m2.valueSeri cfg f v') st >>= fun st =>
            m2.seriLoop cfg array f n' st (blockStep cfg st cur bl).1 (blockStep cfg st cur bl).2) := by
          intro st
          rw [hchild]
          apply both_eq
          refine Both.same _ fun st _ => ?_
          rw [ih.2 _ _ _ _ _ _ hn]
          exact both_refl _
        simp only [hrest]
        exact both_refl _

theorem serializeRoot_rel (cfg : Cfg) (h : Rel sh t w m1 m2) (fuel : Nat) (ty : SeriType) {r : Ref} (hr : Mine t w m1 r) :
    m1.serializeRoot cfg fuel ty r = m2.serializeRoot cfg fuel ty (w.f r) := by
  unfold Mem.serializeRoot
  apply both_eq
  refine Both.same _ fun st _ => Both.same _ fun q _ => ?_
  obtain ⟨id, st⟩ := q
  dsimp only
  rw [(seri_rel cfg h fuel).2 false _ _ _ _ _ (PR.some hr)]
  exact both_refl _

theorem dump_rel (h : Rel sh t w m1 m2) : ∀ (f : Nat),
    (∀ (p1 p2 : Option Ref) (buf : Bytes) (level : Int), PR t w m1 p1 p2 → m1.dump f p1 buf level = m2.dump f p2 buf level) ∧
    (∀ (array : Bool) (kp : Bytes) (p1 p2 : Option Ref) (buf : Bytes) (level : Int), PR t w m1 p1 p2 →
      m1.dumpLoop array kp f p1 buf level = m2.dumpLoop array kp f p2 buf level) := by
  intro f
  induction f with
  | zero =>
    constructor
    · intro p1 p2 buf level _
      rw [Mem.dump, Mem.dump]
    · intro array kp p1 p2 buf level hp
      obtain ⟨_, rfl⟩ := hp
      cases p1 with
      | none => simp only [Option.map_none]; rw [Mem.dumpLoop, Mem.dumpLoop]
      | some r => simp only [Option.map_some]; rw [Mem.dumpLoop, Mem.dumpLoop]
  | succ f ih =>
    constructor
    · intro p1 p2 buf level hp
      rw [Mem.dump, Mem.dump]
      apply both_eq
      refine (load_rel h hp).bind fun a b hab => ?_
      obtain ⟨r, c⟩ := a
      obtain ⟨r', c'⟩ := b
      obtain ⟨hm, rfl, rfl, hi⟩ := hab
      cases c with
      | data => exact both_refl _
      | item => exact .error _
      | cont k p hd s =>
        simp only [ren]
        refine Both.same _ fun pre _ => ?_
        have ht := objType_ren w.f (.cont k p hd s)
        simp only [ren] at ht
        rw [ht]
        simp only [ih.2 _ _ _ _ _ _ ⟨hi.2, rfl⟩]
        exact both_refl _
    · intro array kp p1 p2 buf level hp
      have hp' := hp
      obtain ⟨_, rfl⟩ := hp
      cases p1 with
      | none => simp only [Option.map_none]; rw [Mem.dumpLoop, Mem.dumpLoop]
      | some r =>
        simp only [Option.map_some]
        rw [Mem.dumpLoop, Mem.dumpLoop]
        apply both_eq
        refine (loadItem_rel h hp').bind fun a b hab => ?_
        obtain ⟨r, k, v, n⟩ := a
        obtain ⟨r', k', v', n'⟩ := b
        obtain ⟨_, _, hk, hv, hn⟩ := hab
        dsimp only at hk hv hn ⊢
        subst hk
        rw [ih.1 _ _ _ _ hv]
        refine Both.same _ fun buf _ => ?_
        rw [ih.2 _ _ _ _ _ _ hn]
        exact both_refl _

/-! ### writing -/

theorem rel_vars (h : Rel sh t w m1 m2) {x : Nat} (hx : sh.var x = t) : PR t w m1 (m1.vars x) (m2.vars x) := ⟨h.varsIn x hx, h.vars x hx⟩

/-- A pair of results that are memories of the thread, later than `m`. -/
structure Then (sh : Share) (t : Nat) (w : World) (m : Mem) (w' : World) (m1 m2 : Mem) : Prop where
  rel : Rel sh t w' m1 m2
  next : Next sh t w m w' m1

theorem Then.refl (h : Rel sh t w m1 m2) : Then sh t w m1 w m1 m2 := ⟨h, Next.refl ..⟩

theorem Then.trans {w' w'' : World} {n1 n2 o1 o2 : Mem} (h : Then sh t w m1 w' n1 n2) (h' : Then sh t w' n1 w'' o1 o2) : Then sh t w m1 w'' o1 o2 :=
  ⟨h'.rel, h.next.trans h'.next⟩

theorem alloc_rel (h : Rel sh t w m1 m2) {p : Nat} (hp : sh.pool p = t) {c : Cell} (hc : CIn sh t w m1 c) :
    Both (fun a b => ∃ w', Then sh t w m1 w' a.1 b.1 ∧ Mine t w' a.1 a.2 ∧ b.2 = w'.f a.2) (m1.alloc p c) (m2.alloc p (ren w.f c)) := by
  unfold Mem.alloc
  rw [h.pools p hp]
  split
  case isFalse => exact .error _
  case isTrue =>
  refine .ok ⟨⟨upd w.side m1.top t, upd w.f m1.top m2.top⟩, ?_, ⟨Nat.lt_succ_self _, by simp⟩, by simp⟩
  have hmine : ∀ r, Mine t ⟨upd w.side m1.top t, upd w.f m1.top m2.top⟩
      { m1 with cells := upd m1.cells m1.top (some c), top := m1.top + 1, owner := upd m1.owner m1.top (some p) } r ↔ r = m1.top ∨ Mine t w m1 r := by
    intro r
    by_cases e : r = m1.top
    · subst e
      simp [Mine]
    · simp only [Mine, upd_ne _ _ e, e, false_or]
      constructor
      · exact fun h => ⟨Nat.lt_of_le_of_ne (Nat.le_of_lt_succ h.1) e, h.2⟩
      · exact fun h => ⟨Nat.lt_succ_of_lt h.1, h.2⟩
  have hne : ∀ r, Mine t w m1 r → r ≠ m1.top := fun r hr => Nat.ne_of_lt hr.1
  have hf : ∀ r, Mine t w m1 r → upd w.f m1.top m2.top r = w.f r := fun r hr => upd_ne _ _ (hne r hr)
  have hlow : ∀ r, Mine t w m1 r → w.f r ≠ m2.top := fun r hr => Nat.ne_of_lt (h.low r hr)
  have hnext : Next sh t w m1 ⟨upd w.side m1.top t, upd w.f m1.top m2.top⟩
      { m1 with cells := upd m1.cells m1.top (some c), top := m1.top + 1, owner := upd m1.owner m1.top (some p) } := by
    refine ⟨Nat.le_succ _, fun r hr => upd_ne _ _ (Nat.ne_of_lt hr), hf, fun r hr _ => upd_ne _ _ (Nat.ne_of_lt hr),
      fun r hr _ => upd_ne _ _ (Nat.ne_of_lt hr), ?_, fun _ _ => rfl, fun _ _ => rfl, fun _ => rfl⟩
    intro r h1 h2
    have e : r = m1.top := Nat.le_antisymm (Nat.le_of_lt_succ h2) h1
    subst e
    simp
  refine ⟨?_, hnext⟩
  have hren : ∀ c, CIn sh t w m1 c → ren (upd w.f m1.top m2.top) c = ren w.f c :=
    fun c hc => ren_congr (w := w) (w' := ⟨upd w.side m1.top t, upd w.f m1.top m2.top⟩) hf hc
  constructor
  · intro r hr
    rcases (hmine r).mp hr with e | hr
    · subst e
      simp only [upd_same, Option.map_some, hren c hc]
    · simp only [hf r hr, upd_ne _ _ (hlow r hr), upd_ne _ _ (hne r hr), h.cells r hr]
      cases hcr : m1.cells r with
      | none => rfl
      | some c' => simp only [Option.map_some, hren c' (h.closed r c' hr hcr)]
  · intro r hr
    rcases (hmine r).mp hr with e | hr
    · subst e; simp
    · simp only [hf r hr, upd_ne _ _ (hlow r hr), upd_ne _ _ (hne r hr), h.owner r hr]
  · intro r r' hr hr' e
    rcases (hmine r).mp hr with e1 | hr
    · rcases (hmine r').mp hr' with e2 | hr'
      · rw [e1, e2]
      · subst e1
        simp only [upd_same, hf r' hr'] at e
        exact absurd e.symm (hlow r' hr')
    · rcases (hmine r').mp hr' with e2 | hr'
      · subst e2
        simp only [upd_same, hf r hr] at e
        exact absurd e (hlow r hr)
      · simp only [hf r hr, hf r' hr'] at e
        exact h.inj r r' hr hr' e
  · intro r hr
    rcases (hmine r).mp hr with e1 | hr
    · subst e1; simp
    · simp only [hf r hr]
      exact Nat.lt_succ_of_lt (h.low r hr)
  · intro r c' hr e
    rcases (hmine r).mp hr with e1 | hr
    · subst e1
      simp only [upd_same, Option.some.injEq] at e
      subst e
      exact hnext.cin hc
    · simp only [upd_ne _ _ (hne r hr)] at e
      exact hnext.cin (h.closed r c' hr e)
  · intro r q hr e
    rcases (hmine r).mp hr with e1 | hr
    · subst e1
      simp only [upd_same, Option.some.injEq] at e
      subst e
      exact hp
    · simp only [upd_ne _ _ (hne r hr)] at e
      exact h.ownerOf r q hr e
  · intro r q e hq
    rw [hmine]
    by_cases e1 : r = m1.top
    · exact .inl e1
    · simp only [upd_ne _ _ e1] at e
      exact .inr (h.ownerIn r q e hq)
  · intro x hx
    change m2.vars x = (m1.vars x).map (upd w.f m1.top m2.top)
    exact (hnext.pr (rel_vars h hx)).2
  · intro x hx
    exact (hnext.pr (rel_vars h hx)).1
  · exact h.pools
  · intro r hr
    simp only at hr ⊢
    rw [upd_ne _ _ (Nat.ne_of_gt hr)]
    exact h.fresh r (Nat.le_of_succ_le hr)
  · exact h.frames

theorem modify_rel (h : Rel sh t w m1 m2) {r : Ref} (hr : Mine t w m1 r) {g1 g2 : Cell → Cell}
    (hg : ∀ c, CIn sh t w m1 c → CIn sh t w m1 (g1 c) ∧ g2 (ren w.f c) = ren w.f (g1 c)) :
    Then sh t w m1 w (m1.modify r g1) (m2.modify (w.f r) g2) := by
  have hn : Next sh t w m1 w (m1.modify r g1) := by
    refine ⟨Nat.le_refl _, fun _ _ => rfl, fun _ _ => rfl, fun r' _ hs => ?_, fun _ _ _ => rfl, fun r h1 h2 => absurd h2 (Nat.not_lt.mpr h1),
      fun _ _ => rfl, fun _ _ => rfl, fun _ => rfl⟩
    exact upd_ne _ _ (fun e => by subst e; exact hs hr.2)
  refine ⟨?_, hn⟩
  constructor
  · intro r' hr'
    simp only [Mem.modify]
    by_cases e : r' = r
    · subst e
      rw [upd_same, upd_same, h.cells r' hr]
      cases hc : m1.cells r' with
      | none => rfl
      | some c => simp only [Option.map_some, (hg c (h.closed r' c hr hc)).2]
    · rw [upd_ne _ _ e, upd_ne _ _ (fun e' => e (h.inj r' r hr' hr e'))]
      exact h.cells r' hr'
  · exact h.owner
  · exact h.inj
  · exact h.low
  · intro r' c hr' e
    simp only [Mem.modify] at e
    by_cases e' : r' = r
    · subst e'
      rw [upd_same] at e
      cases hc : m1.cells r' with
      | none => rw [hc] at e; cases e
      | some c' =>
        rw [hc] at e
        cases e
        exact (hg c' (h.closed r' c' hr hc)).1
    · rw [upd_ne _ _ e'] at e
      exact h.closed r' c hr' e
  · exact h.ownerOf
  · exact h.ownerIn
  · exact h.vars
  · exact h.varsIn
  · exact h.pools
  · exact h.fresh
  · exact h.frames

theorem setVar_rel (h : Rel sh t w m1 m2) {x : Nat} (hx : sh.var x = t) {p1 p2 : Option Ref} (hp : PR t w m1 p1 p2) :
    Then sh t w m1 w (m1.setVar x p1) (m2.setVar x p2) := by
  refine ⟨?_, ⟨Nat.le_refl _, fun _ _ => rfl, fun _ _ => rfl, fun _ _ _ => rfl, fun _ _ _ => rfl, fun r h1 h2 => absurd h2 (Nat.not_lt.mpr h1),
    fun y hy => upd_ne _ _ (fun e => by subst e; exact hy hx), fun _ _ => rfl, fun _ => rfl⟩⟩
  have hv : ∀ y, sh.var y = t → PR t w m1 (upd m1.vars x p1 y) (upd m2.vars x p2 y) := by
    intro y hy
    by_cases e : y = x
    · subst e; rw [upd_same, upd_same]; exact hp
    · rw [upd_ne _ _ e, upd_ne _ _ e]; exact rel_vars h hy
  exact ⟨h.cells, h.owner, h.inj, h.low, h.closed, h.ownerOf, h.ownerIn, fun y hy => (hv y hy).2, fun y hy => (hv y hy).1, h.pools, h.fresh,
    h.frames⟩

theorem setNode_ok {p1 p2 : Option Ref} (hp : PR t w m1 p1 p2) (c : Cell) (hc : CIn sh t w m1 c) :
    CIn sh t w m1 (Cell.setNode p1 c) ∧ Cell.setNode p2 (ren w.f c) = ren w.f (Cell.setNode p1 c) := by
  cases c with
  | data => exact ⟨trivial, rfl⟩
  | cont => exact ⟨hc, rfl⟩
  | item k v n => exact ⟨⟨hp.1, hc.2⟩, by simp only [ren, Cell.setNode]; rw [hp.2]⟩

theorem setNext_ok {p1 p2 : Option Ref} (hp : PR t w m1 p1 p2) (c : Cell) (hc : CIn sh t w m1 c) :
    CIn sh t w m1 (Cell.setNext p1 c) ∧ Cell.setNext p2 (ren w.f c) = ren w.f (Cell.setNext p1 c) := by
  cases c with
  | data => exact ⟨trivial, rfl⟩
  | cont => exact ⟨hc, rfl⟩
  | item k v n => exact ⟨⟨hc.1, hp.1⟩, by simp only [ren, Cell.setNext]; rw [hp.2]⟩

theorem setHead_ok {p1 p2 : Option Ref} (hp : PR t w m1 p1 p2) (c : Cell) (hc : CIn sh t w m1 c) :
    CIn sh t w m1 (Cell.setHead p1 c) ∧ Cell.setHead p2 (ren w.f c) = ren w.f (Cell.setHead p1 c) := by
  cases c with
  | data => exact ⟨trivial, rfl⟩
  | cont => exact ⟨⟨hc.1, hp.1⟩, by simp only [ren, Cell.setHead]; rw [hp.2]⟩
  | item k v n => exact ⟨hc, rfl⟩

theorem setKey_ok (k : Str) (c : Cell) (hc : CIn sh t w m1 c) :
    CIn sh t w m1 (Cell.setKey k c) ∧ Cell.setKey k (ren w.f c) = ren w.f (Cell.setKey k c) := by
  cases c with
  | data => exact ⟨trivial, rfl⟩
  | cont => exact ⟨hc, rfl⟩
  | item => exact ⟨hc, rfl⟩

theorem setSize_ok (n : Nat) (c : Cell) (hc : CIn sh t w m1 c) :
    CIn sh t w m1 (Cell.setSize n c) ∧ Cell.setSize n (ren w.f c) = ren w.f (Cell.setSize n c) := by
  cases c with
  | data => exact ⟨trivial, rfl⟩
  | cont => exact ⟨hc, rfl⟩
  | item => exact ⟨hc, rfl⟩

theorem data_ok (ref : Bool) (dt : UInt8) (p : Payload) (c : Cell) (_ : CIn sh t w m1 c) :
    CIn sh t w m1 ((fun _ => Cell.data ref dt p) c) ∧ (fun _ => Cell.data ref dt p) (ren w.f c) = ren w.f ((fun _ => Cell.data ref dt p) c) := ⟨trivial, rfl⟩

theorem blank_in : CIn sh t w m1 (.item noKey none none) := ⟨(fun _ e => by cases e), (fun _ e => by cases e)⟩
end

/-- What the functions that give back a memory do. -/
abbrev After (sh : Share) (t : Nat) (w : World) (m : Mem) (a b : Mem) : Prop := ∃ w', Then sh t w m w' a b

section
variable {sh : Share} {t : Nat} {w : World} {m1 m2 : Mem}

theorem arrayInsert_rel (h : Rel sh t w m1 m2) {p1 p2 : Option Ref} (hp : PR t w m1 p1 p2) {x : Nat} (hx : sh.var x = t) :
    Both (After sh t w m1) (m1.arrayInsert p1 x) (m2.arrayInsert p2 x) := by
  refine (loadCont_rel h hp true).bind fun a b hab => ?_
  obtain ⟨r, k, p, hd, s⟩ := a
  obtain ⟨r', k', p', hd', s'⟩ := b
  obtain ⟨hm, e1, e2, e3, hpi, hh, e4⟩ := hab
  dsimp only at hm e1 e2 e3 hpi hh e4 ⊢
  subst e1; subst e2; subst e3; subst e4
  refine (alloc_rel h hpi blank_in).bind fun a b hab => ?_
  obtain ⟨n1, i⟩ := a
  obtain ⟨n2, i'⟩ := b
  obtain ⟨w1, h1, hi, e⟩ := hab
  dsimp only at h1 hi e ⊢
  subst e
  rw [← h1.next.f r hm]
  replace hm := h1.next.mine hm
  replace hh := h1.next.pr hh
  have h2 := modify_rel h1.rel hi (fun c hc => setNode_ok (rel_vars h1.rel hx) c hc)
  have h3 := h2.trans (setVar_rel h2.rel hx PR.none)
  rw [hh.isSome]
  refine .ok ⟨w1, h1.trans ?_⟩
  split
  · have h4 := h3.trans (modify_rel h3.rel (h3.next.mine hi) (fun c hc => setNext_ok (h3.next.pr hh) c hc))
    have h5 := h4.trans (modify_rel h4.rel (h4.next.mine hm) (fun c hc => setHead_ok (PR.some (h4.next.mine hi)) c hc))
    exact h5.trans (modify_rel h5.rel (h5.next.mine hm) (fun c hc => setSize_ok _ c hc))
  · have h5 := h3.trans (modify_rel h3.rel (h3.next.mine hm) (fun c hc => setHead_ok (PR.some (h3.next.mine hi)) c hc))
    exact h5.trans (modify_rel h5.rel (h5.next.mine hm) (fun c hc => setSize_ok _ c hc))

theorem mapPut_rel (h : Rel sh t w m1 m2) {p1 p2 : Option Ref} (hp : PR t w m1 p1 p2) (key : Str) {v1 v2 : Option Ref} (hv : PR t w m1 v1 v2) :
    Both (After sh t w m1) (m1.mapPut p1 key v1) (m2.mapPut p2 key v2) := by
  refine (loadCont_rel h hp false).bind fun a b hab => ?_
  obtain ⟨r, k, p, hd, s⟩ := a
  obtain ⟨r', k', p', hd', s'⟩ := b
  obtain ⟨hm, e1, e2, e3, hpi, hh, e4⟩ := hab
  dsimp only at hm e1 e2 e3 hpi hh e4 ⊢
  subst e1; subst e2; subst e3; subst e4
  refine (alloc_rel h hpi blank_in).bind fun a b hab => ?_
  obtain ⟨n1, i⟩ := a
  obtain ⟨n2, i'⟩ := b
  obtain ⟨w1, h1, hi, e⟩ := hab
  dsimp only at h1 hi e ⊢
  subst e
  rw [← h1.next.f r hm]
  replace hm := h1.next.mine hm
  replace hh := h1.next.pr hh
  replace hv := h1.next.pr hv
  have h2 := modify_rel h1.rel hi (fun c hc => setKey_ok (storeKey (k' = .map true) key) c hc)
  have h3 := h2.trans (modify_rel h2.rel (h2.next.mine hi) (fun c hc => setNode_ok (h2.next.pr hv) c hc))
  rw [hh.isNone]
  refine .ok ⟨w1, h1.trans ?_⟩
  split
  · have h5 := h3.trans (modify_rel h3.rel (h3.next.mine hm) (fun c hc => setHead_ok (PR.some (h3.next.mine hi)) c hc))
    exact h5.trans (modify_rel h5.rel (h5.next.mine hm) (fun c hc => setSize_ok _ c hc))
  · have h4 := h3.trans (modify_rel h3.rel (h3.next.mine hi) (fun c hc => setNext_ok (h3.next.pr hh) c hc))
    have h5 := h4.trans (modify_rel h4.rel (h4.next.mine hm) (fun c hc => setHead_ok (PR.some (h4.next.mine hi)) c hc))
    exact h5.trans (modify_rel h5.rel (h5.next.mine hm) (fun c hc => setSize_ok _ c hc))

theorem mapInsert_rel (h : Rel sh t w m1 m2) {p1 p2 : Option Ref} (hp : PR t w m1 p1 p2) (key : Str) {x : Nat} (hx : sh.var x = t) :
    Both (After sh t w m1) (m1.mapInsert p1 key x) (m2.mapInsert p2 key x) := by
  refine (mapPut_rel h hp key (rel_vars h hx)).bind fun a b hab => ?_
  obtain ⟨w1, h1⟩ := hab
  exact .ok ⟨w1, h1.trans (setVar_rel h1.rel hx PR.none)⟩

theorem clearCont_rel (h : Rel sh t w m1 m2) {p1 p2 : Option Ref} (hp : PR t w m1 p1 p2) (a : Bool) :
    Both (fun a b => Then sh t w m1 w a b) (m1.clearCont a p1) (m2.clearCont a p2) := by
  refine (loadCont_rel h hp a).bind fun a b hab => ?_
  obtain ⟨r, k, p, hd, s⟩ := a
  obtain ⟨r', k', p', hd', s'⟩ := b
  obtain ⟨hm, e1, e2, e3, hpi, hh, e4⟩ := hab
  dsimp only at hm e1 ⊢
  subst e1
  have h1 := modify_rel h hm (fun c hc => setHead_ok PR.none c hc)
  exact .ok (h1.trans (modify_rel h1.rel (h1.next.mine hm) (fun c hc => setSize_ok _ c hc)))

theorem take_rel (h : Rel sh t w m1 m2) {p1 p2 : Option Ref} (hp : PR t w m1 p1 p2) (fuel : Nat) {d : Nat} (hd : sh.var d = t) (key : Bytes) :
    Both (After sh t w m1) (m1.take fuel d p1 key) (m2.take fuel d p2 key) := by
  refine (loadCont_rel h hp false).bind fun a b hab => ?_
  refine (find_rel h key fuel hab.head).bind fun q q' hq => ?_
  rw [hq.isNone]
  split
  · exact .ok ⟨w, setVar_rel h hd PR.none⟩
  · refine (loadItem_rel h hq).bind fun a b hab => ?_
    obtain ⟨r, k, v, n⟩ := a
    obtain ⟨r', k', v', n'⟩ := b
    obtain ⟨hm, e1, _, hv, _⟩ := hab
    dsimp only at hm e1 hv ⊢
    subst e1
    have h1 := modify_rel h hm (fun c hc => setNode_ok PR.none c hc)
    exact .ok ⟨w, h1.trans (setVar_rel h1.rel hd (h1.next.pr hv))⟩

theorem rootInsert_rel (h : Rel sh t w m1 m2) {p x : Nat} (hp : sh.pool p = t) (hx : sh.var x = t) :
    Both (fun a b => ∃ w', Then sh t w m1 w' a.1 b.1 ∧ Mine t w' a.1 a.2 ∧ b.2 = w'.f a.2) (m1.rootInsert p x) (m2.rootInsert p x) := by
  refine (alloc_rel h hp blank_in).bind fun a b hab => ?_
  obtain ⟨n1, i⟩ := a
  obtain ⟨n2, i'⟩ := b
  obtain ⟨w1, h1, hi, e⟩ := hab
  dsimp only at h1 hi e ⊢
  subst e
  have h2 := modify_rel h1.rel hi (fun c hc => setKey_ok ⟨rootKey, none⟩ c hc)
  have h3 := h2.trans (modify_rel h2.rel (h2.next.mine hi) (fun c hc => setNode_ok (rel_vars h2.rel hx) c hc))
  have h4 := h3.trans (setVar_rel h3.rel hx PR.none)
  exact .ok ⟨w1, h1.trans h4, h4.next.mine hi, rfl⟩

theorem factory_rel (h : Rel sh t w m1 m2) {p : Nat} (hp : sh.pool p = t) (ty : ObjectType) (ref : Bool) :
    Both (fun a b => ∃ w', Then sh t w m1 w' a.1 b.1 ∧ PR t w' a.1 a.2 b.2) (m1.factory p ty ref) (m2.factory p ty ref) := by
  have key : ∀ c, CIn sh t w m1 c → ren w.f c = c →
      Both (fun a b => ∃ w', Then sh t w m1 w' a.1 b.1 ∧ PR t w' a.1 a.2 b.2) (do let (m, r) ← m1.alloc p c; pure (m, some r))
        (do let (m, r) ← m2.alloc p c; pure (m, some r)) := by
    intro c hc he
    have := alloc_rel h hp hc
    rw [he] at this
    refine this.bind fun a b hab => ?_
    obtain ⟨n1, i⟩ := a
    obtain ⟨n2, i'⟩ := b
    obtain ⟨w1, h1, hi, e⟩ := hab
    dsimp only at h1 hi e ⊢
    subst e
    exact .ok ⟨w1, h1, PR.some hi⟩
  cases ty with
  | invalid => exact .ok ⟨w, Then.refl h, PR.none⟩
  | data => exact key _ trivial rfl
  | map => exact key _ ⟨hp, (fun _ e => by cases e)⟩ rfl
  | array => exact key _ ⟨hp, (fun _ e => by cases e)⟩ rfl
end

/-! ### the parser -/

theorem valueParse_rel (cfg : Cfg) (v : View) (sm : Option StringMap) (ref : Bool) (sh : Share) (t : Nat) : ∀ (f : Nat),
    (∀ (w : World) (m1 m2 : Mem) (p1 p2 : Option Ref) (c : Cur), Rel sh t w m1 m2 → PR t w m1 p1 p2 →
      Both (fun a b => ∃ w', Then sh t w m1 w' a.1 b.1 ∧ a.2 = b.2) (Mem.valueParse cfg v sm ref f m1 p1 c) (Mem.valueParse cfg v sm ref f m2 p2 c)) ∧
    (∀ (w : World) (m1 m2 : Mem) (p : Nat) (h1 h2 t1 t2 : Option Ref) (n : Nat) (c : Cur), Rel sh t w m1 m2 → sh.pool p = t → PR t w m1 h1 h2 →
      PR t w m1 t1 t2 → Both (fun a b => ∃ w', Then sh t w m1 w' a.1 b.1 ∧ PR t w' a.1 a.2.1 b.2.1 ∧ a.2.2 = b.2.2)
        (Mem.parseArrayLoop cfg v sm ref p f m1 h1 t1 n c) (Mem.parseArrayLoop cfg v sm ref p f m2 h2 t2 n c)) ∧
    (∀ (w : World) (m1 m2 : Mem) (p : Nat) (p1 p2 : Option Ref) (n : Nat) (c : Cur), Rel sh t w m1 m2 → sh.pool p = t → PR t w m1 p1 p2 →
      Both (fun a b => ∃ w', Then sh t w m1 w' a.1 b.1 ∧ a.2 = b.2) (Mem.parseMapLoop cfg v sm ref p f m1 p1 n c)
        (Mem.parseMapLoop cfg v sm ref p f m2 p2 n c)) := by
  intro f
  induction f with
  | zero =>
    refine ⟨?_, ?_, ?_⟩
    · intro w m1 m2 p1 p2 c _ _
      rw [Mem.valueParse, Mem.valueParse]; exact .error _
    · intro w m1 m2 p h1 h2 t1 t2 n c _ _ _ _
      rw [Mem.parseArrayLoop, Mem.parseArrayLoop]; exact .error _
    · intro w m1 m2 p p1 p2 n c _ _ _
      rw [Mem.parseMapLoop, Mem.parseMapLoop]; exact .error _
  | succ f ih =>
    refine ⟨?_, ?_, ?_⟩
    · intro w m1 m2 p1 p2 c h hp
      rw [Mem.valueParse, Mem.valueParse]
      refine (load_rel h hp).bind fun a b hab => ?_
      obtain ⟨r, cell⟩ := a
      obtain ⟨r', cell'⟩ := b
      obtain ⟨hm, e1, e2, hi⟩ := hab
      dsimp only at hm e1 e2 hi ⊢
      subst e1; subst e2
      cases cell with
      | item => exact .error _
      | data view dt p =>
        have key : ∀ o : Obj × Cur, Both (fun a b => ∃ w', Then sh t w m1 w' a.1 b.1 ∧ a.2 = b.2)
            ((match o.1 with
              | .data _ dt p => pure (m1.modify r fun _ => .data view dt p, o.2)
              | _ => .error (.ub .badCast) : Res (Mem × Cur)))
            ((match o.1 with
              | .data _ dt p => pure (m2.modify (w.f r) fun _ => .data view dt p, o.2)
              | _ => .error (.ub .badCast) : Res (Mem × Cur))) := by
          intro o
          obtain ⟨o, c⟩ := o
          cases o with
          | data r' dt p => exact .ok ⟨w, modify_rel h hm (fun c hc => data_ok view dt p c hc), rfl⟩
          | null => exact .error _
          | array => exact .error _
          | map => exact .error _
        simp only [ren]
        split
        · exact Both.same _ fun o _ => key o
        · exact Both.same _ fun o _ => key o
      | cont k p hd s =>
        cases k with
        | array =>
          simp only [ren]
          refine (clearCont_rel h hp true).bind fun n1 n2 h1 => ?_
          refine Both.same _ fun q _ => Both.same _ fun q' _ => ?_
          refine (ih.2.1 w n1 n2 p none none none none q.1 q'.2 h1.rel hi.1 PR.none PR.none).bind fun a b hab => ?_
          obtain ⟨o1, g1, c1⟩ := a
          obtain ⟨o2, g2, c2⟩ := b
          obtain ⟨w2, h2, hg, e⟩ := hab
          dsimp only at h2 hg e ⊢
          subst e
          have h12 := h1.trans h2
          rw [← h12.next.f r hm]
          replace hm := h12.next.mine hm
          have h3 := modify_rel h12.rel hm (fun c hc => setSize_ok q.1 c hc)
          have h4 := h3.trans (modify_rel h3.rel (h3.next.mine hm) (fun c hc => setHead_ok (h3.next.pr hg) c hc))
          exact .ok ⟨w2, h12.trans h4, rfl⟩
        | map ref' =>
          simp only [ren]
          refine (clearCont_rel h hp false).bind fun n1 n2 h1 => ?_
          refine Both.same _ fun q _ => Both.same _ fun q' _ => ?_
          refine (ih.2.2 w n1 n2 p p1 p2 q.1 q'.2 h1.rel hi.1 (h1.next.pr hp)).bind fun a b hab => ?_
          obtain ⟨o1, c1⟩ := a
          obtain ⟨o2, c2⟩ := b
          obtain ⟨w2, h2, e⟩ := hab
          dsimp only at h2 e ⊢
          subst e
          have h12 := h1.trans h2
          rw [← h12.next.f r hm]
          replace hm := h12.next.mine hm
          exact .ok ⟨w2, h12.trans (modify_rel h12.rel hm (fun c hc => setSize_ok q.1 c hc)), rfl⟩
    · intro w m1 m2 p h1 h2 t1 t2 n c h hp hh ht
      cases n with
      | zero => rw [Mem.parseArrayLoop, Mem.parseArrayLoop]; exact .ok ⟨w, Then.refl h, hh, rfl⟩
      | succ n =>
        rw [Mem.parseArrayLoop, Mem.parseArrayLoop]
        refine Both.same _ fun q _ => ?_
        obtain ⟨ty, c⟩ := q
        dsimp only
        refine (factory_rel h hp ty ref).bind fun a b hab => ?_
        obtain ⟨n1, ch1⟩ := a
        obtain ⟨n2, ch2⟩ := b
        obtain ⟨w1, g1, hc⟩ := hab
        dsimp only at g1 hc ⊢
        refine (ih.1 w1 n1 n2 ch1 ch2 c g1.rel hc).bind fun a b hab => ?_
        obtain ⟨o1, c1⟩ := a
        obtain ⟨o2, c2⟩ := b
        obtain ⟨w2, g2, e⟩ := hab
        dsimp only at g2 e ⊢
        subst e
        have g12 := g1.trans g2
        replace hc := g2.next.pr hc
        refine (alloc_rel g12.rel hp blank_in).bind fun a b hab => ?_
        obtain ⟨s1, i⟩ := a
        obtain ⟨s2, i'⟩ := b
        obtain ⟨w3, g3, him, e⟩ := hab
        dsimp only at g3 him e ⊢
        subst e
        have g4 := modify_rel g3.rel him (fun c hc' => setNode_ok (g3.next.pr hc) c hc')
        have g14 := g12.trans (g3.trans g4)
        rw [hh.isNone]
        replace him := g4.next.mine him
        split
        · refine (ih.2.1 w3 _ _ p _ _ _ _ n c1 g4.rel hp (PR.some him) (PR.some him)).imp fun a b hab => ?_
          obtain ⟨w5, g5, hx⟩ := hab
          exact ⟨w5, g14.trans g5, hx⟩
        · refine (loadItem_rel g4.rel (g14.next.pr ht)).bind fun a b hab => ?_
          obtain ⟨r, k, v', n'⟩ := a
          obtain ⟨r', k', v'', n''⟩ := b
          obtain ⟨hm, e1, _, _, _⟩ := hab
          dsimp only at hm e1 ⊢
          subst e1
          have g5 := modify_rel g4.rel hm (fun c hc' => setNext_ok (PR.some him) c hc')
          have g15 := g14.trans g5
          refine (ih.2.1 w3 _ _ p _ _ _ _ n c1 g5.rel hp (g15.next.pr hh) (PR.some (g5.next.mine him))).imp fun a b hab => ?_
          obtain ⟨w6, g6, hx⟩ := hab
          exact ⟨w6, g15.trans g6, hx⟩
    · intro w m1 m2 p p1 p2 n c h hp hself
      cases n with
      | zero => rw [Mem.parseMapLoop, Mem.parseMapLoop]; exact .ok ⟨w, Then.refl h, rfl⟩
      | succ n =>
        rw [Mem.parseMapLoop, Mem.parseMapLoop]
        refine Both.same _ fun q _ => ?_
        obtain ⟨k, c⟩ := q
        dsimp only
        refine Both.same _ fun q _ => ?_
        obtain ⟨ty, c⟩ := q
        dsimp only
        refine (factory_rel h hp ty ref).bind fun a b hab => ?_
        obtain ⟨n1, ch1⟩ := a
        obtain ⟨n2, ch2⟩ := b
        obtain ⟨w1, g1, hc⟩ := hab
        dsimp only at g1 hc ⊢
        refine (ih.1 w1 n1 n2 ch1 ch2 c g1.rel hc).bind fun a b hab => ?_
        obtain ⟨o1, c1⟩ := a
        obtain ⟨o2, c2⟩ := b
        obtain ⟨w2, g2, e⟩ := hab
        dsimp only at g2 e ⊢
        subst e
        have g12 := g1.trans g2
        refine Both.same _ fun k _ => ?_
        refine (mapPut_rel g12.rel (g12.next.pr hself) k (g2.next.pr hc)).bind fun a b hab => ?_
        obtain ⟨w3, g3⟩ := hab
        have g13 := g12.trans g3
        refine (ih.2.2 w3 a b p p1 p2 n c1 g3.rel hp (g13.next.pr hself)).imp fun a b hab => ?_
        obtain ⟨w4, g4, hx⟩ := hab
        exact ⟨w4, g13.trans g4, hx⟩

section
variable {sh : Share} {t : Nat} {w : World} {m1 m2 : Mem}

theorem parse_rel (cfg : Cfg) (h : Rel sh t w m1 m2) (fuel : Nat) {d p : Nat} (hd : sh.var d = t) (hp : sh.pool p = t) (ref : Bool) (content : Bytes) :
    Both (After sh t w m1) (m1.parse cfg fuel d p ref content) (m2.parse cfg fuel d p ref content) := by
  refine Both.same _ fun s _ => ?_
  have hroot := alloc_rel h hp (c := .cont (.map ref) p none 0) ⟨hp, (fun _ e => by cases e)⟩
  simp only [ren, Option.map_none] at hroot
  refine hroot.bind fun a b hab => ?_
  obtain ⟨n1, i⟩ := a
  obtain ⟨n2, i'⟩ := b
  obtain ⟨w1, h1, hi, e⟩ := hab
  dsimp only at h1 hi e ⊢
  subst e
  refine ((valueParse_rel cfg _ s.sm ref sh t fuel).1 w1 n1 n2 _ _ _ h1.rel (PR.some hi)).bind fun a b hab => ?_
  obtain ⟨o1, c1⟩ := a
  obtain ⟨o2, c2⟩ := b
  obtain ⟨w2, h2, e⟩ := hab
  dsimp only at h2 e ⊢
  subst e
  split
  · exact .error _
  · refine (take_rel h2.rel (h2.next.pr (PR.some hi)) fuel hd rootKey).imp fun a b hab => ?_
    obtain ⟨w3, h3⟩ := hab
    exact ⟨w3, (h1.trans h2).trans h3⟩

/-- Changing who owns the memory, and which pools live. -/
theorem owner_rel (h : Rel sh t w m1 m2) (o : Option Nat → Option Nat) (pl : Nat → Option Bool) (np1 np2 : Nat)
    (hn : o none = none) (ho : ∀ p q, o (some p) = some q → (sh.pool p = t ↔ sh.pool q = t))
    (hs : ∀ p, sh.pool p ≠ t → o (some p) = some p) (hpl : ∀ p, sh.pool p ≠ t → pl p = none) :
    Then sh t w m1 w { m1 with owner := fun r => o (m1.owner r), pools := fun p => (pl p).getD (m1.pools p), nextPool := np1 }
      { m2 with owner := fun r => o (m2.owner r), pools := fun p => (pl p).getD (m2.pools p), nextPool := np2 } := by
  refine ⟨?_, ⟨Nat.le_refl _, fun _ _ => rfl, fun _ _ => rfl, fun _ _ _ => rfl, fun r hr hne => ?_, fun r h1 h2 => absurd h2 (Nat.not_lt.mpr h1),
    fun _ _ => rfl, fun p hp => by simp only [hpl p hp]; rfl, fun _ => rfl⟩⟩
  · refine ⟨h.cells, fun r hr => by simp only; rw [h.owner r hr], h.inj, h.low, h.closed, fun r p hr e => ?_, fun r p e hp => ?_, h.vars, h.varsIn,
      fun p hp => by simp only; rw [h.pools p hp], fun r hr => by simp only; rw [h.fresh r hr, hn], h.frames⟩
    · simp only at e
      cases hq : m1.owner r with
      | none => rw [hq, hn] at e; cases e
      | some q => rw [hq] at e; exact (ho q p e).mp (h.ownerOf r q hr hq)
    · simp only at e
      cases hq : m1.owner r with
      | none => rw [hq, hn] at e; cases e
      | some q => rw [hq] at e; exact h.ownerIn r q hq ((ho q p e).mpr hp)
  · simp only
    cases hq : m1.owner r with
    | none => exact hn
    | some q =>
      refine hs q fun e => hne ?_
      exact (h.ownerIn r q hq e).2

theorem setPool_eq (f : Nat → Bool) (p : Nat) (b : Bool) : (fun q => (if q = p then some b else none : Option Bool).getD (f q)) = upd f p b := by
  funext q
  simp only [upd]
  split <;> rfl

theorem make_rel (h : Rel sh t w m1 m2) {d p : Nat} (hd : sh.var d = t) (hp : sh.pool p = t) {c : Cell} (hc : CIn sh t w m1 c) (he : ren w.f c = c) :
    Both (After sh t w m1) (m1.make d p c) (m2.make d p c) := by
  have := alloc_rel h hp hc
  rw [he] at this
  refine this.bind fun a b hab => ?_
  obtain ⟨n1, i⟩ := a
  obtain ⟨n2, i'⟩ := b
  obtain ⟨w1, h1, hi, e⟩ := hab
  dsimp only at h1 hi e ⊢
  subst e
  exact .ok ⟨w1, h1.trans (setVar_rel h1.rel hd (PR.some hi))⟩

theorem assign_rel (cfg : Cfg) (h : Rel sh t w m1 m2) {p1 p2 : Option Ref} (hp : PR t w m1 p1 p2) (v : Scalar) :
    Both (After sh t w m1) (m1.assign cfg p1 v) (m2.assign cfg p2 v) := by
  refine (load_rel h hp).bind fun a b hab => ?_
  obtain ⟨r, cell⟩ := a
  obtain ⟨r', cell'⟩ := b
  obtain ⟨hm, e1, e2, hi⟩ := hab
  dsimp only at hm e1 e2 hi ⊢
  subst e1; subst e2
  cases cell with
  | item => exact .error _
  | cont => exact .error _
  | data view dt p =>
    simp only [ren]
    refine Both.same _ fun o _ => ?_
    cases o with
    | data r' dt p => exact .ok ⟨w, modify_rel h hm (fun c hc => data_ok view dt p c hc)⟩
    | null => exact .error _
    | array => exact .error _
    | map => exact .error _

/-- Every call of the thread gives the same as when the thread runs alone. -/
theorem exec_rel (cfg : Cfg) (fuel : Nat) (h : Rel sh t w m1 m2) (c : Call) (hp : ∀ p ∈ c.poolArgs, sh.pool p = t) (hv : ∀ x ∈ c.varArgs, sh.var x = t)
    {p1 p2 : Option Ref} (hq : PR t w m1 p1 p2) : Both (After sh t w m1) (m1.exec cfg fuel (c.at p1)) (m2.exec cfg fuel (c.at p2)) := by
  cases c with
  | newPool p =>
    have hp' := hp p (by simp [Call.poolArgs])
    simp only [Call.at, Mem.exec]
    rw [h.pools p hp', h.frames p hp']
    split
    · exact .error _
    · have := owner_rel h id (fun q => if q = p then some true else none) (max m1.nextPool (p + 1)) (max m2.nextPool (p + 1)) rfl
        (fun a b e => by cases e; exact Iff.rfl) (fun _ _ => rfl) (fun q hq => if_neg (fun e => hq (by rw [e]; exact hp')))
      simp only [setPool_eq, id] at this
      exact .ok ⟨w, this⟩
  | clearPool p =>
    have hp' := hp p (by simp [Call.poolArgs])
    simp only [Call.at, Mem.exec]
    rw [h.pools p hp']
    split
    · exact .ok ⟨w, owner_rel h (fun q => if q = some p then none else q) (fun _ => none) m1.nextPool m2.nextPool rfl
        (fun a b e => by split at e; · cases e
                         · cases e; exact Iff.rfl)
        (fun q hq => if_neg (fun e => by cases e; exact hq hp')) (fun _ _ => rfl)⟩
    · exact .error _
  | destroyPool p =>
    have hp' := hp p (by simp [Call.poolArgs])
    simp only [Call.at, Mem.exec]
    rw [h.pools p hp']
    split
    · have := owner_rel h (fun q => if q = some p then none else q) (fun q => if q = p then some false else none) m1.nextPool m2.nextPool rfl
        (fun a b e => by split at e; · cases e
                         · cases e; exact Iff.rfl)
        (fun q hq => if_neg (fun e => by cases e; exact hq hp')) (fun q hq => if_neg (fun e => hq (by rw [e]; exact hp')))
      simp only [setPool_eq] at this
      exact .ok ⟨w, this⟩
    · exact .error _
  | mergePool p q =>
    have hp' := hp p (by simp [Call.poolArgs])
    have hq' := hp q (by simp [Call.poolArgs])
    simp only [Call.at, Mem.exec]
    rw [h.pools p hp', h.pools q hq']
    split
    · exact .ok ⟨w, owner_rel h (fun a => if a = some q then some p else a) (fun _ => none) m1.nextPool m2.nextPool rfl
        (fun a b e => by
          split at e
          · rename_i e1; cases e1; cases e; exact ⟨fun _ => hp', fun _ => hq'⟩
          · cases e; exact Iff.rfl)
        (fun a ha => if_neg (fun e => by cases e; exact ha hq')) (fun _ _ => rfl)⟩
    · exact .error _
  | movePool p q =>
    have hp' := hp p (by simp [Call.poolArgs])
    have hq' := hp q (by simp [Call.poolArgs])
    simp only [Call.at, Mem.exec]
    rw [h.pools p hp', h.pools q hq', h.frames p hp']
    split
    · have := owner_rel h (fun a => if a = some q then some p else a) (fun a => if a = p then some true else none) (max m1.nextPool (p + 1))
        (max m2.nextPool (p + 1)) rfl
        (fun a b e => by
          split at e
          · rename_i e1; cases e1; cases e; exact ⟨fun _ => hp', fun _ => hq'⟩
          · cases e; exact Iff.rfl)
        (fun a ha => if_neg (fun e => by cases e; exact ha hq')) (fun a ha => if_neg (fun e => ha (by rw [e]; exact hp')))
      simp only [setPool_eq] at this
      exact .ok ⟨w, this⟩
    · exact .error _
  | assignPool p q =>
    have hp' := hp p (by simp [Call.poolArgs])
    have hq' := hp q (by simp [Call.poolArgs])
    simp only [Call.at, Mem.exec]
    rw [h.pools p hp', h.pools q hq']
    split
    · exact .ok ⟨w, owner_rel h (fun a => if a = some p then none else if a = some q then some p else a) (fun _ => none) m1.nextPool m2.nextPool rfl
        (fun a b e => by
          split at e
          · cases e
          · split at e
            · rename_i e1; cases e1; cases e; exact ⟨fun _ => hp', fun _ => hq'⟩
            · cases e; exact Iff.rfl)
        (fun a ha => by
          rw [if_neg (fun e => by cases e; exact ha hp'), if_neg (fun e => by cases e; exact ha hq')])
        (fun _ _ => rfl)⟩
    · exact .error _
  | leaf d p view v =>
    simp only [Call.at, Mem.exec]
    refine Both.same _ fun o _ => ?_
    cases o with
    | data ref dt q => exact make_rel h (hv d (by simp [Call.varArgs])) (hp p (by simp [Call.poolArgs])) trivial rfl
    | null => exact .error _
    | array => exact .error _
    | map => exact .error _
  | emptyLeaf d p view => exact make_rel h (hv d (by simp [Call.varArgs])) (hp p (by simp [Call.poolArgs])) trivial rfl
  | cont d p k =>
    have hp' := hp p (by simp [Call.poolArgs])
    exact make_rel h (hv d (by simp [Call.varArgs])) hp' ⟨hp', (fun _ e => by cases e)⟩ rfl
  | move d x =>
    have hd := hv d (by simp [Call.varArgs])
    have hx := hv x (by simp [Call.varArgs])
    simp only [Call.at, Mem.exec]
    have h1 := setVar_rel h hx PR.none
    exact .ok ⟨w, h1.trans (setVar_rel h1.rel hd (h1.next.pr (rel_vars h hx)))⟩
  | assign c v => exact assign_rel cfg h hq v
  | insert c x => exact arrayInsert_rel h hq (hv x (by simp [Call.varArgs]))
  | insertKey c k x => exact mapInsert_rel h hq k (hv x (by simp [Call.varArgs]))
  | clear a c => exact (clearCont_rel h hq a).imp fun _ _ h => ⟨w, h⟩
  | take d c k => exact take_rel h hq fuel (hv d (by simp [Call.varArgs])) k
  | serialize ty p x =>
    simp only [Call.at, Mem.exec]
    refine (rootInsert_rel h (hp p (by simp [Call.poolArgs])) (hv x (by simp [Call.varArgs]))).bind fun a b hab => ?_
    obtain ⟨n1, i⟩ := a
    obtain ⟨n2, i'⟩ := b
    obtain ⟨w1, h1, hi, e⟩ := hab
    dsimp only at h1 hi e ⊢
    subst e
    rw [serializeRoot_rel cfg h1.rel fuel ty hi]
    generalize n2.serializeRoot cfg fuel ty (w1.f i) = r
    cases r with
    | ok b => exact .ok ⟨w1, h1⟩
    | error e => cases e with
      | exn e => exact .ok ⟨w1, h1⟩
      | abort => exact .error _
      | ub u => exact .error _
      | fuel => exact .error _
  | parse d p ref content =>
    simp only [Call.at, Mem.exec]
    have := parse_rel cfg h fuel (hv d (by simp [Call.varArgs])) (hp p (by simp [Call.poolArgs])) ref content
    revert this
    generalize m1.parse cfg fuel d p ref content = r1
    generalize m2.parse cfg fuel d p ref content = r2
    intro this
    cases this with
    | ok h => exact .ok h
    | error e => cases e with
      | exn e => exact .ok ⟨w, Then.refl h⟩
      | abort => exact .error _
      | ub u => exact .error _
      | fuel => exact .error _

/-! ### instructions -/

/-- The pointer variables of a thread and what it knows. -/
structure LocalR (t : Nat) (w : World) (m : Mem) (l1 l2 : ThreadLocal) : Prop where
  ptrs : ∀ q, PR t w m (l1.ptrs q) (l2.ptrs q)
  out : l2.out = l1.out

theorem Next.local_ {sh : Share} {t : Nat} {w w' : World} {m m' : Mem} (h : Next sh t w m w' m') {l1 l2 : ThreadLocal} (hl : LocalR t w m l1 l2) :
    LocalR t w' m' l1 l2 := ⟨fun q => h.pr (hl.ptrs q), hl.out⟩

theorem LocalR.setPtr {m : Mem} {l1 l2 : ThreadLocal} (hl : LocalR t w m l1 l2) (q : Nat) {p1 p2 : Option Ref} (hp : PR t w m p1 p2) :
    LocalR t w m (l1.setPtr q p1) (l2.setPtr q p2) := by
  refine ⟨fun q' => ?_, hl.out⟩
  simp only [ThreadLocal.setPtr]
  by_cases e : q' = q
  · subst e; rw [upd_same, upd_same]; exact hp
  · rw [upd_ne _ _ e, upd_ne _ _ e]; exact hl.ptrs q'

theorem LocalR.say {m : Mem} {l1 l2 : ThreadLocal} (hl : LocalR t w m l1 l2) (s : Said) : LocalR t w m (l1.say s) (l2.say s) :=
  ⟨hl.ptrs, by simp only [ThreadLocal.say]; rw [hl.out]⟩

/-- Both the memory and what belongs to the thread. -/
abbrev Same (sh : Share) (t : Nat) (w : World) (m : Mem) (a b : Mem × ThreadLocal) : Prop :=
  ∃ w', Then sh t w m w' a.1 b.1 ∧ LocalR t w' a.1 a.2 b.2

theorem instr_rel (cfg : Cfg) (fuel : Nat) (h : Rel sh t w m1 m2) {l1 l2 : ThreadLocal} (hl : LocalR t w m1 l1 l2) (i : Instr)
    (hp : ∀ p ∈ i.poolArgs, sh.pool p = t) (hv : ∀ x ∈ i.varArgs, sh.var x = t) :
    Both (Same sh t w m1) (i.exec cfg fuel m1 l1) (i.exec cfg fuel m2 l2) := by
  cases i with
  | call c q =>
    refine (exec_rel cfg fuel h c hp hv (hl.ptrs q)).bind fun a b hab => ?_
    obtain ⟨w1, h1⟩ := hab
    exact .ok ⟨w1, h1, h1.next.local_ hl⟩
  | write ty p x =>
    refine (rootInsert_rel h (hp p (by simp [Instr.poolArgs])) (hv x (by simp [Instr.varArgs]))).bind fun a b hab => ?_
    obtain ⟨n1, i⟩ := a
    obtain ⟨n2, i'⟩ := b
    obtain ⟨w1, h1, hi, e⟩ := hab
    dsimp only at h1 hi e ⊢
    subst e
    rw [serializeRoot_rel cfg h1.rel fuel ty hi]
    generalize n2.serializeRoot cfg fuel ty (w1.f i) = r
    cases r with
    | ok b => exact .ok ⟨w1, h1, (h1.next.local_ hl).say _⟩
    | error e => cases e with
      | exn e => exact .ok ⟨w1, h1, (h1.next.local_ hl).say _⟩
      | abort => exact .error _
      | ub u => exact .error _
      | fuel => exact .error _
  | read d p ref content =>
    simp only [Instr.exec]
    have := parse_rel cfg h fuel (hv d (by simp [Instr.varArgs])) (hp p (by simp [Instr.poolArgs])) ref content
    revert this
    generalize m1.parse cfg fuel d p ref content = r1
    generalize m2.parse cfg fuel d p ref content = r2
    intro this
    cases this with
    | ok hab =>
      obtain ⟨w1, h1⟩ := hab
      exact .ok ⟨w1, h1, (h1.next.local_ hl).say _⟩
    | error e => cases e with
      | exn e => exact .ok ⟨w, Then.refl h, hl.say _⟩
      | abort => exact .error _
      | ub u => exact .error _
      | fuel => exact .error _
  | get q x => exact .ok ⟨w, Then.refl h, hl.setPtr q (rel_vars h (hv x (by simp [Instr.varArgs])))⟩
  | index q q' n => exact (index_rel h (hl.ptrs q') n).bind fun a b hab => .ok ⟨w, Then.refl h, hl.setPtr q hab⟩
  | key q q' k => exact (lookup_rel h (hl.ptrs q') fuel k).bind fun a b hab => .ok ⟨w, Then.refl h, hl.setPtr q hab⟩
  | first q q' a => exact (begin_rel h (hl.ptrs q') a).bind fun a b hab => .ok ⟨w, Then.refl h, hl.setPtr q hab⟩
  | next q q' => exact (next_rel h (hl.ptrs q')).bind fun a b hab => .ok ⟨w, Then.refl h, hl.setPtr q hab⟩
  | value q q' => exact (entry_rel h (hl.ptrs q')).bind fun a b hab => .ok ⟨w, Then.refl h, hl.setPtr q hab⟩
  | dump q =>
    simp only [Instr.exec]
    rw [(dump_rel h fuel).1 _ _ _ _ (hl.ptrs q)]
    exact Both.same _ fun b _ => .ok ⟨w, Then.refl h, hl.say _⟩
  | size q a =>
    refine (size_rel h (hl.ptrs q) a).bind fun a b hab => ?_
    subst hab
    exact .ok ⟨w, Then.refl h, hl.say _⟩
  | leaf q =>
    refine (load_rel h (hl.ptrs q)).bind fun a b hab => ?_
    obtain ⟨r, cell⟩ := a
    obtain ⟨r', cell'⟩ := b
    obtain ⟨hm, e1, e2, hi⟩ := hab
    dsimp only at hm e1 e2 hi ⊢
    subst e1; subst e2
    cases cell with
    | data => exact .ok ⟨w, Then.refl h, hl.say _⟩
    | cont => exact .error _
    | item => exact .error _
  | null q =>
    simp only [Instr.exec]
    rw [(hl.ptrs q).isNone]
    exact .ok ⟨w, Then.refl h, hl.say _⟩

theorem run_rel (cfg : Cfg) (fuel : Nat) : ∀ (is : List Instr) {w : World} {m1 m2 : Mem} {l1 l2 : ThreadLocal}, Rel sh t w m1 m2 → LocalR t w m1 l1 l2 →
    (∀ i ∈ is, (∀ p ∈ i.poolArgs, sh.pool p = t) ∧ ∀ x ∈ i.varArgs, sh.var x = t) →
    Both (Same sh t w m1) (runAlone cfg fuel is m1 l1) (runAlone cfg fuel is m2 l2) := by
  intro is
  induction is with
  | nil => intro w m1 m2 l1 l2 h hl _; exact .ok ⟨w, Then.refl h, hl⟩
  | cons i is ih =>
    intro w m1 m2 l1 l2 h hl hu
    refine (instr_rel cfg fuel h hl i (hu i List.mem_cons_self).1 (hu i List.mem_cons_self).2).bind fun a b hab => ?_
    obtain ⟨w1, h1, hl1⟩ := hab
    refine (ih h1.rel hl1 (fun j hj => hu j (List.mem_cons_of_mem _ hj))).imp fun a b hab => ?_
    obtain ⟨w2, h2, hl2⟩ := hab
    exact ⟨w2, h1.trans h2, hl2⟩
end

/-! ### any number of threads -/

/-- The state of all threads, each side by side with what it has when it runs alone. -/
structure All (cfg : Cfg) (fuel : Nat) (sh : Share) (prog : Nat → List Instr) (s : Threads) (side : Ref → Nat) : Prop where
  thread : ∀ t, ∃ (f : Ref → Ref) (done : List Instr) (m2 : Mem) (l2 : ThreadLocal), prog t = done ++ s.todo t ∧
    runAlone cfg fuel done {} {} = .ok (m2, l2) ∧ Rel sh t ⟨side, f⟩ s.mem m2 ∧ LocalR t ⟨side, f⟩ s.mem (s.local_ t) l2

theorem rel_init (sh : Share) (t : Nat) (w : World) : Rel sh t w {} {} := by
  refine ⟨?_, ?_, ?_, ?_, ?_, ?_, ?_, ?_, ?_, ?_, ?_, ?_⟩
  all_goals intros
  all_goals first | rfl | (rename_i h; exact absurd h.1 (Nat.not_lt_zero _)) | skip
  · rename_i h _ _; exact absurd h.1 (Nat.not_lt_zero _)
  · rename_i h _; exact absurd h.1 (Nat.not_lt_zero _)
  · rename_i h _; exact absurd h.1 (Nat.not_lt_zero _)
  · rename_i h _; cases h
  · intro r e; cases e

theorem runAlone_append (cfg : Cfg) (fuel : Nat) (is js : List Instr) (m : Mem) (l : ThreadLocal) :
    runAlone cfg fuel (is ++ js) m l = (do let (m, l) ← runAlone cfg fuel is m l; runAlone cfg fuel js m l) := by
  induction is generalizing m l with
  | nil => rfl
  | cons i is ih =>
    simp only [List.cons_append, runAlone]
    cases i.exec cfg fuel m l with
    | error e => rfl
    | ok q => exact ih q.1 q.2

theorem all_init (cfg : Cfg) (fuel : Nat) (sh : Share) (prog : Nat → List Instr) : All cfg fuel sh prog { todo := prog } (fun _ => 0) :=
  ⟨fun t => ⟨id, [], {}, {}, rfl, rfl, rel_init _ _ _, ⟨fun _ => PR.none, rfl⟩⟩⟩

theorem all_step {cfg : Cfg} {fuel : Nat} {sh : Share} {prog : Nat → List Instr}
    (hu : ∀ t, ∀ i ∈ prog t, (∀ p ∈ i.poolArgs, sh.pool p = t) ∧ ∀ x ∈ i.varArgs, sh.var x = t) {s s' : Threads} {side : Ref → Nat} {t : Nat}
    (h : All cfg fuel sh prog s side) (hs : Threads.Step cfg fuel t s s') : ∃ side', All cfg fuel sh prog s' side' := by
  cases hs with
  | mk i is m l htodo hexec =>
    obtain ⟨f, done, m2, l2, hd, hr, hrel, hl⟩ := h.thread t
    have hi : i ∈ prog t := by rw [hd, htodo]; simp
    have hstep := instr_rel cfg fuel hrel hl i (hu t i hi).1 (hu t i hi).2
    rw [hexec] at hstep
    revert hstep
    generalize hx : i.exec cfg fuel m2 l2 = x
    intro hstep
    cases hstep with
    | ok hab =>
      rename_i b
      obtain ⟨w', h1, hl1⟩ := hab
      refine ⟨w'.side, ⟨fun u => ?_⟩⟩
      by_cases e : u = t
      · subst e
        refine ⟨w'.f, done ++ [i], b.1, b.2, ?_, ?_, h1.rel, ?_⟩
        · rw [hd, htodo]; simp
        · rw [runAlone_append, hr]
          change (do let (m, l) ← i.exec cfg fuel m2 l2; runAlone cfg fuel [] m l) = _
          rw [hx]
          rfl
        · simp only [upd_same]
          exact hl1
      · obtain ⟨g, done', n2, k2, hd', hr', hrel', hl'⟩ := h.thread u
        have hro := Rel.other e (w := ⟨side, f⟩) hrel' h1.rel h1.next
        refine ⟨g, done', n2, k2, ?_, hr', hro, ?_⟩
        · simp only [upd_ne _ _ e]; exact hd'
        · simp only [upd_ne _ _ e]
          refine ⟨fun q => ?_, hl'.out⟩
          refine ⟨fun r er => ?_, (hl'.ptrs q).2⟩
          have := (hl'.ptrs q).1 r er
          exact ⟨Nat.lt_of_lt_of_le this.1 h1.next.top, by rw [← this.2]; exact h1.next.side r this.1⟩

theorem all_runs {cfg : Cfg} {fuel : Nat} {sh : Share} {prog : Nat → List Instr}
    (hu : ∀ t, ∀ i ∈ prog t, (∀ p ∈ i.poolArgs, sh.pool p = t) ∧ ∀ x ∈ i.varArgs, sh.var x = t) {s : Threads}
    (hs : Threads.Runs cfg fuel { todo := prog } s) : ∃ side, All cfg fuel sh prog s side := by
  generalize h0 : ({ todo := prog } : Threads) = s0 at hs
  induction hs with
  | refl => subst h0; exact ⟨_, all_init ..⟩
  | step _ h1 ih =>
    obtain ⟨side, h⟩ := ih
    exact all_step hu h h1

end Bridge.Heap.Thr
