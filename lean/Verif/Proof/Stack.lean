import Verif.Model.Stack
import Verif.Spec.Depth
import Verif.Model.Abs
import Verif.Proof.Sound
/-
The functions of Model/Stack.lean compared with those without a limit.
-/
set_option autoImplicit false
namespace Bridge
open Spec

mutual
/-- How deeply an object tree is nested. -/
def Obj.depth : Obj → Nat
  | .null => 0
  | .data _ _ _ => 1
  | .array _ _ items => odepthL items + 1
  | .map _ _ _ items => odepthE items + 1
def odepthL : List Obj → Nat
  | [] => 0
  | o :: os => max o.depth (odepthL os)
def odepthE : List (Str × Obj) → Nat
  | [] => 0
  | (_, o) :: os => max o.depth (odepthE os)
end

/-- The outcome of running out of stack. -/
abbrev ovf {α : Type} : Res α := .error (.ub .stackOverflow)

/-- `x` is `y` on a stack with this room, if a result `a` needs the room `need a`. -/
def Lim {α : Type} (need : α → Nat) (room : Nat) (x y : Res α) : Prop :=
  (∀ a, y = .ok a → x = if need a ≤ room then .ok a else ovf) ∧ (∀ e, y = .error e → x = .error e ∨ x = ovf)

theorem Lim.same {α : Type} {need : α → Nat} {room : Nat} {x : Res α} (h : ∀ a, x = .ok a → need a ≤ room) : Lim need room x x := by
  refine ⟨?_, ?_⟩
  · intro a ha; rw [if_pos (h a ha)]; exact ha
  · intro e he; exact .inl he

theorem Lim.refl {α : Type} {room : Nat} (x : Res α) : Lim (fun _ => 0) room x x := .same (fun _ _ => Nat.zero_le _)

theorem Lim.bind {α β : Type} {need : α → Nat} {need' : β → Nat} {room : Nat} {x y : Res α} {f g : α → Res β}
    (h : Lim need room x y) (hf : ∀ a, y = .ok a → need a ≤ room → Lim need' room (f a) (g a))
    (hn : ∀ a b, y = .ok a → g a = .ok b → need a ≤ need' b) : Lim need' room (x >>= f) (y >>= g) := by
  cases y with
  | error e =>
    rcases h.2 e rfl with rfl | rfl
    · refine ⟨?_, fun e' he => .inl he⟩
      intro a ha; simp only [error_bind, reduceCtorEq] at ha
    · refine ⟨?_, fun e' he => .inr rfl⟩
      intro a ha; simp only [error_bind, reduceCtorEq] at ha
  | ok a =>
    have hx := h.1 a rfl
    by_cases hr : need a ≤ room
    · rw [if_pos hr] at hx
      subst hx
      exact hf a rfl hr
    · rw [if_neg hr] at hx
      subst hx
      refine ⟨?_, ?_⟩
      · intro b hb
        have := hn a b rfl hb
        rw [if_neg (by omega)]
        rfl
      · intro e _; exact .inr rfl

/-- A bind whose first part does not depend on the stack. -/
theorem Lim.pre {α β : Type} {need' : β → Nat} {room : Nat} {x : Res α} {f g : α → Res β}
    (hf : ∀ a, x = .ok a → Lim need' room (f a) (g a)) : Lim need' room (x >>= f) (x >>= g) :=
  .bind (.refl x) (fun a ha _ => hf a ha) (fun _ _ _ _ => Nat.zero_le _)

theorem Lim.weaken {α : Type} {need need' : α → Nat} {room room' : Nat} {x y : Res α} (h : Lim need room x y)
    (hn : ∀ a, y = .ok a → (need a ≤ room ↔ need' a ≤ room')) : Lim need' room' x y := by
  refine ⟨?_, h.2⟩
  intro a ha
  rw [h.1 a ha]
  by_cases hr : need a ≤ room
  · rw [if_pos hr, if_pos ((hn a ha).1 hr)]
  · rw [if_neg hr, if_neg (fun h => hr ((hn a ha).2 h))]

/-! ### parsing -/

theorem parseData_depth {cfg : Cfg} {v : View} {sm : Option StringMap} {c : Cur} {p : Obj × Cur}
    (h : parseDataObj cfg v sm c = .ok p) : p.1.depth = 1 := by
  unfold parseDataObj at h
  obtain ⟨⟨dt, c1⟩, -, h⟩ := bind_ok h
  obtain ⟨_, -, h⟩ := bind_ok h
  simp only at h
  split at h
  · obtain ⟨_, -, h⟩ := bind_ok h
    obtain ⟨_, -, h⟩ := bind_ok h
    simp only [pure_eq_ok, Except.ok.injEq] at h
    subst h; rfl
  · obtain ⟨_, -, h⟩ := bind_ok h
    obtain ⟨_, -, h⟩ := bind_ok h
    obtain ⟨_, -, h⟩ := bind_ok h
    obtain ⟨_, -, h⟩ := bind_ok h
    simp only [pure_eq_ok, Except.ok.injEq] at h
    subst h; rfl

theorem parseView_depth {cfg : Cfg} {v : View} {sm : Option StringMap} {c : Cur} {p : Obj × Cur}
    (h : parseViewObj cfg v sm c = .ok p) : p.1.depth = 1 := by
  unfold parseViewObj at h
  obtain ⟨⟨dt, c1⟩, -, h⟩ := bind_ok h
  obtain ⟨_, -, h⟩ := bind_ok h
  simp only at h
  split at h
  · obtain ⟨_, -, h⟩ := bind_ok h
    obtain ⟨_, -, h⟩ := bind_ok h
    simp only [pure_eq_ok, Except.ok.injEq] at h
    subst h; rfl
  · obtain ⟨_, -, h⟩ := bind_ok h
    obtain ⟨_, -, h⟩ := bind_ok h
    obtain ⟨_, -, h⟩ := bind_ok h
    obtain ⟨_, -, h⟩ := bind_ok h
    simp only [pure_eq_ok, Except.ok.injEq] at h
    subst h; rfl

theorem kvs_acc_depth (cfg : Cfg) (v : View) (sm : Option StringMap) (ref : Bool) (pool : PoolRef) : ∀ (f n : Nat) (c : Cur)
    (acc : List (Str × Obj)) (p : List (Str × Obj) × Cur), parseKVs cfg v sm ref pool f n c acc = .ok p → odepthE acc ≤ odepthE p.1
  | 0, n, c, acc, p, h => by rw [parseKVs] at h; cases h
  | f + 1, 0, c, acc, p, h => by rw [parseKVs] at h; simp only [Except.ok.injEq] at h; subst h; exact Nat.le_refl _
  | f + 1, n + 1, c, acc, p, h => by
    rw [parseKVs] at h
    obtain ⟨_, -, h⟩ := bind_ok h
    obtain ⟨_, -, h⟩ := bind_ok h
    obtain ⟨_, -, h⟩ := bind_ok h
    obtain ⟨_, -, h⟩ := bind_ok h
    have := kvs_acc_depth cfg v sm ref pool f n _ _ p h
    simp only [odepthE] at this
    omega

theorem val_lim_zero {cfg : Cfg} {v : View} {sm : Option StringMap} {ref : Bool} {pool : PoolRef} (f : Nat) (t : ObjectType) (c : Cur)
    (hpos : ∀ p : Obj × Cur, parseVal cfg v sm ref pool (f + 1) t c = .ok p → 0 < p.1.depth) :
    Lim (fun p => p.1.depth) 0 (parseValS cfg v sm ref pool (f + 1) 0 t c) (parseVal cfg v sm ref pool (f + 1) t c) := by
  have : parseValS cfg v sm ref pool (f + 1) 0 t c = ovf := by rw [parseValS]
  rw [this]
  refine ⟨?_, fun _ _ => .inr rfl⟩
  intro a ha
  have := hpos a ha
  simp only
  rw [if_neg (by omega)]

theorem val_depth_pos {cfg : Cfg} {v : View} {sm : Option StringMap} {ref : Bool} {pool : PoolRef} {f : Nat} {t : ObjectType} {c : Cur}
    {p : Obj × Cur} (h : parseVal cfg v sm ref pool f t c = .ok p) : 0 < p.1.depth := by
  cases f with
  | zero => rw [parseVal] at h; cases h
  | succ f =>
    cases t with
    | invalid => rw [parseVal] at h; cases h
    | data =>
      rw [parseVal] at h
      split at h
      · rw [parseView_depth h]; decide
      · rw [parseData_depth h]; decide
    | array =>
      rw [parseVal] at h
      obtain ⟨_, -, h⟩ := bind_ok h
      obtain ⟨_, -, h⟩ := bind_ok h
      obtain ⟨_, -, h⟩ := bind_ok h
      simp only [pure_eq_ok, Except.ok.injEq] at h
      subst h
      simp [Obj.depth]
    | map =>
      rw [parseVal] at h
      obtain ⟨_, -, h⟩ := bind_ok h
      obtain ⟨_, -, h⟩ := bind_ok h
      obtain ⟨_, -, h⟩ := bind_ok h
      simp only [pure_eq_ok, Except.ok.injEq] at h
      subst h
      simp [Obj.depth]

theorem parse_lim (cfg : Cfg) (v : View) (sm : Option StringMap) (ref : Bool) (pool : PoolRef) : ∀ f : Nat,
    (∀ room t c, Lim (fun p => p.1.depth) room (parseValS cfg v sm ref pool f room t c) (parseVal cfg v sm ref pool f t c)) ∧
    (∀ room n c, Lim (fun p => odepthL p.1) room (parseItemsS cfg v sm ref pool f room n c) (parseItems cfg v sm ref pool f n c)) ∧
    (∀ room n c acc, odepthE acc ≤ room →
      Lim (fun p => odepthE p.1) room (parseKVsS cfg v sm ref pool f room n c acc) (parseKVs cfg v sm ref pool f n c acc)) := by
  intro f
  induction f with
  | zero =>
    refine ⟨?_, ?_, ?_⟩
    · intro room t c; rw [parseVal, parseValS]; exact .same (by intro a h; cases h)
    · intro room n c; rw [parseItems, parseItemsS]; exact .same (by intro a h; cases h)
    · intro room n c acc _; rw [parseKVs, parseKVsS]; exact .same (by intro a h; cases h)
  | succ f ih =>
    obtain ⟨ih1, ih2, ih3⟩ := ih
    refine ⟨?_, ?_, ?_⟩
    · intro room t c
      cases room with
      | zero => exact val_lim_zero f t c (fun _ h => val_depth_pos h)
      | succ room =>
        cases t with
        | invalid => rw [parseVal, parseValS]; exact .same (by intro a h; cases h)
        | data =>
          rw [parseVal, parseValS]
          refine .same ?_
          intro a h
          split at h
          · rw [parseView_depth h]; omega
          · rw [parseData_depth h]; omega
        | array =>
          rw [parseVal, parseValS]
          refine .pre fun p1 _ => .pre fun p2 _ => ?_
          refine .bind (need := fun p => odepthL p.1 + 1) ((ih2 room p1.1 p2.2).weaken (by intro a _; omega)) ?_ ?_
          · intro a _ hr
            refine .same ?_
            intro b hb
            simp only [pure_eq_ok, Except.ok.injEq] at hb
            subst hb
            simpa only [Obj.depth] using hr
          · intro a b _ hb
            simp only [pure_eq_ok, Except.ok.injEq] at hb
            subst hb
            simp only [Obj.depth]; omega
        | map =>
          rw [parseVal, parseValS]
          refine .pre fun p1 _ => .pre fun p2 _ => ?_
          refine .bind (need := fun p => odepthE p.1 + 1) ((ih3 room p1.1 p2.2 [] (by simp [odepthE])).weaken (by intro a _; omega)) ?_ ?_
          · intro a _ hr
            refine .same ?_
            intro b hb
            simp only [pure_eq_ok, Except.ok.injEq] at hb
            subst hb
            simpa only [Obj.depth] using hr
          · intro a b _ hb
            simp only [pure_eq_ok, Except.ok.injEq] at hb
            subst hb
            simp only [Obj.depth]; omega
    · intro room n c
      cases n with
      | zero =>
        rw [parseItems, parseItemsS]
        refine .same ?_
        intro a h
        simp only [Except.ok.injEq] at h
        subst h
        simp [odepthL]
      | succ n =>
        rw [parseItems, parseItemsS]
        refine .pre fun p1 _ => .bind (ih1 room p1.1 p1.2) ?_ ?_
        · intro p2 _ h2
          refine .bind (ih2 room n p2.2) ?_ ?_
          · intro p3 _ h3
            refine .same ?_
            intro b hb
            simp only [pure_eq_ok, Except.ok.injEq] at hb
            subst hb
            simp only [odepthL]; omega
          · intro p3 b _ hb
            simp only [pure_eq_ok, Except.ok.injEq] at hb
            subst hb
            simp only [odepthL]; omega
        · intro p2 b _ hb
          obtain ⟨_, -, hb⟩ := bind_ok hb
          simp only [pure_eq_ok, Except.ok.injEq] at hb
          subst hb
          simp only [odepthL]; omega
    · intro room n c acc hacc
      cases n with
      | zero =>
        rw [parseKVs, parseKVsS]
        refine .same ?_
        intro a h
        simp only [Except.ok.injEq] at h
        subst h
        exact hacc
      | succ n =>
        rw [parseKVs, parseKVsS]
        refine .pre fun p1 _ => .pre fun p2 _ => .bind (ih1 room p2.1 p2.2) ?_ ?_
        · intro p3 _ h3
          refine .pre fun k _ => ih3 room n p3.2 _ ?_
          simp only [odepthE]; omega
        · intro p3 b _ hb
          obtain ⟨_, -, hb⟩ := bind_ok hb
          have := kvs_acc_depth _ _ _ _ _ _ _ _ _ _ hb
          simp only [odepthE] at this
          omega

/-! ### serializing -/

theorem seriChild_lim {o : Obj} {need : Nat} {room : Nat} {vs vs' : SState → Res (SState × Bool)}
    (h : ∀ st, Lim (fun _ => need) room (vs st) (vs' st)) (st : SState) :
    Lim (fun _ => need) room (seriChild o vs st) (seriChild o vs' st) := by
  unfold seriChild
  cases o.type? with
  | none => exact .same (by intro a h; cases h)
  | some t =>
    simp only
    refine .bind (h _) ?_ ?_
    · intro a _ hr; exact .same (fun _ _ => hr)
    · intro a b _ _; exact Nat.le_refl _

mutual
theorem valueSeri_lim (cfg : Cfg) : ∀ (o : Obj) (room : Nat) (st : SState),
    Lim (fun _ => o.depth) room (valueSeriS cfg o room st) (valueSeri cfg o st)
  | .null, room, st => by rw [valueSeri, valueSeriS]; exact .same (by intro a h; cases h)
  | .data ref dt p, 0, st => by
    rw [valueSeriS]
    · exact ⟨fun a _ => by rw [if_neg (by simp [Obj.depth])], fun _ _ => .inr rfl⟩
    · simp
  | .data ref dt p, r + 1, st => by
    rw [valueSeri, valueSeriS]
    exact .same (fun _ _ => by simp [Obj.depth])
  | .array pl sz items, 0, st => by
    rw [valueSeriS]
    · exact ⟨fun a _ => by rw [if_neg (by simp [Obj.depth])], fun _ _ => .inr rfl⟩
    · simp
  | .array pl sz items, r + 1, st => by
    rw [valueSeri, valueSeriS]
    refine .pre fun p1 _ => .pre fun p2 _ => .bind (need := fun _ => odepthL items + 1)
      ((seriItems_lim cfg items r p2.2 _ _).weaken (by intro a _; omega)) ?_ ?_
    · intro a _ hr
      exact .same (fun _ _ => by simpa only [Obj.depth] using hr)
    · intro a b _ _
      simp only [Obj.depth]; omega
  | .map rf pl sz items, 0, st => by
    rw [valueSeriS]
    · exact ⟨fun a _ => by rw [if_neg (by simp [Obj.depth])], fun _ _ => .inr rfl⟩
    · simp
  | .map rf pl sz items, r + 1, st => by
    rw [valueSeri, valueSeriS]
    refine .pre fun p1 _ => .pre fun p2 _ => .bind (need := fun _ => odepthE items + 1)
      ((seriKVs_lim cfg items r p2.2 _ _).weaken (by intro a _; omega)) ?_ ?_
    · intro a _ hr
      exact .same (fun _ _ => by simpa only [Obj.depth] using hr)
    · intro a b _ _
      simp only [Obj.depth]; omega
theorem seriItems_lim (cfg : Cfg) : ∀ (os : List Obj) (room : Nat) (st : SState) (cur : Nat) (blocks : List Nat),
    Lim (fun _ => odepthL os) room (seriItemsS cfg os room st cur blocks) (seriItems cfg os st cur blocks)
  | [], room, st, cur, blocks => by rw [seriItems, seriItemsS]; exact .same (fun _ _ => by simp [odepthL])
  | o :: os, room, st, cur, blocks => by
    rw [seriItems, seriItemsS]
    refine .bind (seriChild_lim (valueSeri_lim cfg o room) st) ?_ ?_
    · intro a _ hr
      exact (seriItems_lim cfg os room a _ _).weaken (by intro a _; simp only [odepthL]; omega)
    · intro a b _ _
      simp only [odepthL]; omega
theorem seriKVs_lim (cfg : Cfg) : ∀ (os : List (Str × Obj)) (room : Nat) (st : SState) (cur : Nat) (blocks : List Nat),
    Lim (fun _ => odepthE os) room (seriKVsS cfg os room st cur blocks) (seriKVs cfg os st cur blocks)
  | [], room, st, cur, blocks => by rw [seriKVs, seriKVsS]; exact .same (fun _ _ => by simp [odepthE])
  | (k, o) :: os, room, st, cur, blocks => by
    rw [seriKVs, seriKVsS]
    refine .pre fun s1 _ => .bind (seriChild_lim (valueSeri_lim cfg o room) s1) ?_ ?_
    · intro a _ hr
      exact (seriKVs_lim cfg os room a _ _).weaken (by intro a _; simp only [odepthE]; omega)
    · intro a b _ _
      simp only [odepthE]; omega
end

/-! ### dump -/

mutual
theorem dump_lim : ∀ (o : Obj) (room : Nat) (buf : Bytes) (level : Int),
    Lim (fun _ => o.depth) room (dumpS o room buf level) (o.dump buf level)
  | .null, room, buf, level => by rw [Obj.dump, dumpS]; exact .same (by intro a h; cases h)
  | .data ref dt p, 0, buf, level => by
    rw [dumpS]
    · exact ⟨fun a _ => by rw [if_neg (by simp [Obj.depth])], fun _ _ => .inr rfl⟩
    · simp
  | .data ref dt p, r + 1, buf, level => by
    rw [Obj.dump, dumpS]
    exact .same (fun _ _ => by simp [Obj.depth])
  | .array pl sz items, 0, buf, level => by
    rw [dumpS]
    · exact ⟨fun a _ => by rw [if_neg (by simp [Obj.depth])], fun _ _ => .inr rfl⟩
    · simp
  | .array pl sz items, r + 1, buf, level => by
    rw [Obj.dump, dumpS]
    exact .pre fun p1 _ => (dumpItems_lim items r _ _).weaken (by intro a _; simp only [Obj.depth]; omega)
  | .map rf pl sz items, 0, buf, level => by
    rw [dumpS]
    · exact ⟨fun a _ => by rw [if_neg (by simp [Obj.depth])], fun _ _ => .inr rfl⟩
    · simp
  | .map rf pl sz items, r + 1, buf, level => by
    rw [Obj.dump, dumpS]
    exact .pre fun p1 _ => .pre fun p2 _ => (dumpEntries_lim items r _ _ _).weaken (by intro a _; simp only [Obj.depth]; omega)
theorem dumpItems_lim : ∀ (os : List Obj) (room : Nat) (buf : Bytes) (level : Int),
    Lim (fun _ => odepthL os) room (dumpItemsS os room buf level) (dumpItems os buf level)
  | [], room, buf, level => by rw [dumpItems, dumpItemsS]; exact .same (fun _ _ => by simp [odepthL])
  | o :: os, room, buf, level => by
    rw [dumpItems, dumpItemsS]
    refine .bind (dump_lim o room _ _) ?_ ?_
    · intro a _ hr
      exact (dumpItems_lim os room a _).weaken (by intro a _; simp only [odepthL]; omega)
    · intro a b _ _
      simp only [odepthL]; omega
theorem dumpEntries_lim : ∀ (os : List (Str × Obj)) (room : Nat) (kp buf : Bytes) (level : Int),
    Lim (fun _ => odepthE os) room (dumpEntriesS os room kp buf level) (dumpEntries os kp buf level)
  | [], room, kp, buf, level => by rw [dumpEntries, dumpEntriesS]; exact .same (fun _ _ => by simp [odepthE])
  | (k, o) :: os, room, kp, buf, level => by
    rw [dumpEntries, dumpEntriesS]
    refine .bind (dump_lim o room _ _) ?_ ?_
    · intro a _ hr
      exact (dumpEntries_lim os room kp a _).weaken (by intro a _; simp only [odepthE]; omega)
    · intro a b _ _
      simp only [odepthE]; omega
end

/-! ### trees and documents -/

mutual
theorem depth_doc : ∀ (o : Obj) (d : Doc), o.doc? = some d → o.depth = d.depth
  | .null, d, h => by simp [Obj.doc?] at h
  | .data rf dt p, d, h => by
    simp only [Obj.doc?, Option.map_eq_some_iff] at h
    obtain ⟨s, -, rfl⟩ := h
    rfl
  | .array pl sz items, d, h => by
    simp only [Obj.doc?] at h
    split at h
    · simp only [Option.map_eq_some_iff] at h
      obtain ⟨ds, k1, rfl⟩ := h
      simp only [Obj.depth, Doc.depth]
      rw [depthL_doc items ds k1]
    · cases h
  | .map rf pl sz items, d, h => by
    simp only [Obj.doc?] at h
    split at h
    · simp only [Option.map_eq_some_iff] at h
      obtain ⟨ds, k1, rfl⟩ := h
      simp only [Obj.depth, Doc.depth]
      rw [depthE_doc items ds k1]
    · cases h
theorem depthL_doc : ∀ (os : List Obj) (ds : List Doc), docs? os = some ds → odepthL os = depthL ds
  | [], ds, h => by simp only [docs?, Option.some.injEq] at h; subst h; rfl
  | o :: os, ds, h => by
    simp only [docs?, Option.bind_eq_bind, Option.bind_eq_some_iff, Option.pure_def, Option.some.injEq] at h
    obtain ⟨d, k1, ds', k2, rfl⟩ := h
    simp only [odepthL, depthL]
    rw [depth_doc o d k1, depthL_doc os ds' k2]
theorem depthE_doc : ∀ (os : List (Str × Obj)) (ds : List (Bytes × Doc)), entries? os = some ds → odepthE os = depthE ds
  | [], ds, h => by simp only [entries?, Option.some.injEq] at h; subst h; rfl
  | (k, o) :: os, ds, h => by
    simp only [entries?, Option.bind_eq_bind, Option.bind_eq_some_iff, Option.pure_def, Option.some.injEq] at h
    obtain ⟨d, k1, ds', k2, rfl⟩ := h
    simp only [odepthE, depthE]
    rw [depth_doc o d k1, depthE_doc os ds' k2]
end

end Bridge
