import Verif.Proof.CoWp
/-
What a coroutine leaves in its part of the memory (Model/CoHeap.lean): trees with the list of their addresses.
-/
set_option autoImplicit false
namespace Bridge.Heap
open Spec

/-! ### a program and a computation side by side -/

/-- From the part `s`, every run of `t` ends like the computation `x`. -/
def Runs {α β : Type} (t : Prog α) (s : Part) (x : Res β) (P : β → α → Part → Prop) : Prop :=
  wp t s fun r s' => Both (fun b a => P b a s') x r

theorem Runs.imp {α β : Type} {t : Prog α} {s : Part} {x : Res β} {P Q : β → α → Part → Prop} (h : Runs t s x P)
    (k : ∀ b a s', P b a s' → Q b a s') : Runs t s x Q :=
  wp_mono t s _ _ (fun _ s' h => h.imp fun b a => k b a s') h

theorem Runs.bind {α β γ δ : Type} {t : Prog α} {s : Part} {x : Res β} {P : β → α → Part → Prop} {f : α → Prog γ} {g : β → Res δ}
    {Q : δ → γ → Part → Prop} (h : Runs t s x P) (k : ∀ b a s', P b a s' → Runs (f a) s' (g b) Q) : Runs (t >>= f) s (x >>= g) Q := by
  refine wp_bind f t s _ (wp_mono t s _ _ (fun r s' hb => ?_) h)
  cases hb with
  | ok hb => exact k _ _ _ hb
  | error e => exact Both.error e

/-- The same with the outcome of the computation. -/
theorem Runs.bindE {α β γ δ : Type} {t : Prog α} {s : Part} {x : Res β} {P : β → α → Part → Prop} {f : α → Prog γ} {g : β → Res δ}
    {Q : δ → γ → Part → Prop} (h : Runs t s x P) (k : ∀ b a s', x = .ok b → P b a s' → Runs (f a) s' (g b) Q) : Runs (t >>= f) s (x >>= g) Q := by
  refine wp_bind f t s _ (wp_mono t s _ _ (fun r s' hb => ?_) h)
  generalize hx : x = y at hb
  cases hb with
  | ok hb => exact k _ _ _ hx hb
  | error e => exact Both.error e

theorem Runs.lift {α γ δ : Type} {s : Part} (x : Res α) {f : α → Prog γ} {g : α → Res δ} {Q : δ → γ → Part → Prop}
    (k : ∀ a, x = .ok a → Runs (f a) s (g a) Q) : Runs (Co.lift x >>= f) s (x >>= g) Q := by
  cases x with
  | error e => exact Both.error e
  | ok a => exact k a rfl

theorem Runs.ok {α β : Type} {s : Part} {a : α} {b : β} {P : β → α → Part → Prop} (h : P b a s) : Runs (pure a : Prog α) s (.ok b) P := Both.ok h

theorem Runs.fail {α β : Type} {s : Part} (e : Err) {P : β → α → Part → Prop} : Runs (Co.lift (.error e) : Prog α) s (.error e : Res β) P := Both.error e

theorem Runs.useDict {α β : Type} {s : Part} {x : Res β} {P : β → α → Part → Prop} (b : Bool) {f : Unit → Prog α}
    (h : Runs (f ()) s x P) : Runs (Co.useDict b >>= f) s x P := by
  unfold Co.useDict
  cases b <;> exact h

theorem Runs.load {α β : Type} {s : Part} {x : Res β} {P : β → α → Part → Prop} {f : Ref × Cell → Prog α} {r q : Nat} {c : Cell}
    (e : s.cells r = some (q, c)) (h : Runs (f (r, c)) s x P) : Runs (Co.load (some r) >>= f) s x P :=
  ⟨r, q, c, rfl, e, h⟩

theorem Runs.modify {α β : Type} {s : Part} {x : Res β} {P : β → α → Part → Prop} {f : Unit → Prog α} {r q : Nat} {c : Cell} {g : Cell → Cell}
    (e : s.cells r = some (q, c)) (h : Runs (f ()) (s.set r (q, g c)) x P) : Runs (Co.modify r g >>= f) s x P :=
  ⟨q, c, e, h⟩

theorem Runs.alloc {α β : Type} {s : Part} {x : Res β} {P : β → α → Part → Prop} {f : Ref → Prog α} {q : Nat} {c : Cell}
    (e : s.pools q = some true) (h : ∀ r, s.cells r = none → Runs (f r) (s.set r (q, c)) x P) : Runs (Co.alloc q c >>= f) s x P :=
  ⟨e, h⟩

theorem Runs.newPool {α β : Type} {s : Part} {x : Res β} {P : β → α → Part → Prop} {f : Nat → Prog α}
    (h : s.Closed → ∀ q, s.pools q = none → Runs (f q) (s.setPool q true) x P) : Runs (Co.newPool >>= f) s x P := h

theorem Runs.endPool {α β : Type} {s : Part} {x : Res β} {P : β → α → Part → Prop} {f : Unit → Prog α} {q : Nat}
    (e : s.pools q = some true) (h : Runs (f ()) (s.setPool q false) x P) : Runs (Co.endPool q >>= f) s x P := ⟨e, h⟩

theorem Runs.mergePool {α β : Type} {s : Part} {x : Res β} {P : β → α → Part → Prop} {f : Unit → Prog α} {q q' : Nat}
    (e : s.pools q = some true) (e' : s.pools q' ≠ none) (hne : q ≠ q') (h : Runs (f ()) (s.merge q q') x P) :
    Runs (Co.mergePool q q' >>= f) s x P := ⟨e, e', hne, h⟩

theorem Runs.freePool {α β : Type} {s : Part} {x : Res β} {P : β → α → Part → Prop} {f : Unit → Prog α} {q : Nat}
    (e : s.pools q ≠ none) (hn : ∀ r c, s.cells r ≠ some (q, c)) (h : Runs (f ()) s x P) : Runs (Co.freePool q >>= f) s x P := ⟨e, hn, h⟩

theorem Prog.bind_pure {α : Type} (t : Prog α) : (t >>= fun a => pure a) = t := by
  show t.bind (fun z => .ret (.ok z)) = t
  induction t with
  | ret r => cases r <;> rfl
  | newPool k ih => simp only [Prog.bind]; congr 1; funext q; exact ih q
  | endPool q k ih => simp only [Prog.bind]; congr 1
  | mergePool q q' k ih => simp only [Prog.bind]; congr 1
  | freePool q k ih => simp only [Prog.bind]; congr 1
  | alloc q c k ih => simp only [Prog.bind]; congr 1; funext q; exact ih q
  | load r k ih => simp only [Prog.bind]; congr 1; funext q; exact ih q
  | modify r g' k ih => simp only [Prog.bind]; congr 1
  | dict k ih => simp only [Prog.bind]; congr 1
  | par n ts k _ ih => simp only [Prog.bind]; congr 1; funext q; exact ih q

theorem Prog.bind_assoc {α β γ : Type} (t : Prog α) (f : α → Prog β) (g : β → Prog γ) : (t >>= f) >>= g = t >>= fun a => f a >>= g := by
  show (t.bind f).bind g = t.bind fun a => (f a).bind g
  induction t with
  | ret r => cases r <;> rfl
  | newPool k ih => simp only [Prog.bind]; congr 1; funext q; exact ih q f
  | endPool q k ih => simp only [Prog.bind]; congr 1; exact ih f
  | mergePool q q' k ih => simp only [Prog.bind]; congr 1; exact ih f
  | freePool q k ih => simp only [Prog.bind]; congr 1; exact ih f
  | alloc q c k ih => simp only [Prog.bind]; congr 1; funext r; exact ih r f
  | load r k ih => simp only [Prog.bind]; congr 1; funext r; exact ih r f
  | modify r g' k ih => simp only [Prog.bind]; congr 1; exact ih f
  | dict k ih => simp only [Prog.bind]; congr 1; exact ih f
  | par n ts k _ ih => simp only [Prog.bind]; congr 1; funext r; exact ih r f

theorem Prog.pure_bind {α β : Type} (a : α) (f : α → Prog β) : (pure a : Prog α) >>= f = f a := rfl

/-! ### trees -/

mutual
/-- The object at `r` is the tree `o` and lies at the addresses of the list; the pools of its containers are in `D`. -/
inductive GTree (cells : Ref → Option Cell) (D : Nat → Prop) (ref : Bool) : List Nat → Nat → Obj → Prop
  | data {r : Nat} {dt : UInt8} {pl : Payload} : cells r = some (.data ref dt pl) → scalarOf ref dt pl ≠ none → GTree cells D ref [r] r (.data ref dt pl)
  | array {r p n : Nat} {hd : Option Ref} {es : List (Str × Obj)} {fp : List Nat} : cells r = some (.cont .array p hd n) → D p →
      n = es.length % 2 ^ 64 → GSeg cells D ref fp hd es none → GTree cells D ref (r :: fp) r (.array .frame n (es.map Prod.snd))
  | map {r p n : Nat} {hd : Option Ref} {es : List (Str × Obj)} {fp : List Nat} : cells r = some (.cont (.map ref) p hd n) → D p →
      n = es.length % 2 ^ 64 → GSeg cells D ref fp hd es none → GTree cells D ref (r :: fp) r (.map ref .frame n es)
/-- Items linked one to the next, up to the pointer at the end. -/
inductive GSeg (cells : Ref → Option Cell) (D : Nat → Prop) (ref : Bool) : List Nat → Option Ref → List (Str × Obj) → Option Ref → Prop
  | nil {nx : Option Ref} : GSeg cells D ref [] nx [] nx
  | cons {i t : Nat} {k : Str} {o : Obj} {hd nx : Option Ref} {fp1 fp2 : List Nat} {es : List (Str × Obj)} :
      cells i = some (.item k (some t) hd) → GTree cells D ref fp1 t o → GSeg cells D ref fp2 hd es nx →
      GSeg cells D ref (i :: (fp1 ++ fp2)) (some i) ((k, o) :: es) nx
end

mutual
theorem GTree.congr {cells cells' : Ref → Option Cell} {D D' : Nat → Prop} (hD : ∀ p, D p → D' p) {ref : Bool} : {fp : List Nat} → {r : Nat} →
    {o : Obj} → GTree cells D ref fp r o → (∀ i ∈ fp, cells' i = cells i) → GTree cells' D' ref fp r o
  | _, _, _, .data h h', g => .data (by rw [g _ (by simp)]; exact h) h'
  | _, _, _, .array h d n l, g => .array (by rw [g _ (by simp)]; exact h) (hD _ d) n (GSeg.congr hD l fun i hi => g i (List.mem_cons_of_mem _ hi))
  | _, _, _, .map h d n l, g => .map (by rw [g _ (by simp)]; exact h) (hD _ d) n (GSeg.congr hD l fun i hi => g i (List.mem_cons_of_mem _ hi))
theorem GSeg.congr {cells cells' : Ref → Option Cell} {D D' : Nat → Prop} (hD : ∀ p, D p → D' p) {ref : Bool} : {fp : List Nat} → {hd : Option Ref} →
    {es : List (Str × Obj)} → {nx : Option Ref} → GSeg cells D ref fp hd es nx → (∀ i ∈ fp, cells' i = cells i) → GSeg cells' D' ref fp hd es nx
  | _, _, _, _, .nil, _ => .nil
  | _, _, _, _, .cons h a l, g => .cons (by rw [g _ (by simp)]; exact h)
      (GTree.congr hD a fun i hi => g i (List.mem_cons_of_mem _ (List.mem_append.2 (.inl hi))))
      (GSeg.congr hD l fun i hi => g i (List.mem_cons_of_mem _ (List.mem_append.2 (.inr hi))))
end

mutual
theorem GTree.live {cells : Ref → Option Cell} {D : Nat → Prop} {ref : Bool} : {fp : List Nat} → {r : Nat} → {o : Obj} → GTree cells D ref fp r o →
    ∀ i ∈ fp, cells i ≠ none
  | _, _, _, .data h _, i, hi => by simp only [List.mem_singleton] at hi; rw [hi, h]; simp
  | _, _, _, .array h _ _ l, i, hi => by
    rcases List.mem_cons.1 hi with rfl | hi
    · rw [h]; simp
    · exact GSeg.live l i hi
  | _, _, _, .map h _ _ l, i, hi => by
    rcases List.mem_cons.1 hi with rfl | hi
    · rw [h]; simp
    · exact GSeg.live l i hi
theorem GSeg.live {cells : Ref → Option Cell} {D : Nat → Prop} {ref : Bool} : {fp : List Nat} → {hd : Option Ref} → {es : List (Str × Obj)} →
    {nx : Option Ref} → GSeg cells D ref fp hd es nx → ∀ i ∈ fp, cells i ≠ none
  | _, _, _, _, .nil, i, hi => by cases hi
  | _, _, _, _, .cons h a l, i, hi => by
    rcases List.mem_cons.1 hi with rfl | hi
    · rw [h]; simp
    · rcases List.mem_append.1 hi with hi | hi
      · exact GTree.live a i hi
      · exact GSeg.live l i hi
end

theorem GTree.root {cells : Ref → Option Cell} {D : Nat → Prop} {ref : Bool} {fp : List Nat} {r : Nat} {o : Obj} (h : GTree cells D ref fp r o) : r ∈ fp := by
  cases h <;> simp

theorem GSeg.append {cells : Ref → Option Cell} {D : Nat → Prop} {ref : Bool} : {fp : List Nat} → {hd : Option Ref} → {es : List (Str × Obj)} →
    {md : Option Ref} → GSeg cells D ref fp hd es md → ∀ {fp' : List Nat} {es' : List (Str × Obj)} {nx : Option Ref}, GSeg cells D ref fp' md es' nx →
    GSeg cells D ref (fp ++ fp') hd (es ++ es') nx
  | _, _, _, _, .nil, _, _, _, h' => h'
  | _, _, _, _, .cons (fp1 := fp1) (fp2 := fp2) h a l, fp', _, _, h' => by
    have := GSeg.cons h a (GSeg.append l h')
    rw [← List.append_assoc] at this
    exact this

theorem GSeg.head {cells : Ref → Option Cell} {D : Nat → Prop} {ref : Bool} {fp : List Nat} {hd : Option Ref} {es : List (Str × Obj)} {nx : Option Ref}
    (h : GSeg cells D ref fp hd es nx) (hn : nx ≠ none) : hd ≠ none := by
  cases h with
  | nil => exact hn
  | cons => simp

/-- Items with a pointer to the first and one to the last, which is followed by `nx`. -/
inductive Tailed (cells : Ref → Option Cell) (D : Nat → Prop) (ref : Bool) : List Nat → Option Ref → Option Ref → List (Str × Obj) → Option Ref → Prop
  | nil {nx : Option Ref} : Tailed cells D ref [] none none [] nx
  | cons {fp0 fp1 : List Nat} {hd : Option Ref} {es0 : List (Str × Obj)} {t x : Nat} {k : Str} {o : Obj} {nx : Option Ref} :
      GSeg cells D ref fp0 hd es0 (some t) → cells t = some (.item k (some x) nx) → GTree cells D ref fp1 x o →
      Tailed cells D ref (fp0 ++ t :: fp1) hd (some t) (es0 ++ [(k, o)]) nx

theorem Tailed.congr {cells cells' : Ref → Option Cell} {D D' : Nat → Prop} (hD : ∀ p, D p → D' p) {ref : Bool} {fp : List Nat} {hd tl : Option Ref}
    {es : List (Str × Obj)} {nx : Option Ref} (h : Tailed cells D ref fp hd tl es nx) (g : ∀ i ∈ fp, cells' i = cells i) :
    Tailed cells' D' ref fp hd tl es nx := by
  cases h with
  | nil => exact .nil
  | cons a b c =>
    exact .cons (a.congr hD fun i hi => g i (by simp [hi])) (by rw [g _ (by simp)]; exact b) (c.congr hD fun i hi => g i (by simp [hi]))

theorem Tailed.live {cells : Ref → Option Cell} {D : Nat → Prop} {ref : Bool} {fp : List Nat} {hd tl : Option Ref}
    {es : List (Str × Obj)} {nx : Option Ref} (h : Tailed cells D ref fp hd tl es nx) : ∀ i ∈ fp, cells i ≠ none := by
  cases h with
  | nil => intro i hi; cases hi
  | cons a b c =>
    intro i hi
    rcases List.mem_append.1 hi with hi | hi
    · exact a.live i hi
    · rcases List.mem_cons.1 hi with rfl | hi
      · rw [b]; simp
      · exact c.live i hi

theorem Tailed.seg {cells : Ref → Option Cell} {D : Nat → Prop} {ref : Bool} {fp : List Nat} {hd tl : Option Ref}
    {es : List (Str × Obj)} (h : Tailed cells D ref fp hd tl es none) : GSeg cells D ref fp hd es none := by
  cases h with
  | nil => exact .nil
  | cons a b c =>
    have := GSeg.append a (GSeg.cons b c .nil)
    simpa using this

/-- The last item gets a new successor. -/
theorem Tailed.link {cells cells' : Ref → Option Cell} {D : Nat → Prop} {ref : Bool} {fp : List Nat} {hd : Option Ref} {t : Nat}
    {es : List (Str × Obj)} {nx nx' : Option Ref} (h : Tailed cells D ref fp hd (some t) es nx) (hn : fp.Nodup)
    (g : ∀ i ∈ fp, i ≠ t → cells' i = cells i) (ht : ∀ k x, cells t = some (.item k x nx) → cells' t = some (.item k x nx')) :
    GSeg cells' D ref fp hd es nx' := by
  cases h with
  | @cons fp0 fp1 _ es0 _ x k o _ a b c =>
    obtain ⟨h0, h1, h2⟩ := List.nodup_append.1 hn
    have hne : ∀ i ∈ fp0, i ≠ t := fun i hi e => h2 i hi t (by simp) e
    have hne1 : ∀ i ∈ fp1, i ≠ t := fun i hi e => (List.nodup_cons.1 h1).1 (e ▸ hi)
    have a' := a.congr (cells' := cells') (D' := D) (fun _ h => h) fun i hi => g i (by simp [hi]) (hne i hi)
    have c' := c.congr (cells' := cells') (D' := D) (fun _ h => h) fun i hi => g i (by simp [hi]) (hne1 i hi)
    have := GSeg.append a' (GSeg.cons (ht _ _ b) c' .nil)
    simpa using this

theorem Tailed.tail {cells : Ref → Option Cell} {D : Nat → Prop} {ref : Bool} {fp : List Nat} {hd tl : Option Ref}
    {es : List (Str × Obj)} {nx : Option Ref} (h : Tailed cells D ref fp hd tl es nx) :
    (hd = none ∧ tl = none ∧ es = [] ∧ fp = []) ∨
    (hd ≠ none ∧ es ≠ [] ∧ ∃ t k x, tl = some t ∧ t ∈ fp ∧ cells t = some (.item k x nx)) := by
  cases h with
  | nil => exact .inl ⟨rfl, rfl, rfl, rfl⟩
  | cons a b c => exact .inr ⟨a.head (by simp), by simp, _, _, _, rfl, by simp, b⟩

/-! ### what has changed -/

/-- New cells are of pool `q`, old cells are as they were, except for the contents of those in `W`. -/
structure Ext (q : Nat) (s s' : Part) (W : Nat → Prop) : Prop where
  keep : ∀ i x, s.cells i = some x → ¬ W i → s'.cells i = some x
  own : ∀ i p c, s.cells i = some (p, c) → ∃ c', s'.cells i = some (p, c')
  new : ∀ i p c, s.cells i = none → s'.cells i = some (p, c) → p = q
  pool : ∀ p b, s.pools p = some b → s'.pools p = some b
  ended : ∀ p, s.pools p = none → s'.pools p = none ∨ s'.pools p = some false

/-- A cell that was not there before. -/
def New (s s' : Part) (i : Nat) : Prop := s.cells i = none ∧ s'.cells i ≠ none

theorem Ext.refl (q : Nat) (s : Part) (W : Nat → Prop) : Ext q s s W :=
  ⟨fun _ _ h _ => h, fun _ _ c h => ⟨c, h⟩, (fun i p c h h' => by rw [h] at h'; cases h'), fun _ _ h => h, fun _ h => .inl h⟩

theorem Ext.live {q : Nat} {s s' : Part} {W : Nat → Prop} (h : Ext q s s' W) {i : Nat} (hi : s.cells i ≠ none) : s'.cells i ≠ none := by
  cases e : s.cells i with
  | none => exact absurd e hi
  | some x => obtain ⟨p, c⟩ := x; obtain ⟨c', h'⟩ := h.own i p c e; rw [h']; simp

theorem Ext.weaken {q : Nat} {s s' : Part} {W W' : Nat → Prop} (h : Ext q s s' W) (hw : ∀ i, W i → s.cells i ≠ none → W' i) : Ext q s s' W' :=
  ⟨fun i x e hn => h.keep i x e (fun hW => hn (hw i hW (by rw [e]; simp))), h.own, h.new, h.pool, h.ended⟩

theorem Ext.trans {q : Nat} {s s1 s2 : Part} {W W2 : Nat → Prop} (h1 : Ext q s s1 W) (h2 : Ext q s1 s2 W2)
    (hw : ∀ i, W2 i → s.cells i ≠ none → W i) : Ext q s s2 W := by
  refine ⟨fun i x e hn => h2.keep i x (h1.keep i x e hn) (fun hW => hn (hw i hW (by rw [e]; simp))), fun i p c e => ?_, fun i p c e e' => ?_,
    fun p b e => h2.pool p b (h1.pool p b e), fun p e => ?_⟩
  · obtain ⟨c1, e1⟩ := h1.own i p c e
    exact h2.own i p c1 e1
  · cases e1 : s1.cells i with
    | none => exact h2.new i p c e1 e'
    | some x =>
      obtain ⟨p1, c1⟩ := x
      obtain ⟨c2, e2⟩ := h2.own i p1 c1 e1
      rw [e2] at e'; cases e'
      exact h1.new i p c1 e e1
  · rcases h1.ended p e with h | h
    · exact h2.ended p h
    · exact .inr (h2.pool p false h)

theorem New.trans {q : Nat} {s s1 s2 : Part} {W2 : Nat → Prop} (h2 : Ext q s1 s2 W2) {q' : Nat} {W : Nat → Prop} (h1 : Ext q' s s1 W) (i : Nat) :
    New s s2 i ↔ New s s1 i ∨ New s1 s2 i := by
  constructor
  · rintro ⟨a, b⟩
    by_cases h : s1.cells i = none
    · exact .inr ⟨h, b⟩
    · exact .inl ⟨a, h⟩
  · rintro (⟨a, b⟩ | ⟨a, b⟩)
    · exact ⟨a, h2.live b⟩
    · refine ⟨?_, b⟩
      apply Classical.byContradiction; intro h; exact h1.live h a

theorem Part.set_cells (s : Part) (r : Nat) (x : Nat × Cell) : (s.set r x).cells r = some x := upd_same _ _ _
theorem Part.set_ne (s : Part) {r i : Nat} (x : Nat × Cell) (h : i ≠ r) : (s.set r x).cells i = s.cells i := upd_ne _ _ h
theorem Part.set_set (s : Part) (r : Nat) (x y : Nat × Cell) : (s.set r x).set r y = s.set r y := by
  unfold Part.set; simp only [upd_upd]
theorem Part.set_pools (s : Part) (r : Nat) (x : Nat × Cell) : (s.set r x).pools = s.pools := rfl
theorem Part.cell_of {s : Part} {r q : Nat} {c : Cell} (h : s.cells r = some (q, c)) : s.cell r = some c := by unfold Part.cell; rw [h]; rfl
theorem Part.cell_congr {s s' : Part} {r : Nat} (h : s'.cells r = s.cells r) : s'.cell r = s.cell r := by unfold Part.cell; rw [h]

theorem ext_set {s : Part} {q r : Nat} {p : Nat} {c c' : Cell} (h : s.cells r = some (p, c)) : Ext q s (s.set r (p, c')) (· = r) := by
  refine ⟨fun i x e hn => by rw [Part.set_ne _ _ hn]; exact e, fun i p' c1 e => ?_, fun i p' c1 e e' => ?_, fun _ _ e => e, fun _ e => .inl e⟩
  · by_cases hi : i = r
    · subst hi; rw [h] at e; cases e; exact ⟨_, Part.set_cells _ _ _⟩
    · exact ⟨c1, by rw [Part.set_ne _ _ hi]; exact e⟩
  · by_cases hi : i = r
    · subst hi; rw [h] at e; cases e
    · rw [Part.set_ne _ _ hi, e] at e'; cases e'

theorem ext_alloc {s : Part} {q r : Nat} {c : Cell} (h : s.cells r = none) (W : Nat → Prop) : Ext q s (s.set r (q, c)) W := by
  refine ⟨fun i x e _ => ?_, fun i p' c1 e => ⟨c1, ?_⟩, fun i p' c1 e e' => ?_, fun _ _ e => e, fun _ e => .inl e⟩
  · rw [Part.set_ne _ _ (fun hi => by subst hi; rw [h] at e; cases e)]; exact e
  · rw [Part.set_ne _ _ (fun hi => by subst hi; rw [h] at e; cases e)]; exact e
  · by_cases hi : i = r
    · subst hi; rw [Part.set_cells] at e'; cases e'; rfl
    · rw [Part.set_ne _ _ hi, e] at e'; cases e'

theorem new_alloc {s : Part} {q r : Nat} {c : Cell} (h : s.cells r = none) (i : Nat) : New s (s.set r (q, c)) i ↔ i = r := by
  constructor
  · rintro ⟨a, b⟩
    apply Classical.byContradiction; intro hi; rw [Part.set_ne _ _ hi] at b; exact b a
  · rintro rfl; exact ⟨h, by rw [Part.set_cells]; simp⟩

theorem new_set {s : Part} {r p : Nat} {c c' : Cell} (h : s.cells r = some (p, c)) (i : Nat) : ¬ New s (s.set r (p, c')) i := by
  rintro ⟨a, b⟩
  by_cases hi : i = r
  · subst hi; rw [h] at a; cases a
  · rw [Part.set_ne _ _ hi] at b; exact b a

/-- The pools that containers may refer to: the one of the coroutine and those of variables that have ended. -/
def Dead (q : Nat) (s : Part) (p : Nat) : Prop := p = q ∨ s.pools p = some false

theorem Ext.dead {q q' : Nat} {s s' : Part} {W : Nat → Prop} (h : Ext q' s s' W) (p : Nat) : Dead q s p → Dead q s' p := by
  rintro (e | e)
  · exact .inl e
  · exact .inr (h.pool p false e)

end Bridge.Heap
