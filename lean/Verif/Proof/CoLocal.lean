import Verif.Proof.CoMain
import Verif.Proof.HeapRun
/-
The objects that the parallel parser leaves in memory: lists and trees of their own.
-/
set_option autoImplicit false
namespace Bridge.Heap
open Spec

/-! ### lists within a list of addresses -/

/-- Like `Local`, for the addresses of a list. -/
structure LocalF (cells : Ref → Option Cell) (fp : List Nat) (L : Ref → List Ref) : Prop where
  chain : ∀ (c : Nat) k p h s, c ∈ fp → cells c = some (.cont k p h s) → Chain cells h (L c) ∧ s = (L c).length % 2 ^ 64
  inside : ∀ (i c : Nat), i ∈ L c → i ∈ fp ∧ c ∈ fp ∧ ∃ k p h s, cells c = some (.cont k p h s)
  disj : ∀ (i c c' : Nat), i ∈ L c → i ∈ L c' → c = c'
  nodeObj : ∀ (i r : Nat) k n, i ∈ fp → cells i = some (.item k (some r) n) → r ∈ fp ∧ ∃ c, cells r = some c ∧ c.isObj = true
  oneItem : ∀ (i j r : Nat) k n k' n', i ∈ fp → j ∈ fp → cells i = some (.item k (some r) n) → cells j = some (.item k' (some r) n') → i = j

theorem LocalF.nil (cells : Ref → Option Cell) : LocalF cells [] (fun _ => []) :=
  ⟨(fun c k p h s h1 => by cases h1), (fun i c h => by cases h), (fun i c c' h => by cases h), (fun i r k n h1 => by cases h1),
    (fun i j r k n k' n' h1 => by cases h1)⟩

theorem LocalF.out {cells : Ref → Option Cell} {fp : List Nat} {L : Ref → List Ref} (h : LocalF cells fp L) {c : Nat} (hc : c ∉ fp) : L c = [] := by
  cases hl : L c with
  | nil => rfl
  | cons i l => exact absurd (h.inside i c (by rw [hl]; simp)).2.1 hc

theorem LocalF.append {cells : Ref → Option Cell} {fp fp' : List Nat} {L1 L2 : Ref → List Ref} (h1 : LocalF cells fp L1) (h2 : LocalF cells fp' L2)
    (hd : ∀ i, i ∈ fp → i ∉ fp') : LocalF cells (fp ++ fp') (fun c => L1 c ++ L2 c) := by
  refine ⟨?_, ?_, ?_, ?_, ?_⟩
  · intro c k p h s g1 g3
    rcases List.mem_append.1 g1 with hc | hc
    · rw [h2.out (hd c hc), List.append_nil]; exact h1.chain c k p h s hc g3
    · rw [h1.out (fun h => hd c h hc), List.nil_append]; exact h2.chain c k p h s hc g3
  · intro i c hi
    rcases List.mem_append.1 hi with hi | hi
    · obtain ⟨g1, g2, g3⟩ := h1.inside i c hi; exact ⟨List.mem_append.2 (.inl g1), List.mem_append.2 (.inl g2), g3⟩
    · obtain ⟨g1, g2, g3⟩ := h2.inside i c hi; exact ⟨List.mem_append.2 (.inr g1), List.mem_append.2 (.inr g2), g3⟩
  · intro i c c' hi hi'
    rcases List.mem_append.1 hi with hi | hi <;> rcases List.mem_append.1 hi' with hi' | hi'
    · exact h1.disj i c c' hi hi'
    · exact absurd (h2.inside i c' hi').1 (hd i (h1.inside i c hi).1)
    · exact absurd (h2.inside i c hi).1 (hd i (h1.inside i c' hi').1)
    · exact h2.disj i c c' hi hi'
  · intro i r k n g1 g3
    rcases List.mem_append.1 g1 with hc | hc
    · obtain ⟨g4, g5⟩ := h1.nodeObj i r k n hc g3; exact ⟨List.mem_append.2 (.inl g4), g5⟩
    · obtain ⟨g4, g5⟩ := h2.nodeObj i r k n hc g3; exact ⟨List.mem_append.2 (.inr g4), g5⟩
  · intro i j r k n k' n' g1 g3 g5 g6
    rcases List.mem_append.1 g1 with hi | hi <;> rcases List.mem_append.1 g3 with hj | hj
    · exact h1.oneItem i j r k n k' n' hi hj g5 g6
    · exact absurd (h2.nodeObj j r k' n' hj g6).1 (hd r (h1.nodeObj i r k n hi g5).1)
    · exact absurd (h2.nodeObj i r k n hi g5).1 (hd r (h1.nodeObj j r k' n' hj g6).1)
    · exact h2.oneItem i j r k n k' n' hi hj g5 g6

/-- An object with everything below it, and the item that holds it. -/
theorem LocalF.item {cells : Ref → Option Cell} {t t1 : Nat} {fp : List Nat} {L : Ref → List Ref} (h : LocalF cells fp L) (ht : t ∈ fp) (ht1 : t1 ∉ fp)
    (ho : ∃ c, cells t = some c ∧ c.isObj = true) (hn : ∀ (i : Nat) k n, i ∈ fp → cells i ≠ some (.item k (some t) n))
    {k : Str} {n : Option Ref} (hc : cells t1 = some (.item k (some t) n)) : LocalF cells (t1 :: fp) L := by
  refine ⟨?_, ?_, h.disj, ?_, ?_⟩
  · intro c k' p hd s g1 g3
    rcases List.mem_cons.1 g1 with rfl | g1
    · rw [hc] at g3; cases g3
    · exact h.chain c k' p hd s g1 g3
  · intro i c hi
    obtain ⟨g1, g2, g3⟩ := h.inside i c hi; exact ⟨List.mem_cons_of_mem _ g1, List.mem_cons_of_mem _ g2, g3⟩
  · intro i r k' n' g1 g3
    rcases List.mem_cons.1 g1 with rfl | g1
    · rw [hc] at g3; cases g3; exact ⟨List.mem_cons_of_mem _ ht, ho⟩
    · obtain ⟨g4, g5⟩ := h.nodeObj i r k' n' g1 g3; exact ⟨List.mem_cons_of_mem _ g4, g5⟩
  · intro i j r k1 n1 k2 n2 g1 g3 g5 g6
    rcases List.mem_cons.1 g1 with hi | hi <;> rcases List.mem_cons.1 g3 with hj | hj
    · rw [hi, hj]
    · rw [hi, hc] at g5; cases g5; exact absurd g6 (hn j _ _ hj)
    · rw [hj, hc] at g6; cases g6; exact absurd g5 (hn i _ _ hi)
    · exact h.oneItem i j r k1 n1 k2 n2 hi hj g5 g6

/-- A container and its items. -/
theorem LocalF.root {cells : Ref → Option Cell} {r : Nat} {fp : List Nat} {L : Ref → List Ref} (h : LocalF cells fp L) (hr : r ∉ fp)
    {k : Kind} {p : Nat} {hd : Option Ref} {s : Nat} (hc : cells r = some (.cont k p hd s)) {l : List Ref} (hl : Chain cells hd l)
    (hs : s = l.length % 2 ^ 64) (hin : ∀ i : Nat, i ∈ l → i ∈ fp) (hnot : ∀ (i c : Nat), i ∈ l → i ∉ L c) : LocalF cells (r :: fp) (upd L r l) := by
  refine ⟨?_, ?_, ?_, ?_, ?_⟩
  · intro c k' p' hd' s' g1 g3
    by_cases hcr : c = r
    · subst hcr; rw [hc] at g3; cases g3; rw [upd_same]; exact ⟨hl, hs⟩
    · rw [upd_ne _ _ hcr]
      rcases List.mem_cons.1 g1 with g1 | g1
      · exact absurd g1 hcr
      · exact h.chain c k' p' hd' s' g1 g3
  · intro i c hi
    by_cases hcr : c = r
    · subst hcr; rw [upd_same] at hi; exact ⟨List.mem_cons_of_mem _ (hin i hi), List.mem_cons_self, _, _, _, _, hc⟩
    · rw [upd_ne _ _ hcr] at hi; obtain ⟨g1, g2, g3⟩ := h.inside i c hi; exact ⟨List.mem_cons_of_mem _ g1, List.mem_cons_of_mem _ g2, g3⟩
  · intro i c c' hi hi'
    by_cases hcr : c = r <;> by_cases hcr' : c' = r
    · rw [hcr, hcr']
    · subst hcr; rw [upd_same] at hi; rw [upd_ne _ _ hcr'] at hi'; exact absurd hi' (hnot _ _ hi)
    · subst hcr'; rw [upd_same] at hi'; rw [upd_ne _ _ hcr] at hi; exact absurd hi (hnot _ _ hi')
    · rw [upd_ne _ _ hcr] at hi; rw [upd_ne _ _ hcr'] at hi'; exact h.disj i c c' hi hi'
  · intro i x k' n g1 g3
    rcases List.mem_cons.1 g1 with rfl | g1
    · rw [hc] at g3; cases g3
    · obtain ⟨g4, g5⟩ := h.nodeObj i x k' n g1 g3; exact ⟨List.mem_cons_of_mem _ g4, g5⟩
  · intro i j x k1 n1 k2 n2 g1 g3 g5 g6
    rcases List.mem_cons.1 g1 with rfl | g1
    · rw [hc] at g5; cases g5
    · rcases List.mem_cons.1 g3 with rfl | g3
      · rw [hc] at g6; cases g6
      · exact h.oneItem i j x k1 n1 k2 n2 g1 g3 g5 g6

mutual
theorem GTree.loc {cells : Ref → Option Cell} {D : Nat → Prop} {ref : Bool} : {fp : List Nat} → {r : Nat} → {o : Obj} → GTree cells D ref fp r o →
    fp.Nodup → (∃ L, LocalF cells fp L) ∧ (∃ c, cells r = some c ∧ c.isObj = true) ∧ ∀ (i : Nat) k n, i ∈ fp → cells i ≠ some (.item k (some r) n)
  | _, r, _, .data h _, _ => by
    have one : ∀ i : Nat, i ∈ [r] → i = r := fun i hi => by simpa using hi
    refine ⟨⟨fun _ => [], ⟨fun c k p h' s h1 h3 => ?_, (fun i c h => by cases h), (fun i c c' h => by cases h), fun i x k n h1 h3 => ?_,
      fun i j x k n k' n' h1 h2 h5 => ?_⟩⟩, ⟨_, h, rfl⟩, fun i k n h1 h3 => ?_⟩
    · rw [one c h1, h] at h3; cases h3
    · rw [one i h1, h] at h3; cases h3
    · rw [one i h1, h] at h5; cases h5
    · rw [one i h1, h] at h3; cases h3
  | _, r, _, .array h _ hn l, hd => by
    obtain ⟨hd1, hd2⟩ := List.nodup_cons.1 hd
    obtain ⟨L, li, h1, h2, h3, h4, h5⟩ := GSeg.loc l hd2
    have h2 := h2 [] .nil
    rw [List.append_nil] at h2
    refine ⟨⟨_, h1.root hd1 h h2 (by rw [h5]; exact hn) h3 h4⟩, ⟨_, h, rfl⟩, fun i k n g1 g3 => ?_⟩
    rcases List.mem_cons.1 g1 with rfl | g1
    · rw [h] at g3; cases g3
    · exact hd1 (h1.nodeObj i r k n g1 g3).1
  | _, r, _, .map h _ hn l, hd => by
    obtain ⟨hd1, hd2⟩ := List.nodup_cons.1 hd
    obtain ⟨L, li, h1, h2, h3, h4, h5⟩ := GSeg.loc l hd2
    have h2 := h2 [] .nil
    rw [List.append_nil] at h2
    refine ⟨⟨_, h1.root hd1 h h2 (by rw [h5]; exact hn) h3 h4⟩, ⟨_, h, rfl⟩, fun i k n g1 g3 => ?_⟩
    rcases List.mem_cons.1 g1 with rfl | g1
    · rw [h] at g3; cases g3
    · exact hd1 (h1.nodeObj i r k n g1 g3).1
theorem GSeg.loc {cells : Ref → Option Cell} {D : Nat → Prop} {ref : Bool} : {fp : List Nat} → {hd : Option Ref} → {es : List (Str × Obj)} →
    {nx : Option Ref} → GSeg cells D ref fp hd es nx → fp.Nodup →
    ∃ (L : Ref → List Ref) (l : List Ref), LocalF cells fp L ∧ (∀ l0, Chain cells nx l0 → Chain cells hd (l ++ l0)) ∧ (∀ i : Nat, i ∈ l → i ∈ fp) ∧
      (∀ (i c : Nat), i ∈ l → i ∉ L c) ∧ l.length = es.length
  | _, _, _, _, .nil, _ => ⟨fun _ => [], [], .nil _, fun l0 h => h, (fun i h => by cases h), (fun i c h => by cases h), rfl⟩
  | _, _, _, _, .cons (i := i) (fp1 := fp1) (fp2 := fp2) h a l, hd => by
    obtain ⟨hd1, hd2⟩ := List.nodup_cons.1 hd
    obtain ⟨hd3, hd4, hd5⟩ := List.nodup_append.1 hd2
    obtain ⟨⟨L1, hL1⟩, ho, hn⟩ := GTree.loc a hd3
    obtain ⟨L2, li, h1, h2, h3, h4, h5⟩ := GSeg.loc l hd4
    have hi1 : i ∉ fp1 := fun h => hd1 (List.mem_append.2 (.inl h))
    have hi2 : i ∉ fp2 := fun h => hd1 (List.mem_append.2 (.inr h))
    refine ⟨_, i :: li, (hL1.item (GTree.root a) hi1 ho hn h).append h1 (fun j hj hj' => ?_), fun l0 hl0 => .cons h (h2 l0 hl0), ?_, ?_, by simp [h5]⟩
    · rcases List.mem_cons.1 hj with rfl | hj
      · exact hi2 hj'
      · exact hd5 j hj j hj' rfl
    · intro j hj
      rcases List.mem_cons.1 hj with rfl | hj
      · exact List.mem_cons_self
      · exact List.mem_cons_of_mem _ (List.mem_append.2 (.inr (h3 j hj)))
    · intro j c hj hm
      rcases List.mem_append.1 hm with hm | hm
      · have hm1 := (hL1.inside j c hm).1
        rcases List.mem_cons.1 hj with rfl | hj
        · exact hi1 hm1
        · exact hd5 j hm1 j (h3 j hj) rfl
      · rcases List.mem_cons.1 hj with rfl | hj
        · exact hi2 (h1.inside _ c hm).1
        · exact h4 j c hj hm
end

/-- The addresses of the list are those in use in a range. -/
theorem LocalF.range {cells : Ref → Option Cell} {fp : List Nat} {L : Ref → List Ref} (h : LocalF cells fp L) {b e : Nat}
    (hin : ∀ i : Nat, i ∈ fp → b ≤ i ∧ i < e) (hall : ∀ i : Nat, b ≤ i → i < e → cells i ≠ none → i ∈ fp) : Local cells b e L := by
  refine ⟨fun c k p hd s h1 h2 h3 => h.chain c k p hd s (hall c h1 h2 (by rw [h3]; simp)) h3, fun i c hi => ?_, h.disj, fun i r k n h1 h2 h3 => ?_,
    fun i j r k n k' n' h1 h2 h3 h4 h5 h6 => h.oneItem i j r k n k' n' (hall i h1 h2 (by rw [h5]; simp)) (hall j h3 h4 (by rw [h6]; simp)) h5 h6⟩
  · obtain ⟨g1, g2, g3⟩ := h.inside i c hi; exact ⟨hin i g1, hin c g2, g3⟩
  · obtain ⟨g1, g2⟩ := h.nodeObj i r k n (hall i h1 h2 (by rw [h3]; simp)) h3; exact ⟨hin r g1, g2⟩

/-! ### reading the trees -/

mutual
theorem GTree.shows {m : Mem} {D : Nat → Prop} {ref : Bool} (hD : ∀ p, D p → m.pools p = false) : {fp : List Nat} → {r : Nat} → {o : Obj} →
    GTree m.cells D ref fp r o → (∀ i : Nat, i ∈ fp → m.owner i ≠ none) → Shows m (some r) o
  | _, r, _, .data h _, ho => .data (load_eq h (ho r (by simp)))
  | _, r, _, .array (p := p) h d _ l, ho => by
    have h1 := GSeg.shows hD l (fun i hi => ho i (List.mem_cons_of_mem _ hi)) .nil
    have h3 := Shows.array (load_eq h (ho r (by simp))) h1
    have hpr : m.poolRef p = .frame := by unfold Mem.poolRef; rw [hD p d]; rfl
    rw [hpr, List.append_nil] at h3
    exact h3
  | _, r, _, .map (p := p) h d _ l, ho => by
    have h1 := GSeg.shows hD l (fun i hi => ho i (List.mem_cons_of_mem _ hi)) .nil
    have h3 := Shows.map (load_eq h (ho r (by simp))) h1
    have hpr : m.poolRef p = .frame := by unfold Mem.poolRef; rw [hD p d]; rfl
    rw [hpr, List.append_nil] at h3
    exact h3
theorem GSeg.shows {m : Mem} {D : Nat → Prop} {ref : Bool} (hD : ∀ p, D p → m.pools p = false) : {fp : List Nat} → {hd : Option Ref} →
    {es : List (Str × Obj)} → {nx : Option Ref} → GSeg m.cells D ref fp hd es nx → (∀ i : Nat, i ∈ fp → m.owner i ≠ none) →
    ∀ {es' : List (Str × Obj)}, ShowsL m nx es' → ShowsL m hd (es ++ es')
  | _, _, _, _, .nil, _, _, h' => h'
  | _, _, _, _, .cons (i := i) h a l, ho, _, h' => by
    have h1 := GTree.shows hD a (fun j hj => ho j (List.mem_cons_of_mem _ (List.mem_append.2 (.inl hj))))
    exact .cons (load_eq h (ho i (by simp))) h1 (GSeg.shows hD l (fun j hj => ho j (List.mem_cons_of_mem _ (List.mem_append.2 (.inr hj)))) h')
end

mutual
theorem GTree.cls {cells : Ref → Option Cell} {D : Nat → Prop} {ref : Bool} : {fp : List Nat} → {r : Nat} → {o : Obj} → GTree cells D ref fp r o →
    ∀ i : Nat, i ∈ fp → ∃ c, cells i = some c ∧ OfClass D ref c
  | _, r, _, .data h _, i, hi => by rw [List.mem_singleton.1 hi]; exact ⟨_, h, rfl⟩
  | _, r, _, .array h d _ l, i, hi => by
    rcases List.mem_cons.1 hi with rfl | hi
    · exact ⟨_, h, d⟩
    · exact GSeg.cls l i hi
  | _, r, _, .map h d _ l, i, hi => by
    rcases List.mem_cons.1 hi with rfl | hi
    · exact ⟨_, h, rfl, d⟩
    · exact GSeg.cls l i hi
theorem GSeg.cls {cells : Ref → Option Cell} {D : Nat → Prop} {ref : Bool} : {fp : List Nat} → {hd : Option Ref} → {es : List (Str × Obj)} →
    {nx : Option Ref} → GSeg cells D ref fp hd es nx → ∀ i : Nat, i ∈ fp → ∃ c, cells i = some c ∧ OfClass D ref c
  | _, _, _, _, .nil, i, hi => by cases hi
  | _, _, _, _, .cons h a l, i, hi => by
    rcases List.mem_cons.1 hi with rfl | hi
    · exact ⟨_, h, trivial⟩
    · rcases List.mem_append.1 hi with hi | hi
      · exact GTree.cls a i hi
      · exact GSeg.cls l i hi
end

theorem GSeg.length {cells : Ref → Option Cell} {D : Nat → Prop} {ref : Bool} : {fp : List Nat} → {hd : Option Ref} → {es : List (Str × Obj)} →
    {nx : Option Ref} → GSeg cells D ref fp hd es nx → es.length ≤ fp.length
  | _, _, _, _, .nil => Nat.le_refl _
  | _, _, _, _, .cons h a l => by
    have := GSeg.length l
    simp only [List.length_cons, List.length_append]; omega

mutual
/-- As long as the memory has fewer than 2^64 cells, what has been made is a document. -/
theorem GTree.doc {cells : Ref → Option Cell} {D : Nat → Prop} {ref : Bool} : {fp : List Nat} → {r : Nat} → {o : Obj} → GTree cells D ref fp r o →
    fp.length < 2 ^ 64 → ∃ d, o.doc? = some d
  | _, r, _, .data (dt := dt) (pl := pl) h hs, _ => by
    cases e : scalarOf ref dt pl with
    | none => exact absurd e hs
    | some s => exact ⟨.scalar s, by simp only [Obj.doc?, e]; rfl⟩
  | _, r, _, .array (es := es) h d hn l, hf => by
    rw [List.length_cons] at hf
    obtain ⟨⟨xs, h1⟩, _⟩ := GSeg.doc l (by omega)
    have := GSeg.length l
    refine ⟨.array xs, ?_⟩
    simp only [Obj.doc?, List.length_map]
    rw [if_pos (by rw [hn]; omega), h1]; rfl
  | _, r, _, .map (es := es) h d hn l, hf => by
    rw [List.length_cons] at hf
    obtain ⟨_, xs, h1⟩ := GSeg.doc l (by omega)
    have := GSeg.length l
    refine ⟨.map xs, ?_⟩
    simp only [Obj.doc?]
    rw [if_pos (by rw [hn]; omega), h1]; rfl
theorem GSeg.doc {cells : Ref → Option Cell} {D : Nat → Prop} {ref : Bool} : {fp : List Nat} → {hd : Option Ref} → {es : List (Str × Obj)} →
    {nx : Option Ref} → GSeg cells D ref fp hd es nx → fp.length < 2 ^ 64 → (∃ xs, docs? (es.map Prod.snd) = some xs) ∧ ∃ xs, entries? es = some xs
  | _, _, _, _, .nil, _ => ⟨⟨[], rfl⟩, [], rfl⟩
  | _, _, _, _, .cons (k := k) h a l, hf => by
    simp only [List.length_cons, List.length_append] at hf
    obtain ⟨d, hd⟩ := GTree.doc a (by omega)
    obtain ⟨⟨xs, h1⟩, ys, h2⟩ := GSeg.doc l (by omega)
    refine ⟨⟨d :: xs, ?_⟩, (k.bytes, d) :: ys, ?_⟩
    · simp only [List.map_cons, docs?, hd, h1]; rfl
    · simp only [entries?, hd, h2]; rfl
end

/-- `Get` along the items. -/
theorem GSeg.find {m : Mem} {D : Nat → Prop} {ref : Bool} (key : Bytes) : {fp : List Nat} → {hd : Option Ref} → {es : List (Str × Obj)} → {nx : Option Ref} →
    GSeg m.cells D ref fp hd es nx → nx = none → (∀ i : Nat, i ∈ fp → m.owner i ≠ none) → fp.Nodup → ∀ fuel, es.length ≤ fuel →
    (m.find key fuel hd = .ok none ∧ (takeKey key es).2 = .null) ∨
    ∃ (t t1 : Nat) (k : Str) (n : Option Ref) (fp1 : List Nat), m.find key fuel hd = .ok (some t1) ∧ m.cells t1 = some (.item k (some t) n) ∧
      t1 ∈ fp ∧ (∀ i, i ∈ fp1 → i ∈ fp) ∧ t1 ∉ fp1 ∧ GTree m.cells D ref fp1 t (takeKey key es).2
  | _, _, _, _, .nil, hn, _, _, fuel, _ => by subst hn; left; cases fuel <;> exact ⟨by simp [Mem.find], rfl⟩
  | _, _, _, _, .cons (i := i) (t := t) (k := k) (hd := hd) (fp1 := fp1) h a l, hn, ho, hnd, 0, hf => by simp at hf
  | _, _, _, _, .cons (i := i) (t := t) (k := k) (hd := hd) (fp1 := fp1) h a l, hn, ho, hnd, f + 1, hf => by
    simp only [Mem.find, takeKey]
    rw [loadItem_eq h (ho i (by simp)), ok_bind]
    dsimp only
    obtain ⟨hd1, hd2⟩ := List.nodup_cons.1 hnd
    by_cases hk : k.bytes = key
    · rw [if_pos hk, if_pos hk]
      exact .inr ⟨t, i, k, hd, fp1, rfl, h, by simp, fun j hj => by simp [hj], fun hj => hd1 (by simp [hj]), a⟩
    · rw [if_neg hk, if_neg hk]
      rcases GSeg.find key l hn (fun j hj => ho j (by simp [hj])) (List.nodup_append.1 hd2).2.1 f (by simp at hf; omega) with h1 | ⟨t', t1, k', n, fp', g1, g2, g3, g4, g5, g6⟩
      · exact .inl h1
      · exact .inr ⟨t', t1, k', n, fp', g1, g2, by simp [g3], fun j hj => by simp [g4 j hj], g5, g6⟩

end Bridge.Heap
