import Verif.Proof.HeapParse
/-
`Parse` in memory (Model/Heap.lean) and `Parse` on values (Model/CoParse.lean) have the same outcome.
-/
set_option autoImplicit false
namespace Bridge.Heap
open Spec

/-! ### a parsed tree can be read -/

mutual
theorem Tree.shows {m : Mem} {p : Nat} {ref : Bool} (hp : m.pools p = true) : {r e : Nat} → {o : Obj} → Tree m.cells p ref r e o →
    (∀ i : Nat, r ≤ i → i < e → m.owner i ≠ none) → Shows m (some r) o
  | r, _, _, .data h, ho => .data (load_eq h (ho r (Nat.le_refl _) (Nat.lt_succ_self _)))
  | r, e, _, .array (os := os) h a b l, ho => by
    have hle := Fwd.le l
    obtain ⟨items, h1, h2⟩ := Fwd.shows hp l (fun i g1 g2 => ho i (by omega) g2)
    have h3 := Shows.array (load_eq h (ho r (Nat.le_refl _) (by omega))) h1
    rw [h2] at h3
    have hpr : m.poolRef p = .caller := by unfold Mem.poolRef; rw [hp]; rfl
    rw [hpr] at h3
    exact h3
  | r, e, _, .map h a b l, ho => by
    have hle := Bwd.le l
    have h1 := Bwd.shows hp l .nil (fun i g1 g2 => ho i (by omega) g2)
    have h3 := Shows.map (load_eq h (ho r (Nat.le_refl _) (by omega))) h1
    have hpr : m.poolRef p = .caller := by unfold Mem.poolRef; rw [hp]; rfl
    rw [hpr] at h3
    exact h3
theorem Fwd.shows {m : Mem} {p : Nat} {ref : Bool} (hp : m.pools p = true) : {t e : Nat} → {hd : Option Ref} → {os : List Obj} →
    Fwd m.cells p ref t e hd os → (∀ i : Nat, t ≤ i → i < e → m.owner i ≠ none) → ∃ items, ShowsL m hd items ∧ items.map Prod.snd = os
  | _, _, _, _, .nil, _ => ⟨[], .nil, rfl⟩
  | t, e, _, _, .cons (t1 := t1) a h l, ho => by
    have g1 := Tree.lt a
    have g2 := Fwd.le l
    have h1 := Tree.shows hp a (fun i k1 k2 => ho i k1 (by omega))
    obtain ⟨items, h2, h3⟩ := Fwd.shows hp l (fun i k1 k2 => ho i (by omega) k2)
    exact ⟨_, .cons (load_eq h (ho t1 (by omega) (by omega))) h1 h2, by rw [List.map_cons, h3]⟩
theorem Bwd.shows {m : Mem} {p : Nat} {ref : Bool} (hp : m.pools p = true) : {h : Option Ref} → {acc : List (Str × Obj)} → {t e : Nat} →
    {hd : Option Ref} → {es : List (Str × Obj)} → Bwd m.cells p ref h acc t e hd es → ShowsL m h acc →
    (∀ i : Nat, t ≤ i → i < e → m.owner i ≠ none) → ShowsL m hd es
  | _, _, _, _, _, _, .nil, hs, _ => hs
  | _, _, t, e, _, _, .cons (t1 := t1) a h l, hs, ho => by
    have g1 := Tree.lt a
    have g2 := Bwd.le l
    have h1 := Tree.shows hp a (fun i k1 k2 => ho i k1 (by omega))
    exact Bwd.shows hp l (.cons (load_eq h (ho t1 (by omega) (by omega))) h1 hs) (fun i k1 k2 => ho i (by omega) k2)
end

/-! ### the class of the parsed objects -/

mutual
theorem Tree.cls {cells : Ref → Option Cell} {p : Nat} {ref : Bool} : {r e : Nat} → {o : Obj} → Tree cells p ref r e o →
    ∀ i : Nat, r ≤ i → i < e → ∃ c, cells i = some c ∧ OfClass (· = p) ref c
  | r, _, _, .data h, i, g1, g2 => by
    have : i = r := by omega
    subst this
    exact ⟨_, h, rfl⟩
  | r, _, _, .array h a b l, i, g1, g2 => by
    by_cases hi : i = r
    · subst hi; exact ⟨_, h, rfl⟩
    · exact Fwd.cls l i (by omega) g2
  | r, _, _, .map h a b l, i, g1, g2 => by
    by_cases hi : i = r
    · subst hi; exact ⟨_, h, rfl, rfl⟩
    · exact Bwd.cls l i (by omega) g2
theorem Fwd.cls {cells : Ref → Option Cell} {p : Nat} {ref : Bool} : {t e : Nat} → {hd : Option Ref} → {os : List Obj} →
    Fwd cells p ref t e hd os → ∀ i : Nat, t ≤ i → i < e → ∃ c, cells i = some c ∧ OfClass (· = p) ref c
  | _, _, _, _, .nil, i, g1, g2 => by omega
  | t, e, _, _, .cons (t1 := t1) a h l, i, g1, g2 => by
    by_cases h1 : i < t1
    · exact Tree.cls a i g1 h1
    · by_cases h2 : i = t1
      · subst h2; exact ⟨_, h, trivial⟩
      · exact Fwd.cls l i (by omega) g2
theorem Bwd.cls {cells : Ref → Option Cell} {p : Nat} {ref : Bool} : {h : Option Ref} → {acc : List (Str × Obj)} → {t e : Nat} →
    {hd : Option Ref} → {es : List (Str × Obj)} → Bwd cells p ref h acc t e hd es →
    ∀ i : Nat, t ≤ i → i < e → ∃ c, cells i = some c ∧ OfClass (· = p) ref c
  | _, _, _, _, _, _, .nil, i, g1, g2 => by omega
  | _, _, t, e, _, _, .cons (t1 := t1) a h l, i, g1, g2 => by
    by_cases h1 : i < t1
    · exact Tree.cls a i g1 h1
    · by_cases h2 : i = t1
      · subst h2; exact ⟨_, h, trivial⟩
      · exact Bwd.cls l i (by omega) g2
end

/-! ### the value is moved out of the root map -/

/-- The entries from a pointer on, each with its tree between the addresses `lo` and `hi`. -/
inductive Ents (cells : Ref → Option Cell) (p : Nat) (ref : Bool) (lo hi : Nat) : Option Ref → List (Str × Obj) → Prop
  | nil : Ents cells p ref lo hi none []
  | cons {t t1 : Nat} {k : Str} {n : Option Ref} {o : Obj} {es : List (Str × Obj)} : lo ≤ t → t1 < hi → Tree cells p ref t t1 o →
      cells t1 = some (.item k (some t) n) → Ents cells p ref lo hi n es → Ents cells p ref lo hi (some t1) ((k, o) :: es)

theorem Bwd.ents {cells : Ref → Option Cell} {p : Nat} {ref : Bool} {lo hi : Nat} : {h : Option Ref} → {acc : List (Str × Obj)} → {t e : Nat} →
    {hd : Option Ref} → {es : List (Str × Obj)} → Bwd cells p ref h acc t e hd es → Ents cells p ref lo hi h acc → lo ≤ t → e ≤ hi →
    Ents cells p ref lo hi hd es
  | _, _, _, _, _, _, .nil, ha, _, _ => ha
  | _, _, t, e, _, _, .cons (t1 := t1) a h l, ha, g1, g2 => by
    have k1 := Tree.lt a
    have k2 := Bwd.le l
    exact Bwd.ents l (.cons g1 (by omega) a h ha) (by omega) g2

theorem find_ents {m : Mem} {p : Nat} {ref : Bool} {lo hi : Nat} (ho : ∀ i : Nat, lo ≤ i → i < hi → m.owner i ≠ none) (key : Bytes)
    {hd : Option Ref} {es : List (Str × Obj)} (h : Ents m.cells p ref lo hi hd es) : ∀ fuel, es.length ≤ fuel →
    (m.find key fuel hd = .ok none ∧ (takeKey key es).2 = .null) ∨
    ∃ (t t1 : Nat) (k : Str) (n : Option Ref), m.find key fuel hd = .ok (some t1) ∧ m.cells t1 = some (.item k (some t) n) ∧
      lo ≤ t ∧ t < t1 ∧ t1 < hi ∧ Tree m.cells p ref t t1 (takeKey key es).2 := by
  induction h with
  | nil => intro fuel _; left; cases fuel <;> exact ⟨by simp [Mem.find], rfl⟩
  | @cons t t1 k n o es g1 g2 g3 g4 g5 ih =>
    intro fuel hf
    have hlt := g3.lt
    cases fuel with
    | zero => simp at hf
    | succ f =>
      simp only [Mem.find, takeKey]
      rw [loadItem_eq g4 (ho t1 (by omega) g2), ok_bind]
      dsimp only
      by_cases hk : k.bytes = key
      · rw [if_pos hk, if_pos hk]
        exact .inr ⟨t, t1, k, n, rfl, g4, g1, hlt, g2, g3⟩
      · rw [if_neg hk, if_neg hk]
        exact ih f (by simp at hf; omega)

/-- What `d = Parse(…)` has done to the memory when it returned the tree `o`: `m1` is the memory before the value was moved out of the
root map, which is at `root`. -/
structure Parsed (m m' : Mem) (d p : Nat) (D : Nat → Prop) (ref : Bool) (fuel : Nat) (o : Obj) (m1 : Mem) (root : Nat) : Prop where
  pool : m.pools p = true
  region : Region m m1 p D ref root
  take : m1.take fuel d (some root) rootKey = .ok m'
  after : m' = m1.setVar d none ∨ ∃ (t t1 : Nat) (k : Str) (n : Option Ref), m.top ≤ t1 ∧ t1 < m1.top ∧ m1.cells t1 = some (.item k (some t) n) ∧
    m' = (m1.modify t1 (Cell.setNode none)).setVar d (some t)
  shows : Shows m' (m'.vars d) o
  value : (o = .null ∧ m'.vars d = none) ∨ ∃ (r : Nat) (q : Doc), m'.vars d = some r ∧ m.top ≤ r ∧ o.doc? = some q

theorem Parsed.wf {m m' : Mem} {d p : Nat} {D : Nat → Prop} {ref : Bool} {fuel : Nat} {o : Obj} {m1 : Mem} {root : Nat}
    (h : Parsed m m' d p D ref fuel o m1 root) (hw : WF m1) : WF m' := by
  rcases h.after with e | ⟨t, t1, k, n, _, _, _, e⟩
  · subst e; exact ⟨hw.fresh, hw.live, hw.owner, hw.pools, hw.frames⟩
  · subst e
    have := modify_wf hw t1 (Cell.setNode none)
    exact ⟨this.fresh, this.live, this.owner, this.pools, this.frames⟩

theorem takeKey_doc_some {key : Bytes} {es : List (Str × Obj)} : (∃ ds, entries? es = some ds) → (takeKey key es).2 = .null ∨ ∃ d, (takeKey key es).2.doc? = some d := by
  induction es with
  | nil => intro _; exact .inl rfl
  | cons e es ih =>
    obtain ⟨k, o⟩ := e
    rintro ⟨ds, h⟩
    simp only [entries?] at h
    cases h1 : o.doc? with
    | none => rw [h1] at h; cases h
    | some d =>
      cases h2 : entries? es with
      | none => rw [h1, h2] at h; cases h
      | some ds' =>
        simp only [takeKey]
        split
        · exact .inr ⟨d, h1⟩
        · exact ih ⟨ds', h2⟩

theorem parseVal_map_fuel {cfg : Cfg} {v : View} {sm : Option StringMap} {ref : Bool} {pool : PoolRef} {f : Nat} {c : Cur} {q : Obj × Cur}
    (h : parseVal cfg v sm ref pool f .map c = .ok q) :
    ∃ n es, q.1 = .map ref pool n es ∧ es.length ≤ f ∧ ∃ ds, entries? es = some ds := by
  cases f with
  | zero => simp [parseVal] at h
  | succ f =>
    simp only [parseVal] at h
    obtain ⟨_, _, h⟩ := bind_ok h
    obtain ⟨_, _, h⟩ := bind_ok h
    obtain ⟨q', h1, h⟩ := bind_ok h
    cases h
    obtain ⟨g1, g2⟩ := parseKVs_len f _ _ _ _ h1
    exact ⟨_, _, rfl, by rw [g1]; simp; omega, (parse_doc f).2.2 _ _ _ _ ⟨[], rfl⟩ h1⟩

/-- The two parsers side by side. -/
theorem parse_both {cfg : Cfg} {m : Mem} (hf : Fresh m) {p : Nat} (hp : m.pools p = true) (fuel d : Nat) (ref : Bool) (k : Nat) (content : Bytes) :
    Both (fun (o : Obj) (m' : Mem) => ∃ m1, Parsed m m' d p (· = p) ref fuel o m1 m.top ∧ (WF m → WF m') ∧ m'.frames = m.frames ∧ m'.nextPool = m.nextPool) (Bridge.parse cfg ⟨false, ref, k⟩ fuel content)
      (m.parse cfg fuel d p ref content) := by
  unfold Bridge.parse Mem.parse
  refine .same _ fun s hs => ?_
  simp only [Bool.false_eq_true, if_false]
  unfold normalParse
  rw [alloc_push hp, ok_bind]
  dsimp only
  have g := push_grow hf p (.cont (.map ref) p none 0) none
  have h0 := (parse_heap (cfg := cfg) (v := View.whole content) (sm := s.sm) (ref := ref) (p := p) fuel).1
    (m.push p (.cont (.map ref) p none 0)) m.top .map ⟨metaSize, metaSize⟩ _ hp g.fresh rfl rfl (upd_same _ _ _) (upd_same _ _ _)
  generalize hx : parseVal cfg (View.whole content) s.sm ref .caller fuel .map ⟨metaSize, metaSize⟩ = x at h0
  generalize Mem.valueParse cfg (View.whole content) s.sm ref fuel (m.push p (.cont (.map ref) p none 0)) (some m.top) ⟨metaSize, metaSize⟩ = y at h0
  cases h0 with
  | error e => exact .error e
  | @ok a b hab =>
    obtain ⟨root, c⟩ := a
    obtain ⟨m1, c'⟩ := b
    obtain ⟨e1, g1, htree⟩ := hab
    dsimp only at e1 g1 htree
    subst e1
    simp only [ok_bind]
    split
    · exact .error _
    · obtain ⟨n, es, e2, hlen, hds⟩ := parseVal_map_fuel hx
      dsimp only at e2
      subst e2
      have gg := g.trans g1 (fun i e hi => by cases e; exact absurd hi (Nat.lt_irrefl _))
      have ho : ∀ i : Nat, m.top ≤ i → i < m1.top → m1.owner i ≠ none := fun i h1 h2 => by rw [gg.new i h1 h2]; simp
      have hlt := htree.lt
      have hinv : ∀ {e : Nat} {q : Obj}, Tree m1.cells p ref m.top e q → q = .map ref .caller n es → ∃ hd, m1.cells m.top = some (.cont (.map ref) p hd n) ∧
          Bwd m1.cells p ref none [] (m.top + 1) e hd es := by
        intro e q ht eq
        cases ht with
        | data => cases eq
        | array => cases eq
        | map hc _ _ l => cases eq; exact ⟨_, hc, l⟩
      obtain ⟨hd, hc, l⟩ := hinv htree rfl
      have hb := Bwd.le l
      have hents := Bwd.ents (lo := m.top) (hi := m1.top) l .nil (by omega) (Nat.le_refl _)
      have hload : m1.loadCont false (some m.top) = .ok (m.top, .map ref, p, hd, n) := by
        have := loadCont_eq hc (ho _ (Nat.le_refl _) hlt)
        simpa using this
      have hp1 : m1.pools p = true := by rw [gg.pools]; exact hp
      have hreg : Region m m1 p (· = p) ref m.top := by
        obtain ⟨hL, hob, hfr⟩ := Tree.local_ htree
        refine ⟨gg.vars, gg.pools, (fun q hq => by rw [gg.rest.1]; exact hq), gg.top, fun i hi => gg.cells i hi (by simp), gg.owner, fun i c hi e => ?_, gg.fresh, hL, Nat.le_refl _, hob, hfr⟩
        have hi2 : i < m1.top := by
          apply Classical.byContradiction; intro h; rw [gg.fresh i (Nat.not_lt.1 h)] at e; cases e
        obtain ⟨c', e', hcl⟩ := htree.cls i hi hi2
        rw [e'] at e; cases e
        exact ⟨gg.new i hi hi2, hcl⟩
      have hwf : WF m → WF m1 := gg.wf hp fun i h1 h2 => by obtain ⟨c, e, _⟩ := htree.cls i h1 h2; rw [e]; simp
      have fin : ∀ {o : Obj} {m' : Mem}, Parsed m m' d p (· = p) ref fuel o m1 m.top →
          ∃ m1, Parsed m m' d p (· = p) ref fuel o m1 m.top ∧ (WF m → WF m') ∧ m'.frames = m.frames ∧ m'.nextPool = m.nextPool := fun h => by
        refine ⟨m1, h, fun hw => h.wf (hwf hw), ?_⟩
        rcases h.after with e | ⟨_, _, _, _, _, _, _, e⟩ <;> rw [e] <;> exact ⟨gg.rest.1, gg.rest.2.1⟩
      simp only [takeRoot]
      rcases find_ents ho rootKey hents fuel hlen with ⟨k1, k2⟩ | ⟨t, t1, k, nx, k1, k2, k3, k4, k5, k6⟩
      · have htake : m1.take fuel d (some m.top) rootKey = .ok (m1.setVar d none) := by
          unfold Mem.take
          rw [hload, ok_bind]; dsimp only
          rw [k1, ok_bind]; rfl
        rw [htake, k2]
        have hv : (m1.setVar d none).vars d = none := upd_same _ _ _
        exact .ok (fin ⟨hp, hreg, htake, .inl rfl, by rw [hv]; exact .null, .inl ⟨rfl, hv⟩⟩)
      · have htake : m1.take fuel d (some m.top) rootKey = .ok ((m1.modify t1 (Cell.setNode none)).setVar d (some t)) := by
          unfold Mem.take
          rw [hload, ok_bind]; dsimp only
          rw [k1, ok_bind]
          simp only [Option.isNone_some, Bool.false_eq_true, if_false]
          rw [loadItem_eq k2 (ho t1 (by omega) k5), ok_bind]
          rfl
        rw [htake]
        have hv : ((m1.modify t1 (Cell.setNode none)).setVar d (some t)).vars d = some t := upd_same _ _ _
        refine .ok (fin ⟨hp, hreg, htake, .inr ⟨t, t1, k, nx, by omega, k5, k2, rfl⟩, ?_, .inr ?_⟩)
        · rw [hv]
          refine Tree.shows (m := (m1.modify t1 (Cell.setNode none)).setVar d (some t)) (p := p) (ref := ref) (e := t1) hp1 (k6.congr fun i h1 h2 => ?_) (fun i h1 h2 => ho i (by omega) (by omega))
          exact modify_ne (show i ≠ t1 by omega) _
        · rcases takeKey_doc_some (key := rootKey) hds with h | ⟨q, h⟩
          · rw [h] at k6; cases k6
          · exact ⟨t, q, hv, k3, h⟩

theorem parse_dead {cfg : Cfg} {m : Mem} {p : Nat} (hp : m.pools p = false) (fuel d : Nat) (ref : Bool) (k : Nat) (content : Bytes) :
    (∀ m', m.parse cfg fuel d p ref content ≠ .ok m') ∧
    ∀ x, m.parse cfg fuel d p ref content = .error (.exn x) → Bridge.parse cfg ⟨false, ref, k⟩ fuel content = .error (.exn x) := by
  unfold Bridge.parse Mem.parse
  cases initFromContent cfg content with
  | error e => exact ⟨(fun m' h => by cases h), (fun x h => by simp only [error_bind] at h ⊢; cases h; rfl)⟩
  | ok s =>
    have : ∀ c, m.alloc p c = .error (.ub .danglingPool) := fun c => by unfold Mem.alloc; rw [hp]; rfl
    simp only [ok_bind, this, error_bind]
    exact ⟨(fun m' h => by cases h), (fun x h => by cases h)⟩

/-! ### `Parse` keeps the invariant -/

/-- The cells after a `Parse` that returned. -/
theorem Parsed.effect {m m' m1 : Mem} {d p : Nat} {D : Nat → Prop} {ref : Bool} {fuel : Nat} {o : Obj} {root : Nat}
    (h : Parsed m m' d p D ref fuel o m1 root) :
    m'.pools = m.pools ∧ m.top ≤ m'.top ∧ m'.owner = m1.owner ∧ m'.top = m1.top ∧ (∀ y, y ≠ d → m'.vars y = m.vars y) ∧
    (∀ i : Nat, i < m.top → m'.cells i = m.cells i) ∧ (∀ i : Nat, i < m.top → m'.owner i = m.owner i) ∧
    (∀ (i : Nat) (c : Cell), m.top ≤ i → m'.cells i = some c → m'.owner i = some p ∧ OfClass D ref c) ∧
    (∀ i : Nat, m'.top ≤ i → m'.cells i = none) := by
  have hg := h.region
  rcases h.after with e | ⟨t, t1, k, n, k1, k2, k3, e⟩
  · subst e
    exact ⟨hg.pools, hg.top, rfl, rfl, fun y hy => by show upd _ _ _ _ = _; rw [upd_ne _ _ hy, hg.vars], hg.cells, hg.owner, hg.new, hg.fresh⟩
  · subst e
    refine ⟨hg.pools, hg.top, rfl, rfl, fun y hy => by show upd _ _ _ _ = _; rw [upd_ne _ _ hy]; exact congrFun hg.vars y, fun i hi => ?_,
      hg.owner, fun i c h1 h2 => ?_, fun i hi => ?_⟩
    · exact (modify_ne (m := m1) (show i ≠ t1 by omega) _).trans (hg.cells i hi)
    · change (m1.modify t1 (Cell.setNode none)).cells i = _ at h2
      by_cases hi : i = t1
      · subst hi
        rw [modify_same k3] at h2; cases h2
        exact ⟨(hg.new i _ h1 k3).1, trivial⟩
      · rw [modify_ne hi] at h2; exact hg.new i c h1 h2
    · have : m1.top ≤ i := hi
      exact (modify_ne (m := m1) (show i ≠ t1 by omega) _).trans (hg.fresh i hi)

theorem Parsed.frames {m m' m1 : Mem} {d p : Nat} {D : Nat → Prop} {ref : Bool} {fuel : Nat} {o : Obj} {root : Nat}
    (h : Parsed m m' d p D ref fuel o m1 root) : m'.frames = m1.frames ∧ ∀ q, m.frames q = true → m'.frames q = true := by
  have hg := h.region.frames
  rcases h.after with e | ⟨t, t1, k, n, k1, k2, k3, e⟩ <;> subst e <;> exact ⟨rfl, hg⟩

theorem Parsed.live {m m' m1 : Mem} {d p : Nat} {D : Nat → Prop} {ref : Bool} {fuel : Nat} {o : Obj} {root : Nat}
    (hP : Parsed m m' d p D ref fuel o m1 root) (hD : ∀ q, D q → m'.pools q = true ∨ m'.frames q = true) (h : Live m) : Live m' := by
  obtain ⟨hpools, htop, _, etop, hvars, hcells, howner, hnew, hfresh⟩ := hP.effect
  constructor
  · intro r c e
    by_cases h1 : r < m.top
    · rw [howner r h1]; rw [hcells r h1] at e; exact h.owner r c e
    · rw [(hnew r c (Nat.not_lt.1 h1) e).1]; simp
  · intro r k q hd s e
    by_cases h1 : r < m.top
    · rw [hcells r h1] at e
      rw [hpools]
      rcases h.pool r k q hd s e with h2 | h2
      · exact .inl h2
      · exact .inr (hP.frames.2 q h2)
    · obtain ⟨_, hcl⟩ := hnew r _ (Nat.not_lt.1 h1) e
      cases k with
      | array => exact hD q hcl
      | map v => exact hD q hcl.2

/-- The memory after a `Parse` that returned. -/
theorem Parsed.inv {m m' m1 : Mem} {d p : Nat} {D : Nat → Prop} {ref : Bool} {fuel : Nat} {o : Obj} {root : Nat}
    (h : Parsed m m' d p D ref fuel o m1 root) {L : Ref → List Ref}
    (hi : Inv m L) : ∃ L2, Local m1.cells m.top m1.top L2 ∧ Inv m' (fun c => L c ++ L2 c) ∧
      (abs (m1.setVar d (some root)) (fun c => L c ++ L2 c)).Step (.take d root rootKey) (abs m' (fun c => L c ++ L2 c)) := by
  obtain ⟨L2, hl⟩ := h.region.loc
  have hinv := hi.region h.region hl d
  have htake : (m1.setVar d (some root)).take fuel d (some root) rootKey = .ok m' := by
    rw [← h.take]
    have hfind : ∀ (n : Nat) a, (m1.setVar d (some root)).find rootKey n a = m1.find rootKey n a := by
      intro n
      induction n with
      | zero => intro a; cases a <;> rfl
      | succ n ih =>
        intro a
        cases a with
        | none => rfl
        | some a =>
          simp only [Mem.find]
          rw [show (m1.setVar d (some root)).loadItem (some a) = m1.loadItem (some a) from rfl]
          cases m1.loadItem (some a) with
          | error e => rfl
          | ok q => simp only [ok_bind, ih]
    unfold Mem.take
    rw [show (m1.setVar d (some root)).loadCont false (some root) = m1.loadCont false (some root) from rfl]
    cases m1.loadCont false (some root) with
    | error e => rfl
    | ok q =>
      simp only [ok_bind, hfind]
      cases m1.find rootKey fuel q.2.2.2.1 with
      | error e => rfl
      | ok it =>
        simp only [ok_bind]
        have hset : ∀ (mm : Mem) (a b : Option Ref), (mm.setVar d a).setVar d b = mm.setVar d b := by
          intro mm a b
          unfold Mem.setVar
          simp only [upd_upd]
        cases it with
        | none => simp only [Option.isNone_none, if_true, hset]
        | some i =>
          simp only [Option.isNone_some, Bool.false_eq_true, if_false]
          rw [show (m1.setVar d (some root)).loadItem (some i) = m1.loadItem (some i) from rfl]
          cases m1.loadItem (some i) with
          | error e => rfl
          | ok q2 =>
            simp only [ok_bind]
            have : ((m1.setVar d (some root)).modify q2.1 (Cell.setNode none)).setVar d q2.2.2.1 = (m1.modify q2.1 (Cell.setNode none)).setVar d q2.2.2.1 := by
              show ((m1.modify q2.1 (Cell.setNode none)).setVar d (some root)).setVar d q2.2.2.1 = _
              exact hset _ _ _
            rw [this]
  obtain ⟨h1, r, e, h2⟩ := sim_take hinv htake
  cases e
  exact ⟨L2, hl, h1, h2⟩

end Bridge.Heap
