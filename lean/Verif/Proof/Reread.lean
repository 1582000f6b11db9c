import Verif.Model.Reread
import Verif.Model.CoParse
import Verif.Proof.Sound
import Verif.Props.Views
/-
The recursive parser does not look at the bytes of the strings it makes views of.
-/
set_option autoImplicit false
namespace Bridge
open Spec

/-- The views in `vs` show the byte at `x`. -/
def Shown (vs : List Str) (x : Nat) : Prop := ∃ s ∈ vs, ∃ a n, s.loc = some (a, n) ∧ a ≤ x ∧ x < a + n

/-- Two buffers agree between `i` and `j` except where the views show. -/
def AgreeBut (mem mem' : Bytes) (vs : List Str) (i j : Nat) : Prop := ∀ x, i ≤ x → x < j → mem'[x]? = mem[x]? ∨ Shown vs x

/-- Two buffers agree between `i` and `j`. -/
def AgreeOn (mem mem' : Bytes) (i j : Nat) : Prop := ∀ x, i ≤ x → x < j → mem'[x]? = mem[x]?

theorem AgreeOn.mono {mem mem' : Bytes} {i j i' j' : Nat} (h : AgreeOn mem mem' i j) (hi : i ≤ i') (hj : j' ≤ j) : AgreeOn mem mem' i' j' :=
  fun x h1 h2 => h x (by omega) (by omega)

theorem readByte_congr {mem mem' : Bytes} (hl : mem'.length = mem.length) {a : Nat} (h : mem'[a]? = mem[a]?) : readByte mem' a = readByte mem a := by
  unfold readByte; rw [h, hl]

theorem varintGo_congr {cfg : Cfg} {mem : Bytes} {addr : Nat} {len : Int} (k : Nat) : ∀ (i acc n b : Nat), k + i ≤ 10 →
    varintDecodeGo cfg mem addr len k i acc = .ok (n, b) → i < b ∧ b ≤ 10 ∧ ∀ mem' : Bytes, mem'.length = mem.length →
      AgreeOn mem mem' (addr + i) (addr + b) → varintDecodeGo cfg mem' addr len k i acc = .ok (n, b) := by
  induction k with
  | zero => intro i acc n b _ h; simp only [varintDecodeGo] at h; obtain ⟨_, _, h⟩ := bind_ok h; cases h
  | succ k ih =>
    intro i acc n b hk h
    simp only [varintDecodeGo] at h
    obtain ⟨c, hc, h⟩ := bind_ok h
    by_cases h1 : c &&& 0x80 ≠ 0
    · rw [if_pos h1] at h
      by_cases h2 : (cfg.asserts && !(decide (((i + 1 : Nat) : Int) < len))) = true
      · rw [if_pos h2] at h; cases h
      · rw [if_neg h2] at h
        obtain ⟨g1, g3, g2⟩ := ih _ _ _ _ (by omega) h
        refine ⟨by omega, g3, fun mem' hl ha => ?_⟩
        simp only [varintDecodeGo]
        rw [readByte_congr hl (ha _ (Nat.le_refl _) (by omega)), hc]
        simp only [ok_bind]
        rw [if_pos h1, if_neg h2]
        exact g2 mem' hl (ha.mono (by omega) (Nat.le_refl _))
    · rw [if_neg h1] at h
      simp only [pure_eq_ok, Except.ok.injEq, Prod.mk.injEq] at h
      obtain ⟨rfl, rfl⟩ := h
      have hm : (i + 1) % 256 = i + 1 := Nat.mod_eq_of_lt (by omega)
      rw [hm]
      refine ⟨by omega, by omega, fun mem' hl ha => ?_⟩
      simp only [varintDecodeGo]
      rw [readByte_congr hl (ha _ (Nat.le_refl _) (by omega)), hc]
      simp only [ok_bind]
      rw [if_neg h1, hm]
      rfl

theorem checkEmpty_congr {mem mem' : Bytes} (hl : mem'.length = mem.length) (c : Cur) : checkEmpty (View.whole mem') c = checkEmpty (View.whole mem) c := by
  have h : (View.whole mem').len = (View.whole mem).len := hl
  unfold checkEmpty remain; rw [h]

theorem curAddr_congr {mem mem' : Bytes} (hl : mem'.length = mem.length) (c : Cur) : curAddr (View.whole mem') c = curAddr (View.whole mem) c := by
  have h : (View.whole mem').len = (View.whole mem).len := hl
  unfold curAddr; rw [h]; rfl

theorem checkOOR_congr {mem mem' : Bytes} (hl : mem'.length = mem.length) (c : Cur) : checkOOR (View.whole mem') c = checkOOR (View.whole mem) c := by
  have h : (View.whole mem').len = (View.whole mem).len := hl
  unfold checkOOR; rw [h]

theorem remain_congr {mem mem' : Bytes} (hl : mem'.length = mem.length) (c : Cur) : remain (View.whole mem') c = remain (View.whole mem) c := by
  simp only [remain, View.whole, hl]

theorem parseLength_congr {cfg : Cfg} {mem mem' : Bytes} (hs : mem.length < 2 ^ 63) (hl : mem'.length = mem.length) {i n j : Nat}
    (h : parseLength cfg (View.whole mem) ⟨i, i⟩ = .ok (n, ⟨j, j⟩)) (ha : AgreeOn mem mem' i j) :
    parseLength cfg (View.whole mem') ⟨i, i⟩ = .ok (n, ⟨j, j⟩) := by
  have h0 := h
  unfold parseLength at h ⊢
  obtain ⟨_, e1, h1⟩ := bind_ok h
  clear h
  obtain ⟨a, e2, h2⟩ := bind_ok h1
  clear h1
  obtain ⟨⟨m, b⟩, e3, h3⟩ := bind_ok h2
  clear h2
  obtain ⟨_, e4, h⟩ := bind_ok h3
  clear h3
  simp only [pure_eq_ok, Except.ok.injEq, Prod.mk.injEq] at h
  obtain ⟨rfl, h⟩ := h
  obtain ⟨rfl, hlt⟩ := curAddr_inv e2
  obtain ⟨g1, g3, g2⟩ := varintGo_congr 10 0 0 m b (by omega) e3
  have hj : j = a + b := by
    simp only [skip, bump, Cur.mk.injEq] at h
    rw [addW_of_lt (by omega)] at h
    exact h.1.symm
  rw [checkEmpty_congr hl, curAddr_congr hl, remain_congr hl, e1, e2]
  simp only [ok_bind, whole_mem]
  have e3' := g2 mem' hl (by rw [Nat.add_zero, ← hj]; exact ha)
  have : varintDecode cfg mem' a (toI32 (remain (View.whole mem) ⟨a, a⟩)) = .ok (m, b) := e3'
  rw [this]
  simp only [ok_bind]
  rw [checkOOR_congr hl, e4]
  simp only [ok_bind, pure_eq_ok, h]

theorem readRange_congr {mem mem' : Bytes} (hl : mem'.length = mem.length) {a n : Nat} (hle : a + n ≤ mem.length) (ha : AgreeOn mem mem' a (a + n)) :
    readRange mem' a n = readRange mem a n := by
  unfold readRange
  rw [hl, if_pos (by omega), if_pos (by omega)]
  congr 1
  apply List.ext_getElem?
  intro x
  simp only [List.getElem?_take, List.getElem?_drop]
  split
  · rename_i hx
    rw [List.getElem?_append_left (by omega), List.getElem?_append_left (by omega)]
    exact ha _ (by omega) (by omega)
  · rfl

theorem parseDataType_congr {mem mem' : Bytes} (hl : mem'.length = mem.length) {i : Nat} (h : mem'[i]? = mem[i]?) :
    parseDataType (View.whole mem') ⟨i, i⟩ = parseDataType (View.whole mem) ⟨i, i⟩ := by
  unfold parseDataType
  simp only [checkEmpty_congr hl, curAddr_congr hl, checkOOR_congr hl, whole_mem]
  cases hc : checkEmpty (View.whole mem) ⟨i, i⟩ with
  | error e => rfl
  | ok u =>
    simp only [ok_bind]
    cases ha : curAddr (View.whole mem) ⟨i, i⟩ with
    | error e => rfl
    | ok a =>
      obtain ⟨rfl, -⟩ := curAddr_inv ha
      simp only [ok_bind, readByte_congr hl h]

theorem parseObjectType_congr {mem mem' : Bytes} (hl : mem'.length = mem.length) {i : Nat} (h : mem'[i]? = mem[i]?) :
    parseObjectType (View.whole mem') ⟨i, i⟩ = parseObjectType (View.whole mem) ⟨i, i⟩ := by
  unfold parseObjectType
  simp only [checkEmpty_congr hl, curAddr_congr hl, checkOOR_congr hl, whole_mem]
  cases hc : checkEmpty (View.whole mem) ⟨i, i⟩ with
  | error e => rfl
  | ok u =>
    simp only [ok_bind]
    cases ha : curAddr (View.whole mem) ⟨i, i⟩ with
    | error e => rfl
    | ok a =>
      obtain ⟨rfl, -⟩ := curAddr_inv ha
      simp only [ok_bind, readByte_congr hl h]

/-! ### the tree -/

/-- Every view lies between `i` and `j`, or in the dictionary, which begins at `D`. -/
def Bounded (vs : List Str) (D i j : Nat) : Prop := ∀ s ∈ vs, ∃ a n, s.loc = some (a, n) ∧ ((i ≤ a ∧ a + n ≤ j) ∨ D ≤ a)

theorem Bounded.mono {vs : List Str} {D i j i' j' : Nat} (h : Bounded vs D i j) (hi : i' ≤ i) (hj : j ≤ j') : Bounded vs D i' j' :=
  fun s hs => by
    obtain ⟨a, n, h1, h2⟩ := h s hs
    exact ⟨a, n, h1, by omega⟩

/-- Views between `i` and `j` do not show anything outside. -/
theorem Bounded.out {vs : List Str} {D i j x : Nat} (h : Bounded vs D i j) (hx : x < i ∨ j ≤ x) (hD : x < D) : ¬ Shown vs x := by
  rintro ⟨s, hs, a, n, e, h1, h2⟩
  obtain ⟨a', n', e', h3⟩ := h s hs
  rw [e] at e'
  simp only [Option.some.injEq, Prod.mk.injEq] at e'
  omega

theorem Shown.append {vs ws : List Str} {x : Nat} (h : Shown (vs ++ ws) x) : Shown vs x ∨ Shown ws x := by
  obtain ⟨s, hs, r⟩ := h
  rcases List.mem_append.mp hs with h | h
  · exact .inl ⟨s, h, r⟩
  · exact .inr ⟨s, h, r⟩

theorem Bounded.append {vs ws : List Str} {D i j : Nat} (h1 : Bounded vs D i j) (h2 : Bounded ws D i j) : Bounded (vs ++ ws) D i j :=
  fun s hs => (List.mem_append.mp hs).elim (h1 s) (h2 s)

theorem AgreeBut.left {mem mem' : Bytes} {vs ws : List Str} {D i j i' j' k l : Nat} (h : AgreeBut mem mem' (vs ++ ws) i j) (hb : Bounded ws D k l)
    (hi : i ≤ i') (hj : j' ≤ j) (hD : j' ≤ D) (ha : l ≤ i' ∨ j' ≤ k) : AgreeBut mem mem' vs i' j' := by
  intro x h1 h2
  rcases h x (by omega) (by omega) with h | h
  · exact .inl h
  · rcases h.append with h | h
    · exact .inr h
    · exact absurd h (hb.out (by omega) (by omega))

theorem AgreeBut.right {mem mem' : Bytes} {vs ws : List Str} {D i j i' j' k l : Nat} (h : AgreeBut mem mem' (vs ++ ws) i j) (hb : Bounded vs D k l)
    (hi : i ≤ i') (hj : j' ≤ j) (hD : j' ≤ D) (ha : l ≤ i' ∨ j' ≤ k) : AgreeBut mem mem' ws i' j' := by
  intro x h1 h2
  rcases h x (by omega) (by omega) with h | h
  · exact .inl h
  · rcases h.append with h | h
    · exact absurd h (hb.out (by omega) (by omega))
    · exact .inr h

theorem AgreeBut.plain {mem mem' : Bytes} {vs : List Str} {D i j i' j' k l : Nat} (h : AgreeBut mem mem' vs i j) (hb : Bounded vs D k l)
    (hi : i ≤ i') (hj : j' ≤ j) (hD : j' ≤ D) (ha : l ≤ i' ∨ j' ≤ k) : AgreeOn mem mem' i' j' := by
  intro x h1 h2
  rcases h x (by omega) (by omega) with h | h
  · exact h
  · exact absurd h (hb.out (by omega) (by omega))

/-- What the dictionaries of the two parses have to do with each other. -/
structure Dicts (cfg : Cfg) (mem' : Bytes) (sm sm' : Option StringMap) (D : Nat) : Prop where
  none : sm = .none → sm' = .none
  some : ∀ m, sm = .some m → ∃ m', sm' = .some m' ∧ ∀ id s, m.lookup cfg id = .ok s → m'.lookup cfg id = .ok (s.reread mem')

/-- The strings of the dictionary lie behind `D`. -/
def DictFrom (cfg : Cfg) (sm : Option StringMap) (D : Nat) : Prop :=
  ∀ m, sm = some m → ∀ id s, m.lookup cfg id = .ok s → ∃ a n, s.loc = some (a, n) ∧ D ≤ a

theorem parseNum_congr {cfg : Cfg} {k : Nat} {mem mem' : Bytes} (hl : mem'.length = mem.length) {a n : Nat} (hle : a + n ≤ mem.length)
    (ha : AgreeOn mem mem' a (a + n)) : parseNum cfg k mem' a n = parseNum cfg k mem a n := by
  unfold parseNum; rw [readRange_congr hl hle ha]

theorem parseDataView_congr {cfg : Cfg} {dt : UInt8} {mem mem' : Bytes} (hl : mem'.length = mem.length) {a n : Nat} {p : Payload} (hle : a + n ≤ mem.length)
    (h : parseDataView cfg dt mem a n = .ok p) :
    ((∃ s, p = .view s ∧ s.loc = some (a, n)) ∨ (∀ s, p ≠ .view s)) ∧
    ((∃ s, p = .view s) ∨ AgreeOn mem mem' a (a + n) → parseDataView cfg dt mem' a n = .ok (p.reread mem')) := by
  unfold parseDataView at h ⊢
  by_cases hv : dt = BRIDGE_BYTES ∨ dt = BRIDGE_STRING
  · rw [if_pos hv] at h ⊢
    cases h
    exact ⟨.inl ⟨_, rfl, rfl⟩, fun _ => rfl⟩
  · rw [if_neg hv] at h ⊢
    have key : ∀ s, p ≠ .view s := by
      intro s hs
      subst hs
      repeat' split at h
      all_goals first
        | cases h; done
        | (obtain ⟨x, -, h⟩ := bind_ok h; cases h; done)
    refine ⟨.inr key, fun hag => ?_⟩
    rcases hag with ⟨s, hs⟩ | hag
    · exact absurd hs (key s)
    · have hp : p.reread mem' = p := by cases p <;> first | rfl | exact absurd rfl (key _)
      rw [hp]
      simp only [parseNum_congr hl hle hag]
      exact h

/-- All the views lie inside the buffer. -/
def Ins (vs : List Str) : Prop := ∀ s ∈ vs, ∀ a n, s.loc = some (a, n) → a + n < 2 ^ 64

theorem parseNum_short {cfg : Cfg} {k : Nat} {mem : Bytes} {a n v : Nat} (h : parseNum cfg k mem a n = .ok v) : n ≤ k := by
  unfold parseNum at h
  split at h
  · cases h
  split at h
  · cases h
  · omega

theorem dataView_short {cfg : Cfg} {dt : UInt8} {mem : Bytes} {a n : Nat} {p : Payload} (h : parseDataView cfg dt mem a n = .ok p) :
    (∃ s, p = .view s ∧ s.loc = some (a, n)) ∨ n ≤ 8 := by
  unfold parseDataView at h
  by_cases hv : dt = BRIDGE_BYTES ∨ dt = BRIDGE_STRING
  · rw [if_pos hv] at h
    cases h
    exact .inl ⟨_, rfl, rfl⟩
  · rw [if_neg hv] at h
    right
    repeat' split at h
    all_goals first
      | cases h; done
      | (obtain ⟨x, hx, h⟩ := bind_ok h; have := parseNum_short hx; omega)

/-- What is said about a step of the parser that goes from `i` to the cursor `c` and makes `x` with the views `vs`; `run` is the same step
with another buffer and dictionary. -/
def Blind {α : Type} (cfg : Cfg) (mem : Bytes) (sm : Option StringMap) (D i : Nat) (c : Cur) (vs : List Str) (re : Bytes → α)
    (run : Bytes → Option StringMap → Res (α × Cur)) : Prop :=
  ∃ j, c = ⟨j, j⟩ ∧ i ≤ j ∧ j ≤ mem.length ∧ Bounded vs D i j ∧ ∀ (mem' : Bytes) (sm' : Option StringMap), mem'.length = mem.length →
    Dicts cfg mem' sm sm' D → j ≤ D → AgreeBut mem mem' vs i j → run mem' sm' = .ok (re mem', ⟨j, j⟩)

/-- A leaf whose payload stands where the leaf does. -/
def reInlineLeaf (cfg : Cfg) (v : View) (dt : UInt8) (c : Cur) : Res (Obj × Cur) := do
  let (size, c) ← parseLength cfg v c
  let addr ← curAddr v c
  let p ← parseDataView cfg dt v.mem addr size
  let c := skip c size
  checkOOR v c
  let c := bump c size
  pure (.data true dt p, c)

theorem reViewObj_inline {cfg : Cfg} {v : View} {sm : Option StringMap} {c c1 : Cur} {dt : UInt8} {u : Unit} (e1 : parseDataType v c = .ok (dt, c1))
    (e2 : checkDataType dt = .ok u) (h : sm = none ∨ dt ≠ BRIDGE_STRING) : parseViewObj cfg v sm c = reInlineLeaf cfg v dt c1 := by
  unfold parseViewObj
  rw [e1]
  simp only [ok_bind, e2]
  cases sm with
  | none => rfl
  | some m =>
    have hne : dt ≠ BRIDGE_STRING := by rcases h with h | h; cases h; exact h
    simp only [hne, decide_false]
    rfl

theorem leaf_blind {cfg : Cfg} {mem : Bytes} {sm : Option StringMap} {D i : Nat} {o : Obj} {c : Cur} (hs : mem.length < 2 ^ 63)
    (hd : DictFrom cfg sm D) (hins : Ins o.views) (h : parseViewObj cfg (View.whole mem) sm ⟨i, i⟩ = .ok (o, c)) :
    Blind cfg mem sm D i c o.views o.reread (fun mem' sm' => parseViewObj cfg (View.whole mem') sm' ⟨i, i⟩) := by
  have h0 := h
  unfold parseViewObj at h
  obtain ⟨⟨dt, c1⟩, e1, h1⟩ := bind_ok h
  clear h
  obtain ⟨hi, hlt, rfl⟩ := parseDataType_inv hs e1
  obtain ⟨_, e2, h2⟩ := bind_ok h1
  clear h1
  by_cases hstr : (∃ m, sm = some m) ∧ dt = BRIDGE_STRING
  · obtain ⟨⟨m, rfl⟩, rfl⟩ := hstr
    simp only [decide_true] at h2
    obtain ⟨⟨n, c2⟩, e3, h3⟩ := bind_ok h2
    clear h2
    obtain ⟨l, f1, f2, f3, rfl⟩ := parseLength_inv hs e3
    obtain ⟨s, e4, h4⟩ := bind_ok h3
    clear h3
    simp only [pure_eq_ok, Except.ok.injEq, Prod.mk.injEq] at h4
    obtain ⟨rfl, rfl⟩ := h4
    have hbd : Bounded (Obj.data true BRIDGE_STRING (.view s)).views D (i + 1 + l.length) (i + 1 + l.length) := by
      intro s' hs'
      simp only [Obj.views, List.mem_singleton] at hs'
      subst hs'
      obtain ⟨a, k, h1, h2⟩ := hd m rfl _ _ e4
      exact ⟨a, k, h1, .inr h2⟩
    refine ⟨i + 1 + l.length, rfl, by omega, by omega, hbd.mono (by omega) (Nat.le_refl _), fun mem' sm' hl hdi hj hag => ?_⟩
    obtain ⟨m', rfl, hm'⟩ := hdi.some m rfl
    have hpl := hag.plain hbd (Nat.le_refl _) (Nat.le_refl _) hj (.inr (Nat.le_refl _))
    simp only []
    unfold parseViewObj
    rw [parseDataType_congr hl (hpl i (Nat.le_refl _) (by omega)), e1]
    simp only [ok_bind, e2, decide_true]
    rw [parseLength_congr hs hl e3 (hpl.mono (by omega) (Nat.le_refl _))]
    simp only [ok_bind, hm' _ _ e4]
    rfl
  · have hin : sm = none ∨ dt ≠ BRIDGE_STRING := by
      cases sm with
      | none => exact .inl rfl
      | some m => exact .inr fun e => hstr ⟨⟨m, rfl⟩, e⟩
    clear h2
    rw [reViewObj_inline e1 e2 hin] at h0
    have h2 := h0
    clear h0
    unfold reInlineLeaf at h2
    obtain ⟨⟨n, c2⟩, e3, h3⟩ := bind_ok h2
    clear h2
    obtain ⟨l, f1, f2, f3, rfl⟩ := parseLength_inv hs e3
    obtain ⟨a, e4, h4⟩ := bind_ok h3
    clear h3
    obtain ⟨rfl, hlt2⟩ := curAddr_inv e4
    obtain ⟨p, e5, h5⟩ := bind_ok h4
    clear h4
    obtain ⟨_, e6, h6⟩ := bind_ok h5
    clear h5
    simp only [pure_eq_ok, Except.ok.injEq, Prod.mk.injEq] at h6
    obtain ⟨rfl, rfl⟩ := h6
    have hno : i + 1 + l.length + n < 2 ^ 64 := by
      rcases dataView_short e5 with ⟨s, rfl, hloc⟩ | h8
      · have := hins s (by simp [Obj.views]) _ _ hloc
        omega
      · omega
    rw [skip_eq hno] at e6 ⊢
    have hle := checkOOR_inv e6
    rw [bump_eq (by omega)]
    rw [whole_mem] at e5
    have hbd : Bounded (Obj.data true dt p).views D (i + 1 + l.length) (i + 1 + l.length + n) := by
      intro s' hs'
      rcases (parseDataView_congr rfl hle e5).1 with ⟨s, rfl, hloc⟩ | hno
      · simp only [Obj.views, List.mem_singleton] at hs'
        subst hs'
        exact ⟨_, _, hloc, .inl ⟨Nat.le_refl _, Nat.le_refl _⟩⟩
      · have : (Obj.data true dt p).views = [] := by cases p <;> first | rfl | exact absurd rfl (hno _)
        rw [this] at hs'; cases hs'
    refine ⟨_, rfl, by omega, by omega, hbd.mono (by omega) (Nat.le_refl _), fun mem' sm' hl hdi hj hag => ?_⟩
    have hpl := hag.plain (j' := i + 1 + l.length) hbd (Nat.le_refl _) (by omega) (by omega) (.inr (Nat.le_refl _))
    simp only []
    have e1' : parseDataType (View.whole mem') ⟨i, i⟩ = .ok (dt, ⟨i + 1, i + 1⟩) := by
      rw [parseDataType_congr hl (hpl i (Nat.le_refl _) (by omega)), e1]
    rw [reViewObj_inline e1' e2 (hin.imp hdi.none id)]
    unfold reInlineLeaf
    rw [parseLength_congr hs hl e3 (hpl.mono (by omega) (Nat.le_refl _))]
    simp only [ok_bind]
    rw [curAddr_congr hl, e4]
    simp only [ok_bind, whole_mem]
    have hp := (parseDataView_congr hl hle e5).2 (by
      rcases (parseDataView_congr rfl hle e5).1 with ⟨s, hs', -⟩ | hno
      · exact .inl ⟨s, hs'⟩
      · have hv : (Obj.data true dt p).views = [] := by cases p <;> first | rfl | exact absurd rfl (hno _)
        refine .inr fun x h1 h2 => ?_
        rcases hag x (by omega) (by omega) with h | ⟨s, hs', -⟩
        · exact h
        · rw [hv] at hs'; cases hs')
    rw [hp]
    simp only [ok_bind]
    rw [skip_eq hno, checkOOR_congr hl, e6]
    simp only [ok_bind, pure_eq_ok]
    rw [bump_eq (by omega)]
    rfl

theorem key_blind {cfg : Cfg} {mem : Bytes} {sm : Option StringMap} {D i : Nat} {k : Str} {c : Cur} (hs : mem.length < 2 ^ 63)
    (hd : DictFrom cfg sm D) (hins : Ins [k]) (h : parseKey cfg (View.whole mem) sm ⟨i, i⟩ = .ok (k, c)) :
    Blind cfg mem sm D i c [k] (fun mem' => k.reread mem') (fun mem' sm' => parseKey cfg (View.whole mem') sm' ⟨i, i⟩) := by
  unfold parseKey at h
  cases sm with
  | none =>
    simp only at h
    obtain ⟨⟨n, c1⟩, e1, h1⟩ := bind_ok h
    clear h
    obtain ⟨l, f1, f2, f3, rfl⟩ := parseLength_inv hs e1
    obtain ⟨a, e2, h2⟩ := bind_ok h1
    clear h1
    obtain ⟨rfl, hlt⟩ := curAddr_inv e2
    obtain ⟨_, e4, h4⟩ := bind_ok h2
    clear h2
    simp only [pure_eq_ok, Except.ok.injEq, Prod.mk.injEq] at h4
    obtain ⟨rfl, rfl⟩ := h4
    have hno : i + l.length + n < 2 ^ 64 := by
      have := hins _ List.mem_cons_self _ _ rfl
      omega
    rw [skip_eq hno] at e4 ⊢
    have hle := checkOOR_inv e4
    rw [bump_eq (by omega)]
    have hbd : Bounded [(⟨slice (View.whole mem).mem (i + l.length) n, some (i + l.length, n)⟩ : Str)] D (i + l.length) (i + l.length + n) := by
      intro s' hs'
      simp only [List.mem_singleton] at hs'
      subst hs'
      exact ⟨_, _, rfl, .inl ⟨Nat.le_refl _, Nat.le_refl _⟩⟩
    refine ⟨_, rfl, by omega, hle, hbd.mono (by omega) (Nat.le_refl _), fun mem' sm' hl hdi hj hag => ?_⟩
    have hpl := hag.plain (j' := i + l.length) hbd (Nat.le_refl _) (by omega) (by omega) (.inr (Nat.le_refl _))
    rw [hdi.none rfl]
    simp only []
    unfold parseKey
    simp only
    rw [parseLength_congr hs hl e1 hpl]
    simp only [ok_bind]
    rw [curAddr_congr hl, e2]
    simp only [ok_bind]
    rw [skip_eq hno, checkOOR_congr hl, e4]
    simp only [ok_bind, pure_eq_ok]
    rw [bump_eq (by omega)]
    rfl
  | some m =>
    simp only at h
    obtain ⟨⟨n, c1⟩, e1, h1⟩ := bind_ok h
    clear h
    obtain ⟨l, f1, f2, f3, rfl⟩ := parseLength_inv hs e1
    obtain ⟨s, e2, h2⟩ := bind_ok h1
    clear h1
    simp only [pure_eq_ok, Except.ok.injEq, Prod.mk.injEq] at h2
    obtain ⟨rfl, rfl⟩ := h2
    have hbd : Bounded [s] D (i + l.length) (i + l.length) := by
      intro s' hs'
      simp only [List.mem_singleton] at hs'
      subst hs'
      obtain ⟨a, k, h1, h2⟩ := hd m rfl _ _ e2
      exact ⟨a, k, h1, .inr h2⟩
    refine ⟨_, rfl, by omega, f3, hbd.mono (by omega) (Nat.le_refl _), fun mem' sm' hl hdi hj hag => ?_⟩
    obtain ⟨m', rfl, hm'⟩ := hdi.some m rfl
    have hpl := hag.plain (j' := i + l.length) hbd (Nat.le_refl _) (Nat.le_refl _) hj (.inr (Nat.le_refl _))
    simp only []
    unfold parseKey
    simp only
    rw [parseLength_congr hs hl e1 hpl]
    simp only [ok_bind, hm' _ _ e2]
    rfl

theorem viewsE_append {ref : Bool} : ∀ (xs ys : List (Str × Obj)), viewsE ref (xs ++ ys) = viewsE ref xs ++ viewsE ref ys
  | [], ys => rfl
  | (k, o) :: xs, ys => by simp only [List.cons_append, viewsE, viewsE_append xs ys, List.append_assoc]

theorem rereadE_append {mem : Bytes} : ∀ (xs ys : List (Str × Obj)), rereadE mem (xs ++ ys) = rereadE mem xs ++ rereadE mem ys
  | [], ys => rfl
  | (k, o) :: xs, ys => by simp only [List.cons_append, rereadE, rereadE_append xs ys]

/-- The entries of a map, last one first, as they lie between `i` and `j`. -/
inductive Laid (D : Nat) : Nat → Nat → List (Str × Obj) → Prop
  | nil {i j : Nat} : i ≤ j → Laid D i j []
  | snoc {i m1 m2 j : Nat} {k : Str} {o : Obj} {es : List (Str × Obj)} : Bounded [k] D i m1 → Bounded o.views D m1 m2 → i ≤ m1 → m1 ≤ m2 →
      Laid D m2 j es → Laid D i j (es ++ [(k, o)])

theorem Laid.le {D i j : Nat} {es : List (Str × Obj)} (h : Laid D i j es) : i ≤ j := by
  induction h with
  | nil h => exact h
  | snoc _ _ h1 h2 _ ih => omega

theorem Laid.bounded {D i j : Nat} {es : List (Str × Obj)} (h : Laid D i j es) : Bounded (viewsE true es) D i j := by
  induction h with
  | nil h => intro s hs; cases hs
  | snoc hk ho h1 h2 hl ih =>
    have := hl.le
    rw [viewsE_append]
    refine (ih.mono (by omega) (Nat.le_refl _)).append ?_
    have e : ∀ (k : Str) (o : Obj), viewsE true [(k, o)] = [k] ++ (o.views ++ []) := fun _ _ => rfl
    rw [e, List.append_nil]
    exact (hk.mono (Nat.le_refl _) (by omega)).append (ho.mono h1 (by omega))

/-- Keys and values do not show the same bytes. -/
theorem Laid.apart {D i j : Nat} {es : List (Str × Obj)} (h : Laid D i j es) : ∀ e ∈ es, ∀ f ∈ es, ∀ x, x < D → Shown [e.1] x → ¬ Shown f.2.views x := by
  have hin : ∀ {k l : Nat} {vs : List Str} {x : Nat}, Bounded vs D k l → x < D → Shown vs x → k ≤ x ∧ x < l := by
    intro k l vs x hb hx hs
    refine ⟨?_, ?_⟩
    · apply Nat.le_of_not_lt; intro hlt; exact hb.out (.inl hlt) hx hs
    · apply Nat.lt_of_not_le; intro hle; exact hb.out (.inr hle) hx hs
  induction h with
  | nil h => intro e he; cases he
  | @snoc i m1 m2 j k o es hk ho h1 h2 hl ih =>
    have hb := hl.bounded
    have hkey : ∀ e ∈ es, ∀ x, Shown [e.1] x → Shown (viewsE true es) x := by
      intro e he x ⟨s, hs, r⟩
      obtain ⟨a, b, rfl⟩ := List.append_of_mem he
      refine ⟨s, ?_, r⟩
      rw [viewsE_append]
      refine List.mem_append.mpr (.inr ?_)
      simp only [viewsE, Bool.true_or, if_true]
      exact List.mem_append.mpr (.inl hs)
    have hval : ∀ e ∈ es, ∀ x, Shown e.2.views x → Shown (viewsE true es) x := by
      intro e he x ⟨s, hs, r⟩
      obtain ⟨a, b, rfl⟩ := List.append_of_mem he
      refine ⟨s, ?_, r⟩
      rw [viewsE_append]
      refine List.mem_append.mpr (.inr ?_)
      simp only [viewsE]
      exact List.mem_append.mpr (.inr (List.mem_append.mpr (.inl hs)))
    intro e he f hf x hx hs hv
    rcases List.mem_append.mp he with he | he <;> rcases List.mem_append.mp hf with hf | hf
    · exact ih e he f hf x hx hs hv
    · simp only [List.mem_singleton] at hf; subst hf
      have a1 := hin hb hx (hkey e he x hs)
      have a2 := hin ho hx hv
      omega
    · simp only [List.mem_singleton] at he; subst he
      have a1 := hin hk hx hs
      have a2 := hin hb hx (hval f hf x hv)
      omega
    · simp only [List.mem_singleton] at he hf; subst he; subst hf
      have a1 := hin hk hx hs
      have a2 := hin ho hx hv
      omega

theorem kvs_acc {cfg : Cfg} {v : View} {sm : Option StringMap} {ref : Bool} {pool : PoolRef} : ∀ (f n : Nat) (c c' : Cur) (acc items : List (Str × Obj)),
    parseKVs cfg v sm ref pool f n c acc = .ok (items, c') → ∃ pre, items = pre ++ acc := by
  intro f
  induction f with
  | zero => intro n c c' acc items h; simp [parseKVs] at h
  | succ f ih =>
    intro n c c' acc items h
    cases n with
    | zero =>
      simp only [parseKVs, Except.ok.injEq, Prod.mk.injEq] at h
      exact ⟨[], h.1.symm⟩
    | succ n =>
      simp only [parseKVs] at h
      obtain ⟨⟨k, c0⟩, e0, h1⟩ := bind_ok h
      obtain ⟨⟨t, c1⟩, e1, h2⟩ := bind_ok h1
      obtain ⟨⟨o, c2⟩, e2, h3⟩ := bind_ok h2
      obtain ⟨k', e3, h4⟩ := bind_ok h3
      obtain ⟨pre, hpre⟩ := ih _ _ _ _ _ h4
      exact ⟨pre ++ [(k', o)], by simp [hpre]⟩

theorem tree_blind {cfg : Cfg} {mem : Bytes} {sm : Option StringMap} {D : Nat} {pool : PoolRef} (hs : mem.length < 2 ^ 63) (hd : DictFrom cfg sm D) :
    ∀ f : Nat,
    (∀ t i o c, i ≤ mem.length → Ins o.views → parseVal cfg (View.whole mem) sm true pool f t ⟨i, i⟩ = .ok (o, c) →
      Blind cfg mem sm D i c o.views o.reread (fun mem' sm' => parseVal cfg (View.whole mem') sm' true pool f t ⟨i, i⟩)) ∧
    (∀ n i os c, i ≤ mem.length → Ins (viewsL os) → parseItems cfg (View.whole mem) sm true pool f n ⟨i, i⟩ = .ok (os, c) →
      Blind cfg mem sm D i c (viewsL os) (fun mem' => rereadL mem' os) (fun mem' sm' => parseItems cfg (View.whole mem') sm' true pool f n ⟨i, i⟩)) ∧
    (∀ n i acc items c, i ≤ mem.length → Ins (viewsE true items) → parseKVs cfg (View.whole mem) sm true pool f n ⟨i, i⟩ acc = .ok (items, c) →
      ∃ es, items = es ++ acc ∧ Laid D i c.idx es ∧ ∀ acc' : Bytes → List (Str × Obj),
        Blind cfg mem sm D i c (viewsE true es) (fun mem' => rereadE mem' es ++ acc' mem')
          (fun mem' sm' => parseKVs cfg (View.whole mem') sm' true pool f n ⟨i, i⟩ (acc' mem'))) := by
  intro f
  induction f with
  | zero =>
    refine ⟨?_, ?_, ?_⟩
    · intro t i o c _ _ h; simp [parseVal] at h
    · intro n i o c _ _ h; simp [parseItems] at h
    · intro n i acc items c _ _ h; simp [parseKVs] at h
  | succ f ih =>
    obtain ⟨ihV, ihI, ihK⟩ := ih
    refine ⟨?_, ?_, ?_⟩
    · intro t i o c hi hins h
      cases t with
      | invalid => simp [parseVal] at h
      | data =>
        simp only [parseVal, if_true] at h
        have := leaf_blind hs hd hins h
        simpa only [parseVal, if_true] using this
      | array =>
        simp only [parseVal] at h
        obtain ⟨⟨n, c1⟩, e1, h1⟩ := bind_ok h
        clear h
        obtain ⟨l, f1, f2, f3, rfl⟩ := parseLength_inv hs e1
        obtain ⟨⟨id, c2⟩, e2, h2⟩ := bind_ok h1
        clear h1
        obtain ⟨l', g1, g2, g3, rfl⟩ := parseLength_inv hs e2
        obtain ⟨⟨items, c3⟩, e3, h3⟩ := bind_ok h2
        clear h2
        simp only [pure_eq_ok, Except.ok.injEq, Prod.mk.injEq] at h3
        obtain ⟨rfl, rfl⟩ := h3
        obtain ⟨j, rfl, j1, j2, hb, hrun⟩ := ihI _ _ _ _ g3 hins e3
        refine ⟨j, rfl, by omega, j2, hb.mono (by omega) (Nat.le_refl _), fun mem' sm' hl hdi hj hag => ?_⟩
        have hpl := hag.plain (j' := i + l.length + l'.length) hb (Nat.le_refl _) (by omega) (by omega) (.inr (Nat.le_refl _))
        have hrun' := hrun mem' sm' hl hdi hj (fun x h1 h2 => hag x (by omega) h2)
        simp only [] at hrun'
        simp only [parseVal]
        rw [parseLength_congr hs hl e1 (hpl.mono (Nat.le_refl _) (by omega))]
        simp only [ok_bind]
        rw [parseLength_congr hs hl e2 (hpl.mono (by omega) (Nat.le_refl _))]
        simp only [ok_bind]
        rw [hrun']
        rfl
      | map =>
        simp only [parseVal] at h
        obtain ⟨⟨n, c1⟩, e1, h1⟩ := bind_ok h
        clear h
        obtain ⟨l, f1, f2, f3, rfl⟩ := parseLength_inv hs e1
        obtain ⟨⟨id, c2⟩, e2, h2⟩ := bind_ok h1
        clear h1
        obtain ⟨l', g1, g2, g3, rfl⟩ := parseLength_inv hs e2
        obtain ⟨⟨items, c3⟩, e3, h3⟩ := bind_ok h2
        clear h2
        simp only [pure_eq_ok, Except.ok.injEq, Prod.mk.injEq] at h3
        obtain ⟨rfl, rfl⟩ := h3
        obtain ⟨es, he, -, hK⟩ := ihK _ _ _ _ _ g3 hins e3
        rw [List.append_nil] at he
        subst he
        obtain ⟨j, rfl, j1, j2, hb, hrun⟩ := hK (fun _ => [])
        refine ⟨j, rfl, by omega, j2, hb.mono (by omega) (Nat.le_refl _), fun mem' sm' hl hdi hj hag => ?_⟩
        have hpl := hag.plain (j' := i + l.length + l'.length) hb (Nat.le_refl _) (by omega) (by omega) (.inr (Nat.le_refl _))
        have hrun' := hrun mem' sm' hl hdi hj (fun x h1 h2 => hag x (by omega) h2)
        simp only [List.append_nil] at hrun'
        simp only [parseVal]
        rw [parseLength_congr hs hl e1 (hpl.mono (Nat.le_refl _) (by omega))]
        simp only [ok_bind]
        rw [parseLength_congr hs hl e2 (hpl.mono (by omega) (Nat.le_refl _))]
        simp only [ok_bind]
        rw [hrun']
        rfl
    · intro n i os c hi hins h
      cases n with
      | zero =>
        simp only [parseItems, Except.ok.injEq, Prod.mk.injEq] at h
        obtain ⟨rfl, rfl⟩ := h
        exact ⟨i, rfl, Nat.le_refl _, hi, (fun s hs' => by cases hs'), fun mem' sm' hl hdi hj hag => rfl⟩
      | succ n =>
        simp only [parseItems] at h
        obtain ⟨⟨t, c1⟩, e1, h1⟩ := bind_ok h
        clear h
        obtain ⟨b, f1, f2, f3, f4, rfl⟩ := parseObjectType_inv hs e1
        obtain ⟨⟨o, c2⟩, e2, h2⟩ := bind_ok h1
        clear h1
        obtain ⟨⟨rest, c3⟩, e3, h3⟩ := bind_ok h2
        clear h2
        simp only [pure_eq_ok, Except.ok.injEq, Prod.mk.injEq] at h3
        obtain ⟨rfl, rfl⟩ := h3
        obtain ⟨j, rfl, j1, j2, hb, hrun⟩ := ihV _ _ _ _ (by omega) (fun s hs' => hins s (List.mem_append.mpr (.inl hs'))) e2
        obtain ⟨j', rfl, j1', j2', hb', hrun'⟩ := ihI _ _ _ _ j2 (fun s hs' => hins s (List.mem_append.mpr (.inr hs'))) e3
        have hbd : Bounded (viewsL (o :: rest)) D (i + 1) j' := (hb.mono (Nat.le_refl _) j1').append (hb'.mono j1 (Nat.le_refl _))
        refine ⟨j', rfl, by omega, j2', hbd.mono (by omega) (Nat.le_refl _), fun mem' sm' hl hdi hj hag => ?_⟩
        have hpl := hag.plain (j' := i + 1) hbd (Nat.le_refl _) (by omega) (by omega) (.inr (Nat.le_refl _))
        have r1 := hrun mem' sm' hl hdi (by omega) (AgreeBut.left (vs := o.views) (ws := viewsL rest) hag hb' (by omega) (by omega) (by omega) (.inr (Nat.le_refl _)))
        have r2 := hrun' mem' sm' hl hdi hj (AgreeBut.right (vs := o.views) (ws := viewsL rest) hag hb (by omega) (Nat.le_refl _) hj (.inl (Nat.le_refl _)))
        simp only [] at r1 r2
        simp only [parseItems]
        rw [parseObjectType_congr hl (hpl i (Nat.le_refl _) (by omega)), e1]
        simp only [ok_bind, r1, r2]
        rfl
    · intro n i acc items c hi hins h
      cases n with
      | zero =>
        simp only [parseKVs, Except.ok.injEq, Prod.mk.injEq] at h
        obtain ⟨rfl, rfl⟩ := h
        exact ⟨[], rfl, .nil (Nat.le_refl _), fun acc' => ⟨i, rfl, Nat.le_refl _, hi, (fun s hs' => by cases hs'), fun mem' sm' hl hdi hj hag => rfl⟩⟩
      | succ n =>
        simp only [parseKVs] at h
        obtain ⟨⟨k, c0⟩, e0, h1⟩ := bind_ok h
        clear h
        obtain ⟨⟨t, c1⟩, e1, h2⟩ := bind_ok h1
        clear h1
        obtain ⟨⟨o, c2⟩, e2, h3⟩ := bind_ok h2
        clear h2
        simp only [ownKey, if_true, ok_bind] at h3
        obtain ⟨pre, hpre⟩ := kvs_acc f n _ _ _ _ h3
        have hko : Ins ([k] ++ o.views) := by
          intro s hs'
          refine hins s ?_
          rw [hpre, viewsE_append]
          refine List.mem_append.mpr (.inr ?_)
          simp only [viewsE, Bool.true_or, if_true]
          rw [← List.append_assoc]
          exact List.mem_append.mpr (.inl hs')
        obtain ⟨j0, rfl, j01, j02, hb0, hrun0⟩ := key_blind hs hd (fun s hs' => hko s (List.mem_append.mpr (.inl hs'))) e0
        obtain ⟨b, f1, f2, f3, f4, rfl⟩ := parseObjectType_inv hs e1
        obtain ⟨j, rfl, j1, j2, hb, hrun⟩ := ihV _ _ _ _ (by omega) (fun s hs' => hko s (List.mem_append.mpr (.inr hs'))) e2
        obtain ⟨es, rfl, hlaid, hK⟩ := ihK _ _ _ _ _ j2 hins h3
        have hlaid' : Laid D i c.idx (es ++ [(k, o)]) := .snoc hb0 (hb.mono (by omega : j0 ≤ j0 + 1) (Nat.le_refl _)) (by omega) (by omega) hlaid
        refine ⟨es ++ [(k, o)], by simp, hlaid', fun acc' => ?_⟩
        obtain ⟨j', rfl, j1', j2', hb', hrun'⟩ := hK (fun mem' => (k.reread mem', o.reread mem') :: acc' mem')
        refine ⟨j', rfl, by omega, j2', hlaid'.bounded, fun mem' sm' hl hdi hj hag => ?_⟩
        have hv : viewsE true (es ++ [(k, o)]) = viewsE true es ++ ([k] ++ o.views) := by
          rw [viewsE_append]; simp [viewsE]
        rw [hv] at hag
        have hbko : Bounded ([k] ++ o.views) D i j := (hb0.mono (Nat.le_refl _) (by omega)).append (hb.mono (by omega) (Nat.le_refl _))
        have hag1 : AgreeBut mem mem' ([k] ++ o.views) i j := hag.right hb' (Nat.le_refl _) (by omega) (by omega) (.inr (Nat.le_refl _))
        have hag2 : AgreeBut mem mem' (viewsE true es) j j' := hag.left hbko (by omega) (Nat.le_refl _) hj (.inl (Nat.le_refl _))
        have hagk : AgreeBut mem mem' [k] i j0 := hag1.left hb (Nat.le_refl _) (by omega) (by omega) (.inr (by omega))
        have hago : AgreeBut mem mem' o.views (j0 + 1) j := hag1.right hb0 (by omega) (Nat.le_refl _) (by omega) (.inl (by omega))
        have hpl : AgreeOn mem mem' j0 (j0 + 1) := by
          have h1 : AgreeBut mem mem' o.views j0 j := hag1.right hb0 (by omega) (Nat.le_refl _) (by omega) (.inl (Nat.le_refl _))
          exact h1.plain hb (Nat.le_refl _) (by omega) (by omega) (.inr (Nat.le_refl _))
        have r0 := hrun0 mem' sm' hl hdi (by omega) hagk
        have r1 := hrun mem' sm' hl hdi (by omega) hago
        have r2 := hrun' mem' sm' hl hdi hj hag2
        simp only [] at r0 r1 r2
        simp only [parseKVs, r0, ok_bind]
        rw [parseObjectType_congr hl (hpl j0 (Nat.le_refl _) (by omega)), e1]
        simp only [ok_bind, r1, ownKey, if_true, r2, rereadE_append, rereadE, List.append_assoc]
        rfl

end Bridge
