import Verif.Proof.RereadDoc
import Verif.Proof.CoTight
/-
The parallel parser does not look at the bytes of the strings it makes views of, when every block ends where the table says.
-/
set_option autoImplicit false
namespace Bridge
open Spec

/-- Between `i` and `j` stands what gives the views `vs`, and `R` holds of every buffer that differs there at most where the views are. -/
def Seg (mem : Bytes) (i j : Nat) (vs : List Str) (R : Bytes → Prop) : Prop :=
  i ≤ j ∧ j ≤ mem.length ∧ Bounded vs (2 ^ 64) i j ∧ vs.Pairwise Apart ∧
    ∀ mem' : Bytes, mem'.length = mem.length → AgreeBut mem mem' vs i j → R mem'

section
variable {mem : Bytes} {i j k : Nat} {vs ws : List Str} {R S : Bytes → Prop}

theorem Seg.imp (h : Seg mem i j vs R) (hi : ∀ m : Bytes, m.length = mem.length → R m → S m) : Seg mem i j vs S :=
  ⟨h.1, h.2.1, h.2.2.1, h.2.2.2.1, fun m h1 h2 => hi m h1 (h.2.2.2.2 m h1 h2)⟩

theorem Seg.plain (h : i ≤ j) (hj : j ≤ mem.length) : Seg mem i j [] (fun m => AgreeOn mem m i j) :=
  ⟨h, hj, (fun s hs => by cases hs), List.Pairwise.nil, fun m _ ha x h1 h2 => (ha x h1 h2).resolve_right (by rintro ⟨s, hs, -⟩; cases hs)⟩

theorem Seg.append (hs : mem.length < 2 ^ 63) (h : Seg mem i j vs R) (h' : Seg mem j k ws S) (iv : Ins vs) (iw : Ins ws) :
    Seg mem i k (vs ++ ws) (fun m => R m ∧ S m) := by
  obtain ⟨a1, a2, a3, a4, a5⟩ := h
  obtain ⟨b1, b2, b3, b4, b5⟩ := h'
  refine ⟨by omega, b2, (a3.mono (Nat.le_refl _) b1).append (b3.mono a1 (Nat.le_refl _)),
    List.pairwise_append.mpr ⟨a4, b4, bounded_apart a3 b3 iv iw (.inl (Nat.le_refl _))⟩, fun m hm ha => ⟨a5 m hm ?_, b5 m hm ?_⟩⟩
  · exact ha.left b3 (Nat.le_refl _) b1 (by omega) (.inr (Nat.le_refl _))
  · exact ha.right a3 a1 (Nat.le_refl _) (by omega) (.inl (Nat.le_refl _))

theorem Seg.perm (h : Seg mem i j vs R) (hp : vs.Perm ws) : Seg mem i j ws R := by
  obtain ⟨a1, a2, a3, a4, a5⟩ := h
  refine ⟨a1, a2, fun s hs => a3 s (hp.mem_iff.mpr hs), hp.pairwise a4 (fun {_ _} h => h.symm), fun m hm ha => a5 m hm fun x h1 h2 => ?_⟩
  refine (ha x h1 h2).imp (fun h => h) ?_
  rintro ⟨s, hs, r⟩
  exact ⟨s, hp.mem_iff.mpr hs, r⟩

end

theorem no_dict (cfg : Cfg) (mem' : Bytes) : Dicts cfg mem' none none (2 ^ 64) := ⟨fun h => h, fun m hm => by cases hm⟩

theorem value_seg {cfg : Cfg} {mem : Bytes} (hs : mem.length < 2 ^ 63) {f : Nat} {t : ObjectType} {i : Nat} {o : Obj} {c : Cur}
    (hi : i ≤ mem.length) (hins : Ins o.views) (h : parseVal cfg (View.whole mem) none true .frame f t ⟨i, i⟩ = .ok (o, c)) :
    ∃ j, c = ⟨j, j⟩ ∧ Seg mem i j o.views (fun m => parseVal cfg (View.whole m) none true .frame f t ⟨i, i⟩ = .ok (o.reread m, ⟨j, j⟩)) := by
  obtain ⟨j, rfl, j1, j2, hb, hrun⟩ := (tree_blind (pool := .frame) (D := 2 ^ 64) hs (by intro m hm; cases hm) f).1 _ _ _ _ hi hins h
  exact ⟨j, rfl, j1, j2, hb, (tree_apart (pool := .frame) hs f).1 _ _ _ _ hi hins h,
    fun m hm ha => hrun m none hm (no_dict cfg m) (by omega) ha⟩

theorem keyBlock_seg {cfg : Cfg} {mem : Bytes} (hs : mem.length < 2 ^ 63) {i : Nat} {k : Str} {c : Cur} (hins : Ins [k])
    (h : parseKeyBlock cfg (View.whole mem) none true ⟨i, i⟩ = .ok (k, c)) :
    ∃ j, c = ⟨j, j⟩ ∧ (j ≤ mem.length →
      Seg mem i j [k] (fun m => parseKeyBlock cfg (View.whole m) none true ⟨i, i⟩ = .ok (k.reread m, ⟨j, j⟩))) := by
  unfold parseKeyBlock at h
  simp only at h
  obtain ⟨⟨n, c1⟩, e1, h1⟩ := bind_ok h
  clear h
  obtain ⟨l, f1, f2, f3, rfl⟩ := parseLength_inv hs e1
  obtain ⟨a, e2, h2⟩ := bind_ok h1
  clear h1
  obtain ⟨rfl, hlt⟩ := curAddr_inv e2
  simp only [ownKey, if_true, ok_bind, pure_eq_ok, Except.ok.injEq, Prod.mk.injEq] at h2
  obtain ⟨rfl, rfl⟩ := h2
  have hno : i + l.length + toU32 n < 2 ^ 64 := by
    have := hins _ List.mem_cons_self _ _ rfl
    omega
  rw [skip_eq hno, bump_eq hno]
  refine ⟨_, rfl, fun hle => ?_⟩
  have hbd : Bounded [(⟨slice (View.whole mem).mem (i + l.length) (toU32 n), some (i + l.length, toU32 n)⟩ : Str)] (2 ^ 64) (i + l.length)
      (i + l.length + toU32 n) := by
    intro s' hs'
    simp only [List.mem_singleton] at hs'
    subst hs'
    exact ⟨_, _, rfl, .inl ⟨Nat.le_refl _, Nat.le_refl _⟩⟩
  refine ⟨by omega, hle, hbd.mono (by omega) (Nat.le_refl _), List.pairwise_singleton _ _, fun m hm ha => ?_⟩
  have hpl := ha.plain (j' := i + l.length) hbd (Nat.le_refl _) (by omega) (by omega) (.inr (Nat.le_refl _))
  unfold parseKeyBlock
  simp only
  rw [parseLength_congr hs hm e1 hpl]
  simp only [ok_bind]
  rw [curAddr_congr hm, e2]
  simp only [ok_bind, ownKey, if_true, pure_eq_ok]
  rw [skip_eq hno, bump_eq hno]
  rfl

theorem typeSplit_inv {mem : Bytes} {i : Nat} {t : ObjectType} {sp : Bool} {c : Cur} (hs : mem.length < 2 ^ 63)
    (h : parseObjectTypeSplit (View.whole mem) ⟨i, i⟩ = .ok (t, sp, c)) : i < mem.length ∧ c = ⟨i + 1, i + 1⟩ := by
  unfold parseObjectTypeSplit at h
  obtain ⟨_, _, h⟩ := bind_ok h
  obtain ⟨a, ha, h⟩ := bind_ok h
  obtain ⟨rfl, hlt⟩ := curAddr_inv ha
  obtain ⟨b, hb, h⟩ := bind_ok h
  obtain ⟨_, _, h⟩ := bind_ok h
  rw [skip_eq (by omega), bump_eq (by omega)] at h
  simp only at h
  split at h
  · cases h
  · simp only [pure_eq_ok, Except.ok.injEq, Prod.mk.injEq] at h
    exact ⟨hlt, h.2.2.symm⟩

theorem typeSplit_congr {mem mem' : Bytes} (hl : mem'.length = mem.length) {i : Nat} (h : mem'[i]? = mem[i]?) :
    parseObjectTypeSplit (View.whole mem') ⟨i, i⟩ = parseObjectTypeSplit (View.whole mem) ⟨i, i⟩ := by
  unfold parseObjectTypeSplit
  simp only [checkEmpty_congr hl, curAddr_congr hl, checkOOR_congr hl, whole_mem]
  cases hc : checkEmpty (View.whole mem) ⟨i, i⟩ with
  | error e => rfl
  | ok u =>
    simp only [ok_bind]
    cases ha : curAddr (View.whole mem) ⟨i, i⟩ with
    | error e => rfl
    | ok a =>
      obtain ⟨rfl, -⟩ := curAddr_inv ha
      simp only [ok_bind, readByte_congr hl h]

/-! ### merging -/

theorem rereadL_append (mem : Bytes) : ∀ xs ys : List Obj, rereadL mem (xs ++ ys) = rereadL mem xs ++ rereadL mem ys
  | [], _ => rfl
  | x :: xs, ys => by simp only [List.cons_append, rereadL, rereadL_append mem xs ys]

theorem viewsL_append : ∀ xs ys : List Obj, viewsL (xs ++ ys) = viewsL xs ++ viewsL ys
  | [], _ => rfl
  | x :: xs, ys => by simp only [List.cons_append, viewsL, viewsL_append xs ys, List.append_assoc]

theorem foldA_items : ∀ (oss : List (List Obj)) (a : ArrayS), ∃ n,
    (oss.foldl (fun (a : ArrayS) b => a.merge (b, b.length)) a) = ⟨a.pool, n, oss.reverse.flatten ++ a.items⟩
  | [], a => ⟨a.size, rfl⟩
  | b :: oss, a => by
    obtain ⟨n, h⟩ := foldA_items oss (a.merge (b, b.length))
    refine ⟨n, ?_⟩
    simp only [List.foldl_cons]
    rw [h]
    unfold ArrayS.merge
    cases b <;> simp

theorem foldM_items : ∀ (oss : List (List (Str × Obj))) (a : MapS), ∃ n,
    (oss.foldl (fun (a : MapS) b => a.merge (b, b.length)) a) = ⟨a.ref, a.pool, n, oss.reverse.flatten ++ a.items⟩
  | [], a => ⟨a.size, rfl⟩
  | b :: oss, a => by
    obtain ⟨n, h⟩ := foldM_items oss (a.merge (b, b.length))
    refine ⟨n, ?_⟩
    simp only [List.foldl_cons]
    rw [h]
    unfold MapS.merge
    cases b <;> simp

theorem foldA_reread (mem : Bytes) : ∀ (oss : List (List Obj)) (a : ArrayS),
    ((oss.map (rereadL mem)).foldl (fun (a : ArrayS) b => a.merge (b, b.length)) { a with items := rereadL mem a.items }).toObj =
      ((oss.foldl (fun (a : ArrayS) b => a.merge (b, b.length)) a).toObj).reread mem
  | [], a => rfl
  | b :: oss, a => by
    simp only [List.map_cons, List.foldl_cons]
    rw [← foldA_reread mem oss]
    congr 2
    unfold ArrayS.merge
    cases b with
    | nil => rfl
    | cons x b => simp [rereadL, rereadL_append, rereadL_length]

theorem foldM_reread (mem : Bytes) : ∀ (oss : List (List (Str × Obj))) (a : MapS),
    ((oss.map (rereadE mem)).foldl (fun (a : MapS) b => a.merge (b, b.length)) { a with items := rereadE mem a.items }).toObj =
      ((oss.foldl (fun (a : MapS) b => a.merge (b, b.length)) a).toObj).reread mem
  | [], a => rfl
  | b :: oss, a => by
    simp only [List.map_cons, List.foldl_cons]
    rw [← foldM_reread mem oss]
    congr 2
    unfold MapS.merge
    cases b with
    | nil => rfl
    | cons x b => obtain ⟨k, o⟩ := x; simp [rereadE, rereadE_append, rereadE_length]

/-! ### blocks -/

theorem blocks_seg {α : Type} {mem : Bytes} (hs : mem.length < 2 ^ 63) {F : Bytes → Nat → Nat → Res (List α)} {views : List α → List Str}
    {re : Bytes → List α → List α} (hv : ∀ xs ys, views (xs ++ ys) = views xs ++ views ys) (h0 : views [] = [])
    (hF : ∀ b e os, b ≤ mem.length → Ins (views os) → F mem b e = .ok os →
      Seg mem b e (views os) (fun m => F m b e = .ok (re m os))) :
    ∀ (sizes : List Nat) (b : Nat) (oss : List (List α)), b ≤ mem.length → Ins (views oss.flatten) →
      (blockBounds b sizes).1.map (fun be => F mem be.1 be.2) = oss.map .ok →
      Seg mem b (blockBounds b sizes).2 (views oss.flatten)
        (fun m => (blockBounds b sizes).1.map (fun be => F m be.1 be.2) = (oss.map (re m)).map .ok)
  | [], b, oss, hb, _, h => by
    cases oss with
    | cons x xs => simp [blockBounds] at h
    | nil => simp only [List.flatten_nil, h0]; exact (Seg.plain (Nat.le_refl b) hb).imp fun m _ _ => rfl
  | s :: sizes, b, [], _, _, h => by simp [blockBounds] at h
  | s :: sizes, b, os :: oss, hb, hins, h => by
    simp only [blockBounds, List.map_cons, List.cons.injEq] at h
    obtain ⟨h1, h2⟩ := h
    simp only [List.flatten_cons, hv] at hins ⊢
    have i1 : Ins (views os) := fun s hs' => hins s (List.mem_append.mpr (.inl hs'))
    have i2 : Ins (views oss.flatten) := fun s hs' => hins s (List.mem_append.mpr (.inr hs'))
    have s1 := hF _ _ _ hb i1 h1
    have s2 := blocks_seg hs hv h0 hF sizes (addW b s) oss s1.2.1 i2 h2
    refine (Seg.append hs s1 s2 i1 i2).imp fun m _ hm => ?_
    simp only [blockBounds, List.map_cons, hm.1, hm.2]

theorem Ins.left {vs ws : List Str} (h : Ins (vs ++ ws)) : Ins vs := fun s hs => h s (List.mem_append.mpr (.inl hs))
theorem Ins.right {vs ws : List Str} (h : Ins (vs ++ ws)) : Ins ws := fun s hs => h s (List.mem_append.mpr (.inr hs))
theorem Ins.nil : Ins [] := fun s hs => by cases hs

theorem viewsE_flat : ∀ es : List (Str × Obj), viewsE true es = es.flatMap (fun e => e.1 :: e.2.views)
  | [] => rfl
  | (k, o) :: es => by simp [viewsE, viewsE_flat es]

theorem viewsE_perm {xs ys : List (Str × Obj)} (h : xs.Perm ys) : (viewsE true xs).Perm (viewsE true ys) := by
  rw [viewsE_flat, viewsE_flat]
  exact h.flatMap_right _

theorem tight_seg {cfg : Cfg} {mem : Bytes} {si : SplitInfo} (hs : mem.length < 2 ^ 63) (f : Nat) :
    (∀ e i os, i ≤ mem.length → Ins (viewsL os) → tightArrayBlock cfg (View.whole mem) none si true f e ⟨i, i⟩ = .ok os →
      Seg mem i e (viewsL os) (fun m => tightArrayBlock cfg (View.whole m) none si true f e ⟨i, i⟩ = .ok (rereadL m os))) ∧
    (∀ e i os, i ≤ mem.length → Ins (viewsE true os) → tightMapBlock cfg (View.whole mem) none si true f e ⟨i, i⟩ = .ok os →
      Seg mem i e (viewsE true os) (fun m => tightMapBlock cfg (View.whole m) none si true f e ⟨i, i⟩ = .ok (rereadE m os))) ∧
    (∀ i o c, i ≤ mem.length → Ins o.views → tightArray cfg (View.whole mem) none si true f i = .ok (o, c) →
      ∃ j, c = ⟨j, j⟩ ∧ Seg mem i j o.views (fun m => tightArray cfg (View.whole m) none si true f i = .ok (o.reread m, ⟨j, j⟩))) ∧
    (∀ i o c, i ≤ mem.length → Ins o.views → tightMap cfg (View.whole mem) none si true f i = .ok (o, c) →
      ∃ j, c = ⟨j, j⟩ ∧ Seg mem i j o.views (fun m => tightMap cfg (View.whole m) none si true f i = .ok (o.reread m, ⟨j, j⟩))) := by
  induction f with
  | zero =>
    refine ⟨?_, ?_, ?_, ?_⟩
    · intro e i os _ _ h; simp [tightArrayBlock] at h
    · intro e i os _ _ h; simp [tightMapBlock] at h
    · intro i o c _ _ h; simp [tightArray] at h
    · intro i o c _ _ h; simp [tightMap] at h
  | succ f ih =>
    obtain ⟨ihA, ihM, ihB, ihD⟩ := ih
    have child : ∀ (sp : Bool) (t : ObjectType) (i : Nat) (o : Obj) (c : Cur), i ≤ mem.length → Ins o.views →
        coChild sp t (parseVal cfg (View.whole mem) none true .frame f t ⟨i, i⟩) (tightArray cfg (View.whole mem) none si true f i)
          (tightMap cfg (View.whole mem) none si true f i) = .ok (o, c) →
        ∃ j, c = ⟨j, j⟩ ∧ Seg mem i j o.views (fun m => coChild sp t (parseVal cfg (View.whole m) none true .frame f t ⟨i, i⟩)
          (tightArray cfg (View.whole m) none si true f i) (tightMap cfg (View.whole m) none si true f i) = .ok (o.reread m, ⟨j, j⟩)) := by
      intro sp t i o c hi hins h
      unfold coChild at h ⊢
      cases sp with
      | false => simp only [Bool.false_eq_true, if_false] at h ⊢; exact value_seg hs hi hins h
      | true =>
        simp only [if_true] at h ⊢
        cases t with
        | invalid => cases h
        | data => cases h
        | array => exact ihB _ _ _ hi hins h
        | map => exact ihD _ _ _ hi hins h
    refine ⟨?_, ?_, ?_, ?_⟩
    · intro e i os hi hins h
      simp only [tightArrayBlock] at h ⊢
      split at h
      · rename_i hlt
        simp only [if_pos hlt]
        obtain ⟨⟨t, sp, c1⟩, e1, h⟩ := bind_ok h
        obtain ⟨hil, rfl⟩ := typeSplit_inv hs e1
        obtain ⟨⟨o, c2⟩, e2, h⟩ := bind_ok h
        obtain ⟨rest, e3, h⟩ := bind_ok h
        simp only [pure_eq_ok, Except.ok.injEq] at h
        subst h
        simp only [viewsL] at hins ⊢
        obtain ⟨j, rfl, s2⟩ := child _ _ _ _ _ (by omega) hins.left e2
        have s3 := ihA _ _ _ s2.2.1 hins.right e3
        have s1 := Seg.plain (mem := mem) (i := i) (j := i + 1) (by omega) (by omega)
        refine (Seg.append hs s1 (Seg.append hs s2 s3 hins.left hins.right) Ins.nil hins).imp fun m hm ⟨g1, g2, g3⟩ => ?_
        rw [typeSplit_congr hm (g1 i (Nat.le_refl _) (by omega)), e1]
        simp only [ok_bind]
        rw [g2]
        simp only [ok_bind]
        rw [g3]
        rfl
      · rename_i hlt
        simp only [if_neg hlt]
        split at h
        · rename_i he
          simp only [Except.ok.injEq] at h
          subst h
          simp only [if_pos he]
          subst he
          exact (Seg.plain (Nat.le_refl _) hi).imp fun m _ _ => rfl
        · cases h
    · intro e i os hi hins h
      simp only [tightMapBlock] at h ⊢
      split at h
      · rename_i hlt
        simp only [if_pos hlt]
        obtain ⟨⟨k, c0⟩, e0, h⟩ := bind_ok h
        obtain ⟨⟨t, sp, c1⟩, e1, h⟩ := bind_ok h
        obtain ⟨⟨o, c2⟩, e2, h⟩ := bind_ok h
        obtain ⟨rest, e3, h⟩ := bind_ok h
        simp only [pure_eq_ok, Except.ok.injEq] at h
        subst h
        have hv : ∀ (m : Bytes), viewsE true ((k, o) :: rest) = [k] ++ (o.views ++ viewsE true rest) := fun _ => rfl
        rw [hv []] at hins ⊢
        obtain ⟨j0, rfl, s0⟩ := keyBlock_seg hs hins.left e0
        obtain ⟨hil, rfl⟩ := typeSplit_inv hs e1
        obtain ⟨j, rfl, s2⟩ := child _ _ _ _ _ (by omega) hins.right.left e2
        have s3 := ihM _ _ _ s2.2.1 hins.right.right e3
        have s1 := Seg.plain (mem := mem) (i := j0) (j := j0 + 1) (by omega) (by omega)
        refine (Seg.append hs (s0 (by omega)) (Seg.append hs s1 (Seg.append hs s2 s3 hins.right.left hins.right.right) Ins.nil hins.right)
          hins.left hins.right).imp fun m hm ⟨g0, g1, g2, g3⟩ => ?_
        rw [g0]
        simp only [ok_bind]
        rw [typeSplit_congr hm (g1 j0 (Nat.le_refl _) (by omega)), e1]
        simp only [ok_bind]
        rw [g2]
        simp only [ok_bind]
        rw [g3]
        rfl
      · rename_i hlt
        simp only [if_neg hlt]
        split at h
        · rename_i he
          simp only [Except.ok.injEq] at h
          subst h
          simp only [if_pos he]
          subst he
          exact (Seg.plain (Nat.le_refl _) hi).imp fun m _ _ => rfl
        · cases h
    · intro i o c hi hins h
      simp only [tightArray] at h ⊢
      have ha : addW 0 i = i := by rw [addW_of_lt (by omega), Nat.zero_add]
      rw [ha] at h ⊢
      obtain ⟨⟨n, c1⟩, e1, h⟩ := bind_ok h
      obtain ⟨l, f1, f2, f3, rfl⟩ := parseLength_inv hs e1
      obtain ⟨⟨id, c2⟩, e2, h⟩ := bind_ok h
      obtain ⟨l', g1, g2, g3, rfl⟩ := parseLength_inv hs e2
      obtain ⟨blocks, e3, h⟩ := bind_ok h
      obtain ⟨rs, e4, h⟩ := bind_ok h
      simp only [pure_eq_ok, Except.ok.injEq, Prod.mk.injEq] at h
      obtain ⟨rfl, rfl⟩ := h
      have e5 := joinTasks_inv e4
      rw [← List.map_reverse] at e5
      have e6 := congrArg List.reverse e5
      rw [← List.map_reverse, ← List.map_reverse, List.reverse_reverse] at e6
      obtain ⟨sz, hf⟩ := foldA_items rs { pool := .frame }
      have hvw : ((rs.foldl (fun (a : ArrayS) b => a.merge (b, b.length)) { pool := .frame }).toObj).views = viewsL rs.reverse.flatten := by
        rw [hf]; simp [ArrayS.toObj, Obj.views]
      rw [hvw] at hins ⊢
      have sb := blocks_seg hs (views := viewsL) (re := rereadL) (F := fun m b e => tightArrayBlock cfg (View.whole m) none si true f e ⟨addW 0 b, b⟩)
        viewsL_append rfl (fun b e os hb hi' h => by
          have hb' : addW 0 b = b := by rw [addW_of_lt (by omega), Nat.zero_add]
          simp only [hb'] at h ⊢
          exact ihA _ _ _ hb hi' h) blocks (i + l.length + l'.length) rs.reverse g3 hins e6
      have s0 := Seg.plain (mem := mem) (i := i) (j := i + l.length + l'.length) (by omega) g3
      refine ⟨_, rfl, (Seg.append hs s0 sb Ins.nil hins).imp fun m hm ⟨k1, k2⟩ => ?_⟩
      rw [parseLength_congr hs hm e1 (k1.mono (Nat.le_refl _) (by omega))]
      simp only [ok_bind]
      rw [parseLength_congr hs hm e2 (k1.mono (by omega) (Nat.le_refl _))]
      simp only [ok_bind]
      rw [e3]
      simp only [ok_bind]
      rw [k2, ← List.map_reverse, ← List.map_reverse, List.reverse_reverse, joinTasks_ok]
      simp only [ok_bind, pure_eq_ok]
      rw [← foldA_reread m rs]
      rfl
    · intro i o c hi hins h
      simp only [tightMap] at h ⊢
      have ha : addW 0 i = i := by rw [addW_of_lt (by omega), Nat.zero_add]
      rw [ha] at h ⊢
      obtain ⟨⟨n, c1⟩, e1, h⟩ := bind_ok h
      obtain ⟨l, f1, f2, f3, rfl⟩ := parseLength_inv hs e1
      obtain ⟨⟨id, c2⟩, e2, h⟩ := bind_ok h
      obtain ⟨l', g1, g2, g3, rfl⟩ := parseLength_inv hs e2
      obtain ⟨blocks, e3, h⟩ := bind_ok h
      obtain ⟨rs, e4, h⟩ := bind_ok h
      simp only [pure_eq_ok, Except.ok.injEq, Prod.mk.injEq] at h
      obtain ⟨rfl, rfl⟩ := h
      have e5 := joinTasks_inv e4
      obtain ⟨sz, hf⟩ := foldM_items rs { ref := true, pool := .frame }
      have hvw : ((rs.foldl (fun (a : MapS) b => a.merge (b, b.length)) { ref := true, pool := .frame }).toObj).views =
          viewsE true rs.reverse.flatten := by
        rw [hf]; simp [MapS.toObj, Obj.views]
      rw [hvw] at hins ⊢
      have hp : (viewsE true rs.flatten).Perm (viewsE true rs.reverse.flatten) := viewsE_perm (List.reverse_perm rs).symm.flatten
      have hins' : Ins (viewsE true rs.flatten) := fun s hs' => hins s (hp.mem_iff.mp hs')
      have sb := blocks_seg hs (views := viewsE true) (re := rereadE)
        (F := fun m b e => tightMapBlock cfg (View.whole m) none si true f e ⟨addW 0 b, b⟩)
        viewsE_append rfl (fun b e os hb hi' h => by
          have hb' : addW 0 b = b := by rw [addW_of_lt (by omega), Nat.zero_add]
          simp only [hb'] at h ⊢
          exact ihM _ _ _ hb hi' h) blocks (i + l.length + l'.length) rs g3 hins' e5
      have s0 := Seg.plain (mem := mem) (i := i) (j := i + l.length + l'.length) (by omega) g3
      refine ⟨_, rfl, ((Seg.append hs s0 sb Ins.nil hins').perm hp).imp fun m hm ⟨k1, k2⟩ => ?_⟩
      rw [parseLength_congr hs hm e1 (k1.mono (Nat.le_refl _) (by omega))]
      simp only [ok_bind]
      rw [parseLength_congr hs hm e2 (k1.mono (by omega) (Nat.le_refl _))]
      simp only [ok_bind]
      rw [e3]
      simp only [ok_bind]
      rw [k2, joinTasks_ok]
      simp only [ok_bind, pure_eq_ok]
      rw [← foldM_reread m rs]
      rfl

end Bridge
