import Verif.Proof.Terminates
import Verif.Spec.SplitGrammar
/-
What a content accepted by the parallel parser looks like: it is described by `Spec.ReadsSplit`.
-/
set_option autoImplicit false
namespace Bridge
open Spec

theorem kindByte_split (b : UInt8) (d : Doc) (h : charToObjectType (b &&& 0x7F) = docType d) :
    b = kindByte d (!decide ((b &&& 0x80) >>> 1 = 0)) := by
  have key : ∀ n : Fin 256, ∀ k : Fin 3,
      (charToObjectType (UInt8.ofNat n.val &&& 0x7F) = (match k with | 0 => .data | 1 => .map | 2 => .array) →
      UInt8.ofNat n.val = UInt8.ofNat k.val ||| (if (!decide ((UInt8.ofNat n.val &&& 0x80) >>> 1 = 0)) = true then 0x80 else 0)) := by
    decide +kernel
  have hb : UInt8.ofNat b.toNat = b := by simp
  have hs : ∀ k : Fin 3, (charToObjectType (b &&& 0x7F) = (match k with | 0 => .data | 1 => .map | 2 => .array) →
      b = UInt8.ofNat k.val ||| (if (!decide ((b &&& 0x80) >>> 1 = 0)) = true then 0x80 else 0)) := by
    intro k
    have := key ⟨b.toNat, b.toNat_lt⟩ k
    simp only [hb] at this
    exact this
  cases d with
  | scalar s => exact hs 0 h
  | map es => exact hs 1 h
  | array xs => exact hs 2 h

theorem parseObjectTypeSplit_inv {mem : Bytes} {i : Nat} {t : ObjectType} {sp : Bool} {c : Cur} (hc : mem.length < 2 ^ 63)
    (h : parseObjectTypeSplit (View.whole mem) ⟨i, i⟩ = .ok (t, sp, c)) :
    ∃ b, mem[i]? = some b ∧ charToObjectType (b &&& 0x7F) = t ∧ sp = !decide ((b &&& 0x80) >>> 1 = 0) ∧ i < mem.length ∧
      c = ⟨i + 1, i + 1⟩ := by
  unfold parseObjectTypeSplit at h
  obtain ⟨_, _, h⟩ := bind_ok h
  obtain ⟨a, ha, h⟩ := bind_ok h
  obtain ⟨rfl, hlt⟩ := curAddr_inv ha
  obtain ⟨b, hb, h⟩ := bind_ok h
  obtain ⟨_, _, h⟩ := bind_ok h
  have hb := readByte_inv hlt hb
  rw [skip_eq (by omega), bump_eq (by omega)] at h
  simp only at h
  split at h
  · cases h
  · rename_i hne
    simp only [pure_eq_ok, Except.ok.injEq, Prod.mk.injEq] at h
    exact ⟨b, hb, h.1, h.2.1.symm, hlt, h.2.2.symm⟩

/-- The split table as a function. -/
def tableFn (si : SplitInfo) (id : Nat) : Option (List Nat) :=
  match si.getBlocks id with
  | .ok b => some b
  | .error _ => none

theorem blockBounds_sum {total : Nat} : ∀ (ss : List Nat) (b : Nat), b + ss.sum ≤ total → total < 2 ^ 64 →
    (blockBounds b ss).2 = b + ss.sum := by
  intro ss
  induction ss with
  | nil => intro b _ _; simp [blockBounds]
  | cons s ss ih =>
    intro b h ht
    simp only [List.sum_cons] at h
    have he : addW b s = b + s := addW_of_lt (by omega)
    simp only [blockBounds, he, List.sum_cons]
    rw [ih (b + s) (by omega) ht]
    omega

section
variable {cfg : Cfg} {mem : Bytes} {sm : Option StringMap} {si : SplitInfo} {ref : Bool}

theorem keyBlock_sound {i : Nat} {k : Str} {c : Cur} (hctx : SCtx cfg mem sm ref) (hlen : mem.length < 2 ^ 32)
    (h : parseKeyBlock cfg (View.whole mem) sm ref ⟨i, i⟩ = .ok (k, c)) :
    ∃ j, c = ⟨j, j⟩ ∧ i < j ∧ j < 2 ^ 34 ∧ (j ≤ mem.length → ∃ bs, HasAt mem i bs ∧ j = i + bs.length ∧
      ReadsKey (dictFn cfg sm) k.bytes bs ∧ (if ref then k.Inside (mem ++ [0]) else k.loc = none)) := by
  have hs := hctx.size
  unfold parseKeyBlock at h
  cases sm with
  | none =>
    simp only at h
    obtain ⟨⟨n, c1⟩, e1, h⟩ := bind_ok h
    obtain ⟨l, f1, f2, f3, rfl⟩ := parseLength_inv hs e1
    obtain ⟨addr, e2, h⟩ := bind_ok h
    obtain ⟨rfl, hlt⟩ := curAddr_inv e2
    simp only at h
    obtain ⟨k', ho, h⟩ := bind_ok h
    simp only [pure_eq_ok, Except.ok.injEq, Prod.mk.injEq] at h
    obtain ⟨rfl, rfl⟩ := h
    have hu := toU32_lt n
    have hpos := isLeb_pos f1.1
    rw [skip_eq (by omega), bump_eq (by omega)]
    refine ⟨_, rfl, by omega, by omega, ?_⟩
    intro hle
    obtain ⟨g1, g2⟩ := ownKey_inside (inside_zero hle) ho
    obtain ⟨q1, q2⟩ := slice_hasAt hle
    refine ⟨l ++ slice mem (i + l.length) (toU32 n), ?_, ?_, ?_, g2⟩
    · rw [HasAt.append]; exact ⟨f2, hasAt_zero q1 (by omega)⟩
    · rw [List.length_append, q2]; omega
    · simp only [dictFn, Option.map_none, ReadsKey]
      exact ⟨l, n, f1, by rw [g1]; simp only [View.whole, q2]; rfl, by rw [g1]⟩
  | some m =>
    simp only at h
    obtain ⟨⟨n, c1⟩, e1, h⟩ := bind_ok h
    obtain ⟨l, f1, f2, f3, rfl⟩ := parseLength_inv hs e1
    obtain ⟨s, e3, h⟩ := bind_ok h
    obtain ⟨k', ho, h⟩ := bind_ok h
    simp only [pure_eq_ok, Except.ok.injEq, Prod.mk.injEq] at h
    obtain ⟨rfl, rfl⟩ := h
    have hpos := isLeb_pos f1.1
    refine ⟨_, rfl, by omega, by omega, ?_⟩
    intro hle
    obtain ⟨g1, g2⟩ := ownKey_inside (hctx.dict m rfl _ _ e3) ho
    refine ⟨l, f2, rfl, ?_, g2⟩
    simp only [dictFn, Option.map_some, ReadsKey]
    refine ⟨n, f1, ?_⟩
    have : m.lookup cfg (n % 2 ^ 32) = .ok s := e3
    simp only [this, g1]

/-- What one child of a block is. -/
def ChildOk (cfg : Cfg) (mem : Bytes) (sm : Option StringMap) (si : SplitInfo) (ref : Bool) (o : Obj) (d : Doc) (i : Nat) (c : Cur) :
    Prop :=
  ∃ j, c = ⟨j, j⟩ ∧ i < j ∧ j < 2 ^ 64 ∧ o.doc? = some d ∧ Child cfg.asserts mem (dictFn cfg sm) (tableFn si) d i j ∧
    o.Built (mem ++ [0]) ref .frame

/-- What a split container is. -/
def SplitOk (cfg : Cfg) (mem : Bytes) (sm : Option StringMap) (si : SplitInfo) (ref : Bool) (t : ObjectType) (o : Obj) (i : Nat) (c : Cur) :
    Prop :=
  ∃ d j, c = ⟨j, j⟩ ∧ i < j ∧ j < 2 ^ 64 ∧ docType d = t ∧ o.doc? = some d ∧ ReadsSplit cfg.asserts mem (dictFn cfg sm) (tableFn si) d i j ∧
    o.Built (mem ++ [0]) ref .frame

theorem child_sound {f i : Nat} {b : UInt8} {t : ObjectType} {sp : Bool} {o : Obj} {c : Cur} (hctx : SCtx cfg mem sm ref)
    (hb : mem[i]? = some b) (ht : charToObjectType (b &&& 0x7F) = t) (hsp : sp = !decide ((b &&& 0x80) >>> 1 = 0))
    (hA : ∀ o c, coArray cfg (View.whole mem) sm si ref f (i + 1) = .ok (o, c) → SplitOk cfg mem sm si ref .array o (i + 1) c)
    (hM : ∀ o c, coMap cfg (View.whole mem) sm si ref f (i + 1) = .ok (o, c) → SplitOk cfg mem sm si ref .map o (i + 1) c)
    (h : coChild sp t (parseVal cfg (View.whole mem) sm ref .frame f t ⟨i + 1, i + 1⟩) (coArray cfg (View.whole mem) sm si ref f (i + 1))
      (coMap cfg (View.whole mem) sm si ref f (i + 1)) = .ok (o, c)) : ∃ d, ChildOk cfg mem sm si ref o d i c := by
  have hs := hctx.size
  have hlt := lt_of_getElem? hb
  have split : sp = true → SplitOk cfg mem sm si ref t o (i + 1) c → ∃ d, ChildOk cfg mem sm si ref o d i c := by
    rintro hspt ⟨d, j, h1, h2, h3, h4, h5, h6, h7⟩
    have hk := kindByte_split b d (by rw [ht, h4])
    rw [← hsp, hspt] at hk
    exact ⟨d, j, h1, by omega, h3, h5, .split (by rw [hb, hk]) h6, h7⟩
  unfold coChild at h
  cases hspv : sp with
  | false =>
    rw [hspv] at h
    simp only [Bool.false_eq_true, if_false] at h
    obtain ⟨d, bs, g1, g2, rfl, g4, g5, g6, g7⟩ := (parse_sound (pool := .frame) hctx f).1 _ _ _ _ (by omega) h
    have hk := kindByte_split b d (by rw [ht, g4])
    rw [← hsp, hspv] at hk
    exact ⟨d.revMaps, _, rfl, by omega, by omega, g5, .plain (by rw [hb, hk]) g6 g1, g7⟩
  | true =>
    rw [hspv] at h
    simp only [if_true] at h
    cases t with
    | array => exact split hspv (hA _ _ h)
    | map => exact split hspv (hM _ _ h)
    | data => cases h
    | invalid => cases h

theorem head_sound {i : Nat} {blocks : List Nat} (hctx : SCtx cfg mem sm ref) (hi : i < 2 ^ 64) {n id : Nat} {c1 c2 : Cur}
    (e1 : parseLength cfg (View.whole mem) ⟨addW 0 i, i⟩ = .ok (n, c1)) (e2 : parseLength cfg (View.whole mem) c1 = .ok (id, c2))
    (e3 : si.getBlocks (toU32 id) = .ok blocks) :
    ∃ k, c2 = ⟨k, k⟩ ∧ i < k ∧ k ≤ mem.length ∧ SplitHead mem (tableFn si) i k blocks := by
  have hs := hctx.size
  rw [show addW 0 i = i by rw [addW_of_lt (by omega), Nat.zero_add]] at e1
  obtain ⟨l, f1, f2, f3, rfl⟩ := parseLength_inv hs e1
  obtain ⟨l', g1, g2, g3, rfl⟩ := parseLength_inv hs e2
  have hpos := isLeb_pos f1.1
  refine ⟨_, rfl, by omega, g3, l, l', n, id, f1, g1, HasAt.append.mpr ⟨f2, g2⟩, rfl, ?_⟩
  have : si.getBlocks (id % 2 ^ 32) = .ok blocks := e3
  simp only [tableFn, this]

theorem blocks_sound {g : Nat → Nat → Res (List Obj)} {total : Nat} (ht : total < 2 ^ 64)
    (hg : ∀ b e os, b < 2 ^ 64 → g b e = .ok os → ∃ xs, docs? os = some xs ∧ Block cfg.asserts mem (dictFn cfg sm) (tableFn si) xs b e ∧
      builtL (mem ++ [0]) ref .frame os ∧ os.length ≤ mem.length) :
    ∀ (ss : List Nat) (b : Nat) (oss : List (List Obj)), b + ss.sum ≤ total →
      (blockBounds b ss).1.map (fun be => g be.1 be.2) = oss.map .ok →
      ∃ xss, docs? oss.flatten = some xss.flatten ∧ Blocks cfg.asserts mem (dictFn cfg sm) (tableFn si) xss b ss ∧
        builtL (mem ++ [0]) ref .frame oss.flatten ∧ oss.flatten.length ≤ ss.length * mem.length := by
  intro ss
  induction ss with
  | nil =>
    intro b oss _ h
    simp only [blockBounds, List.map_nil] at h
    have : oss = [] := by cases oss <;> simp_all
    subst this
    exact ⟨[], rfl, .nil, trivial, by simp⟩
  | cons s ss ih =>
    intro b oss hb h
    simp only [List.sum_cons] at hb
    have he : addW b s = b + s := addW_of_lt (by omega)
    simp only [blockBounds, he, List.map_cons] at h
    cases oss with
    | nil => simp at h
    | cons os oss =>
      simp only [List.map_cons, List.cons.injEq] at h
      obtain ⟨xs, q1, q2, q3, q4⟩ := hg _ _ _ (by omega) h.1
      obtain ⟨xss, r1, r2, r3, r4⟩ := ih _ _ (by omega) h.2
      refine ⟨xs :: xss, ?_, .cons q2 r2, ?_, ?_⟩
      · simp only [List.flatten_cons]; exact docs?_append q1 r1
      · simp only [List.flatten_cons]; exact builtL_append.mpr ⟨q3, r3⟩
      · simp only [List.flatten_cons, List.length_append, List.length_cons, Nat.add_mul]; omega

theorem blocksE_sound {g : Nat → Nat → Res (List (Str × Obj))} {total : Nat} (ht : total < 2 ^ 64)
    (hg : ∀ b e os, b < 2 ^ 64 → g b e = .ok os → ∃ xs, entries? os = some xs ∧ BlockE cfg.asserts mem (dictFn cfg sm) (tableFn si) xs b e ∧
      builtE (mem ++ [0]) ref .frame os ∧ os.length ≤ mem.length) :
    ∀ (ss : List Nat) (b : Nat) (oss : List (List (Str × Obj))), b + ss.sum ≤ total →
      (blockBounds b ss).1.map (fun be => g be.1 be.2) = oss.map .ok →
      ∃ xss, entries? oss.reverse.flatten = some xss.reverse.flatten ∧ BlocksE cfg.asserts mem (dictFn cfg sm) (tableFn si) xss b ss ∧
        builtE (mem ++ [0]) ref .frame oss.reverse.flatten ∧ oss.flatten.length ≤ ss.length * mem.length := by
  intro ss
  induction ss with
  | nil =>
    intro b oss _ h
    simp only [blockBounds, List.map_nil] at h
    have : oss = [] := by cases oss <;> simp_all
    subst this
    exact ⟨[], rfl, .nil, trivial, by simp⟩
  | cons s ss ih =>
    intro b oss hb h
    simp only [List.sum_cons] at hb
    have he : addW b s = b + s := addW_of_lt (by omega)
    simp only [blockBounds, he, List.map_cons] at h
    cases oss with
    | nil => simp at h
    | cons os oss =>
      simp only [List.map_cons, List.cons.injEq] at h
      obtain ⟨xs, q1, q2, q3, q4⟩ := hg _ _ _ (by omega) h.1
      obtain ⟨xss, r1, r2, r3, r4⟩ := ih _ _ (by omega) h.2
      refine ⟨xs :: xss, ?_, .cons q2 r2, ?_, ?_⟩
      · simp only [List.reverse_cons, List.flatten_append, List.flatten_cons, List.flatten_nil, List.append_nil]
        exact entries?_append r1 q1
      · simp only [List.reverse_cons, List.flatten_append, List.flatten_cons, List.flatten_nil, List.append_nil]
        exact builtE_append.mpr ⟨r3, q3⟩
      · simp only [List.flatten_cons, List.length_append, List.length_cons, Nat.add_mul]; omega

theorem Small.count {si : SplitInfo} (h : Small si) {id : Nat} {bs : List Nat} (hb : si.getBlocks id = .ok bs) :
    bs.length < 2 ^ 32 := by
  unfold SplitInfo.getBlocks at hb
  split at hb
  · rename_i b hg
    simp only [Except.ok.injEq] at hb
    subst hb
    exact (h _ (assocGet_some_mem hg)).1
  · cases hb

theorem co_sound (hctx : SCtx cfg mem sm ref) (hlen : mem.length < 2 ^ 32) (hsi : Small si) : ∀ f : Nat,
    (∀ e i os, coArrayBlock cfg (View.whole mem) sm si ref f e ⟨i, i⟩ = .ok os → ∃ xs, docs? os = some xs ∧
      Block cfg.asserts mem (dictFn cfg sm) (tableFn si) xs i e ∧ builtL (mem ++ [0]) ref .frame os ∧ os.length ≤ mem.length - i) ∧
    (∀ i o c, i < 2 ^ 64 → coArray cfg (View.whole mem) sm si ref f i = .ok (o, c) → SplitOk cfg mem sm si ref .array o i c) ∧
    (∀ e i os, coMapBlock cfg (View.whole mem) sm si ref f e ⟨i, i⟩ = .ok os → ∃ xs, entries? os = some xs ∧
      BlockE cfg.asserts mem (dictFn cfg sm) (tableFn si) xs i e ∧ builtE (mem ++ [0]) ref .frame os ∧ os.length ≤ mem.length - i) ∧
    (∀ i o c, i < 2 ^ 64 → coMap cfg (View.whole mem) sm si ref f i = .ok (o, c) → SplitOk cfg mem sm si ref .map o i c) := by
  have hs := hctx.size
  intro f
  induction f with
  | zero =>
    refine ⟨?_, ?_, ?_, ?_⟩
    · intro e i os h; simp [coArrayBlock] at h
    · intro i o c _ h; simp [coArray] at h
    · intro e i os h; simp [coMapBlock] at h
    · intro i o c _ h; simp [coMap] at h
  | succ f ih =>
    obtain ⟨ihA, ihAA, ihM, ihMM⟩ := ih
    refine ⟨?_, ?_, ?_, ?_⟩
    · intro e i os h
      simp only [coArrayBlock] at h
      split at h
      · rename_i hie
        obtain ⟨⟨t, sp, c1⟩, e1, h⟩ := bind_ok h
        obtain ⟨b, f1, f2, f3, f4, rfl⟩ := parseObjectTypeSplit_inv hs e1
        obtain ⟨⟨o, c2⟩, e2, h⟩ := bind_ok h
        obtain ⟨d, j, rfl, g2, g3, g4, g5, g6⟩ := child_sound hctx f1 f2 f3 (fun o c => ihAA _ o c (by omega))
          (fun o c => ihMM _ o c (by omega)) e2
        obtain ⟨rest, e3, h⟩ := bind_ok h
        simp only [pure_eq_ok, Except.ok.injEq] at h
        subst h
        obtain ⟨xs, k1, k2, k3, k4⟩ := ihA _ _ _ e3
        refine ⟨d :: xs, by simp [docs?, g4, k1], .cons hie g5 k2, ⟨g6, k3⟩, ?_⟩
        simp only [List.length_cons]
        omega
      · rename_i hie
        simp only [Except.ok.injEq] at h
        subst h
        exact ⟨[], rfl, .nil (by simpa using hie), trivial, by simp⟩
    · intro i o c hi h
      simp only [coArray] at h
      obtain ⟨⟨n, c1⟩, e1, h⟩ := bind_ok h
      obtain ⟨⟨id, c2⟩, e2, h⟩ := bind_ok h
      obtain ⟨blocks, e3, h⟩ := bind_ok h
      obtain ⟨k, rfl, q1, q2, q3⟩ := head_sound hctx hi e1 e2 e3
      simp only at h
      obtain ⟨objs, e4, h⟩ := bind_ok h
      have hsum := hsi.sum e3
      have hcnt := hsi.count e3
      have e5 := joinTasks_inv e4
      have e6 : (blockBounds k blocks).1.map (fun be => coArrayBlock cfg (View.whole mem) sm si ref f be.2 ⟨addW 0 be.1, be.1⟩) =
          objs.reverse.map .ok := by
        rw [List.map_reverse, ← e5, List.reverse_reverse]
      obtain ⟨xss, r1, r2, r3, r4⟩ := blocks_sound (cfg := cfg) (mem := mem) (sm := sm) (si := si) (ref := ref)
        (g := fun b e => coArrayBlock cfg (View.whole mem) sm si ref f e ⟨addW 0 b, b⟩)
        (total := k + blocks.sum) (by omega) (by
          intro b e os hb hok
          rw [show addW 0 b = b by rw [addW_of_lt (by omega), Nat.zero_add]] at hok
          obtain ⟨xs, k1, k2, k3, k4⟩ := ihA _ _ _ hok
          exact ⟨xs, k1, k2, k3, by omega⟩) blocks k objs.reverse (Nat.le_refl _) e6
      have hmul : blocks.length * mem.length ≤ (2 ^ 32 - 1) * (2 ^ 32 - 1) := Nat.mul_le_mul (by omega) (by omega)
      have hfl : objs.flatten.length = objs.reverse.flatten.length := by
        simp [List.length_flatten, List.sum_reverse]
      rw [arr_fold objs { pool := .frame } rfl (by simp only [List.length_nil]; omega)] at h
      simp only [pure_eq_ok, Except.ok.injEq, Prod.mk.injEq, ArrayS.toObj] at h
      obtain ⟨rfl, rfl⟩ := h
      rw [blockBounds_sum blocks k (Nat.le_refl _) (by omega)]
      refine ⟨.array xss.flatten, _, rfl, by omega, by omega, rfl, ?_, .array q3 r2, ?_⟩
      · simp only [Obj.doc?, List.append_nil, List.length_nil, Nat.zero_add]
        rw [if_pos (by omega), r1]
        rfl
      · simp only [Obj.Built, List.append_nil]
        exact ⟨trivial, r3⟩
    · intro e i os h
      simp only [coMapBlock] at h
      split at h
      · rename_i hie
        obtain ⟨⟨key, c0⟩, e0, h⟩ := bind_ok h
        obtain ⟨i', rfl, p1, p2, p3⟩ := keyBlock_sound hctx hlen e0
        simp only at h
        obtain ⟨⟨t, sp, c1⟩, e1, h⟩ := bind_ok h
        obtain ⟨b, f1, f2, f3, f4, rfl⟩ := parseObjectTypeSplit_inv hs e1
        obtain ⟨kb, s1, rfl, s3, s4⟩ := p3 (by omega)
        obtain ⟨⟨o, c2⟩, e2, h⟩ := bind_ok h
        obtain ⟨d, j, rfl, g2, g3, g4, g5, g6⟩ := child_sound hctx f1 f2 f3 (fun o c => ihAA _ o c (by omega))
          (fun o c => ihMM _ o c (by omega)) e2
        obtain ⟨rest, e3, h⟩ := bind_ok h
        simp only [pure_eq_ok, Except.ok.injEq] at h
        subst h
        obtain ⟨xs, k1, k2, k3, k4⟩ := ihM _ _ _ e3
        refine ⟨(key.bytes, d) :: xs, by simp [entries?, g4, k1], .cons hie s3 s1 g5 k2, ⟨s4, g6, k3⟩, ?_⟩
        simp only [List.length_cons]
        omega
      · rename_i hie
        simp only [Except.ok.injEq] at h
        subst h
        exact ⟨[], rfl, .nil (by simpa using hie), trivial, by simp⟩
    · intro i o c hi h
      simp only [coMap] at h
      obtain ⟨⟨n, c1⟩, e1, h⟩ := bind_ok h
      obtain ⟨⟨id, c2⟩, e2, h⟩ := bind_ok h
      obtain ⟨blocks, e3, h⟩ := bind_ok h
      obtain ⟨k, rfl, q1, q2, q3⟩ := head_sound hctx hi e1 e2 e3
      simp only at h
      obtain ⟨objs, e4, h⟩ := bind_ok h
      have hsum := hsi.sum e3
      have hcnt := hsi.count e3
      have e5 := joinTasks_inv e4
      obtain ⟨xss, r1, r2, r3, r4⟩ := blocksE_sound (cfg := cfg) (mem := mem) (sm := sm) (si := si) (ref := ref)
        (g := fun b e => coMapBlock cfg (View.whole mem) sm si ref f e ⟨addW 0 b, b⟩)
        (total := k + blocks.sum) (by omega) (by
          intro b e os hb hok
          rw [show addW 0 b = b by rw [addW_of_lt (by omega), Nat.zero_add]] at hok
          obtain ⟨xs, k1, k2, k3, k4⟩ := ihM _ _ _ hok
          exact ⟨xs, k1, k2, k3, by omega⟩) blocks k objs (Nat.le_refl _) e5
      have hmul : blocks.length * mem.length ≤ (2 ^ 32 - 1) * (2 ^ 32 - 1) := Nat.mul_le_mul (by omega) (by omega)
      have hfl : objs.flatten.length = objs.reverse.flatten.length := by
        simp [List.length_flatten, List.sum_reverse]
      rw [map_fold objs { ref := ref, pool := .frame } rfl (by simp only [List.length_nil]; omega)] at h
      simp only [pure_eq_ok, Except.ok.injEq, Prod.mk.injEq, MapS.toObj] at h
      obtain ⟨rfl, rfl⟩ := h
      rw [blockBounds_sum blocks k (Nat.le_refl _) (by omega)]
      refine ⟨.map xss.reverse.flatten, _, rfl, by omega, by omega, rfl, ?_, .map q3 r2, ?_⟩
      · simp only [Obj.doc?, List.append_nil, List.length_nil, Nat.zero_add]
        rw [if_pos (by omega), r1]
        rfl
      · simp only [Obj.Built, List.append_nil]
        exact ⟨trivial, trivial, r3⟩

end

end Bridge
