import Verif.Proof.ParseRT
import Verif.Model.CoParse
import Verif.Proof.CoTight
/-
The coroutine parser reads back what was emitted.
-/
namespace Bridge
open Spec

/-! ### blocks are runs of children -/

theorem sum_pos_of_pos {l : List Bytes} (h : ∀ c ∈ l, 0 < c.length) (hl : l.flatten.length = 0) : l = [] := by
  have := length_le_flatten h
  cases l with
  | nil => rfl
  | cons c l => simp only [List.length_cons] at this; omega

theorem groups (B : Nat) (chunks : List Bytes) : ∀ pre : List Bytes, (∀ c ∈ pre ++ chunks, 0 < c.length) →
    ∃ parts : List (List Bytes), parts.flatten = pre ++ chunks ∧
      groupSizes B pre.flatten.length (chunks.map List.length) = parts.map (fun p => p.flatten.length) ∧
      ∀ p ∈ parts, p ≠ [] := by
  induction chunks with
  | nil =>
    intro pre hpos
    simp only [List.append_nil] at hpos
    simp only [List.map_nil, groupSizes]
    split
    · refine ⟨[pre], by simp, by simp, ?_⟩
      intro p hp
      simp only [List.mem_singleton] at hp
      subst hp
      intro hp; subst hp; simp at *
    · have := sum_pos_of_pos hpos (by omega)
      subst this
      exact ⟨[], by simp, by simp, by simp⟩
  | cons c chunks ih =>
    intro pre hpos
    simp only [List.map_cons, groupSizes]
    have hlen : (pre ++ [c]).flatten.length = pre.flatten.length + c.length := by simp
    split
    · obtain ⟨parts, h1, h2, h3⟩ := ih [] (by
        intro x hx; exact hpos x (by simp at hx ⊢; exact .inr (.inr hx)))
      refine ⟨(pre ++ [c]) :: parts, by simp [h1], ?_, ?_⟩
      · simp only [List.flatten_nil, List.length_nil] at h2
        rw [h2]; simp only [List.map_cons, hlen]
      · intro p hp
        rcases List.mem_cons.mp hp with hp | hp
        · subst hp; simp
        · exact h3 p hp
    · obtain ⟨parts, h1, h2, h3⟩ := ih (pre ++ [c]) (by
        intro x hx; exact hpos x (by simpa [or_assoc] using hx))
      rw [hlen] at h2
      exact ⟨parts, by simp [h1], h2, h3⟩

theorem blocksOf_parts {cfg : Cfg} {chunks : List Bytes} (hpos : ∀ c ∈ chunks, 0 < c.length)
    (hlt : chunks.flatten.length < 2 ^ 32) :
    ∃ parts : List (List Bytes), parts.flatten = chunks ∧ blocksOf cfg chunks = parts.map (fun p => p.flatten.length) := by
  obtain ⟨parts, h1, h2, _⟩ := groups cfg.blockSize chunks [] (by simpa using hpos)
  simp only [List.nil_append, List.flatten_nil, List.length_nil] at h1 h2
  refine ⟨parts, h1, ?_⟩
  unfold blocksOf
  rw [h2, List.map_map]
  apply List.map_congr_left
  intro p hp
  simp only [Function.comp_apply]
  apply toU32_of_lt
  have hs : p.flatten.length ≤ chunks.flatten.length := by
    rw [← h1]
    apply List.Sublist.length_le
    rw [List.flatten_flatten]
    exact List.sublist_flatten_of_mem (List.mem_map.mpr ⟨p, hp, rfl⟩)
  omega

theorem emitItems_append (cfg : Cfg) (xs ys : List Doc) (e : Env) :
    emitItems cfg (xs ++ ys) e = ((emitItems cfg xs e).1 ++ (emitItems cfg ys (emitItems cfg xs e).2).1,
      (emitItems cfg ys (emitItems cfg xs e).2).2) := by
  induction xs generalizing e with
  | nil => simp [emitItems]
  | cons x xs ih => simp [emitItems, ih]

theorem emitKVs_append (cfg : Cfg) (xs ys : List (Bytes × Doc)) (e : Env) :
    emitKVs cfg (xs ++ ys) e = ((emitKVs cfg xs e).1 ++ (emitKVs cfg ys (emitKVs cfg xs e).2).1,
      (emitKVs cfg ys (emitKVs cfg xs e).2).2) := by
  induction xs generalizing e with
  | nil => simp [emitKVs]
  | cons x xs ih => obtain ⟨k, x⟩ := x; simp [emitKVs, ih]

theorem itemsFuel_append (xs ys : List Doc) : itemsFuel xs ≤ itemsFuel (xs ++ ys) ∧ itemsFuel ys ≤ itemsFuel (xs ++ ys) := by
  induction xs with
  | nil => simp [itemsFuel]; cases ys with
    | nil => simp [itemsFuel]
    | cons y ys => simp [itemsFuel]
  | cons x xs ih => simp only [List.cons_append, itemsFuel]; omega

theorem kvsFuel_append (xs ys : List (Bytes × Doc)) : kvsFuel xs ≤ kvsFuel (xs ++ ys) ∧ kvsFuel ys ≤ kvsFuel (xs ++ ys) := by
  induction xs with
  | nil => simp [kvsFuel]; cases ys with
    | nil => simp [kvsFuel]
    | cons y ys => obtain ⟨k, y⟩ := y; simp [kvsFuel]
  | cons x xs ih => obtain ⟨k, x⟩ := x; simp only [List.cons_append, kvsFuel]; omega

theorem noCustomL_append (xs ys : List Doc) : noCustomL (xs ++ ys) = (noCustomL xs && noCustomL ys) := by
  induction xs with
  | nil => simp [noCustomL]
  | cons x xs ih => simp [noCustomL, ih, Bool.and_assoc]

theorem noCustomE_append (xs ys : List (Bytes × Doc)) : noCustomE (xs ++ ys) = (noCustomE xs && noCustomE ys) := by
  induction xs with
  | nil => simp [noCustomE]
  | cons x xs ih => obtain ⟨k, x⟩ := x; simp [noCustomE, ih, Bool.and_assoc]

mutual
theorem noCustom_revMaps : ∀ (d : Doc), d.revMaps.noCustom = d.noCustom
  | .scalar s => rfl
  | .array xs => by simp only [Doc.revMaps, Doc.noCustom]; exact noCustomL_revMaps xs
  | .map es => by simp only [Doc.revMaps, Doc.noCustom]; rw [noCustomE_revMaps es []]; simp [noCustomE]
theorem noCustomL_revMaps : ∀ (xs : List Doc), noCustomL (revMapsL xs) = noCustomL xs
  | [] => rfl
  | x :: xs => by simp only [revMapsL, noCustomL]; rw [noCustom_revMaps x, noCustomL_revMaps xs]
theorem noCustomE_revMaps : ∀ (es acc : List (Bytes × Doc)), noCustomE (revMapsE es acc) = (noCustomE es && noCustomE acc)
  | [], acc => by simp [revMapsE, noCustomE]
  | (k, x) :: es, acc => by
    simp only [revMapsE, noCustomE]
    rw [noCustomE_revMaps es, noCustomE, noCustom_revMaps x]
    cases x.noCustom <;> cases noCustomE es <;> simp
end

/-! ### lists of results -/

theorem docs?_append {os os' : List Obj} {ds ds' : List Doc} (h : docs? os = some ds) (h' : docs? os' = some ds') :
    docs? (os ++ os') = some (ds ++ ds') := by
  induction os generalizing ds with
  | nil => simp [docs?] at h; subst h; simpa using h'
  | cons o os ih =>
    obtain ⟨d, ds1, rfl, h1, h2⟩ := docs?_cons h
    simp [docs?, h1, ih h2]

theorem entries?_append {os os' : List (Str × Obj)} {ds ds' : List (Bytes × Doc)} (h : entries? os = some ds)
    (h' : entries? os' = some ds') : entries? (os ++ os') = some (ds ++ ds') := by
  induction os generalizing ds with
  | nil => simp [entries?] at h; subst h; simpa using h'
  | cons o os ih =>
    obtain ⟨k, o⟩ := o
    obtain ⟨d, ds1, rfl, h1, h2⟩ := entries?_cons h
    simp [entries?, h1, ih h2]

theorem builtL_append {mem : Bytes} {ref : Bool} {pool : PoolRef} {a b : List Obj} :
    builtL mem ref pool (a ++ b) ↔ builtL mem ref pool a ∧ builtL mem ref pool b := by
  induction a with
  | nil => simp [builtL]
  | cons x a ih => simp [builtL, ih, and_assoc]

theorem builtE_append {mem : Bytes} {ref : Bool} {pool : PoolRef} {a b : List (Str × Obj)} :
    builtE mem ref pool (a ++ b) ↔ builtE mem ref pool a ∧ builtE mem ref pool b := by
  induction a with
  | nil => simp [builtE]
  | cons x a ih => obtain ⟨k, x⟩ := x; simp [builtE, ih, and_assoc]

theorem SameL_append {xs xs' ys ys' : List Doc} (h : SameL xs ys) (h' : SameL xs' ys') : SameL (xs ++ xs') (ys ++ ys') := by
  induction xs generalizing ys with
  | nil => simp [SameL] at h; subst h; simpa using h'
  | cons x xs ih =>
    obtain ⟨y, ys1, rfl, h1, h2⟩ := h
    exact ⟨y, ys1 ++ ys', rfl, h1, ih h2⟩

theorem SameE_append {xs xs' ys ys' : List (Bytes × Doc)} (h : SameE xs ys) (h' : SameE xs' ys') :
    SameE (xs ++ xs') (ys ++ ys') := by
  induction xs generalizing ys with
  | nil => simp [SameE] at h; subst h; simpa using h'
  | cons x xs ih =>
    obtain ⟨k, x⟩ := x
    obtain ⟨y, ys1, rfl, h1, h2⟩ := h
    exact ⟨y, ys1 ++ ys', rfl, h1, ih h2⟩

theorem SameL_length {xs ys : List Doc} (h : SameL xs ys) : xs.length = ys.length := by
  induction xs generalizing ys with
  | nil => simp [SameL] at h; simp [h]
  | cons x xs ih => obtain ⟨y, ys1, rfl, _, h2⟩ := h; simp [ih h2]

theorem SameE_length {xs ys : List (Bytes × Doc)} (h : SameE xs ys) : xs.length = ys.length := by
  induction xs generalizing ys with
  | nil => simp [SameE] at h; simp [h]
  | cons x xs ih => obtain ⟨k, x⟩ := x; obtain ⟨y, ys1, rfl, _, h2⟩ := h; simp [ih h2]

theorem revMapsE_acc (es acc : List (Bytes × Doc)) : revMapsE es acc = (es.map (fun e => (e.1, e.2.revMaps))).reverse ++ acc := by
  induction es generalizing acc with
  | nil => simp [revMapsE]
  | cons e es ih => obtain ⟨k, x⟩ := e; simp [revMapsE, ih]

mutual
theorem same_revMaps : ∀ d : Doc, d.Same d.revMaps
  | .scalar s => by simp [Doc.Same, Doc.revMaps]
  | .array xs => by simp only [Doc.Same, Doc.revMaps]; exact ⟨_, rfl, sameL_revMaps xs⟩
  | .map es => by
    simp only [Doc.Same, Doc.revMaps]
    refine ⟨_, _, rfl, sameE_revMaps es, ?_⟩
    rw [revMapsE_acc, List.append_nil]
    exact (List.reverse_perm _).symm
theorem sameL_revMaps : ∀ xs : List Doc, SameL xs (revMapsL xs)
  | [] => by simp [SameL, revMapsL]
  | x :: xs => ⟨_, _, rfl, same_revMaps x, sameL_revMaps xs⟩
theorem sameE_revMaps : ∀ es : List (Bytes × Doc), SameE es (es.map (fun e => (e.1, e.2.revMaps)))
  | [] => by simp [SameE]
  | (k, x) :: es => ⟨_, _, rfl, same_revMaps x, sameE_revMaps es⟩
end

theorem arr_fold (oss : List (List Obj)) : ∀ a : ArrayS, a.size = a.items.length → a.items.length + oss.flatten.length < 2 ^ 64 →
    oss.foldl (fun (a : ArrayS) b => a.merge (b, b.length)) a =
      ⟨a.pool, a.items.length + oss.flatten.length, oss.reverse.flatten ++ a.items⟩ := by
  induction oss with
  | nil => intro a h _; cases a; simp at h ⊢; exact h
  | cons o oss ih =>
    intro a h hb
    simp only [List.flatten_cons, List.length_append] at hb
    simp only [List.foldl_cons]
    cases o with
    | nil => 
      rw [show a.merge ([], ([] : List Obj).length) = a from rfl, ih a h (by simpa using hb)]
      simp
    | cons x o =>
      have hm : a.merge (x :: o, (x :: o).length) = ⟨a.pool, a.size + (x :: o).length, (x :: o) ++ a.items⟩ := by
        unfold ArrayS.merge
        simp only [List.isEmpty_cons, Bool.false_eq_true, if_false]
        rw [addW_of_lt (by omega)]
      rw [hm, ih _ (by simp [h]; omega) (by simp only [List.length_append]; omega)]
      simp; omega

theorem map_fold (oss : List (List (Str × Obj))) : ∀ a : MapS, a.size = a.items.length →
    a.items.length + oss.flatten.length < 2 ^ 64 →
    oss.foldl (fun (a : MapS) b => a.merge (b, b.length)) a =
      ⟨a.ref, a.pool, a.items.length + oss.flatten.length, oss.reverse.flatten ++ a.items⟩ := by
  induction oss with
  | nil => intro a h _; cases a; simp at h ⊢; exact h
  | cons o oss ih =>
    intro a h hb
    simp only [List.flatten_cons, List.length_append] at hb
    simp only [List.foldl_cons]
    cases o with
    | nil => 
      rw [show a.merge ([], ([] : List (Str × Obj)).length) = a from rfl, ih a h (by simpa using hb)]
      simp
    | cons x o =>
      have hm : a.merge (x :: o, (x :: o).length) = ⟨a.ref, a.pool, a.size + (x :: o).length, (x :: o) ++ a.items⟩ := by
        unfold MapS.merge
        simp only [List.isEmpty_cons, Bool.false_eq_true, if_false]
        rw [addW_of_lt (by omega)]
      rw [hm, ih _ (by simp [h]; omega) (by simp only [List.length_append]; omega)]
      simp; omega

/-! ### keys in blocks -/

theorem readKeyBlock {cfg : Cfg} {mem : Bytes} {sm : Option StringMap} {E e : Env} {k : Bytes} {n a : Nat} (ref : Bool)
    (hctx : PCtx cfg mem sm E) (hn : 0 < n) (hr : Room e n) (hf : Follows (emitStr k e).2 E)
    (hat : HasAt mem a (emitStr k e).1) (hin : a + (emitStr k e).1.length < mem.length)
    (hlt : (emitStr k e).1.length < 2 ^ 32) :
    ∃ s, parseKeyBlock cfg (View.whole mem) sm ref ⟨a, a⟩ =
      .ok (s, ⟨a + (emitStr k e).1.length, a + (emitStr k e).1.length⟩) ∧ s.bytes = k ∧
      (if ref then s.Inside mem else s.loc = none) := by
  have hs := hctx.size.1
  rcases emitStr_cases hctx hn hr hf with ⟨h1, h2⟩ | ⟨m', id, s', h1, h2, h3, h4, h5, h6⟩
  · rw [h2] at hat hin hlt ⊢
    rw [HasAt.append] at hat
    simp only [List.length_append] at hin hlt ⊢
    have hins : Str.Inside mem ⟨k, some (a + (lenB k.length).length, k.length)⟩ := Str.inside_of_hasAt hat.2 (by omega)
    obtain ⟨s, o1, o2, o3⟩ := ownKey_eq (cfg := cfg) hctx.strMax hins ref
    refine ⟨s, ?_, o2, o3⟩
    unfold parseKeyBlock
    rw [h1]
    simp only
    rw [readLen hctx.size (by omega) hat.1 (by omega)]
    simp only [ok_bind]
    rw [wholeAddr (by omega), toU32_of_lt (by omega)]
    simp only [ok_bind]
    rw [whole_mem, hat.2.slice, o1]
    simp only [ok_bind]
    rw [skip_eq (by omega), bump_eq (by omega)]
    simp [Nat.add_assoc]
  · rw [h3] at hat hin hlt ⊢
    obtain ⟨s, o1, o2, o3⟩ := ownKey_eq (cfg := cfg) hctx.strMax h6 ref
    refine ⟨s, ?_, o2.trans h5, o3⟩
    unfold parseKeyBlock
    rw [h1]
    simp only
    rw [readLen hctx.size h2 hat (by omega)]
    simp only [ok_bind, toU32_of_lt h2]
    rw [h4]
    simp only [ok_bind]
    rw [o1]
    rfl

/-! ### the parser -/

structure CCtx (cfg : Cfg) (mem : Bytes) (sm : Option StringMap) (si : SplitInfo) (E : Env) : Prop extends
    PCtx cfg mem sm E where
  blocks : ∀ id bs, (id, bs) ∈ E.si.info → si.getBlocks id = .ok bs

section
variable (cfg wc : Cfg) (mem : Bytes) (sm : Option StringMap) (si : SplitInfo) (E : Env) (ref : Bool)

/-- A block of an array. -/
def TightA (f : Nat) : Prop := ∀ (xs : List Doc) (e : Env) (a : Nat), Room e (emitItems wc xs e).1.flatten.length →
  Follows (emitItems wc xs e).2 E → HasAt mem a (emitItems wc xs e).1.flatten →
  a + (emitItems wc xs e).1.flatten.length < mem.length →
  (emitItems wc xs e).1.flatten.length < 2 ^ 32 → (ref = true → noCustomL xs = true) → itemsFuel xs ≤ f →
  ∃ os ds, tightArrayBlock cfg (View.whole mem) sm si ref f (a + (emitItems wc xs e).1.flatten.length) ⟨a, a⟩ = .ok os ∧
    docs? os = some ds ∧ SameL xs ds ∧ builtL mem ref .frame os

/-- A block of a map. -/
def TightM (f : Nat) : Prop := ∀ (xs : List (Bytes × Doc)) (e : Env) (a : Nat), Room e (emitKVs wc xs e).1.flatten.length →
  Follows (emitKVs wc xs e).2 E → HasAt mem a (emitKVs wc xs e).1.flatten →
  a + (emitKVs wc xs e).1.flatten.length < mem.length →
  (emitKVs wc xs e).1.flatten.length < 2 ^ 32 → (ref = true → noCustomE xs = true) → kvsFuel xs ≤ f →
  ∃ os ds, tightMapBlock cfg (View.whole mem) sm si ref f (a + (emitKVs wc xs e).1.flatten.length) ⟨a, a⟩ = .ok os ∧
    entries? os = some ds ∧ SameE xs ds ∧ builtE mem ref .frame os

/-- A split container, or the value of a child whatever it is. -/
def TightD (f : Nat) : Prop := ∀ (d : Doc) (e : Env) (a : Nat), Room e (emitDoc wc d e).1.length →
  Follows (emitDoc wc d e).2.2 E → HasAt mem a (emitDoc wc d e).1 →
  a + (emitDoc wc d e).1.length < mem.length →
  (emitDoc wc d e).1.length < 2 ^ 32 → (ref = true → d.noCustom = true) → docFuel d ≤ f →
  ∃ o d', coChild (emitDoc wc d e).2.1 (docType d) (parseVal cfg (View.whole mem) sm ref .frame f (docType d) ⟨a, a⟩)
      (tightArray cfg (View.whole mem) sm si ref f a) (tightMap cfg (View.whole mem) sm si ref f a) =
      .ok (o, ⟨a + (emitDoc wc d e).1.length, a + (emitDoc wc d e).1.length⟩) ∧
    o.doc? = some d' ∧ d.Same d' ∧ o.Built mem ref .frame

/-- A block of an array. -/
def SegA (f : Nat) : Prop := ∀ (xs : List Doc) (e : Env) (a : Nat), Room e (emitItems wc xs e).1.flatten.length →
  Follows (emitItems wc xs e).2 E → HasAt mem a (emitItems wc xs e).1.flatten →
  a + (emitItems wc xs e).1.flatten.length < mem.length →
  (emitItems wc xs e).1.flatten.length < 2 ^ 32 → (ref = true → noCustomL xs = true) → itemsFuel xs ≤ f →
  ∃ os ds, coArrayBlock cfg (View.whole mem) sm si ref f (a + (emitItems wc xs e).1.flatten.length) ⟨a, a⟩ = .ok os ∧
    docs? os = some ds ∧ SameL xs ds ∧ builtL mem ref .frame os

/-- A block of a map. -/
def SegM (f : Nat) : Prop := ∀ (xs : List (Bytes × Doc)) (e : Env) (a : Nat), Room e (emitKVs wc xs e).1.flatten.length →
  Follows (emitKVs wc xs e).2 E → HasAt mem a (emitKVs wc xs e).1.flatten →
  a + (emitKVs wc xs e).1.flatten.length < mem.length →
  (emitKVs wc xs e).1.flatten.length < 2 ^ 32 → (ref = true → noCustomE xs = true) → kvsFuel xs ≤ f →
  ∃ os ds, coMapBlock cfg (View.whole mem) sm si ref f (a + (emitKVs wc xs e).1.flatten.length) ⟨a, a⟩ = .ok os ∧
    entries? os = some ds ∧ SameE xs ds ∧ builtE mem ref .frame os

/-- A split container, or the value of a child whatever it is. -/
def CoD (f : Nat) : Prop := ∀ (d : Doc) (e : Env) (a : Nat), Room e (emitDoc wc d e).1.length →
  Follows (emitDoc wc d e).2.2 E → HasAt mem a (emitDoc wc d e).1 →
  a + (emitDoc wc d e).1.length < mem.length →
  (emitDoc wc d e).1.length < 2 ^ 32 → (ref = true → d.noCustom = true) → docFuel d ≤ f →
  ∃ o d', coChild (emitDoc wc d e).2.1 (docType d) (parseVal cfg (View.whole mem) sm ref .frame f (docType d) ⟨a, a⟩)
      (coArray cfg (View.whole mem) sm si ref f a) (coMap cfg (View.whole mem) sm si ref f a) =
      .ok (o, ⟨a + (emitDoc wc d e).1.length, a + (emitDoc wc d e).1.length⟩) ∧
    o.doc? = some d' ∧ d.Same d' ∧ o.Built mem ref .frame
end

theorem tightA_blocks {cfg wc : Cfg} {mem : Bytes} {sm : Option StringMap} {si : SplitInfo} {E : Env} {ref : Bool} {f : Nat}
    (hctx : CCtx cfg mem sm si E) (hseg : TightA cfg wc mem sm si E ref f) :
    ∀ (parts : List (List Bytes)) (xs : List Doc) (e : Env) (b : Nat), parts.flatten = (emitItems wc xs e).1 →
    Room e (emitItems wc xs e).1.flatten.length →
    Follows (emitItems wc xs e).2 E → HasAt mem b (emitItems wc xs e).1.flatten →
    b + (emitItems wc xs e).1.flatten.length < mem.length →
    (emitItems wc xs e).1.flatten.length < 2 ^ 32 → (ref = true → noCustomL xs = true) → itemsFuel xs ≤ f →
    ∃ (oss : List (List Obj)) (ds : List Doc), (blockBounds b (parts.map (fun p => p.flatten.length))).1.map
        (fun be => tightArrayBlock cfg (View.whole mem) sm si ref f be.2 ⟨addW 0 be.1, be.1⟩) = oss.map (fun x => .ok x) ∧
      (blockBounds b (parts.map (fun p => p.flatten.length))).2 = b + (emitItems wc xs e).1.flatten.length ∧
      docs? oss.flatten = some ds ∧ SameL xs ds ∧ builtL mem ref .frame oss.flatten := by
  intro parts
  induction parts with
  | nil =>
    intro xs e b hp hr hf hat hin hlt hcust hfuel
    simp only [List.flatten_nil] at hp
    have hl := emitItems_length wc xs e
    rw [← hp] at hl
    have : xs = [] := List.eq_nil_of_length_eq_zero (by simpa using hl.symm)
    subst this
    exact ⟨[], [], rfl, by simp [blockBounds, emitItems], rfl, rfl, trivial⟩
  | cons p parts ih =>
    intro xs e b hp hr hf hat hin hlt hcust hfuel
    simp only [List.flatten_cons] at hp
    have hs := hctx.size.1
    -- split the children
    have hl := emitItems_length wc xs e
    have hsplit := List.take_append_drop p.length xs
    generalize hx1 : xs.take p.length = x1 at hsplit
    generalize hx2 : xs.drop p.length = x2 at hsplit
    subst hsplit
    rw [emitItems_append] at hp hr hf hat hin hlt hl ⊢
    simp only [List.flatten_append, List.length_append] at hp hr hf hat hin hlt hl ⊢
    have hx1l : x1.length = p.length := by
      have h1 := congrArg List.length hp
      have h2 := emitItems_length wc x1 e
      have h3 := emitItems_length wc x2 (emitItems wc x1 e).2
      simp only [List.length_append] at h1
      have : x1.length = min p.length (x1 ++ x2).length := by
        have := congrArg List.length hx1; simpa using this.symm
      simp only [List.length_append] at this
      omega
    have heq := List.append_inj hp (by rw [emitItems_length, hx1l])
    obtain ⟨hp1, hp2⟩ := heq
    rw [HasAt.append] at hat
    have g1 := emitItems_grows wc x1 e (hr.mono (by omega))
    have hr2 := hr.after g1
    have g2 := emitItems_grows wc x2 _ hr2
    rw [noCustomL_append] at hcust
    have hfu := itemsFuel_append x1 x2
    obtain ⟨os, ds, s1, s2, s3, s4⟩ := hseg x1 e b (hr.mono (by omega)) (Follows.of_grows g2 hr2 hf) hat.1 (by omega) (by omega)
      (fun h => by have := hcust h; simp only [Bool.and_eq_true] at this; exact this.1) (by omega)
    obtain ⟨oss, ds', t1, t2, t3, t4, t5⟩ := ih x2 (emitItems wc x1 e).2 (b + (emitItems wc x1 e).1.flatten.length) hp2 hr2 hf
      hat.2 (by omega) (by omega)
      (fun h => by have := hcust h; simp only [Bool.and_eq_true] at this; exact this.2) (by omega)
    refine ⟨os :: oss, ds ++ ds', ?_, ?_, ?_, SameL_append s3 t4, ?_⟩
    · simp only [List.map_cons, blockBounds]
      rw [hp1, addW_of_lt (by omega), t1, addW_of_lt (by omega), Nat.zero_add, s1]
    · simp only [List.map_cons, blockBounds]
      rw [hp1, addW_of_lt (by omega), t2, Nat.add_assoc]
    · simp only [List.flatten_cons]; exact docs?_append s2 t3
    · simp only [List.flatten_cons]; rw [builtL_append]; exact ⟨s4, t5⟩

theorem tightM_blocks {cfg wc : Cfg} {mem : Bytes} {sm : Option StringMap} {si : SplitInfo} {E : Env} {ref : Bool} {f : Nat}
    (hctx : CCtx cfg mem sm si E) (hseg : TightM cfg wc mem sm si E ref f) :
    ∀ (parts : List (List Bytes)) (xs : List (Bytes × Doc)) (e : Env) (b : Nat), parts.flatten = (emitKVs wc xs e).1 →
    Room e (emitKVs wc xs e).1.flatten.length →
    Follows (emitKVs wc xs e).2 E → HasAt mem b (emitKVs wc xs e).1.flatten →
    b + (emitKVs wc xs e).1.flatten.length < mem.length →
    (emitKVs wc xs e).1.flatten.length < 2 ^ 32 → (ref = true → noCustomE xs = true) → kvsFuel xs ≤ f →
    ∃ (oss : List (List (Str × Obj))) (ds : List (Bytes × Doc)), (blockBounds b (parts.map (fun p => p.flatten.length))).1.map
        (fun be => tightMapBlock cfg (View.whole mem) sm si ref f be.2 ⟨addW 0 be.1, be.1⟩) = oss.map (fun x => .ok x) ∧
      (blockBounds b (parts.map (fun p => p.flatten.length))).2 = b + (emitKVs wc xs e).1.flatten.length ∧
      entries? oss.flatten = some ds ∧ SameE xs ds ∧ builtE mem ref .frame oss.flatten ∧
      ∃ ds', entries? oss.reverse.flatten = some ds' ∧ ds.Perm ds' ∧ builtE mem ref .frame oss.reverse.flatten := by
  intro parts
  induction parts with
  | nil =>
    intro xs e b hp hr hf hat hin hlt hcust hfuel
    simp only [List.flatten_nil] at hp
    have hl := emitKVs_length wc xs e
    rw [← hp] at hl
    have : xs = [] := List.eq_nil_of_length_eq_zero (by simpa using hl.symm)
    subst this
    exact ⟨[], [], rfl, by simp [blockBounds, emitKVs], rfl, rfl, trivial, [], rfl, List.Perm.refl _, trivial⟩
  | cons p parts ih =>
    intro xs e b hp hr hf hat hin hlt hcust hfuel
    simp only [List.flatten_cons] at hp
    have hs := hctx.size.1
    have hl := emitKVs_length wc xs e
    have hsplit := List.take_append_drop p.length xs
    generalize hx1 : xs.take p.length = x1 at hsplit
    generalize hx2 : xs.drop p.length = x2 at hsplit
    subst hsplit
    rw [emitKVs_append] at hp hr hf hat hin hlt hl ⊢
    simp only [List.flatten_append, List.length_append] at hp hr hf hat hin hlt hl ⊢
    have hx1l : x1.length = p.length := by
      have h1 := congrArg List.length hp
      have h2 := emitKVs_length wc x1 e
      have h3 := emitKVs_length wc x2 (emitKVs wc x1 e).2
      simp only [List.length_append] at h1
      have : x1.length = min p.length (x1 ++ x2).length := by
        have := congrArg List.length hx1; simpa using this.symm
      simp only [List.length_append] at this
      omega
    have heq := List.append_inj hp (by rw [emitKVs_length, hx1l])
    obtain ⟨hp1, hp2⟩ := heq
    rw [HasAt.append] at hat
    have g1 := emitKVs_grows wc x1 e (hr.mono (by omega))
    have hr2 := hr.after g1
    have g2 := emitKVs_grows wc x2 _ hr2
    rw [noCustomE_append] at hcust
    have hfu := kvsFuel_append x1 x2
    obtain ⟨os, ds, s1, s2, s3, s4⟩ := hseg x1 e b (hr.mono (by omega)) (Follows.of_grows g2 hr2 hf) hat.1 (by omega) (by omega)
      (fun h => by have := hcust h; simp only [Bool.and_eq_true] at this; exact this.1) (by omega)
    obtain ⟨oss, ds', t1, t2, t3, t4, t5, ds'', t6, t7, t8⟩ := ih x2 (emitKVs wc x1 e).2
      (b + (emitKVs wc x1 e).1.flatten.length) hp2 hr2 hf
      hat.2 (by omega) (by omega)
      (fun h => by have := hcust h; simp only [Bool.and_eq_true] at this; exact this.2) (by omega)
    refine ⟨os :: oss, ds ++ ds', ?_, ?_, ?_, SameE_append s3 t4, ?_, ds'' ++ ds, ?_, ?_, ?_⟩
    · simp only [List.map_cons, blockBounds]
      rw [hp1, addW_of_lt (by omega), t1, addW_of_lt (by omega), Nat.zero_add, s1]
    · simp only [List.map_cons, blockBounds]
      rw [hp1, addW_of_lt (by omega), t2, Nat.add_assoc]
    · simp only [List.flatten_cons]; exact entries?_append s2 t3
    · simp only [List.flatten_cons]; rw [builtE_append]; exact ⟨s4, t5⟩
    · simp only [List.reverse_cons, List.flatten_append, List.flatten_cons, List.flatten_nil, List.append_nil]
      exact entries?_append t6 s2
    · exact List.perm_append_comm.trans (t7.append_right ds)
    · simp only [List.reverse_cons, List.flatten_append, List.flatten_cons, List.flatten_nil, List.append_nil]
      rw [builtE_append]; exact ⟨t8, s4⟩

/-- Where a split container's blocks are registered. -/
theorem container_registered {wc : Cfg} {count id : Nat} {chunks : List Bytes} {e : Env}
    (hs : (emitContainer wc count id chunks e).2.1 = true) (h : id ∉ e.si.info.map Prod.fst) :
    (id, blocksOf wc chunks) ∈ (emitContainer wc count id chunks e).2.2.si.info := by
  unfold emitContainer at hs ⊢
  simp only at hs ⊢
  rw [if_pos hs]
  simp only [SplitInfo.register]
  rw [assocSet_fresh _ _ h]
  simp

theorem tight_all {cfg wc : Cfg} {mem : Bytes} {sm : Option StringMap} {si : SplitInfo} {E : Env} {ref : Bool}
    (hctx : CCtx cfg mem sm si E) : ∀ f : Nat, TightA cfg wc mem sm si E ref f ∧ TightM cfg wc mem sm si E ref f ∧ TightD cfg wc mem sm si E ref f := by
  intro f
  induction f with
  | zero =>
    refine ⟨?_, ?_, ?_⟩
    · intro xs e a _ _ _ _ _ _ hfu; exfalso; cases xs <;> simp [itemsFuel] at hfu
    · intro xs e a _ _ _ _ _ _ hfu; exfalso
      cases xs with
      | nil => simp [kvsFuel] at hfu
      | cons x xs => obtain ⟨k, x⟩ := x; simp [kvsFuel] at hfu
    · intro d e a _ _ _ _ _ _ hfu; exfalso; cases d <;> simp [docFuel] at hfu
  | succ f ih =>
    obtain ⟨ihA, ihM, ihD⟩ := ih
    have hs := hctx.size.1
    refine ⟨?_, ?_, ?_⟩
    · intro xs e a hr hf hat hin hlt hcust hfuel
      cases xs with
      | nil => exact ⟨[], [], by simp [tightArrayBlock, emitItems], rfl, rfl, trivial⟩
      | cons x xs =>
        simp only [itemsFuel] at hfuel
        simp only [emitItems, List.flatten_cons, List.length_append, List.length_cons] at hr hf hat hin hlt ⊢
        have g1 := emitDoc_grows wc x e (hr.mono (by omega))
        have hr2 : Room (emitDoc wc x e).2.2 (emitItems wc xs (emitDoc wc x e).2.2).1.flatten.length :=
          (hr.mono (by omega)).after g1
        have g2 := emitItems_grows wc xs _ hr2
        rw [HasAt.append, HasAt.cons] at hat
        obtain ⟨⟨h0, h1⟩, h2⟩ := hat
        simp only [List.length_cons] at h2
        have hcust1 : ref = true → x.noCustom = true := fun h => by
          have := hcust h; simp only [noCustomL, Bool.and_eq_true] at this; exact this.1
        have hcust2 : ref = true → noCustomL xs = true := fun h => by
          have := hcust h; simp only [noCustomL, Bool.and_eq_true] at this; exact this.2
        obtain ⟨o, d', p1, p2, p3, p4⟩ := ihD x e (a + 1) (hr.mono (by omega)) (Follows.of_grows g2 hr2 hf) h1 (by omega)
          (by omega) hcust1 (by omega)
        have hcur : a + 1 + (emitDoc wc x e).1.length = a + ((emitDoc wc x e).1.length + 1) := by omega
        obtain ⟨os, ds, q1, q2, q3, q4⟩ := ihA xs (emitDoc wc x e).2.2 (a + 1 + (emitDoc wc x e).1.length) hr2 hf
          (by rw [hcur]; exact h2) (by omega) (by omega) hcust2 (by omega)
        refine ⟨o :: os, d' :: ds, ?_, by simp [docs?, p2, q2], ⟨d', ds, rfl, p3, q3⟩, p4, q4⟩
        rw [tightArrayBlock]
        rw [if_pos (by simp only; omega), readTagSplit hs h0 (docType_ne_invalid x)]
        simp only [ok_bind]
        rw [p1]
        simp only [ok_bind]
        rw [show a + ((emitDoc wc x e).1.length + 1 + (emitItems wc xs (emitDoc wc x e).2.2).1.flatten.length) =
          a + 1 + (emitDoc wc x e).1.length + (emitItems wc xs (emitDoc wc x e).2.2).1.flatten.length by omega, q1]
        rfl
    · intro xs e a hr hf hat hin hlt hcust hfuel
      cases xs with
      | nil => exact ⟨[], [], by simp [tightMapBlock, emitKVs], rfl, rfl, trivial⟩
      | cons x xs =>
        obtain ⟨k, x⟩ := x
        simp only [kvsFuel] at hfuel
        simp only [emitKVs, List.flatten_cons, List.length_append, List.length_cons] at hr hf hat hin hlt ⊢
        have hkp := emitStr_pos k e
        have g0 : Grows e (emitStr k e).2 (emitStr k e).1.length := emitStr_grows hkp (hr.mono (by omega))
        have hr1 : Room (emitStr k e).2 ((emitDoc wc x (emitStr k e).2).1.length +
            (emitKVs wc xs (emitDoc wc x (emitStr k e).2).2.2).1.flatten.length) := (hr.mono (by omega)).after g0
        have g1 := emitDoc_grows wc x (emitStr k e).2 (hr1.mono (by omega))
        have hr2 : Room (emitDoc wc x (emitStr k e).2).2.2
            (emitKVs wc xs (emitDoc wc x (emitStr k e).2).2.2).1.flatten.length := hr1.after g1
        have g2 := emitKVs_grows wc xs _ hr2
        have hf1 := Follows.of_grows g2 hr2 hf
        have hf0 := Follows.of_grows g1 (hr1.mono (by omega)) hf1
        rw [HasAt.append, HasAt.append, HasAt.cons] at hat
        obtain ⟨⟨hk, h0, h1⟩, h2⟩ := hat
        simp only [List.length_append, List.length_cons] at h2
        have hcust1 : ref = true → x.noCustom = true := fun h => by
          have := hcust h; simp only [noCustomE, Bool.and_eq_true] at this; exact this.1
        have hcust2 : ref = true → noCustomE xs = true := fun h => by
          have := hcust h; simp only [noCustomE, Bool.and_eq_true] at this; exact this.2
        obtain ⟨ks, k1, k2, k3⟩ := readKeyBlock ref hctx.toPCtx hkp (hr.mono (by omega)) hf0 hk (by omega) (by omega)
        obtain ⟨o, d', p1, p2, p3, p4⟩ := ihD x (emitStr k e).2
          (a + (emitStr k e).1.length + 1) (hr1.mono (by omega)) hf1 h1 (by omega) (by omega) hcust1 (by omega)
        have hcur : a + (emitStr k e).1.length + 1 + (emitDoc wc x (emitStr k e).2).1.length =
          a + ((emitStr k e).1.length + ((emitDoc wc x (emitStr k e).2).1.length + 1)) := by omega
        obtain ⟨os, ds, q1, q2, q3, q4⟩ := ihM xs (emitDoc wc x (emitStr k e).2).2.2
          (a + (emitStr k e).1.length + 1 + (emitDoc wc x (emitStr k e).2).1.length) hr2 hf
          (by rw [hcur]; exact h2) (by omega) (by omega) hcust2 (by omega)
        refine ⟨(ks, o) :: os, (k, d') :: ds, ?_, by simp [entries?, p2, q2, k2], ⟨d', ds, rfl, p3, q3⟩, k3, p4, q4⟩
        rw [tightMapBlock]
        rw [if_pos (by simp only; omega), k1]
        simp only [ok_bind]
        rw [readTagSplit hs h0 (docType_ne_invalid x)]
        simp only [ok_bind]
        rw [p1]
        simp only [ok_bind]
        rw [show a + ((emitStr k e).1.length + ((emitDoc wc x (emitStr k e).2).1.length + 1) +
            (emitKVs wc xs (emitDoc wc x (emitStr k e).2).2.2).1.flatten.length) =
          a + (emitStr k e).1.length + 1 + (emitDoc wc x (emitStr k e).2).1.length +
            (emitKVs wc xs (emitDoc wc x (emitStr k e).2).2.2).1.flatten.length by omega, q1]
        rfl
    · intro d e a hr hf hat hin hlt hcust hfuel
      cases hsp : (emitDoc wc d e).2.1 with
      | false =>
        obtain ⟨o, p1, p2, p3⟩ := parseVal_eq (ref := ref) (pool := .frame) hctx.toPCtx d e a (f + 1) hr hf hat hin hlt hcust hfuel
        exact ⟨o, d.revMaps, by simpa [coChild] using p1, p2, same_revMaps d, p3⟩
      | true =>
        cases d with
        | scalar s => simp [emitDoc] at hsp
        | array xs =>
          simp only [docFuel] at hfuel
          simp only [emitDoc] at hsp
          simp only [emitDoc, emitContainer_length] at hr hf hat hin hlt ⊢
          have hp1 := lenB_length_pos xs.length
          have hroom := request_room (k := (emitItems wc xs { e with si := e.si.requestId.1 }).1.flatten.length) hr (by omega)
          have hpos := emitItems_pos wc xs { e with si := e.si.requestId.1 }
          have hcnt := length_le_flatten hpos
          have hxl : (emitItems wc xs { e with si := e.si.requestId.1 }).1.length = xs.length := emitItems_length wc xs _
          have hid : e.si.requestId.2 < 2 ^ 32 := by have := hr.siRoom; simp only [SplitInfo.requestId]; omega
          have hfresh := container_fresh hr (emitItems_grows wc xs _ hroom)
          have hreg := container_registered hsp hfresh
          have hbl := hctx.blocks _ _ (hf.info.subset hreg)
          have hfol : Follows (emitItems wc xs { e with si := e.si.requestId.1 }).2 E := by
            refine ⟨?_, ?_, ?_⟩
            · intro h; apply hf.smNone; unfold emitContainer; simp only; split <;> exact h
            · intro m h; apply hf.sm; unfold emitContainer; simp only; split <;> exact h
            · exact (container_info hfresh).trans hf.info
          simp only [emitContainer] at hat
          rw [HasAt.append, HasAt.append, List.length_append] at hat
          obtain ⟨⟨h1, h2⟩, h3⟩ := hat
          rw [← Nat.add_assoc] at h3
          obtain ⟨parts, hpt1, hpt2⟩ := blocksOf_parts (cfg := wc) hpos (by omega)
          obtain ⟨oss, ds, t1, t2, t3, t4, t5⟩ := tightA_blocks hctx ihA parts xs { e with si := e.si.requestId.1 }
            (a + (lenB xs.length).length + (lenB e.si.requestId.2).length) hpt1 hroom hfol h3 (by omega) (by omega)
            (by simpa [Doc.noCustom] using hcust) (by omega)
          have hlen := docs?_length t3
          have hds : ds.length = xs.length := (SameL_length t4).symm
          refine ⟨.array .frame oss.flatten.length oss.flatten, .array ds, ?_, by simp [Obj.doc?, t3], ⟨ds, rfl, t4⟩, rfl, t5⟩
          simp only [coChild, if_true, docType]
          rw [tightArray]
          simp only
          rw [addW_of_lt (by omega), Nat.zero_add, readLen hctx.size (by omega) h1 (by omega)]
          simp only [ok_bind]
          rw [readLen hctx.size hid h2 (by omega)]
          simp only [ok_bind]
          rw [toU32_of_lt hid, hbl]
          simp only [ok_bind]
          rw [hpt2, t1, t2, ← List.map_reverse, joinTasks_ok]
          simp only [ok_bind]
          rw [arr_fold oss.reverse _ rfl (by
            have : oss.reverse.flatten.length = oss.flatten.length := (List.reverse_perm oss).flatten.length_eq
            simp only [this, List.length_nil]; omega)]
          have hrl : oss.reverse.flatten.length = oss.flatten.length := (List.reverse_perm oss).flatten.length_eq
          simp only [ArrayS.toObj, List.reverse_reverse, List.append_nil, List.length_nil, Nat.zero_add, hrl, pure_eq_ok,
            Nat.add_assoc]
        | map es =>
          simp only [docFuel] at hfuel
          simp only [emitDoc] at hsp
          simp only [emitDoc, emitContainer_length] at hr hf hat hin hlt ⊢
          have hp1 := lenB_length_pos es.length
          have hroom := request_room (k := (emitKVs wc es { e with si := e.si.requestId.1 }).1.flatten.length) hr (by omega)
          have hpos := emitKVs_pos wc es { e with si := e.si.requestId.1 }
          have hcnt := length_le_flatten hpos
          have hxl : (emitKVs wc es { e with si := e.si.requestId.1 }).1.length = es.length := emitKVs_length wc es _
          have hid : e.si.requestId.2 < 2 ^ 32 := by have := hr.siRoom; simp only [SplitInfo.requestId]; omega
          have hfresh := container_fresh hr (emitKVs_grows wc es _ hroom)
          have hreg := container_registered hsp hfresh
          have hbl := hctx.blocks _ _ (hf.info.subset hreg)
          have hfol : Follows (emitKVs wc es { e with si := e.si.requestId.1 }).2 E := by
            refine ⟨?_, ?_, ?_⟩
            · intro h; apply hf.smNone; unfold emitContainer; simp only; split <;> exact h
            · intro m h; apply hf.sm; unfold emitContainer; simp only; split <;> exact h
            · exact (container_info hfresh).trans hf.info
          simp only [emitContainer] at hat
          rw [HasAt.append, HasAt.append, List.length_append] at hat
          obtain ⟨⟨h1, h2⟩, h3⟩ := hat
          rw [← Nat.add_assoc] at h3
          obtain ⟨parts, hpt1, hpt2⟩ := blocksOf_parts (cfg := wc) hpos (by omega)
          obtain ⟨oss, ds, t1, t2, t3, t4, t5, ds', t6, t7, t8⟩ := tightM_blocks hctx ihM parts es { e with si := e.si.requestId.1 }
            (a + (lenB es.length).length + (lenB e.si.requestId.2).length) hpt1 hroom hfol h3 (by omega) (by omega)
            (by simpa [Doc.noCustom] using hcust) (by omega)
          have hlen := entries?_length t3
          have hds : ds.length = es.length := (SameE_length t4).symm
          have hrl : oss.reverse.flatten.length = oss.flatten.length := (List.reverse_perm oss).flatten.length_eq
          refine ⟨.map ref .frame oss.flatten.length oss.reverse.flatten, .map ds', ?_, by simp [Obj.doc?, t6, hrl],
            ⟨ds', ds, rfl, t4, t7⟩, rfl, rfl, t8⟩
          simp only [coChild, if_true, docType]
          rw [tightMap]
          simp only
          rw [addW_of_lt (by omega), Nat.zero_add, readLen hctx.size (by omega) h1 (by omega)]
          simp only [ok_bind]
          rw [readLen hctx.size hid h2 (by omega)]
          simp only [ok_bind]
          rw [toU32_of_lt hid, hbl]
          simp only [ok_bind]
          rw [hpt2, t1, t2, joinTasks_ok]
          simp only [ok_bind]
          rw [map_fold oss _ rfl (by simp only [List.length_nil]; omega)]
          simp only [MapS.toObj, List.append_nil, List.length_nil, Nat.zero_add, pure_eq_ok, Nat.add_assoc]

/-- The same for the parallel parser itself. -/
theorem co_all {cfg wc : Cfg} {mem : Bytes} {sm : Option StringMap} {si : SplitInfo} {E : Env} {ref : Bool}
    (hctx : CCtx cfg mem sm si E) (f : Nat) : SegA cfg wc mem sm si E ref f ∧ SegM cfg wc mem sm si E ref f ∧ CoD cfg wc mem sm si E ref f := by
  obtain ⟨hA, hM, hD⟩ := tight_all (wc := wc) (ref := ref) hctx f
  obtain ⟨tA, tB, tC, tD⟩ := tight_co (cfg := cfg) (v := View.whole mem) (sm := sm) (si := si) (ref := ref) f
  refine ⟨fun xs e a h1 h2 h3 h4 h5 h6 h7 => ?_, fun xs e a h1 h2 h3 h4 h5 h6 h7 => ?_, fun d e a h1 h2 h3 h4 h5 h6 h7 => ?_⟩
  · obtain ⟨os, ds, g1, g2⟩ := hA xs e a h1 h2 h3 h4 h5 h6 h7
    exact ⟨os, ds, tA _ _ _ g1, g2⟩
  · obtain ⟨os, ds, g1, g2⟩ := hM xs e a h1 h2 h3 h4 h5 h6 h7
    exact ⟨os, ds, tC _ _ _ g1, g2⟩
  · obtain ⟨o, d', g1, g2⟩ := hD d e a h1 h2 h3 h4 h5 h6 h7
    exact ⟨o, d', tight_child (tB _) (tD _) g1, g2⟩

end Bridge
