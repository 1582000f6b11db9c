import Verif.Proof.Top
/-
A document with a custom value cannot be parsed in situ: `parseData` for views has no case for custom types.
-/
namespace Bridge
open Spec

/-- The exception of `parseData` for a type it does not know. -/
abbrev noView : Err := .exn .parseDataInvalid

theorem parseLeaf_custom {cfg : Cfg} {mem : Bytes} {sm : Option StringMap} {E e : Env} {b : Bytes} {a : Nat}
    (hctx : PCtx cfg mem sm E)
    (hat : HasAt mem a (emitScalar (.custom b) e).1) (hin : a + (emitScalar (.custom b) e).1.length < mem.length)
    (hlt : (emitScalar (.custom b) e).1.length < 2 ^ 32) :
    parseViewObj cfg (View.whole mem) sm ⟨a, a⟩ = .error noView := by
  have hs := hctx.size.1
  have heq : (emitScalar (.custom b) e).1 = BRIDGE_CUSTOM :: (lenB b.length ++ b) := rfl
  rw [heq] at hat hin hlt
  rw [HasAt.cons, HasAt.append] at hat
  obtain ⟨h1, h2, h3⟩ := hat
  simp only [List.length_cons, List.length_append] at hin hlt
  unfold parseViewObj
  rw [readType hs h1]
  simp only [ok_bind]
  rw [show checkDataType BRIDGE_CUSTOM = .ok () from rfl]
  simp only [ok_bind]
  have hcommon : (do
      let (size, c) ← parseLength cfg (View.whole mem) ⟨a + 1, a + 1⟩
      let addr ← curAddr (View.whole mem) c
      let p ← parseDataView cfg BRIDGE_CUSTOM (View.whole mem).mem addr size
      checkOOR (View.whole mem) (skip c size)
      pure (Obj.data true BRIDGE_CUSTOM p, bump (skip c size) size) : Res (Obj × Cur)) = .error noView := by
    rw [readLen hctx.size (by omega) h2 (by omega)]
    simp only [ok_bind]
    rw [wholeAddr (by omega)]
    simp only [ok_bind]
    rfl
  cases sm with
  | none => exact hcommon
  | some m => exact hcommon

mutual
theorem parseVal_custom {cfg wc : Cfg} {mem : Bytes} {sm : Option StringMap} {E : Env} {pool : PoolRef}
    (hctx : PCtx cfg mem sm E) : ∀ (d : Doc) (e : Env) (a f : Nat), Room e (emitDoc wc d e).1.length →
    Follows (emitDoc wc d e).2.2 E → HasAt mem a (emitDoc wc d e).1 → a + (emitDoc wc d e).1.length < mem.length →
    (emitDoc wc d e).1.length < 2 ^ 32 → d.noCustom = false → docFuel d ≤ f →
    parseVal cfg (View.whole mem) sm true pool f (docType d) ⟨a, a⟩ = .error noView
  | .scalar s, e, a, f, hr, hf, hat, hin, hlt, hcust, hfuel => by
    cases f with
    | zero => simp [docFuel] at hfuel
    | succ f =>
      simp only [emitDoc] at hr hf hat hin hlt
      cases s with
      | custom b =>
        simp only [docType, parseVal, if_true]
        exact parseLeaf_custom hctx hat hin hlt
      | _ => simp [Doc.noCustom] at hcust
  | .array xs, e, a, f, hr, hf, hat, hin, hlt, hcust, hfuel => by
    cases f with
    | zero => simp [docFuel] at hfuel
    | succ f =>
      simp only [docFuel] at hfuel
      simp only [emitDoc, emitContainer_length] at hr hf hat hin hlt
      have hp1 := lenB_length_pos xs.length
      have hroom := request_room (k := (emitItems wc xs { e with si := e.si.requestId.1 }).1.flatten.length) hr (by omega)
      have hcnt := length_le_flatten (emitItems_pos wc xs { e with si := e.si.requestId.1 })
      have hxl : (emitItems wc xs { e with si := e.si.requestId.1 }).1.length = xs.length := emitItems_length wc xs _
      have hid : e.si.requestId.2 < 2 ^ 32 := by have := hr.siRoom; simp only [SplitInfo.requestId]; omega
      have hfol : Follows (emitItems wc xs { e with si := e.si.requestId.1 }).2 E := by
        refine ⟨?_, ?_, ?_⟩
        · intro h; apply hf.smNone; unfold emitContainer; simp only; split <;> exact h
        · intro m h; apply hf.sm; unfold emitContainer; simp only; split <;> exact h
        · refine (container_info ?_).trans hf.info
          exact container_fresh hr (emitItems_grows wc xs _ hroom)
      simp only [emitContainer] at hat
      rw [HasAt.append, HasAt.append, List.length_append] at hat
      obtain ⟨⟨h1, h2⟩, h3⟩ := hat
      rw [← Nat.add_assoc] at h3
      have c1 := parseItems_custom (pool := pool) hctx xs { e with si := e.si.requestId.1 }
        (a + (lenB xs.length).length + (lenB e.si.requestId.2).length) f hroom hfol h3 (by omega) (by omega)
        (by simpa [Doc.noCustom] using hcust) (by omega)
      simp only [docType, parseVal]
      rw [readLen hctx.size (by omega) h1 (by omega)]
      simp only [ok_bind]
      rw [readLen hctx.size hid h2 (by omega)]
      simp only [ok_bind]
      rw [c1]
      simp only [error_bind]
  | .map es, e, a, f, hr, hf, hat, hin, hlt, hcust, hfuel => by
    cases f with
    | zero => simp [docFuel] at hfuel
    | succ f =>
      simp only [docFuel] at hfuel
      simp only [emitDoc, emitContainer_length] at hr hf hat hin hlt
      have hp1 := lenB_length_pos es.length
      have hroom := request_room (k := (emitKVs wc es { e with si := e.si.requestId.1 }).1.flatten.length) hr (by omega)
      have hcnt := length_le_flatten (emitKVs_pos wc es { e with si := e.si.requestId.1 })
      have hxl : (emitKVs wc es { e with si := e.si.requestId.1 }).1.length = es.length := emitKVs_length wc es _
      have hid : e.si.requestId.2 < 2 ^ 32 := by have := hr.siRoom; simp only [SplitInfo.requestId]; omega
      have hfol : Follows (emitKVs wc es { e with si := e.si.requestId.1 }).2 E := by
        refine ⟨?_, ?_, ?_⟩
        · intro h; apply hf.smNone; unfold emitContainer; simp only; split <;> exact h
        · intro m h; apply hf.sm; unfold emitContainer; simp only; split <;> exact h
        · refine (container_info ?_).trans hf.info
          exact container_fresh hr (emitKVs_grows wc es _ hroom)
      simp only [emitContainer] at hat
      rw [HasAt.append, HasAt.append, List.length_append] at hat
      obtain ⟨⟨h1, h2⟩, h3⟩ := hat
      rw [← Nat.add_assoc] at h3
      have c1 := parseKVs_custom (pool := pool) hctx es { e with si := e.si.requestId.1 }
        (a + (lenB es.length).length + (lenB e.si.requestId.2).length) f [] hroom hfol h3 (by omega) (by omega)
        (by simpa [Doc.noCustom] using hcust) (by omega)
      simp only [docType, parseVal]
      rw [readLen hctx.size (by omega) h1 (by omega)]
      simp only [ok_bind]
      rw [readLen hctx.size hid h2 (by omega)]
      simp only [ok_bind]
      rw [c1]
      simp only [error_bind]

theorem parseItems_custom {cfg wc : Cfg} {mem : Bytes} {sm : Option StringMap} {E : Env} {pool : PoolRef}
    (hctx : PCtx cfg mem sm E) : ∀ (xs : List Doc) (e : Env) (a f : Nat), Room e (emitItems wc xs e).1.flatten.length →
    Follows (emitItems wc xs e).2 E → HasAt mem a (emitItems wc xs e).1.flatten →
    a + (emitItems wc xs e).1.flatten.length < mem.length →
    (emitItems wc xs e).1.flatten.length < 2 ^ 32 → noCustomL xs = false → itemsFuel xs ≤ f →
    parseItems cfg (View.whole mem) sm true pool f xs.length ⟨a, a⟩ = .error noView
  | [], e, a, f, _, _, _, _, _, hcust, hfuel => by simp [noCustomL] at hcust
  | x :: xs, e, a, f, hr, hf, hat, hin, hlt, hcust, hfuel => by
    cases f with
    | zero => simp [itemsFuel] at hfuel
    | succ f =>
      simp only [itemsFuel] at hfuel
      simp only [emitItems, List.flatten_cons, List.length_append, List.length_cons] at hr hf hat hin hlt ⊢
      have g1 := emitDoc_grows wc x e (hr.mono (by omega))
      have hr2 : Room (emitDoc wc x e).2.2 (emitItems wc xs (emitDoc wc x e).2.2).1.flatten.length :=
        (hr.mono (by omega)).after g1
      have g2 := emitItems_grows wc xs _ hr2
      rw [HasAt.append, HasAt.cons] at hat
      obtain ⟨⟨h0, h1⟩, h2⟩ := hat
      simp only [List.length_cons] at h2
      simp only [parseItems]
      rw [readTag hctx.size.1 h0 (docType_ne_invalid x)]
      simp only [ok_bind]
      cases hx : x.noCustom with
      | false =>
        rw [parseVal_custom (pool := pool) hctx x e (a + 1) f (hr.mono (by omega))
          (Follows.of_grows g2 hr2 hf) h1 (by omega) (by omega) hx (by omega)]
        simp only [error_bind]
      | true =>
        have hxs : noCustomL xs = false := by simpa [noCustomL, hx] using hcust
        obtain ⟨o, p1, p2, p3⟩ := parseVal_eq (ref := true) (pool := pool) hctx x e (a + 1) f (hr.mono (by omega))
          (Follows.of_grows g2 hr2 hf) h1 (by omega) (by omega) (fun _ => hx) (by omega)
        have q1 := parseItems_custom (pool := pool) hctx xs (emitDoc wc x e).2.2
          (a + 1 + (emitDoc wc x e).1.length) f hr2 hf
          (by rw [Nat.add_assoc, Nat.add_comm 1]; exact h2) (by omega) (by omega) hxs (by omega)
        rw [p1]
        simp only [ok_bind]
        rw [q1]
        simp only [error_bind]

theorem parseKVs_custom {cfg wc : Cfg} {mem : Bytes} {sm : Option StringMap} {E : Env} {pool : PoolRef}
    (hctx : PCtx cfg mem sm E) : ∀ (xs : List (Bytes × Doc)) (e : Env) (a f : Nat) (acc : List (Str × Obj)),
    Room e (emitKVs wc xs e).1.flatten.length →
    Follows (emitKVs wc xs e).2 E → HasAt mem a (emitKVs wc xs e).1.flatten →
    a + (emitKVs wc xs e).1.flatten.length < mem.length →
    (emitKVs wc xs e).1.flatten.length < 2 ^ 32 → noCustomE xs = false → kvsFuel xs ≤ f →
    parseKVs cfg (View.whole mem) sm true pool f xs.length ⟨a, a⟩ acc = .error noView
  | [], e, a, f, acc, _, _, _, _, _, hcust, hfuel => by simp [noCustomE] at hcust
  | (k, x) :: xs, e, a, f, acc, hr, hf, hat, hin, hlt, hcust, hfuel => by
    cases f with
    | zero => simp [kvsFuel] at hfuel
    | succ f =>
      simp only [kvsFuel] at hfuel
      simp only [emitKVs, List.flatten_cons, List.length_append, List.length_cons] at hr hf hat hin hlt ⊢
      have hkp := emitStr_pos k e
      have g0 : Grows e (emitStr k e).2 (emitStr k e).1.length := emitStr_grows hkp (hr.mono (by omega))
      have hr1 : Room (emitStr k e).2 ((emitDoc wc x (emitStr k e).2).1.length +
          (emitKVs wc xs (emitDoc wc x (emitStr k e).2).2.2).1.flatten.length) := (hr.mono (by omega)).after g0
      have g1 := emitDoc_grows wc x (emitStr k e).2 (hr1.mono (by omega))
      have hr2 : Room (emitDoc wc x (emitStr k e).2).2.2
          (emitKVs wc xs (emitDoc wc x (emitStr k e).2).2.2).1.flatten.length := hr1.after g1
      have g2 := emitKVs_grows wc xs _ hr2
      have hf1 := Follows.of_grows g2 hr2 hf
      have hf0 := Follows.of_grows g1 (hr1.mono (by omega)) hf1
      rw [HasAt.append, HasAt.append, HasAt.cons] at hat
      obtain ⟨⟨hk, h0, h1⟩, h2⟩ := hat
      simp only [List.length_append, List.length_cons] at h2
      obtain ⟨ks, k1, k2, k3⟩ := readKey hctx hkp (hr.mono (by omega)) hf0 hk (by omega) (by omega)
      simp only [parseKVs]
      rw [k1]
      simp only [ok_bind]
      rw [readTag hctx.size.1 h0 (docType_ne_invalid x)]
      simp only [ok_bind]
      cases hx : x.noCustom with
      | false =>
        rw [parseVal_custom (pool := pool) hctx x (emitStr k e).2
          (a + (emitStr k e).1.length + 1) f (hr1.mono (by omega)) hf1 h1 (by omega) (by omega) hx (by omega)]
        simp only [error_bind]
      | true =>
        have hxs : noCustomE xs = false := by simpa [noCustomE, hx] using hcust
        obtain ⟨o, p1, p2, p3⟩ := parseVal_eq (ref := true) (pool := pool) hctx x (emitStr k e).2
          (a + (emitStr k e).1.length + 1) f (hr1.mono (by omega)) hf1 h1 (by omega) (by omega) (fun _ => hx) (by omega)
        obtain ⟨ks', k4, k5, k6⟩ := ownKey_eq (cfg := cfg) hctx.strMax k3 true
        have hcur : a + (emitStr k e).1.length + 1 + (emitDoc wc x (emitStr k e).2).1.length =
          a + ((emitStr k e).1.length + ((emitDoc wc x (emitStr k e).2).1.length + 1)) := by omega
        have q1 := parseKVs_custom (pool := pool) hctx xs (emitDoc wc x (emitStr k e).2).2.2
          (a + (emitStr k e).1.length + 1 + (emitDoc wc x (emitStr k e).2).1.length) f ((ks', o) :: acc)
          hr2 hf (by rw [hcur]; exact h2) (by omega) (by omega) hxs (by omega)
        rw [p1]
        simp only [ok_bind]
        rw [k4]
        simp only [ok_bind]
        rw [q1]
end

/-! ### the coroutine parser -/

/-- Tasks of which none does anything worse than throw, and of which one throws. -/
theorem joinTasks_custom {α : Type} (rs : List (Res α)) (h : ∀ r ∈ rs, r = .error noView ∨ ∃ x, r = .ok x)
    (hb : .error noView ∈ rs) : joinTasks rs = .error noView := by
  have hrank : ∀ n, 0 < n → (rs.filterMap failure?).find? (fun e => fatalRank e = n) = none := by
    intro n hn
    rw [List.find?_eq_none]
    intro e he
    rw [List.mem_filterMap] at he
    obtain ⟨r, hr, hre⟩ := he
    rcases h r hr with rfl | ⟨x, rfl⟩
    · simp only [failure?, Option.some.injEq] at hre
      subst hre
      have h0 : fatalRank noView = 0 := rfl
      rw [h0]
      simp only [decide_eq_true_eq]
      omega
    · simp [failure?] at hre
  unfold joinTasks
  simp only [hrank 3 (by omega), hrank 2 (by omega), hrank 1 (by omega)]
  clear hrank
  induction rs with
  | nil => simp at hb
  | cons r rs ih =>
    rw [List.mapM_cons]
    rcases h r List.mem_cons_self with rfl | ⟨x, rfl⟩
    · simp only [id_eq, error_bind]
    · simp only [id_eq, ok_bind]
      rw [ih (fun r hr => h r (List.mem_cons_of_mem _ hr)) (by simpa using hb)]
      simp only [error_bind]

section
variable (cfg wc : Cfg) (mem : Bytes) (sm : Option StringMap) (si : SplitInfo) (E : Env)

/-- A block of an array with a custom value in it. -/
def BadA (f : Nat) : Prop := ∀ (xs : List Doc) (e : Env) (a : Nat), Room e (emitItems wc xs e).1.flatten.length →
  Follows (emitItems wc xs e).2 E → HasAt mem a (emitItems wc xs e).1.flatten →
  a + (emitItems wc xs e).1.flatten.length < mem.length →
  (emitItems wc xs e).1.flatten.length < 2 ^ 32 → noCustomL xs = false → itemsFuel xs ≤ f →
  coArrayBlock cfg (View.whole mem) sm si true f (a + (emitItems wc xs e).1.flatten.length) ⟨a, a⟩ = .error noView

/-- A block of a map with a custom value in it. -/
def BadM (f : Nat) : Prop := ∀ (xs : List (Bytes × Doc)) (e : Env) (a : Nat), Room e (emitKVs wc xs e).1.flatten.length →
  Follows (emitKVs wc xs e).2 E → HasAt mem a (emitKVs wc xs e).1.flatten →
  a + (emitKVs wc xs e).1.flatten.length < mem.length →
  (emitKVs wc xs e).1.flatten.length < 2 ^ 32 → noCustomE xs = false → kvsFuel xs ≤ f →
  coMapBlock cfg (View.whole mem) sm si true f (a + (emitKVs wc xs e).1.flatten.length) ⟨a, a⟩ = .error noView

/-- The value of a child with a custom value in it. -/
def BadD (f : Nat) : Prop := ∀ (d : Doc) (e : Env) (a : Nat), Room e (emitDoc wc d e).1.length →
  Follows (emitDoc wc d e).2.2 E → HasAt mem a (emitDoc wc d e).1 →
  a + (emitDoc wc d e).1.length < mem.length →
  (emitDoc wc d e).1.length < 2 ^ 32 → d.noCustom = false → docFuel d ≤ f →
  coChild (emitDoc wc d e).2.1 (docType d) (parseVal cfg (View.whole mem) sm true .frame f (docType d) ⟨a, a⟩)
      (coArray cfg (View.whole mem) sm si true f a) (coMap cfg (View.whole mem) sm si true f a) = .error noView
end

theorem badA_blocks {cfg wc : Cfg} {mem : Bytes} {sm : Option StringMap} {si : SplitInfo} {E : Env} {f : Nat}
    (hctx : CCtx cfg mem sm si E) (hseg : SegA cfg wc mem sm si E true f) (hbad : BadA cfg wc mem sm si E f) :
    ∀ (parts : List (List Bytes)) (xs : List Doc) (e : Env) (b : Nat), parts.flatten = (emitItems wc xs e).1 →
    Room e (emitItems wc xs e).1.flatten.length →
    Follows (emitItems wc xs e).2 E → HasAt mem b (emitItems wc xs e).1.flatten →
    b + (emitItems wc xs e).1.flatten.length < mem.length →
    (emitItems wc xs e).1.flatten.length < 2 ^ 32 → itemsFuel xs ≤ f →
    (∀ r ∈ (blockBounds b (parts.map (fun p => p.flatten.length))).1.map
        (fun be => coArrayBlock cfg (View.whole mem) sm si true f be.2 ⟨addW 0 be.1, be.1⟩),
      r = .error noView ∨ ∃ x, r = .ok x) ∧
    (noCustomL xs = false → .error noView ∈ (blockBounds b (parts.map (fun p => p.flatten.length))).1.map
        (fun be => coArrayBlock cfg (View.whole mem) sm si true f be.2 ⟨addW 0 be.1, be.1⟩)) := by
  intro parts
  induction parts with
  | nil =>
    intro xs e b hp hr hf hat hin hlt hfuel
    simp only [List.flatten_nil] at hp
    have hl := emitItems_length wc xs e
    rw [← hp] at hl
    have : xs = [] := List.eq_nil_of_length_eq_zero (by simpa using hl.symm)
    subst this
    exact ⟨by simp [blockBounds], by simp [noCustomL]⟩
  | cons p parts ih =>
    intro xs e b hp hr hf hat hin hlt hfuel
    simp only [List.flatten_cons] at hp
    have hs := hctx.size.1
    have hl := emitItems_length wc xs e
    have hsplit := List.take_append_drop p.length xs
    generalize hx1 : xs.take p.length = x1 at hsplit
    generalize hx2 : xs.drop p.length = x2 at hsplit
    subst hsplit
    rw [emitItems_append] at hp hr hf hat hin hlt hl
    simp only [List.flatten_append, List.length_append] at hp hr hf hat hin hlt hl
    have hx1l : x1.length = p.length := by
      have h1 := congrArg List.length hp
      have h2 := emitItems_length wc x1 e
      have h3 := emitItems_length wc x2 (emitItems wc x1 e).2
      simp only [List.length_append] at h1
      have : x1.length = min p.length (x1 ++ x2).length := by
        have := congrArg List.length hx1; simpa using this.symm
      simp only [List.length_append] at this
      omega
    have heq := List.append_inj hp (by rw [emitItems_length, hx1l])
    obtain ⟨hp1, hp2⟩ := heq
    rw [HasAt.append] at hat
    have g1 := emitItems_grows wc x1 e (hr.mono (by omega))
    have hr2 := hr.after g1
    have g2 := emitItems_grows wc x2 _ hr2
    have hfu := itemsFuel_append x1 x2
    obtain ⟨t1, t2⟩ := ih x2 (emitItems wc x1 e).2 (b + (emitItems wc x1 e).1.flatten.length) hp2 hr2 hf
      hat.2 (by omega) (by omega) (by omega)
    have hhead : (noCustomL x1 = true → ∃ x, coArrayBlock cfg (View.whole mem) sm si true f
        (b + (emitItems wc x1 e).1.flatten.length) ⟨b, b⟩ = .ok x) ∧
        (noCustomL x1 = false → coArrayBlock cfg (View.whole mem) sm si true f
        (b + (emitItems wc x1 e).1.flatten.length) ⟨b, b⟩ = .error noView) := by
      constructor
      · intro h
        obtain ⟨os, ds, s1, s2, s3, s4⟩ := hseg x1 e b (hr.mono (by omega)) (Follows.of_grows g2 hr2 hf) hat.1 (by omega)
          (by omega) (fun _ => h) (by omega)
        exact ⟨os, s1⟩
      · intro h
        exact hbad x1 e b (hr.mono (by omega)) (Follows.of_grows g2 hr2 hf) hat.1 (by omega) (by omega) h (by omega)
    simp only [List.map_cons, blockBounds]
    rw [hp1, addW_of_lt (by omega), addW_of_lt (by omega), Nat.zero_add]
    rw [noCustomL_append]
    refine ⟨?_, ?_⟩
    · intro r hr
      rcases List.mem_cons.mp hr with rfl | hr
      · cases hc : noCustomL x1 with
        | true => exact .inr (hhead.1 hc)
        | false => exact .inl (hhead.2 hc)
      · exact t1 r hr
    · intro hc
      cases hc1 : noCustomL x1 with
      | true => rw [hc1, Bool.true_and] at hc; exact List.mem_cons_of_mem _ (t2 hc)
      | false => rw [← hhead.2 hc1]; exact List.mem_cons_self

theorem badM_blocks {cfg wc : Cfg} {mem : Bytes} {sm : Option StringMap} {si : SplitInfo} {E : Env} {f : Nat}
    (hctx : CCtx cfg mem sm si E) (hseg : SegM cfg wc mem sm si E true f) (hbad : BadM cfg wc mem sm si E f) :
    ∀ (parts : List (List Bytes)) (xs : List (Bytes × Doc)) (e : Env) (b : Nat), parts.flatten = (emitKVs wc xs e).1 →
    Room e (emitKVs wc xs e).1.flatten.length →
    Follows (emitKVs wc xs e).2 E → HasAt mem b (emitKVs wc xs e).1.flatten →
    b + (emitKVs wc xs e).1.flatten.length < mem.length →
    (emitKVs wc xs e).1.flatten.length < 2 ^ 32 → kvsFuel xs ≤ f →
    (∀ r ∈ (blockBounds b (parts.map (fun p => p.flatten.length))).1.map
        (fun be => coMapBlock cfg (View.whole mem) sm si true f be.2 ⟨addW 0 be.1, be.1⟩),
      r = .error noView ∨ ∃ x, r = .ok x) ∧
    (noCustomE xs = false → .error noView ∈ (blockBounds b (parts.map (fun p => p.flatten.length))).1.map
        (fun be => coMapBlock cfg (View.whole mem) sm si true f be.2 ⟨addW 0 be.1, be.1⟩)) := by
  intro parts
  induction parts with
  | nil =>
    intro xs e b hp hr hf hat hin hlt hfuel
    simp only [List.flatten_nil] at hp
    have hl := emitKVs_length wc xs e
    rw [← hp] at hl
    have : xs = [] := List.eq_nil_of_length_eq_zero (by simpa using hl.symm)
    subst this
    exact ⟨by simp [blockBounds], by simp [noCustomE]⟩
  | cons p parts ih =>
    intro xs e b hp hr hf hat hin hlt hfuel
    simp only [List.flatten_cons] at hp
    have hs := hctx.size.1
    have hl := emitKVs_length wc xs e
    have hsplit := List.take_append_drop p.length xs
    generalize hx1 : xs.take p.length = x1 at hsplit
    generalize hx2 : xs.drop p.length = x2 at hsplit
    subst hsplit
    rw [emitKVs_append] at hp hr hf hat hin hlt hl
    simp only [List.flatten_append, List.length_append] at hp hr hf hat hin hlt hl
    have hx1l : x1.length = p.length := by
      have h1 := congrArg List.length hp
      have h2 := emitKVs_length wc x1 e
      have h3 := emitKVs_length wc x2 (emitKVs wc x1 e).2
      simp only [List.length_append] at h1
      have : x1.length = min p.length (x1 ++ x2).length := by
        have := congrArg List.length hx1; simpa using this.symm
      simp only [List.length_append] at this
      omega
    have heq := List.append_inj hp (by rw [emitKVs_length, hx1l])
    obtain ⟨hp1, hp2⟩ := heq
    rw [HasAt.append] at hat
    have g1 := emitKVs_grows wc x1 e (hr.mono (by omega))
    have hr2 := hr.after g1
    have g2 := emitKVs_grows wc x2 _ hr2
    have hfu := kvsFuel_append x1 x2
    obtain ⟨t1, t2⟩ := ih x2 (emitKVs wc x1 e).2 (b + (emitKVs wc x1 e).1.flatten.length) hp2 hr2 hf
      hat.2 (by omega) (by omega) (by omega)
    have hhead : (noCustomE x1 = true → ∃ x, coMapBlock cfg (View.whole mem) sm si true f
        (b + (emitKVs wc x1 e).1.flatten.length) ⟨b, b⟩ = .ok x) ∧
        (noCustomE x1 = false → coMapBlock cfg (View.whole mem) sm si true f
        (b + (emitKVs wc x1 e).1.flatten.length) ⟨b, b⟩ = .error noView) := by
      constructor
      · intro h
        obtain ⟨os, ds, s1, s2, s3, s4⟩ := hseg x1 e b (hr.mono (by omega)) (Follows.of_grows g2 hr2 hf) hat.1 (by omega)
          (by omega) (fun _ => h) (by omega)
        exact ⟨os, s1⟩
      · intro h
        exact hbad x1 e b (hr.mono (by omega)) (Follows.of_grows g2 hr2 hf) hat.1 (by omega) (by omega) h (by omega)
    simp only [List.map_cons, blockBounds]
    rw [hp1, addW_of_lt (by omega), addW_of_lt (by omega), Nat.zero_add]
    rw [noCustomE_append]
    refine ⟨?_, ?_⟩
    · intro r hr
      rcases List.mem_cons.mp hr with rfl | hr
      · cases hc : noCustomE x1 with
        | true => exact .inr (hhead.1 hc)
        | false => exact .inl (hhead.2 hc)
      · exact t1 r hr
    · intro hc
      cases hc1 : noCustomE x1 with
      | true => rw [hc1, Bool.true_and] at hc; exact List.mem_cons_of_mem _ (t2 hc)
      | false => rw [← hhead.2 hc1]; exact List.mem_cons_self

theorem co_custom {cfg wc : Cfg} {mem : Bytes} {sm : Option StringMap} {si : SplitInfo} {E : Env}
    (hctx : CCtx cfg mem sm si E) : ∀ f : Nat, BadA cfg wc mem sm si E f ∧ BadM cfg wc mem sm si E f ∧ BadD cfg wc mem sm si E f := by
  intro f
  induction f with
  | zero =>
    refine ⟨?_, ?_, ?_⟩
    · intro xs e a _ _ _ _ _ _ hfu; exfalso; cases xs <;> simp [itemsFuel] at hfu
    · intro xs e a _ _ _ _ _ _ hfu; exfalso
      cases xs with
      | nil => simp [kvsFuel] at hfu
      | cons x xs => obtain ⟨k, x⟩ := x; simp [kvsFuel] at hfu
    · intro d e a _ _ _ _ _ _ hfu; exfalso; cases d <;> simp [docFuel] at hfu
  | succ f ih =>
    obtain ⟨ihA, ihM, ihD⟩ := ih
    obtain ⟨okA, okM, okD⟩ := co_all (wc := wc) (ref := true) hctx f
    have hs := hctx.size.1
    refine ⟨?_, ?_, ?_⟩
    · intro xs e a hr hf hat hin hlt hcust hfuel
      cases xs with
      | nil => simp [noCustomL] at hcust
      | cons x xs =>
        simp only [itemsFuel] at hfuel
        simp only [emitItems, List.flatten_cons, List.length_append, List.length_cons] at hr hf hat hin hlt ⊢
        have g1 := emitDoc_grows wc x e (hr.mono (by omega))
        have hr2 : Room (emitDoc wc x e).2.2 (emitItems wc xs (emitDoc wc x e).2.2).1.flatten.length :=
          (hr.mono (by omega)).after g1
        have g2 := emitItems_grows wc xs _ hr2
        rw [HasAt.append, HasAt.cons] at hat
        obtain ⟨⟨h0, h1⟩, h2⟩ := hat
        simp only [List.length_cons] at h2
        rw [coArrayBlock]
        rw [if_pos (by simp only; omega), readTagSplit hs h0 (docType_ne_invalid x)]
        simp only [ok_bind]
        cases hx : x.noCustom with
        | false =>
          have p1 := ihD x e (a + 1) (hr.mono (by omega)) (Follows.of_grows g2 hr2 hf) h1 (by omega)
            (by omega) hx (by omega)
          rw [p1]
          simp only [error_bind]
        | true =>
          have hxs : noCustomL xs = false := by simpa [noCustomL, hx] using hcust
          obtain ⟨o, d', p1, p2, p3, p4⟩ := okD x e (a + 1) (hr.mono (by omega)) (Follows.of_grows g2 hr2 hf) h1 (by omega)
            (by omega) (fun _ => hx) (by omega)
          have hcur : a + 1 + (emitDoc wc x e).1.length = a + ((emitDoc wc x e).1.length + 1) := by omega
          have q1 := ihA xs (emitDoc wc x e).2.2 (a + 1 + (emitDoc wc x e).1.length) hr2 hf
            (by rw [hcur]; exact h2) (by omega) (by omega) hxs (by omega)
          rw [p1]
          simp only [ok_bind]
          rw [show a + ((emitDoc wc x e).1.length + 1 + (emitItems wc xs (emitDoc wc x e).2.2).1.flatten.length) =
            a + 1 + (emitDoc wc x e).1.length + (emitItems wc xs (emitDoc wc x e).2.2).1.flatten.length by omega, q1]
          simp only [error_bind]
    · intro xs e a hr hf hat hin hlt hcust hfuel
      cases xs with
      | nil => simp [noCustomE] at hcust
      | cons x xs =>
        obtain ⟨k, x⟩ := x
        simp only [kvsFuel] at hfuel
        simp only [emitKVs, List.flatten_cons, List.length_append, List.length_cons] at hr hf hat hin hlt ⊢
        have hkp := emitStr_pos k e
        have g0 : Grows e (emitStr k e).2 (emitStr k e).1.length := emitStr_grows hkp (hr.mono (by omega))
        have hr1 : Room (emitStr k e).2 ((emitDoc wc x (emitStr k e).2).1.length +
            (emitKVs wc xs (emitDoc wc x (emitStr k e).2).2.2).1.flatten.length) := (hr.mono (by omega)).after g0
        have g1 := emitDoc_grows wc x (emitStr k e).2 (hr1.mono (by omega))
        have hr2 : Room (emitDoc wc x (emitStr k e).2).2.2
            (emitKVs wc xs (emitDoc wc x (emitStr k e).2).2.2).1.flatten.length := hr1.after g1
        have g2 := emitKVs_grows wc xs _ hr2
        have hf1 := Follows.of_grows g2 hr2 hf
        have hf0 := Follows.of_grows g1 (hr1.mono (by omega)) hf1
        rw [HasAt.append, HasAt.append, HasAt.cons] at hat
        obtain ⟨⟨hk, h0, h1⟩, h2⟩ := hat
        simp only [List.length_append, List.length_cons] at h2
        obtain ⟨ks, k1, k2, k3⟩ := readKeyBlock true hctx.toPCtx hkp (hr.mono (by omega)) hf0 hk (by omega) (by omega)
        rw [coMapBlock]
        rw [if_pos (by simp only; omega), k1]
        simp only [ok_bind]
        rw [readTagSplit hs h0 (docType_ne_invalid x)]
        simp only [ok_bind]
        cases hx : x.noCustom with
        | false =>
          have p1 := ihD x (emitStr k e).2
            (a + (emitStr k e).1.length + 1) (hr1.mono (by omega)) hf1 h1 (by omega) (by omega) hx (by omega)
          rw [p1]
          simp only [error_bind]
        | true =>
          have hxs : noCustomE xs = false := by simpa [noCustomE, hx] using hcust
          obtain ⟨o, d', p1, p2, p3, p4⟩ := okD x (emitStr k e).2
            (a + (emitStr k e).1.length + 1) (hr1.mono (by omega)) hf1 h1 (by omega) (by omega) (fun _ => hx) (by omega)
          have hcur : a + (emitStr k e).1.length + 1 + (emitDoc wc x (emitStr k e).2).1.length =
            a + ((emitStr k e).1.length + ((emitDoc wc x (emitStr k e).2).1.length + 1)) := by omega
          have q1 := ihM xs (emitDoc wc x (emitStr k e).2).2.2
            (a + (emitStr k e).1.length + 1 + (emitDoc wc x (emitStr k e).2).1.length) hr2 hf
            (by rw [hcur]; exact h2) (by omega) (by omega) hxs (by omega)
          rw [p1]
          simp only [ok_bind]
          rw [show a + ((emitStr k e).1.length + ((emitDoc wc x (emitStr k e).2).1.length + 1) +
              (emitKVs wc xs (emitDoc wc x (emitStr k e).2).2.2).1.flatten.length) =
            a + (emitStr k e).1.length + 1 + (emitDoc wc x (emitStr k e).2).1.length +
              (emitKVs wc xs (emitDoc wc x (emitStr k e).2).2.2).1.flatten.length by omega, q1]
          simp only [error_bind]
    · intro d e a hr hf hat hin hlt hcust hfuel
      cases hsp : (emitDoc wc d e).2.1 with
      | false =>
        have p1 := parseVal_custom (pool := .frame) hctx.toPCtx d e a (f + 1) hr hf hat hin hlt hcust hfuel
        simpa [coChild] using p1
      | true =>
        cases d with
        | scalar s => simp [emitDoc] at hsp
        | array xs =>
          simp only [docFuel] at hfuel
          simp only [emitDoc] at hsp
          simp only [emitDoc, emitContainer_length] at hr hf hat hin hlt
          have hp1 := lenB_length_pos xs.length
          have hroom := request_room (k := (emitItems wc xs { e with si := e.si.requestId.1 }).1.flatten.length) hr (by omega)
          have hpos := emitItems_pos wc xs { e with si := e.si.requestId.1 }
          have hcnt := length_le_flatten hpos
          have hxl : (emitItems wc xs { e with si := e.si.requestId.1 }).1.length = xs.length := emitItems_length wc xs _
          have hid : e.si.requestId.2 < 2 ^ 32 := by have := hr.siRoom; simp only [SplitInfo.requestId]; omega
          have hfresh := container_fresh hr (emitItems_grows wc xs _ hroom)
          have hreg := container_registered hsp hfresh
          have hbl := hctx.blocks _ _ (hf.info.subset hreg)
          have hfol : Follows (emitItems wc xs { e with si := e.si.requestId.1 }).2 E := by
            refine ⟨?_, ?_, ?_⟩
            · intro h; apply hf.smNone; unfold emitContainer; simp only; split <;> exact h
            · intro m h; apply hf.sm; unfold emitContainer; simp only; split <;> exact h
            · exact (container_info hfresh).trans hf.info
          simp only [emitContainer] at hat
          rw [HasAt.append, HasAt.append, List.length_append] at hat
          obtain ⟨⟨h1, h2⟩, h3⟩ := hat
          rw [← Nat.add_assoc] at h3
          obtain ⟨parts, hpt1, hpt2⟩ := blocksOf_parts (cfg := wc) hpos (by omega)
          obtain ⟨t1, t2⟩ := badA_blocks hctx okA ihA parts xs { e with si := e.si.requestId.1 }
            (a + (lenB xs.length).length + (lenB e.si.requestId.2).length) hpt1 hroom hfol h3 (by omega) (by omega) (by omega)
          simp only [coChild, if_true, docType]
          rw [coArray]
          simp only
          rw [addW_of_lt (by omega), Nat.zero_add, readLen hctx.size (by omega) h1 (by omega)]
          simp only [ok_bind]
          rw [readLen hctx.size hid h2 (by omega)]
          simp only [ok_bind]
          rw [toU32_of_lt hid, hbl]
          simp only [ok_bind]
          rw [hpt2, joinTasks_custom _ (fun r hr => t1 r (by simpa using hr))
            (List.mem_reverse.mpr (t2 (by simpa [Doc.noCustom] using hcust)))]
          simp only [error_bind]
        | map es =>
          simp only [docFuel] at hfuel
          simp only [emitDoc] at hsp
          simp only [emitDoc, emitContainer_length] at hr hf hat hin hlt
          have hp1 := lenB_length_pos es.length
          have hroom := request_room (k := (emitKVs wc es { e with si := e.si.requestId.1 }).1.flatten.length) hr (by omega)
          have hpos := emitKVs_pos wc es { e with si := e.si.requestId.1 }
          have hcnt := length_le_flatten hpos
          have hxl : (emitKVs wc es { e with si := e.si.requestId.1 }).1.length = es.length := emitKVs_length wc es _
          have hid : e.si.requestId.2 < 2 ^ 32 := by have := hr.siRoom; simp only [SplitInfo.requestId]; omega
          have hfresh := container_fresh hr (emitKVs_grows wc es _ hroom)
          have hreg := container_registered hsp hfresh
          have hbl := hctx.blocks _ _ (hf.info.subset hreg)
          have hfol : Follows (emitKVs wc es { e with si := e.si.requestId.1 }).2 E := by
            refine ⟨?_, ?_, ?_⟩
            · intro h; apply hf.smNone; unfold emitContainer; simp only; split <;> exact h
            · intro m h; apply hf.sm; unfold emitContainer; simp only; split <;> exact h
            · exact (container_info hfresh).trans hf.info
          simp only [emitContainer] at hat
          rw [HasAt.append, HasAt.append, List.length_append] at hat
          obtain ⟨⟨h1, h2⟩, h3⟩ := hat
          rw [← Nat.add_assoc] at h3
          obtain ⟨parts, hpt1, hpt2⟩ := blocksOf_parts (cfg := wc) hpos (by omega)
          obtain ⟨t1, t2⟩ := badM_blocks hctx okM ihM parts es { e with si := e.si.requestId.1 }
            (a + (lenB es.length).length + (lenB e.si.requestId.2).length) hpt1 hroom hfol h3 (by omega) (by omega) (by omega)
          simp only [coChild, if_true, docType]
          rw [coMap]
          simp only
          rw [addW_of_lt (by omega), Nat.zero_add, readLen hctx.size (by omega) h1 (by omega)]
          simp only [ok_bind]
          rw [readLen hctx.size hid h2 (by omega)]
          simp only [ok_bind]
          rw [toU32_of_lt hid, hbl]
          simp only [ok_bind]
          rw [hpt2, joinTasks_custom _ t1 (t2 (by simpa [Doc.noCustom] using hcust))]
          simp only [error_bind]

/-! ### `Parse` -/

theorem parse_normal_custom {cfg wc : Cfg} {t : SeriType} {d : Doc} {extra : Bytes} (h : ContentOk cfg wc t d extra)
    (hcust : d.noCustom = false) (w : Nat) {f : Nat} (hf : docFuel (rootDoc d) ≤ f) :
    parse cfg ⟨false, true, w⟩ f (contentOf wc t d ++ extra) = .error noView := by
  obtain ⟨s, h1, h2, h3, h4, h5, h6⟩ := init_eq extra h.size h.lt
  have hctx := pctx_of_sched h.size h.strMax h2
  have hlt := h.lt
  have hroom := env0_room t (n := (bodyOf wc t d).1.length) (by omega)
  have hsz : (emitDoc wc (rootDoc d) (env0 t)).1.length = (bodyOf wc t d).1.length := rfl
  have p1 := parseVal_custom (pool := .caller) hctx (rootDoc d) (env0 t) 10 f hroom (Follows.refl _) h5
    (by simp only [List.length_append]; exact Nat.lt_of_lt_of_le h6 (by omega)) (by omega)
    (by simpa [rootDoc, Doc.noCustom, noCustomE] using hcust) hf
  unfold parse
  rw [h1]
  simp only [ok_bind, Bool.false_eq_true, if_false]
  unfold normalParse
  simp only [metaSize]
  have : docType (rootDoc d) = .map := rfl
  rw [this] at p1
  rw [p1]
  simp only [error_bind]

theorem parse_co_custom {cfg wc : Cfg} {t : SeriType} {d : Doc} {extra : Bytes} (h : ContentOk cfg wc t d extra)
    (hcust : d.noCustom = false) {w : Nat} (hw : 0 < w) {f : Nat} (hf : docFuel (rootDoc d) ≤ f) :
    parse cfg ⟨true, true, w⟩ f (contentOf wc t d ++ extra) = .error noView := by
  obtain ⟨s, h1, h2, h3, h4, h5, h6⟩ := init_eq extra h.size h.lt
  have hlt := h.lt
  have hroom := env0_room t (n := (bodyOf wc t d).1.length) (by omega)
  cases hsp : (bodyOf wc t d).2.1 with
  | false =>
    have p1 := parse_normal_custom h hcust w hf
    unfold parse at p1 ⊢
    rw [h1] at p1 ⊢
    simp only [ok_bind, Bool.false_eq_true, if_false, if_true] at p1 ⊢
    unfold coroutineParse
    rw [h4, hsp, if_pos rfl, h1]
    exact p1
  | true =>
    have hg : Grows (env0 t) (bodyOf wc t d).2.2 (bodyOf wc t d).1.length := emitDoc_grows wc (rootDoc d) (env0 t) hroom
    have hctx := cctx_of_sched h.size h.strMax h2 hg.si
    have hsz : (emitDoc wc (rootDoc d) (env0 t)).1.length = (bodyOf wc t d).1.length := rfl
    have p1 := (co_custom hctx f).2.2 (rootDoc d) (env0 t) 10 hroom (Follows.refl _) h5
      (by simp only [List.length_append]; exact Nat.lt_of_lt_of_le h6 (by omega)) (by omega)
      (by simpa [rootDoc, Doc.noCustom, noCustomE] using hcust) hf
    unfold parse
    rw [h1]
    simp only [ok_bind, if_true]
    unfold coroutineParse
    rw [h4, hsp, if_neg (by simp), if_neg (by omega)]
    have hb : (emitDoc wc (rootDoc d) (env0 t)).2.1 = true := hsp
    rw [hb] at p1
    simp only [coChild, if_true, rootDoc, docType] at p1
    simp only [metaSize]
    rw [p1]
    simp only [error_bind]

end Bridge
