import Verif.Proof.CompleteMain
import Verif.Proof.CoSound
/-
Every content that `Spec.ReadsSplit` describes is accepted by the parallel parser.
-/
set_option autoImplicit false
namespace Bridge
open Spec

section
variable {cfg : Cfg} {mem : Bytes} {sm : Option StringMap} {si : SplitInfo}

theorem keyBlock_complete (hc : NCtx cfg mem sm) (ref : Bool) {b bs : Bytes} {i : Nat} (hrd : ReadsKey (dictFn cfg sm) b bs)
    (hat : HasAt mem i bs) (hin : i + bs.length < mem.length) :
    ∃ k, parseKeyBlock cfg (View.whole mem) sm ref ⟨i, i⟩ = .ok (k, ⟨i + bs.length, i + bs.length⟩) ∧ k.bytes = b := by
  have hs := hc.size
  have hmax := hc.max
  have own : ∀ k : Str, k.bytes = b → k.Inside (mem ++ [0]) → ∃ k', ownKey cfg (View.whole mem) ref k = .ok k' ∧ k'.bytes = b := by
    intro k hb ⟨a, h1, h2, h3⟩
    cases ref with
    | true => exact ⟨k, rfl, hb⟩
    | false =>
      simp only [List.length_append, List.length_singleton] at h2
      have hrr : readRange mem a k.bytes.length = .ok k.bytes := by
        unfold readRange
        rw [if_pos h2]
        congr 1
      refine ⟨⟨k.bytes, none⟩, ?_, hb⟩
      unfold ownKey
      rw [h1]
      simp only [Bool.false_eq_true, if_false, whole_mem]
      rw [if_neg (by omega), hrr]
      rfl
  unfold parseKeyBlock
  cases sm with
  | none =>
    obtain ⟨l, n, f1, f2, rfl⟩ := hrd
    rw [HasAt.append] at hat
    simp only [List.length_append] at hin ⊢
    have hu : toU32 n = b.length := f2.symm
    obtain ⟨k', g1, g2⟩ := own ⟨slice mem (i + l.length) b.length, some (i + l.length, b.length)⟩ hat.2.slice (inside_zero (by omega))
    refine ⟨k', ?_, g2⟩
    rw [whole_field hc f1 hat.1 (by omega)]
    simp only [ok_bind]
    rw [wholeAddr (by omega)]
    simp only [ok_bind, whole_mem, hu]
    rw [g1]
    simp only [ok_bind]
    rw [skip_eq (by omega), bump_eq (by omega), Nat.add_assoc]
    rfl
  | some m =>
    obtain ⟨n, f1, f2⟩ := hrd
    obtain ⟨x, g1, rfl⟩ := dictFn_some f2
    have hg : m.lookup cfg (toU32 n) = .ok x := g1
    obtain ⟨k', g2, g3⟩ := own x rfl (hc.dict m rfl _ _ g1)
    refine ⟨k', ?_, g3⟩
    rw [whole_field hc f1 hat (by omega)]
    simp only [ok_bind]
    rw [hg]
    simp only [ok_bind]
    rw [g2]
    rfl

theorem head_complete (hc : NCtx cfg mem sm) {i b : Nat} {sizes : List Nat} (h : SplitHead mem (tableFn si) i b sizes) (hi : i ≤ mem.length) :
    i ≤ b ∧ b ≤ mem.length ∧ ∃ n id c1, parseLength cfg (View.whole mem) ⟨addW 0 i, i⟩ = .ok (n, c1) ∧
      parseLength cfg (View.whole mem) c1 = .ok (id, ⟨b, b⟩) ∧ si.getBlocks (toU32 id) = .ok sizes := by
  have hs := hc.size
  obtain ⟨c, u, n, id, f1, f2, f3, rfl, f5⟩ := h
  have hat : HasAt mem i (c ++ u) := f3
  have hl := hat.length hi
  rw [HasAt.append] at hat
  simp only [List.length_append] at hl
  refine ⟨by omega, by omega, n, id, ⟨i + c.length, i + c.length⟩, ?_, ?_, ?_⟩
  · rw [show addW 0 i = i by rw [addW_of_lt (by omega), Nat.zero_add]]
    exact whole_field hc f1 hat.1 (by omega)
  · exact whole_field hc f2 hat.2 (by omega)
  · unfold tableFn at f5
    split at f5
    · rename_i x hx
      simp only [Option.some.injEq] at f5
      subst f5
      exact hx
    · cases f5

/-- The coroutine for a split container of the given type. -/
def coSplit (cfg : Cfg) (v : View) (sm : Option StringMap) (si : SplitInfo) (ref : Bool) (t : ObjectType) (f i : Nat) : Res (Obj × Cur) :=
  match t with
  | .array => coArray cfg v sm si ref f i
  | _ => coMap cfg v sm si ref f i

/-- What is done with one child. -/
def coChildAt (cfg : Cfg) (v : View) (sm : Option StringMap) (si : SplitInfo) (ref : Bool) (t : ObjectType) (sp : Bool) (f i : Nat) :
    Res (Obj × Cur) :=
  coChild sp t (parseVal cfg v sm ref .frame f t ⟨i, i⟩) (coArray cfg v sm si ref f i) (coMap cfg v sm si ref f i)

end

section
variable {cfg : Cfg} {mem : Bytes} {sm : Option StringMap} {si : SplitInfo}

/-- The children of a block, once each of them has been read. -/
theorem array_step {ref : Bool} {f e i j : Nat} {d : Doc} {sp : Bool} {o : Obj} {os : List Obj} (hs : mem.length < 2 ^ 63) (hie : i < e)
    (hk : mem[i]? = some (kindByte d sp)) (h1 : coChildAt cfg (View.whole mem) sm si ref (docType d) sp f (i + 1) = .ok (o, ⟨j, j⟩))
    (h2 : coArrayBlock cfg (View.whole mem) sm si ref f e ⟨j, j⟩ = .ok os) :
    coArrayBlock cfg (View.whole mem) sm si ref (f + 1) e ⟨i, i⟩ = .ok (o :: os) := by
  rw [← kindByte_eq] at hk
  unfold coChildAt at h1
  rw [coArrayBlock, if_pos hie, readTagSplit hs hk (docType_ne_invalid d)]
  simp only [ok_bind]
  rw [h1]
  simp only [ok_bind]
  rw [h2]
  simp only [ok_bind, pure_eq_ok]

theorem map_step {ref : Bool} {f e i i' j : Nat} {d : Doc} {sp : Bool} {k : Str} {o : Obj} {os : List (Str × Obj)} (hs : mem.length < 2 ^ 63)
    (hie : i < e) (h0 : parseKeyBlock cfg (View.whole mem) sm ref ⟨i, i⟩ = .ok (k, ⟨i', i'⟩))
    (hk : mem[i']? = some (kindByte d sp)) (h1 : coChildAt cfg (View.whole mem) sm si ref (docType d) sp f (i' + 1) = .ok (o, ⟨j, j⟩))
    (h2 : coMapBlock cfg (View.whole mem) sm si ref f e ⟨j, j⟩ = .ok os) :
    coMapBlock cfg (View.whole mem) sm si ref (f + 1) e ⟨i, i⟩ = .ok ((k, o) :: os) := by
  rw [← kindByte_eq] at hk
  unfold coChildAt at h1
  rw [coMapBlock, if_pos hie, h0]
  simp only [ok_bind]
  rw [readTagSplit hs hk (docType_ne_invalid d)]
  simp only [ok_bind]
  rw [h1]
  simp only [ok_bind]
  rw [h2]
  simp only [ok_bind, pure_eq_ok]

mutual
theorem split_complete (hc : NCtx cfg mem sm) (hlen : mem.length < 2 ^ 32) (hsi : Small si) (ref : Bool) : ∀ {d : Doc} {i j : Nat},
    ReadsSplit cfg.asserts mem (dictFn cfg sm) (tableFn si) d i j → i ≤ mem.length → (ref = true → d.noCustom = true) →
    i ≤ j ∧ docType d ≠ .data ∧ ∃ N o, o.doc? = some d ∧
      ∀ f, N ≤ f → coSplit cfg (View.whole mem) sm si ref (docType d) f i = .ok (o, ⟨j, j⟩)
  | _, i, _, .array (b := b) (sizes := sizes) (xss := xss) hh hb, hi, hcu => by
    obtain ⟨p1, p2, n, id, c1, e1, e2, e3⟩ := head_complete hc hh hi
    have hsum := hsi.sum e3
    have hcnt := hsi.count e3
    obtain ⟨N, oss, g1, g2, g3⟩ := blocks_complete hc hlen hsi ref hb (by omega) hcu
    have hmul : sizes.length * mem.length ≤ (2 ^ 32 - 1) * (2 ^ 32 - 1) := Nat.mul_le_mul (by omega) (by omega)
    refine ⟨by omega, by simp [docType], N + 1, .array .frame oss.flatten.length oss.flatten, ?_, ?_⟩
    · simp only [Obj.doc?, g1, if_true]
      rfl
    · intro f hf
      obtain ⟨f, rfl⟩ : ∃ g, f = g + 1 := ⟨f - 1, by omega⟩
      have hfl : oss.reverse.flatten.length = oss.flatten.length := by simp [List.length_flatten, List.sum_reverse]
      simp only [docType, coSplit]
      rw [coArray]
      simp only
      rw [e1]
      simp only [ok_bind]
      rw [e2]
      simp only [ok_bind]
      rw [e3]
      simp only [ok_bind]
      have := g3 f (by omega)
      rw [this, ← List.map_reverse, joinTasks_ok]
      simp only [ok_bind]
      rw [arr_fold oss.reverse { pool := .frame } rfl (by simp only [List.length_nil]; omega),
        blockBounds_sum sizes b (Nat.le_refl _) (by omega)]
      simp [ArrayS.toObj, hfl, pure_eq_ok]
  | _, i, _, .map (b := b) (sizes := sizes) (ess := ess) hh hb, hi, hcu => by
    obtain ⟨p1, p2, n, id, c1, e1, e2, e3⟩ := head_complete hc hh hi
    have hsum := hsi.sum e3
    have hcnt := hsi.count e3
    obtain ⟨N, oss, g1, g2, g3⟩ := blocksE_complete hc hlen hsi ref hb (by omega) hcu
    have hmul : sizes.length * mem.length ≤ (2 ^ 32 - 1) * (2 ^ 32 - 1) := Nat.mul_le_mul (by omega) (by omega)
    refine ⟨by omega, by simp [docType], N + 1, .map ref .frame oss.flatten.length oss.reverse.flatten, ?_, ?_⟩
    · have hfl : oss.reverse.flatten.length = oss.flatten.length := by simp [List.length_flatten, List.sum_reverse]
      simp only [Obj.doc?, g1]
      rw [if_pos (by omega)]
      rfl
    · intro f hf
      obtain ⟨f, rfl⟩ : ∃ g, f = g + 1 := ⟨f - 1, by omega⟩
      simp only [docType, coSplit]
      rw [coMap]
      simp only
      rw [e1]
      simp only [ok_bind]
      rw [e2]
      simp only [ok_bind]
      rw [e3]
      simp only [ok_bind]
      have := g3 f (by omega)
      rw [this, joinTasks_ok]
      simp only [ok_bind]
      rw [map_fold oss { ref := ref, pool := .frame } rfl (by simp only [List.length_nil]; omega),
        blockBounds_sum sizes b (Nat.le_refl _) (by omega)]
      simp [MapS.toObj, pure_eq_ok]
theorem child_complete (hc : NCtx cfg mem sm) (hlen : mem.length < 2 ^ 32) (hsi : Small si) (ref : Bool) : ∀ {d : Doc} {i j : Nat},
    Child cfg.asserts mem (dictFn cfg sm) (tableFn si) d i j → (ref = true → d.noCustom = true) →
    i < mem.length ∧ i < j ∧ ∃ (d' : Doc) (sp : Bool), mem[i]? = some (kindByte d' sp) ∧ ∃ N o, o.doc? = some d ∧
      ∀ f, N ≤ f → coChildAt cfg (View.whole mem) sm si ref (docType d') sp f (i + 1) = .ok (o, ⟨j, j⟩)
  | _, i, _, .plain (d := d) (bs := bs) hk hrd hat, hcu => by
    have hlt := lt_of_getElem? hk
    have hat : HasAt mem (i + 1) bs := hat
    obtain ⟨N, o, g1, g2⟩ := val_complete hc ref .frame _ d bs (i + 1) hrd hat (hat.length (by omega)) (by simp)
      (by intro hr; rw [← noCustom_revMaps]; exact hcu hr)
    exact ⟨hlt, by omega, d, false, hk, N, o, g1, fun f hf => by simp only [coChildAt, coChild]; exact g2 f hf⟩
  | d, i, j, .split hk hs, hcu => by
    have hlt := lt_of_getElem? hk
    obtain ⟨p1, p2, N, o, g1, g2⟩ := split_complete hc hlen hsi ref hs (by omega) hcu
    refine ⟨hlt, by omega, d, true, hk, N, o, g1, fun f hf => ?_⟩
    rw [← g2 f hf]
    cases d <;> first | rfl | simp [docType] at p2
theorem block_complete (hc : NCtx cfg mem sm) (hlen : mem.length < 2 ^ 32) (hsi : Small si) (ref : Bool) : ∀ {xs : List Doc} {i e : Nat},
    Block cfg.asserts mem (dictFn cfg sm) (tableFn si) xs i e → (ref = true → noCustomL xs = true) →
    ∃ N os, docs? os = some xs ∧ os.length ≤ mem.length - i ∧
      ∀ f, N ≤ f → coArrayBlock cfg (View.whole mem) sm si ref f e ⟨i, i⟩ = .ok os
  | _, i, e, .nil he, hcu => by
    refine ⟨1, [], rfl, by simp, ?_⟩
    intro f hf
    obtain ⟨f, rfl⟩ : ∃ g, f = g + 1 := ⟨f - 1, by omega⟩
    rw [coArrayBlock, if_neg (by simp only; omega)]
  | _, i, e, .cons (j := j) (d := d) (xs := xs) hie hch hb, hcu => by
    have hcu' : ref = true → d.noCustom = true ∧ noCustomL xs = true := by
      intro hr
      have := hcu hr
      simpa [noCustomL] using this
    obtain ⟨q1, q2, d', sp, q3, N1, o, q4, q5⟩ := child_complete hc hlen hsi ref hch (fun hr => (hcu' hr).1)
    obtain ⟨N2, os, g1, g2, g3⟩ := block_complete hc hlen hsi ref hb (fun hr => (hcu' hr).2)
    refine ⟨N1 + N2 + 1, o :: os, by simp [docs?, q4, g1], by simp only [List.length_cons]; omega, ?_⟩
    intro f hf
    obtain ⟨f, rfl⟩ : ∃ g, f = g + 1 := ⟨f - 1, by omega⟩
    exact array_step hc.size hie q3 (q5 f (by omega)) (g3 f (by omega))
theorem blocks_complete (hc : NCtx cfg mem sm) (hlen : mem.length < 2 ^ 32) (hsi : Small si) (ref : Bool) :
    ∀ {xss : List (List Doc)} {b : Nat} {sizes : List Nat},
    Blocks cfg.asserts mem (dictFn cfg sm) (tableFn si) xss b sizes → b + sizes.sum < 2 ^ 64 → (ref = true → noCustomL xss.flatten = true) →
    ∃ (N : Nat) (oss : List (List Obj)), docs? oss.flatten = some xss.flatten ∧ oss.flatten.length ≤ sizes.length * mem.length ∧
      ∀ f, N ≤ f → (blockBounds b sizes).1.map (fun be => coArrayBlock cfg (View.whole mem) sm si ref f be.2 ⟨addW 0 be.1, be.1⟩) =
        oss.map .ok
  | _, b, _, .nil, hb, hcu => ⟨0, [], rfl, by simp, fun f _ => by simp [blockBounds]⟩
  | _, b, _, .cons (s := s) (sizes := sizes) (xs := xs) (xss := xss) hbl hbs, hb, hcu => by
    simp only [List.sum_cons] at hb
    have hcu' : ref = true → noCustomL xs = true ∧ noCustomL xss.flatten = true := by
      intro hr
      have := hcu hr
      simpa [noCustomL_append] using this
    obtain ⟨N1, os, q1, q2, q3⟩ := block_complete hc hlen hsi ref hbl (fun hr => (hcu' hr).1)
    obtain ⟨N2, oss, g1, g2, g3⟩ := blocks_complete hc hlen hsi ref hbs (by omega) (fun hr => (hcu' hr).2)
    refine ⟨N1 + N2, os :: oss, by simp only [List.flatten_cons]; exact docs?_append q1 g1, ?_, ?_⟩
    · simp only [List.flatten_cons, List.length_append, List.length_cons, Nat.add_mul]; omega
    · intro f hf
      have he : addW b s = b + s := addW_of_lt (by omega)
      have h0 : addW 0 b = b := by rw [addW_of_lt (by omega), Nat.zero_add]
      simp only [blockBounds, he, List.map_cons, h0]
      rw [q3 f (by omega), g3 f (by omega)]
theorem blockE_complete (hc : NCtx cfg mem sm) (hlen : mem.length < 2 ^ 32) (hsi : Small si) (ref : Bool) :
    ∀ {es : List (Bytes × Doc)} {i e : Nat},
    BlockE cfg.asserts mem (dictFn cfg sm) (tableFn si) es i e → (ref = true → noCustomE es = true) →
    ∃ N os, entries? os = some es ∧ os.length ≤ mem.length - i ∧
      ∀ f, N ≤ f → coMapBlock cfg (View.whole mem) sm si ref f e ⟨i, i⟩ = .ok os
  | _, i, e, .nil he, hcu => by
    refine ⟨1, [], rfl, by simp, ?_⟩
    intro f hf
    obtain ⟨f, rfl⟩ : ∃ g, f = g + 1 := ⟨f - 1, by omega⟩
    rw [coMapBlock, if_neg (by simp only; omega)]
  | _, i, e, .cons (j := j) (k := k) (kb := kb) (d := d) (es := es) hie hkey hat hch hb, hcu => by
    have hcu' : ref = true → d.noCustom = true ∧ noCustomE es = true := by
      intro hr
      have := hcu hr
      simpa [noCustomE] using this
    obtain ⟨q1, q2, d', sp, q3, N1, o, q4, q5⟩ := child_complete hc hlen hsi ref hch (fun hr => (hcu' hr).1)
    obtain ⟨N2, os, g1, g2, g3⟩ := blockE_complete hc hlen hsi ref hb (fun hr => (hcu' hr).2)
    obtain ⟨ks, k1, rfl⟩ := keyBlock_complete hc ref hkey hat (by omega)
    refine ⟨N1 + N2 + 1, (ks, o) :: os, by simp [entries?, q4, g1], by simp only [List.length_cons]; omega, ?_⟩
    intro f hf
    obtain ⟨f, rfl⟩ : ∃ g, f = g + 1 := ⟨f - 1, by omega⟩
    exact map_step hc.size hie k1 q3 (q5 f (by omega)) (g3 f (by omega))
theorem blocksE_complete (hc : NCtx cfg mem sm) (hlen : mem.length < 2 ^ 32) (hsi : Small si) (ref : Bool) :
    ∀ {ess : List (List (Bytes × Doc))} {b : Nat} {sizes : List Nat},
    BlocksE cfg.asserts mem (dictFn cfg sm) (tableFn si) ess b sizes → b + sizes.sum < 2 ^ 64 →
    (ref = true → noCustomE ess.reverse.flatten = true) →
    ∃ (N : Nat) (oss : List (List (Str × Obj))), entries? oss.reverse.flatten = some ess.reverse.flatten ∧ oss.flatten.length ≤ sizes.length * mem.length ∧
      ∀ f, N ≤ f → (blockBounds b sizes).1.map (fun be => coMapBlock cfg (View.whole mem) sm si ref f be.2 ⟨addW 0 be.1, be.1⟩) =
        oss.map .ok
  | _, b, _, .nil, hb, hcu => ⟨0, [], rfl, by simp, fun f _ => by simp [blockBounds]⟩
  | _, b, _, .cons (s := s) (sizes := sizes) (es := es) (ess := ess) hbl hbs, hb, hcu => by
    simp only [List.sum_cons] at hb
    have hcu' : ref = true → noCustomE es = true ∧ noCustomE ess.reverse.flatten = true := by
      intro hr
      have := hcu hr
      simp only [List.reverse_cons, List.flatten_append, List.flatten_cons, List.flatten_nil, List.append_nil, noCustomE_append,
        Bool.and_eq_true] at this
      exact ⟨this.2, this.1⟩
    obtain ⟨N1, os, q1, q2, q3⟩ := blockE_complete hc hlen hsi ref hbl (fun hr => (hcu' hr).1)
    obtain ⟨N2, oss, g1, g2, g3⟩ := blocksE_complete hc hlen hsi ref hbs (by omega) (fun hr => (hcu' hr).2)
    refine ⟨N1 + N2, os :: oss, ?_, ?_, ?_⟩
    · simp only [List.reverse_cons, List.flatten_append, List.flatten_cons, List.flatten_nil, List.append_nil]
      exact entries?_append g1 q1
    · simp only [List.flatten_cons, List.length_append, List.length_cons, Nat.add_mul]; omega
    · intro f hf
      have he : addW b s = b + s := addW_of_lt (by omega)
      have h0 : addW 0 b = b := by rw [addW_of_lt (by omega), Nat.zero_add]
      simp only [blockBounds, he, List.map_cons, h0]
      rw [q3 f (by omega), g3 f (by omega)]
end

end

end Bridge
