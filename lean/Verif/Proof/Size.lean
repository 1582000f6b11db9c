import Verif.Proof.Whole
import Verif.Proof.TableRT
import Verif.Proof.Env
import Verif.Spec.Size
/-
How long a serialized document is.
-/
set_option autoImplicit false
namespace Bridge
open Spec

theorem lenB_le5 (n : Nat) : (lenB n).length ≤ 5 := leb128_length_le5 (toU32_lt n)

/-- The text that is written where it occurs: without a dictionary all of it. -/
def inPlace (dict : Bool) (d : Doc) : Nat := if dict then d.blobs else d.text
def inPlaceL (dict : Bool) (d : List Doc) : Nat := if dict then blobsL d else textL d
def inPlaceE (dict : Bool) (d : List (Bytes × Doc)) : Nat := if dict then blobsE d else textE d

/-- The number of entries of the dictionary. -/
def smCount : Option StringMap → Nat
  | none => 0
  | some m => m.map.length

/-- A bound for the bytes of the split table. -/
def siPot (l : List (Nat × List Nat)) : Nat := (l.map fun e => 10 + 5 * e.2.length).sum

/-- What the tables will need besides the strings in them. -/
def Env.wt (e : Env) : Nat := 10 * smCount e.sm + siPot e.si.info

theorem siPot_set (l : List (Nat × List Nat)) (id : Nat) (b : List Nat) : siPot (assocSet l id b) ≤ siPot l + 10 + 5 * b.length := by
  induction l with
  | nil => simp [assocSet, siPot]
  | cons x l ih =>
    obtain ⟨k, v⟩ := x
    simp only [assocSet]
    split
    · simp only [siPot, List.map_cons, List.sum_cons]; omega
    · simp only [siPot, List.map_cons, List.sum_cons] at ih ⊢; omega

theorem groups_length (B : Nat) : ∀ (ls : List Nat) (pend : Nat), (groupSizes B pend ls).length ≤ ls.length + (if pend > 0 then 1 else 0)
  | [], pend => by unfold groupSizes; split <;> simp
  | l :: ls, pend => by
    unfold groupSizes
    split
    · have := groups_length B ls 0
      simp only [List.length_cons, gt_iff_lt, Nat.lt_irrefl, if_false] at this ⊢
      omega
    · have := groups_length B ls (pend + l)
      simp only [List.length_cons]
      split at this <;> split <;> omega

theorem blocks_length (cfg : Cfg) (chunks : List Bytes) : (blocksOf cfg chunks).length ≤ chunks.length := by
  have := groups_length cfg.blockSize (chunks.map List.length) 0
  simpa [blocksOf] using this

/-- What a key or a string costs. -/
theorem emitStr_size (b : Bytes) (e : Env) :
    (emitStr b e).2.sm.isSome = e.sm.isSome ∧ (emitStr b e).2.si = e.si ∧
    (emitStr b e).1.length + (emitStr b e).2.wt ≤ e.wt + (if e.sm.isSome then 0 else b.length) + 15 ∧
    (if e.sm.isSome then 0 else b.length) + 1 ≤ (emitStr b e).1.length := by
  unfold emitStr
  cases h : e.sm with
  | none =>
    have h1 := lenB_le5 b.length
    have h2 := lenB_length_pos b.length
    simp only [h, List.length_append, Option.isSome_none, Bool.false_eq_true, if_false]
    exact ⟨trivial, trivial, by omega, by omega⟩
  | some m =>
    simp only [Option.isSome_some, if_true]
    have h1 := lenB_le5 (m.register ⟨b, none⟩).2
    have h2 := lenB_length_pos (m.register ⟨b, none⟩).2
    refine ⟨trivial, trivial, ?_, by omega⟩
    have h3 : (m.register ⟨b, none⟩).1.map.length ≤ m.map.length + 1 := by
      unfold StringMap.register
      split <;> simp
    simp only [Env.wt, smCount, h]
    omega

theorem emitScalar_size (s : Scalar) (e : Env) :
    (emitScalar s e).2.sm.isSome = e.sm.isSome ∧
    (emitScalar s e).1.length + (emitScalar s e).2.wt ≤ e.wt + inPlace e.sm.isSome (.scalar s) + 16 ∧
    inPlace e.sm.isSome (.scalar s) + 2 ≤ (emitScalar s e).1.length := by
  cases s with
  | string b =>
    obtain ⟨h1, h2, h3, h4⟩ := emitStr_size b e
    refine ⟨h1, ?_, ?_⟩
    · simp only [emitScalar, inPlace, Doc.blobs, Doc.text, Scalar.blob, Scalar.text, List.length_cons]
      omega
    · simp only [emitScalar, inPlace, Doc.blobs, Doc.text, Scalar.blob, Scalar.text, List.length_cons]
      omega
  | _ =>
    refine ⟨rfl, ?_, ?_⟩
    all_goals
      simp only [emitScalar, inPlace, Doc.blobs, Doc.text, Scalar.blob, Scalar.text, List.length_cons, List.length_append, scalarRaw, bigEndian_length, ite_self]
    all_goals first
      | (have h5 := lenB_le5 4; have h8 := lenB_le5 8; have h4' := lenB_length_pos 4; have h8' := lenB_length_pos 8; omega)
      | (rename_i b; have h5 := lenB_le5 b.length; have h6 := lenB_length_pos b.length; omega)

theorem container_size (cfg : Cfg) (count id : Nat) (chunks : List Bytes) (e : Env) :
    (emitContainer cfg count id chunks e).2.2.sm = e.sm ∧
    (emitContainer cfg count id chunks e).1.length + (emitContainer cfg count id chunks e).2.2.wt ≤
      e.wt + chunks.flatten.length + 5 * chunks.length + 20 ∧
    chunks.flatten.length + 2 ≤ (emitContainer cfg count id chunks e).1.length := by
  unfold emitContainer
  have h1 := lenB_le5 count
  have h2 := lenB_le5 id
  have h3 := blocks_length cfg chunks
  have h4 := siPot_set e.si.info id (blocksOf cfg chunks)
  have h5 := lenB_length_pos count
  have h6 := lenB_length_pos id
  refine ⟨by simp only; split <;> rfl, ?_, ?_⟩
  · simp only [List.length_append]
    split
    · simp only [Env.wt, SplitInfo.register]
      omega
    · omega
  · simp only [List.length_append]
    omega

mutual
theorem emitDoc_size (cfg : Cfg) : ∀ (d : Doc) (e : Env),
    (emitDoc cfg d e).2.2.sm.isSome = e.sm.isSome ∧
    (emitDoc cfg d e).1.length + (emitDoc cfg d e).2.2.wt + 21 ≤ e.wt + inPlace e.sm.isSome d + 41 * d.nodes ∧
    inPlace e.sm.isSome d + 3 * d.nodes + d.entries ≤ (emitDoc cfg d e).1.length + 1
  | .scalar s, e => by
    obtain ⟨h1, h2, h3⟩ := emitScalar_size s e
    simp only [emitDoc, Doc.nodes, Doc.entries]
    exact ⟨h1, by omega, by omega⟩
  | .array xs, e => by
    obtain ⟨h1, h2, h3, h4⟩ := emitItems_size cfg xs { e with si := e.si.requestId.1 }
    obtain ⟨c1, c2, c3⟩ := container_size cfg xs.length e.si.requestId.2 (emitItems cfg xs { e with si := e.si.requestId.1 }).1
      (emitItems cfg xs { e with si := e.si.requestId.1 }).2
    have hw : Env.wt { e with si := e.si.requestId.1 } = e.wt := rfl
    have hp : inPlace e.sm.isSome (.array xs) = inPlaceL e.sm.isSome xs := rfl
    simp only at h1 h3 h4
    rw [hw] at h3
    simp only [emitDoc, Doc.nodes, Doc.entries]
    exact ⟨by rw [c1]; exact h1, by omega, by omega⟩
  | .map es, e => by
    obtain ⟨h1, h2, h3, h4⟩ := emitKVs_size cfg es { e with si := e.si.requestId.1 }
    obtain ⟨c1, c2, c3⟩ := container_size cfg es.length e.si.requestId.2 (emitKVs cfg es { e with si := e.si.requestId.1 }).1
      (emitKVs cfg es { e with si := e.si.requestId.1 }).2
    have hw : Env.wt { e with si := e.si.requestId.1 } = e.wt := rfl
    have hp : inPlace e.sm.isSome (.map es) = inPlaceE e.sm.isSome es := rfl
    simp only at h1 h3 h4
    rw [hw] at h3
    simp only [emitDoc, Doc.nodes, Doc.entries]
    exact ⟨by rw [c1]; exact h1, by omega, by omega⟩
theorem emitItems_size (cfg : Cfg) : ∀ (xs : List Doc) (e : Env),
    (emitItems cfg xs e).2.sm.isSome = e.sm.isSome ∧ (emitItems cfg xs e).1.length = xs.length ∧
    (emitItems cfg xs e).1.flatten.length + 5 * (emitItems cfg xs e).1.length + (emitItems cfg xs e).2.wt ≤
      e.wt + inPlaceL e.sm.isSome xs + 41 * nodesL xs ∧
    inPlaceL e.sm.isSome xs + 3 * nodesL xs + entriesL xs ≤ (emitItems cfg xs e).1.flatten.length
  | [], e => by simp [emitItems, inPlaceL, nodesL, blobsL, textL, entriesL]
  | x :: xs, e => by
    obtain ⟨h1, h2, h3⟩ := emitDoc_size cfg x e
    obtain ⟨g1, g2, g3, g4⟩ := emitItems_size cfg xs (emitDoc cfg x e).2.2
    rw [h1] at g1 g3 g4
    have hp : inPlaceL e.sm.isSome (x :: xs) = inPlace e.sm.isSome x + inPlaceL e.sm.isSome xs := by
      unfold inPlaceL inPlace; split <;> rfl
    simp only [emitItems, nodesL, entriesL, List.length_cons, List.flatten_cons, List.length_append, hp, List.cons_append]
    exact ⟨g1, by omega, by omega, by omega⟩
theorem emitKVs_size (cfg : Cfg) : ∀ (es : List (Bytes × Doc)) (e : Env),
    (emitKVs cfg es e).2.sm.isSome = e.sm.isSome ∧ (emitKVs cfg es e).1.length = es.length ∧
    (emitKVs cfg es e).1.flatten.length + 5 * (emitKVs cfg es e).1.length + (emitKVs cfg es e).2.wt ≤
      e.wt + inPlaceE e.sm.isSome es + 41 * nodesE es ∧
    inPlaceE e.sm.isSome es + 3 * nodesE es + entriesE es ≤ (emitKVs cfg es e).1.flatten.length
  | [], e => by simp [emitKVs, inPlaceE, nodesE, blobsE, textE, entriesE]
  | (k, x) :: es, e => by
    obtain ⟨k1, k2, k3, k4⟩ := emitStr_size k e
    obtain ⟨h1, h2, h3⟩ := emitDoc_size cfg x (emitStr k e).2
    rw [k1] at h1 h2 h3
    obtain ⟨g1, g2, g3, g4⟩ := emitKVs_size cfg es (emitDoc cfg x (emitStr k e).2).2.2
    rw [h1] at g1 g3 g4
    have hp : inPlaceE e.sm.isSome ((k, x) :: es) = (if e.sm.isSome then 0 else k.length) + inPlace e.sm.isSome x + inPlaceE e.sm.isSome es := by
      unfold inPlaceE inPlace; split <;> simp [blobsE, textE]
    simp only [emitKVs, nodesE, entriesE, List.length_cons, List.flatten_cons, List.length_append, hp, List.cons_append]
    exact ⟨g1, by omega, by omega, by omega⟩
end

/-! ### the strings of the dictionary -/

/-- The strings in the dictionary. -/
def smKeys : Option StringMap → List Bytes
  | none => []
  | some m => m.map.map fun e => e.1.bytes

theorem emitStr_keys (b : Bytes) (e : Env) (h : (smKeys e.sm).Nodup) :
    (smKeys (emitStr b e).2.sm).Nodup ∧ ∀ s ∈ smKeys (emitStr b e).2.sm, s ∈ smKeys e.sm ∨ s = b := by
  unfold emitStr
  cases hs : e.sm with
  | none => simp only [hs] at h ⊢; exact ⟨h, fun s hs => .inl hs⟩
  | some m =>
    rw [hs] at h
    simp only [smKeys] at h ⊢
    unfold StringMap.register
    cases hf : m.find b with
    | some i => simp only; exact ⟨h, fun s hs => .inl hs⟩
    | none =>
      simp only [List.map_append, List.map_cons, List.map_nil]
      refine ⟨?_, fun s hs => ?_⟩
      · rw [List.nodup_append]
        refine ⟨h, by simp, fun x hx y hy hxy => ?_⟩
        simp only [List.mem_singleton] at hy
        subst hxy hy
        obtain ⟨a, ha, hab⟩ := List.mem_map.1 hx
        unfold StringMap.find at hf
        cases hq : m.map.find? (fun e => e.1.bytes = x) with
        | some _ => rw [hq] at hf; cases hf
        | none =>
          have := List.find?_eq_none.1 hq a ha
          simp [hab] at this
      · rcases List.mem_append.1 hs with hs | hs
        · exact .inl hs
        · exact .inr (by simpa using hs)

theorem emitScalar_keys (s : Scalar) (e : Env) (h : (smKeys e.sm).Nodup) :
    (smKeys (emitScalar s e).2.sm).Nodup ∧ ∀ x ∈ smKeys (emitScalar s e).2.sm, x ∈ smKeys e.sm ∨ x ∈ (Doc.scalar s).strings := by
  cases s with
  | string b =>
    obtain ⟨h1, h2⟩ := emitStr_keys b e h
    exact ⟨h1, fun x hx => (h2 x hx).imp_right fun e => by simp [Doc.strings, e]⟩
  | _ => exact ⟨h, fun x hx => .inl hx⟩

theorem container_sm (cfg : Cfg) (count id : Nat) (chunks : List Bytes) (e : Env) : (emitContainer cfg count id chunks e).2.2.sm = e.sm :=
  (container_size cfg count id chunks e).1

mutual
theorem emitDoc_keys (cfg : Cfg) : ∀ (d : Doc) (e : Env), (smKeys e.sm).Nodup →
    (smKeys (emitDoc cfg d e).2.2.sm).Nodup ∧ ∀ x ∈ smKeys (emitDoc cfg d e).2.2.sm, x ∈ smKeys e.sm ∨ x ∈ d.strings
  | .scalar s, e, h => emitScalar_keys s e h
  | .array xs, e, h => by
    simp only [emitDoc, container_sm]
    exact emitItems_keys cfg xs { e with si := e.si.requestId.1 } h
  | .map es, e, h => by
    simp only [emitDoc, container_sm]
    exact emitKVs_keys cfg es { e with si := e.si.requestId.1 } h
theorem emitItems_keys (cfg : Cfg) : ∀ (xs : List Doc) (e : Env), (smKeys e.sm).Nodup →
    (smKeys (emitItems cfg xs e).2.sm).Nodup ∧ ∀ x ∈ smKeys (emitItems cfg xs e).2.sm, x ∈ smKeys e.sm ∨ x ∈ stringsL xs
  | [], e, h => ⟨h, fun x hx => .inl hx⟩
  | x :: xs, e, h => by
    obtain ⟨h1, h2⟩ := emitDoc_keys cfg x e h
    obtain ⟨g1, g2⟩ := emitItems_keys cfg xs (emitDoc cfg x e).2.2 h1
    refine ⟨g1, fun y hy => ?_⟩
    rcases g2 y hy with hy | hy
    · exact (h2 y hy).imp_right fun hy => List.mem_append.2 (.inl hy)
    · exact .inr (List.mem_append.2 (.inr hy))
theorem emitKVs_keys (cfg : Cfg) : ∀ (es : List (Bytes × Doc)) (e : Env), (smKeys e.sm).Nodup →
    (smKeys (emitKVs cfg es e).2.sm).Nodup ∧ ∀ x ∈ smKeys (emitKVs cfg es e).2.sm, x ∈ smKeys e.sm ∨ x ∈ stringsE es
  | [], e, h => ⟨h, fun x hx => .inl hx⟩
  | (k, x) :: es, e, h => by
    obtain ⟨k1, k2⟩ := emitStr_keys k e h
    obtain ⟨h1, h2⟩ := emitDoc_keys cfg x (emitStr k e).2 k1
    obtain ⟨g1, g2⟩ := emitKVs_keys cfg es (emitDoc cfg x (emitStr k e).2).2.2 h1
    refine ⟨g1, fun y hy => ?_⟩
    simp only [stringsE]
    rcases g2 y hy with hy | hy
    · rcases h2 y hy with hy | hy
      · rcases k2 y hy with hy | rfl
        · exact .inl hy
        · exact .inr List.mem_cons_self
      · exact .inr (List.mem_cons_of_mem _ (List.mem_append.2 (.inl hy)))
    · exact .inr (List.mem_cons_of_mem _ (List.mem_append.2 (.inr hy)))
end

/-! Every string is in the dictionary. -/

theorem emitStr_has (b : Bytes) (e : Env) (hd : e.sm.isSome = true) :
    b ∈ smKeys (emitStr b e).2.sm ∧ ∀ x ∈ smKeys e.sm, x ∈ smKeys (emitStr b e).2.sm := by
  unfold emitStr
  cases hs : e.sm with
  | none => rw [hs] at hd; cases hd
  | some m =>
    simp only [smKeys]
    unfold StringMap.register
    cases hf : m.find b with
    | some i =>
      simp only
      refine ⟨?_, fun x hx => hx⟩
      unfold StringMap.find at hf
      cases hq : m.map.find? (fun e => e.1.bytes = b) with
      | none => rw [hq] at hf; cases hf
      | some a =>
        exact List.mem_map.2 ⟨a, List.mem_of_find?_eq_some hq, by simpa using List.find?_some hq⟩
    | none =>
      simp only [List.map_append, List.map_cons, List.map_nil]
      exact ⟨List.mem_append.2 (.inr (List.mem_singleton.2 rfl)), fun x hx => List.mem_append.2 (.inl hx)⟩

theorem emitScalar_has (s : Scalar) (e : Env) (hd : e.sm.isSome = true) :
    (∀ x ∈ (Doc.scalar s).strings, x ∈ smKeys (emitScalar s e).2.sm) ∧ ∀ x ∈ smKeys e.sm, x ∈ smKeys (emitScalar s e).2.sm := by
  cases s with
  | string b =>
    obtain ⟨h1, h2⟩ := emitStr_has b e hd
    refine ⟨fun x hx => ?_, h2⟩
    simp only [Doc.strings, List.mem_singleton] at hx
    exact hx ▸ h1
  | _ => exact ⟨fun x hx => (by cases hx), fun x hx => hx⟩

mutual
theorem emitDoc_has (cfg : Cfg) : ∀ (d : Doc) (e : Env), e.sm.isSome = true →
    (∀ x ∈ d.strings, x ∈ smKeys (emitDoc cfg d e).2.2.sm) ∧ ∀ x ∈ smKeys e.sm, x ∈ smKeys (emitDoc cfg d e).2.2.sm
  | .scalar s, e, h => emitScalar_has s e h
  | .array xs, e, h => by
    simp only [emitDoc, container_sm]
    exact emitItems_has cfg xs { e with si := e.si.requestId.1 } h
  | .map es, e, h => by
    simp only [emitDoc, container_sm]
    exact emitKVs_has cfg es { e with si := e.si.requestId.1 } h
theorem emitItems_has (cfg : Cfg) : ∀ (xs : List Doc) (e : Env), e.sm.isSome = true →
    (∀ x ∈ stringsL xs, x ∈ smKeys (emitItems cfg xs e).2.sm) ∧ ∀ x ∈ smKeys e.sm, x ∈ smKeys (emitItems cfg xs e).2.sm
  | [], e, h => ⟨fun x hx => (by cases hx), fun x hx => hx⟩
  | x :: xs, e, h => by
    obtain ⟨h1, h2⟩ := emitDoc_has cfg x e h
    obtain ⟨g1, g2⟩ := emitItems_has cfg xs (emitDoc cfg x e).2.2 ((emitDoc_size cfg x e).1.trans h)
    refine ⟨fun y hy => ?_, fun y hy => g2 y (h2 y hy)⟩
    rcases List.mem_append.1 hy with hy | hy
    · exact g2 y (h1 y hy)
    · exact g1 y hy
theorem emitKVs_has (cfg : Cfg) : ∀ (es : List (Bytes × Doc)) (e : Env), e.sm.isSome = true →
    (∀ x ∈ stringsE es, x ∈ smKeys (emitKVs cfg es e).2.sm) ∧ ∀ x ∈ smKeys e.sm, x ∈ smKeys (emitKVs cfg es e).2.sm
  | [], e, h => ⟨fun x hx => (by cases hx), fun x hx => hx⟩
  | (k, x) :: es, e, h => by
    obtain ⟨k1, k2⟩ := emitStr_has k e h
    have hk := (emitStr_size k e).1.trans h
    obtain ⟨h1, h2⟩ := emitDoc_has cfg x (emitStr k e).2 hk
    obtain ⟨g1, g2⟩ := emitKVs_has cfg es (emitDoc cfg x (emitStr k e).2).2.2 ((emitDoc_size cfg x _).1.trans hk)
    refine ⟨fun y hy => ?_, fun y hy => g2 y (h2 y (k2 y hy))⟩
    simp only [stringsE, List.mem_cons, List.mem_append] at hy
    rcases hy with (rfl | hy) | hy
    · exact g2 _ (h2 _ k1)
    · exact g2 y (h1 y hy)
    · exact g1 y hy
end

/-- Distinct strings that all occur in a list weigh together no more than the list. -/
theorem weight_le (f : Bytes → Nat) : ∀ (a b : List Bytes), a.Nodup → (∀ x ∈ a, x ∈ b) → (a.map f).sum ≤ (b.map f).sum
  | [], b, _, _ => by simp
  | x :: a, b, hn, hs => by
    rw [List.nodup_cons] at hn
    have hx : x ∈ b := hs x List.mem_cons_self
    have hsum : (b.map f).sum = ((x :: b.erase x).map f).sum := ((List.perm_cons_erase hx).map f).sum_nat
    have ih := weight_le f a (b.erase x) hn.2 fun y hy => by
      have hne : y ≠ x := fun e => hn.1 (e ▸ hy)
      exact (List.mem_erase_of_ne hne).2 (hs y (List.mem_cons_of_mem _ hy))
    simp only [List.map_cons, List.sum_cons] at hsum ⊢
    omega

theorem total_le (a b : List Bytes) (h : a.Nodup) (hs : ∀ x ∈ a, x ∈ b) : total a ≤ total b := weight_le _ a b h hs

theorem total_two (l : List Bytes) : (l.map fun s => s.length + 2).sum = total l + 2 * l.length := by
  induction l with
  | nil => rfl
  | cons x l ih =>
    simp only [total, List.map_cons, List.sum_cons, List.length_cons] at ih ⊢
    omega

/-! ### the tables -/

theorem smEntries_size (l : List (Str × Nat)) :
    ((l.map smEntryB).flatten).length ≤ total (l.map fun e => e.1.bytes) + 10 * l.length := by
  induction l with
  | nil => simp [total]
  | cons e l ih =>
    have h1 := lenB_le5 e.1.bytes.length
    have h2 := lenB_le5 e.2
    simp only [total, List.map_cons, List.flatten_cons, List.length_append, smEntryB, List.sum_cons, List.length_cons] at ih ⊢
    omega

theorem smEntries_ge (l : List (Str × Nat)) : total (l.map fun e => e.1.bytes) + 2 * l.length ≤ ((l.map smEntryB).flatten).length := by
  induction l with
  | nil => simp [total]
  | cons e l ih =>
    have h1 := lenB_length_pos e.1.bytes.length
    have h2 := lenB_length_pos e.2
    simp only [total, List.map_cons, List.flatten_cons, List.length_append, smEntryB, List.sum_cons, List.length_cons] at ih ⊢
    omega

theorem dictPart_size (cfg : Cfg) (sm : Option StringMap) : (dictPart cfg sm).length ≤ total (smKeys sm) + 10 * smCount sm + 10 ∧
    (sm.isSome = true → total (smKeys sm) + 2 * smCount sm + 2 ≤ (dictPart cfg sm).length) := by
  cases sm with
  | none => simp [dictPart]
  | some m =>
    simp only [dictPart, smTableB, List.length_append, smKeys, smCount]
    have h1 := lenB_le5 (lenB m.map.length ++ ((cfg.smOrd m.map).map smEntryB).flatten).length
    have h2 := lenB_le5 m.map.length
    have h3 := smEntries_size (cfg.smOrd m.map)
    have h3' := smEntries_ge (cfg.smOrd m.map)
    have h1' := lenB_length_pos (lenB m.map.length ++ ((cfg.smOrd m.map).map smEntryB).flatten).length
    have h2' := lenB_length_pos m.map.length
    have h4 : total ((cfg.smOrd m.map).map fun e => e.1.bytes) = total (m.map.map fun e => e.1.bytes) :=
      (((cfg.smPerm m.map).map _).map _).sum_nat
    have h5 := (cfg.smPerm m.map).length_eq
    simp only [List.length_append] at h1 h1'
    exact ⟨by omega, fun _ => by omega⟩

theorem blocks_size (l : List Nat) : ((l.map lenB).flatten).length ≤ 5 * l.length := by
  induction l with
  | nil => simp
  | cons x l ih =>
    have := lenB_le5 x
    simp only [List.map_cons, List.flatten_cons, List.length_append, List.length_cons]
    omega

theorem siEntries_size (l : List (Nat × List Nat)) : ((l.map siEntryB).flatten).length ≤ siPot l := by
  induction l with
  | nil => simp [siPot]
  | cons e l ih =>
    have h1 := lenB_le5 e.1
    have h2 := lenB_le5 e.2.length
    have h3 := blocks_size (e.2.take (toU32 e.2.length))
    have h4 := List.length_take_le (toU32 e.2.length) e.2
    have h5 : (e.2.take (toU32 e.2.length)).length ≤ e.2.length := by rw [List.length_take]; omega
    simp only [siPot, List.map_cons, List.flatten_cons, List.length_append, siEntryB, List.sum_cons] at ih ⊢
    omega

theorem splitPart_size (cfg : Cfg) (si : SplitInfo) : (splitPart cfg si).length ≤ siPot si.info + 10 ∧ 2 ≤ (splitPart cfg si).length := by
  simp only [splitPart, siTableB, List.length_append]
  have h1 := lenB_le5 (lenB si.info.length ++ ((cfg.siOrd si.info).map siEntryB).flatten).length
  have h2 := lenB_le5 si.info.length
  have h3 := siEntries_size (cfg.siOrd si.info)
  have h4 : siPot (cfg.siOrd si.info) = siPot si.info := ((cfg.siPerm si.info).map _).sum_nat
  have h5 := lenB_length_pos (lenB si.info.length ++ ((cfg.siOrd si.info).map siEntryB).flatten).length
  have h6 := lenB_length_pos si.info.length
  simp only [List.length_append] at h1 h5
  constructor <;> omega

mutual
theorem text_split : ∀ d : Doc, d.text = d.blobs + total d.strings
  | .scalar s => by cases s <;> simp [Doc.text, Doc.blobs, Doc.strings, Scalar.text, Scalar.blob, total]
  | .array xs => text_splitL xs
  | .map es => text_splitE es
theorem text_splitL : ∀ d : List Doc, textL d = blobsL d + total (stringsL d)
  | [] => by simp [textL, blobsL, stringsL, total]
  | x :: xs => by
    have h1 := text_split x
    have h2 := text_splitL xs
    simp only [textL, blobsL, stringsL, total, List.map_append, List.sum_append] at h1 h2 ⊢
    omega
theorem text_splitE : ∀ d : List (Bytes × Doc), textE d = blobsE d + total (stringsE d)
  | [] => by simp [textE, blobsE, stringsE, total]
  | (k, x) :: xs => by
    have h1 := text_split x
    have h2 := text_splitE xs
    simp only [textE, blobsE, stringsE, total, List.map_append, List.sum_append, List.map_cons, List.sum_cons] at h1 h2 ⊢
    omega
end

/-- The length of the whole content. -/
theorem content_size (cfg : Cfg) (t : SeriType) (d : Doc) :
    (contentOf cfg t d).length ≤ inPlace (initDict t).isSome (rootDoc d) + total (smKeys (bodyOf cfg t d).2.2.sm) + 41 * d.nodes + 50 ∧
    inPlace (initDict t).isSome (rootDoc d) + 3 * d.nodes + d.entries + 15 +
      (if (initDict t).isSome then total (smKeys (bodyOf cfg t d).2.2.sm) + 2 * smCount (bodyOf cfg t d).2.2.sm + 2 else 0) ≤ (contentOf cfg t d).length := by
  obtain ⟨h1, h2, h3⟩ := emitDoc_size cfg (rootDoc d) (env0 t)
  obtain ⟨h4, h4'⟩ := dictPart_size cfg (bodyOf cfg t d).2.2.sm
  obtain ⟨h5, h6⟩ := splitPart_size cfg (bodyOf cfg t d).2.2.si
  have hn : (rootDoc d).nodes = d.nodes + 1 := rfl
  have he : (rootDoc d).entries = d.entries + 1 := by simp only [rootDoc, Doc.entries, entriesE]; omega
  have hw : (env0 t).wt = 0 := by cases t <;> rfl
  have hs : (env0 t).sm = initDict t := rfl
  have hb : (emitDoc cfg (rootDoc d) (env0 t)) = bodyOf cfg t d := rfl
  have hwt : (bodyOf cfg t d).2.2.wt = 10 * smCount (bodyOf cfg t d).2.2.sm + siPot (bodyOf cfg t d).2.2.si.info := rfl
  rw [hb, hn, hw, hs] at h2
  rw [hb, hn, he, hs] at h3
  simp only [contentOf, List.length_append, headOf_length]
  constructor
  · omega
  · rw [hb, hs] at h1
    rw [h1] at h4'
    split
    · rename_i hd
      have := h4' hd
      omega
    · omega

end Bridge
