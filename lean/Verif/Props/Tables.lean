import Verif.Spec.Table
import Verif.Props.Common
import Verif.Proof.TableRT
/-
C31 – C35: the dictionary (string_map.h) and the split table (split_info.h) over all histories of calls.
-/
set_option autoImplicit false
namespace Bridge
open Spec

/-! ### Histories of calls on a dictionary -/

/-- One call: `RegisterIdFromString(s)` or `GetStr(id)`. -/
def dictStep (cfg : Cfg) (m : StringMap) : DictOp → StringMap × DictOut
  | .register s => ((m.register ⟨s, none⟩).1, .id (m.register ⟨s, none⟩).2)
  | .lookup id => ((m.getStr cfg id).1, .str ((m.getStr cfg id).2.toOption.map Str.bytes))

/-- A history of calls. -/
def dictRun (cfg : Cfg) : StringMap → List DictOp → StringMap × List DictOut
  | m, [] => (m, [])
  | m, op :: ops => ((dictRun cfg (dictStep cfg m op).1 ops).1, (dictStep cfg m op).2 :: (dictRun cfg (dictStep cfg m op).1 ops).2)

/-- The dictionary holds the strings `l` under the ids `0, 1, …`. -/
structure DictRep (m : StringMap) (l : List Bytes) : Prop where
  map : m.map.map (fun e => (e.1.bytes, e.2)) = l.zipIdx
  nodup : l.Nodup
  next : m.next = toU32 l.length
  owned : ∀ e ∈ m.map, e.1.loc = none

theorem DictRep.empty : DictRep {} [] := ⟨by simp, by simp, by simp [toU32], by simp⟩

theorem zipIdx_find {l : List Bytes} (n : Nat) (b : Bytes) :
    (l.zipIdx n).find? (fun e => decide (e.1 = b)) = if b ∈ l then some (b, n + l.idxOf b) else none := by
  induction l generalizing n with
  | nil => simp
  | cons x l ih =>
    simp only [List.zipIdx_cons, List.find?_cons]
    by_cases h : x = b
    · subst h; simp
    · have h' : ¬ b = x := fun e => h e.symm
      simp only [h, decide_false, ih (n + 1), List.mem_cons, h', false_or]
      split
      · rw [List.idxOf_cons, show (x == b) = false by simp [h], cond_false]
        simp only [Option.some.injEq, Prod.mk.injEq, true_and]; omega
      · rfl

theorem DictRep.find {m : StringMap} {l : List Bytes} (h : DictRep m l) (b : Bytes) :
    m.find b = if b ∈ l then some (l.idxOf b) else none := by
  have h1 := zipIdx_find (l := l) 0 b
  rw [← h.map, List.find?_map] at h1
  unfold StringMap.find
  have : ((fun e : Bytes × Nat => decide (e.1 = b)) ∘ fun e : Str × Nat => (e.1.bytes, e.2)) = fun e => decide (e.1.bytes = b) := rfl
  rw [this] at h1
  cases hf : m.map.find? (fun e => decide (e.1.bytes = b)) with
  | none =>
    rw [hf] at h1
    simp only [Option.map_none] at h1
    split at h1
    · simp at h1
    · rename_i h2; simp [h2]
  | some e =>
    rw [hf] at h1
    simp only [Option.map_some] at h1
    split at h1
    · rename_i h2
      simp only [Option.some.injEq, Prod.mk.injEq, Nat.zero_add] at h1
      simp [h2, h1.2]
    · simp at h1

theorem DictRep.register {m : StringMap} {l : List Bytes} (h : DictRep m l) (b : Bytes) (hl : (addNew l b).length ≤ 2 ^ 32) :
    DictRep (m.register ⟨b, none⟩).1 (addNew l b) ∧ (m.register ⟨b, none⟩).2 = (addNew l b).idxOf b ∧
      (m.register ⟨b, none⟩).1.remap = m.remap := by
  unfold StringMap.register
  simp only [h.find b]
  by_cases hb : b ∈ l
  · have : addNew l b = l := by simp [addNew, hb]
    rw [this]
    simp only [hb, if_true]
    exact ⟨h, trivial, trivial⟩
  · have e : addNew l b = l ++ [b] := by simp [addNew, hb]
    rw [e] at hl ⊢
    simp only [List.length_append, List.length_cons, List.length_nil] at hl
    simp only [hb, if_false]
    have hn : m.next = l.length := by rw [h.next]; exact toU32_of_lt (by omega)
    refine ⟨⟨?_, ?_, ?_, ?_⟩, ?_, trivial⟩
    · simp [h.map, List.zipIdx_append, hn]
    · rw [List.nodup_append]
      refine ⟨h.nodup, by simp, ?_⟩
      intro x hx y hy
      simp only [List.mem_singleton] at hy
      subst hy
      intro hxy; subst hxy; exact hb hx
    · simp [hn]
    · intro x hx
      simp only [List.mem_append, List.mem_singleton] at hx
      rcases hx with hx | hx
      · exact h.owned x hx
      · subst hx; rfl
    · rw [hn, List.idxOf_append]; simp [hb]

theorem DictRep.ids_nodup {m : StringMap} {l : List Bytes} (h : DictRep m l) : (m.map.map Prod.snd).Nodup := by
  have : m.map.map Prod.snd = l.zipIdx.map Prod.snd := by
    rw [← h.map]; simp [Function.comp_def]
  rw [this, List.zipIdx_map_snd]
  exact List.nodup_range'

theorem zipIdx_mem {l : List Bytes} {b : Bytes} {i : Nat} : (b, i) ∈ l.zipIdx ↔ l[i]? = some b := by
  rw [List.mk_mem_zipIdx_iff_getElem?]

theorem DictRep.mem {m : StringMap} {l : List Bytes} (h : DictRep m l) {b : Bytes} {i : Nat} :
    ((⟨b, none⟩ : Str), i) ∈ m.map ↔ l[i]? = some b := by
  rw [← zipIdx_mem, ← h.map]
  simp only [List.mem_map, Prod.mk.injEq, Prod.exists]
  constructor
  · intro hm; exact ⟨_, _, hm, rfl, rfl⟩
  · rintro ⟨s, j, hm, hs, rfl⟩
    have := h.owned _ hm
    obtain ⟨sb, sl⟩ := s
    simp only at hs this
    subst hs this; exact hm

theorem DictRep.snd_mem {m : StringMap} {l : List Bytes} (h : DictRep m l) {i : Nat} (hi : l.length ≤ i) : i ∉ m.map.map Prod.snd := by
  have : m.map.map Prod.snd = l.zipIdx.map Prod.snd := by
    rw [← h.map]; simp [Function.comp_def]
  rw [this, List.zipIdx_map_snd]
  simp; omega

/-- The table built by the first lookup. -/
theorem DictRep.buildReMap {m : StringMap} {l : List Bytes} (h : DictRep m l) (cfg : Cfg) (i : Nat) :
    (assocGet (m.buildReMap cfg) i).map Str.bytes = l[i]? := by
  have hp := cfg.smPerm m.map
  unfold StringMap.buildReMap
  cases hg : l[i]? with
  | some b =>
    rw [reMap_get (cfg.smOrd m.map) ((hp.map Prod.snd).nodup_iff.mpr h.ids_nodup) [] (hp.mem_iff.mpr (h.mem.mpr hg))]
    rfl
  | none =>
    rw [reMap_get_none _ _ (fun hm => h.snd_mem (List.getElem?_eq_none_iff.mp hg) ((hp.map Prod.snd).mem_iff.mp hm)) rfl]
    rfl

theorem getStr_of_remap {cfg : Cfg} {m : StringMap} {re : List (Nat × Str)} (hr : m.remap = some re) (id : Nat) :
    (m.getStr cfg id).1 = m ∧ (m.getStr cfg id).2.toOption = assocGet re id := by
  unfold StringMap.getStr
  rw [hr]
  refine ⟨by cases m; simp_all, ?_⟩
  cases h : assocGet re id <;> simp [h, Except.toOption]

/-! ### C31 -/

theorem registered_run {cfg : Cfg} : ∀ (ss : List Bytes) (m : StringMap) (l : List Bytes), DictRep m l → m.remap = none →
    (ss.foldl addNew l).length ≤ 2 ^ 32 →
    DictRep (dictRun cfg m (ss.map .register)).1 (ss.foldl addNew l) ∧ (dictRun cfg m (ss.map .register)).1.remap = none ∧
    (dictRun cfg m (ss.map .register)).2 = dictIdeal l (ss.map .register)
  | [], m, l, h, hr, _ => ⟨h, hr, rfl⟩
  | s :: ss, m, l, h, hr, hl => by
    have hgrow : ∀ (ss : List Bytes) (l : List Bytes), l.length ≤ (ss.foldl addNew l).length := by
      intro ss
      induction ss with
      | nil => intro l; simp
      | cons s ss ih =>
        intro l
        refine Nat.le_trans ?_ (ih (addNew l s))
        unfold addNew; split <;> simp
    simp only [List.foldl_cons] at hl
    obtain ⟨h1, h2, h3⟩ := h.register s (Nat.le_trans (hgrow ss _) hl)
    obtain ⟨g1, g2, g3⟩ := registered_run ss _ _ h1 (by rw [h3, hr]) hl
    simp only [List.map_cons, dictRun, dictStep, dictIdeal, List.foldl_cons]
    exact ⟨g1, g2, by rw [g3, h2]⟩

theorem addNew_prefix {α : Type} [DecidableEq α] (l : List α) (s : α) : l <+: addNew l s := by
  unfold addNew; split
  · exact List.prefix_refl _
  · exact List.prefix_append _ _

theorem foldl_addNew_prefix {α : Type} [DecidableEq α] (ss l : List α) : l <+: ss.foldl addNew l := by
  induction ss generalizing l with
  | nil => exact List.prefix_refl _
  | cons s ss ih => exact (addNew_prefix l s).trans (ih _)

theorem addNew_mem {α : Type} [DecidableEq α] (l : List α) (s : α) : s ∈ addNew l s := by
  unfold addNew; split <;> simp_all

theorem idxOf_prefix {l l' : List Bytes} (h : l <+: l') {s : Bytes} (hs : s ∈ l) : l'.idxOf s = l.idxOf s := by
  obtain ⟨t, rfl⟩ := h
  rw [List.idxOf_append]; simp [hs]

theorem dictIdeal_registers (ss : List Bytes) (l : List Bytes) :
    dictIdeal l (ss.map .register) = ss.map (fun s => DictOut.id ((ss.foldl addNew l).idxOf s)) := by
  induction ss generalizing l with
  | nil => rfl
  | cons s ss ih =>
    simp only [List.map_cons, dictIdeal, List.foldl_cons, ih]
    rw [idxOf_prefix (foldl_addNew_prefix ss (addNew l s)) (addNew_mem l s)]

/-- C31. Registering any sequence of strings hands out, for each of them, its position among the distinct strings in first-use
order; afterwards `GetStr` inverts the ids (and throws for any other id), whatever order the hash table iterates in. -/
theorem C31_ids (cfg : Cfg) (ss : List Bytes) (h : (firstUse ss).length ≤ 2 ^ 32) :
    (dictRun cfg {} (ss.map .register)).2 = ss.map (fun s => DictOut.id ((firstUse ss).idxOf s)) ∧
    ∀ id, ((dictRun cfg {} (ss.map .register)).1.getStr cfg id).2.toOption.map Str.bytes = (firstUse ss)[id]? := by
  obtain ⟨h1, h2, h3⟩ := registered_run (cfg := cfg) ss {} [] DictRep.empty rfl h
  refine ⟨by rw [h3, dictIdeal_registers]; rfl, ?_⟩
  intro id
  have := h1.buildReMap cfg id
  rw [show firstUse ss = ss.foldl addNew [] from rfl, ← this]
  unfold StringMap.getStr
  rw [h2]
  simp only
  split <;> rename_i hg <;> simp [hg, Except.toOption]

/-- C31. Equal strings get equal ids and different strings different ids. -/
theorem C31_injective (cfg : Cfg) (ss : List Bytes) (h : (firstUse ss).length ≤ 2 ^ 32) (i j : Nat) (a b : Bytes)
    (hi : ss[i]? = some a) (hj : ss[j]? = some b) :
    (dictRun cfg {} (ss.map .register)).2[i]? = (dictRun cfg {} (ss.map .register)).2[j]? ↔ a = b := by
  rw [(C31_ids cfg ss h).1]
  simp only [List.getElem?_map, hi, hj, Option.map_some, Option.some.injEq, DictOut.id.injEq]
  constructor
  · intro e
    have hm : ∀ (ss l : List Bytes) (s : Bytes), s ∈ ss ∨ s ∈ l → s ∈ ss.foldl addNew l := by
      intro ss
      induction ss with
      | nil => intro l s hs; simpa using hs
      | cons x ss ih =>
        intro l s hs
        refine ih _ s ?_
        rcases hs with hs | hs
        · rcases List.mem_cons.mp hs with rfl | hs
          · exact Or.inr (addNew_mem _ _)
          · exact Or.inl hs
        · exact Or.inr ((addNew_prefix l x).subset hs)
    have ha : a ∈ firstUse ss := hm ss [] a (Or.inl (List.mem_of_getElem? hi))
    have hb : b ∈ firstUse ss := hm ss [] b (Or.inl (List.mem_of_getElem? hj))
    have h1 := List.getElem_idxOf (List.idxOf_lt_length_iff.mpr ha)
    have h2 := List.getElem_idxOf (List.idxOf_lt_length_iff.mpr hb)
    rw [← h1, ← h2]
    simp only [e]
  · intro e; rw [e]

example : (dictRun Cfg.x86 {} ([[104, 105], [97], [104, 105], []].map .register)).2 = [.id 0, .id 1, .id 0, .id 2] ∧
    firstUse [[104, 105], [97], [104, 105], ([] : Bytes)] = [[104, 105], [97], []] := by decide

/-! ### C32 -/

theorem DictRep.inv {m : StringMap} {l : List Bytes} (h : DictRep m l) (hl : l.length < 2 ^ 32) : SMInv m where
  nodup := by
    have : m.map.map (fun e => e.1.bytes) = (l.zipIdx).map Prod.fst := by rw [← h.map]; simp [Function.comp_def]
    rw [this, List.zipIdx_map_fst]; exact h.nodup
  ids := by
    intro i e he
    have h1 : (m.map.map (fun e => (e.1.bytes, e.2)))[i]? = some (e.1.bytes, e.2) := by simp [he]
    rw [h.map, List.getElem?_zipIdx] at h1
    simp only [Option.map_eq_some_iff, Prod.mk.injEq] at h1
    obtain ⟨_, _, _, h2⟩ := h1
    omega
  next := by
    have := congrArg List.length h.map
    simp only [List.length_map, List.length_zipIdx] at this
    rw [h.next, this]; exact toU32_of_lt hl
  bound := by
    have := congrArg List.length h.map
    simp only [List.length_map, List.length_zipIdx] at this
    omega
  owned := h.owned

/-- C32. A dictionary built by any history of registrations, serialized by one build and reconstructed by another from the
middle of any memory, gives every id its string back and throws for every other id. -/
theorem C32_table_roundtrip (w r : Cfg) (hw : w.charSigned = true) (ss : List Bytes) (hs : (firstUse ss).length < 2 ^ 32)
    (pre post : Bytes) :
    ∃ b, (dictRun w {} (ss.map .register)).1.serialize w = .ok b ∧
      (b.length < 2 ^ 32 → (r.asserts = true → b.length < 2 ^ 31) →
        ∃ m', StringMap.construct r ⟨pre ++ b ++ post, pre.length, b.length⟩ = .ok m' ∧
          ∀ id, (m'.getStr r id).2.toOption.map Str.bytes = (firstUse ss)[id]?) := by
  obtain ⟨h1, h2, _⟩ := registered_run (cfg := w) ss {} [] DictRep.empty rfl (Nat.le_of_lt hs)
  refine ⟨_, smSerialize_eq hw _, fun hlt hsm => ?_⟩
  generalize hm : (dictRun w {} (ss.map .register)).1 = m at *
  have hin := h1.inv hs
  obtain ⟨m', g1, g2, g3, g4⟩ := smConstruct_eq (cfg := r) (wc := w) (v := ⟨pre ++ smTableB w m ++ post, pre.length, (smTableB w m).length⟩)
    hin ⟨by simp only; omega, hsm⟩ (by simp only [List.length_append]; omega) rfl hlt (HasAt.intro _ _ _)
  refine ⟨m', g1, ?_⟩
  intro id
  have hperm := w.smPerm m.map
  have hmap : ∀ b i, (b, i) ∈ m'.map.map (fun e => (e.1.bytes, e.2)) ↔ (firstUse ss)[i]? = some b := by
    intro b i
    rw [g3, ← zipIdx_mem, show firstUse ss = ss.foldl addNew [] from rfl, ← h1.map]
    exact (hperm.map _).mem_iff
  have hsnd : m'.map.map Prod.snd = (w.smOrd m.map).map Prod.snd := by
    have := congrArg (List.map Prod.snd) g3
    simpa [List.map_map, Function.comp_def] using this
  have hn : (m'.map.map Prod.snd).Nodup := by
    rw [hsnd]; exact (hperm.map _).nodup_iff.mpr h1.ids_nodup
  cases hg : (firstUse ss)[id]? with
  | some b =>
    obtain ⟨e, he, hb⟩ := List.mem_map.mp ((hmap b id).mpr hg)
    simp only [Prod.mk.injEq] at hb
    obtain ⟨s, i⟩ := e
    obtain ⟨rfl, rfl⟩ := hb
    have := lookup_mem (cfg := r) g2 hn he
    unfold StringMap.lookup at this
    rw [this]; rfl
  | none =>
    have := lookup_not_mem (cfg := r) g2 (id := id) (by
      intro hc
      obtain ⟨e, he, rfl⟩ := List.mem_map.mp hc
      have := (hmap e.1.bytes e.2).mp (List.mem_map.mpr ⟨e, he, rfl⟩)
      rw [hg] at this; simp at this)
    unfold StringMap.lookup at this
    rw [this]; rfl

example : (dictRun Cfg.x86 {} ([[104, 105], [97]].map .register)).1.serialize Cfg.x86 = .ok [2, 2, 104, 105, 0, 1, 97, 1] := by
  decide +kernel

/-! ### C33 -/

/-- What the code gives: lookups see the strings that were registered before the first lookup, for ever. -/
def dictActual (all : List Bytes) (snapshot : Option (List Bytes)) : List DictOp → List DictOut
  | [] => []
  | .register s :: ops => .id ((addNew all s).idxOf s) :: dictActual (addNew all s) snapshot ops
  | .lookup id :: ops => .str (snapshot.getD all)[id]? :: dictActual all (some (snapshot.getD all)) ops

theorem dict_actual {cfg : Cfg} : ∀ (ops : List DictOp) (m : StringMap) (l : List Bytes) (snap : Option (List Bytes)), DictRep m l →
    (∀ re, m.remap = some re → ∃ l0, snap = some l0 ∧ ∀ i, (assocGet re i).map Str.bytes = l0[i]?) →
    (m.remap = none → snap = none) →
    ((registered ops).foldl addNew l).length ≤ 2 ^ 32 →
    (dictRun cfg m ops).2 = dictActual l snap ops
  | [], _, _, _, _, _, _, _ => rfl
  | .register s :: ops, m, l, snap, h, hs, hn, hl => by
    simp only [registered, List.foldl_cons] at hl
    obtain ⟨h1, h2, h3⟩ := h.register s (Nat.le_trans (foldl_addNew_prefix _ _).length_le hl)
    simp only [dictRun, dictStep, dictActual]
    rw [dict_actual ops _ _ snap h1 (by rw [h3]; exact hs) (by rw [h3]; exact hn) hl, h2]
  | .lookup id :: ops, m, l, snap, h, hs, hn, hl => by
    simp only [registered] at hl
    simp only [dictRun, dictStep, dictActual]
    cases hr : m.remap with
    | some re =>
      obtain ⟨l0, rfl, hl0⟩ := hs re hr
      obtain ⟨g1, g2⟩ := getStr_of_remap (cfg := cfg) hr id
      rw [g1, g2, hl0, dict_actual ops m l (some l0) h hs hn hl]
      rfl
    | none =>
      have e := hn hr
      subst e
      have g1 : (m.getStr cfg id).1 = { m with remap := some (m.buildReMap cfg) } := by
        unfold StringMap.getStr; rw [hr]
      have g2 : (m.getStr cfg id).2.toOption = assocGet (m.buildReMap cfg) id := by
        unfold StringMap.getStr; rw [hr]
        cases hg : assocGet (m.buildReMap cfg) id <;> simp [hg, Except.toOption]
      rw [g1, g2, h.buildReMap cfg id]
      rw [dict_actual ops { m with remap := some (m.buildReMap cfg) } l (some l) ⟨h.map, h.nodup, h.next, h.owned⟩ (by
        intro re hre
        simp only [Option.some.injEq] at hre
        subst hre
        exact ⟨l, rfl, h.buildReMap cfg⟩) (by simp) hl]
      rfl

theorem actual_lookup {ops : List DictOp} : ∀ {l : List Bytes} {snap : List Bytes} {i : Nat} {id : Nat},
    ops[i]? = some (.lookup id) → (dictActual l (some snap) ops)[i]? = some (.str snap[id]?) := by
  induction ops with
  | nil => intro l snap i id h; simp at h
  | cons op ops ih =>
    intro l snap i id h
    cases i with
    | zero =>
      simp only [List.getElem?_cons_zero, Option.some.injEq] at h
      subst h; rfl
    | succ i =>
      simp only [List.getElem?_cons_succ] at h
      cases op with
      | register s => simpa [dictActual] using ih h
      | lookup j => simpa [dictActual] using ih h

theorem actual_lookup_none {ops : List DictOp} : ∀ {l : List Bytes} {i : Nat} {id : Nat}, ops[i]? = some (.lookup id) →
    (dictActual l none ops)[i]? = some (.str ((registered (beforeLookup ops)).foldl addNew l)[id]?) := by
  induction ops with
  | nil => intro l i id h; simp at h
  | cons op ops ih =>
    intro l i id h
    cases op with
    | register s =>
      cases i with
      | zero => simp at h
      | succ i => simpa [dictActual, beforeLookup, registered] using ih h
    | lookup j =>
      cases i with
      | zero =>
        simp only [List.getElem?_cons_zero, Option.some.injEq, DictOp.lookup.injEq] at h
        subst h; rfl
      | succ i =>
        simp only [List.getElem?_cons_succ] at h
        simpa [dictActual, beforeLookup, registered] using actual_lookup (l := l) (snap := l) h

/-- C33. In any history of registrations and lookups, every lookup sees exactly the distinct strings registered before the
first lookup of the history. -/
theorem C33_lookup_sees_snapshot (cfg : Cfg) (ops : List DictOp) (h : (firstUse (registered ops)).length ≤ 2 ^ 32) (i id : Nat)
    (hi : ops[i]? = some (.lookup id)) :
    (dictRun cfg {} ops).2[i]? = some (.str (firstUse (registered (beforeLookup ops)))[id]?) := by
  rw [dict_actual ops {} [] none DictRep.empty (by simp) (by simp) h]
  exact actual_lookup_none hi

/-- C33. What a user expects is false: the id of a string registered after a lookup cannot be looked up. -/
theorem C33_stale (cfg : Cfg) : ∃ ops : List DictOp, (dictRun cfg {} ops).2 ≠ dictIdeal [] ops := by
  refine ⟨[.register [97], .lookup 0, .register [98], .lookup 1], ?_⟩
  rw [dict_actual _ {} [] none DictRep.empty (by simp) (by simp) (by decide)]
  decide

/-- C33. A history in which no string is registered after the first lookup behaves as expected. -/
theorem C33_ideal_before_lookup (cfg : Cfg) (ss : List Bytes) (ids : List Nat) (h : (firstUse ss).length ≤ 2 ^ 32) :
    (dictRun cfg {} (ss.map .register ++ ids.map .lookup)).2 = dictIdeal [] (ss.map .register ++ ids.map .lookup) := by
  have hreg : registered (ss.map .register ++ ids.map .lookup) = ss := by
    have h0 : registered (ids.map .lookup) = [] := by
      induction ids with
      | nil => rfl
      | cons x xs ih => simpa [registered] using ih
    have : ∀ l : List Bytes, registered (l.map .register ++ ids.map .lookup) = l := by
      intro l
      induction l with
      | nil => simpa using h0
      | cons x xs ih => simpa [registered] using ih
    exact this ss
  rw [dict_actual _ {} [] none DictRep.empty (by simp) (by simp) (by rw [hreg]; exact h)]
  have h1 : ∀ (l : List Bytes), dictActual l (some l) (ids.map .lookup) = dictIdeal l (ids.map .lookup) := by
    clear hreg
    intro l
    induction ids with
    | nil => rfl
    | cons x xs ih => simp only [List.map_cons, dictActual, dictIdeal, Option.getD_some, ih]
  have h1' : ∀ (l : List Bytes), dictActual l none (ids.map .lookup) = dictIdeal l (ids.map .lookup) := by
    intro l
    cases ids with
    | nil => rfl
    | cons x xs =>
      simp only [List.map_cons, dictActual, dictIdeal, Option.getD_none]
      congr 1
      clear h1 hreg
      induction xs with
      | nil => rfl
      | cons y ys ih => simp only [List.map_cons, dictActual, dictIdeal, Option.getD_some, ih]
  have h2 : ∀ (ss : List Bytes) (l : List Bytes),
      dictActual l none (ss.map .register ++ ids.map .lookup) = dictIdeal l (ss.map .register ++ ids.map .lookup) := by
    intro ss
    induction ss with
    | nil => intro l; simpa using h1' l
    | cons s ss ih => intro l; simp only [List.map_cons, List.cons_append, dictActual, dictIdeal, ih]
  exact h2 ss []

example : (dictRun Cfg.x86 {} [.register [97], .lookup 0, .register [98], .lookup 1]).2 =
    [.id 0, .str (some [97]), .id 1, .str none] := by decide

/-- C33. A dictionary reconstructed from bytes always hands out id 0 next, whatever ids it already holds. -/
theorem C33_reconstructed_reuses_ids (cfg : Cfg) (v : View) (m : StringMap) (h : StringMap.construct cfg v = .ok m) (s : Bytes)
    (hs : m.find s = none) : (m.register ⟨s, none⟩).2 = 0 := by
  unfold StringMap.construct at h
  cases h1 : parseLength cfg v ⟨0, 0⟩ with
  | error e => rw [h1] at h; simp at h
  | ok p =>
    obtain ⟨c, cur⟩ := p
    rw [h1] at h
    simp only [ok_bind] at h
    cases h2 : smConstructGo cfg v (toU32 c) cur [] with
    | error e => rw [h2] at h; simp at h
    | ok r =>
      rw [h2] at h
      simp only [ok_bind, pure_eq_ok, Except.ok.injEq] at h
      subst h
      unfold StringMap.register
      rw [hs]

/-- The dictionary `{"hi" ↦ 0, "a" ↦ 1}` read back: a new string gets id 0, the id of "hi". -/
example : (StringMap.construct Cfg.x86 (View.whole [2, 2, 104, 105, 0, 1, 97, 1])).toOption.map
    (fun m => ((m.getStr Cfg.x86 0).2.toOption.map Str.bytes, (m.register ⟨[122], none⟩).2)) = some (some [104, 105], 0) := by
  decide +kernel

/-! ### C34 -/

/-- `n` calls of `RequestId`: the ids and the new state. -/
def requestMany : Nat → SplitInfo → List Nat × SplitInfo
  | 0, si => ([], si)
  | n + 1, si => (si.requestId.2 :: (requestMany n si.requestId.1).1, (requestMany n si.requestId.1).2)

theorem requestMany_get (n : Nat) : ∀ (si : SplitInfo) (i : Nat), i < n → si.next < 2 ^ 32 →
    (requestMany n si).1[i]? = some ((si.next + i) % 2 ^ 32) := by
  induction n with
  | zero => intro si i hi; omega
  | succ n ih =>
    intro si i hi hn
    simp only [requestMany, SplitInfo.requestId]
    cases i with
    | zero => simp [Nat.mod_eq_of_lt hn]
    | succ i =>
      simp only [List.getElem?_cons_succ]
      rw [ih _ i (by omega) (toU32_lt _)]
      simp only [toU32, Option.some.injEq]
      omega

theorem requestMany_length (n : Nat) : ∀ si : SplitInfo, (requestMany n si).1.length = n := by
  induction n with
  | zero => intro si; rfl
  | succ n ih => intro si; simp [requestMany, ih]

theorem requestMany_nodup {n : Nat} (h : n ≤ 2 ^ 32) {si : SplitInfo} (hs : si.next < 2 ^ 32) : (requestMany n si).1.Nodup := by
  rw [List.Nodup, List.pairwise_iff_getElem]
  intro i j hi hj hij
  rw [requestMany_length] at hi hj
  have h1 := requestMany_get n si i hi hs
  have h2 := requestMany_get n si j hj hs
  rw [List.getElem?_eq_some_iff] at h1 h2
  rw [h1.2, h2.2]
  omega

/-- C34. The ids handed out by a new table are 1, 2, 3, … (modulo 2^32); up to 2^32 of them are distinct. -/
theorem C34_request_ids (n : Nat) :
    (∀ i, i < n → (requestMany n {}).1[i]? = some ((1 + i) % 2 ^ 32)) ∧ (n ≤ 2 ^ 32 → (requestMany n {}).1.Nodup) :=
  ⟨fun i hi => requestMany_get n {} i hi (by decide), fun h => requestMany_nodup h (by decide)⟩

/-- C34. The bound is exact: the next request repeats the first id. -/
theorem C34_bound_is_exact : ¬ (requestMany (2 ^ 32 + 1) {}).1.Nodup := by
  intro h
  rw [List.Nodup, List.pairwise_iff_getElem] at h
  have h1 := requestMany_get (2 ^ 32 + 1) {} 0 (by omega) (by decide)
  have h2 := requestMany_get (2 ^ 32 + 1) {} (2 ^ 32) (by omega) (by decide)
  rw [List.getElem?_eq_some_iff] at h1 h2
  have := h 0 (2 ^ 32) h1.1 h2.1 (by omega)
  rw [h1.2, h2.2] at this
  exact this rfl

theorem construct_next {cfg : Cfg} {v : View} : ∀ (n : Nat) (c : Cur) (ret r : SplitInfo),
    siConstructGo cfg v n c ret = .ok r → ret.next < 2 ^ 32 →
    (∀ e ∈ r.info, e.1 ≠ 2 ^ 32 - 1) → (∀ e ∈ ret.info, e.1 < ret.next) →
    (∀ e ∈ r.info, e.1 < r.next) ∧ r.next < 2 ^ 32 := by
  intro n
  induction n with
  | zero =>
    intro c ret r h hn _ hlt
    simp only [siConstructGo, Except.ok.injEq] at h
    subst h; exact ⟨hlt, hn⟩
  | succ n ih =>
    intro c ret r h hn hr hlt
    simp only [siConstructGo] at h
    cases h1 : parseLength cfg v c with
    | error e => rw [h1] at h; simp at h
    | ok p =>
      obtain ⟨id, c1⟩ := p
      rw [h1] at h; simp only [ok_bind] at h
      cases h2 : parseLength cfg v c1 with
      | error e => rw [h2] at h; simp at h
      | ok p =>
        obtain ⟨cnt, c2⟩ := p
        rw [h2] at h; simp only [ok_bind] at h
        cases h3 : siParseBlocks cfg v (toU32 cnt) c2 with
        | error e => rw [h3] at h; simp at h
        | ok p =>
          obtain ⟨bs, c3⟩ := p
          rw [h3] at h; simp only [ok_bind] at h
          by_cases hd : (assocGet ret.info (toU32 id)).isSome = true
          · rw [if_pos hd] at h; simp at h
          · rw [if_neg hd] at h
            have hmono : ∀ (n : Nat) (c : Cur) (ret r : SplitInfo), siConstructGo cfg v n c ret = .ok r → ∀ e ∈ ret.info, e ∈ r.info := by
              intro n
              induction n with
              | zero =>
                intro c ret r h e he
                simp only [siConstructGo, Except.ok.injEq] at h
                subst h; exact he
              | succ n ih =>
                intro c ret r h e he
                simp only [siConstructGo] at h
                cases h1 : parseLength cfg v c with
                | error e => rw [h1] at h; simp at h
                | ok p =>
                  obtain ⟨id, c1⟩ := p
                  rw [h1] at h; simp only [ok_bind] at h
                  cases h2 : parseLength cfg v c1 with
                  | error e => rw [h2] at h; simp at h
                  | ok p =>
                    obtain ⟨cnt, c2⟩ := p
                    rw [h2] at h; simp only [ok_bind] at h
                    cases h3 : siParseBlocks cfg v (toU32 cnt) c2 with
                    | error e => rw [h3] at h; simp at h
                    | ok p =>
                      obtain ⟨bs, c3⟩ := p
                      rw [h3] at h; simp only [ok_bind] at h
                      by_cases hd : (assocGet ret.info (toU32 id)).isSome = true
                      · rw [if_pos hd] at h; simp at h
                      · rw [if_neg hd] at h
                        refine ih _ _ _ h e ?_
                        split <;> simp [he]
            have hid : toU32 id ≠ 2 ^ 32 - 1 := hr (toU32 id, bs) (hmono _ _ _ _ h _ (by split <;> simp))
            have hidlt := toU32_lt id
            refine ih _ _ _ h ?_ hr ?_
            · split
              · exact toU32_lt _
              · exact hn
            · intro e he
              split at he <;> rename_i hge
              · rw [if_pos hge]
                simp only at he hge ⊢
                simp only [List.mem_append, List.mem_singleton] at he
                have : toU32 (toU32 id + 1) = toU32 id + 1 := toU32_of_lt (by omega)
                rw [this]
                rcases he with he | he
                · have := hlt e he; omega
                · subst he; simp
              · rw [if_neg hge]
                simp only [List.mem_append, List.mem_singleton] at he
                simp only at hge ⊢
                rcases he with he | he
                · exact hlt e he
                · subst he; simp only; omega

/-- C34. Whatever bytes a table is reconstructed from, as long as it does not hold the id 2^32 - 1, the ids requested from it
afterwards (until the counter wraps) are new and distinct. -/
theorem C34_reconstructed_ids_are_new (cfg : Cfg) (v : View) (si : SplitInfo) (h : SplitInfo.construct cfg v = .ok si)
    (hmax : ∀ e ∈ si.info, e.1 ≠ 2 ^ 32 - 1) (n : Nat) (hn : si.next + n ≤ 2 ^ 32) :
    (requestMany n si).1.Nodup ∧ ∀ id ∈ (requestMany n si).1, id ∉ si.info.map Prod.fst := by
  unfold SplitInfo.construct at h
  cases h1 : parseLength cfg v ⟨0, 0⟩ with
  | error e => rw [h1] at h; simp at h
  | ok p =>
    obtain ⟨c, cur⟩ := p
    rw [h1] at h
    simp only [ok_bind] at h
    obtain ⟨hlt, hb⟩ := construct_next _ _ _ _ h (by decide) hmax (by simp)
    refine ⟨requestMany_nodup (by omega) hb, ?_⟩
    intro id hid hc
    obtain ⟨i, hi⟩ := List.getElem?_of_mem hid
    have hil : i < n := by
      have := (List.getElem?_eq_some_iff.mp hi).1
      rwa [requestMany_length] at this
    rw [requestMany_get n si i hil hb] at hi
    simp only [Option.some.injEq] at hi
    obtain ⟨e, he, rfl⟩ := List.mem_map.mp hc
    have := hlt e he
    rw [Nat.mod_eq_of_lt (by omega)] at hi
    omega

/-- C34. With the id 2^32 - 1 in the table the counter wraps and the second request repeats an id of the table. -/
theorem C34_wrap : (SplitInfo.construct Cfg.x86 (View.whole [2, 1, 0, 255, 255, 255, 255, 15, 0])).toOption.map
    (fun si => (si.info.map Prod.fst, (requestMany 2 si).1)) = some ([1, 2 ^ 32 - 1], [0, 1]) := by decide +kernel

example : (SplitInfo.construct Cfg.x86 (View.whole [1, 5, 2, 10, 12])).toOption.map
    (fun si => (si.info, (requestMany 2 si).1)) = some ([(5, [10, 12])], [6, 7]) := by decide +kernel

/-! ### C35 -/

theorem assocSet_nodup {α β : Type} [DecidableEq α] {m : List (α × β)} (h : (m.map Prod.fst).Nodup) (k : α) (v : β) :
    ((assocSet m k v).map Prod.fst).Nodup := by
  have hm : ∀ (m : List (α × β)) (x : α), x ∈ (assocSet m k v).map Prod.fst → x ∈ m.map Prod.fst ∨ x = k := by
    intro m
    induction m with
    | nil => intro x hx; simp [assocSet] at hx; exact Or.inr hx
    | cons p m ih =>
      intro x hx
      obtain ⟨k', v'⟩ := p
      simp only [assocSet] at hx
      split at hx
      · rename_i e; subst e; exact Or.inl (by simpa using hx)
      · simp only [List.map_cons, List.mem_cons] at hx ⊢
        rcases hx with hx | hx
        · exact Or.inl (Or.inl hx)
        · rcases ih x hx with h | h
          · exact Or.inl (Or.inr h)
          · exact Or.inr h
  induction m with
  | nil => simp [assocSet]
  | cons p m ih =>
    obtain ⟨k', v'⟩ := p
    simp only [List.map_cons, List.nodup_cons] at h
    simp only [assocSet]
    split
    · rename_i e; subst e; simpa using h
    · rename_i e
      simp only [List.map_cons, List.nodup_cons]
      refine ⟨?_, ih h.2⟩
      intro hc
      rcases hm m k' hc with h1 | h1
      · exact h.1 h1
      · exact e h1

theorem registerAll_spec (ops : List (Nat × List Nat)) : ∀ si : SplitInfo, (si.info.map Prod.fst).Nodup →
    ((ops.foldl (fun s e => s.register e.1 e.2) si).info.map Prod.fst).Nodup ∧
    ∀ id, assocGet (ops.foldl (fun s e => s.register e.1 e.2) si).info id = (lastValue id ops).or (assocGet si.info id) := by
  induction ops with
  | nil => intro si h; exact ⟨h, by simp [lastValue]⟩
  | cons e ops ih =>
    intro si h
    obtain ⟨k, v⟩ := e
    simp only [List.foldl_cons]
    obtain ⟨h1, h2⟩ := ih (si.register k v) (assocSet_nodup h k v)
    refine ⟨h1, fun id => ?_⟩
    rw [h2]
    simp only [lastValue, SplitInfo.register]
    cases lastValue id ops with
    | some x => simp
    | none =>
      by_cases hk : k = id
      · subst hk; simp [assocGet_set_self]
      · rw [assocGet_set_ne _ _ (fun e => hk e.symm)]; simp [hk]

theorem registerAll_mem (ops : List (Nat × List Nat)) : ∀ (si : SplitInfo) (e : Nat × List Nat),
    e ∈ (ops.foldl (fun s e => s.register e.1 e.2) si).info → e ∈ ops ∨ e ∈ si.info := by
  induction ops with
  | nil => intro si e h; exact Or.inr h
  | cons x ops ih =>
    intro si e h
    simp only [List.foldl_cons] at h
    rcases ih _ e h with h | h
    · exact Or.inl (List.mem_cons_of_mem _ h)
    · rcases assocSet_mem' h with h | h
      · exact Or.inr h
      · exact Or.inl (by rw [h]; simp)
where
  assocSet_mem' {m : List (Nat × List Nat)} {k : Nat} {v : List Nat} {e : Nat × List Nat}
      (h : e ∈ assocSet m k v) : e ∈ m ∨ e = (k, v) := by
    induction m with
    | nil => simpa [assocSet] using h
    | cons p m ih =>
      obtain ⟨k', v'⟩ := p
      simp only [assocSet] at h
      split at h
      · rcases List.mem_cons.mp h with h | h
        · exact Or.inr h
        · exact Or.inl (List.mem_cons_of_mem _ h)
      · rcases List.mem_cons.mp h with h | h
        · exact Or.inl (by rw [h]; simp)
        · rcases ih h with h | h
          · exact Or.inl (List.mem_cons_of_mem _ h)
          · exact Or.inr h

theorem siConstruct_entries {cfg : Cfg} {v : View} {es : List (Nat × List Nat)} (hv : SizeOk cfg v.len)
    (hin : (lenB es.length ++ (es.map siEntryB).flatten).length ≤ v.len) (hlt : v.len < 2 ^ 32)
    (hval : ∀ e ∈ es, e.1 < 2 ^ 32 ∧ e.2.length < 2 ^ 32 ∧ ∀ b ∈ e.2, b < 2 ^ 32)
    (hat : HasAt v.mem v.base (lenB es.length ++ (es.map siEntryB).flatten)) :
    SplitInfo.construct cfg v = siConstructGo cfg v es.length ⟨(lenB es.length).length, (lenB es.length).length⟩ {} := by
  rw [HasAt.append] at hat
  rw [List.length_append] at hin
  have hcount : ∀ l : List (Nat × List Nat), l.length ≤ (l.map siEntryB).flatten.length := by
    intro l
    induction l with
    | nil => simp
    | cons e l ih =>
      simp only [List.map_cons, List.flatten_cons, List.length_append, List.length_cons]
      have := lenB_length_pos e.1
      simp only [siEntryB, List.length_append] at *; omega
  have hb : es.length < 2 ^ 32 := by have := hcount es; omega
  have hpl := parseLength_lenB (cfg := cfg) (v := v) (i := 0) hv hb (by simpa using hat.1) (by omega)
  unfold SplitInfo.construct
  rw [hpl]
  simp only [ok_bind, toU32_of_lt hb, Nat.zero_add]

/-- C35. A split table filled by any history of `RegisterSplitInfo` calls, serialized by one build and reconstructed by
another from the middle of any memory, gives every id the block list registered last for it and throws for every other id. -/
theorem C35_table_roundtrip (w r : Cfg) (hw : w.charSigned = true) (ops : List (Nat × List Nat))
    (hops : ∀ e ∈ ops, e.1 < 2 ^ 32 ∧ e.2.length < 2 ^ 32 ∧ ∀ b ∈ e.2, b < 2 ^ 32) (pre post : Bytes) :
    ∃ b, (ops.foldl (fun (s : SplitInfo) e => s.register e.1 e.2) {}).serialize w = .ok b ∧
      (b.length < 2 ^ 32 → (r.asserts = true → b.length < 2 ^ 31) →
        ∃ si', SplitInfo.construct r ⟨pre ++ b ++ post, pre.length, b.length⟩ = .ok si' ∧
          ∀ id, si'.getBlocks id = match lastValue id ops with
            | some bs => .ok bs
            | none => .error (.exn .outOfRangeAt)) := by
  obtain ⟨h1, h2⟩ := registerAll_spec ops {} (by simp)
  have h3 := registerAll_mem ops {}
  refine ⟨_, siSerialize_eq hw _, fun hlt hsm => ?_⟩
  generalize hm : ops.foldl (fun (s : SplitInfo) e => s.register e.1 e.2) {} = si at *
  have hperm := w.siPerm si.info
  have hval : ∀ e ∈ w.siOrd si.info, e.1 < 2 ^ 32 ∧ e.2.length < 2 ^ 32 ∧ ∀ b ∈ e.2, b < 2 ^ 32 := by
    intro e he
    rcases h3 e (hperm.mem_iff.mp he) with h | h
    · exact hops e h
    · simp at h
  have hnd : (((w.siOrd si.info)).map Prod.fst).Nodup := (hperm.map _).nodup_iff.mpr h1
  have hT : siTableB w si = lenB (w.siOrd si.info).length ++ ((w.siOrd si.info).map siEntryB).flatten := by
    unfold siTableB; rw [hperm.length_eq]
  have hat := HasAt.intro pre (siTableB w si) post
  have hat' : HasAt (pre ++ siTableB w si ++ post) pre.length
      (lenB (w.siOrd si.info).length ++ ((w.siOrd si.info).map siEntryB).flatten) := by rw [← hT]; exact hat
  rw [HasAt.append] at hat'
  have hc := siConstruct_entries (cfg := r) (v := ⟨pre ++ siTableB w si ++ post, pre.length, (siTableB w si).length⟩)
    (es := w.siOrd si.info) ⟨by simp only; omega, hsm⟩ (by rw [← hT]; exact Nat.le_refl _) hlt hval (by rw [← hT]; exact hat)
  obtain ⟨r', g1, g2⟩ := siConstructGo_eq (cfg := r) (v := ⟨pre ++ siTableB w si ++ post, pre.length, (siTableB w si).length⟩)
    ⟨by simp only; omega, hsm⟩ (w.siOrd si.info) (lenB (w.siOrd si.info).length).length {} hat'.2
    (by simp only; rw [hT, List.length_append]; exact Nat.le_refl _) hval (by simpa using hnd)
  refine ⟨r', by rw [hc, g1], fun id => ?_⟩
  have hg : assocGet r'.info id = lastValue id ops := by
    have h4 := h2 id
    simp only [assocGet, Option.or_none] at h4
    rw [g2, ← h4]
    cases hq : assocGet si.info id with
    | some bs =>
      exact assocGet_mem (by simpa using hnd) (by simpa using hperm.mem_iff.mpr (assocGet_some_mem hq))
    | none =>
      refine assocGet_none ?_
      intro hc
      simp only [List.nil_append] at hc
      obtain ⟨e, he, rfl⟩ := List.mem_map.mp hc
      have := assocGet_mem h1 (hperm.mem_iff.mp he)
      rw [hq] at this; simp at this
  unfold SplitInfo.getBlocks
  rw [hg]
  cases lastValue id ops <;> rfl

theorem siConstructGo_dup {cfg : Cfg} {v : View} (hv : SizeOk cfg v.len) :
    ∀ (es : List (Nat × List Nat)) (i : Nat) (ret : SplitInfo),
    HasAt v.mem (v.base + i) (es.map siEntryB).flatten → i + (es.map siEntryB).flatten.length ≤ v.len →
    (∀ e ∈ es, e.1 < 2 ^ 32 ∧ e.2.length < 2 ^ 32 ∧ ∀ b ∈ e.2, b < 2 ^ 32) →
    (ret.info.map Prod.fst).Nodup → ¬ ((ret.info ++ es).map Prod.fst).Nodup →
    siConstructGo cfg v es.length ⟨i, i⟩ ret = .error (.exn .splitInfoDuplicate) := by
  intro es
  induction es with
  | nil => intro i ret _ _ _ h1 h2; simp at h2; exact absurd h1 (by simpa using h2)
  | cons e es ih =>
    intro i ret hat hin hb h1 hnd
    obtain ⟨id, bs⟩ := e
    obtain ⟨hid, hbl, hbb⟩ := hb (id, bs) (by simp)
    simp only at hid hbl hbb
    have htake : bs.take (toU32 bs.length) = bs := by rw [toU32_of_lt hbl]; simp
    simp only [List.map_cons, List.flatten_cons, siEntryB, List.length_append, htake] at hat hin
    rw [HasAt.append, HasAt.append, HasAt.append] at hat
    obtain ⟨⟨h1', h2, h3⟩, h4⟩ := hat
    simp only [List.length_cons, siConstructGo]
    rw [parseLength_lenB hv hid h1' (by omega)]
    simp only [ok_bind]
    rw [parseLength_lenB hv hbl (by rw [← Nat.add_assoc]; exact h2) (by omega)]
    simp only [ok_bind, toU32_of_lt hid, toU32_of_lt hbl]
    rw [siParseBlocks_eq hv bs _ (by rw [← Nat.add_assoc, ← Nat.add_assoc]; exact h3) (by omega) hbb]
    simp only [ok_bind]
    by_cases hmem : id ∈ ret.info.map Prod.fst
    · have : (assocGet ret.info id).isSome = true := by
        cases hq : assocGet ret.info id with
        | some x => rfl
        | none =>
          obtain ⟨e, he, rfl⟩ := List.mem_map.mp hmem
          rw [assocGet_mem h1 he] at hq; simp at hq
      rw [if_pos this]
    · rw [assocGet_none hmem]
      simp only [Option.isSome_none, Bool.false_eq_true, if_false]
      have key : ∀ r0 : SplitInfo, r0.info = ret.info ++ [(id, bs)] →
        siConstructGo cfg v es.length
          ⟨i + (lenB id).length + (lenB bs.length).length + (bs.map lenB).flatten.length,
            i + (lenB id).length + (lenB bs.length).length + (bs.map lenB).flatten.length⟩ r0 = .error (.exn .splitInfoDuplicate) := by
        intro r0 hr0
        refine ih (i + (lenB id).length + (lenB bs.length).length + (bs.map lenB).flatten.length) r0
          (by simp only [List.length_append, htake] at h4
              rw [show v.base + (i + (lenB id).length + (lenB bs.length).length + (bs.map lenB).flatten.length) =
                v.base + i + ((lenB id).length + ((lenB bs.length).length + (bs.map lenB).flatten.length)) by omega]
              exact h4)
          (by omega) (fun e he => hb e (List.mem_cons_of_mem _ he)) ?_ ?_
        · rw [hr0, List.map_append, List.nodup_append]
          refine ⟨h1, by simp, ?_⟩
          intro a ha b hb
          simp only [List.map_cons, List.map_nil, List.mem_singleton] at hb
          subst hb
          intro e; subst e; exact hmem ha
        · rw [hr0]; simpa using hnd
      split
      · exact key _ rfl
      · exact key _ rfl

/-- C35. A table whose bytes mention an id twice is rejected with an exception. -/
theorem C35_duplicate_rejected (r : Cfg) (es : List (Nat × List Nat))
    (hes : ∀ e ∈ es, e.1 < 2 ^ 32 ∧ e.2.length < 2 ^ 32 ∧ ∀ b ∈ e.2, b < 2 ^ 32) (hdup : ¬ (es.map Prod.fst).Nodup) (b : Bytes)
    (hb : b = leb128 es.length ++ (es.map fun e => leb128 e.1 ++ (leb128 e.2.length ++ (e.2.map leb128).flatten)).flatten)
    (hlt : b.length < 2 ^ 32) (hsm : r.asserts = true → b.length < 2 ^ 31) (pre post : Bytes) :
    SplitInfo.construct r ⟨pre ++ b ++ post, pre.length, b.length⟩ = .error (.exn .splitInfoDuplicate) := by
  have hcount : ∀ l : List (Nat × List Nat), l.length ≤
      (l.map fun e => leb128 e.1 ++ (leb128 e.2.length ++ (e.2.map leb128).flatten)).flatten.length := by
    intro l
    induction l with
    | nil => simp
    | cons e l ih =>
      simp only [List.map_cons, List.flatten_cons, List.length_append, List.length_cons]
      have := leb128_length_pos e.1
      omega
  have hn : es.length < 2 ^ 32 := by
    have := hcount es
    rw [hb, List.length_append] at hlt; omega
  have hB : b = lenB es.length ++ (es.map siEntryB).flatten := by
    rw [hb]
    congr 1
    · unfold lenB; rw [toU32_of_lt hn]
    · congr 1
      apply List.map_congr_left
      intro e he
      obtain ⟨h1, h2, h3⟩ := hes e he
      unfold siEntryB lenB
      rw [toU32_of_lt h1, toU32_of_lt h2, List.take_length]
      congr 2
      congr 1
      apply List.map_congr_left
      intro x hx
      rw [toU32_of_lt (h3 x hx)]
  clear hb
  subst hB
  have hat := HasAt.intro pre (lenB es.length ++ (es.map siEntryB).flatten) post
  have hc := siConstruct_entries (cfg := r) (es := es)
    (v := ⟨pre ++ (lenB es.length ++ (es.map siEntryB).flatten) ++ post, pre.length, (lenB es.length ++ (es.map siEntryB).flatten).length⟩)
    ⟨by simp only; omega, hsm⟩ (Nat.le_refl _) hlt hes hat
  rw [hc]
  have hat' := hat
  rw [HasAt.append] at hat'
  exact siConstructGo_dup ⟨by simp only; omega, hsm⟩ es _ {} hat'.2 (by simp only; rw [List.length_append]; exact Nat.le_refl _) hes
    (by simp) (by simpa using hdup)

example : SplitInfo.construct Cfg.x86 (View.whole [2, 5, 1, 10, 5, 1, 12]) = .error (.exn .splitInfoDuplicate) ∧
    [2, 5, 1, 10, 5, 1, 12] = leb128 2 ++ ([(5, [10]), (5, [12])].map fun e : Nat × List Nat =>
      leb128 e.1 ++ (leb128 e.2.length ++ (e.2.map leb128).flatten)).flatten ∧
    ¬ ([((5, [10]) : Nat × List Nat), (5, [12])].map Prod.fst).Nodup := by
  refine ⟨by decide +kernel, by decide +kernel, by decide⟩

end Bridge
