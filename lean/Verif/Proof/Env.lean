import Verif.Proof.Wire
/-
How the two tables grow while a document is serialized.
-/
namespace Bridge
open Spec

/-! ### association lists -/

section Assoc
variable {α β : Type} [DecidableEq α]

theorem assocGet_set_self (m : List (α × β)) (k : α) (v : β) : assocGet (assocSet m k v) k = some v := by
  induction m with
  | nil => simp [assocSet, assocGet]
  | cons p m ih =>
    obtain ⟨k', v'⟩ := p
    simp only [assocSet]
    split
    · simp [assocGet]
    · rename_i h; simp [assocGet, h, ih]

theorem assocGet_set_ne (m : List (α × β)) {k j : α} (v : β) (h : j ≠ k) :
    assocGet (assocSet m k v) j = assocGet m j := by
  induction m with
  | nil => simp [assocSet, assocGet, Ne.symm h]
  | cons p m ih =>
    obtain ⟨k', v'⟩ := p
    simp only [assocSet]
    split
    · rename_i h'; subst h'; simp [assocGet, Ne.symm h]
    · simp [assocGet, ih]

theorem assocSet_fresh (m : List (α × β)) {k : α} (v : β) (h : k ∉ m.map Prod.fst) :
    assocSet m k v = m ++ [(k, v)] := by
  induction m with
  | nil => simp [assocSet]
  | cons p m ih =>
    obtain ⟨k', v'⟩ := p
    simp only [List.map_cons, List.mem_cons, not_or] at h
    simp [assocSet, Ne.symm h.1, ih h.2]

theorem assocGet_mem {m : List (α × β)} {k : α} {v : β} (hn : (m.map Prod.fst).Nodup) (h : (k, v) ∈ m) :
    assocGet m k = some v := by
  induction m with
  | nil => simp at h
  | cons p m ih =>
    obtain ⟨k', v'⟩ := p
    simp only [List.map_cons, List.nodup_cons] at hn
    simp only [assocGet]
    rcases List.mem_cons.mp h with h | h
    · simp at h; simp [h.1, h.2]
    · have : k' ≠ k := by
        intro hk; subst hk
        exact hn.1 (List.mem_map.mpr ⟨_, h, rfl⟩)
      simp [this, ih hn.2 h]

theorem assocGet_none {m : List (α × β)} {k : α} (h : k ∉ m.map Prod.fst) : assocGet m k = none := by
  induction m with
  | nil => rfl
  | cons p m ih =>
    obtain ⟨k', v'⟩ := p
    simp only [List.map_cons, List.mem_cons, not_or] at h
    simp [assocGet, Ne.symm h.1, ih h.2]

theorem assocGet_some_mem {m : List (α × β)} {k : α} {v : β} (h : assocGet m k = some v) : (k, v) ∈ m := by
  induction m with
  | nil => simp [assocGet] at h
  | cons p m ih =>
    obtain ⟨k', v'⟩ := p
    simp only [assocGet] at h
    split at h
    · rename_i hk; simp at h; simp [hk, h]
    · exact List.mem_cons_of_mem _ (ih h)
end Assoc

/-- The reverse table of a list with pairwise different ids maps every id to its string. -/
theorem reMap_get (l : List (Str × Nat)) (hn : (l.map Prod.snd).Nodup) (acc : List (Nat × Str))
    {s : Str} {id : Nat} (h : (s, id) ∈ l) :
    assocGet (l.foldl (fun r e => assocSet r e.2 e.1) acc) id = some s := by
  induction l generalizing acc with
  | nil => simp at h
  | cons p l ih =>
    obtain ⟨s', id'⟩ := p
    simp only [List.map_cons, List.nodup_cons] at hn
    simp only [List.foldl_cons]
    rcases List.mem_cons.mp h with h | h
    · simp only [Prod.mk.injEq] at h
      obtain ⟨rfl, rfl⟩ := h
      have key : ∀ (l : List (Str × Nat)) (acc : List (Nat × Str)), id ∉ l.map Prod.snd → assocGet acc id = some s →
          assocGet (l.foldl (fun r e => assocSet r e.2 e.1) acc) id = some s := by
        intro l
        induction l with
        | nil => intro acc _ h; simpa using h
        | cons p l ih2 =>
          intro acc hm h
          simp only [List.map_cons, List.mem_cons, not_or] at hm
          exact ih2 _ hm.2 (by rw [assocGet_set_ne _ _ hm.1]; exact h)
      exact key l _ hn.1 (assocGet_set_self _ _ _)
    · exact ih hn.2 _ h

/-- ids that are not in the list are not in the reverse table. -/
theorem reMap_get_none (l : List (Str × Nat)) (acc : List (Nat × Str)) {id : Nat} (h : id ∉ l.map Prod.snd)
    (ha : assocGet acc id = none) : assocGet (l.foldl (fun r e => assocSet r e.2 e.1) acc) id = none := by
  induction l generalizing acc with
  | nil => simpa using ha
  | cons p l ih =>
    simp only [List.map_cons, List.mem_cons, not_or] at h
    exact ih _ h.2 (by rw [assocGet_set_ne _ _ h.1]; exact ha)

/-- `GetStr` on a fresh object finds the string of every id. -/
theorem lookup_mem {cfg : Cfg} {m : StringMap} (hr : m.remap = none) (hn : (m.map.map Prod.snd).Nodup)
    {s : Str} {id : Nat} (h : (s, id) ∈ m.map) : m.lookup cfg id = .ok s := by
  unfold StringMap.lookup StringMap.getStr
  simp only [hr, StringMap.buildReMap]
  have hp := cfg.smPerm m.map
  rw [reMap_get (cfg.smOrd m.map) ((hp.map Prod.snd).nodup_iff.mpr hn) [] (hp.mem_iff.mpr h)]

theorem lookup_not_mem {cfg : Cfg} {m : StringMap} (hr : m.remap = none)
    {id : Nat} (h : id ∉ m.map.map Prod.snd) : m.lookup cfg id = .error (.exn .getStr) := by
  unfold StringMap.lookup StringMap.getStr
  simp only [hr, StringMap.buildReMap]
  have hp := cfg.smPerm m.map
  rw [reMap_get_none _ _ (fun hm => h ((hp.map Prod.snd).mem_iff.mp hm)) rfl]

/-! ### the dictionary -/

/-- A dictionary as built by registrations: distinct strings, numbered in the order of registration. -/
structure SMInv (m : StringMap) : Prop where
  nodup : (m.map.map (fun e => e.1.bytes)).Nodup
  ids : ∀ (i : Nat) (e : Str × Nat), m.map[i]? = some e → e.2 = i
  next : m.next = m.map.length
  bound : m.map.length < 2 ^ 32
  owned : ∀ e ∈ m.map, e.1.loc = none

theorem SMInv.empty : SMInv {} := by
  constructor <;> simp

theorem SMInv.ids_nodup {m : StringMap} (h : SMInv m) : (m.map.map Prod.snd).Nodup := by
  have : m.map.map Prod.snd = List.range m.map.length := by
    apply List.ext_getElem?
    intro i
    by_cases hi : i < m.map.length
    · have := h.ids i (m.map[i]) (by simp [hi])
      simp [hi, this]
    · rw [List.getElem?_eq_none (by simp; omega), List.getElem?_eq_none (by simp; omega)]
  rw [this]; exact List.nodup_range

theorem SMInv.id_lt {m : StringMap} (h : SMInv m) {e : Str × Nat} (he : e ∈ m.map) : e.2 < 2 ^ 32 := by
  obtain ⟨i, hi⟩ := List.getElem?_of_mem he
  have h1 := h.ids i e hi
  have h2 := h.bound
  rw [List.getElem?_eq_some_iff] at hi
  have := hi.1
  omega

theorem StringMap.find_some {m : StringMap} {b : Bytes} {id : Nat} (h : m.find b = some id) :
    ∃ s, (s, id) ∈ m.map ∧ s.bytes = b := by
  unfold StringMap.find at h
  split at h
  · rename_i e he
    simp at h; subst h
    exact ⟨e.1, List.mem_of_find?_eq_some he, by simpa using List.find?_some he⟩
  · simp at h

theorem StringMap.find_none {m : StringMap} {b : Bytes} (h : m.find b = none) : b ∉ m.map.map (fun e => e.1.bytes) := by
  unfold StringMap.find at h
  split at h
  · simp at h
  · rename_i he
    intro hm
    simp only [List.mem_map] at hm
    obtain ⟨e, he1, he2⟩ := hm
    have := List.find?_eq_none.mp he e he1
    simp [he2] at this

/-- Registering a string: the table is extended at the end at most by one, and the id returned denotes the string. -/
theorem register_spec {m : StringMap} (h : SMInv m) (b : Bytes) (hb : m.map.length + 1 < 2 ^ 32) :
    SMInv (m.register ⟨b, none⟩).1 ∧ m.map <+: (m.register ⟨b, none⟩).1.map ∧
    (m.register ⟨b, none⟩).1.map.length ≤ m.map.length + 1 ∧
    ((⟨b, none⟩ : Str), (m.register ⟨b, none⟩).2) ∈ (m.register ⟨b, none⟩).1.map := by
  unfold StringMap.register
  cases hf : m.find b with
  | some id =>
    obtain ⟨s, h1, h2⟩ := StringMap.find_some hf
    have := h.owned _ h1
    simp only
    refine ⟨h, List.prefix_refl _, by omega, ?_⟩
    cases s; simp_all
  | none =>
    have hnm := StringMap.find_none hf
    simp only
    refine ⟨⟨?_, ?_, ?_, ?_, ?_⟩, List.prefix_append _ _, by simp, by simp⟩
    · simp only [List.map_append, List.map_cons, List.map_nil]
      rw [List.nodup_append]
      refine ⟨h.nodup, by simp, ?_⟩
      intro a ha c hc
      simp at hc; subst hc
      intro hac; subst hac; exact hnm ha
    · intro i e he
      rw [List.getElem?_append] at he
      split at he
      · exact h.ids i e he
      · rename_i hlt
        rw [List.getElem?_singleton] at he
        split at he
        · simp at he; subst he
          simp [h.next]; omega
        · simp at he
    · simp [h.next]; exact toU32_of_lt hb
    · simpa using hb
    · intro e he
      simp only [List.mem_append, List.mem_singleton] at he
      rcases he with he | he
      · exact h.owned e he
      · subst he; rfl

theorem register_owned_sub {m : StringMap} (b : Bytes) :
    (m.register ⟨b, none⟩).1.remap = m.remap := by
  unfold StringMap.register
  cases m.find b <;> rfl

/-! ### split info -/

/-- A split table as built by requests and registrations. -/
structure SIInv (si : SplitInfo) : Prop where
  nodup : (si.info.map Prod.fst).Nodup
  lt : ∀ k ∈ si.info.map Prod.fst, k < si.next
  pos : 1 ≤ si.next
  bound : si.next < 2 ^ 32

theorem SIInv.empty : SIInv {} := by
  constructor <;> simp

/-- How the tables change while `n` bytes are emitted. -/
structure Grows (e e' : Env) (n : Nat) : Prop where
  smNone : e.sm = none → e'.sm = none
  sm : ∀ m, e.sm = some m → SMInv m → ∃ m', e'.sm = some m' ∧ SMInv m' ∧ m.map <+: m'.map ∧
    m'.map.length ≤ m.map.length + n
  si : SIInv e'.si
  next : e.si.next ≤ e'.si.next
  nextLe : e'.si.next ≤ e.si.next + n
  info : e.si.info <+: e'.si.info
  keys : ∀ k ∈ e'.si.info.map Prod.fst, k ∈ e.si.info.map Prod.fst ∨ e.si.next ≤ k

/-- There is room for `n` more bytes before any 32 bit counter wraps. -/
structure Room (e : Env) (n : Nat) : Prop where
  sm : ∀ m, e.sm = some m → SMInv m ∧ m.map.length + n < 2 ^ 32
  si : SIInv e.si
  siRoom : e.si.next + n < 2 ^ 32

theorem Grows.refl {e : Env} (h : SIInv e.si) (n : Nat) : Grows e e n where
  smNone := id
  sm := fun m hm hi => ⟨m, hm, hi, List.prefix_refl _, by omega⟩
  si := h
  next := Nat.le_refl _
  nextLe := by omega
  info := List.prefix_refl _
  keys := fun _ hk => .inl hk

theorem Grows.trans {e1 e2 e3 : Env} {a b : Nat} (h1 : Grows e1 e2 a) (h2 : Grows e2 e3 b) : Grows e1 e3 (a + b) where
  smNone := fun h => h2.smNone (h1.smNone h)
  sm := by
    intro m hm hi
    obtain ⟨m2, hm2, hi2, hp2, hl2⟩ := h1.sm m hm hi
    obtain ⟨m3, hm3, hi3, hp3, hl3⟩ := h2.sm m2 hm2 hi2
    exact ⟨m3, hm3, hi3, hp2.trans hp3, by omega⟩
  si := h2.si
  next := Nat.le_trans h1.next h2.next
  nextLe := by have := h1.nextLe; have := h2.nextLe; omega
  info := h1.info.trans h2.info
  keys := by
    intro k hk
    rcases h2.keys k hk with h | h
    · exact h1.keys k h
    · right; have := h1.next; omega

theorem Grows.mono {e e' : Env} {a b : Nat} (h : Grows e e' a) (hab : a ≤ b) : Grows e e' b where
  smNone := h.smNone
  sm := by
    intro m hm hi
    obtain ⟨m', h1, h2, h3, h4⟩ := h.sm m hm hi
    exact ⟨m', h1, h2, h3, by omega⟩
  si := h.si
  next := h.next
  nextLe := by have := h.nextLe; omega
  info := h.info
  keys := h.keys

theorem Room.mono {e : Env} {a b : Nat} (h : Room e b) (hab : a ≤ b) : Room e a where
  sm := by intro m hm; have := h.sm m hm; exact ⟨this.1, by omega⟩
  si := h.si
  siRoom := by have := h.siRoom; omega

theorem Room.after {e e' : Env} {a b : Nat} (h : Room e (a + b)) (g : Grows e e' a) : Room e' b where
  sm := by
    intro m' hm'
    cases he : e.sm with
    | none => rw [g.smNone he] at hm'; simp at hm'
    | some m =>
      have := h.sm m he
      obtain ⟨m2, h1, h2, h3, h4⟩ := g.sm m he this.1
      rw [h1] at hm'; simp at hm'; subst hm'
      exact ⟨h2, by omega⟩
  si := g.si
  siRoom := by have := h.siRoom; have := g.nextLe; omega

theorem lenB_length_pos (n : Nat) : 0 < (lenB n).length := leb128_length_pos _

theorem emitStr_pos (b : Bytes) (e : Env) : 0 < (emitStr b e).1.length := by
  unfold emitStr
  split
  · have := lenB_length_pos b.length; simp; omega
  · exact lenB_length_pos _

theorem emitStr_grows {b : Bytes} {e : Env} {n : Nat} (hn : 0 < n) (h : Room e n) :
    Grows e (emitStr b e).2 n := by
  unfold emitStr
  cases he : e.sm with
  | none => exact Grows.refl h.si _
  | some m =>
    obtain ⟨hi, hl⟩ := h.sm m he
    obtain ⟨r1, r2, r3, _⟩ := register_spec hi b (by omega)
    refine ⟨by simp [he], ?_, h.si, Nat.le_refl _, by simp, List.prefix_refl _, fun _ hk => .inl hk⟩
    intro m0 hm0 _
    rw [he] at hm0; simp at hm0; subst hm0
    exact ⟨_, rfl, r1, r2, by omega⟩

theorem emitScalar_grows {s : Scalar} {e : Env} (h : Room e (emitScalar s e).1.length) :
    Grows e (emitScalar s e).2 (emitScalar s e).1.length := by
  cases s with
  | string b =>
    simp only [emitScalar] at h ⊢
    have := emitStr_pos b e
    exact emitStr_grows (by simp) h
  | _ => exact Grows.refl h.si _

theorem container_grows {cfg : Cfg} {e em : Env} {count : Nat} {chunks : List Bytes}
    (h : Room e (emitContainer cfg count e.si.requestId.2 chunks em).1.length)
    (g : Grows { e with si := e.si.requestId.1 } em chunks.flatten.length) :
    Grows e (emitContainer cfg count e.si.requestId.2 chunks em).2.2
      (emitContainer cfg count e.si.requestId.2 chunks em).1.length := by
  simp only [emitContainer, List.length_append] at h ⊢
  have hp1 := lenB_length_pos count
  have hp2 := lenB_length_pos e.si.requestId.2
  have hroom := h.siRoom
  have hnext : e.si.requestId.1.next = e.si.next + 1 := by
    simp only [SplitInfo.requestId]; exact toU32_of_lt (by omega)
  have hinfo : e.si.requestId.1.info = e.si.info := rfl
  have hid : e.si.requestId.2 = e.si.next := rfl
  have gn := g.next; have gnl := g.nextLe
  simp only [hnext] at gn gnl
  have hkeys : e.si.next ∉ em.si.info.map Prod.fst := by
    intro hm
    rcases g.keys _ hm with h1 | h1
    · have := h.si.lt _ h1; omega
    · simp only [hnext] at h1; omega
  have hfresh : em.si.register e.si.requestId.2 (blocksOf cfg chunks) =
      { em.si with info := em.si.info ++ [(e.si.next, blocksOf cfg chunks)] } := by
    unfold SplitInfo.register
    rw [hid, assocSet_fresh _ _ hkeys]
  split
  · refine ⟨g.smNone, ?_, ?_, ?_, ?_, ?_, ?_⟩
    · intro m hm hi
      obtain ⟨m', h1, h2, h3, h4⟩ := g.sm m hm hi
      exact ⟨m', h1, h2, h3, by omega⟩
    · rw [hfresh]
      refine ⟨?_, ?_, ?_, ?_⟩
      · simp only [List.map_append, List.map_cons, List.map_nil]
        rw [List.nodup_append]
        refine ⟨g.si.nodup, by simp, ?_⟩
        intro a ha c hc
        simp at hc; subst hc
        intro hac; subst hac; exact hkeys ha
      · intro k hk
        simp only [List.map_append, List.map_cons, List.map_nil, List.mem_append, List.mem_singleton] at hk
        rcases hk with hk | hk
        · exact g.si.lt k hk
        · subst hk; simp; omega
      · exact g.si.pos
      · exact g.si.bound
    · rw [hfresh]; simp only; omega
    · rw [hfresh]; simp only; omega
    · rw [hfresh]; exact g.info.trans (List.prefix_append _ _)
    · rw [hfresh]
      intro k hk
      simp only [List.map_append, List.map_cons, List.map_nil, List.mem_append, List.mem_singleton] at hk
      rcases hk with hk | hk
      · rcases g.keys k hk with h1 | h1
        · exact .inl h1
        · simp only [hnext] at h1; right; omega
      · subst hk; right; exact Nat.le_refl _
  · refine ⟨g.smNone, ?_, g.si, by omega, by omega, g.info, ?_⟩
    · intro m hm hi
      obtain ⟨m', h1, h2, h3, h4⟩ := g.sm m hm hi
      exact ⟨m', h1, h2, h3, by omega⟩
    · intro k hk
      rcases g.keys k hk with h1 | h1
      · exact .inl h1
      · simp only [hnext] at h1; right; omega

theorem request_room {e : Env} {n k : Nat} (h : Room e n) (hk : k + 1 ≤ n) :
    Room { e with si := e.si.requestId.1 } k := by
  have hroom := h.siRoom
  have hnext : e.si.requestId.1.next = e.si.next + 1 := by
    simp only [SplitInfo.requestId]; exact toU32_of_lt (by omega)
  refine ⟨?_, ⟨h.si.nodup, ?_, ?_, ?_⟩, ?_⟩
  · intro m hm; have := h.sm m hm; exact ⟨this.1, by omega⟩
  · intro j hj
    have := h.si.lt j hj
    simp only [hnext]; omega
  · simp only [hnext]; omega
  · simp only [hnext]; omega
  · simp only [hnext]; omega

theorem emitContainer_length (cfg : Cfg) (count id : Nat) (chunks : List Bytes) (e : Env) :
    (emitContainer cfg count id chunks e).1.length = (lenB count).length + (lenB id).length + chunks.flatten.length := by
  simp [emitContainer]; omega

mutual
theorem emitDoc_grows (cfg : Cfg) : ∀ (d : Doc) (e : Env), Room e (emitDoc cfg d e).1.length →
    Grows e (emitDoc cfg d e).2.2 (emitDoc cfg d e).1.length
  | .scalar s, e, h => by simp only [emitDoc] at h ⊢; exact emitScalar_grows h
  | .array xs, e, h => by
    simp only [emitDoc] at h ⊢
    have hl := emitContainer_length cfg xs.length e.si.requestId.2
      (emitItems cfg xs { e with si := e.si.requestId.1 }).1 (emitItems cfg xs { e with si := e.si.requestId.1 }).2
    have hp1 := lenB_length_pos xs.length
    exact container_grows h (emitItems_grows cfg xs _ (request_room h (by omega)))
  | .map es, e, h => by
    simp only [emitDoc] at h ⊢
    have hl := emitContainer_length cfg es.length e.si.requestId.2
      (emitKVs cfg es { e with si := e.si.requestId.1 }).1 (emitKVs cfg es { e with si := e.si.requestId.1 }).2
    have hp1 := lenB_length_pos es.length
    exact container_grows h (emitKVs_grows cfg es _ (request_room h (by omega)))

theorem emitItems_grows (cfg : Cfg) : ∀ (xs : List Doc) (e : Env), Room e (emitItems cfg xs e).1.flatten.length →
    Grows e (emitItems cfg xs e).2 (emitItems cfg xs e).1.flatten.length
  | [], e, h => by simp only [emitItems]; exact Grows.refl h.si _
  | x :: xs, e, h => by
    simp only [emitItems, List.flatten_cons, List.length_append, List.length_cons] at h ⊢
    have g1 := emitDoc_grows cfg x e (h.mono (by omega))
    have h2 : Room (emitDoc cfg x e).2.2 (emitItems cfg xs (emitDoc cfg x e).2.2).1.flatten.length :=
      (h.mono (by omega)).after g1
    exact (g1.trans (emitItems_grows cfg xs _ h2)).mono (by omega)

theorem emitKVs_grows (cfg : Cfg) : ∀ (xs : List (Bytes × Doc)) (e : Env), Room e (emitKVs cfg xs e).1.flatten.length →
    Grows e (emitKVs cfg xs e).2 (emitKVs cfg xs e).1.flatten.length
  | [], e, h => by simp only [emitKVs]; exact Grows.refl h.si _
  | (k, x) :: xs, e, h => by
    simp only [emitKVs, List.flatten_cons, List.length_append, List.length_cons] at h ⊢
    have hp := emitStr_pos k e
    have g0 : Grows e (emitStr k e).2 (emitStr k e).1.length := emitStr_grows hp (h.mono (by omega))
    have h1 : Room (emitStr k e).2 ((emitDoc cfg x (emitStr k e).2).1.length + 1 +
        (emitKVs cfg xs (emitDoc cfg x (emitStr k e).2).2.2).1.flatten.length) := (h.mono (by omega)).after g0
    have g1 := emitDoc_grows cfg x _ (h1.mono (by omega))
    have h2 : Room (emitDoc cfg x (emitStr k e).2).2.2
        (emitKVs cfg xs (emitDoc cfg x (emitStr k e).2).2.2).1.flatten.length := (h1.mono (by omega)).after g1
    exact ((g0.trans g1).trans (emitKVs_grows cfg xs _ h2)).mono (by omega)
end

end Bridge
