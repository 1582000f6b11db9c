import Verif.Proof.Top
/-
What a user sees through `ObjectWrapper`, and how it is determined by the document.
-/
namespace Bridge
open Spec

/-- A chain of `operator[]` calls on wrappers. -/
def Obj.wPath : Obj → List Step → Obj
  | o, [] => o
  | o, .key k :: p => (o.wKey k).wPath p
  | o, .index n :: p => (o.wIdx n).wPath p

theorem wPath_null (p : List Step) : Obj.wPath .null p = .null := by
  induction p with
  | nil => rfl
  | cons s p ih => cases s <;> simpa [Obj.wPath, Obj.wKey, Obj.wIdx] using ih

theorem walkItems_eq (items : List Obj) (n : Nat) : walkItems items n = (items[n]?).getD .null := by
  induction items generalizing n with
  | nil => simp [walkItems]
  | cons o os ih => cases n with
    | zero => simp [walkItems]
    | succ n => simp [walkItems, ih]

/-- `arr[n]` is the `n`-th item counted from the end of the links. -/
theorem arrayGet_eq {pool : PoolRef} {size : Nat} {items : List Obj} (hs : size = items.length) (n : Nat) :
    ArrayS.get ⟨pool, size, items⟩ n = (items.reverse[n]?).getD .null := by
  unfold ArrayS.get
  simp only
  split
  · rw [List.getElem?_eq_none (by simp; omega)]; rfl
  · rw [walkItems_eq, List.getElem?_reverse (by omega), hs]

theorem docs?_getElem? {os : List Obj} {ds : List Doc} (h : docs? os = some ds) (i : Nat) :
    (os[i]?).bind Obj.doc? = ds[i]? := by
  induction os generalizing ds i with
  | nil => simp [docs?] at h; subst h; simp
  | cons o os ih =>
    obtain ⟨d, ds', rfl, hd, hds⟩ := docs?_cons h
    cases i with
    | zero => simp [hd]
    | succ i => simpa using ih hds i

theorem findKey_doc {os : List (Str × Obj)} {es : List (Bytes × Doc)} (h : entries? os = some es) (k : Bytes) :
    (firstEntry k es = none ∧ findKey k os = .null) ∨ ∃ d, firstEntry k es = some d ∧ (findKey k os).doc? = some d := by
  induction os generalizing es with
  | nil => simp [entries?] at h; subst h; simp [firstEntry, findKey]
  | cons o os ih =>
    obtain ⟨k', o⟩ := o
    obtain ⟨d, ds', rfl, hd, hds⟩ := entries?_cons h
    simp only [firstEntry, findKey]
    by_cases hk : k'.bytes = k
    · simp [hk, hd]
    · simp only [hk, if_false]; exact ih hds

theorem array_doc {pool : PoolRef} {size : Nat} {items : List Obj} {d : Doc} (h : (Obj.array pool size items).doc? = some d) :
    ∃ xs, d = .array xs ∧ size = items.length ∧ docs? items = some xs := by
  simp only [Obj.doc?] at h
  split at h
  · simp only [Option.map_eq_some_iff] at h
    obtain ⟨xs, h1, rfl⟩ := h
    exact ⟨xs, rfl, by assumption, h1⟩
  · simp at h

theorem map_doc {ref : Bool} {pool : PoolRef} {size : Nat} {items : List (Str × Obj)} {d : Doc}
    (h : (Obj.map ref pool size items).doc? = some d) :
    ∃ es, d = .map es ∧ size = items.length ∧ entries? items = some es := by
  simp only [Obj.doc?] at h
  split at h
  · simp only [Option.map_eq_some_iff] at h
    obtain ⟨xs, h1, rfl⟩ := h
    exact ⟨xs, rfl, by assumption, h1⟩
  · simp at h

theorem data_doc {ref : Bool} {dt : UInt8} {p : Payload} {d : Doc} (h : (Obj.data ref dt p).doc? = some d) :
    ∃ s, d = .scalar s ∧ scalarOf ref dt p = some s := by
  simp only [Obj.doc?, Option.map_eq_some_iff] at h
  obtain ⟨s, h1, rfl⟩ := h
  exact ⟨s, rfl, h1⟩

/-- One step of navigation. -/
theorem wStep_doc {o : Obj} {d : Doc} (h : o.doc? = some d) (s : Step) :
    (d.step s = none ∧ o.wPath [s] = .null) ∨ ∃ d', d.step s = some d' ∧ (o.wPath [s]).doc? = some d' := by
  cases o with
  | null => simp [Obj.doc?] at h
  | data r dt p =>
    obtain ⟨sc, rfl, _⟩ := data_doc h
    cases s <;> simp [Doc.step, Obj.wPath, Obj.wKey, Obj.wIdx]
  | array pool size items =>
    obtain ⟨xs, rfl, hs, hd⟩ := array_doc h
    cases s with
    | key k => simp [Doc.step, Obj.wPath, Obj.wKey]
    | index n =>
      simp only [Doc.step, Obj.wPath, Obj.wIdx, arrayGet_eq hs]
      have hl := docs?_length hd
      by_cases hn : n < items.length
      · right
        have := docs?_getElem? hd (items.length - 1 - n)
        rw [List.getElem?_reverse hn, List.getElem?_reverse (by omega), hl]
        rw [List.getElem?_eq_getElem (show items.length - 1 - n < items.length by omega),
          List.getElem?_eq_getElem (show items.length - 1 - n < xs.length by omega)] at this ⊢
        exact ⟨_, rfl, by simpa using this⟩
      · left
        rw [List.getElem?_eq_none (by simp; omega), List.getElem?_eq_none (by simp; omega)]
        exact ⟨rfl, rfl⟩
  | map ref pool size items =>
    obtain ⟨es, rfl, hs, hd⟩ := map_doc h
    cases s with
    | index n => simp [Doc.step, Obj.wPath, Obj.wIdx]
    | key k => simpa [Doc.step, Obj.wPath, Obj.wKey] using findKey_doc hd k

theorem wPath_cons (o : Obj) (s : Step) (p : List Step) : o.wPath (s :: p) = (o.wPath [s]).wPath p := by
  cases s <;> rfl

/-- Navigation through wrappers follows the document. -/
theorem wPath_doc {o : Obj} {d : Doc} (h : o.doc? = some d) (p : List Step) :
    (d.at p = none ∧ o.wPath p = .null) ∨ ∃ d', d.at p = some d' ∧ (o.wPath p).doc? = some d' := by
  induction p generalizing o d with
  | nil => exact .inr ⟨d, rfl, h⟩
  | cons s p ih =>
    rw [wPath_cons, Doc.at]
    rcases wStep_doc h s with ⟨h1, h2⟩ | ⟨d', h1, h2⟩
    · left; rw [h1, h2, wPath_null]; exact ⟨rfl, rfl⟩
    · rw [h1]; exact ih h2

/-! ### Documents equal up to the order of map entries -/

theorem firstEntry_mem {k : Bytes} {es : List (Bytes × Doc)} {x : Doc} (h : firstEntry k es = some x) : (k, x) ∈ es := by
  induction es with
  | nil => simp [firstEntry] at h
  | cons e es ih =>
    obtain ⟨k', y⟩ := e
    simp only [firstEntry] at h
    split at h
    · simp_all
    · exact List.mem_cons_of_mem _ (ih h)

theorem firstEntry_of_mem {k : Bytes} {es : List (Bytes × Doc)} {x : Doc} (hn : (es.map Prod.fst).Nodup) (h : (k, x) ∈ es) :
    firstEntry k es = some x := by
  induction es with
  | nil => simp at h
  | cons e es ih =>
    obtain ⟨k', y⟩ := e
    simp only [List.map_cons, List.nodup_cons] at hn
    simp only [List.mem_cons, Prod.mk.injEq] at h
    simp only [firstEntry]
    rcases h with ⟨rfl, rfl⟩ | h
    · simp
    · have : k' ≠ k := by
        rintro rfl
        exact hn.1 (List.mem_map.mpr ⟨_, h, rfl⟩)
      simp [this, ih hn.2 h]

theorem firstEntry_none {k : Bytes} {es : List (Bytes × Doc)} : firstEntry k es = none ↔ k ∉ es.map Prod.fst := by
  induction es with
  | nil => simp [firstEntry]
  | cons e es ih =>
    obtain ⟨k', y⟩ := e
    simp only [firstEntry, List.map_cons, List.mem_cons, not_or]
    by_cases h : k' = k
    · simp [h]
    · simp only [h, if_false, ih]
      constructor
      · intro h1; exact ⟨fun e => h e.symm, h1⟩
      · exact And.right

theorem SameE_keys {es es' : List (Bytes × Doc)} (h : SameE es es') : es.map Prod.fst = es'.map Prod.fst := by
  induction es generalizing es' with
  | nil => simp only [SameE] at h; subst h; rfl
  | cons e es ih =>
    obtain ⟨k, x⟩ := e
    simp only [SameE] at h
    obtain ⟨y, ys, rfl, _, h2⟩ := h
    simp [ih h2]

theorem SameE_mem {es es' : List (Bytes × Doc)} (h : SameE es es') {k : Bytes} {x : Doc} (hm : (k, x) ∈ es) :
    ∃ y, (k, y) ∈ es' ∧ x.Same y := by
  induction es generalizing es' with
  | nil => simp at hm
  | cons e es ih =>
    obtain ⟨k', x'⟩ := e
    simp only [SameE] at h
    obtain ⟨y, ys, rfl, h1, h2⟩ := h
    simp only [List.mem_cons, Prod.mk.injEq] at hm
    rcases hm with ⟨rfl, rfl⟩ | hm
    · exact ⟨y, by simp, h1⟩
    · obtain ⟨z, h3, h4⟩ := ih h2 hm
      exact ⟨z, List.mem_cons_of_mem _ h3, h4⟩

theorem SameL_getElem? {xs ys : List Doc} (h : SameL xs ys) (i : Nat) :
    (xs[i]? = none ∧ ys[i]? = none) ∨ ∃ x y, xs[i]? = some x ∧ ys[i]? = some y ∧ x.Same y := by
  induction xs generalizing ys i with
  | nil => simp only [SameL] at h; subst h; simp
  | cons x xs ih =>
    simp only [SameL] at h
    obtain ⟨y, ys', rfl, h1, h2⟩ := h
    cases i with
    | zero => simp [h1]
    | succ i => simpa using ih h2 i

theorem distinctKeysL_mem {xs : List Doc} (h : distinctKeysL xs) {x : Doc} (hx : x ∈ xs) : x.DistinctKeys := by
  induction xs with
  | nil => simp at hx
  | cons y ys ih =>
    simp only [distinctKeysL] at h
    rcases List.mem_cons.mp hx with rfl | hx
    · exact h.1
    · exact ih h.2 hx

theorem distinctKeysE_mem {es : List (Bytes × Doc)} (h : distinctKeysE es) {k : Bytes} {x : Doc} (hx : (k, x) ∈ es) :
    x.DistinctKeys := by
  induction es with
  | nil => simp at hx
  | cons e es ih =>
    obtain ⟨k', y⟩ := e
    simp only [distinctKeysE] at h
    rcases List.mem_cons.mp hx with hx | hx
    · cases hx; exact h.1
    · exact ih h.2 hx

theorem same_step {d d' : Doc} (h : d.Same d') (hd : d.DistinctKeys) (s : Step) :
    (d.step s = none ∧ d'.step s = none) ∨
      ∃ x y, d.step s = some x ∧ d'.step s = some y ∧ x.Same y ∧ x.DistinctKeys := by
  cases d with
  | scalar sc => simp only [Doc.Same] at h; subst h; left; cases s <;> simp [Doc.step]
  | array xs =>
    simp only [Doc.Same] at h
    obtain ⟨ys, rfl, h⟩ := h
    cases s with
    | key k => left; simp [Doc.step]
    | index n =>
      simp only [Doc.step]
      have hl := SameL_length h
      by_cases hn : n < xs.length
      · right
        rw [List.getElem?_reverse hn, List.getElem?_reverse (by omega), ← hl]
        rcases SameL_getElem? h (xs.length - 1 - n) with ⟨h1, _⟩ | ⟨x, y, h1, h2, h3⟩
        · rw [List.getElem?_eq_none_iff] at h1; omega
        · refine ⟨x, y, h1, h2, h3, ?_⟩
          simp only [Doc.DistinctKeys] at hd
          exact distinctKeysL_mem hd (List.mem_of_getElem? h1)
      · left
        exact ⟨List.getElem?_eq_none (by simp; omega), List.getElem?_eq_none (by simp; omega)⟩
  | map es =>
    simp only [Doc.Same] at h
    obtain ⟨es', es'', rfl, h, hp⟩ := h
    simp only [Doc.DistinctKeys] at hd
    cases s with
    | index n => left; simp [Doc.step]
    | key k =>
      simp only [Doc.step]
      have hk := SameE_keys h
      have hnd' : (es'.map Prod.fst).Nodup := by
        rw [← (hp.map Prod.fst).nodup_iff, ← hk]; exact hd.1
      cases he : firstEntry k es with
      | none =>
        left
        refine ⟨rfl, ?_⟩
        rw [firstEntry_none] at he ⊢
        rw [hk, (hp.map Prod.fst).mem_iff] at he
        exact he
      | some x =>
        right
        have hm := firstEntry_mem he
        obtain ⟨y, hy, hxy⟩ := SameE_mem h hm
        exact ⟨x, y, rfl, firstEntry_of_mem hnd' (hp.mem_iff.mp hy), hxy, distinctKeysE_mem hd.2 hm⟩

/-- In a document without duplicate keys, every path leads to the same place whatever the order of the entries. -/
theorem same_at {d d' : Doc} (h : d.Same d') (hd : d.DistinctKeys) (p : List Step) :
    (d.at p = none ∧ d'.at p = none) ∨ ∃ x y, d.at p = some x ∧ d'.at p = some y ∧ x.Same y := by
  induction p generalizing d d' with
  | nil => exact .inr ⟨d, d', rfl, rfl, h⟩
  | cons s p ih =>
    simp only [Doc.at]
    rcases same_step h hd s with ⟨h1, h2⟩ | ⟨x, y, h1, h2, h3, h4⟩
    · rw [h1, h2]; exact .inl ⟨rfl, rfl⟩
    · rw [h1, h2]; exact ih h3 h4

theorem same_type {d d' : Doc} (h : d.Same d') : docType d = docType d' := by
  cases d with
  | scalar s => simp only [Doc.Same] at h; subst h; rfl
  | array xs => simp only [Doc.Same] at h; obtain ⟨ys, rfl, _⟩ := h; rfl
  | map es => simp only [Doc.Same] at h; obtain ⟨a, b, rfl, _⟩ := h; rfl

/-- `Size()`. -/
def docSize : Doc → Option Nat
  | .scalar _ => none
  | .array xs => some xs.length
  | .map es => some es.length

theorem same_size {d d' : Doc} (h : d.Same d') : docSize d = docSize d' := by
  cases d with
  | scalar s => simp only [Doc.Same] at h; subst h; rfl
  | array xs => simp only [Doc.Same] at h; obtain ⟨ys, rfl, h⟩ := h; simp [docSize, SameL_length h]
  | map es =>
    simp only [Doc.Same] at h
    obtain ⟨a, b, rfl, h, hp⟩ := h
    simp [docSize, ← hp.length_eq, SameE_length h]

theorem wType_doc {o : Obj} {d : Doc} (h : o.doc? = some d) : o.wType = some (docType d) := type?_of_doc h

theorem wSize_doc {o : Obj} {d : Doc} (h : o.doc? = some d) : o.wSize = docSize d := by
  cases o with
  | null => simp [Obj.doc?] at h
  | data r dt p => obtain ⟨s, rfl, _⟩ := data_doc h; rfl
  | array pool size items =>
    obtain ⟨xs, rfl, hs, hd⟩ := array_doc h
    simp [Obj.wSize, docSize, hs, docs?_length hd]
  | map ref pool size items =>
    obtain ⟨es, rfl, hs, hd⟩ := map_doc h
    simp [Obj.wSize, docSize, hs, entries?_length hd]

/-! ### Order -/

theorem revMapsL_eq (xs : List Doc) : revMapsL xs = xs.map Doc.revMaps := by
  induction xs with
  | nil => rfl
  | cons x xs ih => simp [revMapsL, ih]

theorem revMapsE_eq (es acc : List (Bytes × Doc)) :
    revMapsE es acc = (es.map (fun e => (e.1, e.2.revMaps))).reverse ++ acc := by
  induction es generalizing acc with
  | nil => rfl
  | cons e es ih => obtain ⟨k, x⟩ := e; simp [revMapsE, ih]

mutual
theorem revMaps_revMaps : ∀ d : Doc, d.revMaps.revMaps = d
  | .scalar s => rfl
  | .array xs => by rw [Doc.revMaps, Doc.revMaps, revMapsL_revMapsL xs]
  | .map es => by
    rw [Doc.revMaps, Doc.revMaps, revMapsE_revMapsE es]
theorem revMapsL_revMapsL : ∀ xs : List Doc, revMapsL (revMapsL xs) = xs
  | [] => rfl
  | x :: xs => by rw [revMapsL, revMapsL, revMaps_revMaps x, revMapsL_revMapsL xs]
theorem revMapsE_revMapsE : ∀ es : List (Bytes × Doc), revMapsE (revMapsE es []) [] = es
  | [] => rfl
  | (k, x) :: es => by
    have ih := revMapsE_revMapsE es
    rw [revMapsE_eq, revMapsE_eq] at ih ⊢
    simp only [List.append_nil, List.map_reverse, List.reverse_reverse, List.map_map] at ih ⊢
    simp only [List.map_cons, Function.comp_def, revMaps_revMaps x]
    exact congrArg _ ih
end

theorem revMaps_inj {d d' : Doc} (h : d.revMaps = d'.revMaps) : d = d' := by
  rw [← revMaps_revMaps d, h, revMaps_revMaps]

end Bridge
