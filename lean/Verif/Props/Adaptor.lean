import Verif.Model.Adaptor
import Verif.Props.Paths
import Verif.Proof.Sound
/-
C46, C47: conversion of standard containers.
-/
set_option autoImplicit false
namespace Bridge
open Spec

/-! ### C46 -/

/-- The scalar as a C++ type and value. -/
def Leaf.val : Leaf → CType × CVal
  | .bytes b => (.bytes, .bytes b)
  | .string b => (.string, .string b)
  | .i32 v => (.i32, .i32 v)
  | .u32 v => (.u32, .u32 v)
  | .i64 v => (.i64, .i64 v)
  | .u64 v => (.u64, .u64 v)
  | .f32 v => (.f32, .f32 v)
  | .f64 v => (.f64, .f64 v)

mutual
/-- The object shows the container: reading it through a wrapper, element by element, gives back every element of every vector at its
index and every entry of every hash table under its key, with the right type and size, and nothing more. -/
def Obj.Shows : CxxVal → Obj → Prop
  | .leaf l, o => o.read l.val.1 = .ok (some l.val.2)
  | .vec xs, o => o.wType = some .array ∧ o.wSize = some xs.length ∧ showsFrom xs 0 o
  | .map _ es, o => o.wType = some .map ∧ o.wSize = some es.length ∧ showsKeys es o ∧
      ∀ k, k ∉ es.map Prod.fst → (o.wKey k).wEmpty = true
/-- The elements at indices `i`, `i + 1`, … are those of the list. -/
def showsFrom : List CxxVal → Nat → Obj → Prop
  | [], _, _ => True
  | x :: xs, i, o => Obj.Shows x (o.wIdx i) ∧ showsFrom xs (i + 1) o
/-- Each key leads to its value. -/
def showsKeys : List (Bytes × CxxVal) → Obj → Prop
  | [], _ => True
  | (k, x) :: es, o => Obj.Shows x (o.wKey k) ∧ showsKeys es o
end

mutual
/-- What holds of every C++ value: a hash table has no key twice, and no container has 2^64 or more elements. -/
def CxxVal.Proper : CxxVal → Prop
  | .leaf _ => True
  | .vec xs => xs.length < 2 ^ 64 ∧ properL xs
  | .map _ es => es.length < 2 ^ 64 ∧ (es.map Prod.fst).Nodup ∧ properE es
/-- `Proper` of every element. -/
def properL : List CxxVal → Prop
  | [] => True
  | x :: xs => x.Proper ∧ properL xs
/-- `Proper` of every value. -/
def properE : List (Bytes × CxxVal) → Prop
  | [] => True
  | (_, x) :: es => x.Proper ∧ properE es
end

mutual
/-- No byte array in the value is empty. -/
def CxxVal.noEmptyBytes : CxxVal → Bool
  | .leaf (.bytes b) => !b.isEmpty
  | .leaf _ => true
  | .vec xs => noEmptyBytesL xs
  | .map _ es => noEmptyBytesE es
/-- `noEmptyBytes` of every element. -/
def noEmptyBytesL : List CxxVal → Bool
  | [] => true
  | x :: xs => x.noEmptyBytes && noEmptyBytesL xs
/-- `noEmptyBytes` of every value. -/
def noEmptyBytesE : List (Bytes × CxxVal) → Bool
  | [] => true
  | (_, x) :: es => x.noEmptyBytes && noEmptyBytesE es
end

/-- The scalar of a document for a leaf. -/
def Leaf.scalar : Leaf → Scalar
  | .bytes b => .bytes b
  | .string b => .string b
  | .i32 v => .int32 v
  | .u32 v => .uint32 v
  | .i64 v => .int64 v
  | .u64 v => .uint64 v
  | .f32 v => .float v
  | .f64 v => .double v

mutual
/-- The document of a container: newest element first. -/
def CxxVal.doc : CxxVal → Doc
  | .leaf l => .scalar l.scalar
  | .vec xs => .array (docsRev xs [])
  | .map _ es => .map (entriesRev es [])
/-- The documents of the elements, reversed onto `acc`. -/
def docsRev : List CxxVal → List Doc → List Doc
  | [], acc => acc
  | x :: xs, acc => docsRev xs (x.doc :: acc)
/-- The documents of the entries, reversed onto `acc`. -/
def entriesRev : List (Bytes × CxxVal) → List (Bytes × Doc) → List (Bytes × Doc)
  | [], acc => acc
  | (k, x) :: es, acc => entriesRev es ((k, x.doc) :: acc)
end

theorem docsRev_eq (xs : List CxxVal) (acc : List Doc) : docsRev xs acc = (xs.map CxxVal.doc).reverse ++ acc := by
  induction xs generalizing acc with
  | nil => rfl
  | cons x xs ih => simp [docsRev, ih]

theorem entriesRev_eq (es : List (Bytes × CxxVal)) (acc : List (Bytes × Doc)) :
    entriesRev es acc = (es.map fun e => (e.1, e.2.doc)).reverse ++ acc := by
  induction es generalizing acc with
  | nil => rfl
  | cons x xs ih => obtain ⟨k, x⟩ := x; simp [entriesRev, ih]

theorem leaf_doc (l : Leaf) : l.toObj.doc? = some (.scalar l.scalar) := by
  cases l <;> simp [Leaf.toObj, Obj.doc?, scalarOf, Leaf.scalar]

mutual
theorem adaptor_doc : ∀ (v : CxxVal), v.Proper → ∃ o, adaptor v = .ok o ∧ o.doc? = some v.doc
  | .leaf l, h => ⟨l.toObj, by simp [adaptor], by rw [leaf_doc, CxxVal.doc]⟩
  | .vec xs, h => by
    simp only [CxxVal.Proper] at h
    obtain ⟨items, h1, h2⟩ := adaptorItems_doc xs (size := 0) (items := []) (ds := []) h.2 (by simpa using h.1) rfl rfl
    have hs : items.length = (docsRev xs []).length := (docs?_length h2).symm
    refine ⟨.array .caller items.length items, ?_, ?_⟩
    · simp only [adaptor]; rw [h1, ok_bind]; rfl
    · simp [Obj.doc?, h2, CxxVal.doc]
  | .map view es, h => by
    simp only [CxxVal.Proper] at h
    obtain ⟨items, h1, h2⟩ := adaptorEntries_doc es (view := view) (size := 0) (items := []) (ds := []) h.2.2 (by simpa using h.1) rfl rfl
    refine ⟨.map view .caller items.length items, ?_, ?_⟩
    · simp only [adaptor]; rw [h1, ok_bind]; rfl
    · simp [Obj.doc?, h2, CxxVal.doc]
theorem adaptorItems_doc : ∀ (xs : List CxxVal) {size : Nat} {items : List Obj} {ds : List Doc}, properL xs →
    size + xs.length < 2 ^ 64 → size = items.length → docs? items = some ds →
    ∃ items', adaptorItems xs ⟨.caller, size, items⟩ = .ok ⟨.caller, items'.length, items'⟩ ∧ docs? items' = some (docsRev xs ds)
  | [], size, items, ds, _, _, hs, hd => ⟨items, by simp [adaptorItems, hs], by simpa [docsRev] using hd⟩
  | x :: xs, size, items, ds, hp, hl, hs, hd => by
    simp only [properL] at hp
    simp only [List.length_cons] at hl
    obtain ⟨o, h1, h2⟩ := adaptor_doc x hp.1
    obtain ⟨items', h3, h4⟩ := adaptorItems_doc xs (size := size + 1) (items := o :: items) (ds := x.doc :: ds) hp.2 (by omega)
      (by simp [hs]) (by simp [docs?, h2, hd])
    refine ⟨items', ?_, by simpa [docsRev] using h4⟩
    have e : (ArrayS.mk .caller size items).insert o = .ok ⟨.caller, size + 1, o :: items⟩ := by
      have : addW size 1 = size + 1 := by unfold addW; omega
      simp [ArrayS.insert, this]
    simp only [adaptorItems]
    rw [h1, ok_bind, e, ok_bind, h3]
theorem adaptorEntries_doc : ∀ (es : List (Bytes × CxxVal)) {view : Bool} {size : Nat} {items : List (Str × Obj)}
    {ds : List (Bytes × Doc)}, properE es →
    size + es.length < 2 ^ 64 → size = items.length → entries? items = some ds →
    ∃ items', adaptorEntries es ⟨view, .caller, size, items⟩ = .ok ⟨view, .caller, items'.length, items'⟩ ∧
      entries? items' = some (entriesRev es ds)
  | [], view, size, items, ds, _, _, hs, hd => ⟨items, by simp [adaptorEntries, hs], by simpa [entriesRev] using hd⟩
  | (k, x) :: es, view, size, items, ds, hp, hl, hs, hd => by
    simp only [properE] at hp
    simp only [List.length_cons] at hl
    obtain ⟨o, h1, h2⟩ := adaptor_doc x hp.1
    obtain ⟨items', h3, h4⟩ := adaptorEntries_doc es (view := view) (size := size + 1) (items := (⟨k, none⟩, o) :: items)
      (ds := (k, x.doc) :: ds) hp.2 (by omega) (by simp [hs]) (by simp [entries?, h2, hd])
    refine ⟨items', ?_, by simpa [entriesRev] using h4⟩
    have e : (MapS.mk view .caller size items).insert ⟨k, none⟩ o = .ok ⟨view, .caller, size + 1, (⟨k, none⟩, o) :: items⟩ := by
      have : addW size 1 = size + 1 := by unfold addW; omega
      cases view <;> simp [MapS.insert, this, storeKey]
    simp only [adaptorEntries]
    rw [h1, ok_bind, e, ok_bind, h3]
end

mutual
theorem doc_distinct : ∀ (v : CxxVal), v.Proper → v.doc.DistinctKeys
  | .leaf l, h => by simp [CxxVal.doc, Doc.DistinctKeys]
  | .vec xs, h => by
    simp only [CxxVal.doc, Doc.DistinctKeys]
    exact docsRev_distinct xs h.2 [] (by simp [distinctKeysL])
  | .map view es, h => by
    simp only [CxxVal.doc, Doc.DistinctKeys]
    refine ⟨?_, entriesRev_distinct es h.2.2 [] (by simp [distinctKeysE])⟩
    rw [entriesRev_eq, List.append_nil, List.map_reverse, List.map_map]
    have : (Prod.fst ∘ fun e : Bytes × CxxVal => (e.1, e.2.doc)) = Prod.fst := rfl
    rw [this, (List.reverse_perm _).nodup_iff]
    exact h.2.1
theorem docsRev_distinct : ∀ (xs : List CxxVal), properL xs → ∀ acc, distinctKeysL acc → distinctKeysL (docsRev xs acc)
  | [], _, acc, ha => by simpa [docsRev] using ha
  | x :: xs, h, acc, ha => by
    simp only [docsRev]
    exact docsRev_distinct xs h.2 _ ⟨doc_distinct x h.1, ha⟩
theorem entriesRev_distinct : ∀ (xs : List (Bytes × CxxVal)), properE xs → ∀ acc, distinctKeysE acc → distinctKeysE (entriesRev xs acc)
  | [], _, acc, ha => by simpa [entriesRev] using ha
  | (k, x) :: xs, h, acc, ha => by
    simp only [entriesRev]
    exact entriesRev_distinct xs h.2 _ ⟨doc_distinct x h.1, ha⟩
end

mutual
theorem doc_noCustom : ∀ (v : CxxVal), v.doc.noCustom = true
  | .leaf l => by cases l <;> rfl
  | .vec xs => by simp only [CxxVal.doc, Doc.noCustom]; exact docsRev_noCustom xs [] rfl
  | .map view es => by simp only [CxxVal.doc, Doc.noCustom]; exact entriesRev_noCustom es [] rfl
theorem docsRev_noCustom : ∀ (xs : List CxxVal) (acc : List Doc), noCustomL acc = true → noCustomL (docsRev xs acc) = true
  | [], acc, ha => by simpa [docsRev] using ha
  | x :: xs, acc, ha => by
    simp only [docsRev]
    exact docsRev_noCustom xs _ (by simp [noCustomL, doc_noCustom x, ha])
theorem entriesRev_noCustom : ∀ (xs : List (Bytes × CxxVal)) (acc : List (Bytes × Doc)), noCustomE acc = true →
    noCustomE (entriesRev xs acc) = true
  | [], acc, ha => by simpa [entriesRev] using ha
  | (k, x) :: xs, acc, ha => by
    simp only [entriesRev]
    exact entriesRev_noCustom xs _ (by simp [noCustomE, doc_noCustom x, ha])
end

theorem scalarVal_leaf (l : Leaf) : scalarVal l.scalar = l.val := by cases l <;> rfl

theorem wIdx_doc {o : Obj} {d x : Doc} {i : Nat} (ho : o.doc? = some d) (h : d.step (.index i) = some x) :
    (o.wIdx i).doc? = some x := by
  rcases wStep_doc ho (.index i) with ⟨h1, _⟩ | ⟨d', h1, h2⟩
  · rw [h] at h1; cases h1
  · rw [h] at h1; cases h1; exact h2

theorem wKey_doc {o : Obj} {d x : Doc} {k : Bytes} (ho : o.doc? = some d) (h : d.step (.key k) = some x) :
    (o.wKey k).doc? = some x := by
  rcases wStep_doc ho (.key k) with ⟨h1, _⟩ | ⟨d', h1, h2⟩
  · rw [h] at h1; cases h1
  · rw [h] at h1; cases h1; exact h2

mutual
/-- An object whose document is that of the container up to the order of map entries shows the container. -/
theorem shows_of_same : ∀ (v : CxxVal) {o : Obj} {d : Doc}, v.Proper → o.doc? = some d → v.doc.Same d → Obj.Shows v o
  | .leaf l, o, d, hp, ho, hs => by
    simp only [CxxVal.doc, Doc.Same] at hs
    simp only [Obj.Shows]
    rw [read_doc ho]
    exact ⟨l.scalar, hs, scalarVal_leaf l⟩
  | .vec xs, o, d, hp, ho, hs => by
    have ht := wType_doc ho
    have hz := wSize_doc ho
    rw [← same_type hs] at ht
    rw [← same_size hs] at hz
    refine ⟨ht, ?_, ?_⟩
    · rw [hz]; simp [CxxVal.doc, docSize, docsRev_eq]
    · refine showsFrom_of xs 0 (w := .vec xs) hp.2 (doc_distinct _ hp) ho hs ?_
      intro j hj
      simp [CxxVal.doc, Doc.step, docsRev_eq, List.getElem?_eq_getElem hj]
  | .map view es, o, d, hp, ho, hs => by
    have ht := wType_doc ho
    have hz := wSize_doc ho
    have hk := doc_distinct _ hp
    rw [← same_type hs] at ht
    rw [← same_size hs] at hz
    refine ⟨ht, ?_, ?_, ?_⟩
    · rw [hz]; simp [CxxVal.doc, docSize, entriesRev_eq]
    · refine showsKeys_of es (w := .map view es) hp.2.2 hk ho hs ?_
      intro k x hm
      simp only [CxxVal.doc, Doc.step]
      simp only [CxxVal.doc, Doc.DistinctKeys] at hk
      refine firstEntry_of_mem hk.1 ?_
      simp only [entriesRev_eq, List.append_nil, List.mem_reverse, List.mem_map]
      exact ⟨(k, x), hm, rfl⟩
    · intro k hn
      have h1 : (CxxVal.map view es).doc.step (.key k) = none := by
        simp only [CxxVal.doc, Doc.step]
        rw [firstEntry_none, entriesRev_eq]
        simpa using hn
      rcases same_step hs hk (.key k) with ⟨_, h2⟩ | ⟨x, y, e, _⟩
      · rcases wStep_doc ho (.key k) with ⟨_, h3⟩ | ⟨_, h3, _⟩
        · simp only [Obj.wPath] at h3; rw [h3]; rfl
        · rw [h2] at h3; cases h3
      · rw [h1] at e; cases e
theorem showsFrom_of : ∀ (xs : List CxxVal) (i : Nat) {w : CxxVal} {o : Obj} {d : Doc}, properL xs → w.doc.DistinctKeys →
    o.doc? = some d → w.doc.Same d → (∀ (j : Nat) (hj : j < xs.length), w.doc.step (.index (i + j)) = some xs[j].doc) → showsFrom xs i o
  | [], i, w, o, d, _, _, _, _, _ => by simp [showsFrom]
  | x :: xs, i, w, o, d, hp, hk, ho, hs, h => by
    refine ⟨?_, showsFrom_of xs (i + 1) hp.2 hk ho hs ?_⟩
    · have h0 := h 0 (by simp)
      simp only [Nat.add_zero, List.getElem_cons_zero] at h0
      rcases same_step hs hk (.index i) with ⟨h1, _⟩ | ⟨a, b, h1, h2, h3, _⟩
      · rw [h0] at h1; cases h1
      · rw [h0] at h1; cases h1
        exact shows_of_same x hp.1 (wIdx_doc ho h2) h3
    · intro j hj
      have := h (j + 1) (by simpa using hj)
      rw [show i + 1 + j = i + (j + 1) by omega, this]
      simp
theorem showsKeys_of : ∀ (es : List (Bytes × CxxVal)) {w : CxxVal} {o : Obj} {d : Doc}, properE es → w.doc.DistinctKeys →
    o.doc? = some d → w.doc.Same d → (∀ k x, (k, x) ∈ es → w.doc.step (.key k) = some x.doc) → showsKeys es o
  | [], w, o, d, _, _, _, _, _ => by simp [showsKeys]
  | (k, x) :: es, w, o, d, hp, hk, ho, hs, h => by
    refine ⟨?_, showsKeys_of es hp.2 hk ho hs (fun k' x' hm => h k' x' (by simp [hm]))⟩
    have h0 := h k x (by simp)
    rcases same_step hs hk (.key k) with ⟨h1, _⟩ | ⟨a, b, h1, h2, h3, _⟩
    · rw [h0] at h1; cases h1
    · rw [h0] at h1; cases h1
      exact shows_of_same x hp.1 (wKey_doc ho h2) h3
end

mutual
theorem adaptor_hard (w : Cfg) : ∀ (v : CxxVal) {o : Obj}, (w.hardened = true → v.noEmptyBytes = true) → adaptor v = .ok o → o.Hard w
  | .leaf l, o, h, ho => by
    simp only [adaptor, Except.ok.injEq] at ho
    subst ho
    cases l <;> simp only [Leaf.toObj, Obj.Hard, leafHard] <;> intro hw <;> have := h hw <;> simp_all [CxxVal.noEmptyBytes]
  | .vec xs, o, h, ho => by
    simp only [adaptor] at ho
    cases hi : adaptorItems xs {} with
    | error e => rw [hi, error_bind] at ho; cases ho
    | ok a =>
      rw [hi, ok_bind, pure_eq_ok] at ho
      cases ho
      simp only [CxxVal.noEmptyBytes] at h
      exact adaptorItems_hard w xs h (by simp [hardL]) hi
  | .map view es, o, h, ho => by
    simp only [adaptor] at ho
    cases hi : adaptorEntries es { ref := view } with
    | error e => rw [hi, error_bind] at ho; cases ho
    | ok a =>
      rw [hi, ok_bind, pure_eq_ok] at ho
      cases ho
      simp only [CxxVal.noEmptyBytes] at h
      exact adaptorEntries_hard w es h (by simp [hardE]) hi
theorem adaptorItems_hard (w : Cfg) : ∀ (xs : List CxxVal) {a a' : ArrayS}, (w.hardened = true → noEmptyBytesL xs = true) →
    hardL w a.items → adaptorItems xs a = .ok a' → hardL w a'.items
  | [], a, a', _, ha, h => by simp only [adaptorItems, Except.ok.injEq] at h; subst h; exact ha
  | x :: xs, a, a', hn, ha, h => by
    simp only [adaptorItems] at h
    cases hx : adaptor x with
    | error e => rw [hx, error_bind] at h; cases h
    | ok v =>
      rw [hx, ok_bind] at h
      simp only [ArrayS.insert] at h
      split at h
      · rw [error_bind] at h; cases h
      · rw [ok_bind] at h
        refine adaptorItems_hard w xs (fun e => ?_) ?_ h
        · have := hn e; simp only [noEmptyBytesL, Bool.and_eq_true] at this; exact this.2
        · refine ⟨adaptor_hard w x (fun e => ?_) hx, ha⟩
          have := hn e; simp only [noEmptyBytesL, Bool.and_eq_true] at this; exact this.1
theorem adaptorEntries_hard (w : Cfg) : ∀ (xs : List (Bytes × CxxVal)) {a a' : MapS}, (w.hardened = true → noEmptyBytesE xs = true) →
    hardE w a.items → adaptorEntries xs a = .ok a' → hardE w a'.items
  | [], a, a', _, ha, h => by simp only [adaptorEntries, Except.ok.injEq] at h; subst h; exact ha
  | (k, x) :: xs, a, a', hn, ha, h => by
    simp only [adaptorEntries] at h
    cases hx : adaptor x with
    | error e => rw [hx, error_bind] at h; cases h
    | ok v =>
      rw [hx, ok_bind] at h
      simp only [MapS.insert] at h
      split at h
      · rw [error_bind] at h; cases h
      · rw [ok_bind] at h
        refine adaptorEntries_hard w xs (fun e => ?_) ?_ h
        · have := hn e; simp only [noEmptyBytesE, Bool.and_eq_true] at this; exact this.2
        · refine ⟨adaptor_hard w x (fun e => ?_) hx, ha⟩
          have := hn e; simp only [noEmptyBytesE, Bool.and_eq_true] at this; exact this.1
end

/-- C46: `adaptor` never faults, and the object it builds shows the container: every element at its index, every entry under its key,
at every depth and for every iteration order of the hash tables. -/
theorem C46_adaptor_shows_container (v : CxxVal) (hv : v.Proper) : ∃ o, adaptor v = .ok o ∧ Obj.Shows v o := by
  obtain ⟨o, h1, h2⟩ := adaptor_doc v hv
  exact ⟨o, h1, shows_of_same v hv h2 (same_refl _)⟩

/-- C46: converting, serialising and parsing gives an object that shows the original container, for both encodings, both parsers,
owning and in situ.  (A writer built with bounds assertions cannot write empty byte arrays.) -/
theorem C46_round_trip_shows_container (w r : Cfg) (hw : w.charSigned = true) (t : SeriType) (v : CxxVal) (hv : v.Proper)
    (hn : w.hardened = true → v.noEmptyBytes = true) (co ref : Bool) (k : Nat) (hk0 : 0 < k) :
    ∃ o content, adaptor v = .ok o ∧ serialize w t o = .ok content ∧
      (Fits r content → ∃ o', Parses r ⟨co, ref, k⟩ content (.ok o') ∧ Obj.Shows v o') := by
  obtain ⟨o, h1, h2⟩ := adaptor_doc v hv
  have hh := adaptor_hard w v hn h1
  refine ⟨o, _, h1, serialize_eq hw t h2 hh, fun hf => ?_⟩
  cases co with
  | false =>
    obtain ⟨o1, e1, e2, _⟩ := parses_normal (extra := []) (by simpa using hf) ref (fun _ => doc_noCustom v) k
    exact ⟨o1, by simpa using e1, shows_of_same v hv e2 (same_revMaps _)⟩
  | true =>
    obtain ⟨o1, d1, e1, e2, e3, _⟩ := parses_co (extra := []) (by simpa using hf) ref (fun _ => doc_noCustom v) hk0
    exact ⟨o1, by simpa using e1, shows_of_same v hv e2 e3⟩

mutual
/-- The object is a copy of the container: every scalar is a `Data` that owns its value, every vector an `Array` and every hash table a
`Map` that owns its keys - except that the table made from one with `std::string_view` keys is a `MapView`.  All of them use the pool of
the caller, so that more can be inserted. -/
def Obj.Copies : CxxVal → Obj → Prop
  | .leaf _, o => ∃ dt p, o = .data false dt p
  | .vec xs, o => ∃ size items, o = .array .caller size items ∧ copiesL xs items.reverse
  | .map view es, o => ∃ size items, o = .map view .caller size items ∧ copiesE es (items.reverse.map Prod.snd)
/-- `Copies` element by element. -/
def copiesL : List CxxVal → List Obj → Prop
  | [], ys => ys = []
  | x :: xs, ys => ∃ y ys', ys = y :: ys' ∧ Obj.Copies x y ∧ copiesL xs ys'
/-- `Copies` entry by entry. -/
def copiesE : List (Bytes × CxxVal) → List Obj → Prop
  | [], ys => ys = []
  | (_, x) :: es, ys => ∃ y ys', ys = y :: ys' ∧ Obj.Copies x y ∧ copiesE es ys'
end

mutual
theorem adaptor_copies : ∀ (v : CxxVal) {o : Obj}, adaptor v = .ok o → Obj.Copies v o
  | .leaf l, o, ho => by
    simp only [adaptor, Except.ok.injEq] at ho
    subst ho
    cases l <;> exact ⟨_, _, rfl⟩
  | .vec xs, o, ho => by
    simp only [adaptor] at ho
    obtain ⟨a, ha, ho⟩ := bind_ok ho
    cases ho
    obtain ⟨new, h1, h2, h3⟩ := adaptorItems_copies xs ha
    exact ⟨_, _, by unfold ArrayS.toObj; rw [h1], by rw [h2]; simpa using h3⟩
  | .map view es, o, ho => by
    simp only [adaptor] at ho
    obtain ⟨a, ha, ho⟩ := bind_ok ho
    cases ho
    obtain ⟨new, h0, h1, h2, h3⟩ := adaptorEntries_copies es ha
    exact ⟨_, _, by unfold MapS.toObj; rw [h0, h1], by rw [h2]; simpa using h3⟩
theorem adaptorItems_copies : ∀ (xs : List CxxVal) {a a' : ArrayS}, adaptorItems xs a = .ok a' →
    ∃ new, a'.pool = a.pool ∧ a'.items = new.reverse ++ a.items ∧ copiesL xs new
  | [], a, a', h => by
    simp only [adaptorItems, Except.ok.injEq] at h
    subst h
    exact ⟨[], rfl, by simp, rfl⟩
  | x :: xs, a, a', h => by
    simp only [adaptorItems] at h
    obtain ⟨v, hv, h⟩ := bind_ok h
    obtain ⟨b, hb, h⟩ := bind_ok h
    obtain ⟨new, h1, h2, h3⟩ := adaptorItems_copies xs h
    unfold ArrayS.insert at hb
    split at hb
    · cases hb
    · cases hb
      exact ⟨v :: new, h1, by simpa using h2, v, new, rfl, adaptor_copies x hv, h3⟩
theorem adaptorEntries_copies : ∀ (xs : List (Bytes × CxxVal)) {a a' : MapS}, adaptorEntries xs a = .ok a' →
    ∃ new : List (Str × Obj), a'.ref = a.ref ∧ a'.pool = a.pool ∧ a'.items = new.reverse ++ a.items ∧ copiesE xs (new.map Prod.snd)
  | [], a, a', h => by
    simp only [adaptorEntries, Except.ok.injEq] at h
    subst h
    exact ⟨[], rfl, rfl, by simp, rfl⟩
  | (k, x) :: xs, a, a', h => by
    simp only [adaptorEntries] at h
    obtain ⟨v, hv, h⟩ := bind_ok h
    obtain ⟨b, hb, h⟩ := bind_ok h
    obtain ⟨new, h0, h1, h2, h3⟩ := adaptorEntries_copies xs h
    unfold MapS.insert at hb
    split at hb
    · cases hb
    · cases hb
      exact ⟨(_, v) :: new, h0, h1, by simpa using h2, v, new.map Prod.snd, rfl, adaptor_copies x hv, h3⟩
end

/-- C46: what the conversion makes is a copy: it can be changed or destroyed, and so can the container, without an effect on the other -
except that the keys of a table with `std::string_view` keys are still those of the caller. -/
theorem C46_copies (v : CxxVal) (hv : v.Proper) : ∃ o, adaptor v = .ok o ∧ Obj.Copies v o := by
  obtain ⟨o, h1, _⟩ := adaptor_doc v hv
  exact ⟨o, h1, adaptor_copies v h1⟩

mutual
/-- A value of a type. -/
def CxxVal.HasTy : CxxVal → Ty → Prop
  | .leaf (.bytes _), t => t = .vector .char
  | .leaf (.string _), t => t = .string
  | .leaf (.i32 _), t => t = .i32
  | .leaf (.u32 _), t => t = .u32
  | .leaf (.i64 _), t => t = .i64
  | .leaf (.u64 _), t => t = .u64
  | .leaf (.f32 _), t => t = .f32
  | .leaf (.f64 _), t => t = .f64
  | .vec xs, t => ∃ e, t = .vector e ∧ e ≠ .char ∧ hasTyL xs e
  | .map false es, t => ∃ e, t = .mapS e ∧ hasTyE es e
  | .map true es, t => ∃ e, t = .mapV e ∧ hasTyE es e
/-- `HasTy` of every element. -/
def hasTyL : List CxxVal → Ty → Prop
  | [], _ => True
  | x :: xs, e => x.HasTy e ∧ hasTyL xs e
/-- `HasTy` of every value. -/
def hasTyE : List (Bytes × CxxVal) → Ty → Prop
  | [], _ => True
  | (_, x) :: es, e => x.HasTy e ∧ hasTyE es e
end

/-! ### C47 -/

/-- `Nest l t n`: `t` is `l` inside `n` containers, each a vector or a string-keyed hash table. -/
inductive Nest (l : Ty) : Ty → Nat → Prop
  | here : Nest l l 0
  | vector {t : Ty} {n : Nat} : Nest l t n → Nest l (.vector t) (n + 1)
  | mapS {t : Ty} {n : Nat} : Nest l t n → Nest l (.mapS t) (n + 1)
  | mapV {t : Ty} {n : Nat} : Nest l t n → Nest l (.mapV t) (n + 1)

/-- The supported scalar types other than byte arrays and user-defined types. -/
def plainScalars : List Ty := [.i32, .u32, .i64, .u64, .f32, .f64, .string]

/-- A byte array. -/
abbrev bytesTy : Ty := .vector .char

/-- The type inside all containers. -/
def Ty.inner : Ty → Ty
  | .vector t => t.inner
  | .mapS t => t.inner
  | .mapV t => t.inner
  | t => t

theorem adaptorTrait_eq (t : Ty) : t.adaptorTrait = if t.isContainer then some t.inner else none := by
  induction t with
  | vector t ih => simp only [Ty.adaptorTrait, Ty.isContainer, if_true, Ty.inner]; rw [ih]; cases t <;> simp [Ty.isContainer, Ty.inner]
  | mapS t ih => simp only [Ty.adaptorTrait, Ty.isContainer, if_true, Ty.inner]; rw [ih]; cases t <;> simp [Ty.isContainer, Ty.inner]
  | mapV t ih => simp only [Ty.adaptorTrait, Ty.isContainer, if_true, Ty.inner]; rw [ih]; cases t <;> simp [Ty.isContainer, Ty.inner]
  | _ => rfl

theorem nest_inner {l t : Ty} {n : Nat} (h : Nest l t n) : t.inner = l.inner := by
  induction h with
  | here => rfl
  | vector _ ih => simpa [Ty.inner] using ih
  | mapS _ ih => simpa [Ty.inner] using ih
  | mapV _ ih => simpa [Ty.inner] using ih

theorem nest_of_inner (t : Ty) : ∃ n, Nest t.inner t n := by
  induction t with
  | vector t ih => obtain ⟨n, h⟩ := ih; exact ⟨n + 1, .vector h⟩
  | mapS t ih => obtain ⟨n, h⟩ := ih; exact ⟨n + 1, .mapS h⟩
  | mapV t ih => obtain ⟨n, h⟩ := ih; exact ⟨n + 1, .mapV h⟩
  | _ => exact ⟨0, .here⟩

theorem inner_not_container (t : Ty) : t.inner.isContainer = false := by
  induction t with
  | vector t ih => simpa [Ty.inner] using ih
  | mapS t ih => simpa [Ty.inner] using ih
  | mapV t ih => simpa [Ty.inner] using ih
  | _ => rfl

theorem element_iff (t : Ty) : t.element = true ↔ t = bytesTy ∨ t.inner.bridgeType = true := by
  unfold Ty.element Ty.adaptorType
  rw [adaptorTrait_eq]
  cases t <;> simp [Ty.isContainer, Ty.inner, Ty.bridgeType, Ty.isCustom, Ty.builtIn, Ty.integral, Ty.floating, Ty.isString, Ty.binary, or_comm]

/-- A call compiles exactly if the type is a plain scalar, a byte array, or a container whose elements satisfy the constraint and
compile. -/
theorem compiles_vector (e : Ty) : (Ty.vector e).compiles = true ↔ e = .char ∨ (e.element = true ∧ e.compiles = true) := by
  by_cases he : e = .char
  · subst he; simp; decide
  · have hb : (Ty.vector e).bridgeType = false := by
      simp [Ty.bridgeType, Ty.isCustom, Ty.builtIn, Ty.integral, Ty.floating, Ty.isString, Ty.binary, he]
    rw [Ty.compiles]
    simp only [Ty.pick, Ty.viable, hb, Bool.false_eq_true, if_false, List.nil_append, he, false_or]
    cases e.element <;> simp

theorem compiles_mapS (e : Ty) : (Ty.mapS e).compiles = true ↔ e.element = true ∧ e.compiles = true := by
  have hb : (Ty.mapS e).bridgeType = false := by
    simp [Ty.bridgeType, Ty.isCustom, Ty.builtIn, Ty.integral, Ty.floating, Ty.isString, Ty.binary]
  rw [Ty.compiles]
  simp only [Ty.pick, Ty.viable, hb, Bool.false_eq_true, if_false, List.nil_append]
  cases e.element <;> simp

theorem compiles_mapV (e : Ty) : (Ty.mapV e).compiles = true ↔ e.element = true ∧ e.compiles = true := by
  have hb : (Ty.mapV e).bridgeType = false := by
    simp [Ty.bridgeType, Ty.isCustom, Ty.builtIn, Ty.integral, Ty.floating, Ty.isString, Ty.binary]
  rw [Ty.compiles]
  simp only [Ty.pick, Ty.viable, hb, Bool.false_eq_true, if_false, List.nil_append]
  cases e.element <;> simp

theorem plain_bridge {t : Ty} (h : t.inner ∈ plainScalars) : t.inner.bridgeType = true := by
  have : ∀ l ∈ plainScalars, l.bridgeType = true := by decide
  exact this _ h

/-- The element type of a container that compiles is a byte array or has a plain scalar inside. -/
theorem element_compiles (e : Ty) (ih : e.compiles = true ↔ e.inner ∈ plainScalars ∨ ∃ n, n ≤ 1 ∧ Nest bytesTy e n) :
    (e.element = true ∧ e.compiles = true) ↔ (e.inner ∈ plainScalars ∨ e = bytesTy) := by
  rw [element_iff, ih]
  constructor
  · rintro ⟨h1 | h1, h2⟩
    · exact .inr h1
    · rcases h2 with h2 | ⟨n, _, h2⟩
      · exact .inl h2
      · have := nest_inner h2
        rw [this] at h1
        exact absurd h1 (by decide)
  · rintro (h | h)
    · exact ⟨.inr (plain_bridge h), .inl h⟩
    · subst h; exact ⟨.inl rfl, .inr ⟨0, by omega, .here⟩⟩

theorem compiles_iff (t : Ty) : t.compiles = true ↔ t.inner ∈ plainScalars ∨ ∃ n, n ≤ 1 ∧ Nest bytesTy t n := by
  have step : ∀ (e t : Ty), t.inner = e.inner → (∀ n, Nest bytesTy e n → Nest bytesTy t (n + 1)) →
      (∀ n, Nest bytesTy t (n + 1) → t ≠ bytesTy → Nest bytesTy e n) → t ≠ bytesTy →
      ((e.inner ∈ plainScalars ∨ e = bytesTy) ↔ (t.inner ∈ plainScalars ∨ ∃ n, n ≤ 1 ∧ Nest bytesTy t n)) := by
    intro e t h1 h2 h3 h4
    rw [h1]
    constructor
    · rintro (h | rfl)
      · exact .inl h
      · exact .inr ⟨1, by omega, h2 0 .here⟩
    · rintro (h | ⟨n, hn, h⟩)
      · exact .inl h
      · cases n with
        | zero =>
          have : t = bytesTy := by cases h; rfl
          exact absurd this h4
        | succ n =>
          have hn0 : n = 0 := by omega
          subst hn0
          have := h3 0 h h4
          refine .inr ?_
          cases this; rfl
  induction t with
  | vector e ih =>
    rw [compiles_vector, element_compiles e ih]
    by_cases he : e = .char
    · subst he
      simp only [true_or, true_iff]
      exact .inr ⟨0, by omega, .here⟩
    · simp only [he, false_or]
      exact step e (.vector e) rfl (fun n h => .vector h) (fun n h hne => by cases h; assumption)
        (by intro h; cases h; exact he rfl)
  | mapS e ih =>
    rw [compiles_mapS, element_compiles e ih]
    exact step e (.mapS e) rfl (fun n h => .mapS h) (fun n h hne => by cases h; assumption) (by intro h; cases h)
  | mapV e ih =>
    rw [compiles_mapV, element_compiles e ih]
    exact step e (.mapV e) rfl (fun n h => .mapV h) (fun n h hne => by cases h; assumption) (by intro h; cases h)
  | custom =>
    refine ⟨fun h => absurd h (by decide), ?_⟩
    rintro (h | ⟨n, _, h⟩)
    · exact absurd h (by decide)
    · cases h
  | charArray k =>
    refine ⟨fun h => ?_, ?_⟩
    · simp [Ty.compiles, Ty.pick, Ty.viable, Ty.bridgeType, Ty.isCustom, Ty.builtIn, Ty.integral, Ty.floating, Ty.isString, Ty.binary] at h
    · rintro (h | ⟨n, _, h⟩)
      · simp [Ty.inner, plainScalars] at h
      · cases h
  | char | other | strView =>
    refine ⟨fun h => absurd h (by decide), ?_⟩
    rintro (h | ⟨n, _, h⟩)
    · exact absurd h (by decide)
    · cases h
  | i32 | u32 | i64 | u64 | f32 | f64 | string => exact ⟨fun _ => .inl (by decide), fun _ => by decide⟩

/-- C47: exactly the types for which `adaptor(x, bp)` compiles: a plain scalar inside any number of containers, and a byte array on its
own or inside one container. -/
theorem C47_accepted_types (t : Ty) :
    t.compiles = true ↔ (∃ l n, l ∈ plainScalars ∧ Nest l t n) ∨ ∃ n, n ≤ 1 ∧ Nest bytesTy t n := by
  rw [compiles_iff]
  constructor
  · rintro (h | h)
    · obtain ⟨n, hn⟩ := nest_of_inner t
      exact .inl ⟨_, n, h, hn⟩
    · exact .inr h
  · rintro (⟨l, n, hl, hn⟩ | h)
    · left
      have h1 := nest_inner hn
      have h2 : ∀ l ∈ plainScalars, l.inner = l := by decide
      rw [h1, h2 l hl]; exact hl
    · exact .inr h

/-- C47: what a user expects is false for byte arrays inside two or more containers: no overload is viable. -/
theorem C47_nested_bytes_rejected (t : Ty) (n : Nat) (h : Nest bytesTy t n) (hn : 2 ≤ n) : t.pick = none ∧ t.compiles = false := by
  have hi : t.inner = .char := nest_inner h
  have key : ∀ e : Ty, e.inner = .char → (∃ m, Nest bytesTy e (m + 1)) → e.element = false := by
    intro e he ⟨m, hm⟩
    cases hx : e.element with
    | false => rfl
    | true =>
      rcases (element_iff e).mp hx with h | h
      · subst h; cases hm with
        | vector hm => cases hm
      · rw [he] at h; exact absurd h (by decide)
  obtain ⟨m, rfl⟩ : ∃ m, n = m + 2 := ⟨n - 2, by omega⟩
  have hb : t.bridgeType = false := by
    cases h <;> (rename_i e he; cases he <;>
      simp [Ty.bridgeType, Ty.isCustom, Ty.builtIn, Ty.integral, Ty.floating, Ty.isString, Ty.binary])
  have hp : t.pick = none := by
    cases h with
    | vector he => simp [Ty.pick, Ty.viable, hb, key _ (nest_inner he) ⟨m, he⟩]
    | mapS he => simp [Ty.pick, Ty.viable, hb, key _ (nest_inner he) ⟨m, he⟩]
    | mapV he => simp [Ty.pick, Ty.viable, hb, key _ (nest_inner he) ⟨m, he⟩]
  refine ⟨hp, ?_⟩
  cases hc : t.compiles with
  | false => rfl
  | true =>
    rcases (compiles_iff t).mp hc with h' | ⟨k, hk, h'⟩
    · rw [hi] at h'; exact absurd h' (by decide)
    · have len : ∀ {l t : Ty} {a b : Nat}, l = bytesTy → Nest l t a → Nest l t b → a = b := by
        intro l t a b hl ha
        subst hl
        induction ha generalizing b with
        | here => intro hb; cases hb with
          | here => rfl
          | vector hb => cases hb
        | vector ha ih => intro hb; cases hb with
          | here => cases ha
          | vector hb => rw [ih hb]
        | mapS ha ih => intro hb; cases hb with
          | mapS hb => rw [ih hb]
        | mapV ha ih => intro hb; cases hb with
          | mapV hb => rw [ih hb]
      have := len rfl h h'
      omega

/-- C47: also false for user-defined types: at every depth an overload is selected, since the constraints accept them, and then its body
does not compile. -/
theorem C47_custom_selected_but_does_not_compile (t : Ty) (n : Nat) (h : Nest .custom t n) :
    t.pick.isSome = true ∧ t.compiles = false := by
  have hi : t.inner = .custom := nest_inner h
  constructor
  · have el : ∀ {e : Ty}, e.inner = .custom → e.element = true := fun he => (element_iff _).mpr (.inr (by rw [he]; rfl))
    cases h with
    | here => rfl
    | vector he =>
      simp only [Ty.pick, Ty.viable, el (nest_inner he), if_true]
      rw [List.getLast?_append]; simp
    | mapS he =>
      simp only [Ty.pick, Ty.viable, el (nest_inner he), if_true]
      rw [List.getLast?_append]; simp
    | mapV he =>
      simp only [Ty.pick, Ty.viable, el (nest_inner he), if_true]
      rw [List.getLast?_append]; simp
  · cases hc : t.compiles with
    | false => rfl
    | true =>
      rcases (compiles_iff t).mp hc with h' | ⟨k, hk, h'⟩
      · rw [hi] at h'; exact absurd h' (by decide)
      · have := nest_inner h'; rw [hi] at this; cases this

/-- C47: for a type that compiles, the overload selected is the one for the value: scalars (including byte arrays) go to the scalar
overload, vectors and hash tables to theirs, and their element types compile too.  So the conversion is `adaptor` of C46. -/
theorem C47_overload_fits_value (v : CxxVal) (t : Ty) (hv : v.HasTy t) (hc : t.compiles = true) :
    match (generalizing := false) v with
    | .leaf _ => t.pick = some .scalar
    | .vec _ => ∃ e, t = .vector e ∧ t.pick = some .vector ∧ e.compiles = true
    | .map false _ => ∃ e, t = .mapS e ∧ t.pick = some .mapS ∧ e.compiles = true
    | .map true _ => ∃ e, t = .mapV e ∧ t.pick = some .mapV ∧ e.compiles = true := by
  cases v with
  | leaf l => cases l <;> simp only [CxxVal.HasTy] at hv <;> subst hv <;> (change Ty.pick _ = _; decide)
  | vec xs =>
    obtain ⟨e, rfl, hne, _⟩ := hv
    rcases (compiles_vector e).mp hc with h | ⟨h1, h2⟩
    · exact absurd h hne
    · refine ⟨e, rfl, ?_, h2⟩
      simp [Ty.pick, Ty.viable, h1]
  | map view es =>
    cases view with
    | false =>
      obtain ⟨e, rfl, _⟩ := hv
      obtain ⟨h1, h2⟩ := (compiles_mapS e).mp hc
      exact ⟨e, rfl, by simp [Ty.pick, Ty.viable, h1], h2⟩
    | true =>
      obtain ⟨e, rfl, _⟩ := hv
      obtain ⟨h1, h2⟩ := (compiles_mapV e).mp hc
      exact ⟨e, rfl, by simp [Ty.pick, Ty.viable, h1], h2⟩

example : (Ty.vector (.vector .char)).compiles = true ∧ (Ty.vector (.vector (.vector .char))).compiles = false ∧
    (Ty.mapS (.mapV (.vector .f64))).compiles = true ∧ (Ty.vector .strView).compiles = false ∧
    (Ty.vector .custom).pick = some .vector ∧ (Ty.vector .custom).compiles = false := by decide

/-- `{"a": [1, 2], "b": []}` as an `unordered_map<string, vector<int32_t>>`. -/
def sampleCxx : CxxVal := .map false [([97], .vec [.leaf (.i32 1), .leaf (.i32 2)]), ([98], .vec [])]

example : sampleCxx.Proper ∧ sampleCxx.HasTy (.mapS (.vector .i32)) ∧ (Ty.mapS (.vector .i32)).compiles = true := by
  refine ⟨?_, ?_, by decide⟩
  · simp [sampleCxx, CxxVal.Proper, properE, properL]
  · refine ⟨_, rfl, ⟨_, rfl, by decide, rfl, rfl, trivial⟩, ⟨_, rfl, by decide, trivial⟩, trivial⟩

example : ∃ o, adaptor sampleCxx = .ok o ∧ Obj.Copies sampleCxx o :=
  C46_copies _ (by simp [sampleCxx, CxxVal.Proper, properE, properL])

/-- A table that owned nothing would not be a copy. -/
example : ¬ Obj.Copies (.map false []) (.map true .caller 0 []) := by rintro ⟨_, _, h, _⟩; cases h

end Bridge
