import Verif.Props.Paths
/-
C60: from the calls that build a tree to the values read after a round trip.
-/
set_option autoImplicit false
namespace Bridge
open Spec

/-- A program that builds a tree: a leaf made by `data` / `data_view` from a value, an array (a map) filled by `Insert` with
the given children (key-value pairs), first to last. -/
inductive Script
  | leaf (view : Bool) (s : Scalar)
  | array (xs : List Script)
  | map (view : Bool) (es : List (Bytes × Script))

/-- Follow one step of an access path in the program: an index counts the inserts of an array from the first one, a key selects
the last pair inserted under it. -/
def Script.step : Script → Step → Option Script
  | .array xs, .index n => xs[n]?
  | .map _ es, .key k => (es.reverse.find? fun e => e.1 = k).map Prod.snd
  | _, _ => none

/-- Follow a path. -/
def Script.at : Script → List Step → Option Script
  | p, [] => some p
  | p, s :: rest => (p.step s).bind fun q => q.at rest

/-- What the wrapper `o` should show for a part of the program, or for a path that leads nowhere. -/
def Obj.Presents (o : Obj) : Option Script → Prop
  | none => o.wEmpty = true
  | some (.leaf _ s) => o.wType = some .data ∧ ∀ t v, o.read t = .ok (some v) ↔ (t, v) = scalarVal s
  | some (.array xs) => o.wType = some .array ∧ o.wSize = some xs.length
  | some (.map _ es) => o.wType = some .map ∧ o.wSize = some es.length

mutual
/-- Run the program with the calls of the model (object.h:515-525 `Array::Insert`, 693-704 and 943-954 `Insert` of maps). -/
def Script.run (w : Cfg) : Script → Res Obj
  | .leaf view s => makeLeaf w view s
  | .array xs => do
    let a ← runItems w xs {}
    pure a.toObj
  | .map view es => do
    let m ← runEntries w es { ref := view }
    pure m.toObj
/-- The inserts into an array. -/
def runItems (w : Cfg) : List Script → ArrayS → Res ArrayS
  | [], a => .ok a
  | x :: xs, a => do
    let o ← x.run w
    let a ← a.insert o
    runItems w xs a
/-- The inserts into a map. -/
def runEntries (w : Cfg) : List (Bytes × Script) → MapS → Res MapS
  | [], m => .ok m
  | (k, x) :: es, m => do
    let o ← x.run w
    let m ← m.insert ⟨k, none⟩ o
    runEntries w es m
end

mutual
/-- What a program must satisfy: no value of a user-defined type in a `DataView` (it does not compile), fewer than 2^64 inserts per
container, no key twice in a map. -/
def Script.Proper : Script → Prop
  | .leaf view s => view = true → ∀ b, s ≠ .custom b
  | .array xs => xs.length < 2 ^ 64 ∧ progsProper xs
  | .map _ es => es.length < 2 ^ 64 ∧ (es.map Prod.fst).Nodup ∧ pairsProper es
/-- `Proper` of every child. -/
def progsProper : List Script → Prop
  | [] => True
  | x :: xs => x.Proper ∧ progsProper xs
/-- `Proper` of every value. -/
def pairsProper : List (Bytes × Script) → Prop
  | [] => True
  | (_, x) :: es => x.Proper ∧ pairsProper es
end

/-- The value takes no bytes. -/
def _root_.Spec.Scalar.isEmpty : Scalar → Bool
  | .bytes b => b.isEmpty
  | .string b => b.isEmpty
  | .custom b => b.isEmpty
  | _ => false

mutual
/-- A condition on every leaf. -/
def Script.AllLeaves (P : Scalar → Prop) : Script → Prop
  | .leaf _ s => P s
  | .array xs => progsAll P xs
  | .map _ es => pairsAll P es
/-- The condition on the leaves of every child. -/
def progsAll (P : Scalar → Prop) : List Script → Prop
  | [] => True
  | x :: xs => x.AllLeaves P ∧ progsAll P xs
/-- The condition on the leaves of every value. -/
def pairsAll (P : Scalar → Prop) : List (Bytes × Script) → Prop
  | [] => True
  | (_, x) :: es => x.AllLeaves P ∧ pairsAll P es
end

/-! ### proofs -/

mutual
/-- The document a program builds. -/
def Script.doc : Script → Doc
  | .leaf _ s => .scalar s
  | .array xs => .array (progDocs xs [])
  | .map _ es => .map (pairDocs es [])
def progDocs : List Script → List Doc → List Doc
  | [], acc => acc
  | x :: xs, acc => progDocs xs (x.doc :: acc)
def pairDocs : List (Bytes × Script) → List (Bytes × Doc) → List (Bytes × Doc)
  | [], acc => acc
  | (k, x) :: es, acc => pairDocs es ((k, x.doc) :: acc)
end

theorem progDocs_eq (xs : List Script) (acc : List Doc) : progDocs xs acc = (xs.map Script.doc).reverse ++ acc := by
  induction xs generalizing acc with
  | nil => rfl
  | cons x xs ih => simp [progDocs, ih]

theorem pairDocs_eq (es : List (Bytes × Script)) (acc : List (Bytes × Doc)) :
    pairDocs es acc = (es.map fun e => (e.1, e.2.doc)).reverse ++ acc := by
  induction es generalizing acc with
  | nil => rfl
  | cons x xs ih => obtain ⟨k, x⟩ := x; simp [pairDocs, ih]

theorem makeLeaf_doc (w : Cfg) (view : Bool) (s : Scalar) (h : view = true → ∀ b, s ≠ .custom b)
    (hh : w.hardened = true → s.isEmpty = false) :
    ∃ o, makeLeaf w view s = .ok o ∧ o.doc? = some (.scalar s) ∧ o.Hard w := by
  cases view with
  | false =>
    cases s <;> refine ⟨_, rfl, by simp [Obj.doc?, scalarOf, BRIDGE_CUSTOM, BRIDGE_BYTES], ?_⟩ <;> simp only [Obj.Hard, leafHard] <;> intro hw <;>
      have := hh hw <;> simp_all [Scalar.isEmpty]
  | true =>
    cases s with
    | custom b => exact absurd rfl (h rfl b)
    | bytes b =>
      have hc : (w.hardened && b.isEmpty) = false := by
        cases hw : w.hardened with
        | false => rfl
        | true => simpa [Scalar.isEmpty] using hh hw
      refine ⟨.data true BRIDGE_BYTES (.view ⟨b, none⟩), ?_, by simp [Obj.doc?, scalarOf], ?_⟩
      · simp [makeLeaf, scalarVal, viewOfVal, hc, ok_bind, pure_eq_ok]
      · simp only [Obj.Hard, leafHard]; intro hw; have := hh hw; simp_all [Scalar.isEmpty]
    | string b =>
      refine ⟨.data true BRIDGE_STRING (.view ⟨b, none⟩), rfl, by simp [Obj.doc?, scalarOf, BRIDGE_BYTES, BRIDGE_STRING], ?_⟩
      simp only [Obj.Hard, leafHard]; intro hw; have := hh hw; simp_all [Scalar.isEmpty]
    | int32 v | uint32 v | int64 v | uint64 v | float v | double v =>
      refine ⟨_, rfl, by simp [Obj.doc?, scalarOf], ?_⟩
      simp only [Obj.Hard, leafHard]; intro hw; simp

mutual
theorem run_doc (w : Cfg) : ∀ (p : Script), p.Proper → (w.hardened = true → p.AllLeaves fun s => s.isEmpty = false) →
    ∃ o, p.run w = .ok o ∧ o.doc? = some p.doc ∧ o.Hard w
  | .leaf view s, h, hh => by
    simp only [Script.Proper] at h
    simp only [Script.AllLeaves] at hh
    simp only [Script.run, Script.doc]
    exact makeLeaf_doc w view s h hh
  | .array xs, h, hh => by
    simp only [Script.Proper] at h
    simp only [Script.AllLeaves] at hh
    obtain ⟨items, h1, h2, h3⟩ := runItems_doc w xs (size := 0) (items := []) (ds := []) h.2 hh (by simpa using h.1) rfl rfl trivial
    refine ⟨.array .caller items.length items, ?_, ?_, ?_⟩
    · simp only [Script.run]; rw [h1, ok_bind]; rfl
    · simp [Obj.doc?, h2, Script.doc]
    · simpa [Obj.Hard] using h3
  | .map view es, h, hh => by
    simp only [Script.Proper] at h
    simp only [Script.AllLeaves] at hh
    obtain ⟨items, h1, h2, h3⟩ := runEntries_doc w es (view := view) (size := 0) (items := []) (ds := []) h.2.2 hh
      (by simpa using h.1) rfl rfl trivial
    refine ⟨.map view .caller items.length items, ?_, ?_, ?_⟩
    · simp only [Script.run]; rw [h1, ok_bind]; rfl
    · simp [Obj.doc?, h2, Script.doc]
    · simpa [Obj.Hard] using h3
theorem runItems_doc (w : Cfg) : ∀ (xs : List Script) {size : Nat} {items : List Obj} {ds : List Doc}, progsProper xs →
    (w.hardened = true → progsAll (fun s => s.isEmpty = false) xs) →
    size + xs.length < 2 ^ 64 → size = items.length → docs? items = some ds → hardL w items →
    ∃ items', runItems w xs ⟨.caller, size, items⟩ = .ok ⟨.caller, items'.length, items'⟩ ∧ docs? items' = some (progDocs xs ds) ∧
      hardL w items'
  | [], size, items, ds, _, _, _, hs, hd, hi => ⟨items, by simp [runItems, hs], by simpa [progDocs] using hd, hi⟩
  | x :: xs, size, items, ds, hp, hh, hl, hs, hd, hi => by
    simp only [progsProper] at hp
    simp only [progsAll] at hh
    simp only [List.length_cons] at hl
    obtain ⟨o, h1, h2, h2'⟩ := run_doc w x hp.1 (fun e => (hh e).1)
    obtain ⟨items', h3, h4, h5⟩ := runItems_doc w xs (size := size + 1) (items := o :: items) (ds := x.doc :: ds) hp.2
      (fun e => (hh e).2) (by omega) (by simp [hs]) (by simp [docs?, h2, hd]) ⟨h2', hi⟩
    refine ⟨items', ?_, by simpa [progDocs] using h4, h5⟩
    have e : (ArrayS.mk .caller size items).insert o = .ok ⟨.caller, size + 1, o :: items⟩ := by
      have : addW size 1 = size + 1 := by unfold addW; omega
      simp [ArrayS.insert, this]
    simp only [runItems]
    rw [h1, ok_bind, e, ok_bind, h3]
theorem runEntries_doc (w : Cfg) : ∀ (es : List (Bytes × Script)) {view : Bool} {size : Nat} {items : List (Str × Obj)}
    {ds : List (Bytes × Doc)}, pairsProper es → (w.hardened = true → pairsAll (fun s => s.isEmpty = false) es) →
    size + es.length < 2 ^ 64 → size = items.length → entries? items = some ds → hardE w items →
    ∃ items', runEntries w es ⟨view, .caller, size, items⟩ = .ok ⟨view, .caller, items'.length, items'⟩ ∧
      entries? items' = some (pairDocs es ds) ∧ hardE w items'
  | [], view, size, items, ds, _, _, _, hs, hd, hi => ⟨items, by simp [runEntries, hs], by simpa [pairDocs] using hd, hi⟩
  | (k, x) :: es, view, size, items, ds, hp, hh, hl, hs, hd, hi => by
    simp only [pairsProper] at hp
    simp only [pairsAll] at hh
    simp only [List.length_cons] at hl
    obtain ⟨o, h1, h2, h2'⟩ := run_doc w x hp.1 (fun e => (hh e).1)
    obtain ⟨items', h3, h4, h5⟩ := runEntries_doc w es (view := view) (size := size + 1) (items := (⟨k, none⟩, o) :: items)
      (ds := (k, x.doc) :: ds) hp.2 (fun e => (hh e).2) (by omega) (by simp [hs]) (by simp [entries?, h2, hd]) ⟨h2', hi⟩
    refine ⟨items', ?_, by simpa [pairDocs] using h4, h5⟩
    have e : (MapS.mk view .caller size items).insert ⟨k, none⟩ o = .ok ⟨view, .caller, size + 1, (⟨k, none⟩, o) :: items⟩ := by
      have : addW size 1 = size + 1 := by unfold addW; omega
      cases view <;> simp [MapS.insert, this, storeKey]
    simp only [runEntries]
    rw [h1, ok_bind, e, ok_bind, h3]
end

mutual
theorem progDoc_distinct : ∀ (p : Script), p.Proper → p.doc.DistinctKeys
  | .leaf _ _, _ => by simp [Script.doc, Doc.DistinctKeys]
  | .array xs, h => by
    simp only [Script.doc, Doc.DistinctKeys]
    exact progDocs_distinct xs h.2 [] (by simp [distinctKeysL])
  | .map view es, h => by
    simp only [Script.doc, Doc.DistinctKeys]
    refine ⟨?_, pairDocs_distinct es h.2.2 [] (by simp [distinctKeysE])⟩
    rw [pairDocs_eq, List.append_nil, List.map_reverse, List.map_map]
    have : (Prod.fst ∘ fun e : Bytes × Script => (e.1, e.2.doc)) = Prod.fst := rfl
    rw [this, (List.reverse_perm _).nodup_iff]
    exact h.2.1
theorem progDocs_distinct : ∀ (xs : List Script), progsProper xs → ∀ acc, distinctKeysL acc → distinctKeysL (progDocs xs acc)
  | [], _, acc, ha => by simpa [progDocs] using ha
  | x :: xs, h, acc, ha => by
    simp only [progDocs]
    exact progDocs_distinct xs h.2 _ ⟨progDoc_distinct x h.1, ha⟩
theorem pairDocs_distinct : ∀ (xs : List (Bytes × Script)), pairsProper xs → ∀ acc, distinctKeysE acc → distinctKeysE (pairDocs xs acc)
  | [], _, acc, ha => by simpa [pairDocs] using ha
  | (k, x) :: xs, h, acc, ha => by
    simp only [pairDocs]
    exact pairDocs_distinct xs h.2 _ ⟨progDoc_distinct x h.1, ha⟩
end

mutual
theorem progDoc_noCustom : ∀ (p : Script), p.AllLeaves (fun s => ∀ b, s ≠ .custom b) → p.doc.noCustom = true
  | .leaf _ s, h => by
    simp only [Script.AllLeaves] at h
    simp only [Script.doc]
    cases s <;> first | rfl | exact absurd rfl (h _)
  | .array xs, h => by simp only [Script.doc, Doc.noCustom]; exact progDocs_noCustom xs h [] rfl
  | .map view es, h => by simp only [Script.doc, Doc.noCustom]; exact pairDocs_noCustom es h [] rfl
theorem progDocs_noCustom : ∀ (xs : List Script), progsAll (fun s => ∀ b, s ≠ .custom b) xs → ∀ acc, noCustomL acc = true →
    noCustomL (progDocs xs acc) = true
  | [], _, acc, ha => by simpa [progDocs] using ha
  | x :: xs, h, acc, ha => by
    simp only [progDocs]
    exact progDocs_noCustom xs h.2 _ (by simp [noCustomL, progDoc_noCustom x h.1, ha])
theorem pairDocs_noCustom : ∀ (xs : List (Bytes × Script)), pairsAll (fun s => ∀ b, s ≠ .custom b) xs → ∀ acc, noCustomE acc = true →
    noCustomE (pairDocs xs acc) = true
  | [], _, acc, ha => by simpa [pairDocs] using ha
  | (k, x) :: xs, h, acc, ha => by
    simp only [pairDocs]
    exact pairDocs_noCustom xs h.2 _ (by simp [noCustomE, progDoc_noCustom x h.1, ha])
end

theorem firstEntry_find (k : Bytes) (l : List (Bytes × Script)) :
    firstEntry k (l.map fun e => (e.1, e.2.doc)) = ((l.find? fun e => e.1 = k).map Prod.snd).map Script.doc := by
  induction l with
  | nil => rfl
  | cons e l ih =>
    simp only [List.map_cons, firstEntry, List.find?_cons]
    by_cases h : e.1 = k
    · simp [h]
    · simp [h, ih]

theorem step_doc (p : Script) (s : Step) : p.doc.step s = (p.step s).map Script.doc := by
  cases p with
  | leaf v x => cases s <;> rfl
  | array xs =>
    cases s with
    | key k => rfl
    | index n => simp [Script.doc, Doc.step, Script.step, progDocs_eq]
  | map v es =>
    cases s with
    | index n => rfl
    | key k => simp only [Script.doc, Doc.step, Script.step, pairDocs_eq, List.append_nil, ← List.map_reverse, firstEntry_find]

theorem at_doc (path : List Step) : ∀ (p : Script), p.doc.at path = (p.at path).map Script.doc := by
  induction path with
  | nil => intro p; rfl
  | cons s path ih =>
    intro p
    rw [Doc.at, Script.at, step_doc]
    cases p.step s with
    | none => rfl
    | some q => exact ih q

theorem presents_of_doc {o : Obj} {p : Script} (h : o.doc? = some p.doc) (path : List Step) :
    (o.wPath path).Presents (p.at path) := by
  have hat := at_doc path p
  rcases wPath_doc h path with ⟨h1, h2⟩ | ⟨d, h1, h2⟩
  · rw [h1] at hat
    cases hq : p.at path with
    | some q => rw [hq] at hat; cases hat
    | none => simp [Obj.Presents, h2, Obj.wEmpty]
  · rw [h1] at hat
    cases hq : p.at path with
    | none => rw [hq] at hat; cases hat
    | some q =>
      rw [hq] at hat
      simp only [Option.map_some, Option.some.injEq] at hat
      subst hat
      have ht := wType_doc h2
      have hz := wSize_doc h2
      cases q with
      | leaf v s =>
        refine ⟨ht, fun t v => ?_⟩
        rw [read_doc h2]
        constructor
        · rintro ⟨s', e1, e2⟩; simp only [Script.doc, Doc.scalar.injEq] at e1; subst e1; exact e2.symm
        · intro e; exact ⟨s, rfl, e.symm⟩
      | array xs => exact ⟨ht, by rw [hz]; simp [Script.doc, docSize, progDocs_eq]⟩
      | map v es => exact ⟨ht, by rw [hz]; simp [Script.doc, docSize, pairDocs_eq]⟩

theorem Presents.of_same {a b : Obj} (h : SameView a b) {q : Option Script} (ha : a.Presents q) : b.Presents q := by
  obtain ⟨h1, h2, h3, h4⟩ := h
  cases q with
  | none => simpa [Obj.Presents, h1] using ha
  | some q =>
    cases q with
    | leaf v s => exact ⟨by rw [← h2]; exact ha.1, fun t v => by rw [← h4]; exact ha.2 t v⟩
    | array xs => exact ⟨by rw [← h2]; exact ha.1, by rw [← h3]; exact ha.2⟩
    | map v es => exact ⟨by rw [← h2]; exact ha.1, by rw [← h3]; exact ha.2⟩

/-- C60. Run any program that builds a tree; the tree shows, at every access path, what the program put there.  `Serialize` in
either encoding succeeds, and `Parse` of the bytes with any option (either scheduler, owning or in situ, any positive number of
workers) returns a tree that shows the same at every path.  (In situ needs a program without user-defined types, a build with
bounds assertions one without empty values.) -/
theorem C60_end_to_end (w r : Cfg) (hw : w.charSigned = true) (t : SeriType) (p : Script) (hp : p.Proper)
    (hh : w.hardened = true → p.AllLeaves fun s => s.isEmpty = false) (co ref : Bool)
    (hc : ref = true → p.AllLeaves fun s => ∀ b, s ≠ .custom b) (k : Nat) (hk : 0 < k) :
    ∃ o content, p.run w = .ok o ∧ (∀ path, (o.wPath path).Presents (p.at path)) ∧ serialize w t o = .ok content ∧
      (Fits r content → ∃ o', Parses r ⟨co, ref, k⟩ content (.ok o') ∧ ∀ path, (o'.wPath path).Presents (p.at path)) := by
  obtain ⟨o, h1, h2, h3⟩ := run_doc w p hp hh
  obtain ⟨content, h4, h5⟩ := C15_paths_preserved w r hw t o p.doc h2 h3 (progDoc_distinct p hp) ref
    (fun e => progDoc_noCustom p (hc e)) co k hk
  refine ⟨o, content, h1, fun path => presents_of_doc h2 path, h4, fun hf => ?_⟩
  obtain ⟨o', h6, h7⟩ := h5 hf
  exact ⟨o', h6, fun path => Presents.of_same (h7 path) (presents_of_doc h2 path)⟩

/-- `{"a": [7, "hi"], "b": 2.0}`, with a view leaf. -/
def sampleScript : Script :=
  .map false [([97], .array [.leaf false (.int32 7), .leaf true (.string [104, 105])]), ([98], .leaf false (.double 0x4000000000000000))]

example : sampleScript.Proper ∧ sampleScript.AllLeaves (fun s => s.isEmpty = false) ∧
    sampleScript.AllLeaves (fun s => ∀ b, s ≠ .custom b) ∧
    sampleScript.at [.key [97], .index 1] = some (.leaf true (.string [104, 105])) ∧ sampleScript.at [.key [99]] = none := by
  refine ⟨?_, ?_, ?_, rfl, rfl⟩ <;>
    simp [sampleScript, Script.Proper, progsProper, pairsProper, Script.AllLeaves, progsAll, pairsAll, Scalar.isEmpty]

end Bridge
