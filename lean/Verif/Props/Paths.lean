import Verif.Props.RoundTrip
/-
C15 – C17: access paths, duplicate keys, repeated round trips.
-/
set_option autoImplicit false
namespace Bridge
open Spec

/-! ### C15 -/

/-- Read a scalar with the accessor that fits the kind of value: `Get<T>` for an owning value, `GetView<T>` for an in-situ
one (a `string_view` result is given as the string or byte array it shows). -/
def Obj.read (t : CType) (o : Obj) : Res (Option CVal) :=
  match o with
  | .data true _ _ =>
    match o.wGetView t with
    | none => .ok none
    | some (.ok (some (.strView b))) => .ok (some (if t = .bytes then .bytes b else .string b))
    | some x => x
  | _ => o.wGet t

theorem read_scalar {ref : Bool} {dt : UInt8} {p : Payload} {s : Scalar} (h : scalarOf ref dt p = some s) (t : CType)
    (v : CVal) : (Obj.data ref dt p).read t = .ok (some v) ↔ scalarVal s = (t, v) := by
  cases p with
  | none => simp [scalarOf] at h
  | vec b =>
    cases ref with
    | true => simp [scalarOf] at h
    | false =>
      simp only [scalarOf, Bool.false_eq_true, if_false] at h
      by_cases h1 : dt = BRIDGE_BYTES
      · rw [if_pos h1] at h; simp only [Option.some.injEq] at h; subst h h1
        cases t <;> simp [Obj.read, Obj.wGet, dataGet, CType.dt, payloadGet, scalarVal, BRIDGE_BYTES, BRIDGE_STRING, BRIDGE_INT32,
          BRIDGE_UINT32, BRIDGE_INT64, BRIDGE_UINT64, BRIDGE_FLOAT, BRIDGE_DOUBLE, BRIDGE_CUSTOM, ok_bind, pure_eq_ok]
      · rw [if_neg h1] at h
        by_cases h2 : dt = BRIDGE_CUSTOM
        · rw [if_pos h2] at h; simp only [Option.some.injEq] at h; subst h h2
          cases t <;> simp [Obj.read, Obj.wGet, dataGet, CType.dt, payloadGet, scalarVal, BRIDGE_BYTES, BRIDGE_STRING, BRIDGE_INT32,
            BRIDGE_UINT32, BRIDGE_INT64, BRIDGE_UINT64, BRIDGE_FLOAT, BRIDGE_DOUBLE, BRIDGE_CUSTOM, ok_bind, pure_eq_ok]
        · rw [if_neg h2] at h; simp at h
  | str b =>
    cases ref with
    | true => simp [scalarOf] at h
    | false =>
      by_cases h1 : dt = BRIDGE_STRING
      · simp [scalarOf, h1] at h; subst h h1
        cases t <;> simp [Obj.read, Obj.wGet, dataGet, CType.dt, payloadGet, scalarVal, BRIDGE_BYTES, BRIDGE_STRING, BRIDGE_INT32,
          BRIDGE_UINT32, BRIDGE_INT64, BRIDGE_UINT64, BRIDGE_FLOAT, BRIDGE_DOUBLE, BRIDGE_CUSTOM, ok_bind, pure_eq_ok]
      · simp [scalarOf, h1] at h
  | view b =>
    cases ref with
    | false => simp [scalarOf] at h
    | true =>
      simp only [scalarOf, Bool.not_true, Bool.false_eq_true, if_false] at h
      by_cases h1 : dt = BRIDGE_BYTES
      · rw [if_pos h1] at h; simp only [Option.some.injEq] at h; subst h h1
        cases t <;> simp [Obj.read, Obj.wGetView, viewGet, CType.dt, payloadGet, scalarVal, BRIDGE_BYTES, BRIDGE_STRING, BRIDGE_INT32,
          BRIDGE_UINT32, BRIDGE_INT64, BRIDGE_UINT64, BRIDGE_FLOAT, BRIDGE_DOUBLE, BRIDGE_CUSTOM, ok_bind, pure_eq_ok]
      · rw [if_neg h1] at h
        by_cases h2 : dt = BRIDGE_STRING
        · rw [if_pos h2] at h; simp only [Option.some.injEq] at h; subst h h2
          cases t <;> simp [Obj.read, Obj.wGetView, viewGet, CType.dt, payloadGet, scalarVal, BRIDGE_BYTES, BRIDGE_STRING, BRIDGE_INT32,
            BRIDGE_UINT32, BRIDGE_INT64, BRIDGE_UINT64, BRIDGE_FLOAT, BRIDGE_DOUBLE, BRIDGE_CUSTOM, ok_bind, pure_eq_ok]
        · rw [if_neg h2] at h; simp at h
  | i32 b | u32 b | i64 b | u64 b | f32 b | f64 b =>
    simp only [scalarOf] at h
    split at h
    · rename_i h1
      simp only [Option.some.injEq] at h; subst h h1
      cases ref <;> cases t <;> simp [Obj.read, Obj.wGet, Obj.wGetView, dataGet, viewGet, CType.dt, payloadGet, scalarVal, BRIDGE_BYTES, BRIDGE_STRING, BRIDGE_INT32,
        BRIDGE_UINT32, BRIDGE_INT64, BRIDGE_UINT64, BRIDGE_FLOAT, BRIDGE_DOUBLE, BRIDGE_CUSTOM, ok_bind, pure_eq_ok]
    · simp at h

theorem read_doc {o : Obj} {d : Doc} (h : o.doc? = some d) (t : CType) (v : CVal) :
    o.read t = .ok (some v) ↔ ∃ s, d = .scalar s ∧ scalarVal s = (t, v) := by
  cases o with
  | null => simp [Obj.doc?] at h
  | data r dt p =>
    obtain ⟨s, rfl, hs⟩ := data_doc h
    rw [read_scalar hs]
    constructor
    · intro h; exact ⟨s, rfl, h⟩
    · rintro ⟨s', h1, h2⟩; cases h1; exact h2
  | array pool size items =>
    obtain ⟨xs, rfl, _⟩ := array_doc h
    simp [Obj.read, Obj.wGet]
  | map ref pool size items =>
    obtain ⟨es, rfl, _⟩ := map_doc h
    simp [Obj.read, Obj.wGet]

/-- What two trees show at a path is the same. -/
def SameView (a b : Obj) : Prop :=
  a.wEmpty = b.wEmpty ∧ a.wType = b.wType ∧ a.wSize = b.wSize ∧ ∀ t v, a.read t = .ok (some v) ↔ b.read t = .ok (some v)

theorem sameView_of_same {a b : Obj} {d d' : Doc} (ha : a.doc? = some d) (hb : b.doc? = some d') (h : d.Same d') : SameView a b := by
  refine ⟨?_, ?_, ?_, ?_⟩
  · cases a <;> cases b <;> simp_all [Obj.doc?, Obj.wEmpty]
  · rw [wType_doc ha, wType_doc hb, same_type h]
  · rw [wSize_doc ha, wSize_doc hb, same_size h]
  · intro t v
    rw [read_doc ha, read_doc hb]
    constructor
    · rintro ⟨s, rfl, h2⟩
      simp only [Doc.Same] at h
      exact ⟨s, h, h2⟩
    · rintro ⟨s, rfl, h2⟩
      have := same_symm h
      simp only [Doc.Same] at this
      exact ⟨s, this, h2⟩

theorem sameView_paths {a b : Obj} {d d' : Doc} (ha : a.doc? = some d) (hb : b.doc? = some d') (h : d.Same d')
    (hk : d.DistinctKeys) (p : List Step) : SameView (a.wPath p) (b.wPath p) := by
  rcases same_at h hk p with ⟨h1, h2⟩ | ⟨x, y, h1, h2, h3⟩
  · have ea : a.wPath p = .null := by
      rcases wPath_doc ha p with ⟨_, h⟩ | ⟨_, h, _⟩
      · exact h
      · rw [h1] at h; simp at h
    have eb : b.wPath p = .null := by
      rcases wPath_doc hb p with ⟨_, h⟩ | ⟨_, h, _⟩
      · exact h
      · rw [h2] at h; simp at h
    rw [ea, eb]
    exact ⟨rfl, rfl, rfl, fun _ _ => Iff.rfl⟩
  · rcases wPath_doc ha p with ⟨e, _⟩ | ⟨x', e, ex⟩
    · rw [h1] at e; simp at e
    rcases wPath_doc hb p with ⟨e', _⟩ | ⟨y', e', ey⟩
    · rw [h2] at e'; simp at e'
    rw [h1] at e; rw [h2] at e'
    cases e; cases e'
    exact sameView_of_same ex ey h3

/-- C15. In a tree without duplicate keys, every chain of keys and indices shows the same emptiness, type, size and scalar
value before `Serialize` and after `Parse`, for both encodings, both parsers, owning and in situ. -/
theorem C15_paths_preserved (w r : Cfg) (hw : w.charSigned = true) (t : SeriType) (o : Obj) (d : Doc) (hd : o.doc? = some d)
    (hh : Writable w o) (hk : d.DistinctKeys) (ref : Bool) (hc : ref = true → d.noCustom = true) (co : Bool) (k : Nat)
    (hk0 : 0 < k) :
    ∃ content, serialize w t o = .ok content ∧
      (Fits r content → ∃ o', Parses r ⟨co, ref, k⟩ content (.ok o') ∧
        ∀ p : List Step, SameView (o.wPath p) (o'.wPath p)) := by
  refine ⟨_, serialize_eq hw t hd hh, fun hf => ?_⟩
  cases co with
  | false =>
    obtain ⟨o1, h1, h2, _⟩ := parses_normal (extra := []) (by simpa using hf) ref hc k
    exact ⟨o1, by simpa using h1, fun p => sameView_paths hd h2 (same_revMaps d) hk p⟩
  | true =>
    obtain ⟨o1, d1, h1, h2, h3, _⟩ := parses_co (extra := []) (by simpa using hf) ref hc hk0
    exact ⟨o1, by simpa using h1, fun p => sameView_paths hd h2 h3 hk p⟩

example : sampleDoc.DistinctKeys ∧ (sampleObj.wPath [.key [107], .index 0]).read .i32 = .ok (some (.i32 7)) := by
  refine ⟨?_, by decide +kernel⟩
  simp [sampleDoc, Doc.DistinctKeys, distinctKeysE, distinctKeysL]

/-! ### C16 -/

/-- C16. After `Serialize` and the default `Parse`, a lookup sees the entry of that key which was inserted first (the last one
in iteration order), whereas before it saw the one inserted last. -/
theorem C16_lookup_before_and_after (w r : Cfg) (hw : w.charSigned = true) (t : SeriType) (o : Obj)
    (es : List (Bytes × Doc)) (hd : o.doc? = some (.map es)) (hh : Writable w o) (k : Bytes) :
    (o.wKey k).doc? = firstEntry k es ∧
    ∃ content, serialize w t o = .ok content ∧
      (Fits r content → ∃ o', Parses r {} content (.ok o') ∧
        (o'.wKey k).doc? = (firstEntry k es.reverse).map Doc.revMaps) := by
  have key : ∀ {a : Obj} {d : Doc}, a.doc? = some d → (a.wKey k).doc? = d.step (.key k) := by
    intro a d ha
    rcases wStep_doc ha (.key k) with ⟨h1, h2⟩ | ⟨d', h1, h2⟩
    · rw [h1]; simp only [Obj.wPath] at h2; rw [h2]; rfl
    · rw [h1]; exact h2
  refine ⟨by rw [key hd]; rfl, _, serialize_eq hw t hd hh, fun hf => ?_⟩
  obtain ⟨o1, h1, h2, _⟩ := parses_normal (extra := []) (by simpa using hf) false (by simp) 1
  refine ⟨o1, by simpa using h1, ?_⟩
  rw [key h2]
  have : ∀ l : List (Bytes × Doc), firstEntry k (l.map fun e => (e.1, e.2.revMaps)) = (firstEntry k l).map Doc.revMaps := by
    intro l
    induction l with
    | nil => rfl
    | cons e l ih =>
      obtain ⟨k', x⟩ := e
      simp only [List.map_cons, firstEntry]
      split
      · rfl
      · exact ih
  simp only [Doc.revMaps, Doc.step, revMapsE_eq, List.append_nil, ← List.map_reverse, this]

/-- A map into which `1`, then `2` was inserted under the same key, with a third entry. -/
def duplicateObj : Obj :=
  .map false .caller 3 [(⟨[97], none⟩, .data false BRIDGE_INT32 (.i32 2)), (⟨[97], none⟩, .data false BRIDGE_INT32 (.i32 1)),
    (⟨[98], none⟩, .data false BRIDGE_INT32 (.i32 3))]

/-- C16. What a user expects is false: the newest value `2` is visible before, the oldest `1` after a normal round trip, and
the parallel parse of the very same bytes (blocks of ten bytes) shows `2`. -/
theorem C16_duplicate_keys_flip :
    let w : Cfg := { Cfg.x86 with blockSize := 10 }
    let look (co : Bool) : Res (Option CVal) := do
      let c ← serialize w .normal duplicateObj
      let o ← parse w ⟨co, false, 1⟩ 50 c
      (o.wKey [97]).wGet .i32
    (duplicateObj.wKey [97]).wGet .i32 = .ok (some (.i32 2)) ∧ look false = .ok (some (.i32 1)) ∧
      look true = .ok (some (.i32 2)) := by decide +kernel

/-! ### C17 -/

/-- C17. Two round trips through the default parser give back the document in exactly the original order. -/
theorem C17_two_round_trips (w r w' r' : Cfg) (hw : w.charSigned = true) (hw' : w'.charSigned = true)
    (t t' : SeriType) (o : Obj) (d : Doc) (hd : o.doc? = some d) (hh : Writable w o) (hn : w'.hardened = false) :
    ∃ c, serialize w t o = .ok c ∧ (Fits r c → ∃ o1 c', Parses r {} c (.ok o1) ∧ serialize w' t' o1 = .ok c' ∧
      (Fits r' c' → ∃ o2, Parses r' {} c' (.ok o2) ∧ o2.doc? = some d)) := by
  refine ⟨_, serialize_eq hw t hd hh, fun hf => ?_⟩
  obtain ⟨o1, h1, h2, _⟩ := parses_normal (extra := []) (by simpa using hf) false (by simp) 1
  refine ⟨o1, _, by simpa using h1, serialize_eq hw' t' h2 (hard_of_unhardened hn o1), fun hf' => ?_⟩
  obtain ⟨o2, h3, h4, _⟩ := parses_normal (extra := []) (by simpa using hf') false (by simp) 1
  exact ⟨o2, by simpa using h3, by rw [h4, revMaps_revMaps]⟩

example : sampleDoc.revMaps.revMaps = sampleDoc ∧ sampleDoc.revMaps ≠ sampleDoc := by
  refine ⟨rfl, ?_⟩
  intro h
  simp [sampleDoc, Doc.revMaps, revMapsE] at h

end Bridge
