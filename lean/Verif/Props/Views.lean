import Verif.Props.RoundTrip
/-
C10: what a parsed tree refers to.
-/
set_option autoImplicit false
namespace Bridge
open Spec

/-! ### C10 -/

mutual
/-- Every `string_view` held by a tree: the payload of an in-situ leaf and the keys of an in-situ map. -/
def Obj.views : Obj → List Str
  | .null => []
  | .data _ _ (.view s) => [s]
  | .data _ _ _ => []
  | .array _ _ items => viewsL items
  | .map ref _ _ items => viewsE ref items
/-- The views of the elements. -/
def viewsL : List Obj → List Str
  | [] => []
  | o :: os => o.views ++ viewsL os
/-- The views of the entries. -/
def viewsE (ref : Bool) : List (Str × Obj) → List Str
  | [] => []
  | (k, o) :: os => (if ref || k.loc.isSome then [k] else []) ++ (o.views ++ viewsE ref os)
end

mutual
/-- Every string or byte array owned (copied) by a tree. -/
def Obj.owned : Obj → List Bytes
  | .null => []
  | .data _ _ (.vec b) => [b]
  | .data _ _ (.str b) => [b]
  | .data _ _ _ => []
  | .array _ _ items => ownedL items
  | .map ref _ _ items => ownedE ref items
/-- What the elements own. -/
def ownedL : List Obj → List Bytes
  | [] => []
  | o :: os => o.owned ++ ownedL os
/-- What the entries own. -/
def ownedE (ref : Bool) : List (Str × Obj) → List Bytes
  | [] => []
  | (k, o) :: os => (if ref then [] else [k.bytes]) ++ (o.owned ++ ownedE ref os)
end

theorem scalarOf_view {ref : Bool} {dt : UInt8} {s : Str} {sc : Scalar} (h : scalarOf ref dt (.view s) = some sc) : ref = true := by
  cases ref <;> simp [scalarOf] at h ⊢

theorem scalarOf_vec {ref : Bool} {dt : UInt8} {s : Bytes} {sc : Scalar} (h : scalarOf ref dt (.vec s) = some sc) : ref = false := by
  cases ref <;> simp [scalarOf] at h ⊢

theorem scalarOf_str {ref : Bool} {dt : UInt8} {s : Bytes} {sc : Scalar} (h : scalarOf ref dt (.str s) = some sc) : ref = false := by
  cases ref <;> simp [scalarOf] at h ⊢

mutual
theorem built_views {mem : Bytes} {ref : Bool} {pool : PoolRef} : ∀ (o : Obj) (d : Doc), o.doc? = some d → o.Built mem ref pool →
    (∀ s ∈ o.views, s.Inside mem) ∧ (ref = false → o.views = []) ∧ (ref = true → o.owned = [])
  | .null, d, h, _ => by simp [Obj.doc?] at h
  | .data r dt p, d, h, hb => by
    obtain ⟨s, rfl, hs⟩ := data_doc h
    simp only [Obj.Built] at hb
    obtain ⟨rfl, hb⟩ := hb
    cases p with
    | view v =>
      have := scalarOf_view hs
      subst this
      simp only [Obj.views, List.mem_singleton, forall_eq, Obj.owned]
      exact ⟨hb v rfl, by simp, by simp⟩
    | vec b => have := scalarOf_vec hs; subst this; simp [Obj.views]
    | str b => have := scalarOf_str hs; subst this; simp [Obj.views]
    | none => simp [Obj.views, Obj.owned]
    | i32 _ => simp [Obj.views, Obj.owned]
    | u32 _ => simp [Obj.views, Obj.owned]
    | i64 _ => simp [Obj.views, Obj.owned]
    | u64 _ => simp [Obj.views, Obj.owned]
    | f32 _ => simp [Obj.views, Obj.owned]
    | f64 _ => simp [Obj.views, Obj.owned]
  | .array pl size items, d, h, hb => by
    obtain ⟨xs, rfl, _, hd⟩ := array_doc h
    simp only [Obj.Built] at hb
    simpa only [Obj.views, Obj.owned] using built_viewsL items xs hd hb.2
  | .map rf pl size items, d, h, hb => by
    obtain ⟨xs, rfl, _, hd⟩ := map_doc h
    simp only [Obj.Built] at hb
    obtain ⟨rfl, _, hb⟩ := hb
    simpa only [Obj.views, Obj.owned] using built_viewsE items xs hd hb
theorem built_viewsL {mem : Bytes} {ref : Bool} {pool : PoolRef} : ∀ (os : List Obj) (ds : List Doc), docs? os = some ds →
    builtL mem ref pool os →
    (∀ s ∈ viewsL os, s.Inside mem) ∧ (ref = false → viewsL os = []) ∧ (ref = true → ownedL os = [])
  | [], _, _, _ => by simp [viewsL, ownedL]
  | o :: os, ds, h, hb => by
    obtain ⟨d, ds', rfl, hd, hds⟩ := docs?_cons h
    simp only [builtL] at hb
    obtain ⟨a1, a2, a3⟩ := built_views o d hd hb.1
    obtain ⟨b1, b2, b3⟩ := built_viewsL os ds' hds hb.2
    simp only [viewsL, ownedL, List.mem_append, List.append_eq_nil_iff]
    exact ⟨fun s hs => hs.elim (a1 s) (b1 s), fun h => ⟨a2 h, b2 h⟩, fun h => ⟨a3 h, b3 h⟩⟩
theorem built_viewsE {mem : Bytes} {ref : Bool} {pool : PoolRef} : ∀ (os : List (Str × Obj)) (ds : List (Bytes × Doc)),
    entries? os = some ds → builtE mem ref pool os →
    (∀ s ∈ viewsE ref os, s.Inside mem) ∧ (ref = false → viewsE ref os = []) ∧ (ref = true → ownedE ref os = [])
  | [], _, _, _ => by simp [viewsE, ownedE]
  | (k, o) :: os, ds, h, hb => by
    obtain ⟨d, ds', rfl, hd, hds⟩ := entries?_cons h
    simp only [builtE] at hb
    obtain ⟨a1, a2, a3⟩ := built_views o d hd hb.2.1
    obtain ⟨b1, b2, b3⟩ := built_viewsE os ds' hds hb.2.2
    simp only [viewsE, ownedE, List.mem_append, List.append_eq_nil_iff]
    cases ref with
    | true =>
      refine ⟨fun s hs => hs.elim ?_ (fun hs => hs.elim (a1 s) (b1 s)), by simp, fun h => ⟨by simp, a3 h, b3 h⟩⟩
      intro hs
      simp only [Bool.true_or, if_true, List.mem_singleton] at hs
      subst hs
      exact hb.1
    | false =>
      simp only [Bool.false_eq_true, if_false] at hb
      have : (if (false || k.loc.isSome) = true then [k] else []) = [] := by simp [hb.1]
      rw [this]
      refine ⟨fun s hs => hs.elim (by simp) (fun hs => hs.elim (a1 s) (b1 s)), fun h => ⟨rfl, a2 h, b2 h⟩, by simp⟩
end

/-- C10. A document parsed in situ (by either parser) copies no string: every string, byte array and key it holds is a view
that lies inside the caller's buffer and shows the bytes stored there. -/
theorem C10_in_situ_points_into_buffer (w r : Cfg) (hw : w.charSigned = true) (t : SeriType) (o : Obj) (d : Doc)
    (hd : o.doc? = some d) (hh : Writable w o) (hc : d.noCustom = true) (co : Bool) (k : Nat) (hk : 0 < k) :
    ∃ content, serialize w t o = .ok content ∧
      (Fits r content → ∃ o', Parses r ⟨co, true, k⟩ content (.ok o') ∧ o'.owned = [] ∧
        ∀ s ∈ o'.views, ∃ a, s.loc = some (a, s.bytes.length) ∧ a + s.bytes.length ≤ content.length ∧
          slice content a s.bytes.length = s.bytes) := by
  refine ⟨_, serialize_eq hw t hd hh, fun hf => ?_⟩
  cases co with
  | false =>
    obtain ⟨o1, h1, h2, h3⟩ := parses_normal (extra := []) (by simpa using hf) true (fun _ => hc) k
    simp only [List.append_nil] at h1 h3
    obtain ⟨g1, _, g3⟩ := built_views o1 _ h2 h3
    exact ⟨o1, h1, g3 rfl, g1⟩
  | true =>
    obtain ⟨o1, d1, h1, h2, _, h3⟩ := parses_co (extra := []) (by simpa using hf) true (fun _ => hc) hk
    simp only [List.append_nil] at h1 h3
    obtain ⟨g1, _, g3⟩ := built_views o1 _ h2 h3
    exact ⟨o1, h1, g3 rfl, g1⟩

/-- C10. A document parsed without `parse_ref` holds no view at all, so it does not depend on the buffer. -/
theorem C10_owning_holds_no_view (w r : Cfg) (hw : w.charSigned = true) (t : SeriType) (o : Obj) (d : Doc)
    (hd : o.doc? = some d) (hh : Writable w o) (co : Bool) (k : Nat) (hk : 0 < k) :
    ∃ content, serialize w t o = .ok content ∧
      (Fits r content → ∃ o', Parses r ⟨co, false, k⟩ content (.ok o') ∧ o'.views = []) := by
  refine ⟨_, serialize_eq hw t hd hh, fun hf => ?_⟩
  cases co with
  | false =>
    obtain ⟨o1, h1, h2, h3⟩ := parses_normal (extra := []) (by simpa using hf) false (by simp) k
    simp only [List.append_nil] at h1
    exact ⟨o1, h1, (built_views o1 _ h2 h3).2.1 rfl⟩
  | true =>
    obtain ⟨o1, d1, h1, h2, _, h3⟩ := parses_co (extra := []) (by simpa using hf) false (by simp) hk
    simp only [List.append_nil] at h1
    exact ⟨o1, h1, (built_views o1 _ h2 h3).2.1 rfl⟩

example : ((parse Cfg.x86 { parseRef := true } 50 ((serialize Cfg.x86 .replace sampleObj).toOption.getD [])).toOption.map fun o =>
    o.views) = some [⟨[122], some (53, 1)⟩, ⟨[1, 2, 3], some (34, 3)⟩, ⟨[107], some (46, 1)⟩, ⟨[104, 105], some (49, 2)⟩] := by
  decide +kernel

end Bridge
