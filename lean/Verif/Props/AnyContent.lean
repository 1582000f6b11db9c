import Verif.Props.HostileSplit
import Verif.Props.Rewrite
import Verif.Props.Extend
import Verif.Props.Views
/-
C10 and C38 for every content that `Parse` accepts, whoever wrote it.
-/
set_option autoImplicit false
namespace Bridge
open Spec

theorem within_null {x : Obj} (h : x.Within .null) : x = .null := by
  cases h; rfl

/-- C38. Whatever the bytes are: if the recursive parser accepts them (or the coroutine parser, and they are not split), then every container
of the result, at any depth, can be extended.  (For an in-situ parse, if no number field takes ten bytes.) -/
theorem C38_any_content_extendable (r : Cfg) (content : Bytes) (hlen : content.length < 2 ^ 63) (po : ParseOption)
    (hrec : po.coroutine = false ∨ content[9]? = some 0) (href : po.parseRef = true → ShortNumbers content) (o : Obj)
    (h : Parses r po content (.ok o)) : ∀ x, x.Within o → InsertsInto x := by
  obtain ⟨_, _, _, _, _, _, _, _, _, _, _, hb⟩ := C28_accepted_is_document r content hlen po hrec href o h
  intro x hx
  rcases hb with rfl | hb
  · rw [within_null hx]; trivial
  · exact inserts_caller (built_within hx hb)

/-- C38. And if the parallel parser accepts a content with the split flag, none of them can. -/
theorem C38_any_split_content_dangles (r : Cfg) (content : Bytes) (hlen : content.length < 2 ^ 32) (po : ParseOption)
    (hco : po.coroutine = true) (hflag : content[9]? = some 0x0A) (href : po.parseRef = true → ShortNumbers content) (o : Obj)
    (h : Parses r po content (.ok o)) :
    (∀ pool n items, (Obj.array pool n items).Within o → ∀ v, ArrayS.insert ⟨pool, n, items⟩ v = .error (.ub .danglingPool)) ∧
    (∀ rf pool n items, (Obj.map rf pool n items).Within o →
      ∀ key v, MapS.insert ⟨rf, pool, n, items⟩ key v = .error (.ub .danglingPool)) := by
  obtain ⟨_, _, _, _, _, _, _, _, _, _, hb⟩ := C28_parallel_accepted_is_document r content hlen po hco hflag href o h
  rcases hb with rfl | hb
  · exact ⟨fun pool n items hx => absurd (within_null hx) (by simp), fun rf pool n items hx => absurd (within_null hx) (by simp)⟩
  · refine ⟨fun pool n items hx v => ?_, fun rf pool n items hx key v => ?_⟩
    · have hb := built_within hx hb
      simp only [Obj.Built] at hb
      simp [ArrayS.insert, hb.1]
    · have hb := built_within hx hb
      simp only [Obj.Built] at hb
      simp [MapS.insert, hb.2.1]

/-- C10. Whatever the bytes are: what either parser returns in situ (if no number field takes ten bytes) owns no string, byte array or key, and
all its views show the bytes at their place in the content or its terminator; what it returns otherwise holds no view. -/
theorem C10_any_content (r : Cfg) (content : Bytes) (hlen : content.length < 2 ^ 32) (po : ParseOption)
    (href : po.parseRef = true → ShortNumbers content) (o : Obj) (h : Parses r po content (.ok o)) :
    (po.parseRef = true → o.owned = [] ∧ ∀ s ∈ o.views, ∃ a, s.loc = some (a, s.bytes.length) ∧ a + s.bytes.length ≤ content.length + 1 ∧
      slice (content ++ [0]) a s.bytes.length = s.bytes) ∧
    (po.parseRef = false → o.views = []) := by
  have key : ∀ pool, o = .null ∨ (∃ d, o.doc? = some d) ∧ o.Built (content ++ [0]) po.parseRef pool → 
      (po.parseRef = true → o.owned = [] ∧ ∀ s ∈ o.views, ∃ a, s.loc = some (a, s.bytes.length) ∧ a + s.bytes.length ≤ content.length + 1 ∧
        slice (content ++ [0]) a s.bytes.length = s.bytes) ∧ (po.parseRef = false → o.views = []) := by
    intro pool hb
    rcases hb with rfl | ⟨⟨d, hd⟩, hb⟩
    · exact ⟨fun _ => ⟨rfl, fun s hs => by simp [Obj.views] at hs⟩, fun _ => rfl⟩
    · obtain ⟨h1, h2, h3⟩ := built_views o d hd hb
      refine ⟨fun hr => ⟨h3 hr, fun s hs => ?_⟩, h2⟩
      obtain ⟨a, g1, g2, g3⟩ := h1 s hs
      exact ⟨a, g1, by simpa using g2, g3⟩
  have hdoc := accepted_any_complete h (fun _ _ => ⟨hlen, href⟩)
  have pair : ∀ pool, o = .null ∨ o.Built (content ++ [0]) po.parseRef pool →
      o = .null ∨ (∃ d, o.doc? = some d) ∧ o.Built (content ++ [0]) po.parseRef pool := by
    intro pool hb
    rcases hdoc with hd | hd
    · exact .inl hd
    · exact hb.imp_right fun hb => ⟨hd, hb⟩
  by_cases hp : po.coroutine = true ∧ content[9]? = some 0x0A
  · obtain ⟨_, _, _, _, _, _, _, _, _, _, hb⟩ := C28_parallel_accepted_is_document r content hlen po hp.1 hp.2 href o h
    exact key _ (pair _ hb)
  · have hrec : po.coroutine = false ∨ content[9]? = some 0 := by
      cases hc : po.coroutine with
      | false => exact .inl rfl
      | true =>
        obtain ⟨-, n, hn⟩ := h
        have h := hn n (Nat.le_refl _)
        unfold parse at h
        obtain ⟨s, hs, h⟩ := bind_ok h
        obtain ⟨_, _, _, _, hfl⟩ := init_inv hs
        rcases hfl with ⟨h1, _⟩ | ⟨h1, _⟩
        · exact .inr h1
        · exact absurd ⟨hc, h1⟩ hp
    obtain ⟨_, _, _, _, _, _, _, _, _, _, _, hb⟩ := C28_accepted_is_document r content (by omega) po hrec href o h
    exact key _ (pair _ hb)

/-- A content that `Serialize` does not write: a count in two bytes, container numbers out of order, and a byte more at the end. -/
def foreignContent : Bytes := [0, 0, 0, 0, 0, 0, 0, 26, 0, 0, 0x81, 0x00, 7, 4, 114, 111, 111, 116, 2, 1, 3, 0, 1, 2, 104, 105, 1, 0, 5]

theorem foreign_parses (ref : Bool) : ∃ o, Parses Cfg.x86 ⟨false, ref, 1⟩ foreignContent (.ok o) ∧ (∃ pool n items, o = .array pool n items) := by
  have h : (parse Cfg.x86 ⟨false, ref, 1⟩ 20 foreignContent).toOption.any (fun o => match o with | .array _ _ _ => true | _ => false) = true := by
    cases ref <;> decide +kernel
  cases ho : parse Cfg.x86 ⟨false, ref, 1⟩ 20 foreignContent with
  | error e => rw [ho] at h; cases h
  | ok o =>
    rw [ho] at h
    refine ⟨o, ⟨by simp, 20, fun fuel hf => parse_mono ho (by simp) hf⟩, ?_⟩
    cases o with
    | array pool n items => exact ⟨_, _, _, rfl⟩
    | _ => cases h

theorem foreign_short : ShortNumbers foreignContent := by
  have h : ∀ a, a < 29 → a ≠ 10 → (foreignContent[a]?).all (fun b => decide (b.toNat < 128)) = true := by decide +kernel
  have h' : ∀ a, a ≠ 10 → ∀ b, foreignContent[a]? = some b → b.toNat < 128 := by
    intro a ha b hb
    have hlt : a < 29 := (List.getElem?_eq_some_iff.1 hb).1
    have := h a hlt ha
    rw [hb] at this
    exact of_decide_eq_true this
  intro a
  by_cases ha : a = 10
  · exact ⟨1, by omega, h' (a + 1) (by omega)⟩
  · exact ⟨0, by omega, h' a ha⟩

/-- The hypotheses of `C38_any_content_extendable` and `C10_any_content` are met by it, parsed in situ. -/
example : ∃ o, Parses Cfg.x86 ⟨false, true, 1⟩ foreignContent (.ok o) ∧ (∀ x, x.Within o → InsertsInto x) ∧ o.owned = [] := by
  obtain ⟨o, h, _⟩ := foreign_parses true
  exact ⟨o, h, C38_any_content_extendable Cfg.x86 _ (by decide) _ (.inl rfl) (fun _ => foreign_short) o h,
    ((C10_any_content Cfg.x86 _ (by decide) _ (fun _ => foreign_short) o h).1 rfl).1⟩

/-- Those of `C38_any_split_content_dangles` by the sample that is split into blocks of ten bytes. -/
example : ∃ o, Parses Cfg.x86 ⟨true, false, 2⟩ splitSample (.ok o) ∧ splitSample[9]? = some 0x0A ∧ splitSample.length < 2 ^ 32 := by
  have h : (parse Cfg.x86 ⟨true, false, 2⟩ 50 splitSample).toOption.isSome = true := by decide +kernel
  cases ho : parse Cfg.x86 ⟨true, false, 2⟩ 50 splitSample with
  | error e => rw [ho] at h; cases h
  | ok o => exact ⟨o, ⟨by simp, 50, fun fuel hf => parse_mono ho (by simp) hf⟩, by decide +kernel, by decide +kernel⟩

end Bridge
