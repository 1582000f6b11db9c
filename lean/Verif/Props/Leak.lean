import Verif.Proof.Leak
import Verif.Props.RoundTrip
import Verif.Props.Owner
import Verif.Props.Share
/-
C77: what the destruction of a pool does not give back.
-/
set_option autoImplicit false
namespace Bridge.Owner
open Spec

/-- The step of a `Parse` that has returned: what is in the pool afterwards. -/
theorem root_step {cfg : Cfg} {po : ParseOption} {fuel : Nat} {content : Bytes} {s s' : Fr} {root : LObj}
    (h : parseRootL cfg po fuel content s = (.ok root, s')) :
    s'.bp.all.Perm (s.bp.all ++ root.objects) ∧ ∀ x ∈ root.objects, Kind.ofRef po.parseRef x.1 = true := by
  have h1 := sat_parseRoot cfg po fuel content s [] [] [] s (Step.refl s)
  rw [h] at h1
  obtain ⟨new, hm, hst⟩ := h1
  simp only [List.nil_append] at hst
  refine ⟨hst.pool.trans (List.Perm.append_left _ hm), fun x hx => ?_⟩
  obtain ⟨new', e, hn⟩ := only_parseRoot cfg po fuel content s
  rw [h] at e
  obtain ⟨made, e', hmade⟩ := hst.made
  have : made = new' := List.append_cancel_left (e'.symm.trans e)
  subst this
  exact hn x (hmade.mem_iff.2 (by simpa using hm.mem_iff.2 hx))

theorem root_written (w r : Cfg) (hw : w.charSigned = true) (t : SeriType) (o : Obj) (d : Doc)
    (hd : o.doc? = some d) (hh : Writable w o) (content : Bytes) (hs : serialize w t o = .ok content) (hf : Fits r content)
    (po : ParseOption) (hown : po.parseRef = false) (hk : po.coroutine = true → 0 < po.workers) (fuel : Nat)
    (hfu : docFuel (rootDoc d) ≤ fuel) (s : Fr) :
    ∃ root s', parseRootL r po fuel content s = (.ok root, s') ∧
      s'.bp.all.Perm (s.bp.all ++ root.objects) ∧ (leaked s'.bp root.holds).Perm (.string rootKey :: d.storages) := by
  rw [serialize_eq hw t hd hh] at hs
  cases hs
  have hf' : Fits r (contentOf w t d ++ []) := by simpa using hf
  obtain ⟨ro, d', h1, h2, h3⟩ := parseRoot_written hf'.contentOk po (by simp [hown]) hk hfu
  rw [List.append_nil] at h1
  have he := er_parseRoot r po fuel (contentOf w t d) s
  rw [h1] at he
  cases hp : parseRootL r po fuel (contentOf w t d) s with
  | mk res s' =>
    rw [hp] at he
    cases res with
    | error e => cases he
    | ok root =>
      simp only [emap, Except.ok.injEq] at he
      subst he
      obtain ⟨hpool, hkinds⟩ := root_step hp
      rw [hown] at hkinds
      refine ⟨root, s', rfl, hpool, ?_⟩
      rw [leaked_eq, holds_doc root d' h2 hkinds]
      have := (storages_same _ _ h3).symm
      simpa [rootDoc, Doc.storages, storagesE] using this

/-- C77. An owning `Parse` of a written document, by either parser, into a pool with anything in it: exactly the objects of the parsed root
map are added to the pool, the result is the value of that map, and when the pool is destroyed the storage of every string, every
byte array, every value of a user-defined type and every key of the document stays allocated, and that of the key of the root map. -/
theorem C77_owning_parse_leaks_the_document (w r : Cfg) (hw : w.charSigned = true) (t : SeriType) (o : Obj) (d : Doc)
    (hd : o.doc? = some d) (hh : Writable w o) (content : Bytes) (hs : serialize w t o = .ok content) (hf : Fits r content)
    (po : ParseOption) (hown : po.parseRef = false) (hk : po.coroutine = true → 0 < po.workers) :
    ∃ N, ∀ fuel, N ≤ fuel → ∀ s : Fr, ∃ root s', parseL r po fuel content s = (.ok (takeRootL root), s') ∧
      s'.bp.all.Perm (s.bp.all ++ root.objects) ∧ (leaked s'.bp root.holds).Perm (.string rootKey :: d.storages) := by
  refine ⟨docFuel (rootDoc d), fun fuel hfu s => ?_⟩
  obtain ⟨root, s', h1, h2, h3⟩ := root_written w r hw t o d hd hh content hs hf po hown hk fuel hfu s
  exact ⟨root, s', by rw [parseL_eq, run_bind, h1]; rfl, h2, h3⟩

/-- C77. A server that does this again and again, each time with a pool of its own, loses the same storage every time. -/
theorem C77_rounds_add_up (w r : Cfg) (hw : w.charSigned = true) (t : SeriType) (o : Obj) (d : Doc)
    (hd : o.doc? = some d) (hh : Writable w o) (content : Bytes) (hs : serialize w t o = .ok content) (hf : Fits r content)
    (po : ParseOption) (hown : po.parseRef = false) (hk : po.coroutine = true → 0 < po.workers) :
    ∃ N, ∀ fuel, N ≤ fuel → ∀ n, ∃ lost, roundsL r po fuel (List.replicate n content) = some lost ∧
      lost.Perm (List.replicate n (.string rootKey :: d.storages)).flatten := by
  refine ⟨docFuel (rootDoc d), fun fuel hfu n => ?_⟩
  obtain ⟨root, s', h1, _, h3⟩ := root_written w r hw t o d hd hh content hs hf po hown hk fuel hfu {}
  have hl : roundL r po fuel content = some (leaked s'.bp root.holds) := by
    unfold roundL
    rw [h1]
  induction n with
  | zero => exact ⟨[], rfl, .refl _⟩
  | succ n ih =>
    obtain ⟨l2, e2, p2⟩ := ih
    refine ⟨leaked s'.bp root.holds ++ l2, ?_, ?_⟩
    · rw [List.replicate_succ, roundsL, hl, e2]
      rfl
    · rw [List.replicate_succ, List.flatten_cons]
      exact h3.append p2

/-- C77. Any content, written by the library or not: if an owning `Parse` returns a document, the storage of all of it stays allocated when
the pool is destroyed, whatever else is in the pool. -/
theorem C77_any_accepted_content (cfg : Cfg) (po : ParseOption) (hown : po.parseRef = false) (fuel : Nat) (content : Bytes) (s s' : Fr)
    (o : LObj) (h : parseL cfg po fuel content s = (.ok o, s')) (d : Doc) (hd : o.erase.doc? = some d) :
    ∃ root, o = takeRootL root ∧ s'.bp.all.Perm (s.bp.all ++ root.objects) ∧ d.storages.Sublist (leaked s'.bp root.holds) := by
  rw [parseL_eq, run_bind] at h
  cases hp : parseRootL cfg po fuel content s with
  | mk res s2 =>
    rw [hp] at h
    cases res with
    | error e => cases h
    | ok root =>
      simp only [run_pure, Prod.mk.injEq, Except.ok.injEq] at h
      obtain ⟨rfl, rfl⟩ := h
      obtain ⟨hpool, hkinds⟩ := root_step hp
      rw [hown] at hkinds
      refine ⟨root, rfl, hpool, ?_⟩
      rw [leaked_eq, ← holds_doc _ d hd fun x hx => hkinds x ((takeRootL_objects root).subset hx)]
      exact (takeRootL_holds root).map _

/-- C77. In situ nothing is lost: whatever the content and whatever the outcome, no object that could hold a string or a vector is made, by
either parser, and what the parsed tree holds is nothing. -/
theorem C77_in_situ_holds_nothing (cfg : Cfg) (po : ParseOption) (href : po.parseRef = true) (fuel : Nat) (content : Bytes) (s : Fr) :
    (∃ new, (parseL cfg po fuel content s).2.made = s.made ++ new ∧
      ∀ x ∈ new, x.1 ≠ .data ∧ x.1 ≠ .map ∧ x.1 ≠ .mapItem) ∧
    ∀ root s', parseRootL cfg po fuel content s = (.ok root, s') →
      parseL cfg po fuel content s = (.ok (takeRootL root), s') ∧ root.holds = [] ∧ leaked s'.bp root.holds = [] := by
  refine ⟨?_, fun root s' hp => ?_⟩
  · obtain ⟨new, e, hn⟩ := only_parseRoot cfg po fuel content s
    refine ⟨new, ?_, fun x hx => ?_⟩
    · rw [parseL_eq, run_bind]
      cases hp : parseRootL cfg po fuel content s with
      | mk res s2 =>
        rw [hp] at e
        cases res <;> exact e
    · have := hn x hx
      rw [href] at this
      obtain ⟨k, i⟩ := x
      cases k <;> simp_all [Kind.ofRef]
  · obtain ⟨_, hkinds⟩ := root_step hp
    rw [href] at hkinds
    have h0 := holds_ref root hkinds
    exact ⟨by rw [parseL_eq, run_bind, hp]; rfl, h0, by rw [h0]; rfl⟩

mutual
theorem holder_object : ∀ o : LObj, ∀ x ∈ o.holds, x.1 ∈ o.objects
  | .null => by simp [LObj.holds]
  | .data id ref _ p => by
    intro x hx
    simp only [LObj.holds] at hx
    split at hx
    · cases hx
    · rename_i h
      obtain ⟨s, -, rfl⟩ := List.mem_map.1 hx
      simp [LObj.objects, h]
  | .array id _ _ items => by
    intro x hx
    exact List.mem_cons_of_mem _ (holder_items items x (by simpa only [LObj.holds] using hx))
  | .map id ref _ _ items => by
    intro x hx
    exact List.mem_cons_of_mem _ (holder_kvs ref items x (by simpa only [LObj.holds] using hx))
theorem holder_items : ∀ items : List (Path × LObj), ∀ x ∈ itemHolds items, x.1 ∈ itemObjects items
  | [] => by simp [itemHolds]
  | (i, o) :: rest => by
    intro x hx
    simp only [itemHolds, List.mem_append] at hx
    simp only [itemObjects, List.mem_cons, List.mem_append]
    rcases hx with hx | hx
    · exact .inr (.inl (holder_object o x hx))
    · exact .inr (.inr (holder_items rest x hx))
theorem holder_kvs (ref : Bool) : ∀ items : List (Path × Str × LObj), ∀ x ∈ kvHolds ref items, x.1 ∈ kvObjects ref items
  | [] => by simp [kvHolds]
  | (i, k, o) :: rest => by
    intro x hx
    simp only [kvHolds, List.mem_append] at hx
    simp only [kvObjects, List.mem_cons, List.mem_append]
    rcases hx with hx | hx | hx
    · left
      split at hx
      · cases hx
      · rename_i h
        rw [List.mem_singleton] at hx
        rw [hx]
        simp [h]
    · exact .inr (.inl (holder_object o x hx))
    · exact .inr (.inr (holder_kvs ref rest x hx))
end

/-- C77. It is not that the pool does not know them: every string and vector that the parsed tree holds is held by an object that the pool
owns, and that the destruction of the pool therefore reaches. -/
theorem C77_holders_are_in_the_pool (cfg : Cfg) (po : ParseOption) (fuel : Nat) (content : Bytes) (s s' : Fr) (root : LObj)
    (h : parseRootL cfg po fuel content s = (.ok root, s')) : ∀ x ∈ root.holds, x.1 ∈ s'.bp.all := fun x hx =>
  (root_step h).1.mem_iff.2 (List.mem_append.2 (.inr (holder_object root x hx)))

/-! ### Examples -/

/-- The split sample in one round, by the recursive and by the parallel parser, and in situ: the keys `root`, `z` and `k`, the three bytes
and the string `hi`. -/
example : roundL Cfg.x86 ⟨false, false, 2⟩ 50 splitSample =
    some [.string rootKey, .string [122], .vector [1, 2, 3], .string [107], .string [104, 105]] := by decide +kernel
example : roundL Cfg.x86 ⟨true, false, 2⟩ 50 splitSample =
    some [.string rootKey, .string [122], .vector [1, 2, 3], .string [107], .string [104, 105]] := by decide +kernel
example : roundL Cfg.x86 ⟨true, true, 2⟩ 50 splitSample = some [] := by decide +kernel
example : (roundsL Cfg.x86 ⟨true, false, 2⟩ 50 (List.replicate 3 splitSample)).map List.length = some 15 := by decide +kernel

/-- The hypotheses are met by the split sample, for both parsers. -/
example (c : Bool) := C77_owning_parse_leaks_the_document { Cfg.x86 with blockSize := 10 } Cfg.x86 rfl .normal sampleObj sampleDoc sample_doc
  (sample_writable _) splitSample splitSample_written splitSample_fits ⟨c, false, 2⟩ rfl (by simp)
example (c : Bool) := C77_rounds_add_up { Cfg.x86 with blockSize := 10 } Cfg.x86 rfl .normal sampleObj sampleDoc sample_doc
  (sample_writable _) splitSample splitSample_written splitSample_fits ⟨c, false, 2⟩ rfl (by simp)
example : sampleDoc.storages = [.string [107], .string [104, 105], .string [122], .vector [1, 2, 3]] := rfl

end Bridge.Owner
