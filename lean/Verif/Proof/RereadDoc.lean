import Verif.Proof.RereadApart
import Verif.Spec.Edit
/-
A document whose bytes changed: its views, its shape.
-/
set_option autoImplicit false
namespace Bridge
open Spec

theorem reread_owned {mem : Bytes} {s : Str} (h : s.loc = none) : s.reread mem = s := by
  cases s; simp only at h; subst h; rfl

theorem reread_loc {mem : Bytes} {s : Str} : (s.reread mem).loc = s.loc := by
  unfold Str.reread; split <;> simp_all

mutual
theorem views_reread (mem : Bytes) : ∀ o : Obj, (o.reread mem).views = o.views.map (Str.reread mem)
  | .null => rfl
  | .data _ _ p => by cases p <;> rfl
  | .array _ _ items => by simp only [Obj.reread, Obj.views]; exact viewsL_reread mem items
  | .map ref _ _ items => by simp only [Obj.reread, Obj.views]; exact viewsE_reread mem ref items
theorem viewsL_reread (mem : Bytes) : ∀ os : List Obj, viewsL (rereadL mem os) = (viewsL os).map (Str.reread mem)
  | [] => rfl
  | o :: os => by simp only [rereadL, viewsL, List.map_append, views_reread mem o, viewsL_reread mem os]
theorem viewsE_reread (mem : Bytes) (ref : Bool) : ∀ os : List (Str × Obj), viewsE ref (rereadE mem os) = (viewsE ref os).map (Str.reread mem)
  | [] => rfl
  | (k, o) :: os => by
    simp only [rereadE, viewsE, List.map_append, views_reread mem o, viewsE_reread mem ref os, reread_loc]
    split <;> rfl
end

mutual
theorem reread_id (mem : Bytes) : ∀ o : Obj, (∀ s ∈ o.views, s.reread mem = s) → o.reread mem = o
  | .null, _ => rfl
  | .data _ _ p, h => by
    cases p with
    | view s => simp only [Obj.reread, Payload.reread, h s (by simp [Obj.views])]
    | _ => rfl
  | .array _ _ items, h => by simp only [Obj.reread]; rw [rereadL_id mem items h]
  | .map ref _ _ items, h => by simp only [Obj.reread]; rw [rereadE_id mem ref items h]
theorem rereadL_id (mem : Bytes) : ∀ os : List Obj, (∀ s ∈ viewsL os, s.reread mem = s) → rereadL mem os = os
  | [], _ => rfl
  | o :: os, h => by
    simp only [viewsL, List.mem_append] at h
    simp only [rereadL]
    rw [reread_id mem o (fun s hs => h s (.inl hs)), rereadL_id mem os (fun s hs => h s (.inr hs))]
theorem rereadE_id (mem : Bytes) (ref : Bool) : ∀ os : List (Str × Obj), (∀ s ∈ viewsE ref os, s.reread mem = s) → rereadE mem os = os
  | [], _ => rfl
  | (k, o) :: os, h => by
    simp only [viewsE, List.mem_append] at h
    simp only [rereadE]
    have hk : k.reread mem = k := by
      by_cases hk : (ref || k.loc.isSome) = true
      · exact h k (.inl (by rw [if_pos hk]; simp))
      · refine reread_owned ?_
        cases hl : k.loc with
        | none => rfl
        | some x => rw [hl] at hk; simp at hk
    rw [hk, reread_id mem o (fun s hs => h s (.inr (.inl hs))), rereadE_id mem ref os (fun s hs => h s (.inr (.inr hs)))]
end

theorem zeros_eq {a b : Bytes} (h : a.length = b.length) : zeros a = zeros b := by unfold zeros; rw [h]

mutual
theorem reread_doc (mem : Bytes) : ∀ (o : Obj) (d : Doc), o.doc? = some d → (∀ s ∈ o.views, (s.reread mem).bytes.length = s.bytes.length) →
    ∃ d', (o.reread mem).doc? = some d' ∧ d'.blank = d.blank
  | .null, _, h, _ => by simp [Obj.doc?] at h
  | .data ref dt p, d, h, hl => by
    obtain ⟨s, rfl, hs⟩ := data_doc h
    cases p with
    | view v =>
      have hv := hl v (by simp [Obj.views])
      simp only [Obj.reread, Payload.reread, Obj.doc?, scalarOf] at hs ⊢
      split at hs
      · cases hs
      · rename_i h1
        rw [if_neg h1]
        split at hs
        · rename_i h2
          rw [if_pos h2]
          cases hs
          exact ⟨_, rfl, by simp only [Doc.blank, Scalar.blank, zeros_eq hv]⟩
        · rename_i h2
          rw [if_neg h2]
          split at hs
          · rename_i h3
            rw [if_pos h3]
            cases hs
            exact ⟨_, rfl, by simp only [Doc.blank, Scalar.blank, zeros_eq hv]⟩
          · cases hs
    | _ => exact ⟨_, h, rfl⟩
  | .array pl size items, d, h, hl => by
    obtain ⟨xs, rfl, hsz, hd⟩ := array_doc h
    obtain ⟨ys, h1, h2⟩ := reread_docs mem items xs hd hl
    refine ⟨.array ys, ?_, by simp only [Doc.blank, h2]⟩
    simp only [Obj.reread, Obj.doc?, rereadL_length, hsz, if_true, h1, Option.map_some]
  | .map rf pl size items, d, h, hl => by
    obtain ⟨xs, rfl, hsz, hd⟩ := map_doc h
    obtain ⟨ys, h1, h2⟩ := reread_entries mem rf items xs hd hl
    refine ⟨.map ys, ?_, by simp only [Doc.blank, h2]⟩
    simp only [Obj.reread, Obj.doc?, rereadE_length, hsz, if_true, h1, Option.map_some]
theorem reread_docs (mem : Bytes) : ∀ (os : List Obj) (ds : List Doc), docs? os = some ds →
    (∀ s ∈ viewsL os, (s.reread mem).bytes.length = s.bytes.length) → ∃ ds', docs? (rereadL mem os) = some ds' ∧ blankL ds' = blankL ds
  | [], ds, h, _ => ⟨ds, h, rfl⟩
  | o :: os, ds, h, hl => by
    obtain ⟨d, ds', rfl, hd, hds⟩ := docs?_cons h
    simp only [viewsL, List.mem_append] at hl
    obtain ⟨d1, a1, a2⟩ := reread_doc mem o d hd (fun s hs => hl s (.inl hs))
    obtain ⟨d2, b1, b2⟩ := reread_docs mem os ds' hds (fun s hs => hl s (.inr hs))
    exact ⟨d1 :: d2, by simp only [rereadL, docs?, a1, b1]; rfl, by simp only [blankL, a2, b2]⟩
theorem reread_entries (mem : Bytes) (ref : Bool) : ∀ (os : List (Str × Obj)) (ds : List (Bytes × Doc)), entries? os = some ds →
    (∀ s ∈ viewsE ref os, (s.reread mem).bytes.length = s.bytes.length) → ∃ ds', entries? (rereadE mem os) = some ds' ∧ blankE ds' = blankE ds
  | [], ds, h, _ => ⟨ds, h, rfl⟩
  | (k, o) :: os, ds, h, hl => by
    obtain ⟨d, ds', rfl, hd, hds⟩ := entries?_cons h
    simp only [viewsE, List.mem_append] at hl
    obtain ⟨d1, a1, a2⟩ := reread_doc mem o d hd (fun s hs => hl s (.inr (.inl hs)))
    obtain ⟨d2, b1, b2⟩ := reread_entries mem ref os ds' hds (fun s hs => hl s (.inr (.inr hs)))
    have hk : (k.reread mem).bytes.length = k.bytes.length := by
      by_cases hk : (ref || k.loc.isSome) = true
      · exact hl k (.inl (by rw [if_pos hk]; simp))
      · have : k.loc = none := by
          cases hl : k.loc with
          | none => rfl
          | some x => rw [hl] at hk; simp at hk
        rw [reread_owned this]
    exact ⟨((k.reread mem).bytes, d1) :: d2, by simp only [rereadE, entries?, a1, b1]; rfl, by simp only [blankE, a2, b2, zeros_eq hk]⟩
theorem rereadL_length (mem : Bytes) : ∀ os : List Obj, (rereadL mem os).length = os.length
  | [] => rfl
  | _ :: os => by simp only [rereadL, List.length_cons, rereadL_length mem os]
theorem rereadE_length (mem : Bytes) : ∀ os : List (Str × Obj), (rereadE mem os).length = os.length
  | [] => rfl
  | (_, _) :: os => by simp only [rereadE, List.length_cons, rereadE_length mem os]
end

/-- The views of what `Parse` takes out of the root are views of the root. -/
theorem takeKey_sub {k : Bytes} : ∀ es : List (Str × Obj), ((takeKey k es).2).views.Sublist (viewsE true es)
  | [] => by simp [takeKey, Obj.views]
  | (k', v) :: rest => by
    simp only [takeKey, viewsE]
    split
    · exact List.Sublist.trans (List.sublist_append_left _ _) (List.sublist_append_right _ _)
    · exact List.Sublist.trans (takeKey_sub rest) (List.Sublist.trans (List.sublist_append_right _ _) (List.sublist_append_right _ _))

/-- `content` with the bytes from `a` on replaced by `b`. -/
def overwrite (content : Bytes) (a : Nat) (b : Bytes) : Bytes := content.take a ++ (b ++ content.drop (a + b.length))

theorem overwrite_length {content b : Bytes} {a : Nat} (h : a + b.length ≤ content.length) : (overwrite content a b).length = content.length := by
  simp only [overwrite, List.length_append, List.length_take, List.length_drop]; omega

theorem overwrite_out {content b : Bytes} {a x : Nat} (h : a + b.length ≤ content.length) (hx : x < a ∨ a + b.length ≤ x) :
    (overwrite content a b)[x]? = content[x]? := by
  unfold overwrite
  rcases hx with hx | hx
  · rw [List.getElem?_append_left (by simp only [List.length_take]; omega), List.getElem?_take, if_pos hx]
  · rw [List.getElem?_append_right (by simp only [List.length_take]; omega)]
    simp only [List.length_take]
    rw [List.getElem?_append_right (by omega), List.getElem?_drop]
    congr 1
    omega

theorem overwrite_slice {content b : Bytes} {a : Nat} (h : a + b.length ≤ content.length) : slice (overwrite content a b) a b.length = b := by
  unfold slice overwrite
  have : (content.take a).length = a := by rw [List.length_take]; omega
  rw [List.drop_left' this, List.take_left]

end Bridge
