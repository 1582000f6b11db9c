import Verif.Props.Tables
import Verif.Props.Hostile
/-
C32: dictionary tables that this library did not write.
-/
set_option autoImplicit false
namespace Bridge
open Spec

/-- The pairs with a string that no earlier pair has. -/
def keepFirst (acc : List (Bytes × Nat)) (e : Bytes × Nat) : List (Bytes × Nat) :=
  if acc.any (fun x => decide (x.1 = e.1)) then acc else acc ++ [e]

theorem smConstructGo_any {cfg : Cfg} {v : View} (hv : SizeOk cfg v.len) (hmem : v.base + v.len ≤ v.mem.length) :
    ∀ (es : List (Bytes × Nat)) (i : Nat) (acc : List (Str × Nat)),
    HasAt v.mem (v.base + i) (es.map fun e => lenB e.1.length ++ (e.1 ++ lenB e.2)).flatten →
    i + (es.map fun e => lenB e.1.length ++ (e.1 ++ lenB e.2)).flatten.length ≤ v.len →
    (∀ e ∈ es, e.2 < 2 ^ 32 ∧ e.1.length < 2 ^ 32) →
    ∃ r, smConstructGo cfg v es.length ⟨i, i⟩ acc = .ok r ∧
      r.map (fun e => (e.1.bytes, e.2)) = es.foldl keepFirst (acc.map fun e => (e.1.bytes, e.2)) := by
  intro es
  induction es with
  | nil => intro i acc _ _ _; exact ⟨acc, by simp [smConstructGo], rfl⟩
  | cons e es ih =>
    intro i acc hat hin hb
    obtain ⟨s, id⟩ := e
    obtain ⟨hid, hkl⟩ := hb (s, id) (by simp)
    simp only at hid hkl
    simp only [List.map_cons, List.flatten_cons, List.length_append] at hat hin
    rw [HasAt.append, HasAt.append, HasAt.append] at hat
    obtain ⟨⟨h1, h2, h3⟩, h4⟩ := hat
    have hv1 := hv.1
    have hp3 := lenB_length_pos id
    simp only [List.length_cons, smConstructGo]
    rw [parseLength_lenB hv hkl h1 (by omega)]
    simp only [ok_bind]
    rw [curAddr_ok (by simp only; omega)]
    simp only [ok_bind]
    rw [skip_bump (by omega)]
    rw [parseLength_lenB hv hid (by rw [show v.base + (i + (lenB s.length).length + s.length) =
      v.base + i + (lenB s.length).length + s.length by omega]; exact h3) (by omega)]
    simp only [ok_bind]
    rw [show v.base + (i + (lenB s.length).length) = v.base + i + (lenB s.length).length by omega]
    rw [h2.readRange (by omega)]
    simp only [ok_bind, toU32_of_lt hid]
    obtain ⟨r, hr1, hr2⟩ := ih (i + (lenB s.length).length + s.length + (lenB id).length)
      (if acc.any (fun e => decide (e.1.bytes = s)) then acc else
        acc ++ [(⟨s, some (v.base + i + (lenB s.length).length, s.length)⟩, id)])
      (by simp only [List.length_append] at h4
          rw [show v.base + (i + (lenB s.length).length + s.length + (lenB id).length) =
            v.base + i + ((lenB s.length).length + (s.length + (lenB id).length)) by omega]
          exact h4)
      (by omega) (fun e he => hb e (List.mem_cons_of_mem _ he))
    refine ⟨r, hr1, ?_⟩
    rw [hr2, List.foldl_cons]
    congr 1
    unfold keepFirst
    simp only [List.any_map, Function.comp_def]
    split <;> simp

theorem keepFirst_mem : ∀ (es acc : List (Bytes × Nat)) (b : Bytes) (id : Nat), (b, id) ∈ es.foldl keepFirst acc ↔
    (b, id) ∈ acc ∨ ((∀ e ∈ acc, e.1 ≠ b) ∧ FirstPair es b id) := by
  intro es
  induction es with
  | nil =>
    intro acc b id
    simp only [List.foldl_nil]
    constructor
    · exact .inl
    · rintro (h | ⟨-, bef, aft, h, -⟩)
      · exact h
      · simp at h
  | cons e es ih =>
    intro acc b id
    simp only [List.foldl_cons, ih]
    obtain ⟨s, n⟩ := e
    have hfp : FirstPair ((s, n) :: es) b id ↔ (s = b ∧ n = id) ∨ (s ≠ b ∧ FirstPair es b id) := by
      constructor
      · rintro ⟨bef, aft, h, hn⟩
        cases bef with
        | nil => simp only [List.nil_append, List.cons.injEq, Prod.mk.injEq] at h; exact .inl h.1
        | cons x bef =>
          simp only [List.cons_append, List.cons.injEq] at h
          obtain ⟨rfl, h⟩ := h
          exact .inr ⟨hn (s, n) (by simp), bef, aft, h, fun e he => hn e (List.mem_cons_of_mem _ he)⟩
      · rintro (⟨rfl, rfl⟩ | ⟨hne, bef, aft, h, hn⟩)
        · exact ⟨[], es, rfl, by simp⟩
        · refine ⟨(s, n) :: bef, aft, by simp [h], ?_⟩
          intro e he
          rcases List.mem_cons.mp he with rfl | he
          · exact hne
          · exact hn e he
    rw [hfp]
    unfold keepFirst
    split
    · rename_i hany
      simp only [List.any_eq_true, decide_eq_true_eq] at hany
      obtain ⟨x, hx, hxs⟩ := hany
      constructor
      · rintro (h | ⟨h1, h2⟩)
        · exact .inl h
        · exact .inr ⟨h1, .inr ⟨fun he => h1 x hx (hxs.trans he), h2⟩⟩
      · rintro (h | ⟨h1, ⟨h2, -⟩ | ⟨-, h2⟩⟩)
        · exact .inl h
        · exact absurd (hxs.trans h2) (h1 x hx)
        · exact .inr ⟨h1, h2⟩
    · rename_i hany
      simp only [List.any_eq_true, decide_eq_true_eq, not_exists, not_and] at hany
      simp only [List.mem_append, List.mem_singleton, Prod.mk.injEq]
      constructor
      · rintro ((h | ⟨rfl, rfl⟩) | ⟨h1, h2⟩)
        · exact .inl h
        · exact .inr ⟨hany, .inl ⟨rfl, rfl⟩⟩
        · exact .inr ⟨fun e he => h1 e (.inl he), .inr ⟨h1 (s, n) (.inr rfl), h2⟩⟩
      · rintro (h | ⟨h1, ⟨rfl, rfl⟩ | ⟨h2, h3⟩⟩)
        · exact .inl (.inl h)
        · exact .inl (.inr ⟨rfl, rfl⟩)
        · refine .inr ⟨?_, h3⟩
          rintro e (he | rfl)
          · exact h1 e he
          · exact h2

/-- C32. A dictionary table from any writer, which may list strings and ids more than once: it is read without complaint; a
repeated string keeps its first id, and an id that is then left without a string throws when it is looked up.  An id that is
left with several strings gives one of them. -/
theorem C32_foreign_table (r : Cfg) (es : List (Bytes × Nat)) (hes : ∀ e ∈ es, e.2 < 2 ^ 32) (b : Bytes)
    (hb : b = leb128 es.length ++ (es.map fun e => leb128 e.1.length ++ (e.1 ++ leb128 e.2)).flatten)
    (hlt : b.length < 2 ^ 32) (hsm : r.asserts = true → b.length < 2 ^ 31) (pre post : Bytes) :
    ∃ m, StringMap.construct r ⟨pre ++ b ++ post, pre.length, b.length⟩ = .ok m ∧
      ∀ id, (∀ s, (m.getStr r id).2 = .ok s → FirstPair es s.bytes id) ∧
        ((∃ x, FirstPair es x id) → ∃ s, (m.getStr r id).2 = .ok s) ∧
        ((∀ x, ¬ FirstPair es x id) → (m.getStr r id).2 = .error (.exn .getStr)) := by
  have hlen : ∀ e ∈ es, e.1.length < 2 ^ 32 := by
    intro e he
    have : (leb128 e.1.length ++ (e.1 ++ leb128 e.2)).length ≤
        (es.map fun e => leb128 e.1.length ++ (e.1 ++ leb128 e.2)).flatten.length := by
      apply List.Sublist.length_le
      exact List.sublist_flatten_of_mem (List.mem_map.mpr ⟨e, he, rfl⟩)
    rw [hb] at hlt
    simp only [List.length_append] at this hlt
    omega
  have hcount : ∀ l : List (Bytes × Nat), l.length ≤ (l.map fun e => leb128 e.1.length ++ (e.1 ++ leb128 e.2)).flatten.length := by
    intro l
    induction l with
    | nil => simp
    | cons e l ih =>
      simp only [List.map_cons, List.flatten_cons, List.length_append, List.length_cons]
      have := leb128_length_pos e.1.length
      omega
  have hn : es.length < 2 ^ 32 := by
    have := hcount es
    rw [hb, List.length_append] at hlt; omega
  have hB : b = lenB es.length ++ (es.map fun e => lenB e.1.length ++ (e.1 ++ lenB e.2)).flatten := by
    rw [hb]
    congr 1
    · unfold lenB; rw [toU32_of_lt hn]
    · congr 1
      apply List.map_congr_left
      intro e he
      unfold lenB
      rw [toU32_of_lt (hlen e he), toU32_of_lt (hes e he)]
  have hat : HasAt (pre ++ b ++ post) pre.length (lenB es.length ++ (es.map fun e => lenB e.1.length ++ (e.1 ++ lenB e.2)).flatten) := by
    rw [← hB]; exact HasAt.intro pre b post
  rw [HasAt.append] at hat
  have hv : SizeOk r b.length := ⟨by omega, hsm⟩
  have hbl : b.length = (lenB es.length).length + (es.map fun e => lenB e.1.length ++ (e.1 ++ lenB e.2)).flatten.length := by
    conv => lhs; rw [hB]
    rw [List.length_append]
  have hpl := parseLength_lenB (cfg := r) (v := ⟨pre ++ b ++ post, pre.length, b.length⟩) (i := 0) hv hn
    (by simpa using hat.1) (by simp only; omega)
  obtain ⟨l, h1, h2⟩ := smConstructGo_any (cfg := r) (v := ⟨pre ++ b ++ post, pre.length, b.length⟩) hv
    (by simp only [List.length_append]; omega) es (0 + (lenB es.length).length) []
    (by simpa using hat.2) (by simp only; omega) (fun e he => ⟨hes e he, hlen e he⟩)
  refine ⟨{ map := l }, ?_, ?_⟩
  · unfold StringMap.construct
    rw [hpl]
    simp only [ok_bind, toU32_of_lt hn]
    rw [h1]
    rfl
  have hmem : ∀ x id, (x, id) ∈ l.map (fun e => (e.1.bytes, e.2)) ↔ FirstPair es x id := by
    intro x id
    rw [h2, keepFirst_mem]
    simp
  have hnone : ∀ id, (∀ x, ¬ FirstPair es x id) → (({ map := l } : StringMap).getStr r id).2 = .error (.exn .getStr) := by
    intro id hno
    have := lookup_not_mem (cfg := r) (m := { map := l }) rfl (id := id) (by
      intro hc
      obtain ⟨e, he, rfl⟩ := List.mem_map.mp hc
      exact hno _ ((hmem e.1.bytes e.2).mp (List.mem_map.mpr ⟨e, he, rfl⟩)))
    exact this
  intro id
  refine ⟨?_, ?_, hnone id⟩
  · intro s hs
    have := lookup_from (cfg := r) (m := { map := l }) rfl hs
    exact (hmem s.bytes id).mp (List.mem_map.mpr ⟨_, this, rfl⟩)
  · rintro ⟨x, hx⟩
    obtain ⟨e, he, hxe⟩ := List.mem_map.mp ((hmem x id).mpr hx)
    simp only [Prod.mk.injEq] at hxe
    cases hg : (({ map := l } : StringMap).getStr r id).2 with
    | ok s => exact ⟨s, rfl⟩
    | error er =>
      exfalso
      unfold StringMap.getStr StringMap.buildReMap at hg
      simp only at hg
      have hp := r.smPerm l
      have key : ∀ (l : List (Str × Nat)) (acc : List (Nat × Str)), (id ∈ l.map Prod.snd ∨ (assocGet acc id).isSome) →
          (assocGet (l.foldl (fun r e => assocSet r e.2 e.1) acc) id).isSome := by
        intro l
        induction l with
        | nil => intro acc h; simpa using h
        | cons p l ih =>
          intro acc h
          simp only [List.foldl_cons]
          apply ih
          by_cases hpi : p.2 = id
          · right; rw [hpi, assocGet_set_self]; rfl
          · rw [assocGet_set_ne _ _ (Ne.symm hpi)]
            rcases h with h | h
            · simp only [List.map_cons, List.mem_cons] at h
              rcases h with h | h
              · exact absurd h.symm hpi
              · exact .inl h
            · exact .inr h
      have := key (r.smOrd l) [] (.inl (List.mem_map.mpr ⟨e, hp.mem_iff.mpr he, hxe.2⟩))
      rw [Option.isSome_iff_exists] at this
      obtain ⟨y, hy⟩ := this
      rw [hy] at hg
      cases hg

/-- "a" is listed with ids 0 and 1: a lookup of 0 finds it, a lookup of 1 throws. -/
example : ((StringMap.construct Cfg.x86 (View.whole [2, 1, 97, 0, 1, 97, 1])).toOption.map fun m =>
    (m.getStr Cfg.x86 0).2.toOption.map Str.bytes) = some (some [97]) ∧
    ((StringMap.construct Cfg.x86 (View.whole [2, 1, 97, 0, 1, 97, 1])).toOption.map fun m =>
    (m.getStr Cfg.x86 1).2.toOption.map Str.bytes) = some none := by
  constructor <;> decide +kernel

example : FirstPair [([97], 0), ([97], 1)] [97] 0 ∧ ¬ FirstPair [([97], 0), ([97], 1)] [97] 1 := by
  refine ⟨⟨[], _, rfl, by simp⟩, ?_⟩
  rintro ⟨bef, aft, h, hn⟩
  cases bef with
  | nil => simp at h
  | cons x bef =>
    simp only [List.cons_append, List.cons.injEq] at h
    obtain ⟨rfl, -⟩ := h
    exact hn ([97], 0) (by simp) rfl

end Bridge
