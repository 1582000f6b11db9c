import Verif.Proof.Varint
import Verif.Model.CoParse
/-
More steps never change an outcome other than "out of steps".
-/
namespace Bridge

/-- `r'` is `r`, or `r` ran out of steps. -/
def ResLe {α : Type} (r r' : Res α) : Prop := r = .error .fuel ∨ r = r'

theorem ResLe.refl {α : Type} (r : Res α) : ResLe r r := .inr rfl

theorem ResLe.bind {α β : Type} {x x' : Res α} {f f' : α → Res β} (h : ResLe x x') (hf : ∀ a, ResLe (f a) (f' a)) :
    ResLe (x >>= f) (x' >>= f') := by
  rcases h with h | h
  · subst h; exact .inl rfl
  · subst h
    cases x with
    | error e => exact .inr rfl
    | ok a => exact hf a

theorem ResLe.trans {α : Type} {a b c : Res α} (h1 : ResLe a b) (h2 : ResLe b c) : ResLe a c := by
  rcases h1 with h1 | h1
  · exact .inl h1
  · subst h1; exact h2

theorem parse_le (cfg : Cfg) (v : View) (sm : Option StringMap) (ref : Bool) (pool : PoolRef) : ∀ f : Nat,
    (∀ t c, ResLe (parseVal cfg v sm ref pool f t c) (parseVal cfg v sm ref pool (f + 1) t c)) ∧
    (∀ n c, ResLe (parseItems cfg v sm ref pool f n c) (parseItems cfg v sm ref pool (f + 1) n c)) ∧
    (∀ n c acc, ResLe (parseKVs cfg v sm ref pool f n c acc) (parseKVs cfg v sm ref pool (f + 1) n c acc)) := by
  intro f
  induction f with
  | zero =>
    refine ⟨?_, ?_, ?_⟩
    · intro t c; exact .inl (by rw [parseVal])
    · intro n c; exact .inl (by rw [parseItems])
    · intro n c acc; exact .inl (by rw [parseKVs])
  | succ f ih =>
    obtain ⟨ih1, ih2, ih3⟩ := ih
    refine ⟨?_, ?_, ?_⟩
    · intro t c
      cases t with
      | invalid => rw [parseVal, parseVal]; exact .refl _
      | data => rw [parseVal, parseVal]; exact .refl _
      | array =>
        rw [parseVal, parseVal]
        refine .bind (.refl _) fun _ => .bind (.refl _) fun _ => .bind (ih2 _ _) fun _ => .refl _
      | map =>
        rw [parseVal, parseVal]
        refine .bind (.refl _) fun _ => .bind (.refl _) fun _ => .bind (ih3 _ _ _) fun _ => .refl _
    · intro n c
      cases n with
      | zero => rw [parseItems, parseItems]; exact .refl _
      | succ n =>
        rw [parseItems, parseItems]
        refine .bind (.refl _) fun _ => .bind (ih1 _ _) fun _ => .bind (ih2 _ _) fun _ => .refl _
    · intro n c acc
      cases n with
      | zero => rw [parseKVs, parseKVs]; exact .refl _
      | succ n =>
        rw [parseKVs, parseKVs]
        refine .bind (.refl _) fun _ => .bind (.refl _) fun _ => .bind (ih1 _ _) fun _ => .bind (.refl _) fun _ => ih3 _ _ _

theorem joinTasks_le {α β : Type} {f g : β → Res α} (h : ∀ b, ResLe (f b) (g b)) (l : List β) :
    ResLe (joinTasks (l.map f)) (joinTasks (l.map g)) := by
  by_cases hf : (.error .fuel : Res α) ∈ l.map f
  · left
    unfold joinTasks
    have : ∃ e, ((l.map f).filterMap failure?).find? (fun e => fatalRank e = 3) = some e := by
      rw [← Option.isSome_iff_exists, List.find?_isSome]
      exact ⟨.fuel, List.mem_filterMap.mpr ⟨_, hf, rfl⟩, by simp [fatalRank]⟩
    obtain ⟨e, he⟩ := this
    simp only [he]
    have h3 := List.find?_some he
    simp only [decide_eq_true_eq] at h3
    cases e <;> simp [fatalRank] at h3
    rfl
  · right
    have : l.map f = l.map g := by
      apply List.map_congr_left
      intro b hb
      rcases h b with hab | hab
      · exact absurd (List.mem_map.mpr ⟨b, hb, hab⟩) hf
      · exact hab
    rw [this]

theorem coChild_le {s : Bool} {t : ObjectType} {a b c a' b' c' : Res (Obj × Cur)} (ha : ResLe a a') (hb : ResLe b b')
    (hc : ResLe c c') : ResLe (coChild s t a b c) (coChild s t a' b' c') := by
  unfold coChild
  cases s with
  | false => exact ha
  | true => cases t <;> first | exact hb | exact hc | exact .refl _

theorem co_le (cfg : Cfg) (v : View) (sm : Option StringMap) (si : SplitInfo) (ref : Bool) : ∀ f : Nat,
    (∀ e c, ResLe (coArrayBlock cfg v sm si ref f e c) (coArrayBlock cfg v sm si ref (f + 1) e c)) ∧
    (∀ os, ResLe (coArray cfg v sm si ref f os) (coArray cfg v sm si ref (f + 1) os)) ∧
    (∀ e c, ResLe (coMapBlock cfg v sm si ref f e c) (coMapBlock cfg v sm si ref (f + 1) e c)) ∧
    (∀ os, ResLe (coMap cfg v sm si ref f os) (coMap cfg v sm si ref (f + 1) os)) := by
  intro f
  induction f with
  | zero =>
    refine ⟨?_, ?_, ?_, ?_⟩
    · intro e c; exact .inl (by rw [coArrayBlock])
    · intro e; exact .inl (by rw [coArray])
    · intro e c; exact .inl (by rw [coMapBlock])
    · intro e; exact .inl (by rw [coMap])
  | succ f ih =>
    obtain ⟨ih1, ih2, ih3, ih4⟩ := ih
    have ihv := (parse_le cfg v sm ref .frame f).1
    refine ⟨?_, ?_, ?_, ?_⟩
    · intro e c
      rw [coArrayBlock, coArrayBlock]
      split
      · refine .bind (.refl _) fun _ => .bind (coChild_le (ihv _ _) (ih2 _) (ih4 _)) fun _ => .bind (ih1 _ _) fun _ => .refl _
      · exact .refl _
    · intro os
      rw [coArray, coArray]
      refine .bind (.refl _) fun _ => .bind (.refl _) fun _ => .bind (.refl _) fun _ => .bind ?_ fun _ => .refl _
      rw [← List.map_reverse, ← List.map_reverse]
      exact joinTasks_le (fun be : Nat × Nat => ih1 be.2 ⟨addW 0 be.1, be.1⟩) _
    · intro e c
      rw [coMapBlock, coMapBlock]
      split
      · refine .bind (.refl _) fun _ => .bind (.refl _) fun _ => .bind (coChild_le (ihv _ _) (ih2 _) (ih4 _)) fun _ =>
          .bind (ih3 _ _) fun _ => .refl _
      · exact .refl _
    · intro os
      rw [coMap, coMap]
      refine .bind (.refl _) fun _ => .bind (.refl _) fun _ => .bind (.refl _) fun _ => .bind ?_ fun _ => .refl _
      exact joinTasks_le (fun be : Nat × Nat => ih3 be.2 ⟨addW 0 be.1, be.1⟩) _

theorem parse_step_le (cfg : Cfg) (po : ParseOption) (f : Nat) (content : Bytes) :
    ResLe (parse cfg po f content) (parse cfg po (f + 1) content) := by
  have hn : ∀ s, ResLe (normalParse cfg po.parseRef f content s) (normalParse cfg po.parseRef (f + 1) content s) := by
    intro s
    unfold normalParse
    refine .bind ((parse_le cfg _ _ _ _ f).1 _ _) fun _ => .refl _
  unfold parse
  refine .bind (.refl _) fun s => ?_
  split
  · unfold coroutineParse
    split
    · exact .bind (.refl _) fun _ => hn _
    · split
      · exact .refl _
      · exact .bind ((co_le cfg _ _ _ _ f).2.2.2 _) fun _ => .refl _
  · exact hn s

/-- Once `Parse` has an outcome, more steps do not change it. -/
theorem parse_mono {cfg : Cfg} {po : ParseOption} {f g : Nat} {content : Bytes} {r : Res Obj} (h : parse cfg po f content = r)
    (hr : r ≠ .error .fuel) (hg : f ≤ g) : parse cfg po g content = r := by
  obtain ⟨k, rfl⟩ := Nat.exists_eq_add_of_le hg
  clear hg
  induction k with
  | zero => exact h
  | succ k ih =>
    rcases parse_step_le cfg po (f + k) content with h1 | h1
    · rw [ih] at h1; exact absurd h1 hr
    · rw [← Nat.add_assoc, ← h1, ih]

end Bridge
