import Verif.Props.Unsafe
import Verif.Props.Truncate
import Verif.Proof.CoSound
/-
C28, C29 for the parallel parser: what it accepts.
-/
set_option autoImplicit false
namespace Bridge
open Spec

theorem init_small {r : Cfg} {content : Bytes} {s : Sched} (h : initFromContent r content = .ok s) : Small s.si := by
  have hg := good_init r content
  rw [h] at hg
  unfold Good at hg
  exact hg

/-- C28, C29. Whatever the bytes are: if the parallel parser returns for a content with the split flag, then there is a split
table (of numbers below 2^32) with which the bytes behind the header can be read as a split map; the value returned is what that
map holds under the first key "root" (null if there is none), and its views, if any, lie in the content or its terminator.
For an in-situ parse this needs that no number field takes ten bytes. -/
theorem C28_parallel_accepted_is_document (r : Cfg) (content : Bytes) (hlen : content.length < 2 ^ 32) (po : ParseOption)
    (hco : po.coroutine = true) (hflag : content[9]? = some 0x0A) (href : po.parseRef = true → ShortNumbers content) (o : Obj)
    (h : Parses r po content (.ok o)) :
    ∃ mode dict table es stop,
      content[8]? = some mode ∧
      (mode = 0 ∧ dict = none ∨ mode = 1 ∧ ∃ f, dict = some f ∧ ∀ id b, f id = some b → b <:+: content ++ [0]) ∧
      (∀ id sizes, table id = some sizes → sizes.length < 2 ^ 32 ∧ ∀ x ∈ sizes, x < 2 ^ 32) ∧
      ReadsSplit r.asserts content dict table (.map es) 10 stop ∧
      o.doc? = firstEntry rootKey es ∧
      (o = .null ∨ o.Built (content ++ [0]) po.parseRef .frame) := by
  obtain ⟨-, n, hn⟩ := h
  have h := hn n (Nat.le_refl _)
  unfold parse at h
  obtain ⟨s, hs, h⟩ := bind_ok h
  have hsmall := init_small hs
  obtain ⟨hl10, -, -, hmode, hfl⟩ := init_inv hs
  have hsp : s.split = true := by
    rcases hfl with ⟨h1, -⟩ | ⟨-, h2⟩
    · rw [hflag] at h1; simp at h1
    · exact h2
  rw [if_pos hco] at h
  unfold coroutineParse at h
  rw [if_neg (by rw [hsp]; simp)] at h
  split at h
  · cases h
  obtain ⟨⟨root, c⟩, e1, h⟩ := bind_ok h
  simp only [pure_eq_ok, Except.ok.injEq] at h
  have hctx : SCtx r content s.sm po.parseRef := by
    refine ⟨by omega, ?_, href⟩
    intro m hm id x hx
    rcases hmode with ⟨-, h2⟩ | ⟨-, m', h2, -, h3⟩
    · rw [h2] at hm; cases hm
    · rw [h2] at hm; cases hm; exact h3 id x hx
  obtain ⟨d, j, -, -, -, g4, g5, g6, g7⟩ := (co_sound hctx hlen hsmall n).2.2.2 _ _ _ (by unfold metaSize; omega) e1
  cases d with
  | scalar x => simp [docType] at g4
  | array xs => simp [docType] at g4
  | map es =>
    obtain ⟨b8, hb8⟩ : ∃ b, content[8]? = some b := ⟨content[8]'(by omega), List.getElem?_eq_getElem (by omega)⟩
    refine ⟨b8, dictFn r s.sm, tableFn s.si, es, j, hb8, ?_, ?_, g6, ?_, ?_⟩
    · rcases hmode with ⟨h1, h2⟩ | ⟨h1, m, h2, -, h3⟩
      · rw [hb8] at h1
        exact .inl ⟨by simpa using h1, by rw [h2]; rfl⟩
      · rw [hb8] at h1
        refine .inr ⟨by simpa using h1, _, by rw [h2]; rfl, ?_⟩
        intro id b hb
        simp only at hb
        split at hb
        · rename_i x hx
          simp only [Option.some.injEq] at hb
          subst hb
          obtain ⟨a, -, -, k3⟩ := h3 id x hx
          rw [← k3]
          unfold slice
          exact (List.take_prefix _ _).isInfix.trans (List.drop_suffix _ _).isInfix
        · cases hb
    · intro id sizes hz
      unfold tableFn SplitInfo.getBlocks at hz
      split at hz
      · rename_i b hb
        simp only [Option.some.injEq] at hz
        subst hz
        split at hb
        · rename_i b' hg
          simp only [Except.ok.injEq] at hb
          subst hb
          exact hsmall _ (assocGet_some_mem hg)
        · cases hb
      · cases hz
    · rw [← h]
      cases root with
      | map rf pl sz items =>
        simp only [Obj.doc?] at g5
        split at g5
        · simp only [Option.map_eq_some_iff] at g5
          obtain ⟨ds, k1, k2⟩ := g5
          simp only [Doc.map.injEq] at k2
          simp only [takeRoot]
          rw [takeKey_doc k1, k2]
        · cases g5
      | null => simp [Obj.doc?] at g5
      | data => simp [Obj.doc?] at g5
      | array => simp only [Obj.doc?] at g5; split at g5 <;> simp at g5
    · rw [← h]
      cases root with
      | map rf pl sz items => exact takeKey_built g7.2.2
      | null => exact .inl rfl
      | data => exact .inl rfl
      | array => exact .inl rfl

/-- A written split document, and the same without its last byte. -/
def cutSplitSample : Bytes := (serialize tinyBlocks .normal twoBlocks).toOption.getD []

/-- C28, limits: the two parsers may accept the same content and return different documents.  The recursive parser counts the
children, the parallel parser believes the split table. -/
theorem C28_parsers_can_disagree :
    Parses tinyBlocks ⟨false, false, 1⟩ cutSplitSample.dropLast
      (.ok (.array .caller 2 [.data false BRIDGE_STRING (.str [1, 2, 3, 4, 5, 6, 7]), .data false BRIDGE_BYTES (.vec [0])])) ∧
    Parses tinyBlocks ⟨true, false, 1⟩ cutSplitSample.dropLast
      (.ok (.array .frame 1 [.data false BRIDGE_STRING (.str [1, 2, 3, 4, 5, 6, 7])])) := by
  constructor
  · exact parses_of_fuel (f := 40) (by decide +kernel) (by intro h; cases h)
  · exact parses_of_fuel (f := 40) (by decide +kernel) (by intro h; cases h)

/-- The hypotheses of the soundness theorem are met by that content. -/
example : cutSplitSample.dropLast.length < 2 ^ 32 ∧ cutSplitSample.dropLast[9]? = some 0x0A ∧
    ∃ o, Parses tinyBlocks ⟨true, false, 1⟩ cutSplitSample.dropLast (.ok o) ∧ o ≠ .null :=
  ⟨by decide +kernel, by decide +kernel, _, C28_parsers_can_disagree.2, by simp⟩

end Bridge
