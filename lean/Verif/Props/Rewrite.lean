import Verif.Proof.HeapRoot
import Verif.Props.HostileSplit
import Verif.Props.Layout
import Verif.Props.Witness2
/-
C79: storing what was loaded.
-/
set_option autoImplicit false
namespace Bridge
open Spec

/-- A tree whose root map is complete: what `takeRoot` finds is nothing or a complete tree. -/
theorem takeRoot_null_or_doc {root : Obj} {d : Doc} (h : root.doc? = some d) : takeRoot root = .null ∨ ∃ d', (takeRoot root).doc? = some d' := by
  cases root with
  | null => exact .inl rfl
  | data => exact .inl rfl
  | array => exact .inl rfl
  | map r p s items =>
    simp only [Obj.doc?] at h
    split at h
    · simp only [Option.map_eq_some_iff] at h
      obtain ⟨es, h1, -⟩ := h
      exact Heap.takeKey_doc_some ⟨es, h1⟩
    · cases h

/-- Whatever the content, the recursive parser returns nothing or a complete tree. -/
theorem accepted_complete {r : Cfg} {content : Bytes} {po : ParseOption} (hrec : po.coroutine = false ∨ content[9]? = some 0) {o : Obj}
    (h : Parses r po content (.ok o)) : o = .null ∨ ∃ d, o.doc? = some d := by
  obtain ⟨-, n, hn⟩ := h
  have h := hn n (Nat.le_refl _)
  unfold parse at h
  obtain ⟨s, hs, h⟩ := bind_ok h
  have key : ∀ {ref : Bool}, normalParse r ref n content s = .ok o → o = .null ∨ ∃ d, o.doc? = some d := by
    intro ref h
    unfold normalParse at h
    obtain ⟨⟨root, c⟩, e1, h⟩ := bind_ok h
    by_cases hc : c.off ≠ s.total
    · simp only [if_pos hc] at h; cases h
    · simp only [if_neg hc] at h
      cases h
      obtain ⟨d, hd⟩ := (Heap.parse_doc n).1 _ _ _ e1
      exact takeRoot_null_or_doc hd
  split at h
  · rename_i hco
    rcases hrec with hc | hflag
    · rw [hc] at hco; cases hco
    · unfold coroutineParse at h
      obtain ⟨-, -, -, -, hfl⟩ := init_inv hs
      rcases hfl with ⟨-, h2⟩ | ⟨h1, -⟩
      · rw [if_pos h2, hs, ok_bind] at h
        exact key h
      · rw [hflag] at h1; simp at h1
  · exact key h

/-- The parallel parser on a split content. -/
theorem accepted_split_complete {r : Cfg} {content : Bytes} (hlen : content.length < 2 ^ 32) {po : ParseOption} (hco : po.coroutine = true)
    (hflag : content[9]? = some 0x0A) (href : po.parseRef = true → ShortNumbers content) {o : Obj} (h : Parses r po content (.ok o)) :
    o = .null ∨ ∃ d, o.doc? = some d := by
  obtain ⟨-, n, hn⟩ := h
  have h := hn n (Nat.le_refl _)
  unfold parse at h
  obtain ⟨s, hs, h⟩ := bind_ok h
  have hsmall := init_small hs
  obtain ⟨hl10, -, -, hmode, hfl⟩ := init_inv hs
  have hsp : s.split = true := by
    rcases hfl with ⟨h1, -⟩ | ⟨-, h2⟩
    · rw [hflag] at h1; simp at h1
    · exact h2
  rw [if_pos hco] at h
  unfold coroutineParse at h
  rw [if_neg (by rw [hsp]; simp)] at h
  split at h
  · cases h
  obtain ⟨⟨root, c⟩, e1, h⟩ := bind_ok h
  simp only [pure_eq_ok, Except.ok.injEq] at h
  have hctx : SCtx r content s.sm po.parseRef := by
    refine ⟨by omega, ?_, href⟩
    intro m hm id x hx
    rcases hmode with ⟨-, h2⟩ | ⟨-, m', h2, -, h3⟩
    · rw [h2] at hm; cases hm
    · rw [h2] at hm; cases hm; exact h3 id x hx
  obtain ⟨d, j, -, -, -, g4, g5, g6, g7⟩ := (co_sound hctx hlen hsmall n).2.2.2 _ _ _ (by unfold metaSize; omega) e1
  rw [← h]
  exact takeRoot_null_or_doc g5

/-- Both. -/
theorem accepted_any_complete {r : Cfg} {content : Bytes} {po : ParseOption} {o : Obj} (h : Parses r po content (.ok o))
    (hs : po.coroutine = true → content[9]? = some 0x0A → content.length < 2 ^ 32 ∧ (po.parseRef = true → ShortNumbers content)) :
    o = .null ∨ ∃ d, o.doc? = some d := by
  by_cases hc : po.coroutine = true ∧ content[9]? = some 0x0A
  · obtain ⟨h1, h2⟩ := hs hc.1 hc.2
    exact accepted_split_complete h1 hc.1 hc.2 h2 h
  · refine accepted_complete ?_ h
    obtain ⟨-, n, hn⟩ := h
    have h := hn n (Nat.le_refl _)
    unfold parse at h
    obtain ⟨s, hs, -⟩ := bind_ok h
    obtain ⟨-, -, -, -, hfl⟩ := init_inv hs
    rcases hfl with ⟨h1, -⟩ | ⟨h1, -⟩
    · exact .inr h1
    · by_cases hp : po.coroutine = true
      · exact absurd ⟨hp, h1⟩ hc
      · exact .inl (by simpa using hp)

/-- C79. What was loaded can be stored again.  Take any content whatever - written by this library, by another program, or damaged - that
`Parse` accepts, with either parser, owning or in situ.  If it contains a document at all, that document is complete: `Serialize` accepts it, in
either encoding, and parsing what it writes, with either parser, gives the same document up to the order of map entries.  (A build with a
hardened library refuses empty views.  A split content that is parsed in parallel must be below 4 GiB.) -/
theorem C79_loaded_can_be_stored (r w r' : Cfg) (content : Bytes) (po : ParseOption) (o : Obj) (h : Parses r po content (.ok o)) (hne : o ≠ .null)
    (hs : po.coroutine = true → content[9]? = some 0x0A → content.length < 2 ^ 32 ∧ (po.parseRef = true → ShortNumbers content))
    (hw : w.charSigned = true) (hh : Writable w o) (t : SeriType) :
    ∃ d c, o.doc? = some d ∧ serialize w t o = .ok c ∧
      (Fits r' c → ∀ (co : Bool) (k : Nat), 0 < k → ∃ o' d', Parses r' ⟨co, false, k⟩ c (.ok o') ∧ o'.doc? = some d' ∧ d.Same d') := by
  rcases accepted_any_complete h hs with e | ⟨d, hd⟩
  · exact absurd e hne
  refine ⟨d, _, hd, serialize_eq hw t hd hh, fun hf co k hk => ?_⟩
  cases co with
  | false =>
    obtain ⟨o1, e1, e2, -⟩ := parses_normal (extra := []) (by simpa using hf) false (by simp) k
    exact ⟨o1, _, by simpa using e1, e2, same_revMaps _⟩
  | true =>
    obtain ⟨o1, d1, e1, e2, e3, -⟩ := parses_co (extra := []) (by simpa using hf) false (by simp) hk
    exact ⟨o1, d1, by simpa using e1, e2, e3⟩

/-- The order in which hash tables iterate does not change the length of the tables. -/
theorem tables_length (w w' : Cfg) (sm : Option StringMap) (si : SplitInfo) :
    (dictPart w sm ++ splitPart w si).length = (dictPart w' sm ++ splitPart w' si).length := by
  have hsm : ∀ m : StringMap, (smTableB w m).length = (smTableB w' m).length := by
    intro m
    have hp : ((w.smOrd m.map).map smEntryB).Perm ((w'.smOrd m.map).map smEntryB) :=
      ((w.smPerm m.map).trans (w'.smPerm m.map).symm).map _
    simp only [smTableB, List.length_append, hp.flatten.length_eq]
  have hsi : ∀ si : SplitInfo, (siTableB w si).length = (siTableB w' si).length := by
    intro si
    have hp : ((w.siOrd si.info).map siEntryB).Perm ((w'.siOrd si.info).map siEntryB) :=
      ((w.siPerm si.info).trans (w'.siPerm si.info).symm).map _
    simp only [siTableB, List.length_append, hp.flatten.length_eq]
  cases sm with
  | none => simp [dictPart, splitPart, hsi]
  | some m => simp [dictPart, splitPart, hsi, hsm]

/-- C79. Storing and loading settles: after one rewrite of any accepted content, loading and storing twice more gives back the same bytes - the
header and the document byte for byte, and the tables too when the hash tables iterate in the same order.  Nothing is lost or grows with every
load and store. -/
theorem C79_rewriting_settles (r w r1 w1 r2 w2 : Cfg) (content : Bytes) (po : ParseOption) (o : Obj) (h : Parses r po content (.ok o)) (hne : o ≠ .null)
    (hs : po.coroutine = true → content[9]? = some 0x0A → content.length < 2 ^ 32 ∧ (po.parseRef = true → ShortNumbers content))
    (hw : w.charSigned = true) (hw1 : w1.charSigned = true) (hw2 : w2.charSigned = true) (hB : w.blockSize = w2.blockSize)
    (hh : Writable w o) (hn1 : w1.hardened = false) (hn2 : w2.hardened = false) (t t1 : SeriType) :
    ∃ head tail, serialize w t o = .ok (head ++ tail) ∧
      (Fits r1 (head ++ tail) → ∃ o1 c1, Parses r1 {} (head ++ tail) (.ok o1) ∧ serialize w1 t1 o1 = .ok c1 ∧
        (Fits r2 c1 → ∃ o2 tail2, Parses r2 {} c1 (.ok o2) ∧ serialize w2 t o2 = .ok (head ++ tail2) ∧ tail2.length = tail.length ∧
          head.take 8 = bigEndian 8 head.length ∧ (w.smOrd = w2.smOrd → w.siOrd = w2.siOrd → tail2 = tail))) := by
  rcases accepted_any_complete h hs with e | ⟨d, hd⟩
  · exact absurd e hne
  refine ⟨headOf w t d ++ (bodyOf w t d).1, dictPart w (bodyOf w t d).2.2.sm ++ splitPart w (bodyOf w t d).2.2.si, ?_, fun hf => ?_⟩
  · rw [serialize_eq hw t hd hh, contentOf]; simp
  have hc : contentOf w t d = headOf w t d ++ (bodyOf w t d).1 ++ (dictPart w (bodyOf w t d).2.2.sm ++ splitPart w (bodyOf w t d).2.2.si) := by
    rw [contentOf]; simp
  rw [← hc] at hf ⊢
  obtain ⟨o1, h1, h2, -⟩ := parses_normal (extra := []) (by simpa using hf) false (by simp) 1
  refine ⟨o1, _, by simpa using h1, serialize_eq hw1 t1 h2 (hard_of_unhardened hn1 o1), fun hf' => ?_⟩
  obtain ⟨o2, h3, h4, -⟩ := parses_normal (extra := []) (by simpa using hf') false (by simp) 1
  rw [revMaps_revMaps] at h4
  have hb : bodyOf w t d = bodyOf w2 t d := emitDoc_cfg hB _ _
  have hhead : headOf w t d = headOf w2 t d := by simp only [headOf, hb]
  refine ⟨o2, dictPart w2 (bodyOf w t d).2.2.sm ++ splitPart w2 (bodyOf w t d).2.2.si, by simpa using h3, ?_, tables_length w2 w _ _, ?_, ?_⟩
  · rw [serialize_eq hw2 t h4 (hard_of_unhardened hn2 o2), contentOf, hhead, hb]; simp
  · have : (headOf w t d ++ (bodyOf w t d).1).length = 10 + (bodyOf w t d).1.length := by simp [headOf_length]
    rw [this]
    simp only [headOf]
    rw [List.append_assoc, List.take_left' (bigEndian_length 8 _)]
  · intro h1 h2
    simp only [dictPart, splitPart, smTableB, siTableB, h1, h2]

/-! A content that no writer produces (the last byte of a split document is cut off), accepted by both parsers with different results: both
results can be stored. -/

example (t : SeriType) : ∃ d c, (Obj.array .caller 2 [.data false BRIDGE_STRING (.str [1, 2, 3, 4, 5, 6, 7]), .data false BRIDGE_BYTES (.vec [0])]).doc? = some d ∧
    serialize Cfg.x86 t (.array .caller 2 [.data false BRIDGE_STRING (.str [1, 2, 3, 4, 5, 6, 7]), .data false BRIDGE_BYTES (.vec [0])]) = .ok c := by
  obtain ⟨d, c, h1, h2, -⟩ := C79_loaded_can_be_stored tinyBlocks Cfg.x86 Cfg.x86 _ ⟨false, false, 1⟩ _ C28_parsers_can_disagree.1 (by intro h; cases h)
    (by intro h; cases h) rfl (hard_of_unhardened rfl _) t
  exact ⟨d, c, h1, h2⟩

example (t : SeriType) : ∃ d c, (Obj.array .frame 1 [.data false BRIDGE_STRING (.str [1, 2, 3, 4, 5, 6, 7])]).doc? = some d ∧
    serialize Cfg.x86 t (.array .frame 1 [.data false BRIDGE_STRING (.str [1, 2, 3, 4, 5, 6, 7])]) = .ok c := by
  obtain ⟨d, c, h1, h2, -⟩ := C79_loaded_can_be_stored tinyBlocks Cfg.x86 Cfg.x86 _ ⟨true, false, 1⟩ _ C28_parsers_can_disagree.2 (by intro h; cases h)
    (fun _ _ => ⟨by decide +kernel, by intro h; cases h⟩) rfl (hard_of_unhardened rfl _) t
  exact ⟨d, c, h1, h2⟩

/-- And rewriting it settles. -/
example : ∃ head tail, serialize Cfg.x86 .replace (.array .caller 2 [.data false BRIDGE_STRING (.str [1, 2, 3, 4, 5, 6, 7]), .data false BRIDGE_BYTES (.vec [0])])
      = .ok (head ++ tail) ∧ Fits Cfg.x86 (head ++ tail) := by
  obtain ⟨head, tail, h1, -⟩ := C79_rewriting_settles tinyBlocks Cfg.x86 Cfg.x86 Cfg.x86 Cfg.x86 Cfg.x86 _ ⟨false, false, 1⟩ _ C28_parsers_can_disagree.1 (by intro h; cases h)
    (by intro h; cases h) rfl rfl rfl rfl (hard_of_unhardened rfl _) rfl rfl .replace .normal
  refine ⟨head, tail, h1, ?_⟩
  have hl : ((serialize Cfg.x86 .replace (.array .caller 2 [.data false BRIDGE_STRING (.str [1, 2, 3, 4, 5, 6, 7]), .data false BRIDGE_BYTES (.vec [0])])).toOption.getD []).length < 100 := by
    decide +kernel
  rw [h1] at hl
  have hl' : (head ++ tail).length < 100 := hl
  exact ⟨by omega, fun _ => by omega, by simp only [Cfg.x86]; omega⟩

end Bridge
