import Verif.Props.RoundTrip
/-
C25, C27, C49, C50: the serialized form.
-/
set_option autoImplicit false
namespace Bridge
open Spec

/-! ### C25 -/

/-- C25. Layout of a document: the 8-byte big-endian length of the main section (header included), the mode byte, the split
flag (0x0A exactly when the bytes of the root map's children reach the block size), the main section, which starts with the
count and split id of the root map, then the dictionary (REPLACE only), then the split table, each preceded by its size. -/
theorem C25_layout (w : Cfg) (hw : w.charSigned = true) (t : SeriType) (o : Obj) (d : Doc) (hd : o.doc? = some d)
    (hh : Writable w o) :
    ∃ content flag children dict table, serialize w t o = .ok content ∧
      (content.length < 2 ^ 32 →
      content = bigEndian 8 (12 + children.length) ++ ([if t = .normal then 0 else 1, flag] ++
          ([1, 1] ++ children ++ (dict ++ (leb128 table.length ++ table)))) ∧
      (flag = 0x0A ∨ flag = 0) ∧ (flag = 0x0A ↔ w.blockSize ≤ children.length) ∧
      (t = .normal → dict = []) ∧ (t = .replace → ∃ s, dict = leb128 s.length ++ s)) := by
  have hlay : ∃ chunk e', bodyOf w t d = emitContainer w 1 1 [chunk] e' := by
    simp only [bodyOf, rootDoc, emitDoc, emitKVs, List.length_cons, List.length_nil]
    exact ⟨_, _, rfl⟩
  obtain ⟨chunk, e', hb⟩ := hlay
  have h1 : lenB 1 = [1] := by simp [lenB, toU32, leb128]
  have hbody : (bodyOf w t d).1 = [1, 1] ++ chunk := by
    rw [hb]; simp [emitContainer, h1]
  have hsplit : (bodyOf w t d).2.1 = mustSplit w (blocksOf w [chunk]) := by rw [hb]; rfl
  have hcp : 0 < chunk.length := by
    have := emitKVs_pos w [(rootKey, d)] { env0 t with si := (env0 t).si.requestId.1 }
    have hb' : emitContainer w 1 1 (emitKVs w [(rootKey, d)] { env0 t with si := (env0 t).si.requestId.1 }).1
      (emitKVs w [(rootKey, d)] { env0 t with si := (env0 t).si.requestId.1 }).2 = emitContainer w 1 1 [chunk] e' := by
      rw [← hb]; rfl
    have h2 := congrArg (fun x => x.1.length) hb'
    simp only [emitContainer_length, h1] at h2
    have h3 : (emitKVs w [(rootKey, d)] { env0 t with si := (env0 t).si.requestId.1 }).1.length = 1 := emitKVs_length _ _ _
    obtain ⟨c0, hc0⟩ : ∃ c0, (emitKVs w [(rootKey, d)] { env0 t with si := (env0 t).si.requestId.1 }).1 = [c0] :=
      List.length_eq_one_iff.mp h3
    have h4 := this c0 (by rw [hc0]; simp)
    rw [hc0] at h2
    simp at h2; omega
  refine ⟨contentOf w t d, if (bodyOf w t d).2.1 then 0x0A else 0, chunk, dictPart w (bodyOf w t d).2.2.sm,
    siTableB w (bodyOf w t d).2.2.si, serialize_eq hw t hd hh, fun hlt => ?_⟩
  have hdict : ∀ m, (bodyOf w t d).2.2.sm = some m → (smTableB w m).length < 2 ^ 32 := by
    intro m hm
    have := congrArg List.length (show contentOf w t d = _ from rfl)
    simp only [contentOf, dictPart, hm, List.length_append] at this hlt
    omega
  have hsi : (siTableB w (bodyOf w t d).2.2.si).length < 2 ^ 32 := by
    simp only [contentOf, splitPart, List.length_append] at hlt
    omega
  have hcl : chunk.length < 2 ^ 32 := by
    simp only [contentOf, hbody, List.length_append] at hlt
    omega
  have hroom : Room (env0 t) (bodyOf w t d).1.length := env0_room t (by
    simp only [contentOf, List.length_append, headOf_length] at hlt; omega)
  have hg : Grows (env0 t) (bodyOf w t d).2.2 (bodyOf w t d).1.length := emitDoc_grows w (rootDoc d) (env0 t) hroom
  refine ⟨?_, ?_, ?_, ?_, ?_⟩
  · simp only [contentOf, headOf, splitPart, hbody]
    have e1 : lenB (siTableB w (bodyOf w t d).2.2.si).length = leb128 (siTableB w (bodyOf w t d).2.2.si).length := by
      unfold lenB; rw [toU32_of_lt hsi]
    have e2 : 10 + ([1, 1] ++ chunk).length = 12 + chunk.length := by simp; omega
    rw [e1, e2]
    cases t <;> simp [SeriType.toChar]
  · cases (bodyOf w t d).2.1 <;> simp
  · rw [hsplit]
    have hbl : blocksOf w [chunk] = [chunk.length] := by
      simp only [blocksOf, groupSizes, List.map_cons, List.map_nil, Nat.zero_add]
      split
      · simp [toU32_of_lt hcl]
      · simp [hcp, toU32_of_lt hcl]
    rw [hbl]
    by_cases hB : w.blockSize ≤ chunk.length
    · simp [mustSplit, hB]
    · simp [mustSplit, hB]
  · intro ht
    subst ht
    have := hg.smNone rfl
    rw [this]; rfl
  · intro ht
    subst ht
    obtain ⟨m, hm, _⟩ := hg.sm {} rfl ((hroom.sm {} rfl).1)
    refine ⟨smTableB w m, ?_⟩
    simp only [dictPart, hm]
    unfold lenB
    rw [toU32_of_lt (hdict m hm)]

example : serialize Cfg.x86 .normal (.data false BRIDGE_INT32 (.i32 5)) =
    .ok [0, 0, 0, 0, 0, 0, 0, 24, 0, 0, 1, 1, 4, 114, 111, 111, 116, 0, 2, 4, 0, 0, 0, 5, 1, 0] := by decide +kernel

/-! ### C27 -/

/-- C27. Any bytes after a document are ignored: both parsers, both encodings, owning and in situ, return the same document as
without them. -/
theorem C27_trailing_bytes_ignored (w r : Cfg) (hw : w.charSigned = true) (t : SeriType) (o : Obj) (d : Doc)
    (hd : o.doc? = some d) (hh : Writable w o) (ref : Bool) (hc : ref = true → d.noCustom = true) (k : Nat) (hk : 0 < k)
    (extra : Bytes) :
    ∃ content, serialize w t o = .ok content ∧ (Fits r (content ++ extra) →
      (∃ o1 o2, Parses r ⟨false, ref, k⟩ content (.ok o1) ∧ Parses r ⟨false, ref, k⟩ (content ++ extra) (.ok o2) ∧
        o1.doc? = some d.revMaps ∧ o2.doc? = some d.revMaps) ∧
      (∃ o1 o2 d1 d2, Parses r ⟨true, ref, k⟩ content (.ok o1) ∧ Parses r ⟨true, ref, k⟩ (content ++ extra) (.ok o2) ∧
        o1.doc? = some d1 ∧ o2.doc? = some d2 ∧ d.Same d1 ∧ d1.Same d2)) := by
  refine ⟨_, serialize_eq hw t hd hh, fun hf => ?_⟩
  have hf0 : Fits r (contentOf w t d ++ []) := by
    have hl : (contentOf w t d ++ []).length ≤ (contentOf w t d ++ extra).length := by simp
    exact ⟨Nat.lt_of_le_of_lt hl hf.lt, fun h => Nat.lt_of_le_of_lt hl (hf.small h), Nat.le_trans hl hf.max⟩
  constructor
  · obtain ⟨o1, h1, h2, _⟩ := parses_normal hf0 ref hc k
    obtain ⟨o2, h3, h4, _⟩ := parses_normal hf ref hc k
    exact ⟨o1, o2, by simpa using h1, h3, h2, h4⟩
  · obtain ⟨o1, d1, h1, h2, h2', _⟩ := parses_co hf0 ref hc hk
    obtain ⟨o2, d2, h3, h4, h4', _⟩ := parses_co hf ref hc hk
    exact ⟨o1, o2, d1, d2, by simpa using h1, h3, h2, h4, h2', same_trans (same_symm h2') h4'⟩

example : Fits Cfg.x86 ((serialize Cfg.x86 .replace sampleObj).toOption.getD [] ++ [255, 255, 255]) :=
  ⟨by decide +kernel, by decide +kernel, by decide +kernel⟩

/-! ### C49, C50 -/

theorem emitContainer_cfg {w w' : Cfg} (hB : w.blockSize = w'.blockSize) (count id : Nat) (chunks : List Bytes) (e : Env) :
    emitContainer w count id chunks e = emitContainer w' count id chunks e := by
  unfold emitContainer blocksOf mustSplit
  rw [hB]

mutual
theorem emitDoc_cfg {w w' : Cfg} (hB : w.blockSize = w'.blockSize) : ∀ (d : Doc) (e : Env), emitDoc w d e = emitDoc w' d e
  | .scalar s, e => by simp only [emitDoc]
  | .array xs, e => by simp only [emitDoc, emitItems_cfg hB xs, emitContainer_cfg hB]
  | .map es, e => by simp only [emitDoc, emitKVs_cfg hB es, emitContainer_cfg hB]
theorem emitItems_cfg {w w' : Cfg} (hB : w.blockSize = w'.blockSize) : ∀ (xs : List Doc) (e : Env),
    emitItems w xs e = emitItems w' xs e
  | [], e => by simp only [emitItems]
  | x :: xs, e => by simp only [emitItems, emitDoc_cfg hB x, emitItems_cfg hB xs]
theorem emitKVs_cfg {w w' : Cfg} (hB : w.blockSize = w'.blockSize) : ∀ (xs : List (Bytes × Doc)) (e : Env),
    emitKVs w xs e = emitKVs w' xs e
  | [], e => by simp only [emitKVs]
  | (k, x) :: xs, e => by simp only [emitKVs, emitDoc_cfg hB x, emitKVs_cfg hB xs]
end

/-- C49. Serialising trees with the same content (owning or in situ) on builds with the same block size but different hash
tables gives the same main section (everything before the tables) and the same total length; with equal hash-table orders it
gives the same bytes. -/
theorem C49_deterministic (w w' : Cfg) (hw : w.charSigned = true) (hw' : w'.charSigned = true) (hB : w.blockSize = w'.blockSize)
    (t : SeriType) (o o' : Obj) (d : Doc) (hd : o.doc? = some d) (hd' : o'.doc? = some d) (hh : Writable w o)
    (hh' : Writable w' o') :
    ∃ head tail tail', serialize w t o = .ok (head ++ tail) ∧ serialize w' t o' = .ok (head ++ tail') ∧
      tail.length = tail'.length ∧ head.take 8 = bigEndian 8 head.length ∧
      (w.smOrd = w'.smOrd → w.siOrd = w'.siOrd → tail = tail') := by
  have hbody := emitDoc_cfg hB
  have hb : bodyOf w t d = bodyOf w' t d := hbody _ _
  have hhead : headOf w t d = headOf w' t d := by simp only [headOf, hb]
  refine ⟨headOf w t d ++ (bodyOf w t d).1, dictPart w (bodyOf w t d).2.2.sm ++ splitPart w (bodyOf w t d).2.2.si,
    dictPart w' (bodyOf w t d).2.2.sm ++ splitPart w' (bodyOf w t d).2.2.si, ?_, ?_, ?_, ?_, ?_⟩
  · rw [serialize_eq hw t hd hh, contentOf]; simp
  · rw [serialize_eq hw' t hd' hh', contentOf, hhead, hb]; simp
  · have hsm : ∀ m : StringMap, (smTableB w m).length = (smTableB w' m).length := by
      intro m
      have hp : ((w.smOrd m.map).map smEntryB).Perm ((w'.smOrd m.map).map smEntryB) :=
        ((w.smPerm m.map).trans (w'.smPerm m.map).symm).map _
      simp only [smTableB, List.length_append, hp.flatten.length_eq]
    have hsi : ∀ si : SplitInfo, (siTableB w si).length = (siTableB w' si).length := by
      intro si
      have hp : ((w.siOrd si.info).map siEntryB).Perm ((w'.siOrd si.info).map siEntryB) :=
        ((w.siPerm si.info).trans (w'.siPerm si.info).symm).map _
      simp only [siTableB, List.length_append, hp.flatten.length_eq]
    cases hm : (bodyOf w t d).2.2.sm with
    | none => simp [dictPart, splitPart, hsi]
    | some m => simp [dictPart, splitPart, hsi, hsm]
  · have : (headOf w t d ++ (bodyOf w t d).1).length = 10 + (bodyOf w t d).1.length := by simp [headOf_length]
    rw [this]
    simp only [headOf]
    rw [List.append_assoc, List.take_left' (bigEndian_length 8 _)]
  · intro h1 h2
    simp only [dictPart, splitPart, smTableB, siTableB, h1, h2]

/-- C50. Two trees whose serialized forms are the same bytes have the same content in the same order, whatever builds and modes
wrote them. -/
theorem C50_injective (w w' : Cfg) (hw : w.charSigned = true) (hw' : w'.charSigned = true) (t t' : SeriType)
    (o o' : Obj) (d d' : Doc) (hd : o.doc? = some d) (hd' : o'.doc? = some d') (hh : Writable w o) (hh' : Writable w' o')
    (content : Bytes) (hlt : content.length < 2 ^ 32) (h : serialize w t o = .ok content) (h' : serialize w' t' o' = .ok content) :
    d = d' := by
  rw [serialize_eq hw t hd hh] at h
  rw [serialize_eq hw' t' hd' hh'] at h'
  simp only [Except.ok.injEq] at h h'
  let r : Cfg := { Cfg.x86 with asserts := false }
  have hr : Fits r content := ⟨hlt, by simp [r], by simp only [r, Cfg.x86]; omega⟩
  obtain ⟨o1, h1, h2, _⟩ := parses_normal (w := w) (t := t) (d := d) (extra := []) (r := r) (by rw [h]; simpa using hr) false (by simp) 1
  obtain ⟨o2, h3, h4, _⟩ := parses_normal (w := w') (t := t') (d := d') (extra := []) (r := r) (by rw [h']; simpa using hr) false (by simp) 1
  simp only [List.append_nil, h] at h1
  simp only [List.append_nil, h'] at h3
  have := h1.unique h3
  cases this
  rw [h2] at h4
  simp only [Option.some.injEq] at h4
  exact revMaps_inj h4

example : ∃ c, serialize Cfg.x86 .replace sampleObj = .ok c ∧ c.length < 2 ^ 32 :=
  ⟨(serialize Cfg.x86 .replace sampleObj).toOption.getD [], by decide +kernel, by decide +kernel⟩

end Bridge
