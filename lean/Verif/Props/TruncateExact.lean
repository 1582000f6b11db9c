import Verif.Props.Truncate
/-
C26 for documents that were not split and have no dictionary: which cuts are accepted, exactly.
-/
set_option autoImplicit false
namespace Bridge
open Spec

/-! ### documents below the block size have an empty split table -/

theorem groupSizes_small (B : Nat) (ls : List Nat) : ∀ p, p + ls.sum < B →
    groupSizes B p ls = if p + ls.sum > 0 then [p + ls.sum] else [] := by
  induction ls with
  | nil => intro p _; simp [groupSizes]
  | cons l ls ih =>
    intro p h
    have hsum : (l :: ls).sum = l + ls.sum := List.sum_cons
    have e : groupSizes B p (l :: ls) = groupSizes B (p + l) ls := by
      show (if p + l ≥ B then _ else _) = _
      rw [if_neg (by omega)]
    rw [e, ih (p + l) (by omega)]
    by_cases hz : p + (l :: ls).sum > 0
    · rw [if_pos hz, if_pos (by omega), hsum, Nat.add_assoc]
    · rw [if_neg hz, if_neg (by omega)]

theorem not_mustSplit {w : Cfg} {chunks : List Bytes} (h : chunks.flatten.length < w.blockSize) :
    mustSplit w (blocksOf w chunks) = false := by
  have hs : (chunks.map List.length).sum = chunks.flatten.length := by rw [List.length_flatten]
  have hg := groupSizes_small w.blockSize (chunks.map List.length) 0 (by omega)
  unfold blocksOf mustSplit
  rw [hg]
  split
  · have : toU32 (0 + (chunks.map List.length).sum) ≤ 0 + (chunks.map List.length).sum := Nat.mod_le _ _
    simp
    simp at this
    omega
  · simp

mutual
theorem emitDoc_info (w : Cfg) : ∀ (d : Doc) (e : Env), (emitDoc w d e).1.length ≤ w.blockSize →
    (emitDoc w d e).2.2.si.info = e.si.info
  | .scalar s, e => by
    intro _
    simp only [emitDoc, emitScalar_si]
  | .array xs, e => by
    intro h
    simp only [emitDoc, emitContainer_length] at h ⊢
    have := lenB_length_pos xs.length
    simp only [emitContainer]
    rw [not_mustSplit (by omega)]
    simp only [Bool.false_eq_true, if_false]
    rw [emitItems_info w xs _ (by omega)]
    rfl
  | .map es, e => by
    intro h
    simp only [emitDoc, emitContainer_length] at h ⊢
    have := lenB_length_pos es.length
    simp only [emitContainer]
    rw [not_mustSplit (by omega)]
    simp only [Bool.false_eq_true, if_false]
    rw [emitKVs_info w es _ (by omega)]
    rfl
theorem emitItems_info (w : Cfg) : ∀ (xs : List Doc) (e : Env), (emitItems w xs e).1.flatten.length ≤ w.blockSize →
    (emitItems w xs e).2.si.info = e.si.info
  | [], e => by intro _; simp only [emitItems]
  | x :: xs, e => by
    intro h
    simp only [emitItems, List.flatten_cons, List.length_append, List.length_cons] at h ⊢
    rw [emitItems_info w xs _ (by omega), emitDoc_info w x e (by omega)]
theorem emitKVs_info (w : Cfg) : ∀ (xs : List (Bytes × Doc)) (e : Env), (emitKVs w xs e).1.flatten.length ≤ w.blockSize →
    (emitKVs w xs e).2.si.info = e.si.info
  | [], e => by intro _; simp only [emitKVs]
  | (k, x) :: xs, e => by
    intro h
    simp only [emitKVs, List.flatten_cons, List.length_append, List.length_cons] at h ⊢
    rw [emitKVs_info w xs _ (by omega), emitDoc_info w x _ (by omega)]
    exact congrArg SplitInfo.info (emitStr_si k e)
end

/-- An unsplit document ends with an empty split table. -/
theorem unsplit_table (w : Cfg) (t : SeriType) (d : Doc) (hlt : (contentOf w t d).length < 2 ^ 32) (h : (bodyOf w t d).2.1 = false) :
    splitPart w (bodyOf w t d).2.2.si = [1, 0] := by
  have hinfo : (bodyOf w t d).2.2.si.info = [] := by
    unfold bodyOf rootDoc at h ⊢
    simp only [emitDoc] at h ⊢
    have hp := lenB_length_pos [(rootKey, d)].length
    by_cases hs : (emitKVs w [(rootKey, d)] { env0 t with si := (env0 t).si.requestId.1 }).1.flatten.length ≤ w.blockSize
    · have := emitKVs_info w [(rootKey, d)] { env0 t with si := (env0 t).si.requestId.1 } hs
      simp only [emitContainer] at h ⊢
      rw [h]
      simp only [Bool.false_eq_true, if_false]
      rw [this]
      rfl
    · exfalso
      have h3 : (emitKVs w [(rootKey, d)] { env0 t with si := (env0 t).si.requestId.1 }).1.length = 1 := emitKVs_length _ _ _
      obtain ⟨c0, hc0⟩ := List.length_eq_one_iff.mp h3
      simp only [emitContainer, hc0] at h
      simp only [hc0, List.flatten_cons, List.flatten_nil, List.append_nil] at hs
      have hcl : c0.length < 2 ^ 32 := by
        unfold contentOf bodyOf rootDoc at hlt
        simp only [emitDoc, List.length_append, emitContainer_length, hc0, List.flatten_cons, List.flatten_nil,
          List.append_nil] at hlt
        omega
      have hbl : blocksOf w [c0] = [c0.length] := by
        simp only [blocksOf, groupSizes, List.map_cons, List.map_nil, Nat.zero_add]
        rw [if_pos (by omega)]
        simp [toU32_of_lt hcl]
      rw [hbl] at h
      simp [mustSplit] at h
      omega
  unfold splitPart siTableB
  have hp : w.siOrd (bodyOf w t d).2.2.si.info = [] := by
    rw [hinfo]
    exact List.perm_nil.mp (w.siPerm [])
  rw [hp, hinfo]
  have h0 : lenB 0 = [0] := by simp [lenB, toU32, leb128]
  have h1 : lenB 1 = [1] := by simp [lenB, toU32, leb128]
  simp [h0, h1]

theorem flag_byte (w : Cfg) (t : SeriType) (d : Doc) :
    (contentOf w t d)[9]? = some (if (bodyOf w t d).2.1 then 0x0A else 0x00) := by
  have h : (contentOf w t d)[9]? = (headOf w t d)[9]? := by
    unfold contentOf
    rw [List.getElem?_append_left (by rw [headOf_length]; omega)]
  rw [h]
  unfold headOf
  rw [List.getElem?_append_right (by simp [bigEndian_length])]
  simp [bigEndian_length]

/-- The split table is read although its only byte is missing: the terminator of the string stands in for it. -/
theorem siConstruct_missing (r : Cfg) (mem : Bytes) :
    SplitInfo.construct r ⟨mem, mem.length, 1⟩ = .ok {} := by
  have hd : varintDecode r mem mem.length (toI32 1) = .ok (0, 1) := by
    unfold varintDecode varintDecodeGo
    have hb : readByte mem (mem.length + 0) = .ok 0 := by
      unfold readByte
      simp
    rw [hb]
    simp only [ok_bind]
    have ht : toI32 1 = 1 := by decide
    rw [ht]
    simp
  unfold SplitInfo.construct
  generalize hc0 : Cur.mk 0 0 = c0
  have hp : parseLength r ⟨mem, mem.length, 1⟩ c0 = .ok (0, ⟨1, 1⟩) := by
    subst hc0
    unfold parseLength
    have hr : remain ⟨mem, mem.length, 1⟩ ⟨0, 0⟩ = 1 := by
      show subS 1 0 = 1
      decide +kernel
    simp only [checkEmpty, hr, curAddr]
    rw [if_neg (by decide), if_neg (by omega)]
    simp only [ok_bind, Nat.add_zero]
    rw [hd]
    rfl
  rw [hp]
  rfl

/-- C26, exact for documents without dictionary that were not split: a proper prefix is rejected with a runtime_error, by every
kind of parse, with one exception: if only the last byte is missing, the parse returns the document (the terminator of the string
is read in its place). -/
theorem C26_unsplit_exact (w r : Cfg) (hw : w.charSigned = true) (o : Obj) (d : Doc) (hd : o.doc? = some d) (hh : Writable w o) :
    ∃ content, serialize w .normal o = .ok content ∧ (Fits r content → content[9]? = some 0 →
      (∀ (po : ParseOption) (k : Nat), k + 1 < content.length →
        ∃ e, Parses r po (content.take k) (.error (.exn e)) ∧ e.isRuntimeError = true) ∧
      (∀ (po : ParseOption), (po.parseRef = true → d.noCustom = true) →
        ∃ o', Parses r po (content.take (content.length - 1)) (.ok o') ∧ o'.doc? = some d.revMaps)) := by
  obtain ⟨c, total, h1, h2⟩ := C26_cut_main w hw .normal o d hd hh
  refine ⟨c, h1, fun hf hflag => ?_⟩
  rw [serialize_eq hw .normal hd hh] at h1
  simp only [Except.ok.injEq] at h1
  subst h1
  obtain ⟨h3, -, h4, h5⟩ := h2 hf.lt
  have hlt := hf.lt
  obtain ⟨hbe, h8, hbody, hdict, hlen, hsp⟩ := content_parts w .normal d
  have hus : (bodyOf w .normal d).2.1 = false := by
    rw [flag_byte] at hflag
    cases hb : (bodyOf w .normal d).2.1 with
    | false => rfl
    | true => rw [hb] at hflag; simp at hflag
  have htab := unsplit_table w .normal d hlt hus
  have hroom := env0_room .normal (n := (bodyOf w .normal d).1.length) (by omega)
  have hg : Grows (env0 .normal) (bodyOf w .normal d).2.2 (bodyOf w .normal d).1.length :=
    emitDoc_grows w (rootDoc d) (env0 .normal) hroom
  have hnone : (bodyOf w .normal d).2.2.sm = none := hg.smNone rfl
  have ht8 : (contentOf w .normal d).take 8 = bigEndian 8 (10 + (bodyOf w .normal d).1.length) := by
    have := hasAt_take_eq hbe
    rwa [bigEndian_length] at this
  have htot : total = 10 + (bodyOf w .normal d).1.length := by
    have e1 := totalSize_of (cfg := r) (content := contentOf w .normal d) (by omega) (by omega) h3
    have e2 := totalSize_of (cfg := r) (content := contentOf w .normal d) (by omega) (by omega) ht8
    rw [e1] at e2
    simpa using e2
  have hlen' : (contentOf w .normal d).length = total + 2 := by
    rw [hlen, htab, hnone, htot]
    simp [dictPart]
    omega
  refine ⟨fun po k hk => h5 r po k (by omega), fun po hc => ?_⟩
  have hcut : (contentOf w .normal d).take ((contentOf w .normal d).length - 1) =
      headOf w .normal d ++ ((bodyOf w .normal d).1 ++ [1]) := by
    have : contentOf w .normal d = (headOf w .normal d ++ ((bodyOf w .normal d).1 ++ [1])) ++ [0] := by
      unfold contentOf
      rw [htab, hnone]
      simp [dictPart]
    rw [this, List.length_append, List.length_singleton, Nat.add_sub_cancel, List.take_left]
  generalize hmem : (contentOf w .normal d).take ((contentOf w .normal d).length - 1) = mem at hcut ⊢
  have hml : mem.length = total + 1 := by rw [← hmem, List.length_take]; omega
  have hsize : SizeOk r mem.length := ⟨by omega, fun ha => by have := hf.small ha; omega⟩
  have hstr : mem.length ≤ r.strMax := by have := hf.max; omega
  have hbody' : HasAt mem 10 (bodyOf w .normal d).1 := by rw [← hmem]; exact hbody.take (by omega)
  have ht8' : mem.take 8 = bigEndian 8 total := by
    rw [← hmem, List.take_take, Nat.min_eq_left (by omega), ht8, htot]
  have hm8 : mem.getD 8 0 = SeriType.normal.toChar := by
    have : mem[8]? = some SeriType.normal.toChar := by rw [← hmem, getElem?_take_lt (by omega)]; exact h8
    simp [List.getD, this]
  have hm9 : mem.getD 9 0 = 0 := by
    have : mem[9]? = some 0 := by rw [← hmem, getElem?_take_lt (by omega)]; exact hflag
    simp [List.getD, this]
  have hone : HasAt mem total (leb128 1) := by
    have h1 : leb128 1 = [1] := by simp [leb128]
    rw [h1, hcut, ← List.append_assoc]
    unfold HasAt
    rw [List.drop_left' (by rw [List.length_append, headOf_length, htot])]
    exact List.prefix_refl _
  have hsec : parseSecondary r (SplitInfo.construct r) mem total = .ok ({}, total + 2) := by
    unfold parseSecondary
    rw [parseLengthAt_eq hsize (by decide) hone (by omega)]
    have h1 : (leb128 1).length = 1 := by simp [leb128]
    simp only [ok_bind, h1]
    rw [addW_of_lt (by omega), ← hml, siConstruct_missing r mem]
    simp only [ok_bind, pure_eq_ok]
    rw [addW_of_lt (by omega), hml]
  have hinit : initFromContent r mem = .ok ⟨none, {}, total, false⟩ := by
    rw [init_steps (by omega), totalSize_of (by omega) (by omega) ht8']
    simp only [ok_bind, hm8, hm9]
    unfold readTables
    rw [if_pos rfl, hsec]
    rfl
  have hctx : PCtx r mem none (bodyOf w .normal d).2.2 :=
    ⟨hsize, hstr, fun _ => rfl, fun m hm => by rw [hnone] at hm; cases hm⟩
  obtain ⟨o1, p1, p2, p3⟩ := parseVal_eq (wc := w) (ref := po.parseRef) (pool := .caller) hctx (rootDoc d) (env0 .normal) 10
    (docFuel (rootDoc d)) hroom (Follows.refl _) hbody' (by
      have : (emitDoc w (rootDoc d) (env0 .normal)).1.length = (bodyOf w .normal d).1.length := rfl
      omega) (by
      have : (emitDoc w (rootDoc d) (env0 .normal)).1.length = (bodyOf w .normal d).1.length := rfl
      omega) (by simpa [rootDoc, Doc.noCustom, noCustomE] using hc) (by omega)
  rw [rootDoc_revMaps] at p2
  obtain ⟨q1, -⟩ := takeRoot_doc p2 p3
  have hty : docType (rootDoc d) = .map := rfl
  rw [hty] at p1
  have hnp : normalParse r po.parseRef (docFuel (rootDoc d)) mem ⟨none, {}, total, false⟩ = .ok (takeRoot o1) := by
    unfold normalParse
    simp only [metaSize]
    rw [p1]
    simp only [ok_bind]
    rw [if_neg (by rw [htot]; simp [bodyOf])]
    rfl
  refine ⟨takeRoot o1, parses_of_fuel (f := docFuel (rootDoc d)) ?_ (by simp), q1⟩
  unfold parse
  rw [hinit]
  simp only [ok_bind]
  split
  · unfold coroutineParse
    rw [if_pos rfl, hinit]
    exact hnp
  · exact hnp

/-- The hypotheses are met by any small document. -/
example : ∃ content, serialize Cfg.x86 .normal sampleObj = .ok content ∧ Fits Cfg.x86 content ∧ content[9]? = some 0 :=
  ⟨(serialize Cfg.x86 .normal sampleObj).toOption.getD [], by decide +kernel,
    ⟨by decide +kernel, by decide +kernel, by decide +kernel⟩, by decide +kernel⟩

end Bridge
