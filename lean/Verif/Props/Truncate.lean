import Verif.Proof.Custom
import Verif.Props.Hostile
import Verif.Proof.Format
import Verif.Proof.ObjEq
/-
C26: truncated documents.
-/
set_option autoImplicit false
namespace Bridge
open Spec

theorem HasAt.take {mem bs : Bytes} {a k : Nat} (h : HasAt mem a bs) (hk : a + bs.length ≤ k) : HasAt (mem.take k) a bs := by
  unfold HasAt at h ⊢
  rw [List.drop_take]
  obtain ⟨post, hp⟩ := h
  rw [← hp, List.take_append, List.take_of_length_le (by omega)]
  exact List.prefix_append _ _

/-- The parts of a written document, in a prefix of it. -/
theorem content_parts (wc : Cfg) (t : SeriType) (d : Doc) :
    HasAt (contentOf wc t d) 0 (bigEndian 8 (10 + (bodyOf wc t d).1.length)) ∧
    (contentOf wc t d)[8]? = some t.toChar ∧
    HasAt (contentOf wc t d) 10 (bodyOf wc t d).1 ∧
    HasAt (contentOf wc t d) (10 + (bodyOf wc t d).1.length) (dictPart wc (bodyOf wc t d).2.2.sm) ∧
    (contentOf wc t d).length = 10 + ((bodyOf wc t d).1.length +
      ((dictPart wc (bodyOf wc t d).2.2.sm).length + (splitPart wc (bodyOf wc t d).2.2.si).length)) ∧
    1 ≤ (splitPart wc (bodyOf wc t d).2.2.si).length := by
  have hlen : (contentOf wc t d).length = 10 + ((bodyOf wc t d).1.length +
      ((dictPart wc (bodyOf wc t d).2.2.sm).length + (splitPart wc (bodyOf wc t d).2.2.si).length)) := by
    unfold contentOf; simp only [List.length_append, headOf_length]
  have hsp : 1 ≤ (splitPart wc (bodyOf wc t d).2.2.si).length := by
    have := lenB_length_pos (siTableB wc (bodyOf wc t d).2.2.si).length
    simp only [splitPart, List.length_append]; omega
  have hat0 : HasAt (contentOf wc t d) 0 (headOf wc t d ++ ((bodyOf wc t d).1 ++ (dictPart wc (bodyOf wc t d).2.2.sm ++
      splitPart wc (bodyOf wc t d).2.2.si))) := HasAt.drop_zero
  generalize hmem : contentOf wc t d = mem at hat0 hlen ⊢
  rw [HasAt.append, HasAt.append, HasAt.append, headOf_length] at hat0
  obtain ⟨hhead, hbody, hdict, -⟩ := hat0
  simp only [Nat.zero_add] at hbody hdict
  unfold headOf at hhead
  rw [HasAt.append, bigEndian_length, HasAt.cons] at hhead
  obtain ⟨hbe, h8, -⟩ := hhead
  simp only [Nat.zero_add] at h8
  exact ⟨hbe, h8, hbody, hdict, hlen, hsp⟩

theorem hasAt_take_eq {mem bs : Bytes} (h : HasAt mem 0 bs) : mem.take bs.length = bs := by
  have := h.slice
  unfold slice at this
  simpa using this

theorem getElem?_take_lt {mem : Bytes} {k i : Nat} (h : i < k) : (mem.take k)[i]? = mem[i]? := by
  rw [List.getElem?_take, if_pos h]

/-- C26. A document cut anywhere up to the end of its main section (before its tables) is rejected with a runtime_error, by
every kind of parse.  For cuts inside the tables see `C26_cut_exact`. -/
theorem C26_cut_main (w : Cfg) (hw : w.charSigned = true) (t : SeriType) (o : Obj) (d : Doc) (hd : o.doc? = some d)
    (hh : Writable w o) : ∃ content total, serialize w t o = .ok content ∧ (content.length < 2 ^ 32 →
      content.take 8 = bigEndian 8 total ∧ 10 < total ∧ total < content.length ∧
      ∀ (r : Cfg) (po : ParseOption) (k : Nat), k ≤ total →
        ∃ e, Parses r po (content.take k) (.error (.exn e)) ∧ e.isRuntimeError = true) := by
  refine ⟨_, 10 + (bodyOf w t d).1.length, serialize_eq hw t hd hh, fun hl => ?_⟩
  obtain ⟨hbe, h8, hbody, -, hlen, hsp⟩ := content_parts w t d
  have hpos : 0 < (bodyOf w t d).1.length := by
    unfold bodyOf rootDoc
    simp only [emitDoc, emitContainer_length]
    have := lenB_length_pos [(rootKey, d)].length
    omega
  have ht8 : (contentOf w t d).take 8 = bigEndian 8 (10 + (bodyOf w t d).1.length) := by
    have := hasAt_take_eq hbe
    rwa [bigEndian_length] at this
  refine ⟨ht8, by omega, by omega, fun r po k hk => ?_⟩
  have htl : ((contentOf w t d).take k).length = k := by rw [List.length_take]; omega
  by_cases h10 : k < 10
  · exact ⟨.metaSize, C28_too_short r po _ (by omega), rfl⟩
  · refine ⟨.lengthInnerEmpty, C28_total_beyond_content r po _ (10 + (bodyOf w t d).1.length) t.toChar (by omega) ?_ ?_ ?_ (by omega)
      (by omega), rfl⟩
    · rw [getElem?_take_lt (by omega)]; exact h8
    · cases t
      · exact .inl rfl
      · exact .inr rfl
    · rw [List.take_take, Nat.min_eq_left (by omega)]; exact ht8

theorem parseLengthAt_inv {r : Cfg} {mem : Bytes} {a n k : Nat} (hc : mem.length < 2 ^ 63)
    (h : parseLengthAt r mem a = .ok (n, k)) :
    ∃ bs, NumField bs n ∧ HasAt mem a bs ∧ a + bs.length ≤ mem.length ∧ k = bs.length := by
  unfold parseLengthAt at h
  split at h
  · cases h
  rename_i ha
  obtain ⟨⟨tmp, bytes⟩, h1, h⟩ := bind_ok h
  simp only at h
  split at h
  · cases h
  rename_i hle
  simp only [pure_eq_ok, Except.ok.injEq, Prod.mk.injEq] at h
  obtain ⟨rfl, rfl⟩ := h
  rcases varintDecode_any r mem a (toI32 (subS mem.length a)) (by omega) with ⟨bs, e, h2, h3, h4⟩ | ⟨e, -⟩ | ⟨e, -⟩
  · rw [h1] at e
    simp only [Except.ok.injEq, Prod.mk.injEq] at e
    obtain ⟨e1, e2⟩ := e
    rw [e2, addW_of_lt (by omega)] at hle
    exact ⟨bs, ⟨h2, h3, e1⟩, hasAt_zero h4 (by omega), by omega, e2⟩
  · rw [h1] at e; cases e
  · rw [h1] at e; cases e

/-- Two readings of a number field at the same place agree. -/
theorem field_unique {mem full bs : Bytes} {a n v k : Nat} (hpre : mem = full.take k) (hf : NumField bs v) (hat : HasAt mem a bs)
    (hn : n < 2 ^ 64) (hat' : HasAt full a (leb128 n)) : bs = leb128 n ∧ v = n := by
  have hfull : HasAt full a bs := by
    rw [hpre] at hat
    unfold HasAt at hat ⊢
    rw [List.drop_take] at hat
    exact hat.trans (List.take_prefix _ _)
  obtain ⟨x, hx⟩ := hfull
  obtain ⟨y, hy⟩ := hat'
  have he := isLeb_prefix hf.1 (leb128_isLeb n) (hx.trans hy.symm)
  refine ⟨he, ?_⟩
  rw [hf.2.2, he, lebValue_leb128, Nat.mod_eq_of_lt hn]

/-- If the tables of a truncated document can be read, the dictionary is the one that was written. -/
theorem cut_ctx {w r : Cfg} {t : SeriType} {d : Doc} {k : Nat} {mem : Bytes} (hf : Fits r (contentOf w t d))
    (hmem : (contentOf w t d).take k = mem) (hml' : 10 + (bodyOf w t d).1.length < mem.length)
    {p : Option StringMap × SplitInfo} (hp : readTables r mem (10 + (bodyOf w t d).1.length) t.toChar = .ok p) :
    PCtx r mem p.1 (bodyOf w t d).2.2 := by
  have hlt := hf.lt
  obtain ⟨hbe, h8, hbody, hdict, hlen, hsp⟩ := content_parts w t d
  have hml : mem.length = min k (contentOf w t d).length := by rw [← hmem, List.length_take]
  have hsize : SizeOk r mem.length := ⟨by omega, fun ha => by have := hf.small ha; omega⟩
  have hstr : mem.length ≤ r.strMax := by have := hf.max; omega
  have hroom := env0_room t (n := (bodyOf w t d).1.length) (by omega)
  have hg : Grows (env0 t) (bodyOf w t d).2.2 (bodyOf w t d).1.length := emitDoc_grows w (rootDoc d) (env0 t) hroom
  refine ⟨hsize, hstr, ?_, ?_⟩
  · intro hnone
    cases t with
    | normal =>
      unfold readTables at hp
      rw [if_pos rfl] at hp
      obtain ⟨q, -, hp⟩ := bind_ok hp
      simp only [pure_eq_ok, Except.ok.injEq] at hp
      rw [← hp]
    | replace =>
      obtain ⟨m, hm1, -⟩ := hg.sm {} rfl SMInv.empty
      rw [hm1] at hnone
      cases hnone
  · intro m hm
    cases t with
    | normal =>
      have hnone : (bodyOf w .normal d).2.2.sm = none := hg.smNone rfl
      rw [hnone] at hm
      cases hm
    | replace =>
      obtain ⟨m', hm1, hm2, -⟩ := hg.sm {} rfl SMInv.empty
      rw [hm] at hm1
      simp only [Option.some.injEq] at hm1
      subst hm1
      rw [hm] at hdict hlen
      simp only [dictPart] at hdict hlen
      have hsmtl : (smTableB w m).length < 2 ^ 32 := by simp only [List.length_append] at hlen; omega
      have hlb : lenB (smTableB w m).length = leb128 (smTableB w m).length := lenB_of_lt hsmtl
      unfold readTables at hp
      rw [if_neg (by decide), if_pos rfl] at hp
      obtain ⟨⟨q, q'⟩, e1, hp⟩ := bind_ok hp
      obtain ⟨⟨u, u'⟩, e2, hpf⟩ := bind_ok hp
      simp only [pure_eq_ok, Except.ok.injEq] at hpf
      unfold parseSecondary at e1
      obtain ⟨⟨sz, sk⟩, e3, e1⟩ := bind_ok e1
      obtain ⟨q0, e4, e1⟩ := bind_ok e1
      simp only [pure_eq_ok, Except.ok.injEq, Prod.mk.injEq] at e1
      obtain ⟨rfl, rfl⟩ := e1
      obtain ⟨bs, f1, f2, f3, f4⟩ := parseLengthAt_inv (by omega) e3
      have hd2 := hdict
      rw [HasAt.append] at hd2
      obtain ⟨f5, f6⟩ := field_unique (n := (smTableB w m).length) hmem.symm f1 f2 (by omega) (by rw [← hlb]; exact hd2.1)
      subst f5 f6 f4
      simp only [List.length_append] at hlen
      rw [addW_of_lt (by omega)] at e4
      rw [addW_of_lt (a := 10 + (bodyOf w .replace d).1.length) (by omega), addW_of_lt (by omega)] at e2
      have hlong : 10 + (bodyOf w .replace d).1.length + (leb128 (smTableB w m).length).length + (smTableB w m).length <
          mem.length := by
        unfold parseSecondary parseLengthAt at e2
        obtain ⟨_, e5, _⟩ := bind_ok e2
        split at e5
        · cases e5
        · omega
      obtain ⟨m', hc1, hc2⟩ := smConstruct_dict (cfg := r) (wc := w)
        (v := ⟨mem, 10 + (bodyOf w .replace d).1.length + (leb128 (smTableB w m).length).length, (smTableB w m).length⟩)
        hm2 ⟨by simp only; omega, fun ha => by have := hsize.2 ha; simp only; omega⟩ (by simp only; omega) rfl hsmtl
        (by simp only; rw [← hmem, ← hlb]; exact hd2.2.take (by rw [hlb]; omega))
      rw [hc1] at e4
      simp only [Except.ok.injEq] at e4
      subst e4
      exact ⟨m', by rw [← hpf], hc2⟩

/-- C26. A document cut anywhere is never read as another document by the recursive parser: if the parse returns, it returns
the document that was written.  (It may return although bytes are missing, and it may not return at all: below.) -/
theorem C26_cut_never_wrong (w r : Cfg) (hw : w.charSigned = true) (t : SeriType) (o : Obj) (d : Doc)
    (hd : o.doc? = some d) (hh : Writable w o) (ref : Bool) (n : Nat) :
    ∃ content, serialize w t o = .ok content ∧ (Fits r content →
      ∀ k o', Parses r ⟨false, ref, n⟩ (content.take k) (.ok o') → o'.doc? = some d.revMaps) := by
  refine ⟨_, serialize_eq hw t hd hh, fun hf k o' hp => ?_⟩
  have hlt := hf.lt
  by_cases hk : k ≤ 10 + (bodyOf w t d).1.length
  · exfalso
    obtain ⟨c, total, h1, h2⟩ := C26_cut_main w hw t o d hd hh
    rw [serialize_eq hw t hd hh] at h1
    simp only [Except.ok.injEq] at h1
    subst h1
    obtain ⟨h3, -, h4, h5⟩ := h2 hlt
    have ht8 : (contentOf w t d).take 8 = bigEndian 8 (10 + (bodyOf w t d).1.length) := by
      have := hasAt_take_eq (content_parts w t d).1
      rwa [bigEndian_length] at this
    have hlen := (content_parts w t d).2.2.2.2.1
    have htot : total = 10 + (bodyOf w t d).1.length := by
      have e1 := totalSize_of (cfg := r) (content := contentOf w t d) (by omega) (by omega) h3
      have e2 := totalSize_of (cfg := r) (content := contentOf w t d) (by omega) (by omega) ht8
      rw [e1] at e2
      simpa using e2
    obtain ⟨e, he, -⟩ := h5 r ⟨false, ref, n⟩ k (by omega)
    obtain ⟨-, m1, g1⟩ := hp
    obtain ⟨-, m2, g2⟩ := he
    have a1 := g1 (m1 + m2) (by omega)
    have a2 := g2 (m1 + m2) (by omega)
    rw [a1] at a2
    cases a2
  · obtain ⟨hbe, h8, hbody, hdict, hlen, hsp⟩ := content_parts w t d
    generalize hmem : (contentOf w t d).take k = mem at hp
    have hml : mem.length = min k (contentOf w t d).length := by rw [← hmem, List.length_take]
    have hml' : 10 + (bodyOf w t d).1.length < mem.length := by omega
    have hsize : SizeOk r mem.length := ⟨by omega, fun ha => by have := hf.small ha; omega⟩
    have hstr : mem.length ≤ r.strMax := by have := hf.max; omega
    have hroom := env0_room t (n := (bodyOf w t d).1.length) (by omega)
    have hg : Grows (env0 t) (bodyOf w t d).2.2 (bodyOf w t d).1.length := emitDoc_grows w (rootDoc d) (env0 t) hroom
    have hbody' : HasAt mem 10 (bodyOf w t d).1 := by rw [← hmem]; exact hbody.take (by omega)
    have ht8 : mem.take 8 = bigEndian 8 (10 + (bodyOf w t d).1.length) := by
      have := hasAt_take_eq hbe
      rw [bigEndian_length] at this
      rw [← hmem, List.take_take, Nat.min_eq_left (by omega)]
      exact this
    have hm8 : mem.getD 8 0 = t.toChar := by
      have : mem[8]? = some t.toChar := by rw [← hmem, getElem?_take_lt (by omega)]; exact h8
      simp [List.getD, this]
    obtain ⟨-, m1, g1⟩ := hp
    have hrun := g1 (m1 + docFuel (rootDoc d)) (by omega)
    unfold parse at hrun
    obtain ⟨s, hs, hrun⟩ := bind_ok hrun
    simp only [Bool.false_eq_true, if_false] at hrun
    rw [init_steps (by omega), totalSize_of (by omega) (by omega) ht8] at hs
    simp only [ok_bind, hm8] at hs
    obtain ⟨p, hp, hs⟩ := bind_ok hs
    have hsp' : s.sm = p.1 ∧ s.total = 10 + (bodyOf w t d).1.length := by
      unfold readFlag at hs
      split at hs
      · simp only [pure_eq_ok, Except.ok.injEq] at hs; rw [← hs]; exact ⟨rfl, rfl⟩
      split at hs
      · simp only [pure_eq_ok, Except.ok.injEq] at hs; rw [← hs]; exact ⟨rfl, rfl⟩
      · cases hs
    have hctx : PCtx r mem p.1 (bodyOf w t d).2.2 := cut_ctx hf hmem hml' hp
    have hc : ref = true → d.noCustom = true := by
      intro href
      subst href
      cases hnc : d.noCustom with
      | true => rfl
      | false =>
        exfalso
        have p1 := parseVal_custom (wc := w) (pool := .caller) hctx (rootDoc d) (env0 t) 10
          (m1 + docFuel (rootDoc d)) hroom (Follows.refl _) hbody' hml' (by
            have : (emitDoc w (rootDoc d) (env0 t)).1.length = (bodyOf w t d).1.length := rfl
            omega) (by simpa [rootDoc, Doc.noCustom, noCustomE] using hnc) (by omega)
        have hty : docType (rootDoc d) = .map := rfl
        rw [hty] at p1
        unfold normalParse at hrun
        simp only [metaSize, hsp'.1] at hrun
        rw [p1] at hrun
        simp only [error_bind] at hrun
        cases hrun
    obtain ⟨o1, p1, p2, p3⟩ := parseVal_eq (wc := w) (ref := ref) (pool := .caller) hctx (rootDoc d) (env0 t) 10
      (m1 + docFuel (rootDoc d)) hroom (Follows.refl _) hbody' hml' (by
        have : (emitDoc w (rootDoc d) (env0 t)).1.length = (bodyOf w t d).1.length := rfl
        omega) (by simpa [rootDoc, Doc.noCustom, noCustomE] using hc) (by omega)
    rw [rootDoc_revMaps] at p2
    obtain ⟨q1, -⟩ := takeRoot_doc p2 p3
    unfold normalParse at hrun
    have hty : docType (rootDoc d) = .map := rfl
    rw [hty] at p1
    simp only [metaSize, hsp'.1] at hrun
    rw [p1] at hrun
    simp only [ok_bind] at hrun
    rw [if_neg (by rw [hsp'.2]; simp [bodyOf])] at hrun
    simp only [pure_eq_ok, Except.ok.injEq] at hrun
    rw [← hrun]
    exact q1

/-- The hypotheses are met, and cutting off the last byte of a small document goes unnoticed: the terminator of the string is
read as the missing byte. -/
example : ∃ content o, serialize Cfg.x86 .normal sampleObj = .ok content ∧ content.length = 47 ∧ Fits Cfg.x86 content ∧
    Parses Cfg.x86 ⟨false, false, 1⟩ (content.take 46) (.ok o) := by
  refine ⟨(serialize Cfg.x86 .normal sampleObj).toOption.getD [],
    (parse Cfg.x86 ⟨false, false, 1⟩ 40 ((serialize Cfg.x86 .normal sampleObj).toOption.getD [])).toOption.getD .null,
    by decide +kernel, by decide +kernel, ⟨by decide +kernel, by decide +kernel, by decide +kernel⟩, ?_⟩
  exact parses_of_fuel (f := 40) (by decide +kernel) (by intro h; cases h)

/-- C26, refuted for cuts inside the dictionary: the keys of the table are read beyond the end of the content. -/
theorem C26_cut_in_dictionary_reads_outside :
    ∃ content k, serialize Cfg.x86 .replace sampleObj = .ok content ∧ k < content.length ∧
      Parses Cfg.x86 ⟨false, false, 1⟩ (content.take k) (.error (.ub .readOutOfBounds)) := by
  refine ⟨(serialize Cfg.x86 .replace sampleObj).toOption.getD [], 50, by decide +kernel, by decide +kernel, ?_⟩
  exact parses_of_fuel (f := 40) (by decide +kernel) (by intro h; cases h)

/-- A writer with a small split threshold (the repository fixes it to 10 MiB) whose tables list the newest entry first. -/
def tinyBlocks : Cfg := { Cfg.x86 with blockSize := 8, siOrd := List.reverse, siPerm := List.reverse_perm }

/-- An array of a string and a byte array that fall into two blocks. -/
def twoBlocks : Obj :=
  .array .caller 2 [.data false BRIDGE_STRING (.str [1, 2, 3, 4, 5, 6, 7]), .data false BRIDGE_BYTES (.vec [0])]

/-- C26, refuted for a split document and the parallel parser: with the last byte of the split table missing, the parse returns
an array that lacks the last element. -/
theorem C26_cut_split_table_loses_data :
    ∃ content, serialize tinyBlocks .normal twoBlocks = .ok content ∧
      Parses tinyBlocks ⟨true, false, 1⟩ content
        (.ok (.array .frame 2 [.data false BRIDGE_STRING (.str [1, 2, 3, 4, 5, 6, 7]), .data false BRIDGE_BYTES (.vec [0])])) ∧
      Parses tinyBlocks ⟨true, false, 1⟩ (content.take (content.length - 1))
        (.ok (.array .frame 1 [.data false BRIDGE_STRING (.str [1, 2, 3, 4, 5, 6, 7])])) := by
  refine ⟨(serialize tinyBlocks .normal twoBlocks).toOption.getD [], by decide +kernel, ?_, ?_⟩
  · exact parses_of_fuel (f := 40) (by decide +kernel) (by intro h; cases h)
  · exact parses_of_fuel (f := 40) (by decide +kernel) (by intro h; cases h)

end Bridge
