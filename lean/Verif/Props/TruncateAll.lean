import Verif.Proof.Cut
import Verif.Spec.Cut
import Verif.Props.TruncateExact
/-
C26 for every document and every cut: which truncated documents are accepted, exactly.
-/
set_option autoImplicit false
namespace Bridge
open Spec

/-! ### the written split table in terms of the grammar -/

theorem reads_nums : ∀ (bl : List Nat), (∀ b ∈ bl, b < 2 ^ 32) → ReadsNums bl (bl.map lenB).flatten
  | [], _ => rfl
  | b :: bl, h => by
    refine ⟨lenB b, b, (bl.map lenB).flatten, ?_, ?_, by simp, reads_nums bl fun x hx => h x (List.mem_cons_of_mem _ hx)⟩
    · have := numField_lenB b
      rwa [toU32_of_lt (h b (List.mem_cons_self ..))] at this
    · exact (Nat.mod_eq_of_lt (h b (List.mem_cons_self ..))).symm

theorem reads_records : ∀ (t : List (Nat × List Nat)), (∀ e ∈ t, e.1 < 2 ^ 32 ∧ e.2.length < 2 ^ 32 ∧ ∀ b ∈ e.2, b < 2 ^ 32) →
    ReadsRecords t (t.map siEntryB).flatten
  | [], _ => rfl
  | (id, bl) :: t, h => by
    obtain ⟨h1, h2, h3⟩ := h _ (List.mem_cons_self ..)
    have n1 := numField_lenB id
    have n2 := numField_lenB bl.length
    rw [toU32_of_lt h1] at n1
    rw [toU32_of_lt h2] at n2
    refine ⟨lenB id, id, lenB bl.length, bl.length, (bl.map lenB).flatten, (t.map siEntryB).flatten, n1,
      (Nat.mod_eq_of_lt h1).symm, n2, (Nat.mod_eq_of_lt h2).symm, reads_nums bl h3, ?_,
      reads_records t fun e he => h e (List.mem_cons_of_mem _ he)⟩
    simp only [List.map_cons, List.flatten_cons, siEntryB, toU32_of_lt h2, List.take_length, List.append_assoc]

theorem siEntry_pos (e : Nat × List Nat) : 1 ≤ (siEntryB e).length := by
  have := lenB_length_pos e.1; simp only [siEntryB, List.length_append]; omega

theorem siEntries_length (l : List (Nat × List Nat)) : l.length ≤ (l.map siEntryB).flatten.length := by
  induction l with
  | nil => simp
  | cons e l ih =>
    simp only [List.map_cons, List.flatten_cons, List.length_append, List.length_cons]
    have := siEntry_pos e
    omega

/-- The split table that a document ends with. -/
theorem written_table (w : Cfg) (t : SeriType) (d : Doc) (hlt : (contentOf w t d).length < 2 ^ 32) :
    ReadsTable (w.siOrd (bodyOf w t d).2.2.si.info) (siTableB w (bodyOf w t d).2.2.si) := by
  obtain ⟨-, -, -, -, hlen, -⟩ := content_parts w t d
  have hroom := env0_room t (n := (bodyOf w t d).1.length) (by omega)
  have hg : Grows (env0 t) (bodyOf w t d).2.2 (bodyOf w t d).1.length := emitDoc_grows w (rootDoc d) (env0 t) hroom
  have hvals : SIVals (bodyOf w t d).2.2.si (bodyOf w t d).1.length :=
    emitDoc_vals w _ (rootDoc d) (env0 t) (by intro e he; cases t <;> simp [env0, initDict] at he) (Nat.le_refl _)
  simp only [splitPart, List.length_append] at hlen
  have hgs := hg.si
  clear hg
  generalize (bodyOf w t d).2.2.si = si at *
  have hperm := w.siPerm si.info
  have hc : si.info.length < 2 ^ 32 := by
    have := siEntries_length (w.siOrd si.info)
    rw [hperm.length_eq] at this
    simp only [siTableB, List.length_append] at hlen
    omega
  have n1 := numField_lenB si.info.length
  rw [toU32_of_lt hc] at n1
  refine ⟨(hperm.map _).nodup_iff.mpr hgs.nodup, lenB si.info.length, si.info.length, _, n1, ?_, rfl, reads_records _ ?_⟩
  · rw [hperm.length_eq]; exact (Nat.mod_eq_of_lt hc).symm
  · intro e he
    have he' := hperm.mem_iff.mp he
    refine ⟨?_, by have := (hvals e he').2; omega, (hvals e he').1⟩
    have h1 := hgs.lt e.1 (List.mem_map.mpr ⟨e, he', rfl⟩)
    have h2 := hgs.bound
    omega

/-! ### a split table has only one end -/

theorem nums_same : ∀ (a b : List Nat) (x y p q : Bytes), a.length = b.length → ReadsNums a x → ReadsNums b y → x ++ p = y ++ q → x = y ∧ p = q
  | [], [], _, _, _, _, _, hx, hy, h => by
    simp only [ReadsNums] at hx hy; subst hx; subst hy; exact ⟨rfl, h⟩
  | [], _ :: _, _, _, _, _, hl, _, _, _ => by simp at hl
  | _ :: _, [], _, _, _, _, hl, _, _, _ => by simp at hl
  | a :: as, b :: bs, x, y, p, q, hl, hx, hy, h => by
    obtain ⟨i, n, rx, f1, -, rfl, f2⟩ := hx
    obtain ⟨j, m, ry, g1, -, rfl, g2⟩ := hy
    rw [List.append_assoc, List.append_assoc] at h
    obtain ⟨rfl, -, h⟩ := numField_same f1 g1 h
    obtain ⟨rfl, h'⟩ := nums_same as bs _ _ _ _ (by simpa using hl) f2 g2 h
    exact ⟨rfl, h'⟩

theorem records_same : ∀ (a b : List (Nat × List Nat)) (x y p q : Bytes), a.length = b.length → ReadsRecords a x → ReadsRecords b y →
    x ++ p = y ++ q → x = y
  | [], [], _, _, _, _, _, hx, hy, _ => by
    simp only [ReadsRecords] at hx hy; subst hx; subst hy; rfl
  | [], _ :: _, _, _, _, _, hl, _, _, _ => by simp at hl
  | _ :: _, [], _, _, _, _, hl, _, _, _ => by simp at hl
  | (a, ab) :: as, (b, bb) :: bs, x, y, p, q, hl, hx, hy, h => by
    obtain ⟨i, n, k, m, c, rx, f1, -, f2, f3, f4, rfl, f5⟩ := hx
    obtain ⟨i', n', k', m', c', ry, g1, -, g2, g3, g4, rfl, g5⟩ := hy
    simp only [List.append_assoc] at h
    obtain ⟨rfl, -, h⟩ := numField_same f1 g1 h
    obtain ⟨rfl, hm, h⟩ := numField_same f2 g2 h
    obtain ⟨rfl, h'⟩ := nums_same _ _ _ _ _ _ (by rw [f3, g3, hm]) f4 g4 h
    rw [records_same as bs _ _ _ _ (by simpa using hl) f5 g5 h']

theorem table_same {a b : List (Nat × List Nat)} {x y p q : Bytes} (hx : ReadsTable a x) (hy : ReadsTable b y) (h : x ++ p = y ++ q) : x = y := by
  obtain ⟨-, c, n, rx, f1, f2, rfl, f3⟩ := hx
  obtain ⟨-, c', n', ry, g1, g2, rfl, g3⟩ := hy
  rw [List.append_assoc, List.append_assoc] at h
  obtain ⟨rfl, hn, h⟩ := numField_same f1 g1 h
  rw [records_same _ _ _ _ _ _ (by rw [f2, g2, hn]) f3 g3 h]

/-! ### the two sections of a truncated document -/

theorem cut_secondary {r : Cfg} {full mem tbl : Bytes} {k p : Nat} (hmem : full.take k = mem) (hlt : full.length < 2 ^ 32)
    (hat : HasAt full p (lenB tbl.length ++ tbl)) (hp : p ≤ full.length) {α : Type} {construct : View → Res α}
    (hcon : p + (lenB tbl.length).length ≤ mem.length →
      CutOk r (construct ⟨mem, p + (lenB tbl.length).length, tbl.length⟩) (fun _ => True)) :
    CutOk r (parseSecondary r construct mem p)
      (fun q => q.2 = p + (lenB tbl.length).length + tbl.length) := by
  have hin := hat.length hp
  simp only [List.length_append] at hin
  have htl : tbl.length < 2 ^ 32 := by omega
  have hml : mem.length ≤ full.length := by rw [← hmem, List.length_take]; omega
  have hlb : lenB tbl.length = leb128 tbl.length := lenB_of_lt htl
  rw [HasAt.append] at hat
  unfold parseSecondary
  rcases C05_parseLengthAt_any r mem (by omega) p with ⟨bs, h1, h2, h3, h4, h5⟩ | ⟨e, h1, h2⟩ | ⟨h1, h2⟩ | ⟨h1, h2⟩
  · obtain ⟨g1, g2⟩ := field_unique (n := tbl.length) hmem.symm (bs := bs) (v := lebValue bs % 2 ^ 64) ⟨h2, h3, rfl⟩ h4 (by omega)
      (by rw [← hlb]; exact hat.1)
    rw [← hlb] at g1
    rw [h1, g2]
    simp only [ok_bind]
    rw [addW_of_lt (by omega), g1]
    rw [g1] at h5
    refine (hcon h5).bind fun a _ => ?_
    simp only [pure_eq_ok]
    exact CutOk.ok (addW_of_lt (by omega))
  · rw [h1]; exact .err (.inl ⟨e, rfl, h2⟩)
  · rw [h1]; exact .err (.inr (.inr ⟨rfl, h2⟩))
  · exfalso
    obtain ⟨x, hx1, hx2⟩ := isLeb_last _ (leb128_isLeb tbl.length)
    have hl5 : (leb128 tbl.length).length ≤ 10 := leb128_length_le10 (by omega)
    have hpos := leb128_length_pos tbl.length
    obtain ⟨b, hb1, hb2⟩ := h2 ((leb128 tbl.length).length - 1) (by omega)
    obtain ⟨post, hpost⟩ := hat.1
    rw [hlb] at hpost
    have : full[p + ((leb128 tbl.length).length - 1)]? = some x := by
      rw [← List.getElem?_drop, ← hpost, List.getElem?_append_left (by omega)]
      exact hx1
    have hlt' := (List.getElem?_eq_some_iff.mp hb1).1
    have hlk : p + ((leb128 tbl.length).length - 1) < k := by
      have : mem.length ≤ k := by rw [← hmem, List.length_take]; omega
      omega
    rw [← hmem, getElem?_take_lt hlk, this] at hb1
    simp only [Option.some.injEq] at hb1
    subst hb1
    omega

theorem cut_view {r : Cfg} {full mem tbl : Bytes} {k p : Nat} (hmem : full.take k = mem) (hlt : full.length < 2 ^ 32)
    (hsm : r.asserts = true → full.length < 2 ^ 31) (hat : HasAt full p tbl) (hp : p ≤ mem.length) (hk : mem.length < p + tbl.length) :
    CutView r ⟨mem, p, tbl.length⟩ tbl := by
  have hml : mem.length = min k full.length := by rw [← hmem, List.length_take]
  have hin := hat.length (by omega)
  refine ⟨hp, ?_, rfl, by simp only; omega, by simp only; omega, fun ha => by have := hsm ha; simp only; omega⟩
  obtain ⟨x, hx⟩ := hat
  have hmk : mem.length = k := by omega
  simp only
  rw [hmk, ← hmem, List.drop_take, ← hx, List.take_append_of_le_length (by omega)]

/-- The parts of a written document with names. -/
structure Parts (w : Cfg) (t : SeriType) (d : Doc) (main dict tbl : Bytes) : Prop where
  eq : contentOf w t d = main ++ (dict ++ (lenB tbl.length ++ tbl))
  main : main.length = 10 + (bodyOf w t d).1.length
  dict : dict = dictPart w (bodyOf w t d).2.2.sm
  tbl : tbl = siTableB w (bodyOf w t d).2.2.si

theorem parts_of (w : Cfg) (t : SeriType) (d : Doc) : Parts w t d (headOf w t d ++ (bodyOf w t d).1)
    (dictPart w (bodyOf w t d).2.2.sm) (siTableB w (bodyOf w t d).2.2.si) :=
  ⟨by simp [contentOf, splitPart], by simp [headOf_length], rfl, rfl⟩

theorem drop_app {a b : Bytes} {n : Nat} (h : n = a.length) : (a ++ b).drop n = b := by subst h; exact List.drop_left

/-- The dictionary of a truncated document: it is read, or the parse fails as truncated documents do. -/
theorem cut_dict {w r : Cfg} {t : SeriType} {d : Doc} {main dict tbl mem : Bytes} {k : Nat} (P : Parts w t d main dict tbl)
    (hf : Fits r (contentOf w t d)) (hmem : (contentOf w t d).take k = mem) {m : StringMap} (hm : (bodyOf w t d).2.2.sm = some m)
    (hinv : SMInv m) :
    CutOk r (parseSecondary r (StringMap.construct r) mem main.length) (fun q => q.2 = main.length + dict.length) ∧
    (main.length + dict.length ≤ mem.length → ∃ m', parseSecondary r (StringMap.construct r) mem main.length = .ok (m', main.length + dict.length)) := by
  have hlt := hf.lt
  have hlen := congrArg List.length P.eq
  simp only [List.length_append] at hlen
  have hd : dict = lenB (smTableB w m).length ++ smTableB w m := by rw [P.dict, hm]; rfl
  have hdl := congrArg List.length hd
  simp only [List.length_append] at hdl
  have hat : HasAt (contentOf w t d) main.length (lenB (smTableB w m).length ++ smTableB w m) := by
    rw [P.eq]
    unfold HasAt
    rw [List.drop_left, ← hd]
    exact List.prefix_append _ _
  have hat2 := hat
  rw [HasAt.append] at hat2
  have hml : mem.length = min k (contentOf w t d).length := by rw [← hmem, List.length_take]
  have hwhole : main.length + (lenB (smTableB w m).length).length + (smTableB w m).length ≤ mem.length →
      ∃ m', StringMap.construct r ⟨mem, main.length + (lenB (smTableB w m).length).length, (smTableB w m).length⟩ = .ok m' := by
    intro hin
    obtain ⟨m', hc, -⟩ := smConstruct_dict (cfg := r) (wc := w)
      (v := ⟨mem, main.length + (lenB (smTableB w m).length).length, (smTableB w m).length⟩) hinv
      ⟨by simp only; omega, fun ha => by have := hf.small ha; simp only; omega⟩ (by simp only; omega) rfl (by simp only; omega)
      (by simp only; rw [← hmem]; exact hat2.2.take (by omega))
    exact ⟨m', hc⟩
  refine ⟨?_, ?_⟩
  · have key := cut_secondary (r := r) (construct := StringMap.construct r) hmem hlt hat (by omega) (by
      intro hb
      by_cases hin : main.length + (lenB (smTableB w m).length).length + (smTableB w m).length ≤ mem.length
      · obtain ⟨m', hc⟩ := hwhole hin
        rw [hc]
        exact CutOk.ok trivial
      · refine CutView.dict (cut_view hmem hlt hf.small hat2.2 hb (by omega)) hinv.bound ?_
        intro e he
        have hp := w.smPerm m.map
        have he' := hp.mem_iff.mpr he
        have h1 : (smEntryB e).length ≤ ((w.smOrd m.map).map smEntryB).flatten.length := by
          exact (List.sublist_flatten_of_mem (List.mem_map.mpr ⟨e, he', rfl⟩)).length_le
        simp only [smTableB, List.length_append] at hdl
        simp only [smEntryB, List.length_append] at h1
        omega)
    exact key.mono fun q hq => by rw [hq]; omega
  · intro hin
    obtain ⟨m', hc⟩ := hwhole (by omega)
    refine ⟨m', ?_⟩
    have n1 := numField_lenB (smTableB w m).length
    rw [toU32_of_lt (by omega)] at n1
    have := secondary_complete (r := r) (content := mem) (fun ha => by have := hf.small ha; omega) (by omega) n1
      (by rw [← hmem]; exact hat2.1.take (by omega)) (by omega) (by omega) hc
    rw [this, hdl, Nat.add_assoc]

/-- The split table of a truncated document: what the parse of it can end with, and when it is read. -/
theorem cut_split {w r : Cfg} {t : SeriType} {d : Doc} {main dict tbl mem : Bytes} {k : Nat} (P : Parts w t d main dict tbl)
    (hf : Fits r (contentOf w t d)) (hmem : (contentOf w t d).take k = mem) (hk : k < (contentOf w t d).length) :
    CutOk r (parseSecondary r (SplitInfo.construct r) mem (main.length + dict.length)) (fun _ => True) ∧
    ((∃ x, parseSecondary r (SplitInfo.construct r) mem (main.length + dict.length) = .ok x) ↔
      main.length + dict.length + (lenB tbl.length).length ≤ k ∧
        ∃ T, ReadsTable T (mem.drop (main.length + dict.length + (lenB tbl.length).length) ++ [0])) := by
  have hlt := hf.lt
  have hlen := congrArg List.length P.eq
  simp only [List.length_append] at hlen
  have htab : ReadsTable (w.siOrd (bodyOf w t d).2.2.si.info) tbl := by rw [P.tbl]; exact written_table w t d hlt
  have hat : HasAt (contentOf w t d) (main.length + dict.length) (lenB tbl.length ++ tbl) := by
    rw [P.eq]
    unfold HasAt
    rw [← List.drop_drop, List.drop_left, List.drop_left]
    exact List.prefix_refl _
  have hat2 := hat
  rw [HasAt.append] at hat2
  have hml : mem.length = k := by rw [← hmem, List.length_take]; omega
  have n1 := numField_lenB tbl.length
  rw [toU32_of_lt (by omega)] at n1
  refine ⟨?_, ?_, ?_⟩
  · refine (cut_secondary (r := r) (construct := SplitInfo.construct r) hmem hlt hat (by omega) (fun hb => ?_)).mono fun _ _ => trivial
    exact (cut_view hmem hlt hf.small hat2.2 hb (by omega)).split htab
  · rintro ⟨⟨si, q⟩, hx⟩
    obtain ⟨l, size, f1, f2, f3, f4, -⟩ := secondary_inv (by omega) hx
    obtain ⟨g1, g2⟩ := field_unique (n := tbl.length) hmem.symm f1 f2 (by omega) (by rw [← lenB_of_lt (by omega)]; exact hat2.1)
    rw [← lenB_of_lt (by omega)] at g1
    subst g1 g2
    refine ⟨by omega, si.info, ?_⟩
    obtain ⟨bs, -, q1, q2, q3⟩ := siConstruct_inv (by simp only; omega) f4
    simp only at q2 q3
    unfold HasAt at q2
    rw [List.drop_append_of_le_length f3] at q2
    obtain ⟨z, hz⟩ := q2
    rcases List.eq_nil_or_concat z with rfl | ⟨z', b, rfl⟩
    · rw [List.append_nil] at hz
      rw [← hz]; exact q1
    · exfalso
      rw [List.concat_eq_append, ← List.append_assoc] at hz
      obtain ⟨hz, -⟩ := List.append_inj' hz rfl
      -- the table would end before its last byte
      have hsame : bs = tbl := by
        obtain ⟨y, hy⟩ := hat2.2
        have hm : mem.drop (main.length + dict.length + (lenB tbl.length).length) <+:
            (contentOf w t d).drop (main.length + dict.length + (lenB tbl.length).length) := by
          rw [← hmem, List.drop_take]
          exact List.take_prefix _ _
        obtain ⟨u, hu⟩ := hm
        rw [← hz, List.append_assoc, ← hy] at hu
        exact table_same q1 htab hu
      have l1 := congrArg List.length hz
      simp only [List.length_append, List.length_drop, hsame] at l1
      omega
  · rintro ⟨hb, T, hT⟩
    obtain ⟨s, g1, -⟩ := siConstruct_complete (r := r)
      (v := ⟨mem, main.length + dict.length + (lenB tbl.length).length, tbl.length⟩)
      (fun ha => by have := hf.small ha; simp only; omega) (by simp only; omega) hT (by
        simp only
        unfold HasAt
        rw [List.drop_append_of_le_length (by omega)]
        exact List.prefix_refl _) (by simp only [List.length_append, List.length_drop, List.length_singleton]; omega)
    exact ⟨_, secondary_complete (r := r) (fun ha => by have := hf.small ha; omega) (by omega) n1
      (by rw [← hmem]; exact hat2.1.take (by omega)) (by omega) (by omega) g1⟩

/-- The tables of a truncated document. -/
theorem cut_tables {w r : Cfg} {t : SeriType} {d : Doc} {main dict tbl mem : Bytes} {k : Nat} (P : Parts w t d main dict tbl)
    (hf : Fits r (contentOf w t d)) (hmem : (contentOf w t d).take k = mem) (hk : k < (contentOf w t d).length) :
    CutOk r (readTables r mem main.length t.toChar) (fun _ => True) ∧
    ((∃ x, readTables r mem main.length t.toChar = .ok x) ↔
      main.length + dict.length + (lenB tbl.length).length ≤ k ∧
        ∃ T, ReadsTable T (mem.drop (main.length + dict.length + (lenB tbl.length).length) ++ [0])) := by
  have hlt := hf.lt
  have hlen := congrArg List.length P.eq
  simp only [List.length_append] at hlen
  have hpm := P.main
  have hroom := env0_room t (n := (bodyOf w t d).1.length) (by omega)
  have hg : Grows (env0 t) (bodyOf w t d).2.2 (bodyOf w t d).1.length := emitDoc_grows w (rootDoc d) (env0 t) hroom
  have hml : mem.length = k := by rw [← hmem, List.length_take]; omega
  obtain ⟨h1, h2⟩ := cut_split P hf hmem hk
  cases t with
  | normal =>
    have hnone : (bodyOf w .normal d).2.2.sm = none := hg.smNone rfl
    have hd : dict.length = 0 := by rw [P.dict, hnone]; rfl
    have h0 : main.length + dict.length = main.length := by omega
    rw [h0] at h1 h2 ⊢
    unfold readTables
    rw [if_pos rfl]
    refine ⟨h1.bind fun _ _ => CutOk.ok trivial, ?_⟩
    rw [← h2]
    constructor
    · rintro ⟨x, hx⟩
      obtain ⟨p, hp, -⟩ := bind_ok hx
      exact ⟨p, hp⟩
    · rintro ⟨p, hp⟩
      exact ⟨(none, p.1), by rw [hp]; rfl⟩
  | replace =>
    obtain ⟨m, hm1, hm2, -⟩ := hg.sm {} rfl SMInv.empty
    obtain ⟨g1, g2⟩ := cut_dict P hf hmem hm1 hm2
    unfold readTables
    rw [if_neg (by decide), if_pos rfl]
    refine ⟨g1.bind fun p hp => ?_, ?_⟩
    · rw [hp]
      exact h1.bind fun _ _ => CutOk.ok trivial
    · constructor
      · rintro ⟨x, hx⟩
        obtain ⟨p, hp, hx⟩ := bind_ok hx
        obtain ⟨q, hq, -⟩ := bind_ok hx
        rw [hp] at g1
        have : p.2 = main.length + dict.length := by unfold CutOk at g1; exact g1
        rw [this] at hq
        exact h2.mp ⟨q, hq⟩
      · intro hdone
        obtain ⟨q, hq⟩ := h2.mpr hdone
        obtain ⟨m', hm'⟩ := g2 (by omega)
        refine ⟨(some m', q.1), ?_⟩
        rw [hm']
        simp only [ok_bind]
        rw [hq]
        rfl

theorem written_end {w : Cfg} {t : SeriType} {d : Doc} {main dict tbl : Bytes} (P : Parts w t d main dict tbl)
    (hlt : (contentOf w t d).length < 2 ^ 32) : EndsWith (contentOf w t d) main dict (lenB tbl.length) tbl := by
  have hlen := congrArg List.length P.eq
  simp only [List.length_append] at hlen
  obtain ⟨hbe, h8, -, -, -, -⟩ := content_parts w t d
  have hpm := P.main
  have hroom := env0_room t (n := (bodyOf w t d).1.length) (by omega)
  have hg : Grows (env0 t) (bodyOf w t d).2.2 (bodyOf w t d).1.length := emitDoc_grows w (rootDoc d) (env0 t) hroom
  refine ⟨P.eq, ?_, ?_, ?_, ⟨w.siOrd (bodyOf w t d).2.2.si.info, by rw [P.tbl]; exact written_table w t d hlt⟩⟩
  · have := hasAt_take_eq hbe
    rw [bigEndian_length] at this
    rw [this, hpm]
  · cases t with
    | normal =>
      have hnone : (bodyOf w .normal d).2.2.sm = none := hg.smNone rfl
      exact .inl ⟨h8, by rw [P.dict, hnone]; rfl⟩
    | replace =>
      right
      refine ⟨h8, ?_⟩
      obtain ⟨m, hm1, hm2, -⟩ := hg.sm {} rfl SMInv.empty
      have hf : Fits { w with asserts := false, strMax := 2 ^ 32 } (contentOf w .replace d) := ⟨hlt, by simp, by simp only; omega⟩
      obtain ⟨-, g2⟩ := cut_dict P hf List.take_length hm1 hm2
      obtain ⟨m', hm'⟩ := g2 (by omega)
      have hpos := lenB_length_pos tbl.length
      obtain ⟨-, ps, f, -, -, g⟩ := dictSection_inv (by omega) hm' (by omega)
      refine ⟨ps, ?_⟩
      have e1 : (contentOf w .replace d).drop main.length = dict ++ (lenB tbl.length ++ tbl) := by rw [P.eq, List.drop_left]
      have e2 : (contentOf w .replace d).drop (main.length + dict.length) = lenB tbl.length ++ tbl := by
        rw [← List.drop_drop, e1, List.drop_left]
      rw [e1, e2] at g
      exact g
  · have n1 := numField_lenB tbl.length
    rwa [toU32_of_lt (by omega)] at n1

/-- The header of a truncated document. -/
theorem cut_init {w r : Cfg} {t : SeriType} {d : Doc} {main dict tbl mem : Bytes} {k : Nat} (P : Parts w t d main dict tbl)
    (hf : Fits r (contentOf w t d)) (hmem : (contentOf w t d).take k = mem) (hk : k < (contentOf w t d).length)
    (hm : main.length < k) : initFromContent r mem = (readTables r mem main.length t.toChar >>= fun p =>
      .ok ⟨p.1, p.2, main.length, (bodyOf w t d).2.1⟩) := by
  have hlt := hf.lt
  obtain ⟨hbe, h8, -, -, hlen, -⟩ := content_parts w t d
  have hpm := P.main
  have hml : mem.length = k := by rw [← hmem, List.length_take]; omega
  have ht8 : mem.take 8 = bigEndian 8 main.length := by
    have := hasAt_take_eq hbe
    rw [bigEndian_length] at this
    rw [← hmem, List.take_take, Nat.min_eq_left (by omega), this, hpm]
  have hm8 : mem.getD 8 0 = t.toChar := by
    have : mem[8]? = some t.toChar := by rw [← hmem, getElem?_take_lt (by omega)]; exact h8
    simp [List.getD, this]
  have hm9 : mem.getD 9 0 = if (bodyOf w t d).2.1 then 0x0A else 0x00 := by
    have : mem[9]? = some (if (bodyOf w t d).2.1 then 0x0A else 0x00) := by
      rw [← hmem, getElem?_take_lt (by omega)]; exact flag_byte w t d
    simp [List.getD, this]
  rw [init_steps (by omega), totalSize_of (by omega) (by omega) ht8]
  simp only [ok_bind, hm8, hm9]
  cases readTables r mem main.length t.toChar with
  | error e => rfl
  | ok p =>
    simp only [ok_bind]
    cases (bodyOf w t d).2.1 <;> rfl

theorem parses_error {r : Cfg} {po : ParseOption} {content : Bytes} {e : Err} (h : initFromContent r content = .error e) (he : e ≠ .fuel) :
    Parses r po content (.error e) := by
  refine ⟨by simpa using he, 0, fun fuel _ => ?_⟩
  unfold parse
  rw [h]
  rfl

theorem CutError.ne_fuel {r : Cfg} {e : Err} (h : CutError r e) : e ≠ .fuel := by
  rintro rfl
  rcases h with ⟨x, h, -⟩ | h | ⟨h, -⟩ <;> cases h

/-- C26. Every proper prefix of every document.  Let the split table start at `p`.  A prefix is accepted if it reaches the split
table and what is left of the table is complete with the terminator of the string behind it: then a parse with the recursive parser
returns the document that was written.  Every other prefix is rejected by every kind of parse: with a runtime_error, with a read
beyond the end of the string (which is what is wrong with it), or, in a build with assertions, with an abort. -/
theorem C26_cut_exact (w r : Cfg) (hw : w.charSigned = true) (t : SeriType) (o : Obj) (d : Doc) (hd : o.doc? = some d)
    (hh : Writable w o) : ∃ content main dict size tbl, serialize w t o = .ok content ∧ (Fits r content →
      EndsWith content main dict size tbl ∧ ∀ (k p : Nat), k < content.length → p = main.length + dict.length + size.length →
        (¬ (p ≤ k ∧ ZeroCompletes ((content.take k).drop p)) → ∀ po : ParseOption,
          ∃ e, Parses r po (content.take k) (.error e) ∧ CutError r e) ∧
        (p ≤ k ∧ ZeroCompletes ((content.take k).drop p) → ∀ po : ParseOption, (po.coroutine = false ∨ content[9]? = some 0) →
          (po.parseRef = true → d.noCustom = true) →
          ∃ o', Parses r po (content.take k) (.ok o') ∧ o'.doc? = some d.revMaps)) := by
  have P := parts_of w t d
  generalize headOf w t d ++ (bodyOf w t d).1 = main at P
  generalize dictPart w (bodyOf w t d).2.2.sm = dict at P
  generalize siTableB w (bodyOf w t d).2.2.si = tbl at P
  refine ⟨_, main, dict, lenB tbl.length, tbl, serialize_eq hw t hd hh, fun hf => ⟨written_end P hf.lt, fun k p hk hp => ?_⟩⟩
  have hlt := hf.lt
  have hpm := P.main
  generalize hmem : (contentOf w t d).take k = mem
  have hml : mem.length = k := by rw [← hmem, List.length_take]; omega
  obtain ⟨h1, h2⟩ := cut_tables P hf hmem hk
  rw [← hp] at h2
  refine ⟨fun hno po => ?_, fun hdone po hrec hc => ?_⟩
  · by_cases hkm : k ≤ main.length
    · obtain ⟨c, total, g1, g2⟩ := C26_cut_main w hw t o d hd hh
      rw [serialize_eq hw t hd hh] at g1
      simp only [Except.ok.injEq] at g1
      subst g1
      obtain ⟨g3, -, g4, g5⟩ := g2 hlt
      have he := (written_end P hlt).total
      have hlen := congrArg List.length P.eq
      simp only [List.length_append] at hlen
      have htot : total = main.length := by
        rw [g3] at he
        exact bigEndian8_inj (by omega) (by omega) he
      obtain ⟨e, q1, q2⟩ := g5 r po k (by omega)
      rw [hmem] at q1
      exact ⟨_, q1, .inl ⟨e, rfl, q2⟩⟩
    · have hin := cut_init P hf hmem hk (by omega)
      cases hq : readTables r mem main.length t.toChar with
      | ok x => exact absurd (h2.mp ⟨x, hq⟩) hno
      | error e =>
        rw [hq] at hin h1
        have he : CutError r e := by unfold CutOk at h1; exact h1
        exact ⟨e, parses_error hin he.ne_fuel, he⟩
  · have hlen := congrArg List.length P.eq
    simp only [List.length_append] at hlen
    have hpos := lenB_length_pos tbl.length
    have hin := cut_init P hf hmem hk (by omega)
    obtain ⟨x, hx⟩ := h2.mpr hdone
    have hctx : PCtx r mem x.1 (bodyOf w t d).2.2 := cut_ctx hf hmem (by omega) (by rw [← hpm]; exact hx)
    rw [hx] at hin
    simp only [ok_bind] at hin
    have hroom := env0_room t (n := (bodyOf w t d).1.length) (by omega)
    have hbody' : HasAt mem 10 (bodyOf w t d).1 := by rw [← hmem]; exact (content_parts w t d).2.2.1.take (by omega)
    have hsz : (emitDoc w (rootDoc d) (env0 t)).1.length = (bodyOf w t d).1.length := rfl
    obtain ⟨o1, p1, p2, p3⟩ := parseVal_eq (wc := w) (ref := po.parseRef) (pool := .caller) hctx (rootDoc d) (env0 t) 10
      (docFuel (rootDoc d)) hroom (Follows.refl _) hbody' (by omega) (by omega)
      (by simpa [rootDoc, Doc.noCustom, noCustomE] using hc) (by omega)
    rw [rootDoc_revMaps] at p2
    obtain ⟨q1, -⟩ := takeRoot_doc p2 p3
    refine ⟨takeRoot o1, parses_of_fuel (f := docFuel (rootDoc d)) ?_ (by simp), q1⟩
    have hrec' : po.coroutine = false ∨ mem[9]? = some 0 := by
      rcases hrec with h | h
      · exact .inl h
      · right; rw [← hmem, getElem?_take_lt (by omega)]; exact h
    rw [normal_of_init hrec' hin]
    have hty : docType (rootDoc d) = .map := rfl
    rw [hty] at p1
    unfold normalParse
    simp only [metaSize]
    rw [p1]
    simp only [ok_bind]
    rw [if_neg (by rw [hpm]; simp [bodyOf])]
    rfl

/-! ### two cuts that are always accepted -/

theorem zeroCompletes_nil : ZeroCompletes [] :=
  ⟨[], by simp, [0], 0, [], ⟨by show (0 : UInt8).toNat < 128; decide, by simp, by simp [lebValue]⟩, by simp, rfl, rfl⟩

theorem lebValue_append (l : Bytes) (b : UInt8) : lebValue (l ++ [b]) = lebValue l + 128 ^ l.length * (b.toNat % 128) := by
  induction l with
  | nil => simp [lebValue]
  | cons a l ih =>
    simp only [List.cons_append, lebValue, ih, List.length_cons, Nat.pow_succ]
    rw [Nat.mul_add, ← Nat.add_assoc, ← Nat.mul_assoc, Nat.mul_comm 128 (128 ^ l.length)]

/-- Zeroing the last byte of a number field leaves a number field; a number that was a multiple of 2^32 stays one. -/
theorem numField_zero {l : Bytes} {n : Nat} (h : NumField l n) :
    ∃ n', NumField (l.dropLast ++ [0]) n' ∧ (n % 2 ^ 32 = 0 → n' % 2 ^ 32 = 0) := by
  obtain ⟨h1, h2, h3⟩ := h
  have hpos := isLeb_pos h1
  have hg := isLeb_cut l (l.length - 1) h1 (by omega)
  rw [← List.dropLast_eq_take] at hg
  refine ⟨_, ⟨hg.1, by simp; omega, rfl⟩, fun hz => ?_⟩
  have e64 : ∀ x : Nat, x % 2 ^ 64 % 2 ^ 32 = x % 2 ^ 32 := fun x => Nat.mod_mod_of_dvd x ⟨2 ^ 32, by decide⟩
  rw [h3, e64] at hz
  rw [e64, lebValue_append]
  have hl : l = l.dropLast ++ [l.getLast (by intro h; rw [h] at hpos; simp at hpos)] := (List.dropLast_concat_getLast _).symm
  have hv : lebValue l = lebValue l.dropLast + 128 ^ l.dropLast.length * ((l.getLast (by intro h; rw [h] at hpos; simp at hpos)).toNat % 128) := by
    conv => lhs; rw [hl]
    rw [lebValue_append]
  have hlt := lebValue_lt l.dropLast
  generalize (l.getLast (by intro h; rw [h] at hpos; simp at hpos)).toNat % 128 = b at hv
  generalize lebValue l.dropLast = a at hv hlt ⊢
  have hjle : l.dropLast.length ≤ 9 := by simp; omega
  generalize l.dropLast.length = j at hv hlt hjle ⊢
  rw [hv] at hz
  simp only [show (0 : UInt8).toNat % 128 = 0 from by decide, Nat.mul_zero, Nat.add_zero]
  by_cases hj : j ≤ 4
  · have hdvd : 128 ^ j ∣ 2 ^ 32 := by
      rw [show (128 : Nat) = 2 ^ 7 by decide, ← Nat.pow_mul]
      exact Nat.pow_dvd_pow 2 (by omega)
    have h0 : (a + 128 ^ j * b) % 128 ^ j = 0 := by
      rw [← Nat.mod_mod_of_dvd _ hdvd, hz]; simp
    rw [Nat.add_mul_mod_self_left, Nat.mod_eq_of_lt hlt] at h0
    rw [h0]
  · have hdvd : 2 ^ 32 ∣ 128 ^ j * b := by
      refine Nat.dvd_mul_right_of_dvd ?_ b
      rw [show (128 : Nat) = 2 ^ 7 by decide, ← Nat.pow_mul]
      exact Nat.pow_dvd_pow 2 (by omega)
    obtain ⟨c, hc⟩ := hdvd
    rw [hc, Nat.add_mul_mod_self_left] at hz
    exact hz

theorem dropLast_app {a b : Bytes} (h : b ≠ []) : (a ++ b).dropLast ++ [0] = a ++ (b.dropLast ++ [0]) := by
  rw [List.dropLast_append_of_ne_nil h, List.append_assoc]

theorem nums_zero : ∀ (bl : List Nat) (b : Bytes), ReadsNums bl b → b ≠ [] →
    ∃ bl', bl'.length = bl.length ∧ ReadsNums bl' (b.dropLast ++ [0])
  | [], b, h, hb => absurd h hb
  | c :: bl, b, h, _ => by
    obtain ⟨i, n, rest, f1, f2, rfl, f3⟩ := h
    cases hr : rest with
    | nil =>
      rw [hr] at f3
      have hbl : bl = [] := by
        cases bl with
        | nil => rfl
        | cons x bl =>
          obtain ⟨i', n', rest', g1, -, g2, -⟩ := f3
          have := isLeb_pos g1.1
          have := congrArg List.length g2
          simp at this
          omega
      subst hbl
      obtain ⟨n', g1, -⟩ := numField_zero f1
      exact ⟨[n' % 2 ^ 32], rfl, _, n', [], g1, rfl, by simp, rfl⟩
    | cons x xs =>
      have hne : rest ≠ [] := by rw [hr]; simp
      obtain ⟨bl', g1, g2⟩ := nums_zero bl rest f3 hne
      rw [← hr, dropLast_app hne]
      exact ⟨c :: bl', by simp [g1], i, n, _, f1, f2, rfl, g2⟩

theorem records_pos {t : List (Nat × List Nat)} (h : ReadsRecords t []) : t = [] := by
  cases t with
  | nil => rfl
  | cons e t =>
    obtain ⟨i, n, k, m, b, rest, f1, -, -, -, -, f6, -⟩ := h
    have := isLeb_pos f1.1
    have := congrArg List.length f6
    simp at this
    omega

theorem records_zero : ∀ (t : List (Nat × List Nat)) (b : Bytes), ReadsRecords t b → b ≠ [] →
    ∃ t', t'.map Prod.fst = t.map Prod.fst ∧ ReadsRecords t' (b.dropLast ++ [0])
  | [], b, h, hb => absurd h hb
  | (id, bl) :: t, b, h, _ => by
    obtain ⟨i, n, k, m, c, rest, f1, f2, f3, f4, f5, rfl, f6⟩ := h
    have hk := isLeb_pos f3.1
    by_cases hr : rest = []
    · subst hr
      have ht := records_pos f6
      subst ht
      rw [List.append_nil]
      by_cases hc : c = []
      · subst hc
        have hbl : bl.length = 0 := by
          cases bl with
          | nil => rfl
          | cons x bl =>
            obtain ⟨i', n', rest', g1, -, g2, -⟩ := f5
            have := isLeb_pos g1.1
            have := congrArg List.length g2
            simp at this
            omega
        obtain ⟨m', g1, g2⟩ := numField_zero f3
        refine ⟨[(id, [])], by simp, i, n, _, m', [], [], f1, f2, g1, ?_, rfl, ?_, rfl⟩
        · rw [g2 (by rw [← f4, hbl])]; rfl
        · rw [List.append_nil, dropLast_app (by intro h; rw [h] at hk; simp at hk)]
          simp
      · obtain ⟨bl', g1, g2⟩ := nums_zero bl c f5 hc
        refine ⟨[(id, bl')], by simp, i, n, k, m, _, [], f1, f2, f3, by rw [g1, f4], g2, ?_, rfl⟩
        rw [dropLast_app (by simp [hc]), dropLast_app hc]
        simp
    · obtain ⟨t', g1, g2⟩ := records_zero t rest f6 hr
      refine ⟨(id, bl) :: t', by simp [g1], i, n, k, m, c, _, f1, f2, f3, f4, f5, ?_, g2⟩
      rw [dropLast_app (by simp [hr]), dropLast_app (by simp [hr]), dropLast_app hr]

theorem zeroCompletes_last {t : List (Nat × List Nat)} {tbl : Bytes} (h : ReadsTable t tbl) : ZeroCompletes tbl.dropLast := by
  obtain ⟨hn, c, n, rest, f1, f2, rfl, f3⟩ := h
  by_cases hr : rest = []
  · subst hr
    have ht := records_pos f3
    subst ht
    obtain ⟨n', g1, g2⟩ := numField_zero f1
    refine ⟨[], by simp, _, n', [], g1, ?_, by simp, rfl⟩
    rw [g2 f2.symm]; rfl
  · obtain ⟨t', g1, g2⟩ := records_zero t rest f3 hr
    refine ⟨t', by rw [g1]; exact hn, c, n, _, f1, ?_, dropLast_app hr, g2⟩
    have := congrArg List.length g1
    simp only [List.length_map] at this
    rw [this, f2]

/-- C26. Two prefixes of every document are always accepted by the recursive parser, and read as the document: the one without the
last byte, and the one that ends before the split table. -/
theorem C26_cut_accepted (w r : Cfg) (hw : w.charSigned = true) (t : SeriType) (o : Obj) (d : Doc) (hd : o.doc? = some d)
    (hh : Writable w o) : ∃ content main dict size tbl, serialize w t o = .ok content ∧ (Fits r content →
      EndsWith content main dict size tbl ∧ ∀ po : ParseOption, (po.coroutine = false ∨ content[9]? = some 0) →
        (po.parseRef = true → d.noCustom = true) →
        (∃ o', Parses r po content.dropLast (.ok o') ∧ o'.doc? = some d.revMaps) ∧
        (∃ o', Parses r po (main ++ (dict ++ size)) (.ok o') ∧ o'.doc? = some d.revMaps)) := by
  obtain ⟨content, main, dict, size, tbl, h1, h2⟩ := C26_cut_exact w r hw t o d hd hh
  refine ⟨content, main, dict, size, tbl, h1, fun hf => ⟨(h2 hf).1, fun po hrec hc => ?_⟩⟩
  obtain ⟨hE, h3⟩ := h2 hf
  obtain ⟨T, hT⟩ := hE.table
  have htl : 0 < tbl.length := by
    obtain ⟨-, c, n, rest, f1, -, rfl, -⟩ := hT
    have := isLeb_pos f1.1
    simp only [List.length_append]; omega
  have hlen := congrArg List.length hE.eq
  simp only [List.length_append] at hlen
  refine ⟨?_, ?_⟩
  · obtain ⟨-, h4⟩ := h3 (content.length - 1) _ (by omega) rfl
    rw [← List.dropLast_eq_take] at h4
    refine h4 ⟨by omega, ?_⟩ po hrec hc
    have : content.dropLast.drop (main.length + dict.length + size.length) = tbl.dropLast := by
      have hne : tbl ≠ [] := by intro h; rw [h] at htl; simp at htl
      rw [hE.eq, List.dropLast_append_of_ne_nil (by simp [hne]), List.dropLast_append_of_ne_nil (by simp [hne]),
        List.dropLast_append_of_ne_nil hne, ← List.drop_drop, ← List.drop_drop, List.drop_left, List.drop_left, List.drop_left]
    rw [this]
    exact zeroCompletes_last hT
  · obtain ⟨-, h4⟩ := h3 (main.length + dict.length + size.length) _ (by omega) rfl
    have : content.take (main.length + dict.length + size.length) = main ++ (dict ++ size) := by
      rw [hE.eq, ← List.append_assoc, ← List.append_assoc]
      rw [List.take_left' (by simp only [List.length_append])]
      simp
    rw [this] at h4
    refine h4 ⟨Nat.le_refl _, ?_⟩ po hrec hc
    rw [List.drop_of_length_le (by simp only [List.length_append]; omega)]
    exact zeroCompletes_nil

/-- A document with a dictionary and a document with a split table that meet the hypotheses. -/
example : (∃ content, serialize Cfg.x86 .replace sampleObj = .ok content ∧ Fits Cfg.x86 content ∧ content.length = 57) ∧
    (∃ content, serialize tinyBlocks .normal twoBlocks = .ok content ∧ Fits tinyBlocks content ∧ content[9]? = some 0x0A) := by
  refine ⟨⟨(serialize Cfg.x86 .replace sampleObj).toOption.getD [], by decide +kernel,
    ⟨by decide +kernel, by decide +kernel, by decide +kernel⟩, ?_⟩,
    ⟨(serialize tinyBlocks .normal twoBlocks).toOption.getD [], by decide +kernel,
    ⟨by decide +kernel, by decide +kernel, by decide +kernel⟩, by decide +kernel⟩⟩
  decide +kernel

end Bridge
