import Verif.Proof.Format
import Verif.Props.Layout
/-
C14, C53: the document format, and how containers are split into blocks.
-/
set_option autoImplicit false
namespace Bridge
open Spec

theorem perm_map_lift {α β : Type} (f : α → β) {l m : List β} (h : l.Perm m) : ∀ r : List α, m = r.map f →
    ∃ r' : List α, r'.Perm r ∧ l = r'.map f := by
  induction h with
  | nil => intro r hr; exact ⟨r, .refl _, hr⟩
  | cons x _ ih =>
    intro r hr
    match r, hr with
    | a :: r, hr =>
      simp only [List.map_cons, List.cons.injEq] at hr
      obtain ⟨r', h1, h2⟩ := ih r hr.2
      exact ⟨a :: r', h1.cons _, by rw [hr.1, h2, List.map_cons]⟩
  | swap x y l =>
    intro r hr
    match r, hr with
    | a :: b :: r, hr =>
      simp only [List.map_cons, List.cons.injEq] at hr
      refine ⟨b :: a :: r, .swap _ _ _, ?_⟩
      rw [hr.1, hr.2.1, hr.2.2]; rfl
  | trans _ _ ih1 ih2 =>
    intro r hr
    obtain ⟨r2, h3, h4⟩ := ih2 r hr
    obtain ⟨r1, h5, h6⟩ := ih1 r2 h4
    exact ⟨r1, h5.trans h3, h6⟩

theorem env0_rep (t : SeriType) : Rep (env0 t) (if t = .replace then some [] else none) := by
  cases t
  · simp [Rep, env0, initDict]
  · simp only [Rep, env0, initDict]; exact DictRep.empty

/-- The dictionary of a document written in mode `t`. -/
def dictOf (t : SeriType) (d : Doc) : Option (List Bytes) :=
  if t = .replace then some (firstUse (inRoot d).strings) else none

theorem body_write {w : Cfg} {t : SeriType} {d : Doc} (hlt : (contentOf w t d).length < 2 ^ 32) :
    (bodyOf w t d).1 = (write w.blockSize (dictOf t d) (inRoot d) 1).bytes ∧
    (bodyOf w t d).2.1 = (write w.blockSize (dictOf t d) (inRoot d) 1).split ∧
    EmitOk w.blockSize (dictOf t d) (dictOf t d) (env0 t) (bodyOf w t d).2.2
      (write w.blockSize (dictOf t d) (inRoot d) 1).containers := by
  have hl : (bodyOf w t d).1.length + 1 < 2 ^ 32 := by
    simp only [contentOf, List.length_append, headOf_length] at hlt; omega
  have hadd : addAll (if t = .replace then some [] else none) (rootDoc d).strings = dictOf t d := by
    unfold dictOf addAll firstUse
    cases t <;> simp <;> rfl
  have h := emitDoc_write w (dictOf t d) (rootDoc d) (env0 t) _ (env0_rep t) (env0_room t hl)
    (by exact Nat.lt_of_succ_lt hl) (by
      rw [hadd]; unfold dictOf; cases t <;> simp [Pre])
  rw [hadd] at h
  have hn : (env0 t).si.next = 1 := by cases t <;> rfl
  rw [hn] at h
  exact h

theorem smEntryB_eq {e : Str × Nat} (h1 : e.1.bytes.length < 2 ^ 32) (h2 : e.2 < 2 ^ 32) :
    smEntryB e = dictEntry (e.1.bytes, e.2) := by
  unfold smEntryB dictEntry
  rw [lenB_of_lt h1, lenB_of_lt h2]

theorem siEntryB_eq {e : Nat × List Nat} (h1 : e.1 < 2 ^ 32) (h2 : e.2.length < 2 ^ 32) (h3 : ∀ b ∈ e.2, b < 2 ^ 32) :
    siEntryB e = splitEntry e := by
  unfold siEntryB splitEntry
  rw [lenB_of_lt h1, lenB_of_lt h2, toU32_of_lt h2, List.take_length]
  congr 3
  exact List.map_congr_left (fun b hb => lenB_of_lt (h3 b hb))

/-- C53. Every document is written in the format of `Spec/Format.lean`: header, main section, dictionary (REPLACE only) and
split table, byte for byte, up to the order of the entries of the two tables. -/
theorem C53_document_format (w : Cfg) (hw : w.charSigned = true) (t : SeriType) (o : Obj) (d : Doc) (hd : o.doc? = some d)
    (hh : Writable w o) :
    ∃ content, serialize w t o = .ok content ∧
      (content.length < 2 ^ 32 → IsDocument w.blockSize (decide (t = .replace)) d content) := by
  refine ⟨_, serialize_eq hw t hd hh, fun hlt => ?_⟩
  obtain ⟨b1, b2, b3⟩ := body_write hlt
  have hlen : (contentOf w t d).length = 10 + ((bodyOf w t d).1.length +
      ((dictPart w (bodyOf w t d).2.2.sm).length + (splitPart w (bodyOf w t d).2.2.si).length)) := by
    unfold contentOf; simp only [List.length_append, headOf_length]
  have hroom := env0_room t (n := (bodyOf w t d).1.length) (by omega)
  have hg : Grows (env0 t) (bodyOf w t d).2.2 (bodyOf w t d).1.length := emitDoc_grows w (rootDoc d) (env0 t) hroom
  have hvals : SIVals (bodyOf w t d).2.2.si (bodyOf w t d).1.length :=
    emitDoc_vals w _ (rootDoc d) (env0 t) (by intro e he; cases t <;> simp [env0, initDict] at he) (Nat.le_refl _)
  obtain ⟨recs, p1, p2, p3⟩ := b3.info
  have hi0 : (env0 t).si.info = [] := by cases t <;> rfl
  rw [hi0, List.nil_append] at p2
  obtain ⟨recs', q1, q2⟩ := perm_map_lift _ (w.siPerm (bodyOf w t d).2.2.si.info) recs p2
  -- the split table
  have hsplit : splitPart w (bodyOf w t d).2.2.si = section_ ((recs'.map (fun r => (r.1.id, r.2))).map splitEntry) := by
    have hcount : (bodyOf w t d).2.2.si.info.length = recs'.length := by rw [p2, List.length_map, q1.length_eq]
    have hent : (w.siOrd (bodyOf w t d).2.2.si.info).map siEntryB = (recs'.map (fun r => (r.1.id, r.2))).map splitEntry := by
      rw [← q2]
      apply List.map_congr_left
      intro e he
      have he' := (w.siPerm _).mem_iff.mp he
      have hv := hvals e he'
      have hk := hg.si.lt e.1 (List.mem_map.mpr ⟨e, he', rfl⟩)
      have hb := hg.si.bound
      exact siEntryB_eq (by omega) (by omega) hv.1
    have hcl : (bodyOf w t d).2.2.si.info.length < 2 ^ 32 := by
      have h1 : (((w.siOrd (bodyOf w t d).2.2.si.info).map siEntryB)).length ≤
          ((w.siOrd (bodyOf w t d).2.2.si.info).map siEntryB).flatten.length := by
        apply length_le_flatten
        intro c hc
        obtain ⟨e, _, rfl⟩ := List.mem_map.mp hc
        have := lenB_length_pos e.1
        simp only [siEntryB, List.length_append]; omega
      rw [List.length_map, (w.siPerm _).length_eq] at h1
      simp only [splitPart, siTableB, List.length_append] at hlen
      omega
    have htb : siTableB w (bodyOf w t d).2.2.si =
        leb128 ((recs'.map (fun r => (r.1.id, r.2))).map splitEntry).length ++
          ((recs'.map (fun r => (r.1.id, r.2))).map splitEntry).flatten := by
      unfold siTableB
      rw [hent, lenB_of_lt hcl, hcount]
      simp
    have htl : (siTableB w (bodyOf w t d).2.2.si).length < 2 ^ 32 := by
      simp only [splitPart, List.length_append] at hlen; omega
    unfold splitPart section_
    rw [lenB_of_lt htl, htb]
  -- the two modes
  cases t with
  | normal =>
    refine ⟨[], recs'.map (fun r => (r.1.id, r.2)), ?_, by simp, recs', (q1.map _).trans p1, rfl, fun r hr => p3 r (q1.mem_iff.mp hr)⟩
    have hdp : dictPart w (bodyOf w .normal d).2.2.sm = [] := by rw [hg.smNone rfl]; rfl
    unfold contentOf headOf
    rw [hdp, hsplit, b1, b2]
    have e1 : dictOf .normal d = none := rfl
    have e2 : decide (SeriType.normal = .replace) = false := rfl
    simp only [e1, e2, Bool.false_eq_true, if_false, List.nil_append, List.append_nil, SeriType.toChar, List.append_assoc]
  | replace =>
    have hrep := b3.rep
    unfold Rep at hrep
    cases hm : (bodyOf w .replace d).2.2.sm with
    | none => rw [hm] at hrep; simp [dictOf] at hrep
    | some m =>
      rw [hm] at hrep
      have hrep' : DictRep m (firstUse (inRoot d).strings) := hrep
      refine ⟨(w.smOrd m.map).map (fun e => (e.1.bytes, e.2)), recs'.map (fun r => (r.1.id, r.2)), ?_, ?_, recs',
        (q1.map _).trans p1, rfl, fun r hr => p3 r (q1.mem_iff.mp hr)⟩
      · have hsm := hg.sm {} rfl SMInv.empty
        obtain ⟨m', hm', hinv, _, _⟩ := hsm
        rw [hm] at hm'; simp only [Option.some.injEq] at hm'; subst hm'
        rw [hm] at hlen
        simp only [dictPart, List.length_append, smTableB] at hlen
        have hbl : ∀ e ∈ m.map, e.1.bytes.length < 2 ^ 32 := by
          intro e he
          have h1 : (smEntryB e).length ≤ ((w.smOrd m.map).map smEntryB).flatten.length :=
            List.Sublist.length_le (List.sublist_flatten_of_mem (List.mem_map.mpr ⟨e, (w.smPerm _).mem_iff.mpr he, rfl⟩))
          simp only [smEntryB, List.length_append] at h1
          omega
        have hent : (w.smOrd m.map).map smEntryB = ((w.smOrd m.map).map (fun e => (e.1.bytes, e.2))).map dictEntry := by
          rw [List.map_map]
          apply List.map_congr_left
          intro e he
          have he' := (w.smPerm _).mem_iff.mp he
          exact smEntryB_eq (hbl e he') (hinv.id_lt he')
        have hcl := hinv.bound
        have htb : smTableB w m = leb128 (((w.smOrd m.map).map (fun e => (e.1.bytes, e.2))).map dictEntry).length ++
            (((w.smOrd m.map).map (fun e => (e.1.bytes, e.2))).map dictEntry).flatten := by
          unfold smTableB
          rw [hent, lenB_of_lt hcl]
          simp [(w.smPerm m.map).length_eq]
        have htl : (smTableB w m).length < 2 ^ 32 := by
          simp only [smTableB, List.length_append]; omega
        have hdp : dictPart w (bodyOf w .replace d).2.2.sm =
            section_ (((w.smOrd m.map).map (fun e => (e.1.bytes, e.2))).map dictEntry) := by
          rw [hm]; simp only [dictPart]; unfold section_
          rw [lenB_of_lt htl, htb]
        unfold contentOf headOf
        rw [hdp, hsplit, b1, b2]
        have e1 : dictOf .replace d = some (firstUse (inRoot d).strings) := rfl
        simp only [e1, decide_true, if_true, SeriType.toChar, List.append_assoc, List.cons_append, List.nil_append]
      · intro _
        rw [← hrep'.map]
        exact (w.smPerm m.map).map _

/-- The sample `{"k": [7, "hi"], "z": <3 bytes>}` with a threshold of 10 bytes, in dictionary mode: the split table records the
array (one block of 10 bytes), the map (two blocks) and the root map. -/
example : serialize { Cfg.x86 with blockSize := 10 } .replace sampleObj =
    .ok [0, 0, 0, 0, 0, 0, 0, 37, 1, 10, 1, 1, 0, 129, 2, 2, 1, 130, 2, 3, 0, 1, 2, 0, 2, 4, 0, 0, 0, 7, 3, 0, 0, 3,
      1, 2, 3, 17, 4, 4, 114, 111, 111, 116, 0, 1, 107, 1, 2, 104, 105, 2, 1, 122, 3, 11, 3, 3, 1, 10, 2, 2, 14, 7, 1, 1, 25] := by
  decide +kernel

/-! ### C14 -/

mutual
theorem write_ids (B : Nat) (dict : Option (List Bytes)) : ∀ (d : Doc) (n : Nat),
    (write B dict d n).containers.map Container.id = List.range' n (write B dict d n).containers.length
  | .scalar s, n => by simp [write]
  | .array xs, n => by
    simp only [write, List.map_cons, List.length_cons, List.range'_succ]
    rw [writeL_ids B dict xs (n + 1)]
  | .map es, n => by
    simp only [write, List.map_cons, List.length_cons, List.range'_succ]
    rw [writeE_ids B dict es (n + 1)]
theorem writeL_ids (B : Nat) (dict : Option (List Bytes)) : ∀ (xs : List Doc) (n : Nat),
    (writeL B dict xs n).2.map Container.id = List.range' n (writeL B dict xs n).2.length
  | [], n => by simp [writeL]
  | x :: xs, n => by
    simp only [writeL, List.map_append, List.length_append]
    rw [write_ids B dict x n, writeL_ids B dict xs _, ← List.range'_append_1]
theorem writeE_ids (B : Nat) (dict : Option (List Bytes)) : ∀ (xs : List (Bytes × Doc)) (n : Nat),
    (writeE B dict xs n).2.map Container.id = List.range' n (writeE B dict xs n).2.length
  | [], n => by simp [writeE]
  | (k, x) :: xs, n => by
    simp only [writeE, List.map_append, List.length_append]
    rw [write_ids B dict x n, writeE_ids B dict xs _, ← List.range'_append_1]
end

mutual
theorem write_pos (B : Nat) (dict : Option (List Bytes)) : ∀ (d : Doc) (n : Nat),
    ∀ c ∈ (write B dict d n).containers, ∀ b ∈ c.children, 0 < b.length
  | .scalar s, n => by simp [write]
  | .array xs, n => by
    have h := writeL_pos B dict xs (n + 1)
    simp only [write]
    intro c hc
    rcases List.mem_cons.mp hc with hc | hc
    · subst hc; exact h.1
    · exact h.2 c hc
  | .map es, n => by
    have h := writeE_pos B dict es (n + 1)
    simp only [write]
    intro c hc
    rcases List.mem_cons.mp hc with hc | hc
    · subst hc; exact h.1
    · exact h.2 c hc
theorem writeL_pos (B : Nat) (dict : Option (List Bytes)) : ∀ (xs : List Doc) (n : Nat),
    (∀ b ∈ (writeL B dict xs n).1, 0 < b.length) ∧ ∀ c ∈ (writeL B dict xs n).2, ∀ b ∈ c.children, 0 < b.length
  | [], n => by simp [writeL]
  | x :: xs, n => by
    have h1 := write_pos B dict x n
    have h2 := writeL_pos B dict xs (n + (write B dict x n).containers.length)
    simp only [writeL]
    refine ⟨?_, ?_⟩
    · intro b hb
      rcases List.mem_cons.mp hb with hb | hb
      · subst hb; simp
      · exact h2.1 b hb
    · intro c hc
      rcases List.mem_append.mp hc with hc | hc
      · exact h1 c hc
      · exact h2.2 c hc
theorem writeE_pos (B : Nat) (dict : Option (List Bytes)) : ∀ (xs : List (Bytes × Doc)) (n : Nat),
    (∀ b ∈ (writeE B dict xs n).1, 0 < b.length) ∧ ∀ c ∈ (writeE B dict xs n).2, ∀ b ∈ c.children, 0 < b.length
  | [], n => by simp [writeE]
  | (k, x) :: xs, n => by
    have h1 := write_pos B dict x n
    have h2 := writeE_pos B dict xs (n + (write B dict x n).containers.length)
    simp only [writeE]
    refine ⟨?_, ?_⟩
    · intro b hb
      rcases List.mem_cons.mp hb with hb | hb
      · subst hb; simp only [List.length_append, List.length_cons]; omega
      · exact h2.1 b hb
    · intro c hc
      rcases List.mem_append.mp hc with hc | hc
      · exact h1 c hc
      · exact h2.2 c hc
end

/-- What the runs of children mean for the sizes: they add up, none is zero, all but the last reach the threshold. -/
theorem isBlocks_facts {B : Nat} {children : List Bytes} {blocks : List Nat} (h : IsBlocks B children blocks)
    (hpos : ∀ b ∈ children, 0 < b.length) :
    blocks.sum = children.flatten.length ∧ (∀ b ∈ blocks, 0 < b) ∧ (∀ b ∈ blocks.dropLast, B ≤ b) ∧ blocks.length ≤ children.length := by
  obtain ⟨runs, rfl, rfl, h3, h4⟩ := h
  refine ⟨?_, ?_, ?_, ?_⟩
  · clear h3 h4 hpos
    induction runs with
    | nil => rfl
    | cons r rs ih => simp only [List.map_cons, List.sum_cons, ih, List.flatten_cons, List.flatten_append, List.length_append]
  · intro b hb
    obtain ⟨r, hr, rfl⟩ := List.mem_map.mp hb
    have hne := (h3 r hr).1
    match r, hne with
    | x :: r', _ =>
      have := hpos x (List.mem_flatten.mpr ⟨x :: r', hr, by simp⟩)
      simp only [List.flatten_cons, List.length_append]; omega
  · intro b hb
    rw [← List.map_dropLast] at hb
    obtain ⟨r, hr, rfl⟩ := List.mem_map.mp hb
    exact h4 r hr
  · clear h4 hpos
    induction runs with
    | nil => simp
    | cons r rs ih =>
      have h := h3 r (by simp)
      have := ih (fun r hr => h3 r (List.mem_cons_of_mem _ hr))
      have h1 : 0 < r.length := List.length_pos_iff.mpr h.1
      simp only [List.map_cons, List.length_cons, List.flatten_cons, List.length_append] at *
      omega

/-- C14. In every document the containers carry the distinct numbers 1, 2, …; a reader finds a block list for a container in the
split table exactly when the container has children that take at least `blockSize` bytes.  The block sizes are then the sizes of
consecutive runs of children (so every block ends on a child boundary), they add up to the bytes of the children, none is zero
and all but the last reach the threshold.  The table lists nothing else. -/
theorem C14_split_blocks (w r : Cfg) (hw : w.charSigned = true) (t : SeriType) (o : Obj) (d : Doc) (hd : o.doc? = some d)
    (hh : Writable w o) :
    ∃ content, serialize w t o = .ok content ∧ (Fits r content →
      ∃ main s, main = write w.blockSize (if t = .replace then some (firstUse (inRoot d).strings) else none) (inRoot d) 1 ∧
        main.bytes <+: content.drop 10 ∧ initFromContent r content = .ok s ∧
        main.containers.map Container.id = List.range' 1 main.containers.length ∧
        (∀ c ∈ main.containers,
          if c.children ≠ [] ∧ w.blockSize ≤ c.size then
            ∃ blocks, s.si.getBlocks c.id = .ok blocks ∧ IsBlocks w.blockSize c.children blocks ∧ blocks.sum = c.size ∧
              (∀ b ∈ blocks, 0 < b) ∧ (∀ b ∈ blocks.dropLast, w.blockSize ≤ b)
          else s.si.getBlocks c.id = .error (.exn .outOfRangeAt)) ∧
        (∀ e ∈ s.si.info, ∃ c ∈ main.containers, c.id = e.1)) := by
  refine ⟨_, serialize_eq hw t hd hh, fun hf => ?_⟩
  obtain ⟨b1, b2, b3⟩ := body_write (w := w) (t := t) (d := d) hf.lt
  obtain ⟨s, i1, i2, i3, i4, i5, i6⟩ := init_eq (cfg := r) (wc := w) (t := t) (d := d) []
    ⟨by have := hf.lt; simp only [List.append_nil]; omega, by simpa using hf.small⟩ hf.lt
  rw [List.append_nil] at i1 i5
  refine ⟨_, s, rfl, ?_, i1, write_ids _ _ _ _, ?_, ?_⟩
  · have : (write w.blockSize (if t = .replace then some (firstUse (inRoot d).strings) else none) (inRoot d) 1).bytes =
        (bodyOf w t d).1 := b1.symm
    rw [this]
    unfold contentOf
    rw [List.drop_left' (headOf_length w t d)]
    exact List.prefix_append _ _
  all_goals
    obtain ⟨recs, p1, p2, p3⟩ := b3.info
    have hi0 : (env0 t).si.info = [] := by cases t <;> rfl
    rw [hi0, List.nil_append] at p2
    have hroom := env0_room t (n := (bodyOf w t d).1.length) (by have := hf.lt; omega)
    have hg : Grows (env0 t) (bodyOf w t d).2.2 (bodyOf w t d).1.length := emitDoc_grows w (rootDoc d) (env0 t) hroom
    have hmem : ∀ e, e ∈ s.si.info ↔ e ∈ recs.map (fun r => (r.1.id, r.2)) := by
      intro e; rw [i2.si, (w.siPerm _).mem_iff, p2]
    have hnd : (s.si.info.map Prod.fst).Nodup := by
      rw [i2.si]; exact ((w.siPerm _).map _).nodup_iff.mpr hg.si.nodup
    have hcs : (dictOf t d) = (if t = .replace then some (firstUse (inRoot d).strings) else none) := rfl
    rw [hcs] at p1
    have hids := write_ids w.blockSize (if t = .replace then some (firstUse (inRoot d).strings) else none) (inRoot d) 1
    have hpos := write_pos w.blockSize (if t = .replace then some (firstUse (inRoot d).strings) else none) (inRoot d) 1
    generalize (write w.blockSize (if t = .replace then some (firstUse (inRoot d).strings) else none) (inRoot d) 1).containers = cs at *
  · intro c hc
    split
    · rename_i hsp
      have hin : c ∈ recs.map Prod.fst := p1.mem_iff.mpr (List.mem_filter.mpr ⟨hc, by simpa [Container.split] using hsp⟩)
      obtain ⟨rc, hrc, rfl⟩ := List.mem_map.mp hin
      have hb := p3 rc hrc
      obtain ⟨f1, f2, f3, _⟩ := isBlocks_facts hb (hpos _ hc)
      exact ⟨rc.2, getBlocks_mem hnd ((hmem _).mpr (List.mem_map.mpr ⟨rc, hrc, rfl⟩)), hb, f1, f2, f3⟩
    · rename_i hsp
      unfold SplitInfo.getBlocks
      rw [assocGet_none]
      intro hk
      obtain ⟨e, he, hek⟩ := List.mem_map.mp hk
      obtain ⟨rc, hrc, rfl⟩ := List.mem_map.mp ((hmem e).mp he)
      have h1 := List.mem_filter.mp (p1.mem_iff.mp (List.mem_map.mpr ⟨rc, hrc, rfl⟩))
      have hinj : rc.1 = c := by
        have hndc : (cs.map Container.id).Nodup := by rw [hids]; exact List.nodup_range'
        rw [List.nodup_iff_pairwise_ne, List.pairwise_map] at hndc
        apply Classical.byContradiction
        intro hne
        obtain ⟨i, hi, hi'⟩ := List.mem_iff_getElem.mp h1.1
        obtain ⟨j, hj, hj'⟩ := List.mem_iff_getElem.mp hc
        rw [List.pairwise_iff_getElem] at hndc
        rcases Nat.lt_trichotomy i j with hij | hij | hij
        · exact hndc i j hi hj hij (by rw [hi', hj']; exact hek)
        · subst hij; exact hne (by rw [← hi', ← hj'])
        · exact hndc j i hj hi hij (by rw [hi', hj']; exact hek.symm)
      rw [hinj] at h1
      exact hsp (by simpa [Container.split] using h1.2)
  · intro e he
    obtain ⟨rc, hrc, rfl⟩ := List.mem_map.mp ((hmem e).mp he)
    have h1 := List.mem_filter.mp (p1.mem_iff.mp (List.mem_map.mpr ⟨rc, hrc, rfl⟩))
    exact ⟨rc.1, h1.1, rfl⟩

end Bridge
