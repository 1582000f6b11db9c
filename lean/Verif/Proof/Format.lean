import Verif.Spec.Format
import Verif.Proof.CoRT
import Verif.Props.Tables
/-
What the serializer emits is the format of `Spec/Format.lean`.
-/
set_option autoImplicit false
namespace Bridge
open Spec

theorem groups_blocks (B : Nat) (chunks : List Bytes) : ∀ pre : List Bytes, (∀ c ∈ pre ++ chunks, 0 < c.length) →
    (pre = [] ∨ pre.flatten.length < B) →
    ∃ runs : List (List Bytes), runs.flatten = pre ++ chunks ∧
      groupSizes B pre.flatten.length (chunks.map List.length) = runs.map (fun p => p.flatten.length) ∧
      (∀ p ∈ runs, p ≠ [] ∧ (p.dropLast = [] ∨ p.dropLast.flatten.length < B)) ∧
      (∀ p ∈ runs.dropLast, B ≤ p.flatten.length) := by
  induction chunks with
  | nil =>
    intro pre hpos hp
    simp only [List.append_nil] at hpos
    simp only [List.map_nil, groupSizes]
    split
    · refine ⟨[pre], by simp, by simp, ?_, by simp⟩
      intro p hp'
      simp only [List.mem_singleton] at hp'
      subst hp'
      have hne : p ≠ [] := by intro h; subst h; simp at *
      refine ⟨hne, ?_⟩
      rcases hp with hp | hp
      · exact absurd hp hne
      · right
        have h1 : p.flatten = p.dropLast.flatten ++ p.getLast hne := by
          have h2 := congrArg List.flatten (List.dropLast_concat_getLast hne)
          rw [← h2]; simp
        have := congrArg List.length h1
        simp only [List.length_append] at this
        omega
    · have := sum_pos_of_pos hpos (by omega)
      subst this
      exact ⟨[], by simp, by simp, by simp, by simp⟩
  | cons c chunks ih =>
    intro pre hpos hp
    simp only [List.map_cons, groupSizes]
    have hlen : (pre ++ [c]).flatten.length = pre.flatten.length + c.length := by simp
    split
    · rename_i hB
      obtain ⟨runs, h1, h2, h3, h4⟩ := ih [] (by
        intro x hx; exact hpos x (by simp at hx ⊢; exact .inr (.inr hx))) (.inl rfl)
      refine ⟨(pre ++ [c]) :: runs, by simp [h1], ?_, ?_, ?_⟩
      · simp only [List.flatten_nil, List.length_nil] at h2
        rw [h2]; simp only [List.map_cons, hlen]
      · intro p hp'
        rcases List.mem_cons.mp hp' with hp' | hp'
        · subst hp'; exact ⟨by simp, by simpa using hp⟩
        · exact h3 p hp'
      · intro p hp'
        cases hr : runs with
        | nil => simp [hr] at hp'
        | cons r0 rs =>
          rw [hr, List.dropLast_cons_of_ne_nil (by simp)] at hp'
          rcases List.mem_cons.mp hp' with hp' | hp'
          · subst hp'; omega
          · exact h4 p (by rw [hr]; exact hp')
    · obtain ⟨runs, h1, h2, h3, h4⟩ := ih (pre ++ [c]) (by
        intro x hx; exact hpos x (by simpa [or_assoc] using hx)) (.inr (by omega))
      rw [hlen] at h2
      exact ⟨runs, by simp [h1], h2, h3, h4⟩

theorem run_le {runs : List (List Bytes)} {r : List Bytes} (hr : r ∈ runs) : r.flatten.length ≤ runs.flatten.flatten.length := by
  apply List.Sublist.length_le
  rw [List.flatten_flatten]
  exact List.sublist_flatten_of_mem (List.mem_map.mpr ⟨r, hr, rfl⟩)

theorem blocksOf_isBlocks {cfg : Cfg} {chunks : List Bytes} (hpos : ∀ c ∈ chunks, 0 < c.length)
    (hlt : chunks.flatten.length < 2 ^ 32) :
    IsBlocks cfg.blockSize chunks (blocksOf cfg chunks) ∧
    mustSplit cfg (blocksOf cfg chunks) = Container.split cfg.blockSize ⟨0, chunks⟩ := by
  obtain ⟨runs, h1, h2, h3, h4⟩ := groups_blocks cfg.blockSize chunks [] (by simpa using hpos) (.inl rfl)
  simp only [List.nil_append, List.flatten_nil, List.length_nil] at h1 h2
  have hb : blocksOf cfg chunks = runs.map (fun p => p.flatten.length) := by
    unfold blocksOf
    rw [h2, List.map_map]
    apply List.map_congr_left
    intro p hp
    simp only [Function.comp_apply]
    apply toU32_of_lt
    have := run_le hp
    rw [h1] at this
    omega
  refine ⟨⟨runs, h1, hb, h3, h4⟩, ?_⟩
  rw [hb]
  unfold mustSplit Container.split Container.size
  congr 1
  simp only [eq_iff_iff]
  match runs, h1, h3, h4 with
  | [], h1, _, _ => simp at h1; subst h1; simp
  | [r], h1, h3, _ =>
    simp at h1; subst h1
    have := (h3 r (by simp)).1
    simp [this]
  | r :: r' :: rs, h1, h3, h4 =>
    have h5 := h4 r (by rw [List.dropLast_cons_of_ne_nil (by simp)]; simp)
    have h6 := run_le (runs := r :: r' :: rs) (r := r) (by simp)
    rw [h1] at h6
    have h7 : chunks ≠ [] := by
      intro h; rw [h] at h1
      have := (h3 r (by simp)).1
      simp at h1; exact this h1.1
    simp only [List.map_cons, List.isEmpty_cons, List.length_cons]
    refine ⟨fun _ => ⟨h7, Nat.le_trans h5 h6⟩, fun _ => ⟨by simp, .inl (by omega)⟩⟩

/-! ### strings and the dictionary -/

/-- The dictionary of `e` (if there is one) holds exactly the strings `l`, numbered in order. -/
def Rep (e : Env) (l : Option (List Bytes)) : Prop :=
  match e.sm, l with
  | none, none => True
  | some m, some l => DictRep m l
  | _, _ => False

def addAll (l : Option (List Bytes)) (ss : List Bytes) : Option (List Bytes) := l.map (fun l => ss.foldl addNew l)

def Pre (l dict : Option (List Bytes)) : Prop :=
  match l, dict with
  | none, none => True
  | some l, some D => l <+: D
  | _, _ => False

theorem addAll_append (l : Option (List Bytes)) (ss ts : List Bytes) : addAll l (ss ++ ts) = addAll (addAll l ss) ts := by
  cases l <;> simp [addAll]

theorem addAll_nil (l : Option (List Bytes)) : addAll l [] = l := by cases l <;> simp [addAll]

theorem addAll_cons (l : Option (List Bytes)) (s : Bytes) (ts : List Bytes) : addAll l (s :: ts) = addAll (addAll l [s]) ts := by
  cases l <;> simp [addAll]

theorem Pre.of_addAll {l dict : Option (List Bytes)} {ss : List Bytes} (h : Pre (addAll l ss) dict) : Pre l dict := by
  cases l with
  | none => cases dict <;> simpa [addAll, Pre] using h
  | some l =>
    cases dict with
    | none => simp [addAll, Pre] at h
    | some D => simp only [addAll, Pre, Option.map_some] at h ⊢; exact (foldl_addNew_prefix ss l).trans h

theorem lenB_of_lt {n : Nat} (h : n < 2 ^ 32) : lenB n = leb128 n := by unfold lenB; rw [toU32_of_lt h]

theorem DictRep.length {m : StringMap} {l : List Bytes} (h : DictRep m l) : m.map.length = l.length := by
  have := congrArg List.length h.map
  simpa using this

theorem addNew_length {l : List Bytes} (b : Bytes) : (addNew l b).length ≤ l.length + 1 := by
  unfold addNew; split <;> simp

theorem idxOf_prefix_lt {l l' : List Bytes} {s : Bytes} (hs : s ∈ l) (h : l <+: l') : l'.idxOf s = l.idxOf s ∧ l.idxOf s < l.length :=
  ⟨idxOf_prefix h hs, List.idxOf_lt_length_of_mem hs⟩

theorem emitStr_write {b : Bytes} {e : Env} {l dict : Option (List Bytes)} {n : Nat} (hr : Rep e l) (hn : 0 < n) (hroom : Room e n)
    (hlt : (emitStr b e).1.length < 2 ^ 32) (hp : Pre (addAll l [b]) dict) :
    (emitStr b e).1 = strBytes dict b ∧ Rep (emitStr b e).2 (addAll l [b]) := by
  unfold Rep at hr
  unfold emitStr at hlt ⊢
  cases he : e.sm with
  | none =>
    rw [he] at hr hlt
    cases l with
    | some l => exact absurd hr (by simp)
    | none =>
      cases dict with
      | some D => simp [Pre, addAll] at hp
      | none =>
        simp only [List.length_append] at hlt
        refine ⟨?_, by simp [Rep, he, addAll]⟩
        simp only [strBytes]
        rw [lenB_of_lt (by omega)]
  | some m =>
    rw [he] at hr
    cases l with
    | none => exact absurd hr (by simp)
    | some l =>
      cases dict with
      | none => simp [Pre, addAll] at hp
      | some D =>
        simp only [Pre, addAll, Option.map_some, List.foldl_cons, List.foldl_nil] at hp
        have hr' : DictRep m l := hr
        have h1 := (hroom.sm m he).2
        have h2 := hr'.length
        have h3 := addNew_length (l := l) b
        obtain ⟨r1, r2, _⟩ := hr'.register b (by omega)
        obtain ⟨i1, i2⟩ := idxOf_prefix_lt (addNew_mem l b) hp
        refine ⟨?_, by simpa [Rep, addAll] using r1⟩
        simp only [strBytes]
        rw [r2, i1, lenB_of_lt (by omega)]

theorem scalarCode_eq (s : Scalar) : scalarCode s = s.code := by cases s <;> rfl

theorem scalarRaw_eq (s : Scalar) : scalarRaw s = s.payload := by cases s <;> rfl

theorem emitScalar_write {s : Scalar} {e : Env} {l dict : Option (List Bytes)} (hr : Rep e l) 
    (hroom : Room e (emitScalar s e).1.length) (hlt : (emitScalar s e).1.length < 2 ^ 32)
    (hp : Pre (addAll l (Doc.strings (.scalar s))) dict) :
    (emitScalar s e).1 = scalarBytes dict s ∧ Rep (emitScalar s e).2 (addAll l (Doc.strings (.scalar s))) := by
  cases s with
  | string b =>
    simp only [emitScalar, List.length_cons] at hroom hlt ⊢
    obtain ⟨h1, h2⟩ := emitStr_write (n := (emitStr b e).1.length + 1) hr (by omega) hroom (by omega) hp
    exact ⟨by simp only [scalarBytes, h1]; rfl, h2⟩
  | _ =>
    refine ⟨?_, by simp only [Doc.strings, addAll_nil]; exact hr⟩
    simp only [emitScalar, List.length_cons, List.length_append] at hlt
    simp only [emitScalar, scalarBytes]
    rw [lenB_of_lt (by omega)]
    rfl

theorem kindByte_eq (d : Doc) (split : Bool) : tagByte (docType d) split = kindByte d split := by
  cases d <;> cases split <;> simp only [docType, kindByte] <;> decide

/-- What is emitted for a value is what the format says. -/
structure EmitOk (B : Nat) (dict l' : Option (List Bytes)) (e : Env) (e' : Env) (cs : List Container) : Prop where
  rep : Rep e' l'
  next : e'.si.next = e.si.next + cs.length
  info : ∃ recs : List (Container × List Nat), (recs.map Prod.fst).Perm (cs.filter (Container.split B)) ∧
    e'.si.info = e.si.info ++ recs.map (fun r => (r.1.id, r.2)) ∧ ∀ r ∈ recs, IsBlocks B r.1.children r.2

theorem EmitOk.trans {B : Nat} {dict l1 l2 : Option (List Bytes)} {e1 e2 e3 : Env} {c1 c2 : List Container}
    (h1 : EmitOk B dict l1 e1 e2 c1) (h2 : EmitOk B dict l2 e2 e3 c2) : EmitOk B dict l2 e1 e3 (c1 ++ c2) where
  rep := h2.rep
  next := by rw [h2.next, h1.next, List.length_append]; omega
  info := by
    obtain ⟨r1, p1, i1, b1⟩ := h1.info
    obtain ⟨r2, p2, i2, b2⟩ := h2.info
    refine ⟨r1 ++ r2, ?_, ?_, ?_⟩
    · rw [List.map_append, List.filter_append]; exact p1.append p2
    · rw [i2, i1]; simp
    · intro r hr
      rcases List.mem_append.mp hr with hr | hr
      · exact b1 r hr
      · exact b2 r hr

theorem EmitOk.refl {B : Nat} {dict l : Option (List Bytes)} {e e' : Env} (h : Rep e' l) (hs : e'.si = e.si) :
    EmitOk B dict l e e' [] where
  rep := h
  next := by rw [hs]; rfl
  info := ⟨[], by simp, by simp [hs], by simp⟩

theorem container_write {w : Cfg} {dict l' : Option (List Bytes)} {e em : Env} {count : Nat} {chunks : List Bytes}
    {cs : List Container} (hroom : Room e (emitContainer w count e.si.requestId.2 chunks em).1.length)
    (hg : Grows { e with si := e.si.requestId.1 } em chunks.flatten.length)
    (hlt : (emitContainer w count e.si.requestId.2 chunks em).1.length < 2 ^ 32) (hpos : ∀ c ∈ chunks, 0 < c.length)
    (hcount : chunks.length = count)
    (h : EmitOk w.blockSize dict l' { e with si := e.si.requestId.1 } em cs) :
    (emitContainer w count e.si.requestId.2 chunks em).1 = leb128 count ++ leb128 e.si.next ++ chunks.flatten ∧
    (emitContainer w count e.si.requestId.2 chunks em).2.1 = Container.split w.blockSize ⟨e.si.next, chunks⟩ ∧
    EmitOk w.blockSize dict l' e (emitContainer w count e.si.requestId.2 chunks em).2.2 (⟨e.si.next, chunks⟩ :: cs) := by
  have hfresh := container_fresh (n := (emitContainer w count e.si.requestId.2 chunks em).1.length) hroom hg
    (by rw [emitContainer_length]; have := lenB_length_pos count; omega)
  have hsr := hroom.siRoom
  rw [emitContainer_length] at hlt hsr
  have hid : e.si.requestId.2 = e.si.next := rfl
  have hp1 := lenB_length_pos count
  have hnext : e.si.requestId.1.next = e.si.next + 1 := by
    simp only [SplitInfo.requestId]; exact toU32_of_lt (by omega)
  have hcl := length_le_flatten hpos
  obtain ⟨hb1, hb2⟩ := blocksOf_isBlocks (cfg := w) hpos (by omega)
  have hb3 : mustSplit w (blocksOf w chunks) = Container.split w.blockSize ⟨e.si.next, chunks⟩ := hb2
  refine ⟨?_, hb3, ?_⟩
  · simp only [emitContainer, hid]
    rw [lenB_of_lt (n := count) (by omega), lenB_of_lt (n := e.si.next) (by omega)]
  · obtain ⟨recs, p1, p2, p3⟩ := h.info
    unfold emitContainer
    simp only [hb3]
    cases hs : Container.split w.blockSize ⟨e.si.next, chunks⟩ with
    | false =>
      simp only [Bool.false_eq_true, if_false]
      refine ⟨h.rep, ?_, recs, ?_, p2, p3⟩
      · rw [h.next, hnext, List.length_cons]; omega
      · simp only [List.filter_cons, hs]; exact p1
    | true =>
      simp only [if_true, SplitInfo.register]
      rw [assocSet_fresh _ _ hfresh]
      refine ⟨h.rep, ?_, recs ++ [(⟨e.si.next, chunks⟩, blocksOf w chunks)], ?_, ?_, ?_⟩
      · simp only [h.next, hnext, List.length_cons]; omega
      · simp only [List.filter_cons, hs, if_true, List.map_append, List.map_cons, List.map_nil]
        exact (List.perm_append_comm).trans (p1.cons _)
      · simp only [p2, List.map_append, List.map_cons, List.map_nil, List.append_assoc, hid]
        rfl
      · intro r hr
        rcases List.mem_append.mp hr with hr | hr
        · exact p3 r hr
        · simp only [List.mem_singleton] at hr
          subst hr; exact hb1

theorem rep_si {e : Env} {l : Option (List Bytes)} (si : SplitInfo) (h : Rep e l) : Rep { e with si := si } l := h

mutual
theorem emitDoc_write (w : Cfg) (dict : Option (List Bytes)) : ∀ (d : Doc) (e : Env) (l : Option (List Bytes)), Rep e l →
    Room e (emitDoc w d e).1.length → (emitDoc w d e).1.length < 2 ^ 32 → Pre (addAll l d.strings) dict →
    (emitDoc w d e).1 = (write w.blockSize dict d e.si.next).bytes ∧
    (emitDoc w d e).2.1 = (write w.blockSize dict d e.si.next).split ∧
    EmitOk w.blockSize dict (addAll l d.strings) e (emitDoc w d e).2.2 (write w.blockSize dict d e.si.next).containers
  | .scalar s, e, l, hr, hroom, hlt, hp => by
    simp only [emitDoc] at hroom hlt ⊢
    obtain ⟨h1, h2⟩ := emitScalar_write hr hroom hlt hp
    simp only [write]
    exact ⟨h1, trivial, .refl h2 (emitScalar_si s e)⟩
  | .array xs, e, l, hr, hroom, hlt, hp => by
    simp only [emitDoc] at hroom hlt ⊢
    have hp1 := lenB_length_pos xs.length
    have hsr := hroom.siRoom
    have hlen := emitContainer_length w xs.length e.si.requestId.2 (emitItems w xs { e with si := e.si.requestId.1 }).1
      (emitItems w xs { e with si := e.si.requestId.1 }).2
    have hroom' : Room { e with si := e.si.requestId.1 } (emitItems w xs { e with si := e.si.requestId.1 }).1.flatten.length :=
      request_room hroom (by omega)
    have hnext : ({ e with si := e.si.requestId.1 } : Env).si.next = e.si.next + 1 := by
      simp only [SplitInfo.requestId]; exact toU32_of_lt (by omega)
    obtain ⟨h1, h2⟩ := emitItems_write w dict xs { e with si := e.si.requestId.1 } l (rep_si _ hr) hroom' (by omega) (by simpa [Doc.strings] using hp)
    obtain ⟨c1, c2, c3⟩ := container_write hroom (emitItems_grows w xs _ hroom') hlt (emitItems_pos w xs _) (emitItems_length w xs _) h2
    rw [hnext] at h1 c3
    simp only [write, Doc.strings]
    rw [← h1]
    exact ⟨c1, c2, c3⟩
  | .map es, e, l, hr, hroom, hlt, hp => by
    simp only [emitDoc] at hroom hlt ⊢
    have hp1 := lenB_length_pos es.length
    have hsr := hroom.siRoom
    have hlen := emitContainer_length w es.length e.si.requestId.2 (emitKVs w es { e with si := e.si.requestId.1 }).1
      (emitKVs w es { e with si := e.si.requestId.1 }).2
    have hroom' : Room { e with si := e.si.requestId.1 } (emitKVs w es { e with si := e.si.requestId.1 }).1.flatten.length :=
      request_room hroom (by omega)
    have hnext : ({ e with si := e.si.requestId.1 } : Env).si.next = e.si.next + 1 := by
      simp only [SplitInfo.requestId]; exact toU32_of_lt (by omega)
    obtain ⟨h1, h2⟩ := emitKVs_write w dict es { e with si := e.si.requestId.1 } l (rep_si _ hr) hroom' (by omega) (by simpa [Doc.strings] using hp)
    obtain ⟨c1, c2, c3⟩ := container_write hroom (emitKVs_grows w es _ hroom') hlt (emitKVs_pos w es _) (emitKVs_length w es _) h2
    rw [hnext] at h1 c3
    simp only [write, Doc.strings]
    rw [← h1]
    exact ⟨c1, c2, c3⟩
theorem emitItems_write (w : Cfg) (dict : Option (List Bytes)) : ∀ (xs : List Doc) (e : Env) (l : Option (List Bytes)), Rep e l →
    Room e (emitItems w xs e).1.flatten.length → (emitItems w xs e).1.flatten.length < 2 ^ 32 → Pre (addAll l (stringsL xs)) dict →
    (emitItems w xs e).1 = (writeL w.blockSize dict xs e.si.next).1 ∧
    EmitOk w.blockSize dict (addAll l (stringsL xs)) e (emitItems w xs e).2 (writeL w.blockSize dict xs e.si.next).2
  | [], e, l, hr, _, _, _ => by
    simp only [emitItems, writeL, stringsL, addAll_nil]
    exact ⟨trivial, .refl hr rfl⟩
  | x :: xs, e, l, hr, hroom, hlt, hp => by
    simp only [emitItems, List.flatten_cons, List.length_append, List.length_cons] at hroom hlt ⊢
    simp only [stringsL, addAll_append] at hp ⊢
    have hr1 : Room e (emitDoc w x e).1.length := hroom.mono (by omega)
    obtain ⟨h1, h2, h3⟩ := emitDoc_write w dict x e l hr hr1 (by omega) hp.of_addAll
    have hg := emitDoc_grows w x e hr1
    have hr2 : Room (emitDoc w x e).2.2 (emitItems w xs (emitDoc w x e).2.2).1.flatten.length :=
      Room.after (a := (emitDoc w x e).1.length) (hroom.mono (by omega)) hg
    obtain ⟨h4, h5⟩ := emitItems_write w dict xs (emitDoc w x e).2.2 _ h3.rep hr2 (by omega) hp
    rw [h3.next] at h4 h5
    simp only [writeL]
    refine ⟨?_, h3.trans h5⟩
    rw [h1, h2, kindByte_eq, h4]
theorem emitKVs_write (w : Cfg) (dict : Option (List Bytes)) : ∀ (xs : List (Bytes × Doc)) (e : Env) (l : Option (List Bytes)), Rep e l →
    Room e (emitKVs w xs e).1.flatten.length → (emitKVs w xs e).1.flatten.length < 2 ^ 32 → Pre (addAll l (stringsE xs)) dict →
    (emitKVs w xs e).1 = (writeE w.blockSize dict xs e.si.next).1 ∧
    EmitOk w.blockSize dict (addAll l (stringsE xs)) e (emitKVs w xs e).2 (writeE w.blockSize dict xs e.si.next).2
  | [], e, l, hr, _, _, _ => by
    simp only [emitKVs, writeE, stringsE, addAll_nil]
    exact ⟨trivial, .refl hr rfl⟩
  | (k, x) :: xs, e, l, hr, hroom, hlt, hp => by
    simp only [emitKVs, List.flatten_cons, List.length_append, List.length_cons] at hroom hlt ⊢
    rw [show stringsE ((k, x) :: xs) = (k :: x.strings) ++ stringsE xs from rfl, addAll_append, addAll_cons] at hp ⊢
    have hpos := emitStr_pos k e
    have hr0 : Room e (emitStr k e).1.length := hroom.mono (by omega)
    obtain ⟨s1, s2⟩ := emitStr_write (n := (emitStr k e).1.length) hr hpos hr0 (by omega) hp.of_addAll.of_addAll
    have hg0 := emitStr_grows (b := k) hpos hr0
    have hr1 : Room (emitStr k e).2 ((emitDoc w x (emitStr k e).2).1.length +
        (emitKVs w xs (emitDoc w x (emitStr k e).2).2.2).1.flatten.length) :=
      Room.after (a := (emitStr k e).1.length) (hroom.mono (by omega)) hg0
    have hr1' : Room (emitStr k e).2 (emitDoc w x (emitStr k e).2).1.length := hr1.mono (by omega)
    obtain ⟨h1, h2, h3⟩ := emitDoc_write w dict x (emitStr k e).2 _ s2 hr1' (by omega) hp.of_addAll
    have hg := emitDoc_grows w x _ hr1'
    have hr2 := Room.after hr1 hg
    obtain ⟨h4, h5⟩ := emitKVs_write w dict xs (emitDoc w x (emitStr k e).2).2.2 _ h3.rep hr2 (by omega) hp
    rw [h3.next] at h4 h5
    rw [emitStr_si] at h1 h2 h3 h4 h5
    simp only [writeE]
    refine ⟨?_, ?_⟩
    · rw [s1, h1, h2, kindByte_eq, h4]
    · have h0 : EmitOk w.blockSize dict (addAll l [k]) e (emitStr k e).2 [] := .refl s2 (emitStr_si k e)
      have := (h0.trans h3).trans h5
      simpa using this
end

end Bridge
