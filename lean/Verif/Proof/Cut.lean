import Verif.Props.Language
/-
How the table readers behave on a table of which only a part is there: up to the end the bytes are those of the table, then
comes the terminator of the string, then nothing.
-/
set_option autoImplicit false
namespace Bridge
open Spec

/-- What a parse of a truncated document fails with: an exception derived from `std::runtime_error`, a read beyond the end of
the string, or, in a build with assertions, an abort. -/
def CutError (r : Cfg) (e : Err) : Prop :=
  (∃ x, e = .exn x ∧ x.isRuntimeError = true) ∨ e = .ub .readOutOfBounds ∨ (e = .abort ∧ r.asserts = true)

/-- The computation ends with a value that satisfies `P`, or with an error of a truncated document. -/
def CutOk (r : Cfg) {α : Type} (x : Res α) (P : α → Prop) : Prop :=
  match x with
  | .ok a => P a
  | .error e => CutError r e

section
variable {r : Cfg}

theorem CutOk.ok {α : Type} {a : α} {P : α → Prop} (h : P a) : CutOk r (.ok a : Res α) P := h
theorem CutOk.err {α : Type} {e : Err} {P : α → Prop} (h : CutError r e) : CutOk r (.error e : Res α) P := h

theorem CutOk.bind {α β : Type} {x : Res α} {f : α → Res β} {P : α → Prop} {Q : β → Prop} (h : CutOk r x P)
    (hf : ∀ a, P a → CutOk r (f a) Q) : CutOk r (x >>= f) Q := by
  cases x with
  | ok a => exact hf a h
  | error e => exact h

theorem CutOk.mono {α : Type} {x : Res α} {P Q : α → Prop} (h : CutOk r x P) (hf : ∀ a, P a → Q a) : CutOk r x Q := by
  cases x with
  | ok a => exact hf a h
  | error e => exact h

/-- A view of a table `tbl` of which only the first bytes are there. -/
structure CutView (r : Cfg) (v : View) (tbl : Bytes) : Prop where
  base : v.base ≤ v.mem.length
  bytes : v.mem.drop v.base = tbl.take (v.mem.length - v.base)
  len : v.len = tbl.length
  cut : v.mem.length - v.base < tbl.length
  lt : v.len < 2 ^ 32
  small : r.asserts = true → v.len < 2 ^ 31

/-- A number field that is cut short is completed by the terminator. -/
theorem isLeb_cut : ∀ (l : Bytes) (m : Nat), IsLeb l → m < l.length → IsLeb (l.take m ++ [0]) ∧ lebValue (l.take m ++ [0]) ≤ lebValue l
  | [], m, h, hm => by simp at hm
  | b :: l, 0, h, hm => by
    refine ⟨?_, ?_⟩
    · show (0 : UInt8).toNat < 128
      decide
    · simp [lebValue]
  | b :: l, m + 1, h, hm => by
    cases l with
    | nil => simp at hm
    | cons c l =>
      obtain ⟨h1, h2⟩ := h
      obtain ⟨g1, g2⟩ := isLeb_cut (c :: l) m h2 (by simpa using hm)
      simp only [List.take_succ_cons, List.cons_append]
      refine ⟨?_, ?_⟩
      · cases hx : (c :: l).take m ++ [0] with
        | nil => simp at hx
        | cons y ys => rw [hx] at g1; exact ⟨h1, g1⟩
      · simp only [lebValue] at g2 ⊢
        omega

theorem CutView.past {v : View} {tbl : Bytes} (h : CutView r v tbl) {i : Nat} (hi : v.mem.length - v.base < i) (P : Nat × Cur → Prop) :
    CutOk r (parseLength r v ⟨i, i⟩) P := by
  unfold parseLength
  by_cases he : remain v ⟨i, i⟩ ≤ 0
  · have : checkEmpty v ⟨i, i⟩ = .error (.exn .innerEmpty) := by unfold checkEmpty; rw [if_pos he]
    rw [this]
    exact .inl ⟨_, rfl, rfl⟩
  · have : checkEmpty v ⟨i, i⟩ = .ok () := by unfold checkEmpty; rw [if_neg he]
    rw [this]
    simp only [ok_bind]
    by_cases hc : i ≥ v.len
    · have : curAddr v ⟨i, i⟩ = .error (.exn .innerCurAddr) := by unfold curAddr; rw [if_pos hc]
      rw [this]
      exact .inl ⟨_, rfl, rfl⟩
    · have : curAddr v ⟨i, i⟩ = .ok (v.base + i) := by unfold curAddr; rw [if_neg hc]
      rw [this]
      simp only [ok_bind]
      have hd : varintDecode r v.mem (v.base + i) (toI32 (remain v ⟨i, i⟩)) = .error (.ub .readOutOfBounds) := by
        unfold varintDecode
        rw [varintDecodeGo]
        have hb := h.base
        have : readByte v.mem (v.base + i + 0) = .error (.ub .readOutOfBounds) := by
          unfold readByte
          rw [List.getElem?_eq_none (by omega)]
          simp only
          rw [if_neg (by omega)]
        rw [this]
        rfl
      rw [hd]
      exact .inr (.inl rfl)

/-- Where a number field is read from: either all of it is there, or the terminator completes it. -/
theorem CutView.length {v : View} {tbl : Bytes} (h : CutView r v tbl) {i n : Nat} {l x : Bytes} (hf : NumField l n)
    (ht : tbl.drop i = l ++ x) (hi : i ≤ v.mem.length - v.base) :
    (i + l.length ≤ v.mem.length - v.base ∧ parseLength r v ⟨i, i⟩ = .ok (n, ⟨i + l.length, i + l.length⟩)) ∨
    (∃ n', n' = lebValue (l.take (v.mem.length - v.base - i) ++ [0]) % 2 ^ 64 ∧ n' ≤ lebValue l ∧
      parseLength r v ⟨i, i⟩ = .ok (n', ⟨v.mem.length - v.base + 1, v.mem.length - v.base + 1⟩)) := by
  obtain ⟨hb, hbytes, hlen, hcut, hlt, hsm⟩ := h
  have htl := congrArg List.length ht
  simp only [List.length_drop, List.length_append] at htl
  have hmem : (v.mem ++ [0]).drop (v.base + i) = (l ++ x).take (v.mem.length - v.base - i) ++ [0] := by
    rw [List.drop_append_of_le_length (by omega), ← List.drop_drop, hbytes, List.drop_take, ht]
  by_cases hin : i + l.length ≤ v.mem.length - v.base
  · left
    refine ⟨hin, parseLength_field hsm (by omega) hf ?_ (by omega)⟩
    unfold HasAt
    rw [hmem, List.take_append, List.take_of_length_le (by omega), List.append_assoc]
    exact List.prefix_append _ _
  · right
    obtain ⟨g1, g2⟩ := isLeb_cut l (v.mem.length - v.base - i) hf.1 (by omega)
    have hl' : (l.take (v.mem.length - v.base - i) ++ [0]).length = v.mem.length - v.base - i + 1 := by
      simp only [List.length_append, List.length_take, List.length_singleton]
      omega
    refine ⟨_, rfl, Nat.le_trans (Nat.mod_le _ _) g2, ?_⟩
    have h10 := hf.2.1
    have hn : NumField (l.take (v.mem.length - v.base - i) ++ [0]) (lebValue (l.take (v.mem.length - v.base - i) ++ [0]) % 2 ^ 64) :=
      ⟨g1, by omega, rfl⟩
    have := parseLength_field (r := r) (v := v) hsm (by omega) (i := i) hn (by
      unfold HasAt
      rw [hmem, List.take_append_of_le_length (by omega)]
      exact List.prefix_refl _) (by omega)
    rw [this, hl']
    have : i + (v.mem.length - v.base - i + 1) = v.mem.length - v.base + 1 := by omega
    rw [this]

/-- The first number. -/
theorem CutView.first {v : View} {tbl : Bytes} (h : CutView r v tbl) {n : Nat} {l x : Bytes} (hf : NumField l n)
    (ht : tbl = l ++ x) {c0 : Cur} (hc : c0 = ⟨0, 0⟩) :
    (l.length ≤ v.mem.length - v.base ∧ parseLength r v c0 = .ok (n, ⟨l.length, l.length⟩)) ∨
    (∃ n', parseLength r v c0 = .ok (n', ⟨v.mem.length - v.base + 1, v.mem.length - v.base + 1⟩)) := by
  have key : ∀ i, i = 0 → c0 = ⟨i, i⟩ → _ := fun i hi hc => by
    have := h.length (i := i) hf (x := x) (by rw [hi, List.drop_zero]; exact ht) (by omega)
    rw [← hc] at this
    exact this
  generalize h0 : (0 : Nat) = i at hc
  rcases key i h0.symm hc with ⟨g1, g2⟩ | ⟨n', -, -, g2⟩
  · left
    have e : i + l.length = l.length := by omega
    rw [e] at g1 g2
    exact ⟨g1, g2⟩
  · exact .inr ⟨n', g2⟩

/-! ### the split table -/

theorem CutView.nums {v : View} {tbl : Bytes} (h : CutView r v tbl) : ∀ (bl : List Nat) (i : Nat) (b x : Bytes), ReadsNums bl b →
    tbl.drop i = b ++ x → i ≤ v.mem.length - v.base →
    CutOk r (siParseBlocks r v bl.length ⟨i, i⟩) (fun p => p.2 = ⟨i + b.length, i + b.length⟩ ∧ i + b.length ≤ v.mem.length - v.base ∨
      ∃ j, v.mem.length - v.base < j ∧ p.2 = ⟨j, j⟩)
  | [], i, b, x, hr, _, hi => by
    simp only [ReadsNums] at hr
    subst hr
    exact .inl ⟨rfl, hi⟩
  | c :: bl, i, b, x, hr, ht, hi => by
    obtain ⟨l, n, rest, f1, -, rfl, f2⟩ := hr
    rw [List.append_assoc] at ht
    rw [List.length_cons, siParseBlocks]
    rcases h.length f1 ht hi with ⟨g1, g2⟩ | ⟨n', -, -, g2⟩
    · rw [g2]
      simp only [ok_bind]
      have ht' : tbl.drop (i + l.length) = rest ++ x := by rw [← List.drop_drop, ht, List.drop_left]
      refine (h.nums bl _ rest x f2 ht' g1).bind fun p hp => ?_
      refine CutOk.ok ?_
      rcases hp with ⟨k1, k2⟩ | k
      · left
        simp only [List.length_append] at k1 k2 ⊢
        rw [k1]
        exact ⟨by rw [Nat.add_assoc], by omega⟩
      · exact .inr k
    · rw [g2]
      simp only [ok_bind]
      cases bl with
      | nil =>
        simp only [List.length_nil, siParseBlocks, ok_bind]
        exact .inr ⟨_, Nat.lt_succ_self _, rfl⟩
      | cons c bl =>
        rw [List.length_cons, siParseBlocks]
        exact ((h.past (Nat.lt_succ_self _) (fun _ => False)).bind (Q := fun _ => False) fun _ hf => hf.elim).bind fun _ hf => hf.elim

theorem CutView.pastNums {v : View} {tbl : Bytes} (h : CutView r v tbl) (n : Nat) {i : Nat} (hi : v.mem.length - v.base < i) :
    CutOk r (siParseBlocks r v n ⟨i, i⟩) (fun p => p.2 = ⟨i, i⟩) := by
  cases n with
  | zero => exact CutOk.ok (by rfl)
  | succ n =>
    rw [siParseBlocks]
    exact (h.past hi (fun _ => False)).bind fun _ hf => hf.elim

theorem CutView.pastRecords {v : View} {tbl : Bytes} (h : CutView r v tbl) (n : Nat) {i : Nat} (hi : v.mem.length - v.base < i)
    (ret : SplitInfo) : CutOk r (siConstructGo r v n ⟨i, i⟩ ret) (fun _ => True) := by
  cases n with
  | zero => exact CutOk.ok trivial
  | succ n =>
    rw [siConstructGo]
    exact (h.past hi (fun _ => False)).bind fun _ hf => hf.elim

theorem CutView.records {v : View} {tbl : Bytes} (h : CutView r v tbl) : ∀ (t : List (Nat × List Nat)) (i : Nat) (b : Bytes) (ret : SplitInfo),
    ReadsRecords t b → tbl.drop i = b → i ≤ v.mem.length - v.base →
    CutOk r (siConstructGo r v t.length ⟨i, i⟩ ret) (fun _ => True)
  | [], i, b, ret, _, _, _ => CutOk.ok trivial
  | (id, blocks) :: t, i, b, ret, hr, ht, hi => by
    obtain ⟨li, n, k, m, bb, rest, f1, -, f2, f3, f4, rfl, f5⟩ := hr
    rw [List.length_cons, siConstructGo]
    have tail : ∀ (m : Nat) (j : Nat) (ret : SplitInfo) (id : Nat) (bi : List Nat), v.mem.length - v.base < j →
        CutOk r (if (assocGet ret.info id).isSome then .error (.exn .splitInfoDuplicate)
          else
            let ret := { ret with info := ret.info ++ [(id, bi)] }
            let ret := if id ≥ ret.next then { ret with next := toU32 (id + 1) } else ret
            siConstructGo r v m ⟨j, j⟩ ret) (fun _ => True) := by
      intro m j ret id bi hj
      split
      · exact .inl ⟨_, rfl, rfl⟩
      · exact h.pastRecords _ hj _
    rcases h.length f1 ht hi with ⟨g1, g2⟩ | ⟨n', -, -, g2⟩
    · rw [g2]
      simp only [ok_bind]
      have ht1 : tbl.drop (i + li.length) = k ++ (bb ++ rest) := by rw [← List.drop_drop, ht, List.drop_left]
      rcases h.length f2 ht1 g1 with ⟨g3, g4⟩ | ⟨m', -, -, g4⟩
      · rw [g4]
        simp only [ok_bind]
        have ht2 : tbl.drop (i + li.length + k.length) = bb ++ rest := by rw [← List.drop_drop, ht1, List.drop_left]
        have hm : toU32 m = blocks.length := f3.symm
        rw [hm]
        refine (h.nums blocks _ bb rest f4 ht2 g3).bind fun p hp => ?_
        obtain ⟨bi, c⟩ := p
        rcases hp with ⟨k1, k2⟩ | ⟨j, k1, k2⟩
        · simp only at k1
          rw [k1]
          simp only
          split
          · exact .inl ⟨_, rfl, rfl⟩
          · exact h.records t _ rest _ f5 (by rw [← List.drop_drop, ht2, List.drop_left]) k2
        · simp only at k2
          rw [k2]
          exact tail _ _ _ _ _ k1
      · rw [g4]
        simp only [ok_bind]
        refine (h.pastNums _ (Nat.lt_succ_self _)).bind fun p hp => ?_
        obtain ⟨bi, c⟩ := p
        simp only at hp
        rw [hp]
        exact tail _ _ _ _ _ (Nat.lt_succ_self _)
    · rw [g2]
      simp only [ok_bind]
      exact (h.past (Nat.lt_succ_self _) (fun _ => False)).bind fun _ hf => hf.elim

theorem CutView.splitAux {v : View} {tbl : Bytes} (h : CutView r v tbl) {t : List (Nat × List Nat)} {c rest : Bytes} {n : Nat}
    (f1 : NumField c n) (f2 : t.length = toU32 n) (f3 : tbl = c ++ rest) (f4 : ReadsRecords t rest) :
    CutOk r (SplitInfo.construct r v) (fun _ => True) := by
  unfold SplitInfo.construct
  generalize hc0 : Cur.mk 0 0 = c0
  rcases h.first f1 f3 hc0.symm with ⟨g1, g2⟩ | ⟨n', g2⟩
  · rw [g2]
    simp only [ok_bind]
    rw [← f2]
    refine h.records t _ rest _ f4 ?_ g1
    rw [f3, List.drop_left]
  · rw [g2]
    simp only [ok_bind]
    exact h.pastRecords _ (Nat.lt_succ_self _) _

attribute [local irreducible] CutOk in
theorem CutView.split {v : View} {tbl : Bytes} (h : CutView r v tbl) {t : List (Nat × List Nat)} (ht : ReadsTable t tbl) :
    CutOk r (SplitInfo.construct r v) (fun _ => True) := by
  have key : ∀ G : Prop, (∀ c n rest, NumField c n → t.length = toU32 n → tbl = c ++ rest → ReadsRecords t rest → G) → G := by
    intro G k
    obtain ⟨-, c, n, rest, f1, f2, f3, f4⟩ := ht
    exact k c n rest f1 (by unfold toU32; exact f2) f3 f4
  exact key _ fun c n rest f1 f2 f3 f4 => h.splitAux f1 f2 f3 f4

/-! ### the dictionary -/

theorem CutView.pastEntries {v : View} {tbl : Bytes} (h : CutView r v tbl) (n : Nat) {i : Nat} (hi : v.mem.length - v.base < i)
    (acc : List (Str × Nat)) : CutOk r (smConstructGo r v n ⟨i, i⟩ acc) (fun _ => True) := by
  cases n with
  | zero => exact CutOk.ok trivial
  | succ n =>
    rw [smConstructGo]
    exact (h.past hi (fun _ => False)).bind fun _ hf => hf.elim

theorem cut_curAddr (v : View) (c : Cur) : CutOk r (curAddr v c) (fun _ => True) := by
  unfold curAddr
  split
  · exact .inl ⟨_, rfl, rfl⟩
  · trivial

theorem cut_readRange (mem : Bytes) (a n : Nat) : CutOk r (readRange mem a n) (fun _ => True) := by
  unfold readRange
  split
  · trivial
  · exact .inr (.inl rfl)

theorem numField_lenB (n : Nat) : NumField (lenB n) (toU32 n) := by
  have h32 := toU32_lt n
  exact ⟨leb128_isLeb _, leb128_length_le10 (by omega), by unfold lenB; rw [lebValue_leb128, Nat.mod_eq_of_lt (by omega)]⟩

theorem CutView.entries {v : View} {tbl : Bytes} (h : CutView r v tbl) : ∀ (es : List (Str × Nat)) (i : Nat) (acc : List (Str × Nat)),
    (∀ e ∈ es, e.1.bytes.length < 2 ^ 32) → tbl.drop i = (es.map smEntryB).flatten → i ≤ v.mem.length - v.base →
    CutOk r (smConstructGo r v es.length ⟨i, i⟩ acc) (fun _ => True)
  | [], i, acc, _, _, _ => CutOk.ok trivial
  | e :: es, i, acc, hes, ht, hi => by
    obtain ⟨s, id⟩ := e
    have hs : s.bytes.length < 2 ^ 32 := hes _ (List.mem_cons_self ..)
    have hcut := h.cut
    have hbl := h.len
    have hb32 := h.lt
    simp only [List.map_cons, List.flatten_cons, smEntryB, List.append_assoc] at ht
    rw [List.length_cons, smConstructGo]
    have h1 := numField_lenB s.bytes.length
    rw [toU32_of_lt hs] at h1
    rcases h.length h1 ht hi with ⟨g1, g2⟩ | ⟨n', -, hn', g2⟩
    · rw [g2]
      simp only [ok_bind]
      refine (cut_curAddr v _).bind fun addr _ => ?_
      have ht1 : tbl.drop (i + (lenB s.bytes.length).length + s.bytes.length) = lenB id ++ (es.map smEntryB).flatten := by
        rw [← List.drop_drop, ← List.drop_drop, ht, List.drop_left, List.drop_left]
      rw [bump_eq (by omega), skip_eq (by omega)]
      by_cases hin : i + (lenB s.bytes.length).length + s.bytes.length ≤ v.mem.length - v.base
      · rcases h.length (numField_lenB id) ht1 hin with ⟨g3, g4⟩ | ⟨m', -, -, g4⟩
        · rw [g4]
          simp only [ok_bind]
          refine (cut_readRange _ _ _).bind fun key _ => ?_
          exact h.entries es _ _ (fun e he => hes e (List.mem_cons_of_mem _ he)) (by rw [← List.drop_drop, ht1, List.drop_left]) g3
        · rw [g4]
          simp only [ok_bind]
          refine (cut_readRange _ _ _).bind fun key _ => ?_
          exact h.pastEntries _ (Nat.lt_succ_self _) _
      · exact (h.past (by omega) (fun _ => False)).bind fun _ hf => hf.elim
    · rw [g2]
      simp only [ok_bind]
      refine (cut_curAddr v _).bind fun addr _ => ?_
      have : n' < 2 ^ 32 := by
        unfold lenB at hn'
        rw [lebValue_leb128] at hn'
        have := toU32_lt s.bytes.length
        omega
      rw [bump_eq (by omega), skip_eq (by omega)]
      exact (h.past (by omega) (fun _ => False)).bind fun _ hf => hf.elim

theorem CutView.dict {v : View} {w : Cfg} {m : StringMap} (h : CutView r v (smTableB w m)) (hm : m.map.length < 2 ^ 32)
    (hes : ∀ e ∈ m.map, e.1.bytes.length < 2 ^ 32) :
    CutOk r (StringMap.construct r v) (fun _ => True) := by
  unfold StringMap.construct
  have hp := w.smPerm m.map
  generalize hc0 : Cur.mk 0 0 = c0
  rcases h.first (numField_lenB m.map.length) rfl hc0.symm with ⟨g1, g2⟩ | ⟨n', g2⟩
  · rw [g2]
    simp only [ok_bind]
    rw [toU32_of_lt hm, toU32_of_lt hm, ← hp.length_eq]
    refine CutOk.bind (P := fun _ => True) (h.entries _ _ _ (fun e he => hes e (hp.mem_iff.mp he)) ?_ ?_) fun _ _ => CutOk.ok trivial
    · unfold smTableB
      rw [hp.length_eq, List.drop_left]
    · rw [hp.length_eq]; exact g1
  · rw [g2]
    simp only [ok_bind]
    exact (h.pastEntries _ (Nat.lt_succ_self _) _).bind fun _ _ => CutOk.ok trivial

end

attribute [irreducible] CutOk

end Bridge
