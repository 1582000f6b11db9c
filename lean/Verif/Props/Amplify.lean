import Verif.Props.SplitLanguage
import Verif.Proof.Cut
import Verif.Spec.Size
/-
C64: how much a parse can make out of a content.
-/
set_option autoImplicit false
namespace Bridge
open Spec

/-! ### the parallel parser can be made to read the same bytes again and again -/

/-- Split arrays, one behind the other: each but the last two (which have no blocks) is container 1. -/
def blockBombChain : Nat → Bytes
  | 0 => [0x82, 0, 2]
  | 1 => 0x82 :: 1 :: 2 :: blockBombChain 0
  | q + 2 => 0x82 :: 1 :: 1 :: blockBombChain (q + 1)

/-- The split table: the root map (0) has one block of one byte, container 1 two blocks of three bytes, container 2 none. -/
def blockBombTable : Bytes := [10, 3, 0, 1, 1, 1, 2, 3, 3, 2, 0]

/-- A content of about `6 * n` bytes. -/
def blockBomb (n : Nat) : Bytes :=
  bigEndian 8 (17 + 3 * (2 * n + 1)) ++ ([0, 0x0A, 1, 0, 4, 0x72, 0x6F, 0x6F, 0x74] ++ (blockBombChain (2 * n) ++ blockBombTable))

/-- What the parallel parser makes of the chain: every array holds the next two. -/
def blockBombDoc : Nat → Doc
  | 0 => .array []
  | 1 => .array []
  | q + 2 => .array [blockBombDoc (q + 1), blockBombDoc q]

theorem bombChain_length (q : Nat) : (blockBombChain q).length = 3 * (q + 1) := by
  induction q using blockBombChain.induct with
  | case1 => rfl
  | case2 => rfl
  | case3 q ih => simp only [blockBombChain, List.length_cons, ih]; omega

theorem blockBomb_length (n : Nat) : (blockBomb n).length = 6 * n + 31 := by
  simp only [blockBomb, List.length_append, bigEndian_length, bombChain_length, blockBombTable, List.length_cons, List.length_nil]; omega

theorem bombChain_next (q : Nat) : ∃ x, blockBombChain (q + 1) = 0x82 :: 1 :: x :: blockBombChain q := by
  cases q with
  | zero => exact ⟨2, rfl⟩
  | succ q => exact ⟨1, rfl⟩

theorem bombDoc_nodes (q : Nat) : 2 ^ (q / 2) ≤ (blockBombDoc q).nodes := by
  induction q using blockBombDoc.induct with
  | case1 => simp [blockBombDoc, Doc.nodes, nodesL]
  | case2 => simp [blockBombDoc, Doc.nodes, nodesL]
  | case3 q ih1 ih2 =>
    have h1 : (q + 2) / 2 = q / 2 + 1 := by omega
    have h2 : 2 ^ (q / 2) ≤ 2 ^ ((q + 1) / 2) := Nat.pow_le_pow_right (by omega) (by omega)
    simp only [blockBombDoc, Doc.nodes, nodesL, h1, Nat.pow_succ]
    omega

def blockBombInfo : List (Nat × List Nat) := [(0, [1]), (1, [3, 3]), (2, [])]

theorem blockBomb_kind (q : Nat) : kindByte (blockBombDoc q) true = 0x82 := by
  cases q with
  | zero => decide
  | succ q => cases q <;> simp only [blockBombDoc, kindByte] <;> decide

theorem one_byte (n : Nat) (h : n < 128) : NumField [UInt8.ofNat n] n := by
  have e : (UInt8.ofNat n).toNat = n := by simp [Nat.mod_eq_of_lt (show n < 256 by omega)]
  refine ⟨?_, by simp, ?_⟩
  · show (UInt8.ofNat n).toNat < 128; omega
  · simp only [lebValue, e]; omega

theorem blockBomb_child (content : Bytes) : ∀ (q : Nat) (pre tail : Bytes), content = pre ++ (blockBombChain q ++ tail) →
    ∃ j, pre.length + 3 ≤ j ∧ Child true content none (fun id => blockBombInfo.lookup id) (blockBombDoc q) pre.length j := by
  have leaf : ∀ (x : Nat) (pre rest : Bytes), x < 128 → content = pre ++ (0x82 :: UInt8.ofNat x :: 2 :: rest) →
      Child true content none (fun id => blockBombInfo.lookup id) (.array []) pre.length (pre.length + 3) := by
    intro x pre rest hx h
    refine .split (by rw [h]; simp; decide) ?_
    have hd : content.drop (pre.length + 1) = UInt8.ofNat x :: 2 :: rest := by
      rw [h, List.drop_append]; simp
    exact .array (b := pre.length + 3) (sizes := []) (xss := [])
      ⟨[UInt8.ofNat x], [2], x, 2, one_byte x hx, one_byte 2 (by decide), by rw [hd]; exact ⟨rest, rfl⟩, rfl, rfl⟩ .nil
  intro q
  induction q using blockBombDoc.induct with
  | case1 => intro pre tail h; exact ⟨_, Nat.le_refl _, leaf 0 pre tail (by decide) h⟩
  | case2 => intro pre tail h; exact ⟨_, Nat.le_refl _, leaf 1 pre (blockBombChain 0 ++ tail) (by decide) h⟩
  | case3 q ih1 ih2 =>
    intro pre tail h
    obtain ⟨x, hx⟩ := bombChain_next q
    obtain ⟨j1, hj1, c1⟩ := ih1 (pre ++ [0x82, 1, 1]) tail (by rw [h]; simp [blockBombChain])
    obtain ⟨j2, hj2, c2⟩ := ih2 (pre ++ [0x82, 1, 1, 0x82, 1, x]) tail (by rw [h]; simp [blockBombChain, hx])
    simp only [List.length_append, List.length_cons, List.length_nil] at hj1 c1 hj2 c2
    have hd : content.drop (pre.length + 1) = 1 :: 1 :: (blockBombChain (q + 1) ++ tail) := by
      rw [h, List.drop_append]; simp [blockBombChain]
    refine ⟨pre.length + 3 + [3, 3].sum, by simp, ?_⟩
    refine .split (by rw [blockBomb_kind, h]; simp [blockBombChain]) ?_
    exact .array (b := pre.length + 3) (sizes := [3, 3]) (xss := [[blockBombDoc (q + 1)], [blockBombDoc q]])
      ⟨[1], [1], 1, 1, one_byte 1 (by decide), one_byte 1 (by decide), by rw [hd]; exact ⟨_, rfl⟩, rfl, rfl⟩
      (.cons (.cons (by omega) c1 (.nil (by omega))) (.cons (.cons (by omega) c2 (.nil (by omega))) .nil))

theorem bombTable_section : SplitSection (2 ^ 31) blockBombInfo blockBombTable := by
  refine ⟨[10], 10, [3, 0, 1, 1, 1, 2, 3, 3, 2, 0], [3, 0, 1, 1, 1, 2, 3, 3, 2, 0], rfl, one_byte 10 (by decide), by decide,
    ⟨[0], rfl⟩, by decide, by decide, [3], 3, [0, 1, 1, 1, 2, 3, 3, 2, 0], one_byte 3 (by decide), rfl, rfl, ?_⟩
  exact ⟨[0], 0, [1], 1, [1], [1, 2, 3, 3, 2, 0], one_byte 0 (by decide), rfl, one_byte 1 (by decide), rfl,
    ⟨[1], 1, [], one_byte 1 (by decide), rfl, rfl, rfl⟩, rfl,
    [1], 1, [2], 2, [3, 3], [2, 0], one_byte 1 (by decide), rfl, one_byte 2 (by decide), rfl,
    ⟨[3], 3, [3], one_byte 3 (by decide), rfl, rfl, [3], 3, [], one_byte 3 (by decide), rfl, rfl, rfl⟩, rfl,
    [2], 2, [0], 0, [], [], one_byte 2 (by decide), rfl, one_byte 0 (by decide), rfl, rfl, rfl, rfl⟩

theorem blockBomb_readable (n : Nat) : ReadableSplit true (2 ^ 31) (blockBomb n) none none blockBombInfo [(rootKey, blockBombDoc (2 * n))] := by
  have hb : ∃ k, (blockBomb n).take 8 = bigEndian 8 k ∧ k + 11 = (blockBomb n).length ∧ (blockBomb n).drop k = blockBombTable := by
    refine ⟨17 + 3 * (2 * n + 1), ?_, by rw [blockBomb_length]; omega, ?_⟩
    · rw [blockBomb, List.take_append_of_le_length (by simp [bigEndian_length])]
      exact List.take_of_length_le (by simp [bigEndian_length])
    · have e : blockBomb n = (bigEndian 8 (17 + 3 * (2 * n + 1)) ++ ([0, 0x0A, 1, 0, 4, 0x72, 0x6F, 0x6F, 0x74] ++ blockBombChain (2 * n))) ++ blockBombTable := by
        simp [blockBomb]
      rw [e, List.drop_append_of_le_length (by simp [bigEndian_length, bombChain_length]; omega)]
      rw [List.drop_of_length_le (by simp [bigEndian_length, bombChain_length]; omega)]
      rfl
  obtain ⟨k, hk1, hk2, hk3⟩ := hb
  have hhead : ∃ h8 : Bytes, h8.length = 8 ∧
      blockBomb n = h8 ++ ([0, 0x0A, 1, 0, 4, 0x72, 0x6F, 0x6F, 0x74] ++ (blockBombChain (2 * n) ++ blockBombTable)) :=
    ⟨_, bigEndian_length _ _, rfl⟩
  obtain ⟨h8, hl8, hb⟩ := hhead
  obtain ⟨a0, a1, a2, a3, a4, a5, a6, a7, rfl⟩ : ∃ a0 a1 a2 a3 a4 a5 a6 a7, h8 = [a0, a1, a2, a3, a4, a5, a6, a7] := by
    match h8, hl8 with
    | [a0, a1, a2, a3, a4, a5, a6, a7], _ => exact ⟨a0, a1, a2, a3, a4, a5, a6, a7, rfl⟩
  obtain ⟨j, hj, hc⟩ := blockBomb_child (blockBomb n) (2 * n) ([a0, a1, a2, a3, a4, a5, a6, a7] ++ [0, 0x0A, 1, 0, 4, 0x72, 0x6F, 0x6F, 0x74]) blockBombTable
    (by rw [hb]; simp)
  simp only [List.length_append, List.length_cons, List.length_nil] at hj hc
  refine ⟨k, 0, 12 + [1].sum, by omega, hk1, by rw [hb]; rfl, by rw [hb]; rfl, ?_, .inl ⟨rfl, rfl, rfl, ?_⟩⟩
  · refine .map (b := 12) (sizes := [1]) (ess := [[(rootKey, blockBombDoc (2 * n))]])
      ⟨[1], [0], 1, 0, one_byte 1 (by decide), one_byte 0 (by decide), by rw [hb]; exact ⟨_, rfl⟩, rfl, rfl⟩
      (.cons (.cons (kb := 4 :: rootKey) (by decide) ⟨[4], 4, one_byte 4 (by decide), rfl, rfl⟩ (by rw [hb]; exact ⟨_, rfl⟩) hc (.nil (by omega))) .nil)
  · rw [hk3]
    exact bombTable_section

theorem bombDoc_noCustom (q : Nat) : (blockBombDoc q).noCustom = true := by
  induction q using blockBombDoc.induct with
  | case1 => rfl
  | case2 => rfl
  | case3 q ih1 ih2 => simp [blockBombDoc, Doc.noCustom, noCustomL, ih1, ih2]

/-- C64, refuted for the parallel parser. For every `n` there is a content of `6 n + 31` bytes of which the parallel parse, in every
build, owning or in situ, with any number of workers, makes a document of `2 ^ n` or more values: the blocks of a split container are read
to the end of their last child, wherever that is, and the next block starts inside of it. -/
theorem C64_parallel_explodes (n : Nat) (r : Cfg) (po : ParseOption) (hco : po.coroutine = true) (hw : 0 < po.workers)
    (hlen : 6 * n + 31 < 2 ^ 31) (hmax : 6 * n + 31 < r.strMax) :
    (blockBomb n).length = 6 * n + 31 ∧ ∃ o d, Parses r po (blockBomb n) (.ok o) ∧ o.doc? = some d ∧ 2 ^ n ≤ d.nodes := by
  refine ⟨blockBomb_length n, ?_⟩
  obtain ⟨o, h1, h2⟩ := C63_checked_value r (blockBomb n) (by rw [blockBomb_length]; exact hlen) (by rw [blockBomb_length]; exact hmax) po hco hw
    none none _ _ (blockBomb_readable n) (by intro ps h; cases h) (by intro _; simp [noCustomE, bombDoc_noCustom])
  refine ⟨o, blockBombDoc (2 * n), h1, by rw [h2]; simp [firstEntry], ?_⟩
  have := bombDoc_nodes (2 * n)
  rwa [Nat.mul_div_cancel_left n (by omega)] at this

/-! ### the recursive parser reads every byte once -/

/-- Arrays inside of each other. -/
def nested : Nat → Doc
  | 0 => .array []
  | q + 1 => .array [nested q]

theorem nested_kind (q : Nat) : kindByte (nested q) true = 0x82 := by cases q <;> simp only [nested, kindByte] <;> decide

theorem blockBomb_reads (q : Nat) : ∃ body, blockBombChain q = 0x82 :: body ∧ Reads true false none (nested q) body := by
  induction q with
  | zero => exact ⟨[0, 2], rfl, [0], [2], [], 2, rfl, one_byte 0 (by decide), one_byte 2 (by decide), rfl⟩
  | succ q ih =>
    obtain ⟨body, h1, h2⟩ := ih
    obtain ⟨x, hx, hx'⟩ : ∃ x : Nat, x < 128 ∧ blockBombChain (q + 1) = 0x82 :: 1 :: UInt8.ofNat x :: blockBombChain q := by
      cases q with
      | zero => exact ⟨2, by decide, rfl⟩
      | succ q => exact ⟨1, by decide, rfl⟩
    refine ⟨_, hx', [1], [UInt8.ofNat x], blockBombChain q, x, rfl, one_byte 1 (by decide), one_byte x hx, true, body, [], ?_, h2, rfl⟩
    rw [nested_kind, h1, List.append_nil]

theorem nested_nodes (q : Nat) : (nested q).nodes = q + 1 := by
  induction q with
  | zero => rfl
  | succ q ih => simp [nested, Doc.nodes, nodesL, ih]

theorem nested_rev (q : Nat) : (nested q).revMaps = nested q := by
  induction q with
  | zero => rfl
  | succ q ih => simp [nested, Doc.revMaps, revMapsL, ih]

theorem nested_noCustom (q : Nat) : (nested q).noCustom = true := by
  induction q with
  | zero => rfl
  | succ q ih => simp [nested, Doc.noCustom, noCustomL, ih]

theorem bomb_readable_plain (n : Nat) : Readable true (2 ^ 31) (blockBomb n) none none [(rootKey, nested (2 * n))] := by
  obtain ⟨body, h1, h2⟩ := blockBomb_reads (2 * n)
  have hl := congrArg List.length h1
  simp only [bombChain_length, List.length_cons] at hl
  refine ⟨0, 0x0A, [1, 0, 4, 0x72, 0x6F, 0x6F, 0x74] ++ blockBombChain (2 * n), blockBombTable, ?_, .inr rfl, ?_, .inl ⟨rfl, rfl, rfl, blockBombInfo, ?_⟩⟩
  · have e : 10 + ([1, 0, 4, 0x72, 0x6F, 0x6F, 0x74] ++ blockBombChain (2 * n)).length = 17 + 3 * (2 * n + 1) := by
      simp only [List.length_append, bombChain_length, List.length_cons, List.length_nil]; omega
    rw [e]; simp [blockBomb]
  · refine ⟨[1], [0], 4 :: rootKey ++ blockBombChain (2 * n), 0, rfl, one_byte 1 (by decide), one_byte 0 (by decide), 4 :: rootKey, true, body, [],
      ?_, ⟨[4], one_byte 4 (by decide), rfl⟩, h2, rfl⟩
    rw [nested_kind, h1, List.append_nil]
  · exact bombTable_section

/-- C64. The recursive parser reads the same content as `2 n + 1` arrays inside of each other. -/
theorem C64_recursive_linear (n : Nat) (r : Cfg) (po : ParseOption) (hco : po.coroutine = false)
    (hlen : 6 * n + 31 < 2 ^ 31) (hmax : 6 * n + 31 < r.strMax) :
    ∃ o d, Parses r po (blockBomb n) (.ok o) ∧ o.doc? = some d ∧ d.nodes = 2 * n + 1 := by
  obtain ⟨o, h1, h2⟩ := C61_checked_value r (blockBomb n) (by rw [blockBomb_length]; exact hlen) (by rw [blockBomb_length]; exact hmax) po (.inl hco)
    none none _ (bomb_readable_plain n) (by intro ps h; cases h) (by intro _; simp [noCustomE, nested_noCustom])
  refine ⟨o, nested (2 * n), h1, by rw [h2]; simp [firstEntry, nested_rev], nested_nodes _⟩

/-- Every string of the dictionary, if there is one, has at most `L` bytes. -/
def DictMax (dict : Option (Nat → Option (List UInt8))) (L : Nat) : Prop := ∀ f, dict = some f → ∀ id b, f id = some b → b.length ≤ L

theorem numField_pos {l : Bytes} {n : Nat} (h : NumField l n) : 1 ≤ l.length := isLeb_pos h.1

theorem readsStr_size {dict : Option (Nat → Option Bytes)} {L : Nat} (hL : 1 ≤ L) (hd : DictMax dict L) {k bs : Bytes}
    (h : ReadsStr dict k bs) : 1 ≤ bs.length ∧ k.length ≤ bs.length * L := by
  unfold ReadsStr at h
  split at h
  · obtain ⟨l, h1, rfl⟩ := h
    have := numField_pos h1
    have h2 : (l ++ k).length * 1 ≤ (l ++ k).length * L := Nat.mul_le_mul_left _ hL
    simp only [List.length_append] at *
    omega
  · rename_i f
    obtain ⟨n, h1, h2⟩ := h
    have := numField_pos h1
    have h3 := hd f rfl _ _ h2
    have h4 : 1 * L ≤ bs.length * L := Nat.mul_le_mul_right _ this
    omega

theorem readsScalar_size {strict last : Bool} {dict : Option (Nat → Option Bytes)} {L : Nat} (hL : 1 ≤ L) (hd : DictMax dict L) {s : Scalar}
    {bs : Bytes} (h : ReadsScalar strict last dict s bs) : 2 ≤ bs.length ∧ s.text ≤ bs.length * L := by
  have scale : ∀ {a b : Nat}, a ≤ b → a ≤ b * L := fun h => Nat.le_trans h (by
    have := Nat.mul_le_mul_left ‹Nat› hL; omega)
  have inl : ∀ (n : Nat) (rest : Bytes), (∃ l p, NumField l p.length ∧ n ≤ p.length ∧ rest = l ++ p) →
      2 ≤ (s.code :: rest).length ∧ n ≤ (s.code :: rest).length * L := by
    rintro n rest ⟨l, p, h1, h2, rfl⟩
    have := numField_pos h1
    refine ⟨by simp; omega, scale ?_⟩
    simp; omega
  obtain ⟨rest, rfl, h⟩ := h
  cases s with
  | string b =>
    obtain ⟨h1, -⟩ := h
    obtain ⟨h2, h3⟩ := readsStr_size hL hd h1
    refine ⟨by simp; omega, ?_⟩
    simp only [Scalar.text, List.length_cons, Nat.add_mul]; omega
  | bytes b => obtain ⟨l, p, h1, h2, h3, -⟩ := h; exact inl _ _ ⟨l, p, h1, by unfold FillsPayload at h2; exact Nat.le_of_eq (congrArg List.length h2), h3⟩
  | custom b => obtain ⟨l, p, h1, h2, h3, -⟩ := h; exact inl _ _ ⟨l, p, h1, by unfold FillsPayload at h2; exact Nat.le_of_eq (congrArg List.length h2), h3⟩
  | int32 v => obtain ⟨l, p, h1, h2, h3, -⟩ := h; exact inl _ _ ⟨l, p, h1, Nat.zero_le _, h3⟩
  | uint32 v => obtain ⟨l, p, h1, h2, h3, -⟩ := h; exact inl _ _ ⟨l, p, h1, Nat.zero_le _, h3⟩
  | int64 v => obtain ⟨l, p, h1, h2, h3, -⟩ := h; exact inl _ _ ⟨l, p, h1, Nat.zero_le _, h3⟩
  | uint64 v => obtain ⟨l, p, h1, h2, h3, -⟩ := h; exact inl _ _ ⟨l, p, h1, Nat.zero_le _, h3⟩
  | float v => obtain ⟨l, p, h1, h2, h3, -⟩ := h; exact inl _ _ ⟨l, p, h1, Nat.zero_le _, h3⟩
  | double v => obtain ⟨l, p, h1, h2, h3, -⟩ := h; exact inl _ _ ⟨l, p, h1, Nat.zero_le _, h3⟩

mutual
theorem reads_size {strict last : Bool} {dict : Option (Nat → Option Bytes)} {L : Nat} (hL : 1 ≤ L) (hd : DictMax dict L) :
    ∀ (d : Doc) (bs : Bytes), Reads strict last dict d bs → 3 * d.nodes ≤ bs.length + 1 ∧ d.text ≤ bs.length * L
  | .scalar s, bs, h => by
    have := readsScalar_size hL hd h
    exact ⟨by simp only [Doc.nodes]; omega, this.2⟩
  | .array xs, bs, h => by
    obtain ⟨c, i, rest, id, rfl, h1, h2, h3⟩ := h
    obtain ⟨h4, h5⟩ := readsL_size hL hd xs rest h3
    have := numField_pos h1
    have := numField_pos h2
    simp only [Doc.nodes, Doc.text, List.length_append, Nat.add_mul]
    omega
  | .map es, bs, h => by
    obtain ⟨c, i, rest, id, rfl, h1, h2, h3⟩ := h
    obtain ⟨h4, h5⟩ := readsE_size hL hd es rest h3
    have := numField_pos h1
    have := numField_pos h2
    simp only [Doc.nodes, Doc.text, List.length_append, Nat.add_mul]
    omega
theorem readsL_size {strict last : Bool} {dict : Option (Nat → Option Bytes)} {L : Nat} (hL : 1 ≤ L) (hd : DictMax dict L) :
    ∀ (xs : List Doc) (bs : Bytes), ReadsL strict last dict xs bs → 3 * nodesL xs ≤ bs.length ∧ textL xs ≤ bs.length * L
  | [], bs, h => by simp [nodesL, textL]
  | x :: xs, bs, h => by
    obtain ⟨split, b, rest, rfl, h1, h2⟩ := h
    have h3 := reads_size hL hd x b h1
    have h4 := readsL_size hL hd xs rest h2
    simp only [nodesL, textL, List.length_append, List.length_cons, Nat.add_mul]
    omega
theorem readsE_size {strict last : Bool} {dict : Option (Nat → Option Bytes)} {L : Nat} (hL : 1 ≤ L) (hd : DictMax dict L) :
    ∀ (es : List (Bytes × Doc)) (bs : Bytes), ReadsE strict last dict es bs → 3 * nodesE es ≤ bs.length ∧ textE es ≤ bs.length * L
  | [], bs, h => by simp [nodesE, textE]
  | (k, x) :: es, bs, h => by
    obtain ⟨kb, split, b, rest, rfl, h0, h1, h2⟩ := h
    have h3 := reads_size hL hd x b h1
    have h4 := readsE_size hL hd es rest h2
    have h5 := readsStr_size hL hd h0
    simp only [nodesE, textE, List.length_append, List.length_cons, Nat.add_mul]
    omega
end

mutual
theorem revMaps_size : ∀ d : Doc, d.revMaps.nodes = d.nodes ∧ d.revMaps.text = d.text
  | .scalar s => ⟨rfl, rfl⟩
  | .array xs => by
    have := revMapsL_size xs
    simp only [Doc.revMaps, Doc.nodes, Doc.text]
    omega
  | .map es => by
    have := revMapsE_size es []
    simp only [nodesE, textE] at this
    simp only [Doc.revMaps, Doc.nodes, Doc.text]
    omega
theorem revMapsL_size : ∀ xs : List Doc, nodesL (revMapsL xs) = nodesL xs ∧ textL (revMapsL xs) = textL xs
  | [] => ⟨rfl, rfl⟩
  | x :: xs => by
    have h1 := revMaps_size x
    have h2 := revMapsL_size xs
    simp only [revMapsL, nodesL, textL]
    omega
theorem revMapsE_size : ∀ (es acc : List (Bytes × Doc)), nodesE (revMapsE es acc) = nodesE es + nodesE acc ∧
    textE (revMapsE es acc) = textE es + textE acc
  | [], acc => by simp [revMapsE, nodesE, textE]
  | (k, x) :: es, acc => by
    have h1 := revMaps_size x
    have h2 := revMapsE_size es ((k, x.revMaps) :: acc)
    simp only [nodesE, textE] at h2
    simp only [revMapsE, nodesE, textE]
    omega
end

theorem sizes_mem {k : Bytes} {x : Doc} : ∀ {es : List (Bytes × Doc)}, (k, x) ∈ es → x.nodes ≤ nodesE es ∧ x.text + k.length ≤ textE es
  | (k', x') :: es, h => by
    rcases List.mem_cons.1 h with e | h
    · cases e; simp only [nodesE, textE]; omega
    · have := sizes_mem h
      simp only [nodesE, textE]; omega

theorem readsPairs_size : ∀ {ps : List (Bytes × Nat)} {bs : Bytes}, ReadsPairs ps bs → ∀ e ∈ ps, e.1.length ≤ bs.length
  | (s, id) :: ps, bs, h, e, he => by
    obtain ⟨l, i, n, rest, -, -, -, rfl, h⟩ := h
    simp only [List.length_append]
    rcases List.mem_cons.1 he with rfl | he
    · simp only; omega
    · have := readsPairs_size h e he; omega

theorem dictSection_size {ps : List (Bytes × Nat)} {rest rest' : Bytes} (h : DictSection ps rest rest') :
    ∀ e ∈ ps, e.1.length ≤ rest.length := by
  obtain ⟨l, body, bs, rfl, -, ⟨t, rfl⟩, c, n, rs, -, -, rfl, h⟩ := h
  intro e he
  have := readsPairs_size h e he
  simp only [List.length_append]; omega

theorem four_mul_le (a b : Nat) : 4 * (a * b) ≤ (a + b) * (a + b) := by
  rcases Nat.le_total a b with h | h
  · obtain ⟨c, rfl⟩ := Nat.exists_eq_add_of_le h
    simp only [Nat.mul_add, Nat.add_mul, Nat.mul_comm c a]
    have : 0 ≤ c * c := Nat.zero_le _
    omega
  · obtain ⟨c, rfl⟩ := Nat.exists_eq_add_of_le h
    simp only [Nat.mul_add, Nat.add_mul, Nat.mul_comm c b]
    have : 0 ≤ c * c := Nat.zero_le _
    omega

/-- C64. Whatever the content, a document returned by the recursive parser has at most one value for every three bytes of the content.
Its strings, byte arrays and keys together are no longer than the content, or, if the content has a dictionary, than a quarter of the
square of its length. -/
theorem C64_result_size (r : Cfg) (content : Bytes) (hlen : content.length < 2 ^ 63) (po : ParseOption)
    (hrec : po.coroutine = false ∨ content[9]? = some 0) (href : po.parseRef = true → ShortNumbers content) (o : Obj) (d : Doc)
    (h : Parses r po content (.ok o)) (hd : o.doc? = some d) :
    3 * d.nodes ≤ content.length ∧ (content[8]? = some 0 → d.text ≤ content.length) ∧ 4 * d.text ≤ content.length * content.length := by
  obtain ⟨pairs, dict, es, ⟨mode, flag, main, rest, rfl, -, h3, h4⟩, -, h5⟩ := C61_accepted_value r content hlen po hrec href o h
  rw [h5] at hd
  obtain ⟨x, hx, rfl⟩ := Option.map_eq_some_iff.1 hd
  have hm := List.mem_reverse.1 (firstEntry_mem hx)
  obtain ⟨s1, s2⟩ := sizes_mem hm
  obtain ⟨e1, e2⟩ := revMaps_size x
  rw [e1, e2]
  have hg : (bigEndian 8 (10 + main.length) ++ ([mode, flag] ++ (main ++ rest)))[8]? = some mode := by
    rw [List.getElem?_append_right (by simp [bigEndian_length]), bigEndian_length]; rfl
  rw [hg]
  have hl : (bigEndian 8 (10 + main.length) ++ ([mode, flag] ++ (main ++ rest))).length = main.length + (rest.length + 10) := by
    simp only [List.length_append, bigEndian_length, List.length_cons, List.length_nil]; omega
  rw [hl]
  have hD : DictMax dict (rest.length + 1) := by
    rcases h4 with ⟨-, -, rfl, -⟩ | ⟨-, ps, rest', f, -, rfl, hf, hs, -⟩
    · intro f hf; cases hf
    · intro f' hf' id b hb
      cases hf'
      obtain ⟨before, after, e, -⟩ := (hf id).1 b hb
      have := dictSection_size hs (b, id) (by rw [e]; simp)
      simp only at this; omega
  have b1 := reads_size (by omega) hD _ _ h3
  simp only [Doc.nodes, Doc.text] at b1
  refine ⟨by omega, ?_, ?_⟩
  · intro hmode
    rcases h4 with ⟨-, -, rfl, -⟩ | ⟨rfl, -⟩
    · have b2 := reads_size (L := 1) (by omega) (by intro f hf; cases hf) _ _ h3
      simp only [Doc.text] at b2
      omega
    · simp at hmode
  · have b2 := four_mul_le main.length (rest.length + 1)
    have b3 : (main.length + (rest.length + 1)) * (main.length + (rest.length + 1)) ≤
        (main.length + (rest.length + 10)) * (main.length + (rest.length + 10)) := Nat.mul_le_mul (by omega) (by omega)
    omega

mutual
theorem same_measure : ∀ {d d' : Doc}, d.Same d' → d'.nodes = d.nodes ∧ d'.text = d.text
  | .scalar s, d', h => by simp only [Doc.Same] at h; subst h; exact ⟨rfl, rfl⟩
  | .array xs, d', h => by
    obtain ⟨ys, rfl, h⟩ := h
    have := sameL_measure h
    simp only [Doc.nodes, Doc.text]; omega
  | .map es, d', h => by
    obtain ⟨es', es'', rfl, h, hp⟩ := h
    have h1 := sameE_measure h
    have h2 := permE_measure hp
    simp only [Doc.nodes, Doc.text]; omega
theorem sameL_measure : ∀ {xs ys : List Doc}, SameL xs ys → nodesL ys = nodesL xs ∧ textL ys = textL xs
  | [], ys, h => by simp only [SameL] at h; subst h; exact ⟨rfl, rfl⟩
  | x :: xs, ys, h => by
    obtain ⟨y, ys', rfl, h1, h2⟩ := h
    have h1 := same_measure h1
    have h2 := sameL_measure h2
    simp only [nodesL, textL]; omega
theorem sameE_measure : ∀ {es es' : List (Bytes × Doc)}, SameE es es' → nodesE es' = nodesE es ∧ textE es' = textE es
  | [], ys, h => by simp only [SameE] at h; subst h; exact ⟨rfl, rfl⟩
  | (k, x) :: es, ys, h => by
    obtain ⟨y, ys', rfl, h1, h2⟩ := h
    have h1 := same_measure h1
    have h2 := sameE_measure h2
    simp only [nodesE, textE]; omega
theorem permE_measure : ∀ {es es' : List (Bytes × Doc)}, es.Perm es' → nodesE es' = nodesE es ∧ textE es' = textE es
  | _, _, .nil => ⟨rfl, rfl⟩
  | _, _, .cons (k, x) h => by have := permE_measure h; simp only [nodesE, textE]; omega
  | _, _, .swap (k, x) (k', x') l => by simp only [nodesE, textE]; omega
  | _, _, .trans h h' => by have := permE_measure h; have := permE_measure h'; omega
end

/-- C64. What `Serialize` writes has at least three bytes for every value, and every parse of it, parallel or not, makes a document of as
many values and as much text as the one that was written. -/
theorem C64_written_size (w r : Cfg) (hw : w.charSigned = true) (t : SeriType) (o : Obj) (d : Doc) (hd : o.doc? = some d)
    (hh : Writable w o) (content : Bytes) (hs : serialize w t o = .ok content) (hf : Fits r content) :
    3 * d.nodes ≤ content.length ∧
    ∀ (po : ParseOption) (o' : Obj), (po.coroutine = true → 0 < po.workers) → (po.parseRef = true → d.noCustom = true) →
      Parses r po content (.ok o') → ∃ d', o'.doc? = some d' ∧ d'.nodes = d.nodes ∧ d'.text = d.text := by
  refine ⟨?_, ?_⟩
  · obtain ⟨content', hs', h⟩ := C12_parallel_same w r hw t o d hd hh false (by simp) 1 (by omega)
    rw [hs] at hs'
    cases hs'
    obtain ⟨o1, o2, d1, d2, h1, h2, h3, h4, h5, h6⟩ := h hf
    have hl := hf.lt
    have e := C64_result_size r content (by omega) _ (.inl rfl) (by simp) o2 d2 h2 h4
    have e1 := same_measure h5
    have e2 := same_measure h6
    omega
  · rintro ⟨co, ref, k⟩ o' hwk hc hp
    obtain ⟨content', hs', h⟩ := C12_parallel_same w r hw t o d hd hh ref hc (if co then k else 1) (by split <;> simp_all)
    rw [hs] at hs'
    cases hs'
    obtain ⟨o1, o2, d1, d2, h1, h2, h3, h4, h5, h6⟩ := h hf
    have e1 := same_measure h5
    have e2 := same_measure h6
    cases co with
    | true =>
      have := hp.unique h1
      cases this
      exact ⟨d1, h3, e2⟩
    | false =>
      have hp' : Parses r ⟨false, ref, 1⟩ content (.ok o') := hp
      have := hp'.unique h2
      cases this
      exact ⟨d2, h4, by omega, by omega⟩

/-! ### the dictionary: few bytes, much text -/

/-- The string that is repeated. -/
def letters (n : Nat) : Bytes := List.replicate n 65

/-- `n` references to entry 1 of the dictionary. -/
def refs : Nat → Bytes
  | 0 => []
  | n + 1 => 0 :: 1 :: 1 :: refs n

/-- The entries of the dictionary. -/
def echoDict (n : Nat) : List (Bytes × Nat) := [(rootKey, 0), (letters n, 1)]

def echoBody (n : Nat) : Bytes := [2] ++ ([4] ++ (rootKey ++ ([0] ++ (leb128 n ++ (letters n ++ ([1] ++ []))))))

def echoMain (n : Nat) : Bytes := [1] ++ ([0] ++ ([0] ++ (2 :: ((leb128 n ++ ([0] ++ refs n)) ++ []))))

/-- A content with an array of `n` strings of `n` bytes each, all of them the same entry of the dictionary. -/
def echo (n : Nat) : Bytes :=
  bigEndian 8 (10 + (echoMain n).length) ++ ([1, 0] ++ (echoMain n ++ (leb128 (echoBody n).length ++ (echoBody n ++ [1, 0]))))

def echoDoc (n : Nat) : Doc := .array (List.replicate n (.scalar (.string (letters n))))

theorem refs_length (n : Nat) : (refs n).length = 3 * n := by
  induction n with
  | zero => rfl
  | succ n ih => simp only [refs, List.length_cons, ih]; omega

theorem numField_leb {n : Nat} (h : n < 2 ^ 32) : NumField (leb128 n) n := by
  have := numField_lenB n
  simp only [lenB, toU32, Nat.mod_eq_of_lt h] at this
  exact this

theorem echo_length (n : Nat) (h : n < 2 ^ 28) : (echo n).length ≤ 4 * n + 41 := by
  have h1 := leb128_length_le5 (n := n) (by omega)
  have h2 : (echoBody n).length ≤ n + 13 := by
    simp only [echoBody, letters, rootKey, List.length_append, List.length_cons, List.length_nil, List.length_replicate]; omega
  have h3 := leb128_length_le5 (n := (echoBody n).length) (by omega)
  simp only [echo, echoMain, List.length_append, List.length_cons, List.length_nil, bigEndian_length, refs_length]
  omega

def echoFn (n : Nat) : Nat → Option Bytes := fun id => if id = 0 then some rootKey else if id = 1 then some (letters n) else none

theorem letters_ne (n : Nat) : letters n ≠ rootKey := by
  cases n with
  | zero => decide
  | succ n => intro h; simp [letters, List.replicate_succ, rootKey] at h

theorem echo_dict (n : Nat) : IsDictOf (echoDict n) (echoFn n) := by
  intro id
  refine ⟨?_, ?_⟩
  · intro b hb
    unfold echoFn at hb
    split at hb
    · rename_i e; cases hb; subst e; exact ⟨[], _, rfl, by simp⟩
    split at hb
    · rename_i e; cases hb; subst e
      exact ⟨[(rootKey, 0)], [], rfl, by intro e he; rw [List.mem_singleton] at he; subst he; exact fun h => letters_ne n h.symm⟩
    · cases hb
  · rintro ⟨b, before, after, h, -⟩
    have : (b, id) ∈ echoDict n := by rw [h]; simp
    simp only [echoDict, List.mem_cons, Prod.mk.injEq, List.not_mem_nil, or_false] at this
    unfold echoFn
    rcases this with ⟨-, rfl⟩ | ⟨-, rfl⟩ <;> simp

theorem echo_refs (m : Nat) : ∀ n, ReadsL true false (some (echoFn m)) (List.replicate n (.scalar (.string (letters m)))) (refs n)
  | 0 => rfl
  | n + 1 => by
    refine ⟨false, [1, 1], refs n, by simp [refs, kindByte], ?_, echo_refs m n⟩
    exact ⟨[1], rfl, ⟨1, one_byte 1 (by decide), rfl⟩, by intro h; simp at h⟩

theorem echo_readable (n : Nat) (h : n < 2 ^ 28) :
    Readable true (2 ^ 31) (echo n) (some (echoDict n)) (some (echoFn n)) [(rootKey, echoDoc n)] := by
  have hb : (echoBody n).length < 2 ^ 32 := by
    have h1 := leb128_length_le5 (n := n) (by omega)
    simp only [echoBody, letters, rootKey, List.length_append, List.length_cons, List.length_nil, List.length_replicate]; omega
  have hs : SplitSection (2 ^ 31) [] [1, 0] :=
    ⟨[1], 1, [0], [0], rfl, one_byte 1 (by decide), by decide, ⟨[0], rfl⟩, by decide, by simp, [0], 0, [], one_byte 0 (by decide), rfl, rfl, rfl⟩
  have hd : DictSection (echoDict n) (leb128 (echoBody n).length ++ (echoBody n ++ [1, 0])) [1, 0] := by
    refine ⟨_, echoBody n, echoBody n, rfl, numField_leb hb, List.prefix_refl _, [2], 2, _, one_byte 2 (by decide), rfl, rfl, ?_⟩
    refine ⟨[4], [0], 0, _, one_byte 4 (by decide), one_byte 0 (by decide), rfl, rfl, ?_⟩
    refine ⟨leb128 n, [1], 1, [], ?_, one_byte 1 (by decide), rfl, rfl, rfl⟩
    rw [letters, List.length_replicate]
    exact numField_leb (by omega)
  have hm : Reads true false (some (echoFn n)) (.map [(rootKey, echoDoc n)]) (echoMain n) := by
    refine ⟨[1], [0], _, 0, rfl, one_byte 1 (by decide), one_byte 0 (by decide), [0], false, leb128 n ++ ([0] ++ refs n), [], by simp [kindByte, echoDoc],
      ⟨0, one_byte 0 (by decide), rfl⟩, ?_, rfl⟩
    refine ⟨leb128 n, [0], refs n, 0, rfl, ?_, one_byte 0 (by decide), echo_refs n n⟩
    rw [List.length_replicate]
    exact numField_leb (by omega)
  exact ⟨1, 0, echoMain n, _, rfl, .inl rfl, hm, .inr ⟨rfl, _, _, _, rfl, rfl, echo_dict n, hd, [], hs⟩⟩

theorem echo_sizes (b : Bytes) : ∀ n, textL (List.replicate n (.scalar (.string b))) = n * b.length ∧
    revMapsL (List.replicate n (.scalar (.string b))) = List.replicate n (.scalar (.string b)) ∧
    noCustomL (List.replicate n (.scalar (.string b))) = true
  | 0 => by simp [textL, revMapsL, noCustomL]
  | n + 1 => by
    obtain ⟨h1, h2, h3⟩ := echo_sizes b n
    simp only [List.replicate_succ, textL, revMapsL, noCustomL, h1, h2, h3, Doc.text, Scalar.text, Doc.revMaps, Doc.noCustom, Nat.add_mul]
    simp; omega

/-- C64. The bound for contents with a dictionary has the right order: for every `n` a content of at most `4 n + 41` bytes holds an array
of `n` strings of `n` bytes each. -/
theorem C64_dictionary_quadratic (n : Nat) (hn : n < 2 ^ 28) (r : Cfg) (hmax : 4 * n + 41 < r.strMax) (po : ParseOption) :
    (echo n).length ≤ 4 * n + 41 ∧ ∃ o d, Parses r po (echo n) (.ok o) ∧ o.doc? = some d ∧ d.text = n * n := by
  have hl := echo_length n hn
  obtain ⟨s1, s2, s3⟩ := echo_sizes (letters n) n
  have hf : (echo n)[9]? = some 0 := by
    rw [echo, List.getElem?_append_right (by simp [bigEndian_length]), bigEndian_length]; rfl
  refine ⟨hl, ?_⟩
  obtain ⟨o, h1, h2⟩ := C61_checked_value r (echo n) (by omega) (by omega) po (.inr hf) _ _ _ (echo_readable n hn)
    (by intro ps h; cases h; simp [echoDict]) (by intro _; simp [noCustomE, echoDoc, Doc.noCustom, s3])
  refine ⟨o, echoDoc n, h1, by rw [h2]; simp [firstEntry, echoDoc, Doc.revMaps, s2], ?_⟩
  simp only [echoDoc, Doc.text, s1]; simp [letters]

/-- 631 bytes that the parallel parser turns into a document of more than 10^30 values, and the recursive one into 201. -/
example : (blockBomb 100).length = 631 ∧ (∃ o d, Parses Cfg.x86 { coroutine := true } (blockBomb 100) (.ok o) ∧ o.doc? = some d ∧ 10 ^ 30 ≤ d.nodes) ∧
    ∃ o d, Parses Cfg.x86 {} (blockBomb 100) (.ok o) ∧ o.doc? = some d ∧ d.nodes = 201 := by
  obtain ⟨h1, o, d, h2, h3, h4⟩ := C64_parallel_explodes 100 Cfg.x86 { coroutine := true } rfl (by decide) (by decide) (by decide)
  exact ⟨h1, ⟨o, d, h2, h3, Nat.le_trans (by decide) h4⟩, C64_recursive_linear 100 Cfg.x86 {} rfl (by decide) (by decide)⟩

/-- At most 4041 bytes that hold a million bytes of text. -/
example : (echo 1000).length ≤ 4041 ∧ ∃ o d, Parses Cfg.x86 {} (echo 1000) (.ok o) ∧ o.doc? = some d ∧ d.text = 1000 * 1000 :=
  C64_dictionary_quadratic 1000 (by decide) Cfg.x86 (by decide) {}

end Bridge
