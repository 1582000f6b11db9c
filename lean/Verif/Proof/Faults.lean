import Verif.Proof.VarintAny
import Verif.Proof.Fuel
/-
The only ways in which a parse of arbitrary bytes can go wrong.
-/
set_option autoImplicit false
namespace Bridge
open Spec

/-- The ways a parse may fail: an exception, an assertion in a build with assertions, no end, or undefined behaviour of one of
three kinds. -/
def Mild (cfg : Cfg) (mem : Bytes) : Err → Prop
  | .exn _ => True
  | .fuel => True
  | .abort => cfg.asserts = true
  | .ub u => u = .readOutOfBounds ∨ (u = .stackSmash ∧ cfg.asserts = false) ∨
      (u = .shiftTooWide ∧ ∃ a, ∀ j, j < 10 → ∃ b, mem[a + j]? = some b ∧ 128 ≤ b.toNat)

/-- The call fails at most in one of these ways, and if it returns normally its result satisfies `P`. -/
def Tame {α : Type} (cfg : Cfg) (mem : Bytes) (r : Res α) (P : α → Prop) : Prop :=
  match r with
  | .ok a => P a
  | .error e => Mild cfg mem e

section
variable {cfg : Cfg} {mem : Bytes}

theorem Tame.bind {α β : Type} {x : Res α} {f : α → Res β} {P : α → Prop} {Q : β → Prop} (h : Tame cfg mem x P)
    (hf : ∀ a, P a → Tame cfg mem (f a) Q) : Tame cfg mem (x >>= f) Q := by
  cases x with
  | ok a => exact hf a h
  | error e => exact h

theorem Tame.err {α : Type} {e : Err} {P : α → Prop} (h : Mild cfg mem e) : Tame cfg mem (.error e : Res α) P := h
theorem Tame.ok {α : Type} {a : α} {P : α → Prop} (h : P a) : Tame cfg mem (.ok a : Res α) P := h
theorem Tame.pure {α : Type} {a : α} {P : α → Prop} (h : P a) : Tame cfg mem (Pure.pure a : Res α) P := h

/-- No condition on the result. -/
def Whatever {α : Type} : α → Prop := fun _ => True

theorem tame_readByte (a : Nat) : Tame cfg mem (readByte mem a) Whatever := by
  unfold readByte
  split
  · trivial
  · split
    · trivial
    · exact .err (.inl rfl)

theorem tame_readRange (a n : Nat) : Tame cfg mem (readRange mem a n) Whatever := by
  unfold readRange
  split
  · trivial
  · exact .err (.inl rfl)

theorem tame_varintDecode (addr : Nat) (len : Int) : Tame cfg mem (varintDecode cfg mem addr len) Whatever := by
  by_cases ha : addr ≤ mem.length
  · rcases varintDecode_any cfg mem addr len ha with ⟨bs, h, _⟩ | ⟨h, h2⟩ | ⟨h, h2⟩
    · rw [h]; trivial
    · rw [h]; exact .err h2
    · rw [h]; exact .err (.inr (.inr ⟨rfl, addr, h2⟩))
  · unfold varintDecode varintDecodeGo
    rcases readByte_cases mem (addr + 0) with ⟨b, h1, _⟩ | ⟨_, h2⟩
    · rw [List.getElem?_eq_none (by simp; omega)] at h1; simp at h1
    · rw [h2]; exact .err (.inl rfl)

theorem tame_checkEmpty (v : View) (c : Cur) : Tame cfg mem (checkEmpty v c) Whatever := by
  unfold checkEmpty; split <;> trivial
theorem tame_curAddr (v : View) (c : Cur) : Tame cfg mem (curAddr v c) Whatever := by
  unfold curAddr; split <;> trivial
theorem tame_checkOOR (v : View) (c : Cur) : Tame cfg mem (checkOOR v c) Whatever := by
  unfold checkOOR; split <;> trivial

theorem tame_parseLength (base n : Nat) (c : Cur) : Tame cfg mem (parseLength cfg ⟨mem, base, n⟩ c) Whatever := by
  unfold parseLength
  exact .bind (tame_checkEmpty _ _) fun _ _ => .bind (tame_curAddr _ _) fun a _ => .bind (tame_varintDecode _ _) fun _ _ =>
    .bind (tame_checkOOR _ _) fun _ _ => trivial

theorem tame_parseLengthAt (a : Nat) : Tame cfg mem (parseLengthAt cfg mem a) Whatever := by
  unfold parseLengthAt
  split
  · trivial
  · refine .bind (tame_varintDecode _ _) fun p _ => ?_
    simp only
    split <;> trivial

theorem tame_parseDataType (base n : Nat) (c : Cur) : Tame cfg mem (parseDataType ⟨mem, base, n⟩ c) Whatever := by
  unfold parseDataType
  exact .bind (tame_checkEmpty _ _) fun _ _ => .bind (tame_curAddr _ _) fun a _ => .bind (tame_readByte _) fun _ _ =>
    .bind (tame_checkOOR _ _) fun _ _ => trivial

theorem tame_parseObjectType (base n : Nat) (c : Cur) :
    Tame cfg mem (parseObjectType ⟨mem, base, n⟩ c) (fun p => p.1 ≠ .invalid) := by
  unfold parseObjectType
  refine .bind (tame_checkEmpty _ _) fun _ _ => .bind (tame_curAddr _ _) fun a _ => .bind (tame_readByte _) fun b _ =>
    .bind (tame_checkOOR _ _) fun _ _ => ?_
  simp only
  split
  · trivial
  · next h => exact h

theorem tame_parseObjectTypeSplit (base n : Nat) (c : Cur) :
    Tame cfg mem (parseObjectTypeSplit ⟨mem, base, n⟩ c) (fun p => p.1 ≠ .invalid) := by
  unfold parseObjectTypeSplit
  refine .bind (tame_checkEmpty _ _) fun _ _ => .bind (tame_curAddr _ _) fun a _ => .bind (tame_readByte _) fun b _ =>
    .bind (tame_checkOOR _ _) fun _ _ => ?_
  simp only
  split
  · trivial
  · next h => exact h

theorem tame_parseNum (k p len : Nat) : Tame cfg mem (parseNum cfg k mem p len) Whatever := by
  unfold parseNum
  split
  · next h => simp at h; exact .err h.1
  · next h =>
    split
    · next h2 =>
      refine .err (.inr (.inl ⟨rfl, ?_⟩))
      simp only [Bool.and_eq_true, bne_iff_ne, ne_eq, not_and, Decidable.not_not] at h
      cases hA : cfg.asserts with
      | false => rfl
      | true => have := h hA; omega
    · exact .bind (tame_readRange _ _) fun _ _ => trivial

theorem tame_parseDataOwn (dt : UInt8) (p len : Nat) : Tame cfg mem (parseDataOwn cfg dt mem p len) Whatever := by
  unfold parseDataOwn
  split
  · exact .bind (tame_readRange _ _) fun _ _ => trivial
  split
  · split
    · trivial
    · exact .bind (tame_readRange _ _) fun _ _ => trivial
  repeat' (split; exact .bind (tame_parseNum _ _ _) fun _ _ => trivial)
  trivial

theorem tame_parseDataView (dt : UInt8) (p len : Nat) : Tame cfg mem (parseDataView cfg dt mem p len) Whatever := by
  unfold parseDataView
  split
  · trivial
  repeat' (split; exact .bind (tame_parseNum _ _ _) fun _ _ => trivial)
  trivial

theorem tame_lookup (m : StringMap) (id : Nat) : Tame cfg mem (m.lookup cfg id) Whatever := by
  unfold StringMap.lookup StringMap.getStr
  simp only
  split <;> trivial

theorem tame_checkDataType (dt : UInt8) : Tame cfg mem (checkDataType dt) Whatever := by
  unfold checkDataType
  split <;> trivial

theorem tame_parseDataObj (base n : Nat) (sm : Option StringMap) (c : Cur) :
    Tame cfg mem (parseDataObj cfg ⟨mem, base, n⟩ sm c) Whatever := by
  unfold parseDataObj
  refine .bind (tame_parseDataType _ _ _) fun p _ => .bind (tame_checkDataType _) fun _ _ => ?_
  split
  · exact .bind (tame_parseLength _ _ _) fun _ _ => .bind (tame_lookup _ _) fun _ _ => trivial
  · exact .bind (tame_parseLength _ _ _) fun _ _ => .bind (tame_curAddr _ _) fun _ _ => .bind (tame_parseDataOwn _ _ _) fun _ _ =>
      .bind (tame_checkOOR _ _) fun _ _ => trivial

theorem tame_parseViewObj (base n : Nat) (sm : Option StringMap) (c : Cur) :
    Tame cfg mem (parseViewObj cfg ⟨mem, base, n⟩ sm c) Whatever := by
  unfold parseViewObj
  refine .bind (tame_parseDataType _ _ _) fun p _ => .bind (tame_checkDataType _) fun _ _ => ?_
  split
  · exact .bind (tame_parseLength _ _ _) fun _ _ => .bind (tame_lookup _ _) fun _ _ => trivial
  · exact .bind (tame_parseLength _ _ _) fun _ _ => .bind (tame_curAddr _ _) fun _ _ => .bind (tame_parseDataView _ _ _) fun _ _ =>
      .bind (tame_checkOOR _ _) fun _ _ => trivial

theorem tame_parseKey (base n : Nat) (sm : Option StringMap) (c : Cur) :
    Tame cfg mem (parseKey cfg ⟨mem, base, n⟩ sm c) Whatever := by
  unfold parseKey
  split
  · exact .bind (tame_parseLength _ _ _) fun _ _ => .bind (tame_curAddr _ _) fun _ _ =>
      .bind (tame_checkOOR _ _) fun _ _ => trivial
  · exact .bind (tame_parseLength _ _ _) fun _ _ => .bind (tame_lookup _ _) fun _ _ => trivial

theorem tame_ownKey (base n : Nat) (ref : Bool) (k : Str) : Tame cfg mem (ownKey cfg ⟨mem, base, n⟩ ref k) Whatever := by
  unfold ownKey
  split
  · trivial
  · split
    · trivial
    · split
      · trivial
      · exact .bind (tame_readRange _ _) fun _ _ => trivial

theorem tame_parseKeyBlock (base n : Nat) (sm : Option StringMap) (ref : Bool) (c : Cur) :
    Tame cfg mem (parseKeyBlock cfg ⟨mem, base, n⟩ sm ref c) Whatever := by
  unfold parseKeyBlock
  split
  · exact .bind (tame_parseLength _ _ _) fun _ _ => .bind (tame_curAddr _ _) fun _ _ =>
      .bind (tame_ownKey _ _ _ _) fun _ _ => trivial
  · exact .bind (tame_parseLength _ _ _) fun _ _ => .bind (tame_lookup _ _) fun _ _ =>
      .bind (tame_ownKey _ _ _ _) fun _ _ => trivial

/-- The recursive parser. -/
theorem tame_parse (base n : Nat) (sm : Option StringMap) (ref : Bool) (pool : PoolRef) : ∀ f,
    (∀ t c, t ≠ .invalid → Tame cfg mem (parseVal cfg ⟨mem, base, n⟩ sm ref pool f t c) Whatever) ∧
    (∀ k c, Tame cfg mem (parseItems cfg ⟨mem, base, n⟩ sm ref pool f k c) Whatever) ∧
    (∀ k c acc, Tame cfg mem (parseKVs cfg ⟨mem, base, n⟩ sm ref pool f k c acc) Whatever) := by
  intro f
  induction f with
  | zero =>
    refine ⟨?_, ?_, ?_⟩
    · intro t c _; unfold parseVal; trivial
    · intro k c; unfold parseItems; trivial
    · intro k c acc; unfold parseKVs; trivial
  | succ f ih =>
    obtain ⟨ih1, ih2, ih3⟩ := ih
    refine ⟨?_, ?_, ?_⟩
    · intro t c ht
      cases t with
      | invalid => exact absurd rfl ht
      | data =>
        unfold parseVal
        split
        · exact tame_parseViewObj _ _ _ _
        · exact tame_parseDataObj _ _ _ _
      | array =>
        unfold parseVal
        exact .bind (tame_parseLength _ _ _) fun _ _ => .bind (tame_parseLength _ _ _) fun _ _ => .bind (ih2 _ _) fun _ _ => trivial
      | map =>
        unfold parseVal
        exact .bind (tame_parseLength _ _ _) fun _ _ => .bind (tame_parseLength _ _ _) fun _ _ => .bind (ih3 _ _ _) fun _ _ => trivial
    · intro k c
      cases k with
      | zero => unfold parseItems; trivial
      | succ k =>
        unfold parseItems
        exact .bind (tame_parseObjectType _ _ _) fun p hp => .bind (ih1 _ _ hp) fun _ _ => .bind (ih2 _ _) fun _ _ => trivial
    · intro k c acc
      cases k with
      | zero => unfold parseKVs; trivial
      | succ k =>
        unfold parseKVs
        exact .bind (tame_parseKey _ _ _ _) fun _ _ => .bind (tame_parseObjectType _ _ _) fun p hp =>
          .bind (ih1 _ _ hp) fun _ _ => .bind (tame_ownKey _ _ _ _) fun _ _ => ih3 _ _ _

theorem tame_mapM {α : Type} : ∀ (rs : List (Res α)), (∀ r ∈ rs, Tame cfg mem r Whatever) → Tame cfg mem (rs.mapM id) Whatever := by
  intro rs
  induction rs with
  | nil => intro _; trivial
  | cons r rs ih =>
    intro h
    rw [List.mapM_cons]
    exact .bind (h r (by simp)) fun _ _ => .bind (ih fun x hx => h x (by simp [hx])) fun _ _ => trivial

theorem mild_of_find {α : Type} {rs : List (Res α)} (h : ∀ r ∈ rs, Tame cfg mem r Whatever) {p : Err → Bool} {e : Err}
    (he : (rs.filterMap failure?).find? p = some e) : Mild cfg mem e := by
  have := List.mem_of_find?_eq_some he
  rw [List.mem_filterMap] at this
  obtain ⟨r, hr, hf⟩ := this
  have hc := h r hr
  cases r with
  | ok a => simp [failure?] at hf
  | error e' => simp [failure?] at hf; subst hf; exact hc

theorem tame_joinTasks {α : Type} (rs : List (Res α)) (h : ∀ r ∈ rs, Tame cfg mem r Whatever) :
    Tame cfg mem (joinTasks rs) Whatever := by
  unfold joinTasks
  simp only
  split
  · next e he => exact .err (mild_of_find h he)
  · split
    · next e he => exact .err (mild_of_find h he)
    · split
      · next e he => exact .err (mild_of_find h he)
      · exact tame_mapM rs h

theorem tame_coChild {split : Bool} {t : ObjectType} {a b c : Res (Obj × Cur)}
    (ha : Tame cfg mem a Whatever) (hb : Tame cfg mem b Whatever) (hc : Tame cfg mem c Whatever) :
    Tame cfg mem (coChild split t a b c) Whatever := by
  unfold coChild
  split
  · split
    · exact hb
    · exact hc
    · trivial
  · exact ha

theorem tame_getBlocks (si : SplitInfo) (id : Nat) : Tame cfg mem (si.getBlocks id) Whatever := by
  unfold SplitInfo.getBlocks
  split <;> trivial

/-- The coroutine parser. -/
theorem tame_co (base n : Nat) (sm : Option StringMap) (si : SplitInfo) (ref : Bool) : ∀ f,
    (∀ e c, Tame cfg mem (coArrayBlock cfg ⟨mem, base, n⟩ sm si ref f e c) Whatever) ∧
    (∀ os, Tame cfg mem (coArray cfg ⟨mem, base, n⟩ sm si ref f os) Whatever) ∧
    (∀ e c, Tame cfg mem (coMapBlock cfg ⟨mem, base, n⟩ sm si ref f e c) Whatever) ∧
    (∀ os, Tame cfg mem (coMap cfg ⟨mem, base, n⟩ sm si ref f os) Whatever) := by
  intro f
  induction f with
  | zero =>
    refine ⟨?_, ?_, ?_, ?_⟩
    · intro e c; unfold coArrayBlock; trivial
    · intro os; unfold coArray; trivial
    · intro e c; unfold coMapBlock; trivial
    · intro os; unfold coMap; trivial
  | succ f ih =>
    obtain ⟨ih1, ih2, ih3, ih4⟩ := ih
    refine ⟨?_, ?_, ?_, ?_⟩
    · intro e c
      unfold coArrayBlock
      split
      · refine .bind (tame_parseObjectTypeSplit _ _ _) fun p hp => ?_
        exact .bind (tame_coChild ((tame_parse base n sm ref .frame f).1 _ _ hp) (ih2 _) (ih4 _)) fun _ _ =>
          .bind (ih1 _ _) fun _ _ => trivial
      · trivial
    · intro os
      unfold coArray
      refine .bind (tame_parseLength _ _ _) fun _ _ => .bind (tame_parseLength _ _ _) fun _ _ => .bind (tame_getBlocks _ _) fun _ _ => ?_
      refine .bind (tame_joinTasks _ ?_) fun _ _ => trivial
      intro r hr
      rw [List.mem_reverse, List.mem_map] at hr
      obtain ⟨be, _, rfl⟩ := hr
      exact ih1 _ _
    · intro e c
      unfold coMapBlock
      split
      · refine .bind (tame_parseKeyBlock _ _ _ _ _) fun _ _ => .bind (tame_parseObjectTypeSplit _ _ _) fun p hp => ?_
        exact .bind (tame_coChild ((tame_parse base n sm ref .frame f).1 _ _ hp) (ih2 _) (ih4 _)) fun _ _ =>
          .bind (ih3 _ _) fun _ _ => trivial
      · trivial
    · intro os
      unfold coMap
      refine .bind (tame_parseLength _ _ _) fun _ _ => .bind (tame_parseLength _ _ _) fun _ _ => .bind (tame_getBlocks _ _) fun _ _ => ?_
      refine .bind (tame_joinTasks _ ?_) fun _ _ => trivial
      intro r hr
      rw [List.mem_map] at hr
      obtain ⟨be, _, rfl⟩ := hr
      exact ih3 _ _

/-! ### the tables -/

theorem tame_smConstructGo (base len : Nat) : ∀ (n : Nat) (c : Cur) (acc : List (Str × Nat)),
    Tame cfg mem (smConstructGo cfg ⟨mem, base, len⟩ n c acc) Whatever := by
  intro n
  induction n with
  | zero => intro c acc; trivial
  | succ n ih =>
    intro c acc
    simp only [smConstructGo]
    exact .bind (tame_parseLength _ _ _) fun p _ => .bind (tame_curAddr _ _) fun a _ => .bind (tame_parseLength _ _ _) fun q _ =>
      .bind (tame_readRange _ _) fun k _ => ih _ _

theorem tame_siParseBlocks (base len : Nat) : ∀ (n : Nat) (c : Cur), Tame cfg mem (siParseBlocks cfg ⟨mem, base, len⟩ n c) Whatever := by
  intro n
  induction n with
  | zero => intro c; trivial
  | succ n ih =>
    intro c
    simp only [siParseBlocks]
    exact .bind (tame_parseLength _ _ _) fun p _ => .bind (ih _) fun q hq => trivial

theorem tame_siConstructGo (base len : Nat) : ∀ (n : Nat) (c : Cur) (ret : SplitInfo),
    Tame cfg mem (siConstructGo cfg ⟨mem, base, len⟩ n c ret) Whatever := by
  intro n
  induction n with
  | zero => intro c ret; trivial
  | succ n ih =>
    intro c ret
    simp only [siConstructGo]
    refine .bind (tame_parseLength _ _ _) fun p _ => .bind (tame_parseLength _ _ _) fun q _ =>
      .bind (tame_siParseBlocks _ _ _ _) fun bs _ => ?_
    split
    · trivial
    · exact ih _ _

theorem tame_siConstruct (base len : Nat) : Tame cfg mem (SplitInfo.construct cfg ⟨mem, base, len⟩) Whatever := by
  unfold SplitInfo.construct
  generalize Cur.mk 0 0 = c0
  have h := tame_parseLength (cfg := cfg) (mem := mem) base len c0
  cases hp : parseLength cfg ⟨mem, base, len⟩ c0 with
  | error e => rw [hp] at h; exact h
  | ok p =>
    obtain ⟨n, c⟩ := p
    rw [ok_bind]
    simp only
    generalize toU32 n = k
    exact tame_siConstructGo base len k c {}

theorem tame_smConstruct (base len : Nat) : Tame cfg mem (StringMap.construct cfg ⟨mem, base, len⟩) Whatever := by
  unfold StringMap.construct
  generalize Cur.mk 0 0 = c0
  have h := tame_parseLength (cfg := cfg) (mem := mem) base len c0
  cases hp : parseLength cfg ⟨mem, base, len⟩ c0 with
  | error e => rw [hp] at h; exact h
  | ok p =>
    obtain ⟨n, c⟩ := p
    rw [ok_bind]
    simp only
    generalize toU32 n = k
    exact .bind (tame_smConstructGo base len k c []) fun _ _ => trivial

theorem tame_secondary {α : Type} {construct : View → Res α} (h : ∀ base len, Tame cfg mem (construct ⟨mem, base, len⟩) Whatever) (t : Nat) :
    Tame cfg mem (parseSecondary cfg construct mem t) Whatever := by
  unfold parseSecondary
  exact .bind (tame_parseLengthAt _) fun p _ => .bind (h _ _) fun s hs => trivial

end

attribute [irreducible] Tame

section
variable {cfg : Cfg} {mem : Bytes}

theorem tame_totalSize : Tame cfg mem (parseTotalSize cfg mem) Whatever := by
  unfold parseTotalSize
  split
  · exact .err trivial
  · exact .ok trivial

theorem tame_init : Tame cfg mem (initFromContent cfg mem) Whatever := by
  unfold initFromContent
  split
  · exact .err trivial
  refine .bind tame_totalSize fun total _ => ?_
  have jp : ∀ (x : Option StringMap × SplitInfo), Tame cfg mem (match x with
      | (sm, si) =>
        if mem.getD 9 0 = 0 then (pure { sm := sm, si := si, total := total, split := false } : Res Sched)
        else if mem.getD 9 0 = 10 then pure { sm := sm, si := si, total := total, split := true }
          else .error (.exn .invalidSplitFlag)) Whatever := by
    intro x
    obtain ⟨sm, si⟩ := x
    simp only
    split
    · exact .pure trivial
    split
    · exact .pure trivial
    · exact .err trivial
  simp only
  split
  · exact .bind (tame_secondary (fun b l => tame_siConstruct b l) _) fun x _ => .bind (P := Whatever) (.pure trivial) fun x _ => jp x
  split
  · exact .bind (tame_secondary (fun b l => tame_smConstruct b l) _) fun _ _ =>
      .bind (tame_secondary (fun b l => tame_siConstruct b l) _) fun _ _ => .bind (P := Whatever) (.pure trivial) fun x _ => jp x
  · exact .err trivial

theorem tame_normalParse (ref : Bool) (fuel : Nat) (s : Sched) : Tame cfg mem (normalParse cfg ref fuel mem s) Whatever := by
  unfold normalParse
  refine .bind ((tame_parse 0 mem.length s.sm ref .caller fuel).1 .map _ (by decide)) fun x _ => ?_
  simp only
  split
  · exact .err trivial
  · exact .pure trivial

theorem tame_top (po : ParseOption) (fuel : Nat) : Tame cfg mem (parse cfg po fuel mem) Whatever := by
  unfold parse
  refine .bind tame_init fun s _ => ?_
  split
  · unfold coroutineParse
    split
    · exact .bind tame_init fun s _ => tame_normalParse _ _ _
    split
    · exact .err trivial
    · exact .bind ((tame_co 0 mem.length s.sm s.si po.parseRef fuel).2.2.2 _) fun _ _ => .pure trivial
  · exact tame_normalParse _ _ _

end

end Bridge
