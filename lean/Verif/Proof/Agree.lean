import Verif.Proof.Fuel
/-
Removing run-time checks (assertions, bounds assertions of the standard library) does not change a call that returned or threw.
-/
set_option autoImplicit false
namespace Bridge

/-- The build parameters with some of the run-time checks removed: `x = false` defines `NDEBUG`, `y = false` turns the bounds
assertions of the standard library off. -/
def Cfg.fewerChecks (r : Cfg) (x y : Bool) : Cfg := { r with asserts := r.asserts && x, hardened := r.hardened && y }

/-- `b` does what `a` does, unless `a` fails with an error in `P`. -/
def Agree {α : Type} (P : Err → Prop) (a b : Res α) : Prop := (∃ e, a = .error e ∧ P e) ∨ b = a

theorem Agree.refl {α : Type} {P : Err → Prop} (a : Res α) : Agree P a a := .inr rfl

theorem Agree.bind {α β : Type} {P : Err → Prop} {a b : Res α} {f g : α → Res β} (h : Agree P a b)
    (hf : ∀ x, Agree P (f x) (g x)) : Agree P (a >>= f) (b >>= g) := by
  rcases h with ⟨e, rfl, he⟩ | h
  · exact .inl ⟨e, rfl, he⟩
  · subst h
    cases b with
    | error e => exact .inr rfl
    | ok x => exact hf x

/-- A check that can only be removed. -/
theorem Agree.check {α : Type} {P : Err → Prop} {p q : Bool} {a b : Res α} (hP : P .abort) (hpq : q = true → p = true)
    (h : Agree P a b) : Agree P (if p then .error .abort else a) (if q then .error .abort else b) := by
  cases p with
  | true => exact .inl ⟨_, rfl, hP⟩
  | false =>
    cases q with
    | true => exact absurd (hpq rfl) (by decide)
    | false => exact h

section
variable {P : Err → Prop} (hP : P .abort) (r : Cfg) (x y : Bool)
include hP

theorem varintDecodeGo_agree (mem : Bytes) (addr : Nat) (len : Int) (k i acc : Nat) :
    Agree P (varintDecodeGo r mem addr len k i acc) (varintDecodeGo (r.fewerChecks x y) mem addr len k i acc) := by
  induction k generalizing i acc with
  | zero => exact .refl _
  | succ k ih =>
    rw [varintDecodeGo, varintDecodeGo]
    refine .bind (.refl _) fun b => ?_
    dsimp only
    split
    · refine Agree.check hP ?_ (ih _ _)
      simp only [Cfg.fewerChecks, Bool.and_eq_true]
      exact fun h => ⟨h.1.1, h.2⟩
    · exact .refl _

theorem parseLength_agree (v : View) (c : Cur) : Agree P (parseLength r v c) (parseLength (r.fewerChecks x y) v c) := by
  unfold parseLength
  exact .bind (.refl _) fun _ => .bind (.refl _) fun _ => .bind (varintDecodeGo_agree hP r x y _ _ _ _ _ _) fun _ => .refl _

theorem parseLengthAt_agree (b : Bytes) (o : Nat) : Agree P (parseLengthAt r b o) (parseLengthAt (r.fewerChecks x y) b o) := by
  unfold parseLengthAt
  split
  · exact .refl _
  · exact .bind (varintDecodeGo_agree hP r x y _ _ _ _ _ _) fun _ => .refl _

theorem parseNum_agree (k : Nat) (mem : Bytes) (ptr len : Nat) :
    Agree P (parseNum r k mem ptr len) (parseNum (r.fewerChecks x y) k mem ptr len) := by
  unfold parseNum
  refine Agree.check hP ?_ (.refl _)
  simp only [Cfg.fewerChecks, Bool.and_eq_true]
  exact fun h => ⟨h.1.1, h.2⟩

theorem parseDataOwn_agree (dt : UInt8) (mem : Bytes) (ptr len : Nat) :
    Agree P (parseDataOwn r dt mem ptr len) (parseDataOwn (r.fewerChecks x y) dt mem ptr len) := by
  unfold parseDataOwn
  repeat' (first | exact .refl _ | exact .bind (parseNum_agree hP r x y _ _ _ _) fun _ => .refl _ | split)

theorem parseDataView_agree (dt : UInt8) (mem : Bytes) (ptr len : Nat) :
    Agree P (parseDataView r dt mem ptr len) (parseDataView (r.fewerChecks x y) dt mem ptr len) := by
  unfold parseDataView
  repeat' (first | exact .refl _ | exact .bind (parseNum_agree hP r x y _ _ _ _) fun _ => .refl _ | split)

theorem parseDataObj_agree (v : View) (sm : Option StringMap) (c : Cur) :
    Agree P (parseDataObj r v sm c) (parseDataObj (r.fewerChecks x y) v sm c) := by
  unfold parseDataObj
  refine .bind (.refl _) fun p => .bind (.refl _) fun _ => ?_
  dsimp only
  split
  · exact .bind (parseLength_agree hP r x y _ _) fun _ => .refl _
  · exact .bind (parseLength_agree hP r x y _ _) fun _ => .bind (.refl _) fun _ => .bind (parseDataOwn_agree hP r x y _ _ _ _) fun _ => .refl _

theorem parseViewObj_agree (v : View) (sm : Option StringMap) (c : Cur) :
    Agree P (parseViewObj r v sm c) (parseViewObj (r.fewerChecks x y) v sm c) := by
  unfold parseViewObj
  refine .bind (.refl _) fun p => .bind (.refl _) fun _ => ?_
  dsimp only
  split
  · exact .bind (parseLength_agree hP r x y _ _) fun _ => .refl _
  · exact .bind (parseLength_agree hP r x y _ _) fun _ => .bind (.refl _) fun _ => .bind (parseDataView_agree hP r x y _ _ _ _) fun _ => .refl _

theorem parseKey_agree (v : View) (sm : Option StringMap) (c : Cur) :
    Agree P (parseKey r v sm c) (parseKey (r.fewerChecks x y) v sm c) := by
  cases sm with
  | none => exact .bind (parseLength_agree hP r x y _ _) fun _ => .refl _
  | some m => exact .bind (parseLength_agree hP r x y _ _) fun _ => .refl _

theorem parseKeyBlock_agree (v : View) (sm : Option StringMap) (ref : Bool) (c : Cur) :
    Agree P (parseKeyBlock r v sm ref c) (parseKeyBlock (r.fewerChecks x y) v sm ref c) := by
  cases sm with
  | none => exact .bind (parseLength_agree hP r x y _ _) fun _ => .refl _
  | some m => exact .bind (parseLength_agree hP r x y _ _) fun _ => .refl _

theorem parseVal_agree (v : View) (sm : Option StringMap) (ref : Bool) (pool : PoolRef) : ∀ f : Nat,
    (∀ t c, Agree P (parseVal r v sm ref pool f t c) (parseVal (r.fewerChecks x y) v sm ref pool f t c)) ∧
    (∀ n c, Agree P (parseItems r v sm ref pool f n c) (parseItems (r.fewerChecks x y) v sm ref pool f n c)) ∧
    (∀ n c acc, Agree P (parseKVs r v sm ref pool f n c acc) (parseKVs (r.fewerChecks x y) v sm ref pool f n c acc)) := by
  intro f
  induction f with
  | zero =>
    refine ⟨?_, ?_, ?_⟩
    · intro t c; rw [parseVal, parseVal]; exact .refl _
    · intro n c; rw [parseItems, parseItems]; exact .refl _
    · intro n c acc; rw [parseKVs, parseKVs]; exact .refl _
  | succ f ih =>
    obtain ⟨ih1, ih2, ih3⟩ := ih
    refine ⟨?_, ?_, ?_⟩
    · intro t c
      cases t with
      | invalid => rw [parseVal, parseVal]; exact .refl _
      | data =>
        rw [parseVal, parseVal]
        split
        · exact parseViewObj_agree hP r x y _ _ _
        · exact parseDataObj_agree hP r x y _ _ _
      | array =>
        rw [parseVal, parseVal]
        exact .bind (parseLength_agree hP r x y _ _) fun _ => .bind (parseLength_agree hP r x y _ _) fun _ =>
          .bind (ih2 _ _) fun _ => .refl _
      | map =>
        rw [parseVal, parseVal]
        exact .bind (parseLength_agree hP r x y _ _) fun _ => .bind (parseLength_agree hP r x y _ _) fun _ =>
          .bind (ih3 _ _ _) fun _ => .refl _
    · intro n c
      cases n with
      | zero => rw [parseItems, parseItems]; exact .refl _
      | succ n =>
        rw [parseItems, parseItems]
        exact .bind (.refl _) fun _ => .bind (ih1 _ _) fun _ => .bind (ih2 _ _) fun _ => .refl _
    · intro n c acc
      cases n with
      | zero => rw [parseKVs, parseKVs]; exact .refl _
      | succ n =>
        rw [parseKVs, parseKVs]
        exact .bind (parseKey_agree hP r x y _ _ _) fun _ => .bind (.refl _) fun _ => .bind (ih1 _ _) fun _ =>
          .bind (.refl _) fun _ => ih3 _ _ _

omit hP in
theorem joinTasks_fatal {α : Type} {l : List (Res α)} {e : Err} (ha : .error e ∈ l) (he : fatalRank e ≠ 0) :
    ∃ e', joinTasks l = .error e' ∧ fatalRank e' ≠ 0 := by
  have hm : e ∈ l.filterMap failure? := List.mem_filterMap.mpr ⟨_, ha, rfl⟩
  unfold joinTasks
  dsimp only
  split
  · rename_i e' h'; exact ⟨e', rfl, by have := List.find?_some h'; simp at this; omega⟩
  · rename_i h3
    split
    · rename_i e' h'; exact ⟨e', rfl, by have := List.find?_some h'; simp at this; omega⟩
    · rename_i h2
      split
      · rename_i e' h'; exact ⟨e', rfl, by have := List.find?_some h'; simp at this; omega⟩
      · rename_i h1
        have a1 := List.find?_eq_none.mp h1 e hm
        have a2 := List.find?_eq_none.mp h2 e hm
        have a3 := List.find?_eq_none.mp h3 e hm
        cases e <;> simp [fatalRank] at a1 a2 a3 he

/-- Neither a normal return nor an exception. -/
def Severe (e : Err) : Prop := fatalRank e ≠ 0

omit hP in
theorem joinTasks_agree {α β : Type} {f g : β → Res α} (h : ∀ b, Agree Severe (f b) (g b)) (l : List β) :
    Agree Severe (joinTasks (l.map f)) (joinTasks (l.map g)) := by
  by_cases hf : ∃ b ∈ l, ∃ e, f b = .error e ∧ Severe e
  · obtain ⟨b, hb, e, hfb, he⟩ := hf
    exact .inl (joinTasks_fatal (List.mem_map.mpr ⟨b, hb, hfb⟩) he)
  · have : l.map g = l.map f := by
      apply List.map_congr_left
      intro b hb
      exact (h b).resolve_left fun hh => hf ⟨b, hb, hh⟩
    rw [this]; exact .refl _

omit hP in
theorem coChild_agree {s : Bool} {t : ObjectType} {a b c a' b' c' : Res (Obj × Cur)} (ha : Agree P a a') (hb : Agree P b b')
    (hc : Agree P c c') : Agree P (coChild s t a b c) (coChild s t a' b' c') := by
  unfold coChild
  cases s with
  | false => exact ha
  | true => cases t <;> first | exact hb | exact hc | exact .refl _

omit hP in
theorem severe_abort : Severe .abort := by unfold Severe; decide

omit hP in
theorem co_agree (v : View) (sm : Option StringMap) (si : SplitInfo) (ref : Bool) : ∀ f : Nat,
    (∀ e c, Agree Severe (coArrayBlock r v sm si ref f e c) (coArrayBlock (r.fewerChecks x y) v sm si ref f e c)) ∧
    (∀ os, Agree Severe (coArray r v sm si ref f os) (coArray (r.fewerChecks x y) v sm si ref f os)) ∧
    (∀ e c, Agree Severe (coMapBlock r v sm si ref f e c) (coMapBlock (r.fewerChecks x y) v sm si ref f e c)) ∧
    (∀ os, Agree Severe (coMap r v sm si ref f os) (coMap (r.fewerChecks x y) v sm si ref f os)) := by
  intro f
  induction f with
  | zero =>
    refine ⟨?_, ?_, ?_, ?_⟩
    · intro e c; rw [coArrayBlock, coArrayBlock]; exact .refl _
    · intro e; rw [coArray, coArray]; exact .refl _
    · intro e c; rw [coMapBlock, coMapBlock]; exact .refl _
    · intro e; rw [coMap, coMap]; exact .refl _
  | succ f ih =>
    obtain ⟨ih1, ih2, ih3, ih4⟩ := ih
    have ihv := (parseVal_agree (P := Severe) severe_abort r x y v sm ref .frame f).1
    refine ⟨?_, ?_, ?_, ?_⟩
    · intro e c
      rw [coArrayBlock, coArrayBlock]
      split
      · exact .bind (.refl _) fun _ => .bind (coChild_agree (ihv _ _) (ih2 _) (ih4 _)) fun _ => .bind (ih1 _ _) fun _ => .refl _
      · exact .refl _
    · intro os
      rw [coArray, coArray]
      refine .bind (parseLength_agree (P := Severe) severe_abort r x y _ _) fun _ => .bind (parseLength_agree (P := Severe) severe_abort r x y _ _) fun _ => .bind (.refl _) fun _ =>
        .bind ?_ fun _ => .refl _
      rw [← List.map_reverse, ← List.map_reverse]
      exact joinTasks_agree (fun be : Nat × Nat => ih1 be.2 ⟨addW 0 be.1, be.1⟩) _
    · intro e c
      rw [coMapBlock, coMapBlock]
      split
      · exact .bind (parseKeyBlock_agree (P := Severe) severe_abort r x y _ _ _ _) fun _ => .bind (.refl _) fun _ =>
          .bind (coChild_agree (ihv _ _) (ih2 _) (ih4 _)) fun _ => .bind (ih3 _ _) fun _ => .refl _
      · exact .refl _
    · intro os
      rw [coMap, coMap]
      refine .bind (parseLength_agree (P := Severe) severe_abort r x y _ _) fun _ => .bind (parseLength_agree (P := Severe) severe_abort r x y _ _) fun _ => .bind (.refl _) fun _ =>
        .bind ?_ fun _ => .refl _
      exact joinTasks_agree (fun be : Nat × Nat => ih3 be.2 ⟨addW 0 be.1, be.1⟩) _

theorem smConstructGo_agree (v : View) (n : Nat) (c : Cur) (acc : List (Str × Nat)) :
    Agree P (smConstructGo r v n c acc) (smConstructGo (r.fewerChecks x y) v n c acc) := by
  induction n generalizing c acc with
  | zero => exact .refl _
  | succ n ih =>
    rw [smConstructGo, smConstructGo]
    exact .bind (parseLength_agree hP r x y _ _) fun _ => .bind (.refl _) fun _ => .bind (parseLength_agree hP r x y _ _) fun _ =>
      .bind (.refl _) fun _ => ih _ _

theorem smConstruct_agree (v : View) : Agree P (StringMap.construct r v) (StringMap.construct (r.fewerChecks x y) v) := by
  unfold StringMap.construct
  exact .bind (parseLength_agree hP r x y _ _) fun _ => .bind (smConstructGo_agree hP r x y _ _ _ _) fun _ => .refl _

theorem siParseBlocks_agree (v : View) (n : Nat) (c : Cur) :
    Agree P (siParseBlocks r v n c) (siParseBlocks (r.fewerChecks x y) v n c) := by
  induction n generalizing c with
  | zero => exact .refl _
  | succ n ih =>
    rw [siParseBlocks, siParseBlocks]
    exact .bind (parseLength_agree hP r x y _ _) fun _ => .bind (ih _) fun _ => .refl _

theorem siConstructGo_agree (v : View) (n : Nat) (c : Cur) (si : SplitInfo) :
    Agree P (siConstructGo r v n c si) (siConstructGo (r.fewerChecks x y) v n c si) := by
  induction n generalizing c si with
  | zero => exact .refl _
  | succ n ih =>
    rw [siConstructGo, siConstructGo]
    refine .bind (parseLength_agree hP r x y _ _) fun _ => .bind (parseLength_agree hP r x y _ _) fun _ =>
      .bind (siParseBlocks_agree hP r x y _ _ _) fun _ => ?_
    dsimp only
    split
    · exact .refl _
    · exact ih _ _

theorem siConstruct_agree (v : View) : Agree P (SplitInfo.construct r v) (SplitInfo.construct (r.fewerChecks x y) v) := by
  unfold SplitInfo.construct
  exact .bind (parseLength_agree hP r x y _ _) fun _ => siConstructGo_agree hP r x y _ _ _ _

theorem parseSecondary_agree {α : Type} {f g : View → Res α} (h : ∀ v, Agree P (f v) (g v)) (content : Bytes) (total : Nat) :
    Agree P (parseSecondary r f content total) (parseSecondary (r.fewerChecks x y) g content total) := by
  unfold parseSecondary
  exact .bind (parseLengthAt_agree hP r x y _ _) fun _ => .bind (h _) fun _ => .refl _

theorem init_agree (content : Bytes) : Agree P (initFromContent r content) (initFromContent (r.fewerChecks x y) content) := by
  unfold initFromContent
  split
  · exact .refl _
  · refine .bind (.refl _) fun total => ?_
    dsimp only
    split
    · exact .bind (parseSecondary_agree hP r x y (siConstruct_agree hP r x y) _ _) fun _ => .refl _
    · split
      · exact .bind (parseSecondary_agree hP r x y (smConstruct_agree hP r x y) _ _) fun _ =>
          .bind (parseSecondary_agree hP r x y (siConstruct_agree hP r x y) _ _) fun _ => .refl _
      · exact .refl _

theorem normal_agree (ref : Bool) (f : Nat) (content : Bytes) (s : Sched) :
    Agree P (normalParse r ref f content s) (normalParse (r.fewerChecks x y) ref f content s) := by
  unfold normalParse
  exact .bind ((parseVal_agree hP r x y _ _ _ _ f).1 _ _) fun _ => .refl _

/-- The recursive scheduler. -/
theorem parse_agree_normal (po : ParseOption) (hco : po.coroutine = false) (f : Nat) (content : Bytes) :
    Agree P (parse r po f content) (parse (r.fewerChecks x y) po f content) := by
  unfold parse
  rw [hco]
  exact .bind (init_agree hP r x y content) fun s => normal_agree hP r x y _ _ _ _

omit hP in
/-- Either scheduler. -/
theorem parse_agree (po : ParseOption) (f : Nat) (content : Bytes) :
    Agree Severe (parse r po f content) (parse (r.fewerChecks x y) po f content) := by
  unfold parse
  refine .bind (init_agree severe_abort r x y content) fun s => ?_
  split
  · unfold coroutineParse
    split
    · exact .bind (init_agree severe_abort r x y content) fun _ => normal_agree severe_abort r x y _ _ _ _
    · split
      · exact .refl _
      · exact .bind ((co_agree r x y _ _ _ _ f).2.2.2 _) fun _ => .refl _
  · exact normal_agree severe_abort r x y _ _ _ _
end

/-! ### serialization -/

section
variable {P : Err → Prop} (r : Cfg) (x y : Bool) (hP : y = false → P .abort)

/-- The assertion of `varint_encode` cannot fail if the buffer is large enough. -/
theorem varintEncodeGo_agree (room n : Nat) (h0 : 0 < room) (hn : n < 2 ^ (7 * room)) :
    varintEncodeGo (r.fewerChecks x y) room n = varintEncodeGo r room n := by
  induction room generalizing n with
  | zero => omega
  | succ room ih =>
    rw [varintEncodeGo, varintEncodeGo]
    show (if n &&& msball r ≠ 0 then _ else _) = _
    split
    · rename_i hb
      have hr : 0 < room := by
        cases room with
        | succ m => omega
        | zero =>
          exfalso; apply hb
          have h128 : n < 128 := by simpa using hn
          have k1 : ∀ m : Nat, m < 128 → m &&& 0x80 = 0 := by decide
          have k2 : ∀ m : Nat, m < 128 → m &&& 0xFFFFFFFFFFFFFF80 = 0 := by decide
          unfold msball
          split
          · exact k2 n h128
          · exact k1 n h128
      have hn' : n >>> 7 < 2 ^ (7 * room) := by
        rw [Nat.shiftRight_eq_div_pow, Nat.div_lt_iff_lt_mul (by decide), ← Nat.pow_add]
        exact Nat.lt_of_lt_of_le hn (Nat.pow_le_pow_right (by decide) (by omega))
      dsimp only
      rw [ih _ hr hn']
      simp [hr]
    · rfl

theorem seriLength_agree (n : Nat) (o : Bytes) : Agree P (seriLength r n o) (seriLength (r.fewerChecks x y) n o) := by
  right
  unfold seriLength varintEncode
  rw [varintEncodeGo_agree r x y 128 _ (by decide)]
  unfold toU32
  exact Nat.lt_trans (Nat.mod_lt _ (by decide)) (Nat.pow_lt_pow_right (by decide) (by decide))

theorem seriNum_agree (k n : Nat) (o : Bytes) : Agree P (seriNum r k n o) (seriNum (r.fewerChecks x y) k n o) := by
  unfold seriNum
  exact .bind (seriLength_agree r x y _ _) fun _ => .refl _

include hP in
theorem appendRange_agree (b o : Bytes) : Agree P (appendRange r b o) (appendRange (r.fewerChecks x y) b o) := by
  unfold appendRange
  cases y with
  | true => simp only [Cfg.fewerChecks, Bool.and_true]; exact .refl _
  | false =>
    refine Agree.check (hP rfl) ?_ (.refl _)
    simp only [Cfg.fewerChecks, Bool.and_eq_true]
    exact fun h => ⟨h.1.1, h.2⟩

include hP in
theorem seriDataOwn_agree (dt : UInt8) (p : Payload) (o : Bytes) :
    Agree P (seriDataOwn r dt p o) (seriDataOwn (r.fewerChecks x y) dt p o) := by
  unfold seriDataOwn
  repeat'
    (first
      | exact .refl _
      | exact seriNum_agree r x y _ _ _
      | exact .bind (seriLength_agree r x y _ _) fun _ => appendRange_agree r x y hP _ _
      | exact .bind (seriLength_agree r x y _ _) fun _ => .refl _
      | split)

include hP in
theorem seriDataView_agree (dt : UInt8) (p : Payload) (o : Bytes) :
    Agree P (seriDataView r dt p o) (seriDataView (r.fewerChecks x y) dt p o) := by
  unfold seriDataView
  repeat'
    (first
      | exact .refl _
      | exact seriNum_agree r x y _ _ _
      | exact .bind (seriLength_agree r x y _ _) fun _ => appendRange_agree r x y hP _ _
      | exact .bind (seriLength_agree r x y _ _) fun _ => .refl _
      | split)

include hP in
theorem dataSeri_agree (ref : Bool) (dt : UInt8) (p : Payload) (st : SState) :
    Agree P (dataSeri r ref dt p st) (dataSeri (r.fewerChecks x y) ref dt p st) := by
  unfold dataSeri
  refine .bind (.refl _) fun _ => ?_
  dsimp only
  split
  · split
    · exact .bind (seriLength_agree r x y _ _) fun _ => .refl _
    · exact .bind (seriLength_agree r x y _ _) fun _ => .refl _
    · exact .refl _
  · split
    · exact .bind (seriDataView_agree r x y hP _ _ _) fun _ => .refl _
    · exact .bind (seriDataOwn_agree r x y hP _ _ _) fun _ => .refl _

theorem seriCount_agree (n : Nat) (st : SState) : Agree P (seriCount r n st) (seriCount (r.fewerChecks x y) n st) := by
  unfold seriCount
  exact .bind (seriLength_agree r x y _ _) fun _ => .refl _

theorem seriSplitId_agree (st : SState) : Agree P (seriSplitId r st) (seriSplitId (r.fewerChecks x y) st) := by
  unfold seriSplitId
  split
  · exact .bind (seriLength_agree r x y _ _) fun _ => .refl _
  · exact .bind (seriLength_agree r x y _ _) fun _ => .refl _

theorem seriKey_agree (k : Str) (st : SState) : Agree P (seriKey r k st) (seriKey (r.fewerChecks x y) k st) := by
  unfold seriKey
  split
  · exact .bind (seriLength_agree r x y _ _) fun _ => .refl _
  · exact .bind (seriLength_agree r x y _ _) fun _ => .refl _

theorem seriChild_agree {o : Obj} {f g : SState → Res (SState × Bool)} (h : ∀ st, Agree P (f st) (g st)) (st : SState) :
    Agree P (seriChild o f st) (seriChild o g st) := by
  unfold seriChild
  split
  · exact .refl _
  · exact .bind (h _) fun _ => .refl _

include hP in
mutual
theorem valueSeri_agree : ∀ (o : Obj) (st : SState), Agree P (valueSeri r o st) (valueSeri (r.fewerChecks x y) o st)
  | .null, st => by rw [valueSeri, valueSeri]; exact .refl _
  | .data ref dt p, st => by rw [valueSeri, valueSeri]; exact dataSeri_agree r x y hP _ _ _ _
  | .array _ size items, st => by
    rw [valueSeri, valueSeri]
    exact .bind (seriCount_agree r x y _ _) fun _ => .bind (seriSplitId_agree r x y _) fun _ =>
      .bind (seriItems_agree items _ _ _) fun _ => .refl _
  | .map _ _ size items, st => by
    rw [valueSeri, valueSeri]
    exact .bind (seriCount_agree r x y _ _) fun _ => .bind (seriSplitId_agree r x y _) fun _ =>
      .bind (seriKVs_agree items _ _ _) fun _ => .refl _
theorem seriItems_agree : ∀ (l : List Obj) (st : SState) (cur : Nat) (b : List Nat),
    Agree P (seriItems r l st cur b) (seriItems (r.fewerChecks x y) l st cur b)
  | [], st, cur, b => by rw [seriItems, seriItems]; exact .refl _
  | o :: os, st, cur, b => by
    rw [seriItems, seriItems]
    exact .bind (seriChild_agree (valueSeri_agree o) _) fun _ => seriItems_agree os _ _ _
theorem seriKVs_agree : ∀ (l : List (Str × Obj)) (st : SState) (cur : Nat) (b : List Nat),
    Agree P (seriKVs r l st cur b) (seriKVs (r.fewerChecks x y) l st cur b)
  | [], st, cur, b => by rw [seriKVs, seriKVs]; exact .refl _
  | (k, o) :: os, st, cur, b => by
    rw [seriKVs, seriKVs]
    exact .bind (seriKey_agree r x y _ _) fun _ => .bind (seriChild_agree (valueSeri_agree o) _) fun _ => seriKVs_agree os _ _ _
end

theorem smSerializeGo_agree (l : List (Str × Nat)) (o : Bytes) :
    Agree P (smSerializeGo r l o) (smSerializeGo (r.fewerChecks x y) l o) := by
  induction l generalizing o with
  | nil => exact .refl _
  | cons e l ih =>
    obtain ⟨s, id⟩ := e
    rw [smSerializeGo, smSerializeGo]
    exact .bind (seriLength_agree r x y _ _) fun _ => .bind (seriLength_agree r x y _ _) fun _ => ih _

theorem siBlocksGo_agree (l : List Nat) (o : Bytes) : Agree P (siBlocksGo r l o) (siBlocksGo (r.fewerChecks x y) l o) := by
  induction l generalizing o with
  | nil => exact .refl _
  | cons e l ih =>
    rw [siBlocksGo, siBlocksGo]
    exact .bind (seriLength_agree r x y _ _) fun _ => ih _

theorem siSerializeGo_agree (l : List (Nat × List Nat)) (o : Bytes) :
    Agree P (siSerializeGo r l o) (siSerializeGo (r.fewerChecks x y) l o) := by
  induction l generalizing o with
  | nil => exact .refl _
  | cons e l ih =>
    obtain ⟨s, id⟩ := e
    rw [siSerializeGo, siSerializeGo]
    exact .bind (seriLength_agree r x y _ _) fun _ => .bind (seriLength_agree r x y _ _) fun _ =>
      .bind (siBlocksGo_agree r x y _ _) fun _ => ih _

theorem suffix_agree (c s : Bytes) : Agree P (suffixSecondary r c s) (suffixSecondary (r.fewerChecks x y) c s) := by
  unfold suffixSecondary
  exact .bind (seriLength_agree r x y _ _) fun _ => .refl _

theorem smSerialize_agree (m : StringMap) : Agree P (m.serialize r) (m.serialize (r.fewerChecks x y)) := by
  unfold StringMap.serialize
  exact .bind (seriLength_agree r x y _ _) fun _ => smSerializeGo_agree r x y _ _

theorem siSerialize_agree (m : SplitInfo) : Agree P (m.serialize r) (m.serialize (r.fewerChecks x y)) := by
  unfold SplitInfo.serialize
  exact .bind (seriLength_agree r x y _ _) fun _ => siSerializeGo_agree r x y _ _

include hP in
theorem serialize_agree (t : SeriType) (o : Obj) : Agree P (serialize r t o) (serialize (r.fewerChecks x y) t o) := by
  unfold serialize
  refine .bind (valueSeri_agree r x y hP _ _) fun p => ?_
  dsimp only
  refine .bind (.refl _) fun c => ?_
  split
  · exact .bind (.refl _) fun _ => .bind (siSerialize_agree r x y _) fun _ => suffix_agree r x y _ _
  · exact .bind (smSerialize_agree r x y _) fun _ => .bind (suffix_agree r x y _ _) fun _ =>
      .bind (siSerialize_agree r x y _) fun _ => suffix_agree r x y _ _
end

end Bridge
