import Verif.Proof.Sound
import Verif.Props.Layout
import Verif.Props.Limits
/-
C26, C28: documents with defects.
-/
set_option autoImplicit false
namespace Bridge
open Spec

/-- An outcome that no step bound changes is the outcome of the call. -/
theorem parses_const {cfg : Cfg} {po : ParseOption} {content : Bytes} {r : Res Obj} (hr : r ≠ .error .fuel)
    (h : ∀ f, parse cfg po f content = r) : Parses cfg po content r := ⟨hr, 0, fun f _ => h f⟩

theorem init_error {cfg : Cfg} {po : ParseOption} {content : Bytes} {e : Err} (he : e ≠ .fuel)
    (h : initFromContent cfg content = .error e) : Parses cfg po content (.error e) := by
  refine parses_const (by simpa using he) fun f => ?_
  unfold parse
  rw [h]
  rfl

/-- The number in the first eight bytes. -/
theorem totalSize_inv {cfg : Cfg} {content : Bytes} {t : Nat} (h : parseTotalSize cfg content = .ok t) :
    8 ≤ content.length ∧ content.take 8 = bigEndian 8 t ∧ t < 2 ^ 64 := by
  unfold parseTotalSize at h
  split at h
  · cases h
  rename_i hl
  simp only [Except.ok.injEq] at h
  have hl8 : (content.take 8).length = 8 := by rw [List.length_take]; omega
  have hrev : (content.take 8).reverse.length = 8 := by rw [List.length_reverse, hl8]
  have himg : bigEndian 8 (ofLeBytes (content.take 8).reverse) = content.take 8 := by
    rw [bigEndian_eq]
    have := leBytes_ofLeBytes (content.take 8).reverse
    rw [hrev] at this
    rw [this, List.reverse_reverse]
  have hlt : ofLeBytes (content.take 8).reverse < 256 ^ 8 := by
    have := ofLeBytes_lt (content.take 8).reverse
    rw [hrev] at this
    exact this
  have hv := flip_big 8 _ hlt cfg.little
  rw [himg, h] at hv
  refine ⟨by omega, ?_, ?_⟩
  · rw [hv, himg]
  · rw [hv]; exact hlt

theorem totalSize_of {cfg : Cfg} {content : Bytes} {t : Nat} (hl : 8 ≤ content.length) (ht : t < 2 ^ 64)
    (h : content.take 8 = bigEndian 8 t) : parseTotalSize cfg content = .ok t := by
  unfold parseTotalSize
  rw [if_neg (by omega), h]
  simp only
  rw [bigEndian_ofImage cfg ht]

/-- The two tables, given the end of the main section and the mode byte. -/
def readTables (cfg : Cfg) (content : Bytes) (t : Nat) (b : UInt8) : Res (Option StringMap × SplitInfo) :=
  if b = SeriType.normal.toChar then do
    let p ← parseSecondary cfg (SplitInfo.construct cfg) content t
    pure (none, p.1)
  else if b = SeriType.replace.toChar then do
    let p ← parseSecondary cfg (StringMap.construct cfg) content t
    let q ← parseSecondary cfg (SplitInfo.construct cfg) content p.2
    pure (some p.1, q.1)
  else .error (.exn .invalidSeriType)

/-- The check of the split flag. -/
def readFlag (b : UInt8) (t : Nat) (p : Option StringMap × SplitInfo) : Res Sched :=
  if b = 0x00 then pure ⟨p.1, p.2, t, false⟩
  else if b = 0x0A then pure ⟨p.1, p.2, t, true⟩
  else .error (.exn .invalidSplitFlag)

theorem init_steps {cfg : Cfg} {content : Bytes} (h : 10 ≤ content.length) : initFromContent cfg content =
    (parseTotalSize cfg content >>= fun t => readTables cfg content t (content.getD 8 0) >>= fun p =>
      readFlag (content.getD 9 0) t p) := by
  unfold initFromContent
  rw [if_neg (by unfold metaSize; omega)]
  cases parseTotalSize cfg content with
  | error e => rfl
  | ok t =>
    simp only [ok_bind]
    unfold readTables
    split
    · cases parseSecondary cfg (SplitInfo.construct cfg) content t with
      | error e => rfl
      | ok p => rfl
    split
    · cases parseSecondary cfg (StringMap.construct cfg) content t with
      | error e => rfl
      | ok p =>
        simp only [ok_bind]
        cases parseSecondary cfg (SplitInfo.construct cfg) content p.2 with
        | error e => rfl
        | ok q => rfl
    · rfl

/-! ### C28 -/

/-- C28. Fewer than ten bytes. -/
theorem C28_too_short (r : Cfg) (po : ParseOption) (content : Bytes) (h : content.length < 10) :
    Parses r po content (.error (.exn .metaSize)) := by
  apply init_error (by simp)
  unfold initFromContent
  rw [if_pos (by unfold metaSize; exact h)]

/-- C28. An unknown mode byte. -/
theorem C28_unknown_mode (r : Cfg) (po : ParseOption) (content : Bytes) (b : UInt8) (h : 10 ≤ content.length)
    (hb : content[8]? = some b) (h0 : b ≠ 0) (h1 : b ≠ 1) : Parses r po content (.error (.exn .invalidSeriType)) := by
  apply init_error (by simp)
  unfold initFromContent
  rw [if_neg (by unfold metaSize; omega)]
  cases ht : parseTotalSize r content with
  | error e =>
    unfold parseTotalSize at ht
    rw [if_neg (by omega)] at ht
    cases ht
  | ok t =>
    have hg : content.getD 8 0 = b := by simp [List.getD, hb]
    simp only [ok_bind, hg, SeriType.toChar]
    rw [if_neg h0, if_neg h1]
    rfl

/-- C28. A main section that is announced to reach to the end of the content or beyond. -/
theorem C28_total_beyond_content (r : Cfg) (po : ParseOption) (content : Bytes) (t : Nat) (b : UInt8) (h : 10 ≤ content.length)
    (hb : content[8]? = some b) (h01 : b = 0 ∨ b = 1) (ht : content.take 8 = bigEndian 8 t) (ht64 : t < 2 ^ 64)
    (hlen : content.length ≤ t) : Parses r po content (.error (.exn .lengthInnerEmpty)) := by
  apply init_error (by simp)
  unfold initFromContent
  rw [if_neg (by unfold metaSize; omega), totalSize_of (by omega) ht64 ht]
  have hg : content.getD 8 0 = b := by simp [List.getD, hb]
  have hsec : ∀ {α : Type} (c : View → Res α), parseSecondary r c content t = .error (.exn .lengthInnerEmpty) := by
    intro α c
    unfold parseSecondary parseLengthAt
    rw [if_pos hlen]
    rfl
  simp only [ok_bind, hg, SeriType.toChar, hsec, error_bind]
  rcases h01 with rfl | rfl <;> rfl

/-- C28. An unknown split flag is never accepted. -/
theorem C28_unknown_flag (r : Cfg) (po : ParseOption) (content : Bytes) (b : UInt8)
    (hb : content[9]? = some b) (h0 : b ≠ 0) (hA : b ≠ 0x0A) (o : Obj) : ¬ Parses r po content (.ok o) := by
  rintro ⟨-, n, hn⟩
  have h := hn n (Nat.le_refl _)
  unfold parse at h
  obtain ⟨s, hs, -⟩ := bind_ok h
  have hg : content.getD 9 0 = b := by simp [List.getD, hb]
  have hi := lt_of_getElem? hb
  rw [init_steps (by omega)] at hs
  obtain ⟨t, -, hs⟩ := bind_ok hs
  obtain ⟨p, -, hs⟩ := bind_ok hs
  rw [hg] at hs
  unfold readFlag at hs
  rw [if_neg h0, if_neg hA] at hs
  cases hs

/-- C28. An unknown kind byte in front of a value, wherever it stands: both readers of that byte throw. -/
theorem C28_unknown_kind (content : Bytes) (hc : content.length < 2 ^ 63) (i : Nat) (b : UInt8) (hb : content[i]? = some b)
    (hk : b &&& 0x7F ≠ 0 ∧ b &&& 0x7F ≠ 1 ∧ b &&& 0x7F ≠ 2) :
    parseObjectType (View.whole content) ⟨i, i⟩ = .error (.exn .parseObjectType) ∧
    parseObjectTypeSplit (View.whole content) ⟨i, i⟩ = .error (.exn .parseObjectType) := by
  have hi := lt_of_getElem? hb
  have hinv : charToObjectType (b &&& 0x7F) = .invalid := by
    unfold charToObjectType
    rw [if_neg (show ¬ (b &&& 0x7F = ObjectType.data.toChar) from ?_), if_neg (show ¬ (b &&& 0x7F = ObjectType.map.toChar) from ?_),
      if_neg (show ¬ (b &&& 0x7F = ObjectType.array.toChar) from ?_)]
    · exact fun e => by rcases hk with ⟨h0, h1, h2⟩; revert e; simp only [ObjectType.toChar]; assumption
    · exact fun e => by rcases hk with ⟨h0, h1, h2⟩; revert e; simp only [ObjectType.toChar]; assumption
    · exact fun e => by rcases hk with ⟨h0, h1, h2⟩; revert e; simp only [ObjectType.toChar]; assumption
  constructor
  · unfold parseObjectType
    rw [wholeEmpty hc hi, wholeAddr hi]
    simp only [ok_bind, whole_mem]
    rw [readByte_eq hb]
    simp only [ok_bind]
    rw [skip_eq (by omega), wholeOOR (by omega)]
    simp only [ok_bind]
    rw [if_pos hinv]
  · unfold parseObjectTypeSplit
    rw [wholeEmpty hc hi, wholeAddr hi]
    simp only [ok_bind, whole_mem]
    rw [readByte_eq hb]
    simp only [ok_bind]
    rw [skip_eq (by omega), wholeOOR (by omega)]
    simp only [ok_bind]
    rw [if_pos hinv]

/-- C28. An unknown type code of a leaf, wherever it stands: both kinds of leaf throw. -/
theorem C28_unknown_data_type (r : Cfg) (content : Bytes) (hc : content.length < 2 ^ 63) (sm : Option StringMap) (i : Nat)
    (b : UInt8) (hb : content[i]? = some b) (hk : 8 ≤ b.toNat ∧ b ≠ 12) :
    parseDataObj r (View.whole content) sm ⟨i, i⟩ = .error (.exn .dataTypeCheck) ∧
    parseViewObj r (View.whole content) sm ⟨i, i⟩ = .error (.exn .dataTypeCheck) := by
  have hi := lt_of_getElem? hb
  have hchk : checkDataType b = .error (.exn .dataTypeCheck) := by
    unfold checkDataType
    rw [if_pos]
    have hne : ∀ x : UInt8, x.toNat < 8 → b ≠ x := by intro x hx he; subst he; omega
    exact ⟨hne _ (by decide), hne _ (by decide), hne _ (by decide), hne _ (by decide), hne _ (by decide), hne _ (by decide),
      hne _ (by decide), hne _ (by decide), hk.2⟩
  constructor
  · unfold parseDataObj
    rw [readType hc hb]
    simp only [ok_bind]
    rw [hchk]
    rfl
  · unfold parseViewObj
    rw [readType hc hb]
    simp only [ok_bind]
    rw [hchk]
    rfl

/-! ### what is accepted -/

theorem lookup_from {cfg : Cfg} {m : StringMap} (hre : m.remap = none) {id : Nat} {s : Str} (h : m.lookup cfg id = .ok s) :
    (s, id) ∈ m.map := by
  unfold StringMap.lookup StringMap.getStr at h
  rw [hre] at h
  simp only at h
  split at h
  · cases h
  rename_i s' hg
  simp only [Except.ok.injEq] at h
  subst h
  have hm := assocGet_some_mem hg
  have key : ∀ (l : List (Str × Nat)) (acc : List (Nat × Str)) (e : Nat × Str),
      e ∈ l.foldl (fun r e => assocSet r e.2 e.1) acc → e ∈ acc ∨ (e.2, e.1) ∈ l := by
    intro l
    induction l with
    | nil => intro acc e he; exact .inl he
    | cons x l ih =>
      intro acc e he
      rcases ih _ _ he with h1 | h1
      · rcases assocSet_mem h1 with h2 | h2
        · exact .inl h2
        · exact .inr (by rw [h2]; simp)
      · exact .inr (List.mem_cons_of_mem _ h1)
  rcases key _ _ _ hm with h1 | h1
  · simp at h1
  · exact (cfg.smPerm m.map).mem_iff.mp h1

theorem smConstruct_inside {cfg : Cfg} {v : View} : ∀ (n : Nat) (c : Cur) (acc l : List (Str × Nat)),
    smConstructGo cfg v n c acc = .ok l → (∀ e ∈ acc, e.1.Inside (v.mem ++ [0])) → ∀ e ∈ l, e.1.Inside (v.mem ++ [0]) := by
  intro n
  induction n with
  | zero =>
    intro c acc l h hacc
    simp only [smConstructGo, Except.ok.injEq] at h
    subst h
    exact hacc
  | succ n ih =>
    intro c acc l h hacc
    simp only [smConstructGo] at h
    obtain ⟨⟨kl, c1⟩, e1, h⟩ := bind_ok h
    obtain ⟨a, e2, h⟩ := bind_ok h
    obtain ⟨⟨id, c2⟩, e3, h⟩ := bind_ok h
    obtain ⟨key, e4, h⟩ := bind_ok h
    obtain ⟨g1, g2, g3⟩ := readRange_inv e4
    refine ih _ _ _ h ?_
    intro e he
    split at he
    · exact hacc e he
    · rw [List.mem_append] at he
      rcases he with he | he
      · exact hacc e he
      · simp only [List.mem_singleton] at he
        subst he
        simp only at g3
        refine ⟨a, by simp [g3], by simp [g3]; omega, ?_⟩
        simp only
        exact g2.slice

theorem construct_inside {cfg : Cfg} {v : View} {m : StringMap} (h : StringMap.construct cfg v = .ok m) :
    m.remap = none ∧ ∀ id s, m.lookup cfg id = .ok s → s.Inside (v.mem ++ [0]) := by
  unfold StringMap.construct at h
  obtain ⟨⟨n, c⟩, e1, h⟩ := bind_ok h
  obtain ⟨l, e2, h⟩ := bind_ok h
  simp only [pure_eq_ok, Except.ok.injEq] at h
  subst h
  refine ⟨rfl, fun id s hs => ?_⟩
  have := lookup_from rfl hs
  exact smConstruct_inside _ _ _ _ e2 (by simp) _ this

/-- What a successful start of a parse says about the content. -/
theorem init_inv {cfg : Cfg} {content : Bytes} {s : Sched} (h : initFromContent cfg content = .ok s) :
    10 ≤ content.length ∧ content.take 8 = bigEndian 8 s.total ∧ s.total < 2 ^ 64 ∧
    ((content[8]? = some 0 ∧ s.sm = none) ∨ (content[8]? = some 1 ∧ ∃ m, s.sm = some m ∧ m.remap = none ∧
      ∀ id x, m.lookup cfg id = .ok x → x.Inside (content ++ [0]))) ∧
    ((content[9]? = some 0 ∧ s.split = false) ∨ (content[9]? = some 0x0A ∧ s.split = true)) := by
  have hl10 : 10 ≤ content.length := by
    unfold initFromContent at h
    split at h
    · cases h
    rename_i hl
    unfold metaSize at hl; omega
  rw [init_steps hl10] at h
  obtain ⟨t, ht, h⟩ := bind_ok h
  obtain ⟨⟨sm, si⟩, e1, h⟩ := bind_ok h
  unfold readFlag at h
  unfold readTables at e1
  obtain ⟨-, h1, h2⟩ := totalSize_inv ht
  obtain ⟨b8, hb8⟩ : ∃ b, content[8]? = some b := ⟨content[8]'(by omega), List.getElem?_eq_getElem (by omega)⟩
  obtain ⟨b9, hb9⟩ : ∃ b, content[9]? = some b := ⟨content[9]'(by omega), List.getElem?_eq_getElem (by omega)⟩
  have hg8 : content.getD 8 0 = b8 := by simp [List.getD, hb8]
  have hg9 : content.getD 9 0 = b9 := by simp [List.getD, hb9]
  rw [hg8] at e1
  rw [hg9] at h
  have hsm : (b8 = 0 ∧ sm = none) ∨ (b8 = 1 ∧ ∃ m, sm = some m ∧ m.remap = none ∧
      ∀ id x, m.lookup cfg id = .ok x → x.Inside (content ++ [0])) := by
    split at e1
    · rename_i hb
      obtain ⟨p, -, e1⟩ := bind_ok e1
      simp only [pure_eq_ok, Except.ok.injEq, Prod.mk.injEq] at e1
      exact .inl ⟨hb, e1.1.symm⟩
    split at e1
    · rename_i hb
      obtain ⟨⟨m, t'⟩, e2, e1⟩ := bind_ok e1
      obtain ⟨p, -, e1⟩ := bind_ok e1
      simp only [pure_eq_ok, Except.ok.injEq, Prod.mk.injEq] at e1
      unfold parseSecondary at e2
      obtain ⟨⟨sz, sk⟩, e3, e2⟩ := bind_ok e2
      obtain ⟨m', e4, e2⟩ := bind_ok e2
      simp only [pure_eq_ok, Except.ok.injEq, Prod.mk.injEq] at e2
      have hm := construct_inside e4
      refine .inr ⟨hb, m, e1.1.symm, ?_⟩
      rw [← e2.1]
      exact hm
    · cases e1
  have hfl : s = ⟨sm, si, t, s.split⟩ ∧ ((b9 = 0 ∧ s.split = false) ∨ (b9 = 0x0A ∧ s.split = true)) := by
    split at h
    · rename_i hb
      simp only [pure_eq_ok, Except.ok.injEq] at h
      subst h
      exact ⟨rfl, .inl ⟨hb, rfl⟩⟩
    split at h
    · rename_i hb
      simp only [pure_eq_ok, Except.ok.injEq] at h
      subst h
      exact ⟨rfl, .inr ⟨hb, rfl⟩⟩
    · cases h
  obtain ⟨hs, hf⟩ := hfl
  have hsm' : s.sm = sm := by rw [hs]
  have hst : s.total = t := by rw [hs]
  rw [hsm', hst]
  refine ⟨hl10, h1, h2, ?_, ?_⟩
  · rcases hsm with ⟨rfl, h⟩ | ⟨rfl, h⟩
    · exact .inl ⟨hb8, h⟩
    · exact .inr ⟨hb8, h⟩
  · rcases hf with ⟨rfl, hsp⟩ | ⟨rfl, hsp⟩
    · exact .inl ⟨hb9, hsp⟩
    · exact .inr ⟨hb9, hsp⟩

theorem takeKey_doc {k : Bytes} : ∀ {items : List (Str × Obj)} {ds : List (Bytes × Doc)}, entries? items = some ds →
    (takeKey k items).2.doc? = firstEntry k ds := by
  intro items
  induction items with
  | nil => intro ds h; simp only [entries?, Option.some.injEq] at h; subst h; rfl
  | cons e items ih =>
    intro ds h
    obtain ⟨k', o⟩ := e
    obtain ⟨d, ds', rfl, h1, h2⟩ := entries?_cons h
    simp only [takeKey, firstEntry]
    split
    · simpa using h1
    · exact ih h2

theorem firstEntry_map (k : Bytes) (es : List (Bytes × Doc)) :
    firstEntry k (es.map (fun e => (e.1, e.2.revMaps))) = (firstEntry k es).map Doc.revMaps := by
  induction es with
  | nil => rfl
  | cons e es ih =>
    obtain ⟨k', d⟩ := e
    simp only [List.map_cons, firstEntry]
    split <;> simp [ih]

theorem takeKey_built {mem : Bytes} {ref : Bool} {pool : PoolRef} {k : Bytes} : ∀ {items : List (Str × Obj)},
    builtE mem ref pool items → (takeKey k items).2 = .null ∨ (takeKey k items).2.Built mem ref pool := by
  intro items
  induction items with
  | nil => intro _; exact .inl rfl
  | cons e items ih =>
    intro h
    obtain ⟨k', o⟩ := e
    simp only [takeKey]
    split
    · exact .inr h.2.1
    · exact ih h.2.2

theorem accepted_core (r : Cfg) (content : Bytes) (hlen : content.length < 2 ^ 63) (po : ParseOption)
    (hrec : po.coroutine = false ∨ content[9]? = some 0) (href : po.parseRef = true → ShortNumbers content) (o : Obj)
    (h : Parses r po content (.ok o)) :
    ∃ (s : Sched) (mode flag : UInt8) (main rest : Bytes) (es : List (Bytes × Doc)) (root : Obj),
      initFromContent r content = .ok s ∧
      content = bigEndian 8 (10 + main.length) ++ ([mode, flag] ++ (main ++ rest)) ∧ s.total = 10 + main.length ∧
      (mode = 0 ∧ s.sm = none ∨ mode = 1 ∧ ∃ f, dictFn r s.sm = some f ∧ ∀ id b, f id = some b → b <:+: content ++ [0]) ∧
      (flag = 0 ∨ flag = 0x0A) ∧ Reads r.asserts false (dictFn r s.sm) (.map es) main ∧
      o.doc? = (firstEntry rootKey es.reverse).map Doc.revMaps ∧
      (o = .null ∨ o.Built (content ++ [0]) po.parseRef .caller) ∧
      root.doc? = some (Doc.map es).revMaps ∧ root.Built (content ++ [0]) po.parseRef .caller ∧ o = takeRoot root ∧
      ∃ n c, parseVal r (View.whole content) s.sm po.parseRef .caller n .map ⟨metaSize, metaSize⟩ = .ok (root, c) ∧ c.off = s.total := by
  obtain ⟨-, n, hn⟩ := h
  have h := hn n (Nat.le_refl _)
  unfold parse at h
  obtain ⟨s, hs, h⟩ := bind_ok h
  obtain ⟨hl10, ht8, ht64, hmode, hflag⟩ := init_inv hs
  have hnorm : normalParse r po.parseRef n content s = .ok o := by
    rcases hrec with hco | h9
    · rw [hco] at h
      simpa using h
    · split at h
      · unfold coroutineParse at h
        have hsp : s.split = false := by
          rcases hflag with ⟨-, h2⟩ | ⟨h1, -⟩
          · exact h2
          · rw [h9] at h1; simp at h1
        rw [if_pos hsp, hs] at h
        exact h
      · exact h
  unfold normalParse at hnorm
  obtain ⟨⟨root, c⟩, e1, hnorm⟩ := bind_ok hnorm
  simp only at hnorm
  split at hnorm
  · cases hnorm
  rename_i hoff
  simp only [pure_eq_ok, Except.ok.injEq] at hnorm
  have hctx : SCtx r content s.sm po.parseRef := by
    refine ⟨hlen, ?_, href⟩
    intro m hm id x hx
    rcases hmode with ⟨-, h2⟩ | ⟨-, m', h2, -, h3⟩
    · rw [h2] at hm; cases hm
    · rw [h2] at hm; cases hm; exact h3 id x hx
  obtain ⟨d, main, g1, g2, rfl, g4, g5, g6, g7⟩ := (parse_sound (pool := .caller) hctx n).1 _ _ _ _ (by unfold metaSize; omega) e1
  have hoff' := hoff
  simp only [metaSize] at hoff g1 g2
  have htot : s.total = 10 + main.length := by omega
  cases d with
  | scalar x => simp [docType] at g4
  | array xs => simp [docType] at g4
  | map es =>
    obtain ⟨b8, hb8⟩ : ∃ b, content[8]? = some b := ⟨content[8]'(by omega), List.getElem?_eq_getElem (by omega)⟩
    obtain ⟨b9, hb9⟩ : ∃ b, content[9]? = some b := ⟨content[9]'(by omega), List.getElem?_eq_getElem (by omega)⟩
    refine ⟨s, b8, b9, main, content.drop (10 + main.length), es, root, hs, ?_, htot, ?_, ?_, reads_last _ _ _ _ (by simp) g6, ?_, ?_, g5, g7, hnorm.symm, n, _, e1, Classical.not_not.mp hoff'⟩
    · obtain ⟨post, hp⟩ := g1
      have hpost : post = content.drop (10 + main.length) := by
        rw [← List.drop_drop, ← hp, List.drop_left]
      rw [← hpost, hp, ← htot, ← ht8]
      have h2 : content.drop 8 = b8 :: b9 :: content.drop 10 := by
        rw [List.drop_eq_getElem_cons (by omega), List.drop_eq_getElem_cons (by omega)]
        have e8 := List.getElem?_eq_getElem (l := content) (i := 8) (by omega)
        have e9 := List.getElem?_eq_getElem (l := content) (i := 9) (by omega)
        rw [hb8] at e8
        rw [hb9] at e9
        simp only [Option.some.injEq] at e8 e9
        rw [← e8, ← e9]
      simp only [List.cons_append, List.nil_append]
      rw [← h2, List.take_append_drop]
    · rcases hmode with ⟨h1, h2⟩ | ⟨h1, m, h2, -, h3⟩
      · rw [hb8] at h1
        exact .inl ⟨by simpa using h1, h2⟩
      · rw [hb8] at h1
        refine .inr ⟨by simpa using h1, _, by rw [h2]; rfl, ?_⟩
        intro id b hb
        simp only at hb
        split at hb
        · rename_i x hx
          simp only [Option.some.injEq] at hb
          subst hb
          obtain ⟨a, -, -, k3⟩ := h3 id x hx
          rw [← k3]
          unfold slice
          exact (List.take_prefix _ _).isInfix.trans (List.drop_suffix _ _).isInfix
        · cases hb
    · rcases hflag with ⟨h1, -⟩ | ⟨h1, -⟩
      · rw [hb9] at h1; exact .inl (by simpa using h1)
      · rw [hb9] at h1; exact .inr (by simpa using h1)
    · rw [← hnorm]
      cases root with
      | map rf pl sz items =>
        simp only [Obj.doc?] at g5
        split at g5
        · simp only [Option.map_eq_some_iff] at g5
          obtain ⟨ds, k1, k2⟩ := g5
          simp only [Doc.revMaps, Doc.map.injEq] at k2
          simp only [takeRoot]
          rw [takeKey_doc k1, k2, revMapsE_acc, List.append_nil, ← List.map_reverse, firstEntry_map]
        · cases g5
      | null => simp [Obj.doc?] at g5
      | data => simp [Obj.doc?, Doc.revMaps] at g5
      | array => simp only [Obj.doc?] at g5; split at g5 <;> simp [Doc.revMaps] at g5
    · rw [← hnorm]
      cases root with
      | map rf pl sz items => exact takeKey_built g7.2.2
      | null => exact .inl rfl
      | data => exact .inl rfl
      | array => exact .inl rfl

/-- C28, C29. Whatever the bytes are: if the recursive parser returns, they are a header, a main section that can be read as
a map and ends exactly where the header says, and anything behind it; the value returned is what the main section holds under
the last key "root" (null if there is none), and its views, if any, lie in the content or its terminator.  For an in-situ parse
this needs that no number field takes ten bytes. -/
theorem C28_accepted_is_document (r : Cfg) (content : Bytes) (hlen : content.length < 2 ^ 63) (po : ParseOption)
    (hrec : po.coroutine = false ∨ content[9]? = some 0) (href : po.parseRef = true → ShortNumbers content) (o : Obj)
    (h : Parses r po content (.ok o)) :
    ∃ mode flag main rest dict es,
      content = bigEndian 8 (10 + main.length) ++ ([mode, flag] ++ (main ++ rest)) ∧
      (mode = 0 ∧ dict = none ∨ mode = 1 ∧ ∃ f, dict = some f ∧ ∀ id b, f id = some b → b <:+: content ++ [0]) ∧
      (flag = 0 ∨ flag = 0x0A) ∧ Reads r.asserts false dict (.map es) main ∧
      o.doc? = (firstEntry rootKey es.reverse).map Doc.revMaps ∧
      (o = .null ∨ o.Built (content ++ [0]) po.parseRef .caller) := by
  obtain ⟨s, mode, flag, main, rest, es, root, -, h1, -, h2, h3, h4, h5, h6, -, -, -⟩ := accepted_core r content hlen po hrec href o h
  refine ⟨mode, flag, main, rest, _, es, h1, ?_, h3, h4, h5, h6⟩
  rcases h2 with ⟨h2, h2'⟩ | ⟨h2, f, h2', h2''⟩
  · exact .inl ⟨h2, by rw [h2']; rfl⟩
  · exact .inr ⟨h2, f, h2', h2''⟩

end Bridge
