import Verif.Proof.Stack
import Verif.Props.Language
import Verif.Proof.Dump
/-
C62: how much stack `Serialize`, `Parse` and `dump` need, and what happens if there is less.
-/
set_option autoImplicit false
namespace Bridge
open Spec

/-- The call `Parse(content, option)` with the recursive scheduler, on a stack with space for `room` nested calls, ends with
outcome `res`. -/
def ParsesOnStack (cfg : Cfg) (parseRef : Bool) (room : Nat) (content : Bytes) (res : Res Obj) : Prop :=
  res ≠ .error .fuel ∧ ∃ n, ∀ fuel, n ≤ fuel → parseOnStack cfg parseRef room fuel content = res

/-! ### more steps change nothing -/

theorem parseS_le (cfg : Cfg) (v : View) (sm : Option StringMap) (ref : Bool) (pool : PoolRef) : ∀ f : Nat,
    (∀ room t c, ResLe (parseValS cfg v sm ref pool f room t c) (parseValS cfg v sm ref pool (f + 1) room t c)) ∧
    (∀ room n c, ResLe (parseItemsS cfg v sm ref pool f room n c) (parseItemsS cfg v sm ref pool (f + 1) room n c)) ∧
    (∀ room n c acc, ResLe (parseKVsS cfg v sm ref pool f room n c acc) (parseKVsS cfg v sm ref pool (f + 1) room n c acc)) := by
  intro f
  induction f with
  | zero =>
    refine ⟨?_, ?_, ?_⟩
    · intro room t c; exact .inl (by rw [parseValS])
    · intro room n c; exact .inl (by rw [parseItemsS])
    · intro room n c acc; exact .inl (by rw [parseKVsS])
  | succ f ih =>
    obtain ⟨ih1, ih2, ih3⟩ := ih
    refine ⟨?_, ?_, ?_⟩
    · intro room t c
      cases room with
      | zero => rw [parseValS, parseValS]; exact .refl _
      | succ room =>
        cases t with
        | invalid => rw [parseValS, parseValS]; exact .refl _
        | data => rw [parseValS, parseValS]; exact .refl _
        | array =>
          rw [parseValS, parseValS]
          refine .bind (.refl _) fun _ => .bind (.refl _) fun _ => .bind (ih2 _ _ _) fun _ => .refl _
        | map =>
          rw [parseValS, parseValS]
          refine .bind (.refl _) fun _ => .bind (.refl _) fun _ => .bind (ih3 _ _ _ _) fun _ => .refl _
    · intro room n c
      cases n with
      | zero => rw [parseItemsS, parseItemsS]; exact .refl _
      | succ n =>
        rw [parseItemsS, parseItemsS]
        refine .bind (.refl _) fun _ => .bind (ih1 _ _ _) fun _ => .bind (ih2 _ _ _) fun _ => .refl _
    · intro room n c acc
      cases n with
      | zero => rw [parseKVsS, parseKVsS]; exact .refl _
      | succ n =>
        rw [parseKVsS, parseKVsS]
        refine .bind (.refl _) fun _ => .bind (.refl _) fun _ => .bind (ih1 _ _ _) fun _ => .bind (.refl _) fun _ => ih3 _ _ _ _

theorem parseOnStack_le (cfg : Cfg) (ref : Bool) (room f : Nat) (content : Bytes) :
    ResLe (parseOnStack cfg ref room f content) (parseOnStack cfg ref room (f + 1) content) := by
  unfold parseOnStack
  exact .bind (.refl _) fun s => .bind ((parseS_le cfg _ _ _ _ f).1 _ _ _) fun _ => .refl _

theorem parseOnStack_mono {cfg : Cfg} {ref : Bool} {room f : Nat} {content : Bytes} {res : Res Obj}
    (h : parseOnStack cfg ref room f content = res) (hr : res ≠ .error .fuel) {g : Nat} (hg : f ≤ g) :
    parseOnStack cfg ref room g content = res := by
  induction hg with
  | refl => exact h
  | step _ ih =>
    rcases parseOnStack_le cfg ref room _ content with h' | h'
    · rw [ih] at h'; exact absurd h' hr
    · rw [← h', ih]

theorem ParsesOnStack.of {cfg : Cfg} {ref : Bool} {room f : Nat} {content : Bytes} {res : Res Obj}
    (h : parseOnStack cfg ref room f content = res) (hr : res ≠ .error .fuel) : ParsesOnStack cfg ref room content res :=
  ⟨hr, f, fun _ hg => parseOnStack_mono h hr hg⟩

/-- The outcome of such a call is unique. -/
theorem ParsesOnStack.unique {cfg : Cfg} {ref : Bool} {room : Nat} {content : Bytes} {a b : Res Obj}
    (ha : ParsesOnStack cfg ref room content a) (hb : ParsesOnStack cfg ref room content b) : a = b := by
  obtain ⟨-, n, ha⟩ := ha
  obtain ⟨-, m, hb⟩ := hb
  rw [← ha (max n m) (Nat.le_max_left _ _), ← hb (max n m) (Nat.le_max_right _ _)]

/-! ### the outcome on a limited stack -/

theorem stack_of_root {cfg : Cfg} {ref : Bool} {content : Bytes} {s : Sched} {root : Obj} {n : Nat} {c : Cur}
    (hs : initFromContent cfg content = .ok s)
    (h : parseVal cfg (View.whole content) s.sm ref .caller n .map ⟨metaSize, metaSize⟩ = .ok (root, c)) (hc : c.off = s.total) (room : Nat) :
    ParsesOnStack cfg ref room content (if root.depth ≤ room then .ok (takeRoot root) else ovf) := by
  have hl := ((parse_lim cfg (View.whole content) s.sm ref .caller n).1 room .map ⟨metaSize, metaSize⟩).1 _ h
  refine .of (f := n) ?_ (by split <;> simp)
  unfold parseOnStack
  rw [hs]
  simp only [ok_bind]
  rw [hl]
  simp only
  by_cases hr : root.depth ≤ room
  · rw [if_pos hr, if_pos hr]
    simp only [ok_bind]
    rw [if_neg (by rw [hc]; simp)]
    rfl
  · rw [if_neg hr, if_neg hr]
    rfl

mutual
theorem depth_revMaps : ∀ d : Doc, d.revMaps.depth = d.depth
  | .scalar s => rfl
  | .array xs => by simp only [Doc.revMaps, Doc.depth]; rw [depthL_revMaps xs]
  | .map es => by simp only [Doc.revMaps, Doc.depth]; rw [depthE_revMaps es []]; simp [depthE]
theorem depthL_revMaps : ∀ xs : List Doc, depthL (revMapsL xs) = depthL xs
  | [] => rfl
  | x :: xs => by simp only [revMapsL, depthL]; rw [depth_revMaps x, depthL_revMaps xs]
theorem depthE_revMaps : ∀ es acc : List (Bytes × Doc), depthE (revMapsE es acc) = max (depthE es) (depthE acc)
  | [], acc => by simp [revMapsE, depthE]
  | (k, x) :: es, acc => by
    simp only [revMapsE, depthE]
    rw [depthE_revMaps es, depthE, depth_revMaps x]
    omega
end

/-- C62. Whatever the content, a `Parse` call on a limited stack ends as it does with unlimited stack, or overflows. -/
theorem C62_parse_same_or_overflow (r : Cfg) (ref : Bool) (content : Bytes) (res : Res Obj) (w : Nat)
    (h : Parses r ⟨false, ref, w⟩ content res) (room : Nat) :
    ParsesOnStack r ref room content res ∨ ParsesOnStack r ref room content (.error (.ub .stackOverflow)) := by
  obtain ⟨hne, n, hn⟩ := h
  have h := hn n (Nat.le_refl _)
  have key : parseOnStack r ref room n content = res ∨ parseOnStack r ref room n content = ovf := by
    unfold parse at h
    unfold parseOnStack
    cases hs : initFromContent r content with
    | error e => rw [hs] at h; left; rw [← h]; rfl
    | ok s =>
      rw [hs] at h
      simp only [ok_bind, Bool.false_eq_true, if_false] at h ⊢
      unfold normalParse at h
      simp only at h
      have hl := (parse_lim r (View.whole content) s.sm ref .caller n).1 room .map ⟨metaSize, metaSize⟩
      rw [← h]
      generalize parseVal r (View.whole content) s.sm ref .caller n .map ⟨metaSize, metaSize⟩ = y at hl
      generalize parseValS r (View.whole content) s.sm ref .caller n room .map ⟨metaSize, metaSize⟩ = x at hl
      cases y with
      | error e =>
        rcases hl.2 e rfl with rfl | rfl
        · exact .inl rfl
        · exact .inr rfl
      | ok p =>
        have := hl.1 p rfl
        subst this
        by_cases hr : p.1.depth ≤ room
        · rw [if_pos hr]; exact .inl rfl
        · rw [if_neg hr]; exact .inr rfl
  rcases key with h1 | h1
  · exact .inl (.of h1 hne)
  · exact .inr (.of h1 (by simp))

/-- C62. A content that is accepted with unlimited stack is accepted with the same result on a stack with space for as many
nested calls as the document in it is deep, and overflows a smaller one. -/
theorem C62_parse_accepted (r : Cfg) (content : Bytes) (hlen : content.length < 2 ^ 63) (ref : Bool) (w : Nat)
    (href : ref = true → ShortNumbers content) (o : Obj) (h : Parses r ⟨false, ref, w⟩ content (.ok o)) :
    ∃ pairs dict es, Readable r.asserts (2 ^ 63) content pairs dict es ∧
      o.doc? = (firstEntry rootKey es.reverse).map Doc.revMaps ∧
      ∀ room, ParsesOnStack r ref room content (if (Doc.map es).depth ≤ room then .ok o else .error (.ub .stackOverflow)) := by
  obtain ⟨pairs, dict, es, h1, -, h3, s, root, h4, h5, h6, n, c, h7, h8⟩ := accepted_root r content hlen _ (.inl rfl) href o h
  refine ⟨pairs, dict, es, h1, h3, fun room => ?_⟩
  have := stack_of_root h4 h7 h8 room
  rw [depth_doc root _ h5, depth_revMaps, ← h6] at this
  exact this

/-- C62. Parsing what `Serialize` writes for a document needs space for one nested call more than the document is deep (the
written document is under a root map), not less. -/
theorem C62_parse_written (w r : Cfg) (hw : w.charSigned = true) (t : SeriType) (o : Obj) (d : Doc) (hd : o.doc? = some d)
    (hh : Writable w o) (ref : Bool) (hc : ref = true → d.noCustom = true) :
    ∃ content, serialize w t o = .ok content ∧ (Fits r content → ∃ o', o'.doc? = some d.revMaps ∧
      ∀ room, ParsesOnStack r ref room content (if d.depth + 1 ≤ room then .ok o' else .error (.ub .stackOverflow))) := by
  refine ⟨_, serialize_eq hw t hd hh, fun hf => ?_⟩
  obtain ⟨s, root, c, h1, h2, h3, h4, h5⟩ := parse_root (extra := []) (d := d) (t := t) (wc := w) (Fits.contentOk (by simpa using hf)) ref hc (Nat.le_refl _)
  rw [List.append_nil] at h1 h2 h5
  refine ⟨takeRoot root, (takeRoot_doc (by rw [← rootDoc_revMaps]; exact h4) h5).1, fun room => ?_⟩
  have := stack_of_root h1 h2 h3 room
  rw [depth_doc root _ h4, depth_revMaps] at this
  have hrd : (rootDoc d).depth = d.depth + 1 := by simp [rootDoc, Doc.depth, depthE]
  rw [hrd] at this
  exact this

/-- C62. `Serialize` needs space for one nested call more than the document is deep, and overflows a smaller stack. -/
theorem C62_serialize (w : Cfg) (hw : w.charSigned = true) (t : SeriType) (o : Obj) (d : Doc) (hd : o.doc? = some d)
    (hh : Writable w o) (room : Nat) :
    (d.depth + 1 ≤ room → serializeOnStack w t room o = serialize w t o) ∧
    (room < d.depth + 1 → serializeOnStack w t room o = .error (.ub .stackOverflow)) := by
  have hs := serialize_eq hw t hd hh
  have hl := valueSeri_lim w (rootOf o) room ⟨List.replicate 8 0 ++ [t.toChar] ++ [0], initDict t, some {}⟩
  have hdep : (rootOf o).depth = d.depth + 1 := by
    rw [depth_doc (rootOf o) _ (rootOf_doc hd)]
    simp [rootDoc, Doc.depth, depthE]
  obtain ⟨p, hp⟩ : ∃ p, valueSeri w (rootOf o) ⟨List.replicate 8 0 ++ [t.toChar] ++ [0], initDict t, some {}⟩ = .ok p := by
    unfold serialize at hs
    simp only at hs
    obtain ⟨p, hp, -⟩ := bind_ok hs
    exact ⟨p, hp⟩
  have hx := hl.1 p hp
  simp only [hdep] at hx
  unfold serializeOnStack serialize
  simp only
  constructor
  · intro hr
    rw [if_pos hr] at hx
    rw [hx, hp]
    simp only [ok_bind]
    generalize p.1.sm = q
    cases q <;> rfl
  · intro hr
    rw [if_neg (by omega)] at hx
    rw [hx]
    rfl

/-- C62. `dump` needs space for as many nested calls as the document is deep, and overflows a smaller stack. -/
theorem C62_dump (o : Obj) (d : Doc) (hd : o.doc? = some d) (buf : Bytes) (level room : Nat) :
    dumpS o room buf level = if d.depth ≤ room then o.dump buf level else .error (.ub .stackOverflow) := by
  have h := (dump_lim o room buf level).1 _ (dump_doc o buf level hd)
  rw [h, dump_doc o buf level hd, depth_doc o d hd]

/-! ### a short content that overflows any given stack -/

/-- `n` arrays with one child each, around an empty one, as they are read by the parser. -/
def nestBytes : Nat → Bytes
  | 0 => [0, 0]
  | n + 1 => [1, 0] ++ 2 :: nestBytes n

/-- The same as a document. -/
def nestDoc : Nat → Doc
  | 0 => .array []
  | n + 1 => .array [nestDoc n]

/-- A document whose value is `nestDoc n`. -/
def bomb (n : Nat) : Bytes :=
  bigEndian 8 (20 + 3 * n) ++ ([0, 0] ++ (([1, 0] ++ ([4] ++ rootKey) ++ 2 :: nestBytes n) ++ [1, 0]))

theorem nestBytes_length (n : Nat) : (nestBytes n).length = 3 * n + 2 := by
  induction n with
  | zero => rfl
  | succ n ih => simp only [nestBytes, List.length_append, List.length_cons, List.length_nil, ih]; omega

theorem nestDoc_depth (n : Nat) : (nestDoc n).depth = n + 1 := by
  induction n with
  | zero => rfl
  | succ n ih => simp [nestDoc, Doc.depth, depthL, ih]

theorem numField_byte {b : UInt8} (hb : b.toNat < 128) : NumField [b] b.toNat := by
  refine ⟨hb, by simp, ?_⟩
  simp only [lebValue]
  omega

theorem nest_reads (strict : Bool) : ∀ n, Reads strict false none (nestDoc n) (nestBytes n)
  | 0 => ⟨[0], [0], [], 0, rfl, numField_byte (b := 0) (by decide), numField_byte (b := 0) (by decide), rfl⟩
  | n + 1 => by
    refine ⟨[1], [0], 2 :: nestBytes n, 0, rfl, numField_byte (b := 1) (by decide), numField_byte (b := 0) (by decide), ?_⟩
    refine ⟨false, nestBytes n, [], ?_, nest_reads strict n, rfl⟩
    cases n <;> simp [nestDoc, kindByte]

theorem bomb_readable (strict : Bool) (n : Nat) : Readable strict (2 ^ 31) (bomb n) none none [(rootKey, nestDoc n)] := by
  refine ⟨⟨0, 0, [1, 0] ++ ([4] ++ rootKey) ++ 2 :: nestBytes n, [1, 0], ?_, .inl rfl, ?_, ?_⟩⟩
  · unfold bomb
    have : (10 + ([1, 0] ++ ([4] ++ rootKey) ++ 2 :: nestBytes n).length) = 20 + 3 * n := by
      simp [nestBytes_length, rootKey]; omega
    rw [this]
  · refine ⟨[1], [0], ([4] ++ rootKey) ++ 2 :: nestBytes n, 0, rfl, numField_byte (b := 1) (by decide), numField_byte (b := 0) (by decide), ?_⟩
    refine ⟨[4] ++ rootKey, false, nestBytes n, [], ?_, ⟨[4], numField_byte (b := 4) (by decide), rfl⟩, nest_reads strict n, rfl⟩
    cases n <;> simp [nestDoc, kindByte]
  · exact .inl ⟨rfl, rfl, rfl, [], [1], 1, [0], [0], rfl, numField_byte (b := 1) (by decide), by decide, ⟨[0], rfl⟩, by decide,
      List.nodup_nil, [0], 0, [], numField_byte (b := 0) (by decide), rfl, rfl, rfl⟩

theorem bomb_length (n : Nat) : (bomb n).length = 3 * n + 22 := by
  simp [bomb, bigEndian_length, nestBytes_length, rootKey]; omega

theorem bomb_noCustom (n : Nat) : (nestDoc n).noCustom = true := by
  induction n with
  | zero => rfl
  | succ n ih => simp [nestDoc, Doc.noCustom, noCustomL, ih]

/-- C62. There is no limit on the depth: for every stack size there is a content of three bytes per nested call and 22 more
that the parser accepts with unlimited stack, and that overflows that stack. -/
theorem C62_bomb (r : Cfg) (room : Nat) (hlen : 3 * room + 22 < 2 ^ 31) (hmax : 3 * room + 22 < r.strMax) :
    ∃ content : Bytes, content.length ≤ 3 * room + 22 ∧ (∃ o, Parses r {} content (.ok o) ∧ o.doc? = some (nestDoc room)) ∧
      ParsesOnStack r false room content (.error (.ub .stackOverflow)) := by
  have hl := bomb_length room
  obtain ⟨o, h1, h2⟩ := C61_checked_value r (bomb room) (by omega) (by omega) {} (.inl rfl) none none _ (bomb_readable true room)
    (by intro ps h; cases h) (by intro h; cases h)
  have hrev : ∀ n, (nestDoc n).revMaps = nestDoc n := by
    intro n
    induction n with
    | zero => rfl
    | succ n ih => simp [nestDoc, Doc.revMaps, revMapsL, ih]
  have hfe : (firstEntry rootKey [(rootKey, nestDoc room)].reverse).map Doc.revMaps = some (nestDoc room) := by
    simp [firstEntry, hrev]
  obtain ⟨pairs, dict, es, g1, -, g3⟩ := C62_parse_accepted r (bomb room) (by omega) false 0 (by intro h; cases h) o h1
  have hr1 : Readable r.asserts (2 ^ 31) (bomb room) none none [(rootKey, nestDoc room)] := bomb_readable _ room
  have := C61_one_reading _ _ _ (bomb room) (by omega) _ _ _ _ _ _ hr1 g1
  have hes := (this.2 (by intro ps h; cases h)).2
  have g := g3 room
  rw [← hes] at g
  have hdep : (Doc.map [(rootKey, nestDoc room)]).depth = room + 2 := by
    simp [Doc.depth, depthE, nestDoc_depth]
  rw [hdep, if_neg (by omega)] at g
  exact ⟨bomb room, by omega, ⟨o, h1, by rw [h2, hfe]⟩, g⟩

/-! ### concrete cases -/

/-- An array of a map of a number: depth three, so `Serialize` and `Parse` need space for four calls, `dump` for three. -/
def deepObj : Obj := .array .caller 1 [.map false .caller 1 [(⟨[107], none⟩, .data false BRIDGE_INT32 (.i32 7))]]

def deepDoc : Doc := .array [.map [([107], .scalar (.int32 7))]]

example : deepObj.doc? = some deepDoc ∧ deepDoc.depth = 3 := ⟨rfl, by decide⟩

example : serializeOnStack Cfg.x86 .normal 3 deepObj = .error (.ub .stackOverflow) :=
  (C62_serialize Cfg.x86 rfl .normal deepObj deepDoc rfl (by simp [deepObj, Obj.Hard, hardL, hardE, leafHard]) 3).2 (by decide)

example : serializeOnStack Cfg.x86 .normal 4 deepObj = serialize Cfg.x86 .normal deepObj :=
  (C62_serialize Cfg.x86 rfl .normal deepObj deepDoc rfl (by simp [deepObj, Obj.Hard, hardL, hardE, leafHard]) 4).1 (by decide)

/-- The hypotheses of the theorems about `Parse` are met by what `Serialize` writes for that tree, and by the content of
`C62_bomb` for a stack with space for a thousand calls. -/
example : ∃ content, serialize Cfg.x86 .replace deepObj = .ok content ∧ (Fits Cfg.x86 content → ∃ o',
    ParsesOnStack Cfg.x86 true 4 content (.ok o') ∧ ParsesOnStack Cfg.x86 true 3 content (.error (.ub .stackOverflow))) := by
  obtain ⟨c, h1, h2⟩ := C62_parse_written Cfg.x86 Cfg.x86 rfl .replace deepObj deepDoc rfl
    (by simp [deepObj, Obj.Hard, hardL, hardE, leafHard]) true (by intro _; decide)
  refine ⟨c, h1, fun hf => ?_⟩
  obtain ⟨o', -, h3⟩ := h2 hf
  exact ⟨o', h3 4, h3 3⟩

example : ∃ content : Bytes, content.length ≤ 3022 ∧ ParsesOnStack Cfg.x86 false 1000 content (.error (.ub .stackOverflow)) := by
  obtain ⟨c, h1, -, h2⟩ := C62_bomb Cfg.x86 1000 (by decide) (by decide)
  exact ⟨c, h1, h2⟩

example : dumpS deepObj 2 [] ((0 : Nat) : Int) = .error (.ub .stackOverflow) := by
  rw [C62_dump deepObj deepDoc rfl [] 0 2, if_neg (by decide)]

end Bridge
