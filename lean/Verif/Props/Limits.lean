import Verif.Props.Format
/-
C30: lengths of 4 GiB and more.
-/
set_option autoImplicit false
namespace Bridge
open Spec

/-- The values whose length is not fixed by their type. -/
inductive Long
  | string
  | bytes
  | custom
deriving DecidableEq

/-- Its type code. -/
def Long.code : Long → UInt8
  | .string => BRIDGE_STRING
  | .bytes => BRIDGE_BYTES
  | .custom => BRIDGE_CUSTOM

/-- An owning object with such a value. -/
def Long.obj (k : Long) (b : Bytes) : Obj :=
  .data false k.code (match k with
    | .string => .str b
    | .bytes => .vec b
    | .custom => .vec b)

/-- The value of a document. -/
def Long.scalar (k : Long) (b : Bytes) : Scalar :=
  match k with
  | .string => .string b
  | .bytes => .bytes b
  | .custom => .custom b

theorem Long.emit (k : Long) (b : Bytes) (e : SplitInfo) : emitScalar (k.scalar b) ⟨none, e⟩ = (k.code :: (lenB b.length ++ b), ⟨none, e⟩) := by
  cases k <;> rfl

theorem Long.obj_doc (k : Long) (b : Bytes) : (k.obj b).doc? = some (.scalar (k.scalar b)) := by
  cases k <;> rfl

theorem Long.noCustom_root {k : Long} (h : k ≠ .custom) (b : Bytes) : (rootDoc (.scalar (k.scalar b))).noCustom = true := by
  cases k with
  | string => rfl
  | bytes => rfl
  | custom => exact absurd rfl h

theorem Long.hard (k : Long) {w : Cfg} {b : Bytes} (h : k ≠ .string → w.hardened = true → b ≠ []) : (k.obj b).Hard w := by
  intro hw
  cases k with
  | string => exact ⟨by intro _ h; simp at h, by intro _ h; simp at h⟩
  | bytes => exact ⟨by intro c e; cases e; exact h (by simp) hw, by intro _ h; simp at h⟩
  | custom => exact ⟨by intro c e; cases e; exact h (by simp) hw, by intro _ h; simp at h⟩

theorem big_body (k : Long) (w : Cfg) (b : Bytes) :
    (bodyOf w .normal (.scalar (k.scalar b))).1 =
      (bodyOf w .normal (.scalar (k.scalar (b.take (toU32 b.length))))).1 ++ b.drop (toU32 b.length) := by
  have hle : toU32 b.length ≤ b.length := Nat.mod_le _ _
  have : lenB (b.take (toU32 b.length)).length = lenB b.length := by
    rw [List.length_take, Nat.min_eq_left hle]
    unfold lenB; rw [toU32_idem]
  simp only [bodyOf, rootDoc, emitDoc, emitKVs, emitContainer, emitStr, Long.emit, env0, initDict, this]
  simp only [List.flatten_cons, List.flatten_nil, List.append_nil, List.append_assoc, List.cons_append, List.take_append_drop]
  rfl

theorem big_small_length {k : Long} {w : Cfg} {b : Bytes} : (bodyOf w .normal (.scalar (k.scalar b))).1.length < b.length + 20 ∧
    b.length < (bodyOf w .normal (.scalar (k.scalar b))).1.length := by
  have hl : (lenB b.length).length ≤ 5 := by
    unfold lenB
    exact leb128_length_le5 (toU32_lt _)
  have hl1 : lenB 1 = [1] := by simp [lenB, toU32, leb128]
  have hl4 : lenB 4 = [4] := by simp [lenB, toU32, leb128]
  simp only [bodyOf, rootDoc, emitDoc, emitKVs, emitContainer, emitStr, Long.emit, env0, initDict, rootKey, List.length_cons,
      List.length_nil, docType, tagByte, SplitInfo.requestId, Nat.zero_add]
  rw [hl4, hl1]
  simp
  omega


/-- The only child of the root map. -/
def bigChunk (k : Long) (b : Bytes) : Bytes := lenB 4 ++ rootKey ++ (0 :: k.code :: (lenB b.length ++ b))

theorem big_eq (k : Long) (w : Cfg) (b : Bytes) : bodyOf w .normal (.scalar (k.scalar b)) =
    emitContainer w 1 1 [bigChunk k b] ⟨none, ⟨[], 2⟩⟩ := by
  simp only [bodyOf, rootDoc, emitDoc, emitKVs, emitStr, Long.emit, env0, initDict]
  rfl

theorem big_blocks (k : Long) (w : Cfg) (b : Bytes) : blocksOf w [bigChunk k b] = [toU32 (bigChunk k b).length] := by
  have hp : 0 < (bigChunk k b).length := by simp [bigChunk]; omega
  simp only [blocksOf, groupSizes, List.map_cons, List.map_nil, Nat.zero_add]
  split
  · simp
  · simp [hp]

theorem big_env (k : Long) (w : Cfg) (b : Bytes) :
    (bodyOf w .normal (.scalar (k.scalar b))).2.2 = if mustSplit w [toU32 (bigChunk k b).length] then
      ⟨none, ⟨[(1, [toU32 (bigChunk k b).length])], 2⟩⟩ else ⟨none, ⟨[], 2⟩⟩ := by
  rw [big_eq]
  simp only [emitContainer, big_blocks]
  split <;> rfl

/-- C30. What is written for a string or byte array of any length (as the only value of a document): the length field is the length modulo
2^32, the payload is complete. -/
theorem C30_length_field (k : Long) (w : Cfg) (hw : w.charSigned = true) (b : Bytes) (hh : k ≠ .string → w.hardened = true → b ≠ []) :
    ∃ flag table, serialize w .normal (k.obj b) =
      .ok (bigEndian 8 (19 + (leb128 (b.length % 2 ^ 32)).length + b.length) ++ ([0, flag] ++
        ([1, 1, 4, 0x72, 0x6F, 0x6F, 0x74, 0, k.code] ++ leb128 (b.length % 2 ^ 32) ++ b ++ table))) := by
  have h := serialize_eq hw (o := k.obj b) (d := .scalar (k.scalar b)) .normal (k.obj_doc b) (k.hard hh)
  refine ⟨if (bodyOf w .normal (.scalar (k.scalar b))).2.1 then 0x0A else 0,
    splitPart w (bodyOf w .normal (.scalar (k.scalar b))).2.2.si, ?_⟩
  rw [h]
  have hl1 : lenB 1 = [1] := by simp [lenB, toU32, leb128]
  have hl4 : lenB 4 = [4] := by simp [lenB, toU32, leb128]
  have hbody : (bodyOf w .normal (.scalar (k.scalar b))).1 =
      [1, 1, 4, 0x72, 0x6F, 0x6F, 0x74, 0, k.code] ++ leb128 (b.length % 2 ^ 32) ++ b := by
    simp only [bodyOf, rootDoc, emitDoc, emitKVs, emitContainer, emitStr, Long.emit, env0, initDict, rootKey, List.length_cons,
      List.length_nil, docType, tagByte, SplitInfo.requestId]
    rw [hl4, hl1]
    simp [lenB, toU32, BRIDGE_STRING, ObjectType.toChar]
  have hsm : (bodyOf w .normal (.scalar (k.scalar b))).2.2.sm = none := by
    rw [big_env]; split <;> rfl
  unfold contentOf headOf
  rw [hsm, hbody]
  congr 1
  simp only [dictPart, List.nil_append, SeriType.toChar, List.append_assoc]
  congr 2
  simp only [List.length_append, List.length_cons, List.length_nil]
  omega

theorem big_siinv (k : Long) (w : Cfg) (b : Bytes) : SIInv (bodyOf w .normal (.scalar (k.scalar b))).2.2.si := by
  rw [big_env]
  split
  · exact ⟨by simp, by simp, by simp, by simp⟩
  · exact ⟨by simp, by simp, by simp, by simp⟩

theorem big_init {k : Long} {w r : Cfg} {b : Bytes} (hs : SizeOk r (contentOf w .normal (.scalar (k.scalar b))).length) :
    ∃ s, initFromContent r (contentOf w .normal (.scalar (k.scalar b))) = .ok s ∧ s.sm = none ∧
      s.si.info = w.siOrd (bodyOf w .normal (.scalar (k.scalar b))).2.2.si.info ∧
      s.total = 10 + (bodyOf w .normal (.scalar (k.scalar b))).1.length ∧
      s.split = (bodyOf w .normal (.scalar (k.scalar b))).2.1 ∧
      HasAt (contentOf w .normal (.scalar (k.scalar b))) 10 (bodyOf w .normal (.scalar (k.scalar b))).1 ∧
      10 + (bodyOf w .normal (.scalar (k.scalar b))).1.length < (contentOf w .normal (.scalar (k.scalar b))).length := by
  have hinv := big_siinv k w b
  have hsm : (bodyOf w .normal (.scalar (k.scalar b))).2.2.sm = none := by
    rw [big_env]; split <;> rfl
  have hent : ∀ e ∈ (bodyOf w .normal (.scalar (k.scalar b))).2.2.si.info, (∀ x ∈ e.2, x < 2 ^ 32) ∧ e.2.length < 2 ^ 32 := by
    rw [big_env]
    intro e he
    split at he
    · simp only [List.mem_singleton] at he
      subst he
      exact ⟨by intro x hx; simp only [List.mem_singleton] at hx; subst hx; exact toU32_lt _, by simp⟩
    · simp at he
  have htl : (siTableB w (bodyOf w .normal (.scalar (k.scalar b))).2.2.si).length < 2 ^ 32 := by
    have hlb : ∀ n, (lenB n).length ≤ 5 := fun n => by unfold lenB; exact leb128_length_le5 (toU32_lt _)
    have h1 : ∀ l : List (Nat × List Nat), l.length ≤ 1 → (∀ e ∈ l, e.2.length ≤ 1) → (l.map siEntryB).flatten.length ≤ 20 := by
      intro l hl he
      match l, hl with
      | [], _ => simp
      | [e], _ =>
        have h2 := he e (by simp)
        have h3 := hlb e.1
        have h4 := hlb e.2.length
        have h5 : ((e.2.take (toU32 e.2.length)).map lenB).flatten.length ≤ 5 := by
          have : (e.2.take (toU32 e.2.length)).length ≤ 1 := by rw [List.length_take]; omega
          match e.2.take (toU32 e.2.length), this with
          | [], _ => simp
          | [x], _ => simpa using hlb x
        simp only [List.map_cons, List.map_nil, List.flatten_cons, List.flatten_nil, List.append_nil, siEntryB, List.length_append]
        omega
    have h2 := hlb (bodyOf w .normal (.scalar (k.scalar b))).2.2.si.info.length
    have hp := w.siPerm (bodyOf w .normal (.scalar (k.scalar b))).2.2.si.info
    have hl1 : (bodyOf w .normal (.scalar (k.scalar b))).2.2.si.info.length ≤ 1 := by
      rw [big_env]; split <;> simp
    have hl2 : ∀ e ∈ (bodyOf w .normal (.scalar (k.scalar b))).2.2.si.info, e.2.length ≤ 1 := by
      rw [big_env]
      intro e he
      split at he
      · simp only [List.mem_singleton] at he; subst he; simp
      · simp at he
    have h3 := h1 (w.siOrd (bodyOf w .normal (.scalar (k.scalar b))).2.2.si.info) (by rw [hp.length_eq]; exact hl1)
      (fun e he => hl2 e (hp.mem_iff.mp he))
    simp only [siTableB, List.length_append]
    omega
  generalize hmem : contentOf w .normal (.scalar (k.scalar b)) = mem at hs ⊢
  have hlen : mem.length = 10 + ((bodyOf w .normal (.scalar (k.scalar b))).1.length +
      (splitPart w (bodyOf w .normal (.scalar (k.scalar b))).2.2.si).length) := by
    rw [← hmem]; unfold contentOf; rw [hsm]; simp only [List.length_append, headOf_length, dictPart, List.length_nil]; omega
  have hat0 : HasAt mem 0 (contentOf w .normal (.scalar (k.scalar b))) := by
    rw [hmem]; exact HasAt.drop_zero
  unfold contentOf at hat0
  rw [HasAt.append, HasAt.append, HasAt.append, headOf_length, hsm] at hat0
  obtain ⟨hhead, hbody, -, hsplit⟩ := hat0
  simp only [Nat.zero_add, dictPart, List.length_nil, Nat.add_zero] at hbody hsplit
  have hsp : 1 ≤ (splitPart w (bodyOf w .normal (.scalar (k.scalar b))).2.2.si).length := by
    have := lenB_length_pos (siTableB w (bodyOf w .normal (.scalar (k.scalar b))).2.2.si).length
    simp only [splitPart, List.length_append]; omega
  unfold headOf at hhead
  rw [HasAt.append, bigEndian_length, HasAt.cons, HasAt.cons] at hhead
  obtain ⟨hbe, h8, h9, -⟩ := hhead
  simp only [Nat.zero_add] at h8 h9
  have hs1 := hs.1
  have htot : parseTotalSize r mem = .ok (10 + (bodyOf w .normal (.scalar (k.scalar b))).1.length) := by
    unfold parseTotalSize
    rw [if_neg (by omega)]
    have := hbe.slice
    unfold slice at this
    rw [bigEndian_length] at this
    simp only [List.drop_zero] at this
    simp only [this]
    rw [bigEndian_ofImage r (by omega)]
  have hsplit' := hsplit
  unfold splitPart at hsplit'
  rw [HasAt.append] at hsplit'
  have hv : SizeOk r (siTableB w (bodyOf w .normal (.scalar (k.scalar b))).2.2.si).length := ⟨by omega, fun ha => by
    have := hs.2 ha; simp only [splitPart, List.length_append] at hlen; omega⟩
  obtain ⟨si', h1, h2⟩ := siConstruct_eq (cfg := r)
    (v := ⟨mem, 10 + (bodyOf w .normal (.scalar (k.scalar b))).1.length +
      (lenB (siTableB w (bodyOf w .normal (.scalar (k.scalar b))).2.2.si).length).length,
      (siTableB w (bodyOf w .normal (.scalar (k.scalar b))).2.2.si).length⟩)
    hinv (fun e he => (hent e he).1) hv rfl htl (fun e he => (hent e he).2) (by exact hsplit'.2)
  have hsec := parseSecondary_eq (r := si') hs htl (by exact hsplit) (by omega) h1
  have hm8 : mem.getD 8 0 = SeriType.normal.toChar := by simp [List.getD, h8]
  have hm9 : mem.getD 9 0 = if (bodyOf w .normal (.scalar (k.scalar b))).2.1 then 0x0A else 0x00 := by
    rw [List.getD, h9]; rfl
  refine ⟨⟨none, si', 10 + (bodyOf w .normal (.scalar (k.scalar b))).1.length, (bodyOf w .normal (.scalar (k.scalar b))).2.1⟩,
    ?_, rfl, h2, rfl, rfl, hbody, by omega⟩
  unfold initFromContent
  rw [if_neg (by unfold metaSize; omega), htot]
  simp only [ok_bind]
  rw [hm8, if_pos rfl, hsec]
  simp only [ok_bind, pure_eq_ok]
  rw [hm9]
  cases (bodyOf w .normal (.scalar (k.scalar b))).2.1 <;> simp

theorem parses_of_fuel {cfg : Cfg} {po : ParseOption} {f : Nat} {content : Bytes} {r : Res Obj} (h : parse cfg po f content = r)
    (hr : r ≠ .error .fuel) : Parses cfg po content r := ⟨hr, f, fun _ hf => parse_mono h hr hf⟩

theorem bigChunk_length (k : Long) (b : Bytes) : (bigChunk k b).length = 7 + (leb128 (b.length % 2 ^ 32)).length + b.length := by
  have hl4 : lenB 4 = [4] := by simp [lenB, toU32, leb128]
  unfold bigChunk
  rw [hl4]
  simp [rootKey, lenB, toU32]
  omega

/-- The part of the string that the length field describes. -/
theorem big_take_length (b : Bytes) : (b.take (toU32 b.length)).length = toU32 b.length := by
  rw [List.length_take]; exact Nat.min_eq_left (Nat.mod_le _ _)

theorem big_small_env {k : Long} {w : Cfg} {b : Bytes} (h : b.length % 2 ^ 32 + 20 < 2 ^ 32) :
    (bodyOf w .normal (.scalar (k.scalar b))).2.2 = (bodyOf w .normal (.scalar (k.scalar (b.take (toU32 b.length))))).2.2 ∧
    (bodyOf w .normal (.scalar (k.scalar b))).2.1 = (bodyOf w .normal (.scalar (k.scalar (b.take (toU32 b.length))))).2.1 := by
  have hc : toU32 (bigChunk k b).length = toU32 (bigChunk k (b.take (toU32 b.length))).length := by
    have hl := leb128_length_le5 (toU32_lt b.length)
    have ht := big_take_length b
    unfold toU32 at ht hl ⊢
    rw [bigChunk_length, bigChunk_length, ht, Nat.mod_mod]
    omega
  constructor
  · rw [big_env, big_env, hc]
  · rw [big_eq, big_eq]
    simp only [emitContainer, big_blocks, hc]

theorem big_toU32 (k : Long) {b : Bytes} (h : b.length % 2 ^ 32 + 20 < 2 ^ 32) : toU32 (bigChunk k (b.take (toU32 b.length))).length =
    7 + (leb128 (b.length % 2 ^ 32)).length + b.length % 2 ^ 32 := by
  have hl5 := leb128_length_le5 (toU32_lt b.length)
  have h1 : (bigChunk k (b.take (toU32 b.length))).length = 7 + (leb128 (b.length % 2 ^ 32)).length + b.length % 2 ^ 32 := by
    rw [bigChunk_length, big_take_length]
    unfold toU32
    rw [Nat.mod_mod]
  rw [toU32_of_lt (by rw [h1]; unfold toU32 at hl5; omega), h1]

/-- C30. The recursive parser rejects a document with a string or byte array of 4 GiB or more (reader without assertions).  So does the parallel
parser if the document is not split, that is, if what the length field describes is smaller than a block. -/
theorem C30_normal_parse_rejects (k : Long) (w r : Cfg) (hw : w.charSigned = true) (b : Bytes) (hb : 2 ^ 32 ≤ b.length)
    (hmod : b.length % 2 ^ 32 + 20 < 2 ^ 32) (co ref : Bool)
    (hco : co = true → 7 + (leb128 (b.length % 2 ^ 32)).length + b.length % 2 ^ 32 < w.blockSize) (hc : ref = true → k ≠ .custom) (n : Nat) :
    ∃ content, serialize w .normal (k.obj b) = .ok content ∧
      (r.asserts = false → content.length < 2 ^ 63 → content.length ≤ r.strMax →
        Parses r ⟨co, ref, n⟩ content (.error (.exn .parseError))) := by
  refine ⟨_, serialize_eq hw (d := .scalar (k.scalar b)) .normal (k.obj_doc b) (k.hard fun _ _ => by rintro rfl; simp at hb), fun hr hl hm => ?_⟩
  obtain ⟨s, i1, i2, i3, i4, i5, i6, i7⟩ := big_init (w := w) (r := r) (b := b) ⟨hl, by simp [hr]⟩
  generalize hmem : contentOf w .normal (.scalar (k.scalar b)) = mem at *
  have hsl := big_small_length (k := k) (w := w) (b := b.take (toU32 b.length))
  have hbl := congrArg List.length (big_body k w b)
  rw [big_body, HasAt.append] at i6
  simp only [List.length_append, List.length_drop] at hbl
  have hlt : toU32 b.length + 20 < 2 ^ 32 := hmod
  rw [big_take_length b] at hsl
  have hE : (bodyOf w .normal (.scalar (k.scalar (b.take (toU32 b.length))))).2.2.sm = none := by
    rw [big_env]; split <;> rfl
  have hctx : PCtx r mem s.sm (bodyOf w .normal (.scalar (k.scalar (b.take (toU32 b.length))))).2.2 :=
    ⟨⟨hl, by simp [hr]⟩, hm, fun _ => i2, fun m hm => by rw [hE] at hm; cases hm⟩
  obtain ⟨o, p1, -, -⟩ := parseVal_eq (ref := ref) (pool := .caller) hctx (rootDoc (.scalar (k.scalar (b.take (toU32 b.length)))))
    (env0 .normal) 10 (docFuel (rootDoc (.scalar (k.scalar (b.take (toU32 b.length)))))) (env0_room _ (by
      show (bodyOf w .normal (.scalar (k.scalar (b.take (toU32 b.length))))).1.length + 1 < _
      omega)) (Follows.refl _) i6.1 (by
      show 10 + (bodyOf w .normal (.scalar (k.scalar (b.take (toU32 b.length))))).1.length < _
      omega) (by
      show (bodyOf w .normal (.scalar (k.scalar (b.take (toU32 b.length))))).1.length < _
      omega) (fun h => Long.noCustom_root (hc h) _) (Nat.le_refl _)
  refine parses_of_fuel (f := docFuel (rootDoc (.scalar (k.scalar (b.take (toU32 b.length)))))) ?_ (by simp)
  unfold parse
  rw [i1]
  have hun : co = true → s.split = false := by
    intro h
    rw [i5, (big_small_env (k := k) (w := w) hmod).2, big_eq]
    simp only [emitContainer, big_blocks, big_toU32 k hmod]
    have := hco h
    unfold mustSplit
    simp
    omega
  have hboth : (if co = true then coroutineParse r ref n (docFuel (rootDoc (.scalar (k.scalar (b.take (toU32 b.length)))))) mem s
      else normalParse r ref (docFuel (rootDoc (.scalar (k.scalar (b.take (toU32 b.length)))))) mem s) =
      normalParse r ref (docFuel (rootDoc (.scalar (k.scalar (b.take (toU32 b.length)))))) mem s := by
    cases co with
    | false => rfl
    | true => unfold coroutineParse; simp only [hun rfl, if_true, i1, ok_bind]
  simp only [ok_bind]
  rw [hboth]
  unfold normalParse
  have : docType (rootDoc (.scalar (k.scalar (b.take (toU32 b.length))))) = .map := rfl
  rw [this] at p1
  simp only [metaSize]
  rw [p1]
  simp only [ok_bind]
  rw [if_pos (by
    rw [i4]
    show 10 + (bodyOf w .normal (.scalar (k.scalar (b.take (toU32 b.length))))).1.length ≠ _
    omega)]

/-- C30. The parallel parser returns a *different* value for the same document: the prefix of `length mod 2^32` bytes. -/
theorem C30_parallel_truncates (k : Long) (w r : Cfg) (hw : w.charSigned = true) (b : Bytes) (hh : k ≠ .string → w.hardened = true → b ≠ [])
    (hmod : b.length % 2 ^ 32 + 20 < 2 ^ 32) (hbig : w.blockSize ≤ 7 + (leb128 (b.length % 2 ^ 32)).length + b.length % 2 ^ 32) (ref : Bool) (hc : ref = true → k ≠ .custom) (n : Nat) (hn : 0 < n) :
    ∃ content, serialize w .normal (k.obj b) = .ok content ∧
      (r.asserts = false → content.length < 2 ^ 63 → content.length ≤ r.strMax →
        ∃ o, Parses r ⟨true, ref, n⟩ content (.ok o) ∧ o.doc? = some (.scalar (k.scalar (b.take (b.length % 2 ^ 32))))) := by
  refine ⟨_, serialize_eq hw (d := .scalar (k.scalar b)) .normal (k.obj_doc b) (k.hard hh), fun hr hl hm => ?_⟩
  obtain ⟨s, i1, i2, i3, i4, i5, i6, i7⟩ := big_init (w := w) (r := r) (b := b) ⟨hl, by simp [hr]⟩
  generalize hmem : contentOf w .normal (.scalar (k.scalar b)) = mem at *
  obtain ⟨he, hse⟩ := big_small_env (k := k) (w := w) hmod
  have hsl := big_small_length (k := k) (w := w) (b := b.take (toU32 b.length))
  have hbl := congrArg List.length (big_body k w b)
  rw [big_body, HasAt.append] at i6
  simp only [List.length_append, List.length_drop] at hbl
  have hlt : toU32 b.length + 20 < 2 ^ 32 := hmod
  rw [big_take_length b] at hsl
  have hE : (bodyOf w .normal (.scalar (k.scalar (b.take (toU32 b.length))))).2.2.sm = none := by
    rw [big_env]; split <;> rfl
  have hinv := big_siinv k w (b.take (toU32 b.length))
  have hctx : CCtx r mem s.sm s.si (bodyOf w .normal (.scalar (k.scalar (b.take (toU32 b.length))))).2.2 :=
    ⟨⟨⟨hl, by simp [hr]⟩, hm, fun _ => i2, fun m hm => by rw [hE] at hm; cases hm⟩, by
      intro id bs hb
      rw [he] at i3
      have hp := w.siPerm (bodyOf w .normal (.scalar (k.scalar (b.take (toU32 b.length))))).2.2.si.info
      apply getBlocks_mem
      · rw [i3]; exact (hp.map _).nodup_iff.mpr hinv.nodup
      · rw [i3]; exact hp.mem_iff.mpr hb⟩
  have hsp : (bodyOf w .normal (.scalar (k.scalar (b.take (toU32 b.length))))).2.1 = true := by
    rw [big_eq]
    simp only [emitContainer, big_blocks]
    rw [big_toU32 k hmod]
    unfold mustSplit
    simp
    omega
  obtain ⟨o, d', p1, p2, p3, p4⟩ := (co_all (ref := ref) hctx (docFuel (rootDoc (.scalar (k.scalar (b.take (toU32 b.length))))))).2.2
    (rootDoc (.scalar (k.scalar (b.take (toU32 b.length)))))
    (env0 .normal) 10 (env0_room _ (by
      show (bodyOf w .normal (.scalar (k.scalar (b.take (toU32 b.length))))).1.length + 1 < _
      omega)) (Follows.refl _) i6.1 (by
      show 10 + (bodyOf w .normal (.scalar (k.scalar (b.take (toU32 b.length))))).1.length < _
      omega) (by
      show (bodyOf w .normal (.scalar (k.scalar (b.take (toU32 b.length))))).1.length < _
      omega) (fun h => Long.noCustom_root (hc h) _) (Nat.le_refl _)
  obtain ⟨es', es'', rfl, hse', hperm⟩ := p3
  obtain ⟨y, ys, rfl, hy, hys⟩ := hse'
  simp only [SameE] at hys
  subst hys
  have hes : es' = [(rootKey, y)] := List.perm_singleton.mp hperm.symm
  subst hes
  obtain ⟨q1, q2⟩ := takeRoot_doc p2 p4
  simp only [Doc.Same] at hy
  subst hy
  refine ⟨takeRoot o, ?_, q1⟩
  refine parses_of_fuel (f := docFuel (rootDoc (.scalar (k.scalar (b.take (toU32 b.length)))))) ?_ (by simp)
  unfold parse
  rw [i1]
  simp only [ok_bind, if_true]
  unfold coroutineParse
  rw [i5, hse, hsp, if_neg (by simp), if_neg (by omega)]
  have hb : (emitDoc w (rootDoc (.scalar (k.scalar (b.take (toU32 b.length))))) (env0 .normal)).2.1 = true := hsp
  rw [hb] at p1
  simp only [coChild, if_true, rootDoc, docType] at p1
  simp only [metaSize, rootDoc]
  rw [p1]
  rfl

/-- A string of 4 GiB + 11 MiB meets the hypotheses of both theorems for the block size of the repository; what the parallel
parser returns is not the string that was written. -/
example : ∃ b : Bytes, 2 ^ 32 ≤ b.length ∧ b.length % 2 ^ 32 + 20 < 2 ^ 32 ∧
    splitBlockSize ≤ 7 + (leb128 (b.length % 2 ^ 32)).length + b.length % 2 ^ 32 ∧
    b.take (b.length % 2 ^ 32) ≠ b := by
  have hl : (List.replicate (2 ^ 32 + 11 * 2 ^ 20) (0 : UInt8)).length = 2 ^ 32 + 11 * 2 ^ 20 := List.length_replicate
  refine ⟨List.replicate (2 ^ 32 + 11 * 2 ^ 20) 0, by omega, by omega, by unfold splitBlockSize; omega, fun h => ?_⟩
  have := congrArg List.length h
  rw [List.length_take] at this
  omega

end Bridge
