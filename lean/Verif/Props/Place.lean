import Verif.Proof.Place
import Verif.Props.RoundTrip
/-
C85: changing a value or a key inside a stored document, in place.
-/
set_option autoImplicit false
namespace Bridge
open Spec

/-- C85. In front of and behind the bytes of one value (or key) a written document is the same whatever the value is, as long as it has
this type and takes this room: there are two byte sequences such that every object that represents the document with such a value in
the place is written as the first, the bytes of the value, the second.  With a string dictionary strings and keys are excepted. -/
theorem C85_one_place_changes (w : Cfg) (hw : w.charSigned = true) (t : SeriType) (p : Place) (s : Scalar)
    (h : t = .normal ∨ (s.code ≠ 1 ∧ p.isKey = false)) :
    ∃ pre post : Bytes, ∀ s' : Scalar, s.Alike s' → ∀ o : Obj, o.doc? = some (p.fill s') → Writable w o →
      serialize w t o = .ok (pre ++ s'.payload ++ post) := by
  obtain ⟨pre, post, hd⟩ := content_place w t p s.code s.payload.length h
  refine ⟨pre, post, fun s' ha o ho hh => ?_⟩
  rw [serialize_eq hw t ho hh, hd s' ha.1.symm ha.2.symm]

/-- C85. So a value or key can be overwritten in a stored document: whoever has a document that was written, finds the bytes of the
value in it (they stand at the same position in all of them) and puts the bytes of another value of the type and length there, has a
document that parses, with both parsers and in both modes, to the document with that value in the place and all else unchanged. -/
theorem C85_overwriting (w r : Cfg) (hw : w.charSigned = true) (t : SeriType) (p : Place) (s : Scalar)
    (h : t = .normal ∨ (s.code ≠ 1 ∧ p.isKey = false)) :
    ∃ pre post : Bytes, ∀ o : Obj, o.doc? = some (p.fill s) → Writable w o →
      serialize w t o = .ok (pre ++ s.payload ++ post) ∧
      (Fits r (pre ++ s.payload ++ post) → ∀ s' : Scalar, s.Alike s' → ∀ (ref : Bool), (ref = true → (p.fill s').noCustom = true) →
        ∀ (co : Bool) (k : Nat), 0 < k →
          ∃ l d', Parses r ⟨co, ref, k⟩ (pre ++ s'.payload ++ post) (.ok l) ∧ l.doc? = some d' ∧ (p.fill s').Same d') := by
  obtain ⟨pre, post, hd⟩ := content_place w t p s.code s.payload.length h
  refine ⟨pre, post, fun o ho hh => ⟨?_, fun hf s' ha ref hc co k hk => ?_⟩⟩
  · rw [serialize_eq hw t ho hh, hd s rfl rfl]
  · have he := hd s' ha.1.symm ha.2.symm
    have hl : (pre ++ s'.payload ++ post).length = (pre ++ s.payload ++ post).length := by simp [ha.2]
    have hf' : Fits r (contentOf w t (p.fill s') ++ []) := by
      rw [List.append_nil, he]
      exact ⟨hl ▸ hf.lt, fun h => hl ▸ hf.small h, hl ▸ hf.max⟩
    cases co with
    | false =>
      obtain ⟨l, h1, h2, -⟩ := parses_normal hf' ref hc k
      rw [List.append_nil, he] at h1
      exact ⟨l, _, h1, h2, same_revMaps _⟩
    | true =>
      obtain ⟨l, d', h1, h2, h3, -⟩ := parses_co hf' ref hc hk
      rw [List.append_nil, he] at h1
      exact ⟨l, d', h1, h2, h3⟩

/-- C85. All numbers of one type take the same room. -/
theorem C85_numbers_alike (s s' : Scalar) (hn : s.number? ≠ none) (hc : s.code = s'.code) : s.Alike s' := by
  refine ⟨hc, ?_⟩
  cases s <;> cases s' <;> simp_all [Scalar.number?, Scalar.code, Scalar.payload, bigEndian]

/-- C85, the special case of a number: all numbers of one type take the same room, so a number can be overwritten by any other, in
every serialize type and with any block size. -/
theorem C85_numbers (w : Cfg) (hw : w.charSigned = true) (t : SeriType) (p : Place) (hp : p.isKey = false) :
    ∃ pre post : Bytes, ∀ (v : BitVec 32) (o : Obj), o.doc? = some (p.fill (.int32 v)) → Writable w o →
      serialize w t o = .ok (pre ++ bigEndian 4 v.toNat ++ post) := by
  obtain ⟨pre, post, h⟩ := C85_one_place_changes w hw t p (.int32 0) (.inr ⟨by decide, hp⟩)
  exact ⟨pre, post, fun v o ho hh => h (.int32 v) ⟨rfl, rfl⟩ o ho hh⟩

/-- C85. Records of the same shape: two documents that differ only in keys and leaves that take the same room - with a dictionary, in leaves
that are not strings - are written with the same number of bytes, the same header and the same tables behind the body.  So records of one shape
can be stored at fixed distances and replaced by one another. -/
theorem C85_same_shape_same_length (w : Cfg) (hw : w.charSigned = true) (t : SeriType) (strings : Bool) (h : t = .normal ∨ strings = true)
    (o o' : Obj) (d d' : Doc) (hd : o.doc? = some d) (hd' : o'.doc? = some d') (hh : Writable w o) (hh' : Writable w o')
    (hs : d.SameRoom strings d') :
    ∃ head body body' tables, serialize w t o = .ok (head ++ body ++ tables) ∧ serialize w t o' = .ok (head ++ body' ++ tables) ∧
      head.length = 10 ∧ body.length = body'.length := by
  obtain ⟨h1, h2, h3⟩ := content_room w t strings h d d' hs
  refine ⟨headOf w t d, (bodyOf w t d).1, (bodyOf w t d').1,
    dictPart w (bodyOf w t d).2.2.sm ++ splitPart w (bodyOf w t d).2.2.si, ?_, ?_, headOf_length w t d, ?_⟩
  · rw [serialize_eq hw t hd hh]; simp only [contentOf, List.append_assoc]
  · rw [serialize_eq hw t hd' hh', h2, h3]; simp only [contentOf, List.append_assoc]
  · have e : ∀ d, (contentOf w t d).length = 10 + ((bodyOf w t d).1.length + (dictPart w (bodyOf w t d).2.2.sm ++ splitPart w (bodyOf w t d).2.2.si).length) :=
      fun d => by simp only [contentOf, List.length_append, headOf_length]
    rw [e d, e d', h3] at h1
    omega

/-! ### The exceptions are needed -/

/-- Two strings that are the same, and two that are not. -/
def twice (a b : UInt8) : Obj := .array .caller 2 [.data false BRIDGE_STRING (.str [a]), .data false BRIDGE_STRING (.str [b])]

/-- C85, limits: with a dictionary a string cannot be overwritten: another string of the same length changes the length of the document,
because equal strings are written once. -/
theorem C85_not_in_a_dictionary : ∃ a b : Bytes, serialize Cfg.x86 .replace (twice 97 97) = .ok a ∧
    serialize Cfg.x86 .replace (twice 97 98) = .ok b ∧ a.length ≠ b.length := by
  have h : ∃ a b : Bytes, (serialize Cfg.x86 .replace (twice 97 97)).toOption = some a ∧
      (serialize Cfg.x86 .replace (twice 97 98)).toOption = some b ∧ a.length ≠ b.length :=
    ⟨((serialize Cfg.x86 .replace (twice 97 97)).toOption).getD [], ((serialize Cfg.x86 .replace (twice 97 98)).toOption).getD [],
      by decide +kernel, by decide +kernel, by decide +kernel⟩
  obtain ⟨a, b, ha, hb, hab⟩ := h
  refine ⟨a, b, ?_, ?_, hab⟩
  · cases hs : serialize Cfg.x86 .replace (twice 97 97) <;> rw [hs] at ha <;> simp_all [Except.toOption]
  · cases hs : serialize Cfg.x86 .replace (twice 97 98) <;> rw [hs] at hb <;> simp_all [Except.toOption]

/-! ### A concrete case -/

/-- The number in the sample: the second element of the array under the key `k`. -/
def samplePlace : Place := .entry [] [107] (.elem [.scalar (.string [104, 105])] .here []) [([122], .scalar (.bytes [1, 2, 3]))]

/-- The sample with another number. -/
def sampleWith (v : BitVec 32) : Obj :=
  .map false .caller 2
    [(⟨[107], none⟩, .array .caller 2
        [.data false BRIDGE_STRING (.str [104, 105]), .data false BRIDGE_INT32 (.i32 v)]),
     (⟨[122], none⟩, .data false BRIDGE_BYTES (.vec [1, 2, 3]))]

theorem sampleWith_doc (v : BitVec 32) : (sampleWith v).doc? = some (samplePlace.fill (.int32 v)) := by
  rfl

theorem sampleWith_writable (v : BitVec 32) : Writable Cfg.x86 (sampleWith v) := by
  simp [sampleWith, Writable, Obj.Hard, hardE, hardL, leafHard]

/-- All these samples have the same shape, also with a dictionary. -/
theorem sampleWith_room (v v' : BitVec 32) : ∃ d d', (sampleWith v).doc? = some d ∧ (sampleWith v').doc? = some d' ∧ d.SameRoom true d' := by
  refine ⟨_, _, sampleWith_doc v, sampleWith_doc v', ?_⟩
  simp [samplePlace, Place.fill, Doc.SameRoom, SameRoomE, SameRoomL, Scalar.Alike, Scalar.code, Scalar.payload, bigEndian]

/-- The hypotheses are met, and the bytes are these, with a dictionary and a split table: the number stands at position 26. -/
example : (serialize { Cfg.x86 with blockSize := 10 } .replace (sampleWith 7)).toOption =
      some ([0, 0, 0, 0, 0, 0, 0, 37, 1, 10, 1, 1, 0, 129, 2, 2, 1, 130, 2, 3, 0, 1, 2, 0, 2, 4] ++ [0, 0, 0, 7] ++
        [3, 0, 0, 3, 1, 2, 3, 17, 4, 4, 114, 111, 111, 116, 0, 1, 107, 1, 2, 104, 105, 2, 1, 122, 3, 11, 3, 3, 1, 10, 2, 2, 14, 7, 1, 1, 25]) ∧
    (serialize { Cfg.x86 with blockSize := 10 } .replace (sampleWith 0x01020304)).toOption =
      some ([0, 0, 0, 0, 0, 0, 0, 37, 1, 10, 1, 1, 0, 129, 2, 2, 1, 130, 2, 3, 0, 1, 2, 0, 2, 4] ++ [1, 2, 3, 4] ++
        [3, 0, 0, 3, 1, 2, 3, 17, 4, 4, 114, 111, 111, 116, 0, 1, 107, 1, 2, 104, 105, 2, 1, 122, 3, 11, 3, 3, 1, 10, 2, 2, 14, 7, 1, 1, 25]) := by
  decide +kernel

/-- A key is a place too, without a dictionary. -/
example : (serialize Cfg.x86 .normal (sampleWith 7)).toOption =
      some ([0, 0, 0, 0, 0, 0, 0, 45, 0, 0, 1, 1, 4, 114, 111, 111, 116, 1, 2, 2, 1] ++ [107] ++
        [2, 2, 3, 0, 1, 2, 104, 105, 0, 2, 4, 0, 0, 0, 7, 1, 122, 0, 0, 3, 1, 2, 3, 1, 0]) ∧
    (∃ x after, (Place.key [] x after).fill (.string [107]) = samplePlace.fill (.int32 7)) :=
  ⟨by decide +kernel, _, _, rfl⟩

end Bridge
