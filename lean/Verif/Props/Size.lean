import Verif.Proof.Size
import Verif.Props.RoundTrip
/-
C78: how long a serialized document is.
-/
set_option autoImplicit false
namespace Bridge
open Spec

theorem root_text (d : Doc) : (rootDoc d).text = d.text + 4 := by
  simp only [rootDoc, Doc.text, textE, rootKey, List.length_cons, List.length_nil]; omega

theorem root_blobs (d : Doc) : (rootDoc d).blobs = d.blobs := by
  simp only [rootDoc, Doc.blobs, blobsE]; omega

/-- C78. Without a dictionary: the text of the document, at least three bytes for every value and one for every entry of a map, at most
41 bytes for every value, and a constant. -/
theorem C78_length_without_dictionary (w : Cfg) (hw : w.charSigned = true) (o : Obj) (d : Doc) (hd : o.doc? = some d) (hh : Writable w o)
    (content : Bytes) (hs : serialize w .normal o = .ok content) :
    d.text + 3 * d.nodes + d.entries + 19 ≤ content.length ∧ content.length ≤ d.text + 41 * d.nodes + 54 := by
  rw [serialize_eq hw .normal hd hh] at hs
  cases hs
  obtain ⟨h1, h2⟩ := content_size w .normal d
  have h3 : (bodyOf w .normal d).2.2.sm = none := by
    have := (emitDoc_size w (rootDoc d) (env0 .normal)).1
    simpa [env0, initDict, bodyOf] using this
  rw [h3] at h1 h2
  have ht := root_text d
  simp only [initDict, Option.isSome_none, inPlace, Bool.false_eq_true, if_false, smKeys, total, List.map_nil, List.sum_nil] at h1 h2
  omega

/-- C78. With a dictionary every string and every key is stored once, however often it occurs: for any list of strings in which all strings
and keys of the document occur, the content is not longer than those strings, the byte arrays and values of user-defined types of the
document, 41 bytes for every value and a constant. -/
theorem C78_length_with_dictionary (w : Cfg) (hw : w.charSigned = true) (o : Obj) (d : Doc) (hd : o.doc? = some d) (hh : Writable w o)
    (content : Bytes) (hs : serialize w .replace o = .ok content) (l : List Bytes) (hl : ∀ s ∈ d.strings, s ∈ l) :
    content.length ≤ d.blobs + total l + 41 * d.nodes + 54 := by
  rw [serialize_eq hw .replace hd hh] at hs
  cases hs
  obtain ⟨h1, _⟩ := content_size w .replace d
  obtain ⟨h3, h4⟩ := emitDoc_keys w (rootDoc d) (env0 .replace) (by simp [env0, initDict, smKeys])
  have hle := total_le (smKeys (bodyOf w .replace d).2.2.sm) (rootKey :: l) h3 fun x hx => by
    rcases h4 x hx with hx | hx
    · simp [env0, initDict, smKeys] at hx
    · simp only [rootDoc, Doc.strings, stringsE, List.append_nil, List.mem_cons] at hx
      rcases hx with rfl | hx
      · exact List.mem_cons_self
      · exact List.mem_cons_of_mem _ (hl x hx)
  have hb := root_blobs d
  have ht : total (rootKey :: l) = 4 + total l := rfl
  simp only [initDict, Option.isSome_some, inPlace, if_true] at h1
  omega

/-- C78. And every one of them is stored: the content is not shorter than any of its strings and keys that are distinct (the key of the root
among them), with two bytes each, the byte arrays and values of user-defined types, three bytes for every value and one for every entry
of a map. -/
theorem C78_length_with_dictionary_at_least (w : Cfg) (hw : w.charSigned = true) (o : Obj) (d : Doc) (hd : o.doc? = some d)
    (hh : Writable w o) (content : Bytes) (hs : serialize w .replace o = .ok content) (l : List Bytes) (hn : l.Nodup)
    (hl : ∀ s ∈ l, s ∈ rootKey :: d.strings) :
    d.blobs + total l + 2 * l.length + 3 * d.nodes + d.entries + 17 ≤ content.length := by
  rw [serialize_eq hw .replace hd hh] at hs
  cases hs
  obtain ⟨_, h1⟩ := content_size w .replace d
  obtain ⟨h3, _⟩ := emitDoc_has w (rootDoc d) (env0 .replace) rfl
  have hle := weight_le (fun s => s.length + 2) l (smKeys (bodyOf w .replace d).2.2.sm) hn fun x hx => h3 x (by
    simpa only [rootDoc, Doc.strings, stringsE, List.append_nil] using hl x hx)
  rw [total_two, total_two] at hle
  have hk : (smKeys (bodyOf w .replace d).2.2.sm).length = smCount (bodyOf w .replace d).2.2.sm := by
    cases (bodyOf w .replace d).2.2.sm with
    | none => rfl
    | some m => exact List.length_map _
  have hb := root_blobs d
  simp only [initDict, Option.isSome_some, inPlace, if_true] at h1
  omega

/-- C78. In both formats the content is not longer than the text of the document, 41 bytes for every value, and 54. -/
theorem C78_length_at_most (w : Cfg) (hw : w.charSigned = true) (t : SeriType) (o : Obj) (d : Doc) (hd : o.doc? = some d) (hh : Writable w o)
    (content : Bytes) (hs : serialize w t o = .ok content) : content.length ≤ d.text + 41 * d.nodes + 54 := by
  cases t with
  | normal => exact (C78_length_without_dictionary w hw o d hd hh content hs).2
  | replace =>
    have := C78_length_with_dictionary w hw o d hd hh content hs d.strings fun _ h => h
    have h2 := text_split d
    omega

/-- C78. So a document of moderate size is within the limits of the format, whoever reads it: the other theorems that ask for this need not
look at the bytes. -/
theorem C78_small_documents_fit (w r : Cfg) (hw : w.charSigned = true) (t : SeriType) (o : Obj) (d : Doc) (hd : o.doc? = some d)
    (hh : Writable w o) (hsize : d.text + 41 * d.nodes + 54 < 2 ^ 31) (hmax : d.text + 41 * d.nodes + 54 ≤ r.strMax) :
    ∃ content, serialize w t o = .ok content ∧ Fits r content := by
  have hs := serialize_eq hw t hd hh
  have hle := C78_length_at_most w hw t o d hd hh _ hs
  exact ⟨_, hs, ⟨by omega, fun _ => by omega, by omega⟩⟩

/-- C78. The round trip for every document of moderate size, stated without looking at the bytes: with either format and either parser,
owning or (without values of user-defined types) in situ. -/
theorem C78_small_documents_round_trip (w r : Cfg) (hw : w.charSigned = true) (t : SeriType) (o : Obj) (d : Doc) (hd : o.doc? = some d)
    (hh : Writable w o) (hsize : d.text + 41 * d.nodes + 54 < 2 ^ 31) (hmax : d.text + 41 * d.nodes + 54 ≤ r.strMax)
    (ref : Bool) (hc : ref = true → d.noCustom = true) :
    ∃ content, serialize w t o = .ok content ∧
      (∀ k, ∃ o', Parses r ⟨false, ref, k⟩ content (.ok o') ∧ o'.doc? = some d.revMaps) ∧
      ∀ k, 0 < k → ∃ o' d', Parses r ⟨true, ref, k⟩ content (.ok o') ∧ o'.doc? = some d' ∧ d.Same d' := by
  obtain ⟨content, hs, hf⟩ := C78_small_documents_fit w r hw t o d hd hh hsize hmax
  have he := serialize_eq hw t hd hh
  rw [hs] at he
  cases he
  refine ⟨_, hs, fun k => ?_, fun k hk => ?_⟩
  · obtain ⟨o', h1, h2, _⟩ := parses_normal (extra := []) (by simpa using hf) ref hc k
    exact ⟨o', by simpa using h1, h2⟩
  · obtain ⟨o', d', h1, h2, h3, _⟩ := parses_co (extra := []) (by simpa using hf) ref hc hk
    exact ⟨o', d', by simpa using h1, h2, h3⟩

/-! ### Examples -/

/-- An empty array takes the 22 bytes that every content takes at least: the lower bound is exact. -/
example : (serialize Cfg.x86 .normal (.array .caller 0 [])).map List.length = .ok 22 ∧
    (Doc.array []).text + 3 * (Doc.array []).nodes + (Doc.array []).entries + 19 = 22 := by decide +kernel

/-- With a dictionary it takes 26 bytes, again what it takes at least: the table has one entry, the key of the root. -/
example : (serialize Cfg.x86 .replace (.array .caller 0 [])).map List.length = .ok 26 ∧
    (Doc.array []).blobs + total [rootKey] + 2 * [rootKey].length + 3 * (Doc.array []).nodes + (Doc.array []).entries + 17 = 26 := by
  decide +kernel

/-- A hundred times the same string: the dictionary stores it once. -/
def repeated (n : Nat) : Obj := .array .caller n (List.replicate n (.data false BRIDGE_STRING (.str (List.replicate 50 97))))
example : (serialize Cfg.x86 .normal (repeated 100)).map List.length = .ok 5322 ∧
    (serialize Cfg.x86 .replace (repeated 100)).map List.length = .ok 378 := by decide +kernel

/-- The hypotheses are met by the sample. -/
example (t : SeriType) := C78_small_documents_round_trip Cfg.x86 Cfg.x86 rfl t sampleObj sampleDoc sample_doc (sample_writable _)
  (by decide +kernel) (by decide +kernel) true (by decide)
example : sampleDoc.text = 7 ∧ sampleDoc.nodes = 5 ∧ sampleDoc.entries = 2 ∧ sampleDoc.blobs = 3 := by decide +kernel

end Bridge
