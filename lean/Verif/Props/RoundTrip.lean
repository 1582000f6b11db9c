import Verif.Props.Common
import Verif.Proof.Same
/-
C07 – C09, C12: Parse after Serialize.
In all of them `w` is the build that writes and `r` the build that reads; they may differ in endianness, assertions, hash
table order and (for the reader) signedness of `char`.
-/
set_option autoImplicit false
namespace Bridge
open Spec

theorem sample_doc : sampleObj.doc? = some sampleDoc := rfl

theorem sample_writable (w : Cfg) : Writable w sampleObj := by
  simp [Obj.Hard, sampleObj, hardE, hardL, leafHard]

theorem Fits.contentOk {r w : Cfg} {t : SeriType} {d : Doc} {extra : Bytes} (h : Fits r (contentOf w t d ++ extra)) :
    ContentOk r w t d extra :=
  ⟨⟨by have := h.lt; omega, h.small⟩, by have := h.lt; simp only [List.length_append] at this; omega, h.max⟩

theorem parses_normal {r w : Cfg} {t : SeriType} {d : Doc} {extra : Bytes} (h : Fits r (contentOf w t d ++ extra)) (ref : Bool)
    (hc : ref = true → d.noCustom = true) (k : Nat) :
    ∃ o, Parses r ⟨false, ref, k⟩ (contentOf w t d ++ extra) (.ok o) ∧ o.doc? = some d.revMaps ∧
      o.Built (contentOf w t d ++ extra) ref .caller := by
  obtain ⟨o, h1, h2, h3⟩ := parse_normal h.contentOk ref hc k (Nat.le_refl _)
  exact ⟨o, ⟨by simp, _, fun fuel hf => parse_mono h1 (by simp) hf⟩, h2, h3⟩

theorem parses_co {r w : Cfg} {t : SeriType} {d : Doc} {extra : Bytes} (h : Fits r (contentOf w t d ++ extra)) (ref : Bool)
    (hc : ref = true → d.noCustom = true) {k : Nat} (hk : 0 < k) :
    ∃ o d', Parses r ⟨true, ref, k⟩ (contentOf w t d ++ extra) (.ok o) ∧ o.doc? = some d' ∧ d.Same d' ∧
      o.Built (contentOf w t d ++ extra) ref (if (bodyOf w t d).2.1 then .frame else .caller) := by
  obtain ⟨o, d', h1, h2, h3, h4⟩ := parse_co h.contentOk ref hc hk (Nat.le_refl _)
  exact ⟨o, d', ⟨by simp, _, fun fuel hf => parse_mono h1 (by simp) hf⟩, h2, h3, h4⟩

/-- The outcome of a call is unique. -/
theorem Parses.unique {cfg : Cfg} {po : ParseOption} {content : Bytes} {a b : Res Obj} (ha : Parses cfg po content a)
    (hb : Parses cfg po content b) : a = b := by
  obtain ⟨_, n, hn⟩ := ha
  obtain ⟨_, m, hm⟩ := hb
  rw [← hn (max n m) (Nat.le_max_left _ _), hm (max n m) (Nat.le_max_right _ _)]

/-! ### C07 – C09 -/

/-- C07. `Serialize` of a tree of valid values succeeds, and the default `Parse` of the bytes returns the same document,
the entries of every map in the opposite order. -/
theorem C07_serialize_parse (w r : Cfg) (hw : w.charSigned = true) (o : Obj) (d : Doc) (hd : o.doc? = some d)
    (hh : Writable w o) :
    ∃ content, serialize w .normal o = .ok content ∧
      (Fits r content → ∃ o', Parses r {} content (.ok o') ∧ o'.doc? = some d.revMaps) := by
  refine ⟨_, serialize_eq hw .normal hd hh, fun hf => ?_⟩
  obtain ⟨o', h1, h2, _⟩ := parses_normal (extra := []) (by simpa using hf) false (by simp) 1
  exact ⟨o', by simpa using h1, h2⟩

example : Fits Cfg.x86 ((serialize Cfg.x86 .normal sampleObj).toOption.getD []) ∧
    (serialize Cfg.x86 .normal sampleObj).toOption.isSome = true ∧
    ((parse Cfg.x86 {} 50 ((serialize Cfg.x86 .normal sampleObj).toOption.getD [])).toOption.map fun o =>
      ((o.wKey [107]).wIdx 0).wGet .i32) = some (.ok (some (.i32 7))) :=
  ⟨⟨by decide +kernel, by decide +kernel, by decide +kernel⟩, by decide +kernel, by decide +kernel⟩

/-- C08. The dictionary encoding is transparent: whatever the hash tables do, a tree written with `REPLACE` by one build and
with `NORMAL` by another (both read by the default `Parse`) gives the same document. -/
theorem C08_dictionary_transparent (w w' r : Cfg) (hw : w.charSigned = true) (hw' : w'.charSigned = true) (o : Obj) (d : Doc)
    (hd : o.doc? = some d) (hh : Writable w o) (hh' : Writable w' o) (ref : Bool) (hc : ref = true → d.noCustom = true) :
    ∃ c c', serialize w .replace o = .ok c ∧ serialize w' .normal o = .ok c' ∧
      (Fits r c → Fits r c' → ∃ o1 o2, Parses r { parseRef := ref } c (.ok o1) ∧ Parses r { parseRef := ref } c' (.ok o2) ∧
        o1.doc? = some d.revMaps ∧ o2.doc? = some d.revMaps) := by
  refine ⟨_, _, serialize_eq hw .replace hd hh, serialize_eq hw' .normal hd hh', fun hf hf' => ?_⟩
  obtain ⟨o1, h1, h2, _⟩ := parses_normal (extra := []) (by simpa using hf) ref hc 1
  obtain ⟨o2, h3, h4, _⟩ := parses_normal (extra := []) (by simpa using hf') ref hc 1
  exact ⟨o1, o2, by simpa using h1, by simpa using h3, h2, h4⟩

/-- C08: the same for the coroutine parser, up to the order of map entries. -/
theorem C08_dictionary_transparent_parallel (w w' r : Cfg) (hw : w.charSigned = true) (hw' : w'.charSigned = true) (o : Obj)
    (d : Doc) (hd : o.doc? = some d) (hh : Writable w o) (hh' : Writable w' o) (ref : Bool)
    (hc : ref = true → d.noCustom = true) (k : Nat) (hk : 0 < k) :
    ∃ c c', serialize w .replace o = .ok c ∧ serialize w' .normal o = .ok c' ∧
      (Fits r c → Fits r c' → ∃ o1 o2 d1 d2, Parses r ⟨true, ref, k⟩ c (.ok o1) ∧ Parses r ⟨true, ref, k⟩ c' (.ok o2) ∧
        o1.doc? = some d1 ∧ o2.doc? = some d2 ∧ d1.Same d2 ∧ d.Same d1) := by
  refine ⟨_, _, serialize_eq hw .replace hd hh, serialize_eq hw' .normal hd hh', fun hf hf' => ?_⟩
  obtain ⟨o1, d1, h1, h2, h3, _⟩ := parses_co (extra := []) (by simpa using hf) ref hc hk
  obtain ⟨o2, d2, h4, h5, h6, _⟩ := parses_co (extra := []) (by simpa using hf') ref hc hk
  exact ⟨o1, o2, d1, d2, by simpa using h1, by simpa using h4, h2, h5, same_trans (same_symm h3) h6, h3⟩

/-- An owning tree with a repeated string, written with a dictionary whose table iterates backwards. -/
example :
    let w : Cfg := { Cfg.x86 with smOrd := List.reverse, smPerm := fun l => List.reverse_perm l }
    let o : Obj := .array .caller 2 [.data false BRIDGE_STRING (.str [104, 105]), .data false BRIDGE_STRING (.str [104, 105])]
    serialize w .replace o =
        .ok [0, 0, 0, 0, 0, 0, 0, 22, 1, 0, 1, 1, 0, 2, 2, 2, 0, 1, 1, 0, 1, 1, 11, 2, 2, 104, 105, 1, 4, 114, 111, 111, 116, 0,
          1, 0] ∧
      Writable w o := ⟨by decide +kernel, by simp [Obj.Hard, hardL, leafHard]⟩

/-- C09. Parsing in situ shows the same document, in the same order, as parsing with copies, for both encodings. -/
theorem C09_in_situ_same (w r : Cfg) (hw : w.charSigned = true) (t : SeriType) (o : Obj) (d : Doc) (hd : o.doc? = some d)
    (hh : Writable w o) (hc : d.noCustom = true) :
    ∃ content, serialize w t o = .ok content ∧
      (Fits r content → ∃ o1 o2, Parses r { parseRef := true } content (.ok o1) ∧ Parses r { parseRef := false } content (.ok o2) ∧
        o1.doc? = o2.doc? ∧ o1.doc? = some d.revMaps) := by
  refine ⟨_, serialize_eq hw t hd hh, fun hf => ?_⟩
  obtain ⟨o1, h1, h2, _⟩ := parses_normal (extra := []) (by simpa using hf) true (fun _ => hc) 1
  obtain ⟨o2, h3, h4, _⟩ := parses_normal (extra := []) (by simpa using hf) false (by simp) 1
  exact ⟨o1, o2, by simpa using h1, by simpa using h3, by rw [h2, h4], h2⟩

example : sampleDoc.noCustom = true ∧ sampleObj.doc? = some sampleDoc ∧ Writable Cfg.x86 sampleObj :=
  ⟨rfl, sample_doc, sample_writable _⟩

/-! ### C12 -/

/-- C12. The coroutine parser returns the same document as the normal parser: arrays in the same order, maps with the same
entries, for both encodings, owning and in situ, and any positive number of workers. -/
theorem C12_parallel_same (w r : Cfg) (hw : w.charSigned = true) (t : SeriType) (o : Obj) (d : Doc) (hd : o.doc? = some d)
    (hh : Writable w o) (ref : Bool) (hc : ref = true → d.noCustom = true) (k : Nat) (hk : 0 < k) :
    ∃ content, serialize w t o = .ok content ∧
      (Fits r content → ∃ o1 o2 d1 d2, Parses r ⟨true, ref, k⟩ content (.ok o1) ∧ Parses r ⟨false, ref, k⟩ content (.ok o2) ∧
        o1.doc? = some d1 ∧ o2.doc? = some d2 ∧ d1.Same d2 ∧ d.Same d1) := by
  refine ⟨_, serialize_eq hw t hd hh, fun hf => ?_⟩
  obtain ⟨o1, d1, h1, h2, h3, _⟩ := parses_co (extra := []) (by simpa using hf) ref hc hk
  obtain ⟨o2, h4, h5, _⟩ := parses_normal (extra := []) (by simpa using hf) ref hc k
  exact ⟨o1, o2, d1, _, by simpa using h1, by simpa using h4, h2, h5, same_trans (same_symm h3) (same_revMaps d), h3⟩

/-- The sample with blocks of ten bytes is split and parsed by three block tasks. -/
example :
    let w : Cfg := { Cfg.x86 with blockSize := 10 }
    ((serialize w .normal sampleObj).toOption.getD [])[9]? = some 0x0A ∧
    ((parse w ⟨true, false, 4⟩ 50 ((serialize w .normal sampleObj).toOption.getD [])).toOption.map fun o =>
      ((o.wKey [107]).wIdx 1).wGet .string) = some (.ok (some (.string [104, 105]))) := by decide +kernel

end Bridge
