import Verif.Props.RoundTrip
/-
C38: containers that `Parse` returned.
-/
set_option autoImplicit false
namespace Bridge
open Spec

/-! ### C38 -/

/-- `x` is `o` or a value somewhere inside it. -/
inductive Obj.Within : Obj → Obj → Prop
  | self (o : Obj) : Obj.Within o o
  | elem {x y : Obj} {pool : PoolRef} {n : Nat} {items : List Obj} : y ∈ items → Obj.Within x y → Obj.Within x (.array pool n items)
  | entry {x y : Obj} {k : Str} {ref : Bool} {pool : PoolRef} {n : Nat} {items : List (Str × Obj)} :
      (k, y) ∈ items → Obj.Within x y → Obj.Within x (.map ref pool n items)

theorem builtL_mem {mem : Bytes} {ref : Bool} {pool : PoolRef} {os : List Obj} {o : Obj} (h : builtL mem ref pool os) (hm : o ∈ os) :
    o.Built mem ref pool := by
  induction os with
  | nil => cases hm
  | cons x xs ih =>
    rcases List.mem_cons.mp hm with rfl | hm
    · exact h.1
    · exact ih h.2 hm

theorem builtE_mem {mem : Bytes} {ref : Bool} {pool : PoolRef} {os : List (Str × Obj)} {k : Str} {o : Obj}
    (h : builtE mem ref pool os) (hm : (k, o) ∈ os) : o.Built mem ref pool := by
  induction os with
  | nil => cases hm
  | cons x xs ih =>
    obtain ⟨k', x⟩ := x
    rcases List.mem_cons.mp hm with he | hm
    · cases he; exact h.2.1
    · exact ih h.2.2 hm

theorem built_within {mem : Bytes} {ref : Bool} {pool : PoolRef} {x o : Obj} (hw : x.Within o) : o.Built mem ref pool →
    x.Built mem ref pool := by
  induction hw with
  | self => exact id
  | elem hm _ ih => intro h; exact ih (builtL_mem h.2 hm)
  | entry hm _ ih => intro h; exact ih (builtE_mem h.2.2 hm)

/-- What `Insert` is supposed to do to a container: the new element comes first in the written order. -/
def InsertsInto (o : Obj) : Prop :=
  match o with
  | .array pool n items => ∀ (v : Obj) (d : Doc) (ds : List Doc), v.doc? = some d → o.doc? = some (.array ds) →
      ds.length + 1 < 2 ^ 64 → ∃ a, ArrayS.insert ⟨pool, n, items⟩ v = .ok a ∧ a.toObj.doc? = some (.array (d :: ds))
  | .map ref pool n items => ∀ (k : Str) (v : Obj) (d : Doc) (es : List (Bytes × Doc)), v.doc? = some d →
      o.doc? = some (.map es) → es.length + 1 < 2 ^ 64 →
      ∃ m, MapS.insert ⟨ref, pool, n, items⟩ k v = .ok m ∧ m.toObj.doc? = some (.map ((k.bytes, d) :: es))
  | _ => True

theorem inserts_caller {mem : Bytes} {ref : Bool} {o : Obj} (h : o.Built mem ref .caller) : InsertsInto o := by
  cases o with
  | null => trivial
  | data r dt p => trivial
  | array pool n items =>
    obtain ⟨rfl, -⟩ := h
    intro v d ds hv ho hlt
    simp only [Obj.doc?] at ho
    split at ho
    · rename_i hn
      simp only [Option.map_eq_some_iff, Doc.array.injEq] at ho
      obtain ⟨ds', h1, rfl⟩ := ho
      have hl := docs?_length h1
      refine ⟨_, rfl, ?_⟩
      simp only [ArrayS.toObj, Obj.doc?, hn, List.length_cons]
      rw [addW_of_lt (by omega), if_pos rfl]
      simp [docs?, hv, h1]
    · cases ho
  | map r pool n items =>
    obtain ⟨-, rfl, -⟩ := h
    intro k v d es hv ho hlt
    simp only [Obj.doc?] at ho
    split at ho
    · rename_i hn
      simp only [Option.map_eq_some_iff, Doc.map.injEq] at ho
      obtain ⟨ds', h1, rfl⟩ := ho
      have hl := entries?_length h1
      refine ⟨_, rfl, ?_⟩
      simp only [MapS.toObj, Obj.doc?, hn, List.length_cons]
      rw [addW_of_lt (by omega), if_pos rfl]
      have hk : (storeKey r k).bytes = k.bytes := by unfold storeKey; split <;> rfl
      simp [entries?, hv, h1, hk]
    · cases ho

theorem content_flag (w : Cfg) (t : SeriType) (d : Doc) :
    (contentOf w t d)[9]? = some (if (bodyOf w t d).2.1 then 0x0A else 0x00) := by
  have hb : ∀ n, (bigEndian 8 n).length = 8 := fun n => bigEndian_length 8 n
  unfold contentOf headOf
  rw [List.append_assoc, List.getElem?_append_right (by rw [hb]; omega), hb]
  rfl

/-- C38. Every container of a document returned by the normal parser, at any depth, can be extended with `Insert`, with either
encoding and whether parsed with copies or in situ. -/
theorem C38_normal_extendable (w r : Cfg) (hw : w.charSigned = true) (t : SeriType) (o : Obj) (d : Doc) (hd : o.doc? = some d)
    (hh : Writable w o) (ref : Bool) (hc : ref = true → d.noCustom = true) (k : Nat) :
    ∃ content, serialize w t o = .ok content ∧ (Fits r content → ∃ o', Parses r ⟨false, ref, k⟩ content (.ok o') ∧
      ∀ x, x.Within o' → InsertsInto x) := by
  refine ⟨_, serialize_eq hw t hd hh, fun hf => ?_⟩
  obtain ⟨o', h1, h2, h3⟩ := parses_normal (extra := []) (by simpa using hf) ref hc k
  exact ⟨o', by simpa using h1, fun x hx => inserts_caller (built_within hx h3)⟩

/-- C38: the same for the coroutine parser when the document is not split (its flag byte is zero). -/
theorem C38_unsplit_extendable (w r : Cfg) (hw : w.charSigned = true) (t : SeriType) (o : Obj) (d : Doc) (hd : o.doc? = some d)
    (hh : Writable w o) (ref : Bool) (hc : ref = true → d.noCustom = true) (k : Nat) (hk : 0 < k) :
    ∃ content, serialize w t o = .ok content ∧ (Fits r content → content[9]? = some 0 →
      ∃ o', Parses r ⟨true, ref, k⟩ content (.ok o') ∧ ∀ x, x.Within o' → InsertsInto x) := by
  refine ⟨_, serialize_eq hw t hd hh, fun hf h9 => ?_⟩
  obtain ⟨o', d', h1, h2, h3, h4⟩ := parses_co (extra := []) (by simpa using hf) ref hc hk
  rw [content_flag] at h9
  cases hs : (bodyOf w t d).2.1 with
  | true => rw [hs] at h9; simp at h9
  | false =>
    rw [hs] at h4
    exact ⟨o', by simpa using h1, fun x hx => inserts_caller (built_within hx h4)⟩

/-- C38 fails for a split document parsed by coroutines: `Insert` on any container of the result, at any depth, allocates from a
pool that was destroyed when its coroutine finished, which is undefined behaviour. -/
theorem C38_split_parallel_dangles (w r : Cfg) (hw : w.charSigned = true) (t : SeriType) (o : Obj) (d : Doc)
    (hd : o.doc? = some d) (hh : Writable w o) (ref : Bool) (hc : ref = true → d.noCustom = true) (k : Nat) (hk : 0 < k) :
    ∃ content, serialize w t o = .ok content ∧ (Fits r content → content[9]? = some 0x0A →
      ∃ o', Parses r ⟨true, ref, k⟩ content (.ok o') ∧
        (∀ pool n items, (Obj.array pool n items).Within o' →
          ∀ v, ArrayS.insert ⟨pool, n, items⟩ v = .error (.ub .danglingPool)) ∧
        (∀ rf pool n items, (Obj.map rf pool n items).Within o' →
          ∀ key v, MapS.insert ⟨rf, pool, n, items⟩ key v = .error (.ub .danglingPool))) := by
  refine ⟨_, serialize_eq hw t hd hh, fun hf h9 => ?_⟩
  obtain ⟨o', d', h1, h2, h3, h4⟩ := parses_co (extra := []) (by simpa using hf) ref hc hk
  rw [content_flag] at h9
  cases hs : (bodyOf w t d).2.1 with
  | false => rw [hs] at h9; simp at h9
  | true =>
    rw [hs] at h4
    refine ⟨o', by simpa using h1, ?_, ?_⟩
    · intro pool n items hx v
      have hb := built_within hx h4
      simp only [Obj.Built, if_true] at hb
      simp [ArrayS.insert, hb.1]
    · intro rf pool n items hx key v
      have hb := built_within hx h4
      simp only [Obj.Built, if_true] at hb
      simp [MapS.insert, hb.2.1]

/-- Both cases occur: the sample is not split with the usual block size and is split with blocks of ten bytes. -/
example :
    let w : Cfg := { Cfg.x86 with blockSize := 10 }
    ((serialize Cfg.x86 .normal sampleObj).toOption.getD [])[9]? = some 0 ∧
    ((serialize w .normal sampleObj).toOption.getD [])[9]? = some 0x0A ∧ sampleObj.doc? = some sampleDoc ∧ Writable w sampleObj :=
  ⟨by decide +kernel, by decide +kernel, sample_doc, sample_writable _⟩

end Bridge
