import Verif.Proof.Stream
import Verif.Props.Layout
import Verif.Props.Truncate
/-
C86: documents that are sent one after another.
-/
set_option autoImplicit false
namespace Bridge
open Spec

/-- `Serialize`, of some library and in some mode, has written these bytes for the document, and they are less than 4 GiB. -/
def WrittenFor (content : Bytes) (d : Doc) : Prop :=
  content.length < 2 ^ 32 ∧ ∃ (w : Cfg) (t : SeriType) (o : Obj), w.charSigned = true ∧ o.doc? = some d ∧ Writable w o ∧
    serialize w t o = .ok content

theorem WrittenFor.framed {content : Bytes} {d : Doc} (h : WrittenFor content d) : Framed content := by
  obtain ⟨hlt, w, t, o, hw, hd, hh, hs⟩ := h
  obtain ⟨c, flag, children, dict, table, h1, h2⟩ := C25_layout w hw t o d hd hh
  rw [hs] at h1
  cases h1
  obtain ⟨h3, -, -, h4, h5⟩ := h2 hlt
  have e : content = (bigEndian 8 (12 + children.length) ++ ([if t = SeriType.normal then 0 else 1, flag] ++ ([1, 1] ++ children))) ++
      (dict ++ (leb128 table.length ++ table)) := by rw [h3]; simp only [List.append_assoc]
  have hl : (bigEndian 8 (12 + children.length) ++ ([if t = SeriType.normal then (0 : UInt8) else 1, flag] ++ ([1, 1] ++ children))).length =
      12 + children.length := by simp [bigEndian_length]; omega
  have hlt' : 12 + children.length < 2 ^ 32 := by
    rw [e, List.length_append, hl] at hlt; omega
  rw [e]
  refine framed_layout ?_ (by rw [hl]; omega) (by rw [hl]; exact hlt') ?_
  · rw [hl, List.take_append_of_le_length (by rw [bigEndian_length]; omega), List.take_of_length_le (by rw [bigEndian_length]; omega)]
  · have h8 : (bigEndian 8 (12 + children.length) ++ ([if t = SeriType.normal then (0 : UInt8) else 1, flag] ++ ([1, 1] ++ children)))[8]? =
        some (if t = .normal then 0 else 1) := by
      rw [List.getElem?_append_right (by rw [bigEndian_length]; omega), bigEndian_length]; rfl
    rw [h8]
    cases t with
    | normal => exact .inl ⟨rfl, h4 rfl⟩
    | replace => exact .inr ⟨by decide, h5 rfl⟩

/-- C86. The end of a written document can be found from its bytes alone, whatever follows it. -/
theorem C86_end_is_found (content : Bytes) (d : Doc) (h : WrittenFor content d) (rest : Bytes) :
    afterFirst (content ++ rest) = some rest := h.framed.found rest

/-- C86. As long as any byte of it is missing, that can be told from the bytes that are there. -/
theorem C86_incomplete_is_noticed (content : Bytes) (d : Doc) (h : WrittenFor content d) (k : Nat) (hk : k < content.length) :
    afterFirst (content.take k) = none := h.framed.short k hk

/-- C86. Documents sent one after another arrive one by one: however the bytes are cut into chunks on the way, a receiver that takes off
complete documents gets exactly the documents that were written, in order, and has nothing left over. -/
theorem C86_any_chunks (l : List (Bytes × Doc)) (hl : ∀ x ∈ l, WrittenFor x.1 x.2) (chunks : List Bytes)
    (h : chunks.flatten = (l.map Prod.fst).flatten) : receive [] chunks = (l.map Prod.fst, []) := by
  refine receive_all chunks [] _ (fun x hx => ?_) afterFirst_nil (by simpa using h)
  obtain ⟨y, hy, rfl⟩ := List.mem_map.mp hx
  exact (hl y hy).framed

/-- C86. At no time has the receiver got anything but the documents whose bytes have all arrived: what has been received after some of the
chunks is a beginning of the list, and the bytes it keeps are a beginning of the rest that is not a complete document. -/
theorem C86_at_any_time (l : List (Bytes × Doc)) (hl : ∀ x ∈ l, WrittenFor x.1 x.2) (sofar later : Bytes)
    (h : sofar ++ later = (l.map Prod.fst).flatten) :
    ∃ a b : List (Bytes × Doc), ∃ r : Bytes, l = a ++ b ∧ cutAll sofar = (a.map Prod.fst, r) ∧ sofar = (a.map Prod.fst).flatten ++ r ∧
      ∀ x ∈ b.head?, r.length < x.1.length := by
  obtain ⟨a, b, r, h1, h2, h3, h4⟩ := cutAll_prefix (l.map Prod.fst) (fun x hx => by
    obtain ⟨y, hy, rfl⟩ := List.mem_map.mp hx
    exact (hl y hy).framed) sofar later h
  obtain ⟨a', b', rfl, rfl, rfl⟩ := List.map_eq_append_iff.mp h1
  refine ⟨a', b', r, rfl, h2, ?_, fun x hx => ?_⟩
  · have e : sofar ++ later = (a'.map Prod.fst).flatten ++ r ++ later := by
      rw [h, List.append_assoc, h4, List.map_append, List.flatten_append]
    exact List.append_cancel_right e
  · cases b' with
    | nil => cases hx
    | cons y ys =>
      cases hx
      refine Nat.lt_of_not_le fun hle => ?_
      have hy := (hl x (by simp)).framed
      rw [List.map_cons, List.flatten_cons] at h4
      obtain ⟨r', hr⟩ : ∃ r', r = x.1 ++ r' := by
        have := congrArg (List.take x.1.length) h4
        rw [List.take_append_of_le_length hle, List.take_left] at this
        have h2 := List.take_append_drop x.1.length r
        rw [this] at h2
        exact ⟨_, h2.symm⟩
      rw [hr, hy.found] at h3
      cases h3

/-- C86. Also if the bytes go bad: whatever follows a sequence of documents, and however it is cut into chunks, the documents in front of it
are received first, unchanged and in order. -/
theorem C86_good_before_bad (l : List (Bytes × Doc)) (hl : ∀ x ∈ l, WrittenFor x.1 x.2) (bad : Bytes) (chunks : List Bytes)
    (h : chunks.flatten = (l.map Prod.fst).flatten ++ bad) :
    ∃ more rest, receive [] chunks = (l.map Prod.fst ++ more, rest) ∧ more.flatten ++ rest = bad := by
  rw [receive_cut chunks [] afterFirst_nil, List.nil_append, h, cutAll_good _ (fun x hx => by
    obtain ⟨y, hy, rfl⟩ := List.mem_map.mp hx
    exact (hl y hy).framed)]
  exact ⟨_, _, rfl, (cutAll_later _ bad rfl).2.1⟩

/-- C86. What is received depends on the bytes only, not on the chunks, whatever the bytes are. -/
theorem C86_chunks_do_not_matter (chunks chunks' : List Bytes) (h : chunks.flatten = chunks'.flatten) : receive [] chunks = receive [] chunks' := by
  rw [receive_cut chunks [] afterFirst_nil, receive_cut chunks' [] afterFirst_nil, h]

/-- C86. A sequence of bytes is at most one sequence of written documents, whoever wrote them: two sequences of documents (of any libraries,
in any modes) whose bytes are the same when they are put together are the same documents. -/
theorem C86_streams_are_unique (l l' : List (Bytes × Doc)) (hl : ∀ x ∈ l, WrittenFor x.1 x.2) (hl' : ∀ x ∈ l', WrittenFor x.1 x.2)
    (h : (l.map Prod.fst).flatten = (l'.map Prod.fst).flatten) : l = l' := by
  have h1 := C86_any_chunks l hl [(l.map Prod.fst).flatten] (by simp)
  have h2 := C86_any_chunks l' hl' [(l.map Prod.fst).flatten] (by simp [h])
  rw [h1] at h2
  have hm : l.map Prod.fst = l'.map Prod.fst := (Prod.mk.inj h2).1
  clear h h1 h2
  induction l generalizing l' with
  | nil =>
    cases l' with
    | nil => rfl
    | cons => cases hm
  | cons x xs ih =>
    cases l' with
    | nil => cases hm
    | cons y ys =>
      obtain ⟨c, d⟩ := x
      obtain ⟨c', d'⟩ := y
      rw [List.map_cons, List.map_cons, List.cons.injEq] at hm
      obtain ⟨hc, hm⟩ := hm
      simp only at hc
      subst hc
      obtain ⟨hlt, w, t, o, hw, hd, hh, hs⟩ := hl (c, d) (by simp)
      obtain ⟨-, w', t', o', hw', hd', hh', hs'⟩ := hl' (c, d') (by simp)
      have := C50_injective w w' hw hw' t t' o o' d d' hd hd' hh hh' c hlt hs hs'
      subst this
      rw [ih ys (fun x hx => hl x (by simp [hx])) (fun x hx => hl' x (by simp [hx])) hm]

/-- C86. No written document is the beginning of another. -/
theorem C86_prefix_free (c c' : Bytes) (d d' : Doc) (h : WrittenFor c d) (h' : WrittenFor c' d') (rest : Bytes) (he : c ++ rest = c') :
    rest = [] ∧ d = d' := by
  have h1 := h.framed.found rest
  have h2 := h'.framed.found []
  rw [List.append_nil, ← he, h1] at h2
  have hr : rest = [] := by simpa using h2
  subst hr
  rw [List.append_nil] at he
  subst he
  have := C86_streams_are_unique [(c, d)] [(c, d')] (by simpa using h) (by simpa using h') rfl
  exact ⟨rfl, by simpa using this⟩

/-- C86. What the receiver gets parses to the documents that were sent, with both parsers and in both modes; and so do the bytes of a
document with those of the following ones still behind it, so a program can parse in place, where the bytes have arrived. -/
theorem C86_each_parses (r : Cfg) (content : Bytes) (d : Doc) (h : WrittenFor content d) (rest : Bytes) (hf : Fits r (content ++ rest))
    (ref : Bool) (hc : ref = true → d.noCustom = true) (co : Bool) (k : Nat) (hk : 0 < k) :
    ∃ o' d', Parses r ⟨co, ref, k⟩ (content ++ rest) (.ok o') ∧ o'.doc? = some d' ∧ d.Same d' := by
  obtain ⟨-, w, t, o, hw, hd, hh, hs⟩ := h
  rw [serialize_eq hw t hd hh] at hs
  cases hs
  cases co with
  | false =>
    obtain ⟨o', h1, h2, -⟩ := parses_normal hf ref hc k
    exact ⟨o', _, h1, h2, same_revMaps d⟩
  | true =>
    obtain ⟨o', d', h1, h2, h3, -⟩ := parses_co hf ref hc hk
    exact ⟨o', d', h1, h2, h3⟩

/-- C86, limits: the length at the front of a document is not the length of the document.  A receiver that goes by it alone cuts off the
tables, and what it then hands to `Parse` is never accepted. -/
theorem C86_the_length_in_front_is_short (content : Bytes) (d : Doc) (h : WrittenFor content d) :
    bigValue (content.take 8) < content.length ∧ ∀ (r : Cfg) (po : ParseOption),
      ∃ e, Parses r po (content.take (bigValue (content.take 8))) (.error (.exn e)) ∧ e.isRuntimeError = true := by
  obtain ⟨hlt, w, t, o, hw, hd, hh, hs⟩ := h
  obtain ⟨c, total, h1, h2⟩ := C26_cut_main w hw t o d hd hh
  rw [hs] at h1
  cases h1
  obtain ⟨h3, -, h4, h5⟩ := h2 hlt
  have hb : bigValue (content.take 8) = total := by rw [h3, bigValue_big 8 _ (by omega)]
  rw [hb]
  exact ⟨h4, fun r po => h5 r po total (Nat.le_refl _)⟩

/-! ### A concrete case -/

theorem sample_written (t : SeriType) : ∃ c d, serialize Cfg.x86 t sampleObj = .ok c ∧ WrittenFor c d := by
  have hd : ∃ d, sampleObj.doc? = some d := ⟨_, rfl⟩
  obtain ⟨d, hd⟩ := hd
  have hw : Writable Cfg.x86 sampleObj := by simp [sampleObj, Writable, Obj.Hard, hardE, hardL, leafHard]
  have hs := serialize_eq (cfg := Cfg.x86) rfl t hd hw
  refine ⟨_, d, hs, ?_, Cfg.x86, t, sampleObj, rfl, hd, hw, hs⟩
  have hl : (serialize Cfg.x86 t sampleObj).toOption.any (fun c => c.length < 2 ^ 32) = true := by
    cases t <;> decide +kernel
  rw [hs] at hl
  simpa [Except.toOption] using hl

/-- The sample without and with a dictionary, one after the other. -/
def streamSample : Bytes :=
  (serialize Cfg.x86 .normal sampleObj).toOption.getD [] ++ (serialize Cfg.x86 .replace sampleObj).toOption.getD []

/-- In three chunks that are cut in the middle of the documents: nothing after the first, the first document after the second, the second
after the third. -/
example : (cutAll (streamSample.take 40)).1.length = 0 ∧ (cutAll (streamSample.take 70)).1.length = 1 ∧
    (receive [] [streamSample.take 40, (streamSample.drop 40).take 30, streamSample.drop 70]).1.length = 2 ∧
    (receive [] [streamSample.take 40, (streamSample.drop 40).take 30, streamSample.drop 70]).2 = [] := by
  decide +kernel

end Bridge
