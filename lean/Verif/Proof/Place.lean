import Verif.Spec.Place
import Verif.Proof.Format
/-
What `Serialize` writes in front of and behind a value does not depend on the value, but on its type and length only.
-/
set_option autoImplicit false
namespace Bridge
open Spec

theorem emitStr_none {b : Bytes} {e : Env} (h : e.sm = none) : emitStr b e = (lenB b.length ++ b, e) := by
  unfold emitStr; rw [h]

theorem emitContainer_sm {cfg : Cfg} {count id : Nat} {chunks : List Bytes} {e : Env} : (emitContainer cfg count id chunks e).2.2.sm = e.sm := by
  unfold emitContainer
  split <;> rfl

mutual
theorem emitDoc_none (cfg : Cfg) : ∀ (d : Doc) (e : Env), e.sm = none → (emitDoc cfg d e).2.2.sm = none
  | .scalar s, e, h => by
    simp only [emitDoc]
    cases s <;> simp only [emitScalar, emitStr_none h] <;> exact h
  | .array xs, e, h => by
    simp only [emitDoc, emitContainer_sm]
    exact emitItems_none cfg xs _ h
  | .map es, e, h => by
    simp only [emitDoc, emitContainer_sm]
    exact emitKVs_none cfg es _ h
theorem emitItems_none (cfg : Cfg) : ∀ (xs : List Doc) (e : Env), e.sm = none → (emitItems cfg xs e).2.sm = none
  | [], _, h => h
  | x :: xs, e, h => emitItems_none cfg xs _ (emitDoc_none cfg x e h)
theorem emitKVs_none (cfg : Cfg) : ∀ (xs : List (Bytes × Doc)) (e : Env), e.sm = none → (emitKVs cfg xs e).2.sm = none
  | [], _, h => h
  | (k, x) :: xs, e, h => by
    simp only [emitKVs, emitStr_none h]
    exact emitKVs_none cfg xs _ (emitDoc_none cfg x e h)
end

theorem emitScalar_plain {s : Scalar} {e : Env} (h : e.sm = none ∨ s.code ≠ 1) :
    emitScalar s e = (s.code :: (lenB s.payload.length ++ s.payload), e) := by
  cases s with
  | string b =>
    rcases h with h | h
    · simp only [emitScalar, emitStr_none h, Scalar.payload, Scalar.code]; rfl
    · exact absurd rfl h
  | _ => rfl

/-- What is written around the place, when the values that are put there have the code `c` and `n` bytes. -/
theorem emit_place (cfg : Cfg) (c : UInt8) (n : Nat) : ∀ (p : Place) (e : Env), (e.sm = none ∨ (c ≠ 1 ∧ p.isKey = false)) →
    ∃ (pre post : Bytes) (sp : Bool) (e' : Env) (ty : ObjectType), ∀ s : Scalar, s.code = c → s.payload.length = n →
      emitDoc cfg (p.fill s) e = (pre ++ s.payload ++ post, sp, e') ∧ docType (p.fill s) = ty := by
  intro p
  induction p with
  | here =>
    intro e h
    refine ⟨c :: lenB n, [], false, e, .data, fun s hc hn => ⟨?_, rfl⟩⟩
    simp only [Place.fill, emitDoc]
    rw [emitScalar_plain (h.imp id fun h => by rw [hc]; exact h.1), hc, hn]
    simp
  | elem before p after ih =>
    intro e h
    have items : ∀ (before : List Doc) (e : Env), (e.sm = none ∨ (c ≠ 1 ∧ p.isKey = false)) →
        ∃ (cs : List Bytes) (pre post : Bytes) (cs' : List Bytes) (e' : Env), ∀ s : Scalar, s.code = c → s.payload.length = n →
          emitItems cfg (before ++ p.fill s :: after) e = (cs ++ (pre ++ s.payload ++ post) :: cs', e') := by
      intro before
      induction before with
      | nil =>
        intro e h
        obtain ⟨pre, post, sp, e', ty, hd⟩ := ih e h
        refine ⟨[], tagByte ty sp :: pre, post, (emitItems cfg after e').1, (emitItems cfg after e').2, fun s hc hn => ?_⟩
        obtain ⟨h1, h2⟩ := hd s hc hn
        simp only [List.nil_append, emitItems, h1, h2]
        rfl
      | cons x xs ihx =>
        intro e h
        obtain ⟨cs, pre, post, cs', e', hd⟩ := ihx (emitDoc cfg x e).2.2 (h.imp (emitDoc_none cfg x e) id)
        refine ⟨(tagByte (docType x) (emitDoc cfg x e).2.1 :: (emitDoc cfg x e).1) :: cs, pre, post, cs', e', fun s hc hn => ?_⟩
        simp only [List.cons_append, emitItems, hd s hc hn]
    obtain ⟨cs, pre, post, cs', e', hd⟩ := items before { e with si := e.si.requestId.1 } h
    have hb : ∀ x : Bytes, x.length = n → blocksOf cfg (cs ++ (pre ++ x ++ post) :: cs') = blocksOf cfg (cs ++ (pre ++ List.replicate n 0 ++ post) :: cs') := by
      intro x hx
      simp [blocksOf, hx]
    refine ⟨lenB (before.length + (after.length + 1)) ++ lenB e.si.requestId.2 ++ cs.flatten ++ pre, post ++ cs'.flatten, mustSplit cfg (blocksOf cfg (cs ++ (pre ++ List.replicate n 0 ++ post) :: cs')),
      if mustSplit cfg (blocksOf cfg (cs ++ (pre ++ List.replicate n 0 ++ post) :: cs')) then { e' with si := e'.si.register e.si.requestId.2 (blocksOf cfg (cs ++ (pre ++ List.replicate n 0 ++ post) :: cs')) } else e', .array, fun s hc hn => ⟨?_, rfl⟩⟩
    simp only [Place.fill, emitDoc, hd s hc hn, List.length_append, List.length_cons, emitContainer, hb _ hn, Prod.mk.injEq]
    refine ⟨?_, trivial⟩
    simp only [List.flatten_append, List.flatten_cons, List.append_assoc]
  | entry before k p after ih =>
    intro e h
    have items : ∀ (before : List (Bytes × Doc)) (e : Env), (e.sm = none ∨ (c ≠ 1 ∧ p.isKey = false)) →
        ∃ (cs : List Bytes) (pre post : Bytes) (cs' : List Bytes) (e' : Env), ∀ s : Scalar, s.code = c → s.payload.length = n →
          emitKVs cfg (before ++ (k, p.fill s) :: after) e = (cs ++ (pre ++ s.payload ++ post) :: cs', e') := by
      intro before
      induction before with
      | nil =>
        intro e h
        obtain ⟨pre, post, sp, e', ty, hd⟩ := ih (emitStr k e).2 (h.imp (fun h => by rw [emitStr_none h]; exact h) id)
        refine ⟨[], (emitStr k e).1 ++ tagByte ty sp :: pre, post, (emitKVs cfg after e').1, (emitKVs cfg after e').2, fun s hc hn => ?_⟩
        obtain ⟨h1, h2⟩ := hd s hc hn
        simp only [List.nil_append, emitKVs, h1, h2]
        simp
      | cons x xs ihx =>
        obtain ⟨k', x⟩ := x
        intro e h
        obtain ⟨cs, pre, post, cs', e', hd⟩ := ihx (emitDoc cfg x (emitStr k' e).2).2.2
          (h.imp (fun h => emitDoc_none cfg x _ (by rw [emitStr_none h]; exact h)) id)
        refine ⟨((emitStr k' e).1 ++ tagByte (docType x) (emitDoc cfg x (emitStr k' e).2).2.1 :: (emitDoc cfg x (emitStr k' e).2).1) :: cs, pre, post, cs', e',
          fun s hc hn => ?_⟩
        simp only [List.cons_append, emitKVs, hd s hc hn]
    obtain ⟨cs, pre, post, cs', e', hd⟩ := items before { e with si := e.si.requestId.1 } h
    have hb : ∀ x : Bytes, x.length = n → blocksOf cfg (cs ++ (pre ++ x ++ post) :: cs') = blocksOf cfg (cs ++ (pre ++ List.replicate n 0 ++ post) :: cs') := by
      intro x hx
      simp [blocksOf, hx]
    refine ⟨lenB (before.length + (after.length + 1)) ++ lenB e.si.requestId.2 ++ cs.flatten ++ pre, post ++ cs'.flatten, mustSplit cfg (blocksOf cfg (cs ++ (pre ++ List.replicate n 0 ++ post) :: cs')),
      if mustSplit cfg (blocksOf cfg (cs ++ (pre ++ List.replicate n 0 ++ post) :: cs')) then { e' with si := e'.si.register e.si.requestId.2 (blocksOf cfg (cs ++ (pre ++ List.replicate n 0 ++ post) :: cs')) } else e', .map, fun s hc hn => ⟨?_, rfl⟩⟩
    simp only [Place.fill, emitDoc, hd s hc hn, List.length_append, List.length_cons, emitContainer, hb _ hn, Prod.mk.injEq]
    refine ⟨?_, trivial⟩
    simp only [List.flatten_append, List.flatten_cons, List.append_assoc]
  | key before x after =>
    intro e h
    have h : e.sm = none := h.resolve_right (by simp [Place.isKey])
    have items : ∀ (before : List (Bytes × Doc)) (e : Env), e.sm = none →
        ∃ (cs : List Bytes) (pre post : Bytes) (cs' : List Bytes) (e' : Env), ∀ s : Scalar, s.code = c → s.payload.length = n →
          emitKVs cfg (before ++ (s.payload, x) :: after) e = (cs ++ (pre ++ s.payload ++ post) :: cs', e') := by
      intro before
      induction before with
      | nil =>
        intro e h
        refine ⟨[], lenB n, tagByte (docType x) (emitDoc cfg x e).2.1 :: (emitDoc cfg x e).1, (emitKVs cfg after (emitDoc cfg x e).2.2).1,
          (emitKVs cfg after (emitDoc cfg x e).2.2).2, fun s hc hn => ?_⟩
        simp only [List.nil_append, emitKVs, emitStr_none h, hn]
      | cons y xs ihx =>
        obtain ⟨k', y⟩ := y
        intro e h
        obtain ⟨cs, pre, post, cs', e', hd⟩ := ihx (emitDoc cfg y (emitStr k' e).2).2.2 (emitDoc_none cfg y _ (by rw [emitStr_none h]; exact h))
        refine ⟨((emitStr k' e).1 ++ tagByte (docType y) (emitDoc cfg y (emitStr k' e).2).2.1 :: (emitDoc cfg y (emitStr k' e).2).1) :: cs, pre, post, cs', e',
          fun s hc hn => ?_⟩
        simp only [List.cons_append, emitKVs, hd s hc hn]
    obtain ⟨cs, pre, post, cs', e', hd⟩ := items before { e with si := e.si.requestId.1 } h
    have hb : ∀ x : Bytes, x.length = n → blocksOf cfg (cs ++ (pre ++ x ++ post) :: cs') = blocksOf cfg (cs ++ (pre ++ List.replicate n 0 ++ post) :: cs') := by
      intro x hx
      simp [blocksOf, hx]
    refine ⟨lenB (before.length + (after.length + 1)) ++ lenB e.si.requestId.2 ++ cs.flatten ++ pre, post ++ cs'.flatten, mustSplit cfg (blocksOf cfg (cs ++ (pre ++ List.replicate n 0 ++ post) :: cs')),
      if mustSplit cfg (blocksOf cfg (cs ++ (pre ++ List.replicate n 0 ++ post) :: cs')) then { e' with si := e'.si.register e.si.requestId.2 (blocksOf cfg (cs ++ (pre ++ List.replicate n 0 ++ post) :: cs')) } else e', .map, fun s hc hn => ⟨?_, rfl⟩⟩
    simp only [Place.fill, emitDoc, hd s hc hn, List.length_append, List.length_cons, emitContainer, hb _ hn, Prod.mk.injEq]
    refine ⟨?_, trivial⟩
    simp only [List.flatten_append, List.flatten_cons, List.append_assoc]

/-- The whole content. -/
theorem content_place (cfg : Cfg) (t : SeriType) (p : Place) (c : UInt8) (n : Nat) (h : t = .normal ∨ (c ≠ 1 ∧ p.isKey = false)) :
    ∃ pre post : Bytes, ∀ s : Scalar, s.code = c → s.payload.length = n → contentOf cfg t (p.fill s) = pre ++ s.payload ++ post := by
  obtain ⟨pre, post, sp, e', ty, hd⟩ := emit_place cfg c n (.entry [] rootKey p []) (env0 t)
    (h.imp (fun h => by subst h; rfl) fun h => ⟨h.1, by simpa [Place.isKey] using h.2⟩)
  refine ⟨bigEndian 8 (10 + (pre.length + n + post.length)) ++ [t.toChar, if sp then 0x0A else 0x00] ++ pre,
    post ++ (dictPart cfg e'.sm ++ splitPart cfg e'.si), fun s hc hn => ?_⟩
  have hb : bodyOf cfg t (p.fill s) = (pre ++ s.payload ++ post, sp, e') := (hd s hc hn).1
  unfold contentOf headOf
  rw [hb]
  simp only [List.length_append, hn, List.append_assoc, Nat.add_assoc]

/-! ### Documents of the same shape -/

theorem sameRoomL_length {st : Bool} : ∀ (xs ys : List Doc), SameRoomL st xs ys → xs.length = ys.length
  | [], [], _ => rfl
  | [], _ :: _, h => h.elim
  | _ :: _, [], h => h.elim
  | _ :: xs, _ :: ys, h => by simp only [List.length_cons, sameRoomL_length xs ys h.2]

theorem sameRoomE_length {st : Bool} : ∀ (xs ys : List (Bytes × Doc)), SameRoomE st xs ys → xs.length = ys.length
  | [], [], _ => rfl
  | [], _ :: _, h => h.elim
  | _ :: _, [], h => h.elim
  | (_, _) :: xs, (_, _) :: ys, h => by simp only [List.length_cons, sameRoomE_length xs ys h.2.2.2]

theorem sameRoom_type {st : Bool} {d d' : Doc} (h : d.SameRoom st d') : docType d = docType d' := by
  cases d <;> cases d' <;> first | rfl | exact h.elim

theorem emitStr_room {k k' : Bytes} {e : Env} {st : Bool} (hs : st = true ∨ e.sm = none) (hl : k.length = k'.length) (hk : st = true → k = k') :
    (emitStr k e).1.length = (emitStr k' e).1.length ∧ (emitStr k e).2 = (emitStr k' e).2 := by
  rcases hs with hs | hs
  · rw [hk hs]; exact ⟨rfl, rfl⟩
  · rw [emitStr_none hs, emitStr_none hs]
    simp [hl]

theorem emitStr_room_env {k : Bytes} {e : Env} {st : Bool} (hs : st = true ∨ e.sm = none) : st = true ∨ (emitStr k e).2.sm = none :=
  hs.imp id fun h => by rw [emitStr_none h]; exact h

theorem emitContainer_room {cfg : Cfg} {n id : Nat} {cs cs' : List Bytes} {e : Env} (h : cs.map List.length = cs'.map List.length) :
    (emitContainer cfg n id cs e).1.length = (emitContainer cfg n id cs' e).1.length ∧
    (emitContainer cfg n id cs e).2 = (emitContainer cfg n id cs' e).2 := by
  have hb : blocksOf cfg cs = blocksOf cfg cs' := by unfold blocksOf; rw [h]
  unfold emitContainer
  rw [hb]
  refine ⟨?_, rfl⟩
  simp only [List.length_append, List.length_flatten, h]

mutual
theorem emitDoc_room (cfg : Cfg) (st : Bool) : ∀ (d d' : Doc) (e : Env), d.SameRoom st d' → (st = true ∨ e.sm = none) →
    (emitDoc cfg d e).1.length = (emitDoc cfg d' e).1.length ∧ (emitDoc cfg d e).2 = (emitDoc cfg d' e).2
  | .scalar s, .scalar s', e, h, hs => by
    obtain ⟨⟨hc, hn⟩, hq⟩ := h
    by_cases h1 : st = true ∧ s.code = 1
    · rw [hq h1.1 h1.2]; exact ⟨rfl, rfl⟩
    · have hp : e.sm = none ∨ s.code ≠ 1 := by
        rcases hs with hs | hs
        · exact .inr fun hc => h1 ⟨hs, hc⟩
        · exact .inl hs
      simp only [emitDoc, emitScalar_plain hp, emitScalar_plain (hc ▸ hp), hc, hn]
      simp [hn]
  | .array xs, .array ys, e, h, hs => by
    obtain ⟨h1, h2⟩ := emitItems_room cfg st xs ys { e with si := e.si.requestId.1 } h hs
    simp only [emitDoc, h2, sameRoomL_length xs ys h]
    exact emitContainer_room h1
  | .map es, .map fs, e, h, hs => by
    obtain ⟨h1, h2⟩ := emitKVs_room cfg st es fs { e with si := e.si.requestId.1 } h hs
    simp only [emitDoc, h2, sameRoomE_length es fs h]
    exact emitContainer_room h1
  | .scalar _, .array _, _, h, _ => h.elim
  | .scalar _, .map _, _, h, _ => h.elim
  | .array _, .scalar _, _, h, _ => h.elim
  | .array _, .map _, _, h, _ => h.elim
  | .map _, .scalar _, _, h, _ => h.elim
  | .map _, .array _, _, h, _ => h.elim
theorem emitItems_room (cfg : Cfg) (st : Bool) : ∀ (xs ys : List Doc) (e : Env), SameRoomL st xs ys → (st = true ∨ e.sm = none) →
    (emitItems cfg xs e).1.map List.length = (emitItems cfg ys e).1.map List.length ∧ (emitItems cfg xs e).2 = (emitItems cfg ys e).2
  | [], [], _, _, _ => ⟨rfl, rfl⟩
  | [], _ :: _, _, h, _ => h.elim
  | _ :: _, [], _, h, _ => h.elim
  | x :: xs, y :: ys, e, h, hs => by
    obtain ⟨h1, h2⟩ := emitDoc_room cfg st x y e h.1 hs
    obtain ⟨h3, h4⟩ := emitItems_room cfg st xs ys (emitDoc cfg y e).2.2 h.2 (hs.imp id (emitDoc_none cfg y e))
    simp only [emitItems, h2, List.map_cons, List.length_cons, h1, h3, h4, and_self]
theorem emitKVs_room (cfg : Cfg) (st : Bool) : ∀ (xs ys : List (Bytes × Doc)) (e : Env), SameRoomE st xs ys → (st = true ∨ e.sm = none) →
    (emitKVs cfg xs e).1.map List.length = (emitKVs cfg ys e).1.map List.length ∧ (emitKVs cfg xs e).2 = (emitKVs cfg ys e).2
  | [], [], _, _, _ => ⟨rfl, rfl⟩
  | [], _ :: _, _, h, _ => h.elim
  | _ :: _, [], _, h, _ => h.elim
  | (k, x) :: xs, (k', y) :: ys, e, h, hs => by
    obtain ⟨h5, h6⟩ := emitStr_room (e := e) hs h.1 h.2.1
    have hs' := emitStr_room_env (k := k') hs
    obtain ⟨h1, h2⟩ := emitDoc_room cfg st x y (emitStr k' e).2 h.2.2.1 hs'
    obtain ⟨h3, h4⟩ := emitKVs_room cfg st xs ys (emitDoc cfg y (emitStr k' e).2).2.2 h.2.2.2 (hs'.imp id (emitDoc_none cfg y _))
    simp only [emitKVs, h6, h2, List.map_cons, List.length_append, List.length_cons, h5, h1, h3, h4, and_self]
end

/-- The whole content. -/
theorem content_room (cfg : Cfg) (t : SeriType) (st : Bool) (h : t = .normal ∨ st = true) (d d' : Doc) (hd : d.SameRoom st d') :
    (contentOf cfg t d).length = (contentOf cfg t d').length ∧ headOf cfg t d = headOf cfg t d' ∧
    (bodyOf cfg t d).2 = (bodyOf cfg t d').2 := by
  obtain ⟨h1, h2⟩ : (bodyOf cfg t d).1.length = (bodyOf cfg t d').1.length ∧ (bodyOf cfg t d).2 = (bodyOf cfg t d').2 :=
    emitDoc_room cfg st (rootDoc d) (rootDoc d') (env0 t) ⟨rfl, fun _ => rfl, hd, trivial⟩
      (h.symm.imp id fun h => by subst h; rfl)
  refine ⟨?_, ?_, h2⟩
  · simp only [contentOf, List.length_append, headOf_length, h1, h2]
  · unfold headOf
    rw [h1, h2]

end Bridge
