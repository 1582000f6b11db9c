import Verif.Proof.TableRT
import Verif.Model.Parse
/-
What `Serialize` writes as a whole, and what the header and tables are read back as.
-/
namespace Bridge
open Spec

def env0 (t : SeriType) : Env := ⟨initDict t, {}⟩

def rootDoc (d : Doc) : Doc := .map [(rootKey, d)]

/-- The serialized root map: bytes, whether it was split, final tables. -/
def bodyOf (cfg : Cfg) (t : SeriType) (d : Doc) : Bytes × Bool × Env := emitDoc cfg (rootDoc d) (env0 t)

def headOf (cfg : Cfg) (t : SeriType) (d : Doc) : Bytes :=
  bigEndian 8 (10 + (bodyOf cfg t d).1.length) ++ [t.toChar, if (bodyOf cfg t d).2.1 then 0x0A else 0x00]

def dictPart (cfg : Cfg) (sm : Option StringMap) : Bytes :=
  match sm with
  | none => []
  | some m => lenB (smTableB cfg m).length ++ smTableB cfg m

def splitPart (cfg : Cfg) (si : SplitInfo) : Bytes := lenB (siTableB cfg si).length ++ siTableB cfg si

def contentOf (cfg : Cfg) (t : SeriType) (d : Doc) : Bytes :=
  headOf cfg t d ++ ((bodyOf cfg t d).1 ++ (dictPart cfg (bodyOf cfg t d).2.2.sm ++ splitPart cfg (bodyOf cfg t d).2.2.si))

theorem headOf_length (cfg : Cfg) (t : SeriType) (d : Doc) : (headOf cfg t d).length = 10 := by
  simp [headOf, bigEndian_length]

theorem rootOf_doc {o : Obj} {d : Doc} (h : o.doc? = some d) : (rootOf o).doc? = some (rootDoc d) := by
  simp [rootOf, Obj.doc?, entries?, h, rootDoc]

theorem serialize_eq {cfg : Cfg} (hc : cfg.charSigned = true) {o : Obj} {d : Doc} (t : SeriType)
    (h : o.doc? = some d) (hh : o.Hard cfg) : serialize cfg t o = .ok (contentOf cfg t d) := by
  have hv := valueSeri_eq hc (rootOf o) (rootDoc d) (rootOf_doc h) ⟨hh, trivial⟩
    (List.replicate 8 0 ++ [t.toChar] ++ [0]) (env0 t)
  have hst : stOf (List.replicate 8 0 ++ [t.toChar] ++ [0]) (env0 t) =
      ⟨List.replicate 8 0 ++ [t.toChar] ++ [0], initDict t, some {}⟩ := rfl
  rw [hst] at hv
  unfold serialize
  simp only
  rw [hv]
  simp only [ok_bind, stOf]
  have hb : bodyOf cfg t d = emitDoc cfg (rootDoc d) (env0 t) := rfl
  rw [← hb]
  rcases hbb : bodyOf cfg t d with ⟨body, split, env⟩
  have hret : (if split = true then (List.replicate 8 0 ++ [t.toChar] ++ [0] ++ body).set
      (List.replicate 8 (0 : UInt8) ++ [t.toChar]).length 0x0A else List.replicate 8 0 ++ [t.toChar] ++ [0] ++ body) =
      List.replicate 8 0 ++ ([t.toChar, if split then 0x0A else 0x00] ++ body) := by
    cases split <;> simp [List.replicate]
  simp only
  rw [hret]
  have hts : seriTotalSize cfg (List.replicate 8 (0 : UInt8) ++ ([t.toChar, if split then 0x0A else 0x00] ++ body)).length
      (List.replicate 8 0 ++ ([t.toChar, if split then 0x0A else 0x00] ++ body)) = .ok (headOf cfg t d ++ body) := by
    unfold seriTotalSize
    rw [if_neg (by simp)]
    have : image cfg.little 8 (if cfg.little = true then
        flipByByte cfg.little 8 (List.replicate 8 (0 : UInt8) ++ ([t.toChar, if split then 0x0A else 0x00] ++ body)).length
        else (List.replicate 8 (0 : UInt8) ++ ([t.toChar, if split then 0x0A else 0x00] ++ body)).length) =
        bigEndian 8 (10 + body.length) := by
      have := numWire_eq cfg 8 (10 + body.length)
      unfold numWire at this
      rw [← this]
      have e : (List.replicate 8 (0 : UInt8) ++ ([t.toChar, if split then 0x0A else 0x00] ++ body)).length = 10 + body.length := by
        simp; omega
      rw [e]
    simp only
    rw [this, List.drop_left' (by simp)]
    unfold headOf
    rw [hbb]
    simp
  rw [hts]
  simp only [ok_bind, Option.getD_some]
  unfold contentOf
  rw [hbb]
  cases hsm : env.sm with
  | none =>
    simp [suffixSecondary, seriLength_eq hc, siSerialize_eq hc, dictPart, splitPart]
  | some m =>
    simp [suffixSecondary, seriLength_eq hc, siSerialize_eq hc, smSerialize_eq hc, dictPart, splitPart]

/-! ### the blocks in the split table -/

def SIVals (si : SplitInfo) (n : Nat) : Prop := ∀ e ∈ si.info, (∀ b ∈ e.2, b < 2 ^ 32) ∧ e.2.length ≤ n

theorem groupSizes_length (B p : Nat) (ls : List Nat) : (groupSizes B p ls).length ≤ ls.length + (if p > 0 then 1 else 0) := by
  induction ls generalizing p with
  | nil => simp only [groupSizes]; split <;> simp
  | cons l ls ih =>
    simp only [groupSizes]
    split
    · have := ih 0; simp at this ⊢; omega
    · have := ih (p + l); simp only [List.length_cons]; split at this <;> split <;> omega

theorem SIVals.mono {si : SplitInfo} {a b : Nat} (h : SIVals si a) (hab : a ≤ b) : SIVals si b :=
  fun e he => ⟨(h e he).1, Nat.le_trans (h e he).2 hab⟩

theorem assocSet_mem {α β : Type} [DecidableEq α] {m : List (α × β)} {k : α} {v : β} {e : α × β}
    (h : e ∈ assocSet m k v) : e ∈ m ∨ e = (k, v) := by
  induction m with
  | nil => simpa [assocSet] using h
  | cons p m ih =>
    obtain ⟨k', v'⟩ := p
    simp only [assocSet] at h
    split at h
    · rcases List.mem_cons.mp h with h | h
      · exact .inr h
      · exact .inl (List.mem_cons_of_mem _ h)
    · rcases List.mem_cons.mp h with h | h
      · exact .inl (by rw [h]; exact List.mem_cons_self)
      · rcases ih h with h | h
        · exact .inl (List.mem_cons_of_mem _ h)
        · exact .inr h

theorem container_vals {cfg : Cfg} {count id n : Nat} {chunks : List Bytes} {e : Env} (h : SIVals e.si n)
    (hn : chunks.length ≤ n) : SIVals (emitContainer cfg count id chunks e).2.2.si n := by
  unfold emitContainer
  simp only
  split
  · intro x hx
    rcases assocSet_mem hx with hx | hx
    · exact h x hx
    · subst hx
      refine ⟨?_, ?_⟩
      · intro b hb
        simp only [blocksOf, List.mem_map] at hb
        obtain ⟨c, _, rfl⟩ := hb
        exact toU32_lt c
      · simp only [blocksOf, List.length_map]
        have := groupSizes_length cfg.blockSize 0 (chunks.map List.length)
        simp at this; omega
  · exact h

theorem length_le_flatten {l : List Bytes} (h : ∀ c ∈ l, 0 < c.length) : l.length ≤ l.flatten.length := by
  induction l with
  | nil => simp
  | cons c l ih =>
    have h1 := h c (by simp)
    have h2 := ih (fun c hc => h c (List.mem_cons_of_mem _ hc))
    simp only [List.length_cons, List.flatten_cons, List.length_append]; omega

theorem emitItems_pos (cfg : Cfg) (xs : List Doc) (e : Env) : ∀ c ∈ (emitItems cfg xs e).1, 0 < c.length := by
  induction xs generalizing e with
  | nil => simp [emitItems]
  | cons x xs ih =>
    intro c hc
    simp only [emitItems] at hc
    rcases List.mem_cons.mp hc with hc | hc
    · subst hc; simp
    · exact ih _ c hc

theorem emitKVs_pos (cfg : Cfg) (xs : List (Bytes × Doc)) (e : Env) : ∀ c ∈ (emitKVs cfg xs e).1, 0 < c.length := by
  induction xs generalizing e with
  | nil => simp [emitKVs]
  | cons x xs ih =>
    obtain ⟨k, x⟩ := x
    intro c hc
    simp only [emitKVs] at hc
    rcases List.mem_cons.mp hc with hc | hc
    · subst hc; simp only [List.length_append, List.length_cons]; omega
    · exact ih _ c hc

theorem emitStr_si (b : Bytes) (e : Env) : (emitStr b e).2.si = e.si := by
  unfold emitStr; cases e.sm <;> rfl

theorem emitScalar_si (s : Scalar) (e : Env) : (emitScalar s e).2.si = e.si := by
  cases s <;> simp [emitScalar, emitStr_si]

mutual
theorem emitDoc_vals (cfg : Cfg) (n : Nat) : ∀ (d : Doc) (e : Env), SIVals e.si n → (emitDoc cfg d e).1.length ≤ n →
    SIVals (emitDoc cfg d e).2.2.si n
  | .scalar s, e, h, _ => by simp only [emitDoc, emitScalar_si]; exact h
  | .array xs, e, h, hn => by
    simp only [emitDoc, emitContainer_length] at hn ⊢
    have hl := length_le_flatten (emitItems_pos cfg xs { e with si := e.si.requestId.1 })
    exact container_vals (emitItems_vals cfg n xs _ h (by omega)) (by omega)
  | .map es, e, h, hn => by
    simp only [emitDoc, emitContainer_length] at hn ⊢
    have hl := length_le_flatten (emitKVs_pos cfg es { e with si := e.si.requestId.1 })
    exact container_vals (emitKVs_vals cfg n es _ h (by omega)) (by omega)
theorem emitItems_vals (cfg : Cfg) (n : Nat) : ∀ (xs : List Doc) (e : Env), SIVals e.si n →
    (emitItems cfg xs e).1.flatten.length ≤ n → SIVals (emitItems cfg xs e).2.si n
  | [], e, h, _ => by simpa only [emitItems] using h
  | x :: xs, e, h, hn => by
    simp only [emitItems, List.flatten_cons, List.length_append, List.length_cons] at hn ⊢
    exact emitItems_vals cfg n xs _ (emitDoc_vals cfg n x e h (by omega)) (by omega)
theorem emitKVs_vals (cfg : Cfg) (n : Nat) : ∀ (xs : List (Bytes × Doc)) (e : Env), SIVals e.si n →
    (emitKVs cfg xs e).1.flatten.length ≤ n → SIVals (emitKVs cfg xs e).2.si n
  | [], e, h, _ => by simpa only [emitKVs] using h
  | (k, x) :: xs, e, h, hn => by
    simp only [emitKVs, List.flatten_cons, List.length_append, List.length_cons] at hn ⊢
    exact emitKVs_vals cfg n xs _ (emitDoc_vals cfg n x _ (by rw [emitStr_si]; exact h) (by omega)) (by omega)
end

/-! ### reading the header and the tables -/

/-- What the parser gets to know. -/
structure SchedOk (cfg wc : Cfg) (mem : Bytes) (e : Env) (s : Sched) : Prop where
  smNone : e.sm = none → s.sm = none
  sm : ∀ m, e.sm = some m → ∃ m', s.sm = some m' ∧ DictOk cfg mem m m'
  si : s.si.info = wc.siOrd e.si.info

theorem env0_room (t : SeriType) {n : Nat} (h : n + 1 < 2 ^ 32) : Room (env0 t) n := by
  refine ⟨?_, ?_, ?_⟩
  · intro m hm
    cases t <;> simp [env0, initDict] at hm
    subst hm
    exact ⟨SMInv.empty, by simp; omega⟩
  · cases t <;> exact SIInv.empty
  · cases t <;> (simp only [env0]; omega)

theorem parseSecondary_eq {α : Type} {cfg : Cfg} {construct : View → Res α} {mem tbl : Bytes} {a : Nat} {r : α}
    (hs : SizeOk cfg mem.length) (hl : tbl.length < 2 ^ 32) (hat : HasAt mem a (lenB tbl.length ++ tbl)) (ha : a ≤ mem.length)
    (hc : construct ⟨mem, a + (lenB tbl.length).length, tbl.length⟩ = .ok r) :
    parseSecondary cfg construct mem a = .ok (r, a + (lenB tbl.length ++ tbl).length) := by
  have hlen := hat.length ha
  rw [HasAt.append] at hat
  have h1 := hs.1
  have e : lenB tbl.length = leb128 tbl.length := by unfold lenB; rw [toU32_of_lt hl]
  simp only [List.length_append] at hlen ⊢
  unfold parseSecondary
  rw [parseLengthAt_eq (n := tbl.length) hs (by omega) (by rw [← e]; exact hat.1) ha]
  simp only [ok_bind]
  rw [← e, addW_of_lt (by omega), hc]
  simp only [ok_bind, pure_eq_ok]
  rw [addW_of_lt (by omega), Nat.add_assoc]

theorem bigEndian_ofImage (cfg : Cfg) {n : Nat} (h : n < 2 ^ 64) :
    (if cfg.little = true then flipByByte cfg.little 8 (ofImage cfg.little (bigEndian 8 n))
      else ofImage cfg.little (bigEndian 8 n)) = n := by
  exact flip_big 8 n (by simpa using h) cfg.little

theorem init_eq {cfg wc : Cfg} {t : SeriType} {d : Doc} (extra : Bytes)
    (hs : SizeOk cfg (contentOf wc t d ++ extra).length) (hl : (contentOf wc t d).length < 2 ^ 32) :
    ∃ s, initFromContent cfg (contentOf wc t d ++ extra) = .ok s ∧
      SchedOk cfg wc (contentOf wc t d ++ extra) (bodyOf wc t d).2.2 s ∧
      s.total = 10 + (bodyOf wc t d).1.length ∧ s.split = (bodyOf wc t d).2.1 ∧
      HasAt (contentOf wc t d ++ extra) 10 (bodyOf wc t d).1 ∧
      10 + (bodyOf wc t d).1.length < (contentOf wc t d).length := by
  generalize hmem : contentOf wc t d ++ extra = mem at hs ⊢
  have hlen : (contentOf wc t d).length = 10 + ((bodyOf wc t d).1.length +
      ((dictPart wc (bodyOf wc t d).2.2.sm).length + (splitPart wc (bodyOf wc t d).2.2.si).length)) := by
    unfold contentOf; simp only [List.length_append, headOf_length]
  have hmlen : mem.length = (contentOf wc t d).length + extra.length := by rw [← hmem]; simp
  have hat0 : HasAt mem 0 (contentOf wc t d) := by
    rw [← hmem]; exact HasAt.intro [] _ _
  unfold contentOf at hat0
  rw [HasAt.append, HasAt.append, HasAt.append, headOf_length] at hat0
  obtain ⟨hhead, hbody, hdict, hsplit⟩ := hat0
  simp only [Nat.zero_add] at hbody hdict hsplit
  have hsp : 1 ≤ (splitPart wc (bodyOf wc t d).2.2.si).length := by
    have := lenB_length_pos (siTableB wc (bodyOf wc t d).2.2.si).length
    simp only [splitPart, List.length_append]; omega
  -- the header
  have hhead' := hhead
  unfold headOf at hhead'
  rw [HasAt.append, bigEndian_length, HasAt.cons, HasAt.cons] at hhead'
  obtain ⟨hbe, h8, h9, -⟩ := hhead'
  simp only [Nat.zero_add] at h8 h9
  have htot : parseTotalSize cfg mem = .ok (10 + (bodyOf wc t d).1.length) := by
    unfold parseTotalSize
    rw [if_neg (by omega)]
    have := hbe.slice
    unfold slice at this
    rw [bigEndian_length] at this
    simp only [List.drop_zero] at this
    simp only [this]
    rw [bigEndian_ofImage cfg (by omega)]
  -- the tables' invariants
  have hroom := env0_room t (n := (bodyOf wc t d).1.length) (by omega)
  have hg : Grows (env0 t) (bodyOf wc t d).2.2 (bodyOf wc t d).1.length := emitDoc_grows wc (rootDoc d) (env0 t) hroom
  have hvals : SIVals (bodyOf wc t d).2.2.si (bodyOf wc t d).1.length :=
    emitDoc_vals wc _ (rootDoc d) (env0 t) (by intro e he; cases t <;> simp [env0, initDict] at he) (Nat.le_refl _)
  have hsitl : (siTableB wc (bodyOf wc t d).2.2.si).length < 2 ^ 32 := by
    simp only [splitPart, List.length_append] at hlen; omega
  -- the split table, wherever it is
  have hsi : ∃ si', parseSecondary cfg (SplitInfo.construct cfg) mem
      (10 + (bodyOf wc t d).1.length + (dictPart wc (bodyOf wc t d).2.2.sm).length) =
        .ok (si', 10 + (bodyOf wc t d).1.length + (dictPart wc (bodyOf wc t d).2.2.sm).length +
          (splitPart wc (bodyOf wc t d).2.2.si).length) ∧
      si'.info = wc.siOrd (bodyOf wc t d).2.2.si.info := by
    have hsplit' := hsplit
    unfold splitPart at hsplit'
    rw [HasAt.append] at hsplit'
    have hv : SizeOk cfg (siTableB wc (bodyOf wc t d).2.2.si).length := ⟨by omega, fun ha => by
      have := hs.2 ha; simp only [splitPart, List.length_append] at hlen; omega⟩
    obtain ⟨si', h1, h2⟩ := siConstruct_eq (cfg := cfg)
      (v := ⟨mem, 10 + (bodyOf wc t d).1.length + (dictPart wc (bodyOf wc t d).2.2.sm).length +
        (lenB (siTableB wc (bodyOf wc t d).2.2.si).length).length, (siTableB wc (bodyOf wc t d).2.2.si).length⟩)
      hg.si (fun e he => (hvals e he).1) hv rfl hsitl (fun e he => by have := (hvals e he).2; omega)
      (by exact hsplit'.2)
    exact ⟨si', parseSecondary_eq hs hsitl (by exact hsplit) (by omega) h1, h2⟩
  obtain ⟨si', hsi1, hsi2⟩ := hsi
  have hm8 : mem.getD 8 0 = t.toChar := by simp [List.getD, h8]
  have hm9 : mem.getD 9 0 = if (bodyOf wc t d).2.1 then 0x0A else 0x00 := by
    rw [List.getD, h9]; rfl
  have hfin : ∀ sm : Option StringMap,
      (if mem.getD 9 0 = 0x00 then (pure ⟨sm, si', 10 + (bodyOf wc t d).1.length, false⟩ : Res Sched)
        else if mem.getD 9 0 = 0x0A then pure ⟨sm, si', 10 + (bodyOf wc t d).1.length, true⟩
        else .error (.exn .invalidSplitFlag)) =
      .ok ⟨sm, si', 10 + (bodyOf wc t d).1.length, (bodyOf wc t d).2.1⟩ := by
    intro sm
    rw [hm9]
    cases (bodyOf wc t d).2.1 <;> simp
  have hms : ¬ mem.length < metaSize := by unfold metaSize; omega
  cases t with
  | normal =>
    have hnone : (bodyOf wc .normal d).2.2.sm = none := hg.smNone rfl
    refine ⟨⟨none, si', 10 + (bodyOf wc .normal d).1.length, (bodyOf wc .normal d).2.1⟩, ?_, ⟨fun _ => rfl, ?_, hsi2⟩,
      rfl, rfl, hbody, by omega⟩
    · unfold initFromContent
      rw [if_neg hms, htot]
      simp only [ok_bind]
      rw [hm8, if_pos rfl]
      rw [hnone] at hsi1
      simp only [dictPart, List.length_nil, Nat.add_zero] at hsi1
      rw [hsi1]
      simp only [ok_bind, pure_eq_ok]
      exact hfin none
    · intro m hm; rw [hnone] at hm; simp at hm
  | replace =>
    obtain ⟨m, hm1, hm2, _, _⟩ := hg.sm {} rfl SMInv.empty
    have hdict' := hdict
    rw [hm1] at hdict' hlen hsi1
    simp only [dictPart] at hdict' hlen hsi1
    have hsmtl : (smTableB wc m).length < 2 ^ 32 := by
      simp only [List.length_append] at hlen; omega
    have hv : SizeOk cfg (smTableB wc m).length := ⟨by omega, fun ha => by
      have := hs.2 ha; simp only [List.length_append] at hlen; omega⟩
    have hd2 := hdict'
    rw [HasAt.append] at hd2
    obtain ⟨m', hc1, hc2⟩ := smConstruct_dict (cfg := cfg)
      (v := ⟨mem, 10 + (bodyOf wc .replace d).1.length + (lenB (smTableB wc m).length).length, (smTableB wc m).length⟩)
      hm2 hv (by simp only [List.length_append] at hlen; simp only; omega) rfl hsmtl hd2.2
    have hp := parseSecondary_eq hs hsmtl hdict' (by omega) hc1
    refine ⟨⟨some m', si', 10 + (bodyOf wc .replace d).1.length, (bodyOf wc .replace d).2.1⟩, ?_, ⟨?_, ?_, hsi2⟩,
      rfl, rfl, hbody, by omega⟩
    · unfold initFromContent
      rw [if_neg hms, htot]
      simp only [ok_bind]
      rw [hm8, if_neg (by decide), if_pos rfl, hp]
      simp only [ok_bind]
      rw [hsi1]
      simp only [ok_bind, pure_eq_ok]
      exact hfin (some m')
    · intro hn; rw [hm1] at hn; simp at hn
    · intro m0 h0
      rw [hm1] at h0; simp at h0; subst h0
      exact ⟨m', rfl, hc2⟩

end Bridge
