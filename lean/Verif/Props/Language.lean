import Verif.Proof.Unambiguous
import Verif.Props.Truncate
/-
C61: exactly which byte strings the recursive parser accepts, and as what.
-/
set_option autoImplicit false
namespace Bridge
open Spec

/-! ### the sections behind the main section -/

theorem lengthAt_field {r : Cfg} {content : Bytes} (hr : r.asserts = true → content.length < 2 ^ 31) (hlen : content.length < 2 ^ 63) {p n : Nat} {l : Bytes}
    (hf : NumField l n) (hat : HasAt content p l) (hp : p + l.length ≤ content.length) :
    parseLengthAt r content p = .ok (n, l.length) := by
  obtain ⟨hl, h10, hn⟩ := hf
  have hpos := isLeb_pos hl
  rcases C05_parseLengthAt_any r content hlen p with ⟨bs, h1, h2, h3, h4, h5⟩ | bad
  · obtain ⟨x, hx⟩ := hat
    obtain ⟨y, hy⟩ := h4
    have : bs = l := isLeb_prefix h2 hl (hy.trans hx.symm)
    subst this
    rw [h1, hn]
  · exfalso
    obtain ⟨e, h1⟩ : ∃ e, parseLengthAt r content p = .error e := by
      rcases bad with ⟨e, h1, -⟩ | ⟨h1, -⟩ | ⟨h1, -⟩ <;> exact ⟨_, h1⟩
    have hv : parseLength r (View.whole content) ⟨p, p⟩ = .ok (n, ⟨p + l.length, p + l.length⟩) :=
      parseLength_field (by simpa [View.whole] using hr) (by simpa [View.whole] using hlen) ⟨hl, h10, hn⟩
        (by simp only [View.whole, Nat.zero_add]; exact hasAt_zero' hat (by omega)) (by simpa [View.whole] using hp)
    unfold parseLengthAt at h1
    rw [if_neg (by omega)] at h1
    unfold parseLength at hv
    obtain ⟨_, _, hv⟩ := bind_ok hv
    obtain ⟨a, ha, hv⟩ := bind_ok hv
    obtain ⟨rfl, -⟩ := curAddr_inv ha
    obtain ⟨⟨t, k⟩, e1, hv⟩ := bind_ok hv
    simp only at hv
    obtain ⟨_, _, hv⟩ := bind_ok hv
    have hrem : remain (View.whole content) ⟨a, a⟩ = subS content.length a := rfl
    rw [hrem] at e1
    have e1' : varintDecode r content a (toI32 (subS content.length a)) = .ok (t, k) := e1
    rw [e1'] at h1
    simp only [ok_bind] at h1
    have hk : k ≤ 10 ∧ a + k ≤ content.length := by
      rcases varintDecode_any r content a (toI32 (subS content.length a)) (by omega) with ⟨bs', g1, g2, g3, g4⟩ | ⟨g1, -⟩ | ⟨g1, -⟩
      · rw [e1'] at g1
        simp only [Except.ok.injEq, Prod.mk.injEq] at g1
        obtain ⟨x, hx⟩ := hasAt_zero' hat (show a ≤ content.length by omega)
        obtain ⟨y, hy⟩ := g4
        have : bs' = l := isLeb_prefix g2 hl (hy.trans hx.symm)
        subst this
        omega
      · rw [e1'] at g1; cases g1
      · rw [e1'] at g1; cases g1
    rw [addW_of_lt (by omega), if_neg (by omega)] at h1
    cases h1

theorem secondary_complete {α : Type} {r : Cfg} {content : Bytes} (hr : r.asserts = true → content.length < 2 ^ 31) (hlen : content.length < 2 ^ 63) {p size : Nat}
    {l : Bytes} (hf : NumField l size) (hat : HasAt content p l) (hp : p + l.length ≤ content.length) (hsz : size < 2 ^ 63)
    {construct : View → Res α} {a : α} (hc : construct ⟨content, p + l.length, size⟩ = .ok a) :
    parseSecondary r construct content p = .ok (a, p + l.length + size) := by
  unfold parseSecondary
  rw [lengthAt_field hr hlen hf hat hp]
  simp only [ok_bind]
  rw [addW_of_lt (by omega), hc]
  simp only [ok_bind]
  rw [addW_of_lt (by omega)]
  rfl

theorem secondary_inv {α : Type} {r : Cfg} {content : Bytes} (hlen : content.length < 2 ^ 63) {p t : Nat}
    {construct : View → Res α} {a : α} (h : parseSecondary r construct content p = .ok (a, t)) :
    ∃ l size, NumField l size ∧ HasAt content p l ∧ p + l.length ≤ content.length ∧
      construct ⟨content, p + l.length, size⟩ = .ok a ∧ t = addW (p + l.length) size := by
  unfold parseSecondary at h
  obtain ⟨⟨size, k⟩, e1, h⟩ := bind_ok h
  obtain ⟨l, f1, f2, f3, rfl⟩ := parseLengthAt_inv hlen e1
  obtain ⟨x, e2, h⟩ := bind_ok h
  simp only [pure_eq_ok, Except.ok.injEq, Prod.mk.injEq] at h
  obtain ⟨rfl, rfl⟩ := h
  rw [addW_of_lt (by omega)] at e2
  exact ⟨l, size, f1, f2, f3, e2, by rw [addW_of_lt (show p + l.length < 2 ^ 64 by omega)]⟩

theorem numField_lt {l : Bytes} {n : Nat} (h : NumField l n) : n < 2 ^ 64 := by
  rw [h.2.2]; exact Nat.mod_lt _ (by decide)

theorem drop_split {content : Bytes} {p : Nat} {l : Bytes} (h : HasAt content p l) :
    content.drop p = l ++ content.drop (p + l.length) := by
  obtain ⟨post, hp⟩ := h
  rw [← hp, ← List.drop_drop, ← hp, List.drop_left]

theorem splitSection_inv {r : Cfg} {content : Bytes} (hlen : content.length < 2 ^ 63) {p t : Nat} {si : SplitInfo}
    (h : parseSecondary r (SplitInfo.construct r) content p = .ok (si, t)) : p < content.length ∧ SplitSection (2 ^ 63) si.info (content.drop p) := by
  obtain ⟨l, size, f1, f2, f3, f4, -⟩ := secondary_inv hlen h
  obtain ⟨bs, g1, g2, g3, g4⟩ := siConstruct_inv (numField_lt f1) f4
  have := isLeb_pos f1.1
  refine ⟨by omega, l, size, content.drop (p + l.length), bs, drop_split f2, f1, g1, ?_, g4, g2⟩
  rw [← List.drop_append_of_le_length f3]
  exact g3

theorem splitSection_complete {r : Cfg} {content : Bytes} {lim : Nat} (hr : r.asserts = true → content.length < 2 ^ 31)
    (hl : r.asserts = true → lim ≤ 2 ^ 31) (hl' : lim ≤ 2 ^ 63) (hlen : content.length < 2 ^ 63) {p : Nat}
    (hp : p ≤ content.length) {t : List (Nat × List Nat)} (h : SplitSection lim t (content.drop p)) :
    ∃ q, parseSecondary r (SplitInfo.construct r) content p = .ok q := by
  obtain ⟨l, size, tail, bs, h1, h2, h3, h4, h5, h6⟩ := h
  have hat : HasAt content p l := ⟨tail, h1.symm⟩
  have hp' := hat.length hp
  have ht : content.drop (p + l.length) = tail := by rw [← List.drop_drop, h1, List.drop_left]
  obtain ⟨si, g1, -⟩ := siConstruct_complete (r := r) (v := ⟨content, p + l.length, size⟩) (fun ha => by have := hl ha; simp only; omega) (by simp only; omega) h6 (by
    simp only
    unfold HasAt
    rw [List.drop_append_of_le_length hp', ht]
    exact h4) h5
  exact ⟨_, secondary_complete hr hlen h2 hat hp' (by omega) g1⟩

theorem dictSection_inv {r : Cfg} {content : Bytes} (hlen : content.length < 2 ^ 63) {p t : Nat} {m : StringMap}
    (h : parseSecondary r (StringMap.construct r) content p = .ok (m, t)) (ht : t < content.length) :
    p < content.length ∧ ∃ ps f, dictFn r (some m) = some f ∧ IsDictOf ps f ∧ DictSection ps (content.drop p) (content.drop t) := by
  obtain ⟨l, size, f1, f2, f3, f4, rfl⟩ := secondary_inv hlen h
  obtain ⟨ps, bs, f, g1, g2, g3, g4, g5, g6⟩ := construct_inv (numField_lt f1) hlen f4
  have := isLeb_pos f1.1
  simp only at g1 g3 g4
  rw [addW_of_lt (by omega)] at ht ⊢
  refine ⟨by omega, ps, f, g5, g6, l, (content.drop (p + l.length)).take size, bs, ?_, ?_, ?_, g2⟩
  · rw [drop_split f2, ← List.drop_drop (i := size), List.take_append_drop]
  · rw [List.length_take, List.length_drop, Nat.min_eq_left (by omega)]; exact f1
  · have hb : HasAt content (p + l.length) bs := hasAt_zero g3 (by omega)
    rw [List.prefix_take_iff]
    exact ⟨hb, g4⟩

theorem dictSection_complete {r : Cfg} {content : Bytes} (hr : r.asserts = true → content.length < 2 ^ 31) (hlen : content.length < 2 ^ 63) {p : Nat}
    (hp : p ≤ content.length) {ps : List (Bytes × Nat)} {rest' : Bytes} (h : DictSection ps (content.drop p) rest') :
    ∃ m f t, parseSecondary r (StringMap.construct r) content p = .ok (m, t) ∧ dictFn r (some m) = some f ∧ IsDictOf ps f ∧
      t ≤ content.length ∧ content.drop t = rest' := by
  obtain ⟨l, body, bs, h1, h2, h3, h4⟩ := h
  have hat : HasAt content p (l ++ body) := ⟨rest', by rw [h1]; simp⟩
  have hp' := hat.length hp
  rw [HasAt.append] at hat
  simp only [List.length_append] at hp'
  have h3l := h3.length_le
  obtain ⟨m, f, g1, g2, g3⟩ := construct_complete (r := r) (v := ⟨content, p + l.length, body.length⟩) (fun ha => by have := hr ha; simp only; omega) (show body.length < 2 ^ 63 by omega) h4 (by
    have : HasAt content (p + l.length) bs := h3.trans hat.2
    exact hasAt_zero' this (by simp only; omega)) h3l
  refine ⟨m, f, p + l.length + body.length, secondary_complete hr hlen h2 hat.1 (by omega) (by omega) g1, g2, g3, by omega, ?_⟩
  rw [← List.drop_drop, ← List.drop_drop, h1, List.drop_left, List.drop_left]

/-! ### documents without user-defined values -/

mutual
theorem built_noCustom {mem : Bytes} {pool : PoolRef} : ∀ (o : Obj) (d : Doc), o.Built mem true pool → o.doc? = some d → d.noCustom = true
  | .null, d, h, hd => by simp [Obj.Built] at h
  | .data ref dt p, d, h, hd => by
    simp only [Obj.Built] at h
    obtain ⟨rfl, -⟩ := h
    simp only [Obj.doc?, Option.map_eq_some_iff] at hd
    obtain ⟨s, hs, rfl⟩ := hd
    cases s with
    | custom b =>
      exfalso
      cases p <;> simp only [scalarOf] at hs <;> (repeat' split at hs) <;> simp_all
    | _ => rfl
  | .array pl sz items, d, h, hd => by
    simp only [Obj.Built] at h
    simp only [Obj.doc?] at hd
    split at hd
    · simp only [Option.map_eq_some_iff] at hd
      obtain ⟨ds, k1, rfl⟩ := hd
      exact builtL_noCustom items ds h.2 k1
    · cases hd
  | .map rf pl sz items, d, h, hd => by
    simp only [Obj.Built] at h
    simp only [Obj.doc?] at hd
    split at hd
    · simp only [Option.map_eq_some_iff] at hd
      obtain ⟨ds, k1, rfl⟩ := hd
      exact builtE_noCustom items ds h.2.2 k1
    · cases hd
theorem builtL_noCustom {mem : Bytes} {pool : PoolRef} : ∀ (os : List Obj) (ds : List Doc), builtL mem true pool os → docs? os = some ds →
    noCustomL ds = true
  | [], ds, h, hd => by simp only [docs?, Option.some.injEq] at hd; subst hd; rfl
  | o :: os, ds, h, hd => by
    simp only [docs?, Option.bind_eq_bind, Option.bind_eq_some_iff, Option.pure_def, Option.some.injEq] at hd
    obtain ⟨d, k1, ds', k2, rfl⟩ := hd
    simp only [noCustomL, Bool.and_eq_true]
    exact ⟨built_noCustom o d h.1 k1, builtL_noCustom os ds' h.2 k2⟩
theorem builtE_noCustom {mem : Bytes} {pool : PoolRef} : ∀ (os : List (Str × Obj)) (ds : List (Bytes × Doc)), builtE mem true pool os →
    entries? os = some ds → noCustomE ds = true
  | [], ds, h, hd => by simp only [entries?, Option.some.injEq] at hd; subst hd; rfl
  | (k, o) :: os, ds, h, hd => by
    simp only [entries?, Option.bind_eq_bind, Option.bind_eq_some_iff, Option.pure_def, Option.some.injEq] at hd
    obtain ⟨d, k1, ds', k2, rfl⟩ := hd
    simp only [noCustomE, Bool.and_eq_true]
    exact ⟨built_noCustom o d h.2.1 k1, builtE_noCustom os ds' h.2.2 k2⟩
end

/-! ### dictionaries with ambiguous ids -/

mutual
/-- If `f'` has a meaning for every id for which `f` has one, what can be read with `f` can be read with `f'`. -/
theorem reads_dict {strict : Bool} {f f' : Nat → Option Bytes} (h : ∀ id, (f id).isSome → (f' id).isSome) : ∀ (last : Bool) (d : Doc) (bs : Bytes),
    Reads strict last (some f) d bs → ∃ d', Reads strict last (some f') d' bs ∧ docType d' = docType d ∧ d'.noCustom = d.noCustom
  | last, .scalar s, bs, hd => by
    obtain ⟨rest, rfl, hd⟩ := hd
    cases s with
    | string b =>
      obtain ⟨⟨n, f1, f2⟩, -⟩ := hd
      obtain ⟨b', hb'⟩ := Option.isSome_iff_exists.mp (h (n % 2 ^ 32) (by rw [f2]; rfl))
      exact ⟨.scalar (.string b'), ⟨rest, rfl, ⟨n, f1, hb'⟩, fun _ q => by cases q⟩, rfl, rfl⟩
    | bytes b => exact ⟨.scalar (.bytes b), ⟨rest, rfl, hd⟩, rfl, rfl⟩
    | int32 b => exact ⟨.scalar (.int32 b), ⟨rest, rfl, hd⟩, rfl, rfl⟩
    | uint32 b => exact ⟨.scalar (.uint32 b), ⟨rest, rfl, hd⟩, rfl, rfl⟩
    | int64 b => exact ⟨.scalar (.int64 b), ⟨rest, rfl, hd⟩, rfl, rfl⟩
    | uint64 b => exact ⟨.scalar (.uint64 b), ⟨rest, rfl, hd⟩, rfl, rfl⟩
    | float b => exact ⟨.scalar (.float b), ⟨rest, rfl, hd⟩, rfl, rfl⟩
    | double b => exact ⟨.scalar (.double b), ⟨rest, rfl, hd⟩, rfl, rfl⟩
    | custom b => exact ⟨.scalar (.custom b), ⟨rest, rfl, hd⟩, rfl, rfl⟩
  | last, .array xs, bs, hd => by
    obtain ⟨c, i, rest, id, rfl, h1, h2, h3⟩ := hd
    obtain ⟨ys, k1, k2, k3⟩ := readsL_dict h last xs rest h3
    exact ⟨.array ys, ⟨c, i, rest, id, rfl, by rw [k2]; exact h1, h2, k1⟩, rfl, k3⟩
  | last, .map es, bs, hd => by
    obtain ⟨c, i, rest, id, rfl, h1, h2, h3⟩ := hd
    obtain ⟨ys, k1, k2, k3⟩ := readsE_dict h last es rest h3
    exact ⟨.map ys, ⟨c, i, rest, id, rfl, by rw [k2]; exact h1, h2, k1⟩, rfl, k3⟩
theorem readsL_dict {strict : Bool} {f f' : Nat → Option Bytes} (h : ∀ id, (f id).isSome → (f' id).isSome) : ∀ (last : Bool) (xs : List Doc) (bs : Bytes),
    ReadsL strict last (some f) xs bs → ∃ ys, ReadsL strict last (some f') ys bs ∧ ys.length = xs.length ∧ noCustomL ys = noCustomL xs
  | last, [], bs, hd => ⟨[], hd, rfl, rfl⟩
  | last, x :: xs, bs, hd => by
    obtain ⟨sp, b, rest, rfl, h1, h2⟩ := hd
    obtain ⟨y, k1, k2, k3⟩ := reads_dict h _ x b h1
    obtain ⟨ys, q1, q2, q3⟩ := readsL_dict h last xs rest h2
    have he : ys.isEmpty = xs.isEmpty := by cases xs <;> cases ys <;> simp_all
    refine ⟨y :: ys, ⟨sp, b, rest, ?_, by rw [he]; exact k1, q1⟩, by simp [q2], by simp [noCustomL, k3, q3]⟩
    rw [← kindByte_eq, ← kindByte_eq, k2]
theorem readsE_dict {strict : Bool} {f f' : Nat → Option Bytes} (h : ∀ id, (f id).isSome → (f' id).isSome) : ∀ (last : Bool) (es : List (Bytes × Doc)) (bs : Bytes),
    ReadsE strict last (some f) es bs → ∃ ys, ReadsE strict last (some f') ys bs ∧ ys.length = es.length ∧ noCustomE ys = noCustomE es
  | last, [], bs, hd => ⟨[], hd, rfl, rfl⟩
  | last, (k, x) :: es, bs, hd => by
    obtain ⟨kb, sp, b, rest, rfl, ⟨n, f1, f2⟩, h1, h2⟩ := hd
    obtain ⟨k', hk'⟩ := Option.isSome_iff_exists.mp (h (n % 2 ^ 32) (by rw [f2]; rfl))
    obtain ⟨y, k1, k2, k3⟩ := reads_dict h _ x b h1
    obtain ⟨ys, q1, q2, q3⟩ := readsE_dict h last es rest h2
    have he : ys.isEmpty = es.isEmpty := by cases es <;> cases ys <;> simp_all
    refine ⟨(k', y) :: ys, ⟨kb, sp, b, rest, ?_, ⟨n, f1, hk'⟩, by rw [he]; exact k1, q1⟩, by simp [q2], by simp [noCustomE, k3, q3]⟩
    rw [← kindByte_eq, ← kindByte_eq, k2]
end

theorem isDict_dom {ps : List (Bytes × Nat)} {f f' : Nat → Option Bytes} (h : IsDictOf ps f) (h' : IsDictOf ps f') (id : Nat)
    (hs : (f id).isSome) : (f' id).isSome := by
  obtain ⟨b, hb⟩ := Option.isSome_iff_exists.mp hs
  exact (h' id).2 ⟨b, (h id).1 b hb⟩

theorem isDict_unique {ps : List (Bytes × Nat)} {f f' : Nat → Option Bytes} (hnd : (ps.map Prod.snd).Nodup) (h : IsDictOf ps f)
    (h' : IsDictOf ps f') : f = f' := by
  have hmem : ∀ {b id}, FirstPair ps b id → (b, id) ∈ ps := by
    rintro b id ⟨bef, aft, rfl, -⟩
    simp
  have hu : ∀ {b b' id}, (b, id) ∈ ps → (b', id) ∈ ps → b = b' := by
    clear h h' hmem
    induction ps with
    | nil => intro b b' id hb; simp at hb
    | cons p ps ih =>
      intro b b' id hb hb'
      simp only [List.map_cons, List.nodup_cons] at hnd
      simp only [List.mem_cons] at hb hb'
      rcases hb with rfl | hb <;> rcases hb' with hb' | hb'
      · simp only [Prod.mk.injEq] at hb'; exact hb'.1.symm
      · exact absurd (List.mem_map.mpr ⟨_, hb', rfl⟩) hnd.1
      · subst hb'; exact absurd (List.mem_map.mpr ⟨_, hb, rfl⟩) hnd.1
      · exact ih hnd.2 hb hb'
  funext id
  cases hf : f id with
  | none =>
    cases hf' : f' id with
    | none => rfl
    | some b' =>
      have := (h id).2 ⟨b', (h' id).1 b' hf'⟩
      rw [hf] at this; cases this
  | some b =>
    have := isDict_dom h h' id (by rw [hf]; rfl)
    obtain ⟨b', hb'⟩ := Option.isSome_iff_exists.mp this
    rw [hb', hu (hmem ((h id).1 b hf)) (hmem ((h' id).1 b' hb'))]

/-! ### C61 -/

theorem normal_of_init {r : Cfg} {po : ParseOption} {content : Bytes} {s : Sched} (hrec : po.coroutine = false ∨ content[9]? = some 0)
    (hs : initFromContent r content = .ok s) (n : Nat) : parse r po n content = normalParse r po.parseRef n content s := by
  unfold parse
  rw [hs]
  simp only [ok_bind]
  rcases hrec with hco | h9
  · rw [hco]; rfl
  · split
    · unfold coroutineParse
      have hsp : s.split = false := by
        rcases (init_inv hs).2.2.2.2 with ⟨-, h2⟩ | ⟨h1, -⟩
        · exact h2
        · rw [h9] at h1; simp at h1
      rw [if_pos hsp, hs]
      rfl
    · rfl

/-- The reading half: a readable content is accepted, with the meaning that this run gives to the dictionary. -/
theorem readable_accepted {r : Cfg} {content : Bytes} {lim : Nat} (hr : r.asserts = true → content.length < 2 ^ 31)
    (hl1 : r.asserts = true → lim ≤ 2 ^ 31) (hl2 : lim ≤ 2 ^ 63) (hlen : content.length < 2 ^ 63)
    (hmax : content.length < r.strMax) {po : ParseOption} (hrec : po.coroutine = false ∨ content[9]? = some 0)
    {pairs : Option (List (Bytes × Nat))} {dict : Option (Nat → Option Bytes)} {es : List (Bytes × Doc)} (h : Readable r.asserts lim content pairs dict es)
    (hcu : po.parseRef = true → noCustomE es = true) :
    ∃ o dict' es', Parses r po content (.ok o) ∧ Readable r.asserts lim content pairs dict' es' ∧
      o.doc? = (firstEntry rootKey es'.reverse).map Doc.revMaps ∧
      ((∀ ps, pairs = some ps → (ps.map Prod.snd).Nodup) → es' = es) := by
  obtain ⟨mode, flag, main, rest, hcont, hflag, hreads, htab⟩ := h.layout
  have hl : content.length = 10 + main.length + rest.length := by
    rw [hcont]; simp [bigEndian_length]; omega
  have h8 : content.take 8 = bigEndian 8 (10 + main.length) := by
    rw [hcont, List.take_append_of_le_length (by simp [bigEndian_length]), List.take_of_length_le (by simp [bigEndian_length])]
  have hd8 : content.drop 8 = mode :: flag :: (main ++ rest) := by
    rw [hcont, List.drop_append_of_le_length (by simp [bigEndian_length]), List.drop_of_length_le (by simp [bigEndian_length])]; rfl
  have hg8 : content.getD 8 0 = mode := by
    have : content[8]? = (content.drop 8)[0]? := by rw [List.getElem?_drop]
    simp [List.getD, this, hd8]
  have hg9 : content.getD 9 0 = flag := by
    have : content[9]? = (content.drop 8)[1]? := by rw [List.getElem?_drop]
    simp [List.getD, this, hd8]
  have hd10 : content.drop 10 = main ++ rest := by
    rw [show 10 = 8 + 2 from rfl, ← List.drop_drop, hd8]; rfl
  have hdt : content.drop (10 + main.length) = rest := by
    rw [← List.drop_drop, hd10, List.drop_left]
  have hmain : HasAt content 10 main := ⟨rest, hd10.symm⟩
  -- the tables
  have key : ∃ sm si dict' es', readTables r content (10 + main.length) mode = .ok (sm, si) ∧ dictFn r sm = dict' ∧
      Readable r.asserts lim content pairs dict' es' ∧ Reads r.asserts false dict' (.map es') main ∧ noCustomE es' = noCustomE es ∧ 0 < rest.length ∧
      ((∀ ps, pairs = some ps → (ps.map Prod.snd).Nodup) → es' = es) := by
    rcases htab with ⟨rfl, rfl, rfl, t, ht⟩ | ⟨rfl, ps, rest', f, rfl, rfl, hf, hd, t, ht⟩
    · obtain ⟨⟨si, q⟩, hq⟩ := splitSection_complete hr hl1 hl2 hlen (p := 10 + main.length) (by omega) (by rw [hdt]; exact ht)
      have := (splitSection_inv hlen hq).1
      refine ⟨none, si, none, es, ?_, rfl, h, hreads, rfl, by omega, fun _ => rfl⟩
      unfold readTables
      rw [if_pos (by decide), hq]
      rfl
    · obtain ⟨m, f', q, hq, hf', hd', hql, hqd⟩ := dictSection_complete hr hlen (p := 10 + main.length) (by omega) (by rw [hdt]; exact hd)
      obtain ⟨⟨si, q'⟩, hq'⟩ := splitSection_complete hr hl1 hl2 hlen (p := q) hql (by rw [hqd]; exact ht)
      have hqlt := (splitSection_inv hlen hq').1
      have hlt := (dictSection_inv hlen hq hqlt).1
      have htabs : readTables r content (10 + main.length) 1 = .ok (some m, si) := by
        unfold readTables
        rw [if_neg (by decide), if_pos (by decide), hq]
        simp only [ok_bind]
        rw [hq']
        rfl
      by_cases hun : (ps.map Prod.snd).Nodup
      · have : f' = f := isDict_unique hun hd' hf
        subst this
        exact ⟨some m, si, _, es, htabs, hf', h, hreads, rfl, by omega, fun _ => rfl⟩
      · obtain ⟨d', k1, k2, k3⟩ := reads_dict (isDict_dom hf hd') false (.map es) main hreads
        cases d' with
        | scalar => simp [docType] at k2
        | array => simp [docType] at k2
        | map es' =>
          refine ⟨some m, si, _, es', htabs, hf', ⟨1, flag, main, rest, hcont, hflag, k1, .inr ⟨rfl, ps, rest', f', rfl, rfl, hd', hd, t, ht⟩⟩, k1, ?_, by omega, ?_⟩
          · simpa [Doc.noCustom] using k3
          · intro hnd; exact absurd (hnd ps rfl) hun
  obtain ⟨sm, si, dict', es', k1, rfl, k3, k4, k5, k6, k7⟩ := key
  have hinit : ∃ s, initFromContent r content = .ok s ∧ s.sm = sm ∧ s.total = 10 + main.length := by
    rw [init_steps (by omega), totalSize_of (by omega) (by omega) h8]
    simp only [ok_bind]
    rw [hg8, hg9, k1]
    simp only [ok_bind]
    unfold readFlag
    rcases hflag with rfl | rfl
    · exact ⟨_, rfl, rfl, rfl⟩
    · exact ⟨_, rfl, rfl, rfl⟩
  obtain ⟨s, hs, rfl, hst⟩ := hinit
  have hctx : NCtx r content s.sm := by
    refine ⟨hr, hlen, hmax, ?_⟩
    intro m hm id x hx
    rcases (init_inv hs).2.2.2.1 with ⟨-, h2⟩ | ⟨-, m', h2, -, h3⟩
    · rw [h2] at hm; cases hm
    · rw [h2] at hm; cases hm; exact h3 id x hx
  obtain ⟨N, root, g1, g2⟩ := val_complete hctx po.parseRef .caller false (.map es') main 10 k4 hmain (by omega) (by omega)
    (by intro hp; simp only [Doc.noCustom]; rw [k5]; exact hcu hp)
  refine ⟨takeRoot root, dictFn r s.sm, es', ?_, k3, ?_, k7⟩
  · refine parses_of_fuel (f := N) ?_ (by simp)
    rw [normal_of_init hrec hs]
    unfold normalParse
    have := g2 N (Nat.le_refl _)
    simp only [docType] at this
    simp only [metaSize]
    rw [this]
    simp only [ok_bind]
    rw [if_neg (by omega)]
    rfl
  · cases root with
    | map rf pl sz items =>
      simp only [Obj.doc?] at g1
      split at g1
      · simp only [Option.map_eq_some_iff] at g1
        obtain ⟨ds, q1, q2⟩ := g1
        simp only [Doc.revMaps, Doc.map.injEq] at q2
        simp only [takeRoot]
        rw [takeKey_doc q1, q2, revMapsE_acc, List.append_nil, ← List.map_reverse, firstEntry_map]
      · cases g1
    | null => simp [Obj.doc?] at g1
    | data => simp [Obj.doc?, Doc.revMaps] at g1
    | array => simp only [Obj.doc?] at g1; split at g1 <;> simp [Doc.revMaps] at g1

/-- What the recursive parser accepts, with the root that it builds. -/
theorem accepted_root (r : Cfg) (content : Bytes) (hlen : content.length < 2 ^ 63) (po : ParseOption)
    (hrec : po.coroutine = false ∨ content[9]? = some 0) (href : po.parseRef = true → ShortNumbers content) (o : Obj)
    (h : Parses r po content (.ok o)) :
    ∃ pairs dict es, Readable r.asserts (2 ^ 63) content pairs dict es ∧ (po.parseRef = true → noCustomE es = true) ∧
      o.doc? = (firstEntry rootKey es.reverse).map Doc.revMaps ∧
      ∃ s root, initFromContent r content = .ok s ∧ root.doc? = some (Doc.map es).revMaps ∧ o = takeRoot root ∧
        ∃ n c, parseVal r (View.whole content) s.sm po.parseRef .caller n .map ⟨metaSize, metaSize⟩ = .ok (root, c) ∧ c.off = s.total := by
  obtain ⟨s, mode, flag, main, rest, es, root, hs, h1, htot, h2, h3, h4, h5, -, h7, h8, h9⟩ := accepted_core r content hlen po hrec href o h
  have hdt : content.drop s.total = rest := by
    rw [htot, h1, ← List.append_assoc, ← List.append_assoc, List.append_assoc _ main]
    have : (10 + main.length) = (bigEndian 8 (10 + main.length) ++ [mode, flag]).length + main.length := by
      simp [bigEndian_length]
    conv => lhs; arg 1; rw [this]
    rw [← List.drop_drop, List.drop_left, List.drop_left]
  have hcu : po.parseRef = true → noCustomE es = true := by
    intro hp
    rw [hp] at h8
    have := built_noCustom root _ h8 h7
    rw [noCustom_revMaps] at this
    exact this
  have hl10 := (init_inv hs).1
  have hinit := hs
  rw [init_steps hl10] at hinit
  obtain ⟨t, ht, hinit⟩ := bind_ok hinit
  obtain ⟨⟨sm, si⟩, e1, hinit⟩ := bind_ok hinit
  have hst : s.total = t ∧ s.sm = sm := by
    unfold readFlag at hinit
    split at hinit
    · simp only [pure_eq_ok, Except.ok.injEq] at hinit; subst hinit; exact ⟨rfl, rfl⟩
    split at hinit
    · simp only [pure_eq_ok, Except.ok.injEq] at hinit; subst hinit; exact ⟨rfl, rfl⟩
    · cases hinit
  obtain ⟨rfl, rfl⟩ := hst
  have hg8 : content.getD 8 0 = mode := by
    have : content.drop 8 = mode :: flag :: (main ++ rest) := by
      conv => lhs; rw [h1]
      rw [List.drop_append_of_le_length (by simp [bigEndian_length]), List.drop_of_length_le (by simp [bigEndian_length])]; rfl
    have h8' : content[8]? = (content.drop 8)[0]? := by rw [List.getElem?_drop]
    simp [List.getD, h8', this]
  rw [hg8] at e1
  unfold readTables at e1
  rcases h2 with ⟨rfl, hsm⟩ | ⟨rfl, f, hf, -⟩
  · rw [if_pos (by decide)] at e1
    obtain ⟨⟨si', q⟩, e2, -⟩ := bind_ok e1
    have := splitSection_inv hlen e2
    rw [hdt] at this
    refine ⟨none, none, es, ⟨0, flag, main, rest, h1, h3, ?_, .inl ⟨rfl, rfl, rfl, _, this.2⟩⟩, hcu, h5, s, root, hs, h7, h9⟩
    rw [hsm] at h4; exact h4
  · rw [if_neg (by decide), if_pos (by decide)] at e1
    obtain ⟨⟨m, q⟩, e2, e1⟩ := bind_ok e1
    obtain ⟨⟨si', q'⟩, e3, e1⟩ := bind_ok e1
    simp only [pure_eq_ok, Except.ok.injEq, Prod.mk.injEq] at e1
    have k1 := splitSection_inv hlen e3
    obtain ⟨-, ps, f', k2, k3, k4⟩ := dictSection_inv hlen e2 k1.1
    rw [hdt] at k4
    refine ⟨some ps, some f', es, ⟨1, flag, main, rest, h1, h3, ?_, .inr ⟨rfl, ps, _, f', rfl, rfl, k3, k4, _, k1.2⟩⟩, hcu, h5, s, root, hs, h7, h9⟩
    rw [← e1.1, k2] at h4
    exact h4

/-- C61. What the recursive parser returns is a document that the content can be read as, tables included, whatever the
content is. -/
theorem C61_accepted_value (r : Cfg) (content : Bytes) (hlen : content.length < 2 ^ 63) (po : ParseOption)
    (hrec : po.coroutine = false ∨ content[9]? = some 0) (href : po.parseRef = true → ShortNumbers content) (o : Obj)
    (h : Parses r po content (.ok o)) :
    ∃ pairs dict es, Readable r.asserts (2 ^ 63) content pairs dict es ∧ (po.parseRef = true → noCustomE es = true) ∧
      o.doc? = (firstEntry rootKey es.reverse).map Doc.revMaps := by
  obtain ⟨pairs, dict, es, h1, h2, h3, -⟩ := accepted_root r content hlen po hrec href o h
  exact ⟨pairs, dict, es, h1, h2, h3⟩

theorem bigEndian8_inj {n m : Nat} (hn : n < 2 ^ 63) (hm : m < 2 ^ 63) (h : bigEndian 8 n = bigEndian 8 m) : n = m := by
  have e8 : (256 : Nat) ^ 8 = 2 ^ 64 := by decide
  exact bigEndian_inj (k := 8) (by omega) (by omega) h

/-- C61. A content has at most one reading: the entries of the dictionary are determined by it, and if no id stands for two
strings so is the document. -/
theorem C61_one_reading (strict : Bool) (lim lim' : Nat) (content : Bytes) (hlen : content.length < 2 ^ 63)
    (pairs pairs' : Option (List (Bytes × Nat))) (dict dict' : Option (Nat → Option Bytes)) (es es' : List (Bytes × Doc))
    (h : Readable strict lim content pairs dict es) (h' : Readable strict lim' content pairs' dict' es') :
    pairs = pairs' ∧ ((∀ ps, pairs = some ps → (ps.map Prod.snd).Nodup) → dict = dict' ∧ es = es') := by
  obtain ⟨mode, flag, main, rest, h1, -, h3, h4⟩ := h.layout
  obtain ⟨mode', flag', main', rest', h1', -, h3', h4'⟩ := h'.layout
  have l1 := congrArg List.length h1
  have l2 := congrArg List.length h1'
  simp only [List.length_append, bigEndian_length, List.length_cons, List.length_nil] at l1 l2
  rw [h1] at h1'
  obtain ⟨g1, g2⟩ := List.append_inj h1' (by simp [bigEndian_length])
  have hm : main.length = main'.length := by
    have := bigEndian8_inj (by omega) (by omega) g1
    omega
  simp only [List.cons_append, List.nil_append, List.cons.injEq] at g2
  obtain ⟨rfl, rfl, g2⟩ := g2
  obtain ⟨rfl, rfl⟩ := List.append_inj g2 hm
  have body : dict = dict' → es = es' := by
    rintro rfl
    have := (reads_same _ _ (.map es) (.map es') main main [] [] rfl h3 h3' rfl).1
    simpa using this
  rcases h4 with ⟨rfl, rfl, rfl, -⟩ | ⟨rfl, ps, r1, f, rfl, rfl, hf, hd, -⟩
  · rcases h4' with ⟨-, rfl, rfl, -⟩ | ⟨h, -⟩
    · exact ⟨rfl, fun _ => ⟨rfl, body rfl⟩⟩
    · cases h
  · rcases h4' with ⟨h, -⟩ | ⟨-, ps', r2, f', rfl, rfl, hf', hd', -⟩
    · cases h
    · have := dictSection_same hd hd'
      subst this
      refine ⟨rfl, fun hn => ?_⟩
      have := isDict_unique (hn ps rfl) hf hf'
      subst this
      exact ⟨rfl, body rfl⟩

mutual
/-- A strict reading is a reading. -/
theorem reads_lax {dict : Option (Nat → Option Bytes)} : ∀ (last : Bool) (d : Doc) (bs : Bytes), Reads true last dict d bs → Reads false last dict d bs
  | last, .scalar s, bs, h => by
    obtain ⟨rest, rfl, h⟩ := h
    refine ⟨rest, rfl, ?_⟩
    have key : (∃ l p, NumField l p.length ∧ FillsPayload true s p ∧ rest = l ++ p ∧ (last = true → p ≠ [])) →
        ∃ l p, NumField l p.length ∧ FillsPayload false s p ∧ rest = l ++ p ∧ (last = true → p ≠ []) := by
      rintro ⟨l, p, h1, h2, h3⟩
      refine ⟨l, p, h1, ?_, h3⟩
      unfold FillsPayload at h2 ⊢
      cases hn : s.number? with
      | none => simpa [hn] using h2
      | some n => rw [hn] at h2; obtain ⟨z, h4, -⟩ := h2; exact ⟨z, h4, by simp⟩
    cases s with
    | string b => exact h
    | _ => exact key h
  | last, .array xs, bs, h => by
    obtain ⟨c, i, rest, id, h1, h2, h3, h4⟩ := h
    exact ⟨c, i, rest, id, h1, h2, h3, readsL_lax _ xs rest h4⟩
  | last, .map es, bs, h => by
    obtain ⟨c, i, rest, id, h1, h2, h3, h4⟩ := h
    exact ⟨c, i, rest, id, h1, h2, h3, readsE_lax _ es rest h4⟩
theorem readsL_lax {dict : Option (Nat → Option Bytes)} : ∀ (last : Bool) (xs : List Doc) (bs : Bytes), ReadsL true last dict xs bs → ReadsL false last dict xs bs
  | last, [], bs, h => h
  | last, x :: xs, bs, h => by
    obtain ⟨sp, b, rest, h1, h2, h3⟩ := h
    exact ⟨sp, b, rest, h1, reads_lax _ x b h2, readsL_lax _ xs rest h3⟩
theorem readsE_lax {dict : Option (Nat → Option Bytes)} : ∀ (last : Bool) (es : List (Bytes × Doc)) (bs : Bytes), ReadsE true last dict es bs → ReadsE false last dict es bs
  | last, [], bs, h => h
  | last, (k, x) :: es, bs, h => by
    obtain ⟨kb, sp, b, rest, h1, h0, h2, h3⟩ := h
    exact ⟨kb, sp, b, rest, h1, h0, reads_lax _ x b h2, readsE_lax _ es rest h3⟩
end

theorem readable_lax {lim : Nat} {content : Bytes} {pairs : Option (List (Bytes × Nat))} {dict : Option (Nat → Option Bytes)}
    {es : List (Bytes × Doc)} (h : Readable true lim content pairs dict es) : Readable false lim content pairs dict es := by
  obtain ⟨mode, flag, main, rest, h1, h2, h3, h4⟩ := h.layout
  exact ⟨mode, flag, main, rest, h1, h2, reads_lax _ _ _ h3, h4⟩

/-- C61. Without assertions (`NDEBUG`) the recursive parser accepts a content exactly if it can be read as a document; in an
in-situ parse there must be no value of a user-defined type in it, and no number field may take ten bytes. -/
theorem C61_accepted_iff (r : Cfg) (hr : r.asserts = false) (content : Bytes) (hlen : content.length < 2 ^ 63)
    (hmax : content.length < r.strMax) (po : ParseOption) (hrec : po.coroutine = false ∨ content[9]? = some 0)
    (href : po.parseRef = true → ShortNumbers content) :
    (∃ o, Parses r po content (.ok o)) ↔
      ∃ pairs dict es, Readable false (2 ^ 63) content pairs dict es ∧ (po.parseRef = true → noCustomE es = true) := by
  constructor
  · rintro ⟨o, h⟩
    obtain ⟨pairs, dict, es, h1, h2, -⟩ := C61_accepted_value r content hlen po hrec href o h
    rw [hr] at h1
    exact ⟨pairs, dict, es, h1, h2⟩
  · rintro ⟨pairs, dict, es, h1, h2⟩
    obtain ⟨o, -, -, h3, -⟩ := readable_accepted (r := r) (by simp [hr]) (by simp [hr]) (Nat.le_refl _) hlen hmax hrec (by rw [hr]; exact h1) h2
    exact ⟨o, h3⟩

/-- C61. Without assertions, a content that can be read as a document is accepted, and if no id stands for two strings the
value returned is what the document holds under the last key "root" (null if there is none). -/
theorem C61_readable_value (r : Cfg) (hr : r.asserts = false) (content : Bytes) (hlen : content.length < 2 ^ 63)
    (hmax : content.length < r.strMax) (po : ParseOption) (hrec : po.coroutine = false ∨ content[9]? = some 0)
    (pairs : Option (List (Bytes × Nat))) (dict : Option (Nat → Option Bytes)) (es : List (Bytes × Doc)) (h : Readable false (2 ^ 63) content pairs dict es)
    (hids : ∀ ps, pairs = some ps → (ps.map Prod.snd).Nodup) (hcu : po.parseRef = true → noCustomE es = true) :
    ∃ o, Parses r po content (.ok o) ∧ o.doc? = (firstEntry rootKey es.reverse).map Doc.revMaps := by
  obtain ⟨o, -, es', h1, -, h3, h4⟩ := readable_accepted (r := r) (by simp [hr]) (by simp [hr]) (Nat.le_refl _) hlen hmax hrec (by rw [hr]; exact h) hcu
  rw [h4 hids] at h3
  exact ⟨o, h1, h3⟩

/-- C61. With assertions, a content below 2 GiB that can be read strictly as a document (no shortened number, no split table
that claims 2 GiB or more) is accepted all the same: no assertion stops the parse, and the value is as above. -/
theorem C61_checked_value (r : Cfg) (content : Bytes) (hlen : content.length < 2 ^ 31) (hmax : content.length < r.strMax)
    (po : ParseOption) (hrec : po.coroutine = false ∨ content[9]? = some 0) (pairs : Option (List (Bytes × Nat)))
    (dict : Option (Nat → Option Bytes)) (es : List (Bytes × Doc)) (h : Readable true (2 ^ 31) content pairs dict es)
    (hids : ∀ ps, pairs = some ps → (ps.map Prod.snd).Nodup) (hcu : po.parseRef = true → noCustomE es = true) :
    ∃ o, Parses r po content (.ok o) ∧ o.doc? = (firstEntry rootKey es.reverse).map Doc.revMaps := by
  have h' : Readable r.asserts (2 ^ 31) content pairs dict es := by
    cases ha : r.asserts with
    | true => exact h
    | false => exact readable_lax h
  obtain ⟨o, -, es', h1, -, h3, h4⟩ := readable_accepted (r := r) (fun _ => hlen) (fun _ => Nat.le_refl _) (by decide) (by omega) hmax hrec h' hcu
  rw [h4 hids] at h3
  exact ⟨o, h1, h3⟩

/-! ### a content that no `Serialize` call writes -/

/-- A content with an overlong count, an arbitrary container number, a one-byte payload of an `int32`, and junk at the end. -/
def foreign : Bytes :=
  [0, 0, 0, 0, 0, 0, 0, 22, 0, 0, 0x81, 0, 77, 4, 0x72, 0x6F, 0x6F, 0x74, 0, 2, 1, 5] ++ ([1, 0] ++ [9, 9])

theorem foreign_readable : Readable false (2 ^ 63) foreign none none [(rootKey, .scalar (.int32 0x05000000))] := by
  have hn : ∀ b : UInt8, b.toNat < 128 → NumField [b] b.toNat := by
    intro b hb
    refine ⟨hb, by simp, ?_⟩
    simp only [lebValue]
    omega
  refine ⟨⟨0, 0, [0x81, 0, 77, 4, 0x72, 0x6F, 0x6F, 0x74, 0, 2, 1, 5], [1, 0] ++ [9, 9], by decide, .inl rfl, ?_, ?_⟩⟩
  · refine ⟨[0x81, 0], [77], _, 77, rfl, ⟨⟨by decide, show (0 : UInt8).toNat < 128 by decide⟩, by decide, by decide⟩, hn 77 (by decide), ?_⟩
    refine ⟨4 :: rootKey, false, [2, 1, 5], [], rfl, ⟨[4], hn 4 (by decide), rfl⟩, ?_, rfl⟩
    exact ⟨_, rfl, [1], [5], hn 1 (by decide), ⟨3, by decide, by decide⟩, rfl, by simp⟩
  · exact .inl ⟨rfl, rfl, rfl, [], [1], 1, [0, 9, 9], [0], rfl, hn 1 (by decide), by decide, ⟨[9, 9, 0], rfl⟩, by decide,
      List.nodup_nil, [0], 0, [], hn 0 (by decide), rfl, rfl, rfl⟩

/-- The hypotheses of the C61 theorems are met by that content, and the parser accepts it as the theorems say. -/
example : ∃ o, Parses { Cfg.x86 with asserts := false } { parseRef := true } foreign (.ok o) ∧ o.doc? = some (.scalar (.int32 0x05000000)) := by
  obtain ⟨o, h1, h2⟩ := C61_readable_value { Cfg.x86 with asserts := false } rfl foreign (by decide) (by decide) { parseRef := true } (.inl rfl)
    none none _ foreign_readable (by intro ps h; cases h) (by intro _; decide)
  exact ⟨o, h1, h2⟩

/-- A content with an overlong count, an arbitrary container number and junk at the end, whose number is written in full. -/
def foreignFull : Bytes :=
  [0, 0, 0, 0, 0, 0, 0, 25, 0, 0, 0x81, 0, 77, 4, 0x72, 0x6F, 0x6F, 0x74, 0, 2, 4, 5, 0, 0, 1] ++ ([1, 0] ++ [9, 9])

theorem foreignFull_readable : Readable true (2 ^ 31) foreignFull none none [(rootKey, .scalar (.int32 0x05000001))] := by
  have hn : ∀ b : UInt8, b.toNat < 128 → NumField [b] b.toNat := by
    intro b hb
    refine ⟨hb, by simp, ?_⟩
    simp only [lebValue]
    omega
  refine ⟨⟨0, 0, [0x81, 0, 77, 4, 0x72, 0x6F, 0x6F, 0x74, 0, 2, 4, 5, 0, 0, 1], [1, 0] ++ [9, 9], by decide, .inl rfl, ?_, ?_⟩⟩
  · refine ⟨[0x81, 0], [77], _, 77, rfl, ⟨⟨by decide, show (0 : UInt8).toNat < 128 by decide⟩, by decide, by decide⟩, hn 77 (by decide), ?_⟩
    refine ⟨4 :: rootKey, false, [2, 4, 5, 0, 0, 1], [], rfl, ⟨[4], hn 4 (by decide), rfl⟩, ?_, rfl⟩
    exact ⟨_, rfl, [4], [5, 0, 0, 1], hn 4 (by decide), ⟨0, by decide, fun _ => rfl⟩, rfl, by simp⟩
  · exact .inl ⟨rfl, rfl, rfl, [], [1], 1, [0, 9, 9], [0], rfl, hn 1 (by decide), by decide, ⟨[9, 9, 0], rfl⟩, by decide,
      List.nodup_nil, [0], 0, [], hn 0 (by decide), rfl, rfl, rfl⟩

/-- The hypotheses of `C61_checked_value` are met by that content in a build with assertions. -/
example : Cfg.x86.asserts = true ∧ ∃ o, Parses Cfg.x86 {} foreignFull (.ok o) ∧ o.doc? = some (.scalar (.int32 0x05000001)) := by
  obtain ⟨o, h1, h2⟩ := C61_checked_value Cfg.x86 foreignFull (by decide) (by decide) {} (.inl rfl)
    none none _ foreignFull_readable (by intro ps h; cases h) (by intro h; cases h)
  exact ⟨rfl, o, h1, h2⟩

/-- The same parser does not accept a content without a split table. -/
example : ¬ ∃ pairs dict es, Readable false (2 ^ 63) (foreign.take 22) pairs dict es := by
  rintro ⟨pairs, dict, es, h⟩
  obtain ⟨mode, flag, main, rest, h1, -, -, h2⟩ := h.layout
  have e : (foreign.take 22).length = 22 := by decide
  have e8 : (foreign.take 22).take 8 = bigEndian 8 22 := by decide
  have e0 : ((foreign.take 22).drop 8)[0]? = some 0 := by decide
  generalize foreign.take 22 = c at *
  subst h1
  have h8 : bigEndian 8 (10 + main.length) = bigEndian 8 22 := by
    rw [List.take_append_of_le_length (by simp [bigEndian_length]), List.take_of_length_le (by simp [bigEndian_length])] at e8
    exact e8
  have hm : mode = 0 := by
    rw [List.drop_append_of_le_length (by simp [bigEndian_length]), List.drop_of_length_le (by simp [bigEndian_length])] at e0
    simpa using e0
  simp only [List.length_append, bigEndian_length, List.length_cons, List.length_nil] at e
  have hv : main.length + rest.length = 12 := by omega
  have hml : main.length = 12 := by
    have : main.length ∈ List.range 13 := by simp; omega
    have hall : ∀ k ∈ List.range 13, bigEndian 8 (10 + k) = bigEndian 8 22 → k = 12 := by decide
    exact hall _ this h8
  have hr : rest = [] := by
    rw [← List.length_eq_zero_iff]; omega
  subst hr
  rcases h2 with ⟨-, -, -, t, l, size, tail, bs, h3, h4, -⟩ | ⟨rfl, -⟩
  · have := congrArg List.length h3
    have := isLeb_pos h4.1
    simp at *
    omega
  · cases hm

end Bridge
