import Verif.Props.Language
import Verif.Props.HostileSplit
import Verif.Proof.CoComplete
import Verif.Spec.SplitLanguage
/-
C63: exactly which byte strings with the split flag the parallel parser accepts, and as what.
-/
set_option autoImplicit false
namespace Bridge
open Spec

theorem tableFn_lookup (si : SplitInfo) : tableFn si = fun id => si.info.lookup id := by
  have key : ∀ (m : List (Nat × List Nat)) (id : Nat), assocGet m id = m.lookup id := by
    intro m id
    induction m with
    | nil => rfl
    | cons e m ih =>
      obtain ⟨a, b⟩ := e
      simp only [assocGet, List.lookup_cons]
      by_cases h : a = id
      · subst h; simp
      · have : ¬ (id == a) = true := by simpa using fun e => h e.symm
        simp [h, this, ih]
  funext id
  simp only [tableFn, SplitInfo.getBlocks, key]
  cases si.info.lookup id <;> rfl

theorem splitSection_info {r : Cfg} {content : Bytes} {lim : Nat} (hr : r.asserts = true → content.length < 2 ^ 31)
    (hl : r.asserts = true → lim ≤ 2 ^ 31) (hl' : lim ≤ 2 ^ 63) (hlen : content.length < 2 ^ 63) {p : Nat}
    (hp : p ≤ content.length) {t : List (Nat × List Nat)} (h : SplitSection lim t (content.drop p)) :
    ∃ si q, parseSecondary r (SplitInfo.construct r) content p = .ok (si, q) ∧ si.info = t := by
  obtain ⟨l, size, tail, bs, h1, h2, h3, h4, h5, h6⟩ := h
  have hat : HasAt content p l := ⟨tail, h1.symm⟩
  have hp' := hat.length hp
  have ht : content.drop (p + l.length) = tail := by rw [← List.drop_drop, h1, List.drop_left]
  obtain ⟨si, g1, g2⟩ := siConstruct_complete (r := r) (v := ⟨content, p + l.length, size⟩) (fun ha => by have := hl ha; simp only; omega) (by simp only; omega) h6 (by
    simp only
    unfold HasAt
    rw [List.drop_append_of_le_length hp', ht]
    exact h4) h5
  exact ⟨si, _, secondary_complete hr hlen h2 hat hp' (by omega) g1, g2⟩

/-! ### dictionaries with ambiguous ids; strict readings -/

section
variable {strict : Bool} {content : Bytes} {table : Nat → Option (List Nat)}

mutual
theorem readsSplit_dict {f f' : Nat → Option Bytes} (h : ∀ id, (f id).isSome → (f' id).isSome) : ∀ {d : Doc} {i j : Nat},
    ReadsSplit strict content (some f) table d i j →
    ∃ d', ReadsSplit strict content (some f') table d' i j ∧ docType d' = docType d ∧ d'.noCustom = d.noCustom
  | _, _, _, .array hh hb => by
    obtain ⟨yss, k1, k2⟩ := blocks_dict h hb
    exact ⟨_, .array hh k1, rfl, k2⟩
  | _, _, _, .map hh hb => by
    obtain ⟨yss, k1, k2⟩ := blocksE_dict h hb
    exact ⟨_, .map hh k1, rfl, k2⟩
theorem child_dict {f f' : Nat → Option Bytes} (h : ∀ id, (f id).isSome → (f' id).isSome) : ∀ {d : Doc} {i j : Nat},
    Child strict content (some f) table d i j → ∃ d', Child strict content (some f') table d' i j ∧ d'.noCustom = d.noCustom
  | _, _, _, .plain (d := d) hk hr hat => by
    obtain ⟨d', k1, k2, k3⟩ := reads_dict h _ d _ hr
    refine ⟨_, .plain (d := d') ?_ k1 hat, by rw [noCustom_revMaps, noCustom_revMaps, k3]⟩
    rw [hk, ← kindByte_eq, ← kindByte_eq, k2]
  | _, _, _, .split hk hs => by
    obtain ⟨d', k1, k2, k3⟩ := readsSplit_dict h hs
    refine ⟨_, .split (d := d') ?_ k1, k3⟩
    rw [hk, ← kindByte_eq, ← kindByte_eq, k2]
theorem block_dict {f f' : Nat → Option Bytes} (h : ∀ id, (f id).isSome → (f' id).isSome) : ∀ {xs : List Doc} {i e : Nat},
    Block strict content (some f) table xs i e → ∃ ys, Block strict content (some f') table ys i e ∧ noCustomL ys = noCustomL xs
  | _, _, _, .nil he => ⟨[], .nil he, rfl⟩
  | _, _, _, .cons hie hc hb => by
    obtain ⟨d', k1, k2⟩ := child_dict h hc
    obtain ⟨ys, q1, q2⟩ := block_dict h hb
    exact ⟨_, .cons hie k1 q1, by simp [noCustomL, k2, q2]⟩
theorem blocks_dict {f f' : Nat → Option Bytes} (h : ∀ id, (f id).isSome → (f' id).isSome) : ∀ {xss : List (List Doc)} {b : Nat}
    {sizes : List Nat}, Blocks strict content (some f) table xss b sizes →
    ∃ yss, Blocks strict content (some f') table yss b sizes ∧ noCustomL yss.flatten = noCustomL xss.flatten
  | _, _, _, .nil => ⟨[], .nil, rfl⟩
  | _, _, _, .cons hb hbs => by
    obtain ⟨ys, k1, k2⟩ := block_dict h hb
    obtain ⟨yss, q1, q2⟩ := blocks_dict h hbs
    exact ⟨_, .cons k1 q1, by simp [noCustomL_append, k2, q2]⟩
theorem blockE_dict {f f' : Nat → Option Bytes} (h : ∀ id, (f id).isSome → (f' id).isSome) : ∀ {es : List (Bytes × Doc)} {i e : Nat},
    BlockE strict content (some f) table es i e → ∃ ys, BlockE strict content (some f') table ys i e ∧ noCustomE ys = noCustomE es
  | _, _, _, .nil he => ⟨[], .nil he, rfl⟩
  | _, _, _, .cons hie hk hat hc hb => by
    obtain ⟨n, f1, f2⟩ := hk
    obtain ⟨k', hk'⟩ := Option.isSome_iff_exists.mp (h (n % 2 ^ 32) (by rw [f2]; rfl))
    obtain ⟨d', k1, k2⟩ := child_dict h hc
    obtain ⟨ys, q1, q2⟩ := blockE_dict h hb
    exact ⟨_, .cons (k := k') hie ⟨n, f1, hk'⟩ hat k1 q1, by simp [noCustomE, k2, q2]⟩
theorem blocksE_dict {f f' : Nat → Option Bytes} (h : ∀ id, (f id).isSome → (f' id).isSome) : ∀ {ess : List (List (Bytes × Doc))} {b : Nat}
    {sizes : List Nat}, BlocksE strict content (some f) table ess b sizes →
    ∃ yss, BlocksE strict content (some f') table yss b sizes ∧ noCustomE yss.reverse.flatten = noCustomE ess.reverse.flatten
  | _, _, _, .nil => ⟨[], .nil, rfl⟩
  | _, _, _, .cons hb hbs => by
    obtain ⟨ys, k1, k2⟩ := blockE_dict h hb
    obtain ⟨yss, q1, q2⟩ := blocksE_dict h hbs
    refine ⟨_, .cons k1 q1, ?_⟩
    simp only [List.reverse_cons, List.flatten_append, List.flatten_cons, List.flatten_nil, List.append_nil, noCustomE_append, k2, q2]
end

variable {dict : Option (Nat → Option Bytes)}

mutual
/-- A strict reading is a reading. -/
theorem readsSplit_lax : ∀ {d : Doc} {i j : Nat}, ReadsSplit true content dict table d i j → ReadsSplit false content dict table d i j
  | _, _, _, .array hh hb => .array hh (blocks_lax hb)
  | _, _, _, .map hh hb => .map hh (blocksE_lax hb)
theorem child_lax : ∀ {d : Doc} {i j : Nat}, Child true content dict table d i j → Child false content dict table d i j
  | _, _, _, .plain hk hr hat => .plain hk (reads_lax _ _ _ hr) hat
  | _, _, _, .split hk hs => .split hk (readsSplit_lax hs)
theorem block_lax : ∀ {xs : List Doc} {i e : Nat}, Block true content dict table xs i e → Block false content dict table xs i e
  | _, _, _, .nil he => .nil he
  | _, _, _, .cons hie hc hb => .cons hie (child_lax hc) (block_lax hb)
theorem blocks_lax : ∀ {xss : List (List Doc)} {b : Nat} {sizes : List Nat}, Blocks true content dict table xss b sizes →
    Blocks false content dict table xss b sizes
  | _, _, _, .nil => .nil
  | _, _, _, .cons hb hbs => .cons (block_lax hb) (blocks_lax hbs)
theorem blockE_lax : ∀ {es : List (Bytes × Doc)} {i e : Nat}, BlockE true content dict table es i e → BlockE false content dict table es i e
  | _, _, _, .nil he => .nil he
  | _, _, _, .cons hie hk hat hc hb => .cons hie hk hat (child_lax hc) (blockE_lax hb)
theorem blocksE_lax : ∀ {ess : List (List (Bytes × Doc))} {b : Nat} {sizes : List Nat}, BlocksE true content dict table ess b sizes →
    BlocksE false content dict table ess b sizes
  | _, _, _, .nil => .nil
  | _, _, _, .cons hb hbs => .cons (blockE_lax hb) (blocksE_lax hbs)
end

end

theorem readableSplit_lax {lim : Nat} {content : Bytes} {pairs : Option (List (Bytes × Nat))} {dict : Option (Nat → Option Bytes)}
    {t : List (Nat × List Nat)} {es : List (Bytes × Doc)} (h : ReadableSplit true lim content pairs dict t es) :
    ReadableSplit false lim content pairs dict t es := by
  obtain ⟨total, mode, stop, h1, h2, h3, h4, h5, h6⟩ := h.layout
  exact ⟨total, mode, stop, h1, h2, h3, h4, readsSplit_lax h5, h6⟩

/-! ### C63 -/

theorem co_of_init {r : Cfg} {po : ParseOption} {content : Bytes} {s : Sched} (hco : po.coroutine = true) (hw : 0 < po.workers)
    (hs : initFromContent r content = .ok s) (hsp : s.split = true) (n : Nat) :
    parse r po n content = (coMap r (View.whole content) s.sm s.si po.parseRef n metaSize >>= fun p => .ok (takeRoot p.1)) := by
  unfold parse
  rw [hs]
  simp only [ok_bind]
  rw [if_pos hco]
  unfold coroutineParse
  rw [if_neg (by rw [hsp]; simp), if_neg (by omega)]
  cases coMap r (View.whole content) s.sm s.si po.parseRef n metaSize <;> rfl

/-- What the parser makes of the tables of a readable content. -/
theorem split_init {r : Cfg} {content : Bytes} {lim : Nat} (hr : r.asserts = true → content.length < 2 ^ 31)
    (hl1 : r.asserts = true → lim ≤ 2 ^ 31) (hl2 : lim ≤ 2 ^ 63) (hlen : content.length < 2 ^ 63) {strict : Bool}
    {pairs : Option (List (Bytes × Nat))} {dict : Option (Nat → Option Bytes)} {t : List (Nat × List Nat)} {es : List (Bytes × Doc)}
    (h : ReadableSplit strict lim content pairs dict t es) :
    ∃ s es' stop, initFromContent r content = .ok s ∧ s.split = true ∧ s.si.info = t ∧
      ReadsSplit strict content (dictFn r s.sm) (tableFn s.si) (.map es') 10 stop ∧
      ReadableSplit strict lim content pairs (dictFn r s.sm) t es' ∧ noCustomE es' = noCustomE es ∧
      ((∀ ps, pairs = some ps → (ps.map Prod.snd).Nodup) → es' = es ∧ dictFn r s.sm = dict) := by
  obtain ⟨total, mode, stop, htl, h8, hm, hfl, hrd, htab⟩ := h.layout
  have hl10 : 10 ≤ content.length := lt_of_getElem? hfl
  have hg8 : content.getD 8 0 = mode := by simp [List.getD, hm]
  have hg9 : content.getD 9 0 = 0x0A := by simp [List.getD, hfl]
  have key : ∃ sm si es', readTables r content total mode = .ok (sm, si) ∧ si.info = t ∧
      ReadsSplit strict content (dictFn r sm) (fun id => t.lookup id) (.map es') 10 stop ∧
      ReadableSplit strict lim content pairs (dictFn r sm) t es' ∧ noCustomE es' = noCustomE es ∧
      ((∀ ps, pairs = some ps → (ps.map Prod.snd).Nodup) → es' = es ∧ dictFn r sm = dict) := by
    rcases htab with ⟨rfl, rfl, rfl, ht⟩ | ⟨rfl, ps, rest, f, rfl, rfl, hf, hd, ht⟩
    · obtain ⟨si, q, hq, hi⟩ := splitSection_info hr hl1 hl2 hlen htl ht
      refine ⟨none, si, es, ?_, hi, hrd, h, rfl, fun _ => ⟨rfl, rfl⟩⟩
      unfold readTables
      rw [if_pos (by decide), hq]
      rfl
    · obtain ⟨m, f', q, hq, hf', hd', hql, hqd⟩ := dictSection_complete hr hlen htl hd
      obtain ⟨si, q', hq', hi⟩ := splitSection_info hr hl1 hl2 hlen hql (by rw [hqd]; exact ht)
      have htabs : readTables r content total 1 = .ok (some m, si) := by
        unfold readTables
        rw [if_neg (by decide), if_pos (by decide), hq]
        simp only [ok_bind]
        rw [hq']
        rfl
      by_cases hun : (ps.map Prod.snd).Nodup
      · have : f' = f := isDict_unique hun hd' hf
        subst this
        exact ⟨some m, si, es, htabs, hi, by rw [hf']; exact hrd, by rw [hf']; exact h, rfl, fun _ => ⟨rfl, hf'⟩⟩
      · obtain ⟨d', k1, k2, k3⟩ := readsSplit_dict (isDict_dom hf hd') hrd
        cases d' with
        | scalar => simp [docType] at k2
        | array => simp [docType] at k2
        | map es' =>
          refine ⟨some m, si, es', htabs, hi, by rw [hf']; exact k1, ⟨total, 1, stop, htl, h8, hm, hfl, by rw [hf']; exact k1,
            .inr ⟨rfl, ps, rest, f', rfl, hf', hd', hd, ht⟩⟩, ?_, ?_⟩
          · simpa [Doc.noCustom] using k3
          · intro hnd; exact absurd (hnd ps rfl) hun
  obtain ⟨sm, si, es', k1, rfl, k3, k4, k5, k6⟩ := key
  refine ⟨⟨sm, si, total, true⟩, es', stop, ?_, rfl, rfl, ?_, k4, k5, k6⟩
  · rw [init_steps hl10, totalSize_of (by omega) (by omega) h8]
    simp only [ok_bind]
    rw [hg8, hg9, k1]
    simp only [ok_bind]
    rfl
  · rw [tableFn_lookup]; exact k3

/-- The reading half: a readable content is accepted, with the meaning that this run gives to the dictionary. -/
theorem readableSplit_accepted {r : Cfg} {content : Bytes} {lim : Nat} (hr : r.asserts = true → content.length < 2 ^ 31)
    (hl1 : r.asserts = true → lim ≤ 2 ^ 31) (hl2 : lim ≤ 2 ^ 63) (hlen : content.length < 2 ^ 32)
    (hmax : content.length < r.strMax) {po : ParseOption} (hco : po.coroutine = true) (hw : 0 < po.workers)
    {pairs : Option (List (Bytes × Nat))} {dict : Option (Nat → Option Bytes)} {t : List (Nat × List Nat)} {es : List (Bytes × Doc)}
    (h : ReadableSplit r.asserts lim content pairs dict t es) (hcu : po.parseRef = true → noCustomE es = true) :
    ∃ o dict' es', Parses r po content (.ok o) ∧ ReadableSplit r.asserts lim content pairs dict' t es' ∧
      o.doc? = firstEntry rootKey es' ∧ ((∀ ps, pairs = some ps → (ps.map Prod.snd).Nodup) → es' = es) := by
  obtain ⟨s, es', stop, hs, hsp, -, hrd, k4, k5, k6⟩ := split_init hr hl1 hl2 (by omega) h
  have hctx : NCtx r content s.sm := by
    refine ⟨hr, by omega, hmax, ?_⟩
    intro m hm id x hx
    rcases (init_inv hs).2.2.2.1 with ⟨-, h2⟩ | ⟨-, m', h2, -, h3⟩
    · rw [h2] at hm; cases hm
    · rw [h2] at hm; cases hm; exact h3 id x hx
  have hl10 := (init_inv hs).1
  obtain ⟨-, -, N, root, g1, g2⟩ := split_complete hctx hlen (init_small hs) po.parseRef hrd (by omega)
    (by intro hp; simp only [Doc.noCustom]; rw [k5]; exact hcu hp)
  refine ⟨takeRoot root, dictFn r s.sm, es', ?_, k4, ?_, fun hn => (k6 hn).1⟩
  · refine parses_of_fuel (f := N) ?_ (by simp)
    rw [co_of_init hco hw hs hsp]
    have := g2 N (Nat.le_refl _)
    simp only [docType, coSplit] at this
    simp only [metaSize]
    rw [this]
    rfl
  · cases root with
    | map rf pl sz items =>
      simp only [Obj.doc?] at g1
      split at g1
      · simp only [Option.map_eq_some_iff] at g1
        obtain ⟨ds, q1, q2⟩ := g1
        simp only [Doc.map.injEq] at q2
        simp only [takeRoot]
        rw [takeKey_doc q1, q2]
      · cases g1
    | null => simp [Obj.doc?] at g1
    | data => simp [Obj.doc?] at g1
    | array => simp only [Obj.doc?] at g1; split at g1 <;> simp at g1

/-- C63. What the parallel parser returns for a content with the split flag is a document that the content can be read as, tables
included, whatever the content is. -/
theorem C63_accepted_value (r : Cfg) (content : Bytes) (hlen : content.length < 2 ^ 32) (po : ParseOption)
    (hco : po.coroutine = true) (hflag : content[9]? = some 0x0A) (href : po.parseRef = true → ShortNumbers content) (o : Obj)
    (h : Parses r po content (.ok o)) :
    ∃ pairs dict t es, ReadableSplit r.asserts (2 ^ 63) content pairs dict t es ∧ (po.parseRef = true → noCustomE es = true) ∧
      o.doc? = firstEntry rootKey es := by
  obtain ⟨-, n, hn⟩ := h
  have h := hn n (Nat.le_refl _)
  obtain ⟨s, hs, -⟩ := bind_ok (show (initFromContent r content >>= _) = _ from h)
  have hsmall := init_small hs
  obtain ⟨hl10, ht8, ht64, hmode, hfl⟩ := init_inv hs
  have hsp : s.split = true := by
    rcases hfl with ⟨h1, -⟩ | ⟨-, h2⟩
    · rw [hflag] at h1; simp at h1
    · exact h2
  have hw : 0 < po.workers := by
    rcases Nat.eq_zero_or_pos po.workers with h0 | h0
    · exfalso
      unfold parse coroutineParse at h
      rw [hs] at h
      simp only [ok_bind] at h
      rw [if_pos hco, if_neg (by rw [hsp]; simp), if_pos h0] at h
      cases h
    · exact h0
  rw [co_of_init hco hw hs hsp] at h
  obtain ⟨⟨root, c⟩, e1, h⟩ := bind_ok h
  simp only [Except.ok.injEq] at h
  have hctx : SCtx r content s.sm po.parseRef := by
    refine ⟨by omega, ?_, href⟩
    intro m hm id x hx
    rcases hmode with ⟨-, h2⟩ | ⟨-, m', h2, -, h3⟩
    · rw [h2] at hm; cases hm
    · rw [h2] at hm; cases hm; exact h3 id x hx
  obtain ⟨d, j, -, -, -, g4, g5, g6, g7⟩ := (co_sound hctx hlen hsmall n).2.2.2 _ _ _ (by unfold metaSize; omega) e1
  rw [tableFn_lookup] at g6
  simp only [metaSize] at g6
  cases d with
  | scalar x => simp [docType] at g4
  | array xs => simp [docType] at g4
  | map es =>
    have hcu : po.parseRef = true → noCustomE es = true := by
      intro hp
      rw [hp] at g7
      exact built_noCustom root _ g7 g5
    have hval : o.doc? = firstEntry rootKey es := by
      rw [← h]
      cases root with
      | map rf pl sz items =>
        simp only [Obj.doc?] at g5
        split at g5
        · simp only [Option.map_eq_some_iff] at g5
          obtain ⟨ds, k1, k2⟩ := g5
          simp only [Doc.map.injEq] at k2
          simp only [takeRoot]
          rw [takeKey_doc k1, k2]
        · cases g5
      | null => simp [Obj.doc?] at g5
      | data => simp [Obj.doc?] at g5
      | array => simp only [Obj.doc?] at g5; split at g5 <;> simp at g5
    have hinit := hs
    rw [init_steps hl10] at hinit
    obtain ⟨t, ht, hinit⟩ := bind_ok hinit
    obtain ⟨⟨sm, si⟩, e2, hinit⟩ := bind_ok hinit
    have hst : s.total = t ∧ s.sm = sm ∧ s.si = si := by
      unfold readFlag at hinit
      split at hinit
      · simp only [pure_eq_ok, Except.ok.injEq] at hinit; subst hinit; exact ⟨rfl, rfl, rfl⟩
      split at hinit
      · simp only [pure_eq_ok, Except.ok.injEq] at hinit; subst hinit; exact ⟨rfl, rfl, rfl⟩
      · cases hinit
    obtain ⟨rfl, rfl, rfl⟩ := hst
    unfold readTables at e2
    rcases hmode with ⟨h1, hsm⟩ | ⟨h1, m, hsm, -⟩
    · rw [show content.getD 8 0 = 0 by simp [List.getD, h1], if_pos (by decide)] at e2
      obtain ⟨⟨si', q⟩, e3, e2⟩ := bind_ok e2
      simp only [pure_eq_ok, Except.ok.injEq, Prod.mk.injEq] at e2
      have k1 := splitSection_inv (by omega) e3
      rw [e2.2] at k1
      refine ⟨none, none, s.si.info, es, ⟨s.total, 0, j, by omega, ht8, h1, hflag, ?_, .inl ⟨rfl, rfl, rfl, k1.2⟩⟩, hcu, hval⟩
      rw [hsm] at g6; exact g6
    · rw [show content.getD 8 0 = 1 by simp [List.getD, h1], if_neg (by decide), if_pos (by decide)] at e2
      obtain ⟨⟨m', q⟩, e3, e2⟩ := bind_ok e2
      obtain ⟨⟨si', q'⟩, e4, e2⟩ := bind_ok e2
      simp only [pure_eq_ok, Except.ok.injEq, Prod.mk.injEq] at e2
      have k1 := splitSection_inv (by omega) e4
      rw [e2.2] at k1
      obtain ⟨k0, ps, f', k2, k3, k4⟩ := dictSection_inv (by omega) e3 k1.1
      refine ⟨some ps, some f', s.si.info, es, ⟨s.total, 1, j, by omega, ht8, h1, hflag, ?_,
        .inr ⟨rfl, ps, _, f', rfl, rfl, k3, k4, k1.2⟩⟩, hcu, hval⟩
      rw [← e2.1, k2] at g6
      exact g6

/-- C63. Without assertions (`NDEBUG`), a parallel parse with at least one worker thread accepts a content with the split flag
exactly if it can be read as a split document; in an in-situ parse there must be no value of a user-defined type in it, and no
number field may take ten bytes. -/
theorem C63_accepted_iff (r : Cfg) (hr : r.asserts = false) (content : Bytes) (hlen : content.length < 2 ^ 32)
    (hmax : content.length < r.strMax) (po : ParseOption) (hco : po.coroutine = true) (hw : 0 < po.workers)
    (hflag : content[9]? = some 0x0A) (href : po.parseRef = true → ShortNumbers content) :
    (∃ o, Parses r po content (.ok o)) ↔
      ∃ pairs dict t es, ReadableSplit false (2 ^ 63) content pairs dict t es ∧ (po.parseRef = true → noCustomE es = true) := by
  constructor
  · rintro ⟨o, h⟩
    obtain ⟨pairs, dict, t, es, h1, h2, -⟩ := C63_accepted_value r content hlen po hco hflag href o h
    rw [hr] at h1
    exact ⟨pairs, dict, t, es, h1, h2⟩
  · rintro ⟨pairs, dict, t, es, h1, h2⟩
    obtain ⟨o, -, -, h3, -⟩ := readableSplit_accepted (r := r) (by simp [hr]) (by simp [hr]) (Nat.le_refl _) hlen hmax hco hw
      (by rw [hr]; exact h1) h2
    exact ⟨o, h3⟩

/-- C63. Without assertions, a content that can be read as a split document is accepted, and if no id stands for two strings the
value returned is what the document holds under the first key "root" (null if there is none). -/
theorem C63_readable_value (r : Cfg) (hr : r.asserts = false) (content : Bytes) (hlen : content.length < 2 ^ 32)
    (hmax : content.length < r.strMax) (po : ParseOption) (hco : po.coroutine = true) (hw : 0 < po.workers)
    (pairs : Option (List (Bytes × Nat))) (dict : Option (Nat → Option Bytes)) (t : List (Nat × List Nat)) (es : List (Bytes × Doc))
    (h : ReadableSplit false (2 ^ 63) content pairs dict t es) (hids : ∀ ps, pairs = some ps → (ps.map Prod.snd).Nodup)
    (hcu : po.parseRef = true → noCustomE es = true) :
    ∃ o, Parses r po content (.ok o) ∧ o.doc? = firstEntry rootKey es := by
  obtain ⟨o, -, es', h1, -, h3, h4⟩ := readableSplit_accepted (r := r) (by simp [hr]) (by simp [hr]) (Nat.le_refl _) hlen hmax hco hw
    (by rw [hr]; exact h) hcu
  rw [h4 hids] at h3
  exact ⟨o, h1, h3⟩

/-- C63. With assertions, a content below 2 GiB that can be read strictly as a split document is accepted all the same, with the
value described above. -/
theorem C63_checked_value (r : Cfg) (content : Bytes) (hlen : content.length < 2 ^ 31)
    (hmax : content.length < r.strMax) (po : ParseOption) (hco : po.coroutine = true) (hw : 0 < po.workers)
    (pairs : Option (List (Bytes × Nat))) (dict : Option (Nat → Option Bytes)) (t : List (Nat × List Nat)) (es : List (Bytes × Doc))
    (h : ReadableSplit true (2 ^ 31) content pairs dict t es) (hids : ∀ ps, pairs = some ps → (ps.map Prod.snd).Nodup)
    (hcu : po.parseRef = true → noCustomE es = true) :
    ∃ o, Parses r po content (.ok o) ∧ o.doc? = firstEntry rootKey es := by
  have h' : ReadableSplit r.asserts (2 ^ 31) content pairs dict t es := by
    cases ha : r.asserts with
    | true => exact h
    | false => exact readableSplit_lax h
  obtain ⟨o, -, es', h1, -, h3, h4⟩ := readableSplit_accepted (r := r) (fun _ => hlen) (fun _ => Nat.le_refl _) (by decide) (by omega) hmax
    hco hw h' hcu
  rw [h4 hids] at h3
  exact ⟨o, h1, h3⟩

/-- C63. A content has at most one reading as a split document: the dictionary and the split table are determined by it, and if no
id stands for two strings so is the document. -/
theorem C63_one_reading (strict : Bool) (content : Bytes) (hlen : content.length < 2 ^ 32)
    (pairs pairs' : Option (List (Bytes × Nat))) (dict dict' : Option (Nat → Option Bytes)) (t t' : List (Nat × List Nat))
    (es es' : List (Bytes × Doc))
    (h : ReadableSplit strict (2 ^ 63) content pairs dict t es) (h' : ReadableSplit strict (2 ^ 63) content pairs' dict' t' es') :
    pairs = pairs' ∧ t = t' ∧ ((∀ ps, pairs = some ps → (ps.map Prod.snd).Nodup) → dict = dict' ∧ es = es') := by
  have hl : ReadableSplit false (2 ^ 63) content pairs dict t es := by
    cases strict with
    | true => exact readableSplit_lax h
    | false => exact h
  have hl' : ReadableSplit false (2 ^ 63) content pairs' dict' t' es' := by
    cases strict with
    | true => exact readableSplit_lax h'
    | false => exact h'
  have hpairs : pairs = pairs' := by
    obtain ⟨total, mode, stop, h1, h2, h3, -, -, h6⟩ := h.layout
    obtain ⟨total', mode', stop', h1', h2', h3', -, -, h6'⟩ := h'.layout
    rw [h3] at h3'
    simp only [Option.some.injEq] at h3'
    subst h3'
    have : total = total' := by
      rw [h2] at h2'
      exact bigEndian8_inj (by omega) (by omega) h2'
    subst this
    rcases h6 with ⟨rfl, rfl, -⟩ | ⟨rfl, ps, rest, f, rfl, -, -, hd, -⟩
    · rcases h6' with ⟨-, rfl, -⟩ | ⟨hm, -⟩
      · rfl
      · cases hm
    · rcases h6' with ⟨hm, -⟩ | ⟨-, ps', rest', f', rfl, -, -, hd', -⟩
      · cases hm
      · rw [dictSection_same hd hd']
  subst hpairs
  let r : Cfg := { Cfg.x86 with asserts := false }
  obtain ⟨s, es1, stop, hs, hsp, k1, hrd, -, k5, k6⟩ := split_init (r := r) (by simp [r]) (by simp [r]) (Nat.le_refl _) (by omega) hl
  obtain ⟨s', es1', stop', hs', hsp', k1', hrd', -, k5', k6'⟩ := split_init (r := r) (by simp [r]) (by simp [r]) (Nat.le_refl _) (by omega) hl'
  rw [hs] at hs'
  simp only [Except.ok.injEq] at hs'
  subst hs'
  refine ⟨rfl, by rw [← k1, ← k1'], fun hn => ?_⟩
  obtain ⟨rfl, q2⟩ := k6 hn
  obtain ⟨rfl, q2'⟩ := k6' hn
  refine ⟨by rw [← q2, ← q2'], ?_⟩
  have hctx : NCtx r content s.sm := by
    refine ⟨by simp [r], by omega, ?_, ?_⟩
    · show content.length < Cfg.x86.strMax
      have : (2 : Nat) ^ 32 ≤ Cfg.x86.strMax := by decide
      omega
    intro m hm id x hx
    rcases (init_inv hs).2.2.2.1 with ⟨-, h2⟩ | ⟨-, m', h2, -, h3⟩
    · rw [h2] at hm; cases hm
    · rw [h2] at hm; cases hm; exact h3 id x hx
  have hl10 := (init_inv hs).1
  obtain ⟨-, -, N, root, g1, g2⟩ := split_complete (cfg := r) hctx hlen (init_small hs) false hrd (by omega) (by simp)
  obtain ⟨-, -, N', root', g1', g2'⟩ := split_complete (cfg := r) hctx hlen (init_small hs) false hrd' (by omega) (by simp)
  have e1 := g2 (N + N') (by omega)
  have e2 := g2' (N + N') (by omega)
  simp only [docType] at e1 e2
  rw [e1] at e2
  simp only [Except.ok.injEq, Prod.mk.injEq] at e2
  rw [← e2.1, g1] at g1'
  simpa using g1'

/-! ### a split content that no `Serialize` call writes -/

/-- A split content whose root map has an empty block and one with an array in it; the numbers of children, the container numbers
and the size of the table are arbitrary, and there is junk at the end. -/
def foreignSplit : Bytes :=
  [0, 0, 0, 0, 0, 0, 0, 28, 0, 0x0A, 99, 7, 4, 0x72, 0x6F, 0x6F, 0x74, 0x82, 50, 3, 0, 1, 1, 65, 0, 0, 1, 9] ++
  ([20] ++ ([2, 3, 1, 8, 7, 2, 0, 16] ++ [5]))

theorem foreignSplit_readable : ReadableSplit true (2 ^ 31) foreignSplit none none [(3, [8]), (7, [0, 16])]
    [(rootKey, .array [.scalar (.string [65]), .scalar (.bytes [9])])] := by
  have hn : ∀ b : UInt8, b.toNat < 128 → NumField [b] b.toNat := by
    intro b hb
    refine ⟨hb, by simp, ?_⟩
    simp only [lebValue]
    omega
  have pre : ∀ (i : Nat) (bs : Bytes), (foreignSplit.drop i).take bs.length = bs → bs <+: foreignSplit.drop i := by
    intro i bs h
    rw [← h]
    exact List.take_prefix _ _
  refine ⟨28, 0, 28, by decide, by decide, by decide, by decide, ?_, .inl ⟨rfl, rfl, rfl, ?_⟩⟩
  · have a1 : Child true foreignSplit none (fun id => List.lookup id [(3, [8]), (7, [0, 16])]) (.scalar (.string [65])) 20 24 :=
      .plain (d := .scalar (.string [65])) (bs := [1, 1, 65]) (by decide)
        ⟨_, rfl, ⟨[1], hn 1 (by decide), rfl⟩, by simp⟩ (pre 21 _ (by decide))
    have a2 : Child true foreignSplit none (fun id => List.lookup id [(3, [8]), (7, [0, 16])]) (.scalar (.bytes [9])) 24 28 :=
      .plain (d := .scalar (.bytes [9])) (bs := [0, 1, 9]) (by decide)
        ⟨_, rfl, [1], [9], hn 1 (by decide), rfl, rfl, by simp⟩ (pre 25 _ (by decide))
    have a3 : ReadsSplit true foreignSplit none (fun id => List.lookup id [(3, [8]), (7, [0, 16])])
        (.array [.scalar (.string [65]), .scalar (.bytes [9])]) 18 28 :=
      .array (b := 20) (sizes := [8]) (xss := [[.scalar (.string [65]), .scalar (.bytes [9])]])
        ⟨[50], [3], 50, 3, hn 50 (by decide), hn 3 (by decide), pre 18 _ (by decide), rfl, rfl⟩
        (.cons (.cons (by decide) a1 (.cons (by decide) a2 (.nil (by decide)))) .nil)
    exact .map (b := 12) (sizes := [0, 16]) (ess := [[], [(rootKey, .array [.scalar (.string [65]), .scalar (.bytes [9])])]])
      ⟨[99], [7], 99, 7, hn 99 (by decide), hn 7 (by decide), pre 10 _ (by decide), rfl, rfl⟩
      (.cons (.nil (by decide)) (.cons (.cons (kb := 4 :: rootKey) (by decide) ⟨[4], 4, hn 4 (by decide), rfl, rfl⟩ (pre 12 _ (by decide))
        (.split (by decide) a3) (.nil (by decide))) .nil))
  · exact ⟨[20], 20, [2, 3, 1, 8, 7, 2, 0, 16] ++ [5], [2, 3, 1, 8, 7, 2, 0, 16], by decide, hn 20 (by decide), by decide,
      ⟨[5, 0], rfl⟩, by decide, by decide, [2], 2, [3, 1, 8, 7, 2, 0, 16], hn 2 (by decide), rfl, rfl,
      [3], 3, [1], 1, [8], [7, 2, 0, 16], hn 3 (by decide), rfl, hn 1 (by decide), rfl, ⟨[8], 8, [], hn 8 (by decide), rfl, rfl, rfl⟩, rfl,
      [7], 7, [2], 2, [0, 16], [], hn 7 (by decide), rfl, hn 2 (by decide), rfl,
      ⟨[0], 0, [16], hn 0 (by decide), rfl, rfl, [16], 16, [], hn 16 (by decide), rfl, rfl, rfl⟩, rfl, rfl⟩

/-- The hypotheses of the C63 theorems are met by that content, in a build with assertions and in one without. -/
example : (∃ o, Parses Cfg.x86 { coroutine := true } foreignSplit (.ok o) ∧
      o.doc? = some (.array [.scalar (.string [65]), .scalar (.bytes [9])])) ∧
    ∃ o, Parses { Cfg.x86 with asserts := false } { coroutine := true, parseRef := true } foreignSplit (.ok o) ∧
      o.doc? = some (.array [.scalar (.string [65]), .scalar (.bytes [9])]) := by
  constructor
  · obtain ⟨o, h1, h2⟩ := C63_checked_value Cfg.x86 foreignSplit (by decide) (by decide) { coroutine := true } rfl (by decide)
      none none _ _ foreignSplit_readable (by intro ps h; cases h) (by intro h; cases h)
    exact ⟨o, h1, h2⟩
  · have := readableSplit_lax foreignSplit_readable
    obtain ⟨total, mode, stop, h1, h2, h3, h4, h5, h6⟩ := this.layout
    obtain ⟨o, k1, k2⟩ := C63_readable_value { Cfg.x86 with asserts := false } rfl foreignSplit (by decide) (by decide)
      { coroutine := true, parseRef := true } rfl (by decide) none none _ _ ⟨total, mode, stop, h1, h2, h3, h4, h5, by
        rcases h6 with ⟨q1, q2, q3, l, size, tail, bs, q4, q5, q6, q7⟩ | ⟨-, ps, rest, f, q2, -⟩
        · exact .inl ⟨q1, q2, q3, l, size, tail, bs, q4, q5, by omega, q7⟩
        · cases q2⟩ (by intro ps h; cases h) (by intro _; decide)
    exact ⟨o, k1, k2⟩

end Bridge
