import Verif.Proof.CoRereadTop
import Verif.Proof.ObjEq
/-
C76: a document that was parsed in situ, and later changes of the bytes of the caller's buffer.
-/
set_option autoImplicit false
namespace Bridge
open Spec

/-- The buffer was overwritten, without changing its length, only where the document `o` shows bytes. -/
def EditedUnder (o : Obj) (content content' : Bytes) : Prop :=
  content'.length = content.length ∧ ∀ x, content'[x]? = content[x]? ∨ ∃ s ∈ o.views, ∃ a n, s.loc = some (a, n) ∧ a ≤ x ∧ x < a + n

/-- The recursive parser on the edited buffer. -/
theorem parses_edited {r : Cfg} {po : ParseOption} {content content' : Bytes} {s : Sched} {root : Obj} {c : Cur} {n : Nat}
    (hs : content.length < 2 ^ 63) (href : po.parseRef = true) (hrec : po.coroutine = false ∨ content[9]? = some 0)
    (hi : initFromContent r content = .ok s) (hm : content[8]? = some 0)
    (hp : parseVal r (View.whole content) s.sm true .caller n .map ⟨metaSize, metaSize⟩ = .ok (root, c)) (hc : c.off = s.total)
    (hin : ∀ x ∈ root.views, x.Inside (content ++ [0])) (he : EditedUnder (takeRoot root) content content') :
    Parses r po content' (.ok ((takeRoot root).reread content')) := by
  have hnone : s.sm = none := by
    rcases (init_inv hi).2.2.2.1 with ⟨-, h⟩ | ⟨h, -⟩
    · exact h
    · rw [hm] at h; cases h
  obtain ⟨h1, h2⟩ := normal_blind hs he.1 hi hnone hp hc hin he.2
  have hrec' : po.coroutine = false ∨ content'[9]? = some 0 := by
    refine hrec.imp (fun h => h) fun h9 => ?_
    have hsp : s.split = false := by
      rcases (init_inv hi).2.2.2.2 with ⟨-, h⟩ | ⟨h, -⟩
      · exact h
      · rw [h9] at h; cases h
    rcases (init_inv h1).2.2.2.2 with ⟨h, -⟩ | ⟨-, h⟩
    · exact h
    · rw [hsp] at h; cases h
  refine parses_of_fuel (f := n) ?_ (by simp)
  rw [normal_of_init hrec' h1, href]
  exact h2

/-- The recursive parser, from the root that it reads. -/
theorem parses_read {r : Cfg} {po : ParseOption} {content : Bytes} {s : Sched} {root : Obj} {c : Cur} {n : Nat}
    (hrec : po.coroutine = false ∨ content[9]? = some 0) (hi : initFromContent r content = .ok s)
    (hp : parseVal r (View.whole content) s.sm po.parseRef .caller n .map ⟨metaSize, metaSize⟩ = .ok (root, c)) (hc : c.off = s.total) :
    Parses r po content (.ok (takeRoot root)) := by
  refine parses_of_fuel (f := n) ?_ (by simp)
  rw [normal_of_init hrec hi]
  unfold normalParse
  simp only
  rw [hp]
  simp only [ok_bind]
  rw [if_neg (by rw [hc]; simp)]
  rfl

theorem mode_normal (w : Cfg) (d : Doc) : (contentOf w .normal d)[8]? = some 0 := by
  unfold contentOf headOf
  have h8 := bigEndian_length 8 (10 + (bodyOf w .normal d).1.length)
  simp only [List.append_assoc]
  rw [List.getElem?_append_right (by rw [bigEndian_length]; omega)]
  simp only [bigEndian_length]
  rfl

theorem inside_snoc {mem : Bytes} {x : Str} (h : x.Inside mem) : x.Inside (mem ++ [0]) := by
  obtain ⟨a, h1, h2, h3⟩ := h
  refine ⟨a, h1, by simp only [List.length_append]; omega, ?_⟩
  simp only [slice] at h3 ⊢
  rw [List.drop_append_of_le_length (by omega), List.take_append_of_le_length (by simp only [List.length_drop]; omega)]
  exact h3

/-- What is needed of a parse that read the root in situ without dictionary. -/
structure ReadRoot (r : Cfg) (po : ParseOption) (content : Bytes) (o : Obj) : Prop where
  parses : Parses r po content (.ok o)
  inside : ∀ s ∈ o.views, ∃ a, s.loc = some (a, s.bytes.length) ∧ a + s.bytes.length ≤ content.length ∧ slice content a s.bytes.length = s.bytes
  apart : o.views.Pairwise Apart
  edit : ∀ content', EditedUnder o content content' → Parses r po content' (.ok (o.reread content'))

theorem readRoot_of {r : Cfg} {po : ParseOption} {content : Bytes} {s : Sched} {root : Obj} {c : Cur} {n : Nat}
    (hs : content.length < 2 ^ 63) (href : po.parseRef = true) (hrec : po.coroutine = false ∨ content[9]? = some 0)
    (hi : initFromContent r content = .ok s) (hm : content[8]? = some 0)
    (hp : parseVal r (View.whole content) s.sm true .caller n .map ⟨metaSize, metaSize⟩ = .ok (root, c)) (hc : c.off = s.total)
    (hin : ∀ x ∈ root.views, x.Inside (content ++ [0])) : ReadRoot r po content (takeRoot root) := by
  have hnone : s.sm = none := by
    rcases (init_inv hi).2.2.2.1 with ⟨-, h⟩ | ⟨h, -⟩
    · exact h
    · rw [hm] at h; cases h
  have h10 := (init_inv hi).1
  have hIns : Ins root.views := by
    intro x hx a n e
    obtain ⟨a', e', h1, -⟩ := hin x hx
    rw [e] at e'
    simp only [Option.some.injEq, Prod.mk.injEq] at e'
    simp only [List.length_append, List.length_singleton] at h1
    omega
  have hpn := hp
  rw [hnone] at hpn
  have hap := (tree_apart (pool := .caller) hs n).1 _ _ _ _ (by unfold metaSize; omega) hIns hpn
  obtain ⟨j, rfl, j1, j2, hb, -⟩ := (tree_blind (pool := .caller) (D := 2 ^ 64) hs (by intro m hm; cases hm) n).1 _ _ _ _
    (by unfold metaSize; omega) hIns hpn
  have hsub : (takeRoot root).views.Sublist root.views := by
    cases root with
    | map ref pl m es =>
      have hpn' := hpn
      have hr : ref = true := by
        cases n with
        | zero => simp [parseVal] at hpn'
        | succ f =>
          simp only [parseVal] at hpn'
          obtain ⟨q1, -, h1⟩ := bind_ok hpn'
          obtain ⟨q2, -, h2⟩ := bind_ok h1
          obtain ⟨q3, -, h3⟩ := bind_ok h2
          simp only [pure_eq_ok, Except.ok.injEq, Prod.mk.injEq, Obj.map.injEq] at h3
          exact h3.1.1.symm
      subst hr
      exact takeKey_sub es
    | null => exact List.nil_sublist _
    | data _ _ _ => exact List.nil_sublist _
    | array _ _ _ => exact List.nil_sublist _
  refine ⟨parses_read hrec hi (by rw [href]; exact hp) hc, ?_, hap.sublist hsub, fun content' he => parses_edited hs href hrec hi hm hp hc hin he⟩
  intro x hx
  obtain ⟨a, h1, h2, h3⟩ := hin x (hsub.subset hx)
  obtain ⟨a', n', h4, h5⟩ := hb x (hsub.subset hx)
  rw [h1] at h4
  simp only [Option.some.injEq, Prod.mk.injEq] at h4
  obtain ⟨rfl, rfl⟩ := h4
  simp only [List.length_append, List.length_singleton] at h2
  have hle : a + x.bytes.length ≤ content.length := by omega
  refine ⟨a, h1, hle, ?_⟩
  simp only [slice] at h3 ⊢
  rw [List.drop_append_of_le_length (by omega), List.take_append_of_le_length (by simp only [List.length_drop]; omega)] at h3
  exact h3

theorem readRoot_written {w r : Cfg} {d : Doc} (hc : d.noCustom = true) (k : Nat) (hf : Fits r (contentOf w .normal d)) :
    ∃ o', ReadRoot r ⟨false, true, k⟩ (contentOf w .normal d) o' ∧ o'.doc? = some d.revMaps := by
  obtain ⟨o', h1, h2, h3⟩ := parses_normal (extra := []) (by simpa using hf) true (fun _ => hc) k
  have hok := (Fits.contentOk (extra := []) (by simpa using hf) : ContentOk r w .normal d [])
  obtain ⟨s, root, c, g1, g2, g3, g4, g5⟩ := parse_root hok true (fun _ => hc) (Nat.le_refl _)
  simp only [List.append_nil] at h1 g1 g2 g5
  have ho : takeRoot root = o' := Except.ok.inj (Parses.unique (parses_read (po := ⟨false, true, k⟩) (.inl rfl) g1 g2 g3) h1)
  subst ho
  exact ⟨_, readRoot_of (by have := hf.lt; omega) rfl (.inl rfl) g1 (mode_normal w d) g2 g3
    (fun x hx => inside_snoc ((built_views root _ g4 g5).1 x hx)), h2⟩

theorem readRoot_accepted {r : Cfg} {content : Bytes} (hlen : content.length < 2 ^ 63) {po : ParseOption}
    (hrec : po.coroutine = false ∨ content[9]? = some 0) (href : po.parseRef = true) (hsn : ShortNumbers content) (hm : content[8]? = some 0) {o : Obj}
    (h : Parses r po content (.ok o)) : ReadRoot r po content o := by
  obtain ⟨s, mode, flag, main, rest, es, root, hs, -, -, -, -, -, -, -, h7, h8, rfl, n, c, h9, h10⟩ :=
    accepted_core r content hlen po hrec (fun _ => hsn) o h
  rw [href] at h8 h9
  exact readRoot_of hlen href hrec hs hm h9 h10 (fun x hx => (built_views root _ h7 h8).1 x hx)

/-- C76. A tree is written without a dictionary and parsed in situ with the recursive parser.  Whatever bytes the caller then writes over
bytes that the document shows, keys included, the document he already holds is, piece by piece, the one that a new `Parse` of the buffer
gives: strings can be edited in place, and no other part of the document moves. -/
theorem C76_written_edit (w r : Cfg) (hw : w.charSigned = true) (o : Obj) (d : Doc) (hd : o.doc? = some d) (hh : Writable w o)
    (hc : d.noCustom = true) (k : Nat) :
    ∃ content, serialize w .normal o = .ok content ∧
      (Fits r content → ∃ o', Parses r ⟨false, true, k⟩ content (.ok o') ∧ o'.doc? = some d.revMaps ∧
        ∀ content', EditedUnder o' content content' → Parses r ⟨false, true, k⟩ content' (.ok (o'.reread content'))) := by
  refine ⟨_, serialize_eq hw .normal hd hh, fun hf => ?_⟩
  obtain ⟨o', h1, h2⟩ := readRoot_written hc k hf
  exact ⟨o', h1.parses, h2, h1.edit⟩

/-- C76. The same for every content without dictionary that the recursive parser accepts in situ, whoever made it. -/
theorem C76_accepted_edit (r : Cfg) (content : Bytes) (hlen : content.length < 2 ^ 63) (po : ParseOption) (href : po.parseRef = true)
    (hrec : po.coroutine = false ∨ content[9]? = some 0) (hsn : ShortNumbers content) (hm : content[8]? = some 0) (o : Obj)
    (h : Parses r po content (.ok o)) (content' : Bytes) (he : EditedUnder o content content') :
    Parses r po content' (.ok (o.reread content')) := (readRoot_accepted hlen hrec href hsn hm h).edit content' he

/-- Writing other bytes over one string. -/
theorem ReadRoot.overwrite {r : Cfg} {po : ParseOption} {content : Bytes} {o' : Obj} (h : ReadRoot r po content o') {before after : List Str} {s : Str}
    (hv : o'.views = before ++ s :: after) : ∃ a, s.loc = some (a, s.bytes.length) ∧
      ∀ b : Bytes, b.length = s.bytes.length →
        (o'.reread (Bridge.overwrite content a b)).views = before ++ ⟨b, s.loc⟩ :: after ∧
        Parses r po (Bridge.overwrite content a b) (.ok (o'.reread (Bridge.overwrite content a b))) := by
  obtain ⟨a, g1, g2, g3⟩ := h.inside s (by rw [hv]; simp)
  refine ⟨a, g1, fun b hb => ?_⟩
  rw [← hb] at g2
  have hap := h.apart
  rw [hv] at hap
  obtain ⟨-, hap1, hap2⟩ := List.pairwise_append.mp hap
  have hother : ∀ t ∈ o'.views, Apart t s → t.reread (Bridge.overwrite content a b) = t := by
    intro t ht hts
    obtain ⟨a', k1, k2, k3⟩ := h.inside t ht
    have hdis := hts a' _ a _ k1 g1
    rw [← hb] at hdis
    unfold Str.reread
    rw [k1]
    simp only
    have : slice (Bridge.overwrite content a b) a' t.bytes.length = slice content a' t.bytes.length := by
      apply slice_eq
      intro x hx1 hx2
      exact overwrite_out g2 (by omega)
    rw [this, k3]
    cases t; simp only at k1; subst k1; rfl
  refine ⟨?_, h.edit _ ⟨overwrite_length g2, fun x => ?_⟩⟩
  · rw [views_reread, hv, List.map_append, List.map_cons]
    have e1 : before.map (Str.reread (Bridge.overwrite content a b)) = before := by
      conv => rhs; rw [← List.map_id before]
      refine List.map_congr_left fun t ht => ?_
      exact hother t (by rw [hv]; simp [ht]) (hap2 t ht s (by simp))
    have e2 : after.map (Str.reread (Bridge.overwrite content a b)) = after := by
      conv => rhs; rw [← List.map_id after]
      refine List.map_congr_left fun t ht => ?_
      exact hother t (by rw [hv]; simp [ht]) ((List.rel_of_pairwise_cons hap1 ht).symm)
    rw [e1, e2]
    congr 2
    unfold Str.reread
    rw [g1]
    simp only
    rw [← hb, overwrite_slice g2]
  · by_cases hx : x < a ∨ a + b.length ≤ x
    · exact .inl (overwrite_out g2 hx)
    · exact .inr ⟨s, by rw [hv]; simp, a, _, g1, by omega, by omega⟩

/-- C76. One string at a time: the strings of the document do not overlap, so writing as many other bytes over one of them gives the
document with this one string (or key, or byte array) replaced, for the document in hand and for a new `Parse` alike. -/
theorem C76_overwrite_string (w r : Cfg) (hw : w.charSigned = true) (o : Obj) (d : Doc) (hd : o.doc? = some d) (hh : Writable w o)
    (hc : d.noCustom = true) (k : Nat) :
    ∃ content, serialize w .normal o = .ok content ∧
      (Fits r content → ∃ o', Parses r ⟨false, true, k⟩ content (.ok o') ∧ o'.doc? = some d.revMaps ∧
        ∀ before s after, o'.views = before ++ s :: after → ∃ a, s.loc = some (a, s.bytes.length) ∧
          ∀ b : Bytes, b.length = s.bytes.length →
            (o'.reread (overwrite content a b)).views = before ++ ⟨b, s.loc⟩ :: after ∧
            Parses r ⟨false, true, k⟩ (overwrite content a b) (.ok (o'.reread (overwrite content a b)))) := by
  refine ⟨_, serialize_eq hw .normal hd hh, fun hf => ?_⟩
  obtain ⟨o', h1, h2⟩ := readRoot_written hc k hf
  exact ⟨o', h1.parses, h2, fun before s after hv => h1.overwrite hv⟩

/-- C76. No byte of the buffer is shown by two strings of the document. -/
theorem C76_strings_apart (r : Cfg) (content : Bytes) (hlen : content.length < 2 ^ 63) (po : ParseOption) (href : po.parseRef = true)
    (hrec : po.coroutine = false ∨ content[9]? = some 0) (hsn : ShortNumbers content) (hm : content[8]? = some 0) (o : Obj)
    (h : Parses r po content (.ok o)) :
    o.views.Pairwise fun s t => ∀ a n b m, s.loc = some (a, n) → t.loc = some (b, m) → a + n ≤ b ∨ b + m ≤ a :=
  (readRoot_accepted hlen hrec href hsn hm h).apart

/-- What the parallel parser makes in situ of a written content without dictionary. -/
theorem readRoot_parallel {w r : Cfg} {d : Doc} (hc : d.noCustom = true) {k : Nat} (hk : 0 < k) (hf : Fits r (contentOf w .normal d)) :
    ∃ o' d', ReadRoot r ⟨true, true, k⟩ (contentOf w .normal d) o' ∧ o'.doc? = some d' ∧ d.Same d' := by
  have hok := (Fits.contentOk (extra := []) (by simpa using hf) : ContentOk r w .normal d [])
  have hlen := hf.lt
  cases hsp : (bodyOf w .normal d).2.1 with
  | false =>
    obtain ⟨o1, d1, h1, h2, h2', -⟩ := parses_co (extra := []) (by simpa using hf) true (fun _ => hc) hk
    obtain ⟨s, root, c, g1, g2, g3, g4, g5⟩ := parse_root hok true (fun _ => hc) (Nat.le_refl _)
    simp only [List.append_nil] at h1 g1 g2 g5
    have h9 : (contentOf w .normal d)[9]? = some 0 := by
      obtain ⟨s', e1, -, -, e4, -⟩ := init_eq (d := d) [] hok.size hok.lt
      simp only [List.append_nil] at e1
      rw [g1] at e1
      cases e1
      rcases (init_inv g1).2.2.2.2 with ⟨h, -⟩ | ⟨-, h⟩
      · exact h
      · rw [e4, hsp] at h; cases h
    have ho : takeRoot root = o1 := Except.ok.inj (Parses.unique (parses_read (po := ⟨true, true, k⟩) (.inr h9) g1 g2 g3) h1)
    subst ho
    exact ⟨_, _, readRoot_of (by omega) rfl (.inr h9) g1 (mode_normal w d) g2 g3
      (fun x hx => inside_snoc ((built_views root _ g4 g5).1 x hx)), h2, h2'⟩
  | true =>
    obtain ⟨s, root, c, y, g1, g2, g3, g4, g5, g6, g7⟩ := parse_tight hok hsp true (fun _ => hc) (Nat.le_refl _)
    have hnone : s.sm = none := by
      rcases (init_inv g1).2.2.2.1 with ⟨-, h⟩ | ⟨h, -⟩
      · exact h
      · rw [mode_normal w d] at h; cases h
    have hin := (built_views root _ g5 g7).1
    obtain ⟨q1, -⟩ := takeRoot_doc g5 g7
    have run : ∀ {content' : Bytes} {root' : Obj}, initFromContent r content' = .ok s →
        tightMap r (View.whole content') s.sm s.si true (docFuel (rootDoc d)) metaSize = .ok (root', c) →
        Parses r ⟨true, true, k⟩ content' (.ok (takeRoot root')) := by
      intro content' root' e1 e2
      refine parses_of_fuel (f := docFuel (rootDoc d)) ?_ (by simp)
      unfold parse
      rw [e1]
      simp only [ok_bind, if_true]
      unfold coroutineParse
      rw [g2, if_neg (by simp), if_neg (by omega), (tight_co _).2.2.2 _ _ e2]
      rfl
    obtain ⟨n, es, rfl⟩ := tightMap_shape g3
    have hsub : (takeRoot (.map true .frame n es)).views.Sublist (viewsE true es) := takeKey_sub es
    refine ⟨takeRoot (.map true .frame n es), y, ⟨run g1 g3, fun x hx => hin x (hsub.subset hx), ?_, fun content' he => ?_⟩, q1, g6⟩
    · exact (parallel_blind (by omega) rfl g1 hnone g3 g4 hin (fun x => .inl rfl)).2.2.2.sublist hsub
    · obtain ⟨b1, b2, b3, -⟩ := parallel_blind (by omega) he.1 g1 hnone g3 g4 hin he.2
      rw [← b3]
      exact run b1 b2

/-- C76. The same with the parallel parser, whether the content has blocks or not and however many worker threads there are. -/
theorem C76_parallel_edit (w r : Cfg) (hw : w.charSigned = true) (o : Obj) (d : Doc) (hd : o.doc? = some d) (hh : Writable w o)
    (hc : d.noCustom = true) (k : Nat) (hk : 0 < k) :
    ∃ content, serialize w .normal o = .ok content ∧
      (Fits r content → ∃ o' d', Parses r ⟨true, true, k⟩ content (.ok o') ∧ o'.doc? = some d' ∧ d.Same d' ∧
        ∀ content', EditedUnder o' content content' → Parses r ⟨true, true, k⟩ content' (.ok (o'.reread content'))) := by
  refine ⟨_, serialize_eq hw .normal hd hh, fun hf => ?_⟩
  obtain ⟨o', d', h1, h2, h3⟩ := readRoot_parallel hc hk hf
  exact ⟨o', d', h1.parses, h2, h3, h1.edit⟩

/-- C76. The same with the parallel parser: its strings do not overlap either, and as many other bytes written over one of them replace this
one string in the document in hand and in a new parallel `Parse`. -/
theorem C76_parallel_overwrite_string (w r : Cfg) (hw : w.charSigned = true) (o : Obj) (d : Doc) (hd : o.doc? = some d) (hh : Writable w o)
    (hc : d.noCustom = true) (k : Nat) (hk : 0 < k) :
    ∃ content, serialize w .normal o = .ok content ∧
      (Fits r content → ∃ o' d', Parses r ⟨true, true, k⟩ content (.ok o') ∧ o'.doc? = some d' ∧ d.Same d' ∧
        (o'.views.Pairwise fun s t => ∀ a n b m, s.loc = some (a, n) → t.loc = some (b, m) → a + n ≤ b ∨ b + m ≤ a) ∧
        ∀ before s after, o'.views = before ++ s :: after → ∃ a, s.loc = some (a, s.bytes.length) ∧
          ∀ b : Bytes, b.length = s.bytes.length →
            (o'.reread (overwrite content a b)).views = before ++ ⟨b, s.loc⟩ :: after ∧
            Parses r ⟨true, true, k⟩ (overwrite content a b) (.ok (o'.reread (overwrite content a b)))) := by
  refine ⟨_, serialize_eq hw .normal hd hh, fun hf => ?_⟩
  obtain ⟨o', d', h1, h2, h3⟩ := readRoot_parallel hc hk hf
  exact ⟨o', d', h1.parses, h2, h3, h1.apart, fun before s after hv => h1.overwrite hv⟩

/-- C76. Whatever is written over the strings, the rest of the document stays: types, numbers, lengths, sizes and the order of elements and
entries. -/
theorem C76_shape_stays (w r : Cfg) (hw : w.charSigned = true) (t : SeriType) (o : Obj) (d : Doc) (hd : o.doc? = some d) (hh : Writable w o)
    (hc : d.noCustom = true) (co : Bool) (k : Nat) (hk : 0 < k) :
    ∃ content, serialize w t o = .ok content ∧
      (Fits r content → ∃ o' d', Parses r ⟨co, true, k⟩ content (.ok o') ∧ o'.doc? = some d' ∧
        ∀ content' : Bytes, content'.length = content.length → ∃ d'', (o'.reread content').doc? = some d'' ∧ d''.blank = d'.blank) := by
  refine ⟨_, serialize_eq hw t hd hh, fun hf => ?_⟩
  have fin : ∀ (o' : Obj) (d' : Doc) (pl : PoolRef), o'.doc? = some d' → o'.Built (contentOf w t d) true pl →
      ∀ content' : Bytes, content'.length = (contentOf w t d).length → ∃ d'', (o'.reread content').doc? = some d'' ∧ d''.blank = d'.blank := by
    intro o' d' pl h2 h3 content' hl
    refine reread_doc content' o' d' h2 fun s hs => ?_
    obtain ⟨a, k1, k2, k3⟩ := (built_views o' _ h2 h3).1 s hs
    unfold Str.reread
    rw [k1]
    simp only [slice, List.length_take, List.length_drop]
    omega
  cases co with
  | false =>
    obtain ⟨o1, h1, h2, h3⟩ := parses_normal (extra := []) (by simpa using hf) true (fun _ => hc) k
    simp only [List.append_nil] at h1 h3
    exact ⟨o1, _, h1, h2, fin o1 _ _ h2 h3⟩
  | true =>
    obtain ⟨o1, d1, h1, h2, _, h3⟩ := parses_co (extra := []) (by simpa using hf) true (fun _ => hc) hk
    simp only [List.append_nil] at h1 h3
    exact ⟨o1, d1, h1, h2, fin o1 _ _ h2 h3⟩

/-- C76. Bytes that no string of the document shows do not matter to it: header, sizes, numbers, tables and whatever stands behind the
document may be overwritten, both parsers, with or without dictionary. -/
theorem C76_only_shown_bytes (w r : Cfg) (hw : w.charSigned = true) (t : SeriType) (o : Obj) (d : Doc) (hd : o.doc? = some d)
    (hh : Writable w o) (hc : d.noCustom = true) (co : Bool) (k : Nat) (hk : 0 < k) :
    ∃ content, serialize w t o = .ok content ∧
      (Fits r content → ∃ o', Parses r ⟨co, true, k⟩ content (.ok o') ∧
        ∀ content' : Bytes, (∀ s ∈ o'.views, ∀ a n x, s.loc = some (a, n) → a ≤ x → x < a + n → content'[x]? = content[x]?) →
          o'.reread content' = o') := by
  refine ⟨_, serialize_eq hw t hd hh, fun hf => ?_⟩
  have fin : ∀ (o' : Obj) (d' : Doc) (pl : PoolRef), o'.doc? = some d' → o'.Built (contentOf w t d) true pl →
      ∀ content' : Bytes, (∀ s ∈ o'.views, ∀ a n x, s.loc = some (a, n) → a ≤ x → x < a + n → content'[x]? = (contentOf w t d)[x]?) →
          o'.reread content' = o' := by
    intro o' d' pl h2 h3 content' hl
    refine reread_id content' o' fun s hs => ?_
    obtain ⟨a, k1, k2, k3⟩ := (built_views o' _ h2 h3).1 s hs
    unfold Str.reread
    rw [k1]
    simp only
    rw [slice_eq (fun x h1 h2 => hl s hs a _ x k1 h1 h2), k3]
    cases s; simp only at k1; subst k1; rfl
  cases co with
  | false =>
    obtain ⟨o1, h1, h2, h3⟩ := parses_normal (extra := []) (by simpa using hf) true (fun _ => hc) k
    simp only [List.append_nil] at h1 h3
    exact ⟨o1, h1, fin o1 _ _ h2 h3⟩
  | true =>
    obtain ⟨o1, d1, h1, h2, _, h3⟩ := parses_co (extra := []) (by simpa using hf) true (fun _ => hc) hk
    simp only [List.append_nil] at h1 h3
    exact ⟨o1, h1, fin o1 _ _ h2 h3⟩

/-- C76. An owning parse, by either parser: nothing that happens to the buffer changes the document, not even giving it back. -/
theorem C76_owning_unaffected (w r : Cfg) (hw : w.charSigned = true) (t : SeriType) (o : Obj) (d : Doc) (hd : o.doc? = some d)
    (hh : Writable w o) (co : Bool) (k : Nat) (hk : 0 < k) :
    ∃ content, serialize w t o = .ok content ∧
      (Fits r content → ∃ o', Parses r ⟨co, false, k⟩ content (.ok o') ∧ ∀ content' : Bytes, o'.reread content' = o') := by
  obtain ⟨content, h1, h2⟩ := C10_owning_holds_no_view w r hw t o d hd hh co k hk
  refine ⟨content, h1, fun hf => ?_⟩
  obtain ⟨o', h3, h4⟩ := h2 hf
  exact ⟨o', h3, fun content' => reread_id content' o' (by rw [h4]; simp)⟩

set_option synthInstance.maxSize 1000 in
/-- The strings of a sample document without dictionary, where they stand, and what an edit of the key `k` and the string `hi` gives: the
document in hand and a new `Parse` agree, the new key is found and the old one is not. -/
example :
    let content := (serialize Cfg.x86 .normal sampleObj).toOption.getD []
    let content' := overwrite (overwrite content 21 [75]) 28 [72, 73]
    ((parse Cfg.x86 { parseRef := true } 50 content).toOption.map fun o => (o.views,
      ((o.reread content').wKey [75] |>.wIdx 1).wGetView .string, ((o.reread content').wKey [107] |>.wIdx 1).wGetView .string)) =
      some ([⟨[122], some (38, 1)⟩, ⟨[1, 2, 3], some (42, 3)⟩, ⟨[107], some (21, 1)⟩, ⟨[104, 105], some (28, 2)⟩],
        some (.ok (some (.strView [72, 73]))), some (.ok none)) ∧
    ((parse Cfg.x86 { parseRef := true } 50 content').toOption.map fun o => ((o.wKey [75] |>.wIdx 1).wGetView .string)) =
      some (some (.ok (some (.strView [72, 73])))) := by
  decide +kernel

/-- The hypotheses of `C76_accepted_edit` and of `C76_strings_apart` hold of this content and its document. -/
example :
    let content := (serialize Cfg.x86 .normal sampleObj).toOption.getD []
    content.length = 47 ∧ content[8]? = some 0 ∧ content[9]? = some 0 ∧ (∀ b ∈ content, b.toNat < 128) ∧
    (parse Cfg.x86 { parseRef := true } 50 content).toOption.isSome = true := by
  decide +kernel

/-- A content whose bytes are all below 128 has short numbers. -/
theorem short_of_small {content : Bytes} (h : ∀ b ∈ content, b.toNat < 128) : ShortNumbers content :=
  fun a => ⟨0, by omega, fun b hb => h b (List.mem_of_getElem? hb)⟩

/-- The bytes of the sample document with a dictionary. -/
def dictContent : Bytes :=
  [0, 0, 0, 0, 0, 0, 0, 37, 1, 0, 1, 1, 0, 1, 2, 2, 1, 2, 2, 3, 0, 1, 2, 0, 2, 4, 0, 0, 0, 7, 3, 0, 0, 3, 1, 2, 3, 17, 4,
    4, 114, 111, 111, 116, 0, 1, 107, 1, 2, 104, 105, 2, 1, 122, 3, 1, 0]

/-- The sample document parsed in situ; `z` is the byte of the buffer that the key `z` shows. -/
def dictObj (z : UInt8) : Obj :=
  .map true .caller 2
    [(⟨[z], some (53, 1)⟩, .data true BRIDGE_BYTES (.view ⟨[1, 2, 3], some (34, 3)⟩)),
     (⟨[107], some (46, 1)⟩, .array .caller 2 [.data true BRIDGE_STRING (.view ⟨[104, 105], some (49, 2)⟩), .data true BRIDGE_INT32 (.i32 7)])]

theorem dict_written : serialize Cfg.x86 .replace sampleObj = .ok dictContent := by decide +kernel

theorem dict_parsed : parse Cfg.x86 { parseRef := true } 50 dictContent = .ok (dictObj 122) := by decide +kernel

theorem dict_edited : parse Cfg.x86 { parseRef := true } 50 (dictContent.set 53 107) = .error (.exn .getStr) := by decide +kernel

/-- C76 (why "without a dictionary"). With a dictionary the parser checks the table: here the caller overwrites the key `z`, one byte that
his document shows, by `k`.  The document in hand now has the key `k` twice; a new `Parse` of the buffer throws. -/
theorem C76_dictionary_not_editable : ∃ (content content' : Bytes) (o : Obj),
    serialize Cfg.x86 .replace sampleObj = .ok content ∧ Parses Cfg.x86 { parseRef := true } content (.ok o) ∧ EditedUnder o content content' ∧
    (o.reread content').doc? =
      some (.map [([107], .scalar (.bytes [1, 2, 3])), ([107], .array [.scalar (.string [104, 105]), .scalar (.int32 7)])]) ∧
    Parses Cfg.x86 { parseRef := true } content' (.error (.exn .getStr)) := by
  refine ⟨dictContent, dictContent.set 53 107, dictObj 122, dict_written, parses_of_fuel dict_parsed (by simp), ⟨by simp, fun x => ?_⟩, rfl,
    parses_of_fuel dict_edited (by simp)⟩
  by_cases hx : x = 53
  · subst hx
    exact .inr ⟨⟨[122], some (53, 1)⟩, by simp [dictObj, Obj.views, viewsE], 53, 1, rfl, by omega, by omega⟩
  · exact .inl (List.getElem?_set_ne (by omega))

/-- A content that the library does not write: an array whose second block starts inside the string that the first one holds. -/
def overlapContent : Bytes :=
  [0, 0, 0, 0, 0, 0, 0, 27, 0, 10, 1, 0, 4, 114, 111, 111, 116, 130, 2, 1, 0, 1, 4, 0, 1, 1, 120, 8, 2, 0, 1, 1, 1, 2, 3, 4]

/-- What the parallel parser makes of it. -/
def overlapObj : Obj :=
  .array .frame 2 [.data true BRIDGE_STRING (.view ⟨[0, 1, 1, 120], some (23, 4)⟩), .data true BRIDGE_STRING (.view ⟨[120], some (26, 1)⟩)]

theorem overlap_parsed : parse Cfg.x86 ⟨true, true, 2⟩ 50 overlapContent = .ok overlapObj := by decide +kernel

theorem overlap_edited : parse Cfg.x86 ⟨true, true, 2⟩ 50 (overlapContent.set 23 7) = .error (.exn .parseObjectType) := by decide +kernel

/-- C76 (why "written" with the parallel parser). The parallel parser accepts contents in which blocks overlap.  Of this one it makes a
document with two strings that share a byte; after the caller has overwritten one byte that the first string shows, a new `Parse` throws. -/
theorem C76_overlapping_blocks : ∃ (content content' : Bytes) (o : Obj),
    Parses Cfg.x86 ⟨true, true, 2⟩ content (.ok o) ∧ o.doc? = some (.array [.scalar (.string [0, 1, 1, 120]), .scalar (.string [120])]) ∧
    (∃ s ∈ o.views, ∃ t ∈ o.views, s.loc = some (23, 4) ∧ t.loc = some (26, 1)) ∧ EditedUnder o content content' ∧
    (o.reread content').doc? = some (.array [.scalar (.string [7, 1, 1, 120]), .scalar (.string [120])]) ∧
    Parses Cfg.x86 ⟨true, true, 2⟩ content' (.error (.exn .parseObjectType)) := by
  refine ⟨overlapContent, overlapContent.set 23 7, overlapObj, parses_of_fuel overlap_parsed (by simp), rfl,
    ⟨_, List.mem_cons_self, _, List.mem_cons_of_mem _ List.mem_cons_self, rfl, rfl⟩, ⟨by simp, fun x => ?_⟩, rfl,
    parses_of_fuel overlap_edited (by simp)⟩
  by_cases hx : x = 23
  · subst hx
    exact .inr ⟨_, List.mem_cons_self, 23, 4, rfl, by omega, by omega⟩
  · exact .inl (List.getElem?_set_ne (by omega))

set_option synthInstance.maxSize 1000 in
/-- The sample with blocks (`splitSample` of Props/Share.lean), parsed in parallel: the document in hand and a new `Parse` agree after an edit
of the string `hi` and of the key `k`. -/
example :
    let content := (serialize { Cfg.x86 with blockSize := 10 } .normal sampleObj).toOption.getD []
    let content' := (content.set 28 72).set 21 75
    let got := (parse Cfg.x86 ⟨true, true, 2⟩ 50 content).toOption
    content[9]? = some 10 ∧
    (got.map Obj.views) = some [⟨[122], some (38, 1)⟩, ⟨[1, 2, 3], some (42, 3)⟩, ⟨[107], some (21, 1)⟩, ⟨[104, 105], some (28, 2)⟩] ∧
    (got.map fun o => (o.reread content').views) = ((parse Cfg.x86 ⟨true, true, 2⟩ 50 content').toOption.map Obj.views) ∧
    (got.map fun o => ((o.reread content').wKey [75] |>.wIdx 1).wGetView .string) = some (some (.ok (some (.strView [72, 105])))) := by
  decide +kernel

end Bridge
