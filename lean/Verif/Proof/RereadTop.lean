import Verif.Proof.Reread
import Verif.Props.Language
/-
The whole recursive parse of a content without dictionary does not look at the bytes of the strings it makes views of.
-/
set_option autoImplicit false
namespace Bridge
open Spec

/-- Two buffers agree from `b` on. -/
def AgreeFrom (mem mem' : Bytes) (b : Nat) : Prop := ∀ x, b ≤ x → mem'[x]? = mem[x]?

theorem varintGo_from {cfg : Cfg} {mem mem' : Bytes} {b addr : Nat} {len : Int} (hl : mem'.length = mem.length) (h : AgreeFrom mem mem' b) (hb : b ≤ addr)
    (k : Nat) : ∀ i acc : Nat, varintDecodeGo cfg mem' addr len k i acc = varintDecodeGo cfg mem addr len k i acc := by
  induction k with
  | zero => intro i acc; simp only [varintDecodeGo, readByte_congr hl (h _ (show b ≤ addr + i by omega))]
  | succ k ih => intro i acc; simp only [varintDecodeGo, readByte_congr hl (h _ (show b ≤ addr + i by omega)), ih]

theorem parseLength_from {cfg : Cfg} {mem mem' : Bytes} {b len : Nat} (hl : mem'.length = mem.length) (h : AgreeFrom mem mem' b) (c : Cur) :
    parseLength cfg ⟨mem', b, len⟩ c = parseLength cfg ⟨mem, b, len⟩ c := by
  unfold parseLength
  have e1 : checkEmpty ⟨mem', b, len⟩ c = checkEmpty ⟨mem, b, len⟩ c := rfl
  have e2 : curAddr ⟨mem', b, len⟩ c = curAddr ⟨mem, b, len⟩ c := rfl
  have e3 : remain ⟨mem', b, len⟩ c = remain ⟨mem, b, len⟩ c := rfl
  have e4 : ∀ d, checkOOR ⟨mem', b, len⟩ d = checkOOR ⟨mem, b, len⟩ d := fun _ => rfl
  rw [e1, e2, e3]
  simp only [e4]
  clear e1 e2 e3 e4
  cases checkEmpty ⟨mem, b, len⟩ c with
  | error e => simp only [error_bind]
  | ok u =>
    simp only [ok_bind]
    cases ha : curAddr ⟨mem, b, len⟩ c with
    | error e => simp only [error_bind]
    | ok a =>
      have hba : b ≤ a := by
        unfold curAddr at ha
        simp only at ha
        split at ha
        · cases ha
        · cases ha; omega
      simp only [ok_bind]
      unfold varintDecode
      rw [varintGo_from hl h hba]

theorem siParseBlocks_from {cfg : Cfg} {mem mem' : Bytes} {b len : Nat} (hl : mem'.length = mem.length) (h : AgreeFrom mem mem' b) (n : Nat) :
    ∀ c : Cur, siParseBlocks cfg ⟨mem', b, len⟩ n c = siParseBlocks cfg ⟨mem, b, len⟩ n c := by
  induction n with
  | zero => intro c; rfl
  | succ n ih => intro c; simp only [siParseBlocks, parseLength_from hl h, ih]

theorem siConstructGo_from {cfg : Cfg} {mem mem' : Bytes} {b len : Nat} (hl : mem'.length = mem.length) (h : AgreeFrom mem mem' b) (n : Nat) :
    ∀ (c : Cur) (si : SplitInfo), siConstructGo cfg ⟨mem', b, len⟩ n c si = siConstructGo cfg ⟨mem, b, len⟩ n c si := by
  induction n with
  | zero => intro c si; rfl
  | succ n ih => intro c si; simp only [siConstructGo, parseLength_from hl h, siParseBlocks_from hl h, ih]

theorem siConstruct_from {cfg : Cfg} {mem mem' : Bytes} {b len : Nat} (hl : mem'.length = mem.length) (h : AgreeFrom mem mem' b) :
    SplitInfo.construct cfg ⟨mem', b, len⟩ = SplitInfo.construct cfg ⟨mem, b, len⟩ := by
  simp only [SplitInfo.construct, parseLength_from hl h, siConstructGo_from hl h]

theorem secondary_from {α : Type} {cfg : Cfg} {mem mem' : Bytes} {t : Nat} (hs : mem.length < 2 ^ 63) (hl : mem'.length = mem.length)
    (h : AgreeFrom mem mem' t) {con : View → Res α} (hcon : ∀ b len, t ≤ b → con ⟨mem', b, len⟩ = con ⟨mem, b, len⟩) :
    parseSecondary cfg con mem' t = parseSecondary cfg con mem t := by
  unfold parseSecondary
  have e : parseLengthAt cfg mem' t = parseLengthAt cfg mem t := by
    unfold parseLengthAt varintDecode
    rw [hl, varintGo_from hl h (Nat.le_refl _)]
  rw [e]
  cases hp : parseLengthAt cfg mem t with
  | error e => rfl
  | ok q =>
    simp only [ok_bind]
    have hq : t ≤ addW t q.2 := by
      unfold parseLengthAt at hp
      split at hp
      · cases hp
      · rename_i hlt
        obtain ⟨⟨v, b⟩, e1, h1⟩ := bind_ok hp
        have hb := (varintGo_congr 10 0 0 v b (by omega) e1).2.1
        simp only at h1
        split at h1
        · cases h1
        · cases h1
          simp only
          rw [addW_of_lt (by omega)]
          omega
    rw [hcon _ _ hq]

/-- The header and the split table. -/
theorem init_from {cfg : Cfg} {mem mem' : Bytes} {s : Sched} (hs : mem.length < 2 ^ 63) (hl : mem'.length = mem.length)
    (h : initFromContent cfg mem = .ok s) (hnone : s.sm = none) (hhead : AgreeOn mem mem' 0 10) (htail : AgreeFrom mem mem' s.total) :
    initFromContent cfg mem' = .ok s := by
  obtain ⟨h10, h8, ht, hmode, -⟩ := init_inv h
  have hm0 : mem[8]? = some 0 := by
    rcases hmode with ⟨h, -⟩ | ⟨-, m, h, -⟩
    · exact h
    · rw [hnone] at h; cases h
  have hg : ∀ x, x < 10 → mem'.getD x 0 = mem.getD x 0 := by
    intro x hx
    rw [List.getD_eq_getElem?_getD, List.getD_eq_getElem?_getD, hhead x (by omega) hx]
  have ht8 : mem'.take 8 = mem.take 8 := by
    apply List.ext_getElem?
    intro x
    simp only [List.getElem?_take]
    split
    · exact hhead x (by omega) (by omega)
    · rfl
  rw [init_steps h10] at h
  rw [init_steps (by omega)]
  have htot : parseTotalSize cfg mem = .ok s.total := totalSize_of (by omega) ht h8
  have htot' : parseTotalSize cfg mem' = .ok s.total := totalSize_of (by omega) ht (by rw [ht8, h8])
  rw [htot] at h
  rw [htot']
  simp only [ok_bind] at h ⊢
  rw [hg 8 (by omega), hg 9 (by omega)]
  have hb : mem.getD 8 0 = 0 := by rw [List.getD_eq_getElem?_getD, hm0]; rfl
  rw [hb] at h ⊢
  have hrt : readTables cfg mem' s.total 0 = readTables cfg mem s.total 0 := by
    unfold readTables
    rw [if_pos (by decide), if_pos (by decide), secondary_from hs hl htail (fun b len hb => siConstruct_from hl (fun x hx => htail x (by omega)))]
  rw [hrt]
  exact h

/-! ### the root -/

theorem takeKey_views {ref : Bool} {k : Bytes} : ∀ (es : List (Str × Obj)), (takeKey k es).2 = .null ∨ ∃ e ∈ es, (takeKey k es).2 = e.2
  | [] => .inl rfl
  | (k', v) :: rest => by
    simp only [takeKey]
    split
    · exact .inr ⟨_, List.mem_cons_self, rfl⟩
    · rcases takeKey_views (ref := ref) (k := k) rest with h | ⟨e, he, h⟩
      · exact .inl h
      · exact .inr ⟨e, List.mem_cons_of_mem _ he, h⟩

theorem views_entry {es : List (Str × Obj)} {e : Str × Obj} (he : e ∈ es) {s : Str} (hs : s ∈ e.2.views) : s ∈ viewsE true es := by
  obtain ⟨a, b, rfl⟩ := List.append_of_mem he
  rw [viewsE_append]
  refine List.mem_append.mpr (.inr ?_)
  simp only [viewsE]
  exact List.mem_append.mpr (.inr (List.mem_append.mpr (.inl hs)))

theorem key_entry {es : List (Str × Obj)} {e : Str × Obj} (he : e ∈ es) : e.1 ∈ viewsE true es := by
  obtain ⟨a, b, rfl⟩ := List.append_of_mem he
  rw [viewsE_append]
  refine List.mem_append.mpr (.inr ?_)
  simp only [viewsE, Bool.true_or, if_true]
  exact List.mem_append.mpr (.inl List.mem_cons_self)

theorem takeKey_reread {mem : Bytes} {k : Bytes} : ∀ (es : List (Str × Obj)), (∀ e ∈ es, (e.1.reread mem).bytes = e.1.bytes) →
    (takeKey k (rereadE mem es)).2 = ((takeKey k es).2).reread mem
  | [], _ => rfl
  | (k', v) :: rest, h => by
    simp only [rereadE, takeKey, h (k', v) List.mem_cons_self]
    split
    · rfl
    · exact takeKey_reread rest (fun e he => h e (List.mem_cons_of_mem _ he))

theorem slice_eq {mem mem' : Bytes} {a n : Nat} (h : AgreeOn mem mem' a (a + n)) : slice mem' a n = slice mem a n := by
  apply List.ext_getElem?
  intro x
  simp only [slice, List.getElem?_take, List.getElem?_drop]
  split
  · exact h _ (by omega) (by omega)
  · rfl

/-- The parse of a content without dictionary, given that the views of everything that was read lie inside the content. -/
theorem normal_blind {cfg : Cfg} {mem mem' : Bytes} {s : Sched} {f : Nat} {root : Obj} {c : Cur} (hs : mem.length < 2 ^ 63) (hl : mem'.length = mem.length)
    (hi : initFromContent cfg mem = .ok s) (hnone : s.sm = none)
    (hp : parseVal cfg (View.whole mem) s.sm true .caller f .map ⟨metaSize, metaSize⟩ = .ok (root, c)) (hc : c.off = s.total)
    (hins0 : ∀ x ∈ root.views, x.Inside (mem ++ [0]))
    (hag : ∀ x, mem'[x]? = mem[x]? ∨ Shown (takeRoot root).views x) :
    initFromContent cfg mem' = .ok s ∧ normalParse cfg true f mem' s = .ok ((takeRoot root).reread mem') := by
  have h10 := (init_inv hi).1
  have hIns : Ins root.views := by
    intro x hx a n e
    obtain ⟨a', e', h1, -⟩ := hins0 x hx
    rw [e] at e'
    simp only [Option.some.injEq, Prod.mk.injEq] at e'
    simp only [List.length_append, List.length_singleton] at h1
    omega
  have hdict : DictFrom cfg s.sm (mem.length + 2) := by intro m hm; rw [hnone] at hm; cases hm
  cases f with
  | zero => simp [parseVal] at hp
  | succ f =>
    have hp0 := hp
    simp only [parseVal] at hp
    obtain ⟨⟨n, c1⟩, e1, h1⟩ := bind_ok hp
    clear hp
    obtain ⟨l, f1, f2, f3, rfl⟩ := parseLength_inv hs e1
    obtain ⟨⟨id, c2⟩, e2, h2⟩ := bind_ok h1
    clear h1
    obtain ⟨l', g1, g2, g3, rfl⟩ := parseLength_inv hs e2
    obtain ⟨⟨es, c3⟩, e3, h3⟩ := bind_ok h2
    clear h2
    simp only [pure_eq_ok, Except.ok.injEq, Prod.mk.injEq] at h3
    obtain ⟨rfl, rfl⟩ := h3
    obtain ⟨es', he', hlaid, -⟩ := (tree_blind (pool := .caller) hs hdict f).2.2 _ _ _ _ _ g3 hIns e3
    rw [List.append_nil] at he'
    subst he'
    obtain ⟨j, rfl, j1, j2, hb, hrun⟩ := (tree_blind (pool := .caller) hs hdict (f + 1)).1 _ _ _ _ (by unfold metaSize; omega) hIns hp0
    simp only at hc
    have hins : ∀ x ∈ (Obj.map true .caller n es).views, ∃ a n, x.loc = some (a, n) ∧ a + n ≤ mem.length ∧ x.bytes = slice mem a n := by
      intro x hx
      obtain ⟨a, h1, h2, h3⟩ := hins0 x hx
      obtain ⟨a', n', h4, h5⟩ := hb x hx
      rw [h1] at h4
      simp only [Option.some.injEq, Prod.mk.injEq] at h4
      obtain ⟨rfl, rfl⟩ := h4
      simp only [List.length_append, List.length_singleton] at h2
      have hle : a + x.bytes.length ≤ mem.length := by omega
      refine ⟨a, _, h1, hle, ?_⟩
      refine h3.symm.trans ?_
      simp only [slice]
      rw [List.drop_append_of_le_length (by omega), List.take_append_of_le_length (by simp only [List.length_drop]; omega)]
    have hsub : ∀ x, Shown (takeRoot (.map true .caller n es)).views x → ∃ e ∈ es, (takeRoot (.map true .caller n es)) = e.2 ∧ Shown e.2.views x := by
      intro x hx
      simp only [takeRoot] at hx ⊢
      rcases takeKey_views (ref := true) (k := rootKey) es with h | ⟨e, he, h⟩
      · rw [h] at hx
        obtain ⟨s', hs', -⟩ := hx
        cases hs'
      · exact ⟨e, he, h, by rw [h] at hx; exact hx⟩
    have hsub' : ∀ x, Shown (takeRoot (.map true .caller n es)).views x → Shown (Obj.map true .caller n es).views x := by
      intro x hx
      obtain ⟨e, he, -, s', hs', r⟩ := hsub x hx
      exact ⟨s', views_entry he hs', r⟩
    have hout : ∀ x, x < 10 ∨ j ≤ x → mem'[x]? = mem[x]? := by
      intro x hx
      by_cases hxl : x < mem.length
      · rcases hag x with h | h
        · exact h
        · exact absurd (hsub' x h) (hb.out hx (by omega))
      · rw [List.getElem?_eq_none (by omega), List.getElem?_eq_none (by omega)]
    have hinit : initFromContent cfg mem' = .ok s :=
      init_from hs hl hi hnone (fun x _ h => hout x (.inl h)) (fun x h => hout x (.inr (by omega)))
    have hval := hrun mem' s.sm hl ⟨fun h => h, fun m hm => by rw [hnone] at hm; cases hm⟩ (by omega) (fun x _ _ => (hag x).imp (fun h => h) (hsub' x))
    refine ⟨hinit, ?_⟩
    unfold normalParse
    have hval' : parseVal cfg (View.whole mem') s.sm true .caller (f + 1) .map ⟨metaSize, metaSize⟩ = _ := hval
    simp only []
    rw [hval']
    simp only [ok_bind]
    rw [if_neg (by simp [hc])]
    simp only [pure_eq_ok, Except.ok.injEq]
    simp only [Obj.reread, takeRoot]
    apply takeKey_reread
    intro e he
    obtain ⟨a, k, e1, e2, e3⟩ := hins e.1 (key_entry he)
    simp only [Str.reread, e1]
    rw [e3]
    apply slice_eq
    intro x h1 h2
    rcases hag x with h | h
    · exact h
    · obtain ⟨f', hf', -, hsh⟩ := hsub x h
      exact absurd hsh (hlaid.apart e he f' hf' x (by omega) ⟨e.1, List.mem_cons_self, a, k, e1, h1, h2⟩)

end Bridge
