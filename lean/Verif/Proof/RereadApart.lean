import Verif.Proof.RereadTop
/-
The views of a document without dictionary do not overlap.
-/
set_option autoImplicit false
namespace Bridge
open Spec

/-- Two strings do not share a byte of the buffer. -/
def Apart (s t : Str) : Prop := ∀ a n b m, s.loc = some (a, n) → t.loc = some (b, m) → a + n ≤ b ∨ b + m ≤ a

theorem Apart.symm {s t : Str} (h : Apart s t) : Apart t s := fun a n b m h1 h2 => (h b m a n h2 h1).symm

theorem bounded_apart {vs ws : List Str} {i j k l : Nat} (hv : Bounded vs (2 ^ 64) i j) (hw : Bounded ws (2 ^ 64) k l) (iv : Ins vs) (iw : Ins ws)
    (h : j ≤ k ∨ l ≤ i) : ∀ s ∈ vs, ∀ t ∈ ws, Apart s t := by
  intro s hs t ht a n b m e1 e2
  obtain ⟨a', n', f1, g1⟩ := hv s hs
  obtain ⟨b', m', f2, g2⟩ := hw t ht
  have k1 := iv s hs a n e1
  have k2 := iw t ht b m e2
  rw [e1] at f1; rw [e2] at f2
  simp only [Option.some.injEq, Prod.mk.injEq] at f1 f2
  omega

theorem leaf_views (r : Bool) (dt : UInt8) (p : Payload) : (Obj.data r dt p).views.Pairwise Apart := by
  cases p <;> simp [Obj.views]

theorem tree_apart {cfg : Cfg} {mem : Bytes} {pool : PoolRef} (hs : mem.length < 2 ^ 63) :
    ∀ f : Nat,
    (∀ t i o c, i ≤ mem.length → Ins o.views → parseVal cfg (View.whole mem) none true pool f t ⟨i, i⟩ = .ok (o, c) → o.views.Pairwise Apart) ∧
    (∀ n i os c, i ≤ mem.length → Ins (viewsL os) → parseItems cfg (View.whole mem) none true pool f n ⟨i, i⟩ = .ok (os, c) →
      (viewsL os).Pairwise Apart) ∧
    (∀ n i acc items c, i ≤ mem.length → Ins (viewsE true items) → parseKVs cfg (View.whole mem) none true pool f n ⟨i, i⟩ acc = .ok (items, c) →
      ∃ es, items = es ++ acc ∧ (viewsE true es).Pairwise Apart) := by
  have hd : DictFrom cfg none (2 ^ 64) := fun m hm => by cases hm
  intro f
  induction f with
  | zero =>
    refine ⟨?_, ?_, ?_⟩
    · intro t i o c _ _ h; simp [parseVal] at h
    · intro n i o c _ _ h; simp [parseItems] at h
    · intro n i acc items c _ _ h; simp [parseKVs] at h
  | succ f ih =>
    obtain ⟨ihV, ihI, ihK⟩ := ih
    obtain ⟨tV, tI, tK⟩ := tree_blind (pool := pool) hs hd f
    refine ⟨?_, ?_, ?_⟩
    · intro t i o c hi hins h
      cases t with
      | invalid => simp [parseVal] at h
      | data =>
        simp only [parseVal, if_true] at h
        have h' := h
        unfold parseViewObj at h
        obtain ⟨⟨dt, c1⟩, e1, h1⟩ := bind_ok h
        obtain ⟨_, e2, h2⟩ := bind_ok h1
        rw [reViewObj_inline e1 e2 (.inl rfl)] at h'
        unfold reInlineLeaf at h'
        obtain ⟨⟨n, c2⟩, e3, h3⟩ := bind_ok h'
        obtain ⟨a, e4, h4⟩ := bind_ok h3
        obtain ⟨p, e5, h5⟩ := bind_ok h4
        obtain ⟨_, e6, h6⟩ := bind_ok h5
        simp only [pure_eq_ok, Except.ok.injEq, Prod.mk.injEq] at h6
        obtain ⟨rfl, -⟩ := h6
        exact leaf_views _ _ _
      | array =>
        simp only [parseVal] at h
        obtain ⟨⟨n, c1⟩, e1, h1⟩ := bind_ok h
        clear h
        obtain ⟨l, f1, f2, f3, rfl⟩ := parseLength_inv hs e1
        obtain ⟨⟨id, c2⟩, e2, h2⟩ := bind_ok h1
        clear h1
        obtain ⟨l', g1, g2, g3, rfl⟩ := parseLength_inv hs e2
        obtain ⟨⟨items, c3⟩, e3, h3⟩ := bind_ok h2
        clear h2
        simp only [pure_eq_ok, Except.ok.injEq, Prod.mk.injEq] at h3
        obtain ⟨rfl, rfl⟩ := h3
        exact ihI _ _ _ _ g3 hins e3
      | map =>
        simp only [parseVal] at h
        obtain ⟨⟨n, c1⟩, e1, h1⟩ := bind_ok h
        clear h
        obtain ⟨l, f1, f2, f3, rfl⟩ := parseLength_inv hs e1
        obtain ⟨⟨id, c2⟩, e2, h2⟩ := bind_ok h1
        clear h1
        obtain ⟨l', g1, g2, g3, rfl⟩ := parseLength_inv hs e2
        obtain ⟨⟨items, c3⟩, e3, h3⟩ := bind_ok h2
        clear h2
        simp only [pure_eq_ok, Except.ok.injEq, Prod.mk.injEq] at h3
        obtain ⟨rfl, rfl⟩ := h3
        obtain ⟨es, he, hp⟩ := ihK _ _ _ _ _ g3 hins e3
        rw [List.append_nil] at he
        subst he
        exact hp
    · intro n i os c hi hins h
      cases n with
      | zero =>
        simp only [parseItems, Except.ok.injEq, Prod.mk.injEq] at h
        obtain ⟨rfl, rfl⟩ := h
        simp [viewsL]
      | succ n =>
        simp only [parseItems] at h
        obtain ⟨⟨t, c1⟩, e1, h1⟩ := bind_ok h
        clear h
        obtain ⟨b, f1, f2, f3, f4, rfl⟩ := parseObjectType_inv hs e1
        obtain ⟨⟨o, c2⟩, e2, h2⟩ := bind_ok h1
        clear h1
        obtain ⟨⟨rest, c3⟩, e3, h3⟩ := bind_ok h2
        clear h2
        simp only [pure_eq_ok, Except.ok.injEq, Prod.mk.injEq] at h3
        obtain ⟨rfl, rfl⟩ := h3
        have i1 : Ins o.views := fun s hs' => hins s (List.mem_append.mpr (.inl hs'))
        have i2 : Ins (viewsL rest) := fun s hs' => hins s (List.mem_append.mpr (.inr hs'))
        have p1 := ihV _ _ _ _ (by omega) i1 e2
        obtain ⟨j, rfl, j1, j2, hb, -⟩ := tV _ _ _ _ (by omega) i1 e2
        have p2 := ihI _ _ _ _ j2 i2 e3
        obtain ⟨j', rfl, j1', j2', hb', -⟩ := tI _ _ _ _ j2 i2 e3
        exact List.pairwise_append.mpr ⟨p1, p2, bounded_apart hb hb' i1 i2 (.inl (Nat.le_refl _))⟩
    · intro n i acc items c hi hins h
      cases n with
      | zero =>
        simp only [parseKVs, Except.ok.injEq, Prod.mk.injEq] at h
        obtain ⟨rfl, rfl⟩ := h
        exact ⟨[], rfl, by simp [viewsE]⟩
      | succ n =>
        simp only [parseKVs] at h
        obtain ⟨⟨k, c0⟩, e0, h1⟩ := bind_ok h
        clear h
        obtain ⟨⟨t, c1⟩, e1, h2⟩ := bind_ok h1
        clear h1
        obtain ⟨⟨o, c2⟩, e2, h3⟩ := bind_ok h2
        clear h2
        simp only [ownKey, if_true, ok_bind] at h3
        obtain ⟨pre, hpre⟩ := kvs_acc f n _ _ _ _ h3
        have hko : Ins ([k] ++ o.views) := by
          intro s hs'
          refine hins s ?_
          rw [hpre, viewsE_append]
          refine List.mem_append.mpr (.inr ?_)
          simp only [viewsE, Bool.true_or, if_true]
          rw [← List.append_assoc]
          exact List.mem_append.mpr (.inl hs')
        have ik : Ins [k] := fun s hs' => hko s (List.mem_append.mpr (.inl hs'))
        have io : Ins o.views := fun s hs' => hko s (List.mem_append.mpr (.inr hs'))
        obtain ⟨j0, rfl, j01, j02, hb0, -⟩ := key_blind hs hd ik e0
        obtain ⟨b, f1, f2, f3, f4, rfl⟩ := parseObjectType_inv hs e1
        have p1 := ihV _ _ _ _ (by omega) io e2
        obtain ⟨j, rfl, j1, j2, hb, -⟩ := tV _ _ _ _ (by omega) io e2
        obtain ⟨es, he, hlaid, hK⟩ := tK _ _ _ _ _ j2 hins h3
        obtain ⟨es', he', p2⟩ := ihK _ _ _ _ _ j2 hins h3
        have : es' = es := List.append_cancel_right (he'.symm.trans he)
        subst this
        obtain ⟨j', rfl, j1', j2', hb', -⟩ := hK (fun _ => [])
        have ie : Ins (viewsE true es') := fun s hs' => hins s (by rw [he, viewsE_append]; exact List.mem_append.mpr (.inl hs'))
        have hbko : Bounded ([k] ++ o.views) (2 ^ 64) i j := (hb0.mono (Nat.le_refl _) (by omega)).append (hb.mono (by omega) (Nat.le_refl _))
        refine ⟨es' ++ [(k, o)], by simp [he], ?_⟩
        have hv : viewsE true (es' ++ [(k, o)]) = viewsE true es' ++ ([k] ++ o.views) := by
          rw [viewsE_append]; simp [viewsE]
        rw [hv]
        refine List.pairwise_append.mpr ⟨p2, List.pairwise_append.mpr ⟨by simp, p1, bounded_apart hb0 hb ik io (.inl (by omega))⟩, ?_⟩
        exact bounded_apart hb' hbko ie hko (.inr (Nat.le_refl _))

end Bridge
