import Verif.Proof.CoReread
/-
The whole parallel parse of a written content without dictionary does not look at the bytes of the strings it makes views of.
-/
set_option autoImplicit false
namespace Bridge
open Spec

/-- What the parallel parser reads of a written content that has the split flag. -/
theorem parse_tight {cfg wc : Cfg} {t : SeriType} {d : Doc} (h : ContentOk cfg wc t d []) (hsp : (bodyOf wc t d).2.1 = true)
    (ref : Bool) (hcust : ref = true → d.noCustom = true) {f : Nat} (hf : docFuel (rootDoc d) ≤ f) :
    ∃ s root c y, initFromContent cfg (contentOf wc t d) = .ok s ∧ s.split = true ∧
      tightMap cfg (View.whole (contentOf wc t d)) s.sm s.si ref f metaSize = .ok (root, c) ∧ c.idx = s.total ∧
      root.doc? = some (.map [(rootKey, y)]) ∧ d.Same y ∧ root.Built (contentOf wc t d) ref .frame := by
  obtain ⟨s, h1, h2, h3, h4, h5, h6⟩ := init_eq [] h.size h.lt
  have hlt := h.lt
  have hroom := env0_room t (n := (bodyOf wc t d).1.length) (by omega)
  have hg : Grows (env0 t) (bodyOf wc t d).2.2 (bodyOf wc t d).1.length := emitDoc_grows wc (rootDoc d) (env0 t) hroom
  have hctx := cctx_of_sched h.size h.strMax h2 hg.si
  have hlen : (emitDoc wc (rootDoc d) (env0 t)).1.length = (bodyOf wc t d).1.length := rfl
  obtain ⟨o, d', p1, p2, p3, p4⟩ := (tight_all (wc := wc) (ref := ref) hctx f).2.2 (rootDoc d) (env0 t) 10 hroom (Follows.refl _) h5
    (by simp only [List.length_append]; exact Nat.lt_of_lt_of_le h6 (by omega)) (by omega)
    (by simpa [rootDoc, Doc.noCustom, noCustomE] using hcust) hf
  obtain ⟨es', es'', rfl, hse, hperm⟩ := p3
  obtain ⟨y, ys, rfl, hy, hys⟩ := hse
  simp only [SameE] at hys
  subst hys
  have hes : es' = [(rootKey, y)] := List.perm_singleton.mp hperm.symm
  subst hes
  have hb : (emitDoc wc (rootDoc d) (env0 t)).2.1 = true := hsp
  rw [hb] at p1
  simp only [coChild, if_true, rootDoc, docType] at p1
  simp only [List.append_nil] at h1 p1 p4
  refine ⟨s, o, _, y, h1, by rw [h4, hsp], p1, ?_, p2, hy, p4⟩
  rw [h3]
  rfl

/-- A key and what stands in the map do not share a byte. -/
theorem entries_apart : ∀ {es : List (Str × Obj)}, (viewsE true es).Pairwise Apart → ∀ e ∈ es, ∀ f ∈ es, ∀ x, Shown [e.1] x → ¬ Shown f.2.views x := by
  have clash : ∀ {vs ws : List Str}, (∀ s ∈ vs, ∀ t ∈ ws, Apart s t) → ∀ x, Shown vs x → ¬ Shown ws x := by
    rintro vs ws h x ⟨s, hs, a, n, e, h1, h2⟩ ⟨t, ht, b, m, e', h3, h4⟩
    have := h s hs t ht a n b m e e'
    omega
  intro es
  induction es with
  | nil => intro _ e he; cases he
  | cons y es ih =>
    intro h e he f hf x
    obtain ⟨k, o⟩ := y
    have hv : viewsE true ((k, o) :: es) = [k] ++ (o.views ++ viewsE true es) := rfl
    rw [hv] at h
    obtain ⟨-, h1, h2⟩ := List.pairwise_append.mp h
    obtain ⟨-, h3, h4⟩ := List.pairwise_append.mp h1
    rcases List.mem_cons.mp he with rfl | he
    · rcases List.mem_cons.mp hf with rfl | hf
      · exact clash (fun s hs t ht => h2 s hs t (List.mem_append.mpr (.inl ht))) x
      · exact clash (fun s hs t ht => h2 s hs t (List.mem_append.mpr (.inr (views_entry hf ht)))) x
    · rcases List.mem_cons.mp hf with rfl | hf
      · intro g1 g2
        refine clash (fun s hs t ht => h4 s hs t ?_) x g2 g1
        rw [List.mem_singleton] at ht
        subst ht
        exact key_entry he
      · exact ih h3 e he f hf x

theorem tightMap_shape {cfg : Cfg} {v : View} {sm : Option StringMap} {si : SplitInfo} {ref : Bool} {f i : Nat} {root : Obj} {c : Cur}
    (h : tightMap cfg v sm si ref f i = .ok (root, c)) : ∃ n es, root = .map ref .frame n es := by
  cases f with
  | zero => simp [tightMap] at h
  | succ f =>
    simp only [tightMap] at h
    obtain ⟨q1, -, h⟩ := bind_ok h
    obtain ⟨q2, -, h⟩ := bind_ok h
    obtain ⟨q3, -, h⟩ := bind_ok h
    obtain ⟨rs, -, h⟩ := bind_ok h
    simp only [pure_eq_ok, Except.ok.injEq, Prod.mk.injEq] at h
    obtain ⟨sz, hf⟩ := foldM_items rs { ref := ref, pool := .frame }
    rw [hf] at h
    exact ⟨_, _, h.1.symm⟩

/-- The parallel parse of a content without dictionary whose blocks end where the table says, and which does not run into its tables. -/
theorem parallel_blind {cfg : Cfg} {mem mem' : Bytes} {s : Sched} {f : Nat} {root : Obj} {c : Cur} (hs : mem.length < 2 ^ 63)
    (hl : mem'.length = mem.length) (hi : initFromContent cfg mem = .ok s) (hnone : s.sm = none)
    (hp : tightMap cfg (View.whole mem) s.sm s.si true f metaSize = .ok (root, c)) (hc : c.idx = s.total)
    (hins0 : ∀ x ∈ root.views, x.Inside mem) (hag : ∀ x, mem'[x]? = mem[x]? ∨ Shown (takeRoot root).views x) :
    initFromContent cfg mem' = .ok s ∧ tightMap cfg (View.whole mem') s.sm s.si true f metaSize = .ok (root.reread mem', c) ∧
      takeRoot (root.reread mem') = (takeRoot root).reread mem' ∧ root.views.Pairwise Apart := by
  have h10 := (init_inv hi).1
  have hIns : Ins root.views := by
    intro x hx a n e
    obtain ⟨a', e', h1, -⟩ := hins0 x hx
    rw [e] at e'
    simp only [Option.some.injEq, Prod.mk.injEq] at e'
    omega
  rw [hnone] at hp ⊢
  obtain ⟨n, es, rfl⟩ := tightMap_shape hp
  obtain ⟨j, rfl, -, -, hb, hap, hrun⟩ := (tight_seg hs f).2.2.2 _ _ _ (by unfold metaSize; omega) hIns hp
  simp only at hc
  have hsub : ∀ x, Shown (takeRoot (.map true .frame n es)).views x → ∃ e ∈ es, takeRoot (.map true .frame n es) = e.2 ∧ Shown e.2.views x := by
    intro x hx
    simp only [takeRoot] at hx ⊢
    rcases takeKey_views (ref := true) (k := rootKey) es with h | ⟨e, he, h⟩
    · rw [h] at hx
      obtain ⟨s', hs', -⟩ := hx
      cases hs'
    · exact ⟨e, he, h, by rw [h] at hx; exact hx⟩
  have hsub' : ∀ x, Shown (takeRoot (.map true .frame n es)).views x → Shown (Obj.map true .frame n es).views x := by
    intro x hx
    obtain ⟨e, he, -, s', hs', r⟩ := hsub x hx
    exact ⟨s', views_entry he hs', r⟩
  have hout : ∀ x, x < 10 ∨ j ≤ x → mem'[x]? = mem[x]? := by
    intro x hx
    by_cases hxl : x < mem.length
    · rcases hag x with h | h
      · exact h
      · exact absurd (hsub' x h) (hb.out hx (by omega))
    · rw [List.getElem?_eq_none (by omega), List.getElem?_eq_none (by omega)]
  refine ⟨init_from hs hl hi hnone (fun x _ h => hout x (.inl h)) (fun x h => hout x (.inr (by omega))),
    hrun mem' hl (fun x _ _ => (hag x).imp (fun h => h) (hsub' x)), ?_, hap⟩
  simp only [Obj.reread, takeRoot]
  apply takeKey_reread
  intro e he
  obtain ⟨a, e1, e2, e3⟩ := hins0 e.1 (key_entry he)
  simp only [Str.reread, e1]
  conv => rhs; rw [← e3]
  apply slice_eq
  intro x h1 h2
  rcases hag x with h | h
  · exact h
  · obtain ⟨f', hf', -, hsh⟩ := hsub x h
    exact absurd hsh (entries_apart hap e he f' hf' x ⟨e.1, List.mem_cons_self, a, _, e1, h1, h2⟩)

end Bridge
