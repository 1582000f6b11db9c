import Verif.Proof.CoRT
import Verif.Proof.Fuel
/-
`Parse` after `Serialize`.
-/
namespace Bridge
open Spec

theorem takeRoot_doc {o : Obj} {d : Doc} {mem : Bytes} {ref : Bool} {pool : PoolRef}
    (h : o.doc? = some (.map [(rootKey, d)])) (hb : o.Built mem ref pool) :
    (takeRoot o).doc? = some d ∧ (takeRoot o).Built mem ref pool := by
  cases o with
  | null => simp [Obj.doc?] at h
  | data r dt p => simp [Obj.doc?] at h
  | array p s items => simp only [Obj.doc?] at h; split at h <;> simp at h
  | map r p s items =>
    simp only [Obj.doc?] at h
    split at h
    · simp only [Option.map_eq_some_iff, Doc.map.injEq] at h
      obtain ⟨es, h1, rfl⟩ := h
      have hl := entries?_length h1
      obtain ⟨kx, rfl⟩ : ∃ kx, items = [kx] := by
        match items, hl with
        | [kx], _ => exact ⟨kx, rfl⟩
      obtain ⟨k, x⟩ := kx
      obtain ⟨d', ds', he, hd, _⟩ := entries?_cons h1
      simp only [List.cons.injEq, Prod.mk.injEq] at he
      obtain ⟨⟨hk, rfl⟩, _⟩ := he
      simp only [takeRoot, takeKey, ← hk, if_true]
      exact ⟨hd, hb.2.2.2.1⟩
    · simp at h

theorem rootDoc_revMaps (d : Doc) : (rootDoc d).revMaps = .map [(rootKey, d.revMaps)] := rfl

theorem pctx_of_sched {cfg wc : Cfg} {mem : Bytes} {e : Env} {s : Sched} (hs : SizeOk cfg mem.length)
    (hm : mem.length ≤ cfg.strMax) (h : SchedOk cfg wc mem e s) : PCtx cfg mem s.sm e :=
  ⟨hs, hm, h.smNone, h.sm⟩

theorem cctx_of_sched {cfg wc : Cfg} {mem : Bytes} {e : Env} {s : Sched} (hs : SizeOk cfg mem.length)
    (hm : mem.length ≤ cfg.strMax) (h : SchedOk cfg wc mem e s) (hi : SIInv e.si) : CCtx cfg mem s.sm s.si e :=
  ⟨pctx_of_sched hs hm h, by
    intro id bs hb
    have hp := wc.siPerm e.si.info
    apply getBlocks_mem
    · rw [h.si]; exact (hp.map _).nodup_iff.mpr hi.nodup
    · rw [h.si]; exact hp.mem_iff.mpr hb⟩

/-- Everything that is needed of the content. -/
structure ContentOk (cfg wc : Cfg) (t : SeriType) (d : Doc) (extra : Bytes) : Prop where
  size : SizeOk cfg (contentOf wc t d ++ extra).length
  lt : (contentOf wc t d).length < 2 ^ 32
  strMax : (contentOf wc t d ++ extra).length ≤ cfg.strMax

/-- The recursive parser: the root that it builds. -/
theorem parse_root {cfg wc : Cfg} {t : SeriType} {d : Doc} {extra : Bytes} (h : ContentOk cfg wc t d extra) (ref : Bool)
    (hcust : ref = true → d.noCustom = true) {f : Nat} (hf : docFuel (rootDoc d) ≤ f) :
    ∃ s root c, initFromContent cfg (contentOf wc t d ++ extra) = .ok s ∧
      parseVal cfg (View.whole (contentOf wc t d ++ extra)) s.sm ref .caller f .map ⟨metaSize, metaSize⟩ = .ok (root, c) ∧
      c.off = s.total ∧ root.doc? = some (rootDoc d).revMaps ∧ root.Built (contentOf wc t d ++ extra) ref .caller := by
  obtain ⟨s, h1, h2, h3, h4, h5, h6⟩ := init_eq extra h.size h.lt
  have hctx := pctx_of_sched h.size h.strMax h2
  have hlt := h.lt
  have hroom := env0_room t (n := (bodyOf wc t d).1.length) (by omega)
  obtain ⟨o, p1, p2, p3⟩ := parseVal_eq (ref := ref) (pool := .caller) hctx (rootDoc d) (env0 t) 10 f hroom (Follows.refl _) h5
    (by simp only [List.length_append]; exact Nat.lt_of_lt_of_le h6 (by omega)) (Nat.lt_of_le_of_lt (Nat.le_of_lt (by
      have : (emitDoc wc (rootDoc d) (env0 t)).1.length < 10 + (bodyOf wc t d).1.length := by
        have : (emitDoc wc (rootDoc d) (env0 t)).1.length = (bodyOf wc t d).1.length := rfl
        omega
      exact this)) (by omega)) (by simpa [rootDoc, Doc.noCustom, noCustomE] using hcust) hf
  refine ⟨s, o, ⟨10 + (emitDoc wc (rootDoc d) (env0 t)).1.length, 10 + (emitDoc wc (rootDoc d) (env0 t)).1.length⟩, h1, ?_, ?_, p2, p3⟩
  · have : docType (rootDoc d) = .map := rfl
    rw [this] at p1
    simp only [metaSize]
    exact p1
  · rw [h3]; simp [bodyOf]

/-- The recursive parser: the document with the entries of all maps reversed. -/
theorem parse_normal {cfg wc : Cfg} {t : SeriType} {d : Doc} {extra : Bytes} (h : ContentOk cfg wc t d extra) (ref : Bool)
    (hcust : ref = true → d.noCustom = true) (w : Nat) {f : Nat} (hf : docFuel (rootDoc d) ≤ f) :
    ∃ o, parse cfg ⟨false, ref, w⟩ f (contentOf wc t d ++ extra) = .ok o ∧ o.doc? = some d.revMaps ∧
      o.Built (contentOf wc t d ++ extra) ref .caller := by
  obtain ⟨s, o, c, h1, p1, h3, p2, p3⟩ := parse_root h ref hcust hf
  rw [rootDoc_revMaps] at p2
  obtain ⟨q1, q2⟩ := takeRoot_doc p2 p3
  refine ⟨takeRoot o, ?_, q1, q2⟩
  unfold parse
  rw [h1]
  simp only [ok_bind, Bool.false_eq_true, if_false]
  unfold normalParse
  simp only
  rw [p1]
  simp only [ok_bind]
  rw [if_neg (by rw [h3]; simp)]
  rfl

/-- The coroutine parser: the same document up to the order of map entries. -/
theorem parse_co {cfg wc : Cfg} {t : SeriType} {d : Doc} {extra : Bytes} (h : ContentOk cfg wc t d extra) (ref : Bool)
    (hcust : ref = true → d.noCustom = true) {w : Nat} (hw : 0 < w) {f : Nat} (hf : docFuel (rootDoc d) ≤ f) :
    ∃ o d', parse cfg ⟨true, ref, w⟩ f (contentOf wc t d ++ extra) = .ok o ∧ o.doc? = some d' ∧ d.Same d' ∧
      o.Built (contentOf wc t d ++ extra) ref (if (bodyOf wc t d).2.1 then .frame else .caller) := by
  obtain ⟨s, h1, h2, h3, h4, h5, h6⟩ := init_eq extra h.size h.lt
  have hlt := h.lt
  have hroom := env0_room t (n := (bodyOf wc t d).1.length) (by omega)
  cases hsp : (bodyOf wc t d).2.1 with
  | false =>
    obtain ⟨o, p1, p2, p3⟩ := parse_normal h ref hcust w hf
    refine ⟨o, d.revMaps, ?_, p2, same_revMaps d, p3⟩
    unfold parse at p1 ⊢
    rw [h1] at p1 ⊢
    simp only [ok_bind, Bool.false_eq_true, if_false, if_true] at p1 ⊢
    unfold coroutineParse
    rw [h4, hsp, if_pos rfl, h1]
    exact p1
  | true =>
    have hg : Grows (env0 t) (bodyOf wc t d).2.2 (bodyOf wc t d).1.length := emitDoc_grows wc (rootDoc d) (env0 t) hroom
    have hctx := cctx_of_sched h.size h.strMax h2 hg.si
    obtain ⟨o, d', p1, p2, p3, p4⟩ := (co_all (ref := ref) hctx f).2.2 (rootDoc d) (env0 t) 10 hroom (Follows.refl _) h5
      (by simp only [List.length_append]; exact Nat.lt_of_lt_of_le h6 (by omega)) (Nat.lt_of_le_of_lt (Nat.le_of_lt (by
        have : (emitDoc wc (rootDoc d) (env0 t)).1.length < 10 + (bodyOf wc t d).1.length := by
          have : (emitDoc wc (rootDoc d) (env0 t)).1.length = (bodyOf wc t d).1.length := rfl
          omega
        exact this)) (by omega)) (by simpa [rootDoc, Doc.noCustom, noCustomE] using hcust) hf
    obtain ⟨es', es'', rfl, hse, hperm⟩ := p3
    obtain ⟨y, ys, rfl, hy, hys⟩ := hse
    simp only [SameE] at hys
    subst hys
    have hes : es' = [(rootKey, y)] := List.perm_singleton.mp hperm.symm
    subst hes
    obtain ⟨q1, q2⟩ := takeRoot_doc p2 p4
    refine ⟨takeRoot o, y, ?_, q1, hy, q2⟩
    unfold parse
    rw [h1]
    simp only [ok_bind, if_true]
    unfold coroutineParse
    rw [h4, hsp, if_neg (by simp), if_neg (by omega)]
    have hb : (emitDoc wc (rootDoc d) (env0 t)).2.1 = true := hsp
    rw [hb] at p1
    simp only [coChild, if_true, rootDoc, docType] at p1
    simp only [metaSize]
    rw [p1]
    rfl

end Bridge
