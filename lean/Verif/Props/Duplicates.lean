import Verif.Props.Paths
import Verif.Props.Containers
/-
C16 in terms of the calls a user makes: a map filled by `Insert`.
-/
set_option autoImplicit false
namespace Bridge
open Spec

theorem entries?_bytes : ∀ {a : List (Str × Obj)} {b : List (Bytes × Obj)} {ds : List Doc},
    a.map (fun e => (e.1.bytes, e.2)) = b → b.map (fun e => e.2.doc?) = ds.map some →
    entries? a = some ((b.map Prod.fst).zip ds)
  | [], b, ds, hab, hd => by
    simp only [List.map_nil] at hab; subst hab
    simp [entries?]
  | (k, o) :: a, b, ds, hab, hd => by
    simp only [List.map_cons] at hab; subst hab
    cases ds with
    | nil => simp at hd
    | cons d ds =>
      simp only [List.map_cons, List.cons.injEq] at hd
      have ih := entries?_bytes (a := a) rfl hd.2
      simp only [entries?, hd.1, ih]
      simp

theorem entryLog_inserts (kvs : List (Bytes × Obj)) : entryLog [] (kvs.map fun e => MapOp.insert e.1 e.2) = kvs := by
  induction kvs with
  | nil => rfl
  | cons e kvs ih => simp only [List.map_cons, entryLog, List.filter_nil, ih, List.not_mem_nil, if_false]

theorem takenValues_inserts (kvs : List (Bytes × Obj)) : ∀ past, takenValues past (kvs.map fun e => MapOp.insert e.1 e.2) = [] := by
  induction kvs with
  | nil => intro past; rfl
  | cons e kvs ih => intro past; simp only [List.map_cons, takenValues, ih]

/-- C16. A map (owning or view) is filled by `Insert(k, v)` for the pairs of `kvs`, first to last, whose values are the documents
`ds`.  A lookup of `k` then shows the value inserted last under `k`; after `Serialize` and the default `Parse` it shows the value
that was inserted first (in which, in turn, maps are reversed). -/
theorem C16_insert_history (ref : Bool) (kvs : List (Bytes × Obj)) (ds : List Doc)
    (hds : kvs.map (fun e => e.2.doc?) = ds.map some) (hn : kvs.length < 2 ^ 64) :
    ∃ m, ({ ref := ref } : MapS).run (kvs.map fun e => MapOp.insert e.1 e.2) = .ok (m, []) ∧
      (∀ k, (m.toObj.wKey k).doc? = firstEntry k ((kvs.map Prod.fst).zip ds).reverse) ∧
      ∀ (w r : Cfg) (t : SeriType), w.charSigned = true → Writable w m.toObj →
        ∃ content, serialize w t m.toObj = .ok content ∧
          (Fits r content → ∃ o', Parses r {} content (.ok o') ∧
            ∀ k, (o'.wKey k).doc? = (firstEntry k ((kvs.map Prod.fst).zip ds)).map Doc.revMaps) := by
  obtain ⟨m, h1, h2, h3, h4, h5⟩ := map_run ref (kvs.map fun e => MapOp.insert e.1 e.2) [] { ref := ref } rfl rfl rfl rfl
    (by simpa using hn)
  simp only [List.append_nil] at h4 h5
  have hrev : (kvs.map fun e => MapOp.insert e.1 e.2).reverse = kvs.reverse.map fun e => MapOp.insert e.1 e.2 := by
    rw [List.map_reverse]
  rw [hrev, entryLog_inserts] at h4 h5
  rw [takenValues_inserts] at h1
  have hlen : kvs.length = ds.length := by simpa using congrArg List.length hds
  have hz : ((kvs.reverse.map Prod.fst).zip ds.reverse) = ((kvs.map Prod.fst).zip ds).reverse := by
    rw [List.map_reverse]
    exact List.zip_eq_zipWith ▸ List.zip_eq_zipWith ▸ (List.reverse_zipWith (by simpa using hlen)).symm
  have hdoc : m.toObj.doc? = some (.map ((kvs.map Prod.fst).zip ds).reverse) := by
    have hi : m.size = m.items.length := by
      rw [h5, ← h4]; simp
    have he := entries?_bytes (ds := ds.reverse) h4 (by rw [List.map_reverse, hds, List.map_reverse])
    rw [hz] at he
    simp only [MapS.toObj, Obj.doc?, hi, if_true, he, Option.map_some]
  refine ⟨m, h1, ?_, ?_⟩
  · intro k
    rcases wStep_doc hdoc (.key k) with ⟨e1, e2⟩ | ⟨d', e1, e2⟩
    · simp only [Obj.wPath] at e2; rw [e2]; simp only [Doc.step] at e1; rw [e1]; rfl
    · simp only [Doc.step] at e1; rw [e1]; exact e2
  · intro w r t hw hh
    obtain ⟨content, hs, _⟩ := (C16_lookup_before_and_after w r hw t m.toObj _ hdoc hh []).2
    refine ⟨content, hs, fun hf => ?_⟩
    obtain ⟨_, c0, hs0, hp0⟩ := C16_lookup_before_and_after w r hw t m.toObj _ hdoc hh []
    rw [hs] at hs0; cases hs0
    obtain ⟨o', ho', _⟩ := hp0 hf
    refine ⟨o', ho', fun k => ?_⟩
    obtain ⟨_, c1, hs1, hp1⟩ := C16_lookup_before_and_after w r hw t m.toObj _ hdoc hh k
    rw [hs] at hs1; cases hs1
    obtain ⟨o1, ho1, hk⟩ := hp1 hf
    have := Parses.unique ho' ho1
    cases this
    rw [List.reverse_reverse] at hk
    exact hk

/-- Two values under one key: the last one is seen before, the first one after. -/
example : ∃ kvs : List (Bytes × Obj), ∃ ds : List Doc, kvs.map (fun e => e.2.doc?) = ds.map some ∧
    firstEntry [97] ((kvs.map Prod.fst).zip ds).reverse = some (.scalar (.int32 2)) ∧
    firstEntry [97] ((kvs.map Prod.fst).zip ds) = some (.scalar (.int32 1)) :=
  ⟨[([97], .data false BRIDGE_INT32 (.i32 1)), ([97], .data false BRIDGE_INT32 (.i32 2))],
    [.scalar (.int32 1), .scalar (.int32 2)], rfl, rfl, rfl⟩

end Bridge
