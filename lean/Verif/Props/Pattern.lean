import Verif.Proof.Pattern
import Verif.Props.Paths
/-
C42 – C44, C54: pattern matching.  `Spec.Sat` says when a document satisfies a pattern.
-/
set_option autoImplicit false
namespace Bridge
open Spec

/-! ### C42 -/

/-- C42: `Match` returns, and returns true exactly when the document satisfies the pattern, for every pattern without unset slots
(`spec?` reads off the pattern from the pattern object) and every object tree, owning or in situ. -/
theorem C42_match_iff_satisfies (p : Pat) (sp : Pattern) (o : Obj) (d : Doc) (hp : p.spec? = some sp) (ho : o.doc? = some d) :
    ∃ b, p.matches o = .ok b ∧ (b = true ↔ Sat sp d) := matches_sat p hp ho

/-- C42: the result depends on the document only, so it is the same for owning and in-situ objects. -/
theorem C42_owning_or_in_situ (p : Pat) (sp : Pattern) (o o' : Obj) (d : Doc) (hp : p.spec? = some sp) (ho : o.doc? = some d)
    (ho' : o'.doc? = some d) : p.matches o = p.matches o' := by
  obtain ⟨b, h1, h2⟩ := matches_sat p hp ho
  obtain ⟨b', h1', h2'⟩ := matches_sat p hp ho'
  rw [h1, h1']
  congr 1
  exact Bool.eq_iff_iff.mpr (h2.trans h2'.symm)

/-- C42: `Match` never faults, whatever tree a pattern without unset slots is applied to, including trees with null children and
values that were never set. -/
theorem C42_never_faults (p : Pat) (sp : Pattern) (o : Obj) (hp : p.spec? = some sp) (ho : o ≠ .null) :
    ∃ b, p.matches o = .ok b := matches_total p hp ho

/-- The pattern that calls leave required for key `k`, if `cur` was required before them. -/
def requiredAfter (k : Bytes) : List MapCall → Option Pat → Option Pat
  | [], cur => cur
  | .setPattern k' p :: cs, cur => requiredAfter k cs (if k' = k then some p else cur)
  | .removePattern k' :: cs, cur => requiredAfter k cs (if k' = k then none else cur)
  | .setSize _ :: cs, cur => requiredAfter k cs cur

/-- The size that calls leave required. -/
def sizeAfter : List MapCall → Option Nat → Option Nat
  | [], cur => cur
  | .setSize n :: cs, _ => sizeAfter cs (some n)
  | _ :: cs, cur => sizeAfter cs cur

theorem mapCalls_spec {cs : List MapCall} : ∀ {kvs : List (Bytes × Pat)} {size : Option Nat} {q : Pat} {cur : Bytes → Option Pat},
    mapCalls cs (.map kvs size) q → (∀ k p, (k, p) ∈ kvs ↔ cur k = some p) →
    ∃ kvs', q = .map kvs' (sizeAfter cs size) ∧ ∀ k p, (k, p) ∈ kvs' ↔ requiredAfter k cs (cur k) = some p := by
  induction cs with
  | nil => intro kvs size q cur h hc; simp only [mapCalls] at h; exact ⟨kvs, h, hc⟩
  | cons c cs ih =>
    intro kvs size q cur h hc
    obtain ⟨m, hm, h⟩ := h
    cases c with
    | setSize n =>
      simp only [MapCall.effect] at hm
      subst hm
      exact ih h hc
    | setPattern k' p' =>
      simp only [MapCall.effect] at hm
      obtain ⟨kvs', rfl, hp⟩ := hm
      exact ih (cur := fun k => if k' = k then some p' else cur k) h (by
        intro k p
        rw [hp.mem_iff]
        simp only [List.mem_cons, List.mem_filter, hc, Prod.mk.injEq, decide_eq_true_eq]
        by_cases hk : k' = k
        · subst hk; simp [eq_comm]
        · simp only [hk, if_false]
          constructor
          · rintro (⟨rfl, _⟩ | ⟨h, _⟩)
            · exact absurd rfl hk
            · exact h
          · intro h; exact .inr ⟨h, fun e => hk e.symm⟩)
    | removePattern k' =>
      simp only [MapCall.effect] at hm
      obtain ⟨kvs', rfl, hp⟩ := hm
      exact ih (cur := fun k => if k' = k then none else cur k) h (by
        intro k p
        rw [hp.mem_iff]
        simp only [List.mem_filter, hc, decide_eq_true_eq]
        by_cases hk : k' = k
        · subst hk; simp
        · simp only [hk, if_false]
          exact ⟨fun h => h.1, fun h => ⟨h, fun e => hk e.symm⟩⟩)

/-- C42: a map pattern built by any calls of `setPattern`, `removePattern` and `setSize`, for every order the hash table may have,
matches exactly the maps that have the size set last (if any) and, for each key whose last call set a pattern, a value that
satisfies it. -/
theorem C42_map_pattern_calls (cs : List MapCall) (q : Pat) (hq : mapCalls cs .newMap q)
    (hset : ∀ k p, MapCall.setPattern k p ∈ cs → ∃ sp, p.spec? = some sp) (o : Obj) (d : Doc) (ho : o.doc? = some d) :
    ∃ b, q.matches o = .ok b ∧ (b = true ↔
      ∃ es, d = .map es ∧ (∀ n, sizeAfter cs none = some n → es.length = n) ∧
        ∀ k p sp, requiredAfter k cs none = some p → p.spec? = some sp → ∃ x, firstEntry k es = some x ∧ Sat sp x) := by
  obtain ⟨kvs, rfl, hk⟩ := mapCalls_spec (cur := fun _ => none) hq (by simp)
  have hall : ∀ (l : List MapCall) (k : Bytes) (cur : Option Pat) (p : Pat), requiredAfter k l cur = some p →
      cur = some p ∨ MapCall.setPattern k p ∈ l := by
    intro l
    induction l with
    | nil => intro k cur p h; exact .inl h
    | cons c l ih =>
      intro k cur p h
      cases c with
      | setPattern k' p' =>
        rcases ih k _ p h with h1 | h
        · split at h1
          · rename_i e; subst e; simp only [Option.some.injEq] at h1; subst h1; exact .inr (by simp)
          · exact .inl h1
        · exact .inr (by simp [h])
      | removePattern k' =>
        rcases ih k _ p h with h | h
        · split at h
          · cases h
          · exact .inl h
        · exact .inr (by simp [h])
      | setSize n =>
        rcases ih k _ p h with h | h
        · exact .inl h
        · exact .inr (by simp [h])
  obtain ⟨r, hr⟩ := specKvs?_of (kvs := kvs) (by
    intro k p hm
    rcases hall cs k none p ((hk k p).mp hm) with h | h
    · cases h
    · exact hset k p h)
  obtain ⟨b, h1, h2⟩ := matches_sat (.map kvs (sizeAfter cs none)) (sp := .map r (sizeAfter cs none))
    (by simp [Pat.spec?, hr]) ho
  refine ⟨b, h1, h2.trans ?_⟩
  simp only [Sat, satKeys_iff hr]
  constructor
  · rintro ⟨es, rfl, a, c⟩
    exact ⟨es, rfl, a, fun k p sp h hsp => c k p sp ((hk k p).mpr h) hsp⟩
  · rintro ⟨es, rfl, a, c⟩
    exact ⟨es, rfl, a, fun k p sp h hsp => c k p sp ((hk k p).mp h) hsp⟩

/-- The pattern set last for index `i`, if any. -/
def slotAfter (i : Nat) : List (Nat × Pat) → Option Pat → Option Pat
  | [], cur => cur
  | (j, p) :: cs, cur => slotAfter i cs (if j = i then some p else cur)

theorem setNth_spec (cs : List (Nat × Pat)) : ∀ (slots : List Pat),
    ∃ slots' : List Pat, cs.foldl (fun (q : Pat) (c : Nat × Pat) => q.setNth c.1 c.2) (Pat.array slots true) = Pat.array slots' true ∧ slots'.length = slots.length ∧
      ∀ i, i < slots.length → slots'[i]? = slotAfter i cs slots[i]? := by
  induction cs with
  | nil => intro slots; exact ⟨slots, rfl, rfl, fun i _ => rfl⟩
  | cons c cs ih =>
    intro slots
    obtain ⟨j, p⟩ := c
    simp only [List.foldl_cons, Pat.setNth, Bool.true_and, decide_eq_true_eq]
    by_cases hj : j < slots.length
    · rw [if_pos hj]
      obtain ⟨s', h1, h2, h3⟩ := ih (slots.set j p)
      refine ⟨s', h1, by simpa using h2, fun i hi => ?_⟩
      rw [h3 i (by simpa using hi), slotAfter]
      congr 1
      by_cases e : j = i
      · subst e; simp [hj]
      · rw [if_neg e, List.getElem?_set_ne e]
    · rw [if_neg hj]
      obtain ⟨s', h1, h2, h3⟩ := ih slots
      refine ⟨s', h1, h2, fun i hi => ?_⟩
      rw [h3 i hi, slotAfter, if_neg (by omega)]

theorem slotAfter_mem {i : Nat} {p : Pat} : ∀ {cs : List (Nat × Pat)} {cur : Option Pat}, slotAfter i cs cur = some p →
    cur = some p ∨ (i, p) ∈ cs
  | [], cur, h => .inl h
  | (j, q) :: cs, cur, h => by
    rcases slotAfter_mem (cs := cs) h with h1 | h
    · split at h1
      · rename_i e; subst e; simp only [Option.some.injEq] at h1; subst h1; exact .inr (by simp)
      · exact .inl h1
    · exact .inr (by simp [h])

theorem slotAfter_none {i : Nat} : ∀ {cs : List (Nat × Pat)}, (∃ p, (i, p) ∈ cs) → ∀ c c', slotAfter i cs c = slotAfter i cs c'
  | [], ⟨p, h⟩, _, _ => by simp at h
  | (j, q) :: cs, ⟨p, h⟩, c, c' => by
    simp only [slotAfter]
    by_cases e : j = i
    · simp [e]
    · simp only [e, if_false]
      refine slotAfter_none ⟨p, ?_⟩ c c'
      rcases List.mem_cons.mp h with h | h
      · cases h; exact absurd rfl e
      · exact h

/-- C42: an `ArrayPattern(n)` all of whose slots have been set, by any calls of `setNthPattern` (also repeated or out of range), matches
exactly the arrays of length `n` whose element at each index satisfies the pattern set last for it. -/
theorem C42_array_pattern_calls (n : Nat) (cs : List (Nat × Pat)) (hset : ∀ i p, (i, p) ∈ cs → ∃ sp, p.spec? = some sp)
    (hfull : ∀ i, i < n → ∃ p, (i, p) ∈ cs) (o : Obj) (d : Doc) (ho : o.doc? = some d) :
    ∃ b, (cs.foldl (fun (q : Pat) (c : Nat × Pat) => q.setNth c.1 c.2) (Pat.newArrayN n)).matches o = .ok b ∧ (b = true ↔
      ∃ xs, d = .array xs ∧ xs.length = n ∧ ∀ i p sp, i < n → slotAfter i cs none = some p → p.spec? = some sp →
        ∃ x, d.step (.index i) = some x ∧ Sat sp x) := by
  obtain ⟨slots, h1, h2, h3⟩ := setNth_spec cs (List.replicate n .null)
  have hs : ∀ i, i < n → slots[i]? = slotAfter i cs none := by
    intro i hi
    rw [h3 i (by simpa using hi)]
    exact slotAfter_none (hfull i hi) _ _
  simp only [List.length_replicate] at h2
  obtain ⟨r, hr⟩ := specs?_of (ps := slots) (by
    intro p hm
    obtain ⟨i, hi⟩ := List.getElem?_of_mem hm
    have hin : i < n := by rw [← h2]; exact (List.getElem?_eq_some_iff.mp hi).1
    rw [hs i hin] at hi
    rcases slotAfter_mem hi with h | h
    · cases h
    · exact hset i p h)
  rw [Pat.newArrayN, h1]
  obtain ⟨b, e1, e2⟩ := matches_sat (.array slots true) (sp := .array r) (by simp [Pat.spec?, hr]) ho
  refine ⟨b, e1, e2.trans ?_⟩
  have hl := specs?_length hr
  simp only [Sat, satFrom_iff hr, Nat.zero_add]
  constructor
  · rintro ⟨xs, rfl, a, c⟩
    exact ⟨xs, rfl, by omega, fun i p sp hi h hsp => c i p sp (by rw [hs i hi]; exact h) hsp⟩
  · rintro ⟨xs, rfl, a, c⟩
    refine ⟨xs, rfl, by omega, fun i p sp h hsp => ?_⟩
    have hin : i < n := by rw [← h2]; exact (List.getElem?_eq_some_iff.mp h).1
    exact c i p sp hin (by rw [← hs i hin]; exact h) hsp

/-- C42: a default-constructed array pattern matches exactly the arrays, also after calls of `setNthPattern`, which it ignores. -/
theorem C42_default_array_pattern (cs : List (Nat × Pat)) (o : Obj) (d : Doc) (ho : o.doc? = some d) :
    ∃ b, (cs.foldl (fun (q : Pat) (c : Nat × Pat) => q.setNth c.1 c.2) Pat.newArray).matches o = .ok b ∧ (b = true ↔ ∃ xs, d = .array xs) := by
  have : cs.foldl (fun (q : Pat) (c : Nat × Pat) => q.setNth c.1 c.2) Pat.newArray = Pat.newArray := by
    induction cs with
    | nil => rfl
    | cons c cs ih => simpa [List.foldl_cons, Pat.newArray, Pat.setNth] using ih
  rw [this]
  obtain ⟨b, h1, h2⟩ := matches_sat .newArray (sp := .anyArray) (by rfl) ho
  exact ⟨b, h1, h2.trans (by simp [Sat])⟩

/-- C42: `OrPattern` and `AndPattern` into which patterns were pushed. -/
theorem C42_or_and (ps : List Pat) (hset : ∀ p, p ∈ ps → ∃ sp, p.spec? = some sp) (o : Obj) (d : Doc) (ho : o.doc? = some d) :
    (∃ b, (ps.foldl Pat.push (.or [])).matches o = .ok b ∧ (b = true ↔ ∃ p sp, p ∈ ps ∧ p.spec? = some sp ∧ Sat sp d)) ∧
    (∃ b, (ps.foldl Pat.push (.and [])).matches o = .ok b ∧ (b = true ↔ ∀ p sp, p ∈ ps → p.spec? = some sp → Sat sp d)) := by
  have e1 : ∀ (l acc : List Pat), l.foldl Pat.push (.or acc) = .or (acc ++ l) := by
    intro l; induction l with
    | nil => simp
    | cons a l ih => intro acc; simp [Pat.push, ih]
  have e2 : ∀ (l acc : List Pat), l.foldl Pat.push (.and acc) = .and (acc ++ l) := by
    intro l; induction l with
    | nil => simp
    | cons a l ih => intro acc; simp [Pat.push, ih]
  obtain ⟨r, hr⟩ := specs?_of hset
  have k1 : ∀ (l : List Pat) (r : List Pattern), specs? l = some r →
      (SatSome r d ↔ ∃ p sp, p ∈ l ∧ p.spec? = some sp ∧ Sat sp d) := by
    intro l; induction l with
    | nil => intro r h; simp [specs?] at h; subst h; simp [SatSome]
    | cons p l ih =>
      intro r h
      obtain ⟨s, ss, rfl, h1, h2⟩ := specs?_cons h
      simp only [SatSome, ih ss h2, List.mem_cons]
      constructor
      · rintro (h | ⟨p', sp, a, b, c⟩)
        · exact ⟨p, s, .inl rfl, h1, h⟩
        · exact ⟨p', sp, .inr a, b, c⟩
      · rintro ⟨p', sp, a | a, b, c⟩
        · subst a; rw [h1] at b; cases b; exact .inl c
        · exact .inr ⟨p', sp, a, b, c⟩
  have k2 : ∀ (l : List Pat) (r : List Pattern), specs? l = some r →
      (SatAll r d ↔ ∀ p sp, p ∈ l → p.spec? = some sp → Sat sp d) := by
    intro l; induction l with
    | nil => intro r h; simp [specs?] at h; subst h; simp [SatAll]
    | cons p l ih =>
      intro r h
      obtain ⟨s, ss, rfl, h1, h2⟩ := specs?_cons h
      simp only [SatAll, ih ss h2, List.mem_cons]
      constructor
      · rintro ⟨h0, h'⟩ p' sp (a | a) b
        · subst a; rw [h1] at b; cases b; exact h0
        · exact h' p' sp a b
      · intro h
        exact ⟨h p s (.inl rfl) h1, fun p' sp a b => h p' sp (.inr a) b⟩
  rw [e1, e2]
  simp only [List.nil_append]
  constructor
  · obtain ⟨b, h1, h2⟩ := matches_sat (.or ps) (sp := .anyOf r) (by simp [Pat.spec?, hr]) ho
    exact ⟨b, h1, h2.trans (k1 ps r hr)⟩
  · obtain ⟨b, h1, h2⟩ := matches_sat (.and ps) (sp := .allOf r) (by simp [Pat.spec?, hr]) ho
    exact ⟨b, h1, h2.trans (k2 ps r hr)⟩

/-- C42: a data pattern matches exactly the scalars, or those of the given type. -/
theorem C42_data_pattern (c : Option UInt8) (o : Obj) (d : Doc) (ho : o.doc? = some d) :
    ∃ b, (Pat.data c).matches o = .ok b ∧ (b = true ↔ ∃ s, d = .scalar s ∧ (c = none ∨ c = some s.code)) := by
  obtain ⟨b, h1, h2⟩ := matches_sat (.data c) (sp := .scalar c) (by simp [Pat.spec?]) ho
  refine ⟨b, h1, h2.trans ?_⟩
  simp only [Sat]
  constructor
  · rintro ⟨s, rfl, h⟩
    refine ⟨s, rfl, ?_⟩
    cases c with
    | none => exact .inl rfl
    | some c => exact .inr (by rw [h c rfl])
  · rintro ⟨s, rfl, h | h⟩
    · exact ⟨s, rfl, by simp [h]⟩
    · exact ⟨s, rfl, by rintro c rfl; simpa using h.symm⟩

/-- `{"k": [number, string], …}` with two entries: the pattern of the example. -/
def samplePat : Pat :=
  .map [([107], .array [.data (some BRIDGE_INT32), .or [.data (some BRIDGE_BYTES), .data (some BRIDGE_STRING)]] true)] (some 2)

example : (∃ sp, samplePat.spec? = some sp) ∧ samplePat.matches sampleObj = .ok true ∧
    (Pat.map [([107], .array [.data none] true)] none).matches sampleObj = .ok false ∧
    mapCalls [.setPattern [107] (.data none), .setSize 2, .setPattern [107] (.array [.data none, .data none] true)] .newMap
      (.map [([107], .array [.data none, .data none] true)] (some 2)) := by
  refine ⟨⟨_, rfl⟩, by decide +kernel, by decide +kernel, ?_⟩
  refine ⟨.map [([107], .data none)] none, ⟨_, rfl, by simp [Pat.newMap]⟩, .map [([107], .data none)] (some 2), rfl, _, ⟨_, rfl, ?_⟩, rfl⟩
  simp

/-! ### C43 -/

/-- C43: a pattern without unset slots gives the same answer before `Serialize` and after `Parse`, for both encodings, both
parsers, owning and in situ, if the document has no duplicate keys. -/
theorem C43_match_survives_round_trip (w r : Cfg) (hw : w.charSigned = true) (t : SeriType) (o : Obj) (d : Doc)
    (hd : o.doc? = some d) (hh : Writable w o) (hk : d.DistinctKeys) (ref : Bool) (hc : ref = true → d.noCustom = true)
    (co : Bool) (k : Nat) (hk0 : 0 < k) :
    ∃ content, serialize w t o = .ok content ∧
      (Fits r content → ∃ o', Parses r ⟨co, ref, k⟩ content (.ok o') ∧
        ∀ (p : Pat) (sp : Pattern), p.spec? = some sp → p.matches o' = p.matches o) := by
  have key : ∀ {o' : Obj} {d' : Doc}, o'.doc? = some d' → d.Same d' → ∀ (p : Pat) (sp : Pattern), p.spec? = some sp →
      p.matches o' = p.matches o := by
    intro o' d' ho' hs p sp hp
    obtain ⟨b, h1, h2⟩ := matches_sat p hp hd
    obtain ⟨b', h1', h2'⟩ := matches_sat p hp ho'
    rw [h1, h1']
    congr 1
    exact Bool.eq_iff_iff.mpr (h2'.trans ((sat_same sp hs hk).symm.trans h2.symm))
  refine ⟨_, serialize_eq hw t hd hh, fun hf => ?_⟩
  cases co with
  | false =>
    obtain ⟨o1, h1, h2, _⟩ := parses_normal (extra := []) (by simpa using hf) ref hc k
    exact ⟨o1, by simpa using h1, key h2 (same_revMaps d)⟩
  | true =>
    obtain ⟨o1, d1, h1, h2, h3, _⟩ := parses_co (extra := []) (by simpa using hf) ref hc hk0
    exact ⟨o1, by simpa using h1, key h2 h3⟩

/-- C43: without the assumption on keys it is false: the pattern that requires a number under a key held by a number and by a
string matches before, but not after a default round trip. -/
theorem C43_duplicate_keys_differ :
    let o : Obj := .map false .caller 2 [(⟨[97], none⟩, .data false BRIDGE_INT32 (.i32 2)),
      (⟨[97], none⟩, .data false BRIDGE_STRING (.str [98]))]
    let p : Pat := .map [([97], .data (some BRIDGE_INT32))] none
    p.matches o = .ok true ∧
      (do let c ← serialize Cfg.x86 .normal o; let o' ← parse Cfg.x86 {} 50 c; p.matches o') = .ok false := by decide +kernel

/-! ### C44 -/

/-- C44 is false: a fresh `ArrayPattern(n)`, `n ≥ 1`, matched against any array of `n` elements dereferences a null pointer. -/
theorem C44_fresh_array_pattern_faults (n : Nat) (hn : 0 < n) (o : Obj) (xs : List Doc) (ho : o.doc? = some (.array xs))
    (hl : xs.length = n) : (Pat.newArrayN n).matches o = .error (.ub .nullDeref) := by
  cases o with
  | null => simp [Obj.doc?] at ho
  | data r dt p => obtain ⟨s, h, _⟩ := data_doc ho; cases h
  | map ref pool m items => obtain ⟨es, h, _⟩ := map_doc ho; cases h
  | array pool m items =>
    obtain ⟨xs', h, hm, hx⟩ := array_doc ho
    cases h
    have hlen := docs?_length hx
    obtain ⟨n, rfl⟩ : ∃ k, n = k + 1 := ⟨n - 1, by omega⟩
    rw [Pat.newArrayN, Pat.matches, if_neg (by simp; omega), List.replicate_succ, matchSlots_cons]
    rcases arrayGet_doc (a := ⟨pool, m, items⟩) hm hx 0 with ⟨e, _⟩ | ⟨x, _, e⟩
    · rw [List.getElem?_eq_none_iff] at e; simp at e; subst e; simp at hl
    · rw [if_neg (doc_ne_null e), Pat.matches, error_bind]

/-- C44: exactly when an array pattern with unset slots faults.  Let `i` be the first unset slot: the match faults if the array has the
required length and its first `i` elements satisfy their patterns, and otherwise it returns false. -/
theorem C44_first_unset_slot (ps rest : List Pat) (sps : List Pattern) (hps : specs? ps = some sps) (o : Obj) (d : Doc)
    (ho : o.doc? = some d) :
    ((∃ xs, d = .array xs ∧ xs.length = ps.length + 1 + rest.length ∧
        ∀ (i : Nat) (sp : Pattern), sps[i]? = some sp → ∃ x, d.step (.index i) = some x ∧ Sat sp x) →
      (Pat.array (ps ++ .null :: rest) true).matches o = .error (.ub .nullDeref)) ∧
    (¬ (∃ xs, d = .array xs ∧ xs.length = ps.length + 1 + rest.length ∧
        ∀ (i : Nat) (sp : Pattern), sps[i]? = some sp → ∃ x, d.step (.index i) = some x ∧ Sat sp x) →
      (Pat.array (ps ++ .null :: rest) true).matches o = .ok false) := by
  cases o with
  | null => simp [Obj.doc?] at ho
  | data r dt p => obtain ⟨s, rfl, _⟩ := data_doc ho; simp [Pat.matches]
  | map ref pool m items => obtain ⟨es, rfl, _⟩ := map_doc ho; simp [Pat.matches]
  | array pool m items =>
    obtain ⟨xs, rfl, hm, hx⟩ := array_doc ho
    have hlen := docs?_length hx
    have loop : ∀ (l : List Pat) (sl : List Pattern) (i : Nat), specs? l = some sl → i + l.length < xs.length →
        ((∀ (j : Nat) (sp : Pattern), sl[j]? = some sp → ∃ x, (Doc.array xs).step (.index (i + j)) = some x ∧ Sat sp x) →
          matchSlots (l ++ .null :: rest) i ⟨pool, m, items⟩ = .error (.ub .nullDeref)) ∧
        (¬ (∀ (j : Nat) (sp : Pattern), sl[j]? = some sp → ∃ x, (Doc.array xs).step (.index (i + j)) = some x ∧ Sat sp x) →
          matchSlots (l ++ .null :: rest) i ⟨pool, m, items⟩ = .ok false) := by
      intro l
      induction l with
      | nil =>
        intro sl i hs hi
        simp [specs?] at hs; subst hs
        refine ⟨fun _ => ?_, fun h => by simp at h⟩
        rw [List.nil_append, matchSlots_cons]
        rcases arrayGet_doc (a := ⟨pool, m, items⟩) hm hx i with ⟨e, _⟩ | ⟨x, _, e⟩
        · rw [List.getElem?_eq_none_iff] at e; simp at e hi; omega
        · rw [if_neg (doc_ne_null e), Pat.matches, error_bind]
      | cons p l ih =>
        intro sl i hs hi
        obtain ⟨s, ss, rfl, h1, h2⟩ := specs?_cons hs
        simp only [List.length_cons] at hi
        obtain ⟨i1, i2⟩ := ih ss (i + 1) h2 (by omega)
        rw [List.cons_append, matchSlots_cons]
        rcases arrayGet_doc (a := ⟨pool, m, items⟩) hm hx i with ⟨e, _⟩ | ⟨x, e0, e⟩
        · rw [List.getElem?_eq_none_iff] at e; simp at e; omega
        · rw [if_neg (doc_ne_null e)]
          obtain ⟨b, hb, hbs⟩ := matches_sat p h1 e
          rw [hb, ok_bind]
          have split_ : (∀ (j : Nat) (sp : Pattern), (s :: ss)[j]? = some sp →
                ∃ x, (Doc.array xs).step (.index (i + j)) = some x ∧ Sat sp x) ↔
              Sat s x ∧ ∀ (j : Nat) (sp : Pattern), ss[j]? = some sp →
                ∃ x, (Doc.array xs).step (.index (i + 1 + j)) = some x ∧ Sat sp x := by
            constructor
            · intro h
              refine ⟨?_, fun j sp hj => ?_⟩
              · obtain ⟨x', a, c⟩ := h 0 s (by simp)
                simp only [Doc.step, Nat.add_zero, e0, Option.some.injEq] at a
                subst a; exact c
              · have := h (j + 1) sp (by simpa using hj)
                rwa [show i + (j + 1) = i + 1 + j by omega] at this
            · rintro ⟨h, h'⟩ j sp hj
              cases j with
              | zero => simp at hj; subst hj; exact ⟨x, by simpa [Doc.step] using e0, h⟩
              | succ j =>
                have := h' j sp (by simpa using hj)
                rwa [show i + (j + 1) = i + 1 + j by omega]
          cases b with
          | false =>
            have hns : ¬ Sat s x := fun h => absurd (hbs.mpr h) (by simp)
            refine ⟨fun h => absurd (split_.mp h).1 hns, fun _ => rfl⟩
          | true =>
            have hss := hbs.mp rfl
            simp only [Bool.true_eq_false, if_false]
            exact ⟨fun h => i1 (split_.mp h).2, fun h => i2 (fun h' => h (split_.mpr ⟨hss, h'⟩))⟩
    simp only [Pat.matches]
    by_cases hl : xs.length = ps.length + 1 + rest.length
    · obtain ⟨l1, l2⟩ := loop ps sps 0 hps (by omega)
      simp only [Nat.zero_add] at l1 l2
      rw [if_neg (by simp; omega)]
      refine ⟨?_, fun h => l2 (fun h' => h ⟨xs, rfl, hl, h'⟩)⟩
      rintro ⟨xs', h, _, hs⟩
      exact l1 hs
    · rw [if_pos (by simp; omega)]
      refine ⟨?_, fun _ => rfl⟩
      rintro ⟨xs', h, h2, _⟩
      cases h
      exact absurd h2 hl

example : (Pat.newArrayN 2).matches (.array .caller 2 [.data false BRIDGE_INT32 (.i32 1), .data false BRIDGE_INT32 (.i32 2)]) =
      .error (.ub .nullDeref) ∧
    ((Pat.newArrayN 2).setNth 0 (.data (some BRIDGE_STRING))).matches
        (.array .caller 2 [.data false BRIDGE_INT32 (.i32 1), .data false BRIDGE_INT32 (.i32 2)]) = .ok false ∧
    ((Pat.newArrayN 2).setNth 0 (.data none)).matches
        (.array .caller 2 [.data false BRIDGE_INT32 (.i32 1), .data false BRIDGE_INT32 (.i32 2)]) = .error (.ub .nullDeref) := by
  decide +kernel

/-! ### C54 -/

/-- The patterns a pattern object owns. -/
def Pat.children : Pat → List Pat
  | .map kvs _ => kvs.map Prod.snd
  | .array slots _ => slots
  | .or ps => ps
  | .and ps => ps
  | _ => []

/-- C54 is false: destroying a pattern that owns another pattern is undefined, because `Pattern` has no virtual destructor; only
patterns that own none can be destroyed. -/
theorem C54_destroying_a_nested_pattern_faults (p : Pat) :
    (p.destroy = .ok () ↔ ∀ q, q ∈ p.children → q = .null) ∧
    ((∃ q, q ∈ p.children ∧ q ≠ .null) → p.destroy = .error (.ub .deleteThroughBase)) := by
  have key : ∀ l : List Pat, (deleteAll l = .ok () ↔ ∀ q, q ∈ l → q = .null) ∧
      ((∃ q, q ∈ l ∧ q ≠ .null) → deleteAll l = .error (.ub .deleteThroughBase)) := by
    intro l
    induction l with
    | nil => simp [deleteAll]
    | cons q l ih =>
      by_cases hq : q = .null
      · subst hq
        simp only [deleteAll, List.mem_cons, forall_eq_or_imp, true_and]
        refine ⟨ih.1, ?_⟩
        rintro ⟨q, rfl | h, hn⟩
        · exact absurd rfl hn
        · exact ih.2 ⟨q, h, hn⟩
      · have e : deleteAll (q :: l) = .error (.ub .deleteThroughBase) := by
          cases q <;> simp_all [deleteAll]
        rw [e]
        refine ⟨⟨fun h => by simp at h, fun h => absurd (h q (by simp)) hq⟩, fun _ => rfl⟩
  cases p with
  | null => simp [Pat.destroy, Pat.children]
  | data c => simp [Pat.destroy, Pat.children]
  | map kvs s => exact key _
  | array s f => exact key _
  | or s => exact key _
  | and s => exact key _

example : ((Pat.or []).push (.data none)).destroy = .error (.ub .deleteThroughBase) ∧ (Pat.newArrayN 3).destroy = .ok () := by
  decide +kernel

end Bridge
