import Verif.Model.Pattern
import Verif.Spec.Pattern
import Verif.Proof.Same
import Verif.Proof.ObjEq
/-
Pattern matching.
-/
set_option autoImplicit false
namespace Bridge
open Spec

mutual
/-- The pattern a pattern object stands for; `none` if some slot was never set. -/
def Pat.spec? : Pat → Option Pattern
  | .null => none
  | .map kvs size => (specKvs? kvs).map fun r => .map r size
  | .array slots true => (specs? slots).map .array
  | .array slots false => if slots.isEmpty then some .anyArray else none
  | .data dt => some (.scalar dt)
  | .or ps => (specs? ps).map .anyOf
  | .and ps => (specs? ps).map .allOf
/-- `spec?` of every element. -/
def specs? : List Pat → Option (List Pattern)
  | [] => some []
  | p :: ps => do
    let s ← p.spec?
    let ss ← specs? ps
    pure (s :: ss)
/-- `spec?` of every value. -/
def specKvs? : List (Bytes × Pat) → Option (List (Bytes × Pattern))
  | [] => some []
  | (k, p) :: ps => do
    let s ← p.spec?
    let ss ← specKvs? ps
    pure ((k, s) :: ss)
end

theorem specs?_cons {p : Pat} {ps : List Pat} {l : List Pattern} (h : specs? (p :: ps) = some l) :
    ∃ s ss, l = s :: ss ∧ p.spec? = some s ∧ specs? ps = some ss := by
  simp only [specs?, bind, Option.bind, pure] at h
  cases hp : p.spec? with
  | none => simp [hp] at h
  | some s =>
    simp only [hp] at h
    cases hs : specs? ps with
    | none => simp [hs] at h
    | some ss => simp only [hs, Option.some.injEq] at h; exact ⟨s, ss, h.symm, rfl, rfl⟩

theorem specKvs?_cons {k : Bytes} {p : Pat} {ps : List (Bytes × Pat)} {l : List (Bytes × Pattern)}
    (h : specKvs? ((k, p) :: ps) = some l) : ∃ s ss, l = (k, s) :: ss ∧ p.spec? = some s ∧ specKvs? ps = some ss := by
  simp only [specKvs?, bind, Option.bind, pure] at h
  cases hp : p.spec? with
  | none => simp [hp] at h
  | some s =>
    simp only [hp] at h
    cases hs : specKvs? ps with
    | none => simp [hs] at h
    | some ss => simp only [hs, Option.some.injEq] at h; exact ⟨s, ss, h.symm, rfl, rfl⟩

theorem specs?_length {ps : List Pat} {l : List Pattern} (h : specs? ps = some l) : l.length = ps.length := by
  induction ps generalizing l with
  | nil => simp [specs?] at h; subst h; rfl
  | cons p ps ih => obtain ⟨s, ss, rfl, _, h2⟩ := specs?_cons h; simp [ih h2]

theorem scalarOf_code {ref : Bool} {dt : UInt8} {p : Payload} {s : Scalar} (h : scalarOf ref dt p = some s) : s.code = dt := by
  cases p <;> simp only [scalarOf] at h <;> repeat' (split at h) 
  all_goals first
    | (simp at h; done)
    | (simp only [Option.some.injEq] at h; subst h; simp_all [Scalar.code, BRIDGE_BYTES, BRIDGE_STRING, BRIDGE_INT32,
        BRIDGE_UINT32, BRIDGE_INT64, BRIDGE_UINT64, BRIDGE_FLOAT, BRIDGE_DOUBLE, BRIDGE_CUSTOM]; done)
    | (simp only [Option.some.injEq] at h; subst h; rename_i e; simp only [Bool.and_eq_true, Bool.not_eq_true'] at e; exact (of_decide_eq_true e.2).symm)

theorem doc_ne_null {o : Obj} {d : Doc} (h : o.doc? = some d) : o ≠ .null := by
  rintro rfl; simp [Obj.doc?] at h

theorem arrayGet_doc {a : ArrayS} {xs : List Doc} (hs : a.size = a.items.length) (h : docs? a.items = some xs) (i : Nat) :
    (xs.reverse[i]? = none ∧ a.get i = .null) ∨ ∃ x, xs.reverse[i]? = some x ∧ (a.get i).doc? = some x := by
  obtain ⟨pool, size, items⟩ := a
  have hw := wStep_doc (o := .array pool size items) (d := .array xs)
    (by simp only [Obj.doc?]; simp only at hs h; rw [if_pos hs, h]; rfl) (.index i)
  simpa [Doc.step, Obj.wPath, Obj.wIdx] using hw

theorem matchKvs_cons {k : Bytes} {p : Pat} {kvs : List (Bytes × Pat)} {items : List (Str × Obj)} :
    matchKvs ((k, p) :: kvs) items =
      if findKey k items = .null then .ok false
      else (p.matches (findKey k items)) >>= fun b => if b = false then .ok false else matchKvs kvs items := by
  simp only [matchKvs]
  split
  · rename_i h; rw [if_pos h]
  · rename_i h; rw [if_neg (by intro e; exact h e)]; rfl

theorem matchSlots_cons {p : Pat} {ps : List Pat} {i : Nat} {a : ArrayS} :
    matchSlots (p :: ps) i a =
      if a.get i = .null then .ok false
      else (p.matches (a.get i)) >>= fun b => if b = false then .ok false else matchSlots ps (i + 1) a := by
  simp only [matchSlots]
  split
  · rename_i h; rw [if_pos h]
  · rename_i h; rw [if_neg (by intro e; exact h e)]; rfl

mutual
/-- `Match` decides `Sat`. -/
theorem matches_sat : ∀ (p : Pat) {sp : Pattern} {o : Obj} {d : Doc}, p.spec? = some sp → o.doc? = some d →
    ∃ b, p.matches o = .ok b ∧ (b = true ↔ Sat sp d)
  | .null, sp, o, d, hp, ho => by simp [Pat.spec?] at hp
  | .map kvs size, sp, o, d, hp, ho => by
    simp only [Pat.spec?, Option.map_eq_some_iff] at hp
    obtain ⟨r, hr, rfl⟩ := hp
    cases o with
    | null => simp [Obj.doc?] at ho
    | data ref dt p =>
      obtain ⟨s, rfl, _⟩ := data_doc ho
      exact ⟨false, by simp [Pat.matches], by simp [Sat]⟩
    | array pool n items =>
      obtain ⟨xs, rfl, _⟩ := array_doc ho
      exact ⟨false, by simp [Pat.matches], by simp [Sat]⟩
    | map ref pool n items =>
      obtain ⟨es, rfl, hn, he⟩ := map_doc ho
      have hlen : es.length = n := by rw [hn]; exact (entries?_length he)
      obtain ⟨b, hb, hs⟩ := matchKvs_sat kvs (d := .map es) hr he rfl
      simp only [Pat.matches]
      split
      · rename_i hsz
        refine ⟨false, rfl, ?_⟩
        simp only [Bool.false_eq_true, false_iff]
        rintro ⟨es', h1, h2, _⟩
        cases h1
        cases size with
        | none => simp at hsz
        | some m => simp [← hlen] at hsz; exact hsz (h2 m rfl).symm
      · rename_i hsz
        refine ⟨b, hb, hs.trans ⟨fun h => ⟨es, rfl, ?_, h⟩, fun ⟨_, _, _, h⟩ => h⟩⟩
        rintro m rfl
        simp at hsz
        omega
  | .array slots fixed, sp, o, d, hp, ho => by
    cases fixed with
    | false =>
      simp only [Pat.spec?] at hp
      split at hp
      · rename_i he
        simp only [Option.some.injEq] at hp
        subst hp
        cases slots with
        | cons _ _ => simp at he
        | nil =>
          cases o with
          | null => simp [Obj.doc?] at ho
          | data ref dt p =>
            obtain ⟨s, rfl, _⟩ := data_doc ho
            exact ⟨false, by simp [Pat.matches], by simp [Sat]⟩
          | map ref pool n items =>
            obtain ⟨es, rfl, _⟩ := map_doc ho
            exact ⟨false, by simp [Pat.matches], by simp [Sat]⟩
          | array pool n items =>
            obtain ⟨xs, rfl, _⟩ := array_doc ho
            exact ⟨true, by simp [Pat.matches, matchSlots], by simp [Sat]⟩
      · simp at hp
    | true =>
      simp only [Pat.spec?, Option.map_eq_some_iff] at hp
      obtain ⟨r, hr, rfl⟩ := hp
      cases o with
      | null => simp [Obj.doc?] at ho
      | data ref dt p =>
        obtain ⟨s, rfl, _⟩ := data_doc ho
        exact ⟨false, by simp [Pat.matches], by simp [Sat]⟩
      | map ref pool n items =>
        obtain ⟨es, rfl, _⟩ := map_doc ho
        exact ⟨false, by simp [Pat.matches], by simp [Sat]⟩
      | array pool n items =>
        obtain ⟨xs, rfl, hn, hx⟩ := array_doc ho
        have hlen : xs.length = n := by rw [hn]; exact docs?_length hx
        have hl := specs?_length hr
        obtain ⟨b, hb, hs⟩ := matchSlots_sat slots 0 (a := ⟨pool, n, items⟩) (d := .array xs) hr hn hx rfl
        simp only [Pat.matches]
        split
        · rename_i hsz
          refine ⟨false, rfl, ?_⟩
          simp only [Bool.false_eq_true, false_iff]
          rintro ⟨xs', h1, h2, _⟩
          cases h1
          simp at hsz
          omega
        · rename_i hsz
          simp at hsz
          exact ⟨b, hb, hs.trans ⟨fun h => ⟨xs, rfl, by omega, h⟩, fun ⟨_, _, _, h⟩ => h⟩⟩
  | .data dt, sp, o, d, hp, ho => by
    simp only [Pat.spec?, Option.some.injEq] at hp
    subst hp
    cases o with
    | null => simp [Obj.doc?] at ho
    | array pool n items =>
      obtain ⟨xs, rfl, _⟩ := array_doc ho
      exact ⟨false, by simp [Pat.matches], by simp [Sat]⟩
    | map ref pool n items =>
      obtain ⟨es, rfl, _⟩ := map_doc ho
      exact ⟨false, by simp [Pat.matches], by simp [Sat]⟩
    | data ref dt' p =>
      obtain ⟨s, rfl, hs⟩ := data_doc ho
      have hc : s.code = dt' := scalarOf_code hs
      simp only [Pat.matches]
      split
      · rename_i h
        refine ⟨false, rfl, ?_⟩
        simp only [Bool.false_eq_true, false_iff]
        rintro ⟨s', h1, h2⟩
        cases h1
        cases dt with
        | none => simp at h
        | some c => simp at h; exact h (by rw [← h2 c rfl, hc])
      · rename_i h
        refine ⟨true, rfl, ?_⟩
        simp only [true_iff]
        refine ⟨s, rfl, ?_⟩
        rintro c rfl
        simp at h
        rw [hc, h]
  | .or ps, sp, o, d, hp, ho => by
    simp only [Pat.spec?, Option.map_eq_some_iff] at hp
    obtain ⟨r, hr, rfl⟩ := hp
    simpa only [Pat.matches, Sat] using matchOr_sat ps hr ho
  | .and ps, sp, o, d, hp, ho => by
    simp only [Pat.spec?, Option.map_eq_some_iff] at hp
    obtain ⟨r, hr, rfl⟩ := hp
    simpa only [Pat.matches, Sat] using matchAnd_sat ps hr ho
theorem matchKvs_sat : ∀ (kvs : List (Bytes × Pat)) {r : List (Bytes × Pattern)} {items : List (Str × Obj)}
    {es : List (Bytes × Doc)} {d : Doc}, specKvs? kvs = some r → entries? items = some es → d = .map es →
    ∃ b, matchKvs kvs items = .ok b ∧ (b = true ↔ SatKeys r d)
  | [], r, items, es, d, hp, ho, hd => by
    simp only [specKvs?, Option.some.injEq] at hp
    subst hp
    exact ⟨true, by simp [matchKvs], by simp [SatKeys]⟩
  | (k, p) :: kvs, r, items, es, d, hp, ho, hd => by
    obtain ⟨s, ss, rfl, h1, h2⟩ := specKvs?_cons hp
    subst hd
    rw [matchKvs_cons]
    rcases findKey_doc ho k with ⟨e1, e2⟩ | ⟨x, e1, e2⟩
    · rw [if_pos e2]
      exact ⟨false, rfl, by simp [SatKeys, Doc.step, e1]⟩
    · rw [if_neg (doc_ne_null e2)]
      obtain ⟨b, hb, hs⟩ := matches_sat p h1 e2
      obtain ⟨b', hb', hs'⟩ := matchKvs_sat kvs (d := .map es) h2 ho rfl
      rw [hb, ok_bind]
      cases b with
      | false =>
        exact ⟨false, rfl, by simpa [SatKeys, Doc.step, e1] using fun h => absurd (hs.mpr h) (by simp)⟩
      | true =>
        refine ⟨b', by simpa using hb', hs'.trans ?_⟩
        have := hs.mp rfl
        simp [SatKeys, Doc.step, e1, this]
theorem matchSlots_sat : ∀ (ps : List Pat) (i : Nat) {r : List Pattern} {a : ArrayS} {xs : List Doc} {d : Doc},
    specs? ps = some r → a.size = a.items.length → docs? a.items = some xs → d = .array xs →
    ∃ b, matchSlots ps i a = .ok b ∧ (b = true ↔ SatFrom r i d)
  | [], i, r, a, xs, d, hp, hn, ho, hd => by
    simp only [specs?, Option.some.injEq] at hp
    subst hp
    exact ⟨true, by simp [matchSlots], by simp [SatFrom]⟩
  | p :: ps, i, r, a, xs, d, hp, hn, ho, hd => by
    obtain ⟨s, ss, rfl, h1, h2⟩ := specs?_cons hp
    subst hd
    rw [matchSlots_cons]
    rcases arrayGet_doc hn ho i with ⟨e1, e2⟩ | ⟨x, e1, e2⟩
    · rw [if_pos e2]
      exact ⟨false, rfl, by simp [SatFrom, Doc.step, e1]⟩
    · rw [if_neg (doc_ne_null e2)]
      obtain ⟨b, hb, hs⟩ := matches_sat p h1 e2
      obtain ⟨b', hb', hs'⟩ := matchSlots_sat ps (i + 1) (a := a) (d := .array xs) h2 hn ho rfl
      rw [hb, ok_bind]
      cases b with
      | false =>
        exact ⟨false, rfl, by simpa [SatFrom, Doc.step, e1] using fun h => absurd (hs.mpr h) (by simp)⟩
      | true =>
        refine ⟨b', by simpa using hb', hs'.trans ?_⟩
        have := hs.mp rfl
        simp [SatFrom, Doc.step, e1, this]
theorem matchOr_sat : ∀ (ps : List Pat) {r : List Pattern} {o : Obj} {d : Doc}, specs? ps = some r → o.doc? = some d →
    ∃ b, matchOr ps o = .ok b ∧ (b = true ↔ SatSome r d)
  | [], r, o, d, hp, ho => by
    simp only [specs?, Option.some.injEq] at hp
    subst hp
    exact ⟨false, by simp [matchOr], by simp [SatSome]⟩
  | p :: ps, r, o, d, hp, ho => by
    obtain ⟨s, ss, rfl, h1, h2⟩ := specs?_cons hp
    obtain ⟨b, hb, hs⟩ := matches_sat p h1 ho
    obtain ⟨b', hb', hs'⟩ := matchOr_sat ps h2 ho
    simp only [matchOr, hb, ok_bind, SatSome]
    cases b with
    | true => exact ⟨true, rfl, by simp [hs.mp rfl]⟩
    | false =>
      refine ⟨b', by simpa using hb', hs'.trans ?_⟩
      have : ¬ Sat s d := fun h => absurd (hs.mpr h) (by simp)
      simp [this]
theorem matchAnd_sat : ∀ (ps : List Pat) {r : List Pattern} {o : Obj} {d : Doc}, specs? ps = some r → o.doc? = some d →
    ∃ b, matchAnd ps o = .ok b ∧ (b = true ↔ SatAll r d)
  | [], r, o, d, hp, ho => by
    simp only [specs?, Option.some.injEq] at hp
    subst hp
    exact ⟨true, by simp [matchAnd], by simp [SatAll]⟩
  | p :: ps, r, o, d, hp, ho => by
    obtain ⟨s, ss, rfl, h1, h2⟩ := specs?_cons hp
    obtain ⟨b, hb, hs⟩ := matches_sat p h1 ho
    obtain ⟨b', hb', hs'⟩ := matchAnd_sat ps h2 ho
    simp only [matchAnd, hb, ok_bind, SatAll]
    cases b with
    | false =>
      refine ⟨false, rfl, ?_⟩
      have : ¬ Sat s d := fun h => absurd (hs.mpr h) (by simp)
      simp [this]
    | true =>
      refine ⟨b', by simpa using hb', hs'.trans ?_⟩
      simp [hs.mp rfl]
end

/-! ### No faults on any tree -/

mutual
theorem matches_total : ∀ (p : Pat) {sp : Pattern} {o : Obj}, p.spec? = some sp → o ≠ .null → ∃ b, p.matches o = .ok b
  | .null, sp, o, hp, ho => by simp [Pat.spec?] at hp
  | .map kvs size, sp, o, hp, ho => by
    simp only [Pat.spec?, Option.map_eq_some_iff] at hp
    obtain ⟨r, hr, rfl⟩ := hp
    cases o with
    | null => simp at ho
    | data ref dt p => exact ⟨false, by simp [Pat.matches]⟩
    | array pool n items => exact ⟨false, by simp [Pat.matches]⟩
    | map ref pool n items =>
      simp only [Pat.matches]
      split
      · exact ⟨_, rfl⟩
      · exact matchKvs_total kvs hr
  | .array slots fixed, sp, o, hp, ho => by
    cases o with
    | null => simp at ho
    | data ref dt p => exact ⟨false, by simp [Pat.matches]⟩
    | map ref pool n items => exact ⟨false, by simp [Pat.matches]⟩
    | array pool n items =>
      simp only [Pat.matches]
      split
      · exact ⟨_, rfl⟩
      · cases fixed with
        | true =>
          simp only [Pat.spec?, Option.map_eq_some_iff] at hp
          obtain ⟨r, hr, rfl⟩ := hp
          exact matchSlots_total slots 0 hr
        | false =>
          simp only [Pat.spec?] at hp
          split at hp
          · cases slots with
            | nil => exact ⟨true, by simp [matchSlots]⟩
            | cons _ _ => simp at *
          · simp at hp
  | .data dt, sp, o, hp, ho => by
    cases o with
    | null => simp at ho
    | data ref dt' p => simp only [Pat.matches]; split <;> exact ⟨_, rfl⟩
    | map ref pool n items => exact ⟨false, by simp [Pat.matches]⟩
    | array pool n items => exact ⟨false, by simp [Pat.matches]⟩
  | .or ps, sp, o, hp, ho => by
    simp only [Pat.spec?, Option.map_eq_some_iff] at hp
    obtain ⟨r, hr, rfl⟩ := hp
    simpa only [Pat.matches] using matchOr_total ps hr ho
  | .and ps, sp, o, hp, ho => by
    simp only [Pat.spec?, Option.map_eq_some_iff] at hp
    obtain ⟨r, hr, rfl⟩ := hp
    simpa only [Pat.matches] using matchAnd_total ps hr ho
theorem matchKvs_total : ∀ (kvs : List (Bytes × Pat)) {r : List (Bytes × Pattern)} {items : List (Str × Obj)},
    specKvs? kvs = some r → ∃ b, matchKvs kvs items = .ok b
  | [], r, items, hp => ⟨true, by simp [matchKvs]⟩
  | (k, p) :: kvs, r, items, hp => by
    obtain ⟨s, ss, rfl, h1, h2⟩ := specKvs?_cons hp
    rw [matchKvs_cons]
    split
    · exact ⟨_, rfl⟩
    · rename_i h
      obtain ⟨b, hb⟩ := matches_total p h1 h
      rw [hb, ok_bind]
      split
      · exact ⟨_, rfl⟩
      · exact matchKvs_total kvs h2
theorem matchSlots_total : ∀ (ps : List Pat) (i : Nat) {r : List Pattern} {a : ArrayS},
    specs? ps = some r → ∃ b, matchSlots ps i a = .ok b
  | [], i, r, a, hp => ⟨true, by simp [matchSlots]⟩
  | p :: ps, i, r, a, hp => by
    obtain ⟨s, ss, rfl, h1, h2⟩ := specs?_cons hp
    rw [matchSlots_cons]
    split
    · exact ⟨_, rfl⟩
    · rename_i h
      obtain ⟨b, hb⟩ := matches_total p h1 h
      rw [hb, ok_bind]
      split
      · exact ⟨_, rfl⟩
      · exact matchSlots_total ps (i + 1) h2
theorem matchOr_total : ∀ (ps : List Pat) {r : List Pattern} {o : Obj}, specs? ps = some r → o ≠ .null →
    ∃ b, matchOr ps o = .ok b
  | [], r, o, hp, ho => ⟨false, by simp [matchOr]⟩
  | p :: ps, r, o, hp, ho => by
    obtain ⟨s, ss, rfl, h1, h2⟩ := specs?_cons hp
    obtain ⟨b, hb⟩ := matches_total p h1 ho
    obtain ⟨b', hb'⟩ := matchOr_total ps h2 ho
    simp only [matchOr, hb, ok_bind]
    cases b
    · exact ⟨b', by simpa using hb'⟩
    · exact ⟨true, rfl⟩
theorem matchAnd_total : ∀ (ps : List Pat) {r : List Pattern} {o : Obj}, specs? ps = some r → o ≠ .null →
    ∃ b, matchAnd ps o = .ok b
  | [], r, o, hp, ho => ⟨true, by simp [matchAnd]⟩
  | p :: ps, r, o, hp, ho => by
    obtain ⟨s, ss, rfl, h1, h2⟩ := specs?_cons hp
    obtain ⟨b, hb⟩ := matches_total p h1 ho
    obtain ⟨b', hb'⟩ := matchAnd_total ps h2 ho
    simp only [matchAnd, hb, ok_bind]
    cases b
    · exact ⟨false, rfl⟩
    · exact ⟨b', by simpa using hb'⟩
end

/-! ### The order of map entries does not matter -/

mutual
theorem sat_same : ∀ (p : Pattern) {d d' : Doc}, d.Same d' → d.DistinctKeys → (Sat p d ↔ Sat p d')
  | .map r size, d, d', h, hk => by
    have hs := satKeys_same r h hk
    cases d with
    | scalar s => simp only [Doc.Same] at h; subst h; exact Iff.rfl
    | array xs => simp only [Doc.Same] at h; obtain ⟨ys, rfl, _⟩ := h; simp [Sat]
    | map es =>
      have hz := same_size h
      simp only [Doc.Same] at h
      obtain ⟨es', es'', rfl, _⟩ := h
      simp only [docSize, Option.some.injEq] at hz
      simp only [Sat, Doc.map.injEq, exists_eq_left', hs, hz]
  | .anyArray, d, d', h, hk => by
    have := same_type h
    cases d <;> cases d' <;> simp_all [Sat, docType]
  | .array ps, d, d', h, hk => by
    have hs := satFrom_same ps 0 h hk
    cases d with
    | scalar s => simp only [Doc.Same] at h; subst h; exact Iff.rfl
    | map xs => simp only [Doc.Same] at h; obtain ⟨ys, _, rfl, _⟩ := h; simp [Sat]
    | array es =>
      have hz := same_size h
      simp only [Doc.Same] at h
      obtain ⟨es', rfl, _⟩ := h
      simp only [docSize, Option.some.injEq] at hz
      simp only [Sat, Doc.array.injEq, exists_eq_left', hs, hz]
  | .scalar c, d, d', h, hk => by
    cases d with
    | scalar s => simp only [Doc.Same] at h; subst h; exact Iff.rfl
    | array xs => simp only [Doc.Same] at h; obtain ⟨ys, rfl, _⟩ := h; simp [Sat]
    | map xs => simp only [Doc.Same] at h; obtain ⟨ys, _, rfl, _⟩ := h; simp [Sat]
  | .anyOf ps, d, d', h, hk => by simpa only [Sat] using satSome_same ps h hk
  | .allOf ps, d, d', h, hk => by simpa only [Sat] using satAll_same ps h hk
theorem satKeys_same : ∀ (r : List (Bytes × Pattern)) {d d' : Doc}, d.Same d' → d.DistinctKeys → (SatKeys r d ↔ SatKeys r d')
  | [], d, d', h, hk => Iff.rfl
  | (k, p) :: r, d, d', h, hk => by
    simp only [SatKeys, satKeys_same r h hk]
    rcases same_step h hk (.key k) with ⟨h1, h2⟩ | ⟨x, y, h1, h2, h3, h4⟩
    · simp [h1, h2]
    · simp only [h1, h2, Option.some.injEq, exists_eq_left', sat_same p h3 h4]
theorem satFrom_same : ∀ (r : List Pattern) (i : Nat) {d d' : Doc}, d.Same d' → d.DistinctKeys → (SatFrom r i d ↔ SatFrom r i d')
  | [], i, d, d', h, hk => Iff.rfl
  | p :: r, i, d, d', h, hk => by
    simp only [SatFrom, satFrom_same r (i + 1) h hk]
    rcases same_step h hk (.index i) with ⟨h1, h2⟩ | ⟨x, y, h1, h2, h3, h4⟩
    · simp [h1, h2]
    · simp only [h1, h2, Option.some.injEq, exists_eq_left', sat_same p h3 h4]
theorem satSome_same : ∀ (r : List Pattern) {d d' : Doc}, d.Same d' → d.DistinctKeys → (SatSome r d ↔ SatSome r d')
  | [], d, d', h, hk => Iff.rfl
  | p :: r, d, d', h, hk => by simp only [SatSome, satSome_same r h hk, sat_same p h hk]
theorem satAll_same : ∀ (r : List Pattern) {d d' : Doc}, d.Same d' → d.DistinctKeys → (SatAll r d ↔ SatAll r d')
  | [], d, d', h, hk => Iff.rfl
  | p :: r, d, d', h, hk => by simp only [SatAll, satAll_same r h hk, sat_same p h hk]
end

/-! ### Building patterns by calls -/

theorem satKeys_iff {kvs : List (Bytes × Pat)} {r : List (Bytes × Pattern)} {d : Doc} (h : specKvs? kvs = some r) :
    SatKeys r d ↔ ∀ k p sp, (k, p) ∈ kvs → p.spec? = some sp → ∃ x, d.step (.key k) = some x ∧ Sat sp x := by
  induction kvs generalizing r with
  | nil => simp [specKvs?] at h; subst h; simp [SatKeys]
  | cons e kvs ih =>
    obtain ⟨k, p⟩ := e
    obtain ⟨s, ss, rfl, h1, h2⟩ := specKvs?_cons h
    simp only [SatKeys, ih h2, List.mem_cons]
    constructor
    · rintro ⟨a, b⟩ k' p' sp (hm | hm) hsp
      · cases hm; rw [h1] at hsp; cases hsp; exact a
      · exact b k' p' sp hm hsp
    · intro a
      exact ⟨a k p s (.inl rfl) h1, fun k' p' sp hm => a k' p' sp (.inr hm)⟩

theorem specKvs?_of {kvs : List (Bytes × Pat)} (h : ∀ k p, (k, p) ∈ kvs → ∃ sp, p.spec? = some sp) :
    ∃ r, specKvs? kvs = some r := by
  induction kvs with
  | nil => exact ⟨[], by simp [specKvs?]⟩
  | cons e kvs ih =>
    obtain ⟨k, p⟩ := e
    obtain ⟨s, hs⟩ := h k p (by simp)
    obtain ⟨r, hr⟩ := ih (fun k p hm => h k p (by simp [hm]))
    exact ⟨(k, s) :: r, by simp [specKvs?, hs, hr]⟩

theorem specs?_of {ps : List Pat} (h : ∀ p, p ∈ ps → ∃ sp, p.spec? = some sp) : ∃ r, specs? ps = some r := by
  induction ps with
  | nil => exact ⟨[], by simp [specs?]⟩
  | cons p ps ih =>
    obtain ⟨s, hs⟩ := h p (by simp)
    obtain ⟨r, hr⟩ := ih (fun p hm => h p (by simp [hm]))
    exact ⟨s :: r, by simp [specs?, hs, hr]⟩

theorem satFrom_iff {ps : List Pat} {r : List Pattern} {d : Doc} {i : Nat} (h : specs? ps = some r) :
    SatFrom r i d ↔ ∀ (j : Nat) (p : Pat) (sp : Pattern), ps[j]? = some p → p.spec? = some sp →
      ∃ x, d.step (.index (i + j)) = some x ∧ Sat sp x := by
  induction ps generalizing r i with
  | nil => simp [specs?] at h; subst h; simp [SatFrom]
  | cons p ps ih =>
    obtain ⟨s, ss, rfl, h1, h2⟩ := specs?_cons h
    simp only [SatFrom, ih h2]
    constructor
    · rintro ⟨a, b⟩ j p' sp hj hsp
      cases j with
      | zero => simp at hj; subst hj; rw [h1] at hsp; cases hsp; simpa using a
      | succ j =>
        have := b j p' sp (by simpa using hj) hsp
        rwa [show i + (j + 1) = i + 1 + j by omega]
    · intro a
      refine ⟨by simpa using a 0 p s (by simp) h1, fun j p' sp hj hsp => ?_⟩
      have := a (j + 1) p' sp (by simpa using hj) hsp
      rwa [show i + (j + 1) = i + 1 + j by omega] at this

end Bridge
