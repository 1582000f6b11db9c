import Verif.Props.Common
import Verif.Proof.Obs
/-
C18, C19: Array, Map and MapView over all histories of calls.
-/
set_option autoImplicit false
namespace Bridge
open Spec

/-- A loop `for (auto it = w.GetIteraotr(); it->Valid(); ++*it)` that collects `GetValue()`; `fuel` bounds the iterations. -/
def WIter.values : (fuel : Nat) → WIter → Res (List Obj)
  | 0, _ => .error .fuel
  | f + 1, it =>
    if it.valid then do
      let v ← it.value
      let it ← it.next
      let rest ← WIter.values f it
      pure (v :: rest)
    else .ok []

/-- The same loop collecting `GetKey()`. -/
def WIter.keys : (fuel : Nat) → WIter → Res (List Bytes)
  | 0, _ => .error .fuel
  | f + 1, it =>
    if it.valid then do
      let v ← it.key
      let it ← it.next
      let rest ← WIter.keys f it
      pure (v :: rest)
    else .ok []

theorem values_array (xs : List Obj) : ∀ f, xs.length < f → WIter.values f (.array xs) = .ok xs := by
  induction xs with
  | nil => intro f hf; cases f <;> simp_all [WIter.values, WIter.valid]
  | cons x xs ih =>
    intro f hf
    cases f with
    | zero => omega
    | succ f =>
      simp only [List.length_cons] at hf
      simp [WIter.values, WIter.valid, WIter.value, WIter.next, ih f (by omega)]

theorem values_map (xs : List (Str × Obj)) : ∀ f, xs.length < f → WIter.values f (.map xs) = .ok (xs.map Prod.snd) := by
  induction xs with
  | nil => intro f hf; cases f <;> simp_all [WIter.values, WIter.valid]
  | cons x xs ih =>
    intro f hf
    obtain ⟨k, x⟩ := x
    cases f with
    | zero => omega
    | succ f =>
      simp only [List.length_cons] at hf
      simp [WIter.values, WIter.valid, WIter.value, WIter.next, ih f (by omega)]

theorem keys_map (xs : List (Str × Obj)) : ∀ f, xs.length < f → WIter.keys f (.map xs) = .ok (xs.map fun e => e.1.bytes) := by
  induction xs with
  | nil => intro f hf; cases f <;> simp_all [WIter.keys, WIter.valid]
  | cons x xs ih =>
    intro f hf
    obtain ⟨k, x⟩ := x
    cases f with
    | zero => omega
    | succ f =>
      simp only [List.length_cons] at hf
      simp [WIter.keys, WIter.valid, WIter.key, WIter.next, ih f (by omega)]

/-! ### C18 -/

/-- A call on an array. -/
inductive ArrayOp
  | insert (v : Obj)
  | clear

/-- A history of calls. -/
def ArrayS.run : ArrayS → List ArrayOp → Res ArrayS
  | a, [] => .ok a
  | a, .insert v :: ops => do
    let a ← a.insert v
    a.run ops
  | a, .clear :: ops => a.clear.run ops

/-- Specification: the values inserted since the last `Clear`, in order. -/
def sinceClear : List Obj → List ArrayOp → List Obj
  | l, [] => l
  | l, .insert v :: ops => sinceClear (l ++ [v]) ops
  | _, .clear :: ops => sinceClear [] ops

theorem array_run : ∀ (ops : List ArrayOp) (a : ArrayS) (l : List Obj), a.pool = .caller → a.items = l.reverse → a.size = l.length →
    l.length + ops.length < 2 ^ 64 →
    ∃ a', a.run ops = .ok a' ∧ a'.pool = .caller ∧ a'.items = (sinceClear l ops).reverse ∧ a'.size = (sinceClear l ops).length
  | [], a, l, hp, hi, hs, _ => ⟨a, rfl, hp, hi, hs⟩
  | .insert v :: ops, a, l, hp, hi, hs, hn => by
    simp only [List.length_cons] at hn
    simp only [ArrayS.run, ArrayS.insert, hp, reduceCtorEq, if_false, ok_bind, sinceClear]
    refine array_run ops _ (l ++ [v]) rfl ?_ ?_ ?_
    · simp [hi]
    · simp only [hs, List.length_append, List.length_cons, List.length_nil]
      exact addW_of_lt (by omega)
    · simp; omega
  | .clear :: ops, a, l, hp, hi, hs, hn => by
    simp only [List.length_cons] at hn
    simp only [ArrayS.run, sinceClear]
    exact array_run ops _ [] hp rfl rfl (by simp; omega)

/-- C18. After any history of `Insert` and `Clear` on a new array: `Size()` is the number of inserts since the last `Clear`,
`arr[i]` is the `i`-th of them and null from there on, and an iterator visits them newest first. -/
theorem C18_array_is_a_sequence (ops : List ArrayOp) (h : ops.length < 2 ^ 64) :
    ∃ a, ({} : ArrayS).run ops = .ok a ∧ a.toObj.wSize = some (sinceClear [] ops).length ∧
      (∀ i v, (sinceClear [] ops)[i]? = some v → a.toObj.wIdx i = v) ∧
      (∀ i, (sinceClear [] ops).length ≤ i → a.toObj.wIdx i = .null) ∧
      ∃ it, a.toObj.wIter = some it ∧ ∀ f, a.size < f → it.values f = .ok (sinceClear [] ops).reverse := by
  obtain ⟨a, h1, h2, h3, h4⟩ := array_run ops {} [] rfl rfl rfl (by simpa using h)
  obtain ⟨pool, size, items⟩ := a
  simp only at h2 h3 h4
  subst h3 h4
  refine ⟨_, h1, rfl, ?_, ?_, _, rfl, ?_⟩
  · intro i v hv
    have hi := (List.getElem?_eq_some_iff.mp hv).1
    simp only [ArrayS.toObj, Obj.wIdx]
    rw [arrayGet_eq (by simp)]
    simp [hv]
  · intro i hi
    simp only [ArrayS.toObj, Obj.wIdx, ArrayS.get]
    rw [if_pos hi]
  · intro f hf
    exact values_array _ f (by simpa using hf)

example : (({} : ArrayS).run [.insert (.data false 2 (.i32 1)), .clear, .insert (.data false 2 (.i32 5)),
      .insert (.data false 2 (.i32 6))]).toOption.map (fun a => ((a.toObj.wIdx 0).wGet .i32, (a.toObj.wIdx 1).wGet .i32, a.size)) =
    some (.ok (some (.i32 5)), .ok (some (.i32 6)), 2) := by decide +kernel

/-! ### C19 -/

/-- A call on a map: `Insert(key, value)`, `Get(key)` (which moves the value out) or `Clear()`. -/
inductive MapOp
  | insert (k : Bytes) (v : Obj)
  | take (k : Bytes)
  | clear

/-- A history of calls; the values returned by the `take` calls are collected. -/
def MapS.run : MapS → List MapOp → Res (MapS × List Obj)
  | m, [] => .ok (m, [])
  | m, .insert k v :: ops => do
    let m ← m.insert ⟨k, none⟩ v
    m.run ops
  | m, .take k :: ops => do
    let (m', out) ← (m.take k).1.run ops
    pure (m', (m.take k).2 :: out)
  | m, .clear :: ops => m.clear.run ops

/-- Specification of a lookup after a history, most recent call first: the value of the newest `insert` of the key unless it
has been taken or cleared since. -/
def newest (k : Bytes) : List MapOp → Obj
  | [] => .null
  | .insert k' v :: past => if k' = k then v else newest k past
  | .take k' :: past => if k' = k then .null else newest k past
  | .clear :: _ => .null

/-- Specification of iteration after a history, most recent call first: all inserts since the last `clear`, newest first; the
value is null if the entry was the newest of its key when that key was taken.  `taken` are the keys taken since. -/
def entryLog (taken : List Bytes) : List MapOp → List (Bytes × Obj)
  | [] => []
  | .insert k v :: past => (k, if k ∈ taken then .null else v) :: entryLog (taken.filter (· ≠ k)) past
  | .take k :: past => entryLog (k :: taken) past
  | .clear :: _ => []

/-- Specification of the values returned by the `take` calls, oldest first. -/
def takenValues (past : List MapOp) : List MapOp → List Obj
  | [] => []
  | .take k :: ops => newest k past :: takenValues (.take k :: past) ops
  | op :: ops => takenValues (op :: past) ops

/-- Specification of taking a key from a list of entries. -/
def nullFirst (k : Bytes) : List (Bytes × Obj) → List (Bytes × Obj)
  | [] => []
  | (k', v) :: rest => if k' = k then (k', .null) :: rest else (k', v) :: nullFirst k rest

/-- Null the first entry of every key of a list. -/
def nullFirsts (ks : List Bytes) : List (Bytes × Obj) → List (Bytes × Obj)
  | [] => []
  | (k', v) :: rest => (k', if k' ∈ ks then .null else v) :: nullFirsts (ks.filter (· ≠ k')) rest

theorem nullFirsts_nil (l : List (Bytes × Obj)) : nullFirsts [] l = l := by
  induction l with
  | nil => rfl
  | cons e l ih => obtain ⟨k, v⟩ := e; simp [nullFirsts, ih]

theorem nullFirsts_cons (k : Bytes) (ks : List Bytes) (l : List (Bytes × Obj)) :
    nullFirsts (k :: ks) l = nullFirsts ks (nullFirst k l) := by
  induction l generalizing ks with
  | nil => rfl
  | cons e l ih =>
    obtain ⟨k', v⟩ := e
    simp only [nullFirst]
    by_cases h : k' = k
    · subst h
      rw [if_pos rfl]
      simp only [nullFirsts]
      congr 1
      · simp
      · simp
    · have h' : ¬ k = k' := fun e => h e.symm
      rw [if_neg h]
      simp only [nullFirsts, List.mem_cons, h, false_or, ne_eq, h', not_false_eq_true, decide_true, List.filter_cons_of_pos, ih]

theorem entryLog_eq (past : List MapOp) : ∀ taken : List Bytes, entryLog taken past = nullFirsts taken (entryLog [] past) := by
  induction past with
  | nil => intro t; rfl
  | cons op past ih =>
    intro t
    cases op with
    | insert k v =>
      simp only [entryLog, nullFirsts, List.not_mem_nil, if_false, List.filter_nil]
      rw [ih]
    | take k =>
      simp only [entryLog]
      rw [ih (k :: t), ih [k], nullFirsts_cons k t, nullFirsts_cons k [], nullFirsts_nil]
    | clear => rfl

theorem entryLog_take (k : Bytes) (past : List MapOp) : entryLog [] (.take k :: past) = nullFirst k (entryLog [] past) := by
  simp only [entryLog]
  rw [entryLog_eq past [k], nullFirsts_cons, nullFirsts_nil]

theorem takeKey_eq (k : Bytes) : ∀ items : List (Str × Obj),
    (takeKey k items).1.map (fun e => (e.1.bytes, e.2)) = nullFirst k (items.map fun e => (e.1.bytes, e.2)) ∧
    (takeKey k items).2 = findKey k items ∧ (takeKey k items).1.length = items.length
  | [] => ⟨rfl, rfl, rfl⟩
  | (k', v) :: rest => by
    obtain ⟨h1, h2, h3⟩ := takeKey_eq k rest
    simp only [takeKey, findKey, List.map_cons, nullFirst]
    split
    · simp
    · simp [h1, h2, h3]

/-- The first value of a key in a list of entries, or null. -/
def firstVal (k : Bytes) : List (Bytes × Obj) → Obj
  | [] => .null
  | (k', v) :: rest => if k' = k then v else firstVal k rest

theorem findKey_eq (k : Bytes) (items : List (Str × Obj)) : findKey k items = firstVal k (items.map fun e => (e.1.bytes, e.2)) := by
  induction items with
  | nil => rfl
  | cons e items ih => obtain ⟨k', v⟩ := e; simp only [findKey, List.map_cons, firstVal, ih]

theorem firstVal_nullFirst (k j : Bytes) (l : List (Bytes × Obj)) :
    firstVal j (nullFirst k l) = if k = j then .null else firstVal j l := by
  induction l with
  | nil => simp [nullFirst, firstVal]
  | cons e l ih =>
    obtain ⟨k', v⟩ := e
    simp only [nullFirst]
    by_cases h : k' = k
    · subst h
      rw [if_pos rfl]
      simp only [firstVal]
      by_cases h2 : k' = j <;> simp [h2]
    · rw [if_neg h]
      simp only [firstVal]
      by_cases h2 : k' = j
      · subst h2
        rw [if_pos rfl, if_neg (fun e => h (Eq.symm e)), if_pos rfl]
      · simp only [h2, if_false, ih]

theorem newest_eq (k : Bytes) (past : List MapOp) : newest k past = firstVal k (entryLog [] past) := by
  induction past with
  | nil => rfl
  | cons op past ih =>
    cases op with
    | insert k' v => simp only [newest, entryLog, List.not_mem_nil, if_false, List.filter_nil, firstVal, ih]
    | take k' => rw [entryLog_take, firstVal_nullFirst]; simp only [newest, ih]
    | clear => rfl

theorem map_run (ref : Bool) : ∀ (ops past : List MapOp) (m : MapS), m.ref = ref → m.pool = .caller →
    m.items.map (fun e => (e.1.bytes, e.2)) = entryLog [] past → m.size = (entryLog [] past).length →
    m.size + ops.length < 2 ^ 64 →
    ∃ m', m.run ops = .ok (m', takenValues past ops) ∧ m'.ref = ref ∧ m'.pool = .caller ∧
      m'.items.map (fun e => (e.1.bytes, e.2)) = entryLog [] (ops.reverse ++ past) ∧
      m'.size = (entryLog [] (ops.reverse ++ past)).length
  | [], past, m, hr, hp, hi, hs, _ => ⟨m, rfl, hr, hp, by simpa using hi, by simpa using hs⟩
  | .insert k v :: ops, past, m, hr, hp, hi, hs, hn => by
    simp only [List.length_cons] at hn
    have hsz : addW m.size 1 = m.size + 1 := addW_of_lt (by omega)
    obtain ⟨m', g1, g2, g3, g4, g5⟩ := map_run ref ops (.insert k v :: past)
      { m with items := (storeKey m.ref ⟨k, none⟩, v) :: m.items, size := addW m.size 1 } hr hp
      (by simp only [List.map_cons, hi, entryLog, List.not_mem_nil, if_false, List.filter_nil]
          congr 2
          unfold storeKey; split <;> rfl)
      (by simp only [hsz, entryLog, List.filter_nil, List.length_cons, List.not_mem_nil, if_false]; rw [hs]) (by simp only [hsz]; omega)
    refine ⟨m', ?_, g2, g3, by simpa using g4, by simpa using g5⟩
    have hi' : m.insert ⟨k, none⟩ v = .ok { m with items := (storeKey m.ref ⟨k, none⟩, v) :: m.items, size := addW m.size 1 } := by
      unfold MapS.insert; rw [if_neg (by rw [hp]; decide)]
    simp only [MapS.run, hi', ok_bind]
    rw [g1]; rfl
  | .take k :: ops, past, m, hr, hp, hi, hs, hn => by
    simp only [List.length_cons] at hn
    obtain ⟨t1, t2, t3⟩ := takeKey_eq k m.items
    obtain ⟨m', g1, g2, g3, g4, g5⟩ := map_run ref ops (.take k :: past) (m.take k).1 hr hp
      (by simp only [MapS.take, t1, hi, entryLog_take])
      (by simp only [MapS.take, hs, entryLog_take]
          have := congrArg List.length (show nullFirst k (entryLog [] past) = _ from rfl)
          have hl : ∀ l : List (Bytes × Obj), (nullFirst k l).length = l.length := by
            intro l
            induction l with
            | nil => rfl
            | cons e l ih => obtain ⟨k', v⟩ := e; simp only [nullFirst]; split <;> simp [ih]
          rw [hl])
      (by simp only [MapS.take]; omega)
    refine ⟨m', ?_, g2, g3, by simpa using g4, by simpa using g5⟩
    simp only [MapS.run]
    rw [g1]
    simp only [ok_bind, pure_eq_ok, takenValues]
    congr 3
    simp only [MapS.take, t2, findKey_eq, hi, newest_eq]
  | .clear :: ops, past, m, hr, hp, hi, hs, hn => by
    simp only [List.length_cons] at hn
    obtain ⟨m', g1, g2, g3, g4, g5⟩ := map_run ref ops (.clear :: past) m.clear hr hp rfl rfl (by simp only [MapS.clear]; omega)
    refine ⟨m', ?_, g2, g3, by simpa using g4, by simpa using g5⟩
    simp only [MapS.run]
    rw [g1]; rfl

/-- C19. After any history of `Insert`, `Get` and `Clear` on a new map (owning or view): a lookup returns the newest entry of
the key, null once it has been moved out; every `Get` returned what a lookup would have shown at that moment; `Size()` counts
the inserts since the last `Clear`; iteration lists them newest first. -/
theorem C19_map_is_an_entry_log (ref : Bool) (ops : List MapOp) (h : ops.length < 2 ^ 64) :
    ∃ m, ({ ref := ref } : MapS).run ops = .ok (m, takenValues [] ops) ∧
      (∀ k, m.toObj.wKey k = newest k ops.reverse) ∧
      m.toObj.wSize = some (entryLog [] ops.reverse).length ∧
      ∃ it, m.toObj.wIter = some it ∧ ∀ f, m.size < f →
        it.keys f = .ok ((entryLog [] ops.reverse).map Prod.fst) ∧ it.values f = .ok ((entryLog [] ops.reverse).map Prod.snd) := by
  obtain ⟨m, h1, h2, h3, h4, h5⟩ := map_run ref ops [] { ref := ref } rfl rfl rfl rfl (by simpa using h)
  simp only [List.append_nil] at h4 h5
  have hl : m.items.length = m.size := by rw [h5, ← h4]; simp
  refine ⟨m, h1, ?_, ?_, _, rfl, ?_⟩
  · intro k
    rw [newest_eq, ← h4, ← findKey_eq]; rfl
  · simp only [MapS.toObj, Obj.wSize, h5]
  · intro f hf
    rw [keys_map _ f (by omega), values_map _ f (by omega), ← h4]
    simp [Function.comp_def]

/-- C19. The number of entries is the number of inserts since the last `Clear`, duplicates included. -/
theorem C19_size_counts_inserts (past : List MapOp) (ks : List (Bytes × Obj)) :
    (entryLog [] ((ks.map fun e => MapOp.insert e.1 e.2) ++ .clear :: past)).length = ks.length := by
  induction ks with
  | nil => rfl
  | cons e ks ih => simp only [List.map_cons, List.cons_append, entryLog, List.filter_nil, List.length_cons, ih]

example : (({} : MapS).run [.insert [97] (.data false 2 (.i32 1)), .insert [97] (.data false 2 (.i32 2)), .take [97],
      .insert [98] (.data false 2 (.i32 3))]).toOption.map (fun r => (r.2.map (Obj.wGet .i32), (r.1.toObj.wKey [97]).wEmpty,
        (r.1.toObj.wKey [98]).wGet .i32, r.1.size)) = some ([.ok (some (.i32 2))], true, .ok (some (.i32 3)), 3) := by
  decide +kernel

end Bridge
