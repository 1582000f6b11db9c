import Verif.Model.Object
/-
Model of include/bridge/pattern.h.
-/
set_option autoImplicit false
namespace Bridge

/-- A `std::unique_ptr<Pattern>`: `null`, or one of the five pattern classes with its members.
`map`: `match_kv_` in the iteration order of the hash table, and `size_pattern_` if `set_size_pattern_` (pattern.h:22-84);
`array`: `objects_` and `set_length_pattern_` (pattern.h:86-123); `data`: `data_type_` if `set_data_type_pattern_`
(pattern.h:125-155); `or`, `and`: `patterns_` (pattern.h:157-190). -/
inductive Pat
  | null
  | map (kvs : List (Bytes × Pat)) (size : Option Nat)
  | array (slots : List Pat) (fixed : Bool)
  | data (dt : Option UInt8)
  | or (ps : List Pat)
  | and (ps : List Pat)

instance : Inhabited Pat := ⟨.null⟩

mutual
/-- `Match` of the object a `unique_ptr<Pattern>` points at; a null pointer is dereferenced for the virtual call.
pattern.h:26-66 (MapPattern; the branches for `Map` and `MapView` are the same code), 90-110 (ArrayPattern),
130-150 (DataPattern), 161-168 (OrPattern), 179-186 (AndPattern). -/
def Pat.matches : Pat → Obj → Res Bool
  | .null, _ => .error (.ub .nullDeref)
  | .map kvs size, o =>
    match o with
    | .null => .error (.ub .nullDeref)
    | .map _ _ n items => if size.isSome && size != some n then .ok false else matchKvs kvs items
    | _ => .ok false
  | .array slots fixed, o =>
    match o with
    | .null => .error (.ub .nullDeref)
    | .array pool n items => if fixed && slots.length != n then .ok false else matchSlots slots 0 ⟨pool, n, items⟩
    | _ => .ok false
  | .data dt, o =>
    match o with
    | .null => .error (.ub .nullDeref)
    | .data _ dt' _ => if dt.isSome && dt != some dt' then .ok false else .ok true
    | _ => .ok false
  | .or ps, o => matchOr ps o
  | .and ps, o => matchAnd ps o
/-- pattern.h:37-46, 54-63 the loop over `match_kv_`. -/
def matchKvs : List (Bytes × Pat) → List (Str × Obj) → Res Bool
  | [], _ => .ok true
  | (k, p) :: kvs, items =>
    match findKey k items with
    | .null => .ok false
    | v => do
      let b ← p.matches v
      if b = false then pure false else matchKvs kvs items
/-- pattern.h:100-109 the loop over `objects_`, from index `i` on. -/
def matchSlots : List Pat → Nat → ArrayS → Res Bool
  | [], _, _ => .ok true
  | p :: ps, i, a =>
    match a.get i with
    | .null => .ok false
    | v => do
      let b ← p.matches v
      if b = false then pure false else matchSlots ps (i + 1) a
/-- pattern.h:162-167. -/
def matchOr : List Pat → Obj → Res Bool
  | [], _ => .ok false
  | p :: ps, o => do
    let b ← p.matches o
    if b = true then pure true else matchOr ps o
/-- pattern.h:180-185. -/
def matchAnd : List Pat → Obj → Res Bool
  | [], _ => .ok true
  | p :: ps, o => do
    let b ← p.matches o
    if b = false then pure false else matchAnd ps o
end

/-- pattern.h:24 `MapPattern()`. -/
def Pat.newMap : Pat := .map [] none
/-- pattern.h:88 `ArrayPattern()`. -/
def Pat.newArray : Pat := .array [] false
/-- pattern.h:112 `ArrayPattern(n)`: `n` null pointers. -/
def Pat.newArrayN (n : Nat) : Pat := .array (List.replicate n .null) true

/-- A call on a `MapPattern`. -/
inductive MapCall
  | setPattern (k : Bytes) (p : Pat)
  | removePattern (k : Bytes)
  | setSize (n : Nat)

/-- pattern.h:68-75 the effect of a call.  The hash table may rearrange itself, so the order of the entries afterwards is
arbitrary. -/
def MapCall.effect : MapCall → Pat → Pat → Prop
  | .setPattern k p, .map kvs size, q =>
    ∃ kvs', q = .map kvs' size ∧ kvs'.Perm ((k, p) :: kvs.filter (fun e => e.1 ≠ k))
  | .removePattern k, .map kvs size, q =>
    ∃ kvs', q = .map kvs' size ∧ kvs'.Perm (kvs.filter (fun e => e.1 ≠ k))
  | .setSize n, .map kvs _, q => q = .map kvs (some n)
  | _, _, _ => False

/-- Calls on a `MapPattern`, one after the other. -/
def mapCalls : List MapCall → Pat → Pat → Prop
  | [], p, q => q = p
  | c :: cs, p, q => ∃ m, c.effect p m ∧ mapCalls cs m q

/-- pattern.h:114-118 `setNthPattern(n, pattern)`. -/
def Pat.setNth : Pat → Nat → Pat → Pat
  | .array slots fixed, n, p => if fixed && decide (n < slots.length) then .array (slots.set n p) fixed else .array slots fixed
  | q, _, _ => q

/-- pattern.h:159, 177 `PushPattern`. -/
def Pat.push : Pat → Pat → Pat
  | .or ps, p => .or (ps ++ [p])
  | .and ps, p => .and (ps ++ [p])
  | q, _ => q

/-- Destruction of a vector or hash table of `unique_ptr<Pattern>`: the deleter does `delete` on a `Pattern*` whose dynamic type is
a derived class, but `~Pattern()` is not virtual (pattern.h:18). -/
def deleteAll : List Pat → Res Unit
  | [] => .ok ()
  | .null :: ps => deleteAll ps
  | _ :: _ => .error (.ub .deleteThroughBase)

/-- The destructor of a pattern object of its own class (implicit; pattern.h:81, 121, 172, 189 are the members). -/
def Pat.destroy : Pat → Res Unit
  | .null => .ok ()
  | .map kvs _ => deleteAll (kvs.map Prod.snd)
  | .array slots _ => deleteAll slots
  | .data _ => .ok ()
  | .or ps => deleteAll ps
  | .and ps => deleteAll ps

end Bridge
