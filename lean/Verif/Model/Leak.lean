import Verif.Model.Owner
import Verif.Model.Slot
import Verif.Spec.Storage
/-
What the destruction of a pool gives back.  The objects of a parse as in `Model/Owner.lean`, with the `std::string` and
`std::vector<char>` objects that they have as members or in their buffers.
-/
set_option autoImplicit false
namespace Bridge.Owner
open Spec

/-- object.h:167, 274, 490, 497, 648, 656, 807, 815: which of the eight classes derive from `RequireDestruct`; object_pool.h:33-44
`destructor_proxy` runs the destructors of these classes and of no other. -/
def Kind.runsDestructor : Kind → Bool
  | .data => true
  | .map => true
  | .dataView | .array | .arrayItem | .mapItem | .mapView | .mapViewItem => false

/-- Does the destructor of the class, if it runs, destroy the strings and vectors that the object holds?  `~MapItem` (object.h:648-654,
implicit) destroys `key_`; `~Data` (object.h:38, 167, implicit) destroys nothing in `buf_` (`Slot.destroy`); the others hold none. -/
def Kind.destructorReleases : Kind → Bool
  | .mapItem => true
  | .data | .dataView | .array | .arrayItem | .map | .mapView | .mapViewItem => false

/-- variant.h:95-99: the string or vector in the buffer of a leaf (`Payload.owning`). -/
def Payload.storage : Payload → List Storage
  | .vec b => [.vector b]
  | .str b => [.string b]
  | _ => []

mutual
/-- The strings and vectors of all objects and items that can be reached, with the object that holds each: object.h:257-259 `data_`
of a `Data`, object.h:649 `key_` of a `MapItem`.  The variant of a `DataView` and the key of a `MapViewItem` hold no storage of
their own (object.h:366-368, 807-813). -/
def LObj.holds : LObj → List (Oid × Storage)
  | .null => []
  | .data id ref _ p => if ref then [] else (Payload.storage p).map fun s => ((.data, id), s)
  | .array _ _ _ items => itemHolds items
  | .map _ ref _ _ items => kvHolds ref items
def itemHolds : List (Path × LObj) → List (Oid × Storage)
  | [] => []
  | (_, o) :: rest => o.holds ++ itemHolds rest
def kvHolds (ref : Bool) : List (Path × Str × LObj) → List (Oid × Storage)
  | [] => []
  | (i, k, o) :: rest => (if ref then [] else [((.mapItem, i), .string k.bytes)]) ++ (o.holds ++ kvHolds ref rest)
end

/-- object_pool.h:73-81 `~Block` and 33-44 `destructor_proxy`: the storage that is not given back when the pool is destroyed or
cleared, of the storage that is held. -/
def leaked (b : BPool) (held : List (Oid × Storage)) : List Storage :=
  (held.filter fun x => !(decide (x.1 ∈ b.all) && x.1.1.runsDestructor && x.1.1.destructorReleases)).map Prod.snd

/-- object.h:1765-1779 `NormalScheduler::Parse` up to the line that moves the value out of the root map: the root map itself, which stays
in the pool. -/
def normalRootL (cfg : Cfg) (parseRef : Bool) (fuel : Nat) (content : Bytes) (s : Sched) : M LObj := do
  let r ← (pvs cfg (View.whole content) s.sm parseRef .caller fuel).val .map ⟨metaSize, metaSize⟩
  if r.2.off ≠ s.total then lift (.error (.exn .parseError))
  else pure r.1

/-- object.h:1805-1816 `CoroutineScheduler::Parse`, likewise. -/
def coroutineRootL (cfg : Cfg) (parseRef : Bool) (workers : Nat) (fuel : Nat) (content : Bytes) (s : Sched) : M LObj :=
  if s.split = false then do
    let s ← lift (initFromContent cfg content)
    normalRootL cfg parseRef fuel content s
  else if workers = 0 then lift (.error .fuel)
  else do
    let r ← await ((css cfg (View.whole content) s.sm s.si parseRef fuel).map metaSize)
    pure r.1

/-- object.h:1831-1842 `Parse`, likewise (`parseL_eq`). -/
def parseRootL (cfg : Cfg) (po : ParseOption) (fuel : Nat) (content : Bytes) : M LObj := do
  let s ← lift (initFromContent cfg content)
  if po.coroutine then coroutineRootL cfg po.parseRef po.workers fuel content s
  else normalRootL cfg po.parseRef fuel content s

/-- One round of a server: a pool, a `Parse` into it, the end of the pool.  The result is the storage that is lost for good; `none` if
the `Parse` does not return. -/
def roundL (cfg : Cfg) (po : ParseOption) (fuel : Nat) (content : Bytes) : Option (List Storage) :=
  match parseRootL cfg po fuel content {} with
  | (.ok root, s) => some (leaked s.bp root.holds)
  | (.error _, _) => none

/-- Rounds one after the other: all that is lost. -/
def roundsL (cfg : Cfg) (po : ParseOption) (fuel : Nat) : List Bytes → Option (List Storage)
  | [] => some []
  | c :: cs => do
    let a ← roundL cfg po fuel c
    let b ← roundsL cfg po fuel cs
    pure (a ++ b)

end Bridge.Owner
