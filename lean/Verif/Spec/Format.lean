import Verif.Spec.Doc
import Verif.Spec.Leb128
import Verif.Spec.Table
/-
Specification of the document format: which bytes a document is written as.  Independent of the model of the library.
-/
namespace Spec

/-- The type code of a leaf. -/
def Scalar.code : Scalar → UInt8
  | .bytes _ => 0
  | .string _ => 1
  | .int32 _ => 2
  | .uint32 _ => 3
  | .int64 _ => 4
  | .uint64 _ => 5
  | .float _ => 6
  | .double _ => 7
  | .custom _ => 12

/-- The payload of a leaf: raw bytes, or a number most significant byte first. -/
def Scalar.payload : Scalar → List UInt8
  | .bytes b => b
  | .string b => b
  | .int32 v => bigEndian 4 v.toNat
  | .uint32 v => bigEndian 4 v.toNat
  | .int64 v => bigEndian 8 v.toNat
  | .uint64 v => bigEndian 8 v.toNat
  | .float v => bigEndian 4 v.toNat
  | .double v => bigEndian 8 v.toNat
  | .custom b => b

mutual
/-- The keys and string values of a document in the order in which they are written. -/
def Doc.strings : Doc → List (List UInt8)
  | .scalar (.string b) => [b]
  | .scalar _ => []
  | .array xs => stringsL xs
  | .map es => stringsE es
/-- `strings` of a list of documents. -/
def stringsL : List Doc → List (List UInt8)
  | [] => []
  | x :: xs => x.strings ++ stringsL xs
/-- `strings` of a list of entries. -/
def stringsE : List (List UInt8 × Doc) → List (List UInt8)
  | [] => []
  | (k, x) :: es => k :: x.strings ++ stringsE es
end

/-- A string as it is written: its length and its bytes, or its position in the dictionary. -/
def strBytes (dict : Option (List (List UInt8))) (b : List UInt8) : List UInt8 :=
  match dict with
  | none => leb128 b.length ++ b
  | some l => leb128 (l.idxOf b)

/-- A leaf as it is written: its type code, and its string or the length and bytes of its payload. -/
def scalarBytes (dict : Option (List (List UInt8))) (s : Scalar) : List UInt8 :=
  s.code :: (match s with
    | .string b => strBytes dict b
    | s => leb128 s.payload.length ++ s.payload)

/-- The byte in front of a value: its kind, with the top bit set if its children are recorded in the split table. -/
def kindByte (d : Doc) (split : Bool) : UInt8 :=
  (match d with
    | .scalar _ => 0
    | .map _ => 1
    | .array _ => 2) ||| (if split then 0x80 else 0)

/-- An array or map as it is written: its number and the bytes of each child (for a map: of each entry). -/
structure Container where
  id : Nat
  children : List (List UInt8)
deriving DecidableEq, Repr

/-- The bytes of all children. -/
def Container.size (c : Container) : Nat := c.children.flatten.length

/-- A container is split if it has children and they take at least `B` bytes. -/
def Container.split (B : Nat) (c : Container) : Bool := decide (c.children ≠ [] ∧ B ≤ c.size)

/-- A value as it is written, without the byte in front of it: its bytes, whether it is split, and the containers in it
(itself first), in the order of their numbers. -/
structure Written where
  bytes : List UInt8
  split : Bool
  containers : List Container

mutual
/-- How a document is written.  `B` is the split threshold, `dict` the dictionary, `n` the next container number. -/
def write (B : Nat) (dict : Option (List (List UInt8))) : Doc → Nat → Written
  | .scalar s, _ => ⟨scalarBytes dict s, false, []⟩
  | .array xs, n =>
    let r := writeL B dict xs (n + 1)
    ⟨leb128 xs.length ++ leb128 n ++ r.1.flatten, Container.split B ⟨n, r.1⟩, ⟨n, r.1⟩ :: r.2⟩
  | .map es, n =>
    let r := writeE B dict es (n + 1)
    ⟨leb128 es.length ++ leb128 n ++ r.1.flatten, Container.split B ⟨n, r.1⟩, ⟨n, r.1⟩ :: r.2⟩
/-- The bytes of the elements of an array and the containers in them. -/
def writeL (B : Nat) (dict : Option (List (List UInt8))) : List Doc → Nat → List (List UInt8) × List Container
  | [], _ => ([], [])
  | x :: xs, n =>
    let w := write B dict x n
    let r := writeL B dict xs (n + w.containers.length)
    ((kindByte x w.split :: w.bytes) :: r.1, w.containers ++ r.2)
/-- The bytes of the entries of a map and the containers in them. -/
def writeE (B : Nat) (dict : Option (List (List UInt8))) : List (List UInt8 × Doc) → Nat → List (List UInt8) × List Container
  | [], _ => ([], [])
  | (k, x) :: es, n =>
    let w := write B dict x n
    let r := writeE B dict es (n + w.containers.length)
    ((strBytes dict k ++ kindByte x w.split :: w.bytes) :: r.1, w.containers ++ r.2)
end

/-- `blocks` are the sizes of consecutive runs of children that make up all children.  No run is empty; every run but the last
takes at least `B` bytes; no run could have been closed one child earlier. -/
def IsBlocks (B : Nat) (children : List (List UInt8)) (blocks : List Nat) : Prop :=
  ∃ runs : List (List (List UInt8)), runs.flatten = children ∧ blocks = runs.map (fun r => r.flatten.length) ∧
    (∀ r ∈ runs, r ≠ [] ∧ (r.dropLast = [] ∨ r.dropLast.flatten.length < B)) ∧
    (∀ r ∈ runs.dropLast, B ≤ r.flatten.length)

/-- An entry of the dictionary section: the string with its length, and its number. -/
def dictEntry (e : List UInt8 × Nat) : List UInt8 := leb128 e.1.length ++ (e.1 ++ leb128 e.2)

/-- An entry of the split table: the number of a container, the number of its blocks and their sizes. -/
def splitEntry (e : Nat × List Nat) : List UInt8 := leb128 e.1 ++ (leb128 e.2.length ++ (e.2.map leb128).flatten)

/-- A section: its length and its bytes; the bytes are the number of entries and the entries. -/
def section_ (entries : List (List UInt8)) : List UInt8 :=
  leb128 (leb128 entries.length ++ entries.flatten).length ++ (leb128 entries.length ++ entries.flatten)

/-- The document of the root map that holds the written value under the key "root". -/
def inRoot (d : Doc) : Doc := .map [([0x72, 0x6F, 0x6F, 0x74], d)]

/-- The bytes of a document in the order of the format, given the order in which the entries of the two tables are listed. -/
structure IsDocument (B : Nat) (replace : Bool) (d : Doc) (content : List UInt8) : Prop where
  layout : ∃ (dictEntries : List (List UInt8 × Nat)) (splitEntries : List (Nat × List Nat)),
    let dict := if replace then some (firstUse (inRoot d).strings) else none
    let main := write B dict (inRoot d) 1
    content = bigEndian 8 (10 + main.bytes.length) ++ [if replace then 1 else 0, if main.split then 0x0A else 0] ++ main.bytes ++
      (if replace then section_ (dictEntries.map dictEntry) else []) ++ section_ (splitEntries.map splitEntry) ∧
    (replace = true → dictEntries.Perm (firstUse (inRoot d).strings).zipIdx) ∧
    (∃ recs : List (Container × List Nat), (recs.map Prod.fst).Perm (main.containers.filter (Container.split B)) ∧
      splitEntries = recs.map (fun r => (r.1.id, r.2)) ∧ ∀ r ∈ recs, IsBlocks B r.1.children r.2)

end Spec
