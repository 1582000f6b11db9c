import Verif.Spec.Leb128
/-
Specification: a reader that finds the ends of documents in a sequence of bytes, from the documented layout alone.
-/
namespace Spec

/-- The number that these bytes stand for, most significant first. -/
def bigValue (l : List UInt8) : Nat := l.foldl (fun n b => 256 * n + b.toNat) 0

/-- The LEB128 number at the front, and what follows it.  None if the bytes end before it does. -/
def readLeb : List UInt8 → Option (Nat × List UInt8)
  | [] => none
  | b :: bs => if b.toNat < 128 then some (b.toNat, bs) else (readLeb bs).map fun x => (b.toNat - 128 + 128 * x.1, x.2)

/-- What follows a table: its length, and so many bytes. -/
def skipTable (s : List UInt8) : Option (List UInt8) :=
  (readLeb s).bind fun x => if x.1 ≤ x.2.length then some (x.2.drop x.1) else none

/-- What follows the first document, if it is there completely: the length of header and body in eight bytes, a byte that tells whether
there is a dictionary, the rest of header and body, the dictionary, the split table. -/
def afterFirst (s : List UInt8) : Option (List UInt8) :=
  if s.length < 10 ∨ s.length < bigValue (s.take 8) then none
  else if s[8]? = some 0 then skipTable (s.drop (bigValue (s.take 8)))
  else (skipTable (s.drop (bigValue (s.take 8)))).bind skipTable

/-- All complete documents at the front, and the bytes that remain. -/
def cutAll (s : List UInt8) : List (List UInt8) × List UInt8 :=
  match afterFirst s with
  | none => ([], s)
  | some rest =>
    if rest.length < s.length then ((s.take (s.length - rest.length)) :: (cutAll rest).1, (cutAll rest).2) else ([], s)
termination_by s.length

/-- A receiver: it keeps the bytes that are not yet a complete document, and takes off complete documents as the bytes arrive. -/
def receive (buf : List UInt8) : List (List UInt8) → List (List UInt8) × List UInt8
  | [] => ([], buf)
  | c :: cs => ((cutAll (buf ++ c)).1 ++ (receive (cutAll (buf ++ c)).2 cs).1, (receive (cutAll (buf ++ c)).2 cs).2)

end Spec
