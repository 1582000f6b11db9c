import Verif.Spec.Grammar
/-
Specification of the contents that can be read as a document with split containers.  A split container is read block by
block, the blocks being given by a table outside of it, so the grammar speaks of positions in the whole content.
Independent of the model of the library.
-/
namespace Spec

/-- A key in a block: as elsewhere, but only the low 32 bits of an inline length count. -/
def ReadsKey (dict : Option (Nat → Option (List UInt8))) (k bs : List UInt8) : Prop :=
  match dict with
  | none => ∃ l n, NumField l n ∧ k.length = n % 2 ^ 32 ∧ bs = l ++ k
  | some f => ∃ n, NumField bs n ∧ f (n % 2 ^ 32) = some k

/-- `sizes` are the sizes of the blocks of the split container whose head (a number of children that is not looked at, and the
number of the container) stands at `i`; the first block starts at `b`. -/
def SplitHead (content : List UInt8) (table : Nat → Option (List Nat)) (i b : Nat) (sizes : List Nat) : Prop :=
  ∃ c u n id, NumField c n ∧ NumField u id ∧ (c ++ u) <+: content.drop i ∧ b = i + c.length + u.length ∧
    table (id % 2 ^ 32) = some sizes

mutual
/-- At `i` stands a split container that is read as `d`; reading goes on at `j`. -/
inductive ReadsSplit (strict : Bool) (content : List UInt8) (dict : Option (Nat → Option (List UInt8))) (table : Nat → Option (List Nat)) :
    Doc → Nat → Nat → Prop
  | array {i b : Nat} {sizes : List Nat} {xss : List (List Doc)} : SplitHead content table i b sizes →
      Blocks strict content dict table xss b sizes → ReadsSplit strict content dict table (.array xss.flatten) i (b + sizes.sum)
  /-- The entries of a map are listed with those of the last block first. -/
  | map {i b : Nat} {sizes : List Nat} {ess : List (List (List UInt8 × Doc))} : SplitHead content table i b sizes →
      BlocksE strict content dict table ess b sizes → ReadsSplit strict content dict table (.map ess.reverse.flatten) i (b + sizes.sum)
/-- At `i` stands the kind byte of a child that is read as `d`; reading goes on at `j`.  A child without the split bit is read
as usual, which lists the entries of every map in reverse. -/
inductive Child (strict : Bool) (content : List UInt8) (dict : Option (Nat → Option (List UInt8))) (table : Nat → Option (List Nat)) :
    Doc → Nat → Nat → Prop
  | plain {d : Doc} {i : Nat} {bs : List UInt8} : content[i]? = some (kindByte d false) → Reads strict (decide (i + 1 + bs.length = content.length)) dict d bs →
      bs <+: content.drop (i + 1) → Child strict content dict table d.revMaps i (i + 1 + bs.length)
  | split {d : Doc} {i j : Nat} : content[i]? = some (kindByte d true) → ReadsSplit strict content dict table d (i + 1) j →
      Child strict content dict table d i j
/-- The children of an array in the block that starts at `i`: they are read until the position is at or behind `e`. -/
inductive Block (strict : Bool) (content : List UInt8) (dict : Option (Nat → Option (List UInt8))) (table : Nat → Option (List Nat)) :
    List Doc → Nat → Nat → Prop
  | nil {i e : Nat} : e ≤ i → Block strict content dict table [] i e
  | cons {i j e : Nat} {d : Doc} {xs : List Doc} : i < e → Child strict content dict table d i j → Block strict content dict table xs j e →
      Block strict content dict table (d :: xs) i e
/-- The blocks of an array, one behind the other. -/
inductive Blocks (strict : Bool) (content : List UInt8) (dict : Option (Nat → Option (List UInt8))) (table : Nat → Option (List Nat)) :
    List (List Doc) → Nat → List Nat → Prop
  | nil {b : Nat} : Blocks strict content dict table [] b []
  | cons {b s : Nat} {sizes : List Nat} {xs : List Doc} {xss : List (List Doc)} : Block strict content dict table xs b (b + s) →
      Blocks strict content dict table xss (b + s) sizes → Blocks strict content dict table (xs :: xss) b (s :: sizes)
/-- The entries of a map in the block that starts at `i`. -/
inductive BlockE (strict : Bool) (content : List UInt8) (dict : Option (Nat → Option (List UInt8))) (table : Nat → Option (List Nat)) :
    List (List UInt8 × Doc) → Nat → Nat → Prop
  | nil {i e : Nat} : e ≤ i → BlockE strict content dict table [] i e
  | cons {i j e : Nat} {k kb : List UInt8} {d : Doc} {es : List (List UInt8 × Doc)} : i < e → ReadsKey dict k kb →
      kb <+: content.drop i → Child strict content dict table d (i + kb.length) j → BlockE strict content dict table es j e →
      BlockE strict content dict table ((k, d) :: es) i e
/-- The blocks of a map, one behind the other. -/
inductive BlocksE (strict : Bool) (content : List UInt8) (dict : Option (Nat → Option (List UInt8))) (table : Nat → Option (List Nat)) :
    List (List (List UInt8 × Doc)) → Nat → List Nat → Prop
  | nil {b : Nat} : BlocksE strict content dict table [] b []
  | cons {b s : Nat} {sizes : List Nat} {es : List (List UInt8 × Doc)} {ess : List (List (List UInt8 × Doc))} :
      BlockE strict content dict table es b (b + s) → BlocksE strict content dict table ess (b + s) sizes →
      BlocksE strict content dict table (es :: ess) b (s :: sizes)
end

end Spec
