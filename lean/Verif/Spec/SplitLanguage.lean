import Verif.Spec.Language
import Verif.Spec.SplitGrammar
/-
Specification of the contents with the split flag that the parallel parser accepts.  Independent of the model of the library.
-/
namespace Spec

/-- The content is a document with the split flag: a number that says where the tables are (nothing else is derived from it), a
mode, the flag, a split map behind them, and the tables.  `es` are the entries of that map as `ReadsSplit` lists them, `pairs` the
entries of the dictionary if there is one, `dict` its meaning, and `t` the split table.  In a `strict` reading no payload of a
number is shortened; `lim` bounds the size that the split table may claim to have. -/
structure ReadableSplit (strict : Bool) (lim : Nat) (content : List UInt8) (pairs : Option (List (List UInt8 × Nat)))
    (dict : Option (Nat → Option (List UInt8))) (t : List (Nat × List Nat)) (es : List (List UInt8 × Doc)) : Prop where
  layout : ∃ total mode stop, total ≤ content.length ∧ content.take 8 = bigEndian 8 total ∧ content[8]? = some mode ∧
    content[9]? = some 0x0A ∧ ReadsSplit strict content dict (fun id => t.lookup id) (.map es) 10 stop ∧
    (mode = 0 ∧ pairs = none ∧ dict = none ∧ SplitSection lim t (content.drop total) ∨
      mode = 1 ∧ ∃ ps rest f, pairs = some ps ∧ dict = some f ∧ IsDictOf ps f ∧ DictSection ps (content.drop total) rest ∧
        SplitSection lim t rest)

end Spec
