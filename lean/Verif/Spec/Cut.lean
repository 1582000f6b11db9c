import Verif.Spec.Language
/-
Specification of where a document ends.  Independent of the model of the library.
-/
namespace Spec

/-- The parts of a content: header and main section (`main`), the dictionary section, if there is one (`dict`), and the split
section, which consists of its size (`size`) and the split table (`tbl`). -/
structure EndsWith (content main dict size tbl : List UInt8) : Prop where
  eq : content = main ++ (dict ++ (size ++ tbl))
  total : content.take 8 = bigEndian 8 main.length
  dict : content[8]? = some 0 ∧ dict = [] ∨ content[8]? = some 1 ∧ ∃ ps, DictSection ps (dict ++ (size ++ tbl)) (size ++ tbl)
  size : NumField size tbl.length
  table : ∃ T, ReadsTable T tbl

/-- What is left of a split table is complete with one zero byte (the terminator of the string) behind it. -/
def ZeroCompletes (rest : List UInt8) : Prop := ∃ T, ReadsTable T (rest ++ [0])

end Spec
