import Verif.Spec.Grammar
/-
Specification of the contents that the recursive parser accepts: the two tables behind the main section, and the whole.
Independent of the model of the library.
-/
namespace Spec

/-- The entries of a dictionary: of each the length of the string, the string, and its id, of which the low 32 bits count. -/
def ReadsPairs : List (List UInt8 × Nat) → List UInt8 → Prop
  | [], bs => bs = []
  | (s, id) :: es, bs => ∃ l i n rest, NumField l s.length ∧ NumField i n ∧ id = n % 2 ^ 32 ∧ bs = l ++ (s ++ (i ++ rest)) ∧
      ReadsPairs es rest

/-- A dictionary: the number of entries, of which the low 32 bits count, and the entries. -/
def ReadsDict (es : List (List UInt8 × Nat)) (bs : List UInt8) : Prop :=
  ∃ c n rest, NumField c n ∧ es.length = n % 2 ^ 32 ∧ bs = c ++ rest ∧ ReadsPairs es rest

/-- Numbers, of which the low 32 bits count. -/
def ReadsNums : List Nat → List UInt8 → Prop
  | [], bs => bs = []
  | b :: l, bs => ∃ i n rest, NumField i n ∧ b = n % 2 ^ 32 ∧ bs = i ++ rest ∧ ReadsNums l rest

/-- The records of a split table: of each the number of a container, the number of its blocks, and their sizes. -/
def ReadsRecords : List (Nat × List Nat) → List UInt8 → Prop
  | [], bs => bs = []
  | (id, blocks) :: t, bs => ∃ i n k m b rest, NumField i n ∧ id = n % 2 ^ 32 ∧ NumField k m ∧ blocks.length = m % 2 ^ 32 ∧
      ReadsNums blocks b ∧ bs = i ++ (k ++ (b ++ rest)) ∧ ReadsRecords t rest

/-- A split table: the number of records, and the records; no container is recorded twice. -/
def ReadsTable (t : List (Nat × List Nat)) (bs : List UInt8) : Prop :=
  (t.map Prod.fst).Nodup ∧ ∃ c n rest, NumField c n ∧ t.length = n % 2 ^ 32 ∧ bs = c ++ rest ∧ ReadsRecords t rest

/-- `rest` starts with a section that holds a split table.  The size of the section is only an upper bound for what is looked
at: it may reach beyond the end (the terminator of the string can still be read), and the table may end before it does; it is
below `lim`. -/
def SplitSection (lim : Nat) (t : List (Nat × List Nat)) (rest : List UInt8) : Prop :=
  ∃ l size tail bs, rest = l ++ tail ∧ NumField l size ∧ size < lim ∧ bs <+: tail ++ [0] ∧ bs.length ≤ size ∧ ReadsTable t bs

/-- `rest` starts with a section that holds a dictionary, which may end before the section does; `rest'` is what follows. -/
def DictSection (es : List (List UInt8 × Nat)) (rest rest' : List UInt8) : Prop :=
  ∃ l body bs, rest = l ++ (body ++ rest') ∧ NumField l body.length ∧ bs <+: body ∧ ReadsDict es bs

/-- `f` reads the dictionary with the entries `es`: a string has its first id, an id without a string has no meaning, and an
id with several strings means one of them. -/
def IsDictOf (es : List (List UInt8 × Nat)) (f : Nat → Option (List UInt8)) : Prop :=
  ∀ id, (∀ b, f id = some b → FirstPair es b id) ∧ ((∃ b, FirstPair es b id) → (f id).isSome)

/-- The content is a document: the end of the main section, a mode, a flag, the main section, which is a map, and the tables.
`es` are the entries of that map in the order in which they are written, `pairs` the entries of the dictionary if there is one,
and `dict` its meaning.  In a `strict` reading no payload of a number is shortened; `lim` bounds the size that the split table
may claim to have. -/
structure Readable (strict : Bool) (lim : Nat) (content : List UInt8) (pairs : Option (List (List UInt8 × Nat))) (dict : Option (Nat → Option (List UInt8)))
    (es : List (List UInt8 × Doc)) : Prop where
  layout : ∃ mode flag main rest, content = bigEndian 8 (10 + main.length) ++ ([mode, flag] ++ (main ++ rest)) ∧
    (flag = 0 ∨ flag = 0x0A) ∧ Reads strict false dict (.map es) main ∧
    (mode = 0 ∧ pairs = none ∧ dict = none ∧ (∃ t, SplitSection lim t rest) ∨
      mode = 1 ∧ ∃ ps rest' f, pairs = some ps ∧ dict = some f ∧ IsDictOf ps f ∧ DictSection ps rest rest' ∧ ∃ t, SplitSection lim t rest')

end Spec
