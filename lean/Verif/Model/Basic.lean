/-
Shared vocabulary of the model: bytes, outcomes, platform parameters, memory reads, machine arithmetic.
Nothing here models a function of the library; each definition says which C++ notion it stands for.
-/
namespace Bridge

/-- A `std::string`, `std::vector<char>` or the bytes seen through a `std::string_view`. -/
abbrev Bytes := List UInt8

/-- C++ exceptions, one constructor per throw site of the library (plus the standard-library exceptions
that library calls can raise). -/
inductive Exn
  /-- inner.h:17 -/
  | innerCurAddr
  /-- inner.h:37-40 `BRIDGE_CHECK_OOR` -/
  | innerOutOfRange
  /-- inner.h:42-45 `BRIDGE_CHECK_EMPTY` -/
  | innerEmpty
  /-- parse.h:37 -/
  | lengthInnerEmpty
  /-- parse.h:44 -/
  | lengthOutOfRange
  /-- data_type.h:24-27 `BRIDGE_CHECK_DATA_TYPE` -/
  | dataTypeCheck
  /-- parse.h:83 and parse.h:98 -/
  | parseDataInvalid
  /-- parse.h:112 and parse.h:132 -/
  | parseObjectType
  /-- serialize.h:110 and serialize.h:129 -/
  | seriDataInvalid
  /-- string_map.h:41 -/
  | getStr
  /-- split_info.h:69 -/
  | splitInfoDuplicate
  /-- object.h:1352, 1444, 1509 -/
  | dataNeedToSplit
  /-- object.h:1583 and object.h:1593 -/
  | totalSize
  /-- object.h:1725 -/
  | metaSize
  /-- object.h:1743 -/
  | invalidSeriType
  /-- object.h:1752 -/
  | invalidSplitFlag
  /-- object.h:1779 -/
  | parseError
  /-- object.h:267 -/
  | viewTypeMismatch
  /-- object.h:1110 -/
  | iteratorGetKey
  /-- `std::out_of_range` raised by `unordered_map::at` (split_info.h:36) -/
  | outOfRangeAt
  /-- `std::length_error` raised when a `std::string` longer than `max_size()` is requested -/
  | lengthError
  /-- `std::bad_alloc` (only where a model says that memory can run out: `Model/ParseOom.lean`) -/
  | badAlloc
deriving DecidableEq, Repr

/-- Is the exception a `std::runtime_error`?  (`std::out_of_range` and `std::length_error` are `logic_error`s,
`std::bad_alloc` is neither.) -/
def Exn.isRuntimeError : Exn → Bool
  | .outOfRangeAt => false
  | .lengthError => false
  | .badAlloc => false
  | _ => true

/-- Reasons for undefined behaviour. -/
inductive UB
  /-- a read outside the content string and its terminator -/
  | readOutOfBounds
  /-- a shift by 64 or more (varint.h:39, 45) -/
  | shiftTooWide
  /-- `memcpy` of more bytes than the destination holds (parse.h:63) -/
  | stackSmash
  /-- a write past the 128 byte buffer of `seriLength` -/
  | bufferOverflow
  /-- `variant::get<T>` while the variant holds another type (variant.h:110-119) -/
  | wrongVariant
  /-- a null pointer is dereferenced -/
  | nullDeref
  /-- a container uses the reference to a `BridgePool` that has been destroyed -/
  | danglingPool
  /-- a `static_cast` to a class the object does not have -/
  | badCast
  /-- an object is read after its destructor ran -/
  | useAfterDestroy
  /-- an object is deleted through a pointer to a base class whose destructor is not virtual -/
  | deleteThroughBase
  /-- a recursion runs out of stack -/
  | stackOverflow
  /-- an object is constructed at a null pointer (object_pool.h:49-53, 68: `aligned_alloc` has failed) -/
  | constructAtNull
deriving DecidableEq, Repr

/-- Everything that can end a call other than a normal return. -/
inductive Err
  /-- a C++ exception propagates -/
  | exn (e : Exn)
  /-- an `assert` (or a library bounds assertion) fails: the process aborts -/
  | abort
  /-- undefined behaviour is reached -/
  | ub (u : UB)
  /-- the step bound of the model ran out; a call that gives `fuel` for every bound does not terminate -/
  | fuel
deriving DecidableEq, Repr

/-- Outcome of a call. -/
abbrev Res (α : Type) := Except Err α

/-- Outcomes can be compared (used only in examples). -/
instance {ε α : Type} [DecidableEq ε] [DecidableEq α] : DecidableEq (Except ε α)
  | .ok a, .ok b => if h : a = b then .isTrue (by rw [h]) else .isFalse (by intro e; cases e; exact h rfl)
  | .error a, .error b => if h : a = b then .isTrue (by rw [h]) else .isFalse (by intro e; cases e; exact h rfl)
  | .ok _, .error _ => .isFalse (by intro e; cases e)
  | .error _, .ok _ => .isFalse (by intro e; cases e)

/-- A string value: its bytes and, for a `std::string_view` made while parsing, the place in the parsed content
(offset, length) it points at.  `loc = none` is an owning `std::string` or a view of memory of the caller.
If a hostile document makes a view longer than the content, `bytes` holds only the part that exists and `loc` still
records the requested range. -/
structure Str where
  bytes : Bytes
  loc : Option (Nat × Nat) := none
deriving DecidableEq, Repr

/-- Build and platform parameters.  The model is a function of them; theorems hold for all of them unless they say
otherwise. -/
structure Cfg where
  /-- `split_block_size` (object.h:33); the repository fixes it to `10 MiB` and marks it "todo: make configurable". -/
  blockSize : Nat
  /-- `assert` is active (`NDEBUG` is not defined). -/
  asserts : Bool
  /-- the standard library checks `operator[]` bounds (`_GLIBCXX_ASSERTIONS`). -/
  hardened : Bool
  /-- `Endian::Instance().GetEndianType() == Little` (util.h:10-28). -/
  little : Bool
  /-- plain `char` is signed (x86) or unsigned (ARM Linux). -/
  charSigned : Bool
  /-- `std::string::max_size()` -/
  strMax : Nat
  /-- iteration order of `StringMap::map_` as a function of the entries in insertion order -/
  smOrd : List (Str × Nat) → List (Str × Nat)
  /-- iteration order of `SplitInfo::info_` -/
  siOrd : List (Nat × List Nat) → List (Nat × List Nat)
  smPerm : ∀ l, (smOrd l).Perm l
  siPerm : ∀ l, (siOrd l).Perm l

/-- object.h:33 -/
def splitBlockSize : Nat := 1024 * 1024 * 10

/-- The usual x86-64 Linux build of the repository: assertions on, insertion-ordered hash tables.
Only used for examples. -/
def Cfg.x86 : Cfg where
  blockSize := splitBlockSize
  asserts := true
  hardened := false
  little := true
  charSigned := true
  strMax := 4611686018427387903
  smOrd := id
  siOrd := id
  smPerm := fun l => List.Perm.refl l
  siPerm := fun l => List.Perm.refl l

/-- `size_t` / `uint64_t` addition. -/
def addW (a b : Nat) : Nat := (a + b) % 2 ^ 64

/-- Conversion to `uint32_t`. -/
def toU32 (n : Nat) : Nat := n % 2 ^ 32

/-- `static_cast<ssize_t>(a - b)` for `size_t` operands. -/
def subS (a b : Nat) : Int :=
  let d : Nat := (a + 2 ^ 64 - b % 2 ^ 64) % 2 ^ 64
  if d < 2 ^ 63 then (d : Int) else (d : Int) - 2 ^ 64

/-- Conversion of an `ssize_t` to `int`. -/
def toI32 (i : Int) : Int :=
  let d : Int := i % 2 ^ 32
  if d < 2 ^ 31 then d else d - 2 ^ 32

/-- Read the byte at offset `a` of the string `mem` through a pointer: the terminator may be read. -/
def readByte (mem : Bytes) (a : Nat) : Res UInt8 :=
  match mem[a]? with
  | some b => .ok b
  | none => if a = mem.length then .ok 0 else .error (.ub .readOutOfBounds)

/-- Read `n` bytes from offset `a` of the string `mem` through a pointer (the terminator may be included). -/
def readRange (mem : Bytes) (a n : Nat) : Res Bytes :=
  if a + n ≤ mem.length + 1 then .ok (((mem ++ [0]).drop a).take n) else .error (.ub .readOutOfBounds)

/-- The bytes of `mem` in `[a, a+n)` (those that exist). -/
def slice (mem : Bytes) (a n : Nat) : Bytes := (mem.drop a).take n

end Bridge
