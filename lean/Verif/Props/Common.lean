import Verif.Model.CoParse
import Verif.Proof.Wire
/-
Vocabulary of the property statements.
-/
set_option autoImplicit false
namespace Bridge
open Spec

/-- The call `Parse(content, option)` ends with outcome `r` (the step bound of the model does not matter once it is large
enough). -/
def Parses (cfg : Cfg) (po : ParseOption) (content : Bytes) (r : Res Obj) : Prop :=
  r ≠ .error .fuel ∧ ∃ n, ∀ fuel, n ≤ fuel → parse cfg po fuel content = r

/-- The call `Parse(content, option)` never returns. -/
def Diverges (cfg : Cfg) (po : ParseOption) (content : Bytes) : Prop := ∀ fuel, parse cfg po fuel content = .error .fuel

/-- The size limits of the format: below 4 GiB, below 2 GiB if the reader was built with assertions, and not longer than the
longest `std::string`. -/
structure Fits (r : Cfg) (content : Bytes) : Prop where
  lt : content.length < 2 ^ 32
  small : r.asserts = true → content.length < 2 ^ 31
  max : content.length ≤ r.strMax

/-- Every leaf of the tree can be written by a library with bounds assertions: no empty byte array, and no empty string in
an in-situ value.  Without bounds assertions there is no restriction. -/
abbrev Writable (w : Cfg) (o : Obj) : Prop := o.Hard w

/-- A small tree used in examples: `{"k": [7, "hi"], "z": <3 bytes>}`. -/
def sampleObj : Obj :=
  .map false .caller 2
    [(⟨[107], none⟩, .array .caller 2
        [.data false BRIDGE_STRING (.str [104, 105]), .data false BRIDGE_INT32 (.i32 7)]),
     (⟨[122], none⟩, .data false BRIDGE_BYTES (.vec [1, 2, 3]))]

/-- The document of `sampleObj`. -/
def sampleDoc : Doc :=
  .map [([107], .array [.scalar (.string [104, 105]), .scalar (.int32 7)]), ([122], .scalar (.bytes [1, 2, 3]))]

end Bridge
