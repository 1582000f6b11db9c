import Verif.Model.Object
/-
What a document that was parsed in situ shows after the bytes of the caller's buffer have changed.
-/
set_option autoImplicit false
namespace Bridge

/-- object.h:334, 432, 1480 and parse.h:90: a `std::string_view` that was made from the buffer keeps a pointer and a length; when the
buffer holds `mem` it shows the bytes of `mem` there.  Strings that are not views of the buffer are not affected. -/
def Str.reread (mem : Bytes) (s : Str) : Str :=
  match s.loc with
  | some (a, n) => ⟨slice mem a n, s.loc⟩
  | none => s

/-- object.h:274-369: the slot of a leaf. Numbers were copied. -/
def Payload.reread (mem : Bytes) : Payload → Payload
  | .view s => .view (s.reread mem)
  | p => p

mutual
/-- The tree as it is when the buffer holds `mem`: object.h:813-961 (`MapView` keeps views as keys), 490-640. -/
def Obj.reread (mem : Bytes) : Obj → Obj
  | .null => .null
  | .data ref dt p => .data ref dt (p.reread mem)
  | .array pool size items => .array pool size (rereadL mem items)
  | .map ref pool size items => .map ref pool size (rereadE mem items)
/-- The elements. -/
def rereadL (mem : Bytes) : List Obj → List Obj
  | [] => []
  | o :: os => o.reread mem :: rereadL mem os
/-- The entries. -/
def rereadE (mem : Bytes) : List (Str × Obj) → List (Str × Obj)
  | [] => []
  | (k, o) :: es => (k.reread mem, o.reread mem) :: rereadE mem es
end

end Bridge
