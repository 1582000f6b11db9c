import Verif.Proof.Dump
import Verif.Props.RoundTrip
/-
C45: dump.  `Spec.Doc.lines` gives the text line by line.
-/
set_option autoImplicit false
namespace Bridge
open Spec

/-- C45: `dump(buf, level)` appends to `buf` the lines of the document: one per scalar and container with its type or size, one per
map key, indented by depth, in iteration order.  The text depends only on the document, not on whether values are owning or in
situ. -/
theorem C45_dump_text (o : Obj) (d : Doc) (ho : o.doc? = some d) (buf : Bytes) (level : Nat) :
    o.dump buf level = .ok (buf ++ joinLines (d.lines level)) := dump_doc o buf level ho

/-- C45: a dump tells apart any two documents that differ in a key, a type, a size or the order of their parts, if no key contains
a line feed. -/
theorem C45_dump_determines_shape (o o' : Obj) (d d' : Doc) (ho : o.doc? = some d) (ho' : o'.doc? = some d')
    (hn : d.NoNewlineKeys) (hn' : d'.NoNewlineKeys) (buf : Bytes) (level : Nat) (h : o.dump buf level = o'.dump buf level) :
    d.SameShape d' := by
  rw [dump_doc o buf level ho, dump_doc o' buf level ho'] at h
  simp only [Except.ok.injEq, List.append_cancel_left_eq] at h
  have := joinLines_inj (lines_no_newline d level hn) (lines_no_newline d' level hn') (lines_ne _ _) (lines_ne _ _) h
  exact (lines_inj d (n := level) (r := []) (r' := []) (by simp [this])).1

/-- C45: the number of lines, if no key contains a line feed: the text has one line feed less than the document has lines. -/
theorem C45_line_count (d : Doc) (hn : d.NoNewlineKeys) (level : Nat) :
    (joinLines (d.lines level)).count 10 + 1 = (d.lines level).length := by
  have key : ∀ l : List Bytes, (∀ x ∈ l, (10 : UInt8) ∉ x) → (fed l).count 10 = l.length := by
    intro l
    induction l with
    | nil => intro _; rfl
    | cons x l ih =>
      intro h
      rw [fed, List.count_cons_self, List.count_append, ih (fun y hy => h y (by simp [hy])),
        List.count_eq_zero.mpr (h x (by simp))]
      simp
  have := key _ (lines_no_newline d level hn)
  rw [← fed_lines, List.count_cons_self] at this
  exact this

/-- C45: after a default round trip the dump is that of the document whose map entries are in the opposite order; in particular it is
unchanged if no map has two entries. -/
theorem C45_dump_after_round_trip (w r : Cfg) (hw : w.charSigned = true) (t : SeriType) (o : Obj) (d : Doc)
    (hd : o.doc? = some d) (hh : Writable w o) (ref : Bool) (hc : ref = true → d.noCustom = true) (buf : Bytes) (level : Nat) :
    ∃ content, serialize w t o = .ok content ∧ (Fits r content → ∃ o', Parses r ⟨false, ref, 0⟩ content (.ok o') ∧
      o'.dump buf level = .ok (buf ++ joinLines (d.revMaps.lines level))) := by
  refine ⟨_, serialize_eq hw t hd hh, fun hf => ?_⟩
  obtain ⟨o1, h1, h2, _⟩ := parses_normal (extra := []) (by simpa using hf) ref hc 0
  exact ⟨o1, by simpa using h1, dump_doc o1 buf level h2⟩

/-- C45: a negative level throws `std::length_error` and writes nothing. -/
theorem C45_negative_level_throws (o : Obj) (ho : o ≠ .null) (buf : Bytes) (level : Int) (h : level < 0) :
    o.dump buf level = .error (.exn .lengthError) := by
  cases o with
  | null => exact absurd rfl ho
  | data r dt p => simp only [Obj.dump, blanks, if_pos h, error_bind]
  | array p s i => simp only [Obj.dump, blanks, if_pos h, error_bind]
  | map r p s i => simp only [Obj.dump, blanks, if_pos h, error_bind]

/-- C45: a map from which a value was taken out with `Get` cannot be dumped: the null pointer left behind is dereferenced. -/
theorem C45_dump_after_get_faults (m : MapS) (k : Bytes) (pre post : List (Str × Obj)) (key : Str) (v : Obj) (ds : List (Bytes × Doc))
    (hi : m.items = pre ++ (key, v) :: post) (hk : key.bytes = k) (hpre : entries? pre = some ds)
    (hno : ∀ e ∈ pre, e.1.bytes ≠ k) (buf : Bytes) (level : Nat) :
    (m.take k).1.toObj.dump buf level = .error (.ub .nullDeref) := by
  have ht : takeKey k m.items = (pre ++ (key, .null) :: post, v) := by
    rw [hi]
    clear hi hpre
    induction pre with
    | nil => simp [takeKey, hk]
    | cons e pre ih =>
      obtain ⟨k', x⟩ := e
      have h1 := hno (k', x) (by simp)
      simp only at h1
      simp [takeKey, h1, ih (fun e he => hno e (by simp [he]))]
  have hb : blanks ((level : Int) + 1) = .ok (spaces (level + 1)) := by
    rw [show (level : Int) + 1 = ((level + 1 : Nat) : Int) by omega, blanks_nat]
  have loop : ∀ (l : List (Str × Obj)) (ds : List (Bytes × Doc)) (kp b : Bytes), entries? l = some ds →
      dumpEntries (l ++ (key, .null) :: post) kp b level = .error (.ub .nullDeref) := by
    intro l
    induction l with
    | nil => intro ds kp b _; simp only [List.nil_append, dumpEntries, Obj.dump, error_bind]
    | cons e l ih =>
      intro ds kp b hl
      obtain ⟨k', x⟩ := e
      obtain ⟨d, ds', rfl, h1, h2⟩ := entries?_cons hl
      simp only [List.cons_append, dumpEntries]
      rw [show (level : Int) + 2 = ((level + 2 : Nat) : Int) by omega, dump_doc x _ (level + 2) h1, ok_bind]
      exact ih ds' kp _ h2
  simp only [MapS.take, ht, MapS.toObj, Obj.dump, blanks_nat, hb, ok_bind]
  exact loop pre ds _ _ hpre

example : sampleObj.dump [] 0 = .ok (ascii "Map[ 2 ]\n < k > : \n  Array[ 2 ]\n   Data[ string ]\n   Data[ int32 ]\n < z > : \n  Data[ bytes ]") := by
  decide +kernel

end Bridge
