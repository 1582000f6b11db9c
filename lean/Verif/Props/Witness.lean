import Verif.Props.Adaptor
import Verif.Props.Amplify
import Verif.Props.Dump
import Verif.Props.Duplicates
import Verif.Props.Extend
import Verif.Props.ForeignTable
import Verif.Props.Format
import Verif.Props.Hostile
import Verif.Props.HostileSplit
import Verif.Props.InSitu
import Verif.Props.Language
import Verif.Props.SplitLanguage
import Verif.Props.Layout
import Verif.Props.Limits
import Verif.Props.Observers
import Verif.Props.Paths
import Verif.Props.Pattern
import Verif.Props.Process
import Verif.Props.Truncate
import Verif.Props.TruncateExact
import Verif.Props.UserType
import Verif.Props.Values
import Verif.Props.Varint
import Verif.Props.Wrapper
/-
Theorems that have no example of their own beside them, applied to a concrete case: all hypotheses are met.  Most of them are applied
to `{"k": [7, "hi"], "z": <3 bytes>}`, written with blocks of ten bytes, and so split.
-/
set_option autoImplicit false
namespace Bridge
open Spec

/-- A build that splits containers of ten bytes and more. -/
def w10 : Cfg := { Cfg.x86 with blockSize := 10 }

/-- What it writes for the sample, with and without dictionary. -/
theorem w10_fits (t : SeriType) : ∃ content, serialize w10 t sampleObj = .ok content ∧ Fits w10 content ∧ content[9]? = some 0x0A := by
  cases t with
  | normal => exact ⟨(serialize w10 .normal sampleObj).toOption.getD [], by decide +kernel, ⟨by decide +kernel, by decide +kernel, by decide +kernel⟩, by decide +kernel⟩
  | replace => exact ⟨(serialize w10 .replace sampleObj).toOption.getD [], by decide +kernel, ⟨by decide +kernel, by decide +kernel, by decide +kernel⟩, by decide +kernel⟩

/-- What a theorem says about every content that fits, it says about this one. -/
theorem on_sample {t : SeriType} {P : Bytes → Prop} (h : ∃ content, serialize w10 t sampleObj = .ok content ∧ (Fits w10 content → P content)) :
    ∃ content, serialize w10 t sampleObj = .ok content ∧ P content := by
  obtain ⟨c, h1, h2⟩ := h
  obtain ⟨c', h3, h4, _⟩ := w10_fits t
  rw [h1] at h3
  cases h3
  exact ⟨c, h1, h2 h4⟩

/-! ### C11, C14, C16, C25, C26, C38, C43, C45, C53, C64 -/

/-- C11_owning_parse_keeps_custom, with the parallel parser. -/
example : ∃ content, serialize w10 .replace sampleObj = .ok content ∧
    ∃ o' d', Parses w10 ⟨true, false, 4⟩ content (.ok o') ∧ o'.doc? = some d' ∧ sampleDoc.Same d' :=
  on_sample (C11_owning_parse_keeps_custom w10 w10 rfl .replace sampleObj sampleDoc sample_doc (sample_writable _) 4 (by decide) true)

/-- C14_split_blocks. -/
example := on_sample (C14_split_blocks w10 w10 rfl .replace sampleObj sampleDoc sample_doc (sample_writable _))

/-- C16_lookup_before_and_after. -/
example := on_sample (C16_lookup_before_and_after w10 w10 rfl .normal sampleObj _ sample_doc (sample_writable _) [107]).2

/-- C16_insert_history: one key twice. -/
example := C16_insert_history false [([107], .data false BRIDGE_INT32 (.i32 1)), ([107], .data false BRIDGE_INT32 (.i32 2))]
  [.scalar (.int32 1), .scalar (.int32 2)] rfl (by decide)

/-- C25_layout. -/
example : ∃ content : Bytes, ∃ flag children dict table, serialize w10 .replace sampleObj = .ok content ∧
    content = bigEndian 8 (12 + children.length) ++ ([1, flag] ++ ([1, 1] ++ children ++ (dict ++ (leb128 table.length ++ table)))) ∧
    flag = 0x0A := by
  obtain ⟨content, flag, children, dict, table, h1, h2⟩ := C25_layout w10 rfl .replace sampleObj sampleDoc sample_doc (sample_writable _)
  obtain ⟨c', h3, h4, h5⟩ := w10_fits .replace
  rw [h1] at h3
  cases h3
  obtain ⟨g1, g2, g3, -⟩ := h2 h4.lt
  refine ⟨content, flag, children, dict, table, h1, g1, ?_⟩
  rw [g1] at h5
  have hl : (bigEndian 8 (12 + children.length)).length = 8 := by simp [bigEndian]
  rw [List.getElem?_append_right (by omega), hl] at h5
  simpa using h5

/-- C26_cut_never_wrong and C26_unsplit_exact (the sample is not split with the default block size). -/
example := on_sample (C26_cut_never_wrong w10 w10 rfl .replace sampleObj sampleDoc sample_doc (sample_writable _) true 1)

example : ∃ content, serialize Cfg.x86 .normal sampleObj = .ok content ∧ (Fits Cfg.x86 content ∧ content[9]? = some 0) ∧
    (∀ (po : ParseOption) (k : Nat), k + 1 < content.length → ∃ e, Parses Cfg.x86 po (content.take k) (.error (.exn e)) ∧ e.isRuntimeError = true) := by
  obtain ⟨c, h1, h2⟩ := C26_unsplit_exact Cfg.x86 Cfg.x86 rfl sampleObj sampleDoc sample_doc (sample_writable _)
  obtain ⟨c', h3, hf, h9⟩ : ∃ c', serialize Cfg.x86 .normal sampleObj = .ok c' ∧ Fits Cfg.x86 c' ∧ c'[9]? = some 0 :=
    ⟨(serialize Cfg.x86 .normal sampleObj).toOption.getD [], by decide +kernel, ⟨by decide +kernel, by decide +kernel, by decide +kernel⟩, by decide +kernel⟩
  rw [h1] at h3
  cases h3
  exact ⟨c, h1, ⟨hf, h9⟩, (h2 hf h9).1⟩

/-- C38_normal_extendable, in situ. -/
example := on_sample (C38_normal_extendable w10 w10 rfl .replace sampleObj sampleDoc sample_doc (sample_writable _) true (fun _ => by decide) 0)

/-- C43_match_survives_round_trip, parallel and in situ. -/
example := on_sample (C43_match_survives_round_trip w10 w10 rfl .replace sampleObj sampleDoc sample_doc (sample_writable _)
  (by simp [sampleDoc, Doc.DistinctKeys, distinctKeysE, distinctKeysL]) true (fun _ => by decide) true 2 (by decide))

/-- C45_dump_text, C45_line_count, C45_dump_after_round_trip. -/
example := C45_dump_text sampleObj sampleDoc sample_doc [120] 3
example := on_sample (C45_dump_after_round_trip w10 w10 rfl .normal sampleObj sampleDoc sample_doc (sample_writable _) true (fun _ => by decide) [] 0)

/-- C53_document_format. -/
example : ∃ content, serialize w10 .replace sampleObj = .ok content ∧ IsDocument 10 true sampleDoc content := by
  obtain ⟨c, h1, h2⟩ := C53_document_format w10 rfl .replace sampleObj sampleDoc sample_doc (sample_writable _)
  obtain ⟨c', h3, h4, _⟩ := w10_fits .replace
  rw [h1] at h3
  cases h3
  exact ⟨c, h1, h2 h4.lt⟩

/-- C64_written_size. -/
example : ∃ content, serialize w10 .replace sampleObj = .ok content ∧ 3 * sampleDoc.nodes ≤ content.length := by
  obtain ⟨c, h1, h2, _⟩ := w10_fits .replace
  exact ⟨c, h1, (C64_written_size w10 w10 rfl .replace sampleObj sampleDoc sample_doc (sample_writable _) c h1 h2).1⟩

/-- C49_deterministic: two builds. -/
example := C49_deterministic w10 { w10 with asserts := false } rfl rfl rfl .replace sampleObj sampleObj sampleDoc sample_doc sample_doc
  (sample_writable _) (sample_writable _)

/-- C55_custom_roundtrip: a user-defined type whose values are their own bytes, in a map. -/
example := C55_custom_roundtrip (α := Bytes) ⟨id, fun b => .ok b⟩ [1, 2, 3] w10 w10 rfl .replace
  (.map false .caller 1 [(⟨[107], none⟩, dataOfUser (α := Bytes) ⟨id, fun b => .ok b⟩ [1, 2, 3])]) _ rfl
  (by simp [Obj.Hard, hardE, dataOfUser, leafHard]) (by simp [Doc.DistinctKeys, distinctKeysE]) true 2 (by decide) [.key [107]] (by rfl)

/-! ### C20, C21, C23, C51, C65 -/

/-- C20_array_observers, C20_map_observers. -/
example := C20_array_observers .caller 2 [.data false BRIDGE_STRING (.str [104, 105]), .data false BRIDGE_INT32 (.i32 7)]
example : ∃ it, sampleObj.ckIter = .ok (some it) ∧ ∃ it', it.advance 1 = .ok it' ∧ it'.key = .ok [122] := by
  obtain ⟨it, h1, h2⟩ := (C20_map_observers false .caller 2 [(⟨[107], none⟩, .array .caller 2
        [.data false BRIDGE_STRING (.str [104, 105]), .data false BRIDGE_INT32 (.i32 7)]), (⟨[122], none⟩, .data false BRIDGE_BYTES (.vec [1, 2, 3]))]).2
  obtain ⟨it', h3, -, h4⟩ := h2 1 (by decide)
  exact ⟨it, h1, it', h3, (h4 _ _ rfl).1⟩

/-- C21_typed_reads, C21_typed_reads_in_situ, C21_leaf_is_its_value. -/
example : (Obj.data false BRIDGE_INT32 (.i32 7)).ckGet .i32 = .ok (some (.i32 7)) ∧ (Obj.data false BRIDGE_INT32 (.i32 7)).ckGet .u32 = .ok none :=
  ⟨(C21_typed_reads (.i32 7) _ _ rfl .i32).1, (C21_typed_reads (.i32 7) _ _ rfl .u32).1⟩
example : ∃ dt p, viewOfVal Cfg.x86 (.string [104]) = some (.ok (dt, p)) ∧ (Obj.data true dt p).ckGetView .bytes = .error (.exn .viewTypeMismatch) :=
  ⟨_, _, rfl, (C21_typed_reads_in_situ Cfg.x86 (.string [104]) _ _ rfl .bytes).1 (by decide)⟩
example := C21_leaf_is_its_value false BRIDGE_STRING (.str [104]) (.string [104]) rfl .bytes (fun h => by cases h)

/-- C51_character_arrays. -/
example := (C51_character_arrays [97, 0, 98]).2.1 (by decide)

/-! ### C28, C29, C30, C32, C05, C06 -/

example := C28_too_short Cfg.x86 {} [0, 0, 0, 0, 0, 0, 0, 10, 0] (by decide)
example := C28_unknown_mode Cfg.x86 {} [0, 0, 0, 0, 0, 0, 0, 10, 7, 0, 1] 7 (by decide) rfl (by decide) (by decide)
example := C28_total_beyond_content Cfg.x86 {} [0, 0, 0, 0, 0, 0, 0, 12, 0, 0, 1, 1] 12 0 (by decide) rfl (.inl rfl) (by decide) (by decide) (by decide)
example := C28_unknown_flag Cfg.x86 {} [0, 0, 0, 0, 0, 0, 0, 12, 0, 7, 1, 1, 1, 0] 7 rfl (by decide) (by decide)
example := C28_unknown_kind [0, 0, 0, 0, 0, 0, 0, 12, 0, 7, 5, 1, 1, 0] (by decide) 10 5 rfl (by decide)
example := C28_unknown_data_type Cfg.x86 [0, 0, 0, 0, 0, 0, 0, 12, 0, 7, 9, 1, 1, 0] (by decide) none 10 9 rfl (by decide)

/-- C28_accepted_is_document and C28_parallel_accepted_is_document: what the build above writes. -/
example : ∃ content o, Parses w10 {} content (.ok o) ∧ ∃ mode flag main rest dict es,
    content = bigEndian 8 (10 + main.length) ++ ([mode, flag] ++ (main ++ rest)) ∧ Reads true false dict (.map es) main := by
  obtain ⟨c, h1, h2, _⟩ := w10_fits .normal
  obtain ⟨c', h3, o', h4, _⟩ := on_sample (C38_normal_extendable w10 w10 rfl .normal sampleObj sampleDoc sample_doc (sample_writable _) false (fun h => by cases h) 1)
  rw [h1] at h3
  cases h3
  obtain ⟨mode, flag, main, rest, dict, es, g1, -, -, g2, -⟩ := C28_accepted_is_document w10 c (Nat.lt_trans h2.lt (by decide)) ⟨false, false, 1⟩ (.inl rfl)
    (fun h => by cases h) o' h4
  exact ⟨c, o', h4, mode, flag, main, rest, dict, es, g1, g2⟩

example : ∃ content o, Parses w10 ⟨true, false, 4⟩ content (.ok o) ∧ ∃ dict table es stop, ReadsSplit true content dict table (.map es) 10 stop := by
  obtain ⟨c, h1, h2, h9⟩ := w10_fits .replace
  obtain ⟨c', h3, o', d', h4, _⟩ := on_sample (C11_owning_parse_keeps_custom w10 w10 rfl .replace sampleObj sampleDoc sample_doc (sample_writable _) 4 (by decide) true)
  rw [h1] at h3
  cases h3
  obtain ⟨mode, dict, table, es, stop, -, -, -, g2, -⟩ := C28_parallel_accepted_is_document w10 c h2.lt ⟨true, false, 4⟩ rfl h9
    (fun h => by cases h) o' h4
  exact ⟨c, o', h4, dict, table, es, stop, g2⟩

/-- C30_length_field; C30_normal_parse_rejects and C30_parallel_truncates for a string of 4 GiB and 200 bytes, written by a build with
blocks of ten bytes. -/
example := C30_length_field .bytes w10 rfl [104, 105] (fun _ _ => by simp)
theorem huge_length : (List.replicate (2 ^ 32 + 200) (65 : UInt8)).length = 2 ^ 32 + 200 := List.length_replicate
example := C30_normal_parse_rejects .string w10 { w10 with asserts := false } rfl (List.replicate (2 ^ 32 + 200) 65) (by rw [huge_length]; decide)
  (by rw [huge_length]; decide) false true (fun h => by cases h) (fun _ => by decide) 1
example := C30_parallel_truncates .custom w10 { w10 with asserts := false } rfl (List.replicate (2 ^ 32 + 200) 65) (fun _ h => by cases h)
  (by rw [huge_length]; decide) (by rw [huge_length]; exact Nat.le_trans (by decide : w10.blockSize ≤ 200) (by omega)) false (fun h => by cases h) 1 (by decide)

/-- C32_foreign_table: one string with two ids. -/
example := C32_foreign_table Cfg.x86 [([97], 5), ([97], 6), ([98], 7)] (by decide) [3, 1, 97, 5, 1, 97, 6, 1, 98, 7] (by decide +kernel) (by decide)
  (fun _ => by decide) [1, 2] [3]

/-- C35_table_roundtrip: an id registered twice. -/
example := C35_table_roundtrip Cfg.x86 Cfg.x86 rfl [(1, [10, 20]), (2, []), (1, [30])] (by decide) [1] [2]

/-- C33_lookup_sees_snapshot. -/
example : (dictRun Cfg.x86 {} [.register [97], .lookup 0, .register [98], .lookup 1]).2[3]? = some (.str none) :=
  C33_lookup_sees_snapshot Cfg.x86 [.register [97], .lookup 0, .register [98], .lookup 1] (by decide) 3 1 rfl

/-- C05_parseLength_any, C06_numbers_portable. -/
example := C05_parseLength_any Cfg.x86 [1, 255, 3] (by decide) 1
example := C06_numbers_portable Cfg.x86 { Cfg.x86 with little := false } rfl true BRIDGE_INT32 (.i32 7) (.int32 7) rfl 4 7 rfl [1] [2] [3]

/-! ### C42, C44 -/

example := C42_owning_or_in_situ samplePat _ sampleObj sampleObj sampleDoc rfl sample_doc sample_doc
example := C42_never_faults samplePat _ (.array .caller 2 [.null, .dataEmpty]) rfl (by simp)
example := C42_array_pattern_calls 2 [(0, .data none), (1, .data none), (0, .array [] false), (7, .data none)]
  (by intro i p h; simp at h; rcases h with ⟨-, rfl⟩ | ⟨-, rfl⟩ | ⟨-, rfl⟩ | ⟨-, rfl⟩ <;> exact ⟨_, rfl⟩)
  (by intro i h; match i, h with
    | 0, _ => exact ⟨_, .head _⟩
    | 1, _ => exact ⟨_, .tail _ (.head _)⟩) sampleObj sampleDoc sample_doc
example := C42_default_array_pattern [(0, .data none)] sampleObj sampleDoc sample_doc
example := C42_or_and [.data none, .array [] false] (by intro p h; simp at h; rcases h with rfl | rfl <;> exact ⟨_, rfl⟩) sampleObj sampleDoc sample_doc
example := C44_fresh_array_pattern_faults 1 (by decide) (.array .caller 1 [.data false BRIDGE_INT32 (.i32 7)]) _ rfl rfl
example := C44_first_unset_slot [.data none] [] _ rfl (.array .caller 2 [.data false BRIDGE_INT32 (.i32 7), .data false BRIDGE_INT32 (.i32 8)]) _ rfl

/-! ### C46, C47 -/

theorem sampleCxx_proper : sampleCxx.Proper := by simp [sampleCxx, CxxVal.Proper, properE, properL]
example := C46_adaptor_shows_container sampleCxx sampleCxx_proper
example := C46_round_trip_shows_container w10 w10 rfl .replace sampleCxx sampleCxx_proper (fun h => by cases h) true true 2 (by decide)

example := C47_nested_bytes_rejected (.vector (.mapS (.vector .char))) 2 (.vector (.mapS .here)) (by decide)
example := C47_custom_selected_but_does_not_compile (.vector (.mapV .custom)) 2 (.vector (.mapV .here))

end Bridge
