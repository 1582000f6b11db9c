import Verif.Proof.Env
/-
The two tables survive serialization.
-/
namespace Bridge
open Spec

/-! ### reading back a length -/

theorem parseLength_lenB {cfg : Cfg} {v : View} {i n : Nat} (hv : SizeOk cfg v.len) (hn : n < 2 ^ 32)
    (hat : HasAt v.mem (v.base + i) (lenB n)) (hin : i + (lenB n).length ≤ v.len) :
    parseLength cfg v ⟨i, i⟩ = .ok (n, ⟨i + (lenB n).length, i + (lenB n).length⟩) := by
  have e : lenB n = leb128 n := by unfold lenB; rw [toU32_of_lt hn]
  rw [e] at hat hin ⊢
  have := hv.1
  exact parseLength_eq (c := ⟨i, i⟩) hv (by omega) hat hin (by simp only; omega)

theorem skip_bump {i k : Nat} (h : i + k < 2 ^ 64) : skip (bump ⟨i, i⟩ k) k = ⟨i + k, i + k⟩ := by
  unfold skip bump
  rw [addW_of_lt h]

theorem HasAt.drop_zero {mem : Bytes} : HasAt mem 0 mem := by unfold HasAt; simp

/-! ### StringMap -/

def smEntryB (e : Str × Nat) : Bytes := lenB e.1.bytes.length ++ (e.1.bytes ++ lenB e.2)

def smTableB (cfg : Cfg) (m : StringMap) : Bytes := lenB m.map.length ++ ((cfg.smOrd m.map).map smEntryB).flatten

theorem smSerializeGo_eq {cfg : Cfg} (hc : cfg.charSigned = true) (es : List (Str × Nat)) (ret : Bytes) :
    smSerializeGo cfg es ret = .ok (ret ++ (es.map smEntryB).flatten) := by
  induction es generalizing ret with
  | nil => simp [smSerializeGo]
  | cons e es ih =>
    obtain ⟨s, id⟩ := e
    simp [smSerializeGo, seriLength_eq hc, ih, smEntryB]

theorem smSerialize_eq {cfg : Cfg} (hc : cfg.charSigned = true) (m : StringMap) :
    m.serialize cfg = .ok (smTableB cfg m) := by
  simp [StringMap.serialize, seriLength_eq hc, smSerializeGo_eq hc, smTableB]

theorem Str.inside_of_hasAt {mem : Bytes} {a : Nat} {b : Bytes} (h : HasAt mem a b) (ha : a ≤ mem.length) :
    Str.Inside mem ⟨b, some (a, b.length)⟩ :=
  ⟨a, rfl, h.length ha, h.slice⟩

theorem Str.Inside.hasAt {mem : Bytes} {s : Str} (h : s.Inside mem) :
    ∃ a, s.loc = some (a, s.bytes.length) ∧ a ≤ mem.length ∧ HasAt mem a s.bytes := by
  obtain ⟨a, h1, h2, h3⟩ := h
  refine ⟨a, h1, by omega, ?_⟩
  unfold HasAt
  unfold slice at h3
  rw [List.prefix_iff_eq_take]; exact h3.symm

theorem smConstructGo_eq {cfg : Cfg} {v : View} (hv : SizeOk cfg v.len) (hmem : v.base + v.len ≤ v.mem.length) :
    ∀ (es : List (Str × Nat)) (i : Nat) (acc : List (Str × Nat)),
    HasAt v.mem (v.base + i) (es.map smEntryB).flatten → i + (es.map smEntryB).flatten.length ≤ v.len →
    (∀ e ∈ es, e.2 < 2 ^ 32 ∧ e.1.bytes.length < 2 ^ 32) →
    ((acc ++ es).map (fun e => e.1.bytes)).Nodup →
    ∃ r, smConstructGo cfg v es.length ⟨i, i⟩ acc = .ok (acc ++ r) ∧
      r.map (fun e => (e.1.bytes, e.2)) = es.map (fun e => (e.1.bytes, e.2)) ∧ ∀ e ∈ r, e.1.Inside v.mem := by
  intro es
  induction es with
  | nil => intro i acc _ _ _ _; exact ⟨[], by simp [smConstructGo], rfl, by simp⟩
  | cons e es ih =>
    intro i acc hat hin hb hnd
    obtain ⟨s, id⟩ := e
    obtain ⟨hid, hkl⟩ := hb (s, id) (by simp)
    simp only at hid hkl
    simp only [List.map_cons, List.flatten_cons, smEntryB, List.length_append] at hat hin
    rw [HasAt.append, HasAt.append, HasAt.append] at hat
    obtain ⟨⟨h1, h2, h3⟩, h4⟩ := hat
    have hv1 := hv.1
    have hp3 := lenB_length_pos id
    simp only [List.length_cons, smConstructGo]
    rw [parseLength_lenB hv hkl h1 (by omega)]
    simp only [ok_bind]
    rw [curAddr_ok (by simp only; omega)]
    simp only [ok_bind]
    rw [skip_bump (by omega)]
    rw [parseLength_lenB hv hid (by rw [show v.base + (i + (lenB s.bytes.length).length + s.bytes.length) =
      v.base + i + (lenB s.bytes.length).length + s.bytes.length by omega]; exact h3) (by omega)]
    simp only [ok_bind]
    rw [show v.base + (i + (lenB s.bytes.length).length) = v.base + i + (lenB s.bytes.length).length by omega]
    rw [h2.readRange (by omega)]
    simp only [ok_bind]
    have hany : (acc.any fun e => decide (e.1.bytes = s.bytes)) = false := by
      rw [List.any_eq_false]
      intro e he
      simp only [decide_eq_true_eq]
      intro heq
      simp only [List.map_append, List.map_cons] at hnd
      rw [List.nodup_append] at hnd
      exact hnd.2.2 _ (List.mem_map.mpr ⟨e, he, rfl⟩) _ (by simp) heq
    simp only [hany, Bool.false_eq_true, if_false, toU32_of_lt hid]
    obtain ⟨r, hr1, hr2, hr3⟩ := ih (i + (lenB s.bytes.length).length + s.bytes.length + (lenB id).length)
      (acc ++ [(⟨s.bytes, some (v.base + i + (lenB s.bytes.length).length, s.bytes.length)⟩, id)])
      (by simp only [List.length_append] at h4
          rw [show v.base + (i + (lenB s.bytes.length).length + s.bytes.length + (lenB id).length) =
            v.base + i + ((lenB s.bytes.length).length + (s.bytes.length + (lenB id).length)) by omega]
          exact h4)
      (by omega) (fun e he => hb e (List.mem_cons_of_mem _ he)) (by simpa using hnd)
    refine ⟨(⟨s.bytes, some (v.base + i + (lenB s.bytes.length).length, s.bytes.length)⟩, id) :: r, ?_, ?_, ?_⟩
    · rw [hr1]; simp
    · simp [hr2]
    · intro e he
      rcases List.mem_cons.mp he with he | he
      · subst he
        exact Str.inside_of_hasAt h2 (by omega)
      · exact hr3 e he

/-- A dictionary read back from its bytes, in whatever order they were written, gives every id its string. -/
theorem smConstruct_eq {cfg wc : Cfg} {v : View} {m : StringMap} (hm : SMInv m) (hv : SizeOk cfg v.len)
    (hmem : v.base + v.len ≤ v.mem.length) (hlen : v.len = (smTableB wc m).length) (hlt : v.len < 2 ^ 32)
    (hat : HasAt v.mem v.base (smTableB wc m)) :
    ∃ m', StringMap.construct cfg v = .ok m' ∧ m'.remap = none ∧
      m'.map.map (fun e => (e.1.bytes, e.2)) = (wc.smOrd m.map).map (fun e => (e.1.bytes, e.2)) ∧
      ∀ e ∈ m'.map, e.1.Inside v.mem := by
  unfold smTableB at hat hlen
  rw [HasAt.append] at hat
  have hb := hm.bound
  rw [List.length_append] at hlen
  have hperm := wc.smPerm m.map
  have hitem : ∀ e ∈ wc.smOrd m.map, e.2 < 2 ^ 32 ∧ e.1.bytes.length < 2 ^ 32 := by
    intro e he
    refine ⟨hm.id_lt (hperm.mem_iff.mp he), ?_⟩
    have : (smEntryB e).length ≤ ((wc.smOrd m.map).map smEntryB).flatten.length := by
      apply List.Sublist.length_le
      exact List.sublist_flatten_of_mem (List.mem_map.mpr ⟨e, he, rfl⟩)
    simp only [smEntryB, List.length_append] at this
    omega
  have hnd : (((wc.smOrd m.map)).map (fun e => e.1.bytes)).Nodup := (hperm.map _).nodup_iff.mpr hm.nodup
  have hpl := parseLength_lenB (cfg := cfg) (v := v) (i := 0) hv hb (by simpa using hat.1) (by omega)
  obtain ⟨r, h1, h2, h3⟩ := smConstructGo_eq hv hmem (wc.smOrd m.map) (0 + (lenB m.map.length).length) []
    (by simpa using hat.2) (by omega) hitem (by simpa using hnd)
  refine ⟨{ map := r }, ?_, rfl, h2, h3⟩
  unfold StringMap.construct
  rw [hpl]
  simp only [ok_bind, toU32_of_lt hb]

  rw [hperm.length_eq] at h1
  rw [h1]
  simp

/-- What the parser may assume of a dictionary: it denotes the strings of `m`, and its views lie in `mem`. -/
def DictOk (cfg : Cfg) (mem : Bytes) (m m' : StringMap) : Prop :=
  ∀ s id, (s, id) ∈ m.map → ∃ s', m'.lookup cfg id = .ok s' ∧ s'.bytes = s.bytes ∧ s'.Inside mem

theorem smConstruct_dict {cfg wc : Cfg} {v : View} {m : StringMap} (hm : SMInv m) (hv : SizeOk cfg v.len)
    (hmem : v.base + v.len ≤ v.mem.length) (hlen : v.len = (smTableB wc m).length) (hlt : v.len < 2 ^ 32)
    (hat : HasAt v.mem v.base (smTableB wc m)) :
    ∃ m', StringMap.construct cfg v = .ok m' ∧ DictOk cfg v.mem m m' := by
  obtain ⟨m', h1, h2, h3, h4⟩ := smConstruct_eq hm hv hmem hlen hlt hat
  refine ⟨m', h1, ?_⟩
  intro s id hs
  have hperm := wc.smPerm m.map
  have hsnd : m'.map.map Prod.snd = (wc.smOrd m.map).map Prod.snd := by
    have := congrArg (List.map Prod.snd) h3
    simpa [List.map_map, Function.comp_def] using this
  have hn : (m'.map.map Prod.snd).Nodup := by
    rw [hsnd]; exact (hperm.map _).nodup_iff.mpr hm.ids_nodup
  have hmem' : (s.bytes, id) ∈ m'.map.map (fun e => (e.1.bytes, e.2)) := by
    rw [h3]
    exact List.mem_map.mpr ⟨(s, id), hperm.mem_iff.mpr hs, rfl⟩
  obtain ⟨e, he1, he2⟩ := List.mem_map.mp hmem'
  simp only [Prod.mk.injEq] at he2
  obtain ⟨e1, e2⟩ := e
  simp only at he2
  obtain ⟨he3, rfl⟩ := he2
  exact ⟨e1, lookup_mem h2 hn he1, he3, h4 _ he1⟩

/-! ### SplitInfo -/

def siEntryB (e : Nat × List Nat) : Bytes := lenB e.1 ++ (lenB e.2.length ++ ((e.2.take (toU32 e.2.length)).map lenB).flatten)

def siTableB (cfg : Cfg) (si : SplitInfo) : Bytes := lenB si.info.length ++ ((cfg.siOrd si.info).map siEntryB).flatten

theorem siBlocksGo_eq {cfg : Cfg} (hc : cfg.charSigned = true) (bs : List Nat) (ret : Bytes) :
    siBlocksGo cfg bs ret = .ok (ret ++ (bs.map lenB).flatten) := by
  induction bs generalizing ret with
  | nil => simp [siBlocksGo]
  | cons b bs ih => simp [siBlocksGo, seriLength_eq hc, ih]

theorem siSerializeGo_eq {cfg : Cfg} (hc : cfg.charSigned = true) (es : List (Nat × List Nat)) (ret : Bytes) :
    siSerializeGo cfg es ret = .ok (ret ++ (es.map siEntryB).flatten) := by
  induction es generalizing ret with
  | nil => simp [siSerializeGo]
  | cons e es ih =>
    obtain ⟨id, bs⟩ := e
    simp [siSerializeGo, seriLength_eq hc, siBlocksGo_eq hc, ih, siEntryB, lenB, toU32_idem]

theorem siSerialize_eq {cfg : Cfg} (hc : cfg.charSigned = true) (si : SplitInfo) :
    si.serialize cfg = .ok (siTableB cfg si) := by
  simp [SplitInfo.serialize, seriLength_eq hc, siSerializeGo_eq hc, siTableB, lenB, toU32_idem]

theorem siParseBlocks_eq {cfg : Cfg} {v : View} (hv : SizeOk cfg v.len) : ∀ (bs : List Nat) (i : Nat),
    HasAt v.mem (v.base + i) (bs.map lenB).flatten → i + (bs.map lenB).flatten.length ≤ v.len →
    (∀ b ∈ bs, b < 2 ^ 32) →
    siParseBlocks cfg v bs.length ⟨i, i⟩ =
      .ok (bs, ⟨i + (bs.map lenB).flatten.length, i + (bs.map lenB).flatten.length⟩) := by
  intro bs
  induction bs with
  | nil => intro i _ _ _; simp [siParseBlocks]
  | cons b bs ih =>
    intro i hat hin hb
    simp only [List.map_cons, List.flatten_cons, List.length_append] at hat hin
    rw [HasAt.append] at hat
    have hb0 := hb b (by simp)
    simp only [List.length_cons, siParseBlocks]
    rw [parseLength_lenB hv hb0 hat.1 (by omega)]
    simp only [ok_bind]
    rw [ih _ (by rw [← Nat.add_assoc]; exact hat.2) (by omega) (fun b' h' => hb b' (List.mem_cons_of_mem _ h'))]
    simp only [ok_bind, pure_eq_ok, toU32_of_lt hb0, List.map_cons, List.flatten_cons, List.length_append,
      Nat.add_assoc]

theorem siConstructGo_eq {cfg : Cfg} {v : View} (hv : SizeOk cfg v.len) :
    ∀ (es : List (Nat × List Nat)) (i : Nat) (ret : SplitInfo),
    HasAt v.mem (v.base + i) (es.map siEntryB).flatten → i + (es.map siEntryB).flatten.length ≤ v.len →
    (∀ e ∈ es, e.1 < 2 ^ 32 ∧ e.2.length < 2 ^ 32 ∧ ∀ b ∈ e.2, b < 2 ^ 32) →
    ((ret.info ++ es).map Prod.fst).Nodup →
    ∃ r, siConstructGo cfg v es.length ⟨i, i⟩ ret = .ok r ∧ r.info = ret.info ++ es := by
  intro es
  induction es with
  | nil => intro i ret _ _ _ _; exact ⟨ret, by simp [siConstructGo], by simp⟩
  | cons e es ih =>
    intro i ret hat hin hb hnd
    obtain ⟨id, bs⟩ := e
    obtain ⟨hid, hbl, hbb⟩ := hb (id, bs) (by simp)
    simp only at hid hbl hbb
    have htake : bs.take (toU32 bs.length) = bs := by rw [toU32_of_lt hbl]; simp
    simp only [List.map_cons, List.flatten_cons, siEntryB, List.length_append, htake] at hat hin
    rw [HasAt.append, HasAt.append, HasAt.append] at hat
    obtain ⟨⟨h1, h2, h3⟩, h4⟩ := hat
    simp only [List.length_cons, siConstructGo]
    rw [parseLength_lenB hv hid h1 (by omega)]
    simp only [ok_bind]
    rw [parseLength_lenB hv hbl (by rw [← Nat.add_assoc]; exact h2) (by omega)]
    simp only [ok_bind, toU32_of_lt hid, toU32_of_lt hbl]
    rw [siParseBlocks_eq hv bs _ (by rw [← Nat.add_assoc, ← Nat.add_assoc]; exact h3) (by omega) hbb]
    simp only [ok_bind]
    have hfresh : id ∉ ret.info.map Prod.fst := by
      intro hm
      simp only [List.map_append, List.map_cons] at hnd
      rw [List.nodup_append] at hnd
      exact hnd.2.2 _ hm _ (by simp) rfl
    rw [assocGet_none hfresh]
    simp only [Option.isSome_none, Bool.false_eq_true, if_false]
    have key : ∀ r0 : SplitInfo, r0.info = ret.info ++ [(id, bs)] →
      ∃ r, siConstructGo cfg v es.length
        ⟨i + (lenB id).length + (lenB bs.length).length + (bs.map lenB).flatten.length,
          i + (lenB id).length + (lenB bs.length).length + (bs.map lenB).flatten.length⟩ r0 = .ok r ∧
        r.info = ret.info ++ (id, bs) :: es := by
      intro r0 hr0
      obtain ⟨r, hr1, hr2⟩ := ih (i + (lenB id).length + (lenB bs.length).length + (bs.map lenB).flatten.length) r0
        (by simp only [List.length_append, htake] at h4
            rw [show v.base + (i + (lenB id).length + (lenB bs.length).length + (bs.map lenB).flatten.length) =
              v.base + i + ((lenB id).length + ((lenB bs.length).length + (bs.map lenB).flatten.length)) by omega]
            exact h4)
        (by omega) (fun e he => hb e (List.mem_cons_of_mem _ he)) (by rw [hr0]; simpa using hnd)
      exact ⟨r, hr1, by rw [hr2, hr0]; simp⟩
    split
    · exact key _ rfl
    · exact key _ rfl

/-- A split table read back from its bytes holds the same blocks. -/
theorem siConstruct_eq {cfg wc : Cfg} {v : View} {si : SplitInfo} (hsi : SIInv si)
    (hblocks : ∀ e ∈ si.info, ∀ b ∈ e.2, b < 2 ^ 32) (hv : SizeOk cfg v.len)
    (hlen : v.len = (siTableB wc si).length) (hlt : v.len < 2 ^ 32)
    (hcnt : ∀ e ∈ si.info, e.2.length < 2 ^ 32)
    (hat : HasAt v.mem v.base (siTableB wc si)) :
    ∃ si', SplitInfo.construct cfg v = .ok si' ∧ si'.info = wc.siOrd si.info := by
  unfold siTableB at hat hlen
  rw [HasAt.append] at hat
  rw [List.length_append] at hlen
  have hperm := wc.siPerm si.info
  have hent : ∀ e : Nat × List Nat, 1 ≤ (siEntryB e).length := by
    intro e; have := lenB_length_pos e.1; simp only [siEntryB, List.length_append]; omega
  have hcount : ∀ l : List (Nat × List Nat), l.length ≤ (l.map siEntryB).flatten.length := by
    intro l
    induction l with
    | nil => simp
    | cons e l ih => simp only [List.map_cons, List.flatten_cons, List.length_append, List.length_cons]
                     have := hent e; omega
  have hb : si.info.length < 2 ^ 32 := by
    have := hcount (wc.siOrd si.info)
    rw [hperm.length_eq] at this; omega
  have hitem : ∀ e ∈ wc.siOrd si.info, e.1 < 2 ^ 32 ∧ e.2.length < 2 ^ 32 ∧ ∀ b ∈ e.2, b < 2 ^ 32 := by
    intro e he
    have he' := hperm.mem_iff.mp he
    refine ⟨?_, hcnt e he', hblocks e he'⟩
    have h1 := hsi.lt e.1 (List.mem_map.mpr ⟨e, he', rfl⟩)
    have h2 := hsi.bound
    omega
  have hnd : (((wc.siOrd si.info)).map Prod.fst).Nodup := (hperm.map _).nodup_iff.mpr hsi.nodup
  have hpl := parseLength_lenB (cfg := cfg) (v := v) (i := 0) hv hb (by simpa using hat.1) (by omega)
  obtain ⟨r, h1, h2⟩ := siConstructGo_eq hv (wc.siOrd si.info) (0 + (lenB si.info.length).length) {}
    (by simpa using hat.2) (by omega) hitem (by simpa using hnd)
  refine ⟨r, ?_, by simpa using h2⟩
  unfold SplitInfo.construct
  rw [hpl]
  simp only [ok_bind, toU32_of_lt hb]
  rw [hperm.length_eq] at h1
  rw [h1]

theorem getBlocks_mem {si : SplitInfo} (hn : (si.info.map Prod.fst).Nodup) {id : Nat} {bs : List Nat}
    (h : (id, bs) ∈ si.info) : si.getBlocks id = .ok bs := by
  unfold SplitInfo.getBlocks
  rw [assocGet_mem hn h]

end Bridge
