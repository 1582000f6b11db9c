import Verif.Proof.Sound
import Verif.Proof.Fuel
/-
The parsers stop on every content in which no number field takes ten bytes.
-/
set_option autoImplicit false
namespace Bridge
open Spec

/-- The call stops, and if it returns normally its result satisfies `P`. -/
def Good {α : Type} (r : Res α) (P : α → Prop) : Prop :=
  match r with
  | .ok a => P a
  | .error e => e ≠ .fuel

theorem Good.bind {α β : Type} {x : Res α} {f : α → Res β} {P : α → Prop} {Q : β → Prop} (h : Good x P)
    (hf : ∀ a, P a → Good (f a) Q) : Good (x >>= f) Q := by
  cases x with
  | ok a => exact hf a h
  | error e => exact h

theorem Good.mono {α : Type} {x : Res α} {P Q : α → Prop} (h : Good x P) (hf : ∀ a, P a → Q a) : Good x Q := by
  cases x with
  | ok a => exact hf a h
  | error e => exact h

theorem Good.pure {α : Type} {a : α} {P : α → Prop} (h : P a) : Good (pure a : Res α) P := h

theorem Good.ne {α : Type} {x : Res α} {P : α → Prop} (h : Good x P) : x ≠ .error .fuel := by
  intro e; rw [e] at h; exact h rfl

def Any {α : Type} : α → Prop := fun _ => True

theorem Good.of_ne {α : Type} {x : Res α} (h : x ≠ .error .fuel) : Good x Any := by
  cases x with
  | ok a => trivial
  | error e => intro he; exact h (by rw [he])

theorem good_readByte (mem : Bytes) (a : Nat) : Good (readByte mem a) Any := by
  unfold readByte
  split
  · trivial
  · split
    · trivial
    · simp [Good]

theorem good_readRange (mem : Bytes) (a n : Nat) : Good (readRange mem a n) Any := by
  unfold readRange
  split
  · trivial
  · simp [Good]

theorem good_varintDecodeGo (cfg : Cfg) (mem : Bytes) (addr : Nat) (len : Int) : ∀ k i acc,
    Good (varintDecodeGo cfg mem addr len k i acc) Any := by
  intro k
  induction k with
  | zero =>
    intro i acc
    unfold varintDecodeGo
    exact .bind (good_readByte _ _) fun _ _ => by simp [Good]
  | succ k ih =>
    intro i acc
    unfold varintDecodeGo
    refine .bind (good_readByte _ _) fun b _ => ?_
    simp only
    split
    · split
      · simp [Good]
      · exact ih _ _
    · trivial

theorem good_parseLength_any (cfg : Cfg) (v : View) (c : Cur) : Good (parseLength cfg v c) Any := by
  unfold parseLength
  refine .bind (P := Any) ?_ fun _ _ => .bind (P := Any) ?_ fun a _ => .bind (good_varintDecodeGo _ _ _ _ _ _ _) fun _ _ =>
    .bind (P := Any) ?_ fun _ _ => trivial
  · unfold checkEmpty; split <;> simp [Good, Any]
  · unfold curAddr; split <;> simp [Good, Any]
  · unfold checkOOR; split <;> simp [Good, Any]

/-- One step forward, staying inside. -/
def Fwd (len i : Nat) (c : Cur) : Prop := ∃ j, c = ⟨j, j⟩ ∧ i < j ∧ j ≤ len

/-- One step forward. -/
def Up (i : Nat) (c : Cur) : Prop := ∃ j, c = ⟨j, j⟩ ∧ i < j ∧ j < 2 ^ 64

section
variable {cfg : Cfg} {mem : Bytes}

theorem good_parseLength (hc : mem.length < 2 ^ 63) (hs : ShortNumbers mem) (i : Nat) :
    Good (parseLength cfg (View.whole mem) ⟨i, i⟩) (fun p => Fwd mem.length i p.2 ∧ p.1 < 2 ^ 63) := by
  cases h : parseLength cfg (View.whole mem) ⟨i, i⟩ with
  | error e =>
    have := (good_parseLength_any cfg (View.whole mem) ⟨i, i⟩).ne
    rw [h] at this
    intro he
    subst he
    exact this rfl
  | ok p =>
    obtain ⟨n, c⟩ := p
    obtain ⟨bs, f1, f2, f3, rfl⟩ := parseLength_inv hc h
    have := isLeb_pos f1.1
    exact ⟨⟨_, rfl, by omega, f3⟩, short_field hs f1 f2⟩

theorem good_curAddr (i : Nat) : Good (curAddr (View.whole mem) ⟨i, i⟩) (fun a => a = i ∧ i < mem.length) := by
  unfold curAddr View.whole
  simp only
  split
  · simp [Good]
  · simp [Good]; omega

theorem good_checkOOR (i j : Nat) : Good (checkOOR (View.whole mem) ⟨i, j⟩) (fun _ => i ≤ mem.length) := by
  unfold checkOOR View.whole
  simp only
  split
  · simp [Good]
  · simp [Good]; omega

theorem good_checkEmpty (v : View) (c : Cur) : Good (checkEmpty v c) Any := by
  unfold checkEmpty; split <;> simp [Good, Any]

theorem good_parseDataType (hc : mem.length < 2 ^ 63) (i : Nat) :
    Good (parseDataType (View.whole mem) ⟨i, i⟩) (fun p => Fwd mem.length i p.2) := by
  unfold parseDataType
  refine .bind (good_checkEmpty _ _) fun _ _ => .bind (good_curAddr i) fun a ha => .bind (good_readByte _ _) fun b _ => ?_
  obtain ⟨rfl, hlt⟩ := ha
  simp only
  rw [skip_eq (by omega), bump_eq (by omega)]
  exact .bind (good_checkOOR _ _) fun _ h => ⟨_, rfl, by omega, h⟩

theorem good_parseObjectType (hc : mem.length < 2 ^ 63) (i : Nat) :
    Good (parseObjectType (View.whole mem) ⟨i, i⟩) (fun p => Fwd mem.length i p.2) := by
  unfold parseObjectType
  refine .bind (good_checkEmpty _ _) fun _ _ => .bind (good_curAddr i) fun a ha => .bind (good_readByte _ _) fun b _ => ?_
  obtain ⟨rfl, hlt⟩ := ha
  simp only
  rw [skip_eq (by omega), bump_eq (by omega)]
  refine .bind (good_checkOOR _ _) fun _ h => ?_
  split
  · simp [Good]
  · exact ⟨_, rfl, by omega, h⟩

theorem good_parseObjectTypeSplit (hc : mem.length < 2 ^ 63) (i : Nat) :
    Good (parseObjectTypeSplit (View.whole mem) ⟨i, i⟩) (fun p => Fwd mem.length i p.2.2) := by
  unfold parseObjectTypeSplit
  refine .bind (good_checkEmpty _ _) fun _ _ => .bind (good_curAddr i) fun a ha => .bind (good_readByte _ _) fun b _ => ?_
  obtain ⟨rfl, hlt⟩ := ha
  simp only
  rw [skip_eq (by omega), bump_eq (by omega)]
  refine .bind (good_checkOOR _ _) fun _ h => ?_
  split
  · simp [Good]
  · exact ⟨_, rfl, by omega, h⟩

theorem good_parseNum (k : Nat) (m : Bytes) (p len : Nat) : Good (parseNum cfg k m p len) Any := by
  unfold parseNum
  split
  · simp [Good]
  split
  · simp [Good]
  · exact .bind (good_readRange _ _ _) fun _ _ => trivial

theorem good_parseDataOwn (dt : UInt8) (m : Bytes) (p len : Nat) : Good (parseDataOwn cfg dt m p len) Any := by
  unfold parseDataOwn
  split
  · exact .bind (good_readRange _ _ _) fun _ _ => trivial
  split
  · split
    · simp [Good]
    · exact .bind (good_readRange _ _ _) fun _ _ => trivial
  split
  · exact .bind (good_parseNum _ _ _ _) fun _ _ => trivial
  split
  · exact .bind (good_parseNum _ _ _ _) fun _ _ => trivial
  split
  · exact .bind (good_parseNum _ _ _ _) fun _ _ => trivial
  split
  · exact .bind (good_parseNum _ _ _ _) fun _ _ => trivial
  split
  · exact .bind (good_parseNum _ _ _ _) fun _ _ => trivial
  split
  · exact .bind (good_parseNum _ _ _ _) fun _ _ => trivial
  · simp [Good]

theorem good_parseDataView (dt : UInt8) (m : Bytes) (p len : Nat) : Good (parseDataView cfg dt m p len) Any := by
  unfold parseDataView
  split
  · trivial
  split
  · exact .bind (good_parseNum _ _ _ _) fun _ _ => trivial
  split
  · exact .bind (good_parseNum _ _ _ _) fun _ _ => trivial
  split
  · exact .bind (good_parseNum _ _ _ _) fun _ _ => trivial
  split
  · exact .bind (good_parseNum _ _ _ _) fun _ _ => trivial
  split
  · exact .bind (good_parseNum _ _ _ _) fun _ _ => trivial
  split
  · exact .bind (good_parseNum _ _ _ _) fun _ _ => trivial
  · simp [Good]

theorem good_lookup (m : StringMap) (id : Nat) : Good (m.lookup cfg id) Any := by
  unfold StringMap.lookup StringMap.getStr
  simp only
  split
  · simp [Good]
  · trivial

theorem good_checkDataType (dt : UInt8) : Good (checkDataType dt) Any := by
  unfold checkDataType
  split
  · simp [Good]
  · trivial

/-- Skipping a payload whose length came from a short number field. -/
theorem good_skip {α : Type} (hc : mem.length < 2 ^ 63) {i j n : Nat} {p : α} (hi : i < j) (hj : j ≤ mem.length) (hn : n < 2 ^ 63) :
    Good (do
      checkOOR (View.whole mem) (skip ⟨j, j⟩ n)
      pure (p, bump (skip ⟨j, j⟩ n) n)) (fun q => Fwd mem.length i q.2) := by
  rw [skip_eq (by omega), bump_eq (by omega)]
  exact .bind (good_checkOOR _ _) fun _ h => ⟨_, rfl, by omega, h⟩

theorem good_leafOwn2 (hc : mem.length < 2 ^ 63) (hs : ShortNumbers mem) (sm : Option StringMap) (i : Nat) :
    Good (parseDataObj cfg (View.whole mem) sm ⟨i, i⟩) (fun p => Fwd mem.length (i + 1) p.2) := by
  unfold parseDataObj
  refine .bind (good_parseDataType hc i) fun p hp => ?_
  obtain ⟨dt, c⟩ := p
  obtain ⟨j, rfl, h1, h2⟩ := hp
  simp only
  refine .bind (good_checkDataType _) fun _ _ => ?_
  split
  · refine .bind (good_parseLength hc hs j) fun p hp => .bind (good_lookup _ _) fun _ _ => ?_
    obtain ⟨n, c⟩ := p
    obtain ⟨⟨k, rfl, h3, h4⟩, -⟩ := hp
    exact ⟨k, rfl, by omega, h4⟩
  · refine .bind (good_parseLength hc hs j) fun p hp => ?_
    obtain ⟨n, c⟩ := p
    obtain ⟨⟨k, rfl, h3, h4⟩, hn⟩ := hp
    simp only
    refine .bind (good_curAddr _) fun a _ => .bind (good_parseDataOwn _ _ _ _) fun q _ => ?_
    exact good_skip hc (by omega) h4 hn

theorem good_leafOwn (hc : mem.length < 2 ^ 63) (hs : ShortNumbers mem) (sm : Option StringMap) (i : Nat) :
    Good (parseDataObj cfg (View.whole mem) sm ⟨i, i⟩) (fun p => Fwd mem.length i p.2) :=
  (good_leafOwn2 hc hs sm i).mono fun _ ⟨j, h1, h2, h3⟩ => ⟨j, h1, by omega, h3⟩

theorem good_leafView2 (hc : mem.length < 2 ^ 63) (hs : ShortNumbers mem) (sm : Option StringMap) (i : Nat) :
    Good (parseViewObj cfg (View.whole mem) sm ⟨i, i⟩) (fun p => Fwd mem.length (i + 1) p.2) := by
  unfold parseViewObj
  refine .bind (good_parseDataType hc i) fun p hp => ?_
  obtain ⟨dt, c⟩ := p
  obtain ⟨j, rfl, h1, h2⟩ := hp
  simp only
  refine .bind (good_checkDataType _) fun _ _ => ?_
  split
  · refine .bind (good_parseLength hc hs j) fun p hp => .bind (good_lookup _ _) fun _ _ => ?_
    obtain ⟨n, c⟩ := p
    obtain ⟨⟨k, rfl, h3, h4⟩, -⟩ := hp
    exact ⟨k, rfl, by omega, h4⟩
  · refine .bind (good_parseLength hc hs j) fun p hp => ?_
    obtain ⟨n, c⟩ := p
    obtain ⟨⟨k, rfl, h3, h4⟩, hn⟩ := hp
    simp only
    refine .bind (good_curAddr _) fun a _ => .bind (good_parseDataView _ _ _ _) fun q _ => ?_
    exact good_skip hc (by omega) h4 hn

theorem good_leafView (hc : mem.length < 2 ^ 63) (hs : ShortNumbers mem) (sm : Option StringMap) (i : Nat) :
    Good (parseViewObj cfg (View.whole mem) sm ⟨i, i⟩) (fun p => Fwd mem.length i p.2) :=
  (good_leafView2 hc hs sm i).mono fun _ ⟨j, h1, h2, h3⟩ => ⟨j, h1, by omega, h3⟩

theorem good_parseKey (hc : mem.length < 2 ^ 63) (hs : ShortNumbers mem) (sm : Option StringMap) (i : Nat) :
    Good (parseKey cfg (View.whole mem) sm ⟨i, i⟩) (fun p => Fwd mem.length i p.2) := by
  unfold parseKey
  split
  · refine .bind (good_parseLength hc hs i) fun p hp => ?_
    obtain ⟨n, c⟩ := p
    obtain ⟨⟨k, rfl, h3, h4⟩, hn⟩ := hp
    simp only
    refine .bind (good_curAddr _) fun a _ => ?_
    exact good_skip hc (by omega) h4 hn
  · refine .bind (good_parseLength hc hs i) fun p hp => .bind (good_lookup _ _) fun _ _ => ?_
    exact hp.1

theorem good_ownKey (v : View) (ref : Bool) (k : Str) : Good (ownKey cfg v ref k) Any := by
  unfold ownKey
  split
  · trivial
  split
  · trivial
  split
  · simp [Good]
  · exact .bind (good_readRange _ _ _) fun _ _ => trivial

theorem good_parseKeyBlock (hc : mem.length < 2 ^ 63) (hs : ShortNumbers mem) (sm : Option StringMap) (ref : Bool) (i : Nat) :
    Good (parseKeyBlock cfg (View.whole mem) sm ref ⟨i, i⟩) (fun p => Up i p.2) := by
  unfold parseKeyBlock
  split
  · refine .bind (good_parseLength hc hs i) fun p hp => ?_
    obtain ⟨n, c⟩ := p
    obtain ⟨⟨k, rfl, h3, h4⟩, hn⟩ := hp
    simp only
    refine .bind (good_curAddr _) fun a _ => .bind (good_ownKey _ _ _) fun _ _ => ?_
    have hu := toU32_lt n
    rw [skip_eq (by omega), bump_eq (by omega)]
    exact ⟨_, rfl, by omega, by omega⟩
  · refine .bind (good_parseLength hc hs i) fun p hp => .bind (good_lookup _ _) fun _ _ => .bind (good_ownKey _ _ _) fun _ _ => ?_
    obtain ⟨n, c⟩ := p
    obtain ⟨⟨k, rfl, h3, h4⟩, hn⟩ := hp
    exact ⟨k, rfl, h3, by omega⟩

/-- The recursive parser needs no more steps than bytes are left. -/
theorem good_parse (hc : mem.length < 2 ^ 63) (hs : ShortNumbers mem) (sm : Option StringMap) (ref : Bool) (pool : PoolRef) :
    ∀ f : Nat,
    (∀ t i, mem.length - i + 1 ≤ f → Good (parseVal cfg (View.whole mem) sm ref pool f t ⟨i, i⟩) (fun p => Fwd mem.length i p.2)) ∧
    (∀ n i, i ≤ mem.length → mem.length - i + 1 ≤ f → Good (parseItems cfg (View.whole mem) sm ref pool f n ⟨i, i⟩)
      (fun p => ∃ j, p.2 = ⟨j, j⟩ ∧ i ≤ j ∧ j ≤ mem.length)) ∧
    (∀ n i acc, i ≤ mem.length → mem.length - i + 1 ≤ f → Good (parseKVs cfg (View.whole mem) sm ref pool f n ⟨i, i⟩ acc)
      (fun p => ∃ j, p.2 = ⟨j, j⟩ ∧ i ≤ j ∧ j ≤ mem.length)) := by
  intro f
  induction f with
  | zero =>
    refine ⟨?_, ?_, ?_⟩
    · intro t i h; omega
    · intro n i _ h; omega
    · intro n i acc _ h; omega
  | succ f ih =>
    obtain ⟨ihV, ihI, ihK⟩ := ih
    refine ⟨?_, ?_, ?_⟩
    · intro t i hf
      cases t with
      | invalid => simp [parseVal, Good]
      | data =>
        simp only [parseVal]
        split
        · exact good_leafView hc hs sm i
        · exact good_leafOwn hc hs sm i
      | array =>
        simp only [parseVal]
        refine .bind (good_parseLength hc hs i) fun p hp => ?_
        obtain ⟨n, c⟩ := p
        obtain ⟨⟨j, rfl, h1, h2⟩, -⟩ := hp
        refine .bind (good_parseLength hc hs j) fun p hp => ?_
        obtain ⟨id, c⟩ := p
        obtain ⟨⟨k, rfl, h3, h4⟩, -⟩ := hp
        refine .bind (ihI _ _ h4 (by omega)) fun q hq => ?_
        obtain ⟨items, c⟩ := q
        obtain ⟨l, rfl, h5, h6⟩ := hq
        exact ⟨l, rfl, by omega, h6⟩
      | map =>
        simp only [parseVal]
        refine .bind (good_parseLength hc hs i) fun p hp => ?_
        obtain ⟨n, c⟩ := p
        obtain ⟨⟨j, rfl, h1, h2⟩, -⟩ := hp
        refine .bind (good_parseLength hc hs j) fun p hp => ?_
        obtain ⟨id, c⟩ := p
        obtain ⟨⟨k, rfl, h3, h4⟩, -⟩ := hp
        refine .bind (ihK _ _ _ h4 (by omega)) fun q hq => ?_
        obtain ⟨items, c⟩ := q
        obtain ⟨l, rfl, h5, h6⟩ := hq
        exact ⟨l, rfl, by omega, h6⟩
    · intro n i hi hf
      cases n with
      | zero => simp only [parseItems]; exact ⟨i, rfl, Nat.le_refl _, hi⟩
      | succ n =>
        simp only [parseItems]
        refine .bind (good_parseObjectType hc i) fun p hp => ?_
        obtain ⟨t, c⟩ := p
        obtain ⟨j, rfl, h1, h2⟩ := hp
        refine .bind (ihV t j (by omega)) fun p hp => ?_
        obtain ⟨o, c⟩ := p
        obtain ⟨k, rfl, h3, h4⟩ := hp
        refine .bind (ihI n k h4 (by omega)) fun p hp => ?_
        obtain ⟨rest, c⟩ := p
        obtain ⟨l, rfl, h5, h6⟩ := hp
        exact ⟨l, rfl, by omega, h6⟩
    · intro n i acc hi hf
      cases n with
      | zero => simp only [parseKVs]; exact ⟨i, rfl, Nat.le_refl _, hi⟩
      | succ n =>
        simp only [parseKVs]
        refine .bind (good_parseKey hc hs sm i) fun p hp => ?_
        obtain ⟨key, c⟩ := p
        obtain ⟨i', rfl, h1', h2'⟩ := hp
        refine .bind (good_parseObjectType hc i') fun p hp => ?_
        obtain ⟨t, c⟩ := p
        obtain ⟨j, rfl, h1, h2⟩ := hp
        refine .bind (ihV t j (by omega)) fun p hp => ?_
        obtain ⟨o, c⟩ := p
        obtain ⟨k, rfl, h3, h4⟩ := hp
        refine .bind (good_ownKey _ _ _) fun key' _ => ?_
        refine Good.mono (ihK n k _ h4 (by omega)) fun p hp => ?_
        obtain ⟨l, e, h5, h6⟩ := hp
        exact ⟨l, e, by omega, h6⟩

theorem blockBounds_up {total : Nat} : ∀ (ss : List Nat) (b : Nat), b + ss.sum ≤ total → total < 2 ^ 64 →
    (∀ be ∈ (blockBounds b ss).1, b ≤ be.1 ∧ be.1 < 2 ^ 64) ∧ b ≤ (blockBounds b ss).2 ∧ (blockBounds b ss).2 < 2 ^ 64 := by
  intro ss
  induction ss with
  | nil => intro b h ht; simp only [blockBounds, List.sum_nil] at *; exact ⟨by simp, by omega, by omega⟩
  | cons s ss ih =>
    intro b h ht
    simp only [List.sum_cons] at h
    have he : addW b s = b + s := addW_of_lt (by omega)
    obtain ⟨h1, h2, h3⟩ := ih (b + s) (by omega) ht
    simp only [blockBounds, he]
    refine ⟨?_, by omega, h3⟩
    intro be hbe
    rcases List.mem_cons.mp hbe with rfl | hbe
    · simp only; omega
    · have := h1 be hbe; omega

theorem sum_le_mul {l : List Nat} {n : Nat} (h : ∀ x ∈ l, x ≤ n) : l.sum ≤ l.length * n := by
  induction l with
  | nil => simp
  | cons x l ih =>
    have h1 := h x (by simp)
    have h2 := ih (fun y hy => h y (List.mem_cons_of_mem _ hy))
    simp only [List.sum_cons, List.length_cons, Nat.add_mul]; omega

/-- The split table has fewer than 2^32 blocks per container, of less than 4 GiB each. -/
def Small (si : SplitInfo) : Prop := ∀ e ∈ si.info, e.2.length < 2 ^ 32 ∧ ∀ b ∈ e.2, b < 2 ^ 32

theorem Small.sum {si : SplitInfo} (h : Small si) {id : Nat} {bs : List Nat} (hb : si.getBlocks id = .ok bs) :
    bs.sum ≤ (2 ^ 32 - 1) * (2 ^ 32 - 1) := by
  unfold SplitInfo.getBlocks at hb
  split at hb
  · rename_i b hg
    simp only [Except.ok.injEq] at hb
    subst hb
    have hm := assocGet_some_mem hg
    obtain ⟨h1, h2⟩ := h _ hm
    simp only at h1 h2
    have h3 := sum_le_mul (l := b) (n := 2 ^ 32 - 1) (fun x hx => by have := h2 x hx; omega)
    have h4 : b.length * (2 ^ 32 - 1) ≤ (2 ^ 32 - 1) * (2 ^ 32 - 1) := Nat.mul_le_mul_right _ (by omega)
    exact Nat.le_trans h3 h4
  · cases hb

theorem good_getBlocks {si : SplitInfo} (h : Small si) (id : Nat) :
    Good (si.getBlocks id) (fun bs => bs.sum ≤ (2 ^ 32 - 1) * (2 ^ 32 - 1)) := by
  cases hb : si.getBlocks id with
  | ok bs => exact h.sum hb
  | error e =>
    unfold SplitInfo.getBlocks at hb
    split at hb
    · cases hb
    · simp only [Except.error.injEq] at hb
      subst hb
      simp [Good]

theorem good_mapM {α : Type} : ∀ (rs : List (Res α)), (∀ r ∈ rs, Good r Any) → Good (rs.mapM id) Any := by
  intro rs
  induction rs with
  | nil => intro _; rw [List.mapM_nil]; trivial
  | cons r rs ih =>
    intro h
    rw [List.mapM_cons]
    exact .bind (h r (by simp)) fun _ _ => .bind (ih fun r hr => h r (List.mem_cons_of_mem _ hr)) fun _ _ => trivial

theorem good_joinTasks {α : Type} (rs : List (Res α)) (h : ∀ r ∈ rs, Good r Any) : Good (joinTasks rs) Any := by
  have hf : ∀ e, e ∈ rs.filterMap failure? → e ≠ .fuel := by
    intro e he
    obtain ⟨r, hr, hre⟩ := List.mem_filterMap.mp he
    have := h r hr
    cases r with
    | ok a => simp [failure?] at hre
    | error e' => simp only [failure?, Option.some.injEq] at hre; subst hre; exact this
  unfold joinTasks
  simp only
  split
  · rename_i e he; exact hf e (List.mem_of_find?_eq_some he)
  split
  · rename_i e he; exact hf e (List.mem_of_find?_eq_some he)
  split
  · rename_i e he; exact hf e (List.mem_of_find?_eq_some he)
  · exact good_mapM rs h

theorem good_coChild {split : Bool} {t : ObjectType} {a b c : Res (Obj × Cur)} {P : Obj × Cur → Prop} (ha : Good a P) (hb : Good b P)
    (hc : Good c P) : Good (coChild split t a b c) P := by
  unfold coChild
  split
  · cases t with
    | array => exact hb
    | map => exact hc
    | data => simp [Good]
    | invalid => simp [Good]
  · exact ha

/-- The parallel parser needs no more steps than bytes are left. -/
theorem good_co (hc : mem.length < 2 ^ 32) (hs : ShortNumbers mem) (sm : Option StringMap) (si : SplitInfo) (hsi : Small si)
    (ref : Bool) : ∀ f : Nat,
    (∀ e i, mem.length - i + 1 ≤ f → Good (coArrayBlock cfg (View.whole mem) sm si ref f e ⟨i, i⟩) Any) ∧
    (∀ i, i < 2 ^ 64 → mem.length - i + 1 ≤ f → Good (coArray cfg (View.whole mem) sm si ref f i) (fun p => Up i p.2)) ∧
    (∀ e i, mem.length - i + 1 ≤ f → Good (coMapBlock cfg (View.whole mem) sm si ref f e ⟨i, i⟩) Any) ∧
    (∀ i, i < 2 ^ 64 → mem.length - i + 1 ≤ f → Good (coMap cfg (View.whole mem) sm si ref f i) (fun p => Up i p.2)) := by
  have hc' : mem.length < 2 ^ 63 := by omega
  intro f
  induction f with
  | zero =>
    refine ⟨?_, ?_, ?_, ?_⟩
    · intro e i h; omega
    · intro i _ h; omega
    · intro e i h; omega
    · intro i _ h; omega
  | succ f ih =>
    obtain ⟨ihA, ihAA, ihM, ihMM⟩ := ih
    have up : ∀ {i : Nat} {p : Obj × Cur}, Fwd mem.length i p.2 → Up i p.2 := by
      intro i p h
      obtain ⟨j, h1, h2, h3⟩ := h
      exact ⟨j, h1, h2, by omega⟩
    have ihV := (good_parse (cfg := cfg) hc' hs sm ref .frame f).1
    refine ⟨?_, ?_, ?_, ?_⟩
    · intro e i hf
      simp only [coArrayBlock]
      split
      · refine .bind (good_parseObjectTypeSplit hc' i) fun p hp => ?_
        obtain ⟨t, sp, c⟩ := p
        obtain ⟨j, rfl, h1, h2⟩ := hp
        simp only
        refine .bind (good_coChild ((ihV t j (by omega)).mono fun _ => up) (ihAA j (by omega) (by omega))
          (ihMM j (by omega) (by omega))) fun p hp => ?_
        obtain ⟨o, c⟩ := p
        obtain ⟨k, rfl, h3, h4⟩ := hp
        exact .bind (ihA e k (by omega)) fun _ _ => trivial
      · trivial
    · intro i hi hf
      simp only [coArray]
      rw [show addW 0 i = i by rw [addW_of_lt (by omega), Nat.zero_add]]
      refine .bind (good_parseLength hc' hs i) fun p hp => ?_
      obtain ⟨n, c⟩ := p
      obtain ⟨⟨j, rfl, h1, h2⟩, -⟩ := hp
      refine .bind (good_parseLength hc' hs j) fun p hp => ?_
      obtain ⟨id, c⟩ := p
      obtain ⟨⟨k, rfl, h3, h4⟩, -⟩ := hp
      refine .bind (good_getBlocks hsi _) fun bs hbs => ?_
      obtain ⟨g1, g2, g3⟩ := blockBounds_up bs k (Nat.le_refl _) (by omega)
      simp only
      refine .bind (good_joinTasks _ ?_) fun objs _ => ⟨_, rfl, by omega, g3⟩
      intro r hr
      rw [List.mem_reverse, List.mem_map] at hr
      obtain ⟨be, hbe, rfl⟩ := hr
      obtain ⟨q1, q2⟩ := g1 be hbe
      rw [show addW 0 be.1 = be.1 by rw [addW_of_lt (by omega), Nat.zero_add]]
      exact ihA _ _ (by omega)
    · intro e i hf
      simp only [coMapBlock]
      split
      · refine .bind (good_parseKeyBlock hc' hs sm ref i) fun p hp => ?_
        obtain ⟨key, c⟩ := p
        obtain ⟨i', rfl, h1', h2'⟩ := hp
        refine .bind (good_parseObjectTypeSplit hc' i') fun p hp => ?_
        obtain ⟨t, sp, c⟩ := p
        obtain ⟨j, rfl, h1, h2⟩ := hp
        simp only
        refine .bind (good_coChild ((ihV t j (by omega)).mono fun _ => up) (ihAA j (by omega) (by omega))
          (ihMM j (by omega) (by omega))) fun p hp => ?_
        obtain ⟨o, c⟩ := p
        obtain ⟨k, rfl, h3, h4⟩ := hp
        exact .bind (ihM e k (by omega)) fun _ _ => trivial
      · trivial
    · intro i hi hf
      simp only [coMap]
      rw [show addW 0 i = i by rw [addW_of_lt (by omega), Nat.zero_add]]
      refine .bind (good_parseLength hc' hs i) fun p hp => ?_
      obtain ⟨n, c⟩ := p
      obtain ⟨⟨j, rfl, h1, h2⟩, -⟩ := hp
      refine .bind (good_parseLength hc' hs j) fun p hp => ?_
      obtain ⟨id, c⟩ := p
      obtain ⟨⟨k, rfl, h3, h4⟩, -⟩ := hp
      refine .bind (good_getBlocks hsi _) fun bs hbs => ?_
      obtain ⟨g1, g2, g3⟩ := blockBounds_up bs k (Nat.le_refl _) (by omega)
      simp only
      refine .bind (good_joinTasks _ ?_) fun objs _ => ⟨_, rfl, by omega, g3⟩
      intro r hr
      rw [List.mem_map] at hr
      obtain ⟨be, hbe, rfl⟩ := hr
      obtain ⟨q1, q2⟩ := g1 be hbe
      rw [show addW 0 be.1 = be.1 by rw [addW_of_lt (by omega), Nat.zero_add]]
      exact ihM _ _ (by omega)

/-! ### the tables -/

theorem good_smConstructGo (v : View) : ∀ (n : Nat) (c : Cur) (acc : List (Str × Nat)), Good (smConstructGo cfg v n c acc) Any := by
  intro n
  induction n with
  | zero => intro c acc; trivial
  | succ n ih =>
    intro c acc
    simp only [smConstructGo]
    refine .bind (good_parseLength_any _ _ _) fun p _ => .bind (P := Any) ?_ fun a _ => .bind (good_parseLength_any _ _ _) fun q _ =>
      .bind (good_readRange _ _ _) fun k _ => ih _ _
    unfold curAddr; split <;> simp [Good, Any]

theorem good_siParseBlocks (v : View) : ∀ (n : Nat) (c : Cur), Good (siParseBlocks cfg v n c)
    (fun p => p.1.length = n ∧ ∀ b ∈ p.1, b < 2 ^ 32) := by
  intro n
  induction n with
  | zero => intro c; exact ⟨rfl, by simp⟩
  | succ n ih =>
    intro c
    simp only [siParseBlocks]
    refine .bind (good_parseLength_any _ _ _) fun p _ => .bind (ih _) fun q hq => ?_
    obtain ⟨h1, h2⟩ := hq
    refine ⟨by simp [h1], ?_⟩
    intro b hb
    rcases List.mem_cons.mp hb with rfl | hb
    · exact toU32_lt _
    · exact h2 b hb

theorem good_siConstructGo (v : View) : ∀ (n : Nat) (c : Cur) (ret : SplitInfo), Small ret → Good (siConstructGo cfg v n c ret) Small := by
  intro n
  induction n with
  | zero => intro c ret h; exact h
  | succ n ih =>
    intro c ret h
    simp only [siConstructGo]
    refine .bind (good_parseLength_any _ _ _) fun p _ => .bind (good_parseLength_any _ _ _) fun q _ =>
      .bind (good_siParseBlocks _ _ _) fun bs hbs => ?_
    obtain ⟨h1, h2⟩ := hbs
    split
    · simp [Good]
    · apply ih
      have hu := toU32_lt q.1
      have key : Small { ret with info := ret.info ++ [(toU32 p.1, bs.1)] } := by
        intro e he
        simp only [List.mem_append, List.mem_singleton] at he
        rcases he with he | rfl
        · exact h e he
        · exact ⟨by simp only [h1]; exact hu, h2⟩
      split
      · exact key
      · exact key

theorem good_parseLengthAt (content : Bytes) (a : Nat) : Good (parseLengthAt cfg content a) Any := by
  unfold parseLengthAt
  split
  · simp [Good]
  · refine .bind (P := Any) (good_varintDecodeGo _ _ _ _ _ _ _) fun p _ => ?_
    obtain ⟨tmp, bytes⟩ := p
    simp only
    split
    · simp [Good]
    · trivial

theorem good_secondary {α : Type} {construct : View → Res α} {P : α → Prop} (h : ∀ v, Good (construct v) P) (content : Bytes) (t : Nat) :
    Good (parseSecondary cfg construct content t) (fun p => P p.1) := by
  unfold parseSecondary
  exact .bind (good_parseLengthAt _ _) fun p _ => .bind (h _) fun s hs => hs

theorem good_siConstruct (v : View) : Good (SplitInfo.construct cfg v) Small := by
  unfold SplitInfo.construct
  generalize Cur.mk 0 0 = c0
  have h := good_parseLength_any cfg v c0
  cases hp : parseLength cfg v c0 with
  | error e => rw [hp] at h; exact h
  | ok p =>
  obtain ⟨n, c⟩ := p
  rw [ok_bind]
  simp only
  generalize toU32 n = k
  exact good_siConstructGo v k c {} (by intro e he; simp at he)

theorem good_smConstruct (v : View) : Good (StringMap.construct cfg v) Any := by
  unfold StringMap.construct
  generalize Cur.mk 0 0 = c0
  have h := good_parseLength_any cfg v c0
  cases hp : parseLength cfg v c0 with
  | error e => rw [hp] at h; exact h
  | ok p =>
  obtain ⟨n, c⟩ := p
  rw [ok_bind]
  simp only
  generalize toU32 n = k
  exact .bind (good_smConstructGo v k c []) fun _ _ => trivial

end

theorem Good.err {α : Type} {e : Err} {P : α → Prop} (h : e ≠ .fuel) : Good (.error e) P := h
theorem Good.ok {α : Type} {a : α} {P : α → Prop} (h : P a) : Good (.ok a) P := h
attribute [irreducible] Good

end Bridge
