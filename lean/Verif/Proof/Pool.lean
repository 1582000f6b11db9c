import Verif.Model.Pool
import Verif.Spec.Ledger
/-
The pool refines the ledger.
-/
namespace Bridge.Pool
open Spec

theorem destroy_moved (req : Bool) (b : Block) (h : Heap) : (b.move.2).destroy req h = .ok ([], h) := rfl

theorem destroyAll_moved (req : Bool) (bs : List Block) (h : Heap) :
    destroyAll req (bs.map fun x => x.move.2) h = .ok ([], h) := by
  induction bs with
  | nil => rfl
  | cons b bs ih => simp only [List.map_cons, destroyAll, destroy_moved, ih]; rfl

theorem vecPush_eq (req : Bool) (bs : List Block) (b : Block) (h : Heap) : vecPush req bs b h = .ok ([], bs ++ [b], h) := by
  have hm : bs.map (fun x => x.move.1) = bs := by
    have : (fun x : Block => x.move.1) = id := rfl
    rw [this, List.map_id]
  unfold vecPush
  rw [destroyAll_moved]
  simp only [destroy_moved, hm]
  rfl

theorem mergeLoop_eq (req : Bool) (other : List Block) : ∀ (bs : List Block) (h : Heap),
    mergeLoop req other bs h = .ok ([], bs ++ other, other.map (fun x => x.move.2), h) := by
  induction other with
  | nil => intro bs h; simp [mergeLoop]
  | cons b other ih =>
    intro bs h
    have : b.move.1 = b := rfl
    simp only [mergeLoop, vecPush_eq, ih, this, List.append_assoc, List.cons_append, List.nil_append, List.map_cons]

theorem poolMerge_eq (req : Bool) (bs other : List Block) (h : Heap) :
    poolMerge req bs other h = .ok ([], bs ++ other, [], h) := by
  unfold poolMerge
  rw [mergeLoop_eq]
  simp only [destroyAll_moved, List.append_nil]

/-! ### invariants -/

/-- What is in the slots in use of a block. -/
def slots (h : Heap) (b : Block) : List (Option Nat) :=
  match b.buf with
  | none => []
  | some buf => (List.range b.top).map (h.cell buf)

/-- A block in use. -/
def GoodB (h : Heap) (b : Block) : Prop := ∃ buf, b.buf = some buf ∧ buf ∈ h.live ∧ b.top ≤ b.cap ∧ 0 < b.cap

/-- The blocks of one pool. -/
structure GoodP (h : Heap) (bs : List Block) (ids : List Nat) : Prop where
  blocks : ∀ b ∈ bs, GoodB h b
  nodup : (bs.map Block.buf).Nodup
  cells : bs.flatMap (slots h) = ids.map some

theorem slots_congr {h h' : Heap} {b : Block} (he : ∀ buf, b.buf = some buf → ∀ i, i < b.top → h'.cell buf i = h.cell buf i) :
    slots h' b = slots h b := by
  unfold slots
  cases hb : b.buf with
  | none => rfl
  | some buf =>
    simp only
    apply List.map_congr_left
    intro i hi
    exact he buf hb i (by simpa using hi)

theorem flatMap_slots_congr {h h' : Heap} {bs : List Block}
    (he : ∀ b ∈ bs, ∀ buf, b.buf = some buf → ∀ i, i < b.top → h'.cell buf i = h.cell buf i) :
    bs.flatMap (slots h') = bs.flatMap (slots h) := by
  induction bs with
  | nil => rfl
  | cons b bs ih =>
    simp only [List.flatMap_cons]
    rw [slots_congr (he b List.mem_cons_self), ih (fun c hc => he c (List.mem_cons_of_mem _ hc))]

theorem destructFrom_eq (buf : Nat) : ∀ (n i : Nat) (h : Heap) (ids : List Nat),
    (List.range' i n).map (h.cell buf) = ids.map some →
    ∃ h', destructFrom buf i n h = .ok (ids, h') ∧ h'.live = h.live ∧ h'.next = h.next ∧
      ∀ b j, b ≠ buf → h'.cell b j = h.cell b j := by
  intro n
  induction n with
  | zero =>
    intro i h ids hc
    simp only [List.range'_zero, List.map_nil] at hc
    have : ids = [] := by simpa using hc.symm
    subst this
    exact ⟨h, rfl, rfl, rfl, fun _ _ _ => rfl⟩
  | succ n ih =>
    intro i h ids hc
    rw [List.range'_succ] at hc
    cases ids with
    | nil => simp at hc
    | cons id ids =>
      simp only [List.map_cons, List.cons.injEq] at hc
      obtain ⟨hid, hc⟩ := hc
      have hc' : (List.range' (i + 1) n).map ((h.set buf i none).cell buf) = ids.map some := by
        rw [← hc]
        apply List.map_congr_left
        intro j hj
        rw [List.mem_range'_1] at hj
        simp only [Heap.set]
        rw [if_neg (by omega)]
      obtain ⟨h', e1, e2, e3, e4⟩ := ih (i + 1) (h.set buf i none) ids hc'
      refine ⟨h', ?_, by rw [e2]; rfl, by rw [e3]; rfl, ?_⟩
      · simp only [destructFrom, hid, e1]
      · intro b j hb
        rw [e4 b j hb]
        simp only [Heap.set]
        rw [if_neg (by simp [hb])]

theorem free_eq {h : Heap} {buf : Nat} (hb : buf ∈ h.live) (hn : h.live.Nodup) :
    ∃ h', h.free buf = .ok h' ∧ h'.live.Nodup ∧ (∀ b, b ∈ h'.live ↔ b ∈ h.live ∧ b ≠ buf) ∧ h'.next = h.next ∧
      ∀ b j, b ≠ buf → h'.cell b j = h.cell b j := by
  refine ⟨_, if_pos hb, hn.erase _, ?_, rfl, ?_⟩
  · intro b
    simp only [hn.mem_erase_iff]
    exact And.comm
  · intro b j hne
    simp only
    rw [if_neg hne]

theorem destroy_eq {req : Bool} {h : Heap} {b : Block} {buf : Nat} {ids : List Nat} (hn : h.live.Nodup)
    (hbuf : b.buf = some buf) (hb : buf ∈ h.live) (hc : slots h b = ids.map some) :
    ∃ h', b.destroy req h = .ok (if req then ids else [], h') ∧ h'.live.Nodup ∧
      (∀ c, c ∈ h'.live ↔ c ∈ h.live ∧ c ≠ buf) ∧ h'.next = h.next ∧ ∀ c j, c ≠ buf → h'.cell c j = h.cell c j := by
  simp only [slots, hbuf] at hc
  unfold Block.destroy
  simp only [hbuf]
  cases req with
  | false =>
    obtain ⟨h', e1, e2, e3, e4, e5⟩ := free_eq hb hn
    refine ⟨h', ?_, e2, e3, e4, e5⟩
    simp only [destructorProxy, Bool.false_eq_true, if_false, e1]
  | true =>
    rw [List.range_eq_range'] at hc
    obtain ⟨h1, d1, d2, d3, d4⟩ := destructFrom_eq buf b.top 0 h ids hc
    obtain ⟨h', e1, e2, e3, e4, e5⟩ := free_eq (h := h1) (buf := buf) (by rw [d2]; exact hb) (by rw [d2]; exact hn)
    refine ⟨h', ?_, e2, by rw [← d2]; exact e3, e4.trans d3, fun c j hc => (e5 c j hc).trans (d4 c j hc)⟩
    simp only [destructorProxy, if_true, d1, e1]

theorem flatMap_slots_split {h : Heap} {b : Block} {bs : List Block} {ids : List Nat}
    (hc : (b :: bs).flatMap (slots h) = ids.map some) :
    ∃ i1 i2, ids = i1 ++ i2 ∧ slots h b = i1.map some ∧ bs.flatMap (slots h) = i2.map some := by
  simp only [List.flatMap_cons] at hc
  obtain ⟨i1, i2, h1, h2, h3⟩ := List.map_eq_append_iff.mp hc.symm
  exact ⟨i1, i2, h1, h2.symm, h3.symm⟩

theorem destroyAll_eq {req : Bool} : ∀ (bs : List Block) (h : Heap) (ids : List Nat), h.live.Nodup → GoodP h bs ids →
    ∃ h', destroyAll req bs h = .ok (if req then ids else [], h') ∧ h'.live.Nodup ∧ h'.next = h.next ∧
      (∀ c, c ∈ h'.live ↔ c ∈ h.live ∧ some c ∉ bs.map Block.buf) ∧
      ∀ c j, some c ∉ bs.map Block.buf → h'.cell c j = h.cell c j := by
  intro bs
  induction bs with
  | nil =>
    intro h ids hn hg
    have : ids = [] := by have := hg.cells; simpa using this.symm
    subst this
    exact ⟨h, by simp [destroyAll], hn, rfl, by simp, fun _ _ _ => rfl⟩
  | cons b bs ih =>
    intro h ids hn hg
    obtain ⟨i1, i2, rfl, hc1, hc2⟩ := flatMap_slots_split hg.cells
    obtain ⟨buf, hbuf, hlive, -, -⟩ := hg.blocks b List.mem_cons_self
    obtain ⟨h1, e1, e2, e3, e4, e5⟩ := destroy_eq (req := req) hn hbuf hlive hc1
    have hnd := hg.nodup
    simp only [List.map_cons, List.nodup_cons] at hnd
    have hother : ∀ c ∈ bs, ∀ bu, c.buf = some bu → bu ≠ buf := by
      intro c hc bu hbu he
      subst he
      exact hnd.1 (List.mem_map.mpr ⟨c, hc, hbu.trans hbuf.symm⟩)
    have hg2 : GoodP h1 bs i2 := by
      refine ⟨?_, hnd.2, ?_⟩
      · intro c hc
        obtain ⟨bu, hbu, hl, ht⟩ := hg.blocks c (List.mem_cons_of_mem _ hc)
        exact ⟨bu, hbu, (e3 bu).mpr ⟨hl, hother c hc bu hbu⟩, ht⟩
      · rw [← hc2]
        apply flatMap_slots_congr
        intro c hc bu hbu i _
        exact e5 bu i (hother c hc bu hbu)
    obtain ⟨h2, f1, f2, f3, f4, f5⟩ := ih h1 i2 e2 hg2
    refine ⟨h2, ?_, f2, f3.trans e4, ?_, ?_⟩
    · simp only [destroyAll, e1, f1]
      cases req <;> simp
    · intro c
      rw [f4 c, e3 c]
      simp only [List.map_cons, List.mem_cons, hbuf, Option.some.injEq, not_or]
      constructor
      · rintro ⟨⟨a, b⟩, c⟩; exact ⟨a, b, c⟩
      · rintro ⟨a, b, c⟩; exact ⟨⟨a, b⟩, c⟩
    · intro c j hc
      simp only [List.map_cons, List.mem_cons, hbuf, Option.some.injEq, not_or] at hc
      rw [f5 c j hc.2, e5 c j hc.1]

/-- Everything that holds between operations: `l` is the ledger and `addrs` the addresses returned so far. -/
structure Inv (w : World) (l : Ledger) (addrs : List (Nat × Nat)) : Prop where
  live : w.heap.live.Nodup
  pools : ∀ p, GoodP w.heap (w.pools p) (l.owned p)
  apart : ∀ p q, p ≠ q → ∀ b ∈ w.pools p, ∀ c ∈ w.pools q, b.buf ≠ c.buf
  made : l.made = w.heap.next
  count : addrs.length = w.heap.next
  addrs : ∀ p, ∀ b ∈ w.pools p, ∀ buf, b.buf = some buf → ∀ i, i < b.top → ∀ id, w.heap.cell buf i = some id →
    addrs[id]? = some (buf, i)
  noleak : ∀ buf ∈ w.heap.live, ∃ p, ∃ b ∈ w.pools p, b.buf = some buf

/-- The addresses returned so far. -/
def Out.addr (o : Out) : List (Nat × Nat) :=
  match o.result with
  | some (.ptr b i) => [(b, i)]
  | _ => []

/-- The operation seen by the ledger. -/
def Op.spec : Op → PoolOp
  | .alloc p throws => if throws then .failedNew p else .new p
  | .merge p q => .merge p q
  | .clear p => .clear p
  | .move p q => .move p q

theorem inv_empty : Inv {} {} [] :=
  ⟨List.nodup_nil, fun _ => ⟨by simp, by simp, rfl⟩, by simp, rfl, rfl, by simp, by simp⟩

/-- Pools that are not touched stay as they are. -/
theorem GoodP.frame {h h' : Heap} {bs : List Block} {ids : List Nat} (hg : GoodP h bs ids)
    (hlive : ∀ b ∈ bs, ∀ buf, b.buf = some buf → buf ∈ h'.live)
    (hcell : ∀ b ∈ bs, ∀ buf, b.buf = some buf → ∀ i, i < b.top → h'.cell buf i = h.cell buf i) : GoodP h' bs ids := by
  refine ⟨?_, hg.nodup, ?_⟩
  · intro b hb
    obtain ⟨buf, hbuf, -, ht⟩ := hg.blocks b hb
    exact ⟨buf, hbuf, hlive b hb buf hbuf, ht⟩
  · rw [flatMap_slots_congr hcell]; exact hg.cells

/-- Giving up the objects of a pool. -/
theorem clear_inv {req : Bool} {w : World} {l : Ledger} {addrs : List (Nat × Nat)} (hi : Inv w l addrs) (p : Nat) :
    ∃ h', destroyAll req (w.pools p) w.heap = .ok (if req then l.owned p else [], h') ∧
      Inv ⟨h', w.put p []⟩ ⟨l.made, fun x => if x = p then [] else l.owned x⟩ addrs := by
  obtain ⟨h', e1, e2, e3, e4, e5⟩ := destroyAll_eq (req := req) (w.pools p) w.heap (l.owned p) hi.live (hi.pools p)
  have hout : ∀ q, q ≠ p → ∀ b ∈ w.pools q, ∀ buf, b.buf = some buf → some buf ∉ (w.pools p).map Block.buf := by
    intro q hq b hb buf hbuf hm
    obtain ⟨c, hc, hcb⟩ := List.mem_map.mp hm
    exact hi.apart q p hq b hb c hc (hbuf.trans hcb.symm)
  have hlv : ∀ q, q ≠ p → ∀ b ∈ w.pools q, ∀ buf, b.buf = some buf → buf ∈ h'.live := by
    intro q hq b hb buf hbuf
    obtain ⟨bu, hbu, hl, -⟩ := (hi.pools q).blocks b hb
    rw [hbuf] at hbu
    simp only [Option.some.injEq] at hbu
    subst hbu
    exact (e4 buf).mpr ⟨hl, hout q hq b hb buf hbuf⟩
  refine ⟨h', e1, e2, ?_, ?_, hi.made.trans e3.symm, hi.count.trans e3.symm, ?_, ?_⟩
  · intro q
    simp only [World.put]
    split
    · exact ⟨by simp, by simp, rfl⟩
    · rename_i hq
      exact (hi.pools q).frame (hlv q hq) (fun b hb buf hbuf i _ => e5 buf i (hout q hq b hb buf hbuf))
  · intro q r hqr b hb c hc
    simp only [World.put] at hb hc
    split at hb
    · cases hb
    · split at hc
      · cases hc
      · exact hi.apart q r hqr b hb c hc
  · intro q b hb buf hbuf i hit id hid
    simp only [World.put] at hb
    split at hb
    · cases hb
    · rename_i hq
      simp only at hid
      rw [e5 buf i (hout q hq b hb buf hbuf)] at hid
      exact hi.addrs q b hb buf hbuf i hit id hid
  · intro buf hb
    obtain ⟨h1, h2⟩ := (e4 buf).mp hb
    obtain ⟨q, b, hq, hbuf⟩ := hi.noleak buf h1
    have hqp : q ≠ p := by
      intro he; subst he
      exact h2 (List.mem_map.mpr ⟨b, hq, hbuf⟩)
    exact ⟨q, b, by simpa [World.put, hqp] using hq, hbuf⟩

/-- Moving all blocks of `q` behind those of `p`. -/
theorem merge_inv {w : World} {l : Ledger} {addrs : List (Nat × Nat)} (hi : Inv w l addrs) {p q : Nat} (hpq : p ≠ q) :
    Inv ⟨w.heap, World.put ⟨w.heap, w.put p (w.pools p ++ w.pools q)⟩ q []⟩
      ⟨l.made, fun x => if x = q then [] else if x = p then l.owned p ++ l.owned q else l.owned x⟩ addrs := by
  have hmem : ∀ x b, b ∈ World.put ⟨w.heap, w.put p (w.pools p ++ w.pools q)⟩ q [] x →
      x ≠ q ∧ ((x = p ∧ (b ∈ w.pools p ∨ b ∈ w.pools q)) ∨ (x ≠ p ∧ b ∈ w.pools x)) := by
    intro x b hb
    simp only [World.put] at hb
    split at hb
    · cases hb
    · rename_i hxq
      refine ⟨hxq, ?_⟩
      split at hb
      · rename_i hxp
        exact .inl ⟨hxp, List.mem_append.mp hb⟩
      · rename_i hxp
        exact .inr ⟨hxp, hb⟩
  refine ⟨hi.live, ?_, ?_, hi.made, hi.count, ?_, ?_⟩
  · intro x
    simp only [World.put]
    split
    · exact ⟨by simp, by simp, rfl⟩
    · split
      · refine ⟨?_, ?_, ?_⟩
        · intro b hb
          rcases List.mem_append.mp hb with hb | hb
          · exact (hi.pools p).blocks b hb
          · exact (hi.pools q).blocks b hb
        · rw [List.map_append, List.nodup_append]
          refine ⟨(hi.pools p).nodup, (hi.pools q).nodup, ?_⟩
          intro a ha b hb
          obtain ⟨a', ha', rfl⟩ := List.mem_map.mp ha
          obtain ⟨b', hb', rfl⟩ := List.mem_map.mp hb
          exact hi.apart p q hpq a' ha' b' hb'
        · rw [List.flatMap_append, (hi.pools p).cells, (hi.pools q).cells, List.map_append]
      · exact hi.pools x
  · intro x y hxy b hb c hc
    have hb1 := hmem x b hb
    have hc1 := hmem y c hc
    clear hb hc
    obtain ⟨hxq, hb⟩ := hb1
    obtain ⟨hyq, hc⟩ := hc1
    rcases hb with ⟨rfl, hb⟩ | ⟨hxp, hb⟩
    · rcases hc with ⟨rfl, hc⟩ | ⟨hyp, hc⟩
      · exact absurd rfl hxy
      · rcases hb with hb | hb
        · exact hi.apart _ _ (Ne.symm hyp) b hb c hc
        · exact hi.apart _ _ (Ne.symm hyq) b hb c hc
    · rcases hc with ⟨rfl, hc⟩ | ⟨hyp, hc⟩
      · rcases hc with hc | hc
        · exact hi.apart _ _ hxp b hb c hc
        · exact hi.apart _ _ hxq b hb c hc
      · exact hi.apart _ _ hxy b hb c hc
  · intro x b hb buf hbuf i hit id hid
    obtain ⟨-, hb⟩ := hmem x b hb
    rcases hb with ⟨-, hb | hb⟩ | ⟨-, hb⟩
    · exact hi.addrs p b hb buf hbuf i hit id hid
    · exact hi.addrs q b hb buf hbuf i hit id hid
    · exact hi.addrs x b hb buf hbuf i hit id hid
  · intro buf hb
    obtain ⟨x, b, hx, hbuf⟩ := hi.noleak buf hb
    by_cases hxq : x = q
    · subst hxq; exact ⟨p, b, by simp [World.put, hpq, hx], hbuf⟩
    · by_cases hxp : x = p
      · subst hxp; exact ⟨x, b, by simp [World.put, hpq, hx], hbuf⟩
      · exact ⟨x, b, by simp [World.put, hxq, hxp, hx], hbuf⟩

/-- A new empty block at the end of a pool. -/
theorem push_inv (ma : Malloc) {w : World} {l : Ledger} {addrs : List (Nat × Nat)} (hi : Inv w l addrs) (p : Nat) {cap : Nat}
    (hcap : 0 < cap) :
    Inv ⟨(Block.make ma cap w.heap).2, w.put p (w.pools p ++ [(Block.make ma cap w.heap).1])⟩ l addrs ∧
      (Block.make ma cap w.heap).1.full = false := by
  have hfresh := ma.fresh w.heap.time w.heap.live
  have hmk : Block.make ma cap w.heap = (⟨some (ma.pick w.heap.time w.heap.live), 0, cap⟩,
      { w.heap with live := ma.pick w.heap.time w.heap.live :: w.heap.live, time := w.heap.time + 1 }) := if_pos hcap
  rw [hmk]
  generalize ma.pick w.heap.time w.heap.live = nb at hfresh
  have hold : ∀ q, ∀ b ∈ w.pools q, b.buf ≠ some nb := by
    intro q b hb he
    obtain ⟨bu, hbu, hl, -⟩ := (hi.pools q).blocks b hb
    rw [he] at hbu
    simp only [Option.some.injEq] at hbu
    subst hbu
    exact hfresh hl
  have hlv : ∀ q, ∀ b ∈ w.pools q, ∀ buf, b.buf = some buf → buf ∈ nb :: w.heap.live := by
    intro q b hb buf hbuf
    obtain ⟨bu, hbu, hl, -⟩ := (hi.pools q).blocks b hb
    rw [hbuf] at hbu
    simp only [Option.some.injEq] at hbu
    subst hbu
    exact List.mem_cons_of_mem _ hl
  have hmem : ∀ x b, b ∈ w.put p (w.pools p ++ [(⟨some nb, 0, cap⟩ : Block)]) x →
      b ∈ w.pools x ∨ (x = p ∧ b = ⟨some nb, 0, cap⟩) := by
    intro x b hb
    simp only [World.put] at hb
    split at hb
    · rename_i hx
      subst hx
      simpa using hb
    · exact .inl hb
  refine ⟨⟨?_, ?_, ?_, hi.made, hi.count, ?_, ?_⟩, ?_⟩
  · simp only [List.nodup_cons]; exact ⟨hfresh, hi.live⟩
  · intro q
    simp only [World.put]
    split
    · rename_i hq
      subst hq
      have hf := (hi.pools q).frame (h' := { w.heap with live := nb :: w.heap.live, time := w.heap.time + 1 })
        (hlv q) (fun _ _ _ _ _ _ => rfl)
      refine ⟨?_, ?_, ?_⟩
      · intro b hb
        rcases List.mem_append.mp hb with hb | hb
        · exact hf.blocks b hb
        · simp only [List.mem_singleton] at hb
          subst hb
          exact ⟨nb, rfl, List.mem_cons_self, Nat.zero_le _, hcap⟩
      · rw [List.map_append, List.nodup_append]
        refine ⟨hf.nodup, by simp, ?_⟩
        intro a ha b hb
        obtain ⟨a', ha', rfl⟩ := List.mem_map.mp ha
        simp only [List.map_cons, List.map_nil, List.mem_singleton] at hb
        subst hb
        exact hold q a' ha'
      · rw [List.flatMap_append, hf.cells]
        simp [slots]
    · exact (hi.pools q).frame (hlv q) (fun _ _ _ _ _ _ => rfl)
  · intro x y hxy b hb c hc
    rcases hmem x b hb with hb | ⟨hx, rfl⟩
    · rcases hmem y c hc with hc | ⟨hy, rfl⟩
      · exact hi.apart x y hxy b hb c hc
      · exact hold x b hb
    · rcases hmem y c hc with hc | ⟨hy, rfl⟩
      · exact fun he => hold y c hc he.symm
      · exact absurd (hx.trans hy.symm) hxy
  · intro x b hb buf hbuf i hit id hid
    rcases hmem x b hb with hb | ⟨hx, rfl⟩
    · exact hi.addrs x b hb buf hbuf i hit id hid
    · simp at hit
  · intro buf hb
    rcases List.mem_cons.mp hb with rfl | hb
    · exact ⟨p, _, by simp only [World.put, if_true]; exact List.mem_append.mpr (.inr List.mem_cons_self), rfl⟩
    · obtain ⟨x, b, hx, hbuf⟩ := hi.noleak buf hb
      by_cases hxp : x = p
      · subst hxp; exact ⟨x, b, by simp [World.put, hx], hbuf⟩
      · exact ⟨x, b, by simp [World.put, hxp, hx], hbuf⟩
  · simp only [Block.full, beq_eq_false_iff_ne, ne_eq]; omega

/-- Constructing in the last block of a pool, which has room. -/
theorem back_inv {w : World} {l : Ledger} {addrs : List (Nat × Nat)} (hi : Inv w l addrs) (p : Nat) (throws : Bool)
    {b : Block} (hlast : (w.pools p).getLast? = some b) (hfull : b.full = false) :
    ∃ r bs h', backAlloc throws (w.pools p) w.heap = .ok (r, bs, h') ∧
      (throws = true → r = .threw ∧ Inv ⟨h', w.put p bs⟩ l addrs) ∧
      (throws = false → ∃ buf i, r = .ptr buf i ∧
        Inv ⟨h', w.put p bs⟩ ⟨l.made + 1, fun x => if x = p then l.owned p ++ [l.made] else l.owned x⟩ (addrs ++ [(buf, i)])) := by
  obtain ⟨pre, hpre⟩ : ∃ pre, w.pools p = pre ++ [b] := by
    rw [List.getLast?_eq_some_iff] at hlast
    exact hlast
  obtain ⟨buf, hbuf, hlive, htop, hcap⟩ := (hi.pools p).blocks b (by rw [hpre]; simp)
  have hlt : b.top < b.cap := by
    have : b.top ≠ b.cap := by simpa [Block.full] using hfull
    omega
  have hset : ∀ x, setLast (w.pools p) x = pre ++ [x] := by
    intro x; unfold setLast; rw [hpre, List.dropLast_concat]
  cases throws with
  | true =>
    refine ⟨.threw, w.pools p, w.heap, ?_, fun _ => ⟨rfl, ?_⟩, by simp⟩
    · unfold backAlloc
      simp only [hlast, Block.alloc, hfull, Bool.false_eq_true, if_false, hbuf, hlive, if_true, hset]
      rw [← hpre]
    · have : w.put p (w.pools p) = w.pools := by
        funext x; simp only [World.put]; split
        · rename_i hx; rw [hx]
        · rfl
      rw [this]
      exact hi
  | false =>
    refine ⟨.ptr buf b.top, pre ++ [{ b with top := b.top + 1 }],
      { w.heap.set buf b.top (some w.heap.next) with next := w.heap.next + 1 }, ?_, by simp, fun _ => ⟨buf, b.top, rfl, ?_⟩⟩
    · unfold backAlloc
      simp only [hlast, Block.alloc, hfull, Bool.false_eq_true, if_false, hbuf, hlive, if_true, hset]
    · have hpn := (hi.pools p).nodup
      rw [hpre, List.map_append, List.nodup_append] at hpn
      have hprene : ∀ c ∈ pre, c.buf ≠ some buf := by
        intro c hc he
        exact hpn.2.2 c.buf (List.mem_map.mpr ⟨c, hc, rfl⟩) b.buf (by simp) (he.trans hbuf.symm)
      have hotherne : ∀ q, q ≠ p → ∀ c ∈ w.pools q, c.buf ≠ some buf := by
        intro q hq c hc he
        exact hi.apart q p hq c hc b (by rw [hpre]; simp) (he.trans hbuf.symm)
      have hcell : ∀ c i, ¬ (c = buf ∧ i = b.top) →
          (w.heap.set buf b.top (some w.heap.next)).cell c i = w.heap.cell c i := by
        intro c i hci; simp only [Heap.set]; rw [if_neg hci]
      have hmem : ∀ x c, c ∈ w.put p (pre ++ [{ b with top := b.top + 1 }]) x →
          (c ∈ w.pools x ∧ c.buf ≠ some buf) ∨ (x = p ∧ c = { b with top := b.top + 1 }) := by
        intro x c hc
        simp only [World.put] at hc
        split at hc
        · rename_i hx
          subst hx
          rcases List.mem_append.mp hc with hc | hc
          · exact .inl ⟨by rw [hpre]; exact List.mem_append.mpr (.inl hc), hprene c hc⟩
          · simp only [List.mem_singleton] at hc
            exact .inr ⟨rfl, hc⟩
        · rename_i hx
          exact .inl ⟨hc, hotherne x hx c hc⟩
      refine ⟨hi.live, ?_, ?_, by simp [hi.made], by simp [hi.count], ?_, ?_⟩
      · intro q
        simp only [World.put]
        split
        · rename_i hq
          subst hq
          refine ⟨?_, ?_, ?_⟩
          · intro c hc
            rcases List.mem_append.mp hc with hc | hc
            · exact (hi.pools q).blocks c (by rw [hpre]; exact List.mem_append.mpr (.inl hc))
            · simp only [List.mem_singleton] at hc
              subst hc
              exact ⟨buf, hbuf, hlive, by simp only; omega, hcap⟩
          · have := (hi.pools q).nodup
            rw [hpre] at this
            simpa using this
          · have hc := (hi.pools q).cells
            rw [hpre, List.flatMap_append] at hc
            rw [List.flatMap_append]
            have h1 : pre.flatMap (slots { w.heap.set buf b.top (some w.heap.next) with next := w.heap.next + 1 }) =
                pre.flatMap (slots w.heap) := by
              apply flatMap_slots_congr
              intro c hc bu hbu i _
              simp only
              rw [hcell bu i (by rintro ⟨rfl, -⟩; exact hprene c hc hbu)]
            have h2 : slots { w.heap.set buf b.top (some w.heap.next) with next := w.heap.next + 1 }
                { b with top := b.top + 1 } = slots w.heap b ++ [some w.heap.next] := by
              unfold slots
              simp only [hbuf]
              rw [List.range_succ, List.map_append]
              congr 1
              · apply List.map_congr_left
                intro i hi
                rw [hcell buf i (by rw [List.mem_range] at hi; omega)]
              · simp [Heap.set]
            rw [h1]
            simp only [List.flatMap_cons, List.flatMap_nil, List.append_nil] at hc ⊢
            rw [h2, ← List.append_assoc, hc, hi.made]
            simp
        · rename_i hq
          refine (hi.pools q).frame ?_ ?_
          · intro c hc bu hbu
            obtain ⟨bu', hbu', hl, -⟩ := (hi.pools q).blocks c hc
            rw [hbu] at hbu'
            simp only [Option.some.injEq] at hbu'
            subst hbu'
            exact hl
          · intro c hc bu hbu i _
            simp only
            rw [hcell bu i (by rintro ⟨rfl, -⟩; exact hotherne q hq c hc hbu)]
      · intro x y hxy c hc e he
        rcases hmem x c hc with ⟨hc, hcn⟩ | ⟨rfl, rfl⟩
        · rcases hmem y e he with ⟨he, hen⟩ | ⟨rfl, rfl⟩
          · exact hi.apart x y hxy c hc e he
          · simp only [hbuf]; exact hcn
        · rcases hmem y e he with ⟨he, hen⟩ | ⟨rfl, rfl⟩
          · simp only [hbuf]; exact fun h => hen h.symm
          · exact absurd rfl hxy
      · intro x c hc bu hbu i hit id hid
        simp only at hid
        have hold : w.heap.cell bu i = some id → ∀ c' ∈ w.pools x, c'.buf = some bu → i < c'.top →
            (addrs ++ [(buf, b.top)])[id]? = some (bu, i) := by
          intro h1 c' hc' hb' hi'
          have := hi.addrs x c' hc' bu hb' i hi' id h1
          obtain ⟨hlen, -⟩ := List.getElem?_eq_some_iff.mp this
          rw [List.getElem?_append_left hlen]
          exact this
        rcases hmem x c hc with ⟨hc, hcn⟩ | ⟨rfl, rfl⟩
        · rw [hcell bu i (by rintro ⟨rfl, -⟩; exact hcn hbu)] at hid
          exact hold hid c hc hbu hit
        · simp only at hbu hit
          rw [hbuf] at hbu
          simp only [Option.some.injEq] at hbu
          subst hbu
          by_cases hib : i = b.top
          · subst hib
            simp only [Heap.set, and_self, if_true, Option.some.injEq] at hid
            subst hid
            rw [← hi.count, List.getElem?_concat_length]
          · rw [hcell buf i (fun h => hib h.2)] at hid
            exact hold hid b (by rw [hpre]; simp) hbuf (by omega)
      · intro bu hb
        obtain ⟨x, c, hx, hcb⟩ := hi.noleak bu hb
        by_cases hxp : x = p
        · subst hxp
          rw [hpre] at hx
          rcases List.mem_append.mp hx with hx | hx
          · exact ⟨x, c, by simp [World.put, hx], hcb⟩
          · simp only [List.mem_singleton] at hx
            subst hx
            exact ⟨x, { c with top := c.top + 1 }, by simp [World.put], hcb⟩
        · exact ⟨x, c, by simp [World.put, hxp, hx], hcb⟩

theorem capacityFor_pos (n : Nat) : 0 < capacityFor n := by
  unfold capacityFor
  split
  · rename_i h
    have h6 : capacities.length = 6 := rfl
    rw [h6] at h
    have : n = 0 ∨ n = 1 ∨ n = 2 ∨ n = 3 ∨ n = 4 ∨ n = 5 := by omega
    rcases this with rfl | rfl | rfl | rfl | rfl | rfl <;> decide
  · decide

theorem alloc_inv (ma : Malloc) {req : Bool} {w : World} {l : Ledger} {addrs : List (Nat × Nat)} (hi : Inv w l addrs) (p : Nat)
    (throws : Bool) :
    ∃ r bs h', poolAlloc ma req throws (w.pools p) w.heap = .ok (r, [], bs, h') ∧
      (throws = true → r = .threw ∧ Inv ⟨h', w.put p bs⟩ l addrs) ∧
      (throws = false → ∃ buf i, r = .ptr buf i ∧
        Inv ⟨h', w.put p bs⟩ ⟨l.made + 1, fun x => if x = p then l.owned p ++ [l.made] else l.owned x⟩ (addrs ++ [(buf, i)])) := by
  unfold poolAlloc
  split
  · obtain ⟨hi2, hnf⟩ := push_inv ma hi p (capacityFor_pos (w.pools p).length)
    simp only [vecPush_eq]
    have hput : (World.mk (Block.make ma (capacityFor (w.pools p).length) w.heap).2
        (w.put p (w.pools p ++ [(Block.make ma (capacityFor (w.pools p).length) w.heap).1]))).pools p =
        w.pools p ++ [(Block.make ma (capacityFor (w.pools p).length) w.heap).1] := by simp [World.put]
    obtain ⟨r, bs, h', e1, e2, e3⟩ := back_inv hi2 p throws (by rw [hput, List.getLast?_concat]) hnf
    rw [hput] at e1
    simp only at e1
    refine ⟨r, bs, h', by rw [e1], ?_, ?_⟩
    · intro ht
      obtain ⟨h1, h2⟩ := e2 ht
      refine ⟨h1, ?_⟩
      have hpp : World.put ⟨(Block.make ma (capacityFor (w.pools p).length) w.heap).2,
        w.put p (w.pools p ++ [(Block.make ma (capacityFor (w.pools p).length) w.heap).1])⟩ p bs = w.put p bs := by
        funext x; simp only [World.put]; split <;> rfl
      rw [hpp] at h2
      exact h2
    · intro ht
      obtain ⟨buf, i, h1, h2⟩ := e3 ht
      refine ⟨buf, i, h1, ?_⟩
      have hpp : World.put ⟨(Block.make ma (capacityFor (w.pools p).length) w.heap).2,
        w.put p (w.pools p ++ [(Block.make ma (capacityFor (w.pools p).length) w.heap).1])⟩ p bs = w.put p bs := by
        funext x; simp only [World.put]; split <;> rfl
      rw [hpp] at h2
      exact h2
  · rename_i hcond
    simp only [Bool.or_eq_true, not_or, Bool.not_eq_true] at hcond
    obtain ⟨hne, hf⟩ := hcond
    cases hl : (w.pools p).getLast? with
    | none =>
      rw [List.getLast?_eq_none_iff] at hl
      rw [hl] at hne
      simp at hne
    | some b =>
      rw [hl] at hf
      simp only [Option.map_some, Option.getD_some] at hf
      obtain ⟨r, bs, h', e1, e2, e3⟩ := back_inv hi p throws hl hf
      exact ⟨r, bs, h', by rw [e1], e2, e3⟩

/-- Merging and moving are between different pools. -/
def Op.ok : Op → Prop
  | .merge p q => p ≠ q
  | _ => True

theorem exec_inv (ma : Malloc) (req : Bool) {w : World} {l : Ledger} {addrs : List (Nat × Nat)} (hi : Inv w l addrs) (op : Op)
    (hop : op.ok) :
    ∃ o w', exec ma req w op = .ok (o, w') ∧ o.destroyed = (if req then (l.step op.spec).2 else []) ∧
      Inv w' (l.step op.spec).1 (addrs ++ o.addr) ∧
      (∀ p, op = .alloc p false → ∃ b i, o.result = some (.ptr b i)) ∧
      (∀ p, op = .alloc p true → o.result = some .threw) := by
  cases op with
  | alloc p throws =>
    obtain ⟨r, bs, h', e1, e2, e3⟩ := alloc_inv ma (req := req) hi p throws
    refine ⟨⟨some r, []⟩, ⟨h', w.put p bs⟩, by simp only [exec, e1], ?_⟩
    cases throws with
    | true =>
      obtain ⟨rfl, h2⟩ := e2 rfl
      exact ⟨by simp [Op.spec, Ledger.step], by simpa [Op.spec, Ledger.step, Out.addr] using h2, by simp, by simp⟩
    | false =>
      obtain ⟨buf, i, rfl, h2⟩ := e3 rfl
      exact ⟨by simp [Op.spec, Ledger.step], by simpa [Op.spec, Ledger.step, Out.addr] using h2, by simp, by simp⟩
  | merge p q =>
    refine ⟨⟨none, []⟩, _, by simp only [exec, if_neg (show ¬ p = q from hop), poolMerge_eq]; rfl, ?_, ?_, by simp, by simp⟩
    · simp [Op.spec, Ledger.step]
    · simpa [Op.spec, Ledger.step, Out.addr] using merge_inv hi hop
  | clear p =>
    obtain ⟨h', e1, e2⟩ := clear_inv (req := req) hi p
    exact ⟨⟨none, if req then l.owned p else []⟩, _, by simp only [exec, e1]; rfl, rfl,
      by simpa [Op.spec, Ledger.step, Out.addr] using e2, by simp, by simp⟩
  | move p q =>
    by_cases hpq : p = q
    · refine ⟨⟨none, []⟩, w, by simp [exec, hpq], by simp [Op.spec, Ledger.step, hpq], ?_, by simp, by simp⟩
      simpa [Op.spec, Ledger.step, Out.addr, hpq] using hi
    · obtain ⟨h', e1, e2⟩ := clear_inv (req := req) hi p
      refine ⟨⟨none, if req then l.owned p else []⟩, _, by simp only [exec, if_neg hpq, e1]; rfl,
        by simp [Op.spec, Ledger.step, hpq], ?_, by simp, by simp⟩
      have h3 := merge_inv e2 hpq
      have hqp : ¬ q = p := fun h => hpq h.symm
      simp only [Op.spec, Ledger.step, hpq, if_false, Out.addr, List.append_nil]
      have hw : World.put ⟨h', World.put ⟨h', w.put p []⟩ p ((w.put p []) p ++ (w.put p []) q)⟩ q [] =
          World.put ⟨h', w.put p (w.pools q)⟩ q [] := by
        funext x
        simp only [World.put, if_true, hqp, if_false, List.nil_append]
        by_cases hx : x = q
        · simp [hx]
        · by_cases hx2 : x = p <;> simp [hx, hx2]
      have hl : (fun x => if x = q then [] else if x = p then
          l.owned q else if x = p then [] else l.owned x) =
          (fun x => if x = q then [] else if x = p then l.owned q else l.owned x) := by
        funext x
        by_cases hx : x = q
        · simp [hx]
        · by_cases hx2 : x = p <;> simp [hx, hx2]
      simp only [hw, if_true, hqp, if_false, List.nil_append] at h3
      rw [hl] at h3
      exact h3

end Bridge.Pool
