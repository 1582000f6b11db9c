import Verif.Spec.Oom
import Verif.Props.Pool
/-
The invariant of the pools when memory can run out.  A block without a buffer is hollow.
-/
set_option autoImplicit false
namespace Bridge.Pool
open Spec

/-- The blocks that have a buffer. -/
def real (bs : List Block) : List Block := bs.filter fun b => b.buf.isSome

/-- The world without hollow blocks. -/
def World.real (w : World) : World := ⟨w.heap, fun p => Pool.real (w.pools p)⟩

theorem real_append (a b : List Block) : real (a ++ b) = real a ++ real b := List.filter_append ..

theorem real_nil : real [] = [] := rfl

theorem real_shells (bs : List Block) : real (bs.map fun x => x.move.2) = [] := by
  induction bs with
  | nil => rfl
  | cons b bs ih => simp only [List.map_cons, real, Block.move, List.filter_cons, Option.isSome_none, Bool.false_eq_true, if_false]; exact ih

theorem real_put (w : World) (p : Nat) (bs : List Block) (h : Heap) : World.real ⟨h, w.put p bs⟩ = ⟨h, w.real.put p (real bs)⟩ := by
  simp only [World.real, World.mk.injEq, true_and]
  funext x
  simp only [World.put]
  split <;> rfl

theorem destroyAll_real (req : Bool) (bs : List Block) (h : Heap) : destroyAll req bs h = destroyAll req (real bs) h := by
  induction bs generalizing h with
  | nil => rfl
  | cons b bs ih =>
    cases hb : b.buf with
    | none =>
      have e : real (b :: bs) = real bs := by simp [real, hb]
      rw [e, ← ih h]
      simp only [destroyAll, Block.destroy, hb]
      cases destroyAll req bs h with
      | error e => rfl
      | ok q => rfl
    | some buf =>
      have e : real (b :: bs) = b :: real bs := by simp [real, hb]
      rw [e]
      simp only [destroyAll]
      cases b.destroy req h with
      | error e => rfl
      | ok q => simp only [ih]

/-- Only buffers that are not in use have changed. -/
theorem frame_inv {w : World} {l : Ledger} {addrs : List (Nat × Nat)} (hi : Inv w l addrs) {h' : Heap} (hl : h'.live = w.heap.live)
    (hn : h'.next = w.heap.next) (hc : ∀ b ∈ w.heap.live, ∀ i, h'.cell b i = w.heap.cell b i) : Inv ⟨h', w.pools⟩ l addrs := by
  have hlive : ∀ p, ∀ b ∈ w.pools p, ∀ buf, b.buf = some buf → buf ∈ w.heap.live := by
    intro p b hb buf hbuf
    obtain ⟨bu, hbu, hl, -⟩ := (hi.pools p).blocks b hb
    rw [hbuf] at hbu
    cases hbu
    exact hl
  refine ⟨by rw [hl]; exact hi.live, fun p => ?_, hi.apart, by rw [hn]; exact hi.made, by rw [hn]; exact hi.count, ?_, ?_⟩
  · refine (hi.pools p).frame (fun b hb buf hbuf => by rw [hl]; exact hlive p b hb buf hbuf) ?_
    intro b hb buf hbuf i _
    exact hc buf (hlive p b hb buf hbuf) i
  · intro p b hb buf hbuf i hit id hid
    simp only at hid
    rw [hc buf (hlive p b hb buf hbuf) i] at hid
    exact hi.addrs p b hb buf hbuf i hit id hid
  · intro buf hb
    simp only at hb
    rw [hl] at hb
    exact hi.noleak buf hb

/-- Some of the blocks of `q` go to `p`. -/
theorem part_inv {w : World} {l : Ledger} {addrs : List (Nat × Nat)} (hi : Inv w l addrs) {p q : Nat} (hpq : p ≠ q) {pre post : List Block}
    (hsplit : w.pools q = pre ++ post) :
    ∃ i1 i2, l.owned q = i1 ++ i2 ∧ Inv ⟨w.heap, World.put ⟨w.heap, w.put p (w.pools p ++ pre)⟩ q post⟩
      ⟨l.made, fun x => if x = q then i2 else if x = p then l.owned p ++ i1 else l.owned x⟩ addrs := by
  have hgq := hi.pools q
  rw [hsplit] at hgq
  have hcq := hgq.cells
  rw [List.flatMap_append] at hcq
  obtain ⟨i1, i2, hown, h1, h2⟩ := List.map_eq_append_iff.mp hcq.symm
  have hqp : ¬ q = p := fun e => hpq e.symm
  have hmem : ∀ x b, b ∈ World.put ⟨w.heap, w.put p (w.pools p ++ pre)⟩ q post x →
      (x = q ∧ b ∈ post) ∨ (x = p ∧ b ∈ pre) ∨ (x ≠ q ∧ b ∈ w.pools x) := by
    intro x b hb
    simp only [World.put] at hb
    split at hb
    · rename_i hx; exact .inl ⟨hx, hb⟩
    · rename_i hxq
      split at hb
      · rename_i hxp
        rcases List.mem_append.mp hb with hb | hb
        · exact .inr (.inr ⟨hxq, by rw [hxp]; exact hb⟩)
        · exact .inr (.inl ⟨hxp, hb⟩)
      · exact .inr (.inr ⟨hxq, hb⟩)
  have hpre : ∀ b ∈ pre, b ∈ w.pools q := fun b hb => by rw [hsplit]; exact List.mem_append.mpr (.inl hb)
  have hpost : ∀ b ∈ post, b ∈ w.pools q := fun b hb => by rw [hsplit]; exact List.mem_append.mpr (.inr hb)
  have hnd := hgq.nodup
  rw [List.map_append, List.nodup_append] at hnd
  have hpp : ∀ b ∈ pre, ∀ c ∈ post, b.buf ≠ c.buf := fun b hb c hc =>
    hnd.2.2 _ (List.mem_map.mpr ⟨b, hb, rfl⟩) _ (List.mem_map.mpr ⟨c, hc, rfl⟩)
  refine ⟨i1, i2, hown, hi.live, ?_, ?_, hi.made, hi.count, ?_, ?_⟩
  · intro x
    simp only [World.put]
    split
    · exact ⟨fun b hb => hgq.blocks b (List.mem_append.mpr (.inr hb)), hnd.2.1, h2.symm⟩
    · split
      · refine ⟨?_, ?_, ?_⟩
        · intro b hb
          rcases List.mem_append.mp hb with hb | hb
          · exact (hi.pools p).blocks b hb
          · exact hgq.blocks b (List.mem_append.mpr (.inl hb))
        · rw [List.map_append, List.nodup_append]
          refine ⟨(hi.pools p).nodup, hnd.1, ?_⟩
          intro a ha b hb
          obtain ⟨a', ha', rfl⟩ := List.mem_map.mp ha
          obtain ⟨b', hb', rfl⟩ := List.mem_map.mp hb
          exact hi.apart p q hpq a' ha' b' (hpre b' hb')
        · rw [List.flatMap_append, (hi.pools p).cells, List.map_append, h1]
      · exact hi.pools x
  · intro x y hxy b hb c hc
    have hb1 := hmem x b hb
    have hc1 := hmem y c hc
    clear hb hc
    rcases hb1 with ⟨rfl, hb⟩ | ⟨rfl, hb⟩ | ⟨hx, hb⟩
    · rcases hc1 with ⟨rfl, hc⟩ | ⟨rfl, hc⟩ | ⟨hy, hc⟩
      · exact absurd rfl hxy
      · exact fun e => hpp c hc b hb e.symm
      · exact hi.apart _ _ (Ne.symm hy) b (hpost b hb) c hc
    · rcases hc1 with ⟨rfl, hc⟩ | ⟨rfl, hc⟩ | ⟨hy, hc⟩
      · exact hpp b hb c hc
      · exact absurd rfl hxy
      · exact hi.apart _ _ (Ne.symm hy) b (hpre b hb) c hc
    · rcases hc1 with ⟨rfl, hc⟩ | ⟨rfl, hc⟩ | ⟨hy, hc⟩
      · exact hi.apart _ _ hx b hb c (hpost c hc)
      · exact hi.apart _ _ hx b hb c (hpre c hc)
      · exact hi.apart _ _ hxy b hb c hc
  · intro x b hb buf hbuf i hit id hid
    rcases hmem x b hb with ⟨-, hb⟩ | ⟨-, hb⟩ | ⟨-, hb⟩
    · exact hi.addrs q b (hpost b hb) buf hbuf i hit id hid
    · exact hi.addrs q b (hpre b hb) buf hbuf i hit id hid
    · exact hi.addrs x b hb buf hbuf i hit id hid
  · intro buf hb
    obtain ⟨x, b, hx, hbuf⟩ := hi.noleak buf hb
    by_cases hxq : x = q
    · subst hxq
      rw [hsplit] at hx
      rcases List.mem_append.mp hx with hx | hx
      · exact ⟨p, b, by simp [World.put, hpq, hx], hbuf⟩
      · exact ⟨x, b, by simp [World.put, hx], hbuf⟩
    · by_cases hxp : x = p
      · subst hxp; exact ⟨x, b, by simp [World.put, hpq, hx], hbuf⟩
      · exact ⟨x, b, by simp [World.put, hxq, hxp, hx], hbuf⟩

/-- Constructing in the last block of a pool depends on that block only. -/
theorem backAlloc_real (throws : Bool) (bs : List Block) (h : Heap) {b : Block} (hl : bs.getLast? = some b) {buf : Nat} (hb : b.buf = some buf) :
    (real bs).getLast? = some b ∧ ∀ r bs' h', backAlloc throws (real bs) h = .ok (r, bs', h') →
      ∃ bs'' c, backAlloc throws bs h = .ok (r, bs'', h') ∧ real bs'' = bs' ∧ bs'' = bs.dropLast ++ [c] ∧ c.buf.isSome = true := by
  obtain ⟨pre, rfl⟩ := List.getLast?_eq_some_iff.mp hl
  have e : real (pre ++ [b]) = real pre ++ [b] := by rw [real_append]; simp [real, hb]
  rw [e]
  refine ⟨List.getLast?_concat, fun r bs' h' hx => ?_⟩
  unfold backAlloc at hx ⊢
  rw [List.getLast?_concat] at hx ⊢
  simp only at hx ⊢
  cases ha : b.alloc throws h with
  | error e => rw [ha] at hx; cases hx
  | ok q =>
    obtain ⟨r', b', h1⟩ := q
    rw [ha] at hx
    simp only [Except.ok.injEq, Prod.mk.injEq] at hx
    obtain ⟨rfl, rfl, rfl⟩ := hx
    have hb' : b'.buf = some buf := by
      unfold Block.alloc at ha
      split at ha
      · cases ha; exact hb
      · rw [hb] at ha
        simp only at ha
        split at ha
        · split at ha <;> cases ha <;> first | exact hb | rfl
        · cases ha
    refine ⟨_, b', rfl, ?_, rfl, by rw [hb']; rfl⟩
    simp only [setLast, List.dropLast_concat]
    rw [real_append]
    simp [real, hb']

/-- The pool ends with a hollow block that looks as if it had room. -/
def Trap (bs : List Block) : Prop := ∃ b, bs.getLast? = some b ∧ b.buf = none ∧ b.full = false

/-- The blocks that can be taken from are not hollow. -/
theorem oom_alloc {ma : Malloc} {req throws buf vec : Bool} {w : World} {l : Ledger} {addrs : List (Nat × Nat)} (hi : Inv w.real l addrs) (p : Nat) :
    (∃ r bs c h', poolAllocOom ma req throws buf vec (w.pools p) w.heap = .ok (⟨some r, [], false⟩, bs, h') ∧
      (bs = (w.pools p).dropLast ++ [c] ∨ bs = w.pools p ++ [c]) ∧ c.buf.isSome = true ∧
      (throws = true → r = .threw ∧ Inv (World.real ⟨h', w.put p bs⟩) l addrs) ∧
      (throws = false → ∃ b i, r = .ptr b i ∧
        Inv (World.real ⟨h', w.put p bs⟩) ⟨l.made + 1, fun x => if x = p then l.owned p ++ [l.made] else l.owned x⟩ (addrs ++ [(b, i)]))) ∨
    (vec = false ∧ ∃ h', poolAllocOom ma req throws buf vec (w.pools p) w.heap = .ok (⟨none, [], true⟩, w.pools p, h') ∧
      Inv (World.real ⟨h', w.put p (w.pools p)⟩) l addrs) ∨
    (poolAllocOom ma req throws buf vec (w.pools p) w.heap = .error .badConstruct ∧ ((buf = false ∧ vec = true) ∨ Trap (w.pools p))) := by
  have hsame : w.put p (w.pools p) = w.pools := by
    funext x; simp only [World.put]; split
    · rename_i hx; rw [hx]
    · rfl
  unfold poolAllocOom
  split
  · cases vec with
    | false =>
      refine .inr (.inl ⟨rfl, ?_⟩)
      rw [hsame]
      cases buf with
      | false =>
        exact ⟨_, rfl, frame_inv hi (h' := { w.heap with time := w.heap.time + 1 }) rfl rfl (fun _ _ _ => rfl)⟩
      | true =>
        have hfresh := ma.fresh w.heap.time w.heap.live
        have hmk : Block.makeOom ma true (capacityFor (w.pools p).length) w.heap =
          (⟨some (ma.pick w.heap.time w.heap.live), 0, capacityFor (w.pools p).length⟩,
            { w.heap with live := ma.pick w.heap.time w.heap.live :: w.heap.live, time := w.heap.time + 1 }) :=
          if_pos (capacityFor_pos _)
        rw [hmk]
        generalize ma.pick w.heap.time w.heap.live = nb at hfresh
        have hd : (⟨some nb, 0, capacityFor (w.pools p).length⟩ : Block).destroy req { w.heap with live := nb :: w.heap.live, time := w.heap.time + 1 } =
            .ok ([], { w.heap with live := w.heap.live, time := w.heap.time + 1, cell := fun b j => if b = nb then none else w.heap.cell b j }) := by
          cases req <;> simp [Block.destroy, destructorProxy, destructFrom, Heap.free]
        simp only [Bool.false_eq_true, if_false, hd]
        refine ⟨_, rfl, frame_inv hi rfl rfl fun b hb i => ?_⟩
        have : b ≠ nb := fun e => hfresh (e ▸ hb)
        simp [World.real, this]
    | true =>
      simp only [if_true, vecPush_eq]
      cases buf with
      | false =>
        refine .inr (.inr ⟨?_, .inl ⟨rfl, trivial⟩⟩)
        have hne : ¬ (0 = capacityFor (w.pools p).length) := by have := capacityFor_pos (w.pools p).length; omega
        simp [Block.makeOom, backAlloc, Block.alloc, Block.full, hne]
      | true =>
        have hmk : Block.makeOom ma true (capacityFor (w.pools p).length) w.heap = Block.make ma (capacityFor (w.pools p).length) w.heap := rfl
        rw [hmk]
        obtain ⟨hi2, hnf⟩ := push_inv ma hi p (capacityFor_pos (w.pools p).length)
        have hbuf : ∃ nb, (Block.make ma (capacityFor (w.pools p).length) w.heap).1.buf = some nb := by
          unfold Block.make
          rw [if_pos (capacityFor_pos _)]
          exact ⟨_, rfl⟩
        obtain ⟨nb, hnb⟩ := hbuf
        have hwr : World.real w = ⟨w.heap, w.real.pools⟩ := rfl
        change Inv ⟨(Block.make ma (capacityFor (w.pools p).length) w.heap).2, w.real.put p (real (w.pools p) ++ [(Block.make ma (capacityFor (w.pools p).length) w.heap).1])⟩ l addrs at hi2
        change (Block.make ma (capacityFor (w.pools p).length) w.heap).1.full = false at hnf
        generalize (Block.make ma (capacityFor (w.pools p).length) w.heap).1 = nblk at hi2 hnf hnb
        generalize (Block.make ma (capacityFor (w.pools p).length) w.heap).2 = h1 at hi2
        have hput : (World.mk h1 (w.real.put p (real (w.pools p) ++ [nblk]))).pools p = real (w.pools p) ++ [nblk] := by simp [World.put]
        have hrl : real (w.pools p ++ [nblk]) = real (w.pools p) ++ [nblk] := by rw [real_append]; simp [real, hnb]
        obtain ⟨r, bs, h', e1, e2, e3⟩ := back_inv hi2 p throws (by rw [hput, List.getLast?_concat]) hnf
        rw [hput, ← hrl] at e1
        obtain ⟨bs'', c, f1, f2, f3, f4⟩ := (backAlloc_real throws (w.pools p ++ [nblk]) h1 List.getLast?_concat hnb).2 _ _ _ e1
        refine .inl ⟨r, bs'', c, h', by simp only [f1], ?_, f4, ?_, ?_⟩
        · rw [List.dropLast_concat] at f3; exact .inr f3
        all_goals
          rw [real_put, f2]
          have hpp : World.put ⟨h1, w.real.put p (real (w.pools p) ++ [nblk])⟩ p bs = w.real.put p bs := by
            funext x; simp only [World.put]; split <;> rfl
          rw [hpp] at e2 e3
          first | exact e2 | exact e3
  · rename_i hcond
    simp only [Bool.or_eq_true, not_or, Bool.not_eq_true] at hcond
    obtain ⟨hne, hf⟩ := hcond
    cases hl : (w.pools p).getLast? with
    | none =>
      rw [List.getLast?_eq_none_iff] at hl
      rw [hl] at hne
      simp at hne
    | some b =>
      rw [hl] at hf
      simp only [Option.map_some, Option.getD_some] at hf
      cases hb : b.buf with
      | none =>
        refine .inr (.inr ⟨?_, .inr ⟨b, hl, hb, hf⟩⟩)
        simp [backAlloc, hl, Block.alloc, hf, hb]
      | some nb =>
        have hr := backAlloc_real throws (w.pools p) w.heap hl hb
        obtain ⟨r, bs, h', e1, e2, e3⟩ := back_inv hi p throws hr.1 hf
        obtain ⟨bs'', c, f1, f2, f3, f4⟩ := hr.2 _ _ _ e1
        refine .inl ⟨r, bs'', c, h', by rw [f1], .inl f3, f4, ?_, ?_⟩
        all_goals
          rw [real_put, f2]
          first | exact e2 | exact e3

theorem oom_merge_all {req : Bool} {w : World} {l : Ledger} {addrs : List (Nat × Nat)} (hi : Inv w.real l addrs) {p q : Nat} (hpq : p ≠ q) :
    Inv (World.real ⟨w.heap, World.put ⟨w.heap, w.put p (w.pools p ++ w.pools q)⟩ q []⟩) (l.step (.merge p q)).1 addrs ∧
    poolMerge req (w.pools p) (w.pools q) w.heap = .ok ([], w.pools p ++ w.pools q, [], w.heap) := by
  refine ⟨?_, poolMerge_eq ..⟩
  have := merge_inv hi hpq
  have e : World.real ⟨w.heap, World.put ⟨w.heap, w.put p (w.pools p ++ w.pools q)⟩ q []⟩ =
      ⟨w.real.heap, World.put ⟨w.real.heap, w.real.put p (w.real.pools p ++ w.real.pools q)⟩ q []⟩ := by
    simp only [World.real, World.mk.injEq, true_and]
    funext x
    simp only [World.put]
    split
    · rfl
    · split
      · exact real_append ..
      · rfl
  rw [e]
  exact this

theorem oom_step (ma : Malloc) (req : Bool) {w : World} {l : Ledger} {addrs : List (Nat × Nat)} (hi : Inv w.real l addrs) (op : OomOp)
    (hop : op.ok) :
    (∃ o w' l' gone, execOom ma req w op = .ok (o, w') ∧ OomDoes l op o l' gone ∧ o.destroyed = (if req then gone else []) ∧
      Inv w'.real l' (addrs ++ o.addr)) ∨
    (execOom ma req w op = .error .badConstruct ∧ ∃ p throws buf vec, op = .alloc p throws buf vec ∧ ((buf = false ∧ vec = true) ∨ Trap (w.pools p))) := by
  cases op with
  | alloc p throws buf vec =>
    rcases oom_alloc (ma := ma) (req := req) (throws := throws) (buf := buf) (vec := vec) hi p with
      ⟨r, bs, c, h', e1, -, -, e2, e3⟩ | ⟨rfl, h', e1, e2⟩ | ⟨e1, e2⟩
    · refine .inl ?_
      cases throws with
      | true =>
        obtain ⟨rfl, h2⟩ := e2 rfl
        exact ⟨_, _, l, [], by simp only [execOom, e1]; rfl, .threw .., by simp, by simpa [OomOut.addr] using h2⟩
      | false =>
        obtain ⟨b, i, rfl, h2⟩ := e3 rfl
        exact ⟨_, _, _, [], by simp only [execOom, e1]; rfl, .made .., by simp, by simpa [OomOut.addr, Ledger.step] using h2⟩
    · exact .inl ⟨_, _, l, [], by simp only [execOom, e1]; rfl, .full .., by simp, by simpa [OomOut.addr] using e2⟩
    · exact .inr ⟨by simp only [execOom, e1], p, throws, buf, vec, rfl, e2⟩
  | merge p q stop =>
    have hpq : p ≠ q := hop
    obtain ⟨hall, hall2⟩ := oom_merge_all (req := req) hi hpq
    refine .inl ?_
    have whole : poolMergeOom req stop (w.pools p) (w.pools q) w.heap = .ok (⟨none, [], false⟩, w.pools p ++ w.pools q, [], w.heap) →
        ∃ o w' l' gone, execOom ma req w (.merge p q stop) = .ok (o, w') ∧ OomDoes l (.merge p q stop) o l' gone ∧
          o.destroyed = (if req then gone else []) ∧ Inv w'.real l' (addrs ++ o.addr) := by
      intro e
      exact ⟨_, _, _, [], by simp only [execOom, if_neg hpq, e]; rfl, .merged .., by simp, by simpa [OomOut.addr] using hall⟩
    cases stop with
    | none => exact whole (by simp only [poolMergeOom, hall2])
    | some k =>
      by_cases hk : k < (w.pools q).length
      · obtain ⟨i1, i2, hown, hinv⟩ := part_inv hi hpq (pre := real ((w.pools q).take k)) (post := real ((w.pools q).drop k))
          (by show real (w.pools q) = _; rw [← real_append, List.take_append_drop])
        refine ⟨_, _, _, [], by simp only [execOom, if_neg hpq, poolMergeOom, if_pos hk, mergeLoop_eq]; rfl, .part p q k [] i1 i2 hown, by simp, ?_⟩
        simp only [OomOut.addr, List.append_nil]
        refine (congrArg (fun w' => Inv w' _ addrs) ?_).mpr hinv
        simp only [World.real, World.mk.injEq, true_and]
        funext x
        simp only [World.put]
        split
        · rw [real_append, real_shells]; rfl
        · split
          · exact real_append ..
          · rfl
      · exact whole (by simp only [poolMergeOom, if_neg hk, hall2])
  | clear p =>
    obtain ⟨h', e1, e2⟩ := clear_inv (req := req) hi p
    refine .inl ⟨⟨none, if req then l.owned p else [], false⟩, ⟨h', w.put p []⟩, _, _, ?_, .cleared p _, rfl, ?_⟩
    · simp only [execOom]
      rw [destroyAll_real]
      have e1' : destroyAll req (real (w.pools p)) w.heap = .ok (if req then l.owned p else [], h') := e1
      rw [e1']
    · rw [real_put, real_nil]
      simpa [OomOut.addr, Ledger.step] using e2
  | move p q =>
    refine .inl ?_
    by_cases hpq : p = q
    · refine ⟨⟨none, [], false⟩, w, _, _, by simp [execOom, hpq], .moved p q _, by simp [Ledger.step, hpq], ?_⟩
      simpa [Ledger.step, OomOut.addr, hpq] using hi
    · obtain ⟨o, w', f1, f2, f3, -⟩ := exec_inv ma req hi (.move p q) trivial
      simp only [exec, if_neg hpq] at f1
      have e1 : destroyAll req (w.pools p) w.heap = destroyAll req (w.real.pools p) w.real.heap := destroyAll_real ..
      cases hd : destroyAll req (w.real.pools p) w.real.heap with
      | error e => rw [hd] at f1; cases f1
      | ok r =>
        obtain ⟨ids, h'⟩ := r
        rw [hd] at f1
        simp only [Except.ok.injEq, Prod.mk.injEq] at f1
        obtain ⟨rfl, rfl⟩ := f1
        refine ⟨⟨none, ids, false⟩, ⟨h', World.put ⟨h', w.put p (w.pools q)⟩ q []⟩, _, _, ?_, .moved p q _, f2, ?_⟩
        · simp only [execOom, if_neg hpq, e1, hd]
        · simp only [OomOut.addr, Out.addr] at f3 ⊢
          refine (congrArg (fun w' => Inv w' _ _) ?_).mpr f3
          simp only [World.real, World.mk.injEq, true_and]
          funext x
          simp only [World.put]
          split
          · rfl
          · split <;> rfl

/-! ### which pools may have hollow blocks -/

/-- Hollow blocks are where `hol` says, and never at the end of a pool. -/
structure Hol (hol : Nat → Bool) (w : World) : Prop where
  solid : ∀ p, hol p = false → ∀ b ∈ w.pools p, b.buf.isSome = true
  back : ∀ p b, (w.pools p).getLast? = some b → b.buf.isSome = true

theorem Hol.noTrap {hol : Nat → Bool} {w : World} (h : Hol hol w) (p : Nat) : ¬ Trap (w.pools p) := by
  rintro ⟨b, hl, hb, -⟩
  have := h.back p b hl
  rw [hb] at this
  cases this

theorem getLast?_append_cases {α : Type} {a b : List α} {x : α} (h : (a ++ b).getLast? = some x) : b.getLast? = some x ∨ (b = [] ∧ a.getLast? = some x) := by
  cases b with
  | nil => rw [List.append_nil] at h; exact .inr ⟨rfl, h⟩
  | cons y ys =>
    rw [List.getLast?_append] at h
    cases hb : (y :: ys).getLast? with
    | none => simp at hb
    | some z => rw [hb] at h; exact .inl h

theorem hol_whole {hol : Nat → Bool} {w : World} (h : Hol hol w) {p q : Nat} (hpq : p ≠ q) (h' : Heap) :
    Hol (fun x => if x = q then false else if x = p then hol p || hol q else hol x)
      ⟨h', World.put ⟨h', w.put p (w.pools p ++ w.pools q)⟩ q []⟩ := by
  constructor
  · intro x hx b hb
    simp only [World.put] at hb
    split at hb
    · cases hb
    · rename_i hq
      simp only [hq, if_false] at hx
      split at hb
      · rename_i hp
        simp only [hp, if_true, Bool.or_eq_false_iff] at hx
        rcases List.mem_append.mp hb with hb | hb
        · exact h.solid p hx.1 b hb
        · exact h.solid q hx.2 b hb
      · rename_i hp
        simp only [hp, if_false] at hx
        exact h.solid x hx b hb
  · intro x b hb
    simp only [World.put] at hb
    split at hb
    · cases hb
    · split at hb
      · rcases getLast?_append_cases hb with hb | ⟨-, hb⟩
        · exact h.back q b hb
        · exact h.back p b hb
      · exact h.back x b hb

theorem hol_step {ma : Malloc} {req : Bool} {hol : Nat → Bool} {w w' : World} {l : Ledger} {addrs : List (Nat × Nat)} {o : OomOut}
    (hi : Inv w.real l addrs) (h : Hol hol w) {op : OomOp} (hop : op.ok) (hc : ∀ p q k, op = .merge p q (some k) → hol q = false)
    (he : execOom ma req w op = .ok (o, w')) : Hol (hollowStep hol op) w' := by
  cases op with
  | alloc p throws buf vec =>
    simp only [execOom] at he
    rcases oom_alloc (ma := ma) (req := req) (throws := throws) (buf := buf) (vec := vec) hi p with
      ⟨r, bs, c, h', e1, e2, e3, -, -⟩ | ⟨-, h', e1, -⟩ | ⟨e1, -⟩
    · rw [e1] at he
      simp only [Except.ok.injEq, Prod.mk.injEq] at he
      obtain ⟨-, rfl⟩ := he
      constructor
      · intro x hx b hb
        simp only [World.put] at hb
        split at hb
        · rename_i hxp
          subst hxp
          have hm : b ∈ w.pools x ∨ b = c := by
            rcases e2 with rfl | rfl
            · rcases List.mem_append.mp hb with hb | hb
              · exact .inl (List.dropLast_subset _ hb)
              · exact .inr (List.mem_singleton.mp hb)
            · rcases List.mem_append.mp hb with hb | hb
              · exact .inl hb
              · exact .inr (List.mem_singleton.mp hb)
          rcases hm with hm | rfl
          · exact h.solid x hx b hm
          · exact e3
        · exact h.solid x hx b hb
      · intro x b hb
        simp only [World.put] at hb
        split at hb
        · have : bs.getLast? = some c := by rcases e2 with rfl | rfl <;> exact List.getLast?_concat
          rw [this] at hb
          cases hb
          exact e3
        · exact h.back x b hb
    · rw [e1] at he
      simp only [Except.ok.injEq, Prod.mk.injEq] at he
      obtain ⟨-, rfl⟩ := he
      have hsame : w.put p (w.pools p) = w.pools := by
        funext x; simp only [World.put]; split
        · rename_i hx; rw [hx]
        · rfl
      rw [hsame]
      exact ⟨h.solid, h.back⟩
    · rw [e1] at he; cases he
  | merge p q stop =>
    have hpq : p ≠ q := hop
    simp only [execOom, if_neg hpq] at he
    cases stop with
    | none =>
      simp only [poolMergeOom, poolMerge_eq, Except.ok.injEq, Prod.mk.injEq] at he
      obtain ⟨-, rfl⟩ := he
      exact hol_whole h hpq _
    | some k =>
      have hq := hc p q k rfl
      by_cases hk : k < (w.pools q).length
      · simp only [poolMergeOom, if_pos hk, mergeLoop_eq, Except.ok.injEq, Prod.mk.injEq] at he
        obtain ⟨-, rfl⟩ := he
        constructor
        · intro x hx b hb
          simp only [hollowStep] at hx
          simp only [World.put] at hb
          by_cases hxq : x = q
          · simp [hxq] at hx
          · simp only [if_neg hxq] at hb hx
            by_cases hxp : x = p
            · subst hxp
              simp only [if_true] at hb
              rcases List.mem_append.mp hb with hb | hb
              · exact h.solid x hx b hb
              · exact h.solid q hq b (List.mem_of_mem_take hb)
            · simp only [if_neg hxp] at hb
              exact h.solid x hx b hb
        · intro x b hb
          simp only [World.put] at hb
          by_cases hxq : x = q
          · simp only [hxq, if_true] at hb
            rcases getLast?_append_cases hb with hb | ⟨hb, -⟩
            · exact h.solid q hq b (List.mem_of_mem_drop (List.mem_of_getLast? hb))
            · have := congrArg List.length hb
              rw [List.length_drop] at this
              simp only [List.length_nil] at this
              omega
          · simp only [if_neg hxq] at hb
            by_cases hxp : x = p
            · subst hxp
              simp only [if_true] at hb
              rcases getLast?_append_cases hb with hb | ⟨-, hb⟩
              · exact h.solid q hq b (List.mem_of_mem_take (List.mem_of_getLast? hb))
              · exact h.back x b hb
            · simp only [if_neg hxp] at hb
              exact h.back x b hb
      · simp only [poolMergeOom, if_neg hk, poolMerge_eq, Except.ok.injEq, Prod.mk.injEq] at he
        obtain ⟨-, rfl⟩ := he
        have := hol_whole h hpq w.heap
        refine ⟨fun x hx b hb => this.solid x ?_ b hb, this.back⟩
        simp only [hollowStep] at hx
        by_cases hxq : x = q
        · simp [hxq] at hx
        · simp only [if_neg hxq] at hx ⊢
          by_cases hxp : x = p
          · subst hxp; simp only [if_true, hx, hq, Bool.or_self]
          · simp only [if_neg hxp, hx]
  | clear p =>
    simp only [execOom] at he
    split at he
    · cases he
    · simp only [Except.ok.injEq, Prod.mk.injEq] at he
      obtain ⟨-, rfl⟩ := he
      constructor
      · intro x hx b hb
        simp only [World.put] at hb
        split at hb
        · cases hb
        · rename_i hxp
          simp only [hollowStep, if_neg hxp] at hx
          exact h.solid x hx b hb
      · intro x b hb
        simp only [World.put] at hb
        split at hb
        · cases hb
        · exact h.back x b hb
  | move p q =>
    simp only [execOom] at he
    by_cases hpq : p = q
    · simp only [if_pos hpq, Except.ok.injEq, Prod.mk.injEq] at he
      obtain ⟨-, rfl⟩ := he
      simp only [hollowStep, if_pos hpq]
      exact h
    · simp only [if_neg hpq] at he
      split at he
      · cases he
      · simp only [Except.ok.injEq, Prod.mk.injEq] at he
        obtain ⟨-, rfl⟩ := he
        simp only [hollowStep, if_neg hpq]
        constructor
        · intro x hx b hb
          simp only [World.put] at hb
          split at hb
          · cases hb
          · rename_i hxq
            simp only [if_neg hxq] at hx
            split at hb
            · rename_i hxp
              simp only [hxp, if_true] at hx
              exact h.solid q hx b hb
            · rename_i hxp
              simp only [if_neg hxp] at hx
              exact h.solid x hx b hb
        · intro x b hb
          simp only [World.put] at hb
          split at hb
          · cases hb
          · split at hb
            · exact h.back q b hb
            · exact h.back x b hb

end Bridge.Pool
