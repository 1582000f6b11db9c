import Verif.Props.RoundTrip
import Verif.Proof.ScheduleEval
/-
C13, C41: the parallel parse under every schedule.  `PSteps n c p c' p'`: after `n` steps of tasks, in any order, the tasks `p` with
the dictionary's table in state `c` have become `p'` and `c'`.  `rootProg cfg ref fuel content s` is the main task of a parallel parse
of `content`, `s` being what was read from the header and the tables.
-/
set_option autoImplicit false
namespace Bridge
open Spec

/-! ### C13 -/

/-- C13: whatever order the steps of the tasks are taken in, a parallel parse that has come to its end has the same outcome: that of
running the tasks one after the other.  This holds for every content whose header can be read, and for values and errors alike. -/
theorem C13_schedule_independent {cfg : Cfg} {ref : Bool} {fuel w : Nat} {content : Bytes} {s : Sched}
    (hs : initFromContent cfg content = .ok s) (hsplit : s.split = true) (hw : 0 < w) {n : Nat} {c : Cache} {b : Res Blk}
    (h : PSteps n .unbuilt (.run (rootProg cfg ref fuel content s)) c (.run (.ret b))) :
    b = mapRes .root (parse cfg ⟨true, ref, w⟩ fuel content) := by
  have he := steps_eval h
  simp only [Proc.eval, rootProg, Prog.eval] at he
  rw [(coros_ok cfg _ _ _ _ fuel).map] at he
  rw [he]
  unfold parse
  rw [hs]
  simp only [ok_bind, if_true, Prog.eval]
  unfold coroutineParse
  rw [if_neg (by simp [hsplit]), if_neg (by omega)]
  cases coMap cfg (View.whole content) s.sm s.si ref fuel metaSize with
  | error e => simp only [mapRes, error_bind]
  | ok x => simp only [mapRes, ok_bind, pure_eq_ok]

/-- C13: two schedules of one parallel parse end with the same outcome. -/
theorem C13_any_two_schedules {cfg : Cfg} {ref : Bool} {fuel : Nat} {content : Bytes} {s : Sched} {n n' : Nat} {c c' : Cache}
    {b b' : Res Blk} (h : PSteps n .unbuilt (.run (rootProg cfg ref fuel content s)) c (.run (.ret b)))
    (h' : PSteps n' .unbuilt (.run (rootProg cfg ref fuel content s)) c' (.run (.ret b'))) : b = b' := by
  have h1 := steps_eval h
  have h2 := steps_eval h'
  simp only [Proc.eval, Prog.eval] at h1 h2
  rw [h1, h2]

/-- C13: no schedule goes on for ever, and the tasks are never stuck: a state that is not the end has a next step unless a task is
about to read the dictionary's table while another one builds it. -/
theorem C13_every_schedule_ends (cfg : Cfg) (ref : Bool) (fuel : Nat) (content : Bytes) (s : Sched) :
    (∃ bound, ∀ n c p, PSteps n .unbuilt (.run (rootProg cfg ref fuel content s)) c p → n ≤ bound) ∧
    ∀ n c p, PSteps n .unbuilt (.run (rootProg cfg ref fuel content s)) c p → ¬ Racy c p →
      (∃ b, p = .run (.ret b)) ∨ ∃ c' p', PStep c p c' p' := by
  constructor
  · refine ⟨(Proc.run (rootProg cfg ref fuel content s)).size, fun n c p h => ?_⟩
    have := steps_size h
    omega
  · intro n c p h hr
    by_cases hd : p.done
    · left
      match p, hd with
      | .run (.ret b), _ => exact ⟨b, rfl⟩
    · right
      refine progress c p hd hr fun hb => ?_
      have h1 := builders_pos hb
      have h2 := steps_builders h
      simp only [Proc.builders, Cache.busy] at h2
      split at h2
      · rename_i h3; cases h3
      · split at h2
        · assumption
        · omega

/-! ### C41 -/

theorem coros_touch (cfg : Cfg) (v : View) (m : StringMap) (si : SplitInfo) (parseRef : Bool) (f end_ : Nat) (c : Cur) :
    Solo ((coros cfg v (some m) si parseRef f).mapBlock end_ c fun r => .ret (mapRes .entries r)) := by
  cases f with
  | zero => exact .ret _
  | succ f =>
    simp only [coros, mapBlockP]
    split
    · exact .touch _
    · exact .ret _

/-- A map with at most one block: nothing runs in parallel before the dictionary has been read. -/
theorem root_solo {cfg : Cfg} {v : View} {m : StringMap} {si : SplitInfo} {ref : Bool} {f os e : Nat} {bs : List (Nat × Nat)}
    (hb : boundsP cfg v si os = .ok (bs, e)) (hl : bs.length ≤ 1) (k : Res (Obj × Cur) → Prog) (hk : ∀ r, Solo (k r)) :
    Solo ((coros cfg v (some m) si ref f).map os k) := by
  cases f with
  | zero => exact hk _
  | succ f =>
    simp only [coros, mapP]
    rw [hb]
    simp only [onRes]
    match bs, hl with
    | [], _ => exact .none _ fun rs => hk _
    | [b], _ => exact .one _ _ (coros_touch ..) fun rs => hk _

theorem blocksOf_one (wc : Cfg) (x : Bytes) : (blocksOf wc [x]).length ≤ 1 := by
  simp only [blocksOf, List.length_map, List.map_cons, List.map_nil, groupSizes]
  split
  · simp
  · split <;> simp

theorem blockBounds_length (b : Nat) (l : List Nat) : (blockBounds b l).1.length = l.length := by
  induction l generalizing b with
  | nil => rfl
  | cons x l ih => simp only [blockBounds, List.length_cons, ih]

/-- A split map's block bounds as the parser finds them. -/
theorem map_bounds {cfg wc : Cfg} {mem : Bytes} {sm : Option StringMap} {si : SplitInfo} {E : Env} (hctx : CCtx cfg mem sm si E)
    (es : List (Bytes × Doc)) (e : Env) (a : Nat) (hr : Room e (emitDoc wc (.map es) e).1.length)
    (hf : Follows (emitDoc wc (.map es) e).2.2 E) (hat : HasAt mem a (emitDoc wc (.map es) e).1)
    (hin : a + (emitDoc wc (.map es) e).1.length < mem.length) (hlt : a + (emitDoc wc (.map es) e).1.length < 2 ^ 32)
    (hsp : (emitDoc wc (.map es) e).2.1 = true) :
    boundsP cfg (View.whole mem) si a =
      .ok (blockBounds (a + (lenB es.length).length + (lenB e.si.requestId.2).length)
        (blocksOf wc (emitKVs wc es { e with si := e.si.requestId.1 }).1)) := by
  have hs := hctx.size
  simp only [emitDoc] at hsp
  simp only [emitDoc, emitContainer_length] at hr hf hat hin hlt
  have hp1 := lenB_length_pos es.length
  have hroom := request_room (k := (emitKVs wc es { e with si := e.si.requestId.1 }).1.flatten.length) hr (by omega)
  have hpos := emitKVs_pos wc es { e with si := e.si.requestId.1 }
  have hcnt := length_le_flatten hpos
  have hxl : (emitKVs wc es { e with si := e.si.requestId.1 }).1.length = es.length := emitKVs_length wc es _
  have hid : e.si.requestId.2 < 2 ^ 32 := by have := hr.siRoom; simp only [SplitInfo.requestId]; omega
  have hfresh := container_fresh hr (emitKVs_grows wc es _ hroom)
  have hreg := container_registered hsp hfresh
  have hbl := hctx.blocks _ _ (hf.info.subset hreg)
  simp only [emitContainer] at hat
  rw [HasAt.append, HasAt.append, List.length_append] at hat
  obtain ⟨⟨h1, h2⟩, h3⟩ := hat
  unfold boundsP
  rw [addW_of_lt (by omega), Nat.zero_add, readLen hctx.size (by omega) h1 (by omega)]
  simp only [ok_bind]
  rw [readLen hctx.size hid h2 (by omega)]
  simp only [ok_bind]
  rw [toU32_of_lt hid, hbl]
  simp only [ok_bind, pure_eq_ok]

/-- The root map of every document that `Serialize` writes has at most one block. -/
theorem root_one_block {cfg wc : Cfg} {t : SeriType} {d : Doc} {extra : Bytes} (h : ContentOk cfg wc t d extra)
    (hsp : (bodyOf wc t d).2.1 = true) :
    ∃ s bs e, initFromContent cfg (contentOf wc t d ++ extra) = .ok s ∧ s.split = true ∧ (t = .replace → ∃ m, s.sm = some m) ∧
      (t = .normal → s.sm = none) ∧
      boundsP cfg (View.whole (contentOf wc t d ++ extra)) s.si metaSize = .ok (bs, e) ∧ bs.length ≤ 1 := by
  obtain ⟨s, h1, h2, h3, h4, h5, h6⟩ := init_eq extra h.size h.lt
  have hlt := h.lt
  have hr := env0_room t (n := (bodyOf wc t d).1.length) (by omega)
  have hg : Grows (env0 t) (bodyOf wc t d).2.2 (bodyOf wc t d).1.length := emitDoc_grows wc (rootDoc d) (env0 t) hr
  have hctx := cctx_of_sched h.size h.strMax h2 hg.si
  have hsm : (t = .replace → ∃ m, s.sm = some m) ∧ (t = .normal → s.sm = none) := by
    constructor
    · rintro rfl
      obtain ⟨m', hm'⟩ : ∃ m', (bodyOf wc .replace d).2.2.sm = some m' := by
        obtain ⟨m', hm', -⟩ := hg.sm {} rfl SMInv.empty
        exact ⟨m', hm'⟩
      obtain ⟨m'', hm'', -⟩ := h2.sm m' hm'
      exact ⟨m'', hm''⟩
    · rintro rfl
      exact h2.smNone (hg.smNone rfl)
  have hmlen : (contentOf wc t d).length ≤ (contentOf wc t d ++ extra).length := by simp
  have hb := map_bounds hctx [(rootKey, d)] (env0 t) 10 hr (Follows.refl _) h5 (by
    have : (emitDoc wc (.map [(rootKey, d)]) (env0 t)).1.length = (bodyOf wc t d).1.length := rfl
    omega) (by
    have : (emitDoc wc (.map [(rootKey, d)]) (env0 t)).1.length = (bodyOf wc t d).1.length := rfl
    omega) hsp
  refine ⟨s, _, _, h1, by rw [h4, hsp], hsm.1, hsm.2, hb, ?_⟩
  rw [blockBounds_length]
  simp only [emitKVs]
  exact blocksOf_one _ _

/-- The program never reads the dictionary. -/
inductive NoTouch : Prog → Prop
  | ret (r : Res Blk) : NoTouch (.ret r)
  | fork (ts : List Prog) (k : List (Res Blk) → Prog) : (∀ t ∈ ts, NoTouch t) → (∀ rs, NoTouch (k rs)) → NoTouch (.fork ts k)

/-- Nor does a task of such a program. -/
inductive NoTouchQ : Proc → Prop
  | run {p : Prog} : NoTouch p → NoTouchQ (.run p)
  | wait (kids : List Proc) (k : List (Res Blk) → Prog) : (∀ q ∈ kids, NoTouchQ q) → (∀ rs, NoTouch (k rs)) → NoTouchQ (.wait kids k)

theorem noTouch_step {c c' : Cache} {p p' : Proc} (h : PStep c p c' p') (hp : NoTouchQ p) : NoTouchQ p' := by
  induction h with
  | read p => cases hp with | run h => cases h
  | beginBuild p => cases hp with | run h => cases h
  | endBuild p => cases hp
  | fork c ts k =>
    cases hp with
    | run h =>
      cases h with
      | fork _ _ h1 h2 =>
        refine .wait _ _ ?_ h2
        intro q hq
        obtain ⟨t, ht, rfl⟩ := List.mem_map.1 hq
        exact .run (h1 t ht)
  | kid pre post k _ ih =>
    cases hp with
    | wait _ _ h1 h2 =>
      refine .wait _ _ ?_ h2
      intro x hx
      rcases List.mem_append.1 hx with hx | hx
      · exact h1 x (by simp [hx])
      · rcases List.mem_cons.1 hx with rfl | hx
        · exact ih (h1 _ (by simp))
        · exact h1 x (by simp [hx])
  | join c rs k =>
    cases hp with
    | wait _ _ h1 h2 => exact .run (h2 rs)

theorem noTouch_steps {n : Nat} {c c' : Cache} {p p' : Proc} (h : PSteps n c p c' p') (h0 : NoTouchQ p) : NoTouchQ p' := by
  induction h with
  | nil => exact h0
  | snoc _ h2 ih => exact noTouch_step h2 (ih h0)

theorem noTouch_not_at {p : Proc} (h : NoTouchQ p) : ¬ AtTouch p := by
  intro ha
  induction ha with
  | here p => cases h with | run h => cases h
  | kid k hq _ ih => cases h with | wait _ _ h1 h2 => exact ih (h1 _ hq)

/-- What the coroutines of one depth do with programs that do not read the dictionary. -/
structure NoTouchC (cs : Coros) : Prop where
  arrayBlock : ∀ end_ c k, (∀ r, NoTouch (k r)) → NoTouch (cs.arrayBlock end_ c k)
  array : ∀ os k, (∀ r, NoTouch (k r)) → NoTouch (cs.array os k)
  mapBlock : ∀ end_ c k, (∀ r, NoTouch (k r)) → NoTouch (cs.mapBlock end_ c k)
  map : ∀ os k, (∀ r, NoTouch (k r)) → NoTouch (cs.map os k)

theorem noTouch_onRes {α : Type} (r : Res α) (fail : Err → Prog) (next : α → Prog) (h1 : ∀ e, NoTouch (fail e))
    (h2 : ∀ a, NoTouch (next a)) : NoTouch (onRes r fail next) := by
  cases r with
  | error e => exact h1 e
  | ok a => exact h2 a

theorem dictRead_none (p : Prog) : dictRead none p = p := rfl

theorem noTouch_child {cfg : Cfg} {v : View} {ref : Bool} {cs : Coros} (h : NoTouchC cs) (f : Nat) (split : Bool) (t : ObjectType)
    (c : Cur) (k : Res (Obj × Cur) → Prog) (hk : ∀ r, NoTouch (k r)) : NoTouch (childP cfg v none ref cs f split t c k) := by
  unfold childP
  split
  · split
    · exact h.array _ _ hk
    · exact h.map _ _ hk
    · exact hk _
  · rw [dictRead_none]; exact hk _

theorem noTouch_succ {cfg : Cfg} {v : View} {si : SplitInfo} {ref : Bool} {f : Nat} {cs : Coros} (ih : NoTouchC cs) :
    NoTouchC ⟨arrayBlockP cfg v none ref cs f, arrayP cfg v si cs, mapBlockP cfg v none ref cs f, mapP cfg v si ref cs⟩ := by
  refine ⟨?_, ?_, ?_, ?_⟩
  · intro end_ c k hk
    show NoTouch (arrayBlockP cfg v none ref cs f end_ c k)
    unfold arrayBlockP
    split
    · refine noTouch_onRes _ _ _ (fun e => hk _) fun x => noTouch_child ih _ _ _ _ _ fun r => ?_
      exact noTouch_onRes _ _ _ (fun e => hk _) fun y => ih.arrayBlock _ _ _ fun r => hk _
    · exact hk _
  · intro os k hk
    show NoTouch (arrayP cfg v si cs os k)
    unfold arrayP
    refine noTouch_onRes _ _ _ (fun e => hk _) fun b => .fork _ _ ?_ fun rs => hk _
    intro t ht
    obtain ⟨be, -, rfl⟩ := List.mem_map.1 ht
    exact ih.arrayBlock _ _ _ fun r => .ret _
  · intro end_ c k hk
    show NoTouch (mapBlockP cfg v none ref cs f end_ c k)
    unfold mapBlockP
    split
    · rw [dictRead_none]
      refine noTouch_onRes _ _ _ (fun e => hk _) fun kc => noTouch_onRes _ _ _ (fun e => hk _) fun x =>
        noTouch_child ih _ _ _ _ _ fun r => ?_
      exact noTouch_onRes _ _ _ (fun e => hk _) fun y => ih.mapBlock _ _ _ fun r => hk _
    · exact hk _
  · intro os k hk
    show NoTouch (mapP cfg v si ref cs os k)
    unfold mapP
    refine noTouch_onRes _ _ _ (fun e => hk _) fun b => .fork _ _ ?_ fun rs => hk _
    intro t ht
    obtain ⟨be, -, rfl⟩ := List.mem_map.1 ht
    exact ih.mapBlock _ _ _ fun r => .ret _

theorem noTouch_coros (cfg : Cfg) (v : View) (si : SplitInfo) (ref : Bool) : ∀ f, NoTouchC (coros cfg v none si ref f)
  | 0 => ⟨fun _ _ _ h => h _, fun _ _ h => h _, fun _ _ _ h => h _, fun _ _ h => h _⟩
  | f + 1 => noTouch_succ (noTouch_coros cfg v si ref f)

/-- C41: in no schedule of the parallel parse of a document written by `Serialize` does a task read the dictionary's table while
another task builds it. -/
theorem C41_no_race (w r : Cfg) (hw : w.charSigned = true) (t : SeriType) (o : Obj) (d : Doc) (hd : o.doc? = some d)
    (hh : Writable w o) {content : Bytes} (hc : serialize w t o = .ok content) (hf : Fits r content) {s : Sched}
    (hs : initFromContent r content = .ok s) (hsplit : s.split = true) (ref : Bool) (fuel n : Nat) (c : Cache) (p : Proc)
    (h : PSteps n .unbuilt (.run (rootProg r ref fuel content s)) c p) : ¬ Racy c p := by
  rw [serialize_eq hw t hd hh] at hc
  cases hc
  have hf' : Fits r (contentOf w t d ++ []) := by simpa using hf
  have hco := hf'.contentOk
  obtain ⟨s0, i1, -, -, i4, -, -⟩ := init_eq [] hco.size hco.lt
  rw [List.append_nil, hs] at i1
  cases i1
  obtain ⟨s', bs, e, j1, -, jm, jn, jb, jl⟩ := root_one_block hco (by rw [← i4, hsplit])
  rw [List.append_nil] at j1 jb
  rw [hs] at j1
  cases j1
  cases t with
  | replace =>
    obtain ⟨m, hm⟩ := jm rfl
    refine calm_not_racy (calm_steps h ?_)
    refine SoloQ.run ?_
    unfold rootProg
    rw [hm]
    exact root_solo jb jl _ fun r => .ret _
  | normal =>
    have hm := jn rfl
    intro hr
    refine noTouch_not_at (noTouch_steps h (.run ?_)) hr.2
    unfold rootProg
    rw [hm]
    exact (noTouch_coros _ _ _ _ _).map _ _ fun r => .ret _

/-- C13, C41: every schedule of the parallel parse of a split document that `Serialize` wrote goes on without a race until it ends, and
it ends with the document that was written. -/
theorem C13_every_schedule_right (w r : Cfg) (hw : w.charSigned = true) (t : SeriType) (o : Obj) (d : Doc) (hd : o.doc? = some d)
    (hh : Writable w o) {content : Bytes} (hc : serialize w t o = .ok content) (hf : Fits r content) {s : Sched}
    (hs : initFromContent r content = .ok s) (hsplit : s.split = true) (ref : Bool) (hcust : ref = true → d.noCustom = true) :
    ∃ N, ∀ fuel, N ≤ fuel →
      (∀ n c p, PSteps n .unbuilt (.run (rootProg r ref fuel content s)) c p →
        ¬ Racy c p ∧ ((∃ b, p = .run (.ret b)) ∨ ∃ c' p', PStep c p c' p')) ∧
      ∃ o' d', o'.doc? = some d' ∧ d.Same d' ∧
        ∀ n c b, PSteps n .unbuilt (.run (rootProg r ref fuel content s)) c (.run (.ret b)) → b = .ok (.root o') := by
  have hc' := hc
  rw [serialize_eq hw t hd hh] at hc'
  have hf' : Fits r (contentOf w t d ++ []) := by cases hc'; simpa using hf
  obtain ⟨o', d', ⟨-, N, hN⟩, h2, h3, -⟩ := parses_co (extra := []) hf' ref hcust (k := 1) (by omega)
  have hN' : ∀ fuel, N ≤ fuel → parse r ⟨true, ref, 1⟩ fuel content = .ok o' := by
    cases hc'; simpa using hN
  refine ⟨N, fun fuel hfu => ⟨fun n c p h => ?_, o', d', h2, h3, fun n c b h => ?_⟩⟩
  · have hr := C41_no_race w r hw t o d hd hh hc hf hs hsplit ref fuel n c p h
    exact ⟨hr, (C13_every_schedule_ends r ref fuel content s).2 n c p h hr⟩
  · rw [C13_schedule_independent hs hsplit (w := 1) (by omega) h, hN' fuel hfu]
    rfl

/-- The hypotheses hold for the sample written with the dictionary and blocks of ten bytes. -/
example :
    let w : Cfg := { Cfg.x86 with blockSize := 10 }
    (initFromContent w ((serialize w .replace sampleObj).toOption.getD [])).toOption.map Sched.split = some true ∧
      Fits w ((serialize w .replace sampleObj).toOption.getD []) :=
  ⟨by decide +kernel, by decide +kernel, by decide +kernel, by decide +kernel⟩

/-- A document with a dictionary whose root map has two blocks.  `Serialize` does not write such documents. -/
def racyContent : Bytes :=
  [0, 0, 0, 0, 0, 0, 0, 20, 1, 10, 2, 1, 0, 0, 1, 1, 1, 0, 1, 0, 10, 2, 4, 114, 111, 111, 116, 0, 1, 120, 1, 5, 1, 1, 2, 4, 4]

theorem racy_init : ∃ s m, initFromContent Cfg.x86 racyContent = .ok s ∧ s.split = true ∧ s.sm = some m ∧
    boundsP Cfg.x86 (View.whole racyContent) s.si metaSize = .ok ([(12, 16), (16, 20)], 20) := by
  have h : (match initFromContent Cfg.x86 racyContent with
    | .ok s => s.split && s.sm.isSome && decide (boundsP Cfg.x86 (View.whole racyContent) s.si metaSize = .ok ([(12, 16), (16, 20)], 20))
    | .error _ => false) = true := by decide +kernel
  generalize initFromContent Cfg.x86 racyContent = x at h
  cases x with
  | error e => simp at h
  | ok s =>
    simp only [Bool.and_eq_true, decide_eq_true_eq, Option.isSome_iff_exists] at h
    obtain ⟨⟨h1, m, h2⟩, h3⟩ := h
    exact ⟨s, m, rfl, h1, h2, h3⟩

/-- C41: that the root map has one block is what prevents the race.  The document above is accepted, and some schedule of its
parallel parse has one task read the table while another builds it. -/
theorem C41_race_with_two_root_blocks :
    (∃ o, Parses Cfg.x86 ⟨true, false, 2⟩ racyContent (.ok o)) ∧
    ∃ s n c p, initFromContent Cfg.x86 racyContent = .ok s ∧ s.split = true ∧
      PSteps n .unbuilt (.run (rootProg Cfg.x86 false 9 racyContent s)) c p ∧ Racy c p := by
  constructor
  · have h : ((parse Cfg.x86 ⟨true, false, 2⟩ 9 racyContent).toOption.map fun o => o.wGet .string) = some (.ok (some (.string [120]))) := by
      decide +kernel
    cases hp : parse Cfg.x86 ⟨true, false, 2⟩ 9 racyContent with
    | error e => rw [hp] at h; simp [Except.toOption] at h
    | ok o => exact ⟨o, by simp, 9, fun fuel hf => parse_mono hp (by simp) hf⟩
  · obtain ⟨s, m, h1, h2, h3, h4⟩ := racy_init
    have hroot : ∃ a b k, rootProg Cfg.x86 false 9 racyContent s = .fork [.touch a, .touch b] k := by
      unfold rootProg
      rw [h3]
      simp only [coros, mapP]
      rw [h4]
      simp only [onRes, List.map_cons, List.map_nil, mapBlockP]
      rw [if_pos (by decide), if_pos (by decide)]
      exact ⟨_, _, _, rfl⟩
    obtain ⟨a, b, k, hroot⟩ := hroot
    refine ⟨s, 2, .building, .wait [.build a, .run (.touch b)] k, h1, h2, ?_, rfl, .kid k (by simp) (.here b)⟩
    rw [hroot]
    exact ((PSteps.nil _ _).snoc (.fork _ _ _)).snoc (.kid [] [.run (.touch b)] k (.beginBuild a))

end Bridge
