import Verif.Lemmas.Outs
import Verif.Props.Sequential
import Verif.Props.Sessions

/-!
# C68: the caller changes a list after handing it over

A circuit copies what it needs out of `init_states`, but it keeps the caller's `qregs` list itself: as
`self.qregs`, as `_reg_dims`, and as the `base` of the default output processor.
-/

namespace QuDiet
open Spec

variable {R : Type} [CommRing R] [StarRing R] [DecidableEq R] [UnitaryCheck R]

/-! ### Lists that are not the registers of a circuit -/

/-- The statement names the list `a`. -/
def Event.Names (a : Nat) : Event R → Prop
  | .peek b => b = a
  | .put b _ => b = a
  | .new (.list b) (some b') _ => b = a ∨ b' = a
  | .new (.list b) none _ => b = a
  | .new (.tuple _ _) (some b') _ => b' = a
  | _ => False

/-- Two desks that differ only in the caller's list `a`. -/
structure SameBut (a : Nat) (d d' : Desk R) : Prop where
  length : d.ints.length = d'.ints.length
  ints : ∀ b, b ≠ a → d.ints[b]? = d'.ints[b]?
  circs : d.circs = d'.circs

omit [StarRing R] [DecidableEq R] [UnitaryCheck R] in
theorem SameBut.getD {a : Nat} {d d' : Desk R} (h : SameBut a d d') {b : Nat} (hb : b ≠ a) :
    d.ints.getD b [] = d'.ints.getD b [] := by
  rw [List.getD_eq_getElem?_getD, List.getD_eq_getElem?_getD, h.ints b hb]

theorem step_but (N : Numerics R) (B : Backend R) {a : Nat} {d d' : Desk R} (h : SameBut a d d') {e : Event R}
    (he : ¬ e.Names a) : (d.step N B e).1 = (d'.step N B e).1 ∧ SameBut a (d.step N B e).2 (d'.step N B e).2 := by
  cases e with
  | list l =>
    refine ⟨rfl, ⟨by simp [Desk.step, h.length], fun b hb => ?_, h.circs⟩⟩
    simp only [Desk.step]
    rw [List.getElem?_append, List.getElem?_append, h.length, h.ints b hb]
  | peek b => exact ⟨by simp only [Desk.step]; rw [h.getD he], h⟩
  | put b l =>
    simp only [Desk.step, h.length]
    split
    · refine ⟨rfl, ⟨by simp [h.length], fun b' hb' => ?_, h.circs⟩⟩
      simp only [List.getElem?_set, h.length, h.ints b' hb']
    · exact ⟨rfl, h⟩
  | new q init out =>
    have hq : q.val d.ints = q.val d'.ints := by
      cases q with
      | tuple n k => rfl
      | list b =>
        have : b ≠ a := by
          rintro rfl
          cases init <;> simp [Event.Names] at he
        simp only [RegsRef.val]
        rw [h.getD this]
    have hi : ∀ b, init = some b → b ≠ a := by
      rintro b rfl rfl
      cases q <;> simp [Event.Names] at he
    have hv : initVal d.ints init = initVal d'.ints init := by
      cases init with
      | none => rfl
      | some b => exact h.getD (hi b rfl)
    have ha : ∀ n, SameBut a ⟨intsAfter n d.ints init, d.circs⟩ ⟨intsAfter n d'.ints init, d'.circs⟩ := by
      intro n
      cases init with
      | none => exact h
      | some b =>
        refine ⟨by simp [intsAfter, h.length], fun b' hb' => ?_, h.circs⟩
        simp only [intsAfter]
        rw [getElem?_modify', getElem?_modify', h.ints b' hb', h.ints b (hi b rfl)]
    simp only [Desk.step, h.length, hq, hv, h.circs]
    split
    · cases Circuit.new (R := R) (q.val d'.ints) (initVal d'.ints init) out with
      | error e =>
        have := ha (q.val d'.ints).dims.length
        rw [h.circs] at this
        exact ⟨rfl, this⟩
      | ok c =>
        have := ha (q.val d'.ints).dims.length
        exact ⟨rfl, ⟨this.length, this.ints, rfl⟩⟩
    · exact ⟨rfl, h⟩
  | call i k =>
    simp only [Desk.step, h.circs]
    cases d'.circs[i]? with
    | none => exact ⟨rfl, h⟩
    | some c => exact ⟨rfl, ⟨h.length, h.ints, rfl⟩⟩
  | run i =>
    simp only [Desk.step, h.circs]
    cases d'.circs[i]? with
    | none => exact ⟨rfl, h⟩
    | some c => exact ⟨rfl, ⟨h.length, h.ints, rfl⟩⟩
  | config i =>
    simp only [Desk.step, h.circs]
    cases d'.circs[i]? <;> exact ⟨rfl, h⟩
  | info i =>
    simp only [Desk.step, h.circs]
    cases d'.circs[i]? <;> exact ⟨rfl, h⟩

theorem observe_but (N : Numerics R) (B : Backend R) {a : Nat} (es : List (Event R)) (hes : ∀ e ∈ es, ¬ e.Names a)
    {d d' : Desk R} (h : SameBut a d d') : d.observe N B es = d'.observe N B es := by
  induction es generalizing d d' with
  | nil => rfl
  | cons e es ih =>
    obtain ⟨h1, h2⟩ := step_but N B h (hes e (by simp))
    rw [desk_cons, desk_cons, h1, ih (fun e he => hes e (by simp [he])) h2]

/-- **C68.** Changing a list that no circuit was given as `qregs` is invisible to every circuit, even if it
was given as `init_states`: after the change everything is seen that would have been seen without it, as long
as the list is not used again. -/
theorem C68_other_lists_are_free (N : Numerics R) (B : Backend R) {pre post : List (Event R)} {a : Nat}
    {l : List Int} (hs : Separate (pre ++ post)) (hpre : ∀ e ∈ pre, ¬ e.Registers a)
    (hpost : ∀ e ∈ post, ¬ e.Names a) :
    (World.empty.observe N B (pre ++ .put a l :: post)).drop (pre.length + 1) =
      (World.empty.observe N B (pre ++ post)).drop pre.length := by
  have hs' : Separate (pre ++ .put a l :: post) := by
    have hl := List.pairwise_append.1 hs.later
    refine ⟨List.pairwise_append.2 ⟨hl.1, List.pairwise_cons.2 ⟨?_, hl.2.1⟩, ?_⟩, ?_⟩
    · intro e _ b _ hb
      exact hb
    · intro e he e' he' b hb
      rcases List.mem_cons.1 he' with rfl | he'
      · cases hb
        exact hpre e he
      · exact hl.2.2 e he e' he' b hb
    · intro e he
      simp only [List.mem_append, List.mem_cons] at he
      rcases he with he | rfl | he
      · exact hs.same e (by simp [he])
      · intro b _ hb
        exact hb
      · exact hs.same e (by simp [he])
  rw [observe_eq N B hs', observe_eq N B hs, desk_append, desk_append, desk_cons,
    List.drop_left' (desk_length N B _ _), List.drop_append, desk_length]
  rw [List.drop_eq_nil_of_le (by rw [desk_length]; omega), Nat.add_sub_cancel_left]
  simp only [List.nil_append, List.drop_succ_cons, List.drop_zero]
  refine observe_but N B post hpost ?_
  simp only [Desk.step]
  split
  · exact ⟨by simp, fun b hb => by rw [List.getElem?_set, if_neg fun h => hb h.symm], rfl⟩
  · exact ⟨rfl, fun _ _ => rfl, rfl⟩

/-! ### The list given as `qregs` -/

/-- The memory after some statements. -/
def World.after (N : Numerics R) (B : Backend R) (w : World R) (es : List (Event R)) : World R :=
  es.foldl (fun w e => (w.step N B e).2) w

theorem world_append (N : Numerics R) (B : Backend R) (w : World R) (as bs : List (Event R)) :
    w.observe N B (as ++ bs) = w.observe N B as ++ (w.after N B as).observe N B bs := by
  induction as generalizing w with
  | nil => rfl
  | cons a as ih =>
    show (w.step N B a).1 :: (w.step N B a).2.observe N B (as ++ bs) = _
    rw [ih]
    rfl

/-- A single circuit over the caller's list `0`. -/
structure Lone (ints : List (List Int)) (out : Option Output) (c : Circuit R) (w : World R) : Prop where
  wf : w.WF
  ints : w.ints = ints
  regs : w.regs = [.list 0]
  outs : w.circs.map CircObj.output = [out]
  view : w.view 0 = some c

omit [StarRing R] [DecidableEq R] [UnitaryCheck R] in
theorem Lone.obj {ints : List (List Int)} {out : Option Output} {c : Circuit R} {w : World R}
    (h : Lone ints out c w) : ∃ o, w.circs = [o] ∧ o.regs = .list 0 ∧ o.output = out ∧ o.read w = c := by
  have h1 := h.regs
  have h2 := h.outs
  have h3 := h.view
  unfold World.regs at h1
  rcases hc : w.circs with _ | ⟨o, _ | ⟨o', l⟩⟩
  · rw [hc] at h1; cases h1
  · rw [hc] at h1 h2
    refine ⟨o, rfl, by simpa using h1, by simpa using h2, ?_⟩
    simp only [World.view, hc] at h3
    simpa using h3
  · rw [hc] at h1; simp at h1

theorem lone_call (N : Numerics R) (B : Backend R) {ints : List (List Int)} {out : Option Output} {c : Circuit R}
    {w : World R} (h : Lone ints out c w) (k : Call R) :
    Lone ints out (c.call k).1 (w.step N B (.call 0 k)).2 := by
  obtain ⟨o, hc, _, _, hr⟩ := h.obj
  have ho : w.circs[0]? = some o := by rw [hc]; rfl
  have hsim := callObj_sim h.wf ho k
  have hout := outs_call 0 k w
  have e : (w.step N B (.call 0 k)).2 = (callObj 0 k w).2 := by
    simp only [World.step, hc, List.length_singleton, Nat.zero_lt_one, if_true]
  rw [e]
  unfold SimAt at hsim
  rw [hr] at hsim
  unfold Circuit.call
  cases hk : c.callM k with
  | error err =>
    rw [hk] at hsim
    obtain ⟨w', h1, h2⟩ := hsim
    rw [h1] at hout ⊢
    exact ⟨h2.wf, h2.ints.trans h.ints, h2.regs.trans h.regs, hout.trans h.outs, (h2.view 0).trans h.view⟩
  | ok r =>
    rw [hk] at hsim
    obtain ⟨w', h1, h2⟩ := hsim
    rw [h1] at hout ⊢
    refine ⟨h2.wf, h2.ints.trans h.ints, h2.regs.trans h.regs, hout.trans h.outs, ?_⟩
    rw [h2.view, if_pos rfl, h.view]
    rfl

theorem lone_calls (N : Numerics R) (B : Backend R) {ints : List (List Int)} {out : Option Output}
    (ks : List (Call R)) {c : Circuit R} {w : World R} (h : Lone ints out c w) :
    Lone ints out (c.calls ks) (w.after N B (ks.map (.call 0))) := by
  induction ks generalizing c w with
  | nil => exact h
  | cons k ks ih => exact ih (lone_call N B h k)

/-- The world after the constructor. -/
theorem lone_new (N : Numerics R) (B : Backend R) {ds init : List Int} {out : Option Output} {c : Circuit R}
    (hc : Circuit.new (.list ds) init out = .ok c) :
    Lone (intsAfter ds.length [ds, init] (some 1)) out c
      (World.empty.after N B [.list ds, .list init, .new (.list 0) (some 1) out]) := by
  have hw : World.WF (R := R) ⟨[ds, init], [], [], []⟩ := by
    constructor <;> simp
  have hsim := newObj_sim hw (q := .list 0) (init := some 1) (out := out) (by simp [World.regs])
  have e : World.empty.after N B [.list ds, .list init, (.new (.list 0) (some 1) out : Event R)] =
      (newObj (.list 0) (some 1) out ⟨[ds, init], [], [], []⟩).2 := by
    simp [World.after, World.step, World.empty, listsExist]
  rw [e]
  have hv : (RegsRef.list 0).val [ds, init] = .list ds := rfl
  have hi : initVal [ds, init] (some 1) = init := rfl
  simp only [hv, hi, hc] at hsim
  obtain ⟨h1, h2, _, h3, h4, h5⟩ := hsim
  have hout := outs_new (.list 0) (some 1) out ⟨[ds, init], [], [], []⟩ _ h3
  exact ⟨h2, h1, by simpa [World.regs] using h4, by simpa using hout, by simpa using h5⟩

/-- Changing the list of registers. -/
def Circuit.rebase (c : Circuit R) (ds : List Int) (out : Option Output) : Circuit R :=
  { c with
    qregs := .list (ds.map Int.toNat)
    regDims := ds.map Int.toNat
    output := out.getD { base := ds.map Int.toNat, type := .print, method := .amplitude } }

theorem lone_put (N : Numerics R) (B : Backend R) {ints : List (List Int)} {out : Option Output} {c : Circuit R}
    {w : World R} (h : Lone ints out c w) (hn : ints ≠ []) (ds : List Int) :
    Lone (ints.set 0 ds) out (c.rebase ds out) (w.step N B (.put 0 ds)).2 := by
  obtain ⟨o, hc, h1, h2, hr⟩ := h.obj
  have hpos : 0 < w.ints.length := by rw [h.ints]; exact List.length_pos_of_ne_nil hn
  simp only [World.step, if_pos hpos]
  refine ⟨⟨h.wf.opf, h.wf.inj, h.wf.mem, h.wf.sep, h.wf.nodup⟩, by rw [h.ints], h.regs, h.outs, ?_⟩
  have hread : o.regs.read { w with ints := w.ints.set 0 ds } = .list ds := by
    rw [h1]
    simp only [RegsRef.read]
    rw [List.getD_eq_getElem?_getD, List.getElem?_set_self hpos]
    rfl
  have ho : ({ w with ints := w.ints.set 0 ds } : World R).circs[0]? = some o := by
    show w.circs[0]? = some o
    rw [hc]
    rfl
  rw [view_some ho]
  congr 1
  rw [← hr]
  unfold CircObj.read Circuit.rebase
  rw [hread, h2]
  rfl

theorem lone_run (N : Numerics R) (B : Backend R) {ints : List (List Int)} {out : Option Output} {c : Circuit R}
    {w : World R} (h : Lone ints out c w) : (w.step N B (.run 0)).1 = .result (c.run N B).2 := by
  obtain ⟨o, hc, _, _, hr⟩ := h.obj
  have ho : w.circs[0]? = some o := by rw [hc]; rfl
  obtain ⟨w', h1, _⟩ := runObj_sim N B h.wf ho
  rw [hr] at h1
  simp only [World.step, hc, List.length_singleton, Nat.zero_lt_one, if_true, h1]

/-- Another output processor. -/
def Circuit.withOutput (c : Circuit R) (o : Output) : Circuit R := { c with output := o }

omit [StarRing R] [DecidableEq R] [UnitaryCheck R] in
theorem addMoment_withOutput (c : Circuit R) (o : Output) (q : RegArg) (g : GateObj R) :
    (c.withOutput o).addMoment q g = (c.addMoment q g).map fun r => (r.1.withOutput o, r.2) := by
  unfold Circuit.addMoment
  change (do let m ← c.momentData q g; let (f, r) ← c.flow.populate m; .ok ({ c.withOutput o with flow := f }, r)) = _
  cases c.momentData q g with
  | error e => rfl
  | ok m =>
    simp only [ok_bind]
    cases c.flow.populate m <;> rfl

omit [StarRing R] [DecidableEq R] [UnitaryCheck R] in
theorem callM_withOutput (c : Circuit R) (o : Output) (k : Call R) :
    (c.withOutput o).callM k = (c.callM k).map fun r => (r.1.withOutput o, r.2) := by
  cases k with
  | h q d => exact bind_map_core _ _ _ _ fun _ => bind_map_core _ _ _ _ fun _ => addMoment_withOutput c o _ _
  | x q d p => exact bind_map_core _ _ _ _ fun _ => bind_map_core _ _ _ _ fun _ => addMoment_withOutput c o _ _
  | z q d => exact bind_map_core _ _ _ _ fun _ => bind_map_core _ _ _ _ fun _ => addMoment_withOutput c o _ _
  | cx a b p => exact addMoment_withOutput c o _ _
  | toffoli cs t p =>
    refine bind_map_core _ _ _ _ fun r => ?_
    obtain ⟨U, lb, ub, ds⟩ := r
    simp only [addMoment_withOutput]
    cases c.addMoment (.list (pyRange lb (ub + 1))) (.toffoli cs t (pyRange lb (ub + 1)) ds U p) <;> rfl
  | gate U q d =>
    cases q with
    | int q => exact bind_map_core _ _ _ _ fun _ => bind_map_core _ _ _ _ fun _ => addMoment_withOutput c o _ _
    | list qs =>
      refine bind_map_core _ _ _ _ fun _ => ?_
      rcases d with _ | _ | k
      · exact bind_map_core (qs.mapM (pyGet c.regDims)) _ _ _ fun _ => addMoment_withOutput c o _ _
      · exact bind_map_core (qs.mapM (pyGet c.regDims)) _ _ _ fun _ => addMoment_withOutput c o _ _
      · exact addMoment_withOutput c o _ _
  | measure q => rfl
  | measureAll => exact bind_map_core (c.flow.populate _) _ _ _ fun _ => rfl

omit [StarRing R] [DecidableEq R] [UnitaryCheck R] in
theorem calls_withOutput (o : Output) (ks : List (Call R)) (c : Circuit R) :
    (c.withOutput o).calls ks = (c.calls ks).withOutput o := by
  induction ks generalizing c with
  | nil => rfl
  | cons k ks ih =>
    have e : ((c.withOutput o).call k).1 = (c.call k).1.withOutput o := by
      unfold Circuit.call
      rw [callM_withOutput]
      cases c.callM k <;> rfl
    show ((c.withOutput o).call k).1.calls ks = _
    rw [e, ih]
    rfl

omit [StarRing R] [DecidableEq R] [UnitaryCheck R] in
theorem new_withOutput {q : RegsArg} {init : List Int} {out : Option Output} {c : Circuit R}
    (h : Circuit.new q init out = .ok c) (o : Output) :
    Circuit.new q init (some o) = .ok (c.withOutput o) := by
  unfold Circuit.new at h ⊢
  simp only [bind, Except.bind] at h ⊢
  cases hm : initMoment (R := R) q.dims (extendStates q.dims.length init) with
  | error e => rw [hm] at h; cases h
  | ok m =>
    rw [hm] at h
    simp only [] at h ⊢
    cases hp : (Flow.mk (R := R) [] [0]).populate m with
    | error e => rw [hp] at h; cases h
    | ok r =>
      rw [hp] at h
      cases h
      rfl

/-- The processor of a circuit whose list of registers now reads `ds`: the one that was given, or the default
one, which shows labels in the dimensions it finds in the list. -/
def outputNow (ds : List Int) (out : Option Output) : Output :=
  out.getD { base := ds.map Int.toNat, type := .print, method := .amplitude }

theorem lone_session (N : Numerics R) (B : Backend R) (ds init : List Int) (out : Option Output)
    (ks : List (Call R)) (ds' : List Int) {c : Circuit R} (hc : Circuit.new (.list ds) init out = .ok c) :
    ∃ ints w, Lone ints out ((c.calls ks).rebase ds' out) w ∧ ∀ (es : List (Event R)) (e : Event R),
      (World.empty.observe N B ([.list ds, .list init, .new (.list 0) (some 1) out] ++
        ks.map (.call 0) ++ .put 0 ds' :: (es ++ [e]))).getLast? = some ((w.after N B es).step N B e).1 := by
  refine ⟨_, _, lone_put N B (lone_calls N B ks (lone_new N B hc)) (by simp [intsAfter]) ds', fun es e => ?_⟩
  have h : ([.list ds, .list init, .new (.list 0) (some 1) out] ++ ks.map (.call 0) ++ .put 0 ds' :: (es ++ [e]) :
      List (Event R)) = ([.list ds, .list init, .new (.list 0) (some 1) out] ++ ks.map (.call 0) ++ [.put 0 ds'] ++ es)
        ++ [e] := by simp
  have happ : ∀ (w : World R) (as bs : List (Event R)), w.after N B (as ++ bs) = (w.after N B as).after N B bs := by
    intro w as bs
    simp [World.after]
  rw [h, world_append]
  simp only [World.observe, List.getLast?_append, List.getLast?_singleton, Option.some_or]
  rw [happ, happ, happ]
  rfl

/-- **C68.** Changing the list that was given as `qregs` between the last gate call and `run()` changes the
result: `run()` returns, or raises, what it would if the circuit had been built over the old list with an
output processor over the new one. (If a processor was given, nothing changes.) -/
theorem C68_changed_registers_relabel (N : Numerics R) (B : Backend R) (ds init : List Int) (out : Option Output)
    (ks : List (Call R)) (ds' : List Int) {c : Circuit R} (hc : Circuit.new (.list ds) init out = .ok c) :
    (World.empty.observe N B ([.list ds, .list init, .new (.list 0) (some 1) out] ++
      ks.map (.call 0) ++ [.put 0 ds', .run 0])).getLast? =
      some (.result (script N B (.list ds) init (some (outputNow ds' out)) ks)) := by
  obtain ⟨ints, w, h1, h2⟩ := lone_session N B ds init out ks ds' hc
  refine (h2 [] _).trans ?_
  rw [show w.after N B [] = w from rfl, lone_run N B h1]
  congr 2
  unfold script
  rw [new_withOutput hc]
  show _ = (((c.withOutput (outputNow ds' out)).calls ks).run N B).2
  rw [calls_withOutput]
  unfold Circuit.run
  have e2 : ((c.calls ks).rebase ds' out).runResult N B = ((c.calls ks).withOutput (outputNow ds' out)).runResult N B := rfl
  rw [e2]
  cases ((c.calls ks).withOutput (outputNow ds' out)).runResult N B <;> rfl

/-- **C68.** The reports follow the list too: after the change `get_circuit_config()` gives the length of the
new list as the width, and `get_circuit_info()` as the number of qudits; the depth of the former and the
gates of the latter are those of the circuit that was built. -/
theorem C68_changed_registers_reports (N : Numerics R) (B : Backend R) (ds init : List Int) (out : Option Output)
    (ks : List (Call R)) (ds' : List Int) {c : Circuit R} (hc : Circuit.new (.list ds) init out = .ok c) :
    (World.empty.observe N B ([.list ds, .list init, .new (.list 0) (some 1) out] ++
      ks.map (.call 0) ++ [.put 0 ds', .config 0])).getLast? =
      some (.config (.num ds'.length) (c.calls ks).depth) ∧
    ∃ x : Info, (World.empty.observe N B ([.list ds, .list init, .new (.list 0) (some 1) out] ++
      ks.map (.call 0) ++ [.put 0 ds', .info 0])).getLast? = some (.info x) ∧ x.qudit = ds'.length ∧
      x.details = (c.calls ks).info.details := by
  obtain ⟨ints, w, h1, h2⟩ := lone_session N B ds init out ks ds' hc
  have hv := h1.view
  constructor
  · refine (h2 [] _).trans ?_
    rw [show w.after N B [] = w from rfl]
    simp only [World.step, hv]
    simp [Circuit.rebase, Circuit.width, Circuit.depth]
  · refine ⟨((c.calls ks).rebase ds' out).info, ?_, ?_, rfl⟩
    · refine (h2 [] _).trans ?_
      rw [show w.after N B [] = w from rfl]
      simp only [World.step, hv]
    · simp [Circuit.rebase, Circuit.info, Regs.seq]

/-! ### Output processors over other registers -/

/-- Decoding is looking up the table of level lists. -/
theorem nbaseToBin_states (base : List Nat) (hpos : ∀ b ∈ base, 0 < b) (v : Nat) :
    nbaseToBin v base = match (states base)[v]? with
      | some t => .ok t
      | none => .error .index := by
  have hmap := map_value_states base
  have hlen : (states base).length = base.prod := by
    rw [← List.length_map (f := value base), hmap, List.length_range]
  by_cases hv : v < base.prod
  · obtain ⟨s, h1, h2, h3⟩ := nbaseToBin_ok base v hv
    have h4 : (states base)[v]? = some ((states base)[v]'(by omega)) := List.getElem?_eq_getElem _
    have h5 : value base ((states base)[v]'(by omega)) = v := by
      have := congrArg (fun l => l[v]?) hmap
      simp only [List.getElem?_map, h4, Option.map_some, List.getElem?_range hv] at this
      simpa using this
    rw [h4]
    simp only []
    have hf := mem_states.1 (List.getElem_mem (l := states base) (by omega : v < (states base).length))
    rw [← nbaseToBin_value hf, h5]
  · rw [List.getElem?_eq_none (by omega)]
    exact nbaseToBin_error base hpos v (by omega)

/-- **C69.** An output processor may be given over other registers than the circuit's: outcome number `k` in
the order of the circuit's basis states is then shown with the `k`-th label of the processor's registers, and
with `IndexError` if there is no such label for an outcome of non-zero amplitude. -/
theorem C69_processor_over_other_registers [Nontrivial R] {N : Numerics R} (hN : N.Sized) {B : Backend R}
    (hB : B.Lawful) {dims : List Nat} (hne : dims ≠ []) {init : List Int}
    (h : ValidStart (dims.map Int.ofNat) init) (o : Output) (ho : ∀ b ∈ o.base, 0 < b) {ks : List (Call R)}
    (hks : ∀ k ∈ ks, k.Valid dims) :
    script N B (.list (dims.map Int.ofNat)) init (some o) (ks ++ [.measureAll]) =
      (outcome dims (ks.foldl (fun ψ k => meaning N dims k ψ) (basis (startLevels dims init)))).mapM fun e =>
        match (states o.base)[value dims e.1]? with
        | some t => .ok (o.key t, o.val e.2)
        | none => .error .index := by
  have h2 := ge_two_of_valid h
  have hl : live (ks ++ [.measureAll]) = ks := live_append_measure fun k hk => (hks k hk).not_measureAll
  have hreg : ∀ k ∈ live (ks ++ [.measureAll]), Regular dims k := by
    rw [hl]
    intro k hk
    unfold Regular
    rw [(hks k hk).applied h2]
    simp
  have := exec_total hN (List.length_pos_of_ne_nil hne) h (some o) (ks ++ [.measureAll]) hreg
    (q := .list (dims.map Int.ofNat)) (fun _ => list_toRegs dims)
  obtain ⟨w, hw, hv⟩ := this.2.2.2 (by simp) (by
    rw [hl]
    intro k hk
    rw [(hks k hk).applied h2]
    simp)
  rw [hl, finalState_valid h2 hks] at hv
  rw [script_eq N hB rfl h]
  unfold Circuit.runResult
  rw [hw, this.1, fresh_output]
  show (format dims (some o)).call w = _
  show o.call w = _
  unfold Output.call
  rw [nonzeroRows_vec hv, List.mapM_map, outcome, List.mapM_map]
  apply mapM_congr'
  intro s hs
  have hs' := mem_states.1 (List.mem_of_mem_filter hs)
  simp only [Function.comp_apply, nbaseToBin_states o.base ho, hv.2.2 s hs']
  cases (states o.base)[value dims s]? <;> rfl

/-- **C69.** In particular a processor over registers with the same number of basis states shows every
outcome, each with its own label and its own amplitude. -/
theorem C69_same_size [Nontrivial R] {N : Numerics R} (hN : N.Sized) {B : Backend R}
    (hB : B.Lawful) {dims : List Nat} (hne : dims ≠ []) {init : List Int}
    (h : ValidStart (dims.map Int.ofNat) init) (o : Output) (ho : o.base.prod = dims.prod) {ks : List (Call R)}
    (hks : ∀ k ∈ ks, k.Valid dims) :
    ∃ f : List Nat → List Nat,
      (∀ s, Fits dims s → Fits o.base (f s) ∧ value o.base (f s) = value dims s) ∧
      script N B (.list (dims.map Int.ofNat)) init (some o) (ks ++ [.measureAll]) =
        .ok ((outcome dims (ks.foldl (fun ψ k => meaning N dims k ψ) (basis (startLevels dims init)))).map
          fun e => (o.key (f e.1), o.val e.2)) := by
  have h2 := ge_two_of_valid h
  have hp : 0 < dims.prod := List.prod_pos fun d hd => by have := h2 d hd; omega
  have hpos : ∀ b ∈ o.base, 0 < b := by
    intro b hb
    rcases Nat.eq_zero_or_pos b with rfl | hb'
    · rw [← ho, List.prod_eq_zero hb] at hp
      omega
    · exact hb'
  have hlen : (states o.base).length = dims.prod := by
    rw [← List.length_map (f := value o.base), map_value_states, List.length_range, ho]
  have key : ∀ s, Fits dims s → ∃ t, (states o.base)[value dims s]? = some t ∧ Fits o.base t ∧
      value o.base t = value dims s := by
    intro s hs
    have hlt : value dims s < (states o.base).length := by rw [hlen]; exact value_lt hs
    refine ⟨_, List.getElem?_eq_getElem hlt, mem_states.1 (List.getElem_mem hlt), ?_⟩
    have := congrArg (fun l => l[value dims s]?) (map_value_states o.base)
    simp only [List.getElem?_map, List.getElem?_eq_getElem hlt, Option.map_some,
      List.getElem?_range (show value dims s < o.base.prod by rw [ho]; exact value_lt hs)] at this
    simpa using this
  refine ⟨fun s => ((states o.base)[value dims s]?).getD [], ?_, ?_⟩
  · intro s hs
    obtain ⟨t, h1, h3⟩ := key s hs
    simp only [h1, Option.getD_some]
    exact h3
  · rw [C69_processor_over_other_registers hN hB hne h o hpos hks]
    apply mapM_ok
    intro e he
    obtain ⟨s, hs, rfl⟩ := List.mem_map.1 he
    obtain ⟨t, h1, h3⟩ := key s (mem_states.1 (List.mem_of_mem_filter hs))
    simp only [h1, Option.getD_some]

/-- **C68.** The same for a circuit of `x`, `cx` and `toffoli` calls: its one outcome is shown with the levels
that have the same number in the order of the new list's basis states, or `run()` raises `IndexError`. -/
theorem C68_changed_registers_classical [Nontrivial R] {N : Numerics R} (hN : N.Sized) {B : Backend R}
    (hB : B.Lawful) {dims : List Nat} (hne : dims ≠ []) {init : List Int}
    (h : ValidStart (dims.map Int.ofNat) init) {dims' : List Nat} (hd : ∀ d ∈ dims', 0 < d) {ks : List (Call R)}
    (hks : ∀ k ∈ ks, k.Valid dims) (hc : ∀ k ∈ ks, k.Classical) :
    (World.empty.observe N B ([.list (dims.map Int.ofNat), .list init, .new (.list 0) (some 1) none] ++
      (ks ++ [Call.measureAll]).map (.call 0) ++ [.put 0 (dims'.map Int.ofNat), .run 0])).getLast? =
      some (.result (match (states dims')[value dims
          (ks.foldl (fun s k => classicalStep dims k s) (startLevels dims init))]? with
        | some t => .ok [(.str (label t), 1)]
        | none => .error .index)) := by
  rw [C68_changed_registers_relabel N B _ _ none _ _ (new_ok rfl h none)]
  have hb : (outputNow (dims'.map Int.ofNat) none).base = dims' := by
    simp [outputNow, Function.comp_def]
  rw [C69_processor_over_other_registers hN hB hne h _ (by rw [hb]; exact hd) hks, hb]
  obtain ⟨h1, h2⟩ := classical_fold (N := N) ks hks hc (startLevels_fits h)
  rw [h2, outcome_basis h1]
  congr 2
  rw [List.mapM_cons, List.mapM_nil]
  cases (states dims')[value dims (ks.foldl (fun s k => classicalStep dims k s) (startLevels dims init))]? <;> rfl

/-! ### Gates after the change -/

/-- `h`, `x` or `z` on register `q`, with a `dims` argument or without. -/
inductive OneReg (q : Int) : (Option Nat → Call R) → Prop
  | h : OneReg q (.h q)
  | z : OneReg q (.z q)
  | x (p : Int) : OneReg q fun k => .x q k p

omit [CommRing R] [StarRing R] [DecidableEq R] [UnitaryCheck R] in
theorem layout_set (dims : List Nat) (q d : Nat) (g : GateObj R) (hq : q < dims.length) :
    layout (dims.set q d) q q g = layout dims q q g := by
  simp only [layout, List.length_set]
  have e1 : min dims.length (q : Int).toNat = q := by simp; omega
  have e2 : min dims.length ((q : Int) + 1).toNat = q + 1 := by omega
  rw [e1, e2, if_pos (by omega), if_pos (by omega)]
  have hid : ∀ a b, (∀ r, a ≤ r → r < b → r ≠ q) → ids (R := R) (dims.set q d) a b = ids dims a b := by
    intro a b hab
    unfold ids
    apply List.map_congr_left
    intro r hr
    rw [List.mem_range'_1] at hr
    have := hab r hr.1 (by omega)
    rw [List.getD_eq_getElem?_getD, List.getElem?_set_ne (Ne.symm this), List.getD_eq_getElem?_getD]
  rw [hid 0 q (by omega), hid (q + 1) _ (by omega)]

omit [StarRing R] [DecidableEq R] [UnitaryCheck R] in
/-- A gate on the changed register is the gate with the new dimension as its `dims` argument. -/
theorem rebase_callM {c : Circuit R} {dims : List Nat} (hd : c.regDims = dims) (hn : c.regLength = dims.length)
    {q d : Nat} (hq : q < dims.length) (h1 : 1 ≤ d) (h2 : d ≤ dims.getD q 0) (out : Option Output)
    {mk : Option Nat → Call R} (hmk : OneReg q mk) :
    (c.rebase ((dims.set q d).map Int.ofNat) out).callM (mk none) =
      (c.callM (mk (some d))).map fun r => (r.1.rebase ((dims.set q d).map Int.ofNat) out, r.2) := by
  set c' := c.rebase ((dims.set q d).map Int.ofNat) out with hc'
  have e0 : c'.regDims = dims.set q d := by
    simp [hc', Circuit.rebase, Function.comp_def]
  have e1 : c'.regLength = dims.length := hn
  have hv : c'.validate q none = .ok () := by
    unfold Circuit.validate
    rw [if_neg (by rw [e1]; omega)]
  have hg : pyGet dims (q : Int) = .ok (dims.getD q 0) := by
    rw [pyGet_ok (by omega) (by omega)]
    simp [List.getD_eq_getElem?_getD, hq]
  have hv' : c.validate q (some d) = .ok () := by
    unfold Circuit.validate
    rw [if_neg (by rw [hn]; omega), hd]
    obtain ⟨d, rfl⟩ : ∃ k, d = k + 1 := ⟨d - 1, by omega⟩
    simp only [hg]
    rw [if_neg (by omega)]
  have hd1 : c'.gateDims q none = .ok d := by
    unfold Circuit.gateDims
    rw [e0, pyGet_ok (by omega) (by simpa using hq)]
    simp
  have hd2 : c.gateDims q (some d) = .ok d := by
    obtain ⟨d, rfl⟩ : ∃ k, d = k + 1 := ⟨d - 1, by omega⟩
    rfl
  have hadd : ∀ g : GateObj R, c'.addMoment (.int q) g =
      (c.addMoment (.int q) g).map fun r => (r.1.rebase ((dims.set q d).map Int.ofNat) out, r.2) := by
    intro g
    have m1 : c'.momentData (.int q) g = .ok (layout dims q q g) := by
      rw [momentData_eq c' (by rw [e1, e0]; simp) (q := .int q) (lb := q) (ub := q) ⟨rfl, rfl⟩ (le_refl _), e0, layout_set dims q d g hq]
    have m2 : c.momentData (.int q) g = .ok (layout dims q q g) := by
      rw [momentData_eq c (by rw [hn, hd]) (q := .int q) (lb := q) (ub := q) ⟨rfl, rfl⟩ (le_refl _), hd]
    unfold Circuit.addMoment
    simp only [m1, m2, ok_bind]
    have e2 : c'.flow = c.flow := rfl
    rw [e2]
    cases c.flow.populate (layout dims q q g) <;> rfl
  cases hmk <;> simp only [Circuit.callM, hv, hv', hd1, hd2, ok_bind, hadd]

omit [StarRing R] [DecidableEq R] [UnitaryCheck R] in
theorem rebase_measure (c : Circuit R) (ds : List Int) (out : Option Output) :
    ((c.rebase ds out).call .measureAll).1 = (c.call .measureAll).1.rebase ds out := by
  have e : (c.rebase ds out).callM .measureAll =
      (c.callM .measureAll).map fun r => (r.1.rebase ds out, r.2) :=
    bind_map_core (c.flow.populate _) _ _ _ fun _ => rfl
  unfold Circuit.call
  rw [e]
  cases c.callM .measureAll <;> rfl

/-- **C68.** Lowering one dimension in the list that was given as `qregs` breaks the next `h`, `x` or `z` on
that register: the call is made for the new dimension, while the circuit was prepared for the old one, and
`run()` raises. -/
theorem C68_gate_after_change [Nontrivial R] {N : Numerics R} (hN : N.Sized) {B : Backend R}
    (hB : B.Lawful) {dims : List Nat} {init : List Int} (h : ValidStart (dims.map Int.ofNat) init)
    (out : Option Output) {ks : List (Call R)} (hm : .measureAll ∉ ks) (hks : ∀ k ∈ ks, fate dims k ≠ .odd)
    {q d : Nat} (hq : q < dims.length) (h1 : 1 ≤ d) (hlt : d < dims.getD q 0)
    {mk : Option Nat → Call R} (hmk : OneReg q mk) :
    ∃ e, (World.empty.observe N B ([.list (dims.map Int.ofNat), .list init, .new (.list 0) (some 1) out] ++
      ks.map (.call 0) ++ [.put 0 ((dims.set q d).map Int.ofNat), .call 0 (mk none), .call 0 .measureAll,
        .run 0])).getLast? = some (.result (.error e)) := by
  have hne : dims ≠ [] := by rintro rfl; simp at hq
  have hno : ∀ k ∈ ks, k.isMeasureAll = false := by
    intro k hk
    cases k <;> first | rfl | exact absurd hk hm
  have hc := new_ok (R := R) (q := .list (dims.map Int.ofNat)) rfl h out
  obtain ⟨ints, w, hw, hobs⟩ := lone_session N B _ init out ks ((dims.set q d).map Int.ofNat) hc
  set c := (freshCircuit (R := R) (.list (dims.map Int.ofNat)) dims init out).calls ks with hcdef
  obtain ⟨⟨layers, hu⟩, _⟩ := calls_any ks hno
    (fresh_any (q := .list (dims.map Int.ofNat)) (List.length_pos_of_ne_nil hne) init out)
  have hcall := rebase_callM hu.regDims hu.regLength hq h1 hlt.le out hmk
  have e1 : ((c.rebase ((dims.set q d).map Int.ofNat) out).call (mk none)).1 =
      (c.call (mk (some d))).1.rebase ((dims.set q d).map Int.ofNat) out := by
    unfold Circuit.call
    rw [hcall]
    cases c.callM (mk (some d)) <;> rfl
  have hl := lone_run N B (lone_call N B (lone_call N B hw (mk none)) .measureAll)
  rw [e1, rebase_measure] at hl
  have key := (hobs [.call 0 (mk none), .call 0 .measureAll] (.run 0)).trans (congrArg some hl)
  have hlive : live (ks ++ [mk (some d), .measureAll]) = ks ++ [mk (some d)] := by
    have : ks ++ [mk (some d), .measureAll] = (ks ++ [mk (some d)]) ++ [.measureAll] := by simp
    rw [this]
    apply live_append_measure
    intro k hk
    simp only [List.mem_append, List.mem_singleton] at hk
    rcases hk with hk | rfl
    · exact hno k hk
    · cases hmk <;> rfl
  have hfate : fate dims (mk (some d)) = .broken := by
    have e : dimAt dims (q : Int) = dims.getD q 0 := by
      rw [dimAt_nat (by omega) (by omega)]
      simp [List.getD_eq_getElem?_getD, hq]
    cases hmk <;> simp only [fate, fateOne, e, Option.getD_some] <;>
      rw [if_neg (by omega), if_neg (by omega), if_neg (by omega), if_neg (by omega)]
  obtain ⟨e, he⟩ := script_broken hN hB hne h (some (outputNow ((dims.set q d).map Int.ofNat) out))
    (ks ++ [mk (some d), .measureAll]) (by
      rw [hlive]
      intro k hk
      simp only [List.mem_append, List.mem_singleton] at hk
      unfold Regular
      rcases hk with hk | rfl
      · exact hks k hk
      · rw [hfate]; simp) ⟨mk (some d), by rw [hlive]; simp, hfate⟩
  refine ⟨e, key.trans ?_⟩
  congr 2
  unfold script at he
  rw [new_withOutput hc] at he
  have he' : ((((freshCircuit (R := R) (.list (dims.map Int.ofNat)) dims init out).withOutput
      (outputNow ((dims.set q d).map Int.ofNat) out)).calls (ks ++ [mk (some d), .measureAll])).run N B).2 = .error e := he
  rw [calls_withOutput, Circuit.calls_append] at he'
  rw [← he']
  unfold Circuit.run
  have e2 : (((c.call (mk (some d))).1.call .measureAll).1.rebase ((dims.set q d).map Int.ofNat) out).runResult N B =
    ((c.calls [mk (some d), .measureAll]).withOutput (outputNow ((dims.set q d).map Int.ofNat) out)).runResult N B := rfl
  rw [e2]
  cases ((c.calls [mk (some d), .measureAll]).withOutput (outputNow ((dims.set q d).map Int.ofNat) out)).runResult N B <;> rfl

/-! ### Sessions that meet the hypotheses -/

/-- The list of initial levels is padded by the constructor and then overwritten by the caller; the circuit
does not notice. -/
example (N : Numerics ℤ) (B : Backend ℤ) :
    (World.empty.observe N B ([.list [2, 3], .list [1], .new (.list 0) (some 1) none] ++
      .put 1 [0, 2, 2] :: [.call 0 .measureAll, .run 0])).drop 4 =
    (World.empty.observe N B ([.list [2, 3], .list [1], .new (.list 0) (some 1) none] ++
      [.call 0 .measureAll, .run 0])).drop 3 := by
  refine C68_other_lists_are_free N B (pre := [.list [2, 3], .list [1], .new (.list 0) (some 1) none])
    (post := [.call 0 .measureAll, .run 0]) (a := 1) (l := [0, 2, 2]) (separate_of ?_) ?_ ?_
  · intro e he a ha e' he'
    simp only [List.cons_append, List.nil_append, List.mem_cons, List.not_mem_nil, or_false] at he he'
    rcases he with rfl | rfl | rfl | rfl | rfl <;> simp only [Event.Changes] at ha <;> subst ha <;>
      rcases he' with rfl | rfl | rfl | rfl | rfl <;> simp [Event.Registers]
  · simp [Event.Registers]
  · simp [Event.Names]

/-- A qubit and a qutrit at levels 1 and 2, and then the list is reversed: outcome number 5 is shown in the
other radices. -/
example {B : Backend ℤ} (hB : B.Lawful) :
    (World.empty.observe sampleN B [.list [2, 3], .list [1], .new (.list 0) (some 1) none, .call 0 (.x 1 none 2),
      .call 0 .measureAll, .put 0 [3, 2], .run 0]).getLast? = some (.result (.ok [(.str "|21>".toList, 1)])) :=
  C68_changed_registers_classical sampleN_sized hB (dims := [2, 3]) (by simp) (validStart_of rfl) (dims' := [3, 2])
    (by simp) (ks := [.x 1 none 2]) (by simp [Call.Valid, InRange, DimOK]) (by simp [Call.Classical])

/-- The same with a qutrit that becomes a qubit: there is no label left for outcome number 5. -/
example {B : Backend ℤ} (hB : B.Lawful) :
    (World.empty.observe sampleN B [.list [2, 3], .list [1], .new (.list 0) (some 1) none, .call 0 (.x 1 none 2),
      .call 0 .measureAll, .put 0 [2, 2], .run 0]).getLast? = some (.result (.error .index)) :=
  C68_changed_registers_classical sampleN_sized hB (dims := [2, 3]) (by simp) (validStart_of rfl) (dims' := [2, 2])
    (by simp) (ks := [.x 1 none 2]) (by simp [Call.Valid, InRange, DimOK]) (by simp [Call.Classical])

/-- And with an `h` on that register after the change. -/
example {B : Backend ℤ} (hB : B.Lawful) :
    ∃ e, (World.empty.observe sampleN B [.list [2, 3], .list [1], .new (.list 0) (some 1) none,
      .call 0 (.x 0 none 1), .put 0 [2, 2], .call 0 (.h 1 none), .call 0 .measureAll, .run 0]).getLast? =
      some (.result (.error e)) :=
  C68_gate_after_change sampleN_sized hB (dims := [2, 3]) (validStart_of rfl) none (ks := [.x 0 none 1]) (by simp)
    (by decide) (q := 1) (d := 2) (by simp) (by simp) (by simp) .h

/-- A processor over one register of dimension 6 for a qubit and a qutrit: outcome number 5. -/
example {B : Backend ℤ} (hB : B.Lawful) :
    script sampleN B (.list [2, 3]) [1] (some ⟨[6], .print, .amplitude⟩) [.x 1 none 2, .measureAll] =
      .ok [(.str "|5>".toList, 1)] := by
  refine (C69_processor_over_other_registers sampleN_sized hB (dims := [2, 3]) (by simp) (validStart_of rfl)
    ⟨[6], .print, .amplitude⟩ (by simp) (ks := [.x 1 none 2]) (by simp [Call.Valid, InRange, DimOK])).trans ?_
  obtain ⟨h1, h2⟩ := classical_fold (N := sampleN) (dims := [2, 3]) [.x 1 none 2]
    (by simp [Call.Valid, InRange, DimOK]) (by simp [Call.Classical]) (startLevels_fits (init := [1]) (validStart_of rfl))
  rw [h2, outcome_basis h1]
  rfl

end QuDiet
