import Verif.Lemmas.Objects
import Verif.Lemmas.Any
import Verif.Props.Sample
import Verif.Props.Construct

/-!
# C16, C17, C39, C40, C44: histories of calls

Statements about whole sessions: several circuits, the caller's own lists, and any interleaving of
constructor calls, gate calls, `run()` and the reporting methods. `World.observe` is the list of everything
the caller sees, one entry per statement.
-/

namespace QuDiet
open Spec

variable {R : Type} [CommRing R] [StarRing R] [DecidableEq R] [UnitaryCheck R]

/-! ### Circuits as independent values -/

/-- The caller's lists and the circuits, all as values. -/
structure Desk (R : Type) where
  ints : List (List Int)
  circs : List (Circuit R)

def Desk.step (N : Numerics R) (B : Backend R) (d : Desk R) : Event R → Obs R × Desk R
  | .list l => (.unit, { d with ints := d.ints ++ [l] })
  | .peek a => (.ints (d.ints.getD a []), d)
  | .put a l => if a < d.ints.length then (.unit, { d with ints := d.ints.set a l }) else (.undefined, d)
  | .new q init out =>
    if listsExist d.ints.length q init then
    match Circuit.new (q.val d.ints) (initVal d.ints init) out with
    | .ok c => (.made (.ok d.circs.length),
        ⟨intsAfter (q.val d.ints).dims.length d.ints init, d.circs ++ [c]⟩)
    | .error e => (.made (.error e), ⟨intsAfter (q.val d.ints).dims.length d.ints init, d.circs⟩)
    else (.undefined, d)
  | .call i k => match d.circs[i]? with
    | some c => (.ret (c.call k).2, { d with circs := d.circs.set i (c.call k).1 })
    | none => (.undefined, d)
  | .run i => match d.circs[i]? with
    | some c => (.result (c.run N B).2, { d with circs := d.circs.set i (c.run N B).1 })
    | none => (.undefined, d)
  | .config i => match d.circs[i]? with
    | some c => (.config c.width c.depth, d)
    | none => (.undefined, d)
  | .info i => match d.circs[i]? with
    | some c => (.info c.info, d)
    | none => (.undefined, d)

def Desk.observe (N : Numerics R) (B : Backend R) (d : Desk R) : List (Event R) → List (Obs R)
  | [] => []
  | e :: es => (d.step N B e).1 :: Desk.observe N B (d.step N B e).2 es

/-- The statement changes the list `a`, or may do so: the caller does, or the constructor, which pads
`init_states` in place. -/
def Event.Changes (a : Nat) : Event R → Prop
  | .put b _ => b = a
  | .new _ (some b) _ => b = a
  | _ => False

/-- The statement passes the list `a` as `qregs`. -/
def Event.Registers (a : Nat) : Event R → Prop
  | .new (.list b) _ _ => b = a
  | _ => False

/-- No list is changed by the statement that passes it as `qregs`, or by a later one. -/
structure Separate (es : List (Event R)) : Prop where
  later : es.Pairwise fun e e' => ∀ a, e'.Changes a → ¬ e.Registers a
  same : ∀ e ∈ es, ∀ a, e.Changes a → ¬ e.Registers a

omit [CommRing R] [StarRing R] [DecidableEq R] [UnitaryCheck R] in
theorem Separate.sublist {es es' : List (Event R)} (h : Separate es) (hs : es'.Sublist es) : Separate es' :=
  ⟨h.later.sublist hs, fun e he => h.same e (hs.subset he)⟩

omit [CommRing R] [StarRing R] [DecidableEq R] [UnitaryCheck R] in
theorem separate_of {es : List (Event R)} (h : ∀ e ∈ es, ∀ a, e.Changes a → ∀ e' ∈ es, ¬ e'.Registers a) :
    Separate es := by
  refine ⟨List.pairwise_iff_getElem.2 fun i j hi hj _ a ha => ?_, fun e he a ha => h e he a ha e he⟩
  exact h _ (List.getElem_mem hj) a ha _ (List.getElem_mem hi)

/-- The memory and the desk agree, and the lists that circuits use are those that the events `es` passed
as `qregs`. -/
structure Agrees (es : List (Event R)) (w : World R) (d : Desk R) : Prop where
  wf : w.WF
  ints : w.ints = d.ints
  length : w.circs.length = d.circs.length
  view : ∀ j, w.view j = d.circs[j]?
  addr : ∀ a, .list a ∈ w.regs → a < w.ints.length
  past : ∀ a, .list a ∈ w.regs → ∃ e ∈ es, e.Registers a

theorem agrees_upd {es : List (Event R)} {w w' : World R} {d : Desk R} (h : Agrees es w d) {i : Nat}
    {c c' : Circuit R} (hc : d.circs[i]? = some c) (u : Upd i w w' fun _ => c') :
    Agrees es w' { d with circs := d.circs.set i c' } := by
  refine ⟨u.wf, u.ints.trans h.ints, ?_, ?_, ?_, ?_⟩
  · rw [u.length, h.length]; simp
  · intro j
    rw [u.view, h.view, h.view, List.getElem?_set]
    by_cases hj : j = i
    · subst hj
      have := (List.getElem?_eq_some_iff.1 hc).1
      simp [this]
    · have : ¬ i = j := fun e => hj e.symm
      simp [hj, this]
  · intro a ha
    rw [u.regs] at ha
    rw [u.ints]
    exact h.addr a ha
  · intro a
    rw [u.regs]
    exact h.past a

omit [StarRing R] [DecidableEq R] [UnitaryCheck R] in
theorem Agrees.mono {es es' : List (Event R)} {w : World R} {d : Desk R} (h : Agrees es w d)
    (hs : ∀ e ∈ es, e ∈ es') : Agrees es' w d :=
  ⟨h.wf, h.ints, h.length, h.view, h.addr, fun a ha => by
    obtain ⟨e, h1, h2⟩ := h.past a ha
    exact ⟨e, hs e h1, h2⟩⟩

theorem agrees_obj {es : List (Event R)} {w : World R} {d : Desk R} (h : Agrees es w d) {i : Nat}
    {c : Circuit R} (hc : d.circs[i]? = some c) : ∃ o, w.circs[i]? = some o ∧ o.read w = c := by
  have := h.view i
  rw [hc, World.view, Option.map_eq_some_iff] at this
  exact this

theorem agrees_same {es : List (Event R)} {w w' : World R} {d : Desk R} (h : Agrees es w d) (s : Same w w') :
    Agrees es w' d :=
  ⟨s.wf, s.ints.trans h.ints, by rw [s.length, h.length], fun j => by rw [s.view, h.view],
    fun a ha => by rw [s.regs] at ha; rw [s.ints]; exact h.addr a ha, by
    intro a
    rw [s.regs]
    exact h.past a⟩

theorem set_same {α : Type} {l : List α} {i : Nat} {a : α} (h : l[i]? = some a) : l.set i a = l := by
  apply List.ext_getElem?
  intro j
  rw [List.getElem?_set]
  split
  · rename_i hj
    subst hj
    rw [h]
    simp [(List.getElem?_eq_some_iff.1 h).1]
  · rfl

theorem step_agrees (N : Numerics R) (B : Backend R) {es : List (Event R)} {e : Event R}
    (hsep : Separate (es ++ [e])) {w : World R} {d : Desk R} (h : Agrees es w d) :
    (w.step N B e).1 = (d.step N B e).1 ∧ Agrees (es ++ [e]) (w.step N B e).2 (d.step N B e).2 := by
  have hnot : ∀ a, e.Changes a → .list a ∉ w.regs := by
    intro a ha hr
    obtain ⟨e', h1, h2⟩ := h.past a hr
    exact (List.pairwise_append.1 hsep.later).2.2 e' h1 e (by simp) a ha h2
  have hself := hsep.same e (by simp)
  have hpast := h
  replace h := h.mono (es' := es ++ [e]) fun e he => List.mem_append_left _ he
  cases e with
  | list l =>
    refine ⟨rfl, ⟨h.wf.opf, h.wf.inj, h.wf.mem, h.wf.sep, h.wf.nodup⟩, ?_, h.length, ?_, ?_, h.past⟩
    · simp only [World.step, Desk.step, h.ints]
    · intro j
      simp only [World.step, Desk.step]
      rw [← h.view]
      unfold World.view
      cases ho : w.circs[j]? with
      | none => rfl
      | some o =>
        simp only [Option.map_some]
        congr 1
        have e : o.regs.read { w with ints := w.ints ++ [l] } = o.regs.read w := by
          cases hr : o.regs with
          | tuple n d => rfl
          | list a =>
            simp only [RegsRef.read]
            rw [getD_append_left']
            apply h.addr
            rw [← hr]
            exact List.mem_map_of_mem (List.mem_of_getElem? ho)
        unfold CircObj.read
        rw [e]
    · intro a ha
      simp only [World.step, List.length_append, List.length_singleton]
      have := h.addr a ha
      omega
  | peek a => exact ⟨by simp only [World.step, Desk.step, h.ints], h⟩
  | put a l =>
    simp only [World.step, Desk.step, ← h.ints]
    split
    · obtain ⟨u1, u2⟩ := upd_extend h.wf (fun _ => l) (hnot a rfl)
      have hset : w.ints.modify a (fun _ => l) = w.ints.set a l := by
        apply List.ext_getElem?
        intro j
        rw [getElem?_modify', List.getElem?_set]
        by_cases hj : j = a
        · subst hj
          by_cases hl : j < w.ints.length <;> simp [hl]
        · have : ¬ a = j := fun e => hj e.symm
          simp [hj, this]
      rw [hset] at u1 u2
      exact ⟨rfl, u1, rfl, h.length, fun j => (u2 j).trans (h.view j),
        fun b hb => by simpa using h.addr b hb, h.past⟩
    · exact ⟨rfl, h⟩
  | new q init out =>
    simp only [World.step, Desk.step, ← h.ints]
    by_cases hle : listsExist w.ints.length q init = true
    · simp only [hle, if_true]
      have hs : ∀ a, init = some a → q ≠ .list a ∧ .list a ∉ w.regs := by
        rintro a rfl
        refine ⟨?_, hnot a rfl⟩
        rintro rfl
        exact hself a rfl rfl
      have hq : ∀ a, q = .list a → a < w.ints.length := by
        rintro a rfl
        simp only [listsExist, Bool.and_eq_true, decide_eq_true_eq] at hle
        exact hle.1
      have hil : ∀ n, (intsAfter n w.ints init).length = w.ints.length := by
        intro n
        cases init <;> simp [intsAfter]
      obtain ⟨h1, h2, h3, h4⟩ := newObj_sim (out := out) h.wf hs
      cases hc : Circuit.new (R := R) (q.val w.ints) (initVal w.ints init) out with
      | error e =>
        rw [hc] at h4
        obtain ⟨h5, h6⟩ := h4
        have hl : (newObj q init out w).2.circs.length = w.circs.length := by
          have := congrArg List.length h6
          simpa [World.regs] using this
        refine ⟨by simp only [h5], h2, h1, by rw [hl]; exact h.length, ?_, ?_, ?_⟩
        · intro j
          by_cases hj : j < w.circs.length
          · rw [h3 j hj, h.view]
          · have e1 : (newObj q init out w).2.view j = none := by
              unfold World.view
              rw [List.getElem?_eq_none (by omega)]
              rfl
            have e2 : d.circs[j]? = none := List.getElem?_eq_none (by rw [← h.length]; omega)
            rw [e1, e2]
        · intro a ha
          rw [h6] at ha
          rw [h1, hil]
          exact h.addr a ha
        · intro a
          rw [h6]
          exact h.past a
      | ok c =>
        rw [hc] at h4
        obtain ⟨h5, h6, h7⟩ := h4
        have hl : (newObj q init out w).2.circs.length = w.circs.length + 1 := by
          have := congrArg List.length h6
          simpa [World.regs] using this
        refine ⟨by simp only [h5, h.length], h2, h1, ?_, ?_, ?_, ?_⟩
        · rw [hl, h.length]
          simp
        · intro j
          simp only []
          rcases Nat.lt_trichotomy j w.circs.length with hj | hj | hj
          · rw [h3 j hj, h.view, List.getElem?_append_left (by rw [← h.length]; exact hj)]
          · rw [hj, h7, h.length]
            simp
          · have e1 : (newObj q init out w).2.view j = none := by
              unfold World.view
              rw [List.getElem?_eq_none (by omega)]
              rfl
            have e2 : (d.circs ++ [c])[j]? = none :=
              List.getElem?_eq_none (by rw [List.length_append, ← h.length]; simp; omega)
            rw [e1, e2]
        · intro a ha
          rw [h6] at ha
          rw [h1, hil]
          rcases List.mem_append.1 ha with ha | ha
          · exact h.addr a ha
          · exact hq a (List.mem_singleton.1 ha).symm
        · intro a ha
          rw [h6] at ha
          rcases List.mem_append.1 ha with ha | ha
          · exact h.past a ha
          · refine ⟨_, List.mem_append_right _ (List.mem_singleton.2 rfl), ?_⟩
            rw [← List.mem_singleton.1 ha]
            rfl
    · simp only [hle, Bool.false_eq_true, if_false]
      exact ⟨trivial, h⟩
  | call i k =>
    simp only [World.step, Desk.step]
    cases hc : d.circs[i]? with
    | none =>
      have : ¬ i < w.circs.length := by
        rw [h.length]
        simpa using hc
      rw [if_neg this]
      exact ⟨rfl, h⟩
    | some c =>
      have hi : i < w.circs.length := by
        rw [h.length]
        exact (List.getElem?_eq_some_iff.1 hc).1
      rw [if_pos hi]
      obtain ⟨o, ho, hr⟩ := agrees_obj h hc
      have hs := callObj_sim h.wf ho k
      rw [hr] at hs
      unfold Circuit.call
      unfold SimAt at hs
      cases hk : c.callM k with
      | error e =>
        rw [hk] at hs
        obtain ⟨w', h1, h2⟩ := hs
        simp only [h1, hk]
        rw [set_same hc]
        exact ⟨trivial, agrees_same h h2⟩
      | ok r =>
        rw [hk] at hs
        obtain ⟨w', h1, h2⟩ := hs
        simp only [h1, hk]
        exact ⟨trivial, agrees_upd h hc h2⟩
  | run i =>
    simp only [World.step, Desk.step]
    cases hc : d.circs[i]? with
    | none =>
      have : ¬ i < w.circs.length := by
        rw [h.length]
        simpa using hc
      rw [if_neg this]
      exact ⟨rfl, h⟩
    | some c =>
      have hi : i < w.circs.length := by
        rw [h.length]
        exact (List.getElem?_eq_some_iff.1 hc).1
      rw [if_pos hi]
      obtain ⟨o, ho, hr⟩ := agrees_obj h hc
      obtain ⟨w', h1, h2⟩ := runObj_sim N B h.wf ho
      rw [hr] at h1 h2
      simp only [h1]
      exact ⟨trivial, agrees_upd h hc h2⟩
  | config i =>
    simp only [World.step, Desk.step, h.view]
    cases d.circs[i]? <;> exact ⟨rfl, h⟩
  | info i =>
    simp only [World.step, Desk.step, h.view]
    cases d.circs[i]? <;> exact ⟨rfl, h⟩

theorem observe_agrees (N : Numerics R) (B : Backend R) {es : List (Event R)} (l : List (Event R))
    (hsep : Separate (es ++ l)) {w : World R} {d : Desk R} (h : Agrees es w d) :
    w.observe N B l = d.observe N B l := by
  induction l generalizing es w d with
  | nil => rfl
  | cons e l ih =>
    rw [← List.singleton_append, ← List.append_assoc] at hsep
    obtain ⟨h1, h2⟩ := step_agrees N B (hsep.sublist (List.sublist_append_left _ _)) h
    unfold World.observe Desk.observe
    rw [h1, ih hsep h2]

/-- The desk before the first statement. -/
def Desk.empty : Desk R := ⟨[], []⟩

/-- In every session, what is seen is what would be seen if every circuit were a value of its own. -/
theorem observe_eq (N : Numerics R) (B : Backend R) {es : List (Event R)} (hsep : Separate es) :
    World.empty.observe N B es = Desk.empty.observe N B es := by
  refine observe_agrees N B (es := []) es (by simpa using hsep) ⟨⟨?_, ?_, ?_, ?_, ?_⟩, rfl, rfl, ?_, ?_, ?_⟩ <;>
    simp [World.empty, Desk.empty, World.view, World.regs]

def Desk.after (N : Numerics R) (B : Backend R) (d : Desk R) (es : List (Event R)) : Desk R :=
  es.foldl (fun d e => (d.step N B e).2) d

theorem desk_cons (N : Numerics R) (B : Backend R) (d : Desk R) (e : Event R) (es : List (Event R)) :
    d.observe N B (e :: es) = (d.step N B e).1 :: (d.step N B e).2.observe N B es := rfl

theorem desk_append (N : Numerics R) (B : Backend R) (d : Desk R) (as bs : List (Event R)) :
    d.observe N B (as ++ bs) = d.observe N B as ++ (d.after N B as).observe N B bs := by
  induction as generalizing d with
  | nil => rfl
  | cons a as ih =>
    rw [List.cons_append, desk_cons, desk_cons, ih]
    rfl

theorem desk_length (N : Numerics R) (B : Backend R) (d : Desk R) (as : List (Event R)) :
    (d.observe N B as).length = as.length := by
  induction as generalizing d with
  | nil => rfl
  | cons a as ih =>
    unfold Desk.observe
    rw [List.length_cons, ih, List.length_cons]

/-! ### The stored output is not read -/

/-- The circuit without the stored result of the last `run()`. -/
def Circuit.core (c : Circuit R) : Circuit R := { c with circuitOutput := none }

omit [StarRing R] [DecidableEq R] [UnitaryCheck R] in
theorem addMoment_core (c : Circuit R) (q : RegArg) (g : GateObj R) :
    c.core.addMoment q g = (c.addMoment q g).map fun r => (r.1.core, r.2) := by
  unfold Circuit.addMoment
  change (do let m ← c.momentData q g; let (f, r) ← c.flow.populate m; .ok ({ c.core with flow := f }, r)) = _
  cases c.momentData q g with
  | error e => rfl
  | ok m =>
    simp only [ok_bind]
    cases c.flow.populate m with
    | error e => rfl
    | ok r => rfl

omit [StarRing R] [DecidableEq R] [UnitaryCheck R] in
theorem bind_map_core {α β : Type} (x : PyM α) (f g : α → PyM β) (h : β → β)
    (hfg : ∀ a, f a = (g a).map h) : (x >>= f) = (x >>= g).map h := by
  cases x with
  | error e => rfl
  | ok a => exact hfg a

omit [StarRing R] [DecidableEq R] [UnitaryCheck R] in
theorem callM_core (c : Circuit R) (k : Call R) :
    c.core.callM k = (c.callM k).map fun r => (r.1.core, r.2) := by
  cases k with
  | h q o => exact bind_map_core _ _ _ _ fun _ => bind_map_core _ _ _ _ fun _ => addMoment_core c _ _
  | x q o p => exact bind_map_core _ _ _ _ fun _ => bind_map_core _ _ _ _ fun _ => addMoment_core c _ _
  | z q o => exact bind_map_core _ _ _ _ fun _ => bind_map_core _ _ _ _ fun _ => addMoment_core c _ _
  | cx a b p => exact addMoment_core c _ _
  | toffoli cs t p =>
    refine bind_map_core _ _ _ _ fun r => ?_
    obtain ⟨U, lb, ub, ds⟩ := r
    simp only [addMoment_core]
    cases c.addMoment (.list (pyRange lb (ub + 1))) (.toffoli cs t (pyRange lb (ub + 1)) ds U p) <;> rfl
  | gate U q o =>
    cases q with
    | int q => exact bind_map_core _ _ _ _ fun _ => bind_map_core _ _ _ _ fun _ => addMoment_core c _ _
    | list qs =>
      refine bind_map_core _ _ _ _ fun _ => ?_
      rcases o with _ | _ | k
      · exact bind_map_core (qs.mapM (pyGet c.regDims)) _ _ _ fun _ => addMoment_core c _ _
      · exact bind_map_core (qs.mapM (pyGet c.regDims)) _ _ _ fun _ => addMoment_core c _ _
      · exact addMoment_core c _ _
  | measure q => rfl
  | measureAll => exact bind_map_core (c.flow.populate _) _ _ _ fun _ => rfl

omit [StarRing R] [DecidableEq R] [UnitaryCheck R] in
theorem call_core (c : Circuit R) (k : Call R) :
    c.core.call k = ((c.call k).1.core, (c.call k).2) := by
  unfold Circuit.call
  rw [callM_core]
  cases c.callM k <;> rfl

theorem run_core (N : Numerics R) (B : Backend R) (c : Circuit R) :
    (c.run N B).1.core = c.core ∧ (c.core.run N B).2 = (c.run N B).2 := by
  have e : c.core.runResult N B = c.runResult N B := rfl
  unfold Circuit.run
  rw [e]
  cases c.runResult N B <;> exact ⟨rfl, rfl⟩

/-- Two desks that differ only in stored results. -/
structure SameCore (d d' : Desk R) : Prop where
  ints : d.ints = d'.ints
  circs : d.circs.map Circuit.core = d'.circs.map Circuit.core

omit [StarRing R] [DecidableEq R] [UnitaryCheck R] in
theorem SameCore.refl (d : Desk R) : SameCore d d := ⟨rfl, rfl⟩

omit [StarRing R] [DecidableEq R] [UnitaryCheck R] in
theorem SameCore.get {d d' : Desk R} (h : SameCore d d') (i : Nat) :
    (d.circs[i]? = none ∧ d'.circs[i]? = none) ∨
    ∃ c c', d.circs[i]? = some c ∧ d'.circs[i]? = some c' ∧ c.core = c'.core := by
  have := congrArg (fun l => l[i]?) h.circs
  simp only [List.getElem?_map] at this
  cases h1 : d.circs[i]? with
  | none =>
    rw [h1] at this
    left
    exact ⟨rfl, Option.map_eq_none_iff.1 this.symm⟩
  | some c =>
    rw [h1] at this
    right
    obtain ⟨c', h2, h3⟩ := Option.map_eq_some_iff.1 this.symm
    exact ⟨c, c', rfl, h2, h3.symm⟩

omit [StarRing R] [DecidableEq R] [UnitaryCheck R] in
theorem SameCore.length {d d' : Desk R} (h : SameCore d d') : d.circs.length = d'.circs.length := by
  have := congrArg List.length h.circs
  simpa using this

theorem step_core (N : Numerics R) (B : Backend R) {d d' : Desk R} (h : SameCore d d') (e : Event R) :
    (d.step N B e).1 = (d'.step N B e).1 ∧ SameCore (d.step N B e).2 (d'.step N B e).2 := by
  cases e with
  | list l => exact ⟨rfl, by simp only [Desk.step, h.ints], h.circs⟩
  | peek a => exact ⟨by simp only [Desk.step, h.ints], h⟩
  | put a l =>
    simp only [Desk.step, h.ints]
    split
    · exact ⟨rfl, rfl, h.circs⟩
    · exact ⟨rfl, h⟩
  | new q init out =>
    simp only [Desk.step, h.ints]
    split
    · cases Circuit.new (R := R) (q.val d'.ints) (initVal d'.ints init) out with
      | error e => exact ⟨rfl, rfl, h.circs⟩
      | ok c => exact ⟨by simp only [h.length], rfl, by simp only [List.map_append, h.circs]⟩
    · exact ⟨rfl, h⟩
  | call i k =>
    simp only [Desk.step]
    rcases h.get i with ⟨h1, h2⟩ | ⟨c, c', h1, h2, h3⟩
    · rw [h1, h2]; exact ⟨rfl, h⟩
    · rw [h1, h2]
      have a := call_core c k
      have b := call_core c' k
      rw [h3, b] at a
      obtain ⟨a1, a2⟩ := Prod.mk.inj a
      refine ⟨by simp only [a2], h.ints, ?_⟩
      simp only [List.map_set, h.circs, a1]
  | run i =>
    simp only [Desk.step]
    rcases h.get i with ⟨h1, h2⟩ | ⟨c, c', h1, h2, h3⟩
    · rw [h1, h2]; exact ⟨rfl, h⟩
    · rw [h1, h2]
      obtain ⟨a1, a2⟩ := run_core N B c
      obtain ⟨b1, b2⟩ := run_core N B c'
      rw [h3, b2] at a2
      refine ⟨by simp only [a2], h.ints, ?_⟩
      simp only [List.map_set, h.circs, a1, b1, h3]
  | config i =>
    simp only [Desk.step]
    rcases h.get i with ⟨h1, h2⟩ | ⟨c, c', h1, h2, h3⟩
    · rw [h1, h2]; exact ⟨rfl, h⟩
    · rw [h1, h2]
      have e1 : c.width = c'.width := (congrArg Circuit.width h3 :)
      have e2 : c.depth = c'.depth := (congrArg Circuit.depth h3 :)
      exact ⟨by simp only [e1, e2], h⟩
  | info i =>
    simp only [Desk.step]
    rcases h.get i with ⟨h1, h2⟩ | ⟨c, c', h1, h2, h3⟩
    · rw [h1, h2]; exact ⟨rfl, h⟩
    · rw [h1, h2]
      have e1 : c.info = c'.info := (congrArg Circuit.info h3 :)
      exact ⟨by simp only [e1], h⟩

theorem run_step_core (N : Numerics R) (B : Backend R) (d : Desk R) (i : Nat) :
    SameCore (d.step N B (.run i)).2 d := by
  simp only [Desk.step]
  cases h : d.circs[i]? with
  | none => exact SameCore.refl d
  | some c =>
    refine ⟨rfl, ?_⟩
    simp only [List.map_set, (run_core N B c).1]
    apply set_same
    rw [List.getElem?_map, h]
    rfl

/-! ### C17 -/

/-- A call of `run()`. -/
def Event.isRun : Event R → Bool
  | .run _ => true
  | _ => false

/-- What is seen during a session, leaving out the statements that do not satisfy `p`. -/
def seen (N : Numerics R) (B : Backend R) (p : Event R → Bool) (es : List (Event R)) : List (Obs R) :=
  ((es.zip (World.empty.observe N B es)).filter fun x => p x.1).map Prod.snd

theorem desk_no_runs (N : Numerics R) (B : Backend R) (es : List (Event R)) {d d' : Desk R} (h : SameCore d d') :
    ((es.zip (d.observe N B es)).filter fun x => !x.1.isRun).map Prod.snd
      = d'.observe N B (es.filter fun e => !e.isRun) := by
  induction es generalizing d d' with
  | nil => rfl
  | cons e es ih =>
    obtain ⟨h1, h2⟩ := step_core N B h e
    rw [desk_cons, List.zip_cons_cons]
    cases hr : e.isRun with
    | false =>
      rw [List.filter_cons_of_pos (by simp [hr]), List.filter_cons_of_pos (by simp [hr]), List.map_cons,
        ih h2, h1, desk_cons]
    | true =>
      rw [List.filter_cons_of_neg (by simp [hr]), List.filter_cons_of_neg (by simp [hr])]
      have : SameCore (d.step N B e).2 d' := by
        cases e with
        | run i =>
          have := run_step_core N B d i
          exact ⟨this.ints.trans h.ints, this.circs.trans h.circs⟩
        | _ => cases hr
      rw [ih this]

/-- **C17.** `run()` changes nothing that can be observed later: in every session, deleting all calls of
`run()` leaves what every other statement returns unchanged. -/
theorem C17_run_leaves_no_trace (N : Numerics R) (B : Backend R) {es : List (Event R)} (hs : Separate es) :
    seen N B (fun e => !e.isRun) es = World.empty.observe N B (es.filter fun e => !e.isRun) := by
  unfold seen
  rw [observe_eq N B hs, observe_eq N B (hs.sublist List.filter_sublist)]
  exact desk_no_runs N B es (SameCore.refl _)

theorem after_no_calls (N : Numerics R) (B : Backend R) (es : List (Event R)) {i : Nat}
    (hes : ∀ k, .call i k ∉ es) {d : Desk R} {c : Circuit R} (hc : d.circs[i]? = some c) :
    ∃ c', (d.after N B es).circs[i]? = some c' ∧ c'.core = c.core := by
  induction es generalizing d c with
  | nil => exact ⟨c, hc, rfl⟩
  | cons e es ih =>
    have step : ∃ c', (d.step N B e).2.circs[i]? = some c' ∧ c'.core = c.core := by
      have hlt := (List.getElem?_eq_some_iff.1 hc).1
      cases e with
      | list l => exact ⟨c, hc, rfl⟩
      | peek a => exact ⟨c, hc, rfl⟩
      | put a l =>
        refine ⟨c, ?_, rfl⟩
        simp only [Desk.step]
        split <;> exact hc
      | new q init out =>
        refine ⟨c, ?_, rfl⟩
        simp only [Desk.step]
        split
        · cases Circuit.new (R := R) (q.val d.ints) (initVal d.ints init) out with
          | error e => exact hc
          | ok c1 => simp only [List.getElem?_append_left hlt, hc]
        · exact hc
      | call j k =>
        have hj : i ≠ j := by
          rintro rfl
          exact hes k (by simp)
        refine ⟨c, ?_, rfl⟩
        simp only [Desk.step]
        cases d.circs[j]? with
        | none => exact hc
        | some c1 => simp only [List.getElem?_set, if_neg hj.symm, hc]
      | run j =>
        simp only [Desk.step]
        cases hj : d.circs[j]? with
        | none => exact ⟨c, hc, rfl⟩
        | some c1 =>
          by_cases e : j = i
          · subst e
            rw [hc] at hj
            cases hj
            exact ⟨(c.run N B).1, by simp [hlt], (run_core N B c).1⟩
          · exact ⟨c, by simp only [List.getElem?_set, if_neg e, hc], rfl⟩
      | config j => simp only [Desk.step]; cases d.circs[j]? <;> exact ⟨c, hc, rfl⟩
      | info j => simp only [Desk.step]; cases d.circs[j]? <;> exact ⟨c, hc, rfl⟩
    obtain ⟨c1, h1, h2⟩ := step
    obtain ⟨c2, h3, h4⟩ := ih (fun k hk => hes k (by simp [hk])) h1
    exact ⟨c2, h3, h4.trans h2⟩

theorem desk_last (N : Numerics R) (B : Backend R) (d : Desk R) (es : List (Event R)) (e : Event R) :
    (d.observe N B (es ++ [e])).getLast? = some (((d.after N B es).step N B e).1) := by
  rw [desk_append]
  simp [Desk.observe]

/-- **C17.** `run()` is repeatable: once a circuit has been run, running it again gives the same result (or
the same exception), whatever happens in between except gate calls on that circuit. -/
theorem C17_run_repeatable (N : Numerics R) (B : Backend R) {pre mid : List (Event R)} {i : Nat}
    (hs : Separate (pre ++ .run i :: (mid ++ [.run i]))) (hmid : ∀ k, .call i k ∉ mid)
    {r : PyM (List (Key × R))}
    (h : (World.empty.observe N B (pre ++ [.run i])).getLast? = some (.result r)) :
    (World.empty.observe N B (pre ++ .run i :: (mid ++ [.run i]))).getLast? = some (.result r) := by
  have e : pre ++ .run i :: (mid ++ [.run i]) = (pre ++ .run i :: mid) ++ [.run i] := by simp
  rw [observe_eq N B hs, e, desk_last]
  rw [observe_eq N B (hs.sublist (by simp)), desk_last] at h
  have e2 : (Desk.empty (R := R)).after N B (pre ++ .run i :: mid)
      = ((Desk.empty (R := R)).after N B pre).after N B (.run i :: mid) := by
    simp [Desk.after]
  rw [e2]
  generalize (Desk.empty (R := R)).after N B pre = d at h
  cases hc : d.circs[i]? with
  | none => simp [Desk.step, hc] at h
  | some c =>
    obtain ⟨c', h1, h2⟩ := after_no_calls N B (.run i :: mid) (i := i) (by
      intro k hk
      rcases List.mem_cons.1 hk with hk | hk
      · cases hk
      · exact hmid k hk) hc
    simp only [Desk.step, hc] at h
    simp only [Desk.step, h1]
    rw [← (run_core N B c').2, h2, (run_core N B c).2]
    exact h

/-! ### C39 -/

/-- **C39.** A gate or measurement call that raises leaves no trace, in any session: everything seen
afterwards is what is seen if the call is left out. -/
theorem C39_raising_call_leaves_no_trace (N : Numerics R) (B : Backend R) {pre post : List (Event R)} {i : Nat}
    {k : Call R} (hs : Separate (pre ++ .call i k :: post)) {e : Err}
    (h : (World.empty.observe N B (pre ++ [.call i k])).getLast? = some (.ret (.error e))) :
    World.empty.observe N B (pre ++ .call i k :: post) =
      World.empty.observe N B (pre ++ [.call i k]) ++ (World.empty.observe N B (pre ++ post)).drop pre.length := by
  rw [observe_eq N B (hs.sublist (by simp)), desk_last] at h
  rw [observe_eq N B hs, observe_eq N B (hs.sublist (by simp)),
    observe_eq N B (hs.sublist (by simp)), desk_append, desk_append, desk_append]
  rw [List.drop_left' (desk_length ..), List.append_assoc]
  congr 1
  generalize (Desk.empty (R := R)).after N B pre = d at h ⊢
  change _ :: _ = _ :: _
  simp only [Desk.observe, List.nil_append]
  congr 2
  cases hc : d.circs[i]? with
  | none => simp only [Desk.step, hc]
  | some c =>
    simp only [Desk.step, hc] at h ⊢
    have : (c.call k).1 = c := by
      unfold Circuit.call at h ⊢
      cases hk : c.callM k with
      | error e => rfl
      | ok r => rw [hk] at h; simp at h
    rw [this, set_same hc]

/-! ### C44 -/

/-- Statements about the circuit at address `i`, and statements that are not about one circuit. -/
def Event.keep (i : Nat) : Event R → Bool
  | .call j _ => j == i
  | .run j => j == i
  | .config j => j == i
  | .info j => j == i
  | _ => true

/-- A statement that is kept sees and does the same on two desks that agree about circuit `i`. -/
theorem desk_kept (N : Numerics R) (B : Backend R) (i : Nat) (e : Event R) {d d' : Desk R}
    (h1 : d.ints = d'.ints) (h2 : d.circs.length = d'.circs.length) (h3 : d.circs[i]? = d'.circs[i]?)
    (hk : e.keep i = true) : (d.step N B e).1 = (d'.step N B e).1 ∧
        (d.step N B e).2.ints = (d'.step N B e).2.ints ∧
        (d.step N B e).2.circs.length = (d'.step N B e).2.circs.length ∧
        (d.step N B e).2.circs[i]? = (d'.step N B e).2.circs[i]? := by
  cases e with
  | list l => exact ⟨rfl, by simp only [Desk.step, h1], h2, h3⟩
  | peek a => exact ⟨by simp only [Desk.step, h1], h1, h2, h3⟩
  | put a l =>
    simp only [Desk.step, h1]
    split
    · exact ⟨rfl, rfl, h2, h3⟩
    · exact ⟨rfl, h1, h2, h3⟩
  | new q init out =>
    simp only [Desk.step, h1]
    split
    · cases Circuit.new (R := R) (q.val d'.ints) (initVal d'.ints init) out with
      | error e => exact ⟨rfl, rfl, h2, h3⟩
      | ok c =>
        refine ⟨by simp only [h2], rfl, by simp [h2], ?_⟩
        simp only []
        by_cases hi : i < d.circs.length
        · rw [List.getElem?_append_left hi, List.getElem?_append_left (by omega), h3]
        · rw [List.getElem?_append_right (by omega), List.getElem?_append_right (by omega), h2]
    · exact ⟨rfl, h1, h2, h3⟩
  | call j k =>
    have : j = i := by simpa [Event.keep] using hk
    subst this
    simp only [Desk.step, h3]
    cases d'.circs[j]? with
    | none => exact ⟨rfl, h1, h2, h3⟩
    | some c => exact ⟨rfl, h1, by simp [h2], by simp only [List.getElem?_set, h2, if_true]⟩
  | run j =>
    have : j = i := by simpa [Event.keep] using hk
    subst this
    simp only [Desk.step, h3]
    cases d'.circs[j]? with
    | none => exact ⟨rfl, h1, h2, h3⟩
    | some c => exact ⟨rfl, h1, by simp [h2], by simp only [List.getElem?_set, h2, if_true]⟩
  | config j =>
    have : j = i := by simpa [Event.keep] using hk
    subst this
    simp only [Desk.step, h3]
    cases d'.circs[j]? <;> exact ⟨rfl, h1, h2, h3⟩
  | info j =>
    have : j = i := by simpa [Event.keep] using hk
    subst this
    simp only [Desk.step, h3]
    cases d'.circs[j]? <;> exact ⟨rfl, h1, h2, h3⟩

/-- A statement that is left out does nothing to circuit `i`. -/
theorem desk_dropped (N : Numerics R) (B : Backend R) (i : Nat) (e : Event R) {d d' : Desk R}
    (h1 : d.ints = d'.ints) (h2 : d.circs.length = d'.circs.length) (h3 : d.circs[i]? = d'.circs[i]?)
    (hk : e.keep i = false) : (d.step N B e).2.ints = d'.ints ∧
        (d.step N B e).2.circs.length = d'.circs.length ∧ (d.step N B e).2.circs[i]? = d'.circs[i]? := by
  cases e with
  | list l => cases hk
  | peek a => cases hk
  | put a l => cases hk
  | new q init out => cases hk
  | call j k =>
    have : j ≠ i := by simpa [Event.keep] using hk
    simp only [Desk.step]
    cases d.circs[j]? with
    | none => exact ⟨h1, h2, h3⟩
    | some c => exact ⟨h1, by simp [h2], by simp [this, h3]⟩
  | run j =>
    have : j ≠ i := by simpa [Event.keep] using hk
    simp only [Desk.step]
    cases d.circs[j]? with
    | none => exact ⟨h1, h2, h3⟩
    | some c => exact ⟨h1, by simp [h2], by simp [this, h3]⟩
  | config j => simp only [Desk.step]; cases d.circs[j]? <;> exact ⟨h1, h2, h3⟩
  | info j => simp only [Desk.step]; cases d.circs[j]? <;> exact ⟨h1, h2, h3⟩

theorem desk_isolated (N : Numerics R) (B : Backend R) (i : Nat) (es : List (Event R)) {d d' : Desk R}
    (h1 : d.ints = d'.ints) (h2 : d.circs.length = d'.circs.length) (h3 : d.circs[i]? = d'.circs[i]?) :
    ((es.zip (d.observe N B es)).filter fun x => x.1.keep i).map Prod.snd
      = d'.observe N B (es.filter fun e => e.keep i) := by
  induction es generalizing d d' with
  | nil => rfl
  | cons e es ih =>
    rw [desk_cons, List.zip_cons_cons]
    cases hk : e.keep i with
    | true =>
      obtain ⟨k0, k1, k2, k3⟩ := desk_kept N B i e h1 h2 h3 hk
      rw [List.filter_cons_of_pos (by simp [hk]), List.filter_cons_of_pos (by simp [hk]), List.map_cons,
        ih k1 k2 k3, k0, desk_cons]
    | false =>
      obtain ⟨k1, k2, k3⟩ := desk_dropped N B i e h1 h2 h3 hk
      rw [List.filter_cons_of_neg (by simp [hk]), List.filter_cons_of_neg (by simp [hk]), ih k1 k2 k3]

/-- **C44.** Circuits are isolated from each other: in every session with any number of circuits, even
circuits that share the caller's lists, what is seen of one circuit is what is seen when all calls on the
other circuits are left out. -/
theorem C44_circuits_are_isolated (N : Numerics R) (B : Backend R) {es : List (Event R)} (hs : Separate es)
    (i : Nat) :
    seen N B (Event.keep i) es = World.empty.observe N B (es.filter (Event.keep i)) := by
  unfold seen
  rw [observe_eq N B hs, observe_eq N B (hs.sublist List.filter_sublist)]
  exact desk_isolated N B i es rfl rfl rfl

/-! ### C40 -/

/-- Number of lists the caller has made. -/
def listCount (es : List (Event R)) : Nat :=
  (es.filter fun e => match e with | .list _ => true | _ => false).length

theorem ints_length (N : Numerics R) (B : Backend R) (es : List (Event R)) (d : Desk R) :
    (d.after N B es).ints.length = d.ints.length + listCount es := by
  induction es generalizing d with
  | nil => rfl
  | cons e es ih =>
    change ((d.step N B e).2.after N B es).ints.length = _
    rw [ih]
    have keep : ∀ n init, (intsAfter n d.ints init).length = d.ints.length := by
      intro n init
      cases init <;> simp [intsAfter]
    cases e with
    | list l => simp [Desk.step, listCount]; omega
    | peek a => rfl
    | put a l => simp only [Desk.step]; split <;> simp [listCount]
    | new q init out =>
      simp only [Desk.step]
      split
      · cases Circuit.new (R := R) (q.val d.ints) (initVal d.ints init) out <;> simp only [keep] <;> rfl
      · rfl
    | call j k => simp only [Desk.step]; cases d.circs[j]? <;> rfl
    | run j => simp only [Desk.step]; cases d.circs[j]? <;> rfl
    | config j => simp only [Desk.step]; cases d.circs[j]? <;> rfl
    | info j => simp only [Desk.step]; cases d.circs[j]? <;> rfl

theorem desk_new_ints (N : Numerics R) (B : Backend R) (d : Desk R) {q : RegsRef} {init : Option Nat}
    {out : Option Output} (h : listsExist d.ints.length q init = true) :
    (d.step N B (.new q init out)).2.ints = intsAfter (q.val d.ints).dims.length d.ints init := by
  simp only [Desk.step, h, if_true]
  cases Circuit.new (R := R) (q.val d.ints) (initVal d.ints init) out <;> rfl

/-- **C40.** The constructor writes into the caller's `init_states` list: afterwards a non-empty list has
been padded in place with zeros up to the number of registers, whether or not the constructor raised; an
empty list is left alone. Here the registers are given as `(n, d)`. -/
theorem C40_caller_list_padded (N : Numerics R) (B : Backend R) {pre : List (Event R)} {l : List Int}
    {n : Nat} {d : Int} {out : Option Output}
    (hs : Separate (pre ++ [.list l, .new (.tuple n d) (some (listCount pre)) out,
      .peek (listCount pre)])) :
    (World.empty.observe N B (pre ++ [.list l, .new (.tuple n d) (some (listCount pre)) out,
      .peek (listCount pre)])).getLast? =
      some (.ints (if l = [] then [] else l ++ List.replicate (n - l.length) 0)) := by
  rw [observe_eq N B hs, desk_append]
  have hl := ints_length N B pre (Desk.empty (R := R))
  generalize (Desk.empty (R := R)).after N B pre = s at hl ⊢
  have hl' : s.ints.length = listCount pre := by rw [hl]; simp [Desk.empty]
  simp only [desk_cons]
  change (_ ++ _ :: _ :: _ :: []).getLast? = _
  have e2 : ∀ (x : List (Obs R)) (a b c : Obs R), (x ++ [a, b, c]).getLast? = some c := by
    intro x a b c
    simp
  rw [e2]
  have hex : listsExist (s.step N B (.list l)).2.ints.length (.tuple n d) (some (listCount pre)) = true := by
    simp [listsExist, Desk.step, hl']
  change some (Obs.ints ((Desk.step N B _ _).2.ints.getD (listCount pre) [])) = _
  rw [desk_new_ints N B _ hex]
  simp only [Desk.step, intsAfter, getD_modify, RegsRef.val, RegsArg.dims, List.length_replicate,
    List.length_append, List.length_singleton, ← hl', getD_length]
  simp only [true_and, Nat.lt_succ_self, if_true]
  cases l <;> rfl

/-- **C40.** The same when the registers are given as a list of dimensions. -/
theorem C40_caller_list_padded_list (N : Numerics R) (B : Backend R) {pre : List (Event R)} {ds l : List Int}
    {out : Option Output}
    (hs : Separate (pre ++ [.list ds, .list l, .new (.list (listCount pre)) (some (listCount pre + 1)) out,
      .peek (listCount pre + 1)])) :
    (World.empty.observe N B (pre ++ [.list ds, .list l,
      .new (.list (listCount pre)) (some (listCount pre + 1)) out, .peek (listCount pre + 1)])).getLast? =
      some (.ints (if l = [] then [] else l ++ List.replicate (ds.length - l.length) 0)) := by
  rw [observe_eq N B hs, desk_append]
  have hl := ints_length N B pre (Desk.empty (R := R))
  generalize (Desk.empty (R := R)).after N B pre = s at hl ⊢
  have hl' : s.ints.length = listCount pre := by rw [hl]; simp [Desk.empty]
  have hl2 : (s.ints ++ [ds]).length = listCount pre + 1 := by simp [hl']
  simp only [desk_cons]
  change (_ ++ _ :: _ :: _ :: _ :: []).getLast? = _
  have e2 : ∀ (x : List (Obs R)) (a b c d : Obs R), (x ++ [a, b, c, d]).getLast? = some d := by
    intro x a b c d
    simp
  rw [e2]
  have hex : listsExist ((s.step N B (.list ds)).2.step N B (.list l)).2.ints.length
      (.list (listCount pre)) (some (listCount pre + 1)) = true := by
    simp [listsExist, Desk.step, hl']
  change some (Obs.ints ((Desk.step N B _ _).2.ints.getD (listCount pre + 1) [])) = _
  rw [desk_new_ints N B _ hex]
  have e3 : (s.ints ++ [ds] ++ [l]).getD (listCount pre) [] = ds := by
    rw [getD_append_left' (by omega), ← hl', getD_length]
  have e4 : (s.ints ++ [ds] ++ [l]).getD (listCount pre + 1) [] = l := by
    rw [← hl2, getD_length]
  simp only [Desk.step, intsAfter, getD_modify, RegsRef.val, RegsArg.dims, e3, e4]
  rw [if_pos ⟨trivial, by rw [List.length_append, hl2]; simp⟩]
  cases l <;> rfl

/-- **C40.** So a list reused for a second, smaller circuit makes its constructor raise `IndexError`, although each of the
two circuits alone can be made with it: the first one has made it too long. -/
theorem C40_reuse_raises (N : Numerics R) (B : Backend R) {n m : Nat} (hn : m < n) {d d' : Int} {l : List Int} (hl : l ≠ [])
    (h1 : World.empty.observe (R := R) N B [.list l, .new (.tuple n d) (some 0) none] = [.unit, .made (.ok 0)])
    (h2 : World.empty.observe (R := R) N B [.list l, .new (.tuple m d') (some 0) none] = [.unit, .made (.ok 0)]) :
    World.empty.observe (R := R) N B [.list l, .new (.tuple n d) (some 0) none, .new (.tuple m d') (some 0) none]
      = [.unit, .made (.ok 0), .made (.error .index)] := by
  have sep : Separate [.list l, .new (.tuple n d) (some 0) none, (.new (.tuple m d') (some 0) none : Event R)] := by
    apply separate_of
    simp [Event.Registers]
  have acc : ∀ (m : Nat) (d : Int),
      World.empty.observe (R := R) N B [.list l, .new (.tuple m d) (some 0) none] = [.unit, .made (.ok 0)] →
      ∃ c, Circuit.new (R := R) (.tuple m d) l none = .ok c := by
    intro m d h
    have sep' : Separate [.list l, (.new (.tuple m d) (some 0) none : Event R)] := by
      apply separate_of
      simp [Event.Registers]
    rw [observe_eq N B sep'] at h
    cases hc : Circuit.new (R := R) (.tuple m d) l none with
    | ok c => exact ⟨c, rfl⟩
    | error e => simp [Desk.observe, Desk.step, Desk.empty, listsExist, RegsRef.val, initVal, hc] at h
  obtain ⟨c, hc⟩ := acc n d h1
  obtain ⟨a1, a2, a3⟩ := (C20_constructor_accepts (.tuple m d') l none).1 (acc m d' h2)
  have hpos : 0 < l.length := List.length_pos_of_ne_nil hl
  simp only [RegsArg.dims, List.length_replicate] at a2 a3
  have rej : Circuit.new (R := R) (.tuple m d') (l ++ List.replicate (n - l.length) 0) none = .error .index := by
    apply C20_too_many_levels
    · exact a1
    · simp [RegsArg.dims]; omega
    · intro i h h'
      simp only [RegsArg.dims, List.length_replicate] at h
      by_cases hi : i < l.length
      · rw [List.getElem_append_left hi]
        exact a3 i h hi
      · have := a1 d' (by simp [RegsArg.dims]; omega)
        rw [List.getElem_append_right (by omega)]
        simp [RegsArg.dims]
        omega
  rw [observe_eq N B sep]
  have e : intsAfter n [l] (some 0) = [l ++ List.replicate (n - l.length) 0] := by
    simp [intsAfter, List.modify_cons, callerStatesAfter, extendStates, hl]
  simp [Desk.observe, Desk.step, Desk.empty, listsExist, RegsRef.val, initVal, hc, rej, RegsArg.dims, e]

/-- The hypotheses of `C40_reuse_raises`: five ququarts first, then three qutrits, with the list `[1, 2]`. -/
example : World.empty.observe (R := ℤ) sampleN (numpyBackend ℤ)
      [.list [1, 2], .new (.tuple 5 4) (some 0) none, .new (.tuple 3 3) (some 0) none]
      = [.unit, .made (.ok 0), .made (.error .index)] :=
  C40_reuse_raises _ _ (by decide) (by simp) rfl rfl

/-! ### Sessions and scripts -/

/-- **C01 (link).** In a session on the object level, making one circuit from lists, calling methods and
running it gives what `script` gives: the theorems about scripts hold of the program with its shared
mutable objects. -/
theorem C01_session_is_script (N : Numerics R) (B : Backend R) (ds init : List Int) (out : Option Output)
    (ks : List (Call R)) {c : Circuit R} (hc : Circuit.new (.list ds) init out = .ok c) :
    (World.empty.observe N B ([.list ds, .list init, .new (.list 0) (some 1) out] ++
      ks.map (.call 0) ++ [.run 0])).getLast? = some (.result (script N B (.list ds) init out ks)) := by
  have sep : Separate ([.list ds, .list init, .new (.list 0) (some 1) out] ++ ks.map (.call 0) ++ [(.run 0 : Event R)]) := by
    apply separate_of
    simp only [List.mem_append, List.mem_cons, List.mem_map, List.not_mem_nil, or_false]
    rintro e ((((rfl | rfl | rfl) | ⟨k, _, rfl⟩) | rfl)) a ha e' (((rfl | rfl | rfl) | ⟨k', _, rfl⟩) | rfl) <;>
      simp_all [Event.Changes, Event.Registers] <;> omega
  rw [observe_eq N B sep, desk_last]
  unfold script
  rw [hc]
  have h1 : (Desk.empty (R := R)).after N B [.list ds, .list init, .new (.list 0) (some 1) out] =
      ⟨intsAfter ds.length [ds, init] (some 1), [c]⟩ := by
    simp [Desk.after, Desk.step, Desk.empty, listsExist, RegsRef.val, initVal, hc, RegsArg.dims]
  have h2 : ∀ (ks : List (Call R)) (I : List (List Int)) (c : Circuit R),
      (⟨I, [c]⟩ : Desk R).after N B (ks.map (.call 0)) = ⟨I, [c.calls ks]⟩ := by
    intro ks
    induction ks with
    | nil => intro I c; rfl
    | cons k ks ih =>
      intro I c
      exact ih I (c.call k).1
  have h3 : ∀ (d : Desk R) es es', d.after N B (es ++ es') = (d.after N B es).after N B es' := by
    intro d es es'
    simp [Desk.after]
  rw [h3, h1, h2]
  rfl

/-- The hypotheses: a qubit and a qutrit. -/
example (N : Numerics ℤ) (ks : List (Call ℤ)) :
    ∃ c, Circuit.new (R := ℤ) (.list [2, 3]) [1] none = .ok c ∧
      (World.empty.observe N (numpyBackend ℤ) ([.list [2, 3], .list [1], .new (.list 0) (some 1) none] ++
        ks.map (.call 0) ++ [.run 0])).getLast? =
        some (.result (script N (numpyBackend ℤ) (.list [2, 3]) [1] none ks)) := by
  have h : ∃ c, Circuit.new (R := ℤ) (.list [2, 3]) [1] none = .ok c := by
    rw [C20_constructor_accepts]
    decide
  obtain ⟨c, hc⟩ := h
  exact ⟨c, hc, C01_session_is_script N _ _ _ _ ks hc⟩

/-! ### A session that meets the hypotheses -/

/-- Two circuits that share the caller's list of levels, with interleaved calls, an exception, and a
`run()` in the middle. -/
def sampleSession : List (Event ℤ) :=
  [.list [2, 3], .list [1], .new (.list 0) (some 1) none, .new (.tuple 3 2) (some 1) none,
    .call 0 (.x 1 none 2), .call 1 (.x 2 none 1), .call 0 (.x 7 none 1), .call 0 .measureAll, .run 0,
    .call 1 .measureAll, .run 0, .run 1, .peek 1]

theorem sampleSession_separate : Separate sampleSession := by
  apply separate_of
  intro e he a ha e' he'
  simp only [sampleSession, List.mem_cons, List.not_mem_nil, or_false] at he he'
  rcases he with rfl | rfl | rfl | rfl | rfl | rfl | rfl | rfl | rfl | rfl | rfl | rfl | rfl <;>
    simp only [Event.Changes] at ha <;> subst ha <;>
    rcases he' with rfl | rfl | rfl | rfl | rfl | rfl | rfl | rfl | rfl | rfl | rfl | rfl | rfl <;>
    simp [Event.Registers]

example : seen sampleN (numpyBackend ℤ) (Event.keep 0) sampleSession =
    World.empty.observe sampleN (numpyBackend ℤ) (sampleSession.filter (Event.keep 0)) :=
  C44_circuits_are_isolated _ _ sampleSession_separate 0

example : seen sampleN (numpyBackend ℤ) (fun e => !e.isRun) sampleSession =
    World.empty.observe sampleN (numpyBackend ℤ) (sampleSession.filter fun e => !e.isRun) :=
  C17_run_leaves_no_trace _ _ sampleSession_separate

/-- The call on register 7 raises; `C39_raising_call_leaves_no_trace` applies to it. -/
example : World.empty.observe sampleN (numpyBackend ℤ) sampleSession =
    World.empty.observe sampleN (numpyBackend ℤ) (sampleSession.take 7) ++
      (World.empty.observe sampleN (numpyBackend ℤ) (sampleSession.take 6 ++ sampleSession.drop 7)).drop 6 :=
  C39_raising_call_leaves_no_trace sampleN (numpyBackend ℤ) (pre := sampleSession.take 6)
    (post := sampleSession.drop 7) (i := 0) (k := .x 7 none 1) (e := .value) sampleSession_separate (by rfl)

/-- The two calls of `run()` on circuit 0; `C17_run_repeatable` applies to them. -/
example : (World.empty.observe sampleN (numpyBackend ℤ) (sampleSession.take 11)).getLast? =
    some (.result (.ok [(.str ['|', '1', '2', '>'], 1)])) :=
  C17_run_repeatable sampleN (numpyBackend ℤ) (pre := sampleSession.take 8) (mid := [.call 1 .measureAll]) (i := 0)
    (sampleSession_separate.sublist (List.take_sublist 11 sampleSession)) (by simp) (by rfl)

/-- Without `Separate` isolation fails: here one list gives the registers of circuit 0 and the levels of
circuit 1; making circuit 1 appends to it, and then `toffoli` and the report of circuit 0 change. -/
example : (World.empty.observe sampleN (numpyBackend ℤ)
      [.list [2, 2], .new (.list 0) none none, .new (.tuple 3 3) (some 0) none, .config 0]).getLast? =
        some (.config (.num 3) 0) ∧
    (World.empty.observe sampleN (numpyBackend ℤ) [.list [2, 2], .new (.list 0) none none, .config 0]).getLast? =
        some (.config (.num 2) 0) := by
  constructor <;> rfl

end QuDiet
