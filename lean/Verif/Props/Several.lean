import Verif.Several
import Verif.Props.MplWhile
import Verif.Props.Readers
import Verif.Props.Quiet

/-! # C105: threads that run, print and draw a circuit beside one another -/

namespace QuDiet
open Spec

variable {R : Type} [CommRing R]

/-! ### Specification -/

/-- The steps of the threads that build. -/
def builders (s : List Turn) : List Nat := s.filterMap fun t => match t with
  | .builder i => some i
  | .reader _ => none

/-- The steps of the threads that build and of the one with number `j` among the others. -/
def onlyReader (j : Nat) (s : List Turn) : List (Option Nat) := s.filterMap fun t => match t with
  | .builder i => some (some i)
  | .reader k => if k = j then some none else none

/-- The circuit without the attribute `circuit_output`. -/
def Circuit.bare (c : Circuit R) : Circuit R := { c with circuitOutput := none }

/-! ### One of them -/

/-- Two states that differ at most in `circuit_output`. -/
def SameBare (out : Output) (σ σ' : Circuit R × List (Thread R)) : Prop :=
  σ.1.bare = σ'.1.bare ∧ σ.2 = σ'.2 ∧ σ'.1.output = out

theorem bare_of {c c' : Circuit R} (h : c.bare = c'.bare) : c = { c' with circuitOutput := c.circuitOutput } := by
  cases c
  cases c'
  simp only [Circuit.bare, Circuit.mk.injEq] at h ⊢
  simp [h]

theorem SameBare.flow {out : Output} {σ σ' : Circuit R × List (Thread R)} (h : SameBare out σ σ') : σ.1.flow = σ'.1.flow := by
  rw [bare_of h.1]

theorem SameBare.out {out : Output} {σ σ' : Circuit R × List (Thread R)} (h : SameBare out σ σ') : σ.1.output = out := by
  rw [bare_of h.1]
  exact h.2.2

theorem layerOf_output (c : Circuit R) (o : Option (List (Key × R))) (k : Call R) :
    ({ c with circuitOutput := o } : Circuit R).layerOf k = c.layerOf k := by
  cases k <;> rfl

theorem Thread.step_output (c : Circuit R) (o : Option (List (Key × R))) (t : Thread R) :
    t.step { c with circuitOutput := o } = ({ (t.step c).1 with circuitOutput := o }, (t.step c).2) := by
  obtain ⟨pc, todo⟩ := t
  cases pc with
  | idle =>
    cases todo with
    | nil => rfl
    | cons k ks =>
      simp only [Thread.step, layerOf_output]
      cases c.layerOf k <;> rfl
  | _ => rfl

theorem Thread.step_out (c : Circuit R) (t : Thread R) : (t.step c).1.output = c.output := by
  obtain ⟨pc, todo⟩ := t
  cases pc with
  | idle =>
    cases todo with
    | nil => rfl
    | cons k ks =>
      simp only [Thread.step]
      cases c.layerOf k <;> rfl
  | _ => rfl

theorem SameBare.builder {out : Output} {σ σ' : Circuit R × List (Thread R)} (h : SameBare out σ σ') (i : Nat) :
    SameBare out (stepThread σ i) (stepThread σ' i) := by
  obtain ⟨h1, h2, h3⟩ := h
  unfold stepThread
  rw [h2]
  cases σ'.2[i]? with
  | none => exact ⟨h1, h2, h3⟩
  | some t =>
    simp only
    rw [bare_of h1, Thread.step_output]
    exact ⟨rfl, rfl, by rw [Thread.step_out]; exact h3⟩

variable [StarRing R] [DecidableEq R] [UnitaryCheck R] {N : Numerics R} {B : Backend R}

theorem Oc.step_bare (c : Circuit R) (r : Oc R) : (r.step N B c).1.bare = c.bare := by
  cases r with
  | reading r =>
    simp only [Oc.step]
    cases r.value N B c with
    | none => rfl
    | some v => cases v <;> rfl
  | stored => rfl
  | ended v => rfl

theorem Reader.step_bare (c : Circuit R) (r : Reader R) : (r.step N B c).1.bare = c.bare := by
  cases r with
  | run r => exact r.step_bare c
  | _ => rfl

theorem SameBare.reader {out : Output} {σ σ' : Circuit R × List (Thread R)} (h : SameBare out σ σ') (rs : List (Reader R)) (j : Nat) :
    SameBare out (stepSeveral N B (σ, rs) (.reader j)).1 σ' := by
  simp only [stepSeveral]
  cases rs[j]? with
  | none => exact h
  | some r => exact ⟨by rw [Reader.step_bare]; exact h.1, h.2⟩

theorem several_same {out : Output} (s : List Turn) {σ σ' : Circuit R × List (Thread R)} (rs : List (Reader R)) (h : SameBare out σ σ') :
    SameBare out (s.foldl (stepSeveral N B) (σ, rs)).1 ((builders s).foldl stepThread σ') := by
  induction s generalizing σ σ' rs with
  | nil => exact h
  | cons t s ih =>
    cases t with
    | builder i => exact ih rs (h.builder i)
    | reader j => exact ih _ (h.reader rs j)

/-- The state of one of the readers. -/
theorem several_reader {α : Type} {out : Output} {Rel : Reader R → α → Prop}
    {one : (Circuit R × List (Thread R)) × α → Option Nat → (Circuit R × List (Thread R)) × α}
    (hb : ∀ σ a i, one (σ, a) (some i) = (stepThread σ i, a))
    (hr : ∀ σ σ' x a, SameBare out σ σ' → Rel x a → ∃ a', one (σ', a) none = (σ', a') ∧ Rel (x.step N B σ.1).2 a') (j : Nat) (s : List Turn)
    {σ σ' : Circuit R × List (Thread R)} (hs : SameBare out σ σ') (rs : List (Reader R)) (a : α) (h : ∃ x, rs[j]? = some x ∧ Rel x a) :
    ∃ x, (s.foldl (stepSeveral N B) (σ, rs)).2[j]? = some x ∧ Rel x ((onlyReader j s).foldl one (σ', a)).2 := by
  induction s generalizing σ σ' rs a with
  | nil => exact h
  | cons t s ih =>
    cases t with
    | builder i =>
      have : (onlyReader j (Turn.builder i :: s)).foldl one (σ', a) = (onlyReader j s).foldl one (stepThread σ' i, a) := by
        rw [← hb]
        rfl
      rw [this]
      exact ih (hs.builder i) _ _ h
    | reader k =>
      have hs' := hs.reader (N := N) (B := B) rs k
      by_cases hk : k = j
      · subst hk
        obtain ⟨x, hx, hrel⟩ := h
        obtain ⟨a', h1, h2⟩ := hr σ σ' x a hs hrel
        have : (onlyReader k (Turn.reader k :: s)).foldl one (σ', a) = (onlyReader k s).foldl one (σ', a') := by
          rw [← h1]
          simp [onlyReader]
        rw [this]
        refine ih (σ := (stepSeveral N B (σ, rs) (.reader k)).1) hs' (stepSeveral N B (σ, rs) (.reader k)).2 a' ?_
        refine ⟨_, ?_, h2⟩
        simp only [stepSeveral, hx]
        rw [List.getElem?_set_self (List.getElem?_eq_some_iff.1 hx).1]
      · have : (onlyReader j (Turn.reader k :: s)) = onlyReader j s := by simp [onlyReader, hk]
        rw [this]
        refine ih (σ := (stepSeveral N B (σ, rs) (.reader k)).1) hs' (stepSeveral N B (σ, rs) (.reader k)).2 a ?_
        simp only [stepSeveral]
        cases hx : rs[k]? with
        | none => exact h
        | some x =>
          simp only
          rw [List.getElem?_set_ne hk]
          exact h

theorem SameBare.refl (c : Circuit R) (ts : List (Thread R)) : SameBare c.output (c, ts) (c, ts) := ⟨rfl, rfl, rfl⟩

/-- **C105.** The circuit that is built does not depend on the threads that run, print or draw it. -/
theorem C105_circuit (N : Numerics R) (B : Backend R) (c : Circuit R) (progs : List (List (Call R))) (rs : List (Reader R))
    (s : List Turn) : (runSeveral N B c progs rs s).1.1.bare = (runThreads c progs (builders s)).1.bare ∧
      (runSeveral N B c progs rs s).1.2 = (runThreads c progs (builders s)).2 := by
  have := several_same (N := N) (B := B) s rs (SameBare.refl c (progs.map fun l => { pc := .idle, todo := l }))
  exact ⟨this.1, this.2.1⟩

/-- **C105.** What `get_circuit_info()` returns does not depend on the other threads that run, print or draw the circuit. -/
theorem C105_info (N : Numerics R) (B : Backend R) (c : Circuit R) (progs : List (List (Call R))) (rs : List (Reader R)) (s : List Turn)
    (j : Nat) (h : rs[j]? = some (.info .start)) :
    ∃ r, (runSeveral N B c progs rs s).2[j]? = some (.info r) ∧
      r.value c = (runInfo c progs (onlyReader j s)).2.value c := by
  obtain ⟨x, h1, h2⟩ := several_reader (N := N) (B := B) (Rel := fun x (a : Ic R) => x = .info a) (one := stepInfo) (fun _ _ _ => rfl)
    (fun σ σ' x a hs hx => ⟨a.step σ'.1.flow, rfl, by subst hx; simp only [Reader.step, hs.flow]⟩) j s (SameBare.refl c _) rs _ ⟨_, h, rfl⟩
  exact ⟨_, h1.trans (congrArg some h2), rfl⟩

/-- **C105.** What `str(circuit)` comes to does not depend on the other threads that run, print or draw the circuit. -/
theorem C105_str (N : Numerics R) (B : Backend R) (c : Circuit R) (progs : List (List (Call R))) (rs : List (Reader R)) (s : List Turn)
    (j : Nat) (h : rs[j]? = some (.str (.looping .start))) :
    ∃ r, (runSeveral N B c progs rs s).2[j]? = some (.str r) ∧
      r.value c = (runStr c progs (onlyReader j s)).2.value c := by
  obtain ⟨x, h1, h2⟩ := several_reader (N := N) (B := B) (Rel := fun x (a : Sc R) => x = .str a) (one := stepStr) (fun _ _ _ => rfl)
    (fun σ σ' x a hs hx => ⟨a.step σ'.1, rfl, by
      subst hx
      simp only [Reader.step]
      rw [bare_of hs.1]
      cases a with
      | looping r => cases r <;> rfl
      | done => rfl⟩) j s (SameBare.refl c _) rs _ ⟨_, h, rfl⟩
  exact ⟨_, h1.trans (congrArg some h2), rfl⟩

/-- **C105.** What `draw('mpl')` comes to does not depend on the other threads that run, print or draw the circuit. -/
theorem C105_mpl (N : Numerics R) (B : Backend R) (W : Shape → ℚ) (w : ℚ) (compress : Nat) (c : Circuit R)
    (progs : List (List (Call R))) (rs : List (Reader R)) (s : List Turn) (j : Nat) (h : rs[j]? = some (.mpl .start)) :
    ∃ r, (runSeveral N B c progs rs s).2[j]? = some (.mpl r) ∧
      r.value = (runMpl c progs (onlyReader j s)).2.value ∧
      r.figures W w compress c = (runMpl c progs (onlyReader j s)).2.figures W w compress c := by
  obtain ⟨x, h1, h2⟩ := several_reader (N := N) (B := B) (Rel := fun x (a : Mc R) => x = .mpl a) (one := stepMpl) (fun _ _ _ => rfl)
    (fun σ σ' x a hs hx => ⟨a.step σ'.1.flow, rfl, by subst hx; simp only [Reader.step, hs.flow]⟩) j s (SameBare.refl c _) rs _ ⟨_, h, rfl⟩
  exact ⟨_, h1.trans (congrArg some h2), rfl, rfl⟩

/-! ### `run()` -/

theorem Rc.value_output {c c' : Circuit R} (h : c.output = c'.output) (r : Rc R) : r.value N B c = r.value N B c' := by
  cases r <;> simp only [Rc.value, h]

theorem Rc.value_fixed {c : Circuit R} {r : Rc R} {v : PyM (List (Key × R))} (h : r.value N B c = some v) (f : Flow R) : r.step f = r := by
  cases r with
  | raised e => rfl
  | finished seen => rfl
  | _ => cases h

/-- What the state of a `run()` says about what it has read. -/
def Oc.Tracks (N : Numerics R) (B : Backend R) (c : Circuit R) (r : Rc R) : Oc R → Prop
  | .reading r' => r' = r
  | .stored => ∃ l, r.value N B c = some (.ok l)
  | .ended (.error e) => r.value N B c = some (.error e)
  | .ended (.ok _) => ∃ l, r.value N B c = some (.ok l)

theorem Oc.Tracks.step {c d : Circuit R} (hd : d.output = c.output) {r : Rc R} {o : Oc R} (h : o.Tracks N B c r) :
    (o.step N B d).2.Tracks N B c (r.step d.flow) := by
  cases o with
  | reading r' =>
    have : r' = r := h
    subst this
    simp only [Oc.step, Rc.value_output hd]
    cases hv : r'.value N B c with
    | none => rfl
    | some v =>
      have hst := Rc.value_fixed hv d.flow
      cases v with
      | error e => simp only [Oc.Tracks, hst]; exact hv
      | ok l => simp only [Oc.Tracks, hst]; exact ⟨l, hv⟩
  | stored =>
    obtain ⟨l, hl⟩ := h
    simp only [Oc.step, Oc.Tracks, Rc.value_fixed hl]
    exact ⟨l, hl⟩
  | ended v =>
    cases v with
    | error e =>
      have hl : r.value N B c = some (.error e) := h
      simp only [Oc.step, Oc.Tracks, Rc.value_fixed hl]
      exact hl
    | ok x =>
      obtain ⟨l, hl⟩ := h
      simp only [Oc.step, Oc.Tracks, Rc.value_fixed hl]
      exact ⟨l, hl⟩

/-- Where a `run()` is. -/
theorem several_run (N : Numerics R) (B : Backend R) (c : Circuit R) (progs : List (List (Call R))) (rs : List (Reader R)) (s : List Turn)
    (j : Nat) (h : rs[j]? = some (.run (.reading .start))) :
    ∃ o, (runSeveral N B c progs rs s).2[j]? = some (.run o) ∧ o.Tracks N B c (runWhile c progs (onlyReader j s)).2 := by
  obtain ⟨x, h1, o, rfl, h2⟩ := several_reader (N := N) (B := B) (Rel := fun x (a : Rc R) => ∃ o, x = .run o ∧ o.Tracks N B c a)
    (one := stepWhile) (fun _ _ _ => rfl)
    (fun σ σ' x a hs hx => ⟨a.step σ'.1.flow, rfl, by
      obtain ⟨o, rfl, ho⟩ := hx
      refine ⟨_, rfl, ?_⟩
      rw [← hs.flow]
      exact ho.step hs.out⟩) j s (SameBare.refl c _) rs _ ⟨_, h, _, rfl, rfl⟩
  exact ⟨o, h1, h2⟩

theorem runWhile_stays {c : Circuit R} {progs : List (List (Call R))} {j : Nat} {s : List Turn} {v : PyM (List (Key × R))}
    (h : (runWhile c progs (onlyReader j s)).2.value N B c = some v) (t : Turn) :
    (runWhile c progs (onlyReader j (s ++ [t]))).2.value N B c = some v := by
  have e : onlyReader j (s ++ [t]) = onlyReader j s ++ onlyReader j [t] := List.filterMap_append
  rw [e]
  unfold runWhile at h ⊢
  rw [List.foldl_append]
  cases t with
  | builder i => exact h
  | reader k =>
    by_cases hk : k = j
    · have : onlyReader j [Turn.reader k] = [none] := by simp [onlyReader, hk]
      rw [this]
      simp only [List.foldl_cons, List.foldl_nil, stepWhile]
      rw [Rc.value_fixed h]
      exact h
    · have : onlyReader j [Turn.reader k] = [] := by simp [onlyReader, hk]
      rw [this]
      exact h

/-- `l` is the result of one of the calls of `run()`. -/
def ResultOf (N : Numerics R) (B : Backend R) (c : Circuit R) (progs : List (List (Call R))) (rs : List (Reader R)) (s : List Turn)
    (o : Option (List (Key × R))) : Prop :=
  ∃ k l, rs[k]? = some (.run (.reading .start)) ∧ o = some l ∧
    (runWhile c progs (onlyReader k s)).2.value N B c = some (.ok l)

theorem ResultOf.stays {c : Circuit R} {progs : List (List (Call R))} {rs : List (Reader R)} {s : List Turn}
    {o : Option (List (Key × R))} (h : ResultOf N B c progs rs s o) (t : Turn) : ResultOf N B c progs rs (s ++ [t]) o := by
  obtain ⟨k, l, h1, h2, h3⟩ := h
  exact ⟨k, l, h1, h2, runWhile_stays h3 t⟩

theorem stepThread_output (σ : Circuit R × List (Thread R)) (i : Nat) : (stepThread σ i).1.circuitOutput = σ.1.circuitOutput := by
  unfold stepThread
  cases σ.2[i]? with
  | none => rfl
  | some t =>
    obtain ⟨pc, todo⟩ := t
    cases pc with
    | idle =>
      cases todo with
      | nil => rfl
      | cons k ks =>
        simp only [Thread.step]
        cases σ.1.layerOf k <;> rfl
    | _ => rfl

theorem several_results (N : Numerics R) (B : Backend R) (c : Circuit R) (progs : List (List (Call R))) (rs : List (Reader R))
    (hrs : ∀ (k : Nat) o, rs[k]? = some (.run o) → o = .reading .start) (s : List Turn) :
    (∀ (k : Nat) o, (runSeveral N B c progs rs s).2[k]? = some (.run o) → rs[k]? = some (.run (.reading .start))) ∧
    (∀ k : Nat, (runSeveral N B c progs rs s).2[k]? = some (.run .stored) →
      ResultOf N B c progs rs s (runSeveral N B c progs rs s).1.1.circuitOutput) ∧
    ∀ (k : Nat) o, (runSeveral N B c progs rs s).2[k]? = some (.run (.ended (.ok o))) → ResultOf N B c progs rs s o := by
  induction s using List.reverseRecOn with
  | nil =>
    refine ⟨fun k o h => ?_, fun k h => ?_, fun k o h => ?_⟩
    · rw [← hrs k o h]; exact h
    · cases hrs k _ h
    · cases hrs k _ h
  | append_singleton s t ih =>
    obtain ⟨i1, i2, i3⟩ := ih
    have estep : runSeveral N B c progs rs (s ++ [t]) = stepSeveral N B (runSeveral N B c progs rs s) t := by
      unfold runSeveral
      rw [List.foldl_append]
      rfl
    rw [estep]
    cases t with
    | builder i =>
      refine ⟨i1, fun k h => ?_, fun k o h => (i3 k o h).stays _⟩
      simp only [stepSeveral, stepThread_output]
      exact (i2 k h).stays _
    | reader j =>
      simp only [stepSeveral]
      cases hx : (runSeveral N B c progs rs s).2[j]? with
      | none => exact ⟨i1, fun k h => (i2 k h).stays _, fun k o h => (i3 k o h).stays _⟩
      | some x =>
        have hlt := (List.getElem?_eq_some_iff.1 hx).1
        simp only
        -- what the step does
        have hself : ∀ {y}, ((runSeveral N B c progs rs s).2.set j y)[j]? = some y := List.getElem?_set_self hlt
        have hother : ∀ {k y}, k ≠ j → ((runSeveral N B c progs rs s).2.set j y)[k]? = (runSeveral N B c progs rs s).2[k]? :=
          fun h => List.getElem?_set_ne (Ne.symm h)
        cases x with
        | run o =>
          have hj := i1 j o hx
          obtain ⟨o', ho', htr⟩ := several_run N B c progs rs s j hj
          rw [hx] at ho'
          injection ho' with ho'
          injection ho' with ho'
          subst ho'
          have hout : (runSeveral N B c progs rs s).1.1.output = c.output :=
            (several_same (N := N) (B := B) s rs (SameBare.refl c (progs.map fun l => { pc := .idle, todo := l }))).out
          refine ⟨fun k o' h => ?_, fun k h => ?_, fun k o' h => ?_⟩
          · by_cases hk : k = j
            · rw [hk]; exact hj
            · rw [hother hk] at h; exact i1 k o' h
          · -- the attribute
            cases o with
            | reading r =>
              have hr : r = _ := htr
              cases hv : r.value N B (runSeveral N B c progs rs s).1.1 with
              | none =>
                simp only [Reader.step, Oc.step, hv] at h ⊢
                by_cases hk : k = j
                · rw [hk, hself] at h; cases h
                · rw [hother hk] at h; exact (i2 k h).stays _
              | some v =>
                cases v with
                | error e =>
                  simp only [Reader.step, Oc.step, hv] at h ⊢
                  by_cases hk : k = j
                  · rw [hk, hself] at h; cases h
                  · rw [hother hk] at h; exact (i2 k h).stays _
                | ok l =>
                  simp only [Reader.step, Oc.step, hv]
                  rw [Rc.value_output hout, hr] at hv
                  exact ResultOf.stays ⟨j, l, hj, rfl, hv⟩ _
            | stored => exact (i2 j hx).stays _
            | ended v =>
              simp only [Reader.step, Oc.step] at h ⊢
              by_cases hk : k = j
              · rw [hk, hself] at h; cases h
              · rw [hother hk] at h; exact (i2 k h).stays _
          · by_cases hk : k = j
            · rw [hk, hself] at h
              cases o with
              | reading r =>
                simp only [Reader.step, Oc.step] at h
                cases hv : r.value N B (runSeveral N B c progs rs s).1.1 with
                | none => rw [hv] at h; cases h
                | some v => cases v <;> (rw [hv] at h; cases h)
              | stored =>
                simp only [Reader.step, Oc.step] at h
                cases h
                exact (i2 j hx).stays _
              | ended v =>
                simp only [Reader.step, Oc.step] at h
                cases h
                exact (i3 j _ hx).stays _
            · rw [hother hk] at h; exact (i3 k o' h).stays _
        | info r =>
          refine ⟨fun k o' h => ?_, fun k h => ?_, fun k o' h => ?_⟩ <;> by_cases hk : k = j
          · rw [hk, hself] at h; cases h
          · rw [hother hk] at h; exact i1 k o' h
          · rw [hk, hself] at h; cases h
          · rw [hother hk] at h; exact (i2 k h).stays _
          · rw [hk, hself] at h; cases h
          · rw [hother hk] at h; exact (i3 k o' h).stays _
        | str r =>
          refine ⟨fun k o' h => ?_, fun k h => ?_, fun k o' h => ?_⟩ <;> by_cases hk : k = j
          · rw [hk, hself] at h; cases h
          · rw [hother hk] at h; exact i1 k o' h
          · rw [hk, hself] at h; cases h
          · rw [hother hk] at h; exact (i2 k h).stays _
          · rw [hk, hself] at h; cases h
          · rw [hother hk] at h; exact (i3 k o' h).stays _
        | mpl r =>
          refine ⟨fun k o' h => ?_, fun k h => ?_, fun k o' h => ?_⟩ <;> by_cases hk : k = j
          · rw [hk, hself] at h; cases h
          · rw [hother hk] at h; exact i1 k o' h
          · rw [hk, hself] at h; cases h
          · rw [hother hk] at h; exact (i2 k h).stays _
          · rw [hk, hself] at h; cases h
          · rw [hother hk] at h; exact (i3 k o' h).stays _

/-- **C105.** If `run()` raises, it would have raised the same beside no other call of `run()`, `str`, `get_circuit_info` or `draw`.
If it returns, then a result that one of the calls of `run()` would have returned beside none of the others. -/
theorem C105_run (N : Numerics R) (B : Backend R) (c : Circuit R) (progs : List (List (Call R))) (rs : List (Reader R)) (s : List Turn)
    (hrs : ∀ (k : Nat) o, rs[k]? = some (.run o) → o = .reading .start) (j : Nat) {v : PyM (Option (List (Key × R)))}
    (h : (runSeveral N B c progs rs s).2[j]? = some (.run (.ended v))) :
    (∀ e, v = .error e → (runWhile c progs (onlyReader j s)).2.value N B c = some (.error e)) ∧
    ∀ o, v = .ok o → ∃ k l, rs[k]? = some (.run (.reading .start)) ∧ o = some l ∧
      (runWhile c progs (onlyReader k s)).2.value N B c = some (.ok l) := by
  obtain ⟨i1, _, i3⟩ := several_results N B c progs rs hrs s
  refine ⟨fun e he => ?_, fun o ho => ?_⟩
  · subst he
    obtain ⟨o, h1, h2⟩ := several_run N B c progs rs s j (i1 j _ h)
    rw [h] at h1
    cases h1
    exact h2
  · subst ho
    exact i3 j o h

/-- **C105.** If there is no other call of `run()`, it returns or raises what it would beside no other call. -/
theorem C105_one_run (N : Numerics R) (B : Backend R) (c : Circuit R) (progs : List (List (Call R))) (rs : List (Reader R)) (s : List Turn)
    (j : Nat) (hj : rs[j]? = some (.run (.reading .start))) (hrs : ∀ (k : Nat) o, rs[k]? = some (.run o) → k = j)
    {v : PyM (Option (List (Key × R)))} (h : (runSeveral N B c progs rs s).2[j]? = some (.run (.ended v))) :
    (runWhile c progs (onlyReader j s)).2.value N B c = some (v.bind fun o => match o with
      | some l => .ok l
      | none => .error .attribute) := by
  obtain ⟨h1, h2⟩ := C105_run N B c progs rs s (fun k o hk => by
    have := hrs k o hk
    subst this
    rw [hj] at hk
    cases hk
    rfl) j h
  cases v with
  | error e => exact h1 e rfl
  | ok o =>
    obtain ⟨k, l, hk, ho, hv⟩ := h2 o rfl
    have := hrs k _ hk
    subst this
    subst ho
    exact hv

/-! ### Coming to an end -/

theorem onlyReader_alone (j n : Nat) (s : List Turn) :
    onlyReader j (s ++ List.replicate n (.reader j)) = onlyReader j s ++ List.replicate n none := by
  have e : onlyReader j (s ++ List.replicate n (.reader j)) = onlyReader j s ++ onlyReader j (List.replicate n (.reader j)) :=
    List.filterMap_append
  rw [e]
  congr 1
  induction n with
  | zero => rfl
  | succ n ih =>
    rw [List.replicate_succ, List.replicate_succ, ← ih (by exact List.filterMap_append)]
    simp [onlyReader]

/-- One more step of a thread. -/
theorem several_turn (N : Numerics R) (B : Backend R) (c : Circuit R) (progs : List (List (Call R))) (rs : List (Reader R)) (s : List Turn)
    {j : Nat} {x : Reader R} (h : (runSeveral N B c progs rs s).2[j]? = some x) :
    (runSeveral N B c progs rs (s ++ [.reader j])).2[j]? = some (x.step N B (runSeveral N B c progs rs s).1.1).2 := by
  have estep : runSeveral N B c progs rs (s ++ [.reader j]) = stepSeveral N B (runSeveral N B c progs rs s) (.reader j) := by
    unfold runSeveral
    rw [List.foldl_append]
    rfl
  rw [estep]
  simp only [stepSeveral, h]
  rw [List.getElem?_set_self (List.getElem?_eq_some_iff.1 h).1]

/-- **C105.** However far a call of `run()` has come and whatever the other threads did, it comes to an end if they stop. -/
theorem C105_run_ends (N : Numerics R) (B : Backend R) (c : Circuit R) (progs : List (List (Call R))) (rs : List (Reader R)) (s : List Turn)
    (j : Nat) (h : rs[j]? = some (.run (.reading .start))) :
    ∃ n v, (runSeveral N B c progs rs (s ++ List.replicate n (.reader j))).2[j]? = some (.run (.ended v)) := by
  obtain ⟨n, hn⟩ := C82_run_finishes N B c progs (onlyReader j s)
  obtain ⟨v, hv⟩ := hn (List.replicate n none) (by simp)
  obtain ⟨o, h1, h2⟩ := several_run N B c progs rs (s ++ List.replicate (n + 1) (.reader j)) j h
  rw [onlyReader_alone, List.replicate_succ] at h2
  have twice : ∀ d : Circuit R, d.output = c.output → ∀ d' : Circuit R, ∃ v, ((o.step N B d).2.step N B d').2 = .ended v := by
    intro d hd d'
    cases o with
    | reading r =>
      have hr : r = _ := h2
      rw [← hr] at hv
      simp only [Oc.step, Rc.value_output hd, hv]
      cases v with
      | error e => exact ⟨_, rfl⟩
      | ok l => exact ⟨_, rfl⟩
    | stored => exact ⟨_, rfl⟩
    | ended v => exact ⟨_, rfl⟩
  have t1 := several_turn N B c progs rs _ h1
  have t2 := several_turn N B c progs rs _ t1
  have hout : (runSeveral N B c progs rs (s ++ List.replicate (n + 1) (.reader j))).1.1.output = c.output :=
    (several_same (N := N) (B := B) _ rs (SameBare.refl c (progs.map fun l => { pc := .idle, todo := l }))).out
  obtain ⟨w, hw⟩ := twice _ hout (runSeveral N B c progs rs (s ++ List.replicate (n + 1) (.reader j) ++ [.reader j])).1.1
  refine ⟨n + 1 + 2, w, ?_⟩
  rw [← hw, List.replicate_add, ← List.append_assoc]
  have : List.replicate 2 (Turn.reader j) = [.reader j] ++ [.reader j] := rfl
  rw [this, ← List.append_assoc]
  exact t2

/-- **C105.** The same for the other methods. -/
theorem C105_others_end (N : Numerics R) (B : Backend R) (c : Circuit R) (progs : List (List (Call R))) (rs : List (Reader R)) (s : List Turn)
    (j : Nat) :
    (rs[j]? = some (.info .start) → ∃ n r x, (runSeveral N B c progs rs (s ++ List.replicate n (.reader j))).2[j]? = some (.info r) ∧
      r.value c = some x) ∧
    (rs[j]? = some (.str (.looping .start)) → ∃ n r x,
      (runSeveral N B c progs rs (s ++ List.replicate n (.reader j))).2[j]? = some (.str r) ∧ r.value c = some x) ∧
    (rs[j]? = some (.mpl .start) → ∃ n r x, (runSeveral N B c progs rs (s ++ List.replicate n (.reader j))).2[j]? = some (.mpl r) ∧
      r.value = some x) := by
  refine ⟨fun h => ?_, fun h => ?_, fun h => ?_⟩
  · obtain ⟨n, x, hx⟩ := C102_ends c progs (onlyReader j s)
    obtain ⟨r, h1, h2⟩ := C105_info N B c progs rs (s ++ List.replicate n (.reader j)) j h
    exact ⟨n, r, x, h1, by rw [h2, onlyReader_alone, hx]⟩
  · obtain ⟨n, x, hx⟩ := C103_ends c progs (onlyReader j s)
    obtain ⟨r, h1, h2⟩ := C105_str N B c progs rs (s ++ List.replicate n (.reader j)) j h
    exact ⟨n, r, x, h1, by rw [h2, onlyReader_alone, hx]⟩
  · obtain ⟨n, x, hx⟩ := C104_ends c progs (onlyReader j s)
    obtain ⟨r, h1, h2, _⟩ := C105_mpl N B (fun _ => 0) 0 0 c progs rs (s ++ List.replicate n (.reader j)) j h
    exact ⟨n, r, x, h1, by rw [h2, onlyReader_alone, hx]⟩

/-! ### On a finished circuit -/

/-- With the builders' steps first, a call of `run()` that ends has the result of `run()` on the circuit they built. -/
theorem runWhile_after (N : Numerics R) (B : Backend R) (c : Circuit R) (progs : List (List (Call R))) (b : List Nat) (n : Nat)
    {v : PyM (List (Key × R))} (h : (runWhile c progs (b.map some ++ List.replicate n none)).2.value N B c = some v) :
    v = ((runThreads c progs b).1.run N B).2 := by
  have build : ∀ (b : List Nat) (σ : Circuit R × List (Thread R)),
      (b.map some).foldl stepWhile (σ, .start) = (b.foldl stepThread σ, .start) := by
    intro b
    induction b with
    | nil => intro σ; rfl
    | cons i b ih => intro σ; exact ih _
  have steps : ∀ n (σ : Circuit R × List (Thread R)) (r : Rc R),
      (List.replicate n none).foldl stepWhile (σ, r) = (σ, (Rc.step σ.1.flow)^[n] r) := by
    intro n
    induction n with
    | zero => intro σ r; rfl
    | succ n ih => intro σ r; rw [List.replicate_succ, List.foldl_cons, Function.iterate_succ_apply]; exact ih _ _
  have hout : (runThreads c progs b).1.output = c.output := by
    unfold runThreads
    generalize (progs.map fun l => ({ pc := .idle, todo := l } : Thread R)) = ts
    have key : ∀ (b : List Nat) (σ : Circuit R × List (Thread R)), (b.foldl stepThread σ).1.output = σ.1.output := by
      intro b
      induction b with
      | nil => intro σ; rfl
      | cons i b ih =>
        intro σ
        rw [List.foldl_cons, ih]
        unfold stepThread
        cases σ.2[i]? with
        | none => rfl
        | some t => exact Thread.step_out σ.1 t
    exact key b (c, ts)
  have stay : ∀ (m : Nat) (f : Flow R) (r : Rc R) (w : PyM (List (Key × R))), r.value N B c = some w → (Rc.step f)^[m] r = r := by
    intro m f r w hr
    exact Function.iterate_fixed (Rc.value_fixed hr f) m
  obtain ⟨m, hm⟩ := C82_run_alone N B (runThreads c progs b).1 progs
  unfold runWhile at h hm
  rw [steps] at hm
  rw [List.foldl_append, build, steps] at h
  change ((Rc.step (runThreads c progs b).1.flow)^[n] .start).value N B c = some v at h
  change ((Rc.step (runThreads c progs b).1.flow)^[m] .start).value N B (runThreads c progs b).1 = _ at hm
  rw [Rc.value_output hout] at hm
  have e1 := stay m (runThreads c progs b).1.flow _ _ h
  have e2 := stay n (runThreads c progs b).1.flow _ _ hm
  rw [← Function.iterate_add_apply] at e1 e2
  rw [Nat.add_comm n m, e1] at e2
  rw [e2, hm] at h
  exact (Option.some.inj h).symm

/-- **C105.** If the builders have stopped before the first step of the other threads, each of any number of calls of
`run()` that end returns or raises what `run()` does on the circuit that was built. -/
theorem C105_run_after (N : Numerics R) (B : Backend R) (c : Circuit R) (progs : List (List (Call R))) (rs : List (Reader R))
    (b : List Nat) (s : List Nat) (hrs : ∀ (k : Nat) o, rs[k]? = some (.run o) → o = .reading .start) (j : Nat)
    {v : PyM (Option (List (Key × R)))}
    (h : (runSeveral N B c progs rs (b.map .builder ++ s.map .reader)).2[j]? = some (.run (.ended v))) :
    v = ((runThreads c progs b).1.run N B).2.map some := by
  have turns : ∀ k, ∃ n, onlyReader k (b.map .builder ++ s.map .reader) = b.map some ++ List.replicate n none := by
    intro k
    have e : onlyReader k (b.map .builder ++ s.map .reader) = onlyReader k (b.map .builder) ++ onlyReader k (s.map .reader) :=
      List.filterMap_append
    have e1 : onlyReader k (b.map .builder) = b.map some := by
      clear h e
      induction b with
      | nil => rfl
      | cons i b ih => rw [List.map_cons, List.map_cons, ← ih]; rfl
    have e2 : ∃ n, onlyReader k (s.map .reader) = List.replicate n none := by
      clear h e
      induction s with
      | nil => exact ⟨0, rfl⟩
      | cons i s ih =>
        obtain ⟨n, hn⟩ := ih
        by_cases hi : i = k
        · exact ⟨n + 1, by rw [List.replicate_succ, ← hn]; simp [onlyReader, hi]⟩
        · exact ⟨n, by rw [← hn]; simp [onlyReader, hi]⟩
    obtain ⟨n, hn⟩ := e2
    exact ⟨n, by rw [e, e1, hn]⟩
  obtain ⟨h1, h2⟩ := C105_run N B c progs rs _ hrs j h
  cases v with
  | error e =>
    obtain ⟨n, hn⟩ := turns j
    have := h1 e rfl
    rw [hn] at this
    rw [← runWhile_after N B c progs b n this]
    rfl
  | ok o =>
    obtain ⟨k, l, _, rfl, hl⟩ := h2 o rfl
    obtain ⟨n, hn⟩ := turns k
    rw [hn] at hl
    rw [← runWhile_after N B c progs b n hl]
    rfl

/-! ### Cases -/

/-- What a call of `run()` has returned. -/
def Reader.returned : Reader R → Option (List (Key × R))
  | .run (.ended (.ok o)) => o
  | _ => none

/-- One thread calls `x(1)` and `measure_all()`, another `x(0)`; two threads call `run()`. The first `run()` reads the layer before
`x(0)` is written into it, the second after that; the second sets the attribute after the first and before that returns. -/
def crossed : List Turn :=
  List.replicate 8 (.builder 0) ++ List.replicate 5 (.builder 1) ++ List.replicate 6 (.builder 0) ++ List.replicate 7 (.reader 0) ++
    [.builder 1] ++ List.replicate 7 (.reader 1) ++ [.reader 0, .reader 1, .reader 0]

/-- **C105.** `run()` can return the result of another call of `run()`: on two qubits the first one above returns `11`, although it has
computed `01`. -/
theorem C105_run_may_return_another : ∃ c : Circuit ℤ, Circuit.new (.list [2, 2]) [] none = .ok c ∧
    ((runSeveral sampleN (numpyBackend ℤ) c [[.x 1 none 1, .measureAll], [.x 0 none 1]]
      [.run (.reading .start), .run (.reading .start)] crossed).2[0]?.bind Reader.returned) = some [(.str (label [1, 1]), 1)] ∧
    (runWhile c [[.x 1 none 1, .measureAll], [.x 0 none 1]] (onlyReader 0 crossed)).2.value sampleN (numpyBackend ℤ) c =
      some (.ok [(.str (label [0, 1]), 1)]) :=
  ⟨twoQubits, new_ok (dims := [2, 2]) rfl (validStart_of rfl) none, by decide +kernel, by decide +kernel⟩

theorem returned_eq {x : Option (Reader R)} {l : List (Key × R)} (h : x.bind Reader.returned = some l) :
    x = some (.run (.ended (.ok (some l)))) := by
  cases x with
  | none => cases h
  | some x =>
    cases x with
    | run o =>
      cases o with
      | ended v =>
        cases v with
        | error e => cases h
        | ok o => have : o = some l := h; rw [this]
      | _ => cases h
    | _ => cases h

/-- A case of `C105_run`: the result that was returned is that of one of the two calls. -/
example : ∃ k : Nat, (runWhile twoQubits [[.x 1 none 1, .measureAll], [.x 0 none 1]] (onlyReader k crossed)).2.value sampleN (numpyBackend ℤ)
    twoQubits = some (.ok [(.str (label [1, 1]), 1)]) := by
  have h := returned_eq (x := (runSeveral sampleN (numpyBackend ℤ) twoQubits [[.x 1 none 1, .measureAll], [.x 0 none 1]]
    [.run (.reading .start), .run (.reading .start)] crossed).2[0]?) (l := [(.str (label [1, 1]), 1)]) (by decide +kernel)
  obtain ⟨k, l, _, hl, hv⟩ := (C105_run sampleN (numpyBackend ℤ) twoQubits _ _ _ (by
    intro k o hk
    match k, hk with
    | 0, hk => cases hk; rfl
    | 1, hk => cases hk; rfl) 0 h).2 _ rfl
  cases hl
  exact ⟨k, hv⟩

/-- A case of `C105_one_run`: `run()` and `get_circuit_info()` after `x(1)` and `measure_all()`. -/
example : (runWhile twoQubits [[.x 1 none 1, .measureAll]] (onlyReader 0 (List.replicate 14 (.builder 0) ++
      (List.replicate 9 [Turn.reader 1, .reader 0]).flatten))).2.value sampleN (numpyBackend ℤ) twoQubits =
    some (.ok [(.str (label [0, 1]), 1)]) := by
  have h := returned_eq (x := (runSeveral sampleN (numpyBackend ℤ) twoQubits [[.x 1 none 1, .measureAll]]
    [.run (.reading .start), .info .start] (List.replicate 14 (.builder 0) ++ (List.replicate 9 [Turn.reader 1, .reader 0]).flatten)).2[0]?)
    (l := [(.str (label [0, 1]), 1)]) (by decide +kernel)
  exact C105_one_run sampleN (numpyBackend ℤ) twoQubits _ _ _ 0 rfl (by
    intro k o hk
    match k, hk with
    | 0, _ => rfl
    | 1, hk => cases hk) h

/-- A case of `C105_run_after`: two calls of `run()` in turns, on a circuit that another thread has built. -/
example : ((runThreads twoQubits [[.x 1 none 1, .measureAll]] (List.replicate 14 0)).1.run sampleN (numpyBackend ℤ)).2.map some =
    .ok (some [(.str (label [0, 1]), 1)]) := by
  have h := returned_eq (x := (runSeveral sampleN (numpyBackend ℤ) twoQubits [[.x 1 none 1, .measureAll]]
    [.run (.reading .start), .run (.reading .start)]
    ((List.replicate 14 0).map .builder ++ (List.replicate 9 [1, 0]).flatten.map .reader)).2[0]?)
    (l := [(.str (label [0, 1]), 1)]) (by decide +kernel)
  exact (C105_run_after sampleN (numpyBackend ℤ) twoQubits _ _ _ _ (by
    intro k o hk
    match k, hk with
    | 0, hk => cases hk; rfl
    | 1, hk => cases hk; rfl) 0 h).symm

/-- Threads call `get_circuit_info()`, `draw('mpl')` and `str(circuit)` in turns after another has called `x(0)`. -/
def inTurns : List Turn :=
  List.replicate 12 (.builder 0) ++ (List.replicate 12 [Turn.reader 1, .reader 0, .reader 2]).flatten

/-- A case of `C105_info`, `C105_str` and `C105_mpl`. -/
example : (∃ r, (runSeveral sampleN (numpyBackend ℤ) twoQubits [[.x 0 none 1]] [.info .start, .mpl .start, .str (.looping .start)]
        inTurns).2[0]? = some (.info r) ∧
      r.value twoQubits = some { depth := 1, gateCount := 1, details := [(.x, 1)], qudit := 2 }) ∧
    (∃ r, (runSeveral sampleN (numpyBackend ℤ) twoQubits [[.x 0 none 1]] [.info .start, .mpl .start, .str (.looping .start)]
        inTurns).2[1]? = some (.mpl r) ∧ r.value = some (.ok [[], [.box 'X' 0 (some (1, 2))]])) ∧
    ∃ r, (runSeveral sampleN (numpyBackend ℤ) twoQubits [[.x 0 none 1]] [.info .start, .mpl .start, .str (.looping .start)]
        inTurns).2[2]? = some (.str r) ∧
      r.value twoQubits = some (.ok "(2)|0>-X(1)-----\n(2)|0>----------\n\ndepth: 1, width: 2".toList) := by
  refine ⟨?_, ?_, ?_⟩
  · obtain ⟨r, h1, h2⟩ := C105_info sampleN (numpyBackend ℤ) twoQubits [[.x 0 none 1]]
      [.info .start, .mpl .start, .str (.looping .start)] inTurns 0 rfl
    exact ⟨r, h1, h2.trans (by decide +kernel)⟩
  · obtain ⟨r, h1, h2, _⟩ := C105_mpl sampleN (numpyBackend ℤ) (fun _ => 1) 1 1 twoQubits [[.x 0 none 1]]
      [.info .start, .mpl .start, .str (.looping .start)] inTurns 1 rfl
    exact ⟨r, h1, h2.trans (by decide +kernel)⟩
  · obtain ⟨r, h1, h2⟩ := C105_str sampleN (numpyBackend ℤ) twoQubits [[.x 0 none 1]]
      [.info .start, .mpl .start, .str (.looping .start)] inTurns 2 rfl
    exact ⟨r, h1, h2.trans (by decide +kernel)⟩

end QuDiet
