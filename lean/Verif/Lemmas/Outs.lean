import Verif.Lemmas.Objects

/-!
# Gate calls and the output processor

No gate or measurement method replaces the output processor of a circuit.
-/

namespace QuDiet

variable {R : Type}

/-- The statement leaves every circuit its output processor. -/
def KeepsOut {α : Type} (x : Act R α) : Prop :=
  ∀ w, (x w).2.circs.map CircObj.output = w.circs.map CircObj.output

section
variable {α β : Type}

theorem outs_const {x : Act R α} (h : ∀ w, (x w).2.circs = w.circs) : KeepsOut x := fun w => by rw [h]

theorem outs_pure (a : α) : KeepsOut (pure a : Act R α) := fun _ => rfl

theorem outs_bind {x : Act R α} {f : α → Act R β} (hx : KeepsOut x) (hf : ∀ a, KeepsOut (f a)) :
    KeepsOut (x >>= f) := by
  intro w
  have h1 := hx w
  rw [act_bind]
  cases hr : x w with
  | mk r w' =>
    rw [hr] at h1
    cases r with
    | error e => exact h1
    | ok a => exact (hf a w').trans h1

theorem outs_look (i : Nat) (f : Circuit R → PyM α) : KeepsOut (look i f) :=
  outs_const fun w => by
    unfold look
    cases w.view i <;> rfl

theorem outs_circ (i : Nat) : KeepsOut (circ (R := R) i) :=
  outs_const fun w => by
    unfold circ
    cases w.circs[i]? <;> rfl

theorem outs_setCirc (i : Nat) {f : CircObj R → CircObj R} (h : ∀ o, (f o).output = o.output) :
    KeepsOut (setCirc i f) := by
  intro w
  simp only [setCirc]
  apply List.ext_getElem?
  intro j
  rw [List.getElem?_map, List.getElem?_map, getElem?_modify']
  split
  · rename_i hj
    rw [Option.map_map, hj]
    congr 1
    funext o
    exact h o
  · rfl

theorem outs_foldlM {γ : Type} (l : List γ) (f : α → γ → Act R α) (h : ∀ a c, KeepsOut (f a c)) (a : α) :
    KeepsOut (l.foldlM f a) := by
  induction l generalizing a with
  | nil => exact outs_pure a
  | cons c l ih =>
    rw [List.foldlM_cons]
    exact outs_bind (h a c) fun a => ih a

theorem outs_detect (i m : Nat) : KeepsOut (detectObj (R := R) i m) := by
  unfold detectObj
  refine outs_bind (outs_const fun _ => rfl) fun cur => outs_foldlM _ _ (fun _ gi => ?_) _
  split
  · exact outs_setCirc _ fun _ => rfl
  · exact outs_pure _

theorem outs_append (i m : Nat) : KeepsOut (appendObj (R := R) i m) :=
  outs_bind (outs_circ i) fun _ => outs_bind (outs_const fun _ => rfl) fun _ =>
    outs_bind (outs_detect _ _) fun _ => outs_pure _

theorem outs_replace (m : Nat) (q : Int) (g : GateObj R) : KeepsOut (replaceObj m q g) := by
  refine outs_bind (outs_const fun _ => rfl) fun _ => outs_bind (outs_const fun _ => rfl) fun r => ?_
  rcases r with _ | ⟨g', j⟩
  · exact outs_const fun _ => rfl
  · show KeepsOut (if g'.isIdent then _ else _)
    split
    · exact outs_bind (outs_const fun _ => rfl) fun _ => outs_pure _
    · exact outs_pure _

theorem outs_populate (i m : Nat) : KeepsOut (populateObj (R := R) i m) := by
  refine outs_bind (outs_circ i) fun o => outs_bind (outs_const fun _ => rfl) fun cur =>
    outs_bind (outs_const fun _ => rfl) fun l => ?_
  cases l.getLast? with
  | none => exact outs_bind (outs_setCirc i fun _ => rfl) fun _ => outs_append i m
  | some last =>
    simp only []
    split
    · exact outs_pure _
    · cases cur.find? (·.isHXZ) with
      | none => exact outs_append i m
      | some g =>
        refine outs_bind (outs_const fun _ => rfl) fun gs => outs_bind (outs_const fun _ => rfl) fun acting => ?_
        have rest : ∀ (q : Int) (gq : List Int), KeepsOut (if gq.all (· ∈ identRegs gs) then do
              let added ← replaceObj last q g
              if added then pure true else appendObj i m
            else appendObj i m : Act R Bool) := by
          intro q gq
          split
          · refine outs_bind (outs_replace _ _ _) fun b => ?_
            cases b
            · exact outs_append i m
            · exact outs_pure _
          · exact outs_append i m
        cases acting with
        | int q => exact rest q [q]
        | list qs => exact rest 0 qs

theorem outs_addMoment (i : Nat) (q : RegArg) (g : GateObj R) : KeepsOut (addMomentObj i q g) :=
  outs_bind (outs_look _ _) fun _ => outs_bind (outs_const fun _ => rfl) fun _ => outs_populate i _

variable [CommRing R]

theorem outs_call (i : Nat) (k : Call R) : KeepsOut (callObj i k) := by
  cases k with
  | h q dims => exact outs_bind (outs_look _ _) fun _ => outs_bind (outs_look _ _) fun _ => outs_addMoment _ _ _
  | x q dims p => exact outs_bind (outs_look _ _) fun _ => outs_bind (outs_look _ _) fun _ => outs_addMoment _ _ _
  | z q dims => exact outs_bind (outs_look _ _) fun _ => outs_bind (outs_look _ _) fun _ => outs_addMoment _ _ _
  | cx c t p => exact outs_bind (outs_look _ _) fun _ => outs_addMoment _ _ _
  | toffoli cs t p =>
    exact outs_bind (outs_look _ _) fun _ => outs_bind (outs_addMoment _ _ _) fun _ => outs_pure _
  | gate U q dims =>
    cases q with
    | int q => exact outs_bind (outs_look _ _) fun _ => outs_bind (outs_look _ _) fun _ => outs_addMoment _ _ _
    | list qs =>
      refine outs_bind (outs_look _ _) fun _ => ?_
      rcases dims with _ | _ | k
      · exact outs_bind (outs_look _ _) fun _ => outs_addMoment _ _ _
      · exact outs_bind (outs_look _ _) fun _ => outs_addMoment _ _ _
      · exact outs_addMoment _ _ _
  | measure q => exact outs_const fun _ => rfl
  | measureAll =>
    exact outs_bind (outs_circ i) fun _ => outs_bind (outs_const fun _ => rfl) fun _ =>
      outs_bind (outs_populate i _) fun _ => outs_pure _

/-- The statement, unless it raises, adds one circuit with the processor `out`. -/
def AddsOut (out : Option Output) {α : Type} (x : Act R α) : Prop :=
  ∀ w a, (x w).1 = .ok a → (x w).2.circs.map CircObj.output = w.circs.map CircObj.output ++ [out]

omit [CommRing R] in
theorem adds_bind {out : Option Output} {x : Act R α} {f : α → Act R β} (hx : KeepsOut x)
    (hf : ∀ a, AddsOut out (f a)) : AddsOut out (x >>= f) := by
  intro w b
  have h1 := hx w
  rw [act_bind]
  cases hr : x w with
  | mk r w' =>
    rw [hr] at h1
    cases r with
    | error e => intro h; cases h
    | ok a => intro h; exact (hf a w' b h).trans (by rw [h1])

omit [CommRing R] in
theorem adds_bind' {out : Option Output} {x : Act R α} {f : α → Act R β} (hx : AddsOut out x)
    (hf : ∀ a, KeepsOut (f a)) : AddsOut out (x >>= f) := by
  intro w b
  have h1 := hx w
  rw [act_bind]
  cases hr : x w with
  | mk r w' =>
    rw [hr] at h1
    cases r with
    | error e => intro h; cases h
    | ok a => intro _; exact (hf a w').trans (h1 a rfl)

/-- The constructor adds one circuit, with the processor it was given. -/
theorem outs_new (q : RegsRef) (init : Option Nat) (out : Option Output) :
    AddsOut out (newObj (R := R) q init out) := by
  have core : ∀ states : List Int, AddsOut out (do
      let dims ← readDims q
      let gs ← Act.lift (initMoment dims states)
      let f ← newRefs []
      let i ← newCirc ⟨q, dims.length, f, [0], out, none⟩
      let m ← newMoment gs
      let _ ← populateObj i m
      pure i : Act R Nat) := by
    intro states
    refine adds_bind (outs_const fun _ => rfl) fun _ => adds_bind (outs_const fun _ => rfl) fun gs =>
      adds_bind (outs_const fun _ => rfl) fun f => adds_bind' ?_ fun i => outs_bind (outs_const fun _ => rfl) fun m =>
        outs_bind (outs_populate i m) fun _ => outs_pure _
    intro w a _
    simp [newCirc]
  unfold newObj
  refine adds_bind (outs_const fun _ => rfl) fun dims => ?_
  cases init with
  | none => exact adds_bind (outs_pure _) fun _ => core _
  | some a =>
    refine adds_bind (outs_const fun _ => rfl) fun given => ?_
    cases given with
    | nil => exact core _
    | cons x l => exact adds_bind (outs_const fun _ => rfl) fun _ => core _

end

end QuDiet
