import Verif.Objects
import Mathlib.Data.List.Nodup
import Mathlib.Data.List.GetD

/-! # Objects behave as values

The methods on shared mutable objects (`Objects.lean`) have exactly the effect that `Circuit.lean` gives
them on circuits as values. -/

namespace QuDiet

section
variable {R : Type}

theorem act_bind {α β : Type} (x : Act R α) (f : α → Act R β) (w : World R) :
    (x >>= f) w = match x w with
      | (.ok a, w') => f a w'
      | (.error e, w') => (.error e, w') := rfl

theorem ok_bind {α β : Type} (a : α) (f : α → PyM β) : (Except.ok a >>= f) = f a := rfl

theorem error_bind {α β : Type} (e : Err) (f : α → PyM β) : (Except.error e >>= f) = .error e := rfl

theorem act_pure {α : Type} (a : α) (w : World R) : (pure a : Act R α) w = (.ok a, w) := rfl

/-- The moment holds an identity operator, which a later gate may replace. -/
def idleIn (gs : List (GateObj R)) : Bool := gs.any (·.isIdent)

/-- No two circuits share a list of moments or a moment with an identity operator, and no circuit holds such a
moment twice. -/
structure World.WF (w : World R) : Prop where
  opf : ∀ (i : Nat) (o : CircObj R), w.circs[i]? = some o → o.opflow < w.refs.length
  inj : ∀ (i j : Nat) (o o' : CircObj R), w.circs[i]? = some o → w.circs[j]? = some o' → o.opflow = o'.opflow → i = j
  mem : ∀ (i : Nat) (o : CircObj R), w.circs[i]? = some o → ∀ m ∈ w.refs.getD o.opflow [], m < w.moms.length
  sep : ∀ (i j : Nat) (o o' : CircObj R) (m : Nat), w.circs[i]? = some o → w.circs[j]? = some o' → idleIn (w.moms.getD m []) = true →
    m ∈ w.refs.getD o.opflow [] → m ∈ w.refs.getD o'.opflow [] → i = j
  nodup : ∀ (i : Nat) (o : CircObj R), w.circs[i]? = some o →
    ((w.refs.getD o.opflow []).filter fun m => idleIn (w.moms.getD m [])).Nodup

/-- The register arguments of the circuits, by reference. -/
def World.regs (w : World R) : List RegsRef := w.circs.map CircObj.regs

/-- Only the circuit at address `i` changed, by `F`. -/
structure Upd (i : Nat) (w w' : World R) (F : Circuit R → Circuit R) : Prop where
  wf : w'.WF
  ints : w'.ints = w.ints
  regs : w'.regs = w.regs
  view : ∀ j, w'.view j = if j = i then (w.view i).map F else w.view j

/-- Nothing visible changed. -/
structure Same (w w' : World R) : Prop where
  wf : w'.WF
  ints : w'.ints = w.ints
  regs : w'.regs = w.regs
  view : ∀ j, w'.view j = w.view j

theorem Same.refl {w : World R} (h : w.WF) : Same w w := ⟨h, rfl, rfl, fun _ => rfl⟩

theorem Same.trans {w w' w'' : World R} (h : Same w w') (h' : Same w' w'') : Same w w'' :=
  ⟨h'.wf, h'.ints.trans h.ints, h'.regs.trans h.regs, fun j => (h'.view j).trans (h.view j)⟩

theorem Same.upd {i : Nat} {w w' w'' : World R} {F : Circuit R → Circuit R} (h : Same w w')
    (h' : Upd i w' w'' F) : Upd i w w'' F :=
  ⟨h'.wf, h'.ints.trans h.ints, h'.regs.trans h.regs, fun j => by rw [h'.view, h.view, h.view]⟩

theorem Same.toUpd {i : Nat} {w w' : World R} (h : Same w w') : Upd i w w' id :=
  ⟨h.wf, h.ints, h.regs, fun j => by rw [h.view]; split <;> simp_all⟩

theorem Upd.trans {i : Nat} {w w' w'' : World R} {F G : Circuit R → Circuit R} (h : Upd i w w' F)
    (h' : Upd i w' w'' G) : Upd i w w'' (G ∘ F) := by
  refine ⟨h'.wf, h'.ints.trans h.ints, h'.regs.trans h.regs, fun j => ?_⟩
  rw [h'.view, h.view i]
  by_cases hj : j = i
  · simp [hj, Option.map_map]
  · simp [hj, h.view j]

theorem Upd.length {i : Nat} {w w' : World R} {F : Circuit R → Circuit R} (h : Upd i w w' F) :
    w'.circs.length = w.circs.length := by
  have := congrArg List.length h.regs
  simpa [World.regs] using this

theorem Same.length {w w' : World R} (h : Same w w') : w'.circs.length = w.circs.length :=
  (h.toUpd (i := 0)).length

/-! ### The primitive changes -/

theorem read_congr {w w' : World R} {o : CircObj R} (hi : w'.ints = w.ints)
    (hr : w'.refs.getD o.opflow [] = w.refs.getD o.opflow [])
    (hm : ∀ m ∈ w.refs.getD o.opflow [], w'.moms.getD m [] = w.moms.getD m []) :
    o.read w' = o.read w := by
  have e : o.regs.read w' = o.regs.read w := by cases h : o.regs <;> simp [RegsRef.read, hi]
  unfold CircObj.read
  rw [e, hr, List.map_congr_left hm]

theorem getD_append_left' {α : Type} {l : List α} {i : Nat} (h : i < l.length) (a d : α) :
    (l ++ [a]).getD i d = l.getD i d := by
  simp [List.getD_eq_getElem?_getD, List.getElem?_append_left h]

theorem getD_length {α : Type} (l : List α) (a d : α) : (l ++ [a]).getD l.length d = a := by
  simp [List.getD_eq_getElem?_getD]

theorem getD_modify {α : Type} (l : List α) (i j : Nat) (f : α → α) (d : α) :
    (l.modify i f).getD j d = if i = j ∧ j < l.length then f (l.getD j d) else l.getD j d := by
  simp only [List.getD_eq_getElem?_getD, List.getElem?_modify]
  by_cases h : j < l.length
  · by_cases hij : i = j <;> simp [h, hij]
  · simp [h]

/-- A world with more list objects or moments. -/
theorem same_of {w w' : World R} (h : w.WF) (hc : w'.circs = w.circs) (hi : w'.ints = w.ints)
    (hr : w.refs.length ≤ w'.refs.length)
    (hr' : ∀ (i : Nat) (o : CircObj R), w.circs[i]? = some o → w'.refs.getD o.opflow [] = w.refs.getD o.opflow [])
    (hm : w.moms.length ≤ w'.moms.length)
    (hm' : ∀ m < w.moms.length, w'.moms.getD m [] = w.moms.getD m []) : Same w w' := by
  refine ⟨⟨?_, ?_, ?_, ?_, ?_⟩, hi, by simp [World.regs, hc], ?_⟩
  · intro i o ho
    rw [hc] at ho
    exact lt_of_lt_of_le (h.opf i o ho) hr
  · intro i j o o' ho ho'
    rw [hc] at ho ho'
    exact h.inj i j o o' ho ho'
  · intro i o ho
    rw [hc] at ho
    rw [hr' i o ho]
    exact fun m hm'' => lt_of_lt_of_le (h.mem i o ho m hm'') hm
  · intro i j o o' m ho ho'
    rw [hc] at ho ho'
    rw [hr' i o ho, hr' j o' ho']
    intro hid hm1
    rw [hm' m (h.mem i o ho m hm1)] at hid
    exact h.sep i j o o' m ho ho' hid hm1
  · intro i o ho
    rw [hc] at ho
    rw [hr' i o ho]
    rw [List.filter_congr (q := fun m => idleIn (w.moms.getD m [])) fun m hm1 => by
      rw [hm' m (h.mem i o ho m hm1)]]
    exact h.nodup i o ho
  · intro j
    unfold World.view
    rw [hc]
    cases ho : w.circs[j]? with
    | none => rfl
    | some o =>
      simp only [Option.map_some]
      rw [read_congr hi (hr' j o ho) fun m hm'' => hm' m (h.mem j o ho m hm'')]

theorem same_newMoment {w : World R} (h : w.WF) (gs : List (GateObj R)) :
    Same w { w with moms := w.moms ++ [gs] } :=
  same_of h rfl rfl (le_refl _) (fun _ _ _ => rfl) (by simp) fun m hm => getD_append_left' hm _ _

theorem same_newRefs {w : World R} (h : w.WF) (l : List Nat) :
    Same w { w with refs := w.refs ++ [l] } :=
  same_of h rfl rfl (by simp) (fun i o ho => getD_append_left' (h.opf i o ho) _ _) (le_refl _) fun _ _ => rfl

/-- Changing a list object that no circuit refers to. -/
theorem same_setRefs {w : World R} (h : w.WF) {a : Nat} (ha : ∀ (i : Nat) (o : CircObj R), w.circs[i]? = some o → o.opflow ≠ a)
    (f : List Nat → List Nat) : Same w { w with refs := w.refs.modify a f } := by
  refine same_of h rfl rfl (by simp) (fun i o ho => ?_) (le_refl _) fun _ _ => rfl
  have := ha i o ho
  rw [getD_modify, if_neg]
  exact fun hc => this hc.1.symm

/-- A moment without identity operators, or one that no circuit refers to. -/
def World.Fresh (w : World R) (m : Nat) : Prop :=
  m < w.moms.length ∧ (idleIn (w.moms.getD m []) = true →
    ∀ (i : Nat) (o : CircObj R), w.circs[i]? = some o → m ∉ w.refs.getD o.opflow [])

theorem fresh_newMoment {w : World R} (h : w.WF) (gs : List (GateObj R)) :
    World.Fresh { w with moms := w.moms ++ [gs] } w.moms.length := by
  refine ⟨by simp, fun _ i o ho hm => ?_⟩
  exact lt_irrefl _ (h.mem i o ho _ hm)

theorem getElem?_modify' {α : Type} (l : List α) (i j : Nat) (f : α → α) :
    (l.modify i f)[j]? = if j = i then l[i]?.map f else l[j]? := by
  rw [List.getElem?_modify]
  by_cases h : j = i
  · subst h; simp
  · have h' : ¬ i = j := fun e => h e.symm
    simp [h, h']

/-- Changing attributes that are not references. -/
theorem upd_setCirc {w : World R} (h : w.WF) (i : Nat) (f : CircObj R → CircObj R)
    (F : Circuit R → Circuit R) (h1 : ∀ o, (f o).opflow = o.opflow) (h2 : ∀ o, (f o).regs = o.regs)
    (h3 : ∀ w o, (f o).read w = F (o.read w)) :
    Upd i w { w with circs := w.circs.modify i f } F := by
  have key : ∀ (j : Nat) (o : CircObj R), (w.circs.modify i f)[j]? = some o →
      ∃ o', w.circs[j]? = some o' ∧ o.opflow = o'.opflow := by
    intro j o ho
    rw [getElem?_modify'] at ho
    split at ho
    · rename_i hj
      subst hj
      rw [Option.map_eq_some_iff] at ho
      obtain ⟨o', ho', rfl⟩ := ho
      exact ⟨o', ho', h1 o'⟩
    · exact ⟨o, ho, rfl⟩
  refine ⟨⟨?_, ?_, ?_, ?_, ?_⟩, rfl, ?_, ?_⟩
  · intro j o ho
    obtain ⟨o', ho', e⟩ := key j o ho
    simp only [e]
    exact h.opf j o' ho'
  · intro j j' o p ho hp
    obtain ⟨o', ho', e⟩ := key j o ho
    obtain ⟨p', hp', e'⟩ := key j' p hp
    rw [e, e']
    exact h.inj j j' o' p' ho' hp'
  · intro j o ho
    obtain ⟨o', ho', e⟩ := key j o ho
    simp only [e]
    exact h.mem j o' ho'
  · intro j j' o p m ho hp
    obtain ⟨o', ho', e⟩ := key j o ho
    obtain ⟨p', hp', e'⟩ := key j' p hp
    simp only [e, e']
    exact h.sep j j' o' p' m ho' hp'
  · intro j o ho
    obtain ⟨o', ho', e⟩ := key j o ho
    simp only [e]
    exact h.nodup j o' ho'
  · unfold World.regs
    apply List.ext_getElem?
    intro j
    simp only [List.getElem?_map]
    rw [getElem?_modify']
    split
    · rename_i hj; subst hj
      rw [Option.map_map]
      congr 1
      funext o
      exact h2 o
    · rfl
  · intro j
    unfold World.view
    rw [getElem?_modify']
    have e : ∀ o : CircObj R, o.read { w with circs := w.circs.modify i f } = o.read w := by
      intro o
      exact read_congr rfl rfl fun _ _ => rfl
    split
    · rename_i hj; subst hj
      rw [Option.map_map, Option.map_map]
      congr 1
      funext o
      simp only [Function.comp]
      rw [e, h3]
    · congr 1

/-- Appending a moment that no circuit refers to. -/
theorem upd_append {w : World R} (h : w.WF) {i m : Nat} {o : CircObj R} (ho : w.circs[i]? = some o)
    (hf : w.Fresh m) :
    Upd i w { w with refs := w.refs.modify o.opflow (· ++ [m]) } (fun c =>
      { c with flow := { c.flow with moments := c.flow.moments ++ [w.moms.getD m []] } }) := by
  have hlt := h.opf i o ho
  have own : (w.refs.modify o.opflow (· ++ [m])).getD o.opflow [] = w.refs.getD o.opflow [] ++ [m] := by
    rw [getD_modify, if_pos ⟨rfl, hlt⟩]
  have other : ∀ (j : Nat) (o' : CircObj R), w.circs[j]? = some o' → j ≠ i →
      (w.refs.modify o.opflow (· ++ [m])).getD o'.opflow [] = w.refs.getD o'.opflow [] := by
    intro j o' ho' hj
    rw [getD_modify, if_neg]
    rintro ⟨e, _⟩
    exact hj (h.inj j i o' o ho' ho e.symm)
  have same : ∀ {j : Nat} {o' : CircObj R}, w.circs[j]? = some o' → j = i → o' = o := by
    rintro j o' ho' rfl
    rw [ho] at ho'
    exact (Option.some.inj ho').symm
  have memOf : ∀ (j : Nat) (o' : CircObj R) (x : Nat), w.circs[j]? = some o' →
      x ∈ (w.refs.modify o.opflow (· ++ [m])).getD o'.opflow [] →
      x ∈ w.refs.getD o'.opflow [] ∨ (j = i ∧ x = m) := by
    intro j o' x ho' hx
    by_cases hj : j = i
    · have := same ho' hj
      subst this
      rw [own] at hx
      rcases List.mem_append.1 hx with hx | hx
      · exact .inl hx
      · exact .inr ⟨hj, List.mem_singleton.1 hx⟩
    · rw [other j o' ho' hj] at hx
      exact .inl hx
  refine ⟨⟨?_, h.inj, ?_, ?_, ?_⟩, rfl, rfl, ?_⟩
  · intro j o' ho'
    simp only [List.length_modify]
    exact h.opf j o' ho'
  · intro j o' ho' x hx
    rcases memOf j o' x ho' hx with hx | ⟨_, rfl⟩
    · exact h.mem j o' ho' x hx
    · exact hf.1
  · intro j j' o1 o2 x h1 h2 hid hx1 hx2
    rcases memOf j o1 x h1 hx1 with a | ⟨a, rfl⟩
    · rcases memOf j' o2 x h2 hx2 with b | ⟨b, rfl⟩
      · exact h.sep j j' o1 o2 x h1 h2 hid a b
      · exact absurd a (hf.2 hid j o1 h1)
    · rcases memOf j' o2 x h2 hx2 with b | ⟨b, _⟩
      · exact absurd b (hf.2 hid j' o2 h2)
      · rw [a, b]
  · intro j o' ho'
    by_cases hj : j = i
    · have := same ho' hj
      subst this
      simp only [own, List.filter_append]
      refine List.nodup_append.2 ⟨h.nodup j o' ho', List.Nodup.filter _ (by simp), ?_⟩
      intro a ha b hb
      rw [List.mem_filter] at ha hb
      rw [List.mem_singleton.1 hb.1]
      rintro rfl
      exact hf.2 ha.2 j o' ho' ha.1
    · simp only [other j o' ho' hj]
      exact h.nodup j o' ho'
  · intro j
    unfold World.view
    by_cases hj : j = i
    · subst hj
      simp only [ho, if_true, Option.map_some]
      congr 1
      unfold CircObj.read
      have e : o.regs.read { w with refs := w.refs.modify o.opflow (· ++ [m]) } = o.regs.read w := by
        cases o.regs <;> rfl
      rw [e]
      simp only [own, List.map_append, List.map_cons, List.map_nil]
    · rw [if_neg hj]
      cases ho' : w.circs[j]? with
      | none => rfl
      | some o' =>
        simp only [Option.map_some]
        congr 1
        exact read_congr rfl (other j o' ho' hj) fun _ _ => rfl

/-- Replacing an operator of the newest moment of a circuit. -/
theorem upd_setMoment {w : World R} (h : w.WF) {i last j : Nat} {o : CircObj R} {l : List Nat}
    (ho : w.circs[i]? = some o) (hl : w.refs.getD o.opflow [] = l ++ [last])
    (hid : idleIn (w.moms.getD last []) = true) (g : GateObj R) :
    Upd i w { w with moms := w.moms.modify last (·.set j g) } (fun c => { c with flow :=
      { c.flow with moments := c.flow.moments.dropLast ++ [(w.moms.getD last []).set j g] } }) := by
  have hlast : last ∈ w.refs.getD o.opflow [] := by rw [hl]; simp
  have hlt := h.mem i o ho last hlast
  have hnl : last ∉ l := by
    have := h.nodup i o ho
    rw [hl, List.filter_append] at this
    intro hm
    exact (List.nodup_append.1 this).2.2 last (List.mem_filter.2 ⟨hm, hid⟩) last
      (List.mem_filter.2 ⟨by simp, hid⟩) rfl
  have back : ∀ x, idleIn ((w.moms.modify last (·.set j g)).getD x []) = true →
      idleIn (w.moms.getD x []) = true := by
    intro x hx
    rw [getD_modify] at hx
    split at hx
    · rename_i hc
      rw [← hc.1]
      exact hid
    · exact hx
  refine ⟨⟨h.opf, h.inj, ?_, fun a b p p' x h1 h2 h3 => h.sep a b p p' x h1 h2 (back x h3), ?_⟩, rfl, rfl, ?_⟩
  · intro k o' ho' x hx
    simp only [List.length_modify]
    exact h.mem k o' ho' x hx
  · intro k o' ho'
    refine List.Nodup.sublist ?_ (h.nodup k o' ho')
    exact List.monotone_filter_right _ fun x hx => back x hx
  · intro k
    unfold World.view
    by_cases hk : k = i
    · subst hk
      simp only [ho, if_true, Option.map_some]
      congr 1
      unfold CircObj.read
      have e : o.regs.read { w with moms := w.moms.modify last (·.set j g) } = o.regs.read w := by
        cases o.regs <;> rfl
      rw [e]
      simp only [hl, List.map_append, List.map_cons, List.map_nil, List.dropLast_concat]
      congr 3
      · apply List.map_congr_left
        intro x hx
        rw [getD_modify, if_neg]
        rintro ⟨rfl, _⟩
        exact hnl hx
      · rw [getD_modify, if_pos ⟨rfl, hlt⟩]
    · rw [if_neg hk]
      cases ho' : w.circs[k]? with
      | none => rfl
      | some o' =>
        simp only [Option.map_some]
        congr 1
        refine read_congr rfl rfl fun x hx => ?_
        rw [getD_modify, if_neg]
        rintro ⟨rfl, _⟩
        exact hk (h.sep k i o' o _ ho' ho hid hx hlast)

/-! ### Adding a moment -/

theorem view_some {w : World R} {i : Nat} {o : CircObj R} (ho : w.circs[i]? = some o) :
    w.view i = some (o.read w) := by
  simp [World.view, ho]

theorem detectObj_eq (i m : Nat) (w : World R) :
    detectObj i m w = (.ok (), { w with circs := w.circs.modify i fun o =>
      { o with measCount := detectMeas o.measCount (w.moms.getD m []) } }) := by
  have key : ∀ (l : List (GateObj R × Nat)) (w : World R),
      (l.foldlM (fun _ gi =>
        if gi.1.isMeas then setCirc i fun o => { o with measCount := o.measCount.set gi.2 1 } else pure ())
        () : Act R Unit) w = (.ok (), { w with circs := w.circs.modify i fun o =>
          { o with measCount := l.foldl (fun mc gi => if gi.1.isMeas then mc.set gi.2 1 else mc) o.measCount } }) := by
    intro l
    induction l with
    | nil =>
      intro w
      simp only [List.foldlM_nil, List.foldl_nil, act_pure]
      rw [show (fun o : CircObj R => { o with measCount := o.measCount }) = id from rfl, List.modify_id]
    | cons a l ih =>
      intro w
      rw [List.foldlM_cons, act_bind]
      by_cases ha : a.1.isMeas = true
      · simp only [ha, if_true, setCirc, List.foldl_cons]
        rw [ih]
        simp only [List.modify_modify_eq]
        rfl
      · simp only [ha, List.foldl_cons, act_pure]
        exact ih w
  unfold detectObj
  rw [act_bind]
  exact key _ _

theorem appendObj_spec {w : World R} (h : w.WF) {i m : Nat} {o : CircObj R} (ho : w.circs[i]? = some o)
    (hf : w.Fresh m) :
    ∃ w', appendObj i m w = (.ok true, w') ∧
      Upd i w w' (fun c => { c with flow := c.flow.append (w.moms.getD m []) }) := by
  have u := (upd_append h ho hf).trans (upd_setCirc (upd_append h ho hf).wf i (fun o =>
      { o with measCount := detectMeas o.measCount (w.moms.getD m []) })
      (fun c => { c with flow := { c.flow with measCount := detectMeas c.flow.measCount (w.moms.getD m []) } })
      (fun _ => rfl) (fun _ => rfl) fun _ _ => rfl)
  refine ⟨_, ?_, u⟩
  unfold appendObj
  simp only [act_bind, circ, ho, setRefs]
  rw [detectObj_eq]
  rfl

theorem getLast?_map' {α β : Type} (l : List α) (f : α → β) : (l.map f).getLast? = l.getLast?.map f := by
  simp

theorem getQregMoment_mem {q : Int} {gs : List (GateObj R)} {n : Nat} {g : GateObj R} {j : Nat}
    (h : getQregMoment q gs n = .ok (some (g, j))) : g ∈ gs := by
  induction gs generalizing n with
  | nil => simp [getQregMoment] at h
  | cons a gs ih =>
    simp only [getQregMoment, bind, Except.bind] at h
    cases ha : a.actingOn with
    | error e => rw [ha] at h; simp at h
    | ok r =>
      rw [ha] at h
      cases r with
      | int q' =>
        simp only at h
        split at h
        · simp only [Except.ok.injEq, Option.some.injEq, Prod.mk.injEq] at h
          exact List.mem_cons.2 (.inl h.1.symm)
        · exact List.mem_cons_of_mem _ (ih h)
      | list qs =>
        simp only at h
        split at h
        · simp only [Except.ok.injEq, Option.some.injEq, Prod.mk.injEq] at h
          exact List.mem_cons.2 (.inl h.1.symm)
        · exact List.mem_cons_of_mem _ (ih h)

/-- Adding a moment acts on the object as on the value. -/
theorem populateObj_spec {w : World R} (h : w.WF) {i m : Nat} {o : CircObj R} (ho : w.circs[i]? = some o)
    (hf : w.Fresh m) :
    match (o.read w).flow.populate (w.moms.getD m []) with
    | .error e => populateObj i m w = (.error e, w)
    | .ok (f, b) => ∃ w', populateObj i m w = (.ok b, w') ∧ Upd i w w' (fun c => { c with flow := f }) := by
  have hmom : (o.read w).flow.moments = (w.refs.getD o.opflow []).map fun m => w.moms.getD m [] := rfl
  have hmc : (o.read w).flow.measCount = o.measCount := rfl
  have hv := view_some ho
  have app : ∃ w', appendObj i m w = (.ok true, w') ∧
      Upd i w w' (fun c => { c with flow := (o.read w).flow.append (w.moms.getD m []) }) := by
    obtain ⟨w', h1, h2⟩ := appendObj_spec h ho hf
    refine ⟨w', h1, h2.wf, h2.ints, h2.regs, fun j => ?_⟩
    rw [h2.view j, hv]
    rfl
  unfold populateObj Flow.populate
  simp only [act_bind, circ, ho, momentList, refList]
  rw [hmom, getLast?_map']
  cases hl : (w.refs.getD o.opflow []).getLast? with
  | none =>
    simp only [Option.map_none, act_bind, setCirc]
    have hnil : w.refs.getD o.opflow [] = [] := List.getLast?_eq_none_iff.1 hl
    have u1 := upd_setCirc h i (fun o => { o with measCount := List.replicate (w.moms.getD m []).length 0 })
      (fun c => { c with flow := { c.flow with measCount := List.replicate (w.moms.getD m []).length 0 } })
      (fun _ => rfl) (fun _ => rfl) fun _ _ => rfl
    have ho1 : (w.circs.modify i fun o => { o with measCount := List.replicate (w.moms.getD m []).length 0 })[i]?
        = some { o with measCount := List.replicate (w.moms.getD m []).length 0 } := by
      rw [getElem?_modify', if_pos rfl, ho]
      rfl
    have hf1 : World.Fresh { w with circs := w.circs.modify i fun o =>
        { o with measCount := List.replicate (w.moms.getD m []).length 0 } } m := by
      refine ⟨hf.1, fun hid j o' ho' => ?_⟩
      simp only [getElem?_modify'] at ho'
      split at ho'
      · rw [ho] at ho'
        cases ho'
        exact hf.2 hid i o ho
      · exact hf.2 hid j o' ho'
    obtain ⟨w', h1, h2⟩ := appendObj_spec u1.wf ho1 hf1
    refine ⟨w', h1, ?_⟩
    have u := u1.trans h2
    refine ⟨u.wf, u.ints, u.regs, fun j => ?_⟩
    rw [u.view j, hv]
    have e : (o.read w).flow.moments = [] := by rw [hmom, hnil]; rfl
    simp only [Option.map_some, Function.comp, Flow.append, e, List.nil_append]
  | some last =>
    obtain ⟨l, hll⟩ := List.getLast?_eq_some_iff.1 hl
    simp only [Option.map_some, hmc]
    by_cases hall : (o.measCount.all (· ≠ 0)) = true
    · simp only [hall, if_true, act_pure]
      refine ⟨w, rfl, h, rfl, rfl, fun j => ?_⟩
      by_cases hj : j = i
      · subst hj; rw [hv, if_pos rfl]; rfl
      · rw [if_neg hj]
    · simp only [hall, Bool.false_eq_true, if_false]
      cases hg : (w.moms.getD m []).find? (·.isHXZ) with
      | none => exact app
      | some g =>
        simp only [act_bind, momentList, Act.lift]
        cases hact : g.actingOn with
        | error e => simp only [error_bind]
        | ok acting =>
          simp only [ok_bind]
          have rest : ∀ (q : Int) (gq : List Int),
              match (if gq.all (· ∈ identRegs (w.moms.getD last [])) then do
                  let r ← replaceIgate (w.moms.getD last []) q g
                  if r.2 then .ok ({ (o.read w).flow with moments := ((w.refs.getD o.opflow []).map
                    fun m => w.moms.getD m []).dropLast ++ [r.1] }, true)
                  else .ok ((o.read w).flow.append (w.moms.getD m []), true)
                else .ok ((o.read w).flow.append (w.moms.getD m []), true) : PyM (Flow R × Bool)) with
              | .error e => (if gq.all (· ∈ identRegs (w.moms.getD last [])) then do
                  let added ← replaceObj last q g
                  if added then pure true else appendObj i m
                else appendObj i m : Act R Bool) w = (.error e, w)
              | .ok (f, b) => ∃ w', (if gq.all (· ∈ identRegs (w.moms.getD last [])) then do
                  let added ← replaceObj last q g
                  if added then pure true else appendObj i m
                else appendObj i m : Act R Bool) w = (.ok b, w') ∧
                  Upd i w w' (fun c => { c with flow := f }) := by
            intro q gq
            by_cases hid : (gq.all (· ∈ identRegs (w.moms.getD last []))) = true
            · simp only [hid, if_true, act_bind]
              unfold replaceObj replaceIgate
              simp only [act_bind, momentList, Act.lift]
              cases hget : getQregMoment q (w.moms.getD last []) 0 with
              | error e => simp only [error_bind]
              | ok r =>
                cases r with
                | none => simp only [ok_bind, error_bind, Act.raise]
                | some gj =>
                  obtain ⟨g', j⟩ := gj
                  simp only [ok_bind]
                  by_cases hi : g'.isIdent = true
                  · simp only [hi, if_true, act_bind, setMoment, act_pure, ok_bind]
                    refine ⟨_, rfl, ?_⟩
                    have hidle : idleIn (w.moms.getD last []) = true :=
                      List.any_eq_true.2 ⟨g', getQregMoment_mem hget, hi⟩
                    have u := upd_setMoment h ho hll hidle (j := j) g
                    refine ⟨u.wf, u.ints, u.regs, fun k => ?_⟩
                    rw [u.view k, hv]
                    simp only [Option.map_some, hmom, hmc]
                  · simp only [hi, act_pure, ok_bind, Bool.false_eq_true, if_false]
                    exact app
            · simp only [hid, Bool.false_eq_true, if_false]
              exact app
          cases acting with
          | int q => exact rest q [q]
          | list qs => exact rest 0 qs


/-! ### Methods -/

/-- The statement `x` does to the circuit at address `i` what `y` does to its value. -/
def SimAt {α : Type} (i : Nat) (w : World R) (x : Act R α) (y : PyM (Circuit R × α)) : Prop :=
  match y with
  | .error e => ∃ w', x w = (.error e, w') ∧ Same w w'
  | .ok (c', b) => ∃ w', x w = (.ok b, w') ∧ Upd i w w' fun _ => c'

theorem look_eq {α : Type} {w : World R} {i : Nat} {o : CircObj R} (ho : w.circs[i]? = some o)
    (f : Circuit R → PyM α) : look i f w = (f (o.read w), w) := by
  simp only [look, view_some ho]

theorem simAt_look {α β : Type} {w : World R} (h : w.WF) {i : Nat} {o : CircObj R} (ho : w.circs[i]? = some o)
    {f : Circuit R → PyM α} {x : α → Act R β} {y : α → PyM (Circuit R × β)}
    (hs : ∀ a, f (o.read w) = .ok a → SimAt i w (x a) (y a)) :
    SimAt i w (look i f >>= x) (f (o.read w) >>= y) := by
  unfold SimAt
  rw [act_bind, look_eq ho]
  cases hf : f (o.read w) with
  | error e => exact ⟨w, rfl, Same.refl h⟩
  | ok a => exact hs a hf

theorem simAt_map {α β : Type} {w : World R} {i : Nat} {x : Act R α} {y : PyM (Circuit R × α)}
    (hs : SimAt i w x y) (b : β) :
    SimAt i w (x >>= fun _ => pure b) (y >>= fun r => .ok (r.1, b)) := by
  unfold SimAt at *
  rw [act_bind]
  cases y with
  | error e =>
    obtain ⟨w', h1, h2⟩ := hs
    exact ⟨w', by rw [h1], h2⟩
  | ok r =>
    obtain ⟨w', h1, h2⟩ := hs
    exact ⟨w', by rw [h1]; rfl, h2⟩

theorem populateNew_sim {w : World R} (h : w.WF) {i : Nat} {o : CircObj R} (ho : w.circs[i]? = some o)
    (data : List (GateObj R)) :
    SimAt i w (newMoment data >>= fun m => populateObj i m)
      ((o.read w).flow.populate data >>= fun r => .ok ({ o.read w with flow := r.1 }, r.2)) := by
  have hs := same_newMoment h data
  have hf := fresh_newMoment h data
  have hp := populateObj_spec hs.wf (o := o) (i := i) ho hf
  have e : o.read { w with moms := w.moms ++ [data] } = o.read w := by
    have := hs.view i
    rw [view_some ho, view_some (w := { w with moms := w.moms ++ [data] }) (o := o) ho] at this
    exact Option.some.inj this
  have e2 : (w.moms ++ [data]).getD w.moms.length [] = data := getD_length _ _ _
  simp only [e, e2] at hp
  unfold SimAt
  rw [act_bind]
  simp only [newMoment]
  cases hpop : (o.read w).flow.populate data with
  | error e =>
    rw [hpop] at hp
    exact ⟨_, hp, hs⟩
  | ok r =>
    rw [hpop] at hp
    obtain ⟨w', h1, h2⟩ := hp
    refine ⟨w', h1, ?_⟩
    have u := hs.upd h2
    refine ⟨u.wf, u.ints, u.regs, fun j => ?_⟩
    rw [u.view, view_some ho]
    rfl

theorem addMomentObj_sim {w : World R} (h : w.WF) {i : Nat} {o : CircObj R} (ho : w.circs[i]? = some o)
    (q : RegArg) (g : GateObj R) : SimAt i w (addMomentObj i q g) ((o.read w).addMoment q g) := by
  unfold addMomentObj Circuit.addMoment
  exact simAt_look h ho fun data _ => populateNew_sim h ho data

variable [CommRing R]

/-- Every method does to the object what `Circuit.callM` does to the value. -/
theorem callObj_sim {w : World R} (h : w.WF) {i : Nat} {o : CircObj R} (ho : w.circs[i]? = some o)
    (k : Call R) : SimAt i w (callObj i k) ((o.read w).callM k) := by
  cases k with
  | h q dims =>
    exact simAt_look h ho fun _ _ => simAt_look h ho fun _ _ => addMomentObj_sim h ho _ _
  | x q dims p =>
    exact simAt_look h ho fun _ _ => simAt_look h ho fun _ _ => addMomentObj_sim h ho _ _
  | z q dims =>
    exact simAt_look h ho fun _ _ => simAt_look h ho fun _ _ => addMomentObj_sim h ho _ _
  | cx c t p =>
    exact simAt_look h ho (f := fun c' => .ok (if c < t then pySlice c'.regDims c (t + 1)
      else pySlice c'.regDims t (c + 1))) (y := fun active => (o.read w).addMoment (.list [c, t]) (.cx active c t p))
      fun a _ => addMomentObj_sim h ho _ _
  | toffoli cs t p =>
    exact simAt_look h ho fun r _ => simAt_map (addMomentObj_sim h ho _ _) true
  | gate U q dims =>
    cases q with
    | int q => exact simAt_look h ho fun _ _ => simAt_look h ho fun _ _ => addMomentObj_sim h ho _ _
    | list qs =>
      refine simAt_look h ho fun _ _ => ?_
      rcases dims with _ | _ | k
      · exact simAt_look h ho (y := fun l => (o.read w).addMoment (.list qs) (.arb (.list qs) (.list l) U))
          fun _ _ => addMomentObj_sim h ho _ _
      · exact simAt_look h ho (y := fun l => (o.read w).addMoment (.list qs) (.arb (.list qs) (.list l) U))
          fun _ _ => addMomentObj_sim h ho _ _
      · exact addMomentObj_sim h ho _ _
  | measure q => exact ⟨w, rfl, Same.refl h⟩
  | measureAll =>
    have hs := populateNew_sim h ho ((List.range o.regLength).map .meas)
    unfold callObj Circuit.callM
    unfold SimAt at hs ⊢
    simp only [act_bind, circ, ho] at hs ⊢
    have e : (o.read w).regLength = o.regLength := rfl
    rw [e]
    cases hp : (o.read w).flow.populate ((List.range o.regLength).map .meas) with
    | error e =>
      rw [hp] at hs
      obtain ⟨w', h1, h2⟩ := hs
      refine ⟨w', ?_, h2⟩
      simp only [newMoment] at h1 ⊢
      rw [h1]
    | ok r =>
      rw [hp] at hs
      obtain ⟨w', h1, h2⟩ := hs
      refine ⟨w', ?_, h2⟩
      simp only [newMoment] at h1 ⊢
      rw [h1]
      rfl

/-! ### Execution -/

variable [StarRing R] [DecidableEq R] [UnitaryCheck R]

theorem loopObj_eq (N : Numerics R) (B : Backend R) (w : World R) (ms : List Nat) (acc : Option B.M) :
    loopObj N B ms acc w = (flowLoop N B (ms.map fun m => w.moms.getD m []) acc, w) := by
  induction ms generalizing acc with
  | nil => rfl
  | cons m ms ih =>
    rw [List.map_cons]
    unfold loopObj flowLoop
    simp only [act_bind, momentList, Act.lift]
    cases momentExec N B (w.moms.getD m []) with
    | error e => rfl
    | ok k =>
      cases acc with
      | none => exact ih (some k)
      | some d =>
        simp only [act_bind, ok_bind, Act.lift]
        cases B.dot d k with
        | error e => rfl
        | ok p => exact ih (some p)

theorem execObj_sim (N : Numerics R) (B : Backend R) {w : World R} (h : w.WF) {i : Nat} {o : CircObj R}
    (ho : w.circs[i]? = some o) :
    ∃ w', execObj N B i w = ((o.read w).flow.exec N B, w') ∧ Same w w' := by
  have s1 := same_newRefs h (w.refs.getD o.opflow [])
  have s2 : Same w { w with refs := (w.refs ++ [w.refs.getD o.opflow []]).modify w.refs.length List.dropLast } := by
    refine s1.trans (same_setRefs s1.wf ?_ List.dropLast)
    intro j o' ho'
    exact Nat.ne_of_lt (h.opf j o' ho')
  unfold execObj Flow.exec
  simp only [act_bind, circ, ho, refList, newRefs]
  have hmc : (o.read w).flow.measCount = o.measCount := rfl
  have hmom : (o.read w).flow.moments = (w.refs.getD o.opflow []).map fun m => w.moms.getD m [] := rfl
  rw [hmc, hmom]
  by_cases hall : (o.measCount.all (· ≠ 0)) = true
  · simp only [hall, if_true, act_bind, refList, getD_length]
    by_cases he : (w.refs.getD o.opflow []).isEmpty = true
    · have he' : ((w.refs.getD o.opflow []).map fun m => w.moms.getD m []).isEmpty = true := by
        rw [List.isEmpty_iff] at he ⊢
        rw [he]
        rfl
      refine ⟨_, ?_, s1⟩
      simp only [he, he', if_true, Act.raise]
    · have he' : ¬ ((w.refs.getD o.opflow []).map fun m => w.moms.getD m []).isEmpty = true := by
        rw [List.isEmpty_iff] at he ⊢
        simpa using he
      simp only [he, he', Bool.false_eq_true, if_false, act_bind, setRefs, refList]
      refine ⟨_, ?_, s2⟩
      rw [loopObj_eq]
      simp only [getD_modify, List.length_append, List.length_singleton, getD_length]
      rw [if_pos (by simp), List.map_reverse, List.map_dropLast]
  · refine ⟨_, ?_, s1⟩
    simp only [hall, Bool.false_eq_true, if_false, Act.raise]

/-- `run()` does to the object what `Circuit.run` does to the value. -/
theorem runObj_sim (N : Numerics R) (B : Backend R) {w : World R} (h : w.WF) {i : Nat} {o : CircObj R}
    (ho : w.circs[i]? = some o) :
    ∃ w', runObj N B i w = (((o.read w).run N B).2, w') ∧ Upd i w w' fun _ => ((o.read w).run N B).1 := by
  obtain ⟨w1, h1, h2⟩ := execObj_sim N B h ho
  have hv : w1.view i = some (o.read w) := by rw [h2.view, view_some ho]
  have keep : ∀ j, w1.view j = if j = i then (w.view i).map (fun _ => o.read w) else w.view j := by
    intro j
    rw [h2.view]
    by_cases hj : j = i
    · subst hj; rw [if_pos rfl, view_some ho]; rfl
    · rw [if_neg hj]
  unfold runObj Circuit.run Circuit.runResult
  simp only [act_bind, h1]
  cases he : (o.read w).flow.exec N B with
  | error e => exact ⟨w1, rfl, h2.wf, h2.ints, h2.regs, keep⟩
  | ok r =>
    cases r with
    | none => exact ⟨w1, rfl, h2.wf, h2.ints, h2.regs, keep⟩
    | some m =>
      simp only [act_bind, ok_bind, look, hv]
      cases hc : (o.read w).output.call (B.toarray m) with
      | error e => exact ⟨w1, rfl, h2.wf, h2.ints, h2.regs, keep⟩
      | ok r =>
        simp only [setCirc, act_pure]
        refine ⟨_, rfl, ?_⟩
        have u := h2.upd (upd_setCirc h2.wf i (fun o => { o with circuitOutput := some r })
          (fun c => { c with circuitOutput := some r }) (fun _ => rfl) (fun _ => rfl) fun _ _ => rfl)
        refine ⟨u.wf, u.ints, u.regs, fun j => ?_⟩
        rw [u.view, view_some ho]
        rfl

/-! ### Construction -/

theorem modify_of_ge {α : Type} (l : List α) (i : Nat) (f : α → α) (h : l.length ≤ i) : l.modify i f = l := by
  apply List.ext_getElem?
  intro j
  rw [getElem?_modify']
  split
  · rename_i hj
    subst hj
    simp [h]
  · rfl

/-- The memory after the constructor's `extend`, and the circuits that do not use the list as registers. -/
theorem upd_extend {w : World R} (h : w.WF) {a : Nat} (f : List Int → List Int)
    (ha : .list a ∉ w.regs) :
    World.WF { w with ints := w.ints.modify a f } ∧
      ∀ j, World.view { w with ints := w.ints.modify a f } j = w.view j := by
  refine ⟨⟨h.opf, h.inj, h.mem, h.sep, h.nodup⟩, fun j => ?_⟩
  unfold World.view
  cases ho : w.circs[j]? with
  | none => simp only [Option.map_none]
  | some o =>
    simp only [Option.map_some]
    congr 1
    have e : o.regs.read { w with ints := w.ints.modify a f } = o.regs.read w := by
      cases hr : o.regs with
      | tuple n d => rfl
      | list b =>
        simp only [RegsRef.read]
        rw [getD_modify, if_neg]
        rintro ⟨rfl, _⟩
        apply ha
        unfold World.regs
        rw [← hr]
        exact List.mem_map_of_mem (List.mem_of_getElem? ho)
    unfold CircObj.read
    rw [e]

/-- The register argument as a value. -/
def RegsRef.val (ints : List (List Int)) : RegsRef → RegsArg
  | .tuple n d => .tuple n d
  | .list a => .list (ints.getD a [])

/-- The `init_states` argument as a value. -/
def initVal (ints : List (List Int)) (init : Option Nat) : List Int :=
  match init with
  | none => []
  | some a => ints.getD a []

/-- The caller's lists after the constructor. -/
def intsAfter (n : Nat) (ints : List (List Int)) (init : Option Nat) : List (List Int) :=
  match init with
  | none => ints
  | some a => ints.modify a (callerStatesAfter n)

/-- The part of the constructor after the `extend`. -/
def newCore (q : RegsRef) (out : Option Output) (dims states : List Int) : Act R Nat := do
  let gs ← Act.lift (initMoment dims states)
  let f ← newRefs []
  let i ← newCirc ⟨q, dims.length, f, [0], out, none⟩
  let m ← newMoment gs
  let _ ← populateObj i m
  pure i

omit [CommRing R] [StarRing R] [DecidableEq R] [UnitaryCheck R] in
/-- A new circuit object with an empty list of moments. -/
theorem push_wf {w : World R} (h : w.WF) (o : CircObj R) (ho : o.opflow = w.refs.length) :
    World.WF { w with refs := w.refs ++ [[]], circs := w.circs ++ [o] } ∧
      ∀ j < w.circs.length,
        World.view { w with refs := w.refs ++ [[]], circs := w.circs ++ [o] } j = w.view j := by
  have own : (w.refs ++ [[]]).getD o.opflow [] = [] := by rw [ho, getD_length]
  have key : ∀ (j : Nat) (p : CircObj R), (w.circs ++ [o])[j]? = some p →
      (w.circs[j]? = some p ∧ (w.refs ++ [[]]).getD p.opflow [] = w.refs.getD p.opflow []
        ∧ p.opflow < w.refs.length) ∨ (j = w.circs.length ∧ p = o) := by
    intro j p hp
    by_cases hj : j < w.circs.length
    · rw [List.getElem?_append_left hj] at hp
      exact .inl ⟨hp, getD_append_left' (h.opf j p hp) _ _, h.opf j p hp⟩
    · right
      have hlt : j < (w.circs ++ [o]).length := (List.getElem?_eq_some_iff.1 hp).1
      rw [List.length_append, List.length_singleton] at hlt
      have : j = w.circs.length := by omega
      subst this
      simp at hp
      exact ⟨rfl, hp.symm⟩
  refine ⟨⟨?_, ?_, ?_, ?_, ?_⟩, ?_⟩
  · intro j p hp
    simp only [List.length_append, List.length_singleton]
    rcases key j p hp with ⟨_, _, h1⟩ | ⟨_, rfl⟩ <;> omega
  · intro i j p p' hp hp' e
    rcases key i p hp with ⟨a1, _, a3⟩ | ⟨rfl, rfl⟩ <;> rcases key j p' hp' with ⟨b1, _, b3⟩ | ⟨rfl, rfl⟩
    · exact h.inj i j p p' a1 b1 e
    · omega
    · omega
    · rfl
  · intro j p hp m hm
    rcases key j p hp with ⟨a1, a2, a3⟩ | ⟨rfl, rfl⟩
    · simp only [a2] at hm
      exact h.mem j p a1 m hm
    · simp only [own] at hm
      cases hm
  · intro i j p p' m hp hp' hid hm hm'
    rcases key i p hp with ⟨a1, a2, a3⟩ | ⟨rfl, rfl⟩ <;> rcases key j p' hp' with ⟨b1, b2, b3⟩ | ⟨rfl, rfl⟩
    · simp only [a2] at hm
      simp only [b2] at hm'
      exact h.sep i j p p' m a1 b1 hid hm hm'
    · simp only [own] at hm'
      cases hm'
    · simp only [own] at hm
      cases hm
    · rfl
  · intro j p hp
    rcases key j p hp with ⟨a1, a2, a3⟩ | ⟨rfl, rfl⟩
    · simp only [a2]
      exact h.nodup j p a1
    · simp only [own, List.filter_nil]
      exact List.nodup_nil
  · intro j hj
    unfold World.view
    simp only [List.getElem?_append_left hj]
    cases hp : w.circs[j]? with
    | none => rfl
    | some p =>
      simp only [Option.map_some]
      congr 1
      exact read_congr rfl (getD_append_left' (h.opf j p hp) _ _) fun _ _ => rfl

theorem newCore_sim {w : World R} (h : w.WF) (q : RegsRef) (out : Option Output) (states : List Int) :
    (newCore q out (q.read w).dims states w).2.ints = w.ints ∧
    (newCore q out (q.read w).dims states w).2.WF ∧
    (∀ j < w.circs.length, (newCore q out (q.read w).dims states w).2.view j = w.view j) ∧
    match initMoment (R := R) (q.read w).dims states with
    | .error e => (newCore q out (q.read w).dims states w).1 = .error e ∧
        (newCore q out (q.read w).dims states w).2.regs = w.regs
    | .ok gs => (newCore q out (q.read w).dims states w).1 = .ok w.circs.length ∧
        (newCore q out (q.read w).dims states w).2.regs = w.regs ++ [q] ∧
        (newCore q out (q.read w).dims states w).2.view w.circs.length = some
          { qregs := (q.read w).toRegs, regLength := (q.read w).dims.length,
            regDims := (q.read w).dims.map Int.toNat,
            flow := { moments := [gs], measCount := detectMeas (List.replicate gs.length 0) gs },
            output := out.getD { base := (q.read w).toRegs.seq, type := .print, method := .amplitude } } := by
  cases hm : initMoment (R := R) (q.read w).dims states with
  | error e =>
    have e1 : newCore q out (q.read w).dims states w = (.error e, w) := by
      unfold newCore
      rw [hm]
      rfl
    rw [e1]
    exact ⟨rfl, h, fun _ _ => rfl, rfl, rfl⟩
  | ok gs =>
    let o : CircObj R := ⟨q, (q.read w).dims.length, w.refs.length, [0], out, none⟩
    let w1 : World R := { w with refs := w.refs ++ [[]], circs := w.circs ++ [o] }
    obtain ⟨hw1, hv1⟩ := push_wf h o rfl
    have ho1 : w1.circs[w.circs.length]? = some o := by simp [w1]
    have hr : o.read w1 = {
            qregs := (q.read w).toRegs, regLength := (q.read w).dims.length,
            regDims := (q.read w).dims.map Int.toNat, flow := { moments := [], measCount := [0] },
            output := out.getD { base := (q.read w).toRegs.seq, type := .print, method := .amplitude } } := by
      have e : o.regs.read w1 = q.read w := by
        change q.read w1 = q.read w
        cases q <;> rfl
      unfold CircObj.read
      rw [e]
      have e2 : w1.refs.getD o.opflow [] = [] := getD_length _ _ _
      rw [e2]
      rfl
    have hp := populateNew_sim hw1 ho1 gs
    rw [hr] at hp
    simp only [SimAt, Flow.populate, List.getLast?_nil, ok_bind] at hp
    obtain ⟨w', h1, h2⟩ := hp
    have e1 : newCore q out (q.read w).dims states w = (.ok w.circs.length, w') := by
      unfold newCore
      rw [hm]
      simp only [act_bind, Act.lift, newRefs, newCirc]
      rw [act_bind] at h1
      simp only [newMoment] at h1 ⊢
      rw [h1]
      rfl
    rw [e1]
    refine ⟨h2.ints, h2.wf, fun j hj => ?_, rfl, ?_, ?_⟩
    · rw [h2.view, if_neg (by omega)]
      exact hv1 j hj
    · rw [h2.regs]
      simp [World.regs, w1, o]
    · rw [h2.view, if_pos rfl, view_some ho1]
      rfl

/-- The constructor makes the circuit that `Circuit.new` describes, and leaves the caller's list as
`callerStatesAfter` says, whether or not it raises. -/
theorem newObj_sim {w : World R} (h : w.WF) {q : RegsRef} {init : Option Nat} {out : Option Output}
    (hs : ∀ a, init = some a → q ≠ .list a ∧ .list a ∉ w.regs) :
    (newObj q init out w).2.ints = intsAfter (q.val w.ints).dims.length w.ints init ∧
    (newObj q init out w).2.WF ∧
    (∀ j < w.circs.length, (newObj q init out w).2.view j = w.view j) ∧
    match Circuit.new (R := R) (q.val w.ints) (initVal w.ints init) out with
    | .error e => (newObj q init out w).1 = .error e ∧ (newObj q init out w).2.regs = w.regs
    | .ok c => (newObj q init out w).1 = .ok w.circs.length ∧
        (newObj q init out w).2.regs = w.regs ++ [q] ∧
        (newObj q init out w).2.view w.circs.length = some c := by
  have hread : ∀ w : World R, q.read w = q.val w.ints := by intro w; cases q <;> rfl
  have hnew : ∀ states, states = extendStates (q.val w.ints).dims.length (initVal w.ints init) →
      Circuit.new (R := R) (q.val w.ints) (initVal w.ints init) out =
        (initMoment (R := R) (q.val w.ints).dims states >>= fun gs => .ok
          { qregs := (q.val w.ints).toRegs, regLength := (q.val w.ints).dims.length,
            regDims := (q.val w.ints).dims.map Int.toNat,
            flow := { moments := [gs], measCount := detectMeas (List.replicate gs.length 0) gs },
            output := out.getD { base := (q.val w.ints).toRegs.seq, type := .print, method := .amplitude } }) := by
    rintro states rfl
    rfl
  -- the constructor is its `extend` followed by the rest
  have main : ∀ w0 : World R, w0.WF → w0.regs = w.regs → w0.circs.length = w.circs.length →
      w0.ints = intsAfter (q.val w.ints).dims.length w.ints init →
      (∀ j < w.circs.length, w0.view j = w.view j) → q.val w0.ints = q.val w.ints →
      newObj q init out w = newCore q out (q.read w0).dims
        (extendStates (q.val w.ints).dims.length (initVal w.ints init)) w0 →
      (newObj q init out w).2.ints = intsAfter (q.val w.ints).dims.length w.ints init ∧
      (newObj q init out w).2.WF ∧
      (∀ j < w.circs.length, (newObj q init out w).2.view j = w.view j) ∧
      match Circuit.new (R := R) (q.val w.ints) (initVal w.ints init) out with
      | .error e => (newObj q init out w).1 = .error e ∧ (newObj q init out w).2.regs = w.regs
      | .ok c => (newObj q init out w).1 = .ok w.circs.length ∧
          (newObj q init out w).2.regs = w.regs ++ [q] ∧
          (newObj q init out w).2.view w.circs.length = some c := by
    intro w0 hw0 hr0 hl0 hi0 hv0 hq0 hn
    have hc := newCore_sim hw0 q out (extendStates (q.val w.ints).dims.length (initVal w.ints init))
    rw [← hn] at hc
    rw [hread w0, hq0, hl0, hi0, hr0] at hc
    obtain ⟨c1, c2, c3, c4⟩ := hc
    refine ⟨c1, c2, fun j hj => (c3 j hj).trans (hv0 j hj), ?_⟩
    rw [hnew _ rfl]
    cases hm : initMoment (R := R) (q.val w.ints).dims
        (extendStates (q.val w.ints).dims.length (initVal w.ints init)) with
    | error e => rw [hm] at c4; exact c4
    | ok gs => rw [hm] at c4; exact c4
  cases init with
  | none =>
    exact main w h rfl rfl rfl (fun _ _ => rfl) rfl (by rw [hread w]; unfold newObj newCore; rw [← hread w]; rfl)
  | some a =>
    obtain ⟨hqa, hra⟩ := hs a rfl
    cases hg : w.ints.getD a [] with
    | nil =>
      refine main w h rfl rfl ?_ (fun _ _ => rfl) rfl ?_
      · unfold intsAfter
        apply List.ext_getElem?
        intro j
        rw [getElem?_modify']
        split
        · rename_i hj
          subst hj
          cases hj : w.ints[j]? with
          | none => rfl
          | some l =>
            rw [List.getD_eq_getElem?_getD, hj] at hg
            simp only [Option.getD_some] at hg
            rw [hg]
            rfl
        · rfl
      · unfold newObj newCore initVal
        simp only [act_bind, readDims, intList, hg]
        rw [hread w]
        rfl
    | cons b l =>
      have e : w.ints.modify a (callerStatesAfter (q.val w.ints).dims.length) = w.ints.modify a
          (· ++ List.replicate ((q.val w.ints).dims.length - (b :: l).length) 0) := by
        apply List.ext_getElem?
        intro j
        rw [getElem?_modify', getElem?_modify']
        split
        · rename_i hj
          subst hj
          cases hj : w.ints[j]? with
          | none => rfl
          | some l' =>
            rw [List.getD_eq_getElem?_getD, hj] at hg
            simp only [Option.getD_some] at hg
            rw [hg]
            rfl
        · rfl
      obtain ⟨u1, u2⟩ := upd_extend h (· ++ List.replicate ((q.val w.ints).dims.length - (b :: l).length) 0) hra
      refine main { w with
          ints := w.ints.modify a (· ++ List.replicate ((q.val w.ints).dims.length - (b :: l).length) 0) } u1 rfl rfl ?_
        (fun j _ => u2 j) ?_ ?_
      · exact e.symm
      · cases q with
        | tuple n d => rfl
        | list b' =>
          simp only [RegsRef.val]
          rw [getD_modify, if_neg]
          rintro ⟨rfl, _⟩
          exact hqa rfl
      · unfold newObj newCore initVal
        simp only [act_bind, readDims, intList, hg, extendInts]
        rw [hread w]
        rfl

end
end QuDiet
