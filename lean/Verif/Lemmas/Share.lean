import Verif.Share
import Verif.Lemmas.Objects

/-! # Layers as objects behave as values -/

namespace QuDiet

section
variable {R : Type}

/-! ### What is left alone -/

/-- No list object refers to the moment. -/
def World.Unref (w : World R) (m : Nat) : Prop := ∀ l ∈ w.refs, m ∉ l

/-- Every list object refers to existing moments. -/
def World.Bound (w : World R) : Prop := ∀ l ∈ w.refs, ∀ m ∈ l, m < w.moms.length

/-- Moments with `P` that nothing refers to stay so and keep their contents; moments without identity
operators keep their contents. -/
structure Kept (P : Nat → Prop) (w w' : World R) : Prop where
  len : w.moms.length ≤ w'.moms.length
  unref : ∀ m, P m → w.Unref m → w'.Unref m ∧ (m < w.moms.length → w'.moms.getD m [] = w.moms.getD m [])
  full : ∀ m < w.moms.length, idleIn (w.moms.getD m []) = false → w'.moms.getD m [] = w.moms.getD m []
  bound : w.Bound → w'.Bound

theorem Kept.refl (P : Nat → Prop) (w : World R) : Kept P w w :=
  ⟨le_refl _, fun _ _ h => ⟨h, fun _ => rfl⟩, fun _ _ _ => rfl, id⟩

theorem Kept.trans {P : Nat → Prop} {w w' w'' : World R} (h : Kept P w w') (h' : Kept P w' w'') :
    Kept P w w'' := by
  refine ⟨h.len.trans h'.len, fun m hp hu => ?_, fun m hm hi => ?_, fun hb => h'.bound (h.bound hb)⟩
  · obtain ⟨a, b⟩ := h.unref m hp hu
    obtain ⟨a', b'⟩ := h'.unref m hp a
    exact ⟨a', fun hm => (b' (lt_of_lt_of_le hm h.len)).trans (b hm)⟩
  · have e := h.full m hm hi
    rw [h'.full m (lt_of_lt_of_le hm h.len) (by rw [e]; exact hi), e]

theorem kept_of {P : Nat → Prop} {w w' : World R} (hm : w'.moms = w.moms)
    (hr : ∀ l ∈ w'.refs, ∀ m ∈ l, (∃ l' ∈ w.refs, m ∈ l') ∨ ¬ P m ∧ m < w.moms.length) : Kept P w w' := by
  refine ⟨by rw [hm], fun m hp hu => ⟨fun l hl hml => ?_, fun _ => by rw [hm]⟩, fun m _ _ => by rw [hm], ?_⟩
  · rcases hr l hl m hml with ⟨l', h1, h2⟩ | ⟨h1, _⟩
    · exact hu l' h1 h2
    · exact h1 hp
  · intro hb l hl m hml
    rw [hm]
    rcases hr l hl m hml with ⟨l', h1, h2⟩ | ⟨_, h1⟩
    · exact hb l' h1 m h2
    · exact h1

theorem kept_same {P : Nat → Prop} {w w' : World R} (hm : w'.moms = w.moms) (hr : w'.refs = w.refs) :
    Kept P w w' :=
  kept_of hm fun l hl m hml => .inl ⟨l, by rw [← hr]; exact hl, hml⟩

theorem kept_moment (P : Nat → Prop) (w : World R) (gs : List (GateObj R)) :
    Kept P w { w with moms := w.moms ++ [gs] } :=
  ⟨by simp, fun _ _ hu => ⟨hu, fun hm => getD_append_left' hm _ _⟩, fun _ hm _ => getD_append_left' hm _ _,
    fun hb l hl m hm => lt_of_lt_of_le (hb l hl m hm) (by simp)⟩

/-- The statement leaves alone the moments with `P`, if there are at least `L` moments. -/
def Keeps {α : Type} (P : Nat → Prop) (L : Nat) (x : Act R α) : Prop :=
  ∀ w, (∀ m, P m → m < w.moms.length) → L ≤ w.moms.length → Kept P w (x w).2

section
variable {P : Nat → Prop} {L : Nat} {α β : Type}

theorem keeps_pure (a : α) : Keeps P L (pure a : Act R α) := fun w _ _ => Kept.refl P w

theorem keeps_const {x : Act R α} (h : ∀ w, (x w).2 = w) : Keeps P L x := fun w _ _ => by
  rw [h]
  exact Kept.refl P w

theorem keeps_same {x : Act R α} (h : ∀ w, (x w).2.moms = w.moms ∧ (x w).2.refs = w.refs) : Keeps P L x :=
  fun w _ _ => kept_same (h w).1 (h w).2

theorem keeps_bind {x : Act R α} {f : α → Act R β} (hx : Keeps P L x) (hf : ∀ a, Keeps P L (f a)) :
    Keeps P L (x >>= f) := by
  intro w hw hL
  have h1 := hx w hw hL
  rw [act_bind]
  cases hr : x w with
  | mk r w' =>
    rw [hr] at h1
    cases r with
    | error e => exact h1
    | ok a => exact h1.trans (hf a w' (fun m hm => lt_of_lt_of_le (hw m hm) h1.len) (hL.trans h1.len))

theorem keeps_look (i : Nat) (f : Circuit R → PyM α) : Keeps P L (look i f) :=
  keeps_const fun w => by
    unfold look
    cases w.view i <;> rfl

theorem keeps_circ (i : Nat) : Keeps P L (circ (R := R) i) :=
  keeps_const fun w => by
    unfold circ
    cases w.circs[i]? <;> rfl

theorem keeps_setCirc (i : Nat) (f : CircObj R → CircObj R) : Keeps P L (setCirc i f) :=
  keeps_same fun _ => ⟨rfl, rfl⟩

theorem keeps_lift (x : PyM α) : Keeps P L (Act.lift x : Act R α) := keeps_const fun _ => rfl

theorem keeps_raise (e : Err) : Keeps P L (Act.raise e : Act R α) := keeps_const fun _ => rfl

theorem keeps_setRefs (a : Nat) {m : Nat} (hm : ¬ P m) (hL : m < L) :
    Keeps P L (setRefs (R := R) a (· ++ [m])) := by
  intro w _ hw
  refine kept_of rfl fun l hl x hx => ?_
  simp only [setRefs] at hl
  obtain ⟨j, hj⟩ := List.getElem?_of_mem hl
  rw [getElem?_modify'] at hj
  split at hj
  · rw [Option.map_eq_some_iff] at hj
    obtain ⟨l', h1, rfl⟩ := hj
    rcases List.mem_append.1 hx with hx | hx
    · exact .inl ⟨l', List.mem_of_getElem? h1, hx⟩
    · rw [List.mem_singleton.1 hx]
      exact .inr ⟨hm, lt_of_lt_of_le hL hw⟩
  · exact .inl ⟨l, List.mem_of_getElem? hj, hx⟩

theorem keeps_newMoment {gs : List (GateObj R)} {f : Nat → Act R α} (h : ∀ m, ¬ P m → Keeps P (m + 1) (f m)) :
    Keeps P L (newMoment gs >>= f) := by
  intro w hw _
  rw [act_bind]
  have h1 := kept_moment P w gs
  exact h1.trans (h w.moms.length (fun hp => lt_irrefl _ (hw _ hp)) _
    (fun m hm => lt_of_lt_of_le (hw m hm) h1.len) (by simp))

theorem mem_refs {w : World R} {a last : Nat} (h : (w.refs.getD a []).getLast? = some last) :
    ∃ l ∈ w.refs, last ∈ l := by
  have hm : last ∈ w.refs.getD a [] := List.mem_of_getLast? h
  rw [List.getD_eq_getElem?_getD] at hm
  cases hl : w.refs[a]? with
  | none => rw [hl] at hm; simp at hm
  | some l =>
    rw [hl] at hm
    exact ⟨l, List.mem_of_getElem? hl, hm⟩

theorem kept_replace {w : World R} {last : Nat} (h : ∃ l ∈ w.refs, last ∈ l) (q : Int) (g : GateObj R) :
    Kept P w (replaceObj last q g w).2 := by
  unfold replaceObj
  simp only [act_bind, momentList, Act.lift]
  cases hget : getQregMoment q (w.moms.getD last []) 0 with
  | error e => exact Kept.refl P w
  | ok r =>
    cases r with
    | none => exact Kept.refl P w
    | some gj =>
      obtain ⟨g', j⟩ := gj
      by_cases hi : g'.isIdent = true
      · have hid : idleIn (w.moms.getD last []) = true := List.any_eq_true.2 ⟨g', getQregMoment_mem hget, hi⟩
        simp only [hi, if_true, act_bind, setMoment, act_pure]
        refine ⟨by simp, fun m _ hu => ⟨hu, fun _ => ?_⟩, fun m _ hf => ?_, fun hb l hl m hm => by
          simpa using hb l hl m hm⟩
        · rw [getD_modify, if_neg]
          rintro ⟨rfl, _⟩
          obtain ⟨l, h1, h2⟩ := h
          exact hu l h1 h2
        · rw [getD_modify, if_neg]
          rintro ⟨rfl, _⟩
          rw [hid] at hf
          cases hf
      · simp only [hi, Bool.false_eq_true, if_false, act_pure]
        exact Kept.refl P w

theorem keeps_foldlM {γ : Type} (l : List γ) (f : α → γ → Act R α) (h : ∀ a c, Keeps P L (f a c)) (a : α) :
    Keeps P L (l.foldlM f a) := by
  induction l generalizing a with
  | nil => exact keeps_pure a
  | cons c l ih =>
    rw [List.foldlM_cons]
    exact keeps_bind (h a c) fun a => ih a

theorem keeps_detect (i m : Nat) : Keeps P L (detectObj (R := R) i m) := by
  unfold detectObj
  refine keeps_bind (keeps_const fun _ => rfl) fun cur => keeps_foldlM _ _ (fun _ gi => ?_) _
  split
  · exact keeps_setCirc _ _
  · exact keeps_pure _

theorem keeps_append (i : Nat) {m : Nat} (hm : ¬ P m) (hmL : m < L) : Keeps P L (appendObj (R := R) i m) :=
  keeps_bind (keeps_circ i) fun _ => keeps_bind (keeps_setRefs _ hm hmL) fun _ =>
    keeps_bind (keeps_detect _ _) fun _ => keeps_pure _

theorem keeps_populate (i : Nat) {m : Nat} (hm : ¬ P m) (hmL : m < L) : Keeps P L (populateObj (R := R) i m) := by
  intro w hw hw'
  have app := keeps_append (R := R) i hm hmL
  unfold populateObj
  simp only [act_bind, circ, momentList, refList]
  cases ho : w.circs[i]? with
  | none => exact Kept.refl P w
  | some o =>
    simp only []
    cases hl : (w.refs.getD o.opflow []).getLast? with
    | none =>
      exact keeps_bind (keeps_setCirc i _) (fun _ => app) w hw hw'
    | some last =>
      simp only []
      split
      · exact Kept.refl P w
      · cases hg : (w.moms.getD m []).find? (·.isHXZ) with
        | none => exact app w hw hw'
        | some g =>
          simp only [act_bind, momentList, Act.lift]
          cases hact : g.actingOn with
          | error e => exact Kept.refl P w
          | ok acting =>
            have rest : ∀ (q : Int) (gq : List Int), Kept P w ((if gq.all (· ∈ identRegs (w.moms.getD last [])) then do
                  let added ← replaceObj last q g
                  if added then pure true else appendObj i m
                else appendObj i m : Act R Bool) w).2 := by
              intro q gq
              split
              · have hr := kept_replace (P := P) (mem_refs hl) q g
                rw [act_bind]
                cases hx : replaceObj last q g w with
                | mk r w' =>
                  rw [hx] at hr
                  cases r with
                  | error e => exact hr
                  | ok b =>
                    cases b with
                    | true => exact hr
                    | false => exact hr.trans (app w' (fun m hm => lt_of_lt_of_le (hw m hm) hr.len) (hw'.trans hr.len))
              · exact app w hw hw'
            cases acting with
            | int q => exact rest q [q]
            | list qs => exact rest 0 qs

theorem keeps_addMoment (i : Nat) (q : RegArg) (g : GateObj R) : Keeps P L (addMomentObj i q g) :=
  keeps_bind (keeps_look _ _) fun _ => keeps_newMoment fun _ hm => keeps_populate i hm (Nat.lt_succ_self _)

variable [CommRing R]

theorem keeps_call (i : Nat) (k : Call R) : Keeps P L (callObj i k) := by
  cases k with
  | h q dims => exact keeps_bind (keeps_look _ _) fun _ => keeps_bind (keeps_look _ _) fun _ => keeps_addMoment _ _ _
  | x q dims p => exact keeps_bind (keeps_look _ _) fun _ => keeps_bind (keeps_look _ _) fun _ => keeps_addMoment _ _ _
  | z q dims => exact keeps_bind (keeps_look _ _) fun _ => keeps_bind (keeps_look _ _) fun _ => keeps_addMoment _ _ _
  | cx c t p => exact keeps_bind (keeps_look _ _) fun _ => keeps_addMoment _ _ _
  | toffoli cs t p =>
    exact keeps_bind (keeps_look _ _) fun _ => keeps_bind (keeps_addMoment _ _ _) fun _ => keeps_pure _
  | gate U q dims =>
    cases q with
    | int q => exact keeps_bind (keeps_look _ _) fun _ => keeps_bind (keeps_look _ _) fun _ => keeps_addMoment _ _ _
    | list qs =>
      refine keeps_bind (keeps_look _ _) fun _ => ?_
      rcases dims with _ | _ | k
      · exact keeps_bind (keeps_look _ _) fun _ => keeps_addMoment _ _ _
      · exact keeps_bind (keeps_look _ _) fun _ => keeps_addMoment _ _ _
      · exact keeps_addMoment _ _ _
  | measure q => exact keeps_raise _
  | measureAll =>
    exact keeps_bind (keeps_circ i) fun _ => keeps_newMoment fun _ hm =>
      keeps_bind (keeps_populate i hm (Nat.lt_succ_self _)) fun _ => keeps_pure _

theorem keeps_new (q : RegsRef) (init : Option Nat) (out : Option Output) : Keeps P L (newObj (R := R) q init out) := by
  have core : ∀ states : List Int, Keeps P L (do
      let dims ← readDims q
      let gs ← Act.lift (initMoment dims states)
      let f ← newRefs []
      let i ← newCirc ⟨q, dims.length, f, [0], out, none⟩
      let m ← newMoment gs
      let _ ← populateObj i m
      pure i : Act R Nat) := by
    intro states
    refine keeps_bind (keeps_const fun _ => rfl) fun _ => keeps_bind (keeps_lift _) fun gs => ?_
    refine keeps_bind (fun w _ _ => ?_) fun f => keeps_bind (keeps_same fun _ => ⟨rfl, rfl⟩) fun i =>
      keeps_newMoment fun m hm => keeps_bind (keeps_populate i hm (Nat.lt_succ_self _)) fun _ => keeps_pure _
    refine kept_of rfl fun l hl m hm => ?_
    rcases List.mem_append.1 hl with hl | hl
    · exact .inl ⟨l, hl, hm⟩
    · rw [List.mem_singleton.1 hl] at hm
      cases hm
  unfold newObj
  refine keeps_bind (keeps_const fun _ => rfl) fun dims => ?_
  cases init with
  | none => exact keeps_bind (keeps_pure _) fun _ => core _
  | some a =>
    refine keeps_bind (keeps_const fun _ => rfl) fun given => ?_
    cases given with
    | nil => exact core _
    | cons x l => exact keeps_bind (keeps_same fun _ => ⟨rfl, rfl⟩) fun _ => core _

/-- The copy of the list of moments. -/
theorem kept_copy (w : World R) (a : Nat) (f : List Nat → List Nat) (hf : ∀ l, ∀ m ∈ f l, m ∈ l) :
    Kept P w { w with refs := (w.refs ++ [w.refs.getD a []]).modify w.refs.length f } := by
  refine kept_of rfl fun l hl m hm => .inl ?_
  have own : ∀ m ∈ w.refs.getD a [], ∃ l' ∈ w.refs, m ∈ l' := by
    intro m hm
    rw [List.getD_eq_getElem?_getD] at hm
    cases hl : w.refs[a]? with
    | none => rw [hl] at hm; simp at hm
    | some l =>
      rw [hl] at hm
      exact ⟨l, List.mem_of_getElem? hl, hm⟩
  obtain ⟨j, hj⟩ := List.getElem?_of_mem hl
  rw [getElem?_modify'] at hj
  split at hj
  · rw [Option.map_eq_some_iff] at hj
    obtain ⟨l', h1, rfl⟩ := hj
    rw [List.getElem?_concat_length] at h1
    cases h1
    exact own m (hf _ m hm)
  · have := List.mem_of_getElem? hj
    rcases List.mem_append.1 this with h | h
    · exact ⟨l, h, hm⟩
    · rw [List.mem_singleton.1 h] at hm
      exact own m hm

variable [StarRing R] [DecidableEq R] [UnitaryCheck R]

theorem loopAnyObj_eq (N : Numerics R) (B : Backend R) (w : World R) (ms : List Nat) (acc : Option B.M) :
    loopAnyObj N B ms acc w = (flowLoopAny N B (ms.map fun m => w.moms.getD m []) acc, w) := by
  induction ms generalizing acc with
  | nil => rfl
  | cons m ms ih =>
    rw [List.map_cons]
    unfold loopAnyObj flowLoopAny
    simp only [act_bind, momentList, Act.lift]
    cases momentExecAny N B (w.moms.getD m []) with
    | error e => cases acc <;> rfl
    | ok k =>
      cases acc with
      | none => exact ih k
      | some d =>
        cases k with
        | none => rfl
        | some k =>
          simp only [act_bind, ok_bind, Act.lift]
          cases B.dot d k with
          | error e => rfl
          | ok p => exact ih (some p)

theorem execObj_world (N : Numerics R) (B : Backend R) (i : Nat) (w : World R) :
    (execObj N B i w).2 = w ∨ ∃ a f, (∀ l : List Nat, ∀ m ∈ f l, m ∈ l) ∧
      (execObj N B i w).2 = { w with refs := (w.refs ++ [w.refs.getD a []]).modify w.refs.length f } := by
  unfold execObj
  simp only [act_bind, circ]
  cases ho : w.circs[i]? with
  | none => exact .inl rfl
  | some o =>
    have triv : ({ w with refs := w.refs ++ [w.refs.getD o.opflow []] } : World R) =
        { w with refs := (w.refs ++ [w.refs.getD o.opflow []]).modify w.refs.length id } := by
      rw [List.modify_id]
    right
    simp only [refList, newRefs]
    split
    · simp only [act_bind, refList]
      split
      · exact ⟨o.opflow, id, fun _ _ h => h, triv⟩
      · simp only [act_bind, setRefs, refList]
        rw [loopObj_eq]
        exact ⟨o.opflow, List.dropLast, fun l m h => List.dropLast_subset l h, rfl⟩
    · exact ⟨o.opflow, id, fun _ _ h => h, triv⟩

theorem execAnyObj_world (N : Numerics R) (B : Backend R) (i : Nat) (w : World R) :
    (execAnyObj N B i w).2 = w ∨ ∃ a f, (∀ l : List Nat, ∀ m ∈ f l, m ∈ l) ∧
      (execAnyObj N B i w).2 = { w with refs := (w.refs ++ [w.refs.getD a []]).modify w.refs.length f } := by
  unfold execAnyObj
  simp only [act_bind, circ]
  cases ho : w.circs[i]? with
  | none => exact .inl rfl
  | some o =>
    have triv : ({ w with refs := w.refs ++ [w.refs.getD o.opflow []] } : World R) =
        { w with refs := (w.refs ++ [w.refs.getD o.opflow []]).modify w.refs.length id } := by
      rw [List.modify_id]
    right
    simp only [refList, newRefs]
    split
    · simp only [act_bind, refList]
      split
      · exact ⟨o.opflow, id, fun _ _ h => h, triv⟩
      · simp only [act_bind, setRefs, refList]
        rw [loopAnyObj_eq]
        exact ⟨o.opflow, List.dropLast, fun l m h => List.dropLast_subset l h, rfl⟩
    · exact ⟨o.opflow, id, fun _ _ h => h, triv⟩

theorem keeps_exec (N : Numerics R) (B : Backend R) (i : Nat) : Keeps P L (execObj N B i) := by
  intro w _ _
  rcases execObj_world N B i w with h | ⟨a, f, hf, h⟩
  · rw [h]; exact Kept.refl P w
  · rw [h]; exact kept_copy w a f hf

theorem keeps_execAny (N : Numerics R) (B : Backend R) (i : Nat) : Keeps P L (execAnyObj N B i) := by
  intro w _ _
  rcases execAnyObj_world N B i w with h | ⟨a, f, hf, h⟩
  · rw [h]; exact Kept.refl P w
  · rw [h]; exact kept_copy w a f hf

theorem keeps_run (N : Numerics R) (B : Backend R) (i : Nat) : Keeps P L (runObj N B i) := by
  refine keeps_bind (keeps_exec N B i) fun m => ?_
  cases m with
  | none => exact keeps_raise _
  | some m => exact keeps_bind (keeps_look _ _) fun _ => keeps_bind (keeps_setCirc _ _) fun _ => keeps_pure _

theorem keeps_runAny (N : Numerics R) (B : Backend R) (i : Nat) : Keeps P L (runAnyObj N B i) := by
  refine keeps_bind (keeps_execAny N B i) fun m => ?_
  cases m with
  | none => exact keeps_raise _
  | some m => exact keeps_bind (keeps_look _ _) fun _ => keeps_bind (keeps_setCirc _ _) fun _ => keeps_pure _

/-- No statement touches moments that nothing refers to, or moments without identity operators. -/
theorem step_kept (N : Numerics R) (B : Backend R) (w : World R) (e : Event R) :
    Kept (· < w.moms.length) w (w.step N B e).2 := by
  cases e with
  | list l => exact kept_same rfl rfl
  | peek a => exact Kept.refl _ w
  | put a l =>
    simp only [World.step]
    split
    · exact kept_same rfl rfl
    · exact Kept.refl _ w
  | new q init out =>
    simp only [World.step]
    split
    · exact keeps_new q init out w (fun _ h => h) (Nat.zero_le _)
    · exact Kept.refl _ w
  | call i k =>
    simp only [World.step]
    split
    · exact keeps_call i k w (fun _ h => h) (Nat.zero_le _)
    · exact Kept.refl _ w
  | run i =>
    simp only [World.step]
    split
    · exact keeps_run N B i w (fun _ h => h) (Nat.zero_le _)
    · exact Kept.refl _ w
  | config i =>
    simp only [World.step]
    cases w.view i <;> exact Kept.refl _ w
  | info i =>
    simp only [World.step]
    cases w.view i <;> exact Kept.refl _ w

end

/-! ### Handing layers over -/

theorem detectAnyObj_eq {i : Nat} (l : List (GateObj R × Nat)) {w : World R} {o : CircObj R}
    (ho : w.circs[i]? = some o) :
    detectAnyObj i l w = ((detectAny o.measCount l).2, { w with circs := w.circs.modify i fun o =>
      { o with measCount := (detectAny o.measCount l).1 } }) := by
  induction l generalizing w o with
  | nil =>
    unfold detectAnyObj
    simp only [act_pure, detectAny]
    rw [show (fun o : CircObj R => { o with measCount := o.measCount }) = id from rfl, List.modify_id]
  | cons a l ih =>
    obtain ⟨g, j⟩ := a
    have con : ∀ f : CircObj R → CircObj R, w.circs.modify i f = w.circs.modify i fun _ => f o := by
      intro f
      apply List.ext_getElem?
      intro k
      rw [getElem?_modify', getElem?_modify']
      split
      · rw [ho]; rfl
      · rfl
    unfold detectAnyObj
    by_cases hg : g.isMeas = true
    · simp only [hg, if_true, act_bind, circ, ho]
      by_cases hj : j < o.measCount.length
      · simp only [hj, if_true, act_bind, setCirc]
        have ho1 : (w.circs.modify i fun o => { o with measCount := o.measCount.set j 1 })[i]? =
            some { o with measCount := o.measCount.set j 1 } := by
          rw [getElem?_modify', if_pos rfl, ho]; rfl
        rw [ih (w := { w with circs := w.circs.modify i fun o => { o with measCount := o.measCount.set j 1 } }) ho1]
        simp only [List.modify_modify_eq]
        rw [con, con (fun o => { o with measCount := (detectAny o.measCount ((g, j) :: l)).1 })]
        simp only [Function.comp, detectAny, hg, if_true, hj]
      · simp only [hj, if_false, Act.raise]
        rw [con]
        simp only [detectAny, hg, if_true, hj, if_false]
        have : (w.circs.modify i fun _ => o) = w.circs := by
          have e := con id
          rw [List.modify_id] at e
          exact e.symm
        rw [this]
    · simp only [hg, Bool.false_eq_true, if_false]
      rw [ih ho]
      rw [con, con (fun o => { o with measCount := (detectAny o.measCount ((g, j) :: l)).1 })]
      simp only [detectAny, hg, Bool.false_eq_true, if_false]

theorem addAnyObj_spec {w : World R} (h : w.WF) {i m : Nat} {o : CircObj R} (ho : w.circs[i]? = some o)
    (hf : w.Fresh m) :
    ∃ w', addAnyObj i m w = (((o.read w).flow.addAny o.measCount (w.moms.getD m [])).2, w') ∧
      Upd i w w' (fun c => { c with flow := (c.flow.addAny c.flow.measCount (w.moms.getD m [])).1 }) := by
  have u := (upd_append h ho hf).trans (upd_setCirc (upd_append h ho hf).wf i (fun o =>
      { o with measCount := (detectAny o.measCount (w.moms.getD m []).zipIdx).1 })
      (fun c => { c with flow := { c.flow with
        measCount := (detectAny c.flow.measCount (w.moms.getD m []).zipIdx).1 } })
      (fun _ => rfl) (fun _ => rfl) fun _ _ => rfl)
  have hval : ∀ (f : Flow R) mc cur, f.addAny mc cur =
      ({ moments := f.moments ++ [cur], measCount := (detectAny mc cur.zipIdx).1 },
        (detectAny mc cur.zipIdx).2 >>= fun _ => .ok .added) := by
    intro f mc cur
    unfold Flow.addAny
    rcases detectAny mc cur.zipIdx with ⟨mc', r | r⟩ <;> rfl
  refine ⟨_, ?_, u.wf, u.ints, u.regs, fun j => ?_⟩
  · unfold addAnyObj
    simp only [act_bind, circ, ho, setRefs, momentList]
    rw [detectAnyObj_eq (o := o) _ (by exact ho), hval]
    cases (detectAny o.measCount (w.moms.getD m []).zipIdx).2 <;> rfl
  · rw [u.view]
    simp only [hval]
    rfl

/-- One round acts on the object as on the value. -/
theorem feedOneObj_spec {w : World R} (h : w.WF) {i m : Nat} {o : CircObj R} (ho : w.circs[i]? = some o)
    (hf : w.Fresh m) :
    ∃ w', feedOneObj i m w = (((o.read w).flow.feedOne (w.moms.getD m [])).2, w') ∧
      Upd i w w' (fun c => { c with flow := ((o.read w).flow.feedOne (w.moms.getD m [])).1 }) := by
  have hmom : (o.read w).flow.moments = (w.refs.getD o.opflow []).map fun m => w.moms.getD m [] := rfl
  have hmc : (o.read w).flow.measCount = o.measCount := rfl
  have hv := view_some ho
  have same : Upd i w w (fun c => { c with flow := (o.read w).flow }) := by
    refine ⟨h, rfl, rfl, fun j => ?_⟩
    by_cases hj : j = i
    · subst hj; rw [hv, if_pos rfl]; rfl
    · rw [if_neg hj]
  have app : ∃ w', addAnyObj i m w = (((o.read w).flow.addAny o.measCount (w.moms.getD m [])).2, w') ∧
      Upd i w w' (fun c => { c with flow := ((o.read w).flow.addAny o.measCount (w.moms.getD m [])).1 }) := by
    obtain ⟨w', h1, h2⟩ := addAnyObj_spec h ho hf
    refine ⟨w', h1, h2.wf, h2.ints, h2.regs, fun j => ?_⟩
    rw [h2.view j, hv]
    rfl
  unfold feedOneObj Flow.feedOne
  simp only [act_bind, circ, ho, momentList, refList]
  rw [hmom, getLast?_map']
  cases hl : (w.refs.getD o.opflow []).getLast? with
  | none =>
    simp only [Option.map_none, act_bind, setCirc]
    have u1 := upd_setCirc h i (fun o => { o with measCount := List.replicate (w.moms.getD m []).length 0 })
      (fun c => { c with flow := { c.flow with measCount := List.replicate (w.moms.getD m []).length 0 } })
      (fun _ => rfl) (fun _ => rfl) fun _ _ => rfl
    have ho1 : (w.circs.modify i fun o => { o with measCount := List.replicate (w.moms.getD m []).length 0 })[i]?
        = some { o with measCount := List.replicate (w.moms.getD m []).length 0 } := by
      rw [getElem?_modify', if_pos rfl, ho]
      rfl
    have hf1 : World.Fresh { w with circs := w.circs.modify i fun o =>
        { o with measCount := List.replicate (w.moms.getD m []).length 0 } } m := by
      refine ⟨hf.1, fun hid j o' ho' => ?_⟩
      simp only [getElem?_modify'] at ho'
      split at ho'
      · rw [ho] at ho'
        cases ho'
        exact hf.2 hid i o ho
      · exact hf.2 hid j o' ho'
    obtain ⟨w', h1, h2⟩ := addAnyObj_spec u1.wf ho1 hf1
    have u := u1.trans h2
    refine ⟨w', ?_, u.wf, u.ints, u.regs, fun j => ?_⟩
    · rw [h1]; rfl
    · rw [u.view j, hv]
      rfl
  | some last =>
    obtain ⟨l, hll⟩ := List.getLast?_eq_some_iff.1 hl
    simp only [Option.map_some, hmc]
    by_cases hall : (o.measCount.all (· ≠ 0)) = true
    · simp only [hall, if_true, act_pure]
      exact ⟨w, rfl, same⟩
    · simp only [hall, Bool.false_eq_true, if_false]
      cases hg : (w.moms.getD m []).find? (·.isHXZ) with
      | none => exact app
      | some g =>
        simp only [act_bind, momentList, Act.lift]
        cases hact : g.actingOn with
        | error e => exact ⟨w, rfl, same⟩
        | ok acting =>
          have rest : ∀ (q : Int) (gq : List Int), ∃ w',
              (if gq.all (· ∈ identRegs (w.moms.getD last [])) then do
                  let added ← replaceObj last q g
                  if added then pure .joined else addAnyObj i m
                else addAnyObj i m : Act R Fed) w =
              ((if gq.all (· ∈ identRegs (w.moms.getD last [])) then
                  match replaceIgate (w.moms.getD last []) q g with
                  | .error e => ((o.read w).flow, .error e)
                  | .ok (last', true) => ({ (o.read w).flow with moments := ((w.refs.getD o.opflow []).map
                      fun m => w.moms.getD m []).dropLast ++ [last'] }, .ok .joined)
                  | .ok (_, false) => (o.read w).flow.addAny o.measCount (w.moms.getD m [])
                else (o.read w).flow.addAny o.measCount (w.moms.getD m []) : Flow R × PyM Fed).2, w') ∧
              Upd i w w' (fun c => { c with flow :=
                (if gq.all (· ∈ identRegs (w.moms.getD last [])) then
                  match replaceIgate (w.moms.getD last []) q g with
                  | .error e => ((o.read w).flow, .error e)
                  | .ok (last', true) => ({ (o.read w).flow with moments := ((w.refs.getD o.opflow []).map
                      fun m => w.moms.getD m []).dropLast ++ [last'] }, .ok .joined)
                  | .ok (_, false) => (o.read w).flow.addAny o.measCount (w.moms.getD m [])
                else (o.read w).flow.addAny o.measCount (w.moms.getD m []) : Flow R × PyM Fed).1 }) := by
            intro q gq
            by_cases hid : (gq.all (· ∈ identRegs (w.moms.getD last []))) = true
            · simp only [hid, if_true, act_bind]
              unfold replaceObj replaceIgate
              simp only [act_bind, momentList, Act.lift]
              cases hget : getQregMoment q (w.moms.getD last []) 0 with
              | error e => exact ⟨w, rfl, same⟩
              | ok r =>
                cases r with
                | none => exact ⟨w, rfl, same⟩
                | some gj =>
                  obtain ⟨g', j⟩ := gj
                  simp only [ok_bind]
                  by_cases hi : g'.isIdent = true
                  · simp only [hi, if_true, act_bind, setMoment, act_pure]
                    refine ⟨_, rfl, ?_⟩
                    have hidle : idleIn (w.moms.getD last []) = true :=
                      List.any_eq_true.2 ⟨g', getQregMoment_mem hget, hi⟩
                    have u := upd_setMoment h ho hll hidle (j := j) g
                    refine ⟨u.wf, u.ints, u.regs, fun k => ?_⟩
                    rw [u.view k, hv]
                    simp only [Option.map_some, hmom, hmc]
                  · simp only [hi, act_pure, Bool.false_eq_true, if_false]
                    exact app
            · simp only [hid, Bool.false_eq_true, if_false]
              exact app
          cases acting with
          | int q => exact rest q [q]
          | list qs => exact rest 0 qs

theorem keeps_detectAny {P : Nat → Prop} {L : Nat} (i : Nat) (l : List (GateObj R × Nat)) : Keeps P L (detectAnyObj i l) := by
  induction l with
  | nil => exact keeps_pure _
  | cons a l ih =>
    obtain ⟨g, j⟩ := a
    unfold detectAnyObj
    split
    · refine keeps_bind (keeps_circ i) fun o => ?_
      split
      · exact keeps_bind (keeps_setCirc _ _) fun _ => ih
      · exact keeps_raise _
    · exact ih

theorem keeps_addAny {P : Nat → Prop} {L : Nat} (i : Nat) {m : Nat} (hm : ¬ P m) (hmL : m < L) : Keeps P L (addAnyObj (R := R) i m) :=
  keeps_bind (keeps_circ i) fun _ => keeps_bind (keeps_setRefs _ hm hmL) fun _ =>
    keeps_bind (keeps_const fun _ => rfl) fun _ => keeps_bind (keeps_detectAny _ _) fun _ => keeps_pure _

theorem keeps_feedOne {P : Nat → Prop} {L : Nat} (i : Nat) {m : Nat} (hm : ¬ P m) (hmL : m < L) : Keeps P L (feedOneObj (R := R) i m) := by
  intro w hw hw'
  have app := keeps_addAny (R := R) i hm hmL
  unfold feedOneObj
  simp only [act_bind, circ, momentList, refList]
  cases ho : w.circs[i]? with
  | none => exact Kept.refl P w
  | some o =>
    simp only []
    cases hl : (w.refs.getD o.opflow []).getLast? with
    | none =>
      exact keeps_bind (keeps_setCirc i _) (fun _ => app) w hw hw'
    | some last =>
      simp only []
      split
      · exact Kept.refl P w
      · cases hg : (w.moms.getD m []).find? (·.isHXZ) with
        | none => exact app w hw hw'
        | some g =>
          simp only [act_bind, momentList, Act.lift]
          cases hact : g.actingOn with
          | error e => exact Kept.refl P w
          | ok acting =>
            have rest : ∀ (q : Int) (gq : List Int), Kept P w ((if gq.all (· ∈ identRegs (w.moms.getD last [])) then do
                  let added ← replaceObj last q g
                  if added then pure .joined else addAnyObj i m
                else addAnyObj i m : Act R Fed) w).2 := by
              intro q gq
              split
              · have hr := kept_replace (P := P) (mem_refs hl) q g
                rw [act_bind]
                cases hx : replaceObj last q g w with
                | mk r w' =>
                  rw [hx] at hr
                  cases r with
                  | error e => exact hr
                  | ok b =>
                    cases b with
                    | true => exact hr
                    | false => exact hr.trans (app w' (fun m hm => lt_of_lt_of_le (hw m hm) hr.len) (hw'.trans hr.len))
              · exact app w hw hw'
            cases acting with
            | int q => exact rest q [q]
            | list qs => exact rest 0 qs

theorem keeps_feed {P : Nat → Prop} {L : Nat} (i : Nat) {ms : List Nat} (hm : ∀ m ∈ ms, ¬ P m ∧ m < L) :
    Keeps P L (feedObj (R := R) i ms) := by
  induction ms with
  | nil => exact keeps_pure _
  | cons m ms ih =>
    refine keeps_bind (keeps_feedOne i (hm m (by simp)).1 (hm m (by simp)).2) fun r => ?_
    cases r with
    | refused => exact keeps_pure _
    | joined => exact keeps_pure _
    | added => exact ih fun m h => hm m (by simp [h])

theorem unref_fresh {w : World R} {m : Nat} (h1 : m < w.moms.length)
    (h2 : idleIn (w.moms.getD m []) = true → w.Unref m) : w.Fresh m := by
  refine ⟨h1, fun hid i o ho hm => ?_⟩
  rw [List.getD_eq_getElem?_getD] at hm
  cases hl : w.refs[o.opflow]? with
  | none => rw [hl] at hm; simp at hm
  | some l =>
    rw [hl] at hm
    exact h2 hid l (List.mem_of_getElem? hl) hm

/-- Handing layers over acts on the object as on the value. -/
theorem feedObj_spec {i : Nat} (ms : List Nat) {w : World R} (h : w.WF) {o : CircObj R} (ho : w.circs[i]? = some o)
    (h1 : ∀ m ∈ ms, m < w.moms.length ∧ (idleIn (w.moms.getD m []) = true → w.Unref m))
    (h2 : (ms.filter fun m => idleIn (w.moms.getD m [])).Nodup) :
    ∃ w', feedObj i ms w = (((o.read w).flow.feed (ms.map fun m => w.moms.getD m [])).2, w') ∧
      Upd i w w' (fun c => { c with flow := ((o.read w).flow.feed (ms.map fun m => w.moms.getD m [])).1 }) := by
  have hv := view_some ho
  induction ms generalizing w o with
  | nil =>
    refine ⟨w, rfl, h, rfl, rfl, fun j => ?_⟩
    by_cases hj : j = i
    · subst hj; rw [hv, if_pos rfl]; rfl
    · rw [if_neg hj]
  | cons m ms ih =>
    obtain ⟨hm1, hm2⟩ := h1 m (by simp)
    obtain ⟨w1, e1, u1⟩ := feedOneObj_spec h ho (unref_fresh hm1 hm2)
    unfold feedObj
    rw [List.map_cons]
    unfold Flow.feed
    rw [act_bind, e1]
    rcases hr : (o.read w).flow.feedOne (w.moms.getD m []) with ⟨f', r⟩
    rw [hr] at u1 e1
    cases r with
    | error e => exact ⟨w1, rfl, u1⟩
    | ok fed =>
      cases fed with
      | refused => exact ⟨w1, rfl, u1⟩
      | joined => exact ⟨w1, rfl, u1⟩
      | added =>
        have hk := keeps_feedOne (R := R) (P := fun x => x ≠ m ∧ x < w.moms.length) i (m := m) (fun hp => hp.1 rfl) hm1 w
          (fun x hx => hx.2) (le_refl _)
        rw [e1] at hk
        simp only at hk
        have hne : ∀ x ∈ ms, idleIn (w.moms.getD x []) = true → x ≠ m := by
          rintro x hx hid rfl
          rw [List.filter_cons_of_pos (by simpa using hid)] at h2
          exact (List.nodup_cons.1 h2).1 (List.mem_filter.2 ⟨hx, hid⟩)
        have same : ∀ x ∈ ms, w1.moms.getD x [] = w.moms.getD x [] := by
          intro x hx
          obtain ⟨a, b⟩ := h1 x (by simp [hx])
          cases hid : idleIn (w.moms.getD x []) with
          | true => exact (hk.unref x ⟨hne x hx hid, a⟩ (b hid)).2 a
          | false => exact hk.full x a hid
        have hv1 : w1.view i = some { o.read w with flow := f' } := by
          rw [u1.view, if_pos rfl, hv]
          rfl
        have hvi := hv1
        rw [World.view, Option.map_eq_some_iff] at hvi
        obtain ⟨o1, ho1, hr1⟩ := hvi
        have e2 : (ms.map fun m => w1.moms.getD m []) = ms.map fun m => w.moms.getD m [] :=
          List.map_congr_left same
        obtain ⟨w2, e3, u2⟩ := ih u1.wf ho1 (fun x hx => by
            obtain ⟨a, b⟩ := h1 x (by simp [hx])
            refine ⟨lt_of_lt_of_le a hk.len, fun hid => ?_⟩
            rw [same x hx] at hid
            exact (hk.unref x ⟨hne x hx hid, a⟩ (b hid)).1) (by
            rw [List.filter_congr (q := fun m => idleIn (w.moms.getD m [])) fun x hx => by rw [same x hx]]
            refine List.Nodup.sublist ?_ h2
            exact List.Sublist.filter _ (List.sublist_cons_self _ _)) (view_some ho1)
        rw [hr1, e2] at e3 u2
        refine ⟨w2, e3, ?_⟩
        have u := u1.trans u2
        refine ⟨u.wf, u.ints, u.regs, fun j => ?_⟩
        rw [u.view]
        rfl

/-! ### Execution -/

variable [CommRing R] [StarRing R] [DecidableEq R] [UnitaryCheck R]

/-- `run()` on a circuit with any moments does to the object what it does to the value. -/
theorem runAnyObj_sim (N : Numerics R) (B : Backend R) {w : World R} (h : w.WF) {i : Nat} {o : CircObj R}
    (ho : w.circs[i]? = some o) :
    ∃ w', runAnyObj N B i w = ((o.read w).runAny N B, w') ∧ Upd i w w' fun c => { c with
      circuitOutput := match (o.read w).runAny N B with
        | .ok r => some r
        | .error _ => c.circuitOutput } := by
  have s1 := same_newRefs h (w.refs.getD o.opflow [])
  have s2 : Same w { w with refs := (w.refs ++ [w.refs.getD o.opflow []]).modify w.refs.length List.dropLast } := by
    refine s1.trans (same_setRefs s1.wf ?_ List.dropLast)
    intro j o' ho'
    exact Nat.ne_of_lt (h.opf j o' ho')
  have keep : ∀ {w' : World R}, Same w w' → Upd i w w' fun c => { c with circuitOutput := c.circuitOutput } := by
    intro w' s
    exact s.toUpd
  unfold runAnyObj execAnyObj Circuit.runAny
  simp only [act_bind, circ, ho, refList, newRefs]
  have hmc : (o.read w).flow.measCount = o.measCount := rfl
  have hmom : (o.read w).flow.moments = (w.refs.getD o.opflow []).map fun m => w.moms.getD m [] := rfl
  rw [hmc, hmom]
  by_cases hall : (o.measCount.all (· ≠ 0)) = true
  · simp only [hall, if_true, act_bind, refList, getD_length]
    by_cases he : (w.refs.getD o.opflow []).isEmpty = true
    · have he' : ((w.refs.getD o.opflow []).map fun m => w.moms.getD m []).isEmpty = true := by
        rw [List.isEmpty_iff] at he ⊢
        rw [he]
        rfl
      simp only [he, he', if_true, Act.raise]
      exact ⟨_, rfl, keep s1⟩
    · have he' : ¬ ((w.refs.getD o.opflow []).map fun m => w.moms.getD m []).isEmpty = true := by
        rw [List.isEmpty_iff] at he ⊢
        simpa using he
      simp only [he, he', Bool.false_eq_true, if_false, act_bind, setRefs, refList]
      rw [loopAnyObj_eq]
      simp only [getD_modify, List.length_append, List.length_singleton, getD_length]
      rw [if_pos (by simp), List.map_reverse, List.map_dropLast]
      generalize flowLoopAny N B _ _ = x
      cases x with
      | error e => exact ⟨_, rfl, keep s2⟩
      | ok x =>
        cases x with
        | none => exact ⟨_, rfl, keep s2⟩
        | some m =>
          have hv := s2.view i
          rw [view_some ho] at hv
          simp only [act_bind, ok_bind, look, hv]
          cases hc : (o.read w).output.call (B.toarray m) with
          | error e => exact ⟨_, rfl, keep s2⟩
          | ok r =>
            simp only [setCirc, act_pure]
            refine ⟨_, rfl, ?_⟩
            have u := s2.upd (upd_setCirc s2.wf i (fun o => { o with circuitOutput := some r })
              (fun c => { c with circuitOutput := some r }) (fun _ => rfl) (fun _ => rfl) fun _ _ => rfl)
            exact u
  · simp only [hall, Bool.false_eq_true, if_false, Act.raise]
    exact ⟨_, rfl, keep s1⟩

end
end QuDiet
