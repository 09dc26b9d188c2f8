import Verif.Lemmas.Moments

/-! # Measuring by hand -/

namespace QuDiet
open Spec

variable {R : Type}

/-! ### What one more layer does to the measurements -/

theorem getElem?_set_meas {m : List (GateObj R)} {j : Nat} {g g' : GateObj R} (hj : m[j]? = some g')
    (hg : g.isMeas = false) (hg' : g'.isMeas = false) (i : Nat) : MeasAt (m.set j g) i ↔ MeasAt m i := by
  unfold MeasAt
  by_cases h : j = i
  · subst h
    have hlt : j < m.length := by
      rw [List.getElem?_eq_some_iff] at hj
      exact hj.1
    rw [List.getElem?_set_self hlt, hj]
    simp [hg, hg']
  · rw [List.getElem?_set_ne h]

theorem getQregMoment_get {q : Int} {m : List (GateObj R)} {i0 : Nat} {g : GateObj R} {j : Nat}
    (h : getQregMoment q m i0 = .ok (some (g, j))) : i0 ≤ j ∧ m[j - i0]? = some g := by
  induction m generalizing i0 with
  | nil => simp [getQregMoment] at h
  | cons a m ih =>
    simp only [getQregMoment, bind, Except.bind] at h
    have next : getQregMoment q m (i0 + 1) = .ok (some (g, j)) → i0 ≤ j ∧ (a :: m)[j - i0]? = some g := by
      intro h
      obtain ⟨h1, h2⟩ := ih h
      refine ⟨by omega, ?_⟩
      rw [show j - i0 = (j - (i0 + 1)) + 1 by omega, List.getElem?_cons_succ]
      exact h2
    have here : (Except.ok (some (a, i0)) : PyM (Option (GateObj R × Nat))) = .ok (some (g, j)) →
        i0 ≤ j ∧ (a :: m)[j - i0]? = some g := by
      intro h
      cases h
      simp
    split at h
    · cases h
    · split at h <;> split at h <;> first | exact here h | exact next h

/-- How a flow changes when the layer `m` is handed over. -/
inductive Grow (f : Flow R) (m : List (GateObj R)) : Flow R → Prop
  | same : Grow f m f
  | more {mc : List Nat} (hl : mc.length = f.measCount.length)
      (hm : ∀ i, mc.getD i 0 ≠ 0 → f.measCount.getD i 0 ≠ 0 ∨ MeasAt m i) :
      Grow f m { moments := f.moments ++ [m], measCount := mc }
  | join {last last' : List (GateObj R)} (hl : f.moments.getLast? = some last)
      (hm : ∀ i, MeasAt last' i ↔ MeasAt last i) (hlen : last'.length = last.length) :
      Grow f m { f with moments := f.moments.dropLast ++ [last'] }

theorem detectMeas_grow (mc : List Nat) (m : List (GateObj R)) :
    (detectMeas mc m).length = mc.length ∧
      ∀ i, (detectMeas mc m).getD i 0 ≠ 0 → mc.getD i 0 ≠ 0 ∨ MeasAt m i := by
  have key : ∀ (pre l : List (GateObj R)) (mc' : List Nat), m = pre ++ l → mc'.length = mc.length →
      (∀ i, mc'.getD i 0 ≠ 0 → mc.getD i 0 ≠ 0 ∨ MeasAt m i) →
      ((l.zipIdx pre.length).foldl (fun mc gi => if gi.1.isMeas then mc.set gi.2 1 else mc) mc').length = mc.length ∧
      ∀ i, ((l.zipIdx pre.length).foldl (fun mc gi => if gi.1.isMeas then mc.set gi.2 1 else mc) mc').getD i 0 ≠ 0 →
        mc.getD i 0 ≠ 0 ∨ MeasAt m i := by
    intro pre l
    induction l generalizing pre with
    | nil => intro mc' _ h1 h2; exact ⟨h1, h2⟩
    | cons g l ih =>
      intro mc' hm h1 h2
      rw [List.zipIdx_cons, List.foldl_cons]
      have := ih (pre ++ [g]) (if g.isMeas then mc'.set pre.length 1 else mc') (by simp [hm])
        (by split <;> simp [h1]) ?_
      · simpa using this
      · intro i hi
        split at hi
        · rename_i hg
          by_cases e : pre.length = i
          · right
            subst e
            exact ⟨g, by rw [hm]; simp, hg⟩
          · apply h2
            simpa [List.getD_eq_getElem?_getD, List.getElem?_set_ne e] using hi
        · exact h2 i hi
  exact key [] m mc rfl rfl fun i h => .inl h

theorem detectAny_grow (mc : List Nat) (m : List (GateObj R)) :
    (detectAny mc m.zipIdx).1.length = mc.length ∧
      ∀ i, (detectAny mc m.zipIdx).1.getD i 0 ≠ 0 → mc.getD i 0 ≠ 0 ∨ MeasAt m i := by
  have key : ∀ (pre l : List (GateObj R)) (mc' : List Nat), m = pre ++ l → mc'.length = mc.length →
      (∀ i, mc'.getD i 0 ≠ 0 → mc.getD i 0 ≠ 0 ∨ MeasAt m i) →
      (detectAny mc' (l.zipIdx pre.length)).1.length = mc.length ∧
      ∀ i, (detectAny mc' (l.zipIdx pre.length)).1.getD i 0 ≠ 0 → mc.getD i 0 ≠ 0 ∨ MeasAt m i := by
    intro pre l
    induction l generalizing pre with
    | nil => intro mc' _ h1 h2; exact ⟨h1, h2⟩
    | cons g l ih =>
      intro mc' hm h1 h2
      rw [List.zipIdx_cons, detectAny]
      split
      · rename_i hg
        split
        · have := ih (pre ++ [g]) (mc'.set pre.length 1) (by simp [hm]) (by simp [h1]) ?_
          · simpa using this
          · intro i hi
            by_cases e : pre.length = i
            · right
              subst e
              exact ⟨g, by rw [hm]; simp, hg⟩
            · apply h2
              simpa [List.getD_eq_getElem?_getD, List.getElem?_set_ne e] using hi
        · exact ⟨h1, h2⟩
      · have := ih (pre ++ [g]) mc' (by simp [hm]) h1 h2
        simpa using this
  exact key [] m mc rfl rfl fun i h => .inl h

theorem replaceIgate_grow {last last' : List (GateObj R)} {q : Int} {g : GateObj R} (hg : g.isMeas = false)
    (h : replaceIgate last q g = .ok (last', true)) :
    (∀ i, MeasAt last' i ↔ MeasAt last i) ∧ last'.length = last.length := by
  unfold replaceIgate at h
  simp only [bind, Except.bind] at h
  split at h
  · cases h
  · rename_i x hx
    split at h
    · cases h
    · rename_i g' j
      split at h
      · rename_i hi
        cases h
        obtain ⟨_, hj⟩ := getQregMoment_get hx
        refine ⟨fun i => getElem?_set_meas (by simpa using hj) hg ?_ i, by simp⟩
        cases g' <;> simp_all [GateObj.isIdent, GateObj.isMeas]
      · cases h

theorem hxz_not_meas {g : GateObj R} (h : g.isHXZ = true) : g.isMeas = false := by
  cases g <;> simp_all [GateObj.isHXZ, GateObj.isMeas]

theorem populate_grow {f f' : Flow R} {m : List (GateObj R)} {b : Bool} (hne : f.moments ≠ [])
    (h : f.populate m = .ok (f', b)) : Grow f m f' := by
  have happ : Grow f m (f.append m) := by
    obtain ⟨h1, h2⟩ := detectMeas_grow f.measCount m
    exact .more h1 h2
  unfold Flow.populate at h
  split at h
  · rename_i hl
    simp at hl
    exact absurd hl hne
  · rename_i last hl
    split at h
    · cases h; exact .same
    · split at h
      · cases h; exact happ
      · rename_i g hf
        have hx : g.isHXZ = true := by simpa using List.find?_some hf
        have hg := hxz_not_meas hx
        obtain ⟨q, hq, _⟩ := hxz_regs hx
        simp only [hq, bind, Except.bind] at h
        split at h
        · cases hr : replaceIgate last q g with
          | error e => simp [hr] at h
          | ok r =>
            obtain ⟨last', added⟩ := r
            cases added with
            | true =>
              simp only [hr, if_true, Except.ok.injEq, Prod.mk.injEq] at h
              rw [← h.1]
              obtain ⟨h1, h2⟩ := replaceIgate_grow hg hr
              exact .join hl h1 h2
            | false =>
              simp only [hr, Bool.false_eq_true, if_false, Except.ok.injEq, Prod.mk.injEq] at h
              rw [← h.1]
              exact happ
        · simp only [Except.ok.injEq, Prod.mk.injEq] at h
          rw [← h.1]
          exact happ

theorem feedOne_grow {f : Flow R} {m : List (GateObj R)} (hne : f.moments ≠ []) : Grow f m (f.feedOne m).1 := by
  have happ : Grow f m (f.addAny f.measCount m).1 := by
    obtain ⟨h1, h2⟩ := detectAny_grow f.measCount m
    unfold Flow.addAny
    split
    · rename_i h
      rw [h] at h1 h2
      exact .more h1 h2
    · rename_i h
      rw [h] at h1 h2
      exact .more h1 h2
  unfold Flow.feedOne
  split
  · rename_i hl
    simp at hl
    exact absurd hl hne
  · rename_i last hl
    split
    · exact .same
    · split
      · exact happ
      · rename_i g hf
        have hx : g.isHXZ = true := by simpa using List.find?_some hf
        have hg := hxz_not_meas hx
        obtain ⟨q, hq, _⟩ := hxz_regs hx
        simp only [hq]
        split
        · cases hr : replaceIgate last q g with
          | error e => exact .same
          | ok r =>
            obtain ⟨last', added⟩ := r
            cases added with
            | true =>
              obtain ⟨h1, h2⟩ := replaceIgate_grow hg hr
              exact .join hl h1 h2
            | false => exact happ
        · exact happ

/-! ### Histories -/

section
variable [CommRing R]

/-- Where the measurements of a layer come from. -/
def Origin (ds : List (Deed R)) (m : List (GateObj R)) : Prop :=
  .call .measureAll ∈ ds ∨
    ∃ ms, .hand ms ∈ ds ∧ ∃ s ∈ ms, (∀ i, MeasAt m i ↔ MeasAt s i) ∧ m.length = s.length

structure Trace (n : Nat) (ds : List (Deed R)) (f : Flow R) : Prop where
  ne : f.moments ≠ []
  len : f.measCount.length = n
  cnt : ∀ i, f.measCount.getD i 0 ≠ 0 → ∃ m ∈ f.moments, MeasAt m i
  src : ∀ m ∈ f.moments, (∃ i, MeasAt m i) → Origin ds m

theorem Trace.grow {n : Nat} {ds : List (Deed R)} {f f' : Flow R} {m : List (GateObj R)} (h : Trace n ds f)
    (hg : Grow f m f') (hm : (∃ i, MeasAt m i) → Origin ds m) : Trace n ds f' := by
  cases hg with
  | same => exact h
  | @more mc hl hc =>
    refine ⟨by simp, by rw [← h.len]; exact hl, ?_, ?_⟩
    · intro i hi
      rcases hc i hi with h1 | h1
      · obtain ⟨m', hm', h2⟩ := h.cnt i h1
        exact ⟨m', by simp [hm'], h2⟩
      · exact ⟨m, by simp, h1⟩
    · intro m' hm' hx
      rcases List.mem_append.1 hm' with hm' | hm'
      · exact h.src m' hm' hx
      · rw [List.mem_singleton] at hm'
        subst hm'
        exact hm hx
  | @join last last' hl hc hlen =>
    have hsplit : f.moments = f.moments.dropLast ++ [last] := by
      rw [List.getLast?_eq_some_iff] at hl
      obtain ⟨pre, hl⟩ := hl
      rw [hl, List.dropLast_concat]
    refine ⟨by simp, h.len, ?_, ?_⟩
    · intro i hi
      obtain ⟨m', hm', h2⟩ := h.cnt i hi
      rw [hsplit] at hm'
      rcases List.mem_append.1 hm' with hm' | hm'
      · exact ⟨m', List.mem_append.2 (.inl hm'), h2⟩
      · rw [List.mem_singleton] at hm'
        subst hm'
        exact ⟨last', by simp, (hc i).2 h2⟩
    · intro m' hm' hx
      rcases List.mem_append.1 hm' with hm' | hm'
      · exact h.src m' (by rw [hsplit]; exact List.mem_append.2 (.inl hm')) hx
      · rw [List.mem_singleton] at hm'
        subst hm'
        obtain ⟨i, hi⟩ := hx
        rcases h.src last (by rw [hsplit]; simp) ⟨i, (hc i).1 hi⟩ with h1 | ⟨ms, h1, s, hs, h2, h3⟩
        · exact .inl h1
        · exact .inr ⟨ms, h1, s, hs, fun j => (hc j).trans (h2 j), hlen.trans h3⟩

theorem not_measAt {m : List (GateObj R)} (h : ∀ g ∈ m, g.isMeas = false) : ¬ ∃ i, MeasAt m i := by
  rintro ⟨i, g, hg, hm⟩
  rw [h g (List.mem_of_getElem? hg)] at hm
  cases hm

/-- The layer of a gate has the gate and identities in it. -/
theorem momentData_all {p : GateObj R → Prop} (hi : ∀ r d, p (.ident r d)) {c : Circuit R} {q : RegArg} {g : GateObj R}
    {m : List (GateObj R)} (h : c.momentData q g = .ok m) (hg : p g) : ∀ g' ∈ m, p g' := by
  have step : ∀ (space : Option (Int × Int)) (l : List Nat) (st : List (GateObj R) × Bool),
      (∀ g' ∈ st.1, p g') →
      ∀ g' ∈ (l.foldl (momentStep c.regDims space q g) st).1, p g' := by
    intro space l
    induction l with
    | nil => intro st h; exact h
    | cons r l ih =>
      intro st hst
      rw [List.foldl_cons]
      apply ih
      unfold momentStep
      have h1 : ∀ g' ∈ st.1 ++ [g], p g' := by
        intro g' hg'
        rcases List.mem_append.1 hg' with h | h
        · exact hst g' h
        · rw [List.mem_singleton] at h; rw [h]; exact hg
      have h2 : ∀ g' ∈ st.1 ++ [GateObj.ident r (c.regDims.getD r 0)], p g' := by
        intro g' hg'
        rcases List.mem_append.1 hg' with h | h
        · exact hst g' h
        · rw [List.mem_singleton] at h; rw [h]; exact hi _ _
      have h3 : ∀ j, ∀ g' ∈ (st.1 ++ [GateObj.ident r (c.regDims.getD r 0)]).set j g, p g' := by
        intro j g' hg'
        rcases List.mem_or_eq_of_mem_set hg' with h | h
        · exact h2 g' h
        · rw [h]; exact hg
      cases space with
      | none =>
        cases q with
        | int q =>
          simp only [Bool.false_eq_true, if_false]
          split
          · exact h3 _
          · exact h2
        | list qs => exact h2
      | some lu =>
        obtain ⟨lb, ub⟩ := lu
        simp only [decide_eq_true_eq]
        split
        · split
          · exact hst
          · exact h1
        · cases q with
          | int q =>
            simp only
            split
            · exact h3 _
            · exact h2
          | list qs => exact h2
  unfold Circuit.momentData at h
  cases q with
  | int q =>
    simp only [bind, Except.bind, Except.ok.injEq] at h
    rw [← h]
    exact step _ _ _ (by simp)
  | list qs =>
    cases h1 : pyMin qs with
    | error e => simp only [h1, bind, Except.bind] at h; cases h
    | ok lb =>
      cases h2 : pyMax qs with
      | error e => simp only [h1, h2, bind, Except.bind] at h; cases h
      | ok ub =>
        simp only [h1, h2, bind, Except.bind, Except.ok.injEq] at h
        rw [← h]
        exact step _ _ _ (by simp)

theorem momentData_no_meas {c : Circuit R} {q : RegArg} {g : GateObj R} {m : List (GateObj R)}
    (h : c.momentData q g = .ok m) (hg : g.isMeas = false) : ∀ g' ∈ m, g'.isMeas = false :=
  momentData_all (p := fun g => g.isMeas = false) (fun _ _ => rfl) h hg

/-- Every call that is carried out hands one layer to the flow. -/
theorem callM_populates {c c' : Circuit R} {k : Call R} {b : Bool} (h : c.callM k = .ok (c', b)) :
    ∃ m f b', c' = { c with flow := f } ∧ c.flow.populate m = .ok (f, b') ∧
      ((∀ g ∈ m, g.isMeas = false) ∨ k = .measureAll) := by
  have add : ∀ {q : RegArg} {g : GateObj R} {c' : Circuit R} {b : Bool}, g.isMeas = false →
      c.addMoment q g = .ok (c', b) → ∃ m f b', c' = { c with flow := f } ∧
      c.flow.populate m = .ok (f, b') ∧ ((∀ g ∈ m, g.isMeas = false) ∨ k = .measureAll) := by
    intro q g c' b hg h
    unfold Circuit.addMoment at h
    cases hm : c.momentData q g with
    | error e => rw [hm] at h; cases h
    | ok m =>
      cases hp : c.flow.populate m with
      | error e => simp only [hm, hp, bind, Except.bind] at h; cases h
      | ok r =>
        simp only [hm, hp, bind, Except.bind] at h
        cases h
        exact ⟨m, r.1, r.2, rfl, hp, .inl (momentData_no_meas hm hg)⟩
  have one : ∀ {q : Int} {o : Option Nat} {mk : Nat → GateObj R}, (∀ d, (mk d).isMeas = false) →
      (do c.validate q o; let d ← c.gateDims q o; c.addMoment (.int q) (mk d)) = .ok (c', b) →
      ∃ m f b', c' = { c with flow := f } ∧
      c.flow.populate m = .ok (f, b') ∧ ((∀ g ∈ m, g.isMeas = false) ∨ k = .measureAll) := by
    intro q o mk hmk h
    cases hv : c.validate q o with
    | error e => simp only [hv, bind, Except.bind] at h; cases h
    | ok u =>
      cases hd : c.gateDims q o with
      | error e => simp only [hv, hd, bind, Except.bind] at h; cases h
      | ok d =>
        simp only [hv, hd, bind, Except.bind] at h
        exact add (hmk d) h
  cases k with
  | h q o => exact one (fun _ => rfl) h
  | x q o p => exact one (fun _ => rfl) h
  | z q o => exact one (fun _ => rfl) h
  | cx a t p => exact add rfl h
  | toffoli cs t p =>
    simp only [Circuit.callM] at h
    cases hm : toffoliDm (R := R) cs t p c.qregs.seq with
    | error e => simp only [hm, bind, Except.bind] at h; cases h
    | ok r =>
      obtain ⟨U, lb, ub, ds⟩ := r
      simp only [hm, bind, Except.bind] at h
      split at h
      · cases h
      · rename_i r' hr'
        cases h
        exact add rfl hr'
  | gate U q o =>
    cases q with
    | int q => exact one (fun _ => rfl) h
    | list qs =>
      simp only [Circuit.callM] at h
      cases hv : (qs.forM fun q => c.validate q o : PyM Unit) with
      | error e => rw [hv] at h; cases h
      | ok u =>
        rw [hv] at h
        have gen : ∀ x : PyM DimArg, (do let d ← x; c.addMoment (.list qs) (.arb (.list qs) d U)) = .ok (c', b) →
            ∃ m f b', c' = { c with flow := f } ∧ c.flow.populate m = .ok (f, b') ∧
              ((∀ g ∈ m, g.isMeas = false) ∨ Call.gate U (.list qs) o = .measureAll) := by
          intro x hx
          cases x with
          | error e => cases hx
          | ok d => exact add rfl hx
        rcases o with _ | _ | o
        · cases hx : qs.mapM (pyGet c.regDims) with
          | error e => rw [hx] at h; cases h
          | ok ds => rw [hx] at h; exact gen (.ok (.list ds)) h
        · cases hx : qs.mapM (pyGet c.regDims) with
          | error e => rw [hx] at h; cases h
          | ok ds => rw [hx] at h; exact gen (.ok (.list ds)) h
        · exact gen (.ok (.int (o + 1))) h
  | measure q => cases h
  | measureAll =>
    simp only [Circuit.callM, bind, Except.bind] at h
    split at h
    · cases h
    · rename_i r hr
      cases h
      exact ⟨_, r.1, r.2, rfl, hr, .inr rfl⟩

theorem Origin.mono {ds ds' : List (Deed R)} {m : List (GateObj R)} (h : Origin ds m) (hs : ds ⊆ ds') :
    Origin ds' m := by
  rcases h with h | ⟨ms, h, hx⟩
  · exact .inl (hs h)
  · exact .inr ⟨ms, hs h, hx⟩

theorem Trace.mono {n : Nat} {ds ds' : List (Deed R)} {f : Flow R} (h : Trace n ds f) (hs : ds ⊆ ds') :
    Trace n ds' f :=
  ⟨h.ne, h.len, h.cnt, fun m hm hx => (h.src m hm hx).mono hs⟩

theorem Trace.feed {n : Nat} {ds : List (Deed R)} {f : Flow R} (h : Trace n ds f)
    {ms : List (List (GateObj R))} (hms : ∀ m ∈ ms, Origin ds m) : Trace n ds (f.feed ms).1 := by
  induction ms generalizing f with
  | nil => exact h
  | cons m ms ih =>
    have h' := h.grow (feedOne_grow h.ne) fun _ => hms m (by simp)
    rw [Flow.feed]
    split
    · rename_i hf; rw [hf] at h'; exact h'
    · rename_i hf; rw [hf] at h'; exact h'
    · rename_i hf; rw [hf] at h'; exact h'
    · rename_i hf; rw [hf] at h'; exact ih h' fun m hm => hms m (by simp [hm])

theorem Trace.deed {n : Nat} {ds : List (Deed R)} {c : Circuit R} (h : Trace n ds c.flow) (d : Deed R) :
    Trace n (ds ++ [d]) (c.deed d).flow := by
  have h0 : Trace n (ds ++ [d]) c.flow := h.mono (by simp)
  cases d with
  | call k =>
    simp only [Circuit.deed, Circuit.call]
    cases hk : c.callM k with
    | error e => exact h0
    | ok r =>
      obtain ⟨c', b⟩ := r
      obtain ⟨m, f, b', rfl, hp, hm⟩ := callM_populates hk
      apply h0.grow (populate_grow h.ne hp)
      intro hx
      rcases hm with hm | rfl
      · exact absurd hx (not_measAt hm)
      · exact .inl (by simp)
  | hand ms =>
    simp only [Circuit.deed, Circuit.feed]
    apply h0.feed
    intro m hm
    exact .inr ⟨ms, by simp, m, hm, fun _ => Iff.rfl, rfl⟩

theorem Trace.deeds {n : Nat} {ds ds' : List (Deed R)} {c : Circuit R} (h : Trace n ds c.flow) :
    Trace n (ds ++ ds') (c.deeds ds').flow := by
  induction ds' generalizing c ds with
  | nil => simpa [Circuit.deeds] using h
  | cons d ds' ih =>
    have := ih (h.deed d)
    simpa [Circuit.deeds, List.append_assoc] using this

theorem Trace.fresh {q : RegsArg} {dims : List Nat} {init : List Int} {out : Option Output} :
    Trace dims.length [] (freshCircuit (R := R) q dims init out).flow := by
  refine ⟨by simp [freshCircuit], by simp [freshCircuit], ?_, ?_⟩
  · intro i hi
    simp [freshCircuit, List.getD_eq_getElem?_getD, List.getElem?_replicate] at hi
    split at hi <;> simp at hi
  · intro m hm hx
    simp only [freshCircuit, List.mem_singleton] at hm
    subst hm
    refine absurd hx (not_measAt fun g hg => ?_)
    have := (initOps_isInit dims init g hg).1
    cases g <;> simp_all [GateObj.isInit, GateObj.isMeas]

/-! ### Running -/

variable [StarRing R] [DecidableEq R] [UnitaryCheck R]

theorem kronFold_meas (N : Numerics R) (B : Backend R) {gs : List (GateObj R)} (h : ∃ g ∈ gs, g.isMeas = true)
    (u : B.M) : ∃ e, gs.foldlM (fun acc g => do Except.ok (B.kron acc (← g.unitary N B))) u = .error e := by
  induction gs generalizing u with
  | nil => simp at h
  | cons g gs ih =>
    rw [List.foldlM_cons]
    cases hg : g.unitary N B with
    | error e => exact ⟨e, rfl⟩
    | ok v =>
      have hm : g.isMeas = false := by
        cases g <;> first | rfl | (simp [GateObj.unitary] at hg)
      obtain ⟨g', hg', hm'⟩ := h
      rcases List.mem_cons.1 hg' with rfl | hg'
      · rw [hm] at hm'; cases hm'
      · exact ih ⟨g', hg', hm'⟩ _

theorem momentExec_meas (N : Numerics R) (B : Backend R) {m : List (GateObj R)}
    (h : ∃ g ∈ m, g.isMeas = true) : ∃ e, momentExec N B m = .error e := by
  cases m with
  | nil => exact ⟨_, rfl⟩
  | cons g gs =>
    simp only [momentExec]
    cases hg : g.unitary N B with
    | error e => exact ⟨e, rfl⟩
    | ok v =>
      have hm : g.isMeas = false := by
        cases g <;> first | rfl | (simp [GateObj.unitary] at hg)
      obtain ⟨g', hg', hm'⟩ := h
      rcases List.mem_cons.1 hg' with rfl | hg'
      · rw [hm] at hm'; cases hm'
      · exact kronFold_meas N B ⟨g', hg', hm'⟩ v

theorem flowLoopAny_error (N : Numerics R) (B : Backend R) {ms : List (List (GateObj R))}
    (h : ∃ m ∈ ms, ∃ e, momentExecAny N B m = .error e) (acc : Option B.M) :
    ∃ e, flowLoopAny N B ms acc = .error e := by
  induction ms generalizing acc with
  | nil => simp at h
  | cons m ms ih =>
    cases hm : momentExecAny N B m with
    | error e => exact ⟨e, by simp only [flowLoopAny, hm]; rfl⟩
    | ok k =>
      have h' : ∃ m ∈ ms, ∃ e, momentExecAny N B m = .error e := by
        obtain ⟨m', hm', e, he⟩ := h
        rcases List.mem_cons.1 hm' with rfl | hm'
        · rw [hm] at he; cases he
        · exact ⟨m', hm', e, he⟩
      cases acc with
      | none =>
        simp only [flowLoopAny, hm, bind, Except.bind]
        exact ih h' k
      | some d =>
        cases k with
        | none => exact ⟨_, by simp only [flowLoopAny, hm]; rfl⟩
        | some k =>
          simp only [flowLoopAny, hm, bind, Except.bind]
          cases hd : B.dot d k with
          | error e => exact ⟨e, rfl⟩
          | ok p => exact ih h' _

theorem momentExecAny_eq (N : Numerics R) (B : Backend R) {m : List (GateObj R)} (h : ∀ q, m ≠ [.meas q]) :
    momentExecAny N B m = (do .ok (some (← momentExec N B m))) := by
  unfold momentExecAny
  split
  · exact absurd rfl (h _)
  · rfl

theorem flowLoopAny_eq (N : Numerics R) (B : Backend R) {ms : List (List (GateObj R))}
    (h : ∀ m ∈ ms, ∀ q, m ≠ [.meas q]) (acc : Option B.M) : flowLoopAny N B ms acc = flowLoop N B ms acc := by
  induction ms generalizing acc with
  | nil => rfl
  | cons m ms ih =>
    have hm := momentExecAny_eq N B (h m (by simp))
    have ih' := ih fun m hm => h m (by simp [hm])
    simp only [flowLoopAny, flowLoop, hm]
    cases momentExec N B m with
    | error e => rfl
    | ok k =>
      cases acc with
      | none => exact ih' _
      | some d =>
        simp only [bind, Except.bind]
        cases B.dot d k with
        | error e => rfl
        | ok p => exact ih' _

/-- Without lone measurements, `runAny` is `run`. -/
theorem runAny_eq (N : Numerics R) (B : Backend R) {c : Circuit R}
    (h : ∀ m ∈ c.flow.moments.dropLast, ∀ q, m ≠ [.meas q]) : c.runAny N B = (c.run N B).2 := by
  have e : c.runAny N B = c.runResult N B := by
    unfold Circuit.runAny Circuit.runResult Flow.exec
    split
    · split
      · rfl
      · rw [flowLoopAny_eq N B (by intro m hm; exact h m (List.mem_reverse.1 hm))]
        cases flowLoop N B c.flow.moments.dropLast.reverse none with
        | error e => rfl
        | ok o => cases o <;> rfl
    · rfl
  rw [e]
  unfold Circuit.run
  cases c.runResult N B <;> rfl

end

end QuDiet
