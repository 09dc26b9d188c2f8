import Verif.Props.Readers

/-! # C82: a measurement that no other thread disturbs, and the end of `run()` -/

namespace QuDiet
open Spec

variable {R : Type} [CommRing R]

/-! ### Threads that stop early -/

/-- The threads `ts` are at the same points as `ts'`, but have to make the calls `rest` afterwards. -/
def Longer (rest : Nat → List (Call R)) (ts ts' : List (Thread R)) : Prop :=
  ts.length = ts'.length ∧ ∀ (i : Nat) t t', ts[i]? = some t → ts'[i]? = some t' → t.pc = t'.pc ∧ t.todo = t'.todo ++ rest i

theorem Longer.set {rest : Nat → List (Call R)} {ts ts' : List (Thread R)} (h : Longer rest ts ts') {i : Nat} {u u' : Thread R}
    (hu : u.pc = u'.pc ∧ u.todo = u'.todo ++ rest i) : Longer rest (ts.set i u) (ts'.set i u') := by
  refine ⟨by rw [List.length_set, List.length_set]; exact h.1, ?_⟩
  intro j t t' ht ht'
  by_cases hij : i = j
  · subst hij
    by_cases hi : i < ts.length
    · rw [List.getElem?_set_self hi] at ht
      rw [List.getElem?_set_self (by rw [← h.1]; exact hi)] at ht'
      cases ht
      cases ht'
      exact hu
    · rw [List.getElem?_eq_none (by simpa using hi)] at ht
      cases ht
  · rw [List.getElem?_set_ne hij] at ht ht'
    exact h.2 j t t' ht ht'

theorem stepThread_frame (s : Circuit R × List (Thread R)) (i : Nat) : ∃ f, (stepThread s i).1 = { s.1 with flow := f } := by
  unfold stepThread
  split
  · exact ⟨s.1.flow, rfl⟩
  · unfold Thread.step
    split
    · split
      · exact ⟨s.1.flow, rfl⟩
      · split <;> exact ⟨s.1.flow, rfl⟩
    · exact ⟨_, rfl⟩

theorem steps_frame (x : List Nat) (s : Circuit R × List (Thread R)) : ∃ f, (x.foldl stepThread s).1 = { s.1 with flow := f } := by
  induction x generalizing s with
  | nil => exact ⟨s.1.flow, rfl⟩
  | cons i x ih =>
    obtain ⟨f, hf⟩ := ih (stepThread s i)
    obtain ⟨g, hg⟩ := stepThread_frame s i
    exact ⟨f, by rw [List.foldl_cons, hf, hg]⟩

theorem layers_stay (x : List Nat) (s : Circuit R × List (Thread R)) :
    s.1.flow.moments.length ≤ (x.foldl stepThread s).1.flow.moments.length := by
  induction x generalizing s with
  | nil => exact le_refl _
  | cons i x ih =>
    refine le_trans ?_ (ih (stepThread s i))
    unfold stepThread
    split
    · exact le_refl _
    · rename_i t _
      obtain ⟨pc, td⟩ := t
      have key : ∀ pc : Pc R, s.1.flow.moments.length ≤ (pc.step s.1.flow).1.moments.length := by
        intro pc
        cases pc <;> simp only [Pc.step] <;> repeat' split
        all_goals simp
      cases pc with
      | idle =>
        cases td with
        | nil => exact le_refl _
        | cons k ks => simp only [Thread.step]; cases s.1.layerOf k <;> exact le_refl _
      | _ => exact key _

theorem Longer.step {rest : Nat → List (Call R)} {c : Circuit R} {ts ts' : List (Thread R)} (h : Longer rest ts ts') (i : Nat)
    (hlong : ∀ u, (stepThread (c, ts) i).2[i]? = some u → (rest i).length ≤ u.todo.length) :
    (stepThread (c, ts) i).1 = (stepThread (c, ts') i).1 ∧ Longer rest (stepThread (c, ts) i).2 (stepThread (c, ts') i).2 := by
  cases hi : ts[i]? with
  | none =>
    have hi' : ts'[i]? = none := by rw [List.getElem?_eq_none_iff] at hi ⊢; rw [← h.1]; exact hi
    simp only [stepThread, hi, hi']
    exact ⟨trivial, h⟩
  | some t =>
    obtain ⟨t', hi'⟩ : ∃ t', ts'[i]? = some t' := by
      have := (List.getElem?_eq_some_iff.1 hi).1
      rw [h.1] at this
      exact ⟨_, List.getElem?_eq_getElem this⟩
    have hl := hlong _ (stepThread_self (c, ts) hi)
    obtain ⟨h1, h2⟩ := h.2 i t t' hi hi'
    obtain ⟨pc, todo⟩ := t
    obtain ⟨pc', todo'⟩ := t'
    simp only at h1 h2
    subst h1 h2
    simp only [stepThread, hi, hi']
    cases pc with
    | idle =>
      cases todo' with
      | nil =>
        simp only [List.nil_append, Thread.step] at hl ⊢
        cases hr : rest i with
        | nil => exact ⟨rfl, h.set ⟨rfl, by simp [hr]⟩⟩
        | cons k ks =>
          rw [hr] at hl
          exfalso
          revert hl
          simp only
          cases c.layerOf k <;> simp
      | cons k ks =>
        simp only [List.cons_append, Thread.step]
        cases c.layerOf k with
        | error e => exact ⟨rfl, h.set ⟨rfl, rfl⟩⟩
        | ok m => exact ⟨rfl, h.set ⟨rfl, rfl⟩⟩
    | _ => exact ⟨rfl, h.set ⟨rfl, rfl⟩⟩

theorem Longer.steps {rest : Nat → List (Call R)} {c : Circuit R} {ts ts' : List (Thread R)} (h : Longer rest ts ts') (s : List Nat)
    (hlong : ∀ (i : Nat) u, (s.foldl stepThread (c, ts)).2[i]? = some u → (rest i).length ≤ u.todo.length) :
    (s.foldl stepThread (c, ts)).1 = (s.foldl stepThread (c, ts')).1 ∧
      Longer rest (s.foldl stepThread (c, ts)).2 (s.foldl stepThread (c, ts')).2 := by
  induction s generalizing c ts ts' with
  | nil => exact ⟨rfl, h⟩
  | cons i s ih =>
    obtain ⟨h1, h2⟩ := h.step (c := c) i (by
      intro u hu
      obtain ⟨u', hu', hle⟩ := todo_shrinks s hu
      exact le_trans (hlong i u' hu') hle)
    have := ih (c := (stepThread (c, ts) i).1) h2 hlong
    rw [List.foldl_cons, List.foldl_cons]
    refine (?_ : _ ∧ _)
    have e : stepThread (c, ts') i = ((stepThread (c, ts) i).1, (stepThread (c, ts') i).2) := by rw [h1]
    rw [e]
    exact this

/-! ### One thread at work -/

theorem Thread.many_idle (c c' : Circuit R) (td : List (Call R)) :
    ∀ n, Thread.many (c, { pc := .idle, todo := td }) n = (c', { pc := .idle, todo := td }) → c' = c := by
  have shrink : ∀ n (s : Circuit R × Thread R), (Thread.many s n).2.todo.length ≤ s.2.todo.length := by
    intro n
    induction n with
    | zero => intro s; exact le_refl _
    | succ n ih =>
      intro s
      refine le_trans (ih _) ?_
      obtain ⟨c, pc, td⟩ := s
      cases pc with
      | idle =>
        cases td with
        | nil => exact le_refl _
        | cons k ks => simp only [Thread.step]; cases c.layerOf k <;> simp
      | _ => exact le_refl _
  intro n
  cases td with
  | nil =>
    have : ∀ n, Thread.many (c, { pc := .idle, todo := [] }) n = (c, { pc := .idle, todo := [] }) := by
      intro n
      induction n with
      | zero => rfl
      | succ n ih => exact ih
    rw [this]
    intro h
    cases h
    rfl
  | cons k ks =>
    cases n with
    | zero => intro h; cases h; rfl
    | succ n =>
      intro h
      exfalso
      have h1 := shrink n (Thread.step c { pc := .idle, todo := k :: ks })
      have h2 : (Thread.step c { pc := .idle, todo := k :: ks }).2.todo = ks := by
        simp only [Thread.step]; cases c.layerOf k <;> rfl
      rw [h2] at h1
      rw [Thread.many] at h
      change Thread.many (Thread.step c { pc := .idle, todo := k :: ks }) n = _ at h
      rw [h] at h1
      simp at h1

theorem Thread.many_unique {s : Circuit R × Thread R} {c c' : Circuit R} {td : List (Call R)} {a b : Nat}
    (ha : Thread.many s a = (c, { pc := .idle, todo := td })) (hb : Thread.many s b = (c', { pc := .idle, todo := td })) : c = c' := by
  rcases Nat.le_total a b with h | h
  · obtain ⟨d, rfl⟩ := Nat.exists_eq_add_of_le h
    rw [Thread.many_add, ha] at hb
    exact (Thread.many_idle _ _ _ _ hb).symm
  · obtain ⟨d, rfl⟩ := Nat.exists_eq_add_of_le h
    rw [Thread.many_add, hb] at ha
    exact Thread.many_idle _ _ _ _ ha

theorem steps_one (n : Nat) (c : Circuit R) (ts : List (Thread R)) {i : Nat} {t : Thread R} (hi : ts[i]? = some t) :
    (List.replicate n i).foldl stepThread (c, ts) = ((Thread.many (c, t) n).1, ts.set i (Thread.many (c, t) n).2) := by
  induction n generalizing c ts t with
  | zero =>
    have : ts.set i t = ts := by
      apply List.ext_getElem?
      intro j
      by_cases hij : i = j
      · subst hij; rw [List.getElem?_set_self (List.getElem?_eq_some_iff.1 hi).1, hi]
      · rw [List.getElem?_set_ne hij]
    exact congrArg (Prod.mk c) this.symm
  | succ n ih =>
    rw [List.replicate_succ, List.foldl_cons]
    have e : stepThread (c, ts) i = ((t.step c).1, ts.set i (t.step c).2) := by
      simp only [stepThread, hi]
    rw [e, ih _ _ (List.getElem?_set_self (List.getElem?_eq_some_iff.1 hi).1), List.set_set]
    rfl

/-! ### After the measurement -/

/-- The circuit is measured, and no thread is going to change it. -/
def AtRest (c : Circuit R) (ts : List (Thread R)) : Prop :=
  c.flow.measCount.all (· ≠ 0) = true ∧ ∀ t ∈ ts, t.pc = .idle ∨ ∃ m, t.pc = .begun m

theorem AtRest.step {c : Circuit R} {ts : List (Thread R)} (h : AtRest c ts) (i : Nat) :
    (stepThread (c, ts) i).1 = c ∧ AtRest c (stepThread (c, ts) i).2 := by
  obtain ⟨hm, ht⟩ := h
  cases hi : ts[i]? with
  | none => simp only [stepThread, hi]; exact ⟨trivial, hm, ht⟩
  | some t =>
    have key : (t.step c).1 = c ∧ ((t.step c).2.pc = .idle ∨ ∃ m, (t.step c).2.pc = .begun m) := by
      obtain ⟨pc, td⟩ := t
      rcases ht _ (List.mem_of_getElem? hi) with h | ⟨m, h⟩
      · simp only at h
        subst h
        cases td with
        | nil => exact ⟨rfl, .inl rfl⟩
        | cons k ks =>
          simp only [Thread.step]
          cases c.layerOf k with
          | error e => exact ⟨rfl, .inl rfl⟩
          | ok m => exact ⟨rfl, .inr ⟨m, rfl⟩⟩
      · simp only at h
        subst h
        simp only [Thread.step, Pc.step, hm, if_true]
        exact ⟨trivial, .inl trivial⟩
    simp only [stepThread, hi]
    refine ⟨key.1, hm, ?_⟩
    intro u hu
    rcases List.mem_or_eq_of_mem_set hu with hu | rfl
    · exact ht u hu
    · exact key.2

theorem AtRest.reads {c : Circuit R} (s : List (Option Nat)) : ∀ {ts : List (Thread R)}, AtRest c ts → ∀ r : Rc R,
    (s.foldl stepWhile ((c, ts), r)).2 = (Rc.step c.flow)^[s.count none] r := by
  induction s with
  | nil => intro ts _ r; rfl
  | cons x s ih =>
    intro ts h r
    cases x with
    | none =>
      rw [List.foldl_cons, List.count_cons_self, Function.iterate_succ_apply]
      exact ih h _
    | some i =>
      rw [List.foldl_cons, List.count_cons_of_ne (by simp)]
      obtain ⟨h1, h2⟩ := h.step i
      have e : stepWhile ((c, ts), r) (some i) = ((c, (stepThread (c, ts) i).2), r) := by
        exact congrArg (·, r) (Prod.ext h1 rfl)
      rw [e]
      exact ih h2 r

variable [StarRing R] [DecidableEq R] [UnitaryCheck R] {N : Numerics R} {dims : List Nat} {init : List Int} {c0 : Circuit R}
  {progs : List (List (Call R))}

theorem Rc.value_stays {B : Backend R} {c : Circuit R} {r : Rc R} {v : PyM (List (Key × R))} (h : r.value N B c = some v) (f : Flow R)
    (n : Nat) : ((Rc.step f)^[n] r).value N B c = some v := by
  have : ∀ r : Rc R, r.value N B c = some v → Rc.step f r = r := by
    intro r h
    cases r <;> first | rfl | cases h
  induction n with
  | zero => exact h
  | succ n ih => rw [Function.iterate_succ_apply, this r h]; exact ih

theorem map_some_steps (s : List Nat) (σ : Circuit R × List (Thread R)) (r : Rc R) :
    (s.map some).foldl stepWhile (σ, r) = (s.foldl stepThread σ, r) := by
  induction s generalizing σ with
  | nil => rfl
  | cons i s ih => exact ih (stepThread σ i)

/-- **C82.** If no thread is within a call when one calls `measure_all()`, and that call is not disturbed, then `run()`
returns the result of the calls made before, whatever the threads do afterwards. -/
theorem C82_measured_alone [Nontrivial R] (hN : N.Sized) {B : Backend R} (hB : B.Lawful) (hne : dims ≠ [])
    (h : ValidStart (dims.map Int.ofNat) init) (hc : Circuit.new (.list (dims.map Int.ofNat)) init none = .ok c0)
    (s0 : List Nat) {fins : List (List (Call R))} (hlen : fins.length = progs.length)
    (h0 : ∀ (i : Nat) p t fin, progs[i]? = some p → (runThreads c0 progs s0).2[i]? = some t → fins[i]? = some fin →
      t.pc = .idle ∧ p = fin ++ t.todo)
    (hv : ∀ p ∈ fins, ∀ k ∈ p, k.Valid dims)
    (hap : fins.Pairwise fun p p' => ∀ k ∈ p, ∀ k' ∈ p', ∀ r, ¬ (k.touches r ∧ k'.touches r))
    (i n : Nat) {rest : List (Call R)} (hi : (runThreads c0 progs s0).2[i]? = some { pc := .idle, todo := .measureAll :: rest })
    (hi' : (runThreads c0 progs (s0 ++ List.replicate n i)).2[i]? = some { pc := .idle, todo := rest })
    (s2 : List (Option Nat)) {v : PyM (List (Key × R))}
    (hval : (runWhile c0 progs ((s0 ++ List.replicate n i).map some ++ s2)).2.value N B c0 = some v) :
    v = script N B (.list (dims.map Int.ofNat)) init none (fins.flatten ++ [.measureAll]) := by
  -- the calls made so far
  obtain ⟨σ, hσ⟩ : ∃ σ, σ = runThreads c0 progs s0 := ⟨_, rfl⟩
  have hts : σ.2.length = progs.length := by
    have : ∀ (s : List Nat) (τ : Circuit R × List (Thread R)), (s.foldl stepThread τ).2.length = τ.2.length := by
      intro s
      induction s with
      | nil => intro τ; rfl
      | cons i s ih =>
        intro τ
        rw [List.foldl_cons, ih]
        unfold stepThread
        split
        · rfl
        · exact List.length_set ..
    rw [hσ]
    unfold runThreads
    rw [this, List.length_map]
  have hthr : ∀ (j : Nat) t, σ.2[j]? = some t → ∃ p fin, progs[j]? = some p ∧ fins[j]? = some fin ∧ t.pc = .idle ∧ p = fin ++ t.todo := by
    intro j t ht
    have hj := (List.getElem?_eq_some_iff.1 ht).1
    have h1 : progs[j]? = some progs[j] := List.getElem?_eq_getElem (by omega)
    have h2 : fins[j]? = some fins[j] := List.getElem?_eq_getElem (by omega)
    exact ⟨_, _, h1, h2, h0 j _ t _ h1 (by rw [← hσ]; exact ht) h2⟩
  obtain ⟨rests, hrests⟩ : ∃ rests : Nat → List (Call R), ∀ j, rests j = ((σ.2[j]?).map (·.todo)).getD [] := ⟨_, fun _ => rfl⟩
  have hstart : Longer rests (progs.map fun l => { pc := .idle, todo := l }) (fins.map fun l => { pc := .idle, todo := l }) := by
    refine ⟨by simp [hlen], ?_⟩
    intro j t t' ht ht'
    rw [List.getElem?_map, Option.map_eq_some_iff] at ht ht'
    obtain ⟨p, hp, rfl⟩ := ht
    obtain ⟨fin, hfin, rfl⟩ := ht'
    refine ⟨rfl, ?_⟩
    have hj := (List.getElem?_eq_some_iff.1 hp).1
    have hu : σ.2[j]? = some σ.2[j] := List.getElem?_eq_getElem (by omega)
    rw [hrests, hu]
    exact (h0 j p _ fin hp (by rw [← hσ]; exact hu) hfin).2
  obtain ⟨e1, e2⟩ := hstart.steps (c := c0) s0 (by
    intro j u hu
    rw [hrests, hσ]
    unfold runThreads
    rw [hu]
    exact le_refl _)
  change (runThreads c0 progs s0).1 = (runThreads c0 fins s0).1 at e1
  change Longer rests (runThreads c0 progs s0).2 (runThreads c0 fins s0).2 at e2
  have hdone : ∀ t ∈ (runThreads c0 fins s0).2, t.Done := by
    intro t ht
    obtain ⟨j, hj, rfl⟩ := List.mem_iff_getElem.1 ht
    have hj' : j < σ.2.length := by rw [hσ, e2.1]; exact hj
    have hu : σ.2[j]? = some σ.2[j] := List.getElem?_eq_getElem hj'
    obtain ⟨g1, g2⟩ := e2.2 j _ _ (by rw [← hσ]; exact hu) (List.getElem?_eq_getElem hj)
    obtain ⟨p, fin, _, _, g3, _⟩ := hthr j _ hu
    refine ⟨by rw [← g1]; exact g3, ?_⟩
    rw [hrests, hu] at g2
    simpa using g2
  have hres := C80_threads hN hB hne h hv hap hc s0 hdone
  rw [← e1, ← hσ] at hres
  -- the measurement
  have hne' : σ.1.flow.moments ≠ [] := by
    intro e
    have h1 := layers_stay s0 (c0, progs.map fun l => { pc := .idle, todo := l })
    change _ ≤ (runThreads c0 progs s0).1.flow.moments.length at h1
    rw [← hσ, e] at h1
    obtain ⟨dims, _, _, rfl⟩ := new_fresh hc
    simp [freshCircuit] at h1
  obtain ⟨⟨n', hn'⟩, _⟩ := Thread.call σ.1 hne' .measureAll rest
  rw [← hσ] at hi
  have hrun : runThreads c0 progs (s0 ++ List.replicate n i) = (List.replicate n i).foldl stepThread (σ.1, σ.2) := by
    unfold runThreads at hσ ⊢
    rw [List.foldl_append, ← hσ]
  have hone := steps_one n σ.1 σ.2 hi
  rw [hrun, hone] at hi'
  simp only at hi'
  rw [List.getElem?_set_self (List.getElem?_eq_some_iff.1 hi).1, Option.some.injEq] at hi'
  have hmeas : (Thread.many (σ.1, { pc := .idle, todo := .measureAll :: rest }) n).1 = (σ.1.call .measureAll).1 :=
    Thread.many_unique (a := n) (b := n') (by rw [← hi']) hn'
  have hrun' : runThreads c0 progs (s0 ++ List.replicate n i) =
      ((σ.1.call .measureAll).1, σ.2.set i { pc := .idle, todo := rest }) := by
    rw [hrun, hone, hmeas, hi']
  obtain ⟨c1, hc1⟩ : ∃ c1, c1 = (σ.1.call .measureAll).1 := ⟨_, rfl⟩
  rw [← hc1] at hrun'
  have hres' : (c1.run N B).2 = script N B (.list (dims.map Int.ofNat)) init none (fins.flatten ++ [.measureAll]) := by
    rw [hc1]; exact hres
  have hok := script_valid hN hB hne h (out := none) (by simp) (ks := fins.flatten) (fun k hk => by
    obtain ⟨p, hp, hk⟩ := List.mem_flatten.1 hk
    exact hv p hp k hk) []
  have hall : c1.flow.measCount.all (· ≠ 0) = true := by
    by_contra hall
    rw [hok] at hres'
    have : (c1.run N B).2 = .error .assertion := by
      have : c1.runResult N B = .error .assertion := by
        unfold Circuit.runResult Flow.exec
        rw [if_neg hall]
        rfl
      unfold Circuit.run
      rw [this]
    rw [this] at hres'
    cases hres'
  have hrest : AtRest c1 (σ.2.set i { pc := .idle, todo := rest }) := by
    refine ⟨hall, fun t ht => .inl ?_⟩
    rcases List.mem_or_eq_of_mem_set ht with ht | rfl
    · obtain ⟨j, hj, rfl⟩ := List.mem_iff_getElem.1 ht
      obtain ⟨_, _, _, _, g, _⟩ := hthr j _ (List.getElem?_eq_getElem hj)
      exact g
    · rfl
  -- what `run()` reads
  have hout : ∀ r : Rc R, r.value N B c0 = r.value N B c1 := by
    obtain ⟨f, hf⟩ := steps_frame (s0 ++ List.replicate n i) (c0, progs.map fun l => { pc := .idle, todo := l })
    change (runThreads c0 progs (s0 ++ List.replicate n i)).1 = _ at hf
    rw [hrun'] at hf
    simp only at hf
    intro r
    rw [hf]
    cases r <;> rfl
  unfold runWhile at hval
  rw [List.foldl_append, map_some_steps] at hval
  change ((s2.foldl stepWhile (runThreads c0 progs (s0 ++ List.replicate n i), .start)).2).value N B c0 = some v at hval
  rw [hrun', hrest.reads, hout] at hval
  obtain ⟨m, hm⟩ := C82_run_alone N B c1 []
  have halone : ∀ m, (runWhile c1 ([] : List (List (Call R))) (List.replicate m none)).2 = (Rc.step c1.flow)^[m] .start := by
    intro m
    have := AtRest.reads (c := c1) (List.replicate m none) (ts := []) ⟨hall, by simp⟩ .start
    rw [List.count_replicate_self] at this
    exact this
  rw [halone] at hm
  have e := Rc.value_stays hval c1.flow m
  have e' := Rc.value_stays hm c1.flow (s2.count none)
  rw [← Function.iterate_add_apply] at e e'
  rw [Nat.add_comm, e', Option.some.injEq] at e
  rw [← e, hres']

omit [StarRing R] [DecidableEq R] [UnitaryCheck R] in
theorem steps_rest (s : List (Option Nat)) (σ : (Circuit R × List (Thread R)) × Rc R) (P : Nat → Rc R → Prop)
    (h0 : ∀ r, P 0 r → ∀ f, P 0 (r.step f)) (h1 : ∀ n r, P (n + 1) r → ∀ f, P n (r.step f)) (n : Nat) (hn : s.count none = n)
    (m : Nat) (hP : P (m + n) σ.2) : P m (s.foldl stepWhile σ).2 := by
  induction s generalizing σ n with
  | nil => cases hn; exact hP
  | cons x s ih =>
    cases x with
    | none =>
      rw [List.count_cons_self] at hn
      subst hn
      exact ih (stepWhile σ none) _ rfl (h1 _ _ hP _)
    | some i =>
      rw [List.count_cons_of_ne (by simp)] at hn
      exact ih (stepWhile σ (some i)) n hn hP

/-- The steps that `run()` still takes, once it has copied the list of layers. -/
def Rc.left : Rc R → Nat
  | .start => 0
  | .copied n => 2 * n + 2
  | .reading todo _ => 2 * todo.length + 1
  | .inside _ _ todo _ => 2 * todo.length + 2
  | .raised _ => 0
  | .finished _ => 0

/-- **C82.** `run()` does not wait for other threads: once it has looked at the list of layers, it comes to an end after a
number of steps of its own that no other thread can change. -/
theorem C82_run_finishes (N : Numerics R) (B : Backend R) (c : Circuit R) (progs : List (List (Call R))) (s : List (Option Nat)) :
    ∃ n, ∀ s', n ≤ s'.count none → ∃ v, (runWhile c progs (s ++ none :: s')).2.value N B c = some v := by
  have hstep : ∀ (r : Rc R) f, r ≠ .start → r.step f ≠ .start ∧ (r.step f).left ≤ r.left - 1 := by
    intro r f hr
    cases r with
    | start => exact (hr rfl).elim
    | copied n =>
      simp only [Rc.step]
      split
      · split
        · exact ⟨by simp, by simp [Rc.left]⟩
        · exact ⟨by simp, by simp only [Rc.left, List.length_reverse, List.length_range]; omega⟩
      · exact ⟨by simp, by simp [Rc.left]⟩
    | reading todo seen =>
      cases todo with
      | nil => exact ⟨by simp [Rc.step], by simp [Rc.step, Rc.left]⟩
      | cons a as =>
        simp only [Rc.step]
        split
        · exact ⟨by simp, by simp only [Rc.left, List.length_cons]; omega⟩
        · exact ⟨by simp, by simp only [Rc.left, List.length_cons]; omega⟩
    | inside g a todo seen => exact ⟨by simp [Rc.step], by simp only [Rc.step, Rc.left]; omega⟩
    | raised e => exact ⟨by simp [Rc.step], by simp [Rc.step, Rc.left]⟩
    | finished seen => exact ⟨by simp [Rc.step], by simp [Rc.step, Rc.left]⟩
  have hend : ∀ r : Rc R, r ≠ .start → r.left = 0 → ∃ v, r.value N B c = some v := by
    intro r hr h
    cases r with
    | start => exact (hr rfl).elim
    | raised e => exact ⟨_, rfl⟩
    | finished seen => exact ⟨_, rfl⟩
    | _ => simp [Rc.left] at h
  obtain ⟨σ, hσ⟩ : ∃ σ, σ = runWhile c progs (s ++ [none]) := ⟨_, rfl⟩
  have hns : σ.2 ≠ .start := by
    rw [hσ]
    unfold runWhile
    rw [List.foldl_append, List.foldl_cons, List.foldl_nil]
    by_cases h : (s.foldl stepWhile ((c, progs.map fun l => { pc := .idle, todo := l }), .start)).2 = .start
    · simp only [stepWhile, h, Rc.step]
      simp
    · exact (hstep _ _ h).1
  refine ⟨σ.2.left, fun s' hs' => ?_⟩
  have e : runWhile c progs (s ++ none :: s') = s'.foldl stepWhile σ := by
    rw [hσ]
    unfold runWhile
    rw [← List.foldl_append, List.append_assoc, List.singleton_append]
  rw [e]
  have := steps_rest s' σ (fun n r => r ≠ .start ∧ r.left ≤ n) (fun r hr f => by
      obtain ⟨h1, h2⟩ := hstep r f hr.1
      exact ⟨h1, by omega⟩) (fun n r hr f => by
      obtain ⟨h1, h2⟩ := hstep r f hr.1
      exact ⟨h1, by omega⟩) _ rfl 0 ⟨hns, by omega⟩
  exact hend _ this.1 (by omega)

/-- A thread calls `x(0)` and `measure_all()`, then another one begins `x(1)` while `run()` is at work: in every schedule
`run()` returns the level list 1, 0. -/
example {c : Circuit ℤ} (hc : Circuit.new (.list [2, 2]) [] none = .ok c) : ∃ s : List Nat, ∀ s2 v,
    (runWhile c [[.x 0 none 1, .measureAll], [.x 1 none 1]] (s.map some ++ s2)).2.value sampleN (numpyBackend ℤ) c = some v →
    v = .ok [(.str (label [1, 0]), 1)] := by
  have hc' := hc
  rw [new_two hc] at hc' ⊢
  have e0 : runThreads (madeCircuit (R := ℤ) [] [0, 0]) [[.x 0 none 1, .measureAll], [.x 1 none 1]] ([0, 0, 0, 0] ++ [0, 0, 0, 0]) =
      (madeCircuit [[.x 0 2 1, .ident 1 2]] [0, 0], [{ pc := .idle, todo := [.measureAll] }, { pc := .idle, todo := [.x 1 none 1] }]) := by
    unfold runThreads
    rw [List.foldl_append]
    refine (congrArg (fun s => [0, 0, 0, 0].foldl stepThread s) (late1 [.measureAll] { pc := .idle, todo := [.x 1 none 1] })).trans ?_
    exact late2 _ _
  have e1 : runThreads (madeCircuit (R := ℤ) [] [0, 0]) [[.x 0 none 1, .measureAll], [.x 1 none 1]]
      (([0, 0, 0, 0] ++ [0, 0, 0, 0]) ++ List.replicate 6 0) =
      (madeCircuit [[.x 0 2 1, .ident 1 2], measLayer 2] [1, 1],
        [{ pc := .idle, todo := [] }, { pc := .idle, todo := [.x 1 none 1] }]) := by
    unfold runThreads at e0 ⊢
    rw [List.foldl_append, e0, show List.replicate 6 0 = [0, 0, 0] ++ [0, 0, 0] from rfl, List.foldl_append, late4, late5]
  refine ⟨([0, 0, 0, 0] ++ [0, 0, 0, 0]) ++ List.replicate 6 0, fun s2 v hval => ?_⟩
  rw [C82_measured_alone (dims := [2, 2]) (init := []) (progs := [[.x 0 none 1, .measureAll], [.x 1 none 1]]) sampleN_sized numpy_lawful (by simp) (validStart_of rfl) hc'
    ([0, 0, 0, 0] ++ [0, 0, 0, 0]) (fins := [[.x 0 none 1], []]) rfl (by
      intro i p t fin hp ht hf
      rw [e0] at ht
      match i, hp with
      | 0, hp => cases hp; cases ht; cases hf; exact ⟨rfl, rfl⟩
      | 1, hp => cases hp; cases ht; cases hf; exact ⟨rfl, rfl⟩)
    (by simp [Call.Valid, InRange, DimOK]) (by simp) 0 6 (rest := []) (by rw [e0]; rfl) (by rw [e1]; rfl) s2 hval]
  decide +kernel

end QuDiet
