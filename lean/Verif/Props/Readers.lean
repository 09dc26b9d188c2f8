import Verif.Readers
import Verif.Props.Threads
import Verif.Lemmas.Measuring

/-! # C82: running and measuring a circuit while other threads build it -/

namespace QuDiet
open Spec

variable {R : Type} [CommRing R]

/-! ### `run()` alone -/

/-- The layer of `measure_all()`. -/
def measLayer (n : Nat) : List (GateObj R) := (List.range n).map .meas

theorem Rc.read_all (f : Flow R) : ∀ (k : Nat), k ≤ f.moments.length → ∀ seen, ∃ n,
    (Rc.step f)^[n] (.reading (List.range k).reverse seen) = .finished (seen ++ (f.moments.take k).reverse) := by
  intro k
  induction k with
  | zero => intro _ seen; exact ⟨1, by simp [Rc.step]⟩
  | succ k ih =>
    intro hk seen
    have hg : f.moments[k]? = some f.moments[k] := List.getElem?_eq_getElem (by omega)
    have e : (f.moments.take (k + 1)).reverse = f.moments[k] :: (f.moments.take k).reverse := by
      rw [List.take_succ, hg]; simp
    obtain ⟨n, hn⟩ := ih (by omega) (seen ++ [f.moments[k]])
    have hr : (List.range (k + 1)).reverse = k :: (List.range k).reverse := by rw [List.range_succ]; simp
    rw [e, hr]
    have hn' : (Rc.step f)^[n] (.reading (List.range k).reverse (seen ++ [f.moments[k]])) =
        .finished (seen ++ f.moments[k] :: (f.moments.take k).reverse) := by rw [hn]; simp
    cases hm : f.moments[k] with
    | nil =>
      refine ⟨n + 1, ?_⟩
      rw [Function.iterate_succ_apply]
      simp only [Rc.step, List.getD_eq_getElem?_getD, hg, Option.getD_some, hm]
      rw [hm] at hn'
      exact hn'
    | cons g gs =>
      refine ⟨n + 2, ?_⟩
      rw [Function.iterate_add_apply, Function.iterate_succ_apply, Function.iterate_one]
      simp only [Rc.step, List.getD_eq_getElem?_getD, hg, Option.getD_some, hm, List.tail_cons]
      rw [hm] at hn'
      exact hn'

section
variable [StarRing R] [DecidableEq R] [UnitaryCheck R]

/-- **C82.** A call of `run()` with no other thread at work is that of the other properties. -/
theorem C82_run_alone (N : Numerics R) (B : Backend R) (c : Circuit R) (progs : List (List (Call R))) :
    ∃ n, (runWhile c progs (List.replicate n none)).2.value N B c = some (c.run N B).2 := by
  have steps : ∀ n (r : Rc R) ts, (List.replicate n none).foldl stepWhile ((c, ts), r) = ((c, ts), (Rc.step c.flow)^[n] r) := by
    intro n
    induction n with
    | zero => intro r ts; rfl
    | succ n ih => intro r ts; rw [List.replicate_succ, List.foldl_cons, Function.iterate_succ_apply]; exact ih _ _
  have hrun : (c.run N B).2 = c.runResult N B := by
    unfold Circuit.run
    cases c.runResult N B <;> rfl
  unfold runWhile
  rw [hrun]
  by_cases hall : c.flow.measCount.all (· ≠ 0) = true
  · by_cases hnil : c.flow.moments = []
    · refine ⟨2, ?_⟩
      rw [steps]
      simp only [Function.iterate_succ_apply, Function.iterate_zero, id, Rc.step, hall, if_true, hnil, List.length_nil, Rc.value]
      unfold Circuit.runResult Flow.exec
      simp only [hall, if_true, hnil, List.isEmpty_nil]
      rfl
    · have hlen : c.flow.moments.length ≠ 0 := by simpa using hnil
      obtain ⟨n, hn⟩ := Rc.read_all c.flow (c.flow.moments.length - 1) (by omega) []
      refine ⟨n + 2, ?_⟩
      rw [steps]
      rw [Function.iterate_add_apply, Function.iterate_succ_apply, Function.iterate_one]
      simp only [Rc.step, hall, if_true, hlen, if_false]
      rw [hn]
      simp only [Rc.value, List.nil_append]
      unfold Circuit.runResult Flow.exec
      rw [if_pos hall, if_neg (by simpa using hnil), List.dropLast_eq_take]
      rfl
  · refine ⟨2, ?_⟩
    rw [steps]
    simp only [Function.iterate_succ_apply, Function.iterate_zero, id, Rc.step, hall, Rc.value]
    unfold Circuit.runResult Flow.exec
    simp only [hall]
    rfl

end

/-! ### After the measurement -/

/-- Thread `i` was about to put `g` on register `q` of layer `a`. -/
def Early (ts : List (Thread R)) (i : Nat) (g : GateObj R) (q : Int) (a : Nat) : Prop :=
  ∃ t m j, ts[i]? = some t ∧ (t.pc = .looking m g q a ∨ t.pc = .replacing m g q a ∨ t.pc = .writing g q a j)

theorem Early.unique {ts : List (Thread R)} {i : Nat} {g g' : GateObj R} {q q' : Int} {a a' : Nat} (h : Early ts i g q a)
    (h' : Early ts i g' q' a') : g = g' ∧ q = q' ∧ a = a' := by
  obtain ⟨t, m, j, ht, h⟩ := h
  obtain ⟨t', m', j', ht', h'⟩ := h'
  rw [ht] at ht'
  cases ht'
  rcases h with h | h | h <;> rcases h' with h' | h' | h' <;> rw [h] at h' <;> cases h' <;> exact ⟨rfl, rfl, rfl⟩

/-- The operators `m'` are those of `m`, but some of the threads may have put their gates there. -/
def Choice (ts : List (Thread R)) (a : Nat) (m' m : List (GateObj R)) : Prop :=
  m'.length = m.length ∧ ∀ j : Nat, m'[j]? = m[j]? ∨
    ∃ (i : Nat) (g : GateObj R) (r d : Nat), Early ts i g r a ∧ m[j]? = some (GateObj.ident r d) ∧ m'[j]? = some g

/-- Where a thread can be after the measurement: `L` are the layers before it, `ts0` the threads then. -/
def Pc.After (L : List (List (GateObj R))) (ts0 : List (Thread R)) (i : Nat) : Pc R → Prop
  | .looking _ g q a => L.length ≤ a ∨ Early ts0 i g q a
  | .replacing _ g q a => L.length < a ∨ a < L.length ∧ Early ts0 i g q a
  | .writing g q a j => L.length < a ∨
    Early ts0 i g q a ∧ ∃ (r d : Nat) (m : List (GateObj R)), q = r ∧ L[a]? = some m ∧ m[j]? = some (GateObj.ident r d)
  | _ => True

/-- The circuit and the threads after the measurement. -/
structure After (n : Nat) (L : List (List (GateObj R))) (ts0 : List (Thread R)) (c : Circuit R) (ts : List (Thread R)) : Prop where
  lay : ∀ (a : Nat) (m : List (GateObj R)), L[a]? = some m → ∃ m', c.flow.moments[a]? = some m' ∧ Choice ts0 a m' m
  meas : c.flow.moments[L.length]? = some (measLayer n)
  thr : ∀ (i : Nat) (t : Thread R), ts[i]? = some t → t.pc.After L ts0 i

theorem identRegs_measLayer (n : Nat) : identRegs (measLayer (R := R) n) = [] := by
  unfold identRegs measLayer
  rw [List.filterMap_eq_nil_iff]
  intro g hg
  obtain ⟨i, _, rfl⟩ := List.mem_map.1 hg
  rfl

theorem find_measLayer (n : Nat) : (measLayer (R := R) n).find? (·.isHXZ) = none := by
  rw [List.find?_eq_none]
  intro g hg
  obtain ⟨i, _, rfl⟩ := List.mem_map.1 hg
  simp [GateObj.isHXZ]

theorem getQregMoment_ident {q : Int} {m : List (GateObj R)} {i : Nat} {r d : Nat} {j : Nat}
    (h : getQregMoment q m i = .ok (some (.ident r d, j))) : q = r := by
  induction m generalizing i with
  | nil => simp [getQregMoment] at h
  | cons g m ih =>
    simp only [getQregMoment, bind, Except.bind] at h
    cases hg : g.actingOn with
    | error e => rw [hg] at h; cases h
    | ok x =>
      rw [hg] at h
      cases x with
      | int q' =>
        simp only at h
        split at h
        · next e =>
          simp only [Except.ok.injEq, Option.some.injEq, Prod.mk.injEq] at h
          rw [h.1] at hg
          cases hg
          exact e
        · exact ih h
      | list qs =>
        simp only at h
        split at h
        · simp only [Except.ok.injEq, Option.some.injEq, Prod.mk.injEq] at h
          rw [h.1] at hg
          cases hg
        · exact ih h

theorem set_thr {P : Nat → Thread R → Prop} {ts : List (Thread R)} {i : Nat} {t' : Thread R}
    (h : ∀ (j : Nat) t, ts[j]? = some t → P j t) (h' : P i t') : ∀ (j : Nat) t, (ts.set i t')[j]? = some t → P j t := by
  intro j t hj
  by_cases hij : i = j
  · subst hij
    by_cases hi : i < ts.length
    · rw [List.getElem?_set_self hi] at hj
      cases hj
      exact h'
    · rw [List.getElem?_eq_none (by simpa using hi)] at hj
      cases hj
  · rw [List.getElem?_set_ne hij] at hj
    exact h j t hj

theorem After.step {n : Nat} {L : List (List (GateObj R))} {ts0 ts : List (Thread R)} {c : Circuit R}
    (h : After n L ts0 c ts) (hg : ∀ i g q a, Early ts0 i g q a → g.isIdent = false) (i : Nat) :
    After n L ts0 (stepThread (c, ts) i).1 (stepThread (c, ts) i).2 := by
  cases hi : ts[i]? with
  | none => simp only [stepThread, hi]; exact h
  | some t =>
    have hok := h.thr i t hi
    simp only [stepThread, hi]
    have silent : ∀ t' : Thread R, t'.pc.After L ts0 i → After n L ts0 c (ts.set i t') :=
      fun t' h' => ⟨h.lay, h.meas, set_thr h.thr h'⟩
    have hlen : L.length < c.flow.moments.length := (List.getElem?_eq_some_iff.1 h.meas).1
    have ident : ∀ a (q : Int), q ∈ identRegs (c.flow.moments.getD a []) → a ≠ L.length := by
      rintro a q hq rfl
      rw [List.getD_eq_getElem?_getD, h.meas, Option.getD_some, identRegs_measLayer] at hq
      cases hq
    obtain ⟨pc, todo⟩ := t
    cases pc with
    | idle =>
      cases todo with
      | nil => exact silent _ trivial
      | cons k ks =>
        simp only [Thread.step]
        cases c.layerOf k with
        | error e => exact silent _ trivial
        | ok m => exact silent _ trivial
    | begun m =>
      simp only [Thread.step, Pc.step]
      split
      · exact silent _ trivial
      · split
        · exact silent _ trivial
        · split <;> exact silent _ trivial
    | choosing m g q => exact silent _ (.inl (by omega))
    | looking m g q a =>
      simp only [Thread.step, Pc.step]
      by_cases hq : q ∈ identRegs (c.flow.moments.getD a [])
      · rw [if_pos hq]
        have hne := ident a q hq
        refine silent { pc := .replacing m g q a, todo := todo } ?_
        rcases hok with h1 | h1
        · exact .inl (by omega)
        · by_cases ha : a < L.length
          · exact .inr ⟨ha, h1⟩
          · exact .inl (by omega)
      · rw [if_neg hq]
        exact silent _ trivial
    | replacing m g q a =>
      simp only [Thread.step, Pc.step]
      rcases hget : getQregMoment q (c.flow.moments.getD a []) 0 with e | (_ | ⟨g', j⟩)
      · exact silent _ trivial
      · exact silent _ trivial
      · simp only
        by_cases hid : g'.isIdent = true
        · rw [if_pos hid]
          refine silent { pc := .writing g q a j, todo := todo } ?_
          rcases hok with h1 | ⟨ha, h1⟩
          · exact .inl h1
          · refine .inr ⟨h1, ?_⟩
            obtain ⟨m', hm', _, hch⟩ := h.lay a _ (List.getElem?_eq_getElem ha)
            rw [List.getD_eq_getElem?_getD, hm', Option.getD_some] at hget
            obtain ⟨_, hj⟩ := getQregMoment_get hget
            cases g' with
            | ident r d =>
              refine ⟨r, d, _, getQregMoment_ident hget, List.getElem?_eq_getElem ha, ?_⟩
              rw [Nat.sub_zero] at hj
              rcases hch j with h2 | ⟨i', g'', r', d', he, _, h2⟩
              · rw [← h2]; exact hj
              · rw [hj] at h2
                injection h2 with h2
                have := hg _ _ _ _ he
                rw [← h2] at this
                cases this
            | _ => cases hid
        · rw [if_neg hid]
          exact silent _ trivial
    | writing g q a j =>
      simp only [Thread.step, Pc.step]
      refine ⟨?_, ?_, set_thr h.thr trivial⟩
      · intro b m hb
        obtain ⟨m', hm', hl, hch⟩ := h.lay b m hb
        have hblt := (List.getElem?_eq_some_iff.1 hb).1
        simp only
        by_cases hab : a = b
        · subst hab
          rw [List.getElem?_set_self (by omega), List.getD_eq_getElem?_getD, hm', Option.getD_some]
          refine ⟨_, rfl, by simpa using hl, ?_⟩
          rcases hok with h1 | ⟨h1, r, d, m0, rfl, hm0, hj0⟩
          · omega
          · rw [hb] at hm0
            cases hm0
            intro j'
            by_cases hjj : j = j'
            · subst hjj
              right
              refine ⟨i, g, r, d, h1, hj0, List.getElem?_set_self ?_⟩
              have := (List.getElem?_eq_some_iff.1 hj0).1
              omega
            · rw [List.getElem?_set_ne hjj]
              exact hch j'
        · rw [List.getElem?_set_ne hab]
          exact ⟨m', hm', hl, hch⟩
      · simp only
        rw [List.getElem?_set_ne]
        · exact h.meas
        · rcases hok with h1 | ⟨h1, r, d, m0, rfl, hm0, hj0⟩
          · omega
          · have := (List.getElem?_eq_some_iff.1 hm0).1
            omega
    | appending m =>
      simp only [Thread.step, Pc.step]
      refine ⟨?_, ?_, set_thr h.thr trivial⟩
      · intro b m hb
        obtain ⟨m', hm', hl, hch⟩ := h.lay b m hb
        have hblt := (List.getElem?_eq_some_iff.1 hb).1
        simp only
        rw [List.getElem?_append_left (by omega)]
        exact ⟨m', hm', hl, hch⟩
      · simp only
        rw [List.getElem?_append_left (by omega)]
        exact h.meas
    | counting m j =>
      simp only [Thread.step, Pc.step]
      cases m[j]? with
      | none => exact silent _ trivial
      | some g =>
        simp only
        split
        · exact ⟨h.lay, h.meas, set_thr h.thr trivial⟩
        · exact silent _ trivial

/-! ### Counting the measurements -/

/-- A thread with the program `p`: it has not begun a `measure_all()`, or it is in the middle of one, or one has been
counted on all registers. -/
def Counts (n : Nat) (p : List (Call R)) (mc : List Nat) (t : Thread R) : Prop :=
  (∃ fin, p = fin ++ t.todo ∧ ∀ k ∈ fin, k.isMeasureAll = false) ∨ t.pc = .begun (measLayer n) ∨
    t.pc = .appending (measLayer n) ∨ (∃ j, t.pc = .counting (measLayer n) j ∧ ∀ j' < j, mc.getD j' 0 ≠ 0) ∨
    mc.all (· ≠ 0) = true

/-- All threads, and the circuit. -/
structure Counted (n : Nat) (progs : List (List (Call R))) (c : Circuit R) (ts : List (Thread R)) : Prop where
  regs : c.regLength = n
  len : c.flow.measCount.length = n
  thr : ∀ (i : Nat) (t : Thread R), ts[i]? = some t → ∀ p, progs[i]? = some p → Counts n p c.flow.measCount t

theorem layerOf_measureAll (c : Circuit R) : c.layerOf .measureAll = .ok (measLayer c.regLength) := rfl

theorem all_of_getD {mc : List Nat} {n : Nat} (hlen : mc.length = n) (h : ∀ j < n, mc.getD j 0 ≠ 0) :
    mc.all (· ≠ 0) = true := by
  rw [List.all_eq_true]
  intro x hx
  obtain ⟨j, hj, rfl⟩ := List.mem_iff_getElem.1 hx
  have := h j (by omega)
  rw [List.getD_eq_getElem?_getD, List.getElem?_eq_getElem hj, Option.getD_some] at this
  simpa using this

theorem getD_all {mc : List Nat} (h : mc.all (· ≠ 0) = true) {j : Nat} (hj : j < mc.length) : mc.getD j 0 ≠ 0 := by
  rw [List.all_eq_true] at h
  rw [List.getD_eq_getElem?_getD, List.getElem?_eq_getElem hj, Option.getD_some]
  simpa using h _ (List.getElem_mem hj)

theorem getD_set_one {mc : List Nat} {j j' : Nat} (h : mc.getD j' 0 ≠ 0) : (mc.set j 1).getD j' 0 ≠ 0 := by
  rw [List.getD_eq_getElem?_getD] at h ⊢
  by_cases e : j = j'
  · subst e
    by_cases hj : j < mc.length
    · rw [List.getElem?_set_self hj]; simp
    · rw [List.getElem?_eq_none (by omega)] at h
      exact (h rfl).elim
  · rw [List.getElem?_set_ne e]; exact h

theorem all_set_one {mc : List Nat} {j : Nat} (h : mc.all (· ≠ 0) = true) : (mc.set j 1).all (· ≠ 0) = true := by
  refine all_of_getD (List.length_set ..) fun j' hj' => getD_set_one (getD_all h hj')

theorem Counts.set {n : Nat} {p : List (Call R)} {mc : List Nat} {t : Thread R} (h : Counts n p mc t) (j : Nat) :
    Counts n p (mc.set j 1) t := by
  rcases h with h | h | h | ⟨j', h, h'⟩ | h
  · exact .inl h
  · exact .inr (.inl h)
  · exact .inr (.inr (.inl h))
  · exact .inr (.inr (.inr (.inl ⟨j', h, fun i hi => getD_set_one (h' i hi)⟩)))
  · exact .inr (.inr (.inr (.inr (all_set_one h))))

theorem Counted.step {n : Nat} {progs : List (List (Call R))} {c : Circuit R} {ts : List (Thread R)}
    (h : Counted n progs c ts) (i : Nat) : Counted n progs (stepThread (c, ts) i).1 (stepThread (c, ts) i).2 := by
  cases hi : ts[i]? with
  | none => simp only [stepThread, hi]; exact h
  | some t =>
    simp only [stepThread, hi]
    -- a step that changes neither the counts nor what is left to do
    have keep : ∀ (f : Flow R) (t' : Thread R), f.measCount = c.flow.measCount →
        (∀ p, progs[i]? = some p → Counts n p c.flow.measCount t') →
        Counted n progs { c with flow := f } (ts.set i t') := by
      intro f t' hf ht
      refine ⟨h.regs, by simp only; rw [hf]; exact h.len, ?_⟩
      simp only
      rw [hf]
      exact set_thr (P := fun i t => ∀ p, progs[i]? = some p → Counts n p c.flow.measCount t) h.thr ht
    have moved : ∀ (t' : Thread R), t'.todo = t.todo → t.pc ≠ .begun (measLayer n) → t.pc ≠ .appending (measLayer n) →
        (∀ j, t.pc ≠ .counting (measLayer n) j) → ∀ p, progs[i]? = some p → Counts n p c.flow.measCount t' := by
      intro t' ht h1 h2 h3 p hp
      rcases h.thr i t hi p hp with h' | h' | h' | ⟨j, h', _⟩ | h'
      · exact .inl (by rw [ht]; exact h')
      · exact (h1 h').elim
      · exact (h2 h').elim
      · exact (h3 j h').elim
      · exact .inr (.inr (.inr (.inr h')))
    obtain ⟨pc, todo⟩ := t
    cases pc with
    | idle =>
      cases todo with
      | nil => exact keep c.flow _ rfl (h.thr i _ hi)
      | cons k ks =>
        simp only [Thread.step]
        -- the call is begun
        have begin' : ∀ (pc : Pc R), (k.isMeasureAll = true → pc = .begun (measLayer n)) →
            ∀ p, progs[i]? = some p → Counts n p c.flow.measCount { pc := pc, todo := ks } := by
          intro pc hk p hp
          rcases h.thr i _ hi p hp with ⟨fin, h1, h2⟩ | h' | h' | ⟨j, h', _⟩ | h'
          · cases hm : k.isMeasureAll with
            | true => exact .inr (.inl (hk hm))
            | false =>
              refine .inl ⟨fin ++ [k], by simpa using h1, ?_⟩
              intro k' hk'
              rcases List.mem_append.1 hk' with hk' | hk'
              · exact h2 k' hk'
              · rw [List.mem_singleton.1 hk']; exact hm
          · cases h'
          · cases h'
          · cases h'
          · exact .inr (.inr (.inr (.inr h')))
        have hmeas : k.isMeasureAll = true → c.layerOf k = .ok (measLayer n) := by
          intro hk
          cases k <;> first | cases hk | skip
          rw [layerOf_measureAll, h.regs]
        cases hl : c.layerOf k with
        | error e => exact keep c.flow _ rfl (begin' .idle fun hk => by rw [hmeas hk] at hl; cases hl)
        | ok m => exact keep c.flow _ rfl (begin' (.begun m) fun hk => by rw [hmeas hk] at hl; cases hl; rfl)
    | begun m =>
      by_cases hm : m = measLayer n
      · subst hm
        simp only [Thread.step, Pc.step, find_measLayer]
        by_cases hall : c.flow.measCount.all (· ≠ 0) = true
        · rw [if_pos hall]
          exact keep c.flow _ rfl fun p _ => .inr (.inr (.inr (.inr hall)))
        · rw [if_neg hall]
          exact keep c.flow _ rfl fun p _ => .inr (.inr (.inl rfl))
      · have hm' : (Pc.begun m : Pc R) ≠ .begun (measLayer n) := fun e => hm (by cases e; rfl)
        simp only [Thread.step, Pc.step]
        split
        · exact keep c.flow _ rfl (moved _ rfl hm' (by simp) (by simp))
        · split
          · exact keep c.flow _ rfl (moved _ rfl hm' (by simp) (by simp))
          · split <;> exact keep c.flow _ rfl (moved _ rfl hm' (by simp) (by simp))
    | choosing m g q => exact keep c.flow _ rfl (moved _ rfl (by simp) (by simp) (by simp))
    | looking m g q a =>
      simp only [Thread.step, Pc.step]
      split <;> exact keep c.flow _ rfl (moved _ rfl (by simp) (by simp) (by simp))
    | replacing m g q a =>
      simp only [Thread.step, Pc.step]
      split
      · split <;> exact keep c.flow _ rfl (moved _ rfl (by simp) (by simp) (by simp))
      · exact keep c.flow _ rfl (moved _ rfl (by simp) (by simp) (by simp))
    | writing g q a j => exact keep _ _ rfl (moved _ rfl (by simp) (by simp) (by simp))
    | appending m =>
      simp only [Thread.step, Pc.step]
      refine keep _ _ rfl ?_
      by_cases hm : m = measLayer n
      · subst hm
        exact fun p _ => .inr (.inr (.inr (.inl ⟨0, rfl, by simp⟩)))
      · exact moved _ rfl (by simp) (fun e => hm (by cases e; rfl)) (by simp)
    | counting m j =>
      by_cases hm : m = measLayer n
      · subst hm
        have hc := h.thr i _ hi
        simp only [Thread.step, Pc.step]
        cases hj : (measLayer (R := R) n)[j]? with
        | none =>
          have hj' : n ≤ j := by simpa [measLayer] using hj
          refine keep c.flow _ rfl fun p hp => ?_
          rcases hc p hp with h' | h' | h' | ⟨j', h', hcnt⟩ | h'
          · exact .inl h'
          · cases h'
          · cases h'
          · cases h'
            exact .inr (.inr (.inr (.inr (all_of_getD h.len fun i' hi' => hcnt i' (by omega)))))
          · exact .inr (.inr (.inr (.inr h')))
        | some g =>
          have hjn : j < n := by
            have := (List.getElem?_eq_some_iff.1 hj).1
            simpa [measLayer] using this
          have hgm : g.isMeas = true := by
            have := List.mem_of_getElem? hj
            obtain ⟨_, _, rfl⟩ := List.mem_map.1 this
            rfl
          simp only [hgm, if_true]
          refine ⟨h.regs, by simpa using h.len, ?_⟩
          refine set_thr (P := fun i t => ∀ p, progs[i]? = some p → Counts n p (c.flow.measCount.set j 1) t)
            (fun i' t' ht' p hp => (h.thr i' t' ht' p hp).set j) fun p hp => ?_
          rcases hc p hp with h' | h' | h' | ⟨j', h', hcnt⟩ | h'
          · exact .inl h'
          · cases h'
          · cases h'
          · cases h'
            refine .inr (.inr (.inr (.inl ⟨j + 1, rfl, fun i' hi' => ?_⟩)))
            by_cases e : i' = j
            · subst e
              rw [List.getD_eq_getElem?_getD, List.getElem?_set_self (by rw [h.len]; exact hjn)]
              simp
            · exact getD_set_one (hcnt i' (by omega))
          · exact .inr (.inr (.inr (.inr (all_set_one h'))))
      · have hm' : ∀ j', (Pc.counting m j : Pc R) ≠ .counting (measLayer n) j' := fun j' e => hm (by cases e; rfl)
        simp only [Thread.step, Pc.step]
        cases m[j]? with
        | none => exact keep c.flow _ rfl (moved _ rfl (by simp) (by simp) hm')
        | some g =>
          simp only
          have hmv := moved { pc := .counting m (j + 1), todo := todo } rfl (by simp) (by simp) hm'
          split
          · refine ⟨h.regs, by simpa using h.len, ?_⟩
            exact set_thr (P := fun i t => ∀ p, progs[i]? = some p → Counts n p (c.flow.measCount.set j 1) t)
              (fun i' t' ht' p hp => (h.thr i' t' ht' p hp).set j) fun p hp => (hmv p hp).set j
          · exact keep c.flow _ rfl hmv

/-! ### Before the measurement -/

/-- What a thread still has to do from its first `measure_all()` on. -/
def fromMeasure (p : List (Call R)) : List (Call R) := p.dropWhile fun k => !k.isMeasureAll

theorem live_fromMeasure (p : List (Call R)) : live p ++ fromMeasure p = p := List.takeWhile_append_dropWhile

theorem fromMeasure_cases (p : List (Call R)) : fromMeasure p = [] ∨ ∃ ks, fromMeasure p = .measureAll :: ks := by
  cases h : fromMeasure p with
  | nil => exact .inl rfl
  | cons k ks =>
    right
    have := List.head_dropWhile_not (fun k : Call R => !k.isMeasureAll) (l := p) (by unfold fromMeasure at h; rw [h]; simp)
    unfold fromMeasure at h
    simp only [h, List.head_cons, Bool.not_eq_false'] at this
    cases k <;> first | exact ⟨ks, rfl⟩ | cases this

/-- The thread `t` with the program `p` is where the thread `t'` is that leaves away what comes from the first
`measure_all()` on, or it is in its first `measure_all()`. -/
def Sim (n : Nat) (p : List (Call R)) (t t' : Thread R) : Prop :=
  (t.pc = t'.pc ∧ t.todo = t'.todo ++ fromMeasure p) ∨
    t'.Done ∧ (t.pc = .begun (measLayer n) ∨ t.pc = .appending (measLayer n)) ∧ fromMeasure p = .measureAll :: t.todo

/-- All threads. -/
structure Before (n : Nat) (progs : List (List (Call R))) (ts ts' : List (Thread R)) : Prop where
  len : ts.length = progs.length
  len' : ts'.length = progs.length
  sim : ∀ (i : Nat) t t' p, ts[i]? = some t → ts'[i]? = some t' → progs[i]? = some p → Sim n p t t'

theorem Before.set {n : Nat} {progs : List (List (Call R))} {ts ts' : List (Thread R)} (h : Before n progs ts ts') {i : Nat}
    {u u' : Thread R} (hu : ∀ p, progs[i]? = some p → Sim n p u u') : Before n progs (ts.set i u) (ts'.set i u') := by
  refine ⟨by rw [List.length_set]; exact h.len, by rw [List.length_set]; exact h.len', ?_⟩
  intro j t t' p ht ht' hp
  have hj := (List.getElem?_eq_some_iff.1 hp).1
  by_cases hij : i = j
  · subst hij
    rw [List.getElem?_set_self (by rw [h.len]; exact hj)] at ht
    rw [List.getElem?_set_self (by rw [h.len']; exact hj)] at ht'
    cases ht
    cases ht'
    exact hu p hp
  · rw [List.getElem?_set_ne hij] at ht ht'
    exact h.sim j t t' p ht ht' hp

section
variable [StarRing R] [DecidableEq R] [UnitaryCheck R] {N : Numerics R} {dims : List Nat}
variable {init : List Int} {c0 c : Circuit R} {progs : List (List (Call R))} {ts ts0 : List (Thread R)}
  {layers : List (List (GateObj R) × List (Option (Block R)))} {kss : List (List (Call R))} {cur : Nat → Option (Call R)}
  {made : Nat → List (Call R)}

/-- The first `measure_all()` that takes effect. -/
theorem After.start (hr : Running N dims init c0 (progs.map live) c ts0 layers kss cur made)
    (h : Before dims.length progs ts ts0) {i : Nat} {t : Thread R} :
    After dims.length c.flow.moments ts0
      { c with flow := { c.flow with moments := c.flow.moments ++ [measLayer dims.length] } } (ts.set i { t with pc := .counting (measLayer dims.length) 0 }) := by
  refine ⟨?_, ?_, set_thr ?_ trivial⟩
  · intro a m ha
    refine ⟨m, ?_, rfl, fun j => .inl rfl⟩
    simp only
    rw [List.getElem?_append_left (List.getElem?_eq_some_iff.1 ha).1]
    exact ha
  · simp only
    rw [List.getElem?_append_right (le_refl _)]
    simp
  · intro j t hj
    have hlt := (List.getElem?_eq_some_iff.1 hj).1
    rw [h.len] at hlt
    have hp := List.getElem?_eq_getElem hlt
    have ht0 : ts0[j]? = some (ts0[j]'(by rw [h.len']; exact hlt)) := List.getElem?_eq_getElem _
    generalize (ts0[j]'(by rw [h.len']; exact hlt)) = t0 at ht0
    have hp' : (progs.map live)[j]? = some (live progs[j]) := by rw [List.getElem?_map, hp]; rfl
    have hok := (hr.thr j t0 _ ht0 hp').1
    rcases h.sim j t t0 _ hj ht0 hp with ⟨e, _⟩ | ⟨_, e | e, _⟩
    · rw [e]
      cases hpc : t0.pc with
      | looking m g q a => exact .inr ⟨t0, m, 0, ht0, .inl hpc⟩
      | replacing m g q a =>
        rw [hpc] at hok
        obtain ⟨k, _, _, _, i', r, d, mm, _, ha, _⟩ := hok
        exact .inr ⟨(List.getElem?_eq_some_iff.1 ha).1, t0, m, 0, ht0, .inr (.inl hpc)⟩
      | writing g q a j' =>
        rw [hpc] at hok
        obtain ⟨k, m, _, _, _, r, d, mm, hq, ha, hd⟩ := hok
        exact .inr ⟨⟨t0, m, j', ht0, .inr (.inr hpc)⟩, r, d, mm, hq, ha, hd⟩
      | _ => trivial
    · rw [e]; trivial
    · rw [e]; trivial

/-- One step before the measurement. -/
theorem Before.step (hr : Running N dims init c0 (progs.map live) c ts0 layers kss cur made)
    (h : Before dims.length progs ts ts0) (i : Nat) :
    (∃ x : List Nat, (stepThread (c, ts) i).1 = (x.foldl stepThread (c, ts0)).1 ∧
      Before dims.length progs (stepThread (c, ts) i).2 (x.foldl stepThread (c, ts0)).2) ∨
    (After dims.length c.flow.moments ts0 (stepThread (c, ts) i).1 (stepThread (c, ts) i).2 ∧
      ∃ p t, progs[i]? = some p ∧ (.measureAll : Call R) ∈ p ∧ ts0[i]? = some t ∧ t.Done ∧
        ∃ u, (stepThread (c, ts) i).2[i]? = some u ∧ u.todo.length < (fromMeasure p).length) := by
  cases hi : ts[i]? with
  | none => left; exact ⟨[], by simp only [stepThread, hi]; rfl, by simp only [stepThread, hi]; exact h⟩
  | some t =>
    have hlt := (List.getElem?_eq_some_iff.1 hi).1
    rw [h.len] at hlt
    have hp := List.getElem?_eq_getElem hlt
    have ht0 : ts0[i]? = some (ts0[i]'(by rw [h.len']; exact hlt)) := List.getElem?_eq_getElem _
    generalize (ts0[i]'(by rw [h.len']; exact hlt)) = t0 at ht0
    generalize progs[i] = p at hp
    have same : ts0 = ts0.set i t0 := by
      obtain ⟨h1, rfl⟩ := List.getElem?_eq_some_iff.1 ht0
      exact (List.set_getElem_self h1).symm
    rcases h.sim i t t0 p hi ht0 hp with ⟨e1, e2⟩ | ⟨hd, e1, e2⟩
    · -- both threads are at the same place
      obtain ⟨pc, todo⟩ := t
      obtain ⟨pc0, todo0⟩ := t0
      simp only at e1 e2
      subst e1 e2
      by_cases hpc : pc = .idle
      · subst hpc
        cases todo0 with
        | cons k ks =>
          left
          refine ⟨[i], ?_, ?_⟩
          · simp only [List.foldl_cons, List.foldl_nil, stepThread, hi, ht0, Thread.step, List.cons_append]
            cases c.layerOf k <;> rfl
          · simp only [List.foldl_cons, List.foldl_nil, stepThread, hi, ht0, Thread.step, List.cons_append]
            cases c.layerOf k <;>
            · refine h.set fun p' hp' => ?_
              rw [hp] at hp'
              cases hp'
              exact .inl ⟨rfl, rfl⟩
        | nil =>
          left
          refine ⟨[], ?_, ?_⟩
          · simp only [List.foldl_nil, stepThread, hi, Thread.step, List.nil_append]
            cases fromMeasure p with
            | nil => rfl
            | cons k ks => simp only; cases c.layerOf k <;> rfl
          · simp only [List.foldl_nil, stepThread, hi, Thread.step, List.nil_append]
            rcases fromMeasure_cases p with hf | ⟨ks, hf⟩
            · rw [hf]
              simp only
              rw [same]
              refine h.set fun p' hp' => ?_
              rw [hp] at hp'
              cases hp'
              exact .inl ⟨rfl, by simp [hf]⟩
            · rw [hf]
              simp only [layerOf_measureAll]
              rw [same]
              refine h.set fun p' hp' => ?_
              rw [hp] at hp'
              cases hp'
              exact .inr ⟨⟨rfl, rfl⟩, .inl (by rw [hr.shared.unm.regLength]), hf⟩
      · left
        have busy : ∀ todo, Thread.step c { pc := pc, todo := todo } =
            ({ c with flow := (pc.step c.flow).1 }, { pc := (pc.step c.flow).2, todo := todo }) := by
          intro todo
          cases pc <;> first | rfl | exact (hpc rfl).elim
        refine ⟨[i], ?_, ?_⟩
        · simp only [List.foldl_cons, List.foldl_nil, stepThread, hi, ht0, busy]
        · simp only [List.foldl_cons, List.foldl_nil, stepThread, hi, ht0, busy]
          refine h.set fun p' hp' => ?_
          rw [hp] at hp'
          cases hp'
          exact .inl ⟨rfl, rfl⟩
    · obtain ⟨pc, todo⟩ := t
      simp only at e1 e2
      rcases e1 with rfl | rfl
      · left
        refine ⟨[], ?_, ?_⟩
        · simp only [List.foldl_nil, stepThread, hi, Thread.step, Pc.step, hr.shared.unm.notAll, Bool.false_eq_true, if_false,
            find_measLayer]
        · simp only [List.foldl_nil, stepThread, hi, Thread.step, Pc.step, hr.shared.unm.notAll, Bool.false_eq_true, if_false,
            find_measLayer]
          rw [same]
          refine h.set fun p' hp' => ?_
          rw [hp] at hp'
          cases hp'
          exact .inr ⟨hd, .inr rfl, e2⟩
      · right
        refine ⟨?_, p, t0, hp, ?_, ht0, hd, { pc := .counting (measLayer dims.length) 0, todo := todo }, ?_, by rw [e2]; simp⟩
        · simp only [stepThread, hi, Thread.step, Pc.step]
          exact After.start hr h (t := { pc := .appending (measLayer dims.length), todo := todo })
        · rw [← live_fromMeasure p, e2]
          simp
        · simp only [stepThread, hi, Thread.step, Pc.step]
          exact List.getElem?_set_self (List.getElem?_eq_some_iff.1 hi).1

/-! ### What can be seen is what some schedule makes -/

theorem Shared.slot (h : Shared N dims init c layers kss) {a i r d : Nat} {m : List (GateObj R)}
    (ha : c.flow.moments[a]? = some m) (hi : m[i]? = some (.ident r d)) (hr : r < dims.length) :
    (∃ d', getQregMoment r m 0 = .ok (some (.ident r d', i))) ∧ ∀ j d', m[j]? = some (.ident r d') → j = i := by
  obtain ⟨r', d'', b, l1, l2, l, k1, k2, ks, e, rfl, hl1, hk1, e1, e2, hli⟩ := h.idle ⟨r, d, m, rfl, ha, hi⟩
  have hm : l.1 = m := by
    rw [h.unm.moments, e1] at ha
    simpa [hl1] using ha
  subst hm
  have hq : (r : Int) ∈ identRegs l.1 := by
    unfold identRegs
    rw [List.mem_filterMap]
    exact ⟨_, List.mem_of_getElem? hi, rfl⟩
  obtain ⟨m1, d0, m2, _, _, _, em, _, _, _, hget, _, _, n1, n2⟩ := (h.unm.lay l (by rw [e1]; simp)).find_ident hq hr
  have hull : ∀ d', InHull (GateObj.ident (R := R) r d').regs r := fun d' => inHull_singleton.2 rfl
  have uniq : ∀ (j : Nat) d', l.1[j]? = some (.ident r d') → j = m1.length := by
    intro j d' hj
    rw [em] at hj
    rcases Nat.lt_trichotomy j m1.length with hlt | heq | hgt
    · rw [List.getElem?_append_left hlt] at hj
      exact (n1 _ (List.mem_of_getElem? hj) (hull d')).elim
    · exact heq
    · rw [List.getElem?_append_right (by omega), show j - m1.length = (j - m1.length - 1) + 1 by omega,
        List.getElem?_cons_succ] at hj
      exact (n2 _ (List.mem_of_getElem? hj) (hull d')).elim
  have hi' := uniq i d hi
  refine ⟨⟨d0, by rw [hget 0, hi', Nat.zero_add]⟩, fun j d' hj => by rw [hi']; exact uniq j d' hj⟩

theorem foldl_replicate_step (s : Circuit R × List (Thread R)) (i : Nat) (k : Nat) :
    (List.replicate (k + 1) i).foldl stepThread s = (List.replicate k i).foldl stepThread (stepThread s i) := rfl

/-- A thread that was about to write does it. -/
theorem Running.write_now (hv : ∀ p ∈ progs, ∀ k ∈ p, k.Valid dims)
    (hr : Running N dims init c0 progs c ts layers kss cur made) {i : Nat} {g : GateObj R} {r a : Nat}
    (he : Early ts i g r a) {m : List (GateObj R)} {j d : Nat} (ha : c.flow.moments[a]? = some m)
    (hj : m[j]? = some (.ident r d)) :
    r < dims.length ∧ ∃ k, ((List.replicate k i).foldl stepThread (c, ts)).1.flow.moments = c.flow.moments.set a (m.set j g) ∧
      ∀ i' ≠ i, ((List.replicate k i).foldl stepThread (c, ts)).2[i']? = ts[i']? := by
  obtain ⟨t, m0, j0, ht, hpc⟩ := he
  obtain ⟨p, hp⟩ := hr.prog ht
  obtain ⟨hok, hmade⟩ := hr.thr i t p ht hp
  have hlt : r < dims.length := by
    have key : ∀ k m g, cur i = some k → Joins c k m g r → r < dims.length := by
      intro k m g hk hjn
      refine touches_lt (hv p (List.mem_of_getElem? hp) k ?_) ((hjn.touches r).2 rfl)
      rw [← hmade, hk]; simp
    rcases hpc with hpc | hpc | hpc <;> rw [hpc] at hok
    · obtain ⟨k, h1, h2, _⟩ := hok; exact key k _ _ h1 h2
    · obtain ⟨k, h1, h2, _⟩ := hok; exact key k _ _ h1 h2
    · obtain ⟨k, _, h1, h2, _⟩ := hok; exact key k _ _ h1 h2
  refine ⟨hlt, ?_⟩
  obtain ⟨⟨d', hget⟩, huniq⟩ := hr.shared.slot ha hj hlt
  have hset : ∀ (x : List (Thread R)) (u : Thread R), ∀ i' ≠ i, (x.set i u)[i']? = x[i']? :=
    fun x u i' h => List.getElem?_set_ne (Ne.symm h)
  have hil := (List.getElem?_eq_some_iff.1 ht).1
  have hgetD : c.flow.moments.getD a [] = m := by rw [List.getD_eq_getElem?_getD, ha]; rfl
  -- the last step
  have last : ∀ x : List (Thread R), i < x.length → (∀ i' ≠ i, x[i']? = ts[i']?) →
      x[i]? = some { pc := .writing g r a j, todo := t.todo } →
      (stepThread (c, x) i).1.flow.moments = c.flow.moments.set a (m.set j g) ∧
        ∀ i' ≠ i, (stepThread (c, x) i).2[i']? = ts[i']? := by
    intro x hx hne hxi
    simp only [stepThread, hxi, Thread.step, Pc.step, hgetD]
    exact ⟨trivial, fun i' hi' => by rw [hset _ _ i' hi', hne i' hi']⟩
  have last2 : ∀ x : List (Thread R), i < x.length → (∀ i' ≠ i, x[i']? = ts[i']?) →
      x[i]? = some { pc := .replacing m0 g r a, todo := t.todo } →
      (stepThread (stepThread (c, x) i) i).1.flow.moments = c.flow.moments.set a (m.set j g) ∧
        ∀ i' ≠ i, (stepThread (stepThread (c, x) i) i).2[i']? = ts[i']? := by
    intro x hx hne hxi
    have e : stepThread (c, x) i = (c, x.set i { pc := .writing g r a j, todo := t.todo }) := by
      simp only [stepThread, hxi, Thread.step, Pc.step, hgetD, hget, GateObj.isIdent, if_true]
    rw [e]
    refine last _ (by simpa using hx) (fun i' hi' => by rw [hset _ _ i' hi', hne i' hi']) (List.getElem?_set_self hx)
  rcases hpc with hpc | hpc | hpc
  · refine ⟨3, ?_⟩
    have e : stepThread (c, ts) i = (c, ts.set i { pc := .replacing m0 g r a, todo := t.todo }) := by
      have hq : (r : Int) ∈ identRegs m := by
        unfold identRegs
        rw [List.mem_filterMap]
        exact ⟨_, List.mem_of_getElem? hj, rfl⟩
      simp only [stepThread, ht, Thread.step, hpc, Pc.step, hgetD, if_pos hq]
    simp only [List.replicate, List.foldl_cons, List.foldl_nil]
    rw [e]
    exact last2 _ (by simpa using hil) (fun i' hi' => hset _ _ i' hi') (List.getElem?_set_self hil)
  · refine ⟨2, ?_⟩
    simp only [List.replicate, List.foldl_cons, List.foldl_nil]
    exact last2 ts hil (fun _ _ => rfl) (by rw [ht, ← hpc])
  · refine ⟨1, ?_⟩
    simp only [List.replicate, List.foldl_cons, List.foldl_nil]
    rw [hpc] at hok
    obtain ⟨k, m', _, _, _, r', d'', mm, hq, hmm, hmj⟩ := hok
    have hrr : r' = r := by exact_mod_cast hq.symm
    subst hrr
    rw [ha] at hmm
    cases hmm
    have := huniq j0 d'' hmj
    subst this
    exact last ts hil (fun _ _ => rfl) (by rw [ht, ← hpc])

/-- Operators of which some threads' gates are part and others' are not: some continuation makes just these. -/
theorem Running.view [Nontrivial R] (hN : N.Sized) (h2 : ∀ d ∈ dims, 2 ≤ d) (hap : NoSharing progs)
    (hv : ∀ p ∈ progs, ∀ k ∈ p, k.Valid dims) (hr : Running N dims init c0 progs c ts layers kss cur made)
    {ms : List (List (GateObj R))} (hlen : ms.length = c.flow.moments.length)
    (hms : ∀ (a : Nat) m' m, ms[a]? = some m' → c.flow.moments[a]? = some m → Choice ts a m' m) :
    ∃ x : List Nat, (x.foldl stepThread (c, ts)).1.flow.moments = ms := by
  have key : ∀ u, u ≤ ts.length → ∃ x : List Nat, (∀ i, u ≤ i → (x.foldl stepThread (c, ts)).2[i]? = ts[i]?) ∧
      (x.foldl stepThread (c, ts)).1.flow.moments.length = ms.length ∧
      ∀ (a : Nat) m' m, ms[a]? = some m' → c.flow.moments[a]? = some m →
        ∃ m'', (x.foldl stepThread (c, ts)).1.flow.moments[a]? = some m'' ∧ m''.length = m'.length ∧
          ∀ j : Nat, m''[j]? = m'[j]? ∨ m''[j]? = m[j]? ∧ ∃ (i : Nat) (g : GateObj R) (r d : Nat), u ≤ i ∧ Early ts i g r a ∧
            m[j]? = some (GateObj.ident r d) ∧ m'[j]? = some g := by
    intro u
    induction u with
    | zero =>
      intro _
      refine ⟨[], fun _ _ => rfl, hlen.symm, ?_⟩
      intro a m' m ha hm
      obtain ⟨h1, h3⟩ := hms a m' m ha hm
      refine ⟨m, hm, h1.symm, fun j => ?_⟩
      rcases h3 j with h4 | ⟨i, g, r, d, h5, h6, h7⟩
      · exact .inl h4.symm
      · exact .inr ⟨rfl, i, g, r, d, Nat.zero_le _, h5, h6, h7⟩
    | succ u ih =>
      intro hu
      obtain ⟨x, hx1, hx2, hx3⟩ := ih (by omega)
      by_cases hex : ∃ (a : Nat) (m' m m'' : List (GateObj R)) (j : Nat) (g : GateObj R) (r d : Nat), ms[a]? = some m' ∧
          c.flow.moments[a]? = some m ∧ (x.foldl stepThread (c, ts)).1.flow.moments[a]? = some m'' ∧ m''[j]? = m[j]? ∧
          Early ts u g r a ∧ m[j]? = some (GateObj.ident r d) ∧ m'[j]? = some g
      · obtain ⟨a, m', m, m'', j, g, r, d, e1, e2, e3, e4, e5, e6, e7⟩ := hex
        obtain ⟨ly, ks, cu, ma, hr', _⟩ := hr.steps hN h2 hap hv x
        have he : Early (x.foldl stepThread (c, ts)).2 u g r a := by
          obtain ⟨t, m1, j1, h3, h4⟩ := e5
          exact ⟨t, m1, j1, by rw [hx1 u (le_refl _)]; exact h3, h4⟩
        rw [e6] at e4
        obtain ⟨hrl, k, hk1, hk2⟩ := hr'.write_now hv he e3 e4
        have huniq := (hr'.shared.slot e3 e4 hrl).2
        refine ⟨x ++ List.replicate k u, ?_, ?_, ?_⟩
        · intro i hi
          rw [List.foldl_append, hk2 i (by omega), hx1 i (by omega)]
        · rw [List.foldl_append, hk1, List.length_set, hx2]
        · intro b mb' mb hb hmb
          rw [List.foldl_append, hk1]
          obtain ⟨mb'', f1, f2, f3⟩ := hx3 b mb' mb hb hmb
          by_cases hab : a = b
          · subst hab
            rw [e1] at hb; cases hb
            rw [e2] at hmb; cases hmb
            rw [e3] at f1; cases f1
            refine ⟨m''.set j g, List.getElem?_set_self (List.getElem?_eq_some_iff.1 e3).1, by simpa using f2, fun j' => ?_⟩
            by_cases hjj : j = j'
            · subst hjj
              left
              rw [List.getElem?_set_self (List.getElem?_eq_some_iff.1 e4).1, e7]
            · rw [List.getElem?_set_ne hjj]
              rcases f3 j' with h3 | ⟨h3, i, g', r', d', h4, h5, h6, h7⟩
              · exact .inl h3
              · right
                refine ⟨h3, i, g', r', d', ?_, h5, h6, h7⟩
                rcases Nat.lt_or_eq_of_le h4 with h4 | h4
                · exact h4
                · subst h4
                  obtain ⟨_, q1, _⟩ := h5.unique e5
                  have q2 : r' = r := by exact_mod_cast q1
                  subst q2
                  rw [h6] at h3
                  exact (hjj (huniq j' d' h3).symm).elim
          · rw [List.getElem?_set_ne hab]
            refine ⟨mb'', f1, f2, fun j' => ?_⟩
            rcases f3 j' with h3 | ⟨h3, i, g', r', d', h4, h5, h6, h7⟩
            · exact .inl h3
            · right
              refine ⟨h3, i, g', r', d', ?_, h5, h6, h7⟩
              rcases Nat.lt_or_eq_of_le h4 with h4 | h4
              · exact h4
              · subst h4
                exact (hab (h5.unique e5).2.2.symm).elim
      · refine ⟨x, fun i hi => hx1 i (by omega), hx2, ?_⟩
        intro b mb' mb hb hmb
        obtain ⟨mb'', f1, f2, f3⟩ := hx3 b mb' mb hb hmb
        refine ⟨mb'', f1, f2, fun j' => ?_⟩
        rcases f3 j' with h3 | ⟨h3, i, g', r', d', h4, h5, h6, h7⟩
        · exact .inl h3
        · right
          refine ⟨h3, i, g', r', d', ?_, h5, h6, h7⟩
          rcases Nat.lt_or_eq_of_le h4 with h4 | h4
          · exact h4
          · subst h4
            exact (hex ⟨b, mb', mb, mb'', j', g', r', d', hb, hmb, f1, h3, h5, h6, h7⟩).elim
  obtain ⟨x, _, hx2, hx3⟩ := key ts.length (le_refl _)
  refine ⟨x, List.ext_getElem? fun a => ?_⟩
  by_cases ha : a < ms.length
  · have e1 := List.getElem?_eq_getElem ha
    have e2 := List.getElem?_eq_getElem (l := c.flow.moments) (i := a) (by omega)
    obtain ⟨m'', f1, f2, f3⟩ := hx3 a _ _ e1 e2
    rw [f1, e1]
    congr 1
    apply List.ext_getElem?
    intro j
    rcases f3 j with h3 | ⟨_, i, g, r, d, h4, ⟨t, _, _, h5, _⟩, _⟩
    · exact h3
    · have := (List.getElem?_eq_some_iff.1 h5).1
      omega
  · rw [List.getElem?_eq_none (by omega), List.getElem?_eq_none (by omega)]

theorem Running.early (hr : Running N dims init c0 progs c ts layers kss cur made) {i : Nat} {g : GateObj R} {q : Int} {a : Nat}
    (he : Early ts i g q a) : g.isIdent = false := by
  obtain ⟨t, m, j, ht, hpc⟩ := he
  obtain ⟨p, hp⟩ := hr.prog ht
  have hok := (hr.thr i t p ht hp).1
  have key : ∀ k m, Joins c k m g q → g.isIdent = false := by
    intro k m hj
    have := List.find?_some hj.find
    cases g <;> first | rfl | cases this
  rcases hpc with hpc | hpc | hpc <;> rw [hpc] at hok
  · obtain ⟨k, _, h, _⟩ := hok; exact key k _ h
  · obtain ⟨k, _, h, _⟩ := hok; exact key k _ h
  · obtain ⟨k, _, _, h, _⟩ := hok; exact key k _ h

theorem After.steps {n : Nat} {L : List (List (GateObj R))} (h : After n L ts0 c ts)
    (hg : ∀ i g q a, Early ts0 i g q a → g.isIdent = false) (s : List Nat) :
    After n L ts0 (s.foldl stepThread (c, ts)).1 (s.foldl stepThread (c, ts)).2 := by
  induction s generalizing c ts with
  | nil => exact h
  | cons i s ih => exact ih (h.step hg i)

omit [StarRing R] [DecidableEq R] [UnitaryCheck R] in
theorem todo_shrinks (s : List Nat) {σ : Circuit R × List (Thread R)} {i : Nat} {u : Thread R} (hu : σ.2[i]? = some u) :
    ∃ u', (s.foldl stepThread σ).2[i]? = some u' ∧ u'.todo.length ≤ u.todo.length := by
  induction s generalizing σ u with
  | nil => exact ⟨u, hu, le_refl _⟩
  | cons j s ih =>
    by_cases hj : j = i
    · subst hj
      obtain ⟨u', h1, h2⟩ := ih (stepThread_self σ hu)
      refine ⟨u', h1, le_trans h2 ?_⟩
      obtain ⟨pc, todo⟩ := u
      cases pc with
      | idle =>
        cases todo with
        | nil => exact le_refl _
        | cons k ks => simp only [Thread.step]; cases σ.1.layerOf k <;> simp
      | _ => exact le_refl _
    · exact ih (by rw [stepThread_ne σ hj]; exact hu)

/-- Before or after the measurement. -/
theorem Before.steps [Nontrivial R] (hN : N.Sized) (h2 : ∀ d ∈ dims, 2 ≤ d) (hap : NoSharing (progs.map live))
    (hv : ∀ p ∈ progs.map live, ∀ k ∈ p, k.Valid dims)
    (hr : Running N dims init c0 (progs.map live) c ts0 layers kss cur made)
    (h : Before dims.length progs ts ts0) (s : List Nat) :
    (∃ x : List Nat, (s.foldl stepThread (c, ts)).1 = (x.foldl stepThread (c, ts0)).1 ∧
      Before dims.length progs (s.foldl stepThread (c, ts)).2 (x.foldl stepThread (c, ts0)).2) ∨
    ∃ x : List Nat, After dims.length (x.foldl stepThread (c, ts0)).1.flow.moments (x.foldl stepThread (c, ts0)).2
        (s.foldl stepThread (c, ts)).1 (s.foldl stepThread (c, ts)).2 ∧
      ∃ (i : Nat) (p : List (Call R)) (t : Thread R), progs[i]? = some p ∧ (.measureAll : Call R) ∈ p ∧
        (x.foldl stepThread (c, ts0)).2[i]? = some t ∧ t.Done ∧
        ∃ u, (s.foldl stepThread (c, ts)).2[i]? = some u ∧ u.todo.length < (fromMeasure p).length := by
  induction s generalizing c ts ts0 layers kss cur made with
  | nil => exact .inl ⟨[], rfl, h⟩
  | cons i s ih =>
    rcases h.step hr i with ⟨x, e, h'⟩ | ⟨h', p, t, h3, h4, h5, h6, u, h7, h8⟩
    · obtain ⟨_, _, _, _, hr', _⟩ := hr.steps hN h2 hap hv x
      have hs : (i :: s).foldl stepThread (c, ts) = s.foldl stepThread ((x.foldl stepThread (c, ts0)).1, (stepThread (c, ts) i).2) := by
        rw [List.foldl_cons, ← e]
      rw [hs]
      rcases ih hr' h' with ⟨y, e', h''⟩ | ⟨y, h''⟩
      · exact .inl ⟨x ++ y, by rw [List.foldl_append]; exact ⟨e', h''⟩⟩
      · exact .inr ⟨x ++ y, by rw [List.foldl_append]; exact h''⟩
    · obtain ⟨u', h9, h10⟩ := todo_shrinks s h7
      exact .inr ⟨[], h'.steps (fun i g q a he => hr.early he) s, i, p, t, h3, h4, h5, h6, u', h9, by omega⟩

/-! ### What `run()` sees -/

/-- The layers read so far, newest first; the first `k` have still to be read. -/
def Snap (L : List (List (GateObj R))) (ts0 : List (Thread R)) (k : Nat) (seen : List (List (GateObj R))) : Prop :=
  seen.length + k = L.length ∧ ∀ (b : Nat) m', seen[b]? = some m' →
    ∃ a m, a + b + 1 = L.length ∧ L[a]? = some m ∧ Choice ts0 a m' m

/-- The layers read so far, newest first, end with the layers before the measurement that have been read. Layers read before
these are the measurement and others. -/
def Marked (n : Nat) (L : List (List (GateObj R))) (ts0 : List (Thread R)) (k : Nat) (seen : List (List (GateObj R))) : Prop :=
  ∃ post, Snap L ts0 k post ∧ (seen = post ∨ ∃ pre, seen = pre ++ measLayer n :: post)

/-- What `run()` knows. -/
def Rc.Sees (n : Nat) (L : List (List (GateObj R))) (ts0 : List (Thread R)) : Rc R → Prop
  | .start => True
  | .copied k => L.length < k
  | .raised _ => True
  | .reading todo seen => ∃ k, todo = (List.range k).reverse ∧ (k ≤ L.length → Marked n L ts0 k seen)
  | .inside g a todo seen => todo = (List.range a).reverse ∧ (L.length < a ∨ (a = L.length ∧ (measLayer n).head? = some g) ∨
    ∃ m, L[a]? = some m ∧ Marked n L ts0 (a + 1) seen ∧
      (m[0]? = some g ∨ ∃ (i r d : Nat), Early ts0 i g r a ∧ m[0]? = some (GateObj.ident r d)))
  | .finished seen => Marked n L ts0 0 seen

theorem Snap.more {L : List (List (GateObj R))} {k : Nat} {seen : List (List (GateObj R))} (h : Snap L ts0 (k + 1) seen)
    {m m' : List (GateObj R)} (hm : L[k]? = some m) (hc : Choice ts0 k m' m) : Snap L ts0 k (seen ++ [m']) := by
  obtain ⟨h1, h2⟩ := h
  refine ⟨by rw [List.length_append, List.length_singleton]; omega, ?_⟩
  intro b x hx
  by_cases hb : b < seen.length
  · rw [List.getElem?_append_left hb] at hx
    exact h2 b x hx
  · rw [List.getElem?_append_right (by omega)] at hx
    have hb' : b - seen.length = 0 := by
      have := (List.getElem?_eq_some_iff.1 hx).1
      simp at this
      omega
    rw [hb'] at hx
    cases hx
    exact ⟨k, m, by omega, hm, hc⟩

theorem Marked.more {n : Nat} {L : List (List (GateObj R))} {k : Nat} {seen : List (List (GateObj R))}
    (h : Marked n L ts0 (k + 1) seen) {m m' : List (GateObj R)} (hm : L[k]? = some m) (hc : Choice ts0 k m' m) :
    Marked n L ts0 k (seen ++ [m']) := by
  obtain ⟨post, hp, rfl | ⟨pre, rfl⟩⟩ := h
  · exact ⟨_, hp.more hm hc, .inl rfl⟩
  · exact ⟨_, hp.more hm hc, .inr ⟨pre, by simp⟩⟩

theorem Marked.measured {n : Nat} {L : List (List (GateObj R))} (seen : List (List (GateObj R))) :
    Marked n L ts0 L.length (seen ++ [measLayer n]) :=
  ⟨[], by simp [Snap], .inr ⟨seen, rfl⟩⟩

theorem After.sees {n : Nat} (hn : 0 < n) {L : List (List (GateObj R))} (h : After n L ts0 c ts) {rc : Rc R}
    (hs : rc.Sees n L ts0) : (rc.step c.flow).Sees n L ts0 := by
  have hlen : L.length < c.flow.moments.length := (List.getElem?_eq_some_iff.1 h.meas).1
  cases rc with
  | start => exact hlen
  | raised e => exact hs
  | finished seen => exact hs
  | copied k =>
    have hk : L.length < k := hs
    simp only [Rc.step]
    split
    · rw [if_neg (by omega)]
      refine ⟨k - 1, rfl, fun hle => ?_⟩
      have : k - 1 = L.length := by omega
      rw [this]
      exact ⟨[], by simp [Snap], .inl rfl⟩
    · trivial
  | reading todo seen =>
    obtain ⟨k, e, h1⟩ := hs
    cases k with
    | zero =>
      subst e
      exact h1 (Nat.zero_le _)
    | succ a =>
      rw [List.range_succ, List.reverse_append, List.reverse_singleton, List.singleton_append] at e
      subst e
      simp only [Rc.step]
      by_cases ha : L.length < a
      · split
        · exact ⟨a, rfl, fun hle => absurd hle (by omega)⟩
        · exact ⟨rfl, .inl ha⟩
      by_cases ha' : a = L.length
      · subst ha'
        rw [List.getD_eq_getElem?_getD, h.meas, Option.getD_some]
        cases hm : measLayer (R := R) n with
        | nil =>
          have := congrArg List.length hm
          simp [measLayer] at this
          omega
        | cons g gs => exact ⟨rfl, .inr (.inl ⟨rfl, by rw [hm]; rfl⟩)⟩
      have h1 := h1 (by omega)
      have hm := List.getElem?_eq_getElem (l := L) (i := a) (by omega)
      obtain ⟨m', hm', hch⟩ := h.lay a _ hm
      rw [List.getD_eq_getElem?_getD, hm', Option.getD_some]
      cases m' with
      | nil => exact ⟨a, rfl, fun _ => h1.more hm hch⟩
      | cons g gs =>
        refine ⟨rfl, .inr (.inr ⟨_, hm, h1, ?_⟩)⟩
        rcases hch.2 0 with h3 | ⟨i, g', r, d, h3, h4, h5⟩
        · exact .inl h3.symm
        · cases h5
          exact .inr ⟨i, r, d, h3, h4⟩
  | inside g a as seen =>
    simp only [Rc.step]
    obtain ⟨e, h1 | ⟨rfl, h1⟩ | ⟨m, hm, h1, h3⟩⟩ := hs
    · exact ⟨a, e, fun hle => absurd hle (by omega)⟩
    · refine ⟨_, e, fun _ => ?_⟩
      rw [List.getD_eq_getElem?_getD, h.meas, Option.getD_some]
      have : g :: (measLayer (R := R) n).tail = measLayer n := by
        cases hml : measLayer (R := R) n with
        | nil => rw [hml] at h1; cases h1
        | cons x xs =>
          rw [hml] at h1
          cases h1
          rfl
      rw [this]
      exact Marked.measured seen
    · obtain ⟨m', hm', hl, hch⟩ := h.lay a m hm
      refine ⟨a, e, fun _ => h1.more hm ?_⟩
      rw [List.getD_eq_getElem?_getD, hm', Option.getD_some]
      have hmpos : 0 < m.length := by
        rcases h3 with h3 | ⟨_, _, _, _, h3⟩ <;> exact (List.getElem?_eq_some_iff.1 h3).1
      refine ⟨by rw [List.length_cons, List.length_tail]; omega, fun j => ?_⟩
      cases j with
      | zero =>
        rcases h3 with h3 | ⟨i, r, d, h3, h4⟩
        · exact .inl h3.symm
        · exact .inr ⟨i, g, r, d, h3, h4, rfl⟩
      | succ j =>
        rw [List.getElem?_cons_succ, List.getElem?_tail]
        exact hch (j + 1)

theorem momentExec_measLayer (N : Numerics R) (B : Backend R) {n : Nat} (hn : 0 < n) : ∃ e, momentExec N B (measLayer n) = .error e := by
  obtain ⟨k, rfl⟩ : ∃ k, n = k + 1 := ⟨n - 1, by omega⟩
  unfold measLayer
  rw [List.range_succ_eq_map, List.map_cons]
  exact ⟨_, rfl⟩

theorem flowLoop_raises (N : Numerics R) (B : Backend R) {m : List (GateObj R)} {e : Err} (he : momentExec N B m = .error e) :
    ∀ (ms : List (List (GateObj R))) (acc : Option B.M), m ∈ ms → ∃ e', flowLoop N B ms acc = .error e' := by
  intro ms
  induction ms with
  | nil => intro _ h; cases h
  | cons x ms ih =>
    intro acc h
    unfold flowLoop
    cases hx : momentExec N B x with
    | error e' => exact ⟨e', rfl⟩
    | ok k =>
      have hms : m ∈ ms := by
        rcases List.mem_cons.1 h with rfl | h
        · rw [he] at hx; cases hx
        · exact h
      cases acc with
      | none => exact ih _ hms
      | some d =>
        simp only [bind, Except.bind]
        cases B.dot d k with
        | error e' => exact ⟨e', rfl⟩
        | ok p => exact ih _ hms

/-- The layers that `run()` has read: they end with those of a sequence of calls as in `C82_run_while_building`. -/
theorem run_while_building_core [Nontrivial R] (hN : N.Sized) {B : Backend R} (hB : B.Lawful) (hreg : 0 < dims.length)
    (h : ValidStart (dims.map Int.ofNat) init) (hv : ∀ p ∈ progs, ∀ k ∈ live p, k.Valid dims)
    (hap : (progs.map live).Pairwise fun p p' => ∀ k ∈ p, ∀ k' ∈ p', ∀ r, ¬ (k.touches r ∧ k'.touches r))
    (hc : Circuit.new (.list (dims.map Int.ofNat)) init none = .ok c0) (s0 s1 : List Nat) (s2 : List (Option Nat))
    (h0 : ∀ (i : Nat) p t, progs[i]? = some p → (runThreads c0 progs s0).2[i]? = some t →
      ∃ fin, p = fin ++ t.todo ∧ (.measureAll : Call R) ∉ fin)
    (h1 : ∃ (i : Nat) (p : List (Call R)) (t : Thread R) (fin : List (Call R)), progs[i]? = some p ∧
      (runThreads c0 progs (s0 ++ s1)).2[i]? = some t ∧ t.pc = .idle ∧ p = fin ++ t.todo ∧ (.measureAll : Call R) ∈ fin)
    {rc : Rc R} (hrc : (runWhile c0 progs ((s0 ++ s1).map some ++ s2)).2 = rc) :
    (∀ seen, rc = .finished seen → ∃ post : List (List (GateObj R)),
      (seen = post ∨ ∃ pre, seen = pre ++ measLayer dims.length :: post) ∧ ∃ ps : List (List (Call R)), ps.length = progs.length ∧
      (∀ (i : Nat) p p', progs[i]? = some p → ps[i]? = some p' → p' <+: live p) ∧
      (∃ (i : Nat) (p : List (Call R)), progs[i]? = some p ∧ (.measureAll : Call R) ∈ p ∧ ps[i]? = some (live p)) ∧
      (∀ (i : Nat) p t fin, progs[i]? = some p → (runThreads c0 progs s0).2[i]? = some t → t.pc = .idle →
        p = fin ++ t.todo → ∃ p', ps[i]? = some p' ∧ fin <+: p') ∧
      (Rc.finished post).value N B c0 =
        some (script N B (.list (dims.map Int.ofNat)) init none (ps.flatten ++ [.measureAll]))) := by
  have hne : dims ≠ [] := by intro e; rw [e] at hreg; simp at hreg
  have h2 := ge_two_of_valid h
  have hv' : ∀ p ∈ progs.map live, ∀ k ∈ p, k.Valid dims := by
    intro p hp k hk
    obtain ⟨p', hp', rfl⟩ := List.mem_map.1 hp
    exact hv p' hp' k hk
  rw [new_ok rfl h none] at hc
  injection hc with hc
  subst hc
  set c0 : Circuit R := freshCircuit (.list (dims.map Int.ofNat)) dims init none with hc0
  have start := Running.start (N := N) (init := init) hne (progs.map live)
  rw [← hc0] at start
  have bstart : Before dims.length progs (progs.map fun l => ({ pc := .idle, todo := l } : Thread R))
      ((progs.map live).map fun l => { pc := .idle, todo := l }) := by
    refine ⟨by simp, by simp, ?_⟩
    intro i t t' p ht ht' hp
    rw [List.getElem?_map, hp] at ht
    rw [List.getElem?_map, List.getElem?_map, hp] at ht'
    cases ht
    cases ht'
    exact .inl ⟨rfl, (live_fromMeasure p).symm⟩
  -- the counts
  have counted : ∀ s : List Nat, Counted dims.length progs (runThreads c0 progs s).1 (runThreads c0 progs s).2 := by
    have : ∀ (s : List Nat) (σ : Circuit R × List (Thread R)), Counted dims.length progs σ.1 σ.2 →
        Counted dims.length progs (s.foldl stepThread σ).1 (s.foldl stepThread σ).2 := by
      intro s
      induction s with
      | nil => intro σ h; exact h
      | cons i s ih => intro σ h; exact ih _ (h.step i)
    intro s
    refine this s _ ⟨start.shared.unm.regLength, by simp [start.shared.unm.meas], ?_⟩
    intro i t ht p hp
    rw [List.getElem?_map, hp] at ht
    cases ht
    exact .inl ⟨[], rfl, by simp⟩
  have notBegun : ∀ {fin : List (Call R)}, (.measureAll : Call R) ∉ fin → ∀ k ∈ fin, k.isMeasureAll = false := by
    intro fin hf k hk
    cases k <;> first | rfl | exact (hf hk).elim
  have livePrefix : ∀ {fin rest : List (Call R)}, (∀ k ∈ fin, k.isMeasureAll = false) → fin.length ≤ (live (fin ++ rest)).length := by
    intro fin rest hf
    unfold live
    rw [List.takeWhile_append_of_pos (fun k hk => by simp [hf k hk]), List.length_append]
    omega
  -- until the first `measure_all()`
  rcases bstart.steps hN h2 hap hv' start s0 with ⟨x0, ex0, b0⟩ | ⟨x0, _, i, p, t, hp, _, _, _, u, hu, hlt⟩
  swap
  · obtain ⟨fin, hf, hm⟩ := h0 i p u hp hu
    have := livePrefix (rest := u.todo) (notBegun hm)
    rw [← hf] at this
    have e1 := congrArg List.length hf
    have e2 := congrArg List.length (live_fromMeasure p)
    rw [List.length_append] at e1 e2
    omega
  obtain ⟨_, _, cur0, made0, r0, _⟩ := start.steps hN h2 hap hv' x0
  -- the measurement
  have hs1 : runThreads c0 progs (s0 ++ s1) = s1.foldl stepThread
      ((x0.foldl stepThread (c0, (progs.map live).map fun l => { pc := .idle, todo := l })).1, (runThreads c0 progs s0).2) := by
    unfold runThreads
    rw [List.foldl_append, ← ex0]
  obtain ⟨im, pm, tm, finm, hpm, htm, hidle, hfin, hmem⟩ := h1
  have hall : (runThreads c0 progs (s0 ++ s1)).1.flow.measCount.all (· ≠ 0) = true := by
    rcases (counted (s0 ++ s1)).thr im tm htm pm hpm with ⟨fin, hf, hno⟩ | e | e | ⟨_, e, _⟩ | e
    · rw [hfin] at hf
      have := List.append_cancel_right hf
      subst this
      have := hno _ hmem
      cases this
    · rw [hidle] at e; cases e
    · rw [hidle] at e; cases e
    · rw [hidle] at e; cases e
    · exact e
  rcases b0.steps hN h2 hap hv' r0 s1 with ⟨x1, ex1, b1⟩ | ⟨x1, a1, iw, pw, tw, hpw, hmw, htw, hdw, _⟩
  · exfalso
    obtain ⟨_, _, _, _, r1, _⟩ := r0.steps hN h2 hap hv' x1
    rw [hs1] at hall
    have hno := r1.shared.unm.notAll
    rw [← ex1] at hno
    unfold runThreads at hall
    rw [hno] at hall
    cases hall
  obtain ⟨_, _, cur1, made1, r1, g01⟩ := r0.steps hN h2 hap hv' x1
  generalize hb1 : x1.foldl stepThread ((x0.foldl stepThread (c0, (progs.map live).map fun l => { pc := .idle, todo := l })).1,
    (x0.foldl stepThread (c0, (progs.map live).map fun l => { pc := .idle, todo := l })).2) = σ1 at *
  -- `run()`
  have hrun : runWhile c0 progs ((s0 ++ s1).map some ++ s2) = s2.foldl stepWhile (runThreads c0 progs (s0 ++ s1), .start) := by
    have : ∀ (s : List Nat) (σ : Circuit R × List (Thread R)), (s.map some).foldl stepWhile (σ, .start) = (s.foldl stepThread σ, .start) := by
      intro s
      induction s with
      | nil => intro σ; rfl
      | cons i s ih => intro σ; exact ih _
    unfold runWhile runThreads
    rw [List.foldl_append, this]
  have hpos : 0 < dims.length := hreg
  have sees : ∀ (s : List (Option Nat)) (σ : (Circuit R × List (Thread R)) × Rc R),
      After dims.length σ1.1.flow.moments σ1.2 σ.1.1 σ.1.2 → σ.2.Sees dims.length σ1.1.flow.moments σ1.2 →
      (s.foldl stepWhile σ).2.Sees dims.length σ1.1.flow.moments σ1.2 := by
    intro s
    induction s with
    | nil => intro σ _ h; exact h
    | cons o s ih =>
      intro σ ha hs
      cases o with
      | some i => exact ih _ (ha.step (fun i g q a he => r1.early he) i) hs
      | none => exact ih _ ha (ha.sees hpos hs)
  have hsees := sees s2 (runThreads c0 progs (s0 ++ s1), .start) (by rw [hs1]; exact a1) trivial
  rw [← hrun] at hsees
  rw [hrc] at hsees
  intro seen hseen
  subst hseen
  obtain ⟨post, ⟨hslen, hs⟩, hpost⟩ := hsees
  refine ⟨post, hpost, ?_⟩
  obtain ⟨x2, hx2⟩ := r1.view hN h2 hap hv' (ms := post.reverse) (by rw [List.length_reverse]; omega) (by
    intro a m' m ha hm
    have hal : a < post.length := by
      have := (List.getElem?_eq_some_iff.1 ha).1
      simpa using this
    rw [List.getElem?_reverse hal] at ha
    obtain ⟨a', m0, e1, e2, e3⟩ := hs _ m' ha
    have : a' = a := by omega
    subst this
    rw [hm] at e2
    cases e2
    exact e3)
  obtain ⟨_, _, cur2, made2, r2, g12⟩ := r1.steps hN h2 hap hv' x2
  have hget : ∀ (i : Nat) p, progs[i]? = some p → (allMade (progs.map live) made2)[i]? = some (made2 i) := by
    intro i p hp
    have := (List.getElem?_eq_some_iff.1 hp).1
    unfold allMade
    rw [List.getElem?_map, List.getElem?_range (by simpa using this)]
    rfl
  have hlive : ∀ (i : Nat) p, progs[i]? = some p → (progs.map live)[i]? = some (live p) := by
    intro i p hp
    rw [List.getElem?_map, hp]; rfl
  refine ⟨allMade (progs.map live) made2, by simp [allMade], ?_, ?_, ?_, ?_⟩
  · intro i p p' hp hp'
    rw [hget i p hp] at hp'
    cases hp'
    exact r2.made_prefix (hlive i p hp)
  · refine ⟨iw, pw, hpw, hmw, ?_⟩
    rw [hget iw pw hpw]
    obtain ⟨hok, hm⟩ := r1.thr iw tw _ htw (hlive iw pw hpw)
    rw [hdw.1] at hok
    have hcur : cur1 iw = none := hok
    rw [hcur, hdw.2] at hm
    have hm' : made1 iw = live pw := by simpa using hm
    have g1 := g12 iw
    rw [hm'] at g1
    rw [(r2.made_prefix (hlive iw pw hpw)).eq_of_length_le g1.length_le]
  · intro i p t fin hp ht hti hpf
    refine ⟨made2 i, hget i p hp, List.IsPrefix.trans ?_ ((g01 i).trans (g12 i))⟩
    have hlt := (List.getElem?_eq_some_iff.1 hp).1
    have ht0 := List.getElem?_eq_getElem (l := (x0.foldl stepThread (c0, (progs.map live).map fun l => { pc := .idle, todo := l })).2)
      (i := i) (by rw [b0.len']; exact hlt)
    rcases b0.sim i t _ p ht ht0 hp with ⟨e1, e2⟩ | ⟨_, e1 | e1, _⟩
    · obtain ⟨hok, hm⟩ := r0.thr i _ _ ht0 (hlive i p hp)
      rw [← e1, hti] at hok
      have hcur : cur0 i = none := hok
      rw [hcur] at hm
      have hp' : p = made0 i ++ t.todo := by
        rw [e2, ← List.append_assoc]
        simp only [Option.toList_none, List.nil_append] at hm
        rw [hm, live_fromMeasure]
      rw [hpf] at hp'
      rw [List.append_cancel_right hp']
    · rw [hti] at e1; cases e1
    · rw [hti] at e1; cases e1
  · rw [← r2.result hN hB hne h hv' hap]
    simp only [Rc.value, Option.some.injEq]
    symm
    obtain ⟨f, hf⟩ := r2.frame
    have hmeas := r2.shared.unm.measure
    generalize x2.foldl stepThread (σ1.1, σ1.2) = σ2 at *
    have hr : ∀ c : Circuit R, (c.run N B).2 = c.runResult N B := by
      intro c
      unfold Circuit.run
      cases c.runResult N B <;> rfl
    rw [hr, Circuit.calls_cons, hmeas]
    have hexec : Flow.exec N B ⟨σ2.1.flow.moments ++ [(List.range dims.length).map .meas], List.replicate dims.length 1⟩ =
        flowLoop N B post none := by
      unfold Flow.exec
      rw [if_pos (by simp), if_neg (by simp)]
      simp only
      rw [List.dropLast_concat, hx2, List.reverse_reverse]
    unfold Circuit.runResult
    simp only [Circuit.calls, List.foldl_nil]
    rw [hexec, hf]
    rfl

/-- **C82.** Threads build a circuit, some of them measure it, and after a `measure_all()` has returned, `run()` is called
while the others go on. It raises, or gives the result of a sequence of calls in which every thread's calls are a
beginning of its program, with all calls that returned before any `measure_all()` was begun, and all calls that came
before the `measure_all()` in the program of the thread whose `measure_all()` took effect. -/
theorem C82_run_while_building [Nontrivial R] (hN : N.Sized) {B : Backend R} (hB : B.Lawful) (hreg : 2 ≤ dims.length)
    (h : ValidStart (dims.map Int.ofNat) init) (hv : ∀ p ∈ progs, ∀ k ∈ live p, k.Valid dims)
    (hap : (progs.map live).Pairwise fun p p' => ∀ k ∈ p, ∀ k' ∈ p', ∀ r, ¬ (k.touches r ∧ k'.touches r))
    (hc : Circuit.new (.list (dims.map Int.ofNat)) init none = .ok c0) (s0 s1 : List Nat) (s2 : List (Option Nat))
    (h0 : ∀ (i : Nat) p t, progs[i]? = some p → (runThreads c0 progs s0).2[i]? = some t →
      ∃ fin, p = fin ++ t.todo ∧ (.measureAll : Call R) ∉ fin)
    (h1 : ∃ (i : Nat) (p : List (Call R)) (t : Thread R) (fin : List (Call R)), progs[i]? = some p ∧
      (runThreads c0 progs (s0 ++ s1)).2[i]? = some t ∧ t.pc = .idle ∧ p = fin ++ t.todo ∧ (.measureAll : Call R) ∈ fin)
    {v : PyM (List (Key × R))} (hval : (runWhile c0 progs ((s0 ++ s1).map some ++ s2)).2.value N B c0 = some v) :
    (∃ e, v = .error e) ∨ ∃ ps : List (List (Call R)), ps.length = progs.length ∧
      (∀ (i : Nat) p p', progs[i]? = some p → ps[i]? = some p' → p' <+: live p) ∧
      (∃ (i : Nat) (p : List (Call R)), progs[i]? = some p ∧ (.measureAll : Call R) ∈ p ∧ ps[i]? = some (live p)) ∧
      (∀ (i : Nat) p t fin, progs[i]? = some p → (runThreads c0 progs s0).2[i]? = some t → t.pc = .idle →
        p = fin ++ t.todo → ∃ p', ps[i]? = some p' ∧ fin <+: p') ∧
      v = script N B (.list (dims.map Int.ofNat)) init none (ps.flatten ++ [.measureAll]) := by
  rcases hrc : (runWhile c0 progs ((s0 ++ s1).map some ++ s2)).2 with _ | _ | _ | _ | e | seen
  case raised =>
    left
    rw [hrc] at hval
    simp only [Rc.value, Option.some.injEq] at hval
    exact ⟨e, hval.symm⟩
  case finished =>
    rw [hrc] at hval
    obtain ⟨post, rfl | ⟨pre, rfl⟩, ps, h3, h4, h5, h6, h7⟩ :=
      run_while_building_core hN hB (by omega) h hv hap hc s0 s1 s2 h0 h1 hrc _ rfl
    · right
      rw [hval, Option.some.injEq] at h7
      exact ⟨ps, h3, h4, h5, h6, h7⟩
    · left
      simp only [Rc.value, Option.some.injEq] at hval
      obtain ⟨e, he⟩ := momentExec_measLayer N B (n := dims.length) (by omega)
      obtain ⟨e', he'⟩ := flowLoop_raises N B he (pre ++ measLayer dims.length :: post) none (by simp)
      rw [he'] at hval
      exact ⟨e', hval.symm⟩
  all_goals rw [hrc] at hval; cases hval

theorem flowLoopOne_of_ok (N : Numerics R) (B : Backend R) : ∀ (ms : List (List (GateObj R))) (acc r : Option B.M),
    flowLoop N B ms acc = .ok r → flowLoopOne N B ms acc = .ok r := by
  intro ms
  induction ms with
  | nil => intro acc r h; exact h
  | cons m ms ih =>
    intro acc r h
    unfold flowLoop at h
    unfold flowLoopOne
    cases hm : momentExec N B m with
    | error e => rw [hm] at h; cases h
    | ok k =>
      have h1 : momentExecOne N B m = .ok (some k) := by
        unfold momentExecOne
        split
        · cases hm
        · rw [hm]; rfl
      rw [hm] at h
      rw [h1]
      cases acc with
      | none => exact ih _ _ h
      | some d =>
        simp only [bind, Except.bind] at h ⊢
        cases hd : B.dot d k with
        | error e => rw [hd] at h; cases h
        | ok p => rw [hd] at h; exact ih _ _ h

/-- **C82.** A result that a circuit with more registers gets from the layers that `run()` has read is also what a circuit
with one register gets. So the theorems that give a result hold for one register as well. -/
theorem C82_result_one_register (N : Numerics R) (B : Backend R) {c : Circuit R} {rc : Rc R} {l : List (Key × R)}
    (h : rc.value N B c = some (.ok l)) : rc.valueOne N B c = some (.ok l) := by
  cases rc with
  | finished seen =>
    simp only [Rc.value, Option.some.injEq] at h
    simp only [Rc.valueOne, Option.some.injEq]
    cases hl : flowLoop N B seen none with
    | error e => rw [hl] at h; cases h
    | ok r =>
      rw [flowLoopOne_of_ok N B _ _ _ hl]
      rw [hl] at h
      exact h
  | _ => cases h

theorem flowLoopOne_measured (N : Numerics R) (B : Backend R) (post : List (List (GateObj R))) :
    ∀ (pre : List (List (GateObj R))) (acc : Option B.M),
      (∃ e, flowLoopOne N B (pre ++ measLayer 1 :: post) acc = .error e) ∨
        flowLoopOne N B (pre ++ measLayer 1 :: post) acc = flowLoopOne N B post none := by
  intro pre
  induction pre with
  | nil =>
    intro acc
    rw [List.nil_append]
    cases acc with
    | none => exact .inr rfl
    | some d => exact .inl ⟨_, rfl⟩
  | cons m pre ih =>
    intro acc
    have hstep : flowLoopOne N B (m :: pre ++ measLayer 1 :: post) acc = (do
        let k ← momentExecOne N B m
        match acc, k with
        | none, k => flowLoopOne N B (pre ++ measLayer 1 :: post) k
        | some _, none => .error .type
        | some d, some k => do
          let p ← B.dot d k
          flowLoopOne N B (pre ++ measLayer 1 :: post) (some p)) := by
      cases acc <;> rfl
    rw [hstep]
    cases hm : momentExecOne N B m with
    | error e => exact .inl ⟨e, rfl⟩
    | ok k =>
      cases acc with
      | none => exact ih k
      | some d =>
        cases k with
        | none => exact .inl ⟨_, rfl⟩
        | some k =>
          simp only [bind, Except.bind]
          cases hd : B.dot d k with
          | error e => exact .inl ⟨e, rfl⟩
          | ok p => exact ih _

/-- **C82.** For a circuit with one register, whose measurement layers can be read without an exception: threads build a circuit, some of them measure it, and after a `measure_all()` has returned, `run()` is called
while the others go on. It raises, or gives the result of a sequence of calls in which every thread's calls are a
beginning of its program, with all calls that returned before any `measure_all()` was begun, and all calls that came
before the `measure_all()` in the program of the thread whose `measure_all()` took effect. -/
theorem C82_one_register [Nontrivial R] (hN : N.Sized) {B : Backend R} (hB : B.Lawful) (hreg : dims.length = 1)
    (h : ValidStart (dims.map Int.ofNat) init) (hv : ∀ p ∈ progs, ∀ k ∈ live p, k.Valid dims)
    (hap : (progs.map live).Pairwise fun p p' => ∀ k ∈ p, ∀ k' ∈ p', ∀ r, ¬ (k.touches r ∧ k'.touches r))
    (hc : Circuit.new (.list (dims.map Int.ofNat)) init none = .ok c0) (s0 s1 : List Nat) (s2 : List (Option Nat))
    (h0 : ∀ (i : Nat) p t, progs[i]? = some p → (runThreads c0 progs s0).2[i]? = some t →
      ∃ fin, p = fin ++ t.todo ∧ (.measureAll : Call R) ∉ fin)
    (h1 : ∃ (i : Nat) (p : List (Call R)) (t : Thread R) (fin : List (Call R)), progs[i]? = some p ∧
      (runThreads c0 progs (s0 ++ s1)).2[i]? = some t ∧ t.pc = .idle ∧ p = fin ++ t.todo ∧ (.measureAll : Call R) ∈ fin)
    {v : PyM (List (Key × R))} (hval : (runWhile c0 progs ((s0 ++ s1).map some ++ s2)).2.valueOne N B c0 = some v) :
    (∃ e, v = .error e) ∨ ∃ ps : List (List (Call R)), ps.length = progs.length ∧
      (∀ (i : Nat) p p', progs[i]? = some p → ps[i]? = some p' → p' <+: live p) ∧
      (∃ (i : Nat) (p : List (Call R)), progs[i]? = some p ∧ (.measureAll : Call R) ∈ p ∧ ps[i]? = some (live p)) ∧
      (∀ (i : Nat) p t fin, progs[i]? = some p → (runThreads c0 progs s0).2[i]? = some t → t.pc = .idle →
        p = fin ++ t.todo → ∃ p', ps[i]? = some p' ∧ fin <+: p') ∧
      v = script N B (.list (dims.map Int.ofNat)) init none (ps.flatten ++ [.measureAll]) := by
  rcases hrc : (runWhile c0 progs ((s0 ++ s1).map some ++ s2)).2 with _ | _ | _ | _ | e | seen
  case raised =>
    left
    rw [hrc] at hval
    simp only [Rc.valueOne, Option.some.injEq] at hval
    exact ⟨e, hval.symm⟩
  case finished =>
    rw [hrc] at hval
    obtain ⟨post, hpost, ps, h3, h4, h5, h6, h7⟩ :=
      run_while_building_core hN hB (by omega) h hv hap hc s0 s1 s2 h0 h1 hrc _ rfl
    have hval' : ∀ k ∈ ps.flatten, k.Valid dims := by
      intro k hk
      obtain ⟨p', hp', hk⟩ := List.mem_flatten.1 hk
      obtain ⟨i, hi, rfl⟩ := List.getElem_of_mem hp'
      have hi' : i < progs.length := by omega
      exact hv _ (List.getElem_mem hi') k ((h4 i _ _ (List.getElem?_eq_getElem hi') (List.getElem?_eq_getElem hi)).subset hk)
    have hok := script_valid hN hB (dims := dims) (by intro e; rw [e] at hreg; simp at hreg) h (out := none) (by simp) hval' []
    rw [hok] at h7
    have hone : (Rc.finished post : Rc R).valueOne N B c0 = (Rc.finished post : Rc R).value N B c0 := by
      rw [h7]
      simp only [Rc.value, Option.some.injEq] at h7
      simp only [Rc.valueOne, Option.some.injEq]
      cases hl : flowLoop N B post none with
      | error e => rw [hl] at h7; cases h7
      | ok r =>
        rw [flowLoopOne_of_ok N B _ _ _ hl]
        rw [hl] at h7
        exact h7
    have hright : v = .ok (listing (format dims none) dims (stateAfter N dims init ps.flatten)) →
        ∃ ps : List (List (Call R)), ps.length = progs.length ∧
      (∀ (i : Nat) p p', progs[i]? = some p → ps[i]? = some p' → p' <+: live p) ∧
      (∃ (i : Nat) (p : List (Call R)), progs[i]? = some p ∧ (.measureAll : Call R) ∈ p ∧ ps[i]? = some (live p)) ∧
      (∀ (i : Nat) p t fin, progs[i]? = some p → (runThreads c0 progs s0).2[i]? = some t → t.pc = .idle →
        p = fin ++ t.todo → ∃ p', ps[i]? = some p' ∧ fin <+: p') ∧
      v = script N B (.list (dims.map Int.ofNat)) init none (ps.flatten ++ [.measureAll]) :=
      fun e => ⟨ps, h3, h4, h5, h6, by rw [hok]; exact e⟩
    rcases hpost with rfl | ⟨pre, rfl⟩
    · right
      rw [hone, h7, Option.some.injEq] at hval
      exact hright hval.symm
    · rw [hreg] at hval
      rcases flowLoopOne_measured N B post pre none with ⟨e, he⟩ | he
      · left
        simp only [Rc.valueOne, Option.some.injEq] at hval
        rw [he] at hval
        exact ⟨e, hval.symm⟩
      · right
        have : (Rc.finished (pre ++ measLayer 1 :: post) : Rc R).valueOne N B c0 = (Rc.finished post : Rc R).valueOne N B c0 := by
          simp only [Rc.valueOne]
          rw [he]
        rw [this, hone, h7, Option.some.injEq] at hval
        exact hright hval.symm
  all_goals rw [hrc] at hval; cases hval

end

/-! ### What goes wrong -/

/-- A circuit over two qubits with the layers `ms` after the first. -/
def madeCircuit (ms : List (List (GateObj R))) (mc : List Nat) : Circuit R :=
  { freshCircuit (.list [2, 2]) [2, 2] [] none with flow := { moments := initOps [2, 2] [] :: ms, measCount := mc } }

theorem spoil1 (t : Thread R) : [1, 1, 1].foldl stepThread (madeCircuit [] [0, 0], [t, { pc := .idle, todo := [.measureAll] }]) =
    (madeCircuit [measLayer 2] [0, 0], [t, { pc := .counting (measLayer 2) 0, todo := [] }]) := by
  rfl

theorem spoil2 (t : Thread R) : [0, 0, 0, 0].foldl stepThread (madeCircuit [measLayer 2] [0, 0],
      [{ pc := .idle, todo := [.x 0 none 1] }, t]) =
    (madeCircuit [measLayer 2] [0, 0], [{ pc := .appending [.x 0 2 1, .ident 1 2], todo := [] }, t]) := by
  rfl

theorem spoil3 (t : Thread R) : [0, 0, 0, 0].foldl stepThread (madeCircuit [measLayer 2] [0, 0],
      [{ pc := .appending [.x 0 2 1, .ident 1 2], todo := [] }, t]) =
    (madeCircuit [measLayer 2, [.x 0 2 1, .ident 1 2]] [0, 0], [{ pc := .idle, todo := [] }, t]) := by
  rfl

theorem spoil4 (t : Thread R) (m : List (GateObj R)) : [1, 1, 1].foldl stepThread (madeCircuit [measLayer 2, m] [0, 0],
      [t, { pc := .counting (measLayer 2) 0, todo := [] }]) =
    (madeCircuit [measLayer 2, m] [1, 1], [t, { pc := .idle, todo := [] }]) := by
  rfl

theorem new_two {c : Circuit R} (hc : Circuit.new (.list [2, 2]) [] none = .ok c) : c = madeCircuit [] [0, 0] := by
  rw [show (RegsArg.list [2, 2]) = .list ([2, 2].map Int.ofNat) from rfl,
    new_ok (dims := [2, 2]) rfl (validStart_of rfl) none, Except.ok.injEq] at hc
  rw [← hc]
  rfl

/-- A thread calls `x(0)` between two steps of another one's `measure_all()`. -/
def spoilSched : List Nat := [1, 1, 1] ++ [0, 0, 0, 0] ++ [0, 0, 0, 0] ++ [1, 1, 1]

theorem spoiled (c : Circuit R) (hc : Circuit.new (.list [2, 2]) [] none = .ok c) :
    runThreads c [[.x 0 none 1], [.measureAll]] spoilSched =
      (madeCircuit [measLayer 2, [.x 0 2 1, .ident 1 2]] [1, 1], [{ pc := .idle, todo := [] }, { pc := .idle, todo := [] }]) := by
  rw [new_two hc]
  unfold runThreads spoilSched
  rw [List.foldl_append, List.foldl_append, List.foldl_append]
  refine (congrArg (fun s => [1, 1, 1].foldl stepThread ([0, 0, 0, 0].foldl stepThread ([0, 0, 0, 0].foldl stepThread s)))
    (spoil1 { pc := .idle, todo := [.x 0 none 1] })).trans ?_
  simp only [spoil2, spoil3, spoil4]

/-- **C82.** A `measure_all()` during which another thread makes a call can spoil the circuit: neither call raises, both
threads are done, but `run()` raises, whatever is called later. -/
theorem C82_spoiled [StarRing R] [DecidableEq R] [UnitaryCheck R] (N : Numerics R) (B : Backend R) {c : Circuit R}
    (hc : Circuit.new (.list [2, 2]) [] none = .ok c) :
    ∃ sched, (∀ t ∈ (runThreads c [[.x 0 none 1], [.measureAll]] sched).2, t.Done) ∧
      ∀ ks, ∃ e, (((runThreads c [[.x 0 none 1], [.measureAll]] sched).1.calls ks).run N B).2 = .error e := by
  refine ⟨spoilSched, ?_, fun ks => ?_⟩
  · rw [spoiled c hc]
    intro t ht
    simp only [List.mem_cons, List.not_mem_nil, or_false, or_self] at ht
    subst ht
    exact ⟨rfl, rfl⟩
  · rw [spoiled c hc, calls_measured (by constructor <;> simp [madeCircuit])]
    have hr : ∀ c : Circuit R, (c.run N B).2 = c.runResult N B := by
      intro c
      unfold Circuit.run
      cases c.runResult N B <;> rfl
    obtain ⟨e, he⟩ := momentExec_measLayer N B (n := 2) (by simp)
    obtain ⟨e', he'⟩ := flowLoop_raises N B he
      (madeCircuit [measLayer 2, [.x 0 2 1, .ident 1 2]] [1, 1]).flow.moments.dropLast.reverse none (by simp [madeCircuit])
    have hexec : (madeCircuit (R := R) [measLayer 2, [.x 0 2 1, .ident 1 2]] [1, 1]).flow.exec N B = .error e' := by
      unfold Flow.exec
      rw [if_pos (by simp [madeCircuit]), if_neg (by simp [madeCircuit])]
      exact he'
    rw [hr]
    unfold Circuit.runResult
    rw [hexec]
    exact ⟨e', rfl⟩

theorem early1 (ks : List (Call R)) (r : Rc R) : [some 0, some 0, some 0, some 0].foldl stepWhile
      ((madeCircuit [] [0, 0], [{ pc := .idle, todo := .x 0 none 1 :: ks }]), r) =
    ((madeCircuit [] [0, 0], [{ pc := .appending [.x 0 2 1, .ident 1 2], todo := ks }]), r) := by
  rfl

theorem early2 (ks : List (Call R)) (r : Rc R) : [some 0, some 0, some 0, some 0].foldl stepWhile
      ((madeCircuit [] [0, 0], [{ pc := .appending [.x 0 2 1, .ident 1 2], todo := ks }]), r) =
    ((madeCircuit [[.x 0 2 1, .ident 1 2]] [0, 0], [{ pc := .idle, todo := ks }]), r) := by
  rfl

theorem early3 (m : List (GateObj R)) : [none, some 0, some 0, some 0].foldl stepWhile
      ((madeCircuit [m] [0, 0], [{ pc := .idle, todo := [.measureAll] }]), .start) =
    ((madeCircuit [m, measLayer 2] [0, 0], [{ pc := .counting (measLayer 2) 0, todo := [] }]), .copied 2) := by
  rfl

theorem early4 (m : List (GateObj R)) : [some 0, some 0, some 0].foldl stepWhile
      ((madeCircuit [m, measLayer 2] [0, 0], [{ pc := .counting (measLayer 2) 0, todo := [] }]), .copied 2) =
    ((madeCircuit [m, measLayer 2] [1, 1], [{ pc := .idle, todo := [] }]), .copied 2) := by
  rfl

theorem early5 (m : List (GateObj R)) (ts : List (Thread R)) : [none, none, none, none].foldl stepWhile
      ((madeCircuit [m, measLayer 2] [1, 1], ts), .copied 2) =
    ((madeCircuit [m, measLayer 2] [1, 1], ts), .finished [initOps [2, 2] []]) := by
  rfl

/-- `run()` is called before `measure_all()`, and goes on after it. -/
def earlySched : List (Option Nat) := [some 0, some 0, some 0, some 0] ++ [some 0, some 0, some 0, some 0] ++
  [none, some 0, some 0, some 0] ++ [some 0, some 0, some 0] ++ [none, none, none, none]

theorem early (c : Circuit R) (hc : Circuit.new (.list [2, 2]) [] none = .ok c) :
    runWhile c [[.x 0 none 1, .measureAll]] earlySched =
      ((madeCircuit [[.x 0 2 1, .ident 1 2], measLayer 2] [1, 1], [{ pc := .idle, todo := [] }]), .finished [initOps [2, 2] []]) := by
  rw [new_two hc]
  unfold runWhile earlySched
  rw [List.foldl_append, List.foldl_append, List.foldl_append, List.foldl_append]
  refine (congrArg (fun s => [none, none, none, none].foldl stepWhile ([some 0, some 0, some 0].foldl stepWhile
    ([none, some 0, some 0, some 0].foldl stepWhile ([some 0, some 0, some 0, some 0].foldl stepWhile s))))
    (early1 [.measureAll] .start)).trans ?_
  simp only [early2, early3, early4, early5]

/-- **C82.** A `run()` that is called before the `measure_all()` of another thread can return a wrong result: it leaves
away the last layer of gates instead of the measurement. The thread calls `x(0)` and `measure_all()`, `run()` returns the
result of a circuit without gates. -/
theorem C82_too_early {c : Circuit ℤ} (hc : Circuit.new (.list [2, 2]) [] none = .ok c) :
    ∃ sched, (runWhile c [[.x 0 none 1, .measureAll]] sched).2.value sampleN (numpyBackend ℤ) c =
        some (script sampleN (numpyBackend ℤ) (.list [2, 2]) [] none [.measureAll]) ∧
      (∀ t ∈ (runWhile c [[.x 0 none 1, .measureAll]] sched).1.2, t.Done) ∧
      script sampleN (numpyBackend ℤ) (.list [2, 2]) [] none [.measureAll] = .ok [(.str (label [0, 0]), 1)] ∧
      script sampleN (numpyBackend ℤ) (.list [2, 2]) [] none [.x 0 none 1, .measureAll] = .ok [(.str (label [1, 0]), 1)] := by
  refine ⟨earlySched, ?_, ?_, by decide +kernel, by decide +kernel⟩
  · rw [early c hc, new_two hc]
    decide +kernel
  · rw [early c hc]
    intro t ht
    rw [List.mem_singleton.1 ht]
    exact ⟨rfl, rfl⟩

/-! ### A case of C82 -/

theorem late1 (ks : List (Call R)) (t : Thread R) : [0, 0, 0, 0].foldl stepThread
      (madeCircuit [] [0, 0], [{ pc := .idle, todo := .x 0 none 1 :: ks }, t]) =
    (madeCircuit [] [0, 0], [{ pc := .appending [.x 0 2 1, .ident 1 2], todo := ks }, t]) := by
  rfl

theorem late2 (ks : List (Call R)) (t : Thread R) : [0, 0, 0, 0].foldl stepThread
      (madeCircuit [] [0, 0], [{ pc := .appending [.x 0 2 1, .ident 1 2], todo := ks }, t]) =
    (madeCircuit [[.x 0 2 1, .ident 1 2]] [0, 0], [{ pc := .idle, todo := ks }, t]) := by
  rfl

theorem late3 (t : Thread R) : [1, 1, 1, 1, 1].foldl stepThread (madeCircuit [[.x 0 2 1, .ident 1 2]] [0, 0],
      [t, { pc := .idle, todo := [.x 1 none 1] }]) =
    (madeCircuit [[.x 0 2 1, .ident 1 2]] [0, 0], [t, { pc := .writing (.x 1 2 1) 1 1 1, todo := [] }]) := by
  rfl

theorem late4 (m : List (GateObj R)) (t : Thread R) : [0, 0, 0].foldl stepThread (madeCircuit [m] [0, 0],
      [{ pc := .idle, todo := [.measureAll] }, t]) =
    (madeCircuit [m, measLayer 2] [0, 0], [{ pc := .counting (measLayer 2) 0, todo := [] }, t]) := by
  rfl

theorem late5 (m : List (GateObj R)) (t : Thread R) : [0, 0, 0].foldl stepThread (madeCircuit [m, measLayer 2] [0, 0],
      [{ pc := .counting (measLayer 2) 0, todo := [] }, t]) =
    (madeCircuit [m, measLayer 2] [1, 1], [{ pc := .idle, todo := [] }, t]) := by
  rfl

theorem late6 (t : Thread R) : [none, none, some 1, none].foldl stepWhile
      ((madeCircuit [[.x 0 2 1, .ident 1 2], measLayer 2] [1, 1], [t, { pc := .writing (.x 1 2 1) 1 1 1, todo := [] }]), .start) =
    ((madeCircuit [[.x 0 2 1, .x 1 2 1], measLayer 2] [1, 1], [t, { pc := .idle, todo := [] }]), .inside (.x 0 2 1) 1 [0] []) := by
  rfl

theorem late7 (ts : List (Thread R)) : [none, none, none, none].foldl stepWhile
      ((madeCircuit [[.x 0 2 1, .x 1 2 1], measLayer 2] [1, 1], ts), .inside (.x 0 2 1) 1 [0] []) =
    ((madeCircuit [[.x 0 2 1, .x 1 2 1], measLayer 2] [1, 1], ts), .finished [[.x 0 2 1, .x 1 2 1], initOps [2, 2] []]) := by
  rfl

/-- A thread calls `x(0)` and `measure_all()`. The other one looks at the circuit before the measurement, and puts its gate
there after `run()` was called. -/
example {c : Circuit ℤ} (hc : Circuit.new (.list [2, 2]) [] none = .ok c) :
    ∃ v, v = .ok [(.str (label [1, 1]), 1)] ∧
    ∃ (s0 s1 : List Nat) (s2 : List (Option Nat)) (ps : List (List (Call ℤ))),
      (runWhile c [[.x 0 none 1, .measureAll], [.x 1 none 1]] ((s0 ++ s1).map some ++ s2)).2.value sampleN (numpyBackend ℤ) c =
        some v ∧ ps.length = 2 ∧ ps[0]? = some [.x 0 none 1] ∧
      v = script sampleN (numpyBackend ℤ) (.list ([2, 2].map Int.ofNat)) [] none (ps.flatten ++ [.measureAll]) := by
  have hc' := hc
  rw [new_two hc] at hc' ⊢
  have e0 : runThreads (madeCircuit (R := ℤ) [] [0, 0]) [[.x 0 none 1, .measureAll], [.x 1 none 1]] ([0, 0, 0, 0] ++ [0, 0, 0, 0]) =
      (madeCircuit [[.x 0 2 1, .ident 1 2]] [0, 0], [{ pc := .idle, todo := [.measureAll] }, { pc := .idle, todo := [.x 1 none 1] }]) := by
    unfold runThreads
    rw [List.foldl_append]
    refine (congrArg (fun s => [0, 0, 0, 0].foldl stepThread s) (late1 [.measureAll] { pc := .idle, todo := [.x 1 none 1] })).trans ?_
    exact late2 _ _
  have e1 : runThreads (madeCircuit (R := ℤ) [] [0, 0]) [[.x 0 none 1, .measureAll], [.x 1 none 1]]
      (([0, 0, 0, 0] ++ [0, 0, 0, 0]) ++ ([1, 1, 1, 1, 1] ++ [0, 0, 0] ++ [0, 0, 0])) =
      (madeCircuit [[.x 0 2 1, .ident 1 2], measLayer 2] [1, 1],
        [{ pc := .idle, todo := [] }, { pc := .writing (.x 1 2 1) 1 1 1, todo := [] }]) := by
    unfold runThreads at e0 ⊢
    rw [List.foldl_append, e0, List.foldl_append, List.foldl_append, late3, late4, late5]
  have e2 : runWhile (madeCircuit (R := ℤ) [] [0, 0]) [[.x 0 none 1, .measureAll], [.x 1 none 1]]
      ((([0, 0, 0, 0] ++ [0, 0, 0, 0]) ++ ([1, 1, 1, 1, 1] ++ [0, 0, 0] ++ [0, 0, 0])).map some ++
        ([none, none, some 1, none] ++ [none, none, none, none])) =
      ((madeCircuit [[.x 0 2 1, .x 1 2 1], measLayer 2] [1, 1], [{ pc := .idle, todo := [] }, { pc := .idle, todo := [] }]),
        .finished [[.x 0 2 1, .x 1 2 1], initOps [2, 2] []]) := by
    have : ∀ (s : List Nat) (σ : Circuit ℤ × List (Thread ℤ)), (s.map some).foldl stepWhile (σ, .start) = (s.foldl stepThread σ, .start) := by
      intro s
      induction s with
      | nil => intro σ; rfl
      | cons i s ih => intro σ; exact ih _
    unfold runThreads at e1
    unfold runWhile
    rw [List.foldl_append, this, e1, List.foldl_append, late6, late7]
  have hval : (runWhile (madeCircuit (R := ℤ) [] [0, 0]) [[.x 0 none 1, .measureAll], [.x 1 none 1]]
      ((([0, 0, 0, 0] ++ [0, 0, 0, 0]) ++ ([1, 1, 1, 1, 1] ++ [0, 0, 0] ++ [0, 0, 0])).map some ++
        ([none, none, some 1, none] ++ [none, none, none, none]))).2.value sampleN (numpyBackend ℤ) (madeCircuit [] [0, 0]) =
      some (.ok [(.str (label [1, 1]), 1)]) := by
    rw [e2]
    decide +kernel
  refine ⟨_, rfl, [0, 0, 0, 0] ++ [0, 0, 0, 0], [1, 1, 1, 1, 1] ++ [0, 0, 0] ++ [0, 0, 0],
    [none, none, some 1, none] ++ [none, none, none, none], ?_⟩
  have hv : ∀ p ∈ [[Call.x (R := ℤ) 0 none 1, .measureAll], [.x 1 none 1]], ∀ k ∈ live p, k.Valid [2, 2] := by
    simp [live, Call.isMeasureAll, Call.Valid, InRange, DimOK]
  have hap : (([[Call.x (R := ℤ) 0 none 1, .measureAll], [.x 1 none 1]] : List (List (Call ℤ))).map live).Pairwise
      fun p p' => ∀ k ∈ p, ∀ k' ∈ p', ∀ r, ¬ (k.touches r ∧ k'.touches r) := by
    simp only [live, Call.isMeasureAll, List.map_cons, List.map_nil, List.takeWhile_cons, Bool.not_false, if_true, Bool.not_true,
      Bool.false_eq_true, if_false, List.takeWhile_nil, List.pairwise_cons, List.mem_singleton, forall_eq, List.not_mem_nil,
      Call.touches, IsEmpty.forall_iff, implies_true, List.Pairwise.nil, and_true]
    omega
  rcases C82_run_while_building (dims := [2, 2]) (B := numpyBackend ℤ) sampleN_sized numpy_lawful (by simp) (init := [])
    (validStart_of rfl) hv hap hc' _ _ _ (by
      intro i p t hp ht
      rw [e0] at ht
      match i, hp with
      | 0, hp => cases hp; cases ht; exact ⟨[.x 0 none 1], rfl, by simp⟩
      | 1, hp => cases hp; cases ht; exact ⟨[], rfl, by simp⟩)
    ⟨0, _, _, [.x 0 none 1, .measureAll], rfl, by rw [e1]; rfl, rfl, rfl, by simp⟩ hval
    with ⟨e, he⟩ | ⟨ps, h1, h2, ⟨i, p, h3, h4, h5⟩, h6, h7⟩
  · cases he
  · refine ⟨ps, hval, h1, ?_, h7⟩
    match i, h3 with
    | 0, h3 => cases h3; exact h5
    | 1, h3 => cases h3; simp at h4

/-- A circuit over one qubit with the layers `ms` after the first. -/
def madeOne (ms : List (List (GateObj R))) (mc : List Nat) : Circuit R :=
  { freshCircuit (.list [2]) [2] [] none with flow := { moments := initOps [2] [] :: ms, measCount := mc } }

theorem new_one {c : Circuit R} (hc : Circuit.new (.list [2]) [] none = .ok c) : c = madeOne [] [0] := by
  rw [show (RegsArg.list [2]) = .list ([2].map Int.ofNat) from rfl,
    new_ok (dims := [2]) rfl (validStart_of rfl) none, Except.ok.injEq] at hc
  rw [← hc]
  rfl

theorem one1 (ks : List (Call R)) (t : Thread R) : [0, 0, 0, 0].foldl stepThread
      (madeOne [] [0], [{ pc := .idle, todo := .x 0 none 1 :: ks }, t]) =
    (madeOne [] [0], [{ pc := .appending [.x 0 2 1], todo := ks }, t]) := by
  rfl

theorem one1' (ks : List (Call R)) (t : Thread R) : [0, 0, 0].foldl stepThread
      (madeOne [] [0], [{ pc := .appending [.x 0 2 1], todo := ks }, t]) =
    (madeOne [[.x 0 2 1]] [0], [{ pc := .idle, todo := ks }, t]) := by
  rfl

theorem one2 (t : Thread R) (m : List (List (GateObj R))) : [0, 0, 0].foldl stepThread (madeOne m [0], [{ pc := .idle, todo := [.measureAll] }, t]) =
    (madeOne (m ++ [measLayer 1]) [0], [{ pc := .counting (measLayer 1) 0, todo := [] }, t]) := by
  rfl

theorem one3 (t : Thread R) (m : List (List (GateObj R))) : [1, 1, 1].foldl stepThread (madeOne m [0], [t, { pc := .idle, todo := [.measureAll] }]) =
    (madeOne (m ++ [measLayer 1]) [0], [t, { pc := .counting (measLayer 1) 0, todo := [] }]) := by
  rfl

theorem one4 (m : List (List (GateObj R))) : [0, 0].foldl stepThread (madeOne m [0],
      [{ pc := .counting (measLayer 1) 0, todo := [] }, { pc := .counting (measLayer 1) 0, todo := [] }]) =
    (madeOne m [1], [{ pc := .idle, todo := [] }, { pc := .counting (measLayer 1) 0, todo := [] }]) := by
  rfl

/-- Two threads measure a qubit. Both have looked at the counts before one of them counts, so there are two layers of
measurements; `run()` reads one of them, which changes nothing. -/
example {c : Circuit ℤ} (hc : Circuit.new (.list [2]) [] none = .ok c) :
    ∃ v, v = .ok [(.str (label [1]), 1)] ∧
    ∃ (s0 s1 : List Nat) (s2 : List (Option Nat)) (ps : List (List (Call ℤ))),
      (runThreads c [[.x 0 none 1, .measureAll], [.measureAll]] (s0 ++ s1)).1.flow.moments.length = 4 ∧
      (runWhile c [[.x 0 none 1, .measureAll], [.measureAll]] ((s0 ++ s1).map some ++ s2)).2.valueOne sampleN (numpyBackend ℤ) c =
        some v ∧ ps.length = 2 ∧
      v = script sampleN (numpyBackend ℤ) (.list ([2].map Int.ofNat)) [] none (ps.flatten ++ [.measureAll]) := by
  have hc' := hc
  rw [new_one hc] at hc' ⊢
  have e0 : runThreads (madeOne (R := ℤ) [] [0]) [[.x 0 none 1, .measureAll], [.measureAll]] ([0, 0, 0, 0] ++ [0, 0, 0]) =
      (madeOne [[.x 0 2 1]] [0], [{ pc := .idle, todo := [.measureAll] }, { pc := .idle, todo := [.measureAll] }]) := by
    unfold runThreads
    rw [List.foldl_append]
    refine (congrArg (fun s => [0, 0, 0].foldl stepThread s) (one1 [.measureAll] { pc := .idle, todo := [.measureAll] })).trans ?_
    exact one1' _ _
  have e1 : runThreads (madeOne (R := ℤ) [] [0]) [[.x 0 none 1, .measureAll], [.measureAll]]
      (([0, 0, 0, 0] ++ [0, 0, 0]) ++ ([0, 0, 0] ++ [1, 1, 1] ++ [0, 0])) =
      (madeOne [[.x 0 2 1], measLayer 1, measLayer 1] [1],
        [{ pc := .idle, todo := [] }, { pc := .counting (measLayer 1) 0, todo := [] }]) := by
    have : runThreads (madeOne (R := ℤ) [] [0]) [[.x 0 none 1, .measureAll], [.measureAll]]
      (([0, 0, 0, 0] ++ [0, 0, 0]) ++ ([0, 0, 0] ++ [1, 1, 1] ++ [0, 0])) = ([0, 0, 0] ++ [1, 1, 1] ++ [0, 0]).foldl stepThread
        (runThreads (madeOne (R := ℤ) [] [0]) [[.x 0 none 1, .measureAll], [.measureAll]] ([0, 0, 0, 0] ++ [0, 0, 0])) := by
      unfold runThreads
      rw [List.foldl_append]
    rw [this, e0, List.foldl_append, List.foldl_append, one2, one3]
    exact one4 _
  have hrun : ∀ n, (runWhile (madeOne (R := ℤ) [] [0]) [[.x 0 none 1, .measureAll], [.measureAll]]
      ((([0, 0, 0, 0] ++ [0, 0, 0]) ++ ([0, 0, 0] ++ [1, 1, 1] ++ [0, 0])).map some ++ List.replicate n none)).2 =
      (Rc.step (madeOne (R := ℤ) [[.x 0 2 1], measLayer 1, measLayer 1] [1]).flow)^[n] .start := by
    intro n
    have hs : ∀ (s : List Nat) (σ : Circuit ℤ × List (Thread ℤ)) (r : Rc ℤ),
        (s.map some).foldl stepWhile (σ, r) = (s.foldl stepThread σ, r) := by
      intro s
      induction s with
      | nil => intro σ r; rfl
      | cons i s ih => intro σ r; exact ih _ _
    have hn : ∀ (n : Nat) (σ : Circuit ℤ × List (Thread ℤ)) (r : Rc ℤ),
        ((List.replicate n none).foldl stepWhile (σ, r)).2 = (Rc.step σ.1.flow)^[n] r := by
      intro n
      induction n with
      | zero => intro σ r; rfl
      | succ n ih => intro σ r; exact ih _ _
    have hrt : (([0, 0, 0, 0] ++ [0, 0, 0]) ++ ([0, 0, 0] ++ [1, 1, 1] ++ [0, 0])).foldl stepThread (madeOne (R := ℤ) [] [0],
        [[Call.x 0 none 1, .measureAll], [.measureAll]].map fun l => { pc := .idle, todo := l }) = _ := e1
    unfold runWhile
    rw [List.foldl_append, hs, hrt, hn]
  have hval : ((runWhile (madeOne (R := ℤ) [] [0]) [[.x 0 none 1, .measureAll], [.measureAll]]
      ((([0, 0, 0, 0] ++ [0, 0, 0]) ++ ([0, 0, 0] ++ [1, 1, 1] ++ [0, 0])).map some ++ List.replicate 9 none))).2.valueOne sampleN
        (numpyBackend ℤ) (madeOne [] [0]) = some (.ok [(.str (label [1]), 1)]) := by
    rw [hrun]
    decide +kernel
  refine ⟨_, rfl, [0, 0, 0, 0] ++ [0, 0, 0], [0, 0, 0] ++ [1, 1, 1] ++ [0, 0], List.replicate 9 none, ?_⟩
  rcases C82_one_register (dims := [2]) (B := numpyBackend ℤ) sampleN_sized numpy_lawful rfl (init := []) (validStart_of rfl)
    (progs := [[.x 0 none 1, .measureAll], [.measureAll]])
    (by simp [live, Call.isMeasureAll, Call.Valid, InRange, DimOK]) (by simp [live, Call.isMeasureAll]) hc' _ _ _ (by
      intro i p t hp ht
      rw [e0] at ht
      match i, hp with
      | 0, hp => cases hp; cases ht; exact ⟨[.x 0 none 1], rfl, by simp⟩
      | 1, hp => cases hp; cases ht; exact ⟨[], rfl, by simp⟩)
    ⟨0, _, _, [.x 0 none 1, .measureAll], rfl, by rw [e1]; rfl, rfl, rfl, by simp⟩ hval
    with ⟨e, he⟩ | ⟨ps, h1, _, _, _, h7⟩
  · cases he
  · exact ⟨ps, by rw [e1]; rfl, hval, h1, h7⟩

/-- The layers of `x(0)` on a qubit give a result. -/
example : (Rc.finished [[.x 0 2 1], initOps [2] []]).valueOne sampleN (numpyBackend ℤ) (madeOne [] [0]) =
    some (.ok [(.str (label [1]), 1)]) :=
  C82_result_one_register sampleN (numpyBackend ℤ) (by decide +kernel)

end QuDiet
