import Mathlib.Data.List.GetD
import Verif.Threads
import Verif.Lemmas.Moments
import Verif.Lemmas.Linear
import Verif.Lemmas.Measuring

/-! # Layers that several threads write to -/

namespace QuDiet
open Spec

variable {R : Type} [CommRing R]

/-! ### A call builds its layer, then hands it over -/

theorem layerOf_flow (c : Circuit R) (f : Flow R) (k : Call R) : ({ c with flow := f } : Circuit R).layerOf k = c.layerOf k := by
  cases k with
  | gate U q d => cases q <;> rfl
  | _ => rfl

/-- A method builds its layer and gives it to the flow. -/
theorem callM_layerOf (c : Circuit R) (k : Call R) : (∃ e, c.callM k = .error e ∧ c.layerOf k = .error e) ∨
    ∃ m, c.layerOf k = .ok m ∧ ((∃ e, c.callM k = .error e ∧ c.flow.populate m = .error e) ∨
      ∃ f b b', c.callM k = .ok ({ c with flow := f }, b) ∧ c.flow.populate m = .ok (f, b')) := by
  have one : ∀ (q : RegArg) (g : GateObj R), (∃ e, c.addMoment q g = .error e ∧ c.momentData q g = .error e) ∨
      ∃ m, c.momentData q g = .ok m ∧ ((∃ e, c.addMoment q g = .error e ∧ c.flow.populate m = .error e) ∨
      ∃ f b b', c.addMoment q g = .ok ({ c with flow := f }, b) ∧ c.flow.populate m = .ok (f, b')) := by
    intro q g
    unfold Circuit.addMoment
    cases hm : c.momentData q g with
    | error e => exact .inl ⟨e, rfl, rfl⟩
    | ok m =>
      refine .inr ⟨m, rfl, ?_⟩
      cases hp : c.flow.populate m with
      | error e => exact .inl ⟨e, by simp [bind, Except.bind, hp], rfl⟩
      | ok p => exact .inr ⟨p.1, p.2, p.2, by simp [bind, Except.bind, hp], rfl⟩
  cases k with
  | h q d =>
    simp only [Circuit.callM, Circuit.layerOf]
    cases c.validate q d with
    | error e => exact .inl ⟨e, rfl, rfl⟩
    | ok u => cases c.gateDims q d with
      | error e => exact .inl ⟨e, rfl, rfl⟩
      | ok d =>
        simp only [bind, Except.bind]
        exact one _ _
  | x q d p =>
    simp only [Circuit.callM, Circuit.layerOf]
    cases c.validate q d with
    | error e => exact .inl ⟨e, rfl, rfl⟩
    | ok u => cases c.gateDims q d with
      | error e => exact .inl ⟨e, rfl, rfl⟩
      | ok d =>
        simp only [bind, Except.bind]
        exact one _ _
  | z q d =>
    simp only [Circuit.callM, Circuit.layerOf]
    cases c.validate q d with
    | error e => exact .inl ⟨e, rfl, rfl⟩
    | ok u => cases c.gateDims q d with
      | error e => exact .inl ⟨e, rfl, rfl⟩
      | ok d =>
        simp only [bind, Except.bind]
        exact one _ _
  | cx a t p => exact one _ _
  | toffoli cs t p =>
    simp only [Circuit.callM, Circuit.layerOf]
    cases toffoliDm (R := R) cs t p c.qregs.seq with
    | error e => exact .inl ⟨e, rfl, rfl⟩
    | ok v =>
      obtain ⟨U, lb, ub, ds⟩ := v
      simp only [bind, Except.bind]
      rcases one (.list (pyRange lb (ub + 1))) (.toffoli cs t (pyRange lb (ub + 1)) ds U p) with
        ⟨e, h1, h2⟩ | ⟨m, h1, ⟨e, h2, h3⟩ | ⟨f, b, b', h2, h3⟩⟩
      · exact .inl ⟨e, by rw [h1], h2⟩
      · exact .inr ⟨m, h1, .inl ⟨e, by rw [h2], h3⟩⟩
      · exact .inr ⟨m, h1, .inr ⟨f, true, b', by rw [h2], h3⟩⟩
  | gate U q d =>
    cases q with
    | int q =>
      simp only [Circuit.callM, Circuit.layerOf]
      cases c.validate q d with
      | error e => exact .inl ⟨e, rfl, rfl⟩
      | ok u => cases c.gateDims q d with
        | error e => exact .inl ⟨e, rfl, rfl⟩
          | ok d =>
          simp only [bind, Except.bind]
          exact one _ _
    | list qs =>
      simp only [Circuit.callM, Circuit.layerOf]
      cases qs.forM fun q => c.validate q d with
      | error e => exact .inl ⟨e, rfl, rfl⟩
      | ok u =>
        have lst : ∀ r : PyM (List Nat), (∃ e, (r.bind fun v => c.addMoment (.list qs) (.arb (.list qs) (.list v) U)) = .error e ∧
              (r.bind fun v => c.momentData (.list qs) (.arb (.list qs) (.list v) U)) = .error e) ∨
            ∃ m, (r.bind fun v => c.momentData (.list qs) (.arb (.list qs) (.list v) U)) = .ok m ∧
              ((∃ e, (r.bind fun v => c.addMoment (.list qs) (.arb (.list qs) (.list v) U)) = .error e ∧
                c.flow.populate m = .error e) ∨
              ∃ f b b', (r.bind fun v => c.addMoment (.list qs) (.arb (.list qs) (.list v) U)) = .ok ({ c with flow := f }, b) ∧
                c.flow.populate m = .ok (f, b')) := by
          intro r
          cases r with
          | error e => exact .inl ⟨e, rfl, rfl⟩
          | ok v => exact one _ _
        have := lst (qs.mapM (pyGet c.regDims))
        simp only [bind, Except.bind] at this ⊢
        rcases d with _ | _ | d
        · exact this
        · exact this
        · exact one _ _
  | measure q => exact .inl ⟨_, rfl, rfl⟩
  | measureAll =>
    refine .inr ⟨_, rfl, ?_⟩
    simp only [Circuit.callM]
    cases hp : c.flow.populate ((List.range c.regLength).map .meas) with
    | error e => exact .inl ⟨e, rfl, rfl⟩
    | ok p => exact .inr ⟨p.1, true, p.2, rfl, rfl⟩

/-- Only `h`, `x` and `z` build layers whose gate may join another layer; it acts on the register of the call. -/
theorem layerOf_joins {c : Circuit R} {k : Call R} {m : List (GateObj R)} {g : GateObj R} {q : Int}
    (hm : c.layerOf k = .ok m) (hg : m.find? (·.isHXZ) = some g) (ha : g.actingOn = .ok (.int q)) :
    ∀ r : Nat, k.touches r ↔ q = r := by
  have hmem := List.mem_of_find?_eq_some hg
  have his := List.find?_some hg
  have none' : ∀ (qa : RegArg) (g' : GateObj R), c.momentData qa g' = .ok m → g'.isHXZ = false → False := by
    intro qa g' h hf
    have := momentData_all (p := fun g => g.isHXZ = false) (fun _ _ => rfl) h hf g hmem
    simp only [his] at this
    cases this
  have some' : ∀ (qa : RegArg) (g' : GateObj R), c.momentData qa g' = .ok m → g = g' := by
    intro qa g' h
    rcases momentData_all (p := fun g => g = g' ∨ g.isHXZ = false) (fun _ _ => .inr rfl) h (.inl rfl) g hmem with e | e
    · exact e
    · rw [his] at e; cases e
  cases k with
  | h q' d =>
    simp only [Circuit.layerOf] at hm
    cases hv : c.validate q' d <;> simp only [hv, bind, Except.bind] at hm
    · cases hm
    cases hd : c.gateDims q' d <;> simp only [hd] at hm
    · cases hm
    have := some' _ _ hm
    subst this
    cases ha
    exact fun r => Iff.rfl
  | x q' d p =>
    simp only [Circuit.layerOf] at hm
    cases hv : c.validate q' d <;> simp only [hv, bind, Except.bind] at hm
    · cases hm
    cases hd : c.gateDims q' d <;> simp only [hd] at hm
    · cases hm
    have := some' _ _ hm
    subst this
    cases ha
    exact fun r => Iff.rfl
  | z q' d =>
    simp only [Circuit.layerOf] at hm
    cases hv : c.validate q' d <;> simp only [hv, bind, Except.bind] at hm
    · cases hm
    cases hd : c.gateDims q' d <;> simp only [hd] at hm
    · cases hm
    have := some' _ _ hm
    subst this
    cases ha
    exact fun r => Iff.rfl
  | cx a t p =>
    simp only [Circuit.layerOf] at hm
    exact (none' _ _ hm rfl).elim
  | toffoli cs t p =>
    simp only [Circuit.layerOf] at hm
    cases hv : toffoliDm (R := R) cs t p c.qregs.seq <;> simp only [hv, bind, Except.bind] at hm
    · cases hm
    exact (none' _ _ hm rfl).elim
  | gate U qa d =>
    cases qa with
    | int q' =>
      simp only [Circuit.layerOf] at hm
      cases hv : c.validate q' d <;> simp only [hv, bind, Except.bind] at hm
      · cases hm
      cases hd : c.gateDims q' d <;> simp only [hd] at hm
      · cases hm
      exact (none' _ _ hm rfl).elim
    | list qs =>
      simp only [Circuit.layerOf] at hm
      cases hv : (qs.forM fun q => c.validate q d) <;> simp only [hv, bind, Except.bind] at hm
      · cases hm
      rcases d with _ | _ | d
      · cases hr : qs.mapM (pyGet c.regDims) <;> simp only [hr] at hm
        · cases hm
        · exact (none' _ _ hm rfl).elim
      · cases hr : qs.mapM (pyGet c.regDims) <;> simp only [hr] at hm
        · cases hm
        · exact (none' _ _ hm rfl).elim
      · exact (none' _ _ hm rfl).elim
  | measure q => cases hm
  | measureAll =>
    simp only [Circuit.layerOf, Except.ok.injEq] at hm
    subst hm
    obtain ⟨i, _, rfl⟩ := List.mem_map.1 hmem
    cases his

variable [StarRing R] [DecidableEq R] [UnitaryCheck R]

/-! ### Layers and the calls they carry -/

variable {N : Numerics R} {dims : List Nat}

/-- A layer carries the calls `ks`: it does what they do. -/
def Carries (N : Numerics R) (dims : List Nat) (l : List (GateObj R) × List (Option (Block R))) (ks : List (Call R)) : Prop :=
  none ∉ l.2 ∧ (∀ k ∈ ks, k.Valid dims) ∧ ∀ ψ, EqOn dims (layerAct l.2 ψ) (applyAll N dims ks ψ)

/-- A circuit whose layers carry the calls `kss`. -/
structure Shared (N : Numerics R) (dims : List Nat) (init : List Int) (c : Circuit R)
    (layers : List (List (GateObj R) × List (Option (Block R)))) (kss : List (List (Call R))) : Prop where
  qregs : c.qregs.seq = dims
  unm : Unmeasured dims (Slot N dims) c (initOps dims init) layers
  made : List.Forall₂ (Carries N dims) layers kss

theorem applied_valid (h2 : ∀ d ∈ dims, 2 ≤ d) {ks : List (Call R)} (h : ∀ k ∈ ks, k.Valid dims) (ψ : State R) :
    applied N dims ks ψ = applyAll N dims ks ψ := by
  unfold applied applyAll
  rw [List.filter_eq_self.2]
  intro k hk
  simp [(h k hk).applied h2]

theorem sem_carries {layers : List (List (GateObj R) × List (Option (Block R)))} {kss : List (List (Call R))}
    (h : List.Forall₂ (Carries N dims) layers kss) (ψ : State R) :
    (∀ l ∈ layers, none ∉ l.2) ∧ (∀ k ∈ kss.flatten, k.Valid dims) ∧
      EqOn dims (sem layers ψ) (applyAll N dims kss.flatten ψ) := by
  induction h generalizing ψ with
  | nil => exact ⟨by simp, by simp, EqOn.rfl'⟩
  | @cons l ks ls kss h _ ih =>
    obtain ⟨h1, h3, h4⟩ := h
    obtain ⟨i1, i2, i3⟩ := ih (layerAct l.2 ψ)
    refine ⟨?_, ?_, ?_⟩
    · intro l' hl'
      rcases List.mem_cons.1 hl' with rfl | hl'
      · exact h1
      · exact i1 l' hl'
    · intro k hk
      rw [List.flatten_cons] at hk
      rcases List.mem_append.1 hk with hk | hk
      · exact h3 k hk
      · exact i2 k hk
    · rw [List.flatten_cons, applyAll_append]
      have : sem (l :: ls) ψ = sem ls (layerAct l.2 ψ) := rfl
      rw [this]
      exact i3.trans' (applyAll_congr N i2 (h4 ψ))

theorem Shared.inv (h2 : ∀ d ∈ dims, 2 ≤ d) {init : List Int} {c : Circuit R}
    {layers : List (List (GateObj R) × List (Option (Block R)))} {kss : List (List (Call R))}
    (h : Shared N dims init c layers kss) (ψ : State R) : Inv N dims ψ c (initOps dims init) kss.flatten layers := by
  obtain ⟨h1, h3, h4⟩ := sem_carries h.made ψ
  refine ⟨h.unm, ?_, fun _ => ⟨h1, ?_⟩⟩
  · rintro ⟨k, hk, hb⟩
    rw [(h3 k hk).applied h2] at hb
    cases hb
  · rw [applied_valid h2 h3]
    exact h4

/-- The part of the proofs about one layer: a call is made on a circuit with at most one layer. -/
theorem Shared.one [Nontrivial R] (hN : N.Sized) (h2 : ∀ d ∈ dims, 2 ≤ d) {init : List Int} {c : Circuit R}
    {layers : List (List (GateObj R) × List (Option (Block R)))} {kss : List (List (Call R))}
    (h : Shared N dims init c layers kss) {k : Call R} (hk : k.Valid dims) {m : List (GateObj R)}
    (hm : c.layerOf k = .ok m) :
    ∃ f b layers', c.flow.populate m = .ok (f, b) ∧
      Unmeasured dims (Slot N dims) { c with flow := f } (initOps dims init) layers' ∧
      (∀ l ∈ layers', none ∉ l.2) ∧ ∀ ψ, EqOn dims (sem layers' ψ) (applyAll N dims (kss.flatten ++ [k]) ψ) := by
  have hap := hk.applied h2
  obtain ⟨ra, lb, ub, g, hE⟩ := emits_all hN h2 h.unm.npos h.unm.regDims h.unm.regLength (k := k) (fun _ => h.qregs)
    hk.not_measureAll (by rw [hap]; simp) (by rw [hap]; simp)
  obtain ⟨f, layers', hcall, hinv⟩ := h.unm.emit hE (.inr (.inl hap))
  have hv : ∀ k' ∈ kss.flatten ++ [k], k'.Valid dims := by
    intro k' hk'
    rcases List.mem_append.1 hk' with hk' | hk'
    · exact (sem_carries h.made (fun _ => 0)).2.1 k' hk'
    · rw [List.mem_singleton.1 hk']; exact hk
  have hpop : ∃ b, c.flow.populate m = .ok (f, b) := by
    rcases callM_layerOf c k with ⟨e, h1, _⟩ | ⟨m', h1, ⟨e, h3, _⟩ | ⟨f', b, b', h3, h4⟩⟩
    · rw [h1] at hcall; cases hcall
    · rw [h3] at hcall; cases hcall
    · rw [hm] at h1
      cases h1
      rw [h3] at hcall
      injection hcall with hcall
      have : f' = f := congrArg (fun p : Circuit R × Bool => p.1.flow) hcall
      exact ⟨b', by rw [h4, this]⟩
  obtain ⟨b, hpop⟩ := hpop
  refine ⟨f, b, layers', hpop, (hinv (fun _ => 0) _ (h.inv h2 _)).unm, ?_, ?_⟩
  · have := (hinv (fun _ => 0) _ (h.inv h2 _)).good fun k' hk' => by rw [(hv k' hk').applied h2]; simp
    exact this.1
  · intro ψ
    have := (hinv ψ _ (h.inv h2 _)).good fun k' hk' => by rw [(hv k' hk').applied h2]; simp
    rw [← applied_valid h2 hv]
    exact this.2

omit [StarRing R] [DecidableEq R] [UnitaryCheck R] in
theorem map_fst_one {α β : Type} {l : List (α × β)} {a : α} (h : l.map Prod.fst = [a]) : ∃ b, l = [(a, b)] := by
  match l, h with
  | [(a', b)], h =>
    simp only [List.map_cons, List.map_nil, List.cons.injEq, and_true] at h
    exact ⟨b, by rw [h]⟩

omit [StarRing R] [DecidableEq R] [UnitaryCheck R] in
theorem identRegs_initOps (init : List Int) (q : Int) : q ∉ identRegs (initOps (R := R) dims init) := by
  unfold identRegs
  rw [List.mem_filterMap]
  rintro ⟨g, hg, he⟩
  have := (initOps_isInit dims init g hg).1
  cases g <;> simp_all [GateObj.isInit]

/-- A new layer with one call. -/
theorem Shared.append [Nontrivial R] (hN : N.Sized) (h2 : ∀ d ∈ dims, 2 ≤ d) {init : List Int} {c : Circuit R}
    {layers : List (List (GateObj R) × List (Option (Block R)))} {kss : List (List (Call R))}
    (h : Shared N dims init c layers kss) {k : Call R} (hk : k.Valid dims) {m : List (GateObj R)}
    (hm : c.layerOf k = .ok m) :
    (∀ g ∈ m, g.isMeas = false) ∧ ∃ bs, Shared N dims init
      { c with flow := { c.flow with moments := c.flow.moments ++ [m] } } (layers ++ [(m, bs)]) (kss ++ [[k]]) := by
  -- the call on an empty circuit
  have h0 : Shared N dims init { c with flow := { moments := [initOps dims init], measCount := c.flow.measCount } } [] [] :=
    ⟨h.qregs, ⟨h.unm.npos, h.unm.regDims, h.unm.regLength, rfl, h.unm.meas, by simp, h.unm.isInit, by simp⟩, .nil⟩
  obtain ⟨f, b, layers', hpop, hU, hnone, hact⟩ := h0.one hN h2 hk (by rw [layerOf_flow]; exact hm)
  have hf : f = Flow.append { moments := [initOps dims init], measCount := c.flow.measCount } m := by
    cases hfind : m.find? (·.isHXZ) with
    | none =>
      rw [populate_plain _ m _ rfl h0.unm.notAll hfind] at hpop
      cases hpop; rfl
    | some g =>
      have hgm := List.find?_some hfind
      obtain ⟨q, hq⟩ : ∃ q, g.actingOn = .ok (.int q) := by
        cases g <;> first | exact ⟨_, rfl⟩ | cases hgm
      rw [populate_new _ m _ rfl h0.unm.notAll g hfind q hq (identRegs_initOps init q)] at hpop
      cases hpop; rfl
  have hmom := hU.moments
  rw [hf] at hmom
  simp only [Flow.append, List.cons_append, List.nil_append, List.cons.injEq, true_and] at hmom
  obtain ⟨bs, rfl⟩ := map_fst_one hmom.symm
  have hmeas : ∀ g ∈ m, g.isMeas = false := hU.noMeas (m, bs) (by simp)
  refine ⟨hmeas, bs, h.qregs, ⟨h.unm.npos, h.unm.regDims, h.unm.regLength, ?_, h.unm.meas, ?_, h.unm.isInit, ?_⟩, ?_⟩
  · simp [h.unm.moments]
  · intro l hl
    rcases List.mem_append.1 hl with hl | hl
    · exact h.unm.lay l hl
    · exact hU.lay l hl
  · intro l hl
    rcases List.mem_append.1 hl with hl | hl
    · exact h.unm.noMeas l hl
    · exact hU.noMeas l hl
  · refine List.rel_append h.made (.cons ⟨hnone _ (by simp), by simpa using hk, fun ψ => ?_⟩ .nil)
    exact hact ψ

/-- A call that joins a layer. -/
theorem Shared.write [Nontrivial R] (hN : N.Sized) (h2 : ∀ d ∈ dims, 2 ≤ d) {init : List Int} {c : Circuit R}
    {l1 l2 : List (List (GateObj R) × List (Option (Block R)))} {l : List (GateObj R) × List (Option (Block R))}
    {kss1 kss2 : List (List (Call R))} {ks : List (Call R)}
    (h : Shared N dims init c (l1 ++ l :: l2) (kss1 ++ ks :: kss2)) (hlen : l1.length = kss1.length)
    {k : Call R} (hk : k.Valid dims) {m : List (GateObj R)} {g : GateObj R} {q d i : Nat}
    (hm : c.layerOf k = .ok m) (hg : m.find? (·.isHXZ) = some g) (ha : g.actingOn = .ok (.int q))
    (hi : l.1[i]? = some (.ident q d)) (hq : q < dims.length) :
    ∃ bs, Shared N dims init
      { c with flow := { c.flow with moments := initOps dims init :: (l1 ++ (l.1.set i g, bs) :: l2).map Prod.fst } }
      (l1 ++ (l.1.set i g, bs) :: l2) (kss1 ++ (ks ++ [k]) :: kss2) := by
  obtain ⟨a1, a2, a3, hmade, e⟩ : ∃ (_ : List.Forall₂ (Carries N dims) l1 kss1) (_ : Carries N dims l ks)
      (_ : List.Forall₂ (Carries N dims) l2 kss2), True ∧ True := by
    have := h.made
    rw [List.forall₂_iff_get] at this
    have hlen' := this.1
    rw [← List.forall₂_iff_get] at this
    have s1 := List.forall₂_take l1.length this
    have s2 := List.forall₂_drop l1.length this
    rw [List.take_left' rfl, List.take_left' hlen.symm] at s1
    rw [List.drop_left' rfl, List.drop_left' hlen.symm] at s2
    cases s2 with
    | cons x y => exact ⟨s1, x, y, trivial, trivial⟩
  have hl := h.unm.lay l (by simp)
  have hlm := h.unm.noMeas l (by simp)
  have h0 : Shared N dims init { c with flow := { moments := [initOps dims init, l.1], measCount := c.flow.measCount } } [l] [ks] :=
    ⟨h.qregs, ⟨h.unm.npos, h.unm.regDims, h.unm.regLength, rfl, h.unm.meas, by simpa using hl, h.unm.isInit, by simpa using hlm⟩,
      .cons a2 .nil⟩
  obtain ⟨f, b, layers', hpop, hU, hnone, hact⟩ := h0.one hN h2 hk (by rw [layerOf_flow]; exact hm)
  have hqi : (q : Int) ∈ identRegs l.1 := by
    unfold identRegs
    rw [List.mem_filterMap]
    exact ⟨_, List.mem_of_getElem? hi, rfl⟩
  obtain ⟨m1, d', m2, b1, bi, b2, e1, _, _, _, hget, _, _, hn1, hn2⟩ := hl.find_ident hqi hq
  have hin : InHull (GateObj.ident (R := R) q d).regs q := inHull_singleton.2 rfl
  have him : i = m1.length := by
    rcases Nat.lt_trichotomy i m1.length with hlt | heq | hgt
    · rw [e1, List.getElem?_append_left hlt] at hi
      exact (hn1 _ (List.mem_of_getElem? hi) hin).elim
    · exact heq
    · rw [e1, List.getElem?_append_right (by omega)] at hi
      obtain ⟨j, hj⟩ : ∃ j, i - m1.length = j + 1 := ⟨i - m1.length - 1, by omega⟩
      rw [hj, List.getElem?_cons_succ] at hi
      exact (hn2 _ (List.mem_of_getElem? hi) hin).elim
  have hrep : replaceIgate l.1 q g = .ok (l.1.set i g, true) := by
    unfold replaceIgate
    rw [hget 0]
    simp [bind, Except.bind, GateObj.isIdent, him]
  rw [populate_pack _ m l.1 rfl h0.unm.notAll g hg q ha hqi _ hrep] at hpop
  injection hpop with hpop
  injection hpop with hf _
  have hmom := hU.moments
  rw [← hf] at hmom
  simp only [List.dropLast_cons₂, List.dropLast_singleton, List.cons_append, List.nil_append, List.cons.injEq, true_and] at hmom
  obtain ⟨bs, rfl⟩ := map_fst_one hmom.symm
  refine ⟨bs, h.qregs, ⟨h.unm.npos, h.unm.regDims, h.unm.regLength, rfl, h.unm.meas, ?_, h.unm.isInit, ?_⟩, ?_⟩
  · intro l' hl'
    simp only [List.mem_append, List.mem_cons] at hl'
    rcases hl' with hl' | rfl | hl'
    · exact h.unm.lay l' (by simp [hl'])
    · exact hU.lay _ (by simp)
    · exact h.unm.lay l' (by simp [hl'])
  · intro l' hl'
    simp only [List.mem_append, List.mem_cons] at hl'
    rcases hl' with hl' | rfl | hl'
    · exact h.unm.noMeas l' (by simp [hl'])
    · exact hU.noMeas _ (by simp)
    · exact h.unm.noMeas l' (by simp [hl'])
  · refine List.rel_append a1 (.cons ⟨hnone _ (by simp), ?_, fun ψ => ?_⟩ a3)
    · intro k' hk'
      rcases List.mem_append.1 hk' with hk' | hk'
      · exact a2.2.1 k' hk'
      · rw [List.mem_singleton.1 hk']; exact hk
    · have := hact ψ
      rw [List.flatten_cons, List.flatten_nil, List.append_nil] at this
      exact this

end QuDiet
