import Verif.Lemmas.Script

/-! # Arbitrary calls

What every call does to the layers, with no assumption on its arguments. -/

namespace QuDiet
open Spec

variable {R : Type} [CommRing R]

/-- `toffoli` returns `True` whatever became of its moment. -/
def Call.ret (k : Call R) (b : Bool) : Bool :=
  match k with
  | .toffoli .. => true
  | _ => b

/-- What `cx` and `toffoli` objects record: the dimensions of the registers from the lowest to the highest one
(and these registers, for `toffoli`). `dims` are the dimensions of the registers, `seq` is `self.qregs` as a
sequence. -/
def GateObj.SpanOk (dims seq : List Nat) : GateObj R → Prop
  | .toffoli cs t a ds _ _ => ∃ lb ub, pyMin (cs ++ [t]) = .ok lb ∧ pyMax (cs ++ [t]) = .ok ub ∧
      a = pyRange lb (ub + 1) ∧ a.mapM (pyGet seq) = .ok ds
  | .cx qr c t _ => qr = if c < t then pySlice dims c (t + 1) else pySlice dims t (c + 1)
  | _ => True

/-- The gate object that a call builds: its dimension is the given one or that of the register, its matrix the
given or computed one. -/
def GateObj.From (dims seq : List Nat) (k : Call R) : GateObj R → Prop
  | .h q d => ∃ o, k = .h q o ∧ ((∃ j, o = some (j + 1) ∧ d = j + 1) ∨ (o.getD 0 = 0 ∧ pyGet dims q = .ok d))
  | .x q d p => ∃ o, k = .x q o p ∧ ((∃ j, o = some (j + 1) ∧ d = j + 1) ∨ (o.getD 0 = 0 ∧ pyGet dims q = .ok d))
  | .z q d => ∃ o, k = .z q o ∧ ((∃ j, o = some (j + 1) ∧ d = j + 1) ∨ (o.getD 0 = 0 ∧ pyGet dims q = .ok d))
  | .cx _ c t p => k = .cx c t p
  | .toffoli cs t _ ds U p => k = .toffoli cs t p ∧ ∃ lb ub, toffoliDm cs t p seq = .ok (U, lb, ub, ds)
  | .arb q _ U => ∃ o, k = .gate U q o
  | _ => False

/-- The call `k` adds a moment for the gate object `g` on the registers `lb` to `ub`. -/
structure Adds (c : Circuit R) (k : Call R) (q : RegArg) (lb ub : Int) (g : GateObj R) : Prop where
  gateAt : GateAt q lb ub g
  regs : g.regs = k.regs
  kind : g.kind = k.kind
  drawn : g.drawn = k.drawn
  span : g.SpanOk c.regDims c.qregs.seq
  hxz : g.isHXZ = k.isHXZ
  src : g.From c.regDims c.qregs.seq k
  call : ∀ c' b, c.addMoment q g = .ok (c', b) → c.callM k = .ok (c', k.ret b)

/-- The call raises, whatever has been added to the circuit so far. -/
def StaticErr (c : Circuit R) (k : Call R) : Prop :=
  ∃ e, ∀ c' : Circuit R, c'.qregs = c.qregs → c'.regDims = c.regDims → c'.regLength = c.regLength →
    c'.callM k = .error e

theorem StaticErr.raises {c : Circuit R} {k : Call R} (h : StaticErr c k) : ∃ e, c.callM k = .error e := by
  obtain ⟨e, h⟩ := h
  exact ⟨e, h c rfl rfl rfl⟩

theorem validate_congr {c c' : Circuit R} (h2 : c'.regDims = c.regDims) (h3 : c'.regLength = c.regLength)
    (q : Int) (o : Option Nat) : c'.validate q o = c.validate q o := by
  unfold Circuit.validate
  rw [h2, h3]

theorem gateDims_congr {c c' : Circuit R} (h2 : c'.regDims = c.regDims)
    (q : Int) (o : Option Nat) : c'.gateDims q o = c.gateDims q o := by
  unfold Circuit.gateDims
  rw [h2]

theorem adds_one {c : Circuit R} {k : Call R} {q : Int} {o : Option Nat} {f : Nat → GateObj R}
    (hk : ∀ c : Circuit R,
      c.callM k = (do c.validate q o; let d ← c.gateDims q o; c.addMoment (.int q) (f d)))
    (hf : ∀ d, (f d).regs = [q] ∧ (f d).isInit = false ∧ (f d).isMeas = false ∧ (f d).isIdent = false ∧
      (f d).kind = k.kind ∧ (f d).isHXZ = k.isHXZ ∧ (f d).drawn = k.drawn ∧
      (f d).SpanOk c.regDims c.qregs.seq ∧
      (((∃ j, o = some (j + 1) ∧ d = j + 1) ∨ (o.getD 0 = 0 ∧ pyGet c.regDims q = .ok d)) →
        (f d).From c.regDims c.qregs.seq k)) (hr : k.regs = [q]) (hret : ∀ b, k.ret b = b) :
    StaticErr c k ∨ ∃ ra lb ub g, Adds c k ra lb ub g := by
  cases h1 : c.validate q o with
  | error e =>
    refine .inl ⟨e, fun c' _ e2 e3 => ?_⟩
    rw [hk, validate_congr e2 e3, h1]
    rfl
  | ok u =>
    cases h2 : c.gateDims q o with
    | error e =>
      refine .inl ⟨e, fun c' _ e2 e3 => ?_⟩
      rw [hk, validate_congr e2 e3, h1, gateDims_congr e2, h2]
      rfl
    | ok d =>
      right
      obtain ⟨m1, m2, m3, m4, m5, m6, m7, m8, m9⟩ := hf d
      have hsrc : (∃ j, o = some (j + 1) ∧ d = j + 1) ∨ (o.getD 0 = 0 ∧ pyGet c.regDims q = .ok d) := by
        unfold Circuit.gateDims at h2
        rcases o with _ | _ | j
        · exact .inr ⟨rfl, h2⟩
        · exact .inr ⟨rfl, h2⟩
        · cases h2; exact .inl ⟨j, rfl, rfl⟩
      refine ⟨.int q, q, q, f d, ⟨⟨rfl, rfl⟩, le_refl _, m2, m3, m4, by simp [m1], by simp [m1], by simp [m1]⟩,
        by rw [m1, hr], m5, m7, m8, m6, m9 hsrc, ?_⟩
      intro c' b h
      rw [hk, hret, h1, h2]
      exact h

theorem toffoliDm_bounds {cs : List Int} {t p : Int} {ds : List Nat} {lb ub : Int}
    (hmin : pyMin (cs ++ [t]) = .ok lb) (hmax : pyMax (cs ++ [t]) = .ok ub)
    {r : Mat R × Int × Int × List Nat} (h : toffoliDm cs t p ds = .ok r) :
    r.2.1 = lb ∧ r.2.2.1 = ub ∧ (pyRange lb (ub + 1)).mapM (pyGet ds) = .ok r.2.2.2 := by
  unfold toffoliDm at h
  simp only [hmin, hmax, bind, Except.bind] at h
  split at h
  · cases h
  · rename_i h0
    split at h
    · cases h
    · split at h
      · cases h
      · cases h; exact ⟨rfl, rfl, h0⟩

/-- Any call but `measure_all()` raises, or adds a moment. -/
theorem callM_any (c : Circuit R) (k : Call R) (hm : k.isMeasureAll = false) :
    StaticErr c k ∨ ∃ ra lb ub g, Adds c k ra lb ub g := by
  cases k with
  | h q o =>
    exact adds_one (f := fun d => .h q d) (fun _ => rfl) (fun d => ⟨rfl, rfl, rfl, rfl, rfl, rfl, rfl, trivial, fun h => ⟨_, rfl, h⟩⟩) rfl fun _ => rfl
  | x q o p =>
    exact adds_one (f := fun d => .x q d p) (fun _ => rfl) (fun d => ⟨rfl, rfl, rfl, rfl, rfl, rfl, rfl, trivial, fun h => ⟨_, rfl, h⟩⟩) rfl fun _ => rfl
  | z q o =>
    exact adds_one (f := fun d => .z q d) (fun _ => rfl) (fun d => ⟨rfl, rfl, rfl, rfl, rfl, rfl, rfl, trivial, fun h => ⟨_, rfl, h⟩⟩) rfl fun _ => rfl
  | cx ctl tgt p =>
    right
    obtain ⟨lb, ub, hmin, hmax, hlbm, hubm, hlo, hhi⟩ := exists_bounds (qs := [ctl, tgt]) (by simp)
    refine ⟨.list [ctl, tgt], lb, ub, .cx (if ctl < tgt then pySlice c.regDims ctl (tgt + 1)
      else pySlice c.regDims tgt (ctl + 1)) ctl tgt p, ⟨⟨hmin, hmax⟩, hlo ub hubm, rfl, rfl, rfl, hlbm, hubm,
        fun x hx => ⟨hlo x hx, hhi x hx⟩⟩, rfl, rfl, rfl, rfl, rfl, rfl, fun c' b h => h⟩
  | toffoli cs t p =>
    obtain ⟨lb, ub, hmin, hmax, hlbm, hubm, hlo, hhi⟩ := exists_bounds (qs := cs ++ [t]) (by simp)
    have hle : lb ≤ ub := hlo ub hubm
    cases hd : toffoliDm (R := R) cs t p c.qregs.seq with
    | error e => exact .inl ⟨e, fun c' e1 _ _ => by simp only [Circuit.callM, e1, hd, bind, Except.bind]⟩
    | ok r =>
      right
      obtain ⟨h1, h2, h3⟩ := toffoliDm_bounds hmin hmax hd
      obtain ⟨U, lb', ub', ds⟩ := r
      simp only at h1 h2 h3
      subst h1
      subst h2
      refine ⟨.list (pyRange lb' (ub' + 1)), lb', ub', .toffoli cs t (pyRange lb' (ub' + 1)) ds U p,
        ⟨⟨pyMin_pyRange hle, pyMax_pyRange hle⟩, hle, rfl, rfl, rfl, hlbm, hubm,
          fun x hx => ⟨hlo x hx, hhi x hx⟩⟩, rfl, rfl, rfl, ⟨_, _, hmin, hmax, rfl, h3⟩, rfl, ⟨rfl, _, _, hd⟩, ?_⟩
      intro c' b h
      simp only [Circuit.callM, hd, bind, Except.bind]
      rw [h]
      rfl
  | gate U q o =>
    cases q with
    | int q =>
      exact adds_one (f := fun d => .arb (.int q) (.int d) U) (fun _ => rfl)
        (fun d => ⟨rfl, rfl, rfl, rfl, rfl, rfl, rfl, trivial, fun _ => ⟨_, rfl⟩⟩) rfl fun _ => rfl
    | list qs =>
      have key : StaticErr c (.gate U (.list qs) o) ∨
          ∃ da, ∀ c' : Circuit R, c'.regDims = c.regDims → c'.regLength = c.regLength →
            c'.callM (.gate U (.list qs) o) = c'.addMoment (.list qs) (.arb (.list qs) da U) := by
        have hv : ∀ c' : Circuit R, c'.regDims = c.regDims → c'.regLength = c.regLength →
            (qs.forM fun q => c'.validate q o) = qs.forM fun q => c.validate q o := by
          intro c' e2 e3
          congr 1
          funext q
          exact validate_congr e2 e3 q o
        cases h1 : qs.forM fun q => c.validate q o with
        | error e =>
          exact .inl ⟨e, fun c' _ e2 e3 => by
            simp only [Circuit.callM]; rw [hv c' e2 e3, h1]; simp only [bind, Except.bind]⟩
        | ok u =>
          rcases o with _ | _ | k
          · cases h2 : qs.mapM (pyGet c.regDims) with
            | error e => exact .inl ⟨e, fun c' _ e2 e3 => by
                simp only [Circuit.callM]; rw [hv c' e2 e3, h1, e2, h2]; simp only [bind, Except.bind]⟩
            | ok l => exact .inr ⟨.list l, fun c' e2 e3 => by
                simp only [Circuit.callM]; rw [hv c' e2 e3, h1, e2, h2]; simp only [bind, Except.bind]⟩
          · cases h2 : qs.mapM (pyGet c.regDims) with
            | error e => exact .inl ⟨e, fun c' _ e2 e3 => by
                simp only [Circuit.callM]; rw [hv c' e2 e3, h1, e2, h2]; simp only [bind, Except.bind]⟩
            | ok l => exact .inr ⟨.list l, fun c' e2 e3 => by
                simp only [Circuit.callM]; rw [hv c' e2 e3, h1, e2, h2]; simp only [bind, Except.bind]⟩
          · exact .inr ⟨.int (k + 1), fun c' e2 e3 => by
                simp only [Circuit.callM]; rw [hv c' e2 e3, h1]; simp only [bind, Except.bind]⟩
      rcases key with h | ⟨da, h⟩
      · exact .inl h
      · by_cases hne : qs = []
        · left
          subst hne
          refine ⟨.value, fun c' _ e2 e3 => ?_⟩
          rw [h c' e2 e3]
          rfl
        · right
          obtain ⟨lb, ub, hmin, hmax, hlbm, hubm, hlo, hhi⟩ := exists_bounds hne
          refine ⟨.list qs, lb, ub, .arb (.list qs) da U, ⟨⟨hmin, hmax⟩, hlo ub hubm, rfl, rfl, rfl, hlbm, hubm,
            fun x hx => ⟨hlo x hx, hhi x hx⟩⟩, rfl, rfl, rfl, trivial, rfl, ⟨_, rfl⟩, ?_⟩
          intro c' b hb
          rw [h c rfl rfl, hb]
          rfl
  | measure q => exact .inl ⟨_, fun _ _ _ _ => rfl⟩
  | measureAll => cases hm

/-! ### Layers under arbitrary calls -/

/-- Nothing is recorded about the operators. -/
abbrev Free : Nat → Nat → GateObj R → Unit → Prop := fun _ _ _ _ => True

/-- What one call does to an unmeasured circuit. -/
theorem call_any {dims : List Nat} {c : Circuit R} {initM : List (GateObj R)}
    {layers : List (List (GateObj R) × List Unit)} (h : Unmeasured dims Free c initM layers)
    {k : Call R} (hm : k.isMeasureAll = false) :
    (StaticErr c k ∧ (∃ e, (c.call k).2 = .error e) ∧ (c.call k).1 = c) ∨
    ∃ ra lb ub g f layers', Adds c k ra lb ub g ∧ c.call k = ({ c with flow := f }, .ok true) ∧
      Unmeasured dims Free { c with flow := f } initM layers' ∧
      ((layers'.map Prod.fst = layers.map Prod.fst ++ [layout dims lb ub g]) ∨
       (g.isHXZ = true ∧ lo dims lb < hi dims ub ∧ lb = ub ∧
          ∃ ls m1 d m2, layers.map Prod.fst = ls ++ [m1 ++ .ident lb.toNat d :: m2] ∧
            layers'.map Prod.fst = ls ++ [m1 ++ g :: m2])) := by
  rcases callM_any c k hm with hs | ⟨ra, lb, ub, g, hA⟩
  · left
    obtain ⟨e, he⟩ := hs.raises
    refine ⟨hs, ⟨e, ?_⟩, ?_⟩ <;> simp [Circuit.call, he]
  · right
    obtain ⟨f, layers', h1, h2, h3⟩ := addMoment_spec h (bI := fun _ => ()) (fun _ _ => trivial) hA.gateAt ()
      (fun _ => trivial)
    refine ⟨ra, lb, ub, g, f, layers', hA, ?_, h2, ?_⟩
    · have := hA.call _ _ h1
      simp only [Circuit.call, this]
      cases k <;> rfl
    · rcases h3 with ⟨_, h3⟩ | ⟨_, h3⟩ | ⟨h4, h5, h6, ls, m1, d, m2, b1, bi, b2, h7, h8, _⟩
      · left; rw [h3]; simp
      · left; rw [h3]; simp
      · right
        refine ⟨h4, h5, h6, ls.map Prod.fst, m1, d, m2, ?_, ?_⟩
        · rw [h7]; simp
        · rw [h8]; simp

/-- An unmeasured circuit stays one under any calls but `measure_all()`. -/
theorem calls_any {dims : List Nat} {initM : List (GateObj R)} (ks : List (Call R))
    (hm : ∀ k ∈ ks, k.isMeasureAll = false) {c : Circuit R}
    {layers : List (List (GateObj R) × List Unit)} (h : Unmeasured dims Free c initM layers) :
    (∃ layers', Unmeasured dims Free (c.calls ks) initM layers') ∧ ∃ f, c.calls ks = { c with flow := f } := by
  induction ks generalizing c layers with
  | nil => exact ⟨⟨layers, h⟩, c.flow, rfl⟩
  | cons k ks ih =>
    rw [Circuit.calls_cons]
    rcases call_any h (hm k (by simp)) with ⟨_, _, he⟩ | ⟨ra, lb, ub, g, f, layers', _, hc, hu, _⟩
    · rw [he]
      exact ih (fun k hk => hm k (by simp [hk])) h
    · rw [hc]
      obtain ⟨h1, f', hf⟩ := ih (fun k hk => hm k (by simp [hk])) hu
      exact ⟨h1, f', by rw [hf]⟩

theorem fresh_any {q : RegsArg} {dims : List Nat} (hpos : 0 < dims.length) (init : List Int)
    (out : Option Output) :
    Unmeasured dims Free (freshCircuit (R := R) q dims init out) (initOps dims init) [] :=
  { npos := hpos, regDims := rfl, regLength := rfl, moments := rfl, meas := by rfl,
    lay := by simp, isInit := fun g hg => (initOps_isInit dims init g hg).1, noMeas := by simp }

/-- After `measure_all()` on an unmeasured circuit. -/
theorem measureAll_any {dims : List Nat} {c : Circuit R} {initM : List (GateObj R)}
    {layers : List (List (GateObj R) × List Unit)} (h : Unmeasured dims Free c initM layers) :
    (c.call .measureAll).1.Measured := by
  rw [h.measure]
  apply measured_of h.npos
  · simp
  · rfl

end QuDiet

namespace QuDiet
variable {R : Type} [CommRing R]

/-- Every circuit reached by calls is open (as if built by calls other than `measure_all()`), or closed. -/
theorem reach_any {q : RegsArg} {dims : List Nat} (hpos : 0 < dims.length) (init : List Int)
    (out : Option Output) (ks : List (Call R)) :
    (∃ f, (freshCircuit (R := R) q dims init out).calls ks
        = { freshCircuit (R := R) q dims init out with flow := f }) ∧
    ((.measureAll ∉ ks ∧ ∃ layers, Unmeasured dims Free ((freshCircuit (R := R) q dims init out).calls ks)
        (initOps dims init) layers) ∨
     (.measureAll ∈ ks ∧ ((freshCircuit (R := R) q dims init out).calls ks).Measured)) := by
  have key : ∀ k : Call R, k.isMeasureAll = true ↔ k = .measureAll := by intro k; cases k <;> simp [Call.isMeasureAll]
  obtain ⟨rest, hks, hrest⟩ := live_append ks
  obtain ⟨⟨layers, hu⟩, f, hf⟩ := calls_any (live ks) live_not_measure (fresh_any (q := q) hpos init out)
  rcases hrest with ⟨rfl, hno⟩ | ⟨r, rfl⟩
  · rw [List.append_nil] at hks
    rw [hks]
    refine ⟨⟨f, hf⟩, .inl ⟨?_, layers, hu⟩⟩
    intro hmem
    have := live_not_measure _ hmem
    simp [Call.isMeasureAll] at this
  · rw [hks, Circuit.calls_append, Circuit.calls_cons, calls_measured (measureAll_any hu)]
    refine ⟨?_, .inr ⟨by simp, measureAll_any hu⟩⟩
    rw [hu.measure, hf]
    exact ⟨_, rfl⟩

end QuDiet
