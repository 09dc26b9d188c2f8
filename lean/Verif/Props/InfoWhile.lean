import Verif.InfoWhile
import Verif.Props.Threads
import Verif.Props.Layers
import Mathlib.Algebra.BigOperators.Intervals

/-! # C102: `get_circuit_info()` while other threads build the circuit -/

namespace QuDiet
open Spec

variable {R : Type} [CommRing R]

/-! ### Specification -/

/-- `l` are the calls of a thread with program `p` that have returned. -/
def Returned (p : List (Call R)) (t : Thread R) (l : List (Call R)) : Prop :=
  (t.pc = .idle ∧ p = l ++ t.todo) ∨ t.pc ≠ .idle ∧ ∃ k, p = l ++ k :: t.todo

/-- `l` are the calls of a thread with program `p` that it has begun. -/
def Begun (p : List (Call R)) (t : Thread R) (l : List (Call R)) : Prop := p = l ++ t.todo

/-- The number of calls of a kind. -/
def callsOf (κ : Kind) (l : List (Call R)) : Nat := (l.filter fun k => k.kind = some κ).length

/-- The number that `get_circuit_info()` reports for a kind; none is reported for kinds that do not occur. -/
def Info.of (x : Info) (κ : Kind) : Nat := ((x.details.filter fun p => p.1 = κ).map (·.2)).sum

/-! ### Layers only grow -/

/-- Every operator of the layers `M` is at the same place of `M'`, unless it is an identity. -/
def Grows (M M' : List (List (GateObj R))) : Prop :=
  ∀ (a : Nat) m, M[a]? = some m → ∃ m', M'[a]? = some m' ∧ m'.length = m.length ∧
    ∀ (j : Nat) g, m[j]? = some g → m'[j]? = some g ∨ g.isIdent = true

theorem Grows.refl (M : List (List (GateObj R))) : Grows M M := fun _ m h => ⟨m, h, rfl, fun _ _ h => .inl h⟩

theorem Grows.trans {M M' M'' : List (List (GateObj R))} (h : Grows M M') (h' : Grows M' M'') : Grows M M'' := by
  intro a m hm
  obtain ⟨m', h1, h2, h3⟩ := h a m hm
  obtain ⟨m'', h4, h5, h6⟩ := h' a m' h1
  refine ⟨m'', h4, by rw [h5, h2], fun j g hg => ?_⟩
  rcases h3 j g hg with e | e
  · exact h6 j g e
  · exact .inr e

/-- The number of operators of a kind. -/
def opsOf (κ : Kind) (m : List (GateObj R)) : Nat := (m.filter fun g => g.kind = some κ).length

theorem opsOf_append (κ : Kind) (m m' : List (GateObj R)) : opsOf κ (m ++ m') = opsOf κ m + opsOf κ m' := by
  simp [opsOf]

theorem opsOf_cons (κ : Kind) (g : GateObj R) (m : List (GateObj R)) :
    opsOf κ (g :: m) = (if g.kind = some κ then 1 else 0) + opsOf κ m := by
  unfold opsOf
  rw [List.filter_cons]
  split
  · rename_i h
    rw [List.length_cons, if_pos (by simpa using h), Nat.add_comm]
  · rename_i h
    rw [if_neg (by simpa using h), Nat.zero_add]

theorem opsOf_layer (κ : Kind) : ∀ {m m' : List (GateObj R)}, m'.length = m.length →
    (∀ (j : Nat) g, m[j]? = some g → m'[j]? = some g ∨ g.isIdent = true) → opsOf κ m ≤ opsOf κ m'
  | [], _, _, _ => Nat.zero_le _
  | _ :: _, [], h, _ => by simp at h
  | g :: m, g' :: m', h, h' => by
    rw [opsOf_cons, opsOf_cons]
    have ih := opsOf_layer κ (m := m) (m' := m') (by simpa using h) fun j x hx => by
      have := h' (j + 1) x (by simpa using hx)
      simpa using this
    have : (if g.kind = some κ then 1 else 0) ≤ (if g'.kind = some κ then 1 else 0) := by
      rcases h' 0 g (by simp) with e | e
      · simp at e
        rw [e]
      · cases g <;> simp_all [GateObj.isIdent, GateObj.kind]
    omega

theorem Grows.count (κ : Kind) : ∀ {M M' : List (List (GateObj R))}, Grows M M' → opsOf κ M.flatten ≤ opsOf κ M'.flatten
  | [], _, _ => Nat.zero_le _
  | m :: M, M', h => by
    obtain ⟨m', h1, h2, h3⟩ := h 0 m rfl
    cases M' with
    | nil => cases h1
    | cons m'' M' =>
      cases h1
      rw [List.flatten_cons, List.flatten_cons, opsOf_append, opsOf_append]
      have ih := Grows.count κ (M := M) (M' := M') fun a x hx => h (a + 1) x hx
      have := opsOf_layer κ h2 h3
      omega

theorem Grows.append (M : List (List (GateObj R))) (m : List (GateObj R)) : Grows M (M ++ [m]) := by
  intro a x hx
  exact ⟨x, by rw [List.getElem?_append_left (List.getElem?_eq_some_iff.1 hx).1]; exact hx, rfl, fun _ _ h => .inl h⟩

theorem Grows.set {M : List (List (GateObj R))} {a i : Nat} {m : List (GateObj R)} {g g' : GateObj R} (hm : M[a]? = some m)
    (hg : m[i]? = some g) (hi : g.isIdent = true) : Grows M (M.set a (m.set i g')) := by
  intro b x hx
  by_cases e : a = b
  · subst e
    rw [hm] at hx
    cases hx
    refine ⟨m.set i g', List.getElem?_set_self (List.getElem?_eq_some_iff.1 hm).1, by simp, fun j y hy => ?_⟩
    by_cases ej : i = j
    · subst ej
      rw [hg] at hy
      cases hy
      exact .inr hi
    · rw [List.getElem?_set_ne ej]
      exact .inl hy
  · exact ⟨x, by rw [List.getElem?_set_ne e]; exact hx, rfl, fun _ _ h => .inl h⟩

/-! ### What `get_circuit_info()` has read -/

/-- `M0` were the layers when `get_circuit_info()` began, `M` are those now. -/
structure Reads (M0 M seen : List (List (GateObj R))) (cur : List (GateObj R)) : Prop where
  grown : Grows M0 M
  up : Grows seen M
  upCur : cur ≠ [] → ∃ m, M[seen.length]? = some m ∧ cur.length ≤ m.length ∧
    ∀ (j : Nat) g, cur[j]? = some g → m[j]? = some g ∨ g.isIdent = true
  low : ∀ (a : Nat) m0 m, M0[a]? = some m0 → seen[a]? = some m → m.length = m0.length ∧
    ∀ (j : Nat) g, m0[j]? = some g → m[j]? = some g ∨ g.isIdent = true
  lowCur : ∀ m0, M0[seen.length]? = some m0 → ∀ (j : Nat) g, j < cur.length → m0[j]? = some g → cur[j]? = some g ∨ g.isIdent = true

theorem Reads.grow {M0 M M' seen : List (List (GateObj R))} {cur : List (GateObj R)} (h : Reads M0 M seen cur) (g : Grows M M') :
    Reads M0 M' seen cur where
  grown := h.grown.trans g
  up := h.up.trans g
  upCur := by
    intro hc
    obtain ⟨m, h1, h2, h3⟩ := h.upCur hc
    obtain ⟨m', h4, h5, h6⟩ := g _ m h1
    refine ⟨m', h4, by omega, fun j x hx => ?_⟩
    rcases h3 j x hx with e | e
    · exact h6 j x e
    · exact .inr e
  low := h.low
  lowCur := h.lowCur

theorem Reads.operator {M0 M seen : List (List (GateObj R))} {cur m : List (GateObj R)} {g : GateObj R} (h : Reads M0 M seen cur)
    (hm : M[seen.length]? = some m) (hg : m[cur.length]? = some g) : Reads M0 M seen (cur ++ [g]) where
  grown := h.grown
  up := h.up
  low := h.low
  upCur := by
    intro _
    refine ⟨m, hm, ?_, fun j x hx => ?_⟩
    · have := (List.getElem?_eq_some_iff.1 hg).1
      simp
      omega
    · by_cases hj : j < cur.length
      · rw [List.getElem?_append_left hj] at hx
        obtain ⟨m', h1, _, h3⟩ := h.upCur (by intro e; rw [e] at hj; simp at hj)
        rw [hm] at h1
        cases h1
        exact h3 j x hx
      · have hj' := (List.getElem?_eq_some_iff.1 hx).1
        simp at hj'
        have : j = cur.length := by omega
        subst this
        simp at hx
        rw [hx] at hg
        exact .inl hg
  lowCur := by
    intro m0 h0 j x hj hx
    by_cases hj' : j < cur.length
    · rw [List.getElem?_append_left hj']
      exact h.lowCur m0 h0 j x hj' hx
    · simp at hj
      have : j = cur.length := by omega
      subst this
      obtain ⟨m', h1, _, h3⟩ := h.grown _ m0 h0
      rw [hm] at h1
      cases h1
      rcases h3 _ x hx with e | e
      · rw [hg] at e
        left
        simpa using e
      · exact .inr e

theorem Reads.layer {M0 M seen : List (List (GateObj R))} {cur m : List (GateObj R)} (h : Reads M0 M seen cur)
    (hm : M[seen.length]? = some m) (hg : m[cur.length]? = none) : Reads M0 M (seen ++ [cur]) [] := by
  have hlen : cur.length = m.length := by
    rw [List.getElem?_eq_none_iff] at hg
    by_cases hc : cur = []
    · subst hc
      simp at hg
      simp [hg]
    · obtain ⟨m', h1, h2, _⟩ := h.upCur hc
      rw [hm] at h1
      cases h1
      omega
  refine ⟨h.grown, ?_, by simp, ?_, ?_⟩
  · intro a x hx
    by_cases ha : a < seen.length
    · rw [List.getElem?_append_left ha] at hx
      exact h.up a x hx
    · have ha' := (List.getElem?_eq_some_iff.1 hx).1
      simp at ha'
      have : a = seen.length := by omega
      subst this
      simp at hx
      subst hx
      refine ⟨m, hm, hlen.symm, fun j g hg => ?_⟩
      obtain ⟨m', h1, _, h3⟩ := h.upCur (by intro e; rw [e] at hg; simp at hg)
      rw [hm] at h1
      cases h1
      exact h3 j g hg
  · intro a m0 x h0 hx
    by_cases ha : a < seen.length
    · rw [List.getElem?_append_left ha] at hx
      exact h.low a m0 x h0 hx
    · have ha' := (List.getElem?_eq_some_iff.1 hx).1
      simp at ha'
      have : a = seen.length := by omega
      subst this
      simp at hx
      subst hx
      obtain ⟨m', h1, h2, _⟩ := h.grown _ m0 h0
      rw [hm] at h1
      cases h1
      refine ⟨by omega, fun j g hg => h.lowCur m0 h0 j g ?_ hg⟩
      have := (List.getElem?_eq_some_iff.1 hg).1
      omega
  · intro m0 _ j g hj
    simp at hj

theorem Reads.finish {M0 M seen : List (List (GateObj R))} {cur : List (GateObj R)} (h : Reads M0 M seen cur)
    (hm : M[seen.length]? = none) : Grows M0 seen := by
  intro a m0 h0
  obtain ⟨m, h1, _⟩ := h.grown a m0 h0
  have ha := (List.getElem?_eq_some_iff.1 h1).1
  rw [List.getElem?_eq_none_iff] at hm
  have hs := List.getElem?_eq_getElem (l := seen) (i := a) (by omega)
  exact ⟨_, hs, h.low a m0 _ h0 hs⟩

/-- What `get_circuit_info()` knows; `M0` were the layers when it began, `M` are those now. -/
def Ic.Knows (M0 M : List (List (GateObj R))) : Ic R → Prop
  | .start => False
  | .reading d seen cur => d = (M0.length : Int) - 1 ∧ Reads M0 M seen cur
  | .finished d seen => d = (M0.length : Int) - 1 ∧ Grows M0 seen ∧ Grows seen M

theorem Ic.Knows.grow {M0 M M' : List (List (GateObj R))} {r : Ic R} (h : r.Knows M0 M) (g : Grows M M') : r.Knows M0 M' := by
  cases r with
  | start => exact h
  | reading d seen cur => exact ⟨h.1, h.2.grow g⟩
  | finished d seen => exact ⟨h.1, h.2.1, h.2.2.trans g⟩

theorem Ic.Knows.step {M0 : List (List (GateObj R))} {f : Flow R} {r : Ic R} (h : r.Knows M0 f.moments) :
    (r.step f).Knows M0 f.moments := by
  cases r with
  | start => exact h.elim
  | finished d seen => exact h
  | reading d seen cur =>
    obtain ⟨hd, h⟩ := h
    cases hm : f.moments[seen.length]? with
    | none =>
      simp only [Ic.step, hm]
      exact ⟨hd, h.finish hm, h.up⟩
    | some m =>
      cases hg : m[cur.length]? with
      | some g =>
        simp only [Ic.step, hm, hg]
        exact ⟨hd, h.operator hm hg⟩
      | none =>
        simp only [Ic.step, hm, hg]
        exact ⟨hd, h.layer hm hg⟩

/-! ### The layers and the calls -/

variable [StarRing R] [DecidableEq R] [UnitaryCheck R] {N : Numerics R} {dims : List Nat} {init : List Int} {c0 c : Circuit R}
  {progs : List (List (Call R))} {ts : List (Thread R)} {layers : List (List (GateObj R) × List (Option (Block R)))}
  {kss : List (List (Call R))} {cur : Nat → Option (Call R)} {made : Nat → List (Call R)}

theorem Call.op_kind {k : Call R} {g : GateObj R} (h : k.op dims = .ok g) : g.kind = k.kind := by
  cases k with
  | toffoli cs t p =>
    simp only [Call.op] at h
    cases hv : toffoliDm (R := R) cs t p dims <;> simp only [hv, bind, Except.bind] at h
    · cases h
    · cases h; rfl
  | gate U q d => cases q <;> cases h <;> rfl
  | measure q => cases h
  | measureAll => cases h
  | _ => cases h; rfl

/-- The layer of a call has one gate, of the kind of the call, and identities. -/
theorem Shared.layer_kind [Nontrivial R] (hN : N.Sized) (h2 : ∀ d ∈ dims, 2 ≤ d) (h : Shared N dims init c layers kss)
    {k : Call R} (hk : k.Valid dims) : ∃ g l1 l2, c.layerOf k = .ok (l1 ++ g :: l2) ∧ g.kind = k.kind ∧
      (∀ x ∈ l1 ++ l2, x.isIdent = true) ∧ k.op dims = .ok g := by
  set c' : Circuit R := { c with flow := { moments := [initOps dims init], measCount := c.flow.measCount } } with hc'
  have h0 : Shared N dims init c' [] [] :=
    ⟨h.qregs, ⟨h.unm.npos, h.unm.regDims, h.unm.regLength, rfl, h.unm.meas, by simp, h.unm.isInit, by simp⟩, .nil⟩
  have hpop : ∀ m, c'.flow.populate m = .ok (c'.flow.append m, true) := by
    intro m
    cases hfind : m.find? (·.isHXZ) with
    | none => exact populate_plain _ m _ rfl h0.unm.notAll hfind
    | some g =>
      have hgm := List.find?_some hfind
      obtain ⟨q, hq⟩ : ∃ q, g.actingOn = .ok (.int q) := by
        cases g <;> first | exact ⟨_, rfl⟩ | cases hgm
      exact populate_new _ m _ rfl h0.unm.notAll g hfind q hq (identRegs_initOps init q)
  have hap := hk.applied h2
  obtain ⟨ra, lb, ub, g, hE⟩ := emits_all hN h2 h0.unm.npos h0.unm.regDims h0.unm.regLength (k := k)
    (fun _ => h0.qregs) hk.not_measureAll (by rw [hap]; simp) (by rw [hap]; simp)
  have hdata := momentData_eq c' (by rw [h0.unm.regLength, h0.unm.regDims]) hE.gateAt.bounds hE.gateAt.le g
  rw [h0.unm.regDims] at hdata
  have hadd : c'.addMoment ra g = .ok ({ c' with flow := c'.flow.append (layout dims lb ub g) }, true) := by
    unfold Circuit.addMoment
    rw [hdata]
    simp only [bind, Except.bind, hpop]
  have hcall := hE.call _ hadd
  obtain ⟨hlt, _⟩ := hE.applied hap
  have hlay : c'.layerOf k = .ok (layout dims lb ub g) := by
    rcases callM_layerOf c' k with ⟨e, h1, _⟩ | ⟨m, h1, ⟨e, h3, _⟩ | ⟨f, b, b', h3, h4⟩⟩
    · rw [h1] at hcall; cases hcall
    · rw [h3] at hcall; cases hcall
    · rw [h3] at hcall
      rw [hpop] at h4
      have e1 : c'.flow.append m = f := by cases h4; rfl
      have e2 : f = c'.flow.append (layout dims lb ub g) := by
        have := congrArg (fun x : PyM (Circuit R × Bool) => match x with | .ok (c, _) => c.flow | .error _ => c'.flow) hcall
        exact this
      rw [e2] at e1
      have e3 := congrArg Flow.moments e1
      simp only [Flow.append] at e3
      have e4 := List.append_cancel_left e3
      injection e4 with e4 _
      rw [h1, e4]
  rw [layerOf_flow] at hlay
  refine ⟨g, ids dims 0 (min dims.length lb.toNat), ids dims (min dims.length (ub + 1).toNat) dims.length, ?_, Call.op_kind hE.op, ?_, hE.op⟩
  · rw [hlay]
    unfold layout
    have : min dims.length lb.toNat < min dims.length (ub + 1).toNat := by
      simpa [lo, hi] using hlt
    simp only [this, if_true]
  · intro x hx
    rcases List.mem_append.1 hx with hx | hx <;> · obtain ⟨r, _, rfl⟩ := List.mem_map.1 hx; rfl

theorem opsOf_idents (κ : Kind) {m : List (GateObj R)} (h : ∀ x ∈ m, x.isIdent = true) : opsOf κ m = 0 := by
  unfold opsOf
  rw [List.filter_eq_nil_iff.2, List.length_nil]
  intro g hg
  have := h g hg
  cases g <;> simp_all [GateObj.isIdent, GateObj.kind]

theorem callsOf_append (κ : Kind) (l l' : List (Call R)) : callsOf κ (l ++ l') = callsOf κ l + callsOf κ l' := by
  simp [callsOf]

theorem callsOf_one (κ : Kind) (k : Call R) : callsOf κ [k] = if k.kind = some κ then 1 else 0 := by
  unfold callsOf
  rw [List.filter_singleton]
  by_cases h : k.kind = some κ <;> simp [h]

theorem opsOf_set (κ : Kind) {m : List (GateObj R)} {i : Nat} {g g' : GateObj R} (h : m[i]? = some g) (hi : g.isIdent = true) :
    opsOf κ (m.set i g') = opsOf κ m + if g'.kind = some κ then 1 else 0 := by
  induction m generalizing i with
  | nil => simp at h
  | cons x m ih =>
    cases i with
    | zero =>
      simp at h
      subst h
      rw [List.set_cons_zero, opsOf_cons, opsOf_cons]
      have : ¬ x.kind = some κ := by cases x <;> simp_all [GateObj.isIdent, GateObj.kind]
      rw [if_neg this]
      omega
    | succ i =>
      rw [List.set_cons_succ, opsOf_cons, opsOf_cons, ih (by simpa using h)]
      omega

theorem opsOf_set_flatten (κ : Kind) {M : List (List (GateObj R))} {a n : Nat} {m m' : List (GateObj R)} (h : M[a]? = some m)
    (hm : opsOf κ m' = opsOf κ m + n) : opsOf κ (M.set a m').flatten = opsOf κ M.flatten + n := by
  induction M generalizing a with
  | nil => simp at h
  | cons x M ih =>
    cases a with
    | zero =>
      simp at h
      subst h
      rw [List.set_cons_zero, List.flatten_cons, List.flatten_cons, opsOf_append, opsOf_append, hm]
      omega
    | succ a =>
      rw [List.set_cons_succ, List.flatten_cons, List.flatten_cons, opsOf_append, opsOf_append, ih (by simpa using h)]
      omega

/-- Operators of the layers `M'` that are not in the layers `M` are identities or those of valid calls. -/
def Fresh (dims : List Nat) (M M' : List (List (GateObj R))) : Prop :=
  ∀ m' ∈ M', ∀ g ∈ m', (∃ m ∈ M, g ∈ m) ∨ g.isIdent = true ∨ ∃ k : Call R, k.Valid dims ∧ k.op dims = .ok g

theorem Fresh.refl (M : List (List (GateObj R))) : Fresh dims M M := fun m hm _ hg => .inl ⟨m, hm, hg⟩

/-- One step: layers grow, and the gates in them are those of the calls that have taken effect. -/
theorem Running.tally_step [Nontrivial R] (hN : N.Sized) (h2 : ∀ d ∈ dims, 2 ≤ d)
    (hv : ∀ p ∈ progs, ∀ k ∈ p, k.Valid dims) (h : Running N dims init c0 progs c ts layers kss cur made) (i : Nat)
    {layers' : List (List (GateObj R) × List (Option (Block R)))} {kss' : List (List (Call R))} {cur' : Nat → Option (Call R)}
    {made' : Nat → List (Call R)}
    (h' : Running N dims init c0 progs (stepThread (c, ts) i).1 (stepThread (c, ts) i).2 layers' kss' cur' made') :
    Grows c.flow.moments (stepThread (c, ts) i).1.flow.moments ∧
      Fresh dims c.flow.moments (stepThread (c, ts) i).1.flow.moments ∧
      (∀ j < progs.length, j ≠ i → made' j = made j) ∧
      ∀ κ, opsOf κ (stepThread (c, ts) i).1.flow.moments.flatten + callsOf κ (made i) =
        opsOf κ c.flow.moments.flatten + callsOf κ (made' i) ∨ progs.length ≤ i ∧
          (stepThread (c, ts) i).1.flow.moments = c.flow.moments := by
  have others : ∀ j < progs.length, j ≠ i → made' j = made j := by
    intro j hj hji
    have hp := List.getElem?_eq_getElem hj
    have ht := List.getElem?_eq_getElem (l := ts) (i := j) (by rw [h.len]; exact hj)
    have ht' := stepThread_ne (c, ts) (i := j) (j := i) (Ne.symm hji)
    simp only at ht'
    rw [ht] at ht'
    obtain ⟨o1, e1⟩ := h.thr j _ _ ht hp
    obtain ⟨o2, e2⟩ := h'.thr j _ _ ht' hp
    have hcur : (cur j).toList.length = (cur' j).toList.length := by
      generalize (ts[j]'(by rw [h.len]; exact hj)).pc = pc at o1 o2
      cases pc with
      | idle => rw [show cur j = none from o1, show cur' j = none from o2]
      | counting m n => rw [o1.1, o2.1]
      | begun m => obtain ⟨k, hk, _⟩ := o1; obtain ⟨k', hk', _⟩ := o2; rw [hk, hk']; rfl
      | choosing m g q => obtain ⟨k, hk, _⟩ := o1; obtain ⟨k', hk', _⟩ := o2; rw [hk, hk']; rfl
      | looking m g q a => obtain ⟨k, hk, _⟩ := o1; obtain ⟨k', hk', _⟩ := o2; rw [hk, hk']; rfl
      | replacing m g q a => obtain ⟨k, hk, _⟩ := o1; obtain ⟨k', hk', _⟩ := o2; rw [hk, hk']; rfl
      | writing g q a n => obtain ⟨k, m, hk, _⟩ := o1; obtain ⟨k', m', hk', _⟩ := o2; rw [hk, hk']; rfl
      | appending m => obtain ⟨k, hk, _⟩ := o1; obtain ⟨k', hk', _⟩ := o2; rw [hk, hk']; rfl
    exact (List.append_inj' (e2.trans e1.symm) (by simp [hcur])).1
  cases hi : ts[i]? with
  | none =>
    have : stepThread (c, ts) i = (c, ts) := by simp only [stepThread, hi]
    rw [this]
    refine ⟨Grows.refl _, Fresh.refl _, others, fun κ => .inr ⟨?_, rfl⟩⟩
    rw [List.getElem?_eq_none_iff, h.len] at hi
    exact hi
  | some t =>
    obtain ⟨p, hp⟩ := h.prog hi
    obtain ⟨hok, hmade⟩ := h.thr i t p hi hp
    have hs := stepThread_self (c, ts) hi
    obtain ⟨hok', hmade'⟩ := h'.thr i _ p hs hp
    have hvc : ∀ k, cur i = some k → k.Valid dims := by
      intro k hk
      refine hv p (List.mem_of_getElem? hp) k ?_
      rw [← hmade, hk]; simp
    have hc1 : (stepThread (c, ts) i).1 = (t.step c).1 := by simp only [stepThread, hi]
    rw [hc1]
    simp only at hok' hmade'
    clear h' hs
    rw [hc1] at hok'
    -- a step that only looks
    have silent : (t.step c).1.flow.moments = c.flow.moments →
        (cur' i).toList.length + (t.step c).2.todo.length = (cur i).toList.length + t.todo.length →
        Grows c.flow.moments (t.step c).1.flow.moments ∧ Fresh dims c.flow.moments (t.step c).1.flow.moments ∧ (∀ j < progs.length, j ≠ i → made' j = made j) ∧
        ∀ κ, opsOf κ (t.step c).1.flow.moments.flatten + callsOf κ (made i) =
          opsOf κ c.flow.moments.flatten + callsOf κ (made' i) ∨ progs.length ≤ i ∧
            (t.step c).1.flow.moments = c.flow.moments := by
      intro hm hl
      rw [hm]
      refine ⟨Grows.refl _, Fresh.refl _, others, fun κ => .inl ?_⟩
      rw [(List.append_inj' (hmade'.trans hmade.symm) (by simpa using hl)).1]
    obtain ⟨pc, todo⟩ := t
    cases pc with
    | idle =>
      cases todo with
      | nil =>
        have hc : cur i = none := hok
        have hc' : cur' i = none := hok'
        exact silent rfl (by rw [hc, hc']; rfl)
      | cons k ks =>
        have hc : cur i = none := hok
        have hk : k.Valid dims := hv p (List.mem_of_getElem? hp) k (by rw [← hmade, hc]; simp)
        obtain ⟨g, l1, l2, hm, _⟩ := h.shared.layer_kind hN h2 hk
        have hstep : Thread.step c ⟨.idle, k :: ks⟩ = (c, ⟨.begun (l1 ++ g :: l2), ks⟩) := by
          simp only [Thread.step, hm]
        rw [hstep] at hok'
        obtain ⟨k', hk', _⟩ := hok'
        exact silent (by rw [hstep]) (by rw [hstep, hc, hk']; simp; omega)
    | begun m =>
      obtain ⟨k, hk, hm⟩ := hok
      cases hf : m.find? (·.isHXZ) with
      | none =>
        have hstep : Thread.step c ⟨.begun m, todo⟩ = (c, ⟨.appending m, todo⟩) := by
          simp only [Thread.step, Pc.step, h.shared.unm.notAll, Bool.false_eq_true, if_false, hf]
        rw [hstep] at hok'
        obtain ⟨k', hk', _⟩ := hok'
        exact silent (by rw [hstep]) (by rw [hstep, hk, hk']; rfl)
      | some g =>
        have hgm := List.find?_some hf
        obtain ⟨q, hq⟩ : ∃ q, g.actingOn = .ok (.int q) := by
          cases g <;> first | exact ⟨_, rfl⟩ | cases hgm
        have hstep : Thread.step c ⟨.begun m, todo⟩ = (c, ⟨.choosing m g q, todo⟩) := by
          simp only [Thread.step, Pc.step, h.shared.unm.notAll, Bool.false_eq_true, if_false, hf, hq]
        rw [hstep] at hok'
        obtain ⟨k', hk', _⟩ := hok'
        exact silent (by rw [hstep]) (by rw [hstep, hk, hk']; rfl)
    | choosing m g q =>
      obtain ⟨k, hk, hj⟩ := hok
      obtain ⟨k', hk', _⟩ := hok'
      exact silent rfl (by rw [hk, hk']; rfl)
    | looking m g q a =>
      obtain ⟨k, hk, hj, hl⟩ := hok
      by_cases hq : q ∈ identRegs (c.flow.moments.getD a [])
      · have hstep : Thread.step c ⟨.looking m g q a, todo⟩ = (c, ⟨.replacing m g q a, todo⟩) := by
          simp only [Thread.step, Pc.step]
          rw [if_pos hq]
        rw [hstep] at hok'
        obtain ⟨k', hk', _⟩ := hok'
        exact silent (by rw [hstep]) (by rw [hstep, hk, hk']; rfl)
      · have hstep : Thread.step c ⟨.looking m g q a, todo⟩ = (c, ⟨.appending m, todo⟩) := by
          simp only [Thread.step, Pc.step]
          rw [if_neg hq]
        rw [hstep] at hok'
        obtain ⟨k', hk', _⟩ := hok'
        exact silent (by rw [hstep]) (by rw [hstep, hk, hk']; rfl)
    | replacing m g q a =>
      obtain ⟨k, hk, hj, hl, i', hid⟩ := hok
      obtain ⟨r, d, b, l1, l2, l, k1, k2, ks, rfl, rfl, hl1, hk1, e1, e2, hli⟩ := h.shared.idle hid
      have hr : r < dims.length := touches_lt (hvc k hk) ((hj.touches r).2 rfl)
      have hqi : (r : Int) ∈ identRegs l.1 := by
        unfold identRegs
        rw [List.mem_filterMap]
        exact ⟨_, List.mem_of_getElem? hli, rfl⟩
      obtain ⟨m1, d', m2, _, _, _, em, _, _, _, hget, _⟩ := (h.shared.unm.lay l (by rw [e1]; simp)).find_ident hqi hr
      have hmom : c.flow.moments[b + 1]? = some l.1 := by
        rw [h.shared.unm.moments, e1]
        simp [hl1]
      have hstep : Thread.step c ⟨.replacing m g r (b + 1), todo⟩ = (c, ⟨.writing g r (b + 1) (0 + m1.length), todo⟩) := by
        simp only [Thread.step, Pc.step, List.getD_eq_getElem?_getD, hmom, Option.getD_some, hget 0, GateObj.isIdent, if_true]
      rw [hstep] at hok'
      obtain ⟨k', m', hk', _⟩ := hok'
      exact silent (by rw [hstep]) (by rw [hstep, hk, hk']; rfl)
    | writing g q a i' =>
      obtain ⟨k, m, hk, hj, hl, r, d, mm, rfl, hmm, hmi⟩ := hok
      have hc' : cur' i = none := hok'
      have e : made' i = made i ++ [k] := by
        rw [hc'] at hmade'
        rw [hk] at hmade
        have : made' i ++ todo = (made i ++ [k]) ++ todo := by
          have h3 : (Thread.step c ⟨.writing g r a i', todo⟩).2.todo = todo := rfl
          rw [h3] at hmade'
          simpa using hmade'.trans hmade.symm
        exact List.append_cancel_right this
      obtain ⟨g', l1, l2, hlay, hkind, hid, hop⟩ := h.shared.layer_kind hN h2 (hvc k hk)
      have hgop : g' = g := by
        have hm : m = l1 ++ g' :: l2 := by
          have := hj.layer
          rw [hlay] at this
          cases this; rfl
        have hmem := List.mem_of_find?_eq_some hj.find
        have his := List.find?_some hj.find
        rw [hm] at hmem
        rcases List.mem_append.1 hmem with hx | hx
        · have := hid g (by simp [hx])
          cases g <;> simp_all [GateObj.isIdent, GateObj.isHXZ]
        rcases List.mem_cons.1 hx with rfl | hx
        · rfl
        · have := hid g (by simp [hx])
          cases g <;> simp_all [GateObj.isIdent, GateObj.isHXZ]
      have hg : g.kind = k.kind := by rw [← hgop, hkind]
      have hmo : (Thread.step c ⟨.writing g r a i', todo⟩).1.flow.moments = c.flow.moments.set a (mm.set i' g) := by
        simp only [Thread.step, Pc.step, List.getD_eq_getElem?_getD, hmm, Option.getD_some]
      rw [hmo]
      refine ⟨Grows.set hmm hmi rfl, fun m' hm' x hx => ?_, others, fun κ => .inl ?_⟩
      · rcases List.mem_or_eq_of_mem_set hm' with hm' | rfl
        · exact .inl ⟨m', hm', hx⟩
        · rcases List.mem_or_eq_of_mem_set hx with hx | rfl
          · exact .inl ⟨mm, List.mem_of_getElem? hmm, hx⟩
          · exact .inr (.inr ⟨k, hvc k hk, hgop ▸ hop⟩)
      rw [opsOf_set_flatten κ hmm (opsOf_set κ hmi rfl), e, callsOf_append, callsOf_one, hg]
      omega
    | appending m =>
      obtain ⟨k, hk, hm⟩ := hok
      obtain ⟨hc', _⟩ := hok'
      have e : made' i = made i ++ [k] := by
        rw [hc'] at hmade'
        rw [hk] at hmade
        have : made' i ++ todo = (made i ++ [k]) ++ todo := by
          have h3 : (Thread.step c ⟨.appending m, todo⟩).2.todo = todo := rfl
          rw [h3] at hmade'
          simpa using hmade'.trans hmade.symm
        exact List.append_cancel_right this
      obtain ⟨g', l1, l2, hlay, hkind, hid, hop⟩ := h.shared.layer_kind hN h2 (hvc k hk)
      rw [hlay] at hm
      cases hm
      have hmo : (Thread.step c ⟨.appending (l1 ++ g' :: l2), todo⟩).1.flow.moments = c.flow.moments ++ [l1 ++ g' :: l2] := rfl
      rw [hmo]
      refine ⟨Grows.append _ _, fun m' hm' x hx => ?_, others, fun κ => .inl ?_⟩
      · rcases List.mem_append.1 hm' with hm' | hm'
        · exact .inl ⟨m', hm', hx⟩
        · rw [List.mem_singleton] at hm'
          subst hm'
          rcases List.mem_append.1 hx with hx | hx
          · exact .inr (.inl (hid x (by simp [hx])))
          rcases List.mem_cons.1 hx with rfl | hx
          · exact .inr (.inr ⟨k, hvc k hk, hop⟩)
          · exact .inr (.inl (hid x (by simp [hx])))
      have e1 : opsOf κ l1 = 0 := opsOf_idents κ fun x hx => hid x (by simp [hx])
      have e2 : opsOf κ l2 = 0 := opsOf_idents κ fun x hx => hid x (by simp [hx])
      rw [List.flatten_append, opsOf_append, List.flatten_singleton, opsOf_append, opsOf_cons, e1, e2, e, callsOf_append, callsOf_one,
        hkind]
      omega
    | counting m j =>
      obtain ⟨hc, hm⟩ := hok
      cases hj : m[j]? with
      | none =>
        have hstep : Thread.step c ⟨.counting m j, todo⟩ = (c, ⟨.idle, todo⟩) := by
          simp only [Thread.step, Pc.step, hj]
        rw [hstep] at hok'
        have hc' : cur' i = none := hok'
        exact silent (by rw [hstep]) (by rw [hstep, hc, hc'])
      | some g =>
        have hstep : Thread.step c ⟨.counting m j, todo⟩ = (c, ⟨.counting m (j + 1), todo⟩) := by
          simp only [Thread.step, Pc.step, hj, hm g (List.mem_of_getElem? hj), Bool.false_eq_true, if_false]
        rw [hstep] at hok'
        exact silent (by rw [hstep]) (by rw [hstep, hc, hok'.1])

/-! ### All schedules -/

/-- The gates in the layers are those of the calls that have taken effect. -/
def Tallied (progs : List (List (Call R))) (c : Circuit R) (made : Nat → List (Call R)) : Prop :=
  ∀ κ, opsOf κ c.flow.moments.flatten = ∑ i ∈ Finset.range progs.length, callsOf κ (made i)

theorem Running.tallied [Nontrivial R] (hN : N.Sized) (h2 : ∀ d ∈ dims, 2 ≤ d) (hap : NoSharing progs)
    (hv : ∀ p ∈ progs, ∀ k ∈ p, k.Valid dims) (h : Running N dims init c0 progs c ts layers kss cur made)
    (ht : Tallied progs c made) (i : Nat) :
    ∃ layers' kss' cur' made', Running N dims init c0 progs (stepThread (c, ts) i).1 (stepThread (c, ts) i).2
      layers' kss' cur' made' ∧ Tallied progs (stepThread (c, ts) i).1 made' ∧
      Grows c.flow.moments (stepThread (c, ts) i).1.flow.moments := by
  obtain ⟨layers', kss', cur', made', h', _⟩ := h.step hN h2 hap hv i
  obtain ⟨hg, _, ho, hk⟩ := h.tally_step hN h2 hv i h'
  refine ⟨layers', kss', cur', made', h', fun κ => ?_, hg⟩
  rcases hk κ with e | ⟨hi, e⟩
  · by_cases hi : i < progs.length
    · have e1 := Finset.add_sum_erase (Finset.range progs.length) (fun j => callsOf κ (made j)) (Finset.mem_range.2 hi)
      have e2 := Finset.add_sum_erase (Finset.range progs.length) (fun j => callsOf κ (made' j)) (Finset.mem_range.2 hi)
      have e3 : ∑ j ∈ (Finset.range progs.length).erase i, callsOf κ (made' j) =
          ∑ j ∈ (Finset.range progs.length).erase i, callsOf κ (made j) := by
        refine Finset.sum_congr rfl fun j hj => ?_
        rw [Finset.mem_erase, Finset.mem_range] at hj
        rw [ho j hj.2 hj.1]
      have := ht κ
      omega
    · have hn : (stepThread (c, ts) i).1 = c := by
        have : ts[i]? = none := by rw [List.getElem?_eq_none_iff, h.len]; omega
        simp only [stepThread, this]
      rw [hn, ht κ]
      refine Finset.sum_congr rfl fun j hj => ?_
      rw [Finset.mem_range] at hj
      rw [ho j hj (by omega)]
  · rw [e, ht κ]
    refine Finset.sum_congr rfl fun j hj => ?_
    rw [Finset.mem_range] at hj
    rw [ho j hj (by omega)]

theorem tallied_threads [Nontrivial R] (hN : N.Sized) (h2 : ∀ d ∈ dims, 2 ≤ d) (hap : NoSharing progs)
    (hv : ∀ p ∈ progs, ∀ k ∈ p, k.Valid dims) (sched : List Nat) {c : Circuit R} {ts : List (Thread R)}
    (h : ∃ layers kss cur made, Running N dims init c0 progs c ts layers kss cur made ∧ Tallied progs c made) :
    ∃ layers kss cur made, Running N dims init c0 progs (sched.foldl stepThread (c, ts)).1 (sched.foldl stepThread (c, ts)).2
      layers kss cur made ∧ Tallied progs (sched.foldl stepThread (c, ts)).1 made := by
  induction sched generalizing c ts with
  | nil => exact h
  | cons i s ih =>
    obtain ⟨_, _, _, _, h, ht⟩ := h
    obtain ⟨l, k, cu, ma, h', ht', _⟩ := h.tallied hN h2 hap hv ht i
    exact ih (c := (stepThread (c, ts) i).1) (ts := (stepThread (c, ts) i).2) ⟨l, k, cu, ma, h', ht'⟩

theorem tallied_info [Nontrivial R] (hN : N.Sized) (h2 : ∀ d ∈ dims, 2 ≤ d) (hap : NoSharing progs)
    (hv : ∀ p ∈ progs, ∀ k ∈ p, k.Valid dims) {M0 : List (List (GateObj R))} (s : List (Option Nat))
    {σ : (Circuit R × List (Thread R)) × Ic R}
    (h : ∃ layers kss cur made, Running N dims init c0 progs σ.1.1 σ.1.2 layers kss cur made ∧ Tallied progs σ.1.1 made)
    (hk : σ.2.Knows M0 σ.1.1.flow.moments) :
    (∃ layers kss cur made, Running N dims init c0 progs (s.foldl stepInfo σ).1.1 (s.foldl stepInfo σ).1.2 layers kss cur made ∧
      Tallied progs (s.foldl stepInfo σ).1.1 made) ∧ (s.foldl stepInfo σ).2.Knows M0 (s.foldl stepInfo σ).1.1.flow.moments := by
  induction s generalizing σ with
  | nil => exact ⟨h, hk⟩
  | cons o s ih =>
    cases o with
    | none => exact ih (σ := stepInfo σ none) h hk.step
    | some i =>
      obtain ⟨_, _, _, _, h, ht⟩ := h
      obtain ⟨l, k, cu, ma, h', ht', hg⟩ := h.tallied hN h2 hap hv ht i
      exact ih (σ := stepInfo σ (some i)) ⟨l, k, cu, ma, h', ht'⟩ (hk.grow hg)

theorem info_of {c : Circuit R} {d : Int} {seen : List (List (GateObj R))} {x : Info}
    (hx : (Ic.finished d seen).value c = some x) (κ : Kind) : x.of κ = opsOf κ seen.flatten := by
  simp only [Ic.value, Option.some.injEq] at hx
  subst hx
  unfold Info.of opsOf
  have key : ∀ (f : Kind → Nat) (l : List Kind), (((((l.map fun k => (k, f k)).filter fun p => p.2 ≠ 0)).filter
      fun p => p.1 = κ).map (·.2)).sum = ((l.filter fun k => k = κ).map f).sum := by
    intro f l
    induction l with
    | nil => rfl
    | cons k l ih =>
      rw [List.map_cons, List.filter_cons, List.filter_cons (xs := l)]
      by_cases h0 : f k = 0
      · rw [if_neg (by simpa using h0), ih]
        split
        · rw [List.map_cons, List.sum_cons, h0, Nat.zero_add]
        · rfl
      · rw [if_pos (by simpa using h0), List.filter_cons]
        split
        · rw [List.map_cons, List.sum_cons, List.map_cons, List.sum_cons, ih]
        · exact ih
  refine (key _ _).trans ?_
  have : Kind.order.filter (fun k => k = κ) = [κ] := by cases κ <;> rfl
  rw [this]
  simp

/-- What is known when `get_circuit_info()` is done. -/
theorem info_core [Nontrivial R] (hne : dims ≠ []) (h : ValidStart (dims.map Int.ofNat) init)
    (hv : ∀ p ∈ progs, ∀ k ∈ p, k.Valid dims) (hap : NoSharing progs)
    (hc : Circuit.new (.list (dims.map Int.ofNat)) init none = .ok c0) (s0 : List Nat) (s : List (Option Nat)) {x : Info}
    (hx : (runInfo c0 progs (s0.map some ++ none :: s)).2.value c0 = some x) :
    ∃ (d : Int) (seen : List (List (GateObj R))) (N : Numerics R),
      (Ic.finished d seen).value c0 = some x ∧ d = ((runThreads c0 progs s0).1.flow.moments.length : Int) - 1 ∧
      Grows (runThreads c0 progs s0).1.flow.moments seen ∧
      Grows seen (runInfo c0 progs (s0.map some ++ none :: s)).1.1.flow.moments ∧
      (∃ layers kss cur made, Running N dims init c0 progs (runThreads c0 progs s0).1 (runThreads c0 progs s0).2
        layers kss cur made ∧ Tallied progs (runThreads c0 progs s0).1 made) ∧
      ∃ layers kss cur made, Running N dims init c0 progs (runInfo c0 progs (s0.map some ++ none :: s)).1.1
        (runInfo c0 progs (s0.map some ++ none :: s)).1.2 layers kss cur made ∧
        Tallied progs (runInfo c0 progs (s0.map some ++ none :: s)).1.1 made := by
  have hN : (⟨fun d => List.replicate d 0, fun _ => 0⟩ : Numerics R).Sized := fun d _ => by simp
  have h2 := ge_two_of_valid h
  rw [new_ok rfl h none] at hc
  injection hc with hc
  subst hc
  have start := Running.start (N := (⟨fun d => List.replicate d 0, fun _ => 0⟩ : Numerics R)) (init := init) hne progs
  have tstart : Tallied progs (freshCircuit (R := R) (.list (dims.map Int.ofNat)) dims init none) fun _ => [] := by
    intro κ
    have : ∀ g ∈ initOps (R := R) dims init, ¬ g.kind = some κ := by
      intro g hg
      obtain ⟨i, _, rfl⟩ := List.mem_map.1 hg
      simp [GateObj.kind]
    simp only [freshCircuit, List.flatten_cons, List.flatten_nil, List.append_nil, opsOf, callsOf, List.filter_nil, List.length_nil,
      Finset.sum_const_zero]
    rw [List.filter_eq_nil_iff.2 (by simpa using this)]
    rfl
  have r0 := tallied_threads hN h2 hap hv s0 ⟨_, _, _, _, start, tstart⟩
  set c0 : Circuit R := freshCircuit (.list (dims.map Int.ofNat)) dims init none with hc0
  have hs : ∀ (s : List Nat) (σ : Circuit R × List (Thread R)) (r : Ic R),
      (s.map some).foldl stepInfo (σ, r) = (s.foldl stepThread σ, r) := by
    intro s
    induction s with
    | nil => intro σ r; rfl
    | cons i s ih => intro σ r; exact ih _ _
  have hrun : runInfo c0 progs (s0.map some ++ none :: s) =
      s.foldl stepInfo (runThreads c0 progs s0, Ic.step (runThreads c0 progs s0).1.flow .start) := by
    unfold runInfo
    rw [List.foldl_append, hs]
    rfl
  obtain ⟨r1, hk⟩ := tallied_info hN h2 hap hv (M0 := (runThreads c0 progs s0).1.flow.moments) s
    (σ := (runThreads c0 progs s0, Ic.step (runThreads c0 progs s0).1.flow .start)) r0
    ⟨rfl, Grows.refl _, fun a m hm => by simp at hm, fun e => (e rfl).elim, fun a m0 m _ hm => by simp at hm,
      fun m0 _ j g hj => by simp at hj⟩
  rw [← hrun] at r1 hk
  generalize hr : (runInfo c0 progs (s0.map some ++ none :: s)).2 = r at hx hk
  cases r with
  | start => cases hx
  | reading d seen cur => cases hx
  | finished d seen => exact ⟨d, seen, _, hx, hk.1, hk.2.1, hk.2.2, r0, r1⟩

theorem callsOf_prefix (κ : Kind) {l l' : List (Call R)} (h : l <+: l') : callsOf κ l ≤ callsOf κ l' := by
  obtain ⟨x, rfl⟩ := h
  rw [callsOf_append]
  omega

/-- Calls that have returned have taken effect. -/
theorem Running.returned (h : Running N dims init c0 progs c ts layers kss cur made) {i : Nat} {p : List (Call R)} {t : Thread R}
    (hp : progs[i]? = some p) (ht : ts[i]? = some t) {l : List (Call R)} (hl : Returned p t l) : l <+: made i := by
  obtain ⟨hok, hm⟩ := h.thr i t p ht hp
  rcases hl with ⟨hidle, hl⟩ | ⟨_, k, hl⟩
  · rw [hidle] at hok
    have hc : cur i = none := hok
    rw [hc] at hm
    have := List.append_cancel_right ((show made i ++ t.todo = p by simpa using hm).trans hl)
    rw [this]
  · have h1 : made i <+: p := ⟨_, hm⟩
    have h2 : l <+: p := ⟨_, hl.symm⟩
    refine List.prefix_of_prefix_length_le h2 h1 ?_
    have e1 := congrArg List.length hm
    have e2 := congrArg List.length hl
    have : (cur i).toList.length ≤ 1 := by cases cur i <;> simp
    simp only [List.length_append, List.length_cons] at e1 e2
    omega

/-- Calls that have taken effect have been begun. -/
theorem Running.begun (h : Running N dims init c0 progs c ts layers kss cur made) {i : Nat} {p : List (Call R)} {t : Thread R}
    (hp : progs[i]? = some p) (ht : ts[i]? = some t) {l : List (Call R)} (hl : Begun p t l) : made i <+: l := by
  obtain ⟨_, hm⟩ := h.thr i t p ht hp
  unfold Begun at hl
  rw [← List.append_assoc] at hm
  exact ⟨_, List.append_cancel_right (hm.trans hl)⟩

/-- **C102.** Threads build a circuit and one calls `get_circuit_info()` while the others go on. For every kind of gate it
reports at least the calls that had returned when it was called, and at most those that had been begun when it was done. -/
theorem C102_counts [Nontrivial R] (hne : dims ≠ []) (h : ValidStart (dims.map Int.ofNat) init)
    (hv : ∀ p ∈ progs, ∀ k ∈ p, k.Valid dims)
    (hap : progs.Pairwise fun p p' => ∀ k ∈ p, ∀ k' ∈ p', ∀ r, ¬ (k.touches r ∧ k'.touches r))
    (hc : Circuit.new (.list (dims.map Int.ofNat)) init none = .ok c0) (s0 : List Nat) (s : List (Option Nat)) {x : Info}
    (hx : (runInfo c0 progs (s0.map some ++ none :: s)).2.value c0 = some x) {returned begun : Nat → List (Call R)}
    (hr : ∀ (i : Nat) p t, progs[i]? = some p → (runThreads c0 progs s0).2[i]? = some t → Returned p t (returned i))
    (hb : ∀ (i : Nat) p t, progs[i]? = some p → (runInfo c0 progs (s0.map some ++ none :: s)).1.2[i]? = some t →
      Begun p t (begun i)) (κ : Kind) :
    ∑ i ∈ Finset.range progs.length, callsOf κ (returned i) ≤ x.of κ ∧
      x.of κ ≤ ∑ i ∈ Finset.range progs.length, callsOf κ (begun i) := by
  obtain ⟨d, seen, N, hval, _, g0, g1, ⟨_, _, _, made0, r0, t0⟩, _, _, _, made1, r1, t1⟩ := info_core hne h hv hap hc s0 s hx
  rw [info_of hval κ]
  have e0 := g0.count κ
  have e1 := g1.count κ
  rw [t0 κ] at e0
  rw [t1 κ] at e1
  constructor
  · refine le_trans (Finset.sum_le_sum fun i hi => ?_) e0
    rw [Finset.mem_range] at hi
    have hp := List.getElem?_eq_getElem hi
    have ht := List.getElem?_eq_getElem (l := (runThreads c0 progs s0).2) (i := i) (by rw [r0.len]; exact hi)
    exact callsOf_prefix κ (r0.returned hp ht (hr i _ _ hp ht))
  · refine le_trans e1 (Finset.sum_le_sum fun i hi => ?_)
    rw [Finset.mem_range] at hi
    have hp := List.getElem?_eq_getElem hi
    have ht := List.getElem?_eq_getElem (l := (runInfo c0 progs (s0.map some ++ none :: s)).1.2) (i := i) (by rw [r1.len]; exact hi)
    exact callsOf_prefix κ (r1.begun hp ht (hb i _ _ hp ht))

/-- **C102.** The depth it reports is that of the circuit when it was called. -/
theorem C102_depth [Nontrivial R] (hne : dims ≠ []) (h : ValidStart (dims.map Int.ofNat) init)
    (hv : ∀ p ∈ progs, ∀ k ∈ p, k.Valid dims)
    (hap : progs.Pairwise fun p p' => ∀ k ∈ p, ∀ k' ∈ p', ∀ r, ¬ (k.touches r ∧ k'.touches r))
    (hc : Circuit.new (.list (dims.map Int.ofNat)) init none = .ok c0) (s0 : List Nat) (s : List (Option Nat)) {x : Info}
    (hx : (runInfo c0 progs (s0.map some ++ none :: s)).2.value c0 = some x) :
    x.depth = (runThreads c0 progs s0).1.depth := by
  obtain ⟨d, seen, N, hval, hd, g0, g1, ⟨_, _, _, made0, r0, t0⟩, _, _, _, made1, r1, t1⟩ := info_core hne h hv hap hc s0 s hx
  have noMeas : ∀ {c : Circuit R} {layers : List (List (GateObj R) × List (Option (Block R)))} {kss : List (List (Call R))},
      Shared N dims init c layers kss → ∀ m ∈ c.flow.moments, ∀ g ∈ m, g.isMeas = false := by
    intro c layers kss hs m hm g hg
    rw [hs.unm.moments, List.mem_cons] at hm
    rcases hm with rfl | hm
    · have := (initOps_isInit dims init g hg).1
      cases g <;> simp_all [GateObj.isInit, GateObj.isMeas]
    · obtain ⟨l, hl, rfl⟩ := List.mem_map.1 hm
      exact hs.unm.noMeas l hl g hg
  have hseen : ∀ m ∈ seen, ∀ g ∈ m, g.isMeas = false := by
    intro m hm g hg
    obtain ⟨a, ha, rfl⟩ := List.getElem_of_mem hm
    obtain ⟨j, hj, rfl⟩ := List.getElem_of_mem hg
    obtain ⟨m', h1, _, h3⟩ := g1 a _ (List.getElem?_eq_getElem ha)
    rcases h3 j _ (List.getElem?_eq_getElem hj) with e | e
    · exact noMeas r1.shared m' (List.mem_of_getElem? h1) _ (List.mem_of_getElem? e)
    · generalize seen[a][j] = g at e
      cases g <;> simp_all [GateObj.isIdent, GateObj.isMeas]
  have hfold : ∀ (q : Nat) (ms : List (List (GateObj R))), (∀ m ∈ ms, ∀ g ∈ m, g.isMeas = false) → ∀ d,
      ms.foldl (infoDepthMoment q) d = d := by
    intro q ms
    induction ms with
    | nil => intro _ d; rfl
    | cons m ms ih =>
      intro hm d
      have : infoDepthMoment q d m = d := by
        unfold infoDepthMoment
        have key : ∀ (l : List (GateObj R)) (st : Nat × Int), (∀ g ∈ l, g.isMeas = false) →
            l.foldl (fun (st : Nat × Int) g => if g.isMeas then (st.1 + 1, if st.1 + 1 = q then st.2 - 1 else st.2) else st) st = st := by
          intro l
          induction l with
          | nil => intro st _; rfl
          | cons g l ih =>
            intro st hl
            rw [List.foldl_cons, hl g (by simp)]
            exact ih st fun g hg => hl g (by simp [hg])
        rw [key m _ (hm m (by simp))]
      rw [List.foldl_cons, this]
      exact ih (fun m' hm' => hm m' (by simp [hm'])) d
  simp only [Ic.value, Option.some.injEq] at hval
  rw [← hval]
  simp only
  rw [hfold _ seen hseen, hd]
  unfold Circuit.depth
  have hlast : ((runThreads c0 progs s0).1.flow.moments.getLast?.getD []).any (·.isMeas) = false := by
    rw [List.any_eq_false]
    intro g hg
    cases hl : (runThreads c0 progs s0).1.flow.moments.getLast? with
    | none => rw [hl] at hg; simp at hg
    | some m =>
      rw [hl] at hg
      simp [noMeas r0.shared m (List.mem_of_getLast? hl) g hg]
  simp [hlast]

/-- The sum of what is reported for the kinds. -/
theorem info_total {c : Circuit R} {d : Int} {seen : List (List (GateObj R))} {x : Info}
    (hx : (Ic.finished d seen).value c = some x) : x.gateCount = (Kind.order.map x.of).sum := by
  have e : x.of = fun κ => opsOf κ seen.flatten := funext (info_of hx)
  rw [e]
  simp only [Ic.value, Option.some.injEq] at hx
  subst hx
  have : ∀ (f : Kind → Nat) (l : List Kind), (((l.map fun k => (k, f k)).filter fun p => p.2 ≠ 0).map (·.2)).sum = (l.map f).sum := by
    intro f l
    induction l with
    | nil => rfl
    | cons k l ih =>
      rw [List.map_cons, List.filter_cons, List.map_cons, List.sum_cons, ← ih]
      split
      · rw [List.map_cons, List.sum_cons]
      · rename_i hk
        have : f k = 0 := by simpa using hk
        rw [this, Nat.zero_add]
  exact this _ _

/-- Every valid call is of one of the kinds. -/
theorem calls_length {l : List (Call R)} (h : ∀ k ∈ l, k.Valid dims) : (Kind.order.map fun κ => callsOf κ l).sum = l.length := by
  induction l with
  | nil => rfl
  | cons k l ih =>
    have ih := ih fun k' hk' => h k' (by simp [hk'])
    have hk := h k (by simp)
    have e : ∀ κ, callsOf κ (k :: l) = callsOf κ [k] + callsOf κ l := fun κ => callsOf_append κ [k] l
    simp only [Kind.order, List.map_cons, List.map_nil, List.sum_cons, List.sum_nil] at ih ⊢
    simp only [e, List.length_cons, ← ih]
    cases k with
    | measure q => exact hk.elim
    | measureAll => exact hk.elim
    | _ => simp [callsOf, Call.kind]; omega

/-- **C102.** The number of gates it reports is at least that of the calls that had returned when it was called, and at most
that of the calls that had been begun when it was done. -/
theorem C102_gate_count [Nontrivial R] (hne : dims ≠ []) (h : ValidStart (dims.map Int.ofNat) init)
    (hv : ∀ p ∈ progs, ∀ k ∈ p, k.Valid dims)
    (hap : progs.Pairwise fun p p' => ∀ k ∈ p, ∀ k' ∈ p', ∀ r, ¬ (k.touches r ∧ k'.touches r))
    (hc : Circuit.new (.list (dims.map Int.ofNat)) init none = .ok c0) (s0 : List Nat) (s : List (Option Nat)) {x : Info}
    (hx : (runInfo c0 progs (s0.map some ++ none :: s)).2.value c0 = some x) {returned begun : Nat → List (Call R)}
    (hr : ∀ (i : Nat) p t, progs[i]? = some p → (runThreads c0 progs s0).2[i]? = some t → Returned p t (returned i))
    (hb : ∀ (i : Nat) p t, progs[i]? = some p → (runInfo c0 progs (s0.map some ++ none :: s)).1.2[i]? = some t →
      Begun p t (begun i)) :
    ∑ i ∈ Finset.range progs.length, (returned i).length ≤ x.gateCount ∧
      x.gateCount ≤ ∑ i ∈ Finset.range progs.length, (begun i).length := by
  obtain ⟨d, seen, N, hval, _, g0, g1, ⟨_, _, _, made0, r0, t0⟩, _, _, _, made1, r1, t1⟩ := info_core hne h hv hap hc s0 s hx
  have key := C102_counts hne h hv hap hc s0 s hx hr hb
  have hswap : ∀ f : Nat → List (Call R), (∀ i < progs.length, ∀ k ∈ f i, k.Valid dims) →
      (Kind.order.map fun κ => ∑ i ∈ Finset.range progs.length, callsOf κ (f i)).sum =
        ∑ i ∈ Finset.range progs.length, (f i).length := by
    intro f hf
    rw [← Finset.sum_congr rfl fun i hi => calls_length (hf i (Finset.mem_range.1 hi))]
    simp only [Kind.order, List.map_cons, List.map_nil, List.sum_cons, List.sum_nil, Finset.sum_add_distrib, Finset.sum_const_zero]
  have hle : ∀ (f g : Kind → Nat), (∀ κ, f κ ≤ g κ) → (Kind.order.map f).sum ≤ (Kind.order.map g).sum := by
    intro f g hfg
    exact List.sum_le_sum fun κ _ => hfg κ
  rw [info_total hval, ← hswap returned, ← hswap begun]
  · exact ⟨hle _ _ fun κ => (key κ).1, hle _ _ fun κ => (key κ).2⟩
  · intro i hi k hk
    have hp := List.getElem?_eq_getElem hi
    have ht := List.getElem?_eq_getElem (l := (runInfo c0 progs (s0.map some ++ none :: s)).1.2) (i := i) (by rw [r1.len]; exact hi)
    have := hb i _ _ hp ht
    exact hv _ (List.getElem_mem hi) k (by rw [show progs[i] = _ from this]; simp [hk])
  · intro i hi k hk
    have hp := List.getElem?_eq_getElem hi
    have ht := List.getElem?_eq_getElem (l := (runThreads c0 progs s0).2) (i := i) (by rw [r0.len]; exact hi)
    refine hv _ (List.getElem_mem hi) k ?_
    rcases hr i _ _ hp ht with ⟨_, e⟩ | ⟨_, k', e⟩ <;> · rw [e]; simp [hk]

/-- **C102.** The number of registers it reports is that of the circuit. -/
theorem C102_registers [Nontrivial R] (hne : dims ≠ []) (h : ValidStart (dims.map Int.ofNat) init)
    (hc : Circuit.new (R := R) (.list (dims.map Int.ofNat)) init none = .ok c0) (s : List (Option Nat)) {x : Info}
    (hx : (runInfo c0 progs s).2.value c0 = some x) : x.qudit = dims.length := by
  rw [new_ok rfl h none] at hc
  injection hc with hc
  subst hc
  generalize (runInfo (freshCircuit (R := R) (.list (dims.map Int.ofNat)) dims init none) progs s).2 = r at hx
  cases r with
  | start => cases hx
  | reading d seen cur => cases hx
  | finished d seen =>
    simp only [Ic.value, Option.some.injEq] at hx
    subst hx
    simp [freshCircuit, RegsArg.toRegs, Regs.seq]

/-- With no other thread at work, all layers are read. -/
theorem Ic.read_all (f : Flow R) (d : Int) : ∃ n, (Ic.step f)^[n] (.reading d [] []) = .finished d f.moments := by
  have layer : ∀ (d : Int) (seen : List (List (GateObj R))) (m : List (GateObj R)), f.moments[seen.length]? = some m →
      ∀ k ≤ m.length, (Ic.step f)^[k] (.reading d seen []) = .reading d seen (m.take k) := by
    intro d seen m hm k
    induction k with
    | zero => intro _; simp
    | succ k ih =>
      intro hk
      rw [Function.iterate_succ_apply', ih (by omega)]
      have hlen : (m.take k).length = k := by rw [List.length_take]; omega
      have hg := List.getElem?_eq_getElem (l := m) (i := k) (by omega)
      simp only [Ic.step, hm, hlen, hg]
      rw [List.take_succ, hg]
      rfl
  have layers : ∀ (d : Int) (k : Nat), k ≤ f.moments.length →
      ∃ n, (Ic.step f)^[n] (.reading d [] []) = .reading d (f.moments.take k) [] := by
    intro d k
    induction k with
    | zero => intro _; exact ⟨0, by simp⟩
    | succ k ih =>
      intro hk
      obtain ⟨n, hn⟩ := ih (by omega)
      have hlen : (f.moments.take k).length = k := by rw [List.length_take]; omega
      have hg := List.getElem?_eq_getElem (l := f.moments) (i := k) (by omega)
      refine ⟨1 + f.moments[k].length + n, ?_⟩
      rw [Function.iterate_add_apply, hn, Function.iterate_add_apply,
        layer d _ f.moments[k] (by rw [hlen]; exact hg) _ (le_refl _), List.take_length, Function.iterate_one]
      simp only [Ic.step, hlen, hg, List.getElem?_eq_none (le_refl f.moments[k].length)]
      rw [List.take_succ, hg]
      rfl
  obtain ⟨n, hn⟩ := layers d f.moments.length (le_refl _)
  refine ⟨1 + n, ?_⟩
  rw [Function.iterate_add_apply, hn, Function.iterate_one, List.take_length]
  simp only [Ic.step, List.getElem?_eq_none (le_refl f.moments.length)]

/-- **C102.** A call with no other thread at work comes to an end, with the report of the other properties. -/
theorem C102_alone (c : Circuit R) (progs : List (List (Call R))) :
    ∃ n, (runInfo c progs (List.replicate n none)).2.value c = some c.info := by
  have steps : ∀ n (r : Ic R) ts, (List.replicate n none).foldl stepInfo ((c, ts), r) = ((c, ts), (Ic.step c.flow)^[n] r) := by
    intro n
    induction n with
    | zero => intro r ts; rfl
    | succ n ih => intro r ts; rw [List.replicate_succ, List.foldl_cons, Function.iterate_succ_apply]; exact ih _ _
  obtain ⟨n, hn⟩ := Ic.read_all c.flow ((c.flow.moments.length : Int) - 1)
  refine ⟨1 + n + 1, ?_⟩
  unfold runInfo
  rw [steps, Function.iterate_add_apply, Function.iterate_add_apply, Function.iterate_one]
  simp only [Ic.step]
  rw [hn]
  simp only [Ic.step, Ic.value]
  rfl

/-- If no other thread is at work, the loops come to an end. -/
theorem Ic.ends (f : Flow R) (r : Ic R) : ∃ n d seen, (Ic.step f)^[n] r = .finished d seen := by
  have ends : ∀ (f : Flow R) (a b : Nat) (d : Int) (seen : List (List (GateObj R))) (cur : List (GateObj R)),
      f.moments.length - seen.length = a → (∀ m, f.moments[seen.length]? = some m → m.length - cur.length = b) →
      ∃ n d' seen', (Ic.step f)^[n] (.reading d seen cur) = .finished d' seen' := by
    intro f a
    induction a with
    | zero =>
      intro b d seen cur ha _
      refine ⟨1, d, seen, ?_⟩
      rw [Function.iterate_one]
      simp only [Ic.step, List.getElem?_eq_none (show f.moments.length ≤ seen.length by omega)]
    | succ a iha =>
      intro b
      induction b with
      | zero =>
        intro d seen cur ha hb
        have hm := List.getElem?_eq_getElem (l := f.moments) (i := seen.length) (by omega)
        have hlen := hb _ hm
        obtain ⟨n, d', seen', hn⟩ := iha ((f.moments.getD (seen.length + 1) []).length) d (seen ++ [cur]) []
          (by rw [List.length_append, List.length_singleton]; omega) (by
            intro m hm
            rw [List.length_append, List.length_singleton] at hm
            rw [List.getD_eq_getElem?_getD, hm]
            rfl)
        refine ⟨n + 1, d', seen', ?_⟩
        rw [Function.iterate_succ_apply, ← hn]
        simp only [Ic.step, hm, List.getElem?_eq_none (show f.moments[seen.length].length ≤ cur.length by omega)]
      | succ b ihb =>
        intro d seen cur ha hb
        have hm := List.getElem?_eq_getElem (l := f.moments) (i := seen.length) (by omega)
        have hlen := hb _ hm
        have hg := List.getElem?_eq_getElem (l := f.moments[seen.length]) (i := cur.length) (by omega)
        obtain ⟨n, d', seen', hn⟩ := ihb d seen (cur ++ [f.moments[seen.length][cur.length]]) ha (by
          intro m hm'
          rw [hm] at hm'
          cases hm'
          rw [List.length_append, List.length_singleton]
          omega)
        refine ⟨n + 1, d', seen', ?_⟩
        rw [Function.iterate_succ_apply, ← hn]
        simp only [Ic.step, hm, hg]
  cases r with
  | start =>
    obtain ⟨n, d, seen, hn⟩ := ends f _ ((f.moments.getD 0 []).length) ((f.moments.length : Int) - 1) [] [] rfl (by
      intro m hm
      rw [List.getD_eq_getElem?_getD, show f.moments[0]? = some m from hm]
      rfl)
    exact ⟨n + 1, d, seen, by rw [Function.iterate_succ_apply]; exact hn⟩
  | reading d seen cur =>
    refine ends f _ ((f.moments.getD seen.length []).length - cur.length) d seen cur rfl ?_
    intro m hm
    rw [List.getD_eq_getElem?_getD, hm]
    rfl
  | finished d seen => exact ⟨0, d, seen, rfl⟩

/-- **C102.** However far it has come and whatever the other threads did, it comes to an end if they stop. -/
theorem C102_ends (c : Circuit R) (progs : List (List (Call R))) (s : List (Option Nat)) :
    ∃ n x, (runInfo c progs (s ++ List.replicate n none)).2.value c = some x := by
  have steps : ∀ n σ (r : Ic R), (List.replicate n none).foldl stepInfo (σ, r) = (σ, (Ic.step σ.1.flow)^[n] r) := by
    intro n
    induction n with
    | zero => intro σ r; rfl
    | succ n ih => intro σ r; rw [List.replicate_succ, List.foldl_cons, Function.iterate_succ_apply]; exact ih _ _
  obtain ⟨n, d, seen, hn⟩ := Ic.ends (runInfo c progs s).1.1.flow (runInfo c progs s).2
  refine ⟨n, ((Ic.finished d seen).value c).getD ⟨0, 0, [], 0⟩, ?_⟩
  have : runInfo c progs (s ++ List.replicate n none) = (List.replicate n none).foldl stepInfo (runInfo c progs s) := by
    unfold runInfo
    rw [List.foldl_append]
  rw [this, show runInfo c progs s = ((runInfo c progs s).1, (runInfo c progs s).2) from rfl, steps]
  simp only [hn, Ic.value, Option.getD_some]

/-! ### What is not promised -/

/-- **C102.** The depth may be too small for the gates: `x(0)` is called on a qubit after `get_circuit_info()` has noted
the depth. -/
theorem C102_depth_may_be_too_small : ∃ c0 : Circuit ℤ, Circuit.new (.list [2]) [] none = .ok c0 ∧
    ∃ s, (runInfo c0 [[.x 0 none 1]] s).2.value c0 = some { depth := 0, gateCount := 1, details := [(.x, 1)], qudit := 1 } :=
  ⟨_, rfl, none :: List.replicate 8 (some 0) ++ List.replicate 9 none, by decide +kernel⟩

/-- The circuit of two qubits. -/
def twoQubits : Circuit ℤ := freshCircuit (.list [2, 2]) [2, 2] [] none

/-- `x(0)` has returned, `get_circuit_info()` is called and has read a layer when the other thread calls `z(1)`. -/
def lateZ : List (Option Nat) := List.replicate 3 none ++ List.replicate 12 (some 1) ++ List.replicate 12 none

/-- What it reports: one layer, but both gates. -/
theorem lateZ_value : (runInfo twoQubits [[.x 0 none 1], [.z 1 none]] ((List.replicate 12 0).map some ++ none :: lateZ)).2.value
    twoQubits = some { depth := 1, gateCount := 2, details := [(.x, 1), (.z, 1)], qudit := 2 } := by
  decide +kernel

/-- Where a thread is: between calls or not, and the number of calls that it has not begun. -/
def Thread.left (t : Thread R) : Bool × Nat := ((match t.pc with | .idle => true | _ => false), t.todo.length)

theorem lateZ_before : (runThreads twoQubits [[.x 0 none 1], [.z 1 none]] (List.replicate 12 0)).2.map Thread.left =
    [(true, 0), (true, 1)] := by
  decide +kernel

theorem lateZ_after : (runInfo twoQubits [[.x 0 none 1], [.z 1 none]]
    ((List.replicate 12 0).map some ++ none :: lateZ)).1.2.map Thread.left = [(true, 0), (true, 0)] := by
  decide +kernel

/-- A case of `C102_counts`, with the calls that had returned, `x(0)`, and those that had been begun, `x(0)` and `z(1)`. -/
example (κ : Kind) : callsOf κ [Call.x (R := ℤ) 0 none 1] ≤
      Info.of { depth := 1, gateCount := 2, details := [(.x, 1), (.z, 1)], qudit := 2 } κ ∧
    Info.of { depth := 1, gateCount := 2, details := [(.x, 1), (.z, 1)], qudit := 2 } κ ≤
      callsOf κ [Call.x (R := ℤ) 0 none 1] + callsOf κ [Call.z (R := ℤ) 1 none] := by
  have hc : Circuit.new (R := ℤ) (.list ([2, 2].map Int.ofNat)) [] none = .ok twoQubits :=
    new_ok (dims := [2, 2]) rfl (validStart_of rfl) none
  have hv : ∀ p ∈ [[Call.x 0 none 1], [Call.z (R := ℤ) 1 none]], ∀ k ∈ p, k.Valid [2, 2] := by
    simp [Call.Valid, InRange, DimOK]
  have hap : [[Call.x 0 none 1], [Call.z (R := ℤ) 1 none]].Pairwise
      fun p p' => ∀ k ∈ p, ∀ k' ∈ p', ∀ r, ¬ (k.touches r ∧ k'.touches r) := by
    simp [Call.touches]
    omega
  have hvs : ValidStart ([2, 2].map Int.ofNat) [] := validStart_of (init := []) rfl
  obtain ⟨_, _, _, _, _, _, _, ⟨_, _, _, _, r0, _⟩, _, _, _, _, r1, _⟩ := info_core (by simp) hvs hv hap hc _ _ lateZ_value
  have todo : ∀ {c : Circuit ℤ} {ts : List (Thread ℤ)} {layers kss cur made} {N : Numerics ℤ}
      (_ : Running N [2, 2] [] twoQubits [[Call.x 0 none 1], [Call.z (R := ℤ) 1 none]] c ts layers kss cur made)
      (i : Nat) {p t}, [[Call.x 0 none 1], [Call.z (R := ℤ) 1 none]][i]? = some p → ts[i]? = some t → ∃ l, p = l ++ t.todo := by
    intro c ts layers kss cur made N h i p t hp ht
    refine ⟨made i ++ (cur i).toList, ?_⟩
    rw [← (h.thr i t p ht hp).2, List.append_assoc]
  have left : ∀ {ts : List (Thread ℤ)} {l : List (Bool × Nat)} (_ : ts.map Thread.left = l) (i : Nat) {t}, ts[i]? = some t →
      l[i]? = some t.left := by
    intro ts l h i t ht
    rw [← h, List.getElem?_map, ht]
    rfl
  have idle : ∀ t : Thread ℤ, t.left.1 = true → t.pc = .idle := by
    intro t
    unfold Thread.left
    cases t.pc <;> simp
  have key := C102_counts (by simp) hvs hv hap hc _ _ lateZ_value
    (returned := fun i => if i = 0 then [.x 0 none 1] else [])
    (begun := fun i => if i = 0 then [.x 0 none 1] else [.z 1 none]) (by
      intro i p t hp ht
      have hl := left lateZ_before i ht
      obtain ⟨l, e⟩ := todo r0 i hp ht
      match i, hp with
      | 0, hp =>
        simp at hp hl
        have h0 : t.todo = [] := List.length_eq_zero_iff.1 (congrArg Prod.snd hl).symm
        exact .inl ⟨idle t (congrArg Prod.fst hl).symm, by simp [h0, hp]⟩
      | 1, hp =>
        simp at hp hl
        have h1 : t.todo.length = 1 := (congrArg Prod.snd hl).symm
        have e' := congrArg List.length e
        rw [List.length_append, h1, ← hp, List.length_singleton] at e'
        have hl0 : l = [] := List.length_eq_zero_iff.1 (by omega)
        subst hl0
        exact .inl ⟨idle t (congrArg Prod.fst hl).symm, by simpa using e⟩) (by
      intro i p t hp ht
      have hl := left lateZ_after i ht
      match i, hp with
      | 0, hp =>
        simp at hp hl
        have h0 : t.todo = [] := List.length_eq_zero_iff.1 (congrArg Prod.snd hl).symm
        simp [Begun, h0, hp]
      | 1, hp =>
        simp at hp hl
        have h0 : t.todo = [] := List.length_eq_zero_iff.1 (congrArg Prod.snd hl).symm
        simp [Begun, h0, hp]) κ
  simpa [Finset.sum_range_succ, callsOf] using key

end QuDiet
