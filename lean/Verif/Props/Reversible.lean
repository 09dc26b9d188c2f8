import Verif.Lemmas.Reversible
import Verif.Props.Reverse
import Mathlib.Data.Fintype.Basic
import Mathlib.Data.List.OfFn
import Mathlib.Data.List.GetD

/-! # C85: which reversible functions of the levels the gates x, cx and toffoli compute

Classical calls send basis states to basis states, one to one (`C71_classical_bijection`). Here is which
one-to-one functions they give: all of them if two registers or more exist and one of them has an even dimension;
exactly the even permutations if all dimensions are odd; only the cyclic shifts on a single register. -/

namespace QuDiet
open Spec

/-! ### Specification -/

/-- The lists of levels that registers of dimensions `dims` can have. -/
abbrev Levels (dims : List Nat) := {s : List Nat // s ∈ states dims}

section
variable {R : Type} [CommRing R] [StarRing R] [DecidableEq R] [UnitaryCheck R]

/-- `ks` are calls of `x`, `cx` and `toffoli`, with registers that exist, and none controls its own target. -/
def Reversible (dims : List Nat) (ks : List (Call R)) : Prop :=
  ∀ k ∈ ks, k.Valid dims ∧ k.Classical ∧ k.Proper

/-- The circuit of the calls `ks`, started in any levels `s` and measured, has the one outcome `σ s`, with
amplitude one. -/
def Computes (N : Numerics R) (B : Backend R) (dims : List Nat) (ks : List (Call R)) (σ : Levels dims → Levels dims) :
    Prop :=
  ∀ s : Levels dims, script N B (.list (dims.map Int.ofNat)) (asInit s.1) (some ⟨dims, .state, .amplitude⟩)
    (ks ++ [.measureAll]) = .ok [(.tup (σ s).1, 1)]

/-! ### From the model to permutations of level vectors -/

namespace Rev

/-- The dimension of register `i`. -/
abbrev dim (dims : List Nat) (i : Fin dims.length) : ℕ := dims[i]

/-- The levels of a vector, as a list. -/
def toList {dims : List Nat} (u : V (dim dims)) : List Nat := List.ofFn fun i => (u i).val

theorem toList_fits {dims : List Nat} (u : V (dim dims)) : Fits dims (toList u) := by
  refine ⟨by simp [toList], ?_⟩
  intro i h h'
  simp only [toList, List.getElem_ofFn]
  exact (u ⟨i, h'⟩).isLt

theorem toList_getD {dims : List Nat} (u : V (dim dims)) (i : Fin dims.length) : (toList u).getD i 0 = (u i).val := by
  have : i.val < (toList u).length := by simp [toList]
  rw [List.getD_eq_getElem _ _ this]
  simp [toList]

theorem dims_getD {dims : List Nat} (i : Fin dims.length) : dims.getD i 0 = dim dims i := by
  rw [List.getD_eq_getElem _ _ i.isLt]; rfl

/-- Level vectors and lists of levels. -/
def listing (dims : List Nat) : V (dim dims) ≃ Levels dims where
  toFun u := ⟨toList u, mem_states.2 (toList_fits u)⟩
  invFun s i := ⟨s.1.getD i 0, by
    have h := mem_states.1 s.2
    rw [List.getD_eq_getElem _ _ (by rw [h.1]; exact i.isLt)]
    exact h.2 _ _ _⟩
  left_inv u := by funext i; exact Fin.ext (toList_getD u i)
  right_inv s := by
    have h := mem_states.1 s.2
    apply Subtype.ext
    apply List.ext_getElem
    · simp [toList, h.1]
    · intro i h1 h2
      simp [toList, h2]

theorem toList_inj {dims : List Nat} {u v : V (dim dims)} (h : toList u = toList v) : u = v :=
  (listing dims).injective (Subtype.ext h)

variable {dims : List Nat} [∀ i, NeZero (dim dims i)]

/-- The increment as a level. -/
def res (t : Fin dims.length) (p : Int) : Fin (dim dims t) :=
  ⟨(p % dim dims t).toNat, by
    have h0 : (0 : Int) < dim dims t := by exact_mod_cast Nat.pos_of_ne_zero (NeZero.ne (dim dims t))
    have := Int.emod_lt_of_pos p h0
    have := Int.emod_nonneg p h0.ne'
    omega⟩

theorem res_val (t : Fin dims.length) (p : Fin (dim dims t)) : res t (p.val : Int) = p := by
  apply Fin.ext
  have : ((p.val : Int) % (dim dims t : Int)) = p.val :=
    Int.emod_eq_of_lt (by omega) (by exact_mod_cast p.isLt)
  simp only [res]
  rw [this]; rfl

theorem toList_add (t : Fin dims.length) (p : Int) (u : V (dim dims)) :
    toList (add t (res t p) u) = bump dims t p (toList u) := by
  apply List.ext_getElem
  · simp [toList, bump]
  · intro i h1 h2
    have hi : i < dims.length := by simpa [toList] using h1
    simp only [bump, List.getElem_set, toList_getD, dims_getD]
    by_cases e : t.val = i
    · have e' : (⟨i, hi⟩ : Fin dims.length) = t := Fin.ext e.symm
      rw [if_pos e]
      subst e
      simp only [toList, List.getElem_ofFn]
      rw [show (⟨t.val, hi⟩ : Fin dims.length) = t from rfl, add_same, Fin.val_add]
      have h0 : (dim dims t : Int) ≠ 0 := by exact_mod_cast NeZero.ne (dim dims t)
      have : (((u t).val + (res t p).val) % dim dims t : ℕ) = ((((u t).val : Int) + p) % (dim dims t : Int)).toNat := by
        have e1 : ((res t p).val : Int) = p % dim dims t := by
          simp only [res]
          exact Int.toNat_of_nonneg (Int.emod_nonneg p h0)
        have e2 : (((u t).val + (res t p).val : ℕ) : Int) % dim dims t = (((u t).val : Int) + p) % dim dims t := by
          push_cast
          rw [e1, Int.add_emod_emod]
        omega
      exact this
    · rw [if_neg e]
      simp only [toList, List.getElem_ofFn]
      rw [add_ne (fun h => e (by rw [← h]))]

theorem atTop_toList (c : Fin dims.length) (u : V (dim dims)) :
    atTop dims c (toList u) ↔ (u c).val + 1 = dim dims c := by
  rw [atTop, toList_getD, dims_getD]

/-- A controlled increment is a permutation of the vectors. -/
theorem toList_when (cs : List Nat) (hcs : ∀ c ∈ cs, c < dims.length) (t : Fin dims.length) (ht : t.val ∉ cs) (p : Int) :
    ∃ hP, ∀ u : V (dim dims),
      toList (when (fun u => ∀ c ∈ cs, atTop dims c (toList u)) t hP (res t p) u) = controlled dims cs t p (toList u) := by
  refine ⟨?_, ?_⟩
  · intro q u
    refine forall₂_congr fun c hc => ?_
    have := atTop_toList ⟨c, hcs c hc⟩ (add t q u)
    have h2 := atTop_toList ⟨c, hcs c hc⟩ u
    rw [add_ne (by rintro rfl; exact ht hc)] at this
    exact this.trans h2.symm
  · intro u
    simp only [when, Equiv.coe_fn_mk, controlled]
    split
    · exact toList_add t p u
    · rfl

/-- The call `k` is a permutation of the vectors, even if all dimensions are odd. -/
theorem call_perm {k : Call R} (hv : k.Valid dims) (hc : k.Classical) (hp : k.Proper) :
    ∃ ρ : Equiv.Perm (V (dim dims)), (∀ u, toList (ρ u) = classicalStep dims k (toList u)) ∧
      ((∀ d ∈ dims, Odd d) → Equiv.Perm.sign ρ = 1) := by
  have hr := classical_regs hv hc
  have hcs : ∀ c ∈ k.controls.map Int.toNat, c < dims.length := by
    intro c hc
    obtain ⟨c', h', rfl⟩ := List.mem_map.1 hc
    have := hr.2 c' h'
    unfold InRange at this
    omega
  obtain ⟨hP, h⟩ := toList_when (k.controls.map Int.toNat) hcs ⟨k.target.toNat, target_lt hv hc⟩
    (fun hm => hp ((mem_toNat hr.2 hr.1).1 hm)) k.inc
  refine ⟨_, fun u => (h u).trans (by rw [classicalStep_eq dims hc]), fun ho => ?_⟩
  exact sign_when _ _ _ _ (ho _ (List.getElem_mem _))

/-- So are any calls. -/
theorem calls_perm {ks : List (Call R)} (h : Reversible dims ks) :
    ∃ ρ : Equiv.Perm (V (dim dims)), (∀ u, toList (ρ u) = ks.foldl (fun s k => classicalStep dims k s) (toList u)) ∧
      ((∀ d ∈ dims, Odd d) → Equiv.Perm.sign ρ = 1) := by
  induction ks with
  | nil => exact ⟨1, fun u => rfl, fun _ => Equiv.Perm.sign_one⟩
  | cons k ks ih =>
    obtain ⟨hv, hc, hp⟩ := h k (by simp)
    obtain ⟨ρ, h1, h2⟩ := call_perm hv hc hp
    obtain ⟨ρ', h1', h2'⟩ := ih fun k hk => h k (by simp [hk])
    refine ⟨ρ' * ρ, ?_, ?_⟩
    · intro u
      rw [Equiv.Perm.mul_apply, h1', h1]; rfl
    · intro ho
      rw [Equiv.Perm.sign_mul, h2 ho, h2' ho, one_mul]

/-- The permutations that some calls compute. -/
def H (R : Type) [CommRing R] [StarRing R] [DecidableEq R] [UnitaryCheck R] (dims : List Nat) :
    Set (Equiv.Perm (V (dim dims))) :=
  {ρ | ∃ ks : List (Call R), Reversible dims ks ∧
    ∀ u, toList (ρ u) = ks.foldl (fun s k => classicalStep dims k s) (toList u)}

omit [∀ i, NeZero (dim dims i)] in
theorem one_mem_H : (1 : Equiv.Perm (V (dim dims))) ∈ H R dims := ⟨[], by simp [Reversible], fun _ => rfl⟩

omit [∀ i, NeZero (dim dims i)] in
theorem mul_mem_H {ρ ρ' : Equiv.Perm (V (dim dims))} (h : ρ ∈ H R dims) (h' : ρ' ∈ H R dims) : ρ * ρ' ∈ H R dims := by
  obtain ⟨ks, h1, h2⟩ := h
  obtain ⟨ks', h1', h2'⟩ := h'
  refine ⟨ks' ++ ks, ?_, ?_⟩
  · intro k hk
    rcases List.mem_append.1 hk with hk | hk
    · exact h1' k hk
    · exact h1 k hk
  · intro u
    rw [Equiv.Perm.mul_apply, h2, h2', List.foldl_append]

omit [∀ i, NeZero (dim dims i)] in
theorem pow_mem_H {ρ : Equiv.Perm (V (dim dims))} (h : ρ ∈ H R dims) (n : ℕ) : ρ ^ n ∈ H R dims := by
  induction n with
  | zero => exact one_mem_H
  | succ n ih => rw [pow_succ]; exact mul_mem_H ih h

/-- They are a group. -/
def G (R : Type) [CommRing R] [StarRing R] [DecidableEq R] [UnitaryCheck R] (dims : List Nat) :
    Subgroup (Equiv.Perm (V (dim dims))) where
  carrier := H R dims
  one_mem' := one_mem_H
  mul_mem' := mul_mem_H
  inv_mem' {ρ} h := by
    have : ρ⁻¹ = ρ ^ (orderOf ρ - 1) := by
      rw [inv_eq_iff_mul_eq_one, ← pow_succ', Nat.sub_add_cancel (orderOf_pos ρ), pow_orderOf_eq_one]
    rw [this]
    exact pow_mem_H h _

theorem rot_mem (t : Fin dims.length) (p : Fin (dim dims t)) : rot t p ∈ G R dims := by
  refine ⟨[.x t.val none p.val], ?_, ?_⟩
  · intro k hk
    rw [List.mem_singleton.1 hk]
    refine ⟨⟨⟨by omega, by exact_mod_cast t.isLt⟩, Or.inl rfl, ?_⟩, trivial, by simp [Call.Proper, Call.controls]⟩
    have e : dims.getD (Int.toNat (t.val : Int)) 0 = dim dims t := by rw [Int.toNat_natCast]; exact dims_getD t
    rw [e]
    have := p.isLt
    constructor <;> omega
  · intro u
    rw [rot_apply]
    conv_lhs => rw [← res_val t p]
    rw [toList_add]
    rfl

/-- The registers other than `t`. -/
def others (t : Fin dims.length) : List Int := ((List.finRange dims.length).filter (· ≠ t)).map fun c => (c.val : Int)

omit [∀ i, NeZero (dim dims i)] in
theorem mem_others {t : Fin dims.length} {c : Int} : c ∈ others t ↔ ∃ e : Fin dims.length, e ≠ t ∧ (e.val : Int) = c := by
  simp [others]

omit [∀ i, NeZero (dim dims i)] in
theorem others_regs (t : Fin dims.length) : ∀ c ∈ others t, InRange dims c := by
  intro c hc
  obtain ⟨e, _, rfl⟩ := mem_others.1 hc
  exact ⟨by omega, by exact_mod_cast e.isLt⟩

omit [∀ i, NeZero (dim dims i)] in
theorem target_not_mem (t : Fin dims.length) : (t.val : Int) ∉ others t := by
  intro h
  obtain ⟨e, he, h⟩ := mem_others.1 h
  exact he (Fin.ext (by exact_mod_cast h))

omit [∀ i, NeZero (dim dims i)] in
theorem others_span (t : Fin dims.length) (h3 : dims.length ≠ 2) (h2 : 2 ≤ dims.length) :
    (spanOf (others t ++ [(t.val : Int)])).2 ≠ 2 := by
  have hall : ∀ c : Fin dims.length, (c.val : Int) ∈ others t ++ [(t.val : Int)] := by
    intro c
    by_cases h : c = t
    · subst h; simp
    · exact List.mem_append_left _ (mem_others.2 ⟨c, h, rfl⟩)
  have h0 := (foldl_min_le (others t ++ [(t.val : Int)]) ((others t ++ [(t.val : Int)]).headD 0)).2 _ (hall ⟨0, by omega⟩)
  have hm := (foldl_max_ge (others t ++ [(t.val : Int)]) ((others t ++ [(t.val : Int)]).headD 0)).2 _ (hall ⟨2, by omega⟩)
  simp only [spanOf] 
  simp only [Nat.cast_zero, Nat.cast_ofNat] at h0 hm
  omega

/-- The vector of the top levels. -/
def top (dims : List Nat) [∀ i, NeZero (dim dims i)] : V (dim dims) := fun i =>
  ⟨dim dims i - 1, Nat.sub_lt (Nat.pos_of_ne_zero (NeZero.ne _)) one_pos⟩

theorem top_ctl_mem (h2 : 2 ≤ dims.length) (t : Fin dims.length) (p : Fin (dim dims t)) :
    ctl (top dims) t p ∈ G R dims := by
  have hc : ∀ u : V (dim dims), toList (ctl (top dims) t p u) =
      controlled dims ((others t).map Int.toNat) t.val p.val (toList u) := by
    intro u
    have hiff : (∀ c ∈ (others t).map Int.toNat, atTop dims c (toList u)) ↔ Agree (top dims) t u := by
      constructor
      · intro h c hc
        have := (atTop_toList c u).1 (h c.val (List.mem_map.2 ⟨c.val, mem_others.2 ⟨c, hc, rfl⟩, rfl⟩))
        apply Fin.ext
        simp only [top]
        omega
      · intro h c hc
        obtain ⟨c', h', rfl⟩ := List.mem_map.1 hc
        obtain ⟨e, he, rfl⟩ := mem_others.1 h'
        refine (atTop_toList e u).2 ?_
        rw [h e he]
        simp only [top]
        have := Nat.pos_of_ne_zero (NeZero.ne (dim dims e))
        omega
    rw [controlled]
    by_cases ha : Agree (top dims) t u
    · rw [ctl_pos ha, if_pos (hiff.2 ha)]
      conv_lhs => rw [← res_val t p]
      rw [toList_add]
    · rw [ctl_neg ha, if_neg (fun h => ha (hiff.1 h))]
  by_cases h3 : dims.length = 2
  · obtain ⟨c, hct⟩ : ∃ c : Fin dims.length, c ≠ t := by
      have : Nontrivial (Fin dims.length) := Fin.nontrivial_iff_two_le.2 h2
      exact exists_ne t
    refine ⟨[.cx c.val t.val p.val], ?_, ?_⟩
    · intro k hk
      rw [List.mem_singleton.1 hk]
      refine ⟨⟨⟨by omega, by exact_mod_cast c.isLt⟩, ⟨by omega, by exact_mod_cast t.isLt⟩⟩, trivial, ?_⟩
      simp only [Call.Proper, Call.target, Call.controls, List.mem_singleton]
      intro h
      exact hct (Fin.ext (by omega))
    · intro u
      rw [hc]
      have e : ∀ x, x ∈ (others t).map Int.toNat ↔ x ∈ [c.val] := by
        intro x
        rw [List.mem_map, List.mem_singleton]
        constructor
        · rintro ⟨y, hy, rfl⟩
          obtain ⟨e, he, rfl⟩ := mem_others.1 hy
          have h1 : e.val ≠ t.val := fun h => he (Fin.ext h)
          have h2 : c.val ≠ t.val := fun h => hct (Fin.ext h)
          have := e.isLt
          have := c.isLt
          have := t.isLt
          omega
        · rintro rfl
          exact ⟨c.val, mem_others.2 ⟨c, hct, rfl⟩, rfl⟩
      simp only [controlled, e]
      rfl
  · refine ⟨[.toffoli (others t) t.val p.val], ?_, ?_⟩
    · intro k hk
      rw [List.mem_singleton.1 hk]
      exact ⟨⟨⟨by omega, by exact_mod_cast t.isLt⟩, others_regs t, target_not_mem t, others_span t h3 h2⟩, trivial,
        target_not_mem t⟩
    · intro u
      rw [hc]
      rfl

theorem all_ctl_mem (h2 : 2 ≤ dims.length) (w : V (dim dims)) (t : Fin dims.length) (p : Fin (dim dims t)) :
    ctl w t p ∈ G R dims := ctl_mem rot_mem (top_ctl_mem h2 t p) w

end Rev

/-! ### C85 -/

open Rev

variable {N : Numerics R}

theorem script_reversible (hN : N.Sized) {B : Backend R} (hB : B.Lawful) [Nontrivial R] {dims : List Nat} (hne : dims ≠ [])
    (h2 : ∀ d ∈ dims, 2 ≤ d) {ks : List (Call R)} (hks : Reversible dims ks) {s : List Nat} (hs : Fits dims s) :
    script N B (.list (dims.map Int.ofNat)) (asInit s) (some ⟨dims, .state, .amplitude⟩) (ks ++ [.measureAll]) =
      .ok [(.tup (ks.foldl (fun s k => classicalStep dims k s) s), 1)] := by
  rw [script_valid hN hB hne (validStart_asInit h2 hs) (by simp) (fun k hk => (hks k hk).1) []]
  have := classical_fold (N := N) ks (fun k hk => (hks k hk).1) (fun k hk => (hks k hk).2.1) hs
  unfold stateAfter
  rw [startLevels_asInit hs, this.2]
  simp only [QuDiet.listing, outcome_basis (R := R) this.1]
  rfl

/-- What calls compute is what they do to the level vectors. -/
theorem computes_iff (hN : N.Sized) {B : Backend R} (hB : B.Lawful) [Nontrivial R] {dims : List Nat} (hne : dims ≠ [])
    (h2 : ∀ d ∈ dims, 2 ≤ d) {ks : List (Call R)} (hks : Reversible dims ks) (σ : Levels dims → Levels dims) :
    Computes N B dims ks σ ↔ ∀ s : Levels dims, ks.foldl (fun s k => classicalStep dims k s) s.1 = (σ s).1 := by
  refine forall_congr' fun s => ?_
  rw [script_reversible hN hB hne h2 hks (mem_states.1 s.2)]
  constructor
  · intro h
    simpa using h
  · intro h
    rw [h]

omit [CommRing R] [StarRing R] [DecidableEq R] [UnitaryCheck R] in
theorem Rev.neZero {dims : List Nat} (h2 : ∀ d ∈ dims, 2 ≤ d) (i : Fin dims.length) : NeZero (dim dims i) :=
  ⟨by have := h2 _ (List.getElem_mem i.isLt); intro h; simp only [dim, Fin.getElem_fin] at h; omega⟩

theorem computes_of_mem (hN : N.Sized) {B : Backend R} (hB : B.Lawful) [Nontrivial R] {dims : List Nat} (hne : dims ≠ [])
    (h2 : ∀ d ∈ dims, 2 ≤ d) [∀ i, NeZero (dim dims i)] (σ : Equiv.Perm (Levels dims))
    (h : (Rev.listing dims).symm.permCongr σ ∈ G R dims) :
    ∃ ks : List (Call R), Reversible dims ks ∧ Computes N B dims ks σ := by
  obtain ⟨ks, h1, h3⟩ := h
  refine ⟨ks, h1, (computes_iff hN hB hne h2 h1 σ).2 fun s => ?_⟩
  have := h3 ((Rev.listing dims).symm s)
  rw [Equiv.permCongr_apply] at this
  have e : ∀ s : Levels dims, toList ((Rev.listing dims).symm s) = s.1 := fun s =>
    congrArg Subtype.val ((Rev.listing dims).apply_symm_apply s)
  rw [e, e] at this
  simpa using this.symm

/-- **C85.** With two registers or more, and at least one of even dimension: for every one-to-one function of the
levels there is a circuit of `x`, `cx` and `toffoli` calls whose run returns exactly its value, whatever levels it
starts in. -/
theorem C85_every_function (hN : N.Sized) {B : Backend R} (hB : B.Lawful) [Nontrivial R] {dims : List Nat}
    (hlen : 2 ≤ dims.length) (h2 : ∀ d ∈ dims, 2 ≤ d) (heven : ∃ d ∈ dims, Even d) (σ : Equiv.Perm (Levels dims)) :
    ∃ ks : List (Call R), Reversible dims ks ∧ Computes N B dims ks σ := by
  have := Rev.neZero h2
  have hnt : Nontrivial (Fin dims.length) := Fin.nontrivial_iff_two_le.2 hlen
  have hd : ∀ i, 2 ≤ dim dims i := fun i => h2 _ (List.getElem_mem i.isLt)
  apply computes_of_mem hN hB (by rintro rfl; simp at hlen) h2
  obtain ⟨d, hd', he⟩ := heven
  obtain ⟨t, ht, rfl⟩ := List.getElem_of_mem hd'
  exact odd_all hd (all_ctl_mem hlen) (all_ctl_mem hlen (top dims) ⟨t, ht⟩ 1) (sign_ctl _ _ he) _

/-- **C85.** If all dimensions are odd (two registers or more), the circuits of these calls compute the even
permutations of the lists of levels and no others. -/
theorem C85_odd_dimensions (hN : N.Sized) {B : Backend R} (hB : B.Lawful) [Nontrivial R] {dims : List Nat}
    (hlen : 2 ≤ dims.length) (h2 : ∀ d ∈ dims, 2 ≤ d) (hodd : ∀ d ∈ dims, Odd d) (σ : Equiv.Perm (Levels dims)) :
    (∃ ks : List (Call R), Reversible dims ks ∧ Computes N B dims ks σ) ↔ Equiv.Perm.sign σ = 1 := by
  have := Rev.neZero h2
  have hnt : Nontrivial (Fin dims.length) := Fin.nontrivial_iff_two_le.2 hlen
  have hd : ∀ i, 2 ≤ dim dims i := fun i => h2 _ (List.getElem_mem i.isLt)
  have hne : dims ≠ [] := by rintro rfl; simp at hlen
  constructor
  · rintro ⟨ks, h1, h3⟩
    rw [computes_iff hN hB hne h2 h1] at h3
    obtain ⟨ρ, h4, h5⟩ := calls_perm h1
    have : σ = (Rev.listing dims).permCongr ρ := by
      ext1 s
      apply Subtype.ext
      rw [Equiv.permCongr_apply, ← h3 s]
      have := h4 ((Rev.listing dims).symm s)
      rw [show toList ((Rev.listing dims).symm s) = s.1 from
        congrArg Subtype.val ((Rev.listing dims).apply_symm_apply s)] at this
      exact this.symm
    rw [this, Equiv.Perm.sign_permCongr, h5 hodd]
  · intro hs
    apply computes_of_mem hN hB hne h2
    exact even_all hd (all_ctl_mem hlen) _ (by rw [Equiv.Perm.sign_permCongr]; exact hs)

/-- **C85.** In particular, if all dimensions are odd, no circuit of these calls exchanges two lists of levels and
leaves all others as they are. -/
theorem C85_no_exchange (hN : N.Sized) {B : Backend R} (hB : B.Lawful) [Nontrivial R] {dims : List Nat}
    (hlen : 2 ≤ dims.length) (h2 : ∀ d ∈ dims, 2 ≤ d) (hodd : ∀ d ∈ dims, Odd d) {a b : List Nat} (ha : Fits dims a)
    (hb : Fits dims b) (hab : a ≠ b) {ks : List (Call R)} (hks : Reversible dims ks) :
    ¬ ∀ s, Fits dims s → script N B (.list (dims.map Int.ofNat)) (asInit s) (some ⟨dims, .state, .amplitude⟩)
      (ks ++ [.measureAll]) = .ok [(.tup (if s = a then b else if s = b then a else s), 1)] := by
  intro h
  have hσ : Computes N B dims ks (Equiv.swap (⟨a, mem_states.2 ha⟩ : Levels dims) ⟨b, mem_states.2 hb⟩) := by
    intro s
    rw [h s.1 (mem_states.1 s.2), Equiv.swap_apply_def]
    have e1 : s = ⟨a, mem_states.2 ha⟩ ↔ s.1 = a := Subtype.ext_iff
    have e2 : s = ⟨b, mem_states.2 hb⟩ ↔ s.1 = b := Subtype.ext_iff
    simp only [e1, e2]
    split <;> [rfl; split <;> rfl]
  have := (C85_odd_dimensions hN hB hlen h2 hodd _).1 ⟨ks, hks, hσ⟩
  rw [Equiv.Perm.sign_swap (fun h => hab (congrArg Subtype.val h))] at this
  exact absurd this (by decide)

/-- **C85.** On a single register these calls compute the cyclic shifts and no other function. -/
theorem C85_one_register (hN : N.Sized) {B : Backend R} (hB : B.Lawful) [Nontrivial R] {d : Nat} (h2 : 2 ≤ d)
    (σ : Equiv.Perm (Levels [d])) :
    (∃ ks : List (Call R), Reversible [d] ks ∧ Computes N B [d] ks σ) ↔
      ∃ p : Nat, ∀ s : Levels [d], (σ s).1 = [(s.1.getD 0 0 + p) % d] := by
  have h2' : ∀ e ∈ [d], 2 ≤ e := by simpa using h2
  constructor
  · rintro ⟨ks, h1, h3⟩
    rw [computes_iff hN hB (by simp) h2' h1] at h3
    have key : ∃ p : Nat, ∀ k, ks.foldl (fun s k => classicalStep [d] k s) [k % d] = [(k + p) % d] := by
      clear h3
      induction ks with
      | nil => exact ⟨0, fun k => rfl⟩
      | cons c ks ih =>
        obtain ⟨p, hp⟩ := ih fun k hk => h1 k (by simp [hk])
        obtain ⟨hv, hc, hpr⟩ := h1 c (by simp)
        have hr := classical_regs hv hc
        have ht : c.target = 0 := by
          have := hr.1
          simp only [InRange, List.length_singleton] at this
          omega
        have hcs : c.controls = [] := by
          apply List.eq_nil_iff_forall_not_mem.2
          intro x hx
          have := hr.2 x hx
          simp only [InRange, List.length_singleton] at this
          have : x = c.target := by omega
          exact hpr (this ▸ hx)
        refine ⟨(c.inc % d).toNat + p, fun k => ?_⟩
        have hstep : classicalStep [d] c [k % d] = [(k + (c.inc % d).toNat) % d] := by
          rw [classicalStep_eq [d] hc, hcs, ht]
          have h0 : (d : Int) ≠ 0 := by omega
          have e : (((c.inc % d).toNat : ℕ) : Int) = c.inc % d := Int.toNat_of_nonneg (Int.emod_nonneg _ h0)
          have e2 : (((k % d : ℕ) : Int) + c.inc) % d = (((k + (c.inc % d).toNat) % d : ℕ) : Int) := by
            push_cast
            rw [Int.emod_add_emod, e, Int.add_emod_emod]
          have e3 := congrArg Int.toNat e2
          rw [Int.toNat_natCast] at e3
          rw [← e3]
          simp [controlled, bump]
        rw [List.foldl_cons, hstep, hp]
        congr 2
        omega
    obtain ⟨p, hp⟩ := key
    refine ⟨p, fun s => ?_⟩
    obtain ⟨l, hl⟩ : ∃ l, s.1 = [l] := List.length_eq_one_iff.1 (mem_states.1 s.2).1
    have hlt : l < d := by
      have := (mem_states.1 s.2).2 0 (by simp [hl]) (by simp)
      simpa [hl] using this
    rw [← h3 s, hl]
    have := hp l
    rw [Nat.mod_eq_of_lt hlt] at this
    exact this
  · rintro ⟨p, hp⟩
    have hr : Reversible (R := R) [d] [.x 0 none (p % d : ℕ)] := by
      intro k hk
      rw [List.mem_singleton.1 hk]
      refine ⟨⟨by simp [InRange], Or.inl rfl, ?_⟩, trivial, by simp [Call.Proper, Call.controls]⟩
      have := Nat.mod_lt p (show d > 0 by omega)
      simp only [Int.toNat_zero, List.getD_cons_zero]
      omega
    refine ⟨_, hr, (computes_iff hN hB (by simp) h2' hr σ).2 fun s => ?_⟩
    obtain ⟨l, hl⟩ : ∃ l, s.1 = [l] := List.length_eq_one_iff.1 (mem_states.1 s.2).1
    rw [hp s, hl]
    have e : (((l : Int) + (p : Int) % d) % d) = (((l + p) % d : ℕ) : Int) := by push_cast; rw [Int.add_emod_emod]
    have e3 := congrArg Int.toNat e
    rw [Int.toNat_natCast] at e3
    rw [List.getD_cons_zero, ← e3]
    simp [classicalStep, bump]

end

/-! ### The hypotheses hold in concrete cases -/

/-- A qutrit and a qubit: some circuit exchanges `|01>` and `|20>` and leaves the other four states. -/
example [UnitaryCheck ℤ] {B : Backend ℤ} (hB : B.Lawful) : ∃ ks : List (Call ℤ), Reversible [3, 2] ks ∧
    Computes sampleN B [3, 2] ks (Equiv.swap ⟨[0, 1], by decide⟩ ⟨[2, 0], by decide⟩) :=
  C85_every_function sampleN_sized hB (by simp) (by simp) ⟨2, by simp, by decide⟩ _

/-- Two qutrits: no circuit does. -/
example [UnitaryCheck ℤ] {B : Backend ℤ} (hB : B.Lawful) {ks : List (Call ℤ)} (hks : Reversible [3, 3] ks) :=
  C85_no_exchange sampleN_sized hB (by simp) (by simp) (by simp; decide) (a := [0, 1]) (b := [2, 0])
    (mem_states.1 (by decide)) (mem_states.1 (by decide)) (by decide) hks

/-- Two qutrits: some circuit turns the three states `|00>`, `|01>`, `|22>` round and leaves the other six. -/
example [UnitaryCheck ℤ] {B : Backend ℤ} (hB : B.Lawful) : ∃ ks : List (Call ℤ), Reversible [3, 3] ks ∧
    Computes sampleN B [3, 3] ks (Equiv.swap (⟨[0, 0], by decide⟩ : Levels [3, 3]) ⟨[0, 1], by decide⟩ *
      Equiv.swap (⟨[0, 1], by decide⟩ : Levels [3, 3]) ⟨[2, 2], by decide⟩ : Equiv.Perm (Levels [3, 3])) := by
  refine (C85_odd_dimensions sampleN_sized hB (by simp) (by simp) (by simp; decide) _).2 ?_
  rw [Equiv.Perm.sign_mul, Equiv.Perm.sign_swap (by decide), Equiv.Perm.sign_swap (by decide)]
  rfl

/-- One qutrit: no circuit exchanges `|0>` and `|1>`. -/
example [UnitaryCheck ℤ] {B : Backend ℤ} (hB : B.Lawful) : ¬ ∃ ks : List (Call ℤ), Reversible [3] ks ∧
    Computes sampleN B [3] ks (Equiv.swap ⟨[0], by decide⟩ ⟨[1], by decide⟩) := by
  rw [C85_one_register sampleN_sized hB (by simp)]
  rintro ⟨p, hp⟩
  have h0 := hp ⟨[0], by decide⟩
  have h2 := hp ⟨[2], by decide⟩
  rw [Equiv.swap_apply_left] at h0
  rw [Equiv.swap_apply_of_ne_of_ne (by decide) (by decide)] at h2
  simp at h0 h2
  omega

end QuDiet
