import Verif.Lemmas.Layers

/-! # The matrices of the gate objects -/

namespace QuDiet
open Spec

variable {R : Type} [CommRing R]

/-! ### Level arithmetic -/

theorem emod_toNat_lt (a : Int) {d : Nat} (hd : 0 < d) : (a % (d : Int)).toNat < d := by
  have h1 := Int.emod_nonneg a (b := (d : Int)) (by omega)
  have h2 := Int.emod_lt_of_pos a (b := (d : Int)) (by omega)
  omega

theorem fits_set {ds s : List Nat} (h : Fits ds s) (q k : Nat) (hk : k < ds.getD q 0) :
    Fits ds (s.set q k) := by
  refine ⟨by simp [h.1], ?_⟩
  intro i h1 h2
  rw [List.getElem_set]
  split
  · subst_vars
    simpa [List.getD_eq_getElem?_getD, h2] using hk
  · exact h.2 i (by simpa using h1) h2

theorem fits_getD_lt {ds s : List Nat} (h : Fits ds s) (q : Nat) (hq : q < ds.length) :
    s.getD q 0 < ds.getD q 0 := by
  have h1 : q < s.length := by rw [h.1]; exact hq
  simpa [List.getD_eq_getElem?_getD, h1, hq] using h.2 q h1 hq

theorem fits_bump {ds s : List Nat} (h : Fits ds s) (q : Nat) (hq : q < ds.length) (p : Int) :
    Fits ds (bump ds q p s) := by
  apply fits_set h
  apply emod_toNat_lt
  have := fits_getD_lt h q hq
  omega

theorem fits_controlled {ds s : List Nat} (h : Fits ds s) (cs : List Nat) (t : Nat)
    (ht : t < ds.length) (p : Int) : Fits ds (controlled ds cs t p s) := by
  unfold controlled
  split
  · exact fits_bump h t ht p
  · exact h

theorem move_congr {dims : List Nat} {f g : List Nat → List Nat}
    (h : ∀ s, Fits dims s → f s = g s) (ψ : State R) : move dims f ψ = move dims g ψ := by
  funext s
  unfold move
  rw [List.filter_congr]
  intro t ht
  rw [h t (mem_states.1 ht)]

/-- Split a level list at the block `ds`. -/
theorem fits_split3 {pre ds post s : List Nat} (h : Fits (pre ++ ds ++ post) s) :
    ∃ s1 s2 s3, s = s1 ++ s2 ++ s3 ∧ Fits pre s1 ∧ Fits ds s2 ∧ Fits post s3 := by
  obtain ⟨h12, h3⟩ := h.split
  obtain ⟨h1, h2⟩ := h12.split
  refine ⟨_, _, _, ?_, h1, h2, h3⟩
  rw [List.take_append_drop, List.take_append_drop]

theorem inBlock_append {s1 s2 s3 : List Nat} {lb len : Nat} (h1 : s1.length = lb) (h2 : s2.length = len)
    (g : List Nat → List Nat) : inBlock lb len g (s1 ++ s2 ++ s3) = s1 ++ g s2 ++ s3 := by
  subst h1 h2
  have h1 : (s1 ++ s2 ++ s3).take s1.length = s1 := by rw [List.append_assoc, List.take_left]
  have h2 : ((s1 ++ s2 ++ s3).drop s1.length).take s2.length = s2 := by
    rw [List.append_assoc, List.drop_left, List.take_left]
  have h3 : (s1 ++ s2 ++ s3).drop (s1.length + s2.length) = s3 := by
    rw [← List.length_append, List.drop_left]
  rw [inBlock, h1, h2, h3]

theorem getD_mid {a b c : List Nat} {x q : Nat} (ha : a.length = x) (h1 : x ≤ q) (h2 : q < x + b.length) :
    (a ++ b ++ c).getD q 0 = b.getD (q - x) 0 := by
  subst ha
  rw [List.append_assoc, List.getD_eq_getElem?_getD, List.getElem?_append_right h1,
    List.getElem?_append_left (by omega), List.getD_eq_getElem?_getD]

theorem set_mid {a b c : List Nat} {x q k : Nat} (ha : a.length = x) (h1 : x ≤ q) (h2 : q < x + b.length) :
    (a ++ b ++ c).set q k = a ++ b.set (q - x) k ++ c := by
  subst ha
  rw [List.append_assoc, List.set_append_right _ _ h1, List.set_append_left _ _ (by omega),
    List.append_assoc]

/-- A controlled increment inside a block is the controlled increment of the whole list. -/
theorem inBlock_controlled {pre ds post : List Nat} {s : List Nat} (hs : Fits (pre ++ ds ++ post) s)
    (cs : List Nat) (t : Nat) (p : Int)
    (hcs : ∀ c ∈ cs, pre.length ≤ c ∧ c < pre.length + ds.length)
    (ht : pre.length ≤ t ∧ t < pre.length + ds.length) :
    inBlock pre.length ds.length (controlled ds (cs.map (· - pre.length)) (t - pre.length) p) s
      = controlled (pre ++ ds ++ post) cs t p s := by
  obtain ⟨s1, s2, s3, rfl, f1, f2, f3⟩ := fits_split3 hs
  rw [inBlock_append f1.1 f2.1]
  have htop : ∀ c ∈ cs, atTop (pre ++ ds ++ post) c (s1 ++ s2 ++ s3) ↔ atTop ds (c - pre.length) s2 := by
    intro c hc
    obtain ⟨h1, h2⟩ := hcs c hc
    unfold atTop
    rw [getD_mid f1.1 h1 (by rw [f2.1]; exact h2), getD_mid rfl h1 h2]
  unfold controlled
  have hall : (∀ c ∈ cs.map (· - pre.length), atTop ds c s2) ↔
      ∀ c ∈ cs, atTop (pre ++ ds ++ post) c (s1 ++ s2 ++ s3) := by
    simp only [List.mem_map, forall_exists_index, and_imp, forall_apply_eq_imp_iff₂]
    exact ⟨fun h c hc => (htop c hc).2 (h c hc), fun h c hc => (htop c hc).1 (h c hc)⟩
  by_cases h : ∀ c ∈ cs, atTop (pre ++ ds ++ post) c (s1 ++ s2 ++ s3)
  · rw [if_pos h, if_pos (hall.2 h)]
    unfold bump
    rw [getD_mid f1.1 ht.1 (by rw [f2.1]; exact ht.2), getD_mid rfl ht.1 ht.2,
      set_mid f1.1 ht.1 (by rw [f2.1]; exact ht.2)]
  · rw [if_neg h, if_neg (fun hc => h (hall.1 hc))]

theorem inBlock_bump {pre ds post : List Nat} {s : List Nat} (hs : Fits (pre ++ ds ++ post) s)
    (t : Nat) (p : Int) (ht : pre.length ≤ t ∧ t < pre.length + ds.length) :
    inBlock pre.length ds.length (bump ds (t - pre.length) p) s = bump (pre ++ ds ++ post) t p s := by
  have := inBlock_controlled hs [] t p (by simp) ht
  have e1 : ∀ ds' : List Nat, ∀ t', controlled ds' [] t' p = bump ds' t' p := by
    intro ds' t'; funext s'; simp [controlled]
  simpa only [List.map_nil, e1] using this

/-! ### X -/

/-- Entries of the increment by `p`. -/
def shiftEntry (d : Nat) (p : Int) : Nat → Nat → R := fun i j =>
  if (((j : Int) + p) % (d : Int)).toNat = i then 1 else 0

theorem pyIndex_ok {n : Nat} {i : Int} (h1 : -(n : Int) ≤ i) (h2 : i < n) :
    pyIndex n i = .ok (i % (n : Int)).toNat := by
  unfold pyIndex
  by_cases h : 0 ≤ i
  · rw [if_pos h, if_pos h2, Int.emod_eq_of_lt h h2]
  · rw [if_neg h, if_pos (by omega)]
    congr 2
    rw [← Int.add_emod_right, Int.emod_eq_of_lt (by omega) (by omega)]

theorem pyIndex_error {n : Nat} {i : Int} (h : i < -(n : Int) ∨ (n : Int) ≤ i) :
    pyIndex n i = .error .index := by
  unfold pyIndex
  by_cases h0 : 0 ≤ i
  · rw [if_pos h0, if_neg (by omega)]
  · rw [if_neg h0, if_neg (by omega)]

theorem pyGet_ok {α} {l : List α} {i : Int} (h1 : 0 ≤ i) (h2 : i < l.length) :
    pyGet l i = .ok (l[i.toNat]'(by omega)) := by
  unfold pyGet
  rw [pyIndex_ok (by omega) h2, Int.emod_eq_of_lt h1 h2]
  have : i.toNat < l.length := by omega
  simp [this]

theorem sub_mod_iff {d i j : Nat} (hi : i < d) (hj : j < d) (p : Int) :
    (i + d - j) % d = (p % (d : Int)).toNat ↔ (((j : Int) + p) % (d : Int)).toNat = i := by
  have hd : (0 : Int) < d := by omega
  have h1 := Int.emod_nonneg p (b := (d : Int)) (by omega)
  have h1' := Int.emod_lt_of_pos p hd
  have h2 := Int.emod_nonneg ((j : Int) + p) (b := (d : Int)) (by omega)
  have h2' := Int.emod_lt_of_pos ((j : Int) + p) hd
  have e : (((i + d - j) % d : Nat) : Int) = ((i : Int) - j) % d := by
    rw [Int.natCast_mod, Nat.cast_sub (by omega), Nat.cast_add, add_sub_right_comm, Int.add_emod_right]
  have a1 : ((i + d - j) % d = (p % (d : Int)).toNat) ↔ (((i + d - j) % d : Nat) : Int) = p % d := by omega
  have a2 : (((j : Int) + p) % (d : Int)).toNat = i ↔ ((j : Int) + p) % (d : Int) = i := by omega
  rw [a1, a2, e]
  have b2 : (i : Int) % d = i := Int.emod_eq_of_lt (by omega) (by omega)
  constructor
  · intro h
    conv_rhs => rw [← b2]
    rw [Int.emod_eq_emod_iff_emod_sub_eq_zero] at h ⊢
    have e2 : (j : Int) + p - i = - ((i : Int) - j - p) := by ring
    rw [e2]
    exact Int.emod_eq_zero_of_dvd ((Int.dvd_of_emod_eq_zero h).neg_right)
  · intro h
    rw [← b2] at h
    rw [Int.emod_eq_emod_iff_emod_sub_eq_zero] at h ⊢
    have e2 : (i : Int) - j - p = - ((j : Int) + p - i) := by ring
    rw [e2]
    exact Int.emod_eq_zero_of_dvd ((Int.dvd_of_emod_eq_zero h).neg_right)

theorem xMat_ok {d : Nat} {p : Int} (h1 : -(d : Int) ≤ p) (h2 : p < d) :
    ∃ M : Mat R, xMat d p = .ok M ∧ M.rows = d ∧ M.cols = d ∧
      ∀ i < d, ∀ j < d, M.e i j = shiftEntry d p i j := by
  have hk : (p % (d : Int)).toNat < d := emod_toNat_lt p (by omega)
  refine ⟨circulant ((List.replicate d 0).set (p % (d : Int)).toNat 1), ?_, by simp [circulant],
    by simp [circulant], ?_⟩
  · unfold xMat
    rw [pyIndex_ok h1 h2]
  · intro i hi j hj
    simp only [circulant, List.length_set, List.length_replicate, shiftEntry]
    have hlt : (i + d - j) % d < d := Nat.mod_lt _ (by omega)
    rw [List.getD_eq_getElem?_getD, List.getElem?_set]
    have := sub_mod_iff hi hj p
    by_cases h : (((j : Int) + p) % (d : Int)).toNat = i
    · rw [if_pos h, if_pos (this.2 h).symm]
      simp [hk]
    · rw [if_neg h, if_neg (fun hc => h (this.1 hc.symm))]
      simp [hlt]

theorem xMat_error {d : Nat} {p : Int} (h : p < -(d : Int) ∨ (d : Int) ≤ p) :
    xMat (R := R) d p = .error .index := by
  unfold xMat
  rw [pyIndex_error h]

/-- Applying the increment matrix to one register moves basis states by `bump`. -/
theorem onReg_shift (dims : List Nat) (q : Nat) (hq : q < dims.length) (p : Int) (ψ : State R) :
    EqOn dims (onReg dims[q] q (shiftEntry dims[q] p) ψ) (move dims (bump dims q p) ψ) := by
  have hsplit : dims = dims.take q ++ [dims[q]] ++ dims.drop (q + 1) := by
    rw [List.append_assoc]
    simp [List.getElem_cons_drop]
  have hl : (dims.take q).length = q := by simp; omega
  refine EqOn.trans' (onBlock_one dims q hq _ ψ).symm' ?_
  have key := onBlock_move (dims.take q) [dims[q]] (dims.drop (q + 1)) (shiftEntry (R := R) dims[q] p)
    (bump [dims[q]] 0 p) (fun m hm => fits_bump hm 0 (by simp) p) (by
      intro a b ha hb
      obtain ⟨x, rfl, hx⟩ := fits_singleton.1 ha
      obtain ⟨y, rfl, hy⟩ := fits_singleton.1 hb
      simp [shiftEntry, bump]) ψ
  rw [hl, List.length_singleton, ← hsplit] at key
  refine key.trans' ?_
  intro s hs
  rw [move_congr]
  intro t ht
  rw [hsplit] at ht
  have := inBlock_bump ht q p (by rw [hl]; simp)
  rw [hl, Nat.sub_self, List.length_singleton] at this
  rw [this, ← hsplit]

/-! ### H and Z -/

theorem hMat_ok (N : Numerics R) {d : Nat} (hd : 2 ≤ d) (hN : (N.roots d).length = d) :
    (hMat N d).rows = d ∧ (hMat N d).cols = d ∧
      ∀ i < d, ∀ j < d, (hMat N d).e i j = hadamard (N.roots d) (N.invSqrt d) d i j := by
  have hl : (N.roots d).dropLast.length + 1 = d := by rw [List.length_dropLast, hN]; omega
  refine ⟨hl, hl, ?_⟩
  intro i hi j hj
  simp only [hMat, hadamard, circulant]
  congr 1
  by_cases h0 : j = 0
  · simp [h0]
  · by_cases h1 : i = 0
    · simp [h0, h1]
    · rw [if_neg h0, if_neg h1, if_neg (by omega)]
      rw [List.length_dropLast, hN]
      have e : i - 1 + (d - 1) - (j - 1) = i + (d - 1) - j := by omega
      rw [e]
      have hlt : (i + (d - 1) - j) % (d - 1) < d - 1 := Nat.mod_lt _ (by omega)
      rw [List.getD_eq_getElem?_getD, List.getD_eq_getElem?_getD, List.getElem?_dropLast,
        if_pos (by rw [hN]; exact hlt)]

theorem zMat_ok (N : Numerics R) {d : Nat} (hN : (N.roots d).length = d) :
    (zMat N d).rows = d ∧ (zMat N d).cols = d ∧
      ∀ i < d, ∀ j < d, (zMat N d).e i j = phases (N.roots d) i j := by
  simp [zMat, diagMat, hN, phases]

/-! ### CX -/

theorem cxRows_ok {ds : List Nat} {c t : Int} {p : Int} (hc : 0 ≤ c) (ht : 0 ≤ t)
    (hlen : (ds.length : Int) = max c t - min c t + 1) :
    ∃ M : Mat R, cxRows ds c t p = .ok M ∧ M.rows = ds.prod ∧ M.cols = ds.prod ∧
      ∀ a b, Fits ds a → Fits ds b → M.e (value ds b) (value ds a)
        = if controlled ds [(c - min c t).toNat] (t - min c t).toNat p b = a then 1 else 0 := by
  have hs : (if c < t then 0 else c - t) = c - min c t := by split <;> omega
  have htt : (if c < t then t - c else 0) = t - min c t := by split <;> omega
  have b1 : (c - min c t).toNat < ds.length := by omega
  have b2 : (t - min c t).toNat < ds.length := by omega
  unfold cxRows
  simp only [hs, htt]
  rw [pyGet_ok (by omega) (by omega), pyGet_ok (by omega) (by omega)]
  refine ⟨_, rfl, rfl, rfl, ?_⟩
  intro a b ha hb
  simp only [ttg_eq, getD_value hb]
  have hd1 : ds.getD (c - min c t).toNat 0 = ds[(c - min c t).toNat] := by
    simp [List.getD_eq_getElem?_getD, b1]
  have hd2 : ds.getD (t - min c t).toNat 0 = ds[(t - min c t).toNat] := by
    simp [List.getD_eq_getElem?_getD, b2]
  simp only [controlled, List.mem_singleton, forall_eq, atTop, hd1]
  by_cases h : b.getD (c - min c t).toNat 0 + 1 = ds[(c - min c t).toNat]
  · rw [if_pos h, if_pos h]
    unfold cxUpdate
    simp only [getD_value hb]
    have hf := fits_bump hb _ b2 p
    have hb' : bump ds (t - min c t).toNat p b = b.set (t - min c t).toNat
        (((b.getD (t - min c t).toNat 0 : Int) + p) % (ds[(t - min c t).toNat] : Int)).toNat := by
      rw [bump, hd2]
    rw [← hb', getIndex_states hf]
    simp only
    by_cases he : bump ds (t - min c t).toNat p b = a
    · rw [if_pos he, if_pos (by rw [he])]
    · rw [if_neg he, if_neg (fun hv => he (value_inj hf ha hv.symm))]
  · rw [if_neg h, if_neg h]
    by_cases he : b = a
    · rw [if_pos he, if_pos (by rw [he])]
    · rw [if_neg he, if_neg (fun hv => he (value_inj hb ha hv))]

/-! ### Toffoli -/

theorem mapM_ok {α β : Type} (l : List α) (f : α → PyM β) (g : α → β) (h : ∀ a ∈ l, f a = .ok (g a)) :
    l.mapM f = .ok (l.map g) := by
  induction l with
  | nil => rfl
  | cons a l ih =>
    rw [List.mapM_cons, h a (by simp), ih fun x hx => h x (by simp [hx])]
    rfl

theorem mapM_error {α β : Type} (l : List α) (f : α → PyM β) (a : α) (ha : a ∈ l) (e : Err)
    (h : f a = .error e) : ∃ e', l.mapM f = .error e' := by
  induction l with
  | nil => simp at ha
  | cons b l ih =>
    rw [List.mapM_cons]
    cases hb : f b with
    | error e' => exact ⟨e', rfl⟩
    | ok y =>
      rcases List.mem_cons.1 ha with rfl | ha
      · rw [h] at hb; cases hb
      · obtain ⟨e', he'⟩ := ih ha
        refine ⟨e', ?_⟩
        rw [he']
        rfl

end QuDiet
