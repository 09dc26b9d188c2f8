import Verif.Sparse
import Verif.Lemmas.Run

/-! # Backends: every lawful backend gives the same results as the dense one -/

namespace QuDiet
open Spec

variable {R : Type} [CommRing R]

/-- Both raise the same exception, or both succeed with related values. -/
def SameM {α β : Type} (P : α → β → Prop) (x : PyM α) (y : PyM β) : Prop :=
  (∃ e, x = .error e ∧ y = .error e) ∨ ∃ a b, x = .ok a ∧ y = .ok b ∧ P a b

theorem SameM.bind {α β γ δ : Type} {P : α → β → Prop} {Q : γ → δ → Prop} {x : PyM α} {y : PyM β}
    {f : α → PyM γ} {g : β → PyM δ} (h : SameM P x y) (hfg : ∀ a b, P a b → SameM Q (f a) (g b)) :
    SameM Q (x >>= f) (y >>= g) := by
  rcases h with ⟨e, rfl, rfl⟩ | ⟨a, b, rfl, rfl, hab⟩
  · exact .inl ⟨e, rfl, rfl⟩
  · exact hfg a b hab

/-- The matrix operations of a backend do what the dense ones do. -/
structure Backend.Lawful (B : Backend R) : Prop where
  matrix : ∀ m, (B.toarray (B.matrix m)).Same m
  eye : ∀ n, (B.toarray (B.eye n)).Same (Mat.eye n)
  kron : ∀ a b, (B.toarray (B.kron a b)).Same ((B.toarray a).kron (B.toarray b))
  dot : ∀ a b, SameM (fun c d => (B.toarray c).Same d) (B.dot a b) ((B.toarray a).dot (B.toarray b))
  transpose : ∀ a, (B.toarray (B.transpose a)).Same (B.toarray a).transpose

theorem Mat.Same.rfl' {A : Mat R} : A.Same A := ⟨rfl, rfl, fun _ _ _ _ => rfl⟩

theorem Mat.Same.trans' {A B C : Mat R} (h : A.Same B) (h' : B.Same C) : A.Same C :=
  ⟨h.1.trans h'.1, h.2.1.trans h'.2.1, fun i hi j hj =>
    (h.2.2 i hi j hj).trans (h'.2.2 i (h.1 ▸ hi) j (h.2.1 ▸ hj))⟩

theorem Mat.Same.kron {A B A' B' : Mat R} (h : A.Same A') (h' : B.Same B') :
    (A.kron B).Same (A'.kron B') := by
  refine ⟨by simp [Mat.kron, h.1, h'.1], by simp [Mat.kron, h.2.1, h'.2.1], ?_⟩
  intro i hi j hj
  simp only [Mat.kron] at hi hj ⊢
  have hb : 0 < B.rows := Nat.pos_of_ne_zero fun h => by simp [h] at hi
  have hb' : 0 < B.cols := Nat.pos_of_ne_zero fun h => by simp [h] at hj
  rw [← h'.1, ← h'.2.1,
    h.2.2 _ (Nat.div_lt_of_lt_mul (by rwa [Nat.mul_comm])) _ (Nat.div_lt_of_lt_mul (by rwa [Nat.mul_comm])),
    h'.2.2 _ (Nat.mod_lt _ hb) _ (Nat.mod_lt _ hb')]

theorem Mat.Same.transpose {A A' : Mat R} (h : A.Same A') : A.transpose.Same A'.transpose :=
  ⟨h.2.1, h.1, fun i hi j hj => h.2.2 j hj i hi⟩

theorem Mat.Same.dot {A B A' B' : Mat R} (h : A.Same A') (h' : B.Same B') :
    SameM Mat.Same (A.dot B) (A'.dot B') := by
  by_cases hc : A.cols = B.rows
  · rw [dot_eq hc, dot_eq (by rw [← h.2.1, ← h'.1, hc])]
    refine .inr ⟨_, _, rfl, rfl, h.1, h'.2.1, ?_⟩
    intro i hi j hj
    simp only at hi hj ⊢
    rw [← h.2.1]
    apply map_congr_sum
    intro k hk
    rw [List.mem_range] at hk
    rw [h.2.2 i hi k hk, h'.2.2 k (hc ▸ hk) j hj]
  · left
    refine ⟨.value, if_neg hc, if_neg ?_⟩
    rw [← h.2.1, ← h'.1]
    exact hc

theorem mapM_congr' {α β : Type} {l : List α} {f g : α → PyM β} (h : ∀ a ∈ l, f a = g a) :
    l.mapM f = l.mapM g := by
  induction l with
  | nil => rfl
  | cons a l ih => rw [List.mapM_cons, List.mapM_cons, h a (by simp), ih fun x hx => h x (by simp [hx])]

variable [StarRing R] [DecidableEq R] [UnitaryCheck R] {B : Backend R}

/-- `a` stands for the dense matrix `b`. -/
def Rep (B : Backend R) (a : B.M) (b : (numpyBackend R).M) : Prop := Mat.Same (B.toarray a) b

theorem unitary_same (hB : B.Lawful) (N : Numerics R) (g : GateObj R) :
    SameM (Rep B) (g.unitary N B) (g.unitary N (numpyBackend R)) := by
  have mk : ∀ x : PyM (Mat R),
      SameM (Rep B)
        (match x with | .ok m => .ok (B.matrix m) | .error e => .error e)
        (match x with | .ok m => .ok ((numpyBackend R).matrix m) | .error e => .error e) := by
    intro x
    cases x with
    | error e => exact .inl ⟨e, rfl, rfl⟩
    | ok m => exact .inr ⟨_, _, rfl, rfl, hB.matrix m⟩
  cases g with
  | init d s q => exact mk _
  | ident q d => exact .inr ⟨_, _, rfl, rfl, hB.eye d⟩
  | h q d => exact .inr ⟨_, _, rfl, rfl, hB.matrix _⟩
  | x q d p => exact mk _
  | z q d => exact .inr ⟨_, _, rfl, rfl, hB.matrix _⟩
  | cx ds c t p =>
    simp only [GateObj.unitary]
    cases cxRows (R := R) ds c t p with
    | error e => exact .inl ⟨e, rfl, rfl⟩
    | ok m => exact .inr ⟨_, _, rfl, rfl, (hB.transpose _).trans' (hB.matrix m).transpose⟩
  | toffoli => exact mk _
  | arb => exact mk _
  | meas q => exact .inl ⟨_, rfl, rfl⟩

theorem momentExec_same (hB : B.Lawful) (N : Numerics R) (m : List (GateObj R)) :
    SameM (Rep B) (momentExec N B m)
      (momentExec N (numpyBackend R) m) := by
  cases m with
  | nil => exact .inl ⟨_, rfl, rfl⟩
  | cons g m =>
    rw [momentExec, momentExec]
    apply (unitary_same hB N g).bind
    intro a b hab
    induction m generalizing a b with
    | nil => exact .inr ⟨a, b, rfl, rfl, hab⟩
    | cons g' m ih =>
      rw [List.foldlM_cons, List.foldlM_cons]
      apply SameM.bind (P := Rep B)
      · apply (unitary_same hB N g').bind
        intro u v huv
        exact .inr ⟨_, _, rfl, rfl, (hB.kron a u).trans' (Mat.Same.kron hab huv)⟩
      · exact ih

theorem flowLoop_same (hB : B.Lawful) (N : Numerics R) (ms : List (List (GateObj R)))
    (acc : Option B.M) (acc' : Option (numpyBackend R).M)
    (h : (acc = none ∧ acc' = none) ∨ ∃ a b, acc = some a ∧ acc' = some b ∧ Rep B a b) :
    SameM (fun x (y : Option (numpyBackend R).M) => (x = none ∧ y = none) ∨
        ∃ a b, x = some a ∧ y = some b ∧ Rep B a b)
      (flowLoop N B ms acc) (flowLoop N (numpyBackend R) ms acc') := by
  induction ms generalizing acc acc' with
  | nil => exact .inr ⟨_, _, rfl, rfl, h⟩
  | cons m ms ih =>
    rw [flowLoop, flowLoop]
    apply (momentExec_same hB N m).bind
    intro u v huv
    rcases h with ⟨rfl, rfl⟩ | ⟨a, b, rfl, rfl, hab⟩
    · exact ih _ _ (.inr ⟨u, v, rfl, rfl, huv⟩)
    · apply SameM.bind (P := Rep B)
      · rcases hB.dot a u with ⟨e, h1, h2⟩ | ⟨c, d, h1, h2, hcd⟩
        · rcases Mat.Same.dot hab huv with ⟨e', h3, h4⟩ | ⟨c', d', h3, h4, _⟩
          · rw [h2] at h3
            injection h3 with h3
            subst h3
            exact .inl ⟨_, h1, h4⟩
          · rw [h2] at h3; cases h3
        · rcases Mat.Same.dot hab huv with ⟨e', h3, h4⟩ | ⟨c', d', h3, h4, hcd'⟩
          · rw [h2] at h3; cases h3
          · rw [h2] at h3
            injection h3 with h3
            subst h3
            exact .inr ⟨_, _, h1, h4, hcd.trans' hcd'⟩
      · intro c d hcd
        exact ih _ _ (.inr ⟨c, d, rfl, rfl, hcd⟩)

omit [StarRing R] in
theorem output_same {A A' : Mat R} (h : A.Same A') (o : Output) : o.call A = o.call A' := by
  have hnz : nonzeroRows A = nonzeroRows A' := by
    unfold nonzeroRows
    rw [← h.1, ← h.2.1]
    apply List.flatMap_congr
    intro i hi
    congr 1
    apply List.filter_congr
    intro j hj
    rw [h.2.2 i (by simpa using hi) j (by simpa using hj)]
  unfold Output.call
  rw [← hnz]
  apply mapM_congr'
  intro v hv
  unfold nonzeroRows at hv
  obtain ⟨i, hi, hv⟩ := List.mem_flatMap.1 hv
  obtain ⟨j, hj, rfl⟩ := List.mem_map.1 hv
  have hj' := List.mem_of_mem_filter hj
  rw [List.mem_range] at hi hj'
  rw [h.2.2 i hi 0 (by omega)]

/-- `run` does not depend on the backend. -/
theorem runResult_backend (hB : B.Lawful) (N : Numerics R) (c : Circuit R) :
    c.runResult N B = c.runResult N (numpyBackend R) := by
  unfold Circuit.runResult
  have : SameM (fun x (y : Option (numpyBackend R).M) => (x = none ∧ y = none) ∨
        ∃ a b, x = some a ∧ y = some b ∧ Rep B a b)
      (c.flow.exec N B) (c.flow.exec N (numpyBackend R)) := by
    unfold Flow.exec
    split
    · split
      · exact .inl ⟨_, rfl, rfl⟩
      · exact flowLoop_same hB N _ none none (.inl ⟨rfl, rfl⟩)
    · exact .inl ⟨_, rfl, rfl⟩
  rcases this with ⟨e, h1, h2⟩ | ⟨x, y, h1, h2, h⟩
  · rw [h1, h2]; rfl
  · rw [h1, h2]
    rcases h with ⟨rfl, rfl⟩ | ⟨a, b, rfl, rfl, hab⟩
    · rfl
    · exact output_same hab _

theorem numpy_lawful : (numpyBackend R).Lawful where
  matrix _ := Mat.Same.rfl'
  eye _ := Mat.Same.rfl'
  kron _ _ := Mat.Same.rfl'
  dot a b := by
    cases h : (numpyBackend R).dot a b with
    | error e => exact .inl ⟨e, rfl, h⟩
    | ok c => exact .inr ⟨c, c, rfl, h, Mat.Same.rfl'⟩
  transpose _ := Mat.Same.rfl'

/-! ### The sparse backend is lawful -/

omit [StarRing R] in
theorem coo_entry (a : Coo R) (i j : Nat) :
    a.toarray.e i j = (a.entries.map fun t => if t.1 = i ∧ t.2.1 = j then t.2.2 else 0).sum := by
  unfold Coo.toarray
  simp only
  induction a.entries with
  | nil => rfl
  | cons t l ih =>
    rw [List.map_cons, List.sum_cons, ← ih]
    by_cases h : t.1 = i ∧ t.2.1 = j
    · simp [h]
    · rw [List.filter_cons_of_neg (by simpa using h), if_neg h, zero_add]

omit [StarRing R] in
theorem sum_map_filter {α : Type} (l : List α) (p : α → Bool) (f : α → R) :
    ((l.filter p).map f).sum = (l.map fun a => if p a then f a else 0).sum := by
  induction l with
  | nil => rfl
  | cons a l ih =>
    rw [List.map_cons, List.sum_cons, ← ih]
    by_cases h : p a = true
    · simp [h]
    · simp [h]

theorem sparse_lawful : (sparseBackend R).Lawful where
  matrix m := by
    refine ⟨rfl, rfl, ?_⟩
    intro i hi j hj
    change (Coo.ofDense m).toarray.e i j = _
    rw [coo_entry]
    simp only [Coo.ofDense, List.map_flatMap, sum_flatMap, List.map_map, Function.comp_def]
    change i < m.rows at hi
    change j < m.cols at hj
    have : ∀ i' ∈ List.range m.rows,
        (((List.range m.cols).filter fun j => m.e i' j ≠ 0).map fun j' =>
          if i' = i ∧ j' = j then m.e i' j' else 0).sum = if i' = i then m.e i j else 0 := by
      intro i' _
      rw [sum_map_filter]
      by_cases h : i' = i
      · subst h
        rw [if_pos rfl]
        have : ∀ j' ∈ List.range m.cols, (if decide (m.e i' j' ≠ 0) = true then
            (if i' = i' ∧ j' = j then m.e i' j' else 0) else 0) = if j = j' then m.e i' j' else 0 := by
          intro j' _
          by_cases hj' : j = j'
          · subst hj'
            by_cases hz : m.e i' j = 0
            · simp [hz]
            · simp [hz]
          · simp [hj', Ne.symm hj']
        rw [map_congr_sum this]
        exact sum_ite_eq (List.range m.cols) List.nodup_range j (by simpa using hj) _
      · rw [if_neg h]
        simp [h]
    rw [map_congr_sum this]
    have e : ∀ i' ∈ List.range m.rows, (if i' = i then m.e i j else 0) = if i = i' then m.e i j else 0 := by
      intro i' _
      by_cases h : i' = i
      · simp [h]
      · simp [h, Ne.symm h]
    rw [map_congr_sum e]
    exact sum_ite_eq (List.range m.rows) List.nodup_range i (by simpa using hi) _
  eye n := by
    refine ⟨rfl, rfl, ?_⟩
    intro i hi j hj
    change (Coo.eye n).toarray.e i j = _
    change i < n at hi
    rw [coo_entry]
    simp only [Coo.eye, List.map_map, Function.comp_def, Mat.eye]
    have e : ∀ k ∈ List.range n, (if k = i ∧ k = j then (1 : R) else 0) =
        if i = k then (if i = j then 1 else 0) else 0 := by
      intro k _
      by_cases h : i = k
      · subst h; simp
      · simp [h, Ne.symm h]
    rw [map_congr_sum e]
    exact sum_ite_eq (List.range n) List.nodup_range i (by simpa using hi) _
  kron a b := by
    obtain ⟨a, ha⟩ := a
    obtain ⟨b, hb⟩ := b
    refine ⟨rfl, rfl, ?_⟩
    intro i hi j hj
    change (Coo.kron a b).toarray.e i j = a.toarray.e (i / b.rows) (j / b.cols) * b.toarray.e (i % b.rows) (j % b.cols)
    rw [coo_entry, coo_entry, coo_entry]
    simp only [Coo.kron, List.map_flatMap, sum_flatMap, List.map_map, Function.comp_def]
    rw [← List.sum_map_mul_right]
    apply map_congr_sum
    intro s hs
    rw [← List.sum_map_mul_left]
    apply map_congr_sum
    intro t ht
    obtain ⟨ht1, ht2⟩ := hb t ht
    have e1 : s.1 * b.rows + t.1 = i ↔ s.1 = i / b.rows ∧ t.1 = i % b.rows := by
      constructor
      · rintro rfl
        rw [Nat.mul_comm, Nat.mul_add_div (by omega), Nat.mul_add_mod, Nat.div_eq_of_lt ht1, Nat.mod_eq_of_lt ht1]
        simp
      · rintro ⟨h1, h2⟩
        rw [h1, h2, Nat.mul_comm]
        exact Nat.div_add_mod i b.rows
    have e2 : s.2.1 * b.cols + t.2.1 = j ↔ s.2.1 = j / b.cols ∧ t.2.1 = j % b.cols := by
      constructor
      · rintro rfl
        rw [Nat.mul_comm, Nat.mul_add_div (by omega), Nat.mul_add_mod, Nat.div_eq_of_lt ht2, Nat.mod_eq_of_lt ht2]
        simp
      · rintro ⟨h1, h2⟩
        rw [h1, h2, Nat.mul_comm]
        exact Nat.div_add_mod j b.cols
    simp only [e1, e2]
    by_cases h1 : s.1 = i / b.rows ∧ s.2.1 = j / b.cols
    · by_cases h2 : t.1 = i % b.rows ∧ t.2.1 = j % b.cols
      · rw [if_pos ⟨⟨h1.1, h2.1⟩, h1.2, h2.2⟩, if_pos h1, if_pos h2]
      · rw [if_neg (fun h => h2 ⟨h.1.2, h.2.2⟩), if_neg h2, mul_zero]
    · rw [if_neg (fun h => h1 ⟨h.1.1, h.2.1⟩), if_neg h1, zero_mul]
  dot a b := by
    obtain ⟨a, ha⟩ := a
    obtain ⟨b, hb⟩ := b
    by_cases hc : a.cols = b.rows
    · right
      have hd : Coo.dot a b = .ok _ := if_pos hc
      refine ⟨⟨_, Coo.wf_dot ha hb hd⟩, _, ?_, dot_eq hc, rfl, rfl, ?_⟩
      · simp only [sparseBackend]
        split
        · rename_i c hc'
          rw [hd] at hc'
          injection hc' with hc'
          subst hc'
          rfl
        · rename_i e he
          rw [hd] at he
          cases he
      · intro i hi j hj
        change Mat.e (Coo.toarray _) i j = ((List.range a.cols).map fun k => a.toarray.e i k * b.toarray.e k j).sum
        rw [coo_entry]
        simp only [coo_entry, List.map_flatMap, sum_flatMap, List.map_map, Function.comp_def]
        have e : ∀ k ∈ List.range a.cols,
            (a.entries.map fun t => if t.1 = i ∧ t.2.1 = k then t.2.2 else 0).sum *
              (b.entries.map fun t => if t.1 = k ∧ t.2.1 = j then t.2.2 else 0).sum =
            (a.entries.map fun s => (b.entries.map fun t =>
              (if s.1 = i ∧ s.2.1 = k then s.2.2 else 0) * (if t.1 = k ∧ t.2.1 = j then t.2.2 else 0)).sum).sum := by
          intro k _
          rw [← List.sum_map_mul_right]
          apply map_congr_sum
          intro s _
          rw [← List.sum_map_mul_left]
        rw [map_congr_sum e, sum_comm]
        apply map_congr_sum
        intro s hs
        rw [sum_comm, sum_map_filter]
        apply map_congr_sum
        intro t ht
        have hk := (ha s hs).2
        have e2 : ∀ k ∈ List.range a.cols,
            (if s.1 = i ∧ s.2.1 = k then s.2.2 else 0) * (if t.1 = k ∧ t.2.1 = j then t.2.2 else 0) =
            if s.2.1 = k then (if s.1 = i then s.2.2 else 0) * (if t.1 = s.2.1 ∧ t.2.1 = j then t.2.2 else 0) else 0 := by
          intro k _
          by_cases h : s.2.1 = k
          · subst h; simp
          · simp [h]
        rw [map_congr_sum e2, sum_ite_eq (List.range a.cols) List.nodup_range s.2.1 (by simpa using hk)
          (fun _ => (if s.1 = i then s.2.2 else 0) * (if t.1 = s.2.1 ∧ t.2.1 = j then t.2.2 else 0))]
        by_cases h1 : s.2.1 = t.1
        · by_cases h2 : s.1 = i
          · by_cases h3 : t.2.1 = j
            · simp [h1, h2, h3]
            · simp [h1, h2, h3]
          · simp [h1, h2]
        · simp [h1, Ne.symm h1]
    · left
      have hd : Coo.dot a b = .error .value := if_neg hc
      refine ⟨.value, ?_, if_neg hc⟩
      simp only [sparseBackend]
      split
      · rename_i c hc'
        rw [hd] at hc'
        cases hc'
      · rename_i e he
        rw [hd] at he
        injection he with he
        rw [he]
  transpose a := by
    obtain ⟨a, ha⟩ := a
    refine ⟨rfl, rfl, ?_⟩
    intro i hi j hj
    change (Coo.transpose a).toarray.e i j = a.toarray.e j i
    rw [coo_entry, coo_entry]
    simp only [Coo.transpose, List.map_map, Function.comp_def]
    apply map_congr_sum
    intro t _
    simp only [and_comm]

end QuDiet
