import Verif.Props.Laws2
import Verif.Props.Layers

/-! # C70: which reorderings of the calls leave the result alone -/

namespace QuDiet
open Spec

variable {R : Type} [CommRing R] [StarRing R] [DecidableEq R] [UnitaryCheck R]

/-! ### Lists that differ by exchanges -/

open Classical in
/-- Moving `a` to the front past elements it may be exchanged with. -/
theorem move_front {α β : Type} (F : List α → β) (V : α → Prop) {a : α} (ha : V a) :
    ∀ (u pre v : List α), (∀ k ∈ pre, V k) → (∀ k ∈ u, V k) → (∀ k ∈ v, V k) →
      (∀ b ∈ u, ∀ pre post : List α, (∀ k ∈ pre, V k) → (∀ k ∈ post, V k) →
        F (pre ++ b :: a :: post) = F (pre ++ a :: b :: post)) →
      F (pre ++ (u ++ a :: v)) = F (pre ++ a :: (u ++ v)) := by
  intro u
  induction u with
  | nil => intros; rfl
  | cons b u ih =>
    intro pre v hpre hu hv hsw
    have e1 : pre ++ (b :: u ++ a :: v) = (pre ++ [b]) ++ (u ++ a :: v) := by simp
    have hpb : ∀ k ∈ pre ++ [b], V k := by
      intro k hk
      rcases List.mem_append.1 hk with hk | hk
      · exact hpre k hk
      · rw [List.mem_singleton.1 hk]; exact hu b (by simp)
    rw [e1, ih (pre ++ [b]) v hpb (fun k hk => hu k (by simp [hk])) hv (fun c hc => hsw c (by simp [hc]))]
    have e2 : pre ++ [b] ++ a :: (u ++ v) = pre ++ b :: a :: (u ++ v) := by simp
    rw [e2, hsw b (by simp) pre (u ++ v) hpre]
    · simp
    · intro k hk
      rcases List.mem_append.1 hk with hk | hk
      · exact hu k (by simp [hk])
      · exact hv k hk

open Classical in
/-- If exchanging free neighbours does not change `F`, then neither does any reordering that keeps the order of
any two elements that are not free. -/
theorem reorder {α β : Type} (F : List α → β) (V : α → Prop) (free : α → α → Prop)
    (sym : ∀ a b, free a b → free b a)
    (swap : ∀ a b, V a → V b → free a b → ∀ pre post : List α, (∀ k ∈ pre, V k) → (∀ k ∈ post, V k) →
      F (pre ++ b :: a :: post) = F (pre ++ a :: b :: post)) :
    ∀ (l l' pre : List α), (∀ k ∈ pre, V k) → (∀ k ∈ l, V k) → l.Perm l' →
      (∀ a b, a ≠ b → ¬ free a b → l.filter (fun k => k = a ∨ k = b) = l'.filter fun k => k = a ∨ k = b) →
      F (pre ++ l) = F (pre ++ l') := by
  intro l
  induction l with
  | nil =>
    intro l' pre _ _ hp _
    rw [List.nil_perm.1 hp]
  | cons a l ih =>
    intro l' pre hpre hl hp hord
    obtain ⟨u, v, rfl, hau⟩ : ∃ u v, l' = u ++ a :: v ∧ a ∉ u :=
      List.eq_append_cons_of_mem (hp.subset (by simp))
    have hvl : ∀ k ∈ u ++ a :: v, V k := fun k hk => hl k (hp.symm.subset hk)
    have hu : ∀ k ∈ u, V k := fun k hk => hvl k (by simp [hk])
    have hv : ∀ k ∈ v, V k := fun k hk => hvl k (by simp [hk])
    have ha : V a := hl a (by simp)
    have hfree : ∀ b ∈ u, free a b := by
      intro b hb
      by_contra hnf
      have hab : a ≠ b := fun h => hau (h ▸ hb)
      have h := hord a b hab hnf
      obtain ⟨u1, u2, rfl⟩ := List.append_of_mem hb
      have hne : ((u1 ++ b :: u2).filter fun k => decide (k = a ∨ k = b)) ≠ [] := by
        intro he
        have : b ∈ (u1 ++ b :: u2).filter fun k => decide (k = a ∨ k = b) := by simp
        rw [he] at this
        cases this
      obtain ⟨c, cs, hc⟩ := List.exists_cons_of_ne_nil hne
      have hcm : c ∈ (u1 ++ b :: u2).filter fun k => decide (k = a ∨ k = b) := by rw [hc]; simp
      rw [List.filter_append, hc] at h
      simp only [List.filter_cons, true_or, decide_true, if_true, List.cons_append] at h
      injection h with h1 _
      subst h1
      exact hau (List.mem_filter.1 hcm).1
    rw [move_front F V ha u pre v hpre hu hv (fun b hb => swap a b ha (hu b hb) (hfree b hb))]
    have e : ∀ m, pre ++ a :: m = (pre ++ [a]) ++ m := by simp
    rw [e l, e (u ++ v)]
    apply ih
    · intro k hk
      rcases List.mem_append.1 hk with hk | hk
      · exact hpre k hk
      · rw [List.mem_singleton.1 hk]; exact ha
    · exact fun k hk => hl k (by simp [hk])
    · exact List.perm_cons a |>.1 (hp.trans List.perm_middle)
    · intro c d hcd hnf
      have h := hord c d hcd hnf
      rw [List.filter_append] at h ⊢
      by_cases hm : a = c ∨ a = d
      · have hnil : u.filter (fun k => decide (k = c ∨ k = d)) = [] := by
          rw [List.filter_eq_nil_iff]
          intro k hk
          have hka : k ≠ a := fun h => hau (h ▸ hk)
          have hf := hfree k hk
          have key : ¬ (k = c ∨ k = d) := by
            rintro (rfl | rfl)
            · rcases hm with rfl | rfl
              · exact hka rfl
              · exact hnf (sym _ _ hf)
            · rcases hm with rfl | rfl
              · exact hnf hf
              · exact hka rfl
          simpa using key
        rw [hnil] at h ⊢
        simpa [List.filter_cons, hm] using h
      · simpa [List.filter_cons, hm] using h

/-! ### The statements -/

/-- Two calls that may be exchanged: they touch no common register; or both are `x`, `cx` or `toffoli` and
neither adds to a control of the other; or one is diagonal (`z`, say) and the other is diagonal or an `x`, `cx` or
`toffoli` with another target. -/
def Call.Free (a b : Call R) : Prop :=
  (∀ r, ¬ (a.touches r ∧ b.touches r)) ∨
  (a.Classical ∧ b.Classical ∧ a.target ∉ b.controls ∧ b.target ∉ a.controls) ∨
  (a.Diagonal ∧ (b.Diagonal ∨ b.Classical ∧ a.reg ≠ b.target)) ∨
  (b.Diagonal ∧ (a.Diagonal ∨ a.Classical ∧ b.reg ≠ a.target))

omit [StarRing R] [DecidableEq R] [UnitaryCheck R] in
theorem Call.Free.symm {a b : Call R} (h : a.Free b) : b.Free a := by
  rcases h with h | ⟨h1, h2, h3, h4⟩ | h | h
  · exact .inl fun r hr => h r ⟨hr.2, hr.1⟩
  · exact .inr (.inl ⟨h2, h1, h4, h3⟩)
  · exact .inr (.inr (.inr h))
  · exact .inr (.inr (.inl h))

/-- Exchanging two neighbours that are free. -/
theorem free_swap [Nontrivial R] {N : Numerics R} (hN : N.Sized) {B : Backend R} (hB : B.Lawful)
    {dims : List Nat} (hne : dims ≠ []) {init : List Int} {out : Option Output} (h : ValidStart (dims.map Int.ofNat) init)
    {a b : Call R} (ha : a.Valid dims) (hb : b.Valid dims) (hf : a.Free b) {pre post : List (Call R)}
    (hpre : ∀ k ∈ pre, k.Valid dims) (hpost : ∀ k ∈ post, k.Valid dims) :
    script N B (.list (dims.map Int.ofNat)) init out (pre ++ b :: a :: post ++ [.measureAll]) =
      script N B (.list (dims.map Int.ofNat)) init out (pre ++ a :: b :: post ++ [.measureAll]) := by
  rcases hf with hf | ⟨h1, h2, h3, h4⟩ | ⟨h1, h2 | ⟨h2, h3⟩⟩ | ⟨h1, h2 | ⟨h2, h3⟩⟩
  · exact (C25_disjoint_calls_commute hN hB hne h hpre hpost ha hb hf).symm
  · exact (C48_increments_commute hN hB hne h hpre hpost ha hb h1 h2 h3 h4).symm
  · exact (C48_diagonals_commute hN hB hne h hpre hpost ha hb h1 h2).symm
  · exact (C48_diagonal_commutes_with_controls hN hB hne h hpre hpost ha hb h1 h2 h3).symm
  · exact C48_diagonals_commute hN hB hne h hpre hpost hb ha h1 h2
  · exact C48_diagonal_commutes_with_controls hN hB hne h hpre hpost hb ha h1 h2 h3

open Classical in
theorem filter_one {α : Type} {l l' : List α} (hp : l.Perm l') {b : α} (hb : b ∉ l) (a : α) :
    l.filter (fun k => k = a ∨ k = b) = l'.filter fun k => k = a ∨ k = b := by
  have e : ∀ {m : List α}, b ∉ m → m.filter (fun k => decide (k = a ∨ k = b)) = m.filter fun k => k == a := by
    intro m hm
    apply List.filter_congr
    intro k hk
    have : k ≠ b := fun h => hm (h ▸ hk)
    by_cases h : k = a <;> simp [this, h]
  rw [e hb, e (fun h => hb (hp.symm.subset h)), List.filter_beq, List.filter_beq, hp.count_eq]

open Classical in
/-- **C70.** Making the same calls in another order gives the same result if any two calls that are not free to be
exchanged are made in the same order. -/
theorem C70_reordering [Nontrivial R] {N : Numerics R} (hN : N.Sized) {B : Backend R} (hB : B.Lawful)
    {dims : List Nat} (hne : dims ≠ []) {init : List Int} {out : Option Output} (h : ValidStart (dims.map Int.ofNat) init)
    {ks ks' : List (Call R)} (hks : ∀ k ∈ ks, k.Valid dims) (hp : ks.Perm ks')
    (hord : ∀ a ∈ ks, ∀ b ∈ ks, a ≠ b → ¬ a.Free b →
      ks.filter (fun k => k = a ∨ k = b) = ks'.filter fun k => k = a ∨ k = b) :
    script N B (.list (dims.map Int.ofNat)) init out (ks ++ [.measureAll]) =
      script N B (.list (dims.map Int.ofNat)) init out (ks' ++ [.measureAll]) := by
  obtain ⟨F, hF⟩ : ∃ F : List (Call R) → PyM (List (Key × R)),
      F = fun l => script N B (.list (dims.map Int.ofNat)) init out (l ++ [.measureAll]) := ⟨_, rfl⟩
  have key := reorder F (fun k => k.Valid dims) Call.Free (fun _ _ h => h.symm)
    (fun a b ha hb hf pre post hpre hpost => by
      rw [hF]
      exact free_swap hN hB hne h ha hb hf hpre hpost)
    ks ks' [] (by simp) hks hp (fun a b hab hnf => by
      by_cases ha : a ∈ ks
      · by_cases hb : b ∈ ks
        · exact hord a ha b hb hab hnf
        · exact filter_one hp hb a
      · have := filter_one hp ha b
        simpa only [or_comm] using this)
  rw [hF] at key
  simpa using key

/-- The registers a valid call touches are registers of the circuit. -/
theorem touches_lt {dims : List Nat} {k : Call R} (hv : k.Valid dims) {r : Nat} (ht : k.touches r) :
    r < dims.length := by
  have key : ∀ {q : Int}, InRange dims q → q < dims.length := fun hq => hq.2
  cases k with
  | h q k => have := key hv.1; simp only [Call.touches] at ht; omega
  | x q k p => have := key hv.1; simp only [Call.touches] at ht; omega
  | z q k => have := key hv.1; simp only [Call.touches] at ht; omega
  | cx c t p =>
    have := key hv.1; have := key hv.2
    rcases ht with ht | ht <;> omega
  | toffoli cs t p =>
    rcases ht with ht | ht
    · have := key (hv.2.1 _ ht); omega
    · have := key hv.1; omega
  | gate U q k =>
    cases q with
    | int q => have := key hv.1; simp only [Call.touches] at ht; omega
    | list qs =>
      obtain ⟨_, b, hb, hr⟩ := ht
      have := key (hv.2.1 b hb)
      omega
  | measure q => exact hv.elim
  | measureAll => exact hv.elim

/-- A valid call touches a register of the circuit. -/
theorem Call.Valid.touches {dims : List Nat} {k : Call R} (hv : k.Valid dims) :
    ∃ r < dims.length, k.touches r := by
  have key : ∀ {q : Int}, InRange dims q → ∃ r < dims.length, q = (r : Int) := by
    intro q hq
    have := hq.1; have := hq.2
    exact ⟨q.toNat, by omega, by omega⟩
  cases k with
  | h q k => obtain ⟨r, hr, e⟩ := key hv.1; exact ⟨r, hr, e⟩
  | x q k p => obtain ⟨r, hr, e⟩ := key hv.1; exact ⟨r, hr, e⟩
  | z q k => obtain ⟨r, hr, e⟩ := key hv.1; exact ⟨r, hr, e⟩
  | cx c t p => obtain ⟨r, hr, e⟩ := key hv.1; exact ⟨r, hr, .inl e⟩
  | toffoli cs t p => obtain ⟨r, hr, e⟩ := key hv.1; exact ⟨r, hr, .inr e⟩
  | gate U q k =>
    cases q with
    | int q => obtain ⟨r, hr, e⟩ := key hv.1; exact ⟨r, hr, e⟩
    | list qs =>
      obtain ⟨q, hq⟩ := List.exists_mem_of_ne_nil qs hv.1
      obtain ⟨r, hr, e⟩ := key (hv.2.1 q hq)
      exact ⟨r, hr, ⟨q, hq, by omega⟩, q, hq, by omega⟩
  | measure q => exact hv.elim
  | measureAll => exact hv.elim

open Classical in
/-- **C70.** Only the order of the calls on each register matters: two programs give the same result if, for every
register, the calls that touch it are the same and in the same order. -/
theorem C70_order_per_register [Nontrivial R] {N : Numerics R} (hN : N.Sized) {B : Backend R} (hB : B.Lawful)
    {dims : List Nat} (hne : dims ≠ []) {init : List Int} {out : Option Output} (h : ValidStart (dims.map Int.ofNat) init)
    {ks ks' : List (Call R)} (hks : ∀ k ∈ ks, k.Valid dims) (hks' : ∀ k ∈ ks', k.Valid dims)
    (hord : ∀ r < dims.length, ks.filter (fun k => k.touches r) = ks'.filter fun k => k.touches r) :
    script N B (.list (dims.map Int.ofNat)) init out (ks ++ [.measureAll]) =
      script N B (.list (dims.map Int.ofNat)) init out (ks' ++ [.measureAll]) := by
  have hall : ∀ r, ks.filter (fun k => k.touches r) = ks'.filter fun k => k.touches r := by
    intro r
    by_cases hr : r < dims.length
    · exact hord r hr
    · have hno : ∀ {l : List (Call R)}, (∀ k ∈ l, k.Valid dims) → l.filter (fun k => decide (k.touches r)) = [] := by
        intro l hl
        rw [List.filter_eq_nil_iff]
        intro k hk ht
        exact hr (touches_lt (hl k hk) (by simpa using ht))
      rw [hno hks, hno hks']
  have sub : ∀ {r : Nat} {p : Call R → Bool}, (∀ k, p k = true → k.touches r) →
      ks.filter p = ks'.filter p := by
    intro r p hp
    have e : ∀ l : List (Call R), l.filter p = (l.filter fun k => k.touches r).filter p := by
      intro l
      rw [List.filter_filter]
      apply List.filter_congr
      intro k _
      cases hk : p k with
      | false => simp
      | true => simp [hp k hk]
    rw [e ks, e ks', hall r]
  refine C70_reordering hN hB hne h hks ?_ ?_
  · rw [List.perm_iff_count]
    intro a
    by_cases ha : a ∈ ks ∨ a ∈ ks'
    · obtain ⟨r, _, hr⟩ := Call.Valid.touches (ha.elim (hks a) (hks' a))
      have := congrArg List.length (sub (r := r) (p := fun k => k == a) (fun k hk => by
        rw [eq_of_beq hk]; exact hr))
      rw [List.count_eq_length_filter, List.count_eq_length_filter]
      exact this
    · rw [List.count_eq_zero_of_not_mem (fun h => ha (.inl h)), List.count_eq_zero_of_not_mem (fun h => ha (.inr h))]
  · intro a _ b _ hab hnf
    have : ∃ r, a.touches r ∧ b.touches r := by
      by_contra hno
      exact hnf (.inl fun r hr => hno ⟨r, hr⟩)
    obtain ⟨r, hra, hrb⟩ := this
    apply sub (r := r)
    intro k hk
    rcases of_decide_eq_true hk with rfl | rfl
    · exact hra
    · exact hrb

/-- Two programs on a qutrit, a qubit and a ququart with the same calls on each register. -/
example {B : Backend ℤ} (hB : B.Lawful) :
    script sampleN B (.list [3, 2, 4]) [2, 1, 3] none
        ([.h 0 none, .x 1 none 1, .cx 0 1 1, .z 2 none, .x 0 none 2] ++ [.measureAll]) =
      script sampleN B (.list [3, 2, 4]) [2, 1, 3] none
        ([.z 2 none, .x 1 none 1, .h 0 none, .cx 0 1 1, .x 0 none 2] ++ [.measureAll]) := by
  refine C70_order_per_register sampleN_sized hB (dims := [3, 2, 4]) (by simp) (validStart_of rfl)
    (by simp [Call.Valid, InRange, DimOK]) (by simp [Call.Valid, InRange, DimOK]) ?_
  intro r hr
  simp only [List.length_cons, List.length_nil] at hr
  interval_cases r <;> simp [Call.touches]

/-- Calls that share registers, any two of them free to be exchanged, in reverse order. -/
example {B : Backend ℤ} (hB : B.Lawful) :
    script sampleN B (.list [3, 2, 4]) [2, 1, 3] none
        ([.cx 0 1 1, .z 0 none, .cx 0 2 3, .x 1 none 1] ++ [.measureAll]) =
      script sampleN B (.list [3, 2, 4]) [2, 1, 3] none
        ([.x 1 none 1, .cx 0 2 3, .z 0 none, .cx 0 1 1] ++ [.measureAll]) := by
  refine C70_reordering sampleN_sized hB (dims := [3, 2, 4]) (by simp) (validStart_of rfl)
    (by simp [Call.Valid, InRange, DimOK]) (List.reverse_perm _).symm ?_
  intro a ha b hb hab hnf
  refine (hnf ?_).elim
  simp only [List.mem_cons, List.not_mem_nil, or_false] at ha hb
  rcases ha with rfl | rfl | rfl | rfl <;> rcases hb with rfl | rfl | rfl | rfl <;>
    first
      | exact absurd rfl hab
      | (refine .inr (.inl ?_); simp [Call.Classical, Call.target, Call.controls]; done)
      | (refine .inr (.inr (.inl ?_)); simp [Call.Classical, Call.target, Call.Diagonal, Call.reg]; done)
      | (refine .inr (.inr (.inr ?_)); simp [Call.Classical, Call.target, Call.Diagonal, Call.reg]; done)

/-- **C70.** The condition cannot be dropped: with `x` before or after `cx`, on its control, the results differ. -/
theorem C70_order_matters {B : Backend ℤ} (hB : B.Lawful) :
    script sampleN B (.list [2, 2]) [] none [.x 0 none 1, .cx 0 1 1, .measureAll] ≠
      script sampleN B (.list [2, 2]) [] none [.cx 0 1 1, .x 0 none 1, .measureAll] := by
  have h1 := C02_classical_single_outcome sampleN_sized hB (dims := [2, 2]) (by simp) (init := [])
    (validStart_of rfl) (ks := [.x 0 none 1, .cx 0 1 1]) (by simp [Call.Valid, InRange, DimOK])
    (by simp [Call.Classical])
  have h2 := C02_classical_single_outcome sampleN_sized hB (dims := [2, 2]) (by simp) (init := [])
    (validStart_of rfl) (ks := [.cx 0 1 1, .x 0 none 1]) (by simp [Call.Valid, InRange, DimOK])
    (by simp [Call.Classical])
  intro h
  have := h1.symm.trans (h.trans h2)
  revert this
  decide

/-- **C70.** The depth, on the other hand, depends on the order of calls that share no register: a gate is packed
into the last layer only. -/
theorem C70_depth_depends_on_order :
    ∃ a b : Width × Int × Info, reports (R := ℤ) (.list [2, 2, 2]) [] none [.x 2 none 1, .cx 0 1 1] = .ok a ∧
      reports (R := ℤ) (.list [2, 2, 2]) [] none [.cx 0 1 1, .x 2 none 1] = .ok b ∧ a.2.1 = 2 ∧ b.2.1 = 1 :=
  ⟨_, _, rfl, rfl, rfl, rfl⟩

end QuDiet
