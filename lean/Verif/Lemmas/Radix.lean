import Verif.Lemmas.States

/-! # The mixed-radix helpers compute level lists and positional values -/

namespace QuDiet
open Spec

theorem fits_zeros (ds : List Nat) (h : 0 < ds.prod) : Fits ds (List.replicate ds.length 0) := by
  induction ds with
  | nil => simp [fits_nil]
  | cons d ds ih =>
    rw [List.prod_cons] at h
    have h1 : 0 < d := Nat.pos_of_mul_pos_right h
    have h2 : 0 < ds.prod := Nat.pos_of_mul_pos_left h
    simp only [List.length_cons, List.replicate_succ, fits_cons']
    exact ⟨h1, ih h2⟩

theorem value_zeros (ds : List Nat) (n : Nat) : value ds (List.replicate n 0) = 0 := by
  induction ds generalizing n with
  | nil => simp [value]
  | cons d ds ih =>
    cases n with
    | zero => simp [value]
    | succ n => simp [List.replicate_succ, value, ih]

theorem nbaseLoop_zero (bs digits : List Nat) : nbaseLoop bs 0 digits = .ok digits := by
  unfold nbaseLoop
  simp

theorem prod_reverse (l : List Nat) : l.reverse.prod = l.prod := by
  induction l with
  | nil => rfl
  | cons a l ih => simp [ih, Nat.mul_comm]

theorem nbaseLoop_ok (bs : List Nat) (r : Nat) (digits : List Nat) (h : r < bs.prod) :
    ∃ t, nbaseLoop bs r digits = .ok (digits ++ t) ∧ t.length ≤ bs.length ∧
      Fits bs.reverse (t ++ List.replicate (bs.length - t.length) 0).reverse ∧
      value bs.reverse (t ++ List.replicate (bs.length - t.length) 0).reverse = r := by
  induction bs generalizing r digits with
  | nil =>
    have : r = 0 := by simpa using h
    subst this
    exact ⟨[], by simp [nbaseLoop_zero], by simp, by simp [fits_nil], by simp [value]⟩
  | cons b bs ih =>
    by_cases hr : r = 0
    · subst hr
      refine ⟨[], by simp [nbaseLoop_zero], by simp, ?_, ?_⟩
      · have := fits_zeros (b :: bs).reverse (by rw [prod_reverse]; omega)
        simpa using this
      · simpa using value_zeros (bs.reverse ++ [b]) _
    · rw [List.prod_cons] at h
      have hb : 0 < b := Nat.pos_of_ne_zero (by rintro rfl; simp at h)
      have hlt : r / b < bs.prod := Nat.div_lt_of_lt_mul h
      obtain ⟨t, h1, h2, h3, h4⟩ := ih (r / b) (digits ++ [r % b]) hlt
      refine ⟨r % b :: t, ?_, by simpa using h2, ?_, ?_⟩
      · rw [nbaseLoop]
        simp only [hr, if_false, Nat.ne_of_gt hb]
        rw [h1]; simp
      · simp only [List.length_cons, Nat.add_sub_add_right, List.cons_append, List.reverse_cons]
        rw [fits_append h3.length, fits_singleton]
        exact ⟨h3, r % b, rfl, Nat.mod_lt _ hb⟩
      · simp only [List.length_cons, Nat.add_sub_add_right, List.cons_append, List.reverse_cons]
        rw [value_append h3.length, h4]
        simp [Nat.div_add_mod']

/-- Below the product of the base, `Nbase_to_bin` returns the level list of that value. -/
theorem nbaseToBin_ok (base : List Nat) (r : Nat) (h : r < base.prod) :
    ∃ s, nbaseToBin r base = .ok s ∧ Fits base s ∧ value base s = r := by
  obtain ⟨t, h1, h2, h3, h4⟩ := nbaseLoop_ok base.reverse r [] (by rwa [prod_reverse])
  simp only [List.nil_append] at h1
  simp only [List.length_reverse, List.reverse_reverse] at h2 h3 h4
  exact ⟨_, by simp [nbaseToBin, h1], h3, h4⟩

theorem nbaseToBin_value {base s : List Nat} (h : Fits base s) :
    nbaseToBin (value base s) base = .ok s := by
  obtain ⟨t, h1, h2, h3⟩ := nbaseToBin_ok base _ (value_lt h)
  rw [h1, value_inj h2 h h3]

theorem prod_pos_of {l : List Nat} (h : ∀ a ∈ l, 0 < a) : 0 < l.prod := by
  induction l with
  | nil => simp
  | cons a l ih =>
    rw [List.prod_cons]
    exact Nat.mul_pos (h a (by simp)) (ih fun x hx => h x (by simp [hx]))

theorem nbaseLoop_error (bs : List Nat) (hpos : ∀ b ∈ bs, 0 < b) (r : Nat) (digits : List Nat)
    (h : bs.prod ≤ r) : nbaseLoop bs r digits = .error .index := by
  induction bs generalizing r digits with
  | nil =>
    have : r ≠ 0 := by simp at h; omega
    unfold nbaseLoop
    simp [this]
  | cons b bs ih =>
    have hb : 0 < b := hpos b (by simp)
    rw [List.prod_cons] at h
    have hp : 0 < bs.prod := prod_pos_of fun x hx => hpos x (by simp [hx])
    have hr : r ≠ 0 := by
      have := Nat.mul_pos hb hp
      omega
    rw [nbaseLoop]
    simp only [hr, if_false, Nat.ne_of_gt hb]
    apply ih (fun x hx => hpos x (by simp [hx]))
    rw [Nat.le_div_iff_mul_le hb, Nat.mul_comm]
    exact h

/-- From the product on, `Nbase_to_bin` raises `IndexError`. -/
theorem nbaseToBin_error (base : List Nat) (hpos : ∀ b ∈ base, 0 < b) (r : Nat)
    (h : base.prod ≤ r) : nbaseToBin r base = .error .index := by
  unfold nbaseToBin
  rw [nbaseLoop_error _ (by simpa using hpos) _ _ (by rwa [prod_reverse])]

/-! ### `bin_to_Nbase` -/

theorem cumprodFrom_append (acc : Nat) (l m : List Nat) :
    cumprodFrom acc (l ++ m) = cumprodFrom acc l ++ cumprodFrom (acc * l.prod) m := by
  induction l generalizing acc with
  | nil => simp [cumprodFrom]
  | cons a l ih => simp [cumprodFrom, ih, Nat.mul_assoc]

/-- The weights of the digits after the first. -/
theorem weights_cons (b : Nat) (bs : List Nat) :
    (cumprodFrom 1 (b :: bs).reverse).reverse ++ [1]
      = (b * bs.prod) :: ((cumprodFrom 1 bs.reverse).reverse ++ [1]) := by
  rw [List.reverse_cons, cumprodFrom_append]
  simp [cumprodFrom, Nat.mul_comm]

theorem zip_weights (bs : List Nat) (k : Nat) (t : List Nat) (h : t.length = bs.length) :
    (List.zipWith (· * ·) ((cumprodFrom 1 bs.reverse).reverse ++ [1]) (k :: t)).sum
      = k * bs.prod + value bs t := by
  induction bs generalizing k t with
  | nil =>
    have : t = [] := by simpa using h
    subst this
    simp [cumprodFrom, value]
  | cons b bs ih =>
    cases t with
    | nil => simp at h
    | cons l t =>
      rw [weights_cons, List.zipWith_cons_cons, List.sum_cons, ih _ _ (by simpa using h)]
      simp only [value, List.prod_cons]
      ring

theorem binToNbase_value (base s : List Nat) (h : s.length = base.length) :
    binToNbase s (.list base) = .ok (value base s) := by
  cases base with
  | nil =>
    have : s = [] := by simpa using h
    subst this
    simp [binToNbase, value, cumprodFrom]
  | cons b base =>
    cases s with
    | nil => simp at h
    | cons k s =>
      have hl : s.length = base.length := by simpa using h
      have := zip_weights base k s hl
      simp only [binToNbase, List.length_cons, hl, if_true, List.reverse_cons, cumprodFrom_append]
      simp only [cumprodFrom, List.dropLast_concat]
      rw [this]
      rfl

theorem binToNbase_int (b : Nat) (s : List Nat) :
    binToNbase s (.int b) = .ok (value (List.replicate s.length b) s) := by
  have := binToNbase_value (List.replicate s.length b) s (by simp)
  simpa [binToNbase] using this

theorem binToNbase_error (base s : List Nat) (h : s.length ≠ base.length) :
    binToNbase s (.list base) = .error .assertion := by
  simp [binToNbase, h]

/-! ### Tables -/

theorem combs_foldl (bs : List Nat) (acc : List (List Nat)) :
    bs.foldl (fun result b => result.flatMap fun x => (List.range b).map fun y => x ++ [y]) acc
      = acc.flatMap fun x => (states bs).map (x ++ ·) := by
  induction bs generalizing acc with
  | nil => simp [states]
  | cons b bs ih =>
    rw [List.foldl_cons, ih, List.flatMap_assoc]
    congr 1
    funext x
    simp only [states, List.flatMap_map, List.map_flatMap, List.map_map]
    congr 1
    funext k
    congr 1
    funext s
    simp

theorem generateCombinations_eq (bs : List Nat) : generateCombinations bs = states bs := by
  rw [generateCombinations, combs_foldl]
  simp

theorem getElem?_flatten_replicate {α} (n : Nat) (l : List α) (r : Nat) (h : r < n * l.length) :
    (List.replicate n l).flatten[r]? = l[r % l.length]? := by
  induction n generalizing r with
  | zero => simp at h
  | succ n ih =>
    rw [List.replicate_succ, List.flatten_cons]
    by_cases hr : r < l.length
    · rw [List.getElem?_append_left hr, Nat.mod_eq_of_lt hr]
    · push Not at hr
      rw [List.getElem?_append_right hr, ih _ (by rw [Nat.succ_mul] at h; omega), Nat.mod_eq_sub_mod hr]

theorem getElem?_flatMap_replicate (q rept j : Nat) (h : j < q * rept) :
    ((List.range q).flatMap fun x => List.replicate rept x)[j]? = some (j / rept) := by
  induction q with
  | zero => simp at h
  | succ q ih =>
    have hl : ((List.range q).flatMap fun x => List.replicate rept x).length = q * rept := by
      simp [List.length_flatMap]
    rw [List.range_succ, List.flatMap_append]
    by_cases hj : j < q * rept
    · rw [List.getElem?_append_left (by rwa [hl]), ih hj]
    · push Not at hj
      rw [List.getElem?_append_right (by rwa [hl]), hl]
      rw [Nat.succ_mul] at h
      have hlt : j - q * rept < rept := by omega
      simp only [List.flatMap_cons, List.flatMap_nil, List.append_nil]
      rw [List.getElem?_replicate, if_pos hlt]
      congr 1
      symm
      rw [Nat.div_eq_iff (by omega)]
      constructor
      · exact hj
      · have : q * rept + rept = (q+1) * rept := by ring
        omega

theorem prod_split (ds : List Nat) (i : Nat) (h : i < ds.length) :
    ds.prod = (ds.take i).prod * (ds[i] * (ds.drop (i + 1)).prod) := by
  conv_lhs => rw [← List.take_append_drop i ds]
  rw [List.prod_append, List.drop_eq_getElem_cons h, List.prod_cons]

theorem ttgCol_getD (ds : List Nat) (i : Nat) (h : i < ds.length) (r : Nat) (hr : r < ds.prod) :
    (ttgCol ds i ds[i]).getD r 0 = r / (ds.drop (i + 1)).prod % ds[i] := by
  have hp := prod_split ds i h
  have hlen : ((List.range ds[i]).flatMap fun x => List.replicate (ds.drop (i + 1)).prod x).length
      = ds[i] * (ds.drop (i + 1)).prod := by simp [List.length_flatMap]
  rw [ttgCol, List.getD_eq_getElem?_getD, getElem?_flatten_replicate _ _ _ (by rw [hlen, ← hp]; exact hr),
    getElem?_flatMap_replicate _ _ _ (by
      rw [hlen]
      apply Nat.mod_lt
      apply Nat.pos_of_ne_zero
      intro h0
      rw [h0, Nat.mul_zero] at hp
      omega)]
  rw [hlen, Nat.mul_comm, Nat.mod_mul_right_div_self]
  rfl

theorem fits_getElem {ds s : List Nat} (hf : Fits ds s) (i : Nat) (h : i < ds.length) :
    s[i]'(by rw [hf.1]; exact h) = value ds s / (ds.drop (i + 1)).prod % ds[i] := by
  induction ds generalizing s i with
  | nil => simp at h
  | cons d ds ih =>
    obtain ⟨k, t, rfl, hk, ht⟩ := fits_cons.1 hf
    have hv := value_lt ht
    cases i with
    | zero =>
      simp only [value]
      change k = (k * ds.prod + value ds t) / ds.prod % d
      rw [Nat.mul_comm, Nat.mul_add_div (by omega), Nat.div_eq_of_lt hv, Nat.add_zero, Nat.mod_eq_of_lt hk]
    | succ i =>
      have hi : i < ds.length := by simpa using h
      have := ih ht i hi
      change t[i]'_ = (k * ds.prod + value ds t) / (ds.drop (i + 1)).prod % ds[i]
      rw [this]
      have hp := prod_split ds i hi
      have hpos : 0 < (ds.drop (i + 1)).prod := by
        apply Nat.pos_of_ne_zero
        intro h0
        rw [h0, Nat.mul_zero, Nat.mul_zero] at hp
        omega
      have e : k * ds.prod = (ds.drop (i + 1)).prod * (ds[i] * (k * (ds.take i).prod)) := by
        rw [hp]; ring
      rw [e, Nat.mul_add_div hpos, Nat.mul_add_mod]

theorem ttg_eq (ds : List Nat) : ttg ds = states ds := by
  apply List.ext_getElem?
  intro r
  by_cases hr : r < ds.prod
  · have hs : r < (states ds).length := by rwa [length_states]
    have hf : Fits ds (states ds)[r] := mem_states.1 (List.getElem_mem hs)
    have hv := value_getElem hs
    simp only [ttg, List.getElem?_map, List.getElem?_range hr, Option.map_some, List.map_map]
    rw [List.getElem?_eq_getElem hs]
    congr 1
    apply List.ext_getElem
    · simp [hf.1]
    · intro i h1 h2
      have hi : i < ds.length := by simpa using h1
      simp only [List.getElem_map, List.getElem_range, Function.comp]
      rw [fits_getElem hf i hi, hv, List.getD_eq_getElem?_getD (l := ds), List.getElem?_eq_getElem hi, Option.getD_some,
        ttgCol_getD ds i hi r hr]
  · rw [List.getElem?_eq_none (by simp [ttg]; omega), List.getElem?_eq_none (by rw [length_states]; omega)]

theorem getIndex_states {ds s : List Nat} (h : Fits ds s) :
    getIndex (states ds) s = some (value ds s) := by
  have hlt : value ds s < (states ds).length := by rw [length_states]; exact value_lt h
  have hget : (states ds)[value ds s] = s := by
    have := getElem?_value h
    rw [List.getElem?_eq_getElem hlt] at this
    exact Option.some.inj this
  rw [getIndex, List.findIdx?_eq_some_iff_getElem]
  refine ⟨hlt, by simp [hget], ?_⟩
  intro j hj
  simp only [beq_iff_eq]
  intro he
  have h1 := value_getElem (i := j) (ds := ds) (by omega)
  rw [he] at h1
  omega

theorem getIndex_states_none {ds s : List Nat} (h : ¬ Fits ds s) :
    getIndex (states ds) s = none := by
  rw [getIndex, List.findIdx?_eq_none_iff]
  intro x hx
  simp only [beq_eq_false_iff_ne]
  rintro rfl
  exact h (mem_states.1 hx)

end QuDiet
