import Verif.Props.Tree

/-! # C83: the states written on the gates of the decomposition -/

namespace QuDiet.Tree

/-- What is written on a gate of node `k` or of its reflection. -/
theorem node_states {c k : Nat} (hk : 1 ≤ k) (hkm : k ≤ c / 2) {g : Gate}
    (hg : g ∈ pairGates (nodeGates c k) ∨ g ∈ pairGates (flipPair (nodeGates c k))) :
    1 ≤ g.control ∧ g.control ≤ c ∧ 1 ≤ g.target ∧ g.target ≤ c ∧
    (dim c g.control = if 4 ≤ c ∧ c % 4 < 2 ∧ g.target = c / 4 ∧ g.control = 2 * (c / 4) + 1 then g.controlState
      else g.controlState + 1) ∧
    (if 4 ≤ c ∧ c % 4 < 2 ∧ g.target = 2 * (c / 4) + 1 ∧ g.control = 2 * (c / 4) then g.targetState = dim c g.target + 1
      else g.targetState ≤ dim c g.target) := by
  unfold nodeGates at hg
  have hx : g.control = 2 * k ∧ g.target = (if c < 2 * k + 1 then k else 2 * k + 1) ∧
        g.controlState = (if c / 4 < k then 1 else 2) ∧
        g.targetState = (if c / 4 < k then 3 else 4) ∨
      g.control = 2 * k + 1 ∧ g.target = k ∧ 2 * k + 1 ≤ c ∧ g.controlState = (if c / 4 < k then 2 else 3) ∧ g.targetState = 3 := by
    by_cases h1 : c / 4 < k
    · by_cases h2 : c < 2 * k + 1
      · simp only [h1, h2, if_true, decide_true, makeGates, pairGates, flipPair, Option.toList, Option.map, List.append_nil,
          List.nil_append, List.mem_singleton] at hg ⊢
        rcases hg with rfl | rfl <;> simp [Gate.flip]
      · simp only [h1, h2, if_true, if_false, decide_false, Bool.false_eq_true, makeGates, pairGates, flipPair, Option.toList,
          Option.map, List.cons_append, List.nil_append, List.mem_cons, List.not_mem_nil, or_false] at hg ⊢
        rcases hg with (rfl | rfl) | (rfl | rfl) <;> simp [Gate.flip] <;> omega
    · have h2 : ¬ c < 2 * k + 1 := by omega
      simp only [h1, h2, if_false, makeGates, pairGates, flipPair, Option.toList,
          Option.map, List.cons_append, List.nil_append, List.mem_cons, List.not_mem_nil, or_false] at hg ⊢
      rcases hg with (rfl | rfl) | (rfl | rfl) <;> simp [Gate.flip] <;> omega
  unfold dim
  rcases hx with ⟨e1, e2, e3, e4⟩ | ⟨e1, e2, e0, e3, e4⟩
  · rw [e1, e2, e3, e4]
    refine ⟨by omega, by omega, by split_ifs <;> omega, by split_ifs <;> omega, ?_, ?_⟩
    · split_ifs <;> omega
    · split_ifs <;> omega
  · rw [e1, e2, e3, e4]
    refine ⟨by omega, by omega, by omega, by omega, ?_, ?_⟩
    · split_ifs <;> omega
    · split_ifs <;> omega

theorem registers_get {c : Nat} (hc : 2 ≤ c) {s : Sim} (hs : Inv c (c / 2) s) {r : Result}
    (h3 : r.qutrits = s.qutrits) (h4 : r.ququads = s.ququads) {k : Nat} (hk : 1 ≤ k) (hk' : k ≤ c + 1) :
    (registers (c + 1) r)[pos (c + 1) k]? = some (dim c k) := by
  have h := registers_getD hc hs h3 h4 hk hk'
  have hlt : pos (c + 1) k < (registers (c + 1) r).length := by rw [registers_length]; exact pos_lt hk hk'
  rw [List.getD_eq_getElem?_getD, List.getElem?_eq_getElem hlt, Option.getD_some] at h
  rw [List.getElem?_eq_getElem hlt, h]

/-- **C83.** The state of the control that is written on a gate is the highest level of the control's register, at which
`cx` acts, with one exception: if the grandparent of the last node has no right grandchild, the two gates from its right
child to it say 3, while the register has the levels 0, 1 and 2. -/
theorem C83_control_states {n : Nat} (hn : 3 ≤ n) : ∃ r, simulate n = .ok r ∧ ∀ g ∈ gates r.finalLevels,
    ∃ i, position n g.control = some i ∧ (registers n r)[i]? = some
      (if 5 ≤ n ∧ (n - 1) % 4 < 2 ∧ g.target = (n - 1) / 4 ∧ g.control = 2 * ((n - 1) / 4) + 1 then g.controlState
      else g.controlState + 1) := by
  obtain ⟨c, rfl⟩ : ∃ c, n = c + 1 := ⟨n - 1, by omega⟩
  have hc : 2 ≤ c := by omega
  obtain ⟨s, hs, h⟩ := simulate_eq hc
  refine ⟨_, h, ?_⟩
  intro g hg
  simp only [final_gates hs, List.mem_append, List.mem_flatMap, List.mem_singleton] at hg
  have key : 1 ≤ g.control ∧ g.control ≤ c ∧ dim c g.control =
      if 4 ≤ c ∧ c % 4 < 2 ∧ g.target = c / 4 ∧ g.control = 2 * (c / 4) + 1 then g.controlState
      else g.controlState + 1 := by
    rcases hg with (⟨i, _, k, hk, hg⟩ | rfl) | ⟨i, _, k, hk, hg⟩
    · obtain ⟨h1, h2, _⟩ := mem_onLevel.1 hk
      have := node_states h1 h2 (.inl hg)
      exact ⟨this.1, this.2.1, this.2.2.2.2.1⟩
    · refine ⟨le_refl _, by simp; omega, ?_⟩
      simp only [dim]
      split_ifs <;> omega
    · obtain ⟨h1, h2, _⟩ := mem_onLevel.1 hk
      have := node_states h1 h2 (.inr hg)
      exact ⟨this.1, this.2.1, this.2.2.2.2.1⟩
  obtain ⟨k1, k2, k3⟩ := key
  refine ⟨_, position_eq k1 (by omega), ?_⟩
  rw [registers_get hc hs rfl rfl k1 (by omega), k3, Nat.add_sub_cancel]
  simp only [show (5 ≤ c + 1) = (4 ≤ c) by simp]

/-- **C83.** In the exceptional case there are such gates: one, and its reflection. -/
theorem C83_wrong_state {n : Nat} (hn : 5 ≤ n) (hmod : (n - 1) % 4 < 2) : ∃ r, simulate n = .ok r ∧
    (∃ i, position n (2 * ((n - 1) / 4) + 1) = some i ∧ (registers n r)[i]? = some 3) ∧
    ∀ sign, sign = .plus ∨ sign = .minus →
      ⟨(n - 1) / 4, 2 * ((n - 1) / 4) + 1, 3, 3, sign, .quaternary⟩ ∈ gates r.finalLevels := by
  obtain ⟨c, rfl⟩ : ∃ c, n = c + 1 := ⟨n - 1, by omega⟩
  have hc : 2 ≤ c := by omega
  rw [Nat.add_sub_cancel] at hmod ⊢
  obtain ⟨s, hs, h⟩ := simulate_eq hc
  refine ⟨_, h, ?_, ?_⟩
  · refine ⟨_, position_eq (by omega) (by omega), ?_⟩
    rw [registers_get hc hs rfl rfl (by omega) (by omega)]
    unfold dim
    split_ifs <;> first | rfl | omega
  · intro sign hsign
    simp only [final_gates hs, List.mem_append, List.mem_flatMap, List.mem_singleton]
    have hl := lev_lt (c := c) (k := c / 4) hc
    have hm : c / 4 ∈ onLevel c (lev c (c / 4)) := mem_onLevel.2 ⟨by omega, by omega, rfl⟩
    rcases hsign with rfl | rfl
    · refine .inl (.inl ⟨lev c (c / 4), by simpa using hl, c / 4, hm, ?_⟩)
      simp [nodeGates, makeGates, pairGates]
    · refine .inr ⟨lev c (c / 4), by simpa using hl, c / 4, hm, ?_⟩
      simp [nodeGates, makeGates, pairGates, flipPair, Gate.flip]

/-- **C83.** The number of levels of the target that is written on a gate other than the one on the last line is not more
than the target's register has, with the same exception: then the two gates to that child say 4. -/
theorem C83_target_states {n : Nat} (hn : 3 ≤ n) : ∃ r, simulate n = .ok r ∧ ∀ g ∈ gates r.finalLevels, g.sign ≠ .dollar →
    ∃ i d, position n g.target = some i ∧ (registers n r)[i]? = some d ∧
      if 5 ≤ n ∧ (n - 1) % 4 < 2 ∧ g.target = 2 * ((n - 1) / 4) + 1 ∧ g.control = 2 * ((n - 1) / 4) then d = 3 ∧ g.targetState = 4
      else g.targetState ≤ d := by
  obtain ⟨c, rfl⟩ : ∃ c, n = c + 1 := ⟨n - 1, by omega⟩
  have hc : 2 ≤ c := by omega
  obtain ⟨s, hs, h⟩ := simulate_eq hc
  refine ⟨_, h, ?_⟩
  intro g hg hd
  simp only [final_gates hs, List.mem_append, List.mem_flatMap, List.mem_singleton] at hg
  have key : ∃ k, 1 ≤ k ∧ k ≤ c / 2 ∧ (g ∈ pairGates (nodeGates c k) ∨ g ∈ pairGates (flipPair (nodeGates c k))) := by
    rcases hg with (⟨i, _, k, hk, hg⟩ | rfl) | ⟨i, _, k, hk, hg⟩
    · obtain ⟨h1, h2, _⟩ := mem_onLevel.1 hk
      exact ⟨k, h1, h2, .inl hg⟩
    · exact (hd rfl).elim
    · obtain ⟨h1, h2, _⟩ := mem_onLevel.1 hk
      exact ⟨k, h1, h2, .inr hg⟩
  obtain ⟨k, k1, k2, hk⟩ := key
  obtain ⟨_, _, g1, g2, _, g3⟩ := node_states k1 k2 hk
  refine ⟨_, _, position_eq g1 (by omega), registers_get hc hs rfl rfl g1 (by omega), ?_⟩
  simp only [Nat.add_sub_cancel, show (5 ≤ c + 1) = (4 ≤ c) by simp]
  split_ifs with hx
  · rw [if_pos hx] at g3
    have : dim c g.target = 3 := by
      obtain ⟨x1, x2, x3, x4⟩ := hx
      rw [x3]
      unfold dim
      split_ifs <;> omega
    omega
  · rw [if_neg hx] at g3
    exact g3

/-- For 5 lines: the gate from node 3 to node 1 says that it acts at level 3, the register of node 3 is a qutrit. -/
example : ∃ r, simulate 5 = .ok r ∧ registers 5 r = [2, 3, 3, 3, 2] ∧
    (gates r.finalLevels).map (fun g => (g.target, g.control, g.controlState)) =
      [(2, 4, 1), (3, 2, 2), (1, 3, 3), (5, 1, 2), (1, 3, 3), (3, 2, 2), (2, 4, 1)] :=
  ⟨_, rfl, by decide +kernel, by decide +kernel⟩

end QuDiet.Tree
