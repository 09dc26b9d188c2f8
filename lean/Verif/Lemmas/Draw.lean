import Verif.Draw
import Verif.Props.Layers

/-! # Lemmas about drawings -/

namespace QuDiet

/-! ### Specification -/

/-- A text centred in five characters of wire, a little to the right; longer texts stay as they are. -/
def centred (s : List Char) : List Char :=
  List.replicate ((6 - s.length) / 2) '-' ++ s ++ List.replicate ((5 - s.length) / 2) '-'

/-- `X(plus)`. -/
def plusText (p : Int) : List Char := ['X', '('] ++ intStr p ++ [')']

/-- What is drawn for a gate on register `r`: nothing if the gate does not reach `r`; custom gates are not drawn. -/
def Drawn.glyph (g : Drawn) (r : Nat) : Option (List Char) :=
  match g with
  | .h q => if q = r then some ['H'] else none
  | .x q p => if q = r then some (plusText p) else none
  | .z q => if q = r then some ['Z'] else none
  | .cx c t p =>
    if t = r then some (plusText p)
    else if c = r then some ['*']
    else if min c t < r ∧ r < max c t then some ['|'] else none
  | .toffoli cs t p =>
    if (r : Int) ∈ cs then some ['*']
    else if t = r then some (plusText p)
    else if (∃ a ∈ cs ++ [t], a < r) ∧ ∃ b ∈ cs ++ [t], (r : Int) < b then some ['|'] else none
  | .custom _ => none

variable {R : Type}

/-- The cell of register `r` in a layer of calls. -/
def cellOf (layer : List (Call R)) (r : Nat) : Option (List Char) :=
  layer.findSome? fun k => k.drawn.bind (Drawn.glyph · r)

/-! ### Writing into the table -/

/-- The last of several writes to row `a`. -/
def lastWrite (ws : List (Int × List Char)) (a : Nat) : Option (List Char) :=
  ws.reverse.findSome? fun w => if w.1 = (a : Int) then some w.2 else none

theorem lastWrite_append (ws ws' : List (Int × List Char)) (a : Nat) :
    lastWrite (ws ++ ws') a = (lastWrite ws' a).or (lastWrite ws a) := by
  simp [lastWrite]

theorem lastWrite_flatMap {α : Type} (f : α → List (Int × List Char)) (l : List α) (a : Nat) :
    lastWrite (l.flatMap f) a = l.reverse.findSome? fun x => lastWrite (f x) a := by
  induction l with
  | nil => rfl
  | cons x l ih =>
    rw [List.flatMap_cons, lastWrite_append, ih, List.reverse_cons, List.findSome?_append]
    simp [List.findSome?]
    cases lastWrite (f x) a <;> rfl

theorem foldlM_put (ws : List (Int × List Char)) (g : Grid) {j : Nat} (hj : j < g.cols)
    (h : ∀ w ∈ ws, 0 ≤ w.1 ∧ w.1 < g.rows) :
    ws.foldlM (fun g w => g.put w.1 j w.2) g =
      (.ok { g with cell := fun a b => if b = j then (lastWrite ws a).or (g.cell a b) else g.cell a b } : PyM Grid) := by
  induction ws generalizing g with
  | nil =>
    rw [List.foldlM_nil]
    show Except.ok _ = _
    congr 1
    cases g
    congr 1
    funext a b
    split <;> rfl
  | cons w ws ih =>
    rw [List.foldlM_cons]
    obtain ⟨h1, h2⟩ := h w (by simp)
    have hp : g.put w.1 j w.2 = .ok { g with cell := fun a b => if a = w.1.toNat ∧ b = j then some w.2 else g.cell a b } := by
      unfold Grid.put pyIndex
      rw [if_pos h1, if_pos h2]
      simp only
      rw [if_pos hj]
    rw [hp]
    simp only [bind, Except.bind]
    have hj' : j < ({ g with cell := fun a b => if a = w.1.toNat ∧ b = j then some w.2 else g.cell a b } : Grid).cols := hj
    have := ih _ hj' (fun w hw => h w (by simp [hw]))
    rw [this]
    congr 1
    simp only [Grid.mk.injEq, true_and]
    funext a b
    by_cases hb : b = j
    · rw [if_pos hb, if_pos hb]
      have : lastWrite (w :: ws) a = (lastWrite ws a).or (if w.1 = a then some w.2 else none) := by
        rw [show w :: ws = [w] ++ ws from rfl, lastWrite_append]
        congr 1
        simp [lastWrite, List.findSome?]
      rw [this, Option.or_assoc]
      congr 1
      by_cases ha : w.1 = a
      · rw [if_pos ⟨by omega, hb⟩, if_pos ha]; rfl
      · rw [if_neg (by omega), if_neg ha]; rfl
    · rw [if_neg hb, if_neg hb, if_neg (by tauto)]

/-- The table with the moments' columns. -/
def columns (n cols : Nat) (ms : List (List (GateObj R))) : Grid where
  rows := n
  cols := cols
  cell := fun a b => (ms[b]?).bind fun m => lastWrite (m.flatMap GateObj.marks) a

/-- The table after drawing moments whose marks are all inside it. -/
theorem drawMoments_ok (ms : List (List (GateObj R))) (n cols : Nat) (hc : ms.length ≤ cols)
    (h : ∀ m ∈ ms, ∀ g ∈ m, ∀ w ∈ g.marks, 0 ≤ w.1 ∧ w.1 < n) :
    drawMoments ms { rows := n, cols := cols, cell := fun _ _ => none } =
      .ok (columns n cols ms) := by
  unfold drawMoments
  have key : ∀ (ms' done : List (List (GateObj R))), (done ++ ms').length ≤ cols →
      (∀ m ∈ ms', ∀ g ∈ m, ∀ w ∈ g.marks, 0 ≤ w.1 ∧ w.1 < n) →
      (ms'.zipIdx done.length).foldlM (fun g mj => drawMoment mj.2 mj.1 g)
        (columns n cols done) = (.ok (columns n cols (done ++ ms')) : PyM Grid) := by
    intro ms'
    induction ms' with
    | nil => intro done _ _; rw [List.append_nil]; rfl
    | cons m ms' ih =>
      intro done hl hm
      rw [List.zipIdx_cons, List.foldlM_cons]
      have hd : drawMoment done.length m (columns n cols done) = .ok (columns n cols (done ++ [m])) := by
        unfold drawMoment columns
        rw [foldlM_put]
        · congr 1
          simp only [Grid.mk.injEq, true_and]
          funext a b
          by_cases hb : b = done.length
          · subst hb
            simp
          · rw [if_neg hb]
            by_cases hb' : b < done.length
            · rw [List.getElem?_append_left hb']
            · rw [List.getElem?_eq_none (by omega), List.getElem?_eq_none (by simp; omega)]
        · simp only
          rw [List.length_append, List.length_cons] at hl
          omega
        · intro w hw
          obtain ⟨g, hg, hw⟩ := List.mem_flatMap.1 hw
          exact hm m (by simp) g hg w hw
      simp only [hd, bind, Except.bind]
      have := ih (done ++ [m]) (by simpa using hl) (fun m hm' => hm m (by simp [hm']))
      rw [List.length_append, List.length_singleton] at this
      rw [this]
      simp
  have := key ms [] (by simpa using hc) h
  simpa [columns] using this

/-! ### The marks of one operator -/

theorem lastWrite_map {l : List Int} (f : Int → List Char) (a : Nat) :
    lastWrite (l.map fun x => (x, f x)) a = if (a : Int) ∈ l then some (f a) else none := by
  unfold lastWrite
  rw [← List.map_reverse, List.findSome?_map]
  have : ∀ l : List Int, List.findSome? ((fun w : Int × List Char => if w.1 = (a : Int) then some w.2 else none) ∘
      fun x => (x, f x)) l = if (a : Int) ∈ l then some (f a) else none := by
    intro l
    induction l with
    | nil => rfl
    | cons x l ih =>
      rw [List.findSome?_cons, ih]
      simp only [Function.comp_apply]
      by_cases hx : x = a
      · subst hx; simp
      · rw [if_neg hx]
        by_cases ha : (a : Int) ∈ l
        · rw [if_pos ha, if_pos (by simp [ha])]
        · rw [if_neg ha, if_neg (by simp only [List.mem_cons, not_or]; exact ⟨fun h => hx h.symm, ha⟩)]
  rw [this]
  simp

/-- A single register, or registers that are all in range. -/
def GateObj.Inside (n : Nat) (g : GateObj R) : Prop := ∀ q ∈ g.regs, 0 ≤ q ∧ q < (n : Int)

theorem toffoli_marks (cs : List Int) (t : Int) (acting : List Int) (ds : List Nat) (U : Mat R) (p : Int) :
    (GateObj.toffoli cs t acting ds U p).marks = acting.map fun x => (x,
      if x ∈ cs then ['*'] else if x = t then plusText p else ['|']) := by
  unfold GateObj.marks
  apply List.map_congr_left
  intro x _
  split
  · rfl
  · split <;> rfl

theorem marks_inside {n : Nat} {g : GateObj R} {dims seq : List Nat} (hs : g.SpanOk dims seq) (h : g.Inside n) :
    ∀ w ∈ g.marks, 0 ≤ w.1 ∧ w.1 < n := by
  intro w hw
  unfold GateObj.Inside at h
  cases g with
  | toffoli cs t acting ds U p =>
    rw [toffoli_marks] at hw
    obtain ⟨x, hx, rfl⟩ := List.mem_map.1 hw
    obtain ⟨lb, ub, hlb, hub, rfl, _⟩ := hs
    simp only [GateObj.regs] at h
    obtain ⟨lb', ub', hlb', hub', h1, h2, h3, h4⟩ := exists_bounds (qs := cs ++ [t]) (by simp)
    rw [hlb'] at hlb
    rw [hub'] at hub
    cases hlb
    cases hub
    have := h _ h1
    have := h _ h2
    have := mem_pyRange.1 hx
    simp only
    omega
  | cx qr c t p =>
    simp only [GateObj.marks, List.mem_append, List.mem_cons, List.mem_map, List.not_mem_nil, or_false] at hw
    simp only [GateObj.regs, List.mem_cons, List.not_mem_nil, or_false, forall_eq_or_imp, forall_eq] at h
    rcases hw with (rfl | rfl) | ⟨x, hx, rfl⟩
    · exact h.1
    · exact h.2
    · have := mem_pyRange.1 hx
      simp only
      split at this <;> split at this <;> omega
  | init d s q => simp only [GateObj.marks, List.mem_singleton] at hw; subst hw; exact h _ (by simp [GateObj.regs])
  | x q d p => simp only [GateObj.marks, List.mem_singleton] at hw; subst hw; exact h _ (by simp [GateObj.regs])
  | h q d => simp only [GateObj.marks, List.mem_singleton] at hw; subst hw; exact h _ (by simp [GateObj.regs])
  | z q d => simp only [GateObj.marks, List.mem_singleton] at hw; subst hw; exact h _ (by simp [GateObj.regs])
  | meas q => simp only [GateObj.marks, List.mem_singleton] at hw; subst hw; exact h _ (by simp [GateObj.regs])
  | ident q d => simp [GateObj.marks] at hw
  | arb q d U => simp [GateObj.marks] at hw

/-- What an operator of a gate layer writes. -/
theorem marks_glyph {g : GateObj R} {dims seq : List Nat} (hs : g.SpanOk dims seq) (h1 : g.isInit = false) (h2 : g.isMeas = false) (a : Nat) :
    lastWrite g.marks a = g.drawn.bind (Drawn.glyph · a) := by
  cases g with
  | toffoli cs t acting ds U p =>
    rw [toffoli_marks, lastWrite_map]
    obtain ⟨lb, ub, hlb, hub, rfl, _⟩ := hs
    obtain ⟨lb', ub', hlb', hub', h1, h2, h3, h4⟩ := exists_bounds (qs := cs ++ [t]) (by simp)
    rw [hlb'] at hlb
    rw [hub'] at hub
    cases hlb
    cases hub
    show _ = Drawn.glyph (.toffoli cs t p) a
    unfold Drawn.glyph
    simp only
    by_cases ha : (a : Int) ∈ cs
    · have := h3 a (by simp [ha])
      have := h4 a (by simp [ha])
      rw [if_pos ha, if_pos (mem_pyRange.2 (by omega)), if_pos ha]
    · rw [if_neg ha, if_neg ha]
      by_cases ht : t = a
      · have := h3 a (by simp [ht])
        have := h4 a (by simp [ht])
        rw [if_pos ht, if_pos (mem_pyRange.2 (by omega)), if_pos ht.symm]
      · have ht' : ¬ (a : Int) = t := fun h => ht h.symm
        rw [if_neg ht, if_neg ht']
        have hne : ∀ x ∈ cs ++ [t], x ≠ (a : Int) := by
          intro x hx hxa
          subst hxa
          rcases List.mem_append.1 hx with hx | hx
          · exact ha hx
          · exact ht' (by simpa using hx)
        have hiff : (a : Int) ∈ pyRange lb (ub + 1) ↔
            (∃ x ∈ cs ++ [t], x < a) ∧ ∃ b ∈ cs ++ [t], (a : Int) < b := by
          rw [mem_pyRange]
          constructor
          · intro hh
            have e1 := hne _ h1
            have e2 := hne _ h2
            exact ⟨⟨lb, h1, by omega⟩, ub, h2, by omega⟩
          · rintro ⟨⟨x, hx, hx'⟩, y, hy, hy'⟩
            have := h3 x hx
            have := h4 y hy
            omega
        by_cases hin : (a : Int) ∈ pyRange lb (ub + 1)
        · rw [if_pos hin, if_pos (hiff.1 hin)]
        · rw [if_neg hin, if_neg (fun hh => hin (hiff.2 hh))]
  | cx qr c t p =>
    show _ = Drawn.glyph (.cx c t p) a
    simp only [GateObj.marks, Drawn.glyph]
    rw [lastWrite_append, lastWrite_map (f := fun _ => ['|'])]
    have e : lastWrite [(c, ['*']), (t, ['X', '('] ++ intStr p ++ [')'])] a =
        if t = a then some (plusText p) else if c = a then some ['*'] else none := by
      by_cases ht : t = a <;> by_cases hc : c = a <;>
        simp [lastWrite, List.findSome?, ht, hc, plusText]
    rw [e]
    by_cases hin : (a : Int) ∈ pyRange ((if c < t then c else t) + 1) (if c > t then c else t)
    · rw [if_pos hin]
      have := mem_pyRange.1 hin
      have ht : ¬ t = a := by split at this <;> split at this <;> omega
      have hc : ¬ c = a := by split at this <;> split at this <;> omega
      rw [if_neg ht, if_neg hc, if_neg ht, if_neg hc, if_pos (by split at this <;> split at this <;> omega)]
      rfl
    · rw [if_neg hin]
      have := fun h => hin (mem_pyRange.2 h)
      by_cases ht : t = a
      · rw [if_pos ht, if_pos ht]; rfl
      · rw [if_neg ht, if_neg ht]
        by_cases hc : c = a
        · rw [if_pos hc, if_pos hc]; rfl
        · rw [if_neg hc, if_neg hc, if_neg]
          · rfl
          · intro hh
            apply this
            split <;> split <;> omega
  | x q d p =>
    show _ = Drawn.glyph (.x q p) a
    simp [GateObj.marks, lastWrite, List.findSome?, Drawn.glyph, plusText]
  | h q d =>
    show _ = Drawn.glyph (.h q) a
    simp [GateObj.marks, lastWrite, List.findSome?, Drawn.glyph]
  | z q d =>
    show _ = Drawn.glyph (.z q) a
    simp [GateObj.marks, lastWrite, List.findSome?, Drawn.glyph]
  | init d s q => cases h1
  | meas q => cases h2
  | ident q d => rfl
  | arb q d U => rfl

/-! ### Layers of disjoint calls -/

theorem glyph_occupies {k : Call R} {a : Nat} {s : List Char} (h : k.drawn.bind (Drawn.glyph · a) = some s) :
    k.occupies a := by
  unfold Call.occupies
  cases k with
  | h q o =>
    simp only [Call.drawn, Option.bind_some, Drawn.glyph] at h
    split at h
    · simp [Call.regs]; omega
    · cases h
  | x q o p =>
    simp only [Call.drawn, Option.bind_some, Drawn.glyph] at h
    split at h
    · simp [Call.regs]; omega
    · cases h
  | z q o =>
    simp only [Call.drawn, Option.bind_some, Drawn.glyph] at h
    split at h
    · simp [Call.regs]; omega
    · cases h
  | cx c t p =>
    simp only [Call.drawn, Option.bind_some, Drawn.glyph] at h
    simp only [Call.regs, List.mem_cons, List.not_mem_nil, or_false, exists_eq_or_imp, exists_eq_left]
    split at h
    · omega
    · split at h
      · omega
      · split at h
        · omega
        · cases h
  | toffoli cs t p =>
    simp only [Call.drawn, Option.bind_some, Drawn.glyph] at h
    simp only [Call.regs]
    split at h
    · rename_i hh; exact ⟨⟨a, by simp [hh], le_refl _⟩, a, by simp [hh], le_refl _⟩
    · split at h
      · rename_i hh; exact ⟨⟨a, by simp [hh], le_refl _⟩, a, by simp [hh], le_refl _⟩
      · split at h
        · rename_i hh
          obtain ⟨⟨x, hx, h1⟩, y, hy, h2⟩ := hh
          exact ⟨⟨x, hx, by omega⟩, y, hy, by omega⟩
        · cases h
  | gate U q o => simp [Call.drawn, Drawn.glyph] at h
  | measure q => cases h
  | measureAll => cases h

/-- The calls of a layer occupy disjoint sets of registers. -/
def Disjoint2 (n : Nat) (layer : List (Call R)) : Prop :=
  layer.Pairwise fun k k' => ∀ r < n, ¬ (k.occupies r ∧ k'.occupies r)

theorem place_disjoint {n : Nat} {L : List (List (Call R))} (h : ∀ l ∈ L, Disjoint2 n l) (k : Call R) :
    ∀ l ∈ place n L k, Disjoint2 n l := by
  unfold place
  cases hl : L.getLast? with
  | none => simp [Disjoint2]
  | some l =>
    simp only
    split
    · rename_i hj
      intro l' hl'
      rcases List.mem_append.1 hl' with hl' | hl'
      · exact h l' (List.mem_of_mem_dropLast hl')
      · rw [List.mem_singleton] at hl'
        subst hl'
        obtain ⟨h1, q, hq, h2, h3⟩ := hj
        unfold Disjoint2
        rw [List.pairwise_append]
        refine ⟨h l (List.mem_of_getLast? hl), by simp, ?_⟩
        intro k' hk' k'' hk'' r hr
        rw [List.mem_singleton] at hk''
        subst hk''
        rintro ⟨ha, hb⟩
        have : r = q := by
          unfold Call.occupies at hb
          rw [h2] at hb
          simp at hb
          omega
        subst this
        exact h3 k' hk' ha
    · intro l' hl'
      rcases List.mem_append.1 hl' with hl' | hl'
      · exact h l' hl'
      · rw [List.mem_singleton] at hl'
        subst hl'
        simp [Disjoint2]

theorem layering_disjoint (n : Nat) (ks : List (Call R)) : ∀ l ∈ layering n ks, Disjoint2 n l := by
  have key : ∀ L : List (List (Call R)), (∀ l ∈ L, Disjoint2 n l) → ∀ l ∈ ks.foldl (place n) L, Disjoint2 n l := by
    induction ks with
    | nil => intro L h; exact h
    | cons k ks ih => intro L h; exact ih _ (place_disjoint h k)
  exact key [] (by simp)

/-- The only hit does not depend on the order. -/
theorem findSome_perm {α β : Type} {f : α → Option β} {l l' : List α} (hp : l.Perm l')
    (h : l.Pairwise fun a b => f a = none ∨ f b = none) : l.findSome? f = l'.findSome? f := by
  induction hp with
  | nil => rfl
  | cons x _ ih =>
    rw [List.findSome?_cons, List.findSome?_cons, ih (List.pairwise_cons.1 h).2]
  | swap x y l =>
    have := (List.pairwise_cons.1 h).1 x (by simp)
    simp only [List.findSome?_cons]
    rcases this with e | e <;> rw [e] <;> simp only <;> cases f x <;> cases f y <;> simp_all
  | trans h1 h2 ih1 ih2 =>
    rw [ih1 h, ih2]
    exact (h1.pairwise_iff (by intro a b; exact Or.symm)).1 h

theorem findSome_filter {α β : Type} {f : α → Option β} {p : α → Bool} {l : List α}
    (h : ∀ a ∈ l, p a = false → f a = none) : (l.filter p).findSome? f = l.findSome? f := by
  induction l with
  | nil => rfl
  | cons a l ih =>
    rw [List.findSome?_cons]
    cases hp : p a with
    | true => rw [List.filter_cons_of_pos hp, List.findSome?_cons, ih fun a ha => h a (by simp [ha])]
    | false => rw [List.filter_cons_of_neg (by simp [hp]), h a (by simp) hp, ih fun a ha => h a (by simp [ha])]

/-- The column of a layer of operators is that of its calls. -/
theorem column_eq {dims seq : List Nat} {m : List (GateObj R)} {layer : List (Call R)} (hf : Fits2 dims seq m layer)
    (hd : Disjoint2 dims.length layer) (h1 : ∀ g ∈ m, g.isInit = false) (h2 : ∀ g ∈ m, g.isMeas = false) {a : Nat} (ha : a < dims.length) :
    lastWrite (m.flatMap GateObj.marks) a = cellOf layer a := by
  rw [lastWrite_flatMap]
  have e0 : (m.reverse.findSome? fun g => lastWrite g.marks a) =
      (m.reverse.map fun g => g.drawn).findSome? (fun d => d.bind (Drawn.glyph · a)) := by
    rw [List.findSome?_map]
    have : ∀ l : List (GateObj R), (∀ g ∈ l, g ∈ m) → (l.findSome? fun g => lastWrite g.marks a) =
        l.findSome? ((fun d => d.bind (Drawn.glyph · a)) ∘ fun g => g.drawn) := by
      intro l
      induction l with
      | nil => intro _; rfl
      | cons g l ih =>
        intro hl
        have hg := hl g (by simp)
        rw [List.findSome?_cons, List.findSome?_cons, ih fun g hg => hl g (by simp [hg]),
          marks_glyph (hf.spans g hg) (h1 g hg) (h2 g hg)]
        rfl
    exact this _ (by simp)
  have e1 : cellOf layer a = ((layer.filter fun k => ∃ r < dims.length, k.occupies r).map fun k => k.drawn).findSome?
      (fun d => d.bind (Drawn.glyph · a)) := by
    rw [List.findSome?_map, findSome_filter]
    · rfl
    · intro k _ hk
      simp only [decide_eq_false_iff_not] at hk
      cases hh : k.drawn.bind (Drawn.glyph · a) with
      | none => exact hh
      | some s => exact absurd ⟨a, ha, glyph_occupies hh⟩ hk
  have hpw : (layer.filter fun k => ∃ r < dims.length, k.occupies r).map (fun k => k.drawn) |>.Pairwise
      fun d d' => d.bind (Drawn.glyph · a) = none ∨ d'.bind (Drawn.glyph · a) = none := by
    rw [List.pairwise_map]
    refine List.Pairwise.filter _ (hd.imp ?_)
    intro k k' hkk
    cases h3 : k.drawn.bind (Drawn.glyph · a) with
    | none => exact .inl rfl
    | some s =>
      cases h4 : k'.drawn.bind (Drawn.glyph · a) with
      | none => exact .inr rfl
      | some s' => exact absurd ⟨glyph_occupies h3, glyph_occupies h4⟩ (hkk a ha)
  rw [e0, e1, findSome_perm hf.shows.symm hpw]
  have hrev : (m.reverse.map fun g => g.drawn) = (m.map fun g => g.drawn).reverse := by rw [List.map_reverse]
  have hfil : ((m.filter fun g => !g.isIdent).map fun g => g.drawn).findSome? (fun d => d.bind (Drawn.glyph · a)) =
      (m.map fun g => g.drawn).findSome? (fun d => d.bind (Drawn.glyph · a)) := by
    rw [List.findSome?_map, List.findSome?_map, findSome_filter]
    intro g _ hg
    cases g <;> first | rfl | simp [GateObj.isIdent] at hg
  rw [hfil, hrev]
  refine findSome_perm (List.reverse_perm _) ?_
  rw [List.pairwise_reverse]
  have hpw' := (hf.shows.symm.pairwise_iff (by intro a b; exact Or.symm)).1 hpw
  rw [List.pairwise_map] at hpw' ⊢
  rw [List.pairwise_filter] at hpw'
  refine hpw'.imp ?_
  intro g g' hh
  by_cases hg : g.isIdent = true
  · right
    cases g <;> first | rfl | simp [GateObj.isIdent] at hg
  · by_cases hg' : g'.isIdent = true
    · left
      cases g' <;> first | rfl | simp [GateObj.isIdent] at hg'
    · exact (hh (by simpa using hg) (by simpa using hg')).symm

/-! ### Padding -/

theorem padCell_some (s : List Char) : padCell (some s) = centred s := by
  unfold padCell centred
  rcases h : s with _ | ⟨a, _ | ⟨b, _ | ⟨c, _ | ⟨d, _ | ⟨e, t⟩⟩⟩⟩⟩ <;> simp [padGo]

theorem Layer.notInit {β : Type} {n : Nat} {P : Nat → Nat → GateObj R → β → Prop} {off : Nat}
    {m : List (GateObj R)} {bs : List β} (h : Layer n P off m bs) : ∀ g ∈ m, g.isInit = false := by
  induction h with
  | nil => simp
  | cons _ _ hinit _ _ _ ih =>
    intro g hg
    rcases List.mem_cons.1 hg with rfl | hg
    · exact hinit
    · exact ih g hg

end QuDiet
