import Verif.StrWhile
import Verif.Props.InfoWhile
import Verif.Props.Draw

/-! # C103: `str(circuit)` while other threads build the circuit -/

namespace QuDiet
open Spec

variable {R : Type}

/-! ### Specification -/

/-- The table that `str(circuit)` of the circuit as it is shows. -/
def Circuit.table (c : Circuit R) : PyM Grid := drawMoments c.flow.moments (blank c c.depth)

/-- `str(circuit)` is the text of the table. -/
theorem str_table (c : Circuit R) : c.str = c.table.map fun g => g.text c.depth c.width.text := by
  unfold Circuit.str Circuit.table blank
  cases drawMoments c.flow.moments _ <;> rfl

/-- Every symbol of the table `g` is at the same place of `g'`. -/
def Grid.Within (g g' : Grid) : Prop :=
  ∀ r < g.rows, ∀ j < g.cols, ∀ s, g.cell r j = some s → g'.cell r j = some s

/-! ### Writing beyond the table -/

theorem drawMoment_beyond (m : List (GateObj R)) (g : Grid) {j : Nat} (hj : g.cols ≤ j) :
    drawMoment j m g = .ok g ∨ drawMoment j m g = .error .index ∧ m ≠ [] := by
  unfold drawMoment
  cases hw : m.flatMap GateObj.marks with
  | nil => exact .inl rfl
  | cons w ws =>
    refine .inr ⟨?_, ?_⟩
    · rw [List.foldlM_cons]
      have : g.put w.1 j w.2 = .error .index := by
        unfold Grid.put
        rcases pyIndex_cases g.rows w.1 with ⟨k, hk⟩ | hk
        · rw [hk]
          simp only
          rw [if_neg (by omega)]
        · rw [hk]
      rw [this]
      rfl
    · rintro rfl
      simp at hw

/-- Drawing layers whose marks are on existing rows: what is beyond the table raises or shows nothing. -/
theorem drawMoments_cases (ms : List (List (GateObj R))) (n cols : Nat)
    (h : ∀ m ∈ ms, ∀ g ∈ m, ∀ w ∈ g.marks, 0 ≤ w.1 ∧ w.1 < n) :
    drawMoments ms { rows := n, cols := cols, cell := fun _ _ => none } = .ok (columns n cols (ms.take cols)) ∨
      drawMoments ms { rows := n, cols := cols, cell := fun _ _ => none } = .error .index ∧
        ∃ (j : Nat) (m : List (GateObj R)), cols ≤ j ∧ ms[j]? = some m ∧ m ≠ [] := by
  have h1 := drawMoments_ok (ms.take cols) n cols (by rw [List.length_take]; omega)
    fun m hm => h m (List.mem_of_mem_take hm)
  unfold drawMoments at h1 ⊢
  have hsplit : ms.zipIdx = (ms.take cols).zipIdx ++ (ms.drop cols).zipIdx (ms.take cols).length := by
    conv_lhs => rw [← List.take_append_drop cols ms]
    rw [List.zipIdx_append, Nat.zero_add]
  rw [hsplit, List.foldlM_append, h1]
  simp only [bind, Except.bind]
  by_cases hc : ms.length ≤ cols
  · rw [List.drop_eq_nil_of_le hc]
    exact .inl rfl
  have hlen : (ms.take cols).length = cols := by rw [List.length_take]; omega
  rw [hlen]
  have key : ∀ (l : List (List (GateObj R))) (i : Nat) (g : Grid), g.cols ≤ i →
      (l.zipIdx i).foldlM (fun g mj => drawMoment mj.2 mj.1 g) g = (.ok g : PyM Grid) ∨
      (l.zipIdx i).foldlM (fun g mj => drawMoment mj.2 mj.1 g) g = (.error .index : PyM Grid) ∧
        ∃ (j : Nat) (m : List (GateObj R)), l[j]? = some m ∧ m ≠ [] := by
    intro l
    induction l with
    | nil => intro i g _; exact .inl rfl
    | cons m l ih =>
      intro i g hi
      rw [List.zipIdx_cons, List.foldlM_cons]
      rcases drawMoment_beyond m g hi with e | ⟨e, hm⟩
      · simp only [e, bind, Except.bind]
        rcases ih (i + 1) g (by omega) with e' | ⟨e', j, m', hj, hm'⟩
        · exact .inl e'
        · exact .inr ⟨e', j + 1, m', by simpa using hj, hm'⟩
      · simp only [e, bind, Except.bind]
        exact .inr ⟨trivial, 0, m, by simp, hm⟩
  rcases key (ms.drop cols) cols (columns n cols (ms.take cols)) (le_refl _) with e | ⟨e, j, m, hj, hm⟩
  · exact .inl e
  · exact .inr ⟨e, cols + j, m, by omega, by rwa [List.getElem?_drop] at hj, hm⟩

/-! ### Where the marks are -/

variable [CommRing R] [StarRing R] [DecidableEq R] [UnitaryCheck R]
variable {N : Numerics R} {dims : List Nat} {init : List Int} {c0 c : Circuit R}
  {progs : List (List (Call R))} {ts : List (Thread R)} {layers : List (List (GateObj R) × List (Option (Block R)))}
  {kss : List (List (Call R))} {cur : Nat → Option (Call R)} {made : Nat → List (Call R)}

/-- The marks of an operator are on existing registers, between those that it names. -/
def Neat (n : Nat) (g : GateObj R) : Prop := ∀ w ∈ g.marks, InHull g.regs w.1 ∧ 0 ≤ w.1 ∧ w.1 < (n : Int)

theorem neat_of_ident {n : Nat} {g : GateObj R} (h : g.isIdent = true) : Neat n g := by
  intro w hw
  cases g <;> simp_all [GateObj.isIdent, GateObj.marks]

theorem Call.op_neat {k : Call R} (hk : k.Valid dims) {g : GateObj R} (h : k.op dims = .ok g) : Neat dims.length g := by
  cases k with
  | h q d =>
    cases h
    intro w hw
    simp only [GateObj.marks, List.mem_singleton] at hw
    subst hw
    exact ⟨⟨⟨q, by simp [GateObj.regs], le_refl _⟩, q, by simp [GateObj.regs], le_refl _⟩, hk.1⟩
  | x q d p =>
    cases h
    intro w hw
    simp only [GateObj.marks, List.mem_singleton] at hw
    subst hw
    exact ⟨⟨⟨q, by simp [GateObj.regs], le_refl _⟩, q, by simp [GateObj.regs], le_refl _⟩, hk.1⟩
  | z q d =>
    cases h
    intro w hw
    simp only [GateObj.marks, List.mem_singleton] at hw
    subst hw
    exact ⟨⟨⟨q, by simp [GateObj.regs], le_refl _⟩, q, by simp [GateObj.regs], le_refl _⟩, hk.1⟩
  | cx a t p =>
    cases h
    obtain ⟨ha, ht⟩ := hk
    unfold InRange at ha ht
    intro w hw
    simp only [GateObj.marks, List.mem_append, List.mem_cons, List.mem_map, List.not_mem_nil, or_false] at hw
    have hull : ∀ x : Int, min a t ≤ x → x ≤ max a t → InHull [a, t] x := by
      intro x h1 h2
      unfold InHull
      simp
      omega
    simp only [GateObj.regs]
    rcases hw with (rfl | rfl) | ⟨x, hx, rfl⟩
    · exact ⟨hull _ (by simp) (by simp), ha⟩
    · exact ⟨hull _ (by simp) (by simp), ht⟩
    · have := mem_pyRange.1 hx
      simp only
      refine ⟨hull _ ?_ ?_, ?_⟩ <;> split at this <;> split at this <;> omega
  | toffoli cs t p =>
    obtain ⟨ht, hcs, _⟩ := hk
    simp only [Call.op] at h
    cases hv : toffoliDm (R := R) cs t p dims with
    | error e => rw [hv] at h; cases h
    | ok v =>
      obtain ⟨U, lb, ub, ds⟩ := v
      rw [hv] at h
      cases h
      obtain ⟨lb', ub', hlb, hub, h1, h2, h3, h4⟩ := exists_bounds (qs := cs ++ [t]) (by simp)
      obtain ⟨e1, e2, _⟩ := toffoliDm_bounds hlb hub hv
      simp only at e1 e2
      subst e1 e2
      have hin : ∀ q ∈ cs ++ [t], InRange dims q := by
        intro q hq
        rcases List.mem_append.1 hq with hq | hq
        · exact hcs q hq
        · rw [List.mem_singleton] at hq
          rw [hq]
          exact ht
      have hl := hin _ h1
      have hu := hin _ h2
      unfold InRange at hl hu
      intro w hw
      rw [toffoli_marks] at hw
      obtain ⟨x, hx, rfl⟩ := List.mem_map.1 hw
      have := mem_pyRange.1 hx
      simp only [GateObj.regs] at this ⊢
      exact ⟨⟨⟨_, h1, by omega⟩, _, h2, by omega⟩, by omega, by omega⟩
  | gate U q d =>
    cases q <;> · cases h; intro w hw; simp [GateObj.marks] at hw
  | measure q => cases h
  | measureAll => cases h

/-- No two operators of a layer reach the same register. -/
theorem Layer.unique {β : Type} {n : Nat} {P : Nat → Nat → GateObj R → β → Prop} {off : Nat} {m : List (GateObj R)} {bs : List β}
    (h : Layer n P off m bs) {x y : GateObj R} (hx : x ∈ m) (hy : y ∈ m) {r : Nat} (hr : r < n) (h1 : InHull x.regs r)
    (h2 : InHull y.regs r) : x = y := by
  have low : ∀ {off : Nat} {m : List (GateObj R)} {bs : List β}, Layer n P off m bs → ∀ x ∈ m, InHull x.regs r → off ≤ r := by
    intro off m bs h
    induction h with
    | nil => intro x hx; simp at hx
    | cons hk hle hi hcov hP rest ih =>
      intro x hx hh
      rcases List.mem_cons.1 hx with rfl | hx
      · exact ((hcov r hr).2 hh).1
      · have := ih x hx hh
        omega
  induction h with
  | nil => simp at hx
  | cons hk hle hi hcov hP rest ih =>
    rcases List.mem_cons.1 hx with ex | hx
    · rcases List.mem_cons.1 hy with ey | hy
      · rw [ex, ey]
      · have := low rest y hy h2
        rw [ex] at h1
        have := ((hcov r hr).2 h1).2
        omega
    · rcases List.mem_cons.1 hy with ey | hy
      · have := low rest x hx h1
        rw [ey] at h2
        have := ((hcov r hr).2 h2).2
        omega
      · exact ih hx hy

/-- In each layer of `M`, two operators with a mark on the same register are the same. -/
def MarksApart (M : List (List (GateObj R))) : Prop :=
  ∀ m ∈ M, ∀ x ∈ m, ∀ y ∈ m, ∀ w ∈ x.marks, ∀ w' ∈ y.marks, w.1 = w'.1 → x = y

theorem initOps_marks {g : GateObj R} (hg : g ∈ initOps (R := R) dims init) :
    ∃ i < dims.length, g = .init (dims.getD i 0) (init.getD i 0) i := by
  obtain ⟨i, hi, rfl⟩ := List.mem_map.1 hg
  exact ⟨i, List.mem_range.1 hi, rfl⟩

theorem Shared.marksApart (h : Shared N dims init c layers kss) (hn : ∀ m ∈ c.flow.moments, ∀ g ∈ m, Neat dims.length g) :
    MarksApart c.flow.moments := by
  intro m hm x hx y hy w hw w' hw' e
  have nx := hn m hm x hx w hw
  have ny := hn m hm y hy w' hw'
  rw [h.unm.moments, List.mem_cons] at hm
  rcases hm with rfl | hm
  · obtain ⟨i, hi, rfl⟩ := initOps_marks hx
    obtain ⟨j, hj, rfl⟩ := initOps_marks hy
    simp only [GateObj.marks, List.mem_singleton] at hw hw'
    subst hw hw'
    simp at e
    rw [e]
  · obtain ⟨l, hl, rfl⟩ := List.mem_map.1 hm
    obtain ⟨r, hr⟩ : ∃ r : Nat, w.1 = r := ⟨w.1.toNat, by omega⟩
    refine (h.unm.lay l hl).unique hx hy (r := r) (by omega) (by rw [← hr]; exact nx.1) (by rw [← hr, e]; exact ny.1)

theorem lastWrite_mem {ws : List (Int × List Char)} {a : Nat} {s : List Char} (h : lastWrite ws a = some s) :
    ∃ w ∈ ws, w.1 = (a : Int) := by
  obtain ⟨w, hw, e⟩ := List.exists_of_findSome?_eq_some h
  refine ⟨w, by simpa using hw, ?_⟩
  by_contra hne
  rw [if_neg hne] at e
  cases e

/-- Layers that grow keep what they show. -/
theorem Grows.shows {M M' : List (List (GateObj R))} (h : Grows M M') (ha : MarksApart M') {a b : Nat} {s : List Char}
    (hs : ((M[b]?).bind fun m => lastWrite (m.flatMap GateObj.marks) a) = some s) :
    ((M'[b]?).bind fun m => lastWrite (m.flatMap GateObj.marks) a) = some s := by
  cases hm : M[b]? with
  | none => rw [hm] at hs; cases hs
  | some m =>
    rw [hm] at hs
    simp only [Option.bind_some] at hs
    obtain ⟨m', hm', _, hg⟩ := h b m hm
    rw [hm']
    simp only [Option.bind_some]
    rw [lastWrite_flatMap] at hs ⊢
    obtain ⟨x, hx, e⟩ := List.exists_of_findSome?_eq_some hs
    rw [List.mem_reverse] at hx
    obtain ⟨w, hw, ew⟩ := lastWrite_mem e
    have hx' : x ∈ m' := by
      obtain ⟨j, hj, rfl⟩ := List.getElem_of_mem hx
      rcases hg j _ (List.getElem?_eq_getElem hj) with e' | e'
      · exact List.mem_of_getElem? e'
      · exfalso
        generalize m[j] = g at e' hw
        cases g <;> simp_all [GateObj.isIdent, GateObj.marks]
    cases hf : m'.reverse.findSome? fun x => lastWrite x.marks a with
    | none =>
      rw [List.findSome?_eq_none_iff] at hf
      rw [hf x (by simpa using hx')] at e
      cases e
    | some s' =>
      obtain ⟨y, hy, e'⟩ := List.exists_of_findSome?_eq_some hf
      rw [List.mem_reverse] at hy
      obtain ⟨w', hw', ew'⟩ := lastWrite_mem e'
      have := ha m' (List.mem_of_getElem? hm') x hx' y hy w hw w' hw' (by rw [ew, ew'])
      subst this
      rw [e] at e'
      exact e'.symm

/-- Layers below some that are apart. -/
theorem Grows.marksApart {M M' : List (List (GateObj R))} (h : Grows M M') (ha : MarksApart M') : MarksApart M := by
  intro m hm x hx y hy w hw w' hw' e
  obtain ⟨b, hb, rfl⟩ := List.getElem_of_mem hm
  obtain ⟨m', hm', _, hg⟩ := h b _ (List.getElem?_eq_getElem hb)
  have up : ∀ z ∈ M[b], ∀ v ∈ z.marks, z ∈ m' := by
    intro z hz v hv
    obtain ⟨j, hj, rfl⟩ := List.getElem_of_mem hz
    rcases hg j _ (List.getElem?_eq_getElem hj) with e' | e'
    · exact List.mem_of_getElem? e'
    · exfalso
      generalize M[b][j] = g at e' hv
      cases g <;> simp_all [GateObj.isIdent, GateObj.marks]
  exact ha m' (List.mem_of_getElem? hm') x (up x hx w hw) y (up y hy w' hw') w hw w' hw' e

/-! ### All schedules -/

theorem Grows.length_le {M M' : List (List (GateObj R))} (h : Grows M M') : M.length ≤ M'.length := by
  by_contra hlt
  obtain ⟨m', h1, _⟩ := h M'.length _ (List.getElem?_eq_getElem (by omega))
  rw [List.getElem?_eq_none (le_refl _)] at h1
  cases h1

theorem Grows.mem {M M' : List (List (GateObj R))} (h : Grows M M') {m : List (GateObj R)} (hm : m ∈ M) {g : GateObj R}
    (hg : g ∈ m) : g.isIdent = true ∨ ∃ m' ∈ M', g ∈ m' := by
  obtain ⟨b, hb, rfl⟩ := List.getElem_of_mem hm
  obtain ⟨m', hm', _, h3⟩ := h b _ (List.getElem?_eq_getElem hb)
  obtain ⟨j, hj, rfl⟩ := List.getElem_of_mem hg
  rcases h3 j _ (List.getElem?_eq_getElem hj) with e | e
  · exact .inr ⟨m', List.mem_of_getElem? hm', List.mem_of_getElem? e⟩
  · exact .inl e

/-- All marks are where they should be. -/
def NeatAll (n : Nat) (M : List (List (GateObj R))) : Prop := ∀ m ∈ M, ∀ g ∈ m, Neat n g

theorem NeatAll.below {n : Nat} {M M' : List (List (GateObj R))} (h : Grows M M') (hn : NeatAll n M') : NeatAll n M := by
  intro m hm g hg
  rcases h.mem hm hg with e | ⟨m', hm', hg'⟩
  · exact neat_of_ident e
  · exact hn m' hm' g hg'

theorem NeatAll.rows {n : Nat} {M : List (List (GateObj R))} (h : NeatAll n M) :
    ∀ m ∈ M, ∀ g ∈ m, ∀ w ∈ g.marks, 0 ≤ w.1 ∧ w.1 < (n : Int) := fun m hm g hg w hw => (h m hm g hg w hw).2

theorem Shared.depth (h : Shared N dims init c layers kss) : c.depth = (c.flow.moments.length : Int) - 1 := by
  have noMeas : ∀ m ∈ c.flow.moments, ∀ g ∈ m, g.isMeas = false := by
    intro m hm g hg
    rw [h.unm.moments, List.mem_cons] at hm
    rcases hm with rfl | hm
    · obtain ⟨i, _, rfl⟩ := initOps_marks hg
      rfl
    · obtain ⟨l, hl, rfl⟩ := List.mem_map.1 hm
      exact h.unm.noMeas l hl g hg
  unfold Circuit.depth
  have hlast : (c.flow.moments.getLast?.getD []).any (·.isMeas) = false := by
    rw [List.any_eq_false]
    intro g hg
    cases hl : c.flow.moments.getLast? with
    | none => rw [hl] at hg; simp at hg
    | some m =>
      rw [hl] at hg
      simp [noMeas m (List.mem_of_getLast? hl) g hg]
  simp [hlast]

theorem Running.neat [Nontrivial R] (hN : N.Sized) (h2 : ∀ d ∈ dims, 2 ≤ d) (hap : NoSharing progs)
    (hv : ∀ p ∈ progs, ∀ k ∈ p, k.Valid dims) (h : Running N dims init c0 progs c ts layers kss cur made)
    (hn : NeatAll dims.length c.flow.moments) (i : Nat) :
    ∃ layers' kss' cur' made', Running N dims init c0 progs (stepThread (c, ts) i).1 (stepThread (c, ts) i).2
      layers' kss' cur' made' ∧ NeatAll dims.length (stepThread (c, ts) i).1.flow.moments ∧
      Grows c.flow.moments (stepThread (c, ts) i).1.flow.moments := by
  obtain ⟨layers', kss', cur', made', h', _⟩ := h.step hN h2 hap hv i
  obtain ⟨hg, hf, _⟩ := h.tally_step hN h2 hv i h'
  refine ⟨layers', kss', cur', made', h', fun m hm g hgm => ?_, hg⟩
  rcases hf m hm g hgm with ⟨m0, h0, hg0⟩ | e | ⟨k, hk, hop⟩
  · exact hn m0 h0 g hg0
  · exact neat_of_ident e
  · exact Call.op_neat hk hop

/-- What holds of the circuit in every state. -/
def Sound (N : Numerics R) (dims : List Nat) (init : List Int) (c0 : Circuit R) (progs : List (List (Call R)))
    (σ : Circuit R × List (Thread R)) : Prop :=
  (∃ layers kss cur made, Running N dims init c0 progs σ.1 σ.2 layers kss cur made) ∧ NeatAll dims.length σ.1.flow.moments

theorem Sound.depth {σ : Circuit R × List (Thread R)} (h : Sound N dims init c0 progs σ) :
    σ.1.depth = (σ.1.flow.moments.length : Int) - 1 := by
  obtain ⟨⟨_, _, _, _, h⟩, _⟩ := h
  exact h.shared.depth

theorem Sound.marksApart {σ : Circuit R × List (Thread R)} (h : Sound N dims init c0 progs σ) : MarksApart σ.1.flow.moments := by
  obtain ⟨⟨_, _, _, _, h⟩, hn⟩ := h
  exact h.shared.marksApart hn

theorem Sound.step [Nontrivial R] (hN : N.Sized) (h2 : ∀ d ∈ dims, 2 ≤ d) (hap : NoSharing progs)
    (hv : ∀ p ∈ progs, ∀ k ∈ p, k.Valid dims) {σ : Circuit R × List (Thread R)} (h : Sound N dims init c0 progs σ) (i : Nat) :
    Sound N dims init c0 progs (stepThread σ i) ∧ Grows σ.1.flow.moments (stepThread σ i).1.flow.moments := by
  obtain ⟨⟨_, _, _, _, h⟩, hn⟩ := h
  obtain ⟨l, k, cu, ma, h', hn', hg⟩ := h.neat hN h2 hap hv hn i
  exact ⟨⟨⟨l, k, cu, ma, h'⟩, hn'⟩, hg⟩

theorem Sound.steps [Nontrivial R] (hN : N.Sized) (h2 : ∀ d ∈ dims, 2 ≤ d) (hap : NoSharing progs)
    (hv : ∀ p ∈ progs, ∀ k ∈ p, k.Valid dims) (s : List Nat) {σ : Circuit R × List (Thread R)}
    (h : Sound N dims init c0 progs σ) : Sound N dims init c0 progs (s.foldl stepThread σ) := by
  induction s generalizing σ with
  | nil => exact h
  | cons i s ih => exact ih (h.step hN h2 hap hv i).1

/-- What `str(circuit)` knows; `M0` were the layers when it began, `M` are those now. -/
def Sc.Knows (M0 M : List (List (GateObj R))) : Sc R → Prop
  | .looping r => r.Knows M0 M
  | .done d seen d' => d = (M0.length : Int) - 1 ∧ Grows M0 seen ∧ Grows seen M ∧ (M0.length : Int) - 1 ≤ d' ∧
      d' ≤ (M.length : Int) - 1

theorem Sc.Knows.grow {M0 M M' : List (List (GateObj R))} {r : Sc R} (h : r.Knows M0 M) (g : Grows M M') : r.Knows M0 M' := by
  cases r with
  | looping r => exact Ic.Knows.grow h g
  | done d seen d' =>
    obtain ⟨h1, h2, h3, h4, h5⟩ := h
    exact ⟨h1, h2, h3.trans g, h4, by have := g.length_le; omega⟩

theorem Sc.Knows.step {M0 : List (List (GateObj R))} {c : Circuit R} (hd : c.depth = (c.flow.moments.length : Int) - 1) {r : Sc R}
    (h : r.Knows M0 c.flow.moments) : (r.step c).Knows M0 c.flow.moments := by
  cases r with
  | done d seen d' => exact h
  | looping r =>
    cases r with
    | start => exact h.elim
    | reading d seen cur => exact Ic.Knows.step (f := c.flow) (r := .reading d seen cur) h
    | finished d seen =>
      obtain ⟨h1, h2, h3⟩ := h
      exact ⟨h1, h2, h3, by rw [hd]; have := (h2.trans h3).length_le; omega, by rw [hd]⟩

theorem sound_str [Nontrivial R] (hN : N.Sized) (h2 : ∀ d ∈ dims, 2 ≤ d) (hap : NoSharing progs)
    (hv : ∀ p ∈ progs, ∀ k ∈ p, k.Valid dims) {M0 : List (List (GateObj R))} (s : List (Option Nat))
    {σ : (Circuit R × List (Thread R)) × Sc R} (h : Sound N dims init c0 progs σ.1) (hk : σ.2.Knows M0 σ.1.1.flow.moments) :
    Sound N dims init c0 progs (s.foldl stepStr σ).1 ∧ (s.foldl stepStr σ).2.Knows M0 (s.foldl stepStr σ).1.1.flow.moments := by
  induction s generalizing σ with
  | nil => exact ⟨h, hk⟩
  | cons o s ih =>
    cases o with
    | none => exact ih (σ := stepStr σ none) h (hk.step h.depth)
    | some i =>
      obtain ⟨h', hg⟩ := h.step hN h2 hap hv i
      exact ih (σ := stepStr σ (some i)) h' (hk.grow hg)

/-- What is known whenever `str(circuit)` has been called. -/
theorem str_core [Nontrivial R] (hne : dims ≠ []) (h : ValidStart (dims.map Int.ofNat) init)
    (hv : ∀ p ∈ progs, ∀ k ∈ p, k.Valid dims) (hap : NoSharing progs)
    (hc : Circuit.new (.list (dims.map Int.ofNat)) init none = .ok c0) (s0 : List Nat) (s : List (Option Nat)) :
    ∃ N : Numerics R, Sound N dims init c0 progs (runThreads c0 progs s0) ∧
      Sound N dims init c0 progs (runStr c0 progs (s0.map some ++ none :: s)).1 ∧
      Sound N dims init c0 progs (runThreads c0 progs []) ∧
      (runStr c0 progs (s0.map some ++ none :: s)).2.Knows (runThreads c0 progs s0).1.flow.moments
        (runStr c0 progs (s0.map some ++ none :: s)).1.1.flow.moments := by
  have hN : (⟨fun d => List.replicate d 0, fun _ => 0⟩ : Numerics R).Sized := fun d _ => by simp
  refine ⟨⟨fun d => List.replicate d 0, fun _ => 0⟩, ?_⟩
  have h2 := ge_two_of_valid h
  rw [new_ok rfl h none] at hc
  injection hc with hc
  subst hc
  have start := Running.start (N := (⟨fun d => List.replicate d 0, fun _ => 0⟩ : Numerics R)) (init := init) hne progs
  have hs0 : Sound (⟨fun d => List.replicate d 0, fun _ => 0⟩ : Numerics R) dims init
      (freshCircuit (.list (dims.map Int.ofNat)) dims init none) progs
      (runThreads (freshCircuit (.list (dims.map Int.ofNat)) dims init none) progs []) := by
    refine ⟨⟨_, _, _, _, start⟩, ?_⟩
    intro m hm g hg
    have : m = initOps dims init := by simpa [runThreads, freshCircuit] using hm
    subst this
    obtain ⟨i, hi, rfl⟩ := initOps_marks hg
    intro w hw
    simp only [GateObj.marks, List.mem_singleton] at hw
    subst hw
    exact ⟨⟨⟨_, by simp [GateObj.regs], le_refl _⟩, _, by simp [GateObj.regs], le_refl _⟩, by simp, by simp [hi]⟩
  have r0 := hs0.steps hN h2 hap hv s0
  set c0 : Circuit R := freshCircuit (.list (dims.map Int.ofNat)) dims init none with hc0
  have hs : ∀ (s : List Nat) (σ : Circuit R × List (Thread R)) (r : Sc R),
      (s.map some).foldl stepStr (σ, r) = (s.foldl stepThread σ, r) := by
    intro s
    induction s with
    | nil => intro σ r; rfl
    | cons i s ih => intro σ r; exact ih _ _
  have hrun : runStr c0 progs (s0.map some ++ none :: s) =
      s.foldl stepStr (runThreads c0 progs s0, .looping (.reading (runThreads c0 progs s0).1.depth [] [])) := by
    unfold runStr
    rw [List.foldl_append, hs]
    rfl
  have r0' : Sound (⟨fun d => List.replicate d 0, fun _ => 0⟩ : Numerics R) dims init c0 progs (runThreads c0 progs s0) := r0
  obtain ⟨r1, hk⟩ := sound_str hN h2 hap hv (M0 := (runThreads c0 progs s0).1.flow.moments) s
    (σ := (runThreads c0 progs s0, .looping (.reading (runThreads c0 progs s0).1.depth [] []))) r0'
    ⟨r0'.depth, Grows.refl _, fun a m hm => by simp at hm, fun e => (e rfl).elim, fun a m0 m _ hm => by simp at hm,
      fun m0 _ j g hj => by simp at hj⟩
  rw [← hrun] at r1 hk
  exact ⟨r0', r1, hs0, hk⟩

/-- The table of a circuit in any state. -/
theorem Sound.table {σ : Circuit R × List (Thread R)} (h : Sound N dims init c0 progs σ) :
    σ.1.table = .ok (columns dims.length (σ.1.flow.moments.length + 1) σ.1.flow.moments) := by
  have hd := h.depth
  obtain ⟨⟨_, _, _, _, h⟩, hn⟩ := h
  unfold Circuit.table blank
  rw [hd, h.shared.qregs]
  have : ((σ.1.flow.moments.length : Int) - 1 + 2).toNat = σ.1.flow.moments.length + 1 := by omega
  rw [this]
  exact drawMoments_ok _ _ _ (by omega) hn.rows

/-- **C103.** Threads build a circuit and one calls `str(circuit)` while the others go on. If it returns, the text is that of a
table with as many rows and columns as that of the circuit when it was called; every symbol of that one is at the same
place, and every symbol is at the same place of the table of the circuit when it is done. The depth in the last line lies
between the two depths. -/
theorem C103_between [Nontrivial R] (hne : dims ≠ []) (h : ValidStart (dims.map Int.ofNat) init)
    (hv : ∀ p ∈ progs, ∀ k ∈ p, k.Valid dims)
    (hap : progs.Pairwise fun p p' => ∀ k ∈ p, ∀ k' ∈ p', ∀ r, ¬ (k.touches r ∧ k'.touches r))
    (hc : Circuit.new (.list (dims.map Int.ofNat)) init none = .ok c0) (s0 : List Nat) (s : List (Option Nat)) {text : List Char}
    (hx : (runStr c0 progs (s0.map some ++ none :: s)).2.value c0 = some (.ok text)) :
    ∃ (before g after : Grid) (d : Int), (runThreads c0 progs s0).1.table = .ok before ∧
      (runStr c0 progs (s0.map some ++ none :: s)).1.1.table = .ok after ∧
      text = g.text d (Nat.toDigits 10 dims.length) ∧ g.rows = before.rows ∧ g.cols = before.cols ∧
      before.Within g ∧ g.Within after ∧ (runThreads c0 progs s0).1.depth ≤ d ∧
      d ≤ (runStr c0 progs (s0.map some ++ none :: s)).1.1.depth := by
  obtain ⟨N, r0, r1, rs, hk⟩ := str_core hne h hv hap hc s0 s
  have t0 := r0.table
  have t1 := r1.table
  have d0 := r0.depth
  have d1 := r1.depth
  have ap := r1.marksApart
  have nt := r1.2
  generalize (runStr c0 progs (s0.map some ++ none :: s)).2 = r at hx hk
  generalize (runStr c0 progs (s0.map some ++ none :: s)).1 = σ1 at *
  generalize (runThreads c0 progs s0) = σ0 at *
  cases r with
  | looping r =>
    cases r with
    | start => cases hx
    | reading d seen cur =>
      simp only [Sc.value] at hx
      split at hx <;> cases hx
    | finished d seen =>
      simp only [Sc.value] at hx
      split at hx <;> cases hx
  | done d seen d' =>
    obtain ⟨hd, g0, g1, h4, h5⟩ := hk
    have hq : c0.qregs.seq.length = dims.length := by
      obtain ⟨⟨_, _, _, _, h⟩, _⟩ := rs
      have := h.shared.qregs
      exact congrArg List.length this
    have hw : c0.width.text = Nat.toDigits 10 dims.length := by
      rw [new_ok rfl h none] at hc
      injection hc with hc
      subst hc
      simp [Circuit.width, freshCircuit, RegsArg.toRegs, Width.text]
    simp only [Sc.value, blank, hq, hd] at hx
    have hcol : ((σ0.1.flow.moments.length : Int) - 1 + 2).toNat = σ0.1.flow.moments.length + 1 := by omega
    rw [hcol] at hx
    rcases drawMoments_cases seen dims.length (σ0.1.flow.moments.length + 1) (NeatAll.below g1 nt).rows with e | ⟨e, _⟩
    · rw [e] at hx
      cases hx
      refine ⟨_, columns dims.length (σ0.1.flow.moments.length + 1) (seen.take (σ0.1.flow.moments.length + 1)), _, d', t0, t1,
        by rw [hw], rfl, rfl, ?_, ?_, by rw [d0]; exact h4, by rw [d1]; exact h5⟩
      · intro r _ j hj x hx
        have hj' : j < σ0.1.flow.moments.length + 1 := hj
        have := g0.shows (g1.marksApart ap) hx
        simp only [columns, List.getElem?_take, if_pos hj']
        exact this
      · intro r _ j hj x hx
        have hj' : j < σ0.1.flow.moments.length + 1 := hj
        simp only [columns, List.getElem?_take, if_pos hj'] at hx
        exact g1.shows ap hx
    · rw [e] at hx
      cases hx

/-- **C103.** If it raises, then an IndexError, and at least two layers have been added since it was called. -/
theorem C103_raises [Nontrivial R] (hne : dims ≠ []) (h : ValidStart (dims.map Int.ofNat) init)
    (hv : ∀ p ∈ progs, ∀ k ∈ p, k.Valid dims)
    (hap : progs.Pairwise fun p p' => ∀ k ∈ p, ∀ k' ∈ p', ∀ r, ¬ (k.touches r ∧ k'.touches r))
    (hc : Circuit.new (.list (dims.map Int.ofNat)) init none = .ok c0) (s0 : List Nat) (s : List (Option Nat)) {e : Err}
    (hx : (runStr c0 progs (s0.map some ++ none :: s)).2.value c0 = some (.error e)) :
    e = .index ∧ (runThreads c0 progs s0).1.depth + 2 ≤ (runStr c0 progs (s0.map some ++ none :: s)).1.1.depth := by
  obtain ⟨N, r0, r1, rs, hk⟩ := str_core hne h hv hap hc s0 s
  have d0 := r0.depth
  have d1 := r1.depth
  have nt := r1.2
  generalize (runStr c0 progs (s0.map some ++ none :: s)).2 = r at hx hk
  generalize (runStr c0 progs (s0.map some ++ none :: s)).1 = σ1 at *
  generalize (runThreads c0 progs s0) = σ0 at *
  have hq : c0.qregs.seq.length = dims.length := by
    obtain ⟨⟨_, _, _, _, h⟩, _⟩ := rs
    have := h.shared.qregs
    exact congrArg List.length this
  have hcol : ((σ0.1.flow.moments.length : Int) - 1 + 2).toNat = σ0.1.flow.moments.length + 1 := by omega
  have key : ∀ (ms : List (List (GateObj R))), (∀ m ∈ ms, ∀ g ∈ m, ∀ w ∈ g.marks, 0 ≤ w.1 ∧ w.1 < (dims.length : Int)) →
      (∀ (j : Nat) m, ms[j]? = some m → m ≠ [] → j < σ1.1.flow.moments.length) →
      (drawMoments ms (blank c0 ((σ0.1.flow.moments.length : Int) - 1))) = .error e →
      e = .index ∧ σ0.1.depth + 2 ≤ σ1.1.depth := by
    intro ms hms hj he
    simp only [blank, hq, hcol] at he
    rcases drawMoments_cases ms dims.length (σ0.1.flow.moments.length + 1) hms with e' | ⟨e', j, m, h1, h2, h3⟩
    · rw [e'] at he; cases he
    · rw [e'] at he
      cases he
      have := hj j m h2 h3
      exact ⟨rfl, by rw [d0, d1]; omega⟩
  have whole : ∀ {seen : List (List (GateObj R))}, Grows seen σ1.1.flow.moments →
      drawMoments seen (blank c0 ((σ0.1.flow.moments.length : Int) - 1)) = .error e → e = .index ∧ σ0.1.depth + 2 ≤ σ1.1.depth := by
    intro seen hg he
    refine key seen (NeatAll.below hg nt).rows (fun j m hm _ => ?_) he
    have := (List.getElem?_eq_some_iff.1 hm).1
    have := hg.length_le
    omega
  cases r with
  | looping r =>
    cases r with
    | start => cases hx
    | reading d seen cur =>
      obtain ⟨hd, hr⟩ := hk
      subst hd
      simp only [Sc.value] at hx
      split at hx
      · rename_i e' he
        cases hx
        refine key _ ?_ ?_ he
        · intro m hm g hg
          rcases List.mem_append.1 hm with hm | hm
          · exact (NeatAll.below (M := seen) hr.up nt).rows m hm g hg
          · rw [List.mem_singleton] at hm
            subst hm
            obtain ⟨m', h1, _, h3⟩ := hr.upCur (by rintro rfl; simp at hg)
            obtain ⟨j, hj, rfl⟩ := List.getElem_of_mem hg
            intro w hw
            rcases h3 j _ (List.getElem?_eq_getElem hj) with e' | e'
            · exact nt.rows m' (List.mem_of_getElem? h1) _ (List.mem_of_getElem? e') w hw
            · exact (neat_of_ident (n := dims.length) e' w hw).2
        · intro j m hm hne
          have hl := (List.getElem?_eq_some_iff.1 hm).1
          rw [List.length_append, List.length_singleton] at hl
          by_cases hj : j < seen.length
          · have := Grows.length_le (M := seen) hr.up
            omega
          · have : j = seen.length := by omega
            subst this
            have : m = cur := by simpa using hm.symm
            subst this
            obtain ⟨m', h1, _⟩ := hr.upCur hne
            exact (List.getElem?_eq_some_iff.1 h1).1
      · cases hx
    | finished d seen =>
      obtain ⟨hd, h2, h3⟩ := hk
      subst hd
      simp only [Sc.value] at hx
      split at hx
      · rename_i e' he
        cases hx
        exact whole h3 he
      · cases hx
  | done d seen d' =>
    obtain ⟨hd, h2, h3, _⟩ := hk
    subst hd
    simp only [Sc.value] at hx
    split at hx
    · rename_i e' he
      cases hx
      exact whole h3 he
    · cases hx

/-- The loops of `str(circuit)` are those of `get_circuit_info`. -/
theorem Sc.loops (c : Circuit R) {d : Int} {seen : List (List (GateObj R))} (n : Nat) {r : Ic R} (hr : r ≠ .start)
    (h : (Ic.step c.flow)^[n] r = .finished d seen) : ∃ n', (Sc.step c)^[n'] (.looping r) = .looping (.finished d seen) := by
  induction n generalizing r with
  | zero => exact ⟨0, by rw [← h]; rfl⟩
  | succ n ih =>
    cases r with
    | start => exact (hr rfl).elim
    | reading d0 s0 cur =>
      rw [Function.iterate_succ_apply] at h
      obtain ⟨n', hn'⟩ := ih (r := (Ic.reading d0 s0 cur).step c.flow) (by
        simp only [Ic.step]
        split
        · simp
        · split <;> simp) h
      exact ⟨n' + 1, by rw [Function.iterate_succ_apply]; exact hn'⟩
    | finished d0 s0 =>
      have : ∀ n, (Ic.step c.flow)^[n] (.finished d0 s0) = .finished d0 s0 := by
        intro n
        induction n with
        | zero => rfl
        | succ n ih => rw [Function.iterate_succ_apply]; exact ih
      rw [this] at h
      exact ⟨0, by rw [← h]; rfl⟩

theorem stepStr_alone (n : Nat) (σ : Circuit R × List (Thread R)) (r : Sc R) :
    (List.replicate n none).foldl stepStr (σ, r) = (σ, (Sc.step σ.1)^[n] r) := by
  induction n generalizing r with
  | zero => rfl
  | succ n ih => rw [List.replicate_succ, List.foldl_cons, Function.iterate_succ_apply]; exact ih _

/-- **C103.** However far it has come and whatever the other threads did, it comes to an end if they stop. -/
theorem C103_ends (c : Circuit R) (progs : List (List (Call R))) (s : List (Option Nat)) :
    ∃ n x, (runStr c progs (s ++ List.replicate n none)).2.value c = some x := by
  have hv : ∀ d (seen : List (List (GateObj R))) d', ∃ x, (Sc.done d seen d').value c = some x := by
    intro d seen d'
    simp only [Sc.value]
    split <;> exact ⟨_, rfl⟩
  have key : ∀ (σ : Circuit R) (r : Sc R), ∃ n d seen d', (Sc.step σ)^[n] r = .done d seen d' := by
    intro σ r
    have loop : ∀ r : Ic R, r ≠ .start → ∃ n d seen d', (Sc.step σ)^[n] (.looping r) = .done d seen d' := by
      intro r hr
      obtain ⟨n, d, seen, hn⟩ := Ic.ends σ.flow r
      obtain ⟨n', hn'⟩ := Sc.loops σ n hr hn
      exact ⟨n' + 1, d, seen, σ.depth, by rw [Function.iterate_succ_apply', hn']; rfl⟩
    cases r with
    | done d seen d' => exact ⟨0, d, seen, d', rfl⟩
    | looping r =>
      by_cases hr : r = .start
      · subst hr
        obtain ⟨n, d, seen, d', hn⟩ := loop (.reading σ.depth [] []) (by simp)
        exact ⟨n + 1, d, seen, d', by rw [Function.iterate_succ_apply]; exact hn⟩
      · exact loop r hr
  obtain ⟨n, d, seen, d', hn⟩ := key (runStr c progs s).1.1 (runStr c progs s).2
  obtain ⟨x, hx⟩ := hv d seen d'
  refine ⟨n, x, ?_⟩
  have : runStr c progs (s ++ List.replicate n none) = (List.replicate n none).foldl stepStr (runStr c progs s) := by
    unfold runStr
    rw [List.foldl_append]
  rw [this, show runStr c progs s = ((runStr c progs s).1, (runStr c progs s).2) from rfl, stepStr_alone]
  simp only [hn, hx]

/-- **C103.** A call with no other thread at work is that of the other properties. -/
theorem C103_alone (c : Circuit R) (progs : List (List (Call R))) :
    ∃ n, (runStr c progs (List.replicate n none)).2.value c = some c.str := by
  obtain ⟨n, hn⟩ := Ic.read_all c.flow c.depth
  obtain ⟨n', hn'⟩ := Sc.loops c n (by simp) hn
  refine ⟨1 + n' + 1, ?_⟩
  unfold runStr
  rw [stepStr_alone, Function.iterate_add_apply, Function.iterate_add_apply, Function.iterate_one]
  have : Sc.step c (.looping .start) = .looping (.reading c.depth [] []) := rfl
  simp only [this, hn']
  rw [str_table]
  unfold Circuit.table
  simp only [Sc.step, Sc.value]
  cases drawMoments c.flow.moments (blank c c.depth) <;> rfl

/-! ### Cases -/

/-- **C103.** It may raise: `x(0)` is called twice on a qubit after `str(circuit)` has made its table. -/
theorem C103_may_raise : ∃ c0 : Circuit ℤ, Circuit.new (.list [2]) [] none = .ok c0 ∧
    ∃ s, (runStr c0 [[.x 0 none 1, .x 0 none 1]] s).2.value c0 = some (.error .index) :=
  ⟨_, rfl, none :: List.replicate 16 (some 0) ++ List.replicate 9 none, by decide +kernel⟩

/-- What is shown when `x(0)` has returned, `str(circuit)` is called and has read the first layer, and another thread calls
`z(1)` and `h(1)`. -/
def lateText : String :=
  "(2)|0>-X(1)-----\n" ++
  "(2)|0>--Z----H--\n" ++
  "\ndepth: 2, width: 2"

/-- That order of steps. -/
def lateZH : List (Option Nat) := List.replicate 3 none ++ List.replicate 24 (some 1) ++ List.replicate 12 none

theorem lateZH_text : (runStr twoQubits [[.x 0 none 1], [.z 1 none, .h 1 none]]
    ((List.replicate 12 0).map some ++ none :: lateZH)).2.value twoQubits = some (.ok lateText.toList) := by
  decide +kernel

/-- A case of `C103_between`: the text above lies between that of the circuit with `x(0)` and that with all three gates. -/
example : ∃ (before g after : Grid) (d : Int),
    (runThreads twoQubits [[.x 0 none 1], [.z 1 none, .h 1 none]] (List.replicate 12 0)).1.table = .ok before ∧
    (runStr twoQubits [[.x 0 none 1], [.z 1 none, .h 1 none]] ((List.replicate 12 0).map some ++ none :: lateZH)).1.1.table =
      .ok after ∧
    lateText.toList = g.text d (Nat.toDigits 10 2) ∧ before.Within g ∧ g.Within after := by
  obtain ⟨a, b, c, d, h1, h2, h3, _, _, h4, h5, _⟩ := C103_between (dims := [2, 2]) (init := []) (c0 := twoQubits) (by simp)
    (validStart_of rfl) (progs := [[.x 0 none 1], [.z 1 none, .h 1 none]]) (by simp [Call.Valid, InRange, DimOK])
    (by simp [Call.touches]; omega) (new_ok (dims := [2, 2]) rfl (validStart_of rfl) none) _ _ lateZH_text
  exact ⟨a, b, c, d, h1, h2, h3, h4, h5⟩

/-- A case of `C103_raises`. -/
example : ∃ c0 : Circuit ℤ, Circuit.new (.list [2]) [] none = .ok c0 ∧ ∃ s,
    (runThreads c0 [[.x 0 none 1, .x 0 none 1]] []).1.depth + 2 ≤ (runStr c0 [[.x 0 none 1, .x 0 none 1]] s).1.1.depth := by
  refine ⟨freshCircuit (.list [2]) [2] [] none, new_ok (dims := [2]) rfl (validStart_of rfl) none,
    ([] : List Nat).map some ++ none :: (List.replicate 16 (some 0) ++ List.replicate 9 none), ?_⟩
  exact (C103_raises (dims := [2]) (init := []) (by simp) (validStart_of rfl) (by simp [Call.Valid, InRange, DimOK]) (by simp)
    (new_ok (dims := [2]) rfl (validStart_of rfl) none) _ _ (e := .index) (by decide +kernel)).2

end QuDiet
