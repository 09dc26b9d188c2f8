import Verif.Pages
import Verif.Props.DrawMpl

/-! # C59: the figures of `draw('mpl')` -/

namespace QuDiet

open Spec

variable {R : Type} [CommRing R]

/-! ### Specification -/

/-- `circuit.draw('mpl', compress)` after the calls: the figures. -/
def drawingPages (W : Shape → ℚ) (w : ℚ) (compress : Nat) (qregs : RegsArg) (init : List Int) (out : Option Output)
    (ks : List (Call R)) : PyM (List Page) := do
  let c ← Circuit.new (R := R) qregs init out
  (c.calls ks).drawPages W w compress

/-- The lines that a shape covers: all from the lowest to the highest line on which something of it is drawn. -/
def Shape.covers : Shape → Int → Prop
  | .box _ l _, r => r = l
  | .ctl cs l _ _, r => (∃ a ∈ cs ++ [l], a ≤ r) ∧ ∃ b ∈ cs ++ [l], r ≤ b
  | .cnot c t, r => (∃ a ∈ [c, t], a ≤ r) ∧ ∃ b ∈ [c, t], r ≤ b
  | .wide ls, r => (∃ a ∈ ls, a ≤ r) ∧ ∃ b ∈ ls, r ≤ b

/-- The layers of a figure stand side by side: each begins one inch after the end of the widest shape of the one
before. -/
def Spaced (W : Shape → ℚ) (layers : List (ℚ × List Shape)) : Prop :=
  layers.IsChain fun a b => (∀ s ∈ a.2, a.1 + s.width W + 1 ≤ b.1) ∧ a.1 + 1 ≤ b.1

/-! ### Pagination -/

theorem layerWidth_nonneg (W : Shape → ℚ) (ss : List Shape) : 0 ≤ layerWidth W ss := by
  unfold layerWidth
  generalize ss.map (Shape.width W) = l
  have : ∀ (l : List ℚ) (a : ℚ), a ≤ l.foldl max a := by
    intro l
    induction l with
    | nil => intro a; exact le_rfl
    | cons b l ih => intro a; exact (le_max_left a b).trans (ih _)
  exact this l 0

theorem le_layerWidth (W : Shape → ℚ) {ss : List Shape} {s : Shape} (hs : s ∈ ss) : s.width W ≤ layerWidth W ss := by
  unfold layerWidth
  have h1 : ∀ (l : List ℚ) (a : ℚ), a ≤ l.foldl max a := by
    intro l
    induction l with
    | nil => intro a; exact le_rfl
    | cons b l ih => intro a; exact (le_max_left a b).trans (ih _)
  have : ∀ (l : List ℚ) (a b : ℚ), b ∈ l → b ≤ l.foldl max a := by
    intro l
    induction l with
    | nil => intro a b hb; cases hb
    | cons c l ih =>
      intro a b hb
      rcases List.mem_cons.1 hb with rfl | hb
      · exact (le_max_right a b).trans (h1 _ _)
      · exact ih _ _ hb
  exact this _ 0 _ (List.mem_map_of_mem hs)

/-- What holds of a figure of width `x` whose first layer is at `start`: the layers stand side by side, all begin before
the end of the lines, and all but the last one end there, too. -/
structure Page.Good (W : Shape → ℚ) (x : Int) (start : ℚ) (page : Page) : Prop where
  spaced : Spaced W page.layers
  first : ∀ l ∈ page.layers.head?, l.1 = start
  before : ∀ l ∈ page.layers, l.1 < (x : ℚ) - 1
  room : ∀ l ∈ page.layers.dropLast, ∀ s ∈ l.2, l.1 + s.width W < (x : ℚ) - 1

/-- A figure to which more is added at `i`. -/
structure Page.Open (W : Shape → ℚ) (x : Int) (start i : ℚ) (page : Page) : Prop where
  spaced : Spaced W page.layers
  first : ∀ l ∈ page.layers.head?, l.1 = start
  empty : page.layers = [] → i = start
  before : ∀ l ∈ page.layers, l.1 < (x : ℚ) - 1
  room : ∀ l ∈ page.layers, ∀ s ∈ l.2, l.1 + s.width W < (x : ℚ) - 1
  last : ∀ l ∈ page.layers.getLast?, (∀ s ∈ l.2, l.1 + s.width W + 1 ≤ i) ∧ l.1 + 1 ≤ i

theorem Page.Open.good {W : Shape → ℚ} {x : Int} {start i : ℚ} {page : Page} (h : page.Open W x start i) :
    page.Good W x start :=
  ⟨h.spaced, h.first, h.before, fun l hl => h.room l (List.mem_of_mem_dropLast hl)⟩

theorem Page.Open.push {W : Shape → ℚ} {x : Int} {start i : ℚ} {page : Page} (h : page.Open W x start i)
    (hi : i < (x : ℚ) - 1) (ss : List Shape) :
    ({ page with layers := page.layers ++ [(i, ss)] } : Page).Good W x start := by
  refine ⟨?_, ?_, ?_, ?_⟩
  · refine List.isChain_append.2 ⟨h.spaced, .singleton _, ?_⟩
    intro l hl m hm
    cases hm
    exact h.last l hl
  · intro l hl
    cases hp : page.layers with
    | nil =>
      simp only [hp, List.nil_append, List.head?_cons, Option.mem_some_iff] at hl
      rw [← hl]
      exact h.empty hp
    | cons a as =>
      simp only [hp, List.cons_append, List.head?_cons, Option.mem_some_iff] at hl
      exact h.first l (by simp [hp, hl])
  · intro l hl
    rcases List.mem_append.1 hl with hl | hl
    · exact h.before l hl
    · rw [List.mem_singleton.1 hl]; exact hi
  · intro l hl
    simp only [List.dropLast_concat] at hl
    exact h.room l hl

theorem Page.Open.next {W : Shape → ℚ} {x : Int} {start i : ℚ} {page : Page} (h : page.Open W x start i)
    (hi : i < (x : ℚ) - 1) (ss : List Shape) (hn : i + layerWidth W ss + 1 < (x : ℚ) - 1) :
    ({ page with layers := page.layers ++ [(i, ss)] } : Page).Open W x start (i + layerWidth W ss + 1) := by
  have g := h.push hi ss
  refine ⟨g.spaced, g.first, fun e => by simp at e, g.before, ?_, ?_⟩
  · intro l hl s hs
    rcases List.mem_append.1 hl with hl | hl
    · exact h.room l hl s hs
    · rw [List.mem_singleton.1 hl] at hs ⊢
      have := le_layerWidth W hs
      simp only at *
      linarith
  · intro l hl
    simp only [List.getLast?_append, List.getLast?_singleton, Option.some_or, Option.mem_some_iff] at hl
    subst hl
    refine ⟨fun s hs => ?_, ?_⟩
    · have := le_layerWidth W hs
      simp only at *
      linarith
    · have := layerWidth_nonneg W ss
      simp only
      linarith

theorem paginate_spec {W : Shape → ℚ} {x : Int} (hx : 4 ≤ x) (ls : List (List Shape)) (i start : ℚ) (page : Page)
    (hi : i < (x : ℚ) - 1) (hw : page.wireTo = x - 1) (ho : page.Open W x start i) :
    ∃ p ps, paginate W x ls i page = p :: ps ∧
      p.labels = page.labels ∧ p.wireFrom = page.wireFrom ∧ p.wireTo = x - 1 ∧ p.Good W x start ∧
      (∀ q ∈ ps, q.labels = [] ∧ q.wireFrom = 1 ∧ q.wireTo = x - 1 ∧ q.Good W x 2) ∧
      ((p :: ps).flatMap (·.layers)).map (·.2) = page.layers.map (·.2) ++ ls ∧
      (p :: ps).map (·.number) = List.range' page.number (ps.length + 1) ∧
      (∀ q ∈ ps.dropLast, q.layers ≠ []) ∧ (page.layers ++ ls.map (fun ss => (0, ss)) ≠ [] → p.layers ≠ []) := by
  induction ls generalizing i start page with
  | nil =>
    exact ⟨page, [], rfl, rfl, rfl, hw, ho.good, by simp, by simp, by simp, by simp, by simp⟩
  | cons ss ls ih =>
    simp only [paginate]
    by_cases hc : ⌈i + layerWidth W ss + 1⌉ ≥ x - 1
    · rw [if_pos hc]
      have h2 : (2 : ℚ) < (x : ℚ) - 1 := by
        have : (4 : ℚ) ≤ x := by exact_mod_cast hx
        linarith
      obtain ⟨p, ps, e, h1, h3, h4, h5, h6, h7, h8, h9, h10⟩ := ih 2 2
        { number := page.number + 1, labels := [], wireFrom := 1, wireTo := x - 1, layers := [] } h2 rfl
        ⟨.nil, by simp, by simp, by simp, by simp, by simp⟩
      refine ⟨{ page with layers := page.layers ++ [(i, ss)] }, p :: ps, by rw [e], rfl, rfl, hw, ho.push hi ss,
        ?_, ?_, ?_, ?_, by simp⟩
      · intro q hq
        rcases List.mem_cons.1 hq with rfl | hq
        · exact ⟨h1, h3, h4, h5⟩
        · exact h6 q hq
      · rw [List.flatMap_cons, List.map_append, h7]
        simp
      · rw [List.map_cons, h8, List.length_cons]
        rfl
      · intro q hq
        cases ps with
        | nil => simp at hq
        | cons q' ps =>
          rw [List.dropLast_cons₂] at hq
          rcases List.mem_cons.1 hq with rfl | hq
          · apply h10
            cases ls with
            | nil =>
              rw [paginate] at e
              cases e
            | cons => simp
          · exact h9 q hq
    · rw [if_neg hc]
      have hn : i + layerWidth W ss + 1 < (x : ℚ) - 1 := by
        have h1 := Int.le_ceil (i + layerWidth W ss + 1)
        have h2 : ((⌈i + layerWidth W ss + 1⌉ : Int) : ℚ) < ((x - 1 : Int) : ℚ) := Int.cast_lt.2 (not_le.1 hc)
        push_cast at h2
        linarith
      obtain ⟨p, ps, e, h1, h3, h4, h5, h6, h7, h8, h9, h10⟩ := ih _ start
        { page with layers := page.layers ++ [(i, ss)] } hn hw (ho.next hi ss hn)
      refine ⟨p, ps, e, h1, h3, h4, h5, h6, ?_, h8, h9, fun _ => h10 (by simp)⟩
      rw [h7]
      simp

/-- The figures are made from the layers of shapes of C33. -/
theorem drawingPages_eq {W : Shape → ℚ} {w : ℚ} {compress : Nat} {qregs : RegsArg} (hn : qregs.dims ≠ [])
    {init : List Int} {out : Option Output} (ks : List (Call R)) :
    drawingPages W w compress qregs init out ks = (drawingMpl qregs init out ks).map fun ls =>
      paginate W (15 + (qregs.toRegs.seq.length : Int) * compress) ls ⌈w + 1⌉
        { number := 1, labels := (List.range qregs.dims.length).map fun i => ((qregs.dims.getD i 0).toNat, init.getD i 0),
          wireFrom := ⌈w + 1⌉, wireTo := 15 + (qregs.toRegs.seq.length : Int) * compress - 1, layers := [] } := by
  unfold drawingPages drawingMpl
  cases hc : Circuit.new (R := R) qregs init out with
  | error e => rfl
  | ok c =>
    obtain ⟨dims, hd, hv, rfl⟩ := new_fresh hc
    have hpos : 0 < dims.length := by
      rw [hd] at hn
      cases dims with
      | nil => simp at hn
      | cons => simp
    obtain ⟨layers, hu, hF, hm⟩ := reach_layers (R := R) (q := qregs) hpos init out ks
    obtain ⟨⟨f, hf⟩, _⟩ := reach_any (R := R) (q := qregs) hpos init out ks
    have hq : ((freshCircuit (R := R) qregs dims init out).calls ks).qregs = qregs.toRegs := by rw [hf]; rfl
    simp only [bind, Except.bind]
    unfold Circuit.drawPages Circuit.drawMpl
    rw [hq, hm]
    have hl : stateLabels (initOps (R := R) dims init) = .ok ((List.range qregs.dims.length).map fun i =>
        ((qregs.dims.getD i 0).toNat, init.getD i 0)) := by
      unfold stateLabels initOps
      rw [mapM_ok _ _ (fun g => match g with | .init d s _ => (d, s) | _ => (0, 0))]
      · rw [List.map_map, hd, List.length_map]
        congr 1
        apply List.map_congr_left
        intro i hi
        simp only [Function.comp]
        rw [Prod.mk.injEq]
        refine ⟨?_, rfl⟩
        rw [List.getD_eq_getElem?_getD, List.getD_eq_getElem?_getD, List.getElem?_map]
        cases dims[i]? <;> rfl
      · intro g hg
        obtain ⟨i, _, rfl⟩ := List.mem_map.1 hg
        rfl
    simp only [List.cons_append, List.headD_cons, hl, bind, Except.bind]
    cases pyGet (initOps (R := R) dims init :: (layers.map Prod.fst ++
      if ks.any Call.isMeasureAll then [(List.range dims.length).map GateObj.meas] else [])) 1 with
    | error e => rfl
    | ok _ =>
      cases (initOps (R := R) dims init :: (layers.map Prod.fst ++
        if ks.any Call.isMeasureAll then [(List.range dims.length).map GateObj.meas] else [])).mapM drawLayer <;> rfl

/-- **C59.** `draw('mpl', compress)` shows the layers of C33 in order, each once, in figures that are numbered from 1
on. The first one shows dimension and initial level of every register; its lines begin where its first layer stands,
in all others the lines begin at 1 and the first layer stands at 2. Only the last figure can be empty.
If the labels are not as wide as the figure then in every figure
the layers stand side by side, all begin before the end of the lines, and all but the last one end there, too. -/
theorem C59_pages {W : Shape → ℚ} {w : ℚ} {compress : Nat} {qregs : RegsArg} (hn : qregs.dims ≠ [])
    {init : List Int} {out : Option Output} {ks : List (Call R)} {x : Int}
    (hx : x = 15 + (qregs.toRegs.seq.length : Int) * compress) (hw : ⌈w + 1⌉ < x - 1) {pages : List Page}
    (h : drawingPages W w compress qregs init out ks = .ok pages) :
    drawingMpl qregs init out ks = .ok ((pages.flatMap (·.layers)).map (·.2)) ∧
    pages.map (·.number) = List.range' 1 pages.length ∧
    (∀ p ∈ pages.dropLast, p.layers ≠ []) ∧
    (∀ p ∈ pages, p.wireTo = x - 1) ∧
    (∃ p ps, pages = p :: ps ∧
      p.labels = (List.range qregs.dims.length).map (fun i => ((qregs.dims.getD i 0).toNat, init.getD i 0)) ∧
      p.wireFrom = ⌈w + 1⌉ ∧ p.Good W x ⌈w + 1⌉ ∧
      ∀ q ∈ ps, q.labels = [] ∧ q.wireFrom = 1 ∧ q.Good W x 2) := by
  rw [drawingPages_eq hn, ← hx] at h
  cases hls : drawingMpl qregs init out ks with
  | error e => rw [hls] at h; cases h
  | ok ls =>
    rw [hls] at h
    injection h with h
    beta_reduce at h
    have hne : ls ≠ [] := by
      intro e
      subst e
      unfold drawingMpl at hls
      cases hc : Circuit.new (R := R) qregs init out with
      | error e => rw [hc] at hls; cases hls
      | ok c =>
        rw [hc] at hls
        simp only [bind, Except.bind, Circuit.drawMpl] at hls
        cases hp : pyGet (c.calls ks).flow.moments 1 with
        | error e => rw [hp] at hls; cases hls
        | ok m =>
          rw [hp] at hls
          simp only at hls
          cases hm : (c.calls ks).flow.moments with
          | nil => rw [hm] at hp; cases hp
          | cons a l =>
            rw [hm, List.mapM_cons] at hls
            cases ha : drawLayer a with
            | error e => rw [ha] at hls; cases hls
            | ok b =>
              rw [ha] at hls
              cases hb : l.mapM drawLayer with
              | error e => simp only [hb, bind, Except.bind] at hls; cases hls
              | ok b => simp only [hb, bind, Except.bind] at hls; cases hls
    have hx4 : 4 ≤ x := by
      rw [hx]
      have : (0 : Int) ≤ (qregs.toRegs.seq.length : Int) * compress := by positivity
      omega
    have hw' : ((⌈w + 1⌉ : Int) : ℚ) < (x : ℚ) - 1 := by exact_mod_cast hw
    obtain ⟨p, ps, e, h1, h3, h4, h5, h6, h7, h8, h9, h10⟩ := paginate_spec (W := W) hx4 ls ⌈w + 1⌉ ⌈w + 1⌉
      { number := 1, labels := (List.range qregs.dims.length).map fun i => ((qregs.dims.getD i 0).toNat, init.getD i 0),
        wireFrom := ⌈w + 1⌉, wireTo := x - 1, layers := [] } hw' rfl
      ⟨.nil, by simp, by simp, by simp, by simp, by simp⟩
    rw [e] at h
    subst h
    refine ⟨by rw [h7]; simp, by rw [h8]; simp, ?_, ?_, p, ps, rfl, h1, h3, h5, fun q hq => ?_⟩
    · intro q hq
      cases ps with
      | nil => simp at hq
      | cons q' ps =>
        rw [List.dropLast_cons₂] at hq
        rcases List.mem_cons.1 hq with rfl | hq
        · exact h10 (by simpa using hne)
        · exact h9 q hq
    · intro q hq
      rcases List.mem_cons.1 hq with rfl | hq
      · exact h4
      · exact (h6 q hq).2.2.1
    · exact ⟨(h6 q hq).1, (h6 q hq).2.1, (h6 q hq).2.2.2⟩

/-! ### `compress` -/

theorem paginate_mono {W : Shape → ℚ} {x x' : Int} (hx : x ≤ x') (ls : List (List Shape)) (i i' : ℚ) (p p' : Page)
    (n n' : Nat) (h : n' < n ∧ 2 ≤ i ∨ n' = n ∧ i' ≤ i) :
    n' + (paginate W x' ls i' p').length ≤ n + (paginate W x ls i p).length := by
  induction ls generalizing i i' p p' n n' with
  | nil =>
    simp only [paginate, List.length_cons, List.length_nil]
    omega
  | cons ss ls ih =>
    have hw := layerWidth_nonneg W ss
    simp only [paginate]
    by_cases hc : ⌈i + layerWidth W ss + 1⌉ ≥ x - 1
    · rw [if_pos hc]
      by_cases hc' : ⌈i' + layerWidth W ss + 1⌉ ≥ x' - 1
      · rw [if_pos hc']
        simp only [List.length_cons]
        rw [← Nat.add_assoc, ← Nat.add_assoc, Nat.add_right_comm, Nat.add_right_comm n]
        apply ih
        rcases h with h | h
        · exact .inl ⟨by omega, le_rfl⟩
        · exact .inr ⟨by omega, le_rfl⟩
      · rw [if_neg hc']
        simp only [List.length_cons]
        rw [← Nat.add_assoc, Nat.add_right_comm n]
        apply ih
        exact .inl ⟨by rcases h with h | h <;> omega, le_rfl⟩
    · rw [if_neg hc]
      by_cases hc' : ⌈i' + layerWidth W ss + 1⌉ ≥ x' - 1
      · rw [if_pos hc']
        simp only [List.length_cons]
        rw [← Nat.add_assoc, Nat.add_right_comm n']
        apply ih
        rcases h with h | h
        · by_cases he : n' + 1 = n
          · exact .inr ⟨he, by linarith⟩
          · exact .inl ⟨by omega, by linarith⟩
        · exfalso
          apply hc
          have : ⌈i' + layerWidth W ss + 1⌉ ≤ ⌈i + layerWidth W ss + 1⌉ := Int.ceil_le_ceil (by linarith)
          omega
      · rw [if_neg hc']
        apply ih
        rcases h with h | h
        · exact .inl ⟨h.1, by linarith⟩
        · exact .inr ⟨h.1, by linarith⟩

/-- **C59.** A higher value of `compress` never gives more figures. -/
theorem C59_compress {W : Shape → ℚ} {w : ℚ} {a b : Nat} (hab : a ≤ b) {qregs : RegsArg} (hn : qregs.dims ≠ [])
    {init : List Int} {out : Option Output} {ks : List (Call R)} {pa pb : List Page}
    (ha : drawingPages W w a qregs init out ks = .ok pa) (hb : drawingPages W w b qregs init out ks = .ok pb) :
    pb.length ≤ pa.length := by
  rw [drawingPages_eq hn] at ha hb
  cases hls : drawingMpl qregs init out ks with
  | error e => rw [hls] at ha; cases ha
  | ok ls =>
    rw [hls] at ha hb
    injection ha with ha
    injection hb with hb
    beta_reduce at ha hb
    have := paginate_mono (W := W) (x := 15 + (qregs.toRegs.seq.length : Int) * a)
      (x' := 15 + (qregs.toRegs.seq.length : Int) * b) (by
        have : (qregs.toRegs.seq.length : Int) * a ≤ (qregs.toRegs.seq.length : Int) * b :=
          Int.mul_le_mul_of_nonneg_left (by exact_mod_cast hab) (by positivity)
        omega) ls ⌈w + 1⌉ ⌈w + 1⌉
      { number := 1, labels := (List.range qregs.dims.length).map fun i => ((qregs.dims.getD i 0).toNat, init.getD i 0),
        wireFrom := ⌈w + 1⌉, wireTo := 15 + (qregs.toRegs.seq.length : Int) * a - 1, layers := [] }
      { number := 1, labels := (List.range qregs.dims.length).map fun i => ((qregs.dims.getD i 0).toNat, init.getD i 0),
        wireFrom := ⌈w + 1⌉, wireTo := 15 + (qregs.toRegs.seq.length : Int) * b - 1, layers := [] }
      0 0 (.inr ⟨rfl, le_rfl⟩)
    rw [ha, hb] at this
    omega

/-! ### Shapes of one layer -/

/-- The registers from the lowest to the highest one of a gate. -/
def Drawn.occupies (d : Drawn) (r : Int) : Prop := (∃ a ∈ d.regs, a ≤ r) ∧ ∃ b ∈ d.regs, r ≤ b

theorem draws_covers {dims : List Nat} {d : Drawn} {s : Shape} (h : d.Draws dims s) {r : Int} (hr : s.covers r) :
    d.occupies r := by
  cases d with
  | h q => cases h; cases hr; exact ⟨⟨r, by simp [Drawn.regs], le_rfl⟩, r, by simp [Drawn.regs], le_rfl⟩
  | x q p => obtain ⟨_, rfl⟩ := h; cases hr; exact ⟨⟨r, by simp [Drawn.regs], le_rfl⟩, r, by simp [Drawn.regs], le_rfl⟩
  | z q => cases h; cases hr; exact ⟨⟨r, by simp [Drawn.regs], le_rfl⟩, r, by simp [Drawn.regs], le_rfl⟩
  | cx c t p =>
    change s = _ at h
    split at h <;> subst h <;> exact hr
  | toffoli cs t p =>
    obtain ⟨_, _, _, rfl⟩ := h
    exact hr
  | custom q =>
    cases q with
    | int q => cases h; cases hr; exact ⟨⟨r, by simp [Drawn.regs], le_rfl⟩, r, by simp [Drawn.regs], le_rfl⟩
    | list qs =>
      rcases h with ⟨q, rfl, rfl⟩ | ⟨_, rfl⟩
      · cases hr; exact ⟨⟨r, by simp [Drawn.regs], le_rfl⟩, r, by simp [Drawn.regs], le_rfl⟩
      · exact hr

theorem forall₂_pairwise {α β : Type} {P : α → β → Prop} {Q : α → α → Prop} {Q' : β → β → Prop} {l : List α} {l' : List β}
    (h : List.Forall₂ P l l') (hq : l.Pairwise Q) (hi : ∀ a b a' b', P a b → P a' b' → Q a a' → Q' b b') :
    l'.Pairwise Q' := by
  induction h with
  | nil => exact .nil
  | @cons a b l l' hab hl ih =>
    rw [List.pairwise_cons] at hq ⊢
    refine ⟨fun b' hb' => ?_, ih hq.2⟩
    obtain ⟨i, hi', rfl⟩ := List.getElem_of_mem hb'
    have hlen := hl.length_eq
    have := (List.forall₂_iff_get.1 hl).2 i (by omega) hi'
    exact hi a b _ _ hab this (hq.1 _ (List.getElem_mem _))

/-- No two shapes of a layer cover the same of the first `n` lines. -/
def Apart (n : Nat) (ss : List Shape) : Prop :=
  ss.Pairwise fun s t => ∀ r : Nat, r < n → ¬ (s.covers r ∧ t.covers r)

theorem drawsLayer_apart {dims : List Nat} {layer : List (Call R)} {ss : List Shape} (hd : Disjoint2 dims.length layer)
    (h : DrawsLayer dims layer ss) : Apart dims.length ss := by
  obtain ⟨l, hp, hF⟩ := h
  have hs : (shownGates dims.length layer).Pairwise fun d d' => ∀ r : Nat, r < dims.length →
      ¬ (d.occupies r ∧ d'.occupies r) := by
    unfold shownGates
    rw [List.pairwise_filterMap]
    refine List.Pairwise.filter _ (hd.imp ?_)
    intro k k' hkk d hkd d' hkd' r hr hdd
    refine hkk r hr ?_
    unfold Call.occupies
    rw [drawn_regs' hkd, drawn_regs' hkd']
    exact hdd
  refine forall₂_pairwise hF ((hp.pairwise_iff (by intro a b h r hr hab; exact h r hr hab.symm)).2 hs) ?_
  intro d s d' s' h1 h2 hdd r hr hss
  exact hdd r hr ⟨draws_covers h1 hss.1, draws_covers h2 hss.2⟩

/-- **C59.** With registers given as a list, and `cx` and `toffoli` naming existing registers only, no two shapes
of the same layer are drawn over each other on the line of a register. -/
theorem C59_no_overlap {ds : List Int} (hn : ds ≠ []) {init : List Int} {out : Option Output} {ks : List (Call R)}
    (hl : ∀ k ∈ accepted (.list ds) init out ks, k.Legible ds.length)
    {W : Shape → ℚ} {w : ℚ} {compress : Nat} (hw : ⌈w + 1⌉ < 14 + (ds.length : Int) * compress) {pages : List Page}
    (h : drawingPages W w compress (.list ds) init out ks = .ok pages) :
    ∀ p ∈ pages, ∀ l ∈ p.layers, Apart ds.length l.2 := by
  have hok : ∃ c : Circuit R, Circuit.new (.list ds) init out = .ok c := by
    unfold drawingPages at h
    cases hc : Circuit.new (R := R) (.list ds) init out with
    | error e => rw [hc] at h; cases h
    | ok c => exact ⟨c, rfl⟩
  have hlen : (RegsArg.list ds).toRegs.seq.length = ds.length := by simp [RegsArg.toRegs, Regs.seq]
  obtain ⟨hm, -⟩ := C59_pages (qregs := .list ds) (x := 15 + (ds.length : Int) * compress) hn (by rw [hlen]) (by omega) h
  obtain ⟨gates, he, hF⟩ := (C33_mpl hn ks hok hl).2.2 _ hm
  have hall : ∀ ss ∈ (pages.flatMap (·.layers)).map (·.2), Apart ds.length ss := by
    rw [he]
    intro ss hss
    rcases List.mem_append.1 hss with hss | hss
    · rcases List.mem_cons.1 hss with rfl | hss
      · exact .nil
      · obtain ⟨i, hi, rfl⟩ := List.getElem_of_mem hss
        have hlen := hF.length_eq
        have := (List.forall₂_iff_get.1 hF).2 i (by omega) hi
        have hd := layering_disjoint ds.length (accepted (.list ds) init out ks) _ (List.getElem_mem (by omega : i < _))
        have e : ds.length = (ds.map Int.toNat).length := by simp
        rw [e]
        exact drawsLayer_apart (by rw [← e]; exact hd) this
    · split at hss
      · rw [List.mem_singleton] at hss
        subst hss
        unfold Apart
        rw [List.pairwise_map]
        refine List.Pairwise.imp ?_ List.nodup_range
        rintro a b hab r hr ⟨h1, h2⟩
        apply hab
        have h1 : (r : Int) = a := h1
        have h2 : (r : Int) = b := h2
        omega
      · cases hss
  intro p hp l hlp
  exact hall _ (List.mem_map.2 ⟨l, List.mem_flatMap.2 ⟨p, hp, hlp⟩, rfl⟩)

/-- **C59 (witness).** `Fig. 2` can be empty: with `compress` 0 the measurement of one qubit whose box is 11 inches wide fills
the first one. -/
theorem C59_empty_figure : drawingPages (R := ℤ) (fun _ => 11) (1 / 2) 0 (.list [2]) [] none [.measureAll] =
    .ok [⟨1, [(2, 0)], 2, 14, [(2, []), (3, [.box 'M' 0 none])]⟩, ⟨2, [], 1, 14, []⟩] := by
  rw [drawingPages_eq (by decide)]
  have : drawingMpl (R := ℤ) (.list [2]) [] none [.measureAll] = .ok [[], [.box 'M' 0 none]] := rfl
  rw [this]
  norm_num [Except.map, paginate, layerWidth, Shape.width, RegsArg.toRegs, Regs.seq, RegsArg.dims]
  rfl

section
def pageWidth : Shape → ℚ
  | .box _ _ (some _) => 4
  | _ => 2

set_option maxRecDepth 10000 in
theorem mplSample_drawing : drawingMpl (.list [2, 2, 3, 2]) [0, 1] none mplSample = .ok
    [[], [.ctl [0, 3] 2 2 3], [.box 'Z' 0 none, .box 'X' 1 (some (1, 2))], [.cnot 0 1], [.ctl [2] 0 1 2],
      [.box 'G' 0 none], [], [.box 'M' 0 none, .box 'M' 1 none, .box 'M' 2 none, .box 'M' 3 none]] := by rfl

/-- A circuit that takes two figures, or one with `compress` 3. -/
theorem mplSample_pages : drawingPages pageWidth (1 / 2) 0 (.list [2, 2, 3, 2]) [0, 1] none mplSample = .ok
    [⟨1, [(2, 0), (2, 1), (3, 0), (2, 0)], 2, 14,
      [(2, []), (3, [.ctl [0, 3] 2 2 3]), (6, [.box 'Z' 0 none, .box 'X' 1 (some (1, 2))]), (11, [.cnot 0 1]),
        (73 / 6, [.ctl [2] 0 1 2])]⟩,
     ⟨2, [], 1, 14, [(2, [.box 'G' 0 none]), (5, []),
        (6, [.box 'M' 0 none, .box 'M' 1 none, .box 'M' 2 none, .box 'M' 3 none])]⟩] := by
  rw [drawingPages_eq (by decide), mplSample_drawing]
  norm_num [Except.map, paginate, layerWidth, Shape.width, RegsArg.toRegs, Regs.seq, RegsArg.dims, pageWidth]
  rfl

example := C59_pages (W := pageWidth) (w := 1 / 2) (compress := 0) (qregs := .list [2, 2, 3, 2]) (by decide) (x := 15)
  (by simp) (by norm_num) mplSample_pages

set_option maxRecDepth 10000 in
example := C59_no_overlap (R := ℤ) (ds := [2, 2, 3, 2]) (init := [0, 1]) (out := none) (by decide)
  (ks := mplSample) (by
    intro k hk
    have : accepted (.list [2, 2, 3, 2]) [0, 1] none mplSample = mplSample.dropLast := rfl
    rw [this] at hk
    simp only [mplSample, List.dropLast, List.mem_cons, List.not_mem_nil, or_false] at hk
    rcases hk with rfl | rfl | rfl | rfl | rfl | rfl | rfl <;> intro h <;>
      first
      | (left; simp [Call.regs]; done)
      | (rcases h with h | h <;> cases h)) (W := pageWidth) (w := 1 / 2) (compress := 0) (by norm_num) mplSample_pages

theorem mplSample_compressed : ∃ p, drawingPages pageWidth (1 / 2) 3 (.list [2, 2, 3, 2]) [0, 1] none mplSample =
    .ok [p] := by
  rw [drawingPages_eq (by decide), mplSample_drawing]
  norm_num [Except.map, paginate, layerWidth, Shape.width, RegsArg.toRegs, Regs.seq, RegsArg.dims, pageWidth]

example (p : Page) (h : drawingPages pageWidth (1 / 2) 3 (.list [2, 2, 3, 2]) [0, 1] none mplSample = .ok [p]) :=
  C59_compress (a := 0) (b := 3) (by decide) (by decide) mplSample_pages h
end

end QuDiet
