import Verif.Lemmas.Draw

/-! # C32: the text drawing

`Drawn.glyph`, `cellOf` and `centred` (first part of `Lemmas/Draw.lean`) and `layering` (first part of
`Lemmas/Layering.lean`) are the specification. -/

namespace QuDiet

open Spec

variable {R : Type} [CommRing R]

/-- A cell: a wire when there is nothing to show. -/
def cellText : Option (List Char) → List Char
  | none => ['-', '-', '-', '-', '-']
  | some s => centred s

/-- The picture of registers of dimensions `dims` prepared in `init`, with these layers of calls: a row per
register, a cell per layer, and a last cell that is `M` for a measured circuit and a wire otherwise. -/
def picture (dims : List Nat) (init : List Int) (layers : List (List (Call R))) (measured : Bool)
    (width : List Char) : List Char :=
  (List.range dims.length).flatMap (fun r =>
    ['('] ++ Nat.toDigits 10 (dims.getD r 0) ++ [')', '|'] ++ intStr (init.getD r 0) ++ ['>'] ++
    layers.flatMap (fun l => cellText (cellOf l r)) ++
    (if measured then ['-', '-', 'M', '-', '-'] else ['-', '-', '-', '-', '-']) ++ ['\n']) ++
  "\ndepth: ".toList ++ intStr layers.length ++ ", width: ".toList ++ width

/-- A `cx` or `toffoli` whose registers all exist, or that reaches no existing register; any other call. -/
def Call.Legible (n : Nat) (k : Call R) : Prop :=
  (k.kind = some .cx ∨ k.kind = some .toffoli) →
    (∀ q ∈ k.regs, 0 ≤ q ∧ q < (n : Int)) ∨ ∀ r < n, ¬ k.occupies r

/-- `str(circuit)` after the calls. -/
def drawing (qregs : RegsArg) (init : List Int) (out : Option Output) (ks : List (Call R)) :
    PyM (List Char) := do
  let c ← Circuit.new (R := R) qregs init out
  (c.calls ks).str

/-- The registers of a gate. -/
def Drawn.regs : Drawn → List Int
  | .h q => [q]
  | .x q _ => [q]
  | .z q => [q]
  | .cx c t _ => [c, t]
  | .toffoli cs t _ => cs ++ [t]
  | .custom (.int q) => [q]
  | .custom (.list qs) => qs

omit [CommRing R] in
theorem drawn_regs {g : GateObj R} {d : Drawn} (h : g.drawn = some d) : g.regs = d.regs := by
  rcases g with _ | _ | _ | _ | _ | _ | _ | ⟨_ | _, _, _⟩ | _ <;>
    first | (cases h; rfl) | cases h

omit [CommRing R] in
theorem drawn_regs' {k : Call R} {d : Drawn} (h : k.drawn = some d) : k.regs = d.regs := by
  rcases k with _ | _ | _ | _ | _ | ⟨_, _ | _, _⟩ | _ | _ <;>
    first | (cases h; rfl) | cases h

/-- The operators of a layer belong to its calls. -/
theorem mem_layer_call {n : Nat} {m : List (GateObj R)} {layer : List (Call R)} (h : Shows n m layer)
    {g : GateObj R} (hg : g ∈ m) (hi : g.isIdent = false) :
    ∃ k ∈ layer, (∃ r < n, k.occupies r) ∧ k.drawn = g.drawn := by
  have : g.drawn ∈ (m.filter fun g => !g.isIdent).map fun g => g.drawn :=
    List.mem_map.2 ⟨g, List.mem_filter.2 ⟨hg, by simp [hi]⟩, rfl⟩
  obtain ⟨k, hk, he⟩ := List.mem_map.1 (h.mem_iff.1 this)
  obtain ⟨hk, ho⟩ := List.mem_filter.1 hk
  exact ⟨k, hk, by simpa using ho, he⟩

theorem layer_marks {dims seq : List Nat} {m : List (GateObj R)} {layer : List (Call R)} (h : Fits2 dims seq m layer)
    (h1 : ∀ g ∈ m, g.isInit = false) (h2 : ∀ g ∈ m, g.isMeas = false)
    (hl : ∀ k ∈ layer, k.Legible dims.length) {g : GateObj R} (hg : g ∈ m) :
    ∀ w ∈ g.marks, 0 ≤ w.1 ∧ w.1 < dims.length := by
  by_cases hi : g.isIdent = true
  · cases g <;> first | (cases hi; done) | (intro w hw; simp [GateObj.marks] at hw)
  · rw [Bool.not_eq_true] at hi
    obtain ⟨k, hk, ⟨r, hr, ho⟩, hd⟩ := mem_layer_call h.shows hg hi
    have hleg := hl k hk
    have hone : ∀ q : Int, k.regs = [q] → g.regs = [q] → ∀ w ∈ g.marks, 0 ≤ w.1 ∧ w.1 < dims.length := by
      intro q hq hgq
      apply marks_inside (h.spans g hg)
      unfold GateObj.Inside
      rw [hgq]
      unfold Call.occupies at ho
      rw [hq] at ho
      simp at ho ⊢
      omega
    have hmany : (∀ q ∈ k.regs, 0 ≤ q ∧ q < (dims.length : Int)) → g.regs = k.regs → ∀ w ∈ g.marks, 0 ≤ w.1 ∧ w.1 < dims.length := by
      intro hq hgq
      apply marks_inside (h.spans g hg)
      unfold GateObj.Inside
      rw [hgq]
      exact hq
    cases hgd : g.drawn with
    | none =>
      cases g <;> first | (cases hgd; done) | (cases hi; done) | (cases h1 _ hg; done) | (cases h2 _ hg; done)
    | some d =>
      rw [hgd] at hd
      have e1 := drawn_regs hgd
      have e2 := drawn_regs' hd
      have ek : k.kind = some d.kind := by rw [← kind_drawn', hd]; rfl
      cases d with
      | h q => exact hone q e2 e1
      | x q p => exact hone q e2 e1
      | z q => exact hone q e2 e1
      | cx c t p =>
        rcases hleg (.inl ek) with hh | hh
        · exact hmany hh (by rw [e1, e2])
        · exact absurd ho (hh r hr)
      | toffoli cs t p =>
        rcases hleg (.inr ek) with hh | hh
        · exact hmany hh (by rw [e1, e2])
        · exact absurd ho (hh r hr)
      | custom q =>
        intro w hw
        cases g <;> first | (cases hgd; done) | (simp [GateObj.marks] at hw; done)

theorem flatMap_congr_left' {α β : Type} {l : List α} {f g : α → List β} (h : ∀ a ∈ l, f a = g a) :
    l.flatMap f = l.flatMap g := by
  induction l with
  | nil => rfl
  | cons a l ih =>
    rw [List.flatMap_cons, List.flatMap_cons, h a (by simp), ih fun a ha => h a (by simp [ha])]

theorem flatMap_singleton_map {α β : Type} {l : List α} {f : α → List β} {g : α → β} (h : ∀ a, f a = [g a]) :
    l.flatMap f = l.map g := by
  induction l with
  | nil => rfl
  | cons a l ih => rw [List.flatMap_cons, h, ih]; rfl

theorem range_cells {α β : Type} (F : Option α → List β) (a : α) (G T : List α) :
    (List.range (G.length + 2)).flatMap (fun j => F ((a :: G ++ T)[j]?)) =
      F (some a) ++ G.flatMap (fun m => F (some m)) ++ F T[0]? := by
  have key : ∀ G : List α, (List.range (G.length + 1)).flatMap (fun j => F ((G ++ T)[j]?)) =
      G.flatMap (fun m => F (some m)) ++ F T[0]? := by
    intro G
    induction G with
    | nil => simp
    | cons b G ih =>
      rw [List.length_cons, List.range_succ_eq_map, List.flatMap_cons, List.flatMap_map]
      simp only [List.cons_append, List.getElem?_cons_succ, List.getElem?_cons_zero]
      rw [ih]
      simp
  have := key (a :: G)
  simpa using this

theorem toDigits_ne_nil (n : Nat) : Nat.toDigits 10 n ≠ [] := by
  intro h
  have := Nat.length_toDigits_pos (b := 10) (n := n)
  rw [h] at this
  simp at this

theorem intStr_length_pos (i : Int) : 0 < (intStr i).length := by
  unfold intStr
  split
  · exact List.length_pos_of_ne_nil (toDigits_ne_nil _)
  · simp

theorem padCell_shown (o : Option (List Char)) : padCell o = cellText o := by
  cases o with
  | none => rfl
  | some s => rw [padCell_some]; rfl

theorem centred_long {s : List Char} (h : 5 ≤ s.length) : centred s = s := by
  unfold centred
  have h1 : (6 - s.length) / 2 = 0 := by omega
  have h2 : 5 - s.length = 0 := by omega
  rw [h1, h2]
  simp

theorem isInit_of_layer {n : Nat} {m : List (GateObj R)} {layer : List (Call R)} (h : Shows n m layer)
    {g : GateObj R} (hg : g ∈ m) (hi : g.isIdent = false) : ∃ k ∈ layer, k.drawn = g.drawn := by
  obtain ⟨k, hk, _, hd⟩ := mem_layer_call h hg hi
  exact ⟨k, hk, hd⟩

theorem drawing_rows {q : RegsArg} {dims : List Nat} (hpos : 0 < dims.length) (hrows : q.toRegs.seq.length = dims.length)
    (init : List Int) (out : Option Output) (ks : List (Call R))
    (hl : ∀ k ∈ kept (freshCircuit (R := R) q dims init out) (live ks), k.Legible dims.length) :
    ((freshCircuit (R := R) q dims init out).calls ks).str =
      .ok (picture dims init (layering dims.length (kept (freshCircuit (R := R) q dims init out) (live ks)))
        (ks.any Call.isMeasureAll) (freshCircuit (R := R) q dims init out).width.text) := by
  obtain ⟨⟨f, hf⟩, _⟩ := reach_any (R := R) (q := q) hpos init out ks
  have hd := depth_eq (R := R) (q := q) hpos init out ks
  obtain ⟨layers, hu, hF, hm⟩ := reach_layers (R := R) (q := q) hpos init out ks
  have hlen := hF.length_eq
  have hqr : ((freshCircuit (R := R) q dims init out).calls ks).qregs = q.toRegs := by rw [hf]; rfl
  have hw : ((freshCircuit (R := R) q dims init out).calls ks).width =
      (freshCircuit (R := R) q dims init out).width := by rw [hf]; rfl
  generalize hL : layering dims.length (kept (freshCircuit (R := R) q dims init out) (live ks)) = L at *
  have hdis : ∀ l ∈ L, Disjoint2 dims.length l := by rw [← hL]; exact layering_disjoint _ _
  have hleg : ∀ l ∈ L, ∀ k ∈ l, k.Legible dims.length := by
    intro l hlm k hk
    apply hl
    rw [← layering_flatten dims.length (kept (freshCircuit (R := R) q dims init out) (live ks)), hL]
    exact List.mem_flatten.2 ⟨l, hlm, hk⟩
  have hnoinit : ∀ m ∈ layers.map Prod.fst, ∀ g ∈ m, g.isInit = false := by
    intro m hm g hg
    obtain ⟨l, hlm, rfl⟩ := List.mem_map.1 hm
    exact (hu.lay l hlm).notInit g hg
  have hnomeas : ∀ m ∈ layers.map Prod.fst, ∀ g ∈ m, g.isMeas = false := by
    intro m hm g hg
    obtain ⟨l, hlm, rfl⟩ := List.mem_map.1 hm
    exact hu.noMeas l hlm g hg
  unfold Circuit.str
  rw [hqr, hd, hw, hm, hrows]
  generalize hG : layers.map Prod.fst = G at *
  have hcols : ((L.length : Int) + 2).toNat = L.length + 2 := by omega
  rw [hcols]
  rw [drawMoments_ok]
  rotate_left
  · rw [List.length_append, List.length_cons, hlen]
    split <;> simp
  · intro m hmem g hg
    rcases List.mem_append.1 hmem with hmem | hmem
    · rcases List.mem_cons.1 hmem with rfl | hmem
      · obtain ⟨i, hi, rfl⟩ := List.mem_map.1 hg
        intro w hw
        simp only [GateObj.marks, List.mem_singleton] at hw
        rw [List.mem_range] at hi
        subst hw
        simp only
        omega
      · obtain ⟨i, hi, rfl⟩ := List.getElem_of_mem hmem
        have hi' : i < L.length := by omega
        have hfit := (List.forall₂_iff_get.1 hF).2 i hi hi'
        exact layer_marks hfit (hnoinit _ hmem) (hnomeas _ hmem) (hleg _ (List.getElem_mem hi')) hg
    · split at hmem
      · rw [List.mem_singleton] at hmem
        subst hmem
        obtain ⟨i, hi, rfl⟩ := List.mem_map.1 hg
        intro w hw
        simp only [GateObj.marks, List.mem_singleton] at hw
        rw [List.mem_range] at hi
        subst hw
        simp only
        omega
      · cases hmem
  simp only [bind, Except.bind, columns, picture]
  congr 5
  apply flatMap_congr_left'
  intro r hr
  rw [List.mem_range] at hr
  congr 1
  rw [← hlen, range_cells (fun m : Option (List (GateObj R)) =>
    padCell (m.bind fun m => lastWrite (m.flatMap GateObj.marks) r))]
  simp only [Option.bind_some, padCell_shown]
  have hone : ∀ (f : Nat → GateObj R) (t : Nat → List Char), (∀ i, (f i).marks = [((i : Int), t i)]) →
      lastWrite (((List.range dims.length).map f).flatMap GateObj.marks) r = some (t r) := by
    intro f t h
    rw [List.flatMap_map]
    have : (List.range dims.length).flatMap (fun i => (f i).marks) =
        ((List.range dims.length).map fun i : Nat => (i : Int)).map fun x => (x, t x.toNat) := by
      rw [List.map_map]
      apply flatMap_singleton_map
      intro i
      rw [h]
      simp
    rw [this, lastWrite_map, if_pos]
    · simp
    · exact List.mem_map.2 ⟨r, List.mem_range.2 hr, rfl⟩
  congr 1
  · congr 1
    · unfold initOps
      rw [hone _ (fun i => '(' :: Nat.toDigits 10 (dims.getD i 0) ++ [')', '|'] ++ intStr (init.getD i 0) ++ ['>'])
        fun i => rfl]
      show centred _ = _
      rw [centred_long]
      · simp
      · have := intStr_length_pos (init.getD r 0)
        have := Nat.length_toDigits_pos (b := 10) (n := dims.getD r 0)
        simp only [List.length_append, List.length_cons, List.length_nil]
        omega
    · have key : ∀ (G : List (List (GateObj R))) (L : List (List (Call R))), List.Forall₂ (Fits2 dims q.toRegs.seq) G L →
          (∀ l ∈ L, Disjoint2 dims.length l) → (∀ m ∈ G, ∀ g ∈ m, g.isInit = false) →
          (∀ m ∈ G, ∀ g ∈ m, g.isMeas = false) →
          G.flatMap (fun m => cellText (lastWrite (m.flatMap GateObj.marks) r)) =
            L.flatMap fun l => cellText (cellOf l r) := by
        intro G L hF
        induction hF with
        | nil => intros; rfl
        | cons hfit _ ih =>
          intro h1 h2 h3
          rw [List.flatMap_cons, List.flatMap_cons,
            ih (fun l hl => h1 l (by simp [hl])) (fun l hl => h2 l (by simp [hl])) (fun l hl => h3 l (by simp [hl])),
            column_eq hfit (h1 _ (by simp)) (h2 _ (by simp)) (h3 _ (by simp)) hr]
      exact key G L hF hdis hnoinit hnomeas
  · by_cases hm : ks.any Call.isMeasureAll = true
    · rw [if_pos hm, if_pos hm]
      simp only [List.getElem?_cons_zero, Option.bind_some]
      rw [hone _ (fun _ => ['M']) fun i => rfl]
      rfl
    · rw [if_neg hm, if_neg hm]
      rfl

/-! ### Drawings that raise -/

theorem pyIndex_cases (n : Nat) (i : Int) : (∃ k, pyIndex n i = .ok k) ∨ pyIndex n i = .error .index := by
  unfold pyIndex
  split <;> split <;> simp

theorem foldlM_put_raises (ws : List (Int × List Char)) (g : Grid) {j : Nat}
    (h : ∃ w ∈ ws, pyIndex g.rows w.1 = .error .index) :
    ws.foldlM (fun g w => g.put w.1 j w.2) g = (.error .index : PyM Grid) := by
  induction ws generalizing g with
  | nil => obtain ⟨w, hw, _⟩ := h; cases hw
  | cons w ws ih =>
    rw [List.foldlM_cons]
    rcases pyIndex_cases g.rows w.1 with ⟨k, hk⟩ | hk
    · by_cases hj : j < g.cols
      · have hp : g.put w.1 j w.2 = .ok { g with cell := fun a b => if a = k ∧ b = j then some w.2 else g.cell a b } := by
          unfold Grid.put
          rw [hk]
          simp only
          rw [if_pos hj]
        rw [hp]
        simp only [bind, Except.bind]
        apply ih
        obtain ⟨w', hw', he⟩ := h
        rcases List.mem_cons.1 hw' with rfl | hw'
        · rw [hk] at he; cases he
        · exact ⟨w', hw', he⟩
      · have hp : g.put w.1 j w.2 = .error .index := by
          unfold Grid.put
          rw [hk]
          simp only
          rw [if_neg hj]
        rw [hp]
        rfl
    · have hp : g.put w.1 j w.2 = .error .index := by
        unfold Grid.put
        rw [hk]
      rw [hp]
      rfl

theorem foldlM_put_rows (ws : List (Int × List Char)) (g : Grid) {j : Nat} :
    ws.foldlM (fun g w => g.put w.1 j w.2) g = (.error .index : PyM Grid) ∨
    ∃ g' : Grid, ws.foldlM (fun g w => g.put w.1 j w.2) g = (.ok g' : PyM Grid) ∧ g'.rows = g.rows := by
  induction ws generalizing g with
  | nil => exact .inr ⟨g, rfl, rfl⟩
  | cons w ws ih =>
    rw [List.foldlM_cons]
    rcases pyIndex_cases g.rows w.1 with ⟨k, hk⟩ | hk
    · by_cases hj : j < g.cols
      · have hp : g.put w.1 j w.2 = .ok { g with cell := fun a b => if a = k ∧ b = j then some w.2 else g.cell a b } := by
          unfold Grid.put
          rw [hk]
          simp only
          rw [if_pos hj]
        rw [hp]
        simp only [bind, Except.bind]
        exact ih _
      · have hp : g.put w.1 j w.2 = .error .index := by
          unfold Grid.put
          rw [hk]
          simp only
          rw [if_neg hj]
        rw [hp]
        exact .inl rfl
    · have hp : g.put w.1 j w.2 = .error .index := by
        unfold Grid.put
        rw [hk]
      rw [hp]
      exact .inl rfl

theorem drawMoments_raises (ms : List (List (GateObj R))) (g : Grid)
    (h : ∃ m ∈ ms, ∃ o ∈ m, ∃ w ∈ o.marks, pyIndex g.rows w.1 = .error .index) :
    drawMoments ms g = .error .index := by
  unfold drawMoments
  have key : ∀ (ms : List (List (GateObj R))) (i : Nat) (g : Grid),
      (∃ m ∈ ms, ∃ o ∈ m, ∃ w ∈ o.marks, pyIndex g.rows w.1 = .error .index) →
      (ms.zipIdx i).foldlM (fun g mj => drawMoment mj.2 mj.1 g) g = (.error .index : PyM Grid) := by
    intro ms
    induction ms with
    | nil => rintro i g ⟨m, hm, _⟩; cases hm
    | cons m ms ih =>
      intro i g h
      rw [List.zipIdx_cons, List.foldlM_cons]
      unfold drawMoment
      rcases foldlM_put_rows (m.flatMap GateObj.marks) g (j := i) with he | ⟨g', he, hg'⟩
      · rw [he]; rfl
      · simp only [he, bind, Except.bind]
        obtain ⟨m', hm', o, ho, w, hw, hidx⟩ := h
        rcases List.mem_cons.1 hm' with rfl | hm'
        · rw [foldlM_put_raises _ _ ⟨w, List.mem_flatMap.2 ⟨o, ho, hw⟩, hidx⟩] at he
          cases he
        · exact ih (i + 1) g' ⟨m', hm', o, ho, w, hw, by rw [hg']; exact hidx⟩
  exact key ms 0 g h

/-! ### C32 -/

/-- **C32.** For registers given as a list, and any calls (raising, rejected and out-of-range ones included)
whose `cx` and `toffoli` calls do not lie half outside the circuit, `str(circuit)` is the picture of the accepted
calls, layer by layer. -/
theorem C32_text_drawing {ds : List Int} (hn : ds ≠ []) {init : List Int} {out : Option Output}
    (ks : List (Call R)) (hok : ∃ c : Circuit R, Circuit.new (.list ds) init out = .ok c)
    (hl : ∀ k ∈ accepted (.list ds) init out ks, k.Legible ds.length) :
    drawing (.list ds) init out ks =
      .ok (picture (ds.map Int.toNat) init (layering ds.length (accepted (.list ds) init out ks))
        (ks.any Call.isMeasureAll) (Nat.toDigits 10 ds.length)) := by
  obtain ⟨c, hc⟩ := hok
  rw [accepted_fresh hc] at hl ⊢
  unfold drawing
  rw [hc]
  obtain ⟨dims, hd, hv, rfl⟩ := new_fresh hc
  have hd' : ds = dims.map Int.ofNat := hd
  have hlen : ds.length = dims.length := by rw [hd', List.length_map]
  have hdims : ds.map Int.toNat = dims := by
    rw [hd', List.map_map]
    conv_rhs => rw [← List.map_id dims]
    apply List.map_congr_left
    intro a _
    rfl
  have hpos : 0 < dims.length := by rw [← hlen]; exact List.length_pos_of_ne_nil hn
  rw [hlen] at hl
  have := drawing_rows (R := R) (q := .list ds) hpos (by simp [RegsArg.toRegs, Regs.seq, hlen]) init out ks hl
  simp only [bind, Except.bind]
  rw [this, hdims, hlen]
  congr 2
  simp [Circuit.width, freshCircuit, RegsArg.toRegs, Width.text, hlen]

/-- **C32 (two registers as a pair).** The pair form `(2, d)` gives the same rows; the width is shown as the pair. -/
theorem C32_pair_of_two {d : Int} {init : List Int} {out : Option Output} (ks : List (Call R))
    (hok : ∃ c : Circuit R, Circuit.new (.tuple 2 d) init out = .ok c)
    (hl : ∀ k ∈ accepted (.tuple 2 d) init out ks, k.Legible 2) :
    drawing (.tuple 2 d) init out ks =
      .ok (picture [d.toNat, d.toNat] init (layering 2 (accepted (.tuple 2 d) init out ks))
        (ks.any Call.isMeasureAll) (['(', '2', ',', ' '] ++ Nat.toDigits 10 d.toNat ++ [')'])) := by
  obtain ⟨c, hc⟩ := hok
  rw [accepted_fresh hc] at hl ⊢
  unfold drawing
  rw [hc]
  obtain ⟨dims, hd, hv, rfl⟩ := new_fresh hc
  obtain ⟨a, b, rfl⟩ : ∃ a b, dims = [a, b] := by
    have hlen := congrArg List.length hd
    simp only [RegsArg.dims, List.length_replicate, List.length_map] at hlen
    rcases dims with _ | ⟨a, _ | ⟨b, _ | ⟨c, t⟩⟩⟩ <;> simp at hlen
    exact ⟨a, b, rfl⟩
  simp only [RegsArg.dims, List.replicate, List.map_cons, List.map_nil, List.cons.injEq, and_true] at hd
  have ha : d.toNat = a := by rw [hd.1]; rfl
  have hb : d.toNat = b := by rw [hd.2]; rfl
  have := drawing_rows (R := R) (q := .tuple 2 d) (dims := [a, b]) (by simp) rfl init out ks hl
  simp only [bind, Except.bind]
  rw [this, ← ha, ← hb]
  rfl

/-- **C32 (three or more registers as a pair).** `str` and `draw` raise `IndexError` for every circuit built from
a pair `(n, d)` with `n ≥ 3`: the table has only two rows. -/
theorem C32_pair_raises {n : Nat} (hn : 3 ≤ n) {d : Int} {init : List Int} {out : Option Output} (ks : List (Call R))
    (hok : ∃ c : Circuit R, Circuit.new (.tuple n d) init out = .ok c) :
    drawing (.tuple n d) init out ks = .error .index := by
  obtain ⟨c, hc⟩ := hok
  unfold drawing
  rw [hc]
  obtain ⟨dims, hd, hv, rfl⟩ := new_fresh hc
  have hlen : n = dims.length := by
    have := congrArg List.length hd
    simpa [RegsArg.dims] using this
  have hpos : 0 < dims.length := by omega
  obtain ⟨layers, hu, hF, hm⟩ := reach_layers (R := R) (q := .tuple n d) hpos init out ks
  obtain ⟨⟨f, hf⟩, _⟩ := reach_any (R := R) (q := .tuple n d) hpos init out ks
  have hqr : ((freshCircuit (R := R) (.tuple n d) dims init out).calls ks).qregs = .tuple n d.toNat := by rw [hf]; rfl
  simp only [bind, Except.bind]
  unfold Circuit.str
  rw [drawMoments_raises]
  · rfl
  · refine ⟨initOps dims init, by rw [hm]; simp, .init (dims.getD 2 0) (init.getD 2 0) 2,
      List.mem_map.2 ⟨2, List.mem_range.2 (by omega), rfl⟩, _, List.mem_singleton.2 rfl, ?_⟩
    simp only [hqr]
    rfl

/-- **C32 (cx half outside).** If some accepted `cx` reaches an existing register, but one of its registers is
`n` or more, or below `-n`, then `str(circuit)` raises `IndexError`. -/
theorem C32_cx_outside {ds : List Int} (hn : ds ≠ []) {init : List Int} {out : Option Output}
    (ks : List (Call R)) (hok : ∃ c : Circuit R, Circuit.new (.list ds) init out = .ok c)
    {ctl tgt p : Int} (hk : .cx ctl tgt p ∈ accepted (.list ds) init out ks)
    (hocc : ∃ r < ds.length, (Call.cx ctl tgt p : Call R).occupies r)
    (hout : ∃ x ∈ [ctl, tgt], (ds.length : Int) ≤ x ∨ x < -(ds.length : Int)) :
    drawing (.list ds) init out ks = .error .index := by
  obtain ⟨c, hc⟩ := hok
  rw [accepted_fresh hc] at hk
  unfold drawing
  rw [hc]
  obtain ⟨dims, hd, hv, rfl⟩ := new_fresh hc
  have hlen : ds.length = dims.length := by
    have := congrArg List.length hd
    simpa [RegsArg.dims] using this
  have hpos : 0 < dims.length := by rw [← hlen]; exact List.length_pos_of_ne_nil hn
  obtain ⟨layers, hu, hF, hm⟩ := reach_layers (R := R) (q := .list ds) hpos init out ks
  obtain ⟨⟨f, hf⟩, _⟩ := reach_any (R := R) (q := .list ds) hpos init out ks
  have hqr : ((freshCircuit (R := R) (.list ds) dims init out).calls ks).qregs = (RegsArg.list ds).toRegs := by
    rw [hf]; rfl
  rw [← layering_flatten dims.length (kept (freshCircuit (R := R) (.list ds) dims init out) (live ks))] at hk
  obtain ⟨l, hl, hkl⟩ := List.mem_flatten.1 hk
  obtain ⟨i, hi, rfl⟩ := List.getElem_of_mem hl
  have hi' : i < (layers.map Prod.fst).length := by rw [hF.length_eq]; exact hi
  have hfit : Fits2 dims (RegsArg.list ds).toRegs.seq (layers.map Prod.fst)[i] (layering dims.length
      (kept (freshCircuit (R := R) (.list ds) dims init out) (live ks)))[i] := (List.forall₂_iff_get.1 hF).2 i hi' hi
  have hmm : (layers.map Prod.fst)[i] ∈ layers.map Prod.fst := List.getElem_mem hi'
  have hmem : (Call.cx ctl tgt p : Call R).drawn ∈
      ((layers.map Prod.fst)[i].filter fun g => !g.isIdent).map fun g => g.drawn := by
    rw [hfit.shows.mem_iff]
    refine List.mem_map.2 ⟨_, List.mem_filter.2 ⟨hkl, ?_⟩, rfl⟩
    rw [hlen] at hocc
    simpa using hocc
  obtain ⟨g, hg, hgd⟩ := List.mem_map.1 hmem
  obtain ⟨hg, _⟩ := List.mem_filter.1 hg
  simp only [bind, Except.bind]
  unfold Circuit.str
  rw [drawMoments_raises]
  · rfl
  · refine ⟨(layers.map Prod.fst)[i], by rw [hm]; exact List.mem_append_left _ (List.mem_cons_of_mem _ hmm), g, hg, ?_⟩
    simp only [hqr]
    have hrow : (RegsArg.list ds).toRegs.seq.length = ds.length := by simp [RegsArg.toRegs, Regs.seq]
    rw [hrow]
    cases g with
    | cx qr c t p' =>
      simp only [GateObj.drawn, Call.drawn, Option.some.injEq, Drawn.cx.injEq] at hgd
      obtain ⟨rfl, rfl, rfl⟩ := hgd
      obtain ⟨x, hx, hx'⟩ := hout
      have hidx : pyIndex ds.length x = .error .index := by
        unfold pyIndex
        split
        · rw [if_neg (by omega)]
        · rw [if_neg (by omega)]
      simp only [List.mem_cons, List.not_mem_nil, or_false] at hx
      rcases hx with rfl | rfl
      · exact ⟨(x, ['*']), by simp [GateObj.marks], hidx⟩
      · exact ⟨(x, ['X', '('] ++ intStr p' ++ [')']), by simp [GateObj.marks], hidx⟩
    | _ => cases hgd

/-! ### Examples -/

/-- A toffoli around a third register, gates that share a layer, a custom gate and a dropped one. -/
def drawSample : List (Call ℤ) :=
  [.toffoli [0, 3] 2 2, .z 0 none, .x 1 none 1, .cx 3 1 1, .gate ⟨2, 2, fun _ _ => 0⟩ (.int 0) none,
    .x (-1) none 1, .measureAll]

def drawSampleText : String :=
"(2)|0>--*----Z-------------------M--
(2)|1>--|---X(1)-X(1)------------M--
(3)|0>-X(2)-------|--------------M--
(2)|0>--*---------*--------------M--

depth: 5, width: 4"

set_option maxRecDepth 10000 in
example : drawing (.list [2, 2, 3, 2]) [0, 1] none drawSample = .ok drawSampleText.toList := by rfl

set_option maxRecDepth 10000 in
example := C32_text_drawing (R := ℤ) (ds := [2, 2, 3, 2]) (init := [0, 1]) (out := none) (by decide)
  drawSample ⟨_, rfl⟩ (by
    intro k hk
    have : accepted (.list [2, 2, 3, 2]) [0, 1] none drawSample = drawSample.dropLast := rfl
    rw [this] at hk
    simp only [drawSample, List.dropLast, List.mem_cons, List.not_mem_nil, or_false] at hk
    rcases hk with rfl | rfl | rfl | rfl | rfl | rfl <;> intro h <;>
      first
      | (left; simp [Call.regs]; done)
      | (rcases h with h | h <;> cases h))

example := C32_pair_raises (R := ℤ) (n := 3) (by decide) (d := 2) (init := []) (out := none) [] ⟨_, rfl⟩

example := C32_pair_of_two (R := ℤ) (d := 3) (init := []) (out := none) [.x 0 none 1] ⟨_, rfl⟩ (by
  intro k hk
  have : accepted (.tuple 2 3) [] none [(.x 0 none 1 : Call ℤ)] = [.x 0 none 1] := rfl
  rw [this, List.mem_singleton] at hk
  subst hk
  rintro (h | h) <;> cases h)

example := C32_cx_outside (R := ℤ) (ds := [2, 2]) (init := []) (out := none) (by decide) [.cx 0 5 1] ⟨_, rfl⟩
  (ctl := 0) (tgt := 5) (p := 1) (by
    have : accepted (.list [2, 2]) [] none [(.cx 0 5 1 : Call ℤ)] = [.cx 0 5 1] := rfl
    rw [this]; simp) ⟨0, by decide, by decide⟩ ⟨5, by decide, by decide⟩

end QuDiet
