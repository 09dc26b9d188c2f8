import Verif.Props.Draw

/-! # C33: the matplotlib drawing -/

namespace QuDiet

open Spec

variable {R : Type} [CommRing R]

/-! ### Specification -/

/-- The gates that `draw('mpl')` can draw: of the `cx`, those that involve register 0; of the `toffoli`, those
with at least one control and a target not greater than the distance between two of their registers (so
not greater than the distance between the lowest and the highest); all others. -/
def Drawn.Drawable : Drawn → Prop
  | .cx c t _ => c = 0 ∨ t = 0
  | .toffoli cs t _ => cs ≠ [] ∧ ∃ a ∈ cs ++ [t], ∃ b ∈ cs ++ [t], t ≤ b - a
  | _ => True

/-- What is drawn for a gate, in a circuit with registers of dimensions `dims`: a box for a gate on one register; control
dots and a box labelled with an increment and a dimension for `cx` and `toffoli` (for `toffoli`, the
dimension is not that of the target `t`, but that of the register `lowest + t`); the usual `cnot` sign,
without increment, for a `cx` on two qubits; a wide box for a custom gate on several registers. -/
def Drawn.Draws (dims : List Nat) : Drawn → Shape → Prop
  | .h q, s => s = .box 'H' q none
  | .x q p, s => ∃ d, s = .box 'X' q (some (p, d))
  | .z q, s => s = .box 'Z' q none
  | .cx c t p, s => s = if dims.getD c.toNat 0 = 2 ∧ dims.getD t.toNat 0 = 2 then .cnot c t
      else .ctl [c] t p (dims.getD t.toNat 0)
  | .toffoli cs t p, s => ∃ low ∈ cs ++ [t], (∀ x ∈ cs ++ [t], low ≤ x) ∧
      s = .ctl cs t p (dims.getD (low + t).toNat 0)
  | .custom (.int q), s => s = .box 'G' q none
  | .custom (.list qs), s => (∃ q, qs = [q] ∧ s = .box 'G' q none) ∨ 2 ≤ qs.length ∧ s = .wide qs

/-- `circuit.draw('mpl')` after the calls: the shapes that are drawn, layer by layer. -/
def drawingMpl (qregs : RegsArg) (init : List Int) (out : Option Output) (ks : List (Call R)) :
    PyM (List (List Shape)) := do
  let c ← Circuit.new (R := R) qregs init out
  (c.calls ks).drawMpl

/-! ### One gate -/

theorem slice_getD {l : List Nat} {a b i : Nat} (h : i < b) : (slice l a b).getD i 0 = l.getD (a + i) 0 := by
  unfold slice
  simp [List.getD_eq_getElem?_getD, List.getElem?_take, h]

theorem slice_len {l : List Nat} {a b : Nat} (h : a + b ≤ l.length) : (slice l a b).length = b := by
  unfold slice
  simp
  omega

theorem pyGet_slice {l : List Nat} {a n : Nat} {i : Int} (h : a + n ≤ l.length) (h0 : 0 ≤ i) :
    pyGet (slice l a n) i = if i < n then .ok (l.getD (a + i.toNat) 0) else .error .index := by
  have hl := slice_len h
  split
  · rename_i hi
    rw [pyGet_ok h0 (by rw [hl]; exact hi), ← slice_getD (show i.toNat < n by omega)]
    rw [List.getD_eq_getElem?_getD, List.getElem?_eq_getElem (by omega)]
    rfl
  · exact pyGet_out (.inr (by rw [hl]; omega))

omit [CommRing R] in
theorem cx_shape {dims : List Nat} {qr : List Nat} {c t p : Int}
    (hs : (GateObj.cx qr c t p : GateObj R).SpanOk dims dims)
    (hc : 0 ≤ c ∧ c < (dims.length : Int)) (ht : 0 ≤ t ∧ t < (dims.length : Int)) :
    if c = 0 ∨ t = 0 then ∃ s, (GateObj.cx qr c t p : GateObj R).shape = .ok (some s) ∧ (Drawn.cx c t p).Draws dims s
    else (GateObj.cx qr c t p : GateObj R).shape = .error .index := by
  obtain ⟨lo, n, hqr, hlo, hn⟩ : ∃ lo n : Nat, qr = slice dims lo n ∧ (lo : Int) = min c t ∧
      (n : Int) = max c t + 1 - min c t := by
    simp only [GateObj.SpanOk] at hs
    split at hs
    · rw [pySlice_in hc.1 (by omega) ht.2] at hs
      exact ⟨_, _, hs, by omega, by omega⟩
    · rw [pySlice_in ht.1 (by omega) hc.2] at hs
      exact ⟨_, _, hs, by omega, by omega⟩
  have hb : lo + n ≤ dims.length := by omega
  subst hqr
  simp only [GateObj.shape]
  rw [pyGet_slice hb ht.1, pyGet_slice hb hc.1]
  split
  · rename_i h0
    have : lo = 0 := by omega
    subst this
    rw [if_pos (by omega), if_pos (by omega)]
    simp only [Nat.zero_add, bind, Except.bind]
    simp only [Drawn.Draws, drawCgate, pyMin]
    split
    · exact ⟨_, rfl, rfl⟩
    · exact ⟨_, rfl, rfl⟩
  · by_cases h1 : t < (n : Int)
    · rw [if_pos h1, if_neg (by omega)]
      rfl
    · rw [if_neg h1]
      rfl

theorem mapM_pyGet_range {dims : List Nat} {lb ub : Int} (h0 : 0 ≤ lb) (h1 : ub < dims.length) (hle : lb ≤ ub) :
    (pyRange lb (ub + 1)).mapM (pyGet dims) = .ok (slice dims lb.toNat (ub + 1 - lb).toNat) := by
  rw [mapM_ok _ _ (fun i => dims.getD i.toNat 0)]
  · congr 1
    apply List.ext_getElem
    · rw [slice_len (by omega)]
      simp [pyRange]
    · intro i hi hi'
      rw [slice_len (by omega)] at hi'
      have := slice_getD (l := dims) (a := lb.toNat) hi'
      rw [List.getD_eq_getElem?_getD, List.getElem?_eq_getElem (by rw [slice_len (by omega)]; exact hi')] at this
      simp only [Option.getD_some] at this
      rw [this]
      simp only [pyRange, List.getElem_map, List.getElem_range]
      congr 1
      omega
  · intro i hi
    have := mem_pyRange.1 hi
    rw [pyGet_ok (by omega) (by omega), List.getD_eq_getElem?_getD, List.getElem?_eq_getElem (by omega)]
    rfl

omit [CommRing R] in
theorem toffoli_shape {dims : List Nat} {cs ac : List Int} {ds : List Nat} {U : Mat R} {t p : Int}
    (hs : (GateObj.toffoli cs t ac ds U p : GateObj R).SpanOk dims dims)
    (hr : ∀ q ∈ cs ++ [t], 0 ≤ q ∧ q < (dims.length : Int)) :
    ((Drawn.toffoli cs t p).Drawable →
      ∃ s, (GateObj.toffoli cs t ac ds U p : GateObj R).shape = .ok (some s) ∧ (Drawn.toffoli cs t p).Draws dims s) ∧
    (¬ (Drawn.toffoli cs t p).Drawable →
      ∃ e, (GateObj.toffoli cs t ac ds U p : GateObj R).shape = .error e ∧ (cs ≠ [] → e = .index)) := by
  obtain ⟨lb, ub, hlb, hub, rfl, hds⟩ := hs
  obtain ⟨lb', ub', hlb', hub', h1, h2, h3, h4⟩ := exists_bounds (qs := cs ++ [t]) (by simp)
  rw [hlb'] at hlb
  rw [hub'] at hub
  injection hlb with hlb
  injection hub with hub
  subst hlb hub
  have hL := hr _ h1
  have hU := hr _ h2
  have hT := hr t (by simp)
  have hle := h3 t (by simp)
  have hle' := h4 t (by simp)
  rw [mapM_pyGet_range hL.1 hU.2 (by omega)] at hds
  cases hds
  have hshape : (GateObj.toffoli cs t (pyRange lb' (ub' + 1)) (slice dims lb'.toNat (ub' + 1 - lb').toNat) U p :
      GateObj R).shape = Except.bind (if t < ((ub' + 1 - lb').toNat : Int) then
          (.ok (dims.getD (lb'.toNat + t.toNat) 0) : PyM Nat) else .error .index) fun dim =>
        Except.bind (drawCgate cs t p dim) fun s => .ok (some s) := by
    rw [← pyGet_slice (l := dims) (by omega) hT.1]
    rfl
  rw [hshape]
  have hiff : (∃ a ∈ cs ++ [t], ∃ b ∈ cs ++ [t], t ≤ b - a) ↔ t < ((ub' + 1 - lb').toNat : Int) := by
    constructor
    · rintro ⟨a, ha, b, hb, hab⟩
      have := h3 a ha
      have := h4 b hb
      omega
    · intro h
      exact ⟨_, h1, _, h2, by omega⟩
  constructor
  · rintro ⟨hne, hd⟩
    rw [if_pos (hiff.1 hd)]
    obtain ⟨m, hm, _⟩ := pyMin_spec hne
    simp only [bind, Except.bind, drawCgate, hm]
    refine ⟨_, rfl, lb', h1, h3, ?_⟩
    rw [Int.toNat_add hL.1 hT.1]
  · intro hnd
    by_cases ht : t < ((ub' + 1 - lb').toNat : Int)
    · rw [if_pos ht]
      have : cs = [] := by
        by_contra hne
        exact hnd ⟨hne, hiff.2 ht⟩
      subst this
      exact ⟨.value, rfl, fun h => absurd rfl h⟩
    · rw [if_neg ht]
      exact ⟨.index, rfl, fun _ => rfl⟩

omit [CommRing R] in
/-- The shape of one operator of a circuit. -/
theorem gate_shape {dims : List Nat} {g : GateObj R} {d : Drawn} (hs : g.SpanOk dims dims) (hd : g.drawn = some d)
    (hr : d.kind = .cx ∨ d.kind = .toffoli → ∀ q ∈ d.regs, 0 ≤ q ∧ q < (dims.length : Int)) (hne : d.regs ≠ []) :
    (d.Drawable → ∃ s, g.shape = .ok (some s) ∧ d.Draws dims s) ∧
    (¬ d.Drawable → ∃ e, g.shape = .error e ∧ ((∀ t p, d ≠ .toffoli [] t p) → e = .index)) := by
  cases g with
  | toffoli cs t ac ds U p =>
    cases hd
    have := toffoli_shape hs (hr (.inr rfl))
    refine ⟨this.1, fun h => ?_⟩
    obtain ⟨e, he, h1⟩ := this.2 h
    exact ⟨e, he, fun hno => h1 fun hcs => hno t p (by rw [hcs])⟩
  | cx qr c t p =>
    cases hd
    have hr' := hr (.inl rfl)
    have := cx_shape hs (hr' c (by simp [Drawn.regs])) (hr' t (by simp [Drawn.regs]))
    constructor
    · intro h
      rw [if_pos (show c = 0 ∨ t = 0 from h)] at this
      exact this
    · intro h
      rw [if_neg (show ¬ (c = 0 ∨ t = 0) from h)] at this
      exact ⟨_, this, fun _ => rfl⟩
  | arb q m ds =>
    cases hd
    refine ⟨fun _ => ?_, fun h => absurd trivial h⟩
    rcases q with q | qs
    · exact ⟨_, rfl, rfl⟩
    · match qs, hne with
      | [q], _ => exact ⟨_, rfl, .inl ⟨q, rfl, rfl⟩⟩
      | q :: q' :: qs, _ => exact ⟨_, rfl, .inr ⟨by simp, rfl⟩⟩
  | h q d => cases hd; exact ⟨fun _ => ⟨_, rfl, rfl⟩, fun h => absurd trivial h⟩
  | z q d => cases hd; exact ⟨fun _ => ⟨_, rfl, rfl⟩, fun h => absurd trivial h⟩
  | x q d p => cases hd; exact ⟨fun _ => ⟨_, rfl, d, rfl⟩, fun h => absurd trivial h⟩
  | _ => cases hd

/-! ### One layer -/

/-- The gates of a layer of calls that are drawn: those that reach an existing register. -/
def shownGates (n : Nat) (layer : List (Call R)) : List Drawn :=
  (layer.filter fun k => ∃ r < n, k.occupies r).filterMap fun k => k.drawn

omit [CommRing R] in
theorem occupies_ne {k : Call R} {r : Nat} (h : k.occupies r) : k.regs ≠ [] := by
  obtain ⟨⟨a, ha, _⟩, _⟩ := h
  intro he
  rw [he] at ha
  cases ha

/-- The gates of the operators of a layer. -/
def layerGates (m : List (GateObj R)) : List Drawn := m.filterMap fun g => g.drawn

omit [CommRing R] in
theorem layerGates_perm {n : Nat} {m : List (GateObj R)} {layer : List (Call R)} (h : Shows n m layer) :
    (layerGates m).Perm (shownGates n layer) := by
  have := h.filterMap id
  rw [List.filterMap_map, List.filterMap_map] at this
  unfold layerGates shownGates
  refine List.Perm.trans (List.Perm.of_eq ?_) this
  rw [List.filterMap_filter]
  congr 1
  funext g
  cases g <;> rfl

theorem shownGates_ok {n : Nat} {layer : List (Call R)} (hl : ∀ k ∈ layer, k.Legible n) {d : Drawn}
    (hd : d ∈ shownGates n layer) :
    d.regs ≠ [] ∧ (d.kind = .cx ∨ d.kind = .toffoli → ∀ q ∈ d.regs, 0 ≤ q ∧ q < (n : Int)) := by
  obtain ⟨k, hk, hkd⟩ := List.mem_filterMap.1 hd
  obtain ⟨hk, ho⟩ := List.mem_filter.1 hk
  obtain ⟨r, hr, ho⟩ : ∃ r < n, k.occupies r := by simpa using ho
  have e := drawn_regs' hkd
  refine ⟨by rw [← e]; exact occupies_ne ho, fun hkind => ?_⟩
  have ek : k.kind = some d.kind := by rw [← kind_drawn', hkd]; rfl
  rw [← e]
  rcases hl k hk (by rw [ek]; simpa using hkind) with h | h
  · exact h
  · exact absurd ho (h r hr)

omit [CommRing R] in
theorem drawLayer_ok {dims : List Nat} {m : List (GateObj R)}
    (hi : ∀ g ∈ m, g.isMeas = false)
    (h : ∀ g ∈ m, ∀ d, g.drawn = some d → ∃ s, g.shape = .ok (some s) ∧ d.Draws dims s) :
    ∃ ss, drawLayer m = .ok ss ∧ List.Forall₂ (Drawn.Draws dims) (layerGates m) ss := by
  induction m with
  | nil => exact ⟨[], rfl, .nil⟩
  | cons g m ih =>
    obtain ⟨ss, h1, h2⟩ := ih (fun g hg => hi g (by simp [hg])) fun g hg => h g (by simp [hg])
    unfold drawLayer at h1 ⊢
    unfold layerGates
    rw [List.mapM_cons, List.filterMap_cons]
    cases hm : m.mapM GateObj.shape with
    | error e => rw [hm] at h1; cases h1
    | ok l =>
      rw [hm] at h1
      cases h1
      cases hd : g.drawn with
      | none =>
        have hsh : g.shape = .ok none := by
          cases g <;> first | rfl | (cases hd; done) | (cases hi _ (List.mem_cons_self ..); done)
        rw [hsh]
        exact ⟨_, rfl, h2⟩
      | some d =>
        obtain ⟨s, hs, hD⟩ := h g (by simp) d hd
        rw [hs]
        exact ⟨_, rfl, .cons hD h2⟩

omit [CommRing R] in
theorem mapM_error' {α β : Type} {l : List α} {f : α → PyM β} {P : Err → Prop} {a : α} (ha : a ∈ l)
    (h : ∃ e, f a = .error e) (hall : ∀ a ∈ l, ∀ e, f a = .error e → P e) : ∃ e, l.mapM f = .error e ∧ P e := by
  induction l with
  | nil => cases ha
  | cons b l ih =>
    rw [List.mapM_cons]
    cases hb : f b with
    | error e => exact ⟨e, rfl, hall b (by simp) e hb⟩
    | ok y =>
      rcases List.mem_cons.1 ha with rfl | ha
      · obtain ⟨e, he⟩ := h
        rw [hb] at he
        cases he
      · obtain ⟨e, he, hp⟩ := ih ha fun a ha => hall a (by simp [ha])
        exact ⟨e, by rw [he]; rfl, hp⟩

omit [CommRing R] in
theorem mapM_error_mem {α β : Type} {l : List α} {f : α → PyM β} {e : Err} (h : l.mapM f = .error e) :
    ∃ a ∈ l, f a = .error e := by
  induction l with
  | nil => cases h
  | cons b l ih =>
    rw [List.mapM_cons] at h
    cases hb : f b with
    | error e' => rw [hb] at h; cases h; exact ⟨b, by simp, hb⟩
    | ok y =>
      rw [hb] at h
      cases hm : l.mapM f with
      | error e' =>
        rw [hm] at h
        cases h
        obtain ⟨a, ha, hf⟩ := ih hm
        exact ⟨a, by simp [ha], hf⟩
      | ok ys => rw [hm] at h; cases h

/-! ### The circuit -/

theorem fits_shape {dims : List Nat} {m : List (GateObj R)} {layer : List (Call R)} (hf : Fits2 dims dims m layer)
    (hl : ∀ k ∈ layer, k.Legible dims.length) {g : GateObj R} (hg : g ∈ m) {d : Drawn} (hd : g.drawn = some d) :
    (d.Drawable → ∃ s, g.shape = .ok (some s) ∧ d.Draws dims s) ∧
    (¬ d.Drawable → ∃ e, g.shape = .error e ∧ ((∀ t p, d ≠ .toffoli [] t p) → e = .index)) := by
  have hmem : d ∈ shownGates dims.length layer :=
    (layerGates_perm hf.shows).mem_iff.1 (List.mem_filterMap.2 ⟨g, hg, hd⟩)
  obtain ⟨h1, h2⟩ := shownGates_ok hl hmem
  exact gate_shape (hf.spans g hg) hd h2 h1

theorem fits_layer {dims : List Nat} {m : List (GateObj R)} {layer : List (Call R)} (hf : Fits2 dims dims m layer)
    (hm : ∀ g ∈ m, g.isMeas = false) (hl : ∀ k ∈ layer, k.Legible dims.length) :
    ((∀ d ∈ shownGates dims.length layer, d.Drawable) → ∃ ss l, drawLayer m = .ok ss ∧
      l.Perm (shownGates dims.length layer) ∧ List.Forall₂ (Drawn.Draws dims) l ss) ∧
    ((∃ d ∈ shownGates dims.length layer, ¬ d.Drawable) → ∃ e, drawLayer m = .error e) ∧
    ∀ e, drawLayer m = .error e → (∀ t p, Drawn.toffoli [] t p ∉ shownGates dims.length layer) → e = .index := by
  have hp := layerGates_perm hf.shows
  refine ⟨fun h => ?_, ?_, fun e he hno => ?_⟩
  · obtain ⟨ss, h1, h2⟩ := drawLayer_ok (dims := dims) hm fun g hg d hd =>
      (fits_shape hf hl hg hd).1 (h d (hp.mem_iff.1 (List.mem_filterMap.2 ⟨g, hg, hd⟩)))
    exact ⟨ss, _, h1, hp, h2⟩
  · rintro ⟨d, hd, hnd⟩
    obtain ⟨g, hg, hgd⟩ := List.mem_filterMap.1 (hp.mem_iff.2 hd)
    obtain ⟨e, he, _⟩ := (fits_shape hf hl hg hgd).2 hnd
    obtain ⟨e', he'⟩ := mapM_error m GateObj.shape g hg e he
    exact ⟨e', by unfold drawLayer; rw [he']; rfl⟩
  · unfold drawLayer at he
    cases hx : m.mapM GateObj.shape with
    | ok l => rw [hx] at he; cases he
    | error e' =>
      rw [hx] at he
      cases he
      obtain ⟨g, hg, hge⟩ := mapM_error_mem hx
      cases hgd : g.drawn with
      | none => cases g <;> first | (cases hgd; done) | (cases hge; done)
      | some d =>
        have hmem : d ∈ shownGates dims.length layer := hp.mem_iff.1 (List.mem_filterMap.2 ⟨g, hg, hgd⟩)
        by_cases hD : d.Drawable
        · obtain ⟨s, hs, _⟩ := (fits_shape hf hl hg hgd).1 hD
          rw [hs] at hge
          cases hge
        · obtain ⟨e', he', h2⟩ := (fits_shape hf hl hg hgd).2 hD
          rw [he'] at hge
          cases hge
          exact h2 fun t p h => hno t p (h ▸ hmem)

/-- Layers of shapes drawn for layers of calls: the gates of each layer are drawn once each, in some order. -/
def DrawsLayer (dims : List Nat) (layer : List (Call R)) (ss : List Shape) : Prop :=
  ∃ l, l.Perm (shownGates dims.length layer) ∧ List.Forall₂ (Drawn.Draws dims) l ss

theorem layers_shapes {dims : List Nat} {G : List (List (GateObj R))} {L : List (List (Call R))}
    (hF : List.Forall₂ (Fits2 dims dims) G L) (hm : ∀ m ∈ G, ∀ g ∈ m, g.isMeas = false)
    (hl : ∀ l ∈ L, ∀ k ∈ l, k.Legible dims.length)
    (hD : ∀ l ∈ L, ∀ d ∈ shownGates dims.length l, d.Drawable) :
    ∃ sss, G.mapM drawLayer = .ok sss ∧ List.Forall₂ (DrawsLayer dims) L sss := by
  induction hF with
  | nil => exact ⟨[], rfl, .nil⟩
  | @cons m layer G L h hF ih =>
    obtain ⟨sss, h1, h2⟩ := ih (fun m hm' => hm m (by simp [hm'])) (fun l hl' => hl l (by simp [hl']))
      (fun l hl' => hD l (by simp [hl']))
    obtain ⟨ss, l, h3, h4, h5⟩ := (fits_layer h (hm m (by simp)) (hl _ (by simp))).1 (hD _ (by simp))
    exact ⟨ss :: sss, by rw [List.mapM_cons, h3, h1]; rfl, .cons ⟨l, h4, h5⟩ h2⟩

theorem drawLayer_init (dims : List Nat) (init : List Int) : drawLayer (initOps (R := R) dims init) = .ok [] := by
  have : ∀ m : List (GateObj R), (∀ g ∈ m, g.shape = .ok none) → drawLayer m = .ok [] := by
    intro m h
    unfold drawLayer
    rw [mapM_ok m _ (fun _ => none) h]
    simp [bind, Except.bind]
  apply this
  intro g hg
  have := (initOps_isInit dims init g hg).1
  cases g <;> first | rfl | (cases this; done)

omit [CommRing R] in
theorem drawLayer_meas (n : Nat) : drawLayer ((List.range n).map (GateObj.meas (R := R))) =
    .ok ((List.range n).map fun (r : Nat) => .box 'M' r none) := by
  unfold drawLayer
  rw [mapM_ok _ _ (fun g => some (match g with | .meas q => .box 'M' q none | _ => .box 'M' 0 none))]
  · simp [bind, Except.bind, List.map_map, List.filterMap_map, Function.comp_def]
  · intro g hg
    obtain ⟨r, _, rfl⟩ := List.mem_map.1 hg
    rfl

/-- **C33.** `draw('mpl')` on a circuit with registers given as a list, all of whose `cx` and `toffoli` name existing
registers: it raises exactly when there is nothing to draw after the initial states, or one of
the gates is not `Drawable`; the error is an `IndexError`, unless there is a `toffoli` without controls; and if it does
not raise then it draws every gate. -/
theorem C33_mpl {ds : List Int} (hn : ds ≠ []) {init : List Int} {out : Option Output}
    (ks : List (Call R)) (hok : ∃ c : Circuit R, Circuit.new (.list ds) init out = .ok c)
    (hl : ∀ k ∈ accepted (.list ds) init out ks, k.Legible ds.length) :
    ((∃ e, drawingMpl (.list ds) init out ks = .error e) ↔
      (accepted (.list ds) init out ks = [] ∧ ks.any Call.isMeasureAll = false) ∨
      ∃ d ∈ shownGates ds.length (accepted (.list ds) init out ks), ¬ d.Drawable) ∧
    (∀ e, drawingMpl (.list ds) init out ks = .error e →
      (∀ t p, .toffoli [] t p ∉ shownGates ds.length (accepted (.list ds) init out ks)) → e = .index) ∧
    ∀ ls, drawingMpl (.list ds) init out ks = .ok ls → ∃ gates,
      ls = [] :: gates ++ (if ks.any Call.isMeasureAll then
        [(List.range ds.length).map fun (r : Nat) => .box 'M' r none] else []) ∧
      List.Forall₂ (DrawsLayer (ds.map Int.toNat)) (layering ds.length (accepted (.list ds) init out ks)) gates := by
  obtain ⟨c, hc⟩ := hok
  rw [accepted_fresh hc] at hl ⊢
  unfold drawingMpl
  rw [hc]
  obtain ⟨dims, hd, hv, rfl⟩ := new_fresh hc
  have hd' : ds = dims.map Int.ofNat := hd
  have hlen : ds.length = dims.length := by rw [hd', List.length_map]
  have hdims : ds.map Int.toNat = dims := by
    rw [hd', List.map_map]
    conv_rhs => rw [← List.map_id dims]
    apply List.map_congr_left
    intro a _
    rfl
  have hpos : 0 < dims.length := by rw [← hlen]; exact List.length_pos_of_ne_nil hn
  rw [hlen] at hl ⊢
  rw [hdims]
  obtain ⟨layers, hu, hF, hm⟩ := reach_layers (R := R) (q := .list ds) hpos init out ks
  have hseq : (RegsArg.list ds).toRegs.seq = dims := hdims
  rw [hseq] at hF
  generalize hA : kept (freshCircuit (R := R) (.list ds) dims init out) (live ks) = A at *
  have hflat := layering_flatten dims.length A
  generalize hLL : layering dims.length A = L at *
  have hlL : ∀ l ∈ L, ∀ k ∈ l, k.Legible dims.length := fun l hl' k hk =>
    hl k (by rw [← hflat]; exact List.mem_flatten.2 ⟨l, hl', hk⟩)
  have hshown : ∀ d, d ∈ shownGates dims.length A ↔ ∃ l ∈ L, d ∈ shownGates dims.length l := by
    intro d
    rw [← hflat]
    unfold shownGates
    simp only [List.mem_filterMap, List.mem_filter, List.mem_flatten]
    constructor
    · rintro ⟨k, ⟨⟨l, h1, h2⟩, h3⟩, h4⟩
      exact ⟨l, h1, k, ⟨h2, h3⟩, h4⟩
    · rintro ⟨l, h1, k, ⟨h2, h3⟩, h4⟩
      exact ⟨k, ⟨⟨l, h1, h2⟩, h3⟩, h4⟩
  have hAL : A = [] ↔ L = [] := by
    constructor
    · intro h; rw [← hLL, h]; rfl
    · intro h; rw [← hflat, h]; rfl
  have hnomeas : ∀ m ∈ layers.map Prod.fst, ∀ g ∈ m, g.isMeas = false := by
    intro m hm'
    obtain ⟨l, hl', rfl⟩ := List.mem_map.1 hm'
    exact hu.noMeas l hl'
  generalize hG : layers.map Prod.fst = G at *
  simp only [bind, Except.bind]
  unfold Circuit.drawMpl
  rw [hm]
  generalize hT : (if ks.any Call.isMeasureAll = true then
    [(List.range dims.length).map (GateObj.meas (R := R))] else []) = T
  have hGL := hF.length_eq
  have hTm : T.mapM drawLayer = .ok (if ks.any Call.isMeasureAll = true then
      [(List.range dims.length).map fun (r : Nat) => Shape.box 'M' r none] else []) := by
    rw [← hT]
    split
    · rw [List.mapM_cons, drawLayer_meas]; rfl
    · rfl
  by_cases h0 : A = [] ∧ ks.any Call.isMeasureAll = false
  · have hG0 : G = [] := List.length_eq_zero_iff.1 (by rw [hGL, hAL.1 h0.1]; rfl)
    have hT0 : T = [] := by rw [← hT, if_neg (by rw [h0.2]; decide)]
    rw [hG0, hT0]
    have hraise : pyGet ([initOps (R := R) dims init] ++ []) 1 = .error .index := rfl
    refine ⟨⟨fun _ => .inl h0, fun _ => ⟨_, rfl⟩⟩, fun e he _ => ?_, fun ls hls => ?_⟩
    · cases he; rfl
    · cases hls
  · have hget : ∃ m, pyGet (initOps (R := R) dims init :: G ++ T) 1 = .ok m := by
      have : 1 < (initOps (R := R) dims init :: G ++ T).length := by
        rw [List.length_append, List.length_cons]
        by_cases hA0 : A = []
        · have hT1 : T.length = 1 := by
            rw [← hT, if_pos (by simpa [hA0] using h0)]; rfl
          omega
        · have : L ≠ [] := fun h => hA0 (hAL.2 h)
          have := List.length_pos_of_ne_nil this
          omega
      exact ⟨_, pyGet_ok (by decide) (by exact_mod_cast this)⟩
    obtain ⟨m1, hget⟩ := hget
    rw [hget]
    simp only [bind, Except.bind]
    rw [List.cons_append, List.mapM_cons, drawLayer_init, List.mapM_append]
    by_cases hD : ∃ d ∈ shownGates dims.length A, ¬ d.Drawable
    · obtain ⟨d, hd1, hnd⟩ := hD
      obtain ⟨l, hlL', hdl⟩ := (hshown d).1 hd1
      obtain ⟨i, hi, rfl⟩ := List.getElem_of_mem hlL'
      have hi' : i < G.length := by omega
      have hfit : Fits2 dims dims G[i] L[i] := (List.forall₂_iff_get.1 hF).2 i hi' hi
      obtain ⟨e, he⟩ := (fits_layer hfit (hnomeas _ (List.getElem_mem hi')) (hlL _ hlL')).2.1 ⟨d, hdl, hnd⟩
      obtain ⟨e', he'⟩ := mapM_error G drawLayer G[i] (List.getElem_mem hi') e he
      rw [he']
      refine ⟨⟨fun _ => .inr ⟨d, hd1, hnd⟩, fun _ => ⟨e', rfl⟩⟩, fun e2 he2 hno => ?_, fun ls hls => by cases hls⟩
      cases he2
      obtain ⟨m, hm', hme⟩ := mapM_error_mem he'
      obtain ⟨j, hj, rfl⟩ := List.getElem_of_mem hm'
      have hj' : j < L.length := by omega
      have hfit : Fits2 dims dims G[j] L[j] := (List.forall₂_iff_get.1 hF).2 j hj hj'
      refine (fits_layer hfit (hnomeas _ hm') (hlL _ (List.getElem_mem hj'))).2.2 _ hme fun t p hmem => ?_
      exact hno t p ((hshown _).2 ⟨_, List.getElem_mem hj', hmem⟩)
    · have hD' : ∀ l ∈ L, ∀ d ∈ shownGates dims.length l, d.Drawable := by
        intro l hl' d hd'
        by_contra hnd
        exact hD ⟨d, (hshown d).2 ⟨l, hl', hd'⟩, hnd⟩
      obtain ⟨sss, h1, h2⟩ := layers_shapes hF hnomeas hlL hD'
      rw [h1, hTm]
      refine ⟨⟨(fun ⟨e, he⟩ => by cases he), fun h => ?_⟩, (fun e he => by cases he), fun ls hls => ?_⟩
      · rcases h with h | h
        · exact absurd h h0
        · exact absurd h hD
      · cases hls
        exact ⟨sss, rfl, h2⟩

/-- **C33 (witness).** The dimension shown on a `toffoli` may be that of another register: here the target has
dimension 3, and the drawings say 2 and 5. -/
theorem C33_toffoli_wrong_dimension :
    drawingMpl (R := ℤ) (.list [2, 3, 2, 5]) [] none [.toffoli [2, 3] 1 1] =
      .ok [[], [.ctl [2, 3] 1 1 2]] ∧
    drawingMpl (R := ℤ) (.list [2, 3, 5, 2]) [] none [.toffoli [3, 2] 1 1] =
      .ok [[], [.ctl [3, 2] 1 1 5]] := ⟨rfl, rfl⟩

/-- **C33 (witness).** Circuits on which `draw('mpl')` raises: nothing but initial states; a `cx` that does not involve register
0; a `toffoli` whose target is beyond its span; a `toffoli` without controls. -/
theorem C33_mpl_raises :
    drawingMpl (R := ℤ) (.list [2, 2]) [] none [] = .error .index ∧
    drawingMpl (R := ℤ) (.list [2, 2, 2]) [] none [.cx 1 2 1] = .error .index ∧
    drawingMpl (R := ℤ) (.list [2, 2, 2, 2]) [] none [.toffoli [1, 2] 3 1] = .error .index ∧
    drawingMpl (R := ℤ) (.list [2, 2]) [] none [.toffoli [] 0 1] = .error .value := ⟨rfl, rfl, rfl, rfl⟩

/-- **C33 (witness).** Two different circuits of qubits with the same drawing: the increment of the `cx` is lost. -/
theorem C33_cnot_loses_increment :
    drawingMpl (R := ℤ) (.list [2, 2]) [] none [.cx 0 1 0] = drawingMpl (R := ℤ) (.list [2, 2]) [] none [.cx 0 1 1] :=
  rfl

def mplSample : List (Call ℤ) :=
  [.toffoli [0, 3] 2 2, .z 0 none, .x 1 none 1, .cx 0 1 1, .cx 2 0 1, .gate ⟨2, 2, fun _ _ => 0⟩ (.int 0) none,
    .x (-1) none 1, .measureAll]

set_option maxRecDepth 10000 in
example : drawingMpl (.list [2, 2, 3, 2]) [0, 1] none mplSample = .ok
    [[], [.ctl [0, 3] 2 2 3], [.box 'Z' 0 none, .box 'X' 1 (some (1, 2))], [.cnot 0 1], [.ctl [2] 0 1 2],
      [.box 'G' 0 none], [], [.box 'M' 0 none, .box 'M' 1 none, .box 'M' 2 none, .box 'M' 3 none]] := by rfl

set_option maxRecDepth 10000 in
example := C33_mpl (R := ℤ) (ds := [2, 2, 3, 2]) (init := [0, 1]) (out := none) (by decide)
  mplSample ⟨_, rfl⟩ (by
    intro k hk
    have : accepted (.list [2, 2, 3, 2]) [0, 1] none mplSample = mplSample.dropLast := rfl
    rw [this] at hk
    simp only [mplSample, List.dropLast, List.mem_cons, List.not_mem_nil, or_false] at hk
    rcases hk with rfl | rfl | rfl | rfl | rfl | rfl | rfl <;> intro h <;>
      first
      | (left; simp [Call.regs]; done)
      | (rcases h with h | h <;> cases h))

end QuDiet
