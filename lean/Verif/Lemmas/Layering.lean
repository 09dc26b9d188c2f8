import Verif.Lemmas.Any

/-! # Which layer a call goes into -/

namespace QuDiet

variable {R : Type}

/-! ### Specification -/

/-- The call occupies register `r`: it lies between the lowest and the highest register that the call
names. -/
def Call.occupies (k : Call R) (r : Nat) : Prop :=
  (∃ a ∈ k.regs, a ≤ (r : Int)) ∧ ∃ b ∈ k.regs, (r : Int) ≤ b

instance (k : Call R) (r : Nat) : Decidable (k.occupies r) := inferInstanceAs (Decidable (_ ∧ _))

/-- A call may join a layer of calls when it is an `h`, `x` or `z` on an existing register that no call of the
layer occupies. -/
def joins (n : Nat) (layer : List (Call R)) (k : Call R) : Prop :=
  k.isHXZ = true ∧ ∃ q < n, k.regs = [(q : Int)] ∧ ∀ k' ∈ layer, ¬ k'.occupies q

instance (n : Nat) (layer : List (Call R)) (k : Call R) : Decidable (joins n layer k) :=
  inferInstanceAs (Decidable (_ ∧ _))

/-- A call joins the newest layer, or opens a new one. -/
def place (n : Nat) (layers : List (List (Call R))) (k : Call R) : List (List (Call R)) :=
  match layers.getLast? with
  | some l => if joins n l k then layers.dropLast ++ [l ++ [k]] else layers ++ [[k]]
  | none => [[k]]

/-- The layers of calls made one after the other. -/
def layering (n : Nat) (ks : List (Call R)) : List (List (Call R)) := ks.foldl (place n) []

/-- The operators of a layer, apart from identities, are those of the calls of the layer that occupy at
least one of the `n` registers: same kinds, registers and increments. -/
def Shows (n : Nat) (m : List (GateObj R)) (layer : List (Call R)) : Prop :=
  ((m.filter fun g => !g.isIdent).map fun g => g.drawn).Perm
    ((layer.filter fun k => ∃ r < n, k.occupies r).map fun k => k.drawn)

/-! ### The invariant -/

/-- The layer of operators `m` belongs to the layer of calls `layer`. -/
structure Fits2 (dims seq : List Nat) (m : List (GateObj R)) (layer : List (Call R)) : Prop where
  shows : Shows dims.length m layer
  spans : ∀ g ∈ m, g.SpanOk dims seq
  idle : ∀ r < dims.length, (r : Int) ∈ identRegs m ↔ ∀ k ∈ layer, ¬ k.occupies r

theorem identRegs_append (a b : List (GateObj R)) : identRegs (a ++ b) = identRegs a ++ identRegs b := by
  simp [identRegs]

theorem identRegs_ids (dims : List Nat) (a b : Nat) :
    identRegs (ids (R := R) dims a b) = (List.range' a (b - a)).map fun (r : Nat) => (r : Int) := by
  unfold identRegs ids
  rw [List.filterMap_map, ← List.filterMap_eq_map]
  rfl

theorem identRegs_cons {g : GateObj R} (h : g.isIdent = false) (m : List (GateObj R)) :
    identRegs (g :: m) = identRegs m := by
  cases g <;> first | rfl | cases h

theorem filter_ids (dims : List Nat) (a b : Nat) :
    (ids (R := R) dims a b).filter (fun g => !g.isIdent) = [] := by
  rw [List.filter_eq_nil_iff]
  intro g hg
  obtain ⟨r, _, rfl⟩ := List.mem_map.1 hg
  simp [GateObj.isIdent]

theorem spans_ids (dims dims' seq : List Nat) (a b : Nat) : ∀ g ∈ ids (R := R) dims a b, g.SpanOk dims' seq := by
  intro g hg
  obtain ⟨r, _, rfl⟩ := List.mem_map.1 hg
  trivial

variable [CommRing R]

theorem occupies_of_adds {c : Circuit R} {k : Call R} {ra : RegArg} {lb ub : Int} {g : GateObj R}
    (hA : Adds c k ra lb ub g) (r : Nat) : k.occupies r ↔ lb ≤ r ∧ r ≤ ub := by
  unfold Call.occupies
  rw [← hA.regs]
  constructor
  · rintro ⟨⟨a, ha, h1⟩, b, hb, h2⟩
    have := hA.gateAt.all a ha
    have := hA.gateAt.all b hb
    omega
  · rintro ⟨h1, h2⟩
    exact ⟨⟨lb, hA.gateAt.lbmem, h1⟩, ub, hA.gateAt.ubmem, h2⟩

/-- A new layer. -/
theorem fits2_layout {c : Circuit R} {k : Call R} {ra : RegArg} {lb ub : Int} {g : GateObj R}
    (hA : Adds c k ra lb ub g) {dims seq : List Nat} (hd : c.regDims = dims)
    (hs : c.qregs.seq = seq) : Fits2 dims seq (layout dims lb ub g) [k] := by
  have hni := hA.gateAt.notIdent
  have hle := hA.gateAt.le
  unfold layout
  simp only
  split
  · rename_i hlt
    constructor
    · unfold Shows
      have hex : (∃ r < dims.length, k.occupies r) := by
        refine ⟨min dims.length lb.toNat, by omega, ?_⟩
        rw [occupies_of_adds hA]
        omega
      rw [List.filter_append, List.filter_cons_of_pos (by simp [hni]), filter_ids, filter_ids,
        List.filter_cons_of_pos (by simpa using hex)]
      simp [hA.drawn]
    · intro g' hg'
      rcases List.mem_append.1 hg' with h | h
      · exact spans_ids _ _ _ _ _ _ h
      · rcases List.mem_cons.1 h with rfl | h
        · rw [← hd, ← hs]; exact hA.span
        · exact spans_ids _ _ _ _ _ _ h
    · intro r hr
      rw [identRegs_append, identRegs_cons hni, identRegs_ids, identRegs_ids]
      simp only [List.mem_append, List.mem_map, List.mem_range', List.mem_singleton, forall_eq,
        occupies_of_adds hA]
      constructor
      · rintro (⟨a, ⟨i, hi, rfl⟩, h⟩ | ⟨a, ⟨i, hi, rfl⟩, h⟩) <;> omega
      · intro h
        by_cases hr' : r < min dims.length lb.toNat
        · exact .inl ⟨r, ⟨r, by omega, by omega⟩, rfl⟩
        · exact .inr ⟨r, ⟨r - min dims.length (ub + 1).toNat, by omega, by omega⟩, rfl⟩
  · rename_i hlt
    constructor
    · unfold Shows
      rw [filter_ids, List.filter_cons_of_neg]
      · simp
      · simp only [decide_eq_true_eq]
        rintro ⟨r, hr, h⟩
        rw [occupies_of_adds hA] at h
        omega
    · exact spans_ids _ _ _ _ _
    · intro r hr
      rw [identRegs_ids]
      simp only [List.mem_map, List.mem_range', List.mem_singleton, forall_eq, occupies_of_adds hA]
      constructor
      · rintro _ h
        omega
      · intro _
        exact ⟨r, ⟨r, by omega, by omega⟩, rfl⟩

/-- Joining the newest layer. -/
theorem fits2_join {c : Circuit R} {k : Call R} {ra : RegArg} {q : Nat} {g : GateObj R}
    (hA : Adds c k ra q q g) {dims seq : List Nat} (hd : c.regDims = dims)
    (hs : c.qregs.seq = seq) (hq : q < dims.length) {m1 m2 : List (GateObj R)} {d : Nat} {layer : List (Call R)}
    (h : Fits2 dims seq (m1 ++ .ident q d :: m2) layer) (h1 : (q : Int) ∉ identRegs (m1 ++ m2)) :
    Fits2 dims seq (m1 ++ g :: m2) (layer ++ [k]) := by
  have hni := hA.gateAt.notIdent
  have hocc : ∀ r, k.occupies r ↔ r = q := by
    intro r
    rw [occupies_of_adds hA]
    omega
  constructor
  · have := h.shows
    unfold Shows at this ⊢
    rw [List.filter_append, List.filter_cons_of_neg (by simp [GateObj.isIdent])] at this
    rw [List.filter_append, List.filter_cons_of_pos (by simp [hni]), List.filter_append,
      List.filter_cons_of_pos (by simpa using ⟨q, hq, (hocc q).2 rfl⟩), List.filter_nil, List.map_append,
      List.map_append, List.map_cons]
    rw [List.map_append] at this
    refine List.perm_middle.trans ?_
    rw [hA.drawn]
    refine (List.Perm.cons _ this).trans ?_
    exact (List.perm_append_singleton _ _).symm
  · intro g' hg'
    rcases List.mem_append.1 hg' with hh | hh
    · exact h.spans _ (by simp [hh])
    · rcases List.mem_cons.1 hh with rfl | hh
      · rw [← hd, ← hs]; exact hA.span
      · exact h.spans _ (by simp [hh])
  · intro r hr
    have hid := h.idle r hr
    rw [identRegs_append] at hid h1 ⊢
    rw [identRegs_cons hni]
    have e : identRegs (GateObj.ident q d :: m2 : List (GateObj R)) = (q : Int) :: identRegs m2 := rfl
    rw [e] at hid
    simp only [List.mem_append, List.mem_cons] at hid h1 ⊢
    constructor
    · intro hm k' hk'
      rcases hk' with hk' | hk' | hk'
      · exact hid.1 (by tauto) k' hk'
      · subst hk'
        rw [hocc]
        rintro rfl
        exact h1 hm
      · cases hk'
    · intro hall
      have hrq : r ≠ q := fun h => hall k (.inr (.inl rfl)) ((hocc r).2 h)
      rcases hid.2 (fun k hk => hall k (.inl hk)) with h | h | h
      · exact .inl h
      · exact absurd (by omega) hrq
      · exact .inr h

/-- What one call does to the layers, and when it joins the newest one. -/
theorem call_layer {dims seq : List Nat} {c : Circuit R} {initM : List (GateObj R)}
    {layers : List (List (GateObj R) × List Unit)} (h : Unmeasured dims Free c initM layers)
    (hs : c.qregs.seq = seq) {k : Call R} (hm : k.isMeasureAll = false) {L : List (List (Call R))}
    (hL : List.Forall₂ (Fits2 dims seq) (layers.map Prod.fst) L) :
    (StaticErr c k ∧ (c.call k).1 = c) ∨
    ∃ f layers', c.call k = ({ c with flow := f }, .ok true) ∧
      Unmeasured dims Free { c with flow := f } initM layers' ∧
      List.Forall₂ (Fits2 dims seq) (layers'.map Prod.fst) (place dims.length L k) := by
  rcases callM_any c k hm with hse | ⟨ra, lb, ub, g, hA⟩
  · left
    obtain ⟨e, he⟩ := hse.raises
    refine ⟨hse, ?_⟩
    simp [Circuit.call, he]
  · right
    obtain ⟨f, layers', h1, h2, h3⟩ := addMoment_spec h (bI := fun _ => ()) (fun _ _ => trivial) hA.gateAt ()
      (fun _ => trivial)
    refine ⟨f, layers', ?_, h2, ?_⟩
    · have := hA.call _ _ h1
      simp only [Circuit.call, this]
      cases k <;> rfl
    -- when a layer is appended, the call cannot join
    have happ : layers'.map Prod.fst = layers.map Prod.fst ++ [layout dims lb ub g] →
        List.Forall₂ (Fits2 dims seq) (layers'.map Prod.fst) (place dims.length L k) := by
      intro e
      have hplace : place dims.length L k = L ++ [[k]] := by
        unfold place
        cases hl : L.getLast? with
        | none => rw [List.getLast?_eq_none_iff.1 hl]; rfl
        | some l =>
          simp only
          rw [if_neg]
          rintro ⟨j1, q, hq, j2, j3⟩
          rw [← hA.regs] at j2
          have hlbq : lb = q := by have := hA.gateAt.lbmem; rw [j2] at this; simpa using this
          have hubq : ub = q := by have := hA.gateAt.ubmem; rw [j2] at this; simpa using this
          subst hlbq
          subst hubq
          rw [← hA.hxz] at j1
          obtain ⟨L0, rfl⟩ : ∃ L0, L = L0 ++ [l] := ⟨L.dropLast, (List.dropLast_append_getLast? l hl).symm⟩
          rcases h.last with ⟨hnil, _⟩ | ⟨ls, lm, hls, hlast⟩
          · rw [hnil] at hL
            cases hx : L0 <;> rw [hx] at hL <;> cases hL
          · have hfit : Fits2 dims seq lm.1 l := by
              have hL' := List.forall₂_reverse_iff.2 hL
              rw [hls, List.map_append, List.reverse_append, List.reverse_append] at hL'
              cases hL' with
              | cons hx _ => exact hx
            have hid : (q : Int) ∈ identRegs lm.1 := (hfit.idle q hq).2 j3
            have hlay := h.lay lm (by rw [hls]; simp)
            obtain ⟨m1, d, m2, b1, bi, b2, hm', _, _, _, hget, _⟩ := hlay.find_ident hid hq
            have hfind : (layout dims q q g).find? (·.isHXZ) = some g := by
              rw [find_layout, if_pos ⟨by omega, j1⟩]
            obtain ⟨q0, hact, hregs⟩ := hxz_regs j1
            have hq0 : q0 = q := by
              rw [j2] at hregs
              simpa using hregs.symm
            subst hq0
            have hr : replaceIgate lm.1 q g = .ok (m1 ++ g :: m2, true) := by
              unfold replaceIgate
              have := hget 0
              rw [Nat.zero_add] at this
              simp only [this, bind, Except.bind, GateObj.isIdent, if_true]
              rw [hm']
              congr 2
              rw [List.set_append_right _ _ (le_refl _)]
              simp
            have hpop := populate_pack _ _ _ hlast h.notAll g hfind q hact hid _ hr
            have hdata : c.momentData ra g = .ok (layout dims q q g) := by
              have := momentData_eq c (by rw [h.regLength, h.regDims]) hA.gateAt.bounds hA.gateAt.le g
              rwa [h.regDims] at this
            simp only [Circuit.addMoment, hdata, bind, Except.bind, hpop] at h1
            have hf : f.moments.length = c.flow.moments.length := by
              have := congrArg (fun x => x.toOption.map fun y => y.1.flow.moments.length) h1
              simp only [Except.toOption, Option.map_some, Option.some.injEq] at this
              rw [← this, List.length_append, List.length_dropLast, List.length_singleton]
              have : c.flow.moments ≠ [] := by rw [h.moments]; simp
              have := List.length_pos_of_ne_nil this
              omega
            have e1 := h2.moments
            simp only at e1
            rw [e1, h.moments, e] at hf
            simp at hf
      rw [hplace, e]
      refine List.rel_append hL ?_
      exact .cons (fits2_layout hA h.regDims hs) .nil
    rcases h3 with ⟨_, h3⟩ | ⟨_, h3⟩ | ⟨h4, h5, h6, ls, m1, d, m2, b1, bi, b2, h7, h8, _, _, hm1, hm2⟩
    · exact happ (by rw [h3]; simp)
    · exact happ (by rw [h3]; simp)
    · subst h6
      have h0 : 0 ≤ lb ∧ lb.toNat < dims.length := by
        simp only [lo, hi] at h5
        omega
      obtain ⟨q, rfl⟩ : ∃ q : Nat, lb = q := ⟨lb.toNat, by omega⟩
      simp only [Int.toNat_natCast] at *
      have hx : ∃ L0 l, L = L0 ++ [l] := by
        rcases List.eq_nil_or_concat L with rfl | ⟨L0, l, rfl⟩
        · rw [h7] at hL
          simp at hL
        · exact ⟨L0, l, by simp⟩
      obtain ⟨L0, l, rfl⟩ := hx
      have hL' := List.forall₂_reverse_iff.2 hL
      rw [h7, List.map_append, List.reverse_append, List.reverse_append] at hL'
      have hfit : Fits2 dims seq (m1 ++ .ident q d :: m2) l := by
        cases hL' with
        | cons hx _ => exact hx
      have hrest : List.Forall₂ (Fits2 dims seq) (ls.map Prod.fst) L0 := by
        cases hL' with
        | cons _ hx => exact List.forall₂_reverse_iff.1 hx
      have hnot : (q : Int) ∉ identRegs (m1 ++ m2) := by
        intro hmem
        unfold identRegs at hmem
        obtain ⟨g', hg', hval⟩ := List.mem_filterMap.1 hmem
        have hin : InHull g'.regs q := by
          cases g' <;> simp at hval
          subst hval
          exact inHull_singleton.2 rfl
        rcases List.mem_append.1 hg' with hg' | hg'
        · exact hm1 g' hg' hin
        · exact hm2 g' hg' hin
      have hregs : k.regs = [(q : Int)] := by
        obtain ⟨q0, _, hregs⟩ := hxz_regs h4
        have := hA.gateAt.lbmem
        rw [hregs] at this
        have hq0 : (q : Int) = q0 := by simpa using this
        rw [← hA.regs, hregs, hq0]
      have hjoin : joins dims.length l k := by
        refine ⟨by rw [← hA.hxz]; exact h4, q, h0.2, hregs, ?_⟩
        apply (hfit.idle q h0.2).1
        rw [identRegs_append]
        simp [identRegs]
      have hplace : place dims.length (L0 ++ [l]) k = L0 ++ [l ++ [k]] := by
        unfold place
        rw [List.getLast?_concat]
        simp only
        rw [if_pos hjoin, List.dropLast_concat]
      rw [hplace, h8, List.map_append]
      refine List.rel_append hrest ?_
      exact .cons (fits2_join hA h.regDims hs h0.2 hfit hnot) .nil

/-- The calls that do not raise. -/
def kept (c : Circuit R) (ks : List (Call R)) : List (Call R) :=
  ks.filter fun k => match (c.call k).2 with
    | .ok _ => true
    | .error _ => false

/-- Histories without `measure_all()`. -/
theorem calls_layers {dims seq : List Nat} {initM : List (GateObj R)} (ks : List (Call R))
    (hm : ∀ k ∈ ks, k.isMeasureAll = false) {c c0 : Circuit R}
    (e1 : c0.qregs = c.qregs) (e2 : c0.regDims = c.regDims) (e3 : c0.regLength = c.regLength)
    {layers : List (List (GateObj R) × List Unit)} (h : Unmeasured dims Free c initM layers)
    (hseq : c.qregs.seq = seq) {layers0 : List (List (GateObj R) × List Unit)} (h0 : Unmeasured dims Free c0 initM layers0)
    {L : List (List (Call R))} (hL : List.Forall₂ (Fits2 dims seq) (layers.map Prod.fst) L) :
    ∃ layers', Unmeasured dims Free (c.calls ks) initM layers' ∧
      List.Forall₂ (Fits2 dims seq) (layers'.map Prod.fst) ((kept c0 ks).foldl (place dims.length) L) := by
  induction ks generalizing c layers L with
  | nil => exact ⟨layers, h, hL⟩
  | cons k ks ih =>
    rw [Circuit.calls_cons]
    have hk := hm k (by simp)
    have hm' : ∀ k ∈ ks, k.isMeasureAll = false := fun k hk => hm k (by simp [hk])
    rcases call_layer h hseq hk hL with ⟨⟨e, hs⟩, he⟩ | ⟨f, layers', hc, hu, hF⟩
    · rw [he]
      have hd : kept c0 (k :: ks) = kept c0 ks := by
        unfold kept
        rw [List.filter_cons_of_neg]
        simp [Circuit.call, hs c0 e1 e2 e3]
      rw [hd]
      exact ih hm' e1 e2 e3 h hseq hL
    · have hd : kept c0 (k :: ks) = k :: kept c0 ks := by
        unfold kept
        rw [List.filter_cons_of_pos]
        rcases call_any h0 hk with ⟨⟨e, hs⟩, _⟩ | ⟨_, _, _, _, _, _, _, h3, _⟩
        · exfalso
          have := hs c e1.symm e2.symm e3.symm
          simp [Circuit.call, this] at hc
        · rw [h3]
      rw [hd, List.foldl_cons, hc]
      exact ih (c := { c with flow := f }) hm' e1 e2 e3 hu hseq hF

end QuDiet
