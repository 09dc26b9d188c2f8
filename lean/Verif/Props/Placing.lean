import Mathlib.Data.List.GetD
import Verif.Lemmas.Linear
import Verif.Props.Sample
import Verif.Props.Gates

/-! # C77: a circuit on any registers of a larger one, in any order -/

namespace QuDiet
open Spec

variable {R : Type} [CommRing R] [StarRing R] [DecidableEq R] [UnitaryCheck R]

/-- The entries of `l` at the positions listed in `place`. -/
def pick (place l : List Nat) : List Nat := place.map (l.getD · 0)

/-- The same call with register `place[q]` for each register `q`. -/
def Call.onto (place : List Nat) : Call R → Call R
  | .h q k => .h (place.getD q.toNat 0) k
  | .x q k p => .x (place.getD q.toNat 0) k p
  | .z q k => .z (place.getD q.toNat 0) k
  | .cx c t p => .cx (place.getD c.toNat 0) (place.getD t.toNat 0) p
  | .toffoli cs t p => .toffoli (cs.map fun c => (place.getD c.toNat 0 : Int)) (place.getD t.toNat 0) p
  | .gate U (.int q) k => .gate U (.int (place.getD q.toNat 0)) k
  | .gate U (.list qs) k => .gate U (.list (qs.map fun q => (place.getD q.toNat 0 : Int))) k
  | .measure q => .measure (place.getD q.toNat 0)
  | .measureAll => .measureAll

/-- Not a custom gate on a list of registers (whose matrix depends on the order and on the registers in between). -/
def Call.Movable : Call R → Prop
  | .gate _ (.list _) _ => False
  | _ => True

/-- All registers of `dims` that are not in `place` have the levels of `t`. -/
def RestAt (place dims t s : List Nat) : Prop := ∀ r < dims.length, r ∉ place → s.getD r 0 = t.getD r 0

instance (place dims t s) : Decidable (RestAt place dims t s) := inferInstanceAs (Decidable (∀ _ < _, _ → _))

section
variable {place dims : List Nat}

theorem getD_mem {l : List Nat} {q : Nat} (hq : q < l.length) : l.getD q 0 ∈ l := by
  rw [List.getD_eq_getElem _ _ hq]; exact List.getElem_mem hq

theorem pick_length (l : List Nat) : (pick place l).length = place.length := by simp [pick]

theorem pick_getD {q : Nat} (hq : q < place.length) (l : List Nat) :
    (pick place l).getD q 0 = l.getD (place.getD q 0) 0 := by
  rw [List.getD_eq_getElem _ _ (by rw [pick_length]; exact hq), List.getD_eq_getElem place _ hq]
  simp [pick]

theorem ext_levels {a b : List Nat} (hl : a.length = b.length) (h : ∀ i < a.length, a.getD i 0 = b.getD i 0) : a = b := by
  apply List.ext_getElem hl
  intro i h1 h2
  have := h i h1
  rwa [List.getD_eq_getElem _ _ h1, List.getD_eq_getElem _ _ h2] at this

theorem fits_getD {s : List Nat} : Fits dims s ↔ s.length = dims.length ∧ ∀ i < dims.length, s.getD i 0 < dims.getD i 0 := by
  constructor
  · intro h
    refine ⟨h.1, fun i hi => ?_⟩
    have hi' : i < s.length := by rw [h.1]; exact hi
    rw [List.getD_eq_getElem _ _ hi, List.getD_eq_getElem _ _ hi']
    exact h.2 i hi' hi
  · intro h
    refine ⟨h.1, fun i h1 h2 => ?_⟩
    have := h.2 i h2
    rwa [List.getD_eq_getElem _ _ h1, List.getD_eq_getElem _ _ h2] at this

theorem place_inj (hnd : place.Nodup) {a b : Nat} (ha : a < place.length) (hb : b < place.length)
    (h : place.getD a 0 = place.getD b 0) : a = b := by
  rw [List.getD_eq_getElem _ _ ha, List.getD_eq_getElem _ _ hb] at h
  exact (hnd.getElem_inj_iff).1 h

theorem fits_pick (hlt : ∀ p ∈ place, p < dims.length) {s : List Nat} (hs : Fits dims s) :
    Fits (pick place dims) (pick place s) := by
  rw [fits_getD] at hs ⊢
  refine ⟨by rw [pick_length, pick_length], fun i hi => ?_⟩
  rw [pick_length] at hi
  rw [pick_getD hi, pick_getD hi]
  exact hs.2 _ (hlt _ (getD_mem hi))

theorem pick_set (hnd : place.Nodup) {l : List Nat} (hlt : ∀ p ∈ place, p < l.length) {q : Nat}
    (hq : q < place.length) (k : Nat) : pick place (l.set (place.getD q 0) k) = (pick place l).set q k := by
  apply ext_levels (by simp [pick])
  intro i hi
  rw [pick_length] at hi
  rw [pick_getD hi]
  by_cases h : q = i
  · subst h
    rw [getD_set_self (hlt _ (getD_mem hq)), getD_set_self (by rw [pick_length]; exact hq)]
  · rw [getD_set_ne h, getD_set_ne fun e => h (place_inj hnd hq hi e), pick_getD hi]

theorem restAt_set {t s : List Nat} {p k : Nat} (hp : p ∈ place) :
    RestAt place dims t (s.set p k) ↔ RestAt place dims t s := by
  constructor <;> intro h r hr hn
  · have := h r hr hn
    rwa [getD_set_ne (ne_of_mem_of_not_mem hp hn)] at this
  · rw [getD_set_ne (ne_of_mem_of_not_mem hp hn)]; exact h r hr hn

/-- The levels `t` on the registers `place`, those of `u` elsewhere. -/
def putAt (place dims u t : List Nat) : List Nat :=
  (List.range dims.length).map fun r => if r ∈ place then t.getD (place.idxOf r) 0 else u.getD r 0

theorem putAt_getD {u t : List Nat} {r : Nat} (hr : r < dims.length) :
    (putAt place dims u t).getD r 0 = if r ∈ place then t.getD (place.idxOf r) 0 else u.getD r 0 := by
  rw [List.getD_eq_getElem _ _ (by simpa [putAt] using hr)]; simp [putAt]

theorem pick_putAt (hnd : place.Nodup) (hlt : ∀ p ∈ place, p < dims.length) {u t : List Nat}
    (ht : t.length = place.length) : pick place (putAt place dims u t) = t := by
  apply ext_levels (by rw [pick_length, ht])
  intro i hi
  rw [pick_length] at hi
  have hm := getD_mem hi
  rw [pick_getD hi, putAt_getD (hlt _ hm), if_pos hm]
  congr 1
  rw [List.getD_eq_getElem _ _ hi]
  exact hnd.idxOf_getElem i hi

theorem putAt_fits (hlt : ∀ p ∈ place, p < dims.length) {u t : List Nat} (hu : Fits dims u)
    (ht : Fits (pick place dims) t) : Fits dims (putAt place dims u t) := by
  rw [fits_getD] at hu ht ⊢
  refine ⟨by simp [putAt], fun r hr => ?_⟩
  rw [putAt_getD hr]
  split
  · rename_i hm
    have hi := List.idxOf_lt_length_of_mem hm
    have := ht.2 (place.idxOf r) (by rw [pick_length]; exact hi)
    rw [pick_getD hi] at this
    have e : place.getD (place.idxOf r) 0 = r := by
      rw [List.getD_eq_getElem _ _ hi]; exact List.getElem_idxOf hi
    rwa [e] at this
  · exact hu.2 r hr

theorem putAt_restAt {u t : List Nat} : RestAt place dims u (putAt place dims u t) := by
  intro r hr hn
  rw [putAt_getD hr, if_neg hn]

/-- A list of levels is determined by the registers in `place` and the others. -/
theorem eq_of_pick {u s t : List Nat} (hs : s.length = dims.length) (ht : t.length = dims.length)
    (h1 : RestAt place dims u s) (h2 : RestAt place dims u t) (h : pick place s = pick place t) : s = t := by
  apply ext_levels (by rw [hs, ht])
  intro r hr
  rw [hs] at hr
  by_cases hm : r ∈ place
  · have hi := List.idxOf_lt_length_of_mem hm
    have e : place.getD (place.idxOf r) 0 = r := by
      rw [List.getD_eq_getElem _ _ hi]; exact List.getElem_idxOf hi
    have := congrArg (fun l => l.getD (place.idxOf r) 0) h
    simp only [pick_getD hi, e] at this
    exact this
  · rw [h1 r hr hm, h2 r hr hm]

/-- The large state `φ` is the small state `ψ` on the registers `place`, the others being at the levels `u`. -/
def Placed (place dims u : List Nat) (φ ψ : State R) : Prop :=
  ∀ s, Fits dims s → φ s = if RestAt place dims u s then ψ (pick place s) else 0

omit [StarRing R] [DecidableEq R] [UnitaryCheck R] in
theorem placed_basis {u : List Nat} (hu : Fits dims u) :
    Placed (R := R) place dims u (basis u) (basis (pick place u)) := by
  intro s hs
  unfold basis
  by_cases h : s = u
  · subst h
    rw [if_pos rfl, if_pos (show RestAt place dims s s from fun _ _ _ => rfl), if_pos rfl]
  · rw [if_neg h]
    split
    · rename_i hr
      rw [if_neg fun e => h (eq_of_pick hs.1 hu.1 hr (fun _ _ _ => rfl) e)]
    · rfl

omit [StarRing R] [DecidableEq R] [UnitaryCheck R] in
theorem placed_onReg (hnd : place.Nodup) (hlt : ∀ p ∈ place, p < dims.length) {u : List Nat} {φ ψ : State R}
    (h : Placed place dims u φ ψ) {q : Nat} (hq : q < place.length) (G : Nat → Nat → R) :
    Placed place dims u (onReg (dims.getD (place.getD q 0) 0) (place.getD q 0) G φ)
      (onReg (dims.getD (place.getD q 0) 0) q G ψ) := by
  intro s hs
  have hp := getD_mem hq
  have hfit : ∀ k < dims.getD (place.getD q 0) 0, Fits dims (s.set (place.getD q 0) k) := by
    intro k hk
    rw [fits_getD] at hs ⊢
    refine ⟨by simpa using hs.1, fun i hi => ?_⟩
    by_cases he : place.getD q 0 = i
    · subst he
      rw [getD_set_self (by rw [hs.1]; exact hi)]; exact hk
    · rw [getD_set_ne he]; exact hs.2 i hi
  have hlt' : ∀ p ∈ place, p < s.length := fun p hp => by rw [hs.1]; exact hlt p hp
  unfold onReg
  have e : ((List.range (dims.getD (place.getD q 0) 0)).map fun k =>
        G (s.getD (place.getD q 0) 0) k * φ (s.set (place.getD q 0) k)) =
      (List.range (dims.getD (place.getD q 0) 0)).map fun k => if RestAt place dims u s then
        G ((pick place s).getD q 0) k * ψ ((pick place s).set q k) else 0 := by
    apply List.map_congr_left
    intro k hk
    rw [h _ (hfit k (List.mem_range.1 hk)), pick_set hnd hlt' hq, pick_getD hq]
    by_cases hr : RestAt place dims u s
    · rw [if_pos ((restAt_set hp).2 hr), if_pos hr]
    · rw [if_neg (fun h => hr ((restAt_set hp).1 h)), if_neg hr, mul_zero]
  rw [e]
  by_cases hr : RestAt place dims u s
  · simp only [if_pos hr]
  · simp only [if_neg hr]
    simp

omit [StarRing R] [DecidableEq R] [UnitaryCheck R] in
theorem placed_move (hnd : place.Nodup) (hlt : ∀ p ∈ place, p < dims.length) {u : List Nat} (hu : Fits dims u)
    {φ ψ : State R} (h : Placed place dims u φ ψ) {F f : List Nat → List Nat}
    (hF : ∀ t, Fits dims t → Fits dims (F t) ∧ pick place (F t) = f (pick place t) ∧
      (RestAt place dims u (F t) ↔ RestAt place dims u t)) :
    Placed place dims u (move dims F φ) (move (pick place dims) f ψ) := by
  intro s hs
  unfold move
  have split : (((states dims).filter fun t => F t = s).map φ).sum =
      (((states dims).filter fun t => F t = s ∧ RestAt place dims u t).map fun t => ψ (pick place t)).sum := by
    have : ∀ l : List (List Nat), (∀ t ∈ l, Fits dims t) → ((l.filter fun t => F t = s).map φ).sum =
        ((l.filter fun t => F t = s ∧ RestAt place dims u t).map fun t => ψ (pick place t)).sum := by
      intro l hl
      induction l with
      | nil => rfl
      | cons t l ih =>
        have ih := ih fun t ht => hl t (by simp [ht])
        have ht := h t (hl t (by simp))
        by_cases h1 : F t = s
        · by_cases h2 : RestAt place dims u t
          · simp [List.filter_cons, h1, h2, ih, ht]
          · simp [List.filter_cons, h1, h2, ih, ht]
        · simp [List.filter_cons, h1, ih]
    exact this _ fun t ht => mem_states.1 ht
  rw [split]
  by_cases hr : RestAt place dims u s
  · rw [if_pos hr]
    change (List.map (ψ ∘ pick place) _).sum = _
    rw [← List.map_map]
    apply List.Perm.sum_eq
    apply List.Perm.map
    rw [List.perm_ext_iff_of_nodup]
    · intro t
      simp only [List.mem_map, List.mem_filter, decide_eq_true_eq, mem_states]
      constructor
      · rintro ⟨t', ⟨h1, h2, h3⟩, rfl⟩
        exact ⟨fits_pick hlt h1, by rw [← (hF t' h1).2.1, h2]⟩
      · rintro ⟨h1, h2⟩
        have hp := pick_putAt hnd hlt (u := u) (t := t) (by rw [h1.1, pick_length])
        have hfit := putAt_fits hlt hu h1
        refine ⟨putAt place dims u t, ⟨hfit, ?_, putAt_restAt⟩, hp⟩
        have := hF _ hfit
        exact eq_of_pick this.1.1 hs.1 (this.2.2.2 putAt_restAt) hr (by rw [this.2.1, hp, h2])
    · apply List.Nodup.map_on
      · intro a ha b hb hab
        simp only [List.mem_filter, decide_eq_true_eq, mem_states] at ha hb
        exact eq_of_pick ha.1.1 hb.1.1 ha.2.2 hb.2.2 hab
      · exact (nodup_states dims).filter _
    · exact (nodup_states _).filter _
  · rw [if_neg hr]
    have : ((states dims).filter fun t => decide (F t = s ∧ RestAt place dims u t)) = [] := by
      rw [List.filter_eq_nil_iff]
      intro t ht
      simp only [decide_eq_true_eq]
      rintro ⟨rfl, h2⟩
      exact hr ((hF t (mem_states.1 ht)).2.2.2 h2)
    rw [this]
    rfl

theorem bump_fits {s : List Nat} (hs : Fits dims s) {q : Nat} (hq : q < dims.length) (p : Int) :
    Fits dims (bump dims q p s) := by
  rw [fits_getD] at hs ⊢
  refine ⟨by simpa [bump] using hs.1, fun i hi => ?_⟩
  unfold bump
  by_cases he : q = i
  · subst he
    rw [getD_set_self (by rw [hs.1]; exact hi)]
    have := hs.2 q hi
    have hpos : 0 < (dims.getD q 0 : Int) := by omega
    have h1 := Int.emod_nonneg ((s.getD q 0 : Int) + p) hpos.ne'
    have h2 := Int.emod_lt_of_pos ((s.getD q 0 : Int) + p) hpos
    omega
  · rw [getD_set_ne he]; exact hs.2 i hi

omit [StarRing R] [DecidableEq R] [UnitaryCheck R] in
theorem placed_controlled (hnd : place.Nodup) (hlt : ∀ p ∈ place, p < dims.length) {u : List Nat} (hu : Fits dims u)
    {φ ψ : State R} (h : Placed place dims u φ ψ) {cs : List Nat} (hcs : ∀ c ∈ cs, c < place.length) {t : Nat}
    (ht : t < place.length) (p : Int) :
    Placed place dims u (move dims (controlled dims (cs.map fun c => place.getD c 0) (place.getD t 0) p) φ)
      (move (pick place dims) (controlled (pick place dims) cs t p) ψ) := by
  apply placed_move hnd hlt hu h
  intro s hs
  have hlt' : ∀ p ∈ place, p < s.length := fun p hp => by rw [hs.1]; exact hlt p hp
  have hc : (∀ c ∈ cs.map fun c => place.getD c 0, atTop dims c s) ↔ ∀ c ∈ cs, atTop (pick place dims) c (pick place s) := by
    constructor
    · intro h c hc
      have := h _ (List.mem_map.2 ⟨c, hc, rfl⟩)
      unfold atTop at this ⊢
      rwa [pick_getD (hcs c hc), pick_getD (hcs c hc)]
    · intro h c' hc'
      obtain ⟨c, hc, rfl⟩ := List.mem_map.1 hc'
      have := h c hc
      unfold atTop at this ⊢
      rwa [pick_getD (hcs c hc), pick_getD (hcs c hc)] at this
  unfold controlled
  by_cases hall : ∀ c ∈ cs, atTop (pick place dims) c (pick place s)
  · rw [if_pos (hc.2 hall), if_pos hall]
    refine ⟨bump_fits hs (hlt _ (getD_mem ht)) p, ?_, ?_⟩
    · unfold bump
      rw [pick_set hnd hlt' ht, pick_getD ht, pick_getD ht]
    · exact restAt_set (getD_mem ht)
  · rw [if_neg fun h => hall (hc.1 h), if_neg hall]
    exact ⟨hs, rfl, Iff.rfl⟩

/-- One call. -/
theorem placed_call (N : Numerics R) (hnd : place.Nodup) (hlt : ∀ p ∈ place, p < dims.length) {u : List Nat}
    (hu : Fits dims u) {φ ψ : State R} (h : Placed place dims u φ ψ) {k : Call R} (hk : k.Valid (pick place dims))
    (hm : k.Movable) :
    Placed place dims u (meaning N dims (k.onto place) φ) (meaning N (pick place dims) k ψ) := by
  have hr : ∀ {q : Int}, InRange (pick place dims) q → q.toNat < place.length := by
    intro q hq
    have h1 := hq.1; have h2 := hq.2
    rw [pick_length] at h2
    omega
  have one : ∀ {q : Nat} (p : Int), q < place.length →
      Placed place dims u (move dims (bump dims (place.getD q 0) p) φ)
        (move (pick place dims) (bump (pick place dims) q p) ψ) := by
    intro q p hq
    have := placed_controlled hnd hlt hu h (cs := []) (by simp) hq p
    have e : ∀ dims q, controlled dims [] q p = bump dims q p := fun dims q => by funext s; simp [controlled]
    rwa [List.map_nil, e, e] at this
  cases k with
  | h q k =>
    have hq := hr hk.1
    have := placed_onReg hnd hlt h hq (hadamard (N.roots (dims.getD (place.getD q.toNat 0) 0))
      (N.invSqrt (dims.getD (place.getD q.toNat 0) 0)) (dims.getD (place.getD q.toNat 0) 0))
    simp only [meaning, Call.onto, Int.toNat_natCast, pick_getD hq]
    exact this
  | z q k =>
    have hq := hr hk.1
    have := placed_onReg hnd hlt h hq (phases (N.roots (dims.getD (place.getD q.toNat 0) 0)))
    simp only [meaning, Call.onto, Int.toNat_natCast, pick_getD hq]
    exact this
  | x q k p =>
    simp only [meaning, Call.onto, Int.toNat_natCast]
    exact one p (hr hk.1)
  | cx c t p =>
    simp only [meaning, Call.onto, Int.toNat_natCast]
    exact placed_controlled hnd hlt hu h (cs := [c.toNat]) (by simpa using hr hk.1) (hr hk.2) p
  | toffoli cs t p =>
    simp only [meaning, Call.onto, Int.toNat_natCast, List.map_map, Function.comp_def]
    have := placed_controlled hnd hlt hu h (cs := cs.map Int.toNat) (by
      intro c' hc'
      obtain ⟨c, hc, rfl⟩ := List.mem_map.1 hc'
      exact hr (hk.2.1 c hc)) (hr hk.1) p
    simp only [List.map_map, Function.comp_def] at this
    exact this
  | gate U q k =>
    cases q with
    | int q =>
      have hq := hr hk.1
      have := placed_onReg hnd hlt h hq U.e
      simp only [meaning, Call.onto, Int.toNat_natCast, pick_getD hq]
      exact this
    | list => exact hm.elim
  | measure => exact hk.elim
  | measureAll => exact hk.elim

end

/-- **C77.** A circuit may be made on any registers of a larger one, in any order: the amplitudes are those of the
circuit by itself, and the other registers keep their levels. -/
theorem C77_placing [Nontrivial R] {N : Numerics R} (hN : N.Sized) {B : Backend R} (hB : B.Lawful) {dims place : List Nat}
    (h2 : ∀ d ∈ dims, 2 ≤ d) (hne : place ≠ []) (hnd : place.Nodup) (hlt : ∀ p ∈ place, p < dims.length)
    {u : List Nat} (hu : Fits dims u) {ks : List (Call R)} (hks : ∀ k ∈ ks, k.Valid (pick place dims))
    (hm : ∀ k ∈ ks, k.Movable) (hks' : ∀ k ∈ ks, (k.onto place).Valid dims) {s : List Nat} (hs : Fits dims s) :
    amplitude N B dims (asInit u) (ks.map (Call.onto place)) s =
      if ∀ r < dims.length, r ∉ place → s.getD r 0 = u.getD r 0
      then amplitude N B (pick place dims) (asInit (pick place u)) ks (pick place s) else 0 := by
  have hdne : dims ≠ [] := by
    obtain ⟨p, hp⟩ := List.exists_mem_of_ne_nil _ hne
    intro h
    have := hlt p hp
    simp [h] at this
  have hpne : pick place dims ≠ [] := by simpa [pick] using hne
  have h2' : ∀ d ∈ pick place dims, 2 ≤ d := by
    intro d hd
    obtain ⟨p, hp, rfl⟩ := List.mem_map.1 hd
    exact h2 _ (getD_mem (hlt p hp))
  have hu' := fits_pick hlt hu
  have hkm : ∀ k ∈ ks.map (Call.onto place), k.Valid dims := by
    intro k' hk'
    obtain ⟨k, hk, rfl⟩ := List.mem_map.1 hk'
    exact hks' k hk
  rw [amplitude_eq hN hB hdne (validStart_asInit h2 hu) hkm hs,
    amplitude_eq hN hB hpne (validStart_asInit h2' hu') hks (fits_pick hlt hs)]
  have key : ∀ (ks : List (Call R)) (φ ψ : State R), (∀ k ∈ ks, k.Valid (pick place dims)) → (∀ k ∈ ks, k.Movable) →
      Placed place dims u φ ψ →
      Placed place dims u (applyAll N dims (ks.map (Call.onto place)) φ) (applyAll N (pick place dims) ks ψ) := by
    intro ks
    induction ks with
    | nil => intro φ ψ _ _ h; exact h
    | cons k ks ih =>
      intro φ ψ h1 h2 h
      exact ih _ _ (fun k hk => h1 k (by simp [hk])) (fun k hk => h2 k (by simp [hk]))
        (placed_call N hnd hlt hu h (h1 k (by simp)) (h2 k (by simp)))
  have := key ks _ _ hks hm (placed_basis hu) s hs
  rw [stateAfter_eq, stateAfter_eq, startLevels_asInit hu, startLevels_asInit hu']
  exact this

theorem span_three {l : List Int} {a b c : Int} (ha : a ∈ l) (hb : b ∈ l) (hc : c ∈ l) (h1 : a ≠ b) (h2 : a ≠ c)
    (h3 : b ≠ c) : (spanOf l).2 ≠ 2 := by
  have lo := (foldl_min_le l (l.headD 0)).2
  have hi := (foldl_max_ge l (l.headD 0)).2
  have := lo a ha; have := lo b hb; have := lo c hc
  have := hi a ha; have := hi b hb; have := hi c hc
  unfold spanOf
  simp only
  omega

/-- **C77.** The calls are valid on their new registers, but for a `toffoli` with a single control (next theorem). -/
theorem C77_valid {dims place : List Nat} (hnd : place.Nodup) (hlt : ∀ p ∈ place, p < dims.length) {k : Call R}
    (hk : k.Valid (pick place dims)) (hm : k.Movable)
    (ht : ∀ cs t p, k = .toffoli cs t p → ∃ a ∈ cs, ∃ b ∈ cs, a ≠ b) : (k.onto place).Valid dims := by
  have hr : ∀ {q : Int}, InRange (pick place dims) q → q.toNat < place.length := by
    intro q hq
    have h1 := hq.1; have h2 := hq.2
    rw [pick_length] at h2
    omega
  have hin : ∀ {q : Int}, InRange (pick place dims) q → InRange dims (place.getD q.toNat 0 : Nat) := by
    intro q hq
    have := hlt _ (getD_mem (hr hq))
    exact ⟨by omega, by omega⟩
  have hd : ∀ {q : Int} {k : Option Nat}, InRange (pick place dims) q → DimOK (pick place dims) q k →
      DimOK dims (place.getD q.toNat 0 : Nat) k := by
    intro q k hq h
    unfold DimOK at h ⊢
    rwa [pick_getD (hr hq)] at h
  cases k with
  | h q k => exact ⟨hin hk.1, hd hk.1 hk.2⟩
  | z q k => exact ⟨hin hk.1, hd hk.1 hk.2⟩
  | x q k p =>
    refine ⟨hin hk.1, hd hk.1 hk.2.1, ?_⟩
    have := hk.2.2
    rwa [pick_getD (hr hk.1)] at this
  | cx c t p => exact ⟨hin hk.1, hin hk.2⟩
  | toffoli cs t p =>
    obtain ⟨h1, h2, h3, _⟩ := hk
    have inj : ∀ {a b : Int}, InRange (pick place dims) a → InRange (pick place dims) b →
        (place.getD a.toNat 0 : Int) = (place.getD b.toNat 0 : Int) → a = b := by
      intro a b ha hb h
      have := place_inj hnd (hr ha) (hr hb) (by exact_mod_cast h)
      have := ha.1; have := hb.1
      omega
    refine ⟨hin h1, ?_, ?_, ?_⟩
    · intro c' hc'
      obtain ⟨c, hc, rfl⟩ := List.mem_map.1 hc'
      exact hin (h2 c hc)
    · intro hmem
      obtain ⟨c, hc, he⟩ := List.mem_map.1 hmem
      exact h3 (inj (h2 c hc) h1 he ▸ hc)
    · obtain ⟨a, ha, b, hb, hab⟩ := ht cs t p rfl
      have n1 : (place.getD a.toNat 0 : Int) ≠ (place.getD b.toNat 0 : Int) := fun h => hab (inj (h2 a ha) (h2 b hb) h)
      have n2 : (place.getD a.toNat 0 : Int) ≠ (place.getD t.toNat 0 : Int) := fun h => h3 (inj (h2 a ha) h1 h ▸ ha)
      have n3 : (place.getD b.toNat 0 : Int) ≠ (place.getD t.toNat 0 : Int) := fun h => h3 (inj (h2 b hb) h1 h ▸ hb)
      have mem : ∀ {q : Int}, q = t ∨ q ∈ cs →
          (place.getD q.toNat 0 : Int) ∈ (cs.map fun c => (place.getD c.toNat 0 : Int)) ++ [(place.getD t.toNat 0 : Int)] := by
        rintro q (rfl | hq)
        · simp
        · exact List.mem_append_left _ (List.mem_map.2 ⟨q, hq, rfl⟩)
      exact span_three (mem (.inr ha)) (mem (.inr hb)) (mem (.inl rfl)) n1 n2 n3
  | gate U q k =>
    cases q with
    | int q =>
      refine ⟨hin hk.1, hd hk.1 hk.2.1, hk.2.2.1, ?_⟩
      have := hk.2.2.2
      rwa [pick_getD (hr hk.1)] at this
    | list => exact hm.elim
  | measure => exact hk.elim
  | measureAll => exact hk.elim

/-- **C77** for the same registers in another order. -/
theorem C77_any_order [Nontrivial R] {N : Numerics R} (hN : N.Sized) {B : Backend R} (hB : B.Lawful) {dims place : List Nat}
    (h2 : ∀ d ∈ dims, 2 ≤ d) (hne : dims ≠ []) (hp : place.Perm (List.range dims.length))
    {u : List Nat} (hu : Fits dims u) {ks : List (Call R)} (hks : ∀ k ∈ ks, k.Valid (pick place dims))
    (hm : ∀ k ∈ ks, k.Movable) (hks' : ∀ k ∈ ks, (k.onto place).Valid dims) {s : List Nat} (hs : Fits dims s) :
    amplitude N B dims (asInit u) (ks.map (Call.onto place)) s =
      amplitude N B (pick place dims) (asInit (pick place u)) ks (pick place s) := by
  have hl : place.length = dims.length := by rw [hp.length_eq, List.length_range]
  rw [C77_placing hN hB h2 (by intro h; rw [h] at hl; exact hne (List.length_eq_zero_iff.1 hl.symm))
    (hp.nodup_iff.2 List.nodup_range) (fun p hm => List.mem_range.1 (hp.subset hm)) hu hks hm hks' hs, if_pos]
  intro r hr hn
  exact absurd (hp.symm.subset (List.mem_range.2 hr)) hn

/-- **C77.** With a single control, `toffoli` is an exception: it runs on registers that are not neighbours, and on
neighbours `run()` raises. -/
theorem C77_single_control [Nontrivial R] {N : Numerics R} (hN : N.Sized) {B : Backend R} (hB : B.Lawful) :
    (∃ d, script N B (.list [2, 2, 2]) [] none [.toffoli [0] 2 1, .measureAll] = .ok d) ∧
    ∃ e, script N B (.list [2, 2, 2]) [] none ([Call.toffoli [0] 2 1].map (Call.onto [0, 2, 1]) ++ [.measureAll]) =
      .error e := by
  constructor
  · have := script_valid hN hB (dims := [2, 2, 2]) (by simp) (init := []) (validStart_of rfl) (out := none) (by simp)
      (ks := [.toffoli [0] 2 1]) (by simp [Call.Valid, InRange, spanOf]) []
    exact ⟨_, this⟩
  · exact (C06_adjacent_toffoli_never_runs hN hB (dims := [2, 2, 2]) (init := []) (validStart_of rfl) none
      (pre := []) (by simp) [.measureAll] (a := 0) (by simp) (cs := [0]) (t := 1) (by simp) (by simp) (by simp) 1).2

/-- A circuit on a qutrit and two qubits, placed on registers 4, 0 and 2 of five. -/
example {B : Backend ℤ} (hB : B.Lawful) :
    amplitude sampleN B [2, 5, 2, 4, 3] (asInit [1, 4, 0, 3, 2]) [.toffoli [4, 0] 2 1, .cx 2 4 1, .h 2 none] [1, 4, 1, 3, 0] =
      amplitude sampleN B [3, 2, 2] (asInit [2, 1, 0]) [.toffoli [0, 1] 2 1, .cx 2 0 1, .h 2 none] [0, 1, 1] := by
  refine (C77_placing sampleN_sized hB (dims := [2, 5, 2, 4, 3]) (place := [4, 0, 2]) (by simp) (by simp) (by simp) (by simp)
    (u := [1, 4, 0, 3, 2]) (by simp [Fits]; decide) (ks := [.toffoli [0, 1] 2 1, .cx 2 0 1, .h 2 none])
    (by simp [Call.Valid, InRange, DimOK, spanOf, pick]) (by simp [Call.Movable])
    (by simp [Call.onto, Call.Valid, InRange, DimOK, spanOf]) (s := [1, 4, 1, 3, 0]) (by simp [Fits]; decide)).trans ?_
  exact if_pos (by decide)

example {B : Backend ℤ} (hB : B.Lawful) :=
  C77_any_order sampleN_sized hB (dims := [2, 3, 4]) (place := [2, 0, 1]) (by simp) (by simp) (by decide)
    (u := [1, 2, 3]) (by simp [Fits]; decide) (ks := [.toffoli [0, 1] 2 1, .cx 2 0 1, .h 2 none])
    (by simp [Call.Valid, InRange, DimOK, spanOf, pick]) (by simp [Call.Movable])
    (by simp [Call.onto, Call.Valid, InRange, DimOK, spanOf]) (s := [1, 0, 3]) (by simp [Fits]; decide)

end QuDiet
