import Verif.MplWhile
import Verif.Props.StrWhile
import Verif.Props.DrawMpl
import Verif.Props.Pages

/-! # C104: `draw('mpl')` while other threads build the circuit -/

namespace QuDiet
open Spec

variable {R : Type} [CommRing R]

/-! ### Specification -/

/-- Every layer of the drawing `l` is a layer of the drawing `l'` with the same number, and its shapes are among those of
that layer, in the same order. -/
def PartOf (l l' : List (List Shape)) : Prop :=
  ∀ (j : Nat) a, l[j]? = some a → ∃ b, l'[j]? = some b ∧ a.Sublist b

/-! ### Layers that grow show more -/

theorem shape_of_ident {g : GateObj R} (h : g.isIdent = true) : g.shape = .ok none := by
  cases g <;> simp [GateObj.isIdent] at h
  rfl

theorem drawLayer_cons (g : GateObj R) (m : List (GateObj R)) :
    drawLayer (g :: m) = (g.shape.bind fun o => (drawLayer m).map fun l => o.toList ++ l) := by
  unfold drawLayer
  rw [List.mapM_cons]
  cases g.shape with
  | error e => rfl
  | ok o =>
    cases List.mapM GateObj.shape m with
    | error e => rfl
    | ok l => cases o <;> rfl

/-- A layer that shows part of another one. -/
theorem drawLayer_below : ∀ {m m' : List (GateObj R)}, m.length ≤ m'.length →
    (∀ (j : Nat) g, m[j]? = some g → m'[j]? = some g ∨ g.isIdent = true) → ∀ {l'}, drawLayer m' = .ok l' →
    ∃ l, drawLayer m = .ok l ∧ l.Sublist l'
  | [], m', _, _, l', _ => ⟨[], rfl, List.nil_sublist _⟩
  | g :: m, [], hl, _, _, _ => by simp at hl
  | g :: m, g' :: m', hl, h, l', hd => by
    rw [drawLayer_cons] at hd
    cases hs : g'.shape with
    | error e => rw [hs] at hd; cases hd
    | ok o' =>
      rw [hs] at hd
      cases hd' : drawLayer m' with
      | error e => rw [hd'] at hd; cases hd
      | ok k' =>
        rw [hd'] at hd
        cases hd
        obtain ⟨k, hk, hsub⟩ := drawLayer_below (m := m) (m' := m') (by simpa using hl)
          (fun j g hj => h (j + 1) g (by simpa using hj)) hd'
        rcases h 0 g rfl with e | e
        · have : g' = g := by simpa using e
          subst this
          exact ⟨o'.toList ++ k, by rw [drawLayer_cons, hs, hk]; rfl, hsub.append_left _⟩
        · exact ⟨k, by rw [drawLayer_cons, shape_of_ident e, hk]; rfl, hsub.trans (List.sublist_append_right _ _)⟩

theorem mapM_get {α β : Type} {f : α → PyM β} : ∀ {l : List α} {k : List β}, l.mapM f = .ok k →
    k.length = l.length ∧ ∀ (j : Nat) a, l[j]? = some a → ∃ b, k[j]? = some b ∧ f a = .ok b
  | [], k, h => by
    cases h
    simp
  | x :: l, k, h => by
    rw [List.mapM_cons] at h
    cases hx : f x with
    | error e => rw [hx] at h; cases h
    | ok y =>
      rw [hx] at h
      cases hl : l.mapM f with
      | error e => rw [hl] at h; cases h
      | ok ys =>
        rw [hl] at h
        cases h
        obtain ⟨h1, h2⟩ := mapM_get hl
        refine ⟨by simp [h1], fun j a hj => ?_⟩
        cases j with
        | zero =>
          have : x = a := by simpa using hj
          subst this
          exact ⟨y, rfl, hx⟩
        | succ j => exact h2 j a (by simpa using hj)

theorem Grows.drawn {M M' : List (List (GateObj R))} (h : Grows M M') {l' : List (List Shape)} (hl : M'.mapM drawLayer = .ok l') :
    ∃ l, M.mapM drawLayer = .ok l ∧ PartOf l l' := by
  obtain ⟨_, hget⟩ := mapM_get hl
  have part : ∀ (j : Nat) m, M[j]? = some m → ∃ b a, l'[j]? = some b ∧ drawLayer m = .ok a ∧ a.Sublist b := by
    intro j m hm
    obtain ⟨m', hm', hlen, hg⟩ := h j m hm
    obtain ⟨b, hb, hd⟩ := hget j m' hm'
    obtain ⟨a, ha, hs⟩ := drawLayer_below (by omega) hg hd
    exact ⟨b, a, hb, ha, hs⟩
  cases hM : M.mapM drawLayer with
  | error e =>
    obtain ⟨m, hm, he⟩ := mapM_error_mem hM
    obtain ⟨j, hj⟩ := List.getElem?_of_mem hm
    obtain ⟨_, _, _, ha, _⟩ := part j m hj
    rw [he] at ha
    cases ha
  | ok l =>
    refine ⟨l, rfl, fun j a ha => ?_⟩
    obtain ⟨hlen, hg⟩ := mapM_get hM
    have hj := (List.getElem?_eq_some_iff.1 ha).1
    obtain ⟨b, a', hb, ha', hs⟩ := part j _ (List.getElem?_eq_getElem (l := M) (i := j) (by omega))
    obtain ⟨a2, h1, h2⟩ := hg j _ (List.getElem?_eq_getElem (l := M) (i := j) (by omega))
    rw [h2] at ha'
    cases ha'
    rw [ha] at h1
    cases h1
    exact ⟨b, hb, hs⟩

theorem pyGet_one {α : Type} (l : List α) : (∃ x, pyGet l 1 = .ok x) ∧ 2 ≤ l.length ∨ pyGet l 1 = .error .index ∧ l.length ≤ 1 := by
  match l with
  | [] => exact .inr ⟨rfl, by simp⟩
  | [_] => exact .inr ⟨rfl, by simp⟩
  | _ :: y :: l => exact .inl ⟨⟨y, by
      have : pyIndex (l.length + 1 + 1) 1 = .ok 1 := by
        unfold pyIndex
        simp
      simp [pyGet, this]⟩, by simp⟩

theorem drawMpl_of (c : Circuit R) (h : 2 ≤ c.flow.moments.length) : c.drawMpl = c.flow.moments.mapM drawLayer := by
  unfold Circuit.drawMpl
  rcases pyGet_one c.flow.moments with ⟨⟨x, hx⟩, _⟩ | ⟨_, h'⟩
  · rw [hx]; rfl
  · omega

/-! ### What `draw('mpl')` has read -/

/-- What `draw('mpl')` knows; `M0` were the layers when it began, `M` are those now. -/
def Mc.Knows (M0 M : List (List (GateObj R))) : Mc R → Prop
  | .start => False
  | .failed => M0.length ≤ 1
  | .looping r => r.Knows M0 M ∧ 2 ≤ M0.length

theorem Mc.Knows.grow {M0 M M' : List (List (GateObj R))} {r : Mc R} (h : r.Knows M0 M) (g : Grows M M') : r.Knows M0 M' := by
  cases r with
  | start => exact h
  | failed => exact h
  | looping r => exact ⟨Ic.Knows.grow h.1 g, h.2⟩

theorem Mc.Knows.step {M0 : List (List (GateObj R))} {f : Flow R} {r : Mc R} (h : r.Knows M0 f.moments) :
    (r.step f).Knows M0 f.moments := by
  cases r with
  | start => exact h.elim
  | failed => exact h
  | looping r => exact ⟨Ic.Knows.step h.1, h.2⟩

variable [StarRing R] [DecidableEq R] [UnitaryCheck R] {N : Numerics R} {dims : List Nat} {init : List Int}
  {c0 c : Circuit R} {progs : List (List (Call R))}

theorem sound_mpl [Nontrivial R] (hN : N.Sized) (h2 : ∀ d ∈ dims, 2 ≤ d) (hap : NoSharing progs)
    (hv : ∀ p ∈ progs, ∀ k ∈ p, k.Valid dims) {M0 : List (List (GateObj R))} (s : List (Option Nat))
    {σ : (Circuit R × List (Thread R)) × Mc R} (h : Sound N dims init c0 progs σ.1) (hk : σ.2.Knows M0 σ.1.1.flow.moments) :
    Sound N dims init c0 progs (s.foldl stepMpl σ).1 ∧ (s.foldl stepMpl σ).2.Knows M0 (s.foldl stepMpl σ).1.1.flow.moments := by
  induction s generalizing σ with
  | nil => exact ⟨h, hk⟩
  | cons o s ih =>
    cases o with
    | none => exact ih (σ := stepMpl σ none) h hk.step
    | some i =>
      obtain ⟨h', hg⟩ := h.step hN h2 hap hv i
      exact ih (σ := stepMpl σ (some i)) h' (hk.grow hg)

theorem runMpl_call (c0 : Circuit R) (progs : List (List (Call R))) (s0 : List Nat) (s : List (Option Nat)) :
    runMpl c0 progs (s0.map some ++ none :: s) =
      s.foldl stepMpl (runThreads c0 progs s0, Mc.step (runThreads c0 progs s0).1.flow .start) := by
  have hs : ∀ (s : List Nat) (σ : Circuit R × List (Thread R)) (r : Mc R),
      (s.map some).foldl stepMpl (σ, r) = (s.foldl stepThread σ, r) := by
    intro s
    induction s with
    | nil => intro σ r; rfl
    | cons i s ih => intro σ r; exact ih _ _
  unfold runMpl
  rw [List.foldl_append, hs]
  rfl

/-- What is known whenever `draw('mpl')` has been called. -/
theorem mpl_core [Nontrivial R] (hne : dims ≠ []) (h : ValidStart (dims.map Int.ofNat) init)
    (hv : ∀ p ∈ progs, ∀ k ∈ p, k.Valid dims) (hap : NoSharing progs)
    (hc : Circuit.new (.list (dims.map Int.ofNat)) init none = .ok c0) (s0 : List Nat) (s : List (Option Nat)) :
    ∃ N : Numerics R, Sound N dims init c0 progs (runThreads c0 progs s0) ∧
      Sound N dims init c0 progs (runMpl c0 progs (s0.map some ++ none :: s)).1 ∧
      (runMpl c0 progs (s0.map some ++ none :: s)).2.Knows (runThreads c0 progs s0).1.flow.moments
        (runMpl c0 progs (s0.map some ++ none :: s)).1.1.flow.moments := by
  have hN : (⟨fun d => List.replicate d 0, fun _ => 0⟩ : Numerics R).Sized := fun d _ => by simp
  have h2 := ge_two_of_valid h
  obtain ⟨_, _, _, ⟨⟨_, _, _, _, _⟩, hn0⟩, _⟩ := str_core hne h hv hap hc [] []
  rw [new_ok rfl h none] at hc
  injection hc with hc
  subst hc
  have start := Running.start (N := (⟨fun d => List.replicate d 0, fun _ => 0⟩ : Numerics R)) (init := init) hne progs
  have r0 : Sound (⟨fun d => List.replicate d 0, fun _ => 0⟩ : Numerics R) dims init
      (freshCircuit (.list (dims.map Int.ofNat)) dims init none) progs
      (runThreads (freshCircuit (.list (dims.map Int.ofNat)) dims init none) progs s0) :=
    Sound.steps hN h2 hap hv s0 (σ := runThreads (freshCircuit (.list (dims.map Int.ofNat)) dims init none) progs [])
      ⟨⟨_, _, _, _, start⟩, hn0⟩
  refine ⟨_, r0, ?_⟩
  rw [runMpl_call]
  refine sound_mpl hN h2 hap hv s r0 ?_
  rcases pyGet_one (runThreads (freshCircuit (R := R) (.list (dims.map Int.ofNat)) dims init none) progs s0).1.flow.moments with
    ⟨⟨x, hx⟩, hl⟩ | ⟨hx, hl⟩
  · simp only [Mc.step, hx]
    exact ⟨⟨rfl, Grows.refl _, fun a m hm => by simp at hm, fun e => (e rfl).elim, fun a m0 m _ hm => by simp at hm,
      fun m0 _ j g hj => by simp at hj⟩, hl⟩
  · simp only [Mc.step, hx]
    exact hl

/-- **C104.** Threads build a circuit and one calls `draw('mpl')` while the others go on. If it returns, then it has drawn, layer
by layer, at least what `draw('mpl')` draws of the circuit as it was at the call, and at most what it draws of the circuit as
it is now. -/
theorem C104_between [Nontrivial R] (hne : dims ≠ []) (h : ValidStart (dims.map Int.ofNat) init)
    (hv : ∀ p ∈ progs, ∀ k ∈ p, k.Valid dims)
    (hap : progs.Pairwise fun p p' => ∀ k ∈ p, ∀ k' ∈ p', ∀ r, ¬ (k.touches r ∧ k'.touches r))
    (hc : Circuit.new (.list (dims.map Int.ofNat)) init none = .ok c0) (s0 : List Nat) (s : List (Option Nat))
    {l : List (List Shape)} (hx : (runMpl c0 progs (s0.map some ++ none :: s)).2.value = some (.ok l)) :
    (∃ before, (runThreads c0 progs s0).1.drawMpl = .ok before ∧ PartOf before l) ∧
    ∀ after, (runMpl c0 progs (s0.map some ++ none :: s)).1.1.drawMpl = .ok after → PartOf l after := by
  obtain ⟨N, _, _, hk⟩ := mpl_core hne h hv hap hc s0 s
  generalize (runMpl c0 progs (s0.map some ++ none :: s)) = σ at hx hk ⊢
  obtain ⟨σ, r⟩ := σ
  cases r with
  | start => cases hx
  | failed => cases hx
  | looping r =>
    obtain ⟨hk, hl⟩ := hk
    cases r with
    | start => cases hx
    | reading d seen cur =>
      simp only [Mc.value] at hx
      split at hx <;> cases hx
    | finished d seen =>
      obtain ⟨_, h1, h2⟩ := hk
      simp only [Mc.value, Option.some.injEq] at hx
      obtain ⟨b, hb, hp⟩ := h1.drawn hx
      refine ⟨⟨b, by rw [drawMpl_of _ hl, hb], hp⟩, fun after ha => ?_⟩
      rw [drawMpl_of _ (by have := (h1.trans h2).length_le; simp only at this ⊢; omega)] at ha
      obtain ⟨l', hl', hp'⟩ := h2.drawn ha
      rw [hx] at hl'
      cases hl'
      exact hp'

/-- **C104.** If it raises, then either no layer had been added when it was called, and it raises IndexError, or `draw('mpl')` of
the circuit as it is now raises as well. -/
theorem C104_raises [Nontrivial R] (hne : dims ≠ []) (h : ValidStart (dims.map Int.ofNat) init)
    (hv : ∀ p ∈ progs, ∀ k ∈ p, k.Valid dims)
    (hap : progs.Pairwise fun p p' => ∀ k ∈ p, ∀ k' ∈ p', ∀ r, ¬ (k.touches r ∧ k'.touches r))
    (hc : Circuit.new (.list (dims.map Int.ofNat)) init none = .ok c0) (s0 : List Nat) (s : List (Option Nat))
    {e : Err} (hx : (runMpl c0 progs (s0.map some ++ none :: s)).2.value = some (.error e)) :
    (e = .index ∧ (runThreads c0 progs s0).1.depth = 0) ∨
    ∃ e', (runMpl c0 progs (s0.map some ++ none :: s)).1.1.drawMpl = .error e' := by
  obtain ⟨N, hs, _, hk⟩ := mpl_core hne h hv hap hc s0 s
  have hd := hs.depth
  obtain ⟨⟨_, _, _, _, hrun⟩, _⟩ := hs
  have hlen : 1 ≤ (runThreads c0 progs s0).1.flow.moments.length := by rw [hrun.shared.unm.moments]; simp
  generalize (runMpl c0 progs (s0.map some ++ none :: s)) = σ at hx hk ⊢
  obtain ⟨σ, r⟩ := σ
  have raised : ∀ {seen : List (List (GateObj R))} {cur : List (GateObj R)}, Grows seen σ.1.flow.moments →
      (cur ≠ [] → ∃ m, σ.1.flow.moments[seen.length]? = some m ∧ cur.length ≤ m.length ∧
        ∀ (j : Nat) g, cur[j]? = some g → m[j]? = some g ∨ g.isIdent = true) →
      (seen ++ [cur]).mapM drawLayer = .error e → ∃ e', σ.1.flow.moments.mapM drawLayer = .error e' := by
    intro seen cur h1 h2 he
    cases hM : σ.1.flow.moments.mapM drawLayer with
    | error e' => exact ⟨e', rfl⟩
    | ok l' =>
      obtain ⟨l, hl, _⟩ := h1.drawn hM
      obtain ⟨m, hm, hme⟩ := mapM_error_mem he
      rcases List.mem_append.1 hm with hm | hm
      · obtain ⟨j, hj⟩ := List.getElem?_of_mem hm
        obtain ⟨b, _, hb⟩ := (mapM_get hl).2 j m hj
        rw [hme] at hb
        cases hb
      · rw [List.mem_singleton] at hm
        subst hm
        by_cases hcur : m = []
        · subst hcur
          cases hme
        · obtain ⟨m', hm', hle, hg⟩ := h2 hcur
          obtain ⟨b, _, hb⟩ := (mapM_get hM).2 _ m' hm'
          obtain ⟨a, ha, _⟩ := drawLayer_below hle hg hb
          rw [hme] at ha
          cases ha
  cases r with
  | start => cases hx
  | failed =>
    cases hx
    have : (runThreads c0 progs s0).1.flow.moments.length ≤ 1 := hk
    exact .inl ⟨rfl, by rw [hd]; omega⟩
  | looping r =>
    obtain ⟨hk, hl⟩ := hk
    right
    cases r with
    | start => cases hx
    | reading d seen cur =>
      obtain ⟨_, hk⟩ := hk
      rw [drawMpl_of _ (by have := hk.grown.length_le; simp only at this ⊢; omega)]
      simp only [Mc.value] at hx
      cases hm : (seen ++ [cur]).mapM drawLayer with
      | ok k => rw [hm] at hx; cases hx
      | error e' =>
        rw [hm] at hx
        cases hx
        exact raised hk.up hk.upCur hm
    | finished d seen =>
      obtain ⟨_, h1, h2⟩ := hk
      rw [drawMpl_of _ (by have := (h1.trans h2).length_le; simp only at this ⊢; omega)]
      simp only [Mc.value, Option.some.injEq] at hx
      cases hM : σ.1.flow.moments.mapM drawLayer with
      | error e' => exact ⟨e', rfl⟩
      | ok l' =>
        obtain ⟨l, hl, _⟩ := h2.drawn hM
        rw [hx] at hl
        cases hl

/-- **C104.** If no layer had been added when it was called, it raises IndexError, whatever the other threads do after that. -/
theorem C104_too_early [Nontrivial R] (hne : dims ≠ []) (h : ValidStart (dims.map Int.ofNat) init)
    (hv : ∀ p ∈ progs, ∀ k ∈ p, k.Valid dims)
    (hap : progs.Pairwise fun p p' => ∀ k ∈ p, ∀ k' ∈ p', ∀ r, ¬ (k.touches r ∧ k'.touches r))
    (hc : Circuit.new (.list (dims.map Int.ofNat)) init none = .ok c0) (s0 : List Nat) (s : List (Option Nat))
    (hd : (runThreads c0 progs s0).1.depth = 0) :
    (runMpl c0 progs (s0.map some ++ none :: s)).2.value = some (.error .index) := by
  obtain ⟨N, hs, _, hk⟩ := mpl_core hne h hv hap hc s0 s
  rw [hs.depth] at hd
  generalize (runMpl c0 progs (s0.map some ++ none :: s)).2 = r at hk
  cases r with
  | start => exact hk.elim
  | failed => rfl
  | looping r => have := hk.2; omega

theorem stepMpl_alone (n : Nat) (σ : Circuit R × List (Thread R)) (r : Mc R) :
    (List.replicate n none).foldl stepMpl (σ, r) = (σ, (Mc.step σ.1.flow)^[n] r) := by
  induction n generalizing r with
  | zero => rfl
  | succ n ih => rw [List.replicate_succ, List.foldl_cons, Function.iterate_succ_apply]; exact ih _

theorem Mc.loops (f : Flow R) (n : Nat) (r : Ic R) : (Mc.step f)^[n] (.looping r) = .looping ((Ic.step f)^[n] r) := by
  induction n generalizing r with
  | zero => rfl
  | succ n ih => rw [Function.iterate_succ_apply, Function.iterate_succ_apply]; exact ih _

theorem Mc.failed_stays (f : Flow R) (n : Nat) : (Mc.step f)^[n] (.failed : Mc R) = .failed := by
  induction n with
  | zero => rfl
  | succ n ih => rw [Function.iterate_succ_apply]; exact ih

/-- **C104.** However far it has come and whatever the other threads did, it comes to an end if they stop. -/
theorem C104_ends (c : Circuit R) (progs : List (List (Call R))) (s : List (Option Nat)) :
    ∃ n x, (runMpl c progs (s ++ List.replicate n none)).2.value = some x := by
  have key : ∀ (f : Flow R) (r : Mc R), ∃ n x, ((Mc.step f)^[n] r).value = some x := by
    intro f r
    have loop : ∀ r : Ic R, ∃ n x, ((Mc.step f)^[n] (.looping r)).value = some x := by
      intro r
      obtain ⟨n, d, seen, hn⟩ := Ic.ends f r
      exact ⟨n, _, by rw [Mc.loops, hn]; rfl⟩
    cases r with
    | failed => exact ⟨0, _, rfl⟩
    | looping r => exact loop r
    | start =>
      rcases pyGet_one f.moments with ⟨⟨x, hx⟩, _⟩ | ⟨hx, _⟩
      · obtain ⟨n, x, hn⟩ := loop (Ic.start.step f)
        refine ⟨n + 1, x, ?_⟩
        rw [Function.iterate_succ_apply, ← hn]
        simp only [Mc.step, hx]
      · refine ⟨1, .error .index, ?_⟩
        simp only [Function.iterate_one, Mc.step, hx, Mc.value]
  obtain ⟨n, x, hn⟩ := key (runMpl c progs s).1.1.flow (runMpl c progs s).2
  refine ⟨n, x, ?_⟩
  have : runMpl c progs (s ++ List.replicate n none) = (List.replicate n none).foldl stepMpl (runMpl c progs s) := by
    unfold runMpl
    rw [List.foldl_append]
  rw [this, show runMpl c progs s = ((runMpl c progs s).1, (runMpl c progs s).2) from rfl, stepMpl_alone]
  exact hn

theorem Mc.alone (c : Circuit R) : ∃ n, ((Mc.step c.flow)^[n + 1] .start).value = some c.drawMpl := by
  obtain ⟨n, hn⟩ := Ic.read_all c.flow ((c.flow.moments.length : Int) - 1)
  refine ⟨n, ?_⟩
  rw [Function.iterate_succ_apply]
  rcases pyGet_one c.flow.moments with ⟨⟨x, hx⟩, h2⟩ | ⟨hx, _⟩
  · simp only [Mc.step, hx]
    rw [Mc.loops]
    simp only [Ic.step]
    rw [hn, drawMpl_of c h2]
    rfl
  · simp only [Mc.step, hx]
    rw [Mc.failed_stays]
    simp only [Mc.value, Circuit.drawMpl, hx]
    rfl

/-- **C104.** A call with no other thread at work is that of the other properties. -/
theorem C104_alone (c : Circuit R) (progs : List (List (Call R))) :
    ∃ n, (runMpl c progs (List.replicate n none)).2.value = some c.drawMpl := by
  obtain ⟨n, hn⟩ := Mc.alone c
  refine ⟨n + 1, ?_⟩
  unfold runMpl
  rw [stepMpl_alone]
  exact hn

/-! ### Figures -/

theorem layerWidth_sublist (W : Shape → ℚ) {a b : List Shape} (h : a.Sublist b) : layerWidth W a ≤ layerWidth W b := by
  have : ∀ (l : List ℚ) (x y : ℚ), x ≤ y → (∀ z ∈ l, z ≤ y) → l.foldl max x ≤ y := by
    intro l
    induction l with
    | nil => intro x y hx _; exact hx
    | cons z l ih => intro x y hx hl; exact ih _ _ (max_le hx (hl z (by simp))) fun u hu => hl u (by simp [hu])
  refine this _ _ _ (layerWidth_nonneg W b) fun z hz => ?_
  obtain ⟨s, hs, rfl⟩ := List.mem_map.1 hz
  exact le_layerWidth W (h.subset hs)

theorem PartOf.nil (l : List (List Shape)) : PartOf [] l := fun j a h => by simp at h

theorem PartOf.tail {a b : List Shape} {l l' : List (List Shape)} (h : PartOf (a :: l) (b :: l')) :
    a.Sublist b ∧ PartOf l l' := by
  constructor
  · obtain ⟨b', hb, hs⟩ := h 0 a rfl
    have : b = b' := by simpa using hb
    rw [this]
    exact hs
  · intro j x hx
    obtain ⟨b', hb, hs⟩ := h (j + 1) x (by simpa using hx)
    exact ⟨b', by simpa using hb, hs⟩

theorem paginate_pos (W : Shape → ℚ) (x : Int) (ls : List (List Shape)) (i : ℚ) (p : Page) :
    1 ≤ (paginate W x ls i p).length := by
  induction ls generalizing i p with
  | nil => simp [paginate]
  | cons ss ls ih =>
    simp only [paginate]
    split
    · simp
    · exact ih _ _

/-- More layers with more shapes never take fewer figures. -/
theorem paginate_grows {W : Shape → ℚ} {x : Int} : ∀ {ls ls' : List (List Shape)}, PartOf ls ls' → ∀ (i i' : ℚ) (p p' : Page)
    (n n' : Nat), (n < n' ∧ 2 ≤ i' ∨ n = n' ∧ i ≤ i') →
    n + (paginate W x ls i p).length ≤ n' + (paginate W x ls' i' p').length
  | [], ls', _, i, i', p, p', n, n', h => by
    have := paginate_pos W x ls' i' p'
    simp only [paginate, List.length_cons, List.length_nil]
    omega
  | a :: l, [], hp, _, _, _, _, _, _, _ => by
    obtain ⟨b, hb, _⟩ := hp 0 a rfl
    simp at hb
  | a :: l, b :: l', hp, i, i', p, p', n, n', h => by
    obtain ⟨hs, hp⟩ := hp.tail
    have hw := layerWidth_sublist W hs
    have hb := layerWidth_nonneg W b
    simp only [paginate]
    by_cases hc : ⌈i + layerWidth W a + 1⌉ ≥ x - 1
    · rw [if_pos hc]
      by_cases hc' : ⌈i' + layerWidth W b + 1⌉ ≥ x - 1
      · rw [if_pos hc']
        simp only [List.length_cons]
        rw [← Nat.add_assoc, ← Nat.add_assoc, Nat.add_right_comm, Nat.add_right_comm n']
        apply paginate_grows hp
        rcases h with h | h
        · exact .inl ⟨by omega, le_rfl⟩
        · exact .inr ⟨by omega, le_rfl⟩
      · rw [if_neg hc']
        simp only [List.length_cons]
        rw [← Nat.add_assoc, Nat.add_right_comm n]
        apply paginate_grows hp
        rcases h with h | h
        · by_cases he : n + 1 = n'
          · exact .inr ⟨he, by linarith⟩
          · exact .inl ⟨by omega, by linarith⟩
        · exfalso
          apply hc'
          have : ⌈i + layerWidth W a + 1⌉ ≤ ⌈i' + layerWidth W b + 1⌉ := Int.ceil_le_ceil (by linarith)
          omega
    · rw [if_neg hc]
      by_cases hc' : ⌈i' + layerWidth W b + 1⌉ ≥ x - 1
      · rw [if_pos hc']
        simp only [List.length_cons]
        rw [← Nat.add_assoc, Nat.add_right_comm n']
        apply paginate_grows hp
        exact .inl ⟨by rcases h with h | h <;> omega, le_rfl⟩
      · rw [if_neg hc']
        apply paginate_grows hp
        rcases h with h | h
        · exact .inl ⟨h.1, by linarith⟩
        · exact .inr ⟨h.1, by linarith⟩

/-- The figures of a circuit in any state. -/
theorem Sound.pages {σ : Circuit R × List (Thread R)} (h : Sound N dims init c0 progs σ) (W : Shape → ℚ) (w : ℚ) (compress : Nat)
    {L : List (Nat × Int)} (hL : stateLabels (initOps (R := R) dims init) = .ok L) :
    σ.1.drawPages W w compress = σ.1.drawMpl.map fun ls => paginate W (15 + dims.length * compress) ls ⌈w + 1⌉
      { number := 1, labels := L, wireFrom := ⌈w + 1⌉, wireTo := 15 + dims.length * compress - 1, layers := [] } := by
  obtain ⟨⟨_, _, _, _, h⟩, _⟩ := h
  unfold Circuit.drawPages Circuit.drawMpl
  rw [h.shared.qregs, h.shared.unm.moments]
  simp only [List.headD_cons, hL, bind, Except.bind]
  generalize pyGet _ _ = o
  cases o with
  | error e => rfl
  | ok _ =>
    simp only
    generalize (List.mapM drawLayer _ : PyM _) = o
    cases o <;> rfl

theorem initOps_labels (dims : List Nat) (init : List Int) : ∃ L, stateLabels (initOps (R := R) dims init) = .ok L := by
  unfold stateLabels initOps
  rw [mapM_ok _ _ (fun g => match g with | .init d s _ => (d, s) | _ => (0, 0))]
  · exact ⟨_, rfl⟩
  · intro g hg
    obtain ⟨i, _, rfl⟩ := List.mem_map.1 hg
    rfl

/-- The figures are those of the shapes. -/
theorem figures_of (h : ValidStart (dims.map Int.ofNat) init)
    (hc : Circuit.new (.list (dims.map Int.ofNat)) init none = .ok c0) (W : Shape → ℚ) (w : ℚ) (compress : Nat) (r : Mc R)
    {L : List (Nat × Int)} (hL : stateLabels (initOps (R := R) dims init) = .ok L) :
    r.figures W w compress c0 = r.value.map fun v => v.map fun ls => paginate W (15 + dims.length * compress) ls ⌈w + 1⌉
      { number := 1, labels := L, wireFrom := ⌈w + 1⌉, wireTo := 15 + dims.length * compress - 1, layers := [] } := by
  rw [new_ok rfl h none] at hc
  injection hc with hc
  subst hc
  have hq : (freshCircuit (R := R) (.list (dims.map Int.ofNat)) dims init none).qregs.seq.length = dims.length := by
    simp [freshCircuit, RegsArg.toRegs, Regs.seq]
  unfold Mc.figures
  rw [hq]
  have hm : (freshCircuit (R := R) (.list (dims.map Int.ofNat)) dims init none).flow.moments.headD [] = initOps dims init := rfl
  rw [hm, hL]
  cases r.value with
  | none => rfl
  | some v => cases v <;> rfl

/-- **C104.** If `draw('mpl', compress)` returns, it has drawn at least as many figures as for the circuit as it was at the
call, and at most as many as for the circuit as it is now. -/
theorem C104_figures [Nontrivial R] (hne : dims ≠ []) (h : ValidStart (dims.map Int.ofNat) init)
    (hv : ∀ p ∈ progs, ∀ k ∈ p, k.Valid dims)
    (hap : progs.Pairwise fun p p' => ∀ k ∈ p, ∀ k' ∈ p', ∀ r, ¬ (k.touches r ∧ k'.touches r))
    (hc : Circuit.new (.list (dims.map Int.ofNat)) init none = .ok c0) (s0 : List Nat) (s : List (Option Nat))
    (W : Shape → ℚ) (w : ℚ) (compress : Nat) {pages : List Page}
    (hx : (runMpl c0 progs (s0.map some ++ none :: s)).2.figures W w compress c0 = some (.ok pages)) :
    (∃ before, (runThreads c0 progs s0).1.drawPages W w compress = .ok before ∧ before.length ≤ pages.length) ∧
    ∀ after, (runMpl c0 progs (s0.map some ++ none :: s)).1.1.drawPages W w compress = .ok after →
      pages.length ≤ after.length := by
  obtain ⟨L, hL⟩ := initOps_labels (R := R) dims init
  obtain ⟨N, hs, hs', _⟩ := mpl_core hne h hv hap hc s0 s
  rw [figures_of h hc W w compress _ hL] at hx
  cases hval : (runMpl c0 progs (s0.map some ++ none :: s)).2.value with
  | none => rw [hval] at hx; cases hx
  | some v =>
    cases v with
    | error e => rw [hval] at hx; cases hx
    | ok l =>
      rw [hval] at hx
      cases hx
      obtain ⟨⟨b, hb, hp⟩, ha⟩ := C104_between hne h hv hap hc s0 s hval
      refine ⟨⟨_, by rw [hs.pages W w compress hL, hb]; rfl, ?_⟩, fun after he => ?_⟩
      · have := paginate_grows (W := W) (x := 15 + dims.length * compress) hp ⌈w + 1⌉ ⌈w + 1⌉
          { number := 1, labels := L, wireFrom := ⌈w + 1⌉, wireTo := 15 + dims.length * compress - 1, layers := [] }
          { number := 1, labels := L, wireFrom := ⌈w + 1⌉, wireTo := 15 + dims.length * compress - 1, layers := [] }
          0 0 (.inr ⟨rfl, le_rfl⟩)
        simpa using this
      · rw [hs'.pages W w compress hL] at he
        cases hd : (runMpl c0 progs (s0.map some ++ none :: s)).1.1.drawMpl with
        | error e => rw [hd] at he; cases he
        | ok l' =>
          rw [hd] at he
          cases he
          have := paginate_grows (W := W) (x := 15 + dims.length * compress) (ha l' hd) ⌈w + 1⌉ ⌈w + 1⌉
            { number := 1, labels := L, wireFrom := ⌈w + 1⌉, wireTo := 15 + dims.length * compress - 1, layers := [] }
            { number := 1, labels := L, wireFrom := ⌈w + 1⌉, wireTo := 15 + dims.length * compress - 1, layers := [] }
            0 0 (.inr ⟨rfl, le_rfl⟩)
          simpa using this

/-- **C104.** The figures are numbered from 1 on and show the layers of `C104_between` in order, each once. -/
theorem C104_figures_show (hne : dims ≠ []) (h : ValidStart (dims.map Int.ofNat) init)
    (hc : Circuit.new (.list (dims.map Int.ofNat)) init none = .ok c0) (s : List (Option Nat))
    (W : Shape → ℚ) (w : ℚ) (compress : Nat) (hw : ⌈w + 1⌉ < 14 + (dims.length : Int) * compress) {pages : List Page}
    (hx : (runMpl c0 progs s).2.figures W w compress c0 = some (.ok pages)) :
    (runMpl c0 progs s).2.value = some (.ok ((pages.flatMap (·.layers)).map (·.2))) ∧
    pages.map (·.number) = List.range' 1 pages.length := by
  obtain ⟨L, hL⟩ := initOps_labels (R := R) dims init
  rw [figures_of h hc W w compress _ hL] at hx
  cases hval : (runMpl c0 progs s).2.value with
  | none => rw [hval] at hx; cases hx
  | some v =>
    cases v with
    | error e => rw [hval] at hx; cases hx
    | ok l =>
      rw [hval] at hx
      cases hx
      have hpos : (0 : Int) ≤ (dims.length : Int) * compress := by positivity
      have hlt : ((⌈w + 1⌉ : Int) : ℚ) < ((15 + (dims.length : Int) * compress : Int) : ℚ) - 1 := by
        have : ((⌈w + 1⌉ : Int) : ℚ) < ((14 + (dims.length : Int) * compress : Int) : ℚ) := by exact_mod_cast hw
        push_cast at this ⊢
        linarith
      obtain ⟨p, ps, hp, _, _, _, _, _, hf, hnum, _⟩ := paginate_spec (W := W) (x := 15 + (dims.length : Int) * compress) (by omega) l
        ⌈w + 1⌉ ⌈w + 1⌉
        { number := 1, labels := L, wireFrom := ⌈w + 1⌉, wireTo := 15 + dims.length * compress - 1, layers := [] } hlt rfl
        ⟨by simp [Spaced], by simp, fun _ => rfl, by simp, by simp, by simp⟩
      beta_reduce
      rw [hp]
      exact ⟨by rw [hf]; simp, hnum⟩

/-- **C104.** If the other threads do nothing after the call, the figures are those of the circuit as it was at the call. -/
theorem C104_figures_alone [Nontrivial R] (hne : dims ≠ []) (h : ValidStart (dims.map Int.ofNat) init)
    (hv : ∀ p ∈ progs, ∀ k ∈ p, k.Valid dims)
    (hap : progs.Pairwise fun p p' => ∀ k ∈ p, ∀ k' ∈ p', ∀ r, ¬ (k.touches r ∧ k'.touches r))
    (hc : Circuit.new (.list (dims.map Int.ofNat)) init none = .ok c0) (s0 : List Nat)
    (W : Shape → ℚ) (w : ℚ) (compress : Nat) :
    ∃ n, (runMpl c0 progs (s0.map some ++ none :: List.replicate n none)).2.figures W w compress c0 =
      some ((runThreads c0 progs s0).1.drawPages W w compress) := by
  obtain ⟨L, hL⟩ := initOps_labels (R := R) dims init
  obtain ⟨N, hs, _⟩ := mpl_core hne h hv hap hc s0 []
  obtain ⟨n, hn⟩ := Mc.alone (runThreads c0 progs s0).1
  refine ⟨n, ?_⟩
  rw [figures_of h hc W w compress _ hL, hs.pages W w compress hL, runMpl_call, stepMpl_alone]
  rw [← Function.iterate_succ_apply, hn]
  rfl

/-! ### Cases -/

/-- A case of `C104_between`: `x(0)` has returned, `draw('mpl')` is called and has read the first layer, and another thread calls
`z(1)` and `h(1)`, which are drawn as well. -/
theorem lateZH_drawn : (runMpl twoQubits [[.x 0 none 1], [.z 1 none, .h 1 none]]
    ((List.replicate 12 0).map some ++ none :: lateZH)).2.value =
      some (.ok [[], [.box 'X' 0 (some (1, 2)), .box 'Z' 1 none], [.box 'H' 1 none]]) := by
  decide +kernel

example : ∃ before, (runThreads twoQubits [[.x 0 none 1], [.z 1 none, .h 1 none]] (List.replicate 12 0)).1.drawMpl = .ok before ∧
    PartOf before [[], [.box 'X' 0 (some (1, 2)), .box 'Z' 1 none], [.box 'H' 1 none]] :=
  (C104_between (dims := [2, 2]) (init := []) (c0 := twoQubits) (by simp)
    (validStart_of rfl) (progs := [[.x 0 none 1], [.z 1 none, .h 1 none]]) (by simp [Call.Valid, InRange, DimOK])
    (by simp [Call.touches]; omega) (new_ok (dims := [2, 2]) rfl (validStart_of rfl) none) _ _ lateZH_drawn).1

/-- A case of `C104_figures` and `C104_figures_show`, with shapes of one inch. -/
example : ∃ pages, (runMpl twoQubits [[.x 0 none 1], [.z 1 none, .h 1 none]]
      ((List.replicate 12 0).map some ++ none :: lateZH)).2.figures (fun _ => 1) (1 / 2) 1 twoQubits = some (.ok pages) ∧
    (∃ before, (runThreads twoQubits [[.x 0 none 1], [.z 1 none, .h 1 none]] (List.replicate 12 0)).1.drawPages (fun _ => 1) (1 / 2) 1 =
      .ok before ∧ before.length ≤ pages.length) ∧
    (pages.flatMap (·.layers)).map (·.2) = [[], [.box 'X' 0 (some (1, 2)), .box 'Z' 1 none], [.box 'H' 1 none]] := by
  have hc : Circuit.new (R := ℤ) (.list ([2, 2].map Int.ofNat)) [] none = .ok twoQubits :=
    new_ok (dims := [2, 2]) rfl (validStart_of rfl) none
  obtain ⟨L, hL⟩ := initOps_labels (R := ℤ) [2, 2] []
  have hx := figures_of (validStart_of rfl) hc (fun _ => 1) (1 / 2) 1 (runMpl twoQubits [[.x 0 none 1], [.z 1 none, .h 1 none]]
    ((List.replicate 12 0).map some ++ none :: lateZH)).2 hL
  rw [lateZH_drawn] at hx
  refine ⟨_, hx, (C104_figures (by simp) (validStart_of rfl) (by simp [Call.Valid, InRange, DimOK])
    (by simp [Call.touches]; omega) hc _ _ _ _ _ hx).1, ?_⟩
  have := (C104_figures_show (by simp) (validStart_of rfl) hc _ _ _ _ (by norm_num) hx).1
  rw [lateZH_drawn] at this
  injection this with this
  injection this with this
  exact this.symm

/-- A case of `C104_too_early`: `x(0)` is called only after `draw('mpl')` has looked for a layer. -/
example : (runMpl twoQubits [[.x 0 none 1]] (([] : List Nat).map some ++ none :: List.replicate 12 (some 0))).2.value =
    some (.error .index) :=
  C104_too_early (dims := [2, 2]) (init := []) (by simp) (validStart_of rfl) (by simp [Call.Valid, InRange, DimOK]) (by simp)
    (new_ok (dims := [2, 2]) rfl (validStart_of rfl) none) _ _ rfl

/-- A case of `C104_raises`: three qubits, and `cx(1, 2)` has returned before `draw('mpl')` is called. -/
example : ∃ e', (runMpl (freshCircuit (R := ℤ) (.list [2, 2, 2]) [2, 2, 2] [] none) [[.cx 1 2 1]]
    ((List.replicate 16 0).map some ++ none :: List.replicate 20 none)).1.1.drawMpl = .error e' := by
  have hd : (runThreads (freshCircuit (R := ℤ) (.list [2, 2, 2]) [2, 2, 2] [] none) [[.cx 1 2 1]]
      (List.replicate 16 0)).1.depth ≠ 0 := by decide +kernel
  rcases C104_raises (dims := [2, 2, 2]) (init := []) (by simp) (validStart_of rfl) (progs := [[.cx 1 2 1]])
    (by simp [Call.Valid, InRange, DimOK]) (by simp) (new_ok (R := ℤ) (dims := [2, 2, 2]) rfl (validStart_of rfl) none)
    (List.replicate 16 0) (List.replicate 20 none) (e := .index) (by decide +kernel) with ⟨_, h⟩ | h
  · exact (hd h).elim
  · exact h

end QuDiet
