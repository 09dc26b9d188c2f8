import Verif.Lemmas.Threads
import Verif.Props.Measure
import Verif.Props.Order
import Verif.Props.Sample

/-! # C80: threads -/

namespace QuDiet
open Spec

variable {R : Type} [CommRing R]

/-! ### Where threads can be -/

/-- The call `k` built the layer `m`, whose gate `g` on register `q` may join another layer. -/
structure Joins (c : Circuit R) (k : Call R) (m : List (GateObj R)) (g : GateObj R) (q : Int) : Prop where
  layer : c.layerOf k = .ok m
  find : m.find? (·.isHXZ) = some g
  act : g.actingOn = .ok (.int q)

/-- The calls in the layers after number `a` do not touch register `q`. -/
def Later (kss : List (List (Call R))) (q : Int) (a : Nat) : Prop :=
  ∀ b ks, a ≤ b → kss[b]? = some ks → ∀ k ∈ ks, ∀ r : Nat, q = r → ¬ k.touches r

/-- The operator at position `i` of layer `a` is an identity on register `q`. -/
def IdleAt (c : Circuit R) (a : Nat) (q : Int) (i : Nat) : Prop :=
  ∃ (r d : Nat) (m : List (GateObj R)), q = r ∧ c.flow.moments[a]? = some m ∧ m[i]? = some (.ident r d)

/-- What a thread knows; `cur` is the call it is making, until that call takes effect. -/
def Pc.OK (c : Circuit R) (kss : List (List (Call R))) (cur : Option (Call R)) : Pc R → Prop
  | .idle => cur = none
  | .begun m => ∃ k, cur = some k ∧ c.layerOf k = .ok m
  | .choosing m g q => ∃ k, cur = some k ∧ Joins c k m g q
  | .looking m g q a => ∃ k, cur = some k ∧ Joins c k m g q ∧ Later kss q a
  | .replacing m g q a => ∃ k, cur = some k ∧ Joins c k m g q ∧ Later kss q a ∧ ∃ i, IdleAt c a q i
  | .writing g q a i => ∃ k m, cur = some k ∧ Joins c k m g q ∧ Later kss q a ∧ IdleAt c a q i
  | .appending m => ∃ k, cur = some k ∧ c.layerOf k = .ok m
  | .counting m _ => cur = none ∧ ∀ g ∈ m, g.isMeas = false

theorem Joins.touches {c : Circuit R} {k : Call R} {m : List (GateObj R)} {g : GateObj R} {q : Int} (h : Joins c k m g q)
    (r : Nat) : k.touches r ↔ q = r := layerOf_joins h.layer h.find h.act r

theorem Joins.flow {c : Circuit R} {k : Call R} {m : List (GateObj R)} {g : GateObj R} {q : Int} (h : Joins c k m g q)
    (f : Flow R) : Joins { c with flow := f } k m g q := ⟨by rw [layerOf_flow]; exact h.layer, h.find, h.act⟩

theorem Pc.OK.keep {c : Circuit R} {kss kss' : List (List (Call R))} {cur : Option (Call R)} {pc : Pc R} (h : pc.OK c kss cur)
    {f : Flow R}
    (hidle : ∀ k, cur = some k → ∀ a (q : Int) i, (∀ r : Nat, k.touches r ↔ q = r) → IdleAt c a q i → IdleAt { c with flow := f } a q i)
    (hlater : ∀ k, cur = some k → ∀ (q : Int) a, (∀ r : Nat, k.touches r ↔ q = r) → Later kss q a → Later kss' q a) :
    pc.OK { c with flow := f } kss' cur := by
  cases pc with
  | idle => exact h
  | begun m => obtain ⟨k, h1, h2⟩ := h; exact ⟨k, h1, by rw [layerOf_flow]; exact h2⟩
  | choosing m g q => obtain ⟨k, h1, h2⟩ := h; exact ⟨k, h1, h2.flow f⟩
  | looking m g q a => obtain ⟨k, h1, h2, h3⟩ := h; exact ⟨k, h1, h2.flow f, hlater k h1 q a h2.touches h3⟩
  | replacing m g q a =>
    obtain ⟨k, h1, h2, h3, i, h4⟩ := h
    exact ⟨k, h1, h2.flow f, hlater k h1 q a h2.touches h3, i, hidle k h1 a q i h2.touches h4⟩
  | writing g q a i =>
    obtain ⟨k, m, h1, h2, h3, h4⟩ := h
    exact ⟨k, m, h1, h2.flow f, hlater k h1 q a h2.touches h3, hidle k h1 a q i h2.touches h4⟩
  | appending m => obtain ⟨k, h1, h2⟩ := h; exact ⟨k, h1, by rw [layerOf_flow]; exact h2⟩
  | counting m j => exact h

theorem identRegs_mem {m : List (GateObj R)} {q : Int} (h : q ∈ identRegs m) :
    ∃ (r d i : Nat), q = r ∧ m[i]? = some (.ident r d) := by
  unfold identRegs at h
  rw [List.mem_filterMap] at h
  obtain ⟨g, hg, he⟩ := h
  obtain ⟨i, hi, hgi⟩ := List.mem_iff_getElem.1 hg
  cases g with
  | ident r d =>
    simp only [Option.some.injEq] at he
    exact ⟨r, d, i, he.symm, by rw [List.getElem?_eq_getElem hi, hgi]⟩
  | _ => cases he

variable [StarRing R] [DecidableEq R] [UnitaryCheck R] {N : Numerics R} {dims : List Nat}

/-! ### All threads -/

open Classical in
/-- The circuit and the threads while they run: `kss` are the calls that have taken effect, by layer; `made i` are those
of thread `i`, in the order in which it made them. -/
structure Running (N : Numerics R) (dims : List Nat) (init : List Int) (c0 : Circuit R) (progs : List (List (Call R)))
    (c : Circuit R) (ts : List (Thread R)) (layers : List (List (GateObj R) × List (Option (Block R))))
    (kss : List (List (Call R))) (cur : Nat → Option (Call R)) (made : Nat → List (Call R)) : Prop where
  shared : Shared N dims init c layers kss
  frame : ∃ f, c = { c0 with flow := f }
  len : ts.length = progs.length
  thr : ∀ i t p, ts[i]? = some t → progs[i]? = some p → t.pc.OK c kss (cur i) ∧ made i ++ ((cur i).toList ++ t.todo) = p
  own : ∀ i p r, progs[i]? = some p → (∃ k ∈ p, k.touches r) →
    kss.flatten.filter (fun k => k.touches r) = (made i).filter fun k => k.touches r
  mem : ∀ k ∈ kss.flatten, ∃ p ∈ progs, k ∈ p

/-- Calls of different threads have no register in common. -/
def NoSharing (progs : List (List (Call R))) : Prop :=
  progs.Pairwise fun p p' => ∀ k ∈ p, ∀ k' ∈ p', ∀ r, ¬ (k.touches r ∧ k'.touches r)

theorem NoSharing.ne {progs : List (List (Call R))} (h : NoSharing progs) {i j : Nat} {p p' : List (Call R)}
    (hi : progs[i]? = some p) (hj : progs[j]? = some p') (hne : i ≠ j) {k k' : Call R} (hk : k ∈ p) (hk' : k' ∈ p') {r : Nat}
    (ht : k.touches r) : ¬ k'.touches r := by
  obtain ⟨hi1, rfl⟩ := List.getElem?_eq_some_iff.1 hi
  obtain ⟨hj1, rfl⟩ := List.getElem?_eq_some_iff.1 hj
  have hp := List.pairwise_iff_getElem.1 h
  intro ht'
  rcases Nat.lt_or_gt_of_ne hne with hlt | hlt
  · exact hp i j hi1 hj1 hlt k hk k' hk' r ⟨ht, ht'⟩
  · exact hp j i hj1 hi1 hlt k' hk' k hk r ⟨ht', ht⟩

variable {init : List Int} {c0 c : Circuit R} {progs : List (List (Call R))} {ts : List (Thread R)}
  {layers : List (List (GateObj R) × List (Option (Block R)))} {kss : List (List (Call R))} {cur : Nat → Option (Call R)}
  {made : Nat → List (Call R)}

theorem Running.prog (h : Running N dims init c0 progs c ts layers kss cur made) {i : Nat} {t : Thread R} (hi : ts[i]? = some t) :
    ∃ p, progs[i]? = some p := by
  have h1 := (List.getElem?_eq_some_iff.1 hi).1
  rw [h.len] at h1
  exact ⟨_, List.getElem?_eq_getElem h1⟩

/-- A step that only looks. -/
theorem Running.silent (h : Running N dims init c0 progs c ts layers kss cur made) {i : Nat} {t : Thread R}
    (hi : ts[i]? = some t) {t' : Thread R} {o : Option (Call R)} (hpc : t'.pc.OK c kss o)
    (hrest : o.toList ++ t'.todo = (cur i).toList ++ t.todo) :
    Running N dims init c0 progs c (ts.set i t') layers kss (Function.update cur i o) made where
  shared := h.shared
  frame := h.frame
  len := by rw [List.length_set]; exact h.len
  thr := by
    intro j u p hj hp
    by_cases hij : i = j
    · subst hij
      have h1 := (List.getElem?_eq_some_iff.1 hi).1
      rw [List.getElem?_set_self h1] at hj
      cases hj
      rw [Function.update_self, hrest]
      exact ⟨hpc, (h.thr i t p hi hp).2⟩
    · rw [List.getElem?_set_ne hij] at hj
      rw [Function.update_of_ne (Ne.symm hij)]
      exact h.thr j u p hj hp
  own := h.own
  mem := h.mem

open Classical in
/-- A step by which the call of a thread takes effect. -/
theorem Running.effect (hap : NoSharing progs) (h : Running N dims init c0 progs c ts layers kss cur made) {i : Nat} {t : Thread R}
    (hi : ts[i]? = some t) {k : Call R} (hcur : cur i = some k) {f : Flow R}
    {layers' : List (List (GateObj R) × List (Option (Block R)))} {kss' : List (List (Call R))} {pc' : Pc R}
    (hsh : Shared N dims init { c with flow := f } layers' kss') (hpc : pc'.OK { c with flow := f } kss' none)
    (hfil : ∀ r, kss'.flatten.filter (fun k => k.touches r) =
      kss.flatten.filter (fun k => k.touches r) ++ [k].filter fun k => k.touches r)
    (hmem : ∀ k' ∈ kss'.flatten, k' ∈ kss.flatten ∨ k' = k)
    (hidle : ∀ a (q : Int) j, (∀ r : Nat, q = r → ¬ k.touches r) → IdleAt c a q j → IdleAt { c with flow := f } a q j)
    (hlater : ∀ (q : Int) a, (∀ r : Nat, q = r → ¬ k.touches r) → Later kss q a → Later kss' q a) :
    Running N dims init c0 progs { c with flow := f } (ts.set i { pc := pc', todo := t.todo }) layers' kss'
      (Function.update cur i none) (Function.update made i (made i ++ [k])) := by
  obtain ⟨p, hp⟩ := h.prog hi
  have hki : k ∈ p := by
    rw [← (h.thr i t p hi hp).2, hcur]
    simp
  refine ⟨hsh, ?_, by rw [List.length_set]; exact h.len, ?_, ?_, ?_⟩
  · obtain ⟨f0, rfl⟩ := h.frame
    exact ⟨f, rfl⟩
  · intro j u p' hj hp'
    by_cases hij : i = j
    · subst hij
      have h1 := (List.getElem?_eq_some_iff.1 hi).1
      rw [List.getElem?_set_self h1] at hj
      cases hj
      rw [Function.update_self, Function.update_self]
      refine ⟨hpc, ?_⟩
      have := (h.thr i t p' hi hp').2
      rw [hcur] at this
      simpa using this
    · rw [List.getElem?_set_ne hij] at hj
      rw [Function.update_of_ne (Ne.symm hij), Function.update_of_ne (Ne.symm hij)]
      obtain ⟨h1, h2⟩ := h.thr j u p' hj hp'
      have apart : ∀ k', cur j = some k' → ∀ q : Int, (∀ r : Nat, k'.touches r ↔ q = r) → ∀ r : Nat, q = r → ¬ k.touches r := by
        intro k' hk' q hq r hr ht
        have : k' ∈ p' := by rw [← h2, hk']; simp
        exact hap.ne hp hp' hij hki this ht ((hq r).2 hr)
      exact ⟨h1.keep (fun k' hk' a q j' hq => hidle a q j' (apart k' hk' q hq))
        (fun k' hk' q a hq => hlater q a (apart k' hk' q hq)), h2⟩
  · intro j p' r hp' hr
    rw [hfil]
    by_cases hij : i = j
    · subst hij
      rw [Function.update_self, List.filter_append, h.own i p' r hp' hr]
    · rw [Function.update_of_ne (Ne.symm hij), h.own j p' r hp' hr]
      obtain ⟨k', hk', ht⟩ := hr
      have : ¬ k.touches r := hap.ne hp' hp (Ne.symm hij) hk' hki ht
      simp [this]
  · intro k' hk'
    rcases hmem k' hk' with h1 | h1
    · exact h.mem k' h1
    · rw [h1]
      exact ⟨p, List.mem_of_getElem? hp, hki⟩

/-! ### One step -/

/-- A layer with an identity in it is not the first one. -/
theorem Shared.idle (h : Shared N dims init c layers kss) {a i : Nat} {q : Int} (hi : IdleAt c a q i) :
    ∃ (r d b : Nat) (l1 l2 : List (List (GateObj R) × List (Option (Block R)))) (l : List (GateObj R) × List (Option (Block R)))
      (k1 k2 : List (List (Call R))) (ks : List (Call R)), q = r ∧ a = b + 1 ∧ l1.length = b ∧ k1.length = b ∧
      layers = l1 ++ l :: l2 ∧ kss = k1 ++ ks :: k2 ∧ l.1[i]? = some (.ident r d) := by
  obtain ⟨r, d, m, rfl, hm, hmi⟩ := hi
  rw [h.unm.moments] at hm
  cases a with
  | zero =>
    rw [List.getElem?_cons_zero] at hm
    cases hm
    have := (initOps_isInit dims init _ (List.mem_of_getElem? hmi)).1
    cases this
  | succ b =>
    rw [List.getElem?_cons_succ, List.getElem?_map, Option.map_eq_some_iff] at hm
    obtain ⟨l, hl, rfl⟩ := hm
    have hb := (List.getElem?_eq_some_iff.1 hl).1
    have hlen := h.made.length_eq
    have hb' : b < kss.length := by omega
    have e1 : layers = layers.take b ++ l :: layers.drop (b + 1) := by
      rw [← (List.getElem?_eq_some_iff.1 hl).2, ← List.drop_eq_getElem_cons hb, List.take_append_drop]
    have e2 : kss = kss.take b ++ kss[b] :: kss.drop (b + 1) := by
      rw [← List.drop_eq_getElem_cons hb', List.take_append_drop]
    exact ⟨r, d, b, layers.take b, layers.drop (b + 1), l, kss.take b, kss.drop (b + 1), kss[b], rfl, rfl,
      by rw [List.length_take]; omega, by rw [List.length_take]; omega, e1, e2, hmi⟩

open Classical in
theorem Running.step [Nontrivial R] (hN : N.Sized) (h2 : ∀ d ∈ dims, 2 ≤ d) (hap : NoSharing progs)
    (hv : ∀ p ∈ progs, ∀ k ∈ p, k.Valid dims) (h : Running N dims init c0 progs c ts layers kss cur made) (i : Nat) :
    ∃ layers' kss' cur' made', Running N dims init c0 progs (stepThread (c, ts) i).1 (stepThread (c, ts) i).2
      layers' kss' cur' made' ∧ ∀ j, made j <+: made' j := by
  cases hi : ts[i]? with
  | none =>
    simp only [stepThread, hi]
    exact ⟨layers, kss, cur, made, h, fun _ => List.prefix_rfl⟩
  | some t =>
    obtain ⟨p, hp⟩ := h.prog hi
    obtain ⟨hok, hmade⟩ := h.thr i t p hi hp
    have hvc : ∀ k, cur i = some k → k.Valid dims := by
      intro k hk
      refine hv p (List.mem_of_getElem? hp) k ?_
      rw [← hmade, hk]; simp
    simp only [stepThread, hi]
    obtain ⟨pc, todo⟩ := t
    have silent : ∀ pc' : Pc R, pc'.OK c kss (cur i) → ∃ layers' kss' cur' made',
        Running N dims init c0 progs { c with flow := c.flow } (ts.set i { pc := pc', todo := todo }) layers' kss' cur' made' ∧
          ∀ j, made j <+: made' j :=
      fun pc' h' => ⟨_, _, _, _, h.silent hi (t' := { pc := pc', todo := todo }) h' rfl, fun _ => List.prefix_rfl⟩
    have grow : ∀ (k : Call R) j, made j <+: Function.update made i (made i ++ [k]) j := by
      intro k j
      by_cases hj : j = i
      · subst hj; rw [Function.update_self]; exact List.prefix_append _ _
      · rw [Function.update_of_ne hj]
    cases pc with
    | idle =>
      cases todo with
      | nil =>
        exact ⟨_, _, _, _, h.silent hi (t' := { pc := .idle, todo := [] }) (o := cur i) hok rfl, fun _ => List.prefix_rfl⟩
      | cons k ks =>
        have hc : cur i = none := hok
        have hk : k.Valid dims := hv p (List.mem_of_getElem? hp) k (by rw [← hmade, hc]; simp)
        have hlay : ∃ m, c.layerOf k = .ok m := by
          have hap' := hk.applied h2
          obtain ⟨ra, lb, ub, g, hE⟩ := emits_all hN h2 h.shared.unm.npos h.shared.unm.regDims h.shared.unm.regLength (k := k)
            (fun _ => h.shared.qregs) hk.not_measureAll (by rw [hap']; simp) (by rw [hap']; simp)
          obtain ⟨f, layers', hcall, _⟩ := h.shared.unm.emit hE (.inr (.inl hap'))
          rcases callM_layerOf c k with ⟨e, h1, _⟩ | ⟨m, h1, _⟩
          · rw [h1] at hcall; cases hcall
          · exact ⟨m, h1⟩
        obtain ⟨m, hm⟩ := hlay
        simp only [Thread.step, hm]
        exact ⟨_, _, _, _, h.silent hi (t' := { pc := .begun m, todo := ks }) (o := some k) ⟨k, rfl, hm⟩ (by rw [hc]; rfl),
          fun _ => List.prefix_rfl⟩
    | begun m =>
      obtain ⟨k, hk, hm⟩ := hok
      simp only [Thread.step, Pc.step, h.shared.unm.notAll, Bool.false_eq_true, if_false]
      cases hf : m.find? (·.isHXZ) with
      | none => exact silent (.appending m) ⟨k, hk, hm⟩
      | some g =>
        have hgm := List.find?_some hf
        obtain ⟨q, hq⟩ : ∃ q, g.actingOn = .ok (.int q) := by
          cases g <;> first | exact ⟨_, rfl⟩ | cases hgm
        simp only [hq]
        exact silent (.choosing m g q) ⟨k, hk, hm, hf, hq⟩
    | choosing m g q =>
      obtain ⟨k, hk, hj⟩ := hok
      simp only [Thread.step, Pc.step]
      refine silent (.looking m g q _) ⟨k, hk, hj, ?_⟩
      intro b ks hb hks
      have h1 := (List.getElem?_eq_some_iff.1 hks).1
      have h3 := h.shared.made.length_eq
      rw [h.shared.unm.moments] at hb
      simp at hb
      omega
    | looking m g q a =>
      obtain ⟨k, hk, hj, hl⟩ := hok
      simp only [Thread.step, Pc.step]
      by_cases hq : q ∈ identRegs (c.flow.moments.getD a [])
      · rw [if_pos hq]
        refine silent (.replacing m g q a) ⟨k, hk, hj, hl, ?_⟩
        obtain ⟨r, d, j, hr, hd⟩ := identRegs_mem hq
        cases ha : c.flow.moments[a]? with
        | none =>
          rw [List.getD_eq_getElem?_getD, ha] at hd
          simp at hd
        | some mm =>
          rw [List.getD_eq_getElem?_getD, ha] at hd
          exact ⟨j, r, d, mm, hr, ha, hd⟩
      · rw [if_neg hq]
        exact silent (.appending m) ⟨k, hk, hj.layer⟩
    | replacing m g q a =>
      obtain ⟨k, hk, hj, hl, i', hid⟩ := hok
      obtain ⟨r, d, b, l1, l2, l, k1, k2, ks, rfl, rfl, hl1, hk1, e1, e2, hli⟩ := h.shared.idle hid
      have hr : r < dims.length := touches_lt (hvc k hk) ((hj.touches r).2 rfl)
      have hqi : (r : Int) ∈ identRegs l.1 := by
        unfold identRegs
        rw [List.mem_filterMap]
        exact ⟨_, List.mem_of_getElem? hli, rfl⟩
      obtain ⟨m1, d', m2, _, _, _, em, _, _, _, hget, _⟩ := (h.shared.unm.lay l (by rw [e1]; simp)).find_ident hqi hr
      have hmom : c.flow.moments[b + 1]? = some l.1 := by
        rw [h.shared.unm.moments, e1]
        simp [hl1]
      simp only [Thread.step, Pc.step, List.getD_eq_getElem?_getD, hmom, Option.getD_some, hget 0, GateObj.isIdent, if_true]
      refine silent (.writing g r (b + 1) (0 + m1.length)) ⟨k, m, hk, hj, hl, r, d', l.1, rfl, hmom, ?_⟩
      rw [em]
      simp
    | writing g q a i' =>
      obtain ⟨k, m, hk, hj, hl, hid⟩ := hok
      obtain ⟨r, d, b, l1, l2, l, k1, k2, ks, rfl, rfl, hl1, hk1, e1, e2, hli⟩ := h.shared.idle hid
      have hr : r < dims.length := touches_lt (hvc k hk) ((hj.touches r).2 rfl)
      have hmom : c.flow.moments[b + 1]? = some l.1 := by
        rw [h.shared.unm.moments, e1]
        simp [hl1]
      subst e1 e2
      obtain ⟨bs, hsh⟩ := h.shared.write hN h2 (by omega) (hvc k hk) hj.layer hj.find hj.act hli hr
      have hset : c.flow.moments.set (b + 1) (l.1.set i' g) =
          initOps dims init :: (l1 ++ (l.1.set i' g, bs) :: l2).map Prod.fst := by
        rw [h.shared.unm.moments]
        simp [← hl1, List.set_append]
      simp only [Thread.step, Pc.step, List.getD_eq_getElem?_getD, hmom, Option.getD_some]
      rw [← hset] at hsh
      have key : ∀ x ∈ k2, ∀ k' ∈ x, ¬ k'.touches r := by
        intro x hx k' hk'
        obtain ⟨j, hj', rfl⟩ := List.mem_iff_getElem.1 hx
        refine hl (b + 1 + j) k2[j] (by omega) ?_ k' hk' r rfl
        rw [List.getElem?_append_right (by omega), show b + 1 + j - k1.length = j + 1 by omega, List.getElem?_cons_succ,
          List.getElem?_eq_getElem hj']
      refine ⟨_, _, _, _, h.effect hap hi hk hsh (pc' := .idle) rfl ?_ ?_ ?_ ?_, grow k⟩
      · intro r'
        simp only [List.flatten_append, List.flatten_cons, List.filter_append, List.append_assoc]
        congr 2
        by_cases ht : k.touches r'
        · have : (k2.flatten.filter fun k => k.touches r') = [] := by
            rw [List.filter_eq_nil_iff]
            intro k' hk'
            obtain ⟨x, hx, hk'⟩ := List.mem_flatten.1 hk'
            have e := (hj.touches r').1 ht
            have : r' = r := by exact_mod_cast e.symm
            subst this
            simpa using key x hx k' hk'
          rw [this]
          simp
        · simp [ht]
      · intro k' hk'
        simp only [List.flatten_append, List.flatten_cons, List.mem_append, List.mem_singleton] at hk' ⊢
        tauto
      · rintro a' q' j hq' ⟨r', d'', mm, rfl, hmm, hj'⟩
        have hne : r' ≠ r := fun e => hq' r' rfl ((hj.touches r').2 (by rw [e]))
        by_cases ha : b + 1 = a'
        · subst ha
          rw [hmom] at hmm
          cases hmm
          refine ⟨r', d'', l.1.set i' g, rfl, ?_, ?_⟩
          · simp only
            rw [List.getElem?_set_self]
            exact (List.getElem?_eq_some_iff.1 hmom).1
          · by_cases hji : i' = j
            · subst hji
              rw [hli] at hj'
              cases hj'
              exact (hne rfl).elim
            · rw [List.getElem?_set_ne hji]
              exact hj'
        · exact ⟨r', d'', mm, rfl, by simp only; rw [List.getElem?_set_ne ha]; exact hmm, hj'⟩
      · intro q' a' hq' hlat b' x hb' hx k' hk' r' hr'
        by_cases hbb : b' = b
        · subst hbb
          rw [List.getElem?_append_right (by omega), show b' - k1.length = 0 by omega, List.getElem?_cons_zero] at hx
          cases hx
          rcases List.mem_append.1 hk' with hk' | hk'
          · refine hlat b' ks hb' ?_ k' hk' r' hr'
            rw [List.getElem?_append_right (by omega), show b' - k1.length = 0 by omega, List.getElem?_cons_zero]
          · rw [List.mem_singleton.1 hk']
            exact hq' r' hr'
        · refine hlat b' x hb' ?_ k' hk' r' hr'
          rcases Nat.lt_or_gt_of_ne hbb with hlt | hlt
          · rw [List.getElem?_append_left (by omega)] at hx ⊢
            exact hx
          · rw [List.getElem?_append_right (by omega)] at hx ⊢
            rw [show b' - k1.length = (b' - k1.length - 1) + 1 by omega, List.getElem?_cons_succ] at hx ⊢
            exact hx
    | appending m =>
      obtain ⟨k, hk, hm⟩ := hok
      obtain ⟨hmeas, bs, hsh⟩ := h.shared.append hN h2 (hvc k hk) hm
      simp only [Thread.step, Pc.step]
      refine ⟨_, _, _, _, h.effect hap hi hk hsh (pc' := .counting m 0) ⟨rfl, hmeas⟩ ?_ ?_ ?_ ?_, grow k⟩
      · intro r
        simp
      · intro k' hk'
        simpa using hk'
      · rintro a' q' j hq' ⟨r', d'', mm, rfl, hmm, hj'⟩
        refine ⟨r', d'', mm, rfl, ?_, hj'⟩
        simp only
        rw [List.getElem?_append_left (List.getElem?_eq_some_iff.1 hmm).1]
        exact hmm
      · intro q' a' hq' hlat b' x hb' hx k' hk' r' hr'
        by_cases hlt : b' < kss.length
        · rw [List.getElem?_append_left hlt] at hx
          exact hlat b' x hb' hx k' hk' r' hr'
        · rw [List.getElem?_append_right (by omega)] at hx
          have := List.mem_of_getElem? hx
          rw [List.mem_singleton.1 this, List.mem_singleton] at hk'
          rw [hk']
          exact hq' r' hr'
    | counting m j =>
      obtain ⟨hc, hm⟩ := hok
      simp only [Thread.step, Pc.step]
      cases hj : m[j]? with
      | none => exact silent .idle hc
      | some g =>
        simp only [hm g (List.mem_of_getElem? hj), Bool.false_eq_true, if_false]
        exact silent (.counting m (j + 1)) ⟨hc, hm⟩

theorem Running.steps [Nontrivial R] (hN : N.Sized) (h2 : ∀ d ∈ dims, 2 ≤ d) (hap : NoSharing progs)
    (hv : ∀ p ∈ progs, ∀ k ∈ p, k.Valid dims) (sched : List Nat)
    (h : Running N dims init c0 progs c ts layers kss cur made) :
    ∃ layers' kss' cur' made', Running N dims init c0 progs (sched.foldl stepThread (c, ts)).1
      (sched.foldl stepThread (c, ts)).2 layers' kss' cur' made' ∧ ∀ j, made j <+: made' j := by
  induction sched generalizing c ts layers kss cur made with
  | nil => exact ⟨_, _, _, _, h, fun _ => List.prefix_rfl⟩
  | cons i sched ih =>
    obtain ⟨l, k, cu, ma, h', g1⟩ := h.step hN h2 hap hv i
    obtain ⟨l', k', cu', ma', h'', g2⟩ := ih h'
    exact ⟨l', k', cu', ma', h'', fun j => (g1 j).trans (g2 j)⟩

/-- Threads on a new circuit. -/
theorem Running.start (hne : dims ≠ []) (progs : List (List (Call R))) :
    Running N dims init (freshCircuit (.list (dims.map Int.ofNat)) dims init none) progs
      (freshCircuit (.list (dims.map Int.ofNat)) dims init none) (progs.map fun l => { pc := .idle, todo := l }) [] []
      (fun _ => none) (fun _ => []) := by
  refine ⟨⟨?_, (fresh_inv N (q := .list (dims.map Int.ofNat)) none (List.length_pos_of_ne_nil hne)).unm, .nil⟩, ⟨_, rfl⟩,
    by simp, ?_, by simp, by simp⟩
  · simp only [freshCircuit, RegsArg.toRegs, Regs.seq, List.map_map]; exact List.map_id'' (fun _ => rfl) dims
  · intro i t p hi hp
    rw [List.getElem?_map, hp] at hi
    cases hi
    exact ⟨rfl, rfl⟩

theorem Running.made_prefix (h : Running N dims init c0 progs c ts layers kss cur made) {i : Nat} {p : List (Call R)}
    (hp : progs[i]? = some p) : made i <+: p := by
  have h1 := (List.getElem?_eq_some_iff.1 hp).1
  rw [← h.len] at h1
  exact ⟨_, (h.thr i _ p (List.getElem?_eq_getElem h1) hp).2⟩

/-- The calls that have taken effect, one thread's after the other's. -/
def allMade (progs : List (List (Call R))) (made : Nat → List (Call R)) : List (List (Call R)) :=
  (List.range progs.length).map made

open Classical in
/-- The circuit gives the result of the calls that have taken effect. -/
theorem Running.result [Nontrivial R] (hN : N.Sized) {B : Backend R} (hB : B.Lawful) (hne : dims ≠ [])
    (h : ValidStart (dims.map Int.ofNat) init) (hv : ∀ p ∈ progs, ∀ k ∈ p, k.Valid dims) (hap : NoSharing progs)
    (hr : Running N dims init (freshCircuit (.list (dims.map Int.ofNat)) dims init none) progs c ts layers kss cur made) :
    ((c.calls [.measureAll]).run N B).2 =
      script N B (.list (dims.map Int.ofNat)) init none ((allMade progs made).flatten ++ [.measureAll]) := by
  have h2 := ge_two_of_valid h
  obtain ⟨hnone, hval, heq⟩ := sem_carries hr.shared.made (basis (startLevels dims init))
  have hI := hr.shared.inv h2 (basis (startLevels dims init))
  have hmem : ∀ k ∈ (allMade progs made).flatten, ∃ i, ∃ hi : i < progs.length, k ∈ progs[i] ∧ k ∈ made i := by
    intro k hk
    obtain ⟨p, hp, hk⟩ := List.mem_flatten.1 hk
    obtain ⟨i, hi, rfl⟩ := List.mem_map.1 hp
    rw [List.mem_range] at hi
    exact ⟨i, hi, (hr.made_prefix (List.getElem?_eq_getElem hi)).subset hk, hk⟩
  have hval' : ∀ k ∈ (allMade progs made).flatten, k.Valid dims := by
    intro k hk
    obtain ⟨i, hi, h1, _⟩ := hmem k hk
    exact hv _ (List.getElem_mem hi) k h1
  -- the result of the calls in the order in which they took effect
  have hrun : ((c.calls [.measureAll]).run N B).2 =
      script N B (.list (dims.map Int.ofNat)) init none (kss.flatten ++ [.measureAll]) := by
    obtain ⟨w, hw, hvec, hout⟩ := hI.run_measured hN h2 h fun k hk => by rw [(hval k hk).applied h2]; simp
    rw [script_valid hN hB hne h (by simp) hval []]
    obtain ⟨f, hf⟩ := hr.frame
    have : (c.calls [.measureAll]).runResult N B =
        .ok (listing (format dims none) dims (stateAfter N dims init kss.flatten)) := by
      rw [runResult_backend hB]
      unfold Circuit.runResult
      rw [hw, hout, hf]
      simp only
      rw [fresh_output, ← finalState_valid (N := N) (init := init) h2 hval]
      exact output_vec hvec _ (format_base (by simp))
    unfold Circuit.run
    rw [this]
  rw [hrun]
  refine C70_order_per_register hN hB hne h hval hval' fun r _ => ?_
  by_cases hown : ∃ p ∈ progs, ∃ k ∈ p, k.touches r
  · obtain ⟨p, hp, hk⟩ := hown
    obtain ⟨i, hi, rfl⟩ := List.mem_iff_getElem.1 hp
    have hpi := List.getElem?_eq_getElem hi
    rw [hr.own i _ r hpi hk]
    -- the others do not touch the register
    have e : List.range progs.length = List.range i ++ i :: (List.range (progs.length - (i + 1))).map (i + 1 + ·) := by
      have e1 : progs.length = (i + 1) + (progs.length - (i + 1)) := by omega
      conv_lhs => rw [e1, List.range_add, List.range_succ]
      simp
    obtain ⟨k, hkm, hkt⟩ := hk
    have flat : ∀ l : List Nat, (∀ j ∈ l, j ≠ i ∧ j < progs.length) →
        ((l.map made).flatten.filter fun k => decide (k.touches r)) = [] := by
      intro l hl
      rw [List.filter_eq_nil_iff]
      intro k' hk' ht'
      obtain ⟨p, hp, hk'⟩ := List.mem_flatten.1 hk'
      obtain ⟨j, hj, rfl⟩ := List.mem_map.1 hp
      obtain ⟨hji, hj⟩ := hl j hj
      have hpj := List.getElem?_eq_getElem hj
      exact NoSharing.ne hap hpi hpj (Ne.symm hji) hkm ((hr.made_prefix hpj).subset hk') hkt (by simpa using ht')
    unfold allMade
    rw [e, List.map_append, List.map_cons, List.flatten_append, List.flatten_cons, List.filter_append, List.filter_append,
      flat (List.range i), flat ((List.range (progs.length - (i + 1))).map (i + 1 + ·))]
    · simp
    · intro j hj
      obtain ⟨j', hj', rfl⟩ := List.mem_map.1 hj
      rw [List.mem_range] at hj'
      omega
    · intro j hj
      rw [List.mem_range] at hj
      omega
  · have none' : ∀ l : List (Call R), (∀ k ∈ l, ∃ p ∈ progs, k ∈ p) → (l.filter fun k => decide (k.touches r)) = [] := by
      intro l hl
      rw [List.filter_eq_nil_iff]
      intro k hk ht
      obtain ⟨p, hp, hkp⟩ := hl k hk
      exact hown ⟨p, hp, k, hkp, by simpa using ht⟩
    rw [none' _ hr.mem, none']
    intro k hk
    obtain ⟨i, hi, h1, _⟩ := hmem k hk
    exact ⟨_, List.getElem_mem hi, h1⟩

/-- **C80.** Threads that share a circuit but no register: whatever the schedule, once they are done, the circuit gives
the result of one thread's calls after the other's. -/
theorem C80_threads [Nontrivial R] (hN : N.Sized) {B : Backend R} (hB : B.Lawful) (hne : dims ≠ [])
    (h : ValidStart (dims.map Int.ofNat) init) (hv : ∀ p ∈ progs, ∀ k ∈ p, k.Valid dims)
    (hap : progs.Pairwise fun p p' => ∀ k ∈ p, ∀ k' ∈ p', ∀ r, ¬ (k.touches r ∧ k'.touches r))
    (hc : Circuit.new (.list (dims.map Int.ofNat)) init none = .ok c0) (sched : List Nat)
    (hdone : ∀ t ∈ (runThreads c0 progs sched).2, t.Done) :
    (((runThreads c0 progs sched).1.calls [.measureAll]).run N B).2 =
      script N B (.list (dims.map Int.ofNat)) init none (progs.flatten ++ [.measureAll]) := by
  rw [new_ok rfl h none] at hc
  injection hc with hc
  subst hc
  obtain ⟨layers, kss, cur, made, hr, _⟩ := (Running.start hne progs).steps hN (ge_two_of_valid h) hap hv sched
  change Running N dims init _ progs (runThreads _ progs sched).1 (runThreads _ progs sched).2 layers kss cur made at hr
  rw [hr.result hN hB hne h hv hap]
  have : allMade progs made = progs := by
    apply List.ext_getElem?
    intro i
    unfold allMade
    by_cases hi : i < progs.length
    · rw [List.getElem?_map, List.getElem?_range hi, List.getElem?_eq_getElem hi, Option.map_some]
      have hti := hi
      rw [← hr.len] at hti
      obtain ⟨hok, hm⟩ := hr.thr i _ _ (List.getElem?_eq_getElem hti) (List.getElem?_eq_getElem hi)
      obtain ⟨d1, d2⟩ := hdone _ (List.getElem_mem hti)
      rw [d1] at hok
      have hcur : cur i = none := hok
      rw [d2, hcur] at hm
      simpa using hm
    · rw [List.getElem?_eq_none (by simpa using hi), List.getElem?_eq_none (by simpa using hi)]
  rw [this]

/-! ### Threads finish -/

/-- How far a thread is from the end of its call. -/
def Pc.rank : Pc R → Nat
  | .idle => 0
  | .writing _ _ _ _ => 1
  | .counting m j => m.length - j + 1
  | .appending m => m.length + 2
  | .replacing m _ _ _ => m.length + 3
  | .looking m _ _ _ => m.length + 4
  | .choosing m _ _ => m.length + 5
  | .begun m => m.length + 6

/-- How far a thread is from the end of its program. -/
def Thread.rank (t : Thread R) : ℕ ×ₗ ℕ := toLex (t.todo.length, t.pc.rank)

omit [StarRing R] [DecidableEq R] [UnitaryCheck R] in
theorem Pc.step_rank (f : Flow R) {pc : Pc R} (h : pc ≠ .idle) : (pc.step f).2.rank < pc.rank := by
  cases pc with
  | idle => exact (h rfl).elim
  | begun m =>
    simp only [Pc.step]
    split
    · simp [Pc.rank]
    · split
      · simp [Pc.rank]
      · split <;> simp [Pc.rank]
  | choosing m g q => simp [Pc.step, Pc.rank]
  | looking m g q a => simp only [Pc.step]; split <;> simp [Pc.rank]
  | replacing m g q a =>
    simp only [Pc.step]
    split
    · split <;> simp [Pc.rank]
    · simp [Pc.rank]
  | writing g q a i => simp [Pc.step, Pc.rank]
  | appending m => simp [Pc.step, Pc.rank]
  | counting m j =>
    simp only [Pc.step]
    cases hj : m[j]? with
    | none => simp [Pc.rank]
    | some g =>
      have := (List.getElem?_eq_some_iff.1 hj).1
      simp only [Pc.rank]
      omega

omit [StarRing R] [DecidableEq R] [UnitaryCheck R] in
theorem Thread.step_rank (c : Circuit R) {t : Thread R} (h : ¬ t.Done) : (t.step c).2.rank < t.rank := by
  obtain ⟨pc, todo⟩ := t
  have busy : ∀ pc : Pc R, pc ≠ .idle → (Thread.step c { pc := pc, todo := todo }).2 = { pc := (pc.step c.flow).2, todo := todo } := by
    intro pc h
    cases pc <;> first | rfl | exact (h rfl).elim
  unfold Thread.rank
  rw [Prod.Lex.toLex_lt_toLex]
  by_cases hpc : pc = .idle
  · subst hpc
    cases todo with
    | nil => exact (h ⟨rfl, rfl⟩).elim
    | cons k ks =>
      left
      simp only [Thread.step]
      cases c.layerOf k <;> simp
  · rw [busy pc hpc]
    exact .inr ⟨rfl, Pc.step_rank _ hpc⟩

omit [StarRing R] [DecidableEq R] [UnitaryCheck R] in
theorem Thread.step_done (c : Circuit R) {t : Thread R} (h : t.Done) : t.step c = (c, t) := by
  obtain ⟨pc, todo⟩ := t
  obtain ⟨h1, h2⟩ := h
  subst h1 h2
  rfl

omit [StarRing R] [DecidableEq R] [UnitaryCheck R] in
theorem stepThread_length (s : Circuit R × List (Thread R)) (i : Nat) : (stepThread s i).2.length = s.2.length := by
  unfold stepThread
  split <;> simp

omit [StarRing R] [DecidableEq R] [UnitaryCheck R] in
theorem stepThread_ne (s : Circuit R × List (Thread R)) {i j : Nat} (h : j ≠ i) : (stepThread s j).2[i]? = s.2[i]? := by
  unfold stepThread
  split
  · rfl
  · exact List.getElem?_set_ne h

omit [StarRing R] [DecidableEq R] [UnitaryCheck R] in
theorem stepThread_self (s : Circuit R × List (Thread R)) {i : Nat} {t : Thread R} (h : s.2[i]? = some t) :
    (stepThread s i).2[i]? = some (t.step s.1).2 := by
  unfold stepThread
  rw [h]
  exact List.getElem?_set_self (List.getElem?_eq_some_iff.1 h).1

omit [StarRing R] [DecidableEq R] [UnitaryCheck R] in
/-- **C80.** No thread waits for another: in every schedule that never forgets a thread, all threads finish. -/
theorem C80_finishes (c : Circuit R) (progs : List (List (Call R))) (s : Nat → Nat)
    (hfair : ∀ i < progs.length, ∀ n, ∃ m, n ≤ m ∧ s m = i) :
    ∃ n, ∀ m, n ≤ m → ∀ t ∈ (runThreads c progs ((List.range m).map s)).2, t.Done := by
  obtain ⟨st, hst⟩ : ∃ st : Nat → Circuit R × List (Thread R), ∀ n, st n = runThreads c progs ((List.range n).map s) :=
    ⟨_, fun _ => rfl⟩
  have hsucc : ∀ n, st (n + 1) = stepThread (st n) (s n) := by
    intro n
    rw [hst, hst, List.range_succ, List.map_append]
    simp [runThreads]
  have hlen : ∀ n, (st n).2.length = progs.length := by
    intro n
    induction n with
    | zero => rw [hst]; simp [runThreads]
    | succ n ih => rw [hsucc, stepThread_length, ih]
  have stable : ∀ (i n : Nat) (t : Thread R), (st n).2[i]? = some t → t.Done → ∀ k, (st (n + k)).2[i]? = some t := by
    intro i n t ht hd k
    induction k with
    | zero => exact ht
    | succ k ih =>
      rw [show n + (k + 1) = (n + k) + 1 by omega, hsucc]
      by_cases hs : s (n + k) = i
      · rw [hs, stepThread_self _ ih, Thread.step_done _ hd]
      · rw [stepThread_ne _ hs, ih]
  have key : ∀ i < progs.length, ∀ (μ : ℕ ×ₗ ℕ) (n : Nat) (t : Thread R), (st n).2[i]? = some t → t.rank = μ →
      ∃ m t', n ≤ m ∧ (st m).2[i]? = some t' ∧ t'.Done := by
    intro i hi μ
    induction μ using WellFoundedLT.induction with
    | ind μ ih =>
      intro n t ht hμ
      by_cases hd : t.Done
      · exact ⟨n, t, le_refl _, ht, hd⟩
      · -- the next step of the thread
        have hex : ∃ k, s (n + k) = i := by
          obtain ⟨m, hm, hs⟩ := hfair i hi n
          exact ⟨m - n, by rw [show n + (m - n) = m by omega]; exact hs⟩
        classical
        have hk := Nat.find_spec hex
        have hmin : ∀ j < Nat.find hex, s (n + j) ≠ i := fun j hj => Nat.find_min hex hj
        generalize Nat.find hex = k at hk hmin
        have same : ∀ j ≤ k, (st (n + j)).2[i]? = some t := by
          intro j hj
          induction j with
          | zero => exact ht
          | succ j ihj =>
            rw [show n + (j + 1) = (n + j) + 1 by omega, hsucc, stepThread_ne _ (hmin j (by omega))]
            exact ihj (by omega)
        have hnext : (st (n + k + 1)).2[i]? = some (t.step (st (n + k)).1).2 := by
          rw [hsucc, hk]
          exact stepThread_self _ (same k (le_refl _))
        obtain ⟨m, t', hm, h1, h2⟩ := ih _ (by rw [← hμ]; exact Thread.step_rank (st (n + k)).1 hd) _ _ hnext rfl
        exact ⟨m, t', by omega, h1, h2⟩
  have each : ∀ i, ∃ n, i < progs.length → ∃ t, (st n).2[i]? = some t ∧ t.Done := by
    intro i
    by_cases hi : i < progs.length
    · have h0 : (st 0).2[i]? = some ((st 0).2[i]'(by rw [hlen]; exact hi)) := List.getElem?_eq_getElem _
      obtain ⟨m, t', _, h1, h2⟩ := key i hi _ 0 _ h0 rfl
      exact ⟨m, fun _ => ⟨t', h1, h2⟩⟩
    · exact ⟨0, fun h => (hi h).elim⟩
  choose F hF using each
  refine ⟨(Finset.range progs.length).sup F, fun m hm t ht => ?_⟩
  rw [← hst] at ht
  obtain ⟨i, hi, rfl⟩ := List.mem_iff_getElem.1 ht
  have hi' : i < progs.length := by rw [← hlen m]; exact hi
  obtain ⟨t', h1, h2⟩ := hF i hi'
  have hle : F i ≤ m := le_trans (Finset.le_sup (f := F) (Finset.mem_range.2 hi')) hm
  have := stable i _ t' h1 h2 (m - F i)
  rw [show F i + (m - F i) = m by omega, List.getElem?_eq_getElem hi] at this
  injection this with this
  rw [this]
  exact h2

/-! ### One thread -/

/-- A thread alone on a circuit, `n` steps. -/
def Thread.many (s : Circuit R × Thread R) : Nat → Circuit R × Thread R
  | 0 => s
  | n + 1 => Thread.many (s.2.step s.1) n

omit [StarRing R] [DecidableEq R] [UnitaryCheck R] in
theorem Thread.many_add (s : Circuit R × Thread R) (a b : Nat) : Thread.many s (a + b) = Thread.many (Thread.many s a) b := by
  induction a generalizing s with
  | zero => rw [Nat.zero_add]; rfl
  | succ a ih => rw [Nat.succ_add]; exact ih _

omit [StarRing R] [DecidableEq R] [UnitaryCheck R] in
theorem runThreads_one (c : Circuit R) (ks : List (Call R)) (n : Nat) :
    runThreads c [ks] (List.replicate n 0) = ((Thread.many (c, { pc := .idle, todo := ks }) n).1,
      [(Thread.many (c, { pc := .idle, todo := ks }) n).2]) := by
  have : ∀ (n : Nat) (s : Circuit R × Thread R), (List.replicate n 0).foldl stepThread (s.1, [s.2]) =
      ((Thread.many s n).1, [(Thread.many s n).2]) := by
    intro n
    induction n with
    | zero => intro s; rfl
    | succ n ih => intro s; exact ih (s.2.step s.1)
  exact this n (c, { pc := .idle, todo := ks })

omit [StarRing R] [DecidableEq R] [UnitaryCheck R] in
theorem Thread.count (c : Circuit R) (m : List (GateObj R)) (ks : List (Call R)) (mo : List (List (GateObj R))) :
    ∀ (rest : List (GateObj R)) (j : Nat) (mc : List Nat), m.drop j = rest →
    ∃ n, Thread.many ({ c with flow := { moments := mo, measCount := mc } }, { pc := .counting m j, todo := ks }) n =
      ({ c with flow := { moments := mo, measCount :=
          (rest.zipIdx j).foldl (fun mc gi => if gi.1.isMeas then mc.set gi.2 1 else mc) mc } }, { pc := .idle, todo := ks }) := by
  intro rest
  induction rest with
  | nil =>
    intro j mc h
    have : m[j]? = none := by rw [List.getElem?_eq_none_iff]; exact List.drop_eq_nil_iff.1 h
    refine ⟨1, ?_⟩
    simp [Thread.many, Thread.step, Pc.step, this]
  | cons g rest ih =>
    intro j mc h
    have hj : m[j]? = some g := by
      rw [← List.head?_drop, h]; rfl
    have hd : m.drop (j + 1) = rest := by
      rw [← List.tail_drop, h]; rfl
    obtain ⟨n, hn⟩ := ih (j + 1) (if g.isMeas then mc.set j 1 else mc) hd
    refine ⟨n + 1, ?_⟩
    rw [List.zipIdx_cons, List.foldl_cons, ← hn]
    simp only [Thread.many, Thread.step, Pc.step, hj]
    cases g.isMeas <;> rfl

omit [StarRing R] [DecidableEq R] [UnitaryCheck R] in
theorem Thread.append (c : Circuit R) (m : List (GateObj R)) (ks : List (Call R)) :
    ∃ n, Thread.many (c, { pc := .appending m, todo := ks }) n =
      ({ c with flow := c.flow.append m }, { pc := .idle, todo := ks }) := by
  obtain ⟨n, hn⟩ := Thread.count c m ks (c.flow.moments ++ [m]) m 0 c.flow.measCount rfl
  exact ⟨n + 1, hn⟩

omit [StarRing R] [DecidableEq R] [UnitaryCheck R] in
theorem Thread.call (c : Circuit R) (hne : c.flow.moments ≠ []) (k : Call R) (ks : List (Call R)) :
    (∃ n, Thread.many (c, { pc := .idle, todo := k :: ks }) n = ((c.call k).1, { pc := .idle, todo := ks })) ∧
      (c.call k).1.flow.moments ≠ [] := by
  cases hm : c.layerOf k with
  | error e =>
    have hcall : (c.call k).1 = c := by
      rcases callM_layerOf c k with ⟨e, h1, _⟩ | ⟨m, h1, _⟩
      · rw [Circuit.call, h1]
      · rw [hm] at h1; cases h1
    rw [hcall]
    exact ⟨⟨1, by simp [Thread.many, Thread.step, hm]⟩, hne⟩
  | ok m =>
    -- what the flow does with the layer
    have body : ∃ f, ((∃ b, c.flow.populate m = .ok (f, b)) ∨ f = c.flow ∧ ∃ e, c.flow.populate m = .error e) ∧ f.moments ≠ [] ∧
        ∃ n, Thread.many (c, { pc := .begun m, todo := ks }) n = ({ c with flow := f }, { pc := .idle, todo := ks }) := by
      obtain ⟨last, hl⟩ : ∃ last, c.flow.moments.getLast? = some last := ⟨_, List.getLast?_eq_some_getLast hne⟩
      have hlast : c.flow.moments.getD (c.flow.moments.length - 1) [] = last := by
        rw [List.getD_eq_getElem?_getD, ← List.getLast?_eq_getElem?, hl]; rfl
      have app : ∀ pc : Pc R, (pc.step c.flow) = (c.flow, .appending m) → pc ≠ .idle →
          ∃ n, Thread.many (c, { pc := pc, todo := ks }) n =
            ({ c with flow := c.flow.append m }, { pc := .idle, todo := ks }) := by
        intro pc hs hi
        obtain ⟨n, hn⟩ := Thread.append c m ks
        refine ⟨n + 1, ?_⟩
        rw [← hn]
        have : Thread.step c { pc := pc, todo := ks } = (c, { pc := .appending m, todo := ks }) := by
          cases pc <;> first | exact (hi rfl).elim | simp [Thread.step, hs]
        simp [Thread.many, this]
      by_cases hall : c.flow.measCount.all (· ≠ 0) = true
      · refine ⟨c.flow, .inl ⟨false, populate_measured _ _ hne hall⟩, hne, 1, ?_⟩
        simp only [Thread.many, Thread.step, Pc.step, hall, if_true]
      · have hall' : c.flow.measCount.all (· ≠ 0) = false := by simpa using hall
        cases hf : m.find? (·.isHXZ) with
        | none =>
          refine ⟨_, .inl ⟨_, populate_plain _ m last hl hall' hf⟩, by simp [Flow.append], app _ ?_ (by simp)⟩
          simp only [Pc.step, hall', Bool.false_eq_true, if_false, hf]
        | some g =>
          have hgm := List.find?_some hf
          obtain ⟨q, hq⟩ : ∃ q, g.actingOn = .ok (.int q) := by
            cases g <;> first | exact ⟨_, rfl⟩ | cases hgm
          have s2 : ∀ n, Thread.many (c, { pc := .begun m, todo := ks }) (2 + n) =
              Thread.many (c, { pc := .looking m g q (c.flow.moments.length - 1), todo := ks }) n := by
            intro n
            rw [Thread.many_add]
            simp only [Thread.many, Thread.step, Pc.step, hall', Bool.false_eq_true, if_false, hf, hq]
          by_cases hid : q ∈ identRegs last
          · have s3 : ∀ n, Thread.many (c, { pc := .begun m, todo := ks }) (3 + n) =
                Thread.many (c, { pc := .replacing m g q (c.flow.moments.length - 1), todo := ks }) n := by
              intro n
              rw [show 3 + n = 2 + (1 + n) by omega, s2, Thread.many_add]
              simp only [Thread.many, Thread.step, Pc.step, hlast, if_pos hid]
            have hpop : c.flow.populate m = (do
                let (last', added) ← replaceIgate last q g
                if added then .ok ({ c.flow with moments := c.flow.moments.dropLast ++ [last'] }, true)
                else .ok (c.flow.append m, true)) := by
              unfold Flow.populate
              simp only [hl, hall', Bool.false_eq_true, if_false, hf, hq, bind, Except.bind]
              simp [hid]
            have bad : (∀ p, getQregMoment q last 0 ≠ .ok (some p)) → Thread.many (c, { pc := .begun m, todo := ks }) (3 + 1) =
                (c, { pc := .idle, todo := ks }) := by
              intro hp
              rw [s3]
              simp only [Thread.many, Thread.step, Pc.step, hlast]
              rcases hr : getQregMoment q last 0 with e | (_ | p)
              · rfl
              · rfl
              · exact (hp p hr).elim
            rcases hr : getQregMoment q last 0 with e | (_ | ⟨g', j⟩)
            · refine ⟨c.flow, .inr ⟨rfl, e, ?_⟩, hne, _, bad (by simp [hr])⟩
              rw [hpop]
              simp [replaceIgate, hr, bind, Except.bind]
            · refine ⟨c.flow, .inr ⟨rfl, .type, ?_⟩, hne, _, bad (by simp [hr])⟩
              rw [hpop]
              simp [replaceIgate, hr, bind, Except.bind]
            · cases hg' : g'.isIdent with
              | true =>
                refine ⟨{ c.flow with moments := c.flow.moments.dropLast ++ [last.set j g] }, .inl ⟨true, ?_⟩, by simp, 3 + 2, ?_⟩
                · rw [hpop]
                  simp [replaceIgate, hr, hg', bind, Except.bind]
                · rw [s3]
                  simp only [Thread.many, Thread.step, Pc.step, hlast, hr, hg', if_true]
                  have : c.flow.moments.set (c.flow.moments.length - 1) (last.set j g) =
                      c.flow.moments.dropLast ++ [last.set j g] := by
                    obtain ⟨pre, x, e⟩ : ∃ pre x, c.flow.moments = pre ++ [x] :=
                      ⟨_, _, (List.dropLast_append_getLast hne).symm⟩
                    rw [e]
                    simp
                  rw [this]
              | false =>
                obtain ⟨n, hn⟩ := app (.replacing m g q (c.flow.moments.length - 1))
                  (by simp only [Pc.step, hlast, hr, hg', Bool.false_eq_true, if_false]) (by simp)
                refine ⟨c.flow.append m, .inl ⟨true, ?_⟩, by simp [Flow.append], 3 + n, by rw [s3, hn]⟩
                rw [hpop]
                simp [replaceIgate, hr, hg', bind, Except.bind]
          · obtain ⟨n, hn⟩ := app (.looking m g q (c.flow.moments.length - 1))
              (by simp only [Pc.step, hlast, if_neg hid]) (by simp)
            exact ⟨_, .inl ⟨_, populate_new _ m last hl hall' g hf q hq hid⟩, by simp [Flow.append], 2 + n, by rw [s2, hn]⟩
    obtain ⟨f, hpop, hfne, n, hn⟩ := body
    have hcall : (c.call k).1 = { c with flow := f } := by
      rcases callM_layerOf c k with ⟨e, h1, h3⟩ | ⟨m', h1, ⟨e, h3, h4⟩ | ⟨f', b1, b2, h3, h4⟩⟩
      · rw [hm] at h3; cases h3
      · rw [hm] at h1; cases h1
        rcases hpop with ⟨b, hpop⟩ | ⟨rfl, _⟩
        · rw [hpop] at h4; cases h4
        · rw [Circuit.call, h3]
      · rw [hm] at h1; cases h1
        rcases hpop with ⟨b, hpop⟩ | ⟨_, _, hpop⟩
        · rw [hpop] at h4; cases h4
          rw [Circuit.call, h3]
        · rw [hpop] at h4; cases h4
    rw [hcall]
    refine ⟨⟨n + 1, ?_⟩, hfne⟩
    rw [← hn]
    simp [Thread.many, Thread.step, hm]

omit [StarRing R] [DecidableEq R] [UnitaryCheck R] in
/-- **C80.** A thread that has a circuit to itself does what its calls do one after the other. -/
theorem C80_alone {q : RegsArg} {out : Option Output} (hc : Circuit.new q init out = .ok c) (ks : List (Call R)) :
    ∃ n, runThreads c [ks] (List.replicate n 0) = (c.calls ks, [{ pc := .idle, todo := [] }]) := by
  have hne : c.flow.moments ≠ [] := by
    obtain ⟨dims, _, _, rfl⟩ := new_fresh hc
    simp [freshCircuit]
  clear hc
  have : ∃ n, Thread.many (c, { pc := .idle, todo := ks }) n = (c.calls ks, { pc := .idle, todo := [] }) := by
    induction ks generalizing c with
    | nil => exact ⟨0, rfl⟩
    | cons k ks ih =>
      obtain ⟨⟨n, hn⟩, hne'⟩ := Thread.call c hne k ks
      obtain ⟨n', hn'⟩ := ih hne'
      exact ⟨n + n', by rw [Thread.many_add, hn, hn']; rfl⟩
  obtain ⟨n, hn⟩ := this
  exact ⟨n, by rw [runThreads_one, hn]⟩

/-! ### Threads on the same register -/

/-- The circuit over two qubits with one layer: the operator `g` on register 0, `x` on register 1. -/
def raceCircuit (g : GateObj R) : Circuit R :=
  { freshCircuit (.list [2, 2]) [2, 2] [] none with
    flow := { moments := [initOps [2, 2] [], [g, .x 1 2 1]], measCount := [0, 0] } }

omit [StarRing R] [DecidableEq R] [UnitaryCheck R] in
theorem race1 (t : Thread R) : [0, 0, 0, 0].foldl stepThread (freshCircuit (.list [2, 2]) [2, 2] [] none,
      [{ pc := .idle, todo := [.x 1 none 1, .x 0 none 1] }, t]) =
    (freshCircuit (.list [2, 2]) [2, 2] [] none,
      [{ pc := .appending [.ident 0 2, .x 1 2 1], todo := [.x 0 none 1] }, t]) := by
  rfl

omit [StarRing R] [DecidableEq R] [UnitaryCheck R] in
theorem race2 (t : Thread R) : [0, 0, 0, 0].foldl stepThread (freshCircuit (.list [2, 2]) [2, 2] [] none,
      [{ pc := .appending [.ident 0 2, .x 1 2 1], todo := [.x 0 none 1] }, t]) =
    (raceCircuit (.ident 0 2), [{ pc := .idle, todo := [.x 0 none 1] }, t]) := by
  rfl

omit [StarRing R] [DecidableEq R] [UnitaryCheck R] in
theorem race3 (t : Thread R) : [0, 0, 0, 0, 0].foldl stepThread (raceCircuit (.ident 0 2), [{ pc := .idle, todo := [.x 0 none 1] }, t]) =
    (raceCircuit (.ident 0 2), [{ pc := .writing (.x 0 2 1) 0 1 0, todo := [] }, t]) := by
  rfl

omit [StarRing R] [DecidableEq R] [UnitaryCheck R] in
theorem race4 (t : Thread R) : [1, 1, 1, 1, 1].foldl stepThread (raceCircuit (.ident 0 2), [t, { pc := .idle, todo := [.x 0 none 1] }]) =
    (raceCircuit (.ident 0 2), [t, { pc := .writing (.x 0 2 1) 0 1 0, todo := [] }]) := by
  rfl

omit [StarRing R] [DecidableEq R] [UnitaryCheck R] in
theorem race5 : [0, 1].foldl stepThread (raceCircuit (R := R) (.ident 0 2),
      [{ pc := .writing (.x 0 2 1) 0 1 0, todo := [] }, { pc := .writing (.x 0 2 1) 0 1 0, todo := [] }]) =
    (raceCircuit (.x 0 2 1), [{ pc := .idle, todo := [] }, { pc := .idle, todo := [] }]) := by
  rfl

omit [StarRing R] [DecidableEq R] [UnitaryCheck R] in
theorem race6 : (freshCircuit (R := R) (.list [2, 2]) [2, 2] [] none).calls [.x 1 none 1] = raceCircuit (.ident 0 2) := by
  rfl

omit [StarRing R] [DecidableEq R] [UnitaryCheck R] in
theorem race7 : (raceCircuit (R := R) (.ident 0 2)).calls [.x 0 none 1] = raceCircuit (.x 0 2 1) := by
  rfl

/-- A schedule of two threads: the first makes its first call, then both look at the circuit before either writes. -/
def raceSched : List Nat := [0, 0, 0, 0] ++ [0, 0, 0, 0] ++ [0, 0, 0, 0, 0] ++ [1, 1, 1, 1, 1] ++ [0, 1]

omit [StarRing R] [DecidableEq R] [UnitaryCheck R] in
/-- **C80.** If two threads work on the same register, a gate can get lost: the first thread calls `x(1)` and `x(0)`, the
second `x(0)`; both finish, but the circuit is that of `x(1)` and one `x(0)`. -/
theorem C80_lost (c : Circuit R) (hc : Circuit.new (.list [2, 2]) [] none = .ok c) :
    runThreads c [[.x 1 none 1, .x 0 none 1], [.x 0 none 1]] raceSched =
      (c.calls [.x 1 none 1, .x 0 none 1], [{ pc := .idle, todo := [] }, { pc := .idle, todo := [] }]) := by
  rw [show (RegsArg.list [2, 2]) = .list ([2, 2].map Int.ofNat) from rfl,
    new_ok (dims := [2, 2]) rfl (validStart_of rfl) none, Except.ok.injEq] at hc
  subst hc
  unfold runThreads raceSched
  have e : (freshCircuit (R := R) (.list ([2, 2].map Int.ofNat)) [2, 2] [] none).calls [.x 1 none 1, .x 0 none 1] =
      raceCircuit (.x 0 2 1) := by
    rw [← race7, ← race6]; rfl
  rw [e, List.foldl_append, List.foldl_append, List.foldl_append, List.foldl_append]
  refine (congrArg (fun s => [0, 1].foldl stepThread ([1, 1, 1, 1, 1].foldl stepThread ([0, 0, 0, 0, 0].foldl stepThread
    ([0, 0, 0, 0].foldl stepThread s)))) (race1 { pc := .idle, todo := [.x 0 none 1] })).trans ?_
  simp only [race2, race3, race4, race5]

theorem race_filter {ks : List (Call ℤ)} [∀ (k : Call ℤ) r, Decidable (k.touches r)]
    (hks : ks.Perm [.x 1 none 1, .x 0 none 1, .x 0 none 1]) :
    ∀ r < 2, ks.filter (fun k => decide (k.touches r)) =
    [Call.x (R := ℤ) 1 none 1, .x 0 none 1, .x 0 none 1].filter fun k => decide (k.touches r) := by
  intro r hr
  have hp := hks.filter fun k => decide (k.touches r)
  have : r = 0 ∨ r = 1 := by omega
  rcases this with rfl | rfl
  · have e : ([Call.x (R := ℤ) 1 none 1, .x 0 none 1, .x 0 none 1].filter fun k => decide (k.touches 0)) =
        List.replicate 2 (.x 0 none 1) := by simp [Call.touches, List.replicate]
    rw [e] at hp ⊢
    exact List.perm_replicate.1 hp
  · have e : ([Call.x (R := ℤ) 1 none 1, .x 0 none 1, .x 0 none 1].filter fun k => decide (k.touches 1)) =
        List.replicate 1 (.x 1 none 1) := by simp [Call.touches, List.replicate]
    rw [e] at hp ⊢
    exact List.perm_replicate.1 hp

/-- **C80.** The result is then not that of the three calls, in any order. -/
theorem C80_lost_result {c : Circuit ℤ} (hc : Circuit.new (.list [2, 2]) [] none = .ok c) :
    ∃ sched, (∀ t ∈ (runThreads c [[.x 1 none 1, .x 0 none 1], [.x 0 none 1]] sched).2, t.Done) ∧
      ∀ ks, ks.Perm [.x 1 none 1, .x 0 none 1, .x 0 none 1] →
        (((runThreads c [[.x 1 none 1, .x 0 none 1], [.x 0 none 1]] sched).1.calls [.measureAll]).run sampleN (numpyBackend ℤ)).2 ≠
          script sampleN (numpyBackend ℤ) (.list [2, 2]) [] none (ks ++ [.measureAll]) := by
  refine ⟨raceSched, ?_, ?_⟩
  · rw [C80_lost c hc]
    intro t ht
    simp only [List.mem_cons, List.not_mem_nil, or_false, or_self] at ht
    subst ht
    exact ⟨rfl, rfl⟩
  · intro ks hks
    have hval : ∀ k ∈ [Call.x (R := ℤ) 1 none 1, .x 0 none 1, .x 0 none 1], k.Valid [2, 2] := by
      simp [Call.Valid, InRange, DimOK]
    have hord := C70_order_per_register (out := none) (N := sampleN) sampleN_sized (B := numpyBackend ℤ) numpy_lawful (dims := [2, 2]) (by simp)
      (init := []) (validStart_of rfl) (ks := ks) (ks' := [.x 1 none 1, .x 0 none 1, .x 0 none 1])
      (fun k hk => hval k (hks.mem_iff.1 hk)) hval (fun r hr => by classical exact race_filter hks r hr)
    have hfew : (((runThreads c [[.x 1 none 1, .x 0 none 1], [.x 0 none 1]] raceSched).1.calls [.measureAll]).run sampleN
        (numpyBackend ℤ)).2 = script sampleN (numpyBackend ℤ) (.list [2, 2]) [] none
          ([.x 1 none 1, .x 0 none 1] ++ [.measureAll]) := by
      rw [C80_lost c hc]
      unfold script
      rw [hc]
      simp only [bind, Except.bind, Circuit.calls, List.foldl_append]
    have hdiff : script sampleN (numpyBackend ℤ) (.list [2, 2]) [] none ([.x 1 none 1, .x 0 none 1] ++ [.measureAll]) ≠
        script sampleN (numpyBackend ℤ) (.list [2, 2]) [] none ([.x 1 none 1, .x 0 none 1, .x 0 none 1] ++ [.measureAll]) := by
      decide +kernel
    rw [hfew]
    intro e
    exact hdiff (e.trans hord)

/-- Schedules that satisfy the hypotheses exist. -/
example {c : Circuit ℤ} (hc : Circuit.new (.list [2, 3]) [] none = .ok c) :
    ∃ sched, (((runThreads c [[.x 0 none 1, .x 0 none 1], [.x 1 none 2]] sched).1.calls [.measureAll]).run sampleN
        (numpyBackend ℤ)).2 =
      script sampleN (numpyBackend ℤ) (.list [2, 3]) [] none [.x 0 none 1, .x 0 none 1, .x 1 none 2, .measureAll] := by
  obtain ⟨n, hn⟩ := C80_finishes c [[.x 0 none 1, .x 0 none 1], [.x 1 none 2]] (fun n => n % 2) (by
    intro i hi n
    simp at hi
    exact ⟨2 * n + i, by omega, by omega⟩)
  refine ⟨_, C80_threads (dims := [2, 3]) (B := numpyBackend ℤ) sampleN_sized numpy_lawful (by simp) (validStart_of rfl) ?_ ?_ hc _ (hn n (le_refl _))⟩
  · simp [Call.Valid, InRange, DimOK]
  · simp only [List.pairwise_cons, List.mem_singleton, forall_eq, List.mem_cons, List.not_mem_nil, or_false, or_self, Call.touches]
    refine ⟨fun r => ?_, by simp⟩
    omega

end QuDiet
