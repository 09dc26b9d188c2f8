import Verif.Lemmas.Share
import Verif.Props.Sessions

/-!
# C67: layers as shared objects

Sessions in which the user makes `Moment`s and hands them to circuits (`Share.lean`), possibly the same object
several times. `Bench.observe` is what is seen on the shared mutable objects; `Table.observe` is what would be
seen if every hand-over copied the layer.
-/

namespace QuDiet
open Spec

variable {R : Type} [CommRing R] [StarRing R] [DecidableEq R] [UnitaryCheck R]

/-! ### Circuits and layers as values -/

/-- The caller's lists, the circuits and the layers, all as values. -/
structure Table (R : Type) where
  desk : Desk R
  layers : List (List (GateObj R))

/-- Before the first statement. -/
def Table.empty : Table R := ⟨Desk.empty, []⟩

def Table.find (t : Table R) : LayerRef → Option (List (GateObj R))
  | .made a => t.layers[a]?
  | .own i p => t.desk.circs[i]?.bind fun c => c.flow.moments[p]?

/-- A circuit after `run()` gave `r`. -/
def Circuit.ran (c : Circuit R) (r : PyM (List (Key × R))) : Circuit R :=
  { c with circuitOutput := match r with
      | .ok r => some r
      | .error _ => c.circuitOutput }

def Table.step (N : Numerics R) (B : Backend R) (t : Table R) : Action R → Sight R × Table R
  | .plain (.run i) => match t.desk.circs[i]? with
    | some c => (.plain (.result (c.runAny N B)),
        { t with desk := { t.desk with circs := t.desk.circs.set i (c.ran (c.runAny N B)) } })
    | none => (.plain .undefined, t)
  | .plain e => (.plain (t.desk.step N B e).1, { t with desk := (t.desk.step N B e).2 })
  | .layer gs => (.plain .unit, { t with layers := t.layers ++ [gs] })
  | .peekLayer a => match t.layers[a]? with
    | some gs => (.gates gs, t)
    | none => (.plain .undefined, t)
  | .hand i as => match as.mapM t.find with
    | some ms => match t.desk.circs[i]? with
      | some c => (.plain (.ret (c.feed ms).2),
          { t with desk := { t.desk with circs := t.desk.circs.set i (c.feed ms).1 } })
      | none => (.plain .undefined, t)
    | none => (.plain .undefined, t)

def Table.observe (N : Numerics R) (B : Backend R) (t : Table R) : List (Action R) → List (Sight R)
  | [] => []
  | e :: es => (t.step N B e).1 :: Table.observe N B (t.step N B e).2 es

/-! ### The simulation -/

/-- Memory and values agree, after the layers `done` have been handed over. -/
structure AgreesL (es : List (Event R)) (done : List LayerRef) (b : Bench R) (t : Table R) : Prop where
  base : Agrees es b.world t.desk
  len : b.made.length = t.layers.length
  addr : ∀ (a m : Nat), b.made[a]? = some m → m < b.world.moms.length
  inj : ∀ (a a' m : Nat), b.made[a]? = some m → b.made[a']? = some m → a = a'
  full : ∀ (a m : Nat) gs, b.made[a]? = some m → t.layers[a]? = some gs → idleIn gs = false → b.world.moms.getD m [] = gs
  fresh : ∀ (a m : Nat) gs, b.made[a]? = some m → t.layers[a]? = some gs → .made a ∉ done →
    b.world.Unref m ∧ b.world.moms.getD m [] = gs
  bound : b.world.Bound

omit [StarRing R] [DecidableEq R] [UnitaryCheck R] [CommRing R] in
theorem upd_const {i : Nat} {w w' : World R} {F : Circuit R → Circuit R} (u : Upd i w w' F) {c : Circuit R}
    (hc : w.view i = some c) : Upd i w w' fun _ => F c :=
  ⟨u.wf, u.ints, u.regs, fun j => by rw [u.view, hc]; rfl⟩

theorem agreesL_world {es es' : List (Event R)} {done : List LayerRef} {b : Bench R} {t : Table R}
    (h : AgreesL es done b t) {w' : World R} {d' : Desk R} (hb : Agrees es' w' d')
    (hk : Kept (· < b.world.moms.length) b.world w') : AgreesL es' done { b with world := w' } { t with desk := d' } := by
  refine ⟨hb, h.len, fun a m ha => lt_of_lt_of_le (h.addr a m ha) hk.len, h.inj, ?_, ?_, hk.bound h.bound⟩
  · intro a m gs ha hg hid
    have e := h.full a m gs ha hg hid
    rw [hk.full m (h.addr a m ha) (by rw [e]; exact hid), e]
  · intro a m gs ha hg hd
    obtain ⟨h1, h2⟩ := h.fresh a m gs ha hg hd
    obtain ⟨h3, h4⟩ := hk.unref m (h.addr a m ha) h1
    exact ⟨h3, (h4 (h.addr a m ha)).trans h2⟩

omit [StarRing R] [DecidableEq R] [UnitaryCheck R] in
theorem idleIn_iff (gs : List (GateObj R)) : idleIn gs = true ↔ ∃ g ∈ gs, g.isIdent = true := List.any_eq_true

omit [StarRing R] [DecidableEq R] [UnitaryCheck R] in
theorem layersMade_append (as bs : List (Action R)) : layersMade (as ++ bs) = layersMade as ++ layersMade bs := by
  simp [layersMade]

omit [StarRing R] [DecidableEq R] [UnitaryCheck R] in
theorem layersHanded_append (as bs : List (Action R)) :
    layersHanded (as ++ bs) = layersHanded as ++ layersHanded bs := by
  simp [layersHanded]

/-- Layers that were made by hand, found in memory and as values. -/
theorem find_agrees {es : List (Event R)} {done : List LayerRef} {b : Bench R} {t : Table R}
    (h : AgreesL es done b t) (as : List LayerRef) (hm : ∀ r ∈ as, ∃ a, r = .made a)
    (hd : ∀ a gs, t.layers[a]? = some gs → idleIn gs = true → .made a ∈ as → .made a ∉ done)
    (hc : ∀ a gs, t.layers[a]? = some gs → idleIn gs = true → as.count (.made a) ≤ 1) :
    match as.mapM b.find with
    | none => as.mapM t.find = none
    | some ms => as.mapM t.find = some (ms.map fun m => b.world.moms.getD m []) ∧
        (∀ m ∈ ms, ∃ a, .made a ∈ as ∧ b.made[a]? = some m) ∧
        (∀ m ∈ ms, m < b.world.moms.length ∧ (idleIn (b.world.moms.getD m []) = true → b.world.Unref m)) ∧
        (ms.filter fun m => idleIn (b.world.moms.getD m [])).Nodup := by
  induction as with
  | nil => simp
  | cons r as ih =>
    obtain ⟨a, rfl⟩ := hm r (by simp)
    have ih := ih (fun r hr => hm r (by simp [hr])) (fun a gs h1 h2 h3 => hd a gs h1 h2 (by simp [h3]))
      (fun a gs h1 h2 => le_trans (by rw [List.count_cons]; omega) (hc a gs h1 h2))
    rw [List.mapM_cons, List.mapM_cons]
    simp only [Bench.find, Table.find]
    cases ha : b.made[a]? with
    | none =>
      have : t.layers[a]? = none := by
        rw [List.getElem?_eq_none_iff] at ha ⊢
        rw [← h.len]
        exact ha
      rw [this]
      rfl
    | some m =>
      obtain ⟨gs, hg⟩ : ∃ gs, t.layers[a]? = some gs := by
        have : a < t.layers.length := by
          rw [← h.len]
          exact (List.getElem?_eq_some_iff.1 ha).1
        exact ⟨_, List.getElem?_eq_getElem this⟩
      have hcont : b.world.moms.getD m [] = gs ∧ (idleIn gs = true → b.world.Unref m) := by
        cases hid : idleIn gs with
        | true =>
          obtain ⟨h1, h2⟩ := h.fresh a m gs ha hg (hd a gs hg hid (by simp))
          exact ⟨h2, fun _ => h1⟩
        | false => exact ⟨h.full a m gs ha hg hid, by simp⟩
      rw [hg]
      cases hb : as.mapM b.find with
      | none =>
        rw [hb] at ih
        simp only [] at ih
        simp [ih]
      | some ms =>
        rw [hb] at ih
        obtain ⟨i1, i2, i3, i4⟩ := ih
        rw [i1]
        refine ⟨by rw [List.map_cons, hcont.1]; rfl, ?_, ?_, ?_⟩
        · intro x hx
          rcases List.mem_cons.1 hx with rfl | hx
          · exact ⟨a, by simp, ha⟩
          · obtain ⟨a', h1, h2⟩ := i2 x hx
            exact ⟨a', by simp [h1], h2⟩
        · intro x hx
          rcases List.mem_cons.1 hx with rfl | hx
          · exact ⟨h.addr a x ha, by rw [hcont.1]; exact hcont.2⟩
          · exact i3 x hx
        · cases hid : idleIn gs with
          | false => rw [List.filter_cons_of_neg (by simp only [hcont.1, hid]; simp)]; exact i4
          | true =>
            rw [List.filter_cons_of_pos (by simp only [hcont.1, hid])]
            refine List.nodup_cons.2 ⟨fun hx => ?_, i4⟩
            obtain ⟨a', h1, h2⟩ := i2 m (List.mem_filter.1 hx).1
            have := h.inj a a' m ha h2
            subst this
            have h3 := hc a gs hg hid
            rw [List.count_cons_self] at h3
            have h4 := List.count_pos_iff.2 h1
            omega

theorem share_step (N : Numerics R) (B : Backend R) {es past rest : List (Action R)} {e : Action R}
    (hes : es = past ++ e :: rest) (hs : Separate (plains es)) (hc : Careful es) {b : Bench R} {t : Table R}
    (h : AgreesL (plains past) (layersHanded past) b t) (ht : t.layers = layersMade past) :
    (b.step N B e).1 = (t.step N B e).1 ∧
      AgreesL (plains (past ++ [e])) (layersHanded (past ++ [e])) (b.step N B e).2 (t.step N B e).2 ∧
      (t.step N B e).2.layers = layersMade (past ++ [e]) := by
  have hlay : ∀ (a : Nat) gs, t.layers[a]? = some gs → (layersMade es)[a]? = some gs := by
    intro a gs hg
    rw [hes, layersMade_append, ← ht, List.getElem?_append_left (List.getElem?_eq_some_iff.1 hg).1, hg]
  have hpre : ∀ e' : Event R, e = .plain e' → Separate (plains past ++ [e']) := by
    rintro e' rfl
    refine hs.sublist ?_
    rw [hes]
    simp [plains]
  cases e with
  | plain e' =>
    have e1 : layersHanded (past ++ [.plain e']) = layersHanded past := by simp [layersHanded]
    have e2 : layersMade (past ++ [.plain e']) = layersMade past := by simp [layersMade]
    have e3 : plains (past ++ [.plain e']) = plains past ++ [e'] := by simp [plains]
    rw [e1, e2, e3]
    by_cases hrun : ∃ i, e' = .run i
    · obtain ⟨i, rfl⟩ := hrun
      simp only [Bench.step, Table.step]
      cases hcirc : t.desk.circs[i]? with
      | none =>
        have : ¬ i < b.world.circs.length := by
          rw [h.base.length]
          simpa using hcirc
        rw [if_neg this]
        exact ⟨rfl, agreesL_world h (h.base.mono fun e he => by simp [he]) (Kept.refl _ _), ht⟩
      | some c =>
        have hi : i < b.world.circs.length := by
          rw [h.base.length]
          exact (List.getElem?_eq_some_iff.1 hcirc).1
        rw [if_pos hi]
        obtain ⟨o, ho, hr⟩ := agrees_obj h.base hcirc
        obtain ⟨w', h1, h2⟩ := runAnyObj_sim N B h.base.wf ho
        rw [hr] at h1 h2
        have hk := keeps_runAny N B i b.world (P := (· < b.world.moms.length)) (fun _ h => h) (Nat.zero_le _)
        rw [h1] at hk
        simp only [h1]
        refine ⟨trivial, agreesL_world h ?_ hk, ht⟩
        have hv : b.world.view i = some c := by rw [view_some ho, hr]
        exact (agrees_upd h.base hcirc (upd_const h2 hv)).mono fun e he => by simp [he]
    · have eb : b.step N B (.plain e') =
          (.plain (b.world.step N B e').1, { b with world := (b.world.step N B e').2 }) := by
        cases e' <;> first | rfl | exact absurd ⟨_, rfl⟩ hrun
      have et : t.step N B (.plain e') =
          (.plain (t.desk.step N B e').1, { t with desk := (t.desk.step N B e').2 }) := by
        cases e' <;> first | rfl | exact absurd ⟨_, rfl⟩ hrun
      rw [eb, et]
      obtain ⟨h1, h2⟩ := step_agrees N B (hpre e' rfl) h.base
      exact ⟨by simp only [h1], agreesL_world h h2 (step_kept N B b.world e'), ht⟩
  | layer gs =>
    have e0 : plains (past ++ [(.layer gs : Action R)]) = plains past := by simp [plains]
    have e1 : layersHanded (past ++ [.layer gs]) = layersHanded past := by simp [layersHanded]
    have e2 : layersMade (past ++ [.layer gs]) = layersMade past ++ [gs] := by simp [layersMade]
    rw [e0, e1, e2]
    have hsame := same_newMoment h.base.wf gs
    have key : ∀ a m, (b.made ++ [b.world.moms.length])[a]? = some m →
        (b.made[a]? = some m ∧ a < t.layers.length) ∨ (a = t.layers.length ∧ m = b.world.moms.length) := by
      intro a m ha
      by_cases hlt : a < b.made.length
      · rw [List.getElem?_append_left hlt] at ha
        exact .inl ⟨ha, by rw [← h.len]; exact hlt⟩
      · have hl := (List.getElem?_eq_some_iff.1 ha).1
        simp only [List.length_append, List.length_singleton] at hl
        have : a = b.made.length := by omega
        subst this
        simp at ha
        exact .inr ⟨h.len, ha.symm⟩
    refine ⟨rfl, ⟨agrees_same h.base hsame, ?_, ?_, ?_, ?_, ?_, (kept_moment (fun _ => True) b.world gs).bound h.bound⟩, by simp only [Table.step, ht]⟩
    · simp [Bench.step, Table.step, h.len]
    · intro a m ha
      simp only [Bench.step, List.length_append, List.length_singleton]
      rcases key a m ha with ⟨h1, _⟩ | ⟨_, rfl⟩
      · have := h.addr a m h1
        omega
      · omega
    · intro a a' m ha ha'
      rcases key a m ha with ⟨h1, _⟩ | ⟨h1, rfl⟩ <;> rcases key a' _ ha' with ⟨h2, _⟩ | ⟨h2, h3⟩
      · exact h.inj a a' m h1 h2
      · have := h.addr a m h1
        omega
      · have := h.addr a' _ h2
        omega
      · rw [h1, h2]
    · intro a m gs' ha hg hid
      simp only [Bench.step, Table.step] at ha hg ⊢
      rcases key a m ha with ⟨h1, hl⟩ | ⟨rfl, rfl⟩
      · rw [List.getElem?_append_left hl] at hg
        rw [getD_append_left' (h.addr a m h1)]
        exact h.full a m gs' h1 hg hid
      · rw [getD_length]
        simpa using hg
    · intro a m gs' ha hg hd
      simp only [Bench.step, Table.step] at ha hg ⊢
      rcases key a m ha with ⟨h1, hl⟩ | ⟨rfl, rfl⟩
      · rw [List.getElem?_append_left hl] at hg
        rw [getD_append_left' (h.addr a m h1)]
        exact h.fresh a m gs' h1 hg hd
      · rw [getD_length]
        exact ⟨fun l hl hm => lt_irrefl _ (h.bound l hl _ hm), by simpa using hg⟩
  | peekLayer a =>
    have e0 : plains (past ++ [(.peekLayer a : Action R)]) = plains past := by simp [plains]
    have e1 : layersHanded (past ++ [.peekLayer a]) = layersHanded past := by simp [layersHanded]
    have e2 : layersMade (past ++ [.peekLayer a]) = layersMade past := by simp [layersMade]
    rw [e0, e1, e2]
    simp only [Bench.step, Table.step]
    cases ha : b.made[a]? with
    | none =>
      have : t.layers[a]? = none := by
        rw [List.getElem?_eq_none_iff] at ha ⊢
        rw [← h.len]
        exact ha
      rw [this]
      exact ⟨rfl, h, ht⟩
    | some m =>
      obtain ⟨gs, hg⟩ : ∃ gs, t.layers[a]? = some gs := by
        have : a < t.layers.length := by
          rw [← h.len]
          exact (List.getElem?_eq_some_iff.1 ha).1
        exact ⟨_, List.getElem?_eq_getElem this⟩
      rw [hg]
      refine ⟨?_, h, ht⟩
      simp only [Sight.gates.injEq]
      cases hid : idleIn gs with
      | false => exact h.full a m gs ha hg hid
      | true =>
        refine (h.fresh a m gs ha hg fun hd => ?_).2
        refine hc.look a gs (hlay a gs hg) ((idleIn_iff gs).1 hid) ?_ (by rw [hes]; simp)
        rw [hes, layersHanded_append]
        exact List.mem_append_left _ hd
  | hand i as =>
    have e0 : plains (past ++ [(.hand i as : Action R)]) = plains past := by simp [plains]
    have e1 : layersHanded (past ++ [.hand i as]) = layersHanded past ++ as := by simp [layersHanded]
    have e2 : layersMade (past ++ [(.hand i as : Action R)]) = layersMade past := by simp [layersMade]
    have e3 : layersHanded es = layersHanded past ++ (as ++ layersHanded rest) := by
      rw [hes, layersHanded_append]
      rfl
    rw [e0, e1, e2]
    have hcount : ∀ (a : Nat) gs, t.layers[a]? = some gs → idleIn gs = true →
        (layersHanded past).count (.made a) + as.count (.made a) ≤ 1 := by
      intro a gs hg hid
      have := hc.once a gs (hlay a gs hg) ((idleIn_iff gs).1 hid)
      rw [e3, List.count_append, List.count_append] at this
      omega
    have hf := find_agrees h as (fun r hr => hc.made r (by rw [e3]; simp [hr])) (by
      intro a gs hg hid hm hd
      have h1 := hcount a gs hg hid
      have h2 := List.count_pos_iff.2 hm
      have h3 := List.count_pos_iff.2 hd
      omega) (fun a gs hg hid => by
      have := hcount a gs hg hid
      omega)
    have weaker : AgreesL (plains past) (layersHanded past ++ as) b t :=
      ⟨h.base, h.len, h.addr, h.inj, h.full, fun a m gs ha hg hd => h.fresh a m gs ha hg fun hx => hd (by simp [hx]), h.bound⟩
    simp only [Bench.step, Table.step]
    cases hb : as.mapM b.find with
    | none =>
      rw [hb] at hf
      rw [hf]
      exact ⟨rfl, weaker, ht⟩
    | some ms =>
      rw [hb] at hf
      obtain ⟨f1, f2, f3, f4⟩ := hf
      rw [f1]
      simp only []
      cases hcirc : t.desk.circs[i]? with
      | none =>
        have : ¬ i < b.world.circs.length := by
          rw [h.base.length]
          simpa using hcirc
        rw [if_neg this]
        exact ⟨rfl, weaker, ht⟩
      | some c =>
        have hi : i < b.world.circs.length := by
          rw [h.base.length]
          exact (List.getElem?_eq_some_iff.1 hcirc).1
        rw [if_pos hi]
        obtain ⟨o, ho, hr⟩ := agrees_obj h.base hcirc
        obtain ⟨w', h1, h2⟩ := feedObj_spec ms h.base.wf ho f3 f4
        rw [hr] at h1 h2
        have hk := keeps_feed i (ms := ms) (P := fun x => x < b.world.moms.length ∧ x ∉ ms)
          (fun m hm => ⟨fun hp => hp.2 hm, (f3 m hm).1⟩) b.world (fun _ h => h.1) (le_refl _)
        rw [h1] at hk
        simp only at hk
        have hv : b.world.view i = some c := by rw [view_some ho, hr]
        have hbase := agrees_upd h.base hcirc (upd_const h2 hv)
        simp only [h1]
        refine ⟨rfl, ⟨hbase, h.len, fun a m ha => lt_of_lt_of_le (h.addr a m ha) hk.len, h.inj, ?_, ?_, hk.bound h.bound⟩, ht⟩
        · intro a m gs ha hg hid
          have e := h.full a m gs ha hg hid
          rw [hk.full m (h.addr a m ha) (by rw [e]; exact hid), e]
        · intro a m gs ha hg hd
          obtain ⟨g1, g2⟩ := h.fresh a m gs ha hg fun hx => hd (by simp [hx])
          have hnm : m ∉ ms := by
            intro hm
            obtain ⟨a', h3, h4⟩ := f2 m hm
            rw [h.inj a a' m ha h4] at hd
            exact hd (by simp [h3])
          obtain ⟨g3, g4⟩ := hk.unref m ⟨h.addr a m ha, hnm⟩ g1
          exact ⟨g3, (g4 (h.addr a m ha)).trans g2⟩

theorem share_observe (N : Numerics R) (B : Backend R) {es : List (Action R)} (hs : Separate (plains es))
    (hc : Careful es) (rest past : List (Action R)) (hes : es = past ++ rest) {b : Bench R} {t : Table R}
    (h : AgreesL (plains past) (layersHanded past) b t) (ht : t.layers = layersMade past) :
    b.observe N B rest = t.observe N B rest := by
  induction rest generalizing past b t with
  | nil => rfl
  | cons e rest ih =>
    obtain ⟨h1, h2, h3⟩ := share_step N B hes hs hc h ht
    unfold Bench.observe Table.observe
    rw [h1, ih (past ++ [e]) (by simp [hes]) h2 h3]

/-- **C67.** As long as the user is careful with layers (they hand over layers of their own only, and a layer
with an idle register at most once), everything seen in a session is what would be seen if every hand-over
copied the layer and every circuit were a value of its own. -/
theorem C67_layers_as_values (N : Numerics R) (B : Backend R) {es : List (Action R)} (hs : Separate (plains es))
    (hc : Careful es) : Bench.empty.observe N B es = Table.empty.observe N B es := by
  refine share_observe N B hs hc es [] rfl ⟨⟨⟨?_, ?_, ?_, ?_, ?_⟩, rfl, rfl, ?_, ?_, ?_⟩, rfl, ?_, ?_, ?_, ?_, ?_⟩ rfl <;>
    simp [Bench.empty, Table.empty, World.empty, Desk.empty, World.view, World.regs, World.Bound]

/-! ### Isolation -/

/-- Statements about the circuit at address `i`, and statements that are not about one circuit. -/
def Action.keep (i : Nat) : Action R → Bool
  | .plain e => e.keep i
  | .hand j _ => j == i
  | _ => true

/-- What is seen of the statements with `p`. -/
def seenL (N : Numerics R) (B : Backend R) (p : Action R → Bool) (es : List (Action R)) : List (Sight R) :=
  ((es.zip (Bench.empty.observe N B es)).filter fun x => p x.1).map Prod.snd

theorem Careful.filter {es : List (Action R)} (h : Careful es) (i : Nat) : Careful (es.filter (Action.keep i)) := by
  have e1 : layersMade (es.filter (Action.keep i)) = layersMade es := by
    unfold layersMade
    rw [List.filterMap_filter]
    congr 1
    funext e
    cases e with
    | plain e => simp
    | layer gs => simp [Action.keep]
    | peekLayer a => simp
    | hand j as => simp
  have e2 : (layersHanded (es.filter (Action.keep i))).Sublist (layersHanded es) := by
    unfold layersHanded
    exact List.filter_sublist.flatMap _
  refine ⟨fun r hr => h.made r (e2.subset hr), fun a gs hg hid => ?_, fun a gs hg hid hm hl => ?_⟩
  · rw [e1] at hg
    exact (e2.count_le _).trans (h.once a gs hg hid)
  · rw [e1] at hg
    exact h.look a gs hg hid (e2.subset hm) (List.mem_filter.1 hl).1

theorem table_kept (N : Numerics R) (B : Backend R) (i : Nat) (e : Action R) {t t' : Table R}
    (h1 : t.desk.ints = t'.desk.ints) (h2 : t.desk.circs.length = t'.desk.circs.length)
    (h3 : t.desk.circs[i]? = t'.desk.circs[i]?) (h4 : t.layers = t'.layers) (hk : e.keep i = true)
    (hm : ∀ r ∈ layersHanded [e], ∃ a, r = .made a) :
    (t.step N B e).1 = (t'.step N B e).1 ∧
        (t.step N B e).2.desk.ints = (t'.step N B e).2.desk.ints ∧
        (t.step N B e).2.desk.circs.length = (t'.step N B e).2.desk.circs.length ∧
        (t.step N B e).2.desk.circs[i]? = (t'.step N B e).2.desk.circs[i]? ∧
        (t.step N B e).2.layers = (t'.step N B e).2.layers := by
  cases e with
  | plain e =>
    by_cases hrun : ∃ j, e = .run j
    · obtain ⟨j, rfl⟩ := hrun
      have : j = i := by simpa [Action.keep, Event.keep] using hk
      subst this
      simp only [Table.step, h3]
      cases t'.desk.circs[j]? with
      | none => exact ⟨rfl, h1, h2, h3, h4⟩
      | some c => exact ⟨rfl, h1, by simp [h2], by simp only [List.getElem?_set, h2, if_true], h4⟩
    · have et : ∀ t : Table R, t.step N B (.plain e) =
          (.plain (t.desk.step N B e).1, { t with desk := (t.desk.step N B e).2 }) := by
        intro t
        cases e <;> first | rfl | exact absurd ⟨_, rfl⟩ hrun
      rw [et, et]
      obtain ⟨a, b, c, d⟩ := desk_kept N B i e h1 h2 h3 hk
      exact ⟨by simp only [a], b, c, d, h4⟩
  | layer gs => exact ⟨rfl, h1, h2, h3, by simp only [Table.step, h4]⟩
  | peekLayer a =>
    simp only [Table.step, h4]
    cases t'.layers[a]? <;> exact ⟨rfl, h1, h2, h3, h4⟩
  | hand j as =>
    have : j = i := by simpa [Action.keep] using hk
    subst this
    have e1 : as.mapM t.find = as.mapM t'.find := by
      have : ∀ r ∈ as, t.find r = t'.find r := by
        intro r hr
        obtain ⟨a, rfl⟩ := hm r (by simpa [layersHanded] using hr)
        simp only [Table.find, h4]
      clear hm
      induction as with
      | nil => rfl
      | cons r as ih =>
        rw [List.mapM_cons, List.mapM_cons, this r (by simp), ih hk fun r hr => this r (by simp [hr])]
    simp only [Table.step, e1, h3]
    cases as.mapM t'.find with
    | none => exact ⟨rfl, h1, h2, h3, h4⟩
    | some ms =>
      simp only []
      cases t'.desk.circs[j]? with
      | none => exact ⟨rfl, h1, h2, h3, h4⟩
      | some c => exact ⟨rfl, h1, by simp [h2], by simp only [List.getElem?_set, h2, if_true], h4⟩

theorem table_dropped (N : Numerics R) (B : Backend R) (i : Nat) (e : Action R) {t t' : Table R}
    (h1 : t.desk.ints = t'.desk.ints) (h2 : t.desk.circs.length = t'.desk.circs.length)
    (h3 : t.desk.circs[i]? = t'.desk.circs[i]?) (h4 : t.layers = t'.layers) (hk : e.keep i = false) :
    (t.step N B e).2.desk.ints = t'.desk.ints ∧
        (t.step N B e).2.desk.circs.length = t'.desk.circs.length ∧
        (t.step N B e).2.desk.circs[i]? = t'.desk.circs[i]? ∧
        (t.step N B e).2.layers = t'.layers := by
  cases e with
  | plain e =>
    by_cases hrun : ∃ j, e = .run j
    · obtain ⟨j, rfl⟩ := hrun
      have : j ≠ i := by simpa [Action.keep, Event.keep] using hk
      simp only [Table.step]
      cases t.desk.circs[j]? with
      | none => exact ⟨h1, h2, h3, h4⟩
      | some c => exact ⟨h1, by simp [h2], by simp [this, h3], h4⟩
    · have et : ∀ t : Table R, t.step N B (.plain e) =
          (.plain (t.desk.step N B e).1, { t with desk := (t.desk.step N B e).2 }) := by
        intro t
        cases e <;> first | rfl | exact absurd ⟨_, rfl⟩ hrun
      rw [et]
      obtain ⟨b, c, d⟩ := desk_dropped N B i e h1 h2 h3 hk
      exact ⟨b, c, d, h4⟩
  | layer gs => cases hk
  | peekLayer a => cases hk
  | hand j as =>
    have : j ≠ i := by simpa [Action.keep] using hk
    simp only [Table.step]
    cases as.mapM t.find with
    | none => exact ⟨h1, h2, h3, h4⟩
    | some ms =>
      simp only []
      cases t.desk.circs[j]? with
      | none => exact ⟨h1, h2, h3, h4⟩
      | some c => exact ⟨h1, by simp [h2], by simp [this, h3], h4⟩

theorem table_isolated (N : Numerics R) (B : Backend R) (i : Nat) (es : List (Action R))
    (hm : ∀ r ∈ layersHanded es, ∃ a, r = .made a) {t t' : Table R}
    (h1 : t.desk.ints = t'.desk.ints) (h2 : t.desk.circs.length = t'.desk.circs.length)
    (h3 : t.desk.circs[i]? = t'.desk.circs[i]?) (h4 : t.layers = t'.layers) :
    ((es.zip (t.observe N B es)).filter fun x => x.1.keep i).map Prod.snd
      = t'.observe N B (es.filter fun e => e.keep i) := by
  induction es generalizing t t' with
  | nil => rfl
  | cons e es ih =>
    have hm1 : ∀ r ∈ layersHanded [e], ∃ a, r = .made a := by
      intro r hr
      apply hm
      rw [show e :: es = [e] ++ es from rfl, layersHanded_append]
      exact List.mem_append_left _ hr
    have hm2 : ∀ r ∈ layersHanded es, ∃ a, r = .made a := by
      intro r hr
      apply hm
      rw [show e :: es = [e] ++ es from rfl, layersHanded_append]
      exact List.mem_append_right _ hr
    rw [show t.observe N B (e :: es) = (t.step N B e).1 :: (t.step N B e).2.observe N B es from rfl,
      List.zip_cons_cons]
    cases hk : e.keep i with
    | true =>
      obtain ⟨k0, k1, k2, k3, k4⟩ := table_kept N B i e h1 h2 h3 h4 hk hm1
      rw [List.filter_cons_of_pos (by simp [hk]), List.filter_cons_of_pos (by simp [hk]), List.map_cons,
        ih hm2 k1 k2 k3 k4, k0]
      rfl
    | false =>
      obtain ⟨k1, k2, k3, k4⟩ := table_dropped N B i e h1 h2 h3 h4 hk
      rw [List.filter_cons_of_neg (by simp [hk]), List.filter_cons_of_neg (by simp [hk]), ih hm2 k1 k2 k3 k4]

/-- **C67.** Under the same condition circuits stay isolated from each other, although they may share layers:
what is seen of one circuit is what is seen when all statements on the other circuits are left out. -/
theorem C67_isolated (N : Numerics R) (B : Backend R) {es : List (Action R)} (hs : Separate (plains es))
    (hc : Careful es) (i : Nat) :
    seenL N B (Action.keep i) es = Bench.empty.observe N B (es.filter (Action.keep i)) := by
  have hs' : Separate (plains (es.filter (Action.keep i))) :=
    hs.sublist (List.Sublist.filterMap _ List.filter_sublist)
  unfold seenL
  rw [C67_layers_as_values N B hs hc, C67_layers_as_values N B hs' (hc.filter i)]
  exact table_isolated N B i es hc.made rfl rfl rfl rfl

/-! ### A session that meets the hypotheses -/

/-- Two circuits. A layer without idle registers is handed to both, and twice to the second; a layer with an idle
register is handed to the first only, and then filled by a call. -/
def sampleShared : List (Action ℤ) :=
  [.plain (.list [2, 3]), .plain (.new (.list 0) none none), .plain (.new (.list 0) none none),
    .layer [.x 0 2 1, .x 1 3 1], .layer [.ident 0 2, .x 1 3 1],
    .hand 0 [.made 0, .made 1], .hand 1 [.made 0, .made 0], .peekLayer 0,
    .plain (.call 0 (.x 0 none 1)), .plain (.call 1 (.x 1 none 1)),
    .plain (.call 0 .measureAll), .plain (.call 1 .measureAll), .plain (.run 0), .plain (.run 1)]

theorem sampleShared_careful : Careful sampleShared := by
  refine ⟨?_, ?_, ?_⟩
  · intro r hr
    simp [sampleShared, layersHanded] at hr
    rcases hr with rfl | rfl | rfl <;> exact ⟨_, rfl⟩
  · intro a gs ha hg
    match a with
    | 0 =>
      simp [sampleShared, layersMade] at ha
      subst ha
      simp [GateObj.isIdent] at hg
    | 1 => simp [sampleShared, layersHanded]
    | a + 2 => simp [sampleShared, layersMade] at ha
  · intro a gs ha hg
    match a with
    | 0 =>
      simp [sampleShared, layersMade] at ha
      subst ha
      simp [GateObj.isIdent] at hg
    | 1 => simp [sampleShared]
    | a + 2 => simp [sampleShared, layersMade] at ha

theorem sampleShared_separate : Separate (plains sampleShared) := by
  apply separate_of
  simp [sampleShared, plains, Event.Changes]

example : Bench.empty.observe sampleN (numpyBackend ℤ) sampleShared =
    Table.empty.observe sampleN (numpyBackend ℤ) sampleShared :=
  C67_layers_as_values _ _ sampleShared_separate sampleShared_careful

example : seenL sampleN (numpyBackend ℤ) (Action.keep 1) sampleShared =
    Bench.empty.observe sampleN (numpyBackend ℤ) (sampleShared.filter (Action.keep 1)) :=
  C67_isolated _ _ sampleShared_separate sampleShared_careful 1

end QuDiet
