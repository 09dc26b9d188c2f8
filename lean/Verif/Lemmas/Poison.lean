import Verif.Lemmas.Any

/-! # Operators without a matrix

A circuit that contains an operator whose `unitary` raises cannot be run, whatever else it contains. -/

namespace QuDiet
open Spec

variable {R : Type} [CommRing R] [StarRing R] [DecidableEq R] [UnitaryCheck R] {N : Numerics R} {B : Backend R}

theorem foldlM_error {α β : Type} {f : β → α → PyM β} {l : List α} {a : α} (ha : a ∈ l)
    (h : ∀ b, ∃ e, f b a = .error e) (b : β) : ∃ e, l.foldlM f b = .error e := by
  induction l generalizing b with
  | nil => simp at ha
  | cons a' l ih =>
    rw [List.foldlM_cons]
    rcases List.mem_cons.1 ha with rfl | ha
    · obtain ⟨e, he⟩ := h b
      exact ⟨e, by rw [he]; rfl⟩
    · cases hf : f b a' with
      | error e => exact ⟨e, rfl⟩
      | ok b' => exact ih ha b'

theorem momentExec_error {m : List (GateObj R)} {g : GateObj R} (hg : g ∈ m)
    (h : ∃ e, g.unitary N B = .error e) : ∃ e, momentExec N B m = .error e := by
  obtain ⟨e, he⟩ := h
  cases m with
  | nil => simp at hg
  | cons g' gs =>
    change ∃ e, (g'.unitary N B >>= fun u =>
      gs.foldlM (fun acc g => do .ok (B.kron acc (← g.unitary N B))) u) = .error e
    cases hu : g'.unitary N B with
    | error e' => exact ⟨e', rfl⟩
    | ok u =>
      rcases List.mem_cons.1 hg with rfl | hg
      · rw [he] at hu; cases hu
      · exact foldlM_error (f := fun acc g => do .ok (B.kron acc (← g.unitary N B))) hg
          (fun b => ⟨e, by rw [he]; rfl⟩) u

theorem flowLoop_error {ms : List (List (GateObj R))} {m : List (GateObj R)} (hm : m ∈ ms)
    (h : ∃ e, momentExec N B m = .error e) (acc : Option B.M) : ∃ e, flowLoop N B ms acc = .error e := by
  induction ms generalizing acc with
  | nil => simp at hm
  | cons m' ms ih =>
    unfold flowLoop
    rcases List.mem_cons.1 hm with rfl | hm
    · obtain ⟨e, he⟩ := h
      exact ⟨e, by rw [he]; rfl⟩
    · cases hk : momentExec N B m' with
      | error e => exact ⟨e, rfl⟩
      | ok k =>
        cases acc with
        | none => exact ih hm (some k)
        | some d =>
          change ∃ e, (B.dot d k >>= fun p => flowLoop N B ms (some p)) = .error e
          cases hd : B.dot d k with
          | error e => exact ⟨e, rfl⟩
          | ok p => exact ih hm (some p)

omit [StarRing R] [DecidableEq R] [UnitaryCheck R] in
/-- An operator that is not an identity stays where it is. -/
theorem call_keeps {dims : List Nat} {c : Circuit R} {initM : List (GateObj R)}
    {layers : List (List (GateObj R) × List Unit)} (h : Unmeasured dims Free c initM layers)
    {k : Call R} (hm : k.isMeasureAll = false) {g : GateObj R} (hi : g.isIdent = false)
    (hg : ∃ m ∈ layers.map Prod.fst, g ∈ m) :
    ∃ layers', Unmeasured dims Free (c.call k).1 initM layers' ∧ ∃ m ∈ layers'.map Prod.fst, g ∈ m := by
  rcases call_any h hm with ⟨_, _, he⟩ | ⟨ra, lb, ub, g', f, layers', _, hc, hu, hl⟩
  · rw [he]; exact ⟨layers, h, hg⟩
  · rw [hc]
    refine ⟨layers', hu, ?_⟩
    obtain ⟨m, hm1, hm2⟩ := hg
    rcases hl with hl | ⟨_, _, _, ls, m1, d, m2, hl1, hl2⟩
    · exact ⟨m, by rw [hl]; simp only [List.mem_append]; exact .inl hm1, hm2⟩
    · rw [hl1] at hm1
      rcases List.mem_append.1 hm1 with hm1 | hm1
      · exact ⟨m, by rw [hl2]; simp only [List.mem_append]; exact .inl hm1, hm2⟩
      · rw [List.mem_singleton] at hm1
        subst hm1
        refine ⟨m1 ++ g' :: m2, by rw [hl2]; simp, ?_⟩
        simp only [List.mem_append, List.mem_cons] at hm2 ⊢
        rcases hm2 with hm2 | rfl | hm2
        · exact .inl hm2
        · simp [GateObj.isIdent] at hi
        · exact .inr (.inr hm2)

omit [StarRing R] [DecidableEq R] [UnitaryCheck R] in
theorem calls_keep {dims : List Nat} {initM : List (GateObj R)} (ks : List (Call R))
    (hm : ∀ k ∈ ks, k.isMeasureAll = false) {c : Circuit R}
    {layers : List (List (GateObj R) × List Unit)} (h : Unmeasured dims Free c initM layers)
    {g : GateObj R} (hi : g.isIdent = false) (hg : ∃ m ∈ layers.map Prod.fst, g ∈ m) :
    ∃ layers', Unmeasured dims Free (c.calls ks) initM layers' ∧ ∃ m ∈ layers'.map Prod.fst, g ∈ m := by
  induction ks generalizing c layers with
  | nil => exact ⟨layers, h, hg⟩
  | cons k ks ih =>
    obtain ⟨layers', h1, h2⟩ := call_keeps h (hm k (by simp)) hi hg
    rw [Circuit.calls_cons]
    exact ih (fun k hk => hm k (by simp [hk])) h1 h2

/-- A circuit with an operator that has no matrix cannot be run, whatever happens to it later. -/
theorem poisoned {dims : List Nat} {initM : List (GateObj R)} {c : Circuit R}
    {layers : List (List (GateObj R) × List Unit)} (h : Unmeasured dims Free c initM layers)
    {g : GateObj R} (hi : g.isIdent = false) (hg : ∃ m ∈ layers.map Prod.fst, g ∈ m)
    (hu : ∃ e, g.unitary N B = .error e) (ks : List (Call R)) :
    ∃ e, (c.calls ks).runResult N B = .error e := by
  obtain ⟨rest, hks, hrest⟩ := live_append ks
  obtain ⟨layers', h1, m, hm1, hm2⟩ := calls_keep (live ks) live_not_measure h hi hg
  have hnot : ∀ c' : Circuit R, (∃ e, c'.flow.exec N B = .error e) → ∃ e, c'.runResult N B = .error e := by
    rintro c' ⟨e, he⟩
    exact ⟨e, by simp only [Circuit.runResult, he, bind, Except.bind]⟩
  rcases hrest with ⟨rfl, hno⟩ | ⟨r, rfl⟩
  · rw [List.append_nil] at hks
    rw [hks]
    apply hnot
    refine ⟨.assertion, ?_⟩
    unfold Flow.exec
    rw [h1.notAll]
    rfl
  · rw [hks, Circuit.calls_append, Circuit.calls_cons, calls_measured (measureAll_any h1)]
    apply hnot
    unfold Flow.exec
    rw [(measureAll_any h1).2]
    simp only [if_true]
    rw [h1.measure]
    simp only [h1.moments]
    rw [if_neg (by simp), List.dropLast_concat]
    apply flowLoop_error (m := m)
    · simp only [List.mem_reverse, List.mem_cons]
      exact .inr hm1
    · exact momentExec_error hm2 hu

omit [StarRing R] [DecidableEq R] [UnitaryCheck R] in
theorem mem_layout {dims : List Nat} {lb ub : Int} {g : GateObj R} (h : lo dims lb < hi dims ub) :
    g ∈ layout dims lb ub g := by
  simp only [layout]
  rw [if_pos (by simpa only [lo, hi] using h)]
  simp

/-- A call for a gate that has no matrix makes every later `run` raise, whatever the other calls are. -/
theorem script_faulty [Nontrivial R] (hN : N.Sized) (hB : B.Lawful) {dims : List Nat} (hne : dims ≠ [])
    {init : List Int} (h : ValidStart (dims.map Int.ofNat) init) (out : Option Output)
    {pre : List (Call R)} (hpre : .measureAll ∉ pre) {k : Call R} (hb : fate dims k = .broken)
    (hf : k.Faulty dims) (post : List (Call R)) :
    ∃ e, script N B (.list (dims.map Int.ofNat)) init out (pre ++ k :: post) = .error e := by
  have hpos := List.length_pos_of_ne_nil hne
  have h2 := ge_two_of_valid h
  rw [script_eq N hB rfl h, Circuit.calls_append, Circuit.calls_cons]
  have hno : ∀ k ∈ pre, k.isMeasureAll = false := by
    intro k hk
    cases k <;> first | rfl | exact absurd hk hpre
  obtain ⟨⟨layers, hu⟩, f0, hf0⟩ := calls_any pre hno
    (fresh_any (q := .list (dims.map Int.ofNat)) hpos init out)
  set c := (freshCircuit (R := R) (.list (dims.map Int.ofNat)) dims init out).calls pre with hc
  have hkm : k.isMeasureAll = false := by
    cases k <;> first | rfl | simp [fate] at hb
  obtain ⟨ra, lb, ub, g, hE⟩ := emits_all (c := c) hN h2 hpos hu.regDims hu.regLength
    (k := k) (fun _ => by rw [hf0]; exact list_toRegs dims) hkm (by rw [hb]; simp) (by rw [hb]; simp)
  obtain ⟨f, layers', h1, h3, h4⟩ := addMoment_spec hu (bI := fun _ => ()) (fun _ _ => trivial) hE.gateAt ()
    (fun _ => trivial)
  have hcall : (c.call k).1 = { c with flow := f } := by
    simp only [Circuit.call, hE.call _ h1]
  rw [hcall]
  apply poisoned h3 (g := g) hE.gateAt.notIdent _ (hE.faulty hb hf)
  have hlt := (hE.broken hb).1
  rcases h4 with ⟨_, h4⟩ | ⟨h5, _⟩ | ⟨_, _, _, ls, m1, d, m2, b1, bi, b2, _, h8, _⟩
  · exact ⟨layout dims lb ub g, by rw [h4]; simp, mem_layout hlt⟩
  · exact absurd hlt h5
  · exact ⟨m1 ++ g :: m2, by rw [h8]; simp, by simp⟩

end QuDiet
