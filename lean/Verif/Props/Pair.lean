import Verif.Props.Construct
import Verif.Lemmas.Poison

/-! # C21: `toffoli` on the pair form of the registers -/

namespace QuDiet
open Spec

variable {R : Type} [CommRing R] [StarRing R] [DecidableEq R] [UnitaryCheck R] {N : Numerics R} {B : Backend R}

theorem mapM_pyGet_index {dims : List Nat} {l : List Int} {a : Int} (ha : a ∈ l) (h : (dims.length : Int) ≤ a) :
    l.mapM (pyGet dims) = .error .index := by
  induction l with
  | nil => simp at ha
  | cons b l ih =>
    rw [List.mapM_cons]
    rcases List.mem_cons.1 ha with rfl | ha
    · rw [pyGet_out (.inr h)]; rfl
    · by_cases hb : -(dims.length : Int) ≤ b ∧ b < dims.length
      · rw [pyGet_dimAt hb.1 hb.2, ih ha]; rfl
      · rw [pyGet_out (by omega)]; rfl

omit [StarRing R] [DecidableEq R] [UnitaryCheck R] in
theorem toffoliDm_index {cs : List Int} {t p : Int} {dims : List Nat} (h : ∃ q ∈ cs ++ [t], (dims.length : Int) ≤ q) :
    toffoliDm (R := R) cs t p dims = .error .index := by
  obtain ⟨q, hq, hl⟩ := h
  have hne : cs ++ [t] ≠ [] := by simp
  obtain ⟨lb, h1, h2, h3⟩ := pyMin_spec hne
  obtain ⟨ub, h4, h5, h6⟩ := pyMax_spec hne
  unfold toffoliDm
  simp only [h1, h4, bind, Except.bind]
  rw [mapM_pyGet_index (mem_pyRange.2 ⟨h3 q hq, by have := h6 q hq; omega⟩) hl]

/-- **C21 (what holds instead).** On the pair form no `toffoli` with a control ever takes effect, although
all its registers exist: if it names a register other than 0 and 1, the call raises `IndexError`, with or without
controls; otherwise, with a control, the call is accepted and every later `run()` raises. -/
theorem C21_pair_toffoli {n d : Nat} {init : List Int} (h : ValidStart (List.replicate n (d : Int)) init)
    (out : Option Output) {pre : List (Call R)} {cs : List Int} {t : Int} (ht : t ∉ cs)
    (hr : ∀ q ∈ cs ++ [t], InRange (List.replicate n d) q) (p : Int) :
    ((∃ q ∈ cs ++ [t], 2 ≤ q) →
      answer (.tuple n d) init out pre (.toffoli cs t p : Call R) = .error .index) ∧
    (cs ≠ [] → (∀ q ∈ cs ++ [t], q < 2) → .measureAll ∉ pre → ∀ post,
      answer (.tuple n d) init out pre (.toffoli cs t p : Call R) = .ok true ∧
      ∃ e, script N B (.tuple n d) init out (pre ++ .toffoli cs t p :: post) = .error e) := by
  have hm : List.replicate n (d : Int) = (List.replicate n d).map Int.ofNat := by simp
  have hpos : 0 < (List.replicate n d).length := by
    have := hr t (by simp)
    unfold InRange at this
    omega
  rw [hm] at h
  have hnew := new_ok (R := R) (q := .tuple n d) (dims := List.replicate n d) (by simp [RegsArg.dims]) h out
  have hseq : ∀ c : Circuit R, (∃ f, c = { freshCircuit (R := R) (.tuple n d) (List.replicate n d) init out with
      flow := f }) → c.qregs.seq = [n, d] := by
    rintro c ⟨f, rfl⟩
    rfl
  have hans : ∀ k : Call R, answer (.tuple n d) init out pre k =
      (((freshCircuit (R := R) (.tuple n d) (List.replicate n d) init out).calls pre).call k).2 := by
    intro k
    unfold answer
    rw [hnew]
    rfl
  constructor
  · intro h2
    rw [hans]
    have hre := (reach_any (R := R) (q := .tuple n d) hpos init out pre).1
    generalize (freshCircuit (R := R) (.tuple n d) (List.replicate n d) init out).calls pre = c at hre
    have : c.callM (.toffoli cs t p) = .error .index := by
      simp only [Circuit.callM]
      rw [hseq c hre, toffoliDm_index (by simpa using h2)]
      rfl
    unfold Circuit.call
    rw [this]
  · intro hcs h2 hpre post
    have hno : ∀ k ∈ pre, k.isMeasureAll = false := by
      intro k hk
      cases k <;> first | rfl | exact absurd hk hpre
    obtain ⟨⟨layers, hu⟩, hf0⟩ := calls_any pre hno
      (fresh_any (R := R) (q := .tuple n d) hpos init out)
    have hs := hseq _ hf0
    have hscript : script N B (.tuple n d) init out (pre ++ .toffoli cs t p :: post) =
        (((((freshCircuit (R := R) (.tuple n d) (List.replicate n d) init out).calls pre).call
          (.toffoli cs t p)).1).calls post).runResult N B := by
      unfold script
      rw [hnew]
      change (Circuit.run N B ((freshCircuit (R := R) (.tuple n d) (List.replicate n d) init out).calls _)).2 = _
      rw [Circuit.calls_append, Circuit.calls_cons]
      unfold Circuit.run
      generalize Circuit.runResult N B _ = r
      cases r <;> rfl
    rw [hans, hscript]
    generalize (freshCircuit (R := R) (.tuple n d) (List.replicate n d) init out).calls pre = c at hu hs
    have hne : cs ++ [t] ≠ [] := by simp
    obtain ⟨lb, h1, h1m, h3⟩ := pyMin_spec hne
    obtain ⟨ub, h4, h4m, h6⟩ := pyMax_spec hne
    have r1 := hr lb h1m
    have r2 := h2 ub h4m
    obtain ⟨c0, hc0⟩ := List.exists_mem_of_ne_nil cs hcs
    have q1 := h3 c0 (by simp [hc0])
    have q2 := h6 c0 (by simp [hc0])
    have q3 := h3 t (by simp)
    have q4 := h6 t (by simp)
    have q5 : c0 ≠ t := by rintro rfl; exact ht hc0
    have hlb : lb = 0 := by unfold InRange at r1; omega
    have hub : ub = 1 := by unfold InRange at r1; omega
    subst hlb hub
    obtain ⟨M, hM, _⟩ := toffoliDm_ok (R := R) (dims := [n, d]) (p := p) h1 h4 (by simp) (by simp) h3 h6
    have e2 : pyRange 0 (1 + 1) = [0, 1] := rfl
    rw [e2] at hM
    have e3 : ([0, 1] : List Int).map (dimAt [n, d]) = [n, d] := rfl
    rw [e3] at hM
    obtain ⟨f, layers', h8, h9, h10⟩ := addMoment_spec hu (bI := fun _ => ()) (fun _ _ => trivial)
      (q := .list [0, 1]) (lb := 0) (ub := 1) (g := .toffoli cs t [0, 1] [n, d] M p)
      ⟨⟨rfl, rfl⟩, by omega, rfl, rfl, rfl, h1m, h4m, fun x hx => ⟨h3 x hx, h6 x hx⟩⟩ () (fun _ => trivial)
    have hcall : c.call (.toffoli cs t p) = ({ c with flow := f }, .ok true) := by
      simp only [Circuit.call, Circuit.callM, hs, hM, bind, Except.bind, e2]
      rw [h8]
    rw [hcall]
    refine ⟨rfl, poisoned h9 (g := .toffoli cs t [0, 1] [n, d] M p) rfl ?_ ?_ post⟩
    · have hlt : lo (List.replicate n d) 0 < hi (List.replicate n d) 1 := by
        have := hr t (by simp)
        have := hr c0 (by simp [hc0])
        unfold InRange at *
        simp only [lo, hi]
        omega
      rcases h10 with ⟨_, h4⟩ | ⟨h5, _⟩ | ⟨_, _, _, ls, m1, d', m2, b1, bi, b2, _, h8, _⟩
      · exact ⟨layout (List.replicate n d) 0 1 _, by rw [h4]; simp, mem_layout hlt⟩
      · exact absurd hlt h5
      · exact ⟨m1 ++ .toffoli cs t [0, 1] [n, d] M p :: m2, by rw [h8]; simp, by simp⟩
    · have : ∃ e, arbMat (.list [n, d]) M = .error e := by
        unfold arbMat
        split <;> exact ⟨_, rfl⟩
      obtain ⟨e, he⟩ := this
      exact ⟨e, by simp only [GateObj.unitary, he]⟩

/-- **C21 (what holds instead).** Without controls, `toffoli` works on register 1 of the pair form as it does on the list
form, and on register 0 if `n = d`: there the pair, read as a list of dimensions, is right. -/
theorem C21_pair_toffoli_alone (N : Numerics R) (B : Backend R) {n : Nat} (hn : 2 ≤ n) (d : Int) (init : List Int)
    (out : Option Output) (ks : List (Call R))
    (hks : ∀ k ∈ ks, k.isToffoli = true → ∃ p, k = .toffoli [] 1 p ∨ k = .toffoli [] 0 p ∧ (n : Int) = d) :
    script N B (.tuple n d) init out ks =
      script N B (.list (List.replicate n d)) init (some (out.getD ⟨[n, d.toNat], .print, .amplitude⟩)) ks := by
  refine pair_is_list N B n d init out ks fun k hk cs t p e => ?_
  obtain ⟨n, rfl⟩ : ∃ m, n = m + 2 := ⟨n - 2, by omega⟩
  obtain ⟨p', h | ⟨h, hd⟩⟩ := hks k hk (by rw [e]; rfl)
  · rw [e] at h
    injection h with h1 h2 h3
    subst h1 h2 h3
    have e1 : ([1] : List Int).mapM (pyGet [n + 2, d.toNat]) = .ok [d.toNat] := rfl
    have e2 : ([1] : List Int).mapM (pyGet (List.replicate (n + 2) d.toNat)) = .ok [d.toNat] := by
      rw [List.mapM_cons, pyGet_ok (by omega) (by simp; omega)]
      simp
    have e3 : pyGet (List.replicate (n + 2) d.toNat) 1 = .ok d.toNat := by
      rw [pyGet_ok (by omega) (by simp; omega)]
      simp
    have e4 : pyGet [n + 2, d.toNat] 1 = .ok d.toNat := rfl
    have e5 : pyRange 1 (1 + 1) = [1] := rfl
    simp only [toffoliDm, List.nil_append, pyMin, pyMax, bind, Except.bind, List.foldl_cons, List.foldl_nil]
    simp only [e5, e1, e2, e3, e4]
  · rw [e] at h
    injection h with h1 h2 h3
    subst h1 h2 h3
    have hd' : d.toNat = n + 2 := by omega
    have e1 : ([0] : List Int).mapM (pyGet [n + 2, n + 2]) = .ok [n + 2] := rfl
    have e2 : ([0] : List Int).mapM (pyGet (List.replicate (n + 2) (n + 2))) = .ok [n + 2] := by
      rw [List.mapM_cons, pyGet_ok (by omega) (by simp; omega)]
      simp
    have e3 : pyGet (List.replicate (n + 2) (n + 2)) 0 = .ok (n + 2) := by
      rw [pyGet_ok (by omega) (by simp; omega)]
      simp
    have e4 : pyGet [n + 2, n + 2] 0 = .ok (n + 2) := rfl
    have e5 : pyRange 0 (0 + 1) = [0] := rfl
    rw [hd']
    simp only [toffoliDm, List.nil_append, pyMin, pyMax, bind, Except.bind, List.foldl_cons, List.foldl_nil]
    simp only [e5, e1, e2, e3, e4]

/-- The hypotheses: three qutrits given as `(3, 3)`. -/
example (B : Backend ℤ) := C21_pair_toffoli_alone sampleN B (n := 3) (by decide) 3 [1] none
  [.h 0 none, .toffoli [] 1 2, .toffoli [] 0 1, .cx 0 2 1, .measureAll] (by simp [Call.isToffoli])

/-- The hypotheses of `C21_pair_toffoli`: on three qubits given as `(3, 2)`, with controls 0 and 1 and target
2 (first part), and with control 0 and target 1 (second part). -/
example : ValidStart (List.replicate 3 ((2 : Nat) : Int)) [0, 1, 0] ∧ (2 : Int) ∉ [(0 : Int), 1] ∧
    (∀ q ∈ [(0 : Int), 1] ++ [2], InRange (List.replicate 3 2) q) ∧ (∃ q ∈ [(0 : Int), 1] ++ [2], 2 ≤ q) ∧
    (1 : Int) ∉ [(0 : Int)] ∧ (∀ q ∈ [(0 : Int)] ++ [1], InRange (List.replicate 3 2) q) ∧
    ∀ q ∈ [(0 : Int)] ++ [1], q < 2 :=
  ⟨validStart_of rfl, by simp, by simp [InRange], by simp, by simp, by simp [InRange], by simp⟩

end QuDiet
