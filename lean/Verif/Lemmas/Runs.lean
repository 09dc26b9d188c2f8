import Verif.Runs
import Verif.Props.Crash
import Mathlib.Tactic.Common

/-! # Invocations at the same time: what one does does not depend on the others -/

namespace QuDiet.Tools
open QuDiet.Qasm

/-- An invocation alone. -/
def Prog.run : Prog → FS → FS × List Text
  | .stop out, fs => (fs, out)
  | .read p k, fs => (k (fs p)).run fs
  | .empty p k, fs => k.run (fs.write p [])
  | .put p t k, fs => k.run (fs.write p (patch (fs p) 0 t))

/-- The files it reads or writes. -/
def Prog.used : Prog → FS → List Text
  | .stop _, _ => []
  | .read p k, fs => p :: (k (fs p)).used fs
  | .empty p k, fs => p :: k.used (fs.write p [])
  | .put p t k, fs => p :: k.used (fs.write p (patch (fs p) 0 t))

/-- The files it writes. -/
def Prog.written : Prog → FS → List Text
  | .stop _, _ => []
  | .read p k, fs => (k (fs p)).written fs
  | .empty p k, fs => p :: k.written (fs.write p [])
  | .put p t k, fs => p :: k.written (fs.write p (patch (fs p) 0 t))

theorem Prog.written_used (g : Prog) (fs : FS) : ∀ q ∈ g.written fs, q ∈ g.used fs := by
  induction g generalizing fs with
  | stop => simp [written]
  | read p k ih => intro q hq; exact List.mem_cons_of_mem _ (ih _ _ q hq)
  | empty p k ih =>
    intro q hq
    rcases List.mem_cons.1 hq with rfl | hq
    · exact List.mem_cons_self
    · exact List.mem_cons_of_mem _ (ih _ q hq)
  | put p t k ih =>
    intro q hq
    rcases List.mem_cons.1 hq with rfl | hq
    · exact List.mem_cons_self
    · exact List.mem_cons_of_mem _ (ih _ q hq)

theorem not_mem_cons' {a b : Text} {l : List Text} (h : a ∉ b :: l) : a ≠ b ∧ a ∉ l := by simpa using h

theorem write_same (fs : FS) (p t : Text) : fs.write p t p = t := by simp [FS.write]

theorem write_ne (fs : FS) {p q : Text} (t : Text) (h : q ≠ p) : fs.write p t q = fs q := by simp [FS.write, h]

theorem Prog.run_frame (g : Prog) (fs : FS) {q : Text} (h : q ∉ g.written fs) : (g.run fs).1 q = fs q := by
  induction g generalizing fs with
  | stop => rfl
  | read p k ih => exact ih _ _ h
  | empty p k ih =>
    have h' := not_mem_cons' h
    exact (ih _ h'.2).trans (write_ne _ _ h'.1)
  | put p t k ih =>
    have h' := not_mem_cons' h
    exact (ih _ h'.2).trans (write_ne _ _ h'.1)

/-- What an invocation does depends on the files it uses. -/
theorem Prog.run_congr (g : Prog) {fs fs' : FS} (h : ∀ q ∈ g.used fs, fs' q = fs q) :
    g.used fs' = g.used fs ∧ g.written fs' = g.written fs ∧ (g.run fs').2 = (g.run fs).2 ∧
    ∀ q, fs' q = fs q → (g.run fs').1 q = (g.run fs).1 q := by
  induction g generalizing fs fs' with
  | stop => exact ⟨rfl, rfl, rfl, fun q h => h⟩
  | read p k ih =>
    have e : fs' p = fs p := h p (by simp [used])
    obtain ⟨h1, h2, h3, h4⟩ := ih (fs p) (fs := fs) (fs' := fs') fun q hq => h q (by simp [used, hq])
    simp only [used, written, run, e]
    exact ⟨by rw [h1], h2, h3, h4⟩
  | empty p k ih =>
    have key : ∀ q, fs' q = fs q → fs'.write p [] q = fs.write p [] q := fun q hq => by simp [FS.write, hq]
    obtain ⟨h1, h2, h3, h4⟩ := ih (fs := fs.write p []) (fs' := fs'.write p []) fun q hq =>
      key q (h q (by simp [used, hq]))
    simp only [used, written, run]
    exact ⟨by rw [h1], by rw [h2], h3, fun q hq => h4 q (key q hq)⟩
  | put p t k ih =>
    have e : fs' p = fs p := h p (by simp [used])
    have key : ∀ q, fs' q = fs q → fs'.write p (patch (fs' p) 0 t) q = fs.write p (patch (fs p) 0 t) q :=
      fun q hq => by simp [FS.write, hq, e]
    obtain ⟨h1, h2, h3, h4⟩ := ih (fs := fs.write p (patch (fs p) 0 t)) (fs' := fs'.write p (patch (fs' p) 0 t))
      fun q hq => key q (h q (by simp [used, hq]))
    simp only [used, written, run]
    exact ⟨by rw [h1], by rw [h2], h3, fun q hq => h4 q (key q hq)⟩

/-! ### One invocation between two steps -/

def Proc.run : Proc → FS → FS × List Text
  | .at g, fs => g.run fs
  | .reading p _ k, fs => (k (fs p)).run fs
  | .putting p n rest k, fs => k.run (fs.write p (patch (fs p) n rest))

def Proc.used : Proc → FS → List Text
  | .at g, fs => g.used fs
  | .reading p _ k, fs => p :: (k (fs p)).used fs
  | .putting p n rest k, fs => p :: k.used (fs.write p (patch (fs p) n rest))

def Proc.written : Proc → FS → List Text
  | .at g, fs => g.written fs
  | .reading p _ k, fs => (k (fs p)).written fs
  | .putting p n rest k, fs => p :: k.written (fs.write p (patch (fs p) n rest))

/-- What was read is a beginning of the file. -/
def Proc.Sound : Proc → FS → Prop
  | .reading p got _, fs => got <+: fs p
  | _, _ => True

theorem patch_nil (c : Text) (n : Nat) : patch c n [] = c := by simp [patch]

theorem patch_patch (c : Text) (n : Nat) (a b : Text) : patch (patch c n a) (n + a.length) b = patch c n (a ++ b) := by
  by_cases ha : a = []
  · subst ha; simp [patch_nil]
  by_cases hb : b = []
  · subst hb; simp [patch_nil]
  have e : (c.take n ++ List.replicate (n - c.length) (Char.ofNat 0)).length = n := by
    simp only [List.length_append, List.length_take, List.length_replicate]; omega
  have e2 : (c.take n ++ List.replicate (n - c.length) (Char.ofNat 0) ++ a).length = n + a.length := by
    rw [List.length_append, e]
  unfold patch
  rw [if_neg hb, if_neg ha, if_neg (by simp [ha])]
  rw [List.take_append_of_le_length (by rw [e2]), List.take_of_length_le (by rw [e2]), List.length_append, e2]
  have e3 : n + a.length - (n + a.length + (c.drop (n + a.length)).length) = 0 := by omega
  rw [e3, List.drop_append, e2, List.drop_eq_nil_of_le (by rw [e2]; omega)]
  simp only [List.replicate_zero, List.append_nil, List.nil_append, List.drop_drop, List.length_append, List.append_assoc]
  congr 5
  all_goals omega

theorem write_write (fs : FS) (p a b : Text) : (fs.write p a).write p b = fs.write p b := by
  funext q; by_cases h : q = p <;> simp [FS.write, h]

theorem write_self (fs : FS) (p : Text) : fs.write p (fs p) = fs := by
  funext q; by_cases h : q = p <;> simp [FS.write, h]

/-- A step of an invocation alone. -/
theorem Step.solo {pr pr' : Proc} {fs fs' : FS} (h : Step pr fs pr' fs') (hs : pr.Sound fs) :
    pr'.Sound fs' ∧ pr'.run fs' = pr.run fs ∧ (∀ q ∈ pr'.used fs', q ∈ pr.used fs) ∧
    (∀ q ∈ pr'.written fs', q ∈ pr.written fs) := by
  cases h with
  | «open» => exact ⟨List.nil_prefix, rfl, fun q h => h, fun q h => h⟩
  | @more p got k fs piece h =>
    refine ⟨?_, rfl, fun q h => h, fun q h => h⟩
    obtain ⟨r, hr⟩ := hs
    obtain ⟨r', hr'⟩ := h
    refine ⟨r', ?_⟩
    rw [← hr] at hr' ⊢
    simp at hr'
    rw [← hr', List.append_assoc]
  | @eof p got k fs h =>
    obtain ⟨r, hr⟩ := hs
    have e : got = fs p := by
      rw [← hr] at h ⊢
      simp at h
      simp [h]
    subst e
    exact ⟨trivial, rfl, fun q h => List.mem_cons_of_mem _ h, fun q h => h⟩
  | empty => exact ⟨trivial, rfl, fun q h => List.mem_cons_of_mem _ h, fun q h => List.mem_cons_of_mem _ h⟩
  | start => exact ⟨trivial, rfl, fun q h => h, fun q h => h⟩
  | @write p n k fs a b =>
    have e : (fs.write p (patch (fs p) n a)).write p (patch (fs.write p (patch (fs p) n a) p) (n + a.length) b) =
        fs.write p (patch (fs p) n (a ++ b)) := by
      rw [write_write, write_same, patch_patch]
    refine ⟨trivial, ?_, fun q h => ?_, fun q h => ?_⟩
    · simp only [Proc.run, e]
    · simpa only [Proc.used, e] using h
    · simpa only [Proc.written, e] using h
  | @close p n k fs =>
    refine ⟨trivial, ?_, fun q h => ?_, fun q h => ?_⟩
    · simp only [Proc.run, patch_nil, write_self]
    · simp only [Proc.used, patch_nil, write_self]; exact List.mem_cons_of_mem _ h
    · simp only [Proc.written, patch_nil, write_self]; exact List.mem_cons_of_mem _ h

/-- A step changes only a file that is written. -/
theorem Step.frame {pr pr' : Proc} {fs fs' : FS} (h : Step pr fs pr' fs') (fs₀ : FS) {q : Text} (hq : q ∉ pr.written fs₀) :
    fs' q = fs q := by
  cases h with
  | empty => exact write_ne _ _ (not_mem_cons' hq).1
  | write => exact write_ne _ _ (not_mem_cons' hq).1
  | _ => rfl

/-- The same step on files that are the same as far as they are used. -/
theorem Step.transfer {pr pr' : Proc} {fs fs' own : FS} (h : Step pr fs pr' fs') (hu : ∀ q ∈ pr.used own, fs q = own q) :
    ∃ own', Step pr own pr' own' ∧ ∀ q, fs q = own q → fs' q = own' q := by
  cases h with
  | «open» => exact ⟨own, .open, fun q h => h⟩
  | @more p got k fs piece h =>
    have e : fs p = own p := hu p (by simp [Proc.used])
    exact ⟨own, .more (by rwa [← e]), fun q h => h⟩
  | @eof p got k fs h =>
    have e : fs p = own p := hu p (by simp [Proc.used])
    exact ⟨own, .eof (by rwa [← e]), fun q h => h⟩
  | @empty p k fs => exact ⟨own.write p [], .empty, fun q h => by simp [FS.write, h]⟩
  | start => exact ⟨own, .start, fun q h => h⟩
  | @write p n k fs a b =>
    have e : fs p = own p := hu p (by simp [Proc.used])
    exact ⟨own.write p (patch (own p) n a), .write, fun q h => by simp [FS.write, h, e]⟩
  | close => exact ⟨own, .close, fun q h => h⟩

/-- Steps of one invocation alone. -/
inductive Alone : Proc → FS → Proc → FS → Prop
  | refl {pr fs} : Alone pr fs pr fs
  | step {pr fs pr' fs' pr'' fs''} (h : Alone pr fs pr' fs') (hs : Step pr' fs' pr'' fs'') : Alone pr fs pr'' fs''

/-! ### All of them -/

variable {ι : Type} [DecidableEq ι]

/-- No invocation writes a file that another one uses. -/
def Apart (g : ι → Prog) (fs : FS) : Prop :=
  ∀ i k, i ≠ k → ∀ q ∈ (g i).written fs, q ∉ (g k).used fs

theorem atOnce_inv {g : ι → Prog} {fs : FS} (ha : Apart g fs) {ps : ι → Proc} {fs' : FS}
    (h : AtOnce (fun i => .at (g i)) fs ps fs') :
    (∃ own : ι → FS, ∀ i, Alone (.at (g i)) fs (ps i) (own i) ∧ (ps i).Sound (own i) ∧ (ps i).run (own i) = (g i).run fs ∧
      (∀ q ∈ (ps i).used (own i), q ∈ (g i).used fs) ∧ (∀ q ∈ (ps i).written (own i), q ∈ (g i).written fs) ∧
      (∀ q ∈ (g i).used fs, fs' q = own i q)) ∧
    ∀ q, (∀ i, q ∉ (g i).written fs) → fs' q = fs q := by
  generalize hp : (fun i => Proc.at (g i)) = ps₀ at h
  induction h with
  | refl =>
    subst hp
    exact ⟨⟨fun _ => _, fun i => ⟨.refl, trivial, rfl, fun q h => h, fun q h => h, fun q _ => rfl⟩⟩, fun q _ => rfl⟩
  | @step ps' fs' fs'' i pr _ hs ih =>
    obtain ⟨⟨own, hown⟩, hrest⟩ := ih
    obtain ⟨a1, a2, a3, a4, a5, a6⟩ := hown i
    obtain ⟨own', t1, t2⟩ := hs.transfer fun q hq => a6 q (a4 q hq)
    obtain ⟨s1, s2, s3, s4⟩ := t1.solo a2
    have frame : ∀ q, q ∉ (g i).written _ → fs'' q = fs' q := fun q hq =>
      hs.frame (own i) fun h => hq (a5 q h)
    refine ⟨⟨Function.update own i own', fun k => ?_⟩, fun q hq => (frame q (hq i)).trans (hrest q hq)⟩
    by_cases hk : k = i
    · subst hk
      simp only [Function.update_self]
      exact ⟨a1.step t1, s1, s2.trans a3, fun q hq => a4 q (s3 q hq), fun q hq => a5 q (s4 q hq), fun q hq => t2 q (a6 q hq)⟩
    · simp only [Function.update_of_ne hk]
      obtain ⟨b1, b2, b3, b4, b5, b6⟩ := hown k
      refine ⟨b1, b2, b3, b4, b5, fun q hq => (frame q fun h => ?_).trans (b6 q hq)⟩
      exact ha i k (Ne.symm hk) q h hq

/-- One after the other, in any order. -/
theorem sequence_apply {g : ι → Prog} {fs₀ : FS} (ha : Apart g fs₀) {l : List ι} (hl : l.Nodup) {fs : FS}
    (h : ∀ i ∈ l, ∀ q ∈ (g i).used fs₀, fs q = fs₀ q) (q : Text) :
    (∀ i ∈ l, q ∈ (g i).used fs₀ → (∀ k ∈ l, k ≠ i → q ∉ (g k).written fs₀) →
      (l.foldl (fun fs i => ((g i).run fs).1) fs) q = ((g i).run fs₀).1 q) ∧
    ((∀ i ∈ l, q ∉ (g i).written fs₀) → (l.foldl (fun fs i => ((g i).run fs).1) fs) q = fs q) := by
  induction l generalizing fs with
  | nil => exact ⟨fun i hi => absurd hi (by simp), fun _ => rfl⟩
  | cons j l ih =>
    obtain ⟨hj, hl⟩ := List.nodup_cons.1 hl
    obtain ⟨c1, c2, c3, c4⟩ := (g j).run_congr (h j (by simp))
    have fr : ∀ q, q ∉ (g j).written fs₀ → ((g j).run fs).1 q = fs q := fun q hq => (g j).run_frame fs (by rwa [c2])
    obtain ⟨i1, i2⟩ := ih hl (fs := ((g j).run fs).1) fun i hi q hq => by
      have hne : j ≠ i := fun e => hj (e ▸ hi)
      rw [fr q fun hw => ha j i hne q hw hq]
      exact h i (by simp [hi]) q hq
    constructor
    · intro i hi hu hw
      rw [List.foldl_cons]
      rcases List.mem_cons.1 hi with rfl | hi
      · rw [i2 fun k hk => hw k (by simp [hk]) fun e => hj (e ▸ hk)]
        exact c4 q (h _ (by simp) q hu)
      · exact i1 i hi hu fun k hk => hw k (by simp [hk])
    · intro hw
      rw [List.foldl_cons, i2 fun k hk => hw k (by simp [hk])]
      exact fr q (hw j (by simp))

/-! ### The scripts -/

theorem run_fix (year : Nat) (paths : List Text) (fs : FS) : (fixProg year paths).run fs = (fix year paths fs, []) := by
  induction paths generalizing fs with
  | nil => rfl
  | cons p ps ih =>
    rw [fix_cons]
    have e : fix year [p] fs = if needsFix year p fs then fs.write p (addHeader year (fs p)) else fs := rfl
    rw [e, needsFix, fixProg]
    by_cases hp : pathChecked p = true
    · rw [if_pos hp, hp]
      simp only [Prog.run, Bool.true_and]
      by_cases hn : needsFixLines (header year) (fileLines (fs p)) = true
      · rw [if_pos hn, if_pos hn]
        simp only [Prog.run, write_write, write_same]
        rw [ih]
        congr 3
        simp [patch]
      · rw [if_neg hn, if_neg hn, ih]
    · have hp' : pathChecked p = false := by simpa using hp
      simp only [hp', Bool.false_and, Bool.false_eq_true, if_false, ih]

theorem run_check (year : Nat) (paths found : List Text) (fs : FS) :
    (checkProg year paths found).run fs = (fs, found ++ check year paths fs) := by
  induction paths generalizing found with
  | nil => simp [checkProg, Prog.run, check]
  | cons p ps ih =>
    rw [checkProg, check, List.filter_cons, needsFix]
    by_cases hp : pathChecked p = true
    · rw [if_pos hp, hp]
      simp only [Prog.run, Bool.true_and, ih]
      split <;> simp [check]
    · have hp' : pathChecked p = false := by simpa using hp
      simp only [hp', Bool.false_and, Bool.false_eq_true, if_false, ih]
      rfl

theorem run_batch (process : Text → Text → PyM Text) (suffix : Text) (files : List Text) (fs : FS) :
    (batchProg process suffix files).run fs = (batch process suffix files fs, []) := by
  induction files generalizing fs with
  | nil => rfl
  | cons f files ih =>
    rw [batch_cons, batchProg, routine]
    simp only [Prog.run]
    cases hp : process f (fs f) with
    | error e => simp only [hp, ih]
    | ok r =>
      simp only [Prog.run, write_write, write_same, ih]
      congr 3
      simp [patch]

end QuDiet.Tools
