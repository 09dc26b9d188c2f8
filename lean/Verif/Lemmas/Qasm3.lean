import Verif.Lemmas.Qasm2

/-! # Section markers and lines without effect in a QASM text -/

namespace QuDiet

namespace Qasm

/-! ### Counting positions -/

/-- The number of positions with `P`. -/
def cnt (P : Text → Bool) : Text → Nat
  | [] => if P [] then 1 else 0
  | c :: t => (if P (c :: t) then 1 else 0) + cnt P t

theorem countP_tails (P : Text → Bool) (t : Text) : t.tails.countP P = cnt P t := by
  induction t with
  | nil => simp [cnt, List.countP_cons]
  | cons c t ih => rw [List.tails, List.countP_cons, ih, cnt, Nat.add_comm]

/-- `P` holds only at the ends of lines. -/
def AtNl (P : Text → Bool) : Prop := ∀ t, P t = true → t.head? = some '\n'

theorem cnt_cons {P : Text → Bool} (hP : AtNl P) {c : Char} (hc : c ≠ '\n') (t : Text) : cnt P (c :: t) = cnt P t := by
  rw [cnt, if_neg, Nat.zero_add]
  intro h
  exact hc (Option.some.inj (hP _ h))

theorem cnt_append {P : Text → Bool} (hP : AtNl P) {a : Text} (ha : '\n' ∉ a) (t : Text) : cnt P (a ++ t) = cnt P t := by
  induction a with
  | nil => rfl
  | cons c a ih => rw [List.cons_append, cnt_cons hP (fun e => ha (by simp [e])), ih fun e => ha (by simp [e])]

theorem cnt_sub {pat new : Text} (h : DotSub pat new) {P Q : Text → Bool} (hP : AtNl P) (hQ : AtNl Q)
    (hc : ∀ t, Q ('\n' :: subGo pat new [] 0 t) = P ('\n' :: t)) (t : Text) : cnt Q (subGo pat new [] 0 t) = cnt P t := by
  induction hn : t.length using Nat.strong_induction_on generalizing t with
  | _ n ih =>
    cases t with
    | nil =>
      rw [subGo_nil, cnt, cnt, if_neg (fun e => by cases hQ _ e), if_neg (fun e => by cases hP _ e)]
    | cons c t =>
      cases hm : matchNum pat (c :: t) with
      | none =>
        have IH := ih t.length (by simp at hn; omega) t rfl
        rw [subGo_none hm, cnt, cnt, IH]
        by_cases hcn : c = '\n'
        · subst hcn
          rw [hc]
        · have h1 : ¬ Q (c :: subGo pat new [] 0 t) = true := fun e => hcn (Option.some.inj (hQ _ e))
          have h2 : ¬ P (c :: t) = true := fun e => hcn (Option.some.inj (hP _ e))
          rw [if_neg h1, if_neg h2]
      | some ds =>
        obtain ⟨r, hr, h1, h2, h3⟩ := matchNum_some hm
        have hd : '\n' ∉ ds := fun e => by cases h2 _ e
        rw [hr] at hn ⊢
        rw [subGo_match h.ne h1 h2 h3, List.append_nil, cnt_append hQ (notin_append h.newNl hd),
          cnt_append hP (notin_append h.patNl hd)]
        refine ih r.length ?_ r rfl
        have := List.length_pos_of_ne_nil h1
        simp at hn
        omega

/-! ### Prefixes -/

theorem numAfter_iff (w t : Text) : numAfter w t = true ↔ ∃ d, d.isDigit = true ∧ w ++ [d] <+: t := by
  unfold numAfter
  rw [Bool.and_eq_true, List.isPrefixOf_iff_prefix]
  constructor
  · rintro ⟨⟨r, rfl⟩, h⟩
    rw [List.drop_left] at h
    cases r with
    | nil => cases h
    | cons d r => exact ⟨d, h, r, by simp⟩
  · rintro ⟨d, hd, r, rfl⟩
    refine ⟨⟨d :: r, by simp⟩, ?_⟩
    rw [List.append_assoc, List.drop_left]
    exact hd

theorem blankNumAfter_iff (w t : Text) :
    blankNumAfter w t = true ↔ ∃ b d, isSpace b = true ∧ d.isDigit = true ∧ w ++ [b, d] <+: t := by
  unfold blankNumAfter
  rw [Bool.and_eq_true, List.isPrefixOf_iff_prefix]
  constructor
  · rintro ⟨⟨r, rfl⟩, h⟩
    rw [List.drop_left] at h
    match r, h with
    | b :: d :: r, h =>
      rw [Bool.and_eq_true] at h
      exact ⟨b, d, h.1, h.2, r, by simp⟩
  · rintro ⟨b, d, hb, hd, r, rfl⟩
    refine ⟨⟨b :: d :: r, by simp⟩, ?_⟩
    rw [List.append_assoc, List.drop_left]
    show (isSpace b && d.isDigit) = true
    rw [hb, hd]
    rfl

section
variable {pat new : Text}

theorem dotSub_isPrefixOf (h : DotSub pat new) {w : Text} (hw : '.' ∉ w) (t : Text) :
    w.isPrefixOf (subGo pat new [] 0 t) = w.isPrefixOf t := by
  rw [Bool.eq_iff_iff, List.isPrefixOf_iff_prefix, List.isPrefixOf_iff_prefix, h.prefix hw]

theorem dotSub_numAfter (h : DotSub pat new) {w : Text} (hw : '.' ∉ w) (t : Text) :
    numAfter w (subGo pat new [] 0 t) = numAfter w t := by
  rw [Bool.eq_iff_iff, numAfter_iff, numAfter_iff]
  constructor <;> rintro ⟨d, hd, hp⟩ <;> refine ⟨d, hd, ?_⟩ <;>
    have hn : '.' ∉ w ++ [d] := notin_append hw (fun e => by rw [← List.mem_singleton.1 e] at hd; cases hd)
  · exact (h.prefix hn t).1 hp
  · exact (h.prefix hn t).2 hp

theorem dotSub_blankNumAfter (h : DotSub pat new) {w : Text} (hw : '.' ∉ w) (t : Text) :
    blankNumAfter w (subGo pat new [] 0 t) = blankNumAfter w t := by
  rw [Bool.eq_iff_iff, blankNumAfter_iff, blankNumAfter_iff]
  constructor <;> rintro ⟨b, d, hb, hd, hp⟩ <;> refine ⟨b, d, hb, hd, ?_⟩ <;>
    have hn : '.' ∉ w ++ [b, d] := notin_append hw (fun e => by
      rcases List.mem_cons.1 e with e | e
      · rw [← e] at hb; revert hb; decide
      · rw [← List.mem_singleton.1 e] at hd; cases hd)
  · exact (h.prefix hn t).1 hp
  · exact (h.prefix hn t).2 hp

end

/-! ### The markers -/

/-- The markers after the first substitution. -/
def mark1 (t : Text) : Bool :=
  blankNumAfter (lit "\n.qudit") t || numAfter (lit "\n.qutrit ") t ||
    (lit "\n.begin").isPrefixOf t || (lit "\n.end").isPrefixOf t

/-- The markers after both. -/
def mark2 (t : Text) : Bool :=
  blankNumAfter (lit "\n.qudit") t || (lit "\n.begin").isPrefixOf t || (lit "\n.end").isPrefixOf t

theorem head_prefix {w t : Text} {c : Char} (h : (c :: w).isPrefixOf t = true) : t.head? = some c := by
  rw [List.isPrefixOf_iff_prefix] at h
  obtain ⟨r, rfl⟩ := h
  rfl

theorem startsSection_atNl : AtNl startsSection := by
  intro t h
  simp only [startsSection, blankNumAfter, numAfter, Bool.or_eq_true, Bool.and_eq_true] at h
  rcases h with (((h | h) | h) | h) | h
  · exact head_prefix h.1
  · exact head_prefix h.1
  · exact head_prefix h.1
  · exact head_prefix h
  · exact head_prefix h

theorem mark1_atNl : AtNl mark1 := by
  intro t h
  simp only [mark1, blankNumAfter, numAfter, Bool.or_eq_true, Bool.and_eq_true] at h
  rcases h with ((h | h) | h) | h
  · exact head_prefix h.1
  · exact head_prefix h.1
  · exact head_prefix h
  · exact head_prefix h

theorem mark2_atNl : AtNl mark2 := by
  intro t h
  simp only [mark2, blankNumAfter, Bool.or_eq_true, Bool.and_eq_true] at h
  rcases h with (h | h) | h
  · exact head_prefix h.1
  · exact head_prefix h
  · exact head_prefix h

theorem isPrefixOf_skip (c : Char) (w t : Text) : (c :: w).isPrefixOf (c :: t) = w.isPrefixOf t := by
  rw [List.isPrefixOf, beq_self_eq_true, Bool.true_and]

theorem isPrefixOf_ne {a c : Char} (h : a ≠ c) (w t : Text) : (a :: w).isPrefixOf (c :: t) = false := by
  rw [List.isPrefixOf, beq_eq_false_iff_ne.2 h, Bool.false_and]

theorem numAfter_skip (c : Char) (w t : Text) : numAfter (c :: w) (c :: t) = numAfter w t := by
  unfold numAfter
  rw [isPrefixOf_skip]
  rfl

theorem blankNumAfter_skip (c : Char) (w t : Text) : blankNumAfter (c :: w) (c :: t) = blankNumAfter w t := by
  unfold blankNumAfter
  rw [isPrefixOf_skip]
  rfl

theorem startsSection_dot (t : Text) : startsSection ('\n' :: '.' :: t) =
    (blankNumAfter (lit "qudit") t || numAfter (lit "qubit ") t || numAfter (lit "qutrit ") t ||
      (lit "begin").isPrefixOf t || (lit "end").isPrefixOf t) := by
  have e : ∀ s : Text, ('\n' :: '.' :: s).isPrefixOf ('\n' :: '.' :: t) = s.isPrefixOf t := fun s => by
    rw [isPrefixOf_skip, isPrefixOf_skip]
  have e1 : ∀ s : Text, numAfter ('\n' :: '.' :: s) ('\n' :: '.' :: t) = numAfter s t := fun s => by
    rw [numAfter_skip, numAfter_skip]
  have e2 : ∀ s : Text, blankNumAfter ('\n' :: '.' :: s) ('\n' :: '.' :: t) = blankNumAfter s t := fun s => by
    rw [blankNumAfter_skip, blankNumAfter_skip]
  unfold startsSection
  rw [← e2, ← e1, ← e1, ← e, ← e]
  rfl

theorem mark1_dot (t : Text) : mark1 ('\n' :: '.' :: t) =
    (blankNumAfter (lit "qudit") t || numAfter (lit "qutrit ") t ||
      (lit "begin").isPrefixOf t || (lit "end").isPrefixOf t) := by
  have e : ∀ s : Text, ('\n' :: '.' :: s).isPrefixOf ('\n' :: '.' :: t) = s.isPrefixOf t := fun s => by
    rw [isPrefixOf_skip, isPrefixOf_skip]
  have e1 : ∀ s : Text, numAfter ('\n' :: '.' :: s) ('\n' :: '.' :: t) = numAfter s t := fun s => by
    rw [numAfter_skip, numAfter_skip]
  have e2 : ∀ s : Text, blankNumAfter ('\n' :: '.' :: s) ('\n' :: '.' :: t) = blankNumAfter s t := fun s => by
    rw [blankNumAfter_skip, blankNumAfter_skip]
  unfold mark1
  rw [← e2, ← e1, ← e, ← e]
  rfl

theorem mark2_dot (t : Text) : mark2 ('\n' :: '.' :: t) =
    (blankNumAfter (lit "qudit") t || (lit "begin").isPrefixOf t || (lit "end").isPrefixOf t) := by
  have e : ∀ s : Text, ('\n' :: '.' :: s).isPrefixOf ('\n' :: '.' :: t) = s.isPrefixOf t := fun s => by
    rw [isPrefixOf_skip, isPrefixOf_skip]
  have e2 : ∀ s : Text, blankNumAfter ('\n' :: '.' :: s) ('\n' :: '.' :: t) = blankNumAfter s t := fun s => by
    rw [blankNumAfter_skip, blankNumAfter_skip]
  unfold mark2
  rw [← e2, ← e, ← e]
  rfl

/-- A predicate that asks for a dot after the end of the line. -/
def Dotted (P : Text → Bool) : Prop := ∀ t, t.head? ≠ some '.' → P ('\n' :: t) = false

theorem notDot_isPrefixOf {w t : Text} (h : t.head? ≠ some '.') : ('\n' :: '.' :: w).isPrefixOf ('\n' :: t) = false := by
  rw [isPrefixOf_skip]
  cases hp : ('.' :: w).isPrefixOf t with
  | false => rfl
  | true => exact absurd (head_prefix hp) h

theorem startsSection_dotted : Dotted startsSection := by
  intro t h
  have e : ∀ s : Text, ('\n' :: '.' :: s).isPrefixOf ('\n' :: t) = false := fun s => notDot_isPrefixOf h
  have e1 : ∀ s : Text, numAfter ('\n' :: '.' :: s) ('\n' :: t) = false := fun s => by
    unfold numAfter; rw [e, Bool.false_and]
  have e2 : ∀ s : Text, blankNumAfter ('\n' :: '.' :: s) ('\n' :: t) = false := fun s => by
    unfold blankNumAfter; rw [e, Bool.false_and]
  show (blankNumAfter ('\n' :: '.' :: lit "qudit") _ || numAfter ('\n' :: '.' :: lit "qubit ") _ ||
    numAfter ('\n' :: '.' :: lit "qutrit ") _ || ('\n' :: '.' :: lit "begin").isPrefixOf _ ||
    ('\n' :: '.' :: lit "end").isPrefixOf _) = false
  rw [e2, e1, e1, e, e]
  rfl

theorem mark1_dotted : Dotted mark1 := by
  intro t h
  have e : ∀ s : Text, ('\n' :: '.' :: s).isPrefixOf ('\n' :: t) = false := fun s => notDot_isPrefixOf h
  have e1 : ∀ s : Text, numAfter ('\n' :: '.' :: s) ('\n' :: t) = false := fun s => by
    unfold numAfter; rw [e, Bool.false_and]
  have e2 : ∀ s : Text, blankNumAfter ('\n' :: '.' :: s) ('\n' :: t) = false := fun s => by
    unfold blankNumAfter; rw [e, Bool.false_and]
  show (blankNumAfter ('\n' :: '.' :: lit "qudit") _ ||
    numAfter ('\n' :: '.' :: lit "qutrit ") _ || ('\n' :: '.' :: lit "begin").isPrefixOf _ ||
    ('\n' :: '.' :: lit "end").isPrefixOf _) = false
  rw [e2, e1, e, e]
  rfl

theorem mark2_dotted : Dotted mark2 := by
  intro t h
  have e : ∀ s : Text, ('\n' :: '.' :: s).isPrefixOf ('\n' :: t) = false := fun s => notDot_isPrefixOf h
  have e2 : ∀ s : Text, blankNumAfter ('\n' :: '.' :: s) ('\n' :: t) = false := fun s => by
    unfold blankNumAfter; rw [e, Bool.false_and]
  show (blankNumAfter ('\n' :: '.' :: lit "qudit") _ || ('\n' :: '.' :: lit "begin").isPrefixOf _ ||
    ('\n' :: '.' :: lit "end").isPrefixOf _) = false
  rw [e2, e, e]
  rfl

/-- The digits after a match. -/
theorem matchNum_numAfter {p : Text} (t : Text) : (matchNum ('.' :: p) ('.' :: t)).isSome = numAfter p t := by
  unfold matchNum numAfter
  rw [isPrefixOf_skip]
  cases p.isPrefixOf t with
  | false => rfl
  | true =>
    show (if ((t.drop p.length).takeWhile Char.isDigit).isEmpty = true then none else some _ : Option Text).isSome =
      (true && _)
    rw [Bool.true_and]
    cases t.drop p.length with
    | nil => rfl
    | cons d r =>
      rw [List.takeWhile_cons]
      cases hd : d.isDigit with
      | false => simp [hd]
      | true => simp [hd]

theorem sub_step {p : Text} (h : DotSub ('.' :: p) (lit ".qudit ")) {P Q : Text → Bool} {F : Text → Bool}
    (hP : Dotted P) (hQ : Dotted Q) (hQF : ∀ t, Q ('\n' :: '.' :: t) = F t)
    (hPF : ∀ t, P ('\n' :: '.' :: t) = (F t || numAfter p t))
    (hF : ∀ t, F (subGo ('.' :: p) (lit ".qudit ") [] 0 t) = F t)
    (hq : ∀ t, blankNumAfter (lit "qudit") t = true → F t = true) (t : Text) :
    Q ('\n' :: subGo ('.' :: p) (lit ".qudit ") [] 0 t) = P ('\n' :: t) := by
  by_cases hd : t.head? = some '.'
  · obtain ⟨r, rfl⟩ : ∃ r, t = '.' :: r := by
      cases t with
      | nil => cases hd
      | cons c r => exact ⟨r, by rw [Option.some.inj hd]⟩
    cases hm : matchNum ('.' :: p) ('.' :: r) with
    | none =>
      have : numAfter p r = false := by
        rw [← matchNum_numAfter, hm]
        rfl
      rw [subGo_none hm, hQF, hPF, hF, this, Bool.or_false]
    | some ds =>
      have : numAfter p r = true := by
        rw [← matchNum_numAfter, hm]
        rfl
      rw [hPF, this, Bool.or_true]
      obtain ⟨u, hu, h1, h2, h3⟩ := matchNum_some hm
      rw [hu, subGo_match h.ne h1 h2 h3, List.append_nil]
      obtain ⟨d, ds, rfl⟩ := List.exists_cons_of_ne_nil h1
      have e : (lit ".qudit " ++ d :: ds ++ subGo ('.' :: p) (lit ".qudit ") [] 0 u) =
          '.' :: (lit "qudit" ++ [' ', d] ++ (ds ++ subGo ('.' :: p) (lit ".qudit ") [] 0 u)) := by
        have e1 : lit ".qudit " = '.' :: (lit "qudit" ++ [' ']) := rfl
        rw [e1]
        simp only [List.append_assoc, List.cons_append, List.nil_append]
      rw [e, hQF]
      exact hq _ ((blankNumAfter_iff _ _).2 ⟨' ', d, by decide, h2 d (by simp), List.prefix_append ..⟩)
  · rw [hP _ hd, hQ]
    intro e
    exact hd ((h.head t).1 e)

theorem sub1_step (t : Text) : mark1 ('\n' :: subGo (lit ".qubit ") (lit ".qudit ") [] 0 t) = startsSection ('\n' :: t) := by
  refine sub_step (p := lit "qubit ") dotSub1 startsSection_dotted mark1_dotted mark1_dot ?_ ?_ ?_ t
  · intro t
    rw [startsSection_dot]
    cases blankNumAfter (lit "qudit") t <;> cases numAfter (lit "qubit ") t <;> cases numAfter (lit "qutrit ") t <;>
      cases (lit "begin").isPrefixOf t <;> cases (lit "end").isPrefixOf t <;> rfl
  · intro t
    have h := dotSub1
    show (blankNumAfter (lit "qudit") (subGo (lit ".qubit ") (lit ".qudit ") [] 0 t) || _ || _ || _) = _
    rw [dotSub_blankNumAfter h (by decide)]
    show (_ || numAfter (lit "qutrit ") (subGo (lit ".qubit ") (lit ".qudit ") [] 0 t) ||
      (lit "begin").isPrefixOf (subGo (lit ".qubit ") (lit ".qudit ") [] 0 t) ||
      (lit "end").isPrefixOf (subGo (lit ".qubit ") (lit ".qudit ") [] 0 t)) = _
    rw [dotSub_numAfter h (by decide), dotSub_isPrefixOf h (by decide), dotSub_isPrefixOf h (by decide)]
  · intro t ht
    rw [ht, Bool.true_or, Bool.true_or, Bool.true_or]

theorem sub2_step (t : Text) : mark2 ('\n' :: subGo (lit ".qutrit ") (lit ".qudit ") [] 0 t) = mark1 ('\n' :: t) := by
  refine sub_step (p := lit "qutrit ") dotSub2 mark1_dotted mark2_dotted mark2_dot ?_ ?_ ?_ t
  · intro t
    rw [mark1_dot]
    cases blankNumAfter (lit "qudit") t <;> cases numAfter (lit "qutrit ") t <;>
      cases (lit "begin").isPrefixOf t <;> cases (lit "end").isPrefixOf t <;> rfl
  · intro t
    have h := dotSub2
    show (blankNumAfter (lit "qudit") (subGo (lit ".qutrit ") (lit ".qudit ") [] 0 t) ||
      (lit "begin").isPrefixOf (subGo (lit ".qutrit ") (lit ".qudit ") [] 0 t) ||
      (lit "end").isPrefixOf (subGo (lit ".qutrit ") (lit ".qudit ") [] 0 t)) = _
    rw [dotSub_blankNumAfter h (by decide), dotSub_isPrefixOf h (by decide), dotSub_isPrefixOf h (by decide)]
  · intro t ht
    rw [ht, Bool.true_or, Bool.true_or]

theorem markers_dots (t : Text) : cnt mark2 (dots t) = markers t := by
  unfold dots markers
  rw [countP_tails, cnt_sub dotSub2 mark1_atNl mark2_atNl sub2_step, cnt_sub dotSub1 startsSection_atNl mark1_atNl sub1_step]

/-! ### The sections found -/

/-- The shape of a match. -/
theorem marker_shape {t : Text} {n : Nat} (h : marker t = some n) :
    (∃ b ds r, t = lit "\n.qudit" ++ b :: (ds ++ r) ∧ ds ≠ [] ∧ isSpace b = true ∧ (∀ c ∈ ds, c.isDigit = true) ∧
      n = 8 + ds.length) ∨
    (∃ r, t = lit "\n.begin" ++ r ∧ n = 7) ∨ ∃ r, t = lit "\n.end" ++ r ∧ n = 5 := by
  unfold marker at h
  split at h
  · rename_i hp
    rw [List.isPrefixOf_iff_prefix] at hp
    obtain ⟨u, rfl⟩ := hp
    have e : (lit "\n.qudit" ++ u).drop 7 = u := rfl
    rw [e] at h
    cases u with
    | nil => cases h
    | cons b u =>
      simp only at h
      split at h
      · rename_i hc
        rw [Bool.and_eq_true] at hc
        refine .inl ⟨b, u.takeWhile Char.isDigit, u.dropWhile Char.isDigit, ?_, ?_, hc.1, ?_, (Option.some.inj h).symm⟩
        · rw [List.takeWhile_append_dropWhile]
        · intro e; rw [e] at hc; simp at hc
        · intro c hc
          exact List.all_takeWhile |> (List.all_eq_true.1 · c hc)
      · cases h
  · split at h
    · rename_i hp
      rw [List.isPrefixOf_iff_prefix] at hp
      obtain ⟨u, rfl⟩ := hp
      exact .inr (.inl ⟨u, rfl, (Option.some.inj h).symm⟩)
    · split at h
      · rename_i hp
        rw [List.isPrefixOf_iff_prefix] at hp
        obtain ⟨u, rfl⟩ := hp
        exact .inr (.inr ⟨u, rfl, (Option.some.inj h).symm⟩)
      · cases h

theorem marker_mark2 (t : Text) : (marker t).isSome = mark2 t := by
  by_cases hq : (lit "\n.qudit").isPrefixOf t = true
  · have hq' := hq
    rw [List.isPrefixOf_iff_prefix] at hq'
    obtain ⟨u, rfl⟩ := hq'
    have e1 : (lit "\n.begin").isPrefixOf (lit "\n.qudit" ++ u) = false := rfl
    have e2 : (lit "\n.end").isPrefixOf (lit "\n.qudit" ++ u) = false := rfl
    unfold marker mark2 blankNumAfter
    rw [if_pos hq, e1, e2, Bool.or_false, Bool.or_false, hq, Bool.true_and]
    have e : (lit "\n.qudit" ++ u).drop 7 = u := rfl
    have e' : (lit "\n.qudit" ++ u).drop (lit "\n.qudit").length = u := rfl
    rw [e, e']
    match u with
    | [] => rfl
    | [b] =>
      show (if (isSpace b && !([] : Text).isEmpty) = true then some _ else none : Option Nat).isSome = false
      simp
    | b :: d :: r =>
      show (if (isSpace b && !((d :: r).takeWhile Char.isDigit).isEmpty) = true then some _ else none : Option Nat).isSome =
        (isSpace b && d.isDigit)
      rw [List.takeWhile_cons]
      cases d.isDigit <;> cases isSpace b <;> simp
  · have hq2 : blankNumAfter (lit "\n.qudit") t = false := by
      unfold blankNumAfter
      rw [Bool.eq_false_iff.2 hq, Bool.false_and]
    unfold marker mark2
    rw [if_neg hq, hq2, Bool.false_or]
    cases (lit "\n.begin").isPrefixOf t <;> cases (lit "\n.end").isPrefixOf t <;> rfl

theorem splitGo_length (t : Text) : (splitGo 0 t).2.length = 2 * cnt mark2 t := by
  induction hn : t.length using Nat.strong_induction_on generalizing t with
  | _ n ih =>
    cases t with
    | nil =>
      rw [splitGo_nil, cnt, if_neg (fun e => by cases mark2_atNl _ e)]
      rfl
    | cons c t =>
      cases hm : marker (c :: t) with
      | none =>
        have : mark2 (c :: t) = false := by rw [← marker_mark2, hm]; rfl
        rw [splitGo_none hm, cnt, this, if_neg (by decide), Nat.zero_add]
        exact ih t.length (by simp at hn; omega) t rfl
      | some k =>
        have h2 : mark2 (c :: t) = true := by rw [← marker_mark2, hm]; rfl
        rw [cnt, h2, if_pos rfl]
        have key : ∀ (m : Nat) (r : Text), k = m + 1 → (c :: t).drop k = r → cnt mark2 t = cnt mark2 r →
            (splitGo 0 (c :: t)).2.length = 2 * (1 + cnt mark2 t) := by
          intro m r hk hr hc
          subst hk
          rw [splitGo_some hm, hr, hc, List.length_cons, List.length_cons, ih r.length ?_ r rfl]
          · omega
          · rw [← hr, ← hn]
            simp
            omega
        rcases marker_shape hm with ⟨b, ds, r, h, h1, hb, h3, hk⟩ | ⟨r, h, hk⟩ | ⟨r, h, hk⟩
        · have ht : t = lit ".qudit" ++ b :: (ds ++ r) := (List.cons.inj h).2
          refine key (7 + ds.length) r (by omega) ?_ ?_
          · rw [h, hk]
            have e : lit "\n.qudit" ++ b :: (ds ++ r) = (lit "\n.qudit" ++ b :: ds) ++ r := by
              simp only [List.append_assoc, List.cons_append]
            rw [e, List.drop_left']
            rw [List.length_append, List.length_cons]
            show 7 + (ds.length + 1) = _
            omega
          · rw [ht, cnt_append mark2_atNl (by decide)]
            have hd : '\n' ∉ ds := fun e => by cases h3 _ e
            have hb : mark2 (b :: (ds ++ r)) = false := by
              by_cases hbn : b = '\n'
              · subst hbn
                apply mark2_dotted
                obtain ⟨d, ds, rfl⟩ := List.exists_cons_of_ne_nil h1
                intro e
                have := h3 d (by simp)
                rw [Option.some.inj e] at this
                cases this
              · cases hb : mark2 (b :: (ds ++ r)) with
                | false => rfl
                | true => exact absurd (Option.some.inj (mark2_atNl _ hb)) hbn
            rw [cnt, hb, if_neg (by decide), Nat.zero_add, cnt_append mark2_atNl hd]
        · have ht : t = lit ".begin" ++ r := (List.cons.inj h).2
          refine key 6 r (by omega) ?_ ?_
          · rw [h, hk]; rfl
          · rw [ht, cnt_append mark2_atNl (by decide)]
        · have ht : t = lit ".end" ++ r := (List.cons.inj h).2
          refine key 4 r (by omega) ?_ ?_
          · rw [h, hk]; rfl
          · rw [ht, cnt_append mark2_atNl (by decide)]

theorem sections_few {t : Text} (h : markers t < 3) : sections t = .error .index := by
  have hl := splitGo_length (dots t)
  rw [markers_dots] at hl
  show (do
    let data ← popAt 6 ((splitGo 0 (dots t)).1 :: (splitGo 0 (dots t)).2)
    _ : PyM (Text × Text)) = _
  unfold popAt
  rw [if_neg (by rw [List.length_cons]; omega)]
  rfl

theorem sections_many {t : Text} (h : 3 ≤ markers t) : ∃ r, sections t = .ok r := by
  have hl := splitGo_length (dots t)
  rw [markers_dots] at hl
  unfold sections
  show ∃ r, (do
    let data ← popAt 6 ((splitGo 0 (dots t)).1 :: (splitGo 0 (dots t)).2)
    let data ← popAt 5 data
    let data ← popAt 3 data
    let data ← popAt 1 data
    let data ← popAt 0 data
    match data with
    | decls :: gates :: _ => .ok (decls, gates)
    | _ => .error .index : PyM (Text × Text)) = .ok r
  generalize hd : (splitGo 0 (dots t)).1 :: (splitGo 0 (dots t)).2 = data
  have hlen : 7 ≤ data.length := by rw [← hd, List.length_cons]; omega
  match data, hlen with
  | _ :: a :: b :: c :: d :: e :: f :: r, _ => exact ⟨_, rfl⟩

/-! ### Lines without effect -/

section
variable {R : Type} [CommRing R]

theorem middles_skip (g1 g2 : List Text) {l : Text} (h : ¬ lit "Toffoli" <+: l) :
    middles ((g1 ++ l :: g2).filter fun g => !g.isEmpty) = middles ((g1 ++ g2).filter fun g => !g.isEmpty) := by
  have e : (((g1 ++ l :: g2).filter fun g => !g.isEmpty).filter fun g => (lit "Toffoli").isPrefixOf g) =
      (((g1 ++ g2).filter fun g => !g.isEmpty).filter fun g => (lit "Toffoli").isPrefixOf g) := by
    rw [List.filter_append, List.filter_append, List.filter_append, List.filter_append, List.filter_cons]
    congr 1
    split
    · rw [List.filter_cons, if_neg]
      rwa [List.isPrefixOf_iff_prefix]
    · rfl
  unfold middles
  rw [e]

theorem gates_skip (g1 g2 : List Text) {l : Text} (h : lineCall (R := R) l = .ok none) (c : Circuit R) :
    ((g1 ++ l :: g2).filter fun g => !g.isEmpty).foldlM lineStep c =
      ((g1 ++ g2).filter fun g => !g.isEmpty).foldlM lineStep c := by
  rw [foldlM_nonempty, foldlM_nonempty, List.foldlM_append, List.foldlM_append]
  congr 1
  funext c
  rw [List.foldlM_cons, lineStep_none h]
  rfl

theorem fromSections_skip (d : Text) {g1 g2 : List Text} {l : Text} (h1 : ∀ l ∈ g1, '\n' ∉ l) (hl : '\n' ∉ l)
    (h2 : ∀ l ∈ g2, '\n' ∉ l) (ht : ¬ lit "Toffoli" <+: l) (h : lineCall (R := R) l = .ok none) :
    fromSections (R := R) d (below (g1 ++ l :: g2)) = fromSections d (below (g1 ++ g2)) := by
  have hs : ∀ ls : List Text, (∀ l ∈ ls, '\n' ∉ l) →
      (splitCh '\n' (below ls)).filter (fun g => !g.isEmpty) = ls.filter fun g => !g.isEmpty := by
    intro ls hls
    have := splitCh_below (l := []) (by simp) hls
    rw [List.nil_append] at this
    rw [this, List.filter_cons, if_neg (by simp)]
  unfold fromSections
  simp only
  rw [hs, hs, middles_skip _ _ ht]
  · congr 1
    funext mids
    congr 1
    funext c
    rw [gates_skip _ _ h]
  · intro l hl
    rcases List.mem_append.1 hl with hl | hl
    · exact h1 _ hl
    · exact h2 _ hl
  · intro m hm
    rcases List.mem_append.1 hm with hm | hm
    · exact h1 _ hm
    · rcases List.mem_cons.1 hm with rfl | hm
      · exact hl
      · exact h2 _ hm

end

end Qasm

end QuDiet
