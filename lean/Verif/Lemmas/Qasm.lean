import Verif.QasmSpec
import Mathlib.Data.List.Basic
import Mathlib.Tactic.Ring

/-! # The scanners of the QASM reader -/

namespace QuDiet

namespace Qasm

variable {pat new post : Text}

/-! ### Substitutions -/

theorem subGo_nil (k : Nat) : subGo pat new post k [] = [] := by cases k <;> rfl

theorem subGo_drop (k : Nat) (t : Text) : subGo pat new post k t = subGo pat new post 0 (t.drop k) := by
  induction k generalizing t with
  | zero => rfl
  | succ k ih =>
    cases t with
    | nil => rw [subGo_nil, List.drop_nil, subGo_nil]
    | cons c t => rw [List.drop_succ_cons, ← ih]; rfl

theorem takeWhile_all {p : Char → Bool} {t : Text} {c : Char} (h : c ∈ t.takeWhile p) : p c = true := by
  have := List.all_takeWhile (p := p) (l := t)
  exact List.all_eq_true.1 this c h

theorem matchNum_some {t ds : Text} (h : matchNum pat t = some ds) :
    ∃ r, t = pat ++ ds ++ r ∧ ds ≠ [] ∧ (∀ c ∈ ds, c.isDigit = true) ∧ ∀ c ∈ r.head?, c.isDigit = false := by
  unfold matchNum at h
  split at h
  · rename_i hp
    rw [List.isPrefixOf_iff_prefix] at hp
    obtain ⟨u, rfl⟩ := hp
    simp only [List.drop_left] at h
    split at h
    · cases h
    · rename_i hne
      cases h
      refine ⟨u.dropWhile Char.isDigit, by rw [List.append_assoc, List.takeWhile_append_dropWhile],
        by simpa using hne, fun c hc => takeWhile_all hc, ?_⟩
      intro c hc
      have := List.head?_dropWhile_not Char.isDigit u
      rw [Option.mem_def.1 hc] at this
      simpa using this
  · cases h

theorem takeWhile_digits {ds r : Text} (h : ∀ c ∈ ds, c.isDigit = true) (hr : ∀ c ∈ r.head?, c.isDigit = false) :
    (ds ++ r).takeWhile Char.isDigit = ds := by
  rw [List.takeWhile_append_of_pos h]
  cases r with
  | nil => simp
  | cons c r => rw [List.takeWhile_cons, if_neg (by rw [hr c rfl]; decide), List.append_nil]

theorem matchNum_of {ds r : Text} (hne : ds ≠ []) (h : ∀ c ∈ ds, c.isDigit = true)
    (hr : ∀ c ∈ r.head?, c.isDigit = false) : matchNum pat (pat ++ ds ++ r) = some ds := by
  unfold matchNum
  rw [if_pos (by rw [List.isPrefixOf_iff_prefix, List.append_assoc]; exact List.prefix_append ..)]
  rw [List.append_assoc, List.drop_left, takeWhile_digits h hr]
  simp [hne]

theorem subGo_match (hp : pat ≠ []) {ds r : Text} (hne : ds ≠ []) (h : ∀ c ∈ ds, c.isDigit = true)
    (hr : ∀ c ∈ r.head?, c.isDigit = false) :
    subGo pat new post 0 (pat ++ ds ++ r) = new ++ ds ++ post ++ subGo pat new post 0 r := by
  obtain ⟨c, p, rfl⟩ := List.exists_cons_of_ne_nil hp
  have hm := matchNum_of (pat := c :: p) hne h hr
  show subGo (c :: p) new post 0 (c :: (p ++ ds ++ r)) = _
  rw [subGo]
  rw [show c :: (p ++ ds ++ r) = c :: p ++ ds ++ r from rfl, hm]
  simp only
  rw [subGo_drop]
  congr 1
  have : p ++ ds ++ r = (p ++ ds) ++ r := rfl
  rw [this, List.drop_left' (by simp)]

theorem subGo_none {c : Char} {t : Text} (h : matchNum pat (c :: t) = none) :
    subGo pat new post 0 (c :: t) = c :: subGo pat new post 0 t := by
  rw [subGo, h]

theorem matchNum_absent {x : Char} (hx : x ∈ pat) {t : Text} (ht : x ∉ t) : matchNum pat t = none := by
  cases h : matchNum pat t with
  | none => rfl
  | some ds =>
    obtain ⟨r, rfl, _⟩ := matchNum_some h
    exact absurd (by simp [hx]) ht

/-- A text without one of the characters of the pattern is not changed. -/
theorem subGo_absent {x : Char} (hx : x ∈ pat) {t : Text} (ht : x ∉ t) : subGo pat new post 0 t = t := by
  induction t with
  | nil => rfl
  | cons c t ih =>
    rw [subGo_none (matchNum_absent hx ht), ih fun h => ht (by simp [h])]

theorem prefix_append_cons {p s r : Text} {x : Char} (hx : x ∉ p) : p <+: s ++ x :: r ↔ p <+: s := by
  constructor
  · intro h
    by_cases hl : p.length ≤ s.length
    · exact List.prefix_of_prefix_length_le h (List.prefix_append ..) hl
    · exfalso
      have h2 : s ++ [x] <+: s ++ x :: r := by
        rw [show s ++ x :: r = s ++ [x] ++ r by simp]
        exact List.prefix_append ..
      have h3 := List.prefix_of_prefix_length_le h2 h (by simp; omega)
      exact hx (h3.subset (by simp))
  · intro h
    exact h.trans (List.prefix_append ..)

theorem matchNum_append {s r : Text} {x : Char} (hx : x ∉ pat) (hd : x.isDigit = false) :
    matchNum pat (s ++ x :: r) = matchNum pat s := by
  unfold matchNum
  by_cases h : pat <+: s
  · obtain ⟨u, rfl⟩ := h
    have h1 : pat.isPrefixOf (pat ++ u ++ x :: r) = true := by
      rw [List.isPrefixOf_iff_prefix, List.append_assoc]; exact List.prefix_append ..
    have h2 : pat.isPrefixOf (pat ++ u) = true := by
      rw [List.isPrefixOf_iff_prefix]; exact List.prefix_append ..
    rw [h1, h2, List.append_assoc, List.drop_left, List.drop_left]
    have : (u ++ x :: r).takeWhile Char.isDigit = u.takeWhile Char.isDigit := by
      rw [List.takeWhile_append]
      split
      · rename_i hu
        rw [List.takeWhile_cons, hd]
        have : u.takeWhile Char.isDigit = u := List.IsPrefix.eq_of_length (List.takeWhile_prefix _) hu
        simp [this]
      · rfl
    rw [this]
  · rw [if_neg (by rw [List.isPrefixOf_iff_prefix, prefix_append_cons hx]; exact h),
      if_neg (by rw [List.isPrefixOf_iff_prefix]; exact h)]

/-- Substitution works line by line. -/
theorem subGo_append (hp : pat ≠ []) {x : Char} (hx : x ∉ pat) (hd : x.isDigit = false) (s r : Text) :
    subGo pat new post 0 (s ++ x :: r) = subGo pat new post 0 s ++ x :: subGo pat new post 0 r := by
  induction hn : s.length using Nat.strong_induction_on generalizing s with
  | _ n ih =>
    cases s with
    | nil =>
      rw [List.nil_append, subGo_none]
      · rfl
      · have := matchNum_append (s := []) (r := r) hx hd
        rw [List.nil_append] at this
        rw [this]
        unfold matchNum
        rw [if_neg]
        rw [List.isPrefixOf_iff_prefix]
        intro h
        exact hp (List.prefix_nil.1 h)
    | cons c s =>
      cases hm : matchNum pat (c :: s) with
      | none =>
        have hm' := matchNum_append (s := c :: s) (r := r) hx hd
        rw [hm, List.cons_append] at hm'
        rw [List.cons_append, subGo_none hm', subGo_none hm, ih s.length (by simp at hn; omega) s rfl]
        rfl
      | some ds =>
        obtain ⟨u, hu, hne, hdig, hhd⟩ := matchNum_some hm
        rw [hu] at hn ⊢
        rw [subGo_match hp hne hdig hhd, List.append_assoc (pat ++ ds),
          subGo_match hp hne hdig (r := u ++ x :: r)]
        · rw [ih u.length]
          · simp
          · rw [← hn]
            have := List.length_pos_of_ne_nil hp
            simp
            omega
          · rfl
        · intro c' hc'
          cases u with
          | nil => simp only [List.nil_append, List.head?_cons, Option.mem_def, Option.some.injEq] at hc'; subst hc'; exact hd
          | cons b u => exact hhd c' hc'

theorem subGo_lines (hp : pat ≠ []) (hx : '\n' ∉ pat) (l : Text) (ls : List Text) :
    subGo pat new post 0 (l ++ ls.flatMap fun l => '\n' :: l) =
      subGo pat new post 0 l ++ (ls.map (subGo pat new post 0)).flatMap fun l => '\n' :: l := by
  induction ls generalizing l with
  | nil => simp
  | cons m ls ih =>
    rw [List.flatMap_cons, List.cons_append, subGo_append hp hx (by decide), ih, List.map_cons, List.flatMap_cons]
    rfl

/-! ### The substitutions for the first marker -/

/-- Pattern and replacement begin with a dot and end with a blank. -/
structure DotSub (pat new : Text) : Prop where
  patEq : ∃ p, pat = '.' :: p ++ [' ']
  newEq : ∃ n, new = '.' :: n ++ [' ']
  patNl : '\n' ∉ pat
  newNl : '\n' ∉ new

theorem DotSub.ne (h : DotSub pat new) : pat ≠ [] := by
  obtain ⟨p, rfl⟩ := h.patEq
  simp

theorem DotSub.cons (h : DotSub pat new) {c : Char} (hc : c ≠ '.') (t : Text) :
    subGo pat new [] 0 (c :: t) = c :: subGo pat new [] 0 t := by
  apply subGo_none
  cases hm : matchNum pat (c :: t) with
  | none => rfl
  | some ds =>
    obtain ⟨r, hr, _⟩ := matchNum_some hm
    obtain ⟨p, rfl⟩ := h.patEq
    injection hr with h1 _
    exact absurd h1 hc

theorem DotSub.append (h : DotSub pat new) {s : Text} (hs : '.' ∉ s) (t : Text) :
    subGo pat new [] 0 (s ++ t) = s ++ subGo pat new [] 0 t := by
  induction s with
  | nil => rfl
  | cons c s ih =>
    rw [List.cons_append, h.cons (fun e => hs (by simp [e])), ih fun e => hs (by simp [e])]
    rfl

theorem DotSub.dot (h : DotSub pat new) (t : Text) : ∃ u, subGo pat new [] 0 ('.' :: t) = '.' :: u := by
  cases hm : matchNum pat ('.' :: t) with
  | none => exact ⟨_, subGo_none hm⟩
  | some ds =>
    obtain ⟨r, hr, h1, h2, h3⟩ := matchNum_some hm
    rw [hr, subGo_match h.ne h1 h2 h3]
    obtain ⟨n, rfl⟩ := h.newEq
    exact ⟨_, rfl⟩

theorem DotSub.mem_dot (h : DotSub pat new) {t : Text} (ht : '.' ∈ t) : '.' ∈ subGo pat new [] 0 t := by
  induction t with
  | nil => exact ht
  | cons c t ih =>
    by_cases hc : c = '.'
    · subst hc
      obtain ⟨u, hu⟩ := h.dot t
      rw [hu]
      simp
    · rw [h.cons hc]
      rcases List.mem_cons.1 ht with e | e
      · exact absurd e.symm hc
      · exact List.mem_cons_of_mem _ (ih e)

theorem DotSub.prefix (h : DotSub pat new) {p : Text} (hp : '.' ∉ p) (t : Text) :
    p <+: subGo pat new [] 0 t ↔ p <+: t := by
  induction p generalizing t with
  | nil => simp
  | cons a p ih =>
    cases t with
    | nil => rfl
    | cons c t =>
      by_cases hc : c = '.'
      · subst hc
        obtain ⟨u, hu⟩ := h.dot t
        rw [hu, List.cons_prefix_cons, List.cons_prefix_cons]
        have : a ≠ '.' := fun e => hp (by simp [e])
        simp [this]
      · rw [h.cons hc, List.cons_prefix_cons, List.cons_prefix_cons, ih fun e => hp (by simp [e])]

theorem suffix_append_cons {s Y X : Text} {x : Char} (hx : x ∉ s) : s <:+ X ++ x :: Y ↔ s <:+ Y := by
  constructor
  · intro h
    by_cases hl : s.length ≤ Y.length
    · refine List.suffix_of_suffix_length_le h ?_ hl
      rw [show X ++ x :: Y = (X ++ [x]) ++ Y by simp]
      exact List.suffix_append ..
    · exfalso
      have h2 : x :: Y <:+ X ++ x :: Y := List.suffix_append ..
      have h3 := List.suffix_of_suffix_length_le h2 h (by simp; omega)
      exact hx (h3.subset (by simp))
  · intro h
    rw [show X ++ x :: Y = (X ++ [x]) ++ Y by simp]
    exact h.trans (List.suffix_append ..)

theorem DotSub.suffix (h : DotSub pat new) {s : Text} (hb : ' ' ∉ s) (hdot : '.' ∉ s) (t : Text) :
    s <:+ subGo pat new [] 0 t ↔ s <:+ t := by
  induction hn : t.length using Nat.strong_induction_on generalizing t with
  | _ n ih =>
    cases t with
    | nil => rfl
    | cons c t =>
      cases hm : matchNum pat (c :: t) with
      | none =>
        rw [subGo_none hm]
        have IH := ih t.length (by simp at hn; omega) t rfl
        by_cases hs : s <:+ t
        · exact ⟨fun _ => hs.trans (List.suffix_cons ..), fun _ => (IH.2 hs).trans (List.suffix_cons ..)⟩
        · rw [List.suffix_cons_iff, List.suffix_cons_iff]
          rw [IH]
          simp only [hs, or_false]
          by_cases hd : '.' ∈ t
          · constructor
            · intro e
              rw [e] at hdot
              exact absurd (List.mem_cons_of_mem _ (h.mem_dot hd)) hdot
            · intro e
              rw [e] at hdot
              exact absurd (List.mem_cons_of_mem _ hd) hdot
          · have := h.append hd []
            rw [List.append_nil, subGo_nil, List.append_nil] at this
            rw [this]
      | some ds =>
        obtain ⟨r, hr, h1, h2, h3⟩ := matchNum_some hm
        rw [hr] at hn ⊢
        rw [subGo_match h.ne h1 h2 h3]
        have hds : '.' ∉ ds := fun e => by have := h2 _ e; revert this; decide
        have hlt : (ds ++ r).length < n := by
          rw [← hn]
          have := List.length_pos_of_ne_nil h.ne
          simp
          omega
        obtain ⟨p, hp⟩ := h.patEq
        obtain ⟨q, hq⟩ := h.newEq
        have e1 : new ++ ds ++ [] ++ subGo pat new [] 0 r = ('.' :: q) ++ ' ' :: subGo pat new [] 0 (ds ++ r) := by
          rw [h.append hds, hq]
          simp
        have e2 : pat ++ ds ++ r = ('.' :: p) ++ ' ' :: (ds ++ r) := by rw [hp]; simp
        rw [e1, e2, suffix_append_cons hb, suffix_append_cons hb, ih _ hlt _ rfl]

theorem DotSub.nl (h : DotSub pat new) {t : Text} (ht : '\n' ∉ t) : '\n' ∉ subGo pat new [] 0 t := by
  induction hn : t.length using Nat.strong_induction_on generalizing t with
  | _ n ih =>
    cases t with
    | nil => exact ht
    | cons c t =>
      cases hm : matchNum pat (c :: t) with
      | none =>
        rw [subGo_none hm]
        have := ih t.length (by simp at hn; omega) (fun e => ht (by simp [e])) rfl
        simp only [List.mem_cons, not_or] at ht ⊢
        exact ⟨ht.1, this⟩
      | some ds =>
        obtain ⟨r, hr, h1, h2, h3⟩ := matchNum_some hm
        rw [hr] at hn ht ⊢
        rw [subGo_match h.ne h1 h2 h3]
        have := ih r.length (by
          rw [← hn]
          have := List.length_pos_of_ne_nil h.ne
          simp
          omega) (fun e => ht (by simp [e])) rfl
        simp only [List.mem_append, not_or, List.append_nil] at ht ⊢
        exact ⟨⟨h.newNl, ht.1.2⟩, this⟩

theorem DotSub.head (h : DotSub pat new) (t : Text) :
    (subGo pat new [] 0 t).head? = some '.' ↔ t.head? = some '.' := by
  cases t with
  | nil => rfl
  | cons c t =>
    by_cases hc : c = '.'
    · subst hc
      obtain ⟨u, hu⟩ := h.dot t
      rw [hu]
      simp
    · rw [h.cons hc]
      simp

theorem DotSub.empty (h : DotSub pat new) (t : Text) : subGo pat new [] 0 t = [] ↔ t = [] := by
  cases t with
  | nil => simp [subGo]
  | cons b t =>
    by_cases hb : b = '.'
    · subst hb
      obtain ⟨u, hu⟩ := h.dot t
      simp [hu]
    · simp [h.cons hb]

theorem dotSub1 : DotSub (lit ".qubit ") (lit ".qudit ") :=
  ⟨⟨lit "qubit", rfl⟩, ⟨lit "qudit", rfl⟩, by decide, by decide⟩

theorem dotSub2 : DotSub (lit ".qutrit ") (lit ".qudit ") :=
  ⟨⟨lit "qutrit", rfl⟩, ⟨lit "qudit", rfl⟩, by decide, by decide⟩

/-- Both substitutions. -/
def dots (t : Text) : Text :=
  subGo (lit ".qutrit ") (lit ".qudit ") [] 0 (subGo (lit ".qubit ") (lit ".qudit ") [] 0 t)

theorem dots_line {l : Text} (h : Line l) : Line (dots l) :=
  ⟨dotSub2.nl (dotSub1.nl h.one), fun e => h.noDot ((dotSub1.head l).1 ((dotSub2.head _).1 e))⟩

theorem dots_prefix {p : Text} (hp : '.' ∉ p) (t : Text) : p <+: dots t ↔ p <+: t := by
  unfold dots
  rw [dotSub2.prefix hp, dotSub1.prefix hp]

theorem dots_suffix {s : Text} (hb : ' ' ∉ s) (hdot : '.' ∉ s) (t : Text) : s <:+ dots t ↔ s <:+ t := by
  unfold dots
  rw [dotSub2.suffix hb hdot, dotSub1.suffix hb hdot]

theorem dots_empty (t : Text) : dots t = [] ↔ t = [] := by
  unfold dots
  rw [dotSub2.empty, dotSub1.empty]

theorem dots_nodot {t : Text} (h : '.' ∉ t) : dots t = t := by
  unfold dots
  rw [subGo_absent (x := '.') (by decide) h, subGo_absent (x := '.') (by decide) h]

theorem dots_noq {t : Text} (h : 'q' ∉ t) : dots t = t := by
  unfold dots
  rw [subGo_absent (x := 'q') (by decide) h, subGo_absent (x := 'q') (by decide) h]

theorem dots_append_nl (s r : Text) : dots (s ++ '\n' :: r) = dots s ++ '\n' :: dots r := by
  unfold dots
  rw [subGo_append (by decide) (by decide) (by decide), subGo_append (by decide) (by decide) (by decide)]

theorem dots_below (l : Text) (ls : List Text) : dots (l ++ below ls) = dots l ++ below (ls.map dots) := by
  induction ls generalizing l with
  | nil => simp [below]
  | cons m ls ih =>
    have e : l ++ below (m :: ls) = l ++ '\n' :: (m ++ below ls) := rfl
    rw [e, dots_append_nl, ih]
    rfl

theorem dots_ignored {l : Text} (h : Ignored l) : Ignored (dots l) := by
  refine ⟨fun p hp => ?_, ?_⟩
  · have : '.' ∉ p.toList := by
      simp only [List.mem_cons, List.not_mem_nil, or_false] at hp
      rcases hp with rfl | rfl | rfl | rfl | rfl | rfl <;> decide
    rw [dots_prefix this]
    exact h.1 p hp
  · rw [dots_prefix (by decide), dots_suffix (by decide) (by decide)]
    exact h.2

/-! ### Splitting at the markers -/

theorem splitGo_nil (k : Nat) : splitGo k [] = ([], []) := by cases k <;> rfl

theorem splitGo_drop (k : Nat) (t : Text) : splitGo k t = splitGo 0 (t.drop k) := by
  induction k generalizing t with
  | zero => rfl
  | succ k ih =>
    cases t with
    | nil => rw [splitGo_nil, List.drop_nil, splitGo_nil]
    | cons c t => rw [List.drop_succ_cons, ← ih]; rfl

theorem marker_some {t : Text} {n : Nat} (h : marker t = some n) : ∃ r, t = '\n' :: '.' :: r := by
  have key : ∀ p : Text, (∃ q, p = '\n' :: '.' :: q) → p.isPrefixOf t = true → ∃ r, t = '\n' :: '.' :: r := by
    rintro p ⟨q, rfl⟩ hp
    rw [List.isPrefixOf_iff_prefix] at hp
    obtain ⟨u, rfl⟩ := hp
    exact ⟨_, rfl⟩
  unfold marker at h
  split at h
  · exact key _ ⟨_, rfl⟩ ‹_›
  · split at h
    · exact key _ ⟨_, rfl⟩ ‹_›
    · split at h
      · exact key _ ⟨_, rfl⟩ ‹_›
      · cases h

theorem marker_none {c : Char} {t : Text} (h : c ≠ '\n' ∨ t.head? ≠ some '.') : marker (c :: t) = none := by
  cases hm : marker (c :: t) with
  | none => rfl
  | some n =>
    obtain ⟨r, hr⟩ := marker_some hm
    injection hr with h1 h2
    subst h1 h2
    simp at h

theorem splitGo_none {c : Char} {t : Text} (h : marker (c :: t) = none) :
    splitGo 0 (c :: t) = (c :: (splitGo 0 t).1, (splitGo 0 t).2) := by
  rw [splitGo, h]

theorem splitGo_some {n : Nat} {t : Text} (h : marker t = some (n + 1)) :
    splitGo 0 t = ([], (t.take (n + 1)).drop 2 :: (splitGo 0 (t.drop (n + 1))).1 :: (splitGo 0 (t.drop (n + 1))).2) := by
  obtain ⟨r, rfl⟩ := marker_some h
  rw [splitGo, h]
  simp only [Nat.add_sub_cancel]
  rw [splitGo_drop n]
  rfl

theorem splitGo_line {l : Text} (h : '\n' ∉ l) (r : Text) :
    splitGo 0 (l ++ r) = (l ++ (splitGo 0 r).1, (splitGo 0 r).2) := by
  induction l with
  | nil => rfl
  | cons c l ih =>
    rw [List.cons_append, splitGo_none (marker_none (.inl fun e => h (by simp [e]))), ih fun e => h (by simp [e])]
    rfl

theorem splitGo_below {l : Text} (h : '\n' ∉ l) {ls : List Text} (hls : ∀ l ∈ ls, Line l) (r : Text) :
    splitGo 0 (l ++ below ls ++ '\n' :: r) =
      (l ++ below ls ++ (splitGo 0 ('\n' :: r)).1, (splitGo 0 ('\n' :: r)).2) := by
  induction ls generalizing l with
  | nil => simp only [below, List.flatMap_nil, List.append_nil]; exact splitGo_line h _
  | cons m ls ih =>
    have hm := hls m (by simp)
    have e : l ++ below (m :: ls) ++ '\n' :: r = l ++ '\n' :: (m ++ below ls ++ '\n' :: r) := by
      simp [below]
    have e' : ∀ x, l ++ below (m :: ls) ++ x = l ++ '\n' :: (m ++ below ls ++ x) := by
      intro x
      simp [below]
    rw [e, splitGo_line h, splitGo_none, ih hm.one fun l hl => hls l (by simp [hl]), e']
    apply marker_none
    right
    cases m with
    | nil =>
      cases ls with
      | nil => simp [below]
      | cons m' ls => simp [below]
    | cons a m => exact hm.noDot

theorem num_digits (n : Nat) : ∀ c ∈ num n, c.isDigit = true := fun c hc =>
  Nat.isDigit_of_mem_toDigits (by decide) (by decide) hc

theorem num_ne (n : Nat) : num n ≠ [] := Nat.toDigits_ne_nil

theorem marker_qudit (n : Nat) {r : Text} (hr : ∀ c ∈ r.head?, c.isDigit = false) :
    marker (lit "\n.qudit " ++ num n ++ r) = some (7 + (num n).length + 1) := by
  have e : lit "\n.qudit " ++ num n ++ r = lit "\n.qudit" ++ ' ' :: (num n ++ r) := by
    rw [List.append_assoc]; rfl
  unfold marker
  rw [e, if_pos (by rw [List.isPrefixOf_iff_prefix]; exact List.prefix_append ..)]
  have : (lit "\n.qudit" ++ ' ' :: (num n ++ r)).drop 7 = ' ' :: (num n ++ r) := rfl
  rw [this]
  simp only
  rw [takeWhile_digits (num_digits n) hr, if_pos]
  · congr 1; omega
  · have := num_ne n
    simp [isSpace, this]

theorem split3 {f d : Text} (m : Nat) {ls ds gs : List Text} {u : Text} (hf : '\n' ∉ f) (hls : ∀ l ∈ ls, Line l)
    (hd : '\n' ∉ d) (hdig : ∀ c ∈ d.head?, c.isDigit = false) (hds : ∀ l ∈ ds, Line l) (hgs : ∀ l ∈ gs, Line l) :
    ∃ p1 p2 p3 rest, splitGo 0 (f ++ below ls ++ '\n' :: (lit ".qudit " ++ num m ++ (d ++ below ds ++ '\n' :: (lit ".begin" ++
      (below gs ++ '\n' :: (lit ".end" ++ u)))))) =
        (f ++ below ls, [p1, d ++ below ds, p2, below gs, p3] ++ rest) ∧ rest ≠ [] := by
  rw [splitGo_below hf hls]
  have e1 : '\n' :: (lit ".qudit " ++ num m ++ (d ++ below ds ++ '\n' :: (lit ".begin" ++
      (below gs ++ '\n' :: (lit ".end" ++ u))))) = lit "\n.qudit " ++ num m ++ (d ++ below ds ++ '\n' :: (lit ".begin" ++
      (below gs ++ '\n' :: (lit ".end" ++ u)))) := rfl
  rw [e1, splitGo_some (marker_qudit m ?_)]
  · have e2 : (lit "\n.qudit " ++ num m ++ (d ++ below ds ++ '\n' :: (lit ".begin" ++
      (below gs ++ '\n' :: (lit ".end" ++ u))))).drop (7 + (num m).length + 1) = d ++ below ds ++ '\n' :: (lit ".begin" ++
      (below gs ++ '\n' :: (lit ".end" ++ u))) := by
      rw [List.drop_left']
      have : (lit "\n.qudit ").length = 8 := rfl
      rw [List.length_append, this]
      omega
    rw [e2, splitGo_below hd hds]
    have e3 : '\n' :: (lit ".begin" ++ (below gs ++ '\n' :: (lit ".end" ++ u))) =
      lit "\n.begin" ++ ([] ++ below gs ++ '\n' :: (lit ".end" ++ u)) := rfl
    have m2 : ∀ x, marker (lit "\n.begin" ++ x) = some (6 + 1) := by
      intro x
      unfold marker
      rw [if_neg (by simp [lit, List.isPrefixOf]), if_pos (by rw [List.isPrefixOf_iff_prefix]; exact List.prefix_append ..)]
    have m3 : ∀ x, marker (lit "\n.end" ++ x) = some (4 + 1) := by
      intro x
      unfold marker
      rw [if_neg (by simp [lit, List.isPrefixOf]), if_neg (by simp [lit, List.isPrefixOf]),
        if_pos (by rw [List.isPrefixOf_iff_prefix]; exact List.prefix_append ..)]
    rw [e3, splitGo_some (m2 _)]
    have e4 : (lit "\n.begin" ++ ([] ++ below gs ++ '\n' :: (lit ".end" ++ u))).drop (6 + 1) =
      [] ++ below gs ++ '\n' :: (lit ".end" ++ u) := rfl
    rw [e4, splitGo_below (by simp) hgs]
    have e5 : '\n' :: (lit ".end" ++ u) = lit "\n.end" ++ u := rfl
    rw [e5, splitGo_some (m3 _)]
    simp only [List.append_nil, List.nil_append]
    exact ⟨_, _, _, _, rfl, by simp⟩
  · intro c hc
    cases d with
    | nil =>
      cases ds with
      | nil => simp [below] at hc; subst hc; decide
      | cons b ds => simp [below] at hc; subst hc; decide
    | cons b d => exact hdig c hc

/-- The sections of a text that is laid out in sections. -/
theorem sections_text {p : Layout} (h : p.Ok) :
    sections p.text = .ok (List.replicate p.blanks ' ' ++ below (p.decls.map dots), below (p.gates.map dots)) := by
  have e0 : p.text = (p.first ++ below p.more) ++ '\n' :: ((('.' :: p.word.text ++ ' ' :: (num p.count ++
      List.replicate p.blanks ' ')) ++ below p.decls) ++ '\n' :: ((lit ".begin" ++ below p.gates) ++
      '\n' :: (lit ".end" ++ p.tail))) := by
    have a1 : lit "\n." = ['\n', '.'] := rfl
    have a2 : lit "\n.begin" = '\n' :: lit ".begin" := rfl
    have a3 : lit "\n.end" = '\n' :: lit ".end" := rfl
    unfold Layout.text
    rw [a1, a2, a3]
    simp only [List.append_assoc, List.cons_append, List.nil_append]
  have hsp : dots (List.replicate p.blanks ' ') = List.replicate p.blanks ' ' := by
    apply dots_nodot
    intro hc
    have := (List.mem_replicate.1 hc).2
    exact absurd this (by decide)
  have hdb : ∀ c ∈ (List.replicate p.blanks ' ').head?, c.isDigit = false := by
    intro c hc
    have := List.mem_of_mem_head? hc
    rw [(List.mem_replicate.1 this).2]
    decide
  have hmk : dots ('.' :: p.word.text ++ ' ' :: (num p.count ++ List.replicate p.blanks ' ')) =
      lit ".qudit " ++ num p.count ++ List.replicate p.blanks ' ' := by
    have hnodot : ∀ w : Text, '.' ∉ w → '.' ∉ w ++ num p.count ++ List.replicate p.blanks ' ' := by
      intro w hw hc
      rcases List.mem_append.1 hc with hc | hc
      · rcases List.mem_append.1 hc with hc | hc
        · exact hw hc
        · have := num_digits _ _ hc
          revert this
          decide
      · have := (List.mem_replicate.1 hc).2
        exact absurd this (by decide)
    have hqd : ∀ pat, (∃ x, x ∈ pat ∧ x ∉ lit ".qudit " ∧ x.isDigit = false ∧ x ≠ ' ') →
        subGo pat (lit ".qudit ") [] 0 (lit ".qudit " ++ num p.count ++ List.replicate p.blanks ' ') =
        lit ".qudit " ++ num p.count ++ List.replicate p.blanks ' ' := by
      rintro pat ⟨x, hx, h1, h2, h3⟩
      apply subGo_absent hx
      intro hc
      rcases List.mem_append.1 hc with hc | hc
      · rcases List.mem_append.1 hc with hc | hc
        · exact h1 hc
        · rw [num_digits _ _ hc] at h2
          cases h2
      · exact h3 (List.mem_replicate.1 hc).2
    have hsp1 : ∀ pat, '.' ∈ pat → subGo pat (lit ".qudit ") [] 0 (List.replicate p.blanks ' ') = List.replicate p.blanks ' ' := by
      intro pat hp
      apply subGo_absent hp
      intro hc
      have := (List.mem_replicate.1 hc).2
      exact absurd this (by decide)
    unfold dots
    cases p.word with
    | qudit =>
      have e : '.' :: Word.qudit.text ++ ' ' :: (num p.count ++ List.replicate p.blanks ' ') =
          lit ".qudit " ++ num p.count ++ List.replicate p.blanks ' ' := by
        rw [List.append_assoc]; rfl
      rw [e, hqd _ ⟨'b', by decide, by decide, by decide, by decide⟩, hqd _ ⟨'r', by decide, by decide, by decide, by decide⟩]
    | qubit =>
      have e : '.' :: Word.qubit.text ++ ' ' :: (num p.count ++ List.replicate p.blanks ' ') =
          lit ".qubit " ++ num p.count ++ List.replicate p.blanks ' ' := by
        rw [List.append_assoc]; rfl
      rw [e, subGo_match (by decide) (num_ne _) (num_digits _) hdb, hsp1 _ (by decide), List.append_nil,
        hqd _ ⟨'r', by decide, by decide, by decide, by decide⟩]
    | qutrit =>
      have e : '.' :: Word.qutrit.text ++ ' ' :: (num p.count ++ List.replicate p.blanks ' ') =
          lit ".qutrit " ++ num p.count ++ List.replicate p.blanks ' ' := by
        rw [List.append_assoc]; rfl
      have e' : subGo (lit ".qubit ") (lit ".qudit ") [] 0 (lit ".qutrit " ++ num p.count ++ List.replicate p.blanks ' ') =
          lit ".qutrit " ++ num p.count ++ List.replicate p.blanks ' ' := by
        apply subGo_absent (x := 'b') (by decide)
        intro hc
        rcases List.mem_append.1 hc with hc | hc
        · rcases List.mem_append.1 hc with hc | hc
          · revert hc; decide
          · have := num_digits _ _ hc
            revert this
            decide
        · exact absurd (List.mem_replicate.1 hc).2 (by decide)
      rw [e, e', subGo_match (by decide) (num_ne _) (num_digits _) hdb, hsp1 _ (by decide), List.append_nil]
  have hend : dots (lit ".end" ++ p.tail) = lit ".end" ++ dots p.tail := rfl
  have hbeg : dots (lit ".begin") = lit ".begin" := rfl
  have e1 : dots p.text = (dots p.first ++ below (p.more.map dots)) ++ '\n' :: (lit ".qudit " ++ num p.count ++
      (List.replicate p.blanks ' ' ++ below (p.decls.map dots) ++ '\n' :: (lit ".begin" ++ (below (p.gates.map dots) ++
      '\n' :: (lit ".end" ++ dots p.tail))))) := by
    rw [e0, dots_append_nl, dots_append_nl, dots_append_nl, dots_below, dots_below, dots_below, hmk, hend, hbeg]
    simp only [List.append_assoc]
  have hl : ∀ ls : List Text, (∀ l ∈ ls, Line l) → ∀ l ∈ ls.map dots, Line l := by
    intro ls hls l hl
    obtain ⟨m, hm, rfl⟩ := List.mem_map.1 hl
    exact dots_line (hls m hm)
  obtain ⟨p1, p2, p3, rest, hs, hrest⟩ := split3 p.count (f := dots p.first) (ls := p.more.map dots)
    (d := List.replicate p.blanks ' ') (ds := p.decls.map dots) (gs := p.gates.map dots) (u := dots p.tail)
    (dotSub2.nl (dotSub1.nl h.first)) (hl _ h.more)
    (fun hc => absurd (List.mem_replicate.1 hc).2 (by decide)) hdb (hl _ h.decls) (hl _ h.gates)
  unfold sections
  rw [← e1] at hs
  change splitGo 0 (subGo _ _ _ 0 (subGo _ _ _ 0 p.text)) = _ at hs
  simp only [hs]
  obtain ⟨r, rest, rfl⟩ := List.exists_cons_of_ne_nil hrest
  rfl

/-! ### Lines, words and numbers -/

theorem splitCh_line {sep : Char} {l : Text} (h : sep ∉ l) : splitCh sep l = [l] := by
  induction l with
  | nil => rfl
  | cons c l ih =>
    rw [splitCh, if_neg (fun e => h (by simp [e])), ih fun e => h (by simp [e])]

theorem splitCh_append {sep : Char} {l : Text} (h : sep ∉ l) (t : Text) :
    splitCh sep (l ++ sep :: t) = l :: splitCh sep t := by
  induction l with
  | nil => rw [List.nil_append, splitCh, if_pos rfl]
  | cons c l ih =>
    rw [List.cons_append, splitCh, if_neg (fun e => h (by simp [e])), ih fun e => h (by simp [e])]

theorem splitCh_below {l : Text} (h : '\n' ∉ l) {ls : List Text} (hls : ∀ l ∈ ls, '\n' ∉ l) :
    splitCh '\n' (l ++ below ls) = l :: ls := by
  induction ls generalizing l with
  | nil => simp only [below, List.flatMap_nil, List.append_nil]; exact splitCh_line h
  | cons m ls ih =>
    have e : l ++ below (m :: ls) = l ++ '\n' :: (m ++ below ls) := rfl
    rw [e, splitCh_append h, ih (hls m (by simp)) fun l hl => hls l (by simp [hl])]

theorem fieldsGo_last {sep : Char → Bool} {cur w : Text} (h : ∀ c ∈ w, sep c = false) (hne : cur ++ w ≠ []) :
    fieldsGo sep cur w = [cur ++ w] := by
  induction w generalizing cur with
  | nil =>
    rw [List.append_nil] at hne ⊢
    rw [fieldsGo, if_neg (by simpa using hne)]
  | cons c w ih =>
    rw [fieldsGo, if_neg (by rw [h c (by simp)]; decide), ih (fun c hc => h c (by simp [hc])) (by simp)]
    simp

theorem fieldsGo_append {sep : Char → Bool} {cur w : Text} (h : ∀ c ∈ w, sep c = false) (hne : cur ++ w ≠ [])
    {x : Char} (hx : sep x = true) (t : Text) : fieldsGo sep cur (w ++ x :: t) = (cur ++ w) :: fieldsGo sep [] t := by
  induction w generalizing cur with
  | nil =>
    rw [List.append_nil] at hne ⊢
    rw [List.nil_append, fieldsGo, if_pos hx, if_neg (by simpa using hne)]
  | cons c w ih =>
    rw [List.cons_append, fieldsGo, if_neg (by rw [h c (by simp)]; decide), ih (fun c hc => h c (by simp [hc])) (by simp)]
    simp

theorem fieldsGo_skip {sep : Char → Bool} {s : Text} (h : ∀ c ∈ s, sep c = true) (t : Text) :
    fieldsGo sep [] (s ++ t) = fieldsGo sep [] t := by
  induction s with
  | nil => rfl
  | cons c s ih =>
    rw [List.cons_append, fieldsGo, if_pos (h c (by simp)), if_pos (by rfl), ih fun c hc => h c (by simp [hc])]

/-- A word: not empty, no blanks. -/
def Wordy (w : Text) : Prop := w ≠ [] ∧ ∀ c ∈ w, isSpace c = false

theorem words_last {w : Text} (h : Wordy w) : words w = [w] := by
  unfold words
  rw [fieldsGo_last h.2 (by simpa using h.1), List.nil_append]

theorem words_append {w : Text} (h : Wordy w) (t : Text) : words (w ++ ' ' :: t) = w :: words t := by
  unfold words
  rw [fieldsGo_append h.2 (by simpa using h.1) (by decide), List.nil_append]

theorem digit_not_space {c : Char} (h : c.isDigit = true) : isSpace c = false := by
  unfold Char.isDigit at h
  unfold isSpace Char.toNat
  simp only [ge_iff_le, Bool.and_eq_true, decide_eq_true_eq] at h
  obtain ⟨h1, h2⟩ := h
  have h1' : 48 ≤ c.val.toNat := h1
  have h2' : c.val.toNat ≤ 57 := h2
  simp only [Bool.or_eq_false_iff, Bool.and_eq_false_iff, decide_eq_false_iff_not]
  omega

theorem wordy_num (n : Nat) : Wordy (num n) := ⟨num_ne n, fun c hc => digit_not_space (num_digits n c hc)⟩

theorem wordy_reg (n : Nat) : Wordy (reg n) := by
  refine ⟨by simp [reg], fun c hc => ?_⟩
  rcases List.mem_cons.1 hc with rfl | hc
  · decide
  · exact digit_not_space (num_digits n c hc)

theorem wordy_intStr (p : Int) : Wordy (intStr p) := by
  unfold intStr
  split
  · exact wordy_num _
  · refine ⟨by simp, fun c hc => ?_⟩
    rcases List.mem_cons.1 hc with rfl | hc
    · decide
    · exact digit_not_space (num_digits _ c hc)

theorem digitsVal_num (n : Nat) : digitsVal (num n) = n := Nat.ofDigitChars_ten_toDigits

theorem numbers_skip {s : Text} (h : ∀ c ∈ s, c.isDigit = false) (t : Text) : numbers (s ++ t) = numbers t := by
  unfold numbers
  exact fieldsGo_skip (fun c hc => by simp [h c hc]) t

theorem numbers_last (n : Nat) : numbers (num n) = [num n] := by
  unfold numbers
  rw [fieldsGo_last (fun c hc => by simp [num_digits n c hc]) (by simpa using num_ne n), List.nil_append]

theorem numbers_append (n : Nat) {x : Char} (hx : x.isDigit = false) (t : Text) :
    numbers (num n ++ x :: t) = num n :: numbers t := by
  unfold numbers
  rw [fieldsGo_append (fun c hc => by simp [num_digits n c hc]) (by simpa using num_ne n) (by simp [hx]), List.nil_append]

theorem firstNum_reg (q : Nat) : firstNum (reg q) = .ok q := by
  unfold firstNum
  have : reg q = ['x'] ++ num q := rfl
  rw [this, numbers_skip (by simp), numbers_last]
  simp only
  rw [digitsVal_num]

theorem firstNum_num (q : Nat) : firstNum (num q) = .ok q := by
  unfold firstNum
  rw [numbers_last]
  simp only
  rw [digitsVal_num]

theorem unsignedInt_num (n : Nat) : unsignedInt (num n) = .ok n := by
  unfold unsignedInt
  rw [splitCh_line Nat.underscore_not_in_toDigits]
  simp only [List.flatten_cons, List.flatten_nil, List.append_nil, digitsVal_num]
  rw [if_pos]
  have := num_ne n
  simp [this]
  intro c hc
  exact num_digits n c hc

theorem strip_wordy {w : Text} (h : Wordy w) : ((w.dropWhile isSpace).reverse.dropWhile isSpace).reverse = w := by
  have key : ∀ l : Text, (∀ c ∈ l, isSpace c = false) → l.dropWhile isSpace = l := by
    intro l hl
    cases l with
    | nil => rfl
    | cons c l => rw [List.dropWhile_cons, if_neg (by rw [hl c (by simp)]; decide)]
  rw [key w h.2, key w.reverse (fun c hc => h.2 c (by simpa using hc)), List.reverse_reverse]

theorem pyInt_intStr (p : Int) : pyInt (intStr p) = .ok p := by
  unfold pyInt
  rw [strip_wordy (wordy_intStr p)]
  by_cases hp : 0 ≤ p
  · have e : intStr p = num p.toNat := by unfold intStr; rw [if_pos hp]
    rw [e]
    have hd : ∀ c ∈ num p.toNat, c.isDigit = true := num_digits _
    have hu := unsignedInt_num p.toNat
    revert hd hu
    generalize num p.toNat = w
    intro hd hu
    split
    · exact absurd (hd '-' (by simp)) (by decide)
    · exact absurd (hd '+' (by simp)) (by decide)
    · rw [hu]
      show Except.ok _ = _
      congr 1
      omega
  · have e : intStr p = '-' :: num (-p).toNat := by unfold intStr; rw [if_neg hp]
    rw [e]
    simp only
    rw [unsignedInt_num]
    show Except.ok _ = _
    congr 1
    omega

/-! ### The calls of the lines -/

section
variable {R : Type}

theorem lineCall_ignored {l : Text} (h : Ignored l) : lineCall (R := R) l = .ok none := by
  obtain ⟨h1, h2⟩ := h
  simp only [List.mem_cons, List.not_mem_nil, or_false, forall_eq_or_imp, forall_eq] at h1
  obtain ⟨a, b, c, d, e, f⟩ := h1
  simp only [← List.isPrefixOf_iff_prefix, ← List.isSuffixOf_iff_suffix, Bool.not_eq_true] at a b c d e f h2
  unfold lineCall
  rw [if_neg, if_neg (by rw [b]; decide), if_neg (by rw [c]; decide), if_neg (by rw [d, e]; decide),
    if_neg (by rw [f]; decide)]
  rw [a, Bool.false_or, Bool.and_eq_true]
  exact h2

theorem word_of {g : Text} {ws : List Text} (h : words g = ws) (i : Nat) (hi : i < ws.length) :
    word g i = .ok ws[i] := by
  unfold word
  rw [h, List.getElem?_eq_getElem hi]

theorem wordy_of {w : Text} (h : w.all (fun c => !isSpace c) = true) (hne : w ≠ []) : Wordy w :=
  ⟨hne, fun c hc => by simpa using List.all_eq_true.1 h c hc⟩

theorem pre {p s : Text} : p.isPrefixOf (p ++ s) = true := by
  rw [List.isPrefixOf_iff_prefix]; exact List.prefix_append ..

theorem nodot_num (n : Nat) : '.' ∉ num n := fun h => by
  have := num_digits n _ h
  revert this
  decide

theorem nodot_intStr (p : Int) : '.' ∉ intStr p := by
  unfold intStr
  split
  · exact nodot_num _
  · intro h
    rcases List.mem_cons.1 h with h | h
    · revert h; decide
    · exact nodot_num _ h

theorem nodot_reg (n : Nat) : '.' ∉ reg n := by
  intro h
  rcases List.mem_cons.1 h with h | h
  · revert h; decide
  · exact nodot_num _ h

theorem nodot_append {a b : Text} (ha : '.' ∉ a) (hb : '.' ∉ b) : '.' ∉ a ++ b := fun h => by
  rcases List.mem_append.1 h with h | h
  · exact ha h
  · exact hb h

theorem dots_instr {i : Instr} (hi : ∀ l, i ≠ .note l) : dots i.line = i.line := by
  apply dots_nodot
  cases i with
  | note l => exact absurd rfl (hi l)
  | x q => exact nodot_append (by decide) (nodot_reg q)
  | xPlus q p => exact nodot_append (nodot_append (nodot_append (by decide) (nodot_reg q)) (by decide)) (nodot_intStr p)
  | rx q => exact nodot_append (nodot_append (by decide) (nodot_reg q)) (by decide)
  | h q => exact nodot_append (by decide) (nodot_reg q)
  | z q => exact nodot_append (by decide) (nodot_reg q)
  | cx c t => exact nodot_append (nodot_append (nodot_append (by decide) (nodot_reg c)) (by decide)) (nodot_reg t)
  | cxPlus c t p =>
    exact nodot_append (nodot_append (nodot_append (nodot_append (nodot_append (by decide) (nodot_reg c)) (by decide))
      (nodot_reg t)) (by decide)) (nodot_num p)
  | cnot c t => exact nodot_append (nodot_append (nodot_append (by decide) (nodot_reg c)) (by decide)) (nodot_reg t)
  | toffoli a b c =>
    exact nodot_append (nodot_append (nodot_append (nodot_append (nodot_append (by decide) (nodot_reg a)) (by decide))
      (nodot_reg b)) (by decide)) (nodot_reg c)

theorem lits3 (w a b : Text) : w ++ [' '] ++ a ++ [' '] ++ b = w ++ ' ' :: (a ++ ' ' :: b) := by simp

theorem lits4 (w a b c : Text) : w ++ [' '] ++ a ++ [' '] ++ b ++ [' '] ++ c = w ++ ' ' :: (a ++ ' ' :: (b ++ ' ' :: c)) := by simp

theorem lineCall_instr {i : Instr} (hi : i.Ok) : lineCall (R := R) (dots i.line) = .ok i.call := by
  have hX := wordy_of (w := lit "X") rfl (by decide)
  have hRX := wordy_of (w := lit "RX") rfl (by decide)
  have h180 := wordy_of (w := lit "180") rfl (by decide)
  have hH := wordy_of (w := lit "H") rfl (by decide)
  have hZ := wordy_of (w := lit "Z") rfl (by decide)
  have hCX := wordy_of (w := lit "CX") rfl (by decide)
  have hCN := wordy_of (w := lit "CNOT") rfl (by decide)
  cases i with
  | note l => exact lineCall_ignored (dots_ignored hi.2)
  | x q =>
    rw [dots_instr (by simp)]
    have hw : words (Instr.x q).line = [lit "X", reg q] := by
      show words (lit "X" ++ ' ' :: reg q) = _
      rw [words_append hX, words_last (wordy_reg q)]
    unfold lineCall
    rw [if_pos (by rfl), word_of hw 1 (by simp), hw]
    show (firstNum (reg q) >>= _) = _
    rw [firstNum_reg]
    rfl
  | xPlus q p =>
    rw [dots_instr (by simp)]
    have hw : words (Instr.xPlus q p).line = [lit "X", reg q, intStr p] := by
      have e : (Instr.xPlus q p).line = lit "X" ++ ' ' :: (reg q ++ ' ' :: intStr p) := lits3 (lit "X") _ _
      rw [e, words_append hX, words_append (wordy_reg q), words_last (wordy_intStr p)]
    unfold lineCall
    rw [if_pos (by rfl), word_of hw 1 (by simp), word_of hw 2 (by simp), hw]
    show (pyInt (intStr p) >>= _) = _
    rw [pyInt_intStr]
    show (firstNum (reg q) >>= _) = _
    rw [firstNum_reg]
    rfl
  | rx q =>
    rw [dots_instr (by simp)]
    have hw : words (Instr.rx q).line = [lit "RX", reg q, lit "180"] := by
      have e : (Instr.rx q).line = lit "RX" ++ ' ' :: (reg q ++ ' ' :: lit "180") := by
        show lit "RX " ++ reg q ++ (' ' :: lit "180") = _
        rw [List.append_assoc]; rfl
      rw [e, words_append hRX, words_append (wordy_reg q), words_last h180]
    have hsuf : (lit "180").isSuffixOf (Instr.rx q).line = true := by
      rw [List.isSuffixOf_iff_suffix]
      exact ⟨lit "RX " ++ reg q ++ [' '], by rw [List.append_assoc]; rfl⟩
    unfold lineCall
    rw [if_pos (by rw [hsuf]; rfl), word_of hw 1 (by simp), word_of hw 2 (by simp), hw]
    show (firstNum (reg q) >>= _) = _
    rw [firstNum_reg]
    rfl
  | h q =>
    rw [dots_instr (by simp)]
    have hw : words (Instr.h q).line = [lit "H", reg q] := by
      show words (lit "H" ++ ' ' :: reg q) = _
      rw [words_append hH, words_last (wordy_reg q)]
    unfold lineCall
    rw [if_neg (by intro h; cases h), if_pos (by rfl), word_of hw 1 (by simp)]
    show (firstNum (reg q) >>= _) = _
    rw [firstNum_reg]
    rfl
  | z q =>
    rw [dots_instr (by simp)]
    have hw : words (Instr.z q).line = [lit "Z", reg q] := by
      show words (lit "Z" ++ ' ' :: reg q) = _
      rw [words_append hZ, words_last (wordy_reg q)]
    unfold lineCall
    rw [if_neg (by intro h; cases h), if_neg (by intro h; cases h), if_pos (by rfl), word_of hw 1 (by simp)]
    show (firstNum (reg q) >>= _) = _
    rw [firstNum_reg]
    rfl
  | cx c t =>
    rw [dots_instr (by simp)]
    have hw : words (Instr.cx c t).line = [lit "CX", reg c, reg t] := by
      have e : (Instr.cx c t).line = lit "CX" ++ ' ' :: (reg c ++ ' ' :: reg t) := lits3 (lit "CX") _ _
      rw [e, words_append hCX, words_append (wordy_reg c), words_last (wordy_reg t)]
    unfold lineCall
    rw [if_neg (by intro h; cases h), if_neg (by intro h; cases h), if_neg (by intro h; cases h), if_pos (by rfl),
      word_of hw 1 (by simp), word_of hw 2 (by simp), hw]
    show (firstNum (reg c) >>= _) = _
    rw [firstNum_reg]
    show (firstNum (reg t) >>= _) = _
    rw [firstNum_reg]
    rfl
  | cxPlus c t p =>
    rw [dots_instr (by simp)]
    have hw : words (Instr.cxPlus c t p).line = [lit "CX", reg c, reg t, num p] := by
      have e : (Instr.cxPlus c t p).line = lit "CX" ++ ' ' :: (reg c ++ ' ' :: (reg t ++ ' ' :: num p)) :=
        lits4 (lit "CX") _ _ _
      rw [e, words_append hCX, words_append (wordy_reg c), words_append (wordy_reg t), words_last (wordy_num p)]
    unfold lineCall
    rw [if_neg (by intro h; cases h), if_neg (by intro h; cases h), if_neg (by intro h; cases h), if_pos (by rfl),
      word_of hw 1 (by simp), word_of hw 2 (by simp), word_of hw 3 (by simp), hw]
    show (firstNum (reg c) >>= _) = _
    rw [firstNum_reg]
    show (firstNum (reg t) >>= _) = _
    rw [firstNum_reg]
    show (firstNum (num p) >>= _) = _
    rw [firstNum_num]
    rfl
  | cnot c t =>
    rw [dots_instr (by simp)]
    have hw : words (Instr.cnot c t).line = [lit "CNOT", reg c, reg t] := by
      have e : (Instr.cnot c t).line = lit "CNOT" ++ ' ' :: (reg c ++ ' ' :: reg t) := lits3 (lit "CNOT") _ _
      rw [e, words_append hCN, words_append (wordy_reg c), words_last (wordy_reg t)]
    unfold lineCall
    rw [if_neg (by intro h; cases h), if_neg (by intro h; cases h), if_neg (by intro h; cases h), if_pos (by rfl),
      word_of hw 1 (by simp), word_of hw 2 (by simp), hw]
    show (firstNum (reg c) >>= _) = _
    rw [firstNum_reg]
    show (firstNum (reg t) >>= _) = _
    rw [firstNum_reg]
    rfl
  | toffoli a b c =>
    rw [dots_instr (by simp)]
    have hn : numbers (Instr.toffoli a b c).line = [num a, num b, num c] := by
      have e : (Instr.toffoli a b c).line = lit "Toffoli x" ++ (num a ++ ',' :: (lit " x" ++ (num b ++ ',' :: (lit " x" ++
          num c)))) := by
        show lit "Toffoli " ++ ('x' :: num a) ++ [',', ' '] ++ ('x' :: num b) ++ [',', ' '] ++ ('x' :: num c) = _
        have e1 : lit "Toffoli x" = lit "Toffoli " ++ ['x'] := rfl
        have e2 : lit " x" = [' ', 'x'] := rfl
        rw [e1, e2]
        simp only [List.append_assoc, List.cons_append, List.nil_append]
      rw [e, numbers_skip (s := lit "Toffoli x") (by decide), numbers_append a (by decide),
        numbers_skip (s := lit " x") (by decide), numbers_append b (by decide), numbers_skip (s := lit " x") (by decide),
        numbers_last]
    unfold lineCall
    rw [if_neg (by intro h; cases h), if_neg (by intro h; cases h), if_neg (by intro h; cases h),
      if_neg (by intro h; cases h), if_pos (by rfl), hn]
    simp only [List.map_cons, List.map_nil, digitsVal_num]
    rfl

end

end Qasm

end QuDiet
