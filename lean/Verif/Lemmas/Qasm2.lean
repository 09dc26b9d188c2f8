import Verif.Lemmas.Qasm

/-! # The sections of a QASM program -/

namespace QuDiet

namespace Qasm

/-! ### The declarations -/

theorem dimsGo_append {x : Char} (hx : x.isDigit = false) (hp : x ≠ ')') (cur s r : Text) :
    dimsGo cur (s ++ x :: r) = dimsGo cur s ++ dimsGo [] r := by
  induction s generalizing cur with
  | nil =>
    show dimsGo cur (x :: r) = dimsGo [] r
    conv_lhs => rw [dimsGo]
    rw [if_neg (by rw [hx]; decide), if_neg (by simp [hp])]
  | cons c s ih =>
    rw [List.cons_append, dimsGo, dimsGo]
    split
    · exact ih _
    · split
      · rw [ih]; rfl
      · exact ih _

theorem dimsGo_below (l : Text) (ls : List Text) : dimsGo [] (l ++ below ls) = dimsGo [] l ++ ls.flatMap (dimsGo []) := by
  induction ls generalizing l with
  | nil => simp [below]
  | cons m ls ih =>
    have e : l ++ below (m :: ls) = l ++ '\n' :: (m ++ below ls) := rfl
    rw [e, dimsGo_append (by decide) (by decide), ih, List.flatMap_cons]

theorem dimsGo_none {s : Text} (h : ')' ∉ s) (cur : Text) : dimsGo cur s = [] := by
  induction s generalizing cur with
  | nil => rfl
  | cons c s ih =>
    rw [dimsGo]
    have : c ≠ ')' := fun e => h (by simp [e])
    rw [ih fun e => h (by simp [e]), ih fun e => h (by simp [e])]
    simp [this]

theorem dimsGo_num (cur : Text) {ds : Text} (h : ∀ c ∈ ds, c.isDigit = true) (hne : cur ++ ds ≠ []) :
    dimsGo cur (ds ++ [')']) = [cur ++ ds] := by
  induction ds generalizing cur with
  | nil =>
    rw [List.append_nil] at hne ⊢
    rw [List.nil_append, dimsGo, if_neg (by decide), if_pos (by simp [hne])]
    rfl
  | cons c ds ih =>
    rw [List.cons_append, dimsGo, if_pos (h c (by simp)), ih _ (fun c hc => h c (by simp [hc])) (by simp)]
    simp

/-- The substitutions in the declarations. -/
def decls2 (t : Text) : Text :=
  subGo (lit "qutrit x") (lit "qudit x") (lit " (3)") 0 (subGo (lit "qubit x") (lit "qudit x") (lit " (2)") 0 t)

theorem decls2_below (l : Text) (ls : List Text) : decls2 (l ++ below ls) = decls2 l ++ below (ls.map decls2) := by
  unfold decls2 below
  rw [subGo_lines (by decide) (by decide), subGo_lines (by decide) (by decide), List.map_map]
  rfl

theorem decls2_noq {t : Text} (h : 'q' ∉ t) : decls2 t = t := by
  unfold decls2
  rw [subGo_absent (x := 'q') (by decide) h, subGo_absent (x := 'q') (by decide) h]

theorem notin_append {x : Char} {a b : Text} (ha : x ∉ a) (hb : x ∉ b) : x ∉ a ++ b := fun h => by
  rcases List.mem_append.1 h with h | h
  · exact ha h
  · exact hb h

theorem notin_num {x : Char} (hx : x.isDigit = false) (n : Nat) : x ∉ num n := fun h => by
  rw [num_digits n _ h] at hx
  cases hx

/-- The line of a `qudit` declaration. -/
def quditLine (n d : Nat) : Text := lit "qudit x" ++ num n ++ lit " (" ++ num d ++ lit ")"

theorem notin_qudit {x : Char} (h1 : x ∉ lit "qudit x") (h2 : x.isDigit = false) (h3 : x ∉ lit " (") (h4 : x ≠ ')')
    (n d : Nat) : x ∉ quditLine n d :=
  notin_append (notin_append (notin_append (notin_append h1 (notin_num h2 n)) h3) (notin_num h2 d))
    (fun h => h4 (List.mem_singleton.1 h))

theorem decls2_line {d : Decl} (h : d.Ok) :
    dimsGo [] (decls2 (dots d.line)) = (d.dim.map num).toList := by
  have hq : ∀ n k, dimsGo [] (quditLine n k) = [num k] := by
    intro n k
    have e : quditLine n k = (lit "qudit x" ++ num n ++ [' ']) ++ '(' :: (num k ++ [')']) := by
      have e1 : lit " (" = [' ', '('] := rfl
      have e2 : lit ")" = [')'] := rfl
      unfold quditLine
      rw [e1, e2]
      simp only [List.append_assoc, List.cons_append, List.nil_append]
    rw [e, dimsGo_append (by decide) (by decide), dimsGo_none, dimsGo_num [] (num_digits k) (by simpa using num_ne k)]
    · rfl
    · exact notin_append (notin_append (by decide) (notin_num (by decide) n)) (by decide)
  cases d with
  | note l =>
    obtain ⟨_, h2, h3⟩ := h
    show dimsGo [] (decls2 (dots l)) = []
    rw [dots_noq h2, decls2_noq h2, dimsGo_none h3]
  | qudit n k =>
    show dimsGo [] (decls2 (dots (quditLine n k))) = [num k]
    rw [dots_nodot (notin_qudit (by decide) (by decide) (by decide) (by decide) n k)]
    unfold decls2
    rw [subGo_absent (x := 'b') (by decide) (notin_qudit (by decide) (by decide) (by decide) (by decide) n k),
      subGo_absent (x := 'r') (by decide) (notin_qudit (by decide) (by decide) (by decide) (by decide) n k), hq]
  | qubit n =>
    show dimsGo [] (decls2 (dots (lit "qubit x" ++ num n))) = [num 2]
    rw [dots_nodot (notin_append (by decide) (notin_num (by decide) n))]
    have e : lit "qubit x" ++ num n = lit "qubit x" ++ num n ++ [] := (List.append_nil _).symm
    unfold decls2
    rw [e, subGo_match (by decide) (num_ne n) (num_digits n) (by simp), subGo_nil, List.append_nil]
    have e2 : lit "qudit x" ++ num n ++ lit " (2)" = quditLine n 2 := by
      unfold quditLine
      simp only [List.append_assoc]
      rfl
    rw [e2, subGo_absent (x := 'r') (by decide) (notin_qudit (by decide) (by decide) (by decide) (by decide) n 2), hq]
  | qutrit n =>
    show dimsGo [] (decls2 (dots (lit "qutrit x" ++ num n))) = [num 3]
    rw [dots_nodot (notin_append (by decide) (notin_num (by decide) n))]
    have e : lit "qutrit x" ++ num n = lit "qutrit x" ++ num n ++ [] := (List.append_nil _).symm
    unfold decls2
    rw [subGo_absent (x := 'b') (by decide) (notin_append (by decide) (notin_num (by decide) n)),
      e, subGo_match (by decide) (num_ne n) (num_digits n) (by simp), subGo_nil, List.append_nil]
    have e2 : lit "qudit x" ++ num n ++ lit " (3)" = quditLine n 3 := by
      unfold quditLine
      simp only [List.append_assoc]
      rfl
    rw [e2, hq]

theorem declared_text {ds : List Decl} (h : ∀ d ∈ ds, d.Ok) (k : Nat) :
    declared (List.replicate k ' ' ++ below ((ds.map Decl.line).map dots)) =
      (ds.filterMap Decl.dim).map fun d : Nat => (d : Int) := by
  show (dimsGo [] (decls2 _)).map _ = _
  have hb : ∀ x : Char, x ≠ ' ' → x ∉ List.replicate k ' ' := fun x hx hc => hx (List.mem_replicate.1 hc).2
  rw [decls2_below, dimsGo_below, decls2_noq (hb _ (by decide)), dimsGo_none (hb _ (by decide)), List.nil_append]
  induction ds with
  | nil => rfl
  | cons d ds ih =>
    rw [List.map_cons, List.map_cons, List.map_cons, List.flatMap_cons, List.map_append,
      ih fun d hd => h d (by simp [hd]), decls2_line (h d (by simp)), List.filterMap_cons]
    cases d.dim with
    | none => rfl
    | some k =>
      show [((digitsVal (num k) : Nat) : Int)] ++ _ = _
      rw [digitsVal_num]
      rfl

/-! ### The middle registers -/

theorem eatLit_append (p t : Text) : eatLit p (p ++ t) = some t := by
  unfold eatLit
  rw [if_pos (by rw [List.isPrefixOf_iff_prefix]; exact List.prefix_append ..), List.drop_left]

theorem eatMany_append {p : Char → Bool} {w : Text} (hne : w ≠ []) (h : ∀ c ∈ w, p c = true) {r : Text}
    (hr : ∀ c ∈ r.head?, p c = false) : eatMany p (w ++ r) = some (w, r) := by
  unfold eatMany
  have h1 : (w ++ r).takeWhile p = w := by
    rw [List.takeWhile_append_of_pos h]
    cases r with
    | nil => simp
    | cons c r => rw [List.takeWhile_cons, if_neg (by rw [hr c rfl]; decide), List.append_nil]
  have h2 : (w ++ r).dropWhile p = r := by
    rw [List.dropWhile_append_of_pos h]
    cases r with
    | nil => rfl
    | cons c r => rw [List.dropWhile_cons, if_neg (by rw [hr c rfl]; decide)]
  simp only [h1, h2]
  rw [if_neg (by simpa using hne)]

/-- The line of a Toffoli. -/
def tofLine (a b c : Nat) : Text := (Instr.toffoli a b c).line

theorem matchTof_line (a b c : Nat) {r : Text} (hr : ∀ x ∈ r.head?, x.isDigit = false) :
    matchTof (tofLine a b c ++ r) = some (num b, r) := by
  have e : tofLine a b c ++ r = lit "Toffoli x" ++ (num a ++ ([',', ' '] ++ (lit "x" ++ (num b ++ ([',', ' '] ++ (lit "x" ++
      (num c ++ r))))))) := by
    have e0 : tofLine a b c = lit "Toffoli " ++ ('x' :: num a) ++ [',', ' '] ++ ('x' :: num b) ++ [',', ' '] ++ ('x' :: num c) :=
      rfl
    have e1 : lit "Toffoli x" = lit "Toffoli " ++ ['x'] := rfl
    have e2 : lit "x" = ['x'] := rfl
    rw [e0, e1, e2]
    simp only [List.append_assoc, List.cons_append, List.nil_append]
  have hs : ∀ X : Text, eatMany (fun c => c == ',' || c == ' ') ([',', ' '] ++ (lit "x" ++ X)) = some ([',', ' '], lit "x" ++ X) := by
    intro X
    apply eatMany_append (by decide) (by decide)
    intro c hc
    have : c = 'x' := by
      have e : (lit "x" ++ X).head? = some 'x' := rfl
      rw [e] at hc
      exact (Option.some.inj hc).symm
    subst this
    decide
  have hn : ∀ (n : Nat) (X : Text), eatMany Char.isDigit (num n ++ ([',', ' '] ++ X)) = some (num n, [',', ' '] ++ X) := by
    intro n X
    apply eatMany_append (num_ne n) (num_digits n)
    intro c hc
    have : c = ',' := (Option.some.inj hc).symm
    subst this
    decide
  unfold matchTof
  rw [e, eatLit_append]
  simp only [Option.bind_eq_bind, Option.bind_some, hn, hs, eatLit_append]
  rw [eatMany_append (num_ne c) (num_digits c) hr]
  rfl

theorem subTof_nil (k : Nat) : subTof k [] = [] := by cases k <;> rfl

theorem subTof_drop (k : Nat) (t : Text) : subTof k t = subTof 0 (t.drop k) := by
  induction k generalizing t with
  | zero => rfl
  | succ k ih =>
    cases t with
    | nil => rw [subTof_nil, List.drop_nil, subTof_nil]
    | cons c t => rw [List.drop_succ_cons, ← ih]; rfl

theorem subTof_line (a b c : Nat) {r : Text} (hr : ∀ x ∈ r.head?, x.isDigit = false) :
    subTof 0 (tofLine a b c ++ r) = num b ++ subTof 0 r := by
  obtain ⟨u, hu⟩ : ∃ u, tofLine a b c = 'T' :: u := ⟨_, rfl⟩
  have hm := matchTof_line a b c hr
  rw [hu, List.cons_append] at hm ⊢
  rw [subTof, hm]
  simp only
  rw [subTof_drop]
  congr 2
  rw [List.drop_left']
  simp

theorem subTof_sep (r : Text) : subTof 0 (';' :: r) = ';' :: subTof 0 r := rfl

/-- The operands of the Toffoli lines. -/
def Instr.operands : Instr → Option (Nat × Nat × Nat)
  | .toffoli a b c => some (a, b, c)
  | _ => none

theorem subTof_all (x : Nat × Nat × Nat) (l : List (Nat × Nat × Nat)) :
    splitCh ';' (subTof 0 ([';'].intercalate ((x :: l).map fun x => tofLine x.1 x.2.1 x.2.2))) =
      (x :: l).map fun x => num x.2.1 := by
  induction l generalizing x with
  | nil =>
    have e : [';'].intercalate ([x].map fun x => tofLine x.1 x.2.1 x.2.2) = tofLine x.1 x.2.1 x.2.2 ++ [] := by
      simp
    rw [e, subTof_line _ _ _ (by simp), subTof_nil, List.append_nil, splitCh_line (notin_num (by decide) _)]
    rfl
  | cons y l ih =>
    have e : [';'].intercalate ((x :: y :: l).map fun x => tofLine x.1 x.2.1 x.2.2) =
        tofLine x.1 x.2.1 x.2.2 ++ ';' :: [';'].intercalate ((y :: l).map fun x => tofLine x.1 x.2.1 x.2.2) := by
      simp [List.intercalate]
    rw [e, subTof_line _ _ _ (by simp), subTof_sep, splitCh_append (notin_num (by decide) _), ih]
    rfl

theorem pyInt_num (n : Nat) : pyInt (num n) = .ok n := by
  have := pyInt_intStr (n : Int)
  unfold intStr at this
  rw [if_pos (by omega)] at this
  simpa using this

theorem filter_tof {is : List Instr} (h : ∀ i ∈ is, i.Ok) :
    (((is.map Instr.line).map dots).filter fun g => !g.isEmpty).filter (fun g => (lit "Toffoli").isPrefixOf g) =
      (is.filterMap Instr.operands).map fun x => tofLine x.1 x.2.1 x.2.2 := by
  induction is with
  | nil => rfl
  | cons i is ih =>
    have IH := ih fun i hi => h i (by simp [hi])
    rw [List.map_cons, List.map_cons, List.filter_cons]
    cases i with
    | toffoli a b c =>
      rw [dots_instr (by simp)]
      rw [if_pos (by rfl), List.filter_cons, if_pos (by rfl), IH]
      rfl
    | note l =>
      have hno : ¬ (lit "Toffoli").isPrefixOf (dots l) = true := by
        rw [List.isPrefixOf_iff_prefix]
        exact (dots_ignored (h (.note l) (by simp)).2).1 "Toffoli" (by simp)
      rw [List.filterMap_cons]
      show (if (!(dots l).isEmpty) = true then dots l :: _ else _ : List Text).filter _ =
        (is.filterMap Instr.operands).map _
      split
      · rw [List.filter_cons, if_neg hno]
        exact IH
      · exact IH
    | _ =>
      rw [dots_instr (by simp), if_pos (by rfl), List.filter_cons, if_neg (by intro h; cases h)]
      exact IH

theorem middles_text {is : List Instr} (h : ∀ i ∈ is, i.Ok) :
    middles (((is.map Instr.line).map dots).filter fun g => !g.isEmpty) =
      .ok ((is.filterMap Instr.middle).map fun b : Nat => (b : Int)) := by
  unfold middles
  simp only
  rw [filter_tof h]
  have hmid : is.filterMap Instr.middle = (is.filterMap Instr.operands).map fun x => x.2.1 := by
    rw [List.map_filterMap]
    congr 1
    funext i
    cases i <;> rfl
  rw [hmid]
  cases is.filterMap Instr.operands with
  | nil => rfl
  | cons x l =>
    rw [if_neg (by simp), subTof_all, List.mapM_map, List.map_map]
    generalize x :: l = l
    induction l with
    | nil => rfl
    | cons x l ih =>
      rw [List.mapM_cons, ih]
      simp only [Function.comp, pyInt_num]
      rfl

theorem nodot_head {c : Char} (h : c ≠ '.') (r : Text) : (c :: r).head? ≠ some '.' := fun e => h (Option.some.inj e)

/-! ### The program -/

section
variable {R : Type} [CommRing R]

theorem lineStep_none {g : Text} (h : lineCall (R := R) g = .ok none) (c : Circuit R) : lineStep c g = .ok c := by
  unfold lineStep
  rw [h]
  rfl

theorem lineStep_nil (c : Circuit R) : lineStep c [] = .ok c := lineStep_none rfl c

theorem foldlM_nonempty (ls : List Text) (c : Circuit R) :
    (ls.filter fun g => !g.isEmpty).foldlM lineStep c = ls.foldlM lineStep c := by
  induction ls generalizing c with
  | nil => rfl
  | cons l ls ih =>
    cases l with
    | nil => rw [List.filter_cons, if_neg (by simp), List.foldlM_cons, lineStep_nil]; exact ih c
    | cons a l =>
      rw [List.filter_cons, if_pos (by rfl), List.foldlM_cons, List.foldlM_cons]
      congr 1
      funext c
      exact ih c

theorem foldlM_instrs {is : List Instr} (h : ∀ i ∈ is, i.Ok) (c : Circuit R) :
    ((is.map Instr.line).map dots).foldlM lineStep c =
      (is.filterMap (Instr.call (R := R))).foldlM (fun c k => do .ok (← c.callM k).1) c := by
  induction is generalizing c with
  | nil => rfl
  | cons i is ih =>
    have IH := ih fun i hi => h i (by simp [hi])
    rw [List.map_cons, List.map_cons, List.foldlM_cons, List.filterMap_cons]
    unfold lineStep
    rw [lineCall_instr (h i (by simp))]
    cases i.call with
    | none => exact IH c
    | some k =>
      rw [List.foldlM_cons]
      show (do let c ← (do .ok (← c.callM k).1 : PyM (Circuit R)); _) = _
      congr 1
      funext c
      exact IH c

theorem instr_line {i : Instr} (h : i.Ok) : Line i.line := by
  have hd : ∀ n, '\n' ∉ num n := notin_num (by decide)
  have hr : ∀ n, '\n' ∉ reg n := by
    intro n h
    rcases List.mem_cons.1 h with h | h
    · revert h; decide
    · exact hd _ h
  have hi : ∀ p, '\n' ∉ intStr p := by
    intro p
    unfold intStr
    split
    · exact hd _
    · intro h
      rcases List.mem_cons.1 h with h | h
      · revert h; decide
      · exact hd _ h
  cases i with
  | note l => exact h.1
  | x q =>
    exact ⟨(notin_append (by decide) (hr q) : '\n' ∉ lit "X " ++ reg q), nodot_head (c := 'X') (by decide) _⟩
  | xPlus q p =>
    exact ⟨(notin_append (notin_append (notin_append (by decide) (hr q)) (by decide)) (hi p) :
      '\n' ∉ lit "X " ++ reg q ++ lit " " ++ intStr p), nodot_head (c := 'X') (by decide) _⟩
  | rx q =>
    exact ⟨(notin_append (notin_append (by decide) (hr q)) (by decide) : '\n' ∉ lit "RX " ++ reg q ++ lit " 180"),
      nodot_head (c := 'R') (by decide) _⟩
  | h q =>
    exact ⟨(notin_append (by decide) (hr q) : '\n' ∉ lit "H " ++ reg q), nodot_head (c := 'H') (by decide) _⟩
  | z q =>
    exact ⟨(notin_append (by decide) (hr q) : '\n' ∉ lit "Z " ++ reg q), nodot_head (c := 'Z') (by decide) _⟩
  | cx c t =>
    exact ⟨(notin_append (notin_append (notin_append (by decide) (hr c)) (by decide)) (hr t) :
      '\n' ∉ lit "CX " ++ reg c ++ lit " " ++ reg t), nodot_head (c := 'C') (by decide) _⟩
  | cxPlus c t p =>
    exact ⟨(notin_append (notin_append (notin_append (notin_append (notin_append (by decide) (hr c)) (by decide))
      (hr t)) (by decide)) (hd p) : '\n' ∉ lit "CX " ++ reg c ++ lit " " ++ reg t ++ lit " " ++ num p),
      nodot_head (c := 'C') (by decide) _⟩
  | cnot c t =>
    exact ⟨(notin_append (notin_append (notin_append (by decide) (hr c)) (by decide)) (hr t) :
      '\n' ∉ lit "CNOT " ++ reg c ++ lit " " ++ reg t), nodot_head (c := 'C') (by decide) _⟩
  | toffoli a b c =>
    exact ⟨(notin_append (notin_append (notin_append (notin_append (notin_append (by decide) (hr a)) (by decide))
      (hr b)) (by decide)) (hr c) : '\n' ∉ lit "Toffoli " ++ reg a ++ lit ", " ++ reg b ++ lit ", " ++ reg c),
      nodot_head (c := 'T') (by decide) _⟩

theorem decl_line {d : Decl} (h : d.Ok) : Line d.line := by
  have hd : ∀ n, '\n' ∉ num n := notin_num (by decide)
  cases d with
  | note l => exact h.1
  | qudit n d =>
    exact ⟨(notin_qudit (by decide) (by decide) (by decide) (by decide) n d : '\n' ∉ quditLine n d),
      nodot_head (c := 'q') (by decide) _⟩
  | qubit n =>
    exact ⟨(notin_append (by decide) (hd n) : '\n' ∉ lit "qubit x" ++ num n), nodot_head (c := 'q') (by decide) _⟩
  | qutrit n =>
    exact ⟨(notin_append (by decide) (hd n) : '\n' ∉ lit "qutrit x" ++ num n), nodot_head (c := 'q') (by decide) _⟩

theorem layout_ok {p : Program} (h : p.Ok) : p.layout.Ok where
  first := h.first
  more := h.more
  decls := by
    intro l hl
    obtain ⟨d, hd, rfl⟩ := List.mem_map.1 hl
    exact decl_line (h.decls d hd)
  gates := by
    intro l hl
    obtain ⟨d, hd, rfl⟩ := List.mem_map.1 hl
    exact instr_line (h.instrs d hd)

theorem dims_text (p : Program) : enlarge ((p.instrs.filterMap Instr.middle).map fun b : Nat => (b : Int))
    (p.declared.map fun d : Nat => (d : Int)) = p.dims.map Int.ofNat := by
  unfold enlarge Program.dims
  rw [List.zipIdx_map, List.map_map, List.map_map]
  apply List.map_congr_left
  rintro ⟨d, i⟩ _
  simp only [Function.comp, Prod.map_apply, id_eq, List.mem_map, Nat.cast_inj, exists_eq_right]
  split <;> simp

theorem program_circuit {p : Program} (h : p.Ok) : circuitFromQasm (R := R) p.text = build p.dims p.calls := by
  unfold circuitFromQasm
  unfold Program.text
  rw [sections_text (layout_ok h)]
  show fromSections (R := R) (List.replicate p.blanks ' ' ++ below ((p.decls.map Decl.line).map dots))
    (below ((p.instrs.map Instr.line).map dots)) = _
  unfold fromSections
  have hsp : splitCh '\n' (below ((p.instrs.map Instr.line).map dots)) = [] :: (p.instrs.map Instr.line).map dots := by
    refine splitCh_below (l := []) (by simp) ?_
    intro l hl
    obtain ⟨m, hm, rfl⟩ := List.mem_map.1 hl
    exact (dots_line ((layout_ok h).gates m hm)).one
  rw [hsp, List.filter_cons, if_neg (by simp)]
  simp only [middles_text h.instrs, declared_text h.decls]
  have hdim := dims_text p
  unfold Program.declared at hdim
  show (do
    let c ← Circuit.new (R := R) (.list (enlarge _ _)) []
    let c ← (((p.instrs.map Instr.line).map dots).filter fun g : Text => !g.isEmpty).foldlM lineStep c
    .ok (← c.callM .measureAll).1) = _
  rw [hdim]
  unfold build
  congr 1
  funext c
  rw [foldlM_nonempty, foldlM_instrs h.instrs, List.foldlM_append]
  congr 1
  funext c
  rw [List.foldlM_cons]
  cases c.callM .measureAll <;> rfl

end

end Qasm

end QuDiet
