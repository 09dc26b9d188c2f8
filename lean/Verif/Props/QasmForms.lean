import Verif.QasmForms
import Verif.Props.Qasm

/-! # C52: how the lines of the gate section may be written -/

namespace QuDiet

namespace Qasm

theorem words_spelled {l : Text} {ws : List Text} (h : Spelled l ws) : words l = ws := by
  unfold words
  induction h with
  | @last w s hw hn hs =>
    cases s with
    | nil => rw [List.append_nil, fieldsGo_last hn (by simpa using hw), List.nil_append]
    | cons x s =>
      rw [fieldsGo_append hn (by simpa using hw) (hs x (by simp)), List.nil_append]
      have := fieldsGo_skip (sep := isSpace) (s := s) (fun c hc => hs c (by simp [hc])) []
      rw [List.append_nil] at this
      rw [this]
      rfl
  | @cons w s l ws hw hn hs hne _ ih =>
    obtain ⟨x, s, rfl⟩ := List.exists_cons_of_ne_nil hne
    rw [List.append_assoc, List.cons_append, fieldsGo_append hn (by simpa using hw) (hs x (by simp)), List.nil_append,
      fieldsGo_skip (fun c hc => hs c (by simp [hc])), ih]

theorem spelled_head {l : Text} {g : Text} {ws : List Text} (h : Spelled l (g :: ws)) : g <+: l := by
  cases h with
  | last => exact List.prefix_append ..
  | cons => rw [List.append_assoc]; exact List.prefix_append ..

theorem firstNum_names {w : Text} {n : Nat} (h : Names w n) : firstNum w = .ok n := by
  obtain ⟨a, ds, b, rfl, ha, hne, hd, hb, rfl⟩ := h
  unfold firstNum
  have : ∃ r, numbers (a ++ ds ++ b) = ds :: r := by
    rw [List.append_assoc, numbers_skip ha]
    unfold numbers
    cases b with
    | nil =>
      rw [List.append_nil, fieldsGo_last (fun c hc => by simp [hd c hc]) (by simpa using hne)]
      exact ⟨_, rfl⟩
    | cons x b =>
      rw [fieldsGo_append (fun c hc => by simp [hd c hc]) (by simpa using hne) (by simp [hb x (by simp)])]
      exact ⟨_, rfl⟩
  obtain ⟨r, hr⟩ := this
  rw [hr]
  rfl

section
variable {R : Type}

theorem pfx {p l : Text} (h : p <+: l) : p.isPrefixOf l = true := List.isPrefixOf_iff_prefix.2 h

theorem not_pfx {a b : Char} {p q l : Text} (hab : a ≠ b) (h : (a :: p) <+: l) : (b :: q).isPrefixOf l = false := by
  obtain ⟨r, rfl⟩ := h
  rw [List.cons_append, List.isPrefixOf_cons₂]
  have : (b == a) = false := by simpa using fun e => hab e.symm
  rw [this]
  rfl

theorem lineCall_reads {l : Text} {ws : List Text} (h : Spelled l ws) {i : Instr} (hr : Reads ws i) :
    lineCall (R := R) l = .ok i.call := by
  have hw := words_spelled h
  cases hr with
  | @x g w rest q hg hn hl =>
    have hp := hg.trans (spelled_head h)
    unfold lineCall
    rw [if_pos (by rw [pfx hp]; rfl), word_of hw 1 (by simp), hw, if_neg (by simpa using hl)]
    show (firstNum w >>= _) = _
    rw [firstNum_names hn]
    rfl
  | @xPlus g w q p hg hn =>
    have hp := hg.trans (spelled_head h)
    unfold lineCall
    rw [if_pos (by rw [pfx hp]; rfl), word_of hw 1 (by simp), word_of hw 2 (by simp), hw]
    show (pyInt (intStr p) >>= _) = _
    rw [pyInt_intStr]
    show (firstNum w >>= _) = _
    rw [firstNum_names hn]
    rfl
  | @h g w rest q hg hn =>
    have hp := hg.trans (spelled_head h)
    have n1 : (lit "X").isPrefixOf l = false := not_pfx (by decide) hp
    have n2 : (lit "RX").isPrefixOf l = false := not_pfx (by decide) hp
    unfold lineCall
    rw [if_neg (by rw [n1, n2]; exact Bool.false_ne_true), if_pos (pfx hp), word_of hw 1 (by simp)]
    show (firstNum w >>= _) = _
    rw [firstNum_names hn]
    rfl
  | @z g w rest q hg hn =>
    have hp := hg.trans (spelled_head h)
    have n1 : (lit "X").isPrefixOf l = false := not_pfx (by decide) hp
    have n2 : (lit "RX").isPrefixOf l = false := not_pfx (by decide) hp
    have n3 : (lit "H").isPrefixOf l = false := not_pfx (by decide) hp
    unfold lineCall
    rw [if_neg (by rw [n1, n2]; exact Bool.false_ne_true), if_neg (by rw [n3]; decide), if_pos (pfx hp), word_of hw 1 (by simp)]
    show (firstNum w >>= _) = _
    rw [firstNum_names hn]
    rfl
  | @cx g a b rest c t hg ha hb hl =>
    have hp : ['C'] <+: l := by
      rcases hg with hg | hg
      · exact (List.IsPrefix.trans ⟨lit "X", rfl⟩ hg).trans (spelled_head h)
      · exact (List.IsPrefix.trans ⟨lit "NOT", rfl⟩ hg).trans (spelled_head h)
    have n1 : (lit "X").isPrefixOf l = false := not_pfx (by decide) hp
    have n2 : (lit "RX").isPrefixOf l = false := not_pfx (by decide) hp
    have n3 : (lit "H").isPrefixOf l = false := not_pfx (by decide) hp
    have n4 : (lit "Z").isPrefixOf l = false := not_pfx (by decide) hp
    have hc : ((lit "CX").isPrefixOf l || (lit "CNOT").isPrefixOf l) = true := by
      rcases hg with hg | hg
      · rw [pfx (hg.trans (spelled_head h))]; rfl
      · rw [pfx (hg.trans (spelled_head h)), Bool.or_true]
    unfold lineCall
    rw [if_neg (by rw [n1, n2]; exact Bool.false_ne_true), if_neg (by rw [n3]; decide), if_neg (by rw [n4]; decide), if_pos hc,
      word_of hw 1 (by simp), word_of hw 2 (by simp), hw]
    show (firstNum a >>= _) = _
    rw [firstNum_names ha]
    show (firstNum b >>= _) = _
    rw [firstNum_names hb]
    show (if (g :: a :: b :: rest).length = 4 then _ else _) = _
    rw [if_neg (by simpa using hl)]
    rfl
  | @cxPlus g a b v c t p hg ha hb hv =>
    have hp : ['C'] <+: l := by
      rcases hg with hg | hg
      · exact (List.IsPrefix.trans ⟨lit "X", rfl⟩ hg).trans (spelled_head h)
      · exact (List.IsPrefix.trans ⟨lit "NOT", rfl⟩ hg).trans (spelled_head h)
    have n1 : (lit "X").isPrefixOf l = false := not_pfx (by decide) hp
    have n2 : (lit "RX").isPrefixOf l = false := not_pfx (by decide) hp
    have n3 : (lit "H").isPrefixOf l = false := not_pfx (by decide) hp
    have n4 : (lit "Z").isPrefixOf l = false := not_pfx (by decide) hp
    have hc : ((lit "CX").isPrefixOf l || (lit "CNOT").isPrefixOf l) = true := by
      rcases hg with hg | hg
      · rw [pfx (hg.trans (spelled_head h))]; rfl
      · rw [pfx (hg.trans (spelled_head h)), Bool.or_true]
    unfold lineCall
    rw [if_neg (by rw [n1, n2]; exact Bool.false_ne_true), if_neg (by rw [n3]; decide), if_neg (by rw [n4]; decide), if_pos hc,
      word_of hw 1 (by simp), word_of hw 2 (by simp), word_of hw 3 (by simp), hw]
    show (firstNum a >>= _) = _
    rw [firstNum_names ha]
    show (firstNum b >>= _) = _
    rw [firstNum_names hb]
    show (firstNum v >>= _) = _
    rw [firstNum_names hv]
    rfl

theorem reads_not_toffoli {l : Text} {ws : List Text} (h : Spelled l ws) {i : Instr} (hr : Reads ws i) :
    ¬ lit "Toffoli" <+: l := by
  intro ht
  have key : ∀ (a : Char) (p g : Text), a ≠ 'T' → (a :: p) <+: g → g <+: l → False := by
    intro a p g hne h1 h2
    have : (lit "Toffoli").isPrefixOf l = false := not_pfx (q := lit "offoli") hne (h1.trans h2)
    rw [pfx ht] at this
    cases this
  cases hr with
  | x hg => exact key _ _ _ (by decide) hg (spelled_head h)
  | xPlus _ hg => exact key _ _ _ (by decide) hg (spelled_head h)
  | h hg => exact key _ _ _ (by decide) hg (spelled_head h)
  | z hg => exact key _ _ _ (by decide) hg (spelled_head h)
  | cx hg =>
    rcases hg with hg | hg
    · exact key _ _ _ (by decide) hg (spelled_head h)
    · exact key _ _ _ (by decide) hg (spelled_head h)
  | cxPlus hg =>
    rcases hg with hg | hg
    · exact key _ _ _ (by decide) hg (spelled_head h)
    · exact key _ _ _ (by decide) hg (spelled_head h)

variable [CommRing R]

theorem middles_swap (g1 g2 : List Text) {l l' : Text} (h : ¬ lit "Toffoli" <+: l) (h' : ¬ lit "Toffoli" <+: l') :
    middles ((g1 ++ l :: g2).filter fun g => !g.isEmpty) = middles ((g1 ++ l' :: g2).filter fun g => !g.isEmpty) := by
  rw [middles_skip g1 g2 h, middles_skip g1 g2 h']

theorem fromSections_swap (d : Text) {g1 g2 : List Text} {l l' : Text} (h1 : ∀ l ∈ g1, '\n' ∉ l) (hl : '\n' ∉ l)
    (hl' : '\n' ∉ l') (h2 : ∀ l ∈ g2, '\n' ∉ l) (ht : ¬ lit "Toffoli" <+: l) (ht' : ¬ lit "Toffoli" <+: l')
    (h : lineCall (R := R) l = lineCall l') :
    fromSections (R := R) d (below (g1 ++ l :: g2)) = fromSections d (below (g1 ++ l' :: g2)) := by
  have hs : ∀ ls : List Text, (∀ l ∈ ls, '\n' ∉ l) →
      (splitCh '\n' (below ls)).filter (fun g => !g.isEmpty) = ls.filter fun g => !g.isEmpty := by
    intro ls hls
    have := splitCh_below (l := []) (by simp) hls
    rw [List.nil_append] at this
    rw [this, List.filter_cons, if_neg (by simp)]
  have hm : ∀ x : Text, '\n' ∉ x → ∀ m ∈ g1 ++ x :: g2, '\n' ∉ m := by
    intro x hx m hm
    rcases List.mem_append.1 hm with hm | hm
    · exact h1 _ hm
    · rcases List.mem_cons.1 hm with rfl | hm
      · exact hx
      · exact h2 _ hm
  unfold fromSections
  simp only
  rw [hs _ (hm l hl), hs _ (hm l' hl'), middles_swap _ _ ht ht']
  congr 1
  funext mids
  congr 1
  funext c
  have : ((g1 ++ l :: g2).filter fun g => !g.isEmpty).foldlM lineStep c =
      ((g1 ++ l' :: g2).filter fun g => !g.isEmpty).foldlM lineStep c := by
    rw [foldlM_nonempty, foldlM_nonempty, List.foldlM_append, List.foldlM_append]
    congr 1
    funext c
    rw [List.foldlM_cons, List.foldlM_cons]
    unfold lineStep
    rw [h]
  rw [this]

/-- **C52.** A line of the gate section may be replaced by the plain line that its words stand for: only the beginning of the gate name
and the first number of each operand count, and the blanks do not. The rest of the text need not be
well-formed. -/
theorem C52_line_forms {p : Layout} (h : p.Ok) {g1 g2 : List Text} {l : Text} (hg : p.gates = g1 ++ l :: g2)
    {ws : List Text} (hw : Spelled l ws) (hdot : '.' ∉ l) {i : Instr} (hi : Reads ws i) :
    circuitFromQasm (R := R) p.text = circuitFromQasm { p with gates := g1 ++ i.line :: g2 }.text := by
  have hlines : ∀ m ∈ g1 ++ g2, Line m := fun m hm => h.gates m (by
    rw [hg]
    rcases List.mem_append.1 hm with hm | hm <;> simp [hm])
  have hnote : ∀ m, i ≠ .note m := by rintro m rfl; cases hi
  have hok : i.Ok := by cases hi <;> trivial
  have hline : Line i.line := (instr_line hok)
  have h' : ({ p with gates := g1 ++ i.line :: g2 } : Layout).Ok :=
    ⟨h.first, h.more, h.decls, fun m hm => by
      rcases List.mem_append.1 hm with hm | hm
      · exact hlines m (by simp [hm])
      · rcases List.mem_cons.1 hm with rfl | hm
        · exact hline
        · exact hlines m (by simp [hm])⟩
  unfold circuitFromQasm
  rw [sections_text h, sections_text h']
  show fromSections _ (below (p.gates.map dots)) = fromSections _ (below ((g1 ++ i.line :: g2).map dots))
  rw [hg, List.map_append, List.map_append, List.map_cons, List.map_cons]
  have hl := h.gates l (by rw [hg]; simp)
  apply fromSections_swap
  · intro m hm
    obtain ⟨m', hm', rfl⟩ := List.mem_map.1 hm
    exact (dots_line (hlines m' (by simp [hm']))).one
  · exact (dots_line hl).one
  · exact (dots_line hline).one
  · intro m hm
    obtain ⟨m', hm', rfl⟩ := List.mem_map.1 hm
    exact (dots_line (hlines m' (by simp [hm']))).one
  · rw [dots_nodot hdot]
    exact reads_not_toffoli hw hi
  · rw [dots_prefix (by decide)]
    cases hi <;> exact fun ⟨r, hr⟩ => by cases hr
  · rw [dots_nodot hdot, lineCall_reads hw hi, lineCall_instr hok]

theorem names_num (n : Nat) : Names (num n) n :=
  ⟨[], num n, [], by simp, by simp, num_ne n, num_digits n, by simp, digitsVal_num n⟩

theorem names_signed {p : Int} : Names (intStr p) p.natAbs := by
  unfold intStr
  split
  · rename_i h
    have : p.toNat = p.natAbs := by omega
    rw [this]
    exact names_num _
  · have : (-p).toNat = p.natAbs := by omega
    rw [this]
    exact ⟨['-'], num p.natAbs, [], by simp, by decide, num_ne _, num_digits _, by simp, digitsVal_num _⟩

theorem names_reg (n : Nat) : Names (reg n) n :=
  ⟨['x'], num n, [], by simp [reg], by decide, num_ne n, num_digits n, by simp, digitsVal_num n⟩

/-- A `CX` line with a signed increment. -/
def cxSigned (c t : Nat) (p : Int) : Text := lit "CX " ++ reg c ++ lit " " ++ reg t ++ lit " " ++ intStr p

/-- **C52.** The sign of the increment of a `CX` line is not read: `CX x0 x1 -1` is `CX x0 x1 1` (while
`X x0 -1` does subtract, by `C27_program`). -/
theorem C52_cx_sign {p : Layout} (h : p.Ok) {g1 g2 : List Text} {c t : Nat} {n : Int}
    (hg : p.gates = g1 ++ cxSigned c t n :: g2) :
    circuitFromQasm (R := R) p.text = circuitFromQasm { p with gates := g1 ++ cxSigned c t n.natAbs :: g2 }.text := by
  have e : cxSigned c t n = lit "CX" ++ [' '] ++ (reg c ++ [' '] ++ (reg t ++ [' '] ++ (intStr n ++ []))) := by
    unfold cxSigned
    show lit "CX" ++ [' '] ++ reg c ++ [' '] ++ reg t ++ [' '] ++ intStr n = _
    simp
  have e2 : (Instr.cxPlus c t n.natAbs).line = cxSigned c t n.natAbs := by
    unfold cxSigned intStr
    rw [if_pos (by omega)]
    rfl
  have hc := wordy_of (w := lit "CX") rfl (by decide)
  have hb : ∀ c ∈ [' '], isSpace c = true := by decide
  rw [← e2]
  refine C52_line_forms h hg (ws := [lit "CX", reg c, reg t, intStr n]) ?_ ?_
    (.cxPlus (.inl (List.prefix_refl _)) (names_reg c) (names_reg t) names_signed)
  · rw [e]
    exact .cons hc.1 hc.2 hb (by simp) (.cons (wordy_reg c).1 (wordy_reg c).2 hb (by simp)
      (.cons (wordy_reg t).1 (wordy_reg t).2 hb (by simp) (.last (wordy_intStr n).1 (wordy_intStr n).2 (by simp))))
  · unfold cxSigned
    exact nodot_append (nodot_append (nodot_append (nodot_append (nodot_append (by decide) (nodot_reg c)) (by decide))
      (nodot_reg t)) (by decide)) (nodot_intStr n)

/-- **C52.** What a program means depends only on its lines of gates and on the declared dimensions in their
order: not on the text before the header, the kind and the number in the header, the names of the declared registers,
lines that declare nothing, lines that stand for no gate, or anything after the end. -/
theorem C52_unread_parts {p p' : Program} (h : p.Ok) (h' : p'.Ok)
    (hd : p.decls.filterMap Decl.dim = p'.decls.filterMap Decl.dim)
    (hi : (p.instrs.filter fun i => !i.isNote) = p'.instrs.filter fun i => !i.isNote) :
    circuitFromQasm (R := R) p.text = circuitFromQasm p'.text := by
  rw [C27_program h, C27_program h']
  have e1 : ∀ is : List Instr, is.filterMap (Instr.call (R := R)) =
      (is.filter fun i => !i.isNote).filterMap Instr.call := by
    intro is
    induction is with
    | nil => rfl
    | cons i is ih =>
      have : ∀ j : Instr, (!j.isNote) = false → j.call (R := R) = none := by
        intro j hj
        cases j <;> first | rfl | cases hj
      rw [List.filterMap_cons, List.filter_cons]
      cases hn : !i.isNote with
      | false => simp only [this i hn, Bool.false_eq_true, if_false, ih]
      | true => simp only [if_true, List.filterMap_cons, ih]
  have e2 : ∀ is : List Instr, is.filterMap Instr.middle =
      (is.filter fun i => !i.isNote).filterMap Instr.middle := by
    intro is
    induction is with
    | nil => rfl
    | cons i is ih =>
      have : ∀ j : Instr, (!j.isNote) = false → j.middle = none := by
        intro j hj
        cases j <;> first | rfl | cases hj
      rw [List.filterMap_cons, List.filter_cons]
      cases hn : !i.isNote with
      | false => simp only [this i hn, Bool.false_eq_true, if_false, ih]
      | true => simp only [if_true, List.filterMap_cons, ih]
  have a1 : p.calls (R := R) = p'.calls := by
    unfold Program.calls
    rw [e1 p.instrs, e1 p'.instrs, hi]
  have a2 : p.dims = p'.dims := by
    unfold Program.dims Program.declared
    rw [e2 p.instrs, e2 p'.instrs, hi, hd]
  rw [a1, a2]

/-! ### Lines that make the reader raise -/

theorem firstNum_none {w : Text} (h : ∀ c ∈ w, c.isDigit = false) : firstNum w = .error .index := by
  unfold firstNum
  have := numbers_skip h []
  rw [List.append_nil] at this
  rw [this]
  rfl

theorem word_none {g : Text} {ws : List Text} (h : words g = ws) (i : Nat) (hi : ws.length ≤ i) :
    word g i = .error .index := by
  unfold word
  rw [h, List.getElem?_eq_none hi]

theorem foldlM_raises {α β : Type} {f : β → α → PyM β} {l1 l2 : List α} {a : α} (h : ∀ b, ∃ e, f b a = .error e) (b : β) :
    ∃ e, (l1 ++ a :: l2).foldlM f b = .error e := by
  induction l1 generalizing b with
  | nil =>
    obtain ⟨e, he⟩ := h b
    exact ⟨e, by rw [List.nil_append, List.foldlM_cons, he]; rfl⟩
  | cons c l1 ih =>
    rw [List.cons_append, List.foldlM_cons]
    cases hc : f b c with
    | error e => exact ⟨e, rfl⟩
    | ok b' => exact ih b'

theorem lineCall_malformed {l : Text} {ws : List Text} (h : Spelled l ws) (hb : Malformed ws) :
    ∃ e, lineCall (R := R) l = .error e := by
  have hw := words_spelled h
  cases hb with
  | @one g p rest hp hg hr =>
    have hpl := hg.trans (spelled_head h)
    have key : ∀ f : Int → Call R, ∃ e, (do
        let w ← word l 1
        let q ← firstNum w
        .ok (some (f q)) : PyM (Option (Call R))) = .error e := by
      intro f
      rcases rest with _ | ⟨w, rest⟩
      · rw [word_none hw 1 (by simp)]
        exact ⟨_, rfl⟩
      · rw [word_of hw 1 (by simp)]
        show ∃ e, (firstNum w >>= _) = _
        rw [firstNum_none (hr w (by simp))]
        exact ⟨_, rfl⟩
    simp only [List.mem_cons, List.not_mem_nil, or_false] at hp
    rcases hp with rfl | rfl | rfl
    · unfold lineCall
      have : (lit "X").isPrefixOf l = true := pfx hpl
      rw [if_pos (by rw [this]; rfl)]
      have : ∀ x : PyM Int, ∃ e, (do
          let plus ← x
          let w ← word l 1
          let q ← firstNum w
          .ok (some (.x q none plus)) : PyM (Option (Call R))) = .error e := by
        intro x
        cases x with
        | error e => exact ⟨e, rfl⟩
        | ok p => exact key fun q => .x q none p
      by_cases h3 : (words l).length = 3
      · simp only [if_pos h3]
        cases word l 2 with
        | error e => exact ⟨e, rfl⟩
        | ok v => exact this (pyInt v)
      · simp only [if_neg h3]
        exact this (.ok 1)
    · have n1 : (lit "X").isPrefixOf l = false := not_pfx (by decide) hpl
      have n2 : (lit "RX").isPrefixOf l = false := not_pfx (by decide) hpl
      have n3 : (lit "H").isPrefixOf l = true := pfx hpl
      unfold lineCall
      rw [if_neg (by rw [n1, n2]; exact Bool.false_ne_true), if_pos n3]
      exact key fun q => .h q none
    · have n1 : (lit "X").isPrefixOf l = false := not_pfx (by decide) hpl
      have n2 : (lit "RX").isPrefixOf l = false := not_pfx (by decide) hpl
      have n3 : (lit "H").isPrefixOf l = false := not_pfx (by decide) hpl
      have n4 : (lit "Z").isPrefixOf l = true := pfx hpl
      unfold lineCall
      rw [if_neg (by rw [n1, n2]; exact Bool.false_ne_true), if_neg (by rw [n3]; decide), if_pos n4]
      exact key fun q => .z q none
  | @cx g rest hg hr =>
    have hp : ['C'] <+: l := by
      rcases hg with hg | hg
      · exact (List.IsPrefix.trans ⟨lit "X", rfl⟩ hg).trans (spelled_head h)
      · exact (List.IsPrefix.trans ⟨lit "NOT", rfl⟩ hg).trans (spelled_head h)
    have n1 : (lit "X").isPrefixOf l = false := not_pfx (by decide) hp
    have n2 : (lit "RX").isPrefixOf l = false := not_pfx (by decide) hp
    have n3 : (lit "H").isPrefixOf l = false := not_pfx (by decide) hp
    have n4 : (lit "Z").isPrefixOf l = false := not_pfx (by decide) hp
    have hc : ((lit "CX").isPrefixOf l || (lit "CNOT").isPrefixOf l) = true := by
      rcases hg with hg | hg
      · rw [pfx (hg.trans (spelled_head h))]; rfl
      · rw [pfx (hg.trans (spelled_head h)), Bool.or_true]
    unfold lineCall
    rw [if_neg (by rw [n1, n2]; exact Bool.false_ne_true), if_neg (by rw [n3]; decide), if_neg (by rw [n4]; decide), if_pos hc]
    rcases rest with _ | ⟨a, _ | ⟨b, rest⟩⟩
    · rw [word_none hw 1 (by simp)]
      exact ⟨_, rfl⟩
    · rw [word_of hw 1 (by simp), word_none hw 2 (by simp)]
      show ∃ e, (firstNum a >>= _) = _
      cases firstNum a with
      | error e => exact ⟨e, rfl⟩
      | ok _ => exact ⟨_, rfl⟩
    · rw [word_of hw 1 (by simp), word_of hw 2 (by simp)]
      show ∃ e, (firstNum a >>= _) = _
      cases hfa : firstNum a with
      | error e => exact ⟨e, rfl⟩
      | ok x =>
        show ∃ e, (firstNum b >>= _) = _
        cases hfb : firstNum b with
        | error e => exact ⟨e, rfl⟩
        | ok y =>
          obtain ⟨w, hw', hwd⟩ := hr (by simp)
          simp only [List.take_succ_cons, List.take_zero, List.mem_cons, List.not_mem_nil, or_false] at hw'
          rcases hw' with rfl | rfl
          · rw [firstNum_none hwd] at hfa; cases hfa
          · rw [firstNum_none hwd] at hfb; cases hfb

/-- **C52.** The reader raises if a gate line lacks an operand, or if an operand has no number. -/
theorem C52_malformed_line {p : Layout} (h : p.Ok) {l : Text} (hl : l ∈ p.gates)
    {ws : List Text} (hw : Spelled l ws) (hdot : '.' ∉ l) (hb : Malformed ws) :
    ∃ e, circuitFromQasm (R := R) p.text = .error e := by
  obtain ⟨g1, g2, hg⟩ := List.append_of_mem hl
  unfold circuitFromQasm
  rw [sections_text h]
  show ∃ e, fromSections _ (below (p.gates.map dots)) = .error e
  unfold fromSections
  have := splitCh_below (l := []) (by simp) (ls := p.gates.map dots) (fun m hm => by
    obtain ⟨m', hm', rfl⟩ := List.mem_map.1 hm
    exact (dots_line (h.gates m' hm')).one)
  rw [List.nil_append] at this
  rw [this, List.filter_cons, if_neg (by simp)]
  simp only
  generalize middles _ = x
  cases x with
  | error e => exact ⟨e, rfl⟩
  | ok mids =>
    show ∃ e, (Circuit.new (R := R) _ _ >>= _) = _
    generalize Circuit.new (R := R) _ _ = x
    cases x with
    | error e => exact ⟨e, rfl⟩
    | ok c =>
      have : ∃ e, ((p.gates.map dots).filter fun g => !g.isEmpty).foldlM lineStep c = .error e := by
        rw [foldlM_nonempty, hg, List.map_append, List.map_cons, dots_nodot hdot]
        apply foldlM_raises
        intro c'
        obtain ⟨e, he⟩ := lineCall_malformed (R := R) hw hb
        exact ⟨e, by unfold lineStep; rw [he]; rfl⟩
      obtain ⟨e, he⟩ := this
      exact ⟨e, by
        show (((p.gates.map dots).filter fun g => !g.isEmpty).foldlM lineStep c >>= _) = _
        rw [he]; rfl⟩

/-! ### Instances -/

/-- `Hadamard \ty[07]  # note` is read as `H x7`. -/
example : Spelled (lit "Hadamard \ty[07]  # note") [lit "Hadamard", lit "y[07]", lit "#", lit "note"] ∧
    Reads [lit "Hadamard", lit "y[07]", lit "#", lit "note"] (.h 7) ∧ '.' ∉ lit "Hadamard \ty[07]  # note" := by
  refine ⟨?_, .h ⟨lit "adamard", rfl⟩ ⟨lit "y[", lit "07", lit "]", rfl, by decide, by decide, by decide, by decide, rfl⟩,
    by decide⟩
  exact .cons (w := lit "Hadamard") (s := lit " \t") (by decide) (by decide) (by decide) (by decide)
    (.cons (w := lit "y[07]") (s := lit "  ") (by decide) (by decide) (by decide) (by decide)
    (.cons (w := lit "#") (s := lit " ") (by decide) (by decide) (by decide) (by decide)
    (.last (w := lit "note") (s := []) (by decide) (by decide) (by decide))))

/-- `CX x0` lacks its target. -/
example : Spelled (lit "CX x0") [lit "CX", lit "x0"] ∧ Malformed [lit "CX", lit "x0"] :=
  ⟨.cons (w := lit "CX") (s := lit " ") (by decide) (by decide) (by decide) (by decide)
    (.last (w := lit "x0") (s := []) (by decide) (by decide) (by decide)),
    .cx (.inl ⟨[], rfl⟩) (by decide)⟩

/-- Two programs that differ in everything the reader does not look at. -/
example : circuitFromQasm (R := R)
      ({ first := lit "one", more := [], word := .qubit, count := 1, blanks := 0, decls := [.qubit 0, .qutrit 1],
         instrs := [.cx 0 1], tail := [] } : Program).text =
    circuitFromQasm (R := R)
      ({ first := lit "two", more := [lit "three"], word := .qutrit, count := 9, blanks := 2,
         decls := [.qudit 7 2, .note (lit "# the other"), .qudit 7 3],
         instrs := [.note (lit "# gates"), .cx 0 1], tail := lit "four" } : Program).text :=
  C52_unread_parts (ok_of (by decide +kernel)) (ok_of (by decide +kernel)) rfl rfl

end

end Qasm

end QuDiet
