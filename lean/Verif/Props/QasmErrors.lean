import Verif.Props.QasmForms

/-! # C52: the exception raised for a malformed line -/

namespace QuDiet

namespace Qasm

section
variable {R : Type} [CommRing R]

theorem firstNum_index {t : Text} {e : Err} (h : firstNum t = .error e) : e = .index := by
  unfold firstNum at h
  split at h
  · cases h; rfl
  · cases h

theorem word_index {g : Text} {i : Nat} {e : Err} (h : word g i = .error e) : e = .index := by
  unfold word at h
  split at h
  · cases h; rfl
  · cases h

theorem lineCall_malformed_kind {l : Text} {ws : List Text} (h : Spelled l ws) (hb : Malformed ws)
    (hx : ∀ g w k, ws = [g, w, k] → ¬ lit "X" <+: g) : lineCall (R := R) l = .error .index := by
  obtain ⟨e, he⟩ := lineCall_malformed (R := R) h hb
  rw [he]
  congr 1
  have hw := words_spelled h
  have hX : ∀ g rest, ws = g :: rest → (lit "X").isPrefixOf l = true → rest.length = 2 → False := by
    intro g rest hws hpl hlen
    match rest, hlen with
    | [w, k], _ =>
      refine hx g w k hws ?_
      rw [hws] at h
      have hp : lit "X" <+: l := List.isPrefixOf_iff_prefix.1 hpl
      have hgl := spelled_head h
      cases hb with
      | @one g' p rest' hp' hg hr =>
        cases hws
        simp only [List.mem_cons, List.not_mem_nil, or_false] at hp'
        rcases hp' with rfl | rfl | rfl
        · exact hg
        · obtain ⟨a, ha⟩ := hg.trans hgl
          obtain ⟨b, hb⟩ := hp
          rw [← ha] at hb
          cases hb
        · obtain ⟨a, ha⟩ := hg.trans hgl
          obtain ⟨b, hb⟩ := hp
          rw [← ha] at hb
          cases hb
      | @cx g' rest' hg hr =>
        cases hws
        rcases hg with hg | hg <;>
        · obtain ⟨a, ha⟩ := hg.trans hgl
          obtain ⟨b, hb⟩ := hp
          rw [← ha] at hb
          cases hb
  have hRX : (lit "RX").isPrefixOf l = false := by
    cases hb with
    | @one g p rest hp hg hr =>
      have hpl := hg.trans (spelled_head h)
      simp only [List.mem_cons, List.not_mem_nil, or_false] at hp
      rcases hp with rfl | rfl | rfl <;> exact not_pfx (by decide) hpl
    | @cx g rest hg hr =>
      rcases hg with hg | hg <;> exact not_pfx (by decide) (hg.trans (spelled_head h))
  have hne : ∃ g rest, ws = g :: rest := by cases hb <;> exact ⟨_, _, rfl⟩
  obtain ⟨g0, rest0, hws⟩ := hne
  unfold lineCall at he
  rw [hRX, Bool.false_and, Bool.or_false] at he
  split at he
  · rename_i hpl
    have h3 : (words l).length ≠ 3 := by
      intro h3
      rw [hw, hws, List.length_cons] at h3
      exact hX _ _ hws hpl (by omega)
    rw [if_neg h3] at he
    replace he : (word l 1 >>= fun w => firstNum w >>= fun q => (.ok (some (.x q none 1)) : PyM (Option (Call R)))) = .error e := he
    cases h1 : word l 1 with
    | error e' => rw [h1] at he; cases he; exact word_index h1
    | ok w =>
      rw [h1] at he
      replace he : (firstNum w >>= fun q => (.ok (some (.x q none 1)) : PyM (Option (Call R)))) = .error e := he
      cases h2 : firstNum w with
      | error e' => rw [h2] at he; cases he; exact firstNum_index h2
      | ok q => rw [h2] at he; cases he
  · split at he
    · replace he : (word l 1 >>= fun w => firstNum w >>= fun q => (.ok (some (.h q none)) : PyM (Option (Call R)))) = .error e := he
      cases h1 : word l 1 with
      | error e' => rw [h1] at he; cases he; exact word_index h1
      | ok w =>
        rw [h1] at he
        replace he : (firstNum w >>= fun q => (.ok (some (.h q none)) : PyM (Option (Call R)))) = .error e := he
        cases h2 : firstNum w with
        | error e' => rw [h2] at he; cases he; exact firstNum_index h2
        | ok q => rw [h2] at he; cases he
    · split at he
      · replace he : (word l 1 >>= fun w => firstNum w >>= fun q => (.ok (some (.z q none)) : PyM (Option (Call R)))) = .error e := he
        cases h1 : word l 1 with
        | error e' => rw [h1] at he; cases he; exact word_index h1
        | ok w =>
          rw [h1] at he
          replace he : (firstNum w >>= fun q => (.ok (some (.z q none)) : PyM (Option (Call R)))) = .error e := he
          cases h2 : firstNum w with
          | error e' => rw [h2] at he; cases he; exact firstNum_index h2
          | ok q => rw [h2] at he; cases he
      · split at he
        · cases h1 : word l 1 with
          | error e' => rw [h1] at he; cases he; exact word_index h1
          | ok a =>
            rw [h1] at he
            simp only [bind, Except.bind] at he
            cases h2 : firstNum a with
            | error e' => rw [h2] at he; cases he; exact firstNum_index h2
            | ok c =>
              rw [h2] at he
              simp only at he
              cases h3 : word l 2 with
              | error e' => rw [h3] at he; cases he; exact word_index h3
              | ok b =>
                rw [h3] at he
                simp only at he
                cases h4 : firstNum b with
                | error e' => rw [h4] at he; cases he; exact firstNum_index h4
                | ok t =>
                  rw [h4] at he
                  simp only at he
                  by_cases h5 : (words l).length = 4
                  · rw [if_pos h5] at he
                    cases h6 : word l 3 with
                    | error e' => rw [h6] at he; cases he; exact word_index h6
                    | ok v =>
                      rw [h6] at he
                      simp only at he
                      cases h7 : firstNum v with
                      | error e' => rw [h7] at he; cases he; exact firstNum_index h7
                      | ok x => rw [h7] at he; cases he
                  · rw [if_neg h5] at he
                    cases he
        · split at he
          · simp only at he
            split at he
            · cases he; rfl
            · cases he
          · cases he

theorem foldlM_prefix {α β : Type} {f : β → α → PyM β} {l1 l2 : List α} {b c : β} (h : (l1 ++ l2).foldlM f b = .ok c) :
    ∃ b', l1.foldlM f b = .ok b' := by
  rw [List.foldlM_append] at h
  cases h1 : l1.foldlM f b with
  | error e => rw [h1] at h; cases h
  | ok b' => exact ⟨b', rfl⟩

/-- **C52.** A gate line that lacks an operand, or one of whose operands has no number, makes a program that could be read without
that line raise an `IndexError`. The one exception is an `X` line of three words: its third word is read first. -/
theorem C52_malformed_kind {p : Layout} (h : p.Ok) {g1 g2 : List Text} {l : Text} (hg : p.gates = g1 ++ l :: g2)
    {c : Circuit R} (hc : circuitFromQasm (R := R) { p with gates := g1 ++ g2 }.text = .ok c)
    {ws : List Text} (hw : Spelled l ws) (hdot : '.' ∉ l) (hb : Malformed ws)
    (hx : ∀ g w k, ws = [g, w, k] → ¬ lit "X" <+: g) :
    circuitFromQasm (R := R) p.text = .error .index := by
  have hlines : ∀ m ∈ g1 ++ g2, Line m := fun m hm => h.gates m (by
    rw [hg]
    rcases List.mem_append.1 hm with hm | hm <;> simp [hm])
  have h' : ({ p with gates := g1 ++ g2 } : Layout).Ok := ⟨h.first, h.more, h.decls, hlines⟩
  unfold circuitFromQasm at hc ⊢
  rw [sections_text h'] at hc
  rw [sections_text h]
  replace hc : fromSections (R := R) _ (below ((g1 ++ g2).map dots)) = .ok c := hc
  show fromSections _ (below (p.gates.map dots)) = _
  have hs : ∀ ls : List Text, (∀ l ∈ ls, Line l) →
      (splitCh '\n' (below (ls.map dots))).filter (fun g => !g.isEmpty) = (ls.map dots).filter fun g => !g.isEmpty := by
    intro ls hls
    have := splitCh_below (l := []) (by simp) (ls := ls.map dots) (fun m hm => by
      obtain ⟨m', hm', rfl⟩ := List.mem_map.1 hm
      exact (dots_line (hls m' hm')).one)
    rw [List.nil_append] at this
    rw [this, List.filter_cons, if_neg (by simp)]
  unfold fromSections at hc ⊢
  simp only at hc ⊢
  rw [hs _ hlines] at hc
  rw [hs _ h.gates, hg]
  rw [List.map_append] at hc
  rw [List.map_append, List.map_cons, dots_nodot hdot]
  have ht : ¬ lit "Toffoli" <+: l := by
    rintro ⟨b, hb'⟩
    cases hb with
    | @one g p rest hp hg hr =>
      obtain ⟨a, ha⟩ := hg.trans (spelled_head hw)
      simp only [List.mem_cons, List.not_mem_nil, or_false] at hp
      rw [← ha] at hb'
      rcases hp with rfl | rfl | rfl <;> cases hb'
    | @cx g rest hg hr =>
      rcases hg with hg | hg <;>
      · obtain ⟨a, ha⟩ := hg.trans (spelled_head hw)
        rw [← ha] at hb'
        cases hb'
  rw [middles_skip _ _ ht]
  cases hm : middles (((g1.map dots ++ g2.map dots)).filter fun g => !g.isEmpty) with
  | error e => rw [hm] at hc; cases hc
  | ok mids =>
    rw [hm] at hc
    simp only [bind, Except.bind] at hc ⊢
    revert hc
    generalize Circuit.new (R := R) _ _ = x
    cases x with
    | error e => intro hc; cases hc
    | ok c0 =>
      intro hc
      simp only at hc ⊢
      rw [foldlM_nonempty] at hc ⊢
      have : ∃ c1, (g1.map dots ++ g2.map dots).foldlM lineStep c0 = .ok c1 := by
        cases hf : (g1.map dots ++ g2.map dots).foldlM lineStep c0 with
        | error e => rw [hf] at hc; cases hc
        | ok c1 => exact ⟨c1, rfl⟩
      obtain ⟨c1, h1⟩ := this
      obtain ⟨c2, h2⟩ := foldlM_prefix h1
      have hl : lineStep c2 l = .error .index := by
        unfold lineStep
        rw [lineCall_malformed_kind hw hb hx]
        rfl
      have : (g1.map dots ++ l :: g2.map dots).foldlM lineStep c0 = .error .index := by
        rw [List.foldlM_append, h2]
        show (l :: g2.map dots).foldlM lineStep c2 = _
        rw [List.foldlM_cons, hl]
        rfl
      rw [this]

end

/-- The text of `runSample` with the line `CX x0` put before its last line. -/
example : circuitFromQasm (R := ℤ) { runSample.layout with gates := [lit "X x0 -1", lit "h x0", lit "CX x0", lit "CX x0 x1"] }.text =
    .error .index := by
  have h : runSample.layout.gates = [lit "X x0 -1", lit "h x0"] ++ [lit "CX x0 x1"] := by decide +kernel
  have hrun := C27_run (B := numpyBackend ℤ) sampleN_sized numpy_lawful runSample_ok (by decide) (by decide) runSample_valid
  have : ∃ c, circuitFromQasm (R := ℤ) runSample.text = .ok c := by
    cases hc : circuitFromQasm (R := ℤ) runSample.text with
    | error e => unfold runText at hrun; rw [hc] at hrun; cases hrun
    | ok c => exact ⟨c, rfl⟩
  obtain ⟨c, hc⟩ := this
  have hlay : runSample.text = { runSample.layout with gates := [lit "X x0 -1", lit "h x0"] ++ [lit "CX x0 x1"] }.text := by
    rw [← h]; rfl
  rw [hlay] at hc
  refine C52_malformed_kind (p := { runSample.layout with gates := [lit "X x0 -1", lit "h x0", lit "CX x0", lit "CX x0 x1"] })
    (g1 := [lit "X x0 -1", lit "h x0"]) (g2 := [lit "CX x0 x1"]) (l := lit "CX x0") (ws := [lit "CX", lit "x0"]) ?_ rfl hc ?_
    (by decide) (.cx (.inl ⟨[], rfl⟩) (by decide)) (by intro g w k hk; cases hk)
  · have hg : ∀ l ∈ [lit "X x0 -1", lit "h x0", lit "CX x0", lit "CX x0 x1"], '\n' ∉ l ∧ l.head? ≠ some '.' := by decide
    exact ⟨(layout_ok runSample_ok).first, (layout_ok runSample_ok).more, (layout_ok runSample_ok).decls,
      fun l hl => ⟨(hg l hl).1, (hg l hl).2⟩⟩
  · exact .cons (w := lit "CX") (s := lit " ") (by decide) (by decide) (by decide) (by decide)
      (.last (w := lit "x0") (s := []) (by decide) (by decide) (by decide))

end Qasm

end QuDiet
