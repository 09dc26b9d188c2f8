import Verif.Props.QasmErrors

/-!
# C91: whatever text is read

The theorems of C27 and C29 start from the text of a program. Here the text is arbitrary.
-/

namespace QuDiet

namespace Qasm

/-- The calls that a text can stand for. -/
inductive Readable {R : Type} : Call R → Prop
  | x (q : Nat) (plus : Int) : Readable (.x q none plus)
  | h (q : Nat) : Readable (.h q none)
  | z (q : Nat) : Readable (.z q none)
  | cx (c t plus : Nat) : Readable (.cx c t plus)
  | toffoli (cs : List Nat) (t : Nat) : Readable (.toffoli (cs.map Int.ofNat) t 1)

section
variable {R : Type} [CommRing R]

theorem firstNum_nat {t : Text} {q : Int} (h : firstNum t = .ok q) : ∃ n : Nat, q = n := by
  unfold firstNum at h
  split at h
  · cases h
  · cases h
    exact ⟨_, rfl⟩

/-- The call of a line, if it has one. -/
theorem lineCall_readable {g : Text} {k : Call R} (h : lineCall g = .ok (some k)) :
    Readable k ∧ ((∀ cs t p, k ≠ .toffoli cs t p) ∨ lit "Toffoli" <+: g) := by
  have bind : ∀ {α β : Type} {m : PyM α} {f : α → PyM β} {b : β}, (m >>= f) = .ok b → ∃ a, m = .ok a ∧ f a = .ok b := by
    intro α β m f b h
    cases m with
    | error e => cases h
    | ok a => exact ⟨a, rfl, h⟩
  unfold lineCall at h
  split at h
  · dsimp only at h
    have : ∃ p, (do
        let w ← word g 1
        let q ← firstNum w
        Except.ok (some (Call.x q none p))) = Except.ok (some k) := by
      split at h
      · obtain ⟨w, -, h⟩ := bind h
        obtain ⟨p, -, h⟩ := bind h
        exact ⟨p, h⟩
      · obtain ⟨p, -, h⟩ := bind h
        exact ⟨p, h⟩
    obtain ⟨p, h⟩ := this
    obtain ⟨w, -, h⟩ := bind h
    obtain ⟨q, hq, h⟩ := bind h
    obtain ⟨n, rfl⟩ := firstNum_nat hq
    cases h
    exact ⟨.x n p, .inl fun _ _ _ h => by cases h⟩
  split at h
  · obtain ⟨w, -, h⟩ := bind h
    obtain ⟨q, hq, h⟩ := bind h
    obtain ⟨n, rfl⟩ := firstNum_nat hq
    cases h
    exact ⟨.h n, .inl fun _ _ _ h => by cases h⟩
  split at h
  · obtain ⟨w, -, h⟩ := bind h
    obtain ⟨q, hq, h⟩ := bind h
    obtain ⟨n, rfl⟩ := firstNum_nat hq
    cases h
    exact ⟨.z n, .inl fun _ _ _ h => by cases h⟩
  split at h
  · obtain ⟨w, -, h⟩ := bind h
    obtain ⟨c, hc, h⟩ := bind h
    obtain ⟨w', -, h⟩ := bind h
    obtain ⟨t, ht, h⟩ := bind h
    obtain ⟨n, rfl⟩ := firstNum_nat hc
    obtain ⟨m, rfl⟩ := firstNum_nat ht
    dsimp only at h
    have : ∃ l : Nat, k = .cx n m l := by
      split at h
      · obtain ⟨w'', -, h⟩ := bind h
        obtain ⟨p, hp, h⟩ := bind h
        obtain ⟨l, rfl⟩ := firstNum_nat hp
        cases h
        exact ⟨l, rfl⟩
      · obtain ⟨p, hp, h⟩ := bind h
        cases hp
        cases h
        exact ⟨1, rfl⟩
    obtain ⟨l, rfl⟩ := this
    exact ⟨.cx n m l, .inl fun _ _ _ h => by cases h⟩
  split at h
  · rename_i hT
    refine ⟨?_, .inr (List.isPrefixOf_iff_prefix.1 hT)⟩
    dsimp only at h
    split at h
    · cases h
    · rename_i t ht
      cases h
      have hl := List.mem_of_getLast? ht
      obtain ⟨ds, -, rfl⟩ := List.mem_map.1 hl
      have := Readable.toffoli (R := R) ((numbers g).map digitsVal).dropLast (digitsVal ds)
      rw [List.map_dropLast, List.map_map] at this
      exact this
  · cases h

theorem lines_calls {gs : List Text} {c c' : Circuit R} (h : gs.foldlM lineStep c = .ok c') :
    ∃ ks : List (Call R), (∀ k ∈ ks, Readable k ∧ ((∀ cs t p, k ≠ .toffoli cs t p) ∨ ∃ g ∈ gs, lit "Toffoli" <+: g)) ∧
      ks.foldlM (fun c k => do .ok (← c.callM k).1) c = .ok c' := by
  induction gs generalizing c with
  | nil => exact ⟨[], by simp, h⟩
  | cons g gs ih =>
    rw [List.foldlM_cons] at h
    cases hs : lineStep c g with
    | error e => rw [hs] at h; cases h
    | ok c1 =>
      rw [hs] at h
      obtain ⟨ks, h1, h2⟩ := ih (c := c1) h
      have h1 : ∀ k ∈ ks, Readable k ∧ ((∀ cs t p, k ≠ .toffoli cs t p) ∨ ∃ g' ∈ g :: gs, lit "Toffoli" <+: g') :=
        fun k hk => ⟨(h1 k hk).1, (h1 k hk).2.imp id fun ⟨g', hg, h⟩ => ⟨g', by simp [hg], h⟩⟩
      unfold lineStep at hs
      cases hl : lineCall (R := R) g with
      | error e => rw [hl] at hs; cases hs
      | ok o =>
        rw [hl] at hs
        cases o with
        | none => cases hs; exact ⟨ks, h1, h2⟩
        | some k =>
          refine ⟨k :: ks, ?_, ?_⟩
          · intro k' hk
            rcases List.mem_cons.1 hk with rfl | hk
            · have := lineCall_readable hl
              exact ⟨this.1, this.2.imp id fun h => ⟨g, by simp, h⟩⟩
            · exact h1 k' hk
          · rw [List.foldlM_cons]
            change ((do .ok (← c.callM k).1 : PyM (Circuit R)) >>= _) = _
            change (do .ok (← c.callM k).1 : PyM (Circuit R)) = .ok c1 at hs
            rw [hs]
            exact h2

theorem declared_nat (decls : Text) : ∃ ds : List Nat, declared decls = ds.map Int.ofNat := by
  refine ⟨(dimsGo [] (subGo (lit "qutrit x") (lit "qudit x") (lit " (3)") 0
    (subGo (lit "qubit x") (lit "qudit x") (lit " (2)") 0 decls))).map digitsVal, ?_⟩
  unfold declared
  rw [List.map_map]
  rfl

theorem enlarge_nat (mids : List Int) (ds : List Nat) : ∃ es : List Nat, enlarge mids (ds.map Int.ofNat) = es.map Int.ofNat ∧
    (mids = [] → es = ds) := by
  refine ⟨ds.zipIdx.map fun di => if (di.2 : Int) ∈ mids then di.1 + 1 else di.1, ?_, ?_⟩
  · unfold enlarge
    rw [List.zipIdx_map, List.map_map, List.map_map]
    apply List.map_congr_left
    intro di _
    simp only [Function.comp, Prod.map, id]
    split <;> simp
  · rintro rfl
    simp [List.zipIdx_map_fst]

/-! ### Texts without Toffoli -/

theorem prefix_subGo {pat new post w : Text} (hnew : new ≠ []) (hw : ∀ a ∈ w, new.head? ≠ some a) {t : Text}
    (h : w <+: subGo pat new post 0 t) : w <+: t := by
  induction w generalizing t with
  | nil => exact List.nil_prefix
  | cons a w ih =>
    cases t with
    | nil => exact h
    | cons c t =>
      rw [subGo] at h
      split at h
      · obtain ⟨b, new', rfl⟩ := List.exists_cons_of_ne_nil hnew
        obtain ⟨s, hs⟩ := h
        injection hs with h1 _
        exact absurd (by rw [h1]; simp) (hw a (by simp))
      · obtain ⟨s, hs⟩ := h
        injection hs with h1 h2
        subst h1
        obtain ⟨s', hs'⟩ := ih (fun a ha => hw a (by simp [ha])) ⟨s, h2⟩
        exact ⟨s', by rw [← hs']; rfl⟩

theorem infix_after {a : Char} {w l r : Text} (h : a :: w <:+: l ++ r) (ha : a ∉ l) : a :: w <:+: r := by
  induction l with
  | nil => exact h
  | cons b l ih =>
    rw [List.cons_append, List.infix_cons_iff] at h
    rcases h with h | h
    · obtain ⟨s, hs⟩ := h
      injection hs with h1 _
      exact absurd (by rw [h1]; simp) ha
    · exact ih h fun h' => ha (by simp [h'])

theorem infix_subGo {pat new post : Text} (hnew : new ≠ []) {a : Char} {w : Text} (hw : ∀ b ∈ a :: w, new.head? ≠ some b)
    (ha : a ∉ new) (hd : a.isDigit = false) (hp : a ∉ post) (k : Nat) {t : Text} (h : a :: w <:+: subGo pat new post k t) : a :: w <:+: t := by
  induction t generalizing k with
  | nil => cases k <;> exact h
  | cons c t ih =>
    cases k with
    | succ k => exact (ih k h).trans (List.suffix_cons c t).isInfix
    | zero =>
      rw [subGo] at h
      split at h
      · rename_i ds hds
        have hdig : ∀ b ∈ ds, b.isDigit = true := by
          unfold matchNum at hds
          split at hds
          · dsimp only at hds
            split at hds
            · cases hds
            · cases hds
              intro b hb
              exact takeWhile_all hb
          · cases hds
        refine (ih _ (infix_after h ?_)).trans (List.suffix_cons c t).isInfix
        simp only [List.mem_append, not_or]
        exact ⟨⟨ha, fun h => by rw [hdig a h] at hd; cases hd⟩, hp⟩
      · rw [List.infix_cons_iff] at h
        rcases h with h | h
        · refine (prefix_subGo (pat := pat) (post := post) hnew hw (t := c :: t) ?_).isInfix
          rw [subGo]
          split
          · rename_i hs
            simp_all
          · exact h
        · exact (ih 0 h).trans (List.suffix_cons c t).isInfix

theorem splitGo_infix (k : Nat) (t : Text) : (splitGo k t).1 <:+: t ∧ (k = 0 → (splitGo k t).1 <+: t) ∧
    ∀ s ∈ (splitGo k t).2, s <:+: t := by
  induction t generalizing k with
  | nil => rw [splitGo_nil]; simp
  | cons c t ih =>
    have up : ∀ {s : Text}, s <:+: t → s <:+: c :: t := fun h => h.trans (List.suffix_cons c t).isInfix
    cases k with
    | succ k =>
      rw [splitGo]
      exact ⟨up (ih k).1, fun h => absurd h (by omega), fun s hs => up ((ih k).2.2 s hs)⟩
    | zero =>
      rw [splitGo]
      split
      · rename_i n hn
        refine ⟨by simp, by simp, ?_⟩
        intro s hs
        dsimp only at hs
        rcases List.mem_cons.1 hs with rfl | hs
        · exact (List.drop_suffix 2 _).isInfix.trans (List.take_prefix n _).isInfix
        rcases List.mem_cons.1 hs with rfl | hs
        · exact up (ih _).1
        · exact up ((ih _).2.2 s hs)
      · have hp : c :: (splitGo 0 t).1 <+: c :: t := by simpa using (ih 0).2.1 rfl
        exact ⟨hp.isInfix, fun _ => hp, fun s hs => up ((ih 0).2.2 s hs)⟩

theorem splitCh_infix {sep : Char} {t l : Text} (h : l ∈ splitCh sep t) : l <:+: t := by
  have key : ∀ t : Text, (∀ l ∈ (splitCh sep t).head?, l <+: t) ∧ ∀ l ∈ splitCh sep t, l <:+: t := by
    intro t
    induction t with
    | nil => simp [splitCh]
    | cons c t ih =>
      rw [splitCh]
      split
      · refine ⟨by simp, ?_⟩
        intro l hl
        rcases List.mem_cons.1 hl with rfl | hl
        · simp
        · exact (ih.2 l hl).trans (List.suffix_cons c t).isInfix
      · split
        · refine ⟨by simp, ?_⟩
          intro l hl
          rw [List.mem_singleton.1 hl]
          exact List.IsPrefix.isInfix (by simp)
        · rename_i l' ls heq
          rw [heq] at ih
          have hp : c :: l' <+: c :: t := by simpa using ih.1 l' rfl
          refine ⟨by simpa using hp, ?_⟩
          intro l hl
          rcases List.mem_cons.1 hl with rfl | hl
          · exact hp.isInfix
          · exact (ih.2 l (by simp [hl])).trans (List.suffix_cons c t).isInfix
  exact (key t).2 l h

theorem sections_infix {t : Text} {r : Text × Text} (h : sections t = .ok r) (hw : lit "Toffoli" <:+: r.2) :
    lit "Toffoli" <:+: t := by
  unfold sections popAt at h
  dsimp only at h
  generalize ht : subGo (lit ".qutrit ") (lit ".qudit ") [] 0 (subGo (lit ".qubit ") (lit ".qudit ") [] 0 t) = u at h
  have hr : r.2 <:+: u := by
    have key : ∀ s ∈ (splitGo 0 u).1 :: (splitGo 0 u).2, s <:+: u := by
      intro s hs
      rcases List.mem_cons.1 hs with rfl | hs
      exacts [(splitGo_infix 0 u).1, (splitGo_infix 0 u).2.2 s hs]
    generalize (splitGo 0 u).1 :: (splitGo 0 u).2 = data at h key
    by_cases h6 : 6 < data.length
    · match data, h6 with
      | a :: b :: c :: d :: e :: f :: g :: rest, _ =>
        simp [List.eraseIdx, bind, Except.bind] at h
        rw [← h]
        exact key e (by simp)
    · rw [if_neg h6] at h
      cases h
  rw [← ht] at hr
  have h1 := infix_subGo (a := 'T') (w := lit "offoli") (by decide) (by decide) (by decide) (by decide) (by decide) 0 (hw.trans hr)
  exact infix_subGo (a := 'T') (w := lit "offoli") (by decide) (by decide) (by decide) (by decide) (by decide) 0 h1

/-- The program with these dimensions and calls. -/
theorem written {dims : List Nat} {ks : List (Call R)} (hk : ∀ k ∈ ks, Readable k) (ht : ∀ cs t p, Call.toffoli cs t p ∉ ks) :
    ∃ p : Program, p.Ok ∧ (∀ a b c, Instr.toffoli a b c ∉ p.instrs) ∧ p.dims = dims ∧ p.calls (R := R) = ks := by
  have : ∃ is : List Instr, (∀ i ∈ is, i.Ok) ∧ (∀ a b c, Instr.toffoli a b c ∉ is) ∧ is.filterMap (Instr.call (R := R)) = ks := by
    induction ks with
    | nil => exact ⟨[], by simp, by simp, rfl⟩
    | cons k ks ih =>
      obtain ⟨is, h1, h2, h3⟩ := ih (fun k h => hk k (by simp [h])) fun cs t p h => ht cs t p (by simp [h])
      have : ∃ i : Instr, i.Ok ∧ (∀ a b c, i ≠ .toffoli a b c) ∧ i.call (R := R) = some k := by
        cases hk k (by simp) with
        | x q p => exact ⟨.xPlus q p, trivial, by simp, rfl⟩
        | h q => exact ⟨.h q, trivial, by simp, rfl⟩
        | z q => exact ⟨.z q, trivial, by simp, rfl⟩
        | cx c t p => exact ⟨.cxPlus c t p, trivial, by simp, rfl⟩
        | toffoli cs t => exact absurd (by simp) (ht (cs.map Int.ofNat) t 1)
      obtain ⟨i, hi, hi', hc⟩ := this
      refine ⟨i :: is, ?_, ?_, ?_⟩
      · intro j hj
        rcases List.mem_cons.1 hj with rfl | hj
        exacts [hi, h1 j hj]
      · intro a b c hj
        rcases List.mem_cons.1 hj with hj | hj
        exacts [hi' a b c hj.symm, h2 a b c hj]
      · rw [List.filterMap_cons, hc, h3]
  obtain ⟨is, h1, h2, h3⟩ := this
  have hnot : ∀ a b c, Instr.toffoli a b c ∉ is := h2
  refine ⟨⟨[], [], .qudit, 0, 0, dims.map (Decl.qudit 0), is, []⟩, ⟨by simp, by simp, ?_, h1⟩, hnot, ?_, h3⟩
  · intro d hd
    obtain ⟨n, -, rfl⟩ := List.mem_map.1 hd
    trivial
  · rw [C27_declared_dims hnot]
    show (dims.map (Decl.qudit 0)).filterMap Decl.dim = dims
    rw [List.filterMap_map]
    exact List.filterMap_some

theorem read_calls {t : Text} {c : Circuit R} (h : circuitFromQasm t = .ok c) :
    ∃ (dims : List Nat) (ks : List (Call R)), (∀ k ∈ ks, Readable k ∧ ((∀ cs t p, k ≠ .toffoli cs t p) ∨ lit "Toffoli" <:+: t)) ∧
      build dims ks = .ok c := by
  unfold circuitFromQasm at h
  cases hs : sections t with
  | error e => rw [hs] at h; cases h
  | ok r =>
    rw [hs] at h
    change fromSections r.1 r.2 = .ok c at h
    unfold fromSections at h
    cases hm : middles ((splitCh '\n' r.2).filter fun g => !g.isEmpty) with
    | error e => simp only [hm] at h; cases h
    | ok mids =>
      simp only [hm] at h
      obtain ⟨ds, hd⟩ := declared_nat r.1
      obtain ⟨es, he, -⟩ := enlarge_nat mids ds
      change (do
        let c ← Circuit.new (R := R) (.list (enlarge mids (declared r.1))) []
        let c ← ((splitCh '\n' r.2).filter fun g => !g.isEmpty).foldlM lineStep c
        .ok (← c.callM .measureAll).1) = Except.ok c at h
      rw [hd, he] at h
      cases hn : Circuit.new (R := R) (.list (es.map Int.ofNat)) [] with
      | error e => rw [hn] at h; cases h
      | ok c0 =>
        rw [hn] at h
        change (do
          let c ← ((splitCh '\n' r.2).filter fun g => !g.isEmpty).foldlM lineStep c0
          .ok (← c.callM .measureAll).1) = Except.ok c at h
        cases hf : ((splitCh '\n' r.2).filter fun g => !g.isEmpty).foldlM lineStep c0 with
        | error e => rw [hf] at h; cases h
        | ok c1 =>
          rw [hf] at h
          obtain ⟨ks, hk, hks⟩ := lines_calls hf
          refine ⟨es, ks, fun k hk' => ⟨(hk k hk').1, (hk k hk').2.imp id ?_⟩, ?_⟩
          · rintro ⟨g, hg, hT⟩
            exact sections_infix hs (hT.isInfix.trans (splitCh_infix (List.mem_of_mem_filter hg)))
          unfold build
          rw [hn]
          change (ks ++ [Call.measureAll]).foldlM (fun (c : Circuit R) k => (do .ok (← c.callM k).1 : PyM (Circuit R))) c0 = _
          rw [List.foldlM_append, hks]
          change ([Call.measureAll]).foldlM (fun (c : Circuit R) k => (do .ok (← c.callM k).1 : PyM (Circuit R))) c1 = _
          rw [List.foldlM_cons]
          change (do .ok (← c1.callM .measureAll).1) = Except.ok c at h
          rw [h]
          rfl

/-- **C91.** Whatever text is read: if the reader does not raise, the circuit is one made by the constructor and calls of
`x`, `h`, `z`, `cx` and `toffoli`, then `measure_all()`, without an exception. -/
theorem C91_any_text {t : Text} {c : Circuit R} (h : circuitFromQasm t = .ok c) :
    ∃ (dims : List Nat) (ks : List (Call R)), (∀ k ∈ ks, Readable k) ∧ build dims ks = .ok c := by
  obtain ⟨dims, ks, hk, hb⟩ := read_calls h
  exact ⟨dims, ks, fun k h => (hk k h).1, hb⟩

/-- **C91.** A text without the word `Toffoli` that the reader accepts, however it is laid out, means the same as the text of
a program as in C27. -/
theorem C91_plain_form {t : Text} (ht : ¬ lit "Toffoli" <:+: t) {c : Circuit R} (h : circuitFromQasm t = .ok c) :
    ∃ p : Program, p.Ok ∧ (∀ a b c, Instr.toffoli a b c ∉ p.instrs) ∧ circuitFromQasm p.text = .ok c := by
  obtain ⟨dims, ks, hk, hb⟩ := read_calls h
  have hno : ∀ cs t p, Call.toffoli cs t p ∉ ks := fun cs t' p hmem => by
    rcases (hk _ hmem).2 with h' | h'
    · exact h' cs t' p rfl
    · exact ht h'
  obtain ⟨p, h1, h2, h3, h4⟩ := written (dims := dims) (fun k h => (hk k h).1) hno
  exact ⟨p, h1, h2, by rw [C27_program h1, h3, h4]; exact hb⟩

/-- **C91**, the converse: the constructor and any such calls without `toffoli` are the text of some program. -/
theorem C91_written (dims : List Nat) {ks : List (Call R)} (hk : ∀ k ∈ ks, Readable k) (ht : ∀ cs t p, Call.toffoli cs t p ∉ ks) :
    ∃ t : Text, circuitFromQasm t = build dims ks := by
  obtain ⟨p, h1, -, h3, h4⟩ := written (dims := dims) hk ht
  exact ⟨p.text, by rw [C27_program h1, h3, h4]⟩

theorem reads_of {t : Text} {r : Text × Text} {ls : List Text} {mids dims : List Int} (h : sections t = .ok r)
    (hl : ((splitCh '\n' r.2).filter fun g => !g.isEmpty) = ls) (hm : middles ls = .ok mids) (hd : enlarge mids (declared r.1) = dims) :
    circuitFromQasm (R := R) t = (do
      let c ← Circuit.new (R := R) (.list dims) []
      let c ← ls.foldlM lineStep c
      .ok (← c.callM .measureAll).1) := by
  subst hl hd
  unfold circuitFromQasm
  rw [h]
  show fromSections r.1 r.2 = _
  unfold fromSections
  simp only [hm]
  rfl

/-- A text that is no program of C27: dimensions anywhere between the first two markers, text after the markers, other words. -/
def loose : Text := lit "
.qudit 7 are (3) and so on 4)
.beginning
Xerox 0
CNOTHING 0th and1 or not
.end of story"

theorem loose_reads : circuitFromQasm (R := R) loose = build [3, 4] [.x 0 none 1, .cx 0 1 1] := by
  have h : sections loose = .ok (lit " are (3) and so on 4)", lit "ning\nXerox 0\nCNOTHING 0th and1 or not") := by decide +kernel
  have hl : ((splitCh '\n' (lit "ning\nXerox 0\nCNOTHING 0th and1 or not")).filter fun g => !g.isEmpty) =
    [lit "ning", lit "Xerox 0", lit "CNOTHING 0th and1 or not"] := by decide +kernel
  have hm : middles [lit "ning", lit "Xerox 0", lit "CNOTHING 0th and1 or not"] = .ok [] := by decide +kernel
  have hd : enlarge [] (declared (lit " are (3) and so on 4)")) = [3, 4] := by decide +kernel
  rw [reads_of h hl hm hd]
  rfl

example : ¬ lit "Toffoli" <:+: loose := by decide +kernel

example : ∃ c : Circuit R, circuitFromQasm loose = .ok c := ⟨_, loose_reads.trans rfl⟩

/-- A line of `Toffoli` that no program of C27 has: four numbers, of which the first three are controls, and two registers are
enlarged. -/
def oddToffoli : Text := lit "
.qubit 6
qubit x0
qubit x1
qubit x2
qubit x3
qubit x4
qubit x5
.begin
Toffoli x0 x1 x2;5
.end"

set_option maxRecDepth 8000 in
example : circuitFromQasm (R := R) oddToffoli = build [2, 3, 2, 2, 2, 3] [.toffoli [0, 1, 2] 5 1] := by
  have h : sections oddToffoli = .ok (lit "\nqubit x0\nqubit x1\nqubit x2\nqubit x3\nqubit x4\nqubit x5", lit "\nToffoli x0 x1 x2;5") := by
    decide +kernel
  have hl : ((splitCh '\n' (lit "\nToffoli x0 x1 x2;5")).filter fun g => !g.isEmpty) = [lit "Toffoli x0 x1 x2;5"] := by decide +kernel
  have hm : middles [lit "Toffoli x0 x1 x2;5"] = .ok [1, 5] := by decide +kernel
  have hd : enlarge [1, 5] (declared (lit "\nqubit x0\nqubit x1\nqubit x2\nqubit x3\nqubit x4\nqubit x5")) = [2, 3, 2, 2, 2, 3] := by
    decide +kernel
  rw [reads_of h hl hm hd]
  rfl

end

end Qasm

end QuDiet
