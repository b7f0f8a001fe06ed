import Verif.Lemmas.AmbitText
import Verif.Props.Forte

/-!
Property theorems about the text of the generated code.
-/

namespace Dsrg

/-! ### C90 The generated text says what the program says -/

/-- `Term.ambit`: reading the text as a program gives the statements of the term, for every target name and every combination of the options. -/
theorem C90_term (limit : ℚ → Nat → ℚ) (hl : ClosestFraction limit) (t : Term) (hp : Printable t) (hr : Readable t)
    (hc : t.coeff.den ≤ 1000000000) (name : PyStr) (hn : CppName name) (ignore init declared : Bool) (prog : List AmbitStmt)
    (h : t.ambit name ignore init declared = .ok prog) :
    ∃ text, t.ambitText limit name ignore init declared = .ok text ∧ readProgram text = some prog := by
  obtain ⟨s, h1, h2⟩ := termText_ok hl hp hr hc hn h
  exact ⟨s, h1, h2.reads.readProgram⟩

theorem mapM_reads {α : Type} {f : α → Except PyErr (List AmbitStmt)} {g : α → Except PyErr PyStr} {l : List α}
    (h : ∀ a ∈ l, ∀ p, f a = .ok p → ∃ s, g a = .ok s ∧ Reads s p) {ps : List (List AmbitStmt)} (hps : l.mapM f = .ok ps) :
    ∃ ss, l.mapM g = .ok ss ∧ Reads ss.flatten ps.flatten := by
  induction l generalizing ps with
  | nil =>
    simp only [List.mapM_nil, pure, Except.pure, Except.ok.injEq] at hps
    subst hps
    exact ⟨[], rfl, .nil⟩
  | cons a l ih =>
    obtain ⟨p, qs, h1, h2, rfl⟩ := mapM_cons_ok.1 hps
    obtain ⟨s, h3, h4⟩ := h a (by simp) p h1
    obtain ⟨ss, h5, h6⟩ := ih (fun b hb => h b (by simp [hb])) h2
    exact ⟨s :: ss, mapM_cons_ok.2 ⟨s, ss, h3, h5, rfl⟩, h4.append h6⟩

/-- `print_terms_ambit`: reading the printed text as a program gives the statements. -/
theorem C90_print (limit : ℚ → Nat → ℚ) (hl : ClosestFraction limit) (terms : List Term)
    (ht : ∀ t ∈ terms, Printable t ∧ Readable t ∧ t.coeff.den ≤ 1000000000) (prog : List AmbitStmt) (h : printTermsAmbit terms = .ok prog) :
    ∃ text, printTermsAmbitText limit terms = .ok text ∧ readProgram text = some prog := by
  unfold printTermsAmbit at h
  obtain ⟨b, hb, h⟩ := bind_ok h
  obtain ⟨parts, hparts, h⟩ := bind_ok h
  simp only [pure, Except.pure, Except.ok.injEq] at h
  subst h
  have hmem : ∀ e ∈ b, ∀ f ∈ e.2, ∀ t ∈ f.2, t ∈ terms := fun e he f hf t ht =>
    (((categorize_flat hb).2 _ (Buckets.mem_flat.2 ⟨e, he, f, hf, rfl⟩)).2 t ht).1
  obtain ⟨ss, h1, h2⟩ := mapM_reads (g := fun e => do
    let ps ← e.2.mapM fun f => do
      let text ← ambitTermsText limit true f.2
      pure (if f.1 = [] then text ++ ['\n'] else text)
    pure ps.flatten) (by
      intro e he p hp
      obtain ⟨ps, hps, hp⟩ := bind_ok hp
      simp only [pure, Except.pure, Except.ok.injEq] at hp
      subst hp
      obtain ⟨ss, h1, h2⟩ := mapM_reads (g := fun (f : List (List (List Index)) × List Term) => do
          let text ← ambitTermsText limit true f.2
          pure (if f.1 = [] then text ++ ['\n'] else text)) (by
        intro f hf p hp
        have hm := hmem e he f hf
        obtain ⟨s, h1, h2⟩ := ambitTermsText_ok hl (fun t h => (ht t (hm t h)).1) (fun t h => (ht t (hm t h)).2.1)
          (fun t h => (ht t (hm t h)).2.2) hp
        refine ⟨_, by rw [h1]; rfl, ?_⟩
        split
        · simpa using h2.append (.blank (c := '\n') (by decide))
        · exact h2) hps
      exact ⟨_, by rw [h1]; rfl, h2⟩) hparts
  refine ⟨_, ?_, h2.readProgram⟩
  unfold printTermsAmbitText
  rw [hb]
  simp only [bind, Except.bind] at h1 ⊢
  rw [h1]
  rfl

section
variable {O R M : Type} [Fintype O] [DecidableEq O] [Inhabited O] [CommRing R] [Algebra ℚ R] [AddCommGroup M] [Module R M]

/-- The printed text, read and run, adds the sum of the terms of rank `n` to the array `Cn`, each term times the number of permutations of
its labels, and changes nothing but these arrays and `temp`. -/
theorem C90_runs (limit : ℚ → Nat → ℚ) (hl : ClosestFraction limit) (orb : Orbitals O) (I : Interp O R M) (hI : I.Antisymmetric) (hH : I.Hermitian)
    (s : Store O R) (ty : IType) (hty : ty.isAntisym = true) (terms : List Term)
    (hp : ∀ t ∈ terms, Printable t ∧ t.sqOp.upper.ty = ty ∧ Readable t ∧ t.coeff.den ≤ 1000000000)
    (hs : ∀ t ∈ terms, ArraysHold s I t.tensors) (hx : ∀ t ∈ terms, ∀ x ∈ t.tensors, ∀ n, x.arrayName ≠ 'C' :: natStr n) :
    ∃ text prog, printTermsAmbitText limit terms = .ok text ∧ readProgram text = some prog ∧
      (∀ n, I.operator n n (fun os => runCode orb s prog ('C' :: natStr n) os - s ('C' :: natStr n) os) =
        ((terms.filter fun t => decide (t.sqOp.lower.list.length = n)).map fun t =>
          algebraMap ℚ R ((spinPermutations t.sqOp.upper.list * spinPermutations t.sqOp.lower.list : ℕ) : ℚ) •
            I.value orb t.coeff t.tensors t.sqOp).sum) ∧
      ∀ nm, (∀ n, nm ≠ 'C' :: natStr n) → nm ≠ tempName → runCode orb s prog nm = s nm := by
  obtain ⟨prog, h1, h2, -, h4⟩ := C69_print orb I hI hH s ty hty terms (fun t ht => ⟨(hp t ht).1, (hp t ht).2.1⟩) hs hx
  obtain ⟨text, h5, h6⟩ := C90_print limit hl terms (fun t ht => ⟨(hp t ht).1, (hp t ht).2.2⟩) prog h1
  exact ⟨text, prog, h5, h6, h2, h4⟩

end

/-- A term with diagonal labels: the first line of its text is a comment, the other lines are those of the statements, and the comment does not
change what is read. -/
theorem C90_diagonal (limit : ℚ → Nat → ℚ) (t : Term) (hd : t.diag ≠ ∅) (name : PyStr) (ignore init declared : Bool) (text : PyStr)
    (h : t.ambitText limit name ignore init declared = .ok text) :
    ∃ line rest, text = line ++ '\n' :: rest ∧ line.take 2 = ['/', '/'] ∧ '\n' ∉ line ∧
      Term.ambitText limit { t with diag := ∅ } name ignore init declared = .ok rest ∧ readProgram text = readProgram rest := by
  have hc : t.diag.card ≠ 0 := fun h => hd (Finset.card_eq_zero.1 h)
  have key : ∃ rest, text = commentText ++ rest ∧ Term.ambitText limit { t with diag := ∅ } name ignore init declared = .ok rest := by
    unfold Term.ambitText at h ⊢
    rw [if_pos hc] at h
    obtain ⟨n, hn, h⟩ := bind_ok h
    obtain ⟨b, hb, h⟩ := bind_ok h
    rw [show Term.permPartitionOpen { t with diag := ∅ } = t.permPartitionOpen from rfl]
    simp only [Finset.card_empty, ne_eq, not_true_eq_false, if_false, hn, hb, bind, Except.bind] at h ⊢
    cases b with
    | false =>
      simp only [Bool.not_false, if_true, pure, Except.pure, Except.ok.injEq] at h ⊢
      exact ⟨_, by rw [← h]; rfl, rfl⟩
    | true =>
      simp only [Bool.not_true, Bool.false_eq_true, if_false] at h ⊢
      by_cases h1 : (!(ignore || init || declared)) = true
      · rw [if_pos h1] at h ⊢
        simp only [pure, Except.pure, Except.ok.injEq] at h ⊢
        exact ⟨_, by rw [← h]; simp, rfl⟩
      · rw [if_neg h1] at h ⊢
        by_cases h2 : ignore = true
        · rw [if_pos h2] at h ⊢
          simp only [pure, Except.pure, Except.ok.injEq] at h ⊢
          refine ⟨_, ?_, rfl⟩
          rw [← h]
          split <;> simp
        · rw [if_neg h2] at h ⊢
          cases hr : t.sqOp.permuteIndices t.permPartitionOpen.1 t.permPartitionOpen.2 false with
          | error e => rw [hr] at h; cases h
          | ok rows =>
            rw [hr] at h
            simp only at h ⊢
            by_cases h3 : (init || declared) = true
            · rw [if_pos h3] at h ⊢
              simp only [pure, Except.pure, Except.ok.injEq] at h ⊢
              refine ⟨_, ?_, rfl⟩
              rw [← h]
              split <;> simp
            · rw [if_neg h3] at h ⊢
              simp only [pure, Except.pure, Except.ok.injEq] at h ⊢
              refine ⟨_, ?_, rfl⟩
              rw [← h]
              split <;> simp
  obtain ⟨rest, rfl, h1⟩ := key
  refine ⟨commentText.dropLast, rest, by simp [commentText], by decide, by decide, h1, ?_⟩
  unfold readProgram
  have hl : lexemes (commentText ++ rest) = lexemes rest := by
    have e : commentText ++ rest = '/' :: '/' :: (commentText.drop 2 ++ rest) := rfl
    have d : ('/' :: (commentText.drop 2 ++ rest)).dropWhile (· ≠ '\n') = '\n' :: rest := by
      rw [show '/' :: (commentText.drop 2 ++ rest) = (commentText.drop 1).dropLast ++ '\n' :: rest by simp [commentText]]
      rw [List.dropWhile_append_of_pos (by decide)]
      simp
    rw [e, lexemes]
    rw [if_neg (by decide), if_neg (by decide), if_neg (by decide), if_pos (by simp), d, lexemes, if_pos (by decide)]
  rw [hl]

/-- A term without tensors: the text of its statement ends with a `*` and cannot be read. -/
theorem C90_violation_no_tensors : ∃ t, Term.make [] (soOp [] []) 1 = .ok t ∧ Printable t ∧
    (∃ prog, t.ambit ['C'] false true true = .ok prog ∧ prog = [.update ⟨['C', '0'], []⟩ true 1 []]) ∧
    ∃ text, t.ambitText (fun x _ => x) ['C'] false true true = .ok text ∧
      text = ['C', '0', ' ', '+', '=', ' ', '1', '.', '0', ' ', '*', ' ', ';'] ∧ readProgram text = none :=
  ⟨_, rfl, printable_make [] (soOp [] []) 1 rfl (by decide +kernel) (by decide +kernel) (by decide +kernel),
    ok_with _ (by decide +kernel), ok_with _ (by decide +kernel)⟩

/-- Tensors with labels on one side only: the text of their labels begins or ends with a comma and cannot be read. -/
theorem C90_violation_one_sided : ∃ t, Term.make [soTensor .tensor 'X' 0 [lab .a 0] [], soTensor .tensor 'Y' 0 [] [lab .a 0]] (soOp [] []) 1 = .ok t ∧
    Printable t ∧ (∃ prog, t.ambit ['C'] false true true = .ok prog ∧
      prog = [.update ⟨['C', '0'], []⟩ true 1 [⟨['X', '_', '1', '_', '0'], [lab .a 0]⟩, ⟨['Y', '_', '0', '_', '1'], [lab .a 0]⟩]]) ∧
    ∃ text, t.ambitText (fun x _ => x) ['C'] false true true = .ok text ∧
      text = ['C', '0', ' ', '+', '=', ' ', '1', '.', '0', ' ', '*', ' ', 'X', '_', '1', '_', '0', '[', '"', 'a', '0', ',', '"', ']', ' ', '*', ' ',
        'Y', '_', '0', '_', '1', '[', '"', ',', 'a', '0', '"', ']', ';'] ∧ readProgram text = none :=
  ⟨_, rfl, printable_make [soTensor .tensor 'X' 0 [lab .a 0] [], soTensor .tensor 'Y' 0 [] [lab .a 0]] (soOp [] []) 1 rfl
      (by decide +kernel) (by decide +kernel) (by decide +kernel), ok_with _ (by decide +kernel), ok_with _ (by decide +kernel)⟩

/-- `-1/3 H^{a0}_{g0} T^{a1}_{g1} a^{g0 g1}_{a0 a1}` meets the hypotheses; its text begins with `temp = ambit::BlockedTensor::build` and is read
as six statements. -/
theorem C90_example : ∃ t, Term.make [soTensor .hamiltonian 'H' 0 [lab .a 0] [lab .g 0], soTensor .cluster 'T' 1 [lab .a 1] [lab .g 1]]
      (soOp [lab .g 0, lab .g 1] [lab .a 0, lab .a 1]) (-1 / 3) = .ok t ∧ Printable t ∧ Readable t ∧ t.coeff.den ≤ 1000000000 ∧
    ∃ text, t.ambitText (fun x _ => x) ['C'] false true true = .ok text ∧
      text.take 33 = ['t', 'e', 'm', 'p', ' ', '=', ' ', 'a', 'm', 'b', 'i', 't', ':', ':', 'B', 'l', 'o', 'c', 'k', 'e', 'd', 'T', 'e', 'n', 's', 'o', 'r', ':', ':', 'b', 'u', 'i', 'l'] ∧
      (readProgram text).map List.length = some 6 ∧
      ((readProgram text).bind fun p => p[1]?) = some (.update ⟨tempName, [lab .a 0, lab .a 1, lab .g 0, lab .g 1]⟩ true (-1 / 3)
        [⟨['H', '1'], [lab .a 0, lab .g 0]⟩, ⟨['T', '1'], [lab .g 1, lab .a 1]⟩]) := by
  refine ⟨_, rfl, printable_make [soTensor .hamiltonian 'H' 0 [lab .a 0] [lab .g 0], soTensor .cluster 'T' 1 [lab .a 1] [lab .g 1]]
      (soOp [lab .g 0, lab .g 1] [lab .a 0, lab .a 1]) (-1 / 3) rfl (by decide +kernel) (by decide +kernel) (by decide +kernel), ?_, by decide +kernel,
    ok_with _ (by decide +kernel)⟩
  unfold Readable CppName
  decide +kernel

end Dsrg
