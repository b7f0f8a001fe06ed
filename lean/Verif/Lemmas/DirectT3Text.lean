import Verif.Lemmas.ForteFiles
import Verif.Lemmas.DirectT3
import Verif.Spec.DirectT3Text

/-!
Lemmas about the text of the function for three-body amplitudes.
-/

namespace Dsrg

/-! ### Substitution -/

theorem isPrefixOf_eq_false {key s : PyStr} : key.isPrefixOf s = false ↔ ¬ key <+: s := by
  rw [← List.isPrefixOf_iff_prefix, Bool.not_eq_true]

theorem infix_cons_of_not {key : PyStr} {c : Char} {s : PyStr} (h : ¬ key <:+: c :: s) : ¬ key <+: c :: s ∧ ¬ key <:+: s :=
  ⟨fun h' => h h'.isInfix, fun h' => h (h'.trans (List.suffix_cons c s).isInfix)⟩

theorem not_prefix_sep {key a b : PyStr} {c : Char} (hc : c ∉ key) (h : ¬ key <+: a) : ¬ key <+: a ++ c :: b := by
  intro h'
  rcases le_or_gt key.length a.length with h1 | h1
  · exact h (List.prefix_of_prefix_length_le h' (List.prefix_append a _) h1)
  · have h2 : a ++ [c] <+: key := List.prefix_of_prefix_length_le (l₃ := a ++ c :: b) ⟨b, by simp⟩ h' (by simpa using h1)
    exact hc (h2.subset (by simp))

theorem pySub_noInfix {key v s : PyStr} (h : ¬ key <:+: s) : pySub key v s = s := by
  induction s with
  | nil => exact pySub_nil key v
  | cons c s ih =>
    obtain ⟨h1, h2⟩ := infix_cons_of_not h
    rw [pySub_cons_ne (isPrefixOf_eq_false.2 h1), ih h2]

theorem pySub_sep {key v a s : PyStr} {c : Char} (hc : c ∉ key) (hk : key ≠ []) (h : ¬ key <:+: a) : pySub key v (a ++ c :: s) = a ++ c :: pySub key v s := by
  induction a with
  | nil =>
    rw [List.nil_append, List.nil_append, pySub_cons_ne]
    rw [isPrefixOf_eq_false]
    intro h'
    cases key with
    | nil => exact hk rfl
    | cons k ks => exact hc (by rw [(List.cons_prefix_cons.1 h').1]; simp)
  | cons x a ih =>
    obtain ⟨h1, h2⟩ := infix_cons_of_not h
    rw [List.cons_append, pySub_cons_ne, ih h2, List.cons_append]
    rw [isPrefixOf_eq_false]
    have := not_prefix_sep (b := s) hc h1
    simpa using this

theorem noInfix_sep {key a b : PyStr} {c : Char} (hc : c ∉ key) (ha : ¬ key <:+: a) (hb : ¬ key <:+: b) : ¬ key <:+: a ++ c :: b := by
  induction a with
  | nil =>
    intro h
    rw [List.nil_append, List.infix_cons_iff] at h
    rcases h with h | h
    · exact not_prefix_sep (a := []) (b := b) hc (fun h' => ha (h'.isInfix)) (by simpa using h)
    · exact hb h
  | cons x a ih =>
    obtain ⟨h1, h2⟩ := infix_cons_of_not ha
    intro h
    rw [List.cons_append, List.infix_cons_iff] at h
    rcases h with h | h
    · exact not_prefix_sep (b := b) hc h1 (by simpa using h)
    · exact ih h2 h

theorem noInfix_tail {key a b : PyStr} {d : Char} (hk : key.getLast? = some d) (hd : d ∉ b) (ha : ¬ key <:+: a) : ¬ key <:+: a ++ b := by
  have hmem : d ∈ key := List.mem_of_getLast? hk
  induction a with
  | nil => exact fun h => hd (h.subset hmem)
  | cons x a ih =>
    obtain ⟨h1, h2⟩ := infix_cons_of_not ha
    intro h
    rw [List.cons_append, List.infix_cons_iff] at h
    rcases h with h | h
    · rcases le_or_gt key.length (x :: a).length with h3 | h3
      · exact h1 (List.prefix_of_prefix_length_le h (List.prefix_append (x :: a) b) h3)
      · obtain ⟨k, hk'⟩ : x :: a <+: key := List.prefix_of_prefix_length_le (List.prefix_append (x :: a) b) h h3.le
        have hne : k ≠ [] := by
          rintro rfl
          rw [← hk'] at h3
          simp at h3
        obtain ⟨r, hr⟩ := h
        rw [← hk', ← List.cons_append, List.append_assoc] at hr
        have hb : b = k ++ r := (List.append_cancel_left hr).symm
        rw [← hk', List.getLast?_append_of_ne_nil _ hne] at hk
        exact hd (hb ▸ List.mem_append_left _ (List.mem_of_getLast? hk))
    · exact ih h2 h

/-! ### Reading constant text -/

/-- String literals of the text are closed. -/
def closedText : PyStr → Bool
  | [] => true
  | c :: s =>
    if c = '"' then decide ('"' ∈ s) && closedText ((s.dropWhile (· ≠ '"')).drop 1)
    else if c = '/' ∧ s.head? = some '/' then closedText (s.dropWhile (· ≠ '\n'))
    else closedText s
termination_by s => s.length
decreasing_by
  · have := (List.dropWhile_sublist (· ≠ '"') (l := s)).length_le
    simp only [List.length_drop, List.length_cons]
    omega
  · have := (List.dropWhile_sublist (· ≠ '\n') (l := s)).length_le
    simp only [List.length_cons]
    omega
  · simp

theorem closedText_dropWhile {s : PyStr} (h : closedText s = true) : closedText (s.dropWhile isWordChar) = true := by
  induction s with
  | nil => exact h
  | cons c s ih =>
    by_cases hc : isWordChar c = true
    · rw [List.dropWhile_cons_of_pos hc]
      obtain ⟨-, h1, h2⟩ := isWordChar_ne hc
      rw [closedText, if_neg h1, if_neg (by simp [h2])] at h
      exact ih h
    · rw [List.dropWhile_cons_of_neg hc]
      exact h

theorem lexemes_newline (n : Nat) : ∀ (s : PyStr), s.length ≤ n → closedText s = true → ∀ r, lexemes (s ++ '\n' :: r) = lexemes s ++ lexemes r := by
  have h0 : ∀ r, lexemes ('\n' :: r) = lexemes r := fun r => by
    have := Lexes.blank (c := '\n') (by decide) r
    simpa using this
  induction n with
  | zero =>
    intro s hs _ r
    rw [List.length_eq_zero_iff.1 (Nat.le_zero.1 hs)]
    simpa [lexemes] using h0 r
  | succ n ih =>
    intro s hs h r
    cases s with
    | nil => simpa [lexemes] using h0 r
    | cons x s =>
      have hlen : s.length ≤ n := by simpa using hs
      rw [closedText] at h
      rw [List.cons_append, lexemes, lexemes.eq_def (x :: s)]
      simp only
      by_cases hb : isBlank x = true
      · have hx : x ≠ '"' ∧ x ≠ '/' := by
          constructor <;> rintro rfl <;> exact absurd hb (by decide)
        rw [if_pos hb, if_pos hb]
        rw [if_neg hx.1, if_neg (by simp [hx.2])] at h
        exact ih s hlen h r
      · rw [if_neg hb, if_neg hb]
        by_cases hq : x = '"'
        · rw [if_pos hq, if_pos hq]
          rw [if_pos hq, Bool.and_eq_true, decide_eq_true_eq] at h
          obtain ⟨w, t, rfl, hw⟩ := List.eq_append_cons_of_mem h.1
          obtain ⟨e1, e2⟩ := takeWhile_stop (p := fun x => decide (x ≠ '"')) (w := w) (r := t) (c := '"')
            (fun y hy => by simp only [decide_eq_true_eq]; rintro rfl; exact hw hy) (by simp)
          obtain ⟨e3, e4⟩ := takeWhile_stop (p := fun x => decide (x ≠ '"')) (w := w) (r := t ++ '\n' :: r) (c := '"')
            (fun y hy => by simp only [decide_eq_true_eq]; rintro rfl; exact hw hy) (by simp)
          have e0 : (w ++ '"' :: t) ++ '\n' :: r = w ++ '"' :: (t ++ '\n' :: r) := by simp
          rw [e0, e1, e2, e3, e4]
          have h2 := h.2
          rw [e2] at h2
          simp only [List.drop_succ_cons, List.drop_zero] at h2 ⊢
          rw [ih t (by simp at hlen; omega) h2 r]
          simp
        · rw [if_neg hq, if_neg hq]
          rw [if_neg hq] at h
          have hw : isWordChar '\n' = false := by decide
          by_cases hx : isWordChar x = true
          · rw [if_pos hx, if_pos hx, (takeWhile_append_stop hw s r).1, (takeWhile_append_stop hw s r).2]
            rw [if_neg (by simp [(isWordChar_ne hx).2.2])] at h
            have hl := (List.dropWhile_sublist isWordChar (l := s))
            rw [ih _ (le_trans hl.length_le hlen) (closedText_dropWhile h), List.cons_append]
          · rw [if_neg hx, if_neg hx]
            by_cases hc : x = '/' ∧ s.head? = some '/'
            · have hc' : x = '/' ∧ (s ++ '\n' :: r).head? = some '/' := ⟨hc.1, by rw [List.head?_append, hc.2]; rfl⟩
              rw [if_pos hc, if_pos hc']
              rw [if_pos hc] at h
              rw [(takeWhile_append_stop (p := fun c => decide (c ≠ '\n')) (c := '\n') (by simp) s r).2]
              have hl := (List.dropWhile_sublist (fun c => decide (c ≠ '\n')) (l := s))
              exact ih _ (le_trans hl.length_le hlen) h r
            · have hc' : ¬ (x = '/' ∧ (s ++ '\n' :: r).head? = some '/') := by
                rintro ⟨h1, h2⟩
                cases s with
                | nil => simp at h2
                | cons y s => exact hc ⟨h1, by simpa using h2⟩
              rw [if_neg hc, if_neg hc']
              rw [if_neg hc] at h
              rw [ih s hlen h r, List.cons_append]

theorem Lexes.of_newline {s : PyStr} (h : closedText s = true) : Lexes (s ++ ['\n']) (lexemes s) := fun r => by
  have := lexemes_newline s.length s le_rfl h r
  simpa using this

/-! ### The text -/

/-- The local arrays. -/
def t3Locals : PyStr := t3Text3.drop 3

/-- The statements of the template. -/
def t3Body : PyStr := t3Text4.take (t3Text4.length - (templateEnd.length + 1))

theorem t3Text1_eq : t3Text1 = templateMiddle ++ ['v', 'o', 'i', 'd', ' '] := by decide

theorem t3Text3_eq : t3Text3 = [')', ' ', '{'] ++ t3Locals := by decide +kernel

theorem t3Text4_eq : t3Text4 = t3Body ++ ['}'] ++ templateEnd := by decide +kernel

theorem directT3_fill {ns func vars code : PyStr} (hn : NoPlaceholder ns) (hf : NoPlaceholder func) (hv : ¬ expressionsKey <:+: vars) :
    multiGsub [(headersKey, headerText ns), (namespaceKey, ns), (funcNameKey, func), (variablesKey, vars), (expressionsKey, code)] directT3Template =
      fillTemplate ns (functionHead ns (func ++ ['_', 'd', 'i', 'r', 'e', 'c', 't', '_', 't', '3']) vars ++ (t3Locals ++ code ++ t3Body) ++ ['}']) := by
  have up : ∀ d : Char, 65 ≤ d.toNat ∧ d.toNat ≤ 90 → d ∉ headerText ns := fun d hd => upper_not_mem_lower hd _
  unfold multiGsub directT3Template
  simp only [List.foldl_cons, List.foldl_nil]
  -- the header
  have e1 : pySub headersKey (headerText ns) (headersKey ++ t3Text1 ++ namespaceKey ++ [':', ':'] ++ funcNameKey ++ t3Text2 ++ variablesKey ++ t3Text3 ++
      expressionsKey ++ t3Text4) = (headerText ns ++ t3Text1) ++ (namespaceKey ++ ([':', ':'] ++ funcNameKey ++ t3Text2 ++ variablesKey ++ t3Text3 ++
      expressionsKey ++ t3Text4)) := by
    have := pySub_hit (k := 'H') (ks := ['E', 'A', 'D', 'E', 'R', 'S']) (v := headerText ns) (s := t3Text1 ++ namespaceKey ++ [':', ':'] ++ funcNameKey ++
      t3Text2 ++ variablesKey ++ t3Text3 ++ expressionsKey ++ t3Text4)
    rw [pySub_none (s := t3Text1 ++ namespaceKey ++ [':', ':'] ++ funcNameKey ++ t3Text2 ++ variablesKey ++ t3Text3 ++ expressionsKey ++ t3Text4)
      (by decide +kernel)] at this
    simpa [headersKey] using this
  have skip : ∀ {k : Char} {ks : PyStr}, 65 ≤ k.toNat ∧ k.toNat ≤ 90 → k ∉ t3Text1 → ∀ v s, pySub (k :: ks) v ((headerText ns ++ t3Text1) ++ s) =
      (headerText ns ++ t3Text1) ++ pySub (k :: ks) v s := fun h1 h2 v s => pySub_skip (by
    rw [List.mem_append, not_or]
    exact ⟨up _ h1, h2⟩)
  -- the class
  have e2 : pySub namespaceKey ns ((headerText ns ++ t3Text1) ++ (namespaceKey ++ ([':', ':'] ++ funcNameKey ++ t3Text2 ++ variablesKey ++ t3Text3 ++
      expressionsKey ++ t3Text4))) = (headerText ns ++ t3Text1) ++ (ns ++ ':' :: ':' :: (funcNameKey ++ (t3Text2 ++ variablesKey ++ t3Text3 ++
      expressionsKey ++ t3Text4))) := by
    rw [namespaceKey, skip (by decide) (by decide +kernel), pySub_hit, ← namespaceKey, pySub_noInfix (by decide +kernel)]
    simp
  -- the function
  have e3 : pySub funcNameKey func ((headerText ns ++ t3Text1) ++ (ns ++ ':' :: ':' :: (funcNameKey ++ (t3Text2 ++ variablesKey ++ t3Text3 ++
      expressionsKey ++ t3Text4)))) = (headerText ns ++ t3Text1) ++ (ns ++ ':' :: ':' :: (func ++ t3Text2.dropLast) ++ '(' :: (variablesKey ++ (t3Text3 ++
      expressionsKey ++ t3Text4))) := by
    have h1 : ¬ funcNameKey <:+: ns := hn _ (by decide)
    have e : ns ++ ':' :: ':' :: (funcNameKey ++ (t3Text2 ++ variablesKey ++ t3Text3 ++ expressionsKey ++ t3Text4)) =
        (ns ++ [':']) ++ ':' :: (funcNameKey ++ (t3Text2 ++ variablesKey ++ t3Text3 ++ expressionsKey ++ t3Text4)) := by simp
    have h2 : ¬ funcNameKey <:+: ns ++ [':'] := noInfix_sep (by decide) h1 (by decide)
    have h3 : pySub funcNameKey func (funcNameKey ++ (t3Text2 ++ variablesKey ++ t3Text3 ++ expressionsKey ++ t3Text4)) =
        func ++ (t3Text2 ++ variablesKey ++ t3Text3 ++ expressionsKey ++ t3Text4) := by
      have := pySub_hit (k := 'F') (ks := ['U', 'N', 'C', '_', 'N', 'A', 'M', 'E']) (v := func) (s := t3Text2 ++ variablesKey ++ t3Text3 ++ expressionsKey ++ t3Text4)
      exact this.trans (congrArg (func ++ ·) (pySub_noInfix (by decide +kernel)))
    have h4 : t3Text2 = t3Text2.dropLast ++ ['('] := by decide
    have h5 : pySub funcNameKey func ((headerText ns ++ t3Text1) ++ (ns ++ ':' :: ':' :: (funcNameKey ++ (t3Text2 ++ variablesKey ++ t3Text3 ++
      expressionsKey ++ t3Text4)))) = (headerText ns ++ t3Text1) ++ pySub funcNameKey func (ns ++ ':' :: ':' :: (funcNameKey ++ (t3Text2 ++ variablesKey ++ t3Text3 ++
      expressionsKey ++ t3Text4))) := skip (by decide) (by decide +kernel) _ _
    rw [h5, e, pySub_sep (by decide) (by decide) h2, h3]
    rw [h4]
    simp
  -- the parameters
  have hfd : ∀ k ∈ placeholders, k.getLast? = some 'E' ∨ k.getLast? = some 'S' := by decide
  have hfunc : ∀ k ∈ placeholders, ¬ k <:+: func ++ t3Text2.dropLast := fun k hk => by
    rcases hfd k hk with h | h
    · exact noInfix_tail h (by decide) (hf k hk)
    · exact noInfix_tail h (by decide) (hf k hk)
  have hpre : ∀ k ∈ placeholders, ¬ k <:+: ns ++ ':' :: ':' :: (func ++ t3Text2.dropLast) := fun k hk => by
    have hc : ':' ∉ k := by revert k; decide
    have := noInfix_sep hc (hn k hk) (noInfix_sep (a := []) hc (fun h => by
      have h' : ∀ k ∈ placeholders, ¬ k <:+: [] := by decide
      exact h' k hk h) (hfunc k hk))
    simpa using this
  have e4 : pySub variablesKey vars ((headerText ns ++ t3Text1) ++ (ns ++ ':' :: ':' :: (func ++ t3Text2.dropLast) ++ '(' :: (variablesKey ++ (t3Text3 ++
      expressionsKey ++ t3Text4)))) = (headerText ns ++ t3Text1) ++ (ns ++ ':' :: ':' :: (func ++ t3Text2.dropLast) ++ '(' :: (vars ++ (t3Text3 ++
      expressionsKey ++ t3Text4))) := by
    have h1 := hpre variablesKey (by decide)
    have h3 : pySub variablesKey vars (variablesKey ++ (t3Text3 ++ expressionsKey ++ t3Text4)) = vars ++ (t3Text3 ++ expressionsKey ++ t3Text4) := by
      have := pySub_hit (k := 'F') (ks := ['U', 'N', 'C', '_', 'V', 'A', 'R', 'I', 'A', 'B', 'L', 'E', 'S']) (v := vars) (s := t3Text3 ++ expressionsKey ++ t3Text4)
      exact this.trans (congrArg (vars ++ ·) (pySub_noInfix (by decide +kernel)))
    have h5 : ∀ s, pySub variablesKey vars ((headerText ns ++ t3Text1) ++ s) = (headerText ns ++ t3Text1) ++ pySub variablesKey vars s := fun s =>
      skip (by decide) (by decide +kernel) _ _
    rw [h5, pySub_sep (by decide) (by decide) h1, h3]
  -- the expressions
  have h4 : t3Text3 = ')' :: ' ' :: '{' :: (t3Locals.dropLast ++ [' ']) := by decide +kernel
  have e5 : pySub expressionsKey code ((headerText ns ++ t3Text1) ++ (ns ++ ':' :: ':' :: (func ++ t3Text2.dropLast) ++ '(' :: (vars ++ (t3Text3 ++
      expressionsKey ++ t3Text4)))) = (headerText ns ++ t3Text1) ++ (ns ++ ':' :: ':' :: (func ++ t3Text2.dropLast) ++ '(' :: (vars ++ (t3Text3 ++
      (code ++ t3Text4)))) := by
    have hk : expressionsKey ∈ placeholders := by decide
    have h1 := hpre expressionsKey hk
    have h3 : pySub expressionsKey code (expressionsKey ++ t3Text4) = code ++ t3Text4 := by
      have := pySub_hit (k := 'C') (ks := ['P', 'P', '_', 'E', 'X', 'P', 'R', 'E', 'S', 'S', 'I', 'O', 'N', 'S']) (v := code) (s := t3Text4)
      exact this.trans (congrArg (code ++ ·) (pySub_noInfix (by decide +kernel)))
    have h5 : ∀ s, pySub expressionsKey code ((headerText ns ++ t3Text1) ++ s) = (headerText ns ++ t3Text1) ++ pySub expressionsKey code s := fun s =>
      skip (by decide) (by decide +kernel) _ _
    have h6 : ¬ expressionsKey <:+: (ns ++ ':' :: ':' :: (func ++ t3Text2.dropLast) ++ '(' :: (vars ++ ')' :: (' ' :: '{' :: t3Locals.dropLast))) :=
      noInfix_sep (by decide) h1 (noInfix_sep (by decide) hv (by decide +kernel))
    have h7 : ∀ x, ns ++ ':' :: ':' :: (func ++ t3Text2.dropLast) ++ '(' :: (vars ++ (t3Text3 ++ x)) =
        (ns ++ ':' :: ':' :: (func ++ t3Text2.dropLast) ++ '(' :: (vars ++ ')' :: (' ' :: '{' :: t3Locals.dropLast))) ++ ' ' :: x := fun x => by
      rw [h4]; simp
    rw [h5, List.append_assoc t3Text3, h7, h7, pySub_sep (by decide) (by decide) h6, h3]
  rw [e1, e2, e3, e4, e5, fillTemplate_eq, t3Text1_eq, t3Text3_eq, t3Text4_eq]
  have h8 : t3Text2.dropLast = ['_', 'd', 'i', 'r', 'e', 'c', 't', '_', 't', '3'] := by decide
  rw [h8]
  simp [functionHead]

/-! ### Reading the function -/

/-- The words of the statements of a constant text. -/
def constStatements (s : PyStr) : List (List PyStr) := (cutAt [';'] (lexemes s)).dropLast

theorem lexes_locals : Lexes t3Locals ((constStatements t3Locals).flatMap fun ts => ts ++ [[';']]) ∧ (∀ ts ∈ constStatements t3Locals, [';'] ∉ ts) ∧
    ∃ a b, constStatements t3Locals = [a, b] ∧ readLocal a = some (['C', '3'], [⟨.c, false⟩, ⟨.c, false⟩, ⟨.c, false⟩, ⟨.v, false⟩, ⟨.v, false⟩, ⟨.v, false⟩]) ∧
      readLocal b = some (['t', 'e', 'm', 'p'], [⟨.c, false⟩, ⟨.c, false⟩, ⟨.c, false⟩, ⟨.v, false⟩, ⟨.v, false⟩, ⟨.v, false⟩]) := by
  refine ⟨?_, by decide +kernel, ?_⟩
  · have e : t3Locals = (t3Locals.take (t3Locals.length - 6) ++ ['\n']) ++ indentText := by decide +kernel
    have h := (Lexes.of_newline (s := t3Locals.take (t3Locals.length - 6)) (by decide +kernel)).append lexes_indent
    rw [← e] at h
    have e' : lexemes (t3Locals.take (t3Locals.length - 6)) ++ [] = (constStatements t3Locals).flatMap fun ts => ts ++ [[';']] := by decide +kernel
    rwa [e'] at h
  · exact ⟨(constStatements t3Locals)[0]!, (constStatements t3Locals)[1]!, by decide +kernel, by decide +kernel, by decide +kernel⟩

theorem lexes_body : Lexes t3Body ((constStatements t3Body).flatMap fun ts => ts ++ [[';']]) ∧ (∀ ts ∈ constStatements t3Body, [';'] ∉ ts) ∧
    (∃ a l, constStatements t3Body = a :: l ∧ readStatement a = none) ∧ readT3Update (constStatements t3Body) = some t3Template := by
  refine ⟨?_, by decide +kernel, ?_, by decide +kernel⟩
  · have e : t3Body = t3Body.dropLast ++ ['\n'] := by decide +kernel
    have h := Lexes.of_newline (s := t3Body.dropLast) (by decide +kernel)
    rw [← e] at h
    have e' : lexemes t3Body.dropLast = (constStatements t3Body).flatMap fun ts => ts ++ [[';']] := by decide +kernel
    rwa [e'] at h
  · exact ⟨(constStatements t3Body)[0]!, (constStatements t3Body).drop 1, by decide +kernel, by decide +kernel⟩

theorem params_tensors {names : List PyStr} (h : ∀ n ∈ names, CppName n) :
    ParamsText (joinWith [',', ' '] (names.map fun i => tensorRef ++ i)) (names.map fun i => (tensorWord ++ ['&'], i)) := by
  by_cases hne : names = []
  · subst hne
    exact ⟨[], Lexes.nil.word, rfl, by simp, by simp⟩
  · have := params_join (l := names.map fun i => (tensorRef ++ i, (tensorWord ++ ['&'], i))) (by simpa using hne) (by
      intro e he
      obtain ⟨n, hn, rfl⟩ := List.mem_map.1 he
      exact param_tensor (h n hn))
    simpa [Function.comp_def] using this

theorem noInfix_vars {names : List PyStr} (h : ∀ n ∈ names, NoPlaceholder n) : ¬ expressionsKey <:+: joinWith [',', ' '] (names.map fun i => tensorRef ++ i) := by
  have hk : expressionsKey ∈ placeholders := by decide
  have one : ∀ n ∈ names, ¬ expressionsKey <:+: tensorRef ++ n := fun n hn => by
    have e : tensorRef ++ n = tensorRef.dropLast ++ ' ' :: n := by simp [tensorRef]
    rw [e]
    exact noInfix_sep (by decide) (by decide) (h n hn _ hk)
  clear h
  induction names with
  | nil => decide
  | cons n names ih =>
    by_cases hne : names = []
    · subst hne
      exact one n (by simp)
    · rw [List.map_cons, joinWith_cons _ _ (by simpa using hne)]
      have := noInfix_sep (key := expressionsKey) (c := ',') (by decide) (one n (by simp))
        (noInfix_sep (a := []) (c := ' ') (by decide) (by decide) (ih fun m hm => one m (by simp [hm])))
      simpa using this

theorem isSome_of_mapM {α β : Type} {rd : α → Option β} {l : List α} {r : List β} (h : l.mapM rd = some r) : ∀ x ∈ l, (rd x).isSome = true := by
  induction l generalizing r with
  | nil => simp
  | cons s l ih =>
    rw [List.mapM_cons] at h
    cases h1 : rd s with
    | none => rw [h1] at h; cases h
    | some b =>
      cases h2 : l.mapM rd with
      | none => rw [h1, h2] at h; cases h
      | some bs =>
        intro x hx
        rcases List.mem_cons.1 hx with rfl | hx
        · simp [h1]
        · exact ih h2 x hx

theorem directT3_text {limit : ℚ → Nat → ℚ} (hl : ClosestFraction limit) {pt : List (List (List (List Index)) × List Term)} {func ns : PyStr}
    (hfunc : CppName func) (hns : CppName ns) (hpf : NoPlaceholder func) (hpn : NoPlaceholder ns) (hne : ∀ e ∈ pt, e.2 ≠ [])
    (hp : ∀ e ∈ pt, ∀ t ∈ e.2, Printable t ∧ Readable t ∧ t.coeff.den ≤ 1000000000)
    (hx : ∀ e ∈ pt, ∀ t ∈ e.2, ∀ x ∈ t.tensors, NoPlaceholder x.arrayName) {f : DirectT3} (hf : directT3 pt = .ok f) :
    ∃ text g, directT3Text limit pt func ns = .ok text ∧ readFile text = some (includePath ns, g) ∧ g.scope = ns ∧
      g.name = func ++ ['_', 'd', 'i', 'r', 'e', 'c', 't', '_', 't', '3'] ∧ readDirectT3 g = some f := by
  have hmem0 := (directT3_ok hf).1
  unfold directT3 at hf
  obtain ⟨names, hnames, hf⟩ := bind_ok hf
  obtain ⟨body, hbody, hf⟩ := bind_ok hf
  simp only [pure, Except.pure, Except.ok.injEq] at hf
  obtain ⟨code, hcode, tss, l1, l2, l3⟩ := blockBodyText_ok hl (block := []) hne hp (name := []) (initiate := false) (by simp) hbody
  have htext : directT3Text limit pt func ns = .ok (multiGsub [(headersKey, headerText ns), (namespaceKey, ns), (funcNameKey, func),
      (variablesKey, joinWith [',', ' '] (f.params.map fun i => tensorRef ++ i)), (expressionsKey, code)] directT3Template) := by
    unfold directT3Text
    rw [hnames, hcode, ← hf]
    rfl
  have hfeq : f = ⟨f.params, body, t3Template⟩ := by rw [← hf]
  clear hf
  obtain ⟨params, hparams⟩ : ∃ p, p = f.params := ⟨_, rfl⟩
  rw [← hparams] at hmem0 htext hfeq
  clear hparams
  subst hfeq
  have hmem : ∀ n ∈ params, ∃ e ∈ pt, ∃ t ∈ e.2, ∃ x ∈ t.tensors, n = x.arrayName := fun n hn => by
    obtain ⟨t, ht, x, hx, h⟩ := (hmem0 n).1 hn
    obtain ⟨e, he, ht⟩ := List.mem_flatMap.1 ht
    exact ⟨e, he, t, ht, x, hx, h⟩
  have hcpp : ∀ n ∈ params, CppName n := fun n hn => by
    obtain ⟨e, he, t, ht, x, hx, rfl⟩ := hmem n hn
    exact ((hp e he t ht).2.1.2 x hx).1.array
  have hvars := noInfix_vars (names := params) fun n hn => by
    obtain ⟨e, he, t, ht, x, hx', rfl⟩ := hmem n hn
    exact hx e he t ht x hx'
  have hname : CppName (func ++ ['_', 'd', 'i', 'r', 'e', 'c', 't', '_', 't', '3']) := hfunc.of_chars (by decide)
  obtain ⟨a1, a2, c3, tmp, a3, a4, a5⟩ := lexes_locals
  obtain ⟨b1, b2, ⟨s0, sl, b3, b4⟩, b5⟩ := lexes_body
  obtain ⟨toks, t1, t2⟩ := readFunction_text (tss := constStatements t3Locals ++ tss ++ constStatements t3Body) hns hname (params_tensors hcpp)
    (body := t3Locals ++ code ++ t3Body) (by
      rw [List.flatMap_append, List.flatMap_append]
      exact (a1.append l1).append b1) (by
      intro ts hts
      rw [List.mem_append, List.mem_append] at hts
      rcases hts with (hts | hts) | hts
      · exact a2 ts hts
      · exact l2 ts hts
      · exact b2 ts hts)
  refine ⟨_, _, ?_, readFile_fill hns t1 t2, rfl, rfl, ?_⟩
  · rw [htext, directT3_fill hpn hpf hvars]
  · have hsome := isSome_of_mapM l3
    obtain ⟨w1, w2⟩ := takeWhile_stop (p := fun l => (readStatement l).isSome) (w := tss) (r := sl) (c := s0) hsome (by simp [b4])
    rw [b3] at b5
    simp only [readDirectT3, a3, b3, List.cons_append, List.nil_append]
    rw [if_pos ⟨a4, a5, by simp⟩, w1, w2, l3, b5]
    simp [Function.comp_def]

end Dsrg
