import Verif.Spec.AmbitText
import Verif.Model.AmbitText
import Verif.Lemmas.Index
import Verif.Lemmas.AmbitPrograms
import Verif.Lemmas.ForteMain
import Verif.Lemmas.Singlet
import Verif.Props.Misc

/-!
Lemmas about reading the generated text.
-/

namespace Dsrg

/-! ### Cutting lists -/

section
variable {α : Type} [DecidableEq α]

/-- Lists joined by a separator. -/
def joinL (x : α) : List (List α) → List α
  | [] => []
  | [w] => w
  | w :: ws => w ++ x :: joinL x ws

theorem joinL_cons (x : α) (w : List α) {ws : List (List α)} (h : ws ≠ []) : joinL x (w :: ws) = w ++ x :: joinL x ws := by
  cases ws with
  | nil => exact absurd rfl h
  | cons v vs => rfl

theorem cutAt_self {x : α} {w : List α} (h : x ∉ w) : cutAt x w = [w] := by
  induction w with
  | nil => rfl
  | cons y w ih =>
    rw [List.mem_cons, not_or] at h
    rw [cutAt, if_neg (fun e => h.1 e.symm), ih h.2]

theorem cutAt_append {x : α} {w : List α} (h : x ∉ w) (r : List α) : cutAt x (w ++ x :: r) = w :: cutAt x r := by
  induction w with
  | nil => simp [cutAt]
  | cons y w ih =>
    rw [List.mem_cons, not_or] at h
    rw [List.cons_append, cutAt, if_neg (fun e => h.1 e.symm), ih h.2]

theorem cutAt_joinL {x : α} {ws : List (List α)} (hne : ws ≠ []) (h : ∀ w ∈ ws, x ∉ w) : cutAt x (joinL x ws) = ws := by
  induction ws with
  | nil => exact absurd rfl hne
  | cons w ws ih =>
    cases ws with
    | nil => exact cutAt_self (h w (by simp))
    | cons v vs =>
      rw [joinL_cons x w (by simp), cutAt_append (h w (by simp)), ih (by simp) fun u hu => h u (by simp [hu])]

theorem mem_joinL {x c : α} {ws : List (List α)} (h : c ∈ joinL x ws) : c = x ∨ ∃ w ∈ ws, c ∈ w := by
  induction ws with
  | nil => simp [joinL] at h
  | cons w ws ih =>
    cases ws with
    | nil => exact .inr ⟨w, by simp, h⟩
    | cons v vs =>
      rw [joinL_cons x w (by simp), List.mem_append, List.mem_cons] at h
      rcases h with h | h | h
      · exact .inr ⟨w, by simp, h⟩
      · exact .inl h
      · rcases ih h with h | ⟨u, hu, h⟩
        · exact .inl h
        · exact .inr ⟨u, by simp [hu], h⟩

theorem joinL_append (x : α) {l r : List (List α)} (hl : l ≠ []) (hr : r ≠ []) : joinL x (l ++ r) = joinL x l ++ x :: joinL x r := by
  induction l with
  | nil => exact absurd rfl hl
  | cons w l ih =>
    cases l with
    | nil => exact joinL_cons x w hr
    | cons v vs =>
      rw [List.cons_append, joinL_cons x w (by simp), ih (by simp), joinL_cons x w (by simp)]
      simp

end

theorem joinWith_single (x : Char) (l : List PyStr) : joinWith [x] l = joinL x l := by
  induction l with
  | nil => rfl
  | cons w l ih =>
    cases l with
    | nil => rfl
    | cons v vs => rw [joinL_cons x w (by simp), ← ih]; simp [joinWith]

/-! ### Cutting a text -/

/-- The lexemes of a text that ends at a boundary. -/
def Lexes (a : PyStr) (ts : List PyStr) : Prop := ∀ r, lexemes (a ++ r) = ts ++ lexemes r

/-- The lexemes of a text that may end with a word. -/
def LexesWord (a : PyStr) (ts : List PyStr) : Prop := ∀ c r, isWordChar c = false → lexemes (a ++ c :: r) = ts ++ lexemes (c :: r)

theorem Lexes.word {a : PyStr} {ts : List PyStr} (h : Lexes a ts) : LexesWord a ts := fun c r _ => h (c :: r)

theorem Lexes.nil : Lexes [] [] := fun _ => rfl

theorem Lexes.append {a b : PyStr} {ts us : List PyStr} (ha : Lexes a ts) (hb : Lexes b us) : Lexes (a ++ b) (ts ++ us) := by
  intro r
  rw [List.append_assoc, ha, hb, List.append_assoc]

theorem Lexes.appendWord {a b : PyStr} {ts us : List PyStr} (ha : Lexes a ts) (hb : LexesWord b us) : LexesWord (a ++ b) (ts ++ us) := by
  intro c r hc
  rw [List.append_assoc, ha, hb c r hc, List.append_assoc]

theorem LexesWord.append {a b : PyStr} {c : Char} {ts us : List PyStr} (ha : LexesWord a ts) (hc : isWordChar c = false) (hb : Lexes (c :: b) us) :
    Lexes (a ++ c :: b) (ts ++ us) := by
  intro r
  have := ha c (b ++ r) hc
  rw [List.append_assoc, List.cons_append, this, ← List.cons_append, hb, List.append_assoc]

theorem LexesWord.appendWord {a b : PyStr} {c : Char} {ts us : List PyStr} (ha : LexesWord a ts) (hc : isWordChar c = false)
    (hb : LexesWord (c :: b) us) : LexesWord (a ++ c :: b) (ts ++ us) := by
  intro d r hd
  have := ha c (b ++ d :: r) hc
  rw [List.append_assoc, List.cons_append, this, ← List.cons_append, hb d r hd, List.append_assoc]

theorem Lexes.flatten {l : List (PyStr × List PyStr)} (h : ∀ e ∈ l, Lexes e.1 e.2) : Lexes (l.map Prod.fst).flatten (l.map Prod.snd).flatten := by
  induction l with
  | nil => exact Lexes.nil
  | cons e l ih => exact (h e (by simp)).append (ih fun x hx => h x (by simp [hx]))

theorem Lexes.lexemes_eq {a : PyStr} {ts : List PyStr} (h : Lexes a ts) : lexemes a = ts := by
  have := h []
  rw [List.append_nil] at this
  rw [this]
  simp [lexemes]

theorem Lexes.blank {c : Char} (h : isBlank c = true) : Lexes [c] [] := by
  intro r
  rw [List.singleton_append, lexemes, if_pos h]
  rfl

/-- A punctuation character. -/
def isPunct (c : Char) : Bool := !isBlank c && decide (c ≠ '"') && !isWordChar c && decide (c ≠ '/')

theorem Lexes.punct {c : Char} (h : isPunct c = true) : Lexes [c] [[c]] := by
  intro r
  simp only [isPunct, Bool.and_eq_true, Bool.not_eq_true', decide_eq_true_eq] at h
  obtain ⟨⟨⟨h1, h2⟩, h3⟩, h4⟩ := h
  rw [List.singleton_append, lexemes, if_neg (by simp [h1]), if_neg h2, if_neg (by simp [h3]), if_neg (by simp [h4])]
  rfl

theorem Lexes.slash : Lexes ['/', ' '] [['/']] := by
  intro r
  rw [List.cons_append, lexemes, if_neg (by decide), if_neg (by decide), if_neg (by decide), if_neg (by simp), List.cons_append, lexemes, if_pos (by decide)]
  rfl

theorem takeWhile_stop {α : Type} {p : α → Bool} {w r : List α} {c : α} (h : ∀ x ∈ w, p x = true) (hc : p c = false) :
    (w ++ c :: r).takeWhile p = w ∧ (w ++ c :: r).dropWhile p = c :: r := by
  induction w with
  | nil => simp [hc]
  | cons y w ih =>
    obtain ⟨h1, h2⟩ := ih fun x hx => h x (by simp [hx])
    simp only [List.cons_append, List.takeWhile_cons, h y (by simp), if_true, List.dropWhile_cons, h1, h2, and_self]

theorem Lexes.string {s : PyStr} (h : '"' ∉ s) : Lexes ('"' :: s ++ ['"']) ['"' :: s ++ ['"']] := by
  intro r
  have := takeWhile_stop (p := fun x => decide (x ≠ '"')) (w := s) (r := r) (c := '"')
    (fun x hx => by simp only [decide_eq_true_eq]; rintro rfl; exact h hx) (by simp)
  rw [List.cons_append, List.cons_append, List.append_assoc, List.singleton_append, lexemes, if_neg (by decide), if_pos rfl, this.1, this.2]
  rfl

theorem isWordChar_ne {c : Char} (h : isWordChar c = true) : isBlank c = false ∧ c ≠ '"' ∧ c ≠ '/' := by
  refine ⟨?_, ?_, ?_⟩
  · by_contra hb
    rw [Bool.not_eq_false, isBlank, Bool.or_eq_true, decide_eq_true_eq, decide_eq_true_eq] at hb
    rcases hb with rfl | rfl <;> exact absurd h (by decide)
  all_goals
    rintro rfl
    exact absurd h (by decide)

/-- Words. -/
def IsWord (w : PyStr) : Prop := w ≠ [] ∧ ∀ c ∈ w, isWordChar c = true

theorem LexesWord.of_word {w : PyStr} (h : IsWord w) : LexesWord w [w] := by
  intro c r hc
  obtain ⟨hne, h⟩ := h
  cases w with
  | nil => exact absurd rfl hne
  | cons y w =>
    obtain ⟨h1, h2, h3⟩ := isWordChar_ne (h y (by simp))
    have := takeWhile_stop (p := isWordChar) (w := w) (r := r) (c := c) (fun x hx => h x (by simp [hx])) hc
    rw [List.cons_append, lexemes, if_neg (by simp [h1]), if_neg h2, if_pos (h y (by simp)), this.1, this.2]
    rfl

/-! ### Labels and numbers -/

theorem isDigit_of_isDigitChar {c : Char} (h : isDigitChar c = true) : c.isDigit = true := by
  simp only [isDigitChar, Bool.and_eq_true, decide_eq_true_eq] at h
  simp only [Char.isDigit, Bool.and_eq_true, decide_eq_true_eq, ge_iff_le, UInt32.le_iff_toNat_le]
  exact h

theorem readNat_natStr (n : Nat) : readNat (natStr n) = some n := by
  rw [readNat, if_pos ⟨natStr_ne_nil n, fun c hc => isDigit_of_isDigitChar (natStr_digits n c hc)⟩]
  have := intOfDigits_natStr n
  rw [intOfDigits] at this
  rw [← this]
  simp only [Nat.mul_comm 10, this]

theorem isWordChar_digit {c : Char} (h : isDigitChar c = true) : isWordChar c = true := by
  have := isDigit_of_isDigitChar h
  simp [isWordChar, Char.isAlphanum, this]

theorem IsWord.numeral (n : Nat) : IsWord (natStr n) := ⟨natStr_ne_nil n, fun c hc => isWordChar_digit (natStr_digits n c hc)⟩

theorem readSpace_toChar (s : Space) : readSpace s.toChar = some s := by
  revert s
  decide

theorem readLabel_name (i : Index) : readLabel i.name = some i := by
  rw [Index.name, readLabel, readSpace_toChar]
  simp [readNat_natStr]

theorem name_not_mem (i : Index) {c : Char} (hc : isWordChar c = false) : c ∉ i.name := by
  intro h
  rw [Index.name, List.mem_cons] at h
  rcases h with h | h
  · have : ∀ s : Space, isWordChar s.toChar = true := by decide
    rw [h, this] at hc
    exact absurd hc (by decide)
  · rw [isWordChar_digit (natStr_digits _ c h)] at hc
    exact absurd hc (by decide)

theorem mapM_some {α β : Type} {f : β → Option α} {g : α → β} (h : ∀ a, f (g a) = some a) (l : List α) : (l.map g).mapM f = some l := by
  induction l with
  | nil => rfl
  | cons a l ih => rw [List.map_cons, List.mapM_cons, h, ih]; rfl

theorem mapM_some' {α β : Type} {f : β → Option α} {g : α → β} {l : List α} (h : ∀ a ∈ l, f (g a) = some a) : (l.map g).mapM f = some l := by
  induction l with
  | nil => rfl
  | cons a l ih =>
    rw [List.map_cons, List.mapM_cons, h a (by simp), ih fun b hb => h b (by simp [hb])]
    rfl

/-- The text of labels. -/
def namesText (l : List Index) : PyStr := joinL ',' (l.map Index.name)

theorem namesText_not_mem (l : List Index) {c : Char} (hc : isWordChar c = false) (h : c ≠ ',') : c ∉ namesText l := by
  intro hm
  rcases mem_joinL hm with rfl | ⟨w, hw, hm⟩
  · exact h rfl
  · obtain ⟨i, _, rfl⟩ := List.mem_map.1 hw
    exact name_not_mem i hc hm

theorem readLabels_namesText {l : List Index} (h : l ≠ []) : (cutAt ',' (namesText l)).mapM readLabel = some l := by
  rw [namesText, cutAt_joinL (by simpa using h)]
  · exact mapM_some readLabel_name l
  · intro w hw
    obtain ⟨i, _, rfl⟩ := List.mem_map.1 hw
    exact name_not_mem i (by decide)

theorem unquote_string (s : PyStr) : unquote ('"' :: s ++ ['"']) = some s := by simp [unquote]

/-! ### References -/

/-- The text of a reference to an array. -/
def ArrayRef.text (a : ArrayRef) : PyStr := a.name ++ if a.labels = [] then [] else ['[', '"'] ++ namesText a.labels ++ ['"', ']']

/-- Its lexemes. -/
def ArrayRef.lexs (a : ArrayRef) : List PyStr :=
  a.name :: if a.labels = [] then [] else [['['], '"' :: namesText a.labels ++ ['"'], [']']]

theorem CppName.chars {n : PyStr} (h : CppName n) : ∀ c ∈ n, isWordChar c = true := fun c hc => by
  have := h.2 c hc
  simp only [Bool.or_eq_true, decide_eq_true_eq] at this
  simp [isWordChar, this]

theorem CppName.isWord {n : PyStr} (h : CppName n) : IsWord n := by
  refine ⟨?_, h.chars⟩
  rintro rfl
  exact absurd h.1 (by decide)

theorem ArrayRef.lexes {a : ArrayRef} (h : CppName a.name) : LexesWord a.text a.lexs := by
  rw [ArrayRef.text, ArrayRef.lexs]
  by_cases hl : a.labels = []
  · rw [if_pos hl, if_pos hl, List.append_nil]
    exact .of_word h.isWord
  · rw [if_neg hl, if_neg hl]
    have h1 : Lexes ('[' :: ('"' :: namesText a.labels ++ ['"'] ++ [']'])) [['['], '"' :: namesText a.labels ++ ['"'], [']']] :=
      (Lexes.punct (c := '[') (by decide)).append ((Lexes.string (namesText_not_mem a.labels (by decide) (by decide))).append (Lexes.punct (c := ']') (by decide)))
    have := ((LexesWord.of_word h.isWord).append (by decide) h1).word
    simpa using this

theorem ArrayRef.readRef {a : ArrayRef} (h : isName a.name = true) : readRef a.lexs = some a := by
  rw [ArrayRef.lexs]
  by_cases hl : a.labels = []
  · rw [if_pos hl, Dsrg.readRef, if_pos h, ← hl]
  · rw [if_neg hl]
    simp only [Dsrg.readRef, h, and_self, if_true, unquote_string, Option.bind_eq_bind, Option.bind_some, readLabels_namesText hl]
    rfl

/-- The lexemes of a reference are words, string literals and brackets. -/
theorem ArrayRef.lexs_ne {a : ArrayRef} (h : CppName a.name) {c : Char} (hc : isWordChar c = false) (h1 : c ≠ '[') (h2 : c ≠ ']') : [c] ∉ a.lexs := by
  intro hm
  rw [ArrayRef.lexs, List.mem_cons] at hm
  rcases hm with hm | hm
  · rw [h.chars c (by rw [← hm]; simp)] at hc
    exact absurd hc (by decide)
  · split at hm
    · simp at hm
    · simp only [List.mem_cons, List.not_mem_nil, or_false] at hm
      rcases hm with hm | hm | hm
      · simp [h1] at hm
      · simp at hm
      · simp [h2] at hm

/-! ### Numbers -/

/-- The text of a coefficient. -/
def ratText (c : ℚ) : PyStr :=
  if c.den = 1 then intStr c.num ++ ['.', '0'] else ['('] ++ intStr c.num ++ ['.', '0', ' ', '/', ' '] ++ natStr c.den ++ ['.', '0', ')']

/-- Its lexemes. -/
def ratLexs (c : ℚ) : List PyStr :=
  (if c.den = 1 then [] else [['(']]) ++ (if c.num < 0 then [['-']] else []) ++ [natStr c.num.natAbs ++ ['.', '0']] ++
    if c.den = 1 then [] else [['/'], natStr c.den ++ ['.', '0'], [')']]

theorem IsWord.decimal (n : Nat) : IsWord (natStr n ++ ['.', '0']) := by
  refine ⟨by simp, fun c hc => ?_⟩
  rw [List.mem_append] at hc
  rcases hc with hc | hc
  · exact (IsWord.numeral n).2 c hc
  · simp only [List.mem_cons, List.not_mem_nil, or_false] at hc
    rcases hc with rfl | rfl <;> decide

theorem intStr_lexes (i : Int) : LexesWord (intStr i ++ ['.', '0']) ((if i < 0 then [['-']] else []) ++ [natStr i.natAbs ++ ['.', '0']]) := by
  rw [intStr]
  split
  · exact (Lexes.punct (c := '-') (by decide)).appendWord (.of_word (.decimal _))
  · exact .of_word (.decimal _)

theorem ratText_lexes (c : ℚ) : LexesWord (ratText c) (ratLexs c) := by
  rw [ratText, ratLexs]
  by_cases h : c.den = 1
  · simpa [h] using intStr_lexes c.num
  · rw [if_neg h, if_neg h, if_neg h]
    have h3 : Lexes ((natStr c.den ++ ['.', '0']) ++ [')']) [natStr c.den ++ ['.', '0'], [')']] :=
      (LexesWord.of_word (.decimal _)).append (by decide) (.punct (by decide))
    have h2 : Lexes ((intStr c.num ++ ['.', '0']) ++ ([' '] ++ (['/', ' '] ++ ((natStr c.den ++ ['.', '0']) ++ [')'])))) _ :=
      (intStr_lexes c.num).append (by decide) ((Lexes.blank (c := ' ') (by decide)).append (Lexes.slash.append h3))
    have h1 := (Lexes.punct (c := '(') (by decide)).append h2
    simpa using h1.word

theorem digits_not_mem (n : Nat) {c : Char} (h : isDigitChar c = false) : c ∉ natStr n := by
  intro hm
  rw [natStr_digits n c hm] at h
  exact absurd h (by decide)

theorem readDecimal_natStr (n : Nat) : readDecimal (natStr n ++ ['.', '0']) = some (n : ℚ) := by
  rw [readDecimal, cutAt_append (digits_not_mem n (by decide)), cutAt_self (by decide)]
  simp [readNat_natStr]

theorem readNumber_rat (c : ℚ) : readNumber (ratLexs c) = some c := by
  have hc := Rat.num_div_den c
  have hpos : ¬c.num < 0 → ((c.num.natAbs : ℕ) : ℚ) = (c.num : ℚ) := fun h => by
    rw [← Int.cast_natCast, Int.natAbs_of_nonneg (not_lt.1 h)]
  have hneg : c.num < 0 → -((c.num.natAbs : ℕ) : ℚ) = (c.num : ℚ) := fun h => by
    rw [← Int.cast_natCast, Int.ofNat_natAbs_of_nonpos h.le]
    push_cast
    ring
  rw [ratLexs]
  by_cases h : c.den = 1
  · have hc' : (c.num : ℚ) = c := by rw [h] at hc; simpa using hc
    by_cases h0 : c.num < 0
    · simp [h, h0, readNumber, readDecimal_natStr, -Nat.cast_natAbs]
      rw [hneg h0, hc']
    · simp [h, h0, readNumber, readDecimal_natStr, -Nat.cast_natAbs]
      rw [hpos h0, hc']
  · by_cases h0 : c.num < 0
    · simp [h, h0, readNumber, readDecimal_natStr, -Nat.cast_natAbs]
      rw [hneg h0, hc]
    · simp [h, h0, readNumber, readDecimal_natStr, -Nat.cast_natAbs]
      rw [hpos h0, hc]

theorem readDecimal_name {n : PyStr} (h : isName n = true) : readDecimal n = none := by
  cases n with
  | nil => exact absurd h (by decide)
  | cons c s =>
    rw [isName] at h
    have hd : c.isDigit = false := by
      by_contra hd
      rw [Bool.not_eq_false] at hd
      simp only [Char.isAlpha, Char.isUpper, Char.isLower, Char.isDigit, Bool.or_eq_true, Bool.and_eq_true, decide_eq_true_eq, ge_iff_le] at h hd
      simp only [UInt32.le_iff_toNat_le] at h hd
      have h1 : ('9'.val.toNat) = 57 := by decide
      simp at h hd
      omega
    have hne : c ≠ '.' := by rintro rfl; exact absurd h (by decide)
    rw [readDecimal, cutAt, if_neg hne]
    have hn : ∀ w, readNat (c :: w) = none := fun w => by
      rw [readNat, if_neg]
      rintro ⟨_, h2⟩
      rw [h2 c (by simp)] at hd
      exact absurd hd (by decide)
    cases hcut : cutAt '.' s with
    | nil => simp
    | cons w ws =>
      match ws with
      | [] => simp
      | [f] => simp [hn]
      | f :: g :: r => simp

theorem readNumber_ref {a : ArrayRef} (h : isName a.name = true) : readNumber a.lexs = none := by
  rw [ArrayRef.lexs]
  by_cases hl : a.labels = []
  · rw [if_pos hl, readNumber, readDecimal_name h]
  · rw [if_neg hl]
    rfl

theorem rat_lexs_ne (c : ℚ) {x : Char} (hx : isWordChar x = false) (h : x ∉ ['(', ')', '/', '-']) : [x] ∉ ratLexs c := by
  have hd : ∀ n, [x] ≠ natStr n ++ ['.', '0'] := fun n hn => by
    have : x ∈ natStr n ++ ['.', '0'] := by rw [← hn]; simp
    rw [(IsWord.decimal n).2 x this] at hx
    exact absurd hx (by decide)
  simp only [List.mem_cons, List.not_mem_nil, or_false, not_or] at h
  rw [ratLexs]
  by_cases h1 : c.den = 1 <;> by_cases h0 : c.num < 0 <;> simp [h1, h0, hd, h]

/-! ### Statements -/

/-- A line of the text that is read as one statement. -/
structure Line (s : PyStr) (st : AmbitStmt) : Prop where
  reads : ∃ ts, Lexes s (ts ++ [[';']]) ∧ [';'] ∉ ts ∧ readStatement ts = some st
  newline : '\n' ∉ s
  first : ∃ c r, s = c :: r ∧ isWordChar c = true
  last : ∃ r, s = r ++ [';']

theorem joinWith_star_lexes {rs : List ArrayRef} (hne : rs ≠ []) (h : ∀ r ∈ rs, CppName r.name) :
    LexesWord (joinWith [' ', '*', ' '] (rs.map ArrayRef.text)) (joinL ['*'] (rs.map ArrayRef.lexs)) := by
  induction rs with
  | nil => exact absurd rfl hne
  | cons r rs ih =>
    cases rs with
    | nil => exact ArrayRef.lexes (h r (by simp))
    | cons q qs =>
      have hi := ih (by simp) fun x hx => h x (by simp [hx])
      have hs : Lexes [' ', '*', ' '] [['*']] := (Lexes.blank (c := ' ') (by decide)).append ((Lexes.punct (c := '*') (by decide)).append (Lexes.blank (by decide)))
      have := (ArrayRef.lexes (h r (by simp))).appendWord (by decide) (hs.appendWord hi)
      simpa [joinWith, joinL] using this

theorem readUpdate_eq {a : ArrayRef} {plus : Bool} {rhs : List PyStr} {c : ℚ} {rs : List ArrayRef} (ha : CppName a.name) (hr : ['='] ∉ rhs)
    (hp : readProduct rhs = some (c, rs)) :
    readStatement (a.lexs ++ [[if plus then '+' else '-'], ['=']] ++ rhs) = some (.update a plus c rs) := by
  have hz : a.lexs ++ [[if plus then '+' else '-'], ['=']] ++ rhs ≠ [['t', 'e', 'm', 'p', '.', 'z', 'e', 'r', 'o'], ['('], [')']] := by
    rw [ArrayRef.lexs]
    split <;> cases plus <;> simp
  have hb : (a.lexs ++ [[if plus then '+' else '-'], ['=']] ++ rhs).take 18 ≠ buildWords := by
    rw [ArrayRef.lexs, buildWords]
    split <;> cases plus <;> simp
  rw [readStatement, if_neg hz, if_neg hb, readUpdate]
  have hcut : cutAt ['='] (a.lexs ++ [[if plus then '+' else '-'], ['=']] ++ rhs) = [a.lexs ++ [[if plus then '+' else '-']], rhs] := by
    have hn : ['='] ∉ a.lexs ++ [[if plus then '+' else '-']] := by
      rw [List.mem_append, not_or]
      exact ⟨ArrayRef.lexs_ne ha (by decide) (by decide) (by decide), by cases plus <;> decide⟩
    have := cutAt_append hn rhs
    rw [cutAt_self hr] at this
    simpa using this
  rw [hcut]
  cases plus
  · simp [ArrayRef.readRef ha.1, hp]
  · simp [ArrayRef.readRef ha.1, hp]

theorem readProduct_number {c : ℚ} {rs : List ArrayRef} (hne : rs ≠ []) (h : ∀ r ∈ rs, CppName r.name) :
    readProduct (ratLexs c ++ ['*'] :: joinL ['*'] (rs.map ArrayRef.lexs)) = some (c, rs) := by
  rw [readProduct, cutAt_append (rat_lexs_ne c (by decide) (by decide)), cutAt_joinL (by simpa using hne)]
  · simp only [readNumber_rat, mapM_some' fun r hr => ArrayRef.readRef (h r hr).1, Option.map_some]
  · intro w hw
    obtain ⟨r, hr, rfl⟩ := List.mem_map.1 hw
    exact ArrayRef.lexs_ne (h r hr) (by decide) (by decide) (by decide)

theorem readProduct_ref {r : ArrayRef} (h : CppName r.name) : readProduct r.lexs = some (1, [r]) := by
  rw [readProduct, cutAt_self (ArrayRef.lexs_ne h (by decide) (by decide) (by decide))]
  simp [readNumber_ref h.1, ArrayRef.readRef h.1]

theorem joinL_lexs_ne {rs : List ArrayRef} (h : ∀ r ∈ rs, CppName r.name) {x : Char} (hx : isWordChar x = false) (h1 : x ∉ ['[', ']', '*']) :
    [x] ∉ joinL ['*'] (rs.map ArrayRef.lexs) := by
  intro hm
  simp only [List.mem_cons, List.not_mem_nil, or_false, not_or] at h1
  rcases mem_joinL hm with hm | ⟨w, hw, hm⟩
  · exact h1.2.2 (by simpa using hm)
  · obtain ⟨r, hr, rfl⟩ := List.mem_map.1 hw
    exact ArrayRef.lexs_ne (h r hr) hx h1.1 h1.2.1 hm

theorem newline_word {w : PyStr} (h : ∀ c ∈ w, isWordChar c = true) : '\n' ∉ w := fun hm => absurd (h _ hm) (by decide)

theorem newline_ref {a : ArrayRef} (h : CppName a.name) : '\n' ∉ a.text := by
  rw [ArrayRef.text, List.mem_append, not_or]
  refine ⟨newline_word h.chars, ?_⟩
  split
  · simp
  · simp [namesText_not_mem a.labels (c := '\n') (by decide) (by decide)]

theorem newline_rat (c : ℚ) : '\n' ∉ ratText c := by
  have h1 : ∀ n, '\n' ∉ natStr n := fun n => newline_word (IsWord.numeral n).2
  have h2 : '\n' ∉ intStr c.num := by rw [intStr]; split <;> simp [h1]
  rw [ratText]
  split <;> simp [h1, h2]

theorem newline_joinWith {sep : PyStr} (hs : '\n' ∉ sep) {l : List PyStr} (h : ∀ w ∈ l, '\n' ∉ w) : '\n' ∉ joinWith sep l := by
  induction l with
  | nil => simp [joinWith]
  | cons w l ih =>
    cases l with
    | nil => exact h w (by simp)
    | cons v vs =>
      simp only [joinWith, List.mem_append, not_or]
      exact ⟨⟨h w (by simp), hs⟩, ih fun u hu => h u (by simp [hu])⟩

theorem first_ref {a : ArrayRef} (h : CppName a.name) (r : PyStr) : ∃ c r', a.text ++ r = c :: r' ∧ isWordChar c = true := by
  rw [ArrayRef.text]
  cases hn : a.name with
  | nil => rw [hn] at h; exact absurd h.1 (by decide)
  | cons c n =>
    rw [hn] at h
    exact ⟨c, _, rfl, h.chars c (by simp)⟩

theorem line_update {a : ArrayRef} {plus : Bool} {c : ℚ} {rs : List ArrayRef} (ha : CppName a.name) (hne : rs ≠ []) (h : ∀ r ∈ rs, CppName r.name) :
    Line (updateText a.text plus (ratText c) (joinWith [' ', '*', ' '] (rs.map ArrayRef.text))) (.update a plus c rs) := by
  refine ⟨⟨a.lexs ++ [[if plus then '+' else '-'], ['=']] ++ (ratLexs c ++ ['*'] :: joinL ['*'] (rs.map ArrayRef.lexs)), ?_, ?_, ?_⟩, ?_, ?_, ?_⟩
  · have h1 : Lexes (joinWith [' ', '*', ' '] (rs.map ArrayRef.text) ++ [';']) (joinL ['*'] (rs.map ArrayRef.lexs) ++ [[';']]) :=
      (joinWith_star_lexes hne h).append (by decide) (.punct (by decide))
    have hs : Lexes [' ', '*', ' '] [['*']] := (Lexes.blank (c := ' ') (by decide)).append ((Lexes.punct (c := '*') (by decide)).append (Lexes.blank (by decide)))
    have h2 := (ratText_lexes c).append (c := ' ') (by decide) (hs.append h1)
    have h3 : Lexes [' ', if plus then '+' else '-', '=', ' '] [[if plus then '+' else '-'], ['=']] :=
      (Lexes.blank (c := ' ') (by decide)).append ((Lexes.punct (by cases plus <;> decide)).append ((Lexes.punct (c := '=') (by decide)).append (Lexes.blank (by decide))))
    have h4 := (ArrayRef.lexes ha).append (c := ' ') (by decide) (h3.append h2)
    simpa [updateText] using h4
  · simp only [List.mem_append, List.mem_cons, not_or]
    refine ⟨⟨ArrayRef.lexs_ne ha (by decide) (by decide) (by decide), by cases plus <;> decide, by decide, by simp⟩,
      rat_lexs_ne c (by decide) (by decide), by decide, joinL_lexs_ne h (by decide) (by decide)⟩
  · refine readUpdate_eq ha ?_ (readProduct_number hne h)
    simp only [List.mem_append, List.mem_cons, not_or]
    exact ⟨rat_lexs_ne c (by decide) (by decide), by decide, joinL_lexs_ne h (by decide) (by decide)⟩
  · have hj : '\n' ∉ joinWith [' ', '*', ' '] (rs.map ArrayRef.text) := by
      refine newline_joinWith (by decide) fun w hw => ?_
      obtain ⟨r, hr, rfl⟩ := List.mem_map.1 hw
      exact newline_ref (h r hr)
    cases plus <;> simp [updateText, newline_ref ha, newline_rat c, hj]
  · simpa [updateText] using first_ref ha _
  · exact ⟨_, rfl⟩

theorem line_row {a r : ArrayRef} {plus : Bool} (ha : CppName a.name) (hr : CppName r.name) :
    Line (a.text ++ [' ', if plus then '+' else '-', '=', ' '] ++ r.text ++ [';']) (.update a plus 1 [r]) := by
  refine ⟨⟨a.lexs ++ [[if plus then '+' else '-'], ['=']] ++ r.lexs, ?_, ?_, ?_⟩, ?_, ?_, ?_⟩
  · have h1 : Lexes (r.text ++ [';']) (r.lexs ++ [[';']]) := (ArrayRef.lexes hr).append (by decide) (.punct (by decide))
    have h3 : Lexes [' ', if plus then '+' else '-', '=', ' '] [[if plus then '+' else '-'], ['=']] :=
      (Lexes.blank (c := ' ') (by decide)).append ((Lexes.punct (by cases plus <;> decide)).append ((Lexes.punct (c := '=') (by decide)).append (Lexes.blank (by decide))))
    have h4 := (ArrayRef.lexes ha).append (c := ' ') (by decide) (h3.append h1)
    simpa using h4
  · simp only [List.mem_append, List.mem_cons, not_or]
    exact ⟨⟨ArrayRef.lexs_ne ha (by decide) (by decide) (by decide), by cases plus <;> decide, by decide, by simp⟩,
      ArrayRef.lexs_ne hr (by decide) (by decide) (by decide)⟩
  · exact readUpdate_eq ha (ArrayRef.lexs_ne hr (by decide) (by decide) (by decide)) (readProduct_ref hr)
  · cases plus <;> simp [newline_ref ha, newline_ref hr]
  · simpa using first_ref ha _
  · exact ⟨_, rfl⟩

/-- `buildText` without the end of the line. -/
def buildLine (spaces : PyStr) : PyStr :=
  ['t', 'e', 'm', 'p', ' ', '=', ' ', 'a', 'm', 'b', 'i', 't', ':', ':', 'B', 'l', 'o', 'c', 'k', 'e', 'd', 'T', 'e', 'n', 's', 'o', 'r', ':', ':', 'b', 'u', 'i', 'l', 'd', '(',
   'a', 'm', 'b', 'i', 't', ':', ':', 'C', 'o', 'r', 'e', 'T', 'e', 'n', 's', 'o', 'r', ',', ' ', '"', 't', 'e', 'm', 'p', '"', ',', ' ', '{', '"'] ++ spaces ++
  ['"', '}', ')', ';']

theorem buildText_eq (spaces : PyStr) : buildText spaces = buildLine spaces ++ ['\n'] := by simp [buildText, buildLine]

theorem spaces_not_mem (l : List Space) {c : Char} (hc : isWordChar c = false) : c ∉ l.map Space.toChar := by
  intro h
  obtain ⟨s, _, rfl⟩ := List.mem_map.1 h
  have : ∀ s : Space, isWordChar s.toChar = true := by decide
  rw [this] at hc
  exact absurd hc (by decide)

theorem LexesWord.chars (w : PyStr) (h : w ≠ []) (h' : w.all isWordChar = true) : LexesWord w [w] :=
  .of_word ⟨h, fun c hc => List.all_eq_true.1 h' c hc⟩

theorem lexes_build {u : PyStr} (h : '"' ∉ u) : Lexes (buildLine u) (buildWords ++ ['"' :: u ++ ['"'], ['}'], [')']] ++ [[';']]) := by
  have hstr : Lexes ('"' :: u ++ ['"']) _ := Lexes.string h
  have htail : Lexes ('"' :: u ++ ['"'] ++ ['}', ')', ';']) (['"' :: u ++ ['"']] ++ [['}'], [')'], [';']]) :=
    hstr.append ((Lexes.punct (c := '}') (by decide)).append ((Lexes.punct (c := ')') (by decide)).append (.punct (by decide))))
  have p (c : Char) (h : isPunct c = true) : Lexes [c] [[c]] := .punct h
  have b : Lexes [' '] [] := .blank (by decide)
  have hco : Lexes ['{'] [['{']] := p '{' (by decide)
  have h1 : Lexes _ _ := (LexesWord.chars ['C', 'o', 'r', 'e', 'T', 'e', 'n', 's', 'o', 'r'] (by simp) (by decide)).append (c := ',') (by decide)
    ((p ',' (by decide)).append (b.append ((Lexes.string (s := ['t', 'e', 'm', 'p']) (by decide)).append
      ((p ',' (by decide)).append (b.append (hco.append htail))))))
  have h2 : Lexes _ _ := (LexesWord.chars ['a', 'm', 'b', 'i', 't'] (by simp) (by decide)).append (c := ':') (by decide)
    ((p ':' (by decide)).append ((p ':' (by decide)).append h1))
  have h3 : Lexes _ _ := (LexesWord.chars ['b', 'u', 'i', 'l', 'd'] (by simp) (by decide)).append (c := '(') (by decide) ((p '(' (by decide)).append h2)
  have h4 : Lexes _ _ := (LexesWord.chars ['B', 'l', 'o', 'c', 'k', 'e', 'd', 'T', 'e', 'n', 's', 'o', 'r'] (by simp) (by decide)).append (c := ':') (by decide)
    ((p ':' (by decide)).append ((p ':' (by decide)).append h3))
  have h5 : Lexes _ _ := (LexesWord.chars ['a', 'm', 'b', 'i', 't'] (by simp) (by decide)).append (c := ':') (by decide)
    ((p ':' (by decide)).append ((p ':' (by decide)).append h4))
  have h6 : Lexes _ _ := (LexesWord.chars ['t', 'e', 'm', 'p'] (by simp) (by decide)).append (c := ' ') (by decide)
    (b.append ((p '=' (by decide)).append (b.append h5)))
  simpa [buildLine, buildWords] using h6

theorem line_build (l : List Space) : Line (buildLine (l.map Space.toChar)) (.build l) := by
  refine ⟨⟨buildWords ++ ['"' :: l.map Space.toChar ++ ['"'], ['}'], [')']], ?_, ?_, ?_⟩, ?_, ?_, ?_⟩
  · exact lexes_build (spaces_not_mem l (by decide))
  · simp [buildWords]
  · rw [readStatement, if_neg (by simp [buildWords]), if_pos (by simp [buildWords])]
    simp [buildWords, unquote, mapM_some readSpace_toChar]
  · simp [buildLine]
    exact fun x _ => by
      have : ∀ s : Space, s.toChar ≠ '\n' := by decide
      exact this x
  · exact ⟨_, _, rfl, by decide⟩
  · exact List.getLast?_eq_some_iff.1 (by rw [buildLine, List.getLast?_append]; rfl)

/-- `temp.zero();` -/
def zeroLine : PyStr := ['t', 'e', 'm', 'p', '.', 'z', 'e', 'r', 'o', '(', ')', ';']

theorem line_zero : Line zeroLine .zero := by
  refine ⟨⟨[['t', 'e', 'm', 'p', '.', 'z', 'e', 'r', 'o'], ['('], [')']], ?_, by simp, by simp [readStatement]⟩, by decide, ⟨_, _, rfl, by decide⟩, List.getLast?_eq_some_iff.1 (by decide)⟩
  have : Lexes _ _ := (LexesWord.chars ['t', 'e', 'm', 'p', '.', 'z', 'e', 'r', 'o'] (by simp) (by decide)).append (c := '(') (by decide)
      ((Lexes.punct (c := '(') (by decide)).append ((Lexes.punct (c := ')') (by decide)).append (Lexes.punct (c := ';') (by decide))))
  simpa [zeroLine] using this

/-! ### Texts of terms -/

/-- Lines that are read as the statements of a program, with or without a line end after the last line. -/
def Text (s : PyStr) (prog : List AmbitStmt) : Prop :=
  ∃ lines : List (PyStr × AmbitStmt), lines ≠ [] ∧ (∀ e ∈ lines, Line e.1 e.2) ∧ lines.map Prod.snd = prog ∧
    ∃ tail, (tail = [] ∨ tail = ['\n']) ∧ s = joinL '\n' (lines.map Prod.fst) ++ tail

theorem Text.line {s : PyStr} {st : AmbitStmt} (h : Line s st) : Text s [st] :=
  ⟨[(s, st)], by simp, by simpa using h, rfl, [], .inl rfl, by simp [joinL]⟩

theorem Text.endLine {s : PyStr} {st : AmbitStmt} (h : Line s st) : Text (s ++ ['\n']) [st] :=
  ⟨[(s, st)], by simp, by simpa using h, rfl, ['\n'], .inr rfl, by simp [joinL]⟩

theorem Text.cons {l s : PyStr} {st : AmbitStmt} {prog : List AmbitStmt} (h : Line l st) (ht : Text s prog) : Text (l ++ '\n' :: s) (st :: prog) := by
  obtain ⟨lines, hne, hl, hm, tail, htail, hs⟩ := ht
  refine ⟨(l, st) :: lines, by simp, ?_, by simp [hm], tail, htail, ?_⟩
  · intro e he
    rw [List.mem_cons] at he
    rcases he with rfl | he
    · exact h
    · exact hl e he
  · rw [List.map_cons, joinL_cons _ _ (by simpa using hne), hs]
    simp

theorem Text.rows {l : PyStr} {st : AmbitStmt} (h : Line l st) (rows : List (PyStr × AmbitStmt)) (hr : ∀ e ∈ rows, Line e.1 e.2) :
    Text (l ++ '\n' :: (rows.map fun e => e.1 ++ ['\n']).flatten) (st :: rows.map Prod.snd) := by
  induction rows generalizing l st with
  | nil => exact Text.endLine h
  | cons e rows ih =>
    have := Text.cons h (ih (hr e (by simp)) fun x hx => hr x (by simp [hx]))
    simpa using this

theorem CppName.append_nat {n : PyStr} (h : CppName n) (k : Nat) : CppName (n ++ natStr k) := by
  refine ⟨?_, fun c hc => ?_⟩
  · cases n with
    | nil => exact absurd h.1 (by decide)
    | cons c n => exact h.1
  · rw [List.mem_append] at hc
    rcases hc with hc | hc
    · exact h.2 c hc
    · have := isDigit_of_isDigitChar (natStr_digits k c hc)
      simp [Char.isAlphanum, this]

theorem CppName.append_underscore {n : PyStr} (h : CppName n) : CppName (n ++ ['_']) := by
  refine ⟨?_, fun c hc => ?_⟩
  · cases n with
    | nil => exact absurd h.1 (by decide)
    | cons c n => exact h.1
  · rw [List.mem_append, List.mem_singleton] at hc
    rcases hc with hc | rfl
    · exact h.2 c hc
    · decide

theorem CppName.target {name : PyStr} (h : CppName name) (op : SqOp) : CppName (targetName name op) := by
  rw [targetName]
  split
  · exact h.append_nat _
  · exact ((h.append_underscore.append_nat _).append_underscore).append_nat _

theorem CppName.array {x : Tensor} (h : CppName x.name) : CppName x.arrayName := by
  rw [Tensor.arrayName]
  split
  · exact h.append_nat _
  · exact ((h.append_underscore.append_nat _).append_underscore).append_nat _

theorem bracketText_eq {l r : List Index} (hl : l ≠ []) (hr : r ≠ []) :
    bracketText (joinWith [','] (l.map Index.name)) (joinWith [','] (r.map Index.name)) = ['[', '"'] ++ namesText (l ++ r) ++ ['"', ']'] := by
  rw [bracketText, namesText, List.map_append, joinL_append _ (by simpa using hl) (by simpa using hr), joinWith_single, joinWith_single]
  simp

theorem pair_text (n : PyStr) (x : IndicesPair) (h : x.upper.list = [] ↔ x.lower.list = []) (f : Bool) :
    n ++ x.ambitText f = ArrayRef.text ⟨n, if f then x.upper.list ++ x.lower.list else x.lower.list ++ x.upper.list⟩ := by
  rw [IndicesPair.ambitText, ArrayRef.text]
  by_cases he : x.upper.list = []
  · have hl := h.1 he
    simp [IndicesPair.isEmpty, IndicesPair.size, IndicesPair.nUpper, IndicesPair.nLower, Indices.size, he, hl]
  · have hl : x.lower.list ≠ [] := fun e => he (h.2 e)
    have hemp : ¬(x.isEmpty = true) := by simp [IndicesPair.isEmpty, IndicesPair.size, IndicesPair.nUpper, IndicesPair.nLower, Indices.size, he]
    rw [if_neg hemp]
    cases f
    · simp [Indices.ambitText, bracketText_eq hl he, hl]
    · simp [Indices.ambitText, bracketText_eq he hl, he]

theorem tensor_text (x : Tensor) (h : x.upper.list = [] ↔ x.lower.list = []) : x.ambitText = x.arrayRef.text := by
  rw [Tensor.ambitText, pair_text x.arrayName x.pair h, Tensor.arrayRef, Tensor.arrayLabels]
  congr 2
  by_cases hc : x.cls = .cluster
  · cases he : x.excitation <;> simp [hc, Tensor.pair]
  · simp [hc, Tensor.pair]

theorem Term.ambitText_ok {limit : ℚ → Nat → ℚ} (hl : ClosestFraction limit) {t : Term} (hd : t.diag = ∅)
    (hop : t.sqOp.upper.list = [] ↔ t.sqOp.lower.list = []) (hne : t.tensors ≠ [])
    (hx : ∀ x ∈ t.tensors, CppName x.name ∧ (x.upper.list = [] ↔ x.lower.list = []))
    (hrows : ∀ rows, t.sqOp.permuteIndices t.permPartitionOpen.1 t.permPartitionOpen.2 false = .ok rows → t.sqOp.upper.list ≠ [] →
      ∀ r ∈ rows, r.2.1 ≠ [] ∧ r.2.2 ≠ [])
    {name : PyStr} (hn : CppName name) {ignore init declared : Bool} {prog : List AmbitStmt} (h : t.ambit name ignore init declared = .ok prog)
    (hc : ∀ n, t.sqOp.nMultisetPermutation t.permPartitionOpen.1 t.permPartitionOpen.2 = .ok n →
      (t.coeff * ((t.sqOp.upper.size.factorial * t.sqOp.lower.size.factorial : ℕ) : ℚ) / (n : ℚ)).den ≤ 1000000000) :
    ∃ s, t.ambitText limit name ignore init declared = .ok s ∧ Text s prog := by
  have htemp : CppName tempName := ⟨by decide, by decide⟩
  have htexts : t.tensors.map Tensor.ambitText = (t.tensors.map Tensor.arrayRef).map ArrayRef.text := by
    rw [List.map_map]
    exact List.map_congr_left fun x hm => tensor_text x (hx x hm).2
  have hrs : ∀ r ∈ t.tensors.map Tensor.arrayRef, CppName r.name := by
    intro r hr
    obtain ⟨x, hm, rfl⟩ := List.mem_map.1 hr
    exact (hx x hm).1.array
  have hrne : t.tensors.map Tensor.arrayRef ≠ [] := by simpa using hne
  have hcoef : ∀ c : ℚ, c.den ≤ 1000000000 → formatCoeff limit c true = ratText c := fun c h => (C63_exact limit hl c h).2
  have hlab : ∀ n, n ++ IndicesPair.ambitText t.sqOp false = ArrayRef.text ⟨n, openRef t.sqOp⟩ := fun n => pair_text n t.sqOp hop false
  unfold Term.ambit at h
  unfold Term.ambitText
  simp only [hd, Finset.card_empty, ne_eq, not_true, if_false, List.nil_append] at h ⊢
  obtain ⟨n, hnp, h⟩ := bind_ok h
  obtain ⟨b, hb, h⟩ := bind_ok h
  rw [hnp]
  simp only [bind, Except.bind] at h ⊢
  rw [hb]
  simp only [htexts, hlab]
  cases b
  · simp only [Bool.not_false, if_true, pure, Except.pure, Except.ok.injEq] at h ⊢
    subst h
    rw [hcoef _ (hc n hnp)]
    exact ⟨_, rfl, .line (line_update (hn.target _) hrne hrs)⟩
  · simp only [Bool.not_true, Bool.false_eq_true, if_false] at h ⊢
    by_cases hany : (ignore || init || declared) = true
    · simp only [hany, Bool.not_true, Bool.false_eq_true, if_false] at h ⊢
      have hbuild : buildText ((t.sqOp.lower.list.map fun i => i.space.toChar) ++ t.sqOp.upper.list.map fun i => i.space.toChar) =
          buildLine (((openRef t.sqOp).map Index.space).map Space.toChar) ++ ['\n'] := by
        rw [buildText_eq, openRef, List.map_append, List.map_append, List.map_map, List.map_map]
        rfl
      have hT : CppName (if (init || declared) = true then tempName else targetName name t.sqOp) := by
        split
        · exact htemp
        · exact hn.target _
      cases ignore
      · have hdec : (init || declared) = true := by simpa using hany
        simp only [Bool.false_eq_true, if_false, hdec, if_true] at h ⊢
        cases hp : t.sqOp.permuteIndices t.permPartitionOpen.1 t.permPartitionOpen.2 false with
        | error e => rw [hp] at h; exact absurd h (by simp)
        | ok rows =>
          rw [hp] at h
          simp only [pure, Except.pure, Except.ok.injEq] at h ⊢
          rw [hcoef _ (hc n hnp)]
          have hup : t.sqOp.upper.list ≠ [] := by
            intro he
            have he' := hop.1 he
            rw [IndicesPair.existPermuteFormat] at hb
            obtain ⟨b1, hb1, hb⟩ := bind_ok hb
            have h0 : b1 = false := by
              unfold Indices.existPermuteFormat at hb1
              obtain ⟨_, _, hb1⟩ := bind_ok hb1
              simpa [Indices.size, he, pure, Except.pure] using hb1.symm
            subst h0
            unfold Indices.existPermuteFormat at hb
            simp only [Bool.false_eq_true, if_false] at hb
            obtain ⟨_, _, hb⟩ := bind_ok hb
            simp [Indices.size, he', pure, Except.pure] at hb
          have hrow := hrows rows hp hup
          have hmain := Text.rows (line_update (plus := true) (c := t.coeff * ((t.sqOp.upper.size.factorial * t.sqOp.lower.size.factorial : ℕ) : ℚ) / (n : ℚ))
              (a := ⟨tempName, openRef t.sqOp⟩) htemp hrne hrs)
            (rows.map fun r => (ArrayRef.text ⟨targetName name t.sqOp, r.2.1 ++ r.2.2⟩ ++ [' ', if decide (r.1 = 1) then '+' else '-', '=', ' '] ++
              ArrayRef.text ⟨tempName, openRef t.sqOp⟩ ++ [';'], AmbitStmt.update ⟨targetName name t.sqOp, r.2.1 ++ r.2.2⟩ (decide (r.1 = 1)) 1 [⟨tempName, openRef t.sqOp⟩]))
            (by
              intro e he
              obtain ⟨r, hr, rfl⟩ := List.mem_map.1 he
              exact line_row (a := ⟨_, _⟩) (hn.target _) (r := ⟨_, _⟩) htemp)
          have hlhs : ∀ r ∈ rows, targetName name t.sqOp ++ bracketText (joinWith [','] (r.2.1.map Index.name)) (joinWith [','] (r.2.2.map Index.name)) =
              ArrayRef.text ⟨targetName name t.sqOp, r.2.1 ++ r.2.2⟩ := fun r hr => by
            rw [bracketText_eq (hrow r hr).1 (hrow r hr).2, ArrayRef.text, if_neg (by simp [(hrow r hr).1])]
          have hflat : (rows.map fun r => ArrayRef.text ⟨targetName name t.sqOp ++ bracketText (joinWith [','] (r.2.1.map Index.name)) (joinWith [','] (r.2.2.map Index.name)) ++
              [' ', if r.1 = 1 then '+' else '-', '=', ' '] ++ tempName, openRef t.sqOp⟩ ++ [';', '\n']) =
              (rows.map fun r => (ArrayRef.text ⟨targetName name t.sqOp, r.2.1 ++ r.2.2⟩ ++ [' ', if decide (r.1 = 1) then '+' else '-', '=', ' '] ++
                ArrayRef.text ⟨tempName, openRef t.sqOp⟩ ++ [';']) ++ ['\n']) := by
            refine List.map_congr_left fun r hr => ?_
            rw [hlhs r hr, ← hlab, ← hlab tempName]
            simp
          rw [hflat]
          cases init
          · simp only [Bool.false_eq_true, if_false, List.nil_append] at h ⊢
            refine ⟨_, rfl, ?_⟩
            rw [← h]
            simpa [Function.comp_def, List.map_map] using hmain
          · simp only [if_true] at h ⊢
            refine ⟨_, rfl, ?_⟩
            rw [← h, hbuild]
            have := Text.cons (line_build ((openRef t.sqOp).map Index.space)) hmain
            simpa [Function.comp_def, List.map_map] using this
      · simp only [if_true, pure, Except.pure, Except.ok.injEq] at h ⊢
        subst h
        cases init
        · simp only [Bool.false_eq_true, if_false, List.nil_append] at ⊢
          rw [hcoef _ (hc n hnp)]
          exact ⟨_, rfl, .line (line_update hT hrne hrs)⟩
        · simp only [Bool.true_or, if_true, List.nil_append] at ⊢
          rw [hcoef _ (hc n hnp), hbuild]
          refine ⟨_, rfl, ?_⟩
          have := Text.cons (line_build ((openRef t.sqOp).map Index.space)) (.line (line_update (a := ⟨tempName, openRef t.sqOp⟩) (plus := true)
            (c := t.coeff * ((t.sqOp.upper.size.factorial * t.sqOp.lower.size.factorial : ℕ) : ℚ) / (n : ℚ)) htemp hrne hrs))
          simpa using this
    · rw [Bool.not_eq_true] at hany
      simp only [hany, Bool.not_false, if_true, pure, Except.pure, Except.ok.injEq] at h ⊢
      subst h
      rw [hcoef _ (hc n hnp)]
      exact ⟨_, rfl, .endLine (line_update (hn.target _) hrne hrs)⟩

/-! ### Texts of programs -/

/-- A text that is read as a program. -/
def Reads (s : PyStr) (prog : List AmbitStmt) : Prop :=
  ∃ tss : List (List PyStr), Lexes s (tss.flatMap fun ts => ts ++ [[';']]) ∧ (∀ ts ∈ tss, [';'] ∉ ts) ∧ tss.mapM readStatement = some prog

theorem Reads.nil : Reads [] [] := ⟨[], Lexes.nil, by simp, rfl⟩

theorem Reads.blank {c : Char} (h : isBlank c = true) : Reads [c] [] := ⟨[], Lexes.blank h, by simp, rfl⟩

theorem mapM_append_some {α β : Type} {f : α → Option β} {l r : List α} {x y : List β} (hl : l.mapM f = some x) (hr : r.mapM f = some y) :
    (l ++ r).mapM f = some (x ++ y) := by
  rw [List.mapM_append, hl, hr]
  rfl

theorem Reads.append {s s' : PyStr} {p p' : List AmbitStmt} (h : Reads s p) (h' : Reads s' p') : Reads (s ++ s') (p ++ p') := by
  obtain ⟨t, h1, h2, h3⟩ := h
  obtain ⟨t', h1', h2', h3'⟩ := h'
  refine ⟨t ++ t', ?_, ?_, mapM_append_some h3 h3'⟩
  · rw [List.flatMap_append]
    exact h1.append h1'
  · intro ts hts
    rw [List.mem_append] at hts
    rcases hts with hts | hts
    · exact h2 ts hts
    · exact h2' ts hts

theorem Line.reads' {s : PyStr} {st : AmbitStmt} (h : Line s st) : Reads s [st] := by
  obtain ⟨ts, h1, h2, h3⟩ := h.reads
  refine ⟨[ts], by simpa using h1, by simpa using h2, ?_⟩
  rw [List.mapM_cons, h3]
  rfl

theorem Text.reads {s : PyStr} {prog : List AmbitStmt} (h : Text s prog) : Reads s prog := by
  obtain ⟨lines, hne, hl, rfl, tail, htail, rfl⟩ := h
  have ht : Reads tail [] := by
    rcases htail with rfl | rfl
    · exact .nil
    · exact .blank (by decide)
  have : Reads (joinL '\n' (lines.map Prod.fst)) (lines.map Prod.snd) := by
    clear htail ht
    induction lines with
    | nil => exact absurd rfl hne
    | cons e lines ih =>
      cases lines with
      | nil => exact (hl e (by simp)).reads'
      | cons f lines =>
        have := (hl e (by simp)).reads'.append ((Reads.blank (c := '\n') (by decide)).append (ih (by simp) fun x hx => hl x (by simp [hx])))
        simpa [joinL] using this
  simpa using this.append ht

theorem cutAt_statements {tss : List (List PyStr)} (h : ∀ ts ∈ tss, [';'] ∉ ts) : cutAt [';'] (tss.flatMap fun ts => ts ++ [[';']]) = tss ++ [[]] := by
  induction tss with
  | nil => rfl
  | cons ts tss ih =>
    have := cutAt_append (h ts (by simp)) (tss.flatMap fun ts => ts ++ [[';']])
    rw [ih fun x hx => h x (by simp [hx])] at this
    simpa using this

theorem Reads.readProgram {s : PyStr} {prog : List AmbitStmt} (h : Reads s prog) : readProgram s = some prog := by
  obtain ⟨tss, h1, h2, h3⟩ := h
  rw [Dsrg.readProgram, h1.lexemes_eq, statements, cutAt_statements h2]
  simpa using h3

/-- The labels of the rows of a printable term. -/
theorem Printable.rows_ne {t : Term} (hp : Printable t) (rows : List (Int × List Index × List Index))
    (h : t.sqOp.permuteIndices t.permPartitionOpen.1 t.permPartitionOpen.2 false = .ok rows) (hne : t.sqOp.upper.list ≠ []) :
    ∀ r ∈ rows, r.2.1 ≠ [] ∧ r.2.2 ≠ [] := by
  obtain ⟨ts, op, c, ht, hop, hts, hanti, hd, hbal⟩ := hp
  obtain ⟨m1, m2, m3, m4⟩ := Term.make_ok.1 ht
  have hsq : t.sqOp = op := by rw [m4]
  obtain ⟨hU, hL⟩ := Term.permPartitionOpen_spec ht hop hd
  have htyL : op.lower.ty.isAntisym = true := by rw [← (IndicesPair.make_eq hop.2.2).2]; exact hanti
  have hwU : op.upper.WF := (Indices.make_eq hop.1).2
  have hwL : op.lower.WF := (Indices.make_eq hop.2.1).2
  obtain ⟨wc, nc, hrc, hnc, hSC⟩ := sideRows_all op.upper hanti hwU t.permPartitionOpen.1 hU.perm hU.pure
  obtain ⟨wa, na, hra, hna, hSA⟩ := sideRows_all op.lower htyL hwL t.permPartitionOpen.2 hL.perm hL.pure
  rw [hsq] at h hne
  have hl0 : op.lower.list ≠ [] := by
    intro e
    rw [e, List.length_nil, List.length_eq_zero_iff] at hbal
    exact hne hbal
  rw [permuteIndices_eq op (by simp [IndicesPair.isEmpty, IndicesPair.size, IndicesPair.nUpper, IndicesPair.nLower, Indices.size, hne]) _ _ hra hrc, Except.ok.injEq] at h
  subst h
  intro r hr
  obtain ⟨a, ha, hr⟩ := List.mem_flatMap.1 hr
  obtain ⟨w, hw, rfl⟩ := List.mem_map.1 ha
  obtain ⟨b, hb, rfl⟩ := List.mem_map.1 hr
  obtain ⟨w', hw', rfl⟩ := List.mem_map.1 hb
  refine ⟨fun e => hl0 ?_, fun e => hne ?_⟩
  · exact List.nil_perm.1 (e ▸ hSA.perm w hw)
  · exact List.nil_perm.1 (e ▸ hSC.perm w' hw')

/-- The printed coefficient has no larger denominator than the coefficient of the term. -/
theorem Printable.den_le {t : Term} (hp : Printable t) {n : Nat} (h : t.sqOp.nMultisetPermutation t.permPartitionOpen.1 t.permPartitionOpen.2 = .ok n) :
    (t.coeff * ((t.sqOp.upper.size.factorial * t.sqOp.lower.size.factorial : ℕ) : ℚ) / (n : ℚ)).den ≤ t.coeff.den := by
  obtain ⟨ts, op, c, ht, hop, hts, hanti, hd, hbal⟩ := hp
  obtain ⟨m1, m2, m3, m4⟩ := Term.make_ok.1 ht
  have hsq : t.sqOp = op := by rw [m4]
  obtain ⟨hU, hL⟩ := Term.permPartitionOpen_spec ht hop hd
  have htyL : op.lower.ty.isAntisym = true := by rw [← (IndicesPair.make_eq hop.2.2).2]; exact hanti
  obtain ⟨a1, a2⟩ := nMultiset_eq op.upper hanti _ hU.perm
  obtain ⟨b1, b2⟩ := nMultiset_eq op.lower htyL _ hL.perm
  rw [hsq] at h ⊢
  unfold IndicesPair.nMultisetPermutation at h
  rw [a1, b1] at h
  simp only [bind, Except.bind, pure, Except.pure, Except.ok.injEq] at h
  have hdvd : n ∣ op.upper.size.factorial * op.lower.size.factorial := by
    rw [← h, ← a2, ← b2]
    exact Nat.mul_dvd_mul (Dvd.intro _ rfl) (Dvd.intro _ rfl)
  obtain ⟨k, hk⟩ := hdvd
  have hn0 : (n : ℚ) ≠ 0 := by
    intro h0
    have h0 : n = 0 := by exact_mod_cast h0
    rw [h0, zero_mul] at hk
    exact (Nat.mul_ne_zero (Nat.factorial_ne_zero _) (Nat.factorial_ne_zero _)) hk
  rw [hk]
  push_cast
  rw [mul_div_assoc, mul_div_cancel_left₀ _ hn0]
  have := Rat.mul_den_dvd t.coeff (k : ℚ)
  rw [Rat.den_natCast, mul_one] at this
  exact Nat.le_of_dvd t.coeff.den_pos this

theorem termText_ok {limit : ℚ → Nat → ℚ} (hl : ClosestFraction limit) {t : Term} (hp : Printable t) (hr : Readable t) (hc : t.coeff.den ≤ 1000000000)
    {name : PyStr} (hn : CppName name) {ignore init declared : Bool} {prog : List AmbitStmt} (h : t.ambit name ignore init declared = .ok prog) :
    ∃ s, t.ambitText limit name ignore init declared = .ok s ∧ Text s prog := by
  have hp' := hp
  obtain ⟨ts, op, c, h1, -, -, -, h5, h6⟩ := hp
  have hsq : t.sqOp = op := by rw [(Term.make_ok.1 h1).2.2.2]
  rw [← hsq] at h6
  refine Term.ambitText_ok hl h5 ?_ hr.1 hr.2 hp'.rows_ne hn h fun n hn => (hp'.den_le hn).trans hc
  rw [← List.length_eq_zero_iff, h6, List.length_eq_zero_iff]

theorem ambitTermsText_ok {limit : ℚ → Nat → ℚ} (hl : ClosestFraction limit) {terms : List Term} (hp : ∀ t ∈ terms, Printable t) (hr : ∀ t ∈ terms, Readable t)
    (hc : ∀ t ∈ terms, t.coeff.den ≤ 1000000000) :
    ∀ {init : Bool} {prog : List AmbitStmt}, ambitTerms init terms = .ok prog →
      ∃ s, ambitTermsText limit init terms = .ok s ∧ Reads s prog := by
  have hC : CppName ['C'] := ⟨by decide, by decide⟩
  induction terms with
  | nil =>
    intro init prog h
    simp only [ambitTerms, Except.ok.injEq] at h
    subst h
    exact ⟨[], rfl, .nil⟩
  | cons t rest ih =>
    intro init prog h
    cases rest with
    | nil =>
      obtain ⟨s, hs, hT⟩ := termText_ok hl (hp t (by simp)) (hr t (by simp)) (hc t (by simp)) hC h
      refine ⟨s ++ ['\n'], by simp only [ambitTermsText, hs]; rfl, ?_⟩
      simpa using hT.reads.append (.blank (c := '\n') (by decide))
    | cons u rest =>
      simp only [ambitTerms] at h
      obtain ⟨a, ha, h⟩ := bind_ok h
      obtain ⟨b, hb, h⟩ := bind_ok h
      simp only [pure, Except.pure, Except.ok.injEq] at h
      subst h
      obtain ⟨s, hs, hT⟩ := termText_ok hl (hp t (by simp)) (hr t (by simp)) (hc t (by simp)) hC ha
      obtain ⟨s', hs', hR⟩ := ih (fun x hx => hp x (by simp [hx])) (fun x hx => hr x (by simp [hx])) (fun x hx => hc x (by simp [hx])) hb
      refine ⟨s ++ ['\n'] ++ s', by simp only [ambitTermsText, hs, hs']; rfl, ?_⟩
      simpa using (hT.reads.append (.blank (c := '\n') (by decide))).append hR

end Dsrg
