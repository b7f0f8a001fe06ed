import Verif.Model.Index
import Mathlib.Data.Nat.Digits.Defs
import Mathlib.Tactic.Ring

/-! Lemmas about labels, names and numerals. -/

namespace Dsrg

theorem Space.mem_moSpace (s : Space) : s ∈ moSpace := by revert s; decide

theorem Space.toChar_injective : Function.Injective Space.toChar := by decide

theorem Space.ofChar?_eq_some {ch : Char} {s : Space} : Space.ofChar? ch = some s ↔ s.toChar = ch := by
  constructor
  · intro h
    have := List.find?_some h
    simpa using this
  · rintro rfl
    unfold Space.ofChar?
    have h1 : (moSpace.find? fun t => t.toChar == s.toChar).isSome := by
      rw [List.find?_isSome]
      exact ⟨s, s.mem_moSpace, by simp⟩
    obtain ⟨t, ht⟩ := Option.isSome_iff_exists.1 h1
    have h2 := List.find?_some ht
    have h3 : t = s := Space.toChar_injective (by simpa using h2)
    rw [ht, h3]

theorem Space.ofChar?_eq_none {ch : Char} : Space.ofChar? ch = none ↔ ∀ s : Space, s.toChar ≠ ch := by
  constructor
  · intro h s hs
    rw [Space.ofChar?_eq_some.2 hs] at h
    simp at h
  · intro h
    cases hc : Space.ofChar? ch with
    | none => rfl
    | some s => exact absurd (Space.ofChar?_eq_some.1 hc) (h s)

theorem digitChar_toNat {d : Nat} (h : d < 10) : (digitChar d).toNat = 48 + d := by
  have : ∀ d : Fin 10, (digitChar d).toNat = 48 + d := by decide
  exact this ⟨d, h⟩

theorem isDigitChar_digitChar {d : Nat} (h : d < 10) : isDigitChar (digitChar d) = true := by
  simp [isDigitChar, digitChar_toNat h]; omega

theorem intOfDigits_append (s : PyStr) (ch : Char) :
    intOfDigits (s ++ [ch]) = intOfDigits s * 10 + (ch.toNat - 48) := by
  simp [intOfDigits]

theorem natStr_of_lt {n : Nat} (h : n < 10) : natStr n = [digitChar n] := by
  rw [natStr]; simp [h]

theorem natStr_of_ge {n : Nat} (h : 10 ≤ n) : natStr n = natStr (n / 10) ++ [digitChar (n % 10)] := by
  rw [natStr]; simp [Nat.not_lt.2 h]

theorem natStr_ne_nil (n : Nat) : natStr n ≠ [] := by
  rcases lt_or_ge n 10 with h | h
  · simp [natStr_of_lt h]
  · simp [natStr_of_ge h]

theorem natStr_digits (n : Nat) : ∀ ch ∈ natStr n, isDigitChar ch = true := by
  induction n using Nat.strong_induction_on with
  | _ n ih =>
    rcases lt_or_ge n 10 with h | h
    · rw [natStr_of_lt h]
      intro ch hch
      rw [List.mem_singleton.1 hch]
      exact isDigitChar_digitChar h
    · rw [natStr_of_ge h]
      intro ch hch
      rcases List.mem_append.1 hch with h1 | h1
      · exact ih (n / 10) (by omega) ch h1
      · rw [List.mem_singleton.1 h1]
        exact isDigitChar_digitChar (by omega)

theorem isDigitStr_natStr (n : Nat) : isDigitStr (natStr n) = true := by
  have h1 := natStr_ne_nil n
  have h2 := natStr_digits n
  simp only [isDigitStr, Bool.and_eq_true, List.all_eq_true]
  exact ⟨by cases h : natStr n <;> simp_all, h2⟩

theorem intOfDigits_natStr (n : Nat) : intOfDigits (natStr n) = n := by
  induction n using Nat.strong_induction_on with
  | _ n ih =>
    rcases lt_or_ge n 10 with h | h
    · rw [natStr_of_lt h]
      simp [intOfDigits, digitChar_toNat h]
    · rw [natStr_of_ge h, intOfDigits_append, ih (n / 10) (by omega), digitChar_toNat (by omega)]
      omega

theorem natStr_injective : Function.Injective natStr := by
  intro m n h
  rw [← intOfDigits_natStr m, h, intOfDigits_natStr n]

theorem Index.name_injective : Function.Injective Index.name := by
  intro i j h
  simp only [Index.name, List.cons.injEq] at h
  have h1 := Space.toChar_injective h.1
  have h2 := natStr_injective h.2
  cases i; cases j; simp_all

theorem intOfDigits_eq_ofDigits (s : PyStr) :
    intOfDigits s = Nat.ofDigits 10 ((s.map fun ch => ch.toNat - 48).reverse) := by
  induction s using List.reverseRecOn with
  | nil => rfl
  | append_singleton s ch ih =>
    rw [intOfDigits_append, ih]
    simp [Nat.ofDigits_cons]
    ring

theorem NamedIndex.parse_ok {name : PyStr} {i : NamedIndex} :
    NamedIndex.parse name = .ok i ↔
      ∃ s ds, name = Space.toChar s :: ds ∧ isDigitStr ds = true ∧ i = ⟨name, s, intOfDigits ds⟩ := by
  cases name with
  | nil => simp [NamedIndex.parse]
  | cons ch ds =>
    simp only [NamedIndex.parse, List.cons.injEq]
    cases h : Space.ofChar? ch with
    | none =>
      rw [Space.ofChar?_eq_none] at h
      simp only [reduceCtorEq, false_iff]
      rintro ⟨s, ds', ⟨h1, h2⟩, -⟩
      exact h s h1.symm
    | some s =>
      rw [Space.ofChar?_eq_some] at h
      subst h
      by_cases hd : isDigitStr ds = true
      · simp only [hd, if_true, Except.ok.injEq]
        constructor
        · rintro rfl
          exact ⟨s, ds, ⟨rfl, rfl⟩, hd, rfl⟩
        · rintro ⟨s', ds', ⟨h1, rfl⟩, -, rfl⟩
          rw [Space.toChar_injective h1]
      · simp only [hd, Bool.false_eq_true, if_false, reduceCtorEq, false_iff]
        rintro ⟨s', ds', ⟨h1, rfl⟩, h2, -⟩
        exact hd h2

theorem NamedIndex.parse_name (i : Index) : NamedIndex.parse i.name = .ok ⟨i.name, i.space, i.number⟩ := by
  rw [NamedIndex.parse_ok]
  exact ⟨i.space, natStr i.number, rfl, isDigitStr_natStr _, by rw [intOfDigits_natStr]⟩

theorem upperChar_toChar (s : Space) : upperChar s.toChar = Space.toChar ⟨s.kind, true⟩ := by
  revert s; decide

theorem lowerChar_toChar (s : Space) : lowerChar s.toChar = Space.toChar ⟨s.kind, false⟩ := by
  revert s; decide

theorem upperChar_digit {ch : Char} (h : isDigitChar ch = true) : upperChar ch = ch := by
  simp only [isDigitChar, Bool.and_eq_true, decide_eq_true_eq] at h
  rw [upperChar, if_neg (by omega)]

theorem lowerChar_digit {ch : Char} (h : isDigitChar ch = true) : lowerChar ch = ch := by
  simp only [isDigitChar, Bool.and_eq_true, decide_eq_true_eq] at h
  rw [lowerChar, if_neg (by omega)]

theorem map_upper_digits {ds : PyStr} (h : isDigitStr ds = true) : ds.map upperChar = ds := by
  simp only [isDigitStr, Bool.and_eq_true, List.all_eq_true] at h
  rw [List.map_congr_left (fun ch hch => upperChar_digit (h.2 ch hch))]; simp

theorem map_lower_digits {ds : PyStr} (h : isDigitStr ds = true) : ds.map lowerChar = ds := by
  simp only [isDigitStr, Bool.and_eq_true, List.all_eq_true] at h
  rw [List.map_congr_left (fun ch hch => lowerChar_digit (h.2 ch hch))]; simp

theorem Index.lt_iff {i j : Index} :
    i < j ↔ i.space.priority < j.space.priority ∨ (i.space.priority = j.space.priority ∧ i.number < j.number) := by
  show i.key < j.key ↔ _
  rw [Index.key, Index.key, Prod.Lex.toLex_lt_toLex]

theorem Index.pyLt_iff {i j : Index} : i.pyLt j = true ↔ i < j := by
  rw [Index.lt_iff]
  simp only [Index.pyLt, pyListLt]
  by_cases h : i.space.priority = j.space.priority
  · by_cases h2 : i.number = j.number <;> simp [h, h2]
  · simp [h]

theorem Index.pyLe_iff {i j : Index} : i.pyLe j = true ↔ i ≤ j := by
  rw [← not_lt, Index.lt_iff]
  simp only [Index.pyLe, pyListLe]
  by_cases h : i.space.priority = j.space.priority
  · by_cases h2 : i.number = j.number
    · simp [h, h2]
    · simp [h, h2]
  · simp only [h, if_false, decide_eq_true_eq]
    omega

end Dsrg
