import Verif.Model.Format
import Verif.Model.ChangeDir
import Verif.Model.Nested
import Verif.Lemmas.Hash
import Mathlib.Algebra.Order.Field.Basic
import Mathlib.Tactic.Linarith
import Mathlib.Tactic.FieldSimp
import Mathlib.Tactic.NormNum

/-!
Property theorems about number formatting, directories and symbolic commutators.
-/

namespace Dsrg

/-! ### C56 Symbolic nesting builds the k-fold commutator -/

/-- For `k ≥ 1` the result is `[[...[A,B],...],B]` with `k` copies of `B`. -/
theorem C56_nested_partial {α : Type} (comm : α → α → α) (a b : α) (k : Nat) (hk : 1 ≤ k) :
    sympyNested comm k a b = (fun x => comm x b)^[k] a := by
  induction k with
  | zero => omega
  | succ k ih =>
    rw [sympyNested, Function.iterate_succ_apply']
    by_cases h : k = 0
    · subst h; simp
    · rw [if_neg (by omega)]
      have : ((k + 1 : Nat) : Int) - 1 = (k : Nat) := by omega
      rw [this, ih (by omega)]

/-- For `k = 0` the result is `[A,B]`, not `A`. -/
theorem C56_violation_zero {α : Type} (comm : α → α → α) (a b : α) : sympyNested comm 0 a b = comm a b := by
  rw [sympyNested]; rfl

example : sympyNested (fun a b : List Char => ['['] ++ a ++ [','] ++ b ++ [']']) 0 ['H'] ['T'] ≠ ['H'] := by
  rw [C56_violation_zero]; decide

example : sympyNested (fun a b : List Char => ['['] ++ a ++ [','] ++ b ++ [']']) (2 : Nat) ['H'] ['T'] =
    ['[', '[', 'H', ',', 'T', ']', ',', 'T', ']'] := by
  rw [C56_nested_partial _ _ _ 2 (by decide)]; decide

/-! ### C63 Coefficient formatting is exact for ordinary fractions -/

/-- The contract of `Fraction.limit_denominator`: the closest fraction with denominator at most `N`. -/
def ClosestFraction (limit : ℚ → Nat → ℚ) : Prop :=
  ∀ x N, 1 ≤ N → (limit x N).den ≤ N ∧ ∀ r : ℚ, r.den ≤ N → |x - limit x N| ≤ |x - r|

/-- Different fractions are at least the reciprocal of the product of their denominators apart. -/
theorem fraction_gap {r s : ℚ} (h : r ≠ s) : 1 / ((r.den : ℚ) * s.den) ≤ |r - s| := by
  have hr : (0 : ℚ) < r.den := by exact_mod_cast r.den_pos
  have hs : (0 : ℚ) < s.den := by exact_mod_cast s.den_pos
  have e : r - s = ((r.num * s.den - s.num * r.den : ℤ) : ℚ) / (r.den * s.den) := by
    conv_lhs => rw [← Rat.num_div_den r, ← Rat.num_div_den s]
    push_cast
    field_simp
  rw [e, abs_div, abs_of_pos (mul_pos hr hs)]
  apply div_le_div_of_nonneg_right _ (mul_pos hr hs).le
  have hne : r.num * s.den - s.num * r.den ≠ 0 := by
    intro h0
    apply h
    have : r - s = 0 := by rw [e, h0]; simp
    linarith
  have := Int.one_le_abs hne
  exact_mod_cast this

/-- A number closer to `r` than half the smallest distance between fractions is rounded to `r`. -/
theorem limit_eq {limit : ℚ → Nat → ℚ} (hl : ClosestFraction limit) {x r : ℚ} {N : Nat} (hr : r.den ≤ N)
    (hx : |x - r| * (2 * r.den * N) < 1) : limit x N = r := by
  have hN : 1 ≤ N := le_trans r.den_pos hr
  obtain ⟨h1, h2⟩ := hl x N hN
  by_contra hne
  have hg := fraction_gap (Ne.symm hne)
  have h3 := h2 r hr
  have hrp : (0 : ℚ) < r.den := by exact_mod_cast r.den_pos
  have hlp : (0 : ℚ) < (limit x N).den := by exact_mod_cast (limit x N).den_pos
  have hNp : (0 : ℚ) < N := by exact_mod_cast hN
  have h4 : |r - limit x N| ≤ 2 * |x - r| := by
    have : r - limit x N = (r - x) + (x - limit x N) := by ring
    rw [this]
    refine (abs_add_le _ _).trans ?_
    rw [abs_sub_comm r x]; linarith
  have h5 : 1 / ((r.den : ℚ) * N) ≤ 1 / ((r.den : ℚ) * (limit x N).den) := by
    apply one_div_le_one_div_of_le (mul_pos hrp hlp)
    apply mul_le_mul_of_nonneg_left _ hrp.le
    exact_mod_cast h1
  have h6 : 1 / ((r.den : ℚ) * N) ≤ 2 * |x - r| := h5.trans (hg.trans h4)
  rw [div_le_iff₀ (mul_pos hrp hNp)] at h6
  linarith [h6, hx]

theorem slash_not_mem_intStr (i : Int) : '/' ∉ intStr i := by
  unfold intStr
  split_ifs
  · rw [List.mem_cons]
    rintro (h | h)
    · exact absurd h (by decide)
    · exact not_mem_natStr (by decide) _ h
  · exact not_mem_natStr (by decide) _

/-- The text written for a fraction. -/
theorem formatCoeff_eq {limit : ℚ → Nat → ℚ} {x r : ℚ} (h : limit x 1000000000 = r) :
    formatCoeff limit x false = (if r.den = 1 then intStr r.num else intStr r.num ++ ['/'] ++ natStr r.den) ∧
    formatCoeff limit x true = (if r.den = 1 then intStr r.num ++ ['.', '0'] else
      ['('] ++ intStr r.num ++ ['.', '0', ' ', '/', ' '] ++ natStr r.den ++ ['.', '0', ')']) := by
  unfold formatCoeff
  simp only [h, Bool.false_eq_true, if_false, if_true]
  refine ⟨rfl, ?_⟩
  unfold fractionStr
  by_cases h1 : r.den = 1
  · rw [if_pos h1, if_pos h1, if_pos (slash_not_mem_intStr _)]
  · rw [if_neg h1, if_neg h1, if_neg (by simp)]

/-- A coefficient that is, up to less than half the distance to its neighbours, the fraction `r` with denominator at most 10^9 is printed as
`num/den`, or as `num` when it is an integer; the ambit form is `(num.0 / den.0)`, or `num.0` for an integer. -/
theorem C63_format (limit : ℚ → Nat → ℚ) (hl : ClosestFraction limit) (x r : ℚ) (hr : r.den ≤ 1000000000)
    (hx : |x - r| * (2 * r.den * 1000000000) < 1) :
    formatCoeff limit x false = (if r.den = 1 then intStr r.num else intStr r.num ++ ['/'] ++ natStr r.den) ∧
    formatCoeff limit x true = (if r.den = 1 then intStr r.num ++ ['.', '0'] else
      ['('] ++ intStr r.num ++ ['.', '0', ' ', '/', ' '] ++ natStr r.den ++ ['.', '0', ')']) :=
  formatCoeff_eq (limit_eq hl hr (by exact_mod_cast hx))

/-- Exact fractions with denominator at most 10^9. -/
theorem C63_exact (limit : ℚ → Nat → ℚ) (hl : ClosestFraction limit) (r : ℚ) (hr : r.den ≤ 1000000000) :
    formatCoeff limit r false = (if r.den = 1 then intStr r.num else intStr r.num ++ ['/'] ++ natStr r.den) ∧
    formatCoeff limit r true = (if r.den = 1 then intStr r.num ++ ['.', '0'] else
      ['('] ++ intStr r.num ++ ['.', '0', ' ', '/', ' '] ++ natStr r.den ++ ['.', '0', ')']) :=
  C63_format limit hl r r hr (by simp)

/-- Floating-point numbers: rounding errors up to `n` units in the last place (relative error `n/2^53`) are undone as long as the numerator
times `n` is at most four million. -/
theorem C63_float (limit : ℚ → Nat → ℚ) (hl : ClosestFraction limit) (x r : ℚ) (n : Nat) (hr : r.den ≤ 1000000000)
    (hn : r.num.natAbs * n ≤ 4000000) (hx : |x - r| ≤ |r| * n / 2 ^ 53) :
    formatCoeff limit x false = (if r.den = 1 then intStr r.num else intStr r.num ++ ['/'] ++ natStr r.den) ∧
    formatCoeff limit x true = (if r.den = 1 then intStr r.num ++ ['.', '0'] else
      ['('] ++ intStr r.num ++ ['.', '0', ' ', '/', ' '] ++ natStr r.den ++ ['.', '0', ')']) := by
  apply C63_format limit hl x r hr
  have hrp : (0 : ℚ) < r.den := by exact_mod_cast r.den_pos
  have habs : |r| * r.den = r.num.natAbs := by
    have : |r| = |(r.num : ℚ)| / r.den := by
      conv_lhs => rw [← Rat.num_div_den r]
      rw [abs_div, abs_of_pos hrp]
    rw [this, div_mul_cancel₀ _ hrp.ne']
    rw [Nat.cast_natAbs, Int.cast_abs]
  have hn' : (r.num.natAbs : ℚ) * n ≤ 4000000 := by exact_mod_cast hn
  calc |x - r| * (2 * r.den * 1000000000) ≤ |r| * n / 2 ^ 53 * (2 * r.den * 1000000000) := by
        apply mul_le_mul_of_nonneg_right hx
        positivity
    _ = (|r| * r.den) * n * (2000000000 / 2 ^ 53) := by ring
    _ = (r.num.natAbs : ℚ) * n * (2000000000 / 2 ^ 53) := by rw [habs]
    _ ≤ 4000000 * (2000000000 / 2 ^ 53) := by
        apply mul_le_mul_of_nonneg_right hn'
        norm_num
    _ < 1 := by norm_num

theorem intStr_injective {i j : Int} (h : intStr i = intStr j) : i = j := by
  have hd : ∀ n : Nat, ∀ t, natStr n ≠ '-' :: t := fun n t h' => not_mem_natStr (by decide) n (h' ▸ List.mem_cons_self)
  unfold intStr at h
  split_ifs at h with h1 h2 h2
  · have := natStr_injective (List.cons.inj h).2; omega
  · exact absurd h.symm (hd _ _)
  · exact absurd h (hd _ _)
  · have := natStr_injective h; omega

/-- Different fractions are printed differently. -/
theorem fractionStr_injective {r s : ℚ} (h : fractionStr r = fractionStr s) : r = s := by
  have hs : ∀ (a b c d : List Char), '/' ∉ a → '/' ∉ c → a ++ ['/'] ++ b = c ++ ['/'] ++ d → a = c ∧ b = d := by
    intro a
    induction a with
    | nil =>
      intro b c d _ hc he
      cases c with
      | nil => simpa using he
      | cons x xs => simp at he; exact absurd (List.mem_cons_self) (he.1 ▸ hc)
    | cons y ys ih =>
      intro b c d ha hc he
      cases c with
      | nil => simp at he; exact absurd (List.mem_cons_self) (he.1 ▸ ha)
      | cons x xs =>
        simp only [List.cons_append, List.cons.injEq] at he
        obtain ⟨e1, e2⟩ := ih b xs d (fun h' => ha (List.mem_cons_of_mem _ h')) (fun h' => hc (List.mem_cons_of_mem _ h')) he.2
        exact ⟨by rw [he.1, e1], e2⟩
  have hno : ∀ (q : ℚ) (i : Int), intStr i ≠ intStr q.num ++ ['/'] ++ natStr q.den := fun q i h' =>
    slash_not_mem_intStr i (h' ▸ by simp)
  unfold fractionStr at h
  split_ifs at h with h1 h2 h2
  · exact Rat.ext (intStr_injective h) (by rw [h1, h2])
  · exact absurd h (hno _ _)
  · exact absurd h.symm (hno _ _)
  · obtain ⟨e1, e2⟩ := hs _ _ _ _ (slash_not_mem_intStr _) (slash_not_mem_intStr _) h
    exact Rat.ext (intStr_injective e1) (natStr_injective e2)

/-- Different fractions with denominators at most 10^9 are printed differently. -/
theorem C63_injective (limit : ℚ → Nat → ℚ) (hl : ClosestFraction limit) (r s : ℚ) (hr : r.den ≤ 1000000000) (hs : s.den ≤ 1000000000)
    (h : formatCoeff limit r false = formatCoeff limit s false) : r = s := by
  rw [(C63_exact limit hl r hr).1, (C63_exact limit hl s hs).1] at h
  exact fractionStr_injective h

example : formatCoeff (fun x _ => x) (-1/12) true = "(-1.0 / 12.0)".toList ∧ formatCoeff (fun x _ => x) 3 false = "3".toList := by
  decide +kernel

/-! ### C64 ChangeDir restores the working directory -/

section
variable {W α : Type}

/-- What the system calls do: `isAt w p` says that `p` is a path of the working directory of `w`.  A successful `chdir` goes to the
directory; nothing else changes the working directory. -/
structure SystemContract (sys : SystemCalls W) (isAt : W → PyStr → Prop) : Prop where
  getcwd : ∀ w, isAt w (sys.getcwd w)
  mkdir : ∀ p w q, isAt (sys.mkdir p w).2 q ↔ isAt w q
  chdir : ∀ p w, (sys.chdir p w).1 = .ok () → isAt (sys.chdir p w).2 p
  chdir_fails : ∀ p w e, (sys.chdir p w).1 = .error e → ∀ q, isAt (sys.chdir p w).2 q ↔ isAt w q

/-- After a with-block that was entered, the working directory is the one at the construction of the object, whether the body returned or
raised, and the result of the body is passed on; inside the working directory is the requested subdirectory. -/
theorem C64_restored (sys : SystemCalls W) (isAt : W → PyStr → Prop) (hsys : SystemContract sys isAt) (dirName : PyStr) (w0 w w1 : W)
    (body : W → Except WithErr α × W) (hin : (ChangeDir.make sys dirName w0).enter sys w = (.ok (), w1))
    (hout : (sys.chdir (sys.getcwd w0) (body w1).2).1 = .ok ()) :
    isAt w1 (sys.getcwd w0 ++ ['/'] ++ dirName) ∧
    (withBlock sys (ChangeDir.make sys dirName w0) body w).1 = (body w1).1 ∧
    isAt (withBlock sys (ChangeDir.make sys dirName w0) body w).2 (sys.getcwd w0) := by
  have hch : ∀ p v v', osChdir sys p v = (.ok (), v') → isAt v' p := by
    intro p v v' h
    have hc := hsys.chdir p v
    unfold osChdir at h
    cases hcd : sys.chdir p v with
    | mk r u =>
      rw [hcd] at h hc
      cases r with
      | ok x => cases h; exact hc rfl
      | error e => cases h
  refine ⟨?_, ?_⟩
  · unfold ChangeDir.enter at hin
    cases hmk : sys.mkdir (ChangeDir.make sys dirName w0).dir w with
    | mk r u =>
      rw [hmk] at hin
      cases r with
      | ok x => exact hch _ _ _ hin
      | error e =>
        simp only at hin
        split_ifs at hin with he
        · cases hin
        · exact hch _ _ _ hin
  · have hex : ∃ w3, (ChangeDir.make sys dirName w0).exit sys (body w1).2 = (.ok (), w3) ∧ isAt w3 (sys.getcwd w0) := by
      have hc := hsys.chdir (sys.getcwd w0) (body w1).2
      unfold ChangeDir.exit osChdir ChangeDir.make
      simp only
      cases hcd : sys.chdir (sys.getcwd w0) (body w1).2 with
      | mk r u =>
        rw [hcd] at hout hc
        simp only at hout
        subst hout
        exact ⟨u, rfl, hc rfl⟩
    obtain ⟨w3, h3, h4⟩ := hex
    unfold withBlock
    rw [hin]
    simp only
    rw [h3]
    exact ⟨rfl, h4⟩

/-- A failure of `mkdir` other than "already exists" raises `ValueError`; the body is not run and the working directory does not change. -/
theorem C64_failure (sys : SystemCalls W) (isAt : W → PyStr → Prop) (hsys : SystemContract sys isAt) (dirName : PyStr) (w0 w : W)
    (body : W → Except WithErr α × W) (e : Errno) (he : e ≠ .eexist)
    (hmk : (sys.mkdir (sys.getcwd w0 ++ ['/'] ++ dirName) w).1 = .error e) :
    withBlock sys (ChangeDir.make sys dirName w0) body w = (.error .valueError, (sys.mkdir (sys.getcwd w0 ++ ['/'] ++ dirName) w).2) ∧
    ∀ q, isAt (withBlock sys (ChangeDir.make sys dirName w0) body w).2 q ↔ isAt w q := by
  have key : withBlock sys (ChangeDir.make sys dirName w0) body w =
      (.error .valueError, (sys.mkdir (sys.getcwd w0 ++ ['/'] ++ dirName) w).2) := by
    unfold withBlock ChangeDir.enter ChangeDir.make
    simp only
    cases h : sys.mkdir (sys.getcwd w0 ++ ['/'] ++ dirName) w with
    | mk r u =>
      rw [h] at hmk
      simp only at hmk
      subst hmk
      simp [he]
  refine ⟨key, fun q => ?_⟩
  rw [key]
  exact hsys.mkdir _ _ _

/-- When the directory cannot be entered (for instance because the name belongs to a file) the `OSError` goes on; the body is not run and the
working directory does not change. -/
theorem C64_cannot_enter (sys : SystemCalls W) (isAt : W → PyStr → Prop) (hsys : SystemContract sys isAt) (dirName : PyStr) (w0 w : W)
    (body : W → Except WithErr α × W) (e : Errno)
    (hmk : (sys.mkdir (sys.getcwd w0 ++ ['/'] ++ dirName) w).1 = .ok () ∨ (sys.mkdir (sys.getcwd w0 ++ ['/'] ++ dirName) w).1 = .error .eexist)
    (hcd : (sys.chdir (sys.getcwd w0 ++ ['/'] ++ dirName) (sys.mkdir (sys.getcwd w0 ++ ['/'] ++ dirName) w).2).1 = .error e) :
    (withBlock sys (ChangeDir.make sys dirName w0) body w).1 = .error (.osError e) ∧
    ∀ q, isAt (withBlock sys (ChangeDir.make sys dirName w0) body w).2 q ↔ isAt w q := by
  have key : withBlock sys (ChangeDir.make sys dirName w0) body w = (.error (.osError e),
      (sys.chdir (sys.getcwd w0 ++ ['/'] ++ dirName) (sys.mkdir (sys.getcwd w0 ++ ['/'] ++ dirName) w).2).2) := by
    unfold withBlock ChangeDir.enter ChangeDir.make osChdir
    simp only
    cases h : sys.mkdir (sys.getcwd w0 ++ ['/'] ++ dirName) w with
    | mk r u =>
      rw [h] at hmk hcd
      simp only at hmk hcd
      cases h' : sys.chdir (sys.getcwd w0 ++ ['/'] ++ dirName) u with
      | mk r' u' =>
        rw [h'] at hcd
        simp only at hcd
        subst hcd
        rcases hmk with rfl | rfl
        · dsimp only; rw [h']
        · dsimp only; rw [if_neg (by simp), h']
  refine ⟨by rw [key], fun q => ?_⟩
  rw [key]
  exact (hsys.chdir_fails _ _ e hcd q).trans (hsys.mkdir _ _ _)

end

/-- A small file system: the working directory and the list of existing directories. -/
def smallSystem : SystemCalls (PyStr × List PyStr) where
  getcwd w := w.1
  mkdir p w := if p ∈ w.2 then (.error .eexist, w) else (.ok (), (w.1, p :: w.2))
  chdir p w := if p ∈ w.2 then (.ok (), (p, w.2)) else (.error (.other 2), w)

theorem C64_example : SystemContract smallSystem (fun w p => w.1 = p) ∧
    (withBlock smallSystem (ChangeDir.make smallSystem ['x'] (['/', 'r'], [['/', 'r']]))
      (fun w => ((Except.error (.body 7) : Except WithErr Unit), (['/'], w.2))) (['/', 'r'], [['/', 'r']])) =
      (.error (.body 7), (['/', 'r'], [['/', 'r', '/', 'x'], ['/', 'r']])) := by
  refine ⟨⟨fun _ => rfl, ?_, ?_, ?_⟩, by decide⟩
  · intro p w q; unfold smallSystem; simp only; split_ifs <;> rfl
  · intro p w; unfold smallSystem; simp only; split_ifs <;> simp
  · intro p w e; unfold smallSystem; simp only; split_ifs <;> simp

end Dsrg
