import Mathlib.Tactic.Module
import Mathlib.Tactic.NoncommRing
import Verif.Spec.Wick

/-!
Wick's theorem for normal ordering with respect to a correlated reference, in the words of `Spec/Wick.lean`.
-/

namespace Dsrg

section
variable {α M : Type} [AddCommGroup M]

theorem signedChoices_congr (w : List α) {G H : List α → List α → M}
    (h : ∀ S r, S.Sublist w → r.Sublist w → S.length + r.length = w.length → G S r = H S r) :
    signedChoices w G = signedChoices w H := by
  induction w generalizing G H with
  | nil => exact h [] [] (List.Sublist.refl _) (List.Sublist.refl _) rfl
  | cons a w ih =>
    simp only [signedChoices]
    congr 1
    · exact ih fun S r hS hr hl => h (a :: S) r (hS.cons_cons a) (hr.cons a) (by simp; omega)
    · exact ih fun S r hS hr hl => by rw [h S (a :: r) (hS.cons a) (hr.cons_cons a) (by simp; omega)]

theorem signedChoices_add (w : List α) (G H : List α → List α → M) :
    signedChoices w (fun S r => G S r + H S r) = signedChoices w G + signedChoices w H := by
  induction w generalizing G H with
  | nil => rfl
  | cons a w ih =>
    simp only [signedChoices, smul_add, ih]
    abel

theorem signedChoices_map {M' : Type} [AddCommGroup M'] (φ : M →+ M') (w : List α) (G : List α → List α → M) :
    φ (signedChoices w G) = signedChoices w fun S r => φ (G S r) := by
  induction w generalizing G with
  | nil => rfl
  | cons a w ih => simp only [signedChoices, map_add, ih, map_zsmul]

theorem signedChoices_zero (w : List α) : signedChoices w (fun _ _ => (0 : M)) = 0 := by
  have h := signedChoices_add w (fun _ _ => (0 : M)) (fun _ _ => 0)
  simpa using h

theorem signedChoices_neg (w : List α) (G : List α → List α → M) :
    signedChoices w (fun S r => - G S r) = - signedChoices w G := by
  have h := signedChoices_add w G (fun S r => - G S r)
  simp only [add_neg_cancel, signedChoices_zero] at h
  exact (neg_eq_of_add_eq_zero_right h.symm).symm

theorem signedChoices_sub (w : List α) (G H : List α → List α → M) :
    signedChoices w (fun S r => G S r - H S r) = signedChoices w G - signedChoices w H := by
  simp only [sub_eq_add_neg, signedChoices_add, signedChoices_neg]

theorem signedChoices_zsmul (w : List α) (n : ℤ) (G : List α → List α → M) :
    signedChoices w (fun S r => n • G S r) = n • signedChoices w G :=
  (signedChoices_map (zsmulAddGroupHom n) w G).symm

theorem signedChoices_smul {R : Type} [CommRing R] [Module R M] (w : List α) (c : R) (G : List α → List α → M) :
    signedChoices w (fun S r => c • G S r) = c • signedChoices w G :=
  (signedChoices_map (DistribSMul.toAddMonoidHom M c) w G).symm

theorem sign_mul_self (n : ℕ) : (-1 : ℤ) ^ n * (-1 : ℤ) ^ n = 1 := by
  rw [← pow_add, ← two_mul]; simp

theorem sign_smul_smul (n : ℕ) (m : M) : (-1 : ℤ) ^ n • (-1 : ℤ) ^ n • m = m := by
  rw [smul_smul, sign_mul_self, one_smul]

/-- Choosing a part of a list and then a part of what remains, in either order. -/
theorem signedChoices_comm (w : List α) (H : List α → List α → List α → M) :
    signedChoices w (fun U r => signedChoices r fun T r' => H U T r') =
      signedChoices w fun T r => signedChoices r fun U r' => (-1 : ℤ) ^ (T.length * U.length) • H U T r' := by
  induction w generalizing H with
  | nil => simp [signedChoices]
  | cons a w ih =>
    simp only [signedChoices, smul_add, signedChoices_add, ← signedChoices_zsmul]
    rw [ih (fun U T r' => H (a :: U) T r'), ih (fun U T r' => (-1 : ℤ) ^ U.length • H U (a :: T) r'),
      ih (fun U T r' => (-1 : ℤ) ^ U.length • (-1 : ℤ) ^ T.length • H U T (a :: r'))]
    have e1 : ∀ (T U r' : List α), (-1 : ℤ) ^ (T.length * U.length) • H (a :: U) T r' =
        (-1 : ℤ) ^ T.length • (-1 : ℤ) ^ (T.length * (a :: U).length) • H (a :: U) T r' := by
      intro T U r'
      rw [smul_smul, ← pow_add, List.length_cons, Nat.mul_succ, Nat.add_comm, Nat.add_assoc, pow_add, pow_add, sign_mul_self,
        mul_one]
    have e2 : ∀ (T U r' : List α), (-1 : ℤ) ^ (T.length * U.length) • (-1 : ℤ) ^ U.length • H U (a :: T) r' =
        (-1 : ℤ) ^ ((a :: T).length * U.length) • H U (a :: T) r' := by
      intro T U r'
      rw [smul_smul, ← pow_add, List.length_cons, Nat.succ_mul]
    have e3 : ∀ (T U r' : List α), (-1 : ℤ) ^ (T.length * U.length) • (-1 : ℤ) ^ U.length • (-1 : ℤ) ^ T.length • H U T (a :: r') =
        (-1 : ℤ) ^ T.length • (-1 : ℤ) ^ U.length • (-1 : ℤ) ^ (T.length * U.length) • H U T (a :: r') := by
      intro T U r'
      simp only [smul_smul]
      congr 1
      ring
    simp only [e1, e2, e3]
    abel

/-- Choosing a part of two joined lists. -/
theorem signedChoices_append (a b : List α) (G : List α → List α → M) :
    signedChoices (a ++ b) G = signedChoices a fun S r => signedChoices b fun T r' =>
      (-1 : ℤ) ^ (r.length * T.length) • G (S ++ T) (r ++ r') := by
  induction a generalizing G with
  | nil => simp [signedChoices]
  | cons x a ih =>
    simp only [List.cons_append, signedChoices, ih]
    congr 1
    refine signedChoices_congr _ fun S r _ _ _ => ?_
    rw [← signedChoices_zsmul]
    refine signedChoices_congr _ fun T r' _ _ _ => ?_
    simp only [smul_smul, ← pow_add, List.length_append, List.length_cons, List.cons_append]
    congr 1
    rw [show r.length * T.length + (S.length + T.length) = S.length + (r.length + 1) * T.length by ring]

/-- Nothing chosen. -/
theorem signedChoices_nil_part (b : List α) (G : List α → List α → M) (h : ∀ T r, T ≠ [] → T.Sublist b → G T r = 0) :
    signedChoices b G = G [] b := by
  induction b generalizing G with
  | nil => rfl
  | cons a b ih =>
    simp only [signedChoices]
    rw [ih (fun S r => (-1 : ℤ) ^ S.length • G S (a :: r)) fun T r hT hs => by rw [h T _ hT (hs.cons a), smul_zero]]
    have e : signedChoices b (fun S r => G (a :: S) r) = signedChoices b fun _ _ => (0 : M) :=
      signedChoices_congr _ fun S r hS _ _ => h _ _ (by simp) (hS.cons_cons a)
    rw [e, signedChoices_zero]
    simp

/-- The sum over the choices changes sign with the exchange of two neighbours when the terms do. -/
theorem signedChoices_swap (pre post : List α) (x y : α) (G : List α → List α → M)
    (h1 : ∀ p q r, p.length + q.length ≤ pre.length + post.length → G (p ++ y :: x :: q) r = - G (p ++ x :: y :: q) r)
    (h2 : ∀ p q S, p.length + q.length ≤ pre.length + post.length → G S (p ++ y :: x :: q) = - G S (p ++ x :: y :: q)) :
    signedChoices (pre ++ y :: x :: post) G = - signedChoices (pre ++ x :: y :: post) G := by
  induction pre generalizing G with
  | nil =>
    simp only [List.nil_append, signedChoices, List.length_cons]
    have e1 : signedChoices post (fun S r => G (y :: x :: S) r) = - signedChoices post (fun S r => G (x :: y :: S) r) := by
      rw [← signedChoices_neg]
      refine signedChoices_congr _ fun S r hS _ _ => h1 [] S r ?_
      have := hS.length_le
      simpa using this
    have e2 : signedChoices post (fun S r => (-1 : ℤ) ^ S.length • (-1 : ℤ) ^ S.length • G S (y :: x :: r)) =
        - signedChoices post (fun S r => (-1 : ℤ) ^ S.length • (-1 : ℤ) ^ S.length • G S (x :: y :: r)) := by
      rw [← signedChoices_neg]
      refine signedChoices_congr _ fun S r _ hr _ => ?_
      have := hr.length_le
      rw [sign_smul_smul, sign_smul_smul]
      exact h2 [] r S (by simpa using this)
    simp only [pow_succ, mul_neg, mul_one, neg_smul, signedChoices_neg]
    rw [e1, e2]
    abel
  | cons a pre ih =>
    simp only [List.cons_append, signedChoices]
    rw [ih (fun S r => G (a :: S) r) (fun p q r hl => h1 (a :: p) q r (by simp; omega))
        (fun p q S hl => h2 p q (a :: S) (by simp; omega)),
      ih (fun S r => (-1 : ℤ) ^ S.length • G S (a :: r))
        (fun p q r hl => by
          rw [h1 p q (a :: r) (by simp; omega), smul_neg]
          simp)
        (fun p q S hl => by
          rw [show a :: (p ++ y :: x :: q) = (a :: p) ++ y :: x :: q from rfl, h2 (a :: p) q S (by simp; omega), smul_neg]
          rfl)]
    abel

end

section
variable {α R A : Type} [CommRing R] [Ring A] [Algebra R A]

theorem normalOrderUpTo_eq (field : α → A) (contr : List α → R) (n : ℕ) (w : List α) (h : w.length ≤ n) :
    normalOrderUpTo field contr n w = normalOrder field contr w := by
  unfold normalOrder
  have key : ∀ (k : ℕ) (w : List α) (n m : ℕ), w.length ≤ k → w.length ≤ n → w.length ≤ m →
      normalOrderUpTo field contr n w = normalOrderUpTo field contr m w := by
    intro k
    induction k with
    | zero =>
      intro w n m hk _ _
      obtain rfl := List.length_eq_zero_iff.mp (Nat.le_zero.mp hk)
      cases n <;> cases m <;> simp [normalOrderUpTo]
    | succ k ih =>
      intro w n m hk hn hm
      cases w with
      | nil => cases n <;> cases m <;> simp [normalOrderUpTo]
      | cons x w =>
        simp only [List.length_cons] at hk hn hm
        obtain ⟨n, rfl⟩ : ∃ n', n = n' + 1 := ⟨n - 1, by omega⟩
        obtain ⟨m, rfl⟩ : ∃ m', m = m' + 1 := ⟨m - 1, by omega⟩
        simp only [normalOrderUpTo]
        rw [ih w n m (by omega) (by omega) (by omega)]
        congr 1
        refine signedChoices_congr _ fun S r _ hr _ => ?_
        have := hr.length_le
        rw [ih r n m (by omega) (by omega) (by omega)]
  exact key w.length w n w.length (Nat.le_refl _) h (Nat.le_refl _)

@[simp] theorem normalOrder_nil (field : α → A) (contr : List α → R) : normalOrder field contr [] = 1 := rfl

theorem normalOrder_cons (field : α → A) (contr : List α → R) (x : α) (w : List α) :
    normalOrder field contr (x :: w) = field x * normalOrder field contr w -
      signedChoices w fun S r => contr (x :: S) • normalOrder field contr r := by
  conv_lhs => unfold normalOrder
  simp only [List.length_cons, normalOrderUpTo]
  congr 1
  refine signedChoices_congr _ fun S r _ hr _ => ?_
  rw [normalOrderUpTo_eq field contr w.length r hr.length_le]

theorem field_mul_normalOrder (field : α → A) (contr : List α → R) (x : α) (w : List α) :
    field x * normalOrder field contr w = normalOrder field contr (x :: w) +
      signedChoices w fun S r => contr (x :: S) • normalOrder field contr r := by
  rw [normalOrder_cons]; abel

/-- What the values of the contractions must satisfy. -/
structure ContractionRules (field : α → A) (contr : List α → R) : Prop where
  odd : ∀ w, w.length % 2 = 1 → contr w = 0
  pair : ∀ x y, field x * field y + field y * field x = algebraMap R A (contr [x, y] + contr [y, x])
  swap : ∀ p q x y, 3 ≤ (p ++ q).length + 2 → contr (p ++ y :: x :: q) = - contr (p ++ x :: y :: q)

variable {field : α → A} {contr : List α → R}

theorem odd_smul (h : ContractionRules field contr) {B : Type} [AddCommGroup B] [Module R B] (x : α) (S : List α) (b : B) :
    (-1 : ℤ) ^ S.length • contr (x :: S) • b = - (contr (x :: S) • b) := by
  rcases Nat.mod_two_eq_zero_or_one S.length with h0 | h1
  · rw [h.odd (x :: S) (by simp; omega)]; simp
  · rw [← Nat.div_add_mod S.length 2, h1, pow_add, pow_mul]; simp

theorem even_smul (h : ContractionRules field contr) {B : Type} [AddCommGroup B] [Module R B] (x y : α) (S : List α) (b : B) :
    (-1 : ℤ) ^ S.length • contr (x :: y :: S) • b = contr (x :: y :: S) • b := by
  rcases Nat.mod_two_eq_zero_or_one S.length with h0 | h1
  · rw [← Nat.div_add_mod S.length 2, h0, pow_add, pow_mul]; simp
  · rw [h.odd (x :: y :: S) (by simp; omega)]; simp

theorem normalOrder_swap_front (h : ContractionRules field contr) (x y : α) (w : List α) :
    normalOrder field contr (x :: y :: w) = field x * field y * normalOrder field contr w
      - signedChoices w (fun T r => contr (y :: T) • normalOrder field contr (x :: r))
      - signedChoices w (fun T r => signedChoices r fun U r' => (contr (y :: T) * contr (x :: U)) • normalOrder field contr r')
      + signedChoices w (fun U r => contr (x :: U) • normalOrder field contr (y :: r))
      - signedChoices w (fun S r => contr (x :: y :: S) • normalOrder field contr r) := by
  rw [normalOrder_cons field contr x (y :: w)]
  simp only [signedChoices]
  rw [normalOrder_cons field contr y w, mul_sub, ← mul_assoc]
  have e1 : field x * signedChoices w (fun S r => contr (y :: S) • normalOrder field contr r) =
      signedChoices w (fun T r => contr (y :: T) • normalOrder field contr (x :: r)) +
      signedChoices w (fun T r => signedChoices r fun U r' => (contr (y :: T) * contr (x :: U)) • normalOrder field contr r') := by
    rw [← signedChoices_add]
    have := signedChoices_map (AddMonoidHom.mulLeft (field x)) w fun S r => contr (y :: S) • normalOrder field contr r
    simp only [AddMonoidHom.coe_mulLeft] at this
    rw [this]
    refine signedChoices_congr _ fun S r _ _ _ => ?_
    rw [mul_smul_comm, field_mul_normalOrder, smul_add, ← signedChoices_smul]
    simp only [smul_smul]
  rw [e1]
  simp only [odd_smul h, signedChoices_neg]
  abel

/-- Normal-ordered products change sign when two neighbouring operators are exchanged. -/
theorem normalOrder_swap (h : ContractionRules field contr) (pre post : List α) (x y : α) :
    normalOrder field contr (pre ++ y :: x :: post) = - normalOrder field contr (pre ++ x :: y :: post) := by
  have key : ∀ (n : ℕ) (pre post : List α), pre.length + post.length ≤ n →
      normalOrder field contr (pre ++ y :: x :: post) = - normalOrder field contr (pre ++ x :: y :: post) := by
    intro n
    induction n with
    | zero =>
      intro pre post hn
      obtain rfl := List.length_eq_zero_iff.mp (show pre.length = 0 by omega)
      obtain rfl := List.length_eq_zero_iff.mp (show post.length = 0 by omega)
      simp only [List.nil_append]
      rw [normalOrder_swap_front h y x [], normalOrder_swap_front h x y []]
      simp only [signedChoices, normalOrder_nil, mul_one]
      have hp := h.pair x y
      rw [map_add] at hp
      rw [eq_neg_iff_add_eq_zero]
      simp only [Algebra.algebraMap_eq_smul_one] at hp
      have e : contr [y] = 0 := h.odd _ rfl
      have e' : contr [x] = 0 := h.odd _ rfl
      simp only [e, e', zero_smul, zero_mul, sub_zero, add_zero]
      rw [show field y * field x - contr [y, x] • (1 : A) + (field x * field y - contr [x, y] • (1 : A)) =
        (field x * field y + field y * field x) - (contr [x, y] • (1 : A) + contr [y, x] • (1 : A)) by abel, hp, sub_self]
    | succ n ih =>
      intro pre post hn
      cases pre with
      | nil =>
        simp only [List.nil_append]
        rw [normalOrder_swap_front h y x post, normalOrder_swap_front h x y post, eq_neg_iff_add_eq_zero]
        have e1 : signedChoices post (fun T r => signedChoices r fun U r' =>
              (contr (x :: T) * contr (y :: U)) • normalOrder field contr r') =
            - signedChoices post (fun T r => signedChoices r fun U r' =>
              (contr (y :: T) * contr (x :: U)) • normalOrder field contr r') := by
          rw [signedChoices_comm, ← signedChoices_neg]
          refine signedChoices_congr _ fun T r _ _ _ => ?_
          rw [← signedChoices_neg]
          refine signedChoices_congr _ fun U r' _ _ _ => ?_
          rcases Nat.mod_two_eq_zero_or_one T.length with h0 | h1
          · rw [h.odd (y :: T) (by simp; omega)]; simp
          · rcases Nat.mod_two_eq_zero_or_one U.length with h0 | h2
            · rw [h.odd (x :: U) (by simp; omega)]; simp
            · have : (-1 : ℤ) ^ (T.length * U.length) = -1 :=
                Odd.neg_one_pow ((Nat.odd_iff.mpr h1).mul (Nat.odd_iff.mpr h2))
              rw [this, neg_smul, one_smul, mul_comm]
        have e2 : signedChoices post (fun S r => contr (y :: x :: S) • normalOrder field contr r) +
            signedChoices post (fun S r => contr (x :: y :: S) • normalOrder field contr r) =
            (contr [y, x] + contr [x, y]) • normalOrder field contr post := by
          rw [← signedChoices_add]
          refine signedChoices_nil_part _ _ (fun T r hT _ => ?_) |>.trans ?_
          · have := h.swap [] T x y (by
              rcases T with _ | ⟨_, T⟩
              · exact (hT rfl).elim
              · simp)
            simp only [List.nil_append] at this
            rw [this, neg_smul, neg_add_cancel]
          · rw [add_smul]
        have hp := h.pair x y
        have e3 : field y * field x * normalOrder field contr post + field x * field y * normalOrder field contr post =
            (contr [y, x] + contr [x, y]) • normalOrder field contr post := by
          rw [← add_mul, add_comm (field y * field x), hp, Algebra.smul_def, add_comm]
        rw [e1]
        rw [show ∀ a b c d e e' f g i : A, a - b - -c + d - e + (f - d - c + b - g) = (a + f) - (e + g) from
          fun a b c d e e' f g i => by abel, e2, e3, sub_self]
        · exact 0
        · exact 0
      | cons z pre =>
        simp only [List.cons_append]
        simp only [List.length_cons] at hn
        rw [normalOrder_cons, normalOrder_cons, ih pre post (by omega), mul_neg, neg_sub, signedChoices_swap]
        · abel
        · intro p q r _
          have := h.swap (z :: p) q x y (by simp)
          simp only [List.cons_append] at this
          rw [this, neg_smul]
        · intro p q S hl
          rw [ih p q (by omega), smul_neg]
  exact key _ pre post (Nat.le_refl _)

/-! The sum over all sets of contractions. -/

section
variable {M : Type} [AddCommGroup M] [Module R M]

/-- The sum over all sets of disjoint blocks of `w` of the product of `K` over the blocks times `G` of the rest, with the signs of
moving the blocks to the front. -/
def contractionSum (K : List α → R) : Nat → List α → (List α → M) → M
  | _, [], G => G []
  | 0, _, G => G []
  | n + 1, x :: w, G => contractionSum K n w (fun r => G (x :: r)) + signedChoices w fun S w' => K (x :: S) • contractionSum K n w' G

theorem contractionSum_fuel (K : List α → R) {n m : ℕ} {w : List α} (hn : w.length ≤ n) (hm : w.length ≤ m) (G : List α → M) :
    contractionSum K n w G = contractionSum K m w G := by
  have key : ∀ (k : ℕ) (w : List α) (n m : ℕ) (G : List α → M), w.length ≤ k → w.length ≤ n → w.length ≤ m →
      contractionSum K n w G = contractionSum K m w G := by
    intro k
    induction k with
    | zero =>
      intro w n m G hk _ _
      obtain rfl := List.length_eq_zero_iff.mp (Nat.le_zero.mp hk)
      cases n <;> cases m <;> simp [contractionSum]
    | succ k ih =>
      intro w n m G hk hn hm
      cases w with
      | nil => cases n <;> cases m <;> simp [contractionSum]
      | cons x w =>
        simp only [List.length_cons] at hk hn hm
        obtain ⟨n, rfl⟩ : ∃ n', n = n' + 1 := ⟨n - 1, by omega⟩
        obtain ⟨m, rfl⟩ : ∃ m', m = m' + 1 := ⟨m - 1, by omega⟩
        simp only [contractionSum]
        rw [ih w n m _ (by omega) (by omega) (by omega)]
        congr 1
        refine signedChoices_congr _ fun S r _ hr _ => ?_
        have := hr.length_le
        rw [ih r n m _ (by omega) (by omega) (by omega)]
  exact key w.length w n m G (Nat.le_refl _) hn hm

theorem contractionSum_cons (K : List α → R) {n : ℕ} {x : α} {w : List α} (G : List α → M) :
    contractionSum K (n + 1) (x :: w) G = contractionSum K n w (fun r => G (x :: r)) +
      signedChoices w fun S w' => K (x :: S) • contractionSum K n w' G := rfl

theorem contractionSum_nil (K : List α → R) (n : ℕ) (G : List α → M) : contractionSum K n [] G = G [] := by
  cases n <;> rfl

theorem contractionSum_map {M' : Type} [AddCommGroup M'] [Module R M'] (φ : M →ₗ[R] M') (K : List α → R) (n : ℕ) (w : List α)
    (G : List α → M) : φ (contractionSum K n w G) = contractionSum K n w fun r => φ (G r) := by
  induction n generalizing w G with
  | zero => cases w <;> rfl
  | succ n ih =>
    cases w with
    | nil => rfl
    | cons x w =>
      simp only [contractionSum, map_add, ih]
      congr 1
      rw [show φ (signedChoices w _) = φ.toAddMonoidHom (signedChoices w _) from rfl, signedChoices_map]
      refine signedChoices_congr _ fun S r _ _ _ => ?_
      simp [ih]

theorem contractionSum_add (K : List α → R) (n : ℕ) (w : List α) (G H : List α → M) :
    contractionSum K n w (fun r => G r + H r) = contractionSum K n w G + contractionSum K n w H := by
  induction n generalizing w G H with
  | zero => cases w <;> rfl
  | succ n ih =>
    cases w with
    | nil => rfl
    | cons x w =>
      simp only [contractionSum, ih, smul_add, signedChoices_add]
      abel

/-- Contracting first and choosing a part of the rest, or the other way round. -/
theorem contractionSum_comm (K : List α → R) (hK : ∀ b, b.length % 2 = 1 → K b = 0) (n : ℕ) (w : List α) (hn : w.length ≤ n)
    (G : List α → List α → M) :
    contractionSum K n w (fun r => signedChoices r fun T r' => G T r') =
      signedChoices w fun T w' => contractionSum K n w' fun r' => G T r' := by
  induction n generalizing w G with
  | zero =>
    obtain rfl := List.length_eq_zero_iff.mp (Nat.le_zero.mp hn)
    rfl
  | succ n ih =>
    cases w with
    | nil => rfl
    | cons x w =>
      simp only [List.length_cons] at hn
      have hw : w.length ≤ n := by omega
      simp only [contractionSum, signedChoices, contractionSum_add]
      rw [ih w hw, ih w hw]
      have e1 : signedChoices w (fun T w' => contractionSum K (n + 1) w' fun r' => G (x :: T) r') =
          signedChoices w (fun T w' => contractionSum K n w' fun r' => G (x :: T) r') := by
        refine signedChoices_congr _ fun S r _ hr _ => ?_
        have := hr.length_le
        exact contractionSum_fuel K (by omega) (by omega) _
      have e2 : signedChoices w (fun S w' => K (x :: S) • contractionSum K n w' fun r => signedChoices r fun T r' => G T r') =
          signedChoices w (fun T w' => signedChoices w' fun U w'' => (-1 : ℤ) ^ T.length •
            K (x :: U) • contractionSum K n w'' fun r' => G T r') := by
        have : signedChoices w (fun S w' => K (x :: S) • contractionSum K n w' fun r => signedChoices r fun T r' => G T r') =
            signedChoices w (fun U w' => signedChoices w' fun T w'' => K (x :: U) • contractionSum K n w'' fun r' => G T r') := by
          refine signedChoices_congr _ fun S r _ hr _ => ?_
          have := hr.length_le
          rw [ih r (by omega), signedChoices_smul]
        rw [this, signedChoices_comm]
        refine signedChoices_congr _ fun T r _ _ _ => signedChoices_congr _ fun U r' _ _ _ => ?_
        rcases Nat.mod_two_eq_zero_or_one U.length with h0 | h1
        · rw [hK (x :: U) (by simp; omega)]; simp
        · congr 1
          rcases Nat.mod_two_eq_zero_or_one T.length with h0 | h2
          · rw [Even.neg_one_pow (Nat.even_iff.mpr h0), Even.neg_one_pow ((Nat.even_iff.mpr h0).mul_right _)]
          · rw [Odd.neg_one_pow (Nat.odd_iff.mpr h2), Odd.neg_one_pow ((Nat.odd_iff.mpr h2).mul (Nat.odd_iff.mpr h1))]
      rw [e1, e2]
      have e3 : signedChoices w (fun S r => (-1 : ℤ) ^ S.length • contractionSum K n r fun r' => G S (x :: r')) =
          signedChoices w (fun S r => contractionSum K n r fun r' => (-1 : ℤ) ^ S.length • G S (x :: r')) := by
        refine signedChoices_congr _ fun S r _ _ _ => ?_
        have := contractionSum_map ((-1 : ℤ) ^ S.length • (LinearMap.id : M →ₗ[R] M)) K n r fun r' => G S (x :: r')
        simpa only [LinearMap.smul_apply, LinearMap.id_apply] using this
      simp only [smul_add, signedChoices_add, ← signedChoices_zsmul]
      rw [e3]
      abel
 
end

variable {κ : Type} [DecidableEq κ]

/-- The strings can be told apart by the keys of their operators. -/
def Keyed (key : α → κ) (ls : List (List α)) : Prop :=
  (∀ l ∈ ls, ∀ x ∈ l, ∀ y ∈ l, key x = key y) ∧ ls.Pairwise fun l l' => ∀ x ∈ l, ∀ y ∈ l', key x ≠ key y

/-- Wick's theorem: a product of normal-ordered strings is the sum over all contractions that are not inside one string. -/
theorem wick (h : ContractionRules field contr) (key : α → κ) (K : List α → R) (ls : List (List α)) (hk : Keyed key ls)
    (hin : ∀ b, (∀ x ∈ b, ∀ y ∈ b, key x = key y) → K b = 0)
    (hout : ∀ b, (∃ x ∈ b, ∃ y ∈ b, key x ≠ key y) → K b = contr b) (n : ℕ) (hn : ls.flatten.length ≤ n) :
    (ls.map (normalOrder field contr)).prod = contractionSum K n ls.flatten (normalOrder field contr) := by
  have hodd : ∀ b, b.length % 2 = 1 → K b = 0 := by
    intro b hb
    by_cases hx : ∃ x ∈ b, ∃ y ∈ b, key x ≠ key y
    · rw [hout b hx, h.odd b hb]
    · push Not at hx
      exact hin b hx
  induction ls generalizing n with
  | nil => simp [contractionSum_nil]
  | cons l ls ih =>
    have hk' : Keyed key ls := ⟨fun l' hl' => hk.1 l' (List.mem_cons_of_mem _ hl'), (List.pairwise_cons.mp hk.2).2⟩
    obtain ⟨m, hm⟩ : ∃ m, l.length ≤ m := ⟨_, Nat.le_refl _⟩
    induction m generalizing l n with
    | zero =>
      obtain rfl := List.length_eq_zero_iff.mp (Nat.le_zero.mp hm)
      simpa using ih hk' n (by simpa using hn)
    | succ m ihl =>
      cases l with
      | nil => simpa using ih hk' n (by simpa using hn)
      | cons x l =>
        simp only [List.length_cons, List.flatten_cons, List.cons_append, List.length_append] at hn hm
        obtain ⟨n, rfl⟩ : ∃ n', n = n' + 1 := ⟨n - 1, by omega⟩
        have keyed : ∀ r : List α, r.Sublist l → Keyed key (r :: ls) := by
          intro r hr
          refine ⟨fun l' hl' => ?_, ?_⟩
          · rcases List.mem_cons.mp hl' with rfl | hl'
            · exact fun a ha b hb => hk.1 _ (List.mem_cons_self) a (List.mem_cons_of_mem _ (hr.subset ha)) b
                (List.mem_cons_of_mem _ (hr.subset hb))
            · exact hk.1 l' (List.mem_cons_of_mem _ hl')
          · refine List.pairwise_cons.mpr ⟨fun l' hl' a ha b hb => ?_, (List.pairwise_cons.mp hk.2).2⟩
            exact (List.pairwise_cons.mp hk.2).1 l' hl' a (List.mem_cons_of_mem _ (hr.subset ha)) b hb
        have hx : ∀ y ∈ l, key x = key y := fun y hy => hk.1 _ List.mem_cons_self x List.mem_cons_self y (List.mem_cons_of_mem _ hy)
        have hout' : ∀ y ∈ ls.flatten, key x ≠ key y := by
          intro y hy
          obtain ⟨l', hl', hyl⟩ := List.mem_flatten.mp hy
          exact (List.pairwise_cons.mp hk.2).1 l' hl' x List.mem_cons_self y hyl
        have step : ∀ r : List α, r.Sublist l → normalOrder field contr r * (ls.map (normalOrder field contr)).prod =
            contractionSum K n (r ++ ls.flatten) (normalOrder field contr) := by
          intro r hr
          have := hr.length_le
          have := ihl r (keyed r hr) n (by rw [List.flatten_cons, List.length_append]; omega) (by omega)
          simpa using this
        simp only [List.map_cons, List.prod_cons, List.flatten_cons, List.cons_append]
        rw [contractionSum_cons K, normalOrder_cons, sub_mul, mul_assoc, step l (List.Sublist.refl _)]
        have e1 : field x * contractionSum K n (l ++ ls.flatten) (normalOrder field contr) =
            contractionSum K n (l ++ ls.flatten) (fun r => normalOrder field contr (x :: r)) +
            signedChoices (l ++ ls.flatten) (fun T w' => contr (x :: T) • contractionSum K n w' (normalOrder field contr)) := by
          have := contractionSum_map (LinearMap.mulLeft R (field x)) K n (l ++ ls.flatten) (normalOrder field contr)
          simp only [LinearMap.mulLeft_apply] at this
          rw [this]
          simp only [field_mul_normalOrder, contractionSum_add]
          rw [contractionSum_comm K hodd n _ (by rw [List.length_append]; omega)]
          congr 1
          refine signedChoices_congr _ fun T w' _ _ _ => ?_
          have := contractionSum_map (contr (x :: T) • (LinearMap.id : A →ₗ[R] A)) K n w' (normalOrder field contr)
          simpa using this.symm
        have e2 : signedChoices l (fun S r => contr (x :: S) • normalOrder field contr r) * (ls.map (normalOrder field contr)).prod =
            signedChoices l (fun S r => contr (x :: S) • contractionSum K n (r ++ ls.flatten) (normalOrder field contr)) := by
          have := signedChoices_map (AddMonoidHom.mulRight (ls.map (normalOrder field contr)).prod) l
            fun S r => contr (x :: S) • normalOrder field contr r
          simp only [AddMonoidHom.coe_mulRight] at this
          rw [this]
          refine signedChoices_congr _ fun S r _ hr _ => ?_
          rw [smul_mul_assoc, step r hr]
        have e3 : signedChoices (l ++ ls.flatten) (fun T w' => contr (x :: T) • contractionSum K n w' (normalOrder field contr)) -
            signedChoices (l ++ ls.flatten) (fun T w' => K (x :: T) • contractionSum K n w' (normalOrder field contr)) =
            signedChoices l (fun S r => contr (x :: S) • contractionSum K n (r ++ ls.flatten) (normalOrder field contr)) := by
          rw [← signedChoices_sub, signedChoices_append]
          refine signedChoices_congr _ fun S r hS _ _ => ?_
          refine (signedChoices_nil_part _ _ fun T r' hT hs => ?_).trans ?_
          · obtain ⟨t, T', rfl⟩ := List.exists_cons_of_ne_nil hT
            have ht : key x ≠ key t := hout' t (hs.subset List.mem_cons_self)
            rw [hout (x :: (S ++ t :: T')) ⟨x, by simp, t, by simp, ht⟩, sub_self, smul_zero]
          · rw [hin (x :: (S ++ [])) (by
              intro a ha b hb
              have : ∀ a ∈ x :: (S ++ []), key x = key a := by
                intro a ha
                rcases List.mem_cons.mp ha with rfl | ha
                · rfl
                · exact hx a (hS.subset (by simpa using ha))
              rw [← this a ha, this b hb])]
            simp
        rw [e1, e2, ← e3]
        abel

end

end Dsrg
