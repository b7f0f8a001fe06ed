import Mathlib.Tactic.Linarith
import Verif.Lemmas.WickAlgebra

/-!
The contractions of fermion operators follow the rules under which Wick's theorem holds.
-/

namespace Dsrg

section
variable {α β : Type}

theorem signedChoices_list_map {M : Type} [AddCommGroup M] (g : β → α) (w : List β) (G : List α → List α → M) :
    signedChoices (w.map g) G = signedChoices w fun S r => G (S.map g) (r.map g) := by
  induction w generalizing G with
  | nil => rfl
  | cons a w ih => simp only [List.map_cons, signedChoices, ih, List.length_map]

variable {R A : Type} [CommRing R] [Ring A] [Algebra R A]

theorem normalOrder_map (field : α → A) (contr : List α → R) (g : β → α) (w : List β) :
    normalOrder field contr (w.map g) = normalOrder (fun x => field (g x)) (fun b => contr (b.map g)) w := by
  have key : ∀ n (w : List β), normalOrderUpTo field contr n (w.map g) =
      normalOrderUpTo (fun x => field (g x)) (fun b => contr (b.map g)) n w := by
    intro n
    induction n with
    | zero => intro w; cases w <;> simp [normalOrderUpTo]
    | succ n ih =>
      intro w
      cases w with
      | nil => simp [normalOrderUpTo]
      | cons x w => simp only [List.map_cons, normalOrderUpTo, ih, signedChoices_list_map]
  unfold normalOrder
  rw [key, List.length_map]

theorem ContractionRules.map {field : α → A} {contr : List α → R} (h : ContractionRules field contr) (g : β → α) :
    ContractionRules (fun x => field (g x)) (fun b => contr (b.map g)) where
  odd := fun w hw => h.odd _ (by simpa using hw)
  pair := fun x y => h.pair _ _
  swap := fun p q x y hl => by
    simp only [List.map_append, List.map_cons]
    exact h.swap _ _ _ _ (by simpa using hl)

end

section
variable {O R A : Type} [DecidableEq O] [CommRing R] [Ring A] [Algebra R A]

theorem orbitalsOf_append (b : Bool) (v w : List (Bool × O)) : orbitalsOf b (v ++ w) = orbitalsOf b v ++ orbitalsOf b w := by
  simp [orbitalsOf]

theorem orbitalsOf_cons (b : Bool) (x : Bool × O) (w : List (Bool × O)) :
    orbitalsOf b (x :: w) = (if x.1 = b then [x.2] else []) ++ orbitalsOf b w := by
  simp only [orbitalsOf, List.filterMap_cons]
  split_ifs <;> simp

theorem orbitalsOf_length (w : List (Bool × O)) : (orbitalsOf true w).length + (orbitalsOf false w).length = w.length := by
  induction w with
  | nil => rfl
  | cons x w ih =>
    rw [orbitalsOf_cons, orbitalsOf_cons]
    obtain ⟨b, o⟩ := x
    cases b <;> simp <;> omega

theorem disorder_append (v w : List (Bool × O)) :
    disorder (v ++ w) = disorder v + disorder w + (orbitalsOf false v).length * (orbitalsOf true w).length := by
  induction v with
  | nil => simp [disorder, orbitalsOf]
  | cons x v ih =>
    simp only [List.cons_append, disorder, ih, orbitalsOf_append, orbitalsOf_cons, List.length_append]
    obtain ⟨b, o⟩ := x
    cases b <;> simp <;> ring

theorem Interp.contraction_long {M : Type} (I : Interp O R M) {w : List (Bool × O)} (h : 3 ≤ w.length) :
    I.contraction w = if 4 ≤ w.length ∧ (orbitalsOf true w).length = (orbitalsOf false w).length then
      (-1) ^ disorder w * I.tensor .cumulant ['L'] (orbitalsOf true w) (orbitalsOf false w).reverse
    else 0 := by
  match w, h with
  | a :: b :: c :: w, _ => simp only [Interp.contraction]

theorem contraction_swap {M : Type} [Neg M] {I : Interp O R M} (hI : I.Antisymmetric) (p q : List (Bool × O)) (x y : Bool × O)
    (hl : 3 ≤ (p ++ q).length + 2) : I.contraction (p ++ y :: x :: q) = - I.contraction (p ++ x :: y :: q) := by
  obtain ⟨b, x⟩ := x
  obtain ⟨b', y⟩ := y
  have l1 : (p ++ (b', y) :: (b, x) :: q).length = (p ++ q).length + 2 := by simp; omega
  have l2 : (p ++ (b, x) :: (b', y) :: q).length = (p ++ q).length + 2 := by simp; omega
  rw [I.contraction_long (by omega), I.contraction_long (by omega), l1, l2]
  simp only [orbitalsOf_append, orbitalsOf_cons, disorder_append, disorder]
  cases b <;> cases b'
  · simp only [Bool.false_eq_true, if_false, if_true, List.nil_append, List.reverse_append, List.length_append, List.length_cons,
      List.length_nil, List.append_assoc, List.reverse_cons, List.cons_append, List.reverse_nil]
    have := hI.lower .cumulant ['L'] (orbitalsOf true p ++ orbitalsOf true q) (orbitalsOf false q).reverse y x (orbitalsOf false p).reverse
    simp only [this, mul_neg]
    split_ifs <;> simp
  · simp only [Bool.false_eq_true, if_false, if_true, List.nil_append, List.reverse_append, List.length_append, List.length_cons,
      List.length_nil, List.append_assoc, List.reverse_cons, List.cons_append, List.reverse_nil, Bool.true_eq_false, Nat.zero_add]
    split_ifs
    · ring_nf
    · simp
  · simp only [Bool.false_eq_true, if_false, if_true, List.nil_append, List.reverse_append, List.length_append, List.length_cons,
      List.length_nil, List.append_assoc, List.reverse_cons, List.cons_append, List.reverse_nil, Bool.true_eq_false, Nat.zero_add]
    split_ifs
    · ring_nf
    · simp
  · simp only [Bool.false_eq_true, if_false, if_true, List.nil_append, List.reverse_append, List.length_append, List.length_cons,
      List.length_nil, List.append_assoc, List.reverse_cons, List.cons_append, List.reverse_nil, Bool.true_eq_false, Nat.zero_add]
    have := hI.upper .cumulant ['L'] (orbitalsOf true p) x y (orbitalsOf true q) ((orbitalsOf false q).reverse ++ (orbitalsOf false p).reverse)
    simp only [this, mul_neg]
    split_ifs <;> simp

theorem contraction_rules {field : Bool × O → A} (hf : Fermions field) {M : Type} [Neg M] {I : Interp O R M} (hI : I.Antisymmetric)
    (hole : ∀ a b, I.tensor .hole ['C'] [a] [b] = (if a = b then 1 else 0) - I.tensor .cumulant ['L'] [a] [b]) :
    ContractionRules field I.contraction where
  odd := by
    intro w hw
    match w, hw with
    | [a], _ => simp [Interp.contraction]
    | [a, b], hw => simp at hw
    | a :: b :: c :: w, hw =>
      rw [I.contraction_long (by simp), if_neg]
      rintro ⟨-, h⟩
      have := orbitalsOf_length (a :: b :: c :: w)
      omega
  pair := by
    rintro ⟨b, x⟩ ⟨b', y⟩
    cases b <;> cases b'
    · rw [hf.same]; simp [Interp.contraction]
    · rw [hf.mixed]
      simp only [Interp.contraction, hole]
      rcases eq_or_ne x y with rfl | hne
      · simp
      · simp [hne, hne.symm]
    · rw [add_comm, hf.mixed]
      simp only [Interp.contraction, hole]
      rcases eq_or_ne x y with rfl | hne
      · simp
      · simp [hne, hne.symm]
    · rw [hf.same]; simp [Interp.contraction]
  swap := contraction_swap hI

end

end Dsrg
