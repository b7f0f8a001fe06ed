import Verif.Spec.Order
import Verif.Model.Tensor
import Verif.Lemmas.Index
import Verif.Lemmas.MoSpace
import Mathlib.Tactic.Convert
import Mathlib.Data.Char

/-!
Lexicographic combination of total comparisons.
-/

namespace Dsrg

/-- A strict total comparison with its `<=`. -/
structure TotLt {K : Type} (lt le : K → K → Bool) : Prop where
  irrefl : ∀ x, lt x x = false
  trans : ∀ x y z, lt x y = true → lt y z = true → lt x z = true
  tri : ∀ x y, lt x y = true ∨ x = y ∨ lt y x = true
  le_eq : ∀ x y, le x y = !lt y x

/-- Lexicographic `<` / `<=` on pairs, python style. -/
def lexCmp {A B : Type} [DecidableEq A] (c1 : A → A → Bool) (c2 : B → B → Bool) (x y : A × B) : Bool :=
  if x.1 = y.1 then c2 x.2 y.2 else c1 x.1 y.1

theorem TotLt.lex {A B : Type} [DecidableEq A] {lt1 le1 : A → A → Bool} {lt2 le2 : B → B → Bool}
    (h1 : TotLt lt1 le1) (h2 : TotLt lt2 le2) : TotLt (lexCmp lt1 lt2) (lexCmp le1 le2) where
  irrefl x := by simp [lexCmp, h2.irrefl]
  trans x y z hxy hyz := by
    obtain ⟨a, a'⟩ := x; obtain ⟨b, b'⟩ := y; obtain ⟨c, c'⟩ := z
    simp only [lexCmp] at hxy hyz ⊢
    by_cases hab : a = b
    · subst hab
      by_cases hbc : a = c
      · subst hbc; simp at hxy hyz ⊢; exact h2.trans _ _ _ hxy hyz
      · simp [hbc] at hyz ⊢; exact hyz
    · by_cases hbc : b = c
      · subst hbc; simp [hab] at hxy ⊢; exact hxy
      · simp only [hab, hbc, if_false] at hxy hyz
        have := h1.trans _ _ _ hxy hyz
        have hac : a ≠ c := by rintro rfl; rw [h1.irrefl] at this; simp at this
        simp [hac, this]
  tri x y := by
    obtain ⟨a, a'⟩ := x; obtain ⟨b, b'⟩ := y
    simp only [lexCmp]
    by_cases hab : a = b
    · subst hab; simpa using h2.tri a' b'
    · have hba : b ≠ a := Ne.symm hab
      simp only [hab, hba, if_false, Prod.mk.injEq, false_and, false_or]
      rcases h1.tri a b with h | h | h
      · exact Or.inl h
      · exact absurd h hab
      · exact Or.inr h
  le_eq x y := by
    obtain ⟨a, a'⟩ := x; obtain ⟨b, b'⟩ := y
    simp only [lexCmp]
    by_cases hab : a = b
    · subst hab; simpa using h2.le_eq a' b'
    · have hba : b ≠ a := Ne.symm hab
      simp only [hab, hba, if_false]; exact h1.le_eq a b

theorem totLt_linear {α : Type} [LinearOrder α] : TotLt (fun a b : α => decide (a < b)) (fun a b => decide (a ≤ b)) where
  irrefl := by simp
  trans x y z := by simpa using lt_trans
  tri x y := by simpa using lt_trichotomy x y
  le_eq x y := by by_cases h : y < x <;> simp [h, not_lt.1, not_le.2]

theorem totLt_list {α : Type} [LinearOrder α] (d : DecidableEq α) :
    TotLt (@pyListLt α d (fun a b : α => decide (a < b))) (@pyListLe α d (fun a b => decide (a ≤ b))) := by
  have : d = LinearOrder.toDecidableEq := Subsingleton.elim _ _
  subst this
  exact { irrefl := pyListLt_irrefl, trans := fun _ _ _ => pyListLt_trans, tri := pyListLt_trichotomy,
          le_eq := pyListLe_iff }

theorem index_pyLt_fun : Index.pyLt = fun a b => decide (a < b) := by
  funext a b; rw [Bool.eq_iff_iff, Index.pyLt_iff]; simp
theorem index_pyLe_fun : Index.pyLe = fun a b => decide (a ≤ b) := by
  funext a b; rw [Bool.eq_iff_iff, Index.pyLe_iff]; simp

/-- Sorting key of an index list. -/
def Indices.cmpKey (x : Indices) : Nat × List Index := (x.size, x.list)

theorem indices_totLt : TotLt (lexCmp (fun a b : Nat => decide (a < b)) (pyListLt Index.pyLt))
    (lexCmp (fun a b : Nat => decide (a ≤ b)) (pyListLe Index.pyLe)) := by
  rw [index_pyLt_fun, index_pyLe_fun]
  exact totLt_linear.lex (totLt_list _)

theorem Indices.ltCore_eq (x y : Indices) : x.ltCore y =
    lexCmp (fun a b : Nat => decide (a < b)) (pyListLt Index.pyLt) x.cmpKey y.cmpKey := rfl
theorem Indices.leCore_eq (x y : Indices) : x.leCore y =
    lexCmp (fun a b : Nat => decide (a ≤ b)) (pyListLe Index.pyLe) x.cmpKey y.cmpKey := rfl
theorem Indices.eqCore_eq (x y : Indices) : x.eqCore y = decide (x.list = y.list) := by
  unfold Indices.eqCore Indices.size
  by_cases h : x.list = y.list <;> simp [h]
theorem Indices.cmpKey_eq_iff (x y : Indices) : x.cmpKey = y.cmpKey ↔ x.list = y.list := by
  simp only [Indices.cmpKey, Indices.size, Prod.mk.injEq]
  constructor
  · exact fun h => h.2
  · intro h; simp [h]

/-- Sorting key of a pair. -/
def IndicesPair.cmpKey (x : IndicesPair) : (Nat × List Index) × (Nat × List Index) := (x.upper.cmpKey, x.lower.cmpKey)

theorem IndicesPair.ltCore_eq (x y : IndicesPair) : x.ltCore y =
    lexCmp (lexCmp (fun a b : Nat => decide (a < b)) (pyListLt Index.pyLt))
      (lexCmp (fun a b : Nat => decide (a < b)) (pyListLt Index.pyLt)) x.cmpKey y.cmpKey := by
  unfold IndicesPair.ltCore
  rw [Indices.eqCore_eq, Indices.ltCore_eq, Indices.ltCore_eq]
  by_cases h : x.upper.list = y.upper.list
  · have := (Indices.cmpKey_eq_iff _ _).2 h
    simp [lexCmp, h, this, IndicesPair.cmpKey]
  · have : x.upper.cmpKey ≠ y.upper.cmpKey := fun h' => h ((Indices.cmpKey_eq_iff _ _).1 h')
    rw [if_neg (by simpa using h)]
    conv_rhs => unfold lexCmp
    rw [if_neg (by simpa [IndicesPair.cmpKey] using this)]
    rfl
theorem IndicesPair.leCore_eq (x y : IndicesPair) : x.leCore y =
    lexCmp (lexCmp (fun a b : Nat => decide (a ≤ b)) (pyListLe Index.pyLe))
      (lexCmp (fun a b : Nat => decide (a ≤ b)) (pyListLe Index.pyLe)) x.cmpKey y.cmpKey := by
  unfold IndicesPair.leCore
  rw [Indices.eqCore_eq, Indices.leCore_eq, Indices.leCore_eq]
  by_cases h : x.upper.list = y.upper.list
  · have := (Indices.cmpKey_eq_iff _ _).2 h
    simp [lexCmp, h, this, IndicesPair.cmpKey]
  · have : x.upper.cmpKey ≠ y.upper.cmpKey := fun h' => h ((Indices.cmpKey_eq_iff _ _).1 h')
    rw [if_neg (by simpa using h)]
    conv_rhs => unfold lexCmp
    rw [if_neg (by simpa [IndicesPair.cmpKey] using this)]
    rfl
theorem IndicesPair.cmpKey_eq_iff (x y : IndicesPair) :
    x.cmpKey = y.cmpKey ↔ x.upper.list = y.upper.list ∧ x.lower.list = y.lower.list := by
  simp [IndicesPair.cmpKey, Indices.cmpKey_eq_iff]

theorem pair_totLt : TotLt (lexCmp (lexCmp (fun a b : Nat => decide (a < b)) (pyListLt Index.pyLt)) (lexCmp (fun a b : Nat => decide (a < b)) (pyListLt Index.pyLt)))
    (lexCmp (lexCmp (fun a b : Nat => decide (a ≤ b)) (pyListLe Index.pyLe)) (lexCmp (fun a b : Nat => decide (a ≤ b)) (pyListLe Index.pyLe))) := indices_totLt.lex indices_totLt

theorem str_totLt : TotLt strLt strLe := by
  have e1 : strLt = pyListLt (fun a b : Char => decide (a < b)) := by
    unfold strLt; congr 1
  have e2 : strLe = pyListLe (fun a b : Char => decide (a ≤ b)) := by
    unfold strLe; congr 1
  rw [e1, e2]
  exact totLt_list (α := Char) _

instance pairKeyDecEq : DecidableEq ((Nat × List Index) × (Nat × List Index)) := inferInstance
instance tensorKeyDecEq : DecidableEq (Int × PyStr × Nat × (Nat × List Index) × (Nat × List Index)) := inferInstance

/-- Sorting key of a tensor. -/
def Tensor.cmpKey (t : Tensor) : Int × PyStr × Nat × (Nat × List Index) × (Nat × List Index) :=
  (t.priority, t.name, t.pair.size, t.pair.cmpKey)

theorem tensor_totLt : TotLt (lexCmp (fun a b : Int => decide (a < b)) (lexCmp strLt (lexCmp (fun a b : Nat => decide (a < b))
    (lexCmp (lexCmp (fun a b : Nat => decide (a < b)) (pyListLt Index.pyLt)) (lexCmp (fun a b : Nat => decide (a < b)) (pyListLt Index.pyLt))))))
    (lexCmp (fun a b : Int => decide (a ≤ b)) (lexCmp strLe (lexCmp (fun a b : Nat => decide (a ≤ b))
    (lexCmp (lexCmp (fun a b : Nat => decide (a ≤ b)) (pyListLe Index.pyLe)) (lexCmp (fun a b : Nat => decide (a ≤ b)) (pyListLe Index.pyLe)))))) := (totLt_linear (α := Int)).lex (str_totLt.lex ((totLt_linear (α := Nat)).lex pair_totLt))

theorem Tensor.ltCore_eq (x y : Tensor) : x.ltCore y =
    lexCmp (fun a b : Int => decide (a < b)) (lexCmp strLt (lexCmp (fun a b : Nat => decide (a < b))
      (lexCmp (lexCmp (fun a b : Nat => decide (a < b)) (pyListLt Index.pyLt))
      (lexCmp (fun a b : Nat => decide (a < b)) (pyListLt Index.pyLt))))) x.cmpKey y.cmpKey := by
  have : x.ltCore y = if x.priority = y.priority then if x.name = y.name then
      if x.pair.size = y.pair.size then x.pair.ltCore y.pair else decide (x.pair.size < y.pair.size)
      else strLt x.name y.name else decide (x.priority < y.priority) := rfl
  rw [this, IndicesPair.ltCore_eq]
  rfl
theorem Tensor.leCore_eq (x y : Tensor) : x.leCore y =
    lexCmp (fun a b : Int => decide (a ≤ b)) (lexCmp strLe (lexCmp (fun a b : Nat => decide (a ≤ b))
      (lexCmp (lexCmp (fun a b : Nat => decide (a ≤ b)) (pyListLe Index.pyLe))
      (lexCmp (fun a b : Nat => decide (a ≤ b)) (pyListLe Index.pyLe))))) x.cmpKey y.cmpKey := by
  have : x.leCore y = if x.priority = y.priority then if x.name = y.name then
      if x.pair.size = y.pair.size then x.pair.leCore y.pair else decide (x.pair.size ≤ y.pair.size)
      else strLe x.name y.name else decide (x.priority ≤ y.priority) := rfl
  rw [this, IndicesPair.leCore_eq]
  rfl
theorem Tensor.cmpKey_eq_iff (x y : Tensor) : x.cmpKey = y.cmpKey ↔
    x.priority = y.priority ∧ x.name = y.name ∧ x.upper.list = y.upper.list ∧ x.lower.list = y.lower.list := by
  simp only [Tensor.cmpKey, Prod.mk.injEq, IndicesPair.cmpKey_eq_iff]
  constructor
  · rintro ⟨a, b, -, c, d⟩; exact ⟨a, b, c, d⟩
  · rintro ⟨a, b, c, d⟩
    refine ⟨a, b, ?_, c, d⟩
    simp [IndicesPair.size, IndicesPair.nUpper, IndicesPair.nLower, Indices.size, c, d]
theorem Tensor.eqCore_eq (x y : Tensor) : x.eqCore y = decide (x.cmpKey = y.cmpKey) := by
  rw [Bool.eq_iff_iff, decide_eq_true_iff, Tensor.cmpKey_eq_iff]
  unfold Tensor.eqCore
  rw [Indices.eqCore_eq, Indices.eqCore_eq]
  simp only [Bool.and_eq_true, beq_iff_eq, decide_eq_true_eq]
  constructor
  · rintro ⟨⟨⟨⟨a, b⟩, -⟩, c⟩, d⟩; exact ⟨a, b, c, d⟩
  · rintro ⟨a, b, c, d⟩
    refine ⟨⟨⟨⟨a, b⟩, ?_⟩, c⟩, d⟩
    simp [IndicesPair.size, IndicesPair.nUpper, IndicesPair.nLower, Indices.size, c, d]
theorem IndicesPair.eqCore_eq (x y : IndicesPair) : x.eqCore y = decide (x.cmpKey = y.cmpKey) := by
  rw [Bool.eq_iff_iff, decide_eq_true_iff, IndicesPair.cmpKey_eq_iff]
  unfold IndicesPair.eqCore
  rw [Indices.eqCore_eq, Indices.eqCore_eq]
  simp

/-- From a total comparison of keys to the six python methods. -/
theorem pyTotalOrder_of_key {α K : Type} [DecidableEq K] {comparable : α → α → Prop}
    {eq ne lt le gt ge : α → α → Except PyErr Bool} {klt kle : K → K → Bool} (h : TotLt klt kle) (key : α → K)
    (hsymm : ∀ x y, comparable x y → comparable y x) (htrans : ∀ x y z, comparable x y → comparable y z → comparable x z)
    (he : ∀ x y, comparable x y → eq x y = .ok (decide (key x = key y)))
    (hn : ∀ x y, comparable x y → ne x y = .ok (!decide (key x = key y)))
    (hl : ∀ x y, comparable x y → lt x y = .ok (klt (key x) (key y)))
    (hle : ∀ x y, comparable x y → le x y = .ok (kle (key x) (key y)))
    (hg : ∀ x y, comparable x y → gt x y = .ok (klt (key y) (key x)))
    (hge : ∀ x y, comparable x y → ge x y = .ok (kle (key y) (key x)))
    (herr : ∀ x y, ¬ comparable x y → eq x y = .error .typeError ∧ ne x y = .error .typeError ∧
      lt x y = .error .typeError ∧ le x y = .error .typeError ∧ gt x y = .error .typeError ∧
      ge x y = .error .typeError) :
    PyTotalOrder comparable (fun x y => key x = key y) eq ne lt le gt ge where
  eq_spec x y hc := by
    rw [he x y hc, hn x y hc]
    by_cases hk : key x = key y <;> simp [hk]
  trichotomy x y hc := by
    rw [he x y hc, hl x y hc, hg x y hc]
    by_cases hk : key x = key y
    · simp [hk, h.irrefl]
    · rcases h.tri (key x) (key y) with h' | h' | h'
      · have : klt (key y) (key x) = false := by
          by_contra hh
          rw [Bool.not_eq_false] at hh
          have := h.trans _ _ _ h' hh
          rw [h.irrefl] at this; simp at this
        simp [hk, h', this]
      · exact absurd h' hk
      · have : klt (key x) (key y) = false := by
          by_contra hh
          rw [Bool.not_eq_false] at hh
          have := h.trans _ _ _ h' hh
          rw [h.irrefl] at this; simp at this
        simp [hk, h', this]
  gt_spec x y hc := by rw [hg x y hc, hl y x (hsymm _ _ hc)]
  trans x y z hxy hyz := by
    rw [hl x y hxy, hl y z hyz, hl x z (htrans _ _ _ hxy hyz)]
    simpa using h.trans _ _ _
  le_spec x y hc := ⟨_, hg x y hc, by rw [hle x y hc, h.le_eq]⟩
  ge_spec x y hc := ⟨_, hl x y hc, by rw [hge x y hc, h.le_eq]⟩
  error_spec := herr

end Dsrg
