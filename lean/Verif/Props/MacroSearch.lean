import Verif.Lemmas.MacroSearch
import Mathlib.Data.Finset.Card
import Mathlib.Order.Interval.Finset.Nat

/-!
C30, C31: the search over categories of contractions.

A category is the list of the operator numbers of its creation operators followed by those of its annihilation operators.
-/

namespace Dsrg

/-- The categories connect the operators `0 .. n - 1`: however the operators are divided in two groups, some category
involves operators of both groups. -/
def Connects (n : Nat) (l : List (List Nat)) : Prop :=
  ∀ S : Finset Nat, (∃ k < n, k ∈ S) → (∃ k < n, k ∉ S) → ∃ c ∈ l, (∃ k ∈ c, k ∈ S) ∧ ∃ k ∈ c, k ∉ S

/-- How many creation (annihilation) operators of operator `k` the categories use. -/
def creUsed (l : List (List Nat)) (k : Nat) : Nat := (l.flatMap fun c => c.take (c.length / 2)).count k
/-- See `creUsed`. -/
def annUsed (l : List (List Nat)) (k : Nat) : Nat := (l.flatMap fun c => c.drop (c.length / 2)).count k

/-- The multisets of categories the connected search is meant to produce.  `cre` and `ann` hold the numbers of creation
and annihilation operators of each operator. -/
structure ConnectedChoice (lo hi : Int) (available : List (List Nat)) (cre ann : List Nat) (l : List (List Nat)) : Prop where
  available : ∀ c ∈ l, c ∈ available
  touches : ∀ k < cre.length, ∃ c ∈ l, k ∈ c
  connects : Connects cre.length l
  pair : ∃ c ∈ l, c.length = 2
  creOk : ∀ k, creUsed l k ≤ cre.getD k 0
  annOk : ∀ k, annUsed l k ≤ ann.getD k 0
  window : lo ≤ ((l.map List.length).sum : Nat) ∧ (((l.map List.length).sum : Nat) : Int) ≤ hi

/-- The category list makes sense: every category has equally many creation and annihilation operators, at least one of
each, and involves operators `0 .. n - 1` only. -/
def ValidCategories (n : Nat) (available : List (List Nat)) : Prop :=
  ∀ c ∈ available, 2 ∣ c.length ∧ c ≠ [] ∧ ∀ k ∈ c, k < n

theorem ValidCategories.even {n : Nat} {available : List (List Nat)} (h : ValidCategories n available) :
    ∀ c ∈ available, 2 * (c.length / 2) = c.length ∧ 2 ≤ c.length := by
  intro c hc
  obtain ⟨h1, h2, _⟩ := h c hc
  have := List.length_pos_iff.2 h2
  omega

theorem connSeq_subset (S : Finset Nat) (l : List (List Nat)) (hno : ∀ c ∈ l, (∃ k ∈ c, k ∈ S) → ∀ k ∈ c, k ∈ S) :
    ∀ (ops : Finset Nat) (n : Nat), n ≠ 0 → ops ⊆ S → ConnSeq ops n l → ∀ c ∈ l, ∀ k ∈ c, k ∈ S := by
  induction l with
  | nil => intro _ _ _ _ _ c hc; simp at hc
  | cons a l ih =>
    intro ops n hn hops hconn
    obtain ⟨h1, h2⟩ := hconn
    have ha : ∀ k ∈ a, k ∈ S := by
      rcases h1 with ⟨k, hk, hko⟩ | h0
      · exact hno a (by simp) ⟨k, hk, hops hko⟩
      · exact absurd h0 hn
    intro c hc
    rcases List.mem_cons.1 hc with rfl | hc
    · exact ha
    · refine ih (fun c hc => hno c (List.mem_cons_of_mem _ hc)) _ _ (by omega) ?_ h2 c hc
      intro k hk
      rw [Finset.mem_union, List.mem_toFinset] at hk
      rcases hk with hk | hk
      · exact hops hk
      · exact ha k hk

/-- C30: everything the search yields is a connected choice, and no multiset of categories is yielded twice. -/
theorem C30_sound (lo hi : Int) (available : List (List Nat)) (cre ann : List Nat) (hn : available.Nodup)
    (hv : ValidCategories cre.length available) (hops : cre ≠ []) :
    (∀ l ∈ macroSearch lo hi available cre ann, ConnectedChoice lo hi available cre ann l) ∧
    (macroSearch lo hi available cre ann).Pairwise (fun l l' => ¬ l.Perm l') := by
  have heven := hv.even
  have heven' : ∀ c ∈ available.reverse, 2 * (c.length / 2) = c.length := fun c hc => (heven c (List.mem_reverse.1 hc)).1
  constructor
  · intro l hl
    obtain ⟨X, hlX, hX⟩ := macroAux_sound lo hi _ _ _ _ _ _ _ _ _ heven' hl
    rw [List.nil_append] at hlX
    have hlX' := hlX.symm
    subst hlX'
    have hav : ∀ c ∈ X, c ∈ available := fun c hc => List.mem_reverse.1 (hX.msub.subset c hc)
    have hsub : X.flatten.toFinset ⊆ Finset.range cre.length := by
      intro k hk
      rw [List.mem_toFinset, List.mem_flatten] at hk
      obtain ⟨c, hc, hkc⟩ := hk
      exact Finset.mem_range.2 ((hv c (hav c hc)).2.2 k hkc)
    have hcov : X.flatten.toFinset = Finset.range cre.length := by
      apply Finset.eq_of_subset_of_card_le hsub
      have := hX.cover
      rw [Finset.empty_union] at this
      rw [this, Finset.card_range]
    have htouch : ∀ k < cre.length, ∃ c ∈ X, k ∈ c := by
      intro k hk
      have : k ∈ X.flatten.toFinset := by rw [hcov]; exact Finset.mem_range.2 hk
      rw [List.mem_toFinset, List.mem_flatten] at this
      exact this
    obtain ⟨a, Y, rfl⟩ : ∃ a Y, X = a :: Y := by
      cases X with
      | nil =>
        obtain ⟨c, hc, _⟩ := htouch 0 (List.length_pos_iff.2 hops)
        simp at hc
      | cons a Y => exact ⟨a, Y, rfl⟩
    have hsum : (((a :: Y).map List.length).sum : Nat) = (a :: Y).flatten.length := by rw [List.length_flatten]
    refine ⟨hav, htouch, ?_, ⟨a, by simp, hX.first rfl a rfl⟩, hX.bcre, hX.bann, ?_, ?_⟩
    · -- connected
      intro S hS hS'
      by_contra hcon
      have hno : ∀ c ∈ a :: Y, (∃ k ∈ c, k ∈ S) → ∀ k ∈ c, k ∈ S := by
        intro c hc hk k hk'
        by_contra hkS
        exact hcon ⟨c, hc, hk, k, hk', hkS⟩
      have hane := (hv a (hav a (by simp))).2.1
      have ha2 := (heven a (hav a (by simp))).2
      obtain ⟨_, hconn⟩ := hX.conn
      by_cases hak : ∃ k ∈ a, k ∈ S
      · -- everything is in S
        have haS := hno a (by simp) hak
        have hYS := connSeq_subset S Y (fun c hc => hno c (List.mem_cons_of_mem _ hc)) _ _ (by omega) (by
          intro k hk; simp at hk; exact haS k hk) hconn
        obtain ⟨k, hk, hkS⟩ := hS'
        obtain ⟨c, hc, hkc⟩ := htouch k hk
        rcases List.mem_cons.1 hc with rfl | hc
        · exact hkS (haS k hkc)
        · exact hkS (hYS c hc k hkc)
      · -- everything is outside S
        let T := Finset.range cre.length \ S
        have hT : ∀ c ∈ a :: Y, ∀ k ∈ c, (k ∈ T ↔ k ∉ S) := by
          intro c hc k hk
          have := (hv c (hav c hc)).2.2 k hk
          simp [T, this]
        have hnoT : ∀ c ∈ a :: Y, (∃ k ∈ c, k ∈ T) → ∀ k ∈ c, k ∈ T := by
          intro c hc hk k hk'
          obtain ⟨k1, hk1, hk1T⟩ := hk
          rw [hT c hc k hk']
          intro hkS
          exact (hT c hc k1 hk1).1 hk1T (hno c hc ⟨k, hk', hkS⟩ k1 hk1)
        have haT : ∀ k ∈ a, k ∈ T := by
          intro k hk
          rw [hT a (by simp) k hk]
          intro hkS
          exact hak ⟨k, hk, hkS⟩
        have hYT := connSeq_subset T Y (fun c hc => hnoT c (List.mem_cons_of_mem _ hc)) _ _ (by omega) (by
          intro k hk; simp at hk; exact haT k hk) hconn
        obtain ⟨k, hk, hkS⟩ := hS
        obtain ⟨c, hc, hkc⟩ := htouch k hk
        rcases List.mem_cons.1 hc with rfl | hc
        · exact (hT c (by simp) k hkc).1 (haT k hkc) hkS
        · exact (hT c (by simp [hc]) k hkc).1 (hYT c hc k hkc) hkS
    · have := hX.lo_le; rw [hsum]; simpa using this
    · have := hX.le_hi; rw [hsum]; simpa using this
  · have hnd := macroAux_nodup lo hi (macroFuel available cre ann) available.reverse [] 0 cre ann ∅ true heven'
      (List.nodup_reverse.2 hn)
    refine List.Pairwise.imp_of_mem ?_ hnd
    intro l l' hl hl' hne hp
    obtain ⟨X, rfl, hX⟩ := macroAux_sound lo hi _ _ _ _ _ _ _ _ _ heven' hl
    obtain ⟨X', rfl, hX'⟩ := macroAux_sound lo hi _ _ _ _ _ _ _ _ _ heven' hl'
    exact hne (MSub.eq_of_perm (List.nodup_reverse.2 hn) hX.msub hX'.msub hp)

/-- C30: the search terminates, the fuel of the model does not cut anything off. -/
theorem C30_fuel (lo hi : Int) (available : List (List Nat)) (cre ann : List Nat) (hv : ValidCategories cre.length available)
    (fuel : Nat) (hf : macroFuel available cre ann ≤ fuel) :
    macroAux lo hi fuel available.reverse [] 0 cre ann ∅ true = macroSearch lo hi available cre ann := by
  apply macroAux_fuel
  · intro c hc; exact (hv.even c (List.mem_reverse.1 hc)).2
  · unfold macroFuel; rw [List.length_reverse]; omega
  · exact hf

/-- Three two-body operators with all pair categories and some two-body cumulants. -/
def exCategories : List (List Nat) :=
  [[0, 1, 0, 2], [1, 1, 0, 2], [0, 0, 1, 2], [2, 1], [2, 0], [1, 2], [1, 0], [0, 2], [0, 1]]

example : exCategories.Nodup ∧ ValidCategories 3 exCategories ∧ [[0, 1], [0, 1, 0, 2]] ∈ macroSearch 2 6 exCategories [2, 2, 2] [2, 2, 2] ∧
    [[0, 1], [0, 1]] ∉ macroSearch 2 6 exCategories [2, 2, 2] [2, 2, 2] := by
  refine ⟨by decide, ?_, by decide +kernel, by decide +kernel⟩
  intro c hc
  simp only [exCategories, List.mem_cons, List.not_mem_nil, or_false] at hc
  rcases hc with rfl | rfl | rfl | rfl | rfl | rfl | rfl | rfl | rfl <;> decide

/-! ### C31 -/

/-- The pair categories stand at the end of the list, as the caller arranges (sqop_contraction.py:451-452). -/
def ShortestLast (available : List (List Nat)) : Prop := available.Pairwise fun a b => b.length ≤ a.length

theorem macroSearch_complete (lo hi : Int) (available : List (List Nat)) (cre ann : List Nat) (hn : available.Nodup)
    (hv : ValidCategories cre.length available) (hs : ShortestLast available) (M : List (List Nat))
    (hM : ConnectedChoice lo hi available cre ann M)
    (hconn : ∀ X : List (List Nat), X.Perm M → (∀ a, X.head? = some a → a.length = 2) → ConnSeq ∅ 0 X) :
    ∃ l ∈ macroSearch lo hi available cre ann, l.Perm M := by
  have hn' : available.reverse.Nodup := List.nodup_reverse.2 hn
  have hs' : available.reverse.Pairwise fun a b => a.length ≤ b.length := by
    rw [List.pairwise_reverse]; exact hs
  set X := available.reverse.flatMap fun a => List.replicate (M.count a) a with hXdef
  have hperm : X.Perm M := perm_replicate hn' fun c hc => List.mem_reverse.2 (hM.available c hc)
  have hmsub : MSub X available.reverse := msub_replicate _ _
  have hfirst : ∀ a, X.head? = some a → a.length = 2 := by
    intro a ha
    have haX : a ∈ X := List.mem_of_mem_head? ha
    have ha2 := (hv.even a (hM.available a (hperm.subset haX))).2
    obtain ⟨p, hp, hp2⟩ := hM.pair
    have hpX : p ∈ X := hperm.symm.subset hp
    -- the lengths increase along X
    have hsorted : X.Pairwise fun a b => a.length ≤ b.length := by
      have : ∀ {Y rev : List (List Nat)}, MSub Y rev → rev.Pairwise (fun a b : List Nat => a.length ≤ b.length) →
          Y.Pairwise fun a b : List Nat => a.length ≤ b.length := by
        intro Y rev h
        induction h with
        | nil => intro _; exact List.Pairwise.nil
        | @take a X rev h ih =>
          intro hr
          refine List.pairwise_cons.2 ⟨?_, ih hr⟩
          intro b hb
          rcases List.mem_cons.1 (h.subset b hb) with rfl | hb'
          · exact le_rfl
          · exact (List.pairwise_cons.1 hr).1 b hb'
        | skip h ih => intro hr; exact ih (List.pairwise_cons.1 hr).2
      exact this hmsub hs'
    cases hX : X with
    | nil => rw [hX] at haX; simp at haX
    | cons b Y =>
      rw [hX] at ha hsorted hpX
      simp at ha; subst ha
      rcases List.mem_cons.1 hpX with rfl | hpY
      · exact hp2
      · have := (List.pairwise_cons.1 hsorted).1 p hpY; omega
  have hlen : X.flatten.length = (M.map List.length).sum := by
    rw [List.length_flatten]; exact (hperm.map _).sum_eq
  refine ⟨X, ?_, hperm⟩
  have := macroAux_complete lo hi (macroFuel available cre ann) available.reverse [] 0 cre ann ∅ true X
    (fun c hc => hv.even c (List.mem_reverse.1 hc)) hs' (by simp) (by unfold macroFuel; rw [List.length_reverse]; omega)
    ⟨hmsub, hconn X hperm hfirst, fun _ => hfirst, ?_, ?_, ?_, ?_, ?_⟩
  · simpa [macroSearch] using this
  · intro k
    have := hM.creOk k
    unfold creUsed at this
    rw [(hperm.flatMap_right (fun c => catCre c)).count_eq]; exact this
  · intro k
    have := hM.annOk k
    unfold annUsed at this
    rw [(hperm.flatMap_right (fun c => catAnn c)).count_eq]; exact this
  · rw [Finset.empty_union]
    have : X.flatten.toFinset = Finset.range cre.length := by
      ext k
      rw [List.mem_toFinset, List.mem_flatten, Finset.mem_range]
      constructor
      · rintro ⟨c, hc, hk⟩
        exact (hv c (hM.available c (hperm.subset hc))).2.2 k hk
      · intro hk
        obtain ⟨c, hc, hkc⟩ := hM.touches k hk
        exact ⟨c, hperm.symm.subset hc, hkc⟩
    rw [this, Finset.card_range]
  · have := hM.window.1; rw [hlen]; simpa using this
  · have := hM.window.2; rw [hlen]; simpa using this

theorem connSeq_of_meets (X : List (List Nat)) : ∀ (ops : Finset Nat) (n : Nat), (∀ c ∈ X, ∃ k ∈ c, k ∈ ops) → ConnSeq ops n X := by
  induction X with
  | nil => intros; trivial
  | cons a X ih =>
    intro ops n h
    refine ⟨.inl (h a (by simp)), ih _ _ ?_⟩
    intro c hc
    obtain ⟨k, hk, hko⟩ := h c (List.mem_cons_of_mem _ hc)
    exact ⟨k, hk, Finset.mem_union_left _ hko⟩

/-- C31 (part): for at most three operators the search finds every connected choice, provided every category involves at
least two operators (as all contractions do).  Missing: four and more operators, for which the claim is false
(`C31_violation_four_operators`). -/
theorem C31_complete_three_operators_partial (lo hi : Int) (available : List (List Nat)) (cre ann : List Nat)
    (hn : available.Nodup) (hv : ValidCategories cre.length available) (hs : ShortestLast available)
    (htwo : ∀ c ∈ available, ∃ k ∈ c, ∃ k' ∈ c, k ≠ k') (h3 : cre.length ≤ 3) (M : List (List Nat))
    (hM : ConnectedChoice lo hi available cre ann M) : ∃ l ∈ macroSearch lo hi available cre ann, l.Perm M := by
  apply macroSearch_complete lo hi available cre ann hn hv hs M hM
  intro X hp hfirst
  cases X with
  | nil => trivial
  | cons a Y =>
    refine ⟨.inr rfl, ?_⟩
    apply connSeq_of_meets
    intro c hc
    rw [Finset.empty_union]
    by_contra hcon
    have hmem : ∀ d, d ∈ a :: Y → d ∈ available := fun d hd => hM.available d (hp.subset hd)
    have hcard : ∀ d, d ∈ available → 2 ≤ d.toFinset.card := by
      intro d hd
      obtain ⟨k, hk, k', hk', hne⟩ := htwo d hd
      exact Finset.one_lt_card.2 ⟨k, List.mem_toFinset.2 hk, k', List.mem_toFinset.2 hk', hne⟩
    have hdis : Disjoint c.toFinset a.toFinset := by
      rw [Finset.disjoint_left]
      intro k hk hk'
      exact hcon ⟨k, List.mem_toFinset.1 hk, hk'⟩
    have hle : (c.toFinset ∪ a.toFinset).card ≤ 3 := by
      refine le_trans (Finset.card_le_card (t := Finset.range cre.length) ?_) (by simpa using h3)
      intro k hk
      rw [Finset.mem_union, List.mem_toFinset, List.mem_toFinset] at hk
      rw [Finset.mem_range]
      rcases hk with hk | hk
      · exact (hv c (hmem c (by simp [hc]))).2.2 k hk
      · exact (hv a (hmem a (by simp))).2.2 k hk
    rw [Finset.card_union_of_disjoint hdis] at hle
    have h1 := hcard c (hmem c (by simp [hc]))
    have h2 := hcard a (hmem a (by simp))
    omega

/-- C31 (part): for any number of operators the search finds every connected choice if all available categories involve
one common operator (as in coupled-cluster commutators, where only the Hamiltonian can be contracted with the amplitudes). -/
theorem C31_complete_common_operator_partial (lo hi : Int) (available : List (List Nat)) (cre ann : List Nat)
    (hn : available.Nodup) (hv : ValidCategories cre.length available) (hs : ShortestLast available)
    (h : Nat) (hcommon : ∀ c ∈ available, h ∈ c) (M : List (List Nat)) (hM : ConnectedChoice lo hi available cre ann M) :
    ∃ l ∈ macroSearch lo hi available cre ann, l.Perm M := by
  apply macroSearch_complete lo hi available cre ann hn hv hs M hM
  intro X hp hfirst
  have hmem : ∀ d ∈ X, h ∈ d := fun d hd => hcommon d (hM.available d (hp.subset hd))
  cases X with
  | nil => trivial
  | cons a Y =>
    refine ⟨.inr rfl, ?_⟩
    apply connSeq_of_meets
    intro c hc
    exact ⟨h, hmem c (by simp [hc]), by simp [hmem a]⟩

/-- The order of the categories used by the package: pairs last, no category lost. -/
theorem C31_sequence (keys : List (List Nat)) : (sortCategories keys).Perm keys ∧ ShortestLast (sortCategories keys) := by
  refine ⟨List.perm_insertionSort _ _, ?_⟩
  unfold sortCategories ShortestLast
  let r : List Nat → List Nat → Prop := fun x y =>
    (decide (y.length < x.length) || (decide (x.length = y.length) && ! pyListLt (fun a b => decide (a < b)) x y)) = true
  -- sortedness with respect to the length only
  have key : ∀ (a : List Nat) (l : List (List Nat)), l.Pairwise (fun a b : List Nat => b.length ≤ a.length) →
      (l.orderedInsert r a).Pairwise fun a b : List Nat => b.length ≤ a.length := by
    intro a l hl
    induction l with
    | nil => simp
    | cons b l ih =>
      rw [List.orderedInsert]
      have hb := List.pairwise_cons.1 hl
      split
      · rename_i hr
        have hab : b.length ≤ a.length := by
          simp only [r, Bool.or_eq_true, decide_eq_true_eq, Bool.and_eq_true] at hr
          omega
        refine List.pairwise_cons.2 ⟨?_, hl⟩
        intro c hc
        rcases List.mem_cons.1 hc with rfl | hc
        · exact hab
        · exact le_trans (hb.1 c hc) hab
      · rename_i hr
        have hab : a.length ≤ b.length := by
          by_contra hcon
          apply hr
          simp only [r, Bool.or_eq_true, decide_eq_true_eq]
          left; omega
        refine List.pairwise_cons.2 ⟨?_, ih hb.2⟩
        intro c hc
        rcases (List.mem_orderedInsert r).1 hc with rfl | hc
        · exact hab
        · exact hb.1 c hc
  induction keys with
  | nil => simp
  | cons a keys ih => exact key a _ ih

/-- All pair categories of four operators, in the order used by the package. -/
def pairCategories4 : List (List Nat) :=
  sortCategories [[0, 1], [1, 0], [0, 2], [2, 0], [0, 3], [3, 0], [1, 2], [2, 1], [1, 3], [3, 1], [2, 3], [3, 2]]

/-- C31 is violated from four operators on: for four one-body operators the connected choice (0,1), (2,3), (3,0) is never
produced. -/
theorem C31_violation_four_operators :
    ∃ M, ConnectedChoice 0 8 pairCategories4 [1, 1, 1, 1] [1, 1, 1, 1] M ∧
      ∀ l ∈ macroSearch 0 8 pairCategories4 [1, 1, 1, 1] [1, 1, 1, 1], ¬ l.Perm M := by
  refine ⟨[[0, 1], [2, 3], [3, 0]], ⟨by decide +kernel, by decide, ?_, by decide, ?_, ?_, by decide⟩, by decide +kernel⟩
  · intro S hS hS'
    by_contra hcon
    have h1 : ∀ a b, [a, b] ∈ [[0, 1], [2, 3], [3, 0]] → (a ∈ S ↔ b ∈ S) := by
      intro a b hab
      constructor
      · intro ha
        by_contra hb
        exact hcon ⟨[a, b], hab, ⟨a, by simp, ha⟩, b, by simp, hb⟩
      · intro hb
        by_contra ha
        exact hcon ⟨[a, b], hab, ⟨b, by simp, hb⟩, a, by simp, ha⟩
    have e1 := h1 0 1 (by simp)
    have e2 := h1 2 3 (by simp)
    have e3 := h1 3 0 (by simp)
    obtain ⟨k, hk, hkS⟩ := hS
    obtain ⟨k', hk', hkS'⟩ := hS'
    have hk4 : k = 0 ∨ k = 1 ∨ k = 2 ∨ k = 3 := by simp at hk; omega
    have hk4' : k' = 0 ∨ k' = 1 ∨ k' = 2 ∨ k' = 3 := by simp at hk'; omega
    rcases hk4 with rfl | rfl | rfl | rfl <;> rcases hk4' with rfl | rfl | rfl | rfl <;> tauto
  · intro k
    rcases Nat.lt_or_ge k 4 with hk | hk
    · have hk4 : k = 0 ∨ k = 1 ∨ k = 2 ∨ k = 3 := by omega
      rcases hk4 with rfl | rfl | rfl | rfl <;> decide
    · unfold creUsed
      rw [List.count_eq_zero_of_not_mem]
      · omega
      · simp; omega
  · intro k
    rcases Nat.lt_or_ge k 4 with hk | hk
    · have hk4 : k = 0 ∨ k = 1 ∨ k = 2 ∨ k = 3 := by omega
      rcases hk4 with rfl | rfl | rfl | rfl <;> decide
    · unfold annUsed
      rw [List.count_eq_zero_of_not_mem]
      · omega
      · simp; omega

/-- The hypotheses of the completeness theorem hold for the three operators above. -/
example : ShortestLast exCategories ∧ (∀ c ∈ exCategories, ∃ k ∈ c, ∃ k' ∈ c, k ≠ k') := by
  constructor
  · unfold ShortestLast; decide
  · decide

end Dsrg
