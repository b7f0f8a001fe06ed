import Verif.Model.MoSpace
import Mathlib.Order.Lattice
import Mathlib.Algebra.Order.Group.Int
import Mathlib.Data.Finset.Powerset

/-! Lemmas about labels as sets and about cost counters. -/

namespace Dsrg

theorem relation_inter (s t : Space) : s.relation ∩ t.relation = ∅ ∨ ∃ r : Space, s.relation ∩ t.relation = r.relation := by
  revert s t; decide +kernel

theorem findSpaceLabel_relation (s first : Space) (h : first ∈ s.relation) :
    findSpaceLabel s.relation first = .ok (some s) := by
  revert s first; decide +kernel

theorem relation_nonempty (s : Space) : s.relation.Nonempty := by revert s; decide

theorem foldl_inter (L : List Space) (s : Space) :
    (L.foldl (fun acc t => acc ∩ t.relation) s.relation) = ∅ ∨
      ∃ r : Space, (L.foldl (fun acc t => acc ∩ t.relation) s.relation) = r.relation := by
  induction L generalizing s with
  | nil => exact Or.inr ⟨s, rfl⟩
  | cons t L ih =>
    simp only [List.foldl_cons]
    rcases relation_inter s t with h | ⟨r, h⟩
    · left
      rw [h]
      clear ih h
      induction L with
      | nil => rfl
      | cons u L ih => simpa using ih
    · rw [h]; exact ih r

section lex
variable {α : Type} [LinearOrder α]

theorem pyListLt_irrefl (l : List α) : pyListLt (fun a b => decide (a < b)) l l = false := by
  induction l with
  | nil => rfl
  | cons a l ih => simpa [pyListLt] using ih

theorem pyListLt_trans {x y z : List α} (h1 : pyListLt (fun a b => decide (a < b)) x y = true)
    (h2 : pyListLt (fun a b => decide (a < b)) y z = true) : pyListLt (fun a b => decide (a < b)) x z = true := by
  induction x generalizing y z with
  | nil =>
    cases y with
    | nil => simp [pyListLt] at h1
    | cons b y => cases z <;> simp_all [pyListLt]
  | cons a x ih =>
    cases y with
    | nil => simp [pyListLt] at h1
    | cons b y =>
      cases z with
      | nil => simp [pyListLt] at h2
      | cons c z =>
        simp only [pyListLt] at h1 h2 ⊢
        by_cases hab : a = b
        · subst hab
          by_cases hbc : a = c
          · subst hbc; simp at h1 h2 ⊢; exact ih h1 h2
          · simp [hbc] at h2 ⊢; exact h2
        · by_cases hbc : b = c
          · subst hbc; simp [hab] at h1 ⊢; exact h1
          · simp [hab] at h1; simp [hbc] at h2
            have hac : a ≠ c := (h1.trans h2).ne
            simp [hac]; exact h1.trans h2

theorem pyListLt_trichotomy (x y : List α) :
    pyListLt (fun a b => decide (a < b)) x y = true ∨ x = y ∨ pyListLt (fun a b => decide (a < b)) y x = true := by
  induction x generalizing y with
  | nil => cases y <;> simp [pyListLt]
  | cons a x ih =>
    cases y with
    | nil => simp [pyListLt]
    | cons b y =>
      simp only [pyListLt]
      by_cases hab : a = b
      · subst hab; simpa using ih y
      · have hba : b ≠ a := Ne.symm hab
        simp only [hab, hba, if_false, decide_eq_true_eq]
        rcases lt_or_gt_of_ne hab with h | h
        · exact Or.inl h
        · exact Or.inr (Or.inr h)

theorem pyListLe_iff (x y : List α) :
    pyListLe (fun a b => decide (a ≤ b)) x y = !pyListLt (fun a b => decide (a < b)) y x := by
  induction x generalizing y with
  | nil => cases y <;> rfl
  | cons a x ih =>
    cases y with
    | nil => rfl
    | cons b y =>
      simp only [pyListLt, pyListLe]
      by_cases hab : a = b
      · subst hab; simpa using ih y
      · have hba : b ≠ a := Ne.symm hab
        simp only [hab, hba, if_false]
        by_cases h : b < a
        · simp [h]
        · simp [h, not_lt.1 h]

end lex

theorem mosParse_sum (items : List (Space × Int)) :
    (mosParse items).1 + (mosParse items).2.1 + (mosParse items).2.2 = (items.map (·.2)).sum := by
  induction items with
  | nil => rfl
  | cons kv items ih =>
    obtain ⟨⟨k, b⟩, n⟩ := kv
    simp only [mosParse, List.map_cons, List.sum_cons]
    generalize mosParse items = t at ih
    obtain ⟨v, c, a⟩ := t
    cases k <;> simp only at ih ⊢ <;> omega

/-- Sum of the counts of the listed letters. -/
def kindSum (ks : List Kind) (items : List (Space × Int)) : Int :=
  ((items.filter fun kv => decide (kv.1.kind ∈ ks)).map (·.2)).sum

theorem mosParse_eq (items : List (Space × Int)) :
    mosParse items = (kindSum [.v, .g, .p] items, kindSum [.c, .h] items, kindSum [.a] items) := by
  induction items with
  | nil => rfl
  | cons kv items ih =>
    obtain ⟨⟨k, b⟩, n⟩ := kv
    simp only [mosParse, ih]
    cases k <;> simp [kindSum, add_comm]

theorem mosRaw_cons_of_not_mem {kv : Space × Int} {items : List (Space × Int)} (k : Kind)
    (h : kv.1.kind ∉ items.map fun x => x.1.kind) :
    mosRaw (kv :: items) k = if kv.1.kind = k then some kv.2 else mosRaw items k := by
  unfold mosRaw
  rw [List.reverse_cons, List.find?_append]
  by_cases hk : kv.1.kind = k
  · rw [if_pos hk]
    have : items.reverse.find? (fun x => x.1.kind == k) = none := by
      rw [List.find?_eq_none]
      intro x hx hxk
      apply h
      rw [List.mem_map]
      exact ⟨x, List.mem_reverse.1 hx, by rw [hk]; simpa using hxk⟩
    simp [this, hk]
  · rw [if_neg hk]
    have : List.find? (fun x : Space × Int => x.1.kind == k) [kv] = none := by simp [hk]
    simp [this]

theorem kindSum_eq_raw (ks : List Kind) (hks : ks.Nodup) (items : List (Space × Int))
    (h : (items.map fun x => x.1.kind).Nodup) :
    kindSum ks items = (ks.map fun k => (mosRaw items k).getD 0).sum := by
  induction items with
  | nil =>
    simp only [kindSum, List.filter_nil, List.map_nil, List.sum_nil, mosRaw, List.reverse_nil, List.find?_nil,
      Option.map_none, Option.getD_none]
    induction ks with
    | nil => rfl
    | cons k ks ih => simp
  | cons kv items ih =>
    rw [List.map_cons, List.nodup_cons] at h
    have hi := ih h.2
    have hraw := fun k => mosRaw_cons_of_not_mem k h.1
    simp only [hraw]
    have hnone : mosRaw items kv.1.kind = none := by
      unfold mosRaw
      rw [Option.map_eq_none_iff, List.find?_eq_none]
      intro x hx hxk
      exact h.1 (List.mem_map.2 ⟨x, List.mem_reverse.1 hx, by simpa using hxk⟩)
    have hsplit : ∀ ks : List Kind, ks.Nodup →
        (ks.map fun k => (if kv.1.kind = k then some kv.2 else mosRaw items k).getD 0).sum =
          (if kv.1.kind ∈ ks then kv.2 else 0) + (ks.map fun k => (mosRaw items k).getD 0).sum := by
      intro ks hks
      induction ks with
      | nil => simp
      | cons k ks ih =>
        rw [List.nodup_cons] at hks
        simp only [List.map_cons, List.sum_cons, ih hks.2]
        by_cases hk : kv.1.kind = k
        · subst hk
          simp [hks.1, hnone]
        · simp [hk]; omega
    rw [hsplit ks hks, ← hi]
    by_cases hk : kv.1.kind ∈ ks
    · simp [kindSum, hk]
    · simp [kindSum, hk]

end Dsrg
