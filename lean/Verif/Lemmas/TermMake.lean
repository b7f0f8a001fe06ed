import Verif.Model.Term
import Verif.Spec.TermValue
import Verif.Spec.Paired
import Verif.Lemmas.Order

/-!
Lemmas about the construction of terms.
-/

namespace Dsrg

theorem mem_labelsOf {ts : List Tensor} {op : SqOp} {i : Index} : i ∈ labelsOf ts op ↔ i ∈ labelList ts op := by
  simp [labelsOf, labelList]

theorem labelsOf_eq (ts : List Tensor) (op : SqOp) : labelsOf ts op = (labelList ts op).toFinset := rfl

theorem mem_labelList {ts : List Tensor} {op : SqOp} {i : Index} :
    i ∈ labelList ts op ↔ i ∈ op.indices ∨ ∃ t ∈ ts, i ∈ t.pair.indices := by
  simp [labelList, IndicesPair.indices, or_assoc]

section
variable {κ : Type} [DecidableEq κ]

theorem dictIncr_keys (d : Dict κ Nat) (k : κ) :
    (dictIncr d k).map Prod.fst = if k ∈ d.map Prod.fst then d.map Prod.fst else d.map Prod.fst ++ [k] := by
  induction d with
  | nil => simp [dictIncr]
  | cons e d ih =>
    obtain ⟨k', n⟩ := e
    by_cases h : k' = k
    · simp [dictIncr, h]
    · have h' : k ≠ k' := Ne.symm h
      simp only [dictIncr, if_neg h, List.map_cons, ih, List.mem_cons, h', false_or]
      by_cases hk : k ∈ d.map Prod.fst <;> simp [hk]

theorem dictIncr_count (d : Dict κ Nat) (k j : κ) : dictCount (dictIncr d k) j = dictCount d j + if k = j then 1 else 0 := by
  induction d with
  | nil => simp [dictIncr, dictCount]
  | cons e d ih =>
    obtain ⟨k', n⟩ := e
    by_cases h : k' = k
    · subst h
      by_cases hj : k' = j <;> simp [dictIncr, dictCount, hj]
    · by_cases hj : k' = j
      · subst hj
        have : k ≠ k' := Ne.symm h
        simp [dictIncr, dictCount, h, this]
      · simp [dictIncr, dictCount, h, hj, ih]

theorem foldl_dictIncr (l : List κ) : ∀ d : Dict κ Nat, (d.map Prod.fst).Nodup →
    ((l.foldl dictIncr d).map Prod.fst).Nodup ∧ (∀ j, j ∈ (l.foldl dictIncr d).map Prod.fst ↔ j ∈ d.map Prod.fst ∨ j ∈ l) ∧
      ∀ j, dictCount (l.foldl dictIncr d) j = dictCount d j + l.count j := by
  induction l with
  | nil => intro d hd; exact ⟨hd, by simp, by simp⟩
  | cons k l ih =>
    intro d hd
    have hd' : ((dictIncr d k).map Prod.fst).Nodup := by
      rw [dictIncr_keys]
      by_cases hk : k ∈ d.map Prod.fst
      · rw [if_pos hk]; exact hd
      · rw [if_neg hk, List.nodup_append]
        refine ⟨hd, by simp, ?_⟩
        intro a ha b hb; simp at hb; subst hb; rintro rfl; exact hk ha
    obtain ⟨h1, h2, h3⟩ := ih _ hd'
    refine ⟨h1, ?_, ?_⟩
    · intro j
      rw [List.foldl_cons, h2, dictIncr_keys]
      by_cases hk : k ∈ d.map Prod.fst
      · rw [if_pos hk]
        constructor
        · rintro (h | h)
          · exact Or.inl h
          · exact Or.inr (List.mem_cons_of_mem _ h)
        · rintro (h | h)
          · exact Or.inl h
          · rcases List.mem_cons.1 h with rfl | h
            · exact Or.inl hk
            · exact Or.inr h
      · rw [if_neg hk]
        simp only [List.mem_append, List.mem_cons, List.not_mem_nil, or_false, or_assoc]
    · intro j
      rw [List.foldl_cons, h3, dictIncr_count, List.count_cons]
      by_cases h : k = j <;> simp [h] ; omega

theorem dictCount_of_mem {d : Dict κ Nat} (hd : (d.map Prod.fst).Nodup) {k : κ} {n : Nat} (h : (k, n) ∈ d) : dictCount d k = n := by
  induction d with
  | nil => simp at h
  | cons e d ih =>
    obtain ⟨k', m⟩ := e
    rw [List.map_cons, List.nodup_cons] at hd
    rcases List.mem_cons.1 h with h | h
    · obtain ⟨rfl, rfl⟩ := Prod.mk.inj h; simp [dictCount]
    · have : k' ≠ k := by rintro rfl; exact hd.1 (List.mem_map.2 ⟨_, h, rfl⟩)
      simp [dictCount, this, ih hd.2 h]

theorem exists_mem_of_key {d : Dict κ Nat} (hd : (d.map Prod.fst).Nodup) {k : κ} (h : k ∈ d.map Prod.fst) : (k, dictCount d k) ∈ d := by
  obtain ⟨⟨k', n⟩, he, rfl⟩ := List.mem_map.1 h
  rw [dictCount_of_mem hd he]; exact he

end

theorem connection_labels (ts : List Tensor) (op : SqOp) :
    (op.indices ++ ts.flatMap fun t => t.pair.indices) = labelList ts op := rfl

theorem connection_spec (ts : List Tensor) (op : SqOp) :
    ((connection ts op).map Prod.fst).Nodup ∧ (∀ i, i ∈ (connection ts op).map Prod.fst ↔ i ∈ labelList ts op) ∧
      ∀ i, dictCount (connection ts op) i = (labelList ts op).count i := by
  obtain ⟨h1, h2, h3⟩ := foldl_dictIncr (labelList ts op) [] (by simp)
  refine ⟨h1, fun i => ?_, fun i => ?_⟩
  · have := h2 i
    rw [List.map_nil] at this
    simp only [List.not_mem_nil, false_or] at this
    exact this
  · have := h3 i
    rw [dictCount, Nat.zero_add] at this
    exact this

theorem mem_diagonalOf {ts : List Tensor} {op : SqOp} {i : Index} :
    i ∈ diagonalOf ts op ↔ (i ∈ op.upper.list ∧ i ∈ op.lower.list) ∨ ∃ t ∈ ts, i ∈ t.upper.list ∧ i ∈ t.lower.list := by
  have : ∀ (s : Finset Index), i ∈ ts.foldl (fun s t => s ∪ t.pair.diagonalIndices) s ↔
      i ∈ s ∨ ∃ t ∈ ts, i ∈ t.upper.list ∧ i ∈ t.lower.list := by
    induction ts with
    | nil => intro s; simp
    | cons t ts ih =>
      intro s
      rw [List.foldl_cons, ih]
      simp [IndicesPair.diagonalIndices, or_assoc]
  unfold diagonalOf
  rw [this]
  simp [IndicesPair.diagonalIndices]

theorem sortTensors_perm (ts : List Tensor) : (sortTensors ts).Perm ts := List.perm_insertionSort _ _

theorem tensor_notLt_trans {x y z : Tensor} (h1 : y.ltCore x = false) (h2 : z.ltCore y = false) : z.ltCore x = false := by
  rw [Tensor.ltCore_eq] at *
  rw [Bool.eq_false_iff]
  intro h
  rcases tensor_totLt.tri y.cmpKey z.cmpKey with h' | h' | h'
  · rw [tensor_totLt.trans _ _ _ h' h] at h1; exact absurd h1 (by decide)
  · rw [h', h] at h1; exact absurd h1 (by decide)
  · rw [h'] at h2; exact absurd h2 (by decide)

theorem tensor_notLt_total (x y : Tensor) : y.ltCore x = false ∨ x.ltCore y = false := by
  rw [Tensor.ltCore_eq, Tensor.ltCore_eq]
  by_contra h
  rw [not_or, Bool.not_eq_false, Bool.not_eq_false] at h
  have := tensor_totLt.trans _ _ _ h.1 h.2
  rw [tensor_totLt.irrefl] at this
  exact absurd this (by decide)

theorem sortTensors_sorted (ts : List Tensor) : (sortTensors ts).Pairwise fun x y => y.ltCore x = false := by
  have : (sortTensors ts).Pairwise fun x y => (!(y.ltCore x)) = true := by
    have : Std.Total (fun x y : Tensor => (!(y.ltCore x)) = true) := ⟨fun x y => by simpa using tensor_notLt_total x y⟩
    have : IsTrans Tensor (fun x y : Tensor => (!(y.ltCore x)) = true) :=
      ⟨fun x y z h1 h2 => by simp only [Bool.not_eq_true'] at *; exact tensor_notLt_trans h1 h2⟩
    exact List.pairwise_insertionSort _ _
  exact this.imp (by simp)

theorem nextNumbers_lt {s : Finset Index} {i : Index} (h : i ∈ s) : i.number < nextNumbers s i.space := by
  have : i.number + 1 ≤ nextNumbers s i.space :=
    Finset.le_sup (f := fun i : Index => i.number + 1) (Finset.mem_filter.2 ⟨h, rfl⟩)
  omega

/-- What a successful construction gives. -/
theorem Term.make_ok {ts : List Tensor} {op : SqOp} {c : ℚ} {t : Term} :
    Term.make ts op c = .ok t ↔ (∀ x ∈ ts, x.upper.ty = op.upper.ty) ∧
      (∀ i ∈ labelList ts op, i ∉ diagonalOf ts op → (labelList ts op).count i = 2) ∧
      (∀ i ∈ diagonalOf ts op, (labelList ts op).count i % 2 = 0) ∧
      t = { coeff := c, sqOp := op, tensors := sortTensors ts, indicesSet := labelsOf ts op,
            nextNum := nextNumbers (labelsOf ts op), diag := diagonalOf ts op } := by
  obtain ⟨h1, h2, h3⟩ := connection_spec ts op
  have hs : ((connection ts op).map Prod.fst).toFinset = labelsOf ts op := by
    ext i; rw [List.mem_toFinset, h2, mem_labelsOf]
  have e1 : (ts.any fun t => decide (t.upper.ty ≠ op.upper.ty)) = true ↔ ¬ ∀ x ∈ ts, x.upper.ty = op.upper.ty := by
    simp
  have e2 : ((connection ts op).any fun e => decide (e.1 ∉ diagonalOf ts op ∧ e.2 ≠ 2)) = true ↔
      ¬ ∀ i ∈ labelList ts op, i ∉ diagonalOf ts op → (labelList ts op).count i = 2 := by
    rw [List.any_eq_true]
    constructor
    · rintro ⟨⟨k, n⟩, he, hp⟩ hall
      have hp := of_decide_eq_true hp
      have hk := (h2 k).1 (List.mem_map.2 ⟨_, he, rfl⟩)
      have := dictCount_of_mem h1 he
      rw [h3] at this
      exact hp.2 (this ▸ hall k hk hp.1)
    · intro hall
      push Not at hall
      obtain ⟨k, hk, hd, hc⟩ := hall
      refine ⟨_, exists_mem_of_key h1 ((h2 k).2 hk), ?_⟩
      rw [decide_eq_true_iff]
      exact ⟨hd, by rw [h3]; exact hc⟩
  have e3 : (decide (∃ k ∈ diagonalOf ts op, dictCount (connection ts op) k % 2 = 1)) = true ↔
      ¬ ∀ i ∈ diagonalOf ts op, (labelList ts op).count i % 2 = 0 := by
    rw [decide_eq_true_iff]
    push Not
    constructor
    · rintro ⟨k, hk, h⟩; rw [h3] at h; exact ⟨k, hk, by omega⟩
    · rintro ⟨k, hk, h⟩; exact ⟨k, hk, by rw [h3]; omega⟩
  unfold Term.make
  simp only [hs]
  by_cases c1 : ∀ x ∈ ts, x.upper.ty = op.upper.ty
  · rw [if_neg (fun h => e1.1 h c1)]
    by_cases c2 : ∀ i ∈ labelList ts op, i ∉ diagonalOf ts op → (labelList ts op).count i = 2
    · rw [if_neg (fun h => e2.1 h c2)]
      by_cases c3 : ∀ i ∈ diagonalOf ts op, (labelList ts op).count i % 2 = 0
      · rw [if_neg (fun h => e3.1 h c3), Except.ok.injEq]
        exact ⟨fun h => ⟨c1, c2, c3, h.symm⟩, fun h => h.2.2.2.symm⟩
      · rw [if_pos (e3.2 c3)]
        exact ⟨fun h => by simp at h, fun h => absurd h.2.2.1 c3⟩
    · rw [if_pos (e2.2 c2)]
      exact ⟨fun h => by simp at h, fun h => absurd h.2.1 c2⟩
  · rw [if_pos (e1.2 c1)]
    exact ⟨fun h => by simp at h, fun h => absurd h.1 c1⟩

/-- The failure cases of the constructor. -/
theorem Term.make_error {ts : List Tensor} {op : SqOp} {c : ℚ} {e : PyErr} (h : Term.make ts op c = .error e) :
    (e = .typeError ∧ ¬ ∀ x ∈ ts, x.upper.ty = op.upper.ty) ∨ (e = .valueError ∧ ∀ x ∈ ts, x.upper.ty = op.upper.ty) := by
  unfold Term.make at h
  simp only [] at h
  split_ifs at h with h1 h2 h3
  · left; injection h with h; exact ⟨h.symm, by simpa using h1⟩
  · right; injection h with h; exact ⟨h.symm, by simpa using h1⟩
  · right; injection h with h; exact ⟨h.symm, by simpa using h1⟩

/-- The invariant of a term object: the cached label set contains all labels, the counters lie above all labels, and every
label occurs at least twice. -/
structure Term.WF (t : Term) : Prop where
  set_sub : labelsOf t.tensors t.sqOp ⊆ t.indicesSet
  fresh : ∀ i ∈ t.indicesSet, i.number < t.nextNum i.space
  two : ∀ i ∈ labelsOf t.tensors t.sqOp, 2 ≤ (labelList t.tensors t.sqOp).count i

theorem labelList_perm {ts ts' : List Tensor} (h : ts.Perm ts') (op : SqOp) : (labelList ts op).Perm (labelList ts' op) := by
  unfold labelList
  exact List.Perm.append_left _ (h.flatMap_right _)

theorem labelsOf_perm {ts ts' : List Tensor} (h : ts.Perm ts') (op : SqOp) : labelsOf ts op = labelsOf ts' op := by
  ext i; rw [mem_labelsOf, mem_labelsOf, (labelList_perm h op).mem_iff]

theorem Term.wf_of_make {ts : List Tensor} {op : SqOp} {c : ℚ} {t : Term} (h : Term.make ts op c = .ok t) : t.WF := by
  obtain ⟨h1, h2, h3, rfl⟩ := Term.make_ok.1 h
  have hp := labelList_perm (sortTensors_perm ts) op
  refine ⟨?_, ?_, ?_⟩
  · exact (labelsOf_perm (sortTensors_perm ts) op).le
  · intro i hi; exact nextNumbers_lt hi
  · intro i hi
    simp only at hi ⊢
    rw [mem_labelsOf, hp.mem_iff] at hi
    rw [hp.count_eq]
    by_cases hd : i ∈ diagonalOf ts op
    · have := h3 i hd
      have := List.count_pos_iff.2 hi
      omega
    · rw [h2 i hi hd]

end Dsrg
