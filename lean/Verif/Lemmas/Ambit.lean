import Verif.Model.Ambit
import Verif.Lemmas.TermMake
import Verif.Lemmas.Ddca
import Verif.Lemmas.Order
import Verif.Spec.Constructed
import Mathlib.Algebra.Order.BigOperators.Group.List

/-!
Partitions of the open labels.
-/

namespace Dsrg

theorem count_flatten_map {α β : Type} [DecidableEq β] (b : β) (f : α → List β) (l : List α) :
    (l.map f).flatten.count b = (l.map fun a => (f a).count b).sum := by
  rw [List.count_flatten, List.map_map]; rfl

/-- Grouping by space keeps the labels. -/
theorem spaceBlocks_perm (l : List Index) : (spaceBlocks l).flatten.Perm l := by
  rw [List.perm_iff_count]
  intro i
  unfold spaceBlocks
  rw [count_flatten_map]
  have hk : ((l.map Index.space).dedup.insertionSort fun s s' => s.priority ≤ s'.priority).Nodup :=
    ((List.perm_insertionSort _ _).nodup_iff).2 (List.nodup_dedup _)
  have : ∀ s : Space, (l.filter fun i => decide (i.space = s)).count i = if i.space = s then l.count i else 0 := by
    intro s
    by_cases h : i.space = s
    · rw [if_pos h, List.count_filter (by simpa using h)]
    · rw [if_neg h, List.count_eq_zero]
      intro hm
      exact h (by simpa using (List.mem_filter.1 hm).2)
  simp only [this]
  rw [sum_map_ite_nodup hk]
  by_cases h : i ∈ l
  · rw [if_pos]
    rw [List.mem_insertionSort, List.mem_dedup]
    exact List.mem_map.2 ⟨i, h, rfl⟩
  · rw [List.count_eq_zero.2 h]; simp

/-- Two labels share a group exactly when they have the same space. -/
theorem mem_spaceBlocks {l b : List Index} : b ∈ spaceBlocks l ↔ ∃ i ∈ l, b = l.filter fun j => decide (j.space = i.space) := by
  unfold spaceBlocks
  rw [List.mem_map]
  constructor
  · rintro ⟨s, hs, rfl⟩
    rw [List.mem_insertionSort, List.mem_dedup, List.mem_map] at hs
    obtain ⟨i, hi, rfl⟩ := hs
    exact ⟨i, hi, rfl⟩
  · rintro ⟨i, hi, rfl⟩
    exact ⟨i.space, by rw [List.mem_insertionSort, List.mem_dedup]; exact List.mem_map.2 ⟨i, hi, rfl⟩, rfl⟩

theorem mem_sharedLabels {ops l : List Index} {i : Index} : i ∈ sharedLabels ops l ↔ i ∈ l ∧ i ∈ ops := by
  unfold sharedLabels
  rw [List.mem_insertionSort, List.mem_dedup, List.mem_filter]
  simp

theorem nodup_sharedLabels (ops l : List Index) : (sharedLabels ops l).Nodup :=
  ((List.perm_insertionSort _ _).nodup_iff).2 (List.nodup_dedup _)

theorem sharedLabels_sorted (ops l : List Index) : (sharedLabels ops l).Pairwise (· < ·) := by
  have h1 : (sharedLabels ops l).Pairwise (· ≤ ·) := List.pairwise_insertionSort _ _
  exact (List.pairwise_and_iff.2 ⟨h1, nodup_sharedLabels ops l⟩).imp fun h => lt_of_le_of_ne h.1 h.2

theorem count_blocks (a : Index) (os : List (List Index)) :
    (((os.filter fun o => decide (o.length ≠ 0)).flatMap spaceBlocks).flatten).count a = (os.map fun o => o.count a).sum := by
  induction os with
  | nil => rfl
  | cons o os ih =>
    rw [List.filter_cons, List.map_cons, List.sum_cons, ← ih]
    by_cases h : o.length = 0
    · have : o = [] := List.length_eq_zero_iff.1 h
      subst this
      simp
    · rw [if_pos (by simpa using h), List.flatMap_cons, List.flatten_append, List.count_append, (spaceBlocks_perm o).count_eq]

/-- The labels of `ops` are split into the groups of one tensor and one space. -/
structure SplitsOpen (sets : List (List Index)) (ops : List Index) (p : List (List Index)) : Prop where
  perm : p.flatten.Perm ops
  together : ∀ i ∈ ops, ∀ j ∈ ops, (∃ b ∈ p, i ∈ b ∧ j ∈ b) ↔ i.space = j.space ∧ ∃ s ∈ sets, i ∈ s ∧ j ∈ s
  sorted : ∀ b ∈ p, b.Pairwise (· < ·)
  ne : ops ≠ [] → ∀ b ∈ p, b ≠ []

theorem permPartAtomic_spec {ops : List Index} (hn : ops.Nodup) {sets : List (List Index)}
    (h1 : ∀ i ∈ ops, (sets.map fun s => s.count i).sum = 1) : SplitsOpen sets ops (permPartAtomic ops sets) := by
  have hmem : ∀ i ∈ ops, ∃ s ∈ sets, i ∈ s := by
    intro i hi
    by_contra hc
    push Not at hc
    have : (sets.map fun s => s.count i).sum = 0 := by
      apply List.sum_eq_zero
      intro x hx
      obtain ⟨s, hs, rfl⟩ := List.mem_map.1 hx
      exact List.count_eq_zero.2 (hc s hs)
    rw [h1 i hi] at this
    cases this
  match ops, hn, h1, hmem with
  | [], _, _, _ => exact ⟨by simp [permPartAtomic], by simp, by simp [permPartAtomic], by simp⟩
  | [i], _, _, hmem =>
    obtain ⟨s, hs, his⟩ := hmem i (by simp)
    refine ⟨by simp [permPartAtomic], ?_, by simp [permPartAtomic], by simp [permPartAtomic]⟩
    intro a ha b hb
    rw [List.mem_singleton] at ha hb
    subst ha; subst hb
    exact ⟨fun _ => ⟨rfl, s, hs, his, his⟩, fun _ => ⟨[b], by simp [permPartAtomic], by simp, by simp⟩⟩
  | i :: j :: rest, hn, h1, hmem =>
    generalize hops : i :: j :: rest = ops at *
    have hdef : permPartAtomic ops sets = (((sets.map (sharedLabels ops)).filter fun o => decide (o.length ≠ 0)).flatMap
        spaceBlocks).insertionSort fun x y => (!(pyListLt (fun a b => decide (a < b)) y x)) = true := by
      subst hops; rfl
    have hb : ∀ b, b ∈ permPartAtomic ops sets ↔ ∃ s ∈ sets, ∃ k ∈ sharedLabels ops s,
        b = (sharedLabels ops s).filter fun j => decide (j.space = k.space) := by
      intro b
      rw [hdef, List.mem_insertionSort, List.mem_flatMap]
      constructor
      · rintro ⟨o, ho, hbo⟩
        obtain ⟨k, hk, rfl⟩ := mem_spaceBlocks.1 hbo
        obtain ⟨s, hs, rfl⟩ := List.mem_map.1 (List.mem_filter.1 ho).1
        exact ⟨s, hs, k, hk, rfl⟩
      · rintro ⟨s, hs, k, hk, rfl⟩
        refine ⟨sharedLabels ops s, List.mem_filter.2 ⟨List.mem_map.2 ⟨s, hs, rfl⟩, ?_⟩, mem_spaceBlocks.2 ⟨k, hk, rfl⟩⟩
        have : sharedLabels ops s ≠ [] := List.ne_nil_of_mem hk
        simpa using this
    refine ⟨?_, ?_, ?_, ?_⟩
    · rw [hdef]
      refine ((List.perm_insertionSort _ _).flatten).trans ?_
      rw [List.perm_iff_count]
      intro a
      have e1 : ((((sets.map (sharedLabels ops)).filter fun o => decide (o.length ≠ 0)).flatMap spaceBlocks).flatten).count a =
          (sets.map fun s => (sharedLabels ops s).count a).sum := by
        rw [count_blocks, List.map_map]; rfl
      rw [e1]
      by_cases ha : a ∈ ops
      · rw [List.count_eq_one_of_mem hn ha, ← h1 a ha]
        congr 1
        apply List.map_congr_left
        intro s hs
        have hle : s.count a ≤ 1 := by
          rw [← h1 a ha]
          exact List.single_le_sum (by simp) _ (List.mem_map.2 ⟨s, hs, rfl⟩)
        by_cases has : a ∈ s
        · have := List.count_pos_iff.2 has
          rw [List.count_eq_one_of_mem (nodup_sharedLabels _ _) (mem_sharedLabels.2 ⟨has, ha⟩)]; omega
        · rw [List.count_eq_zero.2 has, List.count_eq_zero]
          exact fun h => has (mem_sharedLabels.1 h).1
      · rw [List.count_eq_zero.2 ha]
        apply List.sum_eq_zero
        intro x hx
        obtain ⟨s, hs, rfl⟩ := List.mem_map.1 hx
        exact List.count_eq_zero.2 fun h => ha (mem_sharedLabels.1 h).2
    · intro a ha c hc
      constructor
      · rintro ⟨b, hbm, hab, hcb⟩
        obtain ⟨s, hs, k, hk, rfl⟩ := (hb b).1 hbm
        rw [List.mem_filter, decide_eq_true_eq] at hab hcb
        exact ⟨hab.2.trans hcb.2.symm, s, hs, (mem_sharedLabels.1 hab.1).1, (mem_sharedLabels.1 hcb.1).1⟩
      · rintro ⟨hsp, s, hs, has, hcs⟩
        refine ⟨_, (hb _).2 ⟨s, hs, a, mem_sharedLabels.2 ⟨has, ha⟩, rfl⟩, ?_, ?_⟩
        · rw [List.mem_filter]; exact ⟨mem_sharedLabels.2 ⟨has, ha⟩, by simp⟩
        · rw [List.mem_filter]; exact ⟨mem_sharedLabels.2 ⟨hcs, hc⟩, by simp [hsp]⟩
    · intro b hbm
      obtain ⟨s, hs, k, hk, rfl⟩ := (hb b).1 hbm
      exact (sharedLabels_sorted _ _).filter _
    · intro _ b hbm
      obtain ⟨s, hs, k, hk, rfl⟩ := (hb b).1 hbm
      exact List.ne_nil_of_mem (List.mem_filter.2 ⟨hk, by simp⟩)

/-- The open labels of a term without diagonal labels occur once in one factor. -/
theorem open_count {ts : List Tensor} {op : SqOp} {c : ℚ} {t : Term} (ht : Term.make ts op c = .ok t) (hop : op.Constructed)
    (hd : t.diag = ∅) {i : Index} (hi : i ∈ op.upper.list ∨ i ∈ op.lower.list) :
    ((t.tensors.map fun x => x.pair.indices).map fun s => s.count i).sum = 1 := by
  obtain ⟨-, m2, -, m4⟩ := Term.make_ok.1 ht
  have hd' : diagonalOf ts op = ∅ := by rw [m4] at hd; exact hd
  have hperm : t.tensors.Perm ts := by rw [m4]; exact sortTensors_perm ts
  have h2 := m2 i (mem_labelList.2 (Or.inl (List.mem_append.2 hi))) (by rw [hd']; simp)
  rw [((hperm.map _).map _).sum_eq]
  have hu : op.upper.list.Nodup := (Indices.make_eq hop.1).2.1
  have hl : op.lower.list.Nodup := (Indices.make_eq hop.2.1).2.1
  have hnot : ¬ (i ∈ op.upper.list ∧ i ∈ op.lower.list) := by
    intro h
    have : i ∈ diagonalOf ts op := mem_diagonalOf.2 (Or.inl h)
    rw [hd'] at this; simp at this
  have hone : (op.upper.list ++ op.lower.list).count i = 1 := by
    rw [List.count_append]
    rcases hi with hi | hi
    · rw [List.count_eq_one_of_mem hu hi, List.count_eq_zero.2 fun h => hnot ⟨hi, h⟩]
    · rw [List.count_eq_one_of_mem hl hi, List.count_eq_zero.2 fun h => hnot ⟨h, hi⟩]
  have : (labelList ts op).count i = (op.upper.list ++ op.lower.list).count i +
      (ts.map fun x => x.pair.indices.count i).sum := by
    unfold labelList
    rw [List.count_append, List.flatMap_def, count_flatten_map]; rfl
  rw [List.map_map]
  have e : (ts.map ((fun s : List Index => s.count i) ∘ fun x : Tensor => x.pair.indices)) = ts.map fun x => x.pair.indices.count i := rfl
  rw [e]
  omega

theorem Term.permPartitionOpen_spec {ts : List Tensor} {op : SqOp} {c : ℚ} {t : Term} (ht : Term.make ts op c = .ok t)
    (hop : op.Constructed) (hd : t.diag = ∅) :
    SplitsOpen (t.tensors.map fun x => x.pair.indices) op.upper.list t.permPartitionOpen.1 ∧
      SplitsOpen (t.tensors.map fun x => x.pair.indices) op.lower.list t.permPartitionOpen.2 := by
  have hsq : t.sqOp = op := by obtain ⟨-, -, -, m4⟩ := Term.make_ok.1 ht; rw [m4]
  have e1 : t.permPartitionOpen.1 = permPartAtomic op.upper.list (t.tensors.map fun x => x.pair.indices) := by rw [← hsq]; rfl
  have e2 : t.permPartitionOpen.2 = permPartAtomic op.lower.list (t.tensors.map fun x => x.pair.indices) := by rw [← hsq]; rfl
  rw [e1, e2]
  exact ⟨permPartAtomic_spec (Indices.make_eq hop.1).2.1 fun i hi => open_count ht hop hd (Or.inl hi),
    permPartAtomic_spec (Indices.make_eq hop.2.1).2.1 fun i hi => open_count ht hop hd (Or.inr hi)⟩

end Dsrg
