import Verif.Lemmas.Relabel
import Verif.Props.Labels
import Verif.Spec.Occurrences

/-!
The operator factories and the minimal relabelling.
-/

namespace Dsrg

theorem occurrences_eq (ts : List Tensor) (op : SqOp) (i : Index) : occurrences ts op i = (labelList ts op).count i := by
  unfold occurrences labelList
  rw [List.count_append, List.count_append, List.count_flatMap]
  simp [Function.comp_def, List.count_append]

theorem nodup_consecutive (s : Space) (lo n : Nat) : (consecutive s lo n).Nodup := by
  unfold consecutive
  refine List.Nodup.map ?_ List.nodup_range'
  intro a b h
  simpa using h

theorem mem_consecutive {s : Space} {lo n : Nat} {i : Index} : i ∈ consecutive s lo n ↔ i.space = s ∧ lo ≤ i.number ∧ i.number < lo + n := by
  unfold consecutive
  simp only [List.mem_map, List.mem_range'_1]
  constructor
  · rintro ⟨k, hk, rfl⟩; exact ⟨rfl, hk⟩
  · rintro ⟨rfl, hk⟩; exact ⟨i.number, hk, rfl⟩

theorem ofNames_labelNames (ty : IType) (s : Space) (lo n : Nat) (h : ty = .spinOrbital → n = 0 ∨ s.beta = false) :
    Indices.ofNames ty (labelNames s lo n) = .ok ⟨ty, consecutive s lo n⟩ := by
  have hl : labelNames s lo n = (consecutive s lo n).map Index.name := by
    simp [labelNames, consecutive, Function.comp_def]
  rw [hl, (C05_repeat_test_partial ty _).1]
  refine ⟨nodup_consecutive _ _ _, ?_⟩
  intro ht i hi
  obtain ⟨h1, h2, h3⟩ := mem_consecutive.1 hi
  rcases h ht with h | h
  · omega
  · rw [Index.isBeta, h1, h]

theorem nBeta_consecutive (ty : IType) (s : Space) (lo n : Nat) : (⟨ty, consecutive s lo n⟩ : Indices).nBeta = if s.beta then n else 0 := by
  unfold Indices.nBeta consecutive
  rw [List.countP_map]
  cases h : s.beta
  · rw [List.countP_eq_zero.2]
    · simp
    · intro i _; simp [Index.isBeta, h]
  · rw [if_pos rfl, List.countP_eq_length.2]
    · simp
    · intro i _; simp [Index.isBeta, h]

theorem requireSpin_consecutive (ty : IType) (s s' : Space) (lo lo' n : Nat) (h : n = 0 ∨ s.beta = s'.beta) :
    requireSpinConserving ⟨⟨ty, consecutive s lo n⟩, ⟨ty, consecutive s' lo' n⟩⟩ = .ok () := by
  unfold requireSpinConserving IndicesPair.isSpinConserving
  rw [if_pos (by simp [IndicesPair.nUpper, IndicesPair.nLower, Indices.size, consecutive])]
  simp only [nBeta_consecutive]
  rcases h with h | h
  · subst h; simp
  · rw [h]; simp

theorem clusterTest_consecutive (k : Kind) (s : Space) (lo n : Nat) : ∃ b, clusterTest k (consecutive s lo n) = .ok b := by
  have hf : ∀ l : List Index, (∀ i ∈ l, i.space = s) → ((clusterFlags k l).1 && (clusterFlags k l).2.1) = false := by
    intro l hl
    have hd : ∀ s : Space, ¬ Space.relation ⟨s.kind, false⟩ = {⟨.a, false⟩} →
        ¬ (Space.relation ⟨s.kind, false⟩ ⊆ Space.relation ⟨.h, false⟩ ∧ Space.relation ⟨s.kind, false⟩ ⊆ Space.relation ⟨.p, false⟩) := by
      decide +kernel
    by_cases ha : Space.relation ⟨s.kind, false⟩ = {⟨.a, false⟩}
    · have : ∀ l : List Index, (∀ i ∈ l, i.space = s) → clusterFlags k l = (false, false, false) := by
        intro l hl
        induction l with
        | nil => rfl
        | cons i l ih =>
          rw [clusterFlags, ih fun j hj => hl j (by simp [hj])]
          simp only [hl i (by simp), ha, if_true]
      rw [this l hl]; rfl
    · have hd := hd s ha
      rw [not_and_or] at hd
      rcases hd with hd | hd
      · have : ∀ l : List Index, (∀ i ∈ l, i.space = s) → (clusterFlags k l).1 = false := by
          intro l hl
          induction l with
          | nil => rfl
          | cons i l ih =>
            rw [clusterFlags]
            simp only [hl i (by simp), if_neg ha, ih fun j hj => hl j (by simp [hj])]
            simpa using hd
        rw [this l hl]; rfl
      · have : ∀ l : List Index, (∀ i ∈ l, i.space = s) → (clusterFlags k l).2.1 = false := by
          intro l hl
          induction l with
          | nil => rfl
          | cons i l ih =>
            rw [clusterFlags]
            simp only [hl i (by simp), if_neg ha, ih fun j hj => hl j (by simp [hj])]
            simpa using hd
        rw [this l hl]; simp
  refine ⟨(clusterFlags k (consecutive s lo n)).2.2, ?_⟩
  unfold clusterTest
  simp only []
  rw [if_neg (by rw [hf _ fun i hi => (mem_consecutive.1 hi).1]; simp)]

theorem count_consecutive (s : Space) (lo n : Nat) (i : Index) : (consecutive s lo n).count i =
    if i ∈ consecutive s lo n then 1 else 0 := by
  split_ifs with h
  · exact List.count_eq_one_of_mem (nodup_consecutive _ _ _) h
  · exact List.count_eq_zero.2 h

/-- One tensor and an operator string with the same two runs of labels form a valid term. -/
theorem make_one_tensor (ty : IType) (cls : TCls) (name : PyStr) (prio : Int) (A B : List Index) (hA : A.Nodup) (hB : B.Nodup) (c : ℚ)
    (U L : List Index) (hUL : (U = A ∧ L = B) ∨ (U = B ∧ L = A)) :
    ∃ t, Term.make [⟨cls, name, prio, ⟨⟨ty, A⟩, ⟨ty, B⟩⟩⟩] ⟨⟨ty, U⟩, ⟨ty, L⟩⟩ c = .ok t ∧
      t.tensors = [⟨cls, name, prio, ⟨⟨ty, A⟩, ⟨ty, B⟩⟩⟩] ∧ t.sqOp = ⟨⟨ty, U⟩, ⟨ty, L⟩⟩ ∧ t.coeff = c := by
  refine ⟨_, Term.make_ok.2 ⟨?_, ?_, ?_, rfl⟩, rfl, rfl, rfl⟩
  · simp [Tensor.upper]
  · intro i hi hd
    rw [← occurrences_eq]
    unfold occurrences
    rw [mem_diagonalOf, not_or] at hd
    rw [mem_labelList] at hi
    simp [IndicesPair.indices, Tensor.upper, Tensor.lower] at hi hd ⊢
    have hca := List.nodup_iff_count_eq_one.1 hA i
    have hcb := List.nodup_iff_count_eq_one.1 hB i
    have hza : i ∉ A → A.count i = 0 := List.count_eq_zero.2
    have hzb : i ∉ B → B.count i = 0 := List.count_eq_zero.2
    rcases hUL with ⟨rfl, rfl⟩ | ⟨rfl, rfl⟩ <;> by_cases h1 : i ∈ U <;> by_cases h2 : i ∈ L <;> simp_all
  · intro i hi
    rw [← occurrences_eq]
    unfold occurrences
    rw [mem_diagonalOf] at hi
    simp [Tensor.upper, Tensor.lower] at hi ⊢
    rcases hUL with ⟨rfl, rfl⟩ | ⟨rfl, rfl⟩ <;> omega

/-! ### Minimal labels -/

/-- The dictionary built by `_minimal_indices`: distinct keys, values in the same space, numbered without gaps. -/
structure MinimalDict (d : Dict Index Index) (next : Space → Nat) : Prop where
  keys : (d.map Prod.fst).Nodup
  vals : (d.map Prod.snd).Nodup
  space : ∀ e ∈ d, e.2.space = e.1.space
  lt : ∀ e ∈ d, e.2.number < next e.2.space
  all : ∀ s n, n < next s → ∃ e ∈ d, e.2 = ⟨s, n⟩

theorem minimalFactor_spec (labels : List Index) : ∀ st : Dict Index Index × (Space → Nat), MinimalDict st.1 st.2 →
    MinimalDict (minimalFactor st labels).1 (minimalFactor st labels).2 ∧
      ∀ i, i ∈ (minimalFactor st labels).1.map Prod.fst ↔ i ∈ st.1.map Prod.fst ∨ i ∈ labels := by
  induction labels with
  | nil => intro st h; exact ⟨h, fun i => by simp [minimalFactor]⟩
  | cons a labels ih =>
    intro st h
    by_cases ha : a ∈ st.1.map Prod.fst
    · have hstep : minimalFactor st (a :: labels) = minimalFactor st labels := by
        unfold minimalFactor
        rw [List.foldl_cons, if_pos]
        rw [List.any_eq_true]
        obtain ⟨e, he, hea⟩ := List.mem_map.1 ha
        exact ⟨e, he, by simpa using hea⟩
      obtain ⟨h1, h2⟩ := ih st h
      rw [hstep]
      refine ⟨h1, ?_⟩
      intro i
      rw [h2 i, List.mem_cons]
      constructor
      · rintro (h | h)
        · exact Or.inl h
        · exact Or.inr (Or.inr h)
      · rintro (h | rfl | h)
        · exact Or.inl h
        · exact Or.inl ha
        · exact Or.inr h
    · have hstep : minimalFactor st (a :: labels) =
          minimalFactor (st.1 ++ [(a, ⟨a.space, st.2 a.space⟩)], Function.update st.2 a.space (st.2 a.space + 1)) labels := by
        unfold minimalFactor
        rw [List.foldl_cons, if_neg]
        · rfl
        · rw [List.any_eq_true]
          rintro ⟨e, he, hea⟩
          exact ha (List.mem_map.2 ⟨e, he, by simpa using hea⟩)
      have hnew : MinimalDict (st.1 ++ [(a, ⟨a.space, st.2 a.space⟩)]) (Function.update st.2 a.space (st.2 a.space + 1)) := by
        refine ⟨?_, ?_, ?_, ?_, ?_⟩
        · rw [List.map_append, List.nodup_append]
          refine ⟨h.keys, by simp, ?_⟩
          intro x hx y hy
          simp only [List.map_cons, List.map_nil, List.mem_singleton] at hy
          rintro rfl
          exact ha (hy ▸ hx)
        · rw [List.map_append, List.nodup_append]
          refine ⟨h.vals, by simp, ?_⟩
          intro x hx y hy
          simp only [List.map_cons, List.map_nil, List.mem_singleton] at hy
          rintro rfl
          obtain ⟨e, he, hee⟩ := List.mem_map.1 hx
          have := h.lt e he
          rw [hee, hy] at this
          simp at this
        · intro e he
          rcases List.mem_append.1 he with he | he
          · exact h.space e he
          · rw [List.mem_singleton.1 he]
        · intro e he
          rw [Function.update_apply]
          rcases List.mem_append.1 he with he | he
          · have := h.lt e he
            split_ifs with hc
            · rw [hc] at this; omega
            · exact this
          · rw [List.mem_singleton.1 he]; simp
        · intro s n hn
          rw [Function.update_apply] at hn
          split_ifs at hn with hc
          · by_cases hlt : n < st.2 s
            · obtain ⟨e, he, hee⟩ := h.all s n hlt
              exact ⟨e, List.mem_append_left _ he, hee⟩
            · refine ⟨(a, ⟨a.space, st.2 a.space⟩), by simp, ?_⟩
              subst hc
              have : n = st.2 a.space := by omega
              rw [this]
          · obtain ⟨e, he, hee⟩ := h.all s n hn
            exact ⟨e, List.mem_append_left _ he, hee⟩
      obtain ⟨h1, h2⟩ := ih (st.1 ++ [(a, ⟨a.space, st.2 a.space⟩)], Function.update st.2 a.space (st.2 a.space + 1)) hnew
      rw [hstep]
      refine ⟨h1, ?_⟩
      intro i
      rw [h2 i]
      simp [or_assoc, or_comm, or_left_comm]

theorem minimalLoop_spec {s : Finset Index} (fs : List (List Index)) : ∀ st : Dict Index Index × (Space → Nat), MinimalDict st.1 st.2 →
    (∀ i ∈ st.1.map Prod.fst, i ∈ s) → (∀ f ∈ fs, ∀ i ∈ f, i ∈ s) →
    MinimalDict (minimalLoop s.card st fs).1 (minimalLoop s.card st fs).2 ∧
      (∀ i, i ∈ (minimalLoop s.card st fs).1.map Prod.fst ↔ i ∈ st.1.map Prod.fst ∨ ∃ f ∈ fs, i ∈ f) := by
  induction fs with
  | nil => intro st h _ _; exact ⟨h, fun i => by simp [minimalLoop]⟩
  | cons f fs ih =>
    intro st h h1 h2
    obtain ⟨m1, m2⟩ := minimalFactor_spec f st h
    have hsub : ∀ i ∈ (minimalFactor st f).1.map Prod.fst, i ∈ s := by
      intro i hi
      rcases (m2 i).1 hi with hi | hi
      · exact h1 i hi
      · exact h2 f (by simp) i hi
    rw [minimalLoop]
    split_ifs with hc
    · refine ⟨m1, ?_⟩
      have heq : ((minimalFactor st f).1.map Prod.fst).toFinset = s := by
        apply Finset.eq_of_subset_of_card_le
        · intro i hi; exact hsub i (List.mem_toFinset.1 hi)
        · rw [List.toFinset_card_of_nodup m1.keys, List.length_map, hc]
      intro i
      constructor
      · intro hi
        rcases (m2 i).1 hi with hi | hi
        · exact Or.inl hi
        · exact Or.inr ⟨f, by simp, hi⟩
      · rintro (hi | ⟨g, hg, hi⟩)
        · exact (m2 i).2 (Or.inl hi)
        · rw [← List.mem_toFinset, heq]; exact h2 g hg i hi
    · obtain ⟨b1, b2⟩ := ih _ m1 hsub fun g hg => h2 g (by simp [hg])
      refine ⟨b1, ?_⟩
      intro i
      rw [b2 i, m2 i]
      simp [or_assoc]

theorem minimalIndices_spec (t : Term) (h : labelsOf t.tensors t.sqOp ⊆ t.indicesSet) :
    ∃ next, MinimalDict t.minimalIndices next ∧ ∀ i, i ∈ t.minimalIndices.map Prod.fst ↔ i ∈ labelsOf t.tensors t.sqOp := by
  have h0 : MinimalDict [] (fun _ => 0) := ⟨by simp, by simp, by simp, by simp, by simp⟩
  obtain ⟨h1, h2⟩ := minimalLoop_spec (s := t.indicesSet) (t.sqOp.indices :: t.tensors.map fun x => x.pair.indices) ([], fun _ => 0) h0 (by simp)
    (by
      intro f hf i hi
      apply h
      rw [mem_labelsOf, mem_labelList]
      rcases List.mem_cons.1 hf with rfl | hf
      · exact Or.inl hi
      · obtain ⟨x, hx, rfl⟩ := List.mem_map.1 hf; exact Or.inr ⟨x, hx, hi⟩)
  refine ⟨_, h1, ?_⟩
  intro i
  unfold Term.minimalIndices
  rw [h2 i, mem_labelsOf, mem_labelList]
  simp

/-- The dictionary as a function. -/
def dictFun (d : Dict Index Index) (i : Index) : Index := ((d.find? fun e => decide (e.1 = i)).map Prod.snd).getD i

theorem realizes_dictFind (d : Dict Index Index) : Realizes (dictFind d) (dictFun d) := by
  intro i j h
  unfold dictFind at h
  unfold dictFun
  cases hf : d.find? fun e => decide (e.1 = i) with
  | none => rw [hf] at h; simp at h
  | some e => rw [hf] at h; simp at h; simp [h]

theorem dictFind_ok {d : Dict Index Index} (hk : (d.map Prod.fst).Nodup) {i : Index} (hi : i ∈ d.map Prod.fst) :
    dictFind d i = .ok (dictFun d i) ∧ (i, dictFun d i) ∈ d := by
  unfold dictFind dictFun
  cases hf : d.find? fun e => decide (e.1 = i) with
  | none =>
    rw [List.find?_eq_none] at hf
    obtain ⟨e, he, rfl⟩ := List.mem_map.1 hi
    exact absurd (hf e he) (by simp)
  | some e =>
    refine ⟨rfl, ?_⟩
    have h1 := List.mem_of_find?_eq_some hf
    have h2 := List.find?_some hf
    simp only [decide_eq_true_eq] at h2
    subst h2
    simpa using h1

theorem MinimalDict.injOn {d : Dict Index Index} {next : Space → Nat} (h : MinimalDict d next) {i j : Index} (hi : i ∈ d.map Prod.fst)
    (hj : j ∈ d.map Prod.fst) (e : dictFun d i = dictFun d j) : i = j := by
  have h1 := (dictFind_ok h.keys hi).2
  have h2 := (dictFind_ok h.keys hj).2
  rw [e] at h1
  have := List.inj_on_of_nodup_map h.vals h1 h2 rfl
  exact (Prod.mk.inj this).1

end Dsrg
