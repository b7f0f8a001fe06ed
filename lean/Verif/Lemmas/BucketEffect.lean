import Verif.Lemmas.AmbitPrograms

/-!
The effect of the code of one bucket and of a sequence of buckets.
-/

namespace Dsrg

section
variable {O R M : Type} [Fintype O] [DecidableEq O] [Inhabited O] [CommRing R] [Algebra ℚ R] [AddCommGroup M] [Module R M]

/-- What a term adds to `temp` (or, if it needs no permutation, to the target). -/
def contribution (orb : Orbitals O) (I : Interp O R M) (t : Term) (os : List O) : R :=
  algebraMap ℚ R t.printed * scatter orb I t.tensors t.sqOp (openRef t.sqOp) os

/-- What is added to the target when `temp` holds `T`. -/
def redistribute (orb : Orbitals O) (t : Term) (T : List O → R) (os : List O) : R :=
  (t.rows.map fun r => (r.1 : R) * ∑ σ ∈ orb.assignments (openRef t.sqOp).toFinset,
    if (r.2.1 ++ r.2.2).map (extendTo σ) = os then T ((openRef t.sqOp).map (extendTo σ)) else 0).sum

theorem mem_openRef (op : SqOp) (i : Index) : i ∈ openRef op ↔ i ∈ op.upper.list ∨ i ∈ op.lower.list := by
  unfold openRef; rw [List.mem_append, or_comm]

/-- All entries lie in the given spaces. -/
def InBlock (orb : Orbitals O) (sp : List Space) (os : List O) : Prop := List.Forall₂ orb.In sp os

theorem inBlock_assign (orb : Orbitals O) {S : Finset Index} {σ : S → O} (hσ : σ ∈ orb.assignments S) (l : List Index) (hl : ∀ i ∈ l, i ∈ S) :
    InBlock orb (l.map Index.space) (l.map (extendTo σ)) := by
  unfold InBlock
  rw [List.forall₂_map_left_iff, List.forall₂_map_right_iff, List.forall₂_same]
  intro i hi
  have h := hl i hi
  unfold Orbitals.assignments at hσ
  rw [Fintype.mem_piFinset] at hσ
  have := hσ ⟨i, h⟩
  rw [Finset.mem_filter] at this
  unfold extendTo
  rw [dif_pos h]
  exact this.2

theorem assign_of_inBlock (orb : Orbitals O) (l : List Index) (hn : l.Nodup) (os : List O) (h : InBlock orb (l.map Index.space) os) :
    ∃ σ ∈ orb.assignments l.toFinset, l.map (extendTo σ) = os := by
  have key : ∀ (l : List Index) (os : List O), l.Nodup → InBlock orb (l.map Index.space) os →
      ∃ f : Index → O, (∀ i ∈ l, orb.In i.space (f i)) ∧ l.map f = os := by
    intro l
    induction l with
    | nil => intro os _ h; unfold InBlock at h; cases h; exact ⟨fun _ => default, by simp, rfl⟩
    | cons i l ih =>
      intro os hn h
      unfold InBlock at h
      cases h with
      | @cons _ o _ os h1 h2 =>
        obtain ⟨f, hf, rfl⟩ := ih os (List.nodup_cons.1 hn).2 h2
        have hne : ∀ j ∈ l, j ≠ i := fun j hj h => (List.nodup_cons.1 hn).1 (h ▸ hj)
        refine ⟨fun j => if j = i then o else f j, ?_, ?_⟩
        · intro j hj
          rcases List.mem_cons.1 hj with rfl | hj
          · simpa using h1
          · simpa [hne j hj] using hf j hj
        · rw [List.map_cons]
          congr 1
          · simp
          · exact List.map_congr_left fun j hj => by simp [hne j hj]
  obtain ⟨f, hf, rfl⟩ := key l os hn h
  refine ⟨fun i => f i.1, ?_, ?_⟩
  · unfold Orbitals.assignments
    rw [Fintype.mem_piFinset]
    intro i
    rw [Finset.mem_filter]
    exact ⟨Finset.mem_univ _, hf i.1 (List.mem_toFinset.1 i.2)⟩
  · exact List.map_congr_left fun i hi => by unfold extendTo; rw [dif_pos (List.mem_toFinset.2 hi)]

theorem extendTo_inj {l : List Index} {σ τ : l.toFinset → O} (h : l.map (extendTo σ) = l.map (extendTo τ)) : σ = τ := by
  funext i
  have h1 := List.map_inj_left.1 h i.1 (List.mem_toFinset.1 i.2)
  unfold extendTo at h1
  rw [dif_pos i.2, dif_pos i.2] at h1
  exact h1

/-- An array that vanishes outside of a block, as a sum over assignments. -/
theorem block_array (orb : Orbitals O) (l : List Index) (hn : l.Nodup) (T : List O → R)
    (hT : ∀ os, ¬ InBlock orb (l.map Index.space) os → T os = 0) (os : List O) :
    T os = ∑ σ ∈ orb.assignments l.toFinset, if l.map (extendTo σ) = os then T (l.map (extendTo σ)) else 0 := by
  by_cases h : InBlock orb (l.map Index.space) os
  · obtain ⟨σ, hσ, rfl⟩ := assign_of_inBlock orb l hn os h
    rw [Finset.sum_eq_single σ]
    · rw [if_pos rfl]
    · intro τ _ hne
      rw [if_neg fun he => hne (extendTo_inj he)]
    · intro h'; exact absurd hσ h'
  · rw [hT os h]
    symm
    apply Finset.sum_eq_zero
    intro σ hσ
    rw [if_neg]
    rintro rfl
    exact h (inBlock_assign orb hσ l fun i hi => List.mem_toFinset.2 hi)

theorem contribution_block (orb : Orbitals O) (I : Interp O R M) (t : Term) (os : List O)
    (h : ¬ InBlock orb ((openRef t.sqOp).map Index.space) os) : contribution orb I t os = 0 := by
  unfold contribution scatter
  rw [Finset.sum_eq_zero, mul_zero]
  intro τ hτ
  rw [if_neg]
  rintro rfl
  refine h (inBlock_assign orb hτ _ fun i hi => ?_)
  rw [mem_labelsOf, mem_labelList]
  exact Or.inl (List.mem_append.2 ((mem_openRef _ i).1 hi))

theorem operator_contribution (orb : Orbitals O) (I : Interp O R M) (t : Term) :
    I.operator t.sqOp.lower.list.length t.sqOp.upper.list.length (contribution orb I t) = I.value orb t.printed t.tensors t.sqOp := by
  unfold contribution scatter
  rw [operator_smul, openRef, operator_scatter I _ (fun τ => extendTo τ) _ _ rfl rfl]
  rfl

/-- The operator of the distributed array. -/
theorem operator_redistribute (orb : Orbitals O) {I : Interp O R M} (hI : I.Antisymmetric) {t : Term} (hs : Shape t)
    (hne : t.nRows ≠ (1, 1)) (T : List O → R) (hT : ∀ os, ¬ InBlock orb ((openRef t.sqOp).map Index.space) os → T os = 0) :
    I.operator t.sqOp.lower.list.length t.sqOp.upper.list.length (redistribute orb t T) =
      (t.rows.length : R) • I.operator t.sqOp.lower.list.length t.sqOp.upper.list.length T := by
  obtain ⟨wa, wc, hrows, hA, hC⟩ := hs.rows hne
  have hn := List.nodup_append.1 hs.nodup
  have hTop : I.operator t.sqOp.lower.list.length t.sqOp.upper.list.length T =
      ∑ σ ∈ orb.assignments (openRef t.sqOp).toFinset, T ((openRef t.sqOp).map (extendTo σ)) •
        I.op (t.sqOp.upper.list.map (extendTo σ)) (t.sqOp.lower.list.map (extendTo σ)) := by
    have e : T = fun os => ∑ σ ∈ orb.assignments (openRef t.sqOp).toFinset,
        if (t.sqOp.lower.list ++ t.sqOp.upper.list).map (extendTo σ) = os then T ((openRef t.sqOp).map (extendTo σ)) else 0 :=
      funext fun os => block_array orb (openRef t.sqOp) hs.nodup T hT os
    conv_lhs => rw [e]
    exact operator_scatter I _ (fun τ => extendTo τ) _ _ rfl rfl _
  have key : ∀ r ∈ t.rows, I.operator t.sqOp.lower.list.length t.sqOp.upper.list.length (fun os => (r.1 : R) *
      ∑ σ ∈ orb.assignments (openRef t.sqOp).toFinset,
        if (r.2.1 ++ r.2.2).map (extendTo σ) = os then T ((openRef t.sqOp).map (extendTo σ)) else 0) =
      I.operator t.sqOp.lower.list.length t.sqOp.upper.list.length T := by
    intro r hr
    rw [hrows] at hr
    obtain ⟨a, ha', hr⟩ := List.mem_flatMap.1 hr
    obtain ⟨b, hb', rfl⟩ := List.mem_map.1 hr
    obtain ⟨w1, hw1, rfl⟩ := List.mem_map.1 ha'
    obtain ⟨w2, hw2, rfl⟩ := List.mem_map.1 hb'
    simp only
    rw [operator_smul, operator_scatter I _ (fun τ => extendTo τ) w1 w2 (hA.perm w1 hw1).length_eq (hC.perm w2 hw2).length_eq, hTop,
      Finset.smul_sum]
    refine Finset.sum_congr rfl fun τ _ => ?_
    have e1 : I.op (t.sqOp.upper.list.map (extendTo τ)) (w1.map (extendTo τ)) =
        relSign t.sqOp.upper.list w2 • I.op (w2.map (extendTo τ)) (w1.map (extendTo τ)) :=
      (antisymmFn_map (F := fun u => I.op u (w1.map (extendTo τ))) (fun pre a b post => hI.opUpper pre a b post _) (extendTo τ)).relSign
        hn.2.1 (hC.perm w2 hw2).symm
    have e2 : I.op (t.sqOp.upper.list.map (extendTo τ)) (t.sqOp.lower.list.map (extendTo τ)) =
        relSign t.sqOp.lower.list w1 • I.op (t.sqOp.upper.list.map (extendTo τ)) (w1.map (extendTo τ)) :=
      (antisymmFn_map (F := fun l => I.op (t.sqOp.upper.list.map (extendTo τ)) l) (fun pre a b post => hI.opLower _ pre a b post)
        (extendTo τ)).relSign hn.1 (hA.perm w1 hw1).symm
    rw [e2, e1, Int.cast_smul_eq_zsmul, mul_smul, smul_comm (relSign t.sqOp.upper.list w2) (T _),
      smul_comm (relSign t.sqOp.lower.list w1) (T _)]
  unfold redistribute
  rw [operator_sum, List.map_congr_left key, List.map_const', List.sum_replicate, Nat.cast_smul_eq_nsmul]

theorem redistribute_congr_term (orb : Orbitals O) (t : Term) {T T' : List O → R} (h : ∀ os, T os = T' os) :
    redistribute orb t T = redistribute orb t T' := by
  have : T = T' := funext h
  rw [this]

/-- Distributing `temp`. -/
theorem run_term_rows (orb : Orbitals O) (s : Store O R) {t : Term} (hs : Shape t) (hne : t.nRows ≠ (1, 1)) (name : PyStr) :
    (∀ nm, nm ≠ targetName name t.sqOp → runCode orb s (t.rows.map fun r =>
        AmbitStmt.update ⟨targetName name t.sqOp, r.2.1 ++ r.2.2⟩ (decide (r.1 = 1)) 1 [⟨tempName, openRef t.sqOp⟩]) nm = s nm) ∧
    ∀ os, runCode orb s (t.rows.map fun r =>
        AmbitStmt.update ⟨targetName name t.sqOp, r.2.1 ++ r.2.2⟩ (decide (r.1 = 1)) 1 [⟨tempName, openRef t.sqOp⟩]) (targetName name t.sqOp) os =
      s (targetName name t.sqOp) os + redistribute orb t (s tempName) os := by
  obtain ⟨wa, wc, hrows, hA, hC⟩ := hs.rows hne
  refine run_rows orb s (targetName name t.sqOp) (targetName_ne _ _) (openRef t.sqOp) t.rows ?_ ?_
  · intro r hr
    rw [hrows] at hr
    obtain ⟨a, ha', hr⟩ := List.mem_flatMap.1 hr
    obtain ⟨b, hb', rfl⟩ := List.mem_map.1 hr
    obtain ⟨w1, hw1, rfl⟩ := List.mem_map.1 ha'
    obtain ⟨w2, hw2, rfl⟩ := List.mem_map.1 hb'
    exact (hA.perm w1 hw1).append (hC.perm w2 hw2)
  · intro r hr
    rw [hrows] at hr
    obtain ⟨a, ha', hr⟩ := List.mem_flatMap.1 hr
    obtain ⟨b, hb', rfl⟩ := List.mem_map.1 hr
    obtain ⟨w1, hw1, rfl⟩ := List.mem_map.1 ha'
    obtain ⟨w2, hw2, rfl⟩ := List.mem_map.1 hb'
    simp only
    rcases relSign_pm t.sqOp.lower.list w1 with h | h <;> rcases relSign_pm t.sqOp.upper.list w2 with h' | h' <;> simp [h, h']

/-- One statement of a term. -/
theorem run_term_update (orb : Orbitals O) (s : Store O R) {I : Interp O R M} (hH : I.Hermitian) {t : Term} (hs : Shape t)
    (ha : ArraysHold s I t.tensors) (nm : PyStr) :
    AmbitStmt.exec orb s (.update ⟨nm, openRef t.sqOp⟩ true t.printed (t.tensors.map Tensor.arrayRef)) =
      Function.update s nm fun os => s nm os + contribution orb I t os := by
  rw [exec_term orb s (op := t.sqOp) ha hH hs.tensors _ _ (mem_openRef t.sqOp)]
  congr 1
  funext os
  rw [if_pos rfl, one_mul]; rfl

theorem run_init (orb : Orbitals O) (s : Store O R) (init : Bool) (sp : List Space) :
    runCode orb s (if init then [AmbitStmt.build sp] else []) =
      Function.update s tempName fun os => if init then 0 else s tempName os := by
  cases init with
  | true => rfl
  | false =>
    have : (fun os => s tempName os) = s tempName := rfl
    simp only [Bool.false_eq_true, if_false, this, Function.update_eq_self]
    rfl

/-- The code of a bucket of terms that need permutations. -/
theorem ambitTerms_permuted (orb : Orbitals O) {I : Interp O R M} (hH : I.Hermitian) (terms : List Term) (hne : terms ≠ [])
    (hs : ∀ t ∈ terms, Shape t) (hn : ∀ t ∈ terms, t.nRows ≠ (1, 1)) :
    ∀ (init : Bool), ∃ prog, ambitTerms init terms = .ok prog ∧ ∀ s : Store O R, (∀ t ∈ terms, ArraysHold s I t.tensors) →
      (∀ os, runCode orb s prog (targetName ['C'] (terms.getLast hne).sqOp) os = s (targetName ['C'] (terms.getLast hne).sqOp) os +
        redistribute orb (terms.getLast hne) (fun os => (if init then 0 else s tempName os) + (terms.map fun t => contribution orb I t os).sum) os) ∧
      ∀ nm, nm ≠ targetName ['C'] (terms.getLast hne).sqOp → nm ≠ tempName → runCode orb s prog nm = s nm := by
  induction terms with
  | nil => exact absurd rfl hne
  | cons t rest ih =>
    intro init
    have hst := hs t (by simp)
    have hnt := hn t (by simp)
    cases rest with
    | nil =>
      refine ⟨_, hst.code ['C'] false init, fun s ha => ?_⟩
      rw [if_neg hnt]
      simp only [Bool.false_eq_true, if_false, List.getLast_singleton, List.map_cons, List.map_nil, List.sum_cons, List.sum_nil, add_zero]
      have e : runCode orb s ((if init then [AmbitStmt.build ((openRef t.sqOp).map Index.space)] else []) ++
          [.update ⟨tempName, openRef t.sqOp⟩ true t.printed (t.tensors.map Tensor.arrayRef)]) =
          Function.update s tempName fun os => (if init then 0 else s tempName os) + contribution orb I t os := by
        rw [runCode_append, run_init, runCode_cons, run_term_update orb _ hH hst ((ha t (by simp)).update_temp _), Function.update_idem]
        rw [Function.update_self]; rfl
      obtain ⟨r1, r2⟩ := run_term_rows orb (Function.update s tempName fun os => (if init then 0 else s tempName os) + contribution orb I t os)
        hst hnt ['C']
      rw [runCode_append, e]
      refine ⟨fun os => ?_, fun nm h1 h2 => ?_⟩
      · rw [r2 os, Function.update_of_ne (targetName_ne _ _), Function.update_self]
      · rw [r1 nm h1, Function.update_of_ne h2]
    | cons t' rest =>
      obtain ⟨prog, hp, hrun⟩ := ih (by simp) (fun x hx => hs x (List.mem_cons_of_mem _ hx)) (fun x hx => hn x (List.mem_cons_of_mem _ hx)) false
      refine ⟨_, by rw [ambitTerms, hst.code ['C'] true init, hp]; rfl, fun s ha => ?_⟩
      rw [if_neg hnt]
      simp only [if_true, List.append_nil]
      have e : runCode orb s ((if init then [AmbitStmt.build ((openRef t.sqOp).map Index.space)] else []) ++
          [.update ⟨tempName, openRef t.sqOp⟩ true t.printed (t.tensors.map Tensor.arrayRef)]) =
          Function.update s tempName fun os => (if init then 0 else s tempName os) + contribution orb I t os := by
        rw [runCode_append, run_init, runCode_cons, run_term_update orb _ hH hst ((ha t (by simp)).update_temp _), Function.update_idem]
        rw [Function.update_self]; rfl
      rw [runCode_append, e]
      obtain ⟨h1, h2⟩ := hrun (Function.update s tempName fun os => (if init then 0 else s tempName os) + contribution orb I t os)
        (fun x hx => (ha x (List.mem_cons_of_mem _ hx)).update_temp _)
      rw [List.getLast_cons (by simp)]
      refine ⟨fun os => ?_, fun nm n1 n2 => ?_⟩
      · rw [h1 os, Function.update_of_ne (targetName_ne _ _), Function.update_self]
        congr 1
        refine congrFun (redistribute_congr_term orb _ fun os => ?_) os
        simp only [Bool.false_eq_true, if_false]
        simp only [List.map_cons, List.sum_cons, add_assoc]
      · rw [h2 nm n1 n2, Function.update_of_ne n2]

theorem ArraysHold.of_eq {s s' : Store O R} {I : Interp O R M} {ts : List Tensor} (h : ArraysHold s I ts)
    (he : ∀ x ∈ ts, s' x.arrayName = s x.arrayName) : ArraysHold s' I ts := by
  intro x hx u l hu hl
  rw [he x hx]
  exact h x hx u l hu hl

/-- The code of a bucket of terms that need no permutations. -/
theorem ambitTerms_direct (orb : Orbitals O) {I : Interp O R M} (hH : I.Hermitian) (target : PyStr) (terms : List Term)
    (hs : ∀ t ∈ terms, Shape t) (hn : ∀ t ∈ terms, t.nRows = (1, 1)) (ht : ∀ t ∈ terms, targetName ['C'] t.sqOp = target)
    (hx : ∀ t ∈ terms, ∀ x ∈ t.tensors, x.arrayName ≠ target) :
    ∀ (init : Bool), ∃ prog, ambitTerms init terms = .ok prog ∧ ∀ s : Store O R, (∀ t ∈ terms, ArraysHold s I t.tensors) →
      (∀ os, runCode orb s prog target os = s target os + (terms.map fun t => contribution orb I t os).sum) ∧
      ∀ nm, nm ≠ target → runCode orb s prog nm = s nm := by
  induction terms with
  | nil => exact fun init => ⟨[], rfl, fun s _ => ⟨fun os => by simp [runCode], fun _ _ => rfl⟩⟩
  | cons t rest ih =>
    intro init
    have hst := hs t (by simp)
    have hnt := hn t (by simp)
    have htt := ht t (by simp)
    cases rest with
    | nil =>
      refine ⟨_, hst.code ['C'] false init, fun s ha => ?_⟩
      rw [if_pos hnt, htt, runCode_cons, run_term_update orb s hH hst (ha t (by simp))]
      refine ⟨fun os => ?_, fun nm h1 => Function.update_of_ne h1 _ _⟩
      show Function.update s target _ target os = _
      rw [Function.update_self]; simp
    | cons t' rest =>
      obtain ⟨prog, hp, hrun⟩ := ih (fun x hx => hs x (List.mem_cons_of_mem _ hx)) (fun x hx => hn x (List.mem_cons_of_mem _ hx))
        (fun x hx => ht x (List.mem_cons_of_mem _ hx)) (fun x h => hx x (List.mem_cons_of_mem _ h)) false
      refine ⟨_, by rw [ambitTerms, hst.code ['C'] true init, hp]; rfl, fun s ha => ?_⟩
      rw [if_pos hnt, htt, runCode_append, runCode_cons, run_term_update orb s hH hst (ha t (by simp))]
      obtain ⟨h1, h2⟩ := hrun (Function.update s target fun os => s target os + contribution orb I t os) (fun u hu =>
        (ha u (List.mem_cons_of_mem _ hu)).of_eq fun x hx' => Function.update_of_ne (hx u (List.mem_cons_of_mem _ hu) x hx') _ _)
      refine ⟨fun os => ?_, fun nm n1 => ?_⟩
      · show runCode orb (Function.update s target _) prog target os = _
        simp only [h1 os, Function.update_self, List.map_cons, List.sum_cons, add_assoc]
      · show runCode orb (Function.update s target _) prog nm = _
        rw [h2 nm n1, Function.update_of_ne n1]

end

end Dsrg
