import Verif.Lemmas.Commutator

/-!
C35: the contractions left out by the connected mode cancel in a commutator.
-/

namespace Dsrg

variable {O R M : Type} [DecidableEq O] [CommRing R] [AddCommGroup M] [Module R M]

/-- The general mode is the connected mode plus the contractions without pair contraction. -/
theorem general_eq_connected (I : Interp O R M) (σ : Index → O) {A B : SqOp} (h : GoodOps [A, B]) {maxCu maxOpen minOpen : Int}
    {expand parG parC : Bool} {G C : List (List (Int × List Tensor × SqOp))}
    (hG : GeneralRun [A, B] maxCu maxOpen minOpen expand parG G) (hC : ConnectedRun [A, B] maxCu maxOpen minOpen expand parC C) :
    ∃ cs : List (List Tensor), (cs.Pairwise fun a b => ¬ a.Perm b) ∧
      (∀ ts, (∃ c ∈ cs, c.Perm ts) ↔ Allowed [A, B] maxCu maxOpen minOpen ts ∧ ¬ HasPair ts) ∧
      I.rowsValue σ G.flatten = I.rowsValue σ C.flatten + (cs.map (contractionValue I σ [A, B] expand)).sum := by
  classical
  obtain ⟨csG, g1, g2, g3⟩ := general_spec h hG
  obtain ⟨csC, c1, c2, c3, c4⟩ := connected_spec h hC
  have hpair : ∀ {a b : List Tensor}, a.Perm b → (HasPair a ↔ HasPair b) := by
    intro a b hp
    exact exists_congr fun t => and_congr_left fun _ => hp.mem_iff
  have hval : ∀ cs : List (List Tensor), I.rowsValue σ (cs.flatMap (resultRows [A, B] expand)) =
      (cs.map (contractionValue I σ [A, B] expand)).sum := by
    intro cs
    rw [rowsValue_flatMap]
    congr 1
    exact List.map_congr_left fun c _ => rowsValue_resultRows I σ _ _ _
  refine ⟨csG.filter fun c => decide (¬ HasPair c), g1.sublist List.filter_sublist, ?_, ?_⟩
  · intro ts
    rw [← g2]
    constructor
    · rintro ⟨c, hc, hp⟩
      rw [List.mem_filter] at hc
      exact ⟨⟨c, hc.1, hp⟩, fun hh => (by simpa using hc.2 : ¬ HasPair c) ((hpair hp).2 hh)⟩
    · rintro ⟨⟨c, hc, hp⟩, hn⟩
      exact ⟨c, List.mem_filter.2 ⟨hc, by simpa using fun hh => hn ((hpair hp).1 hh)⟩, hp⟩
  · rw [rowsValue_perm I σ g3.flatten, ← List.flatMap_def, hval, rowsValue_perm I σ c4, hval]
    have e1 : (csC.map (contractionValue I σ [A, B] expand)).sum =
        ((csG.filter fun c => decide (HasPair c)).map (contractionValue I σ [A, B] expand)).sum := by
      refine sum_classes c1 (g1.sublist List.filter_sublist) ?_ _ ?_
      · intro ts
        constructor
        · intro hc
          obtain ⟨hA, _, hp⟩ := c2 ts hc
          obtain ⟨c, hc, hcp⟩ := (g2 ts).2 hA
          exact ⟨c, List.mem_filter.2 ⟨hc, by simpa using (hpair hcp).2 hp⟩, hcp⟩
        · rintro ⟨c, hc, hp⟩
          rw [List.mem_filter] at hc
          have hA := (g2 ts).1 ⟨c, hc.1, hp⟩
          have hh : HasPair ts := (hpair hp).1 (by simpa using hc.2)
          exact c3 (Or.inl (by simp)) ts ⟨hA, ((C32_two_operators _ h rfl _ _ _ ts hA).1.2 hh).1, hh⟩
      · intro a ha b hp
        exact (contractionValue_perm I σ h expand ((c2 a ⟨a, ha, List.Perm.refl _⟩).1.proper h) hp).symm
    rw [e1, ← List.sum_append, ← List.map_append]
    refine ((List.Perm.map _ ?_).sum_eq)
    have := List.filter_append_perm (fun c : List Tensor => decide (HasPair c)) csG
    simpa using this.symm

/-- C35: for two strings, one of which has an even number of operators, leaving out the uncontracted product and the purely
cumulant contractions does not change the commutator: the values of the general and the connected mode agree, for every
interpretation with antisymmetric tensors and every assignment of orbitals to labels. -/
theorem C35_commutator (A B : SqOp) (h : GoodOps [A, B])
    (heven : Even (A.upper.size + A.lower.size) ∨ Even (B.upper.size + B.lower.size))
    (maxCu maxOpen minOpen : Int) (expand p1 p2 p3 p4 : Bool) (gAB gBA cAB cBA : List (List (Int × List Tensor × SqOp)))
    (hgAB : GeneralRun [A, B] maxCu maxOpen minOpen expand p1 gAB) (hgBA : GeneralRun [B, A] maxCu maxOpen minOpen expand p2 gBA)
    (hcAB : ConnectedRun [A, B] maxCu maxOpen minOpen expand p3 cAB) (hcBA : ConnectedRun [B, A] maxCu maxOpen minOpen expand p4 cBA)
    (I : Interp O R M) (hI : I.Antisymmetric) (σ : Index → O) :
    I.rowsValue σ gAB.flatten - I.rowsValue σ gBA.flatten = I.rowsValue σ cAB.flatten - I.rowsValue σ cBA.flatten := by
  obtain ⟨cs, s1, s2, s3⟩ := general_eq_connected I σ h hgAB hcAB
  obtain ⟨ds, t1, t2, t3⟩ := general_eq_connected I σ h.symm hgBA hcBA
  have hmir : ∀ {A B : SqOp}, GoodOps [A, B] → ∀ {ts : List Tensor}, Allowed [A, B] maxCu maxOpen minOpen ts → ¬ HasPair ts →
      (ts.map (mirror A B)).map (mirror B A) = ts := by
    intro A B h ts hA hn
    rw [List.map_map]
    conv_rhs => rw [← List.map_id ts]
    exact List.map_congr_left fun t ht => ((hA.cumulants h hn t ht).mirrored h).1.back
  have key : (cs.map (contractionValue I σ [A, B] expand)).sum = (ds.map (contractionValue I σ [B, A] expand)).sum := by
    have e1 : cs.map (contractionValue I σ [A, B] expand) =
        (cs.map (List.map (mirror A B))).map (contractionValue I σ [B, A] expand) := by
      rw [List.map_map]
      apply List.map_congr_left
      intro c hc
      obtain ⟨hA, hn⟩ := (s2 c).1 ⟨c, hc, List.Perm.refl _⟩
      exact (contractionValue_mirror hI σ h heven expand hA hn).symm
    rw [e1]
    refine sum_classes ?_ t1 ?_ _ ?_
    · rw [List.pairwise_map]
      refine List.Pairwise.imp_of_mem ?_ s1
      intro a b ha hb hab hp
      obtain ⟨hA, hn⟩ := (s2 a).1 ⟨a, ha, List.Perm.refl _⟩
      obtain ⟨hA', hn'⟩ := (s2 b).1 ⟨b, hb, List.Perm.refl _⟩
      have := hp.map (mirror B A)
      rw [hmir h hA hn, hmir h hA' hn'] at this
      exact hab this
    · intro ts
      rw [t2]
      constructor
      · rintro ⟨c', hc', hp⟩
        obtain ⟨c, hc, rfl⟩ := List.mem_map.1 hc'
        obtain ⟨hA, hn⟩ := (s2 c).1 ⟨c, hc, List.Perm.refl _⟩
        have := hA.mirror h hn
        obtain ⟨d, hd, hdp⟩ := (t2 _).2 this
        exact (t2 ts).1 ⟨d, hd, hdp.trans hp⟩
      · rintro ⟨hA, hn⟩
        have := hA.mirror h.symm hn
        obtain ⟨c, hc, hp⟩ := (s2 _).2 this
        refine ⟨_, List.mem_map.2 ⟨c, hc, rfl⟩, ?_⟩
        have := hp.map (mirror A B)
        rwa [hmir h.symm hA hn] at this
    · intro a ha b hp
      obtain ⟨c, hc, rfl⟩ := List.mem_map.1 ha
      obtain ⟨hA, hn⟩ := (s2 c).1 ⟨c, hc, List.Perm.refl _⟩
      exact (contractionValue_perm I σ h.symm expand ((hA.mirror h hn).1.proper h.symm) hp).symm
  rw [s3, t3, key, add_sub_add_right_eq_sub]

/-- The hypotheses: two two-body strings, their runs, and an interpretation with a non-zero two-body cumulant. -/
example : GoodOps [exOp, exOp'] ∧ Even (exOp.upper.size + exOp.lower.size) ∧
    (∃ g g' c c', GeneralRun [exOp, exOp'] 3 8 0 true false g ∧ GeneralRun [exOp', exOp] 3 8 0 true false g' ∧
      ConnectedRun [exOp, exOp'] 3 8 0 true false c ∧ ConnectedRun [exOp', exOp] 3 8 0 true false c') ∧
    ∃ I : Interp Bool ℤ ℤ, I.Antisymmetric ∧ I.tensor .cumulant ['L'] [false, true] [true, false] = -1 := by
  have h : GoodOps [exOp, exOp'] := by decide +kernel
  obtain ⟨g, hg⟩ := C34_general_total _ h 3 8 0 true false
  obtain ⟨g', hg'⟩ := C34_general_total _ h.symm 3 8 0 true false
  obtain ⟨c, hc⟩ := C34_connected_total _ h 3 8 0 true false
  obtain ⟨c', hc'⟩ := C34_connected_total _ h.symm 3 8 0 true false
  refine ⟨h, by decide, ⟨g, g', c, c', hg, hg', hc, hc'⟩, ?_⟩
  let f : List Bool → ℤ := fun u => if u = [false, true] then 1 else if u = [true, false] then -1 else 0
  have hf : StrongAnti f := by
    intro pre post a b
    cases pre with
    | nil => cases post with
      | nil => revert a b; decide
      | cons _ _ => simp [f]
    | cons x pre => cases pre <;> cases post <;> simp [f]
  refine ⟨⟨fun _ _ u l => f u * f l, fun u l => f u * f l⟩, ⟨?_, ?_, ?_, ?_⟩, by decide⟩
  · intro _ _ pre a b post l; show f _ * f l = _; rw [hf]; simp
  · intro _ _ u pre a b post; show f u * f _ = _; rw [hf]; simp
  · intro pre a b post l; show f _ * f l = _; rw [hf]; simp
  · intro u pre a b post; show f u * f _ = _; rw [hf]; simp

end Dsrg
