import Verif.Lemmas.AmbitCode
import Verif.Lemmas.PermuteCount

/-!
The effect of the statements written by `Term.ambit`.
-/

namespace Dsrg

theorem permuteIndices_eq (x : SqOp) (he : x.isEmpty = false) (p1 p2 : List (List Index)) {ra rc : List (Int × List Index)}
    (h1 : x.lower.ambitPermuteFormat p2 = .ok ra) (h2 : x.upper.ambitPermuteFormat p1 = .ok rc) :
    x.permuteIndices p1 p2 false = .ok (ra.flatMap fun a => rc.map fun b => (a.1 * b.1, a.2, b.2)) := by
  unfold IndicesPair.permuteIndices
  rw [he]
  simp only [Bool.false_eq_true, if_false, h1, h2, bind, Except.bind, pure, Except.pure]
  have : ∀ l : List (Int × List Index), l.mapM (m := Except PyErr)
      (fun r1 => Except.ok (rc.map fun r2 => (r1.1 * r2.1, r1.2, r2.2))) = .ok (l.map fun a => rc.map fun b => (a.1 * b.1, a.2, b.2)) := by
    intro l
    induction l with
    | nil => rfl
    | cons a l ih => rw [List.mapM_cons, ih]; rfl
  rw [this, List.flatMap_def]

theorem SplitsOpen.pure {sets : List (List Index)} {ops : List Index} {p : List (List Index)} (h : SplitsOpen sets ops p) : PureBlocks p := by
  intro b hb i hi j hj
  have mi : i ∈ ops := h.perm.mem_iff.1 (List.mem_flatten.2 ⟨b, hb, hi⟩)
  have mj : j ∈ ops := h.perm.mem_iff.1 (List.mem_flatten.2 ⟨b, hb, hj⟩)
  have := ((h.together i mi j mj).1 ⟨b, hb, hi, hj⟩).1
  unfold Index.isBeta
  rw [this]

theorem relSign_pm {ι : Type} [DecidableEq ι] (a b : List ι) : relSign a b = 1 ∨ relSign a b = -1 :=
  mul_self_eq_one_iff.1 (relSign_sq a b)

section
variable {O R M : Type} [Fintype O] [DecidableEq O] [Inhabited O] [CommRing R] [Algebra ℚ R] [AddCommGroup M] [Module R M]

theorem ArraysHold.update_temp {s : Store O R} {I : Interp O R M} {ts : List Tensor} (h : ArraysHold s I ts) (v : List O → R) :
    ArraysHold (Function.update s tempName v) I ts := by
  intro x hx u l hu hl
  rw [Function.update_of_ne x.arrayName_ne]
  exact h x hx u l hu hl

/-- What is added to the target: `wa`, `wc` are the arrangements of the two sides. -/
def filled (orb : Orbitals O) (I : Interp O R M) (ts : List Tensor) (op : SqOp) (wa wc : List (List Index)) (c : ℚ) (os : List O) : R :=
  (wa.map fun w1 => (wc.map fun w2 => ((relSign op.lower.list w1 * relSign op.upper.list w2 : ℤ) : R) *
    (algebraMap ℚ R c * scatter orb I ts op (w1 ++ w2) os)).sum).sum

theorem sum_flatMap_map {α β : Type} (l : List α) (f : α → List β) (g : β → R) :
    ((l.flatMap f).map g).sum = (l.map fun a => ((f a).map g).sum).sum := by
  induction l with
  | nil => rfl
  | cons a l ih => simp [ih]

/-- `temp` holds `c` times the array of the term (accumulated), then it is distributed. -/
theorem run_distribute (orb : Orbitals O) (s : Store O R) {I : Interp O R M} {ts : List Tensor} {op : SqOp} (target : PyStr)
    (ht : target ≠ tempName) (c : ℚ) (wa wc : List (List Index)) (ha : ∀ w ∈ wa, w.Perm op.lower.list)
    (hc : ∀ w ∈ wc, w.Perm op.upper.list) (hL : ∀ i ∈ openRef op, i ∈ labelsOf ts op)
    (hs : s tempName = fun os => algebraMap ℚ R c * scatter orb I ts op (openRef op) os) :
    (∀ nm, nm ≠ target → runCode orb s (((wa.map fun w => (relSign op.lower.list w, w)).flatMap fun a =>
        (wc.map fun w => (relSign op.upper.list w, w)).map fun b => ((a.1 * b.1, a.2, b.2) : Int × List Index × List Index)).map fun r =>
          AmbitStmt.update ⟨target, r.2.1 ++ r.2.2⟩ (decide (r.1 = 1)) 1 [⟨tempName, openRef op⟩]) nm = s nm) ∧
    ∀ os, runCode orb s (((wa.map fun w => (relSign op.lower.list w, w)).flatMap fun a =>
        (wc.map fun w => (relSign op.upper.list w, w)).map fun b => ((a.1 * b.1, a.2, b.2) : Int × List Index × List Index)).map fun r =>
          AmbitStmt.update ⟨target, r.2.1 ++ r.2.2⟩ (decide (r.1 = 1)) 1 [⟨tempName, openRef op⟩]) target os =
      s target os + filled orb I ts op wa wc c os := by
  obtain ⟨r1, r2⟩ := run_rows orb s target ht (openRef op) ((wa.map fun w => (relSign op.lower.list w, w)).flatMap fun a =>
        (wc.map fun w => (relSign op.upper.list w, w)).map fun b => ((a.1 * b.1, a.2, b.2) : Int × List Index × List Index)) (by
      intro r hr
      obtain ⟨a, ha', hr⟩ := List.mem_flatMap.1 hr
      obtain ⟨b, hb', rfl⟩ := List.mem_map.1 hr
      obtain ⟨w1, hw1, rfl⟩ := List.mem_map.1 ha'
      obtain ⟨w2, hw2, rfl⟩ := List.mem_map.1 hb'
      exact (ha w1 hw1).append (hc w2 hw2)) (by
      intro r hr
      obtain ⟨a, ha', hr⟩ := List.mem_flatMap.1 hr
      obtain ⟨b, hb', rfl⟩ := List.mem_map.1 hr
      obtain ⟨w1, hw1, rfl⟩ := List.mem_map.1 ha'
      obtain ⟨w2, hw2, rfl⟩ := List.mem_map.1 hb'
      simp only
      rcases relSign_pm op.lower.list w1 with h | h <;> rcases relSign_pm op.upper.list w2 with h' | h' <;> simp [h, h'])
  refine ⟨r1, fun os => ?_⟩
  rw [r2 os, sum_flatMap_map]
  congr 1
  unfold filled
  rw [List.map_map]
  refine congrArg List.sum (List.map_congr_left fun w1 hw1 => ?_)
  simp only [Function.comp_apply]
  rw [List.map_map, List.map_map]
  refine congrArg List.sum (List.map_congr_left fun w2 hw2 => ?_)
  simp only [Function.comp_apply]
  congr 1
  rw [hs]
  have e : ∀ σ : (openRef op).toFinset → O, (if (w1 ++ w2).map (extendTo σ) = os then
      algebraMap ℚ R c * scatter orb I ts op (openRef op) ((openRef op).map (extendTo σ)) else 0) =
      algebraMap ℚ R c * (if (w1 ++ w2).map (extendTo σ) = os then scatter orb I ts op (openRef op) ((openRef op).map (extendTo σ)) else 0) := by
    intro σ; split_ifs <;> simp
  rw [Finset.sum_congr rfl fun σ _ => e σ, ← Finset.mul_sum]
  congr 1
  unfold scatter
  refine sum_restrict orb (S := labelsOf ts op) (L := (openRef op).toFinset) ?_ (w1 ++ w2) (openRef op) ?_ ?_ os _
  · intro i hi; exact hL i (List.mem_toFinset.1 hi)
  · intro i hi
    exact List.mem_toFinset.2 (((ha w1 hw1).append (hc w2 hw2)).mem_iff.1 hi)
  · intro i; simp

theorem ambit_effect (orb : Orbitals O) (s : Store O R) {I : Interp O R M} {ts : List Tensor} {op : SqOp} {c : ℚ} {t : Term}
    (ht : Term.make ts op c = .ok t) (hop : op.Constructed) (hts : ∀ x ∈ ts, x.Constructed) (hanti : op.upper.ty.isAntisym = true)
    (hd : t.diag = ∅) (hs : ArraysHold s I ts) (hH : I.Hermitian) (name : PyStr) (declared : Bool) :
    ∃ prog wa wc na nc, t.ambit name false true declared = .ok prog ∧
      SideRows op.lower.list t.permPartitionOpen.2 wa na ∧ SideRows op.upper.list t.permPartitionOpen.1 wc nc ∧
      (∀ os, runCode orb s prog (targetName name op) os = s (targetName name op) os + filled orb I ts op wa wc
        (c * ((op.upper.list.length.factorial * op.lower.list.length.factorial : ℕ) : ℚ) / ((nc * na : ℕ) : ℚ)) os) ∧
      ∀ nm, nm ≠ targetName name op → nm ≠ tempName → runCode orb s prog nm = s nm := by
  obtain ⟨m1, m2, m3, m4⟩ := Term.make_ok.1 ht
  have hsq : t.sqOp = op := by rw [m4]
  have hco : t.coeff = c := by rw [m4]
  have hperm : t.tensors.Perm ts := by rw [m4]; exact sortTensors_perm ts
  obtain ⟨hU, hL⟩ := Term.permPartitionOpen_spec ht hop hd
  have htyL : op.lower.ty.isAntisym = true := by rw [← (IndicesPair.make_eq hop.2.2).2]; exact hanti
  have hwU : op.upper.WF := (Indices.make_eq hop.1).2
  have hwL : op.lower.WF := (Indices.make_eq hop.2.1).2
  have hts' : ∀ x ∈ t.tensors, x.Constructed := fun x hx => hts x (hperm.mem_iff.1 hx)
  have hs' : ArraysHold s I t.tensors := fun x hx => hs x (hperm.mem_iff.1 hx)
  have hscat : ∀ w os, scatter orb I t.tensors op w os = scatter orb I ts op w os := by
    intro w os
    unfold scatter
    rw [labelsOf_perm hperm]
    simp only [I.pval_perm _ hperm]
  have hopen : ∀ i, i ∈ openRef op ↔ i ∈ op.upper.list ∨ i ∈ op.lower.list := by
    intro i; unfold openRef; rw [List.mem_append, or_comm]
  have hopen' : ∀ i ∈ openRef op, i ∈ labelsOf ts op := by
    intro i hi
    rw [mem_labelsOf, mem_labelList]
    exact Or.inl (List.mem_append.2 ((hopen i).1 hi))
  have hcard : ¬ (t.diag.card ≠ 0) := by rw [hd]; simp
  unfold Term.ambit
  rw [if_neg hcard]
  simp only [hsq, hco, IndicesPair.nMultisetPermutation, IndicesPair.existPermuteFormat, bind, Except.bind, pure, Except.pure]
  obtain ⟨wc, nc, hrc, hnc, hSC⟩ := sideRows_all op.upper hanti hwU t.permPartitionOpen.1 hU.perm hU.pure
  obtain ⟨wa, na, hra, hna, hSA⟩ := sideRows_all op.lower htyL hwL t.permPartitionOpen.2 hL.perm hL.pure
  obtain ⟨bu, hbu⟩ : ∃ b, op.upper.existPermuteFormat t.permPartitionOpen.1 = .ok b := by
    unfold Indices.nMultisetPermutation at hnc
    cases hv : op.upper.isValidPartition t.permPartitionOpen.1 with
    | error e => rw [hv] at hnc; cases hnc
    | ok v =>
      cases hx : op.upper.existPermuteFormat t.permPartitionOpen.1 with
      | error e => rw [hv, hx] at hnc; cases hnc
      | ok b => exact ⟨b, rfl⟩
  obtain ⟨bl, hbl⟩ : ∃ b, op.lower.existPermuteFormat t.permPartitionOpen.2 = .ok b := by
    unfold Indices.nMultisetPermutation at hna
    cases hv : op.lower.isValidPartition t.permPartitionOpen.2 with
    | error e => rw [hv] at hna; cases hna
    | ok v =>
      cases hx : op.lower.existPermuteFormat t.permPartitionOpen.2 with
      | error e => rw [hv, hx] at hna; cases hna
      | ok b => exact ⟨b, rfl⟩
  by_cases hex : bu = false ∧ bl = false
  · obtain ⟨rfl, rfl⟩ := hex
    obtain ⟨n1, s1⟩ := sideRows_one op.upper hanti _ hU.perm hU.pure hbu
    obtain ⟨n2, s2⟩ := sideRows_one op.lower htyL _ hL.perm hL.pure hbl
    simp only [hbu, hbl, n1, n2, Bool.not_false, Bool.false_eq_true, if_true, if_false, List.nil_append]
    refine ⟨_, [op.lower.list], [op.upper.list], 1, 1, rfl, s2, s1, ?_, ?_⟩
    · intro os
      rw [runCode_cons, exec_term orb s (op := op) hs' hH hts' _ _ hopen]
      show Function.update s _ _ _ os = _
      rw [Function.update_self]
      unfold filled
      simp only [if_true, one_mul, List.map_cons, List.map_nil, List.sum_cons, List.sum_nil, add_zero,
        relSign_self hwU.1, relSign_self hwL.1, Int.cast_one, mul_one]
      rw [hscat]; rfl
    · intro nm h1 _
      rw [runCode_cons, exec_term orb s (op := op) hs' hH hts' _ _ hopen]
      exact Function.update_of_ne h1 _ _
  · have hzero : ∀ x : Indices, ∀ p b, x.existPermuteFormat p = .ok b → x.size = 0 → b = false := by
      intro x p b h h0
      unfold Indices.existPermuteFormat at h
      cases hv : x.isValidPartition p with
      | error e => rw [hv] at h; cases h
      | ok v =>
        rw [hv] at h
        simp only [bind, Except.bind, h0, if_true] at h
        split_ifs at h <;> · injection h with h; exact h.symm
    have hemp : op.isEmpty = false := by
      by_contra hne
      have he : op.size = 0 := by simpa [IndicesPair.isEmpty] using hne
      have he : op.upper.size + op.lower.size = 0 := he
      exact hex ⟨hzero _ _ _ hbu (by omega), hzero _ _ _ hbl (by omega)⟩
    have hor : (if bu = true then Except.ok true else Except.ok bl : Except PyErr Bool) = .ok true := by
      cases bu <;> cases bl <;> simp_all
    simp only [hbu, hbl, hnc, hna, hor, Bool.not_true, Bool.false_eq_true, if_true, if_false, List.nil_append, Bool.or_true, Bool.true_or,
      permuteIndices_eq op hemp _ _ hra hrc]
    refine ⟨_, wa, wc, na, nc, rfl, hSA, hSC, ?_⟩
    generalize hq : c * ((op.upper.size.factorial * op.lower.size.factorial : ℕ) : ℚ) / ((nc * na : ℕ) : ℚ) = q
    have hq' : c * ((op.upper.list.length.factorial * op.lower.list.length.factorial : ℕ) : ℚ) / ((nc * na : ℕ) : ℚ) = q := hq
    rw [hq', runCode_append, runCode_append]
    have e1 : runCode orb (runCode orb s [AmbitStmt.build ((openRef op).map Index.space)])
        [AmbitStmt.update ⟨tempName, openRef op⟩ true q (t.tensors.map Tensor.arrayRef)] =
        Function.update s tempName fun os => algebraMap ℚ R q * scatter orb I ts op (openRef op) os := by
      rw [runCode_cons, runCode_cons]
      show AmbitStmt.exec orb (Function.update s tempName 0)
        (.update ⟨tempName, openRef op⟩ true q (t.tensors.map Tensor.arrayRef)) = _
      rw [exec_term orb _ (op := op) (hs'.update_temp 0) hH hts' _ _ hopen]
      rw [Function.update_idem, Function.update_self]
      congr 1
      funext os
      rw [hscat]; simp
    rw [e1]
    obtain ⟨r1, r2⟩ := run_distribute orb (Function.update s tempName fun os => algebraMap ℚ R q * scatter orb I ts op (openRef op) os)
      (I := I) (ts := ts) (op := op) (targetName name op) (targetName_ne _ _) q wa wc hSA.perm hSC.perm hopen' (Function.update_self _ _ _)
    refine ⟨fun os => ?_, fun nm h1 h2 => ?_⟩
    · rw [r2 os, Function.update_of_ne (targetName_ne _ _)]
    · rw [r1 nm h1, Function.update_of_ne h2]

end

end Dsrg
