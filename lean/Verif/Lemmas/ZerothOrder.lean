import Verif.Model.ZerothOrder
import Verif.Spec.ZerothOrder
import Verif.Lemmas.WickBch
import Verif.Lemmas.NoRaise
import Verif.Lemmas.TermOps

/-!
Helper lemmas: the zeroth-order Hamiltonians.
-/

namespace Dsrg

/-! ### No exception -/

/-- `canonicalize` of a term built from one Hamiltonian tensor. -/
theorem canonicalize_single_total {canon : CanonFn} (hcanon : CanonContract canon) {ord : SetOrder} (hord : ord.Lawful) {x : Tensor} {op : SqOp} {c : ℚ}
    {t : Term} (ht : Term.make [x] op c = .ok t) (g : GoodTerm t) (hl : LiveTerm t) (hx : x.cls = .hamiltonian) (hd : diagonalOf [x] op = ∅) :
    ∃ r, t.canonicalize canon ord true true true = .ok r := by
  have hw := Term.wf_of_make ht
  have hts : t.tensors.Perm [x] := by obtain ⟨-, -, -, rfl⟩ := Term.make_ok.1 ht; exact sortTensors_perm _
  have hts' : t.tensors = [x] := List.perm_singleton.1 hts
  have hop : t.sqOp = op := by obtain ⟨-, -, -, rfl⟩ := Term.make_ok.1 ht; rfl
  have hdiag : t.diag = diagonalOf t.tensors t.sqOp := by
    rw [hts', hop]; obtain ⟨-, -, -, rfl⟩ := Term.make_ok.1 ht; rfl
  obtain ⟨s, h1, h2, h3, h4⟩ := Term.simplify_total hord true hw hdiag.subset g.tidy.toPaired hl.sound (by
    intro y hy
    rw [hts'] at hy
    obtain rfl := List.mem_singleton.1 hy
    constructor <;> intro h <;> simp [hx] at h) hl.keep
  obtain ⟨f, horigin, -⟩ := Term.simplify_origin h1
  obtain ⟨r, r1, -⟩ := Term.canonicalizeSympy_total rfl hcanon true h1 (Term.simplify_shape hw.set_sub h1).1 h2 (by
    intro x hx y hy e
    obtain ⟨x', hx', -, rfl⟩ := horigin x hx
    obtain ⟨y', hy', -, rfl⟩ := horigin y hy
    exact ((g.kind x' hx').consistent (g.kind y' hy') e).1)
  refine ⟨r, ?_⟩
  unfold Term.canonicalize
  rw [hdiag, hts', hop, hd]
  exact r1

theorem hamiltonianOne : ∃ t, hamiltonianOperator 1 0 .spinOrbital = .ok t ∧ t.tensors = [soTensor .hamiltonian 'H' 0 [lab .g 1] [lab .g 0]] ∧
    t.sqOp = soOp [lab .g 0] [lab .g 1] ∧ t.coeff = 1 := by
  obtain ⟨t, h1, h2⟩ := exists_of_map (x := hamiltonianOperator 1 0 .spinOrbital) (f := fun t => (t.tensors, t.sqOp, t.coeff))
    (b := ([soTensor .hamiltonian 'H' 0 [lab .g 1] [lab .g 0]], soOp [lab .g 0] [lab .g 1], 1)) (by decide +kernel)
  simp only [Prod.mk.injEq] at h2
  exact ⟨t, h1, h2.1, h2.2.1, h2.2.2⟩

theorem diagonalRow_total {canon : CanonFn} (hcanon : CanonContract canon) {ord : SetOrder} (hord : ord.Lawful) {t : Term}
    (ht : hamiltonianOperator 1 0 .spinOrbital = .ok t) {s : Space} (hs : s ∈ [(⟨.c, false⟩ : Space), ⟨.a, false⟩, ⟨.v, false⟩]) :
    ∃ r, t.diagonalRow canon ord (lab .g 0) (lab .g 1) s = .ok r := by
  obtain ⟨t', h1, h2, h3, h4⟩ := hamiltonianOne
  rw [ht] at h1
  injection h1 with h1
  subst h1
  have hrel : relabelIndices (dictFind (ddcaMap (t.tensors.flatMap fun x => x.pair.indices) [lab .g 1, lab .g 0] [s, s] 0)) t.tensors t.sqOp =
      .ok (1, [soTensor .hamiltonian 'H' 0 [⟨s, 0⟩] [⟨s, 1⟩]], soOp [⟨s, 1⟩] [⟨s, 0⟩]) := by
    rw [h2, h3]
    revert hs s
    decide +kernel
  have hb : s.beta = false := by clear hrel; revert hs s; decide
  unfold Term.diagonalRow
  rw [bind_ok_of hrel, h4]
  have hmake : ∃ u, Term.make [soTensor .hamiltonian 'H' 0 [⟨s, 0⟩] [⟨s, 1⟩]] (soOp [⟨s, 1⟩] [⟨s, 0⟩]) (1 * ((1 : Int) : ℚ)) = .ok u := by
    obtain ⟨u, hu, -⟩ := exists_of_map (x := Term.make [soTensor .hamiltonian 'H' 0 [⟨s, 0⟩] [⟨s, 1⟩]] (soOp [⟨s, 1⟩] [⟨s, 0⟩]) (1 * ((1 : Int) : ℚ)))
      (f := fun _ => ()) (b := ()) (by clear hrel hb; revert hs s; decide +kernel)
    exact ⟨u, hu⟩
  obtain ⟨u, hu⟩ := hmake
  have hut : u.tensors = [soTensor .hamiltonian 'H' 0 [⟨s, 0⟩] [⟨s, 1⟩]] := by
    obtain ⟨-, -, -, rfl⟩ := Term.make_ok.1 hu
    exact List.perm_singleton.1 (sortTensors_perm _)
  have huo : u.sqOp = soOp [⟨s, 1⟩] [⟨s, 0⟩] := by obtain ⟨-, -, -, rfl⟩ := Term.make_ok.1 hu; rfl
  obtain ⟨g, -, -⟩ := oneTensor_good (A := [(⟨s, 0⟩ : Index)]) (B := [(⟨s, 1⟩ : Index)]) hut (Or.inr (Or.inl ⟨rfl, rfl, rfl⟩)) rfl rfl rfl
    (Or.inl ⟨by rw [huo]; rfl, by rw [huo]; rfl⟩) (by simp) (by simp [Index.isBeta, hb]) rfl
  have hl := LiveTerm.single g hut rfl (Or.inl ⟨by rw [huo]; rfl, by rw [huo]; rfl⟩) (by simp [soTensor, Tensor.upper]) (by simp [soTensor])
  rw [bind_ok_of hu]
  refine canonicalize_single_total hcanon hord hu g hl rfl ?_
  ext i
  simp [mem_diagonalOf, soOp, soTensor, Tensor.upper, Tensor.lower]
  constructor
  · rintro rfl; simp
  · rintro rfl; simp

theorem diagonalFockOperator_total {canon : CanonFn} (hcanon : CanonContract canon) {ord : SetOrder} (hord : ord.Lawful) (singleRef : Bool) :
    ∃ out, diagonalFockOperator canon ord singleRef = .ok out := by
  obtain ⟨t, h1, h2, h3, h4⟩ := hamiltonianOne
  unfold diagonalFockOperator
  rw [bind_ok_of h1]
  unfold Term.makeOneBodyDiagonal
  rw [h3]
  have hov : ∀ s, s ∈ ord.spaces (if singleRef then ((lab .g 0).space.relation ∩ (lab .g 1).space.relation).filter fun s => s.kind ≠ .a
      else (lab .g 0).space.relation ∩ (lab .g 1).space.relation) → s ∈ [(⟨.c, false⟩ : Space), ⟨.a, false⟩, ⟨.v, false⟩] := by
    intro s hs
    rw [hord.mem_spaces] at hs
    revert s; revert singleRef
    decide +kernel
  have : Nonempty Term := ⟨t⟩
  choose! G hG using fun s hs => diagonalRow_total hcanon hord h1 (s := s) hs
  refine ⟨_, Eq.trans ?_ (mapM_ok_of_forall fun s hs => hG s (hov s hs))⟩
  rfl

/-- `expand_composite_indices` of the Hamiltonian returns. -/
theorem hamiltonian_expand_total {ord : SetOrder} (hord : ord.Lawful) {k : Nat} {t : Term} (h : hamiltonianOperator k 0 .spinOrbital = .ok t)
    (singleRef : Bool) : ∃ rows, t.expandCompositeIndices ord singleRef 0 = .ok rows := by
  obtain ⟨t', x, h1, h2, h3, h4, h5, h6, h7, h8, -⟩ := C38_hamiltonian k 0 .spinOrbital
  rw [h] at h1
  injection h1 with h1
  subst h1
  obtain ⟨g, -⟩ := hamiltonian_good h
  obtain ⟨ts, op, c, ht⟩ := hamiltonian_made h
  have hop : t.sqOp = op := by obtain ⟨-, -, -, rfl⟩ := Term.make_ok.1 ht; rfl
  have hp : t.tensors.Perm ts := by obtain ⟨-, -, -, rfl⟩ := Term.make_ok.1 ht; exact sortTensors_perm ts
  have hcon : ∀ lo, Indices.Constructed ⟨.spinOrbital, consecutive ⟨.g, false⟩ lo k⟩ := by
    intro lo
    exact (Indices.wf_iff_make _).1 ⟨nodup_consecutive _ _ _, fun _ i hi => by rw [mem_consecutive] at hi; rw [Index.isBeta, hi.1]⟩
  have hupper : x.upper.Constructed := by rw [h5]; exact hcon _
  have hlower : x.lower.Constructed := by rw [h6]; exact hcon _
  exact C44_total_partial ord hord ts op c t ht (by rw [← hop]; exact g.tidy.op) (by
      rw [← hop]
      refine ⟨by rw [h7]; exact hlower, by rw [h8]; exact hupper, ?_⟩
      unfold IndicesPair.make
      rw [if_neg (by rw [h7, h8, h5, h6]; simp)]) (by
      intro e; rw [e, h2] at hp; simpa using hp.length_eq) (by
      intro y hy
      have : y = x := by simpa [h2] using hp.mem_iff.2 hy
      rw [this]
      refine ⟨hupper, hlower, ?_⟩
      unfold Tensor.make
      simp only [bind, Except.bind, IndicesPair.make, h5, h6, h3, ne_eq, not_true_eq_false, if_false]
      rw [requireSpin_consecutive .spinOrbital _ _ _ _ _ (Or.inr rfl)]
      simp only [pure, Except.pure, ← h5, ← h6, ← h3]) (by
      intro y hy e
      have : y = x := by simpa [h2] using hp.mem_iff.2 hy
      rw [this, h3] at e
      exact absurd e (by decide)) t.sqOp.size t.sqOp.size singleRef 0

/-! ### The one-body part -/

section
variable {O R M : Type} [Fintype O] [DecidableEq O] [Inhabited O] [CommRing R] [Algebra ℚ R] [AddCommGroup M] [Module R M]

omit [DecidableEq O] [Inhabited O] in
theorem assignments_general (orb : Orbitals O) :
    Finset.univ.filter (orb.In ⟨.g, false⟩) = Finset.univ.filter fun o => orb.spin o = false := by
  ext o
  simp only [Finset.mem_filter, Finset.mem_univ, true_and, Orbitals.In]
  cases orb.elem o <;> cases orb.spin o <;> decide

theorem sum_piFinset_one (S : Finset O) (f : List O → M) : ∑ u ∈ Fintype.piFinset fun _ : Fin 1 => S, f (List.ofFn u) = ∑ o ∈ S, f [o] := by
  refine Finset.sum_bij' (fun u _ => u 0) (fun o _ => fun _ => o) ?_ ?_ ?_ ?_ ?_
  · intro u hu; exact Fintype.mem_piFinset.1 hu 0
  · intro o ho; exact Fintype.mem_piFinset.2 fun _ => ho
  · intro u _; ext j; rw [Subsingleton.elim j 0]
  · intro o _; rfl
  · intro u _; rfl

theorem diagonalFockOperator_value {canon : CanonFn} (hcanon : CanonContract canon) {ord : SetOrder} (hord : ord.Lawful) {singleRef : Bool}
    {out : List Term} (h : diagonalFockOperator canon ord singleRef = .ok out) (orb : Orbitals O) (I : Interp O R M)
    (hI : I.SlotSymmetric true true) (hph : I.Physical orb) (hac : I.ActiveCumulants orb) (hna : I.NoActiveAmplitudes orb) :
    (out.map fun t => I.value orb t.coeff t.tensors t.sqOp).sum = I.diagonalFock orb singleRef := by
  classical
  obtain ⟨t, h1, h2, h3, h4⟩ := hamiltonianOne
  unfold diagonalFockOperator at h
  rw [bind_ok_of h1] at h
  obtain ⟨t', h1', h2'⟩ := exists_of_map (x := Term.make [soTensor .hamiltonian 'H' 0 [lab .g 1] [lab .g 0]] (soOp [lab .g 0] [lab .g 1]) 1)
    (f := fun _ => ()) (b := ()) (by decide +kernel)
  have htt : t' = t := by
    obtain ⟨ts, op, c, hm⟩ := hamiltonian_made h1
    obtain ⟨-, -, -, e⟩ := Term.make_ok.1 hm
    have hts : ts = [soTensor .hamiltonian 'H' 0 [lab .g 1] [lab .g 0]] := by
      have : t.tensors = sortTensors ts := by rw [e]
      rw [h2] at this
      exact List.perm_singleton.1 (this ▸ sortTensors_perm ts).symm
    have hop : op = soOp [lab .g 0] [lab .g 1] := by rw [← h3, e]
    have hc : c = 1 := by rw [← h4, e]
    rw [hts, hop, hc, h1'] at hm
    injection hm
  subst htt
  rw [makeOneBodyDiagonal_value hcanon hord h1' h (cre := lab .g 0) (ann := lab .g 1) rfl rfl ⟨by simp, (by
      intro a ha hd
      rcases List.mem_singleton.1 ha with rfl
      rcases hd with hd | hd
      · cases hd
      · cases hd.2.1), by
      intro a ha hd
      rcases List.mem_singleton.1 ha with rfl
      cases hd⟩ (by
      intro a ha hd
      rcases List.mem_singleton.1 ha with rfl
      cases hd) (Or.inr (by norm_num)) (by simp) orb I hI hph hac hna]
  have key := sum_labels (M := M) orb (A := [lab .g 1]) (B := [lab .g 0]) (by decide) (s := ⟨.g, false⟩) (s' := ⟨.g, false⟩) (by simp [lab]) (by simp [lab])
    (k := 1) rfl rfl (S := labelsOf [soTensor .hamiltonian 'H' 0 [lab .g 1] [lab .g 0]] (soOp [lab .g 0] [lab .g 1])) (by decide +kernel)
    fun u l => if (orb.elem (l.headD default) = orb.elem (u.headD default) ∧ orb.spin (l.headD default) = orb.spin (u.headD default) ∧
      (singleRef = true → orb.elem (l.headD default) ≠ .active)) then I.tensor .hamiltonian ['H'] u l • I.op l u else 0
  rw [map_one, one_smul, Finset.sum_filter]
  refine Eq.trans (Finset.sum_congr rfl fun σ _ => ?_) (key.trans ?_)
  · refine if_congr ?_ ?_ rfl
    · simp
    · simp [Interp.pval, Interp.tval, Interp.opval, soTensor, soOp]
  · rw [assignments_general orb]
    rw [sum_piFinset_one (M := M) _ fun u => ∑ l ∈ Fintype.piFinset fun _ : Fin 1 => Finset.univ.filter fun o => orb.spin o = false,
      if (orb.elem ((List.ofFn l).headD default) = orb.elem (u.headD default) ∧ orb.spin ((List.ofFn l).headD default) = orb.spin (u.headD default) ∧
      (singleRef = true → orb.elem ((List.ofFn l).headD default) ≠ .active)) then I.tensor .hamiltonian ['H'] u (List.ofFn l) • I.op (List.ofFn l) u else 0]
    have hused : orb.used singleRef = (Finset.univ.filter fun o => orb.spin o = false).filter fun o => singleRef = true → orb.elem o ≠ .active := by
      ext o; simp [Orbitals.used]
    unfold Interp.diagonalFock
    rw [hused]
    refine Eq.trans (Finset.sum_congr rfl fun u hu => ?_) (Finset.sum_filter _ _).symm
    rw [sum_piFinset_one (M := M) _ fun l => if (orb.elem (l.headD default) = orb.elem ([u].headD default) ∧ orb.spin (l.headD default) = orb.spin ([u].headD default) ∧
      (singleRef = true → orb.elem (l.headD default) ≠ .active)) then I.tensor .hamiltonian ['H'] [u] l • I.op l [u] else 0]
    have hu' : orb.spin u = false := by simpa using hu
    split
    · rename_i hs
      refine Eq.trans (Finset.sum_congr rfl fun l hl => ?_) (Finset.sum_filter _ _).symm
      have hl' : orb.spin l = false := by simpa using hl
      simp only [List.headD_cons, hu', hl', true_and]
      by_cases e : orb.elem u = orb.elem l
      · simp [e]
      · simp [e, Ne.symm e]
    · rename_i hs
      refine Finset.sum_eq_zero fun l hl => if_neg ?_
      rintro ⟨e1, -, e3⟩
      apply hs
      intro hr
      rw [← show orb.elem l = orb.elem u from e1]
      exact e3 hr

/-! ### The two-body parts -/

theorem dyallInteraction_value {t : Term} (h : (do
    let up ← Indices.ofNames .spinOrbital (labelNames ⟨.a, false⟩ 2 2)
    let lo ← Indices.ofNames .spinOrbital (labelNames ⟨.a, false⟩ 0 2)
    let tensor ← Tensor.make .hamiltonian up lo ['H'] 0
    let op ← IndicesPair.make lo up
    Term.make [tensor] op (1 / 4)) = .ok t) (orb : Orbitals O) (I : Interp O R M) :
    I.value orb t.coeff t.tensors t.sqOp = I.hamiltonianPart (Finset.univ.filter fun o => orb.spin o = false ∧ orb.elem o = .active) 2 := by
  obtain ⟨t', h1, h2⟩ := exists_of_map (x := (do
    let up ← Indices.ofNames .spinOrbital (labelNames ⟨.a, false⟩ 2 2)
    let lo ← Indices.ofNames .spinOrbital (labelNames ⟨.a, false⟩ 0 2)
    let tensor ← Tensor.make .hamiltonian up lo ['H'] 0
    let op ← IndicesPair.make lo up
    Term.make [tensor] op (1 / 4))) (f := fun t => (t.tensors, t.sqOp, t.coeff))
    (b := ([soTensor .hamiltonian 'H' 0 [lab .a 2, lab .a 3] [lab .a 0, lab .a 1]], soOp [lab .a 0, lab .a 1] [lab .a 2, lab .a 3], 1 / 4)) (by decide +kernel)
  rw [h] at h1
  injection h1 with h1
  subst h1
  simp only [Prod.mk.injEq] at h2
  obtain ⟨e1, e2, e3⟩ := h2
  have key := sum_labels (M := M) orb (A := [lab .a 2, lab .a 3]) (B := [lab .a 0, lab .a 1]) (by decide) (s := ⟨.a, false⟩) (s' := ⟨.a, false⟩)
    (by simp [lab]) (by simp [lab])
    (k := 2) rfl rfl (S := labelsOf [soTensor .hamiltonian 'H' 0 [lab .a 2, lab .a 3] [lab .a 0, lab .a 1]] (soOp [lab .a 0, lab .a 1] [lab .a 2, lab .a 3]))
    (by decide +kernel) fun u l => I.tensor .hamiltonian ['H'] u l • I.op l u
  have hg : Finset.univ.filter (orb.In ⟨.a, false⟩) = Finset.univ.filter fun o => orb.spin o = false ∧ orb.elem o = .active := by
    ext o
    simp only [Finset.mem_filter, Finset.mem_univ, true_and, Orbitals.In]
    cases orb.elem o <;> cases orb.spin o <;> decide
  rw [hg] at key
  unfold Interp.hamiltonianPart Interp.value
  rw [e1, e2, e3, ← key]
  rw [show (1 / 4 : ℚ) = 1 / ((2).factorial : ℚ) ^ 2 by norm_num [Nat.factorial]]
  congr 1
  refine Finset.sum_congr rfl fun σ _ => ?_
  simp [Interp.pval, Interp.tval, Interp.opval, soTensor, soOp]

/-- `sameSpaceCounts` for lists of spaces. -/
def sameCounts (u l : List Space) : Bool :=
  (u ++ l).all fun s => u.countP (fun j => decide (j = s)) = l.countP fun j => decide (j = s)

theorem sameSpaceCounts_eq (op : SqOp) : sameSpaceCounts op = sameCounts (op.upper.list.map Index.space) (op.lower.list.map Index.space) := by
  unfold sameSpaceCounts sameCounts
  rw [← List.map_append, List.all_map]
  simp [List.countP_map, Function.comp_def]

omit [Fintype O] [DecidableEq O] [Inhabited O] in
theorem sameCounts_elems (orb : Orbitals O) (u l : Fin 2 → O) :
    sameCounts ((List.ofFn l).map fun o => ⟨(orb.elem o).kind, false⟩) ((List.ofFn u).map fun o => ⟨(orb.elem o).kind, false⟩) = true ↔ SameElems orb u l := by
  unfold SameElems
  simp only [Finset.card_filter, Fin.sum_univ_two, List.ofFn_succ, List.ofFn_zero, List.map_cons, List.map_nil, Fin.succ_zero_eq_one]
  generalize orb.elem (u 0) = a
  generalize orb.elem (u 1) = b
  generalize orb.elem (l 0) = c
  generalize orb.elem (l 1) = d
  revert a b c d
  decide +kernel

theorem finkInteraction_value {ord : SetOrder} (hord : ord.Lawful) {t : Term} (h : hamiltonianOperator 2 0 .spinOrbital = .ok t) {singleRef : Bool}
    {rows : List Term} (hr : t.expandCompositeIndices ord singleRef 0 = .ok rows) (orb : Orbitals O) (I : Interp O R M) :
    ((rows.filter fun t => sameSpaceCounts t.sqOp).map fun t => I.value orb t.coeff t.tensors t.sqOp).sum = I.finkInteraction orb singleRef := by
  classical
  obtain ⟨t', x, h1, h2, h3, h4, h5, h6, h7, h8, h9⟩ := C38_hamiltonian 2 0 .spinOrbital
  rw [h] at h1
  injection h1 with h1
  subst h1
  obtain ⟨ts, op, c, hm⟩ := hamiltonian_made h
  obtain ⟨g, -⟩ := hamiltonian_good h
  have hlen : ∀ r ∈ rows, r.sqOp.upper.list.length = 2 := by
    intro r hrm
    obtain ⟨sp, e⟩ : ∃ sp, (do
      let ρ := dictFind (ddcaMap (ord.indices t.indicesSet) t.sqOp.indices sp 0)
      let op ← replaceSqOp ρ t.sqOp
      let ts ← replaceTensors ρ t.tensors
      Term.make ts op t.coeff) = .ok r := by
      obtain ⟨n, hn, rfl⟩ := List.mem_iff_getElem.1 hrm
      have hf := makeDdca_rows hr
      exact ⟨_, (List.forall₂_iff_get.1 hf).2 n (by rw [hf.length_eq]; exact hn) hn⟩
    obtain ⟨-, e2, -⟩ := ddcaRow_ok (realizes_dictFind _) e
    rw [e2, IndicesPair.relabel]
    simp [h7, h6, length_consecutive]
  have hsel : (rows.filter fun t => sameSpaceCounts t.sqOp) = rows.filter fun r => (fun sp : List Space => sameCounts (sp.take 2) (sp.drop 2))
      (r.sqOp.indices.map Index.space) := by
    refine List.filter_congr fun r hrm => ?_
    rw [sameSpaceCounts_eq]
    simp only [IndicesPair.indices, List.map_append]
    rw [List.take_left' (by rw [List.length_map, hlen r hrm]), List.drop_left' (by rw [List.length_map, hlen r hrm])]
  rw [hsel, makeDdca_select_value hord hm g.tidy.op hr orb I fun sp : List Space => sameCounts (sp.take 2) (sp.drop 2)]
  have hn : (consecutive ⟨.g, false⟩ (0 + 2) 2 ++ consecutive ⟨.g, false⟩ 0 2).Nodup := by decide
  have hS : labelsOf t.tensors t.sqOp = (consecutive ⟨.g, false⟩ (0 + 2) 2 ++ consecutive ⟨.g, false⟩ 0 2).toFinset := by
    ext i
    unfold labelsOf
    rw [h2, h7, h8, h5, h6]
    simp [h5, h6]
    tauto
  have key := sum_labels (M := M) orb hn (s := ⟨.g, false⟩) (s' := ⟨.g, false⟩) (fun i hi => (mem_consecutive.1 hi).1)
    (fun i hi => (mem_consecutive.1 hi).1) (length_consecutive _ _ _) (length_consecutive _ _ _) hS
    fun u l => if (singleRef = true → ∀ o ∈ l ++ u, orb.elem o ≠ .active) ∧
      sameCounts (l.map fun o => ⟨(orb.elem o).kind, false⟩) (u.map fun o => ⟨(orb.elem o).kind, false⟩) = true then
        I.tensor .hamiltonian ['H'] u l • I.op l u else 0
  unfold Interp.finkInteraction
  rw [h9]
  rw [show (1 / 4 : ℚ) = 1 / ((2).factorial : ℚ) ^ 2 by norm_num [Nat.factorial]]
  congr 1
  refine Eq.trans (Finset.sum_congr rfl fun σ _ => ?_) (key.trans ?_)
  · refine if_congr ?_ ?_ rfl
    · rw [Bool.and_eq_true, ddcaKeeps_elem]
      have hlu : t.sqOp.upper.list = consecutive ⟨.g, false⟩ 0 2 := by rw [h7, h6]
      have hll : t.sqOp.lower.list = consecutive ⟨.g, false⟩ (0 + 2) 2 := by rw [h8, h5]
      have hsz : t.sqOp.size = t.sqOp.indices.length := by simp [IndicesPair.size, IndicesPair.indices, IndicesPair.nUpper, IndicesPair.nLower, Indices.size]
      have hsp : ∀ lo, (consecutive ⟨.g, false⟩ lo 2).map (elemSpace orb (extendTo σ)) =
          ((consecutive ⟨.g, false⟩ lo 2).map (extendTo σ)).map fun o => (⟨(orb.elem o).kind, false⟩ : Space) := by
        intro lo
        rw [List.map_map]
        refine List.map_congr_left fun i hi => ?_
        rw [mem_consecutive] at hi
        simp only [elemSpace, hi.1, Function.comp]
      refine and_congr ?_ ?_
      · rw [hsz]
        refine ⟨fun h hs o ho => ?_, fun h => ⟨by exact_mod_cast List.countP_le_length, by exact_mod_cast List.countP_le_length, fun hs i hi => ?_⟩⟩
        · rw [← List.map_append] at ho
          obtain ⟨i, hi, rfl⟩ := List.mem_map.1 ho
          exact h.2.2 hs i (by rw [IndicesPair.indices, hlu, hll]; exact hi)
        · refine h hs _ ?_
          rw [← List.map_append]
          exact List.mem_map_of_mem (by rw [IndicesPair.indices, hlu, hll] at hi; exact hi)
      · simp only [IndicesPair.indices, List.map_append]
        rw [hlu, hll, List.take_left' (by simp [length_consecutive]), List.drop_left' (by simp [length_consecutive]), hsp, hsp]
    · simp [Interp.pval, Interp.tval, Interp.opval, h2, h3, h4, h5, h6, h7, h8]
  · have hpi : Fintype.piFinset (fun _ : Fin 2 => orb.used singleRef) =
        (Fintype.piFinset fun _ : Fin 2 => Finset.univ.filter (orb.In ⟨.g, false⟩)).filter fun u => singleRef = true → ∀ j, orb.elem (u j) ≠ .active := by
      ext u
      simp only [Fintype.mem_piFinset, Finset.mem_filter, Finset.mem_univ, true_and, Orbitals.used]
      have hin : ∀ o, orb.In ⟨.g, false⟩ o ↔ orb.spin o = false := by
        intro o
        unfold Orbitals.In
        cases orb.elem o <;> cases orb.spin o <;> decide
      simp only [hin]
      exact ⟨fun h => ⟨fun j => (h j).1, fun hs j => (h j).2 hs⟩, fun h j => ⟨h.1 j, fun hs => h.2 hs j⟩⟩
    rw [hpi, Finset.sum_filter]
    refine Finset.sum_congr rfl fun u _ => ?_
    split
    · rename_i hu
      rw [Finset.sum_filter]
      refine Finset.sum_congr rfl fun l _ => ?_
      rw [← ite_and]
      refine if_congr ?_ rfl rfl
      rw [sameCounts_elems]
      refine and_congr ?_ Iff.rfl
      simp only [List.mem_append, List.mem_ofFn]
      constructor
      · exact fun h hs j => h hs _ (Or.inl ⟨j, rfl⟩)
      · rintro h hs o (⟨j, rfl⟩ | ⟨j, rfl⟩)
        · exact h hs j
        · exact hu hs j
    · rename_i hu
      refine Finset.sum_eq_zero fun l _ => if_neg fun h => hu fun hs j => h.1 hs _ (List.mem_append_right _ (List.mem_ofFn.2 ⟨j, rfl⟩))

end

end Dsrg
