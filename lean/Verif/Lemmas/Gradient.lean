import Verif.Lemmas.TermOps
import Verif.Spec.Gradient

/-!
The terms of `gradient_t` are the derivative of the term with respect to the amplitudes.
-/

namespace Dsrg

theorem dropAt_zero {α : Type} (x : α) (l : List α) : dropAt (x :: l) 0 = l := by simp [dropAt]

theorem dropAt_succ {α : Type} (x : α) (l : List α) (k : Nat) : dropAt (x :: l) (k + 1) = x :: dropAt l k := by simp [dropAt]

theorem dropAt_perm {α : Type} : ∀ (l : List α) (k : Nat) (x : α), (x, k) ∈ l.zipIdx → (x :: dropAt l k).Perm l
  | [], _, _, h => by simp at h
  | a :: l, k, x, h => by
    rw [List.zipIdx_cons', List.mem_cons] at h
    rcases h with h | h
    · injection h with h1 h2
      subst h1 h2
      rw [dropAt_zero]
    · obtain ⟨⟨y, m⟩, hm, e⟩ := List.mem_map.1 h
      simp only [Prod.map_apply, id_eq, Prod.mk.injEq] at e
      obtain ⟨rfl, rfl⟩ := e
      rw [dropAt_succ]
      exact (List.Perm.swap _ _ _).trans ((dropAt_perm l m y hm).cons a)

theorem prod_shift {α R : Type} [CommRing R] (a b : α → R) {ε : R} (hε : ε * ε = 0) : ∀ l : List α,
    (l.map fun x => a x + ε * b x).prod = (l.map a).prod + ε * (l.zipIdx.map fun e => b e.1 * ((dropAt l e.2).map a).prod).sum
  | [] => by simp
  | x :: l => by
    rw [List.map_cons, List.prod_cons, prod_shift a b hε l, List.zipIdx_cons', List.map_cons, List.map_cons, List.sum_cons, List.prod_cons, List.map_map]
    have e : (l.zipIdx.map ((fun e => b e.1 * ((dropAt (x :: l) e.2).map a).prod) ∘ Prod.map id (· + 1))) =
        l.zipIdx.map fun e => a x * (b e.1 * ((dropAt l e.2).map a).prod) := by
      refine List.map_congr_left fun e _ => ?_
      simp only [Function.comp_apply, Prod.map_fst, Prod.map_snd, id_eq, dropAt_succ, List.map_cons, List.prod_cons]
      ring
    rw [e, List.sum_map_mul_left, dropAt_zero]
    refine sub_eq_zero.1 (Eq.trans ?_ (show (b x * (l.zipIdx.map fun e => b e.1 * ((dropAt l e.2).map a).prod).sum) * (ε * ε) = 0 by rw [hε, mul_zero]))
    ring

theorem Separated.mono {core : Bool} {ts ts' : List Tensor} {op op' : SqOp} (h : Separated core ts op) (hs : ts'.Sublist ts)
    (hop : ∀ i, i ∈ op'.upper.list ∧ i ∈ op'.lower.list → (∃ b ∈ ts, i ∈ b.upper.list ∧ i ∈ b.lower.list)) : Separated core ts' op' := by
  refine ⟨h.apart.sublist hs, ?_, fun a ha => h.active a (hs.subset ha)⟩
  intro a ha hd i hi
  obtain ⟨h1, h2⟩ := h.diag a (hs.subset ha) hd i hi
  refine ⟨fun b hb => h1 b (hs.subset hb), fun k => ?_⟩
  obtain ⟨b, hb, hb'⟩ := hop i k
  exact h1 b hb hb'

theorem labelsOf_move (ts : List Tensor) (x : Tensor) (op op' : SqOp) (h0 : op.upper.list = [] ∧ op.lower.list = [])
    (h1 : op'.upper.list = x.lower.list ∧ op'.lower.list = x.upper.list) : labelsOf ts op' = labelsOf (x :: ts) op := by
  ext i
  rw [mem_labelsOf, mem_labelsOf, mem_labelList, mem_labelList]
  have e1 : i ∈ op'.indices ↔ i ∈ x.upper.list ++ x.lower.list := by
    show i ∈ op'.upper.list ++ op'.lower.list ↔ _
    rw [h1.1, h1.2, List.mem_append, List.mem_append, or_comm]
  have e2 : i ∈ op.indices ↔ False := by
    show i ∈ op.upper.list ++ op.lower.list ↔ _
    rw [h0.1, h0.2]; simp
  rw [e1, e2]
  simp only [List.mem_cons, exists_eq_or_imp, false_or]
  rfl

section
variable {O R : Type} [Fintype O] [DecidableEq O] [Inhabited O] [CommRing R] [Algebra ℚ R]

theorem gradient_value {canon : CanonFn} (hcanon : CanonContract canon) {ord : SetOrder} (hord : ord.Lawful) {ts : List Tensor} {op : SqOp}
    {c : ℚ} {t : Term} {rows : List Term} (ht : Term.make ts op c = .ok t) (hr : t.gradientT canon ord = .ok rows)
    (hbal : ∀ x ∈ ts, x.cls = .cluster → x.upper.list.length = x.lower.list.length)
    (hsep : Separated true ts op) (hc : c = 0 ∨ 1 / 10 ^ 15 ≤ |c|)
    (hkind : ∀ x ∈ ts, ∀ y ∈ ts, x.name = y.name → x.cls = y.cls)
    (orb : Orbitals O) (I : Interp O R R) (hI : I.SlotSymmetric op.upper.ty.isAntisym true)
    (hph : I.Physical orb) (hac : I.ActiveCumulants orb) (hna : I.NoActiveAmplitudes orb) (h1 : I.op [] [] = 1) {ε : R} (hε : ε * ε = 0) :
    (I.shiftAmplitudes ε).value orb c ts op = I.value orb c ts op + ε * (rows.map fun r => I.value orb r.coeff r.tensors r.sqOp).sum := by
  obtain ⟨e1, e2, e3⟩ : t.sqOp = op ∧ t.coeff = c ∧ t.tensors = sortTensors ts := by
    obtain ⟨-, -, -, rfl⟩ := Term.make_ok.1 ht; exact ⟨rfl, rfl, rfl⟩
  have hty := (Term.make_ok.1 ht).1
  have hpt : t.tensors.Perm ts := by rw [e3]; exact sortTensors_perm ts
  unfold Term.gradientT at hr
  rw [e1] at hr
  simp only [bind, Except.bind] at hr
  cases hnb : op.nBody with
  | error e => rw [hnb] at hr; cases hr
  | ok n =>
  rw [hnb] at hr
  simp only at hr
  by_cases hn1 : n ≠ 0
  · rw [if_pos hn1] at hr; cases hr
  rw [if_neg hn1] at hr
  have hn0 : n = 0 := not_not.1 hn1
  subst hn0
  have h0 : op.upper.list = [] ∧ op.lower.list = [] := by
    unfold IndicesPair.nBody at hnb
    split_ifs at hnb with hlen
    injection hnb with hnb
    have k1 : op.lower.list.length = 0 := hnb
    have k2 : op.upper.list.length = op.lower.list.length := (not_not.1 hlen).symm
    exact ⟨List.length_eq_zero_iff.1 (by omega), List.length_eq_zero_iff.1 k1⟩
  set cl := t.tensors.filter fun x => decide (x.cls = .cluster) with hcl
  set oth := t.tensors.filter fun x => !decide (x.cls = .cluster) with hoth
  have hp : (oth ++ cl).Perm ts := by
    refine List.Perm.trans ?_ hpt
    rw [hcl, hoth]
    exact List.perm_append_comm.trans (List.filter_append_perm _ _)
  have hclc : ∀ x ∈ cl, x.cls = .cluster := fun x hx => by simpa using (List.mem_filter.1 hx).2
  have hothc : ∀ x ∈ oth, x.cls ≠ .cluster := fun x hx => by simpa using (List.mem_filter.1 hx).2
  have hmem : ∀ x ∈ oth ++ cl, x ∈ ts := fun x hx => hp.mem_iff.1 hx
  -- one row
  have hrow : ∀ e ∈ cl.zipIdx, ∀ r : Term, t.gradientRow canon ord e.1 (oth ++ dropAt cl e.2) = .ok r →
      I.value orb r.coeff r.tensors r.sqOp = algebraMap ℚ R c * ∑ σ ∈ orb.assignments (labelsOf ts op),
        (I.pval (extendTo σ) oth) * (I.op (e.1.lower.list.map (extendTo σ)) (e.1.upper.list.map (extendTo σ)) * I.pval (extendTo σ) (dropAt cl e.2)) := by
    rintro ⟨x, k⟩ he r hr
    simp only at hr ⊢
    unfold Term.gradientRow at hr
    rw [e2] at hr
    simp only [bind, Except.bind] at hr
    have hdp := dropAt_perm cl k x he
    have hx : x ∈ cl := hdp.mem_iff.1 (by simp)
    have hperm : (x :: (oth ++ dropAt cl k)).Perm ts := by
      refine List.Perm.trans ?_ hp
      refine List.Perm.trans (List.perm_middle (l₁ := oth)).symm ?_
      exact hdp.append_left oth
    have hxt : x ∈ ts := hperm.mem_iff.1 (by simp)
    cases hop : IndicesPair.make x.lower x.upper with
    | error e => rw [hop] at hr; cases hr
    | ok op' =>
    rw [hop] at hr
    simp only at hr
    have hop' : op' = ⟨x.lower, x.upper⟩ := by
      unfold IndicesPair.make at hop
      split_ifs at hop
      injection hop with hop; exact hop.symm
    cases hmk : Term.make (oth ++ dropAt cl k) op' c with
    | error e => rw [hmk] at hr; cases hr
    | ok u =>
    rw [hmk] at hr
    simp only at hr
    unfold Term.canonicalize at hr
    by_cases hdiag : u.diag.card ≠ 0
    · rw [if_pos hdiag] at hr; cases hr
    rw [if_neg hdiag] at hr
    have htyx : op'.upper.ty = op.upper.ty := by
      rw [hop']
      have e4 : x.lower.ty = x.upper.ty := by
        unfold IndicesPair.make at hop
        split_ifs at hop with k; exact not_not.1 k
      show x.lower.ty = _
      rw [e4]; exact hty x hxt
    have hsep' : Separated true (oth ++ dropAt cl k) op' := by
      refine (hsep.perm hperm.symm).mono (List.sublist_cons_self _ _) ?_
      intro i hi
      refine ⟨x, by simp, ?_⟩
      rw [hop'] at hi
      exact ⟨hi.2, hi.1⟩
    rw [C43_value_partial canon hcanon ord hord _ op' c u r hmk true true true hsep' hr hc (by rw [hop']; exact (hbal x hxt (hclc x hx)).symm)
      (fun a ha b hb => hkind a (hperm.mem_iff.1 (List.mem_cons_of_mem _ ha)) b (hperm.mem_iff.1 (List.mem_cons_of_mem _ hb)))
      orb I (by rw [htyx]; exact hI) hph hac fun _ => hna]
    unfold Interp.value
    rw [labelsOf_move (oth ++ dropAt cl k) x op op' h0 (by rw [hop']; exact ⟨rfl, rfl⟩), labelsOf_perm hperm, smul_eq_mul]
    congr 1
    refine Finset.sum_congr rfl fun σ _ => ?_
    rw [smul_eq_mul, hop']
    unfold Interp.pval Interp.opval
    rw [List.map_append, List.prod_append]
    ring
  have hsum : ∀ (es : List (Tensor × Nat)) (rs : List Term), (∀ e ∈ es, e ∈ cl.zipIdx) → List.Forall₂ (fun e r =>
      t.gradientRow canon ord e.1 (oth ++ dropAt cl e.2) = .ok r) es rs →
      (rs.map fun r => I.value orb r.coeff r.tensors r.sqOp).sum = algebraMap ℚ R c * ∑ σ ∈ orb.assignments (labelsOf ts op),
        I.pval (extendTo σ) oth * (es.map fun e => I.op (e.1.lower.list.map (extendTo σ)) (e.1.upper.list.map (extendTo σ)) * I.pval (extendTo σ) (dropAt cl e.2)).sum := by
    intro es rs hs hf
    induction hf with
    | nil => simp
    | cons ha _ ih =>
      rw [List.map_cons, List.sum_cons, ih fun s hs' => hs s (List.mem_cons_of_mem _ hs'), hrow _ (hs _ (by simp)) _ ha, ← mul_add, ← Finset.sum_add_distrib]
      simp only [List.map_cons, List.sum_cons, mul_add]
  rw [hsum cl.zipIdx rows (fun _ h => h) (mapM_ok_forall₂.1 hr)]
  unfold Interp.value
  rw [smul_eq_mul, smul_eq_mul, mul_left_comm ε, ← mul_add]
  congr 1
  rw [Finset.mul_sum, ← Finset.sum_add_distrib]
  refine Finset.sum_congr rfl fun σ _ => ?_
  have hopv : ∀ J : Interp O R R, J.op [] [] = 1 → J.opval (extendTo σ) op = 1 := by
    intro J hJ; unfold Interp.opval; rw [h0.1, h0.2]; exact hJ
  rw [hopv I h1, hopv (I.shiftAmplitudes ε) h1, smul_eq_mul, smul_eq_mul, mul_one, mul_one, ← Interp.pval_perm _ _ hp, ← Interp.pval_perm _ _ hp]
  unfold Interp.pval
  rw [List.map_append, List.map_append, List.prod_append, List.prod_append]
  have a1 : oth.map ((I.shiftAmplitudes ε).tval (extendTo σ)) = oth.map (I.tval (extendTo σ)) := by
    refine List.map_congr_left fun x hx => ?_
    simp [Interp.tval, Interp.shiftAmplitudes, hothc x hx]
  have a2 : cl.map ((I.shiftAmplitudes ε).tval (extendTo σ)) = cl.map fun x => I.tval (extendTo σ) x + ε * I.op (x.lower.list.map (extendTo σ)) (x.upper.list.map (extendTo σ)) := by
    refine List.map_congr_left fun x hx => ?_
    simp [Interp.tval, Interp.shiftAmplitudes, hclc x hx]
  rw [a1, a2, prod_shift _ _ hε]
  ring

end

end Dsrg
