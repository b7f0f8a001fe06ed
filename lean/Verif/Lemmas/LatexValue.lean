import Verif.Lemmas.Latex
import Verif.Lemmas.BucketSum

/-!
The meaning of printed formulas.
-/

namespace Dsrg

theorem sign_reversals (l : List Index) : ∀ u : List Index, (-1 : ℤ) ^ reversals l u = relSign l u := by
  have h : ∀ u : List Index, reversals l u = invCount (u.map fun v => l.idxOf v) := by
    intro u
    induction u with
    | nil => rfl
    | cons a u ih => simp only [reversals, List.map_cons, invCount, ih, List.countP_map]; rfl
  intro u
  rw [h]; rfl

theorem orders_card {l : List Index} {p : List (List Index)} (hl : l.Nodup) (hp : p.flatten.Perm l) :
    (l.permutations.toFinset.filter fun l' => ∀ g ∈ p, g.Sublist l').card = (multisetPerms (blockWord p)).length := by
  let f : List Nat → List Index := fun w => match fillWord p w with | .ok l => l | .error _ => []
  have hf : ∀ w l, fillWord p w = .ok l → f w = l := fun w l h => by simp only [f, h]
  have hnf : p.flatten.Nodup := (hp.nodup_iff).2 hl
  have hnd : ((multisetPerms (blockWord p)).map f).Nodup := by
    rw [List.Nodup, List.pairwise_map]
    refine List.Pairwise.imp_of_mem ?_ (nodup_multisetPerms (blockWord p))
    intro w w' hw1 hw2 hne heq
    apply hne
    rw [mem_multisetPerms] at hw1 hw2
    obtain ⟨k, h1, -, -, h4⟩ := fillWord_ok w p (perm_blockWord_iff.1 hw1)
    obtain ⟨k', h1', -, -, h4'⟩ := fillWord_ok w' p (perm_blockWord_iff.1 hw2)
    have : k = k' := by rw [← hf _ _ h1, ← hf _ _ h1', heq]
    subst this
    exact fillWord_injective hnf h4 h4'
  have heq : (l.permutations.toFinset.filter fun l' => ∀ g ∈ p, g.Sublist l') = ((multisetPerms (blockWord p)).map f).toFinset := by
    ext k
    rw [Finset.mem_filter, List.mem_toFinset, List.mem_permutations, List.mem_toFinset, List.mem_map]
    constructor
    · rintro ⟨h1, h2⟩
      obtain ⟨w, hw1, hw2⟩ := fillWord_surjective k p ((h1.nodup_iff).2 hl) (h1.trans hp.symm) h2
      exact ⟨w, mem_multisetPerms.2 (perm_blockWord_iff.2 hw2), hf _ _ hw1⟩
    · rintro ⟨w, hw, rfl⟩
      obtain ⟨k, h1, h2, h3, -⟩ := fillWord_ok w p (perm_blockWord_iff.1 (mem_multisetPerms.1 hw))
      rw [hf _ _ h1]
      exact ⟨h2.trans hp, h3⟩
  rw [heq, List.toFinset_card_of_nodup hnd, List.length_map]

section
variable {O R M : Type} [Fintype O] [DecidableEq O] [Inhabited O] [CommRing R] [Algebra ℚ R] [AddCommGroup M] [Module R M]

/-- Every order of the labels of the operator, with its sign, gives the same value. -/
theorem meaning_count (orb : Orbitals O) {I : Interp O R M} (F : LatexFormula) (op : SqOp) (hF : F.op.getD ([], []) = (op.upper.list, op.lower.list))
    (hu : op.upper.list.Nodup) (hl : op.lower.list.Nodup)
    (hI : (F.orders op.upper.list = {op.upper.list} ∧ F.orders op.lower.list = {op.lower.list}) ∨ I.Antisymmetric)
    (h1 : ∀ u ∈ F.orders op.upper.list, u.Perm op.upper.list) (h2 : ∀ l ∈ F.orders op.lower.list, l.Perm op.lower.list) :
    F.meaning orb I = I.value orb ((((F.orders op.upper.list).card * (F.orders op.lower.list).card : ℕ) : ℚ) * F.coeff) F.factors op := by
  have key : ∀ u ∈ F.orders op.upper.list, ∀ l ∈ F.orders op.lower.list,
      ((-1 : ℤ) ^ (reversals op.upper.list u + reversals op.lower.list l)) • (algebraMap ℚ R F.coeff) •
        ∑ σ ∈ orb.assignments (labelsOf F.factors op),
          I.pval (extendTo σ) F.factors • I.op (u.map (extendTo σ)) (l.map (extendTo σ)) = I.value orb F.coeff F.factors op := by
    intro u hum l hlm
    rw [pow_add, sign_reversals, sign_reversals]
    unfold Interp.value
    rw [smul_comm, Finset.smul_sum]
    congr 1
    refine Finset.sum_congr rfl fun σ _ => ?_
    rw [smul_comm]
    congr 1
    unfold Interp.opval
    rcases hI with ⟨e1, e2⟩ | hI
    · rw [e1, Finset.mem_singleton] at hum
      rw [e2, Finset.mem_singleton] at hlm
      rw [hum, hlm, relSign_self hu, relSign_self hl, one_mul, one_smul]
    · have a1 : AntisymmFn fun v : List Index => I.op (v.map (extendTo σ)) (op.lower.list.map (extendTo σ)) := by
        intro pre post a b _
        simp only [List.map_append, List.map_cons]
        exact hI.opUpper _ _ _ _ _
      have a2 : AntisymmFn fun v : List Index => I.op (u.map (extendTo σ)) (v.map (extendTo σ)) := by
        intro pre post a b _
        simp only [List.map_append, List.map_cons]
        exact hI.opLower _ _ _ _ _
      have b1 := a1.relSign hu (h1 u hum).symm
      have b2 := a2.relSign hl (h2 l hlm).symm
      rw [b1, b2, smul_smul]
  have hm : F.meaning orb I = ∑ u ∈ F.orders op.upper.list, ∑ l ∈ F.orders op.lower.list,
      ((-1 : ℤ) ^ (reversals op.upper.list u + reversals op.lower.list l)) • (algebraMap ℚ R F.coeff) •
        ∑ σ ∈ orb.assignments (labelsOf F.factors op),
          I.pval (extendTo σ) F.factors • I.op (u.map (extendTo σ)) (l.map (extendTo σ)) := by
    unfold LatexFormula.meaning
    generalize F.op.getD ([], []) = ul at hF
    subst hF
    rfl
  rw [hm, Finset.sum_congr rfl fun u hu => Finset.sum_congr rfl fun l hl => key u hu l hl]
  simp only [Finset.sum_const]
  rw [← mul_nsmul', ← value_smul, map_natCast, Nat.cast_smul_eq_nsmul]

end

/-! ### What `Term.latex` writes -/

/-- The printed operators `P`. -/
def printedPerms (nc na : Nat) (p1 p2 : List (List Index)) : List (List (List Index)) :=
  (if nc = 1 then [] else [p1]) ++ (if na = 1 then [] else [p2])

theorem latexTextSide (x : Indices) (ha : x.ty.isAntisym = true) (part : List (List Index)) (hp : part.flatten.Perm x.list) :
    ∃ n, x.nMultisetPermutation part = .ok n ∧ n = (multisetPerms (blockWord part)).length ∧ 0 < n ∧
      x.latexPermuteText part = .ok (n, if n = 1 then [] else partitionText part) := by
  obtain ⟨hn, hc⟩ := nMultiset_eq x ha part hp
  refine ⟨_, hn, rfl, pos_of_mul_eq hc (Nat.factorial_pos _), ?_⟩
  have hv : x.isValidPartition part = .ok () := by
    unfold Indices.nMultisetPermutation at hn
    cases hv : x.isValidPartition part with
    | ok v => rfl
    | error e => rw [hv] at hn; cases hn
  unfold Indices.latexPermuteText
  simp only [hv, ha, hn, if_true, bind, Except.bind, pure, Except.pure]
  by_cases h1 : (multisetPerms (blockWord part)).length = 1 <;> simp [h1]

/-- The text of the permutations: a space in front of each. -/
theorem permsText (nc na : Nat) (p1 p2 : List (List Index)) :
    let a := if nc = 1 then [] else partitionText p1
    let b := if na = 1 then [] else partitionText p2
    let perm := a ++ (if a ≠ [] ∧ b ≠ [] then [' '] else []) ++ b
    (if perm ≠ [] then ' ' :: perm else perm) = ((printedPerms nc na p1 p2).map fun p => ' ' :: antisymText p).flatten := by
  have h1 := partitionText_ne p1
  have h2 := partitionText_ne p2
  by_cases e1 : nc = 1 <;> by_cases e2 : na = 1 <;>
    simp [printedPerms, e1, e2, h1, h2, ← partitionText_eq]

theorem decorated_cancel {dollar backslash : Bool} {s s' : PyStr} (h : decorated dollar backslash s = decorated dollar backslash s') : s = s' := by
  unfold decorated at h
  cases dollar <;> cases backslash <;> simpa using h

theorem latex_text (limit : ℚ → Nat → ℚ) (hl : ClosestFraction limit) (t : Term) (dollar permute delimiter backslash : Bool) {n : Nat}
    {perm op : PyStr} (h : (if permute then t.sqOp.latexPermuteText t.permPartitionOpen.1 t.permPartitionOpen.2
      else pure (1, [], SqOp.latex t.sqOp)) = Except.ok (n, perm, op)) (F : LatexFormula) (hc : F.coeff = t.coeff / (n : ℚ))
    (hr : F.coeff.den ≤ 1000000000) (hf : F.factors = t.tensors)
    (hp : (if perm ≠ [] then ' ' :: perm else perm) = (F.perms.map fun p => ' ' :: antisymText p).flatten)
    (ho : (if op ≠ [] then ' ' :: op else op) = match F.op with | none => [] | some (u, l) => [' ', 'a'] ++ scriptsText u l) :
    t.latex limit dollar permute delimiter backslash = .ok (decorated dollar backslash (F.text delimiter)) := by
  have e : t.latex limit dollar permute delimiter backslash = Except.ok
      (let coeff := formatCoeff limit (t.coeff / (n : ℚ)) false
      let coeff := if delimiter then coeff ++ [' ', '&'] else coeff
      let perm := if perm ≠ [] then ' ' :: perm else perm
      let op := if op ≠ [] then ' ' :: op else op
      let op := if backslash then op ++ [' ', '\\', '\\'] else op
      let out := coeff ++ perm ++ (' ' :: joinWith [' '] (t.tensors.map Tensor.latex)) ++ op
      if dollar then '$' :: (out ++ ['$']) else out) := by
    unfold Term.latex
    cases permute with
    | false =>
      simp only [Bool.false_eq_true, if_false, pure, Except.pure, Except.ok.injEq, Prod.mk.injEq] at h
      obtain ⟨rfl, rfl, rfl⟩ := h
      rfl
    | true =>
      simp only [if_true] at h
      simp only [if_true, h]
      rfl
  rw [e]
  simp only
  rw [hp, ho, ← hc, (C63_exact limit hl F.coeff hr).1, joinWith_eq]
  have hfac : t.tensors.map Tensor.latex = F.factors.map fun x => x.name ++ scriptsText x.upper.list x.lower.list := by
    rw [hf]; exact List.map_congr_left fun x _ => (factorText_eq x).symm
  rw [hfac]
  unfold decorated LatexFormula.text
  cases hF : F.op <;> cases dollar <;> cases delimiter <;> cases backslash <;> simp

/-- The number of permutations of the printed operators `P`. -/
def permCount (ps : List (List (List Index))) : Nat := (ps.map fun p => (multisetPerms (blockWord p)).length).prod

theorem blockWord_single (p : List (List Index)) (h : p.length ≤ 1) : (multisetPerms (blockWord p)).length = 1 := by
  match p, h with
  | [], _ => decide
  | [b], _ =>
    have h1 : (Indices.mk .antisym b).list = b := rfl
    have := (nMultiset_eq (Indices.mk .antisym b) rfl [b] (by simp)).2
    simp only [List.map_cons, List.map_nil, List.prod_cons, List.prod_nil, mul_one, Indices.size] at this
    exact Nat.eq_of_mul_eq_mul_right (Nat.factorial_pos b.length) (by rw [this, one_mul])
  | _ :: _ :: _, h => simp at h

/-- Everything about the formula printed for a term. -/
structure Printed (t : Term) (op : SqOp) (n : Nat) (F : LatexFormula) : Prop where
  coeff : F.coeff = t.coeff / (n : ℚ)
  count : n = permCount F.perms
  pos : 0 < n
  dvd : n ∣ op.upper.list.length.factorial * op.lower.list.length.factorial
  factors : F.factors = t.tensors
  opLabels : F.op = if op.upper.list = [] ∧ op.lower.list = [] then none else some (op.upper.list, op.lower.list)
  groups : ∀ p ∈ F.perms, p ≠ [] ∧ ∀ g ∈ p, g ≠ []
  parts : F.perms = [] ∨ op.upper.ty.isAntisym = true
  cards : (F.orders op.upper.list).card * (F.orders op.lower.list).card = n
  upper : ∀ u ∈ F.orders op.upper.list, u.Perm op.upper.list
  lower : ∀ l ∈ F.orders op.lower.list, l.Perm op.lower.list

theorem orders_perm (F : LatexFormula) (l : List Index) : ∀ u ∈ F.orders l, u.Perm l := by
  intro u hu
  unfold LatexFormula.orders at hu
  split at hu
  · rw [Finset.mem_singleton] at hu; rw [hu]
  · rw [Finset.mem_filter, List.mem_toFinset, List.mem_permutations] at hu; exact hu.1

theorem isEmpty_iff (op : SqOp) : op.isEmpty = true ↔ op.upper.list = [] ∧ op.lower.list = [] := by
  simp [IndicesPair.isEmpty, IndicesPair.size, IndicesPair.nUpper, IndicesPair.nLower, Indices.size]

theorem latex_printed {ts : List Tensor} {op : SqOp} {c : ℚ} {t : Term} (ht : Term.make ts op c = .ok t) (hop : op.Constructed)
    (hd : t.diag = ∅) : ∃ n perm opText F, t.sqOp.latexPermuteText t.permPartitionOpen.1 t.permPartitionOpen.2 = .ok (n, perm, opText) ∧
      Printed t op n F ∧ (if perm ≠ [] then ' ' :: perm else perm) = (F.perms.map fun p => ' ' :: antisymText p).flatten ∧
      (if opText ≠ [] then ' ' :: opText else opText) = match F.op with | none => [] | some (u, l) => [' ', 'a'] ++ scriptsText u l := by
  obtain ⟨-, -, -, m4⟩ := Term.make_ok.1 ht
  have hsq : t.sqOp = op := by rw [m4]
  obtain ⟨hU, hL⟩ := Term.permPartitionOpen_spec ht hop hd
  have hwU := (Indices.make_eq hop.1).2.1
  have hwL := (Indices.make_eq hop.2.1).2.1
  have htyL : op.upper.ty = op.lower.ty := (IndicesPair.make_eq hop.2.2).2
  have hdis : ∀ i, i ∈ op.upper.list → i ∈ op.lower.list → False := by
    intro i h1 h2
    have hd' : diagonalOf ts op = ∅ := by rw [m4] at hd; exact hd
    have : i ∈ diagonalOf ts op := mem_diagonalOf.2 (Or.inl ⟨h1, h2⟩)
    rw [hd'] at this; simp at this
  have hopText : ∀ x : SqOp, (if SqOp.latex x ≠ [] then ' ' :: SqOp.latex x else SqOp.latex x) = [' ', 'a'] ++ scriptsText x.upper.list x.lower.list := by
    intro x
    rw [opText_eq, if_pos (by simp [SqOp.latex])]
  have plain : ∀ F : LatexFormula, F.perms = [] → ∀ l, F.orders l = {l} := by
    intro F hF l; unfold LatexFormula.orders; rw [hF]; rfl
  rw [hsq]
  generalize t.permPartitionOpen.1 = p1 at hU
  generalize t.permPartitionOpen.2 = p2 at hL
  by_cases he : op.isEmpty = true
  · have h0 := (isEmpty_iff op).1 he
    refine ⟨1, [], [], ⟨t.coeff / (1 : Nat), [], t.tensors, none⟩, ?_, ?_, rfl, rfl⟩
    · unfold SqOp.latexPermuteText; rw [if_pos he]
    · exact ⟨rfl, rfl, one_pos, one_dvd _, rfl, by rw [if_pos h0], by simp, Or.inl rfl, by simp [plain], orders_perm _ _, orders_perm _ _⟩
  · have h0 : ¬ (op.upper.list = [] ∧ op.lower.list = []) := fun h => he ((isEmpty_iff op).2 h)
    by_cases hanti : op.upper.ty.isAntisym = true
    · obtain ⟨nc, -, c1, c2, c3⟩ := latexTextSide op.upper hanti p1 hU.perm
      obtain ⟨na, -, a1, a2, a3⟩ := latexTextSide op.lower (htyL ▸ hanti) p2 hL.perm
      have d1 := (nMultiset_eq op.upper hanti p1 hU.perm).2
      have d2 := (nMultiset_eq op.lower (htyL ▸ hanti) p2 hL.perm).2
      rw [← c1] at d1
      rw [← a1] at d2
      refine ⟨nc * na, _, _, ⟨t.coeff / (nc * na : Nat), printedPerms nc na p1 p2, t.tensors, some (op.upper.list, op.lower.list)⟩, ?_, ?_,
        permsText nc na p1 p2, hopText op⟩
      · unfold SqOp.latexPermuteText
        rw [if_neg he, c3, a3]
        rfl
      · have long : ∀ p : List (List Index), (multisetPerms (blockWord p)).length ≠ 1 → 1 < p.length := by
          intro p hp
          by_contra hlt
          exact hp (blockWord_single p (by omega))
        have neU : nc ≠ 1 → op.upper.list ≠ [] := by
          intro h hn
          rw [Indices.size, hn] at d1
          exact h (Nat.eq_one_of_mul_eq_one_right (by simpa using d1))
        have neL : na ≠ 1 → op.lower.list ≠ [] := by
          intro h hn
          rw [Indices.size, hn] at d2
          exact h (Nat.eq_one_of_mul_eq_one_right (by simpa using d2))
        have e1 : nc ≠ 1 → ¬ p1.flatten.Perm op.lower.list := by
          intro h hp
          obtain ⟨i, hi⟩ := List.exists_mem_of_ne_nil _ (neU h)
          exact hdis i hi (hp.mem_iff.1 (hU.perm.mem_iff.2 hi))
        have e2 : na ≠ 1 → ¬ p2.flatten.Perm op.upper.list := by
          intro h hp
          obtain ⟨i, hi⟩ := List.exists_mem_of_ne_nil _ (neL h)
          exact hdis i (hp.mem_iff.1 (hL.perm.mem_iff.2 hi)) hi
        have o1 : (LatexFormula.orders ⟨t.coeff / (nc * na : Nat), printedPerms nc na p1 p2, t.tensors, some (op.upper.list, op.lower.list)⟩
            op.upper.list).card = nc := by
          unfold LatexFormula.orders printedPerms
          by_cases h1 : nc = 1
          · by_cases h2 : na = 1
            · simp [h1, h2]
            · simp [h1, h2, e2 h2]
          · simp only [h1, if_false, List.cons_append, List.nil_append, List.find?_cons, hU.perm, decide_true]
            rw [orders_card hwU hU.perm, c1]
        have o2 : (LatexFormula.orders ⟨t.coeff / (nc * na : Nat), printedPerms nc na p1 p2, t.tensors, some (op.upper.list, op.lower.list)⟩
            op.lower.list).card = na := by
          unfold LatexFormula.orders printedPerms
          by_cases h2 : na = 1
          · by_cases h1 : nc = 1
            · simp [h1, h2]
            · simp [h1, h2, e1 h1]
          · have : ((if nc = 1 then [] else [p1]) ++ (if na = 1 then [] else [p2])).find? (fun p => decide (p.flatten.Perm op.lower.list)) = some p2 := by
              by_cases h1 : nc = 1
              · simp [h1, h2, hL.perm]
              · simp [h1, h2, e1 h1, hL.perm]
            rw [this]
            simp only
            rw [orders_card hwL hL.perm, a1]
        refine ⟨rfl, ?_, Nat.mul_pos c2 a2, Nat.mul_dvd_mul ⟨_, d1.symm⟩ ⟨_, d2.symm⟩, rfl, by rw [if_neg h0], ?_, Or.inr hanti,
          by rw [o1, o2], orders_perm _ _, orders_perm _ _⟩
        · unfold permCount printedPerms
          by_cases h1 : nc = 1 <;> by_cases h2 : na = 1 <;> simp [h1, h2, ← c1, ← a1]
        · intro p hp
          unfold printedPerms at hp
          rcases List.mem_append.1 hp with hp | hp
          · by_cases h1 : nc = 1
            · simp [h1] at hp
            · simp only [h1, if_false, List.mem_singleton] at hp
              subst hp
              refine ⟨?_, hU.ne (neU h1)⟩
              intro hn
              have := long p (by rw [← c1]; exact h1)
              rw [hn] at this; simp at this
          · by_cases h2 : na = 1
            · simp [h2] at hp
            · simp only [h2, if_false, List.mem_singleton] at hp
              subst hp
              refine ⟨?_, hL.ne (neL h2)⟩
              intro hn
              have := long p (by rw [← a1]; exact h2)
              rw [hn] at this; simp at this
    · have hv : ∀ (x : Indices) (p : List (List Index)), p.flatten.Perm x.list → x.ty.isAntisym = false → x.latexPermuteText p = .ok (1, []) := by
        intro x p hp hx
        have hvalid : x.isValidPartition p = .ok () := by
          unfold Indices.isValidPartition
          rw [if_pos]
          rw [List.all_eq_true]
          intro b hb
          rw [List.all_eq_true]
          intro i hi
          simp only [decide_eq_true_eq]
          exact hp.subset (List.mem_flatten.2 ⟨b, hb, hi⟩)
        unfold Indices.latexPermuteText
        simp [hvalid, hx, bind, Except.bind, pure, Except.pure]
      have hanti : op.upper.ty.isAntisym = false := by simpa using hanti
      refine ⟨1, [], SqOp.latex op, ⟨t.coeff / (1 : Nat), [], t.tensors, some (op.upper.list, op.lower.list)⟩, ?_, ?_, rfl, hopText op⟩
      · unfold SqOp.latexPermuteText
        rw [if_neg he, hv _ _ hU.perm hanti, hv _ _ hL.perm (htyL ▸ hanti)]
        rfl
      · exact ⟨rfl, rfl, one_pos, one_dvd _, rfl, by rw [if_neg h0], by simp, Or.inl rfl, by simp [plain], orders_perm _ _, orders_perm _ _⟩

end Dsrg
