import Verif.Spec.Hessian
import Verif.Lemmas.SympyValue
import Verif.Lemmas.Singlet
import Verif.Lemmas.Refill

/-!
Lemmas about `diagonal_hessian_t`.
-/

namespace Dsrg

section
variable {O R M : Type} [Fintype O] [DecidableEq O] [Inhabited O] [CommRing R] [Algebra ℚ R]

theorem Interp.element_perm (I : Interp O R M) (orb : Orbitals O) (c : ℚ) {ts ts' : List Tensor} (h : ts.Perm ts') (op : SqOp) (τ : Index → O) :
    I.element orb c ts op τ = I.element orb c ts' op τ := by
  unfold Interp.element
  rw [labelsOf_perm h]
  congr 1
  exact Finset.sum_congr rfl fun σ _ => I.pval_perm _ h

omit [Algebra ℚ R] in
/-- A sum in which some labels are tied to given orbitals. -/
theorem sum_tied (orb : Orbitals O) (S S' : Finset Index) (L : List Index) (X : List Index) (f : Index → Index) (τ : Index → O)
    (hL : ∀ i ∈ L, i ∈ S' ∧ f i = i) (hX : ∀ i ∈ X, f i ∈ L ∧ (f i).space = i.space ∧ i ∈ S)
    (hf : ∀ i, i ∉ X → f i = i) (hS : ∀ i, i ∈ S ↔ i ∈ X ∨ i ∈ S') (hS' : ∀ i ∈ S', i ∈ X → i ∈ L) (G : (Index → O) → R)
    (hG : ∀ σ σ' : Index → O, (∀ i ∈ S, σ i = σ' i) → G σ = G σ') :
    (∑ σ ∈ (orb.assignments S).filter (fun σ => (∀ i ∈ L, extendTo σ i = τ i) ∧ ∀ i ∈ X, extendTo σ i = τ (f i)), G (extendTo σ)) =
      ∑ σ ∈ (orb.assignments S').filter (fun σ => ∀ i ∈ L, extendTo σ i = τ i), G (extendTo σ ∘ f) := by
  have hsub : ∀ i ∈ S', i ∈ S := fun i hi => (hS i).2 (.inr hi)
  have hfS : ∀ i ∈ S, f i ∈ S' := by
    intro i hi
    by_cases hx : i ∈ X
    · exact (hL _ (hX i hx).1).1
    · rw [hf i hx]; exact ((hS i).1 hi).resolve_left hx
  have key : ∀ σ : S → O, (∀ i ∈ L, extendTo σ i = τ i) → (∀ i ∈ X, extendTo σ i = τ (f i)) → ∀ i ∈ S, extendTo σ (f i) = extendTo σ i := by
    intro σ h1 h2 i _
    by_cases hx : i ∈ X
    · rw [h2 i hx, h1 _ (hX i hx).1]
    · rw [hf i hx]
  refine Finset.sum_nbij' (fun σ => fun i : S' => extendTo σ i.1) (fun σ => fun i : S => extendTo σ (f i.1)) ?_ ?_ ?_ ?_ ?_
  · intro σ hσ
    rw [Finset.mem_filter, orb.mem_assignments] at hσ ⊢
    refine ⟨fun i => ?_, fun i hi => ?_⟩
    · exact Orbitals.extend_in ((orb.mem_assignments S σ).2 hσ.1) (hsub i.1 i.2)
    · rw [extendTo_mem _ (hL i hi).1]; exact hσ.2.1 i hi
  · intro σ hσ
    rw [Finset.mem_filter, orb.mem_assignments] at hσ ⊢
    refine ⟨fun i => ?_, fun i hi => ?_, fun i hi => ?_⟩
    · have h1 := Orbitals.extend_in ((orb.mem_assignments S' σ).2 hσ.1) (hfS i.1 i.2)
      by_cases hx : i.1 ∈ X
      · rw [(hX i.1 hx).2.1] at h1; exact h1
      · rw [hf i.1 hx] at h1 ⊢; exact h1
    · rw [extendTo_mem _ (hsub i (hL i hi).1)]
      show extendTo σ (f i) = _
      rw [(hL i hi).2]; exact hσ.2 i hi
    · rw [extendTo_mem _ (hX i hi).2.2]
      exact hσ.2 _ (hX i hi).1
  · intro σ hσ
    rw [Finset.mem_filter, orb.mem_assignments] at hσ
    funext i
    show extendTo (fun i : S' => extendTo σ i.1) (f i.1) = σ i
    rw [extendTo_mem _ (hfS i.1 i.2)]
    show extendTo σ (f i.1) = σ i
    rw [key σ hσ.2.1 hσ.2.2 i.1 i.2, extendTo_mem σ i.2]
  · intro σ hσ
    rw [Finset.mem_filter, orb.mem_assignments] at hσ
    funext i
    show extendTo (fun i : S => extendTo σ (f i.1)) i.1 = σ i
    rw [extendTo_mem _ (hsub i.1 i.2)]
    show extendTo σ (f i.1) = σ i
    have : f i.1 = i.1 := by
      by_cases hx : i.1 ∈ X
      · exact (hL _ (hS' i.1 i.2 hx)).2
      · exact hf _ hx
    rw [this, extendTo_mem σ i.2]
  · intro σ hσ
    rw [Finset.mem_filter, orb.mem_assignments] at hσ
    refine hG _ _ fun i hi => ?_
    show extendTo σ i = extendTo (fun i : S' => extendTo σ i.1) (f i)
    rw [extendTo_mem _ (hfS i hi)]
    exact (key σ hσ.2.1 hσ.2.2 i hi).symm

/-! ### The split -/

theorem nBody_lengths {x : IndicesPair} {n : Nat} (h : x.nBody = .ok n) : x.upper.list.length = n ∧ x.lower.list.length = n := by
  have h1 := nBody_ok h
  unfold IndicesPair.nBody at h
  rw [if_neg (by simpa using h1.symm)] at h
  have := Except.ok.inj h
  unfold IndicesPair.nLower IndicesPair.nUpper Indices.size at *
  omega

/-- A tensor that is not an amplitude with as many labels as the operator. -/
def NotSuch (op : SqOp) (y : Tensor) : Prop := y.cls = .cluster → ¬ (y.upper.list.length = op.upper.list.length)

theorem hessianSplit_ok {op : SqOp} : ∀ {ts : List Tensor} {cl : Option Tensor} {rest : List Tensor} {r : Option Tensor × List Tensor},
    hessianSplit op cl rest ts = .ok r →
    (∃ rest', r = (cl, rest ++ rest') ∧ rest' = ts ∧ ∀ y ∈ ts, NotSuch op y) ∨
    (cl = none ∧ ∃ pre x post, ts = pre ++ x :: post ∧ r = (some x, rest ++ pre ++ post) ∧ x.cls = .cluster ∧
      x.upper.list.length = op.upper.list.length ∧ x.lower.list.length = op.lower.list.length ∧ (∀ y ∈ pre ++ post, NotSuch op y)) := by
  intro ts
  induction ts with
  | nil =>
    intro cl rest r h
    exact .inl ⟨[], by simpa [hessianSplit, pure, Except.pure, eq_comm] using h, rfl, by simp⟩
  | cons x ts ih =>
    intro cl rest r h
    have skip : NotSuch op x → hessianSplit op cl (rest ++ [x]) ts = .ok r → (∃ rest', r = (cl, rest ++ rest') ∧ rest' = x :: ts ∧ ∀ y ∈ x :: ts, NotSuch op y) ∨
        (cl = none ∧ ∃ pre z post, x :: ts = pre ++ z :: post ∧ r = (some z, rest ++ pre ++ post) ∧ z.cls = .cluster ∧
          z.upper.list.length = op.upper.list.length ∧ z.lower.list.length = op.lower.list.length ∧ (∀ y ∈ pre ++ post, NotSuch op y)) := by
      intro hn h
      rcases ih h with ⟨rest', e, rfl, h2⟩ | ⟨hc, pre, z, post, rfl, e, h1, h2, h3, h4⟩
      · exact .inl ⟨x :: rest', by simp [e], rfl, by simpa using ⟨hn, h2⟩⟩
      · exact .inr ⟨hc, x :: pre, z, post, rfl, by simp [e], h1, h2, h3, by simpa using ⟨hn, by simpa using h4⟩⟩
    unfold hessianSplit at h
    split_ifs at h with hc
    · obtain ⟨n, hn, h⟩ := bind_ok h
      obtain ⟨m, hm, h⟩ := bind_ok h
      obtain ⟨a1, a2⟩ := nBody_lengths hn
      obtain ⟨b1, b2⟩ := nBody_lengths hm
      split_ifs at h with hnm
      · cases cl with
        | some _ => cases h
        | none =>
          rcases ih h with ⟨rest', e, rfl, h2⟩ | ⟨hc', -⟩
          · exact .inr ⟨rfl, [], x, rest', rfl, by simpa using e, hc, by change x.pair.upper.list.length = _; omega, by change x.pair.lower.list.length = _; omega, by simpa using h2⟩
          · cases hc'
      · exact skip (fun _ e => hnm (by change x.pair.upper.list.length = _ at e; omega)) h
    · exact skip (fun e => absurd e hc) h

/-- The dictionary as a function. -/
def hessianFun (pairs : List (Index × Index)) (i : Index) : Index :=
  match pairs.reverse.find? fun e => decide (e.1 = i) with
  | some e => e.2
  | none => i

theorem hessianMap_realizes (labels : Finset Index) (pairs : List (Index × Index)) : Realizes (hessianMap labels pairs) (hessianFun pairs) := by
  intro i j h
  unfold hessianMap at h
  unfold hessianFun
  split at h
  · rename_i e he
    rw [he]; exact (Except.ok.inj h).symm
  · rename_i he
    rw [he]
    split_ifs at h
    exact (Except.ok.inj h).symm

theorem hessianFun_zip {xs ys : List Index} (hx : xs.Nodup) (hl : xs.length = ys.length) :
    xs.map (hessianFun (xs.zip ys)) = ys ∧ ∀ i ∉ xs, hessianFun (xs.zip ys) i = i := by
  have hfst : (xs.zip ys).map Prod.fst = xs := List.map_fst_zip hl.le
  constructor
  · refine List.ext_getElem (by simp [hl]) fun k h1 h2 => ?_
    rw [List.getElem_map]
    have hk : k < (xs.zip ys).length := by simp [List.length_zip]; simp at h1; omega
    have hm : (xs.zip ys)[k] ∈ (xs.zip ys).reverse := List.mem_reverse.2 (List.getElem_mem hk)
    unfold hessianFun
    cases hf : (xs.zip ys).reverse.find? fun e => decide (e.1 = xs[k]'(by simpa using h1)) with
    | none =>
      rw [List.find?_eq_none] at hf
      exact absurd (hf _ hm) (by simp)
    | some e =>
      have e1 := List.find?_some hf
      have e2 := List.mem_reverse.1 (List.mem_of_find?_eq_some hf)
      simp only [decide_eq_true_eq] at e1
      obtain ⟨k', hk', rfl⟩ := List.getElem_of_mem e2
      simp only [List.getElem_zip] at e1 ⊢
      have := (List.Nodup.getElem_inj_iff hx).1 e1
      subst this
      rfl
  · intro i hi
    unfold hessianFun
    cases hf : (xs.zip ys).reverse.find? fun e => decide (e.1 = i) with
    | none => rfl
    | some e =>
      have e1 := List.find?_some hf
      have e2 := List.mem_reverse.1 (List.mem_of_find?_eq_some hf)
      simp only [decide_eq_true_eq] at e1
      refine absurd ?_ hi
      rw [← e1, ← hfst]
      exact List.mem_map.2 ⟨e, e2, rfl⟩

/-! ### The value -/

theorem relabel_indices (f : Index → Index) (x : Tensor) : (x.relabel f).pair.indices = x.pair.indices.map f := by
  simp [Tensor.relabel, IndicesPair.indices, IndicesPair.relabel]

theorem mem_pair_indices {x : Tensor} {i : Index} : i ∈ x.pair.indices ↔ i ∈ x.upper.list ∨ i ∈ x.lower.list := List.mem_append

omit [Fintype O] [Inhabited O] [Algebra ℚ R] in
theorem pval_shift_other (I : Interp O R M) (ε : R) {op : SqOp} {ul : List O} (ll : List O) (hu : ul.length = op.upper.list.length) (σ : Index → O)
    {ts : List Tensor} (h : ∀ y ∈ ts, NotSuch op y) : (I.shiftElement ε ul ll).pval σ ts = I.pval σ ts := by
  unfold Interp.pval
  congr 1
  refine List.map_congr_left fun y hy => ?_
  unfold Interp.tval Interp.shiftElement
  simp only []
  rw [if_neg, add_zero]
  rintro ⟨h1, h2, -⟩
  refine h y hy h1 ?_
  rw [← hu, ← h2, List.length_map]

theorem element_shift (I : Interp O R M) (orb : Orbitals O) (c : ℚ) {x : Tensor} {rest : List Tensor} {op : SqOp} (hcls : x.cls = .cluster)
    {u l : List Index} (hul : ∀ i, i ∈ u ++ l ↔ i ∈ op.upper.list ++ op.lower.list)
    (hlen : u.length = op.upper.list.length) (hrest : ∀ y ∈ rest, NotSuch op y) (hnd : x.pair.indices.Nodup)
    (hspu : x.upper.list.map Index.space = u.map Index.space) (hspl : x.lower.list.map Index.space = l.map Index.space)
    (hpos : ∀ p ∈ x.pair.indices.zip (u ++ l), p.1 ∈ op.upper.list ++ op.lower.list → p.1 = p.2) (τ : Index → O) (ε : R) :
    (I.shiftElement ε (u.map τ) (l.map τ)).element orb c (x :: rest) op τ = I.element orb c (x :: rest) op τ +
      ε * I.element orb c (rest.map (Tensor.relabel (hessianFun (x.pair.indices.zip (u ++ l))))) op τ := by
  have lu : x.upper.list.length = u.length := by simpa using congrArg List.length hspu
  have ll : x.lower.list.length = l.length := by simpa using congrArg List.length hspl
  have lx : x.pair.indices.length = (u ++ l).length := by
    show (x.upper.list ++ x.lower.list).length = _
    simp [lu, ll]
  obtain ⟨hmap, hid⟩ := hessianFun_zip hnd lx
  set f := hessianFun (x.pair.indices.zip (u ++ l)) with hf
  have hsp : x.pair.indices.map Index.space = (u ++ l).map Index.space := by
    show (x.upper.list ++ x.lower.list).map Index.space = _
    rw [List.map_append, List.map_append, hspu, hspl]
  have hmem : ∀ i ∈ x.pair.indices, (i, f i) ∈ x.pair.indices.zip (u ++ l) := by
    intro i hi
    obtain ⟨k, hk, rfl⟩ := List.getElem_of_mem hi
    have : f (x.pair.indices[k]) = (u ++ l)[k]'(by omega) := by
      rw [← List.getElem_map (f := f) (h := by simpa using hk)]
      exact List.getElem_of_eq hmap _
    rw [this, ← List.getElem_zip (h := by simp only [List.length_zip]; omega)]
    exact List.getElem_mem _
  have hfm : ∀ i ∈ x.pair.indices, f i ∈ op.upper.list ++ op.lower.list := fun i hi => (hul _).1 (List.of_mem_zip (hmem i hi)).2
  have hfs : ∀ i ∈ x.pair.indices, (f i).space = i.space := by
    intro i hi
    rw [← hmap, List.map_map] at hsp
    exact (List.map_inj_left.1 hsp i hi).symm
  have hfL : ∀ i ∈ op.upper.list ++ op.lower.list, f i = i := by
    intro i hi
    by_cases hx : i ∈ x.pair.indices
    · exact (hpos _ (hmem i hx) hi).symm
    · exact hid i hx
  have hcond : ∀ σ : Index → O, (x.upper.list.map σ = u.map τ ∧ x.lower.list.map σ = l.map τ) ↔ ∀ i ∈ x.pair.indices, σ i = τ (f i) := by
    intro σ
    rw [← List.map_inj_left, show x.pair.indices.map (fun a => τ (f a)) = (u ++ l).map τ by rw [← hmap, List.map_map]; rfl,
      show x.pair.indices = x.upper.list ++ x.lower.list from rfl, List.map_append, List.map_append]
    constructor
    · rintro ⟨h1, h2⟩; rw [h1, h2]
    · intro h; exact List.append_inj h (by simp [lu])
  have hval : ∀ σ : Index → O, (I.shiftElement ε (u.map τ) (l.map τ)).pval σ (x :: rest) =
      I.pval σ (x :: rest) + if (∀ i ∈ x.pair.indices, σ i = τ (f i)) then ε * I.pval σ rest else 0 := by
    intro σ
    have hc : ∀ J : Interp O R M, J.pval σ (x :: rest) = J.tval σ x * J.pval σ rest := fun J => by simp [Interp.pval]
    rw [hc, hc, pval_shift_other I ε (l.map τ) (by simpa using hlen) σ hrest]
    have : (I.shiftElement ε (u.map τ) (l.map τ)).tval σ x = I.tval σ x + if (∀ i ∈ x.pair.indices, σ i = τ (f i)) then ε else 0 := by
      unfold Interp.tval Interp.shiftElement
      simp only []
      simp only [hcls, true_and, hcond σ]
    rw [this, add_mul]
    congr 1
    split_ifs <;> simp
  unfold Interp.element
  simp only [hval, Finset.sum_add_distrib, mul_add]
  congr 1
  rw [← mul_assoc, mul_comm ε, mul_assoc]
  congr 1
  rw [← Finset.sum_filter, Finset.filter_filter, ← Finset.mul_sum]
  congr 1
  simp only [Interp.pval_relabel]
  refine sum_tied orb (labelsOf (x :: rest) op) _ (op.upper.list ++ op.lower.list) x.pair.indices f τ ?_ ?_ hid ?_ ?_ (fun σ => I.pval σ rest) ?_
  · exact fun i hi => ⟨mem_labelsOf.2 (mem_labelList.2 (.inl hi)), hfL i hi⟩
  · exact fun i hi => ⟨hfm i hi, hfs i hi, mem_labelsOf.2 (mem_labelList.2 (.inr ⟨x, by simp, hi⟩))⟩
  · intro i
    rw [mem_labelsOf, mem_labelList, mem_labelsOf, mem_labelList]
    constructor
    · rintro (hi | ⟨y, hy, hi⟩)
      · exact .inr (.inl hi)
      · rcases List.mem_cons.1 hy with rfl | hy
        · exact .inl hi
        · by_cases hx : i ∈ x.pair.indices
          · exact .inl hx
          · refine .inr (.inr ⟨y.relabel f, List.mem_map.2 ⟨y, hy, rfl⟩, ?_⟩)
            rw [relabel_indices, List.mem_map]
            exact ⟨i, hi, hid i hx⟩
    · rintro (hi | hi | ⟨y, hy, hi⟩)
      · exact .inr ⟨x, by simp, hi⟩
      · exact .inl hi
      · obtain ⟨z, hz, rfl⟩ := List.mem_map.1 hy
        rw [relabel_indices, List.mem_map] at hi
        obtain ⟨j, hj, rfl⟩ := hi
        by_cases hx : j ∈ x.pair.indices
        · exact .inl (hfm j hx)
        · rw [hid j hx]; exact .inr ⟨z, by simp [hz], hj⟩
  · intro i hi hx
    rw [mem_labelsOf, mem_labelList] at hi
    rcases hi with hi | ⟨y, hy, hi⟩
    · exact hi
    · obtain ⟨z, hz, rfl⟩ := List.mem_map.1 hy
      rw [relabel_indices, List.mem_map] at hi
      obtain ⟨j, hj, rfl⟩ := hi
      by_cases hjx : j ∈ x.pair.indices
      · exact hfm j hjx
      · rw [hid j hjx] at hx; exact absurd hx hjx
  · intro σ σ' h
    exact I.pval_congr fun y hy i hi => h i (mem_labelsOf.2 (mem_labelList.2 (.inr ⟨y, by simp [hy], hi⟩)))

end

end Dsrg
