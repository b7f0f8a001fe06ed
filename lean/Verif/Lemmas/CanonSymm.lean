import Verif.Lemmas.SimplifyPlain

/-!
Changes of notation: they can be undone, and they do not change which amplitudes have active labels only.
-/

namespace Dsrg

theorem relabel_eq_withLabels {x : Tensor} (h : x.lower.ty = x.upper.ty) (f : Index → Index) :
    x.relabel f = x.withLabels (x.upper.list.map f) (x.lower.list.map f) := by
  unfold Tensor.relabel Tensor.withLabels; rw [h]

theorem op_relabel_eq_withLabels {op : SqOp} (h : op.lower.ty = op.upper.ty) (f : Index → Index) :
    op.relabel f = op.withLabels (op.upper.list.map f) (op.lower.list.map f) := by
  unfold IndicesPair.relabel SqOp.withLabels; rw [h]

theorem allActive_congr {x y : Tensor} (hc : y.cls = x.cls) (h : (∀ i ∈ y.pair.indices, i.space.kind = .a) ↔ ∀ i ∈ x.pair.indices, i.space.kind = .a) :
    allActiveAmplitude id y = allActiveAmplitude id x := by
  unfold allActiveAmplitude
  rw [hc, Bool.eq_iff_iff, Bool.and_eq_true, Bool.and_eq_true, List.all_eq_true, List.all_eq_true]
  simp only [id, decide_eq_true_eq]
  rw [h]

theorem allActive_withLabels {x : Tensor} {u l : List Index} (h : ((u ++ l).map Index.space).Perm (x.pair.indices.map Index.space)) :
    allActiveAmplitude id (x.withLabels u l) = allActiveAmplitude id x := by
  refine allActive_congr rfl ?_
  have key : ∀ L : List Index, (∀ i ∈ L, i.space.kind = Kind.a) ↔ ∀ s ∈ L.map Index.space, s.kind = .a := by simp
  rw [key, key]
  show (∀ s ∈ (u ++ l).map Index.space, s.kind = Kind.a) ↔ _
  simp only [h.mem_iff]

theorem allActive_any_append {ts₁ ts₂ : List Tensor} {x y : Tensor} (h : allActiveAmplitude id y = allActiveAmplitude id x) :
    (ts₁ ++ y :: ts₂).any (allActiveAmplitude id) = (ts₁ ++ x :: ts₂).any (allActiveAmplitude id) := by
  simp [h]

theorem Rewrites.allActive {hermitian : Bool} {c c' : ℚ} {ts ts' : List Tensor} {op op' : SqOp} (h : Rewrites hermitian c ts op c' ts' op') :
    ts'.any (allActiveAmplitude id) = ts.any (allActiveAmplitude id) := by
  have swap : ∀ (l₁ l₂ : List Index) (i j : Index), (l₁ ++ j :: i :: l₂).Perm (l₁ ++ i :: j :: l₂) :=
    fun l₁ l₂ i j => (List.Perm.swap i j l₂).append_left l₁
  cases h with
  | rename _ _ f h1 h2 =>
    rw [List.any_map, Bool.eq_iff_iff, List.any_eq_true, List.any_eq_true]
    refine exists_congr fun x => and_congr_right fun hx => ?_
    have hin : ∀ i ∈ x.pair.indices, (f i).space = i.space := fun i hi => h2 i (by rw [mem_labelsOf, mem_labelList]; exact .inr ⟨x, hx, hi⟩)
    rw [Function.comp, allActive_withLabels (x := x)]
    refine .of_eq ?_
    rw [← List.map_append, List.map_map]
    exact List.map_congr_left hin
  | reorder _ _ _ h => exact h.symm.any_eq
  | upper ts₁ ts₂ x _ l₁ l₂ i j e =>
    refine allActive_any_append (allActive_withLabels (List.Perm.map _ ?_))
    have := (swap l₁ l₂ i j).append_right x.lower.list
    rw [← e] at this
    exact this
  | lower ts₁ ts₂ x _ l₁ l₂ i j e =>
    refine allActive_any_append (allActive_withLabels (List.Perm.map _ ?_))
    have := (swap l₁ l₂ i j).append_left x.upper.list
    rw [← e] at this
    exact this
  | adjoint ts₁ ts₂ x _ e => exact allActive_any_append (allActive_withLabels (List.Perm.map _ List.perm_append_comm))
  | opUpper _ _ l₁ l₂ i j e => rfl
  | opLower _ _ l₁ l₂ i j e => rfl

theorem SameUpToNotation.allActive {hermitian : Bool} {c c' : ℚ} {ts ts' : List Tensor} {op op' : SqOp}
    (h : SameUpToNotation hermitian c ts op c' ts' op') : ts'.any (allActiveAmplitude id) = ts.any (allActiveAmplitude id) := by
  have key : ∀ a b : ℚ × List Tensor × SqOp,
      Relation.ReflTransGen (fun a b : ℚ × List Tensor × SqOp => Rewrites hermitian a.1 a.2.1 a.2.2 b.1 b.2.1 b.2.2) a b →
      b.2.1.any (allActiveAmplitude id) = a.2.1.any (allActiveAmplitude id) := by
    intro a b h
    induction h with
    | refl => rfl
    | tail _ h ih => rw [h.allActive, ih]
  exact key _ _ h

theorem Rewrites.symm {hermitian : Bool} {c c' : ℚ} {ts ts' : List Tensor} {op op' : SqOp} (h : Rewrites hermitian c ts op c' ts' op') :
    Rewrites hermitian c' ts' op' c ts op := by
  cases h with
  | rename _ _ f h1 h2 =>
    classical
    -- the inverse names
    have hinv : ∃ g : Index → Index, ∀ i ∈ labelsOf ts op, g (f i) = i := by
      refine ⟨fun j => if h : ∃ i ∈ labelsOf ts op, f i = j then h.choose else j, fun i hi => ?_⟩
      have hex : ∃ k ∈ labelsOf ts op, f k = f i := ⟨i, hi, rfl⟩
      simp only []
      rw [dif_pos hex]
      exact h1 _ hex.choose_spec.1 _ hi hex.choose_spec.2
    obtain ⟨g, hg⟩ := hinv
    have hmem : ∀ x ∈ ts, ∀ i, i ∈ x.upper.list ∨ i ∈ x.lower.list → i ∈ labelsOf ts op := by
      intro x hx i hi
      rw [mem_labelsOf, mem_labelList]
      exact .inr ⟨x, hx, List.mem_append.2 hi⟩
    have hmemop : ∀ i, i ∈ op.upper.list ∨ i ∈ op.lower.list → i ∈ labelsOf ts op := by
      intro i hi
      rw [mem_labelsOf, mem_labelList]
      exact .inl (List.mem_append.2 hi)
    have hlab : ∀ j, j ∈ labelsOf (ts.map fun x => x.withLabels (x.upper.list.map f) (x.lower.list.map f))
        (op.withLabels (op.upper.list.map f) (op.lower.list.map f)) → ∃ i ∈ labelsOf ts op, f i = j := by
      intro j hj
      rw [mem_labelsOf, mem_labelList] at hj
      rcases hj with hj | ⟨y, hy, hj⟩
      · have hj : j ∈ op.upper.list.map f ++ op.lower.list.map f := hj
        rw [← List.map_append] at hj
        obtain ⟨i, hi, e⟩ := List.mem_map.1 hj
        exact ⟨i, hmemop i (List.mem_append.1 hi), e⟩
      · obtain ⟨x, hx, rfl⟩ := List.mem_map.1 hy
        have hj : j ∈ x.upper.list.map f ++ x.lower.list.map f := hj
        rw [← List.map_append] at hj
        obtain ⟨i, hi, e⟩ := List.mem_map.1 hj
        exact ⟨i, hmem x hx i (List.mem_append.1 hi), e⟩
    have key := Rewrites.rename (hermitian := hermitian) c (ts.map fun x => x.withLabels (x.upper.list.map f) (x.lower.list.map f))
      (op.withLabels (op.upper.list.map f) (op.lower.list.map f)) g
      (by
        intro i hi j hj e
        obtain ⟨i, hi', rfl⟩ := hlab i hi
        obtain ⟨j, hj', rfl⟩ := hlab j hj
        rw [hg i hi', hg j hj'] at e
        rw [e])
      (by
        intro i hi
        obtain ⟨i, hi', rfl⟩ := hlab i hi
        rw [hg i hi', h2 i hi'])
    have hback : ∀ l : List Index, (∀ i ∈ l, i ∈ labelsOf ts op) → (l.map f).map g = l := by
      intro l hl
      rw [List.map_map]
      conv_rhs => rw [← List.map_id l]
      exact List.map_congr_left fun i hi => hg i (hl i hi)
    have e1 : (ts.map fun x => x.withLabels (x.upper.list.map f) (x.lower.list.map f)).map
        (fun x => x.withLabels (x.upper.list.map g) (x.lower.list.map g)) = ts := by
      rw [List.map_map]
      conv_rhs => rw [← List.map_id ts]
      refine List.map_congr_left fun x hx => ?_
      show x.withLabels ((x.upper.list.map f).map g) ((x.lower.list.map f).map g) = x
      rw [hback _ fun i hi => hmem x hx i (.inl hi), hback _ fun i hi => hmem x hx i (.inr hi)]
      rfl
    have e2 : (op.withLabels (op.upper.list.map f) (op.lower.list.map f)).withLabels
        ((op.withLabels (op.upper.list.map f) (op.lower.list.map f)).upper.list.map g)
        ((op.withLabels (op.upper.list.map f) (op.lower.list.map f)).lower.list.map g) = op := by
      show op.withLabels ((op.upper.list.map f).map g) ((op.lower.list.map f).map g) = op
      rw [hback _ fun i hi => hmemop i (.inl hi), hback _ fun i hi => hmemop i (.inr hi)]
      rfl
    rw [e1, e2] at key
    exact key
  | reorder _ _ _ h => exact .reorder _ _ _ _ h.symm
  | upper ts₁ ts₂ x _ l₁ l₂ i j e =>
    have key := Rewrites.upper (hermitian := hermitian) (-c) ts₁ ts₂ (x.withLabels (l₁ ++ j :: i :: l₂) x.lower.list) op l₁ l₂ j i rfl
    rw [neg_neg] at key
    have e1 : (x.withLabels (l₁ ++ j :: i :: l₂) x.lower.list).withLabels (l₁ ++ i :: j :: l₂) x.lower.list = x := by rw [← e]; rfl
    exact e1 ▸ key
  | lower ts₁ ts₂ x _ l₁ l₂ i j e =>
    have key := Rewrites.lower (hermitian := hermitian) (-c) ts₁ ts₂ (x.withLabels x.upper.list (l₁ ++ j :: i :: l₂)) op l₁ l₂ j i rfl
    rw [neg_neg] at key
    have e1 : (x.withLabels x.upper.list (l₁ ++ j :: i :: l₂)).withLabels x.upper.list (l₁ ++ i :: j :: l₂) = x := by rw [← e]; rfl
    exact e1 ▸ key
  | adjoint ts₁ ts₂ x _ e => exact Rewrites.adjoint c ts₁ ts₂ (x.withLabels x.lower.list x.upper.list) op e
  | opUpper _ _ l₁ l₂ i j e =>
    have key := Rewrites.opUpper (hermitian := hermitian) (-c) ts (op.withLabels (l₁ ++ j :: i :: l₂) op.lower.list) l₁ l₂ j i rfl
    rw [neg_neg] at key
    have e1 : (op.withLabels (l₁ ++ j :: i :: l₂) op.lower.list).withLabels (l₁ ++ i :: j :: l₂) op.lower.list = op := by rw [← e]; rfl
    exact e1 ▸ key
  | opLower _ _ l₁ l₂ i j e =>
    have key := Rewrites.opLower (hermitian := hermitian) (-c) ts (op.withLabels op.upper.list (l₁ ++ j :: i :: l₂)) l₁ l₂ j i rfl
    rw [neg_neg] at key
    have e1 : (op.withLabels op.upper.list (l₁ ++ j :: i :: l₂)).withLabels op.upper.list (l₁ ++ i :: j :: l₂) = op := by rw [← e]; rfl
    exact e1 ▸ key

theorem SameUpToNotation.symm {hermitian : Bool} {c c' : ℚ} {ts ts' : List Tensor} {op op' : SqOp}
    (h : SameUpToNotation hermitian c ts op c' ts' op') : SameUpToNotation hermitian c' ts' op' c ts op := by
  have key : ∀ a b : ℚ × List Tensor × SqOp,
      Relation.ReflTransGen (fun a b : ℚ × List Tensor × SqOp => Rewrites hermitian a.1 a.2.1 a.2.2 b.1 b.2.1 b.2.2) a b →
      Relation.ReflTransGen (fun a b : ℚ × List Tensor × SqOp => Rewrites hermitian a.1 a.2.1 a.2.2 b.1 b.2.1 b.2.2) b a := by
    intro a b h
    induction h with
    | refl => exact .refl
    | tail _ h ih => exact .head h.symm ih
  exact key _ _ h

theorem Rewrites.smul {hermitian : Bool} {c c' : ℚ} {ts ts' : List Tensor} {op op' : SqOp} (h : Rewrites hermitian c ts op c' ts' op') (k : ℚ) :
    Rewrites hermitian (k * c) ts op (k * c') ts' op' := by
  cases h with
  | rename _ _ f h1 h2 => exact .rename _ _ _ f h1 h2
  | reorder _ _ _ h => exact .reorder _ _ _ _ h
  | upper ts₁ ts₂ x _ l₁ l₂ i j e => rw [mul_neg]; exact .upper _ ts₁ ts₂ x _ l₁ l₂ i j e
  | lower ts₁ ts₂ x _ l₁ l₂ i j e => rw [mul_neg]; exact .lower _ ts₁ ts₂ x _ l₁ l₂ i j e
  | adjoint ts₁ ts₂ x _ e => exact .adjoint _ ts₁ ts₂ x _ e
  | opUpper _ _ l₁ l₂ i j e => rw [mul_neg]; exact .opUpper _ _ _ l₁ l₂ i j e
  | opLower _ _ l₁ l₂ i j e => rw [mul_neg]; exact .opLower _ _ _ l₁ l₂ i j e

theorem SameUpToNotation.smul {hermitian : Bool} {c c' : ℚ} {ts ts' : List Tensor} {op op' : SqOp}
    (h : SameUpToNotation hermitian c ts op c' ts' op') (k : ℚ) : SameUpToNotation hermitian (k * c) ts op (k * c') ts' op' := by
  have key : ∀ a b : ℚ × List Tensor × SqOp,
      Relation.ReflTransGen (fun a b : ℚ × List Tensor × SqOp => Rewrites hermitian a.1 a.2.1 a.2.2 b.1 b.2.1 b.2.2) a b →
      Relation.ReflTransGen (fun a b : ℚ × List Tensor × SqOp => Rewrites hermitian a.1 a.2.1 a.2.2 b.1 b.2.1 b.2.2)
        (k * a.1, a.2.1, a.2.2) (k * b.1, b.2.1, b.2.2) := by
    intro a b h
    induction h with
    | refl => exact .refl
    | tail _ h ih => exact ih.tail (h.smul k)
  exact key _ _ h

theorem SameUpToNotation.relabel {hermitian : Bool} (c : ℚ) {ts : List Tensor} {op : SqOp} {f : Index → Index}
    (h1 : ∀ i ∈ labelsOf ts op, ∀ j ∈ labelsOf ts op, f i = f j → i = j) (h2 : ∀ i ∈ labelsOf ts op, (f i).space = i.space)
    (hty : ∀ x ∈ ts, x.lower.ty = x.upper.ty) (hop : op.lower.ty = op.upper.ty) :
    SameUpToNotation hermitian c ts op c (ts.map (Tensor.relabel f)) (op.relabel f) := by
  have e : ts.map (Tensor.relabel f) = ts.map fun x => x.withLabels (x.upper.list.map f) (x.lower.list.map f) :=
    List.map_congr_left fun x hx => relabel_eq_withLabels (hty x hx) f
  rw [e, op_relabel_eq_withLabels hop]
  exact .single (Rewrites.rename c ts op f h1 h2)

end Dsrg
