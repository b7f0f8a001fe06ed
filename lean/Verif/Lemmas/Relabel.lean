import Verif.Lemmas.TermMake
import Verif.Lemmas.SumLabels

/-!
Relabelled tensors and operators and their values.
-/

namespace Dsrg

/-- A python replacement map gives the values of the function `f` wherever it does not raise. -/
def Realizes (ρ : Index → Except PyErr Index) (f : Index → Index) : Prop := ∀ i j, ρ i = .ok j → j = f i

theorem realizes_lookupIn (keys : Finset Index) (repl : Index → Index) : Realizes (lookupIn keys repl) repl := by
  intro i j h
  unfold lookupIn at h
  split_ifs at h
  injection h with h; exact h.symm

theorem mapM_cons_ok {α β ε : Type} {f : α → Except ε β} {a : α} {l : List α} {r : List β} :
    (a :: l).mapM f = .ok r ↔ ∃ b bs, f a = .ok b ∧ l.mapM f = .ok bs ∧ r = b :: bs := by
  rw [List.mapM_cons]
  cases ha : f a with
  | error e => simp [bind, Except.bind]
  | ok b =>
    cases hl : l.mapM f with
    | error e => simp [bind, Except.bind]
    | ok bs =>
      simp only [bind, Except.bind, pure, Except.pure, Except.ok.injEq]
      constructor
      · intro h; exact ⟨b, bs, rfl, rfl, h.symm⟩
      · rintro ⟨_, _, rfl, rfl, h⟩; exact h.symm

theorem mapM_ok_forall₂ {α β ε : Type} {f : α → Except ε β} {l : List α} {r : List β} :
    l.mapM f = .ok r ↔ List.Forall₂ (fun a b => f a = .ok b) l r := by
  induction l generalizing r with
  | nil => simp [pure, Except.pure, eq_comm]
  | cons a l ih =>
    rw [mapM_cons_ok]
    constructor
    · rintro ⟨b, bs, h1, h2, rfl⟩; exact .cons h1 (ih.1 h2)
    · intro h
      cases h with
      | cons h1 h2 => exact ⟨_, _, h1, ih.2 h2, rfl⟩

theorem Realizes.mapM {ρ : Index → Except PyErr Index} {f : Index → Index} (hρ : Realizes ρ f) {l l' : List Index}
    (h : l.mapM ρ = .ok l') : l' = l.map f := by
  induction l generalizing l' with
  | nil => simp [pure, Except.pure] at h; simp [h]
  | cons a l ih =>
    obtain ⟨b, bs, h1, h2, rfl⟩ := mapM_cons_ok.1 h
    rw [hρ _ _ h1, ih h2]; rfl

theorem Indices.make_eq {ty : IType} {l : List Index} {x : Indices} (h : Indices.make ty l = .ok x) :
    x = ⟨ty, l⟩ ∧ l.Nodup ∧ (ty = .spinOrbital → ∀ i ∈ l, i.isBeta = false) := by
  unfold Indices.make at h
  split_ifs at h with h1 h2
  injection h with h
  refine ⟨h.symm, h1, ?_⟩
  intro ht i hi
  by_contra hb
  exact h2 ⟨ht, List.any_eq_true.2 ⟨i, hi, by simpa using hb⟩⟩

theorem IndicesPair.make_eq {u l : Indices} {x : IndicesPair} (h : IndicesPair.make u l = .ok x) : x = ⟨u, l⟩ ∧ u.ty = l.ty := by
  unfold IndicesPair.make at h
  split_ifs at h with h1
  injection h with h
  exact ⟨h.symm, not_not.1 h1⟩

theorem Tensor.make_eq {cls : TCls} {u l : Indices} {name : PyStr} {prio : Int} {x : Tensor}
    (h : Tensor.make cls u l name prio = .ok x) : x = ⟨cls, name, prio, ⟨u, l⟩⟩ ∧ u.ty = l.ty := by
  unfold Tensor.make at h
  simp only [bind, Except.bind] at h
  cases hp : IndicesPair.make u l with
  | error e => rw [hp] at h; simp at h
  | ok pair =>
    rw [hp] at h
    obtain ⟨rfl, ht⟩ := IndicesPair.make_eq hp
    refine ⟨?_, ht⟩
    simp only [pure, Except.pure] at h
    cases h1 : requireSpinConserving ⟨u, l⟩ <;> cases h2 : requireOneBody ⟨u, l⟩ <;> cases h3 : clusterTest .v u.list <;>
      cases h4 : clusterTest .c l.list <;> cases cls <;> simp_all

/-- A relabelled tensor. -/
def Tensor.relabel (f : Index → Index) (t : Tensor) : Tensor :=
  ⟨t.cls, t.name, t.priority, ⟨⟨t.upper.ty, t.upper.list.map f⟩, ⟨t.upper.ty, t.lower.list.map f⟩⟩⟩

/-- A relabelled operator. -/
def IndicesPair.relabel (f : Index → Index) (op : IndicesPair) : IndicesPair :=
  ⟨⟨op.upper.ty, op.upper.list.map f⟩, ⟨op.upper.ty, op.lower.list.map f⟩⟩

theorem replaceTensor_ok {ρ : Index → Except PyErr Index} {f : Index → Index} (hρ : Realizes ρ f) {t t' : Tensor}
    (h : replaceTensor ρ t = .ok t') : t' = t.relabel f ∧ (t.upper.list.map f).Nodup ∧ (t.lower.list.map f).Nodup := by
  unfold replaceTensor at h
  simp only [bind, Except.bind] at h
  cases h1 : t.upper.list.mapM ρ with
  | error e => rw [h1] at h; simp at h
  | ok ul =>
    cases h2 : Indices.make t.upper.ty ul with
    | error e => simp [h1, h2] at h
    | ok u =>
      cases h3 : t.lower.list.mapM ρ with
      | error e => simp [h1, h2, h3] at h
      | ok ll =>
        cases h4 : Indices.make t.upper.ty ll with
        | error e => simp [h1, h2, h3, h4] at h
        | ok l =>
          simp only [h1, h2, h3, h4] at h
          obtain ⟨rfl, hu, -⟩ := Indices.make_eq h2
          obtain ⟨rfl, hl, -⟩ := Indices.make_eq h4
          obtain ⟨rfl, -⟩ := Tensor.make_eq h
          rw [hρ.mapM h1] at hu ⊢
          rw [hρ.mapM h3] at hl ⊢
          exact ⟨rfl, hu, hl⟩

theorem replaceSqOp_ok {ρ : Index → Except PyErr Index} {f : Index → Index} (hρ : Realizes ρ f) {t t' : SqOp}
    (h : replaceSqOp ρ t = .ok t') : t' = t.relabel f ∧ (t.upper.list.map f).Nodup ∧ (t.lower.list.map f).Nodup := by
  unfold replaceSqOp at h
  simp only [bind, Except.bind] at h
  cases h1 : t.upper.list.mapM ρ with
  | error e => rw [h1] at h; simp at h
  | ok ul =>
    cases h2 : Indices.make t.upper.ty ul with
    | error e => simp [h1, h2] at h
    | ok u =>
      cases h3 : t.lower.list.mapM ρ with
      | error e => simp [h1, h2, h3] at h
      | ok ll =>
        cases h4 : Indices.make t.upper.ty ll with
        | error e => simp [h1, h2, h3, h4] at h
        | ok l =>
          simp only [h1, h2, h3, h4] at h
          obtain ⟨rfl, hu, -⟩ := Indices.make_eq h2
          obtain ⟨rfl, hl, -⟩ := Indices.make_eq h4
          obtain ⟨rfl, -⟩ := IndicesPair.make_eq h
          rw [hρ.mapM h1] at hu ⊢
          rw [hρ.mapM h3] at hl ⊢
          exact ⟨rfl, hu, hl⟩

theorem mapM_replaceTensor_ok {ρ : Index → Except PyErr Index} {f : Index → Index} (hρ : Realizes ρ f) {ts ts' : List Tensor}
    (h : ts.mapM (replaceTensor ρ) = .ok ts') : ts' = ts.map (Tensor.relabel f) ∧
      ∀ t ∈ ts, (t.upper.list.map f).Nodup ∧ (t.lower.list.map f).Nodup := by
  induction ts generalizing ts' with
  | nil => simp [pure, Except.pure] at h; simp [h]
  | cons a l ih =>
    obtain ⟨b, bs, h1, h2, rfl⟩ := mapM_cons_ok.1 h
    obtain ⟨e1, e2⟩ := replaceTensor_ok hρ h1
    obtain ⟨e3, e4⟩ := ih h2
    refine ⟨by rw [e1, e3]; rfl, ?_⟩
    intro t ht
    rcases List.mem_cons.1 ht with rfl | ht
    · exact e2
    · exact e4 t ht

theorem replaceTensors_ok {ρ : Index → Except PyErr Index} {f : Index → Index} (hρ : Realizes ρ f) {ts ts' : List Tensor}
    (h : replaceTensors ρ ts = .ok ts') : ts ≠ [] ∧ ts' = ts.map (Tensor.relabel f) ∧
      ∀ t ∈ ts, (t.upper.list.map f).Nodup ∧ (t.lower.list.map f).Nodup := by
  unfold replaceTensors at h
  split_ifs at h with h1
  exact ⟨by rintro rfl; exact h1 rfl, mapM_replaceTensor_ok hρ h⟩

theorem labelList_relabel (f : Index → Index) (ts : List Tensor) (op : SqOp) :
    labelList (ts.map (Tensor.relabel f)) (op.relabel f) = (labelList ts op).map f := by
  unfold labelList
  simp [IndicesPair.relabel, Tensor.relabel, List.flatMap_map, List.map_flatMap, Tensor.upper, Tensor.lower]

theorem labelsOf_relabel (f : Index → Index) (ts : List Tensor) (op : SqOp) :
    labelsOf (ts.map (Tensor.relabel f)) (op.relabel f) = (labelsOf ts op).image f := by
  ext i
  rw [mem_labelsOf, labelList_relabel]
  simp [labelsOf_eq]

section
variable {O R M : Type} [DecidableEq O] [CommRing R]

theorem Interp.tval_relabel (I : Interp O R M) (f : Index → Index) (τ : Index → O) (t : Tensor) :
    I.tval τ (t.relabel f) = I.tval (fun i => τ (f i)) t := by
  simp [Interp.tval, Tensor.relabel, Tensor.upper, Tensor.lower, Function.comp_def]

theorem Interp.pval_relabel (I : Interp O R M) (f : Index → Index) (τ : Index → O) (ts : List Tensor) :
    I.pval τ (ts.map (Tensor.relabel f)) = I.pval (fun i => τ (f i)) ts := by
  simp [Interp.pval, Function.comp_def, Interp.tval_relabel]

theorem Interp.opval_relabel (I : Interp O R M) (f : Index → Index) (τ : Index → O) (op : SqOp) :
    I.opval τ (op.relabel f) = I.opval (fun i => τ (f i)) op := by
  simp [Interp.opval, IndicesPair.relabel, Function.comp_def]

theorem Interp.tval_congr (I : Interp O R M) {σ τ : Index → O} {t : Tensor} (h : ∀ i ∈ t.pair.indices, σ i = τ i) :
    I.tval σ t = I.tval τ t := by
  unfold Interp.tval
  rw [List.map_congr_left fun i hi => h i (by simp [IndicesPair.indices, hi]),
    List.map_congr_left (l := t.lower.list) fun i hi => h i (by simp [IndicesPair.indices, hi])]

theorem Interp.pval_congr (I : Interp O R M) {σ τ : Index → O} {ts : List Tensor} (h : ∀ t ∈ ts, ∀ i ∈ t.pair.indices, σ i = τ i) :
    I.pval σ ts = I.pval τ ts := by
  unfold Interp.pval
  rw [List.map_congr_left fun t ht => I.tval_congr (h t ht)]

theorem Interp.opval_congr (I : Interp O R M) {σ τ : Index → O} {op : SqOp} (h : ∀ i ∈ op.indices, σ i = τ i) :
    I.opval σ op = I.opval τ op := by
  unfold Interp.opval
  rw [List.map_congr_left fun i hi => h i (by simp [IndicesPair.indices, hi]),
    List.map_congr_left (l := op.lower.list) fun i hi => h i (by simp [IndicesPair.indices, hi])]

theorem Interp.pval_perm (I : Interp O R M) (σ : Index → O) {ts ts' : List Tensor} (h : ts.Perm ts') : I.pval σ ts = I.pval σ ts' :=
  (h.map _).prod_eq

variable [AddCommGroup M] [Module R M]

/-- The summand depends on the labels of the term only. -/
theorem Interp.summand_congr (I : Interp O R M) {σ τ : Index → O} {ts : List Tensor} {op : SqOp}
    (h : ∀ i ∈ labelsOf ts op, σ i = τ i) : I.pval σ ts • I.opval σ op = I.pval τ ts • I.opval τ op := by
  rw [I.pval_congr (τ := τ) fun t ht i hi => h i (mem_labelsOf.2 (mem_labelList.2 (Or.inr ⟨t, ht, hi⟩))),
    I.opval_congr (τ := τ) fun i hi => h i (mem_labelsOf.2 (mem_labelList.2 (Or.inl hi)))]

variable [Fintype O] [Inhabited O] [Algebra ℚ R]

theorem Interp.value_perm (I : Interp O R M) (orb : Orbitals O) (c : ℚ) {ts ts' : List Tensor} (h : ts.Perm ts') (op : SqOp) :
    I.value orb c ts op = I.value orb c ts' op := by
  unfold Interp.value
  rw [labelsOf_perm h]
  congr 1
  exact Finset.sum_congr rfl fun σ _ => by rw [I.pval_perm _ h]

/-- The value does not change when labels are renamed one-to-one within their spaces. -/
theorem Interp.value_relabel (I : Interp O R M) (orb : Orbitals O) (c : ℚ) (ts : List Tensor) (op : SqOp) (f : Index → Index)
    (hinj : ∀ i ∈ labelsOf ts op, ∀ j ∈ labelsOf ts op, f i = f j → i = j) (hsp : ∀ i ∈ labelsOf ts op, (f i).space = i.space) :
    I.value orb c (ts.map (Tensor.relabel f)) (op.relabel f) = I.value orb c ts op := by
  unfold Interp.value
  rw [labelsOf_relabel]
  congr 1
  rw [sum_pullback orb (labelsOf ts op) f (fun σ => I.pval σ ts • I.opval σ op)]
  · exact Finset.sum_congr rfl fun τ _ => by rw [I.pval_relabel, I.opval_relabel]
  · intro σ τ h; exact I.summand_congr h
  · intro i hi o h; rwa [hsp i hi] at h
  · intro σ h _
    refine ⟨fun i hi => by rw [hsp i hi]; exact h i hi, fun i hi j hj e => by rw [hinj i hi j hj e]⟩

end

end Dsrg
