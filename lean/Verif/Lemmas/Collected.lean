import Verif.Lemmas.CanonBack
import Verif.Lemmas.CanonSame
import Verif.Lemmas.NoRaise

/-!
Terms in canonical form: those that differ in notation only are equal up to the coefficient.
-/

namespace Dsrg

/-- What is rebuilt does not depend on the coefficient. -/
theorem sympyTail_coeff {canon : List Nat → List (Nat × Nat) → List SlotGroup → Option (List Nat)} {hermitian : Bool} {s r : Term} {c : ℚ}
    (h0 : s.isVoid = false) (h1 : ({ s with coeff := c } : Term).isVoid = false) (h : sympyTail canon hermitian s = .ok r) :
    ∃ r', sympyTail canon hermitian { s with coeff := c } = .ok r' ∧ r'.tensors = r.tensors ∧ r'.sqOp = r.sqOp := by
  unfold sympyTail at h ⊢
  rw [if_neg (by simp [h0])] at h
  rw [if_neg (by simp [h1])]
  have hmin : ({ s with coeff := c } : Term).minimalIndices = s.minimalIndices := rfl
  simp only [hmin] at h ⊢
  obtain ⟨names, hnames, h⟩ := bind_ok h
  rw [bind_ok_of hnames]
  obtain ⟨v, hv, h⟩ := bind_ok h
  rw [bind_ok_of hv]
  split_ifs at h ⊢ with hperm
  cases hgc : canon (names ++ [names.length, names.length + 1]) (dummyRanges 0 (spaceGroups (sortedDummies s.minimalIndices))) v with
  | none => rw [hgc] at h; simp at h
  | some gc =>
  rw [hgc] at h
  simp only [] at h ⊢
  obtain ⟨op, hop, h⟩ := bind_ok h
  obtain ⟨ts, hts, hr⟩ := bind_ok h
  rw [bind_ok_of hop, bind_ok_of hts]
  obtain ⟨k1, k2, k3, rfl⟩ := Term.make_ok.1 hr
  exact ⟨_, Term.make_ok.2 ⟨k1, k2, k3, rfl⟩, rfl, rfl⟩

/-- A product that `canonicalize_sympy` rebuilds as it is. -/
structure Canonical (canon : List Nat → List (Nat × Nat) → List SlotGroup → Option (List Nat)) (hermitian : Bool) (ts : List Tensor) (op : SqOp) :
    Prop where
  sorted : sortTensors ts = ts
  fixed : ∀ u : Term, u.tensors = ts → u.sqOp = op → labelsOf ts op ⊆ u.indicesSet → u.isVoid = false →
    ∃ r, sympyTail canon hermitian u = .ok r ∧ r.tensors = ts ∧ r.sqOp = op

/-- What the lemmas about the canonical form need of a product. -/
structure Handled (ts : List Tensor) (op : SqOp) : Prop where
  sound : SoundTerm ts op
  kind : ∀ x ∈ ts, ∀ y ∈ ts, x.name = y.name → x.cls = y.cls ∧ x.priority = y.priority

theorem Handled.slots {ts : List Tensor} {op : SqOp} (h : Handled ts op) : ∀ i ∈ slotLabels ts op, (slotLabels ts op).count i = 2 := by
  intro i hi
  rw [(slotLabels_perm ts op).mem_iff] at hi
  rw [(slotLabels_perm ts op).count_eq]
  exact h.sound.two i hi

theorem Handled.same {canon : List Nat → List (Nat × Nat) → List SlotGroup → Option (List Nat)} (hcanon : CanonContract canon)
    (huniq : CanonUnique canon) {hermitian : Bool} {s s' : Term} (h : Handled s.tensors s.sqOp) (hs : labelsOf s.tensors s.sqOp ⊆ s.indicesSet)
    (hs' : labelsOf s'.tensors s'.sqOp ⊆ s'.indicesSet) (hsame : SameUpToNotation hermitian s.coeff s.tensors s.sqOp s'.coeff s'.tensors s'.sqOp)
    (hsort : KindSorted (s.tensors.map Tensor.kindKey)) (hsort' : KindSorted (s'.tensors.map Tensor.kindKey)) :
    sympyTail canon hermitian s' = sympyTail canon hermitian s :=
  sympyTail_same hcanon huniq hs hs' hsame (by rw [h.sound.upper]; rfl) (fun x hx => (h.sound.tensor x hx).upper.trans h.sound.upper.symm)
    h.sound.bal (fun x hx => (h.sound.tensor x hx).len) (fun x hx y hy e => (h.kind x hx y hy e).1) hsort hsort' h.slots

theorem kindSorted_of_eq {ts : List Tensor} (h : sortTensors ts = ts) : KindSorted (ts.map Tensor.kindKey) := by
  rw [← h]; exact kindSorted_make ts

theorem GoodTerm.sort {t : Term} (h : GoodTerm t) {ts : List Tensor} (e : t.tensors = sortTensors ts) : sortTensors t.tensors = t.tensors := by
  have : sortTensors t.tensors = sortTensors ts := by
    refine sortTensors_congr (by rw [e]; exact sortTensors_perm ts) (fun x hx y hy e => (h.kind x hx).consistent (h.kind y hy) e) fun x hx y hy => ?_
    exact ⟨(h.tensor x hx).1.trans (h.tensor y hy).1.symm, (h.tensor x hx).2.trans (h.tensor y hy).2.symm⟩
  rw [this, e]

theorem isVoid_congr {s s' : Term} (h : |s'.coeff| = |s.coeff|) : s'.isVoid = s.isVoid := by
  unfold Term.isVoid; rw [h]

theorem coeff_ne_zero {s : Term} (h : s.isVoid = false) : s.coeff ≠ 0 := by
  intro e
  simp [Term.isVoid, e] at h

/-- The result of `canonicalize_sympy` is rebuilt as it is. -/
theorem canonical_result {canon : List Nat → List (Nat × Nat) → List SlotGroup → Option (List Nat)} (hcanon : CanonContract canon)
    (huniq : CanonUnique canon) {hermitian : Bool} {s r : Term} (h : Handled s.tensors s.sqOp) (hs : labelsOf s.tensors s.sqOp ⊆ s.indicesSet)
    (hsort : KindSorted (s.tensors.map Tensor.kindKey)) (hvoid : s.isVoid = false) (hr : sympyTail canon hermitian s = .ok r)
    (hsortr : sortTensors r.tensors = r.tensors) :
    SameUpToNotation hermitian s.coeff s.tensors s.sqOp r.coeff r.tensors r.sqOp ∧ Canonical canon hermitian r.tensors r.sqOp := by
  have hback := sympyTail_back hcanon hs (by rw [h.sound.upper]; rfl) (fun x hx => (h.sound.tensor x hx).upper.trans h.sound.upper.symm)
    (fun x hx => (h.sound.tensor x hx).lower.trans (h.sound.tensor x hx).upper.symm) (h.sound.lower.trans h.sound.upper.symm) h.sound.bal
    h.kind hvoid hr
  refine ⟨hback, hsortr, ?_⟩
  intro u hu1 hu2 hu3 hu4
  obtain ⟨-, -, habs⟩ := hback.forms fun x hx => (h.sound.tensor x hx).len
  have hs0 := coeff_ne_zero hvoid
  have hr0 : r.coeff ≠ 0 := by rw [← abs_pos, habs, abs_pos]; exact hs0
  have hk := hback.smul (u.coeff / r.coeff)
  rw [div_mul_cancel₀ _ hr0] at hk
  have hv : ({ s with coeff := u.coeff / r.coeff * s.coeff } : Term).isVoid = false := by
    rw [← hu4]
    refine isVoid_congr ?_
    show |u.coeff / r.coeff * s.coeff| = |u.coeff|
    rw [abs_mul, abs_div, habs, div_mul_cancel₀ _ (abs_ne_zero.2 hs0)]
  obtain ⟨r', h1, h2, h3⟩ := sympyTail_coeff (c := u.coeff / r.coeff * s.coeff) hvoid hv hr
  refine ⟨r', ?_, h2, h3⟩
  rw [← h1]
  refine Handled.same (s := { s with coeff := u.coeff / r.coeff * s.coeff }) hcanon huniq h hs (by rw [hu1, hu2]; exact hu3) ?_ hsort (by rw [hu1]; exact kindSorted_of_eq hsortr)
  rw [hu1, hu2]
  exact hk

/-- Products in canonical form that differ in notation only are the same. -/
theorem Canonical.unique {canon : List Nat → List (Nat × Nat) → List SlotGroup → Option (List Nat)} (hcanon : CanonContract canon)
    (huniq : CanonUnique canon) {hermitian : Bool} {ts ts' : List Tensor} {op op' : SqOp} (h : Handled ts op) (hc : Canonical canon hermitian ts op)
    (hc' : Canonical canon hermitian ts' op') {c c' : ℚ} (h0 : c ≠ 0) (hsame : SameUpToNotation hermitian c ts op c' ts' op') : ts = ts' ∧ op = op' := by
  have hk := hsame.smul c⁻¹
  rw [inv_mul_cancel₀ h0] at hk
  obtain ⟨-, -, habs⟩ := hk.forms fun x hx => (h.sound.tensor x hx).len
  let s : Term := { coeff := 1, sqOp := op, tensors := ts, indicesSet := labelsOf ts op, nextNum := nextNumbers (labelsOf ts op), diag := diagonalOf ts op }
  let s' : Term := { coeff := c⁻¹ * c', sqOp := op', tensors := ts', indicesSet := labelsOf ts' op', nextNum := nextNumbers (labelsOf ts' op'), diag := diagonalOf ts' op' }
  have hv : s.isVoid = false := by simp only [Term.isVoid, s]; norm_num
  have hv' : s'.isVoid = false := by rw [← hv]; exact isVoid_congr habs
  obtain ⟨r, h1, h2, h3⟩ := hc.fixed s rfl rfl (Finset.Subset.refl _) hv
  obtain ⟨r', h1', h2', h3'⟩ := hc'.fixed s' rfl rfl (Finset.Subset.refl _) hv'
  have := Handled.same (s := s) (s' := s') hcanon huniq h (Finset.Subset.refl _) (Finset.Subset.refl _) hk (kindSorted_of_eq hc.sorted) (kindSorted_of_eq hc'.sorted)
  rw [h1, h1'] at this
  injection this with this
  subst this
  exact ⟨h2.symm.trans h2', h3.symm.trans h3'⟩

/-! ### Lists of terms -/

/-- The terms of a list that do not vanish are in canonical form. -/
def CanonList (canon : List Nat → List (Nat × Nat) → List SlotGroup → Option (List Nat)) (hermitian : Bool) (l : List Term) : Prop :=
  ∀ t ∈ l, t.coeff ≠ 0 → Canonical canon hermitian t.tensors t.sqOp

theorem CanonList.append {canon : List Nat → List (Nat × Nat) → List SlotGroup → Option (List Nat)} {hermitian : Bool} {l l' : List Term}
    (h : CanonList canon hermitian l) (h' : CanonList canon hermitian l') : CanonList canon hermitian (l ++ l') := by
  intro t ht
  rcases List.mem_append.1 ht with ht | ht
  · exact h t ht
  · exact h' t ht

theorem combine_origin {l out : List Term} (h : ∀ t ∈ l, GoodTerm t) (hc : combineTerms l = .ok out) :
    ∀ x ∈ out, x.coeff = totalCoeff l x ∧ x.coeff ≠ 0 ∧ ∃ y ∈ l, y.coeff ≠ 0 ∧ x.Same y := by
  have hreg := regular_of_good h
  rw [combineTerms_eq hreg] at hc
  injection hc with hc
  subst hc
  intro x hx
  obtain ⟨t, ht, a, b, c, d⟩ := ((combinedList_spec hreg).1 _ _ _).1 ⟨x, (sortedTerms_perm _).mem_iff.1 hx, rfl⟩
  have hx : x.Same t := ⟨a.symm, b.symm⟩
  have ht' : totalCoeff l t = totalCoeff l x := by
    unfold totalCoeff
    congr 3
    funext t'
    rw [decide_eq_decide]
    exact ⟨fun e => ⟨e.1.trans a, e.2.trans b⟩, fun e => ⟨e.1.trans a.symm, e.2.trans b.symm⟩⟩
  have h0 : totalCoeff l t ≠ 0 := by
    intro e
    rw [c, e, abs_zero] at d
    norm_num at d
  refine ⟨c.trans ht', by rw [c]; exact h0, ?_⟩
  have : ∃ y ∈ l, y.Same t ∧ y.coeff ≠ 0 := by
    by_contra hno
    push Not at hno
    refine h0 (List.sum_eq_zero fun c hc => ?_)
    obtain ⟨y, hy, rfl⟩ := List.mem_map.1 hc
    rw [List.mem_filter] at hy
    exact hno y hy.1 (by simpa using hy.2)
  obtain ⟨y, hy, e, hne⟩ := this
  exact ⟨y, hy, hne, hx.1.trans e.1.symm, hx.2.trans e.2.symm⟩

theorem CanonList.combine {canon : List Nat → List (Nat × Nat) → List SlotGroup → Option (List Nat)} {hermitian : Bool} {l out : List Term}
    (h : ∀ t ∈ l, GoodTerm t) (hl : CanonList canon hermitian l) (hc : combineTerms l = .ok out) : CanonList canon hermitian out := by
  intro x hx _
  obtain ⟨-, -, y, hy, h0, e1, e2⟩ := combine_origin h hc x hx
  rw [e1, e2]
  exact hl y hy h0

theorem NiceTerm.handled {t : Term} (h : NiceTerm t) : Handled t.tensors t.sqOp :=
  ⟨h.2.sound, fun x hx y hy e => (h.1.kind x hx).consistent (h.1.kind y hy) e⟩

theorem CanonList.collected {canon : List Nat → List (Nat × Nat) → List SlotGroup → Option (List Nat)} (hcanon : CanonContract canon)
    (huniq : CanonUnique canon) {hermitian : Bool} {l out : List Term} (h : ∀ t ∈ l, GoodTerm t) (hlive : LiveList l)
    (hl : CanonList canon hermitian l) (hc : combineTerms l = .ok out) : Collected hermitian out := by
  have hcan := hl.combine h hc
  have hnice := hlive.combine h hc
  have horig := combine_origin h hc
  have hns : out.Pairwise fun x y => ¬ x.Same y := by
    have hreg := regular_of_good h
    rw [combineTerms_eq hreg] at hc
    injection hc with hc
    subst hc
    exact combine_notSame hreg
  refine hns.imp_of_mem fun {x y} hx hy hxy c c' h0 hsame => hxy ?_
  exact Canonical.unique hcanon huniq (NiceTerm.handled (hnice x hx)) (hcan x hx (horig x hx).2.1) (hcan y hy (horig y hy).2.1) h0 hsame

/-! ### Contractions -/

theorem canonicalizeRow_canonical {m : Machine} (hcanon : CanonContract m.canon) (huniq : CanonUnique m.canon) (hord : m.ord.Lawful)
    {terms : List Term} (hne : terms ≠ [])
    (h : ∀ t ∈ terms, GoodTerm t) (hlive : ∀ t ∈ terms, LiveTerm t) (hd : terms.Pairwise DisjointLabels)
    {maxCu maxOpen minOpen : Int} {expand : Bool} {c : List Tensor} (hA : Allowed (productOps terms) maxCu maxOpen minOpen c) {row : Row}
    (hrow : row ∈ resultRows (productOps terms) expand c) {k : ℚ} {hermitian : Bool} {r : Term}
    (hr : canonicalizeRow m (productTensors terms) k hermitian row = .ok r) (hgood : GoodTerm r) (h0 : r.coeff ≠ 0) :
    Canonical m.canon hermitian r.tensors r.sqOp := by
  obtain ⟨hs, hov⟩ := row_sound h hlive hd hA hrow
  have hden := resultRows_density hA row hrow
  have hkind : ∀ x ∈ allTensors terms ++ row.2.1, UsualKind x := by
    intro x hx
    rcases List.mem_append.1 hx with hx | hx
    · obtain ⟨t, ht, hx⟩ := List.mem_flatMap.1 hx
      exact (h t ht).kind x hx
    · exact Or.inl ⟨(hden x hx).cls, (hden x hx).name, (hden x hx).priority⟩
  have hkeep : ∃ x ∈ allTensors terms ++ row.2.1, x.isDensity = false := by
    obtain ⟨t, ht⟩ := List.exists_mem_of_ne_nil _ hne
    obtain ⟨x, hx, hxd⟩ := (hlive t ht).keep
    exact ⟨x, List.mem_append_left _ (List.mem_flatMap.2 ⟨t, ht, hx⟩), hxd⟩
  have hp := row_paired h hd hA hrow
  unfold canonicalizeRow at hr
  rw [← allTensors_eq] at hr
  obtain ⟨t, ht, hr⟩ := bind_ok hr
  have hw := Term.wf_of_make ht
  have ht0 := ht
  obtain ⟨-, -, -, rfl⟩ := Term.make_ok.1 ht
  have hperm := (sortTensors_perm (allTensors terms ++ row.2.1)).symm
  obtain ⟨s, h1, h2, h3, h4⟩ := Term.simplify_total hord true hw (by
      refine Finset.Subset.antisymm_iff.1 ?_ |>.1
      ext i
      simp only [mem_diagonalOf, (sortTensors_perm _).mem_iff]) (hp.perm hperm) (hs.perm hperm)
    (fun x hx => hov x (hperm.mem_iff.2 hx)) (by
      obtain ⟨x, hx, hxd⟩ := hkeep
      exact ⟨x, hperm.mem_iff.1 hx, hxd⟩)
  obtain ⟨f, horigin, -⟩ := Term.simplify_origin h1
  rw [canonicalizeSympy_eq, bind_ok_of h1] at hr
  by_cases hv : s.isVoid = true
  · unfold sympyTail at hr
    rw [if_pos hv] at hr
    obtain ⟨-, -, -, rfl⟩ := Term.make_ok.1 hr
    exact absurd rfl h0
  · have hv : s.isVoid = false := by simpa using hv
    refine (canonical_result hcanon huniq ⟨h2 hv, ?_⟩ (Term.simplify_shape hw.set_sub h1).1 (Term.simplify_sorted ht0 h1) hv hr ?_).2
    · intro x hx y hy e
      obtain ⟨x', hx', -, rfl⟩ := horigin x hx
      obtain ⟨y', hy', -, rfl⟩ := horigin y hy
      exact (hkind x' (hperm.mem_iff.2 hx')).consistent (hkind y' (hperm.mem_iff.2 hy')) e
    · unfold sympyTail at hr
      rw [if_neg (by simp [hv])] at hr
      simp only [] at hr
      obtain ⟨names, hnames, hr⟩ := bind_ok hr
      obtain ⟨v, hv, hr⟩ := bind_ok hr
      split_ifs at hr with hperm
      split at hr
      · simp at hr
      obtain ⟨op, hop, hr⟩ := bind_ok hr
      obtain ⟨ts, hts, hr⟩ := bind_ok hr
      obtain ⟨-, -, -, rfl⟩ := Term.make_ok.1 hr
      exact hgood.sort rfl

/-- The rows are canonicalized to products in canonical form. -/
def CanonRows (m : Machine) (tensors : List Tensor) (c : ℚ) (hermitian : Bool) (rows : List Row) : Prop :=
  ∀ row ∈ rows, ∀ r, canonicalizeRow m tensors c hermitian row = .ok r → r.coeff ≠ 0 → Canonical m.canon hermitian r.tensors r.sqOp

theorem CanonRows.append_left {m : Machine} {tensors : List Tensor} {c : ℚ} {hermitian : Bool} {rows rows' : List Row}
    (h : CanonRows m tensors c hermitian (rows ++ rows')) : CanonRows m tensors c hermitian rows := fun row hr => h row (List.mem_append_left _ hr)

theorem CanonRows.append_right {m : Machine} {tensors : List Tensor} {c : ℚ} {hermitian : Bool} {rows rows' : List Row}
    (h : CanonRows m tensors c hermitian (rows ++ rows')) : CanonRows m tensors c hermitian rows' := fun row hr => h row (List.mem_append_right _ hr)

theorem BatchRun.canonical {m : Machine} {n : Nat} {tensors : List Tensor} {c : ℚ} {simplify hermitian : Bool} {rows : List Row}
    (hf : FineRows m tensors c hermitian rows) (h : CanonRows m tensors c hermitian rows) {out : List Term}
    (ho : BatchRun m n rows tensors c simplify hermitian out) : CanonList m.canon hermitian out := by
  obtain ⟨results, hm, hg, hl⟩ := hf.results
  have hres : CanonList m.canon hermitian results := by
    intro t ht
    obtain ⟨row, hrow, e⟩ := forall₂_mem_right (forall₂_of_mapM hm) ht
    exact h row hrow t e
  unfold BatchRun at ho
  by_cases h0 : rows.length = 0
  · rw [if_pos h0] at ho
    subst ho
    simp [CanonList]
  rw [if_neg h0] at ho
  obtain ⟨results', temp, hm', hp, hc⟩ := ho
  rw [hm] at hm'
  injection hm' with hm'
  subst hm'
  have hg' : ∀ t ∈ temp, GoodTerm t := fun t ht => hg t ((delivered hp).mem_iff.1 ht)
  have hl' : CanonList m.canon hermitian temp := fun t ht => hres t ((delivered hp).mem_iff.1 ht)
  cases simplify with
  | true => exact hl'.combine hg' hc
  | false =>
    obtain rfl : out = temp := hc
    exact hl'

theorem LoopRun.canonical {m : Machine} {o : Options} {n : Nat} {tensors : List Tensor} {c : ℚ} : ∀ {batches : List (List Row)} {pending : List Row},
    FineRows m tensors c o.hermitian (pending ++ batches.flatten) → CanonRows m tensors c o.hermitian (pending ++ batches.flatten) →
      ∀ out, LoopRun m o n tensors c pending batches out → CanonList m.canon o.hermitian out := by
  intro batches
  induction batches with
  | nil =>
    intro pending hf h out ho
    exact BatchRun.canonical hf.append_left h.append_left ho
  | cons b bs ih =>
    intro pending hf h out ho
    unfold LoopRun at ho
    rw [List.flatten_cons, ← List.append_assoc] at h hf
    split_ifs at ho with hlt
    · exact ih hf h out ho
    · obtain ⟨o1, o2, h1, h2, rfl⟩ := ho
      exact (BatchRun.canonical hf.append_left h.append_left h1).append
        (ih (pending := []) (by rw [List.nil_append]; exact hf.append_right) (by rw [List.nil_append]; exact h.append_right) o2 h2)

theorem ContractRun.canonical {m : Machine} (hcanon : CanonContract m.canon) (huniq : CanonUnique m.canon) (hord : m.ord.Lawful) {o : Options}
    {terms : List Term} (hne : terms ≠ []) (h : ∀ t ∈ terms, NiceTerm t) (hd : terms.Pairwise DisjointLabels)
    {scale : ℚ} {out : List Term} (ho : ContractRun m o terms scale out) :
    ((productOps terms).length < 2 ∨ CanonList m.canon o.hermitian out) ∧ Collected o.hermitian out := by
  have hg : ∀ t ∈ terms, GoodTerm t := fun t ht => (h t ht).1
  have hl : ∀ t ∈ terms, LiveTerm t := fun t ht => (h t ht).2
  obtain ⟨first, rest, rfl⟩ := List.exists_cons_of_ne_nil hne
  unfold ContractRun at ho
  by_cases h2 : (productOps (first :: rest)).length < 2
  · simp only [if_pos h2] at ho
    obtain ⟨t, -, rfl⟩ := ho
    exact ⟨Or.inl h2, List.pairwise_singleton _ _⟩
  · simp only [if_neg h2] at ho
    obtain ⟨batches, all, hb, ha, hc⟩ := ho
    have hG := goodOps_productOps (ordinary_of_good hg hd).ops
    obtain ⟨cs, -, -, hall, hperm⟩ := contractions_spec hG hb
    have hrows : ∀ row ∈ batches.flatten, ∃ c ∈ cs, row ∈ resultRows (productOps (first :: rest)) o.expandHole c :=
      fun row hrow => List.mem_flatMap.1 (hperm.mem_iff.1 hrow)
    have hfine : FineRows m (productTensors (first :: rest)) (productCoeff (first :: rest) scale) o.hermitian ([] ++ batches.flatten) := by
      intro row hrow
      rw [List.nil_append] at hrow
      obtain ⟨c, hc, hrc⟩ := hrows row hrow
      obtain ⟨r, e, hr⟩ := canonicalizeRow_total hcanon hord hne hg hl hd (hall c hc) hrc (productCoeff (first :: rest) scale) o.hermitian
      exact ⟨r, e, (canonicalizeRow_good hcanon hord hg hd (hall c hc) hrc (row_out (hall c hc) hrc e) e).1, hr⟩
    have hcr : CanonRows m (productTensors (first :: rest)) (productCoeff (first :: rest) scale) o.hermitian ([] ++ batches.flatten) := by
      intro row hrow r hr h0
      rw [List.nil_append] at hrow
      obtain ⟨c, hc, hrc⟩ := hrows row hrow
      exact canonicalizeRow_canonical hcanon huniq hord hne hg hl hd (hall c hc) hrc hr
        (canonicalizeRow_good hcanon hord hg hd (hall c hc) hrc (row_out (hall c hc) hrc hr) hr).1 h0
    have hcl := LoopRun.canonical hfine hcr all ha
    obtain ⟨f1, f2⟩ := (LoopRun.fine hfine).2.2 all ha
    exact ⟨Or.inr (hcl.combine f1 hc), hcl.collected hcanon huniq f1 f2 hc⟩

/-! ### Commutators -/

/-- A factor without operators commutes with everything: the two products cancel. -/
theorem scalar_cancels {m : Machine} {o : Options} {a b : Term} (ha : NiceTerm a) (hb : NiceTerm b) {scale : ℚ} {out₁ out₂ out : List Term}
    (hd : DisjointLabels a b)
    (hs : (productOps [a, b]).length < 2) (h1 : ContractRun m o [a, b] scale out₁) (h2 : ContractRun m o [b, a] (-scale) out₂)
    (hc : combineTerms (out₁ ++ out₂) = .ok out) : out = [] := by
  have hs' : (productOps [b, a]).length < 2 := by
    have : (productOps [b, a]).Perm (productOps [a, b]) := by
      unfold productOps
      exact (List.Perm.swap _ _ []).filter _
    rw [this.length_eq]; exact hs
  unfold ContractRun at h1 h2
  simp only [if_pos hs] at h1
  simp only [if_pos hs'] at h2
  obtain ⟨t₁, e₁, rfl⟩ := h1
  obtain ⟨t₂, e₂, rfl⟩ := h2
  have hba : DisjointLabels b a := Disjoint.symm hd
  obtain ⟨t₁', p1, g1, -⟩ := product_live (first := a) (rest := [b]) (by simp [ha.1, hb.1]) (by simp [ha.2, hb.2]) (by simpa using hd) hs (productCoeff [a, b] scale)
  obtain ⟨t₂', p2, g2, -⟩ := product_live (first := b) (rest := [a]) (by simp [ha.1, hb.1]) (by simp [ha.2, hb.2]) (by simpa using hba) hs' (productCoeff [b, a] (-scale))
  rw [e₁] at p1
  rw [e₂] at p2
  obtain rfl : t₁ = t₁' := Except.ok.inj p1
  obtain rfl : t₂ = t₂' := Except.ok.inj p2
  obtain ⟨-, -, -, rfl⟩ := Term.make_ok.1 e₁
  obtain ⟨-, -, -, rfl⟩ := Term.make_ok.1 e₂
  have hten : sortTensors (productTensors [a, b]) = sortTensors (productTensors [b, a]) := by
    have hmem : ∀ x ∈ productTensors [a, b], UsualKind x ∧ x.upper.ty = .spinOrbital ∧ x.lower.ty = .spinOrbital := by
      intro x hx
      obtain ⟨t, ht, hx⟩ := List.mem_flatMap.1 hx
      have hg : GoodTerm t := by
        rcases List.mem_cons.1 ht with rfl | ht
        · exact ha.1
        · obtain rfl : t = b := by simpa using ht
          exact hb.1
      exact ⟨hg.kind x hx, hg.tensor x hx⟩
    refine sortTensors_congr ?_ (fun x hx y hy e => (hmem x hx).1.consistent (hmem y hy).1 e)
      (fun x hx y hy => ⟨(hmem x hx).2.1.trans (hmem y hy).2.1.symm, (hmem x hx).2.2.trans (hmem y hy).2.2.symm⟩)
    simp only [productTensors, List.flatMap_cons, List.flatMap_nil, List.append_nil]
    exact List.perm_append_comm
  have hop : (productOps [a, b]).headD a.sqOp = (productOps [b, a]).headD b.sqOp := by
    have hempty : ∀ t : Term, GoodTerm t → t.sqOp.size = 0 → t.sqOp = ⟨⟨.spinOrbital, []⟩, ⟨.spinOrbital, []⟩⟩ := by
      intro t ht h0
      have e1 : t.sqOp.upper.list = [] := List.length_eq_zero_iff.1 (by unfold IndicesPair.size IndicesPair.nUpper Indices.size at h0; omega)
      have e2 : t.sqOp.lower.list = [] := List.length_eq_zero_iff.1 (by unfold IndicesPair.size IndicesPair.nLower Indices.size at h0; omega)
      have e3 := ht.op.1
      have e4 := ht.op.2.1
      generalize t.sqOp = op at *
      obtain ⟨⟨ty, l⟩, ty', l'⟩ := op
      simp only at e1 e2 e3 e4
      subst e1 e2 e3 e4
      rfl
    by_cases h1 : a.sqOp.size = 0 <;> by_cases h2 : b.sqOp.size = 0
    · simp [productOps, h1, h2, hempty a ha.1 h1, hempty b hb.1 h2]
    · simp [productOps, h1, h2]
    · simp [productOps, h1, h2]
    · simp [productOps, h1, h2] at hs
  rw [List.eq_nil_iff_forall_not_mem]
  intro x hx
  obtain ⟨k1, k2, y, hy, -, e1, e2⟩ := combine_origin (List.forall_mem_cons.2 ⟨g1, List.forall_mem_cons.2 ⟨g2, by simp⟩⟩) hc x hx
  refine k2 (k1.trans ?_)
  have hx1 : sortTensors (productTensors [a, b]) = x.tensors ∧ (productOps [a, b]).headD a.sqOp = x.sqOp := by
    simp only [List.cons_append, List.nil_append, List.mem_cons, List.not_mem_nil, or_false] at hy
    rcases hy with rfl | rfl
    · exact ⟨e1.symm, e2.symm⟩
    · exact ⟨hten.trans e1.symm, hop.trans e2.symm⟩
  have hx2 := hx1
  rw [hten, hop] at hx2
  unfold totalCoeff
  rw [List.filter_cons_of_pos (by exact decide_eq_true hx1), List.filter_cons_of_pos (by exact decide_eq_true hx2)]
  simp [productCoeff]
  ring

theorem CommutatorRun.canonical {m : Machine} (hcanon : CanonContract m.canon) (huniq : CanonUnique m.canon) (hord : m.ord.Lawful) (hcpu : 1 ≤ m.cpus)
    {o : Options} (hn : 1 ≤ o.nProcess) {a b : Term} (ha : NiceTerm a) (hb : NiceTerm b) (hd : DisjointLabels a b) {scale : ℚ} {out : List Term}
    (ho : CommutatorRun m o a b scale out) : CanonList m.canon o.hermitian out ∧ Collected o.hermitian out := by
  have hba : DisjointLabels b a := Disjoint.symm hd
  unfold CommutatorRun at ho
  split_ifs at ho with h0
  · subst ho
    exact ⟨by simp [CanonList], List.Pairwise.nil⟩
  obtain ⟨o1, o2, h1, h2, hc⟩ := ho
  by_cases hs : (productOps [a, b]).length < 2
  · obtain rfl := scalar_cancels ha hb hd hs h1 h2 hc
    exact ⟨by simp [CanonList], List.Pairwise.nil⟩
  have hs' : ¬ (productOps [b, a]).length < 2 := by
    have : (productOps [b, a]).Perm (productOps [a, b]) := by
      unfold productOps
      exact (List.Perm.swap _ _ []).filter _
    rw [this.length_eq]; exact hs
  have n1 := (ContractRun.fine hcanon hord hcpu hn (terms := [a, b]) (by simp) (by simp [ha, hb]) (by simpa using hd) scale).2.2 o1 h1
  have n2 := (ContractRun.fine hcanon hord hcpu hn (terms := [b, a]) (by simp) (by simp [ha, hb]) (by simpa using hba) (-scale)).2.2 o2 h2
  have c1 := (ContractRun.canonical hcanon huniq hord (terms := [a, b]) (by simp) (by simp [ha, hb]) (by simpa using hd) h1).1.resolve_left hs
  have c2 := (ContractRun.canonical hcanon huniq hord (terms := [b, a]) (by simp) (by simp [ha, hb]) (by simpa using hba) h2).1.resolve_left hs'
  have hg : ∀ t ∈ o1 ++ o2, NiceTerm t := by
    intro t ht
    rcases List.mem_append.1 ht with ht | ht
    · exact n1 t ht
    · exact n2 t ht
  exact ⟨(c1.append c2).combine (fun t ht => (hg t ht).1) hc, (c1.append c2).collected hcanon huniq (fun t ht => (hg t ht).1) (fun t ht _ => (hg t ht).2) hc⟩

theorem CommutatorsRun.canonical {m : Machine} (hcanon : CanonContract m.canon) (huniq : CanonUnique m.canon) (hord : m.ord.Lawful) (hcpu : 1 ≤ m.cpus)
    {o : Options} (hn : 1 ≤ o.nProcess) (scale : ℚ) : ∀ {pairs : List (Term × Term)}, (∀ p ∈ pairs, NiceTerm p.1 ∧ NiceTerm p.2 ∧ DisjointLabels p.1 p.2) →
      ∀ out, CommutatorsRun m o scale pairs out → CanonList m.canon o.hermitian out := by
  intro pairs
  induction pairs with
  | nil =>
    rintro - out h
    rw [show out = [] from h]
    simp [CanonList]
  | cons p pairs ih =>
    rintro h out ⟨o1, o2, h1, h2, rfl⟩
    obtain ⟨k1, k2, k3⟩ := h p (by simp)
    exact (CommutatorRun.canonical hcanon huniq hord hcpu hn k1 k2 k3 h1).1.append (ih (fun q hq => h q (by simp [hq])) o2 h2)

/-! ### Copies -/

theorem fromTerm_sorted {t t' : Term} (h : t.fromTerm false false = .ok t') : t'.tensors = sortTensors t.tensors ∧ t'.sqOp = t.sqOp ∧ t'.coeff = t.coeff := by
  obtain ⟨-, h2, h3⟩ := fromTerm_copy h
  refine ⟨?_, h2, h3⟩
  unfold Term.fromTerm at h
  obtain ⟨op, -, h⟩ := bind_ok h
  obtain ⟨-, -, -, rfl⟩ := Term.make_ok.1 h
  rfl

theorem CanonList.copies {canon : List Nat → List (Nat × Nat) → List SlotGroup → Option (List Nat)} {hermitian : Bool} {l out : List Term}
    (hl : CanonList canon hermitian l) (hc : (l.mapM fun t => t.fromTerm false false) = .ok out) : CanonList canon hermitian out := by
  intro x hx h0
  obtain ⟨t, ht, e⟩ := forall₂_mem_right (forall₂_of_mapM hc) hx
  obtain ⟨h1, h2, h3⟩ := fromTerm_sorted e
  have hcan := hl t ht (by rw [← h3]; exact h0)
  rw [h1, h2, hcan.sorted]
  exact hcan

theorem CanonList.nice_collected {canon : List Nat → List (Nat × Nat) → List SlotGroup → Option (List Nat)} (hcanon : CanonContract canon)
    (huniq : CanonUnique canon) {hermitian : Bool} {l out : List Term} (h : ∀ t ∈ l, NiceTerm t) (hl : CanonList canon hermitian l)
    (hc : combineTerms l = .ok out) : Collected hermitian out :=
  hl.collected hcanon huniq (fun t ht => (h t ht).1) (fun t ht _ => (h t ht).2) hc

end Dsrg
