import Verif.Lemmas.Bch
import Verif.Lemmas.SimplifyTotal

/-!
The terms that `contract_terms` builds and canonicalizes are accepted by all constructors.
-/

namespace Dsrg

/-- A term that can be a factor of further products. -/
structure LiveTerm (t : Term) : Prop where
  sound : SoundTerm t.tensors t.sqOp
  low : ∀ x ∈ t.tensors, LowTensor x
  keep : ∃ x ∈ t.tensors, x.isDensity = false

theorem LiveTerm.of_same {x y : Term} (h : LiveTerm y) (e : x.Same y) : LiveTerm x := by
  obtain ⟨e1, e2⟩ := e
  exact ⟨e1 ▸ e2 ▸ h.sound, e1 ▸ h.low, e1 ▸ h.keep⟩

theorem LiveTerm.congr {x y : Term} (h : LiveTerm y) (hp : x.tensors.Perm y.tensors) (ho : x.sqOp = y.sqOp) : LiveTerm x := by
  refine ⟨ho ▸ h.sound.perm hp.symm, fun z hz => h.low z (hp.mem_iff.1 hz), ?_⟩
  obtain ⟨z, hz, hd⟩ := h.keep
  exact ⟨z, hp.mem_iff.2 hz, hd⟩

/-! ### The two sides of a product -/

/-- The blocks with their sides exchanged. -/
def flipBlocks (m : List (OBlock Index)) : List (OBlock Index) := m.map fun b => (!b.1, b.2)

theorem sides_flip (m : List (OBlock Index)) : sideA (flipBlocks m) = sideB m ∧ sideB (flipBlocks m) = sideA m := by
  induction m with
  | nil => exact ⟨rfl, rfl⟩
  | cons b m ih =>
    have : flipBlocks (b :: m) = (!b.1, b.2) :: flipBlocks m := rfl
    rw [this, sideA_cons, sideB_cons, sideA_cons, sideB_cons, ih.1, ih.2]
    cases b.1 <;> simp

/-- A choice of sides with the creation operators on the first. -/
theorem TwoSided.oriented {ts : List Tensor} {op : SqOp} (h : TwoSided ts op) :
    ∃ m : List (OBlock Index), m.map Prod.snd = (ts.map fun t => pairBlock t.pair) ∧
      (op.upper.list ++ sideA m).Perm (op.lower.list ++ sideB m) := by
  obtain ⟨obs, h1, h2⟩ := h
  obtain ⟨w, m, rfl, h3⟩ := split_block h1
  rw [sideA_cons, sideB_cons] at h2
  cases w with
  | true => exact ⟨m, h3, h2⟩
  | false =>
    refine ⟨flipBlocks m, ?_, ?_⟩
    · rw [← h3]; unfold flipBlocks; rw [List.map_map]; rfl
    · rw [(sides_flip m).1, (sides_flip m).2]; exact h2.symm

theorem TwoSided.of_oriented {ts : List Tensor} {op : SqOp} {m : List (OBlock Index)} (h : m.map Prod.snd = (ts.map fun t => pairBlock t.pair))
    (hp : (op.upper.list ++ sideA m).Perm (op.lower.list ++ sideB m)) : TwoSided ts op :=
  ⟨(true, pairBlock op) :: m, by rw [List.map_cons, h]; rfl, by rw [sideA_cons, sideB_cons]; exact hp⟩

/-- The sides of a product of terms. -/
theorem sides_terms : ∀ {terms : List Term}, (∀ t ∈ terms, TwoSided t.tensors t.sqOp) →
    ∃ m : List (OBlock Index), m.map Prod.snd = ((allTensors terms).map fun t => pairBlock t.pair) ∧
      (terms.flatMap (fun t => t.sqOp.upper.list) ++ sideA m).Perm (terms.flatMap (fun t => t.sqOp.lower.list) ++ sideB m)
  | [], _ => ⟨[], rfl, .refl _⟩
  | t :: terms, h => by
    obtain ⟨m₁, h1, h2⟩ := (h t (by simp)).oriented
    obtain ⟨m₂, h3, h4⟩ := sides_terms (terms := terms) fun t ht => h t (by simp [ht])
    have e1 : allTensors (t :: terms) = t.tensors ++ allTensors terms := List.flatMap_cons ..
    refine ⟨m₁ ++ m₂, by rw [List.map_append, h1, h3, e1, List.map_append], ?_⟩
    rw [List.flatMap_cons, List.flatMap_cons, sideA_append, sideB_append]
    rw [← Multiset.coe_eq_coe] at h2 h4 ⊢
    simp only [← Multiset.coe_add] at h2 h4 ⊢
    calc _ = ((t.sqOp.upper.list : Multiset Index) + sideA m₁) + ((terms.flatMap fun t => t.sqOp.upper.list : List Index) + sideA m₂ : Multiset Index) := by abel
      _ = _ := by rw [h2, h4]; abel

theorem filterMap_append_true (A B : List Index) :
    (A.map (fun i => (true, i)) ++ B.map (fun i => (false, i))).filterMap (fun x : Bool × Index => if x.1 then some x.2 else none) = A ∧
    (A.map (fun i => (true, i)) ++ B.map (fun i => (false, i))).filterMap (fun x : Bool × Index => if x.1 then none else some x.2) = B := by
  simp [List.filterMap_append, List.filterMap_map, Function.comp_def]

theorem productWord_upper (terms : List Term) :
    (productWord (productOps terms)).filterMap (fun x : Bool × Index => if x.1 then some x.2 else none) = terms.flatMap (fun t => t.sqOp.upper.list) ∧
    ((productWord (productOps terms)).filterMap (fun x : Bool × Index => if x.1 then none else some x.2)).Perm (terms.flatMap (fun t => t.sqOp.lower.list)) := by
  induction terms with
  | nil => exact ⟨rfl, .refl _⟩
  | cons t terms ih =>
    rw [List.flatMap_cons, List.flatMap_cons]
    by_cases h0 : t.sqOp.size = 0
    · have h1 : productOps (t :: terms) = productOps terms := by
        unfold productOps; rw [List.map_cons, List.filter_cons, if_neg (by simpa using h0)]
      have h2 := (size_eq_zero _).1 h0
      rw [h1, h2.1, h2.2]
      simpa using ih
    · have h1 : productOps (t :: terms) = t.sqOp :: productOps terms := by
        unfold productOps; rw [List.map_cons, List.filter_cons, if_pos (by simpa using h0)]
      rw [h1]
      unfold productWord
      rw [List.flatMap_cons, List.filterMap_append, List.filterMap_append]
      have := filterMap_append_true t.sqOp.upper.list t.sqOp.lower.list.reverse
      unfold stringWord
      rw [this.1, this.2]
      refine ⟨?_, (List.reverse_perm _).append ih.2⟩
      rw [← ih.1]; rfl

/-- The creation and annihilation operators of a row are those of the product. -/
theorem row_sides {terms : List Term} {maxOpen minOpen : Int} {row : Row} (hc : Conserves (productOps terms) maxOpen minOpen row) :
    (row.2.1.flatMap (fun d => d.upper.list) ++ row.2.2.upper.list).Perm (terms.flatMap fun t => t.sqOp.upper.list) ∧
    (row.2.1.flatMap (fun d => d.lower.list) ++ row.2.2.lower.list).Perm (terms.flatMap fun t => t.sqOp.lower.list) := by
  have key : ∀ (f : Bool × Index → Option Index) (g : IndicesPair → List Index), (∀ x, (marked x).filterMap f = g x) →
      ∀ l : List Tensor, (((l.map Tensor.pair).flatMap marked) ++ marked row.2.2).filterMap f = l.flatMap (fun d => g d.pair) ++ g row.2.2 := by
    intro f g h l
    rw [List.filterMap_append, h]
    congr 1
    induction l with
    | nil => rfl
    | cons d l ih => rw [List.map_cons, List.flatMap_cons, List.filterMap_append, h, ih, List.flatMap_cons]
  have h1 := hc.labels.filterMap (fun x : Bool × Index => if x.1 then some x.2 else none)
  have h2 := hc.labels.filterMap (fun x : Bool × Index => if x.1 then none else some x.2)
  rw [key _ (fun x => x.upper.list) (fun x => (filterMap_append_true _ _).1), (productWord_upper terms).1] at h1
  rw [key _ (fun x => x.lower.list) (fun x => (filterMap_append_true _ _).2)] at h2
  exact ⟨h1, h2.trans (productWord_upper terms).2⟩

/-- The term of a row has two sides. -/
theorem row_twoSided {terms : List Term} (h : ∀ t ∈ terms, TwoSided t.tensors t.sqOp) {maxOpen minOpen : Int} {row : Row}
    (hc : Conserves (productOps terms) maxOpen minOpen row) : TwoSided (allTensors terms ++ row.2.1) row.2.2 := by
  obtain ⟨m, h1, h2⟩ := sides_terms h
  obtain ⟨hu, hl⟩ := row_sides hc
  have hd : ∀ l : List Tensor, (l.map fun d : Tensor => ((true, pairBlock d.pair) : OBlock Index)).map Prod.snd = (l.map fun d => pairBlock d.pair) ∧
      sideA (l.map fun d : Tensor => ((true, pairBlock d.pair) : OBlock Index)) = l.flatMap (fun d => d.upper.list) ∧
      sideB (l.map fun d : Tensor => ((true, pairBlock d.pair) : OBlock Index)) = l.flatMap (fun d => d.lower.list) := by
    intro l
    induction l with
    | nil => exact ⟨rfl, rfl, rfl⟩
    | cons d l ih =>
      rw [List.map_cons, sideA_cons, sideB_cons, List.map_cons, ih.1, ih.2.1, ih.2.2]
      exact ⟨rfl, rfl, rfl⟩
  obtain ⟨d1, d2, d3⟩ := hd row.2.1
  refine TwoSided.of_oriented (m := m ++ row.2.1.map fun d => (true, pairBlock d.pair)) ?_ ?_
  · rw [List.map_append, h1, d1, List.map_append]
  · rw [sideA_append, sideB_append, d2, d3]
    rw [← Multiset.coe_eq_coe] at h2 hu hl ⊢
    simp only [← Multiset.coe_add] at h2 hu hl ⊢
    calc _ = ((row.2.1.flatMap fun d => d.upper.list : List Index) + row.2.2.upper.list : Multiset Index) + sideA m := by abel
      _ = _ := by rw [hu, h2, ← hl]; abel

/-! ### The densities of a row -/

theorem pair_overlap (u l : Space) (hu : u.beta = false) (hl : l.beta = false) (h : ∃ e : Elem, e ≠ .virt ∧ u.kind.Denotes e ∧ l.kind.Denotes e) :
    downgradeDensity .v .h u l ≠ none := by
  revert u l; decide +kernel

theorem hole_overlap (u l : Space) (hu : u.beta = false) (hl : l.beta = false) (h : ∃ e : Elem, e ≠ .core ∧ u.kind.Denotes e ∧ l.kind.Denotes e) :
    (u.relation ∩ l.relation).card ≠ 0 ∧ (u.kind ≠ .v → l.kind ≠ .v → downgradeDensity .v .h u l ≠ none) := by
  revert u l; decide +kernel

/-- A density that the constructors and `simplify` accept. -/
def FineDensity (x : Tensor) : Prop := SoundTensor x ∧ Overlapping x

theorem fine_elementary {ops : List SqOp} (hG : GoodOps ops) {maxCu : Int} {t : Tensor} (h : Elementary ops maxCu t) :
    FineDensity t ∧ (t.cls = .hole → ∀ e ∈ t.expandHole, FineDensity e) := by
  have hb : ∀ {k : Nat} {op : SqOp}, ops[k]? = some op → (∀ i ∈ op.upper.list, i.space.beta = false) ∧ ∀ i ∈ op.lower.list, i.space.beta = false :=
    fun hk => (hG.so _ (List.mem_of_getElem? hk)).not_beta
  obtain ⟨key, hp | hp⟩ := h
  · obtain ⟨i, j, left, right, -, hi, hj, hp⟩ := hp
    rcases hp with ⟨u, hu, l, hl, he, -, rfl⟩ | ⟨l, hl, u, hu, he, -, rfl⟩
    · refine ⟨⟨⟨rfl, rfl, rfl, by simp [density, Tensor.upper], fun _ => rfl, fun h => (nomatch h), fun h => absurd rfl h⟩, ⟨?_, fun h => (nomatch h)⟩⟩, fun h => (nomatch h)⟩
      intro _ u' l' e1 e2
      obtain rfl : u = u' := by simpa [density, Tensor.upper] using e1
      obtain rfl : l = l' := by simpa [density, Tensor.lower] using e2
      exact pair_overlap _ _ ((hb hi).1 u hu) ((hb hj).2 l hl) he
    · have ho := hole_overlap _ _ ((hb hj).1 u hu) ((hb hi).2 l hl) he
      refine ⟨⟨⟨rfl, rfl, rfl, by simp [density, Tensor.upper], fun _ => rfl, fun h => (nomatch h), fun h => absurd rfl h⟩, ⟨fun h => (nomatch h), fun h => (nomatch h)⟩⟩, ?_⟩
      intro _ e hem
      have hs : ∀ c n p, c ≠ TCls.cluster → SoundTensor ⟨c, n, p, (density .hole [u] [l]).pair⟩ :=
        fun c n p hc => ⟨rfl, rfl, rfl, by simp [density, Tensor.upper], fun _ => rfl, fun h => absurd h hc, fun h => absurd rfl h⟩
      have hk : FineDensity ⟨.kronecker, ['K'], -1, (density .hole [u] [l]).pair⟩ := by
        refine ⟨hs _ _ _ (by decide), ⟨fun h => (nomatch h), ?_⟩⟩
        intro _ u' l' e1 e2
        obtain rfl : u = u' := by simpa [density, Tensor.upper] using e1
        obtain rfl : l = l' := by simpa [density, Tensor.lower] using e2
        exact ho.1
      unfold Tensor.expandHole at hem
      split at hem
      · rw [List.mem_singleton] at hem
        subst hem; exact hk
      · rename_i hv
        simp only [List.mem_cons, List.not_mem_nil, or_false] at hem
        rcases hem with rfl | rfl
        · exact hk
        · refine ⟨hs _ _ _ (by decide), ⟨?_, fun h => (nomatch h)⟩⟩
          intro _ u' l' e1 e2
          obtain rfl : u = u' := by simpa [density, Tensor.upper] using e1
          obtain rfl : l = l' := by simpa [density, Tensor.lower] using e2
          simp only [density, Tensor.upper, Tensor.lower, List.head?_cons, Option.map_some, Option.some.injEq, not_or] at hv
          exact ho.2 hv.1 hv.2
  · obtain ⟨cre, ann, -, -, hlen, h2, -, -, -, rfl⟩ := hp
    refine ⟨⟨⟨rfl, rfl, ?_, ?_, ?_, fun h => (nomatch h), fun h => absurd rfl h⟩, ⟨?_, fun h => (nomatch h)⟩⟩, fun h => (nomatch h)⟩
    · simpa [density, Tensor.upper, Tensor.lower] using hlen
    · intro e
      have : cre = [] := by simpa [density, Tensor.upper] using e
      rw [this] at h2
      simp at h2
    · rintro (h | h) <;> cases h
    · intro _ u l e1 _
      have := congrArg List.length e1
      simp only [density, Tensor.upper, List.length_map, List.length_singleton] at this
      omega

theorem fine_row {ops : List SqOp} (hG : GoodOps ops) {maxCu maxOpen minOpen : Int} {expand : Bool} {c : List Tensor}
    (h : Allowed ops maxCu maxOpen minOpen c) : ∀ row ∈ resultRows ops expand c, ∀ d ∈ row.2.1, FineDensity d := by
  have hc : ∀ t ∈ c, _ := fun t ht => fine_elementary hG (h.elementary t ht)
  intro row hrow d hd
  unfold resultRows at hrow
  obtain ⟨r, hr, rfl⟩ := List.mem_map.1 hrow
  cases expand with
  | false =>
    simp only [Bool.false_eq_true, if_false, List.mem_singleton] at hr
    subst hr; exact (hc d hd).1
  | true =>
    rw [if_pos rfl] at hr
    unfold expandHoleDensities at hr
    simp only at hr
    split at hr
    · rw [List.mem_singleton] at hr
      subst hr; exact (hc d hd).1
    · rw [List.mem_map] at hr
      obtain ⟨l, hl, rfl⟩ := hr
      rw [mem_pyProduct] at hl
      simp only [splitHoles] at hl hd
      rcases List.mem_append.1 hd with hd | hd
      · exact (hc d (List.mem_filter.1 hd).1).1
      · obtain ⟨p, hp, hdp⟩ := forall₂_mem_left hl hd
        obtain ⟨t, ht, rfl⟩ := List.mem_map.1 hp
        exact (hc t (List.mem_filter.1 ht).1).2 (of_decide_eq_true (List.mem_filter.1 ht).2) d hdp

theorem low_overlap (u l : Space) (hu : u.beta = false) (hl : l.beta = false) (h1 : u.kind = .h ∨ u.kind = .a) (h2 : l.kind = .h ∨ l.kind = .a) :
    downgradeDensity .v .h u l ≠ none := by
  revert u l; decide +kernel

/-- The term of a row is accepted by all constructors. -/
theorem row_sound {terms : List Term} (h : ∀ t ∈ terms, GoodTerm t) (hlive : ∀ t ∈ terms, LiveTerm t) (hd : terms.Pairwise DisjointLabels)
    {maxCu maxOpen minOpen : Int} {expand : Bool} {c : List Tensor} (hA : Allowed (productOps terms) maxCu maxOpen minOpen c) {row : Row}
    (hrow : row ∈ resultRows (productOps terms) expand c) :
    SoundTerm (allTensors terms ++ row.2.1) row.2.2 ∧ (∀ x ∈ allTensors terms ++ row.2.1, Overlapping x) := by
  have ho := ordinary_of_good h hd
  have hk := contractible_of_good h hd
  have hG := goodOps_productOps ho.ops
  have hcons := conserves hG hA expand row hrow
  have hp := row_paired h hd hA hrow
  have hfine := fine_row hG hA row hrow
  have hbeta : ∀ t ∈ terms, ∀ i ∈ labelList t.tensors t.sqOp, i.isBeta = false := fun t ht => (hlive t ht).sound.beta rfl
  refine ⟨⟨?_, by rw [(row_of_mem hrow).2]; rfl, by rw [(row_of_mem hrow).2]; rfl, row_balanced ho hk hA hrow, ?_, hp.two,
    row_twoSided (fun t ht => (hlive t ht).sound.sided) hcons⟩, ?_⟩
  · intro x hx
    rcases List.mem_append.1 hx with hx | hx
    · obtain ⟨t, ht, hx⟩ := List.mem_flatMap.1 hx
      exact (hlive t ht).sound.tensor x hx
    · exact (hfine x hx).1
  · intro _ i hi
    have hi' := mem_labelsOf.2 hi
    rw [row_labelsOf hcons, List.mem_toFinset, (labelList_terms terms).mem_iff] at hi'
    obtain ⟨t, ht, hit⟩ := List.mem_flatMap.1 hi'
    exact hbeta t ht i hit
  · intro x hx
    rcases List.mem_append.1 hx with hx | hx
    · obtain ⟨t, ht, hx⟩ := List.mem_flatMap.1 hx
      refine ⟨fun hc u l hu hl => ?_, fun hc => absurd (Or.inl hc) ((h t ht).tidy.noDelta x hx)⟩
      have hiu : u ∈ x.pair.indices := List.mem_append_left _ (by show u ∈ x.upper.list; rw [hu]; simp)
      have hil : l ∈ x.pair.indices := List.mem_append_right _ (by show l ∈ x.lower.list; rw [hl]; simp)
      exact low_overlap _ _ (hbeta t ht u (mem_labelList.2 (Or.inr ⟨x, hx, hiu⟩))) (hbeta t ht l (mem_labelList.2 (Or.inr ⟨x, hx, hil⟩)))
        ((hlive t ht).low x hx hc u hiu) ((hlive t ht).low x hx hc l hil)
    · exact (hfine x hx).2

/-- The term of a row is built and simplified without an exception. -/
theorem row_simplifies {ord : SetOrder} (hord : ord.Lawful) {terms : List Term} (hne : terms ≠ [])
    (h : ∀ t ∈ terms, GoodTerm t) (hlive : ∀ t ∈ terms, LiveTerm t) (hd : terms.Pairwise DisjointLabels)
    {maxCu maxOpen minOpen : Int} {expand : Bool} {c : List Tensor} (hA : Allowed (productOps terms) maxCu maxOpen minOpen c) {row : Row}
    (hrow : row ∈ resultRows (productOps terms) expand c) (k : ℚ) (removeActive : Bool) :
    ∃ t s, Term.make (allTensors terms ++ row.2.1) row.2.2 k = .ok t ∧ t.simplify ord true removeActive = .ok s := by
  obtain ⟨hs, hov⟩ := row_sound h hlive hd hA hrow
  have hkeep : ∃ x ∈ allTensors terms ++ row.2.1, x.isDensity = false := by
    obtain ⟨t, ht⟩ := List.exists_mem_of_ne_nil _ hne
    obtain ⟨x, hx, hxd⟩ := (hlive t ht).keep
    exact ⟨x, List.mem_append_left _ (List.mem_flatMap.2 ⟨t, ht, hx⟩), hxd⟩
  have hp := row_paired h hd hA hrow
  have hmake : ∃ t, Term.make (allTensors terms ++ row.2.1) row.2.2 k = .ok t :=
    ⟨_, Term.make_ok.2 ⟨fun x hx => (hs.tensor x hx).upper.trans hs.upper.symm, fun i hi _ => hs.two i hi, fun i hi => by
      rw [hs.two i]
      rw [mem_diagonalOf] at hi
      rw [mem_labelList]
      rcases hi with hi | ⟨x, hx, hi⟩
      · exact Or.inl (List.mem_append_left _ hi.1)
      · exact Or.inr ⟨x, hx, List.mem_append_left _ hi.1⟩, rfl⟩⟩
  obtain ⟨t, ht⟩ := hmake
  have hw := Term.wf_of_make ht
  have ht' := ht
  obtain ⟨-, -, -, rfl⟩ := Term.make_ok.1 ht
  have hperm := (sortTensors_perm (allTensors terms ++ row.2.1)).symm
  obtain ⟨s, h1, -⟩ := Term.simplify_total hord removeActive hw (by
      refine Finset.Subset.antisymm_iff.1 ?_ |>.1
      ext i
      simp only [mem_diagonalOf, (sortTensors_perm _).mem_iff]) (hp.perm hperm) (hs.perm hperm)
    (fun x hx => hov x (hperm.mem_iff.2 hx)) (by
      obtain ⟨x, hx, hxd⟩ := hkeep
      exact ⟨x, hperm.mem_iff.1 hx, hxd⟩)
  exact ⟨_, s, ht', h1⟩

/-- The term of a row is built and canonicalized without an exception. -/
theorem canonicalizeRow_total {m : Machine} (hcanon : CanonContract m.canon) (hord : m.ord.Lawful) {terms : List Term} (hne : terms ≠ [])
    (h : ∀ t ∈ terms, GoodTerm t) (hlive : ∀ t ∈ terms, LiveTerm t) (hd : terms.Pairwise DisjointLabels)
    {maxCu maxOpen minOpen : Int} {expand : Bool} {c : List Tensor} (hA : Allowed (productOps terms) maxCu maxOpen minOpen c) {row : Row}
    (hrow : row ∈ resultRows (productOps terms) expand c) (k : ℚ) (hermitian : Bool) :
    ∃ r, canonicalizeRow m (productTensors terms) k hermitian row = .ok r ∧ (r.coeff ≠ 0 → LiveTerm r) := by
  obtain ⟨hs, hov⟩ := row_sound h hlive hd hA hrow
  have hden := resultRows_density hA row hrow
  have hkind : ∀ x ∈ allTensors terms ++ row.2.1, UsualKind x := by
    intro x hx
    rcases List.mem_append.1 hx with hx | hx
    · obtain ⟨t, ht, hx⟩ := List.mem_flatMap.1 hx
      exact (h t ht).kind x hx
    · exact Or.inl ⟨(hden x hx).cls, (hden x hx).name, (hden x hx).priority⟩
  have hkeep : ∃ x ∈ allTensors terms ++ row.2.1, x.isDensity = false := by
    obtain ⟨t, ht⟩ := List.exists_mem_of_ne_nil _ hne
    obtain ⟨x, hx, hxd⟩ := (hlive t ht).keep
    exact ⟨x, List.mem_append_left _ (List.mem_flatMap.2 ⟨t, ht, hx⟩), hxd⟩
  have hp := row_paired h hd hA hrow
  have hmake : ∃ t, Term.make (allTensors terms ++ row.2.1) row.2.2 (row.1 * k) = .ok t :=
    ⟨_, Term.make_ok.2 ⟨fun x hx => (hs.tensor x hx).upper.trans hs.upper.symm, fun i hi _ => hs.two i hi, fun i hi => by
      rw [hs.two i]
      rw [mem_diagonalOf] at hi
      rw [mem_labelList]
      rcases hi with hi | ⟨x, hx, hi⟩
      · exact Or.inl (List.mem_append_left _ hi.1)
      · exact Or.inr ⟨x, hx, List.mem_append_left _ hi.1⟩, rfl⟩⟩
  obtain ⟨t, ht⟩ := hmake
  have hw := Term.wf_of_make ht
  obtain ⟨-, -, -, rfl⟩ := Term.make_ok.1 ht
  have hperm := (sortTensors_perm (allTensors terms ++ row.2.1)).symm
  obtain ⟨s, h1, h2, h3, h4⟩ := Term.simplify_total hord true hw (by
      refine Finset.Subset.antisymm_iff.1 ?_ |>.1
      ext i
      simp only [mem_diagonalOf, (sortTensors_perm _).mem_iff]) (hp.perm hperm) (hs.perm hperm)
    (fun x hx => hov x (hperm.mem_iff.2 hx)) (by
      obtain ⟨x, hx, hxd⟩ := hkeep
      exact ⟨x, hperm.mem_iff.1 hx, hxd⟩)
  obtain ⟨f, horigin, -⟩ := Term.simplify_origin h1
  obtain ⟨r, r1, r2, r3, r4⟩ := Term.canonicalizeSympy_total rfl hcanon hermitian h1 (Term.simplify_shape hw.set_sub h1).1 h2 (by
    intro x hx y hy e
    obtain ⟨x', hx', -, rfl⟩ := horigin x hx
    obtain ⟨y', hy', -, rfl⟩ := horigin y hy
    exact ((hkind x' (hperm.mem_iff.2 hx')).consistent (hkind y' (hperm.mem_iff.2 hy')) e).1)
  refine ⟨r, ?_, fun h0 => ⟨r2 h0, r3 h3, r4 h4 h0⟩⟩
  unfold canonicalizeRow
  rw [← allTensors_eq, bind_ok_of ht]
  exact r1

end Dsrg
