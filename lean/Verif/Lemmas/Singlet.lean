import Verif.Lemmas.SingletPair
import Verif.Lemmas.TermOps
import Verif.Lemmas.AmbitEffect
import Verif.Lemmas.PermuteCount
import Verif.Props.Sympy
import Mathlib.Algebra.Order.AbsoluteValue.Basic
import Mathlib.Algebra.Order.Field.Basic

/-!
The singlet adaptation of a term.
-/

namespace Dsrg

/-! ### The new labels -/

/-- The state of the loop that chooses the alpha labels. -/
structure SingletState (keys : Finset Index) (todo : List Index) (next : Space → Nat) (ρ : Index → Index) : Prop where
  inj : ∀ i ∈ keys, ∀ j ∈ keys, ρ i = ρ j → i = j
  below : ∀ i ∈ keys, (ρ i).number < next (ρ i).space
  kind : ∀ i ∈ keys, (ρ i).space.kind = i.space.kind
  alpha : ∀ i ∈ keys, i ∉ todo → (ρ i).space.beta = false

theorem singletLoop_spec {keys : Finset Index} : ∀ (todo : List Index) (next : Space → Nat) (ρ : Index → Index), (∀ i ∈ todo, i ∈ keys) →
    (∀ i ∈ todo, i.isBeta = false → (ρ i).space.beta = false) →
    SingletState keys todo next ρ → ∃ next', SingletState keys [] next' (singletLoop todo next ρ) := by
  intro todo
  induction todo with
  | nil => intro next ρ _ _ h; exact ⟨next, h⟩
  | cons i rest ih =>
    intro next ρ hk ha h
    rw [singletLoop]
    split_ifs with hb
    · apply ih
      · exact fun j hj => hk j (List.mem_cons_of_mem _ hj)
      · intro j hj hjb
        rw [Function.update_apply]
        split_ifs with hji
        · rfl
        · exact ha j (List.mem_cons_of_mem _ hj) hjb
      · refine ⟨?_, ?_, ?_, ?_⟩
        · intro j hj k hk' e
          rw [Function.update_apply, Function.update_apply] at e
          split_ifs at e with h1 h2 h2
          · rw [h1, h2]
          · exact absurd e.symm (ne_generateNextIndex (h.below k hk'))
          · exact absurd e (ne_generateNextIndex (h.below j hj))
          · exact h.inj j hj k hk' e
        · intro j hj
          rw [Function.update_apply]
          split_ifs with h1
          · exact generateNextIndex_lt _ _
          · exact lt_of_lt_of_le (h.below j hj) (generateNextIndex_mono _ _ _)
        · intro j hj
          rw [Function.update_apply]
          split_ifs with h1
          · rw [h1]; rfl
          · exact h.kind j hj
        · intro j hj hjr
          rw [Function.update_apply]
          split_ifs with h1
          · rfl
          · exact h.alpha j hj (by simp [h1, hjr])
    · apply ih _ _ (fun j hj => hk j (List.mem_cons_of_mem _ hj)) (fun j hj => ha j (List.mem_cons_of_mem _ hj))
      refine ⟨h.inj, h.below, h.kind, ?_⟩
      intro j hj hjr
      by_cases h1 : j = i
      · rw [h1]; exact ha i (by simp) (by simpa using hb)
      · exact h.alpha j hj (by simp [h1, hjr])

/-- The new labels are distinct alpha labels of the same kind. -/
theorem Term.singletReplacement_spec {ord : SetOrder} (hord : ord.Lawful) {t : Term} (hw : t.WF) :
    (∀ i ∈ t.indicesSet, ∀ j ∈ t.indicesSet, t.singletReplacement ord i = t.singletReplacement ord j → i = j) ∧
      (∀ i ∈ t.indicesSet, (t.singletReplacement ord i).space = ⟨i.space.kind, false⟩) := by
  obtain ⟨next, h⟩ := singletLoop_spec (keys := t.indicesSet) (ord.indices t.indicesSet) t.nextNum id (fun i hi => (hord.mem_indices _ _).1 hi)
    (fun i _ h => h) ⟨fun i _ j _ e => e, fun i hi => hw.fresh i hi, fun i _ => rfl, fun i hi hn => absurd ((hord.mem_indices _ _).2 hi) hn⟩
  refine ⟨h.inj, fun i hi => ?_⟩
  have h1 := h.kind i hi
  have h2 := h.alpha i hi (by simp)
  unfold Term.singletReplacement
  generalize singletLoop _ _ _ i = k at *
  obtain ⟨⟨a, b⟩, c⟩ := k
  simp_all

/-! ### Separation -/

theorem Separated.follow₂ {core : Bool} {ts ts' : List Tensor} {op op' : SqOp} (h : Separated core ts op) {f : Index → Index}
    (hg : List.Forall₂ (Follows f) ts ts') (hu : op'.upper.list.Perm (op.upper.list.map f)) (hl : op'.lower.list.Perm (op.lower.list.map f))
    (hinj : ∀ i ∈ labelsOf ts op, ∀ j ∈ labelsOf ts op, f i = f j → i = j)
    (hsp : ∀ i ∈ labelsOf ts op, (f i).space.kind = i.space.kind) : Separated core ts' op' := by
  have hts : ∀ x ∈ ts, ∀ i ∈ x.upper.list ++ x.lower.list, i ∈ labelsOf ts op := by
    intro x hx i hi; rw [mem_labelsOf, mem_labelList]; exact Or.inr ⟨x, hx, hi⟩
  have hopl : ∀ i ∈ op.upper.list ++ op.lower.list, i ∈ labelsOf ts op := by
    intro i hi; rw [mem_labelsOf, mem_labelList]; exact Or.inl hi
  have hk : ∀ x ∈ ts, x.cls = .cumulant → ∀ i ∈ x.upper.list ++ x.lower.list, (f i).space.kind = i.space.kind :=
    fun x hx _ i hi => hsp i (hts x hx i hi)
  have hmem : ∀ y ∈ ts', ∃ x ∈ ts, Follows f x y := by
    intro y hy
    clear h hinj hsp hts hopl hk
    induction hg with
    | nil => simp at hy
    | cons h1 h2 ih =>
      rcases List.mem_cons.1 hy with rfl | hy
      · exact ⟨_, by simp, h1⟩
      · obtain ⟨x, hx, hxy⟩ := ih hy
        exact ⟨x, by simp [hx], hxy⟩
  refine ⟨?_, ?_, ?_⟩
  · have hlen := hg.length_eq
    rw [List.pairwise_iff_getElem]
    intro m n hm hn hmn hd
    have ga : Follows f (ts[m]'(by omega)) (ts'[m]) := by
      have := (List.forall₂_iff_get.1 hg).2 m (by omega) hm
      exact this
    have gb : Follows f (ts[n]'(by omega)) (ts'[n]) := by
      have := (List.forall₂_iff_get.1 hg).2 n (by omega) hn
      exact this
    have ha : ts[m]'(by omega) ∈ ts := List.getElem_mem _
    have hb : ts[n]'(by omega) ∈ ts := List.getElem_mem _
    have hab := (List.pairwise_iff_getElem.1 h.apart) m n (by omega) (by omega) hmn
    have hab' := hab (by
      rcases hd with ⟨h1, h2⟩ | ⟨h1, h2⟩
      · exact Or.inl ⟨ga.acts (hk _ ha) h1, by rw [← gb.cls]; exact h2⟩
      · exact Or.inr ⟨by rw [← ga.cls]; exact h1, gb.acts (hk _ hb) h2⟩)
    intro j hj hj'
    obtain ⟨i, hi, rfl⟩ := ga.labels hj
    obtain ⟨i', hi', e⟩ := gb.labels hj'
    rw [hinj i' (hts _ hb i' hi') i (hts _ ha i hi) e] at hi'
    exact hab' i hi hi'
  · intro y hy hd j hj
    obtain ⟨x, hx, hxy⟩ := hmem y hy
    obtain ⟨i, hi, rfl⟩ := hxy.labels hj
    obtain ⟨h1, h2⟩ := h.diag x hx (hxy.acts (hk x hx) hd) i hi
    refine ⟨?_, ?_⟩
    · intro z hz k
      obtain ⟨b, hb, hbz⟩ := hmem z hz
      exact h1 b hb ((hbz.diag hinj (hts b hb) (hts x hx i hi)).1 k)
    · rintro ⟨k1, k2⟩
      obtain ⟨a, ha, e⟩ := List.mem_map.1 (hu.mem_iff.1 k1)
      obtain ⟨b, hb, e'⟩ := List.mem_map.1 (hl.mem_iff.1 k2)
      rw [hinj a (hopl a (List.mem_append_left _ ha)) i (hts x hx i hi) e] at ha
      rw [hinj b (hopl b (List.mem_append_right _ hb)) i (hts x hx i hi) e'] at hb
      exact h2 ⟨ha, hb⟩
  · intro y hy hc hlen j hj
    obtain ⟨x, hx, hxy⟩ := hmem y hy
    obtain ⟨i, hi, rfl⟩ := hxy.labels hj
    have hxc : x.cls = .cumulant := by rw [← hxy.cls]; exact hc
    rw [hk x hx hxc i hi]
    refine h.active x hx hxc ?_ i hi
    rw [hxy.upper.length_eq, List.length_map] at hlen
    exact hlen

/-! ### Rows -/

/-- The tensor of a row. -/
def singletTensor (x : Tensor) (r : Int × List Index × List Index) : Tensor :=
  ⟨x.cls, x.name, x.priority, ⟨⟨.spinAdapted, r.2.1⟩, ⟨.spinAdapted, r.2.2⟩⟩⟩

/-- The operator of a row. -/
def singletOp (r : Int × List Index × List Index) : SqOp := ⟨⟨.spinAdapted, r.2.1⟩, ⟨.spinAdapted, r.2.2⟩⟩

theorem bind_ok {ε α β : Type} {x : Except ε α} {f : α → Except ε β} {b : β} (h : (x >>= f) = .ok b) : ∃ a, x = .ok a ∧ f a = .ok b := by
  cases x with
  | error e => cases h
  | ok a => exact ⟨a, rfl, h⟩

theorem singletTensors_ok {z : List (Tensor × Int × List Index × List Index)} {ts : List Tensor} (h : List.Forall₂ (fun x y =>
    (do Tensor.make x.1.cls (← Indices.make .spinAdapted x.2.2.1) (← Indices.make .spinAdapted x.2.2.2) x.1.name x.1.priority) = Except.ok y) z ts) :
    ts = z.map (Function.uncurry singletTensor) := by
  induction h with
  | nil => rfl
  | cons h1 _ ih =>
    refine congrArg₂ List.cons ?_ ih
    obtain ⟨u, hu, h1⟩ := bind_ok h1
    obtain ⟨l, hl, h1⟩ := bind_ok h1
    rw [(Tensor.make_eq h1).1, (Indices.make_eq hu).1, (Indices.make_eq hl).1]; rfl

theorem Term.singletRow_ok {canon : CanonFn} {ord : SetOrder} {t : Term} {n : Nat} {s : Int} {pairs : List (Int × List Index × List Index)} {r : Term}
    (h : t.singletRow canon ord n s pairs = .ok r) : ∃ p rest q, pairs = p :: rest ∧
      Term.make (List.zipWith singletTensor t.tensors rest) (singletOp p) (((s * p.1 * (rest.map Prod.fst).prod : Int) : ℚ) * t.coeff / n) = .ok q ∧
      q.canonicalizeSympy canon ord true true true = .ok r := by
  unfold Term.singletRow at h
  rcases pairs with _ | ⟨p, rest⟩
  · cases h
  simp only at h
  obtain ⟨u, hu, h⟩ := bind_ok h
  obtain ⟨l, hl, h⟩ := bind_ok h
  obtain ⟨op, hop, h⟩ := bind_ok h
  obtain ⟨ts, hts, h⟩ := bind_ok h
  obtain ⟨q, hq, h⟩ := bind_ok h
  refine ⟨p, rest, q, rfl, ?_, ?_⟩
  · have e1 : op = singletOp p := by
      rw [(IndicesPair.make_eq hop).1, (Indices.make_eq hu).1, (Indices.make_eq hl).1]; rfl
    have e2 : ts = List.zipWith singletTensor t.tensors rest := by
      rw [← List.map_uncurry_zip_eq_zipWith]
      exact singletTensors_ok (mapM_ok_forall₂.1 hts)
    rw [← e1, ← e2]
    exact hq
  · unfold Term.canonicalize at h
    split_ifs at h with hd
    exact h

/-! ### Sums -/

theorem signedSum_congr {X M : Type} [AddCommGroup M] {f f' : List X → M} {l : List X} (h : ∀ L, (∀ v ∈ L, v ∈ l) → f L = f' L) :
    signedSum f l = signedSum f' l := by
  unfold signedSum
  refine Finset.sum_congr rfl fun π _ => ?_
  rw [h]
  intro v hv
  rw [List.mem_ofFn] at hv
  obtain ⟨i, rfl⟩ := hv
  exact List.get_mem _ _

theorem sum_pyProduct {A B R : Type} [CommSemiring R] (φ : A → B → R) {ts : List A} {As : List (List B)} (h : ts.length = As.length) :
    ((pyProduct As).map fun rest => (List.zipWith φ ts rest).prod).sum = (List.zipWith (fun x P => (P.map (φ x)).sum) ts As).prod := by
  induction As generalizing ts with
  | nil => simp [pyProduct, List.length_eq_zero_iff.1 h]
  | cons P As ih =>
    rcases ts with _ | ⟨x, ts⟩
    · simp at h
    rw [pyProduct, flatMap_sum, List.zipWith_cons_cons, List.prod_cons, ← ih (by simpa using h), ← List.sum_map_mul_right]
    congr 1
    apply List.map_congr_left
    intro p _
    rw [List.map_map, ← List.sum_map_mul_left]
    rfl

section
variable {O R M : Type} [Fintype O] [DecidableEq O] [Inhabited O]

/-- Assignments of spin orbitals to the labels are assignments of alpha orbitals to the new labels. -/
theorem sum_spatial [AddCommMonoid M] {orb : Orbitals O} {partner : O → O} (hp : orb.Paired partner) {S : Finset Index} {ρ : Index → Index}
    (hinj : ∀ i ∈ S, ∀ j ∈ S, ρ i = ρ j → i = j) (hsp : ∀ i ∈ S, (ρ i).space = ⟨i.space.kind, false⟩) (F : (Index → O) → M)
    (hF : ∀ σ τ : Index → O, (∀ i ∈ S, σ i = τ i) → F σ = F τ) :
    ∑ σ ∈ orb.assignments S, F (fun i => orb.spatial partner (extendTo σ i)) = ∑ τ ∈ orb.assignments (S.image ρ), F (fun i => extendTo τ (ρ i)) := by
  classical
  have hex : ∀ j : S.image ρ, ∃ i : S, ρ i.1 = j.1 := by
    rintro ⟨j, hj⟩
    obtain ⟨i, hi, rfl⟩ := Finset.mem_image.1 hj
    exact ⟨⟨i, hi⟩, rfl⟩
  choose κ hκ using hex
  have hκ' : ∀ (i : Index) (hi : i ∈ S), κ ⟨ρ i, Finset.mem_image_of_mem _ hi⟩ = ⟨i, hi⟩ := by
    intro i hi
    apply Subtype.ext
    exact hinj _ (κ _).2 _ hi (hκ _)
  have hsin : ∀ o, orb.spin (orb.spatial partner o) = false := by
    intro o
    unfold Orbitals.spatial
    split_ifs with h
    · rw [hp.spin, h]; rfl
    · simpa using h
  have hel : ∀ o, orb.elem (orb.spatial partner o) = orb.elem o := by
    intro o
    unfold Orbitals.spatial
    split_ifs
    · exact hp.elem o
    · rfl
  apply Finset.sum_bij' (fun σ _ => fun j => orb.spatial partner (σ (κ j)))
    (fun τ _ => fun i : S => if i.1.isBeta then partner (τ ⟨ρ i.1, Finset.mem_image_of_mem _ i.2⟩) else τ ⟨ρ i.1, Finset.mem_image_of_mem _ i.2⟩)
  · intro σ hσ
    rw [Orbitals.mem_assignments] at hσ ⊢
    intro j
    have h1 := hσ (κ j)
    have h2 := hsp _ (κ j).2
    rw [hκ j] at h2
    refine ⟨?_, ?_⟩
    · rw [h2, hel]; exact h1.1
    · rw [h2, hsin]
  · intro τ hτ
    rw [Orbitals.mem_assignments] at hτ ⊢
    intro i
    have h1 := hτ ⟨ρ i.1, Finset.mem_image_of_mem _ i.2⟩
    simp only [Orbitals.In, hsp i.1 i.2] at h1
    split_ifs with hb
    · refine ⟨by rw [hp.elem]; exact h1.1, ?_⟩
      rw [hp.spin, ← h1.2]; exact hb
    · refine ⟨h1.1, ?_⟩
      rw [← h1.2]; simpa [Index.isBeta] using hb
  · intro σ hσ
    rw [Orbitals.mem_assignments] at hσ
    funext i
    simp only [hκ' i.1 i.2]
    have h1 := (hσ i).2
    unfold Orbitals.spatial
    by_cases hb : i.1.isBeta = true
    · have : orb.spin (σ i) = true := by rw [← h1]; exact hb
      rw [if_pos hb, if_pos this, hp.partner]
    · have : ¬ orb.spin (σ i) = true := by rw [← h1]; exact hb
      rw [if_neg hb, if_neg this]
  · intro τ hτ
    rw [Orbitals.mem_assignments] at hτ
    funext j
    have h1 := hτ j
    have h2 := hsp _ (κ j).2
    rw [hκ j] at h2
    rw [Orbitals.In, h2] at h1
    have e : (⟨ρ (κ j).1, Finset.mem_image_of_mem _ (κ j).2⟩ : S.image ρ) = j := Subtype.ext (hκ j)
    simp only [e]
    unfold Orbitals.spatial
    split_ifs with hb h3 h3
    · rw [hp.partner]
    · rw [hp.spin, ← h1.2] at h3; simp at h3
    · rw [← h1.2] at h3; simp at h3
    · rfl
  · intro σ hσ
    apply hF
    intro i hi
    rw [extendTo_mem _ hi, extendTo_mem _ (Finset.mem_image_of_mem ρ hi), hκ' i hi]

variable [CommRing R] [Algebra ℚ R] [AddCommGroup M] [Module R M]

omit [Fintype O] [DecidableEq O] [Inhabited O] in
/-- The spin-dependent value of a pair in terms of its labels. -/
theorem signedSum_labels {Y : Type} [AddCommGroup Y] (F : List O → List O → Y) {orb : Orbitals O} {S : Finset Index} {σ : Index → O}
    (hσ : ∀ i ∈ S, orb.In i.space (σ i)) {u l : List Index} (hu : ∀ i ∈ u, i ∈ S) (hl : ∀ i ∈ l, i ∈ S) (f : O → O) :
    signedSum (fun l' => if (u.map σ).map orb.spin = l'.map orb.spin then F ((u.map σ).map f) (l'.map f) else 0) (l.map σ) =
      signedSum (fun L => if u.map Index.isBeta = L.map Index.isBeta then F (u.map fun i => f (σ i)) (L.map fun i => f (σ i)) else 0) l := by
  have key : ∀ L : List Index, (∀ i ∈ L, i ∈ S) → (L.map σ).map orb.spin = L.map Index.isBeta := by
    intro L hL
    rw [List.map_map]
    exact List.map_congr_left fun i hi => (hσ i (hL i hi)).2.symm
  rw [signedSum_map]
  apply signedSum_congr
  intro L hL
  rw [key u hu, key L (fun i hi => hl i (hL i hi)), List.map_map, List.map_map]
  rfl

end

theorem list_smul_sum {A R M : Type} [Semiring R] [AddCommMonoid M] [Module R M] (r : R) (l : List A) (f : A → M) :
    r • (l.map f).sum = (l.map fun a => r • f a).sum := by
  induction l with
  | nil => simp
  | cons a l ih => simp [ih]

theorem list_sum_smul {A R M : Type} [Semiring R] [AddCommMonoid M] [Module R M] (l : List A) (f : A → R) (m : M) :
    (l.map f).sum • m = (l.map fun a => f a • m).sum := by
  induction l with
  | nil => simp
  | cons a l ih => simp [ih, add_smul]

theorem list_sum_finset_sum {A B M : Type} [AddCommMonoid M] (l : List A) (s : Finset B) (f : A → B → M) :
    (l.map fun a => ∑ b ∈ s, f a b).sum = ∑ b ∈ s, (l.map fun a => f a b).sum := by
  induction l with
  | nil => simp
  | cons a l ih => simp [ih, Finset.sum_add_distrib]

section
variable {O R M : Type} [Fintype O] [DecidableEq O] [Inhabited O] [CommRing R] [Algebra ℚ R] [AddCommGroup M] [Module R M]

/-- The value of a factor on spatial orbitals. -/
def singletVal {Y : Type} [AddCommGroup Y] (F : List O → List O → Y) (x : IndicesPair) (g : Index → O) : Y :=
  signedSum (fun L => if x.upper.list.map Index.isBeta = L.map Index.isBeta then F (x.upper.list.map g) (L.map g) else 0) x.lower.list

omit [Fintype O] [DecidableEq O] [Inhabited O] in
theorem singletVal_congr {Y : Type} [AddCommGroup Y] (F : List O → List O → Y) {x : IndicesPair} {g g' : Index → O} (h : ∀ i ∈ x.indices, g i = g' i) :
    singletVal F x g = singletVal F x g' := by
  unfold singletVal
  apply signedSum_congr
  intro L hL
  rw [List.map_congr_left (f := g) (g := g') (fun i hi => h i (List.mem_append_left _ hi)),
    List.map_congr_left (f := g) (g := g') (l := L) (fun i hi => h i (List.mem_append_right _ (hL i hi)))]

omit [Fintype O] [Inhabited O] [Algebra ℚ R] in
theorem tval_spinResolved (J : Interp O R M) {orb : Orbitals O} (partner : O → O) {S : Finset Index} {σ : Index → O}
    (hσ : ∀ i ∈ S, orb.In i.space (σ i)) {x : Tensor} (hx : ∀ i ∈ x.pair.indices, i ∈ S) :
    (J.spinResolved orb partner).tval σ x = singletVal (J.tensor x.cls x.name) x.pair fun i => orb.spatial partner (σ i) :=
  signedSum_labels (J.tensor x.cls x.name) hσ (fun i hi => hx i (List.mem_append_left _ hi)) (fun i hi => hx i (List.mem_append_right _ hi)) _

omit [Fintype O] [Inhabited O] [Algebra ℚ R] in
theorem opval_spinResolved (J : Interp O R M) {orb : Orbitals O} (partner : O → O) {S : Finset Index} {σ : Index → O}
    (hσ : ∀ i ∈ S, orb.In i.space (σ i)) {x : SqOp} (hx : ∀ i ∈ x.indices, i ∈ S) :
    (J.spinResolved orb partner).opval σ x = singletVal J.op x fun i => orb.spatial partner (σ i) :=
  signedSum_labels J.op hσ (fun i hi => hx i (List.mem_append_left _ hi)) (fun i hi => hx i (List.mem_append_right _ hi)) _

/-- The terms for one arrangement of the operator labels. -/
theorem singlet_perm {canon : CanonFn} (hcanon : CanonContract canon) {ord : SetOrder} (hord : ord.Lawful) {t : Term} {op : SqOp}
    (hop : op.upper.WF ∧ op.lower.WF ∧ op.upper.ty.isAntisym = true ∧ op.lower.ty.isAntisym = true)
    (hts : ∀ x ∈ t.tensors, x.pair.upper.WF ∧ x.pair.lower.WF ∧ x.pair.upper.ty.isAntisym = true ∧ x.pair.lower.ty.isAntisym = true)
    {ρ : Index → Index} (hinj : ∀ i ∈ labelsOf t.tensors op, ∀ j ∈ labelsOf t.tensors op, ρ i = ρ j → i = j)
    (hsp : ∀ i ∈ labelsOf t.tensors op, (ρ i).space = ⟨i.space.kind, false⟩) {am : Bool} {n : Nat} {s : Int} (hs : s = 1 ∨ s = -1) (hn : 0 < n)
    (hc : t.coeff = 0 ∨ n / 10 ^ 15 ≤ |t.coeff|) (hsep : Separated true t.tensors op)
    (hkind : ∀ x ∈ t.tensors, ∀ y ∈ t.tensors, x.name = y.name → x.cls = y.cls)
    {adapted : List (List (Int × List Index × List Index))} {rs : List Term}
    (ha : (op :: t.tensors.map fun x => x.pair).mapM (fun x => x.singletAdaptation ρ am) = .ok adapted)
    (hr : (pyProduct adapted).mapM (fun pairs => t.singletRow canon ord n s pairs) = .ok rs)
    {orb : Orbitals O} {partner : O → O} (hp : orb.Paired partner) (J : Interp O R M) (hJ : J.PairSymmetric) (hJo : J.OpPairSymmetric)
    (hH : J.Hermitian) (hph : J.Physical orb) (hac : J.ActiveCumulants orb) (hna : J.NoActiveAmplitudes orb) :
    (rs.map fun r => J.value orb r.coeff r.tensors r.sqOp).sum = algebraMap ℚ R (t.coeff / n) •
      ∑ σ ∈ orb.assignments (labelsOf t.tensors op), (J.spinResolved orb partner).pval (extendTo σ) t.tensors •
        s • (J.spinResolved orb partner).opval (extendTo σ) op := by
  set S := labelsOf t.tensors op with hS
  obtain ⟨A0, As, hA0, hAs, rfl⟩ := mapM_cons_ok.1 ha
  replace hAs := mapM_ok_forall₂.1 hAs
  rw [List.forall₂_map_left_iff] at hAs
  replace hr := mapM_ok_forall₂.1 hr
  have hxS : ∀ x ∈ t.tensors, ∀ i ∈ x.pair.indices, i ∈ S := by
    intro x hx i hi; rw [hS, mem_labelsOf, mem_labelList]; exact Or.inr ⟨x, hx, hi⟩
  have hoS : ∀ i ∈ op.indices, i ∈ S := by
    intro i hi; rw [hS, mem_labelsOf, mem_labelList]; exact Or.inl hi
  have hrow0 := singlet_pair_rows hop.1 hop.2.1 hop.2.2.1 hop.2.2.2 hA0
  have hbal := (singletAdaptation_eq hA0).2.1
  -- the rows of the tensors
  have hfol : ∀ rest ∈ pyProduct As, List.Forall₂ (Follows ρ) t.tensors (List.zipWith singletTensor t.tensors rest) ∧
      ((rest.map Prod.fst).prod = 1 ∨ (rest.map Prod.fst).prod = -1) := by
    intro rest hrest
    rw [mem_pyProduct] at hrest
    clear hr ha hsep hkind hinj hsp hS hc hxS
    generalize t.tensors = ts at *
    induction hAs generalizing rest with
    | nil => cases hrest; simp
    | @cons x P xs Ps h1 _ ih =>
      cases hrest with
      | @cons r _ rest' _ hx hxs =>
        obtain ⟨k1, k2⟩ := ih rest' hxs (fun y hy => hts y (by simp [hy]))
        obtain ⟨w1, w2, w3, w4⟩ := hts x (by simp)
        obtain ⟨m1, m2, m3⟩ := singlet_pair_rows w1 w2 w3 w4 h1 r hx
        refine ⟨.cons ⟨rfl, rfl, m2, m3⟩ k1, ?_⟩
        rw [List.map_cons, List.prod_cons]
        exact sign_mul m1 k2
  -- the value of a row
  have hlab : ∀ p ∈ A0, ∀ rest ∈ pyProduct As, labelsOf (List.zipWith singletTensor t.tensors rest) (singletOp p) = S.image ρ := by
    intro p hp rest hrest
    obtain ⟨-, p2, p3⟩ := hrow0 p hp
    have hf := (hfol rest hrest).1
    ext j
    rw [mem_labelsOf, mem_labelList, Finset.mem_image]
    have hop' : j ∈ (singletOp p).upper.list ++ (singletOp p).lower.list ↔ ∃ i ∈ op.upper.list ++ op.lower.list, ρ i = j := by
      rw [List.mem_append, show (singletOp p).upper.list = p.2.1 from rfl, show (singletOp p).lower.list = p.2.2 from rfl, p2.mem_iff, p3.mem_iff,
        ← List.mem_append, ← List.map_append, List.mem_map]
    have hts' : (∃ y ∈ List.zipWith singletTensor t.tensors rest, j ∈ y.upper.list ++ y.lower.list) ↔
        ∃ x ∈ t.tensors, ∃ i ∈ x.upper.list ++ x.lower.list, ρ i = j := by
      generalize List.zipWith singletTensor t.tensors rest = l at hf
      clear hr ha hsep hkind hinj hsp hS hc hxS hts hfol hAs
      generalize t.tensors = ts at hf
      induction hf with
      | nil => simp
      | @cons x y xs ys h1 _ ih =>
        simp only [List.mem_cons, exists_eq_or_imp, ih]
        refine or_congr_left ?_
        rw [List.mem_append, h1.upper.mem_iff, h1.lower.mem_iff, ← List.mem_append, ← List.map_append, List.mem_map]
    constructor
    · rintro (h | h)
      · obtain ⟨i, hi, e⟩ := hop'.1 h
        exact ⟨i, hoS i hi, e⟩
      · obtain ⟨x, hx, i, hi, e⟩ := hts'.1 h
        exact ⟨i, hxS x hx i hi, e⟩
    · rintro ⟨i, hi, e⟩
      rw [hS, mem_labelsOf, mem_labelList] at hi
      rcases hi with hi | ⟨x, hx, hi⟩
      · exact Or.inl (hop'.2 ⟨i, hi, e⟩)
      · exact Or.inr (hts'.2 ⟨x, hx, i, hi, e⟩)
  let val : Int × List Index × List Index → List (Int × List Index × List Index) → M := fun p rest =>
    J.value orb (((s * p.1 * (rest.map Prod.fst).prod : Int) : ℚ) * t.coeff / n) (List.zipWith singletTensor t.tensors rest) (singletOp p)
  have hval : ∀ p ∈ A0, ∀ rest ∈ pyProduct As, ∀ r, t.singletRow canon ord n s (p :: rest) = .ok r → J.value orb r.coeff r.tensors r.sqOp = val p rest := by
    intro p hpA rest hrest r hrow
    obtain ⟨p', rest', q, e, hq, hcan⟩ := Term.singletRow_ok hrow
    injection e with e1 e2
    subst e1 e2
    obtain ⟨p1, p2, p3⟩ := hrow0 p hpA
    obtain ⟨f1, f2⟩ := hfol rest hrest
    refine C43_value_partial canon hcanon ord hord _ _ _ q r hq true true true ?_ hcan ?_ ?_ ?_ orb J ⟨(fun h => absurd (show IType.isAntisym .spinAdapted = true from h) (by decide)), fun _ => hJ, fun _ => hH⟩ hph hac fun _ => hna
    · exact hsep.follow₂ f1 p2 p3 hinj fun i hi => by rw [hsp i hi]
    · rcases hc with h | h
      · left; rw [h]; simp
      · right
        have hsg := sign_mul (sign_mul hs p1) f2
        have hn' : (0 : ℚ) < n := by exact_mod_cast hn
        have habs : |((s * p.1 * (rest.map Prod.fst).prod : Int) : ℚ)| = 1 := by
          rcases hsg with h | h <;> rw [h] <;> simp
        rw [abs_div, abs_mul, habs, one_mul, abs_of_pos hn', le_div_iff₀ hn']
        calc (1 : ℚ) / 10 ^ 15 * n = n / 10 ^ 15 := by ring
          _ ≤ |t.coeff| := h
    · show p.2.1.length = p.2.2.length
      rw [p2.length_eq, p3.length_eq, List.length_map, List.length_map, hbal]
    · have : ∀ y ∈ List.zipWith singletTensor t.tensors rest, ∃ x ∈ t.tensors, y.cls = x.cls ∧ y.name = x.name := by
        intro y hy
        generalize List.zipWith singletTensor t.tensors rest = l at hy f1
        clear hr ha hsep hkind hinj hsp hS hc hxS hts hlab hfol hAs hq hcan hrow
        generalize t.tensors = ts at f1
        induction f1 with
        | nil => simp at hy
        | @cons x z xs zs h1 _ ih =>
          rcases List.mem_cons.1 hy with rfl | hy
          · exact ⟨x, by simp, h1.cls, h1.name⟩
          · obtain ⟨w, hw, hw'⟩ := ih hy
            exact ⟨w, by simp [hw], hw'⟩
      intro y hy z hz hyz
      obtain ⟨y', hy', c1, n1⟩ := this y hy
      obtain ⟨z', hz', c2, n2⟩ := this z hz
      rw [c1, c2]
      exact hkind y' hy' z' hz' (by rw [← n1, ← n2, hyz])
  have hsum : (rs.map fun r => J.value orb r.coeff r.tensors r.sqOp).sum = (A0.map fun p => ((pyProduct As).map fun rest => val p rest).sum).sum := by
    have h1 : rs.map (fun r => J.value orb r.coeff r.tensors r.sqOp) = (A0.flatMap fun p => (pyProduct As).map fun rest => val p rest) := by
      have h2 : ∀ pairs ∈ pyProduct (A0 :: As), ∃ p rest, p ∈ A0 ∧ rest ∈ pyProduct As ∧ pairs = p :: rest := by
        intro pairs h
        rw [pyProduct, List.mem_flatMap] at h
        obtain ⟨p, hp, h⟩ := h
        obtain ⟨rest, hrest, rfl⟩ := List.mem_map.1 h
        exact ⟨p, rest, hp, hrest, rfl⟩
      have h3 : rs.map (fun r => J.value orb r.coeff r.tensors r.sqOp) = (pyProduct (A0 :: As)).map fun pairs => match pairs with
          | [] => 0
          | p :: rest => val p rest := by
        clear hsep hkind hinj hsp hS hc hxS hts hlab hfol hAs ha
        generalize pyProduct (A0 :: As) = l at hr h2
        induction hr with
        | nil => rfl
        | @cons pairs r ps rs' h1 _ ih =>
          obtain ⟨p, rest, hp, hrest, rfl⟩ := h2 pairs (by simp)
          rw [List.map_cons, List.map_cons, ih fun q hq => h2 q (by simp [hq]), hval p hp rest hrest r h1]
      rw [h3, pyProduct, List.map_flatMap]
      apply List.flatMap_congr
      intro p _
      rw [List.map_map]
      rfl
    rw [h1]
    have := flatMap_sum A0 (fun p => (pyProduct As).map fun rest => val p rest) id
    rw [List.map_id] at this
    rw [this]
    simp only [List.map_id]
  -- sums over rows for one assignment
  let φ : (Index → O) → Tensor → Int × List Index × List Index → R := fun τ x r => (r.1 : R) * J.tensor x.cls x.name (r.2.1.map τ) (r.2.2.map τ)
  have hphi : ∀ (τ : Index → O) (rest : List (Int × List Index × List Index)), rest.length = t.tensors.length →
      (((rest.map Prod.fst).prod : Int) : R) * J.pval τ (List.zipWith singletTensor t.tensors rest) = (List.zipWith (φ τ) t.tensors rest).prod := by
    intro τ rest hlen
    unfold Interp.pval
    clear hsep hkind hinj hsp hS hc hxS hts hlab hfol hAs ha hr hval hsum
    generalize t.tensors = ts at hlen
    induction ts generalizing rest with
    | nil => simp [List.length_eq_zero_iff.1 hlen]
    | cons x ts ih =>
      rcases rest with _ | ⟨r, rest⟩
      · simp at hlen
      rw [List.zipWith_cons_cons, List.zipWith_cons_cons, List.prod_cons, ← ih rest (by simpa using hlen), List.map_cons, List.prod_cons, List.map_cons,
        List.prod_cons]
      push_cast
      simp only [φ]
      rw [show J.tval τ (singletTensor x r) = J.tensor x.cls x.name (r.2.1.map τ) (r.2.2.map τ) from rfl]
      ring
  have hprod : ∀ (τ : Index → O), (List.zipWith (fun x P => (P.map (φ τ x)).sum) t.tensors As).prod =
      (t.tensors.map fun x => singletVal (J.tensor x.cls x.name) x.pair fun i => τ (ρ i)).prod := by
    intro τ
    congr 1
    clear hsep hkind hinj hsp hS hc hxS hlab hfol ha hr hval hsum hphi
    generalize t.tensors = ts at hts hAs
    induction hAs with
    | nil => rfl
    | @cons x P xs Ps h1 _ ih =>
      rw [List.zipWith_cons_cons, List.map_cons, ih fun y hy => hts y (by simp [hy])]
      congr 1
      obtain ⟨w1, w2, w3, w4⟩ := hts x (by simp)
      unfold singletVal
      rw [singlet_pair w1 w2 w3 w4 h1 (F := J.tensor x.cls x.name) (hJ x.cls x.name) (g := fun i => τ (ρ i)) (h := τ) fun i _ => rfl]
      simp only [φ, zsmul_eq_mul]
  have hopsum : ∀ (τ : Index → O), (A0.map fun p => p.1 • J.opval τ (singletOp p)).sum = singletVal J.op op fun i => τ (ρ i) := by
    intro τ
    unfold singletVal
    rw [singlet_pair hop.1 hop.2.1 hop.2.2.1 hop.2.2.2 hA0 (F := J.op) hJo (g := fun i => τ (ρ i)) (h := τ) fun i _ => rfl]
    rfl
  let F : (Index → O) → M := fun g => (t.tensors.map fun x => singletVal (J.tensor x.cls x.name) x.pair g).prod • s • singletVal J.op op g
  have hlenAs : ∀ rest ∈ pyProduct As, rest.length = t.tensors.length := by
    intro rest h
    rw [mem_pyProduct] at h
    rw [h.length_eq, ← hAs.length_eq]
  have hval2 : ∀ p ∈ A0, ∀ rest ∈ pyProduct As, val p rest = algebraMap ℚ R (t.coeff / n) • ∑ τ ∈ orb.assignments (S.image ρ),
      (List.zipWith (φ (extendTo τ)) t.tensors rest).prod • s • p.1 • J.opval (extendTo τ) (singletOp p) := by
    intro p hpA rest hrest
    simp only [val]
    unfold Interp.value
    rw [hlab p hpA rest hrest]
    have e : (((s * p.1 * (rest.map Prod.fst).prod : Int) : ℚ) * t.coeff / n) = (t.coeff / n) * ((s * p.1 * (rest.map Prod.fst).prod : Int) : ℚ) := by ring
    rw [e, map_mul, mul_smul]
    congr 1
    rw [Finset.smul_sum]
    refine Finset.sum_congr rfl fun τ _ => ?_
    rw [← hphi _ rest (hlenAs rest hrest), ← Int.cast_smul_eq_zsmul R s, ← Int.cast_smul_eq_zsmul R p.1, smul_smul, smul_smul, smul_smul]
    congr 1
    rw [map_intCast]
    push_cast
    ring
  rw [hsum]
  have e1 : (A0.map fun p => ((pyProduct As).map fun rest => val p rest).sum).sum = algebraMap ℚ R (t.coeff / n) •
      ∑ τ ∈ orb.assignments (S.image ρ), F (fun i => extendTo τ (ρ i)) := by
    have h1 : (A0.map fun p => ((pyProduct As).map fun rest => val p rest).sum) = A0.map fun p => algebraMap ℚ R (t.coeff / n) •
        ∑ τ ∈ orb.assignments (S.image ρ), ((pyProduct As).map fun rest => (List.zipWith (φ (extendTo τ)) t.tensors rest).prod).sum •
          s • p.1 • J.opval (extendTo τ) (singletOp p) := by
      apply List.map_congr_left
      intro p hpA
      rw [List.map_congr_left fun rest hrest => hval2 p hpA rest hrest]
      rw [← list_smul_sum, list_sum_finset_sum]
      congr 1
      refine Finset.sum_congr rfl fun τ _ => ?_
      rw [list_sum_smul]
    rw [h1, ← list_smul_sum, list_sum_finset_sum]
    congr 1
    refine Finset.sum_congr rfl fun τ _ => ?_
    rw [sum_pyProduct (φ (extendTo τ)) hAs.length_eq, hprod, ← list_smul_sum]
    simp only [F]
    congr 1
    rw [← hopsum]
    simp only [← Int.cast_smul_eq_zsmul R s]
    rw [list_smul_sum]
  rw [e1]
  congr 1
  rw [← sum_spatial hp hinj hsp F]
  · refine Finset.sum_congr rfl fun σ hσ => ?_
    have hin := fun i hi => Orbitals.extend_in hσ (i := i) hi
    simp only [F]
    rw [opval_spinResolved J partner hin hoS]
    congr 1
    unfold Interp.pval
    congr 1
    apply List.map_congr_left
    intro x hx
    rw [tval_spinResolved J partner hin (hxS x hx)]
  · intro σ τ h
    simp only [F]
    rw [singletVal_congr J.op fun i hi => h i (hoS i hi)]
    congr 2
    apply List.map_congr_left
    intro x hx
    exact singletVal_congr _ fun i hi => h i (hxS x hx i hi)

end

end Dsrg
