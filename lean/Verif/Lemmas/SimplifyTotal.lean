import Verif.Lemmas.SympyTotal
import Verif.Lemmas.Tidy

/-!
`simplify` succeeds on two-sided terms whose densities connect spaces with common orbitals.
-/

namespace Dsrg

/-- The second label has the spin of the first and no orbitals that the first does not have. -/
def Fine (i j : Index) : Prop := j.space.beta = i.space.beta ∧ j.space.relation ⊆ i.space.relation

theorem Fine.refl (i : Index) : Fine i i := ⟨rfl, Finset.Subset.refl _⟩

theorem fine_kinds (i j : Space) (hb : j.beta = i.beta) (hr : j.relation ⊆ i.relation) (hg : i.kind ≠ .g) :
    j.kind ≠ .g ∧ (holeKind j.kind → holeKind i.kind) ∧ (partKind j.kind → partKind i.kind) := by
  unfold holeKind partKind
  revert i j; decide +kernel

theorem clusterHalf_fine {f : Index → Index} {l : List Index} (hf : ∀ i ∈ l, Fine i (f i)) (h : ClusterHalf (l.map Index.space)) :
    ClusterHalf ((l.map f).map Index.space) := by
  have key : ∀ s ∈ (l.map f).map Index.space, ∃ i ∈ l, s = (f i).space := by
    intro s hs
    simp only [List.map_map, List.mem_map, Function.comp_apply] at hs
    obtain ⟨i, hi, rfl⟩ := hs
    exact ⟨i, hi, rfl⟩
  have hk : ∀ i ∈ l, _ := fun i hi => fine_kinds i.space (f i).space (hf i hi).1 (hf i hi).2 (h.2 _ (List.mem_map_of_mem hi))
  refine ⟨?_, ?_⟩
  · rintro ⟨⟨s, hs, h1⟩, ⟨s', hs', h2⟩⟩
    obtain ⟨i, hi, rfl⟩ := key s hs
    obtain ⟨i', hi', rfl⟩ := key s' hs'
    exact h.1 ⟨⟨_, List.mem_map_of_mem hi, (hk i hi).2.1 h1⟩, ⟨_, List.mem_map_of_mem hi', (hk i' hi').2.2 h2⟩⟩
  · intro s hs
    obtain ⟨i, hi, rfl⟩ := key s hs
    exact (hk i hi).1

theorem SoundTensorOf.relabel {ty : IType} {x : Tensor} (h : SoundTensorOf ty x) {f : Index → Index} (hf : ∀ i ∈ x.pair.indices, Fine i (f i)) :
    SoundTensorOf ty (x.relabel f) where
  upper := h.upper
  lower := h.upper
  len := by simpa [Tensor.relabel, Tensor.upper, Tensor.lower, IndicesPair.relabel] using h.len
  pos := by simpa [Tensor.relabel, Tensor.upper, IndicesPair.relabel] using h.pos
  one hc := by simpa [Tensor.relabel, Tensor.upper, IndicesPair.relabel] using h.one hc
  half hc := ⟨clusterHalf_fine (fun i hi => hf i (List.mem_append_left _ hi)) (h.half hc).1,
    clusterHalf_fine (fun i hi => hf i (List.mem_append_right _ hi)) (h.half hc).2⟩
  spin hso := by
    have key : ∀ l : List Index, (∀ i ∈ l, i ∈ x.pair.indices) → (l.map f).countP Index.isBeta = l.countP Index.isBeta := by
      intro l hl
      rw [List.countP_map]
      exact List.countP_congr fun i hi => by rw [Function.comp_apply]; unfold Index.isBeta; rw [(hf i (hl i hi)).1]
    have := h.spin hso
    show (x.upper.list.map f).countP Index.isBeta = (x.lower.list.map f).countP Index.isBeta
    rw [key _ fun i hi => List.mem_append_left _ hi, key _ fun i hi => List.mem_append_right _ hi]
    exact this

/-- The densities whose two labels are compared have common orbitals. -/
structure Overlapping (x : Tensor) : Prop where
  cumulant : x.cls = .cumulant → ∀ u l, x.upper.list = [u] → x.lower.list = [l] → downgradeDensity .v .h u.space l.space ≠ none
  kronecker : x.cls = .kronecker → ∀ u l, x.upper.list = [u] → x.lower.list = [l] → (u.space.relation ∩ l.space.relation).card ≠ 0

theorem density_overlap (u l : Space) (h : downgradeDensity .v .h u l ≠ none) : (u.relation ∩ l.relation).card ≠ 0 := by
  revert u l; decide +kernel

theorem density_fine (u l s : Space) (h : downgradeDensity .v .h u l = some s) :
    (s.beta = u.beta ∧ s.relation ⊆ u.relation) ∧ (s.beta = l.beta ∧ s.relation ⊆ l.relation) := by
  revert u l s; decide +kernel

theorem active_fine (i : Space) (h : i.kind.Denotes .active) : Space.relation ⟨.a, i.beta⟩ ⊆ i.relation := by
  revert i; decide +kernel

theorem foldl_fine {diag : Finset Index} (sp : Index → Space) : ∀ (L : List Index) (st : ReplState), (∀ i, Fine i (st.repl i)) →
    (∀ i ∈ L, (sp i).beta = i.space.beta ∧ (sp i).relation ⊆ i.space.relation) →
    ∀ i, Fine i ((L.foldl (fun st i => st.assignFresh diag (sp i) i) st).repl i)
  | [], st, h, _ => h
  | a :: L, st, h, hL => by
    rw [List.foldl_cons]
    refine foldl_fine sp L _ ?_ fun i hi => hL i (by simp [hi])
    intro i
    unfold ReplState.assignFresh ReplState.assign
    simp only [Function.update_apply]
    split_ifs with e
    · subst e; exact hL i (by simp)
    · exact h i

theorem downgradeStep_total {ty : IType} {diag : Finset Index} {st : ReplState} {t : Tensor} (ht : SoundTensorOf ty t) (hov : Overlapping t)
    (hb : ty = .spinOrbital → ∀ i ∈ t.pair.indices, i.isBeta = false)
    (hact : t.cls = .cumulant → t.upper.list.length ≠ 1 → ∀ i ∈ t.upper.list ++ t.lower.list, i.space.kind.Denotes .active)
    (hst : ∀ i, Fine i (st.repl i)) :
    ∃ r, downgradeStep true diag st t = .ok r ∧ ∀ i, Fine i (r.1.repl i) := by
  unfold downgradeStep
  by_cases hc : t.cls = .cumulant
  · rw [if_pos hc]
    have hnb : t.pair.nLower = t.pair.nUpper := ht.len.symm
    unfold IndicesPair.nBody
    rw [if_neg (by simpa using hnb)]
    simp only [bind, Except.bind, pure, Except.pure]
    by_cases hn1 : t.pair.nLower = 1
    · rw [if_neg (by simpa using hn1)]
      obtain ⟨l, hl⟩ := List.length_eq_one_iff.1 (show t.lower.list.length = 1 from hn1)
      obtain ⟨u, hu⟩ := List.length_eq_one_iff.1 (show t.upper.list.length = 1 from hnb.symm.trans hn1)
      have hd : t.downgradeIndices = .ok (downgradeDensity .v .h u.space l.space) := by
        unfold Tensor.downgradeIndices; rw [hc, hu, hl]
      rw [hd]
      cases hs : downgradeDensity .v .h u.space l.space with
      | none => exact absurd hs (hov.cumulant hc u l hu hl)
      | some s =>
        simp only []
        obtain ⟨f1, f2⟩ := density_fine _ _ _ hs
        by_cases hk : s.kind = .c ∧ True
        · rw [if_pos hk]
          have hsound : SoundTensorOf ty ({ cls := .kronecker, pair := t.pair, name := ['K'], priority := -1 } : Tensor) :=
            ⟨ht.upper, ht.lower, ht.len, ht.pos, fun _ => hnb.symm.trans hn1, (fun h => by cases h), ht.spin⟩
          have := hsound.make hb
          simp only [Tensor.upper, Tensor.lower] at this ⊢
          rw [this]
          exact ⟨_, rfl, hst⟩
        · rw [if_neg hk]
          refine ⟨_, rfl, ?_⟩
          refine foldl_fine (fun _ => s) _ _ (foldl_fine (fun _ => s) _ _ hst ?_) ?_
          · intro i hi; rw [hu] at hi; obtain rfl : i = u := by simpa using hi
            exact f1
          · intro i hi; rw [hl] at hi; obtain rfl : i = l := by simpa using hi
            exact f2
    · rw [if_pos (by simpa using hn1)]
      have hlen : t.upper.list.length ≠ 1 := by
        intro e; apply hn1; rw [hnb]; exact e
      refine ⟨_, rfl, ?_⟩
      refine foldl_fine activeOf _ _ (foldl_fine activeOf _ _ hst ?_) ?_
      · intro i hi; exact ⟨rfl, active_fine _ (hact hc hlen i (List.mem_append_left _ hi))⟩
      · intro i hi; exact ⟨rfl, active_fine _ (hact hc hlen i (List.mem_append_right _ hi))⟩
  · rw [if_neg hc]
    exact ⟨_, rfl, hst⟩

theorem downgradeCumulants_total {ty : IType} {diag : Finset Index} : ∀ (ts : List Tensor) (st : ReplState), (∀ t ∈ ts, SoundTensorOf ty t) → (∀ t ∈ ts, Overlapping t) →
    (∀ t ∈ ts, ty = .spinOrbital → ∀ i ∈ t.pair.indices, i.isBeta = false) →
    (∀ t ∈ ts, t.cls = .cumulant → t.upper.list.length ≠ 1 → ∀ i ∈ t.upper.list ++ t.lower.list, i.space.kind.Denotes .active) →
    (∀ i, Fine i (st.repl i)) →
    ∃ r, downgradeCumulants true diag st ts = .ok r ∧ ∀ i, Fine i (r.1.repl i)
  | [], st, _, _, _, _, h => ⟨_, rfl, h⟩
  | t :: ts, st, h1, h2, h3, h4, h => by
    obtain ⟨q, hq, hf⟩ := downgradeStep_total (diag := diag) (h1 t (by simp)) (h2 t (by simp)) (h3 t (by simp)) (h4 t (by simp)) h
    obtain ⟨r, hr, hf'⟩ := downgradeCumulants_total (diag := diag) ts q.1 (fun t ht => h1 t (by simp [ht])) (fun t ht => h2 t (by simp [ht]))
      (fun t ht => h3 t (by simp [ht])) (fun t ht => h4 t (by simp [ht])) hf
    unfold downgradeCumulants
    rw [bind_ok_of hq, bind_ok_of hr]
    exact ⟨_, rfl, hf'⟩

theorem delta_fine (a b : Space) (hp : a.priority ≤ b.priority) (ho : (a.relation ∩ b.relation).card ≠ 0) :
    ((a.kind, b.kind) = (Kind.p, Kind.h) → (a.beta = b.beta ∧ Space.relation ⟨.a, a.beta⟩ ⊆ a.relation ∧ Space.relation ⟨.a, a.beta⟩ ⊆ b.relation)) ∧
    ((a.kind, b.kind) ≠ (Kind.p, Kind.h) → b.beta = a.beta ∧ b.relation ⊆ a.relation) := by
  revert a b; decide +kernel

theorem deltaStep_total {ty : IType} {diag : Finset Index} {st : ReplState} {t : Tensor} (hk : t.cls = .kronecker) (ht : SoundTensorOf ty t) (hov : Overlapping t)
    (hst : ∀ i, Fine i (st.repl i)) : ∃ r, deltaStep diag st t = .ok r ∧ (∀ i, Fine i (r.repl i)) ∧ ∀ i, i ∉ t.pair.indices → r.rdiag i = st.rdiag i := by
  have h1 := ht.one (Or.inr hk)
  obtain ⟨u, hu⟩ := List.length_eq_one_iff.1 h1
  obtain ⟨l, hl⟩ := List.length_eq_one_iff.1 (ht.len.symm.trans h1)
  have ho := hov.kronecker hk u l hu hl
  have hsort : ∃ a b, sortTwo u l = (a, b) ∧ a.space.priority ≤ b.space.priority ∧
      (a.space.relation ∩ b.space.relation).card ≠ 0 ∧ (∃ s, downgradeDelta u l = some s) ∧ ∀ i, i ∉ t.pair.indices → i ≠ a ∧ i ≠ b := by
    have hidx := Tensor.indices_one hu hl
    unfold downgradeDelta sortTwo
    by_cases hlt : l.pyLt u = true
    · simp only [hlt, if_true]
      rw [Finset.inter_comm] at ho
      refine ⟨l, u, rfl, ?_, ho, ?_, fun i hi => by rw [hidx] at hi; simp at hi; exact ⟨hi.2, hi.1⟩⟩
      · rw [Index.pyLt_iff, Index.lt_iff] at hlt; omega
      · rw [if_neg ho]; split_ifs <;> exact ⟨_, rfl⟩
    · simp only [hlt]
      refine ⟨u, l, rfl, ?_, ho, ?_, fun i hi => by rw [hidx] at hi; simp at hi; exact hi⟩
      · rw [Index.pyLt_iff, Index.lt_iff] at hlt; omega
      · simp only [Bool.false_eq_true, if_false]
        rw [if_neg ho]; split_ifs <;> exact ⟨_, rfl⟩
  obtain ⟨a, b, hab, hp, ho', ⟨s, hs⟩, hne⟩ := hsort
  have hd : t.downgradeIndices = .ok (some s) := by
    unfold Tensor.downgradeIndices; rw [hk, hu, hl]; simp only [hs]
  unfold deltaStep
  rw [bind_ok_of hd]
  simp only [hu, hl, hab]
  obtain ⟨f1, f2⟩ := delta_fine _ _ hp ho'
  by_cases hph : (a.space.kind, b.space.kind) = (Kind.p, Kind.h)
  · rw [if_pos hph]
    refine ⟨_, rfl, ?_, ?_⟩
    obtain ⟨g1, g2, g3⟩ := f1 hph
    · intro i
      simp only [ReplState.assign, Function.update_apply]
      split_ifs with e1 e2
      · subst e1; exact ⟨g1, g3⟩
      · subst e2; exact ⟨rfl, g2⟩
      · exact hst i
    · intro i hi
      obtain ⟨n1, n2⟩ := hne i hi
      simp only [ReplState.assign]
      split_ifs <;> simp [Function.update_apply, n1, n2]
  · rw [if_neg hph]
    refine ⟨_, rfl, ?_, ?_⟩
    · intro i
      simp only [ReplState.assign, Function.update_apply]
      split_ifs with e1
      · subst e1; exact f2 hph
      · exact hst i
    · intro i hi
      obtain ⟨n1, n2⟩ := hne i hi
      simp only [ReplState.assign]
      split_ifs <;> simp [Function.update_apply, n1]

theorem removeDeltas_total {ty : IType} {diag : Finset Index} : ∀ (ts : List Tensor) (st : ReplState), (∀ t ∈ ts, t.cls = .kronecker → SoundTensorOf ty t ∧ Overlapping t) →
    (∀ i, Fine i (st.repl i)) → ∃ r, removeDeltas diag st ts = .ok r ∧ (∀ i, Fine i (r.1.repl i)) ∧
      ∀ i, (∀ t ∈ ts, t.cls = .kronecker → i ∉ t.pair.indices) → r.1.rdiag i = st.rdiag i
  | [], st, _, h => ⟨_, rfl, h, fun _ _ => rfl⟩
  | t :: ts, st, h1, h => by
    unfold removeDeltas
    by_cases hk : t.cls = .kronecker
    · rw [if_pos hk]
      obtain ⟨q, hq, hf, hr⟩ := deltaStep_total (diag := diag) hk (h1 t (by simp) hk).1 (h1 t (by simp) hk).2 h
      rw [bind_ok_of hq]
      obtain ⟨r, k1, k2, k3⟩ := removeDeltas_total (diag := diag) ts q (fun t ht => h1 t (by simp [ht])) hf
      exact ⟨r, k1, k2, fun i hi => (k3 i fun t ht => hi t (by simp [ht])).trans (hr i (hi t (by simp) hk))⟩
    · rw [if_neg hk]
      obtain ⟨r, hr, hf, k3⟩ := removeDeltas_total (diag := diag) ts st (fun t ht => h1 t (by simp [ht])) h
      rw [bind_ok_of hr]
      exact ⟨_, rfl, hf, fun i hi => k3 i fun t ht => hi t (by simp [ht])⟩

theorem diagonalLoop_total {ord : SetOrder} (hord : ord.Lawful) {rd : Index → Finset Index} :
    ∀ (L : List Index) (q : (Index → Index) × (Space → Nat) × Finset Index), (∀ i ∈ L, rd i = {i}) → (∀ i, Fine i (q.1 i)) →
      ∃ r, diagonalLoop ord rd L q = .ok r ∧ (∀ i, Fine i (r.1 i)) ∧ q.2.2 ⊆ r.2.2
  | [], q, _, h => ⟨_, rfl, h, Finset.Subset.refl _⟩
  | i :: L, (repl, next, keys), h1, h => by
    unfold diagonalLoop
    have hov : ((rd i).inf fun j => j.space.relation) = i.space.relation := by rw [h1 i (by simp), Finset.inf_singleton]
    have hfirst : (ord.spaces i.space.relation).headD ⟨.g, false⟩ ∈ i.space.relation := by
      have hne : i.space.relation.Nonempty := by
        obtain ⟨⟨k, b⟩, n⟩ := i
        cases k <;> simp [Space.relation]
      cases hsp : ord.spaces i.space.relation with
      | nil =>
        obtain ⟨x, hx⟩ := hne
        rw [← hord.mem_spaces, hsp] at hx; simp at hx
      | cons x l =>
        rw [← hord.mem_spaces, hsp]; simp
    have hs : findSpaceLabel ((rd i).inf fun j => j.space.relation)
        ((ord.spaces ((rd i).inf fun j => j.space.relation)).headD ⟨.g, false⟩) = .ok (some i.space) := by
      rw [hov]; exact findSpaceLabel_relation i.space _ hfirst
    simp only []
    rw [bind_ok_of hs]
    simp only []
    obtain ⟨r, hr, hf, hk⟩ := diagonalLoop_total hord (rd := rd) L
      (fun j => if j = i ∨ j ∈ rd i then (generateNextIndex i.space next).1 else repl j, (generateNextIndex i.space next).2, keys ∪ insert i (rd i))
      (fun j hj => h1 j (by simp [hj])) (by
        intro j
        simp only []
        rw [h1 i (by simp)]
        split_ifs with e
        · obtain rfl : j = i := by simpa using e
          exact ⟨rfl, Finset.Subset.refl _⟩
        · exact h j)
    exact ⟨r, hr, hf, Finset.Subset.trans Finset.subset_union_left hk⟩

/-- Removing pairs of equal labels from both sides. -/
theorem sides_drop {f : Index → Index} {d : Tensor → Bool} : ∀ (ts : List Tensor) (m : List (OBlock Index)),
    m.map Prod.snd = (ts.map fun t => pairBlock t.pair) →
    (∀ x ∈ ts, d x = true → ∃ u l, x.upper.list = [u] ∧ x.lower.list = [l] ∧ f u = f l) →
    ∃ (m' : List (OBlock Index)) (c : List Index), m'.map Prod.snd = (((ts.filter fun x => !d x).map (Tensor.relabel f)).map fun t => pairBlock t.pair) ∧
      ((sideA m).map f).Perm (c ++ sideA m') ∧ ((sideB m).map f).Perm (c ++ sideB m')
  | [], m, hm, _ => by
    obtain rfl : m = [] := by simpa using hm
    exact ⟨[], [], rfl, by simp [sideA], by simp [sideB]⟩
  | x :: ts, m, hm, h => by
    rw [List.map_cons] at hm
    obtain ⟨w, m, rfl, hm'⟩ := split_block hm
    obtain ⟨m', c, h1, h2, h3⟩ := sides_drop ts m hm' fun y hy => h y (by simp [hy])
    cases hd : d x with
    | true =>
      obtain ⟨u, l, hu, hl, e⟩ := h x (by simp) hd
      refine ⟨m', f u :: c, by rw [h1]; simp [hd], ?_, ?_⟩
      · rw [sideA_cons, List.map_append]
        have : (if w = true then (pairBlock x.pair).2 else (pairBlock x.pair).1).map f = [f u] := by
          unfold pairBlock
          cases w
          · simp only [Bool.false_eq_true, if_false]
            show x.lower.list.map f = _
            rw [hl, e]; rfl
          · simp only [if_true]
            show x.upper.list.map f = _
            rw [hu]; rfl
        simp only [this]
        exact h2.cons _
      · rw [sideB_cons, List.map_append]
        have : (if w = true then (pairBlock x.pair).1 else (pairBlock x.pair).2).map f = [f u] := by
          unfold pairBlock
          cases w
          · simp only [Bool.false_eq_true, if_false]
            show x.upper.list.map f = _
            rw [hu]; rfl
          · simp only [if_true]
            show x.lower.list.map f = _
            rw [hl, e]; rfl
        simp only [this]
        exact h3.cons _
    | false =>
      refine ⟨(w, mapBlock f (pairBlock x.pair)) :: m', c, ?_, ?_, ?_⟩
      · simp [hd, h1]; rfl
      · rw [sideA_cons, sideA_cons, List.map_append]
        have : (if w = true then (mapBlock f (pairBlock x.pair)).2 else (mapBlock f (pairBlock x.pair)).1) =
            (if w = true then (pairBlock x.pair).2 else (pairBlock x.pair).1).map f := by cases w <;> rfl
        simp only [this]
        exact (h2.append_left _).trans (by rw [← List.append_assoc, ← List.append_assoc]; exact List.perm_append_comm.append_right _)
      · rw [sideB_cons, sideB_cons, List.map_append]
        have : (if w = true then (mapBlock f (pairBlock x.pair)).1 else (mapBlock f (pairBlock x.pair)).2) =
            (if w = true then (pairBlock x.pair).1 else (pairBlock x.pair).2).map f := by cases w <;> rfl
        simp only [this]
        exact (h3.append_left _).trans (by rw [← List.append_assoc, ← List.append_assoc]; exact List.perm_append_comm.append_right _)

theorem TwoSided.drop {f : Index → Index} {d : Tensor → Bool} {ts : List Tensor} {op : SqOp} (h : TwoSided ts op)
    (hd : ∀ x ∈ ts, d x = true → ∃ u l, x.upper.list = [u] ∧ x.lower.list = [l] ∧ f u = f l) :
    TwoSided ((ts.filter fun x => !d x).map (Tensor.relabel f)) (op.relabel f) := by
  obtain ⟨obs, h1, h2⟩ := h
  obtain ⟨w, m, rfl, h3⟩ := split_block h1
  obtain ⟨m', c, k1, k2, k3⟩ := sides_drop ts m h3 hd
  refine ⟨(w, mapBlock f (pairBlock op)) :: m', by rw [List.map_cons, k1]; rfl, ?_⟩
  have h4 := h2.map f
  rw [sideA_cons, sideB_cons, List.map_append, List.map_append] at h4
  rw [sideA_cons, sideB_cons]
  have e1 : (if w = true then (mapBlock f (pairBlock op)).2 else (mapBlock f (pairBlock op)).1) =
      (if w = true then (pairBlock op).2 else (pairBlock op).1).map f := by cases w <;> rfl
  have e2 : (if w = true then (mapBlock f (pairBlock op)).1 else (mapBlock f (pairBlock op)).2) =
      (if w = true then (pairBlock op).1 else (pairBlock op).2).map f := by cases w <;> rfl
  simp only [e1, e2] at h4 ⊢
  have h5 := ((k2.append_left _).symm.trans h4).trans (k3.append_left _)
  rw [← List.append_assoc, ← List.append_assoc] at h5
  have h6 := ((List.perm_append_comm.append_right _).trans h5).trans (List.perm_append_comm.append_right _)
  rw [List.append_assoc, List.append_assoc] at h6
  exact (List.perm_append_left_iff _).1 h6

theorem lookupIn_total {keys : Finset Index} {f : Index → Index} {l : List Index} (h : ∀ i ∈ l, i ∈ keys) :
    ∀ i ∈ l, lookupIn keys f i = .ok (f i) := fun i hi => by unfold lookupIn; rw [if_pos (h i hi)]

/-- `simplify` succeeds on two-sided terms, and keeps them two-sided. -/
theorem Term.simplify_total {ty : IType} {ord : SetOrder} (hord : ord.Lawful) {t : Term} (removeActive : Bool) (hw : t.WF)
    (hdiag : t.diag ⊆ diagonalOf t.tensors t.sqOp) (hp : Paired t.tensors t.sqOp) (hs : SoundTermOf ty t.tensors t.sqOp)
    (hov : ∀ x ∈ t.tensors, Overlapping x) (hkeep : ∃ x ∈ t.tensors, x.isDensity = false) :
    ∃ s, t.simplify ord true removeActive = .ok s ∧ (s.isVoid = false → SoundTermOf ty s.tensors s.sqOp) ∧ (s.isVoid = false → ∀ x ∈ s.tensors, LowTensor x) ∧
      (s.isVoid = false → ∃ x ∈ s.tensors, x.isDensity = false) := by
  classical
  have hbeta : ∀ x ∈ t.tensors, ty = .spinOrbital → ∀ i ∈ x.pair.indices, i.isBeta = false :=
    fun x hx hso i hi => hs.beta hso i (mem_labelList.2 (Or.inr ⟨x, hx, hi⟩))
  obtain ⟨cu, hcu, hf1⟩ := downgradeCumulants_total (diag := t.diag) t.tensors ⟨id, t.nextNum, fun i => {i}⟩ hs.tensor hov hbeta hp.active
    (fun i => Fine.refl i)
  have hE := hp.merged
  obtain ⟨-, c2, -, c4⟩ := downgradeCumulants_shape (keys := t.indicesSet) hE t.tensors _ cu
    ⟨fun i _ j _ e => Or.inl e, fun i hi => hw.fresh i hi, fun i hi => hw.fresh i hi⟩
    (hp.apart.imp fun hab ha hb => hab (by simp [Tensor.isDensity, ha]) (by simp [Tensor.isDensity, hb])) hcu
  obtain ⟨de, hde, hf2, hrd⟩ := removeDeltas_total (ty := ty) (diag := t.diag) cu.2 ⟨cu.1.repl, cu.1.next, fun i => {i}⟩ (by
    intro x hx hk
    obtain ⟨a, ha, hP, hQ, -⟩ := forall₂_mem c4 hx
    have hsa := hs.tensor a ha
    have hact := hQ.1 hk
    have hu : x.upper = a.upper := by show x.pair.upper = _; rw [hP]
    have hl : x.lower = a.lower := by show x.pair.lower = _; rw [hP]
    refine ⟨⟨by rw [hu]; exact hsa.upper, by rw [hl]; exact hsa.lower, by rw [hu, hl]; exact hsa.len, by rw [hu]; exact hsa.pos, ?_, ?_,
      by rw [hu, hl]; exact hsa.spin⟩, ?_, ?_⟩
    · intro _
      rw [hu]
      rcases hact with h | ⟨-, -, u, l, h, -⟩
      · exact hsa.one (Or.inr h)
      · rw [h]; rfl
    · intro h; rw [hk] at h; cases h
    · intro h; rw [hk] at h; cases h
    · intro _ u l h1 h2
      rw [hu] at h1
      rw [hl] at h2
      rcases hact with h | ⟨-, h, -⟩
      · exact (hov a ha).kronecker h u l h1 h2
      · exact density_overlap _ _ ((hov a ha).cumulant h u l h1 h2)) hf1
  have houter : ∀ x ∈ t.tensors, x.isDensity = true → ∀ i ∈ x.pair.indices, i ∈ outerList t.tensors t.sqOp := by
    intro x hx hd i hi
    unfold outerList
    exact List.mem_append_right _ (List.mem_flatMap.2 ⟨x, List.mem_filter.2 ⟨hx, hd⟩, hi⟩)
  have hdgo : ∀ i, i ∈ outerList t.tensors t.sqOp → i ∉ t.diag := by
    intro i hi hd; exact hp.diag (hdiag hd) hi
  have hderd : ∀ i ∈ t.diag, de.1.rdiag i = {i} := by
    intro i hi
    refine hrd i ?_
    intro x hx hk hix
    obtain ⟨a, ha, hP, hQ, -⟩ := forall₂_mem c4 hx
    rw [hP] at hix
    exact hdgo i (houter a ha (hQ.1 hk).isDensity i hix) hi
  have hdiagrd : ∀ i ∈ ord.indices t.diag, cu.1.rdiag i ∪ de.1.rdiag i = {i} := by
    intro i hi
    rw [hord.mem_indices] at hi
    have h1 : cu.1.rdiag i = {i} := (c2 i fun x hx hc _ hix => hdgo i (houter x hx (by simp [Tensor.isDensity, hc]) i hix) hi).2
    rw [h1, hderd i hi, Finset.union_idempotent]
  obtain ⟨st, hlo, hf3, hkeys⟩ := diagonalLoop_total hord (rd := fun i => cu.1.rdiag i ∪ de.1.rdiag i) (ord.indices t.diag)
    (de.1.repl, de.1.next, t.indicesSet) hdiagrd hf2
  obtain ⟨htidy, hone, hfil, hlow, -, -⟩ := Term.simplify_stage hord hw hdiag hp hcu hde hlo
  have hin : ∀ i ∈ labelList t.tensors t.sqOp, i ∈ st.2.2 := fun i hi => hkeys (hw.set_sub (mem_labelsOf.2 hi))
  -- the relabelled term is sound
  have hsub : ∀ x ∈ de.2, x ∈ t.tensors := by intro x hx; rw [hfil] at hx; exact (List.mem_filter.1 hx).1
  have hsound : SoundTermOf ty (de.2.map (Tensor.relabel st.1)) (t.sqOp.relabel st.1) := by
    refine ⟨?_, hs.upper, hs.upper, ?_, ?_, htidy.two, ?_⟩
    · intro y hy
      obtain ⟨x, hx, rfl⟩ := List.mem_map.1 hy
      exact (hs.tensor x (hsub x hx)).relabel fun i _ => hf3 i
    · simpa [IndicesPair.relabel] using hs.bal
    · intro hso j hj
      rw [labelList_relabel'] at hj
      obtain ⟨i, hi, rfl⟩ := List.mem_map.1 hj
      have hi' : i ∈ labelList t.tensors t.sqOp := by
        rw [mem_labelList] at hi ⊢
        rcases hi with hi | ⟨x, hx, hi⟩
        · exact Or.inl hi
        · exact Or.inr ⟨x, hsub x hx, hi⟩
      have := hs.beta hso i hi'
      unfold Index.isBeta at this ⊢
      rw [(hf3 i).1]; exact this
    · have := hs.sided.drop (f := st.1) (d := fun x => decide (ActsAsDelta true x)) fun x hx hd => hone x hx (by simpa using hd)
      rw [hfil]
      simpa using this
  have hnd : ∀ b ∈ termBlocks (de.2.map (Tensor.relabel st.1)) (t.sqOp.relabel st.1), b.1.Nodup ∧ b.2.Nodup := fun b hb => hsound.nodup hb
  have hopl : ∀ i ∈ t.sqOp.upper.list ++ t.sqOp.lower.list, i ∈ labelList t.tensors t.sqOp := fun i hi => mem_labelList.2 (Or.inl hi)
  have hop : replaceSqOp (lookupIn st.2.2 st.1) t.sqOp = .ok (t.sqOp.relabel st.1) := by
    obtain ⟨n1, n2⟩ := hnd (pairBlock (t.sqOp.relabel st.1)) (by unfold termBlocks; simp)
    have hbt : ty = .spinOrbital → ∀ i ∈ (t.sqOp.relabel st.1).upper.list ++ (t.sqOp.relabel st.1).lower.list, i.isBeta = false :=
      fun hso i hi => hsound.beta hso i (mem_labelList.2 (Or.inl hi))
    unfold replaceSqOp
    rw [bind_ok_of (mapM_ok_of_forall (lookupIn_total fun i hi => hin i (hopl i (List.mem_append_left _ hi)))), hs.upper,
      bind_ok_of (show Indices.make ty (List.map st.1 t.sqOp.upper.list) = _ from Indices.make_of n2 fun hso i hi => hbt hso i (List.mem_append_left _ hi)),
      bind_ok_of (mapM_ok_of_forall (lookupIn_total fun i hi => hin i (hopl i (List.mem_append_right _ hi)))),
      bind_ok_of (show Indices.make ty (List.map st.1 t.sqOp.lower.list) = _ from Indices.make_of n1 fun hso i hi => hbt hso i (List.mem_append_right _ hi))]
    unfold IndicesPair.make
    rw [if_neg (by simp)]
    unfold IndicesPair.relabel
    rw [hs.upper]
  have htens : ∀ x ∈ de.2, replaceTensor (lookupIn st.2.2 st.1) x = .ok (x.relabel st.1) := by
    intro x hx
    have hy : x.relabel st.1 ∈ de.2.map (Tensor.relabel st.1) := List.mem_map_of_mem hx
    obtain ⟨n1, n2⟩ := hnd (pairBlock (x.relabel st.1).pair) (by unfold termBlocks; exact List.mem_cons_of_mem _ (List.mem_map_of_mem hy))
    have hbt : ty = .spinOrbital → ∀ i ∈ (x.relabel st.1).pair.indices, i.isBeta = false := fun hso i hi => hsound.beta hso i (mem_labelList.2 (Or.inr ⟨_, hy, hi⟩))
    have hxl : ∀ i ∈ x.pair.indices, i ∈ labelList t.tensors t.sqOp := fun i hi => mem_labelList.2 (Or.inr ⟨x, hsub x hx, hi⟩)
    have hu := (hs.tensor x (hsub x hx)).upper
    unfold replaceTensor
    rw [bind_ok_of (mapM_ok_of_forall (lookupIn_total fun i hi => hin i (hxl i (List.mem_append_left _ hi)))), hu,
      bind_ok_of (show Indices.make ty (List.map st.1 x.pair.upper.list) = _ from Indices.make_of n2 fun hso i hi => hbt hso i (List.mem_append_left _ hi)),
      bind_ok_of (mapM_ok_of_forall (lookupIn_total fun i hi => hin i (hxl i (List.mem_append_right _ hi)))),
      bind_ok_of (show Indices.make ty (List.map st.1 x.pair.lower.list) = _ from Indices.make_of n1 fun hso i hi => hbt hso i (List.mem_append_right _ hi))]
    have := (hsound.tensor _ hy).make hbt
    have e1 : (x.relabel st.1).upper = ⟨ty, x.upper.list.map st.1⟩ := by
      show (⟨x.upper.ty, _⟩ : Indices) = _
      rw [hu]
    have e2 : (x.relabel st.1).lower = ⟨ty, x.lower.list.map st.1⟩ := by
      show (⟨x.upper.ty, _⟩ : Indices) = _
      rw [hu]
    rw [e1, e2] at this
    exact this
  have hkeep' : ∃ x ∈ de.2, x.isDensity = false := by
    obtain ⟨x, hx, hd⟩ := hkeep
    refine ⟨x, ?_, hd⟩
    rw [hfil, List.mem_filter]
    refine ⟨hx, decide_eq_true ?_⟩
    intro h
    rw [h.isDensity] at hd; cases hd
  have hts : replaceTensors (lookupIn st.2.2 st.1) de.2 = .ok (de.2.map (Tensor.relabel st.1)) := by
    unfold replaceTensors
    rw [if_neg, mapM_ok_of_forall htens]
    obtain ⟨x, hx, -⟩ := hkeep'
    exact fun h => absurd (List.length_eq_zero_iff.1 h) (List.ne_nil_of_mem hx)
  unfold Term.simplify
  rw [bind_ok_of hcu, bind_ok_of hde, bind_ok_of hlo, bind_ok_of hop]
  by_cases hv : (removeActive && de.2.any (allActiveAmplitude st.1)) = true
  · rw [if_pos hv]
    have : (0 : ℚ) < 1 / 10 ^ 15 := by norm_num
    refine ⟨_, rfl, ?_, ?_, ?_⟩ <;>
    · intro h
      simp [Term.isVoid] at h
  · rw [if_neg hv, bind_ok_of hts]
    refine ⟨_, rfl, fun _ => hsound, fun _ y hy hc j hj => ?_, fun _ => ?_⟩
    swap
    · obtain ⟨x, hx, hd⟩ := hkeep'
      exact ⟨x.relabel st.1, List.mem_map_of_mem hx, hd⟩
    obtain ⟨x, hx, rfl⟩ := List.mem_map.1 hy
    have : j ∈ x.pair.indices.map st.1 := by
      unfold IndicesPair.indices at hj ⊢
      rw [List.map_append]; exact hj
    obtain ⟨i, hi, rfl⟩ := List.mem_map.1 this
    exact hlow x hx hc i hi

end Dsrg
