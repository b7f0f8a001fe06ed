import Verif.Lemmas.SpinCases
import Verif.Lemmas.DistinctTerms

/-!
`generate_spin_cases_naive` succeeds on the terms of the library, and no spin labeling is left out.
-/

namespace Dsrg

theorem clusterHalf_spin {B : Finset Index} {l : List Index} (h : ClusterHalf (l.map Index.space)) :
    ClusterHalf ((l.map (spinLabel B)).map Index.space) := by
  have key : ∀ P : Kind → Prop, (∃ s ∈ (l.map (spinLabel B)).map Index.space, P s.kind) → ∃ s ∈ l.map Index.space, P s.kind := by
    rintro P ⟨s, hs, hp⟩
    simp only [List.map_map, List.mem_map, Function.comp_apply] at hs
    obtain ⟨i, hi, rfl⟩ := hs
    exact ⟨i.space, List.mem_map_of_mem hi, hp⟩
  refine ⟨fun ⟨h1, h2⟩ => h.1 ⟨key _ h1, key _ h2⟩, fun s hs hg => ?_⟩
  obtain ⟨s', hs', hg'⟩ := key (· = .g) ⟨s, hs, hg⟩
  exact h.2 s' hs' hg'

/-- The spin labelings of a sound term of spin orbitals are sound. -/
theorem SoundTermOf.spin {ts : List Tensor} {op : SqOp} (h : SoundTerm ts op) {B : Finset Index} (hB : IsSpinLabeling ts op B) :
    SoundTermOf .spinIntegrated (ts.map (spinTensor B)) (spinPair B op) where
  tensor y hy := by
    obtain ⟨x, hx, rfl⟩ := List.mem_map.1 hy
    have hx' := h.tensor x hx
    refine ⟨rfl, rfl, ?_, ?_, ?_, ?_, ?_⟩
    · show (x.upper.list.map _).length = (x.lower.list.map _).length
      rw [List.length_map, List.length_map]; exact hx'.len
    · intro e
      exact hx'.pos (List.map_eq_nil_iff.1 e)
    · intro hc
      show (x.upper.list.map _).length = 1
      rw [List.length_map]; exact hx'.one hc
    · intro hc
      exact ⟨clusterHalf_spin (hx'.half hc).1, clusterHalf_spin (hx'.half hc).2⟩
    · intro _
      have := hB.2.2 x hx
      show (x.upper.list.map (spinLabel B)).countP Index.isBeta = (x.lower.list.map (spinLabel B)).countP Index.isBeta
      rw [List.countP_map, List.countP_map]
      exact this
  upper := rfl
  lower := rfl
  bal := by
    show (op.upper.list.map _).length = (op.lower.list.map _).length
    rw [List.length_map, List.length_map]; exact h.bal
  beta e := by cases e
  two j hj := by
    rw [labelList_spin] at hj ⊢
    obtain ⟨i, hi, rfl⟩ := List.mem_map.1 hj
    rw [count_map_injOn (fun a ha b hb e => spinLabel_inj (h.beta rfl a ha) (h.beta rfl b hb) e) hi]
    exact h.two i hi
  sided := by
    obtain ⟨obs, h1, h2⟩ := h.sided
    refine ⟨obs.map (mapOBlock (spinLabel B)), ?_, ?_⟩
    · rw [map_snd_map, h1]
      unfold termBlocks
      rw [List.map_cons, List.map_map, List.map_map]
      rfl
    · rw [sideA_map, sideB_map]
      exact h2.map _

theorem overlap_spin (k k' : Kind) (b : Bool) : (downgradeDensity .v .h ⟨k, false⟩ ⟨k', false⟩ ≠ none → downgradeDensity .v .h ⟨k, b⟩ ⟨k', b⟩ ≠ none) ∧
    ((Space.relation ⟨k, false⟩ ∩ Space.relation ⟨k', false⟩).card ≠ 0 → (Space.relation ⟨k, b⟩ ∩ Space.relation ⟨k', b⟩).card ≠ 0) := by
  revert k k' b; decide +kernel

theorem Overlapping.spin {x : Tensor} (h : Overlapping x) {B : Finset Index} (hal : ∀ i ∈ x.pair.indices, i.isBeta = false)
    (hB : ConservesSpin B x.pair) : Overlapping (spinTensor B x) := by
  have key : ∀ u' l', (spinTensor B x).upper.list = [u'] → (spinTensor B x).lower.list = [l'] → ∃ u l, x.upper.list = [u] ∧ x.lower.list = [l] ∧
      ∃ b, u'.space = ⟨u.space.kind, b⟩ ∧ l'.space = ⟨l.space.kind, b⟩ ∧ u.space = ⟨u.space.kind, false⟩ ∧ l.space = ⟨l.space.kind, false⟩ := by
    intro u' l' hu hl
    have hu : x.upper.list.map (spinLabel B) = [u'] := hu
    have hl : x.lower.list.map (spinLabel B) = [l'] := hl
    obtain ⟨u, eu, rfl⟩ := List.map_eq_singleton_iff.1 hu
    obtain ⟨l, el, rfl⟩ := List.map_eq_singleton_iff.1 hl
    have h1 := hal u (List.mem_append_left _ (by show u ∈ x.upper.list; rw [eu]; simp))
    have h2 := hal l (List.mem_append_right _ (by show l ∈ x.lower.list; rw [el]; simp))
    have hc : (x.upper.list.countP fun i => decide (i ∈ B)) = x.lower.list.countP fun i => decide (i ∈ B) := hB
    rw [eu, el] at hc
    refine ⟨u, l, eu, el, decide (u ∈ B), rfl, ?_, ?_, ?_⟩
    · have : decide (l ∈ B) = decide (u ∈ B) := by
        by_cases hu : u ∈ B <;> by_cases hl : l ∈ B <;> simp_all [List.countP_cons]
      show (⟨l.space.kind, decide (l ∈ B)⟩ : Space) = _
      rw [this]
    · obtain ⟨⟨k, b⟩, n⟩ := u; simp only [Index.isBeta] at h1; subst h1; rfl
    · obtain ⟨⟨k, b⟩, n⟩ := l; simp only [Index.isBeta] at h2; subst h2; rfl
  refine ⟨fun hc u' l' hu hl => ?_, fun hc u' l' hu hl => ?_⟩
  · obtain ⟨u, l, eu, el, b, e1, e2, e3, e4⟩ := key u' l' hu hl
    rw [e1, e2]
    refine (overlap_spin _ _ b).1 ?_
    rw [← e3, ← e4]
    exact h.cumulant hc u l eu el
  · obtain ⟨u, l, eu, el, b, e1, e2, e3, e4⟩ := key u' l' hu hl
    rw [e1, e2]
    refine (overlap_spin _ _ b).2 ?_
    rw [← e3, ← e4]
    exact h.kronecker hc u l eu el

theorem Paired.spin {ts : List Tensor} {op : SqOp} (h : Paired ts op) (B : Finset Index) (hal : ∀ i ∈ labelList ts op, i.isBeta = false) :
    Paired (ts.map (spinTensor B)) (spinPair B op) := by
  have hinj : ∀ a ∈ labelList ts op, ∀ b ∈ labelList ts op, spinLabel B a = spinLabel B b → a = b :=
    fun a ha b hb e => spinLabel_inj (hal a ha) (hal b hb) e
  refine ⟨?_, ?_, ?_⟩
  · intro j hj
    rw [labelList_spin] at hj ⊢
    obtain ⟨i, hi, rfl⟩ := List.mem_map.1 hj
    rw [count_map_injOn hinj hi]
    exact h.two i hi
  · have e : outerList (ts.map (spinTensor B)) (spinPair B op) = (outerList ts op).map (spinLabel B) := by
      unfold outerList
      rw [List.map_append, List.map_append]
      congr 1
      rw [List.filter_map, List.flatMap_map, List.map_flatMap]
      have : (Tensor.isDensity ∘ spinTensor B) = Tensor.isDensity := rfl
      rw [this]
      congr 1
      funext x
      rw [List.map_append]; rfl
    rw [e]
    refine h.outer.map_on fun a ha b hb e => hinj a ?_ b ?_ e
    · unfold outerList at ha
      rcases List.mem_append.1 ha with ha | ha
      · exact mem_labelList.2 (Or.inl ha)
      · obtain ⟨x, hx, hi⟩ := List.mem_flatMap.1 ha
        exact mem_labelList.2 (Or.inr ⟨x, (List.mem_filter.1 hx).1, hi⟩)
    · unfold outerList at hb
      rcases List.mem_append.1 hb with hb | hb
      · exact mem_labelList.2 (Or.inl hb)
      · obtain ⟨x, hx, hi⟩ := List.mem_flatMap.1 hb
        exact mem_labelList.2 (Or.inr ⟨x, (List.mem_filter.1 hx).1, hi⟩)
  · intro y hy hc hn j hj
    obtain ⟨x, hx, rfl⟩ := List.mem_map.1 hy
    have hj' : j ∈ (x.upper.list ++ x.lower.list).map (spinLabel B) := by rw [List.map_append]; exact hj
    obtain ⟨i, hi, rfl⟩ := List.mem_map.1 hj'
    refine h.active x hx hc ?_ i hi
    have hn : (x.upper.list.map (spinLabel B)).length ≠ 1 := hn
    rwa [List.length_map] at hn

/-- Every spin labeling is built and canonicalized without an exception. -/
theorem spinRow_total {canon : CanonFn} (hcanon : CanonContract canon) {ord : SetOrder} (hord : ord.Lawful) {ts : List Tensor} {op : SqOp} (c : ℚ)
    (hs : SoundTerm ts op) (hp : Paired ts op) (hov : ∀ x ∈ ts, Overlapping x) (hkeep : ∃ x ∈ ts, x.isDensity = false)
    (hkind : ∀ x ∈ ts, ∀ y ∈ ts, x.name = y.name → x.cls = y.cls) (hd : diagonalOf ts op = ∅) {B : Finset Index} (hB : IsSpinLabeling ts op B) :
    ∃ r, spinRow canon ord c (spinPair B op) (ts.map (spinTensor B)) = .ok r := by
  have hal : ∀ i ∈ labelList ts op, i.isBeta = false := hs.beta rfl
  obtain ⟨t, ht, htd⟩ := spin_make (B := B) hal (fun i hi _ => hp.two i hi) (by rw [hd]; simp) c
  rw [hd, Finset.image_empty] at htd
  have hw := Term.wf_of_make ht
  have ht' := ht
  obtain ⟨-, -, -, e⟩ := Term.make_ok.1 ht
  have hperm : t.tensors.Perm (ts.map (spinTensor B)) := by rw [e]; exact sortTensors_perm _
  have hop : t.sqOp = spinPair B op := by rw [e]
  have hs' := (hs.spin hB).perm hperm.symm
  have hp' := (hp.spin B hal).perm hperm.symm
  rw [← hop] at hs' hp'
  obtain ⟨s, h1, h2, -, -⟩ := Term.simplify_total hord true hw (by rw [htd]; exact Finset.empty_subset _) hp' hs'
    (by
      intro y hy
      obtain ⟨x, hx, rfl⟩ := List.mem_map.1 (hperm.mem_iff.1 hy)
      exact (hov x hx).spin (fun i hi => hal i (mem_labelList.2 (Or.inr ⟨x, hx, hi⟩))) (hB.2.2 x hx))
    (by
      obtain ⟨x, hx, hxd⟩ := hkeep
      exact ⟨_, hperm.mem_iff.2 (List.mem_map_of_mem hx), hxd⟩)
  obtain ⟨f, horigin, -⟩ := Term.simplify_origin h1
  obtain ⟨r, hr, -⟩ := Term.canonicalizeSympy_total rfl hcanon true h1 (Term.simplify_shape hw.set_sub h1).1 h2 (by
    intro x hx y hy e
    obtain ⟨x', hx', -, rfl⟩ := horigin x hx
    obtain ⟨y', hy', -, rfl⟩ := horigin y hy
    obtain ⟨x'', hx'', rfl⟩ := List.mem_map.1 (hperm.mem_iff.1 hx')
    obtain ⟨y'', hy'', rfl⟩ := List.mem_map.1 (hperm.mem_iff.1 hy')
    exact hkind x'' hx'' y'' hy'' e)
  refine ⟨r, ?_⟩
  unfold spinRow
  rw [bind_ok_of ht']
  unfold Term.canonicalize
  rw [if_neg (by rw [htd]; simp)]
  exact hr

/-- The call returns. -/
theorem spinCases_total {canon : CanonFn} (hcanon : CanonContract canon) {ord : SetOrder} (hord : ord.Lawful) {t : Term}
    (hs : SoundTerm t.tensors t.sqOp) (hp : Paired t.tensors t.sqOp) (hov : ∀ x ∈ t.tensors, Overlapping x) (hkeep : ∃ x ∈ t.tensors, x.isDensity = false)
    (hkind : ∀ x ∈ t.tensors, ∀ y ∈ t.tensors, x.name = y.name → x.cls = y.cls) (hd : diagonalOf t.tensors t.sqOp = ∅) :
    ∃ rs, t.generateSpinCasesNaive canon ord = .ok rs := by
  have hal : ∀ i ∈ labelList t.tensors t.sqOp, i.isBeta = false := hs.beta rfl
  have hnd := fun b hb => hs.nodup (b := b) hb
  have hpair : ∀ x : IndicesPair, x.upper.ty = .spinOrbital → x.lower.ty = .spinOrbital → x.upper.list.length = x.lower.list.length →
      pairBlock x ∈ termBlocks t.tensors t.sqOp → (∀ i ∈ x.indices, i.isBeta = false) →
      ∃ cases, x.generateSpinCases true = .ok cases ∧ ∀ p ∈ cases, IsSpinCase x ⟨p.1, p.2⟩ := by
    intro x h1 h2 h3 h4 h5
    obtain ⟨n1, n2⟩ := hnd _ h4
    obtain ⟨cs, e1, -, -, e4⟩ := C14_conserving x h1 h2 ⟨n2, fun _ i hi => h5 i (List.mem_append_left _ hi)⟩
      ⟨n1, fun _ i hi => h5 i (List.mem_append_right _ hi)⟩ _ rfl h3.symm
    refine ⟨cs, e1, fun p hp => ?_⟩
    obtain ⟨⟨a, b⟩, ⟨c, d⟩, e⟩ := (e4 p.1 p.2).1 hp
    exact ⟨a, c, b, d, e⟩
  obtain ⟨cs, h1, h1'⟩ := hpair t.sqOp hs.upper hs.lower hs.bal (by unfold termBlocks; simp) fun i hi => hal i (mem_labelList.2 (Or.inl hi))
  have h2 : (cs.mapM fun p => IndicesPair.make p.1 p.2) = .ok (cs.map fun p => ⟨p.1, p.2⟩) := by
    refine mapM_ok_of_forall fun p hp => ?_
    unfold IndicesPair.make
    rw [if_neg]
    rw [(h1' p hp).uty, (h1' p hp).lty]; simp
  have h3 : ∀ x ∈ t.tensors, ∃ ys, x.generateSpinCases true = .ok ys ∧ ∀ y ∈ ys, IsTensorCase y x := by
    intro x hx
    have hx' := hs.tensor x hx
    obtain ⟨cs, k1, k2⟩ := hpair x.pair hx'.upper hx'.lower hx'.len (by unfold termBlocks; exact List.mem_cons_of_mem _ (List.mem_map_of_mem (f := fun t : Tensor => pairBlock t.pair) hx))
      fun i hi => hal i (mem_labelList.2 (Or.inr ⟨x, hx, hi⟩))
    have k3 : ∀ r ∈ cs, Tensor.make x.cls r.1 r.2 x.name x.priority = .ok ⟨x.cls, x.name, x.priority, ⟨r.1, r.2⟩⟩ := by
      intro r hr
      have hc := k2 r hr
      have hlen : ∀ l l' : List Index, l.map Index.toAlpha = l' → l.length = l'.length := by rintro l l' rfl; simp
      have hu := hlen _ _ hc.upper
      have hl := hlen _ _ hc.lower
      have hsp : ∀ l l' : List Index, l.map Index.toAlpha = l' → ClusterHalf (l'.map Index.space) → ClusterHalf (l.map Index.space) := by
        rintro l l' rfl h
        have key : ∀ P : Kind → Prop, (∃ s ∈ l.map Index.space, P s.kind) → ∃ s ∈ (l.map Index.toAlpha).map Index.space, P s.kind := by
          rintro P ⟨s, hs, hp⟩
          obtain ⟨i, hi, rfl⟩ := List.mem_map.1 hs
          exact ⟨i.toAlpha.space, List.mem_map_of_mem (List.mem_map_of_mem hi), hp⟩
        refine ⟨fun ⟨h1, h2⟩ => h.1 ⟨key _ h1, key _ h2⟩, fun s hs hg => ?_⟩
        obtain ⟨s', hs', hg'⟩ := key (· = .g) ⟨s, hs, hg⟩
        exact h.2 s' hs' hg'
      have hsound : SoundTensorOf .spinIntegrated ⟨x.cls, x.name, x.priority, ⟨r.1, r.2⟩⟩ := by
        refine ⟨hc.uty, hc.lty, ?_, ?_, ?_, ?_, fun _ => hc.beta⟩
        · exact hu.trans (hx'.len.trans hl.symm)
        · intro e
          apply hx'.pos
          apply List.eq_nil_of_length_eq_zero
          have e : r.1.list = [] := e
          have hu : r.1.list.length = x.upper.list.length := hu
          rw [← hu, e]; rfl
        · intro h
          exact hu.trans (hx'.one h)
        · intro h
          exact ⟨hsp _ _ hc.upper (hx'.half h).1, hsp _ _ hc.lower (hx'.half h).2⟩
      exact hsound.make fun e => by cases e
    refine ⟨cs.map fun r => ⟨x.cls, x.name, x.priority, ⟨r.1, r.2⟩⟩, ?_, ?_⟩
    · unfold Tensor.generateSpinCases
      rw [bind_ok_of k1]
      exact mapM_ok_of_forall k3
    · intro y hy
      obtain ⟨r, hr, rfl⟩ := List.mem_map.1 hy
      exact ⟨k2 r hr, rfl, rfl, rfl⟩
  obtain ⟨pools, h4⟩ := mapM_total (l := t.tensors) (ρ := fun x => x.generateSpinCases true) fun x hx => ⟨_, (h3 x hx).choose_spec.1⟩
  have hpools := mapM_ok_forall₂.1 h4
  have h5 : ∀ p ∈ ((cs.map fun p => (⟨p.1, p.2⟩ : SqOp)).flatMap fun op => (pyProduct pools).map fun ts => (op, ts)),
      ∃ o, spinCase canon ord t.coeff p.1 p.2 = .ok o := by
    rintro ⟨op, ts⟩ hp'
    simp only [List.mem_flatMap, List.mem_map, Prod.mk.injEq] at hp'
    obtain ⟨op', ⟨p, hpc, rfl⟩, ts', hts', rfl, rfl⟩ := hp'
    have hop := h1' p hpc
    have hcase : List.Forall₂ IsTensorCase ts' t.tensors := by
      rw [mem_pyProduct] at hts'
      clear h2 h1 h1' h4
      have hall : List.Forall₂ (fun x pool => ∀ y ∈ pool, IsTensorCase y x) t.tensors pools := by
        refine forall₂_imp_mem hpools fun x hx pool hpool => ?_
        obtain ⟨ys, e1, e2⟩ := h3 x hx
        rw [e1] at hpool
        injection hpool with e
        subst e; exact e2
      revert hall hts'
      clear hpools h3
      generalize t.tensors = xs
      intro hts' hall
      induction hts' generalizing xs with
      | nil => cases hall; exact .nil
      | cons hy _ ih =>
        cases hall with
        | cons h1 h2 => exact .cons (h1 _ hy) (ih _ h2)
    show ∃ o, (match spinRow canon ord t.coeff ⟨p.1, p.2⟩ ts' with
      | .ok r => .ok (some r)
      | .error .valueError => .ok none
      | .error e => .error e) = Except.ok o
    cases hm : Term.make ts' ⟨p.1, p.2⟩ t.coeff with
    | ok r =>
      obtain ⟨B, hB, e1, e2⟩ := consistent_of_make hop hcase hd hp.two hm
      have hlab : IsSpinLabeling t.tensors t.sqOp B := by
        refine ⟨hB, ?_, fun x hx => ?_⟩
        · have := hop.beta
          rw [e1, spinPair, nBeta_spin, nBeta_spin] at this
          exact this
        · have hm : spinTensor B x ∈ ts' := by rw [e2]; exact List.mem_map_of_mem hx
          have hcx : ∀ z ∈ ts', z.pair.upper.nBeta = z.pair.lower.nBeta := by
            intro z hz
            obtain ⟨w, -, hw⟩ := forall₂_mem_left hcase hz
            exact hw.1.beta
          have := hcx _ hm
          rw [spinTensor, spinPair, nBeta_spin, nBeta_spin] at this
          exact this
      obtain ⟨r', hr'⟩ := spinRow_total hcanon hord t.coeff hs hp hov hkeep hkind hd hlab
      rw [← e1, ← e2] at hr'
      rw [hr']
      exact ⟨_, rfl⟩
    | error e =>
      have he : e = .valueError := by
        unfold Term.make at hm
        simp only at hm
        have hty : (ts'.any fun x => decide (x.upper.ty ≠ (⟨p.1, p.2⟩ : SqOp).upper.ty)) = false := by
          rw [List.any_eq_false]
          intro z hz
          obtain ⟨w, -, hw⟩ := forall₂_mem_left hcase hz
          have a : z.upper.ty = .spinIntegrated := hw.1.uty
          have b : p.1.ty = .spinIntegrated := hop.uty
          simp [a, b]
        rw [if_neg (by rw [hty]; simp)] at hm
        split_ifs at hm <;> cases hm <;> rfl
      have : spinRow canon ord t.coeff ⟨p.1, p.2⟩ ts' = .error .valueError := by
        unfold spinRow
        rw [hm, he]; rfl
      rw [this]
      exact ⟨_, rfl⟩
  obtain ⟨rows, h6⟩ := mapM_total h5
  unfold Term.generateSpinCasesNaive
  rw [if_neg (not_not.2 hs.upper)]
  show ∃ rs, (_ : Except PyErr (List Term)) = .ok rs
  refine ⟨rows.filterMap id, ?_⟩
  show (t.sqOp.generateSpinCases true >>= _) = _
  rw [bind_ok_of h1, bind_ok_of h2, bind_ok_of h4, bind_ok_of h6]
  rfl

/-- The densities of the terms of the library overlap. -/
theorem NiceTerm.overlapping {t : Term} (h : NiceTerm t) : ∀ x ∈ t.tensors, Overlapping x := by
  intro x hx
  have hbeta := h.2.sound.beta rfl
  refine ⟨fun hc u l hu hl => ?_, fun hc => absurd (Or.inl hc) (h.1.tidy.noDelta x hx)⟩
  have hiu : u ∈ x.pair.indices := List.mem_append_left _ (by show u ∈ x.upper.list; rw [hu]; simp)
  have hil : l ∈ x.pair.indices := List.mem_append_right _ (by show l ∈ x.lower.list; rw [hl]; simp)
  exact low_overlap _ _ (hbeta u (mem_labelList.2 (Or.inr ⟨x, hx, hiu⟩))) (hbeta l (mem_labelList.2 (Or.inr ⟨x, hx, hil⟩)))
    (h.2.low x hx hc u hiu) (h.2.low x hx hc l hil)

end Dsrg
