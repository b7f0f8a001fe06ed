import Verif.Lemmas.ReadyTerm

/-!
`canonicalize_simple`, `make_excitation`, `make_one_body_diagonal` and `gradient_t` succeed on the terms of the library.
-/

namespace Dsrg

theorem Term.void_total (t : Term) : ∃ r, t.void = .ok r :=
  ⟨_, Term.make_ok.2 ⟨by simp, by simp [labelList, IndicesPair.void], fun i hi => by
    rw [mem_diagonalOf] at hi
    simp [IndicesPair.void] at hi, rfl⟩⟩

/-- The labels of a relabeled and sorted product. -/
theorem labelList_relabel_canonicalize (f : Index → Index) (ts : List Tensor) (op : SqOp) :
    (labelList (ts.map fun x => (x.relabel f).canonicalize.1) (op.relabel f).canonicalize.1).Perm ((labelList ts op).map f) := by
  have := labelList_canonicalize (ts.map (Tensor.relabel f)) (op.relabel f)
  rw [List.map_map] at this
  refine this.trans ?_
  unfold labelList
  rw [List.map_append, List.map_append, List.flatMap_map, List.map_flatMap]
  simp only [List.map_append]
  exact .refl _

theorem ReadyTerm.canonicalizeSimple {t : Term} (h : ReadyTerm t) {ord : SetOrder} (hord : ord.Lawful) (ra : Bool) :
    ∃ r, t.canonicalizeSimple ord true ra = .ok r := by
  obtain ⟨s, h1, h2, -, h3⟩ := Term.simplify_total hord ra h.wf (by rw [h.diag]; exact Finset.empty_subset _) h.ready.paired h.ready.sound
    h.ready.over h.ready.keep
  have hsub := (Term.simplify_shape h.wf.set_sub h1).1
  unfold Term.canonicalizeSimple
  rw [bind_ok_of h1]
  by_cases hv : s.isVoid = true
  · rw [if_pos hv]; exact s.void_total
  · rw [if_neg hv]
    have hv : s.isVoid = false := by simpa using hv
    have hs := h2 hv
    obtain ⟨x, hx, -⟩ := h3 hv
    obtain ⟨next, hm, hkeys⟩ := minimalIndices_spec s hsub
    have hd : ∀ i ∈ labelsOf s.tensors s.sqOp, dictFind s.minimalIndices i = .ok (dictFun s.minimalIndices i) ∧
        (i, dictFun s.minimalIndices i) ∈ s.minimalIndices := fun i hi => dictFind_ok hm.keys ((hkeys i).2 hi)
    have hinj : ∀ i ∈ labelsOf s.tensors s.sqOp, ∀ j ∈ labelsOf s.tensors s.sqOp, dictFun s.minimalIndices i = dictFun s.minimalIndices j → i = j := by
      intro i hi j hj e
      have := List.inj_on_of_nodup_map hm.vals (hd i hi).2 (hd j hj).2 e
      exact (Prod.mk.inj this).1
    obtain ⟨q, hq⟩ := SoundTerm.relabelIndices hs (by intro e; rw [e] at hx; simp at hx) (fun i hi => (hd i hi).1) hinj fun i hi => by
      have := hm.space _ (hd i hi).2
      unfold Fine
      simp only at this
      rw [this]; exact ⟨rfl, Finset.Subset.refl _⟩
    rw [bind_ok_of hq]
    obtain ⟨e1, e2, -⟩ := relabelIndices_ok hq
    have hlab := labelList_relabel_canonicalize (dictFun s.minimalIndices) s.tensors s.sqOp
    have two : ∀ i ∈ labelList q.2.1 q.2.2, (labelList q.2.1 q.2.2).count i = 2 := by
      rw [e1, e2]
      intro j hj
      rw [hlab.count_eq]
      obtain ⟨i, hi, rfl⟩ := List.mem_map.1 (hlab.mem_iff.1 hj)
      rw [count_map_injOn (fun a ha b hb e => hinj a (mem_labelsOf.2 ha) b (mem_labelsOf.2 hb) e) hi]
      exact hs.two i hi
    refine ⟨_, Term.make_ok.2 ⟨?_, fun i hi _ => two i hi, fun i hi => ?_, rfl⟩⟩
    · intro y hy
      rw [e1] at hy
      obtain ⟨z, hz, rfl⟩ := List.mem_map.1 hy
      rw [e2]
      have a : ((z.relabel (dictFun s.minimalIndices)).canonicalize.1).upper.ty = .spinOrbital := (canonicalize_ty _).trans (hs.tensor z hz).upper
      have b : ((s.sqOp.relabel (dictFun s.minimalIndices)).canonicalize.1).upper.ty = .spinOrbital := (canonicalize_ty _).trans hs.upper
      exact a.trans b.symm
    · have hi' : i ∈ labelList q.2.1 q.2.2 := by
        rw [mem_diagonalOf] at hi
        rcases hi with hi | ⟨x, hx, hi⟩
        · exact mem_labelList.2 (Or.inl (List.mem_append_left _ hi.1))
        · exact mem_labelList.2 (Or.inr ⟨x, hx, List.mem_append_left _ hi.1⟩)
      rw [two i hi']

/-- The labels of the operator are labels of tensors. -/
theorem Ready.labels_of_factors {ts : List Tensor} {op : SqOp} (h : Ready ts op) (i : Index) :
    i ∈ (ts.flatMap fun x => x.pair.indices) ↔ i ∈ labelsOf ts op := by
  obtain ⟨t, ht⟩ := h.make 0
  exact Dsrg.labels_of_factors ht (List.nodup_append.1 h.paired.outer).1 i

theorem Ready.op_nodup {ts : List Tensor} {op : SqOp} (h : Ready ts op) : (op.upper.list ++ op.lower.list).Nodup := (List.nodup_append.1 h.paired.outer).1

/-- Labels of densities are not labels of the operator. -/
theorem Ready.density_apart {ts : List Tensor} {op : SqOp} (h : Ready ts op) {x : Tensor} (hx : x ∈ ts) (hd : x.isDensity = true) {i : Index}
    (hi : i ∈ x.upper.list ++ x.lower.list) : i ∉ op.upper.list ++ op.lower.list := by
  intro ho
  exact (List.nodup_append.1 h.paired.outer).2.2 i ho i (List.mem_flatMap.2 ⟨x, List.mem_filter.2 ⟨hx, hd⟩, hi⟩) rfl

/-- Restricting the operator labels to smaller spaces: the relabeled term can be made and canonicalized. -/
theorem ReadyTerm.restrict {t : Term} (h : ReadyTerm t) {canon : CanonFn} (hcanon : CanonContract canon) {ord : SetOrder} (hord : ord.Lawful)
    {labels : List Index} (hl : labels.Nodup) (hlo : ∀ i ∈ labels, i ∈ t.sqOp.indices) {spaces : List Space} (hlen : labels.length = spaces.length)
    (hsp : ∀ p ∈ labels.zip spaces, p.2.beta = p.1.space.beta ∧ p.2.relation ⊆ p.1.space.relation) :
    ∃ r, (do
      let q ← relabelIndices (dictFind (ddcaMap (t.tensors.flatMap fun x => x.pair.indices) labels spaces 0)) t.tensors t.sqOp
      let u ← Term.make q.2.1 q.2.2 (t.coeff * q.1)
      u.canonicalize canon ord true true true : Except PyErr Term) = .ok r := by
  obtain ⟨k1, k2, k3, -, k5⟩ := ddcaMap_spec (S := labelsOf t.tensors t.sqOp) (order := t.tensors.flatMap fun x => x.pair.indices)
    (labels := labels) (spaces := spaces) 0 h.ready.labels_of_factors hl hlen
  set d := ddcaMap (t.tensors.flatMap fun x => x.pair.indices) labels spaces 0 with hd
  have hfine : ∀ i ∈ labelsOf t.tensors t.sqOp, Fine i (dictFun d i) := by
    intro i hi
    by_cases hil : i ∈ labels
    · have : (i, (dictFun d i).space) ∈ labels.zip spaces := by
        rw [← k2, List.zip_map_right, List.mem_map]
        exact ⟨(i, i), by rw [List.mem_iff_getElem] at hil ⊢; obtain ⟨n, hn, e⟩ := hil; exact ⟨n, by simpa using hn, by simp [e]⟩, rfl⟩
      exact hsp _ this
    · unfold Fine
      rw [k3 i hi hil]; exact ⟨rfl, Finset.Subset.refl _⟩
  obtain ⟨q, hq⟩ := SoundTerm.relabelIndices h.ready.sound (by obtain ⟨x, hx, -⟩ := h.ready.keep; intro e; rw [e] at hx; simp at hx) k5 k1 hfine
  obtain ⟨e1, e2, -⟩ := relabelIndices_ok hq
  have hr : Ready q.2.1 q.2.2 := by
    rw [e1, e2]
    refine h.ready.relabel (fun i hi j hj => k1 i (mem_labelsOf.2 hi) j (mem_labelsOf.2 hj)) (fun i hi => hfine i (mem_labelsOf.2 hi)) ?_
    intro x hx hxd i hi
    refine k3 i (mem_labelsOf.2 (mem_labelList.2 (Or.inr ⟨x, hx, hi⟩))) fun hil => ?_
    exact h.ready.density_apart hx hxd hi (hlo i hil)
  obtain ⟨u, hu⟩ := hr.make (t.coeff * q.1)
  obtain ⟨r, hr'⟩ := (hr.object hu).canonicalize hcanon hord true true
  refine ⟨r, ?_⟩
  rw [bind_ok_of hq, bind_ok_of hu]
  exact hr'

theorem subset_of_mem_relation (s e : Space) (h : e ∈ s.relation) : e.beta = s.beta ∧ e.relation ⊆ s.relation := by
  revert s e; decide +kernel

theorem ReadyTerm.makeOneBodyDiagonal {t : Term} (h : ReadyTerm t) {canon : CanonFn} (hcanon : CanonContract canon) {ord : SetOrder}
    (hord : ord.Lawful) (singleRef : Bool) {cre ann : Index} (hcre : t.sqOp.upper.list = [cre]) (hann : t.sqOp.lower.list = [ann]) :
    ∃ rows, t.makeOneBodyDiagonal canon ord singleRef = .ok rows := by
  have hn : t.sqOp.nBody = .ok 1 := by
    unfold IndicesPair.nBody IndicesPair.nUpper IndicesPair.nLower Indices.size
    rw [hcre, hann]; rfl
  unfold Term.makeOneBodyDiagonal
  rw [bind_ok_of hn]
  rw [hcre, hann]
  show ∃ rows, (List.mapM (t.diagonalRow canon ord cre ann) _ : Except PyErr (List Term)) = .ok rows
  refine mapM_total fun s hs => ?_
  have hs' : s ∈ cre.space.relation ∩ ann.space.relation := by
    have := (hord.mem_spaces _ _).1 hs
    split_ifs at this
    · exact (Finset.mem_filter.1 this).1
    · exact this
  obtain ⟨m1, m2⟩ := Finset.mem_inter.1 hs'
  have hnd := h.ready.op_nodup
  rw [hcre, hann] at hnd
  have hne : cre ≠ ann := by simpa using hnd
  unfold Term.diagonalRow
  refine h.restrict hcanon hord (labels := [ann, cre]) (by simp [hne.symm]) ?_ (spaces := [s, s]) rfl ?_
  · intro i hi
    show i ∈ t.sqOp.upper.list ++ t.sqOp.lower.list
    rw [hcre, hann]
    simp at hi ⊢
    tauto
  · intro p hp
    simp only [List.zip_cons_cons, List.zip_nil_right, List.mem_cons, List.not_mem_nil, or_false] at hp
    rcases hp with rfl | rfl
    · exact subset_of_mem_relation _ _ m2
    · exact subset_of_mem_relation _ _ m1

theorem restrictedSpace_sub {ord : SetOrder} (hord : ord.Lawful) {target s s' : Space} (hb : target.beta = s.beta)
    (h : restrictedSpace ord target s = some s') : s'.beta = s.beta ∧ s'.relation ⊆ s.relation := by
  unfold restrictedSpace at h
  simp only at h
  by_cases h0 : target.relation ∩ s.relation = ∅
  · rw [if_pos h0] at h; cases h
  rw [if_neg h0] at h
  by_cases h1 : target.relation ∩ s.relation = target.relation
  · rw [if_pos h1] at h
    injection h with h
    subst h
    exact ⟨hb, Finset.inter_eq_left.1 h1⟩
  · rw [if_neg h1] at h
    have hs' : s' ∈ target.relation ∩ s.relation := (hord.mem_spaces _ _).1 (List.mem_of_mem_head? h)
    exact subset_of_mem_relation _ _ (Finset.mem_inter.1 hs').2

theorem ReadyTerm.makeExcitation {t : Term} (h : ReadyTerm t) {canon : CanonFn} (hcanon : CanonContract canon) {ord : SetOrder}
    (hord : ord.Lawful) (singleRef : Bool) : ∃ r, t.makeExcitation canon ord singleRef = .ok r := by
  have hbeta : ∀ i ∈ t.sqOp.upper.list ++ t.sqOp.lower.list, i.space.beta = false := fun i hi => h.ready.sound.beta rfl i (mem_labelList.2 (Or.inl hi))
  unfold Term.makeExcitation
  by_cases hp : t.sqOp.isPossibleExcitation = false
  · rw [if_pos hp]; exact t.void_total
  rw [if_neg hp]
  simp only
  cases h1 : (t.sqOp.upper.list.mapM fun i => restrictedSpace ord ⟨if singleRef then .v else .p, false⟩ i.space) with
  | none => exact t.void_total
  | some cre =>
    simp only
    cases h2 : (t.sqOp.lower.list.mapM fun i => restrictedSpace ord ⟨if singleRef then .c else .h, false⟩ i.space) with
    | none => exact t.void_total
    | some ann =>
      simp only
      have f1 := optionMapM_some h1
      have f2 := optionMapM_some h2
      have f3 : List.Forall₂ (fun (i : Index) (s : Space) => s.beta = i.space.beta ∧ s.relation ⊆ i.space.relation)
          (t.sqOp.upper.list ++ t.sqOp.lower.list) (cre ++ ann) := by
        refine List.rel_append ?_ ?_
        · refine forall₂_imp_mem f1 fun i hi s hs => restrictedSpace_sub hord (hbeta i (List.mem_append_left _ hi)).symm hs
        · refine forall₂_imp_mem f2 fun i hi s hs => restrictedSpace_sub hord (hbeta i (List.mem_append_right _ hi)).symm hs
      exact h.restrict hcanon hord (labels := t.sqOp.indices) h.ready.op_nodup (fun i hi => hi) f3.length_eq
        (fun p hp => by
          obtain ⟨i, s⟩ := p
          exact List.forall₂_zip f3 hp)

/-- The amplitude becomes the operator, if the term has no densities. -/
theorem Ready.gradient {ts rest : List Tensor} {op : SqOp} {x : Tensor} (h : Ready ts op) (hp : ts.Perm (x :: rest)) (hu : op.upper.list = [])
    (hnd : ∀ y ∈ ts, y.isDensity = false) : Ready rest ⟨x.lower, x.upper⟩ := by
  have h' := h.perm hp
  have hl : op.lower.list = [] := by
    have := h.sound.bal
    rw [hu] at this
    exact List.eq_nil_of_length_eq_zero this.symm
  have hlab : (labelList rest ⟨x.lower, x.upper⟩).Perm (labelList (x :: rest) op) := by
    unfold labelList
    rw [hu, hl, List.flatMap_cons]
    simp only [List.nil_append]
    exact List.Perm.append_right _ List.perm_append_comm
  have two : ∀ i ∈ labelList rest ⟨x.lower, x.upper⟩, (labelList rest ⟨x.lower, x.upper⟩).count i = 2 := by
    intro i hi
    rw [hlab.count_eq]
    exact h'.sound.two i (hlab.mem_iff.1 hi)
  have hx := h'.sound.tensor x (by simp)
  have hdis : ∀ i, ¬ (i ∈ x.upper.list ∧ i ∈ x.lower.list) := by
    intro i hi
    have := h'.diag
    exact Finset.eq_empty_iff_forall_notMem.1 this i (mem_diagonalOf.2 (Or.inr ⟨x, by simp, hi⟩))
  obtain ⟨n1, n2⟩ := h'.sound.nodup (b := pairBlock x.pair) (by unfold termBlocks; simp)
  have hnd' : ∀ y ∈ x :: rest, y.isDensity = false := fun y hy => hnd y (hp.mem_iff.2 hy)
  have hxn : (x.lower.list ++ x.upper.list).Nodup :=
    List.nodup_append.2 ⟨n1, n2, fun a ha b hb e => hdis a ⟨e ▸ hb, ha⟩⟩
  refine ⟨⟨?_, hx.lower, hx.upper, hx.len.symm, ?_, two, ?_⟩, ⟨two, ?_, ?_⟩, ?_, ?_, ?_, ?_⟩
  · exact fun y hy => h'.sound.tensor y (by simp [hy])
  · exact fun _ i hi => h'.sound.beta rfl i (hlab.mem_iff.1 hi)
  · obtain ⟨obs, h1, h2⟩ := h'.sound.sided
    obtain ⟨w, m, rfl, h3⟩ := split_block h1
    obtain ⟨w', m', rfl, h4⟩ := split_block h3
    refine ⟨(!w', pairBlock ⟨x.lower, x.upper⟩) :: m', by rw [List.map_cons, h4]; rfl, ?_⟩
    rw [sideA_cons, sideB_cons, sideA_cons, sideB_cons] at h2
    rw [sideA_cons, sideB_cons]
    have e : ∀ b : Bool, (if b = true then (pairBlock op).2 else (pairBlock op).1) = [] := by
      intro b
      cases b
      · exact hl
      · exact hu
    have e' : ∀ b : Bool, (if b = true then (pairBlock op).1 else (pairBlock op).2) = [] := by
      intro b
      cases b
      · exact hu
      · exact hl
    simp only [e, e', List.nil_append] at h2
    cases w' <;> exact h2
  · unfold outerList
    have : rest.filter Tensor.isDensity = [] := by
      rw [List.filter_eq_nil_iff]
      intro y hy
      rw [hnd' y (by simp [hy])]; simp
    rw [this]
    simpa using hxn
  · exact fun y hy => h'.paired.active y (by simp [hy])
  · exact fun y hy => h'.over y (by simp [hy])
  · obtain ⟨i, is, hi⟩ := List.exists_cons_of_ne_nil hx.pos
    have hmem : i ∈ x.upper.list := by rw [hi]; simp
    have hc := two i (by rw [mem_labelList]; exact Or.inl (List.mem_append_right _ hmem))
    have hone : (x.lower.list ++ x.upper.list).count i = 1 := List.count_eq_one_of_mem hxn (List.mem_append_right _ hmem)
    have : 0 < (rest.flatMap fun y => y.upper.list ++ y.lower.list).count i := by
      unfold labelList at hc
      rw [List.count_append] at hc
      simp only at hc
      omega
    obtain ⟨y, hy, -⟩ := List.mem_flatMap.1 (List.count_pos_iff.1 this)
    exact ⟨y, hy, hnd' y (by simp [hy])⟩
  · exact fun y hy z hz => h'.kind y (by simp [hy]) z (by simp [hz])
  · rw [Finset.eq_empty_iff_forall_notMem]
    intro i hi
    rw [mem_diagonalOf] at hi
    rcases hi with hi | ⟨y, hy, hi⟩
    · exact hdis i hi.symm
    · exact Finset.eq_empty_iff_forall_notMem.1 h'.diag i (mem_diagonalOf.2 (Or.inr ⟨y, by simp [hy], hi⟩))

theorem dropAt_perm_cons {α : Type} : ∀ {l : List α} {k : Nat} {x : α}, l[k]? = some x → l.Perm (x :: dropAt l k)
  | a :: l, 0, x, h => by
    simp at h; subst h
    simp [dropAt]
  | a :: l, k + 1, x, h => by
    have := dropAt_perm_cons (l := l) (k := k) (x := x) (by simpa using h)
    refine (this.cons a).trans ?_
    exact List.Perm.swap x a _

theorem ReadyTerm.gradientT {t : Term} (h : ReadyTerm t) {canon : CanonFn} (hcanon : CanonContract canon) {ord : SetOrder} (hord : ord.Lawful)
    (hu : t.sqOp.upper.list = []) (hnd : ∀ x ∈ t.tensors, x.isDensity = false) : ∃ rows, t.gradientT canon ord = .ok rows := by
  have hl : t.sqOp.lower.list = [] := by
    have := h.ready.sound.bal
    rw [hu] at this
    exact List.eq_nil_of_length_eq_zero this.symm
  have hn : t.sqOp.nBody = .ok 0 := by
    unfold IndicesPair.nBody IndicesPair.nUpper IndicesPair.nLower Indices.size
    rw [hu, hl]; rfl
  unfold Term.gradientT
  rw [bind_ok_of hn]
  show ∃ rows, (List.mapM _ _ : Except PyErr (List Term)) = .ok rows
  refine mapM_total fun e he => ?_
  obtain ⟨x, k⟩ := e
  have hk : (t.tensors.filter fun x => decide (x.cls = .cluster))[k]? = some x := List.mk_mem_zipIdx_iff_getElem?.1 he
  have hperm : t.tensors.Perm (x :: ((t.tensors.filter fun x => !decide (x.cls = .cluster)) ++
      dropAt (t.tensors.filter fun x => decide (x.cls = .cluster)) k)) := by
    refine (List.filter_append_perm (fun x : Tensor => decide (x.cls = .cluster)) t.tensors).symm.trans ?_
    refine (List.Perm.append_right _ (dropAt_perm_cons hk)).trans ?_
    exact (List.perm_append_comm).cons x
  have hr := h.ready.gradient hperm hu hnd
  have hx := h.ready.sound.tensor x (hperm.mem_iff.2 (by simp))
  have hop : IndicesPair.make x.lower x.upper = .ok ⟨x.lower, x.upper⟩ := by
    unfold IndicesPair.make
    rw [if_neg (by rw [hx.upper, hx.lower]; simp)]
  obtain ⟨u, hu'⟩ := hr.make t.coeff
  obtain ⟨r, hr'⟩ := (hr.object hu').canonicalize hcanon hord true true
  refine ⟨r, ?_⟩
  unfold Term.gradientRow
  rw [bind_ok_of hop, bind_ok_of hu']
  exact hr'

end Dsrg
