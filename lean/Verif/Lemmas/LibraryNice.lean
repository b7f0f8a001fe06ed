import Verif.Lemmas.ReadyOps
import Verif.Lemmas.Ddca

/-!
What is known about the terms that a user can build with the library.
-/

namespace Dsrg

theorem sortTensors_sortTensors (ts : List Tensor) : sortTensors (sortTensors ts) = sortTensors ts := by
  refine List.Pairwise.insertionSort_eq ((sortTensors_sorted ts).imp fun {x y} h => ?_)
  rw [h]; rfl

/-- A term is made again from its factors. -/
theorem Term.make_again {ts : List Tensor} {op : SqOp} {c : ℚ} {t : Term} (ht : Term.make ts op c = .ok t) :
    Term.make t.tensors t.sqOp t.coeff = .ok t := by
  obtain ⟨h1, h2, h3, rfl⟩ := Term.make_ok.1 ht
  have hp := sortTensors_perm ts
  refine Term.make_ok.2 ⟨fun x hx => h1 x (hp.mem_iff.1 hx), ?_, ?_, ?_⟩
  · intro i hi hid
    rw [diagonalOf_perm hp] at hid
    rw [(labelList_perm hp op).count_eq]
    exact h2 i ((labelList_perm hp op).mem_iff.1 hi) hid
  · intro i hi
    rw [diagonalOf_perm hp] at hi
    rw [(labelList_perm hp op).count_eq]
    exact h3 i hi
  · simp only [sortTensors_sortTensors, diagonalOf_perm hp, labelsOf_perm hp]

/-- The invariant of the terms of the library. -/
def Fit (t : Term) : Prop := NiceTerm t ∧ Distinct t

/-- Factors of terms of the library. -/
structure FitParts (ts : List Tensor) (op : SqOp) : Prop where
  ready : Ready ts op
  usual : ∀ x ∈ ts, UsualKind x
  noDelta : ∀ x ∈ ts, ¬ ActsAsDelta true x
  low : ∀ x ∈ ts, LowTensor x
  nodup : ∀ x ∈ ts, x.pair.indices.Nodup

theorem Fit.parts {t : Term} (h : Fit t) : FitParts t.tensors t.sqOp := by
  obtain ⟨hn, hd⟩ := h
  obtain ⟨ts, op, c, ht, -, -, -, hdiag, -⟩ := printable_of_nice hn hd
  refine ⟨⟨hn.2.sound, hn.1.tidy.toPaired, hn.overlapping, hn.2.keep, fun x hx y hy e => ((hn.1.kind x hx).consistent (hn.1.kind y hy) e).1, ?_⟩,
    hn.1.kind, hn.1.tidy.noDelta, hn.2.low, hd.2⟩
  obtain ⟨-, -, -, e⟩ := Term.make_ok.1 ht
  rw [e] at hdiag ⊢
  show diagonalOf (sortTensors ts) op = ∅
  rw [diagonalOf_perm (sortTensors_perm ts)]
  exact hdiag

theorem Fit.again {t : Term} (h : Fit t) : Term.make t.tensors t.sqOp t.coeff = .ok t := by
  obtain ⟨-, ⟨ts, op, c, ht⟩, -⟩ := h
  exact Term.make_again ht

theorem Fit.object {t : Term} (h : Fit t) : ReadyTerm t := h.parts.ready.object h.again

theorem FitParts.perm {ts ts' : List Tensor} {op : SqOp} (h : FitParts ts op) (hp : ts.Perm ts') : FitParts ts' op :=
  ⟨h.ready.perm hp, fun x hx => h.usual x (hp.mem_iff.2 hx), fun x hx => h.noDelta x (hp.mem_iff.2 hx), fun x hx => h.low x (hp.mem_iff.2 hx),
    fun x hx => h.nodup x (hp.mem_iff.2 hx)⟩

theorem FitParts.fit {ts : List Tensor} {op : SqOp} (h : FitParts ts op) {c : ℚ} {t : Term} (ht : Term.make ts op c = .ok t) : Fit t := by
  obtain ⟨-, -, -, e⟩ := Term.make_ok.1 ht
  have hp : t.tensors.Perm ts := by rw [e]; exact sortTensors_perm _
  have ho : t.sqOp = op := by rw [e]
  have h' : FitParts t.tensors t.sqOp := ho ▸ h.perm hp.symm
  have hs := h'.ready.sound
  have hnd := h'.ready.op_nodup
  have hb : ∀ i ∈ t.sqOp.upper.list ++ t.sqOp.lower.list, i.isBeta = false := fun i hi => hs.beta rfl i (mem_labelList.2 (Or.inl hi))
  refine ⟨⟨⟨h'.usual, fun x hx => ⟨(hs.tensor x hx).upper, (hs.tensor x hx).lower⟩, ⟨hs.upper, hs.lower, ?_, ?_⟩, ⟨h'.ready.paired, h'.noDelta⟩, hs.bal⟩,
    ⟨hs, h'.low, h'.ready.keep⟩⟩, ⟨ts, op, c, ht⟩, h'.nodup⟩
  · exact ⟨(List.nodup_append.1 hnd).1, fun _ i hi => hb i (List.mem_append_left _ hi)⟩
  · exact ⟨(List.nodup_append.1 hnd).2.1, fun _ i hi => hb i (List.mem_append_right _ hi)⟩

/-- Relabeling. -/
theorem FitParts.relabelWith {ts : List Tensor} {op : SqOp} (h : FitParts ts op) {f : Index → Index} {G : IndicesPair → IndicesPair}
    (hty : ∀ p, (G p).upper.ty = p.upper.ty ∧ (G p).lower.ty = p.upper.ty)
    (hperm : ∀ p, (G p).upper.list.Perm (p.upper.list.map f) ∧ (G p).lower.list.Perm (p.lower.list.map f))
    (hinj : ∀ i ∈ labelList ts op, ∀ j ∈ labelList ts op, f i = f j → i = j) (hf : ∀ i ∈ labelList ts op, Fine i (f i))
    (hden : ∀ x ∈ ts, x.isDensity = true → ∀ i ∈ x.pair.indices, (f i).space = i.space) :
    FitParts (ts.map (Tensor.onPair G)) (G op) := by
  have hts : ∀ x ∈ ts, ∀ i ∈ x.pair.indices, i ∈ labelList ts op := fun x hx i hi => mem_labelList.2 (Or.inr ⟨x, hx, hi⟩)
  refine ⟨h.ready.relabelWith hty hperm hinj hf hden, ?_, ?_, ?_, ?_⟩
  · intro y hy
    obtain ⟨x, hx, rfl⟩ := List.mem_map.1 hy
    exact h.usual x hx
  · intro y hy hd
    obtain ⟨x, hx, rfl⟩ := List.mem_map.1 hy
    rcases hd with hd | ⟨-, hc, u, l, hu, hl, hk⟩
    · exact h.noDelta x hx (Or.inl hd)
    · have hc : x.cls = .cumulant := hc
      obtain ⟨p1, p2⟩ := hperm x.pair
      have p1 : ([u] : List Index).Perm (x.upper.list.map f) := by rw [← hu]; exact p1
      have p2 : ([l] : List Index).Perm (x.lower.list.map f) := by rw [← hl]; exact p2
      obtain ⟨u', e1, e2⟩ := List.map_eq_singleton_iff.1 (List.perm_singleton.1 p1.symm)
      obtain ⟨l', e3, e4⟩ := List.map_eq_singleton_iff.1 (List.perm_singleton.1 p2.symm)
      have hxd : x.isDensity = true := by simp [Tensor.isDensity, hc]
      have m1 : u' ∈ x.pair.indices := List.mem_append_left _ (by show u' ∈ x.upper.list; rw [e1]; simp)
      have m2 : l' ∈ x.pair.indices := List.mem_append_right _ (by show l' ∈ x.lower.list; rw [e3]; simp)
      refine h.noDelta x hx (Or.inr ⟨rfl, hc, u', l', e1, e3, ?_⟩)
      rw [← hden x hx hxd u' m1, ← hden x hx hxd l' m2, e2, e4]
      exact hk
  · intro y hy hc j hj
    obtain ⟨x, hx, rfl⟩ := List.mem_map.1 hy
    have hc : x.cls = .cumulant := hc
    have hxd : x.isDensity = true := by simp [Tensor.isDensity, hc]
    obtain ⟨p1, p2⟩ := hperm x.pair
    have : ∃ i ∈ x.pair.indices, f i = j := by
      rcases List.mem_append.1 hj with hj | hj
      · obtain ⟨i, hi, e⟩ := List.mem_map.1 (p1.mem_iff.1 hj)
        exact ⟨i, List.mem_append_left _ hi, e⟩
      · obtain ⟨i, hi, e⟩ := List.mem_map.1 (p2.mem_iff.1 hj)
        exact ⟨i, List.mem_append_right _ hi, e⟩
    obtain ⟨i, hi, rfl⟩ := this
    rw [hden x hx hxd i hi]
    exact h.low x hx hc i hi
  · intro y hy
    obtain ⟨x, hx, rfl⟩ := List.mem_map.1 hy
    obtain ⟨p1, p2⟩ := hperm x.pair
    have hp : ((G x.pair).upper.list ++ (G x.pair).lower.list).Perm (x.pair.indices.map f) := by
      show List.Perm _ ((x.pair.upper.list ++ x.pair.lower.list).map f)
      rw [List.map_append]
      exact p1.append p2
    exact hp.nodup_iff.2 ((h.nodup x hx).map_on fun a ha b hb e => hinj a (hts x hx a ha) b (hts x hx b hb) e)

/-- Canonicalization. -/
theorem Fit.canonicalizeSympy {t : Term} (h : Fit t) {canon : CanonFn} (hcanon : CanonContract canon) {ord : SetOrder} (hord : ord.Lawful)
    {ra herm : Bool} {r : Term} (hr : t.canonicalizeSympy canon ord true ra herm = .ok r) (h0 : r.coeff ≠ 0) : Fit r := by
  have hp := h.parts
  have ho := h.object
  have hdiag : t.diag = diagonalOf t.tensors t.sqOp := by rw [ho.diag, hp.ready.diag]
  obtain ⟨h1, h2, h3, -⟩ := Term.sympy_origin ho.wf.set_sub hr
  obtain ⟨k1, k2, k3⟩ := Term.canonicalizeSympy_tidy hcanon hord ho.wf hdiag hp.ready.paired hp.ready.sound.bal hp.ready.kind hr
  obtain ⟨w1, w2⟩ := Term.canonicalizeSympy_wf hr
  obtain ⟨s, s1, s2, s3, s4⟩ := Term.simplify_total hord ra ho.wf hdiag.subset hp.ready.paired hp.ready.sound hp.ready.over hp.ready.keep
  obtain ⟨f, horigin, -⟩ := Term.simplify_origin s1
  obtain ⟨r', r1, r2, r3, r4⟩ := Term.canonicalizeSympy_total rfl hcanon herm s1 (Term.simplify_shape ho.wf.set_sub s1).1 s2 (by
    intro x hx y hy e
    obtain ⟨x', hx', -, rfl⟩ := horigin x hx
    obtain ⟨y', hy', -, rfl⟩ := horigin y hy
    exact hp.ready.kind x' hx' y' hy' e)
  obtain rfl : r' = r := by
    have := r1.symm.trans hr
    injection this
  refine ⟨⟨⟨?_, ?_, ⟨h2.trans hp.ready.sound.upper, h3.trans hp.ready.sound.upper, w1, w2⟩, k1, k2⟩, ⟨r2 h0, r3 s3, r4 s4 h0⟩⟩,
    Term.canonicalizeSympy_made hr, k3 hp.nodup ?_⟩
  · intro x hx
    obtain ⟨⟨y, hy, e⟩, -⟩ := h1 x hx
    rw [kind_eq] at e
    have := hp.usual y hy
    unfold UsualKind at this ⊢
    rw [e.1, e.2.1, e.2.2.1]; exact this
  · intro x hx
    exact ⟨((r2 h0).tensor x hx).upper, ((r2 h0).tensor x hx).lower⟩
  · rintro x hx - i hi j hj (e | ⟨y, hy, hd, -⟩)
    · exact e
    · exact absurd hd (hp.noDelta y hy)

theorem Fit.canonicalize {t : Term} (h : Fit t) {canon : CanonFn} (hcanon : CanonContract canon) {ord : SetOrder} (hord : ord.Lawful)
    {ra herm : Bool} {r : Term} (hr : t.canonicalize canon ord true ra herm = .ok r) (h0 : r.coeff ≠ 0) : Fit r := by
  unfold Term.canonicalize at hr
  rw [if_neg (by rw [h.object.diag]; simp)] at hr
  exact h.canonicalizeSympy hcanon hord hr h0

/-- Restricting the operator labels to smaller spaces. -/
theorem Fit.spec {t : Term} (h : Fit t) {order labels : List Index} (ho : ∀ i, i ∈ order ↔ i ∈ labelsOf t.tensors t.sqOp) (hl : labels.Nodup)
    (hlo : ∀ i ∈ labels, i ∈ t.sqOp.indices) {spaces : List Space} (hlen : labels.length = spaces.length) (start : Nat)
    (hsp : ∀ p ∈ labels.zip spaces, p.2.beta = p.1.space.beta ∧ p.2.relation ⊆ p.1.space.relation) {G : IndicesPair → IndicesPair}
    (hty : ∀ p, (G p).upper.ty = p.upper.ty ∧ (G p).lower.ty = p.upper.ty)
    (hperm : ∀ p, (G p).upper.list.Perm (p.upper.list.map (dictFun (ddcaMap order labels spaces start))) ∧
      (G p).lower.list.Perm (p.lower.list.map (dictFun (ddcaMap order labels spaces start)))) :
    FitParts (t.tensors.map (Tensor.onPair G)) (G t.sqOp) := by
  obtain ⟨k1, k2, k3, -, k5⟩ := ddcaMap_spec (S := labelsOf t.tensors t.sqOp) (order := order) (labels := labels) (spaces := spaces) start ho hl hlen
  set d := ddcaMap order labels spaces start with hd
  refine h.parts.relabelWith hty hperm (fun i hi j hj => k1 i (mem_labelsOf.2 hi) j (mem_labelsOf.2 hj)) ?_ ?_
  · intro i hi
    have hi := mem_labelsOf.2 hi
    by_cases hil : i ∈ labels
    · have : (i, (dictFun d i).space) ∈ labels.zip spaces := by
        rw [← k2, List.zip_map_right, List.mem_map]
        exact ⟨(i, i), by rw [List.mem_iff_getElem] at hil ⊢; obtain ⟨n, hn, e⟩ := hil; exact ⟨n, by simpa using hn, by simp [e]⟩, rfl⟩
      exact hsp _ this
    · unfold Fine
      rw [k3 i hi hil]; exact ⟨rfl, Finset.Subset.refl _⟩
  · intro x hx hxd i hi
    refine k3 i (mem_labelsOf.2 (mem_labelList.2 (Or.inr ⟨x, hx, hi⟩))) fun hil => ?_
    exact h.parts.ready.density_apart hx hxd hi (hlo i hil)

theorem Fit.restrict {t : Term} (h : Fit t) {canon : CanonFn} (hcanon : CanonContract canon) {ord : SetOrder} (hord : ord.Lawful)
    {labels : List Index} (hl : labels.Nodup) (hlo : ∀ i ∈ labels, i ∈ t.sqOp.indices) {spaces : List Space} (hlen : labels.length = spaces.length)
    (hsp : ∀ p ∈ labels.zip spaces, p.2.beta = p.1.space.beta ∧ p.2.relation ⊆ p.1.space.relation) {r : Term}
    (hr : (do
      let q ← relabelIndices (dictFind (ddcaMap (t.tensors.flatMap fun x => x.pair.indices) labels spaces 0)) t.tensors t.sqOp
      let u ← Term.make q.2.1 q.2.2 (t.coeff * q.1)
      u.canonicalize canon ord true true true : Except PyErr Term) = .ok r) (h0 : r.coeff ≠ 0) : Fit r := by
  obtain ⟨q, hq, hr⟩ := bind_ok hr
  obtain ⟨u, hu, hr⟩ := bind_ok hr
  obtain ⟨e1, e2, -⟩ := relabelIndices_ok hq
  rw [e1, e2] at hu
  refine Fit.canonicalize (FitParts.fit (h.spec (G := fun p => (p.relabel _).canonicalize.1) h.parts.ready.labels_of_factors hl hlo hlen 0 hsp
    (fun p => ⟨canonicalize_ty _, canonicalize_ty _⟩) (fun p => ⟨canonicalize_perm _, canonicalize_perm _⟩)) hu) hcanon hord hr h0

theorem Term.void_coeff {t r : Term} (h : t.void = .ok r) : r.coeff = 0 := by
  unfold Term.void at h
  obtain ⟨-, -, -, rfl⟩ := Term.make_ok.1 h
  rfl

theorem Fit.makeExcitation {t : Term} (h : Fit t) {canon : CanonFn} (hcanon : CanonContract canon) {ord : SetOrder}
    (hord : ord.Lawful) {singleRef : Bool} {r : Term} (hr : t.makeExcitation canon ord singleRef = .ok r) (h0 : r.coeff ≠ 0) : Fit r := by
  have hbeta : ∀ i ∈ t.sqOp.upper.list ++ t.sqOp.lower.list, i.space.beta = false := fun i hi => h.parts.ready.sound.beta rfl i (mem_labelList.2 (Or.inl hi))
  unfold Term.makeExcitation at hr
  by_cases hp : t.sqOp.isPossibleExcitation = false
  · rw [if_pos hp] at hr; exact absurd (Term.void_coeff hr) h0
  rw [if_neg hp] at hr
  simp only at hr
  cases h1 : (t.sqOp.upper.list.mapM fun i => restrictedSpace ord ⟨if singleRef then .v else .p, false⟩ i.space) with
  | none => rw [h1] at hr; exact absurd (Term.void_coeff hr) h0
  | some cre =>
    rw [h1] at hr
    simp only at hr
    cases h2 : (t.sqOp.lower.list.mapM fun i => restrictedSpace ord ⟨if singleRef then .c else .h, false⟩ i.space) with
    | none => rw [h2] at hr; exact absurd (Term.void_coeff hr) h0
    | some ann =>
      rw [h2] at hr
      simp only at hr
      have f1 := optionMapM_some h1
      have f2 := optionMapM_some h2
      have f3 : List.Forall₂ (fun (i : Index) (s : Space) => s.beta = i.space.beta ∧ s.relation ⊆ i.space.relation)
          (t.sqOp.upper.list ++ t.sqOp.lower.list) (cre ++ ann) := by
        refine List.rel_append ?_ ?_
        · refine forall₂_imp_mem f1 fun i hi s hs => restrictedSpace_sub hord (hbeta i (List.mem_append_left _ hi)).symm hs
        · refine forall₂_imp_mem f2 fun i hi s hs => restrictedSpace_sub hord (hbeta i (List.mem_append_right _ hi)).symm hs
      exact h.restrict hcanon hord (labels := t.sqOp.indices) h.parts.ready.op_nodup (fun i hi => hi) f3.length_eq
        (fun p hp => by
          obtain ⟨i, s⟩ := p
          exact List.forall₂_zip f3 hp) hr h0

theorem Fit.makeOneBodyDiagonal {t : Term} (h : Fit t) {canon : CanonFn} (hcanon : CanonContract canon) {ord : SetOrder}
    (hord : ord.Lawful) {singleRef : Bool} {rows : List Term} (hr : t.makeOneBodyDiagonal canon ord singleRef = .ok rows) {r : Term} (hm : r ∈ rows)
    (h0 : r.coeff ≠ 0) : Fit r := by
  unfold Term.makeOneBodyDiagonal at hr
  obtain ⟨n, hn, hr⟩ := bind_ok hr
  by_cases h1 : n ≠ 1
  · rw [if_pos h1] at hr; cases hr
  rw [if_neg h1] at hr
  obtain rfl : n = 1 := not_not.1 h1
  obtain ⟨n1, n2⟩ : t.sqOp.upper.list.length = 1 ∧ t.sqOp.lower.list.length = 1 := by
    have hb := h.parts.ready.sound.bal
    unfold IndicesPair.nBody IndicesPair.nUpper IndicesPair.nLower Indices.size at hn
    split_ifs at hn with hb'
    · injection hn with hn; omega
  obtain ⟨cre, hcre⟩ := List.length_eq_one_iff.1 n1
  obtain ⟨ann, hann⟩ := List.length_eq_one_iff.1 n2
  rw [hcre, hann] at hr
  have hr : (List.mapM (t.diagonalRow canon ord cre ann) _ : Except PyErr (List Term)) = .ok rows := hr
  obtain ⟨s, hs, hr⟩ := forall₂_mem_right (mapM_ok_forall₂.1 hr) hm
  have hs' : s ∈ cre.space.relation ∩ ann.space.relation := by
    have := (hord.mem_spaces _ _).1 hs
    split_ifs at this
    · exact (Finset.mem_filter.1 this).1
    · exact this
  obtain ⟨m1, m2⟩ := Finset.mem_inter.1 hs'
  have hnd := h.parts.ready.op_nodup
  rw [hcre, hann] at hnd
  have hne : cre ≠ ann := by simpa using hnd
  unfold Term.diagonalRow at hr
  refine h.restrict hcanon hord (labels := [ann, cre]) (by simp [hne.symm]) ?_ (spaces := [s, s]) rfl ?_ hr h0
  · intro i hi
    show i ∈ t.sqOp.upper.list ++ t.sqOp.lower.list
    rw [hcre, hann]
    simp at hi ⊢
    tauto
  · intro p hp
    simp only [List.zip_cons_cons, List.zip_nil_right, List.mem_cons, List.not_mem_nil, or_false] at hp
    rcases hp with rfl | rfl
    · exact subset_of_mem_relation _ _ m2
    · exact subset_of_mem_relation _ _ m1

theorem Fit.makeDdca {t : Term} (h : Fit t) {ord : SetOrder} (hord : ord.Lawful) {maxCore maxVirt : Int} {singleRef : Bool} {start : Nat}
    {rows : List Term} (hr : t.makeDdca ord maxCore maxVirt singleRef start = .ok rows) {r : Term} (hm : r ∈ rows) : Fit r := by
  obtain ⟨spaces, hs, hr⟩ := forall₂_mem_right (makeDdca_rows hr) hm
  have hs := mem_pyProduct.1 (List.mem_filter.1 hs).1
  simp only at hr
  obtain ⟨op, hop, hr⟩ := bind_ok hr
  obtain ⟨ts, hts, hr⟩ := bind_ok hr
  obtain ⟨rfl, -, -⟩ := replaceSqOp_ok (realizes_dictFind _) hop
  obtain ⟨-, rfl, -⟩ := replaceTensors_ok (realizes_dictFind _) hts
  have f : List.Forall₂ (fun (i : Index) (s : Space) => s.beta = i.space.beta ∧ s.relation ⊆ i.space.relation) t.sqOp.indices spaces := by
    rw [List.forall₂_map_right_iff] at hs
    exact hs.flip.imp fun i s h => subset_of_mem_relation _ _ ((hord.mem_spaces _ _).1 h)
  refine FitParts.fit (h.spec (G := fun p => p.relabel _) (order := ord.indices t.indicesSet) (labels := t.sqOp.indices) ?_ h.parts.ready.op_nodup (fun i hi => hi)
    f.length_eq start (fun p hp => by
      obtain ⟨i, s⟩ := p
      exact List.forall₂_zip f hp) (fun p => ⟨rfl, rfl⟩) (fun p => ⟨.refl _, .refl _⟩)) hr
  intro i
  rw [hord.mem_indices]
  obtain ⟨-, -, -, e⟩ := Term.make_ok.1 h.again
  conv_lhs => rw [e]

theorem Fit.gradientT {t : Term} (h : Fit t) {canon : CanonFn} (hcanon : CanonContract canon) {ord : SetOrder} (hord : ord.Lawful)
    (hnd : ∀ x ∈ t.tensors, x.isDensity = false) {rows : List Term} (hr : t.gradientT canon ord = .ok rows) {r : Term} (hm : r ∈ rows)
    (h0 : r.coeff ≠ 0) : Fit r := by
  unfold Term.gradientT at hr
  obtain ⟨n, hn, hr⟩ := bind_ok hr
  by_cases h1 : n ≠ 0
  · rw [if_pos h1] at hr; cases hr
  rw [if_neg h1] at hr
  obtain rfl : n = 0 := not_not.1 h1
  have hu : t.sqOp.upper.list = [] := by
    have hb := h.parts.ready.sound.bal
    unfold IndicesPair.nBody IndicesPair.nUpper IndicesPair.nLower Indices.size at hn
    split_ifs at hn with hb'
    · injection hn with hn
      exact List.eq_nil_of_length_eq_zero (by omega)
  have hr : (List.mapM _ _ : Except PyErr (List Term)) = .ok rows := hr
  obtain ⟨⟨x, k⟩, he, hr⟩ := forall₂_mem_right (mapM_ok_forall₂.1 hr) hm
  have hk : (t.tensors.filter fun x => decide (x.cls = .cluster))[k]? = some x := List.mk_mem_zipIdx_iff_getElem?.1 he
  have hperm : t.tensors.Perm (x :: ((t.tensors.filter fun x => !decide (x.cls = .cluster)) ++
      dropAt (t.tensors.filter fun x => decide (x.cls = .cluster)) k)) := by
    refine (List.filter_append_perm (fun x : Tensor => decide (x.cls = .cluster)) t.tensors).symm.trans ?_
    refine (List.Perm.append_right _ (dropAt_perm_cons hk)).trans ?_
    exact (List.perm_append_comm).cons x
  have hp := h.parts
  have hx := hp.ready.sound.tensor x (hperm.mem_iff.2 (by simp))
  have hop : IndicesPair.make x.lower x.upper = .ok ⟨x.lower, x.upper⟩ := by
    unfold IndicesPair.make
    rw [if_neg (by rw [hx.upper, hx.lower]; simp)]
  unfold Term.gradientRow at hr
  rw [bind_ok_of hop] at hr
  obtain ⟨u, hu', hr⟩ := bind_ok hr
  have hp' := hp.perm hperm
  refine Fit.canonicalize (FitParts.fit (h := ⟨hp.ready.gradient hperm hu hnd, ?_, ?_, ?_, ?_⟩) hu') hcanon hord hr h0
  · exact fun y hy => hp'.usual y (List.mem_cons_of_mem _ hy)
  · exact fun y hy => hp'.noDelta y (List.mem_cons_of_mem _ hy)
  · exact fun y hy => hp'.low y (List.mem_cons_of_mem _ hy)
  · exact fun y hy => hp'.nodup y (List.mem_cons_of_mem _ hy)

theorem Fit.coeff {t : Term} (h : Fit t) (c : ℚ) : Fit { t with coeff := c } := FitParts.fit h.parts (h.2.coeff c |> fun d => by
  obtain ⟨ts, op, c', ht⟩ := d.1
  exact Term.make_again ht)

/-- The operator conjugated. -/
theorem FitParts.swap {ts : List Tensor} {op : SqOp} (h : FitParts ts op) : FitParts ts ⟨op.lower, op.upper⟩ := by
  have hlab : (labelList ts ⟨op.lower, op.upper⟩).Perm (labelList ts op) := List.Perm.append_right _ List.perm_append_comm
  have two : ∀ i ∈ labelList ts ⟨op.lower, op.upper⟩, (labelList ts ⟨op.lower, op.upper⟩).count i = 2 := by
    intro i hi
    rw [hlab.count_eq]
    exact h.ready.sound.two i (hlab.mem_iff.1 hi)
  have hs := h.ready.sound
  refine ⟨⟨⟨hs.tensor, hs.lower, hs.upper, hs.bal.symm, fun e i hi => hs.beta e i (hlab.mem_iff.1 hi), two, ?_⟩, ⟨two, ?_, h.ready.paired.active⟩,
    h.ready.over, h.ready.keep, h.ready.kind, ?_⟩, h.usual, h.noDelta, h.low, h.nodup⟩
  · obtain ⟨obs, h1, h2⟩ := hs.sided
    obtain ⟨w, m, rfl, h3⟩ := split_block h1
    refine ⟨(!w, pairBlock ⟨op.lower, op.upper⟩) :: m, by rw [List.map_cons, h3]; rfl, ?_⟩
    rw [sideA_cons, sideB_cons] at h2
    rw [sideA_cons, sideB_cons]
    cases w <;> exact h2
  · have : (outerList ts ⟨op.lower, op.upper⟩).Perm (outerList ts op) := List.Perm.append_right _ List.perm_append_comm
    exact this.nodup_iff.2 h.ready.paired.outer
  · rw [← h.ready.diag]
    ext i
    rw [mem_diagonalOf, mem_diagonalOf]
    simp only
    tauto

theorem Fit.fromTerm {t : Term} (h : Fit t) {flipSign hc : Bool} {r : Term} (hr : t.fromTerm flipSign hc = .ok r) : Fit r := by
  unfold Term.fromTerm at hr
  obtain ⟨op, hop, hr⟩ := bind_ok hr
  unfold IndicesPair.clone IndicesPair.make at hop
  cases hc
  · split_ifs at hop
    all_goals first
      | (injection hop with hop; subst hop; exact h.parts.fit hr)
      | simp_all
  · split_ifs at hop
    all_goals first
      | (injection hop with hop; subst hop; exact h.parts.swap.fit hr)
      | simp_all

/-- The terms of the library meet the invariant. -/
theorem LibraryTerm.fit {m : Machine} (hcanon : CanonContract m.canon) (hord : m.ord.Lawful) (hcpu : 1 ≤ m.cpus) {t : Term} (h : LibraryTerm m t) :
    Fit t := by
  induction h with
  | amplitude k start excitation scale singleRef t hk h => exact ⟨⟨(cluster_good h).1, cluster_live hk h⟩, cluster_distinct (singleRef := singleRef) h⟩
  | hamiltonian k start t hk h => exact ⟨⟨(hamiltonian_good_from h).1, hamiltonian_live hk h⟩, hamiltonian_distinct h⟩
  | block k out t hk h ht => exact ⟨expandedHamiltonian_nice hord hk h t ht, (expandedHamiltonian_distinct hord h t ht).1⟩
  | contracted o terms scale out t hn _ hd hr ht ih =>
    have hne : terms ≠ [] := by rintro rfl; exact hr
    exact ⟨(ContractRun.fine hcanon hord hcpu hn hne (fun x hx => (ih x hx).1) hd scale).2.2 out hr t ht,
      ContractRun.distinct hcanon hord (fun x hx => (ih x hx).1.1) (fun x hx => (ih x hx).2.2) hd hr t ht⟩
  | commutator o left right scale out t hn _ _ hd hr ht ih1 ih2 =>
    exact ⟨(CommutatorRun.fine hcanon hord hcpu hn ih1.1 ih2.1 hd scale).2.2 out hr t ht,
      CommutatorRun.distinct hcanon hord ih1.1.1 ih2.1.1 ih1.2.2 ih2.2.2 hd hr t ht⟩
  | combined terms out t _ hr ht ih => exact combine_all (fun t c h => h.coeff c) ih hr t ht
  | copied flipSign hc t r _ hr ih => exact ih.fromTerm hr
  | canonical ra herm t r _ hr h0 ih => exact ih.canonicalizeSympy hcanon hord hr h0
  | expanded maxCore maxVirt singleRef start t rows r _ hr hm ih => exact ih.makeDdca hord hr hm
  | excitation singleRef t r _ hr h0 ih => exact ih.makeExcitation hcanon hord hr h0
  | diagonal singleRef t rows r _ hr hm h0 ih => exact ih.makeOneBodyDiagonal hcanon hord hr hm h0
  | gradient t rows r _ hc hr hm h0 ih =>
    refine ih.gradientT hcanon hord (fun x hx => ?_) hr hm h0
    rcases hc x hx with e | e <;> simp [Tensor.isDensity, e]

theorem LibraryTerm.nice {m : Machine} (hcanon : CanonContract m.canon) (hord : m.ord.Lawful) (hcpu : 1 ≤ m.cpus) {t : Term} (h : LibraryTerm m t) :
    NiceTerm t := (h.fit hcanon hord hcpu).1

theorem LibraryTerm.distinct {m : Machine} (hcanon : CanonContract m.canon) (hord : m.ord.Lawful) (hcpu : 1 ≤ m.cpus) {t : Term} (h : LibraryTerm m t) :
    Distinct t := (h.fit hcanon hord hcpu).2

theorem LibraryTerm.ready {m : Machine} (hcanon : CanonContract m.canon) (hord : m.ord.Lawful) (hcpu : 1 ≤ m.cpus) {t : Term} (h : LibraryTerm m t) :
    Ready t.tensors t.sqOp := (h.fit hcanon hord hcpu).parts.ready

theorem LibraryTerm.object {m : Machine} (hcanon : CanonContract m.canon) (hord : m.ord.Lawful) (hcpu : 1 ≤ m.cpus) {t : Term} (h : LibraryTerm m t) :
    Term.make t.tensors t.sqOp t.coeff = .ok t ∧ Ready t.tensors t.sqOp ∧ ReadyTerm t :=
  let f := h.fit hcanon hord hcpu
  ⟨f.again, f.parts.ready, f.object⟩

end Dsrg
