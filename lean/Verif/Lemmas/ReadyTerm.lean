import Verif.Lemmas.SpinTotal
import Verif.Lemmas.TermOps
import Verif.Lemmas.TermHistory

/-!
Operations on terms succeed on the terms of the library.
-/

namespace Dsrg

/-- Factors for which `simplify` and `canonicalize` succeed. -/
structure Ready (ts : List Tensor) (op : SqOp) : Prop where
  sound : SoundTerm ts op
  paired : Paired ts op
  over : ∀ x ∈ ts, Overlapping x
  keep : ∃ x ∈ ts, x.isDensity = false
  kind : ∀ x ∈ ts, ∀ y ∈ ts, x.name = y.name → x.cls = y.cls
  diag : diagonalOf ts op = ∅

theorem diagonalOf_perm {ts ts' : List Tensor} (h : ts.Perm ts') (op : SqOp) : diagonalOf ts op = diagonalOf ts' op := by
  ext i; rw [mem_diagonalOf, mem_diagonalOf]; simp only [h.mem_iff]

theorem Ready.perm {ts ts' : List Tensor} {op : SqOp} (h : Ready ts op) (hp : ts.Perm ts') : Ready ts' op where
  sound := h.sound.perm hp
  paired := h.paired.perm hp
  over x hx := h.over x (hp.mem_iff.2 hx)
  keep := by
    obtain ⟨x, hx, hd⟩ := h.keep
    exact ⟨x, hp.mem_iff.1 hx, hd⟩
  kind x hx y hy := h.kind x (hp.mem_iff.2 hx) y (hp.mem_iff.2 hy)
  diag := by rw [← diagonalOf_perm hp]; exact h.diag

theorem Ready.make {ts : List Tensor} {op : SqOp} (h : Ready ts op) (c : ℚ) : ∃ t, Term.make ts op c = .ok t :=
  ⟨_, Term.make_ok.2 ⟨fun x hx => (h.sound.tensor x hx).upper.trans h.sound.upper.symm, fun i hi _ => h.sound.two i hi,
    fun i hi => absurd hi (by rw [h.diag]; simp), rfl⟩⟩

/-- A term can be made again from its factors. -/
theorem Ready.of_make {ts : List Tensor} {op : SqOp} (h : Ready ts op) {c : ℚ} {t : Term} (ht : Term.make ts op c = .ok t) :
    Ready t.tensors t.sqOp ∧ t.diag = ∅ ∧ t.WF ∧ t.coeff = c ∧ t.sqOp = op ∧ t.tensors.Perm ts := by
  have hw := Term.wf_of_make ht
  obtain ⟨-, -, -, e⟩ := Term.make_ok.1 ht
  have hp : t.tensors.Perm ts := by rw [e]; exact sortTensors_perm _
  have ho : t.sqOp = op := by rw [e]
  refine ⟨ho ▸ h.perm hp.symm, by rw [e]; exact h.diag, hw, by rw [e], ho, hp⟩

/-- What is needed of a term object: the sets it carries fit its factors. -/
structure ReadyTerm (t : Term) : Prop where
  ready : Ready t.tensors t.sqOp
  diag : t.diag = ∅
  wf : t.WF

theorem ReadyTerm.simplify {t : Term} (h : ReadyTerm t) {ord : SetOrder} (hord : ord.Lawful) (ra : Bool) :
    ∃ s, t.simplify ord true ra = .ok s ∧ (s.isVoid = false → SoundTerm s.tensors s.sqOp) ∧
      (∀ x ∈ s.tensors, ∀ y ∈ s.tensors, x.name = y.name → x.cls = y.cls) ∧ labelsOf s.tensors s.sqOp ⊆ s.indicesSet := by
  obtain ⟨s, h1, h2, -, -⟩ := Term.simplify_total hord ra h.wf (by rw [h.diag]; exact Finset.empty_subset _) h.ready.paired h.ready.sound
    h.ready.over h.ready.keep
  obtain ⟨f, horigin, -⟩ := Term.simplify_origin h1
  refine ⟨s, h1, h2, ?_, (Term.simplify_shape h.wf.set_sub h1).1⟩
  intro x hx y hy e
  obtain ⟨x', hx', -, rfl⟩ := horigin x hx
  obtain ⟨y', hy', -, rfl⟩ := horigin y hy
  exact h.ready.kind x' hx' y' hy' e

theorem ReadyTerm.canonicalizeSympy {t : Term} (h : ReadyTerm t) {canon : CanonFn} (hcanon : CanonContract canon) {ord : SetOrder}
    (hord : ord.Lawful) (ra herm : Bool) : ∃ r, t.canonicalizeSympy canon ord true ra herm = .ok r := by
  obtain ⟨s, h1, h2, h3, h4⟩ := h.simplify hord ra
  obtain ⟨r, hr, -⟩ := Term.canonicalizeSympy_total rfl hcanon herm h1 h4 h2 h3
  exact ⟨r, hr⟩

theorem ReadyTerm.canonicalize {t : Term} (h : ReadyTerm t) {canon : CanonFn} (hcanon : CanonContract canon) {ord : SetOrder}
    (hord : ord.Lawful) (ra herm : Bool) : ∃ r, t.canonicalize canon ord true ra herm = .ok r := by
  unfold Term.canonicalize
  rw [if_neg (by rw [h.diag]; simp)]
  exact h.canonicalizeSympy hcanon hord ra herm

theorem Ready.object {ts : List Tensor} {op : SqOp} (h : Ready ts op) {c : ℚ} {t : Term} (ht : Term.make ts op c = .ok t) : ReadyTerm t :=
  have k := h.of_make ht
  ⟨k.1, k.2.1, k.2.2.1⟩

/-! ### Relabeling -/

theorem fine_refines (i j : Space) (hb : j.beta = i.beta) (hr : j.relation ⊆ i.relation) (hg : i.kind ≠ .g) :
    j.kind = i.kind ∨ (i.kind ≠ .g ∧ j ∈ i.relation) := by
  revert i j; decide +kernel

theorem SoundTerm.constructed {ts : List Tensor} {op : SqOp} (h : SoundTerm ts op) : op.Constructed ∧ ∀ x ∈ ts, x.Constructed := by
  have hbeta := h.beta rfl
  have hI : ∀ x : Indices, x.ty = .spinOrbital → x.list.Nodup → (∀ i ∈ x.list, i.isBeta = false) → x.Constructed := by
    intro x h1 h2 h3
    exact (Indices.wf_iff_make _).1 ⟨h2, fun _ => h3⟩
  have hm : ∀ i ∈ op.indices, i.isBeta = false := fun i hi => hbeta i (mem_labelList.2 (Or.inl hi))
  obtain ⟨n1, n2⟩ := h.nodup (b := pairBlock op) (by unfold termBlocks; simp)
  refine ⟨⟨hI _ h.upper n2 fun i hi => hm i (List.mem_append_left _ hi), hI _ h.lower n1 fun i hi => hm i (List.mem_append_right _ hi), ?_⟩, ?_⟩
  · unfold IndicesPair.make
    rw [if_neg (by rw [h.upper, h.lower]; simp)]
  · intro x hx
    have hx' := h.tensor x hx
    have hm : ∀ i ∈ x.pair.indices, i.isBeta = false := fun i hi => hbeta i (mem_labelList.2 (Or.inr ⟨x, hx, hi⟩))
    obtain ⟨n1, n2⟩ := h.nodup (b := pairBlock x.pair)
      (by unfold termBlocks; exact List.mem_cons_of_mem _ (List.mem_map_of_mem (f := fun t : Tensor => pairBlock t.pair) hx))
    exact ⟨hI _ hx'.upper n2 fun i hi => hm i (List.mem_append_left _ hi), hI _ hx'.lower n1 fun i hi => hm i (List.mem_append_right _ hi),
      hx'.make fun _ => hm⟩

/-- `_relabel_indices` succeeds. -/
theorem SoundTerm.relabelIndices {ts : List Tensor} {op : SqOp} (h : SoundTerm ts op) (hne : ts ≠ []) {d : Dict Index Index}
    (hd : ∀ i ∈ labelsOf ts op, dictFind d i = .ok (dictFun d i))
    (hinj : ∀ i ∈ labelsOf ts op, ∀ j ∈ labelsOf ts op, dictFun d i = dictFun d j → i = j)
    (hf : ∀ i ∈ labelsOf ts op, Fine i (dictFun d i)) : ∃ q, relabelIndices (dictFind d) ts op = .ok q := by
  obtain ⟨c1, c2⟩ := SoundTerm.constructed h
  have hopl : ∀ i ∈ op.upper.list ++ op.lower.list, i ∈ labelsOf ts op := by
    intro i hi; rw [mem_labelsOf, mem_labelList]; exact Or.inl hi
  have htl : ∀ x ∈ ts, ∀ i ∈ x.upper.list ++ x.lower.list, i ∈ labelsOf ts op := by
    intro x hx i hi; rw [mem_labelsOf, mem_labelList]; exact Or.inr ⟨x, hx, hi⟩
  have e1 := replaceSqOp_total c1 (fun i hi => hd i (hopl i hi)) (fun i hi j hj => hinj i (hopl i hi) j (hopl j hj)) fun i hi => (hf i (hopl i hi)).1
  have e2 : replaceTensors (dictFind d) ts = .ok (ts.map (Tensor.relabel (dictFun d))) := by
    unfold replaceTensors
    rw [if_neg (by simpa using hne)]
    refine mapM_ok_of_forall fun x hx => ?_
    refine replaceTensor_total (c2 x hx) (fun i hi => hd i (htl x hx i hi)) (fun i hi j hj => hinj i (htl x hx i hi) j (htl x hx j hj))
      (fun i hi => (hf i (htl x hx i hi)).1) ?_
    intro hc i hi
    obtain ⟨a, b⟩ := (h.tensor x hx).half hc
    refine fine_refines _ _ (hf i (htl x hx i hi)).1 (hf i (htl x hx i hi)).2 ?_
    rcases List.mem_append.1 hi with hi | hi
    · exact a.2 _ (List.mem_map_of_mem hi)
    · exact b.2 _ (List.mem_map_of_mem hi)
  unfold Dsrg.relabelIndices
  rw [bind_ok_of e1, bind_ok_of e2]
  exact ⟨_, rfl⟩

theorem sides_follow {f : Index → Index} {g : IndicesPair → IndicesPair} (hg : ∀ p, (g p).upper.list.Perm (p.upper.list.map f) ∧ (g p).lower.list.Perm (p.lower.list.map f)) :
    ∀ (ps : List IndicesPair) (m : List (OBlock Index)), m.map Prod.snd = ps.map pairBlock →
      ∃ m' : List (OBlock Index), m'.map Prod.snd = ps.map (fun p => pairBlock (g p)) ∧ (sideA m').Perm ((sideA m).map f) ∧ (sideB m').Perm ((sideB m).map f)
  | [], m, h => by
    have : m = [] := List.map_eq_nil_iff.1 h
    subst this
    exact ⟨[], rfl, .refl _, .refl _⟩
  | p :: ps, m, h => by
    obtain ⟨w, m₁, rfl, h3⟩ := split_block h
    obtain ⟨m', k1, k2, k3⟩ := sides_follow hg ps m₁ h3
    refine ⟨(w, pairBlock (g p)) :: m', by rw [List.map_cons, k1]; rfl, ?_, ?_⟩
    · rw [sideA_cons, sideA_cons, List.map_append]
      refine List.Perm.append ?_ k2
      cases w
      · exact (hg p).2
      · exact (hg p).1
    · rw [sideB_cons, sideB_cons, List.map_append]
      refine List.Perm.append ?_ k3
      cases w
      · exact (hg p).1
      · exact (hg p).2

/-- A tensor with a changed pair of index lists. -/
def Tensor.onPair (G : IndicesPair → IndicesPair) (x : Tensor) : Tensor := ⟨x.cls, x.name, x.priority, G x.pair⟩

/-- Relabeling with distinct labels of smaller spaces, and changing the order of the labels, keeps a term ready, if the labels of densities keep their space. -/
theorem Ready.relabelWith {ts : List Tensor} {op : SqOp} (h : Ready ts op) {f : Index → Index} {G : IndicesPair → IndicesPair}
    (hty : ∀ p, (G p).upper.ty = p.upper.ty ∧ (G p).lower.ty = p.upper.ty)
    (hperm : ∀ p, (G p).upper.list.Perm (p.upper.list.map f) ∧ (G p).lower.list.Perm (p.lower.list.map f))
    (hinj : ∀ i ∈ labelList ts op, ∀ j ∈ labelList ts op, f i = f j → i = j) (hf : ∀ i ∈ labelList ts op, Fine i (f i))
    (hden : ∀ x ∈ ts, x.isDensity = true → ∀ i ∈ x.pair.indices, (f i).space = i.space) :
    Ready (ts.map (Tensor.onPair G)) (G op) := by
  have hlab : (labelList (ts.map (Tensor.onPair G)) (G op)).Perm ((labelList ts op).map f) := by
    unfold labelList
    rw [List.map_append, List.map_append, List.flatMap_map, List.map_flatMap]
    refine List.Perm.append (List.Perm.append (hperm op).1 (hperm op).2) (List.Perm.flatMap_left _ fun x _ => ?_)
    rw [List.map_append]
    exact List.Perm.append (hperm x.pair).1 (hperm x.pair).2
  have hts : ∀ x ∈ ts, ∀ i ∈ x.pair.indices, i ∈ labelList ts op := fun x hx i hi => mem_labelList.2 (Or.inr ⟨x, hx, hi⟩)
  have hol : ∀ i ∈ op.indices, i ∈ labelList ts op := fun i hi => mem_labelList.2 (Or.inl hi)
  have two : ∀ i ∈ labelList (ts.map (Tensor.onPair G)) (G op),
      (labelList (ts.map (Tensor.onPair G)) (G op)).count i = 2 := by
    intro j hj
    rw [hlab.count_eq]
    obtain ⟨i, hi, rfl⟩ := List.mem_map.1 (hlab.mem_iff.1 hj)
    rw [count_map_injOn hinj hi]
    exact h.sound.two i hi
  have hsing : ∀ x : Tensor, ∀ u l, (x.onPair G).upper.list = [u] → (x.onPair G).lower.list = [l] →
      ∃ u' l', x.upper.list = [u'] ∧ x.lower.list = [l'] ∧ u = f u' ∧ l = f l' := by
    intro x u l hu hl
    obtain ⟨p1, p2⟩ := hperm x.pair
    have p1 : ([u] : List Index).Perm (x.upper.list.map f) := by rw [← hu]; exact p1
    have p2 : ([l] : List Index).Perm (x.lower.list.map f) := by rw [← hl]; exact p2
    obtain ⟨u', e1, e2⟩ := List.map_eq_singleton_iff.1 (List.perm_singleton.1 p1.symm)
    obtain ⟨l', e3, e4⟩ := List.map_eq_singleton_iff.1 (List.perm_singleton.1 p2.symm)
    exact ⟨u', l', e1, e3, e2.symm, e4.symm⟩
  have hmemd : ∀ (x : Tensor) (u l : Index), x.upper.list = [u] → x.lower.list = [l] → u ∈ x.pair.indices ∧ l ∈ x.pair.indices := by
    intro x u l hu hl
    exact ⟨List.mem_append_left _ (by show u ∈ x.upper.list; rw [hu]; simp), List.mem_append_right _ (by show l ∈ x.lower.list; rw [hl]; simp)⟩
  refine ⟨⟨?_, ?_, ?_, ?_, ?_, two, ?_⟩, ⟨two, ?_, ?_⟩, ?_, ?_, ?_, ?_⟩
  · intro y hy
    obtain ⟨x, hx, rfl⟩ := List.mem_map.1 hy
    have hx' := (h.sound.tensor x hx).relabel fun i hi => hf i (hts x hx i hi)
    obtain ⟨p1, p2⟩ := hperm x.pair
    refine ⟨?_, ?_, ?_, ?_, ?_, ?_, ?_⟩
    · exact (hty x.pair).1.trans (h.sound.tensor x hx).upper
    · exact (hty x.pair).2.trans (h.sound.tensor x hx).upper
    · have e1 := p1.length_eq
      have e2 := p2.length_eq
      rw [List.length_map] at e1 e2
      exact e1.trans ((h.sound.tensor x hx).len.trans e2.symm)
    · intro e
      apply hx'.pos
      have e : (G x.pair).upper.list = [] := e
      rw [e] at p1
      exact p1.symm.eq_nil
    · intro hc
      exact p1.length_eq.trans (hx'.one hc)
    · intro hc
      exact ⟨(hx'.half hc).1.perm (p1.map Index.space).symm, (hx'.half hc).2.perm (p2.map Index.space).symm⟩
    · intro hne; exact absurd rfl hne
  · exact (hty op).1.trans h.sound.upper
  · exact (hty op).2.trans h.sound.upper
  · have e1 := (hperm op).1.length_eq
    have e2 := (hperm op).2.length_eq
    rw [List.length_map] at e1 e2
    rw [e1, e2]; exact h.sound.bal
  · intro _ j hj
    obtain ⟨i, hi, rfl⟩ := List.mem_map.1 (hlab.mem_iff.1 hj)
    exact (hf i hi).1.trans (h.sound.beta rfl i hi)
  · obtain ⟨obs, h1, h2⟩ := h.sound.sided
    obtain ⟨m', k1, k2, k3⟩ := sides_follow (f := f) (g := G) hperm (op :: ts.map Tensor.pair) obs (by
      rw [h1]; unfold termBlocks; rw [List.map_cons, List.map_map]; rfl)
    refine ⟨m', ?_, k2.trans ((h2.map f).trans k3.symm)⟩
    rw [k1]
    unfold termBlocks
    rw [List.map_cons, List.map_map, List.map_map]
    rfl
  · have hout : (outerList (ts.map (Tensor.onPair G)) (G op)).Perm ((outerList ts op).map f) := by
      unfold outerList
      rw [List.map_append, List.map_append]
      refine List.Perm.append (List.Perm.append (hperm op).1 (hperm op).2) ?_
      rw [List.filter_map, List.flatMap_map, List.map_flatMap]
      have : (Tensor.isDensity ∘ Tensor.onPair G) = Tensor.isDensity := rfl
      rw [this]
      refine List.Perm.flatMap_left _ fun x _ => ?_
      rw [List.map_append]
      exact List.Perm.append (hperm x.pair).1 (hperm x.pair).2
    rw [hout.nodup_iff]
    have hmem : ∀ a ∈ outerList ts op, a ∈ labelList ts op := by
      intro a ha
      unfold outerList at ha
      rcases List.mem_append.1 ha with ha | ha
      · exact hol a ha
      · obtain ⟨x, hx, hi⟩ := List.mem_flatMap.1 ha
        exact hts x (List.mem_filter.1 hx).1 a hi
    exact h.paired.outer.map_on fun a ha b hb e => hinj a (hmem a ha) b (hmem b hb) e
  · intro y hy hc hn j hj
    obtain ⟨x, hx, rfl⟩ := List.mem_map.1 hy
    obtain ⟨p1, p2⟩ := hperm x.pair
    have hn : (x.onPair G).pair.upper.list.length ≠ 1 := hn
    have hn' : x.upper.list.length ≠ 1 := by
      intro e
      apply hn
      have := p1.length_eq
      rw [List.length_map] at this
      exact this.trans e
    have hj' : ∃ i ∈ x.upper.list ++ x.lower.list, f i = j := by
      rcases List.mem_append.1 hj with hj | hj
      · obtain ⟨i, hi, e⟩ := List.mem_map.1 (p1.mem_iff.1 hj)
        exact ⟨i, List.mem_append_left _ hi, e⟩
      · obtain ⟨i, hi, e⟩ := List.mem_map.1 (p2.mem_iff.1 hj)
        exact ⟨i, List.mem_append_right _ hi, e⟩
    obtain ⟨i, hi, rfl⟩ := hj'
    have hc : x.cls = .cumulant := hc
    rw [hden x hx (by simp [Tensor.isDensity, hc]) i hi]
    exact h.paired.active x hx hc hn' i hi
  · intro y hy
    obtain ⟨x, hx, rfl⟩ := List.mem_map.1 hy
    refine ⟨fun hc u l hu hl => ?_, fun hc u l hu hl => ?_⟩
    · have hc : x.cls = .cumulant := hc
      obtain ⟨u', l', e1, e2, rfl, rfl⟩ := hsing x u l hu hl
      obtain ⟨m1, m2⟩ := hmemd x u' l' e1 e2
      have hd : x.isDensity = true := by simp [Tensor.isDensity, hc]
      rw [hden x hx hd u' m1, hden x hx hd l' m2]
      exact (h.over x hx).cumulant hc u' l' e1 e2
    · have hc : x.cls = .kronecker := hc
      obtain ⟨u', l', e1, e2, rfl, rfl⟩ := hsing x u l hu hl
      obtain ⟨m1, m2⟩ := hmemd x u' l' e1 e2
      have hd : x.isDensity = true := by simp [Tensor.isDensity, hc]
      rw [hden x hx hd u' m1, hden x hx hd l' m2]
      exact (h.over x hx).kronecker hc u' l' e1 e2
  · obtain ⟨x, hx, hd⟩ := h.keep
    exact ⟨_, List.mem_map_of_mem (f := Tensor.onPair G) hx, hd⟩
  · intro y hy z hz
    obtain ⟨x, hx, rfl⟩ := List.mem_map.1 hy
    obtain ⟨x', hx', rfl⟩ := List.mem_map.1 hz
    exact h.kind x hx x' hx'
  · rw [Finset.eq_empty_iff_forall_notMem]
    intro j hj
    have hd := Finset.eq_empty_iff_forall_notMem.1 h.diag
    have key : ∀ p : IndicesPair, (∀ i ∈ p.indices, i ∈ labelList ts op) → j ∈ (G p).upper.list →
        j ∈ (G p).lower.list → ∃ i, i ∈ p.upper.list ∧ i ∈ p.lower.list := by
      intro p hp h1 h2
      obtain ⟨i, hi, e⟩ := List.mem_map.1 ((hperm p).1.mem_iff.1 h1)
      obtain ⟨i', hi', e'⟩ := List.mem_map.1 ((hperm p).2.mem_iff.1 h2)
      have := hinj i (hp i (List.mem_append_left _ hi)) i' (hp i' (List.mem_append_right _ hi')) (e.trans e'.symm)
      subst this
      exact ⟨i, hi, hi'⟩
    rw [mem_diagonalOf] at hj
    rcases hj with hj | ⟨y, hy, hj⟩
    · obtain ⟨i, h1, h2⟩ := key op hol hj.1 hj.2
      exact hd i (mem_diagonalOf.2 (Or.inl ⟨h1, h2⟩))
    · obtain ⟨x, hx, rfl⟩ := List.mem_map.1 hy
      obtain ⟨i, h1, h2⟩ := key x.pair (hts x hx) hj.1 hj.2
      exact hd i (mem_diagonalOf.2 (Or.inr ⟨x, hx, h1, h2⟩))

/-- Relabeling and sorting. -/
theorem Ready.relabel {ts : List Tensor} {op : SqOp} (h : Ready ts op) {f : Index → Index}
    (hinj : ∀ i ∈ labelList ts op, ∀ j ∈ labelList ts op, f i = f j → i = j) (hf : ∀ i ∈ labelList ts op, Fine i (f i))
    (hden : ∀ x ∈ ts, x.isDensity = true → ∀ i ∈ x.pair.indices, (f i).space = i.space) :
    Ready (ts.map fun x => (x.relabel f).canonicalize.1) (op.relabel f).canonicalize.1 :=
  h.relabelWith (G := fun p => (p.relabel f).canonicalize.1) (fun p => ⟨canonicalize_ty _, canonicalize_ty _⟩)
    (fun p => ⟨canonicalize_perm _, canonicalize_perm _⟩) hinj hf hden

end Dsrg
