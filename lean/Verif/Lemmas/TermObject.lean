import Verif.Model.TermObject
import Verif.Lemmas.CanonSame
import Verif.Lemmas.RelabelTotal
import Verif.Lemmas.SimplifyTotal
import Verif.Lemmas.Singlet

/-!
`Term` objects over several calls: `simplify` on a term that has been simplified before only renames labels.
-/

namespace Dsrg

/-! ### The state of the object and the pure model -/

theorem downgradeObj_eq {core : Bool} {diag : Finset Index} : ∀ (ts : List Tensor) (st : ReplState),
    downgradeCumulants core diag st ts =
      (downgradeObj core diag st ts).2.map fun r => (r, (downgradeObj core diag st ts).1)
  | [], st => rfl
  | t :: ts, st => by
    simp only [downgradeCumulants, downgradeObj, bind, Except.bind]
    cases h : downgradeStep core diag st t with
    | error e => rfl
    | ok r =>
      simp only []
      rw [downgradeObj_eq ts r.1]
      cases (downgradeObj core diag r.1 ts).2 <;> rfl

theorem diagonalObj_eq {ord : SetOrder} {rd : Index → Finset Index} : ∀ (L : List Index) (q : (Index → Index) × (Space → Nat) × Finset Index),
    diagonalLoop ord rd L q = (diagonalObj ord rd L q).2.map fun r => (r.1, (diagonalObj ord rd L q).1, r.2)
  | [], (_, _, _) => rfl
  | i :: L, (repl, next, keys) => by
    simp only [diagonalLoop, diagonalObj, bind, Except.bind]
    cases findSpaceLabel ((rd i).inf fun j => j.space.relation) ((ord.spaces ((rd i).inf fun j => j.space.relation)).headD ⟨.g, false⟩) with
    | error e => rfl
    | ok so =>
      cases so with
      | none => rfl
      | some s => exact diagonalObj_eq L _

/-- The model of `simplify` used for all other properties is the state after a call that returns. -/
theorem Term.simplifyObj_eq (ord : SetOrder) (t : Term) (core removeActive : Bool) :
    t.simplify ord core removeActive = (t.simplifyObj ord core removeActive).2.map fun _ => (t.simplifyObj ord core removeActive).1 := by
  unfold Term.simplify Term.simplifyObj
  simp only [bind, Except.bind]
  rw [downgradeObj_eq]
  rcases h : downgradeObj core t.diag ⟨id, t.nextNum, fun i => {i}⟩ t.tensors with ⟨ts, _ | cu⟩
  · rfl
  simp only [Except.map]
  cases hde : removeDeltas t.diag ⟨cu.repl, cu.next, fun i => {i}⟩ ts with
  | error e => rfl
  | ok de =>
  simp only []
  rw [diagonalObj_eq]
  rcases hlo : diagonalObj ord (fun i => cu.rdiag i ∪ de.1.rdiag i) (ord.indices t.diag) (de.1.repl, de.1.next, t.indicesSet) with ⟨next, _ | ⟨repl, keys⟩⟩
  · rfl
  simp only [Except.map]
  cases hop : replaceSqOp (lookupIn keys repl) t.sqOp with
  | error e => rfl
  | ok op =>
  simp only []
  by_cases hv : (removeActive && de.2.any (allActiveAmplitude repl)) = true
  · rw [if_pos hv, if_pos hv]; rfl
  · rw [if_neg hv, if_neg hv]
    cases hts : replaceTensors (lookupIn keys repl) de.2 with
    | error e => rfl
    | ok new => rfl

theorem Term.simplifyObj_ok {ord : SetOrder} {t s : Term} {core removeActive : Bool} (h : t.simplify ord core removeActive = .ok s) :
    (t.simplifyObj ord core removeActive).1 = s ∧ (t.simplifyObj ord core removeActive).2 = .ok () := by
  rw [Term.simplifyObj_eq] at h
  cases h2 : (t.simplifyObj ord core removeActive).2 with
  | error e => rw [h2] at h; cases h
  | ok u => rw [h2] at h; simp only [Except.map, Except.ok.injEq] at h; exact ⟨h, rfl⟩

/-! ### Terms whose densities have their final labels -/

/-- The densities of a term have the spaces that `simplify` gives them. -/
def LevelCumulant (x : Tensor) : Prop :=
  x.upper.list.length = x.lower.list.length ∧
    (x.upper.list.length = 1 → ∃ s : Space, (s.kind = .h ∨ s.kind = .a) ∧ ∀ i ∈ x.pair.indices, i.space = s) ∧
    (x.upper.list.length ≠ 1 → ∀ i ∈ x.pair.indices, i.space.kind = .a)

/-- What holds for a term object between calls. -/
structure Sane (t : Term) : Prop where
  wf : t.WF
  diag : t.diag ⊆ diagonalOf t.tensors t.sqOp
  paired : Paired t.tensors t.sqOp

/-- A simplified term object. -/
structure Level (t : Term) : Prop extends Sane t where
  noDelta : ∀ x ∈ t.tensors, ¬ ActsAsDelta true x
  cumulant : ∀ x ∈ t.tensors, x.cls = .cumulant → LevelCumulant x
  tensor : ∀ x ∈ t.tensors, x.Constructed
  op : IndicesPair.Constructed t.sqOp
  ne : t.tensors ≠ []

theorem activeOf_eq {i : Index} (h : i.space.kind = .a) : activeOf i = i.space := by
  obtain ⟨⟨k, b⟩, n⟩ := i
  simp only at h
  subst h; rfl

theorem downgradeDensity_same (s : Space) (h : s.kind = .h ∨ s.kind = .a) : downgradeDensity .v .h s s = some s := by
  revert s; decide +kernel

theorem assignFresh_space {diag : Finset Index} {st : ReplState} {i : Index} {s : Space} (hs : s = i.space)
    (h : ∀ j, (st.repl j).space = j.space) : ∀ j, ((st.assignFresh diag s i).repl j).space = j.space := by
  intro j
  unfold ReplState.assignFresh ReplState.assign
  simp only [Function.update_apply]
  split_ifs with e
  · rw [e]; exact hs
  · exact h j

theorem foldl_fresh_space {diag : Finset Index} (sp : Index → Space) : ∀ (l : List Index) (st : ReplState), (∀ i ∈ l, sp i = i.space) →
    (∀ j, (st.repl j).space = j.space) → ∀ j, ((l.foldl (fun st i => st.assignFresh diag (sp i) i) st).repl j).space = j.space
  | [], _, _, h => h
  | a :: l, st, hl, h => foldl_fresh_space sp l _ (fun i hi => hl i (by simp [hi])) (assignFresh_space (hl a (by simp)) h)

theorem downgradeStep_level {diag : Finset Index} {st : ReplState} {t : Tensor} (hl : t.cls = .cumulant → LevelCumulant t)
    (h : ∀ j, (st.repl j).space = j.space) :
    ∃ st', downgradeStep true diag st t = .ok (st', t) ∧ ∀ j, (st'.repl j).space = j.space := by
  unfold downgradeStep
  by_cases hc : t.cls = .cumulant
  · obtain ⟨h1, h2, h3⟩ := hl hc
    rw [if_pos hc]
    have hnb : t.pair.nLower = t.pair.nUpper := h1.symm
    have hn : t.pair.nBody = .ok t.pair.nLower := by
      unfold IndicesPair.nBody
      rw [if_neg (by simpa using hnb)]
    rw [bind_ok_of hn]
    by_cases hn1 : t.pair.nLower = 1
    · rw [if_neg (by simpa using hn1)]
      have hu1 : t.upper.list.length = 1 := h1.trans hn1
      obtain ⟨u, hu⟩ := List.length_eq_one_iff.1 hu1
      obtain ⟨l, hlw⟩ := List.length_eq_one_iff.1 (show t.lower.list.length = 1 from hn1)
      obtain ⟨s, hs, hsp⟩ := h2 hu1
      have hidx := Tensor.indices_one hu hlw
      have hd : t.downgradeIndices = .ok (some s) := by
        unfold Tensor.downgradeIndices
        rw [hc, hu, hlw]
        simp only []
        rw [hsp u (by simp [hidx]), hsp l (by simp [hidx]), downgradeDensity_same s hs]
      rw [bind_ok_of hd]
      simp only []
      rw [if_neg (by rintro ⟨e, -⟩; rcases hs with hs | hs <;> rw [hs] at e <;> cases e)]
      refine ⟨_, rfl, ?_⟩
      refine foldl_fresh_space (fun _ => s) _ _ (fun i hi => (hsp i (List.mem_append_right _ hi)).symm) ?_
      exact foldl_fresh_space (fun _ => s) _ _ (fun i hi => (hsp i (List.mem_append_left _ hi)).symm) h
    · rw [if_pos (by simpa using hn1)]
      have hu1 : t.upper.list.length ≠ 1 := fun e => hn1 (h1.symm.trans e)
      refine ⟨_, rfl, ?_⟩
      refine foldl_fresh_space activeOf _ _ (fun i hi => activeOf_eq (h3 hu1 i (List.mem_append_right _ hi))) ?_
      exact foldl_fresh_space activeOf _ _ (fun i hi => activeOf_eq (h3 hu1 i (List.mem_append_left _ hi))) h
  · rw [if_neg hc]
    exact ⟨st, rfl, h⟩

theorem downgradeCumulants_same {diag : Finset Index} : ∀ (ts : List Tensor) (st : ReplState), (∀ x ∈ ts, x.cls = .cumulant → LevelCumulant x) →
    (∀ j, (st.repl j).space = j.space) →
    ∃ st', downgradeCumulants true diag st ts = .ok (st', ts) ∧ ∀ j, (st'.repl j).space = j.space
  | [], st, _, h => ⟨st, rfl, h⟩
  | t :: ts, st, hl, h => by
    obtain ⟨s1, e1, h1⟩ := downgradeStep_level (diag := diag) (hl t (by simp)) h
    obtain ⟨s2, e2, h2⟩ := downgradeCumulants_same (diag := diag) ts s1 (fun x hx => hl x (by simp [hx])) h1
    refine ⟨s2, ?_, h2⟩
    simp only [downgradeCumulants]
    rw [bind_ok_of e1, bind_ok_of e2]
    rfl

theorem removeDeltas_none {diag : Finset Index} : ∀ (ts : List Tensor) (st : ReplState), (∀ x ∈ ts, x.cls ≠ .kronecker) →
    removeDeltas diag st ts = .ok (st, ts)
  | [], _, _ => rfl
  | t :: ts, st, h => by
    unfold removeDeltas
    rw [if_neg (h t (by simp)), bind_ok_of (removeDeltas_none ts st fun x hx => h x (by simp [hx]))]
    rfl

theorem diagonalLoop_same {ord : SetOrder} (hord : ord.Lawful) {rd : Index → Finset Index} :
    ∀ (L : List Index) (q : (Index → Index) × (Space → Nat) × Finset Index), (∀ i ∈ L, rd i = {i}) → (∀ j, (q.1 j).space = j.space) →
      ∃ r, diagonalLoop ord rd L q = .ok r ∧ ∀ j, (r.1 j).space = j.space
  | [], q, _, h => ⟨_, rfl, h⟩
  | i :: L, (repl, next, keys), h1, h => by
    unfold diagonalLoop
    have hov : ((rd i).inf fun j => j.space.relation) = i.space.relation := by rw [h1 i (by simp), Finset.inf_singleton]
    have hfirst : (ord.spaces i.space.relation).headD ⟨.g, false⟩ ∈ i.space.relation := by
      obtain ⟨x, hx⟩ := relation_nonempty i.space
      cases hsp : ord.spaces i.space.relation with
      | nil => rw [← hord.mem_spaces, hsp] at hx; simp at hx
      | cons x l => rw [← hord.mem_spaces, hsp]; simp
    have hs : findSpaceLabel ((rd i).inf fun j => j.space.relation)
        ((ord.spaces ((rd i).inf fun j => j.space.relation)).headD ⟨.g, false⟩) = .ok (some i.space) := by
      rw [hov]; exact findSpaceLabel_relation i.space _ hfirst
    simp only []
    rw [bind_ok_of hs]
    simp only []
    refine diagonalLoop_same hord L _ (fun j hj => h1 j (by simp [hj])) ?_
    intro j
    simp only []
    rw [h1 i (by simp)]
    split_ifs with e
    · obtain rfl : j = i := by simpa using e
      rfl
    · exact h j

theorem diagonalLoop_within {ord : SetOrder} {rd : Index → Finset Index} {K : Finset Index} : ∀ (L : List Index)
    (q r : (Index → Index) × (Space → Nat) × Finset Index), (∀ i ∈ L, rd i = {i}) → (∀ i ∈ L, i ∈ K) → q.2.2 ⊆ K →
      diagonalLoop ord rd L q = .ok r → r.2.2 ⊆ K := by
  intro L
  induction L with
  | nil =>
    intro q r _ _ hq h
    simp only [diagonalLoop, pure, Except.pure, Except.ok.injEq] at h
    subst h; exact hq
  | cons i L ih =>
    intro q r h1 h2 hq h
    obtain ⟨repl, next, ks⟩ := q
    simp only [diagonalLoop, bind, Except.bind] at h
    cases hs : findSpaceLabel ((rd i).inf fun j => j.space.relation)
        ((ord.spaces ((rd i).inf fun j => j.space.relation)).headD ⟨.g, false⟩) with
    | error e => rw [hs] at h; simp at h
    | ok so =>
      rw [hs] at h
      cases so with
      | none => simp at h
      | some s =>
        refine ih _ _ (fun j hj => h1 j (by simp [hj])) (fun j hj => h2 j (by simp [hj])) ?_ h
        intro x hx
        simp only [Finset.mem_union, Finset.mem_insert, h1 i (by simp), Finset.mem_singleton, or_self] at hx
        rcases hx with hx | rfl
        · exact hq hx
        · exact h2 x (by simp)

/-- The stages of a call of `simplify` that returns. -/
theorem Term.simplify_cases {ord : SetOrder} {t s : Term} {core removeActive : Bool} (h : t.simplify ord core removeActive = .ok s) :
    ∃ cu de st, downgradeCumulants core t.diag ⟨id, t.nextNum, fun i => {i}⟩ t.tensors = .ok cu ∧
      removeDeltas t.diag ⟨cu.1.repl, cu.1.next, fun i => {i}⟩ cu.2 = .ok de ∧
      diagonalLoop ord (fun i => cu.1.rdiag i ∪ de.1.rdiag i) (ord.indices t.diag) (de.1.repl, de.1.next, t.indicesSet) = .ok st ∧
      replaceSqOp (lookupIn st.2.2 st.1) t.sqOp = .ok (t.sqOp.relabel st.1) ∧
      (((removeActive && de.2.any (allActiveAmplitude st.1)) = true ∧
          s = { coeff := 0, sqOp := (t.sqOp.relabel st.1).void, tensors := [], indicesSet := ∅, nextNum := st.2.1, diag := ∅ }) ∨
        ((removeActive && de.2.any (allActiveAmplitude st.1)) = false ∧
          replaceTensors (lookupIn st.2.2 st.1) de.2 = .ok (de.2.map (Tensor.relabel st.1)) ∧
          s = { coeff := t.coeff, sqOp := t.sqOp.relabel st.1, tensors := de.2.map (Tensor.relabel st.1), indicesSet := st.2.2.image st.1,
                nextNum := st.2.1, diag := t.diag.image st.1 })) := by
  unfold Term.simplify at h
  obtain ⟨cu, hcu, h⟩ := bind_ok h
  obtain ⟨de, hde, h⟩ := bind_ok h
  obtain ⟨st, hlo, h⟩ := bind_ok h
  obtain ⟨op, hop, h⟩ := bind_ok h
  obtain ⟨rfl, -⟩ := replaceSqOp_ok (realizes_lookupIn _ _) hop
  refine ⟨cu, de, st, hcu, hde, hlo, hop, ?_⟩
  by_cases hv : (removeActive && de.2.any (allActiveAmplitude st.1)) = true
  · rw [if_pos hv] at h
    simp only [pure, Except.pure, Except.ok.injEq] at h
    exact Or.inl ⟨hv, h.symm⟩
  · rw [if_neg hv] at h
    obtain ⟨ts, hts, h⟩ := bind_ok h
    obtain ⟨-, rfl, -⟩ := replaceTensors_ok (realizes_lookupIn _ _) hts
    simp only [pure, Except.pure, Except.ok.injEq] at h
    exact Or.inr ⟨by simpa using hv, hts, h.symm⟩

theorem Sane.of_make {ts : List Tensor} {op : SqOp} {c : ℚ} {t : Term} (h : Term.make ts op c = .ok t) (hp : Paired ts op) : Sane t := by
  have hw := Term.wf_of_make h
  obtain ⟨-, -, -, rfl⟩ := Term.make_ok.1 h
  refine ⟨hw, ?_, hp.perm (sortTensors_perm ts).symm⟩
  intro i hi
  simp only [mem_diagonalOf, (sortTensors_perm ts).mem_iff] at hi ⊢
  exact hi

theorem Sane.diag_labels {t : Term} (h : Sane t) {i : Index} (hi : i ∈ t.diag) : i ∈ labelList t.tensors t.sqOp := by
  rw [mem_labelList]
  rcases mem_diagonalOf.1 (h.diag hi) with ⟨h1, -⟩ | ⟨x, hx, h1, -⟩
  · exact Or.inl (List.mem_append_left _ h1)
  · exact Or.inr ⟨x, hx, List.mem_append_left _ h1⟩

theorem Sane.diag_outer {t : Term} (h : Sane t) {i : Index} (hi : i ∈ t.diag) : ∀ x ∈ t.tensors, x.isDensity = true → i ∉ x.pair.indices := by
  intro x hx hd hix
  exact h.paired.diag (h.diag hi) (List.mem_append_right _ (List.mem_flatMap.2 ⟨x, List.mem_filter.2 ⟨hx, hd⟩, hix⟩))

/-- Everything about the labels of a simplified object. -/
theorem Sane.simplify {ord : SetOrder} (hord : ord.Lawful) {t s : Term} {removeActive : Bool} (ht : Sane t)
    (h : t.simplify ord true removeActive = .ok s) : Sane s := by
  classical
  obtain ⟨htidy, -⟩ := Term.simplify_tidy hord ht.wf ht.diag ht.paired h
  obtain ⟨hset, -⟩ := Term.simplify_shape ht.wf.set_sub h
  obtain ⟨cu, de, st, hcu, hde, hlo, hop, hs⟩ := Term.simplify_cases h
  obtain ⟨-, -, hfil, -, -, hfresh, -, hrd, -⟩ := Term.simplify_stage hord ht.wf ht.diag ht.paired hcu hde hlo
  have hkeys : st.2.2 ⊆ t.indicesSet := by
    refine diagonalLoop_within _ _ _ (fun i hi => hrd i ((hord.mem_indices _ _).1 hi)) ?_ (Finset.Subset.refl _) hlo
    intro i hi
    exact ht.wf.set_sub (mem_labelsOf.2 (ht.diag_labels ((hord.mem_indices _ _).1 hi)))
  have htwo : ∀ i ∈ labelsOf s.tensors s.sqOp, 2 ≤ (labelList s.tensors s.sqOp).count i := by
    intro i hi; rw [htidy.two i (mem_labelsOf.1 hi)]
  refine ⟨⟨hset, ?_, htwo⟩, ?_, htidy.toPaired⟩
  · rcases hs with ⟨-, rfl⟩ | ⟨-, -, rfl⟩
    · simp
    · intro j hj
      obtain ⟨i, hi, rfl⟩ := Finset.mem_image.1 hj
      exact hfresh i (hkeys hi)
  · rcases hs with ⟨-, rfl⟩ | ⟨-, -, rfl⟩
    · simp
    · intro j hj
      obtain ⟨i, hi, rfl⟩ := Finset.mem_image.1 hj
      rw [mem_diagonalOf]
      rcases mem_diagonalOf.1 (ht.diag hi) with ⟨h1, h2⟩ | ⟨x, hx, h1, h2⟩
      · exact Or.inl ⟨List.mem_map_of_mem h1, List.mem_map_of_mem h2⟩
      · refine Or.inr ⟨x.relabel st.1, List.mem_map_of_mem ?_, List.mem_map_of_mem h1, List.mem_map_of_mem h2⟩
        rw [hfil, List.mem_filter]
        refine ⟨hx, decide_eq_true ?_⟩
        intro hd
        exact ht.diag_outer hi x hx hd.isDensity (List.mem_append_left _ h1)

theorem replaceTensor_constructed {ρ : Index → Except PyErr Index} {f : Index → Index} (hρ : Realizes ρ f) {x y : Tensor} (h : replaceTensor ρ x = .ok y) :
    y.Constructed := by
  have hy := (replaceTensor_ok hρ h).1
  unfold replaceTensor at h
  obtain ⟨ul, h1, h⟩ := bind_ok h
  obtain ⟨u, h2, h⟩ := bind_ok h
  obtain ⟨ll, h3, h⟩ := bind_ok h
  obtain ⟨l, h4, h⟩ := bind_ok h
  obtain ⟨rfl, -⟩ := Indices.make_eq h2
  obtain ⟨rfl, -⟩ := Indices.make_eq h4
  obtain ⟨rfl, -⟩ := Tensor.make_eq h
  exact ⟨h2, h4, h⟩

theorem replaceSqOp_constructed {ρ : Index → Except PyErr Index} {x y : SqOp} (h : replaceSqOp ρ x = .ok y) : IndicesPair.Constructed y := by
  unfold replaceSqOp at h
  obtain ⟨ul, h1, h⟩ := bind_ok h
  obtain ⟨u, h2, h⟩ := bind_ok h
  obtain ⟨ll, h3, h⟩ := bind_ok h
  obtain ⟨l, h4, h⟩ := bind_ok h
  obtain ⟨rfl, -⟩ := Indices.make_eq h2
  obtain ⟨rfl, -⟩ := Indices.make_eq h4
  obtain ⟨rfl, -⟩ := IndicesPair.make_eq h
  exact ⟨h2, h4, h⟩

/-- The two labels of a one-body density are sent to one space. -/
theorem downgradeStep_even {diag : Finset Index} {st st' : ReplState} {t t' : Tensor} (h : downgradeStep true diag st t = .ok (st', t'))
    (hc : t.cls = .cumulant) (hnd : ¬ ActsAsDelta true t) :
    t.upper.list.length = t.lower.list.length ∧
      (t.upper.list.length = 1 → ∀ i ∈ t.pair.indices, ∀ j ∈ t.pair.indices, (st'.repl i).space = (st'.repl j).space) := by
  unfold downgradeStep at h
  rw [if_pos hc] at h
  unfold IndicesPair.nBody at h
  by_cases hnb : t.pair.nLower = t.pair.nUpper
  swap
  · rw [if_pos hnb] at h; simp [bind, Except.bind] at h
  rw [if_neg (by simpa using hnb)] at h
  simp only [bind, Except.bind, pure, Except.pure] at h
  refine ⟨hnb.symm, fun hu1 => ?_⟩
  have hn1 : t.pair.nLower = 1 := hnb.trans hu1
  rw [if_neg (by simpa using hn1)] at h
  obtain ⟨u, hu⟩ := List.length_eq_one_iff.1 hu1
  obtain ⟨l, hl⟩ := List.length_eq_one_iff.1 (show t.lower.list.length = 1 from hn1)
  have hd : t.downgradeIndices = .ok (downgradeDensity .v .h u.space l.space) := by
    unfold Tensor.downgradeIndices; rw [hc, hu, hl]
  rw [hd] at h
  cases hs : downgradeDensity .v .h u.space l.space with
  | none => rw [hs] at h; simp at h
  | some s =>
    rw [hs] at h
    simp only [] at h
    by_cases hk : s.kind = .c ∧ True
    · obtain ⟨hcc, -⟩ := downgrade_density_core _ _ _ hs hk.1
      exact absurd (Or.inr ⟨rfl, hc, u, l, hu, hl, hcc⟩) hnd
    · rw [if_neg hk] at h
      simp only [Except.ok.injEq, Prod.mk.injEq] at h
      obtain ⟨rfl, -⟩ := h
      have key : ∀ i ∈ t.pair.indices, ((t.lower.list.foldl (fun st i => st.assignFresh diag s i)
          (t.upper.list.foldl (fun st i => st.assignFresh diag s i) st)).repl i).space = s := by
        intro i hi
        rw [Tensor.indices_one hu hl] at hi
        rw [hu, hl]
        simp only [List.foldl_cons, List.foldl_nil, ReplState.assignFresh, ReplState.assign, Function.update_apply]
        simp only [List.mem_cons, List.not_mem_nil, or_false] at hi
        rcases hi with rfl | rfl
        · by_cases e : i = l <;> simp [e, generateNextIndex]
        · simp [generateNextIndex]
      intro i hi j hj
      rw [key i hi, key j hj]

theorem downgradeCumulants_even {keys : Finset Index} {E : Index → Index → Prop} (hE : Equivalence E) {diag : Finset Index} :
    ∀ (ts : List Tensor) (st : ReplState) (r : ReplState × List Tensor), Apart keys E st.repl st.next →
      (ts.Pairwise fun a b => a.cls = .cumulant → b.cls = .cumulant → NoCommonLabel a b) →
      downgradeCumulants true diag st ts = .ok r → ∀ x ∈ ts, x.cls = .cumulant → ¬ ActsAsDelta true x →
      x.upper.list.length = x.lower.list.length ∧
        (x.upper.list.length = 1 → ∀ i ∈ x.pair.indices, ∀ j ∈ x.pair.indices, (r.1.repl i).space = (r.1.repl j).space) := by
  intro ts
  induction ts with
  | nil => simp
  | cons t ts ih =>
    intro st r hst hpw h x hx hc hnd
    rw [List.pairwise_cons] at hpw
    simp only [downgradeCumulants] at h
    obtain ⟨q, hs, h⟩ := bind_ok h
    obtain ⟨qs, hr, h⟩ := bind_ok h
    simp only [pure, Except.pure, Except.ok.injEq] at h
    subst h
    obtain ⟨a1, -, -, -⟩ := downgradeStep_shape hE hst hs
    rcases List.mem_cons.1 hx with rfl | hx
    · obtain ⟨e1, e2⟩ := downgradeStep_even hs hc hnd
      obtain ⟨-, b2, -, -⟩ := downgradeCumulants_shape hE ts _ _ a1 hpw.2 hr
      refine ⟨e1, fun hu i hi j hj => ?_⟩
      have hsame : ∀ k ∈ x.pair.indices, qs.1.repl k = q.1.repl k := fun k hk => (b2 k fun y hy hyc _ => hpw.1 y hy hc hyc k hk).1
      simp only []
      rw [hsame i hi, hsame j hj]
      exact e2 hu i hi j hj
    · exact ih _ _ a1 hpw.2 hr x hx hc hnd

/-- After `simplify` the densities have their final labels. -/
theorem Level.of_simplify {ord : SetOrder} (hord : ord.Lawful) {t s : Term} {removeActive : Bool} (ht : Sane t)
    (h : t.simplify ord true removeActive = .ok s) (hne : s.tensors ≠ []) : Level s := by
  classical
  have hsane := ht.simplify hord h
  obtain ⟨htidy, -⟩ := Term.simplify_tidy hord ht.wf ht.diag ht.paired h
  obtain ⟨cu, de, st, hcu, hde, hlo, hop, hs⟩ := Term.simplify_cases h
  obtain ⟨-, -, hfil, hlow, -, -, hrest, -, -⟩ := Term.simplify_stage hord ht.wf ht.diag ht.paired hcu hde hlo
  have hE := ht.paired.merged
  have hpw : t.tensors.Pairwise fun a b => a.cls = .cumulant → b.cls = .cumulant → NoCommonLabel a b :=
    ht.paired.apart.imp fun hab ha hb => hab (by simp [Tensor.isDensity, ha]) (by simp [Tensor.isDensity, hb])
  have hinit : Apart t.indicesSet (Merged t.tensors) id t.nextNum :=
    ⟨fun i _ j _ e => Or.inl e, fun i hi => ht.wf.fresh i hi, fun i hi => ht.wf.fresh i hi⟩
  have heven := downgradeCumulants_even hE t.tensors _ cu hinit hpw hcu
  obtain ⟨-, -, c3, -⟩ := downgradeCumulants_shape hE t.tensors _ cu hinit hpw hcu
  rcases hs with ⟨-, rfl⟩ | ⟨-, hts, rfl⟩
  · exact absurd rfl hne
  · refine ⟨hsane, htidy.noDelta, ?_, ?_, replaceSqOp_constructed hop, hne⟩
    · intro y hy hc
      obtain ⟨x, hx, rfl⟩ : ∃ x ∈ de.2, x.relabel st.1 = y := List.mem_map.1 hy
      have hc' : x.cls = .cumulant := hc
      rw [hfil, List.mem_filter] at hx
      obtain ⟨hx, hnd⟩ := hx
      have hnd := of_decide_eq_true hnd
      obtain ⟨e1, e2⟩ := heven x hx hc' hnd
      have hd : x.isDensity = true := by simp [Tensor.isDensity, hc']
      have hst : ∀ i ∈ x.pair.indices, st.1 i = cu.1.repl i := by
        intro i hi
        refine hrest i ?_ fun hdg => ht.diag_outer hdg x hx hd hi
        intro y hy hyd hiy
        obtain rfl := ht.paired.unique hx hy hd hyd.isDensity hi hiy
        exact hnd hyd
      have hlo' := c3 x hx hc' hnd
      have hidx : (x.relabel st.1).pair.indices = x.pair.indices.map st.1 := by
        simp [IndicesPair.indices, Tensor.relabel, Tensor.upper, Tensor.lower]
      have hlen : (x.relabel st.1).upper.list.length = x.upper.list.length := by simp [Tensor.relabel, Tensor.upper]
      have hlen' : (x.relabel st.1).lower.list.length = x.lower.list.length := by simp [Tensor.relabel, Tensor.lower]
      refine ⟨by rw [hlen, hlen', e1], fun h1 => ?_, fun h1 => ?_⟩
      · rw [hlen] at h1
        obtain ⟨u, hu⟩ := List.length_eq_one_iff.1 h1
        have hui : u ∈ x.pair.indices := List.mem_append_left _ (by show u ∈ x.upper.list; rw [hu]; simp)
        refine ⟨(st.1 u).space, ?_, ?_⟩
        · rw [hst u hui]; exact (hlo' u hui).2 h1
        · intro j hj
          rw [hidx] at hj
          obtain ⟨i, hi, rfl⟩ := List.mem_map.1 hj
          rw [hst i hi, hst u hui]
          exact e2 h1 i hi u hui
      · rw [hlen] at h1
        intro j hj
        rw [hidx] at hj
        obtain ⟨i, hi, rfl⟩ := List.mem_map.1 hj
        rw [hst i hi]
        exact (hlo' i hi).1 h1
    · intro y hy
      unfold replaceTensors at hts
      split_ifs at hts with h0
      have hf := mapM_ok_forall₂.1 hts
      obtain ⟨x, hx, hxy⟩ := forall₂_mem hf hy
      exact replaceTensor_constructed (realizes_lookupIn _ _) hxy

/-- Two objects that are the same term up to the names of the labels. -/
structure Renamed (s s' : Term) (f : Index → Index) : Prop where
  tensors : s'.tensors = s.tensors.map (Tensor.relabel f)
  op : s'.sqOp = s.sqOp.relabel f
  coeff : s'.coeff = s.coeff
  inj : ∀ i ∈ labelsOf s.tensors s.sqOp, ∀ j ∈ labelsOf s.tensors s.sqOp, f i = f j → i = j
  space : ∀ i, (f i).space = i.space
  diag : s'.diag.card = 0 ↔ s.diag.card = 0

/-- `simplify` on a simplified object only renames labels. -/
theorem Level.simplify {ord : SetOrder} (hord : ord.Lawful) {s : Term} {removeActive : Bool} (hs : Level s)
    (hact : removeActive = true → ∀ x ∈ s.tensors, allActiveAmplitude id x = false) :
    ∃ s' f, s.simplify ord true removeActive = .ok s' ∧ Renamed s s' f ∧ Level s' := by
  classical
  obtain ⟨cu, hcu, hc1⟩ := downgradeCumulants_same (diag := s.diag) s.tensors ⟨id, s.nextNum, fun i => {i}⟩ hs.cumulant fun _ => rfl
  have hnk : ∀ x ∈ s.tensors, x.cls ≠ .kronecker := fun x hx hk => hs.noDelta x hx (Or.inl hk)
  have hde := removeDeltas_none (diag := s.diag) s.tensors ⟨cu.repl, cu.next, fun i => {i}⟩ hnk
  have hE := hs.paired.merged
  have hpw : s.tensors.Pairwise fun a b => a.cls = .cumulant → b.cls = .cumulant → NoCommonLabel a b :=
    hs.paired.apart.imp fun hab ha hb => hab (by simp [Tensor.isDensity, ha]) (by simp [Tensor.isDensity, hb])
  have hinit : Apart s.indicesSet (Merged s.tensors) id s.nextNum :=
    ⟨fun i _ j _ e => Or.inl e, fun i hi => hs.wf.fresh i hi, fun i hi => hs.wf.fresh i hi⟩
  obtain ⟨-, c2, -, -⟩ := downgradeCumulants_shape hE s.tensors _ _ hinit hpw hcu
  have hrd : ∀ i ∈ ord.indices s.diag, (cu.rdiag i ∪ ({i} : Finset Index)) = {i} := by
    intro i hi
    rw [hord.mem_indices] at hi
    have : cu.rdiag i = {i} := (c2 i fun x hx hc _ hix => hs.diag_outer hi x hx (by simp [Tensor.isDensity, hc]) hix).2
    rw [this, Finset.union_idempotent]
  obtain ⟨st, hlo, hsp⟩ := diagonalLoop_same hord (rd := fun i => cu.rdiag i ∪ ({i} : Finset Index)) (ord.indices s.diag)
    (cu.repl, cu.next, s.indicesSet) hrd hc1
  obtain ⟨-, -, -, -, hmer, -⟩ := Term.simplify_stage hord hs.wf hs.diag hs.paired hcu hde hlo
  have hinj : ∀ i ∈ labelsOf s.tensors s.sqOp, ∀ j ∈ labelsOf s.tensors s.sqOp, st.1 i = st.1 j → i = j := by
    intro i hi j hj e
    rcases hmer i (mem_labelsOf.1 hi) j (mem_labelsOf.1 hj) e with h | ⟨x, hx, hd, -⟩
    · exact h
    · exact absurd hd (hs.noDelta x hx)
  have hin : ∀ i ∈ labelsOf s.tensors s.sqOp, lookupIn st.2.2 st.1 i = .ok (st.1 i) := by
    intro i hi
    unfold lookupIn
    rw [if_pos (diagonalLoop_keys _ _ _ hlo (hs.wf.set_sub hi))]
  have hopl : ∀ i ∈ s.sqOp.upper.list ++ s.sqOp.lower.list, i ∈ labelsOf s.tensors s.sqOp :=
    fun i hi => mem_labelsOf.2 (mem_labelList.2 (Or.inl hi))
  have hop : replaceSqOp (lookupIn st.2.2 st.1) s.sqOp = .ok (s.sqOp.relabel st.1) :=
    replaceSqOp_total hs.op (fun i hi => hin i (hopl i hi)) (fun i hi j hj => hinj i (hopl i hi) j (hopl j hj)) fun i _ => by rw [hsp i]
  have hx : ∀ x ∈ s.tensors, replaceTensor (lookupIn st.2.2 st.1) x = .ok (x.relabel st.1) := by
    intro x hx
    have hl : ∀ i ∈ x.upper.list ++ x.lower.list, i ∈ labelsOf s.tensors s.sqOp :=
      fun i hi => mem_labelsOf.2 (mem_labelList.2 (Or.inr ⟨x, hx, hi⟩))
    exact replaceTensor_total (hs.tensor x hx) (fun i hi => hin i (hl i hi)) (fun i hi j hj => hinj i (hl i hi) j (hl j hj))
      (fun i _ => by rw [hsp i]) fun _ i _ => Or.inl (by rw [hsp i])
  have hts : replaceTensors (lookupIn st.2.2 st.1) s.tensors = .ok (s.tensors.map (Tensor.relabel st.1)) := by
    unfold replaceTensors
    rw [if_neg (fun h => hs.ne (List.length_eq_zero_iff.1 h)), mapM_ok_of_forall hx]
  have hany : (removeActive && s.tensors.any (allActiveAmplitude st.1)) = false := by
    cases hra : removeActive with
    | false => rfl
    | true =>
      rw [Bool.true_and, List.any_eq_false]
      intro x hxm
      have := hact hra x hxm
      unfold allActiveAmplitude at this ⊢
      simp only [hsp]
      simpa using this
  have hsimp : s.simplify ord true removeActive = .ok { coeff := s.coeff, sqOp := s.sqOp.relabel st.1, tensors := s.tensors.map (Tensor.relabel st.1), indicesSet := st.2.2.image st.1, nextNum := st.2.1, diag := s.diag.image st.1 } := by
    unfold Term.simplify
    rw [bind_ok_of hcu]
    simp only []
    rw [bind_ok_of hde]
    simp only []
    rw [bind_ok_of hlo, bind_ok_of hop, if_neg (by rw [hany]; simp), bind_ok_of hts]
    rfl
  refine ⟨_, st.1, hsimp, ⟨rfl, rfl, rfl, hinj, hsp, ?_⟩, Level.of_simplify hord hs.toSane hsimp ?_⟩
  · simp [Finset.card_eq_zero]
  · simpa using hs.ne

end Dsrg
