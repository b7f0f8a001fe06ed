import Verif.Lemmas.TermObject
import Verif.Spec.TermCalls

/-!
What a call of `simplify` that raises leaves behind.
-/

namespace Dsrg

theorem Cored.pair {x y : Tensor} (h : Cored x y) : y.pair = x.pair := by
  rcases h with rfl | ⟨-, -, rfl⟩ <;> rfl

theorem Cored.isDensity {x y : Tensor} (h : Cored x y) : y.isDensity = x.isDensity := by
  rcases h with rfl | ⟨h, -, rfl⟩
  · rfl
  · simp [Tensor.isDensity, h]

theorem Cored.of_step {diag : Finset Index} {st st' : ReplState} {x y : Tensor} (h : downgradeStep true diag st x = .ok (st', y)) : Cored x y := by
  obtain ⟨-, -, -, h1, h2, h3⟩ := downgradeStep_shape (E := fun _ _ => True) (keys := ∅) ⟨fun _ => trivial, fun _ => trivial, fun _ _ => trivial⟩
    (st := st) ⟨by simp, by simp, by simp⟩ h
  by_cases hk : y.cls = .kronecker
  · by_cases hx : x.cls = .cumulant
    · right
      refine ⟨hx, h2.1 hk, ?_⟩
      unfold downgradeStep at h
      rw [if_pos hx] at h
      obtain ⟨n, hn, h⟩ := bind_ok h
      split_ifs at h with hn1
      · simp only [pure, Except.pure, Except.ok.injEq, Prod.mk.injEq] at h
        rw [← h.2, hx] at hk; cases hk
      · obtain ⟨so, hso, h⟩ := bind_ok h
        cases so with
        | none => simp at h
        | some s =>
          simp only [] at h
          split_ifs at h with hc
          · obtain ⟨k, hm, h⟩ := bind_ok h
            simp only [pure, Except.pure, Except.ok.injEq, Prod.mk.injEq] at h
            obtain ⟨rfl, -⟩ := Tensor.make_eq hm
            exact h.2.symm
          · simp only [pure, Except.pure, Except.ok.injEq, Prod.mk.injEq] at h
            rw [← h.2, hx] at hk; cases hk
    · left
      unfold downgradeStep at h
      rw [if_neg hx] at h
      simp only [pure, Except.pure, Except.ok.injEq, Prod.mk.injEq] at h
      exact h.2.symm
  · exact Or.inl (h3 hk)

theorem downgradeObj_cored {diag : Finset Index} : ∀ (ts : List Tensor) (st : ReplState),
    List.Forall₂ Cored ts (downgradeObj true diag st ts).1
  | [], _ => .nil
  | t :: ts, st => by
    unfold downgradeObj
    cases h : downgradeStep true diag st t with
    | error e => exact List.forall₂_same.2 fun x _ => Or.inl rfl
    | ok r => exact .cons (Cored.of_step h) (downgradeObj_cored ts r.1)

/-! ### Counters only grow -/

theorem generateNextIndex_le (s : Space) (next : Space → Nat) : next ≤ (generateNextIndex s next).2 := by
  intro x
  unfold generateNextIndex
  simp only [Function.update_apply]
  split_ifs with e
  · rw [e]; omega
  · exact le_refl _

theorem foldl_fresh_le {diag : Finset Index} (sp : Index → Space) : ∀ (l : List Index) (st : ReplState),
    st.next ≤ (l.foldl (fun st i => st.assignFresh diag (sp i) i) st).next
  | [], _ => le_refl _
  | a :: l, st => le_trans (generateNextIndex_le (sp a) st.next) (foldl_fresh_le sp l (st.assignFresh diag (sp a) a))

theorem downgradeStep_le {diag : Finset Index} {core : Bool} {st : ReplState} {x : Tensor} {r : ReplState × Tensor}
    (h : downgradeStep core diag st x = .ok r) : st.next ≤ r.1.next := by
  unfold downgradeStep at h
  split_ifs at h
  · obtain ⟨n, hn, h⟩ := bind_ok h
    split_ifs at h with hn1
    · simp only [pure, Except.pure, Except.ok.injEq] at h
      subst h
      exact le_trans (foldl_fresh_le activeOf _ _) (foldl_fresh_le activeOf _ _)
    · obtain ⟨so, hso, h⟩ := bind_ok h
      cases so with
      | none => simp at h
      | some s =>
        simp only [] at h
        split_ifs at h with hc
        · obtain ⟨k, hm, h⟩ := bind_ok h
          simp only [pure, Except.pure, Except.ok.injEq] at h
          subst h; exact le_refl _
        · simp only [pure, Except.pure, Except.ok.injEq] at h
          subst h
          exact le_trans (foldl_fresh_le (fun _ => s) _ _) (foldl_fresh_le (fun _ => s) _ _)
  · simp only [pure, Except.pure, Except.ok.injEq] at h
    subst h; exact le_refl _

theorem downgradeObj_le {diag : Finset Index} {core : Bool} : ∀ (ts : List Tensor) (st : ReplState) {r : ReplState},
    (downgradeObj core diag st ts).2 = .ok r → st.next ≤ r.next
  | [], st, r, h => by simp only [downgradeObj, Except.ok.injEq] at h; rw [h]
  | t :: ts, st, r, h => by
    unfold downgradeObj at h
    cases hs : downgradeStep core diag st t with
    | error e => rw [hs] at h; simp at h
    | ok q =>
      rw [hs] at h
      exact le_trans (downgradeStep_le hs) (downgradeObj_le ts q.1 h)

theorem deltaStep_le {diag : Finset Index} {st st' : ReplState} {x : Tensor} (h : deltaStep diag st x = .ok st') : st.next ≤ st'.next := by
  unfold deltaStep at h
  obtain ⟨so, hso, h⟩ := bind_ok h
  cases so with
  | none => simp at h
  | some s =>
    simp only [] at h
    split at h
    · split_ifs at h
      · simp only [pure, Except.pure, Except.ok.injEq] at h
        subst h; exact generateNextIndex_le _ _
      · simp only [pure, Except.pure, Except.ok.injEq] at h
        subst h; exact le_refl _
    · simp at h

theorem removeDeltas_le {diag : Finset Index} : ∀ (ts : List Tensor) (st : ReplState) {r : ReplState × List Tensor},
    removeDeltas diag st ts = .ok r → st.next ≤ r.1.next
  | [], st, r, h => by simp only [removeDeltas, pure, Except.pure, Except.ok.injEq] at h; rw [← h]
  | t :: ts, st, r, h => by
    unfold removeDeltas at h
    split_ifs at h
    · obtain ⟨q, hq, h⟩ := bind_ok h
      exact le_trans (deltaStep_le hq) (removeDeltas_le ts q h)
    · obtain ⟨q, hq, h⟩ := bind_ok h
      simp only [pure, Except.pure, Except.ok.injEq] at h
      have := removeDeltas_le ts st hq
      subst h
      exact this

theorem diagonalObj_le {ord : SetOrder} {rd : Index → Finset Index} : ∀ (L : List Index) (q : (Index → Index) × (Space → Nat) × Finset Index),
    q.2.1 ≤ (diagonalObj ord rd L q).1
  | [], (_, _, _) => le_refl _
  | i :: L, (repl, next, keys) => by
    unfold diagonalObj
    simp only []
    split
    · exact le_refl _
    · exact le_refl _
    · rename_i sp _
      exact le_trans (generateNextIndex_le sp next) (diagonalObj_le L (_, (generateNextIndex sp next).2, _))

/-! ### The state after a raise -/

theorem labelList_cored {ts ts' : List Tensor} (h : List.Forall₂ Cored ts ts') (op op' : SqOp) (hu : op'.upper.list = op.upper.list)
    (hl : op'.lower.list = op.lower.list) : labelList ts' op' = labelList ts op := by
  unfold labelList
  rw [hu, hl]
  congr 1
  induction h with
  | nil => rfl
  | cons hx _ ih =>
    rw [List.flatMap_cons, List.flatMap_cons, ih]
    simp only [Tensor.upper, Tensor.lower, hx.pair]

theorem outerList_cored {ts ts' : List Tensor} (h : List.Forall₂ Cored ts ts') (op op' : SqOp) (hu : op'.upper.list = op.upper.list)
    (hl : op'.lower.list = op.lower.list) : outerList ts' op' = outerList ts op := by
  unfold outerList
  rw [hu, hl]
  congr 1
  induction h with
  | nil => rfl
  | cons hx _ ih =>
    rw [List.filter_cons, List.filter_cons, hx.isDensity]
    split_ifs
    · rw [List.flatMap_cons, List.flatMap_cons, ih]
      simp only [Tensor.upper, Tensor.lower, hx.pair]
    · exact ih

theorem cored_mem {ts ts' : List Tensor} (h : List.Forall₂ Cored ts ts') {x : Tensor} (hx : x ∈ ts) : ∃ y ∈ ts', Cored x y := by
  induction h with
  | nil => simp at hx
  | cons hab _ ih =>
    rcases List.mem_cons.1 hx with rfl | hx
    · exact ⟨_, by simp, hab⟩
    · obtain ⟨y, hy, hs⟩ := ih hx; exact ⟨y, by simp [hy], hs⟩

theorem Sane.cored {t s : Term} (ht : Sane t) (h : List.Forall₂ Cored t.tensors s.tensors) (hu : s.sqOp.upper.list = t.sqOp.upper.list)
    (hl : s.sqOp.lower.list = t.sqOp.lower.list) (hset : s.indicesSet = t.indicesSet) (hd : s.diag = t.diag) (hn : t.nextNum ≤ s.nextNum) : Sane s := by
  have hL := labelList_cored h t.sqOp s.sqOp hu hl
  have hO := outerList_cored h t.sqOp s.sqOp hu hl
  have hS : labelsOf s.tensors s.sqOp = labelsOf t.tensors t.sqOp := by
    ext i; rw [mem_labelsOf, mem_labelsOf, hL]
  refine ⟨⟨?_, ?_, ?_⟩, ?_, ⟨?_, ?_, ?_⟩⟩
  · rw [hS, hset]; exact ht.wf.set_sub
  · intro i hi
    rw [hset] at hi
    exact lt_of_lt_of_le (ht.wf.fresh i hi) (hn i.space)
  · intro i hi
    rw [hS] at hi
    rw [hL]; exact ht.wf.two i hi
  · intro i hi
    rw [hd] at hi
    rw [mem_diagonalOf]
    rcases mem_diagonalOf.1 (ht.diag hi) with ⟨h1, h2⟩ | ⟨x, hx, h1, h2⟩
    · exact Or.inl ⟨by rw [hu]; exact h1, by rw [hl]; exact h2⟩
    · obtain ⟨y, hy, hxy⟩ := cored_mem h hx
      exact Or.inr ⟨y, hy, by rw [Tensor.upper, hxy.pair]; exact h1, by rw [Tensor.lower, hxy.pair]; exact h2⟩
  · rw [hL]; exact ht.paired.two
  · rw [hO]; exact ht.paired.outer
  · intro y hy hc hn1 i hi
    obtain ⟨x, hx, hxy⟩ := forall₂_mem h hy
    rcases hxy with rfl | ⟨-, -, rfl⟩
    · exact ht.paired.active y hx hc hn1 i hi
    · cases hc

/-- The labels of the operator are not touched. -/
theorem Sane.op_fixed {ord : SetOrder} (hord : ord.Lawful) {t : Term} (ht : Sane t) {cu de : ReplState × List Tensor}
    {st : (Index → Index) × (Space → Nat) × Finset Index}
    (hcu : downgradeCumulants true t.diag ⟨id, t.nextNum, fun i => {i}⟩ t.tensors = .ok cu)
    (hde : removeDeltas t.diag ⟨cu.1.repl, cu.1.next, fun i => {i}⟩ cu.2 = .ok de)
    (hlo : diagonalLoop ord (fun i => cu.1.rdiag i ∪ de.1.rdiag i) (ord.indices t.diag) (de.1.repl, de.1.next, t.indicesSet) = .ok st)
    {i : Index} (hi : i ∈ t.sqOp.upper.list ++ t.sqOp.lower.list) : st.1 i = i := by
  classical
  obtain ⟨-, -, -, -, -, -, hst, -, -⟩ := Term.simplify_stage hord ht.wf ht.diag ht.paired hcu hde hlo
  have hE := ht.paired.merged
  obtain ⟨-, c2, -, -⟩ := downgradeCumulants_shape (keys := t.indicesSet) hE t.tensors _ cu
    ⟨fun i _ j _ e => Or.inl e, fun i hi => ht.wf.fresh i hi, fun i hi => ht.wf.fresh i hi⟩
    (ht.paired.apart.imp fun hab ha hb => hab (by simp [Tensor.isDensity, ha]) (by simp [Tensor.isDensity, hb])) hcu
  have hout : ∀ x ∈ t.tensors, x.isDensity = true → i ∉ x.pair.indices := by
    intro x hx hd hix
    have := ht.paired.outer
    unfold outerList at this
    rw [List.nodup_append] at this
    exact this.2.2 i hi i (List.mem_flatMap.2 ⟨x, List.mem_filter.2 ⟨hx, hd⟩, hix⟩) rfl
  have hdg : i ∉ t.diag := fun hd => ht.paired.diag (ht.diag hd) (List.mem_append_left _ hi)
  rw [hst i (fun x hx hd => hout x hx hd.isDensity) hdg]
  exact (c2 i fun x hx hc _ => hout x hx (by simp [Tensor.isDensity, hc])).1

/-- A call of `simplify` that raises changes core densities to deltas and raises the counters, and nothing else. -/
theorem Sane.raise {ord : SetOrder} (hord : ord.Lawful) {t s : Term} (ht : Sane t) {ra : Bool} {e : PyErr}
    (h : t.simplifyObj ord true ra = (s, .error e)) :
    List.Forall₂ Cored t.tensors s.tensors ∧ s.sqOp.upper = t.sqOp.upper ∧ s.sqOp.lower.list = t.sqOp.lower.list ∧ s.coeff = t.coeff ∧
      s.indicesSet = t.indicesSet ∧ s.diag = t.diag ∧ t.nextNum ≤ s.nextNum := by
  have hC := downgradeObj_cored (diag := t.diag) t.tensors ⟨id, t.nextNum, fun i => {i}⟩
  have hle := fun r => downgradeObj_le (core := true) (diag := t.diag) t.tensors ⟨id, t.nextNum, fun i => {i}⟩ (r := r)
  have heq := downgradeObj_eq (core := true) (diag := t.diag) t.tensors ⟨id, t.nextNum, fun i => {i}⟩
  unfold Term.simplifyObj at h
  rcases hcu : downgradeObj true t.diag ⟨id, t.nextNum, fun i => {i}⟩ t.tensors with ⟨ts, e' | cu⟩
  · rw [hcu] at h hC
    simp only [Prod.mk.injEq] at h
    obtain ⟨rfl, -⟩ := h
    exact ⟨hC, rfl, rfl, rfl, rfl, rfl, le_refl _⟩
  rw [hcu] at h hC hle heq
  have hle1 : t.nextNum ≤ cu.next := hle cu rfl
  simp only [] at h
  cases hde : removeDeltas t.diag ⟨cu.repl, cu.next, fun i => {i}⟩ ts with
  | error e' =>
    rw [hde] at h
    simp only [Prod.mk.injEq] at h
    obtain ⟨rfl, -⟩ := h
    exact ⟨hC, rfl, rfl, rfl, rfl, rfl, hle1⟩
  | ok de =>
  rw [hde] at h
  have hle2 : t.nextNum ≤ de.1.next := le_trans hle1 (removeDeltas_le ts ⟨cu.repl, cu.next, fun i => {i}⟩ hde)
  have hle3 := le_trans hle2 (diagonalObj_le (ord := ord) (rd := fun i => cu.rdiag i ∪ de.1.rdiag i) (ord.indices t.diag) (de.1.repl, de.1.next, t.indicesSet))
  have hlo' := diagonalObj_eq (ord := ord) (rd := fun i => cu.rdiag i ∪ de.1.rdiag i) (ord.indices t.diag) (de.1.repl, de.1.next, t.indicesSet)
  simp only [] at h
  rcases hlo : diagonalObj ord (fun i => cu.rdiag i ∪ de.1.rdiag i) (ord.indices t.diag) (de.1.repl, de.1.next, t.indicesSet) with ⟨next, e' | ⟨repl, keys⟩⟩
  · rw [hlo] at h hle3
    simp only [Prod.mk.injEq] at h
    obtain ⟨rfl, -⟩ := h
    exact ⟨hC, rfl, rfl, rfl, rfl, rfl, hle3⟩
  rw [hlo] at h hle3 hlo'
  simp only [] at h
  cases hop : replaceSqOp (lookupIn keys repl) t.sqOp with
  | error e' =>
    rw [hop] at h
    simp only [Prod.mk.injEq] at h
    obtain ⟨rfl, -⟩ := h
    exact ⟨hC, rfl, rfl, rfl, rfl, rfl, hle3⟩
  | ok op =>
  rw [hop] at h
  simp only [] at h
  split_ifs at h with hv
  · simp at h
  cases hts : replaceTensors (lookupIn keys repl) de.2 with
  | ok new => rw [hts] at h; simp at h
  | error e' =>
  rw [hts] at h
  simp only [Prod.mk.injEq] at h
  obtain ⟨rfl, -⟩ := h
  have hfix : ∀ i ∈ t.sqOp.upper.list ++ t.sqOp.lower.list, repl i = i := fun i hi =>
    ht.op_fixed hord (cu := (cu, ts)) (de := de) (st := (repl, next, keys)) heq hde hlo' hi
  obtain ⟨rfl, -, -⟩ := replaceSqOp_ok (realizes_lookupIn keys repl) hop
  refine ⟨hC, ?_, ?_, rfl, rfl, rfl, hle3⟩
  · show (⟨t.sqOp.upper.ty, t.sqOp.upper.list.map repl⟩ : Indices) = t.sqOp.upper
    rw [List.map_congr_left (g := id) fun i hi => hfix i (List.mem_append_left _ hi), List.map_id]
  · show t.sqOp.lower.list.map repl = t.sqOp.lower.list
    rw [List.map_congr_left (g := id) fun i hi => hfix i (List.mem_append_right _ hi), List.map_id]

section
variable {O R M : Type} [Fintype O] [DecidableEq O] [Inhabited O] [CommRing R] [Algebra ℚ R] [AddCommGroup M] [Module R M]

omit [Fintype O] [Inhabited O] [Algebra ℚ R] [AddCommGroup M] [Module R M] in
theorem Cored.tval {I : Interp O R M} {orb : Orbitals O} (hph : I.Physical orb) {x y : Tensor} (h : Cored x y) (σ : Index → O)
    (hσ : ∀ i ∈ x.pair.indices, orb.In i.space (σ i)) : I.tval σ y = I.tval σ x := by
  rcases h with rfl | ⟨hc, hd, rfl⟩
  · rfl
  rcases hd with hd | ⟨-, -, u, l, hu, hl, hcc⟩
  · rw [hc] at hd; cases hd
  have hidx := Tensor.indices_one hu hl
  have h1 : I.tval σ x = I.tensor .cumulant x.name [σ u] [σ l] := by simp [Interp.tval, hc, hu, hl]
  have h2 : I.tval σ ⟨.kronecker, ['K'], -1, x.pair⟩ = I.tensor .kronecker ['K'] [σ u] [σ l] := by
    show I.tensor .kronecker ['K'] (x.upper.list.map σ) (x.lower.list.map σ) = _
    rw [hu, hl]; rfl
  rw [h1, h2, hph.kron]
  symm
  apply hph.dens_core
  have key : ∀ {k : Kind} {e : Elem}, k = .c → k.Denotes e → e = .core := by decide
  rcases hcc with hcc | hcc
  · exact Or.inl (key hcc (hσ u (by simp [hidx])).1)
  · exact Or.inr (key hcc (hσ l (by simp [hidx])).1)

theorem value_cored {I : Interp O R M} {orb : Orbitals O} (hph : I.Physical orb) {ts ts' : List Tensor} (h : List.Forall₂ Cored ts ts')
    {op op' : SqOp} (hu : op'.upper.list = op.upper.list) (hl : op'.lower.list = op.lower.list) (c : ℚ) :
    I.value orb c ts' op' = I.value orb c ts op := by
  have hL := labelList_cored h op op' hu hl
  have hS : labelsOf ts' op' = labelsOf ts op := by ext i; rw [mem_labelsOf, mem_labelsOf, hL]
  unfold Interp.value
  rw [hS]
  congr 1
  refine Finset.sum_congr rfl fun σ hσ => ?_
  have hop : I.opval (extendTo σ) op' = I.opval (extendTo σ) op := by unfold Interp.opval; rw [hu, hl]
  rw [hop]
  congr 1
  have hin : ∀ x ∈ ts, ∀ i ∈ x.pair.indices, orb.In i.space (extendTo σ i) := fun x hx i hi =>
    Orbitals.extend_in hσ (mem_labelsOf.2 (mem_labelList.2 (Or.inr ⟨x, hx, hi⟩)))
  clear hop
  generalize extendTo σ = τ at hin ⊢
  clear hσ σ hS hL
  unfold Interp.pval
  induction h with
  | nil => rfl
  | cons hab _ ih =>
    rw [List.map_cons, List.map_cons, List.prod_cons, List.prod_cons, ih fun x hx => hin x (by simp [hx]), hab.tval hph _ (hin _ (by simp))]

end

end Dsrg
