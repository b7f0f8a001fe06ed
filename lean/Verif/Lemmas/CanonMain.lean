import Verif.Lemmas.CanonChain
import Verif.Lemmas.Canonical
import Mathlib.Data.List.Dedup

/-!
Products that are the same up to notation are handed to SymPy as inputs that symmetries carry into each other.
-/

namespace Dsrg

/-! ### Sorting keys -/

/-- `<` on the part of the sorting key that does not depend on the labels. -/
def kindLt : (Int × PyStr × Nat) → (Int × PyStr × Nat) → Bool := lexCmp (fun a b : Int => decide (a < b)) (lexCmp strLt fun a b : Nat => decide (a < b))

theorem kind_totLt : TotLt kindLt (lexCmp (fun a b : Int => decide (a ≤ b)) (lexCmp strLe fun a b : Nat => decide (a ≤ b))) :=
  (totLt_linear (α := Int)).lex (str_totLt.lex (totLt_linear (α := Nat)))

theorem ltCore_of_kindLt {x y : Tensor} (h : kindLt x.kindKey y.kindKey = true) : x.ltCore y = true := by
  unfold kindLt lexCmp Tensor.kindKey at h
  unfold Tensor.ltCore
  simp only [] at h
  split_ifs at h ⊢ with h1 h2 h3
  all_goals first
    | exact h
    | simp_all

/-- The keys do not decrease. -/
def KindSorted (l : List (Int × PyStr × Nat)) : Prop := l.Pairwise fun a b => kindLt b a = false

theorem kindSorted_make (ts : List Tensor) : KindSorted ((sortTensors ts).map Tensor.kindKey) := by
  unfold KindSorted
  rw [List.pairwise_map]
  refine (sortTensors_sorted ts).imp fun {x y} h => ?_
  by_contra hc
  rw [Bool.not_eq_false] at hc
  rw [ltCore_of_kindLt hc] at h
  cases h

theorem kind_antisymm {a b : Int × PyStr × Nat} (h1 : kindLt b a = false) (h2 : kindLt a b = false) : a = b := by
  rcases kind_totLt.tri a b with h | h | h
  · rw [h2] at h; cases h
  · exact h
  · rw [h1] at h; cases h

theorem KindSorted.eq_of_perm {l l' : List (Int × PyStr × Nat)} (h : l.Perm l') (h1 : KindSorted l) (h2 : KindSorted l') : l = l' :=
  List.Perm.eq_of_pairwise (le := fun a b => kindLt b a = false) (fun a b _ _ => kind_antisymm) h1 h2 h

/-! ### The factors of a simplified term are sorted -/

theorem downgradeCumulants_forall {core : Bool} {diag : Finset Index} : ∀ (ts : List Tensor) (st : ReplState) (r : ReplState × List Tensor),
    downgradeCumulants core diag st ts = .ok r → List.Forall₂ (fun x y : Tensor => y.cls ≠ .kronecker → y = x) ts r.2 := by
  intro ts
  induction ts with
  | nil =>
    intro st r h
    simp only [downgradeCumulants, pure, Except.pure, Except.ok.injEq] at h
    subst h; exact .nil
  | cons t ts ih =>
    intro st r h
    have h' := h
    simp only [downgradeCumulants, bind, Except.bind] at h
    cases hs : downgradeStep core diag st t with
    | error e => rw [hs] at h; simp at h
    | ok q =>
      rw [hs] at h
      simp only [] at h
      cases hr : downgradeCumulants core diag q.1 ts with
      | error e => rw [hr] at h; simp at h
      | ok qs =>
        rw [hr] at h
        simp only [pure, Except.pure, Except.ok.injEq] at h
        subst h
        refine .cons ?_ (ih _ _ hr)
        intro hk
        have h1 : downgradeCumulants core diag st [t] = .ok (q.1, [q.2]) := by
          simp only [downgradeCumulants, bind, Except.bind, hs, pure, Except.pure]
        simpa using downgradeCumulants_keep [t] st _ h1 q.2 (by simp) hk

theorem removeDeltas_filter {diag : Finset Index} : ∀ (ts : List Tensor) (st : ReplState) (r : ReplState × List Tensor),
    removeDeltas diag st ts = .ok r → r.2 = ts.filter fun x => decide (x.cls ≠ .kronecker) := by
  intro ts
  induction ts with
  | nil =>
    intro st r h
    simp only [removeDeltas, pure, Except.pure, Except.ok.injEq] at h
    subst h; simp
  | cons t ts ih =>
    intro st r h
    simp only [removeDeltas] at h
    split_ifs at h with hk
    · simp only [bind, Except.bind] at h
      cases hs : deltaStep diag st t with
      | error e => rw [hs] at h; simp at h
      | ok st' =>
        rw [hs] at h
        rw [ih _ _ h, List.filter_cons_of_neg (by simp [hk])]
    · simp only [bind, Except.bind] at h
      cases hr : removeDeltas diag st ts with
      | error e => rw [hr] at h; simp at h
      | ok q =>
        rw [hr] at h
        simp only [pure, Except.pure, Except.ok.injEq] at h
        subst h
        rw [List.filter_cons_of_pos (by simp [hk]), ← ih _ _ hr]

theorem filter_sublist_of_forall₂ : ∀ {ts ys : List Tensor}, List.Forall₂ (fun x y : Tensor => y.cls ≠ .kronecker → y = x) ts ys →
    (ys.filter fun x => decide (x.cls ≠ .kronecker)).Sublist ts := by
  intro ts ys h
  induction h with
  | nil => exact .slnil
  | @cons x y ts ys hxy _ ih =>
    by_cases hk : y.cls = .kronecker
    · rw [List.filter_cons_of_neg (by simp [hk])]
      exact ih.cons x
    · rw [List.filter_cons_of_pos (by simp [hk]), hxy hk]
      exact ih.cons_cons x

theorem Term.simplify_sorted {ord : SetOrder} {ts : List Tensor} {op : SqOp} {c : ℚ} {t t' : Term} {core removeActive : Bool}
    (ht : Term.make ts op c = .ok t) (h : t.simplify ord core removeActive = .ok t') : KindSorted (t'.tensors.map Tensor.kindKey) := by
  have hsort : KindSorted (t.tensors.map Tensor.kindKey) := by
    obtain ⟨-, -, -, rfl⟩ := Term.make_ok.1 ht; exact kindSorted_make ts
  unfold Term.simplify at h
  simp only [bind, Except.bind] at h
  cases hcu : downgradeCumulants core t.diag ⟨id, t.nextNum, fun i => {i}⟩ t.tensors with
  | error e => rw [hcu] at h; simp at h
  | ok cu =>
  rw [hcu] at h
  simp only [] at h
  cases hde : removeDeltas t.diag ⟨cu.1.repl, cu.1.next, fun i => {i}⟩ cu.2 with
  | error e => rw [hde] at h; simp at h
  | ok de =>
  rw [hde] at h
  simp only [] at h
  cases hlo : diagonalLoop ord (fun i => cu.1.rdiag i ∪ de.1.rdiag i) (ord.indices t.diag) (de.1.repl, de.1.next, t.indicesSet) with
  | error e => rw [hlo] at h; simp at h
  | ok st =>
  rw [hlo] at h
  simp only [] at h
  cases hop : replaceSqOp (lookupIn st.2.2 st.1) t.sqOp with
  | error e => rw [hop] at h; simp at h
  | ok op =>
  rw [hop] at h
  simp only [] at h
  by_cases hv : (removeActive && de.2.any (allActiveAmplitude st.1)) = true
  · rw [if_pos hv] at h
    simp only [pure, Except.pure, Except.ok.injEq] at h
    subst h
    exact List.Pairwise.nil
  · rw [if_neg hv] at h
    cases hts : replaceTensors (lookupIn st.2.2 st.1) de.2 with
    | error e => rw [hts] at h; simp at h
    | ok ts =>
      rw [hts] at h
      simp only [pure, Except.pure, Except.ok.injEq] at h
      subst h
      obtain ⟨-, rfl, -⟩ := replaceTensors_ok (realizes_lookupIn _ _) hts
      simp only []
      have hk : (de.2.map (Tensor.relabel st.1)).map Tensor.kindKey = de.2.map Tensor.kindKey := by
        rw [List.map_map]
        refine List.map_congr_left fun x _ => ?_
        simp [Tensor.kindKey, Tensor.relabel, IndicesPair.relabel, IndicesPair.size, IndicesPair.nUpper, IndicesPair.nLower, Indices.size]
      rw [hk, removeDeltas_filter _ _ _ hde]
      exact hsort.sublist ((filter_sublist_of_forall₂ (downgradeCumulants_forall _ _ _ hcu)).map _)

/-! ### Forms -/

theorem kindKey_of_form {x y : Tensor} (h : x.form = y.form) : x.kindKey = y.kindKey := by
  have hs := form_size h
  simp only [Tensor.form, Prod.mk.injEq] at h
  simp only [Tensor.kindKey, hs, h.2.1, h.2.2.1]

theorem form_of_kindKey {ty : IType} {x y : Tensor} (hk : x.name = y.name → x.cls = y.cls) (hx : x.upper.ty = ty) (hy : y.upper.ty = ty)
    (bx : x.upper.list.length = x.lower.list.length) (by' : y.upper.list.length = y.lower.list.length) (h : x.kindKey = y.kindKey) : x.form = y.form := by
  simp only [Tensor.kindKey, Prod.mk.injEq] at h
  obtain ⟨h1, h2, h3⟩ := h
  have e1 : x.upper.list.length + x.lower.list.length = y.upper.list.length + y.lower.list.length := h3
  simp only [Tensor.form, Prod.mk.injEq]
  exact ⟨hk h2, h2, h1, hx.trans hy.symm, by omega, by omega⟩

theorem goodForms_of_sorted {ty : IType} {ts : List Tensor} (ha : ty.isAntisym = true) (hty : ∀ x ∈ ts, x.upper.ty = ty)
    (hbal : ∀ x ∈ ts, x.upper.list.length = x.lower.list.length) (hkind : ∀ x ∈ ts, ∀ y ∈ ts, x.name = y.name → x.cls = y.cls)
    (hs : KindSorted (ts.map Tensor.kindKey)) : GoodForms ty (ts.map Tensor.form) where
  anti := ha
  type := by
    intro φ hφ
    obtain ⟨x, hx, rfl⟩ := List.mem_map.1 hφ
    exact hty x hx
  bal := by
    intro φ hφ
    obtain ⟨x, hx, rfl⟩ := List.mem_map.1 hφ
    exact hbal x hx
  runs := by
    intro A B C φ hΦ ψ hψ
    rw [List.map_eq_append_iff] at hΦ
    obtain ⟨l₁, l₂, rfl, e1, e2⟩ := hΦ
    rw [List.map_eq_append_iff] at e1
    obtain ⟨a, l₃, rfl, e3, e4⟩ := e1
    rw [List.map_eq_cons_iff] at e4 e2
    obtain ⟨x, b, rfl, e5, e6⟩ := e4
    obtain ⟨z, c, rfl, e7, e8⟩ := e2
    rw [← e6] at hψ
    obtain ⟨y, hy, rfl⟩ := List.mem_map.1 hψ
    rw [← e5]
    have hxz : z.kindKey = x.kindKey := kindKey_of_form (e7.trans e5.symm)
    unfold KindSorted at hs
    rw [List.pairwise_map] at hs
    rw [List.append_assoc, List.cons_append, List.pairwise_append] at hs
    have h1 := List.pairwise_cons.1 hs.2.1
    have k1 := h1.1 y (by simp [hy])
    have k2 := (List.pairwise_append.1 h1.2).2.2 y hy z (by simp)
    rw [hxz] at k2
    exact form_of_kindKey (hkind _ (by simp [hy]) _ (by simp)) (hty y (by simp [hy])) (hty x (by simp)) (hbal y (by simp [hy])) (hbal x (by simp))
      (kind_antisymm k1 k2).symm

theorem forms_eq_of_sorted {ty : IType} {ts ts' : List Tensor} (hp : (ts'.map Tensor.form).Perm (ts.map Tensor.form)) (hty : ∀ x ∈ ts, x.upper.ty = ty)
    (hbal : ∀ x ∈ ts, x.upper.list.length = x.lower.list.length) (hkind : ∀ x ∈ ts, ∀ y ∈ ts, x.name = y.name → x.cls = y.cls)
    (hs : KindSorted (ts.map Tensor.kindKey)) (hs' : KindSorted (ts'.map Tensor.kindKey)) : ts'.map Tensor.form = ts.map Tensor.form := by
  have hkey : ∀ l : List Tensor, l.map Tensor.kindKey = (l.map Tensor.form).map fun φ => (φ.2.2.1, φ.2.1, φ.2.2.2.2.1 + φ.2.2.2.2.2) := by
    intro l; rw [List.map_map]; rfl
  have hk : ts'.map Tensor.kindKey = ts.map Tensor.kindKey := by
    refine KindSorted.eq_of_perm ?_ hs' hs
    rw [hkey, hkey]; exact hp.map _
  have hlen : ts'.length = ts.length := by simpa using congrArg List.length hk
  have back : ∀ y ∈ ts', ∃ x ∈ ts, x.form = y.form := fun y hy => List.mem_map.1 (hp.mem_iff.1 (List.mem_map_of_mem hy))
  refine List.ext_getElem (by simpa using hlen) fun k h1 h2 => ?_
  simp only [List.length_map] at h1 h2
  rw [List.getElem_map, List.getElem_map]
  obtain ⟨x, hx, e⟩ := back ts'[k] (List.getElem_mem _)
  rw [← e]
  have := List.getElem_of_eq hk (i := k) (by simpa using h1)
  rw [List.getElem_map, List.getElem_map, ← kindKey_of_form e] at this
  exact form_of_kindKey (hkind x hx _ (List.getElem_mem _)) (hty x hx) (hty _ (List.getElem_mem _)) (hbal x hx) (hbal _ (List.getElem_mem _)) this

/-! ### The summation labels -/

theorem range_look (D : List Index) : ((List.range (2 * D.length)).map (look D)).Perm (D ++ D) := by
  induction D using List.reverseRecOn with
  | nil => simp
  | append_singleton D d ih =>
    have h1 : 2 * (D ++ [d]).length = 2 * D.length + 1 + 1 := by simp; omega
    rw [h1, List.range_succ, List.range_succ, List.map_append, List.map_append, List.map_cons, List.map_cons, List.map_nil]
    have h2 : (List.range (2 * D.length)).map (look (D ++ [d])) = (List.range (2 * D.length)).map (look D) := by
      refine List.map_congr_left fun n hn => ?_
      have hn' : n / 2 < D.length := by have := List.mem_range.1 hn; omega
      rw [look_of_lt hn', look_of_lt (by simp; omega), List.getElem_append_left hn']
    have h3 : look (D ++ [d]) (2 * D.length) = d := by
      rw [look_of_lt (by simp), List.getElem_append_right (by omega)]; simp
    have h4 : look (D ++ [d]) (2 * D.length + 1) = d := by
      rw [look_of_lt (by simp; omega), List.getElem_append_right (by omega)]; simp
    rw [h2, h3, h4]
    refine ((ih.append_right [d]).append_right [d]).trans ?_
    rw [List.append_assoc, List.append_assoc, List.append_assoc]
    refine List.Perm.append_left _ ?_
    rw [← List.append_assoc, ← List.append_assoc]
    exact List.perm_append_comm.append_right _

theorem Naming.perm_twice {D L : List Index} {x : List Nat} (h : Naming D L x) : ∃ f : Index → Index, (L.map f).Perm (D ++ D) ∧
    (∀ i ∈ L, ∀ j ∈ L, f i = f j → i = j) ∧ ∀ i ∈ L, (f i).space = i.space := by
  obtain ⟨px, f, hf, h1, h2⟩ := h
  exact ⟨f, by rw [← hf]; exact (px.map _).trans (range_look D), h1, h2⟩

theorem Naming.two {D L : List Index} {x : List Nat} (hD : D.Nodup) (h : Naming D L x) : ∀ i ∈ L, L.count i = 2 := by
  obtain ⟨f, hp, hi, -⟩ := h.perm_twice
  intro i hiL
  rw [← count_map_of_inj (f := f) i L fun j hj e => hi j hj i hiL e, hp.count_eq, List.count_append]
  have : f i ∈ D := by
    have := hp.mem_iff.1 (List.mem_map_of_mem hiL)
    simpa using this
  rw [List.count_eq_one_of_mem hD this]

/-- The number of summation labels of a space. -/
theorem Naming.space_count {D L : List Index} {x : List Nat} (hD : D.Nodup) (h : Naming D L x) (sp : Space) :
    (D.filter fun i => decide (i.space = sp)).length = (L.dedup.filter fun i => decide (i.space = sp)).length := by
  obtain ⟨f, hp, hi, hs⟩ := h.perm_twice
  have hperm : D.Perm (L.dedup.map f) := by
    refine (List.perm_ext_iff_of_nodup hD ?_).2 ?_
    · exact List.Nodup.map_on (fun a ha b hb e => hi a (List.mem_dedup.1 ha) b (List.mem_dedup.1 hb) e) (List.nodup_dedup L)
    · intro m
      have : m ∈ L.map f ↔ m ∈ D := by rw [hp.mem_iff]; simp
      rw [← this, List.mem_map, List.mem_map]
      simp only [List.mem_dedup]
  rw [(hperm.filter _).length_eq, List.filter_map, List.length_map]
  congr 1
  refine List.filter_congr fun i hi' => ?_
  simp only [Function.comp, hs i (List.mem_dedup.1 hi')]

theorem minimal_next {s : Term} {next : Space → Nat} (hm : MinimalDict s.minimalIndices next) (sp : Space) :
    next sp = ((sortedDummies s.minimalIndices).filter fun i => decide (i.space = sp)).length := by
  have hp : (sortedDummies s.minimalIndices).Perm (s.minimalIndices.map Prod.snd) := List.perm_insertionSort _ _
  have hperm : ((sortedDummies s.minimalIndices).filter fun i => decide (i.space = sp)).Perm ((List.range (next sp)).map fun n => (⟨sp, n⟩ : Index)) := by
    refine (List.perm_ext_iff_of_nodup ((hp.nodup_iff.2 hm.vals).filter _) ?_).2 ?_
    · exact List.Nodup.map (fun a b e => (Index.mk.inj e).2) List.nodup_range
    · intro i
      rw [List.mem_filter, List.mem_map, hp.mem_iff, List.mem_map]
      simp only [decide_eq_true_eq, List.mem_range]
      constructor
      · rintro ⟨⟨e, he, rfl⟩, rfl⟩
        exact ⟨e.2.number, hm.lt e he, rfl⟩
      · rintro ⟨n, hn, rfl⟩
        obtain ⟨e, he, h2⟩ := hm.all sp n hn
        exact ⟨⟨e, he, h2⟩, rfl⟩
  rw [hperm.length_eq, List.length_map, List.length_range]

theorem mem_sortedDummies {s : Term} {next : Space → Nat} (hm : MinimalDict s.minimalIndices next) (i : Index) :
    i ∈ sortedDummies s.minimalIndices ↔ i.number < next i.space := by
  have hp : (sortedDummies s.minimalIndices).Perm (s.minimalIndices.map Prod.snd) := List.perm_insertionSort _ _
  rw [hp.mem_iff, List.mem_map]
  constructor
  · rintro ⟨e, he, rfl⟩; exact hm.lt e he
  · intro h
    obtain ⟨e, he, h2⟩ := hm.all i.space i.number h
    exact ⟨e, he, h2⟩

theorem sorted_sortedDummies (s : Term) : (sortedDummies s.minimalIndices).Pairwise (· ≤ ·) := List.pairwise_insertionSort _ _

/-- Two terms whose labels can be named by the same summations have the same summation labels. -/
theorem dummies_eq {s s' : Term} (hs : labelsOf s.tensors s.sqOp ⊆ s.indicesSet) (hs' : labelsOf s'.tensors s'.sqOp ⊆ s'.indicesSet)
    {L : List Index} {x x' : List Nat} (h : Naming (sortedDummies s.minimalIndices) L x) (h' : Naming (sortedDummies s'.minimalIndices) L x') :
    sortedDummies s'.minimalIndices = sortedDummies s.minimalIndices := by
  obtain ⟨next, hm, -⟩ := minimalIndices_spec s hs
  obtain ⟨next', hm', -⟩ := minimalIndices_spec s' hs'
  have hD := (sortedDummies_spec hs).1
  have hD' := (sortedDummies_spec hs').1
  have hn : next' = next := by
    funext sp
    rw [minimal_next hm sp, minimal_next hm' sp, h.space_count hD, h'.space_count hD']
  refine List.Perm.eq_of_pairwise (le := (· ≤ ·)) (fun a b _ _ h1 h2 => le_antisymm h1 h2) (sorted_sortedDummies s') (sorted_sortedDummies s) ?_
  refine (List.perm_ext_iff_of_nodup hD' hD).2 fun i => ?_
  rw [mem_sortedDummies hm, mem_sortedDummies hm', hn]

/-- The names of the slots of a term whose labels occur twice. -/
theorem names_naming {s : Term} (hs : labelsOf s.tensors s.sqOp ⊆ s.indicesSet) (htwo : ∀ i ∈ slotLabels s.tensors s.sqOp, (slotLabels s.tensors s.sqOp).count i = 2) :
    ∃ names, slotNames (dictFind s.minimalIndices) (fun m => 2 * (sortedDummies s.minimalIndices).idxOf m) (slotLabels s.tensors s.sqOp) = .ok names ∧
      Naming (sortedDummies s.minimalIndices) (slotLabels s.tensors s.sqOp) names := by
  obtain ⟨hD, hDm⟩ := sortedDummies_spec hs
  obtain ⟨next, hm, hkeys⟩ := minimalIndices_spec s hs
  have hlab : ∀ i ∈ slotLabels s.tensors s.sqOp, i ∈ s.minimalIndices.map Prod.fst := by
    intro i hi
    rw [hkeys, mem_labelsOf]
    exact (slotLabels_perm _ _).mem_iff.1 hi
  obtain ⟨names, hnames⟩ := slotNames_total (slotLabels s.tensors s.sqOp) (fun m => 2 * (sortedDummies s.minimalIndices).idxOf m)
    fun i hi => ⟨_, (dictFind_ok hm.keys (hlab i hi)).1⟩
  have hinj : ∀ i ∈ slotLabels s.tensors s.sqOp, ∀ j ∈ slotLabels s.tensors s.sqOp, dictFun s.minimalIndices i = dictFun s.minimalIndices j → i = j :=
    fun i hi j hj e => hm.injOn (hlab i hi) (hlab j hj) e
  have h2 : ∀ m ∈ (slotLabels s.tensors s.sqOp).map (dictFun s.minimalIndices), ((slotLabels s.tensors s.sqOp).map (dictFun s.minimalIndices)).count m = 2 := by
    intro m hm'
    obtain ⟨i, hi, rfl⟩ := List.mem_map.1 hm'
    rw [count_map_injOn hinj hi]
    exact htwo i hi
  have hperm := slotNames_perm (realizes_dictFind _) hD hDm h2 hnames
  refine ⟨names, hnames, hperm, dictFun s.minimalIndices, ?_, hinj, ?_⟩
  · refine slotNames_look (realizes_dictFind _) hD hDm hnames (hperm.nodup_iff.2 List.nodup_range) ?_
    intro n hn
    exact List.mem_range.1 (hperm.mem_iff.1 hn)
  · intro i hi
    exact hm.space _ (dictFind_ok hm.keys (hlab i hi)).2

/-! ### Rebuilding -/

theorem rebuildOp_congr {D : List Index} {op op' : SqOp} (h : SqOp.form op = SqOp.form op') (names : List Nat) : rebuildOp D op names = rebuildOp D op' names := by
  simp only [SqOp.form, Prod.mk.injEq] at h
  unfold rebuildOp IndicesPair.nLower IndicesPair.nUpper Indices.size
  rw [h.1, h.2.2.1, h.2.2.2]

theorem rebuildTensors_congr {D : List Index} : ∀ {ts ts' : List Tensor}, ts.map Tensor.form = ts'.map Tensor.form → ∀ names : List Nat,
    rebuildTensors D ts names = rebuildTensors D ts' names := by
  intro ts
  induction ts with
  | nil => intro ts' h names; cases ts' with | nil => rfl | cons _ _ => simp at h
  | cons x ts ih =>
    intro ts' h names
    cases ts' with
    | nil => simp at h
    | cons y ts' =>
      simp only [List.map_cons, List.cons.injEq] at h
      have hsz := form_size h.1
      have hf := h.1
      simp only [Tensor.form, Prod.mk.injEq] at hf
      have hu : x.pair.nUpper = y.pair.nUpper := hf.2.2.2.2.1
      have hl : x.pair.nLower = y.pair.nLower := hf.2.2.2.2.2
      rw [rebuildTensors, rebuildTensors, hf.2.2.2.1, hl, hu, hf.1, hf.2.1, hf.2.2.1, hsz, ih h.2]

theorem take_congr_rebuildOp {D : List Index} {op : SqOp} {a b : List Nat} (h : a.take op.size = b.take op.size) : rebuildOp D op a = rebuildOp D op b := by
  have h1 : a.take op.nLower = b.take op.nLower := by
    have := congrArg (List.take op.nLower) h
    rwa [List.take_take, List.take_take, Nat.min_eq_left (by unfold IndicesPair.size; omega)] at this
  have h2 : (a.drop op.nLower).take op.nUpper = (b.drop op.nLower).take op.nUpper := by
    have := congrArg (List.drop op.nLower) h
    rwa [List.drop_take, List.drop_take, show op.size - op.nLower = op.nUpper by unfold IndicesPair.size; omega] at this
  unfold rebuildOp
  rw [h1, h2]

theorem take_congr_rebuildTensors {D : List Index} : ∀ {ts : List Tensor} {a b : List Nat}, a.take (slotCount ts) = b.take (slotCount ts) →
    rebuildTensors D ts a = rebuildTensors D ts b := by
  intro ts
  induction ts with
  | nil => intro a b _; rfl
  | cons x ts ih =>
    intro a b h
    have hsz : slotCount (x :: ts) = x.pair.size + slotCount ts := slotCount_cons x ts
    rw [hsz] at h
    have h1 : a.take x.pair.nLower = b.take x.pair.nLower := by
      have := congrArg (List.take x.pair.nLower) h
      rwa [List.take_take, List.take_take, Nat.min_eq_left (by unfold IndicesPair.size; omega)] at this
    have h2 : (a.drop x.pair.nLower).take x.pair.nUpper = (b.drop x.pair.nLower).take x.pair.nUpper := by
      have := congrArg (fun l => (l.drop x.pair.nLower).take x.pair.nUpper) h
      simp only [List.drop_take, List.take_take] at this
      rwa [Nat.min_eq_left (by unfold IndicesPair.size; omega)] at this
    have h3 : (a.drop x.pair.size).take (slotCount ts) = (b.drop x.pair.size).take (slotCount ts) := by
      have := congrArg (List.drop x.pair.size) h
      rwa [List.drop_take, List.drop_take, Nat.add_sub_cancel_left] at this
    rw [rebuildTensors, rebuildTensors, h1, h2, ih h3]

/-! ### SymPy's answer -/

theorem reach_shape {dummies : List (Nat × Nat)} {v : List SlotGroup} (hv : ∀ e ∈ v, e.Proper) {x : List Nat} {s s' : Nat} {y : List Nat}
    (h : Reach dummies v (x ++ [s, s']) y) : ∃ x', x'.length = x.length ∧ (y = x' ++ [s, s'] ∨ y = x' ++ [s', s]) := by
  induction h with
  | refl => exact ⟨x, rfl, Or.inl rfl⟩
  | tail _ hstep ih =>
    obtain ⟨x', hl, hy⟩ := ih
    have key : ∀ a b, ∀ z, SymStep dummies v (x' ++ [a, b]) z → ∃ x'', x''.length = x.length ∧ (z = x'' ++ [a, b] ∨ z = x'' ++ [b, a]) := by
      intro a b z hz
      generalize hg : x' ++ [a, b] = w at hz
      cases hz with
      | slots e k p before c c' after q q' r r' hat hp hb hc =>
        obtain ⟨e1, rfl, rfl⟩ := append_two_inj hg
        have hlen := (proper_permute (hv e hat.mem) hp hb hc).1
        refine ⟨before ++ c' ++ after, ?_, ?_⟩
        · rw [← hl, e1]; simp only [List.length_append]; omega
        · obtain ⟨g, hpg, hgl, hglt, -⟩ := hv e hat.mem p hp
          rcases hpg with rfl | rfl
          · left
            have : permuteSlots (g ++ [e.size, e.size + 1]) (c ++ [a, b]) = (g.map fun k => (c ++ [a, b]).getD k 0) ++ [a, b] := by
              unfold permuteSlots
              rw [List.map_append]
              simp [List.getD_eq_getElem?_getD, ← hb]
            rw [this] at hc
            obtain ⟨-, rfl, rfl⟩ := append_two_inj hc
            rfl
          · right
            have : permuteSlots (g ++ [e.size + 1, e.size]) (c ++ [a, b]) = (g.map fun k => (c ++ [a, b]).getD k 0) ++ [b, a] := by
              unfold permuteSlots
              rw [List.map_append]
              simp [List.getD_eq_getElem?_getD, ← hb]
            rw [this] at hc
            obtain ⟨-, rfl, rfl⟩ := append_two_inj hc
            rfl
      | exchange e k before c c' after q q' hat hk hb hb' =>
        obtain ⟨e1, rfl, rfl⟩ := append_two_inj hg
        refine ⟨before ++ c' ++ c ++ after, ?_, Or.inl rfl⟩
        rw [← hl, e1]; simp only [List.length_append]; omega
      | ends d i g q q' hd h1 h2 =>
        obtain ⟨e1, rfl, rfl⟩ := append_two_inj hg
        exact ⟨_, by rw [List.length_map, ← e1, hl], Or.inl rfl⟩
      | rename d i j g q q' hd h1 h2 h3 h4 =>
        obtain ⟨e1, rfl, rfl⟩ := append_two_inj hg
        exact ⟨_, by rw [List.length_map, ← e1, hl], Or.inl rfl⟩
    rcases hy with rfl | rfl
    · exact key s s' _ hstep
    · obtain ⟨x'', k1, k2⟩ := key s' s _ hstep
      exact ⟨x'', k1, k2.symm⟩

end Dsrg
