import Verif.Lemmas.WickMatch
import Verif.Lemmas.ContractValue
import Verif.Lemmas.Commutator

/-!
The contractions of a product of operator strings add up to the product of the operators.
-/

namespace Dsrg

theorem perm_two {α : Type} {a b : α} {l : List α} (h : l.Perm [a, b]) : l = [a, b] ∨ l = [b, a] := by
  obtain ⟨x, y, rfl⟩ := List.length_eq_two.mp h.length_eq
  rcases List.mem_cons.mp (h.subset List.mem_cons_self) with rfl | hx
  · left
    have := (List.perm_cons x).mp h
    rw [List.perm_singleton.mp this]
  · obtain rfl : x = b := by simpa using hx
    right
    have := (List.perm_cons x).mp (h.trans (List.Perm.swap x a []))
    rw [List.perm_singleton.mp this]

section
variable {α : Type} [DecidableEq α]

theorem AntisymmFn.inside {M : Type} [AddCommGroup M] {F : List α → M} (hF : AntisymmFn F) (pre post : List α) :
    AntisymmFn fun w => if (pre ++ w ++ post).Nodup then F (pre ++ w ++ post) else 0 := by
  intro p q a b _
  have hp : (pre ++ (p ++ b :: a :: q) ++ post).Perm (pre ++ (p ++ a :: b :: q) ++ post) :=
    List.Perm.append_right _ (List.Perm.append_left _ (List.Perm.append_left _ (List.Perm.swap a b q)))
  beta_reduce
  by_cases hn : (pre ++ (p ++ a :: b :: q) ++ post).Nodup
  · rw [if_pos hn, if_pos (hp.nodup_iff.mpr hn)]
    have := hF (pre ++ p) (q ++ post) a b (by simpa using hn)
    simpa using this
  · rw [if_neg hn, if_neg fun h => hn (hp.nodup_iff.mp h), neg_zero]

theorem AntisymmFn.relSign_inside {M : Type} [AddCommGroup M] {F : List α → M} (hF : AntisymmFn F) {pre post v w : List α}
    (hn : (pre ++ v ++ post).Nodup) (h : v.Perm w) : F (pre ++ v ++ post) = Dsrg.relSign v w • F (pre ++ w ++ post) := by
  have hv : v.Nodup := ((List.nodup_append.mp (List.nodup_append.mp hn).1).2).1
  have hn' : (pre ++ w ++ post).Nodup := (List.Perm.append_right _ (List.Perm.append_left _ h)).nodup_iff.mp hn
  have := (hF.inside pre post).relSign hv h
  beta_reduce at this
  rwa [if_pos hn, if_pos hn'] at this

/-- Rearranging blocks of a word one by one. -/
theorem AntisymmFn.blocks {M : Type} [AddCommGroup M] {F : List α → M} (hF : AntisymmFn F) (T : List α → List α) (bs : List (List α))
    (hT : ∀ b ∈ bs, b.Perm (T b)) : ∀ pre post, (pre ++ bs.flatten ++ post).Nodup →
      F (pre ++ bs.flatten ++ post) = (bs.map fun b => Dsrg.relSign b (T b)).prod • F (pre ++ (bs.map T).flatten ++ post) := by
  induction bs with
  | nil => intro pre post _; simp
  | cons b bs ih =>
    intro pre post hn
    have hb := hT b List.mem_cons_self
    have h1 := hF.relSign_inside (pre := pre) (v := b) (w := T b) (post := bs.flatten ++ post) (by simpa using hn) hb
    have hn' : (pre ++ T b ++ (bs.flatten ++ post)).Nodup := by
      have hp : (pre ++ b ++ (bs.flatten ++ post)).Perm (pre ++ T b ++ (bs.flatten ++ post)) :=
        List.Perm.append_right _ (List.Perm.append_left _ hb)
      exact hp.nodup_iff.mp (by simpa using hn)
    have h2 := ih (fun b hb => hT b (List.mem_cons_of_mem _ hb)) (pre ++ T b) post (by simpa using hn')
    simp only [List.flatten_cons, List.map_cons, List.prod_cons, List.append_assoc] at h1 h2 ⊢
    rw [h1, h2, smul_smul]

end

theorem IsResult.unique {ops : List SqOp} (h : GoodOps ops) {ts ts' : List Tensor} (hts : ProperSet ops ts) (hp : ts.Perm ts')
    {s s' : Int} {op op' : SqOp} (hr : IsResult ops ts s op) (hr' : IsResult ops ts' s' op') : s = s' ∧ op = op' := by
  have hn := h.nodup_word
  have n1 := hr.word.nodup_iff.mpr hn
  have n2 := hr'.word.nodup_iff.mpr hn
  have hw : (stringWord op).Perm (stringWord op') := by
    have h1 : (ts.flatMap contractionWord ++ stringWord op).Perm (ts.flatMap contractionWord ++ stringWord op') :=
      hr.word.trans (hr'.word.symm.trans (List.Perm.append_right _ (hp.symm.flatMap_right _)))
    exact (List.perm_append_left_iff _).mp h1
  have no := (List.nodup_append.mp n1).2.1
  have no' := (List.nodup_append.mp n2).2.1
  have hU : op.upper.list = op'.upper.list := by
    have hm : ∀ i, i ∈ op.upper.list ↔ i ∈ op'.upper.list := by
      intro i
      have := hw.mem_iff (a := (true, i))
      simpa [mem_stringWord] using this
    have nu : op.upper.list.Nodup := nodup_creLegs.mp (List.nodup_append.mp no).1
    have nu' : op'.upper.list.Nodup := nodup_creLegs.mp (List.nodup_append.mp no').1
    exact ((List.perm_ext_iff_of_nodup nu nu').mpr hm).eq_of_pairwise' hr.upperSorted hr'.upperSorted
  have hL : op.lower.list = op'.lower.list := by
    have hm : ∀ i, i ∈ op.lower.list ↔ i ∈ op'.lower.list := by
      intro i
      have := hw.mem_iff (a := (false, i))
      simpa [mem_stringWord] using this
    have nu : op.lower.list.Nodup := List.nodup_reverse.mp (nodup_annLegs.mp (List.nodup_append.mp no).2.1)
    have nu' : op'.lower.list.Nodup := List.nodup_reverse.mp (nodup_annLegs.mp (List.nodup_append.mp no').2.1)
    exact ((List.perm_ext_iff_of_nodup nu nu').mpr hm).eq_of_pairwise' hr.lowerSorted hr'.lowerSorted
  have hop : op = op' := by
    obtain ⟨⟨a, b⟩, ⟨c, d⟩⟩ := op
    obtain ⟨⟨a', b'⟩, ⟨c', d'⟩⟩ := op'
    have e1 := hr.upperTy.trans hr'.upperTy.symm
    have e2 := hr.lowerTy.trans hr'.lowerTy.symm
    simp only at e1 e2 hU hL
    rw [e1, e2, hU, hL]
  refine ⟨?_, hop⟩
  subst hop
  have hF := antisymmFn_relSign (productWord ops)
  have e1 := hr.sign Int _ hF
  have e2 := hr'.sign Int _ hF
  have e3 := hF.perm_even_blocks contractionWord hp [] (stringWord op) (fun t ht => by
    rw [contractionWord_eq (hts.proper t ht), (hts.proper t ht).length_legs]; exact ⟨_, rfl⟩) (by simpa using n1)
  simp only [List.nil_append] at e3
  beta_reduce at e1 e2 e3
  rw [e3] at e2
  rw [e1] at e2
  have hne : (if (ts.flatMap contractionWord ++ stringWord op).Perm (productWord ops) then
      relSign (productWord ops) (ts.flatMap contractionWord ++ stringWord op) else 0) ≠ 0 := by
    rw [if_pos hr.word]
    intro h0
    have := relSign_sq (productWord ops) (ts.flatMap contractionWord ++ stringWord op)
    rw [h0] at this
    exact absurd this (by simp)
  exact mul_right_cancel₀ hne (by simpa using e2)

section
variable {O R M : Type} [DecidableEq O] [CommRing R]

theorem orbitalsOf_cre (b : Bool) (σ : Index → O) (l : List Index) :
    orbitalsOf b ((l.map fun i => (true, i)).map (letterAt σ)) = if b = true then l.map σ else [] := by
  induction l with
  | nil => cases b <;> rfl
  | cons i l ih =>
    rw [List.map_cons, List.map_cons, orbitalsOf_cons, ih]
    cases b <;> simp [letterAt]

theorem orbitalsOf_ann (b : Bool) (σ : Index → O) (l : List Index) :
    orbitalsOf b ((l.map fun i => (false, i)).map (letterAt σ)) = if b = false then l.map σ else [] := by
  induction l with
  | nil => cases b <;> rfl
  | cons i l ih =>
    rw [List.map_cons, List.map_cons, orbitalsOf_cons, ih]
    cases b <;> simp [letterAt]

theorem disorder_cre (σ : Index → O) (l : List Index) : disorder ((l.map fun i => (true, i)).map (letterAt σ)) = 0 := by
  induction l with
  | nil => rfl
  | cons i l ih =>
    rw [List.map_cons, List.map_cons, disorder, ih]
    simp [letterAt]

theorem disorder_ann (σ : Index → O) (l : List Index) : disorder ((l.map fun i => (false, i)).map (letterAt σ)) = 0 := by
  induction l with
  | nil => rfl
  | cons i l ih =>
    rw [List.map_cons, List.map_cons, disorder, ih, orbitalsOf_ann]
    simp [letterAt]

/-- The value of an elementary contraction. -/
theorem contraction_tval {ops : List SqOp} {maxCu : Int} {t : Tensor} (ht : Elementary ops maxCu t) (I : Interp O R M) (σ : Index → O) :
    I.contraction ((contractionWord t).map (letterAt σ)) = I.tval σ t := by
  obtain ⟨key, ⟨i, j, left, right, hij, hi, hj, ⟨u, hu, l, hl, _, rfl, rfl⟩ | ⟨l, hl, u, hu, _, rfl, rfl⟩⟩ |
    ⟨cre, ann, hc, ha, hlen1, h2, _, _, rfl, rfl⟩⟩ := ht
  · rfl
  · rfl
  · have hw : contractionWord (density .cumulant (cre.map Prod.snd) (ann.map Prod.snd)) =
      (cre.map Prod.snd).map (fun i => (true, i)) ++ (ann.map Prod.snd).reverse.map (fun i => (false, i)) := rfl
    have hv : I.tval σ (density .cumulant (cre.map Prod.snd) (ann.map Prod.snd)) =
      I.tensor .cumulant ['L'] ((cre.map Prod.snd).map σ) ((ann.map Prod.snd).map σ) := rfl
    rw [hv, hw, List.map_append, I.contraction_long (by simp; omega)]
    simp only [orbitalsOf_append, orbitalsOf_cre, orbitalsOf_ann, disorder_append, disorder_cre, disorder_ann]
    rw [if_pos (by constructor <;> simp <;> omega)]
    simp

theorem contraction_block {ops : List SqOp} (h : GoodOps ops) {maxCu : Int} {t : Tensor} (ht : Elementary ops maxCu t) {I : Interp O R M}
    [Neg M] (hI : I.Antisymmetric) (hole : ∀ a b, I.tensor .hole ['C'] [a] [b] = (if a = b then 1 else 0) - I.tensor .cumulant ['L'] [a] [b])
    {σ : Index → O} {b : List (Bool × Index)} (hb : b.Sublist (productWord ops)) (hp : (contractionWord t).Perm b) :
    I.contraction (b.map (letterAt σ)) = (relSign b (contractionWord t) : R) * I.tval σ t := by
  have hnb := h.nodup_word.sublist hb
  have pt := proper_of_elementary h ht
  rw [← contraction_tval ht I σ]
  by_cases h3 : 3 ≤ b.length
  · have hF : AntisymmFn fun w : List (Bool × Index) => if 3 ≤ w.length then I.contraction (w.map (letterAt σ)) else 0 := by
      intro p q x y _
      beta_reduce
      have e : (p ++ y :: x :: q).length = (p ++ x :: y :: q).length := by simp
      rw [e]
      split_ifs with hl
      · simp only [List.map_append, List.map_cons]
        exact contraction_swap hI _ _ _ _ (by simp at hl ⊢; omega)
      · simp
    have := hF.relSign hnb hp.symm
    have h3' : 3 ≤ (contractionWord t).length := by rw [hp.length_eq]; exact h3
    beta_reduce at this
    rw [if_pos h3, if_pos h3'] at this
    rw [this, zsmul_eq_mul]
  · have e : b = contractionWord t := by
      have hord := (word_ordered h).sublist hb
      obtain ⟨key, ⟨i, j, left, right, hij, hi, hj, ⟨u, hu, l, hl, _, rfl, rfl⟩ | ⟨l, hl, u, hu, _, rfl, rfl⟩⟩ |
        ⟨cre, ann, hc, ha, hlen1, h2, _, _, rfl, rfl⟩⟩ := ht
      · have hw : contractionWord (density .cumulant [u] [l]) = [(true, u), (false, l)] := rfl
        rw [hw] at hp ⊢
        rcases perm_two hp.symm with e | e
        · exact e
        · subst e
          have := stringOf_upper h hi hu
          have := stringOf_lower h hj hl
          simp at hord; omega
      · have hw : contractionWord (density .hole [u] [l]) = [(false, l), (true, u)] := rfl
        rw [hw] at hp ⊢
        rcases perm_two hp.symm with e | e
        · exact e
        · subst e
          have := stringOf_upper h hj hu
          have := stringOf_lower h hi hl
          simp at hord; omega
      · exact (h3 (by rw [← hp.length_eq, contractionWord_eq pt, pt.length_legs]; simp [density, Indices.size]; omega)).elim
    rw [← e, relSign_self hnb]
    simp

end

section
variable {O R A : Type} [DecidableEq O] [CommRing R] [Ring A] [Algebra R A]

theorem opval_eq {I : Interp O R A} {field : Bool × O → A} (hno : I.NormalOrdered field) (σ : Index → O) (op : SqOp) :
    I.opval σ op = normalOrder (fun x => field (letterAt σ x)) (fun b => I.contraction (b.map (letterAt σ))) (stringWord op) := by
  rw [← normalOrder_map field I.contraction (letterAt σ), Interp.opval, hno]
  congr 1
  simp only [stringWord, List.map_append, List.map_map, List.map_reverse]
  rfl

theorem length_productWord (ops : List SqOp) : (productWord ops).length = nOperators ops := by
  unfold productWord nOperators
  rw [List.length_flatMap]
  congr 1
  refine List.map_congr_left fun op _ => ?_
  simp [stringWord, Indices.size]

/-- The contractions of a product of strings that have a property, for one assignment of orbitals to labels: a sum over rows. -/
theorem rows_pointwise {ops : List SqOp} (h : GoodOps ops) {field : Bool × O → A} (hf : Fermions field) {I : Interp O R A}
    (hno : I.NormalOrdered field) (hI : I.Antisymmetric) {orb : Orbitals O} (hph : I.Physical orb)
    (hac : ∀ name (u l : List O), u.length ≠ 1 → (∃ o ∈ u ++ l, orb.elem o ≠ .active) → I.tensor .cumulant name u l = 0)
    {maxCu maxOpen minOpen : Int} (hcu : I.CumulantsUpTo maxCu) (hmin : minOpen ≤ 0) (hmax : (nOperators ops : Int) ≤ maxOpen)
    {σ : Index → O} (hσ : ∀ x ∈ productWord ops, orb.In x.2.space (σ x.2))
    {P : List (List (Bool × Index)) → Prop} [DecidablePred P] {Q : List Tensor → Prop}
    (hP : ∀ B B' C, B'.Perm C → List.Forall₂ List.Perm B B' → (P B ↔ P C))
    (hPQ : ∀ ts, Allowed ops maxCu maxOpen minOpen ts → (Q ts ↔ P (ts.map contractionWord)))
    {cs : List (List Tensor)} {sign : List Tensor → Int} {rest : List Tensor → SqOp} (h1 : cs.Pairwise (fun a b => ¬ a.Perm b))
    (h2 : ∀ ts, (∃ c ∈ cs, c.Perm ts) ↔ Allowed ops maxCu maxOpen minOpen ts ∧ Q ts) (h3 : ∀ c ∈ cs, IsResult ops c (sign c) (rest c))
    (K : List (Bool × Index) → R) (hin : ∀ b, (∀ x ∈ b, ∀ y ∈ b, stringOf ops x = stringOf ops y) → K b = 0)
    (hout : ∀ b, (∃ x ∈ b, ∃ y ∈ b, stringOf ops x ≠ stringOf ops y) → K b = I.contraction (b.map (letterAt σ))) :
    (cs.map fun c => (sign c : R) • I.pval σ c • I.opval σ (rest c)).sum =
      (((contractionRows (productWord ops).length (productWord ops)).filter fun c => decide (P c.2.1)).map fun c => c.1 • (c.2.1.map K).prod •
        normalOrder (fun x => field (letterAt σ x)) (fun b => I.contraction (b.map (letterAt σ))) c.2.2).sum := by
  classical
  have hn := h.nodup_word
  have hole : ∀ a b, I.tensor .hole ['C'] [a] [b] = (if a = b then 1 else 0) - I.tensor .cumulant ['L'] [a] [b] := hph.hole _
  have rules := (contraction_rules hf hI hole).map (letterAt σ)
  let N := normalOrder (fun x => field (letterAt σ x)) (fun b => I.contraction (b.map (letterAt σ)))
  have hN : AntisymmFn N := fun pre post a b _ => normalOrder_swap rules pre post a b
  -- the rows that are products of elementary contractions
  let good : ℤ × List (List (Bool × Index)) × List (Bool × Index) → Prop := fun c =>
    ∀ b ∈ c.2.1, ∃ t, Elementary ops maxCu t ∧ (contractionWord t).Perm b
  let T : List (Bool × Index) → Tensor := fun b =>
    if hb : ∃ t, Elementary ops maxCu t ∧ (contractionWord t).Perm b then hb.choose else density .cumulant [] []
  have hT : ∀ {b}, (∃ t, Elementary ops maxCu t ∧ (contractionWord t).Perm b) →
      Elementary ops maxCu (T b) ∧ (contractionWord (T b)).Perm b := by
    intro b hb
    have : T b = hb.choose := dif_pos hb
    rw [this]; exact hb.choose_spec
  let rows := (contractionRows (productWord ops).length (productWord ops)).filter fun c => decide (P c.2.1)
  have hrow : ∀ c ∈ rows, (∀ b ∈ c.2.1, b ≠ [] ∧ b.Sublist (productWord ops)) ∧ (c.2.1.flatten ++ c.2.2).Perm (productWord ops) :=
    fun c hc => rows_blocks (Nat.le_refl _) (List.mem_filter.mp hc).1
  have e2 : (rows.map fun c => c.1 • (c.2.1.map K).prod • N c.2.2).sum =
      ((rows.filter fun c => decide (good c)).map fun c => c.1 • (c.2.1.map K).prod • N c.2.2).sum := by
    have : ∀ rs : List (ℤ × List (List (Bool × Index)) × List (Bool × Index)), (∀ c ∈ rs, c ∈ rows) →
        (rs.map fun c => c.1 • (c.2.1.map K).prod • N c.2.2).sum =
        ((rs.filter fun c => decide (good c)).map fun c => c.1 • (c.2.1.map K).prod • N c.2.2).sum := by
      intro rs hrs
      induction rs with
      | nil => rfl
      | cons c rs ih =>
        have ih' := ih fun c hc => hrs c (List.mem_cons_of_mem _ hc)
        rw [List.map_cons, List.sum_cons, ih', List.filter_cons]
        split_ifs with hg
        · simp
        · have hg : ¬ good c := by simpa using hg
          simp only [good] at hg
          push Not at hg
          obtain ⟨b, hb, hbt⟩ := hg
          have hK : K b = 0 := by
            by_contra hK
            by_cases hne : ∃ x ∈ b, ∃ y ∈ b, stringOf ops x ≠ stringOf ops y
            · rw [hout b hne] at hK
              obtain ⟨t, ht, hp⟩ := block_elementary h hph hac hcu hσ ((hrow c (hrs c List.mem_cons_self)).1 b hb).2 hne hK
              exact hbt t ht hp
            · push Not at hne
              exact hK (hin b hne)
          have : (c.2.1.map K).prod = 0 := List.prod_eq_zero (List.mem_map.mpr ⟨b, hb, hK⟩)
          rw [this]; simp
    exact this rows fun c hc => hc
  show _ = (rows.map fun c => c.1 • (c.2.1.map K).prod • N c.2.2).sum
  rw [e2]
  let W : List Tensor → A := fun ts => (relSign (baseOrder ops) (arranged ops ts) : R) • I.pval σ ts • I.opval σ (openOp ops ts)
  have hA : ∀ c ∈ cs, Allowed ops maxCu maxOpen minOpen c := fun c hc => ((h2 c).mp ⟨c, hc, List.Perm.refl _⟩).1
  have e3 : (cs.map fun c => (sign c : R) • I.pval σ c • I.opval σ (rest c)) = cs.map W := by
    refine List.map_congr_left fun c hc => ?_
    have hp := (hA c hc).proper h
    obtain ⟨a, b⟩ := IsResult.unique h hp (List.Perm.refl c) (h3 c hc) (isResult_of_proper h hp)
    rw [a, b]
  have hW : ∀ a ∈ cs, ∀ b, a.Perm b → W a = W b := by
    intro a ha b hab
    have hp := (hA a ha).proper h
    have hp' : ProperSet ops b := by
      refine ⟨fun t ht => hp.proper t (hab.symm.subset ht), ?_⟩
      exact (hab.pairwise_iff fun {x y} hxy => ⟨fun i hi hj => hxy.1 i hj hi, fun i hi hj => hxy.2 i hj hi⟩).mp hp.share
    obtain ⟨e, e'⟩ := IsResult.unique h hp hab (isResult_of_proper h hp) (isResult_of_proper h hp')
    simp only [W]
    rw [e, e', Interp.pval_perm I σ hab]
  have hset : ∀ c ∈ rows, good c → ProperSet ops (c.2.1.map T) ∧ (c.2.1.map T).Nodup := by
    intro c hc hg
    have hfl : c.2.1.flatten.Nodup := (List.nodup_append.mp ((hrow c hc).2.nodup_iff.mpr hn)).1
    have hdis := (List.nodup_flatten.mp hfl).2
    have hprop : ∀ b ∈ c.2.1, ProperTensor ops (T b) := fun b hb => proper_of_elementary h (hT (hg b hb)).1
    have hshare : (c.2.1.map T).Pairwise fun t t' => ShareNothing t t' ∧ t ≠ t' := by
      rw [List.pairwise_map]
      refine hdis.imp_of_mem fun {b b'} hb hb' hd => ?_
      have m := fun x => (hT (hg b hb)).2.mem_iff (a := x)
      have m' := fun x => (hT (hg b' hb')).2.mem_iff (a := x)
      have key : ∀ x, x ∈ contractionWord (T b) → x ∉ contractionWord (T b') := fun x hx hx' =>
        List.disjoint_left.mp hd ((m x).mp hx) ((m' x).mp hx')
      refine ⟨⟨fun i hi hi' => ?_, fun i hi hi' => ?_⟩, fun e => ?_⟩
      · exact key (true, i) ((mem_contractionWord (hprop b hb)).mpr (Or.inl ⟨rfl, hi⟩))
          ((mem_contractionWord (hprop b' hb')).mpr (Or.inl ⟨rfl, hi'⟩))
      · exact key (false, i) ((mem_contractionWord (hprop b hb)).mpr (Or.inr ⟨rfl, hi⟩))
          ((mem_contractionWord (hprop b' hb')).mpr (Or.inr ⟨rfl, hi'⟩))
      · obtain ⟨x, b'', rfl⟩ := List.exists_cons_of_ne_nil ((hrow c hc).1 b hb).1
        have hx : x ∈ contractionWord (T (x :: b'')) := (m x).mpr List.mem_cons_self
        exact key x hx (e ▸ hx)
    refine ⟨⟨fun t ht => ?_, hshare.imp fun h => h.1⟩, hshare.imp fun h => h.2⟩
    obtain ⟨b, hb, rfl⟩ := List.mem_map.mp ht
    exact hprop b hb
  have e4 : ((rows.filter fun c => decide (good c)).map fun c => c.1 • (c.2.1.map K).prod • N c.2.2) =
      ((rows.filter fun c => decide (good c)).map fun c => c.2.1.map T).map W := by
    rw [List.map_map]
    refine List.map_congr_left fun c hc => ?_
    obtain ⟨hc, hg⟩ := List.mem_filter.mp hc
    have hg : good c := of_decide_eq_true hg
    obtain ⟨hps, -⟩ := hset c hc hg
    have hres := isResult_of_proper h hps
    have hwn := (hrow c hc).2.nodup_iff.mpr hn
    have hflat : (c.2.1.map T).flatMap contractionWord = (c.2.1.map fun b => contractionWord (T b)).flatten := by
      rw [List.flatMap_def, List.map_map]; rfl
    have hTp : ∀ b ∈ c.2.1, b.Perm (contractionWord (T b)) := fun b hb => (hT (hg b hb)).2.symm
    have hflp : c.2.1.flatten.Perm (c.2.1.map fun b => contractionWord (T b)).flatten := by
      have : ∀ bs : List (List (Bool × Index)), (∀ b ∈ bs, b.Perm (contractionWord (T b))) →
          bs.flatten.Perm (bs.map fun b => contractionWord (T b)).flatten := by
        intro bs hbs
        induction bs with
        | nil => exact List.Perm.refl _
        | cons b bs ih =>
          rw [List.flatten_cons, List.map_cons, List.flatten_cons]
          exact (hbs b List.mem_cons_self).append (ih fun b hb => hbs b (List.mem_cons_of_mem _ hb))
      exact this _ hTp
    have hrp : c.2.2.Perm (stringWord (openOp ops (c.2.1.map T))) := by
      have q := (hrow c hc).2.trans hres.word.symm
      rw [hflat] at q
      exact (List.perm_append_left_iff _).mp ((List.Perm.append_right _ hflp.symm).trans q)
    have heven : ∀ b ∈ c.2.1, 2 ∣ b.length := by
      intro b hb
      have pb := proper_of_elementary h (hT (hg b hb)).1
      rw [(hTp b hb).length_eq, contractionWord_eq pb, pb.length_legs]
      exact ⟨_, rfl⟩
    have hsgn : relSign (baseOrder ops) (arranged ops (c.2.1.map T)) =
        c.1 * (c.2.1.map fun b => relSign b (contractionWord (T b))).prod * relSign c.2.2 (stringWord (openOp ops (c.2.1.map T))) := by
      have hF := antisymmFn_relSign (productWord ops)
      have a1 := rows_sign (Nat.le_refl _) (List.mem_filter.mp hc).1 heven hF [] (by simpa using hn)
      have a2 := hF.blocks (fun b => contractionWord (T b)) c.2.1 hTp [] c.2.2 (by simpa using hwn)
      have hwn' : ((c.2.1.map fun b => contractionWord (T b)).flatten ++ c.2.2).Nodup :=
        (List.Perm.append_right _ hflp).nodup_iff.mp hwn
      have a3 := hF.relSign_inside (pre := (c.2.1.map fun b => contractionWord (T b)).flatten) (post := []) (by simpa using hwn') hrp
      have a4 := hres.sign Int _ hF
      simp only [List.nil_append, List.append_nil] at a1 a2 a3
      rw [a2, a3, ← hflat] at a1
      rw [a1] at a4
      rw [if_pos hres.word] at a4
      have hne : relSign (productWord ops) ((c.2.1.map T).flatMap contractionWord ++ stringWord (openOp ops (c.2.1.map T))) ≠ 0 := by
        intro h0
        have := relSign_sq (productWord ops) ((c.2.1.map T).flatMap contractionWord ++ stringWord (openOp ops (c.2.1.map T)))
        rw [h0] at this
        exact absurd this (by simp)
      refine (mul_right_cancel₀ hne ?_).symm
      simpa [mul_assoc] using a4
    have hK : (c.2.1.map K).prod = (((c.2.1.map fun b => relSign b (contractionWord (T b))).prod : Int) : R) * I.pval σ (c.2.1.map T) := by
      have hKb : ∀ b ∈ c.2.1, K b = (relSign b (contractionWord (T b)) : R) * I.tval σ (T b) := by
        intro b hb
        have ht := (hT (hg b hb))
        have hne : ∃ x ∈ b, ∃ y ∈ b, stringOf ops x ≠ stringOf ops y := by
          have ht1 := ht.1
          have mem := fun x => ht.2.mem_iff (a := x)
          have pt := proper_of_elementary h ht1
          have mU : ∀ i, i ∈ (T b).upper.list → (true, i) ∈ b := fun i hi => (mem _).mp ((mem_contractionWord pt).mpr (Or.inl ⟨rfl, hi⟩))
          have mL : ∀ i, i ∈ (T b).lower.list → (false, i) ∈ b := fun i hi => (mem _).mp ((mem_contractionWord pt).mpr (Or.inr ⟨rfl, hi⟩))
          obtain ⟨key, ⟨i, j, left, right, hij, hi, hj, ⟨u, hu, l, hl, _, -, e⟩ | ⟨l, hl, u, hu, _, -, e⟩⟩ |
            ⟨cre, ann, hcr, han, hlen1, h22, -, hnot, -, e⟩⟩ := ht1
          · rw [e] at mU mL
            refine ⟨(true, u), mU u (by simp [density]), (false, l), mL l (by simp [density]), ?_⟩
            rw [stringOf_upper h hi hu, stringOf_lower h hj hl]; omega
          · rw [e] at mU mL
            refine ⟨(true, u), mU u (by simp [density]), (false, l), mL l (by simp [density]), ?_⟩
            rw [stringOf_upper h hj hu, stringOf_lower h hi hl]; omega
          · rw [e] at mU mL
            by_contra hcon
            push Not at hcon
            obtain ⟨x0, hx0⟩ := List.exists_mem_of_ne_nil cre (by rintro rfl; simp at h22)
            refine hnot ⟨x0.1, fun x hx => ?_⟩
            have k0 : stringOf ops (true, x0.2) = x0.1 := by
              obtain ⟨op, ho, hi, -⟩ := mem_cumulantLegs (hcr.subset hx0)
              exact stringOf_upper h ho hi
            have m0 : (true, x0.2) ∈ b := mU _ (List.mem_map_of_mem hx0)
            rcases List.mem_append.mp hx with hx | hx
            · obtain ⟨op, ho, hi, -⟩ := mem_cumulantLegs (hcr.subset hx)
              rw [← k0, ← stringOf_upper h ho hi]
              exact hcon _ (mU _ (List.mem_map_of_mem hx)) _ m0
            · obtain ⟨op, ho, hi, -⟩ := mem_cumulantLegs (han.subset hx)
              rw [← k0, ← stringOf_lower h ho hi]
              exact hcon _ (mL _ (List.mem_map_of_mem hx)) _ m0
        have : K b = I.contraction (b.map (letterAt σ)) := hout b hne
        rw [this]
        exact contraction_block h ht.1 hI hole ((hrow c hc).1 b hb).2 ht.2
      have : ∀ bs : List (List (Bool × Index)), (∀ b ∈ bs, K b = (relSign b (contractionWord (T b)) : R) * I.tval σ (T b)) →
          (bs.map K).prod = (((bs.map fun b => relSign b (contractionWord (T b))).prod : Int) : R) * I.pval σ (bs.map T) := by
        intro bs hbs
        unfold Interp.pval
        induction bs with
        | nil => simp
        | cons b bs ih =>
          simp only [List.map_cons, List.prod_cons]
          rw [ih fun b hb => hbs b (List.mem_cons_of_mem _ hb), hbs b List.mem_cons_self]
          push_cast
          ring
      exact this _ hKb
    have hNr : N c.2.2 = relSign c.2.2 (stringWord (openOp ops (c.2.1.map T))) • I.opval σ (openOp ops (c.2.1.map T)) := by
      rw [opval_eq hno]
      exact hN.relSign (List.nodup_append.mp hwn).2.1 hrp
    simp only [Function.comp, W]
    rw [hK, hNr, hsgn, ← Int.cast_smul_eq_zsmul R c.1, ← Int.cast_smul_eq_zsmul R (relSign c.2.2 _), smul_smul, smul_smul, smul_smul]
    congr 1
    push_cast
    ring
  rw [e3, e4]
  refine sum_classes h1 ?_ (fun ts => ?_) W hW
  · rw [List.pairwise_map]
    refine ((rows_pairwise (Nat.le_refl _) hn).sublist (List.filter_sublist.trans List.filter_sublist)).imp_of_mem fun {c c'} hc hc' hne hp => hne ?_
    obtain ⟨hc, hg⟩ := List.mem_filter.mp hc
    obtain ⟨hc', hg'⟩ := List.mem_filter.mp hc'
    have hg : good c := of_decide_eq_true hg
    have hg' : good c' := of_decide_eq_true hg'
    have hinj : ∀ b, b ∈ c.2.1 ∨ b ∈ c'.2.1 → ∀ b', b' ∈ c.2.1 ∨ b' ∈ c'.2.1 → T b = T b' → b = b' := by
      intro b hb b' hb' e
      have g : ∀ b, b ∈ c.2.1 ∨ b ∈ c'.2.1 → (contractionWord (T b)).Perm b ∧ b.Sublist (productWord ops) := by
        intro b hb
        rcases hb with hb | hb
        · exact ⟨(hT (hg b hb)).2, ((hrow c hc).1 b hb).2⟩
        · exact ⟨(hT (hg' b hb)).2, ((hrow c' hc').1 b hb).2⟩
      have q : b.Perm b' := (g b hb).1.symm.trans (e ▸ (g b' hb').1)
      exact sublist_ext hn (g b hb).2 (g b' hb').2 fun x => q.mem_iff
    have nd : ∀ c ∈ rows, good c → c.2.1.Nodup := fun c hc hg => (hset c hc hg).2.of_map
    refine (List.perm_ext_iff_of_nodup (nd c hc hg) (nd c' hc' hg')).mpr fun b => ⟨fun hb => ?_, fun hb => ?_⟩
    · obtain ⟨b', hb', e⟩ := List.mem_map.mp (hp.subset (List.mem_map_of_mem hb))
      exact (hinj b' (Or.inr hb') b (Or.inl hb) e) ▸ hb'
    · obtain ⟨b', hb', e⟩ := List.mem_map.mp (hp.symm.subset (List.mem_map_of_mem hb))
      exact (hinj b' (Or.inl hb') b (Or.inr hb) e) ▸ hb'
  · rw [h2]
    constructor
    · rintro ⟨ha, hq⟩
      have hps := ha.proper h
      have hwd := (isResult_of_proper h hps).word
      have hflat : ts.flatMap contractionWord = (ts.map contractionWord).flatten := List.flatMap_def
      have hfn : (ts.map contractionWord).flatten.Nodup := by
        rw [← hflat]; exact (List.nodup_append.mp (hwd.nodup_iff.mpr hn)).1
      obtain ⟨c, hc0, B', hB', hfa⟩ := mem_rows (n := (productWord ops).length) (Nat.le_refl _) hn hfn (by
          intro b hb
          obtain ⟨t, ht, rfl⟩ := List.mem_map.mp hb
          have pt := hps.proper t ht
          intro e
          have hl := pt.length_legs
          rw [← contractionWord_eq pt, e] at hl
          have := List.length_pos_iff.mpr pt.ne
          simp [Indices.size] at hl
          exact pt.ne hl) (by
          intro x hx
          rw [← hflat] at hx
          exact hwd.subset (List.mem_append_left _ hx))
      have hc : c ∈ rows := List.mem_filter.mpr ⟨hc0, decide_eq_true ((hP _ _ _ hB' hfa).mpr ((hPQ ts ha).mp hq))⟩
      have hB : ∀ b ∈ B', ∃ t ∈ ts, contractionWord t = b := fun b hb => List.mem_map.mp (hB'.subset hb)
      have hg : good c := by
        intro b hb
        obtain ⟨b', hb', hbb⟩ := forall₂_mem_left hfa hb
        obtain ⟨t, ht, rfl⟩ := hB b' hb'
        exact ⟨t, ha.elementary t ht, hbb.symm⟩
      refine ⟨c.2.1.map T, List.mem_map.mpr ⟨c, List.mem_filter.mpr ⟨hc, decide_eq_true hg⟩, rfl⟩, ?_⟩
      refine (List.perm_ext_iff_of_nodup (hset c hc hg).2 ha.nodup).mpr fun t => ⟨fun ht => ?_, fun ht => ?_⟩
      · obtain ⟨b, hb, rfl⟩ := List.mem_map.mp ht
        obtain ⟨b', hb', hbb⟩ := forall₂_mem_left hfa hb
        obtain ⟨t, ht, rfl⟩ := hB b' hb'
        have e := elementary_inj h (hT (hg b hb)).1 (ha.elementary t ht) ((hT (hg b hb)).2.trans hbb)
        rw [e]; exact ht
      · obtain ⟨b, hb, hbb⟩ := forall₂_mem_right hfa (hB'.symm.subset (List.mem_map_of_mem ht))
        have e := elementary_inj h (hT (hg b hb)).1 (ha.elementary t ht) ((hT (hg b hb)).2.trans hbb)
        exact List.mem_map.mpr ⟨b, hb, e⟩
    · rintro ⟨c', hc', hp⟩
      obtain ⟨c, hc, rfl⟩ := List.mem_map.mp hc'
      obtain ⟨hc, hg⟩ := List.mem_filter.mp hc
      have hg : good c := of_decide_eq_true hg
      obtain ⟨hps, hnd⟩ := hset c hc hg
      have hps' : ProperSet ops ts := by
        refine ⟨fun t ht => hps.proper t (hp.symm.subset ht), ?_⟩
        exact (hp.pairwise_iff fun {x y} hxy => ⟨fun i hi hj => hxy.1 i hj hi, fun i hi hj => hxy.2 i hj hi⟩).mp hps.share
      have hlen := ProperSet.length_legs hps'.proper
      have hwd := (isResult_of_proper h hps').word.length_eq
      rw [List.length_append, length_productWord, List.flatMap_congr fun t ht => contractionWord_eq (hps'.proper t ht), hlen] at hwd
      have hall : Allowed ops maxCu maxOpen minOpen ts := by
        refine ⟨hp.nodup_iff.mp hnd, fun t ht => ?_, hps'.share, ?_, ?_⟩
        · obtain ⟨b, hb, rfl⟩ := List.mem_map.mp (hp.symm.subset ht)
          exact (hT (hg b hb)).1
        · omega
        · omega
      refine ⟨hall, (hPQ ts hall).mpr ((hP _ (c.2.1.map fun b => contractionWord (T b)) _ ?_ ?_).mp (of_decide_eq_true (List.mem_filter.mp hc).2))⟩
      · have := hp.map contractionWord
        rw [List.map_map] at this
        exact this
      · rw [List.forall₂_map_right_iff]
        exact List.forall₂_same.mpr fun b hb => (hT (hg b hb)).2.symm

/-- The contractions of a product of strings, for one assignment of orbitals to labels. -/
theorem wick_pointwise {ops : List SqOp} (h : GoodOps ops) {field : Bool × O → A} (hf : Fermions field) {I : Interp O R A}
    (hno : I.NormalOrdered field) (hI : I.Antisymmetric) {orb : Orbitals O} (hph : I.Physical orb)
    (hac : ∀ name (u l : List O), u.length ≠ 1 → (∃ o ∈ u ++ l, orb.elem o ≠ .active) → I.tensor .cumulant name u l = 0)
    {maxCu maxOpen minOpen : Int} (hcu : I.CumulantsUpTo maxCu) (hmin : minOpen ≤ 0) (hmax : (nOperators ops : Int) ≤ maxOpen)
    {σ : Index → O} (hσ : ∀ x ∈ productWord ops, orb.In x.2.space (σ x.2))
    {cs : List (List Tensor)} {sign : List Tensor → Int} {rest : List Tensor → SqOp} (h1 : cs.Pairwise (fun a b => ¬ a.Perm b))
    (h2 : ∀ ts, (∃ c ∈ cs, c.Perm ts) ↔ Allowed ops maxCu maxOpen minOpen ts) (h3 : ∀ c ∈ cs, IsResult ops c (sign c) (rest c)) :
    (cs.map fun c => (sign c : R) • I.pval σ c • I.opval σ (rest c)).sum = (ops.map (I.opval σ)).prod := by
  classical
  have hole : ∀ a b, I.tensor .hole ['C'] [a] [b] = (if a = b then 1 else 0) - I.tensor .cumulant ['L'] [a] [b] := hph.hole _
  have rules := (contraction_rules hf hI hole).map (letterAt σ)
  let N := normalOrder (fun x => field (letterAt σ x)) (fun b => I.contraction (b.map (letterAt σ)))
  let K : List (Bool × Index) → R := fun b =>
    if ∃ x ∈ b, ∃ y ∈ b, stringOf ops x ≠ stringOf ops y then I.contraction (b.map (letterAt σ)) else 0
  have hin : ∀ b, (∀ x ∈ b, ∀ y ∈ b, stringOf ops x = stringOf ops y) → K b = 0 := fun b hb => if_neg (by push Not; exact hb)
  have hout : ∀ b, (∃ x ∈ b, ∃ y ∈ b, stringOf ops x ≠ stringOf ops y) → K b = I.contraction (b.map (letterAt σ)) := fun b hb => if_pos hb
  have e1 : (ops.map (I.opval σ)).prod = contractionSum K (productWord ops).length (productWord ops) N := by
    have hw := wick rules (stringOf ops) K (ops.map stringWord) (keyed_strings h) hin hout (productWord ops).length
      (by rw [← List.flatMap_def]; exact Nat.le_refl _)
    rw [← List.flatMap_def] at hw
    refine Eq.trans ?_ hw
    rw [List.map_map]
    congr 1
    exact List.map_congr_left fun op _ => opval_eq hno σ op
  rw [e1, contractionSum_eq, rows_pointwise h hf hno hI hph hac hcu hmin hmax hσ (P := fun _ => True) (Q := fun _ => True)
    (fun _ _ _ _ _ => Iff.rfl) (fun _ _ => Iff.rfl) h1 (fun ts => (h2 ts).trans (and_true _).symm.to_iff) h3 K hin hout]
  simp [N]

end

end Dsrg
