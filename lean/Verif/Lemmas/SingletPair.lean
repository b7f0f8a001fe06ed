import Verif.Lemmas.SignedSum
import Verif.Props.IndexLists
import Verif.Model.Singlet

/-!
The singlet adaptation of one pair of index lists.
-/

namespace Dsrg

theorem isBeta_le {i j : Index} (h : i ≤ j) (hi : i.isBeta = true) : j.isBeta = true := by
  have h1 : i.space.priority ≤ j.space.priority := by
    have : i.key ≤ j.key := h
    rw [Prod.Lex.le_iff] at this
    rcases this with h | h
    · exact le_of_lt h
    · exact le_of_eq h.1
  revert h1 hi
  unfold Index.isBeta
  generalize i.space = s
  generalize j.space = s'
  revert s s'
  decide

/-- Sorted labels are alpha labels followed by beta labels. -/
theorem sorted_split {l : List Index} (h : l.Pairwise (· < ·)) :
    l = (l.filter fun i => !i.isBeta) ++ l.filter fun i => i.isBeta := by
  induction l with
  | nil => rfl
  | cons i l ih =>
    rw [List.pairwise_cons] at h
    by_cases hi : i.isBeta = true
    · have hall : ∀ j ∈ i :: l, j.isBeta = true := by
        intro j hj
        rcases List.mem_cons.1 hj with rfl | hj
        · exact hi
        · exact isBeta_le (le_of_lt (h.1 j hj)) hi
      rw [List.filter_eq_nil_iff.2 (fun j hj => by simp [hall j hj]), List.filter_eq_self.2 hall, List.nil_append]
    · conv_lhs => rw [ih h.2]
      simp [hi]

theorem map_idxOf_self {X : Type} [DecidableEq X] {l : List X} (hn : l.Nodup) : l.map (fun v => l.idxOf v) = List.range l.length := by
  apply List.ext_getElem
  · simp
  · intro k h1 h2
    simp only [List.getElem_map, List.getElem_range]
    exact hn.idxOf_getElem _ _

/-- The sign of exchanging two blocks depends on their lengths only. -/
theorem relSign_exchange {X : Type} [DecidableEq X] {a b a' b' : List X} (hn : (a ++ b).Nodup) (hn' : (a' ++ b').Nodup)
    (ha : a.length = a'.length) (hb : b.length = b'.length) : relSign (a ++ b) (b ++ a) = relSign (a' ++ b') (b' ++ a') := by
  have key : ∀ {a b : List X}, (a ++ b).Nodup → (b ++ a).map (fun v => (a ++ b).idxOf v) =
      (List.range (a.length + b.length)).drop a.length ++ (List.range (a.length + b.length)).take a.length := by
    intro a b hn
    have := map_idxOf_self hn
    rw [List.map_append, List.length_append] at this
    rw [List.map_append, ← this]
    rw [List.drop_left' (by simp), List.take_left' (by simp)]
  unfold relSign
  rw [key hn, key hn', ha, hb]

theorem flatMap_sum {A B M : Type} [AddCommMonoid M] (l : List A) (f : A → List B) (φ : B → M) :
    ((l.flatMap f).map φ).sum = (l.map fun a => ((f a).map φ).sum).sum := by
  induction l with
  | nil => rfl
  | cons a l ih => simp [ih]

/-- What the rows of a pair look like. -/
theorem singletAdaptation_eq {x : IndicesPair} {ρ : Index → Index} {am : Bool} {rows : List (Int × List Index × List Index)}
    (h : x.singletAdaptation ρ am = .ok rows) : x.upper.nBeta = x.lower.nBeta ∧ x.upper.list.length = x.lower.list.length ∧
    rows = (let u := x.upper.canonicalize
      let l := x.lower.canonicalize
      let w := fun y : Indices => if (am && decide (y.betaIndices.length > y.alphaIndices.length)) ||
        (!am && decide (y.alphaIndices.length > y.betaIndices.length)) then (y.betaIndices, y.alphaIndices) else (y.alphaIndices, y.betaIndices)
      if x.lower.list.length < 2 then [(u.2 * l.2, ((w u.1).1 ++ (w u.1).2).map ρ, l.1.list.map ρ)]
      else (pyPermutations (List.range (w l.1).1.length)).flatMap fun a => (pyPermutations (List.range (w l.1).2.length)).map fun b =>
        (signPow (invCount a) * signPow (invCount b) * (u.2 * l.2), ((w u.1).1 ++ (w u.1).2).map ρ,
          (a.filterMap fun k => (w l.1).1[k]?.map ρ) ++ (b.filterMap fun k => (w l.1).2[k]?.map ρ))) := by
  unfold IndicesPair.singletAdaptation at h
  by_cases hb : x.upper.nBeta ≠ x.lower.nBeta
  · rw [if_pos hb] at h; cases h
  rw [if_neg hb] at h
  by_cases h1 : x.nLower ≠ x.nUpper
  · have : x.nBody = .error .valueError := if_pos h1
    simp only [this, bind, Except.bind] at h
    cases h
  have h0 : x.nBody = .ok x.nLower := if_neg h1
  refine ⟨not_not.1 hb, (not_not.1 h1).symm, ?_⟩
  simp only [h0, bind, Except.bind] at h
  by_cases h2 : x.nLower < 2
  · simp only [if_pos h2] at h
    rw [if_pos (show x.lower.list.length < 2 from h2)]
    exact (Except.ok.inj h).symm
  · simp only [if_neg h2] at h
    rw [if_neg (show ¬ x.lower.list.length < 2 from h2)]
    exact (Except.ok.inj h).symm

/-- The two blocks of a sorted list, in the order that the major spin asks for. -/
theorem blocks_exchange {M : Type} [AddCommGroup M] {F : List Index → List Index → M} (hF : PairSymmFn F) {a b a' b' : List Index}
    (hn : (a ++ b).Nodup) (hn' : (a' ++ b').Nodup) (ha : a.length = a'.length) (hb : b.length = b'.length) :
    signedSum (fun L => if (a ++ b).map Index.isBeta = L.map Index.isBeta then F (a ++ b) L else 0) (a' ++ b') =
      signedSum (fun L => if (b ++ a).map Index.isBeta = L.map Index.isBeta then F (b ++ a) L else 0) (b' ++ a') := by
  rw [(antisymmFn_upper Index.isBeta hF hn').relSign hn List.perm_append_comm, (antisymmFn_signedSum _).relSign hn' List.perm_append_comm,
    relSign_exchange hn hn' ha hb, smul_smul, relSign_sq, one_smul]

theorem map_isBeta_replicate {l : List Index} {s : Bool} (h : ∀ v ∈ l, v.isBeta = s) : l.map Index.isBeta = List.replicate l.length s := by
  rw [List.eq_replicate_iff]
  simp only [List.length_map, true_and, List.mem_map]
  rintro _ ⟨v, hv, rfl⟩
  exact h v hv

/-- The rows for two blocks are all spin-matching rearrangements. -/
theorem blocks_rows {Y M : Type} [AddCommGroup M] (F : List Y → List Y → M) (g h : Index → Y) (ρ : Index → Index) (s : Bool) {a b a' b' : List Index}
    (hn' : (a' ++ b').Nodup) (hla : a.length = a'.length) (hlb : b.length = b'.length)
    (ha : ∀ v ∈ a, v.isBeta = s) (hb : ∀ v ∈ b, v.isBeta = !s) (ha' : ∀ v ∈ a', v.isBeta = s) (hb' : ∀ v ∈ b', v.isBeta = !s)
    (hg : ∀ i, i ∈ a ++ b ∨ i ∈ a' ++ b' → h (ρ i) = g i) (sg : Int) :
    sg • signedSum (fun L => if (a ++ b).map Index.isBeta = L.map Index.isBeta then F ((a ++ b).map g) (L.map g) else 0) (a' ++ b') =
      (((pyPermutations (List.range a'.length)).flatMap fun p => (pyPermutations (List.range b'.length)).map fun q =>
        ((signPow (invCount p) * signPow (invCount q) * sg, (a ++ b).map ρ,
          (p.filterMap fun k => a'[k]?.map ρ) ++ (q.filterMap fun k => b'[k]?.map ρ)) : Int × List Index × List Index)).map
          fun r => r.1 • F (r.2.1.map h) (r.2.2.map h)).sum := by
  rw [signedSum_blocks Index.isBeta (fun L => F ((a ++ b).map g) (L.map g)) s hn' ha' hb' hla (by
    rw [List.map_append, map_isBeta_replicate ha, map_isBeta_replicate hb, hlb])]
  rw [flatMap_sum]
  have hn1 : a'.Nodup := (List.nodup_append.1 hn').1
  have hn2 : b'.Nodup := (List.nodup_append.1 hn').2.1
  have e1 : ((a ++ b).map ρ).map h = (a ++ b).map g := by
    rw [List.map_map]; exact List.map_congr_left fun i hi => hg i (Or.inl hi)
  have e2 : ∀ (c : List Index), (∀ i ∈ c, i ∈ a' ++ b') → ∀ p : List Nat, (p.filterMap fun k => c[k]?.map ρ).map h = (p.filterMap fun k => c[k]?).map g := by
    intro c hc p
    rw [List.map_filterMap, List.map_filterMap]
    apply List.filterMap_congr
    intro k _
    cases hk : c[k]? with
    | none => rfl
    | some i => simp [hg i (Or.inr (hc i (List.mem_of_getElem? hk)))]
  have inner : ∀ A : List Index, ((pyPermutations (List.range b'.length)).map fun q => signPow (invCount q) •
      F ((a ++ b).map g) ((A ++ q.filterMap fun k => b'[k]?).map g)).sum =
      ((pyPermutations b').map fun B => relSign b' B • F ((a ++ b).map g) ((A ++ B).map g)).sum := fun A =>
    sum_range_eq (fun B => F ((a ++ b).map g) ((A ++ B).map g)) hn2
  have outer := sum_range_eq (fun A => ((pyPermutations b').map fun B => relSign b' B • F ((a ++ b).map g) ((A ++ B).map g)).sum) hn1
  have lhs : ((pyPermutations a').flatMap fun A => (pyPermutations b').map fun B => (relSign a' A * relSign b' B) • F ((a ++ b).map g) ((A ++ B).map g)).sum =
      ((pyPermutations a').map fun A => relSign a' A • ((pyPermutations b').map fun B => relSign b' B • F ((a ++ b).map g) ((A ++ B).map g)).sum).sum := by
    have := flatMap_sum (pyPermutations a') (fun A => (pyPermutations b').map fun B => (relSign a' A * relSign b' B) • F ((a ++ b).map g) ((A ++ B).map g)) id
    rw [List.map_id] at this
    rw [this]
    congr 1
    apply List.map_congr_left
    intro A _
    rw [List.map_id, List.smul_sum, List.map_map]
    simp only [Function.comp_def, smul_smul]
  rw [lhs, ← outer, List.smul_sum, List.map_map]
  congr 1
  apply List.map_congr_left
  intro p _
  rw [Function.comp_apply, ← inner, List.smul_sum, List.smul_sum, List.map_map, List.map_map, List.map_map]
  congr 1
  apply List.map_congr_left
  intro q _
  simp only [Function.comp_apply]
  rw [List.map_append (f := h), e1, e2 a' (fun i hi => List.mem_append_left _ hi), e2 b' (fun i hi => List.mem_append_right _ hi), ← List.map_append, smul_smul, smul_smul]
  congr 1
  ring

theorem perms_singleton {X : Type} (v : X) : pyPermutations [v] = [[v]] := rfl

theorem relSign_one {X : Type} [DecidableEq X] (v : X) : relSign [v] [v] = 1 := relSign_self (by simp)

/-- The rows of a pair add up to the spin-dependent value. -/
theorem singlet_pair {x : IndicesPair} (hu : x.upper.WF) (hl : x.lower.WF) (hau : x.upper.ty.isAntisym = true) (hal : x.lower.ty.isAntisym = true)
    {ρ : Index → Index} {am : Bool} {rows : List (Int × List Index × List Index)} (hr : x.singletAdaptation ρ am = .ok rows)
    {Y M : Type} [AddCommGroup M] {F : List Y → List Y → M} (hF : PairSymmFn F) {g h : Index → Y} (hg : ∀ i ∈ x.indices, h (ρ i) = g i) :
    signedSum (fun L => if x.upper.list.map Index.isBeta = L.map Index.isBeta then F (x.upper.list.map g) (L.map g) else 0) x.lower.list =
      (rows.map fun r => r.1 • F (r.2.1.map h) (r.2.2.map h)).sum := by
  obtain ⟨hb, hlen, hrows⟩ := singletAdaptation_eq hr
  obtain ⟨-, cu2, cu3, -⟩ := canonicalize_list x.upper hau hu.1
  obtain ⟨-, cl2, cl3, -⟩ := canonicalize_list x.lower hal hl.1
  have hG : PairSymmFn fun u L : List Index => F (u.map g) (L.map g) := by
    intro pre a b post pre' a' b' post' hl
    simp only [List.map_append, List.map_cons]
    exact hF _ _ _ _ _ _ _ _ (by simp [hl])
  have h1 := C09_antisymmetric_value (fun u => signedSum (fun L => if u.map Index.isBeta = L.map Index.isBeta then F (u.map g) (L.map g) else 0) x.lower.list)
    (antisymmFn_upper Index.isBeta hG hl.1) x.upper hu
  have h2 := C09_antisymmetric_value (signedSum fun L => if x.upper.canonicalize.1.list.map Index.isBeta = L.map Index.isBeta then
    F (x.upper.canonicalize.1.list.map g) (L.map g) else 0) (antisymmFn_signedSum _) x.lower hl
  rw [h1, h2, smul_smul, hrows]
  simp only
  generalize hsu : x.upper.canonicalize = U at *
  generalize hsl : x.lower.canonicalize = L at *
  have eU := sorted_split cu3
  have eL := sorted_split cl3
  have nU : U.1.list.Nodup := (cu2.nodup_iff).2 hu.1
  have nL : L.1.list.Nodup := (cl2.nodup_iff).2 hl.1
  change U.1.list = U.1.alphaIndices ++ U.1.betaIndices at eU
  change L.1.list = L.1.alphaIndices ++ L.1.betaIndices at eL
  have hbb : U.1.betaIndices.length = L.1.betaIndices.length := by
    have e1 : U.1.betaIndices.length = x.upper.nBeta := by
      rw [Indices.betaIndices, ← List.countP_eq_length_filter, cu2.countP_eq]; rfl
    have e2 : L.1.betaIndices.length = x.lower.nBeta := by
      rw [Indices.betaIndices, ← List.countP_eq_length_filter, cl2.countP_eq]; rfl
    rw [e1, e2, hb]
  have haa : U.1.alphaIndices.length = L.1.alphaIndices.length := by
    have e1 := congrArg List.length eU
    have e2 := congrArg List.length eL
    rw [List.length_append, cu2.length_eq] at e1
    rw [List.length_append, cl2.length_eq] at e2
    omega
  have hUa : ∀ v ∈ U.1.alphaIndices, v.isBeta = false := fun v hv => by simpa using (List.mem_filter.1 hv).2
  have hUb : ∀ v ∈ U.1.betaIndices, v.isBeta = true := fun v hv => (List.mem_filter.1 hv).2
  have hLa : ∀ v ∈ L.1.alphaIndices, v.isBeta = false := fun v hv => by simpa using (List.mem_filter.1 hv).2
  have hLb : ∀ v ∈ L.1.betaIndices, v.isBeta = true := fun v hv => (List.mem_filter.1 hv).2
  have hgU : ∀ i ∈ U.1.list, h (ρ i) = g i := fun i hi => hg i (List.mem_append_left _ (cu2.mem_iff.1 hi))
  have hgL : ∀ i ∈ L.1.list, h (ρ i) = g i := fun i hi => hg i (List.mem_append_right _ (cl2.mem_iff.1 hi))
  rw [show (am && decide (L.1.betaIndices.length > L.1.alphaIndices.length) || !am && decide (L.1.alphaIndices.length > L.1.betaIndices.length)) =
    (am && decide (U.1.betaIndices.length > U.1.alphaIndices.length) || !am && decide (U.1.alphaIndices.length > U.1.betaIndices.length)) by
      rw [hbb, haa]]
  by_cases hn : x.lower.list.length < 2
  · rw [if_pos hn]
    rw [List.map_cons, List.map_nil, List.sum_cons, List.sum_nil, add_zero]
    congr 1
    have hw : ∀ c : Bool, ((if c = true then (U.1.betaIndices, U.1.alphaIndices) else (U.1.alphaIndices, U.1.betaIndices)).1 ++
        (if c = true then (U.1.betaIndices, U.1.alphaIndices) else (U.1.alphaIndices, U.1.betaIndices)).2) = U.1.list := by
      intro c
      have hlenU : U.1.alphaIndices.length + U.1.betaIndices.length < 2 := by
        have := congrArg List.length eU
        rw [List.length_append, cu2.length_eq] at this
        omega
      cases c
      · exact eU.symm
      · simp only [if_true]
        rw [eU]
        rcases hA : U.1.alphaIndices with _ | ⟨y, A⟩
        · simp
        · rw [hA] at hlenU
          have : U.1.betaIndices = [] := by
            apply List.length_eq_zero_iff.1
            simp at hlenU
            omega
          simp [this]
    rw [hw, List.map_map, List.map_map]
    rw [List.map_congr_left (f := h ∘ ρ) (g := g) (fun i hi => hgU i hi), List.map_congr_left (f := h ∘ ρ) (g := g) (fun i hi => hgL i hi)]
    have hspin : U.1.list.map Index.isBeta = L.1.list.map Index.isBeta := by
      rw [eU, eL, List.map_append, List.map_append, map_isBeta_replicate hUa, map_isBeta_replicate hUb, map_isBeta_replicate hLa,
        map_isBeta_replicate hLb, haa, hbb]
    rw [signedSum_eq _ nL]
    have hlenL : L.1.list.length < 2 := by rw [cl2.length_eq]; exact hn
    rcases hL : L.1.list with _ | ⟨v, _ | ⟨v', l⟩⟩
    · rw [hL] at hspin
      simp [pyPermutations, pyPermutationsAux, hspin, relSign, invCount, signPow]
    · rw [hL] at hspin
      rw [perms_singleton, List.map_cons, List.map_nil, List.sum_cons, List.sum_nil, relSign_one, if_pos hspin]
      simp
    · rw [hL] at hlenL; simp at hlenL
  · rw [if_neg hn]
    cases hc : (am && decide (U.1.betaIndices.length > U.1.alphaIndices.length) || !am && decide (U.1.alphaIndices.length > U.1.betaIndices.length))
    · simp only [Bool.false_eq_true, if_false]
      rw [eU] at hgU nU ⊢
      rw [eL] at hgL nL ⊢
      exact blocks_rows F g h ρ false nL haa hbb hUa hUb hLa hLb (fun i hi => hi.elim (hgU i) (hgL i)) _
    · simp only [if_true]
      rw [eU] at hgU nU ⊢
      rw [eL] at hgL nL ⊢
      rw [blocks_exchange hG nU nL haa hbb]
      refine blocks_rows F g h ρ true ?_ hbb haa hUb hUa hLb hLa (fun i hi => hi.elim (fun hi => hgU i ?_) fun hi => hgL i ?_) _
      · exact (List.perm_append_comm.nodup_iff).2 nL
      · exact List.perm_append_comm.mem_iff.1 hi
      · exact List.perm_append_comm.mem_iff.1 hi

theorem filterMap_range_self {X : Type} (d : List X) : (List.range d.length).filterMap (fun k => d[k]?) = d := by
  rcases d with _ | ⟨a, tl⟩
  · rfl
  set d := a :: tl
  have h : (List.range d.length).filterMap (fun k => d[k]?) = (List.range d.length).map fun k => d[k]?.getD a := by
    rw [← List.filterMap_eq_map]
    apply List.filterMap_congr
    intro k hk
    simp [List.mem_range.1 hk]
  rw [h]
  apply List.ext_getElem
  · simp
  · intro i h1 h2
    simp [h2]

/-- The rows of a pair have the labels of the pair and signs. -/
theorem singlet_pair_rows {x : IndicesPair} (hu : x.upper.WF) (hl : x.lower.WF) (hau : x.upper.ty.isAntisym = true) (hal : x.lower.ty.isAntisym = true)
    {ρ : Index → Index} {am : Bool} {rows : List (Int × List Index × List Index)} (hr : x.singletAdaptation ρ am = .ok rows) :
    ∀ r ∈ rows, (r.1 = 1 ∨ r.1 = -1) ∧ r.2.1.Perm (x.upper.list.map ρ) ∧ r.2.2.Perm (x.lower.list.map ρ) := by
  obtain ⟨hb, hlen, hrows⟩ := singletAdaptation_eq hr
  obtain ⟨-, cu2, cu3, cu4⟩ := canonicalize_list x.upper hau hu.1
  obtain ⟨-, cl2, cl3, cl4⟩ := canonicalize_list x.lower hal hl.1
  have hsg : x.upper.canonicalize.2 * x.lower.canonicalize.2 = 1 ∨ x.upper.canonicalize.2 * x.lower.canonicalize.2 = -1 := by
    rw [cu4, cl4, ← signPow_add]; exact signPow_eq _
  have hsplit : ∀ (y : Indices) (c : Bool), ((if c = true then (y.betaIndices, y.alphaIndices) else (y.alphaIndices, y.betaIndices)).1 ++
        (if c = true then (y.betaIndices, y.alphaIndices) else (y.alphaIndices, y.betaIndices)).2).Perm y.list := by
    intro y c
    have : (y.alphaIndices ++ y.betaIndices).Perm y.list := by
      have := List.filter_append_perm (fun i : Index => !i.isBeta) y.list
      simpa [Indices.alphaIndices, Indices.betaIndices] using this
    cases c
    · simpa using this
    · simpa using List.perm_append_comm.trans this
  have hfill : ∀ (c : List Index) (p : List Nat), p ∈ pyPermutations (List.range c.length) → (p.filterMap fun k => c[k]?.map ρ).Perm (c.map ρ) := by
    intro c p hp
    rw [mem_pyPermutations] at hp
    refine (hp.filterMap _).trans ?_
    rw [show (fun k => c[k]?.map ρ) = fun k => (c.map ρ)[k]? by funext k; simp]
    have : c.length = (c.map ρ).length := by simp
    rw [this]
    generalize c.map ρ = d
    exact List.Perm.of_eq (filterMap_range_self d)
  subst hrows
  intro r hr
  simp only at hr
  by_cases h1 : x.lower.list.length < 2
  · rw [if_pos h1, List.mem_singleton] at hr
    subst hr
    exact ⟨hsg, ((hsplit _ _).trans cu2).map ρ, cl2.map ρ⟩
  · rw [if_neg h1, List.mem_flatMap] at hr
    obtain ⟨a, ha, hr⟩ := hr
    rw [List.mem_map] at hr
    obtain ⟨b, hb', rfl⟩ := hr
    refine ⟨?_, ((hsplit _ _).trans cu2).map ρ, ?_⟩
    · rcases hsg with h | h <;> rw [h] <;> rcases signPow_eq (invCount a) with h | h <;> rw [h] <;> rcases signPow_eq (invCount b) with h | h <;> rw [h] <;> simp
    · refine ((hfill _ a ha).append (hfill _ b hb')).trans ?_
      rw [← List.map_append]
      exact ((hsplit _ _).trans cl2).map ρ

end Dsrg
