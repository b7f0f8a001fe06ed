import Verif.Model.PhysOp
import Verif.Spec.Products
import Verif.Props.Contract
import Verif.Lemmas.Commutator
import Verif.Lemmas.Combine
import Verif.Lemmas.SympyValue
import Mathlib.Data.Multiset.Bind

/-!
Lemmas on runs of `contract_terms`.
-/

namespace Dsrg

/-! ### Expansion of hole densities of permuted lists -/

/-- The factors that can replace a density, with their signs. -/
def signedPool (t : Tensor) : Multiset (Int × Tensor) :=
  if t.cls = .hole then (t.expandHole : Multiset Tensor).map fun e => (if e.cls = .cumulant then -1 else 1, e) else {(1, t)}

/-- The expansion without regard to the order of the factors. -/
def expandMulti : List Tensor → Multiset (Int × Multiset Tensor)
  | [] => {(1, 0)}
  | t :: ts => (signedPool t).bind fun p => (expandMulti ts).map fun r => (p.1 * r.1, p.2 ::ₘ r.2)

theorem expandMulti_perm {ts ts' : List Tensor} (h : ts.Perm ts') : expandMulti ts = expandMulti ts' := by
  induction h with
  | nil => rfl
  | cons t _ ih => simp only [expandMulti, ih]
  | swap a b ts =>
    simp only [expandMulti, Multiset.map_bind, Multiset.map_map, Function.comp_def]
    rw [Multiset.bind_bind]
    refine Multiset.bind_congr fun p _ => Multiset.bind_congr fun q _ => Multiset.map_congr rfl fun r _ => ?_
    rw [mul_left_comm, Multiset.cons_swap]
  | trans _ _ h1 h2 => rw [h1, h2]

theorem expandMulti_eq (ts : List Tensor) :
    (((expandHoleDensities ts).map fun r => (r.1, (r.2 : Multiset Tensor)) : List _) : Multiset (Int × Multiset Tensor)) = expandMulti ts := by
  have key : ∀ ts : List Tensor, (((pyProduct (splitHoles ts).2).map fun ex : List Tensor =>
      (signPow (ex.countP fun t => decide (t.cls = .cumulant)), ((splitHoles ts).1 : Multiset Tensor) + (ex : Multiset Tensor)) : List _) :
        Multiset (Int × Multiset Tensor)) = expandMulti ts := by
    intro ts
    induction ts with
    | nil => simp [splitHoles, pyProduct, expandMulti, signPow]
    | cons t ts ih =>
      unfold expandMulti signedPool
      rw [← ih]
      by_cases ht : t.cls = .hole
      · have e1 : (splitHoles (t :: ts)).1 = (splitHoles ts).1 := by simp [splitHoles, ht]
        have e2 : (splitHoles (t :: ts)).2 = t.expandHole :: (splitHoles ts).2 := by simp [splitHoles, ht]
        rw [if_pos ht, e1, e2]
        simp only [pyProduct, Multiset.map_coe, Multiset.coe_bind, List.flatMap_map, List.map_flatMap, List.map_map, Function.comp_def]
        congr 1
        refine List.flatMap_congr fun e _ => List.map_congr_left fun ex _ => ?_
        by_cases hc : e.cls = .cumulant
        · simp [hc, signPow_succ, Multiset.add_cons, ← Multiset.cons_coe]
        · simp [hc, Multiset.add_cons, ← Multiset.cons_coe]
      · have e1 : (splitHoles (t :: ts)).1 = t :: (splitHoles ts).1 := by simp [splitHoles, ht]
        have e2 : (splitHoles (t :: ts)).2 = (splitHoles ts).2 := by simp [splitHoles, ht]
        rw [if_neg ht, e1, e2, Multiset.singleton_bind]
        simp only [Multiset.map_coe, List.map_map, Function.comp_def]
        congr 1
        refine List.map_congr_left fun ex _ => ?_
        simp [← Multiset.cons_coe]
  rw [← key]
  unfold expandHoleDensities
  simp only []
  split
  · next h0 =>
    have hn : (splitHoles ts).2 = [] := List.length_eq_zero_iff.1 h0
    have hno : ∀ t ∈ ts, ¬ t.cls = .hole := by
      intro t ht hc
      simp only [splitHoles, List.map_eq_nil_iff, List.filter_eq_nil_iff, decide_eq_true_eq] at hn
      exact hn t ht hc
    have e : (splitHoles ts).1 = ts := by
      simp only [splitHoles]
      rw [List.filter_eq_self]
      intro t ht; simpa using hno t ht
    rw [hn, e]
    simp [pyProduct, signPow]
  · simp only [List.map_map, Function.comp_def]
    congr 1

/-- A function of a row that does not depend on the order of the densities. -/
def RowFn {β : Type} (f : Row → β) : Prop := ∀ s op (d d' : List Tensor), d.Perm d' → f (s, d, op) = f (s, d', op)

theorem RowFn.perm_rows {β : Type} {f : Row → β} (hf : RowFn f) {ops : List SqOp} (h : GoodOps ops) {expand : Bool} {c c' : List Tensor}
    (hps : ProperSet ops c) (hp : c.Perm c') : ((resultRows ops expand c).map f).Perm ((resultRows ops expand c').map f) := by
  let f' : Int × Multiset Tensor × SqOp → β := fun r => f (r.1, r.2.1.toList, r.2.2)
  have hff : ∀ s (d : List Tensor) op, f (s, d, op) = f' (s, (d : Multiset Tensor), op) := by
    intro s d op
    exact hf s op _ _ (Multiset.coe_eq_coe.1 (Multiset.coe_toList _).symm)
  unfold resultRows
  rw [sign_congr h hps hp, openOp_congr hp]
  rw [← Multiset.coe_eq_coe]
  generalize relSign (baseOrder ops) (arranged ops c) = s
  generalize openOp ops c' = op
  cases expand with
  | false => simp [hff, Multiset.coe_eq_coe.2 hp]
  | true =>
    have hE : ∀ c : List Tensor, ((((if true = true then expandHoleDensities c else [(1, c)]).map fun r => (s * r.1, r.2, op)).map f : List β) :
        Multiset β) = (expandMulti c).map fun r => f' (s * r.1, r.2, op) := by
      intro c
      rw [← expandMulti_eq, Multiset.map_coe]
      simp only [if_true, List.map_map, Function.comp_def, hff]
    rw [hE, hE, expandMulti_perm hp]

/-- The contractions that a call finds. -/
def Found (ops : List SqOp) (o : Options) (ts : List Tensor) : Prop :=
  if o.forCommutator then FoundChoice ops o.maxCu o.maxOpen o.minOpen ts else Allowed ops o.maxCu o.maxOpen o.minOpen ts

theorem contractions_spec {ops : List SqOp} (h : GoodOps ops) {o : Options} {batches : List (List Row)} (hr : ContractionsRun ops o batches) :
    ∃ cs : List (List Tensor), cs.Pairwise (fun a b => ¬ a.Perm b) ∧ (∀ ts, (∃ c ∈ cs, c.Perm ts) ↔ Found ops o ts) ∧
      (∀ c ∈ cs, Allowed ops o.maxCu o.maxOpen o.minOpen c) ∧ batches.flatten.Perm (cs.flatMap (resultRows ops o.expandHole)) := by
  unfold ContractionsRun at hr
  unfold Found
  split_ifs at hr ⊢ with hf
  · obtain ⟨cs, h1, h2, -, h4, h5⟩ := connected_spec' h hr
    exact ⟨cs, h1, h5, fun c hc => (h2 c ⟨c, hc, List.Perm.refl _⟩).1, h4⟩
  · obtain ⟨cs, h1, h2, h3⟩ := general_spec h hr
    refine ⟨cs, h1, h2, fun c hc => (h2 c).1 ⟨c, hc, List.Perm.refl _⟩, ?_⟩
    rw [List.flatMap_def]; exact h3.flatten

/-- Two runs of the enumeration give the same rows, up to their order and the order of the densities in them. -/
theorem contractions_unique {β : Type} {f : Row → β} (hf : RowFn f) {ops : List SqOp} (h : GoodOps ops) {o o' : Options}
    (ho : ∀ ts, Found ops o ts ↔ Found ops o' ts) (hx : o.expandHole = o'.expandHole) {b b' : List (List Row)}
    (hr : ContractionsRun ops o b) (hr' : ContractionsRun ops o' b') : (b.flatten.map f).Perm (b'.flatten.map f) := by
  obtain ⟨cs, h1, h2, h3, h4⟩ := contractions_spec h hr
  obtain ⟨cs', h1', h2', h3', h4'⟩ := contractions_spec h hr'
  refine (h4.map f).trans (List.Perm.trans ?_ (h4'.map f).symm)
  rw [← Multiset.coe_eq_coe, ← hx]
  have hW : ∀ cs : List (List Tensor), (((cs.flatMap (resultRows ops o.expandHole)).map f : List β) : Multiset β) =
      (cs.map fun c => (((resultRows ops o.expandHole c).map f : List β) : Multiset β)).sum := by
    intro cs
    induction cs with
    | nil => rfl
    | cons c cs ih => rw [List.flatMap_cons, List.map_append, ← Multiset.coe_add, ih, List.map_cons, List.sum_cons]
  rw [hW, hW]
  refine sum_classes h1 h1' (fun ts => (h2 ts).trans ((ho ts).trans (h2' ts).symm)) _ ?_
  intro a ha b hp
  exact Multiset.coe_eq_coe.2 (hf.perm_rows h ((h3 a ha).proper h) hp)

/-! ### The constructor and permuted factors -/

theorem sortTensors_congr {ts ts' : List Tensor} (hp : ts.Perm ts')
    (hk : ∀ x ∈ ts, ∀ y ∈ ts, x.name = y.name → x.cls = y.cls ∧ x.priority = y.priority)
    (ht : ∀ x ∈ ts, ∀ y ∈ ts, x.upper.ty = y.upper.ty ∧ x.lower.ty = y.lower.ty) : sortTensors ts = sortTensors ts' := by
  have h1 := sortTensors_sorted ts
  have h2 := sortTensors_sorted ts'
  have hpp : (sortTensors ts).Perm (sortTensors ts') := (sortTensors_perm ts).trans (hp.trans (sortTensors_perm ts').symm)
  refine List.Perm.eq_of_pairwise ?_ h1 h2 hpp
  intro a b ha hb hab hba
  rw [Tensor.ltCore_eq] at hab hba
  have ha' := (sortTensors_perm ts).mem_iff.1 ha
  have hb' : b ∈ ts := hp.mem_iff.2 ((sortTensors_perm ts').mem_iff.1 hb)
  have e : a.cmpKey = b.cmpKey := by
    rcases tensor_totLt.tri a.cmpKey b.cmpKey with h | h | h
    · rw [h] at hba; exact absurd hba (by decide)
    · exact h
    · rw [h] at hab; exact absurd hab (by decide)
  have := map_cmpKey_inj (ts := [a]) (ts' := [b]) (by simpa using hk a ha' b hb') (by simpa using ht a ha' b hb') (by simpa using e)
  simpa using this

theorem Term.make_congr {ts ts' : List Tensor} (hp : ts.Perm ts') {op : SqOp} {c : ℚ}
    (hk : ∀ x ∈ ts, ∀ y ∈ ts, x.name = y.name → x.cls = y.cls ∧ x.priority = y.priority)
    (ht : ∀ x ∈ ts, ∀ y ∈ ts, x.upper.ty = y.upper.ty ∧ x.lower.ty = y.lower.ty) {t : Term} (h : Term.make ts op c = .ok t) :
    Term.make ts' op c = .ok t := by
  obtain ⟨h1, h2, h3, rfl⟩ := Term.make_ok.1 h
  have hl := labelList_perm hp op
  have hd : diagonalOf ts op = diagonalOf ts' op := by
    ext i; rw [mem_diagonalOf, mem_diagonalOf]; simp only [hp.mem_iff]
  refine Term.make_ok.2 ⟨fun x hx => h1 x (hp.mem_iff.2 hx), ?_, ?_, ?_⟩
  · intro i hi hid
    rw [← hl.count_eq]; exact h2 i (hl.mem_iff.2 hi) (hd ▸ hid)
  · intro i hi
    rw [← hl.count_eq]; exact h3 i (hd ▸ hi)
  · rw [sortTensors_congr hp hk ht, labelsOf_perm hp, hd]

/-! ### What `canonicalize_sympy` keeps -/

theorem bsgs_length {x : IndicesPair} {hermitian noSym : Bool} {gens : List (List Nat)} (h : x.bsgs hermitian noSym = .ok gens) :
    ∀ p ∈ gens, p.length = x.size + 2 := by
  have hU : x.size = x.nUpper + x.nLower := rfl
  unfold IndicesPair.bsgs at h
  by_cases h0 : x.size = 0
  · rw [if_pos h0] at h; cases h
  rw [if_neg h0] at h
  by_cases hn : noSym = true
  · rw [if_pos hn] at h
    unfold IndicesPair.nBody at h
    by_cases hb : x.nLower ≠ x.nUpper
    · rw [if_pos hb] at h; cases h
    · rw [if_neg hb] at h
      simp only [bind, Except.bind, pure, Except.pure, Except.ok.injEq] at h
      subst h
      push Not at hb
      intro p hp
      simp only [List.mem_singleton] at hp
      subst hp
      rw [List.length_range]; omega
  rw [if_neg hn] at h
  by_cases ha : x.upper.ty.isAntisym = false
  · rw [if_pos ha] at h
    by_cases hb : x.nLower ≠ x.nUpper
    · rw [if_pos hb] at h; cases h
    rw [if_neg hb] at h
    injection h with h
    subst h
    push Not at hb
    intro p hp
    unfold symGens at hp
    rw [List.mem_append, List.mem_map, List.mem_singleton] at hp
    rcases hp with ⟨i, -, rfl⟩ | rfl
    · simp; omega
    · split
      · simp [halvesArray]; omega
      · simp; omega
  rw [if_neg ha] at h
  by_cases hh : hermitian = false
  · rw [if_pos hh] at h
    by_cases hb : x.nUpper = 0 ∨ x.nLower = 0
    · rw [if_pos hb] at h; cases h
    rw [if_neg hb] at h
    injection h with h
    subst h
    intro p hp
    unfold asymGens at hp
    simp only [Bool.false_eq_true, if_false, List.append_nil, List.mem_append, List.mem_map] at hp
    rcases hp with ⟨i, -, rfl⟩ | ⟨i, -, rfl⟩ <;> simp [signedSwapArray] <;> omega
  rw [if_neg hh] at h
  by_cases hb : x.nUpper ≠ x.nLower
  · rw [if_pos hb] at h; cases h
  rw [if_neg hb] at h
  injection h with h
  subst h
  push Not at hb
  intro p hp
  unfold asymGens at hp
  simp only [if_true, List.mem_append, List.mem_map, List.mem_singleton] at hp
  rcases hp with (⟨i, -, rfl⟩ | ⟨i, -, rfl⟩) | rfl
  · simp [signedSwapArray]; omega
  · simp [signedSwapArray]; omega
  · simp [halvesArray]; omega

theorem opBsgs_length {x : SqOp} {gens : List (List Nat)} (h : x.opBsgs = .ok gens) : ∀ p ∈ gens, p.length = x.size + 2 := by
  unfold IndicesPair.opBsgs at h
  split at h <;> exact bsgs_length h

theorem SymStep.length_eq {dummies : List (Nat × Nat)} {v : List SlotGroup} (hv : ∀ e ∈ v, ∀ p ∈ e.gens, p.length = e.size + 2)
    {x y : List Nat} (h : SymStep dummies v x y) : y.length = x.length := by
  cases h with
  | slots e k p before b b' after s s' r r' hat hp hb hperm =>
    obtain ⟨v₁, v₂, rfl, -, -⟩ := hat
    have h1 := hv e (by simp) p hp
    have h2 := congrArg List.length hperm
    simp only [permuteSlots, List.length_map, List.length_append, List.length_cons, List.length_nil] at h2
    simp only [List.length_append, List.length_cons, List.length_nil]
    omega
  | exchange e k before b b' after s s' _ _ h1 h2 => simp; omega
  | ends d i g s s' => simp
  | rename d i j g s s' => simp

theorem bsgsList_length {ts : List Tensor} {op : SqOp} {hermitian : Bool} {v : List SlotGroup} (h : bsgsList ts op hermitian = .ok v) :
    ∀ e ∈ v, ∀ p ∈ e.gens, p.length = e.size + 2 := by
  obtain ⟨-, rest, hrest, hv⟩ := bsgsList_ok h
  have hr : ∀ e ∈ rest, ∀ p ∈ e.gens, p.length = e.size + 2 := by
    intro e he
    obtain ⟨g, -, ha⟩ := forall₂_mem_right hrest he
    cases g with
    | nil => simp [groupEntry] at ha
    | cons t g =>
      unfold groupEntry at ha
      simp only [bind, Except.bind] at ha
      cases hb : t.pair.bsgs hermitian false with
      | error e => rw [hb] at ha; simp at ha
      | ok gens =>
        rw [hb] at ha
        simp only [pure, Except.pure, Except.ok.injEq] at ha
        subst ha
        exact bsgs_length hb
  rcases hv with ⟨-, rfl⟩ | ⟨-, gens, hg, rfl⟩
  · exact hr
  · intro e he
    rcases List.mem_cons.1 he with rfl | he
    · exact opBsgs_length hg
    · exact hr e he

/-- The kind of a tensor: class, name, priority, and the class of its labels. -/
def Tensor.kind (t : Tensor) : TCls × PyStr × Int × IType := (t.cls, t.name, t.priority, t.upper.ty)

theorem mem_refillAll_kind : ∀ (ts : List Tensor) (L : List Index), ∀ x ∈ refillAll ts L, (∃ y ∈ ts, x.kind = y.kind) ∧ x.lower.ty = x.upper.ty := by
  intro ts
  induction ts with
  | nil => intro L x hx; simp [refillAll] at hx
  | cons t ts ih =>
    intro L x hx
    rw [refillAll] at hx
    rcases List.mem_cons.1 hx with rfl | hx
    · exact ⟨⟨t, by simp, rfl⟩, rfl⟩
    · obtain ⟨⟨y, hy, e⟩, h⟩ := ih _ x hx
      exact ⟨⟨y, by simp [hy], e⟩, h⟩

/-- What `canonicalize_sympy` returns: either the coefficient is taken for zero and nothing is left, or the coefficient is kept up to its
sign, and the factors are those of the term with new labels. -/
theorem Term.sympy_origin {canon : SympyCanon} {ord : SetOrder} {t r : Term} {core removeActive hermitian : Bool}
    (hw : labelsOf t.tensors t.sqOp ⊆ t.indicesSet) (hr : t.canonicalizeSympy canon ord core removeActive hermitian = .ok r) :
    (∀ x ∈ r.tensors, (∃ y ∈ t.tensors, x.kind = y.kind) ∧ x.lower.ty = x.upper.ty) ∧ r.sqOp.upper.ty = t.sqOp.upper.ty ∧
      r.sqOp.lower.ty = t.sqOp.upper.ty ∧
      (r.coeff = 0 ∨ (1 / 10 ^ 15 ≤ |t.coeff| ∧ (r.coeff = t.coeff ∨ r.coeff = -t.coeff) ∧
        (CanonContract canon → r.sqOp.nUpper = t.sqOp.nUpper ∧ r.sqOp.nLower = t.sqOp.nLower))) := by
  unfold Term.canonicalizeSympy at hr
  simp only [bind, Except.bind] at hr
  cases hs : t.simplify ord core removeActive with
  | error e => rw [hs] at hr; simp at hr
  | ok s =>
  rw [hs] at hr
  simp only [] at hr
  obtain ⟨f, hf, ho⟩ := Term.simplify_origin hs
  obtain ⟨hset, hco⟩ := Term.simplify_shape hw hs
  have hty : s.sqOp.upper.ty = t.sqOp.upper.ty := by rcases ho with ho | ⟨ho, -⟩ <;> rw [ho] <;> rfl
  by_cases hv : s.isVoid = true
  · rw [if_pos hv] at hr
    unfold Term.void at hr
    obtain ⟨-, -, -, rfl⟩ := Term.make_ok.1 hr
    refine ⟨by simp [sortTensors], hty, hty, Or.inl rfl⟩
  rw [if_neg hv] at hr
  have hvc : 1 / 10 ^ 15 ≤ |s.coeff| := by simpa [Term.isVoid] using hv
  have hs0 : s.coeff ≠ 0 := threshold_ne hvc
  have hco' : s.coeff = t.coeff := hco.resolve_right hs0
  have hop' : s.sqOp = t.sqOp.relabel f := ho.resolve_right fun h => hs0 h.2
  cases hn : slotNames (dictFind s.minimalIndices) (fun m => 2 * (sortedDummies s.minimalIndices).idxOf m) (slotLabels s.tensors s.sqOp) with
  | error e => rw [hn] at hr; simp at hr
  | ok names =>
  rw [hn] at hr
  simp only [] at hr
  cases hb : bsgsList s.tensors s.sqOp hermitian with
  | error e => rw [hb] at hr; simp at hr
  | ok v =>
  rw [hb] at hr
  simp only [] at hr
  split_ifs at hr with hp
  cases hg : canon (names ++ [names.length, names.length + 1]) (dummyRanges 0 (spaceGroups (sortedDummies s.minimalIndices))) v with
  | none => rw [hg] at hr; simp at hr
  | some gc =>
  rw [hg] at hr
  simp only [] at hr
  cases hop : rebuildOp (sortedDummies s.minimalIndices) s.sqOp gc with
  | error e => rw [hop] at hr; simp at hr
  | ok op' =>
  rw [hop] at hr
  simp only [] at hr
  cases hts : rebuildTensors (sortedDummies s.minimalIndices) s.tensors (gc.drop s.sqOp.size) with
  | error e => rw [hts] at hr; simp at hr
  | ok ts' =>
  rw [hts] at hr
  simp only [] at hr
  obtain ⟨-, -, -, rfl⟩ := Term.make_ok.1 hr
  obtain ⟨rfl, -⟩ := rebuildOp_ok hop
  obtain ⟨rfl, -⟩ := rebuildTensors_ok hts
  refine ⟨?_, hty, hty, Or.inr ⟨hco' ▸ hvc, ?_, ?_⟩⟩
  · intro x hx
    obtain ⟨⟨y, hy, e⟩, h⟩ := mem_refillAll_kind _ _ x ((sortTensors_perm _).mem_iff.1 hx)
    obtain ⟨z, hz, -, rfl⟩ := hf y hy
    exact ⟨⟨z, hz, e⟩, h⟩
  · simp only [hco']
    split_ifs
    · right; ring
    · left; ring
  · intro hcanon
    have hlen : gc.length = names.length + 2 := by
      have : ∀ y, Relation.ReflTransGen (SymStep (dummyRanges 0 (spaceGroups (sortedDummies s.minimalIndices))) v)
          (names ++ [names.length, names.length + 1]) y → y.length = names.length + 2 := by
        intro y hy
        induction hy with
        | refl => simp
        | tail _ hstep ih => rw [hstep.length_eq (bsgsList_length hb), ih]
      exact this _ (hcanon.reach _ _ _ _ hg)
    have hnl := (slotNames_spec (realizes_dictFind _) _ _ _ hn).1
    rw [slotLabels_length] at hnl
    have hU : s.sqOp.size = s.sqOp.nUpper + s.sqOp.nLower := rfl
    have e1 : s.sqOp.nUpper = t.sqOp.nUpper := by rw [hop']; simp [IndicesPair.nUpper, IndicesPair.relabel, Indices.size]
    have e2 : s.sqOp.nLower = t.sqOp.nLower := by rw [hop']; simp [IndicesPair.nLower, IndicesPair.relabel, Indices.size]
    constructor
    · rw [← e1]
      show (((gc.map _).drop s.sqOp.nLower).take s.sqOp.nUpper).length = s.sqOp.nUpper
      simp; omega
    · rw [← e2]
      show ((gc.map _).take s.sqOp.nLower).length = s.sqOp.nLower
      simp; omega

/-! ### Rows -/

/-- A density or delta made by the enumeration of contractions. -/
structure IsDensity (d : Tensor) : Prop where
  cls : d.cls = .cumulant ∨ d.cls = .hole ∨ d.cls = .kronecker
  name : d.name = d.cls.defaultName
  priority : d.priority = d.cls.defaultPriority
  upper : d.upper.ty = .spinOrbital
  lower : d.lower.ty = .spinOrbital

theorem isDensity_of_elementary {ops : List SqOp} {maxCu : Int} {t : Tensor} (h : Elementary ops maxCu t) : IsDensity t := by
  obtain ⟨key, h | h⟩ := h
  · obtain ⟨i, j, left, right, -, -, -, h⟩ := h
    rcases h with ⟨u, -, l, -, -, -, rfl⟩ | ⟨l, -, u, -, -, -, rfl⟩
    · exact ⟨Or.inl rfl, rfl, rfl, rfl, rfl⟩
    · exact ⟨Or.inr (Or.inl rfl), rfl, rfl, rfl, rfl⟩
  · obtain ⟨cre, ann, -, -, -, -, -, -, -, rfl⟩ := h
    exact ⟨Or.inl rfl, rfl, rfl, rfl, rfl⟩

theorem isDensity_expandHole {t : Tensor} (h : IsDensity t) : ∀ e ∈ t.expandHole, IsDensity e := by
  intro e he
  unfold Tensor.expandHole at he
  split at he <;> simp only [List.mem_cons, List.not_mem_nil, or_false] at he
  · subst he; exact ⟨Or.inr (Or.inr rfl), rfl, rfl, h.upper, h.lower⟩
  · rcases he with rfl | rfl
    · exact ⟨Or.inr (Or.inr rfl), rfl, rfl, h.upper, h.lower⟩
    · exact ⟨Or.inl rfl, rfl, rfl, h.upper, h.lower⟩

theorem isDensity_expand {ts : List Tensor} (h : ∀ t ∈ ts, IsDensity t) : ∀ r ∈ expandHoleDensities ts, ∀ d ∈ r.2, IsDensity d := by
  intro r hr
  unfold expandHoleDensities at hr
  simp only at hr
  split at hr
  · simp only [List.mem_cons, List.not_mem_nil, or_false] at hr
    subst hr; exact h
  · rw [List.mem_map] at hr
    obtain ⟨l, hl, rfl⟩ := hr
    rw [mem_pyProduct] at hl
    intro d hd
    simp only [splitHoles] at hl hd
    rcases List.mem_append.1 hd with hd | hd
    · exact h d (List.mem_filter.1 hd).1
    · obtain ⟨p, hp, hdp⟩ := forall₂_mem_left hl hd
      obtain ⟨t, ht, rfl⟩ := List.mem_map.1 hp
      exact isDensity_expandHole (h t (List.mem_filter.1 ht).1) d hdp

theorem resultRows_density {ops : List SqOp} {maxCu maxOpen minOpen : Int} {expand : Bool} {c : List Tensor}
    (h : Allowed ops maxCu maxOpen minOpen c) : ∀ row ∈ resultRows ops expand c, ∀ d ∈ row.2.1, IsDensity d := by
  have hc : ∀ t ∈ c, IsDensity t := fun t ht => isDensity_of_elementary (h.elementary t ht)
  intro row hrow
  unfold resultRows at hrow
  obtain ⟨r, hr, rfl⟩ := List.mem_map.1 hrow
  cases expand with
  | false =>
    simp only [Bool.false_eq_true, if_false, List.mem_singleton] at hr
    subst hr; exact hc
  | true => exact isDensity_expand hc r hr

theorem sublist_flatMap {α β : Type} (f : α → List β) {l l' : List α} (h : l.Sublist l') : (l.flatMap f).Sublist (l'.flatMap f) := by
  induction h with
  | slnil => exact List.Sublist.refl _
  | cons a _ ih => rw [List.flatMap_cons]; exact ih.trans (List.sublist_append_right _ _)
  | cons_cons a _ ih => rw [List.flatMap_cons, List.flatMap_cons]; exact (List.Sublist.refl _).append ih

theorem goodOps_productOps {terms : List Term} (h : GoodOps (terms.map Term.sqOp)) : GoodOps (productOps terms) := by
  have hs : (productOps terms).Sublist (terms.map Term.sqOp) := List.filter_sublist
  refine ⟨fun op hop => h.so op (hs.subset hop), ?_, ?_⟩
  · exact h.upper.sublist (sublist_flatMap _ hs)
  · exact h.lower.sublist (sublist_flatMap _ hs)

/-! ### Kinds of tensors -/

/-- Kinds that can occur in results. -/
def KindOk (terms : List Term) (x : Tensor) : Prop :=
  (∃ t ∈ terms, ∃ y ∈ t.tensors, x.kind = y.kind) ∨ ∃ d, IsDensity d ∧ x.kind = d.kind

theorem KindOk.congr {terms : List Term} {x y : Tensor} (h : KindOk terms y) (e : x.kind = y.kind) : KindOk terms x := by
  unfold KindOk; rw [e]; exact h

theorem kind_eq {x y : Tensor} : x.kind = y.kind ↔ x.cls = y.cls ∧ x.name = y.name ∧ x.priority = y.priority ∧ x.upper.ty = y.upper.ty := by
  unfold Tensor.kind; simp only [Prod.mk.injEq]

theorem OrdinaryFactors.consistent {terms : List Term} (h : OrdinaryFactors terms) {x y : Tensor} (hx : KindOk terms x) (hy : KindOk terms y)
    (e : x.name = y.name) : x.cls = y.cls ∧ x.priority = y.priority := by
  have hd : ∀ {t : Term} {z d : Tensor}, t ∈ terms → z ∈ t.tensors → IsDensity d → z.name = d.name → z.cls = d.cls ∧ z.priority = d.priority := by
    intro t z d ht hz hd e
    rw [hd.priority]
    exact h.density t ht z hz d.cls hd.cls (e.trans hd.name)
  have hdd : ∀ {d d' : Tensor}, IsDensity d → IsDensity d' → d.name = d'.name → d.cls = d'.cls ∧ d.priority = d'.priority := by
    intro d d' h1 h2 e
    rw [h1.name, h2.name] at e
    rw [h1.priority, h2.priority]
    rcases h1.cls with a | a | a <;> rcases h2.cls with b | b | b <;> rw [a, b] at e ⊢ <;> revert e <;> decide
  rcases hx with ⟨t, ht, x', hx', ex⟩ | ⟨d, hdx, ex⟩ <;> rcases hy with ⟨t', ht', y', hy', ey⟩ | ⟨d', hdy, ey⟩ <;>
    rw [kind_eq] at ex ey <;> rw [ex.1, ey.1, ex.2.2.1, ey.2.2.1] <;> rw [ex.2.1, ey.2.1] at e
  · exact h.kind t ht x' hx' t' ht' y' hy' e
  · exact hd ht hx' hdy e
  · have := hd ht' hy' hdx e.symm
    exact ⟨this.1.symm, this.2.symm⟩
  · exact hdd hdx hdy e

theorem OrdinaryFactors.kind_ty {terms : List Term} (h : OrdinaryFactors terms) {x : Tensor} (hx : KindOk terms x) : x.upper.ty = .spinOrbital := by
  rcases hx with ⟨t, ht, y, hy, e⟩ | ⟨d, hd, e⟩ <;> rw [kind_eq] at e
  · rw [e.2.2.2, (h.tensor t ht y hy).1]
  · rw [e.2.2.2, hd.upper]

theorem OrdinaryFactors.kind_name {terms : List Term} (h : OrdinaryFactors terms) {x : Tensor} (hx : KindOk terms x) :
    '^' ∉ x.name ∧ ' ' ∉ x.name := by
  rcases hx with ⟨t, ht, y, hy, e⟩ | ⟨d, hd, e⟩ <;> rw [kind_eq] at e
  · rw [e.2.1]; exact h.name t ht y hy
  · rw [e.2.1, hd.name]
    rcases hd.cls with a | a | a <;> rw [a] <;> decide

/-- Terms made of factors of the allowed kinds, with spin-orbital labels. -/
structure OutTerm (terms : List Term) (r : Term) : Prop where
  tensor : ∀ x ∈ r.tensors, KindOk terms x ∧ x.lower.ty = x.upper.ty
  upper : r.sqOp.upper.ty = .spinOrbital
  lower : r.sqOp.lower.ty = .spinOrbital

theorem OrdinaryFactors.regular {terms : List Term} (h : OrdinaryFactors terms) {l : List Term} (hl : ∀ r ∈ l, OutTerm terms r) :
    Regular .spinOrbital l where
  name t ht x hx := h.kind_name ((hl t ht).tensor x hx).1
  kind t ht x hx t' ht' y hy e := h.consistent ((hl t ht).tensor x hx).1 ((hl t' ht').tensor y hy).1 e
  tensor t ht x hx := by
    have h1 := h.kind_ty ((hl t ht).tensor x hx).1
    exact ⟨h1, ((hl t ht).tensor x hx).2.trans h1⟩
  op t ht := ⟨(hl t ht).upper, (hl t ht).lower⟩

/-! ### Coefficients -/

/-- A whole multiple of `c`, where `c` is not taken for zero. -/
def Multiple (c x : ℚ) : Prop := ∃ n : ℤ, x = n * c ∧ (n = 0 ∨ 1 / 10 ^ 15 ≤ |c|)

theorem Multiple.not_negligible {c x : ℚ} (h : Multiple c x) : ¬ Negligible x := by
  rintro ⟨h0, hlt⟩
  obtain ⟨n, rfl, hn⟩ := h
  have hn0 : n ≠ 0 := by rintro rfl; simp at h0
  have hc := hn.resolve_left hn0
  rw [abs_mul] at hlt
  have h1 : (1 : ℚ) ≤ |(n : ℚ)| := by
    rw [← Int.cast_abs]
    exact_mod_cast Int.one_le_abs hn0
  have : |c| ≤ |(n : ℚ)| * |c| := le_mul_of_one_le_left (abs_nonneg c) h1
  linarith

theorem Multiple.zero (c : ℚ) : Multiple c 0 := ⟨0, by simp, Or.inl rfl⟩

theorem Multiple.add {c x y : ℚ} (hx : Multiple c x) (hy : Multiple c y) : Multiple c (x + y) := by
  obtain ⟨n, rfl, hn⟩ := hx
  obtain ⟨m, rfl, hm⟩ := hy
  refine ⟨n + m, by push_cast; ring, ?_⟩
  rcases hn with rfl | hn
  · rcases hm with rfl | hm
    · exact Or.inl rfl
    · exact Or.inr hm
  · exact Or.inr hn

theorem Multiple.totalCoeff {c : ℚ} {l : List Term} (h : ∀ r ∈ l, Multiple c r.coeff) (t : Term) : Multiple c (totalCoeff l t) := by
  unfold Dsrg.totalCoeff
  have : ∀ l : List Term, (∀ r ∈ l, Multiple c r.coeff) → Multiple c (l.map Term.coeff).sum := by
    intro l
    induction l with
    | nil => intro _; exact Multiple.zero c
    | cons r l ih =>
      intro h
      rw [List.map_cons, List.sum_cons]
      exact (h r (by simp)).add (ih fun r hr => h r (by simp [hr]))
  exact this _ fun r hr => h r (List.mem_filter.1 hr).1

theorem totalCoeff_combine_of_multiple_total {ty : IType} {l : List Term} (h : Regular ty l) {c : ℚ} (hc : ∀ t, Multiple c (totalCoeff l t)) (t : Term) :
    totalCoeff (sortedTerms (combinedList l)) t = totalCoeff l t := by
  rw [totalCoeff_combine h]
  split
  · rfl
  · next hn =>
    by_contra hne
    exact (hc t).not_negligible ⟨Ne.symm hne, not_le.1 hn⟩

theorem totalCoeff_combine_of_multiple {ty : IType} {l : List Term} (h : Regular ty l) {c : ℚ} (hc : ∀ r ∈ l, Multiple c r.coeff) (t : Term) :
    totalCoeff (sortedTerms (combinedList l)) t = totalCoeff l t :=
  totalCoeff_combine_of_multiple_total h (Multiple.totalCoeff hc) t

/-! ### Results of the rows -/

/-- What is known about the canonicalized term of a row. -/
theorem canonicalizeRow_out {m : Machine} {terms : List Term} {tensors : List Tensor} {c : ℚ} {hermitian : Bool} {row : Row} {r : Term}
    (hten : ∀ x ∈ tensors, KindOk terms x) (hd : ∀ d ∈ row.2.1, IsDensity d) (hs : row.1 = 1 ∨ row.1 = -1)
    (hop : row.2.2.upper.ty = .spinOrbital) (hr : canonicalizeRow m tensors c hermitian row = .ok r) :
    OutTerm terms r ∧ Multiple c r.coeff ∧ (r.coeff = 0 ∨ (CanonContract m.canon → r.sqOp.nUpper = row.2.2.nUpper ∧ r.sqOp.nLower = row.2.2.nLower)) := by
  unfold canonicalizeRow at hr
  simp only [bind, Except.bind] at hr
  cases ht : Term.make (tensors ++ row.2.1) row.2.2 (row.1 * c) with
  | error e => rw [ht] at hr; simp at hr
  | ok t =>
    rw [ht] at hr
    simp only [] at hr
    obtain ⟨h1, h2, h3, h4⟩ := Term.sympy_origin (Term.wf_of_make ht).set_sub hr
    obtain ⟨-, -, -, rfl⟩ := Term.make_ok.1 ht
    simp only at h1 h2 h3 h4
    refine ⟨⟨?_, by rw [h2, hop], by rw [h3, hop]⟩, ?_, ?_⟩
    · intro x hx
      obtain ⟨⟨y, hy, e⟩, h⟩ := h1 x hx
      refine ⟨KindOk.congr ?_ e, h⟩
      rcases List.mem_append.1 ((sortTensors_perm _).mem_iff.1 hy) with hy | hy
      · exact hten y hy
      · exact Or.inr ⟨y, hd y hy, rfl⟩
    · rcases h4 with h4 | ⟨h4, h5, -⟩
      · rw [h4]; exact Multiple.zero c
      · rcases hs with hs | hs <;> rw [hs] at h4 h5 <;> simp only [Int.cast_one, one_mul, Int.cast_neg, neg_mul, abs_neg, neg_neg] at h4 h5
        · rcases h5 with h5 | h5
          · exact ⟨1, by simpa using h5, Or.inr h4⟩
          · exact ⟨-1, by simpa using h5, Or.inr h4⟩
        · rcases h5 with h5 | h5
          · exact ⟨-1, by simpa using h5, Or.inr h4⟩
          · exact ⟨1, by simpa using h5, Or.inr h4⟩
    · rcases h4 with h4 | ⟨-, -, h5⟩
      · exact Or.inl h4
      · exact Or.inr h5

theorem forall₂_of_mapM {α β ε : Type} {f : α → Except ε β} : ∀ {l : List α} {r : List β}, l.mapM f = .ok r → List.Forall₂ (fun a b => f a = .ok b) l r := by
  intro l
  induction l with
  | nil => intro r h; simp only [List.mapM_nil, pure, Except.pure, Except.ok.injEq] at h; subst h; exact List.Forall₂.nil
  | cons a l ih =>
    intro r h
    obtain ⟨b, bs, h1, h2, rfl⟩ := mapM_cons_ok.1 h
    exact List.Forall₂.cons h1 (ih h2)

theorem mapM_of_forall₂ {α β ε : Type} {f : α → Except ε β} : ∀ {l : List α} {r : List β}, List.Forall₂ (fun a b => f a = .ok b) l r → l.mapM f = .ok r := by
  intro l r h
  induction h with
  | nil => rfl
  | cons h1 _ ih => exact mapM_cons_ok.2 ⟨_, _, h1, ih, rfl⟩

/-- What the loop returns, up to combination of equal terms. -/
structure LoopOut (terms : List Term) (results out : List Term) : Prop where
  total : ∀ t, totalCoeff out t = totalCoeff results t
  same : ∀ x ∈ out, ∃ y ∈ results, x.Same y

theorem BatchRun.spec {m : Machine} {n : Nat} {rows : List Row} {tensors : List Tensor} {c : ℚ} {simplify hermitian : Bool} {out : List Term}
    {terms : List Term} (h : OrdinaryFactors terms)
    (hrow : ∀ row ∈ rows, ∀ r, canonicalizeRow m tensors c hermitian row = .ok r → OutTerm terms r ∧ Multiple c r.coeff)
    (hr : BatchRun m n rows tensors c simplify hermitian out) :
    ∃ results, List.Forall₂ (fun row r => canonicalizeRow m tensors c hermitian row = .ok r) rows results ∧ LoopOut terms results out := by
  unfold BatchRun at hr
  by_cases h0 : rows.length = 0
  · rw [if_pos h0] at hr
    have : rows = [] := List.length_eq_zero_iff.1 h0
    subst this; subst hr
    exact ⟨[], List.Forall₂.nil, fun t => rfl, by simp⟩
  rw [if_neg h0] at hr
  obtain ⟨results, temp, h1, h2, h3⟩ := hr
  have hf := forall₂_of_mapM h1
  have hp : temp.Perm results := by
    by_cases hn : n = 1
    · rw [if_pos hn] at h2; rw [h2]
    · rw [if_neg hn] at h2; exact h2
  have hres : ∀ r ∈ results, OutTerm terms r ∧ Multiple c r.coeff := by
    intro r hr
    obtain ⟨row, hrw, e⟩ := forall₂_mem_right hf hr
    exact hrow row hrw r e
  cases simplify with
  | true =>
    rw [if_pos rfl] at h3
    have hreg : Regular .spinOrbital temp := h.regular fun r hr => (hres r (hp.mem_iff.1 hr)).1
    rw [combineTerms_eq hreg] at h3
    injection h3 with h3
    subst h3
    refine ⟨results, hf, ?_, ?_⟩
    · intro t
      rw [totalCoeff_combine_of_multiple hreg (fun r hr => (hres r (hp.mem_iff.1 hr)).2), totalCoeff_perm hp]
    · intro x hx
      obtain ⟨y, hy, e⟩ := mem_combine_same hreg hx
      exact ⟨y, hp.mem_iff.1 hy, e⟩
  | false =>
    rw [if_neg (by simp)] at h3
    subst h3
    exact ⟨results, hf, fun t => totalCoeff_perm hp t, fun x hx => ⟨x, hp.mem_iff.1 hx, rfl, rfl⟩⟩

theorem LoopOut.append {terms : List Term} {r r' out out' : List Term} (h : LoopOut terms r out) (h' : LoopOut terms r' out') :
    LoopOut terms (r ++ r') (out ++ out') := by
  constructor
  · intro t; rw [totalCoeff_append, totalCoeff_append, h.total, h'.total]
  · intro x hx
    rcases List.mem_append.1 hx with hx | hx
    · obtain ⟨y, hy, e⟩ := h.same x hx; exact ⟨y, by simp [hy], e⟩
    · obtain ⟨y, hy, e⟩ := h'.same x hx; exact ⟨y, by simp [hy], e⟩

theorem LoopRun.spec {m : Machine} {o : Options} {n : Nat} {tensors : List Tensor} {c : ℚ} {terms : List Term} (h : OrdinaryFactors terms) :
    ∀ {batches : List (List Row)} {pending : List Row} {out : List Term},
    (∀ row ∈ pending ++ batches.flatten, ∀ r, canonicalizeRow m tensors c o.hermitian row = .ok r → OutTerm terms r ∧ Multiple c r.coeff) →
    LoopRun m o n tensors c pending batches out →
    ∃ results, List.Forall₂ (fun row r => canonicalizeRow m tensors c o.hermitian row = .ok r) (pending ++ batches.flatten) results ∧
      LoopOut terms results out := by
  intro batches
  induction batches with
  | nil =>
    intro pending out hrow hr
    rw [List.flatten_nil, List.append_nil] at hrow ⊢
    exact BatchRun.spec h hrow hr
  | cons b bs ih =>
    intro pending out hrow hr
    unfold LoopRun at hr
    rw [List.flatten_cons, ← List.append_assoc] at hrow ⊢
    split_ifs at hr with hlt
    · exact ih hrow hr
    · obtain ⟨out₁, out₂, h1, h2, rfl⟩ := hr
      obtain ⟨r1, hf1, ho1⟩ := BatchRun.spec h (fun row hrw => hrow row (by rw [List.mem_append]; exact Or.inl hrw)) h1
      obtain ⟨r2, hf2, ho2⟩ := ih (pending := []) (fun row hrw => hrow row (by
        rw [List.nil_append] at hrw; rw [List.mem_append]; exact Or.inr hrw)) h2
      rw [List.nil_append] at hf2
      exact ⟨r1 ++ r2, List.rel_append hf1 hf2, ho1.append ho2⟩

/-- What a call returns when at least two operators are not empty. -/
theorem ContractRun.spec {m : Machine} {o : Options} {terms : List Term} (h : OrdinaryFactors terms) {scale : ℚ} {out : List Term}
    (h2 : ¬ (productOps terms).length < 2) (hr : ContractRun m o terms scale out) :
    ∃ batches results all, ContractionsRun (productOps terms) o batches ∧
      List.Forall₂ (fun row r => canonicalizeRow m (productTensors terms) (productCoeff terms scale) o.hermitian row = .ok r) batches.flatten results ∧
      (∀ row ∈ batches.flatten, (∀ d ∈ row.2.1, IsDensity d) ∧ ∃ c, Allowed (productOps terms) o.maxCu o.maxOpen o.minOpen c ∧
        row ∈ resultRows (productOps terms) o.expandHole c) ∧
      (∀ r ∈ results, OutTerm terms r ∧ Multiple (productCoeff terms scale) r.coeff) ∧
      (∀ row r, row ∈ batches.flatten → canonicalizeRow m (productTensors terms) (productCoeff terms scale) o.hermitian row = .ok r →
        r.coeff = 0 ∨ (CanonContract m.canon → r.sqOp.nUpper = row.2.2.nUpper ∧ r.sqOp.nLower = row.2.2.nLower)) ∧
      LoopOut terms results all ∧ Regular .spinOrbital all ∧ out = sortedTerms (combinedList all) := by
  have hG := goodOps_productOps h.ops
  unfold ContractRun at hr
  cases terms with
  | nil => exact absurd hr (by simp)
  | cons first rest =>
  simp only [] at hr
  rw [if_neg h2] at hr
  obtain ⟨batches, all, hb, hl, hc⟩ := hr
  obtain ⟨cs, -, -, hcs, hperm⟩ := contractions_spec hG hb
  have hrows : ∀ row ∈ batches.flatten, (∀ d ∈ row.2.1, IsDensity d) ∧ ∃ c, Allowed (productOps (first :: rest)) o.maxCu o.maxOpen o.minOpen c ∧
      row ∈ resultRows (productOps (first :: rest)) o.expandHole c := by
    intro row hrow
    obtain ⟨c, hc, hrc⟩ := List.mem_flatMap.1 (hperm.mem_iff.1 hrow)
    exact ⟨resultRows_density (hcs c hc) row hrc, c, hcs c hc, hrc⟩
  have hten : ∀ x ∈ productTensors (first :: rest), KindOk (first :: rest) x := by
    intro x hx
    obtain ⟨t, ht, hx⟩ := List.mem_flatMap.1 hx
    exact Or.inl ⟨t, ht, x, hx, rfl⟩
  have hout : ∀ row ∈ batches.flatten, ∀ r, canonicalizeRow m (productTensors (first :: rest)) (productCoeff (first :: rest) scale) o.hermitian row = .ok r →
      OutTerm (first :: rest) r ∧ Multiple (productCoeff (first :: rest) scale) r.coeff ∧
        (r.coeff = 0 ∨ (CanonContract m.canon → r.sqOp.nUpper = row.2.2.nUpper ∧ r.sqOp.nLower = row.2.2.nLower)) := by
    intro row hrow r hr
    obtain ⟨hd, c, hA, hrc⟩ := hrows row hrow
    unfold resultRows at hrc
    obtain ⟨e, he, rfl⟩ := List.mem_map.1 hrc
    have he1 : e.1 = 1 ∨ e.1 = -1 := by
      split_ifs at he
      · exact (expandHoleDensities_labels c e he).1
      · simp only [List.mem_singleton] at he; subst he; exact Or.inl rfl
    refine canonicalizeRow_out hten hd ?_ rfl hr
    have hrs : relSign (baseOrder (productOps (first :: rest))) (arranged (productOps (first :: rest)) c) = 1 ∨
        relSign (baseOrder (productOps (first :: rest))) (arranged (productOps (first :: rest)) c) = -1 := signPow_eq _
    rcases hrs with h1 | h1 <;> rcases he1 with h2 | h2 <;> simp [h1, h2]
  obtain ⟨results, hf, ho⟩ := LoopRun.spec h (pending := []) (fun row hrow r hr => by
    rw [List.nil_append] at hrow
    exact ⟨(hout row hrow r hr).1, (hout row hrow r hr).2.1⟩) hl
  rw [List.nil_append] at hf
  have hres : ∀ r ∈ results, OutTerm (first :: rest) r ∧ Multiple (productCoeff (first :: rest) scale) r.coeff := by
    intro r hr
    obtain ⟨row, hrw, e⟩ := forall₂_mem_right hf hr
    exact ⟨(hout row hrw r e).1, (hout row hrw r e).2.1⟩
  have hreg : Regular .spinOrbital all := (h.regular fun r hr => (hres r hr).1).of_same ho.same
  rw [combineTerms_eq hreg] at hc
  injection hc with hc
  exact ⟨batches, results, all, hb, hf, hrows, hres, fun row r hrw e => (hout row hrw r e).2.2, ho, hreg, hc.symm⟩

end Dsrg
