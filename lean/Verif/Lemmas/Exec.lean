import Verif.Lemmas.PhysOpRun
import Verif.Props.Sympy

/-!
An execution of `contract_terms` that picks elements of sets in ascending order; used for examples.
-/

namespace Dsrg

/-- The general backtracking, always taking the first element. -/
def btExec (P : BtParams) : Nat → List Nat → List Nat → Int → List (List Nat)
  | 0, _, _, _ => []
  | _ + 1, [], chosen, n => if chosen.length ≠ 0 ∧ P.lo ≤ n ∧ n ≤ P.hi then [chosen] else []
  | fuel + 1, t :: l, chosen, n => btExec P fuel (l.filter fun j => P.compat t j) (t :: chosen) (n + P.size t) ++ btExec P fuel l chosen n

theorem btExec_run (P : BtParams) : ∀ (fuel : Nat) (l chosen : List Nat) (n : Int), l.length < fuel → l.Nodup → chosen.Nodup → (∀ i ∈ l, i ∉ chosen) →
    (∀ s ∈ btExec P fuel l chosen n, s.Nodup) ∧
    ∃ d, BtRun P l.toFinset chosen.toFinset n ((btExec P fuel l chosen n).map List.toFinset) l.toFinset chosen.toFinset d := by
  intro fuel
  induction fuel with
  | zero => intro l _ _ h; omega
  | succ fuel ih =>
    intro l chosen n hlen hl hc hd
    cases l with
    | nil =>
      have hcard : chosen.toFinset.card = chosen.length := List.toFinset_card_of_nodup hc
      constructor
      · intro s hs
        unfold btExec at hs
        split_ifs at hs
        · simp only [List.mem_singleton] at hs; rw [hs]; exact hc
        · simp at hs
      · refine ⟨1, ?_⟩
        have := BtRun.empty (P := P) chosen.toFinset n
        rw [hcard] at this
        unfold btExec
        rw [apply_ite (List.map List.toFinset)]
        exact this
    | cons t l =>
      have hl' := List.nodup_cons.1 hl
      have htc : t ∉ chosen := hd t (by simp)
      obtain ⟨a1, d1, b1⟩ := ih (l.filter fun j => P.compat t j) (t :: chosen) (n + P.size t)
        (by have := List.length_filter_le (fun j => P.compat t j) l; simp only [List.length_cons] at hlen; omega) (hl'.2.filter _)
        (List.nodup_cons.2 ⟨htc, hc⟩) (by
          intro i hi
          have hi' := (List.mem_filter.1 hi).1
          rw [List.mem_cons, not_or]
          exact ⟨fun e => hl'.1 (e ▸ hi'), hd i (by simp [hi'])⟩)
      obtain ⟨a2, d2, b2⟩ := ih l chosen n (by simp only [List.length_cons] at hlen; omega) hl'.2 hc (fun i hi => hd i (by simp [hi]))
      constructor
      · intro s hs
        unfold btExec at hs
        rcases List.mem_append.1 hs with hs | hs
        · exact a1 s hs
        · exact a2 s hs
      · have e1 : ((t :: l).toFinset.erase t) = l.toFinset := by
          rw [List.toFinset_cons, Finset.erase_insert (by simpa using hl'.1)]
        have e2 : ((t :: l).toFinset.erase t).filter (fun j => P.compat t j = true) = (l.filter fun j => P.compat t j).toFinset := by
          rw [e1]; ext i; simp
        have e3 : (t :: chosen).toFinset.erase t = chosen.toFinset := by
          rw [List.toFinset_cons, Finset.erase_insert (by simpa using htc)]
        have := BtRun.step (P := P) (t :: l).toFinset chosen.toFinset n t _ _ _ _ _ _ d1 d2 (by simp)
          (by rw [e2, ← List.toFinset_cons]; exact b1) (by rw [e1, e3, add_sub_cancel_right]; exact b2)
        refine ⟨1 + max d1 d2, ?_⟩
        unfold btExec
        rw [List.map_append]
        rw [← List.toFinset_cons] at this
        exact this

/-- `compute_operator_contractions_general` with this order. -/
def generalExec (ops : List SqOp) (maxCu maxOpen minOpen : Int) (expand : Bool) : Except PyErr (List (List Row)) := do
  let ele ← elementaryList ops (checkMaxCu ops maxCu)
  let rows ← compatibleList ele
  let r ← uncontracted ops
  let len : Int := (baseOrderMap ops).length
  let P : BtParams := ⟨compatOf rows, fun i => 2 * ((ele[i]?.map fun t => t.upper.size).getD 0), len - maxOpen, len - minOpen⟩
  let rest ← (btExec P (ele.length + 1) (List.range ele.length) [] 0).mapM fun con => processComposite ops ele con expand
  .ok ((if minOpen ≤ len ∧ len ≤ maxOpen then [r] else []) ++ rest)

theorem generalExec_run {ops : List SqOp} {maxCu maxOpen minOpen : Int} {expand : Bool} {b : List (List Row)}
    (h : generalExec ops maxCu maxOpen minOpen expand = .ok b) : GeneralRun ops maxCu maxOpen minOpen expand false b := by
  unfold generalExec at h
  simp only [bind, Except.bind] at h
  cases he : elementaryList ops (checkMaxCu ops maxCu) with
  | error e => rw [he] at h; simp at h
  | ok ele =>
  rw [he] at h; simp only [] at h
  cases hr : compatibleList ele with
  | error e => rw [hr] at h; simp at h
  | ok rows =>
  rw [hr] at h; simp only [] at h
  cases hu : uncontracted ops with
  | error e => rw [hu] at h; simp at h
  | ok r =>
  rw [hu] at h; simp only [] at h
  cases hm : (btExec ⟨compatOf rows, fun i => 2 * ((ele[i]?.map fun t => t.upper.size).getD 0), (baseOrderMap ops).length - maxOpen,
      (baseOrderMap ops).length - minOpen⟩ (ele.length + 1) (List.range ele.length) [] 0).mapM fun con => processComposite ops ele con expand with
  | error e => rw [hm] at h; simp at h
  | ok rest =>
  rw [hm] at h; simp only [Except.ok.injEq] at h
  obtain ⟨hnd, d, hrun⟩ := btExec_run ⟨compatOf rows, fun i => 2 * ((ele[i]?.map fun t => t.upper.size).getD 0), (baseOrderMap ops).length - maxOpen,
      (baseOrderMap ops).length - minOpen⟩ (ele.length + 1) (List.range ele.length) [] 0 (by simp) List.nodup_range List.nodup_nil (by simp)
  refine ⟨ele, rows, if minOpen ≤ ((baseOrderMap ops).length : Int) ∧ ((baseOrderMap ops).length : Int) ≤ maxOpen then [r] else [],
    (btExec ⟨compatOf rows, fun i => 2 * ((ele[i]?.map fun t => t.upper.size).getD 0), (baseOrderMap ops).length - maxOpen,
      (baseOrderMap ops).length - minOpen⟩ (ele.length + 1) (List.range ele.length) [] 0).map List.toFinset,
    (List.range ele.length).toFinset, ([] : List Nat).toFinset, d, _, rest, he, hr, ?_, ?_, ?_, hm, ?_⟩
  · split_ifs
    · exact ⟨r, hu, rfl⟩
    · rfl
  · rw [List.toFinset_range, List.toFinset_nil] at hrun ⊢; exact hrun
  · revert hnd
    generalize btExec _ _ _ _ _ = l
    intro hnd
    induction l with
    | nil => exact List.Forall₂.nil
    | cons a l ih => exact List.Forall₂.cons ⟨hnd a (by simp), rfl⟩ (ih fun s hs => hnd s (by simp [hs]))
  · rw [← h]; simp

/-- `contract_terms` with this order and one process. -/
def contractExec (m : Machine) (o : Options) (terms : List Term) (scale : ℚ) : Except PyErr (List Term) := do
  let b ← generalExec (productOps terms) o.maxCu o.maxOpen o.minOpen o.expandHole
  let results ← b.flatten.mapM (canonicalizeRow m (productTensors terms) (productCoeff terms scale) o.hermitian)
  combineTerms results

theorem loopRun_small {m : Machine} {o : Options} {n : Nat} {tensors : List Tensor} {c : ℚ} : ∀ {batches : List (List Row)} {pending : List Row} {results : List Term},
    (pending ++ batches.flatten).length < 10000 → (pending ++ batches.flatten).mapM (canonicalizeRow m tensors c o.hermitian) = .ok results →
    LoopRun m o n tensors c pending batches results := by
  intro batches
  induction batches with
  | nil =>
    intro pending results _ hm
    rw [List.flatten_nil, List.append_nil] at hm
    unfold LoopRun BatchRun
    by_cases h0 : pending.length = 0
    · rw [if_pos h0]
      have : pending = [] := List.length_eq_zero_iff.1 h0
      subst this
      simp only [List.mapM_nil, pure, Except.pure, Except.ok.injEq] at hm
      exact hm.symm
    · rw [if_neg h0]
      exact ⟨results, results, hm, by split_ifs <;> simp, by simp⟩
  | cons b bs ih =>
    intro pending results hl hm
    rw [List.flatten_cons, ← List.append_assoc] at hl hm
    unfold LoopRun
    have h1 : 1 ≤ max 1 (n / 2) := le_max_left _ _
    rw [if_pos]
    · exact ih hl hm
    · rw [List.length_append] at hl
      nlinarith

theorem contractExec_run {m : Machine} {o : Options} {terms : List Term} {scale : ℚ} {out : List Term} (hn : terms ≠ [])
    (h2 : ¬ (productOps terms).length < 2) (ho : o.forCommutator = false)
    (hsmall : ∀ b, generalExec (productOps terms) o.maxCu o.maxOpen o.minOpen o.expandHole = .ok b → b.flatten.length < 10000)
    (h : contractExec m o terms scale = .ok out) : ContractRun m o terms scale out := by
  unfold contractExec at h
  simp only [bind, Except.bind] at h
  cases hb : generalExec (productOps terms) o.maxCu o.maxOpen o.minOpen o.expandHole with
  | error e => rw [hb] at h; simp at h
  | ok b =>
  rw [hb] at h; simp only [] at h
  cases hr : b.flatten.mapM (canonicalizeRow m (productTensors terms) (productCoeff terms scale) o.hermitian) with
  | error e => rw [hr] at h; simp at h
  | ok results =>
  rw [hr] at h; simp only [] at h
  cases terms with
  | nil => exact absurd rfl hn
  | cons first rest =>
    unfold ContractRun
    simp only []
    rw [if_neg h2]
    refine ⟨b, results, ?_, loopRun_small (pending := []) (by simpa using hsmall b hb) (by simpa using hr), h⟩
    unfold ContractionsRun
    rw [ho]
    exact generalExec_run hb

/-! ### An instance of SymPy's contract -/

/-- No symmetry changes the sign. -/
def signFree (v : List SlotGroup) : Bool := v.all fun e => e.gens.all fun p => decide (p.drop e.size = [e.size, e.size + 1])

/-- Answers when no symmetry changes the sign. -/
def safeCanon (g : List Nat) (_ : List (Nat × Nat)) (v : List SlotGroup) : Option (List Nat) :=
  if signFree v = true ∧ (g.drop (g.length - 2)).reverse ≠ g.drop (g.length - 2) then some g else none

theorem SymStep.last {dummies : List (Nat × Nat)} {v : List SlotGroup} (hv : signFree v = true) {g g' : List Nat} (h : SymStep dummies v g g') :
    g'.length = g.length ∧ g'.drop (g'.length - 2) = g.drop (g.length - 2) := by
  have hdrop : ∀ (l : List Nat) (s s' : Nat), (l ++ [s, s']).drop ((l ++ [s, s']).length - 2) = [s, s'] := by
    intro l s s'
    have : (l ++ [s, s']).length - 2 = l.length := by simp
    rw [this, List.drop_left]
  cases h with
  | slots e k p before b b' after s s' r r' hat hp hb heq =>
    obtain ⟨v₁, v₂, rfl, -, -⟩ := hat
    unfold signFree at hv
    simp only [List.all_append, List.all_cons, Bool.and_eq_true, List.all_eq_true, decide_eq_true_eq] at hv
    have hpd := hv.2.1 p hp
    have hpl : p.length = b'.length + 2 := by
      have := congrArg List.length heq
      simpa [permuteSlots] using this
    have hl2 : (p.drop e.size).length = 2 := by rw [hpd]; rfl
    rw [List.length_drop] at hl2
    have hbl : b'.length = e.size := by omega
    have hd : (permuteSlots p (b ++ [s, s'])).drop e.size = [r, r'] := by rw [heq, ← hbl, List.drop_left]
    unfold permuteSlots at hd
    rw [← List.map_drop, hpd] at hd
    simp only [List.map_cons, List.map_nil, List.cons.injEq, and_true] at hd
    have e1 : (b ++ [s, s']).getD e.size 0 = s := by rw [← hb]; simp
    have e2 : (b ++ [s, s']).getD (e.size + 1) 0 = s' := by rw [← hb]; simp
    rw [e1, e2] at hd
    refine ⟨by simp [hb, hbl], ?_⟩
    rw [hdrop, hdrop, hd.1, hd.2]
  | exchange e k before b b' after s s' hat hk hb hb' =>
    refine ⟨by simp; omega, ?_⟩
    rw [hdrop, hdrop]
  | ends d i g s s' hd h1 h2 => exact ⟨by simp, by rw [hdrop, hdrop]⟩
  | rename d i j g s s' hd h1 h2 h3 h4 => exact ⟨by simp, by rw [hdrop, hdrop]⟩

theorem safeCanon_lazy {g : List Nat} {dummies : List (Nat × Nat)} {v : List SlotGroup} {gc : List Nat} (h : safeCanon g dummies v = some gc) :
    lazyCanon g dummies v = some gc := by
  unfold safeCanon at h
  split_ifs at h with hc
  injection h with h
  subst h
  unfold lazyCanon
  rw [if_neg]
  intro hr
  have key : ∀ g', Relation.ReflTransGen (SymStep dummies v) g g' → g'.length = g.length ∧ g'.drop (g'.length - 2) = g.drop (g.length - 2) := by
    intro g' hr
    induction hr with
    | refl => exact ⟨rfl, rfl⟩
    | tail _ hs ih =>
      obtain ⟨a, b⟩ := hs.last hc.1
      exact ⟨a.trans ih.1, b.trans ih.2⟩
  obtain ⟨h1, h2⟩ := key _ hr
  apply hc.2
  refine Eq.trans ?_ h2
  rw [h1]
  unfold flipSign
  rw [List.drop_append, List.drop_eq_nil_of_le (List.length_take_le _ _), List.length_take, Nat.min_eq_left (Nat.sub_le _ _), Nat.sub_self,
    List.drop_zero, List.nil_append]

theorem sympy_mono {canon canon' : SympyCanon} (hc : ∀ g d v x, canon' g d v = some x → canon g d v = some x) {ord : SetOrder} {t r : Term}
    {core removeActive hermitian : Bool} (h : t.canonicalizeSympy canon' ord core removeActive hermitian = .ok r) :
    t.canonicalizeSympy canon ord core removeActive hermitian = .ok r := by
  unfold Term.canonicalizeSympy at h ⊢
  cases hs : t.simplify ord core removeActive with
  | error e => rw [hs] at h; simp [bind, Except.bind] at h
  | ok s =>
  simp only [hs, bind, Except.bind] at h ⊢
  split_ifs at h ⊢ with hv
  · exact h
  cases hn : slotNames (dictFind s.minimalIndices) (fun m => 2 * (sortedDummies s.minimalIndices).idxOf m) (slotLabels s.tensors s.sqOp) with
  | error e => rw [hn] at h; simp at h
  | ok names =>
  simp only [hn] at h ⊢
  cases hb : bsgsList s.tensors s.sqOp hermitian with
  | error e => rw [hb] at h; simp at h
  | ok v =>
  simp only [hb] at h ⊢
  by_cases hp : (names ++ [names.length, names.length + 1]).Perm (List.range (names ++ [names.length, names.length + 1]).length)
  · rw [if_pos hp] at h ⊢
    cases hcc : canon' (names ++ [names.length, names.length + 1]) (dummyRanges 0 (spaceGroups (sortedDummies s.minimalIndices))) v with
    | none => rw [hcc] at h; simp at h
    | some gc => rw [hc _ _ _ _ hcc]; rw [hcc] at h; exact h
  · rw [if_neg hp] at h
    simp at h

theorem contractExec_mono {m m' : Machine} (hc : ∀ g d v x, m'.canon g d v = some x → m.canon g d v = some x) (ho : m'.ord = m.ord) {o : Options}
    {terms : List Term} {scale : ℚ} {out : List Term} (h : contractExec m' o terms scale = .ok out) : contractExec m o terms scale = .ok out := by
  unfold contractExec at h ⊢
  simp only [bind, Except.bind] at h ⊢
  cases hb : generalExec (productOps terms) o.maxCu o.maxOpen o.minOpen o.expandHole with
  | error e => rw [hb] at h; simp at h
  | ok b =>
  rw [hb] at h
  simp only [] at h ⊢
  cases hr : b.flatten.mapM (canonicalizeRow m' (productTensors terms) (productCoeff terms scale) o.hermitian) with
  | error e => rw [hr] at h; simp at h
  | ok results =>
  rw [hr] at h
  have : b.flatten.mapM (canonicalizeRow m (productTensors terms) (productCoeff terms scale) o.hermitian) = .ok results := by
    refine mapM_of_forall₂ ((forall₂_of_mapM hr).imp fun row r e => ?_)
    unfold canonicalizeRow at e ⊢
    simp only [bind, Except.bind] at e ⊢
    cases ht : Term.make (productTensors terms ++ row.2.1) row.2.2 (row.1 * productCoeff terms scale) with
    | error e' => rw [ht] at e; simp at e
    | ok t =>
      rw [ht] at e
      rw [ho] at e
      exact sympy_mono hc e
  rw [this]
  exact h

end Dsrg
