import Verif.Model.SpaceCounter
import Verif.Lemmas.Order

/-!
C94 SpaceCounter counts the shared labels by space, compares consistently and transposes; the constructor as written always raises.
-/

namespace Dsrg

theorem countSpaces_ok (length : Nat) (counts : List Nat) (l : List Index) (h : ∀ i ∈ l, i.space.priority < length) :
    ∃ r, countSpaces length counts l = .ok r ∧ r.length = counts.length ∧
      ∀ k, r[k]? = counts[k]?.map (· + l.countP fun i => decide (i.space.priority = k)) := by
  induction l generalizing counts with
  | nil => exact ⟨counts, rfl, rfl, fun k => by cases counts[k]? <;> simp⟩
  | cons i l ih =>
    obtain ⟨r, hr, hlen, hk⟩ := ih (counts.modify i.space.priority (· + 1)) fun j hj => h j (List.mem_cons_of_mem _ hj)
    refine ⟨r, ?_, by simpa using hlen, ?_⟩
    · unfold countSpaces
      rw [if_pos (h i List.mem_cons_self)]
      exact hr
    · intro k
      rw [hk k, List.getElem?_modify, List.countP_cons]
      cases counts[k]? with
      | none => simp
      | some c =>
        by_cases e : i.space.priority = k
        · simp [e]; omega
        · simp [e]

theorem countSpaces_inv (length : Nat) (counts : List Nat) (l : List Index) (r : List Nat) (h : countSpaces length counts l = .ok r) :
    ∀ i ∈ l, i.space.priority < length := by
  induction l generalizing counts with
  | nil => intro i hi; cases hi
  | cons i l ih =>
    unfold countSpaces at h
    split at h
    · next hi =>
      intro j hj
      rcases List.mem_cons.mp hj with rfl | hj
      · exact hi
      · exact ih _ h j hj
    · cases h

theorem countSpaces_sum (length : Nat) (counts : List Nat) (l : List Index) (r : List Nat) (hc : counts.length = length)
    (h : countSpaces length counts l = .ok r) : r.sum = counts.sum + l.length := by
  induction l generalizing counts with
  | nil => cases h; simp
  | cons i l ih =>
    unfold countSpaces at h
    split at h
    · next hi =>
      rw [ih _ (by simpa using hc) h]
      have : (counts.modify i.space.priority (· + 1)).sum = counts.sum + 1 := by
        have hlt : i.space.priority < counts.length := by omega
        generalize i.space.priority = k at hlt
        clear h ih hc hi
        induction counts generalizing k with
        | nil => simp at hlt
        | cons c counts ih =>
          cases k with
          | zero => simp; omega
          | succ k => simp [ih k (by simpa using hlt)]; omega
      rw [this, List.length_cons]; omega
    · cases h

/-- Violation: every call of the constructor raises; for two tensors or operators the exception is `AttributeError`, because no class has
the attribute `type_of_indices`. -/
theorem C94_violation_construct (a b : CounterArg) :
    SpaceCounter.construct a b = .error .typeError ∨ SpaceCounter.construct a b = .error .attributeError := by
  unfold SpaceCounter.construct SpaceCounter.make
  cases ha : a.pair? with
  | none => left; rfl
  | some p =>
    cases hb : b.pair? with
    | none => left; rfl
    | some q => right; rfl

/-- The labels that are upper labels of one pair and lower labels of another. -/
def sharedUpper (p q : IndicesPair) : Finset Index := p.upper.list.toFinset ∩ q.lower.list.toFinset

/-- With the attribute `indices_type` in the place of the missing one, the entry of a space is the number of labels of that space that are
upper labels of the first argument and lower labels of the second (`upper`), or the other way round (`lower`); the totals are the numbers of
shared labels.  Missing: the constructor as written never gets there (`C94_violation_construct`). -/
theorem C94_counts_partial (a b : CounterArg) (p q : IndicesPair) (ha : a.pair? = some p) (hb : b.pair? = some q)
    (hpu : p.upper.list.Nodup) (hpl : p.lower.list.Nodup) (c : SpaceCounter) (h : SpaceCounter.make "indices_type" a b = .ok c) :
    p.upper.ty = q.upper.ty ∧
    (∀ s : Space, c.upper[s.priority]?.getD 0 = ((sharedUpper p q).filter fun i => i.space = s).card) ∧
    (∀ s : Space, c.lower[s.priority]?.getD 0 = ((sharedUpper q p).filter fun i => i.space = s).card) ∧
    c.nUpper = (sharedUpper p q).card ∧ c.nLower = (sharedUpper q p).card ∧ c.size = (sharedUpper p q).card + (sharedUpper q p).card := by
  have prio : ∀ s t : Space, s.priority = t.priority ↔ s = t := by decide
  unfold SpaceCounter.make at h
  rw [ha, hb] at h
  have e1 : ∀ x : IndicesPair, classAttr "indices_type" x = .ok x.upper.ty := fun x => rfl
  simp only [e1, bind, Except.bind] at h
  split at h
  · cases h
  · next hty =>
    have hty' : p.upper.ty = q.upper.ty := not_not.mp hty
    set len := if p.upper.ty = .spinOrbital then 6 else 12 with hlen
    cases h1 : countSpaces len (List.replicate len 0) (p.upper.list.filter fun i => decide (i ∈ q.lower.list)) with
    | error e => rw [h1] at h; cases h
    | ok u =>
      cases h2 : countSpaces len (List.replicate len 0) (p.lower.list.filter fun i => decide (i ∈ q.upper.list)) with
      | error e => rw [h1, h2] at h; cases h
      | ok l =>
        rw [h1, h2] at h
        cases h
        have entry : ∀ (x y : List Index) (r : List Nat), x.Nodup →
            countSpaces len (List.replicate len 0) (x.filter fun i => decide (i ∈ y)) = .ok r →
            (∀ s : Space, r[s.priority]?.getD 0 = ((x.toFinset ∩ y.toFinset).filter fun i => i.space = s).card) ∧
            r.sum = (x.toFinset ∩ y.toFinset).card := by
          intro x y r hx hr
          have hset : x.toFinset ∩ y.toFinset = (x.filter fun i => decide (i ∈ y)).toFinset := by
            ext i; simp
          have hnd : (x.filter fun i => decide (i ∈ y)).Nodup := hx.filter _
          refine ⟨fun s => ?_, ?_⟩
          · obtain ⟨r', hr', hl', hk'⟩ := countSpaces_ok len (List.replicate len 0) _ (countSpaces_inv _ _ _ _ hr)
            rw [hr] at hr'
            cases hr'
            have hc : ((x.toFinset ∩ y.toFinset).filter fun i => i.space = s).card =
                (x.filter fun i => decide (i ∈ y)).countP fun i => decide (i.space.priority = s.priority) := by
              have he : ((x.filter fun i => decide (i ∈ y)).toFinset.filter fun i => i.space = s) =
                  ((x.filter fun i => decide (i ∈ y)).filter fun i => decide (i.space.priority = s.priority)).toFinset := by
                ext i
                simp only [List.mem_toFinset, Finset.mem_filter, List.mem_filter, decide_eq_true_eq, prio]
              rw [hset, he, List.toFinset_card_of_nodup (hnd.filter _), List.countP_eq_length_filter]
            rw [hc, hk']
            by_cases hs : s.priority < len
            · simp [hs]
            · have : (List.replicate len 0)[s.priority]? = none := by simp; omega
              rw [this]
              simp only [Option.map_none, Option.getD_none]
              symm
              rw [List.countP_eq_zero]
              intro i hi
              have := countSpaces_inv _ _ _ _ hr i hi
              simp only [decide_eq_true_eq]
              omega
          · rw [countSpaces_sum len _ _ _ (by simp) hr, hset, List.toFinset_card_of_nodup hnd]
            simp
        obtain ⟨eu, su⟩ := entry _ _ _ hpu h1
        obtain ⟨el, sl⟩ := entry _ _ _ hpl h2
        have hsl : sharedUpper q p = p.lower.list.toFinset ∩ q.upper.list.toFinset := by
          unfold sharedUpper; rw [Finset.inter_comm]
        refine ⟨hty', eu, ?_, su, ?_, ?_⟩
        · rw [hsl]; exact el
        · rw [hsl]; exact sl
        · unfold SpaceCounter.size SpaceCounter.nUpper SpaceCounter.nLower
          rw [hsl]
          simp only [su, sl]
          rfl

/-- With the attribute `indices_type` the constructor succeeds exactly for two pairs with the same class of labels (the labels of a
spin-orbital pair have no beta space). -/
theorem C94_total_partial (a b : CounterArg) (p q : IndicesPair) (ha : a.pair? = some p) (hb : b.pair? = some q)
    (hso : p.upper.ty = .spinOrbital → ∀ i ∈ p.upper.list ++ p.lower.list, i.space.beta = false) :
    (∃ c, SpaceCounter.make "indices_type" a b = .ok c) ↔ p.upper.ty = q.upper.ty := by
  have e1 : ∀ x : IndicesPair, classAttr "indices_type" x = .ok x.upper.ty := fun x => rfl
  have low : ∀ s : Space, s.beta = false → s.priority < 6 := by decide
  have all : ∀ s : Space, s.priority < 12 := by decide
  constructor
  · rintro ⟨c, h⟩
    unfold SpaceCounter.make at h
    rw [ha, hb] at h
    simp only [e1, bind, Except.bind] at h
    by_contra hne
    rw [if_pos hne] at h
    cases h
  · intro hty
    unfold SpaceCounter.make
    rw [ha, hb]
    simp only [e1, bind, Except.bind]
    rw [if_neg (by simpa using hty)]
    have hb : ∀ i ∈ p.upper.list ++ p.lower.list, i.space.priority < if p.upper.ty = .spinOrbital then 6 else 12 := by
      intro i hi
      split
      · next hs => exact low _ (hso hs i hi)
      · exact all _
    obtain ⟨u, hu, -⟩ := countSpaces_ok (if p.upper.ty = .spinOrbital then 6 else 12)
      (List.replicate (if p.upper.ty = .spinOrbital then 6 else 12) 0) (p.upper.list.filter fun i => decide (i ∈ q.lower.list))
      (fun i hi => hb i (List.mem_append_left _ (List.mem_filter.mp hi).1))
    obtain ⟨l, hl, -⟩ := countSpaces_ok (if p.upper.ty = .spinOrbital then 6 else 12)
      (List.replicate (if p.upper.ty = .spinOrbital then 6 else 12) 0) (p.lower.list.filter fun i => decide (i ∈ q.upper.list))
      (fun i hi => hb i (List.mem_append_right _ (List.mem_filter.mp hi).1))
    refine ⟨⟨u, l⟩, ?_⟩
    simp only [pure, Except.pure, hu, hl]

/-- The six comparisons of counters of the same length are a total order; counters are equal when the numbers of all spaces are. -/
theorem C94_order (n : Nat) :
    PyTotalOrder (α := { c : SpaceCounter // c.upper.length = n }) (fun _ _ => True) (fun c d => c.1.upper = d.1.upper ∧ c.1.lower = d.1.lower)
      (fun c d => c.1.pyEq d.1) (fun c d => c.1.pyNe d.1) (fun c d => c.1.pyLt d.1) (fun c d => c.1.pyLe d.1) (fun c d => c.1.pyGt d.1)
      (fun c d => c.1.pyGe d.1) := by
  have hT : TotLt (lexCmp (fun a b : Nat => decide (a < b)) (lexCmp (pyListLt fun a b : Nat => decide (a < b)) (pyListLt fun a b : Nat => decide (a < b))))
      (lexCmp (fun a b : Nat => decide (a ≤ b)) (lexCmp (pyListLe fun a b : Nat => decide (a ≤ b)) (pyListLe fun a b : Nat => decide (a ≤ b)))) :=
    totLt_linear.lex ((totLt_list _).lex (totLt_list _))
  let key : { c : SpaceCounter // c.upper.length = n } → Nat × (List Nat × List Nat) := fun c => (c.1.size, (c.1.upper, c.1.lower))
  have hchk : ∀ c d : { c : SpaceCounter // c.upper.length = n }, c.1.checkOperand d.1 = .ok () := by
    intro c d
    unfold SpaceCounter.checkOperand
    rw [if_pos (by rw [c.2, d.2])]
  have hkey : ∀ c d, key c = key d ↔ (c.1.upper = d.1.upper ∧ c.1.lower = d.1.lower) := by
    intro c d
    simp only [key, Prod.mk.injEq]
    constructor
    · exact fun h => h.2
    · intro h
      exact ⟨by simp [SpaceCounter.size, SpaceCounter.nUpper, SpaceCounter.nLower, h.1, h.2], h⟩
  have hdec : ∀ c d : { c : SpaceCounter // c.upper.length = n },
      (decide (c.1.upper = d.1.upper) && decide (c.1.lower = d.1.lower)) = decide (key c = key d) := by
    intro c d
    rw [Bool.eq_iff_iff]
    simp [hkey]
  have := pyTotalOrder_of_key (comparable := fun _ _ : { c : SpaceCounter // c.upper.length = n } => True)
    (eq := fun c d => c.1.pyEq d.1) (ne := fun c d => c.1.pyNe d.1) (lt := fun c d => c.1.pyLt d.1) (le := fun c d => c.1.pyLe d.1)
    (gt := fun c d => c.1.pyGt d.1) (ge := fun c d => c.1.pyGe d.1) hT key (fun _ _ _ => trivial) (fun _ _ _ _ _ => trivial)
    (fun c d _ => by simp only [SpaceCounter.pyEq, hchk]; rw [← hdec]; rfl)
    (fun c d _ => by simp only [SpaceCounter.pyNe, hchk]; rw [← hdec]; rfl)
    (fun c d _ => by simp only [SpaceCounter.pyLt, hchk]; rfl)
    (fun c d _ => by simp only [SpaceCounter.pyLe, hchk]; rfl)
    (fun c d _ => by simp only [SpaceCounter.pyGt, hchk]; rfl)
    (fun c d _ => by simp only [SpaceCounter.pyGe, hchk]; rfl)
    (fun _ _ h => (h trivial).elim)
  simp only [hkey] at this
  exact this

/-- Counters of different lengths (spin-orbital and other labels) are not compared: `ValueError`. -/
theorem C94_incomparable (c d : SpaceCounter) (h : c.upper.length ≠ d.upper.length) :
    c.pyEq d = .error .valueError ∧ c.pyNe d = .error .valueError ∧ c.pyLt d = .error .valueError ∧ c.pyLe d = .error .valueError ∧
    c.pyGt d = .error .valueError ∧ c.pyGe d = .error .valueError := by
  have : c.checkOperand d = .error .valueError := by unfold SpaceCounter.checkOperand; rw [if_neg h]
  unfold SpaceCounter.pyEq SpaceCounter.pyNe SpaceCounter.pyLt SpaceCounter.pyLe SpaceCounter.pyGt SpaceCounter.pyGe
  rw [this]
  exact ⟨rfl, rfl, rfl, rfl, rfl, rfl⟩

/-- `transpose` is an involution that keeps the size and exchanges upper and lower; transposing the counter of two arguments counts them in
the other order. -/
theorem C94_transpose_partial (a b : CounterArg) (p q : IndicesPair) (ha : a.pair? = some p) (hb : b.pair? = some q)
    (hpu : p.upper.list.Nodup) (hpl : p.lower.list.Nodup) (hqu : q.upper.list.Nodup) (hql : q.lower.list.Nodup)
    (c d : SpaceCounter) (h : SpaceCounter.make "indices_type" a b = .ok c) (h' : SpaceCounter.make "indices_type" b a = .ok d) :
    c.transpose.transpose = c ∧ c.transpose.size = c.size ∧ c.transpose.nUpper = c.nLower ∧
    ∀ s : Space, c.transpose.upper[s.priority]?.getD 0 = d.upper[s.priority]?.getD 0 ∧
      c.transpose.lower[s.priority]?.getD 0 = d.lower[s.priority]?.getD 0 := by
  obtain ⟨-, u1, l1, -⟩ := C94_counts_partial a b p q ha hb hpu hpl c h
  obtain ⟨-, u2, l2, -⟩ := C94_counts_partial b a q p hb ha hqu hql d h'
  refine ⟨rfl, ?_, rfl, fun s => ⟨?_, ?_⟩⟩
  · simp [SpaceCounter.size, SpaceCounter.transpose, SpaceCounter.nUpper, SpaceCounter.nLower, add_comm]
  · exact (l1 s).trans (u2 s).symm
  · exact (u1 s).trans (l2 s).symm

/-- H with the labels p0, P1; h0, H1 and T with h0, H1; p0, A0. -/
theorem C94_example :
    let h : CounterArg := .op ⟨⟨.spinIntegrated, [⟨⟨.p, false⟩, 0⟩, ⟨⟨.p, true⟩, 1⟩]⟩, ⟨.spinIntegrated, [⟨⟨.h, false⟩, 0⟩, ⟨⟨.h, true⟩, 1⟩]⟩⟩
    let t : CounterArg := .op ⟨⟨.spinIntegrated, [⟨⟨.h, false⟩, 0⟩, ⟨⟨.h, true⟩, 1⟩]⟩, ⟨.spinIntegrated, [⟨⟨.p, false⟩, 0⟩, ⟨⟨.a, true⟩, 0⟩]⟩⟩
    SpaceCounter.make "indices_type" h t = .ok ⟨[0, 1, 0, 0, 0, 0, 0, 0, 0, 0, 0, 0], [0, 0, 1, 0, 0, 0, 0, 0, 1, 0, 0, 0]⟩ ∧
    SpaceCounter.construct h t = .error .attributeError := by
  decide +kernel

end Dsrg
