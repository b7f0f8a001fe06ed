import Verif.Lemmas.Dict
import Verif.Props.Tensors
import Verif.Props.Partitions
import Verif.Lemmas.HalfCumulant
import Verif.Spec.Contraction

/-!
Properties C22-C25: elementary contractions.
-/

namespace Dsrg

/-- An operator string made of spin-orbital indices (what `SecondQuantizedOperator(cre, ann)` returns by default). -/
def SpinOrbitalOp (op : SqOp) : Prop :=
  op.upper.ty = .spinOrbital ∧ op.lower.ty = .spinOrbital ∧ op.upper.WF ∧ op.lower.WF

instance (x : Indices) : Decidable x.WF := by unfold Indices.WF; infer_instance
instance (op : SqOp) : Decidable (SpinOrbitalOp op) := by unfold SpinOrbitalOp; infer_instance

theorem SpinOrbitalOp.not_beta {op : SqOp} (h : SpinOrbitalOp op) :
    (∀ i ∈ op.upper.list, i.isBeta = false) ∧ ∀ i ∈ op.lower.list, i.isBeta = false :=
  ⟨h.2.2.1.2 h.1, h.2.2.2.2 h.2.1⟩

/-! ### C22 check_max_cu never exceeds what the operators allow -/

/-- The number of labels of a list of index strings that are neither core nor virtual. -/
def nActiveLike (ls : List Indices) : Nat :=
  ((ls.flatMap Indices.list).filter fun i => decide (i.space.kind ≠ .c ∧ i.space.kind ≠ .v)).length

theorem nValid_eq (ls : List Indices) (h : ∀ x ∈ ls, ∀ i ∈ x.list, i.isBeta = false) : nValid ls = nActiveLike ls := by
  induction ls with
  | nil => rfl
  | cons x ls ih =>
    have ih' := ih fun y hy => h y (List.mem_cons_of_mem _ hy)
    have hx := h x (by simp)
    have e1 : nValid (x :: ls) = ((x.size : Int) - (x.countIndexSpace [⟨.c, false⟩, ⟨.v, false⟩] : Int)) + nValid ls := by
      simp [nValid]
    have e2 : nActiveLike (x :: ls) = (x.list.filter fun i => decide (i.space.kind ≠ .c ∧ i.space.kind ≠ .v)).length + nActiveLike ls := by
      simp [nActiveLike, List.filter_append]
    rw [e1, e2, ih']
    have key : ∀ l : List Index, (∀ i ∈ l, i.isBeta = false) → l.length =
        (l.countP fun i => decide (i.space = ⟨.c, false⟩)) + (l.countP fun i => decide (i.space = ⟨.v, false⟩)) +
        (l.filter fun i => decide (i.space.kind ≠ .c ∧ i.space.kind ≠ .v)).length := by
      intro l hl
      induction l with
      | nil => rfl
      | cons i l ihl =>
        have hi := hl i (by simp)
        have := ihl fun j hj => hl j (List.mem_cons_of_mem _ hj)
        obtain ⟨⟨k, b⟩, n⟩ := i
        simp only [Index.isBeta] at hi
        subst hi
        cases k <;> simp [this] <;> omega
    have := key x.list hx
    simp only [Indices.size, Indices.countIndexSpace, List.map_cons, List.map_nil, List.sum_cons, List.sum_nil]
    push_cast
    omega

/-- The level is at least one and, apart from that, at most the number of creation (annihilation) operators that are
neither core nor virtual; a request of at least one is cut down to that bound. -/
theorem C22_check_max_cu (ops : List SqOp) (hops : ∀ op ∈ ops, SpinOrbitalOp op) (maxCu : Int) :
    1 ≤ checkMaxCu ops maxCu ∧
    (1 < checkMaxCu ops maxCu → checkMaxCu ops maxCu ≤ nActiveLike (ops.map IndicesPair.upper) ∧
      checkMaxCu ops maxCu ≤ nActiveLike (ops.map IndicesPair.lower)) ∧
    (1 ≤ maxCu → checkMaxCu ops maxCu =
      min maxCu (max 1 (min (nActiveLike (ops.map IndicesPair.upper)) (nActiveLike (ops.map IndicesPair.lower))))) := by
  unfold checkMaxCu
  rw [nValid_eq, nValid_eq]
  · simp only
    split <;> refine ⟨?_, ?_, ?_⟩ <;> intros <;> omega
  · intro x hx
    obtain ⟨op, hop, rfl⟩ := List.mem_map.1 hx
    exact (hops op hop).not_beta.2
  · intro x hx
    obtain ⟨op, hop, rfl⟩ := List.mem_map.1 hx
    exact (hops op hop).not_beta.1

/-- A request of zero or less is replaced by the largest level possible. -/
theorem C22_nonpositive_request (ops : List SqOp) (hops : ∀ op ∈ ops, SpinOrbitalOp op) (maxCu : Int) (h : maxCu ≤ 0) :
    checkMaxCu ops maxCu =
      max 1 (min (nActiveLike (ops.map IndicesPair.upper)) (nActiveLike (ops.map IndicesPair.lower))) := by
  unfold checkMaxCu
  rw [nValid_eq, nValid_eq]
  · simp only
    rw [if_pos (by omega)]
    push_cast; rfl
  · intro x hx
    obtain ⟨op, hop, rfl⟩ := List.mem_map.1 hx
    exact (hops op hop).not_beta.2
  · intro x hx
    obtain ⟨op, hop, rfl⟩ := List.mem_map.1 hx
    exact (hops op hop).not_beta.1

/-- Two-body operator `a^{g0 a1}_{h2 v3}`. -/
def exOp : SqOp := ⟨⟨.spinOrbital, [⟨⟨.g, false⟩, 0⟩, ⟨⟨.a, false⟩, 1⟩]⟩, ⟨.spinOrbital, [⟨⟨.h, false⟩, 2⟩, ⟨⟨.v, false⟩, 3⟩]⟩⟩
/-- Two-body operator `a^{p4 g5}_{c6 g7}`. -/
def exOp' : SqOp := ⟨⟨.spinOrbital, [⟨⟨.p, false⟩, 4⟩, ⟨⟨.g, false⟩, 5⟩]⟩, ⟨.spinOrbital, [⟨⟨.c, false⟩, 6⟩, ⟨⟨.g, false⟩, 7⟩]⟩⟩

example : (∀ op ∈ [exOp, exOp'], SpinOrbitalOp op) ∧ checkMaxCu [exOp, exOp'] 3 = 2 ∧ checkMaxCu [exOp, exOp'] 0 = 2 ∧
    checkMaxCu [exOp, exOp'] 1 = 1 := by decide +kernel

/-! ### C23 Pairwise contractions are complete and irredundant -/

theorem makeDensity_one (cls : TCls) (h : cls = .cumulant ∨ cls = .hole) (u l : Index) (hu : u.isBeta = false)
    (hl : l.isBeta = false) : makeDensity cls [u] [l] = .ok (density cls [u] [l]) := by
  have e1 : ∀ i : Index, i.isBeta = false → Indices.make .spinOrbital [i] = .ok ⟨.spinOrbital, [i]⟩ := by
    intro i hi; simp [Indices.make, hi]
  unfold makeDensity
  rw [e1 u hu, e1 l hl]
  rcases h with rfl | rfl <;>
    simp [bind, Except.bind, pure, Except.pure, Tensor.make, IndicesPair.make, requireSpinConserving, requireOneBody,
      IndicesPair.isSpinConserving, IndicesPair.nUpper, IndicesPair.nLower, Indices.size, Indices.nBeta, hu, hl, density]

theorem meet_cumulant (a b : Kind) : (a ≠ .v ∧ b ≠ .v ∧ spacesMeet ⟨a, false⟩ ⟨b, false⟩ = true) ↔
    ∃ e : Elem, e ≠ .virt ∧ a.Denotes e ∧ b.Denotes e := by
  revert a b; decide

theorem meet_hole (a b : Kind) : (a ≠ .c ∧ b ≠ .c ∧ spacesMeet ⟨a, false⟩ ⟨b, false⟩ = true) ↔
    ∃ e : Elem, e ≠ .core ∧ a.Denotes e ∧ b.Denotes e := by
  revert a b; decide

theorem Space.eq_of_not_beta {i : Index} (h : i.isBeta = false) : i.space = ⟨i.space.kind, false⟩ := by
  obtain ⟨⟨k, b⟩, n⟩ := i; simp only [Index.isBeta] at h; subst h; rfl

theorem mem_pairEvents (i j : Nat) (left right : SqOp) (hl : SpinOrbitalOp left) (hr : SpinOrbitalOp right)
    (x : List Nat × TCls × Index × Index) :
    x ∈ pairEvents i j left right ↔
    (∃ u ∈ left.upper.list, ∃ l ∈ right.lower.list,
      (∃ e : Elem, e ≠ .virt ∧ u.space.kind.Denotes e ∧ l.space.kind.Denotes e) ∧ x = ([i, j], .cumulant, u, l)) ∨
    (∃ u ∈ right.upper.list, ∃ l ∈ left.lower.list,
      (∃ e : Elem, e ≠ .core ∧ u.space.kind.Denotes e ∧ l.space.kind.Denotes e) ∧ x = ([j, i], .hole, u, l)) := by
  unfold pairEvents
  rw [List.mem_append]
  refine or_congr ?_ ?_
  · simp only [List.mem_flatMap, List.mem_map, List.mem_filter, decide_eq_true_eq]
    constructor
    · rintro ⟨u, ⟨hu, h1⟩, l, ⟨⟨hl', h2⟩, h3⟩, rfl⟩
      refine ⟨u, hu, l, hl', ?_, rfl⟩
      rw [Space.eq_of_not_beta (hl.not_beta.1 u hu)] at h1 h3
      rw [Space.eq_of_not_beta (hr.not_beta.2 l hl')] at h2 h3
      exact (meet_cumulant _ _).1 ⟨by simpa using h1, by simpa using h2, h3⟩
    · rintro ⟨u, hu, l, hl', h, rfl⟩
      obtain ⟨h1, h2, h3⟩ := (meet_cumulant _ _).2 h
      refine ⟨u, ⟨hu, ?_⟩, l, ⟨⟨hl', ?_⟩, ?_⟩, rfl⟩
      · rw [Space.eq_of_not_beta (hl.not_beta.1 u hu)]; simpa using h1
      · rw [Space.eq_of_not_beta (hr.not_beta.2 l hl')]; simpa using h2
      · rw [Space.eq_of_not_beta (hl.not_beta.1 u hu), Space.eq_of_not_beta (hr.not_beta.2 l hl')]; exact h3
  · simp only [List.mem_flatMap, List.mem_map, List.mem_filter, decide_eq_true_eq]
    constructor
    · rintro ⟨l, ⟨hl', h1⟩, u, ⟨⟨hu, h2⟩, h3⟩, rfl⟩
      refine ⟨u, hu, l, hl', ?_, rfl⟩
      rw [Space.eq_of_not_beta (hl.not_beta.2 l hl')] at h1 h3
      rw [Space.eq_of_not_beta (hr.not_beta.1 u hu)] at h2 h3
      exact (meet_hole _ _).1 ⟨by simpa using h2, by simpa using h1, h3⟩
    · rintro ⟨u, hu, l, hl', h, rfl⟩
      obtain ⟨h1, h2, h3⟩ := (meet_hole _ _).2 h
      refine ⟨l, ⟨hl', ?_⟩, u, ⟨⟨hu, ?_⟩, ?_⟩, rfl⟩
      · rw [Space.eq_of_not_beta (hl.not_beta.2 l hl')]; simpa using h2
      · rw [Space.eq_of_not_beta (hr.not_beta.1 u hu)]; simpa using h1
      · rw [Space.eq_of_not_beta (hl.not_beta.2 l hl'), Space.eq_of_not_beta (hr.not_beta.1 u hu)]; exact h3

theorem nodup_pairEvents (i j : Nat) (hij : i < j) (left right : SqOp) (hl : SpinOrbitalOp left) (hr : SpinOrbitalOp right) :
    (pairEvents i j left right).Nodup := by
  unfold pairEvents
  rw [List.nodup_append]
  refine ⟨?_, ?_, ?_⟩
  · rw [List.nodup_flatMap]
    refine ⟨fun u _ => ?_, ?_⟩
    · refine List.Nodup.map (fun a b h => by simpa using h) ?_
      exact (hr.2.2.2.1.filter _).filter _
    · refine (hl.2.2.1.1.filter _).imp ?_
      intro a b hab
      simp only [Function.onFun, List.disjoint_left, List.mem_map]
      rintro _ ⟨x, _, rfl⟩ ⟨y, _, h⟩
      simp at h; exact hab h.1.symm
  · rw [List.nodup_flatMap]
    refine ⟨fun u _ => ?_, ?_⟩
    · refine List.Nodup.map (fun a b h => by simpa using h) ?_
      exact (hr.2.2.1.1.filter _).filter _
    · refine (hl.2.2.2.1.filter _).imp ?_
      intro a b hab
      simp only [Function.onFun, List.disjoint_left, List.mem_map]
      rintro _ ⟨x, _, rfl⟩ ⟨y, _, h⟩
      simp at h; exact hab h.2.symm
  · intro a ha b hb hab
    simp only [List.mem_flatMap, List.mem_map] at ha hb
    obtain ⟨_, _, _, _, rfl⟩ := ha
    obtain ⟨_, _, _, _, rfl⟩ := hb
    simp at hab

theorem mem_pairwiseEvents (ops : List SqOp) (hops : ∀ op ∈ ops, SpinOrbitalOp op) (x : List Nat × TCls × Index × Index) :
    x ∈ pairwiseEvents ops ↔ ∃ i j left right, i < j ∧ ops[i]? = some left ∧ ops[j]? = some right ∧
      ((∃ u ∈ left.upper.list, ∃ l ∈ right.lower.list,
        (∃ e : Elem, e ≠ .virt ∧ u.space.kind.Denotes e ∧ l.space.kind.Denotes e) ∧ x = ([i, j], .cumulant, u, l)) ∨
      (∃ u ∈ right.upper.list, ∃ l ∈ left.lower.list,
        (∃ e : Elem, e ≠ .core ∧ u.space.kind.Denotes e ∧ l.space.kind.Denotes e) ∧ x = ([j, i], .hole, u, l))) := by
  unfold pairwiseEvents
  simp only [List.mem_flatMap]
  constructor
  · rintro ⟨⟨left, i⟩, hi, ⟨right, j⟩, hj, hx⟩
    rw [List.mem_zipIdx_iff_getElem?] at hi
    rw [List.mem_iff_getElem?] at hj
    obtain ⟨m, hm⟩ := hj
    rw [List.getElem?_drop, List.getElem?_zipIdx] at hm
    simp only [Option.map_eq_some_iff, Prod.mk.injEq] at hm
    obtain ⟨r', hr', rfl, rfl⟩ := hm
    rw [mem_pairEvents _ _ _ _ (hops _ (List.mem_of_getElem? hi)) (hops _ (List.mem_of_getElem? hr'))] at hx
    exact ⟨i, _, left, r', by simp; omega, hi, by simpa using hr', hx⟩
  · rintro ⟨i, j, left, right, hij, hi, hj, hx⟩
    refine ⟨(left, i), List.mem_zipIdx_iff_getElem?.2 hi, (right, j), ?_, ?_⟩
    · rw [List.mem_iff_getElem?]
      refine ⟨j - (i + 1), ?_⟩
      rw [List.getElem?_drop, List.getElem?_zipIdx]
      have : i + 1 + (j - (i + 1)) = j := by omega
      simp [this, hj]
    · exact (mem_pairEvents _ _ _ _ (hops _ (List.mem_of_getElem? hi)) (hops _ (List.mem_of_getElem? hj)) _).2 hx

theorem nodup_pairwiseEvents (ops : List SqOp) (hops : ∀ op ∈ ops, SpinOrbitalOp op) : (pairwiseEvents ops).Nodup := by
  have hz : ops.zipIdx.Nodup := by
    refine List.Nodup.of_map Prod.snd ?_
    rw [List.zipIdx_map_snd]; exact List.nodup_range'
  -- every event determines the two operator numbers
  have hkey : ∀ (left right : SqOp × Nat), left ∈ ops.zipIdx → right ∈ ops.zipIdx.drop (left.2 + 1) →
      left.2 < right.2 ∧ ops[left.2]? = some left.1 ∧ ops[right.2]? = some right.1 := by
    rintro ⟨l, i⟩ ⟨r, j⟩ h1 h2
    rw [List.mem_zipIdx_iff_getElem?] at h1
    rw [List.mem_iff_getElem?] at h2
    obtain ⟨m, hm⟩ := h2
    rw [List.getElem?_drop, List.getElem?_zipIdx] at hm
    simp only [Option.map_eq_some_iff, Prod.mk.injEq] at hm
    obtain ⟨r', hr', rfl, rfl⟩ := hm
    exact ⟨by simp; omega, h1, by simpa using hr'⟩
  have hdet : ∀ (i j i' j' : Nat) (l r l' r' : SqOp) (x : List Nat × TCls × Index × Index), SpinOrbitalOp l →
      SpinOrbitalOp r → SpinOrbitalOp l' → SpinOrbitalOp r' → x ∈ pairEvents i j l r → x ∈ pairEvents i' j' l' r' →
      i = i' ∧ j = j' := by
    intro i j i' j' l r l' r' x h1 h2 h3 h4 hx hx'
    rw [mem_pairEvents _ _ _ _ h1 h2] at hx
    rw [mem_pairEvents _ _ _ _ h3 h4] at hx'
    rcases hx with ⟨_, _, _, _, _, rfl⟩ | ⟨_, _, _, _, _, rfl⟩ <;>
      rcases hx' with ⟨_, _, _, _, _, h⟩ | ⟨_, _, _, _, _, h⟩ <;> simp at h <;> omega
  have hso : ∀ (x : SqOp) (i : Nat), ops[i]? = some x → SpinOrbitalOp x := fun x i h => hops _ (List.mem_of_getElem? h)
  unfold pairwiseEvents
  rw [List.nodup_flatMap]
  constructor
  · intro left hleft
    rw [List.nodup_flatMap]
    constructor
    · intro right hright
      obtain ⟨h1, h2, h3⟩ := hkey left right hleft hright
      exact nodup_pairEvents _ _ h1 _ _ (hso _ _ h2) (hso _ _ h3)
    · refine List.Pairwise.imp_of_mem ?_ (hz.sublist (List.drop_sublist _ _))
      intro a b ha hb hab
      simp only [Function.onFun, List.disjoint_left]
      intro x hxa hxb
      obtain ⟨_, h2, h3⟩ := hkey left a hleft ha
      obtain ⟨_, _, h4⟩ := hkey left b hleft hb
      have := (hdet _ _ _ _ _ _ _ _ x (hso _ _ h2) (hso _ _ h3) (hso _ _ h2) (hso _ _ h4) hxa hxb).2
      apply hab
      obtain ⟨a1, a2⟩ := a; obtain ⟨b1, b2⟩ := b
      simp only at this h3 h4
      subst this; rw [h3] at h4; simp at h4; simp [h4]
  · refine List.Pairwise.imp_of_mem ?_ hz
    intro a b ha hb hab
    simp only [Function.onFun, List.disjoint_left, List.mem_flatMap]
    rintro x ⟨r, hr, hxr⟩ ⟨r', hr', hxr'⟩
    obtain ⟨_, h2, h3⟩ := hkey a r ha hr
    obtain ⟨_, h5, h4⟩ := hkey b r' hb hr'
    have := (hdet _ _ _ _ _ _ _ _ x (hso _ _ h2) (hso _ _ h3) (hso _ _ h5) (hso _ _ h4) hxr hxr').1
    apply hab
    obtain ⟨a1, a2⟩ := a; obtain ⟨b1, b2⟩ := b
    simp only at this h2 h5
    subst this; rw [h2] at h5; simp at h5; simp [h5]

/-- The dictionary of pairwise contractions: one entry per key, no repeated contraction under a key, and the contractions
under the key `(creating operator, annihilating operator)` are exactly the one-body cumulants of a creation operator of
an earlier and an annihilation operator of a later string that can refer to a common core or active orbital, and the
hole densities of an annihilation operator of an earlier and a creation operator of a later string that can refer to a
common active or virtual orbital. -/
theorem C23_pairwise (ops : List SqOp) (hops : ∀ op ∈ ops, SpinOrbitalOp op) :
    ∃ d, pairwiseContractions ops = .ok d ∧ (d.map Prod.fst).Nodup ∧ (∀ key ts, (key, ts) ∈ d → ts ≠ [] ∧ ts.Nodup) ∧
      ∀ key t, (∃ ts, (key, ts) ∈ d ∧ t ∈ ts) ↔ PairContraction ops key t := by
  have hgood : ∀ x ∈ pairwiseEvents ops, (x.2.1 = .cumulant ∨ x.2.1 = .hole) ∧ x.2.2.1.isBeta = false ∧ x.2.2.2.isBeta = false := by
    intro x hx
    rw [mem_pairwiseEvents ops hops] at hx
    obtain ⟨i, j, left, right, -, hi, hj, ⟨u, hu, l, hl, -, rfl⟩ | ⟨u, hu, l, hl, -, rfl⟩⟩ := hx
    · exact ⟨Or.inl rfl, (hops _ (List.mem_of_getElem? hi)).not_beta.1 u hu, (hops _ (List.mem_of_getElem? hj)).not_beta.2 l hl⟩
    · exact ⟨Or.inr rfl, (hops _ (List.mem_of_getElem? hj)).not_beta.1 u hu, (hops _ (List.mem_of_getElem? hi)).not_beta.2 l hl⟩
  have hmap := mapM_except_ok (fun e : List Nat × TCls × Index × Index =>
      (do pure (e.1, ← makeDensity e.2.1 [e.2.2.1] [e.2.2.2]) : Except PyErr (List Nat × Tensor)))
    (fun e => (e.1, density e.2.1 [e.2.2.1] [e.2.2.2])) (pairwiseEvents ops) (by
      intro x hx
      obtain ⟨h1, h2, h3⟩ := hgood x hx
      simp only [makeDensity_one _ h1 _ _ h2 h3]; rfl)
  generalize hev : (pairwiseEvents ops).map (fun e => (e.1, density e.2.1 [e.2.2.1] [e.2.2.2])) = ev at hmap
  have hevn : ev.Nodup := by
    rw [← hev]
    refine List.Nodup.map_on ?_ (nodup_pairwiseEvents ops hops)
    rintro ⟨k, c, u, l⟩ hx ⟨k', c', u', l'⟩ hx' h
    simp only [Prod.mk.injEq, density, Tensor.mk.injEq, IndicesPair.mk.injEq, Indices.mk.injEq, List.cons.injEq] at h
    simp only [Prod.mk.injEq]
    tauto
  refine ⟨dictCollect ev, ?_, nodup_keys_dictCollect ev, ?_, ?_⟩
  · unfold pairwiseContractions
    rw [hmap]; rfl
  · intro key ts hts
    refine ⟨dictCollect_ne_nil ev _ hts, ?_⟩
    rw [← dictGet_of_mem (nodup_keys_dictCollect ev) hts, dictGet_dictCollect]
    refine List.Nodup.map_on ?_ (hevn.filter _)
    rintro ⟨k, t⟩ hx ⟨k', t'⟩ hx' rfl
    simp at hx hx'
    rw [hx.2, hx'.2]
  · intro key t
    rw [exists_mem_dictCollect, ← hev, List.mem_map]
    constructor
    · rintro ⟨x, hx, h⟩
      rw [mem_pairwiseEvents ops hops] at hx
      obtain ⟨i, j, left, right, hij, hi, hj, hx⟩ := hx
      refine ⟨i, j, left, right, hij, hi, hj, ?_⟩
      rcases hx with ⟨u, hu, l, hl, he, rfl⟩ | ⟨u, hu, l, hl, he, rfl⟩ <;> simp only [Prod.mk.injEq] at h
      · exact Or.inl ⟨u, hu, l, hl, he, h.1.symm, h.2.symm⟩
      · exact Or.inr ⟨l, hl, u, hu, he, h.1.symm, h.2.symm⟩
    · rintro ⟨i, j, left, right, hij, hi, hj, ⟨u, hu, l, hl, he, rfl, rfl⟩ | ⟨l, hl, u, hu, he, rfl, rfl⟩⟩
      · exact ⟨([i, j], .cumulant, u, l), (mem_pairwiseEvents ops hops _).2 ⟨i, j, left, right, hij, hi, hj,
          Or.inl ⟨u, hu, l, hl, he, rfl⟩⟩, rfl⟩
      · exact ⟨([j, i], .hole, u, l), (mem_pairwiseEvents ops hops _).2 ⟨i, j, left, right, hij, hi, hj,
          Or.inr ⟨u, hu, l, hl, he, rfl⟩⟩, rfl⟩

example : (∀ op ∈ [exOp, exOp'], SpinOrbitalOp op) ∧
    ((pairwiseContractions [exOp, exOp']).map fun d => d.map fun e => (e.1, e.2.length)) = .ok [([0, 1], 3), ([1, 0], 4)] := by
  decide +kernel

/-! ### C24 Half cumulants are all k-subsets, each once -/

theorem intPartitions_spec (k : Nat) (hk : 2 ≤ k) : ∃ out, intPartitions k = .ok out ∧ out.Nodup ∧
    ∀ p, p ∈ out ↔ p.Pairwise (· ≥ ·) ∧ (∀ x ∈ p, 1 ≤ x) ∧ p.sum = k := by
  obtain ⟨out, h1, h2, h3⟩ := C20_integer_partition k hk
  exact ⟨out, by rw [intPartitions, h1 _ le_rfl]; rfl, h2, h3⟩

theorem mem_natRange {a b k : Nat} : k ∈ natRange a b ↔ a ≤ k ∧ k < b := by
  unfold natRange; rw [List.mem_range'_1]; omega

theorem length_spread (g : List (Nat × List Nat)) : (spread g).length = (g.map fun p => p.2.length).sum := by
  simp [spread, List.length_flatMap]

/-- The partitions used, as one list. -/
theorem exists_parts (maxCu n : Nat) : ∃ parts, (natRange 2 (maxCu + 1)).mapM intPartitions = .ok parts ∧
    (parts.flatten.filter fun p => decide (p.length ≤ n)).Nodup ∧
    ∀ p, p ∈ (parts.flatten.filter fun p => decide (p.length ≤ n)) ↔
      p.Pairwise (· ≥ ·) ∧ (∀ x ∈ p, 1 ≤ x) ∧ 2 ≤ p.sum ∧ p.sum ≤ maxCu ∧ p.length ≤ n := by
  choose out h1 h2 h3 using intPartitions_spec
  classical
  have hm := mapM_except_ok intPartitions (fun k => if h : 2 ≤ k then out k h else []) (natRange 2 (maxCu + 1)) (by
    intro k hk
    rw [mem_natRange] at hk
    rw [dif_pos hk.1, h1])
  refine ⟨_, hm, ?_, ?_⟩
  · refine List.Nodup.filter _ ?_
    rw [← List.flatMap_def, List.nodup_flatMap]
    constructor
    · intro k hk
      rw [mem_natRange] at hk
      rw [dif_pos hk.1]; exact h2 k hk.1
    · refine List.Pairwise.imp_of_mem ?_ (List.nodup_range' (s := 2) (n := maxCu + 1 - 2))
      intro a b ha hb hab
      have ha' : a ∈ natRange 2 (maxCu + 1) := ha
      have hb' : b ∈ natRange 2 (maxCu + 1) := hb
      rw [mem_natRange] at ha' hb'
      simp only [Function.onFun, List.disjoint_left, dif_pos ha'.1, dif_pos hb'.1]
      intro p hp hp'
      rw [h3] at hp hp'
      omega
  · intro p
    rw [List.mem_filter, ← List.flatMap_def, List.mem_flatMap]
    constructor
    · rintro ⟨⟨k, hk, hp⟩, hl⟩
      rw [mem_natRange] at hk
      rw [dif_pos hk.1, h3] at hp
      simp at hl
      exact ⟨hp.1, hp.2.1, by omega, by omega, hl⟩
    · rintro ⟨hp1, hp2, hp3, hp4, hl⟩
      refine ⟨⟨p.sum, mem_natRange.2 ⟨hp3, by omega⟩, ?_⟩, by simpa using hl⟩
      rw [dif_pos hp3, h3]
      exact ⟨hp1, hp2, rfl⟩

/-- For every level `k` from 2 to `max_cu` the result lists every increasing selection of `k` legs (operator, position)
exactly once. -/
theorem C24_half_cumulant (sizes : List Nat) (maxCu : Nat) :
    ∃ rows, halfCumulant sizes maxCu = .ok rows ∧ ∀ k, 2 ≤ k → k ≤ maxCu → (halfLevel rows k).Nodup ∧
      ∀ r, r ∈ halfLevel rows k ↔ r.length = k ∧
        r.Pairwise (fun a b => a.1 < b.1 ∨ a.1 = b.1 ∧ a.2 < b.2) ∧ ∀ a ∈ r, ∃ s, sizes[a.1]? = some s ∧ a.2 < s := by
  obtain ⟨parts, h1, hnd, hmem⟩ := exists_parts maxCu sizes.length
  refine ⟨_, by unfold halfCumulant; rw [h1]; rfl, ?_⟩
  generalize hu : (parts.flatten.filter fun p => decide (p.length ≤ sizes.length)) = unique at hnd hmem
  have hpos : ∀ p ∈ unique, ∀ legs ∈ multisetPerms p, ∀ x ∈ legs, 1 ≤ x := by
    intro p hp legs hlegs x hx
    rw [mem_multisetPerms] at hlegs
    exact ((hmem p).1 hp).2.1 x (hlegs.mem_iff.1 hx)
  intro k hk2 hkm
  have hlev : ∀ r, r ∈ halfLevel (unique.flatMap fun p => (multisetPerms p).flatMap fun legs =>
      (halfRows sizes legs).map fun r => (p.sum, r)) k ↔
      ∃ p ∈ unique, p.sum = k ∧ ∃ legs ∈ multisetPerms p, r ∈ halfRows sizes legs := by
    intro r
    unfold halfLevel
    simp only [List.mem_map, List.mem_filter, List.mem_flatMap, decide_eq_true_eq]
    constructor
    · rintro ⟨⟨k', r'⟩, ⟨⟨p, hp, legs, hl, r'', hr, h⟩, hk⟩, rfl⟩
      simp only [Prod.mk.injEq] at h hk
      obtain ⟨h, rfl⟩ := h
      exact ⟨p, hp, h.trans hk, legs, hl, hr⟩
    · rintro ⟨p, hp, hk, legs, hl, hr⟩
      exact ⟨(p.sum, r), ⟨⟨p, hp, legs, hl, r, hr, rfl⟩, hk⟩, rfl⟩
  constructor
  · -- no repetition: a selection determines its groups, hence the distribution and the partition
    unfold halfLevel
    refine List.Nodup.map_on ?_ (List.Nodup.filter _ ?_)
    · rintro ⟨a1, a2⟩ ha ⟨b1, b2⟩ hb hab
      rw [List.mem_filter] at ha hb
      simp at ha hb hab
      rw [ha.2, hb.2, hab]
    · rw [List.nodup_flatMap]
      constructor
      · intro p hp
        rw [List.nodup_flatMap]
        constructor
        · intro legs hl
          refine List.Nodup.map (fun a b h => by simpa using h) (nodup_halfRows (hpos p hp legs hl))
        · refine List.Pairwise.imp_of_mem ?_ (nodup_multisetPerms p)
          intro a b ha hb hab
          simp only [Function.onFun, List.disjoint_left, List.mem_map]
          rintro x ⟨r, hr, rfl⟩ ⟨r', hr', h⟩
          simp at h
          subst h
          rw [mem_halfRows (hpos p hp a ha)] at hr
          rw [mem_halfRows (hpos p hp b hb)] at hr'
          obtain ⟨g, hg, e1, e2, -⟩ := hr
          obtain ⟨g', hg', e1', e2', -⟩ := hr'
          have := spread_injective hg hg' (e1.trans e1'.symm)
          rw [this] at e2
          exact hab (e2.symm.trans e2')
      · refine List.Pairwise.imp_of_mem ?_ hnd
        intro p q hp hq hpq
        simp only [Function.onFun, List.disjoint_left, List.mem_flatMap, List.mem_map]
        rintro x ⟨a, ha, r, hr, rfl⟩ ⟨b, hb, r', hr', h⟩
        simp at h
        obtain ⟨-, rfl⟩ := h
        rw [mem_halfRows (hpos p hp a ha)] at hr
        rw [mem_halfRows (hpos q hq b hb)] at hr'
        obtain ⟨g, hg, e1, e2, -⟩ := hr
        obtain ⟨g', hg', e1', e2', -⟩ := hr'
        have := spread_injective hg hg' (e1.trans e1'.symm)
        rw [this] at e2
        have hab : a = b := e2.symm.trans e2'
        subst hab
        rw [mem_multisetPerms] at ha hb
        exact hpq (List.Perm.eq_of_pairwise' (r := (· ≥ ·)) ((hmem p).1 hp).1 ((hmem q).1 hq).1 (ha.symm.trans hb))
  · intro r
    rw [hlev]
    constructor
    · rintro ⟨p, hp, rfl, legs, hl, hr⟩
      rw [mem_halfRows (hpos p hp legs hl)] at hr
      obtain ⟨g, hg, rfl, rfl, hb⟩ := hr
      rw [mem_multisetPerms] at hl
      refine ⟨?_, hg.sorted, ?_⟩
      · rw [length_spread, hl.sum_eq]
      · intro a ha
        obtain ⟨q, hq, h1, h2⟩ := mem_spread.1 ha
        obtain ⟨h3, h4⟩ := hb q hq
        rw [← h1]
        refine ⟨sizes[q.1], List.getElem?_eq_getElem h3, ?_⟩
        have := h4 _ h2
        rwa [List.getD_eq_getElem?_getD, List.getElem?_eq_getElem h3] at this
    · rintro ⟨hlen, hs, hb⟩
      obtain ⟨g, hg, rfl⟩ := exists_grouped r hs
      set legs := g.map fun p => p.2.length with hlegs
      have hlpos : ∀ x ∈ legs, 1 ≤ x := by
        intro x hx
        obtain ⟨q, hq, rfl⟩ := List.mem_map.1 hx
        exact List.length_pos_iff.2 (hg.micros q hq).1
      have hgb : ∀ p ∈ g, p.1 < sizes.length ∧ ∀ m ∈ p.2, m < sizes.getD p.1 0 := by
        intro p hp
        have hall : ∀ m ∈ p.2, ∃ s, sizes[p.1]? = some s ∧ m < s := fun m hm => hb (p.1, m) (mem_spread.2 ⟨p, hp, rfl, hm⟩)
        constructor
        · obtain ⟨m, hm⟩ := List.exists_mem_of_ne_nil _ (hg.micros p hp).1
          obtain ⟨s, hs, -⟩ := hall m hm
          exact lt_length_of_getElem? hs
        · intro m hm
          obtain ⟨s, hs, hms⟩ := hall m hm
          rw [List.getD_eq_getElem?_getD, hs]; exact hms
      have hperm : legs.Perm (legs.insertionSort (· ≥ ·)) := (List.perm_insertionSort _ _).symm
      refine ⟨legs.insertionSort (· ≥ ·), (hmem _).2 ⟨List.pairwise_insertionSort _ _, ?_, ?_, ?_, ?_⟩, ?_, legs, ?_, ?_⟩
      · intro x hx; exact hlpos x (hperm.mem_iff.2 hx)
      · rw [← hperm.sum_eq, ← length_spread]; omega
      · rw [← hperm.sum_eq, ← length_spread]; omega
      · rw [← hperm.length_eq, hlegs, List.length_map, ← List.length_map (f := Prod.fst)]
        have : (g.map Prod.fst).Sublist (List.range sizes.length) := by
          rw [sublist_range_iff]
          refine ⟨hg.macros, ?_⟩
          intro x hx
          obtain ⟨p, hp, rfl⟩ := List.mem_map.1 hx
          exact (hgb p hp).1
        simpa using this.length_le
      · rw [← hperm.sum_eq, ← length_spread]; exact hlen
      · rw [mem_multisetPerms]; exact hperm
      · rw [mem_halfRows hlpos]; exact ⟨g, hg, rfl, rfl, hgb⟩

example : ((halfCumulant [2, 1, 2] 3).map fun rows => (halfLevel rows 2).length) = .ok 10 ∧
    ((halfCumulant [2, 1, 1] 3).map fun rows => halfLevel rows 3) = .ok
      [[(0, 0), (0, 1), (1, 0)], [(0, 0), (0, 1), (2, 0)], [(0, 0), (1, 0), (2, 0)], [(0, 1), (1, 0), (2, 0)]] := by
  decide +kernel

/-! ### C25 Cumulant contractions are exactly the multi-operator ones -/

theorem legLt_antisymm : Std.Antisymm LegLt := ⟨by
  rintro ⟨a1, a2⟩ ⟨b1, b2⟩ h h'
  simp only [LegLt] at h h'
  omega⟩

/-- All positions (operator, place). -/
def allPos (sizes : List Nat) : List (Nat × Nat) := sizes.zipIdx.flatMap fun s => (List.range s.1).map fun m => (s.2, m)

theorem mem_allPos {sizes : List Nat} {a : Nat × Nat} : a ∈ allPos sizes ↔ ∃ s, sizes[a.1]? = some s ∧ a.2 < s := by
  simp only [allPos, List.mem_flatMap, List.mem_map, List.mem_range]
  constructor
  · rintro ⟨⟨s, i⟩, hs, m, hm, rfl⟩
    rw [List.mem_zipIdx_iff_getElem?] at hs
    exact ⟨s, hs, hm⟩
  · rintro ⟨s, hs, hm⟩
    exact ⟨(s, a.1), List.mem_zipIdx_iff_getElem?.2 hs, a.2, hm, rfl⟩

theorem sorted_allPos (sizes : List Nat) : (allPos sizes).Pairwise LegLt := by
  unfold allPos
  rw [List.pairwise_flatMap]
  constructor
  · rintro ⟨s, i⟩ -
    rw [List.pairwise_map]
    exact List.pairwise_lt_range.imp fun h => Or.inr ⟨rfl, h⟩
  · have h : (sizes.zipIdx.map Prod.snd).Pairwise (· < ·) := by
      rw [List.zipIdx_map_snd, ← List.range_eq_range']; exact List.pairwise_lt_range
    rw [List.pairwise_map] at h
    refine h.imp ?_
    intro a b hab x hx y hy
    obtain ⟨m, _, rfl⟩ := List.mem_map.1 hx
    obtain ⟨m', _, rfl⟩ := List.mem_map.1 hy
    exact Or.inl hab

theorem sublist_allPos_iff {sizes : List Nat} {r : List (Nat × Nat)} :
    r.Sublist (allPos sizes) ↔ r.Pairwise LegLt ∧ ∀ a ∈ r, ∃ s, sizes[a.1]? = some s ∧ a.2 < s := by
  constructor
  · intro h
    exact ⟨(sorted_allPos sizes).sublist h, fun a ha => mem_allPos.1 (h.subset ha)⟩
  · rintro ⟨h1, h2⟩
    haveI := legLt_antisymm
    refine List.sublist_of_subperm_of_pairwise (r := LegLt) ?_ h1 (sorted_allPos sizes)
    refine List.Nodup.subperm (h1.imp ?_) fun x hx => mem_allPos.2 (h2 x hx)
    rintro ⟨a1, a2⟩ _ h rfl
    simp only [LegLt] at h; omega

/-- The label at a position. -/
def posLabel (lists : List (List Index)) (p : Nat × Nat) : Index := ((lists.getD p.1 [])[p.2]?).getD ⟨⟨.g, false⟩, 0⟩

theorem map_allPos (lists : List (List Index)) :
    (allPos (lists.map List.length)).map (fun p => (p.1, posLabel lists p)) =
      lists.zipIdx.flatMap fun l => l.1.map fun i => (l.2, i) := by
  unfold allPos
  rw [List.map_flatMap, List.zipIdx_map, List.flatMap_map]
  refine List.flatMap_congr ?_
  rintro ⟨l, i⟩ hl
  rw [List.mem_zipIdx_iff_getElem?] at hl
  simp only [List.map_map, Prod.map]
  apply List.ext_getElem
  · simp
  · intro n h1 h2
    simp at h1
    simp [posLabel, List.getD_eq_getElem?_getD, hl, h1]

theorem fetchLegs_ok (lists : List (List Index)) (legs : List (Nat × Nat))
    (h : ∀ a ∈ legs, ∃ s, (lists.map List.length)[a.1]? = some s ∧ a.2 < s) :
    fetchLegs lists legs = .ok (legs.map (posLabel lists)) := by
  unfold fetchLegs
  apply mapM_except_ok
  intro a ha
  obtain ⟨s, hs, hm⟩ := h a ha
  rw [List.getElem?_map, Option.map_eq_some_iff] at hs
  obtain ⟨l, hl, rfl⟩ := hs
  simp [posLabel, List.getD_eq_getElem?_getD, hl, hm]

theorem allSame_iff (l : List Nat) : allSame l = true ↔ ∀ x ∈ l, some x = l.head? := by
  cases l with
  | nil => simp [allSame]
  | cons x xs =>
    simp only [allSame, beq_iff_eq, List.count_eq_length, List.head?_cons, Option.some.injEq]
    constructor
    · intro h y hy; exact (h y hy).symm
    · intro h y hy; exact (h y hy).symm

theorem skipCumulant_iff (cre ann : List Nat) (h1 : cre ≠ []) (h2 : ann ≠ []) :
    skipCumulant cre ann = true ↔ ∃ i, ∀ x ∈ cre ++ ann, x = i := by
  obtain ⟨c, cs, rfl⟩ := List.exists_cons_of_ne_nil h1
  obtain ⟨a, as, rfl⟩ := List.exists_cons_of_ne_nil h2
  simp only [skipCumulant, Bool.and_eq_true, allSame_iff, List.head?_cons, Option.some.injEq, beq_iff_eq, List.mem_append]
  constructor
  · rintro ⟨⟨h1, h2⟩, rfl⟩
    refine ⟨c, ?_⟩
    rintro x (hx | hx)
    · exact h1 x hx
    · exact h2 x hx
  · rintro ⟨i, h⟩
    have hc := h c (Or.inl (by simp))
    have ha := h a (Or.inr (by simp))
    subst hc
    exact ⟨⟨fun x hx => h x (Or.inl hx), fun x hx => (h x (Or.inr hx)).trans ha.symm⟩, ha.symm⟩

theorem makeDensity_cumulant (us ls : List Index) (hu : us.Nodup) (hl : ls.Nodup) (hu' : ∀ i ∈ us, i.isBeta = false)
    (hl' : ∀ i ∈ ls, i.isBeta = false) (hlen : us.length = ls.length) :
    makeDensity .cumulant us ls = .ok (density .cumulant us ls) := by
  have e1 : ∀ l : List Index, l.Nodup → (∀ i ∈ l, i.isBeta = false) → Indices.make .spinOrbital l = .ok ⟨.spinOrbital, l⟩ := by
    intro l h1 h2
    unfold Indices.make
    rw [if_neg (not_not.2 h1), if_neg]
    rintro ⟨-, h⟩
    rw [List.any_eq_true] at h
    obtain ⟨i, hi, hb⟩ := h
    rw [h2 i hi] at hb; simp at hb
  have e2 : ∀ l : List Index, (∀ i ∈ l, i.isBeta = false) → Indices.nBeta ⟨.spinOrbital, l⟩ = 0 := by
    intro l h
    simp only [Indices.nBeta, List.countP_eq_zero]
    intro i hi; rw [h i hi]; simp
  unfold makeDensity
  rw [e1 us hu hu', e1 ls hl hl']
  simp [bind, Except.bind, pure, Except.pure, Tensor.make, IndicesPair.make, requireSpinConserving,
    IndicesPair.isSpinConserving, IndicesPair.nUpper, IndicesPair.nLower, Indices.size, hlen, e2 _ hu', e2 _ hl', density]

theorem legs_eq (part : SqOp → Indices) (ops : List SqOp) (h : ∀ op ∈ ops, ∀ i ∈ (part op).list, i.isBeta = false) :
    ((ops.map fun op => activeLike (part op)).zipIdx.flatMap fun l => l.1.map fun i => (l.2, i)) =
      cumulantLegs (fun op => (part op).list) ops := by
  unfold cumulantLegs
  rw [List.zipIdx_map, List.flatMap_map]
  refine List.flatMap_congr ?_
  rintro ⟨op, n⟩ hop
  rw [List.mem_zipIdx_iff_getElem?] at hop
  simp only [Prod.map, activeLike]
  congr 1
  refine List.filter_congr ?_
  intro i hi
  rw [Space.eq_of_not_beta (h op (List.mem_of_getElem? hop) i hi)]
  generalize i.space.kind = k
  revert k; decide

theorem map_inj_on {α β : Type} {f : α → β} {l l' : List α} (h : ∀ a ∈ l, ∀ b ∈ l', f a = f b → a = b)
    (he : l.map f = l'.map f) : l = l' := by
  induction l generalizing l' with
  | nil => cases l' with
    | nil => rfl
    | cons b l' => simp at he
  | cons a l ih => cases l' with
    | nil => simp at he
    | cons b l' =>
      rw [List.map_cons, List.map_cons, List.cons.injEq] at he
      rw [h a (by simp) b (by simp) he.1, ih (fun x hx y hy => h x (by simp [hx]) y (by simp [hy])) he.2]

/-- The dictionary of cumulant contractions of a product whose creation operators, and whose annihilation operators, carry
different labels: one entry per key, no repetition, exactly the cumulants of level 2 to `max_cu` that join at least two
operator strings. -/
theorem C25_cumulants (ops : List SqOp) (hops : ∀ op ∈ ops, SpinOrbitalOp op) (maxCu : Nat)
    (hu : (ops.flatMap fun op => op.upper.list).Nodup) (hl : (ops.flatMap fun op => op.lower.list).Nodup) :
    ∃ d, cumulantContractions ops maxCu = .ok d ∧ (d.map Prod.fst).Nodup ∧ (∀ key ts, (key, ts) ∈ d → ts ≠ [] ∧ ts.Nodup) ∧
      ∀ key t, (∃ ts, (key, ts) ∈ d ∧ t ∈ ts) ↔ CumulantContraction ops maxCu key t := by
  have hlabels : ∀ (part : SqOp → Indices), (ops.flatMap fun op => (part op).list).Nodup →
      ((cumulantLegs (fun op => (part op).list) ops).map Prod.snd).Nodup := by
    intro part h
    refine h.sublist ?_
    unfold cumulantLegs
    rw [List.map_flatMap]
    simp only [List.map_map]
    have : ops.flatMap (fun op => (part op).list) = ops.zipIdx.flatMap fun op => (part op.1).list := by
      conv_lhs => rw [← List.zipIdx_map_fst 0 ops]
      rw [List.flatMap_map]
    rw [this]
    generalize ops.zipIdx = zs
    induction zs with
    | nil => simp
    | cons z zs ih =>
      simp only [List.flatMap_cons]
      refine List.Sublist.append ?_ ih
      have : (Prod.snd ∘ fun i : Index => (z.2, i)) = id := rfl
      rw [this, List.map_id]
      exact List.filter_sublist
  have hub : ∀ op ∈ ops, ∀ i ∈ op.upper.list, i.isBeta = false := fun op hop => (hops op hop).not_beta.1
  have hlb : ∀ op ∈ ops, ∀ i ∈ op.lower.list, i.isBeta = false := fun op hop => (hops op hop).not_beta.2
  have hlegb : ∀ (part : SqOp → Indices), (∀ op ∈ ops, ∀ i ∈ (part op).list, i.isBeta = false) →
      ∀ x ∈ cumulantLegs (fun op => (part op).list) ops, x.2.isBeta = false := by
    intro part h x hx
    simp only [cumulantLegs, List.mem_flatMap, List.mem_map, List.mem_filter] at hx
    obtain ⟨⟨op, n⟩, hop, i, ⟨hi, -⟩, rfl⟩ := hx
    rw [List.mem_zipIdx_iff_getElem?] at hop
    exact h op (List.mem_of_getElem? hop) i hi
  set creLists := ops.map fun op => activeLike op.upper with hcl
  set annLists := ops.map fun op => activeLike op.lower with hal
  obtain ⟨annRows, ha, hann⟩ := C24_half_cumulant (annLists.map List.length) maxCu
  obtain ⟨creRows, hc, hcre⟩ := C24_half_cumulant (creLists.map List.length) maxCu
  have hmapc : (allPos (creLists.map List.length)).map (fun p => (p.1, posLabel creLists p)) =
      cumulantLegs (fun op => op.upper.list) ops := (map_allPos creLists).trans (legs_eq (fun op => op.upper) ops hub)
  have hmapa : (allPos (annLists.map List.length)).map (fun p => (p.1, posLabel annLists p)) =
      cumulantLegs (fun op => op.lower.list) ops := (map_allPos annLists).trans (legs_eq (fun op => op.lower) ops hlb)
  have hlev : ∀ (lists : List (List Index)) (rows : List (Nat × List (Nat × Nat))),
      (∀ k, 2 ≤ k → k ≤ maxCu → (halfLevel rows k).Nodup ∧ ∀ r, r ∈ halfLevel rows k ↔ r.length = k ∧
        r.Pairwise (fun a b => a.1 < b.1 ∨ a.1 = b.1 ∧ a.2 < b.2) ∧ ∀ a ∈ r, ∃ s, (lists.map List.length)[a.1]? = some s ∧ a.2 < s) →
      ∀ k, 2 ≤ k → k ≤ maxCu → ∀ r, r ∈ halfLevel rows k ↔ r.length = k ∧ r.Sublist (allPos (lists.map List.length)) := by
    intro lists rows h k h1 h2 r
    rw [(h k h1 h2).2, sublist_allPos_iff]; rfl
  have hcre' := hlev creLists creRows hcre
  have hann' := hlev annLists annRows hann
  have hpairs : ∀ x, x ∈ cumulantPairs creRows annRows maxCu ↔
      2 ≤ x.1.length ∧ x.1.length ≤ maxCu ∧ x.1.length = x.2.length ∧ x.1.Sublist (allPos (creLists.map List.length)) ∧
      x.2.Sublist (allPos (annLists.map List.length)) ∧ ¬ ∃ i, ∀ y ∈ x.1.map Prod.fst ++ x.2.map Prod.fst, y = i := by
    rintro ⟨c, a⟩
    simp only [cumulantPairs, List.mem_flatMap, List.mem_map, List.mem_filter, mem_natRange]
    constructor
    · rintro ⟨k, hk, c', hc', a', ⟨ha', hskip⟩, h⟩
      simp only [Prod.mk.injEq] at h
      obtain ⟨rfl, rfl⟩ := h
      rw [hcre' k hk.1 (by omega)] at hc'
      rw [hann' k hk.1 (by omega)] at ha'
      refine ⟨by omega, by omega, by omega, hc'.2, ha'.2, ?_⟩
      rw [← skipCumulant_iff]
      · simpa using hskip
      · rw [ne_eq, List.map_eq_nil_iff, ← List.length_eq_zero_iff]; omega
      · rw [ne_eq, List.map_eq_nil_iff, ← List.length_eq_zero_iff]; omega
    · rintro ⟨h1, h2, h3, h4, h5, h6⟩
      refine ⟨c.length, ⟨h1, by omega⟩, c, (hcre' _ h1 h2 c).2 ⟨rfl, h4⟩, a, ⟨(hann' _ h1 h2 a).2 ⟨h3.symm, h5⟩, ?_⟩, rfl⟩
      rw [← skipCumulant_iff] at h6
      · simpa using h6
      · rw [ne_eq, List.map_eq_nil_iff, ← List.length_eq_zero_iff]; omega
      · rw [ne_eq, List.map_eq_nil_iff, ← List.length_eq_zero_iff]; omega
  have hpn : (cumulantPairs creRows annRows maxCu).Nodup := by
    unfold cumulantPairs
    rw [List.nodup_flatMap]
    constructor
    · intro k hk
      rw [mem_natRange] at hk
      rw [List.nodup_flatMap]
      constructor
      · intro c _
        exact List.Nodup.map (fun a b h => by simpa using h) (((hann k hk.1 (by omega)).1).filter _)
      · refine ((hcre k hk.1 (by omega)).1).imp ?_
        intro c c' hcc
        simp only [Function.onFun, List.disjoint_left, List.mem_map]
        rintro x ⟨a, _, rfl⟩ ⟨a', _, h⟩
        simp at h; exact hcc h.1.symm
    · refine List.Pairwise.imp_of_mem ?_ (List.nodup_range' (s := 2) (n := maxCu + 1 - 2))
      intro k k' hk hk' hkk
      have hk1 := (mem_natRange (a := 2) (b := maxCu + 1)).1 hk
      have hk2 := (mem_natRange (a := 2) (b := maxCu + 1)).1 hk'
      simp only [Function.onFun, List.disjoint_left, List.mem_flatMap, List.mem_map]
      rintro x ⟨c, hc', a, _, rfl⟩ ⟨c', hc'', a', _, h⟩
      simp at h
      obtain ⟨rfl, rfl⟩ := h
      rw [hcre' k hk1.1 (by omega)] at hc'
      rw [hcre' k' hk2.1 (by omega)] at hc''
      omega
  -- the labels of a selection
  have hgood : ∀ (lists : List (List Index)) (legs : List (Nat × Index)),
      (allPos (lists.map List.length)).map (fun p => (p.1, posLabel lists p)) = legs → (legs.map Prod.snd).Nodup →
      (∀ x ∈ legs, x.2.isBeta = false) → ∀ r, r.Sublist (allPos (lists.map List.length)) →
      fetchLegs lists r = .ok (r.map (posLabel lists)) ∧ (r.map (posLabel lists)).Nodup ∧
        ∀ i ∈ r.map (posLabel lists), i.isBeta = false := by
    intro lists legs hm hn hb r hr
    have hsub : (r.map (posLabel lists)).Sublist (legs.map Prod.snd) := by
      rw [← hm, List.map_map]
      exact hr.map _
    refine ⟨fetchLegs_ok _ _ fun a ha => mem_allPos.1 (hr.subset ha), hn.sublist hsub, ?_⟩
    intro i hi
    obtain ⟨x, hx, rfl⟩ := List.mem_map.1 (hsub.subset hi)
    exact hb x hx
  have hinj : ∀ (lists : List (List Index)) (legs : List (Nat × Index)),
      (allPos (lists.map List.length)).map (fun p => (p.1, posLabel lists p)) = legs → (legs.map Prod.snd).Nodup →
      ∀ r r' : List (Nat × Nat), r.Sublist (allPos (lists.map List.length)) → r'.Sublist (allPos (lists.map List.length)) →
      r.map (posLabel lists) = r'.map (posLabel lists) → r = r' := by
    intro lists legs hm hn r r' hr hr' h
    have hn' : ((allPos (lists.map List.length)).map (posLabel lists)).Nodup := by
      rw [← hm, List.map_map] at hn; exact hn
    refine map_inj_on ?_ h
    intro a ha b hb hab
    exact List.inj_on_of_nodup_map hn' (hr.subset ha) (hr'.subset hb) hab
  have hevm := mapM_except_ok (fun e : List (Nat × Nat) × List (Nat × Nat) => (do
      let cre ← fetchLegs creLists e.1
      let ann ← fetchLegs annLists e.2
      pure (e.1.map Prod.fst ++ e.2.map Prod.fst, ← makeDensity .cumulant cre ann) : Except PyErr (List Nat × Tensor)))
    (fun e => (e.1.map Prod.fst ++ e.2.map Prod.fst,
      density .cumulant (e.1.map (posLabel creLists)) (e.2.map (posLabel annLists))))
    (cumulantPairs creRows annRows maxCu) (by
      intro x hx
      obtain ⟨h1, h2, h3, h4, h5, -⟩ := (hpairs x).1 hx
      obtain ⟨a1, a2, a3⟩ := hgood creLists _ hmapc (hlabels _ hu) (hlegb _ hub) x.1 h4
      obtain ⟨b1, b2, b3⟩ := hgood annLists _ hmapa (hlabels _ hl) (hlegb _ hlb) x.2 h5
      simp only [a1, b1, bind, Except.bind]
      rw [makeDensity_cumulant _ _ a2 b2 a3 b3 (by simpa using h3)]
      rfl)
  generalize hev : (cumulantPairs creRows annRows maxCu).map (fun e => (e.1.map Prod.fst ++ e.2.map Prod.fst,
      density .cumulant (e.1.map (posLabel creLists)) (e.2.map (posLabel annLists)))) = ev at hevm
  have hevn : ev.Nodup := by
    rw [← hev]
    refine List.Nodup.map_on ?_ hpn
    rintro ⟨c, a⟩ hx ⟨c', a'⟩ hx' h
    obtain ⟨-, -, -, h4, h5, -⟩ := (hpairs _).1 hx
    obtain ⟨-, -, -, h4', h5', -⟩ := (hpairs _).1 hx'
    simp only [Prod.mk.injEq, density, Tensor.mk.injEq, IndicesPair.mk.injEq, Indices.mk.injEq] at h
    simp only [Prod.mk.injEq]
    exact ⟨hinj creLists _ hmapc (hlabels _ hu) _ _ h4 h4' h.2.2.2.2.1.2,
      hinj annLists _ hmapa (hlabels _ hl) _ _ h5 h5' h.2.2.2.2.2.2⟩
  refine ⟨dictCollect ev, ?_, nodup_keys_dictCollect ev, ?_, ?_⟩
  · unfold cumulantContractions
    simp only [← hcl, ← hal, ha, hc, bind, Except.bind]
    simp only [bind, Except.bind] at hevm
    rw [hevm]; rfl
  · intro key ts hts
    refine ⟨dictCollect_ne_nil ev _ hts, ?_⟩
    rw [← dictGet_of_mem (nodup_keys_dictCollect ev) hts, dictGet_dictCollect]
    refine List.Nodup.map_on ?_ (hevn.filter _)
    rintro ⟨k, t⟩ hx ⟨k', t'⟩ hx' rfl
    simp at hx hx'
    rw [hx.2, hx'.2]
  · intro key t
    rw [exists_mem_dictCollect, ← hev, List.mem_map]
    constructor
    · rintro ⟨⟨c, a⟩, hx, h⟩
      obtain ⟨h1, h2, h3, h4, h5, h6⟩ := (hpairs _).1 hx
      simp only [Prod.mk.injEq] at h
      refine ⟨c.map fun p => (p.1, posLabel creLists p), a.map fun p => (p.1, posLabel annLists p), ?_, ?_, by simpa using h3,
        by simpa using h1, by simpa using h2, ?_, ?_, ?_⟩
      · rw [← hmapc]; exact h4.map _
      · rw [← hmapa]; exact h5.map _
      · rintro ⟨i, hi⟩
        refine h6 ⟨i, ?_⟩
        intro y hy
        rw [List.mem_append, List.mem_map, List.mem_map] at hy
        rcases hy with ⟨p, hp, rfl⟩ | ⟨p, hp, rfl⟩
        · exact hi (p.1, posLabel creLists p) (List.mem_append_left _ (List.mem_map.2 ⟨p, hp, rfl⟩))
        · exact hi (p.1, posLabel annLists p) (List.mem_append_right _ (List.mem_map.2 ⟨p, hp, rfl⟩))
      · rw [← h.1, List.map_map, List.map_map]; rfl
      · rw [← h.2, List.map_map, List.map_map]; rfl
    · rintro ⟨cre, ann, h1, h2, h3, h4, h5, h6, rfl, rfl⟩
      rw [← hmapc, List.sublist_map_iff] at h1
      rw [← hmapa, List.sublist_map_iff] at h2
      obtain ⟨c, hc1, rfl⟩ := h1
      obtain ⟨a, ha1, rfl⟩ := h2
      refine ⟨(c, a), (hpairs _).2 ⟨by simpa using h4, by simpa using h5, by simpa using h3, hc1, ha1, ?_⟩, ?_⟩
      · rintro ⟨i, hi⟩
        refine h6 ⟨i, ?_⟩
        intro x hx
        rw [List.mem_append, List.mem_map, List.mem_map] at hx
        rcases hx with ⟨p, hp, rfl⟩ | ⟨p, hp, rfl⟩
        · exact hi p.1 (List.mem_append_left _ (List.mem_map.2 ⟨p, hp, rfl⟩))
        · exact hi p.1 (List.mem_append_right _ (List.mem_map.2 ⟨p, hp, rfl⟩))
      · simp only [List.map_map, Prod.mk.injEq]; exact ⟨rfl, rfl⟩

/-- The complete dictionary for a product whose creation operators, and whose annihilation operators, carry different
labels: pair contractions together with the cumulants up to the level `check_max_cu` allows. -/
theorem C25_categorized (ops : List SqOp) (hops : ∀ op ∈ ops, SpinOrbitalOp op) (maxCu : Int)
    (hu : (ops.flatMap fun op => op.upper.list).Nodup) (hl : (ops.flatMap fun op => op.lower.list).Nodup) :
    ∃ d, elementaryCategorized ops maxCu = .ok d ∧ (d.map Prod.fst).Nodup ∧ (∀ key ts, (key, ts) ∈ d → ts ≠ [] ∧ ts.Nodup) ∧
      ∀ key t, (∃ ts, (key, ts) ∈ d ∧ t ∈ ts) ↔
        PairContraction ops key t ∨ CumulantContraction ops (checkMaxCu ops maxCu).toNat key t := by
  obtain ⟨d1, e1, n1, v1, m1⟩ := C23_pairwise ops hops
  obtain ⟨d2, e2, n2, v2, m2⟩ := C25_cumulants ops hops (checkMaxCu ops maxCu).toNat hu hl
  have hso : requireSpinOrbital ops = .ok () := by
    unfold requireSpinOrbital
    rw [if_pos]
    rw [List.all_eq_true]
    intro op hop; simpa using (hops op hop).1
  have hk1 : ∀ k ∈ d1.map Prod.fst, k.length = 2 := by
    intro k hk
    obtain ⟨⟨k', ts⟩, hmem, rfl⟩ := List.mem_map.1 hk
    obtain ⟨t, ht⟩ := List.exists_mem_of_ne_nil _ (v1 _ _ hmem).1
    obtain ⟨i, j, _, _, _, _, _, ⟨_, _, _, _, _, h, _⟩ | ⟨_, _, _, _, _, h, _⟩⟩ := (m1 k' t).1 ⟨ts, hmem, ht⟩ <;> simp [h]
  have hk2 : ∀ k ∈ d2.map Prod.fst, 4 ≤ k.length := by
    intro k hk
    obtain ⟨⟨k', ts⟩, hmem, rfl⟩ := List.mem_map.1 hk
    obtain ⟨t, ht⟩ := List.exists_mem_of_ne_nil _ (v2 _ _ hmem).1
    obtain ⟨c, a, -, -, h3, h4, -, -, h, -⟩ := (m2 k' t).1 ⟨ts, hmem, ht⟩
    simp [h]; omega
  unfold elementaryCategorized
  simp only [hso, e1, bind, Except.bind]
  by_cases hlt : checkMaxCu ops maxCu < 2
  · rw [if_pos hlt]
    refine ⟨d1, rfl, n1, v1, ?_⟩
    intro key t
    rw [m1]
    constructor
    · exact Or.inl
    · rintro (h | ⟨c, a, -, -, h3, h4, h5, -⟩)
      · exact h
      · omega
  · rw [if_neg hlt, e2]
    have hdis : dictUpdate d1 d2 = d1 ++ d2 := dictUpdate_of_disjoint d1 d2 n2 (by
      intro k h2 h1
      have := hk1 k h1
      have := hk2 k h2
      omega)
    refine ⟨d1 ++ d2, by simp only [hdis]; rfl, ?_, ?_, ?_⟩
    · rw [List.map_append, List.nodup_append]
      refine ⟨n1, n2, ?_⟩
      rintro a ha b hb rfl
      have := hk1 a ha
      have := hk2 a hb
      omega
    · intro key ts h
      rw [List.mem_append] at h
      rcases h with h | h
      · exact v1 _ _ h
      · exact v2 _ _ h
    · intro key t
      rw [← m1, ← m2]
      constructor
      · rintro ⟨ts, h, ht⟩
        rw [List.mem_append] at h
        rcases h with h | h
        · exact Or.inl ⟨ts, h, ht⟩
        · exact Or.inr ⟨ts, h, ht⟩
      · rintro (⟨ts, h, ht⟩ | ⟨ts, h, ht⟩)
        · exact ⟨ts, List.mem_append_left _ h, ht⟩
        · exact ⟨ts, List.mem_append_right _ h, ht⟩

example : (∀ op ∈ [exOp, exOp'], SpinOrbitalOp op) ∧ ([exOp, exOp'].flatMap fun op => op.upper.list).Nodup ∧
    ([exOp, exOp'].flatMap fun op => op.lower.list).Nodup ∧
    ((elementaryCategorized [exOp, exOp'] 3).map fun d => d.map fun e => (e.1, e.2.length)) =
      .ok [([0, 1], 3), ([1, 0], 4), ([0, 0, 0, 1], 1), ([1, 1, 0, 1], 1), ([0, 1, 0, 1], 4)] := by
  decide +kernel

end Dsrg
