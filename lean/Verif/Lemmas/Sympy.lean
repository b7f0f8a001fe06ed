import Verif.Lemmas.Refill
import Mathlib.Data.List.SplitBy

/-!
Helper lemmas for `canonicalize_sympy`: the entries handed to SymPy, the names of the slots, and the invariance of the value along
the symmetries of the contract.
-/

namespace Dsrg

/-! ### Groups of equal tensors -/

theorem chain_head_rel {α : Type} {r : α → α → Prop} (htr : ∀ a b c, r a b → r b c → r a c) (hrefl : ∀ a, r a a) :
    ∀ (l : List α), l.IsChain r → ∀ a ∈ l.head?, ∀ b ∈ l, r a b := by
  intro l
  induction l with
  | nil => intro _ a ha; simp at ha
  | cons x l ih =>
    intro h a ha b hb
    simp at ha; subst ha
    rcases List.mem_cons.1 hb with rfl | hb
    · exact hrefl _
    · cases l with
      | nil => simp at hb
      | cons y l =>
        rw [List.isChain_cons_cons] at h
        exact htr _ _ _ h.1 (ih h.2 y (by simp) b hb)

theorem splitBy_head_rel {α : Type} {p : α → α → Bool} (htr : ∀ a b c, p a b = true → p b c = true → p a c = true)
    (hrefl : ∀ a, p a a = true) {l g : List α} (hg : g ∈ l.splitBy p) : ∀ a ∈ g.head?, ∀ b ∈ g, p a b = true :=
  chain_head_rel htr hrefl g (List.isChain_of_mem_splitBy hg)

theorem tensorGroups_head {ts g : List Tensor} (hg : g ∈ tensorGroups ts) {a b : Tensor} (ha : a ∈ g.head?) (hb : b ∈ g) :
    a.name = b.name ∧ a.pair.nLower = b.pair.nLower := by
  have := splitBy_head_rel (p := fun a b : Tensor => decide (a.name = b.name ∧ a.pair.nLower = b.pair.nLower))
    (by
      intro a b c h1 h2
      simp only [decide_eq_true_eq] at *
      exact ⟨h1.1.trans h2.1, h1.2.trans h2.2⟩)
    (by simp) hg a ha b hb
  simpa using this

theorem spaceGroups_head {l g : List Index} (hg : g ∈ spaceGroups l) {a b : Index} (ha : a ∈ g.head?) (hb : b ∈ g) : a.space = b.space := by
  have := splitBy_head_rel (p := fun a b : Index => decide (a.space = b.space))
    (by
      intro a b c h1 h2
      simp only [decide_eq_true_eq] at *
      exact h1.trans h2)
    (by simp) hg a ha b hb
  simpa using this

/-- Two members of one range belong to labels of the same space. -/
theorem dummyRanges_space (groups : List (List Index)) (hgr : ∀ g ∈ groups, ∀ a ∈ g, ∀ b ∈ g, a.space = b.space) :
    ∀ (pre : List Index) (d : Nat × Nat), d ∈ dummyRanges pre.length groups → ∀ i j, d.1 ≤ 2 * i → 2 * i + 1 < d.2 → d.1 ≤ 2 * j →
      2 * j + 1 < d.2 → ∃ (hi : i < (pre ++ groups.flatten).length) (hj : j < (pre ++ groups.flatten).length),
        (pre ++ groups.flatten)[i].space = (pre ++ groups.flatten)[j].space := by
  induction groups with
  | nil => intro pre d hd; simp [dummyRanges] at hd
  | cons g groups ih =>
    intro pre d hd i j h1 h2 h3 h4
    rw [dummyRanges, List.mem_cons] at hd
    rcases hd with rfl | hd
    · simp only [] at h1 h2 h3 h4
      have hi : i < (pre ++ (g :: groups).flatten).length := by simp; omega
      have hj : j < (pre ++ (g :: groups).flatten).length := by simp; omega
      refine ⟨hi, hj, ?_⟩
      have key : ∀ m (hm : m < (pre ++ (g :: groups).flatten).length), pre.length ≤ m → m < pre.length + g.length →
          (pre ++ (g :: groups).flatten)[m] ∈ g := by
        intro m hm h5 h6
        rw [List.getElem_append_right h5]
        simp only [List.flatten_cons]
        rw [List.getElem_append_left (by omega)]
        exact List.getElem_mem _
      exact hgr g (by simp) _ (key i hi (by omega) (by omega)) _ (key j hj (by omega) (by omega))
    · have := ih (fun g' hg' => hgr g' (by simp [hg'])) (pre ++ g) d (by rw [List.length_append]; exact hd) i j h1 h2 h3 h4
      simpa [List.append_assoc] using this

theorem dummy_space {D : List Index} {d : Nat × Nat} (hd : d ∈ dummyRanges 0 (spaceGroups D)) {i j : Nat} (h1 : d.1 ≤ 2 * i)
    (h2 : 2 * i + 1 < d.2) (h3 : d.1 ≤ 2 * j) (h4 : 2 * j + 1 < d.2) :
    ∃ (hi : i < D.length) (hj : j < D.length), D[i].space = D[j].space := by
  have := dummyRanges_space (spaceGroups D) (by
    intro g hg a ha b hb
    cases hgg : g.head? with
    | none => rw [List.head?_eq_none_iff] at hgg; subst hgg; simp at ha
    | some c => exact (spaceGroups_head hg (a := c) (by simp [hgg]) ha).symm.trans (spaceGroups_head hg (by simp [hgg]) hb))
    [] d hd i j h1 h2 h3 h4
  have e : (spaceGroups D).flatten = D := List.flatten_splitBy _ _
  simp only [List.nil_append, e] at this
  exact this

theorem slotCount_const {g : List Tensor} {m : Nat} (h : ∀ t ∈ g, t.pair.size = m) : slotCount g = g.length * m := by
  induction g with
  | nil => simp [slotCount]
  | cons t g ih =>
    rw [slotCount_cons, h t (by simp), ih fun t ht => h t (by simp [ht])]
    simp [Nat.add_mul, Nat.add_comm]

theorem groupEntry_ok {hermitian : Bool} {grp : List Tensor} {e : SlotGroup} (h : groupEntry hermitian grp = .ok e) :
    ∃ t rest, grp = t :: rest ∧ t.pair.bsgs hermitian false = .ok e.gens ∧ e.size = t.pair.size ∧ e.count = grp.length := by
  unfold groupEntry at h
  cases grp with
  | nil => simp at h
  | cons t rest =>
    simp only [bind, Except.bind] at h
    cases hb : t.pair.bsgs hermitian false with
    | error e => rw [hb] at h; simp at h
    | ok gens =>
      rw [hb] at h
      simp only [pure, Except.pure, Except.ok.injEq] at h
      subst h
      exact ⟨t, rest, rfl, hb, rfl, rfl⟩

theorem groups_size {hermitian : Bool} : ∀ (gs : List (List Tensor)) (v : List SlotGroup),
    List.Forall₂ (fun g e => groupEntry hermitian g = .ok e) gs v → (∀ g ∈ gs, ∀ a ∈ g.head?, ∀ b ∈ g, a.pair.size = b.pair.size) →
    (v.map fun e => e.count * e.size).sum = slotCount gs.flatten := by
  intro gs v h
  induction h with
  | nil => intro _; simp [slotCount]
  | @cons g e gs v hge hgv ih =>
    intro hs
    rw [List.map_cons, List.sum_cons, ih fun g hg => hs g (by simp [hg]), List.flatten_cons, slotCount_append]
    congr 1
    obtain ⟨t, rest, hg, -, h2, h3⟩ := groupEntry_ok hge
    rw [slotCount_const (m := t.pair.size) fun b hb => (hs g (by simp) t (by simp [hg]) b hb).symm, h2, h3]

theorem forall₂_split {α β : Type} {r : α → β → Prop} {l : List α} {v₁ v₂ : List β} {e : β} (h : List.Forall₂ r l (v₁ ++ e :: v₂)) :
    ∃ l₁ a l₂, l = l₁ ++ a :: l₂ ∧ List.Forall₂ r l₁ v₁ ∧ r a e ∧ List.Forall₂ r l₂ v₂ := by
  induction v₁ generalizing l with
  | nil =>
    rw [List.nil_append, List.forall₂_cons_right_iff] at h
    obtain ⟨a, l', h1, h2, rfl⟩ := h
    exact ⟨[], a, l', rfl, .nil, h1, h2⟩
  | cons b v₁ ih =>
    rw [List.cons_append, List.forall₂_cons_right_iff] at h
    obtain ⟨a, l', h1, h2, rfl⟩ := h
    obtain ⟨l₁, a', l₂, rfl, k1, k2, k3⟩ := ih h2
    exact ⟨a :: l₁, a', l₂, rfl, .cons h1 k1, k2, k3⟩

/-- The operator has an entry of its own. -/
def OpEntry (op : SqOp) (e : SlotGroup) (k off : Nat) : Prop :=
  op.size ≠ 0 ∧ off = 0 ∧ k = 0 ∧ e.count = 1 ∧ e.size = op.size ∧ op.opBsgs = .ok e.gens

/-- Tensor number `k` of an entry. -/
def TensorEntry (ts : List Tensor) (op : SqOp) (hermitian : Bool) (e : SlotGroup) (k off : Nat) : Prop :=
  ∃ ts₁ t ts₂ t₀, ts = ts₁ ++ t :: ts₂ ∧ off = op.size + slotCount ts₁ ∧ e.size = t.pair.size ∧ t₀ ∈ ts ∧
    t₀.pair.bsgs hermitian false = .ok e.gens ∧ t₀.pair.nLower = t.pair.nLower ∧
    (k + 1 < e.count → ∃ t' ts₃, ts₂ = t' :: ts₃ ∧ t'.name = t.name ∧ t'.pair.nLower = t.pair.nLower)

theorem nBody_ok {x : IndicesPair} {n : Nat} (h : x.nBody = .ok n) : x.nUpper = x.nLower := by
  unfold IndicesPair.nBody at h
  split_ifs at h with h1
  exact (not_not.1 h1).symm

theorem bsgsList_ok {ts : List Tensor} {op : SqOp} {hermitian : Bool} {v : List SlotGroup} (h : bsgsList ts op hermitian = .ok v) :
    (∀ t ∈ ts, t.pair.nUpper = t.pair.nLower) ∧ ∃ rest, List.Forall₂ (fun g e => groupEntry hermitian g = .ok e) (tensorGroups ts) rest ∧
      ((op.size = 0 ∧ v = rest) ∨ (op.size ≠ 0 ∧ ∃ gens, op.opBsgs = .ok gens ∧ v = ⟨gens, op.size, 1⟩ :: rest)) := by
  unfold bsgsList at h
  have key : ∀ first : List SlotGroup, ((ts.mapM fun t => t.pair.nBody) >>= fun _ => (tensorGroups ts).mapM (groupEntry hermitian) >>=
        fun rest => pure (first ++ rest)) = .ok v →
      (∀ t ∈ ts, t.pair.nUpper = t.pair.nLower) ∧ ∃ rest, List.Forall₂ (fun g e => groupEntry hermitian g = .ok e) (tensorGroups ts) rest ∧
        v = first ++ rest := by
    intro first h
    simp only [bind, Except.bind, pure, Except.pure] at h
    cases hb : ts.mapM fun t => t.pair.nBody with
    | error e => rw [hb] at h; simp at h
    | ok ns =>
      rw [hb] at h
      simp only [] at h
      cases hg : (tensorGroups ts).mapM (groupEntry hermitian) with
      | error e => rw [hg] at h; simp at h
      | ok rest =>
        rw [hg] at h
        simp only [Except.ok.injEq] at h
        refine ⟨?_, rest, mapM_ok_forall₂.1 hg, h.symm⟩
        intro t ht
        obtain ⟨hl, hh⟩ := List.forall₂_iff_get.1 (mapM_ok_forall₂.1 hb)
        obtain ⟨i, hi, rfl⟩ := List.mem_iff_getElem.1 ht
        exact nBody_ok (hh i hi (by omega))
  by_cases h0 : op.size = 0
  · rw [if_pos h0, pure_bind] at h
    obtain ⟨h1, rest, h2, h3⟩ := key [] h
    exact ⟨h1, rest, h2, Or.inl ⟨h0, by simpa using h3⟩⟩
  · rw [if_neg h0] at h
    cases hg : op.opBsgs with
    | error e => rw [hg] at h; simp [bind, Except.bind] at h
    | ok gens =>
      rw [hg] at h
      obtain ⟨h1, rest, h2, h3⟩ := key [⟨gens, op.size, 1⟩] h
      exact ⟨h1, rest, h2, Or.inr ⟨h0, gens, rfl, by simpa using h3⟩⟩

/-- Every entry stands for the operator or for a tensor, at the right slots. -/
theorem entry_cases {ts : List Tensor} {op : SqOp} {hermitian : Bool} {v : List SlotGroup} (h : bsgsList ts op hermitian = .ok v)
    {e : SlotGroup} {k off : Nat} (hat : e.At v k off) : OpEntry op e k off ∨ TensorEntry ts op hermitian e k off := by
  obtain ⟨hbal, rest, hrest, hv⟩ := bsgsList_ok h
  have hflat : (tensorGroups ts).flatten = ts := List.flatten_splitBy _ _
  have hsize : ∀ g ∈ tensorGroups ts, ∀ a ∈ g.head?, ∀ b ∈ g, a.pair.size = b.pair.size := by
    intro g hg a ha b hb
    have h1 := (tensorGroups_head hg ha hb).2
    have hmem : ∀ x ∈ g, x ∈ ts := by
      intro x hx; rw [← hflat]; exact List.mem_flatten.2 ⟨g, hg, hx⟩
    have h2 := hbal a (hmem a (List.mem_of_mem_head? ha))
    have h3 := hbal b (hmem b hb)
    unfold IndicesPair.size; omega
  have tensorCase : ∀ v₁ v₂, rest = v₁ ++ e :: v₂ → k < e.count → off = op.size + (v₁.map fun e => e.count * e.size).sum + k * e.size →
      TensorEntry ts op hermitian e k off := by
    intro v₁ v₂ hr hk ho
    subst hr
    obtain ⟨gs₁, g, gs₂, hgs, f1, f2, -⟩ := forall₂_split hrest
    obtain ⟨t₀, rst, hg, hgens, hes, hec⟩ := groupEntry_ok f2
    have hgm : g ∈ tensorGroups ts := by rw [hgs]; simp
    rw [hec] at hk
    have hts : ts = (gs₁.flatten ++ g.take k) ++ g[k] :: (g.drop (k + 1) ++ gs₂.flatten) := by
      rw [← hflat, hgs, List.flatten_append, List.flatten_cons]
      have e : g = g.take k ++ g[k] :: g.drop (k + 1) := by
        rw [← List.drop_eq_getElem_cons hk, List.take_append_drop]
      calc gs₁.flatten ++ (g ++ gs₂.flatten) = gs₁.flatten ++ ((g.take k ++ g[k] :: g.drop (k + 1)) ++ gs₂.flatten) := by rw [← e]
        _ = _ := by simp only [List.append_assoc, List.cons_append]
    have hall : ∀ b ∈ g, t₀.pair.size = b.pair.size := fun b hb => hsize g hgm t₀ (by simp [hg]) b hb
    have hall' : ∀ b ∈ g, t₀.name = b.name ∧ t₀.pair.nLower = b.pair.nLower := fun b hb => tensorGroups_head hgm (by simp [hg]) hb
    refine ⟨gs₁.flatten ++ g.take k, g[k], g.drop (k + 1) ++ gs₂.flatten, t₀, hts, ?_, ?_, ?_, hgens, ?_, ?_⟩
    · rw [ho, slotCount_append, groups_size gs₁ v₁ f1 (fun g hg => hsize g (by rw [hgs]; simp [hg]))]
      rw [slotCount_const (m := t₀.pair.size) fun b hb => (hall b (List.mem_of_mem_take hb)).symm, List.length_take, hes]
      rw [Nat.min_eq_left hk.le]; omega
    · rw [hes]; exact hall _ (List.getElem_mem _)
    · rw [← hflat, hgs]; simp [hg]
    · exact (hall' _ (List.getElem_mem _)).2
    · intro hk1
      rw [hec] at hk1
      refine ⟨g[k + 1], g.drop (k + 1 + 1) ++ gs₂.flatten, ?_, ?_, ?_⟩
      · rw [List.drop_eq_getElem_cons hk1, List.cons_append]
      · rw [← (hall' _ (List.getElem_mem hk1)).1, ← (hall' _ (List.getElem_mem hk)).1]
      · rw [← (hall' _ (List.getElem_mem hk1)).2, ← (hall' _ (List.getElem_mem hk)).2]
  obtain ⟨v₁, v₂, hvv, hk, ho⟩ := hat
  rcases hv with ⟨h0, rfl⟩ | ⟨h0, gens, hgens, rfl⟩
  · right
    exact tensorCase v₁ v₂ hvv hk (by rw [ho, h0]; omega)
  · cases v₁ with
    | nil =>
      left
      simp at hvv
      obtain ⟨h1, h2⟩ := hvv
      subst h1
      simp only [] at hk ho
      have hk0 : k = 0 := by omega
      subst hk0
      exact ⟨h0, by simpa using ho, rfl, rfl, rfl, hgens⟩
    | cons e' v₁ =>
      right
      simp only [List.cons_append, List.cons.injEq] at hvv
      obtain ⟨rfl, hvv⟩ := hvv
      exact tensorCase v₁ v₂ hvv hk (by rw [ho]; simp)

/-! ### Names of the slots -/

theorem slotNames_spec {ρ : Index → Except PyErr Index} {f : Index → Index} (hρ : Realizes ρ f) : ∀ (L : List Index) (tr : Index → Nat)
    (names : List Nat), slotNames ρ tr L = .ok names → names.length = L.length ∧
      (∀ m j, j < (L.map f).count m → ∃ p, ∃ (h1 : p < L.length) (h2 : p < names.length), f L[p] = m ∧ names[p] = tr m + j) ∧
      (∀ p (h1 : p < L.length) (h2 : p < names.length), ∃ j < (L.map f).count (f L[p]), names[p] = tr (f L[p]) + j) := by
  intro L
  induction L with
  | nil =>
    intro tr names h
    simp only [slotNames, Except.ok.injEq] at h
    subst h; simp
  | cons i L ih =>
    intro tr names h
    rw [slotNames] at h
    simp only [bind, Except.bind] at h
    cases hi : ρ i with
    | error e => rw [hi] at h; simp at h
    | ok m₀ =>
    rw [hi] at h
    simp only [] at h
    have hm₀ := hρ _ _ hi
    subst hm₀
    cases hr : slotNames ρ (Function.update tr (f i) (tr (f i) + 1)) L with
    | error e => rw [hr] at h; simp at h
    | ok rest =>
    rw [hr] at h
    simp only [pure, Except.pure, Except.ok.injEq] at h
    subst h
    obtain ⟨h1, h2, h3⟩ := ih _ _ hr
    refine ⟨by simp [h1], ?_, ?_⟩
    · intro m j hj
      rw [List.map_cons, List.count_cons] at hj
      by_cases hm : f i = m
      · subst hm
        cases j with
        | zero => exact ⟨0, by simp, by simp, by simp, by simp⟩
        | succ j =>
          obtain ⟨p, q1, q2, q3, q4⟩ := h2 (f i) j (by simpa using hj)
          refine ⟨p + 1, by simpa using q1, by simpa using q2, by simpa using q3, ?_⟩
          simp only [List.getElem_cons_succ, q4, Function.update_self]; omega
      · obtain ⟨p, q1, q2, q3, q4⟩ := h2 m j (by simpa [hm] using hj)
        refine ⟨p + 1, by simpa using q1, by simpa using q2, by simpa using q3, ?_⟩
        simp only [List.getElem_cons_succ, q4, Function.update_of_ne (Ne.symm hm)]
    · intro p q1 q2
      cases p with
      | zero => exact ⟨0, by simp, by simp⟩
      | succ p =>
        simp only [List.getElem_cons_succ]
        obtain ⟨j, hj, e⟩ := h3 p (by simpa using q1) (by simpa using q2)
        rw [List.map_cons, List.count_cons]
        by_cases hm : f i = f (L[p]'(by simpa using q1))
        · rw [← hm] at hj e ⊢
          rw [Function.update_self] at e
          exact ⟨j + 1, by simpa using hj, by omega⟩
        · rw [Function.update_of_ne (Ne.symm hm)] at e
          exact ⟨j, by simpa [hm] using hj, e⟩

/-- The label of a name. -/
def look (D : List Index) (n : Nat) : Index := D.getD (n / 2) ⟨⟨.g, false⟩, 0⟩

/-- When the names form a permutation and are all in range, they decode to the new labels. -/
theorem slotNames_look {ρ : Index → Except PyErr Index} {f : Index → Index} (hρ : Realizes ρ f) {D L : List Index} {names : List Nat}
    (hDn : D.Nodup) (hD : ∀ m, m ∈ D ↔ m ∈ L.map f) (h : slotNames ρ (fun m => 2 * D.idxOf m) L = .ok names) (hn : names.Nodup)
    (hr : ∀ n ∈ names, n < 2 * D.length) : names.map (look D) = L.map f := by
  obtain ⟨h1, h2, h3⟩ := slotNames_spec hρ L _ _ h
  have hcount : ∀ m, (L.map f).count m ≤ 2 := by
    intro m
    by_contra hc
    obtain ⟨p, p1, p2, p3, p4⟩ := h2 m 2 (by omega)
    have hlt := hr _ (List.getElem_mem p2)
    rw [p4] at hlt
    have hidx : D.idxOf m + 1 < D.length := by omega
    have hm' : D[D.idxOf m + 1] ∈ L.map f := (hD _).1 (List.getElem_mem _)
    obtain ⟨q, q1, q2, q3, q4⟩ := h2 _ 0 (List.count_pos_iff.2 hm')
    rw [hDn.idxOf_getElem] at q4
    have hpq : p = q := (List.Nodup.getElem_inj_iff hn (hi := p2) (hj := q2)).1 (by rw [p4, q4]; omega)
    subst hpq
    rw [p3] at q3
    have := congrArg D.idxOf q3
    rw [hDn.idxOf_getElem] at this
    omega
  apply List.ext_getElem
  · simp [h1]
  · intro p p1 p2
    have p1' : p < names.length := by simpa using p1
    have p2' : p < L.length := by simpa using p2
    obtain ⟨j, hj, e⟩ := h3 p p2' p1'
    have hj2 : j < 2 := lt_of_lt_of_le hj (hcount _)
    have hmem : f L[p] ∈ D := (hD _).2 (List.mem_map_of_mem (List.getElem_mem _))
    have hlt : D.idxOf (f L[p]) < D.length := List.idxOf_lt_length_of_mem hmem
    rw [List.getElem_map, List.getElem_map, e, look]
    have : (2 * D.idxOf (f L[p]) + j) / 2 = D.idxOf (f L[p]) := by omega
    rw [this, List.getD_eq_getElem?_getD, List.getElem?_eq_getElem hlt, Option.getD_some, List.getElem_idxOf]

end Dsrg
