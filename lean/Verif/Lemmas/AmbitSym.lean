import Verif.Lemmas.AmbitEffect
import Verif.Lemmas.Canonical

/-!
The array filled by the generated code: its operator and its antisymmetry.
-/

namespace Dsrg

/-- Exchanging two entries at any distance. -/
theorem swap_far {ι N : Type} [AddCommGroup N] {F : List ι → N} (hF : ∀ pre a b post, F (pre ++ b :: a :: post) = - F (pre ++ a :: b :: post))
    (p m q : List ι) (a b : ι) : F (p ++ b :: (m ++ a :: q)) = - F (p ++ a :: (m ++ b :: q)) := by
  induction m generalizing p with
  | nil => exact hF p a b q
  | cons c m ih =>
    have h1 : F (p ++ b :: (c :: m ++ a :: q)) = - F (p ++ c :: b :: (m ++ a :: q)) := hF p c b _
    have h2 : F (p ++ c :: b :: (m ++ a :: q)) = - F (p ++ c :: a :: (m ++ b :: q)) := by
      simpa using ih (p ++ [c])
    have h3 : F (p ++ c :: a :: (m ++ b :: q)) = - F (p ++ a :: c :: (m ++ b :: q)) := hF p a c _
    rw [h1, h2, h3, neg_neg]; rfl

/-- Exchanging two labels of a list without repeats. -/
theorem map_swap_fn {ι O N : Type} [DecidableEq ι] [AddCommGroup N] {F : List O → N}
    (hF : ∀ pre a b post, F (pre ++ b :: a :: post) = - F (pre ++ a :: b :: post)) {l : List ι} (hn : l.Nodup) {a b : ι} (ha : a ∈ l)
    (hb : b ∈ l) (hab : a ≠ b) (σ : ι → O) : F (l.map fun i => σ (Equiv.swap a b i)) = - F (l.map σ) := by
  have key : ∀ a b : ι, (∃ p m q, l = p ++ a :: (m ++ b :: q)) → F (l.map fun i => σ (Equiv.swap a b i)) = - F (l.map σ) := by
    rintro a b ⟨p, m, q, rfl⟩
    have hkeep : ∀ r : List ι, (∀ i ∈ r, i ≠ a ∧ i ≠ b) → r.map (fun i => σ (Equiv.swap a b i)) = r.map σ := by
      intro r hr
      exact List.map_congr_left fun i hi => by rw [Equiv.swap_apply_of_ne_of_ne (hr i hi).1 (hr i hi).2]
    rw [List.nodup_append, List.nodup_cons, List.nodup_append, List.nodup_cons] at hn
    obtain ⟨-, ⟨n1, -, ⟨n2, -⟩, n3⟩, n4⟩ := hn
    have hp := hkeep p fun i hi => ⟨n4 i hi a (by simp), n4 i hi b (by simp)⟩
    have hm := hkeep m fun i hi => ⟨fun h => n1 (h ▸ List.mem_append_left _ hi), n3 i hi b (by simp)⟩
    have hq := hkeep q fun i hi => ⟨fun h => n1 (h ▸ by simp [hi]), fun h => n2 (h ▸ hi)⟩
    simp only [List.map_append, List.map_cons, Equiv.swap_apply_left, Equiv.swap_apply_right, hp, hm, hq]
    exact swap_far hF _ _ _ _ _
  obtain ⟨p, r, rfl⟩ := List.append_of_mem ha
  rcases List.mem_append.1 hb with h | h
  · obtain ⟨p', m, rfl⟩ := List.append_of_mem h
    rw [Equiv.swap_comm]
    exact key b a ⟨p', m, r, by simp⟩
  · rcases List.mem_cons.1 h with h | h
    · exact absurd h.symm hab
    · obtain ⟨m, q, rfl⟩ := List.append_of_mem h
      exact key a b ⟨p, m, q, rfl⟩

section
variable {O R M : Type} [Fintype O] [DecidableEq O] [Inhabited O] [CommRing R] [Algebra ℚ R] [AddCommGroup M] [Module R M]

/-- Exchanging two labels on one side of one factor. -/
theorem pval_swap {I : Interp O R M} (hI : I.Antisymmetric) {ts : List Tensor} {x : Tensor} (hx : x ∈ ts) {a b : Index} (hab : a ≠ b)
    (ha : (ts.map fun y => y.pair.indices.count a).sum = 1) (hb : (ts.map fun y => y.pair.indices.count b).sum = 1)
    (h : (a ∈ x.upper.list ∧ b ∈ x.upper.list) ∨ (a ∈ x.lower.list ∧ b ∈ x.lower.list)) (hnu : x.upper.list.Nodup)
    (hnl : x.lower.list.Nodup) (σ : Index → O) : I.pval (fun i => σ (Equiv.swap a b i)) ts = - I.pval σ ts := by
  obtain ⟨t1, t2, rfl⟩ := List.append_of_mem hx
  simp only [List.map_append, List.map_cons, List.sum_append, List.sum_cons] at ha hb
  have e : ∀ i, x.pair.indices.count i = x.upper.list.count i + x.lower.list.count i := by
    intro i; unfold IndicesPair.indices; rw [List.count_append]
  rw [e] at ha hb
  have hrest : ∀ i, (i = a ∨ i = b) → (∀ y ∈ t1, i ∉ y.pair.indices) ∧ (∀ y ∈ t2, i ∉ y.pair.indices) := by
    intro i hi
    have hsum : (t1.map fun y => y.pair.indices.count i).sum = 0 ∧ (t2.map fun y => y.pair.indices.count i).sum = 0 := by
      rcases hi with rfl | rfl
      · rcases h with ⟨h, -⟩ | ⟨h, -⟩ <;> have := List.count_pos_iff.2 h <;> omega
      · rcases h with ⟨-, h⟩ | ⟨-, h⟩ <;> have := List.count_pos_iff.2 h <;> omega
    have hz : ∀ l : List Tensor, (l.map fun y => y.pair.indices.count i).sum = 0 → ∀ y ∈ l, i ∉ y.pair.indices := by
      intro l
      induction l with
      | nil => simp
      | cons z l ih =>
        intro h0 y hy
        simp only [List.map_cons, List.sum_cons] at h0
        rcases List.mem_cons.1 hy with rfl | hy
        · exact List.count_eq_zero.1 (by omega)
        · exact ih (by omega) y hy
    exact ⟨hz _ hsum.1, hz _ hsum.2⟩
  have hkeep : ∀ y, (a ∉ y.pair.indices ∧ b ∉ y.pair.indices) → I.tval (fun i => σ (Equiv.swap a b i)) y = I.tval σ y := by
    intro y hy
    apply I.tval_congr
    intro i hi
    have n1 : i ≠ a := fun h => hy.1 (h ▸ hi)
    have n2 : i ≠ b := fun h => hy.2 (h ▸ hi)
    rw [Equiv.swap_apply_of_ne_of_ne n1 n2]
  have hself : I.tval (fun i => σ (Equiv.swap a b i)) x = - I.tval σ x := by
    unfold Interp.tval
    have hother : ∀ l : List Index, a ∉ l → b ∉ l → l.map (fun i => σ (Equiv.swap a b i)) = l.map σ := by
      intro l h1 h2
      refine List.map_congr_left fun i hi => ?_
      have n1 : i ≠ a := fun h => h1 (h ▸ hi)
      have n2 : i ≠ b := fun h => h2 (h ▸ hi)
      rw [Equiv.swap_apply_of_ne_of_ne n1 n2]
    rcases h with ⟨h1, h2⟩ | ⟨h1, h2⟩
    · have c1 := List.count_pos_iff.2 h1
      have c2 := List.count_pos_iff.2 h2
      rw [hother x.lower.list (List.count_eq_zero.1 (by omega)) (List.count_eq_zero.1 (by omega))]
      exact map_swap_fn (F := fun u => I.tensor x.cls x.name u (x.lower.list.map σ)) (fun pre a b post => hI.upper _ _ pre a b post _)
        hnu h1 h2 hab σ
    · have c1 := List.count_pos_iff.2 h1
      have c2 := List.count_pos_iff.2 h2
      rw [hother x.upper.list (List.count_eq_zero.1 (by omega)) (List.count_eq_zero.1 (by omega))]
      exact map_swap_fn (F := fun l => I.tensor x.cls x.name (x.upper.list.map σ) l) (fun pre a b post => hI.lower _ _ _ pre a b post)
        hnl h1 h2 hab σ
  unfold Interp.pval
  simp only [List.map_append, List.map_cons, List.prod_append, List.prod_cons]
  rw [List.map_congr_left fun y hy => hkeep y ⟨(hrest a (Or.inl rfl)).1 y hy, (hrest b (Or.inr rfl)).1 y hy⟩,
    List.map_congr_left (l := t2) fun y hy => hkeep y ⟨(hrest a (Or.inl rfl)).2 y hy, (hrest b (Or.inr rfl)).2 y hy⟩, hself]
  ring

theorem map_swapped {φ : Index → O} {p q : List Index} {P Q : List O} {a b : Index} {x y : O} (hlen : p.length = P.length) :
    (p ++ b :: a :: q).map φ = P ++ y :: x :: Q ↔ (p ++ a :: b :: q).map φ = P ++ x :: y :: Q := by
  simp only [List.map_append, List.map_cons]
  constructor
  · intro h
    obtain ⟨h1, h2⟩ := List.append_inj h (by simpa using hlen)
    injection h2 with h2 h3
    injection h3 with h3 h4
    rw [h1, h2, h3, h4]
  · intro h
    obtain ⟨h1, h2⟩ := List.append_inj h (by simpa using hlen)
    injection h2 with h2 h3
    injection h3 with h3 h4
    rw [h1, h2, h3, h4]

theorem scatter_both (orb : Orbitals O) (I : Interp O R M) (ts : List Tensor) (op : SqOp) {p q : List Index} {P Q : List O} {a b : Index} {x y : O}
    (hlen : p.length = P.length) : scatter orb I ts op (p ++ b :: a :: q) (P ++ y :: x :: Q) = scatter orb I ts op (p ++ a :: b :: q) (P ++ x :: y :: Q) := by
  unfold scatter
  refine Finset.sum_congr rfl fun τ _ => ?_
  by_cases h : (p ++ a :: b :: q).map (extendTo τ) = P ++ x :: y :: Q
  · rw [if_pos h, if_pos ((map_swapped hlen).2 h)]
  · rw [if_neg h, if_neg (fun h' => h ((map_swapped hlen).1 h'))]

theorem scatter_spin (orb : Orbitals O) (I : Interp O R M) (ts : List Tensor) (op : SqOp) {p q : List Index} {P Q : List O} {a b : Index} {x y : O}
    (hlen : p.length = P.length) (ha : a ∈ labelsOf ts op) (hb : b ∈ labelsOf ts op) (hsp : a.isBeta ≠ b.isBeta)
    (hxy : orb.spin x = orb.spin y) : scatter orb I ts op (p ++ a :: b :: q) (P ++ x :: y :: Q) = 0 := by
  unfold scatter
  refine Finset.sum_eq_zero fun τ hτ => ?_
  rw [if_neg]
  intro h
  simp only [List.map_append, List.map_cons] at h
  obtain ⟨h1, h2⟩ := List.append_inj h (by simpa using hlen)
  injection h2 with h2 h3
  injection h3 with h3 h4
  have i1 := (Orbitals.extend_in hτ ha).2
  have i2 := (Orbitals.extend_in hτ hb).2
  rw [h2] at i1
  rw [h3] at i2
  exact hsp (by unfold Index.isBeta; rw [i1, i2, hxy])

theorem scatter_exchange (orb : Orbitals O) {I : Interp O R M} {ts : List Tensor} {op : SqOp} {p q : List Index} {P Q : List O} {a b : Index}
    {x y : O} (hlen : p.length = P.length) (hw : ∀ i ∈ p ++ a :: b :: q, i ∈ labelsOf ts op) (hab : a.space = b.space)
    (hn : (p ++ a :: b :: q).Nodup) (hsw : ∀ σ : Index → O, I.pval (fun i => σ (Equiv.swap a b i)) ts = - I.pval σ ts) :
    scatter orb I ts op (p ++ a :: b :: q) (P ++ y :: x :: Q) = - scatter orb I ts op (p ++ a :: b :: q) (P ++ x :: y :: Q) := by
  unfold scatter
  have ha := hw a (by simp)
  have hb := hw b (by simp)
  have hinv : (p ++ a :: b :: q).map (Equiv.swap a b) = p ++ b :: a :: q := by
    rw [List.nodup_append, List.nodup_cons, List.nodup_cons] at hn
    obtain ⟨-, ⟨n1, n2, -⟩, n4⟩ := hn
    have hkeep : ∀ r : List Index, (∀ i ∈ r, i ≠ a ∧ i ≠ b) → r.map (Equiv.swap a b) = r := by
      intro r hr
      conv_rhs => rw [← List.map_id r]
      exact List.map_congr_left fun i hi => Equiv.swap_apply_of_ne_of_ne (hr i hi).1 (hr i hi).2
    rw [List.map_append, List.map_cons, List.map_cons, Equiv.swap_apply_left, Equiv.swap_apply_right,
      hkeep p fun i hi => ⟨n4 i hi a (by simp), n4 i hi b (by simp)⟩,
      hkeep q fun i hi => ⟨fun h => n1 (h ▸ by simp [hi]), fun h => n2 (h ▸ hi)⟩]
  have himg : (labelsOf ts op).image (Equiv.swap a b) = labelsOf ts op := by
    ext i
    rw [Finset.mem_image]
    have hm : ∀ j, Equiv.swap a b j ∈ labelsOf ts op ↔ j ∈ labelsOf ts op := by
      intro j
      rcases eq_or_ne j a with rfl | h1
      · rw [Equiv.swap_apply_left]; exact ⟨fun _ => ha, fun _ => hb⟩
      · rcases eq_or_ne j b with rfl | h2
        · rw [Equiv.swap_apply_right]; exact ⟨fun _ => hb, fun _ => ha⟩
        · rw [Equiv.swap_apply_of_ne_of_ne h1 h2]
    constructor
    · rintro ⟨j, hj, rfl⟩; exact (hm j).2 hj
    · intro hi; exact ⟨Equiv.swap a b i, (hm i).2 hi, Equiv.swap_apply_self a b i⟩
  have hsp : ∀ i, (Equiv.swap a b i).space = i.space := by
    intro j
    rcases eq_or_ne j a with rfl | h1
    · rw [Equiv.swap_apply_left, hab]
    · rcases eq_or_ne j b with rfl | h2
      · rw [Equiv.swap_apply_right, hab]
      · rw [Equiv.swap_apply_of_ne_of_ne h1 h2]
  rw [sum_pullback orb (labelsOf ts op) (Equiv.swap a b)
    (fun σ => if (p ++ a :: b :: q).map σ = P ++ y :: x :: Q then I.pval σ ts else 0) ?_ ?_ ?_]
  · rw [himg, ← Finset.sum_neg_distrib]
    refine Finset.sum_congr rfl fun τ _ => ?_
    have e : (p ++ a :: b :: q).map (fun i => extendTo τ (Equiv.swap a b i)) = (p ++ b :: a :: q).map (extendTo τ) := by
      rw [← hinv, List.map_map]; rfl
    beta_reduce
    rw [e, hsw]
    by_cases h : (p ++ a :: b :: q).map (extendTo τ) = P ++ x :: y :: Q
    · rw [if_pos h, if_pos ((map_swapped hlen).2 h)]
    · rw [if_neg h, if_neg (fun h' => h ((map_swapped hlen).1 h')), neg_zero]
  · intro σ τ h
    have e : (p ++ a :: b :: q).map σ = (p ++ a :: b :: q).map τ := List.map_congr_left fun i hi => h i (hw i hi)
    beta_reduce
    rw [e, I.pval_congr (σ := σ) (τ := τ) fun t ht i hi => h i (by
      rw [mem_labelsOf, mem_labelList]; exact Or.inr ⟨t, ht, hi⟩)]
  · intro i _ o h; rwa [hsp] at h
  · intro σ h _
    refine ⟨fun i hi => by rw [hsp]; exact h i hi, fun i _ j _ hij => ?_⟩
    rw [(Equiv.swap a b).injective hij]

/-- The signed sum over the arrangements of one side. -/
theorem signed_rows {l : List Index} (hn : l.Nodup) {part ws : List (List Index)} {n : Nat} (hs : SideRows l part ws n) (k : Nat)
    (hk : k + 1 < l.length) (G G' : List Index → R)
    (h1 : ∀ p a b q, p.length = k → (p ++ a :: b :: q).Perm l → G' (p ++ b :: a :: q) = G (p ++ a :: b :: q))
    (h2 : ∀ p a b q, p.length = k → (p ++ a :: b :: q).Perm l → (∃ blk ∈ part, a ∈ blk ∧ b ∈ blk) →
      G' (p ++ a :: b :: q) = - G (p ++ a :: b :: q))
    (h3 : ∀ p a b q, p.length = k → (p ++ a :: b :: q).Perm l → a.isBeta ≠ b.isBeta → G' (p ++ a :: b :: q) = - G (p ++ a :: b :: q)) :
    (ws.map fun w => (relSign l w : R) * G' w).sum = - (ws.map fun w => (relSign l w : R) * G w).sum := by
  have hsplit : ∀ w ∈ ws, ∃ p a b q, p.length = k ∧ w = p ++ a :: b :: q := by
    intro w hw
    have hlen := (hs.perm w hw).length_eq
    refine ⟨w.take k, w[k]'(by omega), w[k+1]'(by omega), w.drop (k + 2), by simp; omega, ?_⟩
    rw [← List.drop_eq_getElem_cons, ← List.drop_eq_getElem_cons, List.take_append_drop]
  let sw : List Index → List Index := fun w => match w.drop k with
    | a :: b :: q => w.take k ++ b :: a :: q
    | _ => w
  have hsw : ∀ p a b q, p.length = k → sw (p ++ a :: b :: q) = p ++ b :: a :: q := by
    rintro p a b q rfl
    simp [sw]
  let g : List Index → List Index := fun w => if sw w ∈ ws then sw w else w
  have hgmem : ∀ w ∈ ws, g w ∈ ws := by
    intro w hw; simp only [g]; split_ifs with h
    · exact h
    · exact hw
  have hgg : ∀ w ∈ ws, g (g w) = w := by
    intro w hw
    obtain ⟨p, a, b, q, hp, rfl⟩ := hsplit w hw
    simp only [g]
    by_cases h : sw (p ++ a :: b :: q) ∈ ws
    · rw [if_pos h, hsw p a b q hp, hsw p b a q hp, if_pos hw]
    · rw [if_neg h, if_neg h]
  have hperm : (ws.map g).Perm ws := by
    refine (List.perm_ext_iff_of_nodup ?_ hs.nodup).2 ?_
    · exact List.Nodup.map_on (fun x hx y hy hxy => by rw [← hgg x hx, ← hgg y hy, hxy]) hs.nodup
    · intro w
      constructor
      · intro h
        obtain ⟨v, hv, rfl⟩ := List.mem_map.1 h
        exact hgmem v hv
      · intro h
        exact List.mem_map.2 ⟨g w, hgmem w h, hgg w h⟩
  have e1 : (ws.map fun w => (relSign l w : R) * G' w).sum = ((ws.map g).map fun w => (relSign l w : R) * G' w).sum :=
    ((hperm.map _).sum_eq).symm
  rw [e1, List.map_map]
  have e2 : ws.map ((fun w => (relSign l w : R) * G' w) ∘ g) = ws.map fun w => - ((relSign l w : R) * G w) := by
    refine List.map_congr_left fun w hw => ?_
    obtain ⟨p, a, b, q, hp, rfl⟩ := hsplit w hw
    have hpw := hs.perm _ hw
    simp only [Function.comp_apply, g]
    by_cases h : sw (p ++ a :: b :: q) ∈ ws
    · rw [if_pos h, hsw p a b q hp, h1 p a b q hp hpw]
      have hr := antisymmFn_relSign l p q a b ((hpw.nodup_iff).2 hn)
      have hpw' : (p ++ b :: a :: q).Perm l := (List.Perm.append_left p (List.Perm.swap a b q)).trans hpw
      simp only [if_pos hpw, if_pos hpw'] at hr
      rw [hr]; push_cast; ring
    · rw [if_neg h]
      rcases hs.closed p a b q hw with hb | hb | hb
      · rw [h2 p a b q hp hpw hb]; ring
      · rw [h3 p a b q hp hpw hb]; ring
      · rw [hsw p a b q hp] at h; exact absurd hb h
  rw [e2]
  have : ∀ v : List (List Index), (v.map fun w => - ((relSign l w : R) * G w)).sum = - (v.map fun w => (relSign l w : R) * G w).sum := by
    intro v
    induction v with
    | nil => simp
    | cons a v ih => simp only [List.map_cons, List.sum_cons, ih]; ring
  exact this ws

/-! ### The array of a term -/

theorem list_sum_comm {α β : Type} (l : List α) (m : List β) (f : α → β → R) :
    (l.map fun a => (m.map fun b => f a b).sum).sum = (m.map fun b => (l.map fun a => f a b).sum).sum := by
  induction l with
  | nil =>
    simp only [List.map_nil, List.sum_nil]
    induction m with
    | nil => rfl
    | cons b m ih => simp only [List.map_cons, List.sum_cons, ← ih, add_zero]
  | cons a l ih =>
    simp only [List.map_cons, List.sum_cons, ih]
    clear ih
    induction m with
    | nil => simp
    | cons b m ih => simp only [List.map_cons, List.sum_cons, ← ih]; ring

theorem list_mul_sum {α : Type} (l : List α) (r : R) (f : α → R) : r * (l.map f).sum = (l.map fun a => r * f a).sum := by
  induction l with
  | nil => simp
  | cons a l ih => simp only [List.map_cons, List.sum_cons, mul_add, ih]

theorem list_neg_sum {α : Type} (l : List α) (f g : α → R) (h : ∀ a ∈ l, f a = - g a) : (l.map f).sum = - (l.map g).sum := by
  induction l with
  | nil => simp
  | cons a l ih =>
    simp only [List.map_cons, List.sum_cons, h a (by simp), ih fun b hb => h b (List.mem_cons_of_mem _ hb)]; ring

theorem filled_lower (orb : Orbitals O) (I : Interp O R M) (ts : List Tensor) (op : SqOp) (wa wc : List (List Index)) (c : ℚ) (os : List O) :
    filled orb I ts op wa wc c os = (wa.map fun w1 => (relSign op.lower.list w1 : R) *
      (wc.map fun w2 => (relSign op.upper.list w2 : R) * (algebraMap ℚ R c * scatter orb I ts op (w1 ++ w2) os)).sum).sum := by
  unfold filled
  refine congrArg List.sum (List.map_congr_left fun w1 _ => ?_)
  rw [list_mul_sum]
  refine congrArg List.sum (List.map_congr_left fun w2 _ => ?_)
  push_cast; ring

theorem filled_upper (orb : Orbitals O) (I : Interp O R M) (ts : List Tensor) (op : SqOp) (wa wc : List (List Index)) (c : ℚ) (os : List O) :
    filled orb I ts op wa wc c os = (wc.map fun w2 => (relSign op.upper.list w2 : R) *
      (wa.map fun w1 => (relSign op.lower.list w1 : R) * (algebraMap ℚ R c * scatter orb I ts op (w1 ++ w2) os)).sum).sum := by
  unfold filled
  rw [list_sum_comm]
  refine congrArg List.sum (List.map_congr_left fun w1 _ => ?_)
  rw [list_mul_sum]
  refine congrArg List.sum (List.map_congr_left fun w2 _ => ?_)
  push_cast; ring

/-- The operator of the array. -/
theorem operator_filled (orb : Orbitals O) {I : Interp O R M} (hI : I.Antisymmetric) (ts : List Tensor) (op : SqOp)
    (wa wc : List (List Index)) (c : ℚ) (hu : op.upper.list.Nodup) (hl : op.lower.list.Nodup) (ha : ∀ w ∈ wa, w.Perm op.lower.list)
    (hc : ∀ w ∈ wc, w.Perm op.upper.list) :
    I.operator op.lower.list.length op.upper.list.length (filled orb I ts op wa wc c) =
      (algebraMap ℚ R ((wa.length * wc.length : ℕ) : ℚ)) • I.value orb c ts op := by
  have key : ∀ w1 ∈ wa, ∀ w2 ∈ wc, I.operator op.lower.list.length op.upper.list.length (fun os =>
      ((relSign op.lower.list w1 * relSign op.upper.list w2 : ℤ) : R) * (algebraMap ℚ R c * scatter orb I ts op (w1 ++ w2) os)) =
      I.value orb c ts op := by
    intro w1 h1 w2 h2
    rw [operator_smul, operator_smul]
    unfold scatter
    rw [operator_scatter I _ (fun τ => extendTo τ) w1 w2 (ha w1 h1).length_eq (hc w2 h2).length_eq]
    unfold Interp.value
    rw [smul_comm]
    congr 1
    rw [Finset.smul_sum]
    refine Finset.sum_congr rfl fun τ _ => ?_
    have e1 : I.op (op.upper.list.map (extendTo τ)) (w1.map (extendTo τ)) =
        relSign op.upper.list w2 • I.op (w2.map (extendTo τ)) (w1.map (extendTo τ)) :=
      (antisymmFn_map (F := fun u => I.op u (w1.map (extendTo τ))) (fun pre a b post => hI.opUpper pre a b post _) (extendTo τ)).relSign hu
        (hc w2 h2).symm
    have e2 : I.op (op.upper.list.map (extendTo τ)) (op.lower.list.map (extendTo τ)) =
        relSign op.lower.list w1 • I.op (op.upper.list.map (extendTo τ)) (w1.map (extendTo τ)) :=
      (antisymmFn_map (F := fun l => I.op (op.upper.list.map (extendTo τ)) l) (fun pre a b post => hI.opLower _ pre a b post) (extendTo τ)).relSign
        hl (ha w1 h1).symm
    unfold Interp.opval
    rw [e2, e1, Int.cast_smul_eq_zsmul, mul_smul, smul_comm (relSign op.upper.list w2) (I.pval (extendTo τ) ts),
      smul_comm (relSign op.lower.list w1) (I.pval (extendTo τ) ts)]
  have hrow : ∀ w1 ∈ wa, ∀ v : List (List Index), (∀ w ∈ v, w ∈ wc) → I.operator op.lower.list.length op.upper.list.length (fun os =>
      (v.map fun w2 => ((relSign op.lower.list w1 * relSign op.upper.list w2 : ℤ) : R) *
        (algebraMap ℚ R c * scatter orb I ts op (w1 ++ w2) os)).sum) = v.length • I.value orb c ts op := by
    intro w1 h1 v hv
    rw [operator_sum, List.map_congr_left fun w2 h2 => key w1 h1 w2 (hv w2 h2)]
    simp
  unfold filled
  rw [operator_sum, List.map_congr_left fun w1 h1 => hrow w1 h1 wc fun _ h => h]
  simp only [List.map_const', List.sum_replicate, smul_smul]
  rw [map_natCast, Nat.cast_smul_eq_nsmul]

/-- Two labels in one block are exchanged. -/
theorem block_exchange {I : Interp O R M} (hI : I.Antisymmetric) {ts : List Tensor} {op : SqOp} {c : ℚ} {t : Term}
    (ht : Term.make ts op c = .ok t) (hop : op.Constructed) (hts : ∀ x ∈ ts, x.Constructed) (hd : t.diag = ∅)
    {ops : List Index} (hops : ∀ i ∈ ops, i ∈ op.upper.list ∨ i ∈ op.lower.list) {part : List (List Index)}
    (hsp : SplitsOpen (t.tensors.map fun x => x.pair.indices) ops part)
    (hside : ∀ x ∈ ts, ∀ i ∈ ops, ∀ j ∈ ops, i ∈ x.upper.list → j ∉ x.lower.list) {a b : Index} (ha : a ∈ ops) (hb : b ∈ ops)
    (hab : a ≠ b) (hblk : ∃ blk ∈ part, a ∈ blk ∧ b ∈ blk) (σ : Index → O) :
    I.pval (fun i => σ (Equiv.swap a b i)) ts = - I.pval σ ts := by
  obtain ⟨-, -, -, m4⟩ := Term.make_ok.1 ht
  have hperm : t.tensors.Perm ts := by rw [m4]; exact sortTensors_perm ts
  obtain ⟨-, s, hs, h1, h2⟩ := (hsp.together a ha b hb).1 hblk
  obtain ⟨x, hx, rfl⟩ := List.mem_map.1 hs
  have hx := hperm.mem_iff.1 hx
  have hcount : ∀ i, i ∈ ops → (ts.map fun y => y.pair.indices.count i).sum = 1 := by
    intro i hi
    have := open_count ht hop hd (hops i hi)
    rw [List.map_map] at this
    rw [← this]
    exact ((hperm.map _).sum_eq).symm
  refine pval_swap hI hx hab (hcount a ha) (hcount b hb) ?_ (Indices.make_eq (hts x hx).1).2.1 (Indices.make_eq (hts x hx).2.1).2.1 σ
  rcases List.mem_append.1 h1 with h1 | h1 <;> rcases List.mem_append.1 h2 with h2 | h2
  · exact Or.inl ⟨h1, h2⟩
  · exact absurd h2 (hside x hx a ha b hb h1)
  · exact absurd h1 (hside x hx b hb a ha h2)
  · exact Or.inr ⟨h1, h2⟩

theorem op_nodup {ts : List Tensor} {op : SqOp} {c : ℚ} {t : Term} (ht : Term.make ts op c = .ok t) (hop : op.Constructed) (hd : t.diag = ∅) :
    (op.lower.list ++ op.upper.list).Nodup := by
  obtain ⟨-, -, -, m4⟩ := Term.make_ok.1 ht
  have hd' : diagonalOf ts op = ∅ := by rw [m4] at hd; exact hd
  refine List.nodup_append.2 ⟨(Indices.make_eq hop.2.1).2.1, (Indices.make_eq hop.1).2.1, ?_⟩
  rintro i hi j hj rfl
  have : i ∈ diagonalOf ts op := mem_diagonalOf.2 (Or.inl ⟨hj, hi⟩)
  rw [hd'] at this; simp at this

/-- Exchanging two neighbouring annihilation orbitals. -/
theorem filled_swap_lower (orb : Orbitals O) {I : Interp O R M} (hI : I.Antisymmetric) {ts : List Tensor} {op : SqOp} {c : ℚ} {t : Term}
    (ht : Term.make ts op c = .ok t) (hop : op.Constructed) (hts : ∀ x ∈ ts, x.Constructed) (hd : t.diag = ∅)
    (hside : ∀ x ∈ ts, ∀ i ∈ op.lower.list, ∀ j ∈ op.lower.list, i ∈ x.upper.list → j ∉ x.lower.list)
    {wa wc : List (List Index)} {na : Nat} (hA : SideRows op.lower.list t.permPartitionOpen.2 wa na)
    (hC : ∀ w ∈ wc, w.Perm op.upper.list) (q : ℚ) (P Q u : List O) (x y : O) (hlen : P.length + Q.length + 2 = op.lower.list.length)
    (hxy : orb.spin x = orb.spin y) : filled orb I ts op wa wc q (P ++ y :: x :: Q ++ u) = - filled orb I ts op wa wc q (P ++ x :: y :: Q ++ u) := by
  have hn := (Indices.make_eq hop.2.1).2.1
  have hsp := (Term.permPartitionOpen_spec ht hop hd).2
  have hmem : ∀ i, i ∈ op.upper.list ∨ i ∈ op.lower.list → i ∈ labelsOf ts op := by
    intro i hi
    rw [mem_labelsOf, mem_labelList]
    exact Or.inl (List.mem_append.2 hi)
  rw [filled_lower, filled_lower]
  refine signed_rows hn hA P.length (by omega) _ _ ?_ ?_ ?_
  · intro p a b q' hp hw
    refine congrArg List.sum (List.map_congr_left fun w2 hw2 => ?_)
    have := scatter_both orb I ts op (p := p) (q := q' ++ w2) (P := P) (Q := Q ++ u) (a := a) (b := b) (x := x) (y := y) hp
    simp only [List.append_assoc, List.cons_append] at this ⊢
    rw [this]
  · intro p a b q' hp hw hblk
    refine list_neg_sum _ _ _ fun w2 hw2 => ?_
    have hnw : (p ++ a :: b :: q').Nodup := (hw.nodup_iff).2 hn
    have hal := hw.mem_iff.1 (show a ∈ p ++ a :: b :: q' by simp)
    have hbl := hw.mem_iff.1 (show b ∈ p ++ a :: b :: q' by simp)
    have hab : a ≠ b := by
      rw [List.nodup_append] at hnw
      intro h; have := hnw.2.1; simp [h] at this
    have hsp' : a.space = b.space := ((hsp.together a hal b hbl).1 hblk).1
    have hall : (p ++ a :: b :: (q' ++ w2)).Perm (op.lower.list ++ op.upper.list) := by
      simpa using hw.append (hC w2 hw2)
    have := scatter_exchange orb (I := I) (ts := ts) (op := op) (p := p) (q := q' ++ w2) (P := P) (Q := Q ++ u) (a := a) (b := b) (x := x)
      (y := y) hp (fun i hi => hmem i ((List.mem_append.1 (hall.mem_iff.1 hi)).symm)) hsp' ((hall.nodup_iff).2 (op_nodup ht hop hd))
      (block_exchange hI ht hop hts hd (fun i hi => Or.inr hi) hsp hside hal hbl hab hblk)
    simp only [List.append_assoc, List.cons_append] at this ⊢
    rw [this]; ring
  · intro p a b q' hp hw hs
    refine list_neg_sum _ _ _ fun w2 hw2 => ?_
    have hal := hw.mem_iff.1 (show a ∈ p ++ a :: b :: q' by simp)
    have hbl := hw.mem_iff.1 (show b ∈ p ++ a :: b :: q' by simp)
    have e1 := scatter_spin orb I ts op (p := p) (q := q' ++ w2) (P := P) (Q := Q ++ u) (a := a) (b := b) (x := x) (y := y) hp
      (hmem a (Or.inr hal)) (hmem b (Or.inr hbl)) hs hxy
    have e2 := scatter_spin orb I ts op (p := p) (q := q' ++ w2) (P := P) (Q := Q ++ u) (a := a) (b := b) (x := y) (y := x) hp
      (hmem a (Or.inr hal)) (hmem b (Or.inr hbl)) hs hxy.symm
    simp only [List.append_assoc, List.cons_append] at e1 e2 ⊢
    rw [e1, e2]; simp

/-- Exchanging two neighbouring creation orbitals. -/
theorem filled_swap_upper (orb : Orbitals O) {I : Interp O R M} (hI : I.Antisymmetric) {ts : List Tensor} {op : SqOp} {c : ℚ} {t : Term}
    (ht : Term.make ts op c = .ok t) (hop : op.Constructed) (hts : ∀ x ∈ ts, x.Constructed) (hd : t.diag = ∅)
    (hside : ∀ x ∈ ts, ∀ i ∈ op.upper.list, ∀ j ∈ op.upper.list, i ∈ x.upper.list → j ∉ x.lower.list)
    {wa wc : List (List Index)} {nc : Nat} (hA : ∀ w ∈ wa, w.Perm op.lower.list)
    (hC : SideRows op.upper.list t.permPartitionOpen.1 wc nc) (q : ℚ) (P Q l : List O) (x y : O) (hl : l.length = op.lower.list.length)
    (hlen : P.length + Q.length + 2 = op.upper.list.length) (hxy : orb.spin x = orb.spin y) :
    filled orb I ts op wa wc q (l ++ (P ++ y :: x :: Q)) = - filled orb I ts op wa wc q (l ++ (P ++ x :: y :: Q)) := by
  have hn := (Indices.make_eq hop.1).2.1
  have hsp := (Term.permPartitionOpen_spec ht hop hd).1
  have hmem : ∀ i, i ∈ op.upper.list ∨ i ∈ op.lower.list → i ∈ labelsOf ts op := by
    intro i hi
    rw [mem_labelsOf, mem_labelList]
    exact Or.inl (List.mem_append.2 hi)
  rw [filled_upper, filled_upper]
  refine signed_rows hn hC P.length (by omega) _ _ ?_ ?_ ?_
  · intro p a b q' hp hw
    refine congrArg List.sum (List.map_congr_left fun w1 hw1 => ?_)
    have := scatter_both orb I ts op (p := w1 ++ p) (q := q') (P := l ++ P) (Q := Q) (a := a) (b := b) (x := x) (y := y)
      (by simp [hp, hl, (hA w1 hw1).length_eq])
    simp only [List.append_assoc] at this ⊢
    rw [this]
  · intro p a b q' hp hw hblk
    refine list_neg_sum _ _ _ fun w1 hw1 => ?_
    have hnw : (p ++ a :: b :: q').Nodup := (hw.nodup_iff).2 hn
    have hal := hw.mem_iff.1 (show a ∈ p ++ a :: b :: q' by simp)
    have hbl := hw.mem_iff.1 (show b ∈ p ++ a :: b :: q' by simp)
    have hab : a ≠ b := by
      rw [List.nodup_append] at hnw
      intro h; have := hnw.2.1; simp [h] at this
    have hsp' : a.space = b.space := ((hsp.together a hal b hbl).1 hblk).1
    have hall : (w1 ++ p ++ a :: b :: q').Perm (op.lower.list ++ op.upper.list) := by
      simpa using (hA w1 hw1).append hw
    have := scatter_exchange orb (I := I) (ts := ts) (op := op) (p := w1 ++ p) (q := q') (P := l ++ P) (Q := Q) (a := a) (b := b) (x := x)
      (y := y) (by simp [hp, hl, (hA w1 hw1).length_eq]) (fun i hi => hmem i ((List.mem_append.1 (hall.mem_iff.1 hi)).symm)) hsp'
      ((hall.nodup_iff).2 (op_nodup ht hop hd)) (block_exchange hI ht hop hts hd (fun i hi => Or.inl hi) hsp hside hal hbl hab hblk)
    simp only [List.append_assoc] at this ⊢
    rw [this]; ring
  · intro p a b q' hp hw hs
    refine list_neg_sum _ _ _ fun w1 hw1 => ?_
    have hal := hw.mem_iff.1 (show a ∈ p ++ a :: b :: q' by simp)
    have hbl := hw.mem_iff.1 (show b ∈ p ++ a :: b :: q' by simp)
    have hp' : (w1 ++ p).length = (l ++ P).length := by simp [hp, hl, (hA w1 hw1).length_eq]
    have e1 := scatter_spin orb I ts op (p := w1 ++ p) (q := q') (P := l ++ P) (Q := Q) (a := a) (b := b) (x := x) (y := y) hp'
      (hmem a (Or.inl hal)) (hmem b (Or.inl hbl)) hs hxy
    have e2 := scatter_spin orb I ts op (p := w1 ++ p) (q := q') (P := l ++ P) (Q := Q) (a := a) (b := b) (x := y) (y := x) hp'
      (hmem a (Or.inl hal)) (hmem b (Or.inl hbl)) hs hxy.symm
    simp only [List.append_assoc] at e1 e2 ⊢
    rw [e1, e2]; simp

end

end Dsrg
