import Verif.Lemmas.CanonEntries
import Verif.Lemmas.SlotMoves
import Mathlib.Data.List.Perm.Basic

/-!
Changes of notation are symmetries of the slots.
-/

namespace Dsrg

/-! ### Generators -/

theorem mem_asymGens_upper {nU nL : Nat} {h : Bool} {i : Nat} (hi : i + 1 < nU) : signedSwapArray (nU + nL + 2) i (i + 1) ∈ asymGens nU nL h := by
  unfold asymGens
  simp only [List.mem_append, List.mem_map, List.mem_range]
  exact Or.inl (Or.inl ⟨i, by omega, rfl⟩)

theorem mem_asymGens_lower {nU nL : Nat} {h : Bool} {i : Nat} (hi : i + 1 < nL) :
    signedSwapArray (nU + nL + 2) (nU + i) (nU + i + 1) ∈ asymGens nU nL h := by
  unfold asymGens
  simp only [List.mem_append, List.mem_map, List.mem_range]
  exact Or.inl (Or.inr ⟨i, by omega, rfl⟩)

theorem mem_asymGens_halves {nU nL : Nat} : halvesArray nU ∈ asymGens nU nL true := by
  unfold asymGens; simp

theorem bsgs_asym {x : IndicesPair} {h : Bool} {gens : List (List Nat)} (hty : x.upper.ty.isAntisym = true) (hg : x.bsgs h false = .ok gens) :
    gens = asymGens x.nUpper x.nLower h := by
  unfold IndicesPair.bsgs at hg
  rw [hty] at hg
  cases h <;> simp at hg <;> split_ifs at hg <;> simp_all

theorem signedSwap_proper {N i j : Nat} (hi : i < N) (hj : j < N) :
    ∃ q : List Nat, signedSwapArray (N + 2) i j = q ++ [N + 1, N] ∧ q.length = N ∧ (∀ k ∈ q, k < N) ∧ ∀ k < N, q.getD (q.getD k 0) 0 = k := by
  refine ⟨(List.range N).map (Equiv.swap i j), ?_, by simp, ?_, ?_⟩
  · unfold signedSwapArray
    rw [List.range_succ, List.range_succ]
    simp only [List.map_append, List.map_cons, List.map_nil, List.append_assoc, List.cons_append, List.nil_append]
    congr 1
    · refine List.map_congr_left fun k hk => ?_
      have := List.mem_range.1 hk
      simp only [Nat.add_sub_cancel]
      rw [Equiv.swap_apply_of_ne_of_ne (a := N) (by omega) (by omega)]
    · simp only [Nat.add_sub_cancel, show N + 2 - 1 = N + 1 by omega, Equiv.swap_apply_left, Equiv.swap_apply_right]
      rw [Equiv.swap_apply_of_ne_of_ne (by omega) (by omega), Equiv.swap_apply_of_ne_of_ne (by omega) (by omega)]
  · intro k hk
    obtain ⟨a, ha, rfl⟩ := List.mem_map.1 hk
    exact swap_lt hi hj a (List.mem_range.1 ha)
  · intro k hk
    have h1 : ∀ k < N, ((List.range N).map (Equiv.swap i j)).getD k 0 = Equiv.swap i j k := by
      intro k hk; simp [List.getD_eq_getElem?_getD, hk]
    rw [h1 k hk, h1 _ (swap_lt hi hj k hk)]; simp

theorem halves_proper (n : Nat) :
    ∃ q : List Nat, halvesArray n = q ++ [2 * n, 2 * n + 1] ∧ q.length = 2 * n ∧ (∀ k ∈ q, k < 2 * n) ∧ ∀ k < 2 * n, q.getD (q.getD k 0) 0 = k := by
  refine ⟨List.range' n n ++ List.range n, rfl, by simp; omega, ?_, ?_⟩
  · intro k hk
    simp at hk; omega
  · intro k hk
    have h1 : ∀ k < 2 * n, (List.range' n n ++ List.range n).getD k 0 = if k < n then n + k else k - n := by
      intro k hk
      rw [List.getD_eq_getElem?_getD, List.getElem?_append]
      simp only [List.length_range']
      split_ifs with h
      · rw [List.getElem?_eq_getElem (by simpa using h)]; simp
      · rw [List.getElem?_eq_getElem (by simp; omega)]; simp
    rw [h1 k hk]
    split_ifs with h
    · rw [h1 _ (by omega), if_neg (by omega)]; omega
    · rw [h1 _ (by omega), if_pos (by omega)]; omega

theorem asymGens_proper {e : SlotGroup} {n : Nat} {h : Bool} (hg : e.gens = asymGens n n h) (hs : e.size = n + n) : e.Proper := by
  intro p hp
  rw [hg] at hp
  unfold asymGens at hp
  simp only [List.mem_append, List.mem_map, List.mem_range] at hp
  rw [hs]
  rcases hp with (⟨i, hi, rfl⟩ | ⟨i, hi, rfl⟩) | hp
  · obtain ⟨q, h1, h2⟩ := signedSwap_proper (N := n + n) (i := i) (j := i + 1) (by omega) (by omega)
    exact ⟨q, Or.inr h1, h2⟩
  · obtain ⟨q, h1, h2⟩ := signedSwap_proper (N := n + n) (i := n + i) (j := n + i + 1) (by omega) (by omega)
    exact ⟨q, Or.inr h1, h2⟩
  · cases h
    · simp at hp
    · simp at hp
      subst hp
      obtain ⟨q, h1, h2⟩ := halves_proper n
      rw [show n + n = 2 * n by omega]
      exact ⟨q, Or.inl h1, h2⟩

/-- All entries for antisymmetric factors with as many upper as lower labels are proper. -/
theorem bsgsList_proper {ts : List Tensor} {op : SqOp} {h : Bool} {v : List SlotGroup} (hv : bsgsList ts op h = .ok v)
    (hop : op.upper.ty.isAntisym = true) (hts : ∀ x ∈ ts, x.upper.ty.isAntisym = true) (hbal : op.nUpper = op.nLower) : ∀ e ∈ v, e.Proper := by
  obtain ⟨hb, rest, hrest, hcase⟩ := bsgsList_ok hv
  have hr : ∀ e ∈ rest, e.Proper := by
    intro e he
    obtain ⟨v₁, v₂, rfl⟩ := List.append_of_mem he
    obtain ⟨gs₁, g, gs₂, hgs, -, f2, -⟩ := forall₂_split hrest
    obtain ⟨t₀, rst, hg, hgens, hes, -⟩ := groupEntry_ok f2
    have hm : t₀ ∈ ts := by
      rw [← List.flatten_splitBy (fun a b : Tensor => decide (a.name = b.name ∧ a.pair.nLower = b.pair.nLower)) ts]
      refine List.mem_flatten.2 ⟨g, ?_, by simp [hg]⟩
      have : g ∈ tensorGroups ts := by rw [hgs]; simp
      exact this
    have h1 := bsgs_asym (hts t₀ hm) hgens
    have h2 := hb t₀ hm
    rw [← h2] at h1
    exact asymGens_proper h1 (by rw [hes]; unfold IndicesPair.size; omega)
  rcases hcase with ⟨-, rfl⟩ | ⟨-, gens, hg, rfl⟩
  · exact hr
  · intro e he
    rcases List.mem_cons.1 he with rfl | he
    · unfold IndicesPair.opBsgs at hg
      rw [if_pos hop] at hg
      have h1 := bsgs_asym hop hg
      rw [← hbal] at h1
      exact asymGens_proper h1 (by show IndicesPair.size op = _; unfold IndicesPair.size; omega)
    · exact hr e he

/-! ### Namings carried along -/

/-- Every naming of the labels `L` is carried by symmetries into one of the labels `L'`. -/
def Leads (D : List Index) (dummies : List (Nat × Nat)) (v : List SlotGroup) (L L' : List Index) (flip : Bool) : Prop :=
  ∀ x, Naming D L x → ∃ x', Naming D L' x' ∧ ∀ s s', Reach dummies v (x ++ [s, s']) (x' ++ if flip then [s', s] else [s, s'])

theorem Leads.refl (D : List Index) (dummies : List (Nat × Nat)) (v : List SlotGroup) (L : List Index) : Leads D dummies v L L false :=
  fun x hx => ⟨x, hx, fun _ _ => .refl⟩

theorem Leads.trans {D : List Index} {dummies : List (Nat × Nat)} {v : List SlotGroup} {L L' L'' : List Index} {a b : Bool}
    (h1 : Leads D dummies v L L' a) (h2 : Leads D dummies v L' L'' b) : Leads D dummies v L L'' (a ^^ b) := by
  intro x hx
  obtain ⟨x', hx', r1⟩ := h1 x hx
  obtain ⟨x'', hx'', r2⟩ := h2 x' hx'
  refine ⟨x'', hx'', fun s s' => (r1 s s').trans ?_⟩
  cases a <;> cases b
  · exact r2 s s'
  · exact r2 s s'
  · exact r2 s' s
  · exact r2 s' s

/-- Exchanging two neighbouring blocks of labels. -/
theorem Leads.blocks {D : List Index} {dummies : List (Nat × Nat)} {v : List SlotGroup} {l₁ l₂ l₃ l₄ : List Index} {flip : Bool}
    (h : ∀ x₁ x₂ x₃ x₄ : List Nat, x₁.length = l₁.length → x₂.length = l₂.length → x₃.length = l₃.length → x₄.length = l₄.length → ∀ s s',
      SymStep dummies v (x₁ ++ x₂ ++ x₃ ++ x₄ ++ [s, s']) (x₁ ++ x₃ ++ x₂ ++ x₄ ++ if flip then [s', s] else [s, s'])) :
    Leads D dummies v (l₁ ++ l₂ ++ l₃ ++ l₄) (l₁ ++ l₃ ++ l₂ ++ l₄) flip := by
  intro x hx
  have hlen := hx.length
  obtain ⟨px, f, hf, hinj, hsp⟩ := hx
  obtain ⟨x₁, x₂, x₃, x₄, rfl, e1, e2, e3, e4⟩ : ∃ x₁ x₂ x₃ x₄, x = x₁ ++ x₂ ++ x₃ ++ x₄ ∧ x₁.length = l₁.length ∧ x₂.length = l₂.length ∧
      x₃.length = l₃.length ∧ x₄.length = l₄.length := by
    simp only [List.length_append] at hlen
    refine ⟨x.take l₁.length, (x.drop l₁.length).take l₂.length, ((x.drop l₁.length).drop l₂.length).take l₃.length,
      ((x.drop l₁.length).drop l₂.length).drop l₃.length, ?_, ?_, ?_, ?_, ?_⟩
    · rw [List.append_assoc, List.append_assoc, List.take_append_drop, List.take_append_drop, List.take_append_drop]
    all_goals simp only [List.length_take, List.length_drop]; omega
  have hmem : ∀ i, i ∈ l₁ ++ l₃ ++ l₂ ++ l₄ ↔ i ∈ l₁ ++ l₂ ++ l₃ ++ l₄ := by
    intro i; simp only [List.mem_append]; tauto
  refine ⟨x₁ ++ x₃ ++ x₂ ++ x₄, ⟨?_, f, ?_, ?_, ?_⟩, fun s s' => .single (h x₁ x₂ x₃ x₄ e1 e2 e3 e4 s s')⟩
  · refine List.Perm.trans ?_ px
    refine List.Perm.append_right _ ?_
    rw [List.append_assoc, List.append_assoc]
    exact List.Perm.append_left _ List.perm_append_comm
  · simp only [List.map_append] at hf ⊢
    obtain ⟨hf, f4⟩ := List.append_inj' hf (by simp [e4])
    obtain ⟨hf, f3⟩ := List.append_inj' hf (by simp [e3])
    obtain ⟨f1, f2⟩ := List.append_inj' hf (by simp [e2])
    rw [f1, f2, f3, f4]
  · exact fun i hi j hj => hinj i ((hmem i).1 hi) j ((hmem j).1 hj)
  · exact fun i hi => hsp i ((hmem i).1 hi)

/-- Other names for the labels. -/
theorem Leads.rename {D : List Index} {dummies : List (Nat × Nat)} {v : List SlotGroup} {L : List Index} {f : Index → Index}
    (hinj : ∀ i ∈ L, ∀ j ∈ L, f i = f j → i = j) (hsp : ∀ i ∈ L, (f i).space = i.space) : Leads D dummies v L (L.map f) false := by
  intro x hx
  obtain ⟨px, g, hg, gi, gs⟩ := hx
  refine ⟨x, ⟨px, ?_⟩, fun _ _ => .refl⟩
  classical
  let f' : Index → Index := fun j => if h : ∃ i ∈ L, f i = j then g h.choose else j
  have hf' : ∀ i ∈ L, f' (f i) = g i := by
    intro i hi
    have h : ∃ i' ∈ L, f i' = f i := ⟨i, hi, rfl⟩
    simp only [f', dif_pos h]
    rw [hinj _ h.choose_spec.1 i hi h.choose_spec.2]
  refine ⟨f', ?_, ?_, ?_⟩
  · rw [hg, List.map_map]
    exact List.map_congr_left fun i hi => (hf' i hi).symm
  · intro a ha b hb e
    obtain ⟨i, hi, rfl⟩ := List.mem_map.1 ha
    obtain ⟨j, hj, rfl⟩ := List.mem_map.1 hb
    rw [hf' i hi, hf' j hj] at e
    rw [gi i hi j hj e]
  · intro a ha
    obtain ⟨i, hi, rfl⟩ := List.mem_map.1 ha
    rw [hf' i hi, gs i hi, hsp i hi]

/-! ### One factor -/

/-- Exchange of two neighbouring lower labels in an antisymmetric block of slots. -/
theorem leads_lower {D : List Index} {dummies : List (Nat × Nat)} {v : List SlotGroup} {e : SlotGroup} {k n : Nat} {h : Bool} {A B u l₁ l₂ : List Index}
    {i j : Index} (hat : e.At v k A.length) (hs : e.size = n + n) (hg : e.gens = asymGens n n h) (hu : u.length = n)
    (hl : (l₁ ++ i :: j :: l₂).length = n) :
    Leads D dummies v (A ++ ((l₁ ++ i :: j :: l₂) ++ u) ++ B) (A ++ ((l₁ ++ j :: i :: l₂) ++ u) ++ B) true := by
  have e1 : ∀ i j : Index, A ++ ((l₁ ++ i :: j :: l₂) ++ u) ++ B = (A ++ l₁) ++ [i] ++ [j] ++ (l₂ ++ u ++ B) := by intro i j; simp
  rw [e1 i j, e1 j i]
  refine Leads.blocks fun x₁ x₂ x₃ x₄ h1 h2 h3 h4 s s' => ?_
  obtain ⟨a, rfl⟩ := List.length_eq_one_iff.1 (h2.trans rfl)
  obtain ⟨c, rfl⟩ := List.length_eq_one_iff.1 (h3.trans rfl)
  simp only [List.length_append, List.length_cons] at h1 h4 hl
  have k1 : (x₁.take A.length).length = A.length := by simp; omega
  have k2 : (x₁.drop A.length).length = l₁.length := by simp; omega
  have k3 : (x₄.take (l₂.length + u.length)).length = l₂.length + u.length := by simp; omega
  have hp := permuteSlots_signedSwap (x₁.drop A.length) (x₄.take (l₂.length + u.length)) a c s s' (n + n + 2) l₁.length (l₁.length + 1) k2.symm
    (by omega) (by simp only [List.length_append, List.length_cons]; omega)
  have := SymStep.slots (dummies := dummies) (v := v) e k _ (x₁.take A.length) (x₁.drop A.length ++ a :: c :: x₄.take (l₂.length + u.length))
    (x₁.drop A.length ++ c :: a :: x₄.take (l₂.length + u.length)) (x₄.drop (l₂.length + u.length)) s s' s' s (by rw [k1]; exact hat)
    (hg ▸ mem_asymGens_upper (i := l₁.length) (by omega)) (by simp only [List.length_append, List.length_cons]; omega) hp
  have e2 : ∀ a c : Nat, x₁ ++ [a] ++ [c] ++ x₄ = x₁.take A.length ++ (x₁.drop A.length ++ a :: c :: x₄.take (l₂.length + u.length)) ++ x₄.drop (l₂.length + u.length) := by
    intro a c
    conv_lhs => rw [← List.take_append_drop A.length x₁, ← List.take_append_drop (l₂.length + u.length) x₄]
    simp only [List.append_assoc, List.cons_append, List.nil_append]
  rw [e2 a c, e2 c a]
  exact this

/-- Exchange of two neighbouring upper labels. -/
theorem leads_upper {D : List Index} {dummies : List (Nat × Nat)} {v : List SlotGroup} {e : SlotGroup} {k n : Nat} {h : Bool} {A B lo l₁ l₂ : List Index}
    {i j : Index} (hat : e.At v k A.length) (hs : e.size = n + n) (hg : e.gens = asymGens n n h) (hlo : lo.length = n)
    (hl : (l₁ ++ i :: j :: l₂).length = n) :
    Leads D dummies v (A ++ (lo ++ (l₁ ++ i :: j :: l₂)) ++ B) (A ++ (lo ++ (l₁ ++ j :: i :: l₂)) ++ B) true := by
  have e1 : ∀ i j : Index, A ++ (lo ++ (l₁ ++ i :: j :: l₂)) ++ B = (A ++ lo ++ l₁) ++ [i] ++ [j] ++ (l₂ ++ B) := by intro i j; simp
  rw [e1 i j, e1 j i]
  refine Leads.blocks fun x₁ x₂ x₃ x₄ h1 h2 h3 h4 s s' => ?_
  obtain ⟨a, rfl⟩ := List.length_eq_one_iff.1 (h2.trans rfl)
  obtain ⟨c, rfl⟩ := List.length_eq_one_iff.1 (h3.trans rfl)
  simp only [List.length_append, List.length_cons] at h1 h4 hl
  have k1 : (x₁.take A.length).length = A.length := by simp; omega
  have k2 : (x₁.drop A.length).length = lo.length + l₁.length := by simp; omega
  have k3 : (x₄.take l₂.length).length = l₂.length := by simp; omega
  have hp := permuteSlots_signedSwap (x₁.drop A.length) (x₄.take l₂.length) a c s s' (n + n + 2) (n + l₁.length) (n + l₁.length + 1) (by omega)
    (by omega) (by simp only [List.length_append, List.length_cons]; omega)
  have := SymStep.slots (dummies := dummies) (v := v) e k _ (x₁.take A.length) (x₁.drop A.length ++ a :: c :: x₄.take l₂.length)
    (x₁.drop A.length ++ c :: a :: x₄.take l₂.length) (x₄.drop l₂.length) s s' s' s (by rw [k1]; exact hat)
    (hg ▸ mem_asymGens_lower (i := l₁.length) (by omega)) (by simp only [List.length_append, List.length_cons]; omega) hp
  have e2 : ∀ a c : Nat, x₁ ++ [a] ++ [c] ++ x₄ = x₁.take A.length ++ (x₁.drop A.length ++ a :: c :: x₄.take l₂.length) ++ x₄.drop l₂.length := by
    intro a c
    conv_lhs => rw [← List.take_append_drop A.length x₁, ← List.take_append_drop l₂.length x₄]
    simp only [List.append_assoc, List.cons_append, List.nil_append]
  rw [e2 a c, e2 c a]
  exact this

/-- Exchange of the upper and the lower labels. -/
theorem leads_halves {D : List Index} {dummies : List (Nat × Nat)} {v : List SlotGroup} {e : SlotGroup} {k n : Nat} {A B lo up : List Index}
    (hat : e.At v k A.length) (hs : e.size = n + n) (hg : e.gens = asymGens n n true) (hlo : lo.length = n) (hup : up.length = n) :
    Leads D dummies v (A ++ (lo ++ up) ++ B) (A ++ (up ++ lo) ++ B) false := by
  have e1 : ∀ x y : List Index, A ++ (x ++ y) ++ B = A ++ x ++ y ++ B := by intro x y; simp
  rw [e1, e1]
  refine Leads.blocks fun x₁ x₂ x₃ x₄ h1 h2 h3 h4 s s' => ?_
  have hp := permuteSlots_halves x₂ x₃ s s' n (by omega) (by omega)
  have := SymStep.slots (dummies := dummies) (v := v) e k _ x₁ (x₂ ++ x₃) (x₃ ++ x₂) x₄ s s' s s' (by rw [h1]; exact hat)
    (hg ▸ mem_asymGens_halves) (by simp only [List.length_append]; omega) hp
  simpa [List.append_assoc] using this

/-- Exchange of two neighbouring factors. -/
theorem leads_exchange {D : List Index} {dummies : List (Nat × Nat)} {v : List SlotGroup} {e : SlotGroup} {k : Nat} {A B b b' : List Index}
    (hat : e.At v k A.length) (hk : k + 1 < e.count) (hb : b.length = e.size) (hb' : b'.length = e.size) :
    Leads D dummies v (A ++ b ++ b' ++ B) (A ++ b' ++ b ++ B) false := by
  refine Leads.blocks fun x₁ x₂ x₃ x₄ h1 h2 h3 h4 s s' => ?_
  exact SymStep.exchange (dummies := dummies) (v := v) e k x₁ x₂ x₃ x₄ s s' (by rw [h1]; exact hat) hk (by omega) (by omega)

end Dsrg
