import Verif.Lemmas.OrientationMoves

/-!
The symmetries used by SymPy keep the spaces of the labels in the two halves of every tensor, up to an exchange of the halves.
-/

namespace Dsrg

/-- A property of the class of a tensor and of the spaces of the labels in its two halves. -/
def HalvesHave (Q : TCls → List Space → List Space → Prop) (ts : List Tensor) (bs : List (List Index × List Index)) : Prop :=
  List.Forall₂ (fun t b => Q t.cls (b.1.map Index.space) (b.2.map Index.space)) ts bs

theorem block_halves {hermitian : Bool} {n : Nat} {b b' : List Nat} {flip : Bool} (hm : BlockMove true hermitian n b b' flip) (hb : b.length = n + n) :
    ((b'.take n).Perm (b.take n) ∧ ((b'.drop n).take n).Perm ((b.drop n).take n)) ∨
      ((b'.take n).Perm ((b.drop n).take n) ∧ ((b'.drop n).take n).Perm (b.take n)) := by
  have two : ∀ lo up : List Nat, lo.length = n → up.length = n → (lo ++ up).take n = lo ∧ ((lo ++ up).drop n).take n = up := by
    intro lo up h1 h2
    rw [List.take_left' h1, List.drop_left' h1, List.take_of_length_le h2.le]; exact ⟨rfl, rfl⟩
  cases hm with
  | stay => exact Or.inl ⟨.refl _, .refl _⟩
  | lower pre post up a c _ h1 h2 =>
    rw [(two _ _ h1 h2).1, (two _ _ h1 h2).2, (two _ _ (show (pre ++ c :: a :: post).length = n by simpa using h1) h2).1,
      (two _ _ (show (pre ++ c :: a :: post).length = n by simpa using h1) h2).2]
    exact Or.inl ⟨List.Perm.append_left _ (List.Perm.swap _ _ _), .refl _⟩
  | upper lo pre post a c _ h1 h2 =>
    rw [(two _ _ h1 h2).1, (two _ _ h1 h2).2, (two _ _ h1 (show (pre ++ c :: a :: post).length = n by simpa using h2)).1,
      (two _ _ h1 (show (pre ++ c :: a :: post).length = n by simpa using h2)).2]
    exact Or.inl ⟨.refl _, List.Perm.append_left _ (List.Perm.swap _ _ _)⟩
  | pairs _ _ _ _ _ _ _ _ hf => exact absurd hf (by decide)
  | halves lo up _ h1 h2 =>
    rw [(two _ _ h1 h2).1, (two _ _ h1 h2).2, (two _ _ h2 h1).1, (two _ _ h2 h1).2]
    exact Or.inr ⟨.refl _, .refl _⟩

theorem forall₂_middle {α β : Type} {r : α → β → Prop} {l₁ l₂ : List α} {a : α} {m₁ m₂ : List β} {b : β} (hl : l₁.length = m₁.length) :
    List.Forall₂ r (l₁ ++ a :: l₂) (m₁ ++ b :: m₂) ↔ List.Forall₂ r l₁ m₁ ∧ r a b ∧ List.Forall₂ r l₂ m₂ := by
  constructor
  · intro h
    have h1 := List.forall₂_take_append _ _ _ h
    have h2 := List.forall₂_drop_append _ _ _ h
    rw [List.forall₂_cons_right_iff] at h2
    rw [← hl, List.take_left] at h1
    rw [← hl, List.drop_left] at h2
    obtain ⟨a', l', k1, k2, k3⟩ := h2
    rw [List.cons.injEq] at k3
    obtain ⟨rfl, rfl⟩ := k3
    exact ⟨h1, k1, k2⟩
  · rintro ⟨h1, h2, h3⟩
    exact List.rel_append h1 (.cons h2 h3)

theorem cutTensors_length {α : Type} : ∀ (ts : List Tensor) (L : List α), (cutTensors ts L).length = ts.length := by
  intro ts
  induction ts with
  | nil => intro L; rfl
  | cons t ts ih => intro L; rw [cutTensors, List.length_cons, ih, List.length_cons]

/-- One symmetry. -/
theorem symStep_halves {Q : TCls → List Space → List Space → Prop} (hQ : ∀ c l l' m m', l.Perm l' → m.Perm m' → Q c l m → Q c l' m')
    (hswap : ∀ c l m, Q c l m → Q c m l)
    {ts : List Tensor} {op : SqOp} {hermitian : Bool} {v : List SlotGroup} {D : List Index}
    (hv : bsgsList ts op hermitian = .ok v) (hD : D.Nodup) (hty : ∀ t ∈ ts, t.upper.ty.isAntisym = true) (hop : op.upper.ty.isAntisym = true)
    (hbal : op.nUpper = op.nLower) (hkind : ∀ x ∈ ts, ∀ y ∈ ts, x.name = y.name → x.cls = y.cls)
    {names : List Nat} {s s' : Nat} (hlen : names.length = op.size + slotCount ts) (hr : ∀ n ∈ names, n < 2 * D.length) {y : List Nat}
    (hstep : SymStep (dummyRanges 0 (spaceGroups D)) v (names ++ [s, s']) y) :
    ∃ (names' : List Nat) (flip : Bool), y = names' ++ (if flip then [s', s] else [s, s']) ∧ names'.length = op.size + slotCount ts ∧
      (∀ n ∈ names', n < 2 * D.length) ∧
      (HalvesHave Q ts (cutTensors ts ((names.map (look D)).drop op.size)) → HalvesHave Q ts (cutTensors ts ((names'.map (look D)).drop op.size))) := by
  have hbalT := (bsgsList_ok hv).1
  have hmap : ∀ {l l' : List Nat}, l'.Perm l → ((l.map (look D)).map Index.space).Perm ((l'.map (look D)).map Index.space) := fun h => ((h.map _).map _).symm
  generalize hx : names ++ [s, s'] = x at hstep
  cases hstep with
  | slots e k p before b b' after s₀ s₀' r r' hat hp hb hperm =>
    obtain ⟨rfl, rfl, rfl⟩ := append_two_inj hx
    rcases entry_cases hv hat with ⟨-, hoff, -, -, hsz, hg⟩ | ⟨ts₁, t, ts₂, t₀, hts, hoff, hsz, ht₀, hg, hn₀, -⟩
    · have hb0 : before = [] := List.eq_nil_of_length_eq_zero hoff
      subst hb0
      rw [hsz] at hb
      unfold IndicesPair.opBsgs at hg
      rw [if_pos hop] at hg
      have hb2 : b.length = op.nLower + op.nLower := by rw [hb]; unfold IndicesPair.size; omega
      have hall : ∃ flip, [r, r'] = (if flip then [s', s] else [s, s']) ∧ BlockMove true false op.nLower b b' flip := by
        rcases bsgs_move hg hbal rfl hp hb2 hperm with h | ⟨-, h⟩
        · exact absurd h.1 (by decide)
        · rw [hop] at h
          rcases h with ⟨rfl, rfl, h⟩ | ⟨rfl, rfl, h⟩
          · exact ⟨false, rfl, h⟩
          · exact ⟨true, rfl, h⟩
      obtain ⟨flip, hrr, hm⟩ := hall
      have hpm : ([] ++ b' ++ after).Perm ([] ++ b ++ after) := List.Perm.append_right _ (List.Perm.append_left _ hm.perm)
      refine ⟨[] ++ b' ++ after, flip, by rw [hrr], hpm.length_eq.trans hlen, fun n hn => hr n (hpm.mem_iff.1 hn), fun h => ?_⟩
      have hd : ∀ c : List Nat, c.length = op.size → (([] ++ c ++ after).map (look D)).drop op.size = after.map (look D) := by
        intro c hc
        rw [← List.map_drop, List.nil_append, List.drop_left' hc]
      rw [hd b hb] at h
      rw [hd b' (hm.perm.length_eq.trans hb)]
      exact h
    · have ht : t ∈ ts := by rw [hts]; simp
      have hn := hbalT t ht
      rw [hsz] at hb
      have hb2 : b.length = t.pair.nLower + t.pair.nLower := by rw [hb]; unfold IndicesPair.size; omega
      have hall : ∃ flip, [r, r'] = (if flip then [s', s] else [s, s']) ∧ BlockMove true hermitian t.pair.nLower b b' flip := by
        rcases bsgs_move hg ((hbalT t₀ ht₀).trans hn₀) hn₀ hp hb2 hperm with h | ⟨-, h⟩
        · exact absurd h.1 (by decide)
        · have : t₀.pair.upper.ty.isAntisym = true := hty t₀ ht₀
          rw [this] at h
          rcases h with ⟨rfl, rfl, h⟩ | ⟨rfl, rfl, h⟩
          · exact ⟨false, rfl, h⟩
          · exact ⟨true, rfl, h⟩
      obtain ⟨flip, hrr, hm⟩ := hall
      obtain ⟨B₀, B₁, rfl, hB₀⟩ : ∃ B₀ B₁, before = B₀ ++ B₁ ∧ B₀.length = op.size :=
        ⟨before.take op.size, before.drop op.size, (List.take_append_drop _ _).symm, by simp; omega⟩
      have hB₁ : B₁.length = slotCount ts₁ := by rw [List.length_append] at hoff; omega
      have hpm : (B₀ ++ B₁ ++ b' ++ after).Perm (B₀ ++ B₁ ++ b ++ after) := List.Perm.append_right _ (List.Perm.append_left _ hm.perm)
      refine ⟨B₀ ++ B₁ ++ b' ++ after, flip, by rw [hrr], hpm.length_eq.trans hlen, fun n hn => hr n (hpm.mem_iff.1 hn), fun h => ?_⟩
      have hcut : ∀ c : List Nat, c.length = t.pair.size → cutTensors ts (((B₀ ++ B₁ ++ c ++ after).map (look D)).drop op.size) =
          cutTensors ts₁ (B₁.map (look D)) ++ ((c.take t.pair.nLower).map (look D), ((c.drop t.pair.nLower).take t.pair.nLower).map (look D)) ::
            cutTensors ts₂ (after.map (look D)) := by
        intro c hc
        have e : B₀ ++ B₁ ++ c ++ after = B₀ ++ (B₁ ++ (c ++ after)) := by simp
        rw [← List.map_drop, e, List.drop_left' hB₀, List.map_append, hts, cutTensors_append _ _ _ _ (by simpa using hB₁), List.map_append,
          cutTensors_cons _ _ _ _ (by simpa using hc), hn, List.map_take, List.map_take, List.map_drop]
      rw [hcut b hb] at h
      rw [hcut b' (hm.perm.length_eq.trans hb)]
      unfold HalvesHave at h ⊢
      rw [hts, forall₂_middle (cutTensors_length _ _).symm] at h ⊢
      obtain ⟨h1, h2, h4⟩ := h
      refine ⟨h1, ?_, h4⟩
      rcases block_halves hm hb2 with ⟨q1, q2⟩ | ⟨q1, q2⟩
      · exact hQ _ _ _ _ _ (hmap q1) (hmap q2) h2
      · exact hQ _ _ _ _ _ (hmap q1) (hmap q2) (hswap _ _ _ h2)
  | exchange e k before b b' after s₀ s₀' hat hk hb hb' =>
    obtain ⟨rfl, rfl, rfl⟩ := append_two_inj hx
    have hpm : (before ++ b' ++ b ++ after).Perm (before ++ b ++ b' ++ after) := by
      apply List.Perm.append_right
      rw [List.append_assoc, List.append_assoc]
      exact List.Perm.append_left _ List.perm_append_comm
    refine ⟨before ++ b' ++ b ++ after, false, rfl, hpm.length_eq.trans hlen, fun n hn => hr n (hpm.mem_iff.1 hn), fun h => ?_⟩
    rcases entry_cases hv hat with ⟨-, -, -, hc, -⟩ | ⟨ts₁, t, ts₂, t₀, hts, hoff, hsz, ht₀, hg, hn₀, hnext⟩
    · omega
    · obtain ⟨t', ts₃, rfl, hname, hnl⟩ := hnext hk
      have ht : t ∈ ts := by rw [hts]; simp
      have ht' : t' ∈ ts := by rw [hts]; simp
      have hn := hbalT t ht
      have hn' := hbalT t' ht'
      have hcls := hkind t' ht' t ht hname
      rw [hsz] at hb hb'
      have hsz' : t'.pair.size = t.pair.size := by unfold IndicesPair.size; omega
      obtain ⟨B₀, B₁, rfl, hB₀⟩ : ∃ B₀ B₁, before = B₀ ++ B₁ ∧ B₀.length = op.size :=
        ⟨before.take op.size, before.drop op.size, (List.take_append_drop _ _).symm, by simp; omega⟩
      have hB₁ : B₁.length = slotCount ts₁ := by rw [List.length_append] at hoff; omega
      have hcut : ∀ c c' : List Nat, c.length = t.pair.size → c'.length = t.pair.size →
          cutTensors ts (((B₀ ++ B₁ ++ c ++ c' ++ after).map (look D)).drop op.size) =
          cutTensors ts₁ (B₁.map (look D)) ++ ((c.take t.pair.nLower).map (look D), ((c.drop t.pair.nLower).take t.pair.nLower).map (look D)) ::
            ((c'.take t.pair.nLower).map (look D), ((c'.drop t.pair.nLower).take t.pair.nLower).map (look D)) :: cutTensors ts₃ (after.map (look D)) := by
        intro c c' hc hc'
        have e : B₀ ++ B₁ ++ c ++ c' ++ after = B₀ ++ (B₁ ++ (c ++ (c' ++ after))) := by simp
        rw [← List.map_drop, e, List.drop_left' hB₀, List.map_append, hts, cutTensors_append _ _ _ _ (by simpa using hB₁), List.map_append,
          cutTensors_cons _ _ _ _ (by simpa using hc), List.map_append, cutTensors_cons _ _ _ _ (by rw [hsz']; simpa using hc'), hn, hn', hnl]
        simp only [List.map_take, List.map_drop]
      rw [hcut b b' hb hb'] at h
      rw [hcut b' b hb' hb]
      unfold HalvesHave at h ⊢
      rw [hts, forall₂_middle (cutTensors_length _ _).symm, List.forall₂_cons] at h ⊢
      obtain ⟨h1, h2, h3, h4⟩ := h
      rw [hcls] at h3 ⊢
      exact ⟨h1, h3, h2, h4⟩
  | ends d i g s₀ s₀' hd h1 h2 =>
    obtain ⟨rfl, rfl, rfl⟩ := append_two_inj hx
    obtain ⟨hi, -, -⟩ := dummy_space hd h1 h2 h1 h2
    refine ⟨names.map (Equiv.swap (2 * i) (2 * i + 1)), false, rfl, by simpa using hlen, ?_, fun h => ?_⟩
    · intro n hn
      obtain ⟨m, hm, rfl⟩ := List.mem_map.1 hn
      exact swap_lt (by omega) (by omega) _ (hr m hm)
    · rw [List.map_map]
      have : (look D ∘ ⇑(Equiv.swap (2 * i) (2 * i + 1))) = look D := by funext n; exact look_swap_ends D i n
      rw [this]; exact h
  | rename d i j g s₀ s₀' hd h1 h2 h3 h4 =>
    obtain ⟨rfl, rfl, rfl⟩ := append_two_inj hx
    obtain ⟨hi, hj, hsp⟩ := dummy_space hd h1 h2 h3 h4
    refine ⟨names.map (renamePair i j), false, rfl, by simpa using hlen, ?_, fun h => ?_⟩
    · intro n hn
      obtain ⟨m, hm, rfl⟩ := List.mem_map.1 hn
      exact swap_lt (by omega) (by omega) _ (swap_lt (by omega) (by omega) _ (hr m hm))
    · have e : (names.map (renamePair i j)).map (look D) = (names.map (look D)).map (Equiv.swap D[i] D[j]) := by
        rw [List.map_map, List.map_map]
        apply List.map_congr_left
        intro n hn
        exact look_renamePair hD hi hj (hr n hn)
      rw [e, ← List.map_drop (f := ⇑(Equiv.swap D[i] D[j])), cutTensors_map]
      have hsp' : ∀ m, (Equiv.swap D[i] D[j] m).space = m.space := by
        intro m
        rw [Equiv.swap_apply_def]
        split_ifs with k1 k2
        · rw [k1, hsp]
        · rw [k2, hsp]
        · rfl
      unfold HalvesHave at h ⊢
      rw [List.forall₂_map_right_iff]
      refine h.imp fun t b hb => ?_
      have es : ∀ l : List Index, (l.map ⇑(Equiv.swap D[i] D[j])).map Index.space = l.map Index.space := by
        intro l
        rw [List.map_map]
        exact List.map_congr_left fun m _ => hsp' m
      simp only [mapBlock, es]
      exact hb

/-- Any number of symmetries. -/
theorem symSteps_halves {Q : TCls → List Space → List Space → Prop} (hQ : ∀ c l l' m m', l.Perm l' → m.Perm m' → Q c l m → Q c l' m')
    (hswap : ∀ c l m, Q c l m → Q c m l)
    {ts : List Tensor} {op : SqOp} {hermitian : Bool} {v : List SlotGroup} {D : List Index}
    (hv : bsgsList ts op hermitian = .ok v) (hD : D.Nodup) (hty : ∀ t ∈ ts, t.upper.ty.isAntisym = true) (hop : op.upper.ty.isAntisym = true)
    (hbal : op.nUpper = op.nLower) (hkind : ∀ x ∈ ts, ∀ y ∈ ts, x.name = y.name → x.cls = y.cls)
    {names : List Nat} {s s' : Nat} (hlen : names.length = op.size + slotCount ts) (hr : ∀ n ∈ names, n < 2 * D.length) {y : List Nat}
    (hsteps : Relation.ReflTransGen (SymStep (dummyRanges 0 (spaceGroups D)) v) (names ++ [s, s']) y) :
    ∃ (names' : List Nat) (flip : Bool), y = names' ++ (if flip then [s', s] else [s, s']) ∧ names'.length = op.size + slotCount ts ∧
      (∀ n ∈ names', n < 2 * D.length) ∧
      (HalvesHave Q ts (cutTensors ts ((names.map (look D)).drop op.size)) → HalvesHave Q ts (cutTensors ts ((names'.map (look D)).drop op.size))) := by
  induction hsteps with
  | refl => exact ⟨names, false, rfl, hlen, hr, id⟩
  | @tail _ z _ hstep ih =>
    obtain ⟨names₁, f₁, rfl, hl₁, hr₁, hκ₁⟩ := ih
    cases f₁
    · obtain ⟨names₂, f₂, rfl, hl₂, hr₂, hκ₂⟩ := symStep_halves hQ hswap hv hD hty hop hbal hkind hl₁ hr₁ hstep
      exact ⟨names₂, f₂, rfl, hl₂, hr₂, fun h => hκ₂ (hκ₁ h)⟩
    · obtain ⟨names₂, f₂, rfl, hl₂, hr₂, hκ₂⟩ := symStep_halves hQ hswap hv hD hty hop hbal hkind hl₁ hr₁ hstep
      exact ⟨names₂, !f₂, by cases f₂ <;> rfl, hl₂, hr₂, fun h => hκ₂ (hκ₁ h)⟩

end Dsrg
