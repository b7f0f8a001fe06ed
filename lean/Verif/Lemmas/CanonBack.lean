import Verif.Lemmas.CanonSymm
import Verif.Lemmas.SympyTidy
import Verif.Lemmas.Singlet

/-!
The symmetries applied by SymPy are changes of notation of the term.
-/

namespace Dsrg

/-- The labels of one block before and after a move, as changes of notation of a tensor. -/
theorem tensor_move_same {hermitian : Bool} {n : Nat} {b b' : List Nat} {flip : Bool} (h : BlockMove true hermitian n b b' flip) (t : Tensor)
    (hnU : t.pair.nUpper = n) (hnL : t.pair.nLower = n) (g : Nat → Index) (c : ℚ) (ts₁ ts₂ : List Tensor) (op : SqOp) :
    SameUpToNotation hermitian c (ts₁ ++ t.refill (b.map g) :: ts₂) op (if flip then -c else c) (ts₁ ++ t.refill (b'.map g) :: ts₂) op := by
  have hre : ∀ lo up : List Nat, lo.length = n → up.length = n →
      t.refill ((lo ++ up).map g) = ⟨t.cls, t.name, t.priority, ⟨⟨t.upper.ty, up.map g⟩, ⟨t.upper.ty, lo.map g⟩⟩⟩ := by
    intro lo up h1 h2
    unfold Tensor.refill
    have e1 : (lo.map g).length = n := by simpa using h1
    have e2 : (up.map g).length = n := by simpa using h2
    have e3 : (lo.map g ++ up.map g).drop n = up.map g := by rw [← e1, List.drop_left]
    have e4 : (lo.map g ++ up.map g).take n = lo.map g := by rw [← e1, List.take_left]
    have e5 : (up.map g).take n = up.map g := by rw [← e2, List.take_length]
    rw [hnU, hnL, List.map_append, e3, e4, e5]
  cases h with
  | stay b => exact .refl
  | lower pre post up a c' ha h1 h2 =>
    rw [hre _ _ h1 h2, hre _ _ (by simpa using h1) h2]
    have key := Rewrites.lower (hermitian := hermitian) c ts₁ ts₂
      ⟨t.cls, t.name, t.priority, ⟨⟨t.upper.ty, up.map g⟩, ⟨t.upper.ty, (pre ++ a :: c' :: post).map g⟩⟩⟩ op (pre.map g) (post.map g) (g a) (g c')
      (by simp [Tensor.lower])
    refine .single ?_
    simpa [Tensor.withLabels, Tensor.upper, Tensor.lower] using key
  | upper lo pre post a c' ha h1 h2 =>
    rw [hre _ _ h1 h2, hre _ _ h1 (by simpa using h2)]
    have key := Rewrites.upper (hermitian := hermitian) c ts₁ ts₂
      ⟨t.cls, t.name, t.priority, ⟨⟨t.upper.ty, (pre ++ a :: c' :: post).map g⟩, ⟨t.upper.ty, lo.map g⟩⟩⟩ op (pre.map g) (post.map g) (g a) (g c')
      (by simp [Tensor.upper])
    refine .single ?_
    simpa [Tensor.withLabels, Tensor.upper, Tensor.lower] using key
  | pairs _ _ _ _ _ _ _ _ ha => cases ha
  | halves lo up hh h1 h2 =>
    rw [hre _ _ h1 h2, hre _ _ h2 h1]
    exact .single (Rewrites.adjoint (hermitian := hermitian) c ts₁ ts₂
      ⟨t.cls, t.name, t.priority, ⟨⟨t.upper.ty, up.map g⟩, ⟨t.upper.ty, lo.map g⟩⟩⟩ op hh)

theorem op_move_same {hermitian : Bool} {n : Nat} {b b' : List Nat} {flip : Bool} (h : BlockMove true false n b b' flip) (op : SqOp)
    (hnU : op.nUpper = n) (hnL : op.nLower = n) (g : Nat → Index) (c : ℚ) (ts : List Tensor) :
    SameUpToNotation hermitian c ts (op.refill (b.map g)) (if flip then -c else c) ts (op.refill (b'.map g)) := by
  have hre : ∀ lo up : List Nat, lo.length = n → up.length = n →
      op.refill ((lo ++ up).map g) = ⟨⟨op.upper.ty, up.map g⟩, ⟨op.upper.ty, lo.map g⟩⟩ := by
    intro lo up h1 h2
    unfold IndicesPair.refill
    have e1 : (lo.map g).length = n := by simpa using h1
    have e2 : (up.map g).length = n := by simpa using h2
    have e3 : (lo.map g ++ up.map g).drop n = up.map g := by rw [← e1, List.drop_left]
    have e4 : (lo.map g ++ up.map g).take n = lo.map g := by rw [← e1, List.take_left]
    have e5 : (up.map g).take n = up.map g := by rw [← e2, List.take_length]
    rw [hnU, hnL, List.map_append, e3, e4, e5]
  cases h with
  | stay b => exact .refl
  | lower pre post up a c' ha h1 h2 =>
    rw [hre _ _ h1 h2, hre _ _ (by simpa using h1) h2]
    have key := Rewrites.opLower (hermitian := hermitian) c ts
      ⟨⟨op.upper.ty, up.map g⟩, ⟨op.upper.ty, (pre ++ a :: c' :: post).map g⟩⟩ (pre.map g) (post.map g) (g a) (g c') (by simp)
    refine .single ?_
    simpa [SqOp.withLabels] using key
  | upper lo pre post a c' ha h1 h2 =>
    rw [hre _ _ h1 h2, hre _ _ h1 (by simpa using h2)]
    have key := Rewrites.opUpper (hermitian := hermitian) c ts
      ⟨⟨op.upper.ty, (pre ++ a :: c' :: post).map g⟩, ⟨op.upper.ty, lo.map g⟩⟩ (pre.map g) (post.map g) (g a) (g c') (by simp)
    refine .single ?_
    simpa [SqOp.withLabels] using key
  | pairs _ _ _ _ _ _ _ _ ha => cases ha
  | halves lo up hh h1 h2 => cases hh

theorem refillAll_classes : ∀ (ts : List Tensor) (L : List Index), ∀ x ∈ refillAll ts L, x.lower.ty = x.upper.ty := by
  intro ts
  induction ts with
  | nil => intro L x hx; simp [refillAll] at hx
  | cons t ts ih =>
    intro L x hx
    rw [refillAll, List.mem_cons] at hx
    rcases hx with rfl | hx
    · rfl
    · exact ih _ x hx

/-- The term with the labels `L` in its slots. -/
def FillSame (hermitian : Bool) (ts : List Tensor) (op : SqOp) (L L' : List Index) (flip : Bool) : Prop :=
  ∀ c : ℚ, SameUpToNotation hermitian c (refillAll ts (L.drop op.size)) (op.refill L) (if flip then -c else c) (refillAll ts (L'.drop op.size)) (op.refill L')

theorem refill_split (ts₁ ts₂ : List Tensor) (t : Tensor) (op : SqOp) (B₀ B₁ b A : List Index) (h0 : B₀.length = op.size)
    (h1 : B₁.length = slotCount ts₁) (hb : b.length = t.pair.size) :
    refillAll (ts₁ ++ t :: ts₂) ((B₀ ++ (B₁ ++ (b ++ A))).drop op.size) = refillAll ts₁ B₁ ++ t.refill b :: refillAll ts₂ A ∧
      op.refill (B₀ ++ (B₁ ++ (b ++ A))) = op.refill B₀ := by
  refine ⟨?_, op.refill_append _ _ h0⟩
  rw [← h0, List.drop_left, refillAll_append _ _ _ _ h1, refillAll_cons _ _ _ _ hb]

theorem symStep_same {ts : List Tensor} {op : SqOp} {hermitian : Bool} {v : List SlotGroup} {D : List Index}
    (hv : bsgsList ts op hermitian = .ok v) (hD : D.Nodup) (hty : ∀ t ∈ ts, t.upper.ty = op.upper.ty) (hop : op.upper.ty.isAntisym = true)
    (hbal : op.nUpper = op.nLower) (hkind : ∀ x ∈ ts, ∀ y ∈ ts, x.name = y.name → x.cls = y.cls ∧ x.priority = y.priority)
    {names : List Nat} {s s' : Nat} (hlen : names.length = op.size + slotCount ts) {y : List Nat}
    (hstep : SymStep (dummyRanges 0 (spaceGroups D)) v (names ++ [s, s']) y) :
    ∃ (names' : List Nat) (flip : Bool), y = names' ++ (if flip then [s', s] else [s, s']) ∧ names'.length = op.size + slotCount ts ∧
      ((∀ n ∈ names', n < 2 * D.length) → ∀ n ∈ names, n < 2 * D.length) ∧
      ((∀ n ∈ names, n < 2 * D.length) → FillSame hermitian ts op (names.map (look D)) (names'.map (look D)) flip) := by
  have hbalT := (bsgsList_ok hv).1
  generalize hx : names ++ [s, s'] = x at hstep
  cases hstep with
  | slots e k p before b b' after s₀ s₀' r r' hat hp hb hperm =>
    obtain ⟨rfl, rfl, rfl⟩ := append_two_inj hx
    have finish : ∀ flip : Bool, b'.Perm b →
        FillSame hermitian ts op ((before ++ b ++ after).map (look D)) ((before ++ b' ++ after).map (look D)) flip →
        [r, r'] = (if flip then [s', s] else [s, s']) →
        ∃ (names' : List Nat) (flip : Bool), before ++ b' ++ after ++ [r, r'] = names' ++ (if flip then [s', s] else [s, s']) ∧
          names'.length = op.size + slotCount ts ∧
          ((∀ n ∈ names', n < 2 * D.length) → ∀ n ∈ before ++ b ++ after, n < 2 * D.length) ∧
          ((∀ n ∈ before ++ b ++ after, n < 2 * D.length) →
            FillSame hermitian ts op ((before ++ b ++ after).map (look D)) (names'.map (look D)) flip) := by
      intro flip hpm hval hr
      have hpm' : (before ++ b' ++ after).Perm (before ++ b ++ after) := (List.Perm.append_left _ hpm).append_right _
      refine ⟨before ++ b' ++ after, flip, by rw [hr], hpm'.length_eq.trans hlen, ?_, fun _ => hval⟩
      intro h n hn; exact h n (hpm'.mem_iff.2 hn)
    rcases entry_cases hv hat with ⟨-, hoff, -, -, hsz, hg⟩ | ⟨ts₁, t, ts₂, t₀, hts, hoff, hsz, ht₀, hg, hn₀, -⟩
    · have hb0 : before = [] := List.eq_nil_of_length_eq_zero hoff
      subst hb0
      rw [hsz] at hb
      unfold IndicesPair.opBsgs at hg
      have hb2 : b.length = op.nLower + op.nLower := by rw [hb]; unfold IndicesPair.size; omega
      have hall : (r = s ∧ r' = s' ∧ BlockMove true false op.nLower b b' false) ∨ (r = s' ∧ r' = s ∧ BlockMove true false op.nLower b b' true) := by
        rw [if_pos hop] at hg
        rcases bsgs_move hg hbal rfl hp hb2 hperm with h | ⟨-, h⟩
        · exact absurd h.1 (by decide)
        · rw [hop] at h; exact h
      have opFinish : ∀ flip : Bool, BlockMove true false op.nLower b b' flip → [r, r'] = (if flip then [s', s] else [s, s']) → _ :=
        fun (flip : Bool) hm hr => finish flip hm.perm (by
          intro c
          have e : ∀ q : List Nat, q.length = op.size → op.refill (([] ++ q ++ after).map (look D)) = op.refill (q.map (look D)) ∧
              refillAll ts ((([] ++ q ++ after).map (look D)).drop op.size) = refillAll ts (after.map (look D)) := by
            intro q hq
            rw [List.nil_append, List.map_append, op.refill_append _ _ (by simpa using hq)]
            refine ⟨rfl, ?_⟩
            rw [show op.size = (q.map (look D)).length by simpa using hq.symm, List.drop_left]
          rw [(e b hb).1, (e b hb).2, (e b' (hm.perm.length_eq.trans hb)).1, (e b' (hm.perm.length_eq.trans hb)).2]
          exact op_move_same hm op hbal rfl _ _ _) hr
      rcases hall with ⟨rfl, rfl, hm⟩ | ⟨rfl, rfl, hm⟩
      · exact opFinish false hm rfl
      · exact opFinish true hm rfl
    · have ht : t ∈ ts := by rw [hts]; simp
      have hn := hbalT t ht
      rw [hsz] at hb
      have hb2 : b.length = t.pair.nLower + t.pair.nLower := by rw [hb]; unfold IndicesPair.size; omega
      have hall := bsgs_move hg ((hbalT t₀ ht₀).trans hn₀) hn₀ hp hb2 hperm
      have hty₀ : t₀.pair.upper.ty.isAntisym = true := by
        have := hty t₀ ht₀
        rw [← hop, ← this]
      rw [hty₀] at hall
      obtain ⟨B₀, B₁, rfl, hB₀⟩ : ∃ B₀ B₁, before = B₀ ++ B₁ ∧ B₀.length = op.size :=
        ⟨before.take op.size, before.drop op.size, (List.take_append_drop _ _).symm, by simp; omega⟩
      have hB₁ : B₁.length = slotCount ts₁ := by rw [List.length_append] at hoff; omega
      have tFinish : ∀ flip : Bool, BlockMove true hermitian t.pair.nLower b b' flip → [r, r'] = (if flip then [s', s] else [s, s']) → _ :=
        fun (flip : Bool) hm hr => finish flip hm.perm (by
          intro c
          have e : ∀ c : List Nat, (B₀ ++ B₁ ++ c ++ after).map (look D) =
              B₀.map (look D) ++ (B₁.map (look D) ++ (c.map (look D) ++ after.map (look D))) := by intro c; simp
          obtain ⟨e1, e2⟩ := refill_split ts₁ ts₂ t op (B₀.map (look D)) (B₁.map (look D)) (b.map (look D)) (after.map (look D)) (by simpa using hB₀)
            (by simpa using hB₁) (by simpa using hb)
          obtain ⟨e3, e4⟩ := refill_split ts₁ ts₂ t op (B₀.map (look D)) (B₁.map (look D)) (b'.map (look D)) (after.map (look D)) (by simpa using hB₀)
            (by simpa using hB₁) (by rw [List.length_map, hm.perm.length_eq]; exact hb)
          rw [e, e, hts, e1, e2, e3, e4]
          exact tensor_move_same hm t hn rfl _ _ _ _ _) hr
      rcases hall with h | ⟨-, ⟨rfl, rfl, hm⟩ | ⟨rfl, rfl, hm⟩⟩
      · exact absurd h.1 (by decide)
      · exact tFinish false hm rfl
      · exact tFinish true hm rfl
  | exchange e k before b b' after s₀ s₀' hat hk hb hb' =>
    obtain ⟨rfl, rfl, rfl⟩ := append_two_inj hx
    have hpm : (before ++ b' ++ b ++ after).Perm (before ++ b ++ b' ++ after) := by
      apply List.Perm.append_right
      rw [List.append_assoc, List.append_assoc]
      exact List.Perm.append_left _ List.perm_append_comm
    refine ⟨before ++ b' ++ b ++ after, false, rfl, hpm.length_eq.trans hlen, fun h n hn => h n (hpm.mem_iff.2 hn), fun _ => ?_⟩
    rcases entry_cases hv hat with ⟨-, -, -, hc, -⟩ | ⟨ts₁, t, ts₂, t₀, hts, hoff, hsz, ht₀, hg, hn₀, hnext⟩
    · omega
    · obtain ⟨t', ts₃, rfl, hname, hnl⟩ := hnext hk
      have ht : t ∈ ts := by rw [hts]; simp
      have ht' : t' ∈ ts := by rw [hts]; simp
      have hn := hbalT t ht
      have hn' := hbalT t' ht'
      obtain ⟨hcls, hprio⟩ := hkind t' ht' t ht hname
      have htyp : t'.upper.ty = t.upper.ty := (hty t' ht').trans (hty t ht).symm
      rw [hsz] at hb hb'
      have hsz' : t'.pair.size = t.pair.size := by unfold IndicesPair.size; omega
      obtain ⟨B₀, B₁, rfl, hB₀⟩ : ∃ B₀ B₁, before = B₀ ++ B₁ ∧ B₀.length = op.size :=
        ⟨before.take op.size, before.drop op.size, (List.take_append_drop _ _).symm, by simp; omega⟩
      have hB₁ : B₁.length = slotCount ts₁ := by rw [List.length_append] at hoff; omega
      have e : ∀ c c' : List Nat, (B₀ ++ B₁ ++ c ++ c' ++ after).map (look D) =
          B₀.map (look D) ++ (B₁.map (look D) ++ (c.map (look D) ++ (c'.map (look D) ++ after.map (look D)))) := by intro c c'; simp
      have htv : ∀ c : List Index, t'.refill c = t.refill c := by
        intro c
        unfold Tensor.refill
        simp only [hname, hcls, hprio, hnl, hn, hn', htyp]
      intro c
      obtain ⟨e1, e2⟩ := refill_split ts₁ (t' :: ts₃) t op (B₀.map (look D)) (B₁.map (look D)) (b.map (look D)) (b'.map (look D) ++ after.map (look D))
        (by simpa using hB₀) (by simpa using hB₁) (by simpa using hb)
      obtain ⟨e3, e4⟩ := refill_split ts₁ (t' :: ts₃) t op (B₀.map (look D)) (B₁.map (look D)) (b'.map (look D)) (b.map (look D) ++ after.map (look D))
        (by simpa using hB₀) (by simpa using hB₁) (by simpa using hb')
      rw [e, e, hts, e1, e2, e3, e4, refillAll_cons _ _ _ _ (by rw [hsz']; simpa using hb'), refillAll_cons _ _ _ _ (by rw [hsz']; simpa using hb),
        htv, htv]
      exact .single (Rewrites.reorder c _ _ _ ((List.Perm.swap _ _ _).append_left _))
  | ends d i g s₀ s₀' hd h1 h2 =>
    obtain ⟨rfl, rfl, rfl⟩ := append_two_inj hx
    obtain ⟨hi, -, -⟩ := dummy_space hd h1 h2 h1 h2
    refine ⟨names.map (Equiv.swap (2 * i) (2 * i + 1)), false, rfl, by simpa using hlen, ?_, ?_⟩
    · intro h n hn
      have := swap_lt (n := 2 * D.length) (i := 2 * i) (j := 2 * i + 1) (by omega) (by omega) _ (h _ (List.mem_map_of_mem hn))
      rwa [Equiv.swap_apply_self] at this
    · intro _ c
      rw [List.map_map]
      have : (look D ∘ ⇑(Equiv.swap (2 * i) (2 * i + 1))) = look D := by funext n; exact look_swap_ends D i n
      rw [this]
      exact .refl
  | rename d i j g s₀ s₀' hd h1 h2 h3 h4 =>
    obtain ⟨rfl, rfl, rfl⟩ := append_two_inj hx
    obtain ⟨hi, hj, hsp⟩ := dummy_space hd h1 h2 h3 h4
    refine ⟨names.map (renamePair i j), false, rfl, by simpa using hlen, ?_, ?_⟩
    · intro h n hn
      have := h _ (List.mem_map_of_mem hn)
      rcases renamePair_cases i j n with ⟨h1, h2⟩ | ⟨h1, h2⟩ | ⟨h1, h2, h3⟩
      · omega
      · omega
      · rwa [h3] at this
    · intro h c
      have e : (names.map (renamePair i j)).map (look D) = (names.map (look D)).map (Equiv.swap D[i] D[j]) := by
        rw [List.map_map, List.map_map]
        apply List.map_congr_left
        intro n hn
        exact look_renamePair hD hi hj (h n hn)
      have hspace : ∀ m : Index, (Equiv.swap D[i] D[j] m).space = m.space := by
        intro m
        rw [Equiv.swap_apply_def]
        split_ifs with k1 k2
        · rw [k1, hsp]
        · rw [k2, hsp]
        · rfl
      rw [e, ← List.map_drop (f := Equiv.swap D[i] D[j]), refillAll_map, refill_map]
      refine SameUpToNotation.relabel c (fun a _ b _ h => Equiv.injective _ h) (fun i _ => hspace i) ?_ rfl
      intro x hx
      exact refillAll_classes _ _ x hx

theorem symSteps_same {ts : List Tensor} {op : SqOp} {hermitian : Bool} {v : List SlotGroup} {D : List Index}
    (hv : bsgsList ts op hermitian = .ok v) (hD : D.Nodup) (hty : ∀ t ∈ ts, t.upper.ty = op.upper.ty) (hop : op.upper.ty.isAntisym = true)
    (hbal : op.nUpper = op.nLower) (hkind : ∀ x ∈ ts, ∀ y ∈ ts, x.name = y.name → x.cls = y.cls ∧ x.priority = y.priority)
    {names : List Nat} {s s' : Nat} (hlen : names.length = op.size + slotCount ts) {y : List Nat}
    (hsteps : Relation.ReflTransGen (SymStep (dummyRanges 0 (spaceGroups D)) v) (names ++ [s, s']) y) :
    ∃ (names' : List Nat) (flip : Bool), y = names' ++ (if flip then [s', s] else [s, s']) ∧ names'.length = op.size + slotCount ts ∧
      ((∀ n ∈ names', n < 2 * D.length) → (∀ n ∈ names, n < 2 * D.length) ∧
        FillSame hermitian ts op (names.map (look D)) (names'.map (look D)) flip) := by
  induction hsteps with
  | refl => exact ⟨names, false, rfl, hlen, fun h => ⟨h, fun c => .refl⟩⟩
  | @tail _ z _ hstep ih =>
    obtain ⟨names₁, f₁, rfl, hl₁, hr₁⟩ := ih
    have main : ∃ (names₂ : List Nat) (f₂ : Bool), z = names₂ ++ (if f₂ then (if f₁ then [s, s'] else [s', s]) else (if f₁ then [s', s] else [s, s'])) ∧
        names₂.length = op.size + slotCount ts ∧ ((∀ n ∈ names₂, n < 2 * D.length) → ∀ n ∈ names₁, n < 2 * D.length) ∧
        ((∀ n ∈ names₁, n < 2 * D.length) → FillSame hermitian ts op (names₁.map (look D)) (names₂.map (look D)) f₂) := by
      cases f₁
      · exact symStep_same hv hD hty hop hbal hkind hl₁ hstep
      · exact symStep_same hv hD hty hop hbal hkind hl₁ hstep
    obtain ⟨names₂, f₂, rfl, hl₂, h1, h2⟩ := main
    refine ⟨names₂, f₁ ^^ f₂, by cases f₁ <;> cases f₂ <;> rfl, hl₂, fun h => ?_⟩
    obtain ⟨k1, k2⟩ := hr₁ (h1 h)
    refine ⟨k1, fun c => ?_⟩
    have key := Relation.ReflTransGen.trans (k2 c) (h2 (h1 h) (if f₁ then -c else c))
    have e : (if f₂ then -(if f₁ then -c else c) else (if f₁ then -c else c)) = if f₁ ^^ f₂ then -c else c := by
      cases f₁ <;> cases f₂ <;> simp
    rw [e] at key
    exact key

/-- What follows simplification in `canonicalize_sympy` is a change of notation. -/
theorem sympyTail_back {canon : List Nat → List (Nat × Nat) → List SlotGroup → Option (List Nat)} (hcanon : CanonContract canon)
    {s r : Term} {hermitian : Bool} (hs : labelsOf s.tensors s.sqOp ⊆ s.indicesSet) (hanti : s.sqOp.upper.ty.isAntisym = true)
    (hty : ∀ x ∈ s.tensors, x.upper.ty = s.sqOp.upper.ty)
    (hcl : ∀ x ∈ s.tensors, x.lower.ty = x.upper.ty) (hopcl : s.sqOp.lower.ty = s.sqOp.upper.ty)
    (hbal : s.sqOp.upper.list.length = s.sqOp.lower.list.length)
    (hkind : ∀ x ∈ s.tensors, ∀ y ∈ s.tensors, x.name = y.name → x.cls = y.cls ∧ x.priority = y.priority) (hvoid : s.isVoid = false)
    (h : sympyTail canon hermitian s = .ok r) :
    SameUpToNotation hermitian s.coeff s.tensors s.sqOp r.coeff r.tensors r.sqOp := by
  unfold sympyTail at h
  rw [if_neg (by simp [hvoid])] at h
  simp only [] at h
  obtain ⟨names, hnames, h⟩ := bind_ok h
  obtain ⟨v, hv, h⟩ := bind_ok h
  split_ifs at h with hperm
  cases hgc : canon (names ++ [names.length, names.length + 1]) (dummyRanges 0 (spaceGroups (sortedDummies s.minimalIndices))) v with
  | none => rw [hgc] at h; simp at h
  | some gc =>
  rw [hgc] at h
  simp only [] at h
  obtain ⟨op, hop, h⟩ := bind_ok h
  obtain ⟨ts, hts, hr⟩ := bind_ok h
  set D := sortedDummies s.minimalIndices with hDdef
  set f := dictFun s.minimalIndices with hf
  obtain ⟨hD, hDm⟩ := sortedDummies_spec hs
  rw [← hDdef] at hD hDm
  obtain ⟨next, hm, hkeys⟩ := minimalIndices_spec s hs
  have hnl := (slotNames_spec (realizes_dictFind _) _ _ _ hnames).1
  rw [slotLabels_length] at hnl
  obtain ⟨rfl, hop2⟩ := rebuildOp_ok hop
  obtain ⟨rfl, hts2⟩ := rebuildTensors_ok hts
  obtain ⟨-, -, -, rfl⟩ := Term.make_ok.1 hr
  obtain ⟨names', flip, rfl, hl', hval⟩ := symSteps_same hv hD hty hanti hbal hkind hnl (hcanon.reach _ _ _ _ hgc)
  have hsplit : names' = names'.take s.sqOp.size ++ names'.drop s.sqOp.size := (List.take_append_drop _ _).symm
  have htk : (names'.take s.sqOp.size).length = s.sqOp.size := by simp; omega
  have hdl : (names'.drop s.sqOp.size).length = slotCount s.tensors := by simp; omega
  have hrange : ∀ n ∈ names', n < 2 * D.length := by
    intro n hn
    rw [hsplit, List.mem_append] at hn
    rcases hn with hn | hn
    · exact hop2 n (by rw [List.take_append_of_le_length (by omega)]; exact hn)
    · refine hts2 n ?_
      rw [List.drop_append_of_le_length (by omega), List.take_append_of_le_length (by omega), ← hdl, List.take_length]; exact hn
  obtain ⟨hrange0, hval⟩ := hval hrange
  have hnd : names.Nodup := by
    have := hperm.nodup_iff.2 List.nodup_range
    exact (List.nodup_append.1 this).1
  have hlook := slotNames_look (realizes_dictFind _) hD hDm hnames hnd hrange0
  have e1 : ∀ junk : List Nat, refillAll s.tensors (((names' ++ junk).drop s.sqOp.size).map (look D)) =
      refillAll s.tensors ((names'.map (look D)).drop s.sqOp.size) := by
    intro junk
    rw [List.drop_append_of_le_length (by omega), List.map_append]
    have := refillAll_append s.tensors [] ((names'.drop s.sqOp.size).map (look D)) (junk.map (look D)) (by simpa using hdl)
    rw [List.append_nil] at this
    rw [this, refillAll, List.append_nil, List.map_drop]
  have e2 : ∀ junk : List Nat, s.sqOp.refill ((names' ++ junk).map (look D)) = s.sqOp.refill (names'.map (look D)) := by
    intro junk
    have e : names' ++ junk = names'.take s.sqOp.size ++ (names'.drop s.sqOp.size ++ junk) := by
      rw [← List.append_assoc, List.take_append_drop]
    have e' : names'.map (look D) = (names'.take s.sqOp.size).map (look D) ++ (names'.drop s.sqOp.size).map (look D) := by
      rw [← List.map_append, List.take_append_drop]
    rw [e, List.map_append, s.sqOp.refill_append _ _ (by simpa using htk), e', s.sqOp.refill_append _ _ (by simpa using htk)]
  simp only []
  rw [e1, e2]
  obtain ⟨h1, h2⟩ := refill_slotLabels f s.tensors s.sqOp
  have k1 : SameUpToNotation hermitian s.coeff s.tensors s.sqOp s.coeff (s.tensors.map (Tensor.relabel f)) (s.sqOp.relabel f) :=
    SameUpToNotation.relabel s.coeff (fun i hi j hj e => hm.injOn ((hkeys i).2 hi) ((hkeys j).2 hj) e)
      (fun i hi => hm.space _ (dictFind_ok hm.keys ((hkeys i).2 hi)).2) hcl hopcl
  have k2 := hval s.coeff
  rw [hlook, h1, h2] at k2
  have hlast : (names ++ [names.length, names.length + 1]).getLastD 0 = names.length + 1 := getLastD_two _ _ _ _
  have hc : ((if (names ++ [names.length, names.length + 1]).getLastD 0 ≠ (names' ++ if flip = true then [names.length + 1, names.length] else [names.length, names.length + 1]).getLastD 0 then -1 else 1 : ℚ) * s.coeff) =
      if flip = true then -s.coeff else s.coeff := by
    rw [hlast]
    cases flip <;> simp [List.getLastD_eq_getLast?]
  rw [hc]
  refine Relation.ReflTransGen.trans k1 (Relation.ReflTransGen.tail k2 ?_)
  exact Rewrites.reorder _ _ _ _ (sortTensors_perm _).symm

end Dsrg
