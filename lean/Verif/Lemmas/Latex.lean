import Verif.Model.Latex
import Verif.Spec.Latex
import Verif.Lemmas.Hash
import Verif.Lemmas.Buckets
import Verif.Lemmas.AmbitEffect
import Verif.Lemmas.Relabel
import Verif.Props.Misc

/-!
Printed formulas.
-/

namespace Dsrg

/-! ### Texts -/

theorem joinWith_eq (sep : PyStr) : ∀ ws : List PyStr, joinWith sep ws = separated sep ws
  | [] => rfl
  | [w] => rfl
  | w :: w' :: ws => by simp only [joinWith, separated]; rw [joinWith_eq sep (w' :: ws)]

theorem joinSpace_eq : ∀ ws : List PyStr, joinSpace ws = separated [' '] ws
  | [] => rfl
  | [w] => rfl
  | w :: w' :: ws => by simp only [joinSpace, separated]; rw [joinSpace_eq (w' :: ws)]; simp

theorem latex_label (i : Index) : i.latex = [i.space.toChar] ++ ['_', '{'] ++ natStr i.number ++ ['}'] := by
  simp [Index.latex]

theorem labelsText_eq (l : List Index) : labelsText l = separated [' '] (l.map Index.latex) := by
  have : (fun i : Index => [i.space.toChar] ++ ['_', '{'] ++ natStr i.number ++ ['}']) = Index.latex :=
    funext fun i => (latex_label i).symm
  unfold labelsText
  rw [this]

theorem scriptsText_eq (x : IndicesPair) : scriptsText x.upper.list x.lower.list = x.latex := by
  simp [scriptsText, IndicesPair.latex, Indices.latex, labelsText_eq, joinSpace_eq]

theorem factorText_eq (x : Tensor) : x.name ++ scriptsText x.upper.list x.lower.list = x.latex := by
  have := scriptsText_eq x.pair
  rw [Tensor.latex, ← this]

theorem opText_eq (x : SqOp) : [' ', 'a'] ++ scriptsText x.upper.list x.lower.list = ' ' :: SqOp.latex x := by
  rw [scriptsText_eq]; rfl

theorem partitionText_eq (p : List (List Index)) : partitionText p = antisymText p := by
  have : (p.map fun g => joinWith [' '] (g.map Index.latex)) = p.map labelsText :=
    List.map_congr_left fun g _ => by rw [labelsText_eq, joinWith_eq]
  rw [partitionText, antisymText, joinWith_eq, this]

theorem partitionText_ne (p : List (List Index)) : partitionText p ≠ [] := by
  exact List.cons_ne_nil _ _

/-! ### The text determines the formula -/

/-- The part of a text up to the first of two characters. -/
theorem append_cons_cancel₂ {α : Type} {c d : α} : ∀ {a b r r' : List α}, c ∉ a → d ∉ a → c ∉ b → d ∉ b → a ++ c :: r = b ++ d :: r' →
    a = b ∧ c = d ∧ r = r'
  | [], [], r, r', _, _, _, _, h => by simpa using h
  | [], y :: b, r, r', _, _, hc, _, h => by
    simp only [List.nil_append, List.cons_append, List.cons.injEq] at h
    exact absurd (by simp [h.1]) hc
  | x :: a, [], r, r', _, hd, _, _, h => by
    simp only [List.nil_append, List.cons_append, List.cons.injEq] at h
    exact absurd (by simp [h.1]) hd
  | x :: a, y :: b, r, r', hc, hd, hc', hd', h => by
    simp only [List.cons_append, List.cons.injEq] at h
    simp only [List.mem_cons, not_or] at hc hd hc' hd'
    obtain ⟨e1, e2⟩ := append_cons_cancel₂ hc.2 hd.2 hc'.2 hd'.2 h.2
    exact ⟨by rw [h.1, e1], e2⟩

/-- Labels, each followed by a space, and then `r`. -/
def groupTail : List Index → PyStr → PyStr
  | [], r => r
  | i :: g, r => i.latex ++ ' ' :: groupTail g r

theorem groupTail_eq : ∀ (g : List Index) (r : PyStr), g ≠ [] → labelsText g ++ ' ' :: r = groupTail g r
  | [], _, h => absurd rfl h
  | [i], r, _ => by simp [labelsText_eq, separated, groupTail]
  | i :: j :: g, r, _ => by
    have := groupTail_eq (j :: g) r (by simp)
    simp only [labelsText_eq, List.map_cons, separated] at this ⊢
    rw [groupTail, ← this]
    simp

theorem toChar_ne : ∀ s : Space, s.toChar ≠ '/' ∧ s.toChar ≠ ')' ∧ s.toChar ≠ ' ' := by decide

theorem groupTail_cancel : ∀ {g g' : List Index} {x x' : Char} {r r' : PyStr}, (x = '/' ∨ x = ')') → (x' = '/' ∨ x' = ')') →
    groupTail g (x :: r) = groupTail g' (x' :: r') → g = g' ∧ x = x' ∧ r = r'
  | [], [], x, x', r, r', _, _, h => by simpa [groupTail] using h
  | [], j :: g', x, x', r, r', hx, _, h => by
    simp only [groupTail, Index.latex, List.cons_append, List.cons.injEq] at h
    have := toChar_ne j.space
    rcases hx with rfl | rfl
    · exact absurd h.1.symm this.1
    · exact absurd h.1.symm this.2.1
  | i :: g, [], x, x', r, r', _, hx, h => by
    simp only [groupTail, Index.latex, List.cons_append, List.cons.injEq] at h
    have := toChar_ne i.space
    rcases hx with rfl | rfl
    · exact absurd h.1 this.1
    · exact absurd h.1 this.2.1
  | i :: g, j :: g', x, x', r, r', hx, hx', h => by
    simp only [groupTail] at h
    obtain ⟨e1, e2⟩ := Index.latex_cancel h
    simp only [List.cons.injEq, true_and] at e2
    obtain ⟨e3, e4⟩ := groupTail_cancel hx hx' e2
    exact ⟨by rw [e1, e3], e4⟩

/-- The groups of a partition, then `)` and `r`. -/
def groupsTail : List (List Index) → PyStr → PyStr
  | [], r => r
  | [g], r => groupTail g (')' :: r)
  | g :: g' :: p, r => groupTail g ('/' :: ' ' :: groupsTail (g' :: p) r)

theorem groupsTail_eq : ∀ (p : List (List Index)) (r : PyStr), p ≠ [] → (∀ g ∈ p, g ≠ []) →
    separated [' ', '/', ' '] (p.map labelsText) ++ [' ', ')'] ++ r = groupsTail p r
  | [], _, h, _ => absurd rfl h
  | [g], r, _, hg => by
    have := groupTail_eq g (')' :: r) (hg g (by simp))
    simp only [List.map_cons, List.map_nil, separated, groupsTail]
    rw [← this]; simp
  | g :: g' :: p, r, _, hg => by
    have ih := groupsTail_eq (g' :: p) r (by simp) fun x hx => hg x (List.mem_cons_of_mem _ hx)
    have := groupTail_eq g ('/' :: ' ' :: groupsTail (g' :: p) r) (hg g (by simp))
    simp only [List.map_cons, separated] at ih ⊢
    rw [groupsTail, ← this, ← ih]
    simp

theorem groupsTail_cancel : ∀ {p p' : List (List Index)} {r r' : PyStr}, p ≠ [] → p' ≠ [] → groupsTail p r = groupsTail p' r' → p = p' ∧ r = r'
  | [], _, _, _, h, _, _ => absurd rfl h
  | _ :: _, [], _, _, _, h, _ => absurd rfl h
  | [g], [g'], r, r', _, _, h => by
    obtain ⟨e1, -, e2⟩ := groupTail_cancel (Or.inr rfl) (Or.inr rfl) h
    exact ⟨by rw [e1], e2⟩
  | [g], g' :: k :: p, r, r', _, _, h => by
    obtain ⟨-, e, -⟩ := groupTail_cancel (Or.inr rfl) (Or.inl rfl) h
    exact absurd e (by decide)
  | g :: k :: p, [g'], r, r', _, _, h => by
    obtain ⟨-, e, -⟩ := groupTail_cancel (Or.inl rfl) (Or.inr rfl) h
    exact absurd e (by decide)
  | g :: k :: p, g' :: k' :: p', r, r', _, _, h => by
    obtain ⟨e1, -, e2⟩ := groupTail_cancel (Or.inl rfl) (Or.inl rfl) h
    simp only [List.cons.injEq, true_and] at e2
    obtain ⟨e3, e4⟩ := groupsTail_cancel (by simp) (by simp) e2
    exact ⟨by rw [e1, e3], e4⟩

theorem antisymText_cancel {p p' : List (List Index)} {r r' : PyStr} (hp : p ≠ [] ∧ ∀ g ∈ p, g ≠ []) (hp' : p' ≠ [] ∧ ∀ g ∈ p', g ≠ [])
    (h : antisymText p ++ r = antisymText p' ++ r') : p = p' ∧ r = r' := by
  unfold antisymText at h
  generalize (['{', '\\', 'c', 'a', 'l', ' ', 'P', '}', ' ', '(', ' '] : PyStr) = q at h
  simp only [List.append_assoc] at h
  have h := List.append_cancel_left h
  rw [← List.append_assoc, ← List.append_assoc, groupsTail_eq p r hp.1 hp.2, groupsTail_eq p' r' hp'.1 hp'.2] at h
  exact groupsTail_cancel hp.1 hp'.1 h

/-- The product of tensors and the operator, after the space in front of it. -/
def productText (fs : List Tensor) (op : Option (List Index × List Index)) : PyStr :=
  separated [' '] (fs.map fun x => x.name ++ scriptsText x.upper.list x.lower.list) ++
    match op with
    | none => []
    | some (u, l) => [' ', 'a'] ++ scriptsText u l

/-- The operator as a factor named `a`. -/
def opFactor (u l : List Index) : Tensor := ⟨.tensor, ['a'], 0, ⟨⟨.spinOrbital, u⟩, ⟨.spinOrbital, l⟩⟩⟩

def asFactors (fs : List Tensor) : Option (List Index × List Index) → List Tensor
  | none => fs
  | some (u, l) => fs ++ [opFactor u l]

theorem productText_eq (fs : List Tensor) (op : Option (List Index × List Index)) :
    productText fs op = (if fs = [] ∧ op.isSome then [' '] else []) ++ joinSpace ((asFactors fs op).map Tensor.latex) := by
  have h1 : ∀ fs : List Tensor, (fs.map fun x => x.name ++ scriptsText x.upper.list x.lower.list) = fs.map Tensor.latex :=
    fun fs => List.map_congr_left fun x _ => factorText_eq x
  unfold productText
  rw [h1, ← joinSpace_eq]
  cases op with
  | none => simp [asFactors]
  | some ul =>
    obtain ⟨u, l⟩ := ul
    have h2 : [' ', 'a'] ++ scriptsText u l = ' ' :: (opFactor u l).latex := opText_eq (⟨⟨.spinOrbital, u⟩, ⟨.spinOrbital, l⟩⟩ : SqOp)
    simp only [h2, asFactors, Option.isSome_some, and_true]
    induction fs with
    | nil => simp [joinSpace]
    | cons x fs ih =>
      simp only [reduceCtorEq, if_false, List.nil_append]
      cases fs with
      | nil => simp [joinSpace]
      | cons y fs =>
        simp only [reduceCtorEq, if_false, List.nil_append, List.map_cons, joinSpace, List.cons_append] at ih ⊢
        rw [← ih]; simp

theorem joinSpace_cancel : ∀ {fs fs' : List Tensor}, (∀ x ∈ fs ++ fs', '^' ∉ x.name) →
    joinSpace (fs.map Tensor.latex) = joinSpace (fs'.map Tensor.latex) → fs.map Tensor.shown = fs'.map Tensor.shown
  | [], [], _, _ => rfl
  | [], [y], _, h => absurd h.symm (Tensor.latex_ne_nil y)
  | [], y :: z :: fs, _, h => by simp [joinSpace] at h
  | [x], [], _, h => absurd h (Tensor.latex_ne_nil x)
  | x :: z :: fs, [], _, h => by simp [joinSpace] at h
  | [x], [y], hn, h => by
    obtain ⟨e, -⟩ := Tensor.latex_cancel (r := []) (r' := []) (hn x (by simp)) (hn y (by simp)) (by simpa [joinSpace] using h)
    simp [e]
  | [x], y :: z :: fs, hn, h => by
    simp only [List.map_cons, List.map_nil, joinSpace] at h
    obtain ⟨-, e⟩ := Tensor.latex_cancel (r := []) (hn x (by simp)) (hn y (by simp)) (by rw [List.append_nil]; exact h)
    simp at e
  | x :: z :: fs, [y], hn, h => by
    simp only [List.map_cons, List.map_nil, joinSpace] at h
    obtain ⟨-, e⟩ := Tensor.latex_cancel (r' := []) (hn x (by simp)) (hn y (by simp)) (by rw [List.append_nil y.latex]; exact h)
    simp at e
  | x :: z :: fs, y :: w :: fs', hn, h => by
    simp only [List.map_cons, joinSpace] at h
    obtain ⟨e, e'⟩ := Tensor.latex_cancel (hn x (by simp)) (hn y (by simp)) h
    simp only [List.cons.injEq, true_and] at e'
    have := joinSpace_cancel (fs := z :: fs) (fs' := w :: fs') (fun t ht => hn t (by simp at ht ⊢; tauto)) (by simpa [joinSpace] using e')
    simp only [List.map_cons] at this ⊢
    rw [e, this]

/-- The condition on the names of tensors. -/
def ReadableName (x : Tensor) : Prop := '^' ∉ x.name ∧ ' ' ∉ x.name ∧ x.name ≠ ['a'] ∧ x.name ≠ []

theorem head_factor (x : Tensor) (fs : List Tensor) :
    ∃ r, joinSpace ((x :: fs).map Tensor.latex) = x.name ++ '^' :: r := by
  cases fs with
  | nil => exact ⟨_, by simp only [List.map_cons, List.map_nil, joinSpace, Tensor.latex, IndicesPair.latex]; rfl⟩
  | cons y fs => exact ⟨_, by simp only [List.map_cons, joinSpace, Tensor.latex, IndicesPair.latex, List.append_assoc, List.cons_append]; rfl⟩

theorem productText_cancel {fs fs' : List Tensor} {op op' : Option (List Index × List Index)} (hn : ∀ x ∈ fs ++ fs', ReadableName x)
    (h : productText fs op = productText fs' op') : fs.map Tensor.shown = fs'.map Tensor.shown ∧ op = op' := by
  rw [productText_eq, productText_eq] at h
  have key : ∀ (ts ts' : List Tensor) (o o' : Option (List Index × List Index)), (∀ x ∈ ts ++ ts', ReadableName x) →
      joinSpace ((asFactors ts o).map Tensor.latex) = joinSpace ((asFactors ts' o').map Tensor.latex) →
      ts.map Tensor.shown = ts'.map Tensor.shown ∧ o = o' := by
    intro ts ts' o o' hn h
    have hs := joinSpace_cancel (fs := asFactors ts o) (fs' := asFactors ts' o') (by
      intro x hx
      have : x ∈ ts ++ ts' ∨ x.name = ['a'] := by
        rcases List.mem_append.1 hx with hx | hx
        · cases o with
          | none => exact Or.inl (List.mem_append_left _ hx)
          | some ul =>
            simp only [asFactors, List.mem_append, List.mem_singleton] at hx
            rcases hx with hx | hx
            · exact Or.inl (List.mem_append_left _ hx)
            · right; rw [hx]; rfl
        · cases o' with
          | none => exact Or.inl (List.mem_append_right _ hx)
          | some ul =>
            simp only [asFactors, List.mem_append, List.mem_singleton] at hx
            rcases hx with hx | hx
            · exact Or.inl (List.mem_append_right _ hx)
            · right; rw [hx]; rfl
      rcases this with h | h
      · exact (hn x h).1
      · rw [h]; decide) h
    cases o with
    | none =>
      cases o' with
      | none => exact ⟨hs, rfl⟩
      | some ul =>
        exfalso
        have : (opFactor ul.1 ul.2).shown ∈ ts.map Tensor.shown := by
          have e : (asFactors ts none).map Tensor.shown = ts.map Tensor.shown := rfl
          rw [← e, hs]; simp [asFactors]
        obtain ⟨x, hx, e⟩ := List.mem_map.1 this
        exact (hn x (List.mem_append_left _ hx)).2.2.1 (congrArg Prod.fst e)
    | some ul =>
      cases o' with
      | none =>
        exfalso
        have : (opFactor ul.1 ul.2).shown ∈ ts'.map Tensor.shown := by
          have e : (asFactors ts' none).map Tensor.shown = ts'.map Tensor.shown := rfl
          rw [← e, ← hs]; simp [asFactors]
        obtain ⟨x, hx, e⟩ := List.mem_map.1 this
        exact (hn x (List.mem_append_right _ hx)).2.2.1 (congrArg Prod.fst e)
      | some ul' =>
        simp only [asFactors, List.map_append, List.map_cons, List.map_nil] at hs
        obtain ⟨e1, e2⟩ := List.append_inj' hs rfl
        refine ⟨e1, ?_⟩
        simp only [Tensor.shown, opFactor, Tensor.upper, Tensor.lower, List.cons.injEq, Prod.mk.injEq, and_true, true_and] at e2
        rw [show ul = ul' from Prod.ext e2.1 e2.2]
  have head : ∀ (ts : List Tensor) (o : Option (List Index × List Index)), (∀ x ∈ ts, ReadableName x) → ts ≠ [] ∨ o.isSome = false →
      ∀ r, joinSpace ((asFactors ts o).map Tensor.latex) ≠ ' ' :: r := by
    intro ts o ht hc r e
    cases ts with
    | nil =>
      rcases hc with hc | hc
      · exact hc rfl
      · cases o with
        | none => simp [asFactors, joinSpace] at e
        | some ul => simp at hc
    | cons x ts =>
      have hx := ht x (by simp)
      have : ∃ ts', asFactors (x :: ts) o = x :: ts' := by cases o <;> exact ⟨_, rfl⟩
      obtain ⟨ts', e'⟩ := this
      obtain ⟨r', e''⟩ := head_factor x ts'
      rw [e', e''] at e
      cases hxn : x.name with
      | nil => exact hx.2.2.2 hxn
      | cons ch nm =>
        rw [hxn] at e
        simp only [List.cons_append, List.cons.injEq] at e
        exact hx.2.1 (by rw [hxn, e.1]; simp)
  by_cases h1 : fs = [] ∧ op.isSome
  · by_cases h2 : fs' = [] ∧ op'.isSome
    · rw [if_pos h1, if_pos h2] at h
      exact key fs fs' op op' hn (List.append_cancel_left h)
    · rw [if_pos h1, if_neg h2] at h
      refine absurd h.symm (head fs' op' (fun x hx => hn x (List.mem_append_right _ hx)) ?_ _)
      by_cases hf : fs' = []
      · right; simpa using fun hh => h2 ⟨hf, hh⟩
      · exact Or.inl hf
  · by_cases h2 : fs' = [] ∧ op'.isSome
    · rw [if_neg h1, if_pos h2] at h
      refine absurd h (head fs op (fun x hx => hn x (List.mem_append_left _ hx)) ?_ _)
      by_cases hf : fs = []
      · right; simpa using fun hh => h1 ⟨hf, hh⟩
      · exact Or.inl hf
    · rw [if_neg h1, if_neg h2] at h
      exact key fs fs' op op' hn h

/-- The text after the fraction. -/
def bodyText (ps : List (List (List Index))) (fs : List Tensor) (op : Option (List Index × List Index)) : PyStr :=
  (ps.map fun p => ' ' :: antisymText p).flatten ++ ' ' :: productText fs op

theorem productText_head {fs : List Tensor} {op : Option (List Index × List Index)} (hn : ∀ x ∈ fs, ReadableName x) (p : List (List Index))
    (r : PyStr) : productText fs op ≠ antisymText p ++ r := by
  intro h
  have hr : ∃ r', antisymText p ++ r = ['{', '\\', 'c', 'a', 'l'] ++ ' ' :: r' :=
    ⟨['P', '}', ' ', '(', ' '] ++ separated [' ', '/', ' '] (p.map labelsText) ++ [' ', ')'] ++ r, by
      rw [antisymText]; simp only [List.cons_append, List.nil_append, List.append_assoc]⟩
  obtain ⟨r', hr'⟩ := hr
  rw [hr', productText_eq] at h
  cases fs with
  | nil =>
    cases op with
    | none => simp [asFactors, joinSpace] at h
    | some ul => simp at h
  | cons x fs =>
    have hx := hn x (by simp)
    have : ∃ ts', asFactors (x :: fs) op = x :: ts' := by cases op <;> exact ⟨_, rfl⟩
    obtain ⟨ts', e'⟩ := this
    obtain ⟨q, e''⟩ := head_factor x ts'
    rw [e', e''] at h
    simp only [reduceCtorEq, false_and, if_false, List.nil_append] at h
    obtain ⟨-, e, -⟩ := append_cons_cancel₂ hx.1 hx.2.1 (by decide) (by decide) h
    exact absurd e (by decide)

theorem bodyText_cancel : ∀ {ps ps' : List (List (List Index))} {fs fs' : List Tensor} {op op' : Option (List Index × List Index)},
    (∀ x ∈ fs ++ fs', ReadableName x) → (∀ p ∈ ps ++ ps', p ≠ [] ∧ ∀ g ∈ p, g ≠ []) → bodyText ps fs op = bodyText ps' fs' op' →
    ps = ps' ∧ fs.map Tensor.shown = fs'.map Tensor.shown ∧ op = op'
  | [], [], fs, fs', op, op', hn, _, h => by
    simp only [bodyText, List.map_nil, List.flatten_nil, List.nil_append, List.cons.injEq, true_and] at h
    exact ⟨rfl, productText_cancel hn h⟩
  | [], p :: ps', fs, fs', op, op', hn, _, h => by
    simp only [bodyText, List.map_nil, List.flatten_nil, List.nil_append, List.map_cons, List.flatten_cons, List.cons_append,
      List.cons.injEq, true_and, List.append_assoc] at h
    exact absurd h (productText_head (fun x hx => hn x (List.mem_append_left _ hx)) p _)
  | p :: ps, [], fs, fs', op, op', hn, _, h => by
    simp only [bodyText, List.map_nil, List.flatten_nil, List.nil_append, List.map_cons, List.flatten_cons, List.cons_append,
      List.cons.injEq, true_and, List.append_assoc] at h
    exact absurd h.symm (productText_head (fun x hx => hn x (List.mem_append_right _ hx)) p _)
  | p :: ps, p' :: ps', fs, fs', op, op', hn, hp, h => by
    simp only [bodyText, List.map_cons, List.flatten_cons, List.cons_append, List.cons.injEq, true_and, List.append_assoc] at h
    obtain ⟨e1, e2⟩ := antisymText_cancel (hp p (by simp)) (hp p' (by simp)) h
    obtain ⟨e3, e4⟩ := bodyText_cancel (ps := ps) (ps' := ps') hn (fun q hq => hp q (by simp at hq ⊢; tauto)) e2
    exact ⟨by rw [e1, e3], e4⟩

theorem space_notin_fraction (r : ℚ) : ' ' ∉ fractionStr r := by
  have hi : ∀ i : Int, ' ' ∉ intStr i := by
    intro i
    unfold intStr
    split
    · simp only [List.mem_cons, not_or]
      exact ⟨by decide, not_mem_natStr (by decide) _⟩
    · exact not_mem_natStr (by decide) _
  unfold fractionStr
  split
  · exact hi _
  · simp only [List.mem_append, not_or, List.mem_singleton]
    exact ⟨⟨hi _, by decide⟩, not_mem_natStr (by decide) _⟩

theorem LatexFormula.text_eq (F : LatexFormula) (delimiter : Bool) : F.text delimiter =
    fractionStr F.coeff ++ (if delimiter then [' ', '&'] else []) ++ bodyText F.perms F.factors F.op := by
  unfold LatexFormula.text fractionStr bodyText productText
  simp only [List.append_assoc]
  rfl

theorem bodyText_head (ps : List (List (List Index))) (fs : List Tensor) (op : Option (List Index × List Index)) :
    ∃ r, bodyText ps fs op = ' ' :: r := by
  cases ps with
  | nil => exact ⟨_, rfl⟩
  | cons p ps => exact ⟨_, by simp only [bodyText, List.map_cons, List.flatten_cons, List.cons_append]; rfl⟩

theorem text_cancel {F F' : LatexFormula} {delimiter : Bool} (hn : ∀ x ∈ F.factors ++ F'.factors, ReadableName x)
    (hp : ∀ p ∈ F.perms ++ F'.perms, p ≠ [] ∧ ∀ g ∈ p, g ≠ []) (h : F.text delimiter = F'.text delimiter) :
    F.coeff = F'.coeff ∧ F.perms = F'.perms ∧ F.factors.map Tensor.shown = F'.factors.map Tensor.shown ∧ F.op = F'.op := by
  rw [LatexFormula.text_eq, LatexFormula.text_eq] at h
  obtain ⟨r, hr⟩ := bodyText_head F.perms F.factors F.op
  obtain ⟨r', hr'⟩ := bodyText_head F'.perms F'.factors F'.op
  have key : fractionStr F.coeff = fractionStr F'.coeff ∧ r = r' := by
    rw [hr, hr'] at h
    cases delimiter with
    | false =>
      simp only [Bool.false_eq_true, if_false, List.append_nil] at h
      exact append_cons_cancel (space_notin_fraction _) (space_notin_fraction _) h
    | true =>
      simp only [if_true, List.append_assoc, List.cons_append, List.nil_append] at h
      obtain ⟨h1, h2⟩ := append_cons_cancel (space_notin_fraction _) (space_notin_fraction _) h
      simp only [List.cons.injEq, true_and] at h2
      exact ⟨h1, h2⟩
  refine ⟨fractionStr_injective key.1, bodyText_cancel hn hp ?_⟩
  rw [hr, hr', key.2]

end Dsrg
