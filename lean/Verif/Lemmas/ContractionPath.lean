import Verif.Model.ContractionPath
import Verif.Lemmas.MoSpace
import Mathlib.Data.List.Perm.Basic
import Mathlib.Data.List.Forall2
import Mathlib.Data.Nat.Choose.Basic
import Mathlib.Data.Finset.Card
import Mathlib.Algebra.Order.BigOperators.Group.Finset
import Mathlib.Tactic.Ring

/-!
Lemmas about contraction paths.
-/

namespace Dsrg

/-! ### Counters -/

theorem mosParse_zero (k : Space) (rest : List (Space × Int)) : mosParse ((k, 0) :: rest) = mosParse rest := by
  cases k with
  | mk kind beta => cases kind <;> simp [mosParse]

theorem mosParse_filter (n : Kind → Nat) (l : List Kind) :
    mosParse ((l.filter fun k => n k ≠ 0).map fun k => (⟨k, false⟩, (n k : Int))) = mosParse (l.map fun k => (⟨k, false⟩, (n k : Int))) := by
  induction l with
  | nil => rfl
  | cons k l ih =>
    by_cases h : n k = 0
    · rw [List.filter_cons_of_neg (by simpa using h), List.map_cons, h]
      rw [ih]
      exact (mosParse_zero _ _).symm
    · rw [List.filter_cons_of_pos (by simpa using h), List.map_cons, List.map_cons]
      simp only [mosParse]
      rw [ih]

theorem card_kind (s : Finset Index) (p q : Kind → Prop) [DecidablePred p] [DecidablePred q] (h : ∀ k, p k → ¬ q k) :
    (s.filter fun i => p i.space.kind ∨ q i.space.kind).card =
      (s.filter fun i => p i.space.kind).card + (s.filter fun i => q i.space.kind).card := by
  rw [Finset.filter_or, Finset.card_union_of_disjoint (Finset.disjoint_filter.2 fun i _ => h _)]

theorem make_shows (s : Finset Index) : (MOSpaceCounter.make (spaceCounter s)).Shows (scaling s) := by
  have hp : mosParse (spaceCounter s) =
      (((s.filter fun i => i.space.kind ∈ [Kind.v, Kind.p, Kind.g]).card : Int),
        ((s.filter fun i => i.space.kind ∈ [Kind.c, Kind.h]).card : Int), ((s.filter fun i => i.space.kind = Kind.a).card : Int)) := by
    unfold spaceCounter
    rw [mosParse_filter (fun k => (s.filter fun i => i.space.kind = k).card)]
    have h3 : (s.filter fun i => i.space.kind ∈ [Kind.v, Kind.p, Kind.g]).card =
        (s.filter fun i => i.space.kind = Kind.v).card + (s.filter fun i => i.space.kind = Kind.p).card +
        (s.filter fun i => i.space.kind = Kind.g).card := by
      rw [← card_kind s (fun k => k = Kind.v) (fun k => k = Kind.p) (by decide),
        ← card_kind s (fun k => k = Kind.v ∨ k = Kind.p) (fun k => k = Kind.g) (by decide)]
      congr 1; ext i; simp; tauto
    have h2 : (s.filter fun i => i.space.kind ∈ [Kind.c, Kind.h]).card =
        (s.filter fun i => i.space.kind = Kind.c).card + (s.filter fun i => i.space.kind = Kind.h).card := by
      rw [← card_kind s (fun k => k = Kind.c) (fun k => k = Kind.h) (by decide)]
      congr 1; ext i; simp
    rw [h3, h2]
    simp only [soSpace, List.map_cons, List.map_nil, mosParse]
    push_cast
    refine Prod.ext ?_ (Prod.ext ?_ ?_) <;> simp <;> ring
  have hc : s.card = (s.filter fun i => i.space.kind ∈ [Kind.v, Kind.p, Kind.g]).card +
      (s.filter fun i => i.space.kind ∈ [Kind.c, Kind.h]).card + (s.filter fun i => i.space.kind = Kind.a).card := by
    rw [← card_kind s (fun k => k ∈ [Kind.v, Kind.p, Kind.g]) (fun k => k ∈ [Kind.c, Kind.h]) (by decide),
      ← card_kind s (fun k => k ∈ [Kind.v, Kind.p, Kind.g] ∨ k ∈ [Kind.c, Kind.h]) (fun k => k = Kind.a) (by decide)]
    congr 1
    ext i
    rw [Finset.mem_filter]
    refine ⟨fun h => ⟨h, ?_⟩, fun h => h.1⟩
    cases i.space.kind <;> decide
  unfold MOSpaceCounter.Shows MOSpaceCounter.make scaling
  rw [hp]
  refine ⟨?_, rfl⟩
  simp only [ofLex_toLex]
  rw [hc]
  push_cast
  rfl

theorem shows_lt {x y : MOSpaceCounter} {a b : Scaling} (hx : x.Shows a) (hy : y.Shows b) : x.pyLt y = true ↔ a < b := by
  obtain ⟨a1, a2, a3, a4⟩ := a
  obtain ⟨b1, b2, b3, b4⟩ := b
  unfold MOSpaceCounter.Shows at hx hy
  unfold MOSpaceCounter.pyLt MOSpaceCounter.key
  rw [hx.1, hx.2, hy.1, hy.2]
  change _ ↔ toLex (a1, toLex (a2, toLex (a3, a4))) < toLex (b1, toLex (b2, toLex (b3, b4)))
  rw [Prod.Lex.toLex_lt_toLex, Prod.Lex.toLex_lt_toLex, Prod.Lex.toLex_lt_toLex]
  change pyListLt (fun a b => decide (a < b)) [(a1 : Int), (a2 : Int), (a3 : Int), (a4 : Int)] [(b1 : Int), (b2 : Int), (b3 : Int), (b4 : Int)]
    = true ↔ _
  simp only [pyListLt]
  split_ifs <;> simp <;> omega

theorem shows_gt {x y : MOSpaceCounter} {a b : Scaling} (hx : x.Shows a) (hy : y.Shows b) : x.pyGt y = true ↔ b < a :=
  (shows_lt hy hx)

theorem shows_max {x y : MOSpaceCounter} {a b : Scaling} (hx : x.Shows a) (hy : y.Shows b) :
    (if x.pyGt y then x else y).Shows (max b a) := by
  by_cases h : b < a
  · rw [if_pos ((shows_gt hx hy).2 h), max_eq_right h.le]; exact hx
  · rw [if_neg (fun h' => h ((shows_gt hx hy).1 h')), max_eq_left (not_lt.1 h)]; exact hy

theorem scaling_empty_le (a : Scaling) : scaling ∅ ≤ a := by
  obtain ⟨a1, a2, a3, a4⟩ := a
  change toLex (0, toLex (0, toLex (0, 0))) ≤ toLex (a1, toLex (a2, toLex (a3, a4)))
  rw [Prod.Lex.toLex_le_toLex, Prod.Lex.toLex_le_toLex, Prod.Lex.toLex_le_toLex]
  simp only
  omega

theorem start_shows : (MOSpaceCounter.make [(⟨.v, false⟩, 0), (⟨.c, false⟩, 0)]).Shows (scaling ∅) := by
  constructor <;> decide

/-! ### Picking -/

section
variable {α : Type}

theorem pickOne_perm {l : List α} : ∀ p ∈ pickOne l, (p.1 :: p.2).Perm l := by
  induction l with
  | nil => intro p hp; simp [pickOne] at hp
  | cons x xs ih =>
    intro p hp
    simp only [pickOne, List.mem_cons, List.mem_map] at hp
    rcases hp with rfl | ⟨q, hq, rfl⟩
    · exact List.Perm.refl _
    · exact (List.Perm.swap _ _ _).trans ((ih q hq).cons x)

theorem pickPairs_perm {l : List α} : ∀ p ∈ pickPairs l, (p.1 :: p.2.1 :: p.2.2).Perm l := by
  induction l with
  | nil => intro p hp; simp [pickPairs] at hp
  | cons x xs ih =>
    intro p hp
    simp only [pickPairs, List.mem_append, List.mem_map] at hp
    rcases hp with ⟨q, hq, rfl⟩ | ⟨q, hq, rfl⟩
    · exact (pickOne_perm q hq).cons x
    · refine List.Perm.trans ?_ ((ih q hq).cons x)
      exact ((List.Perm.swap _ _ _).cons _).trans (List.Perm.swap _ _ _)

theorem pickOne_complete {l : List α} {a : α} (h : a ∈ l) : ∃ p ∈ pickOne l, p.1 = a := by
  induction l with
  | nil => simp at h
  | cons x xs ih =>
    simp only [pickOne]
    rcases List.mem_cons.1 h with rfl | h'
    · exact ⟨_, List.mem_cons_self, rfl⟩
    · obtain ⟨p, hp, he⟩ := ih h'
      exact ⟨_, List.mem_cons_of_mem _ (List.mem_map_of_mem hp), he⟩

theorem pickPairs_complete {l : List α} {a b : α} {r : List α} (h : l.Perm (a :: b :: r)) :
    ∃ p ∈ pickPairs l, ((p.1 = a ∧ p.2.1 = b) ∨ (p.1 = b ∧ p.2.1 = a)) ∧ p.2.2.Perm r := by
  classical
  suffices hs : ∃ p ∈ pickPairs l, (p.1 = a ∧ p.2.1 = b) ∨ (p.1 = b ∧ p.2.1 = a) by
    obtain ⟨p, hp, he⟩ := hs
    refine ⟨p, hp, he, ?_⟩
    have h1 := (pickPairs_perm p hp).trans h
    rcases he with ⟨e1, e2⟩ | ⟨e1, e2⟩
    · rw [e1, e2] at h1
      exact (h1.cons_inv).cons_inv
    · rw [e1, e2] at h1
      exact ((h1.trans (List.Perm.swap _ _ _)).cons_inv).cons_inv
  induction l generalizing r with
  | nil => exact absurd h.length_eq (by simp)
  | cons x xs ih =>
    simp only [pickPairs]
    by_cases hxa : x = a
    · subst hxa
      have h1 := h.cons_inv
      obtain ⟨p, hp, he⟩ := pickOne_complete (h1.mem_iff.2 List.mem_cons_self)
      exact ⟨_, List.mem_append_left _ (List.mem_map_of_mem hp), Or.inl ⟨rfl, he⟩⟩
    · by_cases hxb : x = b
      · subst hxb
        have h1 := (h.trans (List.Perm.swap _ _ _)).cons_inv
        obtain ⟨p, hp, he⟩ := pickOne_complete (h1.mem_iff.2 List.mem_cons_self)
        exact ⟨_, List.mem_append_left _ (List.mem_map_of_mem hp), Or.inr ⟨rfl, he⟩⟩
      · have hx : x ∈ r := by
          have := h.mem_iff.1 (List.mem_cons_self (a := x) (l := xs))
          simpa [hxa, hxb] using this
        obtain ⟨r1, r2, rfl⟩ := List.append_of_mem hx
        have h1 : xs.Perm (a :: b :: (r1 ++ r2)) := by
          have : (a :: b :: (r1 ++ x :: r2)).Perm (x :: a :: b :: (r1 ++ r2)) :=
            List.perm_middle (l₁ := a :: b :: r1)
          exact (h.trans this).cons_inv
        obtain ⟨p, hp, he⟩ := ih h1
        exact ⟨_, List.mem_append_right _ (List.mem_map_of_mem hp), he⟩

theorem pickOne_length (l : List α) : (pickOne l).length = l.length := by
  induction l with
  | nil => rfl
  | cons x xs ih => simp [pickOne, ih]

theorem pickPairs_length (l : List α) : (pickPairs l).length = l.length.choose 2 := by
  induction l with
  | nil => rfl
  | cons x xs ih =>
    simp only [pickPairs, List.length_append, List.length_map, pickOne_length, ih, List.length_cons]
    rw [Nat.choose_succ_succ' xs.length 1, Nat.choose_one_right]

end

theorem pickOne_map {α β : Type} (f : α → β) (l : List α) : pickOne (l.map f) = (pickOne l).map fun p => (f p.1, p.2.map f) := by
  induction l with
  | nil => rfl
  | cons x xs ih => simp [pickOne, ih, Function.comp_def]

theorem pickPairs_map {α β : Type} (f : α → β) (l : List α) :
    pickPairs (l.map f) = (pickPairs l).map fun p => (f p.1, f p.2.1, p.2.2.map f) := by
  induction l with
  | nil => rfl
  | cons x xs ih => simp [pickPairs, pickOne_map, ih, Function.comp_def]

/-! ### Trees -/

theorem CTree.Same.refl : ∀ t : CTree, CTree.Same t t
  | .leaf t => .leaf t
  | .node l r => .node (CTree.Same.refl l) (CTree.Same.refl r)

theorem CTree.Same.trans {a b c : CTree} (h1 : CTree.Same a b) (h2 : CTree.Same b c) : CTree.Same a c := by
  induction h1 generalizing c with
  | leaf t => exact h2
  | node _ _ ihl ihr =>
    cases h2 with
    | node hl hr => exact .node (ihl hl) (ihr hr)
    | swap hl hr => exact .swap (ihl hl) (ihr hr)
  | swap _ _ ihl ihr =>
    cases h2 with
    | node hl hr => exact .swap (ihl hr) (ihr hl)
    | swap hl hr => exact .node (ihl hr) (ihr hl)

theorem CTree.Same.openLabels {a b : CTree} (h : CTree.Same a b) : a.openLabels = b.openLabels := by
  induction h with
  | leaf t => rfl
  | node _ _ h1 h2 => simp only [CTree.openLabels, h1, h2]
  | swap _ _ h1 h2 => simp only [CTree.openLabels, h1, h2, symmDiff_comm]

theorem CTree.Same.compute {a b : CTree} (h : CTree.Same a b) : a.compute = b.compute := by
  induction h with
  | leaf t => rfl
  | node hl hr h1 h2 => simp only [CTree.compute, h1, h2, hl.openLabels, hr.openLabels]
  | swap hl hr h1 h2 => simp only [CTree.compute, h1, h2, hl.openLabels, hr.openLabels, max_comm, Finset.union_comm]

theorem CTree.Same.storage {a b : CTree} (h : CTree.Same a b) : a.storage = b.storage := by
  induction h with
  | leaf t => rfl
  | node hl hr h1 h2 => simp only [CTree.storage, h1, h2, hl.openLabels, hr.openLabels]
  | swap hl hr h1 h2 => simp only [CTree.storage, h1, h2, hl.openLabels, hr.openLabels, max_comm, symmDiff_comm]

theorem CTree.mem_openLabels (t : CTree) (i : Index) : i ∈ t.openLabels ↔ (t.tensors.countP fun x => decide (i ∈ tensorLabels x)) % 2 = 1 := by
  induction t with
  | leaf t => by_cases h : i ∈ tensorLabels t <;> simp [CTree.openLabels, CTree.tensors, h]
  | node l r hl hr =>
    simp only [CTree.openLabels, CTree.tensors, Finset.mem_symmDiff, List.countP_append, hl, hr]
    omega

/-- The tree is made from the trees of the list by contractions. -/
inductive Above : List CTree → CTree → Prop
  | one (t : CTree) : Above [t] t
  | node {f g : List CTree} {l r : CTree} : Above f l → Above g r → Above (f ++ g) (.node l r)

theorem Above.length_pos {f : List CTree} {t : CTree} (h : Above f t) : 1 ≤ f.length := by
  induction h with
  | one => simp
  | node _ _ h1 h2 => rw [List.length_append]; omega

theorem Above.eq_one {x t : CTree} (h : Above [x] t) : t = x := by
  generalize hf : [x] = f at h
  cases h with
  | one => simpa using hf.symm
  | node h1 h2 =>
    have := congrArg List.length hf
    rw [List.length_append] at this
    have := h1.length_pos; have := h2.length_pos
    simp at *; omega

theorem Above.leaves (t : CTree) : Above (t.tensors.map .leaf) t := by
  induction t with
  | leaf t => exact .one _
  | node l r hl hr => simp only [CTree.tensors, List.map_append]; exact .node hl hr

/-- Two trees of the list are contracted first. -/
theorem Above.cherry {f : List CTree} {t : CTree} (h : Above f t) (hf : 2 ≤ f.length) :
    ∃ a b f' g, f.Perm (a :: b :: f') ∧ Above g t ∧ g.Perm (.node a b :: f') := by
  induction h with
  | one => simp at hf
  | @node f g l r h1 h2 ih1 ih2 =>
    by_cases hf1 : 2 ≤ f.length
    · obtain ⟨a, b, f', k, e1, e2, e3⟩ := ih1 hf1
      exact ⟨a, b, f' ++ g, k ++ g, e1.append_right g, .node e2 h2, e3.append_right g⟩
    · by_cases hg1 : 2 ≤ g.length
      · obtain ⟨a, b, f', k, e1, e2, e3⟩ := ih2 hg1
        refine ⟨a, b, f' ++ f, f ++ k, ?_, .node h1 e2, ?_⟩
        · exact List.perm_append_comm.trans (e1.append_right f)
        · exact List.perm_append_comm.trans (e3.append_right f)
      · have p1 := h1.length_pos
        have p2 := h2.length_pos
        obtain ⟨x, rfl⟩ := List.length_eq_one_iff.1 (by omega : f.length = 1)
        obtain ⟨y, rfl⟩ := List.length_eq_one_iff.1 (by omega : g.length = 1)
        rw [h1.eq_one, h2.eq_one]
        exact ⟨x, y, [], [.node x y], List.Perm.refl _, .one _, List.Perm.refl _⟩

theorem Above.congr {f : List CTree} {t : CTree} (h : Above f t) {f' : List CTree} (hs : List.Forall₂ CTree.Same f f') :
    ∃ t', Above f' t' ∧ CTree.Same t t' := by
  induction h generalizing f' with
  | one t =>
    cases hs with
    | cons h1 h2 => cases h2; exact ⟨_, .one _, h1⟩
  | @node f g l r h1 h2 ih1 ih2 =>
    have h3 : List.Forall₂ CTree.Same ((f ++ g).take f.length) (f'.take f.length) := List.forall₂_take _ hs
    have h4 : List.Forall₂ CTree.Same ((f ++ g).drop f.length) (f'.drop f.length) := List.forall₂_drop _ hs
    rw [List.take_left] at h3
    rw [List.drop_left] at h4
    obtain ⟨l', hl1, hl2⟩ := ih1 h3
    obtain ⟨r', hr1, hr2⟩ := ih2 h4
    refine ⟨.node l' r', ?_, .node hl2 hr2⟩
    rw [← List.take_append_drop f.length f']
    exact .node hl1 hr1

/-! ### The search -/

/-- The largest computational cost in a list of trees. -/
def forestCompute (f : List CTree) : Scaling := f.foldr (fun t m => max t.compute m) (scaling ∅)

/-- The largest memory cost in a list of trees. -/
def forestStorage (f : List CTree) : Scaling := f.foldr (fun t m => max t.storage m) (scaling ∅)

theorem foldr_max_perm (c : CTree → Scaling) {f g : List CTree} (h : f.Perm g) :
    f.foldr (fun t m => max (c t) m) (scaling ∅) = g.foldr (fun t m => max (c t) m) (scaling ∅) := by
  have : LeftCommutative (fun t m => max (c t) m) := ⟨fun a b m => max_left_comm _ _ _⟩
  exact h.foldr_eq _

theorem foldr_max_append (c : CTree → Scaling) (f : List CTree) (t : CTree) :
    (f ++ [t]).foldr (fun t m => max (c t) m) (scaling ∅) = max (c t) (f.foldr (fun t m => max (c t) m) (scaling ∅)) :=
  foldr_max_perm c (List.perm_append_singleton t f)

theorem forestCompute_step {f r : List CTree} {x y : CTree} (h : (x :: y :: r).Perm f) :
    forestCompute (r ++ [.node x y]) = max (forestCompute f) (scaling (x.openLabels ∪ y.openLabels)) := by
  unfold forestCompute
  rw [foldr_max_append, ← foldr_max_perm _ h]
  simp only [List.foldr_cons, CTree.compute]
  ac_rfl

theorem forestStorage_step {f r : List CTree} {x y : CTree} (h : (x :: y :: r).Perm f) :
    forestStorage (r ++ [.node x y]) = max (forestStorage f) (scaling (symmDiff x.openLabels y.openLabels)) := by
  unfold forestStorage
  rw [foldr_max_append, ← foldr_max_perm _ h]
  simp only [List.foldr_cons, CTree.storage]
  ac_rfl

/-- The trees with their labels, as kept in `tensors_left`. -/
def withLabels (f : List CTree) : List (Finset Index × CTree) := f.map fun t => (t.openLabels, t)

theorem contractionPath_step (n : Nat) (f : List CTree) (soFar : PathCost) :
    contractionPath (n + 2) (withLabels f) soFar = (pickPairs f).flatMap fun p =>
      contractionPath (n + 1) (withLabels (p.2.2 ++ [.node p.1 p.2.1]))
        (stepCost soFar (n + 2) (p.1.openLabels, p.1) (p.2.1.openLabels, p.2.1)) := by
  rw [contractionPath]
  unfold withLabels
  rw [pickPairs_map, List.flatMap_map]
  simp only [List.map_append, List.map_cons, List.map_nil]
  rfl

theorem stepCost_shows {f r : List CTree} {x y : CTree} (h : (x :: y :: r).Perm f) {soFar : PathCost} (n : Nat)
    (h1 : soFar.1.Shows (forestCompute f)) (h2 : soFar.2.1.Shows (forestStorage f)) :
    (stepCost soFar n (x.openLabels, x) (y.openLabels, y)).1.Shows (forestCompute (r ++ [.node x y])) ∧
    (stepCost soFar n (x.openLabels, x) (y.openLabels, y)).2.1.Shows (forestStorage (r ++ [.node x y])) := by
  rw [forestCompute_step h, forestStorage_step h]
  unfold stepCost contractionCost
  refine ⟨?_, ?_⟩
  · have := shows_max (make_shows (y.openLabels ∪ x.openLabels)) h1
    rw [Finset.union_comm x.openLabels]
    exact this
  · exact shows_max (make_shows (symmDiff x.openLabels y.openLabels)) h2

theorem step_length {f r : List CTree} {x y : CTree} {n : Nat} (h : (x :: y :: r).Perm f) (hn : f.length = n + 2) :
    (r ++ [CTree.node x y]).length = n + 1 := by
  have := h.length_eq
  simp at *; omega

theorem step_tensors {f r : List CTree} {x y : CTree} (h : (x :: y :: r).Perm f) :
    ((r ++ [CTree.node x y]).flatMap CTree.tensors).Perm (f.flatMap CTree.tensors) := by
  refine List.Perm.trans ?_ (List.Perm.flatMap_right _ h)
  rw [List.flatMap_append]
  refine List.perm_append_comm.trans ?_
  simp [CTree.tensors]

/-- Every result is a way to multiply the tensors, with its costs. -/
theorem contractionPath_sound (n : Nat) : ∀ (f : List CTree) (soFar : PathCost), f.length = n + 2 → soFar.1.Shows (forestCompute f) →
    soFar.2.1.Shows (forestStorage f) → ∀ r ∈ contractionPath (n + 2) (withLabels f) soFar,
    ∃ t : CTree, r.2.2 = some t ∧ t.Multiplies (f.flatMap CTree.tensors) ∧ r.1.Shows t.compute ∧ r.2.1.Shows t.storage := by
  induction n with
  | zero =>
    intro f soFar hlen h1 h2 r hr
    rw [contractionPath_step, List.mem_flatMap] at hr
    obtain ⟨p, hp, hr⟩ := hr
    have hperm := pickPairs_perm p hp
    obtain ⟨s1, s2⟩ := stepCost_shows hperm 2 h1 h2
    have hrest : p.2.2 = [] := by
      have := hperm.length_eq
      rw [hlen] at this
      simpa using this
    simp only [contractionPath, List.mem_singleton] at hr
    subst hr
    rw [hrest] at s1 s2
    refine ⟨.node p.1 p.2.1, ?_, ?_, ?_, ?_⟩
    · simp only [stepCost, nextPath]
      cases soFar.2.2 <;> simp
    · have := step_tensors hperm
      rw [hrest] at this
      simpa [CTree.Multiplies] using this
    · have e : forestCompute ([] ++ [CTree.node p.1 p.2.1]) = (CTree.node p.1 p.2.1).compute := by
        unfold forestCompute; exact max_eq_left (scaling_empty_le _)
      rw [e] at s1; exact s1
    · have e : forestStorage ([] ++ [CTree.node p.1 p.2.1]) = (CTree.node p.1 p.2.1).storage := by
        unfold forestStorage; exact max_eq_left (scaling_empty_le _)
      rw [e] at s2; exact s2
  | succ n ih =>
    intro f soFar hlen h1 h2 r hr
    rw [contractionPath_step, List.mem_flatMap] at hr
    obtain ⟨p, hp, hr⟩ := hr
    have hperm := pickPairs_perm p hp
    obtain ⟨s1, s2⟩ := stepCost_shows hperm (n + 1 + 2) h1 h2
    obtain ⟨t, e1, e2, e3⟩ := ih _ _ (step_length hperm hlen) s1 s2 r hr
    exact ⟨t, e1, e2.trans (step_tensors hperm), e3⟩

/-- Every way to multiply is found. -/
theorem contractionPath_complete (n : Nat) : ∀ (f g : List CTree) (t : CTree) (soFar : PathCost), f.length = n + 2 → Above g t → g.Perm f →
    ∃ r ∈ contractionPath (n + 2) (withLabels f) soFar, ∃ t', r.2.2 = some t' ∧ CTree.Same t t' := by
  induction n with
  | zero =>
    intro f g t soFar hlen hab hgf
    obtain ⟨a, b, f', g', e1, e2, e3⟩ := hab.cherry (by rw [hgf.length_eq, hlen])
    have hf' : f' = [] := by
      have := e1.length_eq
      rw [hgf.length_eq, hlen] at this
      simpa using this.symm
    subst hf'
    rw [List.perm_singleton.1 e3] at e2
    have ht := e2.eq_one
    obtain ⟨p, hp, hab', hrest⟩ := pickPairs_complete (hgf.symm.trans e1)
    refine ⟨stepCost soFar 2 (p.1.openLabels, p.1) (p.2.1.openLabels, p.2.1), ?_, .node p.1 p.2.1, ?_, ?_⟩
    · rw [contractionPath_step, List.mem_flatMap]
      exact ⟨p, hp, by simp [contractionPath]⟩
    · simp only [stepCost, nextPath]
      cases soFar.2.2 <;> simp
    · rw [ht]
      rcases hab' with ⟨h1, h2⟩ | ⟨h1, h2⟩
      · rw [h1, h2]; exact CTree.Same.refl _
      · rw [h1, h2]; exact .swap (CTree.Same.refl _) (CTree.Same.refl _)
  | succ n ih =>
    intro f g t soFar hlen hab hgf
    obtain ⟨a, b, f', g', e1, e2, e3⟩ := hab.cherry (by rw [hgf.length_eq, hlen]; omega)
    obtain ⟨p, hp, hab', hrest⟩ := pickPairs_complete (hgf.symm.trans e1)
    have hperm := pickPairs_perm p hp
    have hstep : ∃ g'' t'', Above g'' t'' ∧ g''.Perm (p.2.2 ++ [.node p.1 p.2.1]) ∧ CTree.Same t t'' := by
      have hsame : CTree.Same (.node a b) (.node p.1 p.2.1) := by
        rcases hab' with ⟨h1, h2⟩ | ⟨h1, h2⟩
        · rw [h1, h2]; exact CTree.Same.refl _
        · rw [h1, h2]; exact .swap (CTree.Same.refl _) (CTree.Same.refl _)
      have h2 : List.Forall₂ CTree.Same (.node a b :: f') (.node p.1 p.2.1 :: f') :=
        .cons hsame (List.forall₂_same.2 fun x _ => CTree.Same.refl x)
      have h3 : Relation.Comp List.Perm (List.Forall₂ CTree.Same) g' (.node p.1 p.2.1 :: f') := ⟨_, e3, h2⟩
      rw [← List.forall₂_comp_perm_eq_perm_comp_forall₂] at h3
      obtain ⟨g'', h4, h5⟩ := h3
      obtain ⟨t'', h6, h7⟩ := e2.congr h4
      refine ⟨g'', t'', h6, h5.trans ?_, h7⟩
      exact (hrest.symm.cons _).trans (List.perm_append_singleton _ _).symm
    obtain ⟨g'', t'', h6, h7, h8⟩ := hstep
    obtain ⟨r, hr, t', hr1, hr2⟩ := ih _ g'' t'' (stepCost soFar (n + 1 + 2) (p.1.openLabels, p.1) (p.2.1.openLabels, p.2.1))
      (step_length hperm hlen) h6 h7
    refine ⟨r, ?_, t', hr1, h8.trans hr2⟩
    rw [contractionPath_step, List.mem_flatMap]
    exact ⟨p, hp, hr⟩

/-- The number of results. -/
theorem contractionPath_length (n : Nat) : ∀ (f : List (Finset Index × CTree)) (soFar : PathCost), f.length = n + 1 →
    (contractionPath (n + 1) f soFar).length * 2 ^ n = (n + 1).factorial * n.factorial := by
  induction n with
  | zero => intro f soFar _; simp [contractionPath]
  | succ n ih =>
    intro f soFar hlen
    rw [contractionPath, List.length_flatMap]
    have hconst : ∀ p ∈ pickPairs f, (contractionPath (n + 1) (p.2.2 ++ [((contractionCost p.1.1 p.2.1.1).2.2, .node p.1.2 p.2.1.2)])
        (stepCost soFar (n + 2) p.1 p.2.1)).length = (n + 1).factorial * n.factorial / 2 ^ n := by
      intro p hp
      have hp' := (pickPairs_perm p hp).length_eq
      rw [← ih (p.2.2 ++ [((contractionCost p.1.1 p.2.1.1).2.2, .node p.1.2 p.2.1.2)]) (stepCost soFar (n + 2) p.1 p.2.1) (by simp at *; omega)]
      rw [Nat.mul_div_cancel _ (Nat.two_pow_pos n)]
    have hdvd : 2 ^ n ∣ (n + 1).factorial * n.factorial := by
      obtain ⟨a, b, l, rfl⟩ : ∃ a b l, f = a :: b :: l := by
        match f, hlen with
        | a :: b :: l, _ => exact ⟨a, b, l, rfl⟩
      rw [← ih ((b :: l)) soFar (by simpa using hlen)]
      exact Dvd.intro_left _ rfl
    rw [List.map_congr_left hconst, List.map_const', List.sum_replicate, pickPairs_length, hlen, nsmul_eq_mul, Nat.cast_id]
    have h2 : (n + 1 + 1).choose 2 * 2 = (n + 2) * (n + 1) := by
      rw [Nat.choose_two_right, Nat.div_mul_cancel]
      · simp
      · exact even_iff_two_dvd.1 (by simpa using Nat.even_mul_pred_self (n + 2))
    calc (n + 1 + 1).choose 2 * ((n + 1).factorial * n.factorial / 2 ^ n) * 2 ^ (n + 1)
        = ((n + 1 + 1).choose 2 * 2) * ((n + 1).factorial * n.factorial / 2 ^ n * 2 ^ n) := by ring
      _ = (n + 1 + 1).factorial * (n + 1).factorial := by
        rw [h2, Nat.div_mul_cancel hdvd, Nat.factorial_succ (n + 1), Nat.factorial_succ n]; ring

/-- The running best is a smallest element. -/
theorem keepBest_spec (l : List (MOSpaceCounter × Option CTree)) (hl : l ≠ []) :
    ∃ b ∈ l, l.foldl keepBest none = some b ∧ ∀ x ∈ l, x.1.pyLt b.1 = false := by
  have gen : ∀ (l : List (MOSpaceCounter × Option CTree)) (b0 : MOSpaceCounter × Option CTree),
      ∃ b ∈ b0 :: l, l.foldl keepBest (some b0) = some b ∧ ∀ x ∈ b0 :: l, x.1.pyLt b.1 = false := by
    intro l
    induction l with
    | nil =>
      intro b0
      exact ⟨b0, List.mem_cons_self, rfl, fun x hx => by rw [List.mem_singleton.1 hx]; exact pyListLt_irrefl _⟩
    | cons y l ih =>
      intro b0
      rw [List.foldl_cons, keepBest]
      by_cases h : y.1.pyLt b0.1 = true
      · rw [if_pos h]
        obtain ⟨b, hb, e, hall⟩ := ih y
        refine ⟨b, List.mem_cons_of_mem _ hb, e, ?_⟩
        intro x hx
        rcases List.mem_cons.1 hx with rfl | hx
        · by_contra hc
          rw [Bool.not_eq_false] at hc
          have := hall y List.mem_cons_self
          rw [show y.1.pyLt b.1 = true from pyListLt_trans h hc] at this
          exact absurd this (by decide)
        · exact hall x hx
      · rw [if_neg h]
        obtain ⟨b, hb, e, hall⟩ := ih b0
        refine ⟨b, ?_, e, ?_⟩
        · rcases List.mem_cons.1 hb with rfl | hb
          · exact List.mem_cons_self
          · exact List.mem_cons_of_mem _ (List.mem_cons_of_mem _ hb)
        · intro x hx
          rcases List.mem_cons.1 hx with rfl | hx
          · exact hall _ List.mem_cons_self
          · rcases List.mem_cons.1 hx with rfl | hx
            · by_contra hc
              rw [Bool.not_eq_false] at hc
              have hb0 := hall b0 List.mem_cons_self
              rcases pyListLt_trichotomy b0.1.key b.1.key with h1 | h1 | h1
              · exact absurd h1 (by unfold MOSpaceCounter.pyLt at hb0; rw [hb0]; decide)
              · apply h
                unfold MOSpaceCounter.pyLt at hc ⊢
                rw [h1]; exact hc
              · apply h
                unfold MOSpaceCounter.pyLt at hc ⊢
                exact pyListLt_trans hc h1
            · exact hall x (List.mem_cons_of_mem _ hx)
  cases l with
  | nil => exact absurd rfl hl
  | cons x l => exact gen l x

end Dsrg
