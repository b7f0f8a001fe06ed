import Verif.Lemmas.Iteration

/-!
C93 Loops over label lists: every loop visits the labels once and in order, unless its body goes through the same object.
-/

namespace Dsrg

/-- A program in which no loop over an object goes through the same object in its body ends, and it observes what the labels say: every loop
runs its body once for every label, in order, whatever the positions left behind by earlier or interrupted iterations (`h` is arbitrary), and
however loops over different objects are nested. -/
theorem C93_loops (p : LoopProg) (hp : p.Separate) (h : ObjStore) :
    ∃ rounds, ∀ fuel, rounds ≤ fuel → ∃ h', p.run fuel h = some (p.meaning (fun x => (h x).obj), h') ∧ ∀ x, (h' x).obj = (h x).obj := by
  refine ⟨p.rounds h.objs, fun fuel hf => ?_⟩
  obtain ⟨h', hr, ho, -⟩ := p.run_ok hp fuel h.objs hf h rfl
  exact ⟨h', hr, fun x => congrFun ho x⟩

/-- The results of single uses never depend on earlier iterations. -/
theorem C93_uses (u : Use) (h : ObjStore) : (runUse u h).1 = useMeaning (fun x => (h x).obj) u := (runUse_ok u h).1

/-- Violation: two nested loops over one object.  The inner loop leaves the position at the end, so the outer loop stops after its first
round: `n` labels give `n + 1` observations, not `n + n * n`. -/
theorem C93_violation_nested (h : ObjStore) (x : ObjName) (i : Index) (l : List Index) (hl : (h x).obj.list = i :: l) (fuel : Nat)
    (hf : l.length + 2 ≤ fuel) :
    ∃ h', (LoopProg.loop x (.loop x .skip)).run fuel h = some (.item x i :: (i :: l).map (Event.item x), h') := by
  obtain ⟨h2, hr, hx⟩ := run_loop_skip ((h.set x (h x).iter).set x { obj := (h x).obj, n := some 1 }) x fuel
    (by rw [ObjStore.set_same]; simp only [hl, List.length_cons]; omega)
  rw [ObjStore.set_same] at hr hx
  simp only [hl] at hr
  exact ⟨_, loop_once _ h x i l hl fuel (by omega) _ h2 hr (by simpa using hx)⟩

/-- Violation: taking the hash of an object (or printing it) inside a loop over it ends the loop after the first round. -/
theorem C93_violation_hash (h : ObjStore) (x : ObjName) (i : Index) (l : List Index) (hl : (h x).obj.list = i :: l) (fuel : Nat)
    (hf : 2 ≤ fuel) :
    ∃ h', (LoopProg.loop x (.use (.hash x))).run fuel h = some ([.item x i, .labels (i :: l)], h') := by
  have hrun : ∀ g : ObjStore, (LoopProg.use (.hash x)).run fuel g =
      some ([.labels (g x).obj.list], g.set x { obj := (g x).obj, n := some (g x).obj.list.length }) := by
    intro g
    simp only [LoopProg.run, runUse, IterObj.takeAll_eq]
  have := hrun ((h.set x (h x).iter).set x { obj := (h x).obj, n := some 1 })
  rw [ObjStore.set_same] at this
  simp only [hl] at this
  exact ⟨_, loop_once _ h x i l hl fuel hf _ _ this (by rw [ObjStore.set_same, hl])⟩

/-- Violation: a loop over an object of at least two labels that looks at the first label in its body never ends: no number of rounds is
enough. -/
theorem C93_violation_endless (h : ObjStore) (x : ObjName) (i j : Index) (l : List Index) (hl : (h x).obj.list = i :: j :: l) (fuel : Nat) :
    (LoopProg.loop x (.use (.first x))).run fuel h = none := by
  have hrun : ∀ g : ObjStore, (g x).obj.list = i :: j :: l →
      (LoopProg.use (.first x)).run fuel g = some ([.label i], g.set x { obj := (g x).obj, n := some 1 }) := by
    intro g hg
    have := (g x).iter.next_lt 0 rfl (by simp [IterObj.iter, hg])
    simp only [LoopProg.run, runUse, this]
    simp [IterObj.iter, hg]
  have key : ∀ (k : Nat) (g : ObjStore) (n : Nat), (g x).obj.list = i :: j :: l → (g x).n = some n → n < 2 →
      loopRounds ((LoopProg.use (.first x)).run fuel) x k g = none := by
    intro k
    induction k with
    | zero => intros; rfl
    | succ k ih =>
      intro g n hg hn hn2
      have hlt : n < (g x).obj.list.length := by rw [hg]; simp only [List.length_cons]; omega
      unfold loopRounds
      rw [(g x).next_lt n hn hlt]
      have hr := hrun (g.set x { obj := (g x).obj, n := some (n + 1) }) (by rw [ObjStore.set_same]; exact hg)
      have hi := ih ((g.set x { obj := (g x).obj, n := some (n + 1) }).set x
        { obj := ((g.set x { obj := (g x).obj, n := some (n + 1) }) x).obj, n := some 1 }) 1
        (by rw [ObjStore.set_same, ObjStore.set_same]; exact hg) (by rw [ObjStore.set_same]) (by omega)
      simp only [hr, hi]
  unfold LoopProg.run
  exact key fuel _ 0 (by rw [ObjStore.set_same]; exact hl) (by rw [ObjStore.set_same]; rfl) (by omega)

/-- Two objects with labels, the second left in the middle of an earlier iteration. -/
def iterStore : ObjStore := fun x =>
  if x = 0 then ⟨⟨.spinOrbital, [⟨⟨.h, false⟩, 0⟩, ⟨⟨.h, false⟩, 1⟩]⟩, none⟩
  else ⟨⟨.spinOrbital, [⟨⟨.p, false⟩, 0⟩, ⟨⟨.p, false⟩, 1⟩]⟩, some 1⟩

/-- A double loop over two objects with the hash of the inner one and the permutations of both between the loops. -/
def iterProg : LoopProg := .seq (.loop 0 (.seq (.use (.hash 1)) (.loop 1 (.use (.len 0))))) (.use (.countPermutations 0 1))

theorem C93_example : iterProg.Separate ∧ (iterProg.run 3 iterStore).map (·.1) = some (iterProg.meaning fun x => (iterStore x).obj) ∧
    (iterProg.meaning fun x => (iterStore x).obj).length = 13 ∧
    ((LoopProg.loop 0 (.loop 0 .skip)).run 9 iterStore).map (·.1.length) = some 3 ∧
    ((LoopProg.loop 0 (.loop 0 .skip)).meaning fun x => (iterStore x).obj).length = 6 := by
  refine ⟨?_, by decide +kernel, by decide +kernel, by decide +kernel, by decide +kernel⟩
  simp [iterProg, LoopProg.Separate, LoopProg.GoesThrough, Use.goesThrough]

end Dsrg
