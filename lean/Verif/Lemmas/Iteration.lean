import Verif.Spec.Iteration

namespace Dsrg

theorem ObjStore.set_same (h : ObjStore) (x : ObjName) (o : IterObj) : (h.set x o) x = o := by simp [ObjStore.set]

theorem ObjStore.set_other (h : ObjStore) (x y : ObjName) (o : IterObj) (hy : y ≠ x) : (h.set x o) y = h y := by
  simp [ObjStore.set, hy]

/-- The objects of a store without the positions. -/
def ObjStore.objs (h : ObjStore) : ObjName → Indices := fun x => (h x).obj

theorem ObjStore.objs_set (h : ObjStore) (x : ObjName) (o : IterObj) (ho : o.obj = (h x).obj) : (h.set x o).objs = h.objs := by
  funext y
  unfold ObjStore.objs ObjStore.set
  split
  · next e => rw [ho, e]
  · rfl

theorem IterObj.next_lt (x : IterObj) (k : Nat) (hn : x.n = some k) (hk : k < x.obj.list.length) :
    x.next = (.label x.obj.list[k], { x with n := some (k + 1) }) := by
  unfold IterObj.next
  rw [hn]
  simp [Indices.size, hk]

theorem IterObj.next_end (x : IterObj) (hn : x.n = some x.obj.list.length) : x.next = (.stop, x) := by
  unfold IterObj.next
  rw [hn]
  simp [Indices.size]

theorem IterObj.drain_from (x : IterObj) (k : Nat) (hn : x.n = some k) (hk : k ≤ x.obj.list.length) (fuel : Nat)
    (hf : x.obj.list.length + 1 ≤ fuel + k) :
    x.drain fuel = (x.obj.list.drop k, { x with n := some x.obj.list.length }) := by
  induction fuel generalizing x k with
  | zero => omega
  | succ fuel ih =>
    unfold IterObj.drain
    rcases Nat.lt_or_ge k x.obj.list.length with hlt | hge
    · rw [x.next_lt k hn hlt]
      have := ih { x with n := some (k + 1) } (k + 1) rfl hlt (by simp only; omega)
      simp only [this]
      rw [List.drop_eq_getElem_cons hlt]
    · have hke : k = x.obj.list.length := by omega
      subst hke
      rw [x.next_end hn]
      simp only [List.drop_length]
      rw [← hn]

theorem IterObj.takeAll_eq (x : IterObj) : x.takeAll = (x.obj.list, { x with n := some x.obj.list.length }) := by
  unfold IterObj.takeAll
  have := x.iter.drain_from 0 rfl (Nat.zero_le _) (x.obj.size + 1) (by simp [IterObj.iter, Indices.size])
  rw [this]
  rfl

/-- A use gives the result that the labels determine, keeps the objects, and changes only the positions of the objects it goes through. -/
theorem runUse_ok (u : Use) (h : ObjStore) :
    (runUse u h).1 = useMeaning h.objs u ∧ (runUse u h).2.objs = h.objs ∧
    ∀ x, ¬ u.goesThrough x → (runUse u h).2 x = h x := by
  cases u with
  | len x => exact ⟨rfl, rfl, fun _ _ => rfl⟩
  | getItem x k => exact ⟨rfl, rfl, fun _ _ => rfl⟩
  | contains x i => exact ⟨rfl, rfl, fun _ _ => rfl⟩
  | eq x y => exact ⟨rfl, rfl, fun _ _ => rfl⟩
  | lt x y => exact ⟨rfl, rfl, fun _ _ => rfl⟩
  | hash x =>
    simp only [runUse, useMeaning, IterObj.takeAll_eq]
    refine ⟨rfl, ObjStore.objs_set _ _ _ rfl, fun y hy => ObjStore.set_other _ _ _ _ ?_⟩
    intro e; exact hy e.symm
  | latex x =>
    simp only [runUse, useMeaning, IterObj.takeAll_eq]
    refine ⟨rfl, ObjStore.objs_set _ _ _ rfl, fun y hy => ObjStore.set_other _ _ _ _ ?_⟩
    intro e; exact hy e.symm
  | countPermutations x y =>
    simp only [runUse, useMeaning, IterObj.takeAll_eq]
    split
    · next hp =>
      have hobj := ObjStore.objs_set h x { h x with n := some (h x).obj.list.length } rfl
      have hy : ((h.set x { h x with n := some (h x).obj.list.length }) y).obj = (h y).obj := congrFun hobj y
      refine ⟨?_, ?_, ?_⟩
      · simp only [Indices.countPermutations, ObjStore.objs, hp, if_true, Event.ofExcept]
        rw [hy]
      · rw [ObjStore.objs_set _ _ _ (by rfl), hobj]
      · intro z hz
        have hz1 : z ≠ x := fun e => hz (Or.inl e.symm)
        have hz2 : z ≠ y := fun e => hz (Or.inr e.symm)
        exact (ObjStore.set_other _ _ _ _ hz2).trans (ObjStore.set_other _ _ _ _ hz1)
    · next hp =>
      refine ⟨?_, rfl, fun _ _ => rfl⟩
      simp only [Indices.countPermutations, ObjStore.objs, hp, Event.ofExcept]
      rfl
  | first x =>
    simp only [runUse, useMeaning, ObjStore.objs]
    have hobj : ((h x).iter.next).2.obj = (h x).obj := by
      unfold IterObj.next IterObj.iter
      simp only
      split
      · split <;> rfl
      · rfl
    refine ⟨?_, ObjStore.objs_set _ _ _ hobj, fun y hy => ObjStore.set_other _ _ _ _ (fun e => hy e.symm)⟩
    cases hl : (h x).obj.list with
    | nil => rw [(h x).iter.next_end (by simp [IterObj.iter, hl])]
    | cons i l =>
      have h0 : 0 < (h x).iter.obj.list.length := by simp [IterObj.iter, hl]
      rw [(h x).iter.next_lt 0 rfl h0]
      simp [IterObj.iter, hl]

/-- The rounds of a loop whose body gives the observations `ev`, keeps the objects and does not move the position of `x`. -/
theorem loopRounds_ok (body : ObjStore → Option (List Event × ObjStore)) (x : ObjName) (objs : ObjName → Indices) (ev : List Event)
    (hbody : ∀ h : ObjStore, h.objs = objs → ∃ h', body h = some (ev, h') ∧ h'.objs = objs ∧ h' x = h x)
    (P : ObjName → Prop)
    (hkeep : ∀ h : ObjStore, h.objs = objs → ∀ e h', body h = some (e, h') → ∀ y, P y → h' y = h y)
    (hx : ¬ P x) (fuel k : Nat) (h : ObjStore) (hobjs : h.objs = objs) (hn : (h x).n = some k) (hk : k ≤ (objs x).list.length)
    (hf : (objs x).list.length + 1 ≤ fuel + k) :
    ∃ h', loopRounds body x fuel h = some (((objs x).list.drop k).flatMap (fun i => .item x i :: ev), h') ∧ h'.objs = objs ∧
      (∀ y, P y → h' y = h y) ∧ h' x = { obj := objs x, n := some (objs x).list.length } := by
  have hxo : (h x).obj = objs x := congrFun hobjs x
  induction fuel generalizing k h with
  | zero => omega
  | succ fuel ih =>
    unfold loopRounds
    rcases Nat.lt_or_ge k (objs x).list.length with hlt | hge
    · have hlt' : k < (h x).obj.list.length := by rw [hxo]; exact hlt
      rw [(h x).next_lt k hn hlt']
      set h0 := h.set x { h x with n := some (k + 1) } with hh0
      have h0objs : h0.objs = objs := by rw [hh0, ObjStore.objs_set _ _ _ (by rfl), hobjs]
      obtain ⟨h1, hb, h1objs, h1x⟩ := hbody h0 h0objs
      have h1n : (h1 x).n = some (k + 1) := by rw [h1x, hh0, ObjStore.set_same]
      obtain ⟨h2, hr, h2objs, h2k, h2x⟩ := ih (k + 1) h1 h1objs h1n hlt (by omega) (congrFun h1objs x)
      refine ⟨h2, ?_, h2objs, ?_, h2x⟩
      · have hb' : body (h.set x { obj := (h x).obj, n := some (k + 1) }) = some (ev, h1) := hb
        have hi : (h x).obj.list[k] = (objs x).list[k] := by simp only [hxo]
        rw [List.drop_eq_getElem_cons hlt, List.flatMap_cons]
        simp only [hb', hr, hi, List.cons_append]
      · intro y hy
        rw [h2k y hy, hkeep h0 h0objs _ _ hb y hy, hh0, ObjStore.set_other]
        rintro rfl; exact hx hy
    · have hke : k = (h x).obj.list.length := by rw [hxo]; omega
      subst hke
      rw [(h x).next_end hn]
      refine ⟨h.set x (h x), ?_, ?_, ?_, ?_⟩
      · simp only [hxo, List.drop_length, List.flatMap_nil]
      · rw [ObjStore.objs_set _ _ _ rfl, hobjs]
      · intro y hy
        rw [ObjStore.set_other]
        rintro rfl; exact hx hy
      · rw [ObjStore.set_same, ← hxo, ← hn]

/-- The number of rounds that is enough for all loops of a program. -/
def LoopProg.rounds (objs : ObjName → Indices) : LoopProg → Nat
  | .skip => 0
  | .use _ => 0
  | .seq a b => max (a.rounds objs) (b.rounds objs)
  | .loop x body => max ((objs x).list.length + 1) (body.rounds objs)

theorem LoopProg.run_ok (p : LoopProg) (hp : p.Separate) (fuel : Nat) (objs : ObjName → Indices) (hf : p.rounds objs ≤ fuel) (h : ObjStore)
    (hobjs : h.objs = objs) :
    ∃ h', p.run fuel h = some (p.meaning objs, h') ∧ h'.objs = objs ∧ ∀ y, ¬ p.GoesThrough y → h' y = h y := by
  induction p generalizing h with
  | skip => exact ⟨h, rfl, hobjs, fun _ _ => rfl⟩
  | use u =>
    obtain ⟨h1, h2, h3⟩ := runUse_ok u h
    refine ⟨(runUse u h).2, ?_, ?_, h3⟩
    · simp only [LoopProg.run, LoopProg.meaning]
      rw [h1, hobjs]
    · rw [h2, hobjs]
  | seq a b iha ihb =>
    obtain ⟨h1, ra, oa, ka⟩ := iha hp.1 (le_trans (le_max_left _ _) hf) h hobjs
    obtain ⟨h2, rb, ob, kb⟩ := ihb hp.2 (le_trans (le_max_right _ _) hf) h1 oa
    refine ⟨h2, ?_, ob, ?_⟩
    · simp only [LoopProg.run, ra, rb, LoopProg.meaning]
    · intro y hy
      rw [kb y (fun e => hy (Or.inr e)), ka y (fun e => hy (Or.inl e))]
  | loop x body ih =>
    have hfb : body.rounds objs ≤ fuel := le_trans (le_max_right _ _) hf
    have hfx : (objs x).list.length + 1 ≤ fuel := le_trans (le_max_left _ _) hf
    set h0 := h.set x (h x).iter with hh0
    have h0objs : h0.objs = objs := by rw [hh0, ObjStore.objs_set _ _ _ (by rfl), hobjs]
    obtain ⟨h', hr, ho, hk, -⟩ := loopRounds_ok (body.run fuel) x objs (body.meaning objs)
      (fun g hg => by
        obtain ⟨g', r, o, k⟩ := ih hp.2 hfb g hg
        exact ⟨g', r, o, k x hp.1⟩)
      (fun y => ¬ (LoopProg.loop x body).GoesThrough y)
      (fun g hg e g' hr y hy => by
        obtain ⟨g'', r, o, k⟩ := ih hp.2 hfb g hg
        rw [hr] at r
        cases r
        exact k y (fun hb => hy (Or.inr hb)))
      (fun hx => hx (Or.inl rfl)) fuel 0 h0 h0objs (by rw [hh0, ObjStore.set_same]; rfl) (Nat.zero_le _) (by omega)
    refine ⟨h', ?_, ho, ?_⟩
    · simp only [LoopProg.run, LoopProg.meaning]
      rw [hr, List.drop_zero]
    · intro y hy
      rw [hk y hy, hh0, ObjStore.set_other]
      rintro rfl; exact hy (Or.inl rfl)

/-- A loop whose body leaves the position of the object at the end stops after the first round. -/
theorem loop_once (p : LoopProg) (h : ObjStore) (x : ObjName) (i : Index) (l : List Index) (hl : (h x).obj.list = i :: l) (fuel : Nat)
    (hf : 2 ≤ fuel) (ev : List Event) (h2 : ObjStore)
    (hb : p.run fuel ((h.set x (h x).iter).set x { obj := (h x).obj, n := some 1 }) = some (ev, h2))
    (hend : h2 x = { obj := (h x).obj, n := some (h x).obj.list.length }) :
    (LoopProg.loop x p).run fuel h = some (.item x i :: ev, h2.set x (h2 x)) := by
  obtain ⟨k, rfl⟩ : ∃ k, fuel = k + 1 + 1 := ⟨fuel - 2, by omega⟩
  have h0x : (h.set x (h x).iter) x = (h x).iter := ObjStore.set_same _ _ _
  have hnext : ((h.set x (h x).iter) x).next = (.label i, { obj := (h x).obj, n := some 1 }) := by
    rw [h0x]
    have := (h x).iter.next_lt 0 rfl (by simp [IterObj.iter, hl])
    simpa [IterObj.iter, hl] using this
  have hstop : (h2 x).next = (.stop, h2 x) := (h2 x).next_end (by rw [hend])
  unfold LoopProg.run loopRounds
  rw [hnext]
  simp only [hb]
  unfold loopRounds
  rw [hstop]
  simp

/-- A loop over an object on its own. -/
theorem run_loop_skip (h : ObjStore) (x : ObjName) (fuel : Nat) (hf : (h x).obj.list.length + 1 ≤ fuel) :
    ∃ h', (LoopProg.loop x .skip).run fuel h = some ((h x).obj.list.map (Event.item x), h') ∧
      h' x = { obj := (h x).obj, n := some (h x).obj.list.length } := by
  have h0objs : (h.set x (h x).iter).objs = h.objs := ObjStore.objs_set _ _ _ rfl
  obtain ⟨h', hr, -, -, hx⟩ := loopRounds_ok (LoopProg.skip.run fuel) x h.objs []
    (fun g hg => ⟨g, rfl, hg, rfl⟩) (fun _ => False) (fun _ _ _ _ _ _ hf => hf.elim) (fun e => e) fuel 0 (h.set x (h x).iter) h0objs
    (by rw [ObjStore.set_same]; rfl) (Nat.zero_le _) (by unfold ObjStore.objs; omega)
  refine ⟨h', ?_, hx⟩
  unfold LoopProg.run
  rw [hr, List.drop_zero]
  have : ∀ l : List Index, l.flatMap (fun i => [Event.item x i]) = l.map (Event.item x) := by
    intro l
    induction l with
    | nil => rfl
    | cons a l ih => simp [List.flatMap_cons, ih]
  rw [this]
  rfl

end Dsrg
