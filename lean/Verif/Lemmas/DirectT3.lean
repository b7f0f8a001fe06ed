import Verif.Lemmas.ForteMain
import Verif.Spec.DirectT3

/-!
Lemmas about the function for three-body amplitudes.
-/

namespace Dsrg

theorem directT3_ok {pt : List (List (List (List Index)) × List Term)} {f : DirectT3} (h : directT3 pt = .ok f) :
    (∀ nm, nm ∈ f.params ↔ ∃ t ∈ pt.flatMap Prod.snd, ∃ x ∈ t.tensors, nm = x.arrayName) ∧ f.params.Nodup ∧
      blockBody [] false pt = .ok f.body ∧ f.update = t3Template := by
  unfold directT3 at h
  cases h1 : (pt.flatMap fun g => g.2.flatMap Term.tensors).mapM Tensor.forteName with
  | error er => rw [h1] at h; cases h
  | ok names =>
    cases h2 : blockBody [] false pt with
    | error er => rw [h1, h2] at h; cases h
    | ok body =>
      simp only [h1, h2, bind, Except.bind, pure, Except.pure] at h
      injection h with h
      subst h
      refine ⟨fun nm => ?_, (List.perm_insertionSort _ _).nodup_iff.2 (List.nodup_dedup _), rfl, rfl⟩
      rw [List.mem_insertionSort, List.mem_dedup, names_ok h1]
      simp only [List.mem_map, List.mem_flatMap]
      constructor
      · rintro ⟨x, ⟨g, hg, t, ht, hx⟩, rfl⟩
        exact ⟨t, ⟨g, hg, ht⟩, x, hx, rfl⟩
      · rintro ⟨t, ⟨g, hg, ht⟩, x, hx, rfl⟩
        exact ⟨x, ⟨g, hg, t, ht, hx⟩, rfl⟩

/-- The statements of the terms mention only factors, the target and `temp`. -/
theorem directT3_mentions {e : List Space × List (List (List (List Index)) × List Term)} {f : DirectT3} (hf : directT3 e.2 = .ok f) (hlen : e.1.length = 6)
    (hs : ∀ g ∈ e.2, ∀ t ∈ g.2, Shape t ∧ t.bucketKey = .ok (e.1, g.1)) (hc : ∀ g ∈ e.2, ∃ prog, ambitTerms false g.2 = .ok prog) :
    ∀ st ∈ f.body, ∀ nm ∈ st.mentions, nm ∈ f.params ∨ nm = c3Name ∨ nm = tempName := by
  obtain ⟨f1, -, f2, -⟩ := directT3_ok hf
  obtain ⟨chunks, h1, h2⟩ := blockBody_chunks [] e.2 hc false
  rw [f2] at h1
  injection h1 with h1
  intro st hst nm hnm
  rw [h1, List.mem_flatten] at hst
  obtain ⟨c, hcm, hst⟩ := hst
  obtain ⟨g, hg, i, code, hcode, rfl⟩ : ∃ g ∈ e.2, ∃ i code, ambitTerms false g.2 = .ok code ∧ c = bucketCode [] i g.1 code := by
    obtain ⟨k, hk, rfl⟩ := List.getElem_of_mem hcm
    have hk' : k < e.2.length := by rw [h2.length_eq]; exact hk
    exact ⟨e.2[k], List.getElem_mem hk', (List.forall₂_iff_get.1 h2).2 k hk' hk⟩
  have eC : ('C' :: natStr (e.1.length / 2) : PyStr) = c3Name := by rw [hlen]; decide +kernel
  have main : st ∈ code → nm ∈ f.params ∨ nm = c3Name ∨ nm = tempName := by
    intro hst
    rcases ambitTerms_mentions (fun t ht => (hs g hg t ht).1) hcode st hst nm hnm with ⟨t, ht, h⟩ | ⟨t, ht, x, hx, h⟩ | ⟨h, t, ht, h'⟩
    · right; left
      obtain ⟨s1, s2⟩ := hs g hg t ht
      rw [h, s1.target s2, ← eC]; rfl
    · left
      exact (f1 nm).2 ⟨t, List.mem_flatMap.2 ⟨g, hg, ht⟩, x, hx, h⟩
    · exact Or.inr (Or.inr h)
  unfold bucketCode at hst
  by_cases hp : g.1 = []
  · rw [if_pos hp] at hst; exact main hst
  · rw [if_neg hp] at hst
    rcases List.mem_cons.1 hst with h | h
    · right; right
      subst h
      cases i <;> simpa [AmbitStmt.mentions] using hnm
    · exact main h

theorem block_terms {terms : List Term} (hp : ∀ t ∈ terms, Printable t) {b : Buckets} (hb : categorizeContractions terms = .ok b)
    {e : List Space × List (List (List (List Index)) × List Term)} (he : e ∈ b) :
    (e.2.flatMap Prod.snd).Perm (terms.filter fun t => decide ((t.sqOp.lower.list ++ t.sqOp.upper.list).map Index.space = e.1)) := by
  obtain ⟨p1, p2, p3, p4⟩ := C58_partition terms b hb
  have hsp : ∀ t ∈ terms, ∀ k, t.bucketKey = .ok k → k.1 = (t.sqOp.lower.list ++ t.sqOp.upper.list).map Index.space := by
    intro t ht k hk
    exact ((hp t ht).shape.keyPerms hk).1
  refine groups_perm e.2 _ (fun t => match t.bucketKey with | .ok k => k.2 | .error _ => []) (p2 e he) ?_ ?_
  · intro x hx
    refine (((p3 e he).2 x hx).2.2).trans (List.Perm.of_eq ?_)
    rw [List.filter_filter]
    refine List.filter_congr fun t ht => ?_
    obtain ⟨e', -, f', -, hk, -⟩ := p4 t ht
    have := hsp t ht _ hk
    simp only [hk, Except.ok.injEq, Prod.ext_iff]
    simp only at this
    rw [← this]
    by_cases h1 : e'.1 = e.1 <;> by_cases h2 : f'.1 = x.1 <;> simp [h1, h2]
  · intro t ht
    obtain ⟨ht, hs⟩ := List.mem_filter.1 ht
    obtain ⟨e', he', f', hf', hk, -⟩ := p4 t ht
    have h1 : e'.1 = e.1 := by rw [hsp t ht _ hk]; simpa using hs
    have h2 : e' = e := by
      have := List.inj_on_of_nodup_map p1 he' he h1
      exact this
    simp only [hk]
    rw [← h2]
    exact List.mem_map_of_mem hf'

theorem block_exists {terms : List Term} (hp : ∀ t ∈ terms, Printable t) {b : Buckets} (hb : categorizeContractions terms = .ok b) {t : Term}
    (ht : t ∈ terms) : ∃ pt, ((t.sqOp.lower.list ++ t.sqOp.upper.list).map Index.space, pt) ∈ b := by
  obtain ⟨e, he, f, -, hk, -⟩ := (C58_partition terms b hb).2.2.2 t ht
  have := ((hp t ht).shape.keyPerms hk).1
  exact ⟨e.2, by rw [show (t.sqOp.lower.list ++ t.sqOp.upper.list).map Index.space = e.1 from this.symm]; exact he⟩

section
variable {O R M : Type} [Fintype O] [DecidableEq O] [Inhabited O] [CommRing R] [Algebra ℚ R] [AddCommGroup M] [Module R M]

theorem localStore_self (l : List PyStr) (s : Store O R) : localStore l l s = fun p => if p ∈ l then s p else fun _ => 0 := by
  funext p
  unfold localStore
  rw [lookup_self]
  by_cases h : p ∈ l <;> simp [h]

theorem template_effect (orb : Orbitals O) (Fd : O → R) (ren dmp : R → R) (σ : Store O R) (r : List O → R) :
    (∀ os, (t3Template.foldl (T3Stmt.exec orb Fd ren dmp) (σ, r)).1 t3Name os = if IsTriple orb os then
      σ c3Name os * ren (tripleDelta Fd os) - σ t3Name os * dmp (tripleDelta Fd os) + σ t3Name os else σ t3Name os) ∧
    (∀ os, (t3Template.foldl (T3Stmt.exec orb Fd ren dmp) (σ, r)).2 os = if IsTriple orb os then
      σ c3Name os * ren (tripleDelta Fd os) - σ t3Name os * dmp (tripleDelta Fd os) else σ c3Name os) ∧
    ∀ nm, nm ≠ t3Name → nm ≠ c3Name → nm ≠ tempName → (t3Template.foldl (T3Stmt.exec orb Fd ren dmp) (σ, r)).1 nm = σ nm := by
  have n1 : c3Name ≠ t3Name := by decide
  have n2 : tempName ≠ t3Name := by decide
  have n3 : c3Name ≠ tempName := by decide
  refine ⟨fun os => ?_, fun os => ?_, fun nm h1 h2 h3 => ?_⟩
  · simp only [t3Template, List.foldl, T3Stmt.exec, Function.update_self, Function.update_of_ne n1, Function.update_of_ne n2,
      Function.update_of_ne n3, Function.update_of_ne n1.symm, Function.update_of_ne n2.symm, Function.update_of_ne n3.symm,
      List.map_cons, List.map_nil, List.sum_cons, List.sum_nil, add_zero]
    by_cases h : IsTriple orb os <;> simp [h]
  · simp only [t3Template, List.foldl, T3Stmt.exec, Function.update_self, Function.update_of_ne n1, Function.update_of_ne n2,
      Function.update_of_ne n3, Function.update_of_ne n1.symm, Function.update_of_ne n2.symm, Function.update_of_ne n3.symm]
    by_cases h : IsTriple orb os <;> simp [h]
  · simp only [t3Template, List.foldl, T3Stmt.exec, Function.update_of_ne h1, Function.update_of_ne h2, Function.update_of_ne h3]

/-- The effect of a call. -/
theorem directT3_effect (orb : Orbitals O) {I : Interp O R M} (hI : I.Antisymmetric) (hH : I.Hermitian) {terms : List Term}
    (hp : ∀ t ∈ terms, Printable t) (hx : ∀ t ∈ terms, ∀ x ∈ t.tensors, ∀ n, x.arrayName ≠ 'C' :: natStr n) {b : Buckets}
    (hb : categorizeContractions terms = .ok b) {e : List Space × List (List (List (List Index)) × List Term)} (he : e ∈ b)
    (hlen : e.1.length = 6) {f : DirectT3} (hf : directT3 e.2 = .ok f) (h3 : t3Name ∈ f.params) (s : Store O R)
    (hs : ∀ t ∈ e.2.flatMap Prod.snd, ArraysHold s I t.tensors) :
    ∃ C : List O → R, I.operator 3 3 C = ((e.2.flatMap Prod.snd).map fun t => t.amplitudes orb I).sum ∧
      (GoodTerms terms → AntisymmetricArray orb 3 3 C) ∧
      ∀ (Fd : O → R) (ren dmp : R → R),
        (∀ os, (f.run orb Fd ren dmp s).1 t3Name os = if IsTriple orb os then
          C os * ren (tripleDelta Fd os) - s t3Name os * dmp (tripleDelta Fd os) + s t3Name os else s t3Name os) ∧
        (∀ os, IsTriple orb os → (f.run orb Fd ren dmp s).2 os = C os * ren (tripleDelta Fd os) - s t3Name os * dmp (tripleDelta Fd os)) ∧
        ∀ nm, nm ≠ t3Name → (f.run orb Fd ren dmp s).1 nm = s nm := by
  obtain ⟨f1, -, f2, f3⟩ := directT3_ok hf
  obtain ⟨body, h1, hadd⟩ := blockBody_adds (R := R) orb hI hH hp hx hb he [] false
  rw [f2] at h1
  injection h1 with h1
  subst h1
  have e3 : e.1.length / 2 = 3 := by omega
  rw [e3] at hadd
  have eC : ('C' :: natStr 3 : PyStr) = c3Name := by decide +kernel
  have hmem : ∀ g ∈ e.2.flatMap Prod.snd, g ∈ terms := fun t ht => by
    obtain ⟨g, hg, ht⟩ := List.mem_flatMap.1 ht
    exact (((categorize_flat hb).2 ((e.1, g.1), g.2) (Buckets.mem_flat.2 ⟨e, he, g, hg, rfl⟩)).2 t ht).1
  have hC : c3Name ∉ f.params := by
    intro h
    obtain ⟨t, ht, x, hx', h⟩ := (f1 _).1 h
    exact hx t (hmem t ht) x hx' 3 (by rw [eC]; exact h.symm)
  have hT : tempName ∉ f.params := by
    intro h
    obtain ⟨t, ht, x, hx', h⟩ := (f1 _).1 h
    exact Tensor.arrayName_ne x h.symm
  obtain ⟨r1, r2, r3⟩ := hadd (localStore f.params f.params s) (by
    intro t ht
    refine (hs t ht).of_eq fun x hx' => ?_
    rw [localStore_self]
    have : x.arrayName ∈ f.params := (f1 _).2 ⟨t, ht, x, hx', rfl⟩
    simp only [this, if_true])
  rw [eC] at r1 r2 r3
  have z : localStore f.params f.params s c3Name = fun _ => 0 := by rw [localStore_self]; simp only [hC, if_false]
  simp only [z, sub_zero] at r1 r2
  refine ⟨runCode orb (localStore f.params f.params s) f.body c3Name, r1, r2, fun Fd ren dmp => ?_⟩
  obtain ⟨t1, t2, t4⟩ := template_effect orb Fd ren dmp (runCode orb (localStore f.params f.params s) f.body) 0
  have e1 : ∀ nm ∈ f.params, runCode orb (localStore f.params f.params s) f.body nm = s nm := by
    intro nm hnm
    refine (r3 nm (fun h => hC (h ▸ hnm)) (fun h => hT (h ▸ hnm))).trans ?_
    rw [localStore_self]
    simp only [hnm, if_true]
  unfold DirectT3.run
  simp only [f3, h3, if_true]
  refine ⟨fun os => ?_, fun os ho => ?_, fun nm hne => ?_⟩
  · rw [t1 os, e1 _ h3]
  · rw [t2 os, e1 _ h3, if_pos ho]
  · by_cases hnm : nm ∈ f.params
    · rw [if_pos hnm, t4 nm hne (fun h => hC (h ▸ hnm)) (fun h => hT (h ▸ hnm)), e1 nm hnm]
    · rw [if_neg hnm]

end

end Dsrg
