import Verif.Lemmas.BucketProgram
import Verif.Lemmas.PhysOp

/-!
Lemmas about printed programs and generated functions.
-/

namespace Dsrg

theorem mapM_exists {α β ε : Type} {f : α → Except ε β} {P : α → β → Prop} {l : List α} (h : ∀ a ∈ l, ∃ b, f a = .ok b ∧ P a b) :
    ∃ r, l.mapM f = .ok r ∧ List.Forall₂ P l r := by
  induction l with
  | nil => exact ⟨[], rfl, .nil⟩
  | cons a l ih =>
    obtain ⟨b, hb, hp⟩ := h a (by simp)
    obtain ⟨r, hr, hP⟩ := ih fun x hx => h x (List.mem_cons_of_mem _ hx)
    exact ⟨b :: r, mapM_cons_ok.2 ⟨b, r, hb, hr, rfl⟩, .cons hp hP⟩

section
variable {O R M : Type} [Fintype O] [DecidableEq O] [Inhabited O] [CommRing R] [Algebra ℚ R] [AddCommGroup M] [Module R M]

theorem runCode_chunks (orb : Orbitals O) (l : List (List AmbitStmt)) (s : Store O R) :
    runCode orb s l.flatten = l.foldl (fun s p => runCode orb s p) s := by
  induction l generalizing s with
  | nil => rfl
  | cons p l ih => rw [List.flatten_cons, runCode_append, ih]; rfl

/-- Terms whose operators have the same spaces have the same operator. -/
def SameOperators (terms : List Term) : Prop :=
  ∀ t ∈ terms, ∀ u ∈ terms, (openRef t.sqOp).map Index.space = (openRef u.sqOp).map Index.space → t.sqOp = u.sqOp

/-- Every factor is one-sided, and operators with the same spaces are equal. -/
def GoodTerms (terms : List Term) : Prop := SameOperators terms ∧ ∀ t ∈ terms, t.oneSided

/-- A bucket of a list of printable terms. -/
theorem bucket_adds (orb : Orbitals O) {I : Interp O R M} (hI : I.Antisymmetric) (hH : I.Hermitian) {terms : List Term}
    (hp : ∀ t ∈ terms, Printable t) (hx : ∀ t ∈ terms, ∀ x ∈ t.tensors, ∀ n, x.arrayName ≠ 'C' :: natStr n) {b : Buckets}
    (hb : categorizeContractions terms = .ok b) {x : (List Space × List (List (List Index))) × List Term} (hxb : x ∈ b.flat) :
    (∃ prog, ambitTerms true x.2 = .ok prog ∧ Adds orb I (GoodTerms terms) (x.1.1.length / 2) x.2 fun s : Store O R => runCode orb s prog) ∧
    ∃ prog, ambitTerms false x.2 = .ok prog ∧
      (x.1.2 = [] → Adds orb I (GoodTerms terms) (x.1.1.length / 2) x.2 fun s : Store O R => runCode orb s prog) ∧
      (∀ blk, Adds orb I (GoodTerms terms) (x.1.1.length / 2) x.2 fun s : Store O R => runCode orb s (.build blk :: prog)) ∧
      Adds orb I (GoodTerms terms) (x.1.1.length / 2) x.2 fun s : Store O R => runCode orb s (.zero :: prog) := by
  obtain ⟨h1, h2⟩ := (categorize_flat hb).2 x hxb
  refine adds_cleared orb hI hH h1 (fun t ht => hp t (h2 t ht).1) (fun t ht => (h2 t ht).2) (fun t ht y hy => hx t (h2 t ht).1 y hy _) ?_
  rintro ⟨hs, ho⟩
  refine ⟨fun t ht u hu => hs t (h2 t ht).1 u (h2 u hu).1 ?_, fun t ht => ho t (h2 t ht).1⟩
  rw [← ((hp t (h2 t ht).1).shape.keyPerms (h2 t ht).2).1, ← ((hp u (h2 u hu).1).shape.keyPerms (h2 u hu).2).1]

theorem adds_terms (orb : Orbitals O) {I : Interp O R M} {terms : List Term} (hp : ∀ t ∈ terms, Printable t) {b : Buckets}
    (hb : categorizeContractions terms = .ok b) (n : Nat) :
    (b.flat.map fun x => if x.1.1.length / 2 = n then (x.2.map fun t => t.amplitudes orb I).sum else 0).sum =
      ((terms.filter fun t => decide (t.sqOp.lower.list.length = n)).map fun t => t.amplitudes orb I).sum := by
  obtain ⟨h1, h2⟩ := categorize_flat hb
  rw [sum_groups b.flat (fun t => t.amplitudes orb I) (fun k => k.1.length / 2) (fun t => t.sqOp.lower.list.length) n (by
    intro x hx t ht
    obtain ⟨h3, h4⟩ := (h2 x hx).2 t ht
    exact ((hp t h3).shape.lengths h4).1), sum_filter_ite]
  refine List.Perm.sum_eq (List.Perm.map _ (List.Perm.filter _ h1))

theorem print_effect (orb : Orbitals O) {I : Interp O R M} (hI : I.Antisymmetric) (hH : I.Hermitian) {terms : List Term}
    (hp : ∀ t ∈ terms, Printable t) (hx : ∀ t ∈ terms, ∀ x ∈ t.tensors, ∀ n, x.arrayName ≠ 'C' :: natStr n) {b : Buckets}
    (hb : categorizeContractions terms = .ok b) (s : Store O R) (hs : ∀ t ∈ terms, ArraysHold s I t.tensors) :
    ∃ prog, printTermsAmbit terms = .ok prog ∧
      (∀ n, I.operator n n (fun os => runCode orb s prog ('C' :: natStr n) os - s ('C' :: natStr n) os) =
        ((terms.filter fun t => decide (t.sqOp.lower.list.length = n)).map fun t => t.amplitudes orb I).sum) ∧
      (GoodTerms terms → ∀ n, AntisymmetricArray orb n n fun os => runCode orb s prog ('C' :: natStr n) os - s ('C' :: natStr n) os) ∧
      ∀ nm, (∀ n, nm ≠ 'C' :: natStr n) → nm ≠ tempName → runCode orb s prog nm = s nm := by
  obtain ⟨parts, hparts, hF⟩ := mapM_exists (l := b.flat) (f := fun x => ambitTerms true x.2)
    (P := fun x prog => Adds orb I (GoodTerms terms) (x.1.1.length / 2) x.2 fun s : Store O R => runCode orb s prog)
    (fun x hxb => (bucket_adds orb hI hH hp hx hb hxb).1)
  have hprog : printTermsAmbit terms = .ok parts.flatten := by
    unfold printTermsAmbit
    rw [hb]
    show (do
      let parts ← b.mapM fun e => do
        let ps ← e.2.mapM fun f => ambitTerms true f.2
        pure ps.flatten
      pure parts.flatten : Except PyErr (List AmbitStmt)) = _
    have key : ∀ (b : Buckets) (parts : List (List AmbitStmt)), b.flat.mapM (fun x => ambitTerms true x.2) = .ok parts →
        ∃ pp : List (List AmbitStmt), (b.mapM fun e => do
          let ps ← e.2.mapM fun f => ambitTerms true f.2
          pure ps.flatten) = Except.ok pp ∧ pp.flatten = parts.flatten := by
      intro b
      induction b with
      | nil =>
        intro parts h
        refine ⟨[], rfl, ?_⟩
        have : parts = [] := by
          unfold Buckets.flat at h
          simp only [List.flatMap_nil, List.mapM_nil, pure, Except.pure] at h
          injection h with h; exact h.symm
        rw [this]
      | cons e b ih =>
        intro parts h
        have e0 : Buckets.flat (e :: b) = (e.2.map fun f => ((e.1, f.1), f.2)) ++ Buckets.flat b := rfl
        rw [e0, List.mapM_append] at h
        cases h1 : (e.2.map fun f => ((e.1, f.1), f.2)).mapM (fun x : (List Space × List (List (List Index))) × List Term => ambitTerms true x.2) with
        | error er => rw [h1] at h; cases h
        | ok p1 =>
          cases h2 : (Buckets.flat b).mapM (fun x => ambitTerms true x.2) with
          | error er => rw [h1, h2] at h; cases h
          | ok p2 =>
            rw [h1, h2] at h
            injection h with h
            obtain ⟨pp, hpp, hfl⟩ := ih p2 h2
            rw [List.mapM_map] at h1
            have h1' : e.2.mapM (fun f => ambitTerms true f.2) = .ok p1 := h1
            refine ⟨p1.flatten :: pp, mapM_cons_ok.2 ⟨_, _, ?_, hpp, rfl⟩, ?_⟩
            · rw [h1']; rfl
            · rw [← h, List.flatten_cons, hfl, List.flatten_append]
    obtain ⟨pp, h1, h2⟩ := key b parts hparts
    rw [h1]
    exact congrArg Except.ok h2
  refine ⟨parts.flatten, hprog, ?_⟩
  have hlen := hF.length_eq
  obtain ⟨a1, a2, a3⟩ := adds_all orb (I := I) (good := GoodTerms terms) ((b.flat.zip parts).map fun x =>
      (x.1.1.1.length / 2, x.1.2, fun s : Store O R => runCode orb s x.2)) (by
    intro c hc
    obtain ⟨x, hxm, rfl⟩ := List.mem_map.1 hc
    exact List.forall₂_zip hF hxm) (by
    intro c hc t ht
    obtain ⟨x, hxm, rfl⟩ := List.mem_map.1 hc
    exact hx t (((categorize_flat hb).2 x.1 (List.of_mem_zip hxm).1).2 t ht).1) s (by
    intro c hc t ht
    obtain ⟨x, hxm, rfl⟩ := List.mem_map.1 hc
    exact hs t (((categorize_flat hb).2 x.1 (List.of_mem_zip hxm).1).2 t ht).1)
  have efold : ((b.flat.zip parts).map fun x => (x.1.1.1.length / 2, x.1.2, fun s : Store O R => runCode orb s x.2)).foldl
      (fun s c => c.2.2 s) s = runCode orb s parts.flatten := by
    rw [runCode_chunks, List.foldl_map]
    conv_rhs => rw [← List.map_snd_zip (l₁ := b.flat) (l₂ := parts) (by omega), List.foldl_map]
  rw [efold] at a1 a2 a3
  refine ⟨fun n => ?_, a2, fun nm h1 h2 => a3 nm (fun c _ => h1 c.1) h2⟩
  rw [a1 n, ← adds_terms orb hp hb n, List.map_map]
  conv_rhs => rw [← List.map_fst_zip (l₁ := b.flat) (l₂ := parts) (by omega), List.map_map]
  rfl

end

end Dsrg
