import Verif.Lemmas.TermRepeat
import Verif.Lemmas.TermRaise
import Verif.Props.Sympy

/-!
Histories of calls on one `Term` object.
-/

namespace Dsrg

/-! ### Every call gives what it gives on a fresh object -/

/-- The object has been simplified, and looks to the outside like `s₀`. -/
structure LooksLike (canon : List Nat → List (Nat × Nat) → List SlotGroup → Option (List Nat)) (ra : Bool) (s₀ s : Term) : Prop where
  level : Level s
  active : ra = true → ∀ x ∈ s.tensors, allActiveAmplitude id x = false
  simple : simpleTail s = simpleTail s₀
  sympy : ∀ h, sympyTail canon h s = sympyTail canon h s₀
  diag : s.diag.card = 0 ↔ s₀.diag.card = 0

theorem LooksLike.simplify {canon : List Nat → List (Nat × Nat) → List SlotGroup → Option (List Nat)} {ord : SetOrder} (hord : ord.Lawful)
    {ra : Bool} {s₀ s : Term} (h : LooksLike canon ra s₀ s) : ∃ s', s.simplify ord true ra = .ok s' ∧ LooksLike canon ra s₀ s' := by
  obtain ⟨s', f, h1, h2, h3⟩ := h.level.simplify hord h.active
  have hsub := h.level.wf.set_sub
  have hsub' := h3.wf.set_sub
  have hty : s.sqOp.upper.ty = s.sqOp.lower.ty := (IndicesPair.make_eq h.level.op.2.2).2
  refine ⟨s', h1, h3, ?_, (h2.simpleTail hsub hsub').trans h.simple, fun b => (h2.sympyTail hsub hsub' hty canon b).trans (h.sympy b),
    h2.diag.trans h.diag⟩
  intro hra y hy
  rw [h2.tensors] at hy
  obtain ⟨x, hx, rfl⟩ := List.mem_map.1 hy
  have := h.active hra x hx
  unfold allActiveAmplitude at this ⊢
  simp only [Tensor.relabel, IndicesPair.indices, id_eq] at this ⊢
  rw [← List.map_append, List.all_map]
  simp only [Function.comp_def, h2.space]
  exact this

theorem LooksLike.of_simplify {canon : List Nat → List (Nat × Nat) → List SlotGroup → Option (List Nat)} {ord : SetOrder} (hord : ord.Lawful)
    {ra : Bool} {t s : Term} (ht : Sane t) (h : t.simplify ord true ra = .ok s) (hne : s.tensors ≠ []) :
    LooksLike canon ra s s ∧ (s.diag.card = 0 ↔ t.diag.card = 0) := by
  have hl := Level.of_simplify hord ht h hne
  obtain ⟨cu, de, st, -, -, -, -, hs⟩ := Term.simplify_cases h
  rcases hs with ⟨-, rfl⟩ | ⟨hv, -, rfl⟩
  · exact absurd rfl hne
  · refine ⟨⟨hl, ?_, rfl, fun _ => rfl, Iff.rfl⟩, by simp [Finset.card_eq_zero]⟩
    intro hra y hy
    obtain ⟨x, hx, rfl⟩ : ∃ x ∈ de.2, x.relabel st.1 = y := List.mem_map.1 hy
    rw [hra, Bool.true_and, List.any_eq_false] at hv
    have := hv x hx
    unfold allActiveAmplitude at this ⊢
    simp only [Tensor.relabel, IndicesPair.indices, id_eq, ← List.map_append, List.all_map, Function.comp_def] at this ⊢
    exact Bool.not_eq_true _ ▸ this

theorem run_fresh {canon : List Nat → List (Nat × Nat) → List SlotGroup → Option (List Nat)} {ord : SetOrder} (hord : ord.Lawful) {ra : Bool}
    {t s₀ : Term} (ht0 : t.simplify ord true ra = .ok s₀) (hdg : s₀.diag.card = 0 ↔ t.diag.card = 0) {cur : Term}
    (hcur : LooksLike canon ra s₀ cur) {call : TermCall} (hc : call.UsesFlag ra) :
    LooksLike canon ra s₀ (call.run canon ord cur).1 ∧ (call.run canon ord cur).2 = (call.run canon ord t).2 := by
  obtain ⟨s', h1, h2⟩ := hcur.simplify hord
  obtain ⟨e1, e2⟩ := Term.simplifyObj_ok h1
  obtain ⟨k1, k2⟩ := Term.simplifyObj_ok ht0
  cases call with
  | simplify r =>
    obtain rfl : r = ra := hc
    refine ⟨by rw [TermCall.run, e1]; exact h2, ?_⟩
    simp only [TermCall.run]
    rw [e2, k2]
  | canonicalizeSimple r =>
    obtain rfl : r = ra := hc
    refine ⟨by rw [TermCall.run, e1]; exact h2, ?_⟩
    simp only [TermCall.run]
    rw [canonicalizeSimple_eq, canonicalizeSimple_eq, h1, ht0]
    show (simpleTail s').map some = (simpleTail s₀).map some
    rw [h2.simple]
  | canonicalize r h =>
    obtain rfl : r = ra := hc
    simp only [TermCall.run, Term.canonicalize]
    by_cases hd : t.diag.card = 0
    · have hd' : cur.diag.card = 0 := hcur.diag.2 (hdg.2 hd)
      rw [if_neg (by simpa using hd'), if_neg (by simpa using hd'), if_neg (by simpa using hd), e1]
      refine ⟨h2, ?_⟩
      rw [canonicalizeSympy_eq, canonicalizeSympy_eq, h1, ht0]
      show (sympyTail canon h s').map some = (sympyTail canon h s₀).map some
      rw [h2.sympy]
    · have hd' : ¬ cur.diag.card = 0 := fun e => hd (hdg.1 (hcur.diag.1 e))
      rw [if_pos hd', if_pos hd', if_pos hd]
      exact ⟨hcur, rfl⟩
  | scale k => exact absurd hc (by simp [TermCall.UsesFlag])

theorem runCalls_looks {canon : List Nat → List (Nat × Nat) → List SlotGroup → Option (List Nat)} {ord : SetOrder} (hord : ord.Lawful) {ra : Bool}
    {t s₀ : Term} (ht0 : t.simplify ord true ra = .ok s₀) (hdg : s₀.diag.card = 0 ↔ t.diag.card = 0) :
    ∀ (calls : List TermCall) (cur : Term), LooksLike canon ra s₀ cur → (∀ call ∈ calls, call.UsesFlag ra) →
      (runCalls canon ord cur calls).2 = calls.map fun call => (call.run canon ord t).2
  | [], _, _, _ => rfl
  | call :: rest, cur, hcur, hc => by
    obtain ⟨h1, h2⟩ := run_fresh hord ht0 hdg hcur (hc call (by simp))
    simp only [runCalls, List.map_cons]
    rw [h2, runCalls_looks hord ht0 hdg rest _ h1 fun c hcm => hc c (by simp [hcm])]

theorem runCalls_fresh {canon : List Nat → List (Nat × Nat) → List SlotGroup → Option (List Nat)} {ord : SetOrder} (hord : ord.Lawful) {ra : Bool}
    {t s₀ : Term} (ht : Sane t) (ht0 : t.simplify ord true ra = .ok s₀) (hne : s₀.tensors ≠ []) :
    ∀ (calls : List TermCall), (∀ call ∈ calls, call.UsesFlag ra) →
      (runCalls canon ord t calls).2 = calls.map fun call => (call.run canon ord t).2
  | [], _ => rfl
  | call :: rest, hc => by
    obtain ⟨hL, hdg⟩ := LooksLike.of_simplify (canon := canon) hord ht ht0 hne
    obtain ⟨k1, -⟩ := Term.simplifyObj_ok ht0
    have hrest : ∀ c ∈ rest, c.UsesFlag ra := fun c hcm => hc c (by simp [hcm])
    simp only [runCalls, List.map_cons]
    congr 1
    have hcase : (call.run canon ord t).1 = t ∨ (call.run canon ord t).1 = s₀ := by
      cases call with
      | simplify r => obtain rfl : r = ra := hc (.simplify r) (by simp); right; exact k1
      | canonicalizeSimple r => obtain rfl : r = ra := hc (.canonicalizeSimple r) (by simp); right; exact k1
      | canonicalize r h =>
        obtain rfl : r = ra := hc (.canonicalize r h) (by simp)
        simp only [TermCall.run]
        split_ifs
        · left; rfl
        · right; exact k1
      | scale k => exact absurd (hc (.scale k) (by simp)) (by simp [TermCall.UsesFlag])
    rcases hcase with e | e
    · rw [e]; exact runCalls_fresh hord ht ht0 hne rest hrest
    · rw [e]; exact runCalls_looks hord ht0 hdg rest s₀ hL hrest

/-! ### Values -/

/-- What else holds for a term object between calls. -/
structure Uniform (ty : IType) (t : Term) : Prop where
  bal : t.sqOp.upper.list.length = t.sqOp.lower.list.length
  ty : t.sqOp.upper.ty = ty
  kind : ∀ x ∈ t.tensors, ∀ y ∈ t.tensors, ¬ ActsAsDelta true x → ¬ ActsAsDelta true y → x.name = y.name → x.cls = y.cls

theorem Uniform.simplify {ty : IType} {ord : SetOrder} (hord : ord.Lawful) {t s : Term} {ra : Bool} (ht : Uniform ty t) (hs : Sane t)
    (h : t.simplify ord true ra = .ok s) : Uniform ty s ∧ ∀ x ∈ s.tensors, ∀ y ∈ s.tensors, x.name = y.name → x.cls = y.cls := by
  classical
  obtain ⟨cu, de, st, hcu, hde, hlo, hop, hs'⟩ := Term.simplify_cases h
  obtain ⟨-, -, hfil, -⟩ := Term.simplify_stage hord hs.wf hs.diag hs.paired hcu hde hlo
  have hk : ∀ x ∈ s.tensors, ∀ y ∈ s.tensors, x.name = y.name → x.cls = y.cls := by
    intro x hx y hy e
    rcases hs' with ⟨-, rfl⟩ | ⟨-, -, rfl⟩
    · simp at hx
    · simp only [] at hx hy
      rw [hfil] at hx hy
      obtain ⟨x', hx', rfl⟩ := List.mem_map.1 hx
      obtain ⟨y', hy', rfl⟩ := List.mem_map.1 hy
      rw [List.mem_filter] at hx' hy'
      exact ht.kind x' hx'.1 y' hy'.1 (of_decide_eq_true hx'.2) (of_decide_eq_true hy'.2) e
  refine ⟨⟨?_, ?_, fun x hx y hy _ _ => hk x hx y hy⟩, hk⟩
  · rcases hs' with ⟨-, rfl⟩ | ⟨-, -, rfl⟩
    · rfl
    · simpa [IndicesPair.relabel] using ht.bal
  · rw [← ht.ty]
    rcases hs' with ⟨-, rfl⟩ | ⟨-, -, rfl⟩ <;> rfl

theorem Uniform.raise {ty : IType} {t s : Term} (ht : Uniform ty t) (h : List.Forall₂ Cored t.tensors s.tensors)
    (hu : s.sqOp.upper = t.sqOp.upper) (hl : s.sqOp.lower.list = t.sqOp.lower.list) : Uniform ty s := by
  refine ⟨by rw [hu, hl]; exact ht.bal, by rw [hu]; exact ht.ty, ?_⟩
  intro x hx y hy hnx hny e
  obtain ⟨x', hx', hxx⟩ := forall₂_mem h hx
  obtain ⟨y', hy', hyy⟩ := forall₂_mem h hy
  rcases hxx with rfl | ⟨-, -, rfl⟩
  · rcases hyy with rfl | ⟨-, -, rfl⟩
    · exact ht.kind x hx' y hy' hnx hny e
    · exact absurd (Or.inl rfl) hny
  · exact absurd (Or.inl rfl) hnx

theorem Paired.separated {ts : List Tensor} {op : SqOp} (h : Paired ts op) : Separated true ts op := by
  have hcd : ∀ x : Tensor, (x.cls = .kronecker ∨ x.cls = .cumulant) → x.isDensity = true := by
    rintro x (e | e) <;> simp [Tensor.isDensity, e]
  refine ⟨h.apart.imp fun hab hh => ?_, ?_, h.active⟩
  · rcases hh with ⟨ha, hb⟩ | ⟨ha, hb⟩
    · exact hab ha.isDensity (hcd _ hb)
    · exact hab (hcd _ ha) hb.isDensity
  · intro a ha hd i hi
    have ho : i ∈ outerList ts op := List.mem_append_right _ (List.mem_flatMap.2 ⟨a, List.mem_filter.2 ⟨ha, hd.isDensity⟩, hi⟩)
    refine ⟨fun b hb hh => h.diag (mem_diagonalOf.2 (Or.inr ⟨b, hb, hh⟩)) ho, fun hh => h.diag (mem_diagonalOf.2 (Or.inl hh)) ho⟩

section
variable {O R M : Type} [Fintype O] [DecidableEq O] [Inhabited O] [CommRing R] [Algebra ℚ R] [AddCommGroup M] [Module R M]

omit [DecidableEq O] in
theorem Interp.value_mul (I : Interp O R M) (orb : Orbitals O) (a b : ℚ) (ts : List Tensor) (op : SqOp) :
    I.value orb (a * b) ts op = algebraMap ℚ R b • I.value orb a ts op := by
  unfold Interp.value
  rw [smul_smul, map_mul, mul_comm]

theorem sympyTail_value {canon : List Nat → List (Nat × Nat) → List SlotGroup → Option (List Nat)} (hcanon : CanonContract canon) {ty : IType}
    {s r : Term} {hermitian : Bool} (hset : labelsOf s.tensors s.sqOp ⊆ s.indicesSet) (hu : Uniform ty s)
    (hk : ∀ x ∈ s.tensors, ∀ y ∈ s.tensors, x.name = y.name → x.cls = y.cls) (hc : s.coeff = 0 ∨ 1 / 10 ^ 15 ≤ |s.coeff|)
    (hr : sympyTail canon hermitian s = .ok r) (I : Interp O R M) (orb : Orbitals O) (hI : I.SlotSymmetric ty.isAntisym hermitian) :
    I.value orb r.coeff r.tensors r.sqOp = I.value orb s.coeff s.tensors s.sqOp := by
  unfold sympyTail at hr
  by_cases hv : s.isVoid = true
  · rw [if_pos hv] at hr
    have h0 : s.coeff = 0 := by
      rcases hc with hc | hc
      · exact hc
      · simp only [Term.isVoid, decide_eq_true_eq] at hv
        exact absurd hv (not_lt.2 hc)
    unfold Term.void at hr
    obtain ⟨-, -, -, rfl⟩ := Term.make_ok.1 hr
    rw [h0, I.value_zero, I.value_zero]
  rw [if_neg hv] at hr
  simp only [] at hr
  obtain ⟨names, hn, hr⟩ := bind_ok hr
  obtain ⟨v, hb, hr⟩ := bind_ok hr
  split_ifs at hr with hp
  cases hg : canon (names ++ [names.length, names.length + 1]) (dummyRanges 0 (spaceGroups (sortedDummies s.minimalIndices))) v with
  | none => rw [hg] at hr; simp at hr
  | some gc =>
  rw [hg] at hr
  simp only [] at hr
  obtain ⟨op', hop, hr⟩ := bind_ok hr
  obtain ⟨ts', hts, hr⟩ := bind_ok hr
  exact Term.sympy_value hcanon hset hu.bal hk hn hb hp hg hop hts hr I orb (by rw [hu.ty]; exact hI)

theorem simpleTail_value {s r : Term} (hset : labelsOf s.tensors s.sqOp ⊆ s.indicesSet) (hc : s.coeff = 0 ∨ 1 / 10 ^ 15 ≤ |s.coeff|)
    (hr : simpleTail s = .ok r) (I : Interp O R M) (orb : Orbitals O) (hI : I.Antisymmetric) :
    I.value orb r.coeff r.tensors r.sqOp = I.value orb s.coeff s.tensors s.sqOp := by
  unfold simpleTail at hr
  by_cases hv : s.isVoid = true
  · rw [if_pos hv] at hr
    have h0 : s.coeff = 0 := by
      rcases hc with hc | hc
      · exact hc
      · simp only [Term.isVoid, decide_eq_true_eq] at hv
        exact absurd hv (not_lt.2 hc)
    unfold Term.void at hr
    obtain ⟨-, -, -, rfl⟩ := Term.make_ok.1 hr
    rw [h0, I.value_zero, I.value_zero]
  rw [if_neg hv] at hr
  obtain ⟨q, hq, hr⟩ := bind_ok hr
  exact (Term.relabel_spec (O := O) (R := R) (M := M) hset hq hr).1 I orb hI

/-- One use of a term object, whether or not it raises. -/
theorem run_value {canon : List Nat → List (Nat × Nat) → List SlotGroup → Option (List Nat)} (hcanon : CanonContract canon) {ord : SetOrder}
    (hord : ord.Lawful) {ty : IType} {t : Term} (ht : Sane t) (hu : Uniform ty t) (hc : t.coeff = 0 ∨ 1 / 10 ^ 15 ≤ |t.coeff|) (call : TermCall)
    (I : Interp O R M) (orb : Orbitals O)
    (hanti : ∀ ra, call = .canonicalizeSimple ra → I.Antisymmetric)
    (hI : ∀ ra h, call = .canonicalize ra h → I.SlotSymmetric ty.isAntisym h)
    (hph : I.Physical orb) (hac : I.ActiveCumulants orb) (hna : I.NoActiveAmplitudes orb) :
    Sane (call.run canon ord t).1 ∧ Uniform ty (call.run canon ord t).1 ∧
      ((call.run canon ord t).1.coeff = t.coeff * call.factor ∨ (call.run canon ord t).1.coeff = 0) ∧
      I.value orb (call.run canon ord t).1.coeff (call.run canon ord t).1.tensors (call.run canon ord t).1.sqOp =
        I.value orb (t.coeff * call.factor) t.tensors t.sqOp ∧
      ∀ r, (call.run canon ord t).2 = .ok (some r) → I.value orb r.coeff r.tensors r.sqOp = I.value orb t.coeff t.tensors t.sqOp := by
  have main : ∀ ra, Sane (t.simplifyObj ord true ra).1 ∧ Uniform ty (t.simplifyObj ord true ra).1 ∧
      ((t.simplifyObj ord true ra).1.coeff = t.coeff ∨ (t.simplifyObj ord true ra).1.coeff = 0) ∧
      I.value orb (t.simplifyObj ord true ra).1.coeff (t.simplifyObj ord true ra).1.tensors (t.simplifyObj ord true ra).1.sqOp =
        I.value orb t.coeff t.tensors t.sqOp := by
    intro ra
    cases h : t.simplify ord true ra with
    | error e =>
      rw [Term.simplifyObj_eq] at h
      rcases h2 : t.simplifyObj ord true ra with ⟨s, e' | u⟩
      · obtain ⟨m1, m2, m3, m4, m5, m6, m7⟩ := ht.raise hord h2
        have m2' : s.sqOp.upper.list = t.sqOp.upper.list := by rw [m2]
        refine ⟨ht.cored m1 m2' m3 m5 m6 m7, hu.raise m1 m2 m3, Or.inl m4, ?_⟩
        show I.value orb s.coeff s.tensors s.sqOp = _
        rw [m4, value_cored hph m1 m2' m3]
      · rw [h2] at h; cases h
    | ok s =>
      obtain ⟨e1, -⟩ := Term.simplifyObj_ok h
      rw [e1]
      refine ⟨ht.simplify hord h, (hu.simplify hord ht h).1, (Term.simplify_shape ht.wf.set_sub h).2, ?_⟩
      exact (Term.simplify_value hord ht.wf ht.diag ht.paired.separated hph hac (fun _ => hna) h).1
  have hcs : ∀ {s : Term}, (s.coeff = t.coeff ∨ s.coeff = 0) → s.coeff = 0 ∨ 1 / 10 ^ 15 ≤ |s.coeff| := by
    rintro s (e | e)
    · rw [e]; exact hc
    · exact Or.inl e
  cases call with
  | simplify ra =>
    simp only [TermCall.run, TermCall.factor, mul_one]
    obtain ⟨m1, m2, m3, m4⟩ := main ra
    refine ⟨m1, m2, m3, m4, ?_⟩
    intro r hr
    cases h2 : (t.simplifyObj ord true ra).2 <;> rw [h2] at hr <;> cases hr
  | canonicalizeSimple ra =>
    simp only [TermCall.run, TermCall.factor, mul_one]
    obtain ⟨m1, m2, m3, m4⟩ := main ra
    refine ⟨m1, m2, m3, m4, ?_⟩
    intro r hok
    rw [canonicalizeSimple_eq] at hok
    cases h : t.simplify ord true ra with
    | error e => rw [h] at hok; cases hok
    | ok s =>
      obtain ⟨e1, e2⟩ := Term.simplifyObj_ok h
      rw [e1] at m1 m3 m4
      rw [h] at hok
      change (simpleTail s).map some = .ok (some r) at hok
      cases hr : simpleTail s with
      | error e => rw [hr] at hok; cases hok
      | ok r' =>
        rw [hr] at hok
        simp only [Except.map, Except.ok.injEq, Option.some.injEq] at hok
        subst hok
        rw [simpleTail_value m1.wf.set_sub (hcs m3) hr I orb (hanti ra rfl), m4]
  | canonicalize ra b =>
    simp only [TermCall.run, TermCall.factor, mul_one, Term.canonicalize]
    by_cases hd : t.diag.card = 0
    · rw [if_neg (by simpa using hd), if_neg (by simpa using hd)]
      obtain ⟨m1, m2, m3, m4⟩ := main ra
      refine ⟨m1, m2, m3, m4, ?_⟩
      intro r hok
      rw [canonicalizeSympy_eq] at hok
      cases h : t.simplify ord true ra with
      | error e => rw [h] at hok; cases hok
      | ok s =>
        obtain ⟨e1, e2⟩ := Term.simplifyObj_ok h
        rw [e1] at m1 m2 m3 m4
        rw [h] at hok
        change (sympyTail canon b s).map some = .ok (some r) at hok
        cases hr : sympyTail canon b s with
        | error e => rw [hr] at hok; cases hok
        | ok r' =>
          rw [hr] at hok
          simp only [Except.map, Except.ok.injEq, Option.some.injEq] at hok
          subst hok
          rw [sympyTail_value hcanon m1.wf.set_sub m2 (hu.simplify hord ht h).2 (hcs m3) hr I orb (hI ra b rfl), m4]
    · rw [if_pos hd, if_pos hd]
      refine ⟨ht, hu, Or.inl rfl, rfl, ?_⟩
      intro r hr; cases hr
  | scale k =>
    refine ⟨⟨⟨ht.wf.set_sub, ht.wf.fresh, ht.wf.two⟩, ht.diag, ht.paired⟩, ⟨hu.bal, hu.ty, hu.kind⟩, Or.inl rfl, rfl, ?_⟩
    intro r hr
    simp only [TermCall.run] at hr
    cases hr

/-- A sequence of uses of a term object. -/
theorem runCalls_value {canon : List Nat → List (Nat × Nat) → List SlotGroup → Option (List Nat)} (hcanon : CanonContract canon) {ord : SetOrder}
    (hord : ord.Lawful) {ty : IType} (I : Interp O R M) (orb : Orbitals O) (hph : I.Physical orb) (hac : I.ActiveCumulants orb)
    (hna : I.NoActiveAmplitudes orb) : ∀ (calls : List TermCall) (t : Term), Sane t → Uniform ty t →
    (∀ k ≤ calls.length, t.coeff * factorOf (calls.take k) = 0 ∨ 1 / 10 ^ 15 ≤ |t.coeff * factorOf (calls.take k)|) →
    (∀ ra, .canonicalizeSimple ra ∈ calls → I.Antisymmetric) →
    (∀ ra h, .canonicalize ra h ∈ calls → I.SlotSymmetric ty.isAntisym h) →
    I.value orb (runCalls canon ord t calls).1.coeff (runCalls canon ord t calls).1.tensors (runCalls canon ord t calls).1.sqOp =
        I.value orb (t.coeff * factorOf calls) t.tensors t.sqOp ∧
      ∀ (n : Nat) r, (runCalls canon ord t calls).2[n]? = some (.ok (some r)) →
        I.value orb r.coeff r.tensors r.sqOp = I.value orb (t.coeff * factorOf (calls.take n)) t.tensors t.sqOp
  | [], t, _, _, _, _, _ => by
    refine ⟨by simp [runCalls, factorOf], ?_⟩
    intro n r h; simp [runCalls] at h
  | call :: rest, t, ht, hu, hc, hanti, hI => by
    simp only [runCalls]
    have hc0 : t.coeff = 0 ∨ 1 / 10 ^ 15 ≤ |t.coeff| := by simpa [factorOf] using hc 0 (by simp)
    obtain ⟨m1, m2, m3, m4, m5⟩ := run_value hcanon hord ht hu hc0 call I orb (fun ra e => hanti ra (by simp [e]))
      (fun ra h e => hI ra h (by simp [e])) hph hac hna
    have hfac : ∀ l, factorOf (call :: l) = call.factor * factorOf l := fun l => by simp [factorOf]
    have hc' : ∀ k ≤ rest.length, (call.run canon ord t).1.coeff * factorOf (rest.take k) = 0 ∨
        1 / 10 ^ 15 ≤ |(call.run canon ord t).1.coeff * factorOf (rest.take k)| := by
      intro k hk
      rcases m3 with e | e
      · have := hc (k + 1) (by simpa using hk)
        rw [List.take_succ_cons, hfac, ← mul_assoc, ← e] at this
        exact this
      · left; rw [e, zero_mul]
    obtain ⟨n1, n2⟩ := runCalls_value hcanon hord I orb hph hac hna rest _ m1 m2 hc'
      (fun ra h => hanti ra (by simp [h])) fun ra b h => hI ra b (by simp [h])
    have hval : ∀ l, I.value orb ((call.run canon ord t).1.coeff * factorOf l) (call.run canon ord t).1.tensors (call.run canon ord t).1.sqOp =
        I.value orb (t.coeff * factorOf (call :: l)) t.tensors t.sqOp := by
      intro l
      rw [I.value_mul, m4, hfac, ← mul_assoc, I.value_mul orb (t.coeff * call.factor)]
    refine ⟨by rw [n1, hval], ?_⟩
    intro n r hr
    cases n with
    | zero =>
      simp only [List.getElem?_cons_zero, Option.some.injEq] at hr
      rw [List.take_zero]
      simpa [factorOf] using m5 r hr
    | succ n =>
      rw [List.getElem?_cons_succ] at hr
      rw [n2 n r hr, hval, List.take_succ_cons]

omit [DecidableEq O] in
theorem Interp.value_scale_eq (I : Interp O R M) (orb : Orbitals O) {a : ℚ} {ts ts' : List Tensor} {op op' : SqOp} (b : ℚ)
    (h : I.value orb a ts op = I.value orb a ts' op') : I.value orb (a * b) ts op = I.value orb (a * b) ts' op' := by
  rw [I.value_mul, I.value_mul, h]

theorem simplifyObj_value {ord : SetOrder} (hord : ord.Lawful) {t : Term} (ht : Sane t) (ra : Bool) (I : Interp O R M) (orb : Orbitals O)
    (hph : I.Physical orb) (hac : I.ActiveCumulants orb) (hna : I.NoActiveAmplitudes orb) :
    I.value orb (t.simplifyObj ord true ra).1.coeff (t.simplifyObj ord true ra).1.tensors (t.simplifyObj ord true ra).1.sqOp =
      I.value orb t.coeff t.tensors t.sqOp := by
  cases h : t.simplify ord true ra with
  | error e =>
    rw [Term.simplifyObj_eq] at h
    rcases h2 : t.simplifyObj ord true ra with ⟨s, e' | u⟩
    · obtain ⟨m1, m2, m3, m4, -⟩ := ht.raise hord h2
      show I.value orb s.coeff s.tensors s.sqOp = _
      rw [m4, value_cored hph m1 (by rw [m2]) m3]
    · rw [h2] at h; cases h
  | ok s =>
    obtain ⟨e1, -⟩ := Term.simplifyObj_ok h
    rw [e1]
    exact (Term.simplify_value hord ht.wf ht.diag ht.paired.separated hph hac (fun _ => hna) h).1

end

theorem Sane.simplifyObj {ord : SetOrder} (hord : ord.Lawful) {t : Term} (ht : Sane t) (ra : Bool) : Sane (t.simplifyObj ord true ra).1 := by
  cases h : t.simplify ord true ra with
  | error e =>
    rw [Term.simplifyObj_eq] at h
    rcases h2 : t.simplifyObj ord true ra with ⟨s, e' | u⟩
    · obtain ⟨m1, m2, m3, -, m5, m6, m7⟩ := ht.raise hord h2
      exact ht.cored m1 (by rw [m2]) m3 m5 m6 m7
    · rw [h2] at h; cases h
  | ok s =>
    obtain ⟨e1, -⟩ := Term.simplifyObj_ok h
    rw [e1]; exact ht.simplify hord h

theorem Sane.run {canon : List Nat → List (Nat × Nat) → List SlotGroup → Option (List Nat)} {ord : SetOrder} (hord : ord.Lawful) {t : Term} (ht : Sane t) :
    ∀ call : TermCall, Sane (call.run canon ord t).1
  | .simplify ra => ht.simplifyObj hord ra
  | .canonicalizeSimple ra => ht.simplifyObj hord ra
  | .canonicalize ra h => by
    simp only [TermCall.run]
    split_ifs
    · exact ht
    · exact ht.simplifyObj hord ra
  | .scale k => ⟨⟨ht.wf.set_sub, ht.wf.fresh, ht.wf.two⟩, ht.diag, ht.paired⟩

theorem Sane.runCalls {canon : List Nat → List (Nat × Nat) → List SlotGroup → Option (List Nat)} {ord : SetOrder} (hord : ord.Lawful) :
    ∀ (calls : List TermCall) {t : Term}, Sane t → Sane (runCalls canon ord t calls).1
  | [], _, ht => ht
  | call :: rest, _, ht => Sane.runCalls hord rest (ht.run hord call)

end Dsrg
