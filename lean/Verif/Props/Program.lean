import Verif.Spec.Program
import Verif.Props.LibraryOps
import Verif.Props.SpinLibrary
import Verif.Props.EndToEnd

/-!
C100: whatever a user computes with the library, the result is the operator that the computation stands for.
-/

namespace Dsrg

theorem forall₂_exists {α β : Type} {R : α → β → Prop} : ∀ {l : List α}, (∀ a ∈ l, ∃ b, R a b) → ∃ l', List.Forall₂ R l l'
  | [], _ => ⟨[], .nil⟩
  | a :: l, h => by
    obtain ⟨b, hb⟩ := h a (by simp)
    obtain ⟨l', hl⟩ := forall₂_exists (l := l) fun x hx => h x (by simp [hx])
    exact ⟨b :: l', .cons hb hl⟩

theorem mem_termPairs {a b : List Term} {p : Term × Term} : p ∈ termPairs a b ↔ p.1 ∈ a ∧ p.2 ∈ b := by
  unfold termPairs
  rw [List.mem_flatMap]
  constructor
  · rintro ⟨x, hx, h⟩
    obtain ⟨y, hy, rfl⟩ := List.mem_map.1 h
    exact ⟨hx, hy⟩
  · rintro ⟨h1, h2⟩
    exact ⟨p.1, h1, List.mem_map.2 ⟨p.2, h2, rfl⟩⟩

/-- C100: every term of a computation is one of the terms for which all the other operations are known to return. -/
theorem C100_library (m : Machine) (maxCu : Int) (e : OpExpr) (ts : List Term) (h : Computes m maxCu e ts) : ∀ t ∈ ts, LibraryTerm m t := by
  induction h with
  | hamiltonian k start t hk h => simpa using LibraryTerm.hamiltonian k start t hk h
  | excitation k start scale singleRef t hk h => simpa using LibraryTerm.amplitude k start true scale singleRef t hk h
  | deexcitation k start scale singleRef t hk h => simpa using LibraryTerm.amplitude k start false scale singleRef t hk h
  | add x y a b _ _ ih1 ih2 =>
    intro t ht
    rcases List.mem_append.1 ht with ht | ht
    · exact ih1 t ht
    · exact ih2 t ht
  | opposite x a b _ hr ih =>
    intro r hm
    obtain ⟨t, ht, hr⟩ := forall₂_mem_right (mapM_ok_forall₂.1 hr) hm
    exact .copied true false t r (ih t ht) hr
  | mul x y a b o scale outs _ _ hn _ _ _ hp hr ih1 ih2 =>
    intro t ht
    obtain ⟨out, ho, ht⟩ := List.mem_flatten.1 ht
    obtain ⟨p, hpm, hr⟩ := forall₂_mem_right hr ho
    obtain ⟨h1, h2⟩ := mem_termPairs.1 hpm
    exact .contracted o [p.1, p.2] scale out t hn (by simp [ih1 _ h1, ih2 _ h2]) (by simpa using (hp p hpm).1) hr ht
  | commutator x y a b o scale outs _ _ hn _ _ hp hr ih1 ih2 =>
    intro t ht
    obtain ⟨out, ho, ht⟩ := List.mem_flatten.1 ht
    obtain ⟨p, hpm, hr⟩ := forall₂_mem_right hr ho
    obtain ⟨h1, h2⟩ := mem_termPairs.1 hpm
    exact .commutator o p.1 p.2 scale out t hn (ih1 _ h1) (ih2 _ h2) (hp p hpm).1 hr ht
  | combined x a b _ _ hr ih => exact fun t ht => .combined a b t ih hr ht
  | canonical x a b ra herm _ _ hr ih =>
    intro r hm
    obtain ⟨hm, h0⟩ := List.mem_filter.1 hm
    obtain ⟨t, ht, hr⟩ := forall₂_mem_right (mapM_ok_forall₂.1 hr) hm
    exact .canonical ra herm t r (ih t ht) hr (by simpa using h0)
  | blocks x a rows start _ hr ih =>
    intro r hm
    obtain ⟨l, hl, hm⟩ := List.mem_flatten.1 hm
    obtain ⟨t, ht, hr⟩ := forall₂_mem_right (mapM_ok_forall₂.1 hr) hl
    exact .expanded _ _ false start t l r (ih t ht) hr hm

section
variable {O R A : Type} [Fintype O] [DecidableEq O] [Inhabited O] [CommRing R] [Algebra ℚ R] [Ring A] [Algebra R A]

theorem sum_flatten_forall₂ {α : Type} {f : α → A} {g : Term → A} {la : List α} {outs : List (List Term)}
    (h : List.Forall₂ (fun a out => (out.map g).sum = f a) la outs) : (outs.flatten.map g).sum = (la.map f).sum := by
  induction h with
  | nil => rfl
  | cons h _ ih => rw [List.flatten_cons, List.map_append, List.sum_append, h, ih]; rfl

theorem sum_forall₂ {f g : Term → A} {la lb : List Term} (h : List.Forall₂ (fun a b => g b = f a) la lb) : (lb.map g).sum = (la.map f).sum := by
  induction h with
  | nil => rfl
  | cons h _ ih => rw [List.map_cons, List.sum_cons, h, ih]; rfl

theorem sum_termPairs_mul (f : Term → A) (a b : List Term) :
    ((termPairs a b).map fun p => f p.1 * f p.2).sum = (a.map f).sum * (b.map f).sum := by
  unfold termPairs
  induction a with
  | nil => simp
  | cons x a ih =>
    rw [List.flatMap_cons, List.map_append, List.sum_append, ih, List.map_cons, List.sum_cons, add_mul, List.map_map]
    congr 1
    exact List.sum_map_mul_left b f (f x)

theorem sum_termPairs_mul' (f : Term → A) (a b : List Term) :
    ((termPairs a b).map fun p => f p.2 * f p.1).sum = (b.map f).sum * (a.map f).sum := by
  unfold termPairs
  induction a with
  | nil => simp
  | cons x a ih =>
    rw [List.flatMap_cons, List.map_append, List.sum_append, ih, List.map_cons, List.sum_cons, mul_add, List.map_map]
    congr 1
    exact List.sum_map_mul_right b f (f x)

theorem sum_map_sub_list {α : Type} (f g : α → A) : ∀ l : List α, (l.map fun x => f x - g x).sum = (l.map f).sum - (l.map g).sum
  | [] => by simp
  | x :: l => by rw [List.map_cons, List.sum_cons, sum_map_sub_list f g l]; simp only [List.map_cons, List.sum_cons]; abel

/-- C100: the terms that a computation returns add up to the operator that the computation stands for, whatever the order of the calls, the labels, the
moments at which terms are combined, canonicalized or expanded, SymPy's choices, the iteration order of sets and the order in which worker processes
deliver.  The conditions on the operators are those of Wick's theorem; cumulants beyond the level that is kept vanish. -/
theorem C100_value (m : Machine) (hcanon : CanonContract m.canon) (hord : m.ord.Lawful) (hcpu : 1 ≤ m.cpus) (maxCu : Int) (e : OpExpr) (ts : List Term)
    (h : Computes m maxCu e ts) (orb : Orbitals O) (I : Interp O R A) (hI : I.Antisymmetric) (hH : I.Hermitian) (hph : I.Physical orb)
    (hac : I.ActiveCumulants orb) (hna : I.NoActiveAmplitudes orb) (field : Bool × O → A) (hfield : Fermions field) (hno : I.NormalOrdered field)
    (hcu : I.CumulantsUpTo maxCu) :
    (ts.map fun t => I.value orb t.coeff t.tensors t.sqOp).sum = e.operator orb I := by
  have hS : ∀ b, I.SlotSymmetric true b := fun b => ⟨fun _ => hI, fun h => (nomatch h), fun _ => hH⟩
  induction h with
  | hamiltonian k start t hk h =>
    rw [List.map_singleton, List.sum_singleton, hamiltonian_operator h]; rfl
  | excitation k start scale singleRef t hk h =>
    rw [List.map_singleton, List.sum_singleton, cluster_value (singleRef := singleRef) h]; rfl
  | deexcitation k start scale singleRef t hk h =>
    rw [List.map_singleton, List.sum_singleton, cluster_value (singleRef := singleRef) h]; rfl
  | add x y a b _ _ ih1 ih2 =>
    rw [List.map_append, List.sum_append, ih1, ih2]; rfl
  | opposite x a b _ hr ih =>
    show _ = algebraMap ℚ R (-1) • _
    rw [← ih, List.smul_sum, List.map_map]
    refine sum_forall₂ ((mapM_ok_forall₂.1 hr).imp fun t r hr => ?_)
    unfold Term.fromTerm at hr
    obtain ⟨op, hop, hr⟩ := bind_ok hr
    obtain ⟨rfl, -⟩ := IndicesPair.make_eq hop
    obtain ⟨-, -, -, rfl⟩ := Term.make_ok.1 hr
    show I.value orb _ (sortTensors t.tensors) _ = _
    rw [I.value_perm orb _ (sortTensors_perm _)]
    simp [Interp.value]
  | mul x y a b o scale outs hx hy hn hf hm hmin hp hr ih1 ih2 =>
    show _ = algebraMap ℚ R scale • (_ * _)
    rw [← ih1, ← ih2, ← sum_termPairs_mul, List.smul_sum, List.map_map]
    refine sum_flatten_forall₂ (forall₂_imp_mem hr fun p hpm out ho => ?_)
    obtain ⟨h1, h2⟩ := mem_termPairs.1 hpm
    obtain ⟨p1, p2, p3⟩ := hp p hpm
    have := (C77_library m hcanon hord hcpu o hn hf [p.1, p.2] (by simp) (by simp [C100_library m maxCu x a hx _ h1, C100_library m maxCu y b hy _ h2])
      (by simpa using p1) scale (by simpa using p2) orb I (hS _) hph hac hna field hfield hno (hm ▸ hcu) hmin (by simpa using p3)).2 out ho
    simpa using this
  | commutator x y a b o scale outs hx hy hn hm hmin hp hr ih1 ih2 =>
    show _ = algebraMap ℚ R scale • (_ * _ - _ * _)
    rw [← ih1, ← ih2, ← sum_termPairs_mul, ← sum_termPairs_mul', ← sum_map_sub_list, List.smul_sum, List.map_map]
    refine sum_flatten_forall₂ (forall₂_imp_mem hr fun p hpm out ho => ?_)
    obtain ⟨h1, h2⟩ := mem_termPairs.1 hpm
    obtain ⟨p1, p2, p3⟩ := hp p hpm
    exact (C78_library m hcanon hord hcpu o hn p.1 p.2 (C100_library m maxCu x a hx _ h1) (C100_library m maxCu y b hy _ h2)
      p1 scale p2 orb I (hS _) hph hac hna field hfield hno (hm ▸ hcu) hmin p3).2 out ho
  | combined x a b hx hc hr ih =>
    rw [← ih]
    exact C49_value .spinOrbital a (regular_of_good fun t ht => ((C100_library m maxCu x a hx t ht).nice hcanon hord hcpu).1) hc b hr orb I
  | canonical x a b ra herm hx hc hr ih =>
    have e1 : ((b.filter fun t => t.coeff ≠ 0).map fun t => I.value orb t.coeff t.tensors t.sqOp).sum =
        (b.map fun t => I.value orb t.coeff t.tensors t.sqOp).sum := by
      clear hr
      induction b with
      | nil => rfl
      | cons t b ihb =>
        by_cases h0 : t.coeff = 0
        · rw [List.filter_cons_of_neg (by simp [h0]), ihb, List.map_cons, List.sum_cons, h0]
          simp [Interp.value]
        · rw [List.filter_cons_of_pos (by simp [h0]), List.map_cons, List.sum_cons, ihb, List.map_cons, List.sum_cons]
    rw [e1, ← ih]
    refine sum_forall₂ (forall₂_imp_mem (mapM_ok_forall₂.1 hr) fun t ht r hr => ?_)
    obtain ⟨r', h1, -, h2⟩ := C43_library (O := O) (R := R) (M := A) m hcanon hord hcpu t (C100_library m maxCu x a hx t ht) (hc t ht) ra herm
    obtain rfl : r' = r := by
      have := h1.symm.trans hr
      injection this
    exact h2 orb I hI (fun _ => hH) hph hac fun _ => hna
  | blocks x a rows start hx hr ih =>
    rw [← ih]
    refine sum_flatten_forall₂ (forall₂_imp_mem (mapM_ok_forall₂.1 hr) fun t ht l hr => ?_)
    obtain ⟨l', h1, h2⟩ := C44_library (O := O) (R := R) (M := A) m hcanon hord hcpu t (C100_library m maxCu x a hx t ht) start
    obtain rfl : l' = l := by
      have := h1.symm.trans hr
      injection this
    exact h2 orb I

/-- C100: the code printed for a computation whose terms have no hole densities computes the operator that the computation stands for. -/
theorem C100_code (m : Machine) (hcanon : CanonContract m.canon) (hord : m.ord.Lawful) (hcpu : 1 ≤ m.cpus) (maxCu : Int) (e : OpExpr) (ts : List Term)
    (h : Computes m maxCu e ts) (hh : ∀ t ∈ ts, ∀ x ∈ t.tensors, x.cls ≠ .hole) (orb : Orbitals O) (I : Interp O R A) (hI : I.Antisymmetric)
    (hH : I.Hermitian) (hph : I.Physical orb) (hac : I.ActiveCumulants orb) (hna : I.NoActiveAmplitudes orb) (field : Bool × O → A)
    (hfield : Fermions field) (hno : I.NormalOrdered field) (hcu : I.CumulantsUpTo maxCu) (s : Store O R) (hs : SuppliedArrays s I) :
    PrintedCodeComputes orb I s ts (e.operator orb I) := by
  rw [← C100_value m hcanon hord hcpu maxCu e ts h orb I hI hH hph hac hna field hfield hno hcu]
  exact writable_computes hI hH hs fun t ht => (C100_library m maxCu e ts h t ht).writable hcanon hord hcpu (hh t ht)

/-- C100: the spin cases of the terms of a computation can be generated and add up to the operator that the computation stands for, taken over all spin
orbitals. -/
theorem C100_spin_cases (m : Machine) (hcanon : CanonContract m.canon) (hord : m.ord.Lawful) (hcpu : 1 ≤ m.cpus) (maxCu : Int) (e : OpExpr) (ts : List Term)
    (h : Computes m maxCu e ts) (hc : ∀ t ∈ ts, ¬ Negligible t.coeff) : ∃ cases, (ts.mapM fun t => t.generateSpinCasesNaive m.canon m.ord) = .ok cases ∧
      ∀ (orb : Orbitals O) (I : Interp O R A), I.Antisymmetric → I.Hermitian → I.SpinConserving orb →
        I.Physical orb → I.ActiveCumulants orb → I.NoActiveAmplitudes orb →
        I.Physical orb.spinOrbital → I.ActiveCumulants orb.spinOrbital → I.NoActiveAmplitudes orb.spinOrbital →
        ∀ field : Bool × O → A, Fermions field → I.NormalOrdered field → I.CumulantsUpTo maxCu →
          (cases.flatten.map fun r => I.value orb r.coeff r.tensors r.sqOp).sum = e.operator orb.spinOrbital I := by
  have hl := C100_library m maxCu e ts h
  obtain ⟨cases, hcases⟩ : ∃ cases, (ts.mapM fun t => t.generateSpinCasesNaive m.canon m.ord) = .ok cases :=
    mapM_total fun t ht => by
      obtain ⟨rs, h1, -⟩ := C59_library (O := O) (R := R) (M := A) m hcanon hord hcpu t (hl t ht) (hc t ht)
      exact ⟨rs, h1⟩
  refine ⟨cases, hcases, fun orb I a1 a2 a3 a4 a5 a6 b1 b2 b3 field hfield hno hcu => ?_⟩
  rw [← C100_value m hcanon hord hcpu maxCu e ts h orb.spinOrbital I a1 a2 b1 b2 b3 field hfield hno hcu]
  refine sum_flatten_forall₂ (forall₂_imp_mem (mapM_ok_forall₂.1 hcases) fun t ht rs hr => ?_)
  obtain ⟨rs', h1, h2⟩ := C59_library (O := O) (R := R) (M := A) m hcanon hord hcpu t (hl t ht) (hc t ht)
  obtain rfl : rs' = rs := by
    have := h1.symm.trans hr
    injection this
  exact h2 orb I a1 a2 a3 a4 a5 a6

end

/-- C100: a computation can always be continued.  No product and no commutator with another result raises an exception, provided the factors have no
labels in common, and both return; like terms can be combined, and terms can be copied, canonicalized and expanded in blocks. -/
theorem C100_continues (m : Machine) (hcanon : CanonContract m.canon) (hord : m.ord.Lawful) (hcpu : 1 ≤ m.cpus) (maxCu : Int) (x y : OpExpr)
    (a b : List Term) (hx : Computes m maxCu x a) (hy : Computes m maxCu y b) :
    (∀ (o : Options) (scale : ℚ), 1 ≤ o.nProcess → (∀ p ∈ termPairs a b, DisjointLabels p.1 p.2) →
      (∀ p ∈ termPairs a b, ¬ ContractRaises m o [p.1, p.2] scale ∧ ¬ CommutatorRaises m o p.1 p.2 scale) ∧
      (∃ outs, List.Forall₂ (fun p out => ContractRun m o [p.1, p.2] scale out) (termPairs a b) outs) ∧
      ∃ outs, List.Forall₂ (fun p out => CommutatorRun m o p.1 p.2 scale out) (termPairs a b) outs) ∧
    (∃ r, combineTerms a = .ok r) ∧ (∀ flipSign hc, ∃ r, (a.mapM fun t => t.fromTerm flipSign hc) = .ok r) ∧
    (∀ removeActive hermitian, ∃ r, (a.mapM fun t => t.canonicalizeSympy m.canon m.ord true removeActive hermitian) = .ok r) ∧
    ∀ start, ∃ rows, (a.mapM fun t => t.expandCompositeIndices m.ord false start) = .ok rows := by
  have ha := C100_library m maxCu x a hx
  have hb := C100_library m maxCu y b hy
  refine ⟨fun o scale hn hd => ⟨fun p hp => ?_, ?_, ?_⟩, ?_, fun flipSign hc => mapM_total fun t ht => ?_, fun ra herm => mapM_total fun t ht => ?_,
    fun start => mapM_total fun t ht => ?_⟩
  · obtain ⟨h1, h2⟩ := mem_termPairs.1 hp
    exact ⟨(C76_contract_terms m hcanon hord hcpu o hn [p.1, p.2] (by simp) (by simp [ha _ h1, hb _ h2]) (by simpa using hd p hp) scale).1,
      (C76_single_commutator m hcanon hord hcpu o hn p.1 p.2 (ha _ h1) (hb _ h2) (hd p hp) scale).1⟩
  · refine forall₂_exists fun p hp => ?_
    obtain ⟨h1, h2⟩ := mem_termPairs.1 hp
    exact (C76_contract_terms m hcanon hord hcpu o hn [p.1, p.2] (by simp) (by simp [ha _ h1, hb _ h2]) (by simpa using hd p hp) scale).2
  · refine forall₂_exists fun p hp => ?_
    obtain ⟨h1, h2⟩ := mem_termPairs.1 hp
    exact (C76_single_commutator m hcanon hord hcpu o hn p.1 p.2 (ha _ h1) (hb _ h2) (hd p hp) scale).2
  · exact combine_total fun t ht => ((ha t ht).nice hcanon hord hcpu).1
  · obtain ⟨h1, h2, -⟩ := (ha t ht).object hcanon hord hcpu
    have hop : IndicesPair.make t.sqOp.upper t.sqOp.lower = .ok t.sqOp := by
      unfold IndicesPair.make
      rw [if_neg (by rw [h2.sound.upper, h2.sound.lower]; simp)]
    obtain ⟨r, hr, -⟩ := C16_term t.tensors _ _ t.sqOp hop t.coeff t h1 flipSign hc
    exact ⟨r, hr⟩
  · exact ((ha t ht).object hcanon hord hcpu).2.2.canonicalizeSympy hcanon hord ra herm
  · obtain ⟨rows, h1, -⟩ := C44_library (O := Fin 2) (R := ℚ) (M := Matrix (Fin 4) (Fin 4) ℚ) m hcanon hord hcpu t (ha t ht) start
    exact ⟨rows, h1⟩

/-- The hypotheses of C100 can be met: the commutator of the one-body Hamiltonian with the one-body excitation operator, expanded in blocks. -/
theorem C100_example : ∃ ts, Computes exMachine 1 (.scaled 1 (.commutator (.hamiltonian 1) (.scaled 1 (.excitation false 1)))) ts ∧
    CanonContract exMachine.canon ∧ exMachine.ord.Lawful ∧ 1 ≤ exMachine.cpus ∧
    fockSpace.Antisymmetric ∧ fockSpace.Hermitian ∧ fockSpace.Physical coreVirtual ∧ fockSpace.ActiveCumulants coreVirtual ∧
    fockSpace.NoActiveAmplitudes coreVirtual ∧ Fermions twoFermions ∧ fockSpace.NormalOrdered twoFermions ∧ fockSpace.CumulantsUpTo 1 ∧
    (OpExpr.scaled 1 (.commutator (.hamiltonian 1) (.scaled 1 (.excitation false 1)))).operator coreVirtual fockSpace ≠ 0 := by
  obtain ⟨c, l, p⟩ := exMachine_ok
  obtain ⟨h, x, hh, -, -, -, hu, hl, eu, el, hc⟩ := C38_hamiltonian 1 0 .spinOrbital
  obtain ⟨t, y, ht, -, -, -, tu, tl, fu, fl, hc'⟩ := C38_cluster 1 2 true ['T'] 1 ⟨.h, false⟩ ⟨.p, false⟩ .spinOrbital rfl (fun _ => rfl)
  have a : Computes exMachine 1 (.hamiltonian 1) [h] := .hamiltonian 1 0 h (by decide) hh
  have b : Computes exMachine 1 (.scaled 1 (.excitation false 1)) [t] := .excitation 1 2 1 false t (by decide) ht
  have gh := hamiltonian_good_from hh
  have gt := cluster_good (singleRef := false) ht
  have hd : DisjointLabels h t := disjointLabels_of_numbers (N := 2) (fun i hi => by have := gh.2.2.2.2.2 i hi; omega) (fun i hi => by have := gt.2.2.2.2.2 i hi; omega)
  let o : Options := { maxCu := 1, maxOpen := 8, minOpen := 0, forCommutator := true, expandHole := true, nProcess := 2, hermitian := true }
  have hpairs : termPairs [h] [t] = [(h, t)] := rfl
  obtain ⟨outs, ho⟩ := ((C100_continues exMachine c l p 1 _ _ _ _ a b).1 o 1 (by decide) (by rw [hpairs]; simpa using hd)).2.2
  have k : Computes exMachine 1 _ outs.flatten := .commutator _ _ _ _ o 1 outs a b (by decide) rfl (Int.le_refl _) (by
    rw [hpairs]
    intro q hq
    obtain rfl : q = (h, t) := by simpa using hq
    refine ⟨hd, ?_, ?_⟩
    · rw [hc, hc']
      unfold Negligible
      norm_num [Nat.factorial]
    · unfold nOperators
      simp only [List.map_cons, List.map_nil, eu, el, fu, fl, hu, hl, tu, tl, if_true]
      simp [Indices.size, consecutive, o]) ho
  obtain ⟨rows, hr⟩ := (C100_continues exMachine c l p 1 _ _ _ _ k a).2.2.2.2 10
  obtain ⟨w1, w2, w3, w4, w5⟩ := fockSpace_world
  exact ⟨_, .blocks _ _ rows 10 k hr, c, l, p, w1.1 rfl, w1.2.2 rfl, w2, w3, w4, twoFermions_fermions, fockSpace_normalOrdered, w5, by decide +kernel⟩

end Dsrg
