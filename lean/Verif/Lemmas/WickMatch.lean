import Verif.Lemmas.WickRows
import Verif.Lemmas.WickContraction
import Verif.Lemmas.Runs
import Verif.Props.Contract

/-!
The blocks of Wick's theorem and the elementary contractions of a product of operator strings.
-/

namespace Dsrg

/-- The number of the string an operator belongs to. -/
def stringOf (ops : List SqOp) (x : Bool × Index) : Nat := ops.findIdx fun op => decide (x ∈ stringWord op)

theorem mem_stringWord {op : SqOp} {x : Bool × Index} :
    x ∈ stringWord op ↔ (x.1 = true ∧ x.2 ∈ op.upper.list) ∨ (x.1 = false ∧ x.2 ∈ op.lower.list) := by
  obtain ⟨b, i⟩ := x
  unfold stringWord
  cases b <;> simp

theorem GoodOps.nodup_word {ops : List SqOp} (h : GoodOps ops) : (productWord ops).Nodup := h.nodup_base

theorem stringOf_eq {ops : List SqOp} (h : GoodOps ops) {k : Nat} {op : SqOp} (hk : ops[k]? = some op) {x : Bool × Index}
    (hx : x ∈ stringWord op) : stringOf ops x = k := by
  obtain ⟨hlt, rfl⟩ := List.getElem?_eq_some_iff.mp hk
  have hn := h.nodup_word
  unfold productWord at hn
  rw [List.nodup_flatMap] at hn
  have hp := List.pairwise_iff_getElem.mp hn.2
  unfold stringOf
  rw [List.findIdx_eq hlt]
  refine ⟨by simpa using hx, fun j hj => ?_⟩
  have := hp j k (by omega) hlt hj
  simp only [decide_eq_false_iff_not]
  intro hxj
  exact List.disjoint_left.mp this hxj hx

theorem stringOf_upper {ops : List SqOp} (h : GoodOps ops) {k : Nat} {op : SqOp} (hk : ops[k]? = some op) {i : Index}
    (hi : i ∈ op.upper.list) : stringOf ops (true, i) = k := stringOf_eq h hk (mem_stringWord.mpr (Or.inl ⟨rfl, hi⟩))

theorem stringOf_lower {ops : List SqOp} (h : GoodOps ops) {k : Nat} {op : SqOp} (hk : ops[k]? = some op) {i : Index}
    (hi : i ∈ op.lower.list) : stringOf ops (false, i) = k := stringOf_eq h hk (mem_stringWord.mpr (Or.inr ⟨rfl, hi⟩))

theorem mem_productWord {ops : List SqOp} {x : Bool × Index} : x ∈ productWord ops ↔ ∃ (k : Nat) (op : SqOp), ops[k]? = some op ∧ x ∈ stringWord op := by
  unfold productWord
  rw [List.mem_flatMap]
  constructor
  · rintro ⟨op, hop, hx⟩
    obtain ⟨k, hk⟩ := List.mem_iff_getElem?.mp hop
    exact ⟨k, op, hk, hx⟩
  · rintro ⟨k, op, hk, hx⟩
    exact ⟨op, List.mem_of_getElem? hk, hx⟩

theorem keyed_strings {ops : List SqOp} (h : GoodOps ops) : Keyed (stringOf ops) (ops.map stringWord) := by
  constructor
  · intro l hl x hx y hy
    obtain ⟨op, hop, rfl⟩ := List.mem_map.mp hl
    obtain ⟨k, hk⟩ := List.mem_iff_getElem?.mp hop
    rw [stringOf_eq h hk hx, stringOf_eq h hk hy]
  · rw [List.pairwise_map, List.pairwise_iff_getElem]
    intro i j hi hj hij x hx y hy
    rw [stringOf_eq h (List.getElem?_eq_getElem hi) hx, stringOf_eq h (List.getElem?_eq_getElem hj) hy]
    omega

theorem word_ordered {ops : List SqOp} (h : GoodOps ops) : (productWord ops).Pairwise fun x y => stringOf ops x ≤ stringOf ops y := by
  unfold productWord
  rw [List.pairwise_flatMap]
  constructor
  · intro op hop
    obtain ⟨k, hk⟩ := List.mem_iff_getElem?.mp hop
    exact List.pairwise_of_forall_mem_list fun x hx y hy => by rw [stringOf_eq h hk hx, stringOf_eq h hk hy]
  · rw [List.pairwise_iff_getElem]
    intro i j hi hj hij x hx y hy
    rw [stringOf_eq h (List.getElem?_eq_getElem hi) hx, stringOf_eq h (List.getElem?_eq_getElem hj) hy]
    omega

theorem nodup_cumulantLegs_upper {ops : List SqOp} (h : GoodOps ops) :
    ((cumulantLegs (fun op => op.upper.list) ops).map Prod.snd).Nodup := h.upper.sublist (map_snd_cumulantLegs_sublist _ _)
theorem nodup_cumulantLegs_lower {ops : List SqOp} (h : GoodOps ops) :
    ((cumulantLegs (fun op => op.lower.list) ops).map Prod.snd).Nodup := h.lower.sublist (map_snd_cumulantLegs_sublist _ _)

/-- Sublists of a list without repeats are determined by their members. -/
theorem sublist_ext {α : Type} {a b w : List α} (hn : w.Nodup) (ha : a.Sublist w) (hb : b.Sublist w) (h : ∀ x, x ∈ a ↔ x ∈ b) : a = b := by
  classical
  have key : ∀ {c w : List α}, w.Nodup → c.Sublist w → c = w.filter (fun x => decide (x ∈ c)) := by
    intro c w hn hc
    induction hc with
    | slnil => rfl
    | @cons c w y hs ih =>
      obtain ⟨hy, hn⟩ := List.nodup_cons.mp hn
      rw [List.filter_cons_of_neg (by simpa using fun h => hy (hs.subset h))]
      exact ih hn
    | @cons_cons c w y hs ih =>
      obtain ⟨hy, hn⟩ := List.nodup_cons.mp hn
      rw [List.filter_cons_of_pos (by simp)]
      congr 1
      conv_lhs => rw [ih hn]
      refine List.filter_congr fun x hx => ?_
      have : x ≠ y := fun e => hy (e ▸ hx)
      simp [this]
  rw [key hn ha, key hn hb]
  exact List.filter_congr fun x _ => by simp [h x]

theorem mem_contractionWord {ops : List SqOp} {t : Tensor} (ht : ProperTensor ops t) {x : Bool × Index} :
    x ∈ contractionWord t ↔ x.1 = true ∧ x.2 ∈ t.upper.list ∨ x.1 = false ∧ x.2 ∈ t.lower.list := by
  rw [contractionWord_eq ht]; exact ht.mem_legs

/-- An elementary contraction is determined by its operators. -/
theorem elementary_inj {ops : List SqOp} (h : GoodOps ops) {maxCu : Int} {t t' : Tensor} (ht : Elementary ops maxCu t)
    (ht' : Elementary ops maxCu t') (hp : (contractionWord t).Perm (contractionWord t')) : t = t' := by
  have p := proper_of_elementary h ht
  have p' := proper_of_elementary h ht'
  have hU : ∀ i, i ∈ t.upper.list ↔ i ∈ t'.upper.list := by
    intro i
    have := hp.mem_iff (a := (true, i))
    rw [mem_contractionWord p, mem_contractionWord p'] at this
    simpa using this
  have hL : ∀ i, i ∈ t.lower.list ↔ i ∈ t'.lower.list := by
    intro i
    have := hp.mem_iff (a := (false, i))
    rw [mem_contractionWord p, mem_contractionWord p'] at this
    simpa using this
  have hlen : t.upper.list.length = t'.upper.list.length :=
    ((List.perm_ext_iff_of_nodup p.upperNodup p'.upperNodup).mpr hU).length_eq
  obtain ⟨key, ⟨i, j, left, right, hij, hi, hj, ⟨u, hu, l, hl, _, rfl, rfl⟩ | ⟨l, hl, u, hu, _, rfl, rfl⟩⟩ |
    ⟨cre, ann, hc, ha, hlen1, h2, _, _, rfl, rfl⟩⟩ := ht <;>
  obtain ⟨key', ⟨i', j', left', right', hij', hi', hj', ⟨u', hu', l', hl', _, rfl, rfl⟩ | ⟨l', hl', u', hu', _, rfl, rfl⟩⟩ |
    ⟨cre', ann', hc', ha', hlen1', h2', _, _, rfl, rfl⟩⟩ := ht'
  · have e1 : u = u' := by simpa [density] using hU u
    have e2 : l = l' := by simpa [density] using hL l
    rw [e1, e2]
  · have e1 : u = u' := by simpa [density] using hU u
    have e2 : l = l' := by simpa [density] using hL l
    subst e1 e2
    have a1 := stringOf_upper h hi hu
    have a2 := stringOf_upper h hj' hu'
    have a3 := stringOf_lower h hj hl
    have a4 := stringOf_lower h hi' hl'
    omega
  · simp [density] at hlen; omega
  · have e1 : u = u' := by simpa [density] using hU u
    have e2 : l = l' := by simpa [density] using hL l
    subst e1 e2
    have a1 := stringOf_upper h hj hu
    have a2 := stringOf_upper h hi' hu'
    have a3 := stringOf_lower h hi hl
    have a4 := stringOf_lower h hj' hl'
    omega
  · have e1 : u = u' := by simpa [density] using hU u
    have e2 : l = l' := by simpa [density] using hL l
    rw [e1, e2]
  · simp [density] at hlen; omega
  · simp [density] at hlen; omega
  · simp [density] at hlen; omega
  · have e1 : cre.map Prod.snd = cre'.map Prod.snd :=
      sublist_ext (nodup_cumulantLegs_upper h) (hc.map _) (hc'.map _) hU
    have e2 : ann.map Prod.snd = ann'.map Prod.snd :=
      sublist_ext (nodup_cumulantLegs_lower h) (ha.map _) (ha'.map _) hL
    rw [e1, e2]

theorem mem_cumulantLegs_of {part : SqOp → List Index} {ops : List SqOp} {k : Nat} {i : Index} {op : SqOp} (hop : ops[k]? = some op)
    (hi : i ∈ part op) (hc : i.space.kind ≠ .c ∧ i.space.kind ≠ .v) : (k, i) ∈ cumulantLegs part ops := by
  unfold cumulantLegs
  rw [List.mem_flatMap]
  refine ⟨(op, k), List.mem_zipIdx_iff_getElem?.mpr hop, List.mem_map.mpr ⟨i, List.mem_filter.mpr ⟨hi, ?_⟩, rfl⟩⟩
  exact decide_eq_true hc

theorem length_cumulantLegs (part : SqOp → Indices) (ops : List SqOp) :
    (cumulantLegs (fun op => (part op).list) ops).length = nActiveLike (ops.map part) := by
  unfold cumulantLegs nActiveLike
  have : ∀ n, ((ops.zipIdx n).flatMap fun op => (((part op.1).list).filter fun i => decide (i.space.kind ≠ .c ∧ i.space.kind ≠ .v)).map
      fun i => (op.2, i)).length = (((ops.map part).flatMap Indices.list).filter fun i =>
        decide (i.space.kind ≠ .c ∧ i.space.kind ≠ .v)).length := by
    induction ops with
    | nil => intro n; rfl
    | cons op ops ih =>
      intro n
      simp only [List.zipIdx_cons, List.flatMap_cons, List.length_append, List.length_map, List.map_cons, List.filter_append, ih (n + 1)]
  exact this 0

theorem le_checkMaxCu {ops : List SqOp} (h : GoodOps ops) {maxCu : Int} {k : Nat}
    (hu : k ≤ nActiveLike (ops.map IndicesPair.upper)) (hl : k ≤ nActiveLike (ops.map IndicesPair.lower))
    (hk : 1 ≤ maxCu → (k : Int) ≤ maxCu) : k ≤ (checkMaxCu ops maxCu).toNat := by
  unfold checkMaxCu
  rw [nValid_eq, nValid_eq]
  · simp only
    split_ifs with hc
    · omega
    · have := hk (by omega)
      omega
  · intro x hx
    obtain ⟨op, hop, rfl⟩ := List.mem_map.1 hx
    exact (h.so op hop).not_beta.2
  · intro x hx
    obtain ⟨op, hop, rfl⟩ := List.mem_map.1 hx
    exact (h.so op hop).not_beta.1

section
variable {O R M : Type} [DecidableEq O] [CommRing R]

/-- An operator with its orbital in the place of its label. -/
def letterAt (σ : Index → O) (x : Bool × Index) : Bool × O := (x.1, σ x.2)

theorem mem_orbitalsOf {b : Bool} {w : List (Bool × Index)} {σ : Index → O} {o : O} :
    o ∈ orbitalsOf b (w.map (letterAt σ)) ↔ ∃ i, (b, i) ∈ w ∧ σ i = o := by
  unfold orbitalsOf
  rw [List.mem_filterMap]
  constructor
  · rintro ⟨x, hx, e⟩
    obtain ⟨y, hy, rfl⟩ := List.mem_map.mp hx
    by_cases hb : (letterAt σ y).1 = b
    · rw [if_pos hb] at e
      exact ⟨y.2, by rw [← hb]; exact hy, Option.some.inj e⟩
    · rw [if_neg hb] at e; exact absurd e (by simp)
  · rintro ⟨i, hi, rfl⟩
    exact ⟨(b, σ i), List.mem_map.mpr ⟨(b, i), hi, rfl⟩, by simp⟩

theorem length_orbitalsOf {b : Bool} {w : List (Bool × Index)} {σ : Index → O} :
    (orbitalsOf b (w.map (letterAt σ))).length = (w.filter fun x => x.1 == b).length := by
  induction w with
  | nil => rfl
  | cons x w ih =>
    rw [List.map_cons, orbitalsOf_cons, List.length_append, ih, List.filter_cons]
    by_cases hx : x.1 = b <;> simp [letterAt, hx, Nat.add_comm]

/-- A block with a value different from zero, not inside one string, is an elementary contraction. -/
theorem block_elementary {ops : List SqOp} (h : GoodOps ops) {orb : Orbitals O} {I : Interp O R M} (hph : I.Physical orb)
    (hac : ∀ name (u l : List O), u.length ≠ 1 → (∃ o ∈ u ++ l, orb.elem o ≠ .active) → I.tensor .cumulant name u l = 0)
    {maxCu : Int} (hcu : I.CumulantsUpTo maxCu) {σ : Index → O} (hσ : ∀ x ∈ productWord ops, orb.In x.2.space (σ x.2))
    {b : List (Bool × Index)} (hb : b.Sublist (productWord ops)) (hne : ∃ x ∈ b, ∃ y ∈ b, stringOf ops x ≠ stringOf ops y)
    (hv : I.contraction (b.map (letterAt σ)) ≠ 0) : ∃ t, Elementary ops maxCu t ∧ (contractionWord t).Perm b := by
  have hord := (word_ordered h).sublist hb
  have hnb := h.nodup_word.sublist hb
  by_cases h3 : 3 ≤ b.length
  · rw [I.contraction_long (by simpa using h3)] at hv
    split_ifs at hv with hc
    · have hv' := right_ne_zero_of_mul hv
      rw [List.length_map] at hc
      have hcount := orbitalsOf_length (b.map (letterAt σ))
      rw [List.length_map] at hcount
      have hactive : ∀ x ∈ b, x.2.space.kind ≠ .c ∧ x.2.space.kind ≠ .v := by
        intro x hx
        have hel : orb.elem (σ x.2) = .active := by
          by_contra hcon
          refine hv' (hac _ _ _ (by omega) ⟨σ x.2, ?_, hcon⟩)
          obtain ⟨bx, i⟩ := x
          cases bx
          · exact List.mem_append_right _ (List.mem_reverse.mpr (mem_orbitalsOf.mpr ⟨i, hx, rfl⟩))
          · exact List.mem_append_left _ (mem_orbitalsOf.mpr ⟨i, hx, rfl⟩)
        have hin := (hσ x (hb.subset hx)).1
        rw [hel] at hin
        constructor <;> intro e <;> rw [e] at hin <;> exact absurd hin (by simp [Kind.Denotes])
      let cre := (cumulantLegs (fun op => op.upper.list) ops).filter fun x => decide ((true, x.2) ∈ b)
      let ann := (cumulantLegs (fun op => op.lower.list) ops).filter fun x => decide ((false, x.2) ∈ b)
      have hcs : cre.Sublist (cumulantLegs (fun op => op.upper.list) ops) := List.filter_sublist
      have has : ann.Sublist (cumulantLegs (fun op => op.lower.list) ops) := List.filter_sublist
      have mc : ∀ i, i ∈ cre.map Prod.snd ↔ (true, i) ∈ b := by
        intro i
        rw [List.mem_map]
        constructor
        · rintro ⟨x, hx, rfl⟩
          exact of_decide_eq_true (List.mem_filter.mp hx).2
        · intro hi
          obtain ⟨k, op, hk, hx⟩ := mem_productWord.mp (hb.subset hi)
          have hu : i ∈ op.upper.list := by simpa using mem_stringWord.mp hx
          exact ⟨(k, i), List.mem_filter.mpr ⟨mem_cumulantLegs_of hk hu (hactive _ hi), by simpa using hi⟩, rfl⟩
      have ma : ∀ i, i ∈ ann.map Prod.snd ↔ (false, i) ∈ b := by
        intro i
        rw [List.mem_map]
        constructor
        · rintro ⟨x, hx, rfl⟩
          exact of_decide_eq_true (List.mem_filter.mp hx).2
        · intro hi
          obtain ⟨k, op, hk, hx⟩ := mem_productWord.mp (hb.subset hi)
          have hu : i ∈ op.lower.list := by simpa using mem_stringWord.mp hx
          exact ⟨(k, i), List.mem_filter.mpr ⟨mem_cumulantLegs_of hk hu (hactive _ hi), by simpa using hi⟩, rfl⟩
      have nc : (cre.map Prod.snd).Nodup := (nodup_cumulantLegs_upper h).sublist (hcs.map _)
      have na : (ann.map Prod.snd).Nodup := (nodup_cumulantLegs_lower h).sublist (has.map _)
      have pc : ((cre.map Prod.snd).map fun i => (true, i)).Perm (b.filter fun x => x.1 == true) := by
        refine (List.perm_ext_iff_of_nodup (nodup_creLegs.mpr nc) (hnb.filter _)).mpr ?_
        rintro ⟨bx, i⟩
        rw [creLegs, List.mem_map, List.mem_filter]
        constructor
        · rintro ⟨j, hj, e⟩
          rw [← e]
          exact ⟨(mc j).mp hj, rfl⟩
        · rintro ⟨hx, e⟩
          obtain rfl : bx = true := by simpa using e
          exact ⟨i, (mc i).mpr hx, rfl⟩
      have pa : ((ann.map Prod.snd).map fun i => (false, i)).Perm (b.filter fun x => x.1 == false) := by
        refine (List.perm_ext_iff_of_nodup (nodup_annLegs.mpr na) (hnb.filter _)).mpr ?_
        rintro ⟨bx, i⟩
        rw [annLegs, List.mem_map, List.mem_filter]
        constructor
        · rintro ⟨j, hj, e⟩
          rw [← e]
          exact ⟨(ma j).mp hj, rfl⟩
        · rintro ⟨hx, e⟩
          obtain rfl : bx = false := by simpa using e
          exact ⟨i, (ma i).mpr hx, rfl⟩
      have lc : cre.length = (orbitalsOf true (b.map (letterAt σ))).length := by
        rw [length_orbitalsOf, ← pc.length_eq]; simp
      have la : ann.length = (orbitalsOf false (b.map (letterAt σ))).length := by
        rw [length_orbitalsOf, ← pa.length_eq]; simp
      refine ⟨density .cumulant (cre.map Prod.snd) (ann.map Prod.snd), ⟨_, Or.inr ⟨cre, ann, hcs, has, by omega, by omega, ?_, ?_, rfl, rfl⟩⟩, ?_⟩
      · have h1 := hcs.length_le
        have h2 := has.length_le
        rw [length_cumulantLegs IndicesPair.upper] at h1
        rw [length_cumulantLegs IndicesPair.lower] at h2
        refine le_checkMaxCu h h1 (by omega) fun hm => ?_
        by_contra hlt
        exact hv' (hcu hm _ _ _ (by omega))
      · rintro ⟨k, hk⟩
        obtain ⟨x, hx, y, hy, hxy⟩ := hne
        have all : ∀ x ∈ b, stringOf ops x = k := by
          rintro ⟨bx, i⟩ hx
          cases bx
          · obtain ⟨z, hz, rfl⟩ := List.mem_map.mp ((ma i).mpr hx)
            obtain ⟨op, ho, hi, -⟩ := mem_cumulantLegs (has.subset hz)
            rw [stringOf_lower h ho hi]
            exact hk z (List.mem_append_right _ hz)
          · obtain ⟨z, hz, rfl⟩ := List.mem_map.mp ((mc i).mpr hx)
            obtain ⟨op, ho, hi, -⟩ := mem_cumulantLegs (hcs.subset hz)
            rw [stringOf_upper h ho hi]
            exact hk z (List.mem_append_left _ hz)
        exact hxy ((all x hx).trans (all y hy).symm)
      · show ((cre.map Prod.snd).map (fun i => (true, i)) ++ (ann.map Prod.snd).reverse.map fun i => (false, i)).Perm b
        refine (List.Perm.append pc (((List.reverse_perm _).map _).trans pa)).trans ?_
        have := List.filter_append_perm (fun x : Bool × Index => x.1 == true) b
        refine List.Perm.trans (List.Perm.append_left _ (List.Perm.of_eq ?_)) this
        exact List.filter_congr fun x _ => by cases x.1 <;> rfl
    · exact (hv rfl).elim
  · rcases b with _ | ⟨⟨bx, i⟩, _ | ⟨⟨by', j⟩, _ | ⟨_, b⟩⟩⟩
    · simp at hne
    · simp at hne
    · have hlt : stringOf ops (bx, i) < stringOf ops (by', j) := by
        have hle : stringOf ops (bx, i) ≤ stringOf ops (by', j) := by simpa using hord
        refine lt_of_le_of_ne hle fun e => ?_
        obtain ⟨x, hx, y, hy, hxy⟩ := hne
        simp only [List.mem_cons, List.not_mem_nil, or_false] at hx hy
        rcases hx with rfl | rfl <;> rcases hy with rfl | rfl <;> simp_all
      obtain ⟨k, op, hk, hx⟩ := mem_productWord.mp (hb.subset (List.mem_cons_self))
      obtain ⟨k', op', hk', hx'⟩ := mem_productWord.mp (hb.subset (List.mem_cons_of_mem _ List.mem_cons_self))
      have d1 := (hσ _ (hb.subset (List.mem_cons_self))).1
      have d2 := (hσ _ (hb.subset (List.mem_cons_of_mem _ List.mem_cons_self))).1
      simp only at d1 d2
      rw [stringOf_eq h hk hx, stringOf_eq h hk' hx'] at hlt
      cases bx <;> cases by'
      · simp [letterAt, Interp.contraction] at hv
      · have hi : i ∈ op.lower.list := by simpa using mem_stringWord.mp hx
        have hj : j ∈ op'.upper.list := by simpa using mem_stringWord.mp hx'
        have hv : I.tensor .hole ['C'] [σ j] [σ i] ≠ 0 := hv
        rw [hph.hole] at hv
        refine ⟨density .hole [j] [i], ⟨_, Or.inl ⟨k, k', op, op', hlt, hk, hk', Or.inr ⟨i, hi, j, hj, ?_, rfl, rfl⟩⟩⟩, List.Perm.refl _⟩
        by_cases he : σ j = σ i
        · refine ⟨orb.elem (σ i), fun hcore => hv ?_, he ▸ d2, d1⟩
          rw [if_pos he, hph.dens_core _ _ _ (Or.inr hcore), if_pos he, sub_self]
        · rw [if_neg he, zero_sub, neg_ne_zero] at hv
          have a1 : orb.elem (σ j) = .active := by
            cases e : orb.elem (σ j)
            · exact (hv (by rw [hph.dens_core _ _ _ (Or.inl e), if_neg he])).elim
            · rfl
            · exact (hv (hph.dens _ _ _ (Or.inl e))).elim
          have a2 : orb.elem (σ i) = .active := by
            cases e : orb.elem (σ i)
            · exact (hv (by rw [hph.dens_core _ _ _ (Or.inr e), if_neg he])).elim
            · rfl
            · exact (hv (hph.dens _ _ _ (Or.inr e))).elim
          exact ⟨.active, by simp, a1 ▸ d2, a2 ▸ d1⟩
      · have hi : i ∈ op.upper.list := by simpa using mem_stringWord.mp hx
        have hj : j ∈ op'.lower.list := by simpa using mem_stringWord.mp hx'
        have hv : I.tensor .cumulant ['L'] [σ i] [σ j] ≠ 0 := hv
        refine ⟨density .cumulant [i] [j], ⟨_, Or.inl ⟨k, k', op, op', hlt, hk, hk', Or.inl ⟨i, hi, j, hj, ?_, rfl, rfl⟩⟩⟩, List.Perm.refl _⟩
        have v1 : orb.elem (σ i) ≠ .virt := fun e => hv (hph.dens _ _ _ (Or.inl e))
        have v2 : orb.elem (σ j) ≠ .virt := fun e => hv (hph.dens _ _ _ (Or.inr e))
        by_cases he : σ i = σ j
        · exact ⟨orb.elem (σ i), v1, d1, he ▸ d2⟩
        · have a1 : orb.elem (σ i) = .active := by
            cases e : orb.elem (σ i)
            · exact (hv (by rw [hph.dens_core _ _ _ (Or.inl e), if_neg he])).elim
            · rfl
            · exact (v1 e).elim
          have a2 : orb.elem (σ j) = .active := by
            cases e : orb.elem (σ j)
            · exact (hv (by rw [hph.dens_core _ _ _ (Or.inr e), if_neg he])).elim
            · rfl
            · exact (v2 e).elim
          exact ⟨.active, by simp, a1 ▸ d1, a2 ▸ d2⟩
      · simp [letterAt, Interp.contraction] at hv
    · exact (h3 (by simp)).elim

end

end Dsrg
