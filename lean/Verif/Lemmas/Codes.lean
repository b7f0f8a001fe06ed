import Verif.Model.Backtrack
import Verif.Lemmas.Indices

/-! Helper lemmas about the codes of elementary contractions. -/

namespace Dsrg

variable {α : Type}

/-- The number of elements in the first `i` categories. -/
def EleCon.before (x : EleCon α) (i : Nat) : Nat := ((x.cats.take i).map fun c => (x.get c).length).sum

theorem scanl_add_getElem? (l : List Nat) (a i : Nat) (h : i ≤ l.length) :
    (l.scanl (· + ·) a)[i]? = some (a + (l.take i).sum) := by
  induction l generalizing a i with
  | nil => simp at h; subst h; simp
  | cons y ys ih =>
    cases i with
    | zero => simp [List.scanl_cons]
    | succ j =>
      rw [List.scanl_cons]
      simp only [List.getElem?_cons_succ, List.take_succ_cons, List.sum_cons]
      rw [ih _ _ (by simpa using h)]; simp [Nat.add_assoc]

theorem length_takeWhile_eq {β : Type} (p : β → Bool) (l : List β) (k : Nat) (hk : k ≤ l.length)
    (h1 : ∀ i a, i < k → l[i]? = some a → p a = true) (h2 : ∀ a, l[k]? = some a → p a = false) :
    (l.takeWhile p).length = k := by
  induction l generalizing k with
  | nil => simp at hk; simp [hk]
  | cons y ys ih =>
    cases k with
    | zero => rw [List.takeWhile_cons, h2 y (by simp)]; rfl
    | succ j =>
      rw [List.takeWhile_cons, h1 0 y (by omega) (by simp)]
      simp only [if_true, List.length_cons]
      rw [ih j (by simpa using hk) (fun i a hi ha => h1 (i + 1) a (by omega) (by simpa using ha))
        (fun a ha => h2 a (by simpa using ha))]

theorem EleCon.before_succ (x : EleCon α) {i : Nat} {c : List Nat} (h : x.cats[i]? = some c) :
    x.before (i + 1) = x.before i + (x.get c).length := by
  unfold EleCon.before
  rw [List.take_add_one, h]; simp

theorem EleCon.before_mono (x : EleCon α) {i j : Nat} (h : i ≤ j) : x.before i ≤ x.before j := by
  unfold EleCon.before
  obtain ⟨d, rfl⟩ := Nat.exists_eq_add_of_le h
  rw [List.take_add]; simp

theorem EleCon.iStart_getElem? (x : EleCon α) {i : Nat} (h : i < x.cats.length) : x.iStart[i]? = some (x.before i) := by
  unfold EleCon.iStart
  rw [scanl_add_getElem? _ _ _ (by simp; omega)]
  unfold EleCon.before
  rw [← List.map_take, List.dropLast_eq_take, List.take_take]
  rw [Nat.min_eq_left (by omega)]; simp

theorem EleCon.length_iStart (x : EleCon α) (h : x.cats ≠ []) : x.iStart.length = x.cats.length := by
  unfold EleCon.iStart
  have := List.length_pos_iff.2 h
  simp; omega

theorem EleCon.size_eq (x : EleCon α) : x.size = x.before x.cats.length := by
  unfold EleCon.size
  cases hc : x.cats.getLast? with
  | none => simp at hc; simp [EleCon.before, hc]
  | some c =>
    have hne : x.cats ≠ [] := by intro h; simp [h] at hc
    have hpos := List.length_pos_iff.2 hne
    rw [List.getLast?_eq_getElem?] at hc
    have := x.before_succ hc
    rw [Nat.sub_add_cancel hpos] at this
    rw [this, List.getLast?_eq_getElem?, x.length_iStart hne, x.iStart_getElem? (by omega)]; rfl

theorem EleCon.bisect (x : EleCon α) {i code : Nat} {c : List Nat} (h : x.cats[i]? = some c) (h1 : x.before i ≤ code)
    (h2 : code < x.before (i + 1)) : bisectRight x.iStart code - 1 = i := by
  have hi := lt_length_of_getElem? h
  have hne : x.cats ≠ [] := by intro h'; simp [h'] at hi
  unfold bisectRight
  rw [length_takeWhile_eq _ _ (i + 1)]
  · omega
  · rw [x.length_iStart hne]; exact hi
  · intro k a hk ha
    rw [x.iStart_getElem? (by omega)] at ha
    cases ha
    have := x.before_mono (show k ≤ i by omega)
    simp; omega
  · intro a ha
    have := lt_length_of_getElem? ha
    rw [x.length_iStart hne] at this
    rw [x.iStart_getElem? this] at ha
    cases ha
    simp; omega

theorem EleCon.start_eq (x : EleCon α) (hn : x.cats.Nodup) {i : Nat} {c : List Nat} (h : x.cats[i]? = some c) :
    x.start c = .ok (x.before i) := by
  have hi := lt_length_of_getElem? h
  have hne : x.cats ≠ [] := by intro h'; simp [h'] at hi
  have hz : (x.cats.zip x.iStart)[i]? = some (c, x.before i) := by
    rw [List.getElem?_zip_eq_some]; exact ⟨h, x.iStart_getElem? hi⟩
  have hfind : (x.cats.zip x.iStart).find? (fun p => decide (p.1 = c)) = some (c, x.before i) := by
    rw [List.find?_eq_some_iff_getElem]
    refine ⟨by simp, i, lt_length_of_getElem? hz, ?_, ?_⟩
    · have := List.getElem?_eq_some_iff.1 hz
      exact this.2
    · intro j hj
      simp only [List.getElem_zip, Bool.not_eq_eq_eq_not, Bool.not_true, decide_eq_false_iff_not]
      intro hjc
      have hj' : j < x.cats.length := by omega
      have h0 := (List.getElem?_eq_some_iff.1 h)
      have := (List.Nodup.getElem_inj_iff hn).1 (hjc.trans h0.2.symm)
      omega
  unfold EleCon.start
  rw [hfind]

/-- Every code below the size lies in exactly one category. -/
theorem EleCon.exists_category (x : EleCon α) {code : Nat} (h : code < x.size) :
    ∃ i c, x.cats[i]? = some c ∧ x.before i ≤ code ∧ code < x.before (i + 1) := by
  rw [x.size_eq] at h
  have key : ∀ n, n ≤ x.cats.length → code < x.before n →
      ∃ i c, x.cats[i]? = some c ∧ x.before i ≤ code ∧ code < x.before (i + 1) := by
    intro n
    induction n with
    | zero => intro _ h; simp [EleCon.before] at h
    | succ n ih =>
      intro hn h
      by_cases h' : code < x.before n
      · exact ih (by omega) h'
      · exact ⟨n, x.cats[n], by simp, by omega, h⟩
  exact key _ le_rfl h

theorem EleCon.flat_getElem? (x : EleCon α) {i j : Nat} {c : List Nat} (h : x.cats[i]? = some c) (hj : j < (x.get c).length) :
    (x.cats.flatMap x.get)[x.before i + j]? = (x.get c)[j]? := by
  unfold EleCon.before
  generalize x.cats = cs at h
  induction cs generalizing i with
  | nil => simp at h
  | cons d ds ih =>
    cases i with
    | zero =>
      simp at h; subst h
      simp [List.getElem?_append_left hj]
    | succ k =>
      simp only [List.getElem?_cons_succ] at h
      simp only [List.take_succ_cons, List.map_cons, List.sum_cons, List.flatMap_cons]
      rw [List.getElem?_append_right (by omega), ← ih h]
      congr 1; omega

theorem EleCon.length_flat (x : EleCon α) : (x.cats.flatMap x.get).length = x.size := by
  rw [x.size_eq]; simp [EleCon.before, List.length_flatMap]

theorem EleCon.before_le_size (x : EleCon α) {i : Nat} (h : i ≤ x.cats.length) : x.before i ≤ x.size := by
  rw [x.size_eq]; exact x.before_mono h

end Dsrg
