import Verif.Lemmas.GibbsBook
import Verif.Lemmas.GibbsDemo

/-!
# C42: the Gibbs EAP affinity matrix is the average co-clustering matrix

After a cold fit that returned, followed by any sequence of warm fits (each returning or raising), entry `(i, j)` of
`gibbs_eap_affinity_matrix()` is the fraction of the states of `get_sim_params()` in which observations `i` and `j` have the same label; hence it
is symmetric, has unit diagonal and entries in `[0, 1]`.
-/

set_option linter.unusedSectionVars false

namespace Verif.Mix
open GM
variable {K : Type} [Field K] [LinearOrder K] [IsStrictOrderedRing K] {C : WeightClass K} {m : ℕ} {Atom : Type} {ω : Oracle K}

/-- `A` is the `n × n` matrix of the fractions of `states` in which two observations share a label. -/
def IsCoClustering (n : ℕ) (states : List (RunParams K Atom)) (A : List (List K)) : Prop :=
  A.length = n ∧ ∀ i < n, ∃ row, A[i]? = some row ∧ row.length = n ∧
    ∀ j < n, row[j]? = some (((states.filter (fun p => p.d[i]? = p.d[j]?)).length : K) / (states.length : K))

/-- Entry `(i, j)`. -/
def entry (A : List (List K)) (i j : ℕ) : K := ((A[i]?).bind (·[j]?)).getD 0

theorem IsCoClustering.entry_eq {n : ℕ} {states : List (RunParams K Atom)} {A : List (List K)} (h : IsCoClustering n states A) {i j : ℕ} (hi : i < n)
    (hj : j < n) : entry A i j = ((states.filter (fun p => p.d[i]? = p.d[j]?)).length : K) / (states.length : K) := by
  obtain ⟨row, h1, -, h2⟩ := h.2 i hi
  simp [entry, h1, h2 j hj]

theorem coClustering_of_book {s : GM C m Atom} (hb : Book s) (hf : s.gibbsFitted = true) :
    ∃ A, eapAffinity s = .ok A ∧ IsCoClustering s.d.length s.saved A := by
  refine ⟨_, by unfold eapAffinity; rw [if_neg (by simp [hf])], ?_, fun i hi => ?_⟩
  · simp [hb.aff, coMatrix]
  · refine ⟨_, by rw [hb.aff, List.getElem?_map, coMatrix, List.getElem?_map, List.getElem?_range hi]; rfl, by simp, fun j hj => ?_⟩
    rw [List.getElem?_map, List.getElem?_map, List.getElem?_range hj, hb.total]
    simp [List.countP_eq_length_filter]

/-- The books stay in order under warm fits; so does the flag. -/
theorem warm_book (W : World K m Atom) (ops : List (FitArgs K m)) (hw : ∀ a ∈ ops, a.warm = true) (s : GM C m Atom × ℕ) (hb : Book s.1)
    (hfit : s.1.gibbsFitted = true) :
    Book (run W ω s ops).1 ∧ (run W ω s ops).1.gibbsFitted = true ∧ (run W ω s ops).1.d.length = s.1.d.length ∧ s.1.saved <+: (run W ω s ops).1.saved := by
  induction ops generalizing s with
  | nil => exact ⟨hb, hfit, rfl, List.prefix_rfl⟩
  | cons a ops ih =>
    have ha := hw a (by simp)
    have hstep : run W ω s (a :: ops) = run W ω (fitGibbs W a.y a.initGroups a.warm a.method ω s).2 ops := rfl
    rw [hstep]
    have h1 := wp_and (fit_warm (ω := ω) W a.y a.initGroups a.method s hb) (fit_flag W a.y a.initGroups true a.method s)
    rw [ha]
    rcases hr : fitGibbs W a.y a.initGroups true a.method ω s with ⟨e | u, t⟩
    · obtain ⟨⟨hbt, -, hd⟩, hft, hpre⟩ := wp_of_error hr h1
      obtain ⟨i1, i2, i3, i4⟩ := ih (fun b hb => hw b (by simp [hb])) t hbt (hft.trans hfit)
      exact ⟨i1, i2, i3.trans hd, (hpre rfl).trans i4⟩
    · obtain ⟨⟨hbt, -, -, hd⟩, hft, hpre⟩ := wp_of_ok hr h1
      obtain ⟨i1, i2, i3, i4⟩ := ih (fun b hb => hw b (by simp [hb])) t hbt hft
      exact ⟨i1, i2, i3.trans hd, (hpre rfl).trans i4⟩

variable (W : World K m Atom)

/-- The matrix holds the co-clustering fractions of the saved states; symmetric, unit diagonal, entries in `[0, 1]`. -/
theorem C42_affinity (ys : List (Fin m → K)) (g : PySize) (method : InitMethod) (s t : GM C m Atom × ℕ) (hs : 1 ≤ s.1.subsample)
    (hT : s.1.burnIn < s.1.totalIter) (h : fitGibbs W (.rows ys) g false method ω s = (.ok (), t))
    (ops : List (FitArgs K m)) (hw : ∀ a ∈ ops, a.warm = true) :
    ∃ A, eapAffinity (run W ω t ops).1 = .ok A ∧ IsCoClustering ys.length (run W ω t ops).1.saved A ∧
      (∀ i < ys.length, ∀ j < ys.length, entry A i j = entry A j i) ∧ (∀ i < ys.length, entry A i i = 1) ∧
      ∀ i < ys.length, ∀ j < ys.length, 0 ≤ entry A i j ∧ entry A i j ≤ 1 := by
  obtain ⟨⟨hb, -, hl, hd⟩, hf, -⟩ := wp_of_ok h (wp_and (fit_cold W (.rows ys) g method s) (fit_flag W (.rows ys) g false method s))
  obtain ⟨i1, i2, i3, i4⟩ := warm_book (ω := ω) W ops hw t hb hf
  obtain ⟨A, hA, hco⟩ := coClustering_of_book i1 i2
  rw [i3, hd ys rfl] at hco
  have hpos : 0 < t.1.saved.length := by
    rw [hl]
    unfold fitCount
    rw [List.countP_pos_iff]
    exact ⟨0, List.mem_range.2 (by omega), by simp⟩
  have hpos' : (0 : K) < ((run W ω t ops).1.saved.length : K) := by
    exact_mod_cast lt_of_lt_of_le hpos i4.length_le
  refine ⟨A, hA, hco, fun i hi j hj => ?_, fun i hi => ?_, fun i hi j hj => ?_⟩
  · rw [hco.entry_eq hi hj, hco.entry_eq hj hi]
    congr 3
    refine List.filter_congr fun p _ => ?_
    simp only [eq_comm]
  · rw [hco.entry_eq hi hi]
    simp [hpos'.ne']
  · rw [hco.entry_eq hi hj]
    refine ⟨div_nonneg (Nat.cast_nonneg _) hpos'.le, ?_⟩
    rw [div_le_one hpos']
    exact_mod_cast List.length_filter_le _ _

/-- Before any fit, or with books out of order because a failed cold fit changed the size of the data, nothing is claimed; in particular a fresh
object has no matrix. -/
theorem C42_not_fitted (s : GM C m Atom) (h : s.gibbsFitted = false) : eapAffinity s = .error .notFittedError := by
  unfold eapAffinity; rw [if_pos h]

/-! An equal-weight mixture, a cold fit, a failing warm fit (other data size) and a warm fit: six states; observations 0 and 1 share a group in all
of them, 0 and 3 in four. -/
example : let s := ((fitGibbs world (rows1 [0, 1, 5, 6]) .none false .kmeans) demo (eqObj 2 6 1 2, 0)).2
    returns (fitGibbs world (rows1 [0, 1, 5, 6]) .none false .kmeans) demo (eqObj 2 6 1 2, 0) = true ∧
    let t := run world demo s [⟨rows1 [1], .none, true, .kmeans⟩, ⟨rows1 [0, 1, 5, 6], .none, true, .kmeans⟩]
    t.1.saved.length = 6 ∧ (eapAffinity t.1).toOption.map (fun A => (entry A 0 1, entry A 0 3)) = some (1, 2 / 3) := by decide +kernel
end Verif.Mix
