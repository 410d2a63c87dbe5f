import Verif.Lemmas.VarFit
import Verif.Lemmas.VarRegular
import Verif.Lemmas.VarDemo
import Verif.Props.C53

/-!
# C55 — the variational affinity matrix

`prob col j` is the probability of group `j` under a column.  For columns of probabilities (C52) the returned matrix has entry `(a, b)` equal to
`coAssigned`, the probability that independent draws from columns `a` and `b` give the same group; the matrix is symmetric, its entries lie in `[0, 1]`
and it is positive semi-definite.  This holds for the fitted data and for new points given as an array.
-/

set_option linter.unusedSectionVars false

namespace Verif.Mix.VM
open Verif.Fl
variable {K : Type} [Field K] [LinearOrder K] [IsStrictOrderedRing K] {m : ℕ} {C : WeightClass K} {V : VarClass C} {Atom : Type}

/-- The probability of group `j`. -/
def prob (col : List (Fl K)) (j : ℕ) : K := match col[j]? with
  | some (.fin x) => x
  | _ => 0

/-- The probability that two independent draws agree: summed over all pairs of groups. -/
def coAssigned (k : ℕ) (a b : List (Fl K)) : K := ∑ i ∈ Finset.range k, ∑ j ∈ Finset.range k, if i = j then prob a i * prob b j else 0

/-- The entry `(i, j)` of a matrix given by its rows. -/
def entry (A : List (List (Fl K))) (i j : ℕ) : Option (Fl K) := A[i]?.bind (fun r => r[j]?)

/-- What the matrix of `n` columns of probabilities should be. -/
structure IsAffinity (k : ℕ) (cols : List (List (Fl K))) (A : List (List (Fl K))) : Prop where
  rows : A.length = cols.length
  width : ∀ r ∈ A, r.length = cols.length
  value : ∀ i j a b, cols[i]? = some a → cols[j]? = some b → entry A i j = some (.fin (coAssigned k a b))
  symm : ∀ i j, entry A i j = entry A j i
  unit : ∀ i j x, entry A i j = some x → ∃ y : K, x = .fin y ∧ 0 ≤ y ∧ y ≤ 1
  psd : ∀ x : ℕ → K, 0 ≤ ∑ i ∈ Finset.range cols.length, ∑ j ∈ Finset.range cols.length, x i * x j * (match entry A i j with | some (.fin y) => y | _ => 0)

theorem coAssigned_eq (k : ℕ) (a b : List (Fl K)) : coAssigned k a b = ∑ i ∈ Finset.range k, prob a i * prob b i := by
  unfold coAssigned
  apply Finset.sum_congr rfl
  intro i hi
  rw [Finset.sum_ite_eq, if_pos hi]

theorem prob_fin (r : List K) (j : ℕ) : prob (r.map fin) j = (r[j]?).getD 0 := by
  unfold prob
  rw [List.getElem?_map]
  cases r[j]? <;> rfl

theorem dot_sum : ∀ (k : ℕ) (a b : List K), a.length = k → b.length = k →
    (List.zipWith (· * ·) a b).sum = ∑ i ∈ Finset.range k, (a[i]?).getD 0 * (b[i]?).getD 0
  | 0, a, b, ha, hb => by
    rw [List.length_eq_zero_iff.1 ha]; rfl
  | k + 1, a, b, ha, hb => by
    rcases a with _ | ⟨x, a⟩
    · cases ha
    · rcases b with _ | ⟨y, b⟩
      · cases hb
      · rw [List.zipWith_cons_cons, List.sum_cons, dot_sum k a b (by simpa using ha) (by simpa using hb), Finset.sum_range_succ']
        simp only [List.getElem?_cons_succ, List.getElem?_cons_zero, Option.getD_some]
        rw [add_comm]

theorem zip_mul (a b : List K) : List.zipWith Fl.mul (a.map fin) (b.map fin) = (List.zipWith (· * ·) a b).map fin := by
  induction a generalizing b with
  | nil => rfl
  | cons x a ih =>
    cases b with
    | nil => rfl
    | cons y b =>
      rw [List.map_cons, List.map_cons, List.zipWith_cons_cons, ih]; rfl

theorem entry_value {k : ℕ} {a b : List (Fl K)} (ha : ProbColumn k a) (hb : ProbColumn k b) : Fl.sum (List.zipWith Fl.mul a b) = .fin (coAssigned k a b) := by
  obtain ⟨r, rfl, hr, _, _⟩ := ha
  obtain ⟨t, rfl, ht, _, _⟩ := hb
  rw [zip_mul, sum_fin, dot_sum k r t hr ht, coAssigned_eq]
  congr 1
  apply Finset.sum_congr rfl
  intro i _
  rw [prob_fin, prob_fin]

theorem prob_facts {k : ℕ} {a : List (Fl K)} (ha : ProbColumn k a) : (∀ i, 0 ≤ prob a i) ∧ ∑ i ∈ Finset.range k, prob a i = 1 := by
  obtain ⟨r, rfl, hr, hp, hs⟩ := ha
  constructor
  · intro i
    rw [prob_fin]
    cases h : r[i]? with
    | none => exact le_rfl
    | some x => exact (hp x (List.mem_of_getElem? h)).le
  · have : ∀ (k : ℕ) (r : List K), r.length = k → r.sum = ∑ i ∈ Finset.range k, (r[i]?).getD 0 := by
      intro k
      induction k with
      | zero => intro r hr; rw [List.length_eq_zero_iff.1 hr]; rfl
      | succ k ih =>
        intro r hr
        rcases r with _ | ⟨x, r⟩
        · cases hr
        · rw [List.sum_cons, ih r (by simpa using hr), Finset.sum_range_succ']
          simp only [List.getElem?_cons_succ, List.getElem?_cons_zero, Option.getD_some]
          rw [add_comm]
    rw [← hs, this k r hr]
    apply Finset.sum_congr rfl
    intro i _
    rw [prob_fin]

theorem gram_affinity {k : ℕ} {cols : List (List (Fl K))} (h : ∀ c ∈ cols, ProbColumn k c) : IsAffinity k cols (gram cols) := by
  have hval : ∀ i j a b, cols[i]? = some a → cols[j]? = some b → entry (gram cols) i j = some (.fin (coAssigned k a b)) := by
    intro i j a b ha hb
    unfold entry gram
    rw [List.getElem?_map, ha]
    simp only [Option.map_some, Option.bind_some, List.getElem?_map, hb]
    rw [entry_value (h a (List.mem_of_getElem? ha)) (h b (List.mem_of_getElem? hb))]
  have hnone : ∀ i j, cols[i]? = none ∨ cols[j]? = none → entry (gram cols) i j = none := by
    intro i j hij
    unfold entry gram
    rw [List.getElem?_map]
    cases hi : cols[i]? with
    | none => rfl
    | some a =>
      rw [hi] at hij
      simp only [Option.map_some, Option.bind_some, List.getElem?_map]
      rw [hij.resolve_left (by simp)]; rfl
  have hcomm : ∀ a b : List (Fl K), coAssigned k a b = coAssigned k b a := by
    intro a b
    rw [coAssigned_eq, coAssigned_eq]
    exact Finset.sum_congr rfl (fun i _ => mul_comm _ _)
  refine ⟨by simp [gram], ?_, hval, ?_, ?_, ?_⟩
  · intro r hr
    obtain ⟨a, _, rfl⟩ := List.mem_map.1 hr
    simp
  · intro i j
    cases hi : cols[i]? with
    | none => rw [hnone i j (.inl hi), hnone j i (.inr hi)]
    | some a =>
      cases hj : cols[j]? with
      | none => rw [hnone i j (.inr hj), hnone j i (.inl hj)]
      | some b => rw [hval i j a b hi hj, hval j i b a hj hi, hcomm]
  · intro i j x hx
    cases hi : cols[i]? with
    | none => rw [hnone i j (.inl hi)] at hx; cases hx
    | some a =>
      cases hj : cols[j]? with
      | none => rw [hnone i j (.inr hj)] at hx; cases hx
      | some b =>
        rw [hval i j a b hi hj] at hx
        cases hx
        obtain ⟨ha, ha1⟩ := prob_facts (h a (List.mem_of_getElem? hi))
        obtain ⟨hb, hb1⟩ := prob_facts (h b (List.mem_of_getElem? hj))
        refine ⟨_, rfl, ?_, ?_⟩
        · rw [coAssigned_eq]
          exact Finset.sum_nonneg (fun i _ => mul_nonneg (ha i) (hb i))
        · rw [coAssigned_eq, ← ha1]
          apply Finset.sum_le_sum
          intro i hi
          have : prob b i ≤ 1 := by
            rw [← hb1]
            exact Finset.single_le_sum (f := fun i => prob b i) (fun i _ => hb i) hi
          exact mul_le_of_le_one_right (ha i) this
  · intro x
    let p : ℕ → ℕ → K := fun i l => prob ((cols[i]?).getD []) l
    have hent : ∀ i ∈ Finset.range cols.length, ∀ j ∈ Finset.range cols.length,
        (match entry (gram cols) i j with | some (.fin y) => y | _ => 0) = ∑ l ∈ Finset.range k, p i l * p j l := by
      intro i hi j hj
      have hi' := List.getElem?_eq_getElem (Finset.mem_range.1 hi)
      have hj' := List.getElem?_eq_getElem (Finset.mem_range.1 hj)
      rw [hval i j _ _ hi' hj', coAssigned_eq]
      simp only [p, hi', hj', Option.getD_some]
    have : ∑ i ∈ Finset.range cols.length, ∑ j ∈ Finset.range cols.length, x i * x j * (match entry (gram cols) i j with | some (.fin y) => y | _ => 0)
        = ∑ l ∈ Finset.range k, (∑ i ∈ Finset.range cols.length, x i * p i l) ^ 2 := by
      rw [Finset.sum_congr rfl (fun i hi => Finset.sum_congr rfl (fun j hj => by rw [hent i hi j hj]))]
      simp only [sq, Finset.sum_mul, Finset.mul_sum]
      rw [Finset.sum_congr rfl (fun i _ => Finset.sum_comm), Finset.sum_comm]
      refine Finset.sum_congr rfl (fun l _ => ?_)
      rw [Finset.sum_comm]
      refine Finset.sum_congr rfl (fun i _ => Finset.sum_congr rfl (fun j _ => ?_))
      ring
    rw [this]
    exact Finset.sum_nonneg (fun l _ => sq_nonneg _)

/-- **C55**, the fitted data: for columns of probabilities — which C52 gives after a fit. -/
theorem C55_fitted {F : MathFun K} {W : World K m Atom} {s : VM V m Atom} {k : ℕ} (hs : s.varFitted = true) (h : Probs k s) :
    ∃ A, varAffinity F W s .none = .ok A ∧ IsAffinity k s.varD A ∧ A.length = s.gm.y.length := by
  refine ⟨gram s.varD, ?_, gram_affinity h.2, by rw [(gram_affinity h.2).rows, h.1]⟩
  unfold varAffinity
  rw [if_neg (by rw [hs]; simp)]

/-- **C55**, new points given as an array: the columns are the responsibilities of the points, which are probabilities too. -/
theorem C55_new {F : MathFun K} (hF : Sane F) {W : World K m Atom} (he : 0 < W.eps) {I : C.State → Prop} {s : VM V m Atom} {k : ℕ} (hs : s.varFitted = true)
    (h : Ready I k s) (ys : List (Fin m → K)) :
    ∃ cols A, newColumns F s ys (normMax F W.eps) = .ok cols ∧ cols.length = ys.length ∧ (∀ c ∈ cols, ProbColumn k c) ∧
      varAffinity F W s (.array ys) = .ok A ∧ IsAffinity k cols A := by
  obtain ⟨lw, h1, h2⟩ := column_prob (eps := W.eps) hF he h
  have hcols : newColumns F s ys (normMax F W.eps) = .ok (ys.map (fun x => normMax F W.eps (scoreColumn F k lw s.varTheta x))) := by
    unfold newColumns
    rw [h1, h.varK]
    simp only [Option.getD_some, Int.toNat_natCast]
    rw [if_neg (by rw [h.theta]; simp)]
  have hp : ∀ c ∈ ys.map (fun x => normMax F W.eps (scoreColumn F k lw s.varTheta x)), ProbColumn k c := by
    intro c hc
    obtain ⟨x, _, rfl⟩ := List.mem_map.1 hc
    exact h2 x
  refine ⟨_, _, hcols, by simp, hp, ?_, gram_affinity hp⟩
  unfold varAffinity
  rw [if_neg (by rw [hs]; simp)]
  simp only []
  rw [hcols]
  rfl

/-- **C55 fails** for new points given as a list: the list is cast but the uncast argument is used. -/
theorem C55_list_refuted {F : MathFun K} {W : World K m Atom} {s : VM V m Atom} (hs : s.varFitted = true) (ys : List (Fin m → K)) :
    varAffinity F W s (.list ys) = .error .attributeError := by
  unfold varAffinity
  rw [if_neg (by rw [hs]; simp)]

/-- The whole history: after a fit with `init_method="random"` that returns. -/
theorem C55_after_fit {ω : Oracle K} {F : VWorld K m} {W : World K m Atom} {I : C.State → Prop} (hF : Sane F.toMathFun) (he : 0 < W.eps) (hV : Regular V I)
    (hm : 0 < m) {ys : List (Fin m → K)} (hy : ys ≠ []) (nG : Option ℤ) (tol : Fl K) {s u : VM V m Atom × ℕ} (hI : I s.1.gm.wst.1)
    (h : fitVariational F W (.rows ys) nG false tol .random ω s = (.ok (), u)) :
    ∃ k A, varAffinity F.toMathFun W u.1 .none = .ok A ∧ IsAffinity k u.1.varD A ∧ A.length = ys.length := by
  obtain ⟨k, _, h1, h2, h3⟩ := C52_random hF he hV hm hy nG tol hI h
  have hu : u.1.varFitted = true := by
    obtain ⟨_, u', _, _, _, hu, _⟩ := C53_flag h
    rw [hu]
  obtain ⟨A, h4, h5, h6⟩ := C55_fitted (F := F.toMathFun) (W := W) hu h1
  exact ⟨k, A, h4, h5, by rw [h6, h3]⟩

/-- The consensus clustering is computed from these matrices: from that of the fitted data without an argument, from that of the new points with one. -/
theorem C55_consensus {F : MathFun K} (hF : Sane F) {W : World K m Atom} (he : 0 < W.eps) {I : C.State → Prop} {s : VM V m Atom} {k : ℕ} (hs : s.varFitted = true)
    (hp : Probs k s) (h : Ready I k s) (predict : List (List (Fl K)) → Except PyErr (List ℕ)) :
    (∃ A, IsAffinity k s.varD A ∧ A.length = s.gm.y.length ∧ varSpectral F W predict s .none = predict A) ∧
    ∀ ys, ∃ cols A, newColumns F s ys (normMax F W.eps) = .ok cols ∧ IsAffinity k cols A ∧ A.length = ys.length ∧ varSpectral F W predict s (.array ys) = predict A := by
  constructor
  · obtain ⟨A, h1, h2, h3⟩ := C55_fitted (F := F) (W := W) hs hp
    refine ⟨A, h2, h3, ?_⟩
    unfold varSpectral
    rw [if_neg (by rw [hs]; simp), h1]
  · intro ys
    obtain ⟨cols, A, h1, h2, _, h4, h5⟩ := C55_new hF he hs h ys
    refine ⟨cols, A, h1, h5, h5.rows.trans h2, ?_⟩
    unfold varSpectral
    rw [if_neg (by rw [hs]; simp), h4]

/-- A matrix with off-diagonal entries strictly between 0 and 1. -/
example : gram ([[.fin (1 / 2), .fin (1 / 2)], [.fin (3 / 4), .fin (1 / 4)]] : List (List (Fl ℚ)))
    = [[.fin (1 / 2), .fin (1 / 2)], [.fin (1 / 2), .fin (5 / 8)]] := by decide +kernel
example : ∀ c ∈ ([[.fin (1 / 2), .fin (1 / 2)], [.fin (3 / 4), .fin (1 / 4)]] : List (List (Fl ℚ))), ProbColumn 2 c := by
  intro c hc
  rcases List.mem_cons.1 hc with rfl | hc
  · exact ⟨[1 / 2, 1 / 2], rfl, rfl, by decide +kernel, by decide +kernel⟩
  · rw [List.mem_singleton] at hc
    subst hc
    exact ⟨[3 / 4, 1 / 4], rfl, rfl, by decide +kernel, by decide +kernel⟩
end Verif.Mix.VM
