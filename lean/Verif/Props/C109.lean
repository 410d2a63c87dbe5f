import Verif.Lemmas.NormalWishart
import Verif.Lemmas.VarLoop
import Mathlib.Analysis.Matrix.Order

/-!
# C109: the score of a group is the expected log-density of the observation

In the variational step the score of an observation in a group is the expected log weight plus what should be the expectation of the log-density of the
observation under the fitted law of the mean and precision of the group, the normal-Wishart law.  Here that law is a law on a product space (`Lemmas/NormalWishart`), and
the expectation a Lebesgue integral.

* `C109_value`: its value, for every dimension, point and positive definite scale matrix.
* `C109_gap`, `C109_iff`: the code is off by half of `log ‖P‖ - log det P`, so it is right exactly when `‖P‖ = det P`.
* `C109_one_partial`: with one coordinate the code is right.  `C109_refuted`: in every dimension from two on it is wrong for the identity matrix.
* `C109_atoms`, `C109_update`: the hypotheses hold after every update of the groups, which never raises: scale matrices are positive definite, degrees of freedom exceed the dimension minus one.
* `C109_step`, `C109_fit`: every iteration, and every fit that starts at random and makes an iteration, leaves such parameters in all groups.
* `C109_fit_partial`: hence for univariate data the scores of all groups after a fit are the expectations.
-/

set_option linter.unusedSectionVars false

namespace Verif.Mix.VM
open MeasureTheory Real Matrix
open Verif.Fl (fin)
open scoped MatrixOrder
variable {m : ℕ}

/-- The parameters belong to a normal-Wishart law. -/
structure ProperAtom (a : VAtom ℝ m) : Prop where
  lam : 0 < a.lam
  scale : (m : ℝ) - 1 < a.scale
  prec : (Matrix.of a.prec).PosDef

/-- `L` is a factor of the scale matrix. -/
def FactorOf (L : Matrix (Fin m) (Fin m) ℝ) (a : VAtom ℝ m) : Prop := Matrix.of a.prec = L * Lᵀ

/-- The expectation of `log N(x; mean, precision)` under the law of the group. -/
noncomputable def expectedLogPdf (a : VAtom ℝ m) (L : Matrix (Fin m) (Fin m) ℝ) (x : Fin m → ℝ) : ℝ :=
  ∫ ω, log (normalPdf x (NW.centre a.mu a.lam L ω) (NW.precision L ω)) ∂NW.joint m a.scale

theorem exists_factor {a : VAtom ℝ m} (h : (Matrix.of a.prec).PosDef) : ∃ L, FactorOf L a := by
  have h0 : (0 : Matrix (Fin m) (Fin m) ℝ) ≤ Matrix.of a.prec := Matrix.nonneg_iff_posSemidef.2 h.posSemidef
  obtain ⟨B, hB⟩ := CStarAlgebra.nonneg_iff_eq_star_mul_self.1 h0
  refine ⟨Bᵀ, ?_⟩
  show _ = _
  rw [hB, transpose_transpose, star_eq_conjTranspose, conjTranspose_eq_transpose_of_trivial]

theorem factor_det {a : VAtom ℝ m} (h : (Matrix.of a.prec).PosDef) {L : Matrix (Fin m) (Fin m) ℝ} (hL : FactorOf L a) : L.det ≠ 0 := by
  intro h0
  have := h.det_pos
  rw [hL, det_mul, h0, zero_mul] at this
  exact lt_irrefl _ this

theorem log_normalPdf (x mu : Fin m → ℝ) {P : Matrix (Fin m) (Fin m) ℝ} (hd : 0 < P.det) :
    log (normalPdf x mu P) = (log P.det - m * log (2 * π) - mahalanobis x mu P) / 2 := by
  unfold normalPdf
  have hd' : 0 < (Matrix.of fun i j => P i j).det := hd
  have h2 : (0 : ℝ) < (2 * π) ^ m := by positivity
  rw [Real.log_mul (Real.sqrt_pos.2 (div_pos hd' h2)).ne' (Real.exp_pos _).ne', Real.log_exp, Real.log_sqrt (div_pos hd' h2).le,
    Real.log_div hd'.ne' h2.ne', Real.log_pow]
  show (log P.det - _) / 2 + _ = _
  ring

/-- **The value of the expectation**; the log-density is integrable. -/
theorem C109_value {a : VAtom ℝ m} (ha : ProperAtom a) {L : Matrix (Fin m) (Fin m) ℝ} (hL : FactorOf L a) (x : Fin m → ℝ) :
    Integrable (fun ω => log (normalPdf x (NW.centre a.mu a.lam L ω) (NW.precision L ω))) (NW.joint m a.scale) ∧
    expectedLogPdf a L x = (wishartLogDet a.prec a.scale - m * log (2 * π) - (a.scale * mahalanobis x a.mu a.prec + m / a.lam)) / 2 := by
  have hdet := factor_det ha.prec hL
  have hP : (L * Lᵀ : Matrix (Fin m) (Fin m) ℝ) = a.prec := hL.symm
  have h1 := NW.expected_log_det ha.scale hdet
  have h2 := NW.expected_mahalanobis ha.scale hdet x a.mu ha.lam
  rw [hP] at h1 h2
  have := NW.joint_prob (m := m) ha.scale
  have hc : (fun ω => log (normalPdf x (NW.centre a.mu a.lam L ω) (NW.precision L ω))) =ᵐ[NW.joint m a.scale]
      fun ω => (log (NW.precision L ω).det - m * log (2 * π) - mahalanobis x (NW.centre a.mu a.lam L ω) (NW.precision L ω)) / 2 := by
    filter_upwards [NW.chi_pos ha.scale] with ω h
    exact log_normalPdf x _ (NW.precision_det_pos hdet h)
  have h3 : Integrable (fun ω => log (NW.precision L ω).det - m * log (2 * π)) (NW.joint m a.scale) := h1.1.sub (integrable_const _)
  refine ⟨((h3.sub h2.1).div_const 2).congr hc.symm, ?_⟩
  unfold expectedLogPdf
  rw [integral_congr_ae hc, integral_div, integral_sub h3 h2.1, integral_sub h1.1 (integrable_const _), integral_const, h1.2, h2.2]
  simp

theorem quad_eq (P : Fin m → Fin m → ℝ) (x mu : Fin m → ℝ) : quad P x mu = mahalanobis x mu P := by
  unfold quad mahalanobis
  refine Finset.sum_congr rfl fun i _ => ?_
  rw [Finset.mul_sum]
  exact Finset.sum_congr rfl fun j _ => by ring

/-- **The code** is off by half of `log ‖P‖ - log det P`. -/
theorem C109_gap (hm : 0 < m) {a : VAtom ℝ m} (ha : ProperAtom a) {L : Matrix (Fin m) (Fin m) ℝ} (hL : FactorOf L a) (x : Fin m → ℝ) :
    atomScore realFun x (some a) = fin (expectedLogPdf a L x + (log (frob realFun a.prec) - log (Matrix.of a.prec).det) / 2) := by
  rw [(C109_value ha hL x).2]
  unfold atomScore
  simp only []
  rw [C69_wishart_gap hm ha.prec.det_pos a.scale, quad_eq]
  show fin _ = fin _
  congr 1
  show 1 / 2 * _ + (-((m : ℝ) * log (2 * π) / 2) - (m : ℝ) / a.lam / 2 - _) = _
  ring

theorem C109_iff (hm : 0 < m) {a : VAtom ℝ m} (ha : ProperAtom a) {L : Matrix (Fin m) (Fin m) ℝ} (hL : FactorOf L a) (x : Fin m → ℝ) :
    atomScore realFun x (some a) = fin (expectedLogPdf a L x) ↔ frob realFun a.prec = (Matrix.of a.prec).det := by
  rw [C109_gap hm ha hL x, Fl.fin.injEq, add_eq_left, div_eq_zero_iff, or_iff_left (by norm_num), sub_eq_zero]
  exact Real.log_injOn_pos.eq_iff (frob_real_pos hm ha.prec.det_pos) ha.prec.det_pos

theorem frob_one {P : Fin 1 → Fin 1 → ℝ} (hP : 0 < P 0 0) : frob realFun P = (Matrix.of P).det := by
  have h1 : (Matrix.of P).det = P 0 0 := Matrix.det_fin_one _
  rw [h1]
  unfold frob
  show √(∑ i, ∑ j, P i j * P i j) = _
  rw [Fin.sum_univ_one, Fin.sum_univ_one, Real.sqrt_mul_self hP.le]

/-- **One coordinate**: the code is right.  What is missing: more coordinates. -/
theorem C109_one_partial {a : VAtom ℝ 1} (ha : ProperAtom a) {L : Matrix (Fin 1) (Fin 1) ℝ} (hL : FactorOf L a) (x : Fin 1 → ℝ) :
    atomScore realFun x (some a) = fin (expectedLogPdf a L x) :=
  (C109_iff one_pos ha hL x).2 (frob_one (by simpa using ha.prec.diag_pos (i := 0)))

/-- **From two coordinates on** it is wrong for the identity matrix, whatever the other parameters and the point. -/
theorem C109_refuted (hm : 2 ≤ m) (mu x : Fin m → ℝ) {lam scale : ℝ} (hl : 0 < lam) (hs : (m : ℝ) - 1 < scale) :
    let a : VAtom ℝ m := { mu := mu, lam := lam, prec := (1 : Matrix (Fin m) (Fin m) ℝ), scale := scale }
    ProperAtom a ∧ FactorOf 1 a ∧ atomScore realFun x (some a) ≠ fin (expectedLogPdf a 1 x) := by
  intro a
  have hp : ProperAtom a := ⟨hl, hs, Matrix.PosDef.one⟩
  have hf : FactorOf 1 a := by
    show (1 : Matrix (Fin m) (Fin m) ℝ) = _
    rw [transpose_one, mul_one]
  refine ⟨hp, hf, fun h => ?_⟩
  have h2 := (C109_iff (by omega) hp hf x).1 h
  have h3 : (Matrix.of a.prec).det = 1 := det_one
  have h4 : frob realFun a.prec = √m := by
    unfold frob
    show √(∑ i, ∑ j, (1 : Matrix (Fin m) (Fin m) ℝ) i j * (1 : Matrix (Fin m) (Fin m) ℝ) i j) = _
    congr 1
    have : ∀ i : Fin m, ∑ j, (1 : Matrix (Fin m) (Fin m) ℝ) i j * (1 : Matrix (Fin m) (Fin m) ℝ) i j = 1 := by
      intro i
      simp [Matrix.one_apply]
    simp [this]
  rw [h3, h4, Real.sqrt_eq_one] at h2
  have : (2 : ℝ) ≤ m := by exact_mod_cast hm
  linarith

/-! ### The hypotheses hold after every update -/

/-- A proper prior. -/
structure ProperPrior (p : NIW ℝ m) : Prop where
  lam : 0 < p.lam
  nu : (m : ℝ) - 1 < p.nu
  psi : (Matrix.of p.psi).PosDef

theorem zip_outer_posSemidef (c : Fin m → ℝ) : ∀ (r : List ℝ) (ys : List (Fin m → ℝ)), (∀ v ∈ r, 0 ≤ v) →
    (Matrix.of fun i j => (List.zipWith (fun v y => v * (y i - c i) * (y j - c j)) r ys).sum : Matrix (Fin m) (Fin m) ℝ).PosSemidef
  | [], ys, _ => (Matrix.PosSemidef.zero (n := Fin m) (R := ℝ))
  | _ :: _, [], _ => (Matrix.PosSemidef.zero (n := Fin m) (R := ℝ))
  | v :: r, y :: ys, h => by
    have h1 := zip_outer_posSemidef c r ys (fun x hx => h x (List.mem_cons_of_mem _ hx))
    have h2 := (posSemidef_vecMulVec_self_star (R := ℝ) (fun i => y i - c i)).smul (h v (List.mem_cons_self ..))
    convert h2.add h1 using 1
    ext i j
    simp only [of_apply, List.zipWith_cons_cons, List.sum_cons, Matrix.add_apply, Matrix.smul_apply, vecMulVec_apply, star_trivial, smul_eq_mul]
    ring

theorem varPsi_posDef {ys : List (Fin m → ℝ)} {p : NIW ℝ m} (hp : ProperPrior p) {r : List ℝ} (h0 : ∀ v ∈ r, 0 ≤ v) (h1 : 0 < r.sum) :
    (Matrix.of (varPsi ys p r)).PosDef := by
  have hc : (Matrix.of (wCov ys r) : Matrix (Fin m) (Fin m) ℝ).PosSemidef := by
    have := (zip_outer_posSemidef (wMean ys r) r ys h0).smul (inv_nonneg.2 h1.le)
    convert this using 1
    ext i j
    simp only [of_apply, Matrix.smul_apply, smul_eq_mul, wCov]
    rw [div_eq_inv_mul]
  have hs : 0 ≤ p.lam * r.sum / (p.lam + r.sum) * ∑ k, (wMean ys r k - p.mu k) * (wMean ys r k - p.mu k) :=
    mul_nonneg (div_nonneg (mul_nonneg hp.lam.le h1.le) (add_nonneg hp.lam.le h1.le)) (Finset.sum_nonneg fun k _ => mul_self_nonneg _)
  have ho := (posSemidef_vecMulVec_self_star (R := ℝ) (fun _ : Fin m => (1 : ℝ))).smul hs
  convert (hp.psi.add_posSemidef hc).add_posSemidef ho using 1
  ext i j
  simp only [of_apply, Matrix.add_apply, Matrix.smul_apply, vecMulVec_apply, star_trivial, smul_eq_mul, mul_one]
  rfl

/-- **An update with positive responsibilities does not raise and gives proper parameters.** -/
theorem C109_atoms {ys : List (Fin m → ℝ)} {p : NIW ℝ m} (hp : ProperPrior p) {r : List ℝ} (h0 : ∀ v ∈ r, 0 ≤ v) (h1 : 0 < r.sum) :
    ∃ a, varAtom ys p (r.map fin) = .ok (some a) ∧ ProperAtom a := by
  have hpd := varPsi_posDef (ys := ys) hp h0 h1
  unfold varAtom
  rw [Fl.numbers_fin]
  simp only [if_neg h1.ne']
  unfold matInv
  rw [if_neg hpd.det_pos.ne']
  refine ⟨_, rfl, add_pos hp.lam h1, by have := hp.nu; show _ < p.nu + r.sum; linarith, ?_⟩
  have hi : ((Matrix.of (varPsi ys p r))⁻¹ : Matrix (Fin m) (Fin m) ℝ).PosDef := hpd.inv
  have e : (Matrix.of fun i j => (Matrix.of (varPsi ys p r)).adjugate i j / (Matrix.of (varPsi ys p r)).det : Matrix (Fin m) (Fin m) ℝ) =
      (Matrix.of (varPsi ys p r))⁻¹ := by
    rw [inv_def]
    ext i j
    simp only [of_apply, Matrix.smul_apply, smul_eq_mul, Ring.inverse_eq_inv']
    rw [div_eq_inv_mul]
  show (Matrix.of fun i j => (Matrix.of (varPsi ys p r)).adjugate i j / (Matrix.of (varPsi ys p r)).det : Matrix (Fin m) (Fin m) ℝ).PosDef
  rw [e]
  exact hi

theorem varAtoms_proper {ys : List (Fin m → ℝ)} {p : NIW ℝ m} (hp : ProperPrior p) : ∀ {q : List (List ℝ)}, (∀ r ∈ q, (∀ v ∈ r, 0 ≤ v) ∧ 0 < r.sum) →
    ∃ as : List (VAtom ℝ m), varAtoms ys p (q.map (fun r => r.map fin)) = .ok (as.map some) ∧ as.length = q.length ∧ ∀ a ∈ as, ProperAtom a
  | [], _ => ⟨[], rfl, rfl, fun a ha => by cases ha⟩
  | r :: q, h => by
    obtain ⟨a, ha, hpa⟩ := C109_atoms (ys := ys) hp (h r (List.mem_cons_self ..)).1 (h r (List.mem_cons_self ..)).2
    obtain ⟨as, has, hl, hpas⟩ := varAtoms_proper (ys := ys) hp (q := q) (fun r hr => h r (List.mem_cons_of_mem _ hr))
    refine ⟨a :: as, ?_, by simp [hl], ?_⟩
    · rw [List.map_cons, varAtoms, ha]
      simp only [has]
      rfl
    · intro b hb
      rcases List.mem_cons.1 hb with rfl | hb
      · exact hpa
      · exact hpas b hb

variable {C : WeightClass ℝ} {V : VarClass C} {Atom : Type} {ω : Oracle ℝ} {W : World ℝ m Atom} {I : C.State → Prop}

/-- **The update of the groups never raises and leaves proper parameters**, for columns of probabilities and at least one observation. -/
theorem C109_update {k : ℕ} {s : VM V m Atom × ℕ} (hK : s.1.varK = some (k : ℤ)) (hy : s.1.gm.y ≠ []) (hd : Probs k s.1) (hp : ProperPrior (GM.prior s.1.gm)) :
    wp ω updateVarTheta (fun _ t => (∃ as : List (VAtom ℝ m), t.1.varTheta = as.map some ∧ as.length = k ∧ ∀ a ∈ as, ProperAtom a) ∧ t.1.gm = s.1.gm)
      (fun _ _ => False) s := by
  obtain ⟨q, hq, hl, hpos⟩ := rows_of_columns hK hd.2
  obtain ⟨as, has, hla, hpa⟩ := varAtoms_proper (ys := s.1.gm.y) hp (q := q) (fun r hr => ⟨fun v hv => ((hpos r hr).2 v hv).le, sum_pos_of_pos (by
    intro h0
    have := (hpos r hr).1
    rw [h0, hd.1] at this
    exact hy (List.length_eq_zero_iff.1 this.symm)) (hpos r hr).2⟩)
  unfold updateVarTheta
  simp only [wp_bind, wp_self, wp_lift, wp_assign]
  rw [hq, has]
  refine ⟨?_, fun e he => by cases he⟩
  rintro as' h
  cases h
  exact ⟨⟨as, rfl, hla.trans hl, hpa⟩, by trivial⟩

theorem maximize_prior {F : MathFun ℝ} {s : VM V m Atom × ℕ} : wp ω (maximize F W) (fun _ t => GM.prior t.1.gm = GM.prior s.1.gm) (fun _ _ => True) s := by
  have h : KeepsR ω (fun t : VM V m Atom => GM.prior t.gm = GM.prior s.1.gm) (maximize F W) (fun _ => True) := by
    unfold maximize
    refine KeepsR.bind (R := fun _ => True) ?_ (fun _ _ => KeepsR.bind (R := fun _ => True) ?_ (fun _ _ => ?_))
    · unfold updateVarD
      refine KeepsR.bind KeepsR.self (fun t ht => ?_)
      cases t.varK with
      | none => exact KeepsR.raise _
      | some k =>
        simp only []
        exact KeepsR.ite (fun _ => KeepsR.raise _) (fun _ => KeepsR.bind (KeepsR.lift _) (fun _ _ =>
          KeepsR.ite (fun _ => KeepsR.raise _) (fun _ => KeepsR.assign (fun _ h => h))))
    · unfold updateVarW fitWeights
      exact KeepsR.bind KeepsR.self (fun _ _ => KeepsR.bind KeepsR.self (fun _ _ => KeepsR.bind (KeepsR.lift _) (fun _ _ => KeepsR.assign (fun _ h => h))))
    · unfold updateVarTheta
      exact KeepsR.bind KeepsR.self (fun _ _ => KeepsR.bind (KeepsR.lift _) (fun _ _ => KeepsR.assign (fun _ h => h)))
  exact wp_mono (h.wp rfl) (fun _ _ h => h.1) (fun _ _ _ => trivial)

theorem updateVarW_prior {s : VM V m Atom × ℕ} : wp ω updateVarW (fun _ t => GM.prior t.1.gm = GM.prior s.1.gm ∧ t.1.gm.totalIter = s.1.gm.totalIter) (fun _ _ => True) s := by
  unfold updateVarW fitWeights
  simp only [wp_bind, wp_self, wp_lift, wp_assign]
  exact ⟨fun _ _ => by trivial, fun _ _ => trivial⟩

/-- All groups have proper parameters. -/
def Proper (s : VM V m Atom) : Prop := ∀ a ∈ s.varTheta, ∃ b : VAtom ℝ m, a = some b ∧ ProperAtom b

/-- **One iteration** leaves proper parameters. -/
theorem C109_step {F : MathFun ℝ} (hF : Sane F) (he : 0 < W.eps) (hV : Regular V I) {k : ℕ} {s : VM V m Atom × ℕ} (h : Ready I k s.1) (hy : s.1.gm.y ≠ [])
    (hp : ProperPrior (GM.prior s.1.gm)) : wp ω (maximize F W) (fun _ t => Proper t.1) (fun _ _ => True) s := by
  unfold maximize
  rw [wp_bind]
  refine wp_mono (updateVarD_ready hF he h) ?_ (fun _ _ _ => trivial)
  rintro _ t ⟨hr, hd, hg⟩
  rw [wp_bind]
  refine wp_mono (wp_and updateVarW_prior (updateVarW_ready hV h.pos hr.varK hr.inv.1 hd)) ?_ (fun _ _ _ => trivial)
  rintro _ t2 ⟨⟨hpr2, _⟩, hw, hk, ht, hdd, hy2⟩
  have hd2 : Probs k t2.1 := by
    unfold Probs at hd ⊢
    rw [hdd, hy2]; exact hd
  have hyy : t2.1.gm.y ≠ [] := by rw [hy2, hg]; exact hy
  have hp2 : ProperPrior (GM.prior t2.1.gm) := by rw [hpr2, hg]; exact hp
  refine wp_mono (C109_update (hk.trans hr.varK) hyy hd2 hp2) ?_ (fun _ _ _ => trivial)
  rintro _ t3 ⟨⟨as, h1, _, h2⟩, _⟩ a ha
  rw [h1] at ha
  obtain ⟨b, hb, rfl⟩ := List.mem_map.1 ha
  exact ⟨b, rfl, h2 b hb⟩

theorem Iter.proper {F : MathFun ℝ} (hF : Sane F) (he : 0 < W.eps) (hV : Regular V I) (hm : 0 < m) {k : ℕ} {s u : VM V m Atom × ℕ} {es : List (Fl ℝ)}
    (h : Iter F W ω s es u) (hr : Ready I k s.1) (hy : s.1.gm.y ≠ []) (hp : ProperPrior (GM.prior s.1.gm)) : es ≠ [] ∨ Proper s.1 → Proper u.1 := by
  induction h with
  | nil s => exact fun h => h.resolve_left (fun h => h rfl)
  | cons hmax hel rest ih =>
    obtain ⟨h1, h2, h3⟩ := wp_of_ok hmax (maximize_ready (ω := ω) hF he hV hm hr hy)
    have h4 := wp_of_ok hmax (C109_step (ω := ω) hF he hV hr hy hp)
    have h5 := wp_of_ok hmax (maximize_prior (ω := ω) (W := W) (F := F))
    exact fun _ => ih h1 (by rw [h3]; exact hy) (by rw [h5]; exact hp) (.inr h4)

theorem initVar_prior (F : VWorld ℝ m) (k : ℤ) {s : VM V m Atom × ℕ} :
    wp ω (initVar F W k .random) (fun _ t => GM.prior t.1.gm = GM.prior s.1.gm ∧ t.1.gm.totalIter = s.1.gm.totalIter) (fun _ _ => True) s := by
  have hd : ∀ (n : ℕ) (s : VM V m Atom × ℕ), wp ω (drawAtoms F n) (fun _ t => t.1.gm = s.1.gm) (fun _ _ => True) s := by
    intro n
    induction n with
    | zero => intro s; exact rfl
    | succ n ih =>
      intro s
      unfold drawAtoms
      rw [wp_bind, wp_self, wp_bind, wp_draw, wp_bind, wp_lift]
      refine ⟨fun P _ => ?_, fun _ _ => trivial⟩
      rw [wp_bind, wp_assign]
      exact wp_mono (ih _) (fun _ t h => h) (fun _ _ _ => trivial)
  unfold initVar
  rw [wp_bind, wp_assign, wp_bind]
  refine wp_mono (hd _ _) ?_ (fun _ _ _ => trivial)
  rintro _ t ht
  rw [wp_ite]
  refine ⟨fun _ => trivial, fun _ => ?_⟩
  rw [wp_ite]
  refine ⟨fun _ => trivial, fun _ => ?_⟩
  rw [wp_bind, wp_assign]
  refine wp_mono updateVarW_prior ?_ (fun _ _ _ => trivial)
  rintro _ u ⟨h1, h2⟩
  rw [h1, h2]
  show GM.prior t.1.gm = _ ∧ t.1.gm.totalIter = _
  rw [ht]
  exact ⟨rfl, rfl⟩

/-- **A whole fit** (random start, at least one iteration) leaves proper parameters in all groups, if the prior, with its defaults computed from the data, is proper. -/
theorem C109_fit {F : VWorld ℝ m} (hF : Sane F.toMathFun) (he : 0 < W.eps) (hV : Regular V I) (hm : 0 < m) {ys : List (Fin m → ℝ)} (hy : ys ≠ []) (nG : Option ℤ) (tol : ℝ)
    {s u : VM V m Atom × ℕ} (hI : I s.1.gm.wst.1) (hT : 0 < s.1.gm.totalIter) (hp : ProperPrior (GM.prior (begun ys s.1).gm))
    (h : fitVariational F W (.rows ys) nG false (.fin tol) .random ω s = (.ok (), u)) : Proper u.1 := by
  refine wp_of_ok h (fitVariational_wp (E := fun _ _ => True) (Q := fun u => Proper u.1)
    (fun t => (∃ k : ℕ, Ready I k t.1) ∧ t.1.gm.y = ys ∧ 0 < t.1.gm.totalIter ∧ ProperPrior (GM.prior t.1.gm)) (fun h => by cases h) ?_ (fun _ _ => trivial) ?_)
  · intro _ k hk
    refine wp_mono (wp_and (initVar_random hm hV F k (begun ys s.1, s.2) hI) (initVar_prior F k)) ?_ (fun _ _ h => trivial)
    rintro _ t ⟨⟨h1, h2, h3, h4⟩, h5, h6⟩
    exact ⟨⟨k.toNat, h2⟩, h4, by rw [h6]; exact hT, by rw [h5]; exact hp⟩
  · rintro t ⟨⟨k, h2⟩, h4, hT, hp⟩
    refine wp_mono (varLoop_spec (.fin tol) _ _ _ _ t (by omega)) ?_ (fun _ _ _ => trivial)
    rintro r u ⟨es, h3, h5, _, _, _, _, h6⟩
    have hne : es ≠ [] := by
      rintro rfl
      have := h6 (by simpa using hT)
      simp [changes, Fl.lt] at this
    have hu : Proper u.1 := Iter.proper hF he hV hm h3 h2 (by rw [h4]; exact hy) hp (.inl hne)
    exact hu

/-- Hence **for univariate data** all scores of all groups after a fit are the expectations.  What is missing: more coordinates (`C109_refuted`). -/
theorem C109_fit_partial {F : VWorld ℝ 1} (hF : Sane F.toMathFun) {W : World ℝ 1 Atom} (he : 0 < W.eps) (hV : Regular V I) {ys : List (Fin 1 → ℝ)} (hy : ys ≠ []) (nG : Option ℤ) (tol : ℝ)
    {s u : VM V 1 Atom × ℕ} (hI : I s.1.gm.wst.1) (hT : 0 < s.1.gm.totalIter) (hp : ProperPrior (GM.prior (begun ys s.1).gm))
    (h : fitVariational F W (.rows ys) nG false (.fin tol) .random ω s = (.ok (), u)) (x : Fin 1 → ℝ) :
    ∀ a ∈ u.1.varTheta, ∃ b L, a = some b ∧ FactorOf L b ∧ atomScore realFun x a = fin (expectedLogPdf b L x) := by
  intro a ha
  obtain ⟨b, rfl, hb⟩ := C109_fit hF he hV one_pos hy nG tol hI hT hp h a ha
  obtain ⟨L, hL⟩ := exists_factor hb.prec
  exact ⟨b, L, rfl, hL, C109_one_partial hb hL x⟩

/-- Concrete groups and priors. -/
example : ProperAtom ({ mu := ![1, 2], lam := 3, prec := !![2, 1; 1, 2], scale := 4 } : VAtom ℝ 2) where
  lam := by norm_num
  scale := by norm_num
  prec := by
    show (!![2, 1; 1, 2] : Matrix (Fin 2) (Fin 2) ℝ).PosDef
    refine PosDef.of_dotProduct_mulVec_pos (by ext i j; fin_cases i <;> fin_cases j <;> simp) (fun x hx => ?_)
    have h : star x ⬝ᵥ !![(2 : ℝ), 1; 1, 2] *ᵥ x = x 0 ^ 2 + x 1 ^ 2 + (x 0 + x 1) ^ 2 := by
      simp [dotProduct, mulVec, Fin.sum_univ_two]
      ring
    rw [h]
    by_contra h0
    apply hx
    have h1 := sq_nonneg (x 0)
    have h2 := sq_nonneg (x 1)
    have h3 := sq_nonneg (x 0 + x 1)
    have e1 : x 0 = 0 := by
      have : x 0 ^ 2 = 0 := by linarith
      simpa using this
    have e2 : x 1 = 0 := by
      have : x 1 ^ 2 = 0 := by linarith
      simpa using this
    ext i
    fin_cases i
    · exact e1
    · exact e2

example : ProperPrior (m := 3) { mu := ![1, 2, 3], lam := 1, psi := (1 : Matrix (Fin 3) (Fin 3) ℝ), nu := 3 } := ⟨one_pos, by norm_num, Matrix.PosDef.one⟩

/-- The defaults computed from two different univariate observations are a proper prior. -/
example {s : VM V 1 Atom} (hl : 0 < s.gm.lam) (h1 : s.gm.psiPrior = none) (h2 : s.gm.nuPrior = none) : ProperPrior (GM.prior (begun [![0], ![2]] s).gm) := by
  refine ⟨hl, ?_, ?_⟩
  · show ((1 : ℕ) : ℝ) - 1 < s.gm.nuPrior.getD _
    rw [h2]
    norm_num
  · show (Matrix.of (s.gm.psiPrior.getD (GM.cov [![0], ![2]]))).PosDef
    rw [h1]
    have : (Matrix.of (GM.cov [![(0 : ℝ)], ![2]]) : Matrix (Fin 1) (Fin 1) ℝ) = (2 : ℝ) • 1 := by
      ext i j
      fin_cases i
      fin_cases j
      simp [GM.cov, meanVec]
      norm_num
    show (Matrix.of (GM.cov [![(0 : ℝ)], ![2]]) : Matrix (Fin 1) (Fin 1) ℝ).PosDef
    rw [this]
    exact Matrix.PosDef.one.smul two_pos
end Verif.Mix.VM
