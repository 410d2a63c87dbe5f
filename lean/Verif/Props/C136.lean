import Verif.Lemmas.GibbsOrder
import Verif.Props.C133

/-!
# C136: the order of the observations does not matter for fit_gibbs

The data are the rows `y i`; in another order they are `y (σ i)`, and labels `d` become `d (σ i)`.  A run of the sampler is random, so the claim is about laws: started from labels that follow the
order of the rows, the whole sequence of saved label vectors has the same law, except that every vector has its entries in the other order (`C136_*`: `F` is any function of the sequence, for any number
of saved iterations, gap and burn-in).  The states may differ in everything else: stored weights, counters and position of the generator.  Affinities (`C136_affinity_*`) are a special case.
`C136_prior`: the parts of the prior that are taken from the data do not depend on the order either.
-/

set_option linter.unusedSectionVars false

namespace Verif.Mix
open MeasureTheory ProbabilityTheory Filter GM
open scoped ENNReal Topology

section
variable {m n : ℕ} {Atom : Type} [MeasurableSpace Atom] {C0 : WeightCore ℝ} {lp : (Fin m → ℝ) → Atom → WithBot ℝ} {f : StickParams} {getV : C0.State → List ℝ} {Inv : C0.State → Prop} {W : World ℝ m Atom}
  {A : AtomGen m Atom} {y : Fin n → Fin m → ℝ} {p : NIW ℝ m} {nz : ℝ → ℝ} (hlp : ∀ i, Measurable (obsDens lp (y i)))
variable (hnz : IsGumbel nz) (hW : W.logpdf = lp) (hcl : StickClass C0 f getV Inv) (heps : W.eps = 0) (hn : 2 ≤ n) (hex : f.Exhausts) (hcj : Conjugate A lp p) (G : RandGen)
include hlp hnz hW hcl heps hn hex hcj

theorem savedMean_cold {s : GM C0.inheritTail m Atom × ℕ} {d : Fin n → ℕ} (h : StickHolds y p Inv s.1 d) (hfresh : FreshAtoms s.1) (gap T burn : ℕ) (F : List (Fin n → ℕ) → ℝ≥0∞) :
    savedMean nz W A G gap (T + 1) (burn + 1) F s = ∫⁻ z, kSaved A lp p f y gap (T + 1) (burn + 1) F d z ∂(condLaw A p f y d) := by
  rw [savedMean_kernel hlp hnz hW hcl heps hn hex hcj G gap (T + 1) (burn + 1) _ h]
  unfold kSaved
  simp only [Function.iterate_succ_apply']
  rw [heldMean_fresh hlp (fun δ => measurable_iterate hlp (fun δ => measurable_kSaved hlp gap T gap _ δ) burn δ) h fun j hj => hfresh j (by rw [h.2.1]; exact hj)]
  exact (measurableEmbedding_prodMk_left d).lintegral_map _

/-- **The order of the rows**: stick-breaking mixtures. -/
theorem C136_sticks (σ : Equiv.Perm (Fin n)) {s s' : GM C0.inheritTail m Atom × ℕ} {d : Fin n → ℕ} (h : StickHolds y p Inv s.1 d) (hfresh : FreshAtoms s.1)
    (h' : StickHolds (y ∘ σ) p Inv s'.1 (d ∘ σ)) (hfresh' : FreshAtoms s'.1) (gap T burn : ℕ) (F : List (Fin n → ℕ) → ℝ≥0∞) :
    savedMean nz W A G gap T (burn + 1) F s' = savedMean nz W A G gap T (burn + 1) (fun l => F (l.map (· ∘ σ))) s := by
  cases T with
  | zero => rfl
  | succ T =>
    rw [savedMean_cold hlp hnz hW hcl heps hn hex hcj G h hfresh, savedMean_cold (y := y ∘ σ) (fun i => hlp (σ i)) hnz hW hcl heps hn hex hcj G h' hfresh', condLaw_perm]
    exact lintegral_congr fun z => kSaved_perm A lp p f y σ gap (T + 1) (burn + 1) F d z

end

namespace FinMix
variable {N m n : ℕ} [NeZero N] {Atom : Type} [MeasurableSpace Atom] {C0 : WeightCore ℝ} {lp : (Fin m → ℝ) → Atom → WithBot ℝ} {f : FinPrior N} {drawW : List ℕ → Oracle ℝ → ℕ → Fin N → ℝ}
  {Inv : C0.State → Prop} {W : World ℝ m Atom} {A : AtomGen m Atom} {y : Fin n → Fin m → ℝ} {p : NIW ℝ m} {nz : ℝ → ℝ} (hlp : ∀ i, Measurable (obsDens lp (y i)))
variable (hnz : IsGumbel nz) (hW : W.logpdf = lp) (hcl : FinClass C0 f drawW Inv) (heps : W.eps = 0) (hn : 2 ≤ n) (hcj : Conjugate A lp p) (G : RandGen)
include hlp hnz hW hcl heps hn hcj

theorem savedMean_cold {s : GM C0.inheritTail m Atom × ℕ} {d : Fin n → Fin N} (h : FinHolds y p Inv s.1 d) (hfresh : FreshAtoms s.1) (gap T burn : ℕ) (F : List (Fin n → Fin N) → ℝ≥0∞) :
    savedMean nz W A G gap (T + 1) (burn + 1) F s = ∫⁻ z, kSaved A lp p f y gap (T + 1) (burn + 1) F d z ∂(condLaw A p f y d) := by
  rw [savedMean_kernel hlp hnz hW hcl heps hn hcj G gap (T + 1) (burn + 1) _ h]
  unfold kSaved
  simp only [Function.iterate_succ_apply']
  rw [heldMean_fresh hlp (fun δ => measurable_iterate hlp (fun δ => measurable_kSaved hlp gap T gap _ δ) burn δ) h fun j hj => hfresh j (by rw [h.2.1]; exact fun h' => hj ((mem_nat_iff d j).1 h'))]
  exact (measurableEmbedding_prodMk_left d).lintegral_map _

/-- **The order of the rows**: mixtures with finitely many components. -/
theorem C136_finite (σ : Equiv.Perm (Fin n)) {s s' : GM C0.inheritTail m Atom × ℕ} {d : Fin n → Fin N} (h : FinHolds y p Inv s.1 d) (hfresh : FreshAtoms s.1)
    (h' : FinHolds (y ∘ σ) p Inv s'.1 (d ∘ σ)) (hfresh' : FreshAtoms s'.1) (gap T burn : ℕ) (F : List (Fin n → Fin N) → ℝ≥0∞) :
    savedMean nz W A G gap T (burn + 1) F s' = savedMean nz W A G gap T (burn + 1) (fun l => F (l.map (· ∘ σ))) s := by
  cases T with
  | zero => rfl
  | succ T =>
    rw [savedMean_cold hlp hnz hW hcl heps hn hcj G h hfresh, savedMean_cold (y := y ∘ σ) (fun i => hlp (σ i)) hnz hW hcl heps hn hcj G h' hfresh', condLaw_perm]
    exact lintegral_congr fun z => kSaved_perm A lp p f y σ gap (T + 1) (burn + 1) F d z

end FinMix

/-! ### The classes, with normal observations in any number of columns -/

section
variable {N m n : ℕ} [NeZero N] {nz : ℝ → ℝ} (hnz : IsGumbel nz) {W : World ℝ m (MeanCov m)} (heps : W.eps = 0) (hW : W.logpdf = normalLog) {p : NIW ℝ m} (hp : Admissible p) (hn : 2 ≤ n) (G : RandGen)
  {y : Fin n → Fin m → ℝ} (σ : Equiv.Perm (Fin n)) (gap T burn : ℕ)
include hnz heps hW hp hn

/-- Dirichlet process mixtures. -/
theorem C136_dirichletProcess {alpha : ℝ} (ha : 0 < alpha) {s s' : GM (DP.cls : WeightClass ℝ) m (MeanCov m) × ℕ} {d : Fin n → ℕ} (h : StickHolds (C0 := DP.core) y p (fun s => s.alpha = alpha) s.1 d)
    (hfresh : FreshAtoms s.1) (h' : StickHolds (C0 := DP.core) (y ∘ σ) p (fun s => s.alpha = alpha) s'.1 (d ∘ σ)) (hfresh' : FreshAtoms s'.1) (F : List (Fin n → ℕ) → ℝ≥0∞) :
    savedMean (C0 := DP.core) nz W (AtomGen.ofLaw niwAtoms) G gap T (burn + 1) F s' = savedMean (C0 := DP.core) nz W (AtomGen.ofLaw niwAtoms) G gap T (burn + 1) (fun l => F (l.map (· ∘ σ))) s :=
  C136_sticks (C0 := DP.core) (measurable_obs y) hnz hW (dp_stickClass ha) heps hn (dpSticks_exhausts ha) (niw_conjugate hp) G σ h hfresh h' hfresh' gap T burn F

/-- Pitman-Yor process mixtures. -/
theorem C136_pitmanYor {pyd alpha : ℝ} (h0 : 0 ≤ pyd) (h1 : pyd < 1) (ha : 0 < alpha) {s s' : GM (PY.cls : WeightClass ℝ) m (MeanCov m) × ℕ} {d : Fin n → ℕ}
    (h : StickHolds (C0 := PY.core) y p (fun s => s.pyd = pyd ∧ s.alpha = alpha) s.1 d) (hfresh : FreshAtoms s.1)
    (h' : StickHolds (C0 := PY.core) (y ∘ σ) p (fun s => s.pyd = pyd ∧ s.alpha = alpha) s'.1 (d ∘ σ)) (hfresh' : FreshAtoms s'.1) (F : List (Fin n → ℕ) → ℝ≥0∞) :
    savedMean (C0 := PY.core) nz W (AtomGen.ofLaw niwAtoms) G gap T (burn + 1) F s' = savedMean (C0 := PY.core) nz W (AtomGen.ofLaw niwAtoms) G gap T (burn + 1) (fun l => F (l.map (· ∘ σ))) s :=
  C136_sticks (C0 := PY.core) (measurable_obs y) hnz hW (py_stickClass h0 h1 ha) heps hn (pySticks_exhausts h0 h1 ha) (niw_conjugate hp) G σ h hfresh h' hfresh' gap T burn F

/-- Mixtures with Dirichlet weights. -/
theorem C136_dirichletDistribution {alpha : List ℝ} (hN : alpha.length = N) (ha : ∀ x ∈ alpha, 0 < x) {s s' : GM (DirDist.cls : WeightClass ℝ) m (MeanCov m) × ℕ} {d : Fin n → Fin N}
    (h : FinMix.FinHolds (C0 := DirDist.core) y p (fun s => s.alpha = alpha) s.1 d) (hfresh : FreshAtoms s.1)
    (h' : FinMix.FinHolds (C0 := DirDist.core) (y ∘ σ) p (fun s => s.alpha = alpha) s'.1 (d ∘ σ)) (hfresh' : FreshAtoms s'.1) (F : List (Fin n → Fin N) → ℝ≥0∞) :
    FinMix.savedMean (C0 := DirDist.core) nz W (AtomGen.ofLaw niwAtoms) G gap T (burn + 1) F s' =
      FinMix.savedMean (C0 := DirDist.core) nz W (AtomGen.ofLaw niwAtoms) G gap T (burn + 1) (fun l => F (l.map (· ∘ σ))) s :=
  FinMix.C136_finite (C0 := DirDist.core) (measurable_obs y) hnz hW (FinMix.dir_class hN ha) heps hn (niw_conjugate hp) G σ h hfresh h' hfresh' gap T burn F

/-- Mixtures with equal weights. -/
theorem C136_equal {s s' : GM (Equal.cls : WeightClass ℝ) m (MeanCov m) × ℕ} {d : Fin n → Fin N} (h : FinMix.FinHolds (C0 := Equal.core) y p (fun s => s.n = (N : ℤ)) s.1 d) (hfresh : FreshAtoms s.1)
    (h' : FinMix.FinHolds (C0 := Equal.core) (y ∘ σ) p (fun s => s.n = (N : ℤ)) s'.1 (d ∘ σ)) (hfresh' : FreshAtoms s'.1) (F : List (Fin n → Fin N) → ℝ≥0∞) :
    FinMix.savedMean (C0 := Equal.core) nz W (AtomGen.ofLaw niwAtoms) G gap T (burn + 1) F s' =
      FinMix.savedMean (C0 := Equal.core) nz W (AtomGen.ofLaw niwAtoms) G gap T (burn + 1) (fun l => F (l.map (· ∘ σ))) s :=
  FinMix.C136_finite (C0 := Equal.core) (measurable_obs y) hnz hW (FinMix.equal_class N) heps hn (niw_conjugate hp) G σ h hfresh h' hfresh' gap T burn F

/-- **Affinities**: the law of the affinity of rows `i` and `i'` of the reordered data is the law of the affinity of the same two rows in the original data. -/
theorem C136_affinity_dirichletProcess {alpha : ℝ} (ha : 0 < alpha) {s s' : GM (DP.cls : WeightClass ℝ) m (MeanCov m) × ℕ} {d : Fin n → ℕ}
    (h : StickHolds (C0 := DP.core) y p (fun s => s.alpha = alpha) s.1 d) (hfresh : FreshAtoms s.1) (h' : StickHolds (C0 := DP.core) (y ∘ σ) p (fun s => s.alpha = alpha) s'.1 (d ∘ σ))
    (hfresh' : FreshAtoms s'.1) (i i' : Fin n) (B : ℝ → ℝ≥0∞) :
    savedMean (C0 := DP.core) nz W (AtomGen.ofLaw niwAtoms) G gap T (burn + 1) (fun l : List (Fin n → ℕ) => B ((l.countP (fun δ => δ i = δ i') : ℝ) / T)) s' =
      savedMean (C0 := DP.core) nz W (AtomGen.ofLaw niwAtoms) G gap T (burn + 1) (fun l : List (Fin n → ℕ) => B ((l.countP (fun δ => δ (σ i) = δ (σ i')) : ℝ) / T)) s := by
  rw [C136_dirichletProcess hnz heps hW hp hn G σ gap T burn ha h hfresh h' hfresh']
  simp only [List.countP_map]
  rfl

end

/-! ### The prior -/

theorem cov_perm {m : ℕ} {ys ys' : List (Fin m → ℝ)} (h : ys.Perm ys') : GM.cov ys = GM.cov ys' := by
  have hS : ∀ i, meanVec ys i = meanVec ys' i := fun i => by unfold meanVec; rw [(h.map _).sum_eq, h.length_eq]
  funext i j
  unfold GM.cov
  rw [hS, hS, (h.map _).sum_eq, h.length_eq]

/-- **The prior**: what is taken from the data does not depend on the order of the rows. -/
theorem C136_prior {m : ℕ} {C : WeightClass ℝ} {Atom : Type} {ω : Oracle ℝ} {ys ys' : List (Fin m → ℝ)} (hperm : ys.Perm ys') {s t t' : GM C m Atom × ℕ} (h : GM.initCommon (.rows ys) ω s = (.ok (), t))
    (h' : GM.initCommon (.rows ys') ω s = (.ok (), t')) : GM.prior t.1 = GM.prior t'.1 := by
  have hS : meanVec ys = meanVec ys' := funext fun i => by unfold meanVec; rw [(hperm.map _).sum_eq, hperm.length_eq]
  cases h
  cases h'
  unfold GM.prior
  simp only [hS, cov_perm hperm]

/-! ### The hypotheses are met -/

/-- Three rows in the plane, and the same rows in reverse order. -/
example {nz : ℝ → ℝ} (hnz : IsGumbel nz) {W : World ℝ 2 (MeanCov 2)} (heps : W.eps = 0) (hW : W.logpdf = normalLog) (G : RandGen) (y : Fin 3 → Fin 2 → ℝ) (B : ℝ → ℝ≥0∞) :
    savedMean (C0 := DP.core) nz W (AtomGen.ofLaw niwAtoms) G 2 100 11 (fun l : List (Fin 3 → ℕ) => B ((l.countP (fun δ => δ 0 = δ 1) : ℝ) / (100 : ℕ))) (dpPlane (y ∘ Fin.revPerm) 2 ((fun i : Fin 3 => (i : ℕ)) ∘ Fin.revPerm)) =
      savedMean (C0 := DP.core) nz W (AtomGen.ofLaw niwAtoms) G 2 100 11 (fun l : List (Fin 3 → ℕ) => B ((l.countP (fun δ => δ 2 = δ 1) : ℝ) / (100 : ℕ))) (dpPlane y 2 fun i => i) :=
  C136_affinity_dirichletProcess hnz heps hW admissible_plane (by norm_num) G Fin.revPerm 2 100 10 two_pos (s' := dpPlane (y ∘ Fin.revPerm) 2 ((fun i : Fin 3 => (i : ℕ)) ∘ Fin.revPerm)) (s := dpPlane y 2 fun i => i) (d := fun i => (i : ℕ))
    ⟨rfl, rfl, rfl, rfl, rfl⟩ (fun _ _ => rfl) ⟨rfl, rfl, rfl, rfl, rfl⟩ (fun _ _ => rfl) 0 1 B

end Verif.Mix
