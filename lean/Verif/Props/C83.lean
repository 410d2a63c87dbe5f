import Verif.Lemmas.ChainLaw
import Verif.Lemmas.Sim
import Verif.Lemmas.PYSpec
import Verif.Props.C10
import Verif.Props.C11
import Verif.Props.C79

/-!
# C83: after `fit`, `random` draws from the posterior law of the weights

`RandGen` is a generator whose answers are independent and have the documented laws.  For the models with independent sticks, for `GeometricProcess` and for
`DirichletDistribution`: for every history of calls, the law of the weights drawn by `random` on an object that holds labels is the posterior, by Bayes' rule, of
the law of the weights drawn by an object of the same class and parameters that holds none, given labels drawn independently with these weights.
The two laws are over fresh draws; the two histories may have used any other outcomes of the generator.

For `BetaBinomial` this holds with `n = 0`, and fails with every `n ≥ 1`: see `C83_betaBinomial_refuted`.
-/

set_option linter.unusedSectionVars false

namespace Verif
open MeasureTheory ProbabilityTheory Spec
open scoped ENNReal

/-- The first `N` of `N'` weights. -/
def firstWeights {N N' : ℕ} (h : N ≤ N') (w : Fin N' → ℝ) : Fin N → ℝ := fun j => w (Fin.castLE h j)

theorem firstWeights_self {N : ℕ} (h : N ≤ N) (μ : Measure (Fin N → ℝ)) : μ.map (firstWeights h) = μ := by
  have : firstWeights h = id := by funext w j; rfl
  rw [this, Measure.map_id]

variable (G : RandGen) (log log' : ℝ → ℝ) (ω ω' : Oracle ℝ) (pos pos' : ℕ) (ops ops' : List (WOp ℝ))

theorem posterior_firstSticks {N N' : ℕ} (h : N ≤ N') {f : ℕ → ℝ × ℝ} (hf : ∀ j, 0 < (f j).1 ∧ 0 < (f j).2) {d : List ℤ} (hd : LabelsBelow d N') :
    (posterior ((betaSticks (fun j : Fin N' => f j)).map breakStick) (labelLik d)).map (firstWeights h) =
      (betaSticks (fun j : Fin N => ((f j).1 + nEq d j, (f j).2 + nGt d j))).map breakStick := by
  rw [posterior_sticks (fun j : Fin N' => hf j) hd]
  exact RandGen.stickLaw_restrict h fun j =>
    ⟨add_pos_of_pos_of_nonneg (hf j).1 (Nat.cast_nonneg _), add_pos_of_pos_of_nonneg (hf j).2 (Nat.cast_nonneg _)⟩

theorem inj_add (p : ℕ) : Function.Injective (fun j : ℕ => p + j) := fun i j h => by simpa using h

section dirichletProcess
variable {alpha : ℝ} (ha : 0 < alpha)
include ha

theorem DP.law {s : DP ℝ × ℕ} (hal : s.1.alpha = alpha) (hd : NonNegLabels s.1.d) {size : PySize} {N : ℕ} (hN : EffSize s.1.d size N) :
    G.lawOf (DP.random size) s N = (betaSticks (fun j : Fin N => (1 + (nEq s.1.d j : ℝ), alpha + (nGt s.1.d j : ℝ)))).map breakStick := by
  refine G.lawOf_sticks (inj_add s.2) (f := fun j => (1 + (nEq s.1.d j : ℝ), alpha + (nGt s.1.d j : ℝ))) (fun j _ => ⟨by positivity, by positivity⟩)
    (fun t => t.v) fun u => ?_
  refine ⟨_, _, DP.random_spec (G.oracle u) s.1 s.2 size N (by rw [hal]; exact ha) hd hN, stickWeights_isStick _, ?_⟩
  rw [hal]
  exact (sticksDrawn_betaValues (G.oracle u) s.2 N _).draw

/-- `DirichletProcess`: the first `N` weights drawn, for labels below `N' ≥ N`. -/
theorem C83_dirichletProcess {s s' : DP ℝ × ℕ} (hs : DP.cls.run log ω (DP.init alpha, pos) ops = s) (hs' : DP.cls.run log' ω' (DP.init alpha, pos') ops' = s')
    (hd' : s'.1.d = []) {size : PySize} {N N' : ℕ} (hN : EffSize s.1.d size N) (hN' : 1 ≤ N') (h : N ≤ N') (hd : LabelsBelow s.1.d N') :
    G.lawOf (DP.random size) s N = (posterior (G.lawOf (DP.random (.int N')) s' N') (labelLik s.1.d)).map (firstWeights h) := by
  have h1 : s.1.alpha = alpha := by rw [← hs]; exact DP.reach_alpha _ _ _ _
  have h2 : s'.1.alpha = alpha := by rw [← hs']; exact DP.reach_alpha _ _ _ _
  rw [DP.law G ha h1 (fun x hx => (hd x hx).1) hN, DP.law G ha h2 (by rw [hd']; exact nofun) (.inl ⟨rfl, hN'⟩), hd']
  have := posterior_firstSticks h (f := fun _ => (1, alpha)) (fun _ => ⟨one_pos, ha⟩) hd
  simp only [nEq, nGt, List.countP_nil, Nat.cast_zero, add_zero]
  exact this.symm

end dirichletProcess

section pitmanYor
variable {pyd alpha : ℝ} (h0 : 0 ≤ pyd) (h1 : pyd < 1) (ha : 0 < alpha)
include h0 h1 ha

theorem PY.law {s : PY ℝ × ℕ} (hp : s.1.pyd = pyd) (hal : s.1.alpha = alpha) (hd : NonNegLabels s.1.d) {size : PySize} {N : ℕ} (hN : PY.Req s.1.d size N) :
    G.lawOf (PY.random size) s N =
      (betaSticks (fun j : Fin N => (1 - pyd + (nEq s.1.d j : ℝ), alpha + (j : ℕ) * pyd + (nGt s.1.d j : ℝ)))).map breakStick := by
  refine G.lawOf_sticks (inj_add s.2) (f := fun j => (1 - pyd + (nEq s.1.d j : ℝ), alpha + (j : ℕ) * pyd + (nGt s.1.d j : ℝ)))
    (fun j _ => ⟨by have := sub_pos.2 h1; positivity, by positivity⟩) (fun t => t.v) fun u => ?_
  obtain ⟨r, t, hr, h3, h4, h5, h6⟩ := wp_total (PY.random_spec (ω := G.oracle u) s.1 s.2 (hp ▸ h0) (hp ▸ h1) (hal ▸ ha) hd hN)
  refine ⟨r, t, hr, h4 ▸ stickWeights_isStick _, ?_⟩
  rw [h5, show s.1.post = fun j => (1 - pyd + (nEq s.1.d j : ℝ), alpha + (j : ℕ) * pyd + (nGt s.1.d j : ℝ)) by funext j; rw [PY.post, hp, hal]]
  exact (sticksDrawn_betaValues (G.oracle u) s.2 N _).draw

/-- `PitmanYorProcess`. -/
theorem C83_pitmanYor {s0 : PY ℝ} (hi : PY.init pyd alpha = .ok s0) {s s' : PY ℝ × ℕ} (hs : PY.cls.run log ω (s0, pos) ops = s)
    (hs' : PY.cls.run log' ω' (s0, pos') ops' = s') (hd' : s'.1.d = []) {size : PySize} {N N' : ℕ} (hN : PY.Req s.1.d size N) (hN' : 1 ≤ N') (h : N ≤ N')
    (hd : LabelsBelow s.1.d N') :
    G.lawOf (PY.random size) s N = (posterior (G.lawOf (PY.random (.int N')) s' N') (labelLik s.1.d)).map (firstWeights h) := by
  have e1 := PY.reach_hyper (ω := ω) log pos ops hi
  have e2 := PY.reach_hyper (ω := ω') log' pos' ops' hi
  rw [hs] at e1
  rw [hs'] at e2
  rw [PY.law G h0 h1 ha e1.1 e1.2 (fun x hx => (hd x hx).1) hN, PY.law G h0 h1 ha e2.1 e2.2 (by rw [hd']; exact nofun) (.inl ⟨rfl, hN'⟩), hd']
  have := posterior_firstSticks h (f := fun j => (1 - pyd, alpha + (j : ℕ) * pyd)) (fun _ => ⟨sub_pos.2 h1, by positivity⟩) hd
  simp only [nEq, nGt, List.countP_nil, Nat.cast_zero, add_zero]
  exact this.symm

end pitmanYor

section betaInBeta
variable {alpha a b p : ℝ} {m : PMethod} (ha : 0 < alpha)
include ha

theorem BIB.law_eq {s : DP ℝ × ℕ} {t : BIB ℝ × ℕ} (h : WeightCore.Sim.Pair (C := DP.core) (C' := BIB.core) (BIB.DPRel a b p m) s t) {size : PySize}
    (hs : size = .none ∨ ∃ n : ℤ, size = .int n) (N : ℕ) : G.lawOf (BIB.random size) t N = G.lawOf (DP.random size) s N := by
  unfold RandGen.lawOf
  congr 1
  funext u
  have := (WeightCore.Sim.Pair.of_rel (C := DP.core) (C' := BIB.core) (BIB.random_dpRel (ω := G.oracle u) a b p m hs) h).2
  change (DP.random size (G.oracle u) s).1 = (BIB.random size (G.oracle u) t).1 at this
  rw [this]

/-- `BetaInBeta(x=0)`, for histories of ordinary calls. -/
theorem C83_betaInBeta {s0 : BIB ℝ} (hi : BIB.init 0 alpha a b p m = .ok s0) (ho : ∀ op ∈ ops, op.ordinary) (ho' : ∀ op ∈ ops', op.ordinary)
    {s s' : BIB ℝ × ℕ} (hs : BIB.cls.run log ω (s0, pos) ops = s)
    (hs' : BIB.cls.run log' ω' (s0, pos') ops' = s') (hd' : s'.1.d = []) {size : PySize} {N N' : ℕ} (hN : EffSize s.1.d size N) (hN' : 1 ≤ N') (h : N ≤ N')
    (hd : LabelsBelow s.1.d N') :
    G.lawOf (BIB.random size) s N = (posterior (G.lawOf (BIB.random (.int N')) s' N') (labelLik s.1.d)).map (firstWeights h) := by
  have hR : ∀ q, WeightCore.Sim.Pair (C := DP.core) (C' := BIB.core) (BIB.DPRel a b p m) (DP.init alpha, q) (s0, q) := fun q => ⟨by rw [(BIB.init_eq hi).1]; exact ⟨rfl, nofun⟩, rfl⟩
  have p1 := (BIB.dpSim (ω := ω) a b p m).run log ops ho (hR pos)
  have p2 := (BIB.dpSim (ω := ω') a b p m).run log' ops' ho' (hR pos')
  have e1 := (BIB.dpSim (ω := ω) a b p m).d _ _ p1.1
  have e2 := (BIB.dpSim (ω := ω') a b p m).d _ _ p2.1
  change _ = BIB.core.getD (BIB.cls.run log ω (s0, pos) ops).1 at e1
  change _ = BIB.core.getD (BIB.cls.run log' ω' (s0, pos') ops').1 at e2
  change WeightCore.Sim.Pair _ _ (BIB.cls.run log ω (s0, pos) ops) at p1
  change WeightCore.Sim.Pair _ _ (BIB.cls.run log' ω' (s0, pos') ops') at p2
  rw [hs] at e1 p1
  rw [hs'] at e2 p2
  have hsz : size = .none ∨ ∃ n : ℤ, size = .int n := by
    rcases hN with ⟨h, _⟩ | ⟨h, _⟩
    · exact .inr ⟨_, h⟩
    · exact .inl h
  have e1' : (DP.cls.run log ω (DP.init alpha, pos) ops).1.d = s.1.d := e1
  have e2' : (DP.cls.run log' ω' (DP.init alpha, pos') ops').1.d = s'.1.d := e2
  rw [BIB.law_eq G ha p1 hsz, BIB.law_eq G ha p2 (.inr ⟨_, rfl⟩), ← e1']
  exact C83_dirichletProcess G log log' ω ω' pos pos' ops ops' ha rfl rfl (by rw [e2', hd']) (by rw [e1']; exact hN) hN' h (by rw [e1']; exact hd)

end betaInBeta

theorem posterior_of_withDensity {X : Type*} [MeasurableSpace X] {μ μ' : Measure X} [IsProbabilityMeasure μ'] {L : X → ℝ≥0∞} {c : ℝ≥0∞} (h0 : c ≠ 0) (ht : c ≠ ∞)
    (h : μ.withDensity L = c • μ') : posterior μ L = μ' := by
  have h1 := congrArg (fun μ : Measure X => μ Set.univ) h
  simp only [withDensity_apply _ MeasurableSet.univ, Measure.restrict_univ, Measure.smul_apply, smul_eq_mul, measure_univ, mul_one] at h1
  rw [posterior, h, h1, smul_smul, ENNReal.inv_mul_cancel h0 ht, one_smul]

section geometric
variable {a b : ℝ} (p0 p0' : ℝ) (ha : 0 < a) (hb : 0 < b)

/-- Geometric weights. -/
def geoWeights (N : ℕ) (p : ℝ) : Fin N → ℝ := fun j => p * (1 - p) ^ (j : ℕ)

theorem measurable_geoWeights (N : ℕ) : Measurable (geoWeights N) := measurable_pi_lambda _ fun j => by unfold geoWeights; fun_prop

theorem labelLik_geo {N : ℕ} {d : List ℤ} (hd : LabelsBelow d N) {p : ℝ} (hp : 0 ≤ p ∧ p ≤ 1) :
    labelLik d (geoWeights N p) = ENNReal.ofReal p ^ d.length * ENNReal.ofReal (1 - p) ^ d.sum.toNat := by
  induction d with
  | nil => simp [labelLik]
  | cons x d ih =>
    have hx := hd x (List.mem_cons_self ..)
    have hd' : LabelsBelow d N := fun y hy => hd y (List.mem_cons_of_mem _ hy)
    have ih := ih hd'
    have hsum : 0 ≤ d.sum := List.sum_nonneg fun y hy => (hd' y hy).1
    rw [labelLik, List.map_cons, List.prod_cons, dif_pos hx]
    change _ * labelLik d (geoWeights N p) = _
    rw [ih, geoWeights, ENNReal.ofReal_mul hp.1, ENNReal.ofReal_pow (sub_nonneg.2 hp.2), List.length_cons, List.sum_cons, Int.toNat_add hx.1 hsum, pow_add, pow_succ]
    ring

include ha hb in
theorem Geo.law {s : Geo ℝ × ℕ} (hh : s.1.a = a ∧ s.1.b = b) (hd : NonNegLabels s.1.d) {size : PySize} {N : ℕ}
    (hN : (size.toInt? = some (N : ℤ) ∧ 1 ≤ N) ∨ (size = .none ∧ IsMaxLabel s.1.d ((N : ℤ) - 1))) :
    G.lawOf (Geo.random size) s N = (betaMeasure (a + (s.1.d.length : ℝ)) (b + ((s.1.d.sum : ℤ) : ℝ))).map (geoWeights N) := by
  have hsum : (0 : ℝ) ≤ ((s.1.d.sum : ℤ) : ℝ) := by exact_mod_cast List.sum_nonneg fun y hy => hd y hy
  rw [← G.beta_law _ _ (by positivity) (by positivity), ← G.map_seed s.2, Measure.map_map (G.measurable_beta _ _) (measurable_pi_apply s.2),
    Measure.map_map (measurable_geoWeights N) ((G.measurable_beta _ _).comp (measurable_pi_apply s.2))]
  unfold RandGen.lawOf
  congr 1
  funext u
  obtain ⟨r, t, hr, _, _, h3, h4⟩ := Geo.random_draw (ω := G.oracle u) ha hb hh hd hN
  rw [hr]
  funext j
  change (r[(j : ℕ)]?).getD 0 = _
  rw [h4.2 j j.2, h3]
  rfl

theorem geoWeights_first {N N' : ℕ} (h : N ≤ N') (p : ℝ) : firstWeights h (geoWeights N' p) = geoWeights N p := rfl

include ha hb in
/-- `GeometricProcess`. -/
theorem C83_geometric {s s' : Geo ℝ × ℕ} (hs : Geo.cls.run log ω (Geo.init a b p0, pos) ops = s) (hs' : Geo.cls.run log' ω' (Geo.init a b p0', pos') ops' = s')
    (hd' : s'.1.d = []) {size : PySize} {N N' : ℕ} (hN : (size.toInt? = some (N : ℤ) ∧ 1 ≤ N) ∨ (size = .none ∧ IsMaxLabel s.1.d ((N : ℤ) - 1)))
    (hN' : 1 ≤ N') (h : N ≤ N') (hd : LabelsBelow s.1.d N') :
    G.lawOf (Geo.random size) s N = (posterior (G.lawOf (Geo.random (.int N')) s' N') (labelLik s.1.d)).map (firstWeights h) := by
  have e1 := Geo.reach_hyper (ω := ω) log pos ops a b p0
  have e2 := Geo.reach_hyper (ω := ω') log' pos' ops' a b p0'
  rw [hs] at e1
  rw [hs'] at e2
  rw [Geo.law G ha hb e1 (fun x hx => (hd x hx).1) hN, Geo.law G ha hb e2 (by rw [hd']; exact nofun) (.inl ⟨rfl, hN'⟩), hd']
  simp only [List.length_nil, List.sum_nil, Nat.cast_zero, Int.cast_zero, add_zero]
  have hsum : 0 ≤ s.1.d.sum := List.sum_nonneg fun y hy => (hd y hy).1
  have hc : ((s.1.d.sum : ℤ) : ℝ) = ((s.1.d.sum.toNat : ℕ) : ℝ) := by
    rw [← Int.cast_natCast (R := ℝ) s.1.d.sum.toNat, Int.toNat_of_nonneg hsum]
  have hpos : 0 < a + (s.1.d.length : ℝ) ∧ 0 < b + (s.1.d.sum.toNat : ℝ) := ⟨by positivity, by positivity⟩
  have := isProbabilityMeasureBeta hpos.1 hpos.2
  rw [posterior_map (measurable_geoWeights N') (measurable_labelLik _), Measure.map_map, hc]
  · rw [posterior_congr (L := labelLik s.1.d ∘ geoWeights N') (L' := fun x => ENNReal.ofReal x ^ s.1.d.length * ENNReal.ofReal (1 - x) ^ s.1.d.sum.toNat)
      (betaMeasure_ae.mono fun x hx => labelLik_geo hd ⟨hx.1.le, hx.2.le⟩),
      posterior_of_withDensity (ENNReal.ofReal_pos.2 (div_pos (beta_pos hpos.1 hpos.2) (beta_pos ha hb))).ne' ENNReal.ofReal_ne_top (betaMeasure_bayes ha hb _ _)]
    rfl
  · exact measurable_pi_lambda _ fun j => measurable_pi_apply _
  · exact measurable_geoWeights _

end geometric

section dirichletDistribution

theorem dirichletPosterior_length (l : List ℝ) (d : List ℤ) : (dirichletPosterior l d).length = l.length := by simp [dirichletPosterior]

theorem dirichletPosterior_cons (l : List ℝ) (x : ℤ) (d : List ℤ) {k : ℕ} (hx : 0 ≤ x ∧ x < (l.length : ℤ)) :
    ((dirichletPosterior l (x :: d)).drop k).sum = ((dirichletPosterior l d).drop k).sum + if (k : ℤ) ≤ x then 1 else 0 := by
  have h : dirichletPosterior l (x :: d) = (dirichletPosterior l d).modify x.toNat (· + 1) := by
    apply List.ext_getElem?
    intro j
    rw [List.getElem?_modify]
    simp only [dirichletPosterior, List.getElem?_mapIdx]
    have e : nEq (x :: d) j = nEq d j + if x = (j : ℤ) then 1 else 0 := by simp [nEq, List.countP_cons]
    have e' : (x = (j : ℤ)) ↔ x.toNat = j := by omega
    cases l[j]? with
    | none => simp
    | some y =>
      simp only [Option.map_some, Option.map_eq_map, e]
      by_cases hj : x.toNat = j
      · rw [if_pos hj, if_pos (e'.2 hj)]; push_cast; simp [add_assoc]
      · rw [if_neg hj, if_neg (fun h => hj (e'.1 h))]; simp
  have hm : ∀ (l : List ℝ) (i k : ℕ), i < l.length → ((l.modify i (· + 1)).drop k).sum = (l.drop k).sum + if k ≤ i then 1 else 0 := by
    intro l
    induction l with
    | nil => intro i k hi; simp at hi
    | cons y l ih =>
      intro i k hi
      cases k with
      | zero =>
        cases i with
        | zero => simp; ring
        | succ i =>
          have := ih i 0 (by simpa using hi)
          simp only [List.drop_zero] at this
          simp [this]; ring
      | succ k =>
        cases i with
        | zero => simp
        | succ i => simpa using ih i k (by simpa using hi)
  rw [h, hm _ _ _ (by rw [dirichletPosterior_length]; omega)]
  congr 1
  have : k ≤ x.toNat ↔ (k : ℤ) ≤ x := by omega
  simp [this]

theorem dirichletPosterior_sum {l : List ℝ} {d : List ℤ} (hd : LabelsBelow d l.length) (k : ℕ) :
    ((dirichletPosterior l d).drop (k + 1)).sum = (l.drop (k + 1)).sum + nGt d k := by
  induction d with
  | nil =>
    have : dirichletPosterior l [] = l := by
      apply List.ext_getElem?; intro j; simp [dirichletPosterior, nEq]
    rw [this]; simp [nGt]
  | cons x d ih =>
    rw [dirichletPosterior_cons l x d (hd x (List.mem_cons_self ..)), ih fun y hy => hd y (List.mem_cons_of_mem _ hy)]
    have e : nGt (x :: d) k = nGt d k + if (k : ℤ) < x then 1 else 0 := by simp [nGt, List.countP_cons]
    rw [e]
    have : ((k + 1 : ℕ) : ℤ) ≤ x ↔ (k : ℤ) < x := by push_cast; omega
    simp only [this]
    push_cast
    ring

/-- Conjugacy of the Dirichlet law. -/
theorem dirichlet_conjugate {l : List ℝ} (hl : l ≠ []) (hpos : ∀ x ∈ l, 0 < x) {d : List ℤ} {N : ℕ} (hN : l.length = N) (hd : LabelsBelow d N) :
    posterior ((Measure.pi (fun j : Fin N => dirichletStick l j)).map breakStick) (labelLik d) =
      (Measure.pi (fun j : Fin N => dirichletStick (dirichletPosterior l d) j)).map breakStick := by
  subst hN
  have hpos' : ∀ x ∈ dirichletPosterior l d, 0 < x := by
    intro x hx
    obtain ⟨j, hj, rfl⟩ := List.mem_mapIdx.1 hx
    have := hpos _ (List.getElem_mem hj)
    positivity
  have hlen := dirichletPosterior_length l d
  have i1 : ∀ j : Fin l.length, IsProbabilityMeasure (dirichletStick l j) := fun j => dirichletStick_prob hpos j
  have i2 : ∀ j : Fin l.length, IsProbabilityMeasure (dirichletStick (dirichletPosterior l d) j) := fun j => dirichletStick_prob hpos' ⟨j, by rw [hlen]; exact j.2⟩
  have hsum : ∀ j : ℕ, j + 1 < l.length → 0 < (l.drop (j + 1)).sum := fun j hj => List.sum_pos _ (fun x hx => hpos x (List.mem_of_mem_drop hx)) (by simp; omega)
  refine posterior_pi (c := fun j => if (j : ℕ) + 1 = l.length then 1 else
    ENNReal.ofReal (beta ((l[(j : ℕ)]?).getD 0 + nEq d j) ((l.drop ((j : ℕ) + 1)).sum + nGt d j) / beta ((l[(j : ℕ)]?).getD 0) ((l.drop ((j : ℕ) + 1)).sum)))
    (fun j => dirichletStick_ae l j) hd ?_ ?_ ?_
  · intro j
    split
    · exact one_ne_zero
    · have h1 := hsum j (by omega)
      have h2 : 0 < (l[(j : ℕ)]?).getD 0 := by rw [List.getElem?_eq_getElem j.2]; exact hpos _ (List.getElem_mem _)
      exact (ENNReal.ofReal_pos.2 (div_pos (beta_pos (by positivity) (by positivity)) (beta_pos h2 h1))).ne'
  · intro j
    split
    · exact ENNReal.one_ne_top
    · exact ENNReal.ofReal_ne_top
  · intro j
    unfold dirichletStick
    rw [hlen]
    by_cases hj : (j : ℕ) + 1 = l.length
    · simp only [hj, if_true]
      have h0 : nGt d j = 0 := by
        simp only [nGt, List.countP_eq_zero, decide_eq_true_eq]
        intro x hx
        have := (hd x hx).2
        omega
      rw [h0, one_smul]
      have : (fun x : ℝ => ENNReal.ofReal x ^ nEq d j * ENNReal.ofReal (1 - x) ^ 0) =ᵐ[Measure.dirac (1 : ℝ)] fun _ => 1 := by
        rw [Filter.EventuallyEq, ae_dirac_eq]
        simp
      rw [withDensity_congr_ae this]
      exact withDensity_one
    · simp only [hj, if_false]
      have h1 := hsum j (by omega)
      have h2 : 0 < (l[(j : ℕ)]?).getD 0 := by rw [List.getElem?_eq_getElem j.2]; exact hpos _ (List.getElem_mem _)
      rw [betaMeasure_bayes h2 h1, dirichletPosterior_sum hd]
      congr 2
      simp [dirichletPosterior]

theorem DirDist.law {alpha : List ℝ} (hne : alpha ≠ []) (ha : ∀ x ∈ alpha, 0 < x) {s : DirDist ℝ × ℕ} (hal : s.1.alpha = alpha) (size : PySize)
    (hd : LabelsBelow s.1.d alpha.length) {N : ℕ} (hN : alpha.length = N) :
    G.lawOf (DirDist.random size) s N = (Measure.pi (fun j : Fin N => dirichletStick (dirichletPosterior alpha s.1.d) j)).map breakStick := by
  have hlen := dirichletPosterior_length alpha s.1.d
  have hne' : dirichletPosterior alpha s.1.d ≠ [] := fun h => hne (by rw [← List.length_eq_zero_iff, ← hlen, h]; rfl)
  have hpos' : ∀ x ∈ dirichletPosterior alpha s.1.d, 0 < x := by
    intro x hx
    obtain ⟨j, hj, rfl⟩ := List.mem_mapIdx.1 hx
    have := ha _ (List.getElem_mem hj)
    positivity
  rw [← hlen] at hN
  subst hN
  have h := G.dirichlet_law _ hne' hpos'
  rw [dirichletLaw] at h
  rw [← h, ← G.map_seed s.2, Measure.map_map (G.dirichlet_meas _) (measurable_pi_apply s.2)]
  unfold RandGen.lawOf
  congr 1
  funext u
  obtain ⟨t, hr, _⟩ := DirDist.random_draw (ω := G.oracle u) ha hal size hd
  rw [hr]
  rfl

/-- `DirichletDistribution`, all of whose weights are drawn at once. -/
theorem C83_dirichletDistribution (n n' : ℤ) {alpha : List ℝ} (hne : alpha ≠ []) (ha : ∀ x ∈ alpha, 0 < x) {s s' : DirDist ℝ × ℕ}
    (hs : DirDist.cls.run log ω (DirDist.initList n alpha, pos) ops = s) (hs' : DirDist.cls.run log' ω' (DirDist.initList n' alpha, pos') ops' = s')
    (hd' : s'.1.d = []) (size size' : PySize) (hd : LabelsBelow s.1.d alpha.length) :
    G.lawOf (DirDist.random size) s alpha.length = posterior (G.lawOf (DirDist.random size') s' alpha.length) (labelLik s.1.d) := by
  have e1 := DirDist.reach_alpha (ω := ω) log pos ops n alpha
  have e2 := DirDist.reach_alpha (ω := ω') log' pos' ops' n' alpha
  rw [hs] at e1
  rw [hs'] at e2
  rw [DirDist.law G hne ha e1 size hd rfl, DirDist.law G hne ha e2 size' (by rw [hd']; exact nofun) rfl, hd']
  have : dirichletPosterior alpha [] = alpha := by
    apply List.ext_getElem?; intro j; simp [dirichletPosterior, nEq]
  rw [this, dirichlet_conjugate hne ha rfl hd]

end dirichletDistribution

section betaBinomial
variable {alpha : ℝ} (ha : 0 < alpha)
include ha

theorem BBin.law_prior {s : BBin ℝ × ℕ} (hB : BBin.BInv s.1) (hn : s.1.n = 0) (hal : s.1.alpha = alpha) (hd : s.1.d = []) (N : ℕ) :
    G.lawOf (BBin.random (.int N)) s N = (betaSticks (fun _ : Fin N => (1, alpha))).map breakStick := by
  refine G.lawOf_sticks (e := fun j => s.2 + 1 + 2 * j + 1) (fun i j h => by dsimp only at h; omega) (f := fun _ => (1, alpha)) (fun j _ => ⟨one_pos, ha⟩)
    (fun t => t.v) fun u => ?_
  obtain ⟨r, t, hr, h1, h2, h3⟩ := BBin.prior_draw (G.oracle_legal u) hB hn hal hd (size := .int N) rfl
  refine ⟨r, t, hr, h1, fun j hj => ?_⟩
  obtain ⟨y, z, v', _, _, h6, h7, h8⟩ := h3.step j (by rw [h2]; simp; omega)
  have hz : z = 0 := by
    have h9 := (G.oracle_legal u).binom_nonneg (s.2 + 1 + 2 * j) 0 y le_rfl
    have h10 := (G.oracle_legal u).binom_le (s.2 + 1 + 2 * j) 0 y le_rfl
    omega
  rw [h6, h8, hz]
  norm_num

theorem BBin.law_fitted {s : BBin ℝ × ℕ} (hB : BBin.BInv s.1) (hn : s.1.n = 0) (hal : s.1.alpha = alpha) (hd : NonNegLabels s.1.d) {m : ℕ} (hm : IsMaxLabel s.1.d m)
    {size : PySize} (hsz : size = .none ∨ ∃ k, size.toInt? = some k) {N : ℕ} (hN : (N : ℤ) ≤ max ((m : ℤ) + 1) (size.toInt?.getD 1)) :
    G.lawOf (BBin.random size) s N = (betaSticks (fun j : Fin N => (1 + (nEq s.1.d j : ℝ), alpha + (nGt s.1.d j : ℝ)))).map breakStick := by
  refine G.lawOf_sticks (e := fun j => if j ≤ m then s.2 + 2 * (m + 2) + j else s.2 + 2 * (m + 2) + (m + 1) + 2 * (j - (m + 1)) + 1)
    (fun i j h => by dsimp only at h; split_ifs at h <;> omega) (f := fun j => (1 + (nEq s.1.d j : ℝ), alpha + (nGt s.1.d j : ℝ)))
    (fun j _ => ⟨by positivity, by positivity⟩) (fun t => t.v) fun u => ?_
  obtain ⟨r, t, x, zs, vs, hr, h1, h2, h3, h4, h5, h6, h7⟩ := BBin.fitted_draw (G.oracle_legal u) hB hn hal hd hm hsz
  have hz : ∀ i y, (G.oracle u).binom i 0 y = 0 := fun i y => by
    have h9 := (G.oracle_legal u).binom_nonneg i 0 y le_rfl
    have h10 := (G.oracle_legal u).binom_le i 0 y le_rfl
    omega
  refine ⟨r, t, hr, h1, fun j hj => ?_⟩
  by_cases hjm : j ≤ m
  · obtain ⟨z, z', k1, k2, k3⟩ := h2.stick j hjm
    have e2 := h2.binom j hjm
    rw [hz] at e2
    have z2 : z' = 0 := by rw [e2] at k2; exact (Option.some.inj k2).symm
    have z1 : z = 0 := by
      cases j with
      | zero => have := h2.start; rw [hz] at this; rw [this] at k1; exact (Option.some.inj k1).symm
      | succ j => have := h2.binom j (by omega); rw [hz] at this; rw [this] at k1; exact (Option.some.inj k1).symm
    rw [k3, if_pos hjm, z1, z2]
    norm_num
  · obtain ⟨y, z, v', _, _, k6, k7, k8⟩ := h6.step (j - (m + 1)) (by omega)
    rw [hz] at k7
    have hnEq : nEq s.1.d j = 0 := by
      simp only [nEq, List.countP_eq_zero, decide_eq_true_eq]
      intro y hy
      have := hm.2 y hy
      omega
    have hnGt : nGt s.1.d j = 0 := by
      simp only [nGt, List.countP_eq_zero, decide_eq_true_eq]
      intro y hy
      have := hm.2 y hy
      omega
    rw [← h5, List.getElem?_drop, show m + 1 + (j - (m + 1)) = j by omega] at k6
    rw [k6, k8, k7, if_neg hjm, hnEq, hnGt]
    norm_num

/-- `BetaBinomial`: the statement with `n = 0`, which is where it holds. -/
theorem C83_betaBinomial_partial (hω : ω.Legal) (hω' : ω'.Legal) {s s' : BBin ℝ × ℕ} (hs : BBin.cls.run log ω (BBin.init 0 alpha, pos) ops = s)
    (hs' : BBin.cls.run log' ω' (BBin.init 0 alpha, pos') ops' = s') (hd' : s'.1.d = []) {m : ℕ} (hm : IsMaxLabel s.1.d m) {size : PySize}
    (hsz : size = .none ∨ ∃ k, size.toInt? = some k) {N N' : ℕ} (hN : (N : ℤ) ≤ max ((m : ℤ) + 1) (size.toInt?.getD 1)) (h : N ≤ N')
    (hd : LabelsBelow s.1.d N') :
    G.lawOf (BBin.random size) s N = (posterior (G.lawOf (BBin.random (.int N')) s' N') (labelLik s.1.d)).map (firstWeights h) := by
  have e1 := BBin.reach_hyper (ω := ω) log pos ops (n := 0) (alpha := alpha)
  have e2 := BBin.reach_hyper (ω := ω') log' pos' ops' (n := 0) (alpha := alpha)
  have b1 := BBin.reach (ω := ω) log pos ops hω le_rfl ha
  have b2 := BBin.reach (ω := ω') log' pos' ops' hω' le_rfl ha
  rw [hs] at e1 b1
  rw [hs'] at e2 b2
  rw [BBin.law_fitted G ha b1 e1.1 e1.2 (fun x hx => (hd x hx).1) hm hsz hN, BBin.law_prior G ha b2 e2.1 e2.2 hd' N']
  exact (posterior_firstSticks h (f := fun _ => (1, alpha)) (fun _ => ⟨one_pos, ha⟩) hd).symm

end betaBinomial

section betaBinomialRefuted
variable {alpha : ℝ} (ha : 0 < alpha) {n : ℕ}

/-- The vector of one weight. -/
def oneWeight (x : ℝ) : Fin 1 → ℝ := fun _ => x

theorem measurable_oneWeight : Measurable oneWeight := measurable_pi_lambda _ fun _ => measurable_id

theorem breakStick_one (v : Fin 1 → ℝ) : breakStick v = v := by
  funext j
  have : j = 0 := Subsingleton.elim _ _
  subst this
  simp [breakStick]

theorem oneStick {f : ℝ × ℝ} (hf : 0 < f.1 ∧ 0 < f.2) : (betaSticks (fun _ : Fin 1 => f)).map breakStick = (betaMeasure f.1 f.2).map oneWeight := by
  obtain ⟨G⟩ := RandGen.nonempty
  rw [← G.law_sticks (e := id) Function.injective_id (f := fun _ : Fin 1 => f) (fun _ => hf), Measure.map_map measurable_breakStick, ← G.beta_law f.1 f.2 hf.1 hf.2, ← G.map_seed 0,
    Measure.map_map (G.measurable_beta _ _) (measurable_pi_apply 0), Measure.map_map]
  · congr 1
    funext u
    simp only [Function.comp, breakStick_one]
    funext j
    have : j = 0 := Subsingleton.elim _ _
    subst this
    rfl
  · exact measurable_oneWeight
  · exact (G.measurable_beta _ _).comp (measurable_pi_apply 0)
  · exact measurable_pi_lambda _ fun j => (G.measurable_beta _ _).comp (measurable_pi_apply _)

include ha

/-- Without labels the first weight is `Beta(1, alpha)`, for every `n`. -/
theorem BBin.law_first {s : BBin ℝ × ℕ} (hB : BBin.BInv s.1) (hn : s.1.n = n) (hal : s.1.alpha = alpha) (hd : s.1.d = []) :
    G.lawOf (BBin.random (.int 1)) s 1 = (betaMeasure 1 alpha).map oneWeight := by
  have hl : G.P.map (fun u => G.beta 1 alpha (u s.2)) = betaMeasure 1 alpha := by
    rw [← G.beta_law 1 alpha one_pos ha, ← G.map_seed s.2, Measure.map_map (G.measurable_beta _ _) (measurable_pi_apply s.2)]
    rfl
  have hm : Measurable (fun u : ℕ → G.Seed => G.beta 1 alpha (u s.2)) := (G.measurable_beta _ _).comp (measurable_pi_apply s.2)
  have h := G.law_step one_pos ha (n := n) (i := s.2 + 1) (j := s.2 + 2) (by omega) hm (fun u u' h => by rw [h s.2 (by omega)]) hl (fun u => G.beta_unit _ _ _)
  have hV : Measurable (fun u : ℕ → G.Seed => G.beta (1 + (G.binom n (G.beta 1 alpha (u s.2)) (u (s.2 + 1)) : ℝ)) (alpha + n - (G.binom n (G.beta 1 alpha (u s.2)) (u (s.2 + 1)) : ℝ)) (u (s.2 + 2))) := by
    have h1 : Measurable (fun z : ℤ => (z : ℝ)) := measurable_from_top
    have hZ : Measurable (fun u : ℕ → G.Seed => G.binom n (G.beta 1 alpha (u s.2)) (u (s.2 + 1))) := (G.binom_meas n).comp (hm.prodMk (measurable_pi_apply (s.2 + 1)))
    exact G.beta_meas.comp (((measurable_const.add (h1.comp hZ)).prodMk (measurable_const.sub (h1.comp hZ))).prodMk (measurable_pi_apply (s.2 + 2)))
  rw [← h, Measure.map_map measurable_oneWeight hV]
  unfold RandGen.lawOf
  congr 1
  funext u
  obtain ⟨r, t, hr, h1, h2, h3⟩ := BBin.prior_draw (G.oracle_legal u) hB hn hal hd (size := .int 1) rfl
  obtain ⟨y, z, v', h4, h5, h6, h7, h8⟩ := h3.step 0 (by rw [h2]; simp)
  rw [hr]
  funext j
  have : j = 0 := Subsingleton.elim _ _
  subst this
  change (r[0]?).getD 0 = _
  rw [h1.2 0 _ h6, h8, h7]
  simp only [List.getElem?_cons_zero, Option.some.injEq] at h4
  rw [← h4]
  simp
  rfl

/-- The mean of the first weight drawn with `K` labels `0`. -/
theorem BBin.fitted_mean {s : BBin ℝ × ℕ} (hB : BBin.BInv s.1) (hn : s.1.n = n) (hal : s.1.alpha = alpha) {K : ℕ} (hK : 1 ≤ K) (hd : s.1.d = List.replicate K 0) :
    ∫ w, w 0 ∂G.lawOf (BBin.random .none) s 1 = (1 + K + n / (1 + alpha) + n * ((1 + K) / (1 + K + alpha))) / (1 + K + alpha + 2 * n) := by
  have hm : IsMaxLabel s.1.d (0 : ℕ) := by
    rw [hd]
    exact ⟨List.mem_replicate.2 ⟨by omega, rfl⟩, fun x hx => (List.mem_replicate.1 hx).2.le⟩
  have hnn : NonNegLabels s.1.d := by rw [hd]; exact fun x hx => (List.mem_replicate.1 hx).2.ge
  have c1 : nEq s.1.d 0 = K := by rw [hd]; simp [nEq, List.countP_replicate]
  have c2 : nGt s.1.d 0 = 0 := by rw [hd]; simp [nGt, List.countP_replicate]
  have hcast : Measurable (fun z : ℤ => (z : ℝ)) := measurable_from_top
  -- the binomials and the stick as functions of the seeds
  let p := s.2
  let Z0 : (ℕ → G.Seed) → ℤ := fun u => G.binom n (G.beta 1 alpha (u p)) (u (p + 2))
  let Z1 : (ℕ → G.Seed) → ℤ := fun u => G.binom n (G.beta (1 + K) alpha (u (p + 1))) (u (p + 3))
  have hb0 : Measurable (fun u : ℕ → G.Seed => G.beta 1 alpha (u p)) := (G.measurable_beta _ _).comp (measurable_pi_apply p)
  have hb1 : Measurable (fun u : ℕ → G.Seed => G.beta (1 + K) alpha (u (p + 1))) := (G.measurable_beta _ _).comp (measurable_pi_apply (p + 1))
  have hZ0 : Measurable Z0 := (G.binom_meas n).comp (hb0.prodMk (measurable_pi_apply (p + 2)))
  have hZ1 : Measurable Z1 := (G.binom_meas n).comp (hb1.prodMk (measurable_pi_apply (p + 3)))
  have hZ : Measurable (fun u => ((Z0 u : ℝ) + (Z1 u : ℝ))) := (hcast.comp hZ0).add (hcast.comp hZ1)
  have bd : ∀ (q : ℝ) (x : G.Seed), 0 ≤ (G.binom n q x : ℝ) ∧ (G.binom n q x : ℝ) ≤ n := fun q x => by
    obtain ⟨k, hk, h⟩ := G.binom_range (n := n) q x
    rw [h]
    exact ⟨by positivity, by exact_mod_cast hk⟩
  let V : (ℕ → G.Seed) → ℝ := fun u => G.beta (1 + K + ((Z0 u : ℝ) + (Z1 u : ℝ))) (alpha + 2 * n - ((Z0 u : ℝ) + (Z1 u : ℝ))) (u (p + 4))
  have hF : Measurable (fun x : ℝ × G.Seed => G.beta (1 + K + x.1) (alpha + 2 * n - x.1) x.2) :=
    G.beta_meas.comp (((measurable_const.add measurable_fst).prodMk (measurable_const.sub measurable_fst)).prodMk measurable_snd)
  have hV : Measurable V := hF.comp (hZ.prodMk (measurable_pi_apply (p + 4)))
  have hlaw : G.lawOf (BBin.random .none) s 1 = (G.P.map V).map oneWeight := by
    rw [Measure.map_map measurable_oneWeight hV]
    unfold RandGen.lawOf
    congr 1
    funext u
    obtain ⟨r, t, x, zs, vs, hr, h1, h2, h3, h4, h5, h6, h7⟩ := BBin.fitted_draw (G.oracle_legal u) hB hn hal hnn hm (size := .none) (.inl rfl)
    obtain ⟨z, z', k1, k2, k3⟩ := h2.stick 0 le_rfl
    have e0 := h2.start
    have e1 := h2.binom 0 le_rfl
    rw [k1] at e0
    rw [k2] at e1
    rw [hr]
    funext j
    have : j = 0 := Subsingleton.elim _ _
    subst this
    change (r[0]?).getD 0 = _
    rw [h1.2 0 _ k3, Option.some.inj e0, Option.some.inj e1, c1, c2]
    have ez0 : (G.oracle u).binom (s.2 + (0 + 2)) n ((G.oracle u).beta s.2 1 alpha) = Z0 u := rfl
    have ez1 : (G.oracle u).binom (s.2 + (0 + 2) + (0 + 1)) n ((G.oracle u).beta (s.2 + (0 + 1)) (1 + (K : ℝ)) (alpha + ((0 : ℕ) : ℝ))) = Z1 u := by
      simp only [Nat.cast_zero, add_zero]; rfl
    rw [ez0, ez1]
    change (_ : Option ℝ).getD 0 = V u
    have ev : (G.oracle u).beta (s.2 + 2 * (0 + 2) + 0) (1 + (K : ℝ) + (Z0 u : ℝ) + (Z1 u : ℝ)) (alpha + ((0 : ℕ) : ℝ) + (((n : ℤ) : ℝ) - Z0 u) + (((n : ℤ) : ℝ) - Z1 u)) = V u := by
      have a1 : 1 + (K : ℝ) + (Z0 u : ℝ) + (Z1 u : ℝ) = 1 + K + ((Z0 u : ℝ) + (Z1 u : ℝ)) := by ring
      have a2 : alpha + ((0 : ℕ) : ℝ) + (((n : ℤ) : ℝ) - Z0 u) + (((n : ℤ) : ℝ) - Z1 u) = alpha + 2 * n - ((Z0 u : ℝ) + (Z1 u : ℝ)) := by push_cast; ring
      rw [a1, a2]
      rfl
    rw [ev]
    simp
  have hD : 0 < 1 + (K : ℝ) + alpha + 2 * n := by positivity
  rw [hlaw, integral_map measurable_oneWeight.aemeasurable (measurable_pi_apply 0).aestronglyMeasurable, integral_map hV.aemeasurable (show Measurable (fun x => oneWeight x 0) from measurable_id).aestronglyMeasurable]
  change ∫ u, V u ∂G.P = _
  have hbf : G.Before (p + 4) (fun u => ((Z0 u : ℝ) + (Z1 u : ℝ))) := fun u u' h => by
    simp only [Z0, Z1]
    rw [h p (by omega), h (p + 1) (by omega), h (p + 2) (by omega), h (p + 3) (by omega)]
  have s1 : ∫ u, V u ∂G.P = ∫ u, ∫ x, G.beta (1 + K + ((Z0 u : ℝ) + (Z1 u : ℝ))) (alpha + 2 * n - ((Z0 u : ℝ) + (Z1 u : ℝ))) x ∂G.ν ∂G.P :=
    G.integral_before le_rfl hZ hbf (f := fun z x => G.beta (1 + K + z) (alpha + 2 * n - z) x) hF (C := 1)
      (fun z x => by rw [abs_of_nonneg (G.beta_unit _ _ _).1]; exact (G.beta_unit _ _ _).2)
  have s2 : ∀ u, ∫ x, G.beta (1 + K + ((Z0 u : ℝ) + (Z1 u : ℝ))) (alpha + 2 * n - ((Z0 u : ℝ) + (Z1 u : ℝ))) x ∂G.ν = (1 + K + ((Z0 u : ℝ) + (Z1 u : ℝ))) / (1 + K + alpha + 2 * n) := by
    intro u
    have h0 := bd (G.beta 1 alpha (u p)) (u (p + 2))
    have h1 := bd (G.beta (1 + K) alpha (u (p + 1))) (u (p + 3))
    have h0' : 0 ≤ (Z0 u : ℝ) ∧ (Z0 u : ℝ) ≤ n := h0
    have h1' : 0 ≤ (Z1 u : ℝ) ∧ (Z1 u : ℝ) ≤ n := h1
    rw [G.beta_mean (by have := h0'.1; have := h1'.1; positivity) (by linarith [h0'.2, h1'.2])]
    congr 1
    ring
  have i0 : Integrable (fun u => (Z0 u : ℝ)) G.P := Integrable.of_bound (hcast.comp hZ0).aestronglyMeasurable n
    (Filter.Eventually.of_forall fun u => by rw [Real.norm_eq_abs]; have := bd (G.beta 1 alpha (u p)) (u (p + 2)); exact abs_le.2 ⟨by linarith [this.1, Nat.cast_nonneg (α := ℝ) n], this.2⟩)
  have i1 : Integrable (fun u => (Z1 u : ℝ)) G.P := Integrable.of_bound (hcast.comp hZ1).aestronglyMeasurable n
    (Filter.Eventually.of_forall fun u => by rw [Real.norm_eq_abs]; have := bd (G.beta (1 + K) alpha (u (p + 1))) (u (p + 3)); exact abs_le.2 ⟨by linarith [this.1, Nat.cast_nonneg (α := ℝ) n], this.2⟩)
  have bmean : ∀ (a : ℝ), 0 < a → ∀ q, ∫ u, G.beta a alpha (u q) ∂G.P = a / (a + alpha) := by
    intro a h q
    rw [← G.beta_mean h ha, ← G.map_seed q, integral_map (measurable_pi_apply q).aemeasurable (G.measurable_beta _ _).aestronglyMeasurable]
  have m0 : ∫ u, (Z0 u : ℝ) ∂G.P = n * (1 / (1 + alpha)) := by
    have e : ∫ u, (Z0 u : ℝ) ∂G.P = ∫ u, ∫ x, (G.binom n (G.beta 1 alpha (u p)) x : ℝ) ∂G.ν ∂G.P :=
      G.integral_before (n := p + 1) (by omega) hb0 (fun u u' h => by dsimp only; rw [h p (by omega)]) (f := fun q x => (G.binom n q x : ℝ)) (hcast.comp (G.binom_meas n)) (C := n)
        (fun q x => abs_le.2 ⟨by linarith [(bd q x).1, Nat.cast_nonneg (α := ℝ) n], (bd q x).2⟩)
    rw [e]
    simp_rw [G.binom_mean (G.beta_unit 1 alpha _).1 (G.beta_unit 1 alpha _).2]
    rw [integral_const_mul, bmean 1 one_pos]
  have m1 : ∫ u, (Z1 u : ℝ) ∂G.P = n * ((1 + K) / (1 + K + alpha)) := by
    have e : ∫ u, (Z1 u : ℝ) ∂G.P = ∫ u, ∫ x, (G.binom n (G.beta (1 + K) alpha (u (p + 1))) x : ℝ) ∂G.ν ∂G.P :=
      G.integral_before (n := p + 2) (by omega) hb1 (fun u u' h => by dsimp only; rw [h (p + 1) (by omega)]) (f := fun q x => (G.binom n q x : ℝ)) (hcast.comp (G.binom_meas n)) (C := n)
        (fun q x => abs_le.2 ⟨by linarith [(bd q x).1, Nat.cast_nonneg (α := ℝ) n], (bd q x).2⟩)
    rw [e]
    simp_rw [G.binom_mean (G.beta_unit (1 + K) alpha _).1 (G.beta_unit (1 + K) alpha _).2]
    rw [integral_const_mul, bmean (1 + K) (by positivity)]
  rw [s1]
  simp_rw [s2]
  have i2 : Integrable (fun u => (Z0 u : ℝ) + (Z1 u : ℝ)) G.P := i0.add i1
  rw [integral_div, integral_add (integrable_const _) i2, integral_add i0 i1, m0, m1]
  simp
  ring

/-- `BetaBinomial` with any `n ≥ 1`: with labels that are all `0`, the weights drawn do not have the posterior law.  The mean of the first weight falls short of the
posterior mean `(1 + K) / (1 + K + alpha)`. -/
theorem C83_betaBinomial_refuted (hn : 1 ≤ n) (hω : ω.Legal) (hω' : ω'.Legal) {s s' : BBin ℝ × ℕ} (hs : BBin.cls.run log ω (BBin.init n alpha, pos) ops = s)
    (hs' : BBin.cls.run log' ω' (BBin.init n alpha, pos') ops' = s') (hd' : s'.1.d = []) {K : ℕ} (hK : 1 ≤ K) (hd : s.1.d = List.replicate K 0) :
    ∫ w, w 0 ∂posterior (G.lawOf (BBin.random (.int 1)) s' 1) (labelLik s.1.d) = (1 + K) / (1 + K + alpha) ∧
    ∫ w, w 0 ∂G.lawOf (BBin.random .none) s 1 < (1 + K) / (1 + K + alpha) ∧
    G.lawOf (BBin.random .none) s 1 ≠ posterior (G.lawOf (BBin.random (.int 1)) s' 1) (labelLik s.1.d) := by
  have e1 := BBin.reach_hyper (ω := ω) log pos ops (n := n) (alpha := alpha)
  have e2 := BBin.reach_hyper (ω := ω') log' pos' ops' (n := n) (alpha := alpha)
  have b1 := BBin.reach (ω := ω) log pos ops hω (Nat.cast_nonneg n) ha
  have b2 := BBin.reach (ω := ω') log' pos' ops' hω' (Nat.cast_nonneg n) ha
  rw [hs] at e1 b1
  rw [hs'] at e2 b2
  have hl := BBin.law_first G ha b2 e2.1 e2.2 hd'
  have c1 : nEq s.1.d 0 = K := by rw [hd]; simp [nEq, List.countP_replicate]
  have c2 : nGt s.1.d 0 = 0 := by rw [hd]; simp [nGt, List.countP_replicate]
  have hp : posterior (G.lawOf (BBin.random (.int 1)) s' 1) (labelLik s.1.d) = (betaMeasure (1 + K) alpha).map oneWeight := by
    rw [hl, ← oneStick (f := (1, alpha)) ⟨one_pos, ha⟩, posterior_sticks (fun _ => ⟨one_pos, ha⟩) (by
      rw [hd]; intro x hx; have := (List.mem_replicate.1 hx).2; subst this; simp)]
    have : (fun j : Fin 1 => ((1 : ℝ) + (nEq s.1.d j : ℝ), alpha + (nGt s.1.d j : ℝ))) = fun _ => (1 + (K : ℝ), alpha) := by
      funext j
      have : j = 0 := Subsingleton.elim _ _
      subst this
      simp [c1, c2]
    rw [this, oneStick (f := (1 + (K : ℝ), alpha)) ⟨by positivity, ha⟩]
  have hm1 : ∫ w, w 0 ∂posterior (G.lawOf (BBin.random (.int 1)) s' 1) (labelLik s.1.d) = (1 + K) / (1 + K + alpha) := by
    rw [hp, integral_map measurable_oneWeight.aemeasurable (measurable_pi_apply 0).aestronglyMeasurable]
    exact betaMeasure_mean (by positivity) ha
  have hm2 : ∫ w, w 0 ∂G.lawOf (BBin.random .none) s 1 < (1 + K) / (1 + K + alpha) := by
    rw [BBin.fitted_mean G ha b1 e1.1 e1.2 hK hd, div_lt_div_iff₀ (by positivity) (by positivity)]
    have h1 : (0 : ℝ) < n := by exact_mod_cast hn
    have h2 : (1 : ℝ) ≤ K := by exact_mod_cast hK
    have h3 : 0 < 1 + alpha := by positivity
    have h4 : 0 < 1 + (K : ℝ) + alpha := by positivity
    field_simp
    nlinarith [mul_pos ha h1, mul_pos (mul_pos ha h1) (lt_of_lt_of_le one_pos h2)]
  exact ⟨hm1, hm2, fun h => by rw [h, hm1] at hm2; exact lt_irrefl _ hm2⟩

end betaBinomialRefuted

/-! Non-vacuity: a generator exists; labels `[0, 2, 2]` and the sizes drawn. -/
example : Nonempty RandGen := RandGen.nonempty
example : (DP.cls.run id (meanO : Oracle ℚ) (DP.init 1, 0) [.random (.int 2), .fit [0, 2, 2]]).1.d = [0, 2, 2] ∧ LabelsBelow [0, 2, 2] 3 ∧ EffSize [0, 2, 2] .none 3 := by
  refine ⟨by decide +kernel, ?_, .inr ⟨rfl, by simp, by simp⟩⟩
  intro x hx; fin_cases hx <;> simp
/-- The reachable states of the refutation. -/
example (G : RandGen) : ∃ ω : Oracle ℝ, ω.Legal ∧ (BBin.cls.run id ω (BBin.init ((1 : ℕ) : ℤ) 1, 0) [.fit [0, 0]]).1.d = List.replicate 2 0 ∧
    (BBin.cls.run id ω (BBin.init ((1 : ℕ) : ℤ) 1, 0) []).1.d = [] := by
  obtain ⟨s⟩ := G.nonempty_seed
  exact ⟨G.oracle fun _ => s, G.oracle_legal _, rfl, rfl⟩

end Verif
