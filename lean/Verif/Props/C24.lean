import Verif.Lemmas.StickTail
import Verif.Lemmas.Demo
import Verif.Lemmas.GeoTail
import Verif.Props.C01

/-!
# C24: truncation by `tail` is lossless for the slice sampler

After `tail(1 - m)` every weight that any later calls (any number, any arguments, failing ones included, everything but a redraw
`random`) can add is at most `m`.  Proved for the six stick-breaking classes that inherit `tail`, after every history, provided the
weights shown when `tail` is called are those of the current sticks (always true for `PitmanYorProcess`; see C22 for the exception).
For `GeometricProcess`, which overrides `tail`, the claim is false (`C24_geometric_refuted`): its truncation is one weight short.
-/

set_option linter.unusedSectionVars false

namespace Verif
open Spec
section
variable {K : Type} [Field K] [LinearOrder K] [IsStrictOrderedRing K] {ω : Oracle K}

/-- Weights beyond the first `n` are at most `m`. -/
def LaterAtMost (m : K) (n : ℕ) (w : List K) : Prop := ∀ j y, n ≤ j → w[j]? = some y → y ≤ m

theorem laterAtMost {r w : List K} {m : K} (hp : r <+: w) (hs : SubProb w) (hm : 1 - m ≤ r.sum) : LaterAtMost m r.length w := by
  obtain ⟨u, rfl⟩ := hp
  intro j y hj hy
  rw [List.getElem?_append_right hj] at hy
  have hmem := List.mem_of_getElem? hy
  have h1 : y ≤ u.sum := List.single_le_sum (fun z hz => hs.nonneg z (by simp [hz])) _ hmem
  have h2 := hs.sum_le
  rw [List.sum_append] at h2
  linarith

theorem StickCore.tail_stick {C : WeightCore K} {V : C.State → List K} (hC : StickCore C V ω) {x : K} {fuel : ℕ} {s t : C.State × ℕ} {r : List K}
    (hr : C.getW s.1 = [] → wp ω (C.random (.int 1)) (fun _ t => C.getW t.1 = stickWeights (V t.1) ∧ V t.1 ≠ []) (fun _ _ => True) s)
    (hs : C.getW s.1 ≠ [] → IsStick (V s.1) (C.getW s.1)) (h : BaseWeight.tail C fuel x ω s = (.ok r, t)) :
    r = C.getW t.1 ∧ x ≤ r.sum ∧ r ≠ [] ∧ C.getW t.1 = stickWeights (V t.1) := by
  have hx : ¬ (x ≥ 1 ∨ x < 0) := fun hx => by rw [BaseWeight.tail_bad C hx] at h; cases h
  have := wp_of_ok h (wp_tail (C := C) (I := fun t => C.getW t.1 ≠ [] ∧ C.getW t.1 = stickWeights (V t.1)) (E := fun _ _ => True)
    hx (fun t ht _ => wp_mono (hC _ t ht.2) (fun _ t' h => by
        obtain ⟨h1, y, hy⟩ := h.2.oneMore ht.2
        exact ⟨by rw [hy]; simp, h1⟩) fun _ _ h => h) (fun _ _ _ => trivial) fuel s
    (fun h0 => wp_mono (hr h0) (fun _ t h => ⟨fun h0 => h.2 (by
      have := congrArg List.length h.1; rw [h0, stickWeights_length] at this; exact List.length_eq_zero_iff.1 this.symm), h.1⟩) fun _ _ h => h)
    (fun h => ⟨h, IsStick.eq (hs h)⟩))
  exact ⟨this.2.1, this.2.2, this.2.1 ▸ this.1.1, this.1.2⟩

theorem run_tail_append (C : WeightClass K) (log : K → K) (s0 : C.State × ℕ) (ops ops' : List (WOp K)) {fuel : ℕ} {x : K} {s t : C.State × ℕ}
    {r : List K} (hs : C.run log ω s0 ops = s) (h : C.tail fuel x ω s = (.ok r, t)) :
    C.run log ω s0 (ops ++ .tail fuel x :: ops') = C.run log ω t ops' := by
  unfold WeightClass.run at *
  rw [List.foldl_append, hs, List.foldl_cons]
  congr 1
  show (C.tail fuel x ω s).2 = t
  rw [h]

variable (log : K → K) (pos : ℕ) (ops ops' : List (WOp K)) {m : K} {fuel : ℕ} {r : List K}

theorem C24_dirichletProcess_partial (hω : ω.Legal) {alpha : K} {s t : DP K × ℕ}
    (hs : DP.cls.run log ω (DP.init alpha, pos) ops = s) (hst : s.1.w ≠ [] → IsStick s.1.v s.1.w) (h : DP.cls.tail fuel (1 - m) ω s = (.ok r, t)) (hops : ∀ op ∈ ops', op.notRandom) :
    LaterAtMost m r.length (DP.cls.run log ω t ops').1.w := by
  obtain ⟨hr, hm, hne, hw⟩ := DP.stickCore.tail_stick (fun _ => wp_mono (DP.random_post _ s) (fun _ _ h =>
    have h := h (.inr ⟨1, rfl, le_rfl⟩)
    ⟨h.1.stick, h.1.ne⟩) fun _ _ h => h) hst h
  have hsub := C01_dirichletProcess log hω pos (ops ++ .tail fuel (1 - m) :: ops') alpha
  rw [run_tail_append _ log _ ops ops' hs h] at hsub
  subst hr
  exact laterAtMost (DP.run_ainv log ops' hops t (AInv.start hw hne)) hsub hm

theorem C24_pitmanYor (hω : ω.Legal) {pyd alpha : K} {s0 : PY K} (h0 : PY.init pyd alpha = .ok s0) {s t : PY K × ℕ}
    (hs : PY.cls.run log ω (s0, pos) ops = s) (h : PY.cls.tail fuel (1 - m) ω s = (.ok r, t)) (hops : ∀ op ∈ ops', op.notRandom) :
    LaterAtMost m r.length (PY.cls.run log ω t ops').1.w := by
  have hst : IsStick s.1.v s.1.w := by
    have := PY.reach_sinv (ω := ω) log pos ops h0
    rw [hs] at this
    rw [this]; exact stickWeights_isStick _
  obtain ⟨hr, hm, hne, hw⟩ := PY.stickCore.tail_stick (fun _ => wp_mono (PY.random_post _ s) (fun _ _ h =>
    have h := h (.inr ⟨1, rfl, le_rfl⟩)
    ⟨h.1.stick, h.1.ne⟩) fun _ _ h => h) (fun _ => hst) h
  have hsub := C01_pitmanYor log hω pos (ops ++ .tail fuel (1 - m) :: ops') pyd alpha s0 h0
  rw [run_tail_append _ log _ ops ops' hs h] at hsub
  subst hr
  exact laterAtMost (PY.run_ainv log ops' hops t (AInv.start hw hne) hw) hsub hm

theorem C24_betaInBeta_partial (hω : ω.Legal) {x alpha a b p : K} {pm : PMethod} {s0 : BIB K} (hp : 0 ≤ p ∧ p ≤ 1) (h0 : BIB.init x alpha a b p pm = .ok s0) {s t : BIB K × ℕ}
    (hs : BIB.cls.run log ω (s0, pos) ops = s) (hst : s.1.w ≠ [] → IsStick s.1.v s.1.w) (h : BIB.cls.tail fuel (1 - m) ω s = (.ok r, t)) (hops : ∀ op ∈ ops', op.notRandom) :
    LaterAtMost m r.length (BIB.cls.run log ω t ops').1.w := by
  obtain ⟨hr, hm, hne, hw⟩ := BIB.stickCore.tail_stick (fun _ => wp_mono (BIB.random_post _ s) (fun _ _ h =>
    have h := h (.inr ⟨1, rfl, le_rfl⟩)
    ⟨h.1.stick, h.1.ne⟩) fun _ _ h => h) hst h
  have hsub := C01_betaInBeta log hω pos (ops ++ .tail fuel (1 - m) :: ops') x alpha a b p pm s0 hp h0
  rw [run_tail_append _ log _ ops ops' hs h] at hsub
  subst hr
  exact laterAtMost (BIB.run_ainv log ops' hops t (AInv.start hw hne)) hsub hm

theorem C24_betaBinomial_partial (hω : ω.Legal) {n : ℤ} {alpha : K} {s t : BBin K × ℕ}
    (hs : BBin.cls.run log ω (BBin.init n alpha, pos) ops = s) (hst : s.1.w ≠ [] → IsStick s.1.v s.1.w) (h : BBin.cls.tail fuel (1 - m) ω s = (.ok r, t)) (hops : ∀ op ∈ ops', op.notRandom) :
    LaterAtMost m r.length (BBin.cls.run log ω t ops').1.w := by
  obtain ⟨hr, hm, hne, hw⟩ := BBin.stickCore.tail_stick (fun _ => wp_mono (BBin.random_post _ s) (fun _ _ h =>
    have h := h (.inr ⟨1, rfl, le_rfl⟩)
    ⟨h.1.stick, h.1.ne⟩) fun _ _ h => h) hst h
  have hsub := C01_betaBinomial log hω pos (ops ++ .tail fuel (1 - m) :: ops') n alpha
  rw [run_tail_append _ log _ ops ops' hs h] at hsub
  subst hr
  exact laterAtMost (BBin.run_ainv log ops' hops t (AInv.start hw hne)) hsub hm

theorem C24_betaBernoulli_partial (hω : ω.Legal) {p alpha : K} {s t : BBer K × ℕ}
    (hs : BBer.cls.run log ω (BBer.init p alpha, pos) ops = s) (hst : s.1.w ≠ [] → IsStick s.1.v s.1.w) (h : BBer.cls.tail fuel (1 - m) ω s = (.ok r, t)) (hops : ∀ op ∈ ops', op.notRandom) :
    LaterAtMost m r.length (BBer.cls.run log ω t ops').1.w := by
  obtain ⟨hr, hm, hne, hw⟩ := BBer.stickCore.tail_stick (fun _ => wp_mono (BBer.random_post _ s) (fun _ _ h =>
    have h := h (.inr ⟨1, rfl, le_rfl⟩)
    ⟨h.1.stick, h.1.ne⟩) fun _ _ h => h) hst h
  have hsub := C01_betaBernoulli log hω pos (ops ++ .tail fuel (1 - m) :: ops') p alpha
  rw [run_tail_append _ log _ ops ops' hs h] at hsub
  subst hr
  exact laterAtMost (BBer.run_ainv log ops' hops t (AInv.start hw hne)) hsub hm

theorem C24_betaInDirichlet_partial (hω : ω.Legal) (F : SpecFun K) {alpha a : K} {s t : BID K × ℕ}
    (hs : (BID.cls F).run log ω (BID.init alpha a, pos) ops = s) (hst : s.1.w ≠ [] → IsStick s.1.v s.1.w) (hnn : NonNegLabels s.1.d) (h : (BID.cls F).tail fuel (1 - m) ω s = (.ok r, t)) (hops : ∀ op ∈ ops', op.notRandom) :
    LaterAtMost m r.length ((BID.cls F).run log ω t ops').1.w := by
  obtain ⟨hr, hm, hne, hw⟩ := (BID.stickCore F).tail_stick (fun _ => wp_mono (BID.random_post F _ s hnn) (fun _ _ h =>
    have h := h (.inr ⟨1, rfl, le_rfl⟩)
    ⟨h.1.stick, h.1.ne⟩) fun _ _ h => h) hst h
  have hsub := C01_betaInDirichlet log hω pos (ops ++ .tail fuel (1 - m) :: ops') F alpha a
  rw [run_tail_append _ log _ ops ops' hs h] at hsub
  subst hr
  exact laterAtMost (BID.run_ainv F log ops' hops t (AInv.start hw hne)) hsub hm
end

/-! ## `GeometricProcess` -/

/-- `p = 9/10`, `tail(1 - 1/2)`: no weight at all is drawn, and the next one is `9/10 > 1/2`. -/
theorem C24_geometric_refuted : ∃ ω : Oracle ℝ, ω.Legal ∧ ∃ t, Geo.cls.tail 0 (1 - 1/2) ω (Geo.init 1 1 (9/10), 0) = (.ok [], t) ∧
    ¬ LaterAtMost (1/2) 0 (Geo.cls.run id ω t [.complete (.int 1)]).1.w := by
  refine ⟨demo, demo_legal, (Geo.init 1 1 (9/10), 0), ?_, ?_⟩
  · have hlog : Geo.tailSize (1 - 1/2) (9/10) = .ok 0 := by
      unfold Geo.tailSize
      rw [if_neg (by norm_num), if_neg (by norm_num)]
      congr 1
      rw [Int.floor_eq_zero_iff, Set.mem_Ico]
      have h1 : Real.log (1 - (9/10 : ℝ)) < 0 := Real.log_neg (by norm_num) (by norm_num)
      have h2 : Real.log (1 - (1 - 1/2 : ℝ)) < 0 := Real.log_neg (by norm_num) (by norm_num)
      refine ⟨(div_pos_of_neg_of_neg h2 h1).le, ?_⟩
      rw [div_lt_one_of_neg h1]
      exact Real.log_lt_log (by norm_num) (by norm_num)
    have := Geo.tail_eq (ω := demo) (x := 1 - 1/2) (by norm_num) (Geo.init 1 1 (9/10), 0) hlog le_rfl
    rw [if_neg (by simp [Geo.init])] at this
    exact this
  · intro h
    have hw : (Geo.cls.run id (demo : Oracle ℝ) (Geo.init 1 1 (9/10), 0) [.complete (.int 1)]).1.w = [9/10] := by
      show (Geo.core.complete (.int 1) (demo : Oracle ℝ) (Geo.init 1 1 (9/10), 0)).2.1.w = _
      simp [Geo.core, Geo.complete, Geo.init, BaseWeight.checkSize, PySize.toInt?, Py.repeatScalar, stickWeights, Py.cumprod, Py.cumprodFrom]
    rw [hw] at h
    have := h 0 (9/10) le_rfl rfl
    norm_num at this

/-! Non-vacuity -/
example : (DP.cls.tail 9 (1 - 1/2) (demo : Oracle ℚ) (DP.cls.run id demo (DP.init 1, 4) [.random (.int 1)])).1 = .ok [1/6, 5/42, 5/56, 5/72, 1/18] := by
  decide +kernel

end Verif
