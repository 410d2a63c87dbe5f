import Verif.Lemmas.TailReach
import Verif.Lemmas.TailOptim
import Verif.Lemmas.RandGenExists
import Verif.Lemmas.Reach
import Verif.Props.C18

/-!
# C96: `tail(x)` terminates with probability one

C23 shows that `tail(x)` can run for ever: the generator may return sticks that are all 0.  Here `G : RandGen` is a generator whose draws have
the documented laws.  With probability one, on every object that is reached with the generator's own draws and for every `x` in `[0, 1)`, the
loop of `tail(x)` ends after finitely many iterations (`∃ F`, every fuel `≥ F` is enough).  The exceptional event does not depend on the
history of the object nor on `x`.

For `BetaInBeta` with `p_method` "max_likelihood" and "inverse_sampling" `p` is the answer of an optimiser of scipy to the sticks so far.  There
`C96_betaInBeta_optim_partial` assumes that this answer is a measurable function of what the optimiser is given.

Missing: in that case the exceptional event depends on the state of the object when `tail` is called.
-/

set_option linter.unusedSectionVars false

namespace Verif
open MeasureTheory ProbabilityTheory Filter Spec Mix
open scoped ENNReal Topology

variable (G : RandGen)

/-- `tail(x)` returns, for all `x` in `[0, 1)`. -/
def TailReturns (C : WeightClass ℝ) (ω : Oracle ℝ) (s : C.State × ℕ) : Prop :=
  ∀ x, 0 ≤ x → x < 1 → ∃ F, ∀ fuel ≥ F, ∃ r t, C.tail fuel x ω s = (.ok r, t)

theorem C96_dirichletProcess {alpha : ℝ} (ha : 0 < alpha) : ∀ᵐ u ∂G.P, ∀ (log : ℝ → ℝ) (pos : ℕ) (ops : List (WOp ℝ)) (s : DP ℝ × ℕ),
    DP.cls.run log (G.oracle u) (DP.init alpha, pos) ops = s → NonNegLabels s.1.d → (s.1.w ≠ [] → IsStick s.1.v s.1.w) → TailReturns DP.cls (G.oracle u) s := by
  filter_upwards [usesUp_const (G := G) one_pos ha 1] with u hu log pos ops s hs hd hst x hx0 hx1
  have hω := G.oracle_legal u
  have hA : s.1.alpha = alpha := by rw [← hs]; exact DP.reach_alpha log pos ops alpha
  have hU : Unit01 s.1.v := by
    rw [← hs]; exact (WeightCore.run_keeps (DP.stable hω) log ops (DP.init alpha, pos) ⟨Unit01.nil, SubProb.nil⟩).1
  have hu' : ∀ q, UsesUp (fun i => (G.oracle u).beta (q + i) 1 alpha) := fun q => by simpa using hu q
  refine (DP.feeds ha).tail ⟨hx0, hx1⟩ ?_ (fun h => ⟨⟨hA, IsStick.eq (hst h)⟩, hU, hu' _⟩)
  intro _
  unfold wp
  rw [show DP.core.random (.int 1) (G.oracle u) s = DP.random (.int 1) (G.oracle u) (s.1, s.2) from rfl,
    DP.random_spec (G.oracle u) s.1 s.2 (.int 1) 1 (by rw [hA]; exact ha) hd (.inl ⟨rfl, le_rfl⟩)]
  exact ⟨⟨hA, rfl⟩, betaValues_unit01 hω _ _, hu' _⟩

theorem C96_pitmanYor {pyd alpha : ℝ} (hp : 0 ≤ pyd ∧ pyd < 1) (ha : 0 < alpha) {s0 : PY ℝ} (h0 : PY.init pyd alpha = .ok s0) :
    ∀ᵐ u ∂G.P, ∀ (log : ℝ → ℝ) (pos : ℕ) (ops : List (WOp ℝ)) (s : PY ℝ × ℕ),
    PY.cls.run log (G.oracle u) (s0, pos) ops = s → NonNegLabels s.1.d → TailReturns PY.cls (G.oracle u) s := by
  have hsticks : ∀ᵐ u ∂G.P, ∀ n q : ℕ, UsesUp (fun i => (G.oracle u).beta (q + i) (1 - pyd) (alpha + ((n + i : ℕ) : ℝ) * pyd)) := by
    rw [ae_all_iff]
    intro n
    have hn : 0 < alpha + (n : ℝ) * pyd := by have := mul_nonneg (Nat.cast_nonneg (α := ℝ) n) hp.1; linarith
    filter_upwards [usesUp_sticks (G := G) (pySticks pyd (alpha + n * pyd) hp.1 hp.2 hn) (pySticks_exhausts hp.1 hp.2 hn)] with u hu q
    have e : (fun i => (G.oracle u).beta (q + i) (1 - pyd) (alpha + ((n + i : ℕ) : ℝ) * pyd)) = fun i => (G.oracle u).beta (q + i)
        ((pySticks pyd (alpha + n * pyd) hp.1 hp.2 hn).a i) ((pySticks pyd (alpha + n * pyd) hp.1 hp.2 hn).b i) := by
      funext i
      have : alpha + ((n + i : ℕ) : ℝ) * pyd = alpha + n * pyd + i * pyd := by push_cast; ring
      rw [this]
      rfl
    rw [e]
    exact hu q
  filter_upwards [hsticks] with u hu log pos ops s hs hd x hx0 hx1
  have hω := G.oracle_legal u
  have hh := PY.reach_hyper (ω := G.oracle u) log pos ops h0
  have hS := PY.reach_sinv (ω := G.oracle u) log pos ops h0
  have hU := (WeightCore.run_keeps (PY.stable hω) log ops (s0, pos) (by rw [(PY.init_eq h0).1]; exact ⟨Unit01.nil, SubProb.nil⟩)).1
  change Unit01 (PY.cls.run log (G.oracle u) (s0, pos) ops).1.v at hU
  rw [hs] at hh hS hU
  refine (PY.feeds hp ha).tail ⟨hx0, hx1⟩ ?_ (fun h => ⟨⟨hh, hS⟩, hU, hu _ _⟩)
  intro _
  have k1 := wp_of_keeps ((PY.hyper_stable (ω := G.oracle u) (· = (pyd, alpha))).random (.int 1)) (s := s) (by
    show PY.hyper s.1 = _; unfold PY.hyper; rw [hh.1, hh.2])
  have k2 := wp_of_keeps ((PY.stable hω).random (.int 1)) (s := s) (by
    refine ⟨hU, ?_⟩; rw [hS]; exact stickWeights_subProb hU)
  have k3 := wp_of_keeps ((PY.sinv_stable (ω := G.oracle u)).random (.int 1)) (s := s) hS
  have k4 := PY.random_ok (s := s) (ω := G.oracle u) (by rw [hh.1]; exact hp.1) (by rw [hh.1]; exact hp.2) (by rw [hh.2]; exact ha) (size := .int 1) hd (.inr ⟨1, rfl, by norm_num⟩)
  refine wp_mono (wp_and (wp_and k1 k2) (wp_and k3 k4)) (fun _ t h => ⟨⟨?_, h.2.1⟩, h.1.2.1, hu _ _⟩) (fun _ _ h => h.2.2.elim)
  exact ⟨congrArg Prod.fst h.1.1, congrArg Prod.snd h.1.1⟩

theorem C96_betaBinomial {n : ℤ} {alpha : ℝ} (hn : 0 ≤ n) (ha : 0 < alpha) : ∀ᵐ u ∂G.P, ∀ (log : ℝ → ℝ) (pos : ℕ) (ops : List (WOp ℝ)) (s : BBin ℝ × ℕ),
    BBin.cls.run log (G.oracle u) (BBin.init n alpha, pos) ops = s → NonNegLabels s.1.d → (s.1.w ≠ [] → IsStick s.1.v s.1.w) → TailReturns BBin.cls (G.oracle u) s := by
  filter_upwards [BBin.usesUp (G := G) hn ha] with u hu log pos ops s hs hd hst x hx0 hx1
  have hω := G.oracle_legal u
  have hB : BBin.BInv s.1 := by rw [← hs]; exact BBin.reach log pos ops hω hn ha
  have hh : BBin.hyper s.1 = (n, alpha) := by
    rw [← hs]; exact WeightCore.run_keeps (BBin.hyper_stable (ω := G.oracle u) (· = (n, alpha))) log ops (BBin.init n alpha, pos) rfl
  refine (BBin.feeds hω (n := n) (alpha := alpha)).tail ⟨hx0, hx1⟩ ?_ (fun h => ?_)
  · intro _
    have k1 := wp_of_keeps ((BBin.hyper_stable (ω := G.oracle u) (· = (n, alpha))).random (.int 1)) (s := s) hh
    have k2 := BBin.random_ok hω hB (.int 1)
    have k3 := BBin.random_post (ω := G.oracle u) (.int 1) s
    refine wp_mono (wp_and k1 (wp_and k2 k3)) (fun _ t h => ?_) (fun _ _ h => ?_)
    · obtain ⟨h1, ⟨h2, h3⟩, h4⟩ := h
      have h5 := (h4 (.inr ⟨1, rfl, le_rfl⟩)).1
      exact ⟨⟨h2, ⟨congrArg Prod.fst h1, congrArg Prod.snd h1⟩, h5.stick, h5.ne⟩, h2.unit, hu _ _⟩
    · rcases h.2.1.2 with h | h | h
      · exact nomatch h.1
      · exact nomatch h
      · exact h hd
  · have h1 := IsStick.eq (hst h)
    refine ⟨⟨hB, ⟨congrArg Prod.fst hh, congrArg Prod.snd hh⟩, h1, ?_⟩, hB.unit, hu _ _⟩
    intro e
    rw [e] at h1
    exact h h1

theorem C96_betaBernoulli {p alpha : ℝ} (hp : 0 ≤ p ∧ p ≤ 1) (ha : 0 < alpha) : ∀ᵐ u ∂G.P, ∀ (log : ℝ → ℝ) (pos : ℕ) (ops : List (WOp ℝ)) (s : BBer ℝ × ℕ),
    BBer.cls.run log (G.oracle u) (BBer.init p alpha, pos) ops = s → s.1.w ≠ [] → IsStick s.1.v s.1.w → TailReturns BBer.cls (G.oracle u) s := by
  filter_upwards [BBer.usesUp (G := G) (p := p) ha, posBeta_ae (G := G) ha] with u hu hpos log pos ops s hs hne hst x hx0 hx1
  have hω := G.oracle_legal u
  have hh := BBer.reach_hyper (ω := G.oracle u) log pos ops p alpha
  have hU := (WeightCore.run_keeps (BBer.stable hω) log ops (BBer.init p alpha, pos) ⟨Unit01.nil, SubProb.nil⟩).1
  have hP := (WeightCore.run_keeps (BBer.pos_stable hpos) log ops (BBer.init p alpha, pos) ⟨rfl, PosList.nil⟩).2
  change Unit01 (BBer.cls.run log (G.oracle u) (BBer.init p alpha, pos) ops).1.v at hU
  change PosList (BBer.cls.run log (G.oracle u) (BBer.init p alpha, pos) ops).1.v at hP
  rw [hs] at hh hU hP
  have h1 := IsStick.eq hst
  have hv : s.1.v ≠ [] := by
    intro e
    rw [e] at h1
    exact hne h1
  refine (BBer.feeds hω hp ha).tail ⟨hx0, hx1⟩ (fun h => absurd h hne) (fun _ => ⟨⟨hh, h1, hv⟩, hU, ?_⟩)
  have hm : s.1.v.getLast hv ∈ s.1.v := List.getLast_mem hv
  have e : s.1.v.getLast?.getD 0 = s.1.v.getLast hv := by rw [List.getLast?_eq_getLast_of_ne_nil hv]; rfl
  exact hu _ _ (by rw [e]; exact hP _ hm) (by rw [e]; exact (hU _ hm).2)

theorem C96_betaInDirichlet {a alpha : ℝ} (F : SpecFun ℝ) (h0 : 0 ≤ a) (ha : 0 < alpha) : ∀ᵐ u ∂G.P, ∀ (log : ℝ → ℝ) (pos : ℕ) (ops : List (WOp ℝ)) (s : BID ℝ × ℕ),
    (BID.cls F).run log (G.oracle u) (BID.init alpha a, pos) ops = s →
      (s.1.w = [] → s.1.d = [] → TailReturns (BID.cls F) (G.oracle u) s) ∧
      ∀ size r t, NonNegLabels s.1.d → ReqPos size → (BID.cls F).random size (G.oracle u) s = (.ok r, t) → TailReturns (BID.cls F) (G.oracle u) t := by
  filter_upwards [BID.usesUp (G := G) (a := a) ha, posBeta_ae (G := G) ha] with u hu hpos log pos ops s hs
  have hω := G.oracle_legal u
  have hh := BID.reach_hyper (ω := G.oracle u) log pos ops F alpha a
  have hI := WeightCore.run_keeps (BID.stable hω F) log ops (BID.init alpha a, pos) ⟨Unit01.nil, SubProb.nil, Unit01.nil⟩
  have hP := WeightCore.run_keeps (BID.pos_stable hpos F) log ops (BID.init alpha a, pos) ⟨rfl, PosList.nil, PosList.nil⟩
  change BID.Inv ((BID.cls F).run log (G.oracle u) (BID.init alpha a, pos) ops).1 at hI
  change BID.PInv alpha ((BID.cls F).run log (G.oracle u) (BID.init alpha a, pos) ops).1 at hP
  rw [hs] at hh hI hP
  have hK : ∀ t : BID ℝ × ℕ, BID.Inv t.1 → BID.PInv alpha t.1 → BID.Seated t.1 → UsesUp (fun i => BID.urnStick (G.oracle u) a alpha i t.1.countBase t.1.vBase t.2) :=
    fun t h1 h2 h3 => hu _ _ _ (fun y hy => ⟨h2.2.2 y hy, (h1.2.2 y hy).2⟩) h3.1
  have k : ∀ size, NonNegLabels s.1.d → ReqPos size → wp (G.oracle u) (BID.random F size) (fun _ t => ((t.1.alpha = alpha ∧ t.1.a = a) ∧ BID.Seated t.1 ∧ t.1.w = stickWeights t.1.v) ∧ Unit01 t.1.v ∧
      UsesUp (fun i => BID.urnStick (G.oracle u) a alpha i t.1.countBase t.1.vBase t.2) ∧ t.1.w ≠ []) (fun _ _ => True) s := by
    intro size hd hreq
    have k1 := wp_of_keeps ((BID.hyper_stable (ω := G.oracle u) F (· = (alpha, a))).random size) (s := s) (by
      show BID.hyper s.1 = _; unfold BID.hyper; rw [hh.1, hh.2])
    have k2 := wp_of_keeps ((BID.stable hω F).random size) (s := s) hI
    have k3 := wp_of_keeps ((BID.pos_stable hpos F).random size) (s := s) hP
    have k4 := BID.random_seated (ω := G.oracle u) F size s
    have k5 := BID.random_post (ω := G.oracle u) F size s hd
    refine wp_mono (wp_and (wp_and k1 (wp_and k2 k3)) (wp_and k4 k5)) (fun _ t h => ?_) (fun _ _ _ => trivial)
    obtain ⟨⟨h1, h2, h3⟩, h4, h5⟩ := h
    have h6 := (h5 hreq).1
    have h7 := h4 h6.ne
    refine ⟨⟨⟨congrArg Prod.fst h1, congrArg Prod.snd h1⟩, h7, h6.stick⟩, h2.1, hK t h2 h3 h7, ?_⟩
    rw [h6.stick]
    intro e
    exact h6.ne (by simpa [stickWeights_length] using congrArg List.length e)
  constructor
  · intro hw hd x hx0 hx1
    refine (BID.feeds F h0 ha).tail ⟨hx0, hx1⟩ (fun _ => ?_) (fun h => absurd hw h)
    obtain ⟨w, t, h1, _⟩ := BID.random_path F hω s hd (by rw [hh.2]; exact h0) (by rw [hh.1]; exact ha) 1
    have h2 := k (.int 1) (by rw [hd]; exact nofun) (.inr ⟨1, rfl, le_rfl⟩)
    unfold wp at h2 ⊢
    have e : (BID.core F).random (.int 1) (G.oracle u) s = (.ok w, t) := h1
    rw [show BID.random F (.int 1) (G.oracle u) s = (.ok w, t) from h1] at h2
    rw [e]
    exact ⟨h2.1, h2.2.1, h2.2.2.1⟩
  · intro size r t hd hreq hr x hx0 hx1
    have h2 := k size hd hreq
    unfold wp at h2
    rw [show BID.random F size (G.oracle u) s = (.ok r, t) from hr] at h2
    exact (BID.feeds F h0 ha).tail ⟨hx0, hx1⟩ (fun h => absurd h h2.2.2.2) (fun _ => ⟨h2.1, h2.2.1, h2.2.2.1⟩)

theorem BIB.tail_returns_lt {ω : Oracle ℝ} (hω : ω.Legal) {s : BIB ℝ × ℕ} (hval : BIB.Valid s.1) {o : Option (ℝ × ℝ)} (ho : BIB.PLaw s.1 o) (hU : Unit01 s.1.v)
    (hW : SubProb s.1.w) (hst : s.1.w ≠ [] → IsStick s.1.v s.1.w)
    (h1 : ∀ r t, BIB.random (.int 1) ω s = (.ok r, t) → ∀ q, UsesUp (fun i => BIB.nextStick ω s.1.x s.1.alpha t.1.p o (q + o.elim 1 (fun _ => 2) * i)))
    (h2 : s.1.w ≠ [] → ∀ q, UsesUp (fun i => BIB.nextStick ω s.1.x s.1.alpha s.1.p o (q + o.elim 1 (fun _ => 2) * i))) : TailReturns BIB.cls ω s := by
  intro x hx0 hx1
  by_cases hw : s.1.w = []
  · have k1 := wp_of_keeps ((BIB.random_fixed (ω := ω) (· = (s.1.x, s.1.alpha, s.1.a, s.1.b, s.1.pMethod, s.1.d)) (.int 1)).keeps) (s := s) rfl
    have k2 := wp_of_keeps ((BIB.stable hω).random (.int 1)) (s := s) ⟨hU, hW, hval.p0, hval.p1⟩
    have k3 := BIB.random_ok hω hval (size := .int 1) (.inr ⟨1, rfl, by norm_num⟩)
    have k4 := BIB.random_post (ω := ω) (.int 1) s
    obtain ⟨r, t, hr, e, hI, _, hpost⟩ := wp_total (wp_mono (wp_and k1 (wp_and k2 (wp_and k3 k4))) (fun _ _ h => h) (fun _ _ h => h.2.2.1))
    simp only [BIB.Fixed, Prod.mk.injEq] at e
    obtain ⟨e1, e2, e3, e4, e5, e6⟩ := e
    have h5 := (hpost (.inr ⟨1, rfl, le_rfl⟩)).1
    refine (BIB.feeds_lt hω (x := s.1.x) (alpha := s.1.alpha) (p := t.1.p) (o := o)).tail ⟨hx0, hx1⟩ (fun _ => ?_) (fun h => absurd hw h)
    unfold wp
    rw [show BIB.core.random (.int 1) ω s = (.ok r, t) from hr]
    refine ⟨⟨?_, ?_, ⟨e1, e2, fun _ => rfl⟩, h5.stick, h5.ne⟩, hI.1, h1 r t hr _⟩
    · exact ⟨by rw [e1]; exact hval.x0, by rw [e1]; exact hval.x1, by rw [e2]; exact hval.alpha, by rw [e3]; exact hval.a, by rw [e4]; exact hval.b, hI.2.2.1, hI.2.2.2,
        by rw [e5, e1]; exact hval.method, by rw [e6]; exact hval.labels⟩
    · cases ho with
      | zero k => exact .zero (e1.trans k)
      | static k1 k2 k3 k4 => exact .static (by rw [e6]; exact k1) (e5.trans k2) (by rw [e1]; exact k3) (by rw [e1]; exact k4)
      | free k1 k3 k4 => rw [← e3, ← e4]; exact .free (by rw [e6]; exact k1) (by rw [e1]; exact k3) (by rw [e1]; exact k4)
      | indep k1 k2 k3 k4 => rw [← e3, ← e4]; exact .indep (by rw [e6]; exact k1) (e5.trans k2) (by rw [e1]; exact k3) (by rw [e1]; exact k4)
      | geo k1 k2 k3 k4 => rw [← e3, ← e4, ← e6]; exact .geo (by rw [e6]; exact k1) (e5.trans k2) (by rw [e1]; exact k3) (by rw [e1]; exact k4)
  · refine (BIB.feeds_lt hω (x := s.1.x) (alpha := s.1.alpha) (p := s.1.p) (o := o)).tail ⟨hx0, hx1⟩ (fun h => absurd h hw) (fun h => ?_)
    have h3 := IsStick.eq (hst h)
    refine ⟨⟨hval, ho, ⟨rfl, rfl, fun _ => rfl⟩, h3, ?_⟩, hU, h2 h _⟩
    intro e
    rw [e] at h3
    exact hw h3

theorem BIB.tail_returns_one {ω : Oracle ℝ} (hω : ω.Legal) {s : BIB ℝ × ℕ} (hval : BIB.Valid s.1) (hx : s.1.x = 1) (hU : Unit01 s.1.v)
    (hW : SubProb s.1.w) (hst : s.1.w ≠ [] → IsStick s.1.v s.1.w)
    (h1 : ∀ q, UsesUp (fun i => ω.beta (q + i) (s.1.a + (s.1.d.length : ℝ)) (s.1.b + ((s.1.d.sum : ℤ) : ℝ)))) : TailReturns BIB.cls ω s := by
  intro x hx0 hx1
  refine (BIB.feeds_one hω (a := s.1.a) (b := s.1.b) (d := s.1.d)).tail ⟨hx0, hx1⟩ (fun hw => ?_) (fun h => ?_)
  · have k1 := wp_of_keeps ((BIB.random_fixed (ω := ω) (· = (s.1.x, s.1.alpha, s.1.a, s.1.b, s.1.pMethod, s.1.d)) (.int 1)).keeps) (s := s) rfl
    have k2 := wp_of_keeps ((BIB.stable hω).random (.int 1)) (s := s) ⟨hU, hW, hval.p0, hval.p1⟩
    have k3 := BIB.random_ok hω hval (size := .int 1) (.inr ⟨1, rfl, by norm_num⟩)
    have k4 := BIB.random_post (ω := ω) (.int 1) s
    refine wp_mono (wp_and k1 (wp_and k2 (wp_and k3 k4))) (fun _ t h => ?_) (fun _ _ h => h.2.2.1)
    obtain ⟨e, hI, _, hpost⟩ := h
    simp only [BIB.Fixed, Prod.mk.injEq] at e
    obtain ⟨e1, e2, e3, e4, e5, e6⟩ := e
    have h5 := (hpost (.inr ⟨1, rfl, le_rfl⟩)).1
    refine ⟨⟨?_, ⟨e1.trans hx, e3, e4, e6⟩, h5.stick, h5.ne⟩, hI.1, h1 _⟩
    exact ⟨by rw [e1]; exact hval.x0, by rw [e1]; exact hval.x1, by rw [e2]; exact hval.alpha, by rw [e3]; exact hval.a, by rw [e4]; exact hval.b, hI.2.2.1, hI.2.2.2,
        by rw [e5, e1]; exact hval.method, by rw [e6]; exact hval.labels⟩
  · have h3 := IsStick.eq (hst h)
    refine ⟨⟨hval, ⟨hx, rfl, rfl, rfl⟩, h3, ?_⟩, hU, h1 _⟩
    intro e
    rw [e] at h3
    exact h h3

/-- The objects on which `tail` returns almost surely, without their history. -/
theorem BIB.tail_ae {x alpha a b p : ℝ} {m : PMethod} (hx : 0 ≤ x ∧ x ≤ 1) (ha : 0 < alpha) (hab : 0 < a ∧ 0 < b) (hp : 0 ≤ p ∧ p ≤ 1) : ∀ᵐ u ∂G.P, ∀ s : BIB ℝ × ℕ,
    BIB.Valid s.1 → BIB.hyper s.1 = (x, alpha, a, b, m) → BIB.Inv s.1 → (x ≠ 1 → m = .static → BIB.PStatic (G.oracle u) x a b p s.1) → (s.1.w ≠ [] → IsStick s.1.v s.1.w) →
    (x = 0 ∨ x = 1 ∨ s.1.d = [] ∨ m = .independent ∨ m = .geometric ∨ m = .static) → TailReturns BIB.cls (G.oracle u) s := by
  have hlt : x < 1 → ∀ᵐ u ∂G.P, ∀ q, UsesUp (fun i => BIB.nextStick (G.oracle u) x alpha p none (q + 1 * i)) := fun h => BIB.usesUp (o := none) ⟨hx.1, h⟩ ha hp
  have hsome : x < 1 → ∀ a b, ∀ᵐ u ∂G.P, ∀ q, UsesUp (fun i => BIB.nextStick (G.oracle u) x alpha p (some (a, b)) (q + 2 * i)) :=
    fun h a b => BIB.usesUp (o := some (a, b)) ⟨hx.1, h⟩ ha hp
  rcases hx.2.lt_or_eq with hx1 | hx1
  · have hd : ∀ᵐ u ∂G.P, ∀ d : List ℤ, ∀ q, UsesUp (fun i => BIB.nextStick (G.oracle u) x alpha p (some (a + (d.length : ℝ), b + ((d.sum : ℤ) : ℝ))) (q + 2 * i)) :=
      ae_all_iff.2 fun d => hsome hx1 _ _
    filter_upwards [hlt hx1, hsome hx1 a b, hd, BIB.usesUp_drawn (G := G) (a := a) (b := b) ⟨hx.1, hx1⟩ ha] with u hn hab' hgeo hdrawn s hval e hI hstat hst hcase
    have hω := G.oracle_legal u
    have hdn := hval.labels
    simp only [BIB.hyper, Prod.mk.injEq] at e
    obtain ⟨e1, e2, e3, e4, e5⟩ := e
    by_cases hx0 : x = 0
    · have hany : ∀ r q, UsesUp (fun i => BIB.nextStick (G.oracle u) s.1.x s.1.alpha r none (q + 1 * i)) := by
        intro r q
        have := hn q
        simp only [BIB.nextStick, hx0, zero_div, zero_mul] at this
        simp only [BIB.nextStick, e1, e2, hx0, zero_div, zero_mul]
        exact this
      exact BIB.tail_returns_lt hω hval (.zero (e1.trans hx0)) hI.1 hI.2.1 hst (fun _ t _ => hany _) (fun _ => hany _)
    · have hxp : 0 < s.1.x ∧ s.1.x < 1 := by rw [e1]; exact ⟨lt_of_le_of_ne hx.1 (Ne.symm hx0), hx1⟩
      by_cases hd0 : s.1.d = []
      · refine BIB.tail_returns_lt hω hval (.free hd0 hxp.1 hxp.2) hI.1 hI.2.1 hst (fun _ t _ => ?_) (fun _ => ?_) <;> (rw [e1, e2, e3, e4]; exact hab')
      · rcases hcase with h | h | h | h | h | h
        · exact absurd h hx0
        · exact absurd h hx1.ne
        · exact absurd h hd0
        · refine BIB.tail_returns_lt hω hval (.indep hd0 (e5.trans h) hxp.1 hxp.2) hI.1 hI.2.1 hst (fun _ t _ => ?_) (fun _ => ?_) <;> (rw [e1, e2, e3, e4]; exact hab')
        · refine BIB.tail_returns_lt hω hval (.geo hd0 (e5.trans h) hxp.1 hxp.2) hI.1 hI.2.1 hst (fun _ t _ => ?_) (fun _ => ?_) <;> (rw [e1, e2, e3, e4]; exact hgeo _)
        · have hsp := hstat hx1.ne h
          have hall : ∀ q, UsesUp (fun i => BIB.nextStick (G.oracle u) x alpha s.1.p none (q + 1 * i)) := by
            rcases hsp.2 with e | ⟨q0, e⟩
            · rw [e]; exact hn
            · rw [e]; exact hdrawn q0
          refine BIB.tail_returns_lt hω hval (.static hd0 (e5.trans h) hxp.1 hxp.2) hI.1 hI.2.1 hst (fun r t hr => ?_) (fun _ => ?_)
          · obtain ⟨N, hN⟩ : ∃ N : ℕ, IsMaxLabel s.1.d ((N : ℤ) - 1) := by
              cases hb : Py.maxInt s.1.d with
              | ok k =>
                have hk := maxInt_eq_ok_iff.1 hb
                have := hdn k hk.1
                exact ⟨(k + 1).toNat, by rw [show (((k + 1).toNat : ℕ) : ℤ) - 1 = k by omega]; exact hk⟩
              | error e =>
                cases h' : s.1.d with
                | nil => exact absurd h' hd0
                | cons y ys => rw [h'] at hb; simp [Py.maxInt] at hb
            obtain ⟨r', t', v1, v2, k1, _, _, _, k5, _⟩ := BIB.random_next hω hval hxp hd0 (size := .int 1) (n := 1) (.inl ⟨rfl, le_rfl⟩) hN
            rw [hr] at k1
            cases k1
            have : t.1.p = s.1.p := by
              rw [k5]
              simp only [BIB.nextP, e5, h]
            rw [e1, e2, this]
            exact hall
          · rw [e1, e2]; exact hall
  · have hd : ∀ᵐ u ∂G.P, ∀ d : List ℤ, NonNegLabels d → ∀ q, UsesUp (fun i => (G.oracle u).beta (q + i) (a + (d.length : ℝ)) (b + ((d.sum : ℤ) : ℝ))) := by
      rw [ae_all_iff]
      intro d
      by_cases hdn : NonNegLabels d
      · have h1 : (0 : ℤ) ≤ d.sum := List.sum_nonneg hdn
        have h2 : (0 : ℝ) ≤ ((d.sum : ℤ) : ℝ) := by exact_mod_cast h1
        have h3 : (0 : ℝ) ≤ (d.length : ℝ) := Nat.cast_nonneg _
        filter_upwards [usesUp_const (G := G) (a := a + (d.length : ℝ)) (b := b + ((d.sum : ℤ) : ℝ)) (by linarith [hab.1]) (by linarith [hab.2]) 1] with u hu _ q
        simpa using hu q
      · exact Eventually.of_forall fun u h => absurd h hdn
    filter_upwards [hd] with u hgeo s hval e hI hstat hst hcase
    have hω := G.oracle_legal u
    have hdn := hval.labels
    simp only [BIB.hyper, Prod.mk.injEq] at e
    obtain ⟨e1, e2, e3, e4, e5⟩ := e
    exact BIB.tail_returns_one hω hval (e1.trans hx1) hI.1 hI.2.1 hst (by rw [e3, e4]; exact hgeo _ hdn)

theorem C96_betaInBeta_partial {x alpha a b p : ℝ} {m : PMethod} {s0 : BIB ℝ} (h0 : BIB.init x alpha a b p m = .ok s0) (hx : 0 ≤ x ∧ x ≤ 1) (ha : 0 < alpha) (hab : 0 < a ∧ 0 < b)
    (hp : 0 ≤ p ∧ p ≤ 1) (hm : m ≠ .rejectionSampling ∨ x = 0 ∨ x = 1) : ∀ᵐ u ∂G.P, ∀ (log : ℝ → ℝ) (pos : ℕ) (ops : List (WOp ℝ)) (s : BIB ℝ × ℕ),
    BIB.cls.run log (G.oracle u) (s0, pos) ops = s → NonNegLabels s.1.d → (s.1.w ≠ [] → IsStick s.1.v s.1.w) →
    (x = 0 ∨ x = 1 ∨ s.1.d = [] ∨ m = .independent ∨ m = .geometric ∨ m = .static) → TailReturns BIB.cls (G.oracle u) s := by
  filter_upwards [BIB.tail_ae G (m := m) hx ha hab hp] with u hu log pos ops s hs hdn hst hcase
  have hω := G.oracle_legal u
  have hI := WeightCore.run_keeps (BIB.stable hω) log ops (s0, pos) (by rw [(BIB.init_eq h0).1]; exact ⟨Unit01.nil, SubProb.nil, hp⟩)
  have e := WeightCore.run_keeps (BIB.hyper_stable (ω := G.oracle u) (· = (x, alpha, a, b, m))) log ops (s0, pos) (by rw [(BIB.init_eq h0).1]; rfl)
  change BIB.hyper (BIB.cls.run log (G.oracle u) (s0, pos) ops).1 = _ at e
  change BIB.Inv (BIB.cls.run log (G.oracle u) (s0, pos) ops).1 at hI
  refine hu s (by rw [← hs] at hdn ⊢; exact BIB.reach_valid log pos ops hω h0 hx ha hab hp hm hdn) (by rw [← hs]; exact e) (by rw [← hs]; exact hI) (fun hx1 hst' => ?_) hst hcase
  have hsp := WeightCore.run_keeps (BIB.static_stable (ω := G.oracle u) (x := x) (a := a) (b := b) (p := p) hx1) log ops (s0, pos)
    (by rw [(BIB.init_eq h0).1]; exact ⟨⟨rfl, rfl, rfl, hst'⟩, .inl rfl⟩)
  rw [← hs]
  exact hsp

/-- With the two optimisers, on every object with `0 < x < 1` that holds labels: with probability one over the draws from now on. -/
theorem C96_betaInBeta_optim_partial (hG : BIB.OptimMeasurable G) {s : BIB ℝ × ℕ} (hval : BIB.Valid s.1) (hx : 0 < s.1.x ∧ s.1.x < 1) (hd : s.1.d ≠ [])
    (hm : s.1.pMethod = .maxLikelihood ∨ s.1.pMethod = .inverseSampling) (hU : Unit01 s.1.v) (hW : SubProb s.1.w) (hst : s.1.w ≠ [] → IsStick s.1.v s.1.w) :
    ∀ᵐ u ∂G.P, TailReturns BIB.cls (G.oracle u) s := by
  filter_upwards [BIB.turn_usesUp_held hG hm ⟨hx.1.le, hx.2⟩ hval.alpha s.1.v ⟨hval.p0, hval.p1⟩ s.2, BIB.turn_usesUp_first hG hval hm hx hd] with u hu hfirst x hx0 hx1
  have hω := G.oracle_legal u
  refine (BIB.feeds_turn hω s.1).tail ⟨hx0, hx1⟩ (fun _ => ?_) (fun hw => ?_)
  · have k1 := wp_of_keeps ((BIB.random_fixed (ω := G.oracle u) (· = (s.1.x, s.1.alpha, s.1.a, s.1.b, s.1.pMethod, s.1.d)) (.int 1)).keeps) (s := s) rfl
    have k2 := wp_of_keeps ((BIB.stable hω).random (.int 1)) (s := s) ⟨hU, hW, hval.p0, hval.p1⟩
    have k3 := BIB.random_ok hω hval (size := .int 1) (.inr ⟨1, rfl, by norm_num⟩)
    have k4 := BIB.random_post (ω := G.oracle u) (.int 1) s
    obtain ⟨r, t, hr, e, hI, _, hpost⟩ := wp_total (wp_mono (wp_and k1 (wp_and k2 (wp_and k3 k4))) (fun _ _ h => h) (fun _ _ h => h.2.2.1))
    simp only [BIB.Fixed, Prod.mk.injEq] at e
    obtain ⟨e1, e2, e3, e4, e5, e6⟩ := e
    have h5 := (hpost (.inr ⟨1, rfl, le_rfl⟩)).1
    unfold wp
    rw [show BIB.core.random (.int 1) (G.oracle u) s = (.ok r, t) from hr]
    refine ⟨⟨?_, by rw [e1]; exact hx, by rw [e6]; exact hd, ⟨e1, e2, e3, e4, e5, e6⟩, h5.stick, h5.ne⟩, hI.1, hfirst r t hr⟩
    exact ⟨by rw [e1]; exact hval.x0, by rw [e1]; exact hval.x1, by rw [e2]; exact hval.alpha, by rw [e3]; exact hval.a, by rw [e4]; exact hval.b, hI.2.2.1, hI.2.2.2,
      by rw [e5, e1]; exact hval.method, by rw [e6]; exact hval.labels⟩
  · have h3 := IsStick.eq (hst hw)
    refine ⟨⟨hval, hx, hd, ⟨rfl, rfl, rfl, rfl, rfl, rfl⟩, h3, ?_⟩, hU, hu⟩
    intro e
    rw [e] at h3
    exact hw h3

/-- There is a generator with an optimiser whose answer depends measurably on the sticks. -/
theorem RandGen.nonempty_optim : ∃ G : RandGen, BIB.OptimMeasurable G := by
  obtain ⟨G⟩ := RandGen.nonempty
  refine ⟨{ G with optim := fun v _ _ => some (1 / (1 + v.sum ^ 2)), legal := fun u => { G.legal u with optim_mem := ?_ } }, fun n k => ?_⟩
  · rintro i v ps q h
    have e : 1 / (1 + v.sum ^ 2) = q := Option.some.inj h
    have h0 := sq_nonneg v.sum
    rw [← e]
    exact ⟨by positivity, by rw [div_le_one (by linarith)]; linarith⟩
  · simp only [Option.getD_some, List.sum_ofFn]
    fun_prop

/-! Non-vacuity: generators with the documented laws exist, and the hypotheses hold for fresh objects. -/
example : ∃ G : RandGen, ∀ᵐ u ∂G.P, TailReturns DP.cls (G.oracle u) (DP.init 1, 0) := by
  obtain ⟨G⟩ := RandGen.nonempty
  refine ⟨G, ?_⟩
  filter_upwards [C96_dirichletProcess G one_pos] with u hu
  exact hu id 0 [] _ rfl nofun (fun h => absurd rfl h)
example : ∃ G : RandGen, ∀ᵐ u ∂G.P, TailReturns BBer.cls (G.oracle u) (BBer.random (.int 2) (G.oracle u) (BBer.init (1/2) 1, 0)).2 := by
  obtain ⟨G⟩ := RandGen.nonempty
  refine ⟨G, ?_⟩
  filter_upwards [C96_betaBernoulli G (p := 1/2) (alpha := 1) (by norm_num) one_pos] with u hu
  obtain ⟨r, t, hr, h1, h2, h3, _⟩ := wp_total (BBer.random_unfitted_ok (G.oracle_legal u) (BBer.init (1/2) 1, 0) (by norm_num [BBer.init]) (by norm_num [BBer.init]) rfl
    (by simp [BBer.init]) (n := 2) (by norm_num) (size := .int 2) rfl)
  have := hu id 0 [.random (.int 2)] t (congrArg Prod.snd hr) (by
    rw [← h2]
    intro e
    rw [e] at h3
    cases h3) (by rw [← h2]; exact h1)
  rw [hr]
  exact this
example : ∃ G : RandGen, ∀ᵐ u ∂G.P, TailReturns (BID.cls ⟨Real.log, fun x => Real.log (Real.Gamma x)⟩) (G.oracle u) (BID.init 1 2, 0) := by
  obtain ⟨G⟩ := RandGen.nonempty
  refine ⟨G, ?_⟩
  filter_upwards [C96_betaInDirichlet G (a := 2) (alpha := 1) ⟨Real.log, fun x => Real.log (Real.Gamma x)⟩ (by norm_num) one_pos] with u hu
  exact (hu id 0 [] _ rfl).1 rfl rfl
example : ∃ G : RandGen, ∀ᵐ u ∂G.P, TailReturns BIB.cls (G.oracle u) (⟨1/2, 1, 1, 1, 1/2, .geometric, [], [], [0, 1]⟩, 0) := by
  obtain ⟨G⟩ := RandGen.nonempty
  refine ⟨G, ?_⟩
  filter_upwards [C96_betaInBeta_partial G (x := 1/2) (alpha := 1) (a := 1) (b := 1) (p := 1/2) (m := .geometric) (s0 := ⟨1/2, 1, 1, 1, 1/2, .geometric, [], [], []⟩) rfl (by norm_num) one_pos
    ⟨one_pos, one_pos⟩ (by norm_num) (.inl nofun)] with u hu
  exact hu id 0 [.fit [0, 1]] _ rfl (by intro x hx; simp at hx; omega) (fun h => absurd rfl h) (.inr (.inr (.inr (.inr (.inl rfl)))))
example : ∃ G : RandGen, ∀ᵐ u ∂G.P, ∀ r t, BIB.random (.int 2) (G.oracle u) (⟨1/2, 1, 1, 1, 1/2, .static, [], [], []⟩, 0) = (.ok r, t) → IsStick t.1.v t.1.w →
    TailReturns BIB.cls (G.oracle u) ({ t.1 with d := [0, 1] }, t.2) := by
  obtain ⟨G⟩ := RandGen.nonempty
  refine ⟨G, ?_⟩
  filter_upwards [C96_betaInBeta_partial G (x := 1/2) (alpha := 1) (a := 1) (b := 1) (p := 1/2) (m := .static) (s0 := ⟨1/2, 1, 1, 1, 1/2, .static, [], [], []⟩) rfl (by norm_num) one_pos
    ⟨one_pos, one_pos⟩ (by norm_num) (.inl nofun)] with u hu r t ht hst
  refine hu id 0 [.random (.int 2), .fit [0, 1]] _ ?_ (by intro x hx; simp at hx; omega) (fun _ => hst) (.inr (.inr (.inr (.inr (.inr rfl)))))
  exact congrArg (fun z : Except PyErr (List ℝ) × BIB ℝ × ℕ => (({ z.2.1 with d := [0, 1] } : BIB ℝ), z.2.2)) ht
example : ∃ G : RandGen, ∀ᵐ u ∂G.P, TailReturns BIB.cls (G.oracle u) (⟨1/2, 1, 1, 1, 1/2, .maxLikelihood, [], [], [0, 1]⟩, 0) ∧
    TailReturns BIB.cls (G.oracle u) (⟨1/2, 1, 1, 1, 1/2, .inverseSampling, [1/2], [1/2], [0, 1]⟩, 0) := by
  obtain ⟨G, hG⟩ := RandGen.nonempty_optim
  have hl : NonNegLabels ([0, 1] : List ℤ) := by intro x hx; simp at hx; omega
  have h1 := C96_betaInBeta_optim_partial G hG (s := (⟨1/2, 1, 1, 1, 1/2, .maxLikelihood, [], [], [0, 1]⟩, 0))
    ⟨by norm_num, by norm_num, by norm_num, by norm_num, by norm_num, by norm_num, by norm_num, ⟨.inl nofun, nofun⟩, hl⟩ (by norm_num) (by simp) (.inl rfl) Unit01.nil SubProb.nil
    (fun h => absurd rfl h)
  have h2 := C96_betaInBeta_optim_partial G hG (s := (⟨1/2, 1, 1, 1, 1/2, .inverseSampling, [1/2], [1/2], [0, 1]⟩, 0))
    ⟨by norm_num, by norm_num, by norm_num, by norm_num, by norm_num, by norm_num, by norm_num, ⟨.inl nofun, nofun⟩, hl⟩ (by norm_num) (by simp) (.inr rfl)
    (by intro x hx; simp at hx; rw [hx]; norm_num) ⟨by intro x hx; simp at hx; rw [hx]; norm_num, by norm_num⟩ (fun _ => by
      have h := stickWeights_isStick ([1/2] : List ℝ)
      simpa [stickWeights, Py.cumprod, Py.cumprodFrom] using h)
  exact ⟨G, h1.and h2⟩

end Verif
