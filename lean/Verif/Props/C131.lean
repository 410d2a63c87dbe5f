import Verif.Lemmas.Ends
import Verif.Props.C96
import Verif.Props.C119
import Verif.Props.C130

/-!
# C131: `fit_gibbs` terminates with probability one

C119 leaves open that the loop of `tail` does not end.  Here `G : RandGen` is a generator whose draws have the documented laws.  With probability one every
session of legal calls of `fit_gibbs` ends, with one and the same result for every sufficiently large bound on the rounds of the loop of `tail`.  The exceptional
event does not depend on the data, the calls, nor on what the mixture's own generator returns.
-/

set_option linter.unusedSectionVars false

namespace Verif.Mix
open GM Spec MeasureTheory ProbabilityTheory Filter

/-- All calls return, whatever large bound is put on the loop of `tail`; the result does not depend on the bound. -/
def SessionEnds {C : WeightClass ℝ} {m : ℕ} {Atom : Type} (ω : Oracle ℝ) (W : World ℝ m Atom) (cs : List (Call ℝ m)) (s : GM C m Atom × ℕ) : Prop :=
  ∃ (F : ℕ) (t : GM C m Atom × ℕ), (∀ f ≥ F, session { W with fuel := f } cs ω s = (.ok (), t)) ∧ (cs ≠ [] → t.1.gibbsFitted = true)

section
variable {C : WeightCore ℝ} {ω : Oracle ℝ} {V : C.State → List ℝ} {Q : C.State → Prop} {J : C.State × ℕ → Prop} {Y : C.State × ℕ → ℕ → ℝ}

/-- A further invariant of the weight object. -/
theorem StickOk.and_stable {P : C.State → Prop} (h : StickOk C ω V Q) (hP : C.Stable ω P) : StickOk C ω V (fun s => Q s ∧ P s) where
  redraw := fun d s hs hd => wp_mono (wp_and (h.redraw d s hs.1 hd) (wp_of_keeps (hP.random .none) (s := (C.setD (labels d) s.1, s.2)) (hP.setD _ _ hs.2)))
    (fun _ _ h => ⟨⟨h.1.1, h.2⟩, h.1.2⟩) fun _ _ h => h.1
  complete := fun g n s hg hs => wp_mono (wp_and (h.complete g n s hg hs.1) (wp_of_keeps (hP.complete g) hs.2)) (fun _ _ h => ⟨⟨h.1.1, h.2⟩, h.1.2⟩) fun _ _ h => h.1
  unit := fun s hs => h.unit s hs.1

theorem one_and_stable {P : C.State → Prop} (hf : ∀ s : C.State × ℕ, Q s.1 → wp ω (C.random (.int 1)) (fun _ t => DrawnNe C V Q t.1) (fun _ _ => False) s) (hP : C.Stable ω P)
    (s : C.State × ℕ) (hs : Q s.1 ∧ P s.1) : wp ω (C.random (.int 1)) (fun _ t => DrawnNe C V (fun s => Q s ∧ P s) t.1) (fun _ _ => False) s :=
  wp_mono (wp_and (hf s hs.1) (wp_of_keeps (hP.random (.int 1)) hs.2)) (fun _ _ h => ⟨⟨h.1.1, h.2⟩, h.1.2⟩) fun _ _ h => h.1

/-- If `tail` returns on every object with `Q` and every position of the generator, sessions end. -/
theorem stick_sessions {m : ℕ} {Atom : Type} {W : World ℝ m Atom} (hω : ω.Legal) (hW : Faithful W) (h : StickOk C ω V Q)
    (hf : ∀ s : C.State × ℕ, Q s.1 → wp ω (C.random (.int 1)) (fun _ t => DrawnNe C V Q t.1) (fun _ _ => False) s) {s0 : C.State} (h0 : Drawn C V Q s0)
    (ht : ∀ s : C.State × ℕ, Drawn C V Q s.1 → TailReturns C.inheritTail ω s) (s : GM C.inheritTail m Atom × ℕ) (hs : s.1.wst.1 = s0) (hsub : s.1.subsample ≠ 0)
    (cs : List (Call ℝ m)) (hcs : Legal s.1.nAttr True True none cs) : SessionEnds ω W cs s := by
  obtain ⟨F, _, t, h1, h2⟩ := session_ends hω hW (h.starts hf h0) (fun x s hs hx0 hx1 => tail_ends (ht s ⟨hs.1, hs.2.1⟩ x hx0 hx1))
    (fun pos x hx0 hx1 => tail_ends (ht (s0, pos) h0 x hx0 hx1)) (fun _ => .inl trivial) cs none s rfl hsub (.inl ⟨rfl, hs⟩) hcs
  exact ⟨F, t, h1, fun h => h2 (.inl h)⟩
end

variable (G : RandGen)

/-- **`DirichletProcessMixture`.** -/
theorem C131_dirichletProcess {alpha : ℝ} (ha : 0 < alpha) : ∀ᵐ u ∂G.P, ∀ (m : ℕ) (Atom : Type) (W : World ℝ m Atom), Faithful W →
    ∀ s : GM (DP.cls : WeightClass ℝ) m Atom × ℕ, s.1.wst.1 = DP.init alpha → s.1.subsample ≠ 0 → ∀ cs : List (Call ℝ m), Legal s.1.nAttr True True none cs →
    SessionEnds (G.oracle u) W cs s := by
  filter_upwards [usesUp_const (G := G) one_pos ha 1] with u hu m Atom W hW s hs hsub cs hcs
  have hω := G.oracle_legal u
  have hP := DP.hyper_stable (ω := G.oracle u) (· = alpha)
  have hu' : ∀ q, UsesUp (fun i => (G.oracle u).beta (q + i) 1 alpha) := fun q => by simpa using hu q
  refine stick_sessions hω hW ((DP.stickOk hω).and_stable hP) (one_and_stable (DP.fine_one hω) hP) (s0 := DP.init alpha) ⟨⟨(DP.fine_init ha).1, rfl⟩, (DP.fine_init ha).2⟩ (fun t ht => ?_) s hs hsub cs hcs
  intro x hx0 hx1
  refine (DP.feeds ha).tail ⟨hx0, hx1⟩ (fun _ => ?_) fun _ => ⟨⟨ht.1.2, ht.2⟩, (DP.stickOk hω).unit _ ht.1.1, hu' _⟩
  exact wp_mono (one_and_stable (DP.fine_one hω) hP t ht.1) (fun _ t h => ⟨⟨h.1.2, h.2.1⟩, (DP.stickOk hω).unit _ h.1.1, hu' _⟩) fun _ _ h => h

/-- **`PitmanYorMixture`.** -/
theorem C131_pitmanYor {pyd alpha : ℝ} (hp : 0 ≤ pyd ∧ pyd < 1) (ha : 0 < alpha) {w : PY ℝ} (hw : PY.init pyd alpha = .ok w) : ∀ᵐ u ∂G.P, ∀ (m : ℕ) (Atom : Type) (W : World ℝ m Atom), Faithful W →
    ∀ s : GM (PY.cls : WeightClass ℝ) m Atom × ℕ, s.1.wst.1 = w → s.1.subsample ≠ 0 → ∀ cs : List (Call ℝ m), Legal s.1.nAttr True True none cs →
    SessionEnds (G.oracle u) W cs s := by
  have hsticks : ∀ᵐ u ∂G.P, ∀ n q : ℕ, UsesUp (fun i => (G.oracle u).beta (q + i) (1 - pyd) (alpha + ((n + i : ℕ) : ℝ) * pyd)) := by
    rw [ae_all_iff]
    intro n
    have hn : 0 < alpha + (n : ℝ) * pyd := by have := mul_nonneg (Nat.cast_nonneg (α := ℝ) n) hp.1; linarith
    filter_upwards [usesUp_sticks (G := G) (pySticks pyd (alpha + n * pyd) hp.1 hp.2 hn) (pySticks_exhausts hp.1 hp.2 hn)] with u hu q
    have e : (fun i => (G.oracle u).beta (q + i) (1 - pyd) (alpha + ((n + i : ℕ) : ℝ) * pyd)) = fun i => (G.oracle u).beta (q + i)
        ((pySticks pyd (alpha + n * pyd) hp.1 hp.2 hn).a i) ((pySticks pyd (alpha + n * pyd) hp.1 hp.2 hn).b i) := by
      funext i
      have : alpha + ((n + i : ℕ) : ℝ) * pyd = alpha + n * pyd + i * pyd := by push_cast; ring
      rw [this]
      rfl
    rw [e]
    exact hu q
  filter_upwards [hsticks] with u hu m Atom W hW s hs hsub cs hcs
  have hω := G.oracle_legal u
  have hP := PY.hyper_stable (ω := G.oracle u) (· = (pyd, alpha))
  have hinit := PY.fine_init hp.1 hp.2 ha hw
  have hhy : ∀ t : PY ℝ, PY.hyper t = (pyd, alpha) → t.pyd = pyd ∧ t.alpha = alpha := fun t h => ⟨congrArg Prod.fst h, congrArg Prod.snd h⟩
  refine stick_sessions hω hW ((PY.stickOk hω).and_stable hP) (one_and_stable (PY.fine_one hω) hP) (s0 := w) ⟨⟨hinit.1, by rw [(PY.init_eq hw).1]; rfl⟩, hinit.2⟩ (fun t ht => ?_) s hs hsub cs hcs
  intro x hx0 hx1
  refine (PY.feeds hp ha).tail ⟨hx0, hx1⟩ (fun _ => ?_) fun _ => ⟨⟨hhy _ ht.1.2, ht.2⟩, (PY.stickOk hω).unit _ ht.1.1, hu _ _⟩
  exact wp_mono (one_and_stable (PY.fine_one hω) hP t ht.1) (fun _ t h => ⟨⟨hhy _ h.1.2, h.2.1⟩, (PY.stickOk hω).unit _ h.1.1, hu _ _⟩) fun _ _ h => h

/-- **`BetaBinomialMixture`.** -/
theorem C131_betaBinomial {n : ℤ} {alpha : ℝ} (hn : 0 ≤ n) (ha : 0 < alpha) : ∀ᵐ u ∂G.P, ∀ (m : ℕ) (Atom : Type) (W : World ℝ m Atom), Faithful W →
    ∀ s : GM (BBin.cls : WeightClass ℝ) m Atom × ℕ, s.1.wst.1 = BBin.init n alpha → s.1.subsample ≠ 0 → ∀ cs : List (Call ℝ m), Legal s.1.nAttr True True none cs →
    SessionEnds (G.oracle u) W cs s := by
  filter_upwards [BBin.usesUp (G := G) hn ha] with u hu m Atom W hW s hs hsub cs hcs
  have hω := G.oracle_legal u
  have hP := BBin.hyper_stable (ω := G.oracle u) (· = (n, alpha))
  have hinit := BBin.fine_init hn ha
  have hJ : ∀ t : BBin ℝ × ℕ, DrawnNe BBin.core BBin.v (fun s => BBin.Fine s ∧ BBin.hyper s = (n, alpha)) t.1 →
      (BBin.BInv t.1 ∧ (t.1.n = n ∧ t.1.alpha = alpha) ∧ t.1.w = stickWeights t.1.v ∧ t.1.v ≠ []) ∧ Unit01 t.1.v ∧ UsesUp (fun i => BBin.chainStick (G.oracle u) n alpha i t.2 (t.1.v.getLast?.getD 0)) :=
    fun t h => ⟨⟨h.1.1.1, ⟨congrArg Prod.fst h.1.2, congrArg Prod.snd h.1.2⟩, h.2.1, h.2.2⟩, h.1.1.1.unit, hu _ _⟩
  refine stick_sessions hω hW ((BBin.stickOk hω).and_stable hP) (one_and_stable (BBin.fine_one hω) hP) (s0 := BBin.init n alpha) ⟨⟨hinit.1, rfl⟩, hinit.2⟩ (fun t ht => ?_) s hs hsub cs hcs
  intro x hx0 hx1
  refine (BBin.feeds hω (n := n) (alpha := alpha)).tail ⟨hx0, hx1⟩ (fun _ => ?_) fun hne => hJ t ⟨ht.1, ht.2, fun h => hne ?_⟩
  · exact wp_mono (one_and_stable (BBin.fine_one hω) hP t ht.1) (fun _ t h => hJ t h) fun _ _ h => h
  · rw [ht.2, show BBin.v t.1 = [] from h]
    exact List.length_eq_zero_iff.1 (by rw [stickWeights_length]; rfl)

/-- **`BetaInBetaMixture`**, for the `p_method`s that do not call an optimiser. -/
theorem C131_betaInBeta_partial {x alpha a b p : ℝ} {pm : PMethod} (hx : 0 ≤ x ∧ x ≤ 1) (ha : 0 < alpha) (hab : 0 < a ∧ 0 < b) (hp : 0 ≤ p ∧ p ≤ 1)
    (hm : x = 0 ∨ x = 1 ∨ pm = .independent ∨ pm = .geometric ∨ pm = .static) {w : BIB ℝ} (hw : BIB.init x alpha a b p pm = .ok w) :
    ∀ᵐ u ∂G.P, ∀ (m : ℕ) (Atom : Type) (W : World ℝ m Atom), Faithful W →
    ∀ s : GM (BIB.cls : WeightClass ℝ) m Atom × ℕ, s.1.wst.1 = w → s.1.subsample ≠ 0 → ∀ cs : List (Call ℝ m), Legal s.1.nAttr True True none cs →
    SessionEnds (G.oracle u) W cs s := by
  filter_upwards [BIB.tail_ae G (m := pm) hx ha hab hp] with u hu m Atom W hW s hs hsub cs hcs
  have hω := G.oracle_legal u
  have hP : BIB.core.Stable (G.oracle u) fun t : BIB ℝ => BIB.hyper t = (x, alpha, a, b, pm) ∧ (x ≠ 1 → pm = .static → BIB.PStatic (G.oracle u) x a b p t) := by
    have h1 := BIB.hyper_stable (ω := G.oracle u) (· = (x, alpha, a, b, pm))
    by_cases hc : x ≠ 1 ∧ pm = .static
    · have h2 := BIB.static_stable (ω := G.oracle u) (x := x) (a := a) (b := b) (p := p) hc.1
      exact ⟨fun d s h => ⟨h1.setD d s h.1, fun e1 e2 => h2.setD d s (h.2 e1 e2)⟩, fun n s h => ⟨h1.random n s h.1, fun e1 e2 => h2.random n s (h.2 e1 e2)⟩,
        fun n s h => ⟨h1.complete n s h.1, fun e1 e2 => h2.complete n s (h.2 e1 e2)⟩⟩
    · exact ⟨fun d s h => ⟨h1.setD d s h.1, fun e1 e2 => absurd ⟨e1, e2⟩ hc⟩, fun n s h => ⟨h1.random n s h.1, fun e1 e2 => absurd ⟨e1, e2⟩ hc⟩,
        fun n s h => ⟨h1.complete n s h.1, fun e1 e2 => absurd ⟨e1, e2⟩ hc⟩⟩
  have hinit := BIB.fine_init hx.1 hx.2 ha hab.1 hab.2 hp.1 hp.2 (by rcases hm with h | h | rfl | rfl | rfl <;> simp [*]) hw
  refine stick_sessions hω hW ((BIB.stickOk hω).and_stable hP) (one_and_stable (BIB.fine_one hω) hP) (s0 := w)
    ⟨⟨hinit.1, by rw [(BIB.init_eq hw).1]; rfl, fun h1 h2 => by rw [(BIB.init_eq hw).1]; exact ⟨⟨rfl, rfl, rfl, h2⟩, .inl rfl⟩⟩, hinit.2⟩ (fun t ht => ?_) s hs hsub cs hcs
  exact hu t ht.1.1.1 ht.1.2.1 ht.1.1.2 ht.1.2.2 (fun _ => by rw [show BIB.w t.1 = stickWeights (BIB.v t.1) from ht.2]; exact stickWeights_isStick _) (by tauto)

/-! ## The quick guide (C130) with probability one -/

/-- A call of `fit_gibbs` that ends, made on a whole mixture object. -/
theorem SessionEnds.one {C : WeightClass ℝ} {V : VarClass C} {m : ℕ} {Atom : Type} {ω : Oracle ℝ} {W : World ℝ m Atom} {F : VWorld ℝ m} {ys : List (Fin m → ℝ)} {g : PySize} {s : VM V m Atom × ℕ}
    (h : SessionEnds ω W [⟨ys, g, false, .kmeans⟩] (s.1.gm, s.2)) :
    ∃ N, ∀ f ≥ N, (VM.fitGibbs F { W with fuel := f } (.rows ys) g false .kmeans ω s).1 = .ok () := by
  obtain ⟨N, t, hN, -⟩ := h
  refine ⟨N, fun f hf => ?_⟩
  have h1 := hN f hf
  have h2 : (do GM.fitGibbs { W with fuel := f } (.rows ys) g false .kmeans; (pure () : M ℝ (GM C m Atom) Unit)) ω (s.1.gm, s.2) = (.ok (), t) := h1
  rw [M.bind_apply] at h2
  rw [VM.fitGibbs_eq _ _ _ .kmeans (.inr nofun)]
  unfold VM.onGM
  revert h2
  rcases GM.fitGibbs { W with fuel := f } (.rows ys) g false .kmeans ω (s.1.gm, s.2) with ⟨_ | _, _⟩
  · intro h2; cases (Prod.mk.inj h2).1
  · intro _; rfl

/-- **The quick guide of the README**, `DirichletProcessMixture`: with probability one all calls return. -/
theorem C130_dirichletProcess {alpha : ℝ} (ha : 0 < alpha) : ∀ᵐ u ∂G.P, ∀ (m : ℕ) (Atom : Type) (W : World ℝ m Atom) (F : VWorld ℝ m), Faithful W → 0 < W.eps → F.toMathFun = realFun → 0 < m →
    ∀ (g : ℕ) (ys : List (Fin m → ℝ)), 2 ≤ ys.length → VM.Spread ys → 0 < g → g ≤ ys.length → GM.FindsGroups W ys g → ∀ (tol : ℝ) (s : VM (varDP realFun) m Atom × ℕ), VM.NewMixture s.1 →
    s.1.gm.wst.1 = DP.init alpha → ∃ N, ∀ f ≥ N, ∃ t v, VM.fitGibbs F { W with fuel := f } (.rows ys) (.int g) false .kmeans (G.oracle u) s = (.ok (), t) ∧
      VM.fitVariational F { W with fuel := f } (.rows ys) (some (g : ℤ)) false (.fin tol) .kmeans (G.oracle u) t = (.ok (), v) ∧ VM.GuideResults { W with fuel := f } ys.length v.1 := by
  filter_upwards [C131_dirichletProcess G ha] with u hu m Atom W F hW he hF hm g ys hy hsp hg hgl hk tol s hn hs
  obtain ⟨N, hN⟩ := (hu m Atom W hW (s.1.gm, s.2) hs hn.steps [⟨ys, .int g, false, .kmeans⟩] ⟨hy, ⟨⟨.inr ⟨g, rfl, by omega⟩, nofun, fun _ => by rw [hn.free]; exact ⟨(by omega : 1 ≤ (g : ℤ)), (by exact_mod_cast hgl : (g : ℤ) ≤ ys.length)⟩, nofun⟩, .inl trivial⟩, trivial⟩).one (F := F)
  refine ⟨N, fun f hf => (VM.C130_dirichletProcess_partial (W := { W with fuel := f }) (G.oracle_legal u) ⟨⟨hW.slices.first, hW.slices.step⟩, hW.argsort, hW.kmeans, hW.varLabels⟩ he hF hm ha hy hsp hg hgl hk tol s hn hs).resolve_left fun h => ?_⟩
  rw [hN f hf] at h
  cases h

/-- The quick guide with a `PitmanYorMixture`. -/
theorem C130_pitmanYor {pyd alpha : ℝ} (hp : 0 ≤ pyd ∧ pyd < 1) (ha : 0 < alpha) {w : PY ℝ} (hw : PY.init pyd alpha = .ok w) : ∀ᵐ u ∂G.P, ∀ (m : ℕ) (Atom : Type) (W : World ℝ m Atom) (F : VWorld ℝ m), Faithful W → 0 < W.eps → F.toMathFun = realFun → 0 < m →
    ∀ (g : ℕ) (ys : List (Fin m → ℝ)), 2 ≤ ys.length → VM.Spread ys → 0 < g → g ≤ ys.length → GM.FindsGroups W ys g → ∀ (tol : ℝ) (s : VM (varPY realFun) m Atom × ℕ), VM.NewMixture s.1 →
    s.1.gm.wst.1 = w → ∃ N, ∀ f ≥ N, ∃ t v, VM.fitGibbs F { W with fuel := f } (.rows ys) (.int g) false .kmeans (G.oracle u) s = (.ok (), t) ∧
      VM.fitVariational F { W with fuel := f } (.rows ys) (some (g : ℤ)) false (.fin tol) .kmeans (G.oracle u) t = (.ok (), v) ∧ VM.GuideResults { W with fuel := f } ys.length v.1 := by
  filter_upwards [C131_pitmanYor G hp ha hw] with u hu m Atom W F hW he hF hm g ys hy hsp hg hgl hk tol s hn hs
  obtain ⟨N, hN⟩ := (hu m Atom W hW (s.1.gm, s.2) hs hn.steps [⟨ys, .int g, false, .kmeans⟩] ⟨hy, ⟨⟨.inr ⟨g, rfl, by omega⟩, nofun, fun _ => by rw [hn.free]; exact ⟨(by omega : 1 ≤ (g : ℤ)), (by exact_mod_cast hgl : (g : ℤ) ≤ ys.length)⟩, nofun⟩, .inl trivial⟩, trivial⟩).one (F := F)
  refine ⟨N, fun f hf => (VM.C130_pitmanYor_partial (W := { W with fuel := f }) (G.oracle_legal u) ⟨⟨hW.slices.first, hW.slices.step⟩, hW.argsort, hW.kmeans, hW.varLabels⟩ he hF hm hp.1 hp.2 ha hw hy hsp hg hgl hk tol s hn hs).resolve_left fun h => ?_⟩
  rw [hN f hf] at h
  cases h

/-! ## The hypotheses are met -/

/-- Three fits of a mixture over the reals: a cold one, a warm one on other data of the same size, and a cold one on more data. -/
noncomputable def threeFits : List (Call ℝ 1) :=
  [⟨[![0], ![1], ![5]], .none, false, .kmeans⟩, ⟨[![2], ![1], ![5]], .none, true, .kmeans⟩, ⟨[![0], ![1], ![5], ![6]], .int 2, false, .random⟩]

theorem threeFits_legal : Legal none True True none threeFits :=
  ⟨by simp, ⟨⟨.inl rfl, nofun, fun _ => by decide, nofun⟩, .inl trivial⟩, by simp, rfl, by simp, ⟨⟨.inr ⟨2, rfl, by omega⟩, nofun, nofun, nofun⟩, .inl trivial⟩, trivial⟩

/-- There are generators, and with probability one these three fits end, whatever the loops need. -/
example : ∃ G : RandGen, ∀ᵐ u ∂G.P, SessionEnds (G.oracle u) (stdWorld 1) threeFits ((blank DP.cls none 4 2 (DP.init 1), 0) : GM (DP.cls : WeightClass ℝ) 1 _ × ℕ) := by
  obtain ⟨G⟩ := RandGen.nonempty
  refine ⟨G, ?_⟩
  filter_upwards [C131_dirichletProcess G one_pos] with u hu
  exact hu 1 _ _ (std_faithful 1) _ rfl (by simp [blank]) _ threeFits_legal

end Verif.Mix
