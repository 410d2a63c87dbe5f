import Verif.Lemmas.QuickStart
import Verif.Props.C57
import Verif.Props.C58
import Verif.Props.C121
import Verif.Props.C123
import Verif.Props.C120
import Verif.Props.C129

/-!
# C130: the quick guide of the README works

The README makes a `DirichletProcessMixture`, calls `fit_gibbs(y, init_groups=2)` and `fit_variational(y, n_groups=2)`, and then `gibbs_eap_density(x)`, `var_eap_density(x)`,
`var_map_cluster()`, `gibbs_map_cluster()` and `gibbs_eap_spectral_consensus_cluster()`.
-/

set_option linter.unusedSectionVars false

namespace Verif.Mix.VM
open GM (HasMap Usable FindsGroups)
variable {m : ℕ} {C : WeightClass ℝ} {V : VarClass C} {Atom : Type} {ω : Oracle ℝ} {W : World ℝ m Atom} {F : VWorld ℝ m} {J : C.State → Prop}

/-! ### Specification -/

/-- A new mixture with the default priors. -/
structure NewMixture (s : VM V m Atom) : Prop where
  free : s.gm.nAttr = none
  mu : s.gm.muPrior = none
  psi : s.gm.psiPrior = none
  nu : s.gm.nuPrior = none
  lam : 0 < s.gm.lam
  iter : 0 < s.gm.totalIter
  steps : s.gm.subsample ≠ 0
  saved : s.gm.saved = []
  map : s.gm.mapLL = ⊥

/-- What the calls of the quick guide return, for `n` observations. -/
structure GuideResults (W : World ℝ m Atom) (n : ℕ) (s : VM V m Atom) : Prop where
  gibbsDensity : ∀ xs : List (Fin m → ℝ), ∃ r, GM.eapDensity W s.gm (some (.rows xs)) .none none none = .ok r ∧ r.length = xs.length
  varDensity : ∀ xs : List (Fin m → ℝ), ∃ r : List ℝ, varEapDensity realFun s (.given m xs) .none none = .ok (r.map .fin) ∧ r.length = xs.length
  varLabels : ∃ d, varMapCluster realFun W s .none false = .ok (.labels d) ∧ d.length = n
  gibbsLabels : ∃ d u, GM.mapCluster W s.gm none = .ok (d, u) ∧ d.length = n
  consensus : ∃ a, a.length = n ∧ ∀ predict, GM.spectral W predict s.gm none = predict a

/-! ### Proof -/

theorem eapDensity_of_saved {s : GM C m Atom} (hf : s.gibbsFitted = true) (hs : ∀ p ∈ s.saved, Evaluable p) (xs : List (Fin m → ℝ)) :
    ∃ r, GM.eapDensity W s (some (.rows xs)) .none none none = .ok r ∧ r.length = xs.length := by
  obtain ⟨rows, hr⟩ := stateDensities_ok W xs .none s.saved hs
  refine ⟨GM.colMeans xs.length rows, ?_, by simp [GM.colMeans, colSums]⟩
  unfold GM.eapDensity
  rw [if_neg (by rw [hf]; simp)]
  simp only [GM.queryRows, GM.usedStates, hr]
  rfl

theorem mapCluster_of_hasMap {s : GM C m Atom} (hf : s.gibbsFitted = true) (hm : HasMap s) (hy : 2 ≤ s.y.length) : ∃ d u, GM.mapCluster W s none = .ok (d, u) ∧ d.length = s.y.length := by
  obtain ⟨p, hp, he, hw⟩ := hm
  obtain ⟨rows, hr⟩ := clusterRows_returns (W.pdf .none) s.y (theta := p.theta) (List.range p.w.length) (fun j hj => he j (List.mem_range.1 hj))
  have hw' : ¬ (s.y.length = 1 ∨ p.w.length = 0) := by
    rintro (h | h)
    · omega
    · exact hw (List.length_eq_zero_iff.1 h)
  have hcl : ∃ d u, cluster (W.pdf .none) s.y p.w p.theta = .ok (d, u) ∧ d.length = s.y.length := by
    refine ⟨npInverse ((List.range s.y.length).map fun i => argmaxD (assignProb rows p.w i)),
      (List.range s.y.length).map fun i => 1 - ((assignProb rows p.w i)[argmaxD (assignProb rows p.w i)]?).getD 0, ?_, by simp [npInverse]⟩
    unfold cluster
    rw [hr]
    simp only [if_neg hw']
  obtain ⟨d, u, h1, h2⟩ := hcl
  refine ⟨d, u, ?_, h2⟩
  unfold GM.mapCluster
  rw [if_neg (by rw [hf]; simp)]
  simp only [GM.queryRows, hp]
  exact h1

theorem varDensity_given (hM : Means V J) {k : ℕ} {s : VM V m Atom} (hs : s.varFitted = true) (h : Ready J k s) (xs : List (Fin m → ℝ)) :
    ∃ r : List ℝ, varEapDensity realFun s (.given m xs) .none none = .ok (r.map .fin) ∧ r.length = xs.length := by
  obtain ⟨w, hw, -⟩ := C58_eap_partial (F := realFun) hM hs h
  unfold varEapDensity
  rw [if_neg (by rw [hs]; simp)]
  simp only [points, components, dimMap, le_refl, dite_true, Fin.castLE_rfl]
  rw [if_neg (by simp), densityLoop_ok (wf := w) _ (fun _ => 0) (fun p hp => ⟨(h.pairs p hp).1, hw p.1 (h.pairs p hp).2⟩)]
  exact ⟨xs.map fun x => _, (by rw [List.map_map]; rfl), List.length_map ..⟩

/-- Once the first fit has returned, everything else returns. -/
theorem guide_of_fit {I : C.State → Prop} {R : C.State → Prop} (hI : Tidy C ω I) (hW : Faithful W) (he : 0 < W.eps) (hV : Regular V J) (hM : Means V J) (hF : F.toMathFun = realFun) (hm : 0 < m) {g : ℕ}
    (hA : Able V J g) {ys : List (Fin m → ℝ)} (hy : 2 ≤ ys.length) (hsp : Spread ys) (hg : 0 < g) (hgl : g ≤ ys.length) (hk : FindsGroups W ys g) (tol : ℝ) {s : VM V m Atom × ℕ} (hn : NewMixture s.1)
    (hc : wp ω (C.complete (.int g)) (fun _ c => I c.1 ∧ (C.getW c.1).length = g) (fun _ _ => True) s.1.gm.wst) {t : VM V m Atom × ℕ}
    (h : fitGibbs F W (.rows ys) (.int g) false .kmeans ω s = (.ok (), t)) (hJ : J t.1.gm.wst.1) (hr : ReadyGM R ys.length t.1.gm) (hft : t.1.gm.gibbsFitted = true) :
    ∃ u, fitVariational F W (.rows ys) (some (g : ℤ)) false (.fin tol) .kmeans ω t = (.ok (), u) ∧ GuideResults W ys.length u.1 := by
  have hy0 : ys ≠ [] := by rintro rfl; simp at hy
  have hgm : GM.fitGibbs W (.rows ys) (.int g) false .kmeans ω (s.1.gm, s.2) = (.ok (), (t.1.gm, t.2)) := by
    rw [fitGibbs_eq _ _ _ .kmeans (.inr nofun)] at h
    unfold onGM at h
    revert h
    rcases GM.fitGibbs W (.rows ys) (.int g) false .kmeans ω (s.1.gm, s.2) with ⟨r, t'⟩
    intro h
    obtain ⟨rfl, rfl⟩ := Prod.mk.inj h
    rfl
  -- the settings and the prior
  have hset : settings t.1.gm = settings s.1.gm := by
    have := (fitGibbs_settings (ω := ω) W (· = settings s.1.gm) (.rows ys) (.int g) false .kmeans) (s.1.gm, s.2) rfl
    rw [hgm] at this
    exact this.1
  have hT : 0 < t.1.gm.totalIter := by rw [show t.1.gm.totalIter = s.1.gm.totalIter from congrArg Prod.fst hset]; exact hn.iter
  have hp : ProperPrior (GM.prior (begun ys t.1).gm) := by
    obtain ⟨q, hq, h1, -, -, -, h2, -, h3⟩ := C121_history (F := F) (W := W) (ω := ω) s [] (by simp) (.gibbs ⟨.rows ys, .int g, false, .kmeans⟩) ys rfl hy []
    have e : (runFits F W ω s ([] ++ [.gibbs ⟨.rows ys, .int g, false, .kmeans⟩])).1 = t.1 := congrArg (fun r => r.2.1) h
    rw [e] at hq
    have hq' : (t.1.gm.muPrior, t.1.gm.lam, t.1.gm.psiPrior, t.1.gm.nuPrior) = (some q.mu, q.lam, some q.psi, some q.nu) := hq
    obtain ⟨e1, e2, e3, e4⟩ : t.1.gm.muPrior = some q.mu ∧ t.1.gm.lam = q.lam ∧ t.1.gm.psiPrior = some q.psi ∧ t.1.gm.nuPrior = some q.nu := by simpa using hq'
    have : GM.prior (begun ys t.1).gm = q := by
      unfold GM.prior begun
      simp only [e1, e2, e3, e4, Option.getD_some]
    rw [this]
    exact (C121_proper hy (by rw [h1]; exact hn.lam) (h2 hn.psi) (h3 hn.nu)).2 hsp
  -- the second fit
  obtain ⟨raw, hraw, -⟩ := hW.kmeans t.2 ys g (by omega) (by exact_mod_cast hgl)
  obtain ⟨u, hu, hgood, hyu, hvf, -⟩ := C123_fit (ω := ω) he hW.argsort hV hm hF hA hy0 hp tol hT (LegalStart.kmeans (nG := some (g : ℤ)) rfl hg hJ raw hraw (hk _ _ hraw))
  refine ⟨u, hu, ?_⟩
  -- the results of the first fit are still there
  have hrec := (fitVariational_rec (ω := ω) (F := F) (W := W) (.rows ys) (some (g : ℤ)) false (.fin tol) .kmeans t).1
  rw [hu] at hrec
  have hsame : SameGibbs W t.1.gm u.1.gm := sameGibbs_of_rec hrec
  have hty : t.1.gm.y.length = ys.length := hr.y
  refine ⟨fun xs => ?_, varDensity_given hM hvf hgood.ready, ?_, ?_, ?_⟩
  · rw [hsame.eap]
    refine eapDensity_of_saved hft ?_ xs
    have := GM.run_saved W hI evaluable_step (s.1.gm, s.2) hn.saved [⟨.rows ys, .int g, false, .kmeans⟩]
    rw [show GM.run W ω (s.1.gm, s.2) [⟨.rows ys, .int g, false, .kmeans⟩] = (t.1.gm, t.2) from congrArg Prod.snd hgm] at this
    exact this
  · obtain ⟨d, v, -, hd, hun⟩ := C57_fitted_partial (F := realFun) (W := W) hg hvf hgood.probs.2
    exact ⟨d, hd, by rw [hun.labels, hgood.probs.1, hyu]⟩
  · have hmap : HasMap t.1.gm := GM.fit_hasMap hI hW.argsort hg hk (s := (s.1.gm, s.2)) hn.free hn.map hc hgm
    simp only [gibbsRec, GibbsRec.mk.injEq] at hrec
    obtain ⟨-, -, -, -, -, h6, -, h8⟩ := hrec
    rw [← hyu]
    refine mapCluster_of_hasMap (by rw [h8]; exact hft) ?_ (by rw [hyu]; exact hy)
    obtain ⟨p, hp, hus⟩ := hmap
    exact ⟨p, by rw [h6]; exact hp, hus⟩
  · refine ⟨t.1.gm.affinity.map (fun r => r.map (fun c : ℕ => (c : ℝ) / (t.1.gm.totalSaved : ℝ))), by rw [List.length_map]; exact hr.aff, fun predict => ?_⟩
    rw [hsame.spectral]
    unfold GM.spectral GM.eapAffinity
    rw [if_neg (by rw [hft]; simp), if_neg (by rw [hft]; simp)]

/-- The first fit returns unless the loop of `tail` does not end; then the rest follows. -/
theorem guide_total {I R0 R : C.State → Prop} {slow early : Prop} {s0 : C.State} (hω : ω.Legal) (hI : Tidy C ω I) (hW : Faithful W) (he : 0 < W.eps) (hV : Regular V fun _ => True)
    (hM : Means V fun _ => True) (hF : F.toMathFun = realFun) (hm : 0 < m) {g : ℕ} (hA : Able V (fun _ => True) g) {ys : List (Fin m → ℝ)} (hy : 2 ≤ ys.length) (hsp : Spread ys) (hg : 0 < g)
    (hgl : g ≤ ys.length) (hk : FindsGroups W ys g) (tol : ℝ) {s : VM V m Atom × ℕ} (hn : NewMixture s.1) (hS : Starts C ω R0 R True slow True early 0 s0) (hs : s.1.gm.wst.1 = s0)
    (hc : wp ω (C.complete (.int g)) (fun _ c => I c.1 ∧ (C.getW c.1).length = g) (fun _ _ => True) s.1.gm.wst) :
    (slow ∧ (fitGibbs F W (.rows ys) (.int g) false .kmeans ω s).1 = .error .outOfFuel) ∨
    ∃ t u, fitGibbs F W (.rows ys) (.int g) false .kmeans ω s = (.ok (), t) ∧
      fitVariational F W (.rows ys) (some (g : ℤ)) false (.fin tol) .kmeans ω t = (.ok (), u) ∧ GuideResults W ys.length u.1 := by
  have hcold : GoodStart W ys True 0 (clustersAsked s.1.gm.nAttr (.int g)) .kmeans := by
    refine ⟨hW.argsort, fun p => ?_⟩
    obtain ⟨l, h1, h2, -⟩ := hW.kmeans p ys g (by omega) (by exact_mod_cast hgl)
    exact ⟨l, by rw [hn.free]; exact h1, h2, .inl trivial⟩
  have hfit := fit_cold_total W hω hS.robust.strong hW.slices ys hy (.int g) .kmeans (s.1.gm, s.2)
    (.inr ⟨nofun, hS.complete _ (.inl hs) _ (g : ℤ) rfl (by omega)⟩) (fun h => by cases h) hn.steps hcold
  have e := congrFun (congrFun (fitGibbs_eq (F := F) (W := W) (V := V) (.rows ys) (.int g) false .kmeans (.inr nofun)) ω) s
  unfold wp at hfit
  unfold onGM at e
  rcases hr : GM.fitGibbs W (.rows ys) (.int g) false .kmeans ω (s.1.gm, s.2) with ⟨er | _, t⟩
  · rw [hr] at hfit e
    refine .inl ⟨hfit.1, ?_⟩
    rw [e, hfit.2]
  · rw [hr] at hfit e
    obtain ⟨u, hu, hres⟩ := guide_of_fit (J := fun _ => True) hI hW he hV hM hF hm hA hy hsp hg hgl hk tol hn hc e trivial hfit.1 hfit.2
    exact .inr ⟨_, u, e, hu, hres⟩

/-! ### The classes -/

/-- The first call of `complete` on a new stick-breaking structure. -/
theorem first_complete {C : WeightCore ℝ} {S : C.State → List ℝ} (hC : StickCore C S ω) {c : C.State × ℕ} (hv : S c.1 = []) (hw : C.getW c.1 = []) {g : ℕ} (hg : 0 < g) :
    wp ω (C.inheritTail.complete (.int g)) (fun _ t => StickState C S t.1 ∧ (C.inheritTail.getW t.1).length = g) (fun _ _ => True) c := by
  have hst : C.getW c.1 = stickWeights (S c.1) := by rw [hv, hw]; rfl
  refine wp_mono (hC (g : ℤ) c hst) (fun _ t h => ?_) fun _ _ _ => trivial
  have hlen := (h.2.len g rfl).2 (by omega) (by rw [hv]; simp)
  have hs := h.2.stick hst
  refine ⟨⟨hs, fun h0 => ?_⟩, ?_⟩
  · rw [h0] at hlen
    simp at hlen
    omega
  · show (C.getW t.1).length = g
    rw [hs, stickWeights_length]
    exact_mod_cast hlen

/-- **The quick guide**, `DirichletProcessMixture`: unless the loop of `tail` in the first fit does not end, all calls return. -/
theorem C130_dirichletProcess_partial (hω : ω.Legal) (hW : Faithful W) (he : 0 < W.eps) (hF : F.toMathFun = realFun) (hm : 0 < m) {alpha : ℝ} (ha : 0 < alpha) {g : ℕ} {ys : List (Fin m → ℝ)}
    (hy : 2 ≤ ys.length) (hsp : Spread ys) (hg : 0 < g) (hgl : g ≤ ys.length) (hk : FindsGroups W ys g) (tol : ℝ) (s : VM (varDP realFun) m Atom × ℕ) (hn : NewMixture s.1)
    (hs : s.1.gm.wst.1 = DP.init alpha) :
    (fitGibbs F W (.rows ys) (.int g) false .kmeans ω s).1 = .error .outOfFuel ∨
    ∃ t u, fitGibbs F W (.rows ys) (.int g) false .kmeans ω s = (.ok (), t) ∧
      fitVariational F W (.rows ys) (some (g : ℤ)) false (.fin tol) .kmeans ω t = (.ok (), u) ∧ GuideResults W ys.length u.1 := by
  refine (guide_total hω DP.tidy hW he regular_DP means_DP hF hm (able_DP realFun g) hy hsp hg hgl hk tol hn ((DP.stickOk hω).starts (DP.fine_one hω) (DP.fine_init ha)) hs
    (first_complete DP.stickCore ?_ ?_ hg)).imp And.right id <;> (rw [hs]; rfl)

/-- The quick guide with a `PitmanYorMixture`. -/
theorem C130_pitmanYor_partial (hω : ω.Legal) (hW : Faithful W) (he : 0 < W.eps) (hF : F.toMathFun = realFun) (hm : 0 < m) {pyd alpha : ℝ} (h0 : 0 ≤ pyd) (h1 : pyd < 1) (ha : 0 < alpha) {w : PY ℝ}
    (hw : PY.init pyd alpha = .ok w) {g : ℕ} {ys : List (Fin m → ℝ)}
    (hy : 2 ≤ ys.length) (hsp : Spread ys) (hg : 0 < g) (hgl : g ≤ ys.length) (hk : FindsGroups W ys g) (tol : ℝ) (s : VM (varPY realFun) m Atom × ℕ) (hn : NewMixture s.1)
    (hs : s.1.gm.wst.1 = w) :
    (fitGibbs F W (.rows ys) (.int g) false .kmeans ω s).1 = .error .outOfFuel ∨
    ∃ t u, fitGibbs F W (.rows ys) (.int g) false .kmeans ω s = (.ok (), t) ∧
      fitVariational F W (.rows ys) (some (g : ℤ)) false (.fin tol) .kmeans ω t = (.ok (), u) ∧ GuideResults W ys.length u.1 := by
  have hw' : w.v = [] ∧ w.w = [] := by
    unfold PY.init at hw
    split at hw
    · cases hw; exact ⟨rfl, rfl⟩
    · cases hw
  refine (guide_total hω PY.tidy hW he regular_PY means_PY hF hm (able_PY realFun g) hy hsp hg hgl hk tol hn ((PY.stickOk hω).starts (PY.fine_one hω) (PY.fine_init h0 h1 ha hw)) hs
    (first_complete PY.stickCore ?_ ?_ hg)).imp And.right id
  · rw [hs]; exact hw'.1
  · rw [hs]; exact hw'.2

/-- **The quick guide with a `GeometricProcessMixture`**: all calls return. -/
theorem C130_geometric (hω : ω.Legal) (hβ : ∀ i a b, 0 < ω.beta i a b) (hW : Faithful W) (he : 0 < W.eps) (hF : F.toMathFun = realFun) (hm : 0 < m) {a b p : ℝ} (ha : 0 < a) (hb : 0 < b)
    (hp0 : 0 < p) (hp1 : p ≤ 1) {g : ℕ} {ys : List (Fin m → ℝ)}
    (hy : 2 ≤ ys.length) (hsp : Spread ys) (hg : 0 < g) (hgl : g ≤ ys.length) (hk : FindsGroups W ys g) (tol : ℝ) (s : VM (varGeo realFun) m Atom × ℕ) (hn : NewMixture s.1)
    (hs : s.1.gm.wst.1 = Geo.init a b p) :
    ∃ t u, fitGibbs F W (.rows ys) (.int g) false .kmeans ω s = (.ok (), t) ∧
      fitVariational F W (.rows ys) (some (g : ℤ)) false (.fin tol) .kmeans ω t = (.ok (), u) ∧ GuideResults W ys.length u.1 := by
  have hinit := Geo.fine_init ha hb hp0 hp1
  have hS : Starts Geo.cls ω (Mix.Drawn Geo.core Geo.v Geo.Fine) (Mix.DrawnNe Geo.core Geo.v Geo.Fine) True False True False 0 (Geo.init a b p) := by
    refine ⟨Geo.robust hω hβ, fun t ht => ?_, fun t ht g n hg hn => ?_, False.elim⟩
    · rcases ht with rfl | ⟨-, ht⟩
      · exact Geo.startsTail hω hβ hinit _
      · exact Geo.startsTail hω hβ ⟨ht.1, ht.2.1⟩ _
    · have ht' : Mix.Drawn Geo.core Geo.v Geo.Fine t := by
        rcases ht with rfl | ⟨-, ht⟩
        · exact hinit
        · exact ⟨ht.1, ht.2.1⟩
      exact (Geo.stickOk hω hβ).startsComplete ht' hg hn _
  refine (guide_total hω Geo.tidy hW he regular_Geo means_Geo hF hm (able_Geo realFun hg) hy hsp hg hgl hk tol hn hS hs ?_).resolve_left fun h => h.1
  have hv : (show Geo ℝ from s.1.gm.wst.1).v = [] := by rw [hs]; rfl
  refine (wp_bind (Geo.complete _) _).2 <| wp_mono (Geo.complete_post (.int g) s.1.gm.wst (by intro x hx; rw [hv] at hx; cases hx)) (fun _ t h => ?_) fun _ _ _ => trivial
  show Geo.Drawn _ ∧ _
  have hlen := (h.2.2.2.2.2.len g rfl).2 (by omega) (by rw [hv]; simp)
  have hst := h.2.2.2.2.2.stick (by rw [hs]; rfl)
  refine ⟨⟨hst, fun h0 => ?_, h.2.2.2.2.1⟩, ?_⟩
  · rw [h0] at hlen
    simp at hlen
    omega
  · show (show Geo ℝ from t.1).w.length = g
    rw [hst, stickWeights_length]
    exact_mod_cast hlen

/-! ### Another `init_method` -/

/-- A possible run: the first atoms drawn are close to the data, the later ones are not. -/
def closeFirst : World ℚ 1 ℚ := { world with atom := fun p _ => if p < 10 then 1 / 2 else 7 }

/-- **With `init_method="random"` the guide may fail**: `fit_gibbs([0, 1], init_groups=2, init_method="random")` returns, and `gibbs_map_cluster()` raises `KeyError`. -/
theorem C130_random_refuted : let t := GM.run closeFirst halfSticks (dpObj 1 1 0 1, 0) [⟨rows1 [0, 1], .int 2, false, .random⟩]
    t.1.gibbsFitted = true ∧ (t.1.mapParams.map fun p => (p.w.length, p.theta.length)) = some (2, 1) ∧ GM.mapCluster closeFirst t.1 none = .error .keyError := by
  decide +kernel

/-! ### The hypotheses are met -/

/-- A generator whose beta draws are all `1/2`. -/
noncomputable def evenSticks : Oracle ℝ := { demo with beta := fun _ _ _ => 1 / 2 }

theorem evenSticks_legal : evenSticks.Legal :=
  { (demo_legal : (demo : Oracle ℝ).Legal) with
    beta_nonneg := fun i a b => by norm_num [evenSticks],
    beta_le_one := fun i a b => by norm_num [evenSticks] }

theorem std_findsGroups : FindsGroups (stdWorld 1) [![0], ![1], ![5]] 2 := by
  intro p raw h
  have h' : (.ok ((List.range 3).map (fun i => i % 2)) : Except PyErr (List ℕ)) = .ok raw := h
  cases h'
  decide

theorem three_spread : Spread [![(0 : ℝ)], ![1], ![5]] := by
  intro x hx
  by_contra hno
  push Not at hno
  have h1 := hno ![1] (by simp) ![0] (by simp)
  simp at h1
  apply hx
  ext i
  fin_cases i
  exact h1

/-- A `GeometricProcessMixture(total_iter=4, burn_in=2)`, three observations, two groups, and any library functions. -/
example (F : VWorld ℝ 1) (hF : F.toMathFun = realFun) : ∃ t u,
    fitGibbs F (stdWorld 1) (.rows [![0], ![1], ![5]]) (.int 2) false .kmeans evenSticks (VM.init (varGeo realFun) (blank Geo.cls none 4 2 (Geo.init 1 1 (1 / 2))), 0) = (.ok (), t) ∧
      fitVariational F (stdWorld 1) (.rows [![0], ![1], ![5]]) (some 2) false (.fin 1) .kmeans evenSticks t = (.ok (), u) ∧ GuideResults (stdWorld 1) 3 u.1 :=
  C130_geometric evenSticks_legal (fun _ _ _ => by simp only [evenSticks]; norm_num) (std_faithful 1) (by simp [stdWorld]) hF one_pos one_pos one_pos (by norm_num) (by norm_num) (by simp) three_spread
    (g := 2) (by omega) (by simp) std_findsGroups 1 _ ⟨rfl, rfl, rfl, rfl, one_pos, by simp [VM.init, blank], by simp [VM.init, blank], rfl, rfl⟩ rfl

end Verif.Mix.VM
