import Verif.Lemmas.Apart
import Verif.Lemmas.VarDemo
import Verif.Model.Results

/-!
# C129: the two ways of fitting do not overwrite each other's results

After further calls of `fit_variational`, whether they return or raise, every `gibbs_*` result at given points and every stored list is what it was; after
further calls of `fit_gibbs` every `var_*` result at given points is what it was, for all weight classes with a variational interface.  The claim is false for queries without points
(they use the data of the last fit of either kind) and for `fit_gibbs(init_method="variational")`, which refits.
-/

set_option linter.unusedSectionVars false

namespace Verif.Mix.VM
variable {K : Type} [Field K] [LinearOrder K] [IsStrictOrderedRing K] {m : ℕ} {C : WeightClass K} {V : VarClass C} {Atom : Type}
variable {ω : Oracle K} {W : World K m Atom} {F : VWorld K m}

/-! ### Specification -/

/-- The `gibbs_*` results of two objects agree: at all given points, and the affinity matrix and lists of the fitted data. -/
structure SameGibbs (W : World K m Atom) (s t : GM C m Atom) : Prop where
  eap : ∀ q dim component periods, GM.eapDensity W t (some q) dim component periods = GM.eapDensity W s (some q) dim component periods
  map : ∀ q dim component, GM.mapDensity W t (some q) dim component = GM.mapDensity W s (some q) dim component
  affinity : GM.eapAffinity t = GM.eapAffinity s
  affinityAt : ∀ q, GM.eapAffinityAt W t q = GM.eapAffinityAt W s q
  cluster : ∀ q, GM.mapCluster W t (some q) = GM.mapCluster W s (some q)
  spectral : ∀ predict q, GM.spectral W predict t q = GM.spectral W predict s q
  getters : GM.getters t = GM.getters s

/-- The `var_*` results of two objects agree: at all given points, and the labels and affinities of the fitted data. -/
structure SameVar (F : MathFun K) (W : World K m Atom) (s t : VM V m Atom) : Prop where
  eap : ∀ c (xs : List (Fin c → K)) dim component, varEapDensity F t (.given c xs) dim component = varEapDensity F s (.given c xs) dim component
  map : ∀ c (xs : List (Fin c → K)) dim component, varMapDensity F t (.given c xs) dim component = varMapDensity F s (.given c xs) dim component
  affinity : ∀ q, varAffinity F W t q = varAffinity F W s q
  spectral : ∀ predict q, varSpectral F W predict t q = varSpectral F W predict s q
  cluster : ∀ q full, varMapCluster F W t q full = varMapCluster F W s q full

/-- A call of `fit_variational`. -/
def Fit.OnlyVar : Fit K m → Prop
  | .var .. => True
  | .gibbs _ => False

/-- A call of `fit_gibbs` that does not start from `fit_variational`. -/
def Fit.OnlyGibbs : Fit K m → Prop
  | .var .. => False
  | .gibbs a => a.warm = true ∨ a.method ≠ .variational

/-! ### `fit_variational` -/

theorem sameGibbs_of_rec {s t : GM C m Atom} (h : gibbsRec t = gibbsRec s) : SameGibbs W s t := by
  simp only [gibbsRec, GibbsRec.mk.injEq] at h
  obtain ⟨h1, h2, h3, h4, h5, h6, -, h8⟩ := h
  have ea : GM.eapAffinity t = GM.eapAffinity s := by unfold GM.eapAffinity; rw [h8, h4, h5]
  have eat : ∀ q, GM.eapAffinityAt W t q = GM.eapAffinityAt W s q := by
    intro q
    unfold GM.eapAffinityAt
    rw [h8, h1]
    cases q <;> rfl
  refine ⟨?_, ?_, ea, eat, ?_, ?_, ?_⟩
  · intro q dim component periods
    unfold GM.eapDensity
    rw [h8, h1]
    cases q <;> rfl
  · intro q dim component
    unfold GM.mapDensity
    rw [h8, h6]
    cases q <;> rfl
  · intro q
    unfold GM.mapCluster
    rw [h8, h6]
    cases q <;> rfl
  · intro predict q
    unfold GM.spectral
    rw [h8]
    cases q with
    | none => simp only [ea]
    | some q => simp only [eat]
  · unfold GM.getters
    rw [h1, h2, h3]

/-- **The Gibbs results survive variational fits**: any number of calls, any arguments, returning or raising. -/
theorem C129_gibbs_partial (s : VM V m Atom × ℕ) (ops : List (Fit K m)) (h : ∀ f ∈ ops, f.OnlyVar) : SameGibbs W s.1.gm (runFits F W ω s ops).1.gm := by
  refine sameGibbs_of_rec ?_
  induction ops generalizing s with
  | nil => rfl
  | cons f ops ih =>
    have e : runFits F W ω s (f :: ops) = runFits F W ω (doFit F W f ω s).2 ops := rfl
    rw [e, ih _ fun f hf => h f (List.mem_cons_of_mem _ hf)]
    have hf := h f (List.mem_cons_self ..)
    cases f with
    | gibbs a => exact hf.elim
    | var y n w t i => exact (fitVariational_rec y n w t i s).1

/-! ### `fit_gibbs` -/

/-- What the result methods read of the weight object. -/
def SameMeans (V : VarClass C) (c c' : C.State) : Prop :=
  ∀ v j, V.meanLogW c' v j = V.meanLogW c v j ∧ V.meanW c' v j = V.meanW c v j ∧ V.modeW c' v j = V.modeW c v j

/-- The Gibbs sampler does not change what the result methods read of the weight object. -/
def KeepsMeans (V : VarClass C) (ω : Oracle K) : Prop :=
  ∀ c0 : C.State, ∃ I : C.State → Prop, C.toWeightCore.Stable ω I ∧ (∀ f x, Keeps ω I (C.tail f x)) ∧ I c0 ∧ ∀ c, I c → SameMeans V c0 c

theorem sameVar_of {G : MathFun K} {s t : VM V m Atom} (h : t = { s with gm := t.gm }) (hm : SameMeans V s.gm.wst.1 t.gm.wst.1) : SameVar G W s t := by
  have h1 : t.varFitted = s.varFitted := by rw [h]
  have h2 : t.varTheta = s.varTheta := by rw [h]
  have h3 : t.varK = s.varK := by rw [h]
  have h4 : t.varD = s.varD := by rw [h]
  have h5 : t.vst = s.vst := by rw [h]
  have hw : V.meanW t.gm.wst.1 t.vst = V.meanW s.gm.wst.1 s.vst := by rw [h5]; funext j; exact (hm _ j).2.1
  have hmode : V.modeW t.gm.wst.1 t.vst = V.modeW s.gm.wst.1 s.vst := by rw [h5]; funext j; exact (hm _ j).2.2
  have hl : ∀ js, logWeights V t.gm.wst.1 t.vst js = logWeights V s.gm.wst.1 s.vst js := by
    intro js
    rw [h5]
    induction js with
    | nil => rfl
    | cons j js ih => unfold logWeights; rw [(hm _ j).1, ih]
  have hc : ∀ component, components t component = components s component := by
    intro component
    unfold components
    rw [h2]
  have ha : ∀ q, varAffinity G W t q = varAffinity G W s q := by
    intro q
    unfold varAffinity newColumns
    rw [h1, h4, h3, h2, hl]
  refine ⟨?_, ?_, ha, ?_, ?_⟩
  · intro c xs dim component
    unfold varEapDensity
    rw [h1, hc, hw]
    rfl
  · intro c xs dim component
    unfold varMapDensity
    rw [h1, hc, hmode]
    rfl
  · intro predict q
    unfold varSpectral
    rw [h1, ha]
  · intro q full
    unfold varMapCluster
    simp only [h1, h4, h3, h2, hl]

/-- **The variational results survive Gibbs fits** that do not start from `fit_variational`: any number of calls, any arguments, returning or raising. -/
theorem C129_var_partial (hV : KeepsMeans V ω) (G : MathFun K) (s : VM V m Atom × ℕ) (ops : List (Fit K m)) (h : ∀ f ∈ ops, f.OnlyGibbs) : SameVar G W s.1 (runFits F W ω s ops).1 := by
  obtain ⟨I, hS, ht, h0, hI⟩ := hV s.1.gm.wst.1
  have key : ∀ (ops : List (Fit K m)) (u : VM V m Atom × ℕ), (∀ f ∈ ops, f.OnlyGibbs) → u.1 = { s.1 with gm := u.1.gm } → I u.1.gm.wst.1 →
      (runFits F W ω u ops).1 = { s.1 with gm := (runFits F W ω u ops).1.gm } ∧ I (runFits F W ω u ops).1.gm.wst.1 := by
    intro ops
    induction ops with
    | nil => exact fun u _ h1 h2 => ⟨h1, h2⟩
    | cons f ops ih =>
      intro u hops h1 h2
      have e : runFits F W ω u (f :: ops) = runFits F W ω (doFit F W f ω u).2 ops := rfl
      rw [e]
      have hf := hops f (List.mem_cons_self ..)
      refine ih _ (fun f hf => hops f (List.mem_cons_of_mem _ hf)) ?_ ?_
      · cases f with
        | var => exact hf.elim
        | gibbs a =>
          show ((fitGibbs F W a.y a.initGroups a.warm a.method : M K (VM V m Atom) Unit) ω u).2.1 = _
          rw [show doFit F W (.gibbs a) = (fitGibbs F W a.y a.initGroups a.warm a.method : M K (VM V m Atom) Unit) from rfl, fitGibbs_eq _ _ _ _ hf]
          unfold onGM
          rcases GM.fitGibbs W a.y a.initGroups a.warm a.method ω (u.1.gm, u.2) with ⟨e | a, t⟩ <;>
          · simp only []
            rw [h1]
      · cases f with
        | var => exact hf.elim
        | gibbs a =>
          have := KeepsR.keeps (GM.fitGibbs_onW W hS ht a.y a.initGroups a.warm a.method) (u.1.gm, u.2) h2
          rw [show doFit F W (.gibbs a) = (fitGibbs F W a.y a.initGroups a.warm a.method : M K (VM V m Atom) Unit) from rfl, fitGibbs_eq _ _ _ _ hf]
          unfold onGM
          revert this
          rcases GM.fitGibbs W a.y a.initGroups a.warm a.method ω (u.1.gm, u.2) with ⟨e | a, t⟩ <;> exact fun h => h
  obtain ⟨h1, h2⟩ := key ops s h rfl h0
  exact sameVar_of h1 (hI _ h2)

/-- All weight classes with a variational interface. -/
theorem C129_classes (G : MathFun K) : KeepsMeans (varDP G) ω ∧ KeepsMeans (varPY G) ω ∧ KeepsMeans (varDirDist G) ω ∧ KeepsMeans (varEqual G) ω ∧ KeepsMeans (varFreq G) ω := by
  refine ⟨fun c0 => ?_, fun c0 => ?_, fun c0 => ?_, fun c0 => ?_, fun c0 => ?_⟩
  · exact ⟨_, DP.hyper_stable (fun _ => True), fun f x => tail_keeps (DP.hyper_stable (fun _ => True)) x f, trivial, fun _ _ _ _ => ⟨rfl, rfl, rfl⟩⟩
  · exact ⟨_, PY.hyper_stable (fun _ => True), fun f x => tail_keeps (PY.hyper_stable (fun _ => True)) x f, trivial, fun _ _ _ _ => ⟨rfl, rfl, rfl⟩⟩
  · exact ⟨_, DirDist.hyper_stable (fun _ => True), fun f x => tail_keeps (DirDist.hyper_stable (fun _ => True)) x f, trivial, fun _ _ _ _ => ⟨rfl, rfl, rfl⟩⟩
  · have hs : (Equal.core : WeightCore K).Stable ω (fun s : Equal K => s.hyper = (c0 : Equal K).n) := Equal.hyper_stable (· = (c0 : Equal K).n)
    refine ⟨_, hs, fun f x => tail_keeps hs x f, rfl, fun c h v j => ?_⟩
    have h' : (show Equal K from c).n = (show Equal K from c0).n := h
    simp only [varEqual, h', and_self]
  · have hs : (Freq.core : WeightCore K).Stable ω (fun s : Freq K => s.hyper = (c0 : Freq K).n) := Freq.hyper_stable (· = (c0 : Freq K).n)
    refine ⟨_, hs, fun f x => tail_keeps hs x f, rfl, fun c h v j => ?_⟩
    have h' : (show Freq K from c).n = (show Freq K from c0).n := h
    simp only [varFreq, h', and_self]

theorem C129_geometric {ω : Oracle ℝ} (G : MathFun ℝ) : KeepsMeans (varGeo G) ω := fun _ =>
  ⟨_, Geo.hyper_stable (fun _ => True), fun _ x => (Geo.tail_hyper (fun _ => True) x).keeps, trivial, fun _ _ _ _ => ⟨rfl, rfl, rfl⟩⟩

/-! ### Where it fails -/

/-- Without points: after a variational fit to other data, `gibbs_eap_density()`, `gibbs_map_density()` and `gibbs_map_cluster()` answer for the data of that fit. -/
theorem C129_default (s : VM V m Atom × ℕ) (ys : List (Fin m → K)) (n : Option ℤ) (w : Bool) (tol : Fl K) (i : VarInit) (dim : Dim) (component : Option ℕ) (periods : Option ℤ) :
    GM.eapDensity W (runFits F W ω s [.var (.rows ys) n w tol i]).1.gm none dim component periods = GM.eapDensity W s.1.gm (some (.rows ys)) dim component periods ∧
    GM.mapDensity W (runFits F W ω s [.var (.rows ys) n w tol i]).1.gm none dim component = GM.mapDensity W s.1.gm (some (.rows ys)) dim component ∧
    GM.mapCluster W (runFits F W ω s [.var (.rows ys) n w tol i]).1.gm none = GM.mapCluster W s.1.gm (some (.rows ys)) := by
  have h := C129_gibbs_partial (F := F) (W := W) (ω := ω) s [.var (.rows ys) n w tol i] (by intro f hf; rw [List.mem_singleton.1 hf]; trivial)
  have hy : (runFits F W ω s [.var (.rows ys) n w tol i]).1.gm.y = ys := (fitVariational_rec (.rows ys) n w tol i s).2
  refine ⟨?_, ?_, ?_⟩
  · rw [← h.eap]
    unfold GM.eapDensity GM.queryRows
    rw [hy]
  · rw [← h.map]
    unfold GM.mapDensity GM.queryRows
    rw [hy]
  · rw [← h.cluster]
    unfold GM.mapCluster GM.queryRows
    rw [hy]

/-- Sticks of one half. -/
def halfSticks : Oracle ℚ := { demo with beta := fun _ _ _ => 1 / 2 }

/-- A Dirichlet process mixture fitted by the Gibbs sampler to two observations. -/
def twoFit : VM (varDP demoFun) 1 ℚ × ℕ := runFits vworld world halfSticks (dpVM 1, 0) [.gibbs ⟨rows1 [0, 1], .int 2, false, .kmeans⟩]

/-- The variational fit to three observations that follows. -/
def thenVar : Fit ℚ 1 := .var (rows1 [0, 1, 5]) (some 2) false (.fin 0) .kmeans

/-- **False without points**: the density at the two observations of `fit_gibbs` becomes a density at the three observations of `fit_variational`. -/
theorem C129_default_refuted : (GM.eapDensity world twoFit.1.gm none .none none none).toOption.map List.length = some 2 ∧
    (GM.eapDensity world (runFits vworld world halfSticks twoFit [thenVar]).1.gm none .none none none).toOption.map List.length = some 3 := by decide +kernel

/-- **False for `init_method="variational"`**: `fit_gibbs` refits, and the variational labels are those of the new data. -/
theorem C129_start_refuted :
    varMapCluster demoFun world (runFits vworld world halfSticks (dpVM 1, 0) [thenVar]).1 .none false = .ok (.labels [0, 0, 0]) ∧
    varMapCluster demoFun world (runFits vworld world halfSticks (dpVM 1, 0) [thenVar, .gibbs ⟨rows1 [0, 1], .int 2, false, .variational⟩]).1 .none false = .ok (.labels [0, 0]) := by
  decide +kernel

/-! ### The hypotheses are met -/

example : thenVar.OnlyVar ∧ twoFit.1.gm.gibbsFitted = true ∧ (runFits vworld world halfSticks twoFit [thenVar]).1.varFitted = true := ⟨trivial, by decide +kernel, by decide +kernel⟩

example : (Fit.gibbs ⟨rows1 [0, 1], .int 2, false, .kmeans⟩ : Fit ℚ 1).OnlyGibbs ∧ (runFits vworld world halfSticks (dpVM 1, 0) [thenVar]).1.varFitted = true ∧
    (runFits vworld world halfSticks (dpVM 1, 0) [thenVar, .gibbs ⟨rows1 [0, 1], .int 2, false, .kmeans⟩]).1.gm.gibbsFitted = true := ⟨.inr nofun, by decide +kernel, by decide +kernel⟩
end Verif.Mix.VM
