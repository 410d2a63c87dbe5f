import Verif.Lemmas.VarGibbs

/-! # The priors on the object are written by `_initialize_common_params` only -/

set_option linter.unusedSectionVars false

namespace Verif.Mix.VM
open Verif.Fl
variable {K : Type} [Field K] [LinearOrder K] [IsStrictOrderedRing K] {m : ℕ} {C : WeightClass K} {V : VarClass C} {Atom : Type}
variable {ω : Oracle K} {W : World K m Atom} {F : VWorld K m}

/-- The four parts of the prior. -/
def priorsOf (s : GM C m Atom) : Option (Fin m → K) × K × Option (Fin m → Fin m → K) × Option K := (s.muPrior, s.lam, s.psiPrior, s.nuPrior)

/-- All parts are set, to the parts of `q`. -/
def HasPrior (q : NIW K m) (s : GM C m Atom) : Prop := priorsOf s = (some q.mu, q.lam, some q.psi, some q.nu)

theorem keeps_onGM_prior {α : Type} {q : NIW K m} {R : α → Prop} {x : M K (GM C m Atom) α} (h : KeepsR ω (HasPrior q) x R) :
    KeepsR ω (fun s : VM V m Atom => HasPrior q s.gm) (onGM x) R := by
  refine KeepsR.of_wp fun s hs => ?_
  rw [wp_onGM]
  exact wp_mono (h.wp hs) (fun a t h => h) (fun e t h => h)

theorem prior_of_frame {α : Type} {q : NIW K m} {x : M K (GM C m Atom) α} (h : ∀ c, KeepsR ω (fun s : GM C m Atom => GM.frame s = c) x (fun _ => True)) :
    KeepsR ω (HasPrior q) x (fun _ => True) := by
  have key : ∀ t s : GM C m Atom, GM.frame t = GM.frame s → HasPrior q s → HasPrior q t := by
    intro t s h hs
    have : priorsOf t = priorsOf s := congrArg (fun f : GM.Frame K m Atom => (f.muPrior, f.lam, f.psiPrior, f.nuPrior)) h
    exact this.trans hs
  refine KeepsR.of_wp fun s hs => wp_mono (KeepsR.wp (h (GM.frame s.1)) rfl) ?_ ?_
  · exact fun _ t h => ⟨key t.1 s.1 h.1 hs, trivial⟩
  · exact fun _ t h => key t.1 s.1 h hs

theorem initCommon_hasPrior {q : NIW K m} (y : YArg K m) : KeepsR ω (HasPrior q) (GM.initCommon y : M K (GM C m Atom) Unit) (fun _ => True) := by
  cases y with
  | rows ys =>
    unfold GM.initCommon
    refine KeepsR.assign (fun s h => ?_)
    unfold HasPrior priorsOf at h ⊢
    simp only [Prod.mk.injEq] at h ⊢
    obtain ⟨h1, h2, h3, h4⟩ := h
    rw [h1, h2, h3, h4]
    exact ⟨rfl, rfl, rfl, rfl⟩
  | invalid => exact KeepsR.raise _

theorem startGibbs_hasPrior {q : NIW K m} (g : PySize) : KeepsR ω (HasPrior q) (startGibbs W g : M K (GM C m Atom) Unit) (fun _ => True) := by
  unfold startGibbs
  exact KeepsR.bind (KeepsR.assign (fun _ h => h)) fun _ _ => KeepsR.bind KeepsR.self fun _ _ => KeepsR.bind (GM.keeps_draws _ _) fun _ _ =>
    KeepsR.bind (KeepsR.assign (fun _ h => h)) fun _ _ => prior_of_frame (fun c => GM.initWeights_frame W c g)

theorem record_hasPrior {q : NIW K m} (k i : ℕ) : KeepsR ω (HasPrior q) (GM.record W k i : M K (GM C m Atom) Unit) (fun _ => True) := by
  refine GM.record_keeps W (fun s t h hs => ?_) ?_ k i
  · have : priorsOf t = priorsOf s := congrArg (fun f : GM.Frame K m Atom => (f.muPrior, f.lam, f.psiPrior, f.nuPrior)) h
    exact this.trans hs
  unfold GM.saveParams
  exact KeepsR.bind (KeepsR.assign fun s h => h) fun _ _ => KeepsR.bind KeepsR.self fun s _ =>
    KeepsR.bind (KeepsR.lift _) fun _ _ => KeepsR.assign fun s h => h

section
variable {q : NIW K m}

theorem updateVarD_hasPrior {G : MathFun K} : KeepsR ω (fun s : VM V m Atom => HasPrior q s.gm) (updateVarD G W : M K (VM V m Atom) Unit) (fun _ => True) := by
  unfold updateVarD
  refine KeepsR.bind KeepsR.self (fun t ht => ?_)
  cases t.varK with
  | none => exact KeepsR.raise _
  | some k =>
    simp only []
    exact KeepsR.ite (fun _ => KeepsR.raise _) (fun _ => KeepsR.bind (KeepsR.lift _) (fun _ _ =>
      KeepsR.ite (fun _ => KeepsR.raise _) (fun _ => KeepsR.assign (fun _ h => h))))

theorem fitWeights_hasPrior (r : List (List (Fl K))) : KeepsR ω (fun s : VM V m Atom => HasPrior q s.gm) (fitWeights r : M K (VM V m Atom) Unit) (fun _ => True) := by
  unfold fitWeights
  exact KeepsR.bind KeepsR.self (fun _ _ => KeepsR.bind (KeepsR.lift _) (fun _ _ => KeepsR.assign (fun _ h => h)))

theorem updateVarW_hasPrior : KeepsR ω (fun s : VM V m Atom => HasPrior q s.gm) (updateVarW : M K (VM V m Atom) Unit) (fun _ => True) := by
  unfold updateVarW
  exact KeepsR.bind KeepsR.self (fun _ _ => fitWeights_hasPrior _)

theorem updateVarTheta_hasPrior : KeepsR ω (fun s : VM V m Atom => HasPrior q s.gm) (updateVarTheta : M K (VM V m Atom) Unit) (fun _ => True) := by
  unfold updateVarTheta
  exact KeepsR.bind KeepsR.self (fun _ _ => KeepsR.bind (KeepsR.lift _) (fun _ _ => KeepsR.assign (fun _ h => h)))

theorem maximize_hasPrior {G : MathFun K} : KeepsR ω (fun s : VM V m Atom => HasPrior q s.gm) (maximize G W : M K (VM V m Atom) Unit) (fun _ => True) :=
  KeepsR.bind updateVarD_hasPrior fun _ _ => KeepsR.bind updateVarW_hasPrior fun _ _ => updateVarTheta_hasPrior

theorem drawAtoms_hasPrior (k : ℕ) : KeepsR ω (fun s : VM V m Atom => HasPrior q s.gm) (drawAtoms F k : M K (VM V m Atom) Unit) (fun _ => True) := by
  induction k with
  | zero => exact KeepsR.pure trivial
  | succ k ih =>
    unfold drawAtoms
    exact KeepsR.bind KeepsR.self fun _ _ => KeepsR.bind (keepsV_draw1 _) fun _ _ => KeepsR.bind (KeepsR.lift _) fun _ _ =>
      KeepsR.bind (KeepsR.assign (fun _ h => h)) fun _ _ => ih

theorem initVar_hasPrior (k : ℤ) (method : VarInit) : KeepsR ω (fun s : VM V m Atom => HasPrior q s.gm) (initVar F W k method : M K (VM V m Atom) Unit) (fun _ => True) := by
  cases method with
  | kmeans =>
    unfold initVar
    refine KeepsR.bind (KeepsR.assign (fun _ h => h)) fun _ _ => KeepsR.bind KeepsR.self fun _ _ => KeepsR.bind (keepsV_draw1 _) fun _ _ =>
      KeepsR.bind (KeepsR.lift _) fun _ _ => KeepsR.ite (fun _ => KeepsR.raise _) fun _ => KeepsR.ite (fun _ => KeepsR.raise _) fun _ => ?_
    exact KeepsR.bind (KeepsR.assign (fun _ h => h)) fun _ _ => KeepsR.bind (fitWeights_hasPrior _) fun _ _ => KeepsR.bind updateVarTheta_hasPrior fun _ _ =>
      KeepsR.bind updateVarD_hasPrior fun _ _ => updateVarW_hasPrior
  | random =>
    unfold initVar
    exact KeepsR.bind (KeepsR.assign (fun _ h => h)) fun _ _ => KeepsR.bind (drawAtoms_hasPrior _) fun _ _ => KeepsR.ite (fun _ => KeepsR.raise _) fun _ =>
      KeepsR.ite (fun _ => KeepsR.raise _) fun _ => KeepsR.bind (KeepsR.assign (fun _ h => h)) fun _ _ => updateVarW_hasPrior
  | unknown =>
    unfold initVar
    exact KeepsR.bind (KeepsR.assign (fun _ h => h)) fun _ _ => KeepsR.raise _

theorem varLoop_hasPrior {G : MathFun K} (tol : Fl K) : ∀ (n : ℕ) (elbo diff : Fl K) (it : ℤ),
    KeepsR ω (fun s : VM V m Atom => HasPrior q s.gm) (varLoop G W tol n elbo diff it : M K (VM V m Atom) ℤ) (fun _ => True) := by
  intro n
  induction n with
  | zero => intro _ _ _; exact KeepsR.raise _
  | succ n ih =>
    intro elbo diff it
    unfold varLoop
    exact KeepsR.bind KeepsR.self fun _ _ => KeepsR.ite (fun _ => KeepsR.bind maximize_hasPrior fun _ _ => KeepsR.bind KeepsR.self fun _ _ =>
      KeepsR.bind (KeepsR.lift _) fun _ _ => ih _ _ _) (fun _ => KeepsR.pure trivial)

/-- `fit_variational` after its first line. -/
theorem restVar_hasPrior (nG : Option ℤ) (warm : Bool) (tol : Fl K) (method : VarInit) : KeepsR ω (fun s : VM V m Atom => HasPrior q s.gm) (do
    M.whenM (warm = false) do
      let s ← M.self
      match nG, s.gm.nAttr with
      | some k, _ => initVar F W k method
      | none, some n => initVar F W n method
      | none, none => M.raise .attributeError
    let s ← M.self
    let it ← varLoop F.toMathFun W tol (s.gm.totalIter.toNat + 1) .ninf .pinf 0
    M.assign (fun s => { s with
        varFitted := true
        varConverged := s.varConverged || decide (it < s.gm.totalIter) }) : M K (VM V m Atom) Unit) (fun _ => True) := by
  refine KeepsR.bind (R := fun _ => True) (KeepsR.whenM (fun _ => KeepsR.bind KeepsR.self fun s _ => ?_)) fun _ _ =>
    KeepsR.bind KeepsR.self fun _ _ => KeepsR.bind (varLoop_hasPrior _ _ _ _ _) fun _ _ => KeepsR.assign fun _ h => h
  cases nG with
  | some k => exact initVar_hasPrior _ _
  | none =>
    cases s.gm.nAttr with
    | some n => exact initVar_hasPrior _ _
    | none => exact KeepsR.raise _

theorem fitVariational_hasPrior (y : YArg K m) (nG : Option ℤ) (warm : Bool) (tol : Fl K) (method : VarInit) :
    KeepsR ω (fun s : VM V m Atom => HasPrior q s.gm) (fitVariational F W y nG warm tol method : M K (VM V m Atom) Unit) (fun _ => True) :=
  KeepsR.bind (keeps_onGM_prior (initCommon_hasPrior y)) fun _ _ => restVar_hasPrior nG warm tol method

/-- `fit_gibbs` after its first line. -/
theorem restGibbs_hasPrior (g : PySize) (warm : Bool) (method : InitMethod) : KeepsR ω (fun s : VM V m Atom => HasPrior q s.gm) (do
    M.whenM (warm = false) do
      onGM (startGibbs W g)
      let d ← startLabels F W g method
      M.assign (fun s => { s with gm := { s.gm with d := d } })
      onGM (GM.updateMap W)
    let s ← M.self
    onGM (GM.burn W s.gm.burnIn.toNat)
    onGM (GM.record W (s.gm.totalIter - s.gm.burnIn).toNat 0)
    M.assign (fun s => { s with gm := { s.gm with gibbsFitted := true } }) : M K (VM V m Atom) Unit) (fun _ => True) := by
  refine KeepsR.bind (R := fun _ => True) (KeepsR.whenM (fun _ => KeepsR.bind (keeps_onGM_prior (startGibbs_hasPrior g)) fun _ _ => KeepsR.bind (R := fun _ => True) ?_ fun _ _ =>
      KeepsR.bind (KeepsR.assign fun _ h => h) fun _ _ => keeps_onGM_prior (prior_of_frame fun c => GM.updateMap_frame c W))) fun _ _ =>
    KeepsR.bind KeepsR.self fun _ _ => KeepsR.bind (keeps_onGM_prior (prior_of_frame fun c => GM.burn_frame c W _)) fun _ _ =>
      KeepsR.bind (keeps_onGM_prior (record_hasPrior _ _)) fun _ _ => KeepsR.assign fun _ h => h
  have hlab : ∀ method, KeepsR ω (fun s : VM V m Atom => HasPrior q s.gm) (onGM (GM.initLabels W g method) : M K (VM V m Atom) (List ℕ)) (fun _ => True) :=
    fun method => keeps_onGM_prior (prior_of_frame fun c => GM.initLabels_frame W c g method)
  cases method with
  | variational =>
    unfold startLabels
    refine KeepsR.bind KeepsR.self fun _ _ => KeepsR.bind (fitVariational_hasPrior _ _ _ _ _) fun _ _ => KeepsR.bind KeepsR.self fun _ _ => KeepsR.bind (KeepsR.lift _) fun r _ => ?_
    cases r with
    | labels d => exact KeepsR.pure trivial
    | _ => exact KeepsR.raise _
  | kmeans => exact hlab .kmeans
  | random => exact hlab .random
  | unknown => exact hlab .unknown

theorem fitGibbs_hasPrior (y : YArg K m) (g : PySize) (warm : Bool) (method : InitMethod) :
    KeepsR ω (fun s : VM V m Atom => HasPrior q s.gm) (fitGibbs F W y g warm method : M K (VM V m Atom) Unit) (fun _ => True) :=
  KeepsR.bind (keeps_onGM_prior (initCommon_hasPrior y)) fun _ _ => restGibbs_hasPrior g warm method

theorem doFit_hasPrior (f : Fit K m) : KeepsR ω (fun s : VM V m Atom => HasPrior q s.gm) (doFit F W f : M K (VM V m Atom) Unit) (fun _ => True) := by
  cases f with
  | gibbs a => exact fitGibbs_hasPrior _ _ _ _
  | var y n w t i => exact fitVariational_hasPrior _ _ _ _ _
end

/-- The data of a fit. -/
def Fit.rowsOf : Fit K m → YArg K m
  | .gibbs a => a.y
  | .var y _ _ _ _ => y

theorem prior_after {α : Type} {q : NIW K m} {x : M K (VM V m Atom) α} (hx : KeepsR ω (fun s : VM V m Atom => HasPrior q s.gm) x (fun _ => True))
    (t : VM V m Atom × ℕ) (ht : HasPrior q t.1.gm) : HasPrior q (x ω t).2.1.gm := by
  have := hx.wp ht
  unfold wp at this
  rcases hr : x ω t with ⟨e | a, u⟩
  · rw [hr] at this
    exact this
  · rw [hr] at this
    exact this.1

/-- The first line of a fit sets what is missing, and nothing after it changes the prior, whether the fit returns or raises. -/
theorem doFit_first {f : Fit K m} {ys : List (Fin m → K)} (hf : f.rowsOf = .rows ys) {s : VM V m Atom × ℕ} {q : NIW K m}
    (h : (some (s.1.gm.muPrior.getD (meanVec ys)), s.1.gm.lam, some (s.1.gm.psiPrior.getD (GM.cov ys)), some (s.1.gm.nuPrior.getD (m : K))) = (some q.mu, q.lam, some q.psi, some q.nu)) :
    HasPrior q (doFit F W f ω s).2.1.gm := by
  cases f with
  | gibbs a =>
    obtain ⟨y, g, w, i⟩ := a
    have hy : y = .rows ys := hf
    subst hy
    exact prior_after (restGibbs_hasPrior (q := q) (F := F) (W := W) g w i) ({ s.1 with gm := { s.1.gm with
      y := ys
      muPrior := some (s.1.gm.muPrior.getD (meanVec ys))
      psiPrior := some (s.1.gm.psiPrior.getD (GM.cov ys))
      nuPrior := some (s.1.gm.nuPrior.getD (m : K)) } }, s.2) h
  | var y n w tl i =>
    have hy : y = .rows ys := hf
    subst hy
    exact prior_after (restVar_hasPrior (q := q) (F := F) (W := W) n w tl i) ({ s.1 with gm := { s.1.gm with
      y := ys
      muPrior := some (s.1.gm.muPrior.getD (meanVec ys))
      psiPrior := some (s.1.gm.psiPrior.getD (GM.cov ys))
      nuPrior := some (s.1.gm.nuPrior.getD (m : K)) } }, s.2) h

/-- Without usable data a fit leaves the prior alone. -/
theorem doFit_invalid {f : Fit K m} (hf : f.rowsOf = .invalid) (s : VM V m Atom × ℕ) : doFit F W f ω s = (.error .typeError, s) := by
  cases f with
  | gibbs a =>
    obtain ⟨y, g, w, i⟩ := a
    have hy : y = .invalid := hf
    subst hy
    rfl
  | var y n w tl i =>
    have hy : y = .invalid := hf
    subst hy
    rfl

theorem doFit_kept {f : Fit K m} {s : VM V m Atom × ℕ} {q : NIW K m} (h : HasPrior q s.1.gm) : HasPrior q (doFit F W f ω s).2.1.gm :=
  prior_after (doFit_hasPrior f) s h

theorem runFits_kept {q : NIW K m} : ∀ (ops : List (Fit K m)) {s : VM V m Atom × ℕ}, HasPrior q s.1.gm → HasPrior q (runFits F W ω s ops).1.gm
  | [], _, h => h
  | f :: ops, s, h => by
    unfold runFits
    rw [List.foldl_cons]
    exact runFits_kept ops (doFit_kept h)
end Verif.Mix.VM
