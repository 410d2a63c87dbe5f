import Verif.Lemmas.Inert
import Verif.Props.C41

/-!
# C125: a warm start continues the previous fit

Full claim: `fit_gibbs(y)` followed by `n` calls `fit_gibbs(y, warm_start=True)` leaves the object that one `fit_gibbs(y)` with `n + 1` times as many iterations
leaves, for every weight class, data set, generator and state of the object.

Proved for objects without burn-in whose subsampling step divides the number of iterations (`C125_continue_partial`): same outcome, and on return the same object, with
its saved states, counts, co-clustering, MAP state and stream positions.  For any burn-in and subsampling step the chain itself continues: labels, atoms, weights,
slice levels, MAP state and stream positions agree (`C125_chain`).  The saved states do not: each warm start throws away another burn-in (`C125_burnIn_refuted`), and
restarts the subsampling (`C125_subsample_refuted`).
-/

set_option linter.unusedSectionVars false

namespace Verif.Mix
open GM
variable {K : Type} [Field K] [LinearOrder K] [IsStrictOrderedRing K] {C : WeightClass K} {m : ℕ} {Atom : Type} {ω : Oracle K}

/-- `fit_gibbs(y)`, then `n` times `fit_gibbs(y, warm_start=True)`; the other arguments of the warm calls are arbitrary. -/
def fitThen (W : World K m Atom) (ys : List (Fin m → K)) (g : PySize) (method : InitMethod) (g' : PySize) (method' : InitMethod) : ℕ → M K (GM C m Atom) Unit
  | 0 => fitGibbs W (.rows ys) g false method
  | n + 1 => do
    fitThen W ys g method g' method' n
    fitGibbs W (.rows ys) g' true method'

/-- The same object with other iteration numbers. -/
def withIters (T B k : ℤ) (s : GM C m Atom) : GM C m Atom := { s with totalIter := T, burnIn := B, subsample := k }

/-- The same object with another number of iterations. -/
def withTotal (T : ℤ) (s : GM C m Atom) : GM C m Atom := { s with totalIter := T }

/-- What an iteration works on: data, labels, atoms, slice levels, weight object, best state so far. -/
structure ChainState (K : Type) (m : ℕ) (Atom : Type) (σ : Type) where
  y : List (Fin m → K)
  d : List ℕ
  theta : List (ℕ × Atom)
  u : List K
  weights : σ
  mapParams : Option (RunParams K Atom)
  mapLL : WithBot K

def chainState (s : GM C m Atom) : ChainState K m Atom (C.State × ℕ) := ⟨s.y, s.d, s.theta, s.u, s.wst, s.mapParams, s.mapLL⟩

/-! ### Proof -/

/-- The beginning of a cold fit. -/
def coldStart (W : World K m Atom) (ys : List (Fin m → K)) (g : PySize) (method : InitMethod) : M K (GM C m Atom) Unit := do
  initCommon (.rows ys)
  initGibbs W g method
  updateMap W

/-- The iterations of a fit. -/
def fitLoops (W : World K m Atom) : M K (GM C m Atom) Unit := do
  let s ← M.self
  burn W s.burnIn.toNat
  record W (s.totalIter - s.burnIn).toNat 0
  M.assign (fun s => { s with gibbsFitted := true })

/-- The flag set at the end. -/
def flagged (s : GM C m Atom) : GM C m Atom := { s with gibbsFitted := true }

section
variable (W : World K m Atom) (ys : List (Fin m → K)) (g : PySize) (method : InitMethod)

theorem fitGibbs_cold_eq (s : GM C m Atom × ℕ) : fitGibbs W (.rows ys) g false method ω s = (coldStart W ys g method >>= fun _ => fitLoops W) ω s := by
  show (initCommon (.rows ys) >>= fun _ => (initGibbs W g method >>= fun _ => updateMap W) >>= fun _ => fitLoops W) ω s =
    ((initCommon (.rows ys) >>= fun _ => initGibbs W g method >>= fun _ => updateMap W) >>= fun _ => fitLoops W) ω s
  simp only [M.bind_apply]
  rcases (initCommon (.rows ys) : M K (GM C m Atom) Unit) ω s with ⟨e | _, t⟩ <;> rfl

/-- The data are in place and the priors are set. -/
structure Prepared (s : GM C m Atom) : Prop where
  y : s.y = ys
  mu : s.muPrior.isSome
  psi : s.psiPrior.isSome
  nu : s.nuPrior.isSome

theorem fitGibbs_warm_eq (s : GM C m Atom × ℕ) (h : Prepared ys s.1) : fitGibbs W (.rows ys) g true method ω s = fitLoops W ω s := by
  obtain ⟨⟨T, B, k, nA, mu, lam, psi, nu, y, d, th, td, u, af, mp, ml, sv, ng, na, ts, gf, w⟩, p⟩ := s
  obtain ⟨h1, h2, h3, h4⟩ := h
  dsimp only at h1 h2 h3 h4
  subst h1
  obtain ⟨mu, rfl⟩ := Option.isSome_iff_exists.1 h2
  obtain ⟨psi, rfl⟩ := Option.isSome_iff_exists.1 h3
  obtain ⟨nu, rfl⟩ := Option.isSome_iff_exists.1 h4
  rfl

theorem coldStart_frame (s : GM C m Atom × ℕ) : wp ω (coldStart W ys g method)
    (fun _ t => Prepared ys t.1 ∧ cfg t.1 = cfg s.1) (fun _ _ => True) s := by
  unfold coldStart initCommon
  rw [wp_bind, wp_assign, wp_bind]
  refine wp_mono (initGibbs_frame W g method _) ?_ (fun _ _ _ => trivial)
  intro _ t ht
  refine wp_mono (KeepsR.wp (updateMap_frame _ W) ht) ?_ (fun _ _ _ => trivial)
  rintro _ t2 ⟨h2, -⟩
  refine ⟨⟨congrArg Frame.y h2, ?_, ?_, ?_⟩, (cfg_of_frame h2).trans rfl⟩
  · rw [show t2.1.muPrior = _ from congrArg Frame.muPrior h2]; rfl
  · rw [show t2.1.psiPrior = _ from congrArg Frame.psiPrior h2]; rfl
  · rw [show t2.1.nuPrior = _ from congrArg Frame.nuPrior h2]; rfl

theorem Prepared.of_frame {s t : GM C m Atom} (h : Prepared ys s) (hf : frame t = frame s) : Prepared ys t :=
  ⟨(congrArg Frame.y hf).trans h.y, by rw [show t.muPrior = _ from congrArg Frame.muPrior hf]; exact h.mu,
    by rw [show t.psiPrior = _ from congrArg Frame.psiPrior hf]; exact h.psi, by rw [show t.nuPrior = _ from congrArg Frame.nuPrior hf]; exact h.nu⟩

theorem record_prepared (c : ℤ × ℤ × ℤ) (n i : ℕ) : KeepsR ω (fun s : GM C m Atom => Prepared ys s ∧ cfg s = c) (record W n i) (fun _ => True) := by
  refine record_keeps W (fun s t hf h => ⟨h.1.of_frame ys hf, (cfg_of_frame hf).trans h.2⟩) ?_ n i
  unfold saveParams
  exact KeepsR.bind (KeepsR.assign fun s h => ⟨⟨h.1.y, h.1.mu, h.1.psi, h.1.nu⟩, h.2⟩) fun _ _ => KeepsR.bind KeepsR.self fun s _ => KeepsR.bind (KeepsR.lift _) fun _ _ =>
    KeepsR.assign fun s h => ⟨⟨h.1.y, h.1.mu, h.1.psi, h.1.nu⟩, h.2⟩

theorem inert_iters (T B k : ℤ) : Inert (withIters T B k : GM C m Atom → GM C m Atom) :=
  ⟨fun _ _ => rfl, fun _ _ => rfl, fun _ _ => rfl, fun _ _ => rfl, fun _ _ => rfl, fun _ _ => rfl, fun _ => rfl, fun _ => rfl, fun _ => rfl, fun _ => rfl,
    fun _ => rfl, fun _ => rfl, fun _ => rfl, fun _ => rfl⟩

theorem inert_flagged : Inert (flagged : GM C m Atom → GM C m Atom) :=
  ⟨fun _ _ => rfl, fun _ _ => rfl, fun _ _ => rfl, fun _ _ => rfl, fun _ _ => rfl, fun _ _ => rfl, fun _ => rfl, fun _ => rfl, fun _ => rfl, fun _ => rfl,
    fun _ => rfl, fun _ => rfl, fun _ => rfl, fun _ => rfl⟩

theorem inert_total (T : ℤ) : Inert (withTotal T : GM C m Atom → GM C m Atom) :=
  ⟨fun _ _ => rfl, fun _ _ => rfl, fun _ _ => rfl, fun _ _ => rfl, fun _ _ => rfl, fun _ _ => rfl, fun _ => rfl, fun _ => rfl, fun _ => rfl, fun _ => rfl,
    fun _ => rfl, fun _ => rfl, fun _ => rfl, fun _ => rfl⟩

theorem saveParams_commutes_total (T : ℤ) : Commutes ω (withTotal T : GM C m Atom → GM C m Atom) saveParams := by
  unfold saveParams
  exact Commutes.bind (Commutes.assign fun _ => rfl) fun _ => Commutes.self (fun a => Commutes.bind (Commutes.lift _) fun _ => Commutes.assign fun _ => rfl) fun _ => rfl

theorem saveParams_commutes_flagged : Commutes ω (flagged : GM C m Atom → GM C m Atom) saveParams := by
  unfold saveParams
  exact Commutes.bind (Commutes.assign fun _ => rfl) fun _ => Commutes.self (fun a => Commutes.bind (Commutes.lift _) fun _ => Commutes.assign fun _ => rfl) fun _ => rfl

theorem coldStart_commutes_of {f : GM C m Atom → GM C m Atom} (hf : Inert f) (hn : ∀ s, (f s).nAttr = s.nAttr)
    (h1 : Commutes ω f (initCommon (.rows ys))) (h2 : ∀ s, wiped (f s) = f (wiped s)) : Commutes ω f (coldStart W ys g method) := by
  refine Commutes.bind h1 fun _ => Commutes.bind ?_ fun _ => updateMap_commutes hf W
  refine Commutes.bind (Commutes.assign h2) fun _ => Commutes.self (fun a => ?_) fun _ => by rw [hf.y]
  refine Commutes.bind (Commutes.draws _ _) fun us => Commutes.bind (Commutes.assign fun s => (hf.setU s us).symm) fun _ => Commutes.bind ?_ fun _ =>
    Commutes.bind ?_ fun d => Commutes.assign fun s => (hf.setD s d).symm
  · cases g with
    | none => exact Commutes.self (fun a => Commutes.bind (Commutes.lift _) fun _ => Commutes.bind (Commutes.callW hf _) fun _ => Commutes.pure _) fun a => by simp only [hf.u]
    | int n => exact Commutes.self (fun a => Commutes.bind (Commutes.callW hf _) fun _ => Commutes.pure _) fun a => rfl
    | np n => exact Commutes.self (fun a => Commutes.bind (Commutes.callW hf _) fun _ => Commutes.pure _) fun a => rfl
    | other => exact Commutes.self (fun a => Commutes.bind (Commutes.callW hf _) fun _ => Commutes.pure _) fun a => rfl
  · cases method with
    | kmeans =>
      exact Commutes.self (fun a => Commutes.bind (Commutes.draw1 _) fun _ => Commutes.bind (Commutes.lift _) fun _ => Commutes.pure _) fun a => by simp only [hn, hf.y]
    | random => exact Commutes.self (fun a => Commutes.callW hf _) fun a => by simp only [hf.y]
    | variational => exact Commutes.self (fun a => Commutes.bind (Commutes.draw1 _) fun _ => Commutes.lift _) fun a => by simp only [hf.y, hf.wst]
    | unknown => exact Commutes.raise _

theorem coldStart_commutes (T B k : ℤ) : Commutes ω (withIters T B k : GM C m Atom → GM C m Atom) (coldStart W ys g method) :=
  coldStart_commutes_of W ys g method (inert_iters T B k) (fun _ => rfl) (fun _ => rfl) (fun _ => rfl)

theorem coldStart_commutes_total (T : ℤ) : Commutes ω (withTotal T : GM C m Atom → GM C m Atom) (coldStart W ys g method) :=
  coldStart_commutes_of W ys g method (inert_total T) (fun _ => rfl) (fun _ => rfl) (fun _ => rfl)

theorem fitLoops_zero (s : GM C m Atom × ℕ) (hB : s.1.burnIn = 0) :
    fitLoops W ω s = (record W s.1.totalIter.toNat 0 >>= fun _ => M.assign flagged) ω s := by
  show (burn W s.1.burnIn.toNat >>= fun _ => record W (s.1.totalIter - s.1.burnIn).toNat 0 >>= fun _ => M.assign flagged) ω s = _
  rw [hB, sub_zero]
  rfl

/-- `n + 1` fits are the start and `n + 1` times the iterations. -/
theorem fitThen_eq (g' : PySize) (method' : InitMethod) (s : GM C m Atom × ℕ) (hB : s.1.burnIn = 0) (hk : s.1.subsample ∣ s.1.totalIter) (hT : 0 ≤ s.1.totalIter) (n : ℕ) :
    (fitThen W ys g method g' method' n ω s).1 = ((coldStart W ys g method >>= fun _ => record W ((n + 1) * s.1.totalIter.toNat) 0 >>= fun _ => M.assign flagged) ω s).1 ∧
    ((fitThen W ys g method g' method' n ω s).1 = .ok () → fitThen W ys g method g' method' n ω s =
      (coldStart W ys g method >>= fun _ => record W ((n + 1) * s.1.totalIter.toNat) 0 >>= fun _ => M.assign flagged) ω s) := by
  induction n with
  | zero =>
    have h : fitThen W ys g method g' method' 0 ω s =
        (coldStart W ys g method >>= fun _ => record W ((0 + 1) * s.1.totalIter.toNat) 0 >>= fun _ => M.assign flagged) ω s := by
      show fitGibbs W (.rows ys) g false method ω s = _
      rw [fitGibbs_cold_eq, M.bind_apply, M.bind_apply]
      rcases hr : coldStart W ys g method ω s with ⟨e | _, t⟩
      · rfl
      · have hc := (wp_of_ok hr (coldStart_frame W ys g method s)).2
        simp only [cfg, Prod.mk.injEq] at hc
        dsimp only
        rw [fitLoops_zero W t (by rw [hc.2.1]; exact hB), hc.1, zero_add, one_mul]
    exact ⟨by rw [h], fun _ => h⟩
  | succ n ih =>
    have e : fitThen W ys g method g' method' (n + 1) ω s = (fitThen W ys g method g' method' n >>= fun _ => fitGibbs W (.rows ys) g' true method') ω s := rfl
    rw [e, M.bind_apply, M.bind_apply]
    rw [M.bind_apply] at ih
    rcases hr : coldStart W ys g method ω s with ⟨x | _, t⟩
    · rw [hr] at ih
      dsimp only at ih ⊢
      rcases hq : fitThen W ys g method g' method' n ω s with ⟨y | _, t2⟩
      · rw [hq] at ih
        exact ⟨ih.1, fun h => by cases h⟩
      · rw [hq] at ih
        exact absurd ih.1 (by simp)
    · rw [hr] at ih
      obtain ⟨hp, hc⟩ := wp_of_ok hr (coldStart_frame W ys g method s)
      have hc' := hc
      simp only [cfg, Prod.mk.injEq] at hc'
      dsimp only at ih ⊢
      rw [M.bind_apply] at ih
      rw [show (n + 1 + 1) * s.1.totalIter.toNat = (n + 1) * s.1.totalIter.toNat + s.1.totalIter.toNat by ring, record_add, M.bind_apply, M.bind_apply]
      rcases hr2 : record W ((n + 1) * s.1.totalIter.toNat) 0 ω t with ⟨x | _, t2⟩
      · rw [hr2] at ih
        dsimp only at ih ⊢
        rcases hq : fitThen W ys g method g' method' n ω s with ⟨y | _, t3⟩
        · rw [hq] at ih
          exact ⟨ih.1, fun h => by cases h⟩
        · rw [hq] at ih
          exact absurd ih.1 (by simp)
      · rw [hr2] at ih
        have hq : fitThen W ys g method g' method' n ω s = (.ok (), (flagged t2.1, t2.2)) := ih.2 ih.1
        rw [hq]
        obtain ⟨hp2, hc2⟩ := (wp_of_ok hr2 (KeepsR.wp (record_prepared W ys (cfg t.1) _ 0) ⟨hp, rfl⟩)).1
        rw [hc] at hc2
        simp only [cfg, Prod.mk.injEq] at hc2
        dsimp only
        rw [fitGibbs_warm_eq W ys g' method' (flagged t2.1, t2.2) ⟨hp2.y, hp2.mu, hp2.psi, hp2.nu⟩, fitLoops_zero W (flagged t2.1, t2.2) (by exact hc2.2.1.trans hB)]
        have h1 : (flagged t2.1).totalIter = s.1.totalIter := hc2.1
        have h2 : record W s.1.totalIter.toNat (0 + (n + 1) * s.1.totalIter.toNat) ω t2 = record W s.1.totalIter.toNat 0 ω t2 := by
          refine record_shift W _ _ _ _ ?_
          rw [hc2.2.2]
          push_cast
          rw [Int.toNat_of_nonneg hT]
          exact Dvd.dvd.mul_left hk _
        rw [h1, h2, M.bind_apply, record_commutes inert_flagged W saveParams_commutes_flagged (fun _ => rfl) _ _ t2]
        rcases record W s.1.totalIter.toNat 0 ω t2 with ⟨x | _, t3⟩
        · exact ⟨rfl, fun h => by cases h⟩
        · exact ⟨rfl, fun _ => rfl⟩

/-- Without burn-in and with a subsampling step that divides the number of iterations. -/
theorem C125_continue_partial (g' : PySize) (method' : InitMethod) (s : GM C m Atom) (p : ℕ) (hB : s.burnIn = 0) (hT : 0 ≤ s.totalIter)
    (hk : s.subsample ∣ s.totalIter) (n : ℕ) :
    (fitThen W ys g method g' method' n ω (s, p)).1 =
      (fitGibbs W (.rows ys) g false method ω (withTotal ((n + 1 : ℕ) * s.totalIter) s, p)).1 ∧
    ∀ t, fitThen W ys g method g' method' n ω (s, p) = (.ok (), t) →
      fitGibbs W (.rows ys) g false method ω (withTotal ((n + 1 : ℕ) * s.totalIter) s, p) =
        (.ok (), (withTotal ((n + 1 : ℕ) * s.totalIter) t.1, t.2)) := by
  obtain ⟨h1, h2⟩ := fitThen_eq (ω := ω) W ys g method g' method' (s, p) hB hk hT n
  have key : fitGibbs W (.rows ys) g false method ω (withTotal ((n + 1 : ℕ) * s.totalIter) s, p) =
      (((coldStart W ys g method >>= fun _ => record W ((n + 1) * s.totalIter.toNat) 0 >>= fun _ => M.assign flagged) ω (s, p)).1,
        (withTotal ((n + 1 : ℕ) * s.totalIter) ((coldStart W ys g method >>= fun _ => record W ((n + 1) * s.totalIter.toNat) 0 >>= fun _ => M.assign flagged) ω (s, p)).2.1,
          ((coldStart W ys g method >>= fun _ => record W ((n + 1) * s.totalIter.toNat) 0 >>= fun _ => M.assign flagged) ω (s, p)).2.2)) := by
    rw [fitGibbs_cold_eq, M.bind_apply, M.bind_apply, coldStart_commutes_total W ys g method _ (s, p)]
    rcases hr : coldStart W ys g method ω (s, p) with ⟨e | _, t⟩
    · rfl
    · have hc := (wp_of_ok hr (coldStart_frame W ys g method (s, p))).2
      simp only [cfg, Prod.mk.injEq] at hc
      dsimp only
      have hN : (((n + 1 : ℕ) : ℤ) * s.totalIter).toNat = (n + 1) * s.totalIter.toNat := by
        obtain ⟨N, hN⟩ := Int.eq_ofNat_of_zero_le hT
        rw [hN, ← Int.natCast_mul, Int.toNat_natCast, Int.toNat_natCast]
      rw [fitLoops_zero W _ (by exact hc.2.1.trans hB)]
      show (record W (((n + 1 : ℕ) : ℤ) * s.totalIter).toNat 0 >>= fun _ => M.assign flagged) ω _ = _
      rw [hN, M.bind_apply, M.bind_apply]
      rw [record_commutes (inert_total _) W (saveParams_commutes_total _) (fun _ => rfl) _ _ t]
      rcases record W ((n + 1) * s.totalIter.toNat) 0 ω t with ⟨e | _, t2⟩ <;> rfl
  refine ⟨by rw [key]; exact h1, fun t ht => ?_⟩
  rw [key, ← h2 (by rw [ht]), ht]

/-- The bookkeeping removed. -/
def bare (s : GM C m Atom) : GM C m Atom := { s with
  totalIter := 0, burnIn := 0, subsample := 1, affinity := [], saved := [], nGroups := [], nAtoms := [], totalSaved := 0, gibbsFitted := false }

theorem inert_bare : Inert (bare : GM C m Atom → GM C m Atom) :=
  ⟨fun _ _ => rfl, fun _ _ => rfl, fun _ _ => rfl, fun _ _ => rfl, fun _ _ => rfl, fun _ _ => rfl, fun _ => rfl, fun _ => rfl, fun _ => rfl, fun _ => rfl,
    fun _ => rfl, fun _ => rfl, fun _ => rfl, fun _ => rfl⟩

theorem chainState_bare {s t : GM C m Atom} (h : bare s = bare t) : chainState s = chainState t := by
  have h1 : chainState (bare s) = chainState (bare t) := by rw [h]
  exact h1

theorem maybeSave_bare (i : ℤ) (s t : GM C m Atom × ℕ) (h : (maybeSave i : M K (GM C m Atom) Unit) ω s = (.ok (), t)) : bare t.1 = bare s.1 ∧ t.2 = s.2 := by
  have : wp ω (maybeSave i : M K (GM C m Atom) Unit) (fun _ t => bare t.1 = bare s.1 ∧ t.2 = s.2) (fun _ _ => True) s := by
    unfold maybeSave saveParams
    rw [wp_bind, wp_self, wp_ite]
    refine ⟨fun _ => trivial, fun _ => ?_⟩
    rw [wp_whenM]
    refine ⟨fun _ => ?_, fun _ => ⟨rfl, rfl⟩⟩
    rw [wp_bind, wp_assign, wp_bind, wp_self, wp_bind, wp_lift]
    refine ⟨fun a _ => ?_, fun _ _ => trivial⟩
    rw [wp_assign]
    exact ⟨rfl, rfl⟩
  exact wp_of_ok h this

theorem burn_bare (n : ℕ) {s t : GM C m Atom × ℕ} (h : burn W n ω s = (.ok (), t)) : burn W n ω (bare s.1, s.2) = (.ok (), (bare t.1, t.2)) := by
  rw [burn_commutes inert_bare W n s, h]

theorem record_bare (n i : ℕ) {s t : GM C m Atom × ℕ} (h : record W n i ω s = (.ok (), t)) : burn W n ω (bare s.1, s.2) = (.ok (), (bare t.1, t.2)) := by
  induction n generalizing i s with
  | zero => cases h; rfl
  | succ n ih =>
    have h' : (gibbsStep W >>= fun _ => updateMap W >>= fun _ => maybeSave (i : ℤ) >>= fun _ => record W n (i + 1)) ω s = (.ok (), t) := h
    show (gibbsStep W >>= fun _ => updateMap W >>= fun _ => burn W n) ω (bare s.1, s.2) = _
    rw [M.bind_apply] at h' ⊢
    rw [gibbsStep_commutes inert_bare W s]
    rcases hg : gibbsStep W ω s with ⟨e | _, t1⟩
    · rw [hg] at h'; cases h'
    · rw [hg] at h'
      dsimp only at h' ⊢
      rw [M.bind_apply] at h' ⊢
      rw [updateMap_commutes inert_bare W t1]
      rcases hu : updateMap W ω t1 with ⟨e | _, t2⟩
      · rw [hu] at h'; cases h'
      · rw [hu] at h'
        dsimp only at h' ⊢
        rw [M.bind_apply] at h'
        rcases hm : (maybeSave (i : ℤ) : M K (GM C m Atom) Unit) ω t2 with ⟨e | _, t3⟩
        · rw [hm] at h'; cases h'
        · rw [hm] at h'
          obtain ⟨h1, h2⟩ := maybeSave_bare _ _ _ hm
          rw [← h1, ← h2]
          exact ih (i + 1) h'

theorem fitLoops_bare {s t : GM C m Atom × ℕ} (hB : 0 ≤ s.1.burnIn) (hT : s.1.burnIn ≤ s.1.totalIter) (h : fitLoops W ω s = (.ok (), t)) :
    burn W s.1.totalIter.toNat ω (bare s.1, s.2) = (.ok (), (bare t.1, t.2)) := by
  have h' : (burn W s.1.burnIn.toNat >>= fun _ => record W (s.1.totalIter - s.1.burnIn).toNat 0 >>= fun _ => M.assign flagged) ω s = (.ok (), t) := h
  rw [show s.1.totalIter.toNat = s.1.burnIn.toNat + (s.1.totalIter - s.1.burnIn).toNat by omega, burn_add, M.bind_apply]
  rw [M.bind_apply] at h'
  rcases hb : burn W s.1.burnIn.toNat ω s with ⟨e | _, t1⟩
  · rw [hb] at h'; cases h'
  · rw [hb] at h'
    rw [burn_bare W _ hb]
    dsimp only at h' ⊢
    rw [M.bind_apply] at h'
    rcases hr : record W (s.1.totalIter - s.1.burnIn).toNat 0 ω t1 with ⟨e | _, t2⟩
    · rw [hr] at h'; cases h'
    · rw [hr] at h'
      cases h'
      have := record_bare W _ _ hr
      exact this

theorem fitLoops_prepared {s t : GM C m Atom × ℕ} (hp : Prepared ys s.1) (h : fitLoops W ω s = (.ok (), t)) : Prepared ys t.1 ∧ cfg t.1 = cfg s.1 := by
  refine wp_of_ok h (Q := fun _ t => Prepared ys t.1 ∧ cfg t.1 = cfg s.1) (E := fun _ _ => True) ?_
  unfold fitLoops
  rw [wp_bind, wp_self, wp_bind]
  refine wp_mono (KeepsR.wp (burn_frame (frame s.1) W _) rfl) ?_ (fun _ _ _ => trivial)
  rintro _ t1 ⟨hf, -⟩
  rw [wp_bind]
  refine wp_mono (KeepsR.wp (record_prepared W ys (cfg s.1) _ 0) ⟨hp.of_frame ys hf, cfg_of_frame hf⟩) ?_ (fun _ _ _ => trivial)
  rintro _ t2 ⟨⟨h1, h2⟩, -⟩
  rw [wp_assign]
  exact ⟨⟨h1.y, h1.mu, h1.psi, h1.nu⟩, h2⟩

theorem fitThen_bare (g' : PySize) (method' : InitMethod) (s t : GM C m Atom × ℕ) (hB : 0 ≤ s.1.burnIn) (hT : s.1.burnIn ≤ s.1.totalIter) (n : ℕ)
    (h : fitThen W ys g method g' method' n ω s = (.ok (), t)) :
    Prepared ys t.1 ∧ cfg t.1 = cfg s.1 ∧ ∃ t0, coldStart W ys g method ω s = (.ok (), t0) ∧
      burn W ((n + 1) * s.1.totalIter.toNat) ω (bare t0.1, t0.2) = (.ok (), (bare t.1, t.2)) := by
  induction n generalizing t with
  | zero =>
    have h' : fitGibbs W (.rows ys) g false method ω s = (.ok (), t) := h
    rw [fitGibbs_cold_eq, M.bind_apply] at h'
    rcases hr : coldStart W ys g method ω s with ⟨e | _, t0⟩
    · rw [hr] at h'; cases h'
    · rw [hr] at h'
      obtain ⟨hp, hc⟩ := wp_of_ok hr (coldStart_frame W ys g method s)
      obtain ⟨hp', hc'⟩ := fitLoops_prepared W ys hp h'
      have hc2 := hc
      simp only [cfg, Prod.mk.injEq] at hc2
      refine ⟨hp', hc'.trans hc, t0, rfl, ?_⟩
      rw [zero_add, one_mul, ← hc2.1]
      exact fitLoops_bare W (by rw [hc2.2.1]; exact hB) (by rw [hc2.1, hc2.2.1]; exact hT) h'
  | succ n ih =>
    have h' : (fitThen W ys g method g' method' n >>= fun _ => fitGibbs W (.rows ys) g' true method') ω s = (.ok (), t) := h
    rw [M.bind_apply] at h'
    rcases hq : fitThen W ys g method g' method' n ω s with ⟨e | _, t1⟩
    · rw [hq] at h'; cases h'
    · rw [hq] at h'
      obtain ⟨hp, hc, t0, h0, hb⟩ := ih t1 hq
      dsimp only at h'
      rw [fitGibbs_warm_eq W ys g' method' t1 hp] at h'
      obtain ⟨hp', hc'⟩ := fitLoops_prepared W ys hp h'
      have hc2 := hc
      simp only [cfg, Prod.mk.injEq] at hc2
      refine ⟨hp', hc'.trans hc, t0, h0, ?_⟩
      rw [show (n + 1 + 1) * s.1.totalIter.toNat = (n + 1) * s.1.totalIter.toNat + s.1.totalIter.toNat by ring, burn_add, M.bind_apply, hb, ← hc2.1]
      exact fitLoops_bare W (by rw [hc2.2.1]; exact hB) (by rw [hc2.1, hc2.2.1]; exact hT) h'

/-- Whatever burn-in and subsampling: `n + 1` fits and one fit with as many iterations in total, and any burn-in and subsampling of its own, end in the same state of the
chain, with the same best state, and leave the generators at the same place. -/
theorem C125_chain (g' : PySize) (method' : InitMethod) (s : GM C m Atom) (p : ℕ) (hB : 0 ≤ s.burnIn) (hT : s.burnIn ≤ s.totalIter) (n : ℕ)
    (B k : ℤ) (hB' : 0 ≤ B) (hT' : B ≤ (n + 1 : ℕ) * s.totalIter) (t t' : GM C m Atom × ℕ)
    (h : fitThen W ys g method g' method' n ω (s, p) = (.ok (), t))
    (h' : fitGibbs W (.rows ys) g false method ω (withIters ((n + 1 : ℕ) * s.totalIter) B k s, p) = (.ok (), t')) :
    chainState t'.1 = chainState t.1 ∧ t'.2 = t.2 := by
  obtain ⟨-, -, t0, h0, hb⟩ := fitThen_bare W ys g method g' method' (s, p) t hB hT n h
  obtain ⟨-, -, t0', h0', hb'⟩ := fitThen_bare W ys g method g' method' (withIters ((n + 1 : ℕ) * s.totalIter) B k s, p) t' hB' hT' 0 h'
  rw [coldStart_commutes W ys g method _ _ _ (s, p), h0] at h0'
  cases h0'
  have hN : (0 + 1) * (withIters (((n + 1 : ℕ) : ℤ) * s.totalIter) B k s).totalIter.toNat = (n + 1) * s.totalIter.toNat := by
    obtain ⟨N, hN⟩ := Int.eq_ofNat_of_zero_le (hB.trans hT)
    show (0 + 1) * (((n + 1 : ℕ) : ℤ) * s.totalIter).toNat = _
    rw [hN, ← Int.natCast_mul, Int.toNat_natCast, Int.toNat_natCast, zero_add, one_mul]
  dsimp only at hb'
  rw [hN] at hb'
  have e : bare (withIters (((n + 1 : ℕ) : ℤ) * s.totalIter) B k t0.1) = bare t0.1 := rfl
  rw [e, hb] at hb'
  have h2 : (bare t.1, t.2) = (bare t'.1, t'.2) := congrArg Prod.snd hb'
  exact ⟨chainState_bare (congrArg Prod.fst h2).symm, (congrArg Prod.snd h2).symm⟩

theorem fitThen_fits (g' : PySize) (method' : InitMethod) (s t : GM C m Atom × ℕ) (n : ℕ) (h : fitThen W ys g method g' method' n ω s = (.ok (), t)) :
    Fits W ω s (⟨.rows ys, g, false, method⟩ :: List.replicate n ⟨.rows ys, g', true, method'⟩) t := by
  induction n generalizing t with
  | zero => exact Fits.snoc (ops := []) (.nil s) h
  | succ n ih =>
    have h' : (fitThen W ys g method g' method' n >>= fun _ => fitGibbs W (.rows ys) g' true method') ω s = (.ok (), t) := h
    rw [M.bind_apply] at h'
    rcases hq : fitThen W ys g method g' method' n ω s with ⟨e | _, t1⟩
    · rw [hq] at h'; cases h'
    · rw [hq] at h'
      rw [List.replicate_succ', ← List.cons_append]
      exact Fits.snoc (ih t1 hq) h'

theorem fitThen_saved (g' : PySize) (method' : InitMethod) (s t : GM C m Atom × ℕ) (hs : 1 ≤ s.1.subsample) (n : ℕ)
    (h : fitThen W ys g method g' method' n ω s = (.ok (), t)) :
    t.1.saved.length = (n + 1) * perFit s.1.totalIter s.1.burnIn s.1.subsample := by
  have := (C41_history W _ _ rfl s t hs (fitThen_fits W ys g method g' method' s t n h)).1
  rw [this, List.reverse_replicate, List.takeWhile_replicate]
  simp

/-- Every warm start drops another burn-in: with a burn-in and without subsampling, `n + 1 ≥ 2` fits store fewer states than one fit with as many iterations. -/
theorem C125_burnIn_refuted (g' : PySize) (method' : InitMethod) (s : GM C m Atom) (p : ℕ) (hk : s.subsample = 1) (hB : 0 < s.burnIn) (hT : s.burnIn < s.totalIter)
    (n : ℕ) (hn : 0 < n) (t t' : GM C m Atom × ℕ) (h : fitThen W ys g method g' method' n ω (s, p) = (.ok (), t))
    (h' : fitGibbs W (.rows ys) g false method ω (withTotal ((n + 1 : ℕ) * s.totalIter) s, p) = (.ok (), t')) :
    t.1.saved.length + n * s.burnIn.toNat = t'.1.saved.length ∧ t.1.saved.length < t'.1.saved.length := by
  have e1 := fitThen_saved W ys g method g' method' (s, p) t (by show 1 ≤ s.subsample; rw [hk]) n h
  have e2 := (C41_cold W (.rows ys) g method _ t' (by show 1 ≤ s.subsample; rw [hk]) h').1
  have hone : ∀ T B : ℤ, perFit T B 1 = (T - B).toNat := fun T B => by unfold perFit; rw [Int.cast_one, div_one, Nat.ceil_natCast]
  change t.1.saved.length = (n + 1) * perFit s.totalIter s.burnIn s.subsample at e1
  change t'.1.saved.length = perFit (((n + 1 : ℕ) : ℤ) * s.totalIter) s.burnIn s.subsample at e2
  rw [hk, hone] at e1 e2
  obtain ⟨T, hT'⟩ := Int.eq_ofNat_of_zero_le (hB.le.trans hT.le)
  obtain ⟨B, hB'⟩ := Int.eq_ofNat_of_zero_le hB.le
  rw [hT', hB'] at e1 e2 hT
  rw [hB'] at hB ⊢
  have hBT : B < T := by exact_mod_cast hT
  have hB0 : 0 < B := by exact_mod_cast hB
  have e3 : ((T : ℤ) - B).toNat = T - B := by omega
  have e4 : (((n + 1 : ℕ) : ℤ) * T - B).toNat = (n + 1) * T - B := by rw [← Int.natCast_mul]; omega
  rw [e3] at e1
  rw [e4] at e2
  obtain ⟨D, rfl⟩ : ∃ D, T = B + D := ⟨T - B, by omega⟩
  rw [e1, e2, Int.toNat_natCast, show B + D - B = D by omega, show (n + 1) * (B + D) - B = (n + 1) * D + n * B by
    have : (n + 1) * (B + D) = (n + 1) * D + n * B + B := by ring
    omega]
  refine ⟨rfl, ?_⟩
  have := Nat.mul_pos hn hB0
  omega

/-- Every warm start begins the subsampling anew: without burn-in, with a step that does not divide the number of iterations, two fits store more states than one fit
with as many iterations whenever the remainder is at most half a step. -/
theorem C125_subsample_refuted (g' : PySize) (method' : InitMethod) (s : GM C m Atom) (p : ℕ) (hB : s.burnIn = 0) {q r : ℕ}
    (hr : 0 < r) (hk : 2 * (r : ℤ) ≤ s.subsample) (hT : s.totalIter = q * s.subsample + r) (t t' : GM C m Atom × ℕ)
    (h : fitThen W ys g method g' method' 1 ω (s, p) = (.ok (), t))
    (h' : fitGibbs W (.rows ys) g false method ω (withTotal (2 * s.totalIter) s, p) = (.ok (), t')) :
    t.1.saved.length = 2 * (q + 1) ∧ t'.1.saved.length = 2 * q + 1 := by
  have hs : 1 ≤ s.subsample := by omega
  have e1 := fitThen_saved W ys g method g' method' (s, p) t hs 1 h
  have e2 := (C41_cold W (.rows ys) g method _ t' hs h').1
  change t.1.saved.length = (1 + 1) * perFit s.totalIter s.burnIn s.subsample at e1
  change t'.1.saved.length = perFit (2 * s.totalIter) s.burnIn s.subsample at e2
  have hpos : (0 : ℚ) < (s.subsample : ℚ) := by exact_mod_cast (by omega : 0 < s.subsample)
  have hkq : 2 * (r : ℚ) ≤ (s.subsample : ℚ) := by exact_mod_cast hk
  have hrq : (0 : ℚ) < r := by exact_mod_cast hr
  have hT0 : 0 ≤ s.totalIter := by rw [hT]; positivity
  have hTq : ((s.totalIter.toNat : ℕ) : ℚ) = q * (s.subsample : ℚ) + r := by
    rw [← Int.cast_natCast (R := ℚ) s.totalIter.toNat, Int.toNat_of_nonneg hT0, hT]; push_cast; rfl
  have h2T : (((2 * s.totalIter).toNat : ℕ) : ℚ) = 2 * (q * (s.subsample : ℚ) + r) := by
    rw [← hTq, show (2 * s.totalIter).toNat = 2 * s.totalIter.toNat by omega, Nat.cast_mul]; rfl
  have c1 : perFit s.totalIter 0 s.subsample = q + 1 := by
    unfold perFit
    rw [sub_zero, hTq, Nat.ceil_eq_iff (by omega), lt_div_iff₀ hpos, div_le_iff₀ hpos]
    push_cast
    constructor <;> nlinarith
  have c2 : perFit (2 * s.totalIter) 0 s.subsample = 2 * q + 1 := by
    unfold perFit
    rw [sub_zero, h2T, Nat.ceil_eq_iff (by omega), lt_div_iff₀ hpos, div_le_iff₀ hpos]
    push_cast
    constructor <;> nlinarith
  rw [e1, e2, hB, c1, c2]
  exact ⟨by ring, rfl⟩

end

/-! Non-vacuity: fits that return; one fit and two, without burn-in and with. -/
example : returns (fitThen world ([0, 1, 5, 6].map (fun x _ => x)) .none .kmeans .none .random 2) demo (eqObj 2 4 0 2, 0) = true ∧
    returns (fitGibbs world (.rows ([0, 1, 5, 6].map (fun x _ => x))) .none false .kmeans) demo (withTotal 12 (eqObj 2 4 0 2), 0) = true := by decide +kernel
example : returns (fitThen world ([0, 1, 5, 6].map (fun x _ => x)) .none .kmeans .none .random 1) demo (eqObj 2 3 1 1, 0) = true ∧
    returns (fitGibbs world (.rows ([0, 1, 5, 6].map (fun x _ => x))) .none false .kmeans) demo (withIters 6 2 3 (eqObj 2 3 1 1), 0) = true ∧
    returns (fitGibbs world (.rows ([0, 1, 5, 6].map (fun x _ => x))) .none false .kmeans) demo (withTotal 6 (eqObj 2 3 1 1), 0) = true := by decide +kernel
example : returns (fitThen world ([0, 1, 5, 6].map (fun x _ => x)) .none .kmeans .none .random 1) demo (eqObj 2 3 0 2, 0) = true ∧
    returns (fitGibbs world (.rows ([0, 1, 5, 6].map (fun x _ => x))) .none false .kmeans) demo (withTotal 6 (eqObj 2 3 0 2), 0) = true := by decide +kernel
end Verif.Mix
