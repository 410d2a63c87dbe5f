import Verif.Lemmas.VarLoop
import Verif.Lemmas.VarDemo
import Verif.Props.C52

/-!
# C53 — `fit_variational` stops within `total_iter` iterations; `var_converged`

`Iter F W ω s es u`: from `s` to `u` there were `es.length` iterations, `es` being the ELBO after each.

* `C53_stops`, `C53_fuel`: a fit that returns has made at most `total_iter` iterations, for every ELBO sequence (nan and infinities included); the bound
  on the rounds in the model never matters.
* `C53_flag`: `var_converged` afterwards is its old value, or `True` if fewer than `total_iter` iterations were made; in the latter case the loop ended
  because the last change of the ELBO was *not above* `tol`.
* `C53_truthful_partial`: on an object that has not converged before, with ELBO values that are numbers, `var_converged` is `True` iff the loop
  stopped early, and then the last two ELBO values differ by at most `tol`.
* `C53_nan_refuted`: a nan ELBO is reported as convergence.  `C53_refit_refuted`: the flag of an earlier fit stays.
-/

set_option linter.unusedSectionVars false

namespace Verif.Mix.VM
open Verif.Fl
variable {K : Type} [Field K] [LinearOrder K] [IsStrictOrderedRing K] {m : ℕ} {C : WeightClass K} {V : VarClass C} {Atom : Type}
variable {ω : Oracle K} {W : World K m Atom} {F : VWorld K m}

/-- `t` is the object when the loop of the fit starts. -/
def Started (F : VWorld K m) (W : World K m Atom) (ω : Oracle K) (ys : List (Fin m → K)) (nG : Option ℤ) (warm : Bool) (method : VarInit)
    (s t : VM V m Atom × ℕ) : Prop :=
  (warm = true ∧ t = (begun ys s.1, s.2)) ∨
  (warm = false ∧ ∃ k, startGroups nG s.1 = some k ∧ initVar F W k method ω (begun ys s.1, s.2) = (.ok (), t))

/-- What is known after a fit: the iterations made, and why they ended. -/
theorem C53_flag {ys : List (Fin m → K)} {nG : Option ℤ} {warm : Bool} {tol : Fl K} {method : VarInit} {s u : VM V m Atom × ℕ}
    (h : fitVariational F W (.rows ys) nG warm tol method ω s = (.ok (), u)) :
    ∃ (t u' : VM V m Atom × ℕ) (es : List (Fl K)), Started F W ω ys nG warm method s t ∧ Iter F.toMathFun W ω t es u' ∧
      u = ({ u'.1 with varFitted := true, varConverged := u.1.varConverged }, u'.2) ∧
      (es.length : ℤ) ≤ max 0 s.1.gm.totalIter ∧
      u.1.varConverged = (s.1.varConverged || decide ((es.length : ℤ) < s.1.gm.totalIter)) ∧
      (∀ i < es.length, ((changes .ninf .pinf es)[i]?).map (Fl.lt tol) = some true) ∧
      ((es.length : ℤ) < s.1.gm.totalIter → ((changes .ninf .pinf es)[es.length]?).map (Fl.lt tol) = some false) := by
  refine wp_of_ok h (fitVariational_wp (E := fun _ _ => True) (Q := fun u => ∃ (t u' : VM V m Atom × ℕ) (es : List (Fl K)),
      Started F W ω ys nG warm method s t ∧ Iter F.toMathFun W ω t es u' ∧
      u = ({ u'.1 with varFitted := true, varConverged := u.1.varConverged }, u'.2) ∧ (es.length : ℤ) ≤ max 0 s.1.gm.totalIter ∧
      u.1.varConverged = (s.1.varConverged || decide ((es.length : ℤ) < s.1.gm.totalIter)) ∧
      (∀ i < es.length, ((changes .ninf .pinf es)[i]?).map (Fl.lt tol) = some true) ∧
      ((es.length : ℤ) < s.1.gm.totalIter → ((changes .ninf .pinf es)[es.length]?).map (Fl.lt tol) = some false))
    (fun t => Started F W ω ys nG warm method s t ∧ t.1.gm.totalIter = s.1.gm.totalIter ∧ t.1.varConverged = s.1.varConverged)
    (fun hw => ⟨.inl ⟨hw, rfl⟩, rfl, rfl⟩) ?_ (fun _ _ => trivial) ?_)
  · intro hwarm k hgroups
    have hk : KeepsR ω (fun t : VM V m Atom => t.gm.totalIter = s.1.gm.totalIter ∧ t.varConverged = s.1.varConverged) (initVar F W k method) (fun _ => True) := by
      have hD : KeepsR ω (fun t : VM V m Atom => t.gm.totalIter = s.1.gm.totalIter ∧ t.varConverged = s.1.varConverged)
          (updateVarD F.toMathFun W) (fun _ => True) := by
        unfold updateVarD
        refine KeepsR.bind KeepsR.self (fun t _ => ?_)
        cases t.varK with
        | none => exact KeepsR.raise _
        | some k =>
          simp only []
          exact KeepsR.ite (fun _ => KeepsR.raise _) (fun _ => KeepsR.bind (KeepsR.lift _) (fun _ _ =>
            KeepsR.ite (fun _ => KeepsR.raise _) (fun _ => KeepsR.assign (fun _ h => h))))
      have hfw : ∀ q, KeepsR ω (fun t : VM V m Atom => t.gm.totalIter = s.1.gm.totalIter ∧ t.varConverged = s.1.varConverged) (fitWeights q) (fun _ => True) := by
        intro q
        unfold fitWeights
        exact KeepsR.bind KeepsR.self (fun _ _ => KeepsR.bind (KeepsR.lift _) (fun _ _ => KeepsR.assign (fun _ h => h)))
      have hW : KeepsR ω (fun t : VM V m Atom => t.gm.totalIter = s.1.gm.totalIter ∧ t.varConverged = s.1.varConverged) updateVarW (fun _ => True) := by
        unfold updateVarW
        exact KeepsR.bind KeepsR.self (fun _ _ => hfw _)
      have hT : KeepsR ω (fun t : VM V m Atom => t.gm.totalIter = s.1.gm.totalIter ∧ t.varConverged = s.1.varConverged) updateVarTheta (fun _ => True) := by
        unfold updateVarTheta
        exact KeepsR.bind KeepsR.self (fun _ _ => KeepsR.bind (KeepsR.lift _) (fun _ _ => KeepsR.assign (fun _ h => h)))
      have hdraw : ∀ {α : Type} (f : ℕ → α), KeepsR ω (fun t : VM V m Atom => t.gm.totalIter = s.1.gm.totalIter ∧ t.varConverged = s.1.varConverged)
          (GM.draw1 f) (fun _ => True) := fun f t ht => ⟨ht, trivial⟩
      have hA : ∀ n, KeepsR ω (fun t : VM V m Atom => t.gm.totalIter = s.1.gm.totalIter ∧ t.varConverged = s.1.varConverged) (drawAtoms F n) (fun _ => True) := by
        intro n
        induction n with
        | zero => exact KeepsR.pure trivial
        | succ n ih =>
          unfold drawAtoms
          exact KeepsR.bind KeepsR.self (fun _ _ => KeepsR.bind (hdraw _) (fun _ _ => KeepsR.bind (KeepsR.lift _) (fun _ _ =>
            KeepsR.bind (KeepsR.assign (fun _ h => h)) (fun _ _ => ih))))
      cases method with
      | kmeans =>
        unfold initVar
        exact KeepsR.bind (KeepsR.assign (fun _ h => h)) (fun _ _ => KeepsR.bind KeepsR.self (fun _ _ => KeepsR.bind (hdraw _) (fun _ _ =>
          KeepsR.bind (KeepsR.lift _) (fun _ _ => KeepsR.ite (fun _ => KeepsR.raise _) (fun _ => KeepsR.ite (fun _ => KeepsR.raise _) (fun _ =>
            KeepsR.bind (KeepsR.assign (fun _ h => h)) (fun _ _ => KeepsR.bind (hfw _) (fun _ _ => KeepsR.bind hT (fun _ _ => KeepsR.bind hD (fun _ _ => hW))))))))))
      | random =>
        unfold initVar
        exact KeepsR.bind (KeepsR.assign (fun _ h => h)) (fun _ _ => KeepsR.bind (hA _) (fun _ _ => KeepsR.ite (fun _ => KeepsR.raise _) (fun _ =>
          KeepsR.ite (fun _ => KeepsR.raise _) (fun _ => KeepsR.bind (KeepsR.assign (fun _ h => h)) (fun _ _ => hW)))))
      | unknown =>
        unfold initVar
        exact KeepsR.bind (KeepsR.assign (fun _ h => h)) (fun _ _ => KeepsR.raise _)
    have hex : wp ω (initVar F W k method) (fun _ t => initVar F W k method ω (begun ys s.1, s.2) = (.ok (), t)) (fun _ _ => True) (begun ys s.1, s.2) := by
      unfold wp
      rcases initVar F W k method ω (begun ys s.1, s.2) with ⟨e | a, t⟩
      · trivial
      · rfl
    exact wp_mono (wp_and (hk.wp ⟨rfl, rfl⟩) hex) (fun _ _ h => ⟨.inr ⟨hwarm, k, hgroups, h.2⟩, h.1.1⟩) (fun _ _ _ => trivial)
  · rintro t ⟨hst, h1, h2⟩
    refine wp_mono (varLoop_spec tol _ _ _ _ t (by omega)) ?_ (fun _ _ _ => trivial)
    rintro r u ⟨es, h5, h6, h7, h8, _, h10, h11⟩
    rw [h1] at h7 h10 h11
    refine ⟨t, u, es, hst, h5, rfl, ?_, ?_, ?_, ?_⟩
    · rcases Nat.eq_zero_or_pos es.length with h0 | h0
      · rw [h0]; simp
      · have := (h10 (es.length - 1) (by omega)).1
        rw [le_max_iff]
        right
        omega
    · show (u.1.varConverged || decide (r < u.1.gm.totalIter)) = _
      rw [h8, h2, h7, h6, zero_add]
    · intro i hi
      exact (h10 i hi).2
    · intro hlt
      exact h11 (by rw [zero_add]; exact hlt)

/-- At most `total_iter` iterations, for every sequence of ELBO values. -/
theorem C53_stops {ys : List (Fin m → K)} {nG : Option ℤ} {warm : Bool} {tol : Fl K} {method : VarInit} {s u : VM V m Atom × ℕ}
    (h : fitVariational F W (.rows ys) nG warm tol method ω s = (.ok (), u)) :
    ∃ (t u' : VM V m Atom × ℕ) (es : List (Fl K)), Started F W ω ys nG warm method s t ∧ Iter F.toMathFun W ω t es u' ∧
      u = ({ u'.1 with varFitted := true, varConverged := u.1.varConverged }, u'.2) ∧ (es.length : ℤ) ≤ max 0 s.1.gm.totalIter := by
  obtain ⟨t, u', es, h0, h1, h2, h3, _⟩ := C53_flag h
  exact ⟨t, u', es, h0, h1, h2, h3⟩

/-- The loop ends by itself: any larger bound on the rounds gives the same outcome, return value or exception. -/
theorem C53_fuel (tol : Fl K) (extra : ℕ) (s : VM V m Atom × ℕ) :
    varLoop F.toMathFun W tol (s.1.gm.totalIter.toNat + 1 + extra) .ninf .pinf 0 ω s = varLoop F.toMathFun W tol (s.1.gm.totalIter.toNat + 1) .ninf .pinf 0 ω s :=
  varLoop_fuel tol _ _ _ _ _ s (by omega)

theorem changes_last (e0 d0 : Fl K) : ∀ (es : List (Fl K)) (a b : Fl K), (changes e0 d0 (es ++ [a, b]))[(es ++ [a, b]).length]? = some (Fl.abs (a - b)) := by
  intro es
  induction es generalizing e0 d0 with
  | nil => intro a b; rfl
  | cons e es ih =>
    intro a b
    rw [List.cons_append, changes, List.length_cons, List.getElem?_cons_succ]
    exact ih _ _ a b

/-- **C53** when the object has not converged before and the ELBO values are numbers: `var_converged` is `True` iff the loop stopped before the
limit, and then the last change was at most `tol`; otherwise all `total_iter` iterations were made. -/
theorem C53_truthful_partial {ys : List (Fin m → K)} {nG : Option ℤ} {warm : Bool} {tol : K} {method : VarInit} {s u : VM V m Atom × ℕ}
    (h : fitVariational F W (.rows ys) nG warm (.fin tol) method ω s = (.ok (), u)) (hs : s.1.varConverged = false) (hT : 0 ≤ s.1.gm.totalIter) :
    ∃ (t u' : VM V m Atom × ℕ) (es : List (Fl K)), Started F W ω ys nG warm method s t ∧ Iter F.toMathFun W ω t es u' ∧ ((∀ e ∈ es, ∃ x : K, e = .fin x) →
      (u.1.varConverged = true → ∃ (es' : List (Fl K)) (x y : K), es = es' ++ [.fin x, .fin y] ∧ |x - y| ≤ tol ∧ (es.length : ℤ) < s.1.gm.totalIter) ∧
      (u.1.varConverged = false → (es.length : ℤ) = s.1.gm.totalIter)) := by
  obtain ⟨t, u', es, h0, h1, _, h3, h4, h5, h6⟩ := C53_flag h
  refine ⟨t, u', es, h0, h1, fun hnum => ?_⟩
  rw [hs, Bool.false_or] at h4
  rw [max_eq_right hT] at h3
  constructor
  · intro hc
    rw [hc] at h4
    have hlt : (es.length : ℤ) < s.1.gm.totalIter := of_decide_eq_true h4.symm
    have h7 := h6 hlt
    rcases List.eq_nil_or_concat es with rfl | ⟨es1, b, rfl⟩
    · simp [changes, Fl.lt] at h7
    · rcases List.eq_nil_or_concat es1 with rfl | ⟨es2, a, rfl⟩
      · obtain ⟨x, rfl⟩ := hnum b (by simp)
        have : (changes (Fl.ninf : Fl K) .pinf ([] ++ [Fl.fin x]))[([] ++ [Fl.fin x]).length]? = some .pinf := rfl
        rw [List.concat_eq_append, this] at h7
        simp [Fl.lt] at h7
      · rw [List.concat_eq_append, List.concat_eq_append, List.append_assoc] at h7 hnum hlt ⊢
        obtain ⟨x, rfl⟩ := hnum a (by simp)
        obtain ⟨y, rfl⟩ := hnum b (by simp)
        rw [show ([Fl.fin x] ++ [Fl.fin y] : List (Fl K)) = [.fin x, .fin y] from rfl, changes_last] at h7
        refine ⟨es2, x, y, rfl, ?_, hlt⟩
        rw [fin_sub, Option.map_some] at h7
        simpa [Fl.abs, Fl.lt] using h7
  · intro hc
    rw [hc] at h4
    have : ¬ (es.length : ℤ) < s.1.gm.totalIter := of_decide_eq_false h4.symm
    omega

/-- **C53 fails** for nan: for every weight class, k-means with an empty group (`C52_empty_group_refuted`) gives a nan ELBO after the first iteration; the
fit stops and reports convergence, although no two ELBO values were within `tol`. -/
theorem C53_nan_refuted {ys : List (Fin m → K)} (hy : ys ≠ []) {nG : Option ℤ} {tol : Fl K} {s u : VM V m Atom × ℕ} {k : ℕ}
    (hk : startGroups nG s.1 = some (k : ℤ)) {raw : List ℕ} (hraw : W.kmeans s.2 ys k = .ok raw) {j : ℕ} (hj : j < k)
    (hempty : j ∉ sizeBiased W.argsort raw) (h : fitVariational F W (.rows ys) nG false tol .kmeans ω s = (.ok (), u)) (hT : 2 ≤ s.1.gm.totalIter) :
    u.1.varConverged = true := (C52_empty_group_refuted hy hk hraw hj hempty h).2.2 hT

/-- **C53 fails** on an object that has converged before: the flag is never taken back, whatever the new fit did. -/
theorem C53_refit_refuted {ys : List (Fin m → K)} {nG : Option ℤ} {warm : Bool} {tol : Fl K} {method : VarInit} {s u : VM V m Atom × ℕ}
    (h : fitVariational F W (.rows ys) nG warm tol method ω s = (.ok (), u)) (hs : s.1.varConverged = true) : u.1.varConverged = true := by
  obtain ⟨_, _, _, _, _, _, _, h4, _⟩ := C53_flag h
  rw [h4, hs]; rfl

/-! ### The hypotheses can be met -/

/-- The state after a fit. -/
def after (T : ℤ) (tol : Fl ℚ) (x : VM (varDP demoFun) 1 ℚ) : VM (varDP demoFun) 1 ℚ :=
  (fitVariational vworld world (rows1 [0, 1, 5, 7]) (some 2) false tol .random demo
    ({ x with gm := { x.gm with totalIter := T, psiPrior := some (fun _ _ => 1) } }, 0)).2.1

/-- With a large `tol` the fit stops early and says so; with tolerance `0` it runs into the limit and says so. -/
example : (after 3 (.fin 1000000) (dpVM 3)).varConverged = true ∧ (after 3 (.fin 0) (dpVM 3)).varConverged = false := by decide +kernel

/-- A refit that runs into the limit still says that it converged. -/
example : (after 3 (.fin 0) (after 3 (.fin 1000000) (dpVM 3))).varConverged = true := by decide +kernel
end Verif.Mix.VM
