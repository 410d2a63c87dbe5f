import Verif.Lemmas.VarGibbs
import Verif.Lemmas.VarDemo
import Verif.Model.Results

/-!
# C59: results cannot be read before fitting

For every history of `fit_gibbs` and `fit_variational` calls on a new object, returning or raising, with any arguments:

* `C59_gibbs_flag`, `C59_var_flag`: the object counts as fitted exactly when some call returned; for the variational flag a call of `fit_variational`
  made by `fit_gibbs(init_method="variational")` is such a call, even when the surrounding `fit_gibbs` raises afterwards.
* `C59_gibbs`, `C59_var`: as long as no such call returned, every result method raises `NotFittedError`, whatever its arguments.
* `C59_pairplot_partial`, `C59_pairplot_refuted`: `gibbs_map_pairplot` reads the shape of the data first: `IndexError` on a new object, `NotFittedError`
  once a failed fit has stored data.

(`get_n_groups`, `get_n_theta` and `get_sim_params` check nothing: `GM.getters` is total.)
-/

set_option linter.unusedSectionVars false

namespace Verif.Mix.VM
open Verif.Fl
variable {K : Type} [Field K] [LinearOrder K] [IsStrictOrderedRing K] {m : ℕ} {C : WeightClass K} {V : VarClass C} {Atom : Type}
variable {ω : Oracle K} {W : World K m Atom} {F : VWorld K m}

/-- `f` is the kind of call `P`, and returned after the calls `pre`, for some split of the history. -/
def Happened (P : Fit K m → VM V m Atom × ℕ → Prop) (F : VWorld K m) (W : World K m Atom) (ω : Oracle K) (s : VM V m Atom × ℕ) (ops : List (Fit K m)) : Prop :=
  ∃ pre f post, ops = pre ++ f :: post ∧ P f (runFits F W ω s pre)

/-- A `fit_gibbs` call that returns. -/
def GibbsReturned (F : VWorld K m) (W : World K m Atom) (ω : Oracle K) : Fit K m → VM V m Atom × ℕ → Prop
  | .gibbs a, s => (fitGibbs F W a.y a.initGroups a.warm a.method ω s).1 = .ok ()
  | .var .., _ => False

/-- A `fit_variational` call that returns, made by the user or by `fit_gibbs`. -/
def VarReturned (F : VWorld K m) (W : World K m Atom) (ω : Oracle K) : Fit K m → VM V m Atom × ℕ → Prop
  | .gibbs a, s => InnerVar F W ω a s
  | .var y n w t i, s => (fitVariational F W y n w t i ω s).1 = .ok ()

theorem happened_snoc {P : Fit K m → VM V m Atom × ℕ → Prop} {s : VM V m Atom × ℕ} (ops : List (Fit K m)) (f : Fit K m) :
    Happened P F W ω s (ops ++ [f]) ↔ Happened P F W ω s ops ∨ P f (runFits F W ω s ops) := by
  constructor
  · rintro ⟨pre, g, post, h, hp⟩
    rcases List.eq_nil_or_concat post with rfl | ⟨q, x, rfl⟩
    · obtain ⟨rfl, h2⟩ := List.append_inj' h rfl
      cases h2
      exact .inr hp
    · refine .inl ⟨pre, g, q, ?_, hp⟩
      have h' : ops ++ [f] = (pre ++ g :: q) ++ [x] := by simpa using h
      exact (List.append_inj' h' rfl).1
  · rintro (⟨pre, g, post, rfl, hp⟩ | hp)
    · exact ⟨pre, g, post ++ [f], by simp, hp⟩
    · exact ⟨ops, f, [], by simp, hp⟩

theorem doFit_flags (f : Fit K m) (s : VM V m Atom × ℕ) :
    ((doFit F W f ω s).2.1.gm.gibbsFitted = true ↔ s.1.gm.gibbsFitted = true ∨ GibbsReturned F W ω f s) ∧
    ((doFit F W f ω s).2.1.varFitted = true ↔ s.1.varFitted = true ∨ VarReturned F W ω f s) := by
  have hs : Flags s.1.gm.gibbsFitted s.1.varFitted s.1 := ⟨rfl, rfl⟩
  cases f with
  | gibbs a =>
    have h := fitGibbs_flag (ω := ω) (F := F) (W := W) a hs
    show ((fitGibbs F W a.y a.initGroups a.warm a.method ω s).2.1.gm.gibbsFitted = true ↔
        _ ∨ (fitGibbs F W a.y a.initGroups a.warm a.method ω s).1 = .ok ()) ∧
      ((fitGibbs F W a.y a.initGroups a.warm a.method ω s).2.1.varFitted = true ↔ _ ∨ InnerVar F W ω a s)
    cases hr : fitGibbs F W a.y a.initGroups a.warm a.method ω s with
    | mk r t =>
      cases r with
      | ok u =>
        have h' := wp_of_ok hr h
        exact ⟨⟨fun _ => .inr rfl, fun _ => h'.1⟩, h'.2⟩
      | error e =>
        have h' := wp_of_error hr h
        refine ⟨⟨fun h2 => .inl (h'.1 ▸ h2), fun h2 => ?_⟩, h'.2⟩
        rcases h2 with h2 | h2
        · exact h'.1.trans h2
        · cases h2
  | var y n w tol i =>
    have h := fitVariational_flag (ω := ω) (F := F) (W := W) y n w tol i hs
    show ((fitVariational F W y n w tol i ω s).2.1.gm.gibbsFitted = true ↔ _ ∨ False) ∧
      ((fitVariational F W y n w tol i ω s).2.1.varFitted = true ↔ _ ∨ (fitVariational F W y n w tol i ω s).1 = .ok ())
    cases hr : fitVariational F W y n w tol i ω s with
    | mk r t =>
      cases r with
      | ok u =>
        have h' := wp_of_ok hr h
        refine ⟨?_, ⟨fun _ => .inr rfl, fun _ => h'.2⟩⟩
        show t.1.gm.gibbsFitted = true ↔ _
        rw [h'.1]
        simp
      | error e =>
        have h' := wp_of_error hr h
        refine ⟨?_, ?_⟩
        · show t.1.gm.gibbsFitted = true ↔ _
          rw [h'.1]
          simp
        · show t.1.varFitted = true ↔ _
          rw [h'.2]
          simp

theorem runFits_snoc (ops : List (Fit K m)) (f : Fit K m) (s : VM V m Atom × ℕ) :
    runFits F W ω s (ops ++ [f]) = (doFit F W f ω (runFits F W ω s ops)).2 := by
  unfold runFits
  rw [List.foldl_append]
  rfl

/-- **The Gibbs flag**, for every history on every object. -/
theorem C59_gibbs_flag (s : VM V m Atom × ℕ) (ops : List (Fit K m)) :
    (runFits F W ω s ops).1.gm.gibbsFitted = true ↔ s.1.gm.gibbsFitted = true ∨ Happened (GibbsReturned F W ω) F W ω s ops := by
  induction ops using List.reverseRecOn with
  | nil => exact ⟨.inl, fun h => h.resolve_right (by rintro ⟨pre, f, post, h, _⟩; simp at h)⟩
  | append_singleton ops f ih => rw [runFits_snoc, (doFit_flags f _).1, ih, happened_snoc, or_assoc]

/-- **The variational flag**, for every history on every object. -/
theorem C59_var_flag (s : VM V m Atom × ℕ) (ops : List (Fit K m)) :
    (runFits F W ω s ops).1.varFitted = true ↔ s.1.varFitted = true ∨ Happened (VarReturned F W ω) F W ω s ops := by
  induction ops using List.reverseRecOn with
  | nil => exact ⟨.inl, fun h => h.resolve_right (by rintro ⟨pre, f, post, h, _⟩; simp at h)⟩
  | append_singleton ops f ih => rw [runFits_snoc, (doFit_flags f _).2, ih, happened_snoc, or_assoc]

/-- **Gibbs results before `fit_gibbs` returned**: every method raises `NotFittedError`, for all arguments. -/
theorem C59_gibbs (o : GM C m Atom) (p : ℕ) (ho : o.gibbsFitted = false) (ops : List (Fit K m))
    (h : ¬ Happened (GibbsReturned F W ω) F W ω (VM.init V o, p) ops) (y : Option (YArg K m)) (q : YArg K m) (dim : Dim) (component : Option ℕ)
    (periods : Option ℤ) (predict : List (List K) → Except PyErr (List ℕ)) :
    let s := (runFits F W ω (VM.init V o, p) ops).1.gm
    GM.eapDensity W s y dim component periods = .error .notFittedError ∧ GM.mapDensity W s y dim component = .error .notFittedError ∧
    GM.eapAffinity s = .error .notFittedError ∧ GM.eapAffinityAt W s q = .error .notFittedError ∧ GM.mapCluster W s y = .error .notFittedError ∧
    GM.spectral W predict s y = .error .notFittedError := by
  intro s
  have hf : s.gibbsFitted = false := by
    rw [← Bool.not_eq_true]
    intro hc
    rcases (C59_gibbs_flag _ _).1 hc with h1 | h1
    · rw [show (VM.init V o, p).1.gm.gibbsFitted = o.gibbsFitted from rfl, ho] at h1
      cases h1
    · exact h h1
  refine ⟨?_, ?_, ?_, ?_, ?_, ?_⟩
  · exact if_pos hf
  · exact if_pos hf
  · exact if_pos hf
  · exact if_pos hf
  · exact if_pos hf
  · exact if_pos hf

/-- **Variational results before `fit_variational` returned**. -/
theorem C59_var (o : GM C m Atom) (p : ℕ) (ops : List (Fit K m)) (h : ¬ Happened (VarReturned F W ω) F W ω (VM.init V o, p) ops)
    (G : MathFun K) (y : Points K) (q : YQuery K m) (dim : Dim) (component : Option ℕ) (full : Bool)
    (predict : List (List (Fl K)) → Except PyErr (List ℕ)) :
    let s := (runFits F W ω (VM.init V o, p) ops).1
    varEapDensity G s y dim component = .error .notFittedError ∧ varMapDensity G s y dim component = .error .notFittedError ∧
    varAffinity G W s q = .error .notFittedError ∧ varSpectral G W predict s q = .error .notFittedError ∧
    varMapCluster G W s q full = .error .notFittedError := by
  intro s
  have hf : s.varFitted = false := by
    rw [← Bool.not_eq_true]
    intro hc
    rcases (C59_var_flag _ _).1 hc with h1 | h1
    · cases h1
    · exact h h1
  exact ⟨if_pos hf, if_pos hf, if_pos hf, if_pos hf, if_pos hf⟩

/-- Reading the results afterwards does not raise `NotFittedError` (shown for the affinity matrices of the fitted data, which need nothing else). -/
theorem C59_readable (o : GM C m Atom) (p : ℕ) (ops : List (Fit K m)) (G : MathFun K) :
    (Happened (GibbsReturned F W ω) F W ω (VM.init V o, p) ops → ∃ A, GM.eapAffinity (runFits F W ω (VM.init V o, p) ops).1.gm = .ok A) ∧
    (Happened (VarReturned F W ω) F W ω (VM.init V o, p) ops → ∃ A, varAffinity G W (runFits F W ω (VM.init V o, p) ops).1 .none = .ok A) := by
  constructor
  · intro h
    have := (C59_gibbs_flag _ _).2 (.inr h)
    refine ⟨_, if_neg ?_⟩
    rw [this]
    simp
  · intro h
    have := (C59_var_flag _ _).2 (.inr h)
    refine ⟨_, if_neg ?_⟩
    rw [this]
    simp

/-- `gibbs_map_pairplot` with stored data raises `NotFittedError` like the others. What is missing is the object without data. -/
theorem C59_pairplot_partial (s : GM C m Atom) (hf : s.gibbsFitted = false) (hy : s.y ≠ []) : GM.pairplot W s = .error .notFittedError := by
  unfold GM.pairplot GM.mapCluster
  rw [if_neg hy, if_pos hf]

/-- On a new object, whatever its settings, `gibbs_map_pairplot` raises `IndexError`. -/
theorem C59_pairplot_refuted (s : GM C m Atom) (hy : s.y = []) : GM.pairplot W s = .error .indexError := if_pos hy

/-! Examples: a failed Gibbs fit (subsampling step `0`) after which nothing can be read, a fit that returns, and a failing `fit_gibbs` whose inner
`fit_variational` returned. -/
example : ¬ Happened (GibbsReturned vworld world demo) vworld world demo (dpVM 1, 0) [.gibbs ⟨.invalid, .none, false, .random⟩] := by
  rintro ⟨pre, f, post, h, hp⟩
  rcases pre with _ | ⟨x, pre⟩
  · cases h
    cases hp
  · simp at h

example : (runFits vworld world demo (dpVM 1, 0) [.gibbs ⟨rows1 [0, 7], .int 2, false, .unknown⟩]).1.gm.y ≠ [] ∧
    (runFits vworld world demo (dpVM 1, 0) [.gibbs ⟨rows1 [0, 7], .int 2, false, .unknown⟩]).1.gm.gibbsFitted = false := by decide +kernel

example : (runFits vworld world demo (dpVM 1, 0) [.gibbs ⟨.invalid, .none, false, .random⟩, .var (rows1 [0, 7]) (some 2) false (.fin 0) .random]).1.varFitted = true ∧
    (runFits vworld world demo (dpVM 1, 0) [.gibbs ⟨.invalid, .none, false, .random⟩, .var (rows1 [0, 7]) (some 2) false (.fin 0) .random]).1.gm.gibbsFitted = false := by
  decide +kernel

example : let o : VM (varDP demoFun) 1 ℚ := VM.init _ { dpObj 1 1 0 0 with psiPrior := some (fun _ _ => 1) }
    returns (fitGibbs vworld world (rows1 [0, 7]) (.int 2) false .variational) demo (o, 0) = false ∧
    ((fitGibbs vworld world (rows1 [0, 7]) (.int 2) false .variational) demo (o, 0)).2.1.varFitted = true ∧
    ((fitGibbs vworld world (rows1 [0, 7]) (.int 2) false .variational) demo (o, 0)).2.1.gm.gibbsFitted = false := by
  decide +kernel
end Verif.Mix.VM
