import Verif.Lemmas.GibbsBook
import Verif.Lemmas.GibbsDemo

/-!
# C43: MAP bookkeeping keeps the best visited state

`visitsFit` lists the log-likelihoods and parameters of the states a call of `fit_gibbs` evaluates, in order.  After every history of calls on a
fresh object, returning or raising, the stored log-likelihood is the largest visited one, it never decreased, and the stored parameters are those of
the first visited state that attains it - as long as that value is finite.  When all visited states have log-likelihood minus infinity the *last*
one is stored, so the clause "the first such one" is refuted for that case.
-/

set_option linter.unusedSectionVars false

namespace Verif.Mix
open GM
variable {K : Type} [Field K] [LinearOrder K] [IsStrictOrderedRing K] {C : WeightClass K} {m : ℕ} {Atom : Type} {ω : Oracle K}

/-- A visited state: its log-likelihood and its parameters. -/
abbrev Visit (K Atom : Type) := WithBot K × RunParams K Atom

/-- The log of a sequence of two programs: the second one runs only if the first returned. -/
def seqLog {σ V α : Type} (ω : Oracle K) (x : M K σ α) (lx lk : σ × ℕ → List V) (s : σ × ℕ) : List V :=
  lx s ++ (match x ω s with
    | (.ok _, t) => lk t
    | (.error _, _) => [])

/-- The state evaluated by `_update_map_params`. -/
def visit (W : World K m Atom) (ω : Oracle K) (s : GM C m Atom × ℕ) : List (Visit K Atom) := match runLogLik W ω s with
  | (.ok ll, t) => [(ll, runParams t.1)]
  | (.error _, _) => []

/-- The states evaluated by the burn-in loop. -/
def visitsBurn (W : World K m Atom) (ω : Oracle K) : ℕ → GM C m Atom × ℕ → List (Visit K Atom)
  | 0 => fun _ => []
  | n + 1 => seqLog ω (gibbsStep W) (fun _ => []) (seqLog ω (updateMap W) (visit W ω) (visitsBurn W ω n))

/-- The states evaluated by the recording loop. -/
def visitsRecord (W : World K m Atom) (ω : Oracle K) : ℕ → ℕ → GM C m Atom × ℕ → List (Visit K Atom)
  | 0, _ => fun _ => []
  | n + 1, i => seqLog ω (gibbsStep W) (fun _ => []) (seqLog ω (updateMap W) (visit W ω) (seqLog ω (maybeSave (i : ℤ)) (fun _ => [])
      (visitsRecord W ω n (i + 1))))

/-- The states evaluated by one call of `fit_gibbs`. -/
def visitsFit (W : World K m Atom) (ω : Oracle K) (a : FitArgs K m) : GM C m Atom × ℕ → List (Visit K Atom) :=
  seqLog ω (initCommon a.y) (fun _ => []) (seqLog ω
    (M.whenM (a.warm = false) (do initGibbs W a.initGroups a.method; updateMap W))
    (fun s => if a.warm = false then seqLog ω (initGibbs W a.initGroups a.method) (fun _ => []) (visit W ω) s else [])
    (fun s => seqLog ω (burn W s.1.burnIn.toNat) (visitsBurn W ω s.1.burnIn.toNat) (visitsRecord W ω (s.1.totalIter - s.1.burnIn).toNat 0) s))

/-- The states evaluated by a history of calls. -/
def visitsRun (W : World K m Atom) (ω : Oracle K) : List (FitArgs K m) → GM C m Atom × ℕ → List (Visit K Atom)
  | [], _ => []
  | a :: ops, s => visitsFit W ω a s ++ visitsRun W ω ops (run W ω s [a])

/-- What is kept: log-likelihood and parameters. -/
def mapOf (s : GM C m Atom) : WithBot K × Option (RunParams K Atom) := (s.mapLL, s.mapParams)

/-- One comparison. -/
def mapStep (b : WithBot K × Option (RunParams K Atom)) (v : Visit K Atom) : WithBot K × Option (RunParams K Atom) :=
  if b.1 < v.1 then (v.1, some v.2) else if b.1 = ⊥ then (b.1, some v.2) else b

/-- `x` changes what is kept exactly as its log says, also when it raises. -/
def Logged (ω : Oracle K) {α : Type} (x : M K (GM C m Atom) α) (lx : GM C m Atom × ℕ → List (Visit K Atom)) : Prop :=
  ∀ s, mapOf (x ω s).2.1 = (lx s).foldl mapStep (mapOf s.1)

theorem Logged.bind {α β : Type} {x : M K (GM C m Atom) α} {k : α → M K (GM C m Atom) β} {lx lk : GM C m Atom × ℕ → List (Visit K Atom)}
    (h : Logged ω x lx) (hk : ∀ a, Logged ω (k a) lk) : Logged ω (x >>= k) (seqLog ω x lx lk) := by
  intro s
  have := h s
  rw [M.bind_apply]
  unfold seqLog
  rw [List.foldl_append, ← this]
  rcases hx : x ω s with ⟨e | a, t⟩
  · simp
  · exact hk a t

theorem Logged.self {α : Type} {k : GM C m Atom → M K (GM C m Atom) α} {lk : GM C m Atom → GM C m Atom × ℕ → List (Visit K Atom)}
    (hk : ∀ a, Logged ω (k a) (lk a)) : Logged ω (M.self >>= k) (fun s => lk s.1 s) := fun s => hk s.1 s

theorem Logged.quiet {α : Type} {x : M K (GM C m Atom) α} (h : ∀ c, KeepsR ω (fun s : GM C m Atom => mapOf s = c) x (fun _ => True)) :
    Logged ω x (fun _ => []) := by
  intro s
  have := h (mapOf s.1) s rfl
  revert this
  rcases x ω s with ⟨e | a, t⟩
  · exact fun h => h
  · exact fun h => h.1

section quiet
variable (W : World K m Atom) (c : WithBot K × Option (RunParams K Atom))

theorem getAtom_map (j : ℕ) : KeepsR ω (fun s : GM C m Atom => mapOf s = c) (getAtom W j) (fun _ => True) := by
  unfold getAtom
  refine KeepsR.bind KeepsR.self fun s _ => ?_
  split
  · exact KeepsR.pure trivial
  · refine KeepsR.ite (fun _ => ?_) (fun _ => KeepsR.raise _)
    refine KeepsR.bind (keeps_draw1 _) fun a _ => ?_
    exact KeepsR.bind (KeepsR.assign fun s h => h) fun _ _ => KeepsR.pure trivial

theorem yLogLik_map (js : List ℕ) (acc : WithBot K) : KeepsR ω (fun s : GM C m Atom => mapOf s = c) (yLogLik W js acc) (fun _ => True) := by
  induction js generalizing acc with
  | nil => exact KeepsR.pure trivial
  | cons j js ih =>
    unfold yLogLik
    refine KeepsR.bind KeepsR.self fun s _ => KeepsR.bind (KeepsR.lift _) fun rows _ => KeepsR.bind (getAtom_map W c j) fun a _ => ih _

theorem runLogLik_map : KeepsR ω (fun s : GM C m Atom => mapOf s = c) (runLogLik W) (fun _ => True) := by
  unfold runLogLik
  refine KeepsR.bind KeepsR.self fun s _ => KeepsR.bind (yLogLik_map W c _ _) fun _ _ => ?_
  exact KeepsR.bind (keeps_callW (fun s t h => h) _) fun _ _ => KeepsR.pure trivial

theorem updateAtoms_map (js : List ℕ) : KeepsR ω (fun s : GM C m Atom => mapOf s = c) (updateAtoms W js) (fun _ => True) := by
  induction js with
  | nil => exact KeepsR.pure trivial
  | cons j js ih =>
    unfold updateAtoms
    refine KeepsR.bind KeepsR.self fun s _ => KeepsR.bind (KeepsR.lift _) fun rows _ => KeepsR.bind (keeps_draw1 _) fun a _ => ?_
    exact KeepsR.bind (KeepsR.assign fun s h => h) fun _ _ => ih

theorem updateWeights_map : KeepsR ω (fun s : GM C m Atom => mapOf s = c) (updateWeights W) (fun _ => True) := by
  unfold updateWeights
  refine KeepsR.bind KeepsR.self fun s _ => KeepsR.bind (keeps_callW (fun s t h => h) _) fun _ _ => ?_
  refine KeepsR.bind (keeps_callW (fun s t h => h) _) fun w _ => KeepsR.bind (KeepsR.lift _) fun ws _ => ?_
  refine KeepsR.bind (keeps_slices W ws) fun us _ => KeepsR.bind (KeepsR.assign fun s h => h) fun _ _ => ?_
  refine KeepsR.bind (KeepsR.lift _) fun u _ => KeepsR.bind (keeps_callW (fun s t h => h) _) fun _ _ => KeepsR.pure trivial

theorem getAtoms_map (js : List ℕ) : KeepsR ω (fun s : GM C m Atom => mapOf s = c) (getAtoms W js) (fun _ => True) := by
  induction js with
  | nil => exact KeepsR.pure trivial
  | cons j js ih =>
    unfold getAtoms
    exact KeepsR.bind (getAtom_map W c j) fun _ _ => KeepsR.bind ih fun _ _ => KeepsR.pure trivial

theorem updateD_map : KeepsR ω (fun s : GM C m Atom => mapOf s = c) (updateD W) (fun _ => True) := by
  unfold updateD
  refine KeepsR.bind KeepsR.self fun s _ => ?_
  refine KeepsR.bind (getAtoms_map W c _) fun as _ => KeepsR.ite (fun _ => KeepsR.raise _) fun _ => ?_
  refine KeepsR.bind (R := fun _ => True) (fun _ hs => ⟨hs, trivial⟩) fun ns _ => ?_
  exact KeepsR.bind (KeepsR.lift _) fun d _ => KeepsR.assign fun s h => h

theorem gibbsStep_map : KeepsR ω (fun s : GM C m Atom => mapOf s = c) (gibbsStep W) (fun _ => True) := by
  unfold gibbsStep
  exact KeepsR.bind KeepsR.self fun s _ => KeepsR.bind (updateAtoms_map W c _) fun _ _ => KeepsR.bind (updateWeights_map W c) fun _ _ =>
    updateD_map W c

theorem maybeSave_map (i : ℤ) : KeepsR ω (fun s : GM C m Atom => mapOf s = c) (maybeSave i) (fun _ => True) := by
  unfold maybeSave saveParams
  refine KeepsR.bind KeepsR.self fun s _ => KeepsR.ite (fun _ => KeepsR.raise _) fun _ => KeepsR.whenM fun _ => ?_
  refine KeepsR.bind (KeepsR.assign fun s h => h) fun _ _ => KeepsR.bind KeepsR.self fun s _ => ?_
  exact KeepsR.bind (KeepsR.lift _) fun _ _ => KeepsR.assign fun s h => h

theorem initGibbs_map (g : PySize) (method : InitMethod) : KeepsR ω (fun s : GM C m Atom => mapOf s = c) (initGibbs W g method) (fun _ => True) := by
  unfold initGibbs
  refine KeepsR.bind (KeepsR.assign fun s h => h) fun _ _ => KeepsR.bind KeepsR.self fun s _ => KeepsR.bind (keeps_draws _ _) fun us _ => ?_
  refine KeepsR.bind (KeepsR.assign fun s h => h) fun _ _ => KeepsR.bind (R := fun _ => True) ?_ fun _ _ => KeepsR.bind (R := fun _ => True) ?_ fun d _ => KeepsR.assign fun s h => h
  · unfold initWeights
    refine KeepsR.bind KeepsR.self fun s _ => ?_
    split
    · exact KeepsR.bind (KeepsR.lift _) fun _ _ => KeepsR.bind (keeps_callW (fun s t h => h) _) fun _ _ => KeepsR.pure trivial
    · exact KeepsR.bind (keeps_callW (fun s t h => h) _) fun _ _ => KeepsR.pure trivial
  · unfold initLabels
    split
    · exact KeepsR.bind KeepsR.self fun s _ => KeepsR.bind (keeps_draw1 _) fun _ _ => KeepsR.bind (KeepsR.lift _) fun _ _ => KeepsR.pure trivial
    · exact KeepsR.bind KeepsR.self fun s _ => keeps_callW (fun s t h => h) _
    · refine KeepsR.bind KeepsR.self fun s _ => KeepsR.bind (keeps_draw1 _) fun r _ => ?_
      exact KeepsR.of_wp fun s hs => by rw [wp_lift]; exact ⟨fun _ _ => ⟨hs, trivial⟩, fun _ _ => hs⟩
    · exact KeepsR.raise _

theorem initCommon_map (y : YArg K m) : KeepsR ω (fun s : GM C m Atom => mapOf s = c) (initCommon y) (fun _ => True) := by
  cases y with
  | invalid => exact KeepsR.raise _
  | rows ys => unfold initCommon; exact KeepsR.assign fun s h => h
end quiet

variable (W : World K m Atom)

theorem updateMap_logged : Logged ω (updateMap W : M K (GM C m Atom) Unit) (visit W ω) := by
  intro s
  have hk := runLogLik_map (ω := ω) W (mapOf s.1) s rfl
  unfold updateMap visit
  rw [M.bind_apply]
  revert hk
  rcases runLogLik W ω s with ⟨e | ll, t⟩
  · exact fun h => h
  · rintro ⟨h, -⟩
    simp only [List.foldl_cons, List.foldl_nil, ← h]
    show mapOf (if t.1.mapLL < ll then _ else if t.1.mapLL = ⊥ then _ else t.1) = _
    show _ = if t.1.mapLL < ll then (ll, some (runParams t.1)) else if t.1.mapLL = ⊥ then (t.1.mapLL, some (runParams t.1)) else mapOf t.1
    by_cases h1 : t.1.mapLL < ll
    · rw [if_pos h1, if_pos h1]; rfl
    · rw [if_neg h1, if_neg h1]
      by_cases h2 : t.1.mapLL = ⊥
      · rw [if_pos h2, if_pos h2]; rfl
      · rw [if_neg h2, if_neg h2]

theorem burn_logged (n : ℕ) : Logged ω (burn W n : M K (GM C m Atom) Unit) (visitsBurn W ω n) := by
  induction n with
  | zero => exact fun s => rfl
  | succ n ih => exact Logged.bind (Logged.quiet fun c => gibbsStep_map W c) fun _ => Logged.bind (updateMap_logged W) fun _ => ih

theorem record_logged (n i : ℕ) : Logged ω (record W n i : M K (GM C m Atom) Unit) (visitsRecord W ω n i) := by
  induction n generalizing i with
  | zero => exact fun s => rfl
  | succ n ih =>
    exact Logged.bind (Logged.quiet fun c => gibbsStep_map W c) fun _ => Logged.bind (updateMap_logged W) fun _ =>
      Logged.bind (Logged.quiet fun c => maybeSave_map c _) fun _ => ih _

theorem fit_logged (a : FitArgs K m) : Logged ω (fitGibbs W a.y a.initGroups a.warm a.method : M K (GM C m Atom) Unit) (visitsFit W ω a) := by
  unfold fitGibbs visitsFit
  refine Logged.bind (Logged.quiet fun c => initCommon_map c a.y) fun _ => Logged.bind ?_ fun _ => ?_
  · by_cases hw : a.warm = false
    · have : Logged ω (do initGibbs W a.initGroups a.method; updateMap W : M K (GM C m Atom) Unit)
          (seqLog ω (initGibbs W a.initGroups a.method) (fun _ => []) (visit W ω)) :=
        Logged.bind (Logged.quiet fun c => initGibbs_map W c _ _) fun _ => updateMap_logged W
      intro s
      unfold M.whenM
      simp only [if_pos hw]
      exact this s
    · intro s
      unfold M.whenM
      simp only [if_neg hw]
      rfl
  · refine Logged.self (lk := fun s0 => seqLog ω (burn W s0.burnIn.toNat) (visitsBurn W ω s0.burnIn.toNat) (visitsRecord W ω (s0.totalIter - s0.burnIn).toNat 0)) fun s0 => ?_
    refine Logged.bind (burn_logged W _) fun _ => ?_
    intro s
    have := record_logged (ω := ω) W (s0.totalIter - s0.burnIn).toNat 0 s
    rw [M.bind_apply, ← this]
    rcases record W (s0.totalIter - s0.burnIn).toNat 0 ω s with ⟨e | u, t⟩ <;> rfl

theorem run_logged (ops : List (FitArgs K m)) (s : GM C m Atom × ℕ) :
    mapOf (run W ω s ops).1 = (visitsRun W ω ops s).foldl mapStep (mapOf s.1) := by
  induction ops generalizing s with
  | nil => rfl
  | cons a ops ih =>
    unfold visitsRun
    rw [List.foldl_append, ← fit_logged W a s]
    exact ih (run W ω s [a])

/-- The specification: from `b0` and the visited states `L`, in order, the value `b` is kept. -/
structure IsBest (b0 : WithBot K × Option (RunParams K Atom)) (L : List (Visit K Atom)) (b : WithBot K × Option (RunParams K Atom)) : Prop where
  /-- nothing visited or remembered is better -/
  ge : b0.1 ≤ b.1 ∧ ∀ v ∈ L, v.1 ≤ b.1
  /-- a finite best value is the remembered one, or comes from the first visited state that has it -/
  first : b.1 ≠ ⊥ → (b.1 = b0.1 ∧ b.2 = b0.2) ∨
    (b0.1 < b.1 ∧ ∃ i, ∃ h : i < L.length, b = (L[i].1, some L[i].2) ∧ ∀ j, ∀ hj : j < i, (L[j]'(hj.trans h)).1 < b.1)
  /-- otherwise the last visited state is kept -/
  bot : b.1 = ⊥ → b.2 = (match L.getLast? with | some v => some v.2 | none => b0.2)

theorem isBest_foldl (b0 : WithBot K × Option (RunParams K Atom)) (L : List (Visit K Atom)) : IsBest b0 L (L.foldl mapStep b0) := by
  induction L using List.reverseRecOn with
  | nil => exact ⟨⟨le_rfl, by simp⟩, fun _ => Or.inl ⟨rfl, rfl⟩, fun _ => rfl⟩
  | append_singleton L v ih =>
    rw [List.foldl_append, List.foldl_cons, List.foldl_nil]
    set b := L.foldl mapStep b0 with hb
    unfold mapStep
    by_cases h1 : b.1 < v.1
    · rw [if_pos h1]
      refine ⟨⟨ih.ge.1.trans h1.le, ?_⟩, fun _ => Or.inr ⟨lt_of_le_of_lt ih.ge.1 h1, L.length, by simp, by simp, ?_⟩, fun h => ?_⟩
      · intro x hx
        rcases List.mem_append.1 hx with hx | hx
        · exact (ih.ge.2 x hx).trans h1.le
        · rw [List.mem_singleton.1 hx]
      · intro j hj
        rw [List.getElem_append_left hj]
        exact lt_of_le_of_lt (ih.ge.2 _ (List.getElem_mem _)) h1
      · simp only at h; rw [h] at h1; exact absurd h1 not_lt_bot
    · rw [if_neg h1]
      by_cases h2 : b.1 = ⊥
      · rw [if_pos h2]
        refine ⟨⟨ih.ge.1, ?_⟩, fun h => absurd h2 h, fun _ => by simp⟩
        intro x hx
        rcases List.mem_append.1 hx with hx | hx
        · exact ih.ge.2 x hx
        · rw [List.mem_singleton.1 hx]; exact not_lt.1 h1
      · rw [if_neg h2]
        refine ⟨⟨ih.ge.1, ?_⟩, fun h => ?_, fun h => absurd h h2⟩
        · intro x hx
          rcases List.mem_append.1 hx with hx | hx
          · exact ih.ge.2 x hx
          · rw [List.mem_singleton.1 hx]; exact not_lt.1 h1
        · rcases ih.first h with h | ⟨h3, i, hi, h4, h5⟩
          · exact Or.inl h
          · refine Or.inr ⟨h3, i, by simp; omega, by rw [List.getElem_append_left hi]; exact h4, fun j hj => ?_⟩
            rw [List.getElem_append_left (hj.trans hi)]
            exact h5 j hj

/-- Every history of fits, returning or raising, from every object. -/
theorem C43_best (ops : List (FitArgs K m)) (s : GM C m Atom × ℕ) :
    IsBest (s.1.mapLL, s.1.mapParams) (visitsRun W ω ops s) ((run W ω s ops).1.mapLL, (run W ω s ops).1.mapParams) := by
  have h := run_logged (ω := ω) W ops s
  have := isBest_foldl (mapOf s.1) (visitsRun W ω ops s)
  rw [← h] at this
  exact this

/-- The stored log-likelihood never decreases, whatever is called. -/
theorem C43_monotone (ops more : List (FitArgs K m)) (s : GM C m Atom × ℕ) :
    (run W ω s ops).1.mapLL ≤ (run W ω s (ops ++ more)).1.mapLL := by
  have h : run W ω s (ops ++ more) = run W ω (run W ω s ops) more := List.foldl_append
  rw [h]
  exact (C43_best W more (run W ω s ops)).ge.1

/-- A fresh object: as soon as a visited state has a finite log-likelihood, the stored parameters are those of the first visited state whose
log-likelihood is at least that of every visited state. -/
theorem C43_first_maximum (ops : List (FitArgs K m)) (s : GM C m Atom × ℕ) (h0 : s.1.mapLL = ⊥) (hfin : ∃ v ∈ visitsRun W ω ops s, v.1 ≠ ⊥) :
    ∃ i, ∃ h : i < (visitsRun W ω ops s).length,
      (run W ω s ops).1.mapLL = (visitsRun W ω ops s)[i].1 ∧ (run W ω s ops).1.mapParams = some (visitsRun W ω ops s)[i].2 ∧
      (∀ v ∈ visitsRun W ω ops s, v.1 ≤ (visitsRun W ω ops s)[i].1) ∧
      ∀ j, ∀ hj : j < i, ((visitsRun W ω ops s)[j]'(hj.trans h)).1 < (visitsRun W ω ops s)[i].1 := by
  have hB := C43_best (ω := ω) W ops s
  obtain ⟨v, hv, hne⟩ := hfin
  have hne' : (run W ω s ops).1.mapLL ≠ ⊥ := by
    intro hc
    have := hB.ge.2 v hv
    simp only [hc, le_bot_iff] at this
    exact hne this
  rcases hB.first hne' with ⟨h, -⟩ | ⟨-, i, hi, h1, h2⟩
  · exact absurd (h.trans h0) hne'
  · have e1 := (Prod.mk.inj h1).1
    have e2 := (Prod.mk.inj h1).2
    refine ⟨i, hi, e1, e2, fun v hv => ?_, fun j hj => ?_⟩
    · rw [← e1]; exact hB.ge.2 v hv
    · rw [← e1]; exact h2 j hj

/-- With only minus infinities the stored parameters still belong to a visited state of maximal log-likelihood, the last one (proved part of the
full claim, which asks for the first one). -/
theorem C43_all_bot_partial (ops : List (FitArgs K m)) (s : GM C m Atom × ℕ) (h0 : s.1.mapLL = ⊥) (hbot : ∀ v ∈ visitsRun W ω ops s, v.1 = ⊥)
    (hne : visitsRun W ω ops s ≠ []) :
    (run W ω s ops).1.mapLL = ⊥ ∧ (run W ω s ops).1.mapParams = some ((visitsRun W ω ops s).getLast hne).2 := by
  have hB := C43_best (ω := ω) W ops s
  have hb : (run W ω s ops).1.mapLL = ⊥ := by
    by_contra hc
    rcases hB.first hc with ⟨h, -⟩ | ⟨-, i, hi, h1, -⟩
    · exact hc (h.trans h0)
    · exact hc ((Prod.mk.inj h1).1.trans (hbot _ (List.getElem_mem hi)))
  refine ⟨hb, ?_⟩
  have := hB.bot hb
  rw [List.getLast?_eq_getLast_of_ne_nil hne] at this
  exact this

/-- Densities that vanish everywhere. -/
def zeroWorld : World ℚ 1 ℚ := { world with logpdf := fun _ _ => ⊥ }

/-- "The first such one" fails when every visited state has log-likelihood minus infinity. -/
theorem C43_first_refuted : ∃ (W : World ℚ 1 ℚ) (ω : Oracle ℚ) (s : GM (Equal.cls : WeightClass ℚ) 1 ℚ × ℕ) (a : FitArgs ℚ 1),
    ω.Legal ∧ s.1.mapLL = ⊥ ∧ (visitsRun W ω [a] s).length = 3 ∧ (∀ v ∈ visitsRun W ω [a] s, v.1 = ⊥) ∧
    (run W ω s [a]).1.mapParams ≠ ((visitsRun W ω [a] s)[0]?).map (·.2) := by
  refine ⟨zeroWorld, demo, (eqObj 2 2 1 1, 0), ⟨rows1 [0, 1, 5, 6], .none, false, .kmeans⟩, demo_legal, ?_⟩
  decide +kernel

/-! A run that visits seven states, all with finite log-likelihood; the third one is kept. -/
example : let L := visitsRun world demo [⟨rows1 [0, 1, 5, 6], .none, false, .kmeans⟩] ((eqObj 2 6 1 2, 0) : GM (Equal.cls : WeightClass ℚ) 1 ℚ × ℕ)
    L.length = 7 ∧ (∀ v ∈ L, v.1 ≠ ⊥) ∧
    (run world demo ((eqObj 2 6 1 2, 0) : GM (Equal.cls : WeightClass ℚ) 1 ℚ × ℕ) [⟨rows1 [0, 1, 5, 6], .none, false, .kmeans⟩]).1.mapParams =
      (L[2]?).map (·.2) := by decide +kernel
end Verif.Mix
