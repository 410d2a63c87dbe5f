import Verif.Lemmas.GibbsStep
import Verif.Lemmas.GibbsDemo

/-!
# C46: sampled assignments respect the slice

For every weight class of the library, every surrounding and every object state: after a Gibbs step that returned there is one label per
observation, each below the number of weights, and an observation for which some component of finite log-density has a weight above the slice
level is assigned to such a component (`C46_step`).  `C46_saved`: hence the same for all saved states of all runs (Gaussian log-densities are
finite).  `C46_start`, `C46_cover`: for the classes with the
inherited `tail` the weights leave out at most the smallest slice level, at the start of a cold fit and after every step.  `C46_gumbel`: the chosen component maximises the log-density plus Gumbel noise among the components above the slice.
-/

set_option linter.unusedSectionVars false

namespace Verif.Mix
open GM
variable {K : Type} [Field K] [LinearOrder K] [IsStrictOrderedRing K] {C : WeightClass K} {m : ℕ} {Atom : Type} {ω : Oracle K}

/-- Component `j` is a possible choice for the observation `x` with slice level `u`: its weight is above the level and its log-density finite. -/
def Possible (W : World K m Atom) (w : List K) (theta : List (ℕ × Atom)) (x : Fin m → K) (u : K) (j : ℕ) : Prop :=
  ∃ wj a, w[j]? = some wj ∧ u < wj ∧ theta.lookup j = some a ∧ W.logpdf x a ≠ ⊥

/-- The labels respect the slice levels. -/
def RespectsSlice (W : World K m Atom) (y : List (Fin m → K)) (w : List K) (theta : List (ℕ × Atom)) (u : List K) (d : List ℕ) : Prop :=
  d.length = y.length ∧ u.length = y.length ∧ ∀ (i : ℕ) (x : Fin m → K) (ui : K), y[i]? = some x → u[i]? = some ui →
    ∃ j, d[i]? = some j ∧ j < w.length ∧ ((∃ k, Possible W w theta x ui k) → Possible W w theta x ui j)

variable (W : World K m Atom)

theorem column_get {w : List K} {as : List Atom} {x : Fin m → K} {ui : K} {j : ℕ} {a : Atom} {wj : K} (ha : as[j]? = some a) (hw : w[j]? = some wj) :
    (column W w as x ui)[j]? = some (W.logpdf x a + (if wj > ui then (0 : WithBot K) else ⊥)) := by
  unfold column
  rw [List.getElem?_zipWith, ha, hw]

theorem possible_iff {w : List K} {y : List (Fin m → K)} {u : List K} {theta : List (ℕ × Atom)} {d : List ℕ} {as : List Atom}
    {ns : List (List K)} (h : Assigned W w y u theta d as ns) (x : Fin m → K) (ui : K) {j : ℕ} (hj : j < w.length) :
    Possible W w theta x ui j ↔ (column W w as x ui)[j]? ≠ some ⊥ := by
  have ha : as[j]? = some (as[j]'(by rw [h.atoms_len]; exact hj)) := List.getElem?_eq_getElem _
  have hw : w[j]? = some w[j] := List.getElem?_eq_getElem hj
  rw [column_get W ha hw]
  constructor
  · rintro ⟨wj, a, h1, h2, h3, h4⟩
    rw [h.atoms j hj, ha] at h3
    rw [hw] at h1
    cases h1; cases h3
    rw [if_pos h2, add_zero]
    simpa using h4
  · intro hne
    by_cases hu : w[j] > ui
    · rw [if_pos hu, add_zero] at hne
      exact ⟨_, _, hw, hu, by rw [h.atoms j hj, ha], by simpa using hne⟩
    · rw [if_neg hu, WithBot.add_bot] at hne
      exact absurd rfl hne

theorem respects_of_stepped (s : GM C m Atom) (h : Stepped W s) : RespectsSlice W s.y (C.getW s.wst.1) s.theta s.u s.d := by
  obtain ⟨as, ns, h⟩ := h
  obtain ⟨hl, hc⟩ := h.choice
  refine ⟨hl, h.u_len, fun i x ui hx hu => ?_⟩
  obtain ⟨j, g, h1, _, h3⟩ := hc i x ui hx hu
  have hj : j < (C.getW s.wst.1).length := by have := h3.lt; rwa [column_length W h.atoms_len] at this
  refine ⟨j, h1, hj, fun ⟨k, hk⟩ => (possible_iff W h x ui hj).2 (h3.possible ?_)⟩
  have hk' : k < (C.getW s.wst.1).length := by obtain ⟨wj, _, h, _⟩ := hk; exact (List.getElem?_eq_some_iff.1 h).1
  have := (possible_iff W h x ui hk').1 hk
  have hkc : k < (column W (C.getW s.wst.1) as x ui).length := by rw [column_length W h.atoms_len]; exact hk'
  rw [List.getElem?_eq_getElem hkc] at this
  exact ⟨_, List.getElem_mem hkc, fun h => this (by rw [h])⟩

/-- Every step, from every state of the object. -/
theorem C46_step (hC : Library C) (s t : GM C m Atom × ℕ) (h : gibbsStep W ω s = (.ok (), t)) :
    RespectsSlice W s.1.y (C.getW t.1.wst.1) t.1.theta t.1.u t.1.d := by
  obtain ⟨I, hI⟩ := hC.tidy ω
  obtain ⟨_, hf, hs⟩ := wp_of_ok h (gibbsStep_spec W hI s)
  rw [← show t.1.y = s.1.y from congrArg Frame.y hf]
  exact respects_of_stepped W t.1 hs

/-- Among the possible components the chosen one maximises the log-density plus the noise drawn for it. -/
theorem C46_gumbel (hC : Library C) (s t : GM C m Atom × ℕ) (h : gibbsStep W ω s = (.ok (), t)) :
    ∃ ns : List (List K), ∀ (i : ℕ) (x : Fin m → K) (ui : K), s.1.y[i]? = some x → t.1.u[i]? = some ui →
      ∃ j g, t.1.d[i]? = some j ∧ ns[i]? = some g ∧ ∀ (k : ℕ) (a b : Atom) (ga gb : K), Possible W (C.getW t.1.wst.1) t.1.theta x ui k →
        t.1.theta.lookup j = some a → t.1.theta.lookup k = some b → g[j]? = some ga → g[k]? = some gb →
        W.logpdf x b + (gb : WithBot K) ≤ W.logpdf x a + (ga : WithBot K) := by
  obtain ⟨I, hI⟩ := hC.tidy ω
  obtain ⟨_, hf, hs⟩ := wp_of_ok h (gibbsStep_spec W hI s)
  rw [← show t.1.y = s.1.y from congrArg Frame.y hf]
  obtain ⟨as, ns, h⟩ := hs
  refine ⟨ns, fun i x ui hx hu => ?_⟩
  obtain ⟨j, g, h1, h2, h3⟩ := h.choice.2 i x ui hx hu
  refine ⟨j, g, h1, h2, fun k a b ga gb hk ha hb hga hgb => ?_⟩
  have hj : j < (C.getW t.1.wst.1).length := by have := h3.lt; rwa [column_length W h.atoms_len] at this
  have hk' : k < (C.getW t.1.wst.1).length := by obtain ⟨wj, _, h, _⟩ := hk; exact (List.getElem?_eq_some_iff.1 h).1
  have hgl : g.length = (column W (C.getW t.1.wst.1) as x ui).length := by
    rw [column_length W h.atoms_len]; exact h.noise g (List.mem_of_getElem? h2)
  have hkc : k < (column W (C.getW t.1.wst.1) as x ui).length := by rw [column_length W h.atoms_len]; exact hk'
  have hjc : j < (column W (C.getW t.1.wst.1) as x ui).length := by rw [column_length W h.atoms_len]; exact hj
  have hb1 := h3.best.max k (by rw [perturbed_length hgl]; exact hkc)
  rw [perturbed_get hgl hkc, perturbed_get hgl hjc] at hb1
  have hw : ∀ i (hi : i < (C.getW t.1.wst.1).length), (C.getW t.1.wst.1)[i]? = some (C.getW t.1.wst.1)[i] := fun i hi => List.getElem?_eq_getElem hi
  have ck := column_get W (x := x) (ui := ui) (by rw [← h.atoms k hk']; exact hb) (hw k hk')
  have cj := column_get W (x := x) (ui := ui) (by rw [← h.atoms j hj]; exact ha) (hw j hj)
  rw [List.getElem?_eq_getElem hkc, Option.some.injEq] at ck
  rw [List.getElem?_eq_getElem hjc, Option.some.injEq] at cj
  obtain ⟨wk, b', hwk, hgt, hb', hfin⟩ := hk
  rw [hw k hk', Option.some.injEq] at hwk
  have h5 := (List.getElem?_eq_some_iff.1 hga)
  have h6 := (List.getElem?_eq_some_iff.1 hgb)
  obtain ⟨_, h5⟩ := h5
  obtain ⟨_, h6⟩ := h6
  rw [ck, cj, h5, h6, if_pos (by rw [hwk]; exact hgt), add_zero] at hb1
  refine hb1.trans ?_
  split
  · rw [add_zero]
  · rw [WithBot.add_bot, WithBot.bot_add]; exact bot_le

/-- All saved states of all runs. -/
theorem C46_saved (hC : Library C) (hfin : ∀ x a, W.logpdf x a ≠ ⊥) (s : GM C m Atom × ℕ) (hs : s.1.saved = []) (ops : List (FitArgs K m)) :
    ∀ p ∈ (run W ω s ops).1.saved, p.u.length = p.d.length ∧ ∀ (i : ℕ) (j : ℕ) (ui : K), p.d[i]? = some j → p.u[i]? = some ui →
      ∃ wj, p.w[j]? = some wj ∧ ((∃ x ∈ p.w, ui < x) → ui < wj) := by
  obtain ⟨I, hI⟩ := hC.tidy ω
  refine run_saved W hI (fun t ht => ?_) s hs ops
  have hcov : ∀ k < (C.getW t.wst.1).length, (t.theta.lookup k).isSome := by obtain ⟨as, ns, h⟩ := ht; exact h.covered
  obtain ⟨h1, h2, h3⟩ := respects_of_stepped W t ht
  refine ⟨h2.trans h1.symm, fun i j ui hj hu => ?_⟩
  have hi : i < t.y.length := by rw [← h1]; exact (List.getElem?_eq_some_iff.1 hj).1
  obtain ⟨j', hj', hlt, himp⟩ := h3 i _ ui (List.getElem?_eq_getElem hi) hu
  rw [show t.d[i]? = some j from hj, Option.some.injEq] at hj'
  subst hj'
  refine ⟨_, List.getElem?_eq_getElem hlt, fun ⟨x, hx, hux⟩ => ?_⟩
  obtain ⟨k, hk, rfl⟩ := List.mem_iff_getElem.1 hx
  obtain ⟨a, ha⟩ := Option.isSome_iff_exists.1 (hcov k hk)
  obtain ⟨wj, _, hw, hlt', _⟩ := himp ⟨k, _, a, List.getElem?_eq_getElem hk, hux, ha, hfin _ _⟩
  rw [List.getElem?_eq_getElem hlt, Option.some.injEq] at hw
  rw [hw]; exact hlt'

/-! ### The weights cover the slice levels -/

/-- What the weights leave out is at most every slice level. -/
def CoversLevels (w u : List K) : Prop := ∀ x ∈ u, 1 - x ≤ w.sum

theorem minK_le {l : List K} {x : K} (h : minK l = .ok x) : ∀ y ∈ l, x ≤ y := by
  cases l with
  | nil => cases h
  | cons z l =>
    have key : ∀ (l : List K) (z : K), ∀ y ∈ z :: l, l.foldl min z ≤ y := by
      intro l
      induction l with
      | nil => intro z y hy; simp_all
      | cons b l ih =>
        intro z y hy
        rw [List.foldl_cons]
        rcases List.mem_cons.1 hy with rfl | hy
        · exact (ih _ _ (List.mem_cons_self ..)).trans (min_le_left _ _)
        rcases List.mem_cons.1 hy with rfl | hy
        · exact (ih _ _ (List.mem_cons_self ..)).trans (min_le_right _ _)
        · exact ih _ _ (List.mem_cons_of_mem _ hy)
    cases h
    exact key l z

theorem tail_reaches (C : WeightCore K) (f : ℕ) (x : K) (s : C.State × ℕ) :
    wp ω (BaseWeight.tail C f x) (fun _ t => x ≤ (C.getW t.1).sum) (fun _ _ => True) s := by
  have triv : ∀ {α : Type} (c : M K C.State α) (s : C.State × ℕ), wp ω c (fun _ _ => True) (fun _ _ => True) s := by
    intro α c s; unfold wp; split <;> trivial
  by_cases hx : x ≥ 1 ∨ x < 0
  · unfold wp; rw [BaseWeight.tail_bad C hx]; trivial
  · exact wp_mono (wp_tail (I := fun _ => True) hx (fun s _ _ => triv _ s) (fun _ _ _ => trivial) f s (fun _ => triv _ s) fun _ => trivial)
      (fun r t h => by rw [← h.2.1]; exact h.2.2) fun _ _ h => h

/-- For every weight class with the inherited `tail`, from every state: after the weights of a cold start without `init_groups` have been made, they cover the
slice levels just drawn. -/
theorem C46_start (hT : ∀ f x, C.tail f x = BaseWeight.tail C.toWeightCore f x) (s t : GM C m Atom × ℕ) (h : initWeights W .none ω s = (.ok (), t)) :
    t.1.u = s.1.u ∧ CoversLevels (C.getW t.1.wst.1) t.1.u := by
  refine wp_of_ok (Q := fun _ t => t.1.u = s.1.u ∧ CoversLevels (C.getW t.1.wst.1) t.1.u) (E := fun _ _ => True) h ?_
  unfold initWeights
  rw [wp_bind, wp_self]
  simp only
  rw [wp_bind, wp_lift]
  refine ⟨fun u hu => ?_, fun _ _ => trivial⟩
  rw [wp_bind, wp_callW, hT]
  refine wp_mono (tail_reaches _ _ _ _) (fun _ t' ht => ?_) fun _ _ _ => trivial
  exact ⟨rfl, fun x hx => le_trans (by have := minK_le hu x hx; linarith) ht⟩

/-- For every weight class with the inherited `tail`, from every state: after a Gibbs step the weights cover the slice levels of that step. -/
theorem C46_cover (hT : ∀ f x, C.tail f x = BaseWeight.tail C.toWeightCore f x) (s t : GM C m Atom × ℕ) (h : gibbsStep W ω s = (.ok (), t)) :
    CoversLevels (C.getW t.1.wst.1) t.1.u := by
  have triv : ∀ {σ α : Type} (c : M K σ α) (s : σ × ℕ), wp ω c (fun _ _ => True) (fun _ _ => True) s := by
    intro σ α c s; unfold wp; split <;> trivial
  refine wp_of_ok (Q := fun _ t => CoversLevels (C.getW t.1.wst.1) t.1.u) (E := fun _ _ => True) h ?_
  unfold gibbsStep
  rw [wp_bind, wp_self, wp_bind]
  refine wp_mono (triv _ _) (fun _ t1 _ => ?_) fun _ _ _ => trivial
  rw [wp_bind]
  have hw : wp ω (updateWeights W) (fun (_ : Unit) (t : GM C m Atom × ℕ) => CoversLevels (C.getW t.1.wst.1) t.1.u) (fun _ _ => True) t1 := by
    unfold updateWeights
    rw [wp_bind, wp_self, wp_bind]
    refine wp_mono (triv _ _) (fun _ t2 _ => ?_) fun _ _ _ => trivial
    rw [wp_bind]
    refine wp_mono (triv _ _) (fun _ t3 _ => ?_) fun _ _ _ => trivial
    rw [wp_bind]
    refine wp_mono (triv _ _) (fun _ t4 _ => ?_) fun _ _ _ => trivial
    rw [wp_bind]
    refine wp_mono (triv _ _) (fun us t5 _ => ?_) fun _ _ _ => trivial
    rw [wp_bind, wp_assign, wp_bind, wp_lift]
    refine ⟨fun u hu => ?_, fun _ _ => trivial⟩
    rw [wp_bind, wp_callW, hT]
    refine wp_mono (tail_reaches _ _ _ _) (fun _ t' ht => ?_) fun _ _ _ => trivial
    exact fun x hx => le_trans (by have := minK_le hu x hx; linarith) ht
  refine wp_mono hw (fun _ t2 h2 => ?_) fun _ _ _ => trivial
  refine wp_mono (updateD_spec W t2) (fun _ t3 h3 => ?_) fun _ _ _ => trivial
  rw [h3.1, h3.2.1]; exact h2

/-! ### The hypotheses are met -/

/-- A run of the Dirichlet process mixture with saved states, several weights and slice levels below some of them. -/
example : let t := run world (meanO : Oracle ℚ) (dpObj 1 4 1 1, 0) [⟨rows1 [1, 2, 5], .int 2, false, .kmeans⟩]
    t.1.gibbsFitted = true ∧ (t.1.saved.all (fun p => decide (2 ≤ p.w.length) && p.u.all (fun u => p.w.any (fun x => decide (u < x))))) = true ∧
      t.1.saved.length = 3 := by
  decide +kernel

example : ∀ x a, world.logpdf x a ≠ ⊥ := fun _ _ => WithBot.coe_ne_bot

/-- `tail` is inherited by nine of the ten classes. -/
example : ∀ f x, (DP.cls : WeightClass K).tail f x = BaseWeight.tail DP.cls.toWeightCore f x := fun _ _ => rfl
example : ∀ f x, (BBer.cls : WeightClass K).tail f x = BaseWeight.tail BBer.cls.toWeightCore f x := fun _ _ => rfl
end Verif.Mix
