import Verif.Lemmas.GibbsStep
import Verif.Lemmas.GibbsDemo
import Verif.Props.C29

/-!
# C66: the complete-data log-likelihood is the sum over the observations

For every weight class, surrounding and object state: when the log-likelihood used for the MAP bookkeeping is computed, every label has an atom and a
weight in the object afterwards, and the value is `Σ_i [log N(y_i; atom of d_i) + log w_{d_i}]`, minus infinity as soon as one term is
(`C66_value`).  `C66_map`: when `_update_map_params` stores a state, the stored log-likelihood is that sum for the stored parameters.
-/

set_option linter.unusedSectionVars false

namespace Verif.Mix
open GM Verif.Spec
variable {K : Type} [Field K] [LinearOrder K] [IsStrictOrderedRing K] {C : WeightClass K} {m : ℕ} {Atom : Type} {ω : Oracle K}

/-- The logarithm of a weight; `⊥` is minus infinity. -/
def logW (log : K → K) (x : K) : WithBot K := if x = 0 then ⊥ else (log x : WithBot K)

/-- The log-density of `x` under atom `j` (`0` without such an atom). -/
def obsLog (W : World K m Atom) (theta : List (ℕ × Atom)) (x : Fin m → K) (j : ℕ) : WithBot K := match theta.lookup j with
  | some a => W.logpdf x a
  | none => 0

/-- The contribution of an observation `x` with label `j`. -/
def obsTerm (W : World K m Atom) (theta : List (ℕ × Atom)) (w : List K) (x : Fin m → K) (j : ℕ) : WithBot K :=
  obsLog W theta x j + logW W.log ((w[j]?).getD 0)

/-- The sum over the observations. -/
def completeLogLik (W : World K m Atom) (y : List (Fin m → K)) (theta : List (ℕ × Atom)) (w : List K) (d : List ℕ) : WithBot K :=
  (List.zipWith (obsTerm W theta w) y d).sum

/-- Every observation has a label with an atom and a weight. -/
def Labelled (y : List (Fin m → K)) (theta : List (ℕ × Atom)) (w : List K) (d : List ℕ) : Prop :=
  d.length = y.length ∧ ∀ j ∈ d, (theta.lookup j).isSome ∧ j < w.length

variable (W : World K m Atom)

/-- The observations with label `j`. -/
def rowsWith (y : List (Fin m → K)) (d : List ℕ) (j : ℕ) : List (Fin m → K) := (List.zip y d).filterMap (fun p => if p.2 = j then some p.1 else none)

theorem rowsOf_eq {y : List (Fin m → K)} {d : List ℕ} {j : ℕ} {rows : List (Fin m → K)} (h : rowsOf y d j = .ok rows) :
    d.length = y.length ∧ rows = rowsWith y d j := by
  unfold rowsOf at h
  split at h
  · rename_i hl
    cases h
    exact ⟨hl.symm, rfl⟩
  · cases h

theorem yLogLik_value (js : List ℕ) (acc : WithBot K) (s : GM C m Atom × ℕ) :
    wp ω (yLogLik W js acc) (fun r t => Grown s.1 t.1 ∧ (js ≠ [] → s.1.d.length = s.1.y.length) ∧ (∀ j ∈ js, (t.1.theta.lookup j).isSome) ∧
      r = acc + (js.map (fun j => ((rowsWith s.1.y s.1.d j).map (fun x => obsLog W t.1.theta x j)).sum)).sum) (fun _ _ => True) s := by
  induction js generalizing acc s with
  | nil => exact ⟨Grown.rfl _, fun h => absurd rfl h, by simp, by simp⟩
  | cons j js ih =>
    unfold yLogLik
    rw [wp_bind, wp_self, wp_bind, wp_lift]
    refine ⟨fun rows hr => ?_, fun _ _ => trivial⟩
    obtain ⟨hl, rfl⟩ := rowsOf_eq hr
    rw [wp_bind]
    refine wp_mono (getAtom_spec W j s) (fun a t h => ?_) fun _ _ _ => trivial
    refine wp_mono (ih _ t) (fun r t' h' => ?_) fun _ _ _ => trivial
    obtain ⟨h1, _, h3, h4⟩ := h'
    have hj := lookup_prefix h1.pre h.2
    refine ⟨h.1.trans h1, fun _ => hl, ?_, ?_⟩
    · intro k hk
      rcases List.mem_cons.1 hk with rfl | hk
      · rw [hj]; rfl
      · exact h3 k hk
    · rw [h4, List.map_cons, List.sum_cons, ← add_assoc, h.1.d, show t.1.y = s.1.y from congrArg Frame.y h.1.frame]
      congr 2
      have : (fun x => obsLog W t'.1.theta x j) = fun x => W.logpdf x a := by
        funext x; unfold obsLog; rw [hj]
      rw [this]

theorem sum_pick {α : Type} (f : ℕ → WithBot K) {js : List ℕ} (hn : js.Nodup) {j : ℕ} (hj : j ∈ js) :
    (js.map (fun k => if j = k then f k else 0)).sum = f j := by
  induction js with
  | nil => cases hj
  | cons k ks ih =>
    rw [List.map_cons, List.sum_cons]
    rw [List.nodup_cons] at hn
    by_cases h : j = k
    · subst h
      rw [if_pos rfl]
      have : (ks.map (fun i => if j = i then f i else 0)) = ks.map (fun _ => 0) :=
        List.map_congr_left fun i hi => if_neg (fun h : j = i => hn.1 (by rw [h]; exact hi))
      rw [this]; simp
    · rw [if_neg h, zero_add]
      exact ih hn.2 ((List.mem_cons.1 hj).resolve_left h)

/-- Summing over the labels and then over their observations is summing over the observations. -/
theorem regroup (f : (Fin m → K) → ℕ → WithBot K) (y : List (Fin m → K)) (d : List ℕ) {js : List ℕ} (hn : js.Nodup) (hd : ∀ j ∈ d, j ∈ js) :
    (js.map (fun j => ((rowsWith y d j).map (fun x => f x j)).sum)).sum = (List.zipWith f y d).sum := by
  induction y generalizing d with
  | nil => simp [rowsWith]
  | cons x y ih =>
    cases d with
    | nil => simp [rowsWith]
    | cons i d =>
      have hstep : ∀ j, ((rowsWith (x :: y) (i :: d) j).map (fun x => f x j)).sum = (if i = j then f x j else 0) + ((rowsWith y d j).map (fun x => f x j)).sum := by
        intro j
        unfold rowsWith
        rw [List.zip_cons_cons, List.filterMap_cons]
        by_cases h : i = j
        · simp [h]
        · simp [h]
      simp only [hstep]
      rw [List.sum_map_add, sum_pick (α := K) (fun j => f x j) hn (hd i (by simp)), ih d fun j hj => hd j (by simp [hj])]
      rfl

theorem sum_zip_add (f g : (Fin m → K) → ℕ → WithBot K) (y : List (Fin m → K)) (d : List ℕ) :
    (List.zipWith f y d).sum + (List.zipWith g y d).sum = (List.zipWith (fun x j => f x j + g x j) y d).sum := by
  induction y generalizing d with
  | nil => simp
  | cons x y ih =>
    cases d with
    | nil => simp
    | cons j d =>
      simp only [List.zipWith_cons_cons, List.sum_cons]
      rw [← ih d]
      exact add_add_add_comm _ _ _ _

theorem toBot_sum (log : K → K) (ys : List K) (o : Option K) (h : (0 ∈ ys ∧ o = none) ∨ (0 ∉ ys ∧ o = some (ys.map log).sum)) :
    toBot o = (ys.map (logW log)).sum := by
  rcases h with ⟨h0, rfl⟩ | ⟨h0, rfl⟩
  · symm
    show _ = ⊥
    obtain ⟨a, b, rfl⟩ := List.append_of_mem h0
    simp [logW]
  · show (((ys.map log).sum : K) : WithBot K) = _
    induction ys with
    | nil => rfl
    | cons y ys ih =>
      rw [List.map_cons, List.map_cons, List.sum_cons, List.sum_cons, WithBot.coe_add, ih fun h => h0 (by simp [h])]
      congr 1
      unfold logW
      rw [if_neg (fun h => h0 (by simp [h]))]

theorem runLogLik_value (s : GM C m Atom × ℕ) :
    wp ω (runLogLik W) (fun ll t => t.1.d = s.1.d ∧ t.1.y = s.1.y ∧ t.1.u = s.1.u ∧ t.1.mapLL = s.1.mapLL ∧
        Labelled t.1.y t.1.theta (C.getW t.1.wst.1) t.1.d ∧
        ll = completeLogLik W t.1.y t.1.theta (C.getW t.1.wst.1) t.1.d) (fun _ _ => True) s := by
  unfold runLogLik
  rw [wp_bind, wp_self, wp_bind]
  refine wp_mono (yLogLik_value W _ _ s) (fun ly t h => ?_) fun _ _ _ => trivial
  obtain ⟨hg, hl, ha, hly⟩ := h
  rw [wp_bind, wp_callW]
  have hnn : NonNegLabels (labels s.1.d) := by
    intro x hx
    obtain ⟨n, _, rfl⟩ := List.mem_map.1 hx
    omega
  have hv : wp ω (BaseWeight.assignationLogLikelihood C.toWeightCore W.log (some (labels s.1.d)))
      (fun o t => IsLogLik W.log (C.getW t.1) (labels s.1.d) o ∧ s.1.d ≠ []) (fun _ _ => True) t.1.wst := by
    unfold wp
    rcases hr : BaseWeight.assignationLogLikelihood C.toWeightCore W.log (some (labels s.1.d)) ω t.1.wst with ⟨e | o, v⟩
    · trivial
    · obtain ⟨h1, k, hk, _⟩ := C29_value C.toWeightCore W.log hnn hr
      refine ⟨h1, fun h0 => ?_⟩
      have := hk.1
      rw [h0] at this; cases this
  refine wp_mono hv (fun o v h => ?_) fun _ _ _ => trivial
  rw [wp_pure]
  obtain ⟨⟨ws, hwl, hws, hcase⟩, hne⟩ := h
  have hlab : ∀ (i : ℕ) (j : ℕ), s.1.d[i]? = some j → ws[i]? = (C.getW v.1)[j]? ∧ ws[i]? ≠ none := by
    intro i j hj
    have := hws i (j : ℤ) (by simp [labels, hj])
    simpa using this
  have hu : npUnique s.1.d ≠ [] := by
    obtain ⟨j, hj⟩ := List.exists_mem_of_ne_nil _ hne
    exact List.ne_nil_of_mem (mem_npUnique.2 hj)
  have hlen := hl hu
  refine ⟨hg.d, congrArg Frame.y hg.frame, hg.u, hg.map.1, ⟨?_, ?_⟩, ?_⟩
  · show t.1.d.length = t.1.y.length
    rw [hg.d, show t.1.y = s.1.y from congrArg Frame.y hg.frame]; exact hlen
  · intro j hj
    change j ∈ t.1.d at hj
    rw [hg.d] at hj
    refine ⟨ha j (mem_npUnique.2 hj), ?_⟩
    obtain ⟨i, hi, rfl⟩ := List.mem_iff_getElem.1 hj
    obtain ⟨h1, h2⟩ := hlab i _ (List.getElem?_eq_getElem hi)
    rw [h1] at h2
    exact List.getElem?_eq_some_iff.1 (Option.ne_none_iff_exists'.1 h2).choose_spec |>.1
  · show ly + toBot o = completeLogLik W t.1.y t.1.theta (C.getW v.1) t.1.d
    rw [hg.d, show t.1.y = s.1.y from congrArg Frame.y hg.frame, hly, zero_add, toBot_sum W.log ws o hcase,
      regroup _ s.1.y s.1.d (npUnique_nodup _) fun j hj => mem_npUnique.2 hj]
    have : ws.map (logW W.log) = List.zipWith (fun (_ : Fin m → K) j => logW W.log (((C.getW v.1)[j]?).getD 0)) s.1.y s.1.d := by
      refine List.ext_getElem? fun i => ?_
      rw [List.getElem?_map, List.getElem?_zipWith]
      rcases Nat.lt_or_ge i s.1.d.length with hi | hi
      · obtain ⟨h1, h2⟩ := hlab i _ (List.getElem?_eq_getElem hi)
        obtain ⟨x, hx⟩ := Option.ne_none_iff_exists'.1 h2
        rw [List.getElem?_eq_getElem hi, List.getElem?_eq_getElem (by omega : i < s.1.y.length), hx]
        rw [hx] at h1
        simp [← h1]
      · have : ws.length = s.1.d.length := by rw [hwl]; simp [labels]
        rw [List.getElem?_eq_none (by omega : ws.length ≤ i), List.getElem?_eq_none hi]
        cases s.1.y[i]? <;> rfl
    rw [this, sum_zip_add]
    rfl

/-- The value of the log-likelihood, from every state of the object. -/
theorem C66_value (s t : GM C m Atom × ℕ) (ll : WithBot K) (h : runLogLik W ω s = (.ok ll, t)) :
    t.1.d = s.1.d ∧ t.1.y = s.1.y ∧ Labelled t.1.y t.1.theta (C.getW t.1.wst.1) t.1.d ∧
      ll = completeLogLik W t.1.y t.1.theta (C.getW t.1.wst.1) t.1.d := by
  obtain ⟨h1, h2, _, _, h5, h6⟩ := wp_of_ok h (runLogLik_value W s)
  exact ⟨h1, h2, h5, h6⟩

/-- When the stored log-likelihood changes, it becomes the value of the stored state. -/
theorem C66_map (s t : GM C m Atom × ℕ) (h : updateMap W ω s = (.ok (), t)) :
    t.1.mapLL = s.1.mapLL ∨ ∃ p, t.1.mapParams = some p ∧ p.d = t.1.d ∧ p.theta = t.1.theta ∧ p.w = C.getW t.1.wst.1 ∧
      t.1.mapLL = completeLogLik W t.1.y p.theta p.w p.d ∧ s.1.mapLL < t.1.mapLL := by
  refine wp_of_ok h (Q := fun _ t => t.1.mapLL = s.1.mapLL ∨ ∃ p, t.1.mapParams = some p ∧ p.d = t.1.d ∧ p.theta = t.1.theta ∧
    p.w = C.getW t.1.wst.1 ∧ t.1.mapLL = completeLogLik W t.1.y p.theta p.w p.d ∧ s.1.mapLL < t.1.mapLL) (E := fun _ _ => True) ?_
  unfold updateMap
  rw [wp_bind]
  refine wp_mono (runLogLik_value W s) (fun ll t h => ?_) fun _ _ _ => trivial
  obtain ⟨_, _, _, h4, _, h6⟩ := h
  rw [wp_assign]
  dsimp only
  split
  · rename_i hlt
    exact .inr ⟨_, rfl, rfl, rfl, rfl, h6, by rw [← h4]; exact hlt⟩
  · split
    · exact .inl h4
    · exact .inl h4

/-! ### The hypotheses are met -/

example : let t := (run world demo (eqObj 2 3 0 1, 0) [⟨rows1 [1, 2, 5], .int 2, false, .kmeans⟩])
    returns (runLogLik world) demo t = true ∧ t.1.d.length = 3 := by decide +kernel
end Verif.Mix
