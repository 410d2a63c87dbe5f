import Verif.Props.C119

/-!
# C127: `init_groups` bounds the number of groups with which `fit_gibbs` starts

The documentation says of `init_groups`: "Maximum number of groups to assign in the initialization. If None, the initial number of groups is drawn from the weighting structure
model's attribute `n`.  This parameter is only used in k-means initialization."

Full claim: a cold start with `init_groups = g` has at most `g` groups, for every class and method.

The claim holds for k-means in the classes without attribute `n` (`C127_kmeans_partial`) and for random labels when the weight object has at most `g` weights once completed
(`C127_random_partial`), in particular for new stick-breaking objects.  With an attribute `n` the parameter is ignored by k-means (`C127_n`, `C127_n_refuted`); random labels may use all the weights left by an
earlier fit (`C127_random_refuted`), and the parameter does act on them (`C127_only_kmeans_refuted`).  Without `init_groups` the start has at most two groups, and no `n` is drawn (`C127_default`).
-/

set_option linter.unusedSectionVars false

namespace Verif.Mix.GM
variable {K : Type} [Field K] [LinearOrder K] [IsStrictOrderedRing K] [FloorRing K] {C : WeightClass K} {m : ℕ} {Atom : Type}
variable {ω : Oracle K} {W : World K m Atom}

/-- k-means with `k` clusters gives labels below `k`. -/
def KMeansBelow (W : World K m Atom) : Prop := ∀ p ys k l, W.kmeans p ys k = .ok l → ∀ x ∈ l, (x : ℤ) < k

/-- At most `g` groups, numbered from zero. -/
def AtMost (g : ℕ) (d : List ℕ) : Prop := (∀ x ∈ d, x < g) ∧ d.toFinset.card ≤ g

theorem AtMost.of_lt {g : ℕ} {d : List ℕ} (h : ∀ x ∈ d, x < g) : AtMost g d := by
  refine ⟨h, ?_⟩
  have : d.toFinset ⊆ Finset.range g := fun x hx => Finset.mem_range.2 (h x (List.mem_toFinset.1 hx))
  simpa using Finset.card_le_card this

theorem wp_exact {σ α : Type} (x : M K σ α) (s : σ × ℕ) : wp ω x (fun a t => x ω s = (.ok a, t)) (fun _ _ => True) s := by
  unfold wp
  rcases x ω s with ⟨e | a, t⟩
  · trivial
  · rfl

/-- The start of a fit leaves the data and the attribute `n`, completes the weights, and then finds the labels. -/
theorem start_split {g : PySize} {method : InitMethod} {s t : GM C m Atom × ℕ} (h : initGibbs W g method ω s = (.ok (), t)) :
    ∃ (o o' : GM C m Atom × ℕ) (d : List ℕ), o.1.y = s.1.y ∧ o.1.nAttr = s.1.nAttr ∧
      (g ≠ .none → ∃ r, C.complete g ω s.1.wst = (.ok r, o.1.wst)) ∧
      initLabels W g method ω o = (.ok d, o') ∧ t = ({ o'.1 with d := d }, o'.2) := by
  refine wp_of_ok h (Q := fun _ t => ∃ (o o' : GM C m Atom × ℕ) (d : List ℕ), o.1.y = s.1.y ∧ o.1.nAttr = s.1.nAttr ∧
      (g ≠ .none → ∃ r, C.complete g ω s.1.wst = (.ok r, o.1.wst)) ∧
      initLabels W g method ω o = (.ok d, o') ∧ t = ({ o'.1 with d := d }, o'.2)) (E := fun _ _ => True) ?_
  have fin : ∀ o : GM C m Atom × ℕ, o.1.y = s.1.y → o.1.nAttr = s.1.nAttr → (g ≠ .none → ∃ r, C.complete g ω s.1.wst = (.ok r, o.1.wst)) →
      wp ω (do
        let d ← initLabels W g method
        M.assign (fun s => { s with d := d }) : M K (GM C m Atom) Unit) (fun _ t => ∃ (o o' : GM C m Atom × ℕ) (d : List ℕ), o.1.y = s.1.y ∧ o.1.nAttr = s.1.nAttr ∧
      (g ≠ .none → ∃ r, C.complete g ω s.1.wst = (.ok r, o.1.wst)) ∧
      initLabels W g method ω o = (.ok d, o') ∧ t = ({ o'.1 with d := d }, o'.2)) (fun _ _ => True) o := by
    intro o h1 h2 h3
    rw [wp_bind]
    refine wp_mono (wp_exact _ o) (fun d o' h => ?_) fun _ _ _ => trivial
    rw [wp_assign]
    exact ⟨o, o', d, h1, h2, h3, h, rfl⟩
  unfold initGibbs
  rw [wp_bind, wp_assign, wp_bind, wp_self, wp_bind, wp_draws, wp_bind, wp_assign, wp_bind]
  unfold initWeights
  rw [wp_bind, wp_self]
  by_cases hg : g = .none
  · subst hg
    simp only []
    rw [wp_bind, wp_lift]
    refine ⟨fun u _ => ?_, fun _ _ => trivial⟩
    rw [wp_bind, wp_callW]
    refine wp_mono (wp_exact _ _) (fun _ t _ => ?_) fun _ _ _ => trivial
    rw [wp_pure]
    exact fin _ rfl rfl (fun h => absurd rfl h)
  · split
    · exact absurd rfl hg
    · rw [wp_bind, wp_callW]
      refine wp_mono (wp_exact _ _) (fun r t ht => ?_) fun _ _ _ => trivial
      rw [wp_pure]
      exact fin _ rfl rfl (fun _ => ⟨r, ht⟩)

/-- The number of clusters of k-means: the attribute `n`, else `init_groups`, else two. -/
theorem start_kmeans {g : PySize} {s t : GM C m Atom × ℕ} (h : initGibbs W g .kmeans ω s = (.ok (), t)) :
    ∃ (p : ℕ) (raw : List ℕ), W.kmeans p s.1.y (s.1.nAttr.getD (g.toInt?.getD 2)) = .ok raw ∧ t.1.d = sizeBiased W.argsort raw := by
  obtain ⟨o, o', d, hy, hn, -, hl, rfl⟩ := start_split h
  refine wp_of_ok hl (Q := fun d _ => ∃ (p : ℕ) (raw : List ℕ), W.kmeans p s.1.y (s.1.nAttr.getD (g.toInt?.getD 2)) = .ok raw ∧ d = sizeBiased W.argsort raw) (E := fun _ _ => True) ?_
  unfold initLabels
  rw [wp_bind, wp_self, wp_bind, wp_draw1, wp_bind, wp_lift]
  refine ⟨fun raw hr => ?_, fun _ _ => trivial⟩
  rw [wp_pure]
  refine ⟨o.2, raw, ?_, rfl⟩
  rw [← hr, hy, hn]
  congr 1
  cases s.1.nAttr <;> cases g.toInt? <;> rfl

theorem sizeBiased_atMost (ha : IsArgsort W.argsort) {k : ℤ} {raw : List ℕ} (h : ∀ x ∈ raw, (x : ℤ) < k) : AtMost k.toNat (sizeBiased W.argsort raw) := by
  refine AtMost.of_lt fun x hx => lt_of_lt_of_le (sizeBiased_lt ha raw x hx) (npUnique_le fun y hy => ?_)
  have := h y hy
  omega

/-- **C127**, k-means, classes without attribute `n`. -/
theorem C127_kmeans_partial (ha : IsArgsort W.argsort) (hk : KMeansBelow W) {g : ℤ} {s t : GM C m Atom × ℕ} (hn : s.1.nAttr = none)
    (h : initGibbs W (.int g) .kmeans ω s = (.ok (), t)) : AtMost g.toNat t.1.d := by
  obtain ⟨p, raw, hr, hd⟩ := start_kmeans h
  rw [hn] at hr
  rw [hd]
  exact sizeBiased_atMost ha (hk p _ g raw hr)

/-- Without `init_groups`: at most two groups, whatever the weighting structure. -/
theorem C127_default (ha : IsArgsort W.argsort) (hk : KMeansBelow W) {s t : GM C m Atom × ℕ} (hn : s.1.nAttr = none)
    (h : initGibbs W .none .kmeans ω s = (.ok (), t)) : AtMost 2 t.1.d := by
  obtain ⟨p, raw, hr, hd⟩ := start_kmeans h
  rw [hn] at hr
  rw [hd]
  exact sizeBiased_atMost (k := 2) ha (hk p _ 2 raw hr)

/-- With an attribute `n` k-means looks for `n` groups and does not look at `init_groups`. -/
theorem C127_n {g : PySize} {n : ℤ} {s t : GM C m Atom × ℕ} (hn : s.1.nAttr = some n) (h : initGibbs W g .kmeans ω s = (.ok (), t)) :
    ∃ (p : ℕ) (raw : List ℕ), W.kmeans p s.1.y n = .ok raw ∧ t.1.d = sizeBiased W.argsort raw := by
  obtain ⟨p, raw, hr, hd⟩ := start_kmeans h
  rw [hn] at hr
  exact ⟨p, raw, hr, hd⟩

/-- **C127**, random labels: they are positions of the weights that `complete(g)` leaves. -/
theorem C127_random_partial (hω : ω.Legal) {g : ℤ} {s t : GM C m Atom × ℕ} {r : Option (List K)} {c : C.State × ℕ} (hc : C.complete (.int g) ω s.1.wst = (.ok r, c))
    (hw : ∀ x ∈ C.getW c.1, 0 ≤ x) (hpos : 0 < (C.getW c.1).sum) (hlen : ((C.getW c.1).length : ℤ) ≤ g) (h : initGibbs W (.int g) .random ω s = (.ok (), t)) : AtMost g.toNat t.1.d := by
  obtain ⟨o, o', d, hy, hn, hco, hl, rfl⟩ := start_split h
  obtain ⟨r', hr'⟩ := hco nofun
  rw [hc] at hr'
  have e : c = o.1.wst := (Prod.mk.inj hr').2
  refine AtMost.of_lt (wp_of_ok hl (Q := fun d _ => ∀ x ∈ d, x < g.toNat) (E := fun _ _ => True) ?_)
  unfold initLabels
  rw [wp_bind, wp_self, wp_callW]
  unfold BaseWeight.randomAssignment
  rw [wp_bind, wp_unifVec]
  refine ⟨fun _ => trivial, fun _ => ?_⟩
  rw [wp_bind, wp_self, wp_pure]
  intro x hx
  obtain ⟨u, hu, rfl⟩ := List.mem_map.1 hx
  obtain ⟨i, -, rfl⟩ := List.mem_map.1 hu
  show BaseWeight.invCdf (BaseWeight.normalizedCumulative (C.getW o.1.wst.1)) _ < _
  rw [← e]
  have := (invCdf_quantile hw hpos (hω.unif_lt_one (c.2 + i))).lt
  omega

/-! ### Concrete starts -/

theorem world_kmeansBelow : KMeansBelow world := by
  intro p ys k l h x hx
  have h : (if k < 1 ∨ (ys.length : ℤ) < k then .error .valueError else .ok ((List.range ys.length).map (fun i => i % k.toNat)) : Except PyErr (List ℕ)) = .ok l := h
  split at h
  · cases h
  · cases h
    obtain ⟨i, -, rfl⟩ := List.mem_map.1 hx
    have : i % k.toNat < k.toNat := Nat.mod_lt _ (by omega)
    omega

/-- Uniform draws of 9/10. -/
def highUnif : Oracle ℚ := { (demo : Oracle ℚ) with unif := fun _ => 9 / 10, beta := fun _ _ _ => 1 / 2 }

theorem highUnif_legal : highUnif.Legal := { (demo_legal : (demo : Oracle ℚ).Legal) with
  unif_nonneg := fun _ => by norm_num [highUnif]
  unif_lt_one := fun _ => by norm_num [highUnif]
  beta_nonneg := fun _ _ _ => by norm_num [highUnif]
  beta_le_one := fun _ _ _ => by norm_num [highUnif] }

/-- A new Dirichlet process mixture with four rows of data. -/
def newDP : GM (DP.cls : WeightClass ℚ) 1 ℚ × ℕ := ({ (blank DP.cls none 3 1 (DP.init 1 : DP ℚ)) with y := [fun _ => 0, fun _ => 1, fun _ => 5, fun _ => 6] }, 0)

/-- A new mixture with three equal weights and the same data. -/
def newEqual : GM (Equal.cls : WeightClass ℚ) 1 ℚ × ℕ := ({ (blank Equal.cls (some 3) 3 1 (Equal.init 3 : Equal ℚ)) with y := [fun _ => 0, fun _ => 1, fun _ => 5, fun _ => 6] }, 0)

/-- The hypotheses of `C127_kmeans_partial` and `C127_default`: starts that return, and use all the groups allowed. -/
example : newDP.1.nAttr = none ∧ (initGibbs world (.int 3) .kmeans highUnif newDP).1.isOk ∧ (initGibbs world (.int 3) .kmeans highUnif newDP).2.1.d.toFinset.card = 3 ∧
    (initGibbs world .none .kmeans highUnif newDP).1.isOk ∧ (initGibbs world .none .kmeans highUnif newDP).2.1.d.toFinset.card = 2 := by decide +kernel

/-- The hypotheses of `C127_random_partial`, for a new object. -/
example : ∃ r c, (DP.cls : WeightClass ℚ).complete (.int 3) highUnif newDP.1.wst = (.ok r, c) ∧ (∀ x ∈ (DP.cls : WeightClass ℚ).getW c.1, 0 ≤ x) ∧
    0 < ((DP.cls : WeightClass ℚ).getW c.1).sum ∧ (((DP.cls : WeightClass ℚ).getW c.1).length : ℤ) ≤ 3 ∧
    (initGibbs world (.int 3) .random highUnif newDP).1.isOk := ⟨_, _, rfl, by decide +kernel, by decide +kernel, by decide +kernel, by decide +kernel⟩

/-- **C127 fails** for the classes with an attribute `n`: `init_groups=1` starts with three groups. -/
theorem C127_n_refuted : (initGibbs world (.int 1) .kmeans highUnif newEqual).1.isOk ∧ ¬ AtMost 1 (initGibbs world (.int 1) .kmeans highUnif newEqual).2.1.d := by
  refine ⟨by decide +kernel, fun h => ?_⟩
  have : (initGibbs world (.int 1) .kmeans highUnif newEqual).2.1.d.toFinset.card = 3 := by decide +kernel
  rw [AtMost, this] at h
  omega

/-- **C127 fails** for random labels of an object fitted before: the weights of the earlier start are still there, and `init_groups=1` starts in group 2. -/
theorem C127_random_refuted : (initGibbs world (.int 3) .random highUnif newDP).1.isOk ∧
    (initGibbs world (.int 1) .random highUnif (initGibbs world (.int 3) .random highUnif newDP).2).1.isOk ∧
    (initGibbs world (.int 1) .random highUnif (initGibbs world (.int 3) .random highUnif newDP).2).2.1.d = [2, 2, 2, 2] := by decide +kernel

/-- "Only used in k-means initialization" **fails**: random labels of the same object under the same generator depend on `init_groups`. -/
theorem C127_only_kmeans_refuted : (initGibbs world (.int 1) .random highUnif newDP).2.1.d = [0, 0, 0, 0] ∧
    (initGibbs world (.int 3) .random highUnif newDP).2.1.d = [2, 2, 2, 2] := by decide +kernel

end Verif.Mix.GM
