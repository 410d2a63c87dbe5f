import Verif.Model.MixCtor

/-!
# C144: the constructors of the mixtures

For each of the ten mixtures and every list of keyword arguments: the constructor returns exactly when all keywords are parameters of the class, the parameters of the weight
model pass its checks, `rng` is usable and `total_iter > burn_in` are numbers with a `subsample_steps` that is one (`C144_returns`).  Every parameter of the new object is
the given value, or its documented default (`C144_fields`).  The order of the keywords has no influence (`C144_order`).  A keyword that is no parameter raises
`TypeError`, if the weight model can be made (`C144_unknown`).  `show_progress`, a documented parameter of the base class, is refused with `TypeError` by the mixtures of
`BetaInBeta` and `BetaBinomial` whatever else is given, and taken by the other eight (`C144_progress_refuted`).
-/

namespace Verif.Ctor

/-- The documented parameters of a class and their defaults: those of the weight model and those of the base class. -/
def doc (c : Cls) (k : Kw) : Option Val :=
  match k with
  | .muPrior => some .none
  | .psiPrior => some .none
  | .nuPrior => some .none
  | .rng => some .none
  | .lambdaPrior => some (.int 1)
  | .totalIter => some (.int 1000)
  | .burnIn => some (.int 100)
  | .subsampleSteps => some (.int 1)
  | .showProgress => some (.bool false)
  | .alpha => if c = .geometric ∨ c = .equal ∨ c = .frequency then none else some (.int 1)
  | .n => if c = .betaBinomial then some (.int 0) else if c = .dirichletDistribution ∨ c = .equal ∨ c = .frequency then some (.int 1) else none
  | .pyd => if c = .pitmanYor then some (.int 0) else none
  | .a => if c = .geometric ∨ c = .betaInBeta then some (.int 1) else if c = .betaInDirichlet then some (.int 0) else none
  | .b => if c = .geometric ∨ c = .betaInBeta then some (.int 1) else none
  | .p => if c = .betaBernoulli then some (.int 1) else none
  | .x => if c = .betaInBeta then some (.int 0) else none
  | .pMethod => if c = .betaInBeta then some (.str "geometric") else none
  | .weightModel => none
  | .other _ => none

/-- The classes that refuse `show_progress`. -/
def Silent (c : Cls) : Prop := c = .betaInBeta ∨ c = .betaBinomial

/-- The parameters a class takes. -/
def Takes (c : Cls) (k : Kw) : Prop := (doc c k).isSome ∧ ¬ (k = .showProgress ∧ Silent c)

/-- The value given for a parameter, or its default. -/
def value (c : Cls) (args : Args) (k : Kw) : Val := ((args.lookup k).orElse fun _ => doc c k).getD .none

/-- What the weight model asks of its parameters. -/
def WeightOk (c : Cls) (v : Kw → Val) : Prop :=
  (c = .pitmanYor → ∃ d al, (v .pyd).num = some d ∧ (v .alpha).num = some al ∧ -d < al) ∧
  (c = .betaInBeta → v .pMethod ∈ [Val.str "static", .str "independent", .str "geometric", .str "rejection-sampling", .str "max-likelihood", .str "inverse-sampling"]) ∧
  (c = .dirichletDistribution → ∃ z, v .n = .int z)

/-- What can be used as `rng`. -/
def RngOk (r : Val) : Prop := r = .none ∨ (∃ z, 0 ≤ z ∧ r = .int z) ∨ ∃ id, r = .gen id

/-- Iteration numbers that leave something to record. -/
def IterOk (v : Kw → Val) : Prop := ∃ t b s, (v .totalIter).num = some t ∧ (v .burnIn).num = some b ∧ (v .subsampleSteps).num = some s ∧ b < t

/-- `z` is `q` without its decimals. -/
def Truncates (v : Val) (z : ℤ) : Prop := ∃ q : ℚ, v.num = some q ∧ |(z : ℚ)| ≤ |q| ∧ |q| < |(z : ℚ)| + 1 ∧ 0 ≤ z * q

/-! ## Binding -/

theorem lookup_rest (s l : Args) (k : Kw) : (l.filter fun x => !has s x.1).lookup k = if has s k then none else l.lookup k := by
  induction l with
  | nil => simp
  | cons x l ih =>
    obtain ⟨j, v⟩ := x
    by_cases hj : k = j
    · subst hj
      cases h : has s k
      · simp [h]
      · simp [h, ih]
    · have : (k == j) = false := by simpa using hj
      cases h : has s j <;> simp [h, List.lookup_cons, this, ih]

theorem has_sig (c : Cls) (k : Kw) (h : has (sig c) k = true) : (sig c).lookup k = doc c k := by
  cases c <;> cases k <;> first | rfl | exact absurd h Bool.false_ne_true

theorem has_base (c : Cls) (k : Kw) (h : has baseSig k = true) : baseSig.lookup k = doc c k := by
  cases k <;> first | rfl | exact absurd h Bool.false_ne_true

theorem takes_iff (c : Cls) (k : Kw) : Takes c k ↔ (has (sig c) k = true ∨ (hasKwargs c = true ∧ has baseSig k = true)) := by
  cases c <;> cases k <;> simp [Takes, Silent, doc, has, sig, baseSig, hasKwargs, List.lookup, beq_eq_decide]

theorem sig_value {c : Cls} {k : Kw} (h : has (sig c) k = true) (args : Args) : bound (sig c) args k = value c args k := by
  unfold bound value
  rw [has_sig c k h]

/-- Values of parameters of the weight model. -/
theorem weightModel_value (c : Cls) (args : Args) : weightModel c (bound (sig c) args) = weightModel c (value c args) := by
  have h : ∀ k, has (sig c) k = true → bound (sig c) args k = value c args k := fun k hk => sig_value hk args
  cases c <;> simp only [weightModel]
  case dirichletProcess => rw [h .rng rfl, h .alpha rfl]
  case pitmanYor => rw [h .rng rfl, h .alpha rfl, h .pyd rfl]
  case geometric => rw [h .rng rfl, h .a rfl, h .b rfl]
  case betaInBeta => rw [h .rng rfl, h .x rfl, h .alpha rfl, h .a rfl, h .b rfl, h .pMethod rfl]
  case betaInDirichlet => rw [h .rng rfl, h .alpha rfl, h .a rfl]
  case betaBernoulli => rw [h .rng rfl, h .alpha rfl, h .p rfl]
  case betaBinomial => rw [h .rng rfl, h .n rfl, h .alpha rfl]
  case dirichletDistribution => rw [h .rng rfl, h .n rfl, h .alpha rfl]
  case equal => rw [h .rng rfl, h .n rfl]
  case frequency => rw [h .rng rfl, h .n rfl]

theorem attrN_value (c : Cls) (args : Args) : attrN c (bound (sig c) args) = attrN c (value c args) := by
  cases c <;> rfl

/-- The arguments handed to the base class. -/
def handed (c : Cls) (args : Args) : Args :=
  (.rng, bound (sig c) args .rng) :: (if hasKwargs c then args.filter (fun x => !has (sig c) x.1)
    else [.muPrior, .lambdaPrior, .psiPrior, .nuPrior, .totalIter, .burnIn, .subsampleSteps].map (fun k => (k, bound (sig c) args k)))

theorem rng_sig (c : Cls) : has (sig c) .rng = true := by cases c <;> rfl

theorem handed_value (c : Cls) (args : Args) (hp : Silent c → args.lookup .showProgress = none) (k : Kw) (hk : has baseSig k = true) :
    bound baseSig (handed c args) k = value c args k := by
  by_cases hr : k = .rng
  · subst hr
    have e : (handed c args).lookup .rng = some (bound (sig c) args .rng) := by unfold handed; simp
    unfold bound at e ⊢
    rw [e]
    exact sig_value (rng_sig c) args
  have hrb : (k == Kw.rng) = false := by simpa using hr
  cases hc : hasKwargs c with
  | true =>
    have hns : has (sig c) k = false := by
      revert hc hk hr
      cases c <;> cases k <;> simp [hasKwargs, has, sig, baseSig, List.lookup, beq_eq_decide]
    have e : (handed c args).lookup k = args.lookup k := by
      unfold handed
      rw [List.lookup_cons, hrb, hc]
      simp only [if_true]
      rw [lookup_rest, hns]
      rfl
    unfold bound value
    rw [e, has_base c k hk]
  | false =>
    by_cases hsp : k = .showProgress
    · subst hsp
      have hs : Silent c := by revert hc; cases c <;> simp [hasKwargs, Silent]
      have e : (handed c args).lookup .showProgress = none := by
        unfold handed
        rw [hc]
        simp [List.lookup, beq_eq_decide]
      unfold bound value
      rw [e, hp hs, has_base c _ hk]
    · have hin : has (sig c) k = true := by
        revert hc hk hr hsp
        cases c <;> cases k <;> simp [hasKwargs, has, sig, baseSig, List.lookup, beq_eq_decide]
      have e : (handed c args).lookup k = some (bound (sig c) args k) := by
        revert hk hr hsp
        unfold handed
        rw [hc]
        cases k <;> simp [has, baseSig, List.lookup, beq_eq_decide]
      rw [← sig_value hin]
      conv_lhs => unfold bound
      rw [e]
      rfl

/-- The rest of `BaseGaussianMixture.__init__` after binding. -/
def finish (c : Cls) (weight : Args) (n : Option Val) (g : Kw → Val) : Except PyErr Obj :=
  match (g .totalIter).num, (g .burnIn).num with
  | some t, some b =>
    if t > b then do
      parseRng (g .rng)
      let burn ← toInt (g .burnIn)
      let total ← toInt (g .totalIter)
      let step ← toInt (g .subsampleSteps)
      pure ⟨c, weight, n, g .muPrior, g .lambdaPrior, g .psiPrior, g .nuPrior, total, burn, step, g .showProgress⟩
    else .error .assertionError
  | _, _ => .error .typeError

theorem finish_congr (c : Cls) (w : Args) (n : Option Val) {g g' : Kw → Val} (h : ∀ k, has baseSig k = true → g k = g' k) : finish c w n g = finish c w n g' := by
  unfold finish
  rw [h .totalIter rfl, h .burnIn rfl, h .rng rfl, h .subsampleSteps rfl, h .muPrior rfl, h .lambdaPrior rfl, h .psiPrior rfl, h .nuPrior rfl, h .showProgress rfl]

/-- The constructor, when every keyword is a parameter. -/
theorem construct_taken {c : Cls} {args : Args} (h : ∀ x ∈ args, Takes c x.1) :
    construct c args = match weightModel c (value c args) with
      | .error e => .error e
      | .ok w => finish c w (attrN c (value c args)) (value c args) := by
  have hsp : Silent c → args.lookup .showProgress = none := by
    intro hs
    rw [List.lookup_eq_none_iff]
    intro x hx
    by_contra hne
    have e : Kw.showProgress = x.1 := by simpa using hne
    exact (h x hx).2 ⟨e.symm, hs⟩
  unfold construct
  simp only []
  rw [if_neg, weightModel_value, attrN_value]
  · cases weightModel c (value c args) with
    | error e => rfl
    | ok w =>
      simp only []
      show baseInit c w _ (handed c args) = _
      unfold baseInit
      rw [if_neg]
      · exact finish_congr c w _ fun k hk => handed_value c args hsp k hk
      · simp only [List.any_eq_true, not_exists, not_and]
        intro x hx
        unfold handed at hx
        rcases List.mem_cons.1 hx with rfl | hx
        · simp [has, baseSig, List.lookup, beq_eq_decide]
        · cases hc : hasKwargs c with
          | true =>
            rw [hc] at hx
            simp only [if_true] at hx
            obtain ⟨h1, h2⟩ := List.mem_filter.1 hx
            have := ((takes_iff c x.1).1 (h x h1)).resolve_left (by simpa using h2)
            simpa using this.2
          | false =>
            rw [hc] at hx
            simp at hx
            rcases hx with rfl | rfl | rfl | rfl | rfl | rfl | rfl <;> simp [has, baseSig, List.lookup, beq_eq_decide]
  · rintro ⟨h1, h2⟩
    simp only [List.any_eq_true] at h2
    obtain ⟨x, hx, hn⟩ := h2
    rcases (takes_iff c x.1).1 (h x hx) with h3 | h3
    · simp [h3] at hn
    · rw [h1] at h3; cases h3.1

/-- A keyword that is no parameter: the call does not return. -/
theorem construct_unknown {c : Cls} {args : Args} (h : ∃ x ∈ args, ¬ Takes c x.1) :
    construct c args = if hasKwargs c = false then .error .typeError else match weightModel c (value c args) with
      | .error e => .error e
      | .ok _ => .error .typeError := by
  obtain ⟨x, hx, hn⟩ := h
  have hn' := hn
  rw [takes_iff] at hn'
  push Not at hn'
  unfold construct
  simp only []
  cases hc : hasKwargs c with
  | false =>
    rw [if_pos, if_pos rfl]
    refine ⟨rfl, ?_⟩
    simp only [List.any_eq_true]
    exact ⟨x, hx, by simpa using hn'.1⟩
  | true =>
    simp only [Bool.true_eq_false, false_and, if_false, weightModel_value]
    cases weightModel c (value c args) with
    | error e => rfl
    | ok w =>
      simp only [if_true]
      unfold baseInit
      rw [if_pos]
      rw [List.any_eq_true]
      refine ⟨x, List.mem_cons_of_mem _ (List.mem_filter.2 ⟨hx, by simpa using hn'.1⟩), ?_⟩
      simpa using hn'.2 hc

/-! ## The parts -/

theorem parseRng_ok (r : Val) : parseRng r = .ok () ↔ RngOk r := by
  unfold RngOk
  cases r <;> simp [parseRng]

theorem toInt_ok (v : Val) : (∃ z, toInt v = .ok z) ↔ ∃ q, v.num = some q := by
  cases v <;> simp [toInt, Val.num]

theorem pyInt_truncates (q : ℚ) : |((Mix.pyInt q : ℤ) : ℚ)| ≤ |q| ∧ |q| < |((Mix.pyInt q : ℤ) : ℚ)| + 1 ∧ 0 ≤ ((Mix.pyInt q : ℤ) : ℚ) * q := by
  unfold Mix.pyInt
  split
  · rename_i h
    have h0 : (0 : ℚ) ≤ ((⌊q⌋ : ℤ) : ℚ) := by exact_mod_cast Int.floor_nonneg.2 h
    rw [abs_of_nonneg h, abs_of_nonneg h0]
    exact ⟨Int.floor_le q, Int.lt_floor_add_one q, mul_nonneg h0 h⟩
  · rename_i h
    have h := (not_le.1 h).le
    have h0 : ((⌈q⌉ : ℤ) : ℚ) ≤ 0 := by exact_mod_cast Int.ceil_le.2 (by simpa using h)
    rw [abs_of_nonpos h, abs_of_nonpos h0]
    refine ⟨by linarith [Int.le_ceil q], by linarith [Int.ceil_lt_add_one q], mul_nonneg_of_nonpos_of_nonpos h0 h⟩

theorem toInt_truncates {v : Val} {z : ℤ} (h : toInt v = .ok z) : Truncates v z := by
  unfold Truncates
  cases v with
  | bool b => cases b <;> (simp [toInt] at h; subst h; simp [Val.num])
  | int y =>
    simp [toInt] at h; subst h
    exact ⟨y, rfl, le_refl _, by linarith, mul_self_nonneg _⟩
  | float q =>
    simp [toInt] at h; subst h
    exact ⟨q, rfl, pyInt_truncates q⟩
  | _ => simp [toInt] at h

theorem weightModel_ok (c : Cls) (v : Kw → Val) : (∃ w, weightModel c v = .ok w) ↔ RngOk (v .rng) ∧ WeightOk c v := by
  rw [← parseRng_ok]
  unfold weightModel
  cases hr : parseRng (v .rng) with
  | error e => simp
  | ok u =>
    simp only [true_and]
    cases c <;> simp only [WeightOk, reduceCtorEq, false_implies, true_implies, and_true, true_and, iff_true] <;> try exact ⟨_, rfl⟩
    case pitmanYor =>
      unfold checkDiscount
      cases (v .pyd).num with
      | none => simp [Except.map]
      | some d => cases (v .alpha).num with
        | none => simp [Except.map]
        | some al => by_cases h : -d < al <;> simp [h, Except.map]
    case betaInBeta =>
      by_cases h : v .pMethod ∈ methods.map Val.str
      · rw [if_pos h]; exact ⟨fun _ => h, fun _ => ⟨_, rfl⟩⟩
      · rw [if_neg h]; exact ⟨fun ⟨_, h'⟩ => by (cases h'), fun h' => absurd h' h⟩
    case dirichletDistribution =>
      cases v .n <;> simp

theorem finish_ok (c : Cls) (w : Args) (n : Option Val) (v : Kw → Val) (hr : RngOk (v .rng)) : (∃ o, finish c w n v = .ok o) ↔ IterOk v := by
  unfold finish IterOk
  cases ht : (v .totalIter).num with
  | none => simp
  | some t => cases hb : (v .burnIn).num with
    | none => simp
    | some b =>
      simp only []
      by_cases h : t > b
      · rw [if_pos h, (parseRng_ok _).2 hr]
        obtain ⟨z, hz⟩ := (toInt_ok _).2 ⟨t, ht⟩
        obtain ⟨y, hy⟩ := (toInt_ok _).2 ⟨b, hb⟩
        rw [hz, hy]
        have hs := toInt_ok (v .subsampleSteps)
        cases hx : toInt (v .subsampleSteps) with
        | error e =>
          rw [hx] at hs
          refine ⟨fun ⟨o, ho⟩ => by (cases ho), fun ⟨_, _, s, _, _, h', _⟩ => ?_⟩
          obtain ⟨_, h''⟩ := hs.2 ⟨s, h'⟩
          cases h''
        | ok x =>
          obtain ⟨s, h'⟩ := hs.1 ⟨x, hx⟩
          exact ⟨fun _ => ⟨t, b, s, rfl, rfl, h', h⟩, fun _ => ⟨_, rfl⟩⟩
      · rw [if_neg h]
        refine ⟨fun ⟨o, ho⟩ => by (cases ho), fun ⟨t', b', _, h1, h2, _, h3⟩ => ?_⟩
        cases h1; cases h2
        exact absurd h3 h

/-! ## The claims -/

/-- **When a constructor returns.** -/
theorem C144_returns (c : Cls) (args : Args) :
    (∃ o, construct c args = .ok o) ↔
      (∀ x ∈ args, Takes c x.1) ∧ RngOk (value c args .rng) ∧ WeightOk c (value c args) ∧ IterOk (value c args) := by
  by_cases h : ∀ x ∈ args, Takes c x.1
  · rw [construct_taken h]
    have hw := weightModel_ok c (value c args)
    cases hm : weightModel c (value c args) with
    | error e =>
      rw [hm] at hw
      refine ⟨fun ⟨o, ho⟩ => by (cases ho), fun h' => ?_⟩
      obtain ⟨w, h''⟩ := hw.2 ⟨h'.2.1, h'.2.2.1⟩
      cases h''
    | ok w =>
      obtain ⟨h1, h2⟩ := hw.1 ⟨w, hm⟩
      simp only []
      rw [finish_ok c w _ _ h1]
      exact ⟨fun h3 => ⟨h, h1, h2, h3⟩, fun h3 => h3.2.2.2⟩
  · refine ⟨fun ⟨o, ho⟩ => ?_, fun h' => absurd h'.1 h⟩
    push Not at h
    rw [construct_unknown h] at ho
    split at ho
    · cases ho
    · split at ho <;> cases ho

/-- **The parameters of the new object** are the given ones, or the documented defaults; the iteration numbers are truncated. -/
theorem C144_fields (c : Cls) (args : Args) (o : Obj) (h : construct c args = .ok o) :
    o.cls = c ∧ (∀ k, o.weight.lookup k = if (doc c k).isSome ∧ has baseSig k = false then some (value c args k) else none) ∧
    o.n = (if c = .dirichletDistribution ∨ c = .equal ∨ c = .frequency then some (value c args .n) else none) ∧
    o.mu = value c args .muPrior ∧ o.lam = value c args .lambdaPrior ∧ o.psi = value c args .psiPrior ∧ o.nu = value c args .nuPrior ∧
    o.progress = value c args .showProgress ∧
    Truncates (value c args .totalIter) o.total ∧ Truncates (value c args .burnIn) o.burn ∧ Truncates (value c args .subsampleSteps) o.step := by
  have ht := ((C144_returns c args).1 ⟨o, h⟩).1
  rw [construct_taken ht] at h
  generalize value c args = v at h ⊢
  cases hm : weightModel c v with
  | error e => rw [hm] at h; cases h
  | ok w =>
    rw [hm] at h
    simp only [] at h
    have hw : ∀ k, w.lookup k = if (doc c k).isSome ∧ has baseSig k = false then some (v k) else none := by
      unfold weightModel at hm
      cases hr : parseRng (v .rng) with
      | error e => rw [hr] at hm; cases hm
      | ok u =>
        rw [hr] at hm
        intro k
        cases c <;> simp only [] at hm
        case pitmanYor =>
          cases hd : checkDiscount (v .pyd) (v .alpha) with
          | error e => rw [hd] at hm; cases hm
          | ok u =>
            rw [hd] at hm
            cases hm
            cases k <;> simp [doc, has, baseSig, List.lookup, beq_eq_decide]
        case betaInBeta =>
          split at hm <;> cases hm
          cases k <;> simp [doc, has, baseSig, List.lookup, beq_eq_decide]
        case dirichletDistribution =>
          split at hm <;> cases hm
          rename_i z hz
          cases k <;> simp [doc, has, baseSig, List.lookup, beq_eq_decide, hz]
        all_goals
          cases hm
          cases k <;> simp [doc, has, baseSig, List.lookup, beq_eq_decide]
    have hn : attrN c v = if c = .dirichletDistribution ∨ c = .equal ∨ c = .frequency then some (v .n) else none := by cases c <;> simp [attrN]
    unfold finish at h
    split at h
    · split at h
      · cases hr : parseRng (v .rng) with
        | error e => rw [hr] at h; cases h
        | ok u =>
          rw [hr] at h
          cases hb : toInt (v .burnIn) with
          | error e => rw [hb] at h; cases h
          | ok y =>
            rw [hb] at h
            cases hz : toInt (v .totalIter) with
            | error e => rw [hz] at h; cases h
            | ok z =>
              rw [hz] at h
              cases hx : toInt (v .subsampleSteps) with
              | error e => rw [hx] at h; cases h
              | ok x =>
                rw [hx] at h
                cases h
                exact ⟨rfl, hw, hn, rfl, rfl, rfl, rfl, rfl, toInt_truncates hz, toInt_truncates hb, toInt_truncates hx⟩
      · cases h
    · cases h

/-- **A keyword that is no parameter** raises `TypeError` if the weight model can be made; the two classes without `**kwargs` raise it in any case. -/
theorem C144_unknown (c : Cls) (args : Args) (h : ∃ x ∈ args, ¬ Takes c x.1)
    (hw : Silent c ∨ (RngOk (value c args .rng) ∧ WeightOk c (value c args))) : construct c args = .error .typeError := by
  rw [construct_unknown h]
  rcases hw with hw | hw
  · rw [if_pos]
    rcases hw with rfl | rfl <;> rfl
  · obtain ⟨w, hm⟩ := (weightModel_ok c _).2 hw
    rw [hm]
    split <;> rfl

theorem lookup_perm {l l' : Args} (hp : l.Perm l') (hn : (l.map Prod.fst).Nodup) (k : Kw) : l.lookup k = l'.lookup k := by
  have hn' : (l'.map Prod.fst).Nodup := (hp.map _).nodup_iff.1 hn
  have key : ∀ {l : Args}, (l.map Prod.fst).Nodup → ∀ v, l.lookup k = some v ↔ (k, v) ∈ l := by
    intro l hn v
    induction l with
    | nil => simp
    | cons x l ih =>
      obtain ⟨j, u⟩ := x
      simp only [List.map_cons, List.nodup_cons] at hn
      by_cases hj : k = j
      · subst hj
        simp only [List.lookup_cons, beq_self_eq_true, List.mem_cons, Prod.mk.injEq, true_and]
        refine ⟨fun h => by left; cases h; rfl, fun h => ?_⟩
        rcases h with rfl | h
        · rfl
        · exact absurd (List.mem_map_of_mem (f := Prod.fst) h) hn.1
      · have : (k == j) = false := by simpa using hj
        simp only [List.lookup_cons, this, List.mem_cons, Prod.mk.injEq]
        rw [ih hn.2]
        exact ⟨fun h => Or.inr h, fun h => h.resolve_left fun h => hj h.1⟩
  refine Option.ext fun v => ?_
  rw [key hn, key hn', hp.mem_iff]

/-- **The order of the keywords** has no influence. -/
theorem C144_order (c : Cls) {args args' : Args} (hp : args.Perm args') (hn : (args.map Prod.fst).Nodup) : construct c args = construct c args' := by
  have hv : value c args = value c args' := by
    funext k
    unfold value
    rw [lookup_perm hp hn k]
  by_cases h : ∀ x ∈ args, Takes c x.1
  · rw [construct_taken h, construct_taken fun x hx => h x (hp.mem_iff.2 hx), hv]
  · push Not at h
    rw [construct_unknown h, construct_unknown (by obtain ⟨x, hx, hn⟩ := h; exact ⟨x, hp.mem_iff.1 hx, hn⟩), hv]

/-- **`show_progress` is refused** by two mixtures, whatever else is given, and taken by the other eight. -/
theorem C144_progress_refuted :
    (∀ c, Silent c → ∀ args : Args, (∃ v, (Kw.showProgress, v) ∈ args) → construct c args = .error .typeError) ∧
    ∀ c, ¬ Silent c → ∀ v, ∃ o, construct c [(.showProgress, v)] = .ok o ∧ o.progress = v := by
  refine ⟨fun c hc args ⟨v, hv⟩ => C144_unknown c args ⟨_, hv, fun h => h.2 ⟨rfl, hc⟩⟩ (Or.inl hc), fun c hc v => ?_⟩
  cases c <;> first | exact absurd (Or.inl rfl) hc | exact absurd (Or.inr rfl) hc | exact ⟨_, rfl, rfl⟩

/-! ### The hypotheses are met -/

/-- A call with several keywords, what it makes, and calls that fail for each of the reasons. -/
example : construct .pitmanYor [(.pyd, .float (1 / 2)), (.burnIn, .float (7 / 2)), (.totalIter, .int 10)] =
      .ok ⟨.pitmanYor, [(.pyd, .float (1 / 2)), (.alpha, .int 1)], none, .none, .int 1, .none, .none, 10, 3, 1, .bool false⟩ ∧
    construct .pitmanYor [(.pyd, .int (-2))] = .error .assertionError ∧
    construct .pitmanYor [(.other "truncation_length", .int 3)] = .error .typeError ∧
    construct .betaInBeta [(.pMethod, .str "random")] = .error .valueError ∧
    construct .dirichletDistribution [(.n, .float 2)] = .error .assertionError ∧
    construct .equal [(.burnIn, .int 1000)] = .error .assertionError ∧
    construct .equal [(.rng, .int (-1))] = .error .valueError ∧
    construct .equal [(.weightModel, .object 0)] = .error .typeError := by
  refine ⟨by decide +kernel, by decide +kernel, by decide +kernel, by decide +kernel, by decide +kernel, by decide +kernel, by decide +kernel, by decide +kernel⟩
end Verif.Ctor
