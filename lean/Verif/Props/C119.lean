import Verif.Lemmas.RobustRuns
import Verif.Props.C15
import Verif.Props.C19
import Verif.Lemmas.Demo

/-!
# C119: fit_gibbs does not raise on legal input

For the mixtures with legal parameters and any legal session (a cold fit with at least two rows, then warm fits with as many rows or further cold fits) every
call of `fit_gibbs` returns, for every source of random numbers.  `GeometricProcess` needs positive beta draws; for the other stick-breaking mixtures the one
way not to return is that the loop of `tail` does not end.  The claim is false for `FrequencyWeighting` when a cold fit follows another fit, for a single row,
and for `BetaInDirichlet` and `BetaBernoulli`.
-/

set_option linter.unusedSectionVars false

namespace Verif.Mix
open GM Spec
variable {K : Type} [Field K] [LinearOrder K] [IsStrictOrderedRing K] {m : ℕ} {Atom : Type} {ω : Oracle K} {W : World K m Atom}

/-- `fit_gibbs` calls all returned and the mixture is fitted. -/
def Done {C : WeightClass K} (W : World K m Atom) (ω : Oracle K) (cs : List (Call K m)) (s : GM C m Atom × ℕ) : Prop :=
  (session W cs ω s).1 = .ok () ∧ (cs ≠ [] → (session W cs ω s).2.1.gibbsFitted = true)

theorem done_of_wp {C : WeightClass K} {cs : List (Call K m)} {s : GM C m Atom × ℕ}
    (h : wp ω (session W cs) (fun _ t => cs ≠ [] → t.1.gibbsFitted = true) (fun e _ => Slow False e) s) : Done W ω cs s := by
  obtain ⟨_, h1, h2⟩ := returns_of_wp h
  exact ⟨h1, h2⟩

theorem done_or_of_wp {C : WeightClass K} {cs : List (Call K m)} {s : GM C m Atom × ℕ}
    (h : wp ω (session W cs) (fun _ t => cs ≠ [] → t.1.gibbsFitted = true) (fun e _ => Slow True e) s) :
    Done W ω cs s ∨ (session W cs ω s).1 = .error .outOfFuel := by
  rcases returns_or_of_wp h with ⟨_, h1, h2⟩ | h
  · exact .inl ⟨h1, h2⟩
  · exact .inr h

theorem StickOk.starts {C : WeightCore K} {V : C.State → List K} {Q : C.State → Prop} (h : StickOk C ω V Q)
    (hf : ∀ s : C.State × ℕ, Q s.1 → wp ω (C.random (.int 1)) (fun _ t => DrawnNe C V Q t.1) (fun _ _ => False) s) {s0 : C.State} (hs : Drawn C V Q s0) :
    Starts C.inheritTail ω (DrawnNe C V Q) (DrawnNe C V Q) True True True True 0 s0 where
  robust := h.robust
  tail := fun t ht => by
    rcases ht with rfl | ⟨-, ht⟩
    · exact h.startsTail hf hs _
    · exact h.startsTail hf ⟨ht.1, ht.2.1⟩ _
  complete := fun t ht g n hg hn => by
    rcases ht with rfl | ⟨-, ht⟩
    · exact h.startsComplete hs hg hn _
    · exact h.startsComplete ⟨ht.1, ht.2.1⟩ hg hn _
  early := fun _ t ht => h.robust.ne t ht

/-! ## Stick-breaking mixtures -/

theorem C119_dirichletProcess (hω : ω.Legal) (hW : Faithful W) {alpha : K} (ha : 0 < alpha) (s : GM (DP.cls : WeightClass K) m Atom × ℕ)
    (hs : s.1.wst.1 = DP.init alpha) (hsub : s.1.subsample ≠ 0) (cs : List (Call K m)) (hcs : Legal s.1.nAttr True True none cs) :
    Done W ω cs s ∨ (session W cs ω s).1 = .error .outOfFuel :=
  done_or_of_wp (session_total hω hW ((DP.stickOk hω).starts (DP.fine_one hω) (DP.fine_init ha)) (fun _ => .inl trivial) cs none s rfl hsub (.inl ⟨rfl, hs⟩) hcs)

theorem C119_pitmanYor (hω : ω.Legal) (hW : Faithful W) {pyd alpha : K} (h0 : 0 ≤ pyd) (h1 : pyd < 1) (ha : 0 < alpha) {w : PY K} (hw : PY.init pyd alpha = .ok w)
    (s : GM (PY.cls : WeightClass K) m Atom × ℕ) (hs : s.1.wst.1 = w) (hsub : s.1.subsample ≠ 0) (cs : List (Call K m)) (hcs : Legal s.1.nAttr True True none cs) :
    Done W ω cs s ∨ (session W cs ω s).1 = .error .outOfFuel :=
  done_or_of_wp (session_total hω hW ((PY.stickOk hω).starts (PY.fine_one hω) (PY.fine_init h0 h1 ha hw)) (fun _ => .inl trivial) cs none s rfl hsub (.inl ⟨rfl, hs⟩) hcs)

theorem C119_betaInBeta (hω : ω.Legal) (hW : Faithful W) {x alpha a b p : K} {pm : PMethod} (hx0 : 0 ≤ x) (hx1 : x ≤ 1) (hal : 0 < alpha) (ha : 0 < a) (hb : 0 < b)
    (hp0 : 0 ≤ p) (hp1 : p ≤ 1) (hm : pm ≠ .rejectionSampling ∨ x = 0 ∨ x = 1) {w : BIB K} (hw : BIB.init x alpha a b p pm = .ok w)
    (s : GM (BIB.cls : WeightClass K) m Atom × ℕ) (hs : s.1.wst.1 = w) (hsub : s.1.subsample ≠ 0) (cs : List (Call K m)) (hcs : Legal s.1.nAttr True True none cs) :
    Done W ω cs s ∨ (session W cs ω s).1 = .error .outOfFuel :=
  done_or_of_wp (session_total hω hW ((BIB.stickOk hω).starts (BIB.fine_one hω) (BIB.fine_init hx0 hx1 hal ha hb hp0 hp1 hm hw)) (fun _ => .inl trivial) cs none s rfl hsub
    (.inl ⟨rfl, hs⟩) hcs)

theorem C119_betaBinomial (hω : ω.Legal) (hW : Faithful W) {n : ℤ} {alpha : K} (hn : 0 ≤ n) (ha : 0 < alpha) (s : GM (BBin.cls : WeightClass K) m Atom × ℕ)
    (hs : s.1.wst.1 = BBin.init n alpha) (hsub : s.1.subsample ≠ 0) (cs : List (Call K m)) (hcs : Legal s.1.nAttr True True none cs) :
    Done W ω cs s ∨ (session W cs ω s).1 = .error .outOfFuel :=
  done_or_of_wp (session_total hω hW ((BBin.stickOk hω).starts (BBin.fine_one hω) (BBin.fine_init hn ha)) (fun _ => .inl trivial) cs none s rfl hsub (.inl ⟨rfl, hs⟩) hcs)

/-- The geometric process always returns, since its `tail` has no loop.  `init_method="variational"` needs `init_groups` (the flag `False` in `Legal`). -/
theorem C119_geometric {ω : Oracle ℝ} {W : World ℝ m Atom} (hω : ω.Legal) (hβ : ∀ i a b, 0 < ω.beta i a b) (hW : Faithful W) {a b p : ℝ} (ha : 0 < a) (hb : 0 < b)
    (hp0 : 0 < p) (hp1 : p ≤ 1) (s : GM (Geo.cls : WeightClass ℝ) m Atom × ℕ) (hs : s.1.wst.1 = Geo.init a b p) (hsub : s.1.subsample ≠ 0) (cs : List (Call ℝ m))
    (hcs : Legal s.1.nAttr True False none cs) : Done W ω cs s := by
  have hinit := Geo.fine_init ha hb hp0 hp1
  refine done_of_wp (session_total (R0 := Mix.Drawn Geo.core Geo.v Geo.Fine) (R := Mix.DrawnNe Geo.core Geo.v Geo.Fine) (grows := True) (slow := False) (again := True)
    (early := False) (N := 0) (s0 := Geo.init a b p) hω hW ⟨Geo.robust hω hβ, fun t ht => ?_, fun t ht g n hg hn => ?_, False.elim⟩ (fun _ => .inl trivial) cs none s rfl hsub
    (.inl ⟨rfl, hs⟩) hcs)
  · rcases ht with rfl | ⟨-, ht⟩
    · exact Geo.startsTail hω hβ hinit _
    · exact Geo.startsTail hω hβ ⟨ht.1, ht.2.1⟩ _
  · have ht' : Mix.Drawn Geo.core Geo.v Geo.Fine t := by
      rcases ht with rfl | ⟨-, ht⟩
      · exact hinit
      · exact ⟨ht.1, ht.2.1⟩
    exact (Geo.stickOk hω hβ).startsComplete ht' hg hn _

/-! ## Finite mixtures -/

theorem C119_dirichletDistribution (hω : ω.Legal) (hW : Faithful W) {w : DirDist K} (hpos : ∀ x ∈ w.alpha, 0 < x) (hne : w.alpha ≠ []) (hd : w.d = []) (hww : w.w = [])
    (s : GM (DirDist.cls : WeightClass K) m Atom × ℕ) (hs : s.1.wst.1 = w) (hn : s.1.nAttr = some (w.alpha.length : ℤ)) (hsub : s.1.subsample ≠ 0) (cs : List (Call K m))
    (hcs : Legal s.1.nAttr True True none cs) : Done W ω cs s := by
  have hF : DirDist.Fine w.alpha.length w := ⟨hpos, rfl, List.length_pos_iff.2 hne, by rw [hd]; exact nofun⟩
  refine done_of_wp (session_total (R0 := DirDist.OnSimplex w.alpha.length) (R := DirDist.OnSimplex w.alpha.length) (grows := False) (slow := False) (again := True)
    (early := True) (N := w.alpha.length) (s0 := w) hω hW ⟨DirDist.robust hω _, fun t ht => ?_, fun t ht g n hg _ => ?_, fun _ => (DirDist.robust hω _).ne⟩
    (fun g => .inr ?_) cs none s rfl hsub (.inl ⟨rfl, hs⟩) hcs)
  · rcases ht with rfl | ⟨-, ht⟩
    · exact DirDist.startsTail hω hF (.inl hww)
    · exact DirDist.startsTail hω ht.1 (.inr ht)
  · rcases ht with rfl | ⟨-, ht⟩
    · exact DirDist.startsComplete hω hF (.inl hww) hg
    · exact DirDist.startsComplete hω ht.1 (.inr ht) hg
  · rw [hn]; simp [clustersAsked]

theorem C119_equal (hω : ω.Legal) (hW : Faithful W) {n : ℤ} (h1 : 1 ≤ n) (s : GM (Equal.cls : WeightClass K) m Atom × ℕ) (hs : s.1.wst.1 = Equal.init n)
    (hn : s.1.nAttr = some n) (hsub : s.1.subsample ≠ 0) (cs : List (Call K m)) (hcs : Legal s.1.nAttr True True none cs) : Done W ω cs s := by
  refine done_of_wp (session_total (R0 := Equal.Flat n) (R := Equal.Flat n) (grows := False) (slow := False) (again := True)
    (early := True) (N := n.toNat) (s0 := Equal.init n) hω hW ⟨Equal.robust _, fun t ht => ?_, fun t ht g n hg _ => ?_, fun _ => (Equal.robust (ω := ω) _).ne⟩
    (fun g => .inr ?_) cs none s rfl hsub (.inl ⟨rfl, hs⟩) hcs)
  · rcases ht with rfl | ⟨-, ht⟩
    · exact Equal.startsTail h1 rfl (.inl rfl)
    · exact Equal.startsTail h1 ht.2.1 (.inr ht)
  · rcases ht with rfl | ⟨-, ht⟩
    · exact Equal.startsComplete h1 rfl g
    · exact Equal.startsComplete h1 ht.2.1 g
  · rw [hn]; simp [clustersAsked]

/-- Only the first fit may be cold (the flag `False`), see `C119_frequency_refuted`. -/
theorem C119_frequency_partial (hω : ω.Legal) (hW : Faithful W) {n : ℤ} (h1 : 1 ≤ n) (s : GM (Freq.cls : WeightClass K) m Atom × ℕ) (hs : s.1.wst.1 = Freq.init n)
    (hn : s.1.nAttr = some n) (hsub : s.1.subsample ≠ 0) (cs : List (Call K m)) (hcs : Legal s.1.nAttr False True none cs) : Done W ω cs s := by
  refine done_of_wp (session_total (R0 := Freq.Ready) (R := Freq.Ready) (grows := False) (slow := False) (again := False)
    (early := True) (N := n.toNat) (s0 := Freq.init n) hω hW ⟨Freq.robust, fun t ht => ?_, fun t ht g k hg _ => ?_, fun _ => (Freq.robust (ω := ω)).ne⟩
    (fun g => .inr ?_) cs none s rfl hsub (.inl ⟨rfl, hs⟩) hcs)
  · rcases ht with rfl | ⟨h, -⟩
    · exact Freq.startsTail (Freq.now_init h1) (.inl rfl)
    · exact h.elim
  · rcases ht with rfl | ⟨h, -⟩
    · exact Freq.startsComplete (Freq.now_init h1) g
    · exact h.elim
  · rw [hn]; simp [clustersAsked]

/-! ## The hypotheses are met -/

/-- A fresh mixture of any class. -/
def blank (C : WeightClass K) (nAttr : Option ℤ) (T B : ℤ) (w : C.State) : GM C m Atom :=
  { totalIter := T, burnIn := B, subsample := 1, nAttr := nAttr, muPrior := none, lam := 1, psiPrior := none, nuPrior := none, y := [], d := [],
    theta := [], thetaDefault := false, u := [], affinity := [], mapParams := none, mapLL := ⊥, saved := [], nGroups := [], nAtoms := [],
    totalSaved := 0, gibbsFitted := false, wst := (w, 0) }

theorem demoArgsort_ok : IsArgsort demoArgsort := by
  intro l
  unfold demoArgsort
  refine ⟨List.perm_insertionSort _ _, ?_⟩
  rw [List.pairwise_map]
  have : Std.Total (fun i j : ℕ => (l[i]?).getD 0 ≤ (l[j]?).getD 0) := ⟨fun i j => le_total _ _⟩
  have : IsTrans ℕ (fun i j : ℕ => (l[i]?).getD 0 ≤ (l[j]?).getD 0) := ⟨fun i j k => le_trans⟩
  exact List.pairwise_insertionSort _ _

theorem world_faithful : Faithful world where
  slices := ⟨fun p => by simp only [world]; norm_num, fun p x h0 h1 => by
    simp only [world]
    constructor
    · linarith
    · linarith⟩
  argsort := demoArgsort_ok
  kmeans := fun p ys k h1 h2 => by
    refine ⟨_, if_neg (by omega), by simp, fun x hx => ?_⟩
    obtain ⟨i, -, rfl⟩ := List.mem_map.1 hx
    have : i % k.toNat < k.toNat := Nat.mod_lt _ (by omega)
    omega
  varLabels := fun p ys k h1 => ⟨_, rfl, by simp, fun x hx => by
    obtain ⟨i, -, rfl⟩ := List.mem_map.1 hx
    omega⟩

/-- Four rows, cold by k-means, warm, then cold again with three groups on other data. -/
def threeCalls : List (Call ℚ 1) :=
  [⟨[fun _ => 0, fun _ => 1, fun _ => 5, fun _ => 6], .none, false, .kmeans⟩, ⟨[fun _ => 0, fun _ => 1, fun _ => 5, fun _ => 7], .none, true, .kmeans⟩,
    ⟨[fun _ => 0, fun _ => 1], .int 3, false, .random⟩]

theorem threeCalls_legal : Legal (some 3) True True none threeCalls :=
  ⟨by decide, ⟨⟨.inl rfl, by decide, fun _ => by decide, nofun⟩, .inl trivial⟩, by decide, rfl, by decide,
    ⟨⟨.inr ⟨3, rfl, by omega⟩, by decide, nofun, nofun⟩, .inl trivial⟩, trivial⟩

theorem threeCalls_legal_none : Legal none True True none threeCalls :=
  ⟨by decide, ⟨⟨.inl rfl, by decide, fun _ => by decide, nofun⟩, .inl trivial⟩, by decide, rfl, by decide,
    ⟨⟨.inr ⟨3, rfl, by omega⟩, by decide, nofun, nofun⟩, .inl trivial⟩, trivial⟩

/-- A session of an equal-weights mixture. -/
example : Done world demo threeCalls ((blank Equal.cls (some 3) 3 1 (Equal.init 3 : Equal ℚ), 0) : GM Equal.cls 1 ℚ × ℕ) :=
  C119_equal demo_legal world_faithful (by omega) _ rfl rfl (by decide) _ threeCalls_legal

/-- The same for a Dirichlet distribution mixture. -/
example : Done world demo threeCalls ((blank DirDist.cls (some 3) 3 1 ({ n := 3, alpha := [1, 1, 1], w := [], d := [] } : DirDist ℚ), 0) : GM DirDist.cls 1 ℚ × ℕ) :=
  C119_dirichletDistribution demo_legal world_faithful (by decide +kernel) (by simp [blank]) rfl rfl _ rfl rfl (by decide) _ threeCalls_legal

/-- A generator whose beta draws are all one half. -/
def halves : Oracle ℚ := { (demo : Oracle ℚ) with beta := fun _ _ _ => 1 / 2 }

theorem halves_legal : halves.Legal := { (demo_legal : (demo : Oracle ℚ).Legal) with
  beta_nonneg := fun _ _ _ => by norm_num [halves]
  beta_le_one := fun _ _ _ => by norm_num [halves] }

/-- A session of a Dirichlet process mixture; here it does return. -/
example : Done world halves threeCalls ((blank DP.cls none 3 1 (DP.init 1 : DP ℚ), 0) : GM DP.cls 1 ℚ × ℕ) :=
  (C119_dirichletProcess halves_legal world_faithful one_pos _ rfl (by decide) _ threeCalls_legal_none).resolve_right (by decide +kernel)

example : Done world halves threeCalls ((blank BBin.cls none 3 1 (BBin.init 4 1 : BBin ℚ), 0) : GM BBin.cls 1 ℚ × ℕ) :=
  (C119_betaBinomial halves_legal world_faithful (by omega) one_pos _ rfl (by decide) _ threeCalls_legal_none).resolve_right (by decide +kernel)

/-- The frequency weighting mixture, first two calls. -/
example : Done world demo (threeCalls.take 2) ((blank Freq.cls (some 3) 3 1 (Freq.init 3 : Freq ℚ), 0) : GM Freq.cls 1 ℚ × ℕ) :=
  C119_frequency_partial demo_legal world_faithful (by omega) _ rfl rfl (by decide) _
    ⟨by decide, ⟨⟨.inl rfl, by decide, fun _ => by decide, nofun⟩, .inr rfl⟩, by decide, rfl, trivial⟩

/-! ## Where the claim is false -/

/-- The same data fitted twice from scratch. -/
def twice : List (Call ℚ 1) :=
  [⟨[fun _ => 0, fun _ => 1, fun _ => 5, fun _ => 6], .none, false, .kmeans⟩, ⟨[fun _ => 0, fun _ => 1, fun _ => 5, fun _ => 6], .none, false, .kmeans⟩]

/-- `FrequencyWeighting`: the weights of the first fit are kept when the second starts, there are fewer of them than clusters, and the second fit raises
`IndexError`. -/
theorem C119_frequency_refuted :
    Legal (some 3) True True none twice ∧
    (session world (twice.take 1) demo ((blank Freq.cls (some 3) 3 1 (Freq.init 3 : Freq ℚ), 0) : GM Freq.cls 1 ℚ × ℕ)).1 = .ok () ∧
    (session world twice demo ((blank Freq.cls (some 3) 3 1 (Freq.init 3 : Freq ℚ), 0) : GM Freq.cls 1 ℚ × ℕ)).1 = .error .indexError :=
  ⟨⟨by decide, ⟨⟨.inl rfl, by decide, fun _ => by decide, nofun⟩, .inl trivial⟩, by decide, ⟨⟨.inl rfl, by decide, fun _ => by decide, nofun⟩, .inl trivial⟩, trivial⟩,
    by decide +kernel, by decide +kernel⟩

/-- `BetaInDirichlet`: a start with one group raises `ValueError`. -/
theorem C119_betaInDirichlet_refuted :
    (session world [⟨[fun _ => 0, fun _ => 1], .int 1, false, .kmeans⟩] demo
      ((blank (BID.cls ⟨fun x => x, fun x => x⟩) none 3 1 (BID.init 1 1 : BID ℚ), 0) : GM _ 1 ℚ × ℕ)).1 = .error .valueError := by decide +kernel

/-- `BetaBernoulli`: three groups and a path that does not end in a success raise `ValueError`. -/
theorem C119_betaBernoulli_refuted :
    (session world [⟨[fun _ => 0, fun _ => 1, fun _ => 5, fun _ => 6], .int 3, false, .kmeans⟩] demo
      ((blank BBer.cls none 3 1 (BBer.init (1 / 2) 1 : BBer ℚ), 0) : GM _ 1 ℚ × ℕ)).1 = .error .valueError := by decide +kernel

section
variable {C : WeightClass K}

theorem gibbsStep_single (s : GM C m Atom × ℕ) (h1 : s.1.y.length = 1) : wp ω (gibbsStep W) (fun _ _ => False) (fun _ _ => True) s := by
  unfold gibbsStep
  rw [wp_bind, wp_self, wp_bind]
  refine wp_mono (wp_of_keeps (updateAtoms_frame (frame s.1) W _).keeps (s := s) rfl) (fun _ t ht => ?_) fun _ _ _ => trivial
  rw [wp_bind]
  refine wp_mono (wp_of_keeps (updateWeights_frame (frame s.1) W).keeps ht) (fun _ t ht => ?_) fun _ _ _ => trivial
  unfold updateD
  rw [wp_bind, wp_self, wp_bind]
  refine wp_mono (wp_of_keeps (getAtoms_frame (frame s.1) W _).keeps ht) (fun _ u _ => ?_) fun _ _ _ => trivial
  have hy : t.1.y = s.1.y := congrArg Frame.y ht
  rw [wp_ite]
  exact ⟨fun _ => trivial, fun h => absurd (.inl (by rw [hy]; exact h1)) h⟩

/-- With a single observation `fit_gibbs` cannot return, whatever the class and the other arguments, unless it is asked for no iteration at all. -/
theorem C119_single_row_refuted (y : Fin m → K) (g : PySize) (warm : Bool) (method : InitMethod) (s : GM C m Atom × ℕ) (hT : s.1.burnIn < s.1.totalIter) :
    (fitGibbs W (.rows [y]) g warm method ω s).1 ≠ .ok () := by
  suffices h : wp ω (fitGibbs W (.rows [y]) g warm method) (fun _ _ => False) (fun _ _ => True) s by
    intro hc
    unfold wp at h
    rcases hr : fitGibbs W (.rows [y]) g warm method ω s with ⟨e | a, t⟩
    · rw [hr] at hc; cases hc
    · rw [hr] at h; exact h
  unfold fitGibbs
  rw [wp_bind]
  unfold initCommon
  rw [wp_assign, wp_bind]
  have key : ∀ t : GM C m Atom × ℕ, t.1.y.length = 1 → t.1.burnIn < t.1.totalIter →
      wp ω (do
        let s ← M.self
        burn W s.burnIn.toNat
        record W (s.totalIter - s.burnIn).toNat 0
        M.assign (fun s => { s with gibbsFitted := true })) (fun _ _ => False) (fun _ _ => True) t := by
    intro t hy ht
    rw [wp_bind, wp_self, wp_bind]
    refine wp_mono (wp_of_keeps (burn_frame (frame t.1) W _).keeps (s := t) rfl) (fun _ u hu => ?_) fun _ _ _ => trivial
    rw [wp_bind]
    obtain ⟨k, hk⟩ : ∃ k, (t.1.totalIter - t.1.burnIn).toNat = k + 1 := ⟨(t.1.totalIter - t.1.burnIn).toNat - 1, by omega⟩
    rw [hk]
    unfold record
    rw [wp_bind]
    have hu' : u.1.y = t.1.y := congrArg Frame.y hu
    exact wp_mono (gibbsStep_single u (by rw [hu']; exact hy)) (fun _ _ h => h.elim) fun _ _ _ => trivial
  rw [wp_whenM]
  refine ⟨fun _ => ?_, fun _ => key _ rfl hT⟩
  rw [wp_bind]
  have hI : KeepsR ω (fun t : GM C m Atom => t.y.length = 1 ∧ t.burnIn < t.totalIter) (initGibbs W g method) (fun _ => True) := by
    unfold initGibbs
    refine KeepsR.bind (KeepsR.assign fun s h => h) fun _ _ => KeepsR.bind KeepsR.self fun _ _ => KeepsR.bind (keeps_draws _ _) fun _ _ =>
      KeepsR.bind (KeepsR.assign fun s h => h) fun _ _ => KeepsR.bind (R := fun _ => True) ?_ fun _ _ => KeepsR.bind (R := fun _ => True) ?_ fun _ _ => KeepsR.assign fun s h => h
    · unfold initWeights
      refine KeepsR.bind KeepsR.self fun _ _ => ?_
      split
      · exact KeepsR.bind (KeepsR.lift _) fun _ _ => KeepsR.bind (keeps_callW (fun _ _ h => h) _) fun _ _ => KeepsR.pure trivial
      · exact KeepsR.bind (keeps_callW (fun _ _ h => h) _) fun _ _ => KeepsR.pure trivial
    · cases method with
      | kmeans => exact KeepsR.bind KeepsR.self fun _ _ => KeepsR.bind (keeps_draw1 _) fun _ _ => KeepsR.bind (KeepsR.lift _) fun _ _ => KeepsR.pure trivial
      | random => exact KeepsR.bind KeepsR.self fun _ _ => keeps_callW (fun _ _ h => h) _
      | variational => exact KeepsR.bind KeepsR.self fun _ _ => KeepsR.bind (keeps_draw1 _) fun _ _ => (KeepsR.lift _).true_of
      | unknown => exact KeepsR.raise _
  refine wp_mono (wp_of_keeps hI.keeps ⟨rfl, hT⟩) (fun _ t ht => ?_) fun _ _ _ => trivial
  refine wp_mono (wp_of_keeps (updateMap_frame (frame t.1) W).keeps (s := t) rfl) (fun _ u hu => ?_) fun _ _ _ => trivial
  have e1 : u.1.y = t.1.y := congrArg Frame.y hu
  have e2 : u.1.burnIn = t.1.burnIn := congrArg Frame.burnIn hu
  have e3 : u.1.totalIter = t.1.totalIter := congrArg Frame.totalIter hu
  exact key u (by rw [e1]; exact ht.1) (by rw [e2, e3]; exact ht.2)
end

end Verif.Mix
