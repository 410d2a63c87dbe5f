import Verif.Lemmas.Mirror
import Verif.Lemmas.GibbsBook
import Mathlib.Algebra.Order.Monoid.WithTop
import Mathlib.Algebra.BigOperators.Group.List.Lemmas

/-! # The Gibbs sampler on transformed data -/

set_option linter.unusedSectionVars false

namespace Verif.Mix
variable {K : Type} [Field K] [LinearOrder K] [IsStrictOrderedRing K] {C : WeightClass K} {m : ℕ} {Atom : Type} {ω : Oracle K}

/-- The outside world `W'` acts on transformed data (`g` on points and prior laws, `A` on atoms) as `W` acts on the original data; `κ` is the
logarithm of the factor by which densities change. -/
structure Moved (g : Affine K m) (A : Atom → Atom) (κ : K) (W W' : World K m Atom) : Prop where
  unif : W'.unif = W.unif
  gumbel : W'.gumbel = W.gumbel
  argsort : W'.argsort = W.argsort
  log : W'.log = W.log
  eps : W'.eps = W.eps
  fuel : W'.fuel = W.fuel
  atom : ∀ p q, W'.atom p (g.niw q) = A (W.atom p q)
  kmeans : ∀ p ys k, W'.kmeans p (ys.map g.pt) k = W.kmeans p ys k
  varLabels : ∀ p ys k, W'.varLabels p (ys.map g.pt) k = W.varLabels p ys k
  logpdf : ∀ x a, W'.logpdf (g.pt x) (A a) = W.logpdf x a + (κ : WithBot K)

/-- Atoms of a dictionary, one by one. -/
def moveTheta (A : Atom → Atom) (theta : List (ℕ × Atom)) : List (ℕ × Atom) := theta.map (fun p => (p.1, A p.2))

/-- A stored state with transformed atoms. -/
def RunParams.move (A : Atom → Atom) (p : RunParams K Atom) : RunParams K Atom := { p with theta := moveTheta A p.theta }

theorem lookup_move (A : Atom → Atom) (theta : List (ℕ × Atom)) (j : ℕ) : (moveTheta A theta).lookup j = (theta.lookup j).map A := by
  induction theta with
  | nil => rfl
  | cons p t ih =>
    obtain ⟨i, a⟩ := p
    unfold moveTheta at ih ⊢
    rw [List.map_cons, List.lookup_cons, List.lookup_cons, ih]
    cases j == i <;> rfl

namespace GM

/-- The object with transformed data, priors and atoms; `L` is added to the stored log-likelihood. -/
def move (g : Affine K m) (A : Atom → Atom) (L : K) (s : GM C m Atom) : GM C m Atom :=
  { s with
    muPrior := s.muPrior.map g.pt
    psiPrior := s.psiPrior.map g.conj
    y := s.y.map g.pt
    theta := moveTheta A s.theta
    mapParams := s.mapParams.map (RunParams.move A)
    mapLL := s.mapLL + (L : WithBot K)
    saved := s.saved.map (RunParams.move A) }

/-- Transformed arguments of a fit. -/
def YArg.move (g : Affine K m) : YArg K m → YArg K m
  | .rows ys => .rows (ys.map g.pt)
  | .invalid => .invalid

/-- Transformed arguments of a fit. -/
def FitArgs.move (g : Affine K m) (a : FitArgs K m) : FitArgs K m := { a with y := YArg.move g a.y }

/-- What is needed of an object during a fit: a proper prior, and as many data as `L` counts. -/
structure Good (κ L : K) (s : GM C m Atom) : Prop where
  lam : 0 < s.lam
  mu : s.muPrior.isSome = true
  len : (s.y.length : K) * κ = L

variable {g : Affine K m} {A : Atom → Atom} {κ L : K} {W W' : World K m Atom}

theorem prior_move {s : GM C m Atom} (h : s.muPrior.isSome = true) : prior (move g A L s) = g.niw (prior s) := by
  unfold prior move Affine.niw
  obtain ⟨mu, hmu⟩ := Option.isSome_iff_exists.1 h
  simp only [hmu, Option.map_some, Option.getD_some, NIW.mk.injEq, true_and, and_true]
  cases s.psiPrior with
  | none => funext i j; simp [Affine.conj]
  | some P => rfl

theorem setAtom_move (theta : List (ℕ × Atom)) (j : ℕ) (a : Atom) : setAtom (moveTheta A theta) j (A a) = moveTheta A (setAtom theta j a) := by
  unfold setAtom
  rw [lookup_move, Option.isSome_map]
  split
  · unfold moveTheta
    rw [List.map_map, List.map_map]
    apply List.map_congr_left
    intro p _
    simp only [Function.comp_apply]
    split <;> rfl
  · simp [moveTheta]

theorem rowsOf_move (y : List (Fin m → K)) (d : List ℕ) (j : ℕ) : rowsOf (y.map g.pt) d j = (rowsOf y d j).map (List.map g.pt) := by
  unfold rowsOf
  rw [List.length_map]
  split
  · refine congrArg Except.ok ?_
    rw [List.zip_map_left, List.filterMap_map, List.map_filterMap]
    congr 1
    funext p
    simp only [Function.comp_apply, Prod.map, id]
    split <;> rfl
  · rfl

theorem rowsOf_length {y : List (Fin m → K)} {d : List ℕ} {j : ℕ} {rows : List (Fin m → K)} (h : rowsOf y d j = .ok rows) :
    rows.length = d.count j ∧ y.length = d.length := by
  unfold rowsOf at h
  split at h
  · rename_i he
    cases h
    refine ⟨?_, he⟩
    induction d generalizing y with
    | nil => simp
    | cons x d ih =>
      cases y with
      | nil => simp at he
      | cons z y =>
        have := ih (y := y) (by simpa using he)
        rw [List.zip_cons_cons, List.filterMap_cons, List.count_cons]
        by_cases hx : x = j
        · simp [hx, this]
        · simp [hx, this]
  · cases h

theorem mir_callW {α : Type} {s : GM C m Atom × ℕ} (x : M K C.State α) (h : Good κ L s.1) :
    Mir ω (move g A L) (Good κ L) id (callW x) (callW x) s := by
  refine ⟨?_, ⟨h.lam, h.mu, h.len⟩⟩
  unfold callW
  rw [except_map_id]
  rfl

theorem mir_getAtom (hW : Moved g A κ W W') (j : ℕ) {s : GM C m Atom × ℕ} (h : Good κ L s.1) :
    Mir ω (move g A L) (Good κ L) A (getAtom W j) (getAtom W' j) s := by
  unfold getAtom
  apply Mir.self_bind
  have e : (move g A L s.1).theta.lookup j = (s.1.theta.lookup j).map A := lookup_move _ _ _
  rw [e]
  cases s.1.theta.lookup j with
  | some a => exact Mir.pure rfl h
  | none =>
    refine Mir.ite Iff.rfl (fun _ => ?_) (fun _ => Mir.raise _ h)
    refine Mir.bind (Mir.draw1 (f := A) (fun p => ?_) h) fun a s' _ h' => ?_
    · rw [prior_move h.mu, hW.atom]
    · refine Mir.bind (Mir.assign ?_ ⟨h'.lam, h'.mu, h'.len⟩) fun _ s2 _ h2 => Mir.pure rfl h2
      unfold move
      rw [setAtom_move]

theorem sum_logpdf (hW : Moved g A κ W W') (rows : List (Fin m → K)) (a : Atom) :
    ((rows.map g.pt).map (fun x => W'.logpdf x (A a))).sum = (rows.map (fun x => W.logpdf x a)).sum + (((rows.length : K) * κ : K) : WithBot K) := by
  rw [List.map_map]
  induction rows with
  | nil => simp
  | cons x rows ih =>
    rw [List.map_cons, List.sum_cons, ih, List.map_cons, List.sum_cons]
    simp only [Function.comp_apply]
    rw [hW.logpdf]
    have : (((((x :: rows).length : ℕ) : K) * κ : K) : WithBot K) = (κ : WithBot K) + (((rows.length : K) * κ : K) : WithBot K) := by
      rw [← WithBot.coe_add]
      congr 1
      push_cast [List.length_cons]
      ring
    rw [this, add_assoc, add_assoc]
    congr 1
    rw [← add_assoc, ← add_assoc, add_comm (κ : WithBot K)]

theorem mir_yLogLik (hW : Moved g A κ W W') : ∀ (js : List ℕ) (acc : WithBot K) (n0 : ℕ) {s : GM C m Atom × ℕ}, Good κ L s.1 →
    Mir ω (move g A L) (Good κ L) (fun r => r + ((((n0 + (js.map fun j => s.1.d.count j).sum : ℕ) : K) * κ : K) : WithBot K))
      (yLogLik W js acc) (yLogLik W' js (acc + (((n0 : K) * κ : K) : WithBot K))) s
  | [], acc, n0, s, h => by
    unfold yLogLik
    exact Mir.pure (by simp) h
  | j :: js, acc, n0, s, h => by
    unfold yLogLik
    apply Mir.self_bind
    refine Mir.bind (f := List.map g.pt) (Mir.lift (rowsOf_move _ _ _) h) fun rows s1 h1 hg1 => ?_
    obtain ⟨hr, hs1⟩ : rowsOf s.1.y s.1.d j = .ok rows ∧ s = s1 := by
      rw [M.lift_apply] at h1; exact ⟨congrArg Prod.fst h1, congrArg Prod.snd h1⟩
    subst hs1
    refine Mir.bind (f := A) (mir_getAtom hW j h) fun a s2 h2 hg2 => ?_
    have hd : s2.1.d = s.1.d := by
      have := (getAtom_d (ω := ω) W s.1.d j) s rfl
      rw [h2] at this
      exact this.1
    have := mir_yLogLik hW js (acc + (rows.map (fun x => W.logpdf x a)).sum) (n0 + s.1.d.count j) hg2
    rw [hd] at this
    have e : acc + (((n0 : K) * κ : K) : WithBot K) + ((rows.map g.pt).map (fun x => W'.logpdf x (A a))).sum =
        acc + (rows.map (fun x => W.logpdf x a)).sum + ((((n0 + s.1.d.count j : ℕ) : K) * κ : K) : WithBot K) := by
      rw [sum_logpdf hW, (rowsOf_length hr).1]
      push_cast
      rw [add_mul, WithBot.coe_add, add_assoc, add_assoc]
      congr 1
      rw [← add_assoc, ← add_assoc, add_comm _ (List.sum _)]
    rw [e]
    simp only [List.map_cons, List.sum_cons, ← add_assoc] at this ⊢
    exact this

theorem sum_count_npUnique (d : List ℕ) : ((npUnique d).map fun j => d.count j).sum = d.length := by
  rw [← List.sum_map_count_dedup_eq_length d]
  apply List.Perm.sum_eq
  apply List.Perm.map
  rw [List.perm_ext_iff_of_nodup _ (List.nodup_dedup d)]
  · intro x
    rw [List.mem_dedup]
    exact mem_npUnique
  · exact List.Nodup.filter _ List.nodup_range

theorem runLogLik_nil {s : GM C m Atom × ℕ} (W : World K m Atom) (h : s.1.d = []) : runLogLik W ω s = (.error .valueError, s) := by
  unfold runLogLik
  rw [M.bind_apply]
  simp only [M.self_apply, h]
  rfl

theorem mir_runLogLik (hW : Moved g A κ W W') {s : GM C m Atom × ℕ} (h : Good κ L s.1) :
    Mir ω (move g A L) (Good κ L) (fun r => r + (L : WithBot K)) (runLogLik W) (runLogLik W') s := by
  by_cases hd : s.1.d = []
  · unfold Mir
    rw [runLogLik_nil W hd, runLogLik_nil W' (s := (move g A L s.1, s.2)) hd]
    exact ⟨rfl, h⟩
  unfold runLogLik
  apply Mir.self_bind
  have h0 := mir_yLogLik (ω := ω) hW (npUnique s.1.d) 0 0 h
  simp only [Nat.cast_zero, zero_mul, WithBot.coe_zero, add_zero, zero_add, sum_count_npUnique] at h0
  refine Mir.bind h0 fun ly s1 h1 hg1 => ?_
  have hlen : s.1.y.length = s.1.d.length := by
    obtain ⟨x, l, hx⟩ := List.exists_cons_of_ne_nil (show npUnique s.1.d ≠ [] from by
      intro hn
      obtain ⟨x, l, hx⟩ := List.exists_cons_of_ne_nil hd
      have : x ∈ npUnique s.1.d := mem_npUnique.2 (by rw [hx]; exact List.mem_cons_self)
      rw [hn] at this
      cases this)
    rw [hx, yLogLik, M.bind_apply] at h1
    simp only [M.self_apply, M.bind_apply, M.lift_apply] at h1
    cases hr : rowsOf s.1.y s.1.d x with
    | error e => rw [hr] at h1; cases h1
    | ok rows => exact (rowsOf_length hr).2
  have e : W'.log = W.log := hW.log
  rw [e]
  refine Mir.bind (mir_callW _ hg1) fun ld s2 _ hg2 => Mir.pure ?_ hg2
  rw [← hlen, h.len]
  exact add_right_comm _ _ _

theorem bot_add_coe_lt {a b : WithBot K} {L : K} : a + (L : WithBot K) < b + (L : WithBot K) ↔ a < b := by
  induction a <;> induction b <;> simp [← WithBot.coe_add, WithBot.bot_lt_coe]

theorem bot_add_coe_eq {a : WithBot K} {L : K} : a + (L : WithBot K) = ⊥ ↔ a = ⊥ := by
  induction a <;> simp [← WithBot.coe_add]

theorem mir_updateMap (hW : Moved g A κ W W') {s : GM C m Atom × ℕ} (h : Good κ L s.1) :
    Mir ω (move g A L) (Good κ L) id (updateMap W) (updateMap W') s := by
  unfold updateMap
  refine Mir.bind (mir_runLogLik hW h) fun ll s1 _ h1 => Mir.assign ?_ ?_
  · have e1 : (move g A L s1.1).mapLL < ll + (L : WithBot K) ↔ s1.1.mapLL < ll := bot_add_coe_lt
    have e2 : (move g A L s1.1).mapLL = ⊥ ↔ s1.1.mapLL = ⊥ := bot_add_coe_eq
    simp only [e1, e2]
    split
    · rfl
    · split <;> rfl
  · split
    · exact ⟨h1.lam, h1.mu, h1.len⟩
    · split <;> exact ⟨h1.lam, h1.mu, h1.len⟩

theorem mir_updateAtoms (hW : Moved g A κ W W') : ∀ (js : List ℕ) {s : GM C m Atom × ℕ}, Good κ L s.1 →
    Mir ω (move g A L) (Good κ L) id (updateAtoms W js) (updateAtoms W' js) s
  | [], s, h => Mir.pure rfl h
  | j :: js, s, h => by
    unfold updateAtoms
    apply Mir.self_bind
    refine Mir.bind (f := List.map g.pt) (Mir.lift (rowsOf_move _ _ _) h) fun rows s1 _ h1 => ?_
    refine Mir.bind (f := A) (Mir.draw1 (fun p => ?_) h1) fun a s2 _ h2 => ?_
    · rw [prior_move h.mu, Affine.posteriorNIW_pt _ _ _ h.lam, hW.atom]
    · refine Mir.bind (Mir.assign ?_ ⟨h2.lam, h2.mu, h2.len⟩) fun _ s3 _ h3 => mir_updateAtoms hW js h3
      unfold move
      rw [setAtom_move]

theorem mir_updateWeights (hW : Moved g A κ W W') {s : GM C m Atom × ℕ} (h : Good κ L s.1) :
    Mir ω (move g A L) (Good κ L) id (updateWeights W) (updateWeights W') s := by
  unfold updateWeights
  apply Mir.self_bind
  refine Mir.bind (mir_callW _ h) fun _ s1 _ h1 => Mir.bind (mir_callW _ h1) fun w s2 _ h2 => ?_
  refine Mir.bind (f := id) (Mir.lift (except_map_id _).symm h2) fun ws s3 _ h3 => ?_
  refine Mir.bind (f := id) (x := drawSlices W ws) (y := drawSlices W' ws) ⟨?_, h3⟩ fun us s4 _ h4 => ?_
  · unfold drawSlices
    rw [hW.unif, hW.eps]; rfl
  refine Mir.bind (Mir.assign rfl ⟨h4.lam, h4.mu, h4.len⟩) fun _ s5 _ h5 => ?_
  refine Mir.bind (f := id) (Mir.lift (except_map_id _).symm h5) fun u s6 _ h6 => ?_
  have e : W'.fuel = W.fuel := hW.fuel
  rw [e]
  exact Mir.bind (mir_callW _ h6) fun _ s7 _ h7 => Mir.pure rfl h7

theorem mir_getAtoms (hW : Moved g A κ W W') : ∀ (js : List ℕ) {s : GM C m Atom × ℕ}, Good κ L s.1 →
    Mir ω (move g A L) (Good κ L) (List.map A) (getAtoms W js) (getAtoms W' js) s
  | [], s, h => Mir.pure rfl h
  | j :: js, s, h => by
    unfold getAtoms
    exact Mir.bind (mir_getAtom hW j h) fun a s1 _ h1 => Mir.bind (mir_getAtoms hW js h1) fun as s2 _ h2 => Mir.pure rfl h2

theorem column_move (hW : Moved g A κ W W') (w : List K) (as : List Atom) (x : Fin m → K) (u : K) :
    column W' w (as.map A) (g.pt x) u = (column W w as x u).map (fun z => z + (κ : WithBot K)) := by
  unfold column
  rw [List.zipWith_map_left, List.map_zipWith]
  congr 1
  funext a wj
  rw [hW.logpdf, add_right_comm]

theorem argmaxFrom_shift (κ : K) : ∀ (l : List (WithBot K)) (b : WithBot K) (bi i : ℕ),
    Py.argmaxFrom (b + (κ : WithBot K)) bi i (l.map fun z => z + (κ : WithBot K)) = Py.argmaxFrom b bi i l
  | [], _, _, _ => rfl
  | x :: l, b, bi, i => by
    simp only [List.map_cons, Py.argmaxFrom, bot_add_coe_lt, argmaxFrom_shift κ l]

theorem gumbelColumn_shift (κ : K) (l : List (WithBot K)) (ns : List K) :
    gumbelColumn (l.map fun z => z + (κ : WithBot K)) ns = gumbelColumn l ns := by
  unfold gumbelColumn
  rw [List.zipWith_map_left]
  have : (fun (z : WithBot K) (n : K) => z + (κ : WithBot K) + (n : WithBot K)) =
      fun (z : WithBot K) (n : K) => (z + (n : WithBot K)) + (κ : WithBot K) := by
    funext z n; exact add_right_comm _ _ _
  rw [this, ← List.map_zipWith (f := fun z : WithBot K => z + (κ : WithBot K)) (g := fun (p : WithBot K) (g : K) => p + (g : WithBot K))]
  cases List.zipWith (fun (p : WithBot K) (g : K) => p + (g : WithBot K)) l ns with
  | nil => rfl
  | cons x l => exact congrArg Except.ok (argmaxFrom_shift κ l x 0 1)

theorem gumbelMax_shift (κ : K) : ∀ (cs : List (List (WithBot K))) (ns : List (List K)),
    gumbelMaxSampling (cs.map fun l => l.map fun z => z + (κ : WithBot K)) ns = gumbelMaxSampling cs ns
  | [], _ => rfl
  | _ :: _, [] => rfl
  | c :: cs, n :: ns => by
    simp only [List.map_cons, gumbelMaxSampling, gumbelColumn_shift, gumbelMax_shift κ cs]

theorem mir_updateD (hW : Moved g A κ W W') {s : GM C m Atom × ℕ} (h : Good κ L s.1) :
    Mir ω (move g A L) (Good κ L) id (updateD W) (updateD W') s := by
  unfold updateD
  apply Mir.self_bind
  refine Mir.bind (mir_getAtoms hW _ h) fun as s1 _ h1 => ?_
  have e : (move g A L s.1).y.length = s.1.y.length := List.length_map _
  refine Mir.ite (by rw [e]; rfl) (fun _ => Mir.raise _ h1) fun _ => ?_
  refine Mir.bind (f := id) (x := drawNoise W _ _) (y := drawNoise W' _ _) ⟨?_, h1⟩ fun ns s2 _ h2 => ?_
  · unfold drawNoise noise
    rw [hW.gumbel, e]; rfl
  refine Mir.bind (f := id) (Mir.lift ?_ h2) fun d s3 _ h3 => Mir.assign rfl ⟨h3.lam, h3.mu, h3.len⟩
  rw [except_map_id, ← gumbelMax_shift κ (List.zipWith (column W (C.getW s.1.wst.1) as) s.1.y s.1.u), List.map_zipWith]
  have : List.zipWith (column W' (C.getW (move g A L s.1).wst.1) (as.map A)) (move g A L s.1).y (move g A L s.1).u =
      List.zipWith (fun x u => (column W (C.getW s.1.wst.1) as x u).map fun z => z + (κ : WithBot K)) s.1.y s.1.u := by
    show List.zipWith _ (s.1.y.map g.pt) s.1.u = _
    rw [List.zipWith_map_left]
    congr 1
    funext x u
    exact column_move hW _ _ _ _
  rw [this]
  rfl

theorem mir_gibbsStep (hW : Moved g A κ W W') {s : GM C m Atom × ℕ} (h : Good κ L s.1) :
    Mir ω (move g A L) (Good κ L) id (gibbsStep W) (gibbsStep W') s := by
  unfold gibbsStep
  apply Mir.self_bind
  exact Mir.bind (mir_updateAtoms hW _ h) fun _ s1 _ h1 => Mir.bind (mir_updateWeights hW h1) fun _ s2 _ h2 => mir_updateD hW h2

theorem mir_saveParams {s : GM C m Atom × ℕ} (h : Good κ L s.1) : Mir ω (move g A L) (Good κ L) id saveParams saveParams s := by
  unfold saveParams
  refine Mir.bind (Mir.assign ?_ ⟨h.lam, h.mu, h.len⟩) fun _ s1 _ h1 => ?_
  · simp [move, runParams, RunParams.move, moveTheta]
  apply Mir.self_bind
  exact Mir.bind (f := id) (Mir.lift (except_map_id _).symm h1) fun aff s2 _ h2 => Mir.assign rfl ⟨h2.lam, h2.mu, h2.len⟩

theorem mir_burn (hW : Moved g A κ W W') : ∀ (n : ℕ) {s : GM C m Atom × ℕ}, Good κ L s.1 →
    Mir ω (move g A L) (Good κ L) id (burn W n) (burn W' n) s
  | 0, s, h => Mir.pure rfl h
  | n + 1, s, h => by
    unfold burn
    exact Mir.bind (mir_gibbsStep hW h) fun _ s1 _ h1 => Mir.bind (mir_updateMap hW h1) fun _ s2 _ h2 => mir_burn hW n h2

theorem mir_record (hW : Moved g A κ W W') : ∀ (n i : ℕ) {s : GM C m Atom × ℕ}, Good κ L s.1 →
    Mir ω (move g A L) (Good κ L) id (record W n i) (record W' n i) s
  | 0, i, s, h => Mir.pure rfl h
  | n + 1, i, s, h => by
    unfold record
    refine Mir.bind (mir_gibbsStep hW h) fun _ s1 _ h1 => Mir.bind (mir_updateMap hW h1) fun _ s2 _ h2 => ?_
    refine Mir.bind (f := id) ?_ fun _ s3 _ h3 => mir_record hW n (i + 1) h3
    unfold maybeSave
    apply Mir.self_bind
    exact Mir.ite Iff.rfl (fun _ => Mir.raise _ h2) fun _ => Mir.whenM h2 (mir_saveParams h2)

theorem mir_initWeights (hW : Moved g A κ W W') (ig : PySize) {s : GM C m Atom × ℕ} (h : Good κ L s.1) :
    Mir ω (move g A L) (Good κ L) id (initWeights W ig) (initWeights W' ig) s := by
  unfold initWeights
  apply Mir.self_bind
  have e : W'.fuel = W.fuel := hW.fuel
  rw [e]
  cases ig with
  | none =>
    refine Mir.bind (f := id) (Mir.lift (except_map_id _).symm h) fun u s1 _ h1 => ?_
    exact Mir.bind (mir_callW _ h1) fun _ s2 _ h2 => Mir.pure rfl h2
  | int n => exact Mir.bind (mir_callW _ h) fun _ s2 _ h2 => Mir.pure rfl h2
  | np n => exact Mir.bind (mir_callW _ h) fun _ s2 _ h2 => Mir.pure rfl h2
  | other => exact Mir.bind (mir_callW _ h) fun _ s2 _ h2 => Mir.pure rfl h2

theorem mir_initLabels (hW : Moved g A κ W W') (ig : PySize) (method : InitMethod) {s : GM C m Atom × ℕ} (h : Good κ L s.1) :
    Mir ω (move g A L) (Good κ L) id (initLabels W ig method) (initLabels W' ig method) s := by
  cases method with
  | kmeans =>
    unfold initLabels
    apply Mir.self_bind
    refine Mir.bind (f := id) (Mir.draw1 (fun p => hW.kmeans p _ _) h) fun r s1 _ h1 => ?_
    refine Mir.bind (f := id) (Mir.lift (except_map_id _).symm h1) fun raw s2 _ h2 => Mir.pure ?_ h2
    rw [hW.argsort]; rfl
  | random =>
    unfold initLabels
    apply Mir.self_bind
    have e : (move g A L s.1).y.length = s.1.y.length := List.length_map _
    rw [e]
    exact mir_callW _ h
  | variational =>
    unfold initLabels
    apply Mir.self_bind
    refine Mir.bind (f := id) (Mir.draw1 (fun p => hW.varLabels p _ _) h) fun r s1 _ h1 => ?_
    exact Mir.lift (except_map_id _).symm h1
  | unknown => exact Mir.raise _ h

/-- The object right after the reset of `_initialize_gibbs_params`. -/
theorem wipe_move (s : GM C m Atom) : (fun s : GM C m Atom => { s with
      saved := []
      nGroups := []
      nAtoms := []
      totalSaved := 0
      theta := []
      thetaDefault := true
      affinity := List.replicate s.y.length (List.replicate s.y.length 0) }) (move g A L s) = move g A L { s with
      saved := []
      nGroups := []
      nAtoms := []
      totalSaved := 0
      theta := []
      thetaDefault := true
      affinity := List.replicate s.y.length (List.replicate s.y.length 0) } := by
  simp [move, moveTheta]

theorem mir_initGibbs (hW : Moved g A κ W W') (ig : PySize) (method : InitMethod) {s : GM C m Atom × ℕ} (h : Good κ L s.1) :
    Mir ω (move g A L) (Good κ L) id (initGibbs W ig method) (initGibbs W' ig method) s := by
  unfold initGibbs
  refine Mir.bind (Mir.assign (wipe_move s.1) ⟨h.lam, h.mu, h.len⟩) fun _ s1 _ h1 => ?_
  apply Mir.self_bind
  have e : (move g A L s1.1).y.length = s1.1.y.length := List.length_map _
  rw [e]
  refine Mir.bind (f := id) (Mir.draws (fun p => by rw [hW.unif, hW.eps]) _ h1) fun us s2 _ h2 => ?_
  refine Mir.bind (Mir.assign rfl ⟨h2.lam, h2.mu, h2.len⟩) fun _ s3 _ h3 => ?_
  refine Mir.bind (mir_initWeights hW ig h3) fun _ s4 _ h4 => ?_
  exact Mir.bind (mir_initLabels hW ig method h4) fun d s5 _ h5 => Mir.assign rfl ⟨h5.lam, h5.mu, h5.len⟩

/-- The state of an object between fits: all that matters is a positive `lambda_prior`. -/
theorem mir_initCommon (y : YArg K m) (hy : ∀ ys, y = .rows ys → ys ≠ []) (hL : ∀ ys, y = .rows ys → (ys.length : K) * κ = L)
    {s : GM C m Atom × ℕ} (h : 0 < s.1.lam) :
    (initCommon (YArg.move g y) ω (move g A L s.1, s.2)).1 = (initCommon y ω s).1 ∧
    (initCommon (YArg.move g y) ω (move g A L s.1, s.2)).2 = (move g A L (initCommon y ω s).2.1, (initCommon y ω s).2.2) ∧
    0 < (initCommon y ω s).2.1.lam ∧ (∀ a, (initCommon y ω s).1 = .ok a → Good κ L (initCommon y ω s).2.1) := by
  cases y with
  | invalid => exact ⟨rfl, rfl, h, fun a ha => by cases ha⟩
  | rows ys =>
    refine ⟨rfl, ?_, h, fun _ _ => ⟨h, rfl, hL ys rfl⟩⟩
    simp only [initCommon, YArg.move, M.assign_apply, move]
    rw [Affine.meanVec_pt g (hy ys rfl), Affine.cov_pt]
    cases s.1.muPrior <;> cases s.1.psiPrior <;> rfl

theorem fitGibbs_move (hW : Moved g A κ W W') (a : FitArgs K m) (hy : ∀ ys, a.y = .rows ys → ys ≠ [])
    (hL : ∀ ys, a.y = .rows ys → (ys.length : K) * κ = L) {s : GM C m Atom × ℕ} (h : 0 < s.1.lam) :
    Mir ω (move g A L) (fun s => 0 < s.lam) id (fitGibbs W a.y a.initGroups a.warm a.method)
      (fitGibbs W' (YArg.move g a.y) a.initGroups a.warm a.method) s := by
  obtain ⟨h1, h2, h3, h4⟩ := mir_initCommon (ω := ω) (g := g) (A := A) a.y hy hL h
  unfold fitGibbs
  refine Mir.bind (f := id) ⟨?_, h3⟩ fun u s1 hs1 h' => ?_
  · rw [← h2, except_map_id, ← h1]
  have hg : Good κ L s1.1 := by
    have := h4 u (by rw [hs1])
    rw [hs1] at this
    exact this
  have weak : ∀ {α β : Type} {f : α → β} {x : M K (GM C m Atom) α} {y : M K (GM C m Atom) β} {s : GM C m Atom × ℕ},
      Mir ω (move g A L) (Good κ L) f x y s → Mir ω (move g A L) (fun s => 0 < s.lam) f x y s := fun h => ⟨h.1, h.2.lam⟩
  apply weak
  refine Mir.bind (f := id) (Mir.whenM hg ?_) fun _ s2 _ hg2 => ?_
  · exact Mir.bind (mir_initGibbs hW _ _ hg) fun _ s2 _ hg2 => mir_updateMap hW hg2
  apply Mir.self_bind
  refine Mir.bind (mir_burn hW _ hg2) fun _ s3 _ hg3 => ?_
  exact Mir.bind (mir_record hW _ _ hg3) fun _ s4 _ hg4 => Mir.assign rfl ⟨hg4.lam, hg4.mu, hg4.len⟩

theorem run_move (hW : Moved g A κ W W') : ∀ (ops : List (FitArgs K m)), (∀ a ∈ ops, ∀ ys, a.y = .rows ys → ys ≠ [] ∧ (ys.length : K) * κ = L) →
    ∀ {s : GM C m Atom × ℕ}, 0 < s.1.lam →
    run W' ω (move g A L s.1, s.2) (ops.map (FitArgs.move g)) = (move g A L (run W ω s ops).1, (run W ω s ops).2)
  | [], _, s, _ => rfl
  | a :: ops, ho, s, h => by
    have h1 := fitGibbs_move (ω := ω) hW a (fun ys hy => (ho a (by simp) ys hy).1) (fun ys hy => (ho a (by simp) ys hy).2) h
    have h2 := run_move hW ops (fun a ha => ho a (by simp [ha])) h1.2
    unfold run at h2 ⊢
    rw [List.map_cons, List.foldl_cons, List.foldl_cons]
    have e : (fitGibbs W' (FitArgs.move g a).y (FitArgs.move g a).initGroups (FitArgs.move g a).warm (FitArgs.move g a).method ω (move g A L s.1, s.2)).2 =
        (move g A L (fitGibbs W a.y a.initGroups a.warm a.method ω s).2.1, (fitGibbs W a.y a.initGroups a.warm a.method ω s).2.2) :=
      congrArg Prod.snd h1.1
    rw [e]
    exact h2
end GM
end Verif.Mix
