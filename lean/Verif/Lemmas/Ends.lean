import Verif.Lemmas.RobustRuns

/-!
# Fits that end

The model cuts the loop of `tail` off after `W.fuel` rounds.  `Ends ω x Q s`: for every sufficiently large bound the program `x` returns, with the same value
and the same final state.  If the loop of `tail` ends on every weight object the sampler meets, `fit_gibbs` ends.
-/

set_option linter.unusedSectionVars false

namespace Verif.Mix
open GM Spec
variable {K : Type} [Field K] [LinearOrder K] [IsStrictOrderedRing K] {C : WeightClass K} {m : ℕ} {Atom : Type} {ω : Oracle K}

/-- For every large bound on the loops `x` returns the same value in the same state, and these satisfy `Q`. -/
def Ends {σ α : Type} (ω : Oracle K) (x : ℕ → M K σ α) (Q : α → σ × ℕ → Prop) (s : σ × ℕ) : Prop := ∃ F r t, (∀ f ≥ F, x f ω s = (.ok r, t)) ∧ Q r t

section
variable {σ α β : Type} {Q : α → σ × ℕ → Prop} {s : σ × ℕ}

theorem Ends.mono {Q' : α → σ × ℕ → Prop} {x : ℕ → M K σ α} (h : Ends ω x Q s) (hQ : ∀ r t, Q r t → Q' r t) : Ends ω x Q' s := by
  obtain ⟨F, r, t, h1, h2⟩ := h
  exact ⟨F, r, t, h1, hQ r t h2⟩

theorem Ends.congr {x y : ℕ → M K σ α} (h : ∀ f, y f = x f) (hx : Ends ω x Q s) : Ends ω y Q s := by
  rw [show y = x from funext h]
  exact hx

theorem Ends.bind {x : ℕ → M K σ β} {k : ℕ → β → M K σ α} (h : Ends ω x (fun r t => Ends ω (fun f => k f r) Q t) s) : Ends ω (fun f => x f >>= k f) Q s := by
  obtain ⟨F, r, t, h1, F', r', t', h2, h3⟩ := h
  refine ⟨max F F', r', t', fun f hf => ?_, h3⟩
  show (x f >>= k f) ω s = _
  rw [M.bind_apply, h1 f (le_trans (le_max_left _ _) hf)]
  exact h2 f (le_trans (le_max_right _ _) hf)

theorem Ends.const {x : M K σ α} (h : wp ω x Q (fun _ _ => False) s) : Ends ω (fun _ => x) Q s := by
  obtain ⟨r, t, h1, h2⟩ := wp_total h
  exact ⟨0, r, t, fun _ _ => h1, h2⟩

/-- A first step without loops. -/
theorem Ends.after {x : M K σ β} {k : ℕ → β → M K σ α} (h : wp ω x (fun r t => Ends ω (fun f => k f r) Q t) (fun _ _ => False) s) : Ends ω (fun f => x >>= k f) Q s :=
  Ends.bind (.const h)

/-- What holds whenever the program returns holds in the end. -/
theorem Ends.and {Q' : α → σ × ℕ → Prop} {E : PyErr → σ × ℕ → Prop} {x : ℕ → M K σ α} (h : Ends ω x Q s) (hw : ∀ f, wp ω (x f) Q' E s) : Ends ω x (fun r t => Q r t ∧ Q' r t) s := by
  obtain ⟨F, r, t, h1, h2⟩ := h
  exact ⟨F, r, t, h1, h2, wp_of_ok (h1 F le_rfl) (hw F)⟩
end

theorem Ends.callW {α : Type} {x : ℕ → M K C.State α} {s : GM C m Atom × ℕ} {Q : α → GM C m Atom × ℕ → Prop}
    (h : Ends ω x (fun a t => Q a ({ s.1 with wst := t }, s.2)) s.1.wst) : Ends ω (fun f => GM.callW (x f)) Q s := by
  obtain ⟨F, r, t, h1, h2⟩ := h
  refine ⟨F, r, _, fun f hf => ?_, h2⟩
  show ((x f ω s.1.wst).1, (({ s.1 with wst := (x f ω s.1.wst).2 } : GM C m Atom), s.2)) = _
  rw [h1 f hf]

/-! ### The loop of `tail` -/

/-- Once the loop ends a larger bound changes nothing. -/
theorem tailLoop_stable {C : WeightCore K} {x : K} : ∀ (f : ℕ) (s t : C.State × ℕ) (r : List K), BaseWeight.tailLoop C x f ω s = (.ok r, t) →
    BaseWeight.tailLoop C x (f + 1) ω s = (.ok r, t) := by
  intro f
  induction f with
  | zero =>
    intro s t r h
    unfold BaseWeight.tailLoop at h ⊢
    rw [M.bind_apply] at h ⊢
    simp only [M.self] at h ⊢
    split at h
    · cases congrArg Prod.fst h
    · rw [if_neg (by assumption)]; exact h
  | succ f ih =>
    intro s t r h
    rw [BaseWeight.tailLoop] at h ⊢
    rw [M.bind_apply] at h ⊢
    simp only [M.self] at h ⊢
    split at h
    · rename_i hlt
      rw [if_pos hlt]
      rw [M.bind_apply] at h ⊢
      revert h
      rcases C.complete (.int ((C.getW s.1).length + 1)) ω (s.1, s.2) with ⟨e | a, u⟩
      · exact fun h => h
      · exact ih u t r
    · rw [if_neg (by assumption)]; exact h

theorem tail_stable {C : WeightCore K} {x : K} {f : ℕ} {s t : C.State × ℕ} {r : List K} (h : BaseWeight.tail C f x ω s = (.ok r, t)) : BaseWeight.tail C (f + 1) x ω s = (.ok r, t) := by
  unfold BaseWeight.tail at h ⊢
  split at h
  · cases congrArg Prod.fst h
  · rw [if_neg (by assumption)]
    rw [M.bind_apply] at h ⊢
    simp only [M.self] at h ⊢
    split at h
    · rename_i h0
      rw [if_pos h0]
      rw [M.bind_apply] at h ⊢
      revert h
      rcases C.random (.int 1) ω (s.1, s.2) with ⟨e | a, u⟩
      · exact fun h => h
      · exact tailLoop_stable f u t r
    · rw [if_neg (by assumption)]; exact tailLoop_stable f _ t r h

theorem tail_ends {C : WeightCore K} {x : K} {s : C.State × ℕ} (h : ∃ F, ∀ f ≥ F, ∃ r t, C.inheritTail.tail f x ω s = (.ok r, t)) :
    Ends ω (fun f => C.inheritTail.tail f x) (fun _ _ => True) s := by
  obtain ⟨F, hF⟩ := h
  obtain ⟨r, t, hr⟩ := hF F le_rfl
  refine ⟨F, r, t, fun f hf => ?_, trivial⟩
  induction f, hf using Nat.le_induction with
  | base => exact hr
  | succ f _ ih => exact tail_stable ih

/-! ### One iteration -/

/-- The surroundings with another bound on the loop of `tail`. -/
def bounded (W : World K m Atom) (f : ℕ) : World K m Atom := { W with fuel := f }

/-- The loop of `tail` ends on every object with `R`. -/
def TailEnds (C : WeightClass K) (ω : Oracle K) (R : C.State → Prop) : Prop :=
  ∀ (x : K) (s : C.State × ℕ), R s.1 → 0 ≤ x → x < 1 → Ends ω (fun f => C.tail f x) (fun _ _ => True) s

section
variable (W : World K m Atom)

theorem getAtoms_err (js : List ℕ) (s : GM C m Atom × ℕ) : wp ω (getAtoms W js) (fun _ _ => True) (fun e _ => e ≠ .outOfFuel) s := by
  induction js generalizing s with
  | nil => exact trivial
  | cons j js ih =>
    unfold getAtoms getAtom
    rw [wp_bind, wp_bind, wp_self]
    have hrest : ∀ (a : Atom) (t : GM C m Atom × ℕ), wp ω (do let as ← getAtoms W js; pure (a :: as)) (fun _ _ => True) (fun e _ => e ≠ .outOfFuel) t := fun a t => by
      rw [wp_bind]
      exact wp_mono (ih t) (fun _ _ _ => trivial) fun _ _ h => h
    split
    · exact hrest _ _
    · rw [wp_ite]
      exact ⟨fun _ => by rw [wp_bind, wp_draw1, wp_bind, wp_assign]; exact hrest _ _, fun _ => PyErr.noConfusion⟩

theorem gumbelMax_err (cols : List (List (WithBot K))) (ns : List (List K)) {e : PyErr} (h : gumbelMaxSampling cols ns = .error e) : e ≠ .outOfFuel := by
  induction cols generalizing ns with
  | nil => cases ns <;> cases h
  | cons c cs ih =>
    cases ns with
    | nil => cases h
    | cons g gs =>
      unfold gumbelMaxSampling at h
      split at h
      · rename_i e' he
        cases h
        unfold gumbelColumn Py.argmax at he
        revert he
        generalize List.zipWith (fun p (g : K) => p + (g : WithBot K)) c g = l
        cases l with
        | nil => intro he; cases he; exact PyErr.noConfusion
        | cons a l => intro he; cases he
      · split at h
        · rename_i he
          cases h
          exact ih _ he
        · cases h

theorem updateD_err (s : GM C m Atom × ℕ) : wp ω (updateD W) (fun _ _ => True) (fun e _ => e ≠ .outOfFuel) s := by
  unfold updateD
  rw [wp_bind, wp_self, wp_bind]
  refine wp_mono (getAtoms_err W _ s) (fun as t _ => ?_) fun _ _ h => h
  rw [wp_ite]
  refine ⟨fun _ => PyErr.noConfusion, fun _ => ?_⟩
  rw [wp_bind, wp_drawNoise, wp_bind, wp_lift]
  exact ⟨fun _ _ => trivial, fun e he => gumbelMax_err _ _ he⟩

theorem updateWeights_ends {R0 R : C.State → Prop} {grows slow : Prop} (hR : Robust C ω R0 R grows slow) (hT : TailEnds C ω R) (hW : SlicesOk W) {n : ℕ} (hn : 2 ≤ n) (t : GM C m Atom × ℕ)
    (hs : ReadyGM R n t.1) : Ends ω (fun f => updateWeights (bounded W f)) (fun _ _ => True) t := by
  have hne : t.1.d ≠ [] := by rintro h; have := hs.d; rw [h] at this; simp at this; omega
  refine Ends.after (x := M.self) ?_
  rw [wp_self]
  refine Ends.after ?_
  rw [wp_callW]
  unfold BaseWeight.fit
  rw [wp_assign]
  refine Ends.after ?_
  rw [wp_callW]
  refine wp_mono (hR.redraw t.1.d t.1.wst hs.weights hne hs.low) (fun w u hu => ?_) fun _ _ h => h.elim
  obtain ⟨hu1, rfl, hu3⟩ := hu
  obtain ⟨ws, hws, hlen, hmem⟩ := gather_labels hu3
  refine Ends.after ?_
  rw [wp_lift, hws]
  refine ⟨fun a ha => ?_, nofun⟩
  cases ha
  refine Ends.after (x := drawSlices W ws) ?_
  rw [wp_drawSlices]
  refine Ends.after ?_
  rw [wp_assign]
  refine Ends.after ?_
  rw [wp_lift]
  generalize hus : ws.mapIdx (fun i x => W.unif (t.2 + i) W.eps (x + W.eps)) = us
  have hul : us.length = n := by rw [← hus, List.length_mapIdx, hlen, hs.d]
  have hpos : ∀ x ∈ us, 0 < x ∧ x ≤ 1 := by
    intro x hx
    rw [← hus] at hx
    obtain ⟨i, hi, rfl⟩ := List.mem_mapIdx.1 hx
    have hw := hmem _ (List.getElem_mem hi)
    have hsub := hR.sub _ (hR.weak _ hu1)
    exact hW.step _ _ (hsub.1 _ hw) ((List.single_le_sum hsub.1 _ hw).trans hsub.2)
  obtain ⟨u0, hu0, hmin⟩ := minK_attained (l := us) (by rintro rfl; simp at hul; omega)
  rw [hmin]
  refine ⟨fun a ha => ?_, nofun⟩
  cases ha
  have h0 := hpos u0 hu0
  refine Ends.bind (Ends.callW ((hT (1 - u0) u hu1 (by linarith) (by linarith)).mono fun _ v _ => ?_))
  exact Ends.const trivial

theorem gibbsStep_ends {R0 R : C.State → Prop} {grows slow : Prop} (hR : Robust C ω R0 R grows slow) (hT : TailEnds C ω R) (hW : SlicesOk W) {n : ℕ} (hn : 2 ≤ n) (s : GM C m Atom × ℕ)
    (hs : ReadyGM R n s.1) : Ends ω (fun f => gibbsStep (bounded W f)) (fun _ t => ReadyGM R n t.1) s := by
  have hW' : ∀ f, SlicesOk (bounded W f) := fun f => ⟨hW.first, hW.step⟩
  have ua : ∀ f js, (updateAtoms (bounded W f) js : M K (GM C m Atom) Unit) = updateAtoms W js := by
    intro f js
    induction js with
    | nil => rfl
    | cons j js ih => unfold updateAtoms; rw [ih]; rfl
  have uga : ∀ f js, (getAtoms (bounded W f) js : M K (GM C m Atom) (List Atom)) = getAtoms W js := by
    intro f js
    induction js with
    | nil => rfl
    | cons j js ih => unfold getAtoms; rw [ih]; rfl
  have ud : ∀ f, (updateD (bounded W f) : M K (GM C m Atom) Unit) = updateD W := by
    intro f
    unfold updateD
    simp only [uga]
    rfl
  have hstep : (fun f => (gibbsStep (bounded W f) : M K (GM C m Atom) Unit)) =
      fun f => (do updateAtoms W (npUnique (← M.self : GM C m Atom).d); (do updateWeights (bounded W f); updateD W)) := by
    funext f
    unfold gibbsStep
    simp only [ua, ud]
  have hok := wp_total (updateAtoms_total (ω := ω) W (npUnique s.1.d) s (by rw [hs.y, hs.d]))
  obtain ⟨_, t, ht, hst⟩ := hok
  obtain ⟨F, _, u, hF, -⟩ := updateWeights_ends W hR hT hW hn t (hs.same hst)
  have hrun : ∀ f ≥ F, gibbsStep (bounded W f) ω s = updateD W ω u := by
    intro f hf
    rw [congrFun hstep f]
    show (updateAtoms W (npUnique s.1.d) >>= fun _ => updateWeights (bounded W f) >>= fun _ => updateD W) ω s = _
    rw [M.bind_apply, ht]
    show (updateWeights (bounded W f) >>= fun _ => updateD W) ω t = _
    rw [M.bind_apply, show updateWeights (bounded W f) ω t = _ from hF f hf]
  have htot := gibbsStep_total (bounded W F) hR (hW' F) hn s hs
  have herr := updateD_err (ω := ω) W u
  unfold wp at htot herr
  rw [hrun F le_rfl] at htot
  rcases hd : updateD W ω u with ⟨e | r, v⟩
  · rw [hd] at htot herr
    exact absurd htot.2 herr
  · rw [hd] at htot
    exact ⟨F, r, v, fun f hf => (hrun f hf).trans hd, htot⟩

/-! ### The fit -/

theorem yLogLik_bounded (f : ℕ) (js : List ℕ) (acc : WithBot K) : (yLogLik (bounded W f) js acc : M K (GM C m Atom) (WithBot K)) = yLogLik W js acc := by
  induction js generalizing acc with
  | nil => rfl
  | cons j js ih => unfold yLogLik; simp only [ih]; rfl

theorem updateMap_bounded (f : ℕ) : (updateMap (bounded W f) : M K (GM C m Atom) Unit) = updateMap W := by
  unfold updateMap runLogLik
  simp only [yLogLik_bounded]
  rfl

theorem initLabels_bounded (f : ℕ) (g : PySize) (method : InitMethod) : (initLabels (bounded W f) g method : M K (GM C m Atom) (List ℕ)) = initLabels W g method := by
  cases method <;> rfl

theorem burn_ends {R0 R : C.State → Prop} {grows slow : Prop} (hR : Robust C ω R0 R grows slow) (hT : TailEnds C ω R) (hW : SlicesOk W) {n : ℕ} (hn : 2 ≤ n) (b : ℕ) (s : GM C m Atom × ℕ)
    (hs : ReadyGM R n s.1) : Ends ω (fun f => burn (bounded W f) b) (fun _ t => ReadyGM R n t.1) s := by
  induction b generalizing s with
  | zero => exact Ends.const hs
  | succ b ih =>
    simp only [burn, updateMap_bounded]
    refine Ends.bind ((gibbsStep_ends W hR hT hW hn s hs).mono fun _ t ht => Ends.after ?_)
    exact wp_mono (updateMap_total W hR hn t ht.y ht.d ht.aff (hR.weak _ ht.weights) ht.atoms ht.sub fun x hx => .inr (ht.low x hx)) (fun _ u hu => ih u hu) fun _ _ h => h.elim

theorem record_ends {R0 R : C.State → Prop} {grows slow : Prop} (hR : Robust C ω R0 R grows slow) (hT : TailEnds C ω R) (hW : SlicesOk W) {n : ℕ} (hn : 2 ≤ n) (b i : ℕ) (s : GM C m Atom × ℕ)
    (hs : ReadyGM R n s.1) : Ends ω (fun f => record (bounded W f) b i) (fun _ t => ReadyGM R n t.1) s := by
  induction b generalizing s i with
  | zero => exact Ends.const hs
  | succ b ih =>
    simp only [record, updateMap_bounded]
    refine Ends.bind ((gibbsStep_ends W hR hT hW hn s hs).mono fun _ t ht => Ends.after ?_)
    refine wp_mono (updateMap_total W hR hn t ht.y ht.d ht.aff (hR.weak _ ht.weights) ht.atoms ht.sub fun x hx => .inr (ht.low x hx)) (fun _ u hu => ?_) fun _ _ h => h.elim
    refine Ends.after ?_
    unfold maybeSave
    rw [wp_bind, wp_self, wp_ite]
    refine ⟨fun h => absurd h hu.sub, fun _ => ?_⟩
    rw [wp_whenM]
    exact ⟨fun _ => wp_mono (saveParams_total u hu) (fun _ v hv => ih _ v hv) fun _ _ h => h.elim, fun _ => ih _ u hu⟩

/-- The labels and the first MAP state, once there are weights. -/
theorem labels_total (hω : ω.Legal) {R0 R : C.State → Prop} {grows slow : Prop} (hR : Robust C ω R0 R grows slow) {N : ℕ} (ys : List (Fin m → K)) (hn : 2 ≤ ys.length)
    (g : PySize) (method : InitMethod) (hfull : method = .variational → ∀ t, R0 t → C.getW t ≠ []) {nAttr : Option ℤ} (hst : GoodStart W ys grows N (clustersAsked nAttr g) method)
    (o : GM C m Atom × ℕ) (ht : R0 o.1.wst.1) (hN : grows ∨ N ≤ (C.getW o.1.wst.1).length) (hoy : o.1.y = ys) (hoa : o.1.affinity.length = ys.length) (hod : o.1.thetaDefault = true)
    (hos : o.1.subsample ≠ 0) (hon : o.1.nAttr = nAttr) :
    wp ω (do
      let d ← initLabels W g method
      M.assign (fun s => { s with d := d }) : M K (GM C m Atom) Unit) (fun _ a => wp ω (updateMap W) (fun _ t => ReadyGM R ys.length t.1) (fun _ _ => False) a) (fun _ _ => False) o := by
  have fin : ∀ (d : List ℕ) (o' : GM C m Atom × ℕ), d.length = ys.length → (∀ x ∈ d, grows ∨ x < (C.getW o.1.wst.1).length) →
      o'.1.y = ys → o'.1.affinity.length = ys.length → o'.1.thetaDefault = true → o'.1.subsample ≠ 0 → o'.1.wst.1 = o.1.wst.1 →
      wp ω (M.assign (fun s => { s with d := d }) : M K (GM C m Atom) Unit) (fun _ a => wp ω (updateMap W) (fun _ t => ReadyGM R ys.length t.1) (fun _ _ => False) a) (fun _ _ => False) o' := by
    intro d o' hd hlow h1 h2 h3 h4 h5
    rw [wp_assign]
    exact updateMap_total W hR hn _ (by show o'.1.y.length = _; rw [h1]) hd h2 (by show R0 o'.1.wst.1; rw [h5]; exact ht) h3 h4
      (by show ∀ x ∈ d, grows ∨ x < (C.getW o'.1.wst.1).length; rw [h5]; exact hlow)
  rw [wp_bind]
  cases method with
  | kmeans =>
    obtain ⟨hf, hk⟩ := hst
    obtain ⟨l, hl, hlen, hgl⟩ := hk o.2
    unfold initLabels
    rw [wp_bind, wp_self, wp_bind, wp_draw1]
    have e : W.kmeans o.2 o.1.y (match o.1.nAttr with | some n => n | none => match g.toInt? with | some g => g | none => 2) = .ok l := by
      rw [hoy, hon]; exact hl
    rw [wp_bind, wp_lift]
    refine ⟨fun a ha => ?_, fun x hx => absurd (e.symm.trans hx) nofun⟩
    cases e.symm.trans ha
    rw [wp_pure]
    refine fin _ _ (by rw [sizeBiased_length, hlen]) (fun x hx => ?_) hoy hoa hod hos rfl
    rcases hgl with h | h
    · exact .inl h
    · rcases hN with h' | h'
      · exact .inl h'
      · have := sizeBiased_lt hf l x hx; exact .inr (by omega)
  | random =>
    unfold initLabels
    rw [wp_bind, wp_self, wp_callW]
    unfold BaseWeight.randomAssignment
    rw [wp_bind, wp_unifVec]
    refine ⟨fun h => by omega, fun _ => ?_⟩
    rw [wp_bind, wp_self, wp_pure]
    refine fin _ _ (by simp [hoy]) (fun x hx => ?_) hoy hoa hod hos rfl
    by_cases hgr : grows
    · exact .inl hgr
    · right
      obtain ⟨u, hu, rfl⟩ := List.mem_map.1 hx
      obtain ⟨i, -, rfl⟩ := List.mem_map.1 hu
      have hw1 := hR.total _ ht hgr
      exact (invCdf_quantile (hR.sub _ ht).1 (by rw [hw1]; exact one_pos) (hω.unif_lt_one _)).lt
  | variational =>
    unfold initLabels
    rw [wp_bind, wp_self, wp_bind, wp_draw1]
    obtain ⟨l, hl, hlen, hlt⟩ := hst o.2 (C.getW o.1.wst.1).length (List.length_pos_iff.2 (hfull rfl _ ht))
    rw [wp_lift, hoy, hl]
    refine ⟨fun a ha => ?_, nofun⟩
    cases ha
    exact fin _ _ hlen (fun x hx => .inr (hlt x hx)) hoy hoa hod hos rfl
  | unknown => exact hst.elim

/-- The loop of `tail` ends on the object the fit starts from. -/
def TailEndsAt (C : WeightClass K) (ω : Oracle K) (s0 : C.State) : Prop := ∀ (pos : ℕ) (x : K), 0 ≤ x → x < 1 → Ends ω (fun f => C.tail f x) (fun _ _ => True) (s0, pos)

/-- The loops of a fit and its end. -/
theorem rest_ends {R0 R : C.State → Prop} {grows slow : Prop} (hR : Robust C ω R0 R grows slow) (hT : TailEnds C ω R) (hW : SlicesOk W) {n : ℕ} (hn : 2 ≤ n) (s : GM C m Atom × ℕ)
    (hs : ReadyGM R n s.1) : Ends ω (fun f => do
        let s ← M.self
        burn (bounded W f) s.burnIn.toNat
        record (bounded W f) (s.totalIter - s.burnIn).toNat 0
        M.assign (fun s => { s with gibbsFitted := true }) : ℕ → M K (GM C m Atom) Unit) (fun _ t => ReadyGM R n t.1 ∧ t.1.gibbsFitted = true) s := by
  refine Ends.after ?_
  rw [wp_self]
  refine Ends.bind ((burn_ends W hR hT hW hn _ s hs).mono fun _ b hb => Ends.bind ((record_ends W hR hT hW hn _ _ b hb).mono fun _ c hc => Ends.const ?_))
  rw [wp_assign]
  exact ⟨⟨hc.y, hc.d, hc.aff, hc.low, hc.weights, hc.atoms, hc.sub⟩, rfl⟩

/-- **`fit_gibbs` from scratch** ends. -/
theorem fit_cold_ends (hω : ω.Legal) {R0 R : C.State → Prop} {grows slow : Prop} (hR : Robust C ω R0 R grows slow) (hT : TailEnds C ω R) (hW : SlicesOk W) {N : ℕ} (ys : List (Fin m → K))
    (hn : 2 ≤ ys.length) (g : PySize) (method : InitMethod) (s : GM C m Atom × ℕ)
    (hg : (g = .none ∧ StartsTail C ω R0 grows slow N s.1.wst.1 ∧ TailEndsAt C ω s.1.wst.1) ∨ (g ≠ .none ∧ StartsComplete C ω R0 grows N s.1.wst.1 g))
    (hfull : method = .variational → ∀ t, R0 t → C.getW t ≠ []) (hsub : s.1.subsample ≠ 0) (hst : GoodStart W ys grows N (clustersAsked s.1.nAttr g) method) :
    Ends ω (fun f => fitGibbs (bounded W f) (.rows ys) g false method) (fun _ t => ReadyGM R ys.length t.1 ∧ t.1.gibbsFitted = true) s := by
  simp only [fitGibbs, initCommon, M.whenM, if_true, updateMap_bounded]
  refine Ends.after ?_
  rw [wp_assign]
  refine Ends.bind (x := fun f => do initGibbs (bounded W f) g method; updateMap W) (Ends.mono (Q := fun _ t => ReadyGM R ys.length t.1) ?_ fun _ t ht => rest_ends W hR hT hW hn t ht)
  refine Ends.bind (x := fun f => initGibbs (bounded W f) g method) (Ends.mono (Q := fun _ a => wp ω (updateMap W) (fun _ t => ReadyGM R ys.length t.1) (fun _ _ => False) a) ?_
    fun _ t ht => Ends.const ht)
  simp only [initGibbs, initLabels_bounded]
  refine Ends.after ?_
  rw [wp_assign]
  refine Ends.after ?_
  rw [wp_self]
  refine Ends.after (x := draws (fun p => W.unif p W.eps 1) ys.length) ?_
  rw [wp_draws]
  refine Ends.after ?_
  rw [wp_assign]
  have hus : (List.range ys.length).map (fun i => W.unif (s.2 + i) W.eps 1) ≠ [] := by
    rintro h
    have := congrArg List.length h
    rw [List.length_map, List.length_range, List.length_nil] at this
    omega
  obtain ⟨u0, hu0, hmin⟩ := minK_attained hus
  have h0 : 0 < u0 ∧ u0 ≤ 1 := by
    obtain ⟨i, -, rfl⟩ := List.mem_map.1 hu0
    exact hW.first _
  have key : ∀ o : GM C m Atom × ℕ, R0 o.1.wst.1 → (grows ∨ N ≤ (C.getW o.1.wst.1).length) → o.1.y = ys → o.1.affinity.length = ys.length → o.1.thetaDefault = true →
      o.1.subsample ≠ 0 → o.1.nAttr = s.1.nAttr → Ends ω (fun _ => do
        let d ← initLabels W g method
        M.assign (fun s => { s with d := d }) : ℕ → M K (GM C m Atom) Unit) (fun _ a => wp ω (updateMap W) (fun _ t => ReadyGM R ys.length t.1) (fun _ _ => False) a) o := by
    intro o h1 h2 h3 h4 h5 h6 h7
    exact Ends.const (labels_total W hω hR ys hn g method hfull hst o h1 h2 h3 h4 h5 h6 h7)
  refine Ends.bind (x := fun f => initWeights (bounded W f) g) ?_
  simp only [initWeights]
  refine Ends.after ?_
  rw [wp_self]
  rcases hg with ⟨rfl, hs, he⟩ | ⟨hne, hs⟩
  · simp only []
    refine Ends.after ?_
    rw [wp_lift]
    rw [show minK _ = _ from hmin]
    refine ⟨fun a ha => ?_, nofun⟩
    cases ha
    refine Ends.bind (Ends.callW (((he s.1.wst.2 (1 - u0) (by linarith) (by linarith)).and fun f => hs s.1.wst.2 f (1 - u0) (by linarith) (by linarith)).mono fun _ t ht => ?_))
    exact Ends.const (key _ ht.2.1 ht.2.2 rfl (by show (List.replicate _ _).length = _; simp) rfl hsub rfl)
  · refine Ends.congr (x := fun _ => do
      let _ ← GM.callW (C.complete g)
      pure ()) (fun f => ?_) ?_
    · clear hs hst key hfull
      cases g
      · exact absurd rfl hne
      all_goals rfl
    refine Ends.after ?_
    rw [wp_callW]
    refine wp_mono (hs s.1.wst.2) (fun _ t ht => ?_) fun _ _ h => h.elim
    exact Ends.const (key _ ht.1 ht.2 rfl (by show (List.replicate _ _).length = _; simp) rfl hsub rfl)

/-- **`fit_gibbs` continued** ends. -/
theorem fit_warm_ends {R0 R : C.State → Prop} {grows slow : Prop} (hR : Robust C ω R0 R grows slow) (hT : TailEnds C ω R) (hW : SlicesOk W) (ys : List (Fin m → K)) (hn : 2 ≤ ys.length)
    (g : PySize) (method : InitMethod) (s : GM C m Atom × ℕ) (hs : ReadyGM R ys.length s.1) :
    Ends ω (fun f => fitGibbs (bounded W f) (.rows ys) g true method) (fun _ t => ReadyGM R ys.length t.1 ∧ t.1.gibbsFitted = true) s := by
  simp only [fitGibbs, initCommon]
  refine Ends.after ?_
  rw [wp_assign]
  refine Ends.after (x := pure ()) ?_
  exact rest_ends W hR hT hW hn _ ⟨rfl, hs.d, hs.aff, hs.low, hs.weights, hs.atoms, hs.sub⟩
end

theorem session_ends {W : World K m Atom} (hω : ω.Legal) (hW : Faithful W) {R0 R : C.State → Prop} {grows slow again early : Prop} {N : ℕ} {s0 : C.State}
    (hS : Starts C ω R0 R grows slow again early N s0) (hT : TailEnds C ω R) (h0 : TailEndsAt C ω s0) {nAttr : Option ℤ} (hN : ∀ g, grows ∨ (clustersAsked nAttr g).toNat ≤ N) (cs : List (Call K m)) :
    ∀ (prev : Option ℕ) (s : GM C m Atom × ℕ), s.1.nAttr = nAttr → s.1.subsample ≠ 0 →
      ((prev = none ∧ s.1.wst.1 = s0) ∨ ∃ n, prev = some n ∧ ReadyGM R n s.1) → Legal nAttr again early prev cs →
      Ends ω (fun f => session (bounded W f) cs) (fun _ t => (cs ≠ [] ∨ s.1.gibbsFitted = true) → t.1.gibbsFitted = true) s := by
  induction cs with
  | nil => exact fun prev s _ _ _ _ => Ends.const fun h => h.resolve_left fun h => h rfl
  | cons c cs ih =>
    intro prev s hn hsub hs ⟨h2, hc, hcs⟩
    simp only [session]
    have key : Ends ω (fun f => fitGibbs (bounded W f) (.rows c.rows) c.groups c.warm c.method) (fun _ t => ReadyGM R c.rows.length t.1 ∧ t.1.gibbsFitted = true) s := by
      rcases hw : c.warm with _ | _
      · rw [hw] at hc
        simp only [Bool.false_eq_true, if_false] at hc
        obtain ⟨hcold, hag⟩ := hc
        have hst : s.1.wst.1 = s0 ∨ (again ∧ R s.1.wst.1) := by
          rcases hs with ⟨-, h⟩ | ⟨n, e, h⟩
          · exact .inl h
          · rcases hag with h' | h'
            · exact .inr ⟨h', h.weights⟩
            · rw [h'] at e; cases e
        have hgood := goodStart hW hcold (hN c.groups)
        rw [← hn] at hgood
        rcases hcold.groups with hg | ⟨n, hg, hn1⟩
        · refine fit_cold_ends W hω hS.robust hT hW.slices c.rows h2 c.groups c.method s (.inl ⟨hg, hS.tail _ hst, ?_⟩)
            (fun hm => hS.early (hcold.early hm hg)) hsub hgood
          rcases hst with h | h
          · rw [h]; exact h0
          · exact fun pos x => hT x (s.1.wst.1, pos) h.2
        · exact fit_cold_ends W hω hS.robust.strong hT hW.slices c.rows h2 c.groups c.method s
            (.inr ⟨(by rintro h; rw [h] at hg; cases hg), hS.complete _ hst _ n hg hn1⟩) (fun _ => hS.robust.ne) hsub hgood
      · rw [hw] at hc
        simp only [if_true] at hc
        rcases hs with ⟨h, -⟩ | ⟨n, e, h⟩
        · rw [hc] at h; cases h
        · rw [hc] at e
          cases e
          exact fit_warm_ends W hS.robust hT hW.slices c.rows h2 c.groups c.method s h
    have hset := fun f => wp_of_keeps (fitGibbs_settings (ω := ω) (bounded W f) (· = settings s.1) (.rows c.rows) c.groups c.warm c.method).keeps (s := s) rfl
    refine Ends.bind ((key.and hset).mono fun _ t ht => ?_)
    obtain ⟨⟨hr, hfit⟩, hset⟩ := ht
    simp only [settings, Prod.mk.injEq] at hset
    exact (ih _ t (hset.2.2.2.trans hn) (by rw [hset.2.2.1]; exact hsub) (.inr ⟨_, rfl, hr⟩) hcs).mono fun _ u hu _ => hu (.inr hfit)

end Verif.Mix
