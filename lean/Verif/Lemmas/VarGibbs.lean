import Verif.Lemmas.VarLoop
import Verif.Lemmas.GibbsBook

/-! # `fit_gibbs` on the whole object, and the two flags -/

set_option linter.unusedSectionVars false

namespace Verif.Mix.VM
open Verif.Fl
variable {K : Type} [Field K] [LinearOrder K] [IsStrictOrderedRing K] {m : ℕ} {C : WeightClass K} {V : VarClass C} {Atom : Type}
variable {ω : Oracle K} {W : World K m Atom} {F : VWorld K m}

/-! ### `onGM` respects the structure -/

theorem onGM_bind {α β : Type} (x : M K (GM C m Atom) α) (f : α → M K (GM C m Atom) β) :
    (onGM (x >>= f) : M K (VM V m Atom) β) = (onGM x >>= fun a => onGM (f a)) := by
  funext ω s
  rw [M.bind_apply]
  unfold onGM
  rw [M.bind_apply]
  rcases x ω (s.1.gm, s.2) with ⟨e | a, t⟩ <;> rfl

theorem onGM_assign (f : GM C m Atom → GM C m Atom) : (onGM (M.assign f) : M K (VM V m Atom) Unit) = M.assign (fun s => { s with gm := f s.gm }) := rfl
theorem onGM_raise {α : Type} (e : PyErr) : (onGM (M.raise e) : M K (VM V m Atom) α) = M.raise e := rfl
theorem onGM_pure {α : Type} (a : α) : (onGM (pure a) : M K (VM V m Atom) α) = pure a := rfl

theorem onGM_whenM (c : Prop) [Decidable c] (x : M K (GM C m Atom) Unit) : (onGM (M.whenM c x) : M K (VM V m Atom) Unit) = M.whenM c (onGM x) := by
  unfold M.whenM
  split <;> rfl

theorem onGM_self {β : Type} (f : GM C m Atom → M K (VM V m Atom) β) : (onGM M.self >>= f) = (M.self >>= fun s => f s.gm) := by
  funext ω s
  rw [M.bind_apply, M.bind_apply]
  rfl

theorem bind_assoc' {σ α β γ : Type} (x : M K σ α) (f : α → M K σ β) (g : β → M K σ γ) : (x >>= f) >>= g = x >>= fun a => f a >>= g := by
  funext ω s
  rw [M.bind_apply, M.bind_apply, M.bind_apply]
  rcases x ω s with ⟨e | a, t⟩
  · rfl
  · simp only []
    rw [M.bind_apply]

theorem wp_ran {σ α : Type} {x : M K σ α} {Q : α → σ × ℕ → Prop} {E : PyErr → σ × ℕ → Prop} {s t : σ × ℕ} {a : α} (h : x ω s = (.ok a, t)) (hq : Q a t) : wp ω x Q E s := by
  unfold wp
  rw [h]
  exact hq

theorem wp_raised {σ α : Type} {x : M K σ α} {Q : α → σ × ℕ → Prop} {E : PyErr → σ × ℕ → Prop} {s t : σ × ℕ} {e : PyErr} (h : x ω s = (.error e, t)) (hq : E e t) : wp ω x Q E s := by
  unfold wp
  rw [h]
  exact hq

theorem initGibbs_split (g : PySize) (method : InitMethod) : (GM.initGibbs W g method : M K (GM C m Atom) Unit)
    = (startGibbs W g >>= fun _ => GM.initLabels W g method >>= fun d => M.assign (fun s => { s with d := d })) := by
  unfold GM.initGibbs startGibbs
  simp only [bind_assoc']

/-- Unless the labels come from the variational algorithm, `fit_gibbs` is the sampler of `Model/Gibbs.lean` on the Gibbs part; everything proved there
holds for the whole object. -/
theorem fitGibbs_eq (y : YArg K m) (g : PySize) (warm : Bool) (method : InitMethod) (h : warm = true ∨ method ≠ .variational) :
    (fitGibbs F W y g warm method : M K (VM V m Atom) Unit) = onGM (GM.fitGibbs W y g warm method) := by
  unfold fitGibbs GM.fitGibbs
  simp only [onGM_bind, onGM_whenM, onGM_assign, onGM_self]
  congr 1
  funext _
  congr 1
  rcases h with rfl | h
  · rfl
  · rw [initGibbs_split]
    simp only [onGM_bind, onGM_assign, bind_assoc']
    cases method with
    | variational => exact absurd rfl h
    | _ => rfl

/-! ### The flags -/

/-- The two flags. -/
def Flags (b c : Bool) (s : VM V m Atom) : Prop := s.gm.gibbsFitted = b ∧ s.varFitted = c

theorem keeps_onGM {α : Type} {b c : Bool} {R : α → Prop} {x : M K (GM C m Atom) α} (h : KeepsR ω (fun s : GM C m Atom => s.gibbsFitted = b) x R) :
    KeepsR ω (Flags b c) (onGM x : M K (VM V m Atom) α) R := by
  refine KeepsR.of_wp fun s hs => ?_
  rw [wp_onGM]
  refine wp_mono (h.wp hs.1) ?_ ?_
  · exact fun a t h => ⟨⟨h.1, hs.2⟩, h.2⟩
  · exact fun e t h => ⟨h, hs.2⟩

theorem flag_of_frame {α : Type} {b : Bool} {x : M K (GM C m Atom) α} (h : ∀ c, KeepsR ω (fun s : GM C m Atom => GM.frame s = c) x (fun _ => True)) :
    KeepsR ω (fun s : GM C m Atom => s.gibbsFitted = b) x (fun _ => True) := by
  refine KeepsR.of_wp fun s hs => wp_mono (KeepsR.wp (h (GM.frame s.1)) rfl) ?_ ?_
  · exact fun _ t h => ⟨(congrArg GM.Frame.gibbsFitted h.1).trans hs, trivial⟩
  · exact fun _ t h => (congrArg GM.Frame.gibbsFitted h).trans hs

theorem initCommon_flag {b : Bool} (y : YArg K m) : KeepsR ω (fun s : GM C m Atom => s.gibbsFitted = b) (GM.initCommon y) (fun _ => True) := by
  cases y with
  | rows ys =>
    unfold GM.initCommon
    exact KeepsR.assign (fun _ h => h)
  | invalid => exact KeepsR.raise _

theorem startGibbs_flag {b : Bool} (g : PySize) : KeepsR ω (fun s : GM C m Atom => s.gibbsFitted = b) (startGibbs W g) (fun _ => True) := by
  unfold startGibbs
  exact KeepsR.bind (KeepsR.assign (fun _ h => h)) fun _ _ => KeepsR.bind KeepsR.self fun _ _ => KeepsR.bind (GM.keeps_draws _ _) fun _ _ =>
    KeepsR.bind (KeepsR.assign (fun _ h => h)) fun _ _ => flag_of_frame (fun c => GM.initWeights_frame W c g)

theorem record_flag {b : Bool} (k i : ℕ) : KeepsR ω (fun s : GM C m Atom => s.gibbsFitted = b) (GM.record W k i) (fun _ => True) := by
  refine GM.record_keeps W (fun s t h hs => (congrArg GM.Frame.gibbsFitted h).trans hs) ?_ k i
  unfold GM.saveParams
  exact KeepsR.bind (KeepsR.assign fun s h => h) fun _ _ => KeepsR.bind KeepsR.self fun s _ =>
    KeepsR.bind (KeepsR.lift _) fun _ _ => KeepsR.assign fun s h => h

theorem updateVarD_flag {G : MathFun K} {b c : Bool} : KeepsR ω (Flags b c) (updateVarD G W : M K (VM V m Atom) Unit) (fun _ => True) := by
  unfold updateVarD
  refine KeepsR.bind KeepsR.self (fun t ht => ?_)
  cases t.varK with
  | none => exact KeepsR.raise _
  | some k =>
    simp only []
    exact KeepsR.ite (fun _ => KeepsR.raise _) (fun _ => KeepsR.bind (KeepsR.lift _) (fun _ _ =>
      KeepsR.ite (fun _ => KeepsR.raise _) (fun _ => KeepsR.assign (fun _ h => h))))

theorem fitWeights_flag {b c : Bool} (q : List (List (Fl K))) : KeepsR ω (Flags b c) (fitWeights q : M K (VM V m Atom) Unit) (fun _ => True) := by
  unfold fitWeights
  exact KeepsR.bind KeepsR.self (fun _ _ => KeepsR.bind (KeepsR.lift _) (fun _ _ => KeepsR.assign (fun _ h => h)))

theorem updateVarW_flag {b c : Bool} : KeepsR ω (Flags b c) (updateVarW : M K (VM V m Atom) Unit) (fun _ => True) := by
  unfold updateVarW
  exact KeepsR.bind KeepsR.self (fun _ _ => fitWeights_flag _)

theorem updateVarTheta_flag {b c : Bool} : KeepsR ω (Flags b c) (updateVarTheta : M K (VM V m Atom) Unit) (fun _ => True) := by
  unfold updateVarTheta
  exact KeepsR.bind KeepsR.self (fun _ _ => KeepsR.bind (KeepsR.lift _) (fun _ _ => KeepsR.assign (fun _ h => h)))

theorem maximize_flag {G : MathFun K} {b c : Bool} : KeepsR ω (Flags b c) (maximize G W : M K (VM V m Atom) Unit) (fun _ => True) :=
  KeepsR.bind updateVarD_flag fun _ _ => KeepsR.bind updateVarW_flag fun _ _ => updateVarTheta_flag

theorem keepsV_draw1 {α : Type} {I : VM V m Atom → Prop} (f : ℕ → α) : KeepsR ω I (GM.draw1 f : M K (VM V m Atom) α) (fun _ => True) :=
  fun _ hs => ⟨hs, trivial⟩

theorem drawAtoms_flag {b c : Bool} (k : ℕ) : KeepsR ω (Flags b c) (drawAtoms F k : M K (VM V m Atom) Unit) (fun _ => True) := by
  induction k with
  | zero => exact KeepsR.pure trivial
  | succ k ih =>
    unfold drawAtoms
    exact KeepsR.bind KeepsR.self fun _ _ => KeepsR.bind (keepsV_draw1 _) fun _ _ => KeepsR.bind (KeepsR.lift _) fun _ _ =>
      KeepsR.bind (KeepsR.assign (fun _ h => h)) fun _ _ => ih

theorem initVar_flag {b c : Bool} (k : ℤ) (method : VarInit) : KeepsR ω (Flags b c) (initVar F W k method : M K (VM V m Atom) Unit) (fun _ => True) := by
  cases method with
  | kmeans =>
    unfold initVar
    refine KeepsR.bind (KeepsR.assign (fun _ h => h)) fun _ _ => KeepsR.bind KeepsR.self fun _ _ => KeepsR.bind (keepsV_draw1 _) fun _ _ =>
      KeepsR.bind (KeepsR.lift _) fun _ _ => KeepsR.ite (fun _ => KeepsR.raise _) fun _ => KeepsR.ite (fun _ => KeepsR.raise _) fun _ => ?_
    exact KeepsR.bind (KeepsR.assign (fun _ h => h)) fun _ _ => KeepsR.bind (fitWeights_flag _) fun _ _ => KeepsR.bind updateVarTheta_flag fun _ _ =>
      KeepsR.bind updateVarD_flag fun _ _ => updateVarW_flag
  | random =>
    unfold initVar
    exact KeepsR.bind (KeepsR.assign (fun _ h => h)) fun _ _ => KeepsR.bind (drawAtoms_flag _) fun _ _ => KeepsR.ite (fun _ => KeepsR.raise _) fun _ =>
      KeepsR.ite (fun _ => KeepsR.raise _) fun _ => KeepsR.bind (KeepsR.assign (fun _ h => h)) fun _ _ => updateVarW_flag
  | unknown =>
    unfold initVar
    exact KeepsR.bind (KeepsR.assign (fun _ h => h)) fun _ _ => KeepsR.raise _

theorem varLoop_flag {G : MathFun K} {b c : Bool} (tol : Fl K) : ∀ (n : ℕ) (elbo diff : Fl K) (it : ℤ),
    KeepsR ω (Flags b c) (varLoop G W tol n elbo diff it : M K (VM V m Atom) ℤ) (fun _ => True) := by
  intro n
  induction n with
  | zero => intro _ _ _; exact KeepsR.raise _
  | succ n ih =>
    intro elbo diff it
    unfold varLoop
    exact KeepsR.bind KeepsR.self fun _ _ => KeepsR.ite (fun _ => KeepsR.bind maximize_flag fun _ _ => KeepsR.bind KeepsR.self fun _ _ =>
      KeepsR.bind (KeepsR.lift _) fun _ _ => ih _ _ _) (fun _ => KeepsR.pure trivial)

/-- `fit_variational` sets its own flag when it returns, and no flag when it raises. -/
theorem fitVariational_flag (y : YArg K m) (nG : Option ℤ) (warm : Bool) (tol : Fl K) (method : VarInit) {b c : Bool} {s : VM V m Atom × ℕ} (hs : Flags b c s.1) :
    wp ω (fitVariational F W y nG warm tol method) (fun _ t => Flags b true t.1) (fun _ t => Flags b c t.1) s := by
  unfold fitVariational
  rw [wp_bind]
  refine wp_mono ((keeps_onGM (initCommon_flag y)).wp hs) ?_ (fun _ _ h => h)
  rintro _ t ⟨ht, -⟩
  rw [wp_bind]
  have h1 : KeepsR ω (Flags b c) (M.whenM (warm = false) do
      let s ← M.self
      match nG, s.gm.nAttr with
      | some k, _ => initVar F W k method
      | none, some n => initVar F W n method
      | none, none => M.raise .attributeError : M K (VM V m Atom) Unit) (fun _ => True) := by
    refine KeepsR.whenM (fun _ => KeepsR.bind KeepsR.self fun s _ => ?_)
    cases nG with
    | some k => exact initVar_flag _ _
    | none =>
      cases s.gm.nAttr with
      | some n => exact initVar_flag _ _
      | none => exact KeepsR.raise _
  refine wp_mono (h1.wp ht) ?_ (fun _ _ h => h)
  rintro _ t2 ⟨ht2, -⟩
  rw [wp_bind, wp_self, wp_bind]
  refine wp_mono ((varLoop_flag tol _ _ _ _).wp ht2) ?_ (fun _ _ h => h)
  rintro it t3 ⟨ht3, -⟩
  rw [wp_assign]
  exact ⟨ht3.1, rfl⟩

/-- The part of `fit_gibbs` before the labels are chosen. -/
def beforeLabels (W : World K m Atom) (a : GM.FitArgs K m) : M K (VM V m Atom) Unit := do
  onGM (GM.initCommon a.y)
  onGM (startGibbs W a.initGroups)

/-- The `fit_variational` call inside `fit_gibbs(init_method="variational")` is reached and returns. -/
def InnerVar (F : VWorld K m) (W : World K m Atom) (ω : Oracle K) (a : GM.FitArgs K m) (s : VM V m Atom × ℕ) : Prop :=
  a.warm = false ∧ a.method = .variational ∧ ∃ t u, beforeLabels W a ω s = (.ok (), t) ∧
    fitVariational F W (.rows t.1.gm.y) (some ((C.getW t.1.gm.wst.1).length : ℤ)) false (.fin F.tol) .kmeans ω t = (.ok (), u)

theorem loops_flags {b c : Bool} {s : VM V m Atom × ℕ} (hs : Flags b c s.1) :
    wp ω (do
      let s ← M.self
      onGM (GM.burn W s.gm.burnIn.toNat)
      onGM (GM.record W (s.gm.totalIter - s.gm.burnIn).toNat 0)
      M.assign (fun s => { s with gm := { s.gm with gibbsFitted := true } }) : M K (VM V m Atom) Unit)
      (fun _ t => Flags true c t.1) (fun _ t => Flags b c t.1) s := by
  rw [wp_bind, wp_self, wp_bind]
  refine wp_mono ((keeps_onGM (flag_of_frame (fun c => GM.burn_frame c W _))).wp hs) ?_ (fun _ _ h => h)
  rintro _ t ⟨ht, -⟩
  rw [wp_bind]
  refine wp_mono ((keeps_onGM (record_flag _ _)).wp ht) ?_ (fun _ _ h => h)
  rintro _ t2 ⟨ht2, -⟩
  rw [wp_assign]
  exact ⟨rfl, ht2.2⟩

/-- `fit_gibbs` sets its flag when it returns; the variational flag is set exactly when an inner `fit_variational` returns. -/
theorem fitGibbs_flag (a : GM.FitArgs K m) {b c : Bool} {s : VM V m Atom × ℕ} (hs : Flags b c s.1) :
    wp ω (fitGibbs F W a.y a.initGroups a.warm a.method)
      (fun _ t => t.1.gm.gibbsFitted = true ∧ (t.1.varFitted = true ↔ c = true ∨ InnerVar F W ω a s))
      (fun _ t => t.1.gm.gibbsFitted = b ∧ (t.1.varFitted = true ↔ c = true ∨ InnerVar F W ω a s)) s := by
  by_cases hv : a.warm = true ∨ a.method ≠ .variational
  · have hno : ¬ InnerVar F W ω a s := by
      rintro ⟨h1, h2, _⟩
      rcases hv with h | h
      · rw [h] at h1; cases h1
      · exact h h2
    rw [fitGibbs_eq _ _ _ _ hv, wp_onGM]
    refine wp_mono (GM.fit_flag W a.y a.initGroups a.warm a.method (s.1.gm, s.2)) ?_ ?_
    · rintro _ t ⟨h, -⟩
      exact ⟨h, by rw [show s.1.varFitted = c from hs.2]; exact ⟨.inl, fun h => h.resolve_right hno⟩⟩
    · rintro _ t ⟨h, -⟩
      exact ⟨h.trans hs.1, by rw [show s.1.varFitted = c from hs.2]; exact ⟨.inl, fun h => h.resolve_right hno⟩⟩
  · push Not at hv
    obtain ⟨hw, hm⟩ := hv
    have hw' : a.warm = false := by simpa using hw
    have hsplit : (fitGibbs F W a.y a.initGroups a.warm a.method : M K (VM V m Atom) Unit) = (beforeLabels W a >>= fun _ =>
        (startLabels F W a.initGroups .variational >>= fun d => M.assign (fun s => { s with gm := { s.gm with d := d } }) >>= fun _ => onGM (GM.updateMap W)) >>= fun _ => do
          let s ← M.self
          onGM (GM.burn W s.gm.burnIn.toNat)
          onGM (GM.record W (s.gm.totalIter - s.gm.burnIn).toNat 0)
          M.assign (fun s => { s with gm := { s.gm with gibbsFitted := true } })) := by
      unfold fitGibbs beforeLabels
      rw [hw', hm]
      simp only [M.whenM, if_true, bind_assoc']
    rw [hsplit, wp_bind]
    have h1 : KeepsR ω (Flags b c) (beforeLabels W a : M K (VM V m Atom) Unit) (fun _ => True) :=
      KeepsR.bind (keeps_onGM (initCommon_flag _)) fun _ _ => keeps_onGM (startGibbs_flag _)
    cases hb : beforeLabels (V := V) W a ω s with
    | mk r t =>
      cases r with
      | error e =>
        have hflag := wp_of_error hb (h1.wp hs)
        refine wp_raised hb ?_
        refine ⟨hflag.1, ?_⟩
        rw [hflag.2]
        refine ⟨.inl, fun h => h.resolve_right ?_⟩
        rintro ⟨_, _, t', u, h2, _⟩
        rw [hb] at h2
        cases h2
      | ok r =>
        have hflag := (wp_of_ok hb (h1.wp hs)).1
        refine wp_ran hb ?_
        rw [wp_bind, wp_bind]
        unfold startLabels
        rw [wp_bind, wp_self, wp_bind]
        have hf := fitVariational_flag (ω := ω) (F := F) (W := W) (.rows t.1.gm.y) (some ((C.getW t.1.gm.wst.1).length : ℤ)) false (.fin F.tol) .kmeans hflag
        cases hi : fitVariational F W (.rows t.1.gm.y) (some ((C.getW t.1.gm.wst.1).length : ℤ)) false (.fin F.tol) .kmeans ω t with
        | mk r2 u =>
          cases r2 with
          | error e =>
            have h3 := wp_of_error hi hf
            refine wp_raised hi ?_
            refine ⟨h3.1, ?_⟩
            rw [h3.2]
            refine ⟨.inl, fun h => h.resolve_right ?_⟩
            rintro ⟨_, _, t', u', h4, h5⟩
            rw [hb] at h4
            cases h4
            rw [hi] at h5
            cases h5
          | ok r2 =>
            have h3 := wp_of_ok hi hf
            have hinner : InnerVar F W ω a s := ⟨hw', hm, t, u, hb, hi⟩
            refine wp_ran hi ?_
            have h4 : KeepsR ω (Flags b true) (do
                let s ← M.self
                let r ← M.lift (varMapCluster F.toMathFun W s .none false)
                match r with
                | .labels d => pure d
                | _ => M.raise .typeError : M K (VM V m Atom) (List ℕ)) (fun _ => True) := by
              refine KeepsR.bind KeepsR.self fun _ _ => KeepsR.bind (KeepsR.lift _) fun r _ => ?_
              cases r with
              | labels d => exact KeepsR.pure trivial
              | withVector d u => exact KeepsR.raise _
              | withMatrix d q => exact KeepsR.raise _
            refine wp_mono (h4.wp h3) ?_ (fun _ v h => ⟨h.1, by rw [h.2]; exact ⟨fun _ => .inr hinner, fun _ => rfl⟩⟩)
            rintro d v ⟨hv, -⟩
            rw [wp_bind, wp_assign]
            have hv' : Flags b true ({ v.1 with gm := { v.1.gm with d := d } } : VM V m Atom) := hv
            refine wp_mono ((keeps_onGM (flag_of_frame (fun c => GM.updateMap_frame c W))).wp hv') ?_
              (fun _ v h => ⟨h.1, by rw [h.2]; exact ⟨fun _ => .inr hinner, fun _ => rfl⟩⟩)
            rintro _ v2 ⟨hv2, -⟩
            refine wp_mono (loops_flags hv2) ?_ ?_
            · exact fun _ v h => ⟨h.1, by rw [h.2]; exact ⟨fun _ => .inr hinner, fun _ => rfl⟩⟩
            · exact fun _ v h => ⟨h.1, by rw [h.2]; exact ⟨fun _ => .inr hinner, fun _ => rfl⟩⟩
end Verif.Mix.VM
