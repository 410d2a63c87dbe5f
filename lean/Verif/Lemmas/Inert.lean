import Verif.Lemmas.GibbsBook

/-!
# Attributes that the Gibbs iterations do not read

`Inert f`: the change `f` of an object concerns attributes that an iteration neither reads nor writes.  Then iterations commute with `f`.
-/

set_option linter.unusedSectionVars false

namespace Verif.Mix
namespace GM
variable {K : Type} [Field K] [LinearOrder K] [IsStrictOrderedRing K] {C : WeightClass K} {m : ℕ} {Atom : Type} {ω : Oracle K}

structure Inert (f : GM C m Atom → GM C m Atom) : Prop where
  setD : ∀ s x, f { s with d := x } = { f s with d := x }
  setTheta : ∀ s x, f { s with theta := x } = { f s with theta := x }
  setU : ∀ s x, f { s with u := x } = { f s with u := x }
  setW : ∀ s x, f { s with wst := x } = { f s with wst := x }
  setMap : ∀ s x, f { s with mapParams := x } = { f s with mapParams := x }
  setLL : ∀ s x, f { s with mapLL := x } = { f s with mapLL := x }
  y : ∀ s, (f s).y = s.y
  d : ∀ s, (f s).d = s.d
  theta : ∀ s, (f s).theta = s.theta
  thetaDefault : ∀ s, (f s).thetaDefault = s.thetaDefault
  u : ∀ s, (f s).u = s.u
  wst : ∀ s, (f s).wst = s.wst
  mapLL : ∀ s, (f s).mapLL = s.mapLL
  prior : ∀ s, prior (f s) = prior s

/-- Running `x` on the changed object gives the same outcome and the changed object. -/
def Commutes (ω : Oracle K) (f : GM C m Atom → GM C m Atom) {α : Type} (x : M K (GM C m Atom) α) : Prop :=
  ∀ s : GM C m Atom × ℕ, x ω (f s.1, s.2) = ((x ω s).1, (f (x ω s).2.1, (x ω s).2.2))

namespace Commutes
variable {f : GM C m Atom → GM C m Atom} {α β : Type}

theorem bind {x : M K (GM C m Atom) α} {k : α → M K (GM C m Atom) β} (h : Commutes ω f x) (hk : ∀ a, Commutes ω f (k a)) : Commutes ω f (x >>= k) := by
  intro s
  rw [M.bind_apply, M.bind_apply, h s]
  rcases x ω s with ⟨e | a, t⟩
  · rfl
  · exact hk a t

theorem self {k : GM C m Atom → M K (GM C m Atom) α} (hk : ∀ a, Commutes ω f (k a)) (h : ∀ a, k (f a) = k a) : Commutes ω f (M.self >>= k) := by
  intro s
  have : (M.self >>= k) ω (f s.1, s.2) = k (f s.1) ω (f s.1, s.2) := rfl
  rw [this, h]
  exact hk s.1 s

theorem pure (a : α) : Commutes ω f (Pure.pure a : M K (GM C m Atom) α) := fun _ => rfl
theorem raise (e : PyErr) : Commutes ω f (M.raise e : M K (GM C m Atom) α) := fun _ => rfl
theorem draw1 (g : ℕ → α) : Commutes ω f (GM.draw1 g : M K (GM C m Atom) α) := fun _ => rfl
theorem draws (g : ℕ → α) (n : ℕ) : Commutes ω f (GM.draws g n : M K (GM C m Atom) (List α)) := fun _ => rfl
theorem lift (e : Except PyErr α) : Commutes ω f (M.lift e : M K (GM C m Atom) α) := by
  intro s; rcases e with e | a <;> rfl
theorem assign {g : GM C m Atom → GM C m Atom} (h : ∀ s, g (f s) = f (g s)) : Commutes ω f (M.assign g : M K (GM C m Atom) Unit) := by
  intro s
  show (Except.ok (), (g (f s.1), s.2)) = _
  rw [h]; rfl
theorem callW (hf : Inert f) (x : M K C.State α) : Commutes ω f (GM.callW x : M K (GM C m Atom) α) := by
  intro s
  show ((x ω (f s.1).wst).1, ({ f s.1 with wst := (x ω (f s.1).wst).2 }, s.2)) = ((x ω s.1.wst).1, (f { s.1 with wst := (x ω s.1.wst).2 }, s.2))
  exact (congrArg (fun z => ((x ω z).1, (({ f s.1 with wst := (x ω z).2 } : GM C m Atom), s.2))) (hf.wst s.1)).trans
    (congrArg (fun z => ((x ω s.1.wst).1, (z, s.2))) (hf.setW s.1 _).symm)

end Commutes

variable {f : GM C m Atom → GM C m Atom} (hf : Inert f) (W : World K m Atom)
include hf

theorem getAtom_commutes (j : ℕ) : Commutes ω f (getAtom W j) := by
  refine Commutes.self (fun a => ?_) fun a => ?_
  · cases a.theta.lookup j with
    | some b => exact Commutes.pure b
    | none =>
      dsimp only
      split
      · exact Commutes.bind (Commutes.draw1 _) fun b => Commutes.bind (Commutes.assign fun s => (congrArg (fun x => ({ f s with theta := setAtom x j b } : GM C m Atom)) (hf.theta s)).trans (hf.setTheta s _).symm) fun _ => Commutes.pure _
      · exact Commutes.raise _
  · simp only [hf.theta, hf.thetaDefault, hf.prior]

theorem getAtoms_commutes (js : List ℕ) : Commutes ω f (getAtoms W js) := by
  induction js with
  | nil => exact Commutes.pure _
  | cons j js ih => exact Commutes.bind (getAtom_commutes hf W j) fun a => Commutes.bind ih fun as => Commutes.pure _

theorem yLogLik_commutes (js : List ℕ) (acc : WithBot K) : Commutes ω f (yLogLik W js acc) := by
  induction js generalizing acc with
  | nil => exact Commutes.pure _
  | cons j js ih =>
    exact Commutes.self (fun a => Commutes.bind (Commutes.lift _) fun rows => Commutes.bind (getAtom_commutes hf W j) fun a => ih _)
      fun a => by simp only [hf.y, hf.d]

theorem updateMap_commutes : Commutes ω f (updateMap W) := by
  unfold updateMap
  refine Commutes.bind ?_ fun ll => Commutes.assign fun s => ?_
  · unfold runLogLik
    exact Commutes.self (fun a => Commutes.bind (yLogLik_commutes hf W _ _) fun ly => Commutes.bind (Commutes.callW hf _) fun ld => Commutes.pure _)
      fun a => by simp only [hf.d]
  · have hr : runParams (f s) = runParams s := by simp only [runParams, hf.wst, hf.theta, hf.u, hf.d]
    rw [hr]
    by_cases h1 : s.mapLL < ll
    · rw [if_pos h1, if_pos (by rw [hf.mapLL]; exact h1)]
      exact ((hf.setMap { s with mapLL := ll } _).trans (congrArg (fun x => ({ x with mapParams := some (runParams s) } : GM C m Atom)) (hf.setLL s ll))).symm
    · rw [if_neg h1, if_neg (by rw [hf.mapLL]; exact h1)]
      by_cases h2 : s.mapLL = ⊥
      · rw [if_pos h2, if_pos (by rw [hf.mapLL]; exact h2)]
        exact (hf.setMap s _).symm
      · rw [if_neg h2, if_neg (by rw [hf.mapLL]; exact h2)]

theorem updateAtoms_commutes (js : List ℕ) : Commutes ω f (updateAtoms W js) := by
  induction js with
  | nil => exact Commutes.pure _
  | cons j js ih =>
    exact Commutes.self (fun a => Commutes.bind (Commutes.lift _) fun rows => Commutes.bind (Commutes.draw1 _) fun a =>
      Commutes.bind (Commutes.assign fun s => (congrArg (fun x => ({ f s with theta := setAtom x j a } : GM C m Atom)) (hf.theta s)).trans (hf.setTheta s _).symm) fun _ => ih) fun a => by simp only [hf.y, hf.d, hf.prior]

theorem updateWeights_commutes : Commutes ω f (updateWeights W) := by
  refine Commutes.self (fun a => ?_) fun a => by simp only [hf.d]
  refine Commutes.bind (Commutes.callW hf _) fun _ => Commutes.bind (Commutes.callW hf _) fun w => Commutes.bind (Commutes.lift _) fun ws => ?_
  refine Commutes.bind (fun _ => rfl) fun us => Commutes.bind (Commutes.assign fun s => (hf.setU s us).symm) fun _ => ?_
  exact Commutes.bind (Commutes.lift _) fun u => Commutes.bind (Commutes.callW hf _) fun _ => Commutes.pure _

theorem updateD_commutes : Commutes ω f (updateD W) := by
  refine Commutes.self (fun a => ?_) fun a => by simp only [hf.wst, hf.y, hf.u]
  refine Commutes.bind (getAtoms_commutes hf W _) fun as => ?_
  split
  · exact Commutes.raise _
  · exact Commutes.bind (fun _ => rfl) fun ns => Commutes.bind (Commutes.lift _) fun d => Commutes.assign fun s => (hf.setD s d).symm

theorem gibbsStep_commutes : Commutes ω f (gibbsStep W) :=
  Commutes.self (fun a => Commutes.bind (updateAtoms_commutes hf W _) fun _ => Commutes.bind (updateWeights_commutes hf W) fun _ => updateD_commutes hf W)
    fun a => by simp only [hf.d]

theorem burn_commutes (n : ℕ) : Commutes ω f (burn W n) := by
  induction n with
  | zero => exact Commutes.pure _
  | succ n ih => exact Commutes.bind (gibbsStep_commutes hf W) fun _ => Commutes.bind (updateMap_commutes hf W) fun _ => ih

theorem record_commutes (hs : Commutes ω f saveParams) (hk : ∀ s, (f s).subsample = s.subsample) (n i : ℕ) : Commutes ω f (record W n i) := by
  induction n generalizing i with
  | zero => exact Commutes.pure _
  | succ n ih =>
    refine Commutes.bind (gibbsStep_commutes hf W) fun _ => Commutes.bind (updateMap_commutes hf W) fun _ => Commutes.bind ?_ fun _ => ih _
    refine Commutes.self (fun a => ?_) fun a => by rw [hk]
    split
    · exact Commutes.raise _
    · unfold M.whenM
      split
      · exact hs
      · exact Commutes.pure _

omit hf

theorem burn_add (a b : ℕ) : (burn W (a + b) : M K (GM C m Atom) Unit) = (burn W a >>= fun _ => burn W b) := by
  induction a with
  | zero =>
    funext ω s
    rw [Nat.zero_add]
    rfl
  | succ a ih =>
    rw [Nat.succ_add]
    show (gibbsStep W >>= fun _ => updateMap W >>= fun _ => burn W (a + b)) = ((gibbsStep W >>= fun _ => updateMap W >>= fun _ => burn W a) >>= fun _ => burn W b)
    rw [ih]
    funext ω s
    simp only [M.bind_apply]
    rcases gibbsStep W ω s with ⟨e | _, t⟩
    · rfl
    · dsimp only
      rcases updateMap W ω t with ⟨e | _, t2⟩ <;> rfl

theorem record_add (a b i : ℕ) : (record W (a + b) i : M K (GM C m Atom) Unit) = (record W a i >>= fun _ => record W b (i + a)) := by
  induction a generalizing i with
  | zero =>
    funext ω s
    rw [Nat.zero_add]
    rfl
  | succ a ih =>
    rw [Nat.succ_add]
    show (gibbsStep W >>= fun _ => updateMap W >>= fun _ => maybeSave (i : ℤ) >>= fun _ => record W (a + b) (i + 1)) =
      ((gibbsStep W >>= fun _ => updateMap W >>= fun _ => maybeSave (i : ℤ) >>= fun _ => record W a (i + 1)) >>= fun _ => record W b (i + (a + 1)))
    rw [ih, show i + 1 + a = i + (a + 1) by omega]
    funext ω s
    simp only [M.bind_apply]
    rcases gibbsStep W ω s with ⟨e | _, t⟩
    · rfl
    · dsimp only
      rcases updateMap W ω t with ⟨e | _, t2⟩
      · rfl
      · dsimp only
        rcases maybeSave (i : ℤ) ω t2 with ⟨e | _, t3⟩ <;> rfl

theorem record_subsample (k : ℤ) (n i : ℕ) : KeepsR ω (fun s : GM C m Atom => s.subsample = k) (record W n i) (fun _ => True) := by
  refine record_keeps W (fun s t h hs => (congrArg Frame.subsample h).trans hs) ?_ n i
  unfold saveParams
  exact KeepsR.bind (KeepsR.assign fun s h => h) fun _ _ => KeepsR.bind KeepsR.self fun s _ => KeepsR.bind (KeepsR.lift _) fun _ _ => KeepsR.assign fun s h => h

/-- Numbers of iterations that differ by a multiple of the subsampling step select the same iterations. -/
theorem record_shift (n i a : ℕ) (s : GM C m Atom × ℕ) (h : s.1.subsample ∣ (a : ℤ)) : record W n (i + a) ω s = record W n i ω s := by
  induction n generalizing i s with
  | zero => rfl
  | succ n ih =>
    have hk : KeepsR ω (fun x : GM C m Atom => x.subsample = s.1.subsample) (iter W) (fun _ => True) := by
      unfold iter
      refine KeepsR.bind (R := fun _ => True) ?_ fun _ _ => ?_
      · refine KeepsR.of_wp fun x hx => wp_mono (KeepsR.wp (gibbsStep_frame (frame x.1) W) rfl) ?_ ?_
        · exact fun _ t h => ⟨(congrArg Frame.subsample h.1).trans hx, trivial⟩
        · exact fun _ t h => (congrArg Frame.subsample h).trans hx
      · refine KeepsR.of_wp fun x hx => wp_mono (KeepsR.wp (updateMap_frame (frame x.1) W) rfl) ?_ ?_
        · exact fun _ t h => ⟨(congrArg Frame.subsample h.1).trans hx, trivial⟩
        · exact fun _ t h => (congrArg Frame.subsample h).trans hx
    have e : ∀ j : ℕ, record W (n + 1) j ω s = (iter W >>= fun _ => maybeSave (j : ℤ) >>= fun _ => record W n (j + 1)) ω s := by
      intro j
      show (gibbsStep W >>= fun _ => updateMap W >>= fun _ => maybeSave (j : ℤ) >>= fun _ => record W n (j + 1)) ω s = _
      simp only [M.bind_apply, iter]
      rcases gibbsStep W ω s with ⟨e | _, t⟩ <;> rfl
    rw [e (i + a), e i, M.bind_apply, M.bind_apply]
    rcases hr : iter W ω s with ⟨_ | _, t⟩
    · rfl
    · have ht : t.1.subsample = s.1.subsample := (wp_of_ok hr (KeepsR.wp hk rfl)).1
      have hmod : ((i + a : ℕ) : ℤ) % t.1.subsample = (i : ℤ) % t.1.subsample := by
        rw [ht]; push_cast
        obtain ⟨c, hc⟩ := h
        rw [hc, Int.add_mul_emod_self_left]
      have hm : (maybeSave ((i + a : ℕ) : ℤ) : M K (GM C m Atom) Unit) ω t = maybeSave (i : ℤ) ω t := by
        show (if t.1.subsample = 0 then M.raise .zeroDivisionError else M.whenM (((i + a : ℕ) : ℤ) % t.1.subsample = 0) saveParams : M K (GM C m Atom) Unit) ω t =
          (if t.1.subsample = 0 then M.raise .zeroDivisionError else M.whenM ((i : ℤ) % t.1.subsample = 0) saveParams : M K (GM C m Atom) Unit) ω t
        rw [hmod]
      dsimp only
      rw [M.bind_apply, M.bind_apply, hm]
      rcases hr2 : (maybeSave (i : ℤ) : M K (GM C m Atom) Unit) ω t with ⟨_ | _, t2⟩
      · rfl
      · have ht2 : t2.1.subsample = s.1.subsample := by
          have : KeepsR ω (fun x : GM C m Atom => x.subsample = s.1.subsample) (maybeSave (i : ℤ)) (fun _ => True) := by
            unfold maybeSave saveParams
            refine KeepsR.bind KeepsR.self fun s _ => KeepsR.ite (fun _ => KeepsR.raise _) fun _ => KeepsR.whenM fun _ => ?_
            exact KeepsR.bind (KeepsR.assign fun s h => h) fun _ _ => KeepsR.bind KeepsR.self fun s _ => KeepsR.bind (KeepsR.lift _) fun _ _ => KeepsR.assign fun s h => h
          exact (wp_of_ok hr2 (KeepsR.wp this ht)).1
        dsimp only
        rw [show i + a + 1 = i + 1 + a by omega]
        exact ih (i + 1) t2 (by rw [ht2]; exact h)

end GM
end Verif.Mix
