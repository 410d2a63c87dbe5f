import Verif.Lemmas.PermRel

/-! # A draw forgets what was drawn before: `random` on two objects that agree on hyper-parameters and labels only -/

set_option linter.unusedSectionVars false
set_option linter.unusedSimpArgs false

namespace Verif
open Spec
variable {K : Type} [Field K] [LinearOrder K] {ω : Oracle K}

/-- No information about the objects. -/
abbrev NoInfo {σ τ : Type} : σ → τ → Prop := fun _ _ => True

theorem Rel.refl {σ α : Type} (m : M K σ α) : Rel ω Eq Eq NoInfo m m := by
  rintro s _ p rfl
  rcases m ω (s, p) with ⟨e | a, s'⟩
  · exact ⟨rfl, rfl, trivial⟩
  · exact ⟨rfl, rfl, rfl⟩

theorem Rel.lift_bind {σ τ α β : Type} {R R' E : σ → τ → Prop} {a : α} {f : α → M K σ β} {f' : α → M K τ β} (h : Rel ω R R' E (f a) (f' a)) :
    Rel ω R R' E (M.lift (.ok a) >>= f) (M.lift (.ok a) >>= f') := h

/-- Objects that agree on hyper-parameters and labels. -/
def DP.Same (s t : DP K) : Prop := s.alpha = t.alpha ∧ s.d = t.d
@[inherit_doc DP.Same] def PY.Same (s t : PY K) : Prop := s.pyd = t.pyd ∧ s.alpha = t.alpha ∧ s.d = t.d
@[inherit_doc DP.Same] def Geo.Same (s t : Geo K) : Prop := s.a = t.a ∧ s.b = t.b ∧ s.d = t.d
@[inherit_doc DP.Same] def BBin.Same (s t : BBin K) : Prop := s.n = t.n ∧ s.alpha = t.alpha ∧ s.d = t.d
@[inherit_doc DP.Same] def BBer.Same (s t : BBer K) : Prop := s.p = t.p ∧ s.alpha = t.alpha ∧ s.d = t.d
@[inherit_doc DP.Same] def DirDist.Same (s t : DirDist K) : Prop := s.n = t.n ∧ s.alpha = t.alpha ∧ s.d = t.d
@[inherit_doc DP.Same] def Equal.Same (s t : Equal K) : Prop := s.n = t.n ∧ s.d = t.d
@[inherit_doc DP.Same] def Freq.Same (s t : Freq K) : Prop := s.n = t.n ∧ s.d = t.d

macro "noinfo" : term => `(fun _ _ _ => trivial)

/-- Step that keeps the current relation. -/
macro "fr_draw" : tactic => `(tactic| first
  | exact Rel.lift rfl noinfo
  | exact Rel.beta noinfo _ _
  | exact Rel.betaVec noinfo _
  | exact Rel.betaRep noinfo _ _ _
  | exact Rel.binom noinfo _ _
  | exact Rel.binomVec noinfo _ _
  | exact Rel.binomRep noinfo _ _ _
  | exact Rel.unifVec noinfo _
  | exact Rel.dirichlet noinfo _
  | exact Rel.optim noinfo _ _)

namespace DP
/-- … and on the sticks. -/
def SameV (s t : DP K) : Prop := s.alpha = t.alpha ∧ s.d = t.d ∧ s.v = t.v

theorem complete_fresh (n : ℤ) (hn : 1 ≤ n) :
    Rel ω (fun s t : DP K => SameV s t ∧ s.v = []) Eq NoInfo (complete (.int n)) (complete (.int n)) := by
  unfold complete
  simp only [PySize.toInt?]
  refine Rel.bind (Rel.lift rfl noinfo) fun _ => ?_
  refine Rel.self_bind' ?_
  rintro ⟨a, v, w, d⟩ ⟨_, _, w', _⟩ ⟨⟨rfl, rfl, rfl⟩, hv⟩
  dsimp only at hv
  subst hv
  dsimp only
  rw [show M.whenM = fun (c : Prop) [Decidable c] (x : M K (DP K) Unit) => if c then x else pure () from rfl]
  simp only [List.length_nil, Nat.cast_zero]
  rw [if_pos (by omega)]
  refine Rel.bind (R'' := Eq) ?_ fun _ => Rel.refl _
  refine Rel.bind (Rel.betaRep noinfo _ _ _) fun nv => ?_
  refine Rel.bind (R'' := SameV) (Rel.assign ?_) fun _ => Rel.assign ?_
  · rintro s t ⟨⟨h1, h2, h3⟩, _⟩; exact ⟨h1, h2, by simp [h3]⟩
  · rintro ⟨_, _, _, _⟩ ⟨_, _, _, _⟩ ⟨rfl, rfl, rfl⟩; rfl

theorem random_fresh {size : PySize} (h : ReqPos size ∨ size = .other) : Rel ω Same Eq NoInfo (random size : M K (DP K) _) (random size) := by
  unfold random
  refine Rel.self_bind' ?_
  rintro s t hst
  obtain ⟨h1, h2⟩ := hst
  rw [← h2]
  refine Rel.ite Iff.rfl (fun _ => Rel.raise noinfo) fun hne => ?_
  have hfit : Rel ω (fun s t : DP K => SameV s t ∧ s.v = []) Eq NoInfo
      (do randomFitted size; let s ← M.self; pure s.w : M K (DP K) _) (do randomFitted size; let s ← M.self; pure s.w) := by
    refine Rel.bind (R'' := Eq) ?_ fun _ => Rel.refl _
    unfold randomFitted
    refine Rel.self_bind' ?_
    rintro s t ⟨⟨h1, h2, h3⟩, _⟩
    rw [← h1, ← h2]
    refine Rel.bind (Rel.lift rfl noinfo) fun a_c => ?_
    refine Rel.bind (R'' := fun s t => SameV s t ∧ s.v = []) ?_ fun v => ?_
    · unfold drawSticks
      split
      · exact Rel.ite Iff.rfl (fun _ => Rel.betaVec noinfo _) fun _ => Rel.betaVec noinfo _
      · exact Rel.betaVec noinfo _
    · refine Rel.bind (R'' := Eq) (Rel.assign ?_) fun _ => Rel.refl _
      rintro ⟨_, _, _, _⟩ ⟨_, _, _, _⟩ ⟨⟨h, h', _⟩, _⟩
      cases h; cases h'; rfl
  have hass : Rel ω Same (fun s t : DP K => SameV s t ∧ s.v = []) NoInfo (M.assign (fun s => { s with v := [] }))
      (M.assign (fun s => { s with v := [] })) := Rel.assign fun s t h => ⟨⟨h.1, h.2, rfl⟩, rfl⟩
  cases size with
  | np n => exact Rel.raise noinfo
  | other => exact Rel.raise noinfo
  | none =>
    refine Rel.bind hass fun _ => Rel.ite Iff.rfl (fun h0 => absurd ⟨rfl, h0⟩ hne) fun _ => hfit
  | int n =>
    have hn : 1 ≤ n := by
      rcases h with h | h
      · rcases h with h | ⟨m, h, hm⟩
        · cases h
        · cases h; exact hm
      · cases h
    exact Rel.bind hass fun _ => Rel.ite Iff.rfl (fun _ => complete_fresh n hn) fun _ => hfit
end DP

namespace PY
theorem random_fresh (size : PySize) : Rel ω Same Eq NoInfo (random size : M K (PY K) _) (random size) := by
  unfold random
  refine Rel.self_bind' ?_
  rintro s t ⟨h1, h2, h3⟩
  rw [← h3]
  have hass : ∀ v : List K, Rel ω Same (Eq : PY K → PY K → Prop) NoInfo (M.assign (fun s => { s with v := v, w := stickWeights v }))
      (M.assign (fun s => { s with v := v, w := stickWeights v })) := fun v => Rel.assign fun s t h => by
    cases s; cases t; obtain ⟨h1, h2, h3⟩ := h; cases h1; cases h2; cases h3; rfl
  refine Rel.ite Iff.rfl (fun _ => Rel.raise noinfo) fun _ => Rel.ite Iff.rfl (fun _ => ?_) fun _ => ?_
  · split
    · exact Rel.raise noinfo
    · rw [← h1]
      refine Rel.ite Iff.rfl (fun _ => Rel.raise noinfo) fun _ => ?_
      have hp : t.priorParams = s.priorParams := by unfold priorParams; rw [h1, h2]
      rw [hp]
      exact Rel.bind (Rel.betaVec noinfo _) fun v => Rel.bind (hass v) fun _ => Rel.refl _
  · refine Rel.bind (Rel.lift rfl noinfo) fun a_c => ?_
    refine Rel.bind (R'' := Same) ?_ fun v => Rel.bind (hass v) fun _ => Rel.refl _
    have hp : t.params = s.params := by unfold params; rw [h1, h2]
    unfold drawSticks
    rw [hp]
    split
    · exact Rel.raise noinfo
    · exact Rel.betaVec noinfo _
    · exact Rel.ite Iff.rfl (fun _ => Rel.betaVec noinfo _) fun _ => Rel.betaVec noinfo _
    · exact Rel.ite Iff.rfl (fun _ => Rel.betaVec noinfo _) fun _ => Rel.betaVec noinfo _
end PY

namespace Geo
/-- … and on `p` and the sticks. -/
def SameV (s t : Geo K) : Prop := Same s t ∧ s.p = t.p ∧ s.v = t.v

theorem complete_fresh (size : PySize) (h : ∀ n, size.toInt? = some n → 1 ≤ n) :
    Rel ω (fun s t : Geo K => SameV s t ∧ s.v = []) Eq NoInfo (complete size) (complete size) := by
  unfold complete
  refine Rel.bind (Rel.lift rfl noinfo) fun _ => ?_
  cases hs : size.toInt? with
  | none => exact Rel.raise noinfo
  | some n =>
    have hn := h n hs
    refine Rel.self_bind' ?_
    rintro ⟨a, b, p, v, w, d⟩ ⟨_, _, _, _, w', _⟩ ⟨⟨⟨rfl, rfl, rfl⟩, rfl, rfl⟩, hv⟩
    dsimp only at hv
    subst hv
    dsimp only
    rw [show M.whenM = fun (c : Prop) [Decidable c] (x : M K (Geo K) Unit) => if c then x else pure () from rfl]
    simp only [List.length_nil, Nat.cast_zero]
    rw [if_pos (by omega)]
    refine Rel.bind (R'' := Eq) ?_ fun _ => Rel.refl _
    refine Rel.bind (Rel.lift rfl noinfo) fun nv => ?_
    refine Rel.bind (R'' := SameV) (Rel.assign ?_) fun _ => Rel.assign ?_
    · rintro s t ⟨⟨h1, h2, h3⟩, _⟩; exact ⟨h1, h2, rfl⟩
    · rintro ⟨_, _, _, _⟩ ⟨_, _, _, _⟩ ⟨⟨rfl, rfl, rfl⟩, rfl, rfl⟩; rfl

theorem random_fresh {size : PySize} (h : ReqPos size ∨ size = .other) {d : List ℤ} (hd : NonNegLabels d) :
    Rel ω (fun s t => Same s t ∧ s.d = d) Eq NoInfo (random size : M K (Geo K) _) (random size) := by
  unfold random
  refine Rel.self_bind' ?_
  rintro s t ⟨⟨h1, h2, h3⟩, h4⟩
  rw [← h1, ← h2, ← h3, h4]
  refine Rel.ite Iff.rfl (fun _ => Rel.raise noinfo) fun hne => ?_
  cases hsz : resolveSize d size with
  | error e =>
    intro s t p _
    rw [M.bind_apply, M.bind_apply]
    exact ⟨rfl, rfl, trivial⟩
  | ok size' =>
    have hpos : ∀ n, size'.toInt? = some n → 1 ≤ n := by
      intro n hn
      unfold resolveSize at hsz
      split at hsz
      · rename_i hsize
        split at hsz
        · rename_i m hm
          cases hsz
          cases hn
          have := hd m (maxInt_eq_ok_iff.1 hm).1
          omega
        · cases hsz
      · cases hsz
        rcases h with h | h
        · rcases h with h | ⟨m, h, hm⟩
          · rename_i hsize; exact absurd h hsize
          · rw [hn] at h; cases h; exact hm
        · rw [h] at hn; cases hn
    refine Rel.lift_bind ?_
    refine Rel.bind (R'' := fun s t => Same s t ∧ s.v = [] ∧ t.v = []) (Rel.assign ?_) fun _ => ?_
    · rintro s t ⟨⟨h1, h2, h3⟩, _⟩; exact ⟨⟨h1, h2, h3⟩, rfl, rfl⟩
    refine Rel.bind (Rel.beta noinfo _ _) fun p => ?_
    refine Rel.bind (R'' := fun s t => SameV s t ∧ s.v = []) (Rel.assign ?_) fun _ => ?_
    · rintro s t ⟨⟨h1, h2, h3⟩, h4, h5⟩; exact ⟨⟨⟨h1, h2, h3⟩, rfl, h4.trans h5.symm⟩, h4⟩
    exact Rel.bind (complete_fresh size' hpos) fun _ => Rel.refl _
end Geo

namespace BBin
/-- … and on the sticks. -/
def SameV (s t : BBin K) : Prop := Same s t ∧ s.v = t.v
/-- … and on the binomials. -/
def SameB (s t : BBin K) : Prop := Same s t ∧ s.v = t.v ∧ s.binomials = t.binomials

theorem growOne_sameB : Rel ω SameB SameB NoInfo (growOne : M K (BBin K) _) growOne := by
  unfold growOne
  refine Rel.self_bind' ?_
  rintro s t ⟨⟨h1, h2, h3⟩, h4, h5⟩
  rw [← h1, ← h2, ← h4]
  refine Rel.bind (Rel.lift rfl noinfo) fun vl => Rel.bind (Rel.binom noinfo _ _) fun z => ?_
  refine Rel.bind (R'' := SameB) (Rel.assign ?_) fun _ => Rel.bind (Rel.beta noinfo _ _) fun nv => Rel.assign ?_
  · rintro s t ⟨h, h4, h5⟩; exact ⟨h, h4, by simp [h5]⟩
  · rintro s t ⟨h, h4, h5⟩; exact ⟨h, by simp [h4], h5⟩

theorem grow_sameB (k : ℕ) : Rel ω SameB SameB NoInfo (grow k : M K (BBin K) _) (grow k) := by
  induction k with
  | zero => exact Rel.pure _
  | succ k ih => exact Rel.bind growOne_sameB fun _ => ih

theorem complete_fresh (size : PySize) :
    Rel ω (fun s t : BBin K => SameV s t ∧ s.v = []) Eq NoInfo (complete size) (complete size) := by
  unfold complete
  refine Rel.bind (Rel.lift rfl noinfo) fun _ => ?_
  refine Rel.self_bind' ?_
  rintro s t ⟨⟨⟨h1, h2, h3⟩, h4⟩, h5⟩
  rw [← h1, ← h2, ← h4]
  refine Rel.bind (R'' := SameB) ?_ fun _ => ?_
  · unfold M.whenM
    rw [if_pos (by simp [h5])]
    refine Rel.bind (Rel.beta noinfo _ _) fun v0 => Rel.bind (Rel.binom noinfo _ _) fun z => ?_
    refine Rel.bind (R'' := SameB) (Rel.assign ?_) fun _ => Rel.bind (Rel.beta noinfo _ _) fun nv => Rel.assign ?_
    · rintro s t ⟨⟨h, h4⟩, h5⟩; exact ⟨h, h4, rfl⟩
    · rintro s t ⟨h, h4, h5⟩; exact ⟨h, rfl, h5⟩
  split
  · exact Rel.raise noinfo
  · refine Rel.self_bind' ?_
    rintro s t ⟨_, h4, _⟩
    rw [← h4]
    refine Rel.bind (grow_sameB _) fun _ => ?_
    refine Rel.bind (R'' := Eq) (Rel.assign ?_) fun _ => Rel.refl _
    rintro ⟨_, _, _, _, _, _⟩ ⟨_, _, _, _, _, _⟩ ⟨⟨rfl, rfl, rfl⟩, rfl, rfl⟩
    rfl

theorem random_fresh (size : PySize) : Rel ω Same Eq NoInfo (random size : M K (BBin K) _) (random size) := by
  unfold random
  refine Rel.self_bind' ?_
  rintro s t ⟨h1, h2, h3⟩
  rw [← h3]
  refine Rel.ite Iff.rfl (fun _ => Rel.raise noinfo) fun _ => ?_
  unfold randomSized
  refine Rel.bind (R'' := fun s t => SameV s t ∧ s.v = []) (Rel.assign fun s t h => ⟨⟨h, rfl⟩, rfl⟩) fun _ => ?_
  refine Rel.self_bind' ?_
  rintro s t ⟨⟨⟨h1, h2, h3⟩, h4⟩, h5⟩
  rw [← h3]
  refine Rel.ite Iff.rfl (fun _ => complete_fresh _) fun _ => ?_
  refine Rel.bind (R'' := SameB) ?_ fun _ => ?_
  · unfold randomBinomials
    refine Rel.self_bind' ?_
    rintro s t ⟨⟨⟨h1, h2, h3⟩, h4⟩, h5⟩
    rw [← h1, ← h2, ← h3]
    refine Rel.bind (Rel.lift rfl noinfo) fun a_c => Rel.bind (Rel.betaVec noinfo _) fun rv =>
      Rel.bind (Rel.binomVec noinfo _ _) fun zs => Rel.assign ?_
    rintro s t ⟨⟨h, h4⟩, h5⟩; exact ⟨h, h4, rfl⟩
  · refine Rel.bind (Rel.lift rfl noinfo) fun a_c => Rel.self_bind' ?_
    rintro s t ⟨⟨h1, h2, h3⟩, h4, h5⟩
    have hp : t.params = s.params := by unfold params; rw [h1, h2, h5]
    rw [hp]
    refine Rel.bind (Rel.betaVec noinfo _) fun v => Rel.bind (R'' := Eq) (Rel.assign ?_) fun _ => Rel.refl _
    rintro ⟨_, _, _, _, _, _⟩ ⟨_, _, _, _, _, _⟩ ⟨⟨h1, h2, h3⟩, h4, h5⟩
    cases h1; cases h2; cases h3; cases h5; rfl
end BBin

namespace DirDist
theorem random_fresh (size : PySize) : Rel ω Same Eq NoInfo (random size : M K (DirDist K) _) (random size) := by
  unfold random draw
  refine Rel.bind (R'' := Eq) ?_ fun _ => Rel.refl _
  have hass : ∀ w : List K, Rel ω Same (Eq : DirDist K → DirDist K → Prop) NoInfo (M.assign (fun s => { s with w := w }))
      (M.assign (fun s => { s with w := w })) := fun w => Rel.assign fun s t h => by
    cases s; cases t; obtain ⟨h1, h2, h3⟩ := h; cases h1; cases h2; cases h3; rfl
  refine Rel.self_bind' ?_
  rintro s t ⟨h1, h2, h3⟩
  rw [← h2, ← h3]
  refine Rel.ite Iff.rfl (fun _ => ?_) fun _ => ?_
  · refine Rel.bind (Rel.lift rfl noinfo) fun m => Rel.ite Iff.rfl (fun _ => Rel.raise noinfo) fun _ => ?_
    exact Rel.bind (Rel.lift rfl noinfo) fun a_c => Rel.bind (Rel.dirichlet noinfo _) fun w => hass w
  · exact Rel.bind (Rel.dirichlet noinfo _) fun w => hass w
end DirDist

namespace Equal
theorem random_fresh (size : PySize) : Rel ω Same Eq NoInfo (random size : M K (Equal K) _) (random size) := by
  unfold random
  refine Rel.self_bind' ?_
  rintro s t ⟨h1, h2⟩
  rw [← h1]
  refine Rel.bind (Rel.lift rfl noinfo) fun w => Rel.bind (R'' := Eq) (Rel.assign ?_) fun _ => Rel.refl _
  rintro ⟨_, _, _⟩ ⟨_, _, _⟩ ⟨h1, h2⟩
  cases h1; cases h2; rfl
end Equal

namespace Freq
theorem random_fresh (size : PySize) : Rel ω Same Eq NoInfo (random size : M K (Freq K) _) (random size) := by
  unfold random draw
  refine Rel.bind (R'' := Eq) ?_ fun _ => Rel.refl _
  have hass : ∀ w : List K, Rel ω Same (Eq : Freq K → Freq K → Prop) NoInfo (M.assign (fun s => { s with w := w }))
      (M.assign (fun s => { s with w := w })) := fun w => Rel.assign fun s t h => by
    cases s; cases t; obtain ⟨h1, h2⟩ := h; cases h1; cases h2; rfl
  refine Rel.self_bind' ?_
  rintro s t ⟨h1, h2⟩
  rw [← h1, ← h2]
  refine Rel.ite Iff.rfl (fun _ => ?_) fun _ => ?_
  · exact Rel.bind (Rel.lift rfl noinfo) fun w => hass w
  · exact Rel.bind (Rel.lift rfl noinfo) fun a_c => hass _
end Freq

namespace BBer
theorem bernLoop_same (a_c b_c : List ℕ) (R : BBer K → BBer K → Prop) (hR : ∀ s t, R s t → s.p = t.p ∧ s.alpha = t.alpha) (js : List ℕ)
    (bern : List ℤ) : Rel ω R R NoInfo (bernLoop a_c b_c bern js) (bernLoop a_c b_c bern js) := by
  induction js generalizing bern with
  | nil => exact Rel.pure _
  | cons j js ih =>
    unfold bernLoop
    refine Rel.self_bind' ?_
    intro s t h
    obtain ⟨h1, h2⟩ := hR s t h
    rw [← h1, ← h2]
    split
    · exact Rel.raise noinfo
    · exact Rel.bind (Rel.binom noinfo _ _) fun z => ih _

/-- … and on the Bernoulli variables. -/
def SameB (s t : BBer K) : Prop := Same s t ∧ s.bernoullis = t.bernoullis

theorem randomBernoullis_same (n : Option ℤ) :
    Rel ω (fun s t => Same s t ∧ s.bernoullis ≠ [] ∧ t.bernoullis ≠ []) SameB NoInfo (randomBernoullis n : M K (BBer K) _) (randomBernoullis n) := by
  unfold randomBernoullis
  refine Rel.self_bind' ?_
  rintro s t ⟨⟨h1, h2, h3⟩, h4, h5⟩
  rw [← h1, ← h3]
  split
  · exact Rel.raise noinfo
  · refine Rel.bind (Rel.binomRep noinfo _ _ _) fun bern => ?_
    rw [if_neg (show ¬ s.bernoullis.length = 0 by simpa using h4), if_neg (show ¬ t.bernoullis.length = 0 by simpa using h5)]
    refine Rel.bind (R'' := Same) (Rel.assign fun s t h => h.1) fun _ => ?_
    refine Rel.ite Iff.rfl (fun _ => ?_) fun _ => Rel.assign fun s t h => ⟨h, rfl⟩
    refine Rel.bind (Rel.lift rfl noinfo) fun m => Rel.bind (Rel.lift rfl noinfo) fun a_c => ?_
    refine Rel.ite Iff.rfl (fun _ => Rel.raise noinfo) fun _ => ?_
    exact Rel.bind (bernLoop_same _ _ _ (fun s t h => ⟨h.1, h.2.1⟩) _ _) fun b => Rel.assign fun s t h => ⟨h, rfl⟩

theorem random_fresh (size : PySize) :
    Rel ω (fun s t => Same s t ∧ s.bernoullis ≠ [] ∧ t.bernoullis ≠ []) Eq NoInfo (random size : M K (BBer K) _) (random size) := by
  unfold random
  refine Rel.self_bind' ?_
  rintro s t ⟨⟨h1, h2, h3⟩, _⟩
  rw [← h3]
  refine Rel.ite Iff.rfl (fun _ => Rel.raise noinfo) fun _ => ?_
  unfold randomSized
  refine Rel.bind (R'' := fun s t => Same s t ∧ s.bernoullis ≠ [] ∧ t.bernoullis ≠ []) (Rel.assign fun s t h => h) fun _ => ?_
  refine Rel.self_bind' ?_
  rintro s t ⟨⟨h1, h2, h3⟩, _⟩
  rw [← h3]
  have hass : ∀ v : List K, Rel ω SameB (Eq : BBer K → BBer K → Prop) NoInfo (M.assign (fun s => { s with v := v, w := stickWeights v }))
      (M.assign (fun s => { s with v := v, w := stickWeights v })) := fun v => Rel.assign fun s t h => by
    cases s; cases t; obtain ⟨⟨h1, h2, h3⟩, h4⟩ := h; cases h1; cases h2; cases h3; cases h4; rfl
  have hv : ∀ v : List K, Rel ω SameB SameB NoInfo (M.assign (fun s => { s with v := v }) : M K (BBer K) _)
      (M.assign (fun s => { s with v := v })) := fun v => Rel.assign fun s t h => h
  refine Rel.ite Iff.rfl (fun _ => ?_) fun _ => ?_
  · refine Rel.bind (randomBernoullis_same _) fun _ => Rel.self_bind' ?_
    rintro s t ⟨⟨h1, h2, h3⟩, h4⟩
    rw [← h2, ← h4]
    refine Rel.bind (Rel.lift rfl noinfo) fun ml => Rel.bind (Rel.betaRep noinfo _ _ _) fun v => Rel.bind (hv v) fun _ => ?_
    exact Rel.bind (Rel.lift rfl noinfo) fun v => Rel.bind (hass v) fun _ => Rel.refl _
  · refine Rel.bind (Rel.lift rfl noinfo) fun m => Rel.bind (randomBernoullis_same _) fun _ => Rel.self_bind' ?_
    rintro s t ⟨⟨h1, h2, h3⟩, h4⟩
    rw [← h2, ← h4, ← h3]
    refine Rel.bind (Rel.lift rfl noinfo) fun a_c => Rel.bind (Rel.lift rfl noinfo) fun ga => Rel.bind (Rel.lift rfl noinfo) fun gb => ?_
    refine Rel.bind (Rel.betaVec noinfo _) fun v => Rel.bind (hv v) fun _ => ?_
    exact Rel.bind (Rel.lift rfl noinfo) fun v => Rel.bind (hass v) fun _ => Rel.refl _
end BBer

namespace BIB
/-- Objects that agree on hyper-parameters and labels, and on `p` if it is never drawn. -/
def Same (s t : BIB K) : Prop :=
  s.x = t.x ∧ s.alpha = t.alpha ∧ s.a = t.a ∧ s.b = t.b ∧ s.pMethod = t.pMethod ∧ s.d = t.d ∧ (s.x = 0 → s.p = t.p)
/-- … and on `p`. -/
def SameP (s t : BIB K) : Prop :=
  s.x = t.x ∧ s.alpha = t.alpha ∧ s.a = t.a ∧ s.b = t.b ∧ s.pMethod = t.pMethod ∧ s.d = t.d ∧ s.p = t.p

/-- A fitted draw takes a new `p`. -/
def Redraws (s : BIB K) : Prop := s.x = 1 ∨ s.pMethod = .independent ∨ s.pMethod = .geometric

theorem randomP_fresh : Rel ω (fun s t => Same s t ∧ s.x ≠ 0 ∧ s.d.length ≠ 0 ∧ Redraws s) SameP NoInfo (randomP : M K (BIB K) _) randomP := by
  have hass : ∀ p : K, Rel ω (fun s t : BIB K => Same s t ∧ s.x ≠ 0 ∧ s.d.length ≠ 0 ∧ Redraws s) SameP NoInfo (M.assign (fun s => { s with p := p }))
      (M.assign (fun s => { s with p := p })) := fun p => Rel.assign fun s t ⟨⟨h1, h2, h3, h4, h5, h6, _⟩, _⟩ => ⟨h1, h2, h3, h4, h5, h6, rfl⟩
  have hG : Rel ω (fun s t => Same s t ∧ s.x ≠ 0 ∧ s.d.length ≠ 0 ∧ Redraws s) SameP NoInfo (drawGeometricP : M K (BIB K) _) drawGeometricP := by
    unfold drawGeometricP
    refine Rel.self_bind' ?_
    rintro s t ⟨⟨h1, h2, h3, h4, h5, h6, _⟩, _⟩
    rw [← h3, ← h4, ← h6]
    exact Rel.bind (Rel.beta noinfo _ _) fun p => hass p
  have hP : Rel ω (fun s t => Same s t ∧ s.x ≠ 0 ∧ s.d.length ≠ 0 ∧ Redraws s) SameP NoInfo (drawPriorP : M K (BIB K) _) drawPriorP := by
    unfold drawPriorP
    refine Rel.self_bind' ?_
    rintro s t ⟨⟨h1, h2, h3, h4, h5, h6, _⟩, _⟩
    rw [← h3, ← h4]
    exact Rel.bind (Rel.beta noinfo _ _) fun p => hass p
  unfold randomP
  refine Rel.self_bind' ?_
  rintro s t ⟨⟨h1, h2, h3, h4, h5, h6, _⟩, h7, h8, h9⟩
  simp only [← h1, ← h2, ← h3, ← h4, ← h5, ← h6]
  refine Rel.ite Iff.rfl (fun _ => hG) fun hx1 => ?_
  simp only [if_neg h7, if_neg h8]
  rcases h9 with h | h | h
  · exact absurd h hx1
  · simp only [h]; exact hP
  · simp only [h]; exact hG

theorem random_fresh (size : PySize) :
    Rel ω (fun s t => Same s t ∧ s.d.length ≠ 0 ∧ 0 ≤ s.x ∧ (s.x = 0 ∨ Redraws s)) Eq NoInfo (random size : M K (BIB K) _) (random size) := by
  unfold random
  refine Rel.self_bind ?_
  rintro s t ⟨hS, h7, h8, h9⟩
  obtain ⟨h1, h2, h3, h4, h5, h6, _⟩ := id hS
  rw [← h1, ← h6]
  refine Rel.ite Iff.rfl (fun _ => Rel.raise noinfo) fun _ => ?_
  refine Rel.bind (R'' := fun s' t' => (Same s' t' ∧ s'.d.length ≠ 0 ∧ (s'.x = 0 ∨ Redraws s')) ∧ s'.x = s.x) (Rel.assign ?_) fun _ => ?_
  · rintro _ _ ⟨rfl, rfl⟩; exact ⟨⟨hS, h7, h9⟩, rfl⟩
  rw [if_neg h7]
  refine Rel.bind (R'' := SameP) ?_ fun _ => ?_
  · unfold M.whenM
    split
    · rename_i h0
      refine randomP_fresh.pre ?_
      rintro s' t' ⟨⟨h1, h2, h3⟩, h4⟩
      have hx : s'.x ≠ 0 := by rw [h4]; exact ne_of_gt h0
      exact ⟨h1, hx, h2, h3.resolve_left hx⟩
    · rename_i h0
      have hx : s.x = 0 := le_antisymm (not_lt.1 h0) h8
      exact Rel.pure' fun s' t' ⟨⟨⟨a1, a2, a3, a4, a5, a6, a7⟩, _⟩, h⟩ => ⟨rfl, a1, a2, a3, a4, a5, a6, a7 (h.trans hx)⟩
  · have hfit : ∀ a b size n, Rel ω SameP Eq NoInfo (randomFitted a b size n : M K (BIB K) _) (randomFitted a b size n) := by
      intro a b size n
      unfold randomFitted
      refine Rel.self_bind' ?_
      rintro s t ⟨h1, h2, h3, h4, h5, h6, h7⟩
      refine Rel.bind (R'' := SameP) ?_ fun v => Rel.bind (R'' := Eq) (Rel.assign ?_) fun _ => Rel.refl _
      · unfold fittedSticks
        have hp : t.params = s.params := by unfold params priorA priorB; rw [h1, h2, h7]
        rw [hp, ← h1, ← h7]
        exact Rel.ite Iff.rfl (fun _ => Rel.betaVec noinfo _) fun _ => Rel.lift rfl noinfo
      · rintro s t ⟨h1, h2, h3, h4, h5, h6, h7⟩
        cases s; cases t; cases h1; cases h2; cases h3; cases h4; cases h5; cases h6; cases h7; rfl
    refine Rel.bind (Rel.lift rfl noinfo) fun a_c => ?_
    cases size with
    | none => exact hfit _ _ _ _
    | int n => exact hfit _ _ _ _
    | np n => exact hfit _ _ _ _
    | other => exact Rel.raise noinfo
end BIB

namespace BID
/-- Objects without labels that agree on everything a draw looks at. -/
def Same (s t : BID K) : Prop := s.alpha = t.alpha ∧ s.a = t.a ∧ s.d = t.d
/-- … and on what is drawn. -/
def SameV (s t : BID K) : Prop := s.alpha = t.alpha ∧ s.a = t.a ∧ s.d = t.d ∧ s.v = t.v ∧ s.vBase = t.vBase ∧ s.countBase = t.countBase
/-- … and on the weights. -/
def SameW (s t : BID K) : Prop := SameV s t ∧ s.w = t.w

theorem growOne_sameV : Rel ω SameV SameV NoInfo (growOne : M K (BID K) _) growOne := by
  unfold growOne
  refine Rel.self_bind' ?_
  rintro s t ⟨h1, h2, h3, h4, h5, h6⟩
  rw [← h2, ← h5, ← h6]
  refine Rel.ite Iff.rfl (fun _ => Rel.raise noinfo) fun _ => Rel.bind (Rel.choice noinfo _) fun jj => ?_
  refine Rel.bind (R'' := SameV) ?_ fun _ => Rel.assign fun s t h => h
  unfold useStick
  refine Rel.self_bind' ?_
  rintro s t ⟨h1, h2, h3, h4, h5, h6⟩
  rw [← h1, ← h5]
  refine Rel.ite Iff.rfl (fun _ => ?_) fun _ => ?_
  · refine Rel.bind (Rel.lift rfl noinfo) fun x => Rel.bind (R'' := SameV) (Rel.assign ?_) fun _ => Rel.assign ?_
    · rintro s t ⟨h1, h2, h3, h4, h5, h6⟩; exact ⟨h1, h2, h3, by simp [h4], h5, h6⟩
    · rintro s t ⟨h1, h2, h3, h4, h5, h6⟩; exact ⟨h1, h2, h3, h4, h5, by simp [h6]⟩
  · refine Rel.bind (Rel.beta noinfo _ _) fun x => Rel.bind (R'' := SameV) (Rel.assign ?_) fun _ => Rel.bind (R'' := SameV) (Rel.assign ?_) fun _ => Rel.assign ?_
    · rintro s t ⟨h1, h2, h3, h4, h5, h6⟩; exact ⟨h1, h2, h3, h4, by simp [h5], h6⟩
    · rintro s t ⟨h1, h2, h3, h4, h5, h6⟩; exact ⟨h1, h2, h3, h4, h5, by simp [h6]⟩
    · rintro s t ⟨h1, h2, h3, h4, h5, h6⟩; exact ⟨h1, h2, h3, by simp [h4], h5, h6⟩

theorem grow_sameV (k : ℕ) : Rel ω SameV SameV NoInfo (grow k : M K (BID K) _) (grow k) := by
  induction k with
  | zero => exact Rel.pure _
  | succ k ih => exact Rel.bind growOne_sameV fun _ => ih

theorem random_fresh (F : SpecFun K) (size : PySize) :
    Rel ω (fun s t => Same s t ∧ s.d = []) SameW NoInfo (random F size : M K (BID K) _) (random F size) := by
  unfold random
  refine Rel.self_bind' ?_
  rintro s t ⟨⟨h1, h2, h3⟩, h4⟩
  rw [← h3, h4]
  refine Rel.ite Iff.rfl (fun _ => Rel.raise noinfo) fun hne => ?_
  cases size with
  | np n => exact Rel.raise noinfo
  | other => exact Rel.raise noinfo
  | none => exact absurd ⟨rfl, rfl⟩ hne
  | int n =>
    refine Rel.bind (R'' := fun s t => Same s t ∧ s.v = t.v ∧ s.vBase = [] ∧ t.vBase = []) (Rel.assign ?_) fun _ => ?_
    · rintro s t ⟨h, _⟩; exact ⟨h, rfl, rfl, rfl⟩
    simp only [List.length_nil, if_true]
    refine Rel.bind (R'' := SameW) ?_ fun _ => ?_
    · unfold complete
      refine Rel.self_bind' ?_
      rintro s t ⟨⟨h1, h2, h3⟩, h4, h5, h6⟩
      rw [← h1, h5, h6]
      refine Rel.bind (R'' := SameV) ?_ fun _ => ?_
      · unfold M.whenM
        simp only [List.length_nil, if_true]
        refine Rel.bind (Rel.betaRep noinfo _ _ _) fun v => Rel.bind (R'' := fun s t => Same s t ∧ s.v = t.v ∧ s.vBase = t.vBase) (Rel.assign ?_) fun _ => Rel.assign ?_
        · rintro s t ⟨h, h4, _⟩; exact ⟨h, h4, rfl⟩
        · rintro s t ⟨⟨h1, h2, h3⟩, h4, h5⟩; exact ⟨h1, h2, h3, h4, h5, rfl⟩
      · simp only [PySize.toInt?]
        refine Rel.self_bind' ?_
        rintro s t ⟨_, _, _, h4, _⟩
        rw [← h4]
        refine Rel.bind (grow_sameV _) fun _ => Rel.assign ?_
        rintro s t h
        exact ⟨h, by simp [h.2.2.2.1]⟩
    · refine Rel.self_bind' ?_
      rintro s t ⟨_, h⟩
      rw [h]
      exact Rel.pure _
end BID
end Verif
