import Verif.Lemmas.Rel
import Verif.Lemmas.DP
import Verif.Lemmas.PYSpec

/-! # Lockstep simulation of two weight classes under the same calls and the same generator -/

set_option linter.unusedSectionVars false
set_option linter.unusedSimpArgs false

namespace Verif
open Spec
variable {K : Type} [Field K] [LinearOrder K] [IsStrictOrderedRing K]

/-- Calls with ordinary arguments: non-negative labels and, for `random`, no size or a Python int `≥ 1`. -/
def WOp.ordinary : WOp K → Prop
  | .fit d => NonNegLabels d
  | .random .none => True
  | .random (.int n) => 1 ≤ n
  | .random _ => False
  | _ => True

/-- `R` is kept by the two classes when they are called in the same way. -/
structure WeightCore.Sim (C C' : WeightCore K) (ω : Oracle K) (R : C.State → C'.State → Prop) : Prop where
  w : ∀ s t, R s t → C.getW s = C'.getW t
  d : ∀ s t, R s t → C.getD s = C'.getD t
  setD : ∀ d s t, NonNegLabels d → R s t → R (C.setD d s) (C'.setD d t)
  complete : ∀ n, Rel ω R R R (C.complete n) (C'.complete n)
  randomNone : Rel ω R R R (C.random .none) (C'.random .none)
  random : ∀ n : ℤ, 1 ≤ n → Rel ω R R R (C.random (.int n)) (C'.random (.int n))

namespace WeightCore.Sim
variable {C C' : WeightCore K} {ω : Oracle K} {R : C.State → C'.State → Prop}

theorem tailLoop (h : C.Sim C' ω R) (x : K) (fuel : ℕ) :
    Rel ω R R R (BaseWeight.tailLoop C x fuel) (BaseWeight.tailLoop C' x fuel) := by
  induction fuel with
  | zero =>
    unfold BaseWeight.tailLoop
    refine Rel.self_bind' fun s t hR => ?_
    rw [h.w s t hR]
    exact Rel.ite Iff.rfl (fun _ => Rel.raise fun _ _ => id) fun _ => Rel.pure _
  | succ f ih =>
    unfold BaseWeight.tailLoop
    refine Rel.self_bind' fun s t hR => ?_
    rw [h.w s t hR]
    exact Rel.ite Iff.rfl (fun _ => Rel.bind (h.complete _) fun _ => ih) fun _ => Rel.pure _

theorem tail (h : C.Sim C' ω R) (x : K) (fuel : ℕ) :
    Rel ω R R R (BaseWeight.tail C fuel x) (BaseWeight.tail C' fuel x) := by
  unfold BaseWeight.tail
  refine Rel.ite Iff.rfl (fun _ => Rel.raise fun _ _ => id) fun _ => Rel.self_bind' fun s t hR => ?_
  rw [h.w s t hR]
  exact Rel.ite Iff.rfl (fun _ => Rel.bind (h.random 1 le_rfl) fun _ => h.tailLoop _ _) fun _ => h.tailLoop _ _

theorem assignLL (h : C.Sim C' ω R) (log : K → K) (d : Option (List ℤ)) :
    Rel ω R R R (BaseWeight.assignationLogLikelihood C log d) (BaseWeight.assignationLogLikelihood C' log d) := by
  unfold BaseWeight.assignationLogLikelihood
  refine Rel.self_bind' fun s t hR => ?_
  rw [h.d s t hR]
  refine Rel.bind (Rel.lift rfl fun _ _ => id) fun m => Rel.bind (h.complete _) fun _ => Rel.self_bind' fun s t hR => ?_
  rw [h.w s t hR]
  exact Rel.bind (Rel.lift rfl fun _ _ => id) fun _ => Rel.pure _

theorem randomAssignment (h : C.Sim C' ω R) (n : Option ℤ) :
    Rel ω R R R (BaseWeight.randomAssignment C n) (BaseWeight.randomAssignment C' n) := by
  unfold BaseWeight.randomAssignment
  cases n with
  | none => exact Rel.bind (Rel.unifVec (fun _ _ => id) _) fun _ => Rel.raise fun _ _ => id
  | some n =>
    refine Rel.bind (Rel.unifVec (fun _ _ => id) _) fun _ => Rel.self_bind' fun s t hR => ?_
    rw [h.w s t hR]
    exact Rel.pure _

/-- Related objects at equal stream positions stay so. -/
def Pair (R : C.State → C'.State → Prop) (s : C.State × ℕ) (t : C'.State × ℕ) : Prop := R s.1 t.1 ∧ s.2 = t.2

theorem Pair.of_rel {α : Type} {m : M K C.State α} {m' : M K C'.State α} (h : Rel ω R R R m m') {s : C.State × ℕ}
    {t : C'.State × ℕ} (hp : Pair R s t) : Pair R (m ω s).2 (m' ω t).2 ∧ (m ω s).1 = (m' ω t).1 := by
  obtain ⟨s, p⟩ := s
  obtain ⟨t, q⟩ := t
  obtain ⟨h1, h2⟩ := hp
  dsimp only at h1 h2
  subst h2
  have := h.result p h1
  refine ⟨⟨?_, this.2.1⟩, this.1⟩
  cases hm : (m ω (s, p)).1 with
  | ok r => exact this.2.2.1 r hm
  | error e => exact this.2.2.2 e hm

theorem step (h : C.Sim C' ω R) (log : K → K) (op : WOp K) (ho : op.ordinary) {s : C.State × ℕ} {t : C'.State × ℕ}
    (hp : Pair R s t) : Pair R (C.inheritTail.step log ω s op) (C'.inheritTail.step log ω t op) := by
  cases op with
  | fit d => exact ⟨h.setD _ _ _ ho hp.1, hp.2⟩
  | reset => exact ⟨h.setD _ _ _ nofun hp.1, hp.2⟩
  | random n =>
    cases n with
    | none => exact (Pair.of_rel h.randomNone hp).1
    | int n => exact (Pair.of_rel (h.random n ho) hp).1
    | np n => exact ho.elim
    | other => exact ho.elim
  | complete n => exact (Pair.of_rel (h.complete n) hp).1
  | tail f x => exact (Pair.of_rel (h.tail x f) hp).1
  | assignationLogLikelihood d => exact (Pair.of_rel (h.assignLL log d) hp).1
  | randomAssignment n => exact (Pair.of_rel (h.randomAssignment n) hp).1

theorem run (h : C.Sim C' ω R) (log : K → K) (ops : List (WOp K)) (ho : ∀ op ∈ ops, op.ordinary) {s : C.State × ℕ}
    {t : C'.State × ℕ} (hp : Pair R s t) : Pair R (C.inheritTail.run log ω s ops) (C'.inheritTail.run log ω t ops) := by
  induction ops generalizing s t with
  | nil => exact hp
  | cons op ops ih =>
    exact ih (fun o ho' => ho o (by simp [ho'])) (h.step log op (ho op (by simp)) hp)
end WeightCore.Sim

/-! ### Pitman-Yor with discount 0, and the Dirichlet process -/

/-- The two objects agree. -/
def PY.DPRel (s : DP K) (t : PY K) : Prop :=
  t = ⟨0, s.alpha, s.v, s.w, s.d⟩ ∧ 0 < s.alpha ∧ s.w = stickWeights s.v ∧ NonNegLabels s.d

theorem Rel.of_eq {σ τ α : Type} {ω : Oracle K} {R R' E : σ → τ → Prop} {m : M K σ α} {m' : M K τ α}
    (h : ∀ s t p, R s t → ((∃ a s' t' p', m ω (s, p) = (.ok a, (s', p')) ∧ m' ω (t, p) = (.ok a, (t', p')) ∧ R' s' t') ∨
      (∃ e s' t' p', m ω (s, p) = (.error e, (s', p')) ∧ m' ω (t, p) = (.error e, (t', p')) ∧ E s' t'))) :
    Rel ω R R' E m m' := by
  intro s t p hR
  rcases h s t p hR with ⟨a, s', t', p', h1, h2, h3⟩ | ⟨a, s', t', p', h1, h2, h3⟩ <;> rw [h1, h2] <;> exact ⟨rfl, rfl, h3⟩

variable {ω : Oracle K}

theorem PY.complete_none (s : PY K × ℕ) : complete .none ω s = (.error .typeError, s) := by
  simp [complete, BaseWeight.checkSize, PySize.toInt?]
theorem PY.complete_other (s : PY K × ℕ) : complete .other ω s = (.error .typeError, s) := by
  simp [complete, BaseWeight.checkSize, PySize.toInt?]

theorem PY.complete_dpRel (n : PySize) : Rel ω PY.DPRel PY.DPRel PY.DPRel (DP.complete n) (PY.complete n) := by
  apply Rel.of_eq
  rintro s t p hR
  have hR' := hR
  obtain ⟨rfl, ha, hw, hd⟩ := hR
  cases hn : n.toInt? with
  | none =>
    right
    cases n <;> simp [PySize.toInt?] at hn
    · exact ⟨_, _, _, _, DP.complete_none _ _, PY.complete_none _, hR'⟩
    · exact ⟨_, _, _, _, DP.complete_other _ _, PY.complete_other _, hR'⟩
  | some k =>
    left
    rw [DP.complete_num hn]
    dsimp only
    rcases le_or_gt k (s.v.length : ℤ) with hk | hk
    · rw [if_neg (by omega)]
      refine ⟨_, _, _, _, rfl, ?_, hR'⟩
      unfold PY.complete
      have hl : s.w.length = s.v.length := by rw [hw, stickWeights_length]
      have : ¬ ((s.w.length : ℤ) < k) := by omega
      simp [checkSize_ok hn, hn, this]
    · rw [if_pos hk, if_neg (not_le.2 ha)]
      obtain ⟨N, rfl⟩ : ∃ N : ℕ, k = N := ⟨k.toNat, by omega⟩
      obtain ⟨r, t, h, e1, e2, e3, e4⟩ := wp_total (PY.complete_spec (ω := ω) ⟨0, s.alpha, s.v, s.w, s.d⟩ p hn le_rfl zero_lt_one ha hw)
      have ep : (List.range (N - s.v.length)).map (fun j => ((1 : K) - 0, s.alpha + ((s.v.length + j : ℕ) : K) * 0)) =
          List.replicate ((N : ℤ) - (s.v.length : ℤ)).toNat (1, s.alpha) := by
        have : ((N : ℤ) - (s.v.length : ℤ)).toNat = N - s.v.length := by omega
        simp [this]
      dsimp only at e3 e4
      rw [ep] at e3
      refine ⟨_, _, t.1, _, rfl, ?_, ⟨?_, ha, rfl, hd⟩⟩
      · rw [h, e2, e3]
        have : t.2 = p + ((N : ℤ) - (s.v.length : ℤ)).toNat := by rw [e4]; omega
        rw [← this]
      · rw [e1, e3]

theorem PY.post_zero (s : DP K) : PY.post ⟨0, s.alpha, s.v, s.w, s.d⟩ = DP.post s.alpha s.d := by
  funext j; simp [PY.post, DP.post]

theorem PY.random_dpRel {size : PySize} (hs : size = .none ∨ ∃ n : ℤ, size = .int n ∧ 1 ≤ n) :
    Rel ω PY.DPRel PY.DPRel PY.DPRel (DP.random size) (PY.random size) := by
  apply Rel.of_eq
  rintro s t p hR
  have hR' := hR
  obtain ⟨rfl, ha, hw, hd⟩ := hR
  by_cases hc : size = .none ∧ s.d = []
  · right
    obtain ⟨rfl, h0⟩ := hc
    exact ⟨_, _, _, _, DP.random_unfitted_none _ _ h0, by simp [PY.random, h0], hR'⟩
  · left
    obtain ⟨N, hN, hN'⟩ : ∃ N, EffSize s.d size N ∧ PY.Req s.d size N := by
      rcases hs with rfl | ⟨n, rfl, hn⟩
      · rcases maxInt_cases s.d with ⟨h, _⟩ | ⟨m, _, hm⟩
        · exact absurd ⟨rfl, h⟩ hc
        · have := hd _ hm.1
          have e : ((m + 1).toNat : ℤ) - 1 = m := by omega
          exact ⟨(m + 1).toNat, .inr ⟨rfl, by rw [e]; exact hm⟩, .inr ⟨rfl, by rw [e]; exact hm⟩⟩
      · obtain ⟨N, rfl⟩ : ∃ N : ℕ, n = N := ⟨n.toNat, by omega⟩
        exact ⟨N, .inl ⟨rfl, by omega⟩, .inl ⟨rfl, by omega⟩⟩
    rw [DP.random_spec ω s p size N ha hd hN]
    obtain ⟨r, t, h, e1, e2, e3, e4⟩ := wp_total (PY.random_spec (ω := ω) ⟨0, s.alpha, s.v, s.w, s.d⟩ p (size := size) le_rfl zero_lt_one ha hd hN')
    rw [PY.post_zero] at e3
    refine ⟨_, _, t.1, _, rfl, ?_, ⟨?_, ha, rfl, hd⟩⟩
    · rw [h, e2, e3, ← e4]
    · rw [e1, e3]

theorem Rel.some_bind {σ τ α β : Type} {R R' E : σ → τ → Prop} {m : M K σ α} {m' : M K τ α} (h : Rel ω R R' E m m') (f : α → β) :
    Rel ω R R' E (m >>= fun w => Pure.pure (f w)) (m' >>= fun w => Pure.pure (f w)) := Rel.bind h fun _ => Rel.pure _

theorem PY.dpSim : (DP.core : WeightCore K).Sim PY.core ω PY.DPRel where
  w := by rintro s t ⟨rfl, -⟩; rfl
  d := by rintro s t ⟨rfl, -⟩; rfl
  setD := by rintro d s t hd ⟨rfl, h1, h2, -⟩; exact ⟨rfl, h1, h2, hd⟩
  complete := fun n => Rel.some_bind (PY.complete_dpRel n) _
  randomNone := PY.random_dpRel (.inl rfl)
  random := fun n hn => PY.random_dpRel (.inr ⟨n, rfl, hn⟩)

/-! ### `BetaInBeta` with `x = 0`, and the Dirichlet process -/

/-- The two objects agree. -/
def BIB.DPRel (a b p : K) (m : PMethod) (s : DP K) (t : BIB K) : Prop :=
  t = ⟨0, s.alpha, a, b, p, m, s.v, s.w, s.d⟩ ∧ NonNegLabels s.d

theorem BIB.randomP_zero (s : BIB K × ℕ) (hx : s.1.x = 0) : BIB.randomP ω s = (.ok (), s) := by
  simp [BIB.randomP, hx]

theorem BIB.complete_num_zero {size : PySize} {n : ℤ} (h : size.toInt? = some n) (s : BIB K × ℕ) (hx : s.1.x = 0) :
    complete size ω s =
      if (s.1.v.length : ℤ) < n then
        if s.1.alpha ≤ 0 then (.error .valueError, s)
        else
          (.ok (stickWeights (s.1.v ++
              M.betaValues ω s.2 (List.replicate (n - s.1.v.length).toNat (1, s.1.alpha)))),
            ({ s.1 with
                v := s.1.v ++ M.betaValues ω s.2 (List.replicate (n - s.1.v.length).toNat (1, s.1.alpha)),
                w := stickWeights (s.1.v ++
                  M.betaValues ω s.2 (List.replicate (n - s.1.v.length).toNat (1, s.1.alpha))) },
              s.2 + (n - s.1.v.length).toNat))
      else (.ok s.1.w, s) := by
  have hp : (M.whenM (s.1.v.length ≠ 0) BIB.randomP) ω s = (.ok (), s) := by
    rw [M.whenM_apply]; split
    · exact BIB.randomP_zero s hx
    · rfl
  simp only [complete, checkSize_ok h, h, M.bind_apply, M.lift_ok, M.self_apply, hp, M.ite_apply', M.assign_apply, M.pure_apply,
    newSticks, hx, zero_lt_one, if_true, M.whenM_apply]
  by_cases hlt : (s.1.v.length : ℤ) < n
  · have h1 : ¬ (1 : K) ≤ 0 := not_le.2 zero_lt_one
    have h2 : ¬ (n - (s.1.v.length : ℤ) < 0) := by omega
    by_cases ha : s.1.alpha ≤ 0 <;> simp [M.betaRep, h1, h2, ha, hlt, priorA, priorB, hx]
  · simp [hlt]

theorem BIB.complete_dpRel (a b p : K) (m : PMethod) (n : PySize) :
    Rel ω (BIB.DPRel a b p m) (BIB.DPRel a b p m) (BIB.DPRel a b p m) (DP.complete n) (BIB.complete n) := by
  apply Rel.of_eq
  rintro s t q hR
  have hR' := hR
  obtain ⟨rfl, hd⟩ := hR
  cases hn : n.toInt? with
  | none =>
    right
    have hp : (M.whenM (s.v.length ≠ 0) BIB.randomP) ω (⟨0, s.alpha, a, b, p, m, s.v, s.w, s.d⟩, q) =
        (.ok (), (⟨0, s.alpha, a, b, p, m, s.v, s.w, s.d⟩, q)) := by
      rw [M.whenM_apply]; split
      · exact BIB.randomP_zero _ rfl
      · rfl
    cases n <;> simp [PySize.toInt?] at hn
    · refine ⟨_, _, _, _, DP.complete_none _ _, ?_, hR'⟩
      simp only [BIB.complete, BaseWeight.checkSize, M.bind_apply, M.lift_ok, M.self_apply, hp, PySize.toInt?, M.raise_apply]
    · refine ⟨_, _, _, _, DP.complete_other _ _, ?_, hR'⟩
      simp [BIB.complete, BaseWeight.checkSize]
  | some k =>
    rw [DP.complete_num hn, BIB.complete_num_zero hn _ rfl]
    dsimp only
    by_cases h1 : (s.v.length : ℤ) < k
    · by_cases h2 : s.alpha ≤ 0
      · right; simp only [if_pos h1, if_pos h2]; exact ⟨_, _, _, _, rfl, rfl, hR'⟩
      · left; simp only [if_pos h1, if_neg h2]; exact ⟨_, _, _, _, rfl, rfl, rfl, hd⟩
    · left; simp only [if_neg h1]; exact ⟨_, _, _, _, rfl, rfl, hR'⟩

theorem BIB.params_zero (al a b p : K) (m : PMethod) (v w : List K) (d : List ℤ) (ac bc : List ℕ) :
    BIB.params ⟨0, al, a, b, p, m, v, w, d⟩ ac bc = DP.params al ac bc := by
  simp [params, DP.params, priorA, priorB]

theorem BIB.random_fitted_zero (s : BIB K × ℕ) (hx : s.1.x = 0) (size : PySize) (hd : s.1.d ≠ [])
    (hsz : size = .none ∨ ∃ n, size = .int n) {a_c : List ℕ} (hb : Py.bincount s.1.d = .ok a_c) :
    random size ω s =
      if (DP.reqParams s.1.alpha a_c size).any (fun p => decide (p.1 ≤ 0 ∨ p.2 ≤ 0)) then
        (.error .valueError, ({ s.1 with v := [] }, s.2))
      else
        let v := M.betaValues ω s.2 (DP.reqParams s.1.alpha a_c size)
        let s1 : BIB K × ℕ := ({ s.1 with v := v, w := stickWeights v }, s.2 + v.length)
        if size = .none then (.ok (stickWeights v), s1) else complete size ω s1 := by
  obtain ⟨⟨x, al, a, b, p, m, v, w, d⟩, q⟩ := s
  dsimp only at hx hd hb ⊢
  subst hx
  have hl : ¬ d.length = 0 := by simpa using hd
  have ha : a_c ≠ [] := (IsBincount.of_ok hb).ne_nil hd
  have hlen : a_c.length = (revTails a_c).length := (revTails_length ha).symm
  rcases hsz with rfl | ⟨n, rfl⟩
  · simp only [random, randomFitted, fittedSticks, M.whenM_apply, hb, M.bind_apply, M.self_apply, M.ite_apply', M.assign_apply, hl,
      and_false, if_false, if_true, M.pure_apply, M.lift_ok, DP.reqParams, PySize.toInt?, BIB.params_zero, lt_irrefl, zero_lt_one, M.betaVec]
    by_cases hp : (DP.params al a_c (revTails a_c)).any (fun p => decide (p.1 ≤ 0 ∨ p.2 ≤ 0)) = true
    · simp only [hp, if_true]
    · simp only [hp, Bool.false_eq_true, if_false]
      rw [complete_num_zero (n := a_c.length) rfl _ rfl]
      have : ¬ (((M.betaValues ω q (DP.params al a_c (revTails a_c))).length : ℤ) < (a_c.length : ℤ)) := by
        simp [DP.params, hlen]
      rw [if_neg this]
      simp
  · simp only [random, randomFitted, fittedSticks, M.whenM_apply, hb, M.bind_apply, M.self_apply, M.ite_apply', M.assign_apply, hl,
      and_false, if_false, if_true, M.pure_apply, M.lift_ok, DP.reqParams, PySize.toInt?, BIB.params_zero, lt_irrefl, zero_lt_one, M.betaVec]
    have hsl : DP.params al (Py.sliceTo a_c n) (Py.sliceTo (revTails a_c) n)
        = Py.sliceTo (DP.params al a_c (revTails a_c)) n := sliceTo_zipWith _ _ _ hlen n
    by_cases hn : n < (a_c.length : ℤ)
    · simp only [hn, if_true, hsl]
      by_cases hp : (Py.sliceTo (DP.params al a_c (revTails a_c)) n).any (fun p => decide (p.1 ≤ 0 ∨ p.2 ≤ 0)) = true
      · simp only [hp, if_true]
      · simp only [hp, Bool.false_eq_true, if_false, M.betaValues_length, reduceCtorEq]
    · simp only [hn, if_false]
      by_cases hp : (DP.params al a_c (revTails a_c)).any (fun p => decide (p.1 ≤ 0 ∨ p.2 ≤ 0)) = true
      · simp only [hp, if_true]
      · simp only [hp, Bool.false_eq_true, if_false, M.betaValues_length, reduceCtorEq]

theorem BIB.random_dpRel (a b p : K) (m : PMethod) {size : PySize} (hs : size = .none ∨ ∃ n : ℤ, size = .int n) :
    Rel ω (BIB.DPRel a b p m) (BIB.DPRel a b p m) (BIB.DPRel a b p m) (DP.random size) (BIB.random size) := by
  apply Rel.of_eq
  rintro s t q hR
  have hR' := hR
  obtain ⟨rfl, hd⟩ := hR
  have hcomp : ∀ (s' : DP K) (q' : ℕ) (n : ℤ), NonNegLabels s'.d → _ := fun s' q' n h' =>
    (BIB.complete_dpRel (ω := ω) a b p m (.int n)) s' ⟨0, s'.alpha, a, b, p, m, s'.v, s'.w, s'.d⟩ q' ⟨rfl, h'⟩
  have fin : ∀ (s' : DP K) (q' : ℕ) (n : ℤ), NonNegLabels s'.d →
      ((∃ r s2 t2 p', DP.complete (.int n) ω (s', q') = (.ok r, (s2, p')) ∧
          BIB.complete (.int n) ω (⟨0, s'.alpha, a, b, p, m, s'.v, s'.w, s'.d⟩, q') = (.ok r, (t2, p')) ∧ BIB.DPRel a b p m s2 t2) ∨
        (∃ e s2 t2 p', DP.complete (.int n) ω (s', q') = (.error e, (s2, p')) ∧
          BIB.complete (.int n) ω (⟨0, s'.alpha, a, b, p, m, s'.v, s'.w, s'.d⟩, q') = (.error e, (t2, p')) ∧ BIB.DPRel a b p m s2 t2)) := by
    intro s' q' n h'
    have := hcomp s' q' n h'
    revert this
    rcases DP.complete (.int n) ω (s', q') with ⟨e | r, s2, p2⟩ <;>
      rcases BIB.complete (.int n) ω (⟨0, s'.alpha, a, b, p, m, s'.v, s'.w, s'.d⟩, q') with ⟨e' | r', t2, p2'⟩
    · rintro ⟨rfl, rfl, h⟩; exact .inr ⟨_, _, _, _, rfl, rfl, h⟩
    · exact False.elim
    · exact False.elim
    · rintro ⟨rfl, rfl, h⟩; exact .inl ⟨_, _, _, _, rfl, rfl, h⟩
  by_cases h0 : s.d = []
  · rcases hs with rfl | ⟨n, rfl⟩
    · right
      exact ⟨_, _, _, _, DP.random_unfitted_none _ _ h0, by simp [BIB.random, h0], hR'⟩
    · have e : BIB.random (.int n) ω (⟨0, s.alpha, a, b, p, m, s.v, s.w, s.d⟩, q) =
          BIB.complete (.int n) ω (⟨0, s.alpha, a, b, p, m, [], s.w, s.d⟩, q) := by
        simp [BIB.random, h0]
      rw [DP.random_unfitted _ _ _ h0, e]
      exact fin { s with v := [] } q n hd
  · obtain ⟨a_c, hb, _⟩ := bincount_ok hd
    rw [DP.random_fitted ω (s, q) size h0 hs hb, BIB.random_fitted_zero (ω := ω) (⟨0, s.alpha, a, b, p, m, s.v, s.w, s.d⟩, q) rfl size h0 hs hb]
    dsimp only
    by_cases hp : (DP.reqParams s.alpha a_c size).any (fun p => decide (p.1 ≤ 0 ∨ p.2 ≤ 0)) = true
    · right; simp only [hp, if_true]; exact ⟨_, _, _, _, rfl, rfl, rfl, hd⟩
    · simp only [hp, Bool.false_eq_true, if_false]
      by_cases hz : size = .none
      · left; simp only [if_pos hz]; exact ⟨_, _, _, _, rfl, rfl, rfl, hd⟩
      · simp only [if_neg hz]
        rcases hs with rfl | ⟨n, rfl⟩
        · exact absurd rfl hz
        · exact fin ⟨s.alpha, M.betaValues ω q (DP.reqParams s.alpha a_c (.int n)),
            stickWeights (M.betaValues ω q (DP.reqParams s.alpha a_c (.int n))), s.d⟩ _ n hd

theorem BIB.dpSim (a b p : K) (m : PMethod) : (DP.core : WeightCore K).Sim BIB.core ω (BIB.DPRel a b p m) where
  w := by rintro s t ⟨rfl, -⟩; rfl
  d := by rintro s t ⟨rfl, -⟩; rfl
  setD := by rintro d s t hd ⟨rfl, -⟩; exact ⟨rfl, hd⟩
  complete := fun n => Rel.some_bind (BIB.complete_dpRel a b p m n) _
  randomNone := BIB.random_dpRel a b p m (.inl rfl)
  random := fun n _ => BIB.random_dpRel a b p m (.inr ⟨n, rfl⟩)

end Verif
