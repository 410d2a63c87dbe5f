import Verif.Lemmas.Append
import Verif.Props.C02

/-!
# C03: `complete` only appends weights

`KeepsDraw C complete r t` (below) is the property of a state `t` that shows the weights `r`: whatever calls other than
`random` follow (any number, with any arguments, also failing ones), `r` stays an initial part of `get_weights()`; and
`complete(n)` with `n` at most the current size leaves `get_weights()` equal to `r`.

It is proved for the state after *every* successful `random` (of at least one weight) and after every successful
`complete(n)`, `n ≥ 1`, at any point of any history.  The full statement (every reachable state) is false:
* `DirichletProcess` (and the classes sharing the code): `random(0)` on an unfitted object discards the sticks but not the
  weights, so a later `complete` replaces them (`C03_dirichletProcess_refuted`);
* `FrequencyWeighting` recomputes the weights from the labels in `complete` (`C03_frequencyWeighting_refuted`).
-/

set_option linter.unusedSectionVars false

namespace Verif
open Spec
variable {K : Type} [Field K] [LinearOrder K] [IsStrictOrderedRing K]

/-- From state `t`, which shows the weights `r`, calls other than `random` only append, and completing to a size already
reached shows the same weights. -/
def KeepsDraw (C : WeightClass K) (log : K → K) (ω : Oracle K) (r : List K) (t : C.State × ℕ) : Prop :=
  (∀ ops : List (WOp K), (∀ op ∈ ops, op.notRandom) → r <+: C.getW (C.run log ω t ops).1) ∧
  (∀ n : ℤ, n ≤ r.length → C.getW (C.complete (.int n) ω t).2.1 = r)

theorem StickDraw.eq {v w : List K} (h : StickDraw v w) : w = stickWeights v := by
  apply List.ext_getElem?
  intro j
  rw [stickWeights_getElem?]
  cases hx : v[j]? with
  | some x => rw [h.isStick.2 j x hx]; rfl
  | none => simpa [h.isStick.1] using hx

theorem wp_state {σ α : Type} {ω : Oracle K} {m : M K σ α} {P : σ × ℕ → Prop} {s : σ × ℕ}
    (h : wp ω m (fun _ t => P t) (fun _ t => P t) s) : P (m ω s).2 := by
  unfold wp at h
  revert h
  rcases m ω s with ⟨e | a, t⟩ <;> exact id

/-- `complete` followed by `return`/no return has the effect of `complete`. -/
theorem bind_pure_state {σ α β : Type} {ω : Oracle K} (m : M K σ α) (f : α → β) (s : σ × ℕ) :
    ((do let a ← m; pure (f a) : M K σ β) ω s).2 = (m ω s).2 := by
  rw [M.bind_apply]
  rcases m ω s with ⟨e | a, t⟩ <;> rfl

section
variable (log : K → K) {ω : Oracle K}

theorem DP.keepsDraw {t : DP K × ℕ} {r : List K} (hr : r = t.1.w) (hs : StickDraw t.1.v r) (hne : r ≠ []) :
    KeepsDraw DP.cls log ω r t := by
  subst hr
  have hw := StickDraw.eq hs
  refine ⟨fun ops hops => DP.run_ainv log ops hops t (AInv.start hw hne), fun n hn => ?_⟩
  show DP.w ((DP.core).complete (.int n) ω t).2.1 = _
  have h : (DP.complete (.int n) ω t).2.1.w = t.1.w := by
    refine wp_state (P := fun s => s.1.w = t.1.w) (wp_mono (DP.complete_post (.int n) t) ?_ ?_)
    · rintro _ t' ⟨_, _, _, hc⟩; exact hc.noop hw hne rfl hn
    · exact by rintro _ t rfl; rfl
  rw [← h]
  exact congrArg (fun s => DP.w s.1) (bind_pure_state (DP.complete (.int n)) some t)

theorem PY.keepsDraw {t : PY K × ℕ} {r : List K} (hr : r = t.1.w) (hs : StickDraw t.1.v r) (hne : r ≠ []) :
    KeepsDraw PY.cls log ω r t := by
  subst hr
  have hw := StickDraw.eq hs
  refine ⟨fun ops hops => PY.run_ainv log ops hops t (AInv.start hw hne) hw, fun n hn => ?_⟩
  show PY.w ((PY.core).complete (.int n) ω t).2.1 = _
  have h : (PY.complete (.int n) ω t).2.1.w = t.1.w := by
    refine wp_state (P := fun s => s.1.w = t.1.w) (wp_mono (PY.complete_post (.int n) t (by rw [hw, stickWeights_length])) ?_ ?_)
    · rintro _ t' ⟨_, _, _, _, hc⟩; exact hc.noop hw hne rfl hn
    · exact by rintro _ t rfl; rfl
  rw [← h]
  exact congrArg (fun s => PY.w s.1) (bind_pure_state (PY.complete (.int n)) some t)

theorem BIB.keepsDraw {t : BIB K × ℕ} {r : List K} (hr : r = t.1.w) (hs : StickDraw t.1.v r) (hne : r ≠ []) :
    KeepsDraw BIB.cls log ω r t := by
  subst hr
  have hw := StickDraw.eq hs
  refine ⟨fun ops hops => BIB.run_ainv log ops hops t (AInv.start hw hne), fun n hn => ?_⟩
  show BIB.w ((BIB.core).complete (.int n) ω t).2.1 = _
  have h : (BIB.complete (.int n) ω t).2.1.w = t.1.w := by
    refine wp_state (P := fun s => s.1.w = t.1.w) (wp_mono (BIB.complete_post (.int n) t) ?_ ?_)
    · rintro _ t' ⟨_, _, _, _, hc⟩; exact hc.noop hw hne rfl hn
    · exact by rintro _ t h; rw [h]
  rw [← h]
  exact congrArg (fun s => BIB.w s.1) (bind_pure_state (BIB.complete (.int n)) some t)

theorem BBin.keepsDraw {t : BBin K × ℕ} {r : List K} (hr : r = t.1.w) (hs : StickDraw t.1.v r) (hne : r ≠ []) :
    KeepsDraw BBin.cls log ω r t := by
  subst hr
  have hw := StickDraw.eq hs
  refine ⟨fun ops hops => BBin.run_ainv log ops hops t (AInv.start hw hne), fun n hn => ?_⟩
  show BBin.w ((BBin.core).complete (.int n) ω t).2.1 = _
  have h : (BBin.complete (.int n) ω t).2.1.w = t.1.w := by
    refine wp_state (P := fun s => s.1.w = t.1.w) (wp_mono (BBin.complete_post (.int n) t) ?_ ?_)
    · rintro _ t' ⟨_, _, _, _, _, _, hc⟩; exact hc.noop hw hne rfl hn
    · exact fun _ t h => h.1
  rw [← h]
  exact congrArg (fun s => BBin.w s.1) (bind_pure_state (BBin.complete (.int n)) some t)

theorem BBer.keepsDraw {t : BBer K × ℕ} {r : List K} (hr : r = t.1.w) (hs : StickDraw t.1.v r) (hne : r ≠ []) :
    KeepsDraw BBer.cls log ω r t := by
  subst hr
  have hw := StickDraw.eq hs
  refine ⟨fun ops hops => BBer.run_ainv log ops hops t (AInv.start hw hne), fun n hn => ?_⟩
  show BBer.w ((BBer.core).complete (.int n) ω t).2.1 = _
  have h : (BBer.complete (.int n) ω t).2.1.w = t.1.w := by
    refine wp_state (P := fun s => s.1.w = t.1.w) (wp_mono (BBer.complete_post (.int n) t) ?_ ?_)
    · rintro _ t' ⟨_, _, _, _, hc⟩; exact hc.noop hw hne rfl hn
    · exact fun _ t h => h.1
  rw [← h]
  exact congrArg (fun s => BBer.w s.1) (bind_pure_state (BBer.complete (.int n)) some t)

theorem BID.keepsDraw (F : SpecFun K) {t : BID K × ℕ} {r : List K} (hr : r = t.1.w) (hs : StickDraw t.1.v r) (hne : r ≠ []) :
    KeepsDraw (BID.cls F) log ω r t := by
  subst hr
  have hw := StickDraw.eq hs
  refine ⟨fun ops hops => BID.run_ainv F log ops hops t (AInv.start hw hne), fun n hn => ?_⟩
  show BID.w ((BID.core F).complete (.int n) ω t).2.1 = _
  have h : (BID.complete (.int n) ω t).2.1.w = t.1.w := by
    refine wp_state (P := fun s => s.1.w = t.1.w) (wp_mono (BID.complete_post (.int n) t) ?_ ?_)
    · rintro _ t' ⟨_, _, _, _, hc⟩; exact hc.noop hw hne rfl hn
    · exact fun _ t h => h.1
  rw [← h]
  exact congrArg (fun s => BID.w s.1) (bind_pure_state (BID.complete (.int n)) (fun _ => none) t)

theorem RPost.r_ne {d : List ℤ} {size : PySize} {v w r : List K} (h : RPost d size v w r) : r ≠ [] := by
  rw [h.ret, h.stick]
  intro hc
  have := congrArg List.length hc
  rw [stickWeights_length] at this
  exact h.ne (List.length_eq_zero_iff.1 this)

theorem CPost.w_ne {v w v' w' : List K} {n : ℤ} (h : CPost v w v' w' (.int n)) (hn : 1 ≤ n) (hs : StickDraw v' w') : w' ≠ [] := by
  rintro rfl
  have h1 := hs.isStick.1
  have h2 := (h.len n rfl).1
  simp at h1
  rw [← h1] at h2
  simp at h2
  omega

variable (hω : ω.Legal) (pos : ℕ) (ops : List (WOp K)) {size : PySize}
include hω

/-! ## After a successful `random` -/

theorem C03_dirichletProcess (alpha : K) (hreq : ReqPos size) {r : List K}
    {t : DP K × ℕ}
    (h : DP.random size ω (DP.cls.run log ω (DP.init alpha, pos) ops) = (.ok r, t)) : KeepsDraw DP.cls log ω r t := by
  have hs := C02_dirichletProcess log hω pos ops alpha hreq h
  exact DP.keepsDraw log hs.1 hs.2 (wp_of_ok h (DP.random_post size _) hreq).1.r_ne

theorem C03_pitmanYor (pyd alpha : K) (s0 : PY K) (h0 : PY.init pyd alpha = .ok s0) (hreq : ReqPos size) {r : List K}
    {t : PY K × ℕ}
    (h : PY.random size ω (PY.cls.run log ω (s0, pos) ops) = (.ok r, t)) : KeepsDraw PY.cls log ω r t := by
  have hs := C02_pitmanYor log hω pos ops pyd alpha s0 h0 hreq h
  exact PY.keepsDraw log hs.1 hs.2 (wp_of_ok h (PY.random_post size _) hreq).1.r_ne

theorem C03_betaInBeta (x alpha a b p : K) (m : PMethod) (s0 : BIB K) (hp : 0 ≤ p ∧ p ≤ 1)
    (h0 : BIB.init x alpha a b p m = .ok s0) (hreq : ReqPos size) {r : List K}
    {t : BIB K × ℕ}
    (h : BIB.random size ω (BIB.cls.run log ω (s0, pos) ops) = (.ok r, t)) : KeepsDraw BIB.cls log ω r t := by
  have hs := C02_betaInBeta log hω pos ops x alpha a b p m s0 hp h0 hreq h
  exact BIB.keepsDraw log hs.1 hs.2 (wp_of_ok h (BIB.random_post size _) hreq).1.r_ne

theorem C03_betaBinomial (N : ℤ) (alpha : K) (hreq : ReqPos size) {r : List K}
    {t : BBin K × ℕ}
    (h : BBin.random size ω (BBin.cls.run log ω (BBin.init N alpha, pos) ops) = (.ok r, t)) : KeepsDraw BBin.cls log ω r t := by
  have hs := C02_betaBinomial log hω pos ops N alpha hreq h
  exact BBin.keepsDraw log hs.1 hs.2 (wp_of_ok h (BBin.random_post size _) hreq).1.r_ne

theorem C03_betaBernoulli (p alpha : K) (hreq : ReqPos size) {r : List K}
    {t : BBer K × ℕ}
    (h : BBer.random size ω (BBer.cls.run log ω (BBer.init p alpha, pos) ops) = (.ok r, t)) : KeepsDraw BBer.cls log ω r t := by
  have hs := C02_betaBernoulli log hω pos ops p alpha hreq h
  exact BBer.keepsDraw log hs.1 hs.2 (wp_of_ok h (BBer.random_post size _) hreq).1.r_ne

theorem C03_betaInDirichlet (F : SpecFun K) (alpha a : K) (hreq : ReqPos size) {r : List K}
    {t : BID K × ℕ}
    (hd : NonNegLabels ((BID.cls F).run log ω (BID.init alpha a, pos) ops).1.d)
    (h : BID.random F size ω ((BID.cls F).run log ω (BID.init alpha a, pos) ops) = (.ok r, t)) : KeepsDraw (BID.cls F) log ω r t := by
  have hs := C02_betaInDirichlet log hω pos ops F alpha a hreq hd h
  exact BID.keepsDraw log F hs.1 hs.2 (wp_of_ok h (BID.random_post F size _ hd) hreq).1.r_ne

/-! ## After a successful `complete` -/

theorem C03_dirichletProcess_complete (alpha : K) {n : ℤ} (hn : 1 ≤ n) {r : List K}
    {t : DP K × ℕ} (h : DP.complete (.int n) ω (DP.cls.run log ω (DP.init alpha, pos) ops) = (.ok r, t)) :
    KeepsDraw DP.cls log ω r t := by
  have hs := C02_dirichletProcess_complete log hω pos ops alpha hn h
  obtain ⟨hr, _, _, hc⟩ := wp_of_ok h (DP.complete_post _ _)
  exact DP.keepsDraw log hs.1 hs.2 (by rw [hr]; exact hc.w_ne hn (hr ▸ hs.2))

theorem C03_pitmanYor_complete (pyd alpha : K) (s0 : PY K) (h0 : PY.init pyd alpha = .ok s0) {n : ℤ} (hn : 1 ≤ n) {r : List K}
    {t : PY K × ℕ} (h : PY.complete (.int n) ω (PY.cls.run log ω (s0, pos) ops) = (.ok r, t)) :
    KeepsDraw PY.cls log ω r t := by
  have hs := C02_pitmanYor_complete log hω pos ops pyd alpha s0 h0 hn h
  have hw : (PY.cls.run log ω (s0, pos) ops).1.w.length = (PY.cls.run log ω (s0, pos) ops).1.v.length := by
    have e : s0.v = [] ∧ s0.w = [] := by
      unfold PY.init at h0; split at h0 <;> cases h0; exact ⟨rfl, rfl⟩
    have hS := WeightCore.run_keeps (PY.sinv_stable (ω := ω)) log ops (s0, pos) (by rw [e.1, e.2]; rfl)
    have := congrArg List.length hS
    rwa [stickWeights_length] at this
  obtain ⟨hr, _, _, _, hc⟩ := wp_of_ok h (PY.complete_post _ _ hw)
  exact PY.keepsDraw log hs.1 hs.2 (by rw [hr]; exact hc.w_ne hn (hr ▸ hs.2))

theorem C03_betaInBeta_complete (x alpha a b p : K) (m : PMethod) (s0 : BIB K) (hp : 0 ≤ p ∧ p ≤ 1)
    (h0 : BIB.init x alpha a b p m = .ok s0) {n : ℤ} (hn : 1 ≤ n) {r : List K}
    {t : BIB K × ℕ} (h : BIB.complete (.int n) ω (BIB.cls.run log ω (s0, pos) ops) = (.ok r, t)) :
    KeepsDraw BIB.cls log ω r t := by
  have hs := C02_betaInBeta_complete log hω pos ops x alpha a b p m s0 hp h0 hn h
  obtain ⟨hr, _, _, _, hc⟩ := wp_of_ok h (BIB.complete_post _ _)
  exact BIB.keepsDraw log hs.1 hs.2 (by rw [hr]; exact hc.w_ne hn (hr ▸ hs.2))

theorem C03_betaBinomial_complete (N : ℤ) (alpha : K) {n : ℤ} (hn : 1 ≤ n) {r : List K}
    {t : BBin K × ℕ} (h : BBin.complete (.int n) ω (BBin.cls.run log ω (BBin.init N alpha, pos) ops) = (.ok r, t)) :
    KeepsDraw BBin.cls log ω r t := by
  have hs := C02_betaBinomial_complete log hω pos ops N alpha h
  obtain ⟨hr, _, _, _, _, _, hc⟩ := wp_of_ok h (BBin.complete_post _ _)
  exact BBin.keepsDraw log hs.1 hs.2 (by rw [hr]; exact hc.w_ne hn (hr ▸ hs.2))

theorem C03_betaInDirichlet_complete (F : SpecFun K) (alpha a : K) {n : ℤ} (hn : 1 ≤ n)
    {t : BID K × ℕ} (h : BID.complete (.int n) ω ((BID.cls F).run log ω (BID.init alpha a, pos) ops) = (.ok (), t)) :
    KeepsDraw (BID.cls F) log ω t.1.w t := by
  have hs := C02_betaInDirichlet_complete log hω pos ops F alpha a h
  obtain ⟨_, _, _, _, hc⟩ := wp_of_ok h (BID.complete_post _ _)
  exact BID.keepsDraw log F rfl hs (hc.w_ne hn hs)

/-- Missing: `complete` from a state whose weights do not belong to its sticks (see `C02_betaBernoulli_complete_refuted`). -/
theorem C03_betaBernoulli_complete_partial (s : BBer K × ℕ) (hs : StickDraw s.1.v s.1.w) {n : ℤ} (hn : 1 ≤ n)
    {r : List K} {t : BBer K × ℕ} (h : BBer.complete (.int n) ω s = (.ok r, t)) : KeepsDraw BBer.cls log ω r t := by
  have h2 := C02_betaBernoulli_complete_partial hω s hs hn h
  obtain ⟨hr, _, _, _, hc⟩ := wp_of_ok h (BBer.complete_post _ _)
  exact BBer.keepsDraw log h2.1 h2.2 (by rw [hr]; exact hc.w_ne hn (hr ▸ h2.2))

/-! ## Finite classes: after a draw the weights never change -/

omit hω in
theorem C03_dirichletDistribution (s : DirDist K × ℕ) {r : List K} {t : DirDist K × ℕ} (hr : r ≠ [])
    (h : DirDist.random size ω s = (.ok r, t)) :
    KeepsDraw DirDist.cls log ω r t ∧ ∀ ops : List (WOp K), (∀ op ∈ ops, op.notRandom) →
      (DirDist.cls.run log ω t ops).1.w = r := by
  have hw : t.1.w = r := by
    refine wp_of_ok h (Q := fun r t => t.1.w = r) (E := fun _ _ => True) ?_
    unfold DirDist.random
    wp_simp
    exact wp_mono (Q' := fun _ _ => True) (E' := fun _ _ => True)
      (by unfold wp; rcases DirDist.draw ω s with ⟨e | a, t⟩ <;> trivial) (fun _ _ _ => rf) (fun _ _ _ => trivial)
  have hrun := fun (ops : List (WOp K)) hops => DirDist.run_same (ω := ω) log ops hops t hw hr
  refine ⟨⟨fun ops hops => ?_, fun n hn => ?_⟩, hrun⟩
  · show r <+: (DirDist.cls.run log ω t ops).1.w
    rw [hrun ops hops]
  · exact hrun [.complete (.int n)] (by simp [WOp.notRandom])

omit hω in
theorem C03_equalWeighting (s : Equal K × ℕ) {r : List K} {t : Equal K × ℕ} (h : Equal.random size ω s = (.ok r, t)) :
    KeepsDraw Equal.cls log ω r t ∧ ∀ ops : List (WOp K), (∀ op ∈ ops, op.notRandom) →
      (Equal.cls.run log ω t ops).1.w = r := by
  obtain ⟨h1, rfl⟩ := wp_of_ok h (Equal.random_post _ _)
  have hrun := fun (ops : List (WOp K)) hops => Equal.run_same (ω := ω) log ops hops ({ s.1 with w := r }, s.2) rfl h1
  refine ⟨⟨fun ops hops => ?_, fun n hn => ?_⟩, hrun⟩
  · show r <+: (Equal.cls.run log ω _ ops).1.w
    rw [hrun ops hops]
  · exact hrun [.complete (.int n)] (by simp [WOp.notRandom])

end

/-! ## Geometric process -/

section
variable (log : ℝ → ℝ) {ω : Oracle ℝ} (hω : ω.Legal) (pos : ℕ) (ops : List (WOp ℝ)) (a b p0 : ℝ)
  (hp : 0 ≤ p0 ∧ p0 ≤ 1)

theorem Geo.keepsDraw {t : Geo ℝ × ℕ} {r : List ℝ} (hr : r = t.1.w) (hs : StickDraw t.1.v r) (hne : r ≠ [])
    (hall : ∀ x ∈ t.1.v, x = t.1.p) : KeepsDraw Geo.cls log ω r t := by
  subst hr
  have hw := StickDraw.eq hs
  refine ⟨fun ops hops => Geo.run_ainv log ops hops t (AInv.start hw hne) hall, fun n hn => ?_⟩
  show Geo.w ((Geo.core).complete (.int n) ω t).2.1 = _
  have h : (Geo.complete (.int n) ω t).2.1.w = t.1.w := by
    refine wp_state (P := fun s => s.1.w = t.1.w) (wp_mono (Geo.complete_post (.int n) t hall) ?_ ?_)
    · rintro _ t' ⟨_, _, _, _, _, hc⟩; exact hc.noop hw hne rfl hn
    · rintro _ t rfl; rfl
  rw [← h]
  exact congrArg (fun s => Geo.w s.1) (bind_pure_state (Geo.complete (.int n)) some t)

include hω hp

theorem C03_geometric {size : PySize} (hreq : ReqPos size) {r : List ℝ} {t : Geo ℝ × ℕ}
    (hd : NonNegLabels (Geo.cls.run log ω (Geo.init a b p0, pos) ops).1.d)
    (h : Geo.random size ω (Geo.cls.run log ω (Geo.init a b p0, pos) ops) = (.ok r, t)) :
    KeepsDraw Geo.cls log ω r t := by
  have hs := C02_geometric log hω pos ops a b p0 hp hreq hd h
  have hq := wp_of_ok h (Geo.random_post size _) hreq (fun m hm => hd m hm.1)
  exact Geo.keepsDraw log hs.1 hs.2 hq.1.r_ne hq.2.2

theorem C03_geometric_complete {n : ℤ} (hn : 1 ≤ n) {r : List ℝ} {t : Geo ℝ × ℕ}
    (h : Geo.complete (.int n) ω (Geo.cls.run log ω (Geo.init a b p0, pos) ops) = (.ok r, t)) :
    KeepsDraw Geo.cls log ω r t := by
  have hs := C02_geometric_complete log hω pos ops a b p0 hp hn h
  have hS := WeightClass.run_keeps (C := Geo.cls) (Geo.sinv_stable (ω := ω)) (fun _ x => (Geo.tail_sinv x).keeps) log ops
    (Geo.init a b p0, pos) ⟨nofun, SInv.nil _⟩
  obtain ⟨hr, _, _, _, hall, hc⟩ := wp_of_ok h (Geo.complete_post _ _ hS.1)
  exact Geo.keepsDraw log hs.1 hs.2 (by rw [hr]; exact hc.w_ne hn (hr ▸ hs.2)) hall
end

/-! ## Refutations of the full statement -/

/-- `random(2)`, `random(0)`, `complete(3)`: the weights shown before `complete` are not among those shown after. -/
theorem C03_dirichletProcess_refuted : ∃ (ω : Oracle ℚ) (ops : List (WOp ℚ)) (n : ℤ), ω.Legal ∧
    ¬ (DP.cls.run id ω (DP.init 1, 0) ops).1.w <+: (DP.cls.run id ω (DP.init 1, 0) (ops ++ [.complete (.int n)])).1.w :=
  ⟨demo, [.random (.int 2), .random (.int 0)], 3, demo_legal, by decide +kernel⟩

/-- `complete` of `FrequencyWeighting` after a new `fit` replaces the weights. -/
theorem C03_frequencyWeighting_refuted : ∃ (ω : Oracle ℚ) (ops : List (WOp ℚ)) (n : ℤ), ω.Legal ∧
    ¬ (Freq.cls.run id ω (Freq.init 2, 0) ops).1.w <+: (Freq.cls.run id ω (Freq.init 2, 0) (ops ++ [.complete (.int n)])).1.w :=
  ⟨demo, [.fit [0, 1], .random .none, .fit [0, 0, 1]], 2, demo_legal, by decide +kernel⟩

/-! Non-vacuity: a draw of two weights is extended to four through several calls, keeping the first two. -/

example : (DP.cls.run id (demo : Oracle ℚ) (DP.init 1, 0) [.random (.int 2)]).1.w = [1/2, 1/6] ∧
    (DP.cls.run id (demo : Oracle ℚ) (DP.init 1, 0)
      [.random (.int 2), .fit [3, 0], .complete .other, .assignationLogLikelihood none]).1.w = [1/2, 1/6, 1/12, 1/20] := by
  decide +kernel
example : (BBin.cls.run id (demo : Oracle ℚ) (BBin.init 2 1, 0) [.fit [0, 1], .random .none]).1.w.length = 2 ∧
    (BBin.cls.run id (demo : Oracle ℚ) (BBin.init 2 1, 0) [.fit [0, 1], .random .none, .complete (.int 4)]).1.w.length = 4 := by
  decide +kernel
example : (DirDist.random .none demo ((DirDist.initScalar 2 1, 0) : DirDist ℚ × ℕ)).1 = .ok [1/2, 1/2] := by decide +kernel
example : (Equal.random .none demo ((Equal.init 2, 0) : Equal ℚ × ℕ)).1 = .ok [1/2, 1/2] := by decide +kernel

end Verif
