import Verif.Lemmas.StickTail
import Verif.Lemmas.Demo

/-!
# C22: `tail(x)` draws no more weights than needed

`MinimalTail x w0 n0 r` (below): `r` extends `w0`, reaches `x`, and no initial part of `r` with at least `n0` weights
reaches it.  Proved for every state with drawn weights (`C22_*_drawn_partial`, `n0` = number of weights already there) and for objects
without weights (`C22_*_fresh_partial`, `n0 = 1`: the first weight is always drawn, also for `x = 0`); if the mass is already there
nothing is drawn and nothing changes, for every class (`C22_nothing`).
The full statement (every state) fails for a state in which the weights are not those of the sticks: `random(0)` of an unfitted
`DirichletProcess` drops the sticks and keeps the weights, and then `tail` replaces them (`C22_refuted`).  For `PitmanYorProcess` all
reachable states are covered.
-/

set_option linter.unusedSectionVars false

namespace Verif
open Spec
variable {K : Type} [Field K] [LinearOrder K] [IsStrictOrderedRing K] {ω : Oracle K}

/-- `r` appends to `w0` and stops at the first length (from `n0` on) at which the mass is `x`. -/
structure MinimalTail (x : K) (w0 : List K) (n0 : ℕ) (r : List K) : Prop where
  appends : w0 <+: r
  reached : x ≤ r.sum
  least : ∀ k, n0 ≤ k → k < r.length → (r.take k).sum < x

theorem C22_nothing (C : WeightCore K) {x : K} (hx : 0 ≤ x ∧ x < 1) {s : C.State × ℕ} (hne : C.getW s.1 ≠ []) (h : x ≤ (C.getW s.1).sum)
    (fuel : ℕ) : C.inheritTail.tail fuel x ω s = (.ok (C.getW s.1), s) := by
  show BaseWeight.tail C fuel x ω s = _
  have h0 : ¬ (C.getW s.1).length = 0 := fun h => hne (List.length_eq_zero_iff.1 h)
  unfold BaseWeight.tail
  rw [if_neg (by push Not; exact ⟨hx.2, hx.1⟩), M.bind_apply]
  cases fuel with
  | zero => simp [M.self, h0, BaseWeight.tailLoop, M.bind_apply, not_lt.2 h]
  | succ n => simp [M.self, h0, BaseWeight.tailLoop, M.bind_apply, not_lt.2 h]

theorem minimal_drawn {C : WeightCore K} {V : C.State → List K} (hC : StickCore C V ω) {x : K} {fuel : ℕ} {s t : C.State × ℕ} {r : List K}
    (hs : IsStick (V s.1) (C.getW s.1)) (hne : C.getW s.1 ≠ []) (h : C.inheritTail.tail fuel x ω s = (.ok r, t)) :
    MinimalTail x (C.getW s.1) (C.getW s.1).length r :=
  have := hC.tail_drawn (IsStick.eq hs) hne h
  ⟨this.2.2.old, this.2.1, this.2.2.least⟩

theorem minimal_fresh {C : WeightCore K} {V : C.State → List K} (hC : StickCore C V ω) {x : K} {fuel : ℕ} {s t : C.State × ℕ} {r : List K}
    (hr : wp ω (C.random (.int 1)) (fun _ t => C.getW t.1 = stickWeights (V t.1) ∧ (V t.1).length = 1) (fun _ _ => True) s)
    (hnil : C.getW s.1 = []) (h : C.inheritTail.tail fuel x ω s = (.ok r, t)) :
    r ≠ [] ∧ MinimalTail x [] 1 r :=
  have := hC.tail_fresh 1 (wp_mono hr (fun _ t h => ⟨h.1, fun h0 => by
    have := congrArg List.length h.1; rw [h0, stickWeights_length, h.2] at this; simp at this, h.2.le⟩) fun _ _ h => h) hnil h
  ⟨this.2.2.1, this.2.2.2.old, this.2.1, this.2.2.2.least⟩

theorem exact_one {v : List K} (h : Exact (.int 1) v) : v.length = 1 := by
  have := h 1 rfl; omega

theorem reqPos_one : ReqPos (.int 1) := .inr ⟨1, rfl, le_rfl⟩

section
variable {x : K} {fuel : ℕ} {r : List K}

theorem C22_dirichletProcess_drawn_partial {s t : DP K × ℕ} (hs : IsStick s.1.v s.1.w) (hne : s.1.w ≠ []) (h : DP.cls.tail fuel x ω s = (.ok r, t)) :
    MinimalTail x s.1.w s.1.w.length r := minimal_drawn DP.stickCore hs hne h

theorem C22_dirichletProcess_fresh_partial {s t : DP K × ℕ} (hnil : s.1.w = []) (h : DP.cls.tail fuel x ω s = (.ok r, t)) :
    r ≠ [] ∧ MinimalTail x [] 1 r := minimal_fresh DP.stickCore
  (wp_mono (DP.random_post _ s) (fun _ _ h => ⟨(h reqPos_one).1.stick, exact_one (h reqPos_one).2⟩) fun _ _ h => h) hnil h

/-- Every reachable state with weights. -/
theorem C22_pitmanYor_drawn (log : K → K) (pos : ℕ) (ops : List (WOp K)) {pyd alpha : K} {s0 : PY K} (h0 : PY.init pyd alpha = .ok s0) {s t : PY K × ℕ}
    (hrun : PY.cls.run log ω (s0, pos) ops = s) (hne : s.1.w ≠ []) (h : PY.cls.tail fuel x ω s = (.ok r, t)) :
    MinimalTail x s.1.w s.1.w.length r := by
  have := PY.reach_sinv (ω := ω) log pos ops h0
  rw [hrun] at this
  have hst := PY.stickCore.tail_drawn (C := PY.core) (V := PY.v) this hne h
  exact ⟨hst.2.2.old, hst.2.1, hst.2.2.least⟩

theorem C22_pitmanYor_fresh {s t : PY K × ℕ} (hnil : s.1.w = []) (h : PY.cls.tail fuel x ω s = (.ok r, t)) :
    r ≠ [] ∧ MinimalTail x [] 1 r := minimal_fresh PY.stickCore
  (wp_mono (PY.random_post _ s) (fun _ _ h => ⟨(h reqPos_one).1.stick, exact_one (h reqPos_one).2⟩) fun _ _ h => h) hnil h

theorem C22_betaInBeta_drawn_partial {s t : BIB K × ℕ} (hs : IsStick s.1.v s.1.w) (hne : s.1.w ≠ []) (h : BIB.cls.tail fuel x ω s = (.ok r, t)) :
    MinimalTail x s.1.w s.1.w.length r := minimal_drawn BIB.stickCore hs hne h

theorem C22_betaInBeta_fresh_partial {s t : BIB K × ℕ} (hnil : s.1.w = []) (h : BIB.cls.tail fuel x ω s = (.ok r, t)) :
    r ≠ [] ∧ MinimalTail x [] 1 r := minimal_fresh BIB.stickCore
  (wp_mono (BIB.random_post _ s) (fun _ _ h => ⟨(h reqPos_one).1.stick, exact_one (h reqPos_one).2⟩) fun _ _ h => h) hnil h

theorem C22_betaBinomial_drawn_partial {s t : BBin K × ℕ} (hs : IsStick s.1.v s.1.w) (hne : s.1.w ≠ []) (h : BBin.cls.tail fuel x ω s = (.ok r, t)) :
    MinimalTail x s.1.w s.1.w.length r := minimal_drawn BBin.stickCore hs hne h

/-- With data the first draw has one weight per label value; without data exactly one. -/
theorem C22_betaBinomial_fresh_partial {s t : BBin K × ℕ} (hnil : s.1.w = []) (hd : s.1.d = []) (h : BBin.cls.tail fuel x ω s = (.ok r, t)) :
    r ≠ [] ∧ MinimalTail x [] 1 r := minimal_fresh BBin.stickCore
  (wp_mono (BBin.random_post _ s) (fun _ _ h => ⟨(h reqPos_one).1.stick, exact_one ((h reqPos_one).2.1 hd)⟩) fun _ _ h => h) hnil h

theorem C22_betaBernoulli_drawn_partial {s t : BBer K × ℕ} (hs : IsStick s.1.v s.1.w) (hne : s.1.w ≠ []) (h : BBer.cls.tail fuel x ω s = (.ok r, t)) :
    MinimalTail x s.1.w s.1.w.length r := minimal_drawn BBer.stickCore hs hne h

theorem C22_betaBernoulli_fresh_partial {s t : BBer K × ℕ} (hnil : s.1.w = []) (hd : s.1.d = []) (h : BBer.cls.tail fuel x ω s = (.ok r, t)) :
    r ≠ [] ∧ MinimalTail x [] 1 r := minimal_fresh BBer.stickCore
  (wp_mono (BBer.random_post _ s) (fun _ _ h => ⟨(h reqPos_one).1.stick, exact_one ((h reqPos_one).2.1 hd)⟩) fun _ _ h => h) hnil h

theorem C22_betaInDirichlet_drawn_partial (F : SpecFun K) {s t : BID K × ℕ} (hs : IsStick s.1.v s.1.w) (hne : s.1.w ≠ [])
    (h : (BID.cls F).tail fuel x ω s = (.ok r, t)) :
    MinimalTail x s.1.w s.1.w.length r := minimal_drawn (BID.stickCore F) hs hne h

theorem C22_betaInDirichlet_fresh_partial (F : SpecFun K) {s t : BID K × ℕ} (hnil : s.1.w = []) (hd : s.1.d = [])
    (h : (BID.cls F).tail fuel x ω s = (.ok r, t)) :
    r ≠ [] ∧ MinimalTail x [] 1 r := minimal_fresh (BID.stickCore F)
  (wp_mono (BID.random_post F _ s (by rw [hd]; exact nofun)) (fun _ _ h => ⟨(h reqPos_one).1.stick, exact_one ((h reqPos_one).2.1 hd)⟩) fun _ _ h => h) hnil h
end

/-- `random(2)`, `random(0)`, `tail(3/5)`: the two weights shown before are replaced. -/
theorem C22_refuted : ∃ ω : Oracle ℚ, ω.Legal ∧ ∃ s : DP ℚ × ℕ, DP.cls.run id ω (DP.init 1, 4) [.random (.int 2), .random (.int 0)] = s ∧
    s.1.w = [1/6, 5/42] ∧ (DP.cls.tail 9 (3/10) ω s).1 = .ok [1/8, 7/72, 7/90] :=
  ⟨demo, demo_legal, _, rfl, by decide +kernel, by decide +kernel⟩

/-! Non-vacuity -/
example : (DP.cls.tail 9 (3/10) (demo : Oracle ℚ) (DP.cls.run id demo (DP.init 1, 4) [.random (.int 1)])).1 = .ok [1/6, 5/42, 5/56] := by decide +kernel
example : (BBin.cls.tail 9 (1/2) (demo : Oracle ℚ) (BBin.cls.run id demo (BBin.init 1 1, 0) [.random (.int 2)])).1 = .ok [1/4, 1/8, 5/64, 7/128] := by decide +kernel

end Verif
