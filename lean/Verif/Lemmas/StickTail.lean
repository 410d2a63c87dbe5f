import Verif.Lemmas.Reach
import Verif.Lemmas.Tail
import Verif.Props.C03

/-! # `tail` of the stick-breaking classes: weights are appended one at a time -/

set_option linter.unusedSectionVars false

namespace Verif
open Spec
variable {K : Type} [Field K] [LinearOrder K] [IsStrictOrderedRing K] {ω : Oracle K}

theorem wp_of_keeps {σ α : Type} {I : σ → Prop} {m : M K σ α} (h : Keeps ω I m) {s : σ × ℕ} (hs : I s.1) :
    wp ω m (fun _ t => I t.1) (fun _ t => I t.1) s := by
  have := h s hs
  unfold wp
  revert this
  rcases m ω s with ⟨e | a, t⟩ <;> exact id

theorem wp_any {σ α : Type} {m : M K σ α} (s : σ × ℕ) : wp ω m (fun _ _ => True) (fun _ _ => True) s := by
  unfold wp; rcases m ω s with ⟨e | a, t⟩ <;> trivial

theorem IsStick.eq {v w : List K} (h : IsStick v w) : w = stickWeights v := by
  apply List.ext_getElem?
  intro j
  rw [stickWeights_getElem?]
  cases hx : v[j]? with
  | some x => rw [h.2 j x hx]; rfl
  | none => simpa [h.1] using hx

/-- One more weight. -/
theorem CPost.oneMore {v w v' w' : List K} (h : CPost v w v' w' (.int ((w.length : ℤ) + 1))) (hw : w = stickWeights v) :
    w' = stickWeights v' ∧ ∃ y, w' = w ++ [y] := by
  have hl : w.length = v.length := by rw [hw, stickWeights_length]
  have h1 := (h.len _ rfl).2 (by omega) (by omega)
  have hst : w' = stickWeights v' := by
    rcases h.w_eq with ⟨h2, _⟩ | h2
    · rw [h2] at h1; omega
    · exact h2
  refine ⟨hst, ?_⟩
  have hp : w <+: w' := by rw [hw, hst]; exact stickWeights_prefix h.pre
  obtain ⟨u, hu⟩ := hp
  have hlen : w'.length = v'.length := by rw [hst, stickWeights_length]
  have : u.length = 1 := by
    have := congrArg List.length hu
    rw [List.length_append] at this
    omega
  obtain ⟨y, rfl⟩ := List.length_eq_one_iff.1 this
  exact ⟨y, hu.symm⟩

/-- The state reached by the loop of `tail(x)` started with the weights `w0`, of which the first `n0` were not drawn to reach `x`. -/
structure TInv (x : K) (w0 : List K) (n0 : ℕ) (v w : List K) : Prop where
  stick : w = stickWeights v
  old : w0 <+: w
  least : ∀ k, n0 ≤ k → k < w.length → (w.take k).sum < x

theorem TInv.start {x : K} {v w : List K} (h : w = stickWeights v) : TInv x w w.length v w :=
  ⟨h, List.prefix_refl _, fun _ h1 h2 => by omega⟩

theorem TInv.step {x : K} {w0 v w v' w' : List K} {n0 : ℕ} (h : TInv x w0 n0 v w) (hlt : w.sum < x)
    (hc : CPost v w v' w' (.int ((w.length : ℤ) + 1))) : TInv x w0 n0 v' w' := by
  obtain ⟨h1, y, rfl⟩ := hc.oneMore h.stick
  refine ⟨h1, h.old.trans (List.prefix_append _ _), fun k hk hl => ?_⟩
  rw [List.length_append, List.length_singleton] at hl
  rw [List.take_append_of_le_length (by omega)]
  rcases Nat.lt_or_ge k w.length with h2 | h2
  · exact h.least k hk h2
  · rwa [List.take_of_length_le h2]

/-- A class whose `complete` appends sticks; `V` reads the sticks. -/
def StickCore (C : WeightCore K) (V : C.State → List K) (ω : Oracle K) : Prop :=
  ∀ (n : ℤ) (s : C.State × ℕ), C.getW s.1 = stickWeights (V s.1) →
    wp ω (C.complete (.int n)) (fun _ t => C.getD t.1 = C.getD s.1 ∧ CPost (V s.1) (C.getW s.1) (V t.1) (C.getW t.1) (.int n)) (fun _ _ => True) s

theorem DP.stickCore : StickCore (DP.core (K := K)) DP.v ω := fun n s _ =>
  (wp_bind (DP.complete _) _).2 <| wp_mono (DP.complete_post _ s) (fun _ _ h => ⟨h.2.1, h.2.2.2⟩) fun _ _ _ => trivial

theorem PY.stickCore : StickCore (PY.core (K := K)) PY.v ω := fun n s h =>
  (wp_bind (PY.complete _) _).2 <| wp_mono (PY.complete_post _ s (by
    change s.1.w = _ at h; rw [h, stickWeights_length])) (fun _ _ h => ⟨h.2.1, h.2.2.2.2⟩) fun _ _ _ => trivial

theorem BIB.stickCore : StickCore (BIB.core (K := K)) BIB.v ω := fun n s _ =>
  (wp_bind (BIB.complete _) _).2 <| wp_mono (BIB.complete_post _ s) (fun _ _ h => ⟨h.2.1, h.2.2.2.2⟩) fun _ _ _ => trivial

theorem BBin.stickCore : StickCore (BBin.core (K := K)) BBin.v ω := fun n s _ =>
  (wp_bind (BBin.complete _) _).2 <| wp_mono (BBin.complete_post _ s) (fun _ _ h => ⟨h.2.1, h.2.2.2.2.2.2⟩) fun _ _ _ => trivial

theorem BBer.stickCore : StickCore (BBer.core (K := K)) BBer.v ω := fun n s _ =>
  (wp_bind (BBer.complete _) _).2 <| wp_mono (BBer.complete_post _ s) (fun _ _ h => ⟨h.2.1, h.2.2.2.2⟩) fun _ _ _ => trivial

theorem BID.stickCore (F : SpecFun K) : StickCore (BID.core F (K := K)) BID.v ω := fun n s _ =>
  (wp_bind (BID.complete _) _).2 <| wp_mono (BID.complete_post _ s) (fun _ _ h => ⟨h.1, h.2.2.2.2⟩) fun _ _ _ => trivial

variable {C : WeightCore K} {V : C.State → List K}

theorem StickCore.tail_drawn (hC : StickCore C V ω) {x : K} {fuel : ℕ} {s t : C.State × ℕ} {r : List K}
    (hs : C.getW s.1 = stickWeights (V s.1)) (hne : C.getW s.1 ≠ []) (h : BaseWeight.tail C fuel x ω s = (.ok r, t)) :
    r = C.getW t.1 ∧ x ≤ r.sum ∧ TInv x (C.getW s.1) (C.getW s.1).length (V t.1) r := by
  have hx : ¬ (x ≥ 1 ∨ x < 0) := fun hx => by rw [BaseWeight.tail_bad C hx] at h; cases h
  have := wp_of_ok h (wp_tail (C := C) (I := fun t => TInv x (C.getW s.1) (C.getW s.1).length (V t.1) (C.getW t.1)) (E := fun _ _ => True)
    hx (fun t ht hlt => wp_mono (hC _ t ht.stick) (fun _ _ h => ht.step hlt h.2) fun _ _ h => h) (fun _ _ _ => trivial) fuel s
    (fun h => absurd h hne) (fun _ => TInv.start hs))
  exact ⟨this.2.1, this.2.2, this.2.1 ▸ this.1⟩

theorem StickCore.tail_fresh (hC : StickCore C V ω) {x : K} {fuel : ℕ} {s t : C.State × ℕ} {r : List K} (n0 : ℕ)
    (hr : wp ω (C.random (.int 1)) (fun _ t => C.getW t.1 = stickWeights (V t.1) ∧ C.getW t.1 ≠ [] ∧ (V t.1).length ≤ n0) (fun _ _ => True) s)
    (hnil : C.getW s.1 = []) (h : BaseWeight.tail C fuel x ω s = (.ok r, t)) :
    r = C.getW t.1 ∧ x ≤ r.sum ∧ r ≠ [] ∧ TInv x [] n0 (V t.1) r := by
  have hx : ¬ (x ≥ 1 ∨ x < 0) := fun hx => by rw [BaseWeight.tail_bad C hx] at h; cases h
  have := wp_of_ok h (wp_tail (C := C) (I := fun t => C.getW t.1 ≠ [] ∧ TInv x [] n0 (V t.1) (C.getW t.1)) (E := fun _ _ => True)
    hx (fun t ht hlt => wp_mono (hC _ t ht.2.stick) (fun _ t' h => ⟨fun h0 => by
        obtain ⟨_, y, hy⟩ := h.2.oneMore ht.2.stick
        rw [h0] at hy; simp at hy, ht.2.step hlt h.2⟩) fun _ _ h => h) (fun _ _ _ => trivial) fuel s
    (fun _ => wp_mono hr (fun _ t h => ⟨h.2.1, h.1, List.nil_prefix, fun k h1 h2 => by
      rw [h.1, stickWeights_length] at h2; omega⟩) fun _ _ h => h) (fun h => absurd hnil h))
  exact ⟨this.2.1, this.2.2, this.2.1 ▸ this.1.1, this.2.1 ▸ this.1.2⟩

end Verif
