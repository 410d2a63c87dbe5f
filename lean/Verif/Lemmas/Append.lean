import Verif.Lemmas.StickInv

/-! # Histories without `random`: weights only grow -/

set_option linter.unusedSectionVars false
set_option linter.unusedSimpArgs false

namespace Verif
open Spec
variable {K : Type} [Field K] [LinearOrder K]

section
variable {C : WeightCore K} {ω : Oracle K} {I : C.State → Prop}

theorem tailLoop_keeps' (hc : ∀ n, Keeps ω I (C.complete n)) (x : K) (fuel : ℕ) :
    Keeps ω I (BaseWeight.tailLoop C x fuel) := by
  refine KeepsR.keeps (R := fun _ => True) ?_
  induction fuel with
  | zero =>
    unfold BaseWeight.tailLoop
    refine KeepsR.bind KeepsR.self fun s _ => KeepsR.ite (fun _ => KeepsR.raise _) fun _ => KeepsR.pure trivial
  | succ n ih =>
    unfold BaseWeight.tailLoop
    refine KeepsR.bind KeepsR.self fun s _ => KeepsR.ite (fun _ => ?_) fun _ => KeepsR.pure trivial
    exact KeepsR.bind (KeepsR.of_keeps (hc _)) fun _ _ => ih

theorem tail_keeps' (hc : ∀ n, Keeps ω I (C.complete n)) (hne : ∀ s, I s → C.getW s ≠ []) (x : K) (fuel : ℕ) :
    Keeps ω I (BaseWeight.tail C fuel x) := by
  refine KeepsR.keeps (R := fun _ => True) ?_
  unfold BaseWeight.tail
  refine KeepsR.ite (fun _ => KeepsR.raise _) fun _ => KeepsR.bind KeepsR.self fun s hs => ?_
  refine KeepsR.ite (fun h => ?_) fun _ => ?_
  · exact absurd (List.length_eq_zero_iff.1 h) (hne s hs)
  · exact KeepsR.of_keeps (tailLoop_keeps' hc x fuel)

theorem assignLL_keeps' (hc : ∀ n, Keeps ω I (C.complete n)) (log : K → K) (d : Option (List ℤ)) :
    Keeps ω I (BaseWeight.assignationLogLikelihood C log d) := by
  refine KeepsR.keeps (R := fun _ => True) ?_
  unfold BaseWeight.assignationLogLikelihood
  refine KeepsR.bind KeepsR.self fun s _ => KeepsR.bind (KeepsR.lift _) fun m _ =>
    KeepsR.bind (KeepsR.of_keeps (hc _)) fun _ _ => KeepsR.bind KeepsR.self fun s _ =>
    KeepsR.bind (KeepsR.lift _) fun _ _ => KeepsR.pure trivial
end

theorem WeightClass.run_keeps' {C : WeightClass K} {ω : Oracle K} {I : C.State → Prop}
    (hd : ∀ d s, I s → I (C.setD d s)) (hc : ∀ n, Keeps ω I (C.complete n)) (ht : ∀ f x, Keeps ω I (C.tail f x))
    (log : K → K) (ops : List (WOp K)) (hops : ∀ op ∈ ops, op.notRandom) (s : C.State × ℕ) (hs : I s.1) :
    I (C.run log ω s ops).1 := by
  induction ops generalizing s with
  | nil => exact hs
  | cons op ops ih =>
    refine ih (fun o ho => hops o (by simp [ho])) _ ?_
    cases op with
    | fit d => exact hd _ _ hs
    | reset => exact hd _ _ hs
    | random n => exact absurd (hops (.random n) (by simp)) (by simp [WOp.notRandom])
    | complete n => exact hc _ _ hs
    | tail f x => exact ht _ _ _ hs
    | assignationLogLikelihood d => exact assignLL_keeps' hc log d s hs
    | randomAssignment n => exact randomAssignment_keeps (C := C.toWeightCore) n s hs

theorem WeightCore.run_keeps' {C : WeightCore K} {ω : Oracle K} {I : C.State → Prop}
    (hd : ∀ d s, I s → I (C.setD d s)) (hc : ∀ n, Keeps ω I (C.complete n)) (hne : ∀ s, I s → C.getW s ≠ [])
    (log : K → K) (ops : List (WOp K)) (hops : ∀ op ∈ ops, op.notRandom) (s : C.State × ℕ) (hs : I s.1) :
    I (C.inheritTail.run log ω s ops).1 :=
  WeightClass.run_keeps' (C := C.inheritTail) hd hc (fun f x => tail_keeps' hc hne x f) log ops hops s hs

variable [IsStrictOrderedRing K] {ω : Oracle K}

/-- `w0` is an initial part of the current weights, which are an initial part of the weights of the current sticks. -/
structure AInv (w0 v w : List K) : Prop where
  ne : w0 ≠ []
  old : w0 <+: w
  cur : w <+: stickWeights v

theorem AInv.w_ne {w0 v w : List K} (h : AInv w0 v w) : w ≠ [] := by
  rintro rfl
  exact h.ne (List.prefix_nil.1 h.old)

theorem AInv.start {v w : List K} (h : w = stickWeights v) (hw : w ≠ []) : AInv w v w :=
  ⟨hw, List.prefix_refl _, h ▸ List.prefix_refl _⟩

theorem CPost.ainv {w0 v w v' w' : List K} {size : PySize} (h : CPost v w v' w' size) (hs : AInv w0 v w) :
    AInv w0 v' w' := by
  rcases h.w_eq with ⟨h1, h2⟩ | h2
  · rw [h1, h2]; exact hs
  · refine ⟨hs.ne, ?_, h2 ▸ List.prefix_refl _⟩
    rw [h2]
    exact (hs.old.trans hs.cur).trans (stickWeights_prefix h.pre)

theorem AInv.mono {w0 v v' w : List K} (h : AInv w0 v w) (hp : v <+: v') : AInv w0 v' w :=
  ⟨h.ne, h.old, h.cur.trans (stickWeights_prefix hp)⟩

/-- Nothing changes when the requested size is already there. -/
theorem CPost.noop {v w v' w' : List K} {size : PySize} {n : ℤ} (h : CPost v w v' w' size)
    (hw : w = stickWeights v) (hne : w ≠ []) (hn : size.toInt? = some n) (hl : n ≤ w.length) : w' = w := by
  have hvne : v ≠ [] := by rintro rfl; exact hne hw
  have hvv : v' = v := h.stop n hn hvne (by rwa [hw, stickWeights_length] at hl)
  rcases h.w_eq with ⟨_, h2⟩ | h2
  · exact h2
  · rw [h2, hw, hvv]

namespace DP
theorem complete_ainv (w0 : List K) (n : PySize) :
    KeepsR ω (fun s : DP K => AInv w0 s.v s.w) (complete n) (fun _ => True) := by
  refine KeepsR.of_wp fun s hs => wp_mono (complete_post n s) ?_ ?_
  · rintro _ t ⟨_, _, _, hc⟩; exact ⟨hc.ainv hs, trivial⟩
  · rintro _ t rfl; exact hs

theorem run_ainv {w0 : List K} (log : K → K) (ops : List (WOp K)) (hops : ∀ op ∈ ops, op.notRandom) (s : DP K × ℕ)
    (hs : AInv w0 s.1.v s.1.w) : w0 <+: (cls.run log ω s ops).1.w :=
  (WeightCore.run_keeps' (C := core) (I := fun s : DP K => AInv w0 s.v s.w) (fun _ _ h => h)
    (fun n => (KeepsR.bind (R' := fun _ => True) (complete_ainv w0 n) fun _ _ => KeepsR.pure trivial).keeps)
    (fun _ h => h.w_ne) log ops hops s hs).old
end DP

namespace PY
theorem complete_ainv (w0 : List K) (n : PySize) :
    KeepsR ω (fun s : PY K => AInv w0 s.v s.w ∧ s.w = stickWeights s.v) (complete n) (fun _ => True) := by
  refine KeepsR.of_wp fun s hs => wp_mono (complete_post n s (by rw [hs.2, stickWeights_length])) ?_ ?_
  · rintro _ t ⟨_, _, _, _, hc⟩
    refine ⟨⟨hc.ainv hs.1, ?_⟩, trivial⟩
    rcases hc.w_eq with ⟨h1, h2⟩ | h
    · rw [h1, h2]; exact hs.2
    · exact h
  · rintro _ t rfl; exact hs

theorem run_ainv {w0 : List K} (log : K → K) (ops : List (WOp K)) (hops : ∀ op ∈ ops, op.notRandom) (s : PY K × ℕ)
    (hs : AInv w0 s.1.v s.1.w) (hw : s.1.w = stickWeights s.1.v) : w0 <+: (cls.run log ω s ops).1.w :=
  (WeightCore.run_keeps' (C := core) (I := fun s : PY K => AInv w0 s.v s.w ∧ s.w = stickWeights s.v) (fun _ _ h => h)
    (fun n => (KeepsR.bind (R' := fun _ => True) (complete_ainv w0 n) fun _ _ => KeepsR.pure trivial).keeps)
    (fun _ h => h.1.w_ne) log ops hops s ⟨hs, hw⟩).1.old
end PY

namespace Geo
theorem complete_ainv (w0 : List K) (n : PySize) :
    KeepsR ω (fun s : Geo K => AInv w0 s.v s.w ∧ ∀ x ∈ s.v, x = s.p) (complete n) (fun _ => True) := by
  refine KeepsR.of_wp fun s hs => wp_mono (complete_post n s hs.2) ?_ ?_
  · rintro _ t ⟨_, _, _, _, hp, hc⟩; exact ⟨⟨hc.ainv hs.1, hp⟩, trivial⟩
  · rintro _ t rfl; exact hs

theorem run_ainv {ω : Oracle ℝ} {w0 : List ℝ} (log : ℝ → ℝ) (ops : List (WOp ℝ)) (hops : ∀ op ∈ ops, op.notRandom)
    (s : Geo ℝ × ℕ) (hs : AInv w0 s.1.v s.1.w) (hp : ∀ x ∈ s.1.v, x = s.1.p) : w0 <+: (cls.run log ω s ops).1.w :=
  (WeightClass.run_keeps' (C := cls) (I := fun s : Geo ℝ => AInv w0 s.v s.w ∧ ∀ x ∈ s.v, x = s.p) (fun _ _ h => h)
    (fun n => (KeepsR.bind (R' := fun _ => True) (complete_ainv w0 n) fun _ _ => KeepsR.pure trivial).keeps)
    (fun _ x => by
      refine KeepsR.keeps (R := fun _ => True) ?_
      show KeepsR ω _ (Geo.tail x) _
      unfold Geo.tail
      keeps_step
      · keeps_step
      · keeps_step; keeps_step
        exact KeepsR.bind (complete_ainv w0 _) fun _ _ => KeepsR.bind KeepsR.self fun _ _ => KeepsR.pure trivial)
    log ops hops s ⟨hs, hp⟩).1.old
end Geo

namespace BIB
theorem complete_ainv (w0 : List K) (n : PySize) :
    KeepsR ω (fun s : BIB K => AInv w0 s.v s.w) (complete n) (fun _ => True) := by
  refine KeepsR.of_wp fun s hs => wp_mono (complete_post n s) ?_ ?_
  · rintro _ t ⟨_, _, _, _, hc⟩; exact ⟨hc.ainv hs, trivial⟩
  · rintro _ t h
    rw [h]; exact hs

theorem run_ainv {w0 : List K} (log : K → K) (ops : List (WOp K)) (hops : ∀ op ∈ ops, op.notRandom) (s : BIB K × ℕ)
    (hs : AInv w0 s.1.v s.1.w) : w0 <+: (cls.run log ω s ops).1.w :=
  (WeightCore.run_keeps' (C := core) (I := fun s : BIB K => AInv w0 s.v s.w) (fun _ _ h => h)
    (fun n => (KeepsR.bind (R' := fun _ => True) (complete_ainv w0 n) fun _ _ => KeepsR.pure trivial).keeps)
    (fun _ h => h.w_ne) log ops hops s hs).old
end BIB

namespace BBin
theorem complete_ainv (w0 : List K) (n : PySize) :
    KeepsR ω (fun s : BBin K => AInv w0 s.v s.w) (complete n) (fun _ => True) := by
  refine KeepsR.of_wp fun s hs => wp_mono (complete_post n s) ?_ ?_
  · rintro _ t ⟨_, _, _, _, _, _, hc⟩; exact ⟨hc.ainv hs, trivial⟩
  · rintro _ t ⟨hw, _, hv⟩
    rw [hw]; exact hs.mono hv

theorem run_ainv {w0 : List K} (log : K → K) (ops : List (WOp K)) (hops : ∀ op ∈ ops, op.notRandom) (s : BBin K × ℕ)
    (hs : AInv w0 s.1.v s.1.w) : w0 <+: (cls.run log ω s ops).1.w :=
  (WeightCore.run_keeps' (C := core) (I := fun s : BBin K => AInv w0 s.v s.w) (fun _ _ h => h)
    (fun n => (KeepsR.bind (R' := fun _ => True) (complete_ainv w0 n) fun _ _ => KeepsR.pure trivial).keeps)
    (fun _ h => h.w_ne) log ops hops s hs).old
end BBin

namespace BBer
theorem complete_ainv (w0 : List K) (n : PySize) :
    KeepsR ω (fun s : BBer K => AInv w0 s.v s.w) (complete n) (fun _ => True) := by
  refine KeepsR.of_wp fun s hs => wp_mono (complete_post n s) ?_ ?_
  · rintro _ t ⟨_, _, _, _, hc⟩; exact ⟨hc.ainv hs, trivial⟩
  · rintro _ t ⟨hw, _, hv⟩
    rw [hw]; exact hs.mono hv

theorem run_ainv {w0 : List K} (log : K → K) (ops : List (WOp K)) (hops : ∀ op ∈ ops, op.notRandom) (s : BBer K × ℕ)
    (hs : AInv w0 s.1.v s.1.w) : w0 <+: (cls.run log ω s ops).1.w :=
  (WeightCore.run_keeps' (C := core) (I := fun s : BBer K => AInv w0 s.v s.w) (fun _ _ h => h)
    (fun n => (KeepsR.bind (R' := fun _ => True) (complete_ainv w0 n) fun _ _ => KeepsR.pure trivial).keeps)
    (fun _ h => h.w_ne) log ops hops s hs).old
end BBer

namespace BID
theorem complete_ainv (w0 : List K) (n : PySize) :
    KeepsR ω (fun s : BID K => AInv w0 s.v s.w) (complete n) (fun _ => True) := by
  refine KeepsR.of_wp fun s hs => wp_mono (complete_post n s) ?_ ?_
  · rintro _ t ⟨_, _, _, _, hc⟩; exact ⟨hc.ainv hs, trivial⟩
  · rintro _ t ⟨hw, _, hv⟩
    rw [hw]; exact hs.mono hv

theorem run_ainv (F : SpecFun K) {w0 : List K} (log : K → K) (ops : List (WOp K)) (hops : ∀ op ∈ ops, op.notRandom)
    (s : BID K × ℕ) (hs : AInv w0 s.1.v s.1.w) : w0 <+: ((cls F).run log ω s ops).1.w :=
  (WeightCore.run_keeps' (C := core F) (I := fun s : BID K => AInv w0 s.v s.w) (fun _ _ h => h)
    (fun n => (KeepsR.bind (R' := fun _ => True) (complete_ainv w0 n) fun _ _ => KeepsR.pure trivial).keeps)
    (fun _ h => h.w_ne) log ops hops s hs).old
end BID

namespace DirDist
theorem complete_same (n : PySize) (s : DirDist K × ℕ) (hs : s.1.w ≠ []) :
    wp ω (complete n) (fun r t => r = s.1.w ∧ t = s) (fun _ t => t = s) s := by
  unfold complete
  wp_simp
  have : ¬ s.1.w.length = 0 := by simpa using hs
  refine ⟨fun _ _ => ⟨fun h => absurd h this, fun _ => ⟨rf, rf⟩⟩, fun _ _ => rf⟩

theorem run_same {w0 : List K} (log : K → K) (ops : List (WOp K)) (hops : ∀ op ∈ ops, op.notRandom)
    (s : DirDist K × ℕ) (hs : s.1.w = w0) (hne : w0 ≠ []) : (cls.run log ω s ops).1.w = w0 :=
  WeightCore.run_keeps' (C := core) (I := fun s : DirDist K => s.w = w0) (fun _ _ h => h)
    (fun n => (KeepsR.bind (R := fun _ => True) (R' := fun _ => True) (KeepsR.of_wp fun s hs =>
      wp_mono (complete_same n s (by rw [hs]; exact hne)) (fun _ t h => ⟨by rw [h.2]; exact hs, trivial⟩)
      (fun _ t h => by rw [h]; exact hs)) fun _ _ => KeepsR.pure trivial).keeps)
    (fun _ h => by show DirDist.w _ ≠ []; rw [h]; exact hne) log ops hops s hs
end DirDist

namespace Equal
theorem random_post (n : PySize) (s : Equal K × ℕ) :
    wp ω (random n) (fun r t => uniformWeights s.1.n = .ok r ∧ t = ({ s.1 with w := r }, s.2)) (fun _ t => t = s) s := by
  unfold random
  wp_simp
  exact ⟨fun a h => ⟨h, rf⟩, fun _ _ => rf⟩

theorem uniform_ne {n : ℤ} {w : List K} (h : uniformWeights n = .ok w) : w ≠ [] ∧ 0 < n ∧ (w.length : ℤ) = n := by
  unfold uniformWeights Py.repeatScalar at h
  split at h
  · cases h
  · split at h
    · cases h
    · cases h
      have : 0 < n := by omega
      refine ⟨?_, this, by simp; omega⟩
      rw [← List.length_pos_iff]
      simp; omega

theorem run_same {w0 : List K} (log : K → K) (ops : List (WOp K)) (hops : ∀ op ∈ ops, op.notRandom)
    (s : Equal K × ℕ) (hs : s.1.w = w0) (hn : uniformWeights s.1.n = .ok w0) : (cls.run log ω s ops).1.w = w0 :=
  (WeightCore.run_keeps' (C := core) (I := fun s : Equal K => s.w = w0 ∧ uniformWeights s.n = .ok w0) (fun _ _ h => h)
    (fun n => (KeepsR.bind (R := fun _ => True) (R' := fun _ => True) (KeepsR.of_wp fun s hs =>
      wp_mono (random_post n s) (fun r t h => by
        have : r = w0 := by have h1 := h.1; rw [hs.2] at h1; cases h1; rfl
        rw [h.2, this]; exact ⟨⟨rfl, hs.2⟩, trivial⟩)
      (fun _ t h => by rw [h]; exact hs)) fun _ _ => KeepsR.pure trivial).keeps)
    (fun _ h => by show Equal.w _ ≠ []; rw [h.1]; exact (uniform_ne hn).1) log ops hops s ⟨hs, hn⟩).1
end Equal

end Verif
