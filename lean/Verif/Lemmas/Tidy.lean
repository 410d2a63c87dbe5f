import Verif.Lemmas.RandomPost
import Verif.Lemmas.StickTail
import Verif.Lemmas.Append

/-!
# What the Gibbs sampler needs from a weight class

`Tidy`: after `random()` on labels and `tail`, a `complete(n)` that asks for at most the present number of weights does not change the weights.
-/

set_option linter.unusedSectionVars false

namespace Verif
open Spec
variable {K : Type} [Field K] [LinearOrder K] [IsStrictOrderedRing K] {ω : Oracle K}

/-- `I` is established by `random()` after `fit` of non-negative labels, kept by `tail`, and `complete` then changes nothing it is not asked for. -/
structure Tidy (C : WeightClass K) (ω : Oracle K) (I : C.State → Prop) : Prop where
  random : ∀ (d : List ℤ), NonNegLabels d → ∀ s : C.State × ℕ, wp ω (C.random .none) (fun _ t => I t.1) (fun _ _ => True) (C.setD d s.1, s.2)
  tail : ∀ (f : ℕ) (x : K) (s : C.State × ℕ), I s.1 → wp ω (C.tail f x) (fun _ t => I t.1) (fun _ _ => True) s
  complete : ∀ (n : ℤ) (s : C.State × ℕ), I s.1 → 1 ≤ n → n ≤ (C.getW s.1).length →
    wp ω (C.complete (.int n)) (fun _ t => C.getW t.1 = C.getW s.1) (fun _ _ => True) s

/-- The weights are the products of a non-empty list of sticks. -/
def StickState (C : WeightCore K) (V : C.State → List K) (s : C.State) : Prop := C.getW s = stickWeights (V s) ∧ V s ≠ []

theorem CPost.stick {v w v' w' : List K} {size : PySize} (h : CPost v w v' w' size) (hw : w = stickWeights v) : w' = stickWeights v' := by
  rcases h.w_eq with ⟨h1, h2⟩ | h1
  · rw [h1, h2, hw]
  · exact h1

theorem CPost.ne {v w v' w' : List K} {size : PySize} (h : CPost v w v' w' size) (hv : v ≠ []) : v' ≠ [] := by
  obtain ⟨t, rfl⟩ := h.pre
  simp [hv]

theorem wp_tail_rejects (C : WeightCore K) {x : K} (hx : x ≥ 1 ∨ x < 0) (f : ℕ) (Q : List K → C.State × ℕ → Prop) (s : C.State × ℕ) :
    wp ω (BaseWeight.tail C f x) Q (fun _ _ => True) s := by
  unfold wp; rw [BaseWeight.tail_bad C hx]; trivial

theorem StickCore.tidy {C : WeightCore K} {V : C.State → List K} (hC : StickCore C V ω)
    (hr : ∀ (d : List ℤ), NonNegLabels d → ∀ s : C.State × ℕ,
      wp ω (C.random .none) (fun _ t => StickState C V t.1) (fun _ _ => True) (C.setD d s.1, s.2)) :
    Tidy C.inheritTail ω (StickState C V) where
  random := hr
  tail := by
    intro f x s hs
    show wp ω (BaseWeight.tail C f x) _ _ s
    by_cases hx : x ≥ 1 ∨ x < 0
    · exact wp_tail_rejects C hx f _ s
    · refine wp_mono (wp_tail (I := fun t => StickState C V t.1) (E := fun _ _ => True) hx (fun s hs _ => ?_) (fun _ _ _ => trivial) f s
        (fun h => ?_) (fun _ => hs)) (fun _ _ h => h.1) (fun _ _ h => h)
      · exact wp_mono (hC _ s hs.1) (fun _ t h => ⟨h.2.stick hs.1, h.2.ne hs.2⟩) fun _ _ _ => trivial
      · exfalso
        have h1 := congrArg List.length (hs.1.symm.trans h)
        rw [stickWeights_length] at h1
        exact hs.2 (List.length_eq_zero_iff.1 h1)
  complete := by
    intro n s hs _ hn
    refine wp_mono (hC n s hs.1) (fun _ t h => ?_) fun _ _ _ => trivial
    have hs1 : C.getW s.1 = stickWeights (V s.1) := hs.1
    change n ≤ ((C.getW s.1).length : ℤ) at hn
    rw [hs1, stickWeights_length] at hn
    have := h.2.stop n rfl hs.2 hn
    show C.getW t.1 = C.getW s.1
    rw [h.2.stick hs.1, hs1, this]

theorem reqPos_none : ReqPos .none := .inl rfl

theorem DP.tidy : Tidy (DP.cls (K := K)) ω (StickState DP.core DP.v) :=
  DP.stickCore.tidy fun _ _ _ => wp_mono (DP.random_post .none _) (fun _ _ h => ⟨(h reqPos_none).1.stick, (h reqPos_none).1.ne⟩) fun _ _ _ => trivial

theorem PY.tidy : Tidy (PY.cls (K := K)) ω (StickState PY.core PY.v) :=
  PY.stickCore.tidy fun _ _ _ => wp_mono (PY.random_post .none _) (fun _ _ h => ⟨(h reqPos_none).1.stick, (h reqPos_none).1.ne⟩) fun _ _ _ => trivial

theorem BIB.tidy : Tidy (BIB.cls (K := K)) ω (StickState BIB.core BIB.v) :=
  BIB.stickCore.tidy fun _ _ _ => wp_mono (BIB.random_post .none _) (fun _ _ h => ⟨(h reqPos_none).1.stick, (h reqPos_none).1.ne⟩) fun _ _ _ => trivial

theorem BBin.tidy : Tidy (BBin.cls (K := K)) ω (StickState BBin.core BBin.v) :=
  BBin.stickCore.tidy fun _ _ _ => wp_mono (BBin.random_post .none _) (fun _ _ h => ⟨(h reqPos_none).1.stick, (h reqPos_none).1.ne⟩) fun _ _ _ => trivial

theorem BBer.tidy : Tidy (BBer.cls (K := K)) ω (StickState BBer.core BBer.v) :=
  BBer.stickCore.tidy fun _ _ _ => wp_mono (BBer.random_post .none _) (fun _ _ h => ⟨(h reqPos_none).1.stick, (h reqPos_none).1.ne⟩) fun _ _ _ => trivial

theorem BID.tidy (F : SpecFun K) : Tidy (BID.cls F (K := K)) ω (StickState (BID.core F) BID.v) :=
  (BID.stickCore F).tidy fun _ hd _ => wp_mono (BID.random_post F .none _ hd) (fun _ _ h => ⟨(h reqPos_none).1.stick, (h reqPos_none).1.ne⟩) fun _ _ _ => trivial

theorem DirDist.tidy : Tidy (DirDist.cls (K := K)) ω (fun _ => True) where
  random := fun _ _ s => by unfold wp; split <;> trivial
  tail := fun _ _ s _ => by unfold wp; split <;> trivial
  complete := by
    intro n s _ h1 hn
    have hne : s.1.w ≠ [] := by
      rintro h
      change n ≤ ((s.1.w.length : ℕ) : ℤ) at hn
      rw [h] at hn; simp at hn; omega
    refine (wp_bind (DirDist.complete _) _).2 <| wp_mono (DirDist.complete_same (.int n) s hne) (fun _ t h => ?_) fun _ _ _ => trivial
    rw [h.2]; exact rfl

/-- Weights of the classes whose `complete` is `random`. -/
theorem Equal.tidy : Tidy (Equal.cls (K := K)) ω (fun s => uniformWeights s.n = .ok s.w) where
  random := fun _ _ s => wp_mono (Equal.random_post .none _) (fun r t h => by rw [h.2]; exact h.1) fun _ _ _ => trivial
  tail := by
    intro f x s hs
    show wp ω (BaseWeight.tail Equal.core f x) _ _ s
    by_cases hx : x ≥ 1 ∨ x < 0
    · exact wp_tail_rejects Equal.core hx f _ s
    · refine wp_mono (wp_tail (C := Equal.core) (I := fun t => uniformWeights t.1.n = .ok t.1.w) (E := fun _ _ => True) hx (fun s hs _ => ?_)
        (fun _ _ _ => trivial) f s (fun h => ?_) (fun _ => hs)) (fun _ _ h => h.1) (fun _ _ h => h)
      · exact (wp_bind (Equal.random _) _).2 <| wp_mono (Equal.random_post _ _) (fun r t h => by rw [h.2]; exact h.1) fun _ _ _ => trivial
      · exact absurd h (Equal.uniform_ne hs).1
  complete := by
    intro n s hs _ _
    refine (wp_bind (Equal.random _) _).2 <| wp_mono (Equal.random_post _ _) (fun r t h => ?_) fun _ _ _ => trivial
    have h1 := h.1
    rw [hs] at h1
    cases h1
    rw [h.2]; exact rfl

theorem Freq.random_post (n : PySize) (s : Freq K × ℕ) :
    wp ω (Freq.random n) (fun _ t => t.1.n = s.1.n ∧ t.1.d = s.1.d ∧ (s.1.d = [] → uniformWeights s.1.n = .ok t.1.w) ∧
      (s.1.d ≠ [] → ∃ a, Py.bincount s.1.d = .ok a ∧ t.1.w = Freq.frequencies a)) (fun _ _ => True) s := by
  unfold Freq.random Freq.draw
  wp_simp
  refine ⟨fun h => ⟨fun a ha => ?_, fun _ _ => trivial⟩, fun h => ⟨fun a ha => ?_, fun _ _ => trivial⟩⟩
  · exact ⟨trivial, trivial, fun _ => ha, fun hn => absurd (List.length_eq_zero_iff.1 h) hn⟩
  · exact ⟨trivial, trivial, fun hn => absurd (by rw [hn]; rfl) h, fun _ => ⟨a, ha, rfl⟩⟩

/-- The weights of `FrequencyWeighting` are those `random` computes from the present labels. -/
def Freq.Current (s : Freq K) : Prop :=
  (s.d = [] → uniformWeights s.n = .ok s.w) ∧ (s.d ≠ [] → ∃ a, Py.bincount s.d = .ok a ∧ s.w = Freq.frequencies a)

theorem Freq.random_current (n : PySize) (s : Freq K × ℕ) :
    wp ω (Freq.random n) (fun _ t => t.1.n = s.1.n ∧ t.1.d = s.1.d ∧ Freq.Current t.1) (fun _ _ => True) s :=
  wp_mono (Freq.random_post n s) (fun _ t h => ⟨h.1, h.2.1, by unfold Freq.Current; rw [h.1, h.2.1]; exact h.2.2⟩) fun _ _ _ => trivial

theorem Freq.Current.eq {s t : Freq K} (hs : Freq.Current s) (ht : Freq.Current t) (hn : t.n = s.n) (hd : t.d = s.d) : t.w = s.w := by
  unfold Freq.Current at hs ht
  rw [hn, hd] at ht
  by_cases h : s.d = []
  · have h1 := hs.1 h
    rw [ht.1 h] at h1
    exact Except.ok.inj h1
  · obtain ⟨a, h1, h2⟩ := hs.2 h
    obtain ⟨b, h3, h4⟩ := ht.2 h
    rw [h1] at h3
    cases h3
    rw [h2, h4]

theorem Freq.tidy : Tidy (Freq.cls (K := K)) ω (fun s => Freq.Current s) where
  random := fun _ _ s => wp_mono (Freq.random_current .none _) (fun _ _ h => h.2.2) fun _ _ _ => trivial
  tail := by
    intro f x s hs
    show wp ω (BaseWeight.tail Freq.core f x) _ _ s
    by_cases hx : x ≥ 1 ∨ x < 0
    · exact wp_tail_rejects Freq.core hx f _ s
    · refine wp_mono (wp_tail (C := Freq.core) (I := fun t => Freq.Current t.1) (E := fun _ _ => True) hx (fun s hs _ => ?_)
        (fun _ _ _ => trivial) f s (fun h => ?_) (fun _ => hs)) (fun _ _ h => h.1) (fun _ _ h => h)
      · exact (wp_bind (Freq.random _) _).2 <| wp_mono (Freq.random_current _ _) (fun _ _ h => h.2.2) fun _ _ _ => trivial
      · exact wp_mono (Freq.random_current (.int 1) s) (fun _ _ h => h.2.2) fun _ _ _ => trivial
  complete := by
    intro n s hs _ _
    refine (wp_bind (Freq.random _) _).2 <| wp_mono (Freq.random_current _ _) (fun _ t h => ?_) fun _ _ _ => trivial
    exact hs.eq h.2.2 h.1 h.2.1

/-- The drawn states of the geometric process. -/
def Geo.Drawn (s : Geo ℝ) : Prop := s.w = stickWeights s.v ∧ s.v ≠ [] ∧ ∀ x ∈ s.v, x = s.p

theorem Geo.complete_drawn {ω : Oracle ℝ} (n : ℤ) (s : Geo ℝ × ℕ) (hs : Geo.Drawn s.1) :
    wp ω (Geo.complete (.int n)) (fun _ t => Geo.Drawn t.1 ∧ (n ≤ s.1.w.length → t.1.w = s.1.w)) (fun _ _ => True) s := by
  refine wp_mono (Geo.complete_post (.int n) s hs.2.2) (fun _ t h => ?_) fun _ _ _ => trivial
  have hp := h.2.2.2.2.2
  refine ⟨⟨hp.stick hs.1, hp.ne hs.2.1, h.2.2.2.2.1⟩, fun hn => ?_⟩
  rw [hs.1, stickWeights_length] at hn
  rw [hp.stick hs.1, hp.stop n rfl hs.2.1 hn, hs.1]

theorem Geo.tail_drawn {ω : Oracle ℝ} (x : ℝ) (s : Geo ℝ × ℕ) (hs : Geo.Drawn s.1) :
    wp ω (Geo.tail x) (fun _ t => Geo.Drawn t.1) (fun _ _ => True) s := by
  unfold Geo.tail
  rw [wp_ite]
  refine ⟨fun _ => trivial, fun _ => ?_⟩
  rw [wp_bind, wp_self, wp_bind, wp_lift]
  refine ⟨fun n _ => ?_, fun _ _ => trivial⟩
  rw [wp_bind]
  exact wp_mono (Geo.complete_drawn n s hs) (fun _ t h => h.1) fun _ _ _ => trivial

theorem Geo.tidy {ω : Oracle ℝ} : Tidy Geo.cls ω (fun s => Geo.Drawn s) where
  random := fun d hd s => wp_mono (Geo.random_post .none _) (fun _ t h => by
    have h' := h reqPos_none fun m hm => hd m hm.1
    exact ⟨h'.1.stick, h'.1.ne, h'.2.2⟩) fun _ _ _ => trivial
  tail := fun _ x s hs => Geo.tail_drawn x s hs
  complete := by
    intro n s hs _ hn
    refine (wp_bind (Geo.complete _) _).2 <| wp_mono (Geo.complete_drawn n s hs) (fun _ t h => ?_) fun _ _ _ => trivial
    exact h.2 hn
end Verif
