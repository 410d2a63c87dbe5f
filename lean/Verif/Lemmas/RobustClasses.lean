import Verif.Lemmas.Robust
import Verif.Lemmas.NoErrorBB
import Verif.Lemmas.Tidy
import Verif.Props.C11
import Verif.Props.C12
import Verif.Props.C17
import Verif.Props.C25

/-! # Which weight classes never make the sampler raise -/

set_option linter.unusedSectionVars false
set_option linter.unusedSimpArgs false

namespace Verif.Mix
open GM Spec
variable {K : Type} [Field K] [LinearOrder K] [IsStrictOrderedRing K] {ω : Oracle K}

theorem labels_nonNeg (d : List ℕ) : NonNegLabels (labels d) := by
  intro x hx
  obtain ⟨k, -, rfl⟩ := List.mem_map.1 hx
  omega

theorem labels_ne {d : List ℕ} (h : d ≠ []) : labels d ≠ [] := by unfold labels; simpa using h

/-- A stick-breaking class whose calls never raise from states with `Q`. -/
structure StickOk (C : WeightCore K) (ω : Oracle K) (V : C.State → List K) (Q : C.State → Prop) : Prop where
  redraw : ∀ (d : List ℕ) (s : C.State × ℕ), Q s.1 → d ≠ [] →
    wp ω (C.random .none) (fun r t => Q t.1 ∧ RPost (labels d) .none (V t.1) (C.getW t.1) r) (fun _ _ => False) (C.setD (labels d) s.1, s.2)
  complete : ∀ (g : PySize) (n : ℤ) (s : C.State × ℕ), g.toInt? = some n → Q s.1 →
    wp ω (C.complete g) (fun _ t => Q t.1 ∧ CPost (V s.1) (C.getW s.1) (V t.1) (C.getW t.1) g) (fun _ _ => False) s
  unit : ∀ s, Q s → Unit01 (V s)

/-- The weights come from the sticks; there may be none. -/
def Drawn (C : WeightCore K) (V : C.State → List K) (Q : C.State → Prop) (s : C.State) : Prop := Q s ∧ C.getW s = stickWeights (V s)

/-- The weights come from at least one stick. -/
def DrawnNe (C : WeightCore K) (V : C.State → List K) (Q : C.State → Prop) (s : C.State) : Prop := Q s ∧ StickState C V s

namespace StickOk
variable {C : WeightCore K} {V : C.State → List K} {Q : C.State → Prop} (h : StickOk C ω V Q)
include h

theorem complete_drawn (g : PySize) (n : ℤ) (s : C.State × ℕ) (hg : g.toInt? = some n) (hs : Drawn C V Q s.1) :
    wp ω (C.complete g) (fun _ t => Drawn C V Q t.1 ∧ n ≤ (C.getW t.1).length ∧ (C.getW s.1).length ≤ (C.getW t.1).length) (fun _ _ => False) s := by
  refine wp_mono (h.complete g n s hg hs.1) (fun _ t ht => ?_) fun _ _ h => h
  have hw := ht.2.stick hs.2
  refine ⟨⟨ht.1, hw⟩, ?_, ?_⟩
  · rw [hw, stickWeights_length]; exact (ht.2.len n hg).1
  · rw [hw, hs.2, stickWeights_length, stickWeights_length]; exact ht.2.pre.length_le

theorem ne_of_length {s : C.State} (hs : Drawn C V Q s) {n : ℤ} (hn : 1 ≤ n) (hl : n ≤ (C.getW s).length) : DrawnNe C V Q s := by
  refine ⟨hs.1, hs.2, ?_⟩
  rintro hv
  rw [hs.2, hv] at hl
  simp [stickWeights_length] at hl
  omega

theorem drawnNe_length {s : C.State} (hs : DrawnNe C V Q s) : 1 ≤ (C.getW s).length := by
  rw [hs.2.1, stickWeights_length]
  exact List.length_pos_iff.2 hs.2.2

/-- The loop of `tail`. -/
theorem tail_drawn (f : ℕ) (x : K) (s : C.State × ℕ) (hs : DrawnNe C V Q s.1) (h0 : 0 ≤ x) (h1 : x < 1) :
    wp ω (BaseWeight.tail C f x) (fun _ t => DrawnNe C V Q t.1 ∧ (C.getW s.1).length ≤ (C.getW t.1).length) (fun e _ => Slow True e) s := by
  refine wp_mono (wp_tail (I := fun t => DrawnNe C V Q t.1 ∧ (C.getW s.1).length ≤ (C.getW t.1).length) (E := fun e _ => Slow True e) (by push Not; exact ⟨h1, h0⟩)
    (fun t ht _ => ?_) (fun _ _ _ => ⟨trivial, rfl⟩) f s (fun h' => ?_) (fun _ => ⟨hs, le_rfl⟩)) (fun _ _ h => h.1) fun _ _ h => h
  · refine wp_mono (h.complete_drawn _ _ t rfl ⟨ht.1.1, ht.1.2.1⟩) (fun _ u hu => ?_) fun _ _ h => h.elim
    exact ⟨h.ne_of_length hu.1 (by have := h.drawnNe_length ht.1; omega) hu.2.1, ht.2.trans hu.2.2⟩
  · exfalso
    have := h.drawnNe_length hs
    rw [h'] at this
    simp at this

theorem redraw_drawn (d : List ℕ) (s : C.State × ℕ) (hs : Q s.1) (hd : d ≠ []) :
    wp ω (C.random .none) (fun w t => DrawnNe C V Q t.1 ∧ w = C.getW t.1 ∧ ∀ x ∈ d, x < w.length) (fun _ _ => False) (C.setD (labels d) s.1, s.2) := by
  refine wp_mono (h.redraw d s hs hd) (fun w t ht => ?_) fun _ _ h => h
  refine ⟨⟨ht.1, ht.2.stick, ht.2.ne⟩, ht.2.ret, fun x hx => ?_⟩
  obtain ⟨m, hm, hmax⟩ := maxInt_ok (labels_ne hd)
  have h1 := ht.2.cover rfl m hmax
  have h2 := hmax.2 (x : ℤ) (List.mem_map_of_mem hx)
  rw [ht.2.ret, ht.2.stick, stickWeights_length]
  omega

/-- A stick-breaking class with the inherited `tail`. -/
theorem robust : Robust C.inheritTail ω (DrawnNe C V Q) (DrawnNe C V Q) True True where
  redraw := fun d s hs hd _ => h.redraw_drawn d s hs.1 hd
  tail := fun f x s hs h0 h1 => h.tail_drawn f x s hs h0 h1
  complete := fun n s hs hn _ => wp_mono (h.complete_drawn (.int n) n s rfl ⟨hs.1, hs.2.1⟩)
    (fun _ t ht => ⟨h.ne_of_length ht.1 (by exact_mod_cast hn) ht.2.1, by exact_mod_cast ht.2.1⟩) fun _ _ h => h
  sub := fun s hs => by
    show SubProb (C.getW s)
    rw [hs.2.1]; exact stickWeights_subProb (h.unit s hs.1)
  total := fun _ _ hn => absurd trivial hn
  ne := fun s hs => List.length_pos_iff.1 (h.drawnNe_length hs)
  weak := fun _ h => h

theorem startsComplete {s : C.State} (hs : Drawn C V Q s) {g : PySize} {n : ℤ} (hg : g.toInt? = some n) (hn : 1 ≤ n) (N : ℕ) :
    StartsComplete C.inheritTail ω (DrawnNe C V Q) True N s g := fun pos =>
  wp_mono (h.complete_drawn g n (s, pos) hg hs) (fun _ t ht => ⟨h.ne_of_length ht.1 hn ht.2.1, .inl trivial⟩) fun _ _ h => h

theorem startsTail (hf : ∀ s : C.State × ℕ, Q s.1 → wp ω (C.random (.int 1)) (fun _ t => DrawnNe C V Q t.1) (fun _ _ => False) s)
    {s : C.State} (hs : Drawn C V Q s) (N : ℕ) : StartsTail C.inheritTail ω (DrawnNe C V Q) True True N s := by
  intro pos f x h0 h1
  by_cases hv : V s = []
  · refine wp_mono (wp_tail (C := C) (I := fun t => DrawnNe C V Q t.1) (E := fun e _ => Slow True e) (by push Not; exact ⟨h1, h0⟩)
      (fun t ht _ => ?_) (fun _ _ _ => ⟨trivial, rfl⟩) f (s, pos) (fun _ => ?_) (fun h' => ?_)) (fun _ _ h => ⟨h.1, .inl trivial⟩) fun _ _ h => h
    · refine wp_mono (h.complete_drawn _ _ t rfl ⟨ht.1, ht.2.1⟩) (fun _ u hu => ?_) fun _ _ h => h.elim
      exact h.ne_of_length hu.1 (by have := h.drawnNe_length ht; omega) hu.2.1
    · exact wp_mono (hf (s, pos) hs.1) (fun _ _ h => h) fun _ _ h => h.elim
    · exfalso
      apply h'
      show C.getW s = []
      rw [hs.2, hv]
      exact List.length_eq_zero_iff.1 (by rw [stickWeights_length]; rfl)
  · exact wp_mono (h.tail_drawn f x (s, pos) ⟨hs.1, hs.2, hv⟩ h0 h1) (fun _ t ht => ⟨ht.1, .inl trivial⟩) fun _ _ h => h
end StickOk

theorem reqPos_one : ReqPos (.int 1) := .inr ⟨1, rfl, le_rfl⟩

end Verif.Mix

namespace Verif
open Mix GM Spec
variable {K : Type} [Field K] [LinearOrder K] [IsStrictOrderedRing K] {ω : Oracle K}

/-! ## `DirichletProcess` -/
namespace DP
/-- Legal parameter and labels. -/
def Fine (s : DP K) : Prop := 0 < s.alpha ∧ NonNegLabels s.d ∧ Inv s

theorem params_fine {alpha : K} (ha : 0 < alpha) (a b : List ℕ) : ¬ ∃ p ∈ params alpha a b, p.1 ≤ 0 ∨ p.2 ≤ 0 := by
  rintro ⟨p, hp, h⟩
  unfold params at hp
  rw [← List.map_uncurry_zip_eq_zipWith] at hp
  obtain ⟨q, -, rfl⟩ := List.mem_map.1 hp
  have h1 : (0 : K) ≤ (q.1 : K) := Nat.cast_nonneg _
  have h2 : (0 : K) ≤ (q.2 : K) := Nat.cast_nonneg _
  simp only [Function.uncurry] at h
  rcases h with h | h <;> linarith [zero_lt_one (α := K)]

theorem random_ok {s : DP K × ℕ} (ha : 0 < s.1.alpha) (hd : NonNegLabels s.1.d) (size : PySize) (hs : (size = .none ∧ s.1.d ≠ []) ∨ size = .int 1) :
    wp ω (random size) (fun _ t => t.1.alpha = s.1.alpha ∧ t.1.d = s.1.d) (fun _ _ => False) s := by
  have hc : ∀ (v w : List K) (p : ℕ), wp ω (complete (.int 1)) (fun _ t => t.1.alpha = s.1.alpha ∧ t.1.d = s.1.d) (fun _ _ => False) ({ s.1 with v := v, w := w }, p) := by
    intro v w p
    refine wp_mono (wp_and (complete_ok (ω := ω) (s := ({ s.1 with v := v, w := w }, p)) (size := .int 1) (n := 1) ha rfl) (complete_post (.int 1) ({ s.1 with v := v, w := w }, p)))
      (fun _ t h => ⟨h.2.2.2.1, h.2.2.1⟩) fun _ _ h => h.1
  unfold random
  rw [wp_bind, wp_self, wp_ite]
  refine ⟨fun h => ?_, fun hnd => ?_⟩
  · rcases hs with ⟨_, h'⟩ | h'
    · exact h' (List.length_eq_zero_iff.1 h.2)
    · rw [h.1] at h'; cases h'
  obtain ⟨a, hb, -⟩ := bincount_ok hd
  rcases hs with ⟨rfl, hne⟩ | rfl
  · simp only []
    rw [wp_bind, wp_assign, wp_ite]
    refine ⟨fun h => absurd (List.length_eq_zero_iff.1 h) hne, fun _ => ?_⟩
    unfold randomFitted drawSticks
    simp only [PySize.toInt?]
    wp_simp
    refine ⟨fun a' h' => ⟨fun h => params_fine ha _ _ h, fun _ => ⟨fun h => absurd rfl h, fun _ => ⟨rf, rf⟩⟩⟩, fun e he => ?_⟩
    rw [hb] at he; cases he
  · simp only []
    rw [wp_bind, wp_assign, wp_ite]
    refine ⟨fun h => hc [] s.1.w s.2, fun _ => ?_⟩
    unfold randomFitted drawSticks
    simp only [PySize.toInt?]
    rw [wp_bind, wp_bind, wp_self, wp_bind, wp_lift, hb]
    refine ⟨fun a' h' => ?_, nofun⟩
    cases h'
    wp_simp
    exact ⟨fun _ => ⟨fun h => params_fine ha _ _ h, fun _ => ⟨fun _ => hc _ _ _, fun h => by simp at h⟩⟩,
      fun _ => ⟨fun h => params_fine ha _ _ h, fun _ => ⟨fun _ => hc _ _ _, fun h => by simp at h⟩⟩⟩

theorem fine_complete (hω : ω.Legal) (g : PySize) (n : ℤ) (s : DP K × ℕ) (hg : g.toInt? = some n) (hs : Fine s.1) :
    wp ω (complete g) (fun _ t => Fine t.1 ∧ CPost s.1.v s.1.w t.1.v t.1.w g) (fun _ _ => False) s :=
  wp_mono (wp_and (complete_ok hs.1 hg) (wp_and (complete_post g s) (wp_of_keeps (complete_keeps hω g).keeps hs.2.2)))
    (fun _ t h => ⟨⟨by rw [h.2.1.2.2.1]; exact hs.1, by rw [h.2.1.2.1]; exact hs.2.1, h.2.2⟩, h.2.1.2.2.2⟩) fun _ _ h => h.1

theorem stickOk (hω : ω.Legal) : StickOk (core (K := K)) ω DP.v Fine where
  redraw := fun d s hs hd =>
    wp_mono (wp_and (random_ok (s := ({ s.1 with d := labels d }, s.2)) hs.1 (labels_nonNeg d) .none (.inl ⟨rfl, labels_ne hd⟩))
      (wp_and (random_post .none ({ s.1 with d := labels d }, s.2)) (wp_of_keeps (s := ({ s.1 with d := labels d }, s.2)) (random_keeps hω .none).keeps hs.2.2)))
      (fun _ t h => ⟨⟨by rw [h.1.1]; exact hs.1, by rw [h.1.2]; exact labels_nonNeg d, h.2.2⟩, (h.2.1 reqPos_none).1⟩) fun _ _ h => h.1
  complete := fun g n s hg hs => (wp_bind (complete _) _).2 (fine_complete hω g n s hg hs)
  unit := fun _ h => h.2.2.1

theorem fine_one (hω : ω.Legal) (s : DP K × ℕ) (hs : Fine s.1) : wp ω (random (.int 1)) (fun _ t => DrawnNe core DP.v Fine t.1) (fun _ _ => False) s :=
  wp_mono (wp_and (random_ok hs.1 hs.2.1 (.int 1) (.inr rfl)) (wp_and (random_post (.int 1) s) (wp_of_keeps (random_keeps hω (.int 1)).keeps hs.2.2)))
      (fun _ t h => ⟨⟨by rw [h.1.1]; exact hs.1, by rw [h.1.2]; exact hs.2.1, h.2.2⟩, (h.2.1 reqPos_one).1.stick, (h.2.1 reqPos_one).1.ne⟩) fun _ _ h => h.1

theorem fine_init {alpha : K} (ha : 0 < alpha) : Drawn core DP.v Fine (init alpha) := ⟨⟨ha, nofun, inv_init alpha⟩, rfl⟩
end DP

/-! ## `PitmanYorProcess` -/
namespace PY
/-- Legal parameters and labels. -/
def Fine (s : PY K) : Prop := (0 ≤ s.pyd ∧ s.pyd < 1 ∧ 0 < s.alpha) ∧ NonNegLabels s.d ∧ s.w.length = s.v.length ∧ Inv s

theorem fine_complete (hω : ω.Legal) (g : PySize) (n : ℤ) (s : PY K × ℕ) (hg : g.toInt? = some n) (hs : Fine s.1) :
    wp ω (complete g) (fun _ t => Fine t.1 ∧ CPost s.1.v s.1.w t.1.v t.1.w g) (fun _ _ => False) s :=
  wp_mono (wp_and (complete_ok hs.1.1 hs.1.2.1 hs.1.2.2 hg) (wp_and (complete_post g s hs.2.2.1) (wp_of_keeps (complete_keeps hω g).keeps hs.2.2.2)))
    (fun _ t h => by
      obtain ⟨-, ⟨-, h2, h3, h4, h5⟩, h6⟩ := h
      refine ⟨⟨by rw [h3, h4]; exact hs.1, by rw [h2]; exact hs.2.1, ?_, h6⟩, h5⟩
      rcases h5.w_eq with ⟨e1, e2⟩ | e
      · rw [e1, e2]; exact hs.2.2.1
      · rw [e, stickWeights_length]) fun _ _ h => h.1

theorem fine_random (hω : ω.Legal) (s : PY K × ℕ) (size : PySize) (hs : Fine s.1) (hg : GoodSize s.1.d size) (hp : ReqPos size) :
    wp ω (random size) (fun r t => Fine t.1 ∧ RPost s.1.d size t.1.v t.1.w r) (fun _ _ => False) s :=
  wp_mono (wp_and (random_ok hs.1.1 hs.1.2.1 hs.1.2.2 hs.2.1 hg) (wp_and (random_post size s) (wp_and (wp_of_keeps (random_keeps hω size).keeps hs.2.2.2)
      (wp_of_keeps (random_fixed (· = s.1.Fixed) size).keeps rfl))))
    (fun _ t h => by
      obtain ⟨-, h1, h2, h3⟩ := h
      simp only [Fixed, Prod.mk.injEq] at h3
      obtain ⟨e1, e2, e3⟩ := h3
      refine ⟨⟨by rw [e1, e2]; exact hs.1, by rw [e3]; exact hs.2.1, ?_, h2⟩, (h1 hp).1⟩
      rw [(h1 hp).1.stick, stickWeights_length]) fun _ _ h => h.1

theorem stickOk (hω : ω.Legal) : StickOk (core (K := K)) ω PY.v Fine where
  redraw := fun d s hs hd => fine_random hω ({ s.1 with d := labels d }, s.2) .none ⟨hs.1, labels_nonNeg d, hs.2.2⟩ (.inl ⟨rfl, labels_ne hd⟩) reqPos_none
  complete := fun g n s hg hs => (wp_bind (complete _) _).2 (fine_complete hω g n s hg hs)
  unit := fun _ h => h.2.2.2.1

theorem fine_one (hω : ω.Legal) (s : PY K × ℕ) (hs : Fine s.1) : wp ω (random (.int 1)) (fun _ t => DrawnNe core PY.v Fine t.1) (fun _ _ => False) s :=
  wp_mono (fine_random hω s (.int 1) hs (.inr ⟨1, rfl, by omega⟩) reqPos_one) (fun _ _ h => ⟨h.1, h.2.stick, h.2.ne⟩) fun _ _ h => h

theorem fine_init {pyd alpha : K} (h0 : 0 ≤ pyd) (h1 : pyd < 1) (ha : 0 < alpha) {s : PY K} (hs : init pyd alpha = .ok s) : Drawn core PY.v Fine s := by
  unfold init at hs
  split at hs
  · cases hs
    exact ⟨⟨⟨h0, h1, ha⟩, nofun, rfl, Unit01.nil, SubProb.nil⟩, rfl⟩
  · cases hs
end PY

/-! ## `BetaInBeta` -/
namespace BIB
/-- Legal parameters and labels. -/
def Fine (s : BIB K) : Prop := Valid s ∧ Inv s

theorem fine_of {s t : BIB K} (hs : Fine s) (h : t.Fixed = s.Fixed) (ht : Inv t) : Fine t := by
  simp only [Fixed, Prod.mk.injEq] at h
  obtain ⟨h1, h2, h3, h4, h5, h6⟩ := h
  obtain ⟨hv, -⟩ := hs
  exact ⟨⟨by rw [h1]; exact hv.x0, by rw [h1]; exact hv.x1, by rw [h2]; exact hv.alpha, by rw [h3]; exact hv.a, by rw [h4]; exact hv.b, ht.2.2.1, ht.2.2.2,
    by rw [h1, h5]; exact hv.method, by rw [h6]; exact hv.labels⟩, ht⟩

theorem fine_complete (hω : ω.Legal) (g : PySize) (n : ℤ) (s : BIB K × ℕ) (hg : g.toInt? = some n) (hs : Fine s.1) :
    wp ω (complete g) (fun _ t => Fine t.1 ∧ CPost s.1.v s.1.w t.1.v t.1.w g) (fun _ _ => False) s :=
  wp_mono (wp_and (complete_ok hω hs.1 hg) (wp_and (complete_post g s) (wp_and (wp_of_keeps (complete_keeps hω g).keeps hs.2)
      (wp_of_keeps (complete_fixed (· = s.1.Fixed) g).keeps rfl))))
    (fun _ t h => ⟨fine_of hs h.2.2.2 h.2.2.1, h.2.1.2.2.2.2⟩) fun _ _ h => h.1

theorem fine_random (hω : ω.Legal) (s : BIB K × ℕ) (size : PySize) (hs : Fine s.1) (hg : GoodSize s.1.d size) (hp : ReqPos size) :
    wp ω (random size) (fun r t => Fine t.1 ∧ RPost s.1.d size t.1.v t.1.w r) (fun _ _ => False) s :=
  wp_mono (wp_and (random_ok hω hs.1 hg) (wp_and (random_post size s) (wp_and (wp_of_keeps (random_keeps hω size).keeps hs.2)
      (wp_of_keeps (random_fixed (· = s.1.Fixed) size).keeps rfl))))
    (fun _ t h => ⟨fine_of hs h.2.2.2 h.2.2.1, (h.2.1 hp).1⟩) fun _ _ h => h.1

theorem stickOk (hω : ω.Legal) : StickOk (core (K := K)) ω BIB.v Fine where
  redraw := fun d s hs hd => fine_random hω ({ s.1 with d := labels d }, s.2) .none ⟨{ hs.1 with labels := labels_nonNeg d }, hs.2⟩ (.inl ⟨rfl, labels_ne hd⟩) reqPos_none
  complete := fun g n s hg hs => (wp_bind (complete _) _).2 (fine_complete hω g n s hg hs)
  unit := fun _ h => h.2.1

theorem fine_one (hω : ω.Legal) (s : BIB K × ℕ) (hs : Fine s.1) : wp ω (random (.int 1)) (fun _ t => DrawnNe core BIB.v Fine t.1) (fun _ _ => False) s :=
  wp_mono (fine_random hω s (.int 1) hs (.inr ⟨1, rfl, by omega⟩) reqPos_one) (fun _ _ h => ⟨h.1, h.2.stick, h.2.ne⟩) fun _ _ h => h

theorem fine_init {x alpha a b p : K} {pm : PMethod} (hx0 : 0 ≤ x) (hx1 : x ≤ 1) (hal : 0 < alpha) (ha : 0 < a) (hb : 0 < b) (hp0 : 0 ≤ p) (hp1 : p ≤ 1)
    (hm : pm ≠ .rejectionSampling ∨ x = 0 ∨ x = 1) {s : BIB K} (hs : init x alpha a b p pm = .ok s) : Drawn core BIB.v Fine s := by
  unfold init at hs
  split at hs
  · cases hs
  · rename_i hu
    cases hs
    exact ⟨⟨⟨hx0, hx1, hal, ha, hb, hp0, hp1, ⟨hm, hu⟩, nofun⟩, Unit01.nil, SubProb.nil, hp0, hp1⟩, rfl⟩
end BIB

/-! ## `BetaBinomial` -/
namespace BBin
/-- Legal parameters and labels. -/
def Fine (s : BBin K) : Prop := BInv s ∧ NonNegLabels s.d

theorem fine_complete (hω : ω.Legal) (g : PySize) (n : ℤ) (s : BBin K × ℕ) (hg : g.toInt? = some n) (hs : Fine s.1) :
    wp ω (complete g) (fun _ t => Fine t.1 ∧ CPost s.1.v s.1.w t.1.v t.1.w g) (fun _ _ => False) s :=
  wp_mono (wp_and (complete_ok hω hs.1 g) (wp_and (complete_post g s) (wp_of_keeps (complete_fixed (·.2.2 = s.1.d) g).keeps rfl)))
    (fun _ t h => ⟨⟨h.1.1, by have := h.2.2; change t.1.d = s.1.d at this; rw [this]; exact hs.2⟩, h.2.1.2.2.2.2.2.2⟩) fun _ _ h => by
      have := h.1.2.2
      rw [hg] at this
      cases this

theorem fine_random (hω : ω.Legal) (s : BBin K × ℕ) (size : PySize) (hs : Fine s.1) (hg : GoodSize s.1.d size) (hp : ReqPos size) :
    wp ω (random size) (fun r t => Fine t.1 ∧ RPost s.1.d size t.1.v t.1.w r) (fun _ _ => False) s :=
  wp_mono (wp_and (random_ok hω hs.1 size) (wp_and (random_post size s) (wp_of_keeps (random_fixed (·.2.2 = s.1.d) size).keeps rfl)))
    (fun _ t h => ⟨⟨h.1.1, by have := h.2.2; change t.1.d = s.1.d at this; rw [this]; exact hs.2⟩, (h.2.1 hp).1⟩) fun _ _ h => by
      rcases h.1.2 with ⟨h1, h2⟩ | h1 | h1
      · rcases hg with ⟨-, h3⟩ | ⟨n, h3, -⟩
        · exact h3 h2
        · rw [h1] at h3; cases h3
      · rcases hg with ⟨h3, -⟩ | ⟨n, h3, -⟩ <;> rw [h1] at h3 <;> cases h3
      · exact h1 hs.2

theorem stickOk (hω : ω.Legal) : StickOk (core (K := K)) ω BBin.v Fine where
  redraw := fun d s hs hd => fine_random hω ({ s.1 with d := labels d }, s.2) .none
    ⟨⟨hs.1.n0, hs.1.alpha, hs.1.unit, hs.1.aligned⟩, labels_nonNeg d⟩ (.inl ⟨rfl, labels_ne hd⟩) reqPos_none
  complete := fun g n s hg hs => (wp_bind (complete _) _).2 (fine_complete hω g n s hg hs)
  unit := fun _ h => h.1.unit

theorem fine_one (hω : ω.Legal) (s : BBin K × ℕ) (hs : Fine s.1) : wp ω (random (.int 1)) (fun _ t => DrawnNe core BBin.v Fine t.1) (fun _ _ => False) s :=
  wp_mono (fine_random hω s (.int 1) hs (.inr ⟨1, rfl, by omega⟩) reqPos_one) (fun _ _ h => ⟨h.1, h.2.stick, h.2.ne⟩) fun _ _ h => h

theorem fine_init {n : ℤ} {alpha : K} (hn : 0 ≤ n) (ha : 0 < alpha) : Drawn core BBin.v Fine (init n alpha) := ⟨⟨⟨hn, ha, Unit01.nil, .inl rfl⟩, nofun⟩, rfl⟩
end BBin

/-! ## `GeometricProcess` -/
namespace Geo
/-- Legal parameters and labels. -/
def Fine (s : Geo K) : Prop := (0 < s.a ∧ 0 < s.b ∧ NonNegLabels s.d) ∧ (0 < s.p ∧ ∀ x ∈ s.v, x = s.p) ∧ Inv s

theorem complete_pos (g : PySize) : KeepsR ω (fun s : Geo K => 0 < s.p) (complete g) (fun _ => True) := by
  unfold complete; repeat' hyp_step

theorem random_pos (hβ : ∀ i a b, 0 < ω.beta i a b) (s : Geo K × ℕ) (size : PySize) : wp ω (random size) (fun _ t => 0 < t.1.p) (fun _ _ => True) s := by
  unfold random
  wp_simp
  refine ⟨fun _ => trivial, fun _ => ⟨fun sz _ => ⟨fun _ => trivial, fun _ _ => ?_⟩, fun _ _ => trivial⟩⟩
  exact wp_mono (wp_of_keeps (complete_pos _).keeps (by exact hβ _ _ _)) (fun _ _ h => h) fun _ _ _ => trivial

theorem fine_complete (g : PySize) (n : ℤ) (s : Geo K × ℕ) (hg : g.toInt? = some n) (hs : Fine s.1) :
    wp ω (complete g) (fun _ t => Fine t.1 ∧ CPost s.1.v s.1.w t.1.v t.1.w g) (fun _ _ => False) s :=
  wp_mono (wp_and (complete_ok hg) (wp_and (complete_post g s hs.2.1.2) (wp_and (wp_of_keeps (complete_keeps g).keeps hs.2.2)
      (wp_of_keeps (complete_fixed (· = s.1.Fixed) g).keeps rfl))))
    (fun _ t h => by
      obtain ⟨-, ⟨-, -, h2, -, h3, h4⟩, h5, h6⟩ := h
      simp only [Fixed, Prod.mk.injEq] at h6
      exact ⟨⟨by rw [h6.1, h6.2.1, h6.2.2]; exact hs.1, ⟨by rw [h2]; exact hs.2.1.1, h3⟩, h5⟩, h4⟩) fun _ _ h => h.1

theorem fine_random (hω : ω.Legal) (hβ : ∀ i a b, 0 < ω.beta i a b) (s : Geo K × ℕ) (size : PySize) (hs : Fine s.1) (hg : GoodSize s.1.d size) (hp : ReqPos size) :
    wp ω (random size) (fun r t => Fine t.1 ∧ RPost s.1.d size t.1.v t.1.w r) (fun _ _ => False) s :=
  wp_mono (wp_and (random_ok hs.1.1 hs.1.2.1 hs.1.2.2 hg) (wp_and (random_post size s) (wp_and (wp_of_keeps (random_keeps hω size).keeps hs.2.2)
      (wp_and (wp_of_keeps (random_fixed (· = s.1.Fixed) size).keeps rfl) (random_pos hβ s size)))))
    (fun _ t h => by
      obtain ⟨-, h1, h2, h3, h4⟩ := h
      have h1' := h1 hp fun m hm => hs.1.2.2 m hm.1
      simp only [Fixed, Prod.mk.injEq] at h3
      exact ⟨⟨by rw [h3.1, h3.2.1, h3.2.2]; exact hs.1, ⟨h4, h1'.2.2⟩, h2⟩, h1'.1⟩) fun _ _ h => h.1

theorem stickOk (hω : ω.Legal) (hβ : ∀ i a b, 0 < ω.beta i a b) : StickOk (core (K := K)) ω Geo.v Fine where
  redraw := fun d s hs hd => fine_random hω hβ ({ s.1 with d := labels d }, s.2) .none ⟨⟨hs.1.1, hs.1.2.1, labels_nonNeg d⟩, hs.2⟩ (.inl ⟨rfl, labels_ne hd⟩) reqPos_none
  complete := fun g n s hg hs => (wp_bind (complete _) _).2 (fine_complete g n s hg hs)
  unit := fun _ h => h.2.2.1

theorem tailSize_ok {x p : ℝ} (hp : 0 < p) : ∃ n, tailSize x p = .ok n := by
  unfold tailSize
  rw [if_neg hp.ne']
  split
  · exact ⟨_, rfl⟩
  · exact ⟨_, rfl⟩

theorem tail_drawnOk {ω : Oracle ℝ} (hω : ω.Legal) (hβ : ∀ i a b, 0 < ω.beta i a b) (x : ℝ) (s : Geo ℝ × ℕ) (hs : Mix.Drawn core Geo.v Fine s.1) (h0 : 0 ≤ x) (h1 : x < 1) :
    wp ω (tail x) (fun _ t => Mix.Drawn core Geo.v Fine t.1 ∧ s.1.w.length ≤ t.1.w.length) (fun _ _ => False) s := by
  unfold tail
  rw [if_neg (by push Not; exact ⟨h1, h0⟩), wp_bind, wp_self, wp_bind, wp_lift]
  obtain ⟨n, hn⟩ := tailSize_ok (x := x) hs.1.2.1.1
  rw [hn]
  refine ⟨fun a ha => ?_, nofun⟩
  cases ha
  have h := (wp_bind (complete (.int n)) _).1 ((stickOk hω hβ).complete_drawn (.int n) n s rfl hs)
  rw [wp_bind]
  refine wp_mono h (fun _ t ht => ?_) fun _ _ h => h
  exact ⟨ht.1, ht.2.2⟩

theorem robust {ω : Oracle ℝ} (hω : ω.Legal) (hβ : ∀ i a b, 0 < ω.beta i a b) : Robust cls ω (Mix.Drawn core Geo.v Fine) (Mix.DrawnNe core Geo.v Fine) True False where
  redraw := fun d s hs hd _ => (stickOk hω hβ).redraw_drawn d s hs.1 hd
  tail := fun _ x s hs h0 h1 => wp_mono (tail_drawnOk hω hβ x s ⟨hs.1, hs.2.1⟩ h0 h1) (fun _ t ht =>
    ⟨(stickOk hω hβ).ne_of_length ht.1 (n := 1) le_rfl (by
      have h1 := (stickOk hω hβ).drawnNe_length hs
      have h2 := ht.2
      change 1 ≤ s.1.w.length at h1
      show (1 : ℤ) ≤ (t.1.w.length : ℕ)
      omega), ht.2⟩) fun _ _ h => h.elim
  complete := fun n s hs hn _ => wp_mono ((stickOk hω hβ).complete_drawn (.int n) n s rfl hs)
    (fun _ t ht => ⟨(stickOk hω hβ).ne_of_length ht.1 (by exact_mod_cast hn) ht.2.1, by exact_mod_cast ht.2.1⟩) fun _ _ h => h
  sub := fun s hs => by
    show SubProb (core.getW s)
    rw [hs.2]; exact stickWeights_subProb ((stickOk hω hβ).unit s hs.1)
  total := fun _ _ hn => absurd trivial hn
  ne := fun s hs => List.length_pos_iff.1 ((stickOk hω hβ).drawnNe_length hs)
  weak := fun _ h => ⟨h.1, h.2.1⟩

theorem startsTail {ω : Oracle ℝ} (hω : ω.Legal) (hβ : ∀ i a b, 0 < ω.beta i a b) {s : Geo ℝ} (hs : Mix.Drawn core Geo.v Fine s) (N : ℕ) :
    StartsTail cls ω (Mix.Drawn core Geo.v Fine) True False N s := fun pos _ x h0 h1 =>
  wp_mono (tail_drawnOk hω hβ x (s, pos) hs h0 h1) (fun _ _ ht => ⟨ht.1, .inl trivial⟩) fun _ _ h => h.elim

theorem startsComplete {ω : Oracle ℝ} (hω : ω.Legal) (hβ : ∀ i a b, 0 < ω.beta i a b) {s : Geo ℝ} (hs : Mix.Drawn core Geo.v Fine s) {g : PySize} {n : ℤ} (hg : g.toInt? = some n)
    (N : ℕ) : StartsComplete cls ω (Mix.Drawn core Geo.v Fine) True N s g := fun pos =>
  wp_mono ((stickOk hω hβ).complete_drawn g n (s, pos) hg hs) (fun _ _ ht => ⟨ht.1, .inl trivial⟩) fun _ _ h => h

theorem fine_init {a b p : K} (ha : 0 < a) (hb : 0 < b) (hp : 0 < p) (hp1 : p ≤ 1) : Mix.Drawn core Geo.v Fine (init a b p) :=
  ⟨⟨⟨ha, hb, nofun⟩, ⟨hp, nofun⟩, Unit01.nil, SubProb.nil, hp.le, hp1⟩, rfl⟩
end Geo

/-! ## Classes with finitely many weights -/

/-- The inherited `tail` on weights that sum to one. -/
theorem tail_total {C : WeightCore K} {R : C.State → Prop} (h1 : ∀ s, R s → (C.getW s).sum = 1) (f : ℕ) {x : K} (hx0 : 0 ≤ x) (hx1 : x < 1) (s : C.State × ℕ)
    (h0 : C.getW s.1 = [] → wp ω (C.random (.int 1)) (fun _ t => R t.1) (fun _ _ => False) s) (hs : C.getW s.1 ≠ [] → R s.1) :
    wp ω (C.inheritTail.tail f x) (fun _ t => R t.1) (fun _ _ => False) s := by
  refine wp_mono (wp_tail (C := C) (I := fun t => R t.1) (E := fun _ _ => False) (by push Not; exact ⟨hx1, hx0⟩) (fun t ht hlt => ?_) (fun t ht hlt => ?_) f s h0 hs)
    (fun _ _ h => h.1) fun _ _ h => h
  · rw [h1 _ ht] at hlt; linarith
  · rw [h1 _ ht] at hlt; linarith

/-- On weights that sum to one `tail` does nothing. -/
theorem tail_same {C : WeightCore K} (f : ℕ) {x : K} (hx0 : 0 ≤ x) (hx1 : x < 1) (s : C.State × ℕ) (h1 : (C.getW s.1).sum = 1) :
    wp ω (C.inheritTail.tail f x) (fun _ t => t = s) (fun _ _ => False) s := by
  have hne : C.getW s.1 ≠ [] := by rintro h; rw [h] at h1; simp at h1
  refine wp_mono (wp_tail (C := C) (I := fun t => t = s) (E := fun _ _ => False) (by push Not; exact ⟨hx1, hx0⟩) (fun t ht hlt => ?_) (fun t ht hlt => ?_) f s
    (fun h => absurd h hne) fun _ => rfl) (fun _ _ h => h.1) fun _ _ h => h
  · rw [ht, h1] at hlt; linarith
  · rw [ht, h1] at hlt; linarith

namespace DirDist
/-- `n ≥ 1` positive parameters, labels of existing components. -/
def Fine (n : ℕ) (s : DirDist K) : Prop := (∀ x ∈ s.alpha, 0 < x) ∧ s.alpha.length = n ∧ 1 ≤ n ∧ LabelsBelow s.d n

/-- The weights are a point of the simplex. -/
def OnSimplex (n : ℕ) (s : DirDist K) : Prop := Fine n s ∧ s.w.length = n ∧ (∀ x ∈ s.w, 0 ≤ x) ∧ s.w.sum = 1

theorem fine_random (hω : ω.Legal) (n : ℕ) (s : DirDist K × ℕ) (size : PySize) (hs : Fine n s.1) :
    wp ω (random size) (fun r t => OnSimplex n t.1 ∧ r = t.1.w) (fun _ _ => False) s := by
  obtain ⟨t, h1, h2, h3, -⟩ := random_draw (ω := ω) hs.1 rfl size (by rw [hs.2.1]; exact hs.2.2.2)
  have h4 := wp_of_ok h1 (wp_of_keeps (random_fixed (ω := ω) (·.2.1 = s.1.alpha) size).keeps (s := s) rfl)
  change t.1.alpha = s.1.alpha at h4
  unfold wp
  rw [h1]
  have hl : (dirichletPosterior s.1.alpha s.1.d).length = n := by simp [dirichletPosterior, hs.2.1]
  have hne : dirichletPosterior s.1.alpha s.1.d ≠ [] := by
    rintro h
    rw [h] at hl
    have := hs.2.2.1
    simp at hl
    omega
  have hF : Fine n t.1 := ⟨by rw [h4]; exact hs.1, by rw [h4]; exact hs.2.1, hs.2.2.1, by rw [h3]; exact hs.2.2.2⟩
  exact ⟨⟨hF, by rw [h2, hω.dirichlet_length, hl], by rw [h2]; exact hω.dirichlet_nonneg _ _, by rw [h2]; exact hω.dirichlet_sum _ _ hne⟩, h2.symm⟩

theorem fine_complete (hω : ω.Legal) (n : ℕ) (s : DirDist K × ℕ) (g : PySize) {k : ℤ} (hg : g.toInt? = some k) (hs : Fine n s.1) (hw : s.1.w = [] ∨ OnSimplex n s.1) :
    wp ω (complete g) (fun _ t => OnSimplex n t.1) (fun _ _ => False) s := by
  unfold complete
  rw [checkSize_ok hg, wp_bind, wp_lift]
  refine ⟨fun _ _ => ?_, nofun⟩
  rw [wp_bind, wp_self, wp_bind, wp_whenM]
  refine ⟨fun _ => ?_, fun h => ?_⟩
  · rw [wp_bind]
    exact wp_mono (fine_random hω n s .none hs) (fun _ t ht => ht.1) fun _ _ h => h
  · rcases hw with hw | hw
    · exact absurd (by rw [hw]; rfl) h
    · exact hw

theorem robust (hω : ω.Legal) (n : ℕ) : Robust (cls (K := K)) ω (OnSimplex n) (OnSimplex n) False False where
  redraw := fun d s hs hd hlt => by
    have hF : Fine n ({ s.1 with d := labels d } : DirDist K) := ⟨hs.1.1, hs.1.2.1, hs.1.2.2.1, fun x hx => by
      obtain ⟨k, hk, rfl⟩ := List.mem_map.1 hx
      have := hlt k hk
      change k < s.1.w.length at this
      rw [hs.2.1] at this
      omega⟩
    refine wp_mono (fine_random hω n ({ s.1 with d := labels d }, s.2) .none hF) (fun w t ht => ⟨ht.1, ht.2, fun x hx => ?_⟩) fun _ _ h => h
    have := hlt x hx
    change x < s.1.w.length at this
    rw [ht.2, ht.1.2.1, ← hs.2.1]
    exact this
  tail := fun f x s hs h0 h1 => wp_mono (tail_same (C := core) f h0 h1 s hs.2.2.2) (fun _ t ht => by rw [ht]; exact ⟨hs, le_rfl⟩) fun _ _ h => h.elim
  complete := fun k s hs hk hle => (wp_bind (complete _) _).2 <| wp_mono (fine_complete hω n s (.int k) rfl hs.1 (.inr hs)) (fun _ t ht => ⟨ht, by
      rcases hle with h | h
      · exact h.elim
      · change k ≤ s.1.w.length at h
        show k ≤ t.1.w.length
        rw [ht.2.1, ← hs.2.1]; exact h⟩) fun _ _ h => h
  sub := fun s hs => ⟨hs.2.2.1, hs.2.2.2.le⟩
  total := fun s hs _ => hs.2.2.2
  ne := fun s hs h => by
    have h1 := hs.2.1
    have h2 := hs.1.2.2.1
    change s.w = [] at h
    rw [h] at h1
    simp at h1
    omega
  weak := fun _ h => h

theorem startsTail (hω : ω.Legal) {n : ℕ} {s : DirDist K} (hs : Fine n s) (hw : s.w = [] ∨ OnSimplex n s) : StartsTail (cls (K := K)) ω (OnSimplex n) False False n s :=
  fun pos f x h0 h1 => wp_mono (tail_total (C := core) (R := OnSimplex n) (fun _ h => h.2.2.2) f h0 h1 (s, pos)
    (fun _ => wp_mono (fine_random hω n (s, pos) (.int 1) hs) (fun _ _ h => h.1) fun _ _ h => h) (fun h => hw.resolve_left h))
    (fun _ t h => ⟨h, .inr h.2.1.ge⟩) fun _ _ h => h.elim

theorem startsComplete (hω : ω.Legal) {n : ℕ} {s : DirDist K} (hs : Fine n s) (hw : s.w = [] ∨ OnSimplex n s) {g : PySize} {k : ℤ} (hg : g.toInt? = some k) :
    StartsComplete (cls (K := K)) ω (OnSimplex n) False n s g := fun pos =>
  (wp_bind (complete _) _).2 <| wp_mono (fine_complete hω n (s, pos) g hg hs hw) (fun _ _ h => ⟨h, .inr h.2.1.ge⟩) fun _ _ h => h
end DirDist

/-- `1/n` repeated `n ≥ 1` times. -/
theorem uniformWeights_ok {n : ℤ} (hn : 1 ≤ n) : ∃ w : List K, uniformWeights n = .ok w ∧ w.length = n.toNat ∧ w.sum = 1 := by
  have hpos : (0 : K) < (n : K) := by exact_mod_cast (by omega : (0 : ℤ) < n)
  refine ⟨List.replicate n.toNat (1 / (n : K)), ?_, by simp, ?_⟩
  · unfold uniformWeights Py.repeatScalar
    rw [if_neg (by omega), if_neg (by omega)]
  · rw [List.sum_replicate, nsmul_eq_mul]
    have : ((n.toNat : ℕ) : K) = (n : K) := by
      have : ((n.toNat : ℕ) : ℤ) = n := by omega
      exact_mod_cast this
    rw [this, mul_one_div_cancel hpos.ne']

namespace Equal
/-- The weights are `1/n`. -/
def Flat (n : ℤ) (s : Equal K) : Prop := 1 ≤ n ∧ s.n = n ∧ uniformWeights n = .ok s.w

theorem flat_len {n : ℤ} {s : Equal K} (h : Flat n s) : s.w.length = n.toNat ∧ s.w.sum = 1 := by
  obtain ⟨w, h1, h2, h3⟩ := uniformWeights_ok (K := K) h.1
  have := h.2.2
  rw [h1] at this
  cases this
  exact ⟨h2, h3⟩

theorem flat_random {n : ℤ} (hn : 1 ≤ n) (s : Equal K × ℕ) (hs : s.1.n = n) (size : PySize) :
    wp ω (random size) (fun r t => Flat n t.1 ∧ r = t.1.w) (fun _ _ => False) s := by
  obtain ⟨w, h1, -, -⟩ := uniformWeights_ok (K := K) hn
  unfold random
  rw [wp_bind, wp_self, wp_bind, wp_lift, hs, h1]
  refine ⟨fun a ha => ?_, nofun⟩
  cases ha
  rw [wp_bind, wp_assign, wp_pure]
  exact ⟨⟨hn, hs, h1⟩, rfl⟩

theorem robust (n : ℤ) : Robust (cls (K := K)) ω (Flat n) (Flat n) False False where
  redraw := fun d s hs hd hlt => wp_mono (flat_random hs.1 ({ s.1 with d := labels d }, s.2) hs.2.1 .none) (fun w t ht => ⟨ht.1, ht.2, fun x hx => by
    have := hlt x hx
    change x < s.1.w.length at this
    rw [ht.2, (flat_len ht.1).1, ← (flat_len hs).1]; exact this⟩) fun _ _ h => h
  tail := fun f x s hs h0 h1 => wp_mono (tail_same (C := core) f h0 h1 s (flat_len hs).2) (fun _ t ht => by rw [ht]; exact ⟨hs, le_rfl⟩) fun _ _ h => h.elim
  complete := fun k s hs hk hle => (wp_bind (random _) _).2 <| wp_mono (flat_random hs.1 s hs.2.1 (.int k)) (fun _ t ht => ⟨ht.1, by
      rcases hle with h | h
      · exact h.elim
      · change k ≤ s.1.w.length at h
        show k ≤ t.1.w.length
        rw [(flat_len ht.1).1, ← (flat_len hs).1]; exact h⟩) fun _ _ h => h
  sub := fun s hs => uniformWeights_subProb hs.2.2
  total := fun s hs _ => (flat_len hs).2
  ne := fun s hs => (uniform_ne hs.2.2).1
  weak := fun _ h => h

theorem startsTail {n : ℤ} (hn : 1 ≤ n) {s : Equal K} (hs : s.n = n) (hw : s.w = [] ∨ Flat n s) : StartsTail (cls (K := K)) ω (Flat n) False False n.toNat s :=
  fun pos f x h0 h1 => wp_mono (tail_total (C := core) (R := Flat n) (fun _ h => (flat_len h).2) f h0 h1 (s, pos)
    (fun _ => wp_mono (flat_random hn (s, pos) hs (.int 1)) (fun _ _ h => h.1) fun _ _ h => h) (fun h => hw.resolve_left h))
    (fun _ t h => ⟨h, .inr (flat_len h).1.ge⟩) fun _ _ h => h.elim

theorem startsComplete {n : ℤ} (hn : 1 ≤ n) {s : Equal K} (hs : s.n = n) (g : PySize) : StartsComplete (cls (K := K)) ω (Flat n) False n.toNat s g := fun pos =>
  (wp_bind (random _) _).2 <| wp_mono (flat_random hn (s, pos) hs g) (fun _ _ h => ⟨h.1, .inr (flat_len h.1).1.ge⟩) fun _ _ h => h
end Equal

namespace Freq
/-- The weights are those of the present labels, `N` of them. -/
def Now (N : ℕ) (s : Freq K) : Prop := 1 ≤ s.n ∧ NonNegLabels s.d ∧ (s.d = [] → N = s.n.toNat) ∧ (∀ m : ℕ, IsMaxLabel s.d m → N = m + 1)

theorem now_random {N : ℕ} (s : Freq K × ℕ) (hs : Now N s.1) (size : PySize) :
    wp ω (random size) (fun r t => Now N t.1 ∧ r = t.1.w ∧ t.1.w.length = N ∧ SubProb t.1.w ∧ t.1.w.sum = 1 ∧ t.1.w ≠ []) (fun _ _ => False) s := by
  unfold random draw
  rw [wp_bind, wp_bind, wp_self, wp_ite]
  refine ⟨fun h => ?_, fun h => ?_⟩
  · obtain ⟨w, h1, h2, h3⟩ := uniformWeights_ok (K := K) hs.1
    rw [wp_bind, wp_lift, h1]
    refine ⟨fun a ha => ?_, nofun⟩
    cases ha
    rw [wp_assign, wp_bind, wp_self, wp_pure]
    have hne : w ≠ [] := by rintro rfl; simp at h3
    exact ⟨hs, rfl, by rw [hs.2.2.1 (List.length_eq_zero_iff.1 h)]; exact h2, uniformWeights_subProb h1, h3, hne⟩
  · have hne : s.1.d ≠ [] := fun h' => h (by rw [h']; rfl)
    obtain ⟨a, hb, hA⟩ := bincount_ok hs.2.1
    rw [wp_bind, wp_lift, hb]
    refine ⟨fun a ha => ?_, nofun⟩
    cases ha
    rw [wp_assign, wp_bind, wp_self, wp_pure]
    obtain ⟨m, -, hm⟩ := maxInt_ok hne
    obtain ⟨k, rfl⟩ : ∃ k : ℕ, m = k := ⟨m.toNat, by have := hs.2.1 m hm.1; omega⟩
    have hl := hA.length_eq hm
    have hsum : (frequencies a : List K).sum = 1 := by
      unfold frequencies
      rw [sum_map_div, div_self]
      have := hA.sum_eq
      have hpos : 0 < a.sum := by rw [this]; exact List.length_pos_iff.2 hne
      exact_mod_cast hpos.ne'
    refine ⟨hs, rfl, ?_, frequencies_subProb _, hsum, ?_⟩
    · show (frequencies a : List K).length = N
      rw [hs.2.2.2 k hm]
      simp only [frequencies, List.length_map]
      omega
    · show (frequencies a : List K) ≠ []
      intro h'
      rw [h'] at hsum
      simp at hsum

/-- The weights are those of the present labels. -/
def Ready (s : Freq K) : Prop := Now s.w.length s ∧ SubProb s.w ∧ s.w.sum = 1 ∧ s.w ≠ []

theorem ready_random {N : ℕ} (s : Freq K × ℕ) (hs : Now N s.1) (size : PySize) :
    wp ω (random size) (fun r t => Ready t.1 ∧ r = t.1.w ∧ t.1.w.length = N) (fun _ _ => False) s :=
  wp_mono (now_random s hs size) (fun _ t h => ⟨⟨by rw [h.2.2.1]; exact h.1, h.2.2.2.1, h.2.2.2.2.1, h.2.2.2.2.2⟩, h.2.1, h.2.2.1⟩) fun _ _ h => h

theorem robust : Robust (cls (K := K)) ω Ready Ready False False where
  redraw := fun d s hs hd hlt => by
    obtain ⟨m, -, hm⟩ := maxInt_ok (labels_ne hd)
    obtain ⟨k, rfl⟩ : ∃ k : ℕ, m = k := ⟨m.toNat, by have := labels_nonNeg d m hm.1; omega⟩
    have hN : Now (k + 1) ({ s.1 with d := labels d } : Freq K) := ⟨hs.1.1, labels_nonNeg d, fun h => absurd h (labels_ne hd), fun j hj => by
      have h1 := hm.2 _ hj.1
      have h2 := hj.2 _ hm.1
      omega⟩
    refine wp_mono (ready_random ({ s.1 with d := labels d }, s.2) hN .none) (fun w t ht => ⟨ht.1, ht.2.1, fun x hx => ?_⟩) fun _ _ h => h
    have := hm.2 (x : ℤ) (List.mem_map_of_mem hx)
    rw [ht.2.1, ht.2.2]
    omega
  tail := fun f x s hs h0 h1 => wp_mono (tail_same (C := core) f h0 h1 s hs.2.2.1) (fun _ t ht => by rw [ht]; exact ⟨hs, le_rfl⟩) fun _ _ h => h.elim
  complete := fun k s hs hk hle => (wp_bind (random _) _).2 <| wp_mono (ready_random s hs.1 (.int k)) (fun _ t ht => ⟨ht.1, by
      rcases hle with h | h
      · exact h.elim
      · change k ≤ s.1.w.length at h
        show k ≤ t.1.w.length
        rw [ht.2.2]; exact h⟩) fun _ _ h => h
  sub := fun s hs => hs.2.1
  total := fun s hs _ => hs.2.2.1
  ne := fun s hs => hs.2.2.2
  weak := fun _ h => h

theorem startsTail {N : ℕ} {s : Freq K} (hs : Now N s) (hw : s.w = [] ∨ (Ready s ∧ s.w.length = N)) : StartsTail (cls (K := K)) ω Ready False False N s :=
  fun pos f x h0 h1 => wp_mono (tail_total (C := core) (R := fun s => Ready s ∧ s.w.length = N) (fun _ h => h.1.2.2.1) f h0 h1 (s, pos)
    (fun _ => wp_mono (ready_random (s, pos) hs (.int 1)) (fun _ _ h => ⟨h.1, h.2.2⟩) fun _ _ h => h) (fun h => hw.resolve_left h))
    (fun _ t h => ⟨h.1, .inr h.2.ge⟩) fun _ _ h => h.elim

theorem startsComplete {N : ℕ} {s : Freq K} (hs : Now N s) (g : PySize) : StartsComplete (cls (K := K)) ω Ready False N s g := fun pos =>
  (wp_bind (random _) _).2 <| wp_mono (ready_random (s, pos) hs g) (fun _ _ h => ⟨h.1, .inr h.2.2.ge⟩) fun _ _ h => h

theorem now_init {n : ℤ} (hn : 1 ≤ n) : Now n.toNat (init n : Freq K) := ⟨hn, nofun, fun _ => rfl, fun m hm => by cases hm.1⟩
end Freq
end Verif
