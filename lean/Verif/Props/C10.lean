import Verif.Lemmas.Reach
import Verif.Lemmas.Demo
import Verif.Props.C02

/-!
# C10: geometric process: conjugate parameter and geometric decay

After any history of `GeometricProcess(a, b)` with non-negative labels `d`, `random` succeeds, redraws `p` from
`Beta(a + n, b + sum(d))` and returns `p(1-p)^j`, `j < N`.  After any history at all, whatever `complete(n)` shows is the geometric sequence
of the `p` stored in the object, and `complete` does not change `p`: a later `complete` extends the same sequence.
-/

set_option linter.unusedSectionVars false

namespace Verif
open Spec
variable {K : Type} [Field K] [LinearOrder K] [IsStrictOrderedRing K]

theorem stickWeights_const {p : K} {v : List K} (h : ∀ x ∈ v, x = p) : IsGeometric p v.length (stickWeights v) := by
  refine ⟨stickWeights_length v, fun j hj => ?_⟩
  have hv : v = List.replicate v.length p := List.eq_replicate_iff.2 ⟨rfl, h⟩
  have h1 : v[j]? = some p := by
    rw [List.getElem?_eq_getElem hj, h _ (List.getElem_mem hj)]
  rw [(stickWeights_isStick v).2 j p h1]
  have h2 : (v.take j).map (fun y => 1 - y) = List.replicate j (1 - p) := by
    rw [List.eq_replicate_iff]
    refine ⟨by simp; omega, ?_⟩
    intro x hx
    obtain ⟨y, hy, rfl⟩ := List.mem_map.1 hx
    rw [h y (List.mem_of_mem_take hy)]
  rw [h2, List.prod_replicate]

section
variable (log : ℝ → ℝ) {ω : Oracle ℝ} (pos : ℕ) (ops : List (WOp ℝ)) {a b p0 : ℝ}

theorem Geo.random_draw (ha : 0 < a) (hb : 0 < b) {s : Geo ℝ × ℕ} (hh : s.1.a = a ∧ s.1.b = b)
    (hd : NonNegLabels s.1.d) {size : PySize} {N : ℕ}
    (hN : (size.toInt? = some (N : ℤ) ∧ 1 ≤ N) ∨ (size = .none ∧ IsMaxLabel s.1.d ((N : ℤ) - 1))) :
    ∃ r t, Geo.random size ω s = (.ok r, t) ∧ r = t.1.w ∧ t.2 = s.2 + 1 ∧
      t.1.p = ω.beta s.2 (a + (s.1.d.length : ℝ)) (b + ((s.1.d.sum : ℤ) : ℝ)) ∧ IsGeometric t.1.p N r := by
  have hgood : GoodSize s.1.d size := by
    rcases hN with ⟨h, _⟩ | ⟨h, h'⟩
    · exact .inr ⟨_, h, by omega⟩
    · exact .inl ⟨h, List.ne_nil_of_mem h'.1⟩
  have hreq : ReqPos size := by
    rcases hN with ⟨h, h'⟩ | ⟨h, _⟩
    · exact .inr ⟨_, h, by omega⟩
    · exact .inl h
  have h1 := Geo.random_ok (s := s) (ω := ω) (by rw [hh.1]; exact ha) (by rw [hh.2]; exact hb) hd hgood
  have h2 := Geo.random_post (ω := ω) size s
  -- the parameter and the number of weights
  have h3 : wp ω (Geo.random size) (fun _ t => t.2 = s.2 + 1 ∧
      t.1.p = ω.beta s.2 (a + (s.1.d.length : ℝ)) (b + ((s.1.d.sum : ℤ) : ℝ)) ∧ t.1.v.length = N) (fun _ _ => True) s := by
    unfold Geo.random
    rw [wp_bind, wp_self, wp_ite]
    refine ⟨fun _ => trivial, fun _ => ?_⟩
    rw [wp_bind, wp_lift]
    refine ⟨fun sz hsz => ?_, fun _ _ => trivial⟩
    have hszN : sz.toInt? = some (N : ℤ) := by
      rcases hN with ⟨h, _⟩ | ⟨rfl, h⟩
      · cases size <;> simp [Geo.resolveSize, PySize.toInt?] at h hsz ⊢
        · rw [← hsz]; simp [h]
        · rw [← hsz]; simp [h]
      · have := maxInt_eq_ok_iff.2 h
        simp only [Geo.resolveSize, this] at hsz
        cases hsz
        simp [PySize.toInt?]
    rw [wp_bind, wp_assign, wp_bind, wp_beta]
    refine ⟨fun _ => trivial, fun _ _ => ?_⟩
    rw [wp_bind, wp_assign, wp_bind]
    refine wp_mono (Geo.complete_post sz _ nofun) ?_ (fun _ _ _ => trivial)
    rintro _ t ⟨_, _, hp, hpos, _, hc⟩
    wp_simp
    rw [hp, hpos]
    refine ⟨rfl, by rw [hh.1, hh.2], ?_⟩
    have hN1 : 1 ≤ N := by
      rcases hN with ⟨_, h⟩ | ⟨_, h⟩
      · exact h
      · have := hd _ h.1; omega
    have := (hc.len N hszN).2 (by omega) (by simp)
    exact_mod_cast this
  obtain ⟨r, t, h, _, hpost, e1, e2, e3⟩ := wp_total (wp_mono (wp_and h1 (wp_and h2 h3)) (fun _ _ h => h) (fun _ _ h => h.1))
  obtain ⟨hr, _, hall⟩ := hpost hreq (fun m hm => hd m hm.1)
  refine ⟨r, t, h, hr.ret, e1, e2, ?_⟩
  rw [hr.ret, hr.stick, ← e3]
  exact stickWeights_const hall

theorem C10_random (ha : 0 < a) (hb : 0 < b) {s : Geo ℝ × ℕ} (hs : Geo.cls.run log ω (Geo.init a b p0, pos) ops = s)
    (hd : NonNegLabels s.1.d) {size : PySize} {N : ℕ}
    (hN : (size.toInt? = some (N : ℤ) ∧ 1 ≤ N) ∨ (size = .none ∧ IsMaxLabel s.1.d ((N : ℤ) - 1))) :
    ∃ r t, Geo.random size ω s = (.ok r, t) ∧ r = t.1.w ∧ t.2 = s.2 + 1 ∧
      t.1.p = ω.beta s.2 (a + (s.1.d.length : ℝ)) (b + ((s.1.d.sum : ℤ) : ℝ)) ∧ IsGeometric t.1.p N r := by
  have hh := Geo.reach_hyper (ω := ω) log pos ops a b p0
  rw [hs] at hh
  exact Geo.random_draw ha hb hh hd hN

/-- After any history `complete(n)`, `n ≥ 1`, shows the geometric sequence of the stored `p`, draws nothing and keeps `p`. -/
theorem C10_complete {s : Geo ℝ × ℕ} (hs : Geo.cls.run log ω (Geo.init a b p0, pos) ops = s) {n : ℤ} (hn : 1 ≤ n) :
    ∃ r t, Geo.complete (.int n) ω s = (.ok r, t) ∧ r = t.1.w ∧ t.1.p = s.1.p ∧ t.2 = s.2 ∧
      IsGeometric s.1.p (max n.toNat s.1.v.length) r := by
  have hS := Geo.reach_ginv (ω := ω) log pos ops a b p0
  rw [hs] at hS
  obtain ⟨r, t, h, _, hr, _, hp, hpos, hall, hc⟩ := wp_total (wp_mono (wp_and (Geo.complete_ok (s := s) (ω := ω) (size := .int n) rfl)
    (Geo.complete_post _ _ hS.1)) (fun _ _ h => h) (fun _ _ h => h.1))
  refine ⟨r, t, h, hr, hp, hpos, ?_⟩
  have hl := hc.len n rfl
  have hne : t.1.v ≠ [] := by
    intro h0; rw [h0] at hl; simp at hl; omega
  have hlen : t.1.v.length = max n.toNat s.1.v.length := by
    by_cases hlt : (s.1.v.length : ℤ) ≤ n
    · have := hl.2 hn hlt; omega
    · have hv : s.1.v ≠ [] := by intro h0; rw [h0] at hlt; simp at hlt; omega
      have := hc.stop n rfl hv (by omega)
      rw [this]; omega
  rw [hr, hc.sinv hS.2 hne, ← hlen, ← hp]
  exact stickWeights_const hall
end

/-! Non-vacuity: `d = [0, 2]`, `a = b = 1`: `p` comes from `Beta(3, 3)`. -/
example : (Geo.random .none meanO ((⟨1, 1, 1/3, [], [], [0, 2]⟩, 0) : Geo ℚ × ℕ)).1 = .ok [1/2, 1/4, 1/8] := by decide +kernel
example : (Geo.complete (.int 3) meanO ((⟨1, 1, 1/3, [1/3], [1/3], []⟩, 0) : Geo ℚ × ℕ)).1 = .ok [1/3, 2/9, 4/27] := by
  decide +kernel
example : ∃ s : Geo ℝ × ℕ, Geo.cls.run id meanO (Geo.init 1 1 (1/2), 0) [.fit [0, 2]] = s ∧ s.1.d = [0, 2] ∧
    NonNegLabels s.1.d ∧ IsMaxLabel s.1.d 2 := ⟨_, rfl, rfl, by simp [NonNegLabels, WeightClass.run, WeightClass.step, BaseWeight.fit,
      Geo.cls, Geo.core], by simp [IsMaxLabel, WeightClass.run, WeightClass.step, BaseWeight.fit, Geo.cls, Geo.core]⟩

end Verif
