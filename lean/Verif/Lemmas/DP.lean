import Verif.Model.DirichletProcess
import Verif.Lemmas.Misc

/-! # Closed forms of the Dirichlet process methods -/

set_option linter.unusedSectionVars false
set_option linter.unusedSimpArgs false

namespace Verif
open Spec
variable {K : Type} [Field K] [LinearOrder K] [IsStrictOrderedRing K]

namespace DP

theorem complete_none (ω : Oracle K) (s : DP K × ℕ) : complete .none ω s = (.error .typeError, s) := by
  simp [complete, BaseWeight.checkSize, PySize.toInt?]

theorem complete_other (ω : Oracle K) (s : DP K × ℕ) : complete .other ω s = (.error .typeError, s) := by
  simp [complete, BaseWeight.checkSize, PySize.toInt?]

theorem complete_num {size : PySize} {n : ℤ} (h : size.toInt? = some n) (ω : Oracle K) (s : DP K × ℕ) :
    complete size ω s =
      if (s.1.v.length : ℤ) < n then
        if s.1.alpha ≤ 0 then (.error .valueError, s)
        else
          (.ok (stickWeights (s.1.v ++
              M.betaValues ω s.2 (List.replicate (n - s.1.v.length).toNat (1, s.1.alpha)))),
            ({ s.1 with
                v := s.1.v ++ M.betaValues ω s.2 (List.replicate (n - s.1.v.length).toNat (1, s.1.alpha)),
                w := stickWeights (s.1.v ++
                  M.betaValues ω s.2 (List.replicate (n - s.1.v.length).toNat (1, s.1.alpha))) },
              s.2 + (n - s.1.v.length).toNat))
      else (.ok s.1.w, s) := by
  have hc : BaseWeight.checkSize size = .ok () := by cases size <;> simp_all [BaseWeight.checkSize, PySize.toInt?]
  simp only [complete, hc, h, M.bind_apply, M.lift_ok, M.self_apply, M.ite_apply', M.assign_apply, M.pure_apply]
  by_cases hlt : (s.1.v.length : ℤ) < n
  · have h1 : ¬ (1 : K) ≤ 0 := not_le.2 zero_lt_one
    have h2 : ¬ (n - (s.1.v.length : ℤ) < 0) := by omega
    by_cases ha : s.1.alpha ≤ 0 <;> simp [M.betaRep, h1, h2, ha, hlt]
  · simp [hlt]

/-- On success the returned array is `self.w`. -/
theorem complete_ret {size : PySize} {ω : Oracle K} {s s' : DP K × ℕ} {w : List K}
    (h : complete size ω s = (.ok w, s')) : s'.1.w = w := by
  cases hs : size.toInt? with
  | none =>
    cases size <;> simp [PySize.toInt?] at hs
    · rw [complete_none] at h; cases h
    · rw [complete_other] at h; cases h
  | some n =>
    rw [complete_num hs] at h
    split at h
    · split at h <;> cases h; rfl
    · cases h; rfl

/-- The parameters used by the fitted branch for a given size. -/
def reqParams (alpha : K) (a_c : List ℕ) (size : PySize) : List (K × K) :=
  match size.toInt? with
  | some n => if n < (a_c.length : ℤ) then Py.sliceTo (params alpha a_c (revTails a_c)) n
      else params alpha a_c (revTails a_c)
  | none => params alpha a_c (revTails a_c)

theorem random_unfitted_none (ω : Oracle K) (s : DP K × ℕ) (h : s.1.d = []) :
    random .none ω s = (.error .valueError, s) := by
  simp [random, h]

theorem random_np (ω : Oracle K) (s : DP K × ℕ) (n : ℤ) : random (.np n) ω s = (.error .typeError, s) := by
  simp [random]

theorem random_other (ω : Oracle K) (s : DP K × ℕ) : random .other ω s = (.error .typeError, s) := by
  simp [random]

theorem random_unfitted (ω : Oracle K) (s : DP K × ℕ) (n : ℤ) (h : s.1.d = []) :
    random (.int n) ω s = complete (.int n) ω ({ s.1 with v := [] }, s.2) := by
  simp only [random, h, M.bind_apply, M.self_apply, M.assign_apply, List.length_nil,
    reduceCtorEq, false_and, if_false, if_true, M.pure_apply]

theorem random_fitted_err (ω : Oracle K) (s : DP K × ℕ) (size : PySize) (hd : s.1.d ≠ [])
    (hsz : size = .none ∨ ∃ n, size = .int n) {e : PyErr} (hb : Py.bincount s.1.d = .error e) :
    random size ω s = (.error e, ({ s.1 with v := [] }, s.2)) := by
  have hl : ¬ s.1.d.length = 0 := by simpa using hd
  rcases hsz with rfl | ⟨n, rfl⟩ <;> simp [random, randomFitted, hd, hb]

theorem random_fitted (ω : Oracle K) (s : DP K × ℕ) (size : PySize) (hd : s.1.d ≠ [])
    (hsz : size = .none ∨ ∃ n, size = .int n) {a_c : List ℕ} (hb : Py.bincount s.1.d = .ok a_c) :
    random size ω s =
      if (reqParams s.1.alpha a_c size).any (fun p => decide (p.1 ≤ 0 ∨ p.2 ≤ 0)) then
        (.error .valueError, ({ s.1 with v := [] }, s.2))
      else
        let v := M.betaValues ω s.2 (reqParams s.1.alpha a_c size)
        let s1 : DP K × ℕ := ({ s.1 with v := v, w := stickWeights v }, s.2 + v.length)
        if size = .none then (.ok (stickWeights v), s1) else complete size ω s1 := by
  have hl : ¬ s.1.d.length = 0 := by simpa using hd
  have ha : a_c ≠ [] := (IsBincount.of_ok hb).ne_nil hd
  have hlen : a_c.length = (revTails a_c).length := (revTails_length ha).symm
  rcases hsz with rfl | ⟨n, rfl⟩
  · simp only [random, randomFitted, drawSticks, M.whenM_apply, hb, M.bind_apply, M.self_apply, M.ite_apply', M.assign_apply, hl, and_false, if_false,
      if_true, M.pure_apply, M.lift_ok, PySize.toInt?, reqParams, M.betaVec]
    by_cases hp : (params s.1.alpha a_c (revTails a_c)).any (fun p => decide (p.1 ≤ 0 ∨ p.2 ≤ 0)) = true
    · simp only [hp, if_true]
    · simp only [hp]
      simp
  · simp only [random, randomFitted, drawSticks, M.whenM_apply, hb, M.bind_apply, M.self_apply, M.ite_apply', M.assign_apply, hl, and_false, if_false,
      if_true, M.pure_apply, M.lift_ok, PySize.toInt?, reqParams, M.betaVec, reduceCtorEq, ne_eq, not_false_eq_true]
    have hsl : params s.1.alpha (Py.sliceTo a_c n) (Py.sliceTo (revTails a_c) n)
        = Py.sliceTo (params s.1.alpha a_c (revTails a_c)) n := sliceTo_zipWith _ _ _ hlen n
    by_cases hn : n < (a_c.length : ℤ)
    · simp only [hn, if_true, hsl]
      by_cases hp : (Py.sliceTo (params s.1.alpha a_c (revTails a_c)) n).any (fun p => decide (p.1 ≤ 0 ∨ p.2 ≤ 0)) = true
      · simp only [hp, if_true]
      · simp only [hp, Bool.false_eq_true, if_false, M.betaValues_length]
        rcases hc : complete (.int n) ω _ with ⟨e | w, s'⟩
        · simp
        · simp [complete_ret hc]
    · simp only [hn, if_false]
      by_cases hp : (params s.1.alpha a_c (revTails a_c)).any (fun p => decide (p.1 ≤ 0 ∨ p.2 ≤ 0)) = true
      · simp only [hp, if_true]
      · simp only [hp, Bool.false_eq_true, if_false, M.betaValues_length]
        rcases hc : complete (.int n) ω _ with ⟨e | w, s'⟩
        · simp
        · simp [complete_ret hc]

/-- Requested Beta parameters of stick `j`. -/
def post (alpha : K) (d : List ℤ) (j : ℕ) : K × K := (1 + (nEq d j : K), alpha + (nGt d j : K))

theorem post_legal {alpha : K} (h : 0 < alpha) (d : List ℤ) (n : ℕ) :
    ((List.range n).map (post alpha d)).any (fun p => decide (p.1 ≤ 0 ∨ p.2 ≤ 0)) = false := by
  apply betaParams_legal
  intro p hp
  obtain ⟨j, _, rfl⟩ := List.mem_map.1 hp
  have h1 : (0 : K) ≤ (nEq d j : K) := Nat.cast_nonneg _
  have h2 : (0 : K) ≤ (nGt d j : K) := Nat.cast_nonneg _
  simp only [post]
  constructor <;> linarith

/-- Closed form of a valid `random` call. -/
theorem random_spec (ω : Oracle K) (s : DP K) (pos : ℕ) (size : PySize) (N : ℕ) (ha : 0 < s.alpha)
    (hd : NonNegLabels s.d) (hN : EffSize s.d size N) :
    random size ω (s, pos) =
      (.ok (stickWeights (M.betaValues ω pos ((List.range N).map (post s.alpha s.d)))),
        ({ s with
            v := M.betaValues ω pos ((List.range N).map (post s.alpha s.d)),
            w := stickWeights (M.betaValues ω pos ((List.range N).map (post s.alpha s.d))) }, pos + N)) := by
  by_cases hnil : s.d = []
  · rcases hN with ⟨rfl, hN⟩ | ⟨_, hN⟩
    · have hp : List.replicate N ((1 : K), s.alpha) = (List.range N).map (post s.alpha s.d) := by
        apply list_ext_range (by simp)
        intro j hj
        simp [hj, post, hnil, nEq, nGt]
      rw [random_unfitted _ _ _ hnil, complete_num (n := N) rfl]
      have h0 : (0 : ℤ) < N := by omega
      simp [h0, not_le.2 ha, hp]
      intro h; omega
    · rw [hnil] at hN; exact absurd hN.1 (by simp)
  · obtain ⟨a, hb, hA⟩ := bincount_ok hd
    have hane := hA.ne_nil hnil
    have hfull : params s.alpha a (revTails a) = (List.range a.length).map (post s.alpha s.d) :=
      hA.zipWith_eq hane _
    have hmax := hA.max hnil
    have hsz : size = .none ∨ ∃ n, size = .int n := by
      rcases hN with ⟨rfl, _⟩ | ⟨rfl, _⟩
      · exact .inr ⟨_, rfl⟩
      · exact .inl rfl
    rw [random_fitted ω (s, pos) size hnil hsz hb]
    rcases hN with ⟨rfl, hN⟩ | ⟨rfl, hN⟩
    · by_cases hlt : N < a.length
      · have hr : reqParams s.alpha a (.int N) = (List.range N).map (post s.alpha s.d) := by
          simp only [reqParams, PySize.toInt?, Nat.cast_lt, hlt, if_true, hfull]
          rw [sliceTo_nonneg _ (by omega)]
          exact range_map_take _ _ _ (by simpa using hlt.le)
        simp only [hr, post_legal ha]
        simp [complete_num (size := .int N) (n := (N : ℤ)) rfl]
      · have hr : reqParams s.alpha a (.int N) = (List.range a.length).map (post s.alpha s.d) := by
          simp only [reqParams, PySize.toInt?, Nat.cast_lt, hlt, if_false, hfull]
        simp only [hr, post_legal ha]
        have hrep : (List.range a.length).map (post s.alpha s.d) ++
            List.replicate (N - a.length) ((1 : K), s.alpha) = (List.range N).map (post s.alpha s.d) := by
          rw [range_map_append_replicate _ _ (post s.alpha s.d)]
          · congr 2; omega
          · intro j hj
            simp [post, nEq_eq_zero_of_gt hmax (j := j) (by omega), nGt_eq_zero_of_ge hmax (j := j) (by omega)]
        rcases Nat.lt_or_ge a.length N with h | h
        · have hb' : M.betaValues ω pos ((List.range a.length).map (post s.alpha s.d)) ++
              M.betaValues ω (pos + a.length) (List.replicate (N - a.length) ((1 : K), s.alpha)) =
              M.betaValues ω pos ((List.range N).map (post s.alpha s.d)) := by
            rw [← hrep, M.betaValues_append]; simp
          have hz : ((N : ℤ) - (a.length : ℤ)).toNat = N - a.length := by omega
          simp [complete_num (size := .int N) (n := (N : ℤ)) rfl, h, not_le.2 ha, hz, hb']
          omega
        · have : N = a.length := by omega
          subst this
          simp [complete_num (size := .int a.length) (n := (a.length : ℤ)) rfl]
    · have hl : N = a.length := by
        have := hmax.unique hN
        omega
      subst hl
      have hr : reqParams s.alpha a .none = (List.range a.length).map (post s.alpha s.d) := hfull
      simp only [hr, post_legal ha]
      simp

end DP
end Verif
