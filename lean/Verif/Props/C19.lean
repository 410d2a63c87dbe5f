import Verif.Lemmas.BBerPath
import Verif.Lemmas.Tail
import Verif.Lemmas.Reach
import Verif.Lemmas.Demo

/-!
# C19: `BetaBernoulli` posterior draws never fail

False for the code when `0 < p < 1`: `C19_fails` shows that with a label at least 2, `random()` raises `ValueError` whenever the generator
answers 0 for the last position of the path (the weight of the last group is then `beta(·, 0) = inf` and the probability is nan).

True parts, after every history without `random(0)`: `p = 0`, `p = 1`, labels below 2 (`C19_boundary_partial`), and `0 < p < 1` when every group is
occupied and the last position of the path is drawn 1 (`C19_occupied_partial`).  After `random(0)` even these fail (`C19_after_zero_refuted`).
-/

set_option linter.unusedSectionVars false

namespace Verif
open Spec
variable {K : Type} [Field K] [LinearOrder K] [IsStrictOrderedRing K] {ω : Oracle K}

/-- A call that is not `random(0)`. -/
def WOp.notRandomZero : WOp K → Prop
  | .random n => n.toInt? ≠ some 0
  | _ => True

namespace BBer

theorem complete_bern (size : PySize) : KeepsR ω (fun s : BBer K => s.bernoullis ≠ []) (complete size) (fun _ => True) := by
  refine KeepsR.of_wp fun s hs => ?_
  unfold complete
  rw [wp_bind, wp_lift]
  refine ⟨fun _ _ => ?_, fun _ _ => hs⟩
  cases size.toInt? with
  | none => exact hs
  | some n =>
    dsimp only
    rw [wp_bind, wp_self, wp_bind, wp_whenM]
    refine ⟨fun _ => ?_, fun _ => by wp_simp; exact ⟨hs, trivial⟩⟩
    have hP : wp ω (M.whenM (s.1.v.length = 0) do
        let v ← M.betaRep 1 s.1.alpha 1
        M.assign (fun s => { s with v := v }) : M K (BBer K) Unit)
      (fun _ t => t.1.bernoullis ≠ []) (fun _ t => t.1.bernoullis ≠ []) s := by
      wp_simp
      exact ⟨fun _ => ⟨fun _ => hs, fun _ _ _ => hs⟩, fun _ => hs⟩
    rw [wp_bind]
    refine wp_mono hP ?_ (fun _ _ h => h)
    intro _ t ht
    have happ : ∀ l : List ℤ, t.1.bernoullis ++ l ≠ [] := fun l h => ht (List.append_eq_nil_iff.1 h).1
    rw [wp_bind, wp_self, wp_bind, wp_binomRep]
    refine ⟨fun _ => ht, fun _ _ _ _ => ?_⟩
    rw [wp_bind, wp_assign, wp_bind, wp_lift]
    refine ⟨fun _ _ => ?_, fun _ _ => happ _⟩
    rw [wp_bind, wp_lift]
    refine ⟨fun _ _ => ?_, fun _ _ => happ _⟩
    rw [wp_bind, wp_betaRep]
    refine ⟨fun _ => happ _, fun _ _ _ => ?_⟩
    rw [wp_bind, wp_lift]
    refine ⟨fun _ _ => ?_, fun _ _ => happ _⟩
    rw [wp_bind, wp_assign, wp_assign, wp_bind, wp_self, wp_pure]
    exact ⟨happ _, trivial⟩

theorem bernLoop_self (a b js : List ℕ) (bern : List ℤ) (s : BBer K × ℕ) :
    wp ω (bernLoop a b bern js) (fun r t => t.1 = s.1 ∧ r.length = bern.length) (fun _ t => t.1 = s.1) s := by
  induction js generalizing bern s with
  | nil => exact ⟨rfl, rfl⟩
  | cons j js ih =>
    unfold bernLoop
    rw [wp_bind, wp_self]
    split
    · exact rfl
    · rw [wp_bind, wp_binom]
      refine ⟨fun _ => rfl, fun _ _ _ => wp_mono (ih _ _) (fun _ _ h => ⟨h.1, by rw [h.2, List.length_set]⟩) (fun _ _ h => h)⟩

theorem randomBernoullis_bern {n : Option ℤ} (hn : n ≠ some 0) (s : BBer K × ℕ) (hs : s.1.bernoullis ≠ []) :
    wp ω (randomBernoullis n) (fun _ t => t.1.bernoullis ≠ []) (fun _ t => t.1.bernoullis ≠ []) s := by
  have hset : s.1.bernoullis.set 0 1 ≠ [] := by
    intro h; apply hs; rw [← List.length_eq_zero_iff] at h ⊢; simpa using h
  unfold randomBernoullis
  rw [wp_bind, wp_self]
  cases n with
  | none => exact hs
  | some n =>
    dsimp only
    have hn0 : n ≠ 0 := fun h => hn (by rw [h])
    rw [wp_bind, wp_binomRep]
    refine ⟨fun _ => hs, fun _ _ _ h0 => ?_⟩
    rw [if_neg (fun h => hs (List.length_eq_zero_iff.1 h)), wp_bind, wp_assign, wp_ite]
    refine ⟨fun _ => ?_, fun _ => ?_⟩
    · rw [wp_bind, wp_lift]
      refine ⟨fun m _ => ?_, fun _ _ => hset⟩
      rw [wp_bind, wp_lift]
      refine ⟨fun a _ => ?_, fun _ _ => hset⟩
      rw [wp_ite]
      refine ⟨fun _ => hset, fun hl => ?_⟩
      rw [wp_bind]
      refine wp_mono (bernLoop_self _ _ _ _ _) ?_ (fun _ t h => by rw [h]; exact hset)
      rintro r t ⟨_, h⟩
      rw [wp_assign]
      intro hr
      rw [show r = [] from hr, List.length_set] at h
      exact hl h.symm
    · rw [wp_assign]
      intro h
      have := congrArg List.length h
      simp at this
      omega

theorem random_bern {size : PySize} (hsz : size.toInt? ≠ some 0) (s : BBer K × ℕ) (hs : s.1.bernoullis ≠ []) :
    wp ω (random size) (fun _ t => t.1.bernoullis ≠ []) (fun _ t => t.1.bernoullis ≠ []) s := by
  unfold random randomSized
  rw [wp_bind, wp_self, wp_ite]
  refine ⟨fun _ => hs, fun _ => ?_⟩
  rw [wp_bind, wp_assign, wp_bind, wp_self, wp_ite]
  refine ⟨fun _ => ?_, fun _ => ?_⟩
  · rw [wp_bind]
    refine wp_mono (randomBernoullis_bern ?_ _ (by exact hs)) ?_ (fun _ _ h => h)
    · split
      · simp [PySize.toInt?]
      · exact hsz
    · intro _ t ht
      rw [wp_bind, wp_self, wp_bind, wp_lift]
      refine ⟨fun _ _ => ?_, fun _ _ => ht⟩
      rw [wp_bind, wp_betaRep]
      refine ⟨fun _ => ht, fun _ _ _ => ?_⟩
      rw [wp_bind, wp_assign, wp_bind, wp_lift]
      exact ⟨fun _ _ => ht, fun _ _ => ht⟩
  · rw [wp_bind, wp_lift]
    refine ⟨fun m hm => ?_, fun _ _ => hs⟩
    rw [wp_bind]
    by_cases hm0 : m + 1 = 0
    · -- label -1: `np.bincount` raises before the path is stored
      have hneg : Py.bincount s.1.d = .error .valueError :=
        bincount_neg fun h => by
          have := h m (maxInt_eq_ok_iff.1 hm).1
          omega
      unfold randomBernoullis
      rw [wp_bind, wp_self]
      dsimp only
      rw [wp_bind, wp_binomRep]
      refine ⟨fun _ => hs, fun _ _ _ h0 => ?_⟩
      rw [if_neg (fun h => hs (List.length_eq_zero_iff.1 h)), wp_bind, wp_assign, if_pos (by
        have := List.length_pos_of_mem (maxInt_eq_ok_iff.1 hm).1; exact this), wp_bind, wp_lift]
      have hset : s.1.bernoullis.set 0 1 ≠ [] := by
        intro h; apply hs; rw [← List.length_eq_zero_iff] at h ⊢; simpa using h
      refine ⟨fun _ _ => ?_, fun _ _ => hset⟩
      rw [wp_bind, wp_lift, hneg]
      exact ⟨nofun, fun _ _ => hset⟩
    · refine wp_mono (randomBernoullis_bern (by simpa using hm0) _ (by exact hs)) ?_ (fun _ _ h => h)
      intro _ t ht
      rw [wp_bind, wp_self, wp_bind, wp_lift]
      refine ⟨fun _ _ => ?_, fun _ _ => ht⟩
      rw [wp_bind, wp_lift]
      refine ⟨fun _ _ => ?_, fun _ _ => ht⟩
      rw [wp_bind, wp_lift]
      refine ⟨fun _ _ => ?_, fun _ _ => ht⟩
      rw [wp_bind, wp_betaVec]
      refine ⟨fun _ => ht, fun _ => ?_⟩
      rw [wp_bind, wp_assign, wp_bind, wp_lift]
      refine ⟨fun v _ => ?_, fun _ _ => ht⟩
      rw [wp_bind, wp_assign]
      exact wp_mono ((complete_bern _).wp (by exact ht)) (fun _ _ h => h.1) (fun _ _ h => h)

theorem keeps_bern {α : Type} {m : M K (BBer K) α} (h : ∀ s : BBer K × ℕ, s.1.bernoullis ≠ [] →
    wp ω m (fun _ t => t.1.bernoullis ≠ []) (fun _ t => t.1.bernoullis ≠ []) s) : Keeps ω (fun s : BBer K => s.bernoullis ≠ []) m :=
  (KeepsR.of_wp (R := fun _ => True) fun s hs => wp_mono (h s hs) (fun _ _ h => ⟨h, trivial⟩) (fun _ _ h => h)).keeps

/-- After a history without `random(0)` the object has a Bernoulli path. -/
theorem reach_bern (log : K → K) (pos : ℕ) (p alpha : K) (ops : List (WOp K)) (h : ∀ op ∈ ops, op.notRandomZero) :
    (cls.run log ω (init p alpha, pos) ops).1.bernoullis ≠ [] :=
  WeightCore.run_keeps_adm (C := core) (I := fun s : BBer K => s.bernoullis ≠ []) (P := fun n => n.toInt? ≠ some 0) (fun _ _ h => h)
    (fun n => (KeepsR.bind (R' := fun _ => True) (complete_bern n) fun _ _ => KeepsR.pure trivial).keeps)
    (fun _ hn => keeps_bern (random_bern hn)) (by simp [PySize.toInt?]) log ops (fun n hn => h _ hn) (init p alpha, pos)
    (by simp [init])

end BBer

section
variable (log : K → K) (pos : ℕ) (ops : List (WOp K)) {p alpha : K}

/-- Missing: `0 < p < 1` with a label at least 2, and histories with `random(0)`. -/
theorem C19_boundary_partial (hω : ω.Legal) (hops : ∀ op ∈ ops, op.notRandomZero) (hp0 : 0 ≤ p) (hp1 : p ≤ 1) (ha : 0 < alpha) {s : BBer K × ℕ}
    (hs : BBer.cls.run log ω (BBer.init p alpha, pos) ops = s) (hd : NonNegLabels s.1.d) {m : ℕ} (hm : IsMaxLabel s.1.d m)
    (hcase : p = 0 ∨ p = 1 ∨ m ≤ 1) {size : PySize} (hsz : size = .none ∨ ∃ k, size.toInt? = some k) :
    ∃ r t, BBer.random size ω s = (.ok r, t) := by
  have hh := BBer.reach_hyper (ω := ω) log pos ops p alpha
  have hb := BBer.reach_bern (ω := ω) log pos p alpha ops hops
  rw [hs] at hh hb
  have key : ∃ G : List ℤ → Prop, G (((List.range (m + 1)).map (fun i => ω.binom (s.2 + i) 1 s.1.p)).set 0 0) ∧
      ∀ a_c, IsBincount s.1.d a_c → ∀ bern j, 1 ≤ j → j < m → BBer.Path m bern ∧ G bern →
      ∃ q, BBer.condProb s.1.p s.1.alpha bern a_c (revTails a_c) j = some q ∧ 0 ≤ q ∧ q ≤ 1 ∧ ∀ pos, G (bern.set j (ω.binom pos 1 q)) := by
    rw [hh.1, hh.2]
    rcases hcase with rfl | rfl | h1
    · exact ⟨fun _ => True, trivial, fun a_c _ bern j _ _ _ => ⟨0, BBer.condProb_zero ha _ _ _ _, le_rfl, zero_le_one, fun _ => trivial⟩⟩
    · refine ⟨fun b => ∀ k, 1 ≤ k → k ≤ m → b[k]? = some 1, ?_, ?_⟩
      · intro k h1 h2
        rw [List.getElem?_set_ne (by omega), List.getElem?_map, List.getElem?_range (by omega)]
        simp [hω.binom_one]
      · rintro a_c hA bern j h1 h2 ⟨hP, hG⟩
        have hal := hA.length_eq hm
        have hrl := revTails_length (hA.ne_nil (List.ne_nil_of_mem hm.1))
        refine ⟨1, BBer.condProb_one _ _ _ _ (hG _ (by omega) (by omega)) (by omega) (by omega), zero_le_one, le_rfl, fun pos k hk1 hk2 => ?_⟩
        rw [List.getElem?_set, hω.binom_one _ _ (by omega), hP.len]
        split
        · rw [if_pos (by omega)]
        · exact hG k hk1 hk2
    · exact ⟨fun _ => True, trivial, fun a_c _ bern j h2 h3 _ => by omega⟩
  obtain ⟨G, hG0, hstep⟩ := key
  obtain ⟨r, t, h, _⟩ := wp_total (BBer.random_fitted_ok hω s (by rw [hh.1]; exact ⟨hp0, hp1⟩) (by rw [hh.2]; exact ha) hd hb hm hsz hG0 hstep)
  exact ⟨r, t, h⟩

/-- Missing: empty groups, a last path value 0, and histories with `random(0)`. -/
theorem C19_occupied_partial (hω : ω.Legal) (hops : ∀ op ∈ ops, op.notRandomZero) (hp0 : 0 < p) (hp1 : p < 1) (ha : 0 < alpha) {s : BBer K × ℕ}
    (hs : BBer.cls.run log ω (BBer.init p alpha, pos) ops = s) (hd : NonNegLabels s.1.d) {m : ℕ} (hm : IsMaxLabel s.1.d m)
    (hocc : ∀ j : ℕ, j ≤ m → (j : ℤ) ∈ s.1.d) (hlast : ω.binom (s.2 + m) 1 p = 1)
    {size : PySize} (hsz : size = .none ∨ ∃ k, size.toInt? = some k) :
    ∃ r t, BBer.random size ω s = (.ok r, t) := by
  have hh := BBer.reach_hyper (ω := ω) log pos ops p alpha
  have hb := BBer.reach_bern (ω := ω) log pos p alpha ops hops
  rw [hs] at hh hb
  have hmne : s.1.d ≠ [] := List.ne_nil_of_mem hm.1
  by_cases hm1 : m ≤ 1
  · exact C19_boundary_partial log pos ops hω hops hp0.le hp1.le ha hs hd hm (.inr (.inr hm1)) hsz
  have hpos : ∀ j : ℕ, j ≤ m → 1 ≤ nEq s.1.d j := by
    intro j hj
    unfold nEq
    exact List.countP_pos_iff.2 ⟨(j : ℤ), hocc j hj, by simp⟩
  have hgt : ∀ j : ℕ, j < m → 1 ≤ nGt s.1.d j := by
    intro j hj
    unfold nGt
    exact List.countP_pos_iff.2 ⟨(m : ℤ), hm.1, by simpa using hj⟩
  have hG0 : (fun b : List ℤ => b[m]? = some 1) (((List.range (m + 1)).map (fun i => ω.binom (s.2 + i) 1 s.1.p)).set 0 0) := by
    dsimp only
    rw [List.getElem?_set_ne (by omega), List.getElem?_map, List.getElem?_range (by omega)]
    simp [hh.1, hlast]
  obtain ⟨r, t, h, _⟩ := wp_total (BBer.random_fitted_ok hω s (by rw [hh.1]; exact ⟨hp0.le, hp1.le⟩) (by rw [hh.2]; exact ha) hd hb hm hsz (G := fun b : List ℤ => b[m]? = some 1) hG0 (by
    rintro a_c hA bern j h1 h2 ⟨hP, hG⟩
    have hal := hA.length_eq hm
    have hane := hA.ne_nil hmne
    have hrl := revTails_length hane
    have hget : ∀ k : ℕ, k ≤ m → a_c[k]? = some (nEq s.1.d k) := fun k hk => by rw [hA.getElem? k, if_pos (by omega)]
    have hgetb : ∀ k : ℕ, k ≤ m → (revTails a_c)[k]? = some (nGt s.1.d k) := fun k hk => hA.revTails_get k (by omega)
    obtain ⟨q, hq, hq0, hq1⟩ := BBer.condProb_mid (p := s.1.p) (alpha := s.1.alpha) (by rw [hh.1]; exact hp0) (by rw [hh.1]; exact hp1)
      (by rw [hh.2]; exact ha) bern a_c (revTails a_c) j (by
        intro c hc hc1
        obtain ⟨i, hi⟩ := List.mem_iff_getElem?.1 hc
        rw [List.getElem?_drop, List.getElem?_zip_eq_some] at hi
        obtain ⟨hi1, hi2⟩ := hi
        rw [List.getElem?_zip_eq_some] at hi2
        have hle : j + 1 + i ≤ m := by
          by_contra hcon
          rw [List.getElem?_eq_none (by rw [hP.len]; omega)] at hi1; cases hi1
        have hne : j + 1 + i ≠ m := by
          intro he; rw [he, show bern[m]? = some 1 from hG] at hi1; exact hc1 (Option.some.inj hi1).symm
        rw [hget _ hle, hgetb _ hle] at hi2
        rw [← Option.some.inj hi2.1, ← Option.some.inj hi2.2]
        exact ⟨hpos _ hle, hgt _ (by omega)⟩)
      (by rw [hget j (by omega)]; exact hpos j (by omega)) (by rw [hgetb j (by omega)]; exact hgt j h2)
    refine ⟨q, hq, hq0, hq1, fun pos => ?_⟩
    change (bern.set j _)[m]? = some 1
    rw [List.getElem?_set_ne (by omega)]
    exact hG))
  exact ⟨r, t, h⟩
end

/-- The failing branch: some position of the loop before the last one is reached with the last path value 0. -/
theorem BBer.bernLoop_fails {a_c b_c : List ℕ} {m : ℕ} (h1 : 1 ≤ m) (ha : a_c.length = m + 1) (hb : b_c.length = m + 1) (hbm : b_c[m]? = some 0)
    (js : List ℕ) (hjs : ∀ j ∈ js, j < m) (hmem : m - 1 ∈ js) (bern : List ℤ) (hl : bern.length = m + 1) (hz : bern[m]? = some 0)
    (s : BBer K × ℕ) (hp : 0 < s.1.p) :
    wp ω (BBer.bernLoop a_c b_c bern js) (fun _ _ => False) (fun e _ => e = .valueError) s := by
  induction js generalizing bern s with
  | nil => simp at hmem
  | cons j js ih =>
    unfold BBer.bernLoop
    rw [wp_bind, wp_self]
    have hj := hjs j (by simp)
    by_cases hjm : j = m - 1
    · have hcell : (bern.zip (a_c.zip b_c)).drop (j + 1) = [(0, a_c[m], 0)] := by
        have e : j + 1 = m := by omega
        rw [e, List.drop_eq_getElem_cons (by simp; omega)]
        have hbe : bern[m] = 0 := by rw [List.getElem?_eq_getElem (by omega)] at hz; exact Option.some.inj hz
        have hbe' : b_c[m] = 0 := by rw [List.getElem?_eq_getElem (by omega)] at hbm; exact Option.some.inj hbm
        simp [hbe, hbe']
        omega
      rw [BBer.condProb_nan hp bern a_c b_c j 0 (by decide) _ hcell]
      exact rfl
    · have hmem' : m - 1 ∈ js := by
        rcases List.mem_cons.1 hmem with h | h
        · exact absurd h.symm hjm
        · exact h
      split
      · exact rfl
      · rw [wp_bind, wp_binom]
        refine ⟨fun _ => rfl, fun _ _ _ => ih (fun j hj => hjs j (by simp [hj])) hmem' _ (by rw [List.length_set]; exact hl) ?_ _ hp⟩
        rw [List.getElem?_set_ne (by omega)]; exact hz

/-- With `0 < p < 1` and a label `m ≥ 2`, an answer 0 of the generator at the last position of the path makes `random` fail, in every state. -/
theorem C19_fails (s : BBer K × ℕ) (hp0 : 0 < s.1.p) (hne : s.1.bernoullis ≠ []) (hd : NonNegLabels s.1.d) {m : ℕ}
    (hm : IsMaxLabel s.1.d m) (h2 : 2 ≤ m) (hlast : ω.binom (s.2 + m) 1 s.1.p = 0) :
    (BBer.random .none ω s).1 = .error .valueError := by
  have hdne : s.1.d ≠ [] := List.ne_nil_of_mem hm.1
  have hl : ¬ s.1.d.length = 0 := fun h => hdne (List.length_eq_zero_iff.1 h)
  obtain ⟨a_c, hb, hA⟩ := bincount_ok hd
  suffices h : wp ω (BBer.random .none) (fun _ _ => False) (fun e _ => e = .valueError) s by
    unfold wp at h
    rcases hr : BBer.random .none ω s with ⟨e | r, t⟩
    · rw [hr] at h; rw [h]
    · rw [hr] at h; exact h.elim
  unfold BBer.random BBer.randomSized
  rw [wp_bind, wp_self, wp_ite]
  refine ⟨fun h => absurd h.2 hl, fun _ => ?_⟩
  rw [wp_bind, wp_assign, wp_bind, wp_self, if_neg hl, maxInt_eq_ok_iff.2 hm, wp_bind, wp_lift]
  refine ⟨?_, nofun⟩
  rintro _ ⟨⟩
  rw [wp_bind]
  unfold BBer.randomBernoullis
  rw [wp_bind, wp_self]
  dsimp only
  rw [wp_bind, wp_binomRep]
  refine ⟨fun _ => rfl, fun _ _ _ _ => ?_⟩
  rw [if_neg (fun h => hne (List.length_eq_zero_iff.1 h)), wp_bind, wp_assign, if_pos (by omega), maxInt_eq_ok_iff.2 hm, wp_bind, wp_lift]
  refine ⟨?_, nofun⟩
  rintro _ ⟨⟩
  rw [hb, wp_bind, wp_lift]
  refine ⟨?_, nofun⟩
  rintro _ ⟨⟩
  rw [if_neg (by simp), wp_bind]
  rw [show ((m : ℤ) + 1).toNat = m + 1 by omega, show (m : ℤ).toNat = m by omega]
  have hal := hA.length_eq hm
  have hrl := revTails_length (hA.ne_nil hdne)
  refine wp_mono (BBer.bernLoop_fails (m := m) (by omega) (by omega) (by omega) ?_ _ ?_ ?_ _ ?_ ?_ _ hp0) (fun _ _ h => h.elim) (fun _ _ h => h)
  · rw [hA.revTails_get m (by omega), nGt_eq_zero_of_ge hm le_rfl]
  · intro j hj
    exact List.mem_range.1 (List.mem_of_mem_drop hj)
  · rw [List.mem_iff_getElem?]
    exact ⟨m - 2, by rw [List.getElem?_drop, List.getElem?_range (by omega)]; congr 1; omega⟩
  · simp
  · rw [List.getElem?_set_ne (by omega), List.getElem?_map, List.getElem?_range (by omega)]
    simp [hlast]

/-- `BetaBernoulli(p=1/2, alpha=1)`, `fit([2, 1, 0])`: a legal generator that answers 0 makes `random()` raise `ValueError`. -/
theorem C19_refuted : ∃ ω : Oracle ℚ, ω.Legal ∧
    (BBer.random .none ω (BBer.cls.run id ω (BBer.init (1/2) 1, 0) [.fit [2, 1, 0]])).1 = .error .valueError :=
  ⟨demo, demo_legal, by decide +kernel⟩

/-- Even with `p = 1`, a call `random(0)` makes every later `random` fail with `IndexError`. -/
theorem C19_after_zero_refuted : ∃ ω : Oracle ℚ, ω.Legal ∧
    (BBer.random .none ω (BBer.cls.run id ω (BBer.init 1 1, 0) [.random (.int 0), .fit [1, 0]])).1 = .error .indexError :=
  ⟨demo, demo_legal, by decide +kernel⟩

/-! Non-vacuity -/
example : (BBer.random .none (demo : Oracle ℚ) (BBer.cls.run id demo (BBer.init 1 1, 0) [.fit [2, 1, 0]])).1 = .ok [1/6, 5/42, 5/56] := by
  decide +kernel
/-- A generator whose Bernoulli draws are 1 (unless that is impossible). -/
def onesO : Oracle ℚ := { (demo : Oracle ℚ) with binom := fun _ n p => if p = 0 then 0 else n }
example : (BBer.random .none onesO (BBer.cls.run id onesO (BBer.init (1/2) 1, 0) [.fit [2, 1, 0]])).1 = .ok [1/6, 5/42, 5/56] ∧
    onesO.binom 2 1 (1/2) = 1 := by decide +kernel

end Verif
