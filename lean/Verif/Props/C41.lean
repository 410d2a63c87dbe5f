import Verif.Model.Results
import Verif.Lemmas.GibbsBook
import Verif.Lemmas.GibbsDemo

/-!
# C41: the number of saved Gibbs states

For every weight class, every data set, every surrounding (generators, k-means, densities) and every object state: a cold `fit_gibbs` that
returns has saved exactly `⌈(T - B)/s⌉` states, and `get_sim_params`, `get_n_groups`, `get_n_theta` and the divisor of the affinity matrix all
have that count; each warm fit adds the same number again.  A warm fit that raises keeps the four counts equal.
-/

set_option linter.unusedSectionVars false

namespace Verif.Mix
open GM
variable {K : Type} [Field K] [LinearOrder K] [IsStrictOrderedRing K] {C : WeightClass K} {m : ℕ} {Atom : Type} {ω : Oracle K}

/-- All four counts of the object are `n`. -/
def CountsAre (s : GM C m Atom) (n : ℕ) : Prop :=
  s.saved.length = n ∧ s.nGroups.length = n ∧ s.nAtoms.length = n ∧ s.totalSaved = n

/-- The calls `ops` were made one after the other and all of them returned normally. -/
inductive Fits (W : World K m Atom) (ω : Oracle K) : GM C m Atom × ℕ → List (FitArgs K m) → GM C m Atom × ℕ → Prop
  | nil (s) : Fits W ω s [] s
  | snoc {s t t' ops a} : Fits W ω s ops t → fitGibbs W a.y a.initGroups a.warm a.method ω t = (.ok (), t') → Fits W ω s (ops ++ [a]) t'

theorem Book.countsAre {s : GM C m Atom} (h : Book s) : CountsAre s s.saved.length :=
  ⟨rfl, by rw [h.groups, List.length_map], by rw [h.atoms, List.length_map], h.total⟩

/-- The number of states one fit saves, from the iteration numbers alone. -/
def perFit (T B s : ℤ) : ℕ := ⌈(((T - B).toNat : ℕ) : ℚ) / (s : ℚ)⌉₊

theorem fitCount_eq (s : GM C m Atom) (h : 1 ≤ s.subsample) : fitCount s = perFit s.totalIter s.burnIn s.subsample :=
  count_multiples _ _ h

variable (W : World K m Atom)

/-- One cold fit, from any state of the object. -/
theorem C41_cold (y : YArg K m) (g : PySize) (method : InitMethod) (s t : GM C m Atom × ℕ) (hs : 1 ≤ s.1.subsample)
    (h : fitGibbs W y g false method ω s = (.ok (), t)) : CountsAre t.1 (perFit s.1.totalIter s.1.burnIn s.1.subsample) := by
  obtain ⟨hb, -, hc, -⟩ := wp_of_ok h (fit_cold W y g method s)
  rw [← fitCount_eq s.1 hs, ← hc]
  exact hb.countsAre

/-- The same in terms of what the constructor was given. -/
theorem C41_cold_of_init (T B st : ℤ) (nAttr : Option ℤ) (mu : Option (Fin m → K)) (lam : K) (psi : Option (Fin m → Fin m → K)) (nu : Option K)
    (wst : C.State × ℕ) (s0 : GM C m Atom) (h0 : GM.init (T : ℚ) (B : ℚ) (st : ℚ) nAttr mu lam psi nu wst = .ok s0) (hst : 1 ≤ st)
    (y : YArg K m) (g : PySize) (method : InitMethod) (p : ℕ) (t : GM C m Atom × ℕ)
    (h : fitGibbs W y g false method ω (s0, p) = (.ok (), t)) : CountsAre t.1 ⌈((T - B : ℤ) : ℚ) / (st : ℚ)⌉₊ ∧ 1 ≤ t.1.saved.length := by
  unfold GM.init at h0
  split at h0
  · rename_i hTB
    have hTB : B < T := by exact_mod_cast hTB
    have hint : ∀ z : ℤ, pyInt (z : ℚ) = z := by intro z; unfold pyInt; split <;> simp
    simp only [Except.ok.injEq] at h0
    have e1 : s0.totalIter = T := by rw [← h0]; exact hint T
    have e2 : s0.burnIn = B := by rw [← h0]; exact hint B
    have e3 : s0.subsample = st := by rw [← h0]; exact hint st
    have hc := C41_cold W y g method (s0, p) t (by rw [e3]; exact hst) h
    simp only [e1, e2, e3, perFit] at hc
    have hcast : (((T - B).toNat : ℕ) : ℚ) = ((T - B : ℤ) : ℚ) := by
      have : (((T - B).toNat : ℕ) : ℤ) = T - B := Int.toNat_of_nonneg (by omega)
      exact_mod_cast this
    rw [hcast] at hc
    refine ⟨hc, ?_⟩
    rw [hc.1, Nat.one_le_ceil_iff]
    refine div_pos ?_ (by exact_mod_cast (by omega : 0 < st))
    exact_mod_cast (by omega : 0 < T - B)
  · cases h0

/-- A warm fit, returning or raising, from an object whose books are in order. -/
theorem C41_warm (y : YArg K m) (g : PySize) (method : InitMethod) (s t : GM C m Atom × ℕ) (hb : Book s.1) (r : Except PyErr Unit)
    (h : fitGibbs W y g true method ω s = (r, t)) :
    CountsAre t.1 t.1.saved.length ∧
    (1 ≤ s.1.subsample → r = .ok () → t.1.saved.length = s.1.saved.length + perFit s.1.totalIter s.1.burnIn s.1.subsample) := by
  have hw := fit_warm (ω := ω) W y g method s hb
  cases r with
  | ok a =>
    obtain ⟨hb', -, hc, -⟩ := wp_of_ok h hw
    exact ⟨hb'.countsAre, fun hs _ => by rw [hc, fitCount_eq s.1 hs]⟩
  | error e =>
    obtain ⟨hb', -⟩ := wp_of_error h hw
    exact ⟨hb'.countsAre, fun _ h => by cases h⟩

theorem takeWhile_length_snoc {α : Type} (p : α → Bool) (l : List α) (a : α) :
    ((l ++ [a]).reverse.takeWhile p).length = if p a then (l.reverse.takeWhile p).length + 1 else 0 := by
  rw [List.reverse_append, List.reverse_singleton, List.singleton_append, List.takeWhile_cons]
  split <;> simp

theorem fits_book {s t : GM C m Atom × ℕ} {ops : List (FitArgs K m)} (h : Fits W ω s ops t) (hs : 1 ≤ s.1.subsample)
    (hcold : ∀ a ∈ ops.head?, a.warm = false) :
    cfg t.1 = cfg s.1 ∧ (ops ≠ [] → Book t.1 ∧
      t.1.saved.length = (if ops.reverse.all (fun a => a.warm) then 0 else
        ((ops.reverse.takeWhile (fun a => a.warm)).length + 1) * perFit s.1.totalIter s.1.burnIn s.1.subsample)) := by
  induction h with
  | nil => exact ⟨rfl, fun h => absurd rfl h⟩
  | @snoc t t' ops a _ hfit ih =>
    have hcold' : ∀ b ∈ ops.head?, b.warm = false := by
      intro b hb
      refine hcold b ?_
      cases ops with
      | nil => cases hb
      | cons c cs => exact hb
    obtain ⟨hc, hB⟩ := ih hcold'
    have hpt : perFit t.1.totalIter t.1.burnIn t.1.subsample = perFit s.1.totalIter s.1.burnIn s.1.subsample := by
      simp only [cfg, Prod.mk.injEq] at hc
      rw [hc.1, hc.2.1, hc.2.2]
    have hst : 1 ≤ t.1.subsample := by
      simp only [cfg, Prod.mk.injEq] at hc; rw [hc.2.2]; exact hs
    have hall : (ops ++ [a]).reverse.all (fun a => a.warm) = (a.warm && ops.reverse.all (fun a => a.warm)) := by simp
    rcases hw : a.warm with _ | _
    · rw [hw] at hfit
      obtain ⟨h1, h2, h3, -⟩ := wp_of_ok hfit (fit_cold W a.y a.initGroups a.method t)
      refine ⟨h2.trans hc, fun _ => ⟨h1, ?_⟩⟩
      rw [hall, takeWhile_length_snoc, hw, h3, fitCount_eq t.1 hst, hpt]; simp
    · rw [hw] at hfit
      have hne : ops ≠ [] := by
        rintro rfl
        have := hcold a (by simp)
        rw [hw] at this; cases this
      obtain ⟨hbk, hlen⟩ := hB hne
      obtain ⟨h1, h2, h3, -⟩ := wp_of_ok hfit (fit_warm W a.y a.initGroups a.method t hbk)
      refine ⟨h2.trans hc, fun _ => ⟨h1, ?_⟩⟩
      have hfalse : ops.reverse.all (fun a => a.warm) = false := by
        obtain ⟨b, bs, rfl⟩ := List.exists_cons_of_ne_nil hne
        have := hcold' b (by simp)
        simp [this]
      rw [hall, takeWhile_length_snoc, hw, h3, hlen, fitCount_eq t.1 hst, hpt, hfalse]
      simp only [Bool.and_false, Bool.false_eq_true, if_false, if_true]
      ring

/-- Whole histories: a cold fit, then any sequence of cold and warm fits, all of which return.  The counts are `⌈(T-B)/s⌉` times one more than the
number of warm fits since the last cold one. -/
theorem C41_history (a : FitArgs K m) (ops : List (FitArgs K m)) (ha : a.warm = false) (s t : GM C m Atom × ℕ) (hs : 1 ≤ s.1.subsample)
    (h : Fits W ω s (a :: ops) t) :
    CountsAre t.1 (((ops.reverse.takeWhile (fun b => b.warm)).length + 1) * perFit s.1.totalIter s.1.burnIn s.1.subsample) := by
  obtain ⟨-, hB⟩ := fits_book W h hs (by intro b hb; simp at hb; rw [← hb]; exact ha)
  obtain ⟨hb, hl⟩ := hB (by simp)
  have hfalse : (a :: ops).reverse.all (fun a => a.warm) = false := by simp [ha]
  rw [hfalse, if_neg (by simp)] at hl
  have htw : ((a :: ops).reverse.takeWhile (fun b => b.warm)).length = (ops.reverse.takeWhile (fun b => b.warm)).length := by
    rw [List.reverse_cons, List.takeWhile_append]
    split
    · rename_i hh
      simp [ha, hh]
    · rfl
  rw [htw] at hl
  rw [← hl]
  exact hb.countsAre

theorem record_zero (k i : ℕ) (s : GM C m Atom × ℕ) (hs : s.1.subsample = 0) :
    wp ω (record W (k + 1) i) (fun _ _ => False) (fun _ _ => True) s := by
  unfold record
  rw [wp_bind]
  refine wp_mono (KeepsR.wp (gibbsStep_frame (frame s.1) W) rfl) ?_ (fun _ _ _ => trivial)
  rintro _ t ⟨ht, -⟩
  rw [wp_bind]
  refine wp_mono (KeepsR.wp (updateMap_frame (frame s.1) W) ht) ?_ (fun _ _ _ => trivial)
  rintro _ t2 ⟨ht2, -⟩
  have : t2.1.subsample = 0 := (congrArg Frame.subsample ht2).trans hs
  unfold maybeSave
  rw [wp_bind, wp_bind, wp_self, if_pos this, wp_raise]
  trivial

/-- With `subsample_steps = 0` no fit returns: the first recorded iteration divides by zero. -/
theorem C41_zero_step (y : YArg K m) (g : PySize) (warm : Bool) (method : InitMethod) (s : GM C m Atom × ℕ) (hs : s.1.subsample = 0)
    (hT : s.1.burnIn < s.1.totalIter) : ∃ e t, fitGibbs W y g warm method ω s = (.error e, t) := by
  have hloop : ∀ t : GM C m Atom × ℕ, cfg t.1 = cfg s.1 → wp ω (do
      let s ← M.self; burn W s.burnIn.toNat; record W (s.totalIter - s.burnIn).toNat 0; M.assign (fun s => { s with gibbsFitted := true }) :
      M K (GM C m Atom) Unit) (fun _ _ => False) (fun _ _ => True) t := by
    intro t hc
    simp only [cfg, Prod.mk.injEq] at hc
    rw [wp_bind, wp_self, wp_bind]
    refine wp_mono (KeepsR.wp (burn_frame (frame t.1) W _) rfl) ?_ (fun _ _ _ => trivial)
    rintro _ t2 ⟨h2, -⟩
    obtain ⟨k, hk⟩ : ∃ k, (t.1.totalIter - t.1.burnIn).toNat = k + 1 := ⟨(t.1.totalIter - t.1.burnIn).toNat - 1, by omega⟩
    rw [wp_bind, hk]
    refine wp_mono (record_zero W k 0 t2 ?_) (fun _ _ h => h.elim) (fun _ _ _ => trivial)
    exact (congrArg Frame.subsample h2).trans (hc.2.2.trans hs)
  have hw : wp ω (fitGibbs W y g warm method) (fun _ _ => False) (fun _ _ => True) s := by
    unfold fitGibbs
    rw [wp_bind]
    cases y with
    | invalid => trivial
    | rows ys =>
      unfold initCommon
      rw [wp_assign, wp_bind, wp_whenM]
      refine ⟨fun _ => ?_, fun _ => hloop _ rfl⟩
      rw [wp_bind]
      refine wp_mono (initGibbs_frame W g method _) ?_ (fun _ _ _ => trivial)
      rintro _ t ht
      refine wp_mono (KeepsR.wp (updateMap_frame (frame t.1) W) rfl) ?_ (fun _ _ _ => trivial)
      rintro _ t2 ⟨ht2, -⟩
      exact hloop t2 ((cfg_of_frame ht2).trans ((cfg_of_frame ht).trans rfl))
  rcases h : fitGibbs W y g warm method ω s with ⟨e | u, t⟩
  · exact ⟨e, t, rfl⟩
  · exact (wp_of_ok h hw).elim

example : returns (fitGibbs world (rows1 [0, 1, 5, 6]) .none false .kmeans) demo (eqObj 2 6 1 0, 0) = false := by decide +kernel

/-- Outside the claim (a call in the history raises): a cold fit on two observations fails in its initialisation, after the books were wiped; a
warm fit on the old four observations then stores a state and its group count but cannot add its co-clustering, so the counts differ. -/
theorem C41_after_failed_cold : ∃ (W : World ℚ 1 ℚ) (ω : Oracle ℚ) (s : GM (Equal.cls : WeightClass ℚ) 1 ℚ × ℕ) (a b c : FitArgs ℚ 1),
    ω.Legal ∧ 1 ≤ s.1.subsample ∧ a.warm = false ∧ b.warm = false ∧ c.warm = true ∧
    (run W ω s [a, b, c]).1.saved.length = 1 ∧ (run W ω s [a, b, c]).1.totalSaved = 0 ∧ (run W ω s [a, b, c]).1.affinity.length = 2 := by
  refine ⟨world, demo, (eqObj 2 6 1 2, 0), ⟨rows1 [0, 1, 5, 6], .none, false, .kmeans⟩, ⟨rows1 [0, 1], .none, false, .unknown⟩,
    ⟨rows1 [0, 1, 5, 6], .none, true, .kmeans⟩, demo_legal, ?_⟩
  decide +kernel

/-- What the getters return after a cold fit and any sequence of cold and warm fits, all of which return: for each stored state, in order, the number of different labels and the number of components. -/
theorem C41_getters (a : FitArgs K m) (ops : List (FitArgs K m)) (ha : a.warm = false) (s t : GM C m Atom × ℕ) (hs : 1 ≤ s.1.subsample) (h : Fits W ω s (a :: ops) t) :
    (GM.getters t.1).1 = (GM.getters t.1).2.2.map (fun p => p.d.toFinset.card) ∧ (GM.getters t.1).2.1 = (GM.getters t.1).2.2.map (fun p => p.theta.length) ∧
    (GM.getters t.1).2.2 = t.1.saved := by
  obtain ⟨-, hB⟩ := fits_book W h hs (by intro b hb; simp at hb; rw [← hb]; exact ha)
  obtain ⟨hb, -⟩ := hB (by simp)
  refine ⟨hb.groups.trans (List.map_congr_left fun p _ => ?_), hb.atoms, rfl⟩
  rw [← List.toFinset_card_of_nodup (npUnique_nodup p.d)]
  congr 1
  ext x
  rw [List.mem_toFinset, List.mem_toFinset, mem_npUnique]

/-! Two fits of an equal-weight mixture with `T = 6, B = 1, s = 2`: three states each. -/
example : returns (fitGibbs world (rows1 [0, 1, 5, 6]) .none false .kmeans) demo (eqObj 2 6 1 2, 0) = true ∧
    ((fitGibbs world (rows1 [0, 1, 5, 6]) .none false .kmeans) demo (eqObj 2 6 1 2, 0)).2.1.saved.length = 3 := by decide +kernel
example : let s := ((fitGibbs world (rows1 [0, 1, 5, 6]) .none false .kmeans) demo (eqObj 2 6 1 2, 0)).2
    returns (fitGibbs world (rows1 [0, 1, 5, 6]) .none true .kmeans) demo s = true ∧
    ((fitGibbs world (rows1 [0, 1, 5, 6]) .none true .kmeans) demo s).2.1.nGroups.length = 6 := by decide +kernel
example : perFit 6 1 2 = 3 := by unfold perFit; rw [Nat.ceil_eq_iff (by norm_num), show Int.toNat (6 - 1) = 5 from rfl]; norm_num
end Verif.Mix
