import Verif.Lemmas.Gibbs

/-! # The bookkeeping of the saved Gibbs states -/

set_option linter.unusedSectionVars false

namespace Verif.Mix
variable {K : Type} [Field K] [LinearOrder K] [IsStrictOrderedRing K] {C : WeightClass K} {m : ℕ} {Atom : Type} {ω : Oracle K}

/-- Entry `(i, j)`: the number of states in which observations `i` and `j` share a group. -/
def coMatrix (n : ℕ) (saved : List (RunParams K Atom)) : List (List ℕ) :=
  (List.range n).map (fun i => (List.range n).map (fun j => saved.countP (fun p => decide (p.d[i]? = p.d[j]?))))

/-- Saved states, group counts, atom counts, the number of saved states and the co-clustering counts agree. -/
structure Book (s : GM C m Atom) : Prop where
  groups : s.nGroups = s.saved.map (fun p => (npUnique p.d).length)
  atoms : s.nAtoms = s.saved.map (fun p => p.theta.length)
  total : s.totalSaved = s.saved.length
  lens : ∀ p ∈ s.saved, p.d.length = s.d.length
  aff : s.affinity = coMatrix s.d.length s.saved

theorem gumbelMaxSampling_length {cols : List (List (WithBot K))} {ns : List (List K)} {d : List ℕ} (h : gumbelMaxSampling cols ns = .ok d) :
    d.length = min cols.length ns.length := by
  induction cols generalizing ns d with
  | nil => unfold gumbelMaxSampling at h; cases h; simp
  | cons c cs ih =>
    cases ns with
    | nil => unfold gumbelMaxSampling at h; cases h; simp
    | cons g gs =>
      unfold gumbelMaxSampling at h
      rcases hg : gumbelColumn c g with e | i
      · rw [hg] at h; cases h
      · rw [hg] at h
        simp only [] at h
        rcases hr : gumbelMaxSampling cs gs with e | is
        · rw [hr] at h; cases h
        · rw [hr] at h
          simp only [Except.ok.injEq] at h
          subst h
          have := ih hr
          simp only [List.length_cons]; omega

theorem addAffinity_co {n : ℕ} (saved : List (RunParams K Atom)) (p : RunParams K Atom) (h : p.d.length = n) :
    GM.addAffinity (coMatrix n saved) p.d = .ok (coMatrix n (saved ++ [p])) := by
  unfold GM.addAffinity
  rw [if_pos (by simp [coMatrix, h])]
  congr 1
  refine List.ext_getElem (by simp [coMatrix, h]) fun i h1 h2 => ?_
  refine List.ext_getElem (by simp [coMatrix, h]) fun j h3 h4 => ?_
  have hi : i < p.d.length := by simpa [coMatrix, h] using h2
  have hj : j < p.d.length := by simpa [coMatrix, h] using h4
  simp only [coMatrix, List.getElem_zipWith, List.getElem_map, List.getElem_range]
  rw [List.countP_append, List.countP_singleton]
  congr 1
  rw [List.getElem?_eq_getElem hi, List.getElem?_eq_getElem hj]
  by_cases hh : p.d[j] = p.d[i]
  · simp [hh]
  · rw [if_neg hh, if_neg]; simp only [Option.some.injEq, decide_eq_true_eq]; exact fun hc => hh hc.symm

namespace GM
variable (W : World K m Atom) (c : Frame K m Atom)

theorem getAtom_d (d : List ℕ) (j : ℕ) : KeepsR ω (fun s : GM C m Atom => s.d = d) (getAtom W j) (fun _ => True) := by
  unfold getAtom
  refine KeepsR.bind KeepsR.self fun s _ => ?_
  split
  · exact KeepsR.pure trivial
  · refine KeepsR.ite (fun _ => ?_) (fun _ => KeepsR.raise _)
    refine KeepsR.bind (keeps_draw1 _) fun a _ => ?_
    exact KeepsR.bind (KeepsR.assign fun s h => h) fun _ _ => KeepsR.pure trivial

theorem yLogLik_d (d : List ℕ) (js : List ℕ) (acc : WithBot K) : KeepsR ω (fun s : GM C m Atom => s.d = d) (yLogLik W js acc) (fun _ => True) := by
  induction js generalizing acc with
  | nil => exact KeepsR.pure trivial
  | cons j js ih =>
    unfold yLogLik
    refine KeepsR.bind KeepsR.self fun s _ => KeepsR.bind (KeepsR.lift _) fun rows _ => KeepsR.bind (getAtom_d W d j) fun a _ => ih _

theorem updateMap_d (d : List ℕ) : KeepsR ω (fun s : GM C m Atom => s.d = d) (updateMap W) (fun _ => True) := by
  unfold updateMap runLogLik
  refine KeepsR.bind (R := fun _ => True) ?_ fun ll _ => KeepsR.assign fun s h => ?_
  · refine KeepsR.bind KeepsR.self fun s _ => KeepsR.bind (yLogLik_d W d _ _) fun _ _ => ?_
    exact KeepsR.bind (keeps_callW (fun s t h => h) _) fun _ _ => KeepsR.pure trivial
  · split
    · exact h
    · split <;> exact h

theorem updateAtoms_d (d : List ℕ) (js : List ℕ) : KeepsR ω (fun s : GM C m Atom => s.d = d) (updateAtoms W js) (fun _ => True) := by
  induction js with
  | nil => exact KeepsR.pure trivial
  | cons j js ih =>
    unfold updateAtoms
    refine KeepsR.bind KeepsR.self fun s _ => KeepsR.bind (KeepsR.lift _) fun rows _ => KeepsR.bind (keeps_draw1 _) fun a _ => ?_
    exact KeepsR.bind (KeepsR.assign fun s h => h) fun _ _ => ih

theorem updateWeights_d (d : List ℕ) : KeepsR ω (fun s : GM C m Atom => s.d = d) (updateWeights W) (fun _ => True) := by
  unfold updateWeights
  refine KeepsR.bind KeepsR.self fun s _ => KeepsR.bind (keeps_callW (fun s t h => h) _) fun _ _ => ?_
  refine KeepsR.bind (keeps_callW (fun s t h => h) _) fun w _ => KeepsR.bind (KeepsR.lift _) fun ws _ => ?_
  refine KeepsR.bind (keeps_slices W ws) fun us _ => KeepsR.bind (KeepsR.assign fun s h => h) fun _ _ => ?_
  refine KeepsR.bind (KeepsR.lift _) fun u _ => KeepsR.bind (keeps_callW (fun s t h => h) _) fun _ _ => KeepsR.pure trivial

theorem getAtoms_d (d : List ℕ) (js : List ℕ) : KeepsR ω (fun s : GM C m Atom => s.d = d) (getAtoms W js) (fun _ => True) := by
  induction js with
  | nil => exact KeepsR.pure trivial
  | cons j js ih =>
    unfold getAtoms
    exact KeepsR.bind (getAtom_d W d j) fun _ _ => KeepsR.bind ih fun _ _ => KeepsR.pure trivial

/-- A program that keeps two invariants. -/
theorem _root_.Verif.KeepsR.and {K σ α : Type} {ω : Oracle K} {I J : σ → Prop} {x : M K σ α} {R S : α → Prop} (h : KeepsR ω I x R) (h' : KeepsR ω J x S) :
    KeepsR ω (fun s => I s ∧ J s) x (fun a => R a ∧ S a) := by
  refine KeepsR.of_wp fun s hs => wp_mono (wp_and (KeepsR.wp h hs.1) (KeepsR.wp h' hs.2)) ?_ ?_
  · exact fun a t h => ⟨⟨h.1.1, h.2.1⟩, h.1.2, h.2.2⟩
  · exact fun e t h => h

/-- A successful update of the occupied atoms means that labels and data have the same length. -/
theorem updateAtoms_lens {js : List ℕ} (hj : js ≠ []) (s : GM C m Atom × ℕ) :
    wp ω (updateAtoms W js) (fun _ _ => s.1.y.length = s.1.d.length) (fun _ _ => True) s := by
  obtain ⟨j, js, rfl⟩ := List.exists_cons_of_ne_nil hj
  unfold updateAtoms
  rw [wp_bind, wp_self, wp_bind, wp_lift]
  refine ⟨fun rows h => ?_, fun _ _ => trivial⟩
  unfold rowsOf at h
  split at h
  · rename_i hl
    unfold wp; split <;> first | exact hl | trivial
  · cases h

/-- Without labels the weights cannot be updated. -/
theorem updateWeights_empty (s : GM C m Atom × ℕ) (hd : s.1.d = []) :
    wp ω (updateWeights W) (fun _ _ => False) (fun _ _ => True) s := by
  unfold updateWeights
  have htriv : ∀ {α : Type} (x : M K C.State α) (Q : α → C.State × ℕ → Prop) (t : C.State × ℕ), (∀ a t, Q a t) → wp ω x Q (fun _ _ => True) t := by
    intro α x Q t h
    unfold wp; split
    · exact h _ _
    · trivial
  rw [wp_bind, wp_self, wp_bind, wp_callW]
  refine htriv _ _ _ fun _ t1 => ?_
  rw [wp_bind, wp_callW]
  refine htriv _ _ _ fun w t2 => ?_
  rw [wp_bind, wp_lift]
  refine ⟨fun ws hws => ?_, fun _ _ => trivial⟩
  rw [hd] at hws
  have : ws = [] := by
    simpa [labels, Py.gather] using hws.symm
  subst this
  rw [wp_bind, wp_drawSlices, wp_bind, wp_assign, wp_bind, wp_lift]
  refine ⟨fun u hu => ?_, fun _ _ => trivial⟩
  simp [minK] at hu

theorem updateD_len (n : ℕ) (s : GM C m Atom × ℕ) (hy : s.1.y.length = n) (hd : s.1.d.length = n) :
    wp ω (updateD W) (fun _ t => t.1.d.length = n) (fun _ t => t.1.d.length = n) s := by
  unfold updateD
  rw [wp_bind, wp_self, wp_bind]
  refine wp_mono (KeepsR.wp (getAtoms_d W s.1.d _) rfl) ?_ ?_
  · rintro as t ⟨ht, -⟩
    rw [wp_ite]
    refine ⟨fun _ => by rw [wp_raise, ht]; exact hd, fun hc => ?_⟩
    rw [wp_bind, wp_drawNoise, wp_bind, wp_lift]
    refine ⟨fun d h => ?_, fun _ _ => by show t.1.d.length = n; rw [ht]; exact hd⟩
    rw [wp_assign]
    have := gumbelMaxSampling_length h
    show d.length = n
    rw [this]
    push Not at hc
    simp [hc.2.2, hy]
  · rintro e t ht
    show t.1.d.length = n
    rw [ht]; exact hd

theorem gibbsStep_len (n : ℕ) : KeepsR ω (fun s : GM C m Atom => s.d.length = n) (gibbsStep W) (fun _ => True) := by
  refine KeepsR.of_wp fun s hs => ?_
  unfold gibbsStep
  rw [wp_bind, wp_self, wp_bind]
  have hU := KeepsR.wp (ω := ω) (s := s) (KeepsR.and (updateAtoms_d W s.1.d (npUnique s.1.d)) (updateAtoms_frame (frame s.1) W (npUnique s.1.d))) ⟨rfl, rfl⟩
  by_cases hd : s.1.d = []
  · refine wp_mono hU ?_ ?_
    · rintro _ t ⟨⟨ht, -⟩, -⟩
      rw [wp_bind]
      refine wp_mono (wp_and (updateWeights_empty W t (by rw [ht, hd])) (KeepsR.wp (updateWeights_d W s.1.d) ht)) ?_ ?_
      · exact fun _ _ h => h.1.elim
      · rintro _ t2 ⟨-, h⟩; show t2.1.d.length = n; rw [h]; exact hs
    · rintro e t ⟨ht, -⟩; show t.1.d.length = n; rw [ht]; exact hs
  · have hne : npUnique s.1.d ≠ [] := by
      obtain ⟨x, hx⟩ := List.exists_mem_of_ne_nil _ hd
      exact List.ne_nil_of_mem (mem_npUnique.2 hx)
    refine wp_mono (wp_and hU (updateAtoms_lens W hne s)) ?_ ?_
    · rintro _ t ⟨⟨⟨ht, hf⟩, -⟩, hl⟩
      rw [wp_bind]
      refine wp_mono (KeepsR.wp (KeepsR.and (updateWeights_d W s.1.d) (updateWeights_frame (frame s.1) W)) ⟨ht, hf⟩) ?_ ?_
      · rintro _ t2 ⟨⟨ht2, hf2⟩, -⟩
        have hy : t2.1.y = s.1.y := congrArg Frame.y hf2
        refine wp_mono (updateD_len W n t2 (by rw [hy, hl]; exact hs) (by rw [ht2]; exact hs)) ?_ ?_
        · exact fun _ _ h => ⟨h, trivial⟩
        · exact fun _ _ h => h
      · rintro _ t2 ⟨h, -⟩; show t2.1.d.length = n; rw [h]; exact hs
    · rintro e t ⟨⟨ht, -⟩, -⟩; show t.1.d.length = n; rw [ht]; exact hs

/-- One iteration: `_gibbs_step` and `_update_map_params`. -/
def iter : M K (GM C m Atom) Unit := do
  gibbsStep W
  updateMap W

theorem iter_keeps (n : ℕ) : KeepsR ω (fun s : GM C m Atom => s.d.length = n ∧ frame s = c) (iter W) (fun _ => True) := by
  unfold iter
  refine KeepsR.bind (R := fun _ => True) ?_ fun _ _ => ?_
  · refine KeepsR.of_wp fun s hs => wp_mono (KeepsR.wp (KeepsR.and (gibbsStep_len W n) (gibbsStep_frame c W)) hs) (fun _ _ h => ⟨h.1, trivial⟩) (fun _ _ h => h)
  · refine KeepsR.of_wp fun s hs => wp_mono (KeepsR.wp (KeepsR.and (updateMap_d W s.1.d) (updateMap_frame c W)) ⟨rfl, hs.2⟩) ?_ ?_
    · exact fun _ t h => ⟨⟨(congrArg List.length h.1.1).trans hs.1, h.1.2⟩, trivial⟩
    · exact fun _ t h => ⟨(congrArg List.length h.1).trans hs.1, h.2⟩

/-- `Book` only looks at the frame and at the number of labels. -/
theorem Book.congr {s t : GM C m Atom} (h : Book s) (hd : t.d.length = s.d.length) (hf : frame t = frame s) : Book t := by
  have h1 : t.saved = s.saved := congrArg Frame.saved hf
  have h2 : t.nGroups = s.nGroups := congrArg Frame.nGroups hf
  have h3 : t.nAtoms = s.nAtoms := congrArg Frame.nAtoms hf
  have h4 : t.totalSaved = s.totalSaved := congrArg Frame.totalSaved hf
  have h5 : t.affinity = s.affinity := congrArg Frame.affinity hf
  exact ⟨by rw [h2, h1]; exact h.groups, by rw [h3, h1]; exact h.atoms, by rw [h4, h1]; exact h.total, by rw [h1, hd]; exact h.lens,
    by rw [h5, h1, hd]; exact h.aff⟩

theorem saveParams_spec (s : GM C m Atom × ℕ) (hb : Book s.1) :
    wp ω saveParams (fun _ t => Book t.1 ∧ t.1.saved = s.1.saved ++ [runParams s.1] ∧ t.1.d = s.1.d ∧ t.1.theta = s.1.theta ∧ t.1.wst = s.1.wst ∧
      t.1.u = s.1.u ∧ t.1.y = s.1.y ∧ t.2 = s.2 ∧
      t.1.subsample = s.1.subsample ∧ t.1.totalIter = s.1.totalIter ∧ t.1.burnIn = s.1.burnIn ∧ t.1.gibbsFitted = s.1.gibbsFitted ∧
      t.1.mapLL = s.1.mapLL ∧ t.1.mapParams = s.1.mapParams ∧ t.1.thetaDefault = s.1.thetaDefault ∧ prior t.1 = prior s.1) (fun _ _ => False) s := by
  unfold saveParams
  rw [wp_bind, wp_assign, wp_bind, wp_self, wp_bind, wp_lift]
  have h : addAffinity s.1.affinity s.1.d = .ok (coMatrix s.1.d.length (s.1.saved ++ [runParams s.1])) := by
    rw [hb.aff]; exact addAffinity_co s.1.saved (runParams s.1) rfl
  refine ⟨fun aff ha => ?_, fun e he => ?_⟩
  · have ha : addAffinity s.1.affinity s.1.d = .ok aff := ha
    rw [h] at ha
    cases ha
    rw [wp_assign]
    refine ⟨⟨?_, ?_, ?_, ?_, rfl⟩, rfl, rfl, rfl, rfl, rfl, rfl, rfl, rfl, rfl, rfl, rfl, rfl, rfl, rfl, rfl⟩
    · show s.1.nGroups ++ _ = (s.1.saved ++ [runParams s.1]).map _
      rw [hb.groups, List.map_append]; rfl
    · show s.1.nAtoms ++ _ = (s.1.saved ++ [runParams s.1]).map _
      rw [hb.atoms, List.map_append]; rfl
    · show s.1.totalSaved + 1 = (s.1.saved ++ [runParams s.1]).length
      rw [hb.total]; simp
    · show ∀ p ∈ s.1.saved ++ [runParams s.1], _
      intro p hp
      rcases List.mem_append.1 hp with h1 | h1
      · exact hb.lens p h1
      · rw [List.mem_singleton.1 h1]; rfl
  · have he : addAffinity s.1.affinity s.1.d = .error e := he
    rw [h] at he; cases he

/-- Recorded iterations keep the books; each multiple of the subsampling step adds one state. -/
theorem record_book (k i : ℕ) (s : GM C m Atom × ℕ) (hb : Book s.1) :
    wp ω (record W k i)
      (fun _ t => Book t.1 ∧ t.1.d.length = s.1.d.length ∧ t.1.subsample = s.1.subsample ∧ t.1.totalIter = s.1.totalIter ∧ t.1.burnIn = s.1.burnIn ∧
        t.1.saved.length = s.1.saved.length + (List.range k).countP (fun l => decide (s.1.subsample ∣ ((i + l : ℕ) : ℤ))))
      (fun _ t => Book t.1 ∧ t.1.subsample = s.1.subsample ∧ t.1.totalIter = s.1.totalIter ∧ t.1.burnIn = s.1.burnIn ∧ t.1.d.length = s.1.d.length) s := by
  induction k generalizing i s with
  | zero => exact ⟨hb, rfl, rfl, rfl, rfl, by simp⟩
  | succ k ih =>
    have hrw : (record W (k + 1) i : M K (GM C m Atom) Unit) = (iter W >>= fun _ => (maybeSave (i : ℤ) >>= fun _ => record W k (i + 1))) := by
      funext ω s; simp only [record, iter, M.bind_apply]
      rcases gibbsStep W ω s with ⟨_ | _, t⟩ <;> rfl
    rw [hrw, wp_bind]
    refine wp_mono (KeepsR.wp (iter_keeps W (frame s.1) s.1.d.length) ⟨rfl, rfl⟩) ?_ ?_
    · rintro _ t ⟨⟨hd, hf⟩, -⟩
      have hbt := Book.congr hb hd hf
      have h1 : t.1.subsample = s.1.subsample := congrArg Frame.subsample hf
      have h2 : t.1.totalIter = s.1.totalIter := congrArg Frame.totalIter hf
      have h3 : t.1.burnIn = s.1.burnIn := congrArg Frame.burnIn hf
      have h4 : t.1.saved = s.1.saved := congrArg Frame.saved hf
      rw [wp_bind]
      unfold maybeSave
      rw [wp_bind, wp_self, wp_ite]
      refine ⟨fun _ => by rw [wp_raise]; exact ⟨hbt, h1, h2, h3, hd⟩, fun _ => ?_⟩
      have hcount : (List.range (k + 1)).countP (fun l => decide (s.1.subsample ∣ ((i + l : ℕ) : ℤ))) =
          (if s.1.subsample ∣ (i : ℤ) then 1 else 0) + (List.range k).countP (fun l => decide (s.1.subsample ∣ ((i + 1 + l : ℕ) : ℤ))) := by
        rw [List.range_succ_eq_map, List.countP_cons, List.countP_map, Nat.add_comm]
        simp only [Nat.add_zero, decide_eq_true_eq]
        congr 1
        refine List.countP_congr fun x _ => ?_
        simp only [Function.comp_apply, decide_eq_true_eq, Nat.succ_eq_add_one]
        rw [show i + (x + 1) = i + 1 + x by omega]
      rw [wp_whenM]
      refine ⟨fun h => ?_, fun h => ?_⟩
      · refine wp_mono (saveParams_spec t hbt) ?_ (fun _ _ h => h.elim)
        rintro _ t2 ⟨hb2, hs2, hd2, -, -, -, -, -, e1, e2, e3, -⟩
        refine wp_mono (ih (i + 1) t2 hb2) ?_ ?_
        · rintro _ t3 ⟨f1, f2, f3, f4, f5, f6⟩
          refine ⟨f1, by rw [f2, hd2, hd], by rw [f3, e1, h1], by rw [f4, e2, h2], by rw [f5, e3, h3], ?_⟩
          rw [f6, hs2, e1, h1, h4, hcount, if_pos (by rw [← h1]; exact Int.dvd_of_emod_eq_zero h)]
          simp; omega
        · rintro _ t3 ⟨f1, f3, f4, f5, f6⟩
          exact ⟨f1, by rw [f3, e1, h1], by rw [f4, e2, h2], by rw [f5, e3, h3], by rw [f6, hd2, hd]⟩
      · refine wp_mono (ih (i + 1) t hbt) ?_ ?_
        · rintro _ t3 ⟨f1, f2, f3, f4, f5, f6⟩
          refine ⟨f1, by rw [f2, hd], by rw [f3, h1], by rw [f4, h2], by rw [f5, h3], ?_⟩
          rw [f6, h1, h4, hcount, if_neg (fun hc => h (Int.emod_eq_zero_of_dvd (by rw [h1]; exact hc)))]
          omega
        · rintro _ t3 ⟨f1, f3, f4, f5, f6⟩
          exact ⟨f1, by rw [f3, h1], by rw [f4, h2], by rw [f5, h3], by rw [f6, hd]⟩
    · rintro _ t ⟨hd, hf⟩
      exact ⟨Book.congr hb hd hf, congrArg Frame.subsample hf, congrArg Frame.totalIter hf, congrArg Frame.burnIn hf, hd⟩

theorem burn_keeps (k n : ℕ) : KeepsR ω (fun s : GM C m Atom => s.d.length = n ∧ frame s = c) (burn W k) (fun _ => True) := by
  induction k with
  | zero => exact KeepsR.pure trivial
  | succ k ih =>
    have hrw : (burn W (k + 1) : M K (GM C m Atom) Unit) = (iter W >>= fun _ => burn W k) := by
      funext ω s; simp only [burn, iter, M.bind_apply]
      rcases gibbsStep W ω s with ⟨_ | _, t⟩ <;> rfl
    rw [hrw]
    exact KeepsR.bind (iter_keeps W c n) fun _ _ => ih

/-- `initialisation does not touch the configuration` -/
theorem initWeights_frame (g : PySize) : KeepsR ω (fun s : GM C m Atom => frame s = c) (initWeights W g) (fun _ => True) := by
  unfold initWeights
  refine KeepsR.bind KeepsR.self fun s _ => ?_
  split
  · exact KeepsR.bind (KeepsR.lift _) fun _ _ => KeepsR.bind (keeps_callW (fun s t h => h) _) fun _ _ => KeepsR.pure trivial
  · exact KeepsR.bind (keeps_callW (fun s t h => h) _) fun _ _ => KeepsR.pure trivial

theorem initLabels_frame (g : PySize) (method : InitMethod) : KeepsR ω (fun s : GM C m Atom => frame s = c) (initLabels W g method) (fun _ => True) := by
  unfold initLabels
  split
  · exact KeepsR.bind KeepsR.self fun s _ => KeepsR.bind (keeps_draw1 _) fun _ _ => KeepsR.bind (KeepsR.lift _) fun _ _ => KeepsR.pure trivial
  · exact KeepsR.bind KeepsR.self fun s _ => keeps_callW (fun s t h => h) _
  · refine KeepsR.bind KeepsR.self fun s _ => KeepsR.bind (keeps_draw1 _) fun r _ => ?_
    exact KeepsR.of_wp fun s hs => by rw [wp_lift]; exact ⟨fun _ _ => ⟨hs, trivial⟩, fun _ _ => hs⟩
  · exact KeepsR.raise _

/-- The object just after the first assignments of `_initialize_gibbs_params`. -/
def wiped (s : GM C m Atom) : GM C m Atom := { s with
      saved := []
      nGroups := []
      nAtoms := []
      totalSaved := 0
      theta := []
      thetaDefault := true
      affinity := List.replicate s.y.length (List.replicate s.y.length 0) }

theorem initGibbs_frame (g : PySize) (method : InitMethod) (s : GM C m Atom × ℕ) :
    wp ω (initGibbs W g method) (fun _ t => frame t.1 = frame (wiped s.1)) (fun _ t => frame t.1 = frame (wiped s.1)) s := by
  unfold initGibbs
  rw [wp_bind, wp_assign, wp_bind, wp_self, wp_bind, wp_draws, wp_bind, wp_assign, wp_bind]
  refine wp_mono (KeepsR.wp (initWeights_frame W (frame (wiped s.1)) g) rfl) ?_ (fun _ _ h => h)
  rintro _ t ⟨ht, -⟩
  rw [wp_bind]
  refine wp_mono (KeepsR.wp (initLabels_frame W (frame (wiped s.1)) g method) ht) ?_ (fun _ _ h => h)
  rintro d t2 ⟨ht2, -⟩
  rw [wp_assign]; exact ht2

theorem Py.maxInt_nil : Py.maxInt [] = .error .valueError := rfl

/-- A log-likelihood can only be computed when labels and data have the same length. -/
theorem updateMap_lens (s : GM C m Atom × ℕ) : wp ω (updateMap W) (fun _ t => t.1.d.length = t.1.y.length) (fun _ _ => True) s := by
  have h0 : wp ω (updateMap W) (fun _ _ => s.1.d.length = s.1.y.length) (fun _ _ => True) s := by
    unfold updateMap runLogLik
    rw [wp_bind, wp_bind, wp_self, wp_bind]
    by_cases hd : s.1.d = []
    · refine wp_mono (KeepsR.wp (yLogLik_d W s.1.d (npUnique s.1.d) 0) rfl) ?_ (fun _ _ _ => trivial)
      rintro ly t ⟨ht, -⟩
      rw [wp_bind, wp_callW]
      unfold BaseWeight.assignationLogLikelihood
      rw [wp_bind, wp_self, wp_bind, wp_lift]
      refine ⟨fun a ha => ?_, fun _ _ => trivial⟩
      rw [hd] at ha; cases ha
    · have hne : npUnique s.1.d ≠ [] := by
        obtain ⟨x, hx⟩ := List.exists_mem_of_ne_nil _ hd
        exact List.ne_nil_of_mem (mem_npUnique.2 hx)
      obtain ⟨j, js, hj⟩ := List.exists_cons_of_ne_nil hne
      rw [hj]; unfold yLogLik
      rw [wp_bind, wp_self, wp_bind, wp_lift]
      refine ⟨fun rows h => ?_, fun _ _ => trivial⟩
      unfold rowsOf at h
      split at h
      · rename_i hl
        have htriv : ∀ {α : Type} (x : M K (GM C m Atom) α) (Q : α → GM C m Atom × ℕ → Prop) (t : GM C m Atom × ℕ), (∀ a t, Q a t) → wp ω x Q (fun _ _ => True) t := by
          intro α x Q t h
          unfold wp; split
          · exact h _ _
          · trivial
        refine htriv _ _ _ fun _ _ => htriv _ _ _ fun _ _ => ?_
        exact hl.symm
      · cases h
  refine wp_mono (wp_and h0 (KeepsR.wp (KeepsR.and (updateMap_d W s.1.d) (updateMap_frame (frame s.1) W)) ⟨rfl, rfl⟩)) ?_ (fun _ _ _ => trivial)
  rintro _ t ⟨h1, ⟨h2, h3⟩, -⟩
  rw [h2, show t.1.y = s.1.y from congrArg Frame.y h3]; exact h1

/-- `⌈k/s⌉` counts the multiples of `s` among `0, .., k-1`. -/
theorem count_multiples (k : ℕ) (s : ℤ) (hs : 1 ≤ s) : (List.range k).countP (fun l => decide (s ∣ ((0 + l : ℕ) : ℤ))) = ⌈(k : ℚ) / (s : ℚ)⌉₊ := by
  obtain ⟨r, rfl⟩ : ∃ r : ℕ, s = r := ⟨s.toNat, by omega⟩
  have hr : 0 < r := by omega
  have : ∀ k : ℕ, (List.range k).countP (fun l => decide (((r : ℕ) : ℤ) ∣ ((0 + l : ℕ) : ℤ))) = (k + (r - 1)) / r := by
    intro k
    induction k with
    | zero => simp [Nat.div_eq_of_lt (show r - 1 < r by omega)]
    | succ k ih =>
      rw [List.range_succ, List.countP_append, ih, List.countP_singleton]
      simp only [Nat.zero_add, Int.natCast_dvd_natCast, decide_eq_true_eq]
      rw [show k + 1 + (r - 1) = k + (r - 1) + 1 by omega, Nat.succ_div]
      congr 1
      have : r ∣ k + (r - 1) + 1 ↔ r ∣ k := by
        rw [show k + (r - 1) + 1 = k + r by omega]; simp
      simp [this]
  rw [this]
  have hq : (0 : ℚ) < (((r : ℕ) : ℤ) : ℚ) := by exact_mod_cast hr
  symm
  refine le_antisymm (Nat.ceil_le.2 ?_) (Nat.lt_succ_iff.1 (Nat.div_lt_of_lt_mul ?_))
  · rw [div_le_iff₀ hq]
    have h1 := Nat.div_add_mod (k + (r - 1)) r
    have h2 := Nat.mod_lt (k + (r - 1)) hr
    have : k ≤ (k + (r - 1)) / r * r := by rw [Nat.mul_comm]; omega
    have h3 : (k : ℚ) ≤ (((k + (r - 1)) / r * r : ℕ) : ℚ) := by exact_mod_cast this
    rw [Nat.cast_mul] at h3
    simpa using h3
  · have h1 : (k : ℚ) ≤ ⌈(k : ℚ) / (((r : ℕ) : ℤ) : ℚ)⌉₊ * (((r : ℕ) : ℤ) : ℚ) := by
      rw [← div_le_iff₀ hq]
      exact Nat.le_ceil _
    have h2 : k ≤ ⌈(k : ℚ) / (((r : ℕ) : ℤ) : ℚ)⌉₊ * r := by exact_mod_cast h1
    rw [Nat.succ_eq_add_one, Nat.mul_add, Nat.mul_comm r]
    omega

/-- The iteration numbers of an object. -/
def cfg (s : GM C m Atom) : ℤ × ℤ × ℤ := (s.totalIter, s.burnIn, s.subsample)

/-- How many states a complete fit saves. -/
def fitCount (s : GM C m Atom) : ℕ :=
  (List.range (s.totalIter - s.burnIn).toNat).countP (fun l => decide (s.subsample ∣ ((0 + l : ℕ) : ℤ)))

theorem cfg_of_frame {s t : GM C m Atom} (h : frame t = frame s) : cfg t = cfg s := by
  have h1 : t.totalIter = s.totalIter := congrArg Frame.totalIter h
  have h2 : t.burnIn = s.burnIn := congrArg Frame.burnIn h
  have h3 : t.subsample = s.subsample := congrArg Frame.subsample h
  simp only [cfg, h1, h2, h3]

/-- The loops of `fit_gibbs`, from a consistent object. -/
theorem loops_spec (s : GM C m Atom × ℕ) (hb : Book s.1) :
    wp ω (do let s ← M.self; burn W s.burnIn.toNat; record W (s.totalIter - s.burnIn).toNat 0; M.assign (fun s => { s with gibbsFitted := true }))
      (fun _ t => Book t.1 ∧ cfg t.1 = cfg s.1 ∧ t.1.saved.length = s.1.saved.length + fitCount s.1 ∧ t.1.d.length = s.1.d.length)
      (fun _ t => Book t.1 ∧ cfg t.1 = cfg s.1 ∧ t.1.d.length = s.1.d.length) s := by
  rw [wp_bind, wp_self, wp_bind]
  refine wp_mono (KeepsR.wp (burn_keeps W (frame s.1) _ s.1.d.length) ⟨rfl, rfl⟩) ?_ ?_
  · rintro _ t ⟨⟨hd, hf⟩, -⟩
    have hbt := Book.congr hb hd hf
    have hc := cfg_of_frame hf
    have hsub : t.1.subsample = s.1.subsample := congrArg Frame.subsample hf
    have hsv : t.1.saved = s.1.saved := congrArg Frame.saved hf
    rw [wp_bind]
    refine wp_mono (record_book W _ 0 t hbt) ?_ ?_
    · rintro _ t2 ⟨f1, f2, f3, f4, f5, f6⟩
      rw [wp_assign]
      refine ⟨⟨f1.groups, f1.atoms, f1.total, f1.lens, f1.aff⟩, ?_, ?_, f2.trans hd⟩
      · rw [← hc]; show cfg t2.1 = cfg t.1; simp only [cfg, f3, f4, f5]
      · show t2.1.saved.length = _
        rw [f6, hsub, hsv]; rfl
    · rintro _ t2 ⟨f1, f3, f4, f5, f6⟩
      exact ⟨f1, by rw [← hc]; simp only [cfg, f3, f4, f5], f6.trans hd⟩
  · rintro _ t ⟨hd, hf⟩
    exact ⟨Book.congr hb hd hf, cfg_of_frame hf, hd⟩

theorem fit_warm (y : YArg K m) (g : PySize) (method : InitMethod) (s : GM C m Atom × ℕ) (hb : Book s.1) :
    wp ω (fitGibbs W y g true method)
      (fun _ t => Book t.1 ∧ cfg t.1 = cfg s.1 ∧ t.1.saved.length = s.1.saved.length + fitCount s.1 ∧ t.1.d.length = s.1.d.length)
      (fun _ t => Book t.1 ∧ cfg t.1 = cfg s.1 ∧ t.1.d.length = s.1.d.length) s := by
  unfold fitGibbs
  rw [wp_bind]
  cases y with
  | invalid => exact ⟨hb, rfl, rfl⟩
  | rows ys =>
    unfold initCommon
    rw [wp_assign, wp_bind, wp_whenM]
    refine ⟨fun h => (by cases h), fun _ => ?_⟩
    exact loops_spec W _ ⟨hb.groups, hb.atoms, hb.total, hb.lens, hb.aff⟩

theorem coMatrix_nil (n : ℕ) : coMatrix n ([] : List (RunParams K Atom)) = List.replicate n (List.replicate n 0) := by
  simp [coMatrix, List.map_const']

theorem fit_cold (y : YArg K m) (g : PySize) (method : InitMethod) (s : GM C m Atom × ℕ) :
    wp ω (fitGibbs W y g false method)
      (fun _ t => Book t.1 ∧ cfg t.1 = cfg s.1 ∧ t.1.saved.length = fitCount s.1 ∧ ∀ ys, y = .rows ys → t.1.d.length = ys.length)
      (fun _ t => cfg t.1 = cfg s.1) s := by
  unfold fitGibbs
  rw [wp_bind]
  cases y with
  | invalid => exact rfl
  | rows ys =>
    unfold initCommon
    rw [wp_assign, wp_bind, wp_whenM]
    refine ⟨fun _ => ?_, fun h => absurd rfl h⟩
    rw [wp_bind]
    refine wp_mono (initGibbs_frame W g method _) ?_ ?_
    · rintro _ t ht
      have hc : cfg t.1 = cfg s.1 := (cfg_of_frame ht).trans rfl
      refine wp_mono (wp_and (updateMap_lens W t) (KeepsR.wp (updateMap_frame (frame t.1) W) rfl)) ?_ ?_
      · rintro _ t2 ⟨hl, hf, -⟩
        have hft := hf.trans ht
        have hy : t2.1.y = ys := congrArg Frame.y hft
        have h1 : t2.1.saved = [] := congrArg Frame.saved hft
        have hb : Book t2.1 := by
          have h2 : t2.1.nGroups = [] := congrArg Frame.nGroups hft
          have h3 : t2.1.nAtoms = [] := congrArg Frame.nAtoms hft
          have h4 : t2.1.totalSaved = 0 := congrArg Frame.totalSaved hft
          have h5 : t2.1.affinity = List.replicate ys.length (List.replicate ys.length 0) := congrArg Frame.affinity hft
          refine ⟨by rw [h1, h2]; rfl, by rw [h1, h3]; rfl, by rw [h1, h4]; rfl, by rw [h1]; simp, ?_⟩
          rw [h5, h1, coMatrix_nil, hl, hy]
        have hc2 : cfg t2.1 = cfg s.1 := (cfg_of_frame hf).trans hc
        have hfc : fitCount t2.1 = fitCount s.1 := by
          simp only [cfg, Prod.mk.injEq] at hc2
          simp only [fitCount, hc2.1, hc2.2.1, hc2.2.2]
        refine wp_mono (loops_spec W t2 hb) ?_ ?_
        · rintro _ t3 ⟨g1, g2, g3, g4⟩
          refine ⟨g1, g2.trans hc2, by rw [g3, h1, hfc]; simp, fun zs hz => ?_⟩
          cases hz
          rw [g4, hl, hy]
        · rintro _ t3 ⟨g1, g2, -⟩
          exact g2.trans hc2
      · rintro _ t2 ⟨-, hf⟩
        exact (cfg_of_frame hf).trans hc
    · rintro _ t ht
      exact (cfg_of_frame ht).trans rfl

/-- A property of the frame that saving preserves is kept by the recording loop. -/
theorem record_keeps {I : GM C m Atom → Prop} (hI : ∀ s t : GM C m Atom, frame t = frame s → I s → I t) (hsave : KeepsR ω I saveParams (fun _ => True))
    (k i : ℕ) : KeepsR ω I (record W k i) (fun _ => True) := by
  have hfr : ∀ {x : M K (GM C m Atom) Unit}, (∀ c, KeepsR ω (fun s : GM C m Atom => frame s = c) x (fun _ => True)) → KeepsR ω I x (fun _ => True) := by
    intro x hx
    refine KeepsR.of_wp fun s hs => wp_mono (KeepsR.wp (hx (frame s.1)) rfl) ?_ ?_
    · exact fun _ t h => ⟨hI _ _ h.1 hs, trivial⟩
    · exact fun _ t h => hI _ _ h hs
  induction k generalizing i with
  | zero => exact KeepsR.pure trivial
  | succ k ih =>
    unfold record
    refine KeepsR.bind (hfr fun c => gibbsStep_frame c W) fun _ _ => KeepsR.bind (hfr fun c => updateMap_frame c W) fun _ _ => ?_
    refine KeepsR.bind (R := fun _ => True) ?_ fun _ _ => ih _
    unfold maybeSave
    exact KeepsR.bind KeepsR.self fun s _ => KeepsR.ite (fun _ => KeepsR.raise _) fun _ => KeepsR.whenM (fun _ => hsave)

theorem saveParams_flag (b : Bool) (L : List (RunParams K Atom)) :
    KeepsR ω (fun s : GM C m Atom => s.gibbsFitted = b ∧ L <+: s.saved) saveParams (fun _ => True) := by
  unfold saveParams
  refine KeepsR.bind (KeepsR.assign fun s h => ⟨h.1, h.2.trans (List.prefix_append _ _)⟩) fun _ _ => KeepsR.bind KeepsR.self fun s _ => ?_
  exact KeepsR.bind (KeepsR.lift _) fun _ _ => KeepsR.assign fun s h => h

theorem loops_flag (s : GM C m Atom × ℕ) :
    wp ω (do let s ← M.self; burn W s.burnIn.toNat; record W (s.totalIter - s.burnIn).toNat 0; M.assign (fun s => { s with gibbsFitted := true }))
      (fun _ t => t.1.gibbsFitted = true ∧ s.1.saved <+: t.1.saved)
      (fun _ t => t.1.gibbsFitted = s.1.gibbsFitted ∧ s.1.saved <+: t.1.saved) s := by
  rw [wp_bind, wp_self, wp_bind]
  refine wp_mono (KeepsR.wp (burn_frame (frame s.1) W _) rfl) ?_ ?_
  · rintro _ t ⟨hf, -⟩
    rw [wp_bind]
    refine wp_mono (KeepsR.wp (record_keeps W (I := fun x => x.gibbsFitted = s.1.gibbsFitted ∧ s.1.saved <+: x.saved) ?_ (saveParams_flag _ _) _ 0) ?_) ?_ ?_
    · rintro x z h ⟨h1, h2⟩
      exact ⟨(congrArg Frame.gibbsFitted h).trans h1, by rw [show z.saved = x.saved from congrArg Frame.saved h]; exact h2⟩
    · exact ⟨congrArg Frame.gibbsFitted hf, (by rw [show t.1.saved = s.1.saved from congrArg Frame.saved hf]; exact List.prefix_rfl)⟩
    · rintro _ t2 ⟨⟨h1, h2⟩, -⟩
      rw [wp_assign]; exact ⟨rfl, h2⟩
    · exact fun _ _ h => h
  · rintro _ t hf
    exact ⟨congrArg Frame.gibbsFitted hf, (by rw [show t.1.saved = s.1.saved from congrArg Frame.saved hf]; exact List.prefix_rfl)⟩

/-- The flag is set by a fit that returns and by nothing else; a warm fit, returning or raising, drops no saved state. -/
theorem fit_flag (y : YArg K m) (g : PySize) (warm : Bool) (method : InitMethod) (s : GM C m Atom × ℕ) :
    wp ω (fitGibbs W y g warm method)
      (fun _ t => t.1.gibbsFitted = true ∧ (warm = true → s.1.saved <+: t.1.saved))
      (fun _ t => t.1.gibbsFitted = s.1.gibbsFitted ∧ (warm = true → s.1.saved <+: t.1.saved)) s := by
  unfold fitGibbs
  rw [wp_bind]
  cases y with
  | invalid => exact ⟨rfl, fun _ => List.prefix_rfl⟩
  | rows ys =>
    unfold initCommon
    rw [wp_assign, wp_bind, wp_whenM]
    refine ⟨fun hw => ?_, fun hw => ?_⟩
    · have hnw : ¬ warm = true := by rw [hw]; simp
      rw [wp_bind]
      refine wp_mono (initGibbs_frame W g method _) ?_ ?_
      · rintro _ t ht
        have h0 : t.1.gibbsFitted = s.1.gibbsFitted := congrArg Frame.gibbsFitted ht
        refine wp_mono (KeepsR.wp (updateMap_frame (frame t.1) W) rfl) ?_ ?_
        · rintro _ t2 ⟨hf, -⟩
          have h1 : t2.1.gibbsFitted = t.1.gibbsFitted := congrArg Frame.gibbsFitted hf
          refine wp_mono (loops_flag W t2) ?_ ?_
          · exact fun _ _ h => ⟨h.1, fun h => absurd h hnw⟩
          · exact fun _ _ h => ⟨h.1.trans (h1.trans h0), fun h => absurd h hnw⟩
        · exact fun _ t2 hf => ⟨(congrArg Frame.gibbsFitted hf).trans h0, fun h => absurd h hnw⟩
      · exact fun _ t ht => ⟨congrArg Frame.gibbsFitted ht, fun h => absurd h hnw⟩
    · refine wp_mono (loops_flag W _) ?_ ?_
      · exact fun _ _ h => ⟨h.1, fun _ => h.2⟩
      · exact fun _ _ h => ⟨h.1, fun _ => h.2⟩
end GM
end Verif.Mix
