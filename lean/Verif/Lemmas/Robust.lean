import Verif.Lemmas.GibbsStep
import Verif.Lemmas.BBerOk
import Verif.Lemmas.CompletePost
import Verif.Props.C26
import Verif.Props.C50

/-!
# Runs of the Gibbs sampler that do not raise

`Robust C ω R0 R grows slow`: from weight objects satisfying `R` none of the calls the sampler makes raises; with `grows` the class can extend its weights at
will (stick-breaking classes), without `grows` the weights sum to one; with `slow` the loop of `tail` may not end.
-/

set_option linter.unusedSectionVars false

namespace Verif.Mix
open GM Spec
variable {K : Type} [Field K] [LinearOrder K] [IsStrictOrderedRing K] {C : WeightClass K} {m : ℕ} {Atom : Type} {ω : Oracle K}

/-- The only way not to return: the loop of `tail` does not end. -/
def Slow (slow : Prop) (e : PyErr) : Prop := slow ∧ e = .outOfFuel

/-- None of the calls of the sampler on a weight object with `R` raises.  `R0` is what holds after the first draw of the weights (there may be none). -/
structure Robust (C : WeightClass K) (ω : Oracle K) (R0 R : C.State → Prop) (grows slow : Prop) : Prop where
  redraw : ∀ (d : List ℕ) (s : C.State × ℕ), R s.1 → d ≠ [] → (∀ x ∈ d, x < (C.getW s.1).length) →
    wp ω (C.random .none) (fun w t => R t.1 ∧ w = C.getW t.1 ∧ ∀ x ∈ d, x < w.length) (fun _ _ => False) (C.setD (labels d) s.1, s.2)
  tail : ∀ (f : ℕ) (x : K) (s : C.State × ℕ), R s.1 → 0 ≤ x → x < 1 →
    wp ω (C.tail f x) (fun _ t => R t.1 ∧ (C.getW s.1).length ≤ (C.getW t.1).length) (fun e _ => Slow slow e) s
  complete : ∀ (n : ℕ) (s : C.State × ℕ), R0 s.1 → 1 ≤ n → (grows ∨ n ≤ (C.getW s.1).length) →
    wp ω (C.complete (.int n)) (fun _ t => R t.1 ∧ n ≤ (C.getW t.1).length) (fun _ _ => False) s
  sub : ∀ s, R0 s → SubProb (C.getW s)
  total : ∀ s, R0 s → ¬ grows → (C.getW s).sum = 1
  ne : ∀ s, R s → C.getW s ≠ []
  weak : ∀ s, R s → R0 s

/-- The first weights can be drawn by `tail`; without `grows` there are at least `N` of them. -/
def StartsTail (C : WeightClass K) (ω : Oracle K) (R0 : C.State → Prop) (grows slow : Prop) (N : ℕ) (s0 : C.State) : Prop :=
  ∀ (pos f : ℕ) (x : K), 0 ≤ x → x < 1 → wp ω (C.tail f x) (fun _ t => R0 t.1 ∧ (grows ∨ N ≤ (C.getW t.1).length)) (fun e _ => Slow slow e) (s0, pos)

/-- The first weights can be drawn by `complete(g)`. -/
def StartsComplete (C : WeightClass K) (ω : Oracle K) (R0 : C.State → Prop) (grows : Prop) (N : ℕ) (s0 : C.State) (g : PySize) : Prop :=
  ∀ (pos : ℕ), wp ω (C.complete g) (fun _ t => R0 t.1 ∧ (grows ∨ N ≤ (C.getW t.1).length)) (fun _ _ => False) (s0, pos)

/-- `rng.uniform(eps, w + eps)` and `rng.uniform(eps, 1)` are positive and at most 1. -/
structure SlicesOk (W : World K m Atom) : Prop where
  first : ∀ p, 0 < W.unif p W.eps 1 ∧ W.unif p W.eps 1 ≤ 1
  step : ∀ p x, 0 ≤ x → x ≤ 1 → 0 < W.unif p W.eps (x + W.eps) ∧ W.unif p W.eps (x + W.eps) ≤ 1

/-- An object with `n` observations whose loops can run. -/
structure ReadyGM (R : C.State → Prop) (n : ℕ) (s : GM C m Atom) : Prop where
  y : s.y.length = n
  d : s.d.length = n
  aff : s.affinity.length = n
  low : ∀ x ∈ s.d, x < (C.getW s.wst.1).length
  weights : R s.wst.1
  atoms : s.thetaDefault = true
  sub : s.subsample ≠ 0

/-- The same object with other atoms. -/
def SameBut (s t : GM C m Atom) : Prop := ∃ theta, t = { s with theta := theta }

theorem SameBut.refl (s : GM C m Atom) : SameBut s s := ⟨s.theta, rfl⟩

theorem SameBut.trans {s t u : GM C m Atom} (h : SameBut s t) (h' : SameBut t u) : SameBut s u := by
  obtain ⟨a, rfl⟩ := h
  obtain ⟨b, rfl⟩ := h'
  exact ⟨b, rfl⟩

theorem ReadyGM.same {R : C.State → Prop} {n : ℕ} {s t : GM C m Atom} (h : ReadyGM R n s) (hst : SameBut s t) : ReadyGM R n t := by
  obtain ⟨a, rfl⟩ := hst
  exact ⟨h.y, h.d, h.aff, h.low, h.weights, h.atoms, h.sub⟩

section
variable (W : World K m Atom)

theorem getAtom_total (j : ℕ) (s : GM C m Atom × ℕ) (h : s.1.thetaDefault = true) :
    wp ω (getAtom W j) (fun _ t => SameBut s.1 t.1) (fun _ _ => False) s := by
  unfold getAtom
  rw [wp_bind, wp_self]
  split
  · exact .refl _
  · rw [wp_ite]
    refine ⟨fun _ => ?_, fun hn => hn h⟩
    rw [wp_bind, wp_draw1, wp_bind, wp_assign]
    exact ⟨_, rfl⟩

theorem getAtoms_total (js : List ℕ) (s : GM C m Atom × ℕ) (h : s.1.thetaDefault = true) :
    wp ω (getAtoms W js) (fun as t => SameBut s.1 t.1 ∧ as.length = js.length) (fun _ _ => False) s := by
  induction js generalizing s with
  | nil => exact ⟨.refl _, rfl⟩
  | cons j js ih =>
    unfold getAtoms
    rw [wp_bind]
    refine wp_mono (getAtom_total W j s h) (fun a t ht => ?_) fun _ _ h => h
    rw [wp_bind]
    refine wp_mono (ih t (by obtain ⟨_, e⟩ := ht; rw [e]; exact h)) (fun as u hu => ?_) fun _ _ h => h
    exact ⟨ht.trans hu.1, by simp [hu.2]⟩

theorem rowsOf_ok {y : List (Fin m → K)} {d : List ℕ} (h : y.length = d.length) (j : ℕ) : ∃ r, rowsOf y d j = .ok r := ⟨_, if_pos h⟩

theorem yLogLik_total (js : List ℕ) (acc : WithBot K) (s : GM C m Atom × ℕ) (h : s.1.thetaDefault = true) (hy : s.1.y.length = s.1.d.length) :
    wp ω (yLogLik W js acc) (fun _ t => SameBut s.1 t.1) (fun _ _ => False) s := by
  induction js generalizing s acc with
  | nil => exact .refl _
  | cons j js ih =>
    unfold yLogLik
    obtain ⟨r, hr⟩ := rowsOf_ok hy j
    rw [wp_bind, wp_self, wp_bind, wp_lift, hr]
    refine ⟨fun a _ => ?_, nofun⟩
    rw [wp_bind]
    refine wp_mono (getAtom_total W j s h) (fun a t ht => ?_) fun _ _ h => h
    exact wp_mono (ih _ t (by obtain ⟨_, e⟩ := ht; rw [e]; exact h) (by obtain ⟨_, e⟩ := ht; rw [e]; exact hy)) (fun _ u hu => ht.trans hu) fun _ _ h => h

theorem updateAtoms_total (js : List ℕ) (s : GM C m Atom × ℕ) (hy : s.1.y.length = s.1.d.length) :
    wp ω (updateAtoms W js) (fun _ t => SameBut s.1 t.1) (fun _ _ => False) s := by
  induction js generalizing s with
  | nil => exact .refl _
  | cons j js ih =>
    unfold updateAtoms
    obtain ⟨r, hr⟩ := rowsOf_ok hy j
    rw [wp_bind, wp_self, wp_bind, wp_lift, hr]
    refine ⟨fun a _ => ?_, nofun⟩
    rw [wp_bind, wp_draw1, wp_bind, wp_assign]
    exact wp_mono (ih _ hy) (fun _ u hu => SameBut.trans ⟨_, rfl⟩ hu) fun _ _ h => h

theorem maxInt_bound {d : List ℕ} (h : d ≠ []) {k : ℕ} (hk : ∀ x ∈ d, x < k) : ∃ x ∈ d, Py.maxInt (labels d) = .ok (x : ℤ) ∧ (∀ z ∈ d, z ≤ x) ∧ x + 1 ≤ k := by
  have hne : labels d ≠ [] := by unfold labels; simpa using h
  obtain ⟨z, hz, hmax⟩ := maxInt_ok hne
  obtain ⟨x, hx, rfl⟩ := maxInt_labels hz
  exact ⟨x, hx, hz, fun z hz => by exact_mod_cast hmax.2 _ (List.mem_map_of_mem hz), hk x hx⟩

theorem gather_labels {w : List K} {d : List ℕ} (h : ∀ x ∈ d, x < w.length) : ∃ ws, Py.gather w (labels d) = .ok ws ∧ ws.length = d.length ∧ ∀ x ∈ ws, x ∈ w := by
  have h' : ∀ i ∈ labels d, 0 ≤ i ∧ i < (w.length : ℤ) := by
    intro i hi
    obtain ⟨x, hx, rfl⟩ := List.mem_map.1 hi
    have := h x hx
    omega
  obtain ⟨ws, hws⟩ := gather_ok h'
  exact ⟨ws, hws, by rw [BBer.gather_length hws]; simp [labels], gather_mem hws⟩

/-- The update of the MAP state, also with labels that have no weight yet when the class can extend them. -/
theorem updateMap_total {R0 R : C.State → Prop} {grows slow : Prop} (hR : Robust C ω R0 R grows slow) {n : ℕ} (hn : 2 ≤ n) (s : GM C m Atom × ℕ)
    (hy : s.1.y.length = n) (hd : s.1.d.length = n) (haff : s.1.affinity.length = n) (hw : R0 s.1.wst.1) (hat : s.1.thetaDefault = true) (hsub : s.1.subsample ≠ 0)
    (hlow : ∀ x ∈ s.1.d, grows ∨ x < (C.getW s.1.wst.1).length) :
    wp ω (updateMap W) (fun _ t => ReadyGM R n t.1) (fun _ _ => False) s := by
  unfold updateMap runLogLik
  rw [wp_bind, wp_bind, wp_self, wp_bind]
  refine wp_mono (yLogLik_total W _ _ s hat (by rw [hy, hd])) (fun _ t ht => ?_) fun _ _ h => h
  have hne : s.1.d ≠ [] := by rintro h; rw [h] at hd; simp at hd; omega
  obtain ⟨th, ht⟩ := ht
  rw [wp_bind, wp_callW]
  unfold BaseWeight.assignationLogLikelihood
  have hb : ∃ k, ∀ x ∈ s.1.d, x < k := ⟨s.1.d.foldl max 0 + 1, fun x hx => by
    have := mem_npUnique.2 hx
    unfold npUnique at this
    exact List.mem_range.1 (List.mem_filter.1 this).1⟩
  obtain ⟨k, hk⟩ := hb
  obtain ⟨x, hx, hmax, hle, -⟩ := maxInt_bound hne hk
  rw [wp_bind, wp_self, Option.getD_some, wp_bind, wp_lift, hmax]
  refine ⟨fun a ha => ?_, nofun⟩
  cases ha
  rw [wp_bind, ht]
  have hc := hR.complete (x + 1) s.1.wst hw (by omega) ((hlow x hx).imp id fun h => h)
  rw [show (((x + 1 : ℕ) : ℤ)) = (x : ℤ) + 1 by push_cast; ring] at hc
  refine wp_mono hc (fun _ u hu => ?_) fun _ _ h => h
  rw [wp_bind, wp_self, wp_bind, wp_lift]
  obtain ⟨ws, hws, -, -⟩ := gather_labels (w := C.getW u.1) (d := s.1.d) fun z hz => by have := hle z hz; have := hu.2; omega
  rw [hws]
  refine ⟨fun a _ => ?_, nofun⟩
  have hready : ReadyGM R n { s.1 with theta := th, wst := u } :=
    ⟨hy, hd, haff, fun z hz => by have := hle z hz; have := hu.2; show z < (C.getW u.1).length; omega, hu.1, hat, hsub⟩
  rw [wp_pure, wp_pure, wp_assign]
  simp only []
  split
  · exact ⟨hready.y, hready.d, hready.aff, hready.low, hready.weights, hready.atoms, hready.sub⟩
  · split
    · exact ⟨hready.y, hready.d, hready.aff, hready.low, hready.weights, hready.atoms, hready.sub⟩
    · exact hready

theorem minK_attained {l : List K} (h : l ≠ []) : ∃ x ∈ l, minK l = .ok x := by
  cases l with
  | nil => exact absurd rfl h
  | cons x xs =>
    have : ∀ (xs : List K) (a : K), xs.foldl min a ∈ a :: xs := by
      intro xs
      induction xs with
      | nil => intro a; simp
      | cons b bs ih =>
        intro a
        have := ih (min a b)
        rw [List.foldl_cons]
        rcases List.mem_cons.1 this with h | h
        · rw [h]
          rcases min_choice a b with h | h <;> rw [h] <;> simp
        · simp [h]
    exact ⟨_, this xs x, rfl⟩

theorem gumbelMax_total {k : ℕ} (hk : 0 < k) (cols : List (List (WithBot K))) (ns : List (List K)) (h1 : ∀ c ∈ cols, c.length = k) (h2 : ∀ c ∈ ns, c.length = k) :
    ∃ d, gumbelMaxSampling cols ns = .ok d ∧ ∀ x ∈ d, x < k := by
  induction cols generalizing ns with
  | nil => exact ⟨[], rfl, by simp⟩
  | cons c cs ih =>
    cases ns with
    | nil => exact ⟨[], rfl, by simp⟩
    | cons g gs =>
      obtain ⟨d, hd, hlt⟩ := ih gs (fun x hx => h1 x (by simp [hx])) fun x hx => h2 x (by simp [hx])
      have hl : (List.zipWith (fun p (g : K) => p + (g : WithBot K)) c g).length = k := by
        rw [List.length_zipWith, h1 c (by simp), h2 g (by simp), min_self]
      obtain ⟨i, hi, hs⟩ := argmax_spec (l := List.zipWith (fun p (g : K) => p + (g : WithBot K)) c g) (by rintro h; rw [h] at hl; simp at hl; omega)
      refine ⟨i :: d, ?_, ?_⟩
      · simp only [gumbelMaxSampling, gumbelColumn, hi, hd]
      · intro x hx
        rcases List.mem_cons.1 hx with rfl | hx
        · obtain ⟨hb, -⟩ := hs
          rw [← hl]
          exact hb
        · exact hlt x hx

/-- One iteration. -/
theorem gibbsStep_total {R0 R : C.State → Prop} {grows slow : Prop} (hR : Robust C ω R0 R grows slow) (hW : SlicesOk W) {n : ℕ} (hn : 2 ≤ n) (s : GM C m Atom × ℕ)
    (hs : ReadyGM R n s.1) : wp ω (gibbsStep W) (fun _ t => ReadyGM R n t.1) (fun e _ => Slow slow e) s := by
  unfold gibbsStep
  rw [wp_bind, wp_self, wp_bind]
  refine wp_mono (updateAtoms_total W _ s (by rw [hs.y, hs.d])) (fun _ t ht => ?_) fun _ _ h => h.elim
  replace hs := hs.same ht
  clear ht
  have hne : t.1.d ≠ [] := by rintro h; have := hs.d; rw [h] at this; simp at this; omega
  rw [wp_bind]
  unfold updateWeights
  rw [wp_bind, wp_self, wp_bind, wp_callW]
  unfold BaseWeight.fit
  rw [wp_assign, wp_bind, wp_callW]
  refine wp_mono (hR.redraw t.1.d t.1.wst hs.weights hne hs.low) (fun w u hu => ?_) fun _ _ h => h.elim
  obtain ⟨hu1, rfl, hu3⟩ := hu
  obtain ⟨ws, hws, hlen, hmem⟩ := gather_labels hu3
  rw [wp_bind, wp_lift, hws]
  refine ⟨fun a ha => ?_, nofun⟩
  cases ha
  rw [wp_bind, wp_drawSlices, wp_bind, wp_assign, wp_bind, wp_lift]
  generalize hus : ws.mapIdx (fun i x => W.unif (t.2 + i) W.eps (x + W.eps)) = us
  have hul : us.length = n := by rw [← hus, List.length_mapIdx, hlen, hs.d]
  have hpos : ∀ x ∈ us, 0 < x ∧ x ≤ 1 := by
    intro x hx
    rw [← hus] at hx
    obtain ⟨i, hi, rfl⟩ := List.mem_mapIdx.1 hx
    have hw := hmem _ (List.getElem_mem hi)
    have hsub := hR.sub _ (hR.weak _ hu1)
    exact hW.step _ _ (hsub.1 _ hw) ((List.single_le_sum hsub.1 _ hw).trans hsub.2)
  obtain ⟨u0, hu0, hmin⟩ := minK_attained (l := us) (by rintro rfl; simp at hul; omega)
  rw [hmin]
  refine ⟨fun a ha => ?_, nofun⟩
  cases ha
  have h0 := hpos u0 hu0
  rw [wp_bind, wp_callW]
  refine wp_mono (hR.tail W.fuel (1 - u0) u hu1 (by linarith) (by linarith)) (fun _ v hv => ?_) fun _ _ h => h
  rw [wp_pure]
  unfold updateD
  rw [wp_bind, wp_self, wp_bind]
  refine wp_mono (getAtoms_total W _ _ hs.atoms) (fun as z hz => ?_) fun _ _ h => h.elim
  obtain ⟨⟨th, hth⟩, hal⟩ := hz
  rw [List.length_range] at hal
  have hwpos : 0 < (C.getW v.1).length := List.length_pos_iff.2 (hR.ne _ hv.1)
  rw [wp_ite]
  refine ⟨fun hbad => ?_, fun _ => ?_⟩
  · exfalso
    rcases hbad with h | h | h
    · have := hs.y; change t.1.y.length = 1 at h; omega
    · change (C.getW v.1).length = 0 at h; omega
    · exact h (hul.trans hs.y.symm)
  rw [wp_bind, wp_drawNoise, wp_bind, wp_lift]
  simp only []
  have hcols : ∀ c ∈ List.zipWith (column W (C.getW v.1) as) t.1.y us, c.length = (C.getW v.1).length := by
    intro c hc
    rw [← List.map_uncurry_zip_eq_zipWith] at hc
    obtain ⟨p, -, rfl⟩ := List.mem_map.1 hc
    show (column W (C.getW v.1) as p.1 p.2).length = _
    unfold column
    rw [List.length_zipWith, hal, min_self]
  have hns : ∀ c ∈ (List.range t.1.y.length).map (noise W z.2 (C.getW v.1).length t.1.y.length), c.length = (C.getW v.1).length := by
    intro c hc
    obtain ⟨i, -, rfl⟩ := List.mem_map.1 hc
    simp [noise]
  obtain ⟨d, hd, hlt⟩ := gumbelMax_total hwpos _ _ hcols hns
  rw [hd]
  refine ⟨fun a ha => ?_, nofun⟩
  cases ha
  rw [wp_assign]
  have hdl : d.length = n := by
    rw [gumbelMaxSampling_length hd, List.length_zipWith, List.length_map, List.length_range, hul, hs.y]
    simp
  have e : z.1 = { t.1 with wst := v, u := us, theta := th } := hth
  refine ⟨?_, hdl, ?_, ?_, ?_, ?_, ?_⟩
  · show z.1.y.length = n; rw [e]; exact hs.y
  · show z.1.affinity.length = n; rw [e]; exact hs.aff
  · show ∀ x ∈ d, x < (C.getW z.1.wst.1).length; rw [e]; exact hlt
  · show R z.1.wst.1; rw [e]; exact hv.1
  · show z.1.thetaDefault = true; rw [e]; exact hs.atoms
  · show z.1.subsample ≠ 0; rw [e]; exact hs.sub

theorem saveParams_total {R : C.State → Prop} {n : ℕ} (s : GM C m Atom × ℕ) (hs : ReadyGM R n s.1) :
    wp ω (saveParams : M K (GM C m Atom) Unit) (fun _ t => ReadyGM R n t.1) (fun _ _ => False) s := by
  unfold saveParams
  rw [wp_bind, wp_assign, wp_bind, wp_self, wp_bind, wp_lift]
  have he : s.1.affinity.length = s.1.d.length := by rw [hs.aff, hs.d]
  unfold addAffinity
  rw [if_pos he]
  refine ⟨fun a ha => ?_, nofun⟩
  cases ha
  rw [wp_assign]
  refine ⟨hs.y, hs.d, ?_, hs.low, hs.weights, hs.atoms, hs.sub⟩
  show (List.zipWith _ s.1.affinity s.1.d).length = n
  rw [List.length_zipWith, hs.aff, hs.d, min_self]

theorem burn_total {R0 R : C.State → Prop} {grows slow : Prop} (hR : Robust C ω R0 R grows slow) (hW : SlicesOk W) {n : ℕ} (hn : 2 ≤ n) (b : ℕ) (s : GM C m Atom × ℕ)
    (hs : ReadyGM R n s.1) : wp ω (burn W b) (fun _ t => ReadyGM R n t.1) (fun e _ => Slow slow e) s := by
  induction b generalizing s with
  | zero => exact hs
  | succ b ih =>
    unfold burn
    rw [wp_bind]
    refine wp_mono (gibbsStep_total W hR hW hn s hs) (fun _ t ht => ?_) fun _ _ h => h
    rw [wp_bind]
    exact wp_mono (updateMap_total W hR hn t ht.y ht.d ht.aff (hR.weak _ ht.weights) ht.atoms ht.sub fun x hx => .inr (ht.low x hx)) (fun _ u hu => ih u hu) fun _ _ h => h.elim

theorem record_total {R0 R : C.State → Prop} {grows slow : Prop} (hR : Robust C ω R0 R grows slow) (hW : SlicesOk W) {n : ℕ} (hn : 2 ≤ n) (b i : ℕ) (s : GM C m Atom × ℕ)
    (hs : ReadyGM R n s.1) : wp ω (record W b i) (fun _ t => ReadyGM R n t.1) (fun e _ => Slow slow e) s := by
  induction b generalizing s i with
  | zero => exact hs
  | succ b ih =>
    unfold record
    rw [wp_bind]
    refine wp_mono (gibbsStep_total W hR hW hn s hs) (fun _ t ht => ?_) fun _ _ h => h
    rw [wp_bind]
    refine wp_mono (updateMap_total W hR hn t ht.y ht.d ht.aff (hR.weak _ ht.weights) ht.atoms ht.sub fun x hx => .inr (ht.low x hx)) (fun _ u hu => ?_) fun _ _ h => h.elim
    unfold maybeSave
    rw [wp_bind, wp_bind, wp_self, wp_ite]
    refine ⟨fun h => absurd h hu.sub, fun _ => ?_⟩
    rw [wp_whenM]
    exact ⟨fun _ => wp_mono (saveParams_total u hu) (fun _ v hv => ih _ v hv) fun _ _ h => h.elim, fun _ => ih _ u hu⟩

/-- What `fit_gibbs` needs of the start it is asked for: `k` clusters found, labels for every row. -/
def GoodStart (W : World K m Atom) (ys : List (Fin m → K)) (grows : Prop) (N : ℕ) (clusters : ℤ) : InitMethod → Prop
  | .kmeans => IsArgsort W.argsort ∧ ∀ p, ∃ l, W.kmeans p ys clusters = .ok l ∧ l.length = ys.length ∧ (grows ∨ (npUnique l).length ≤ N)
  | .random => True
  | .variational => ∀ p k, 1 ≤ k → ∃ l, W.varLabels p ys k = .ok l ∧ l.length = ys.length ∧ ∀ x ∈ l, x < k
  | .unknown => False

/-- The number of clusters asked for, `_base.py:790-797`. -/
def clustersAsked (nAttr : Option ℤ) (g : PySize) : ℤ := match nAttr with
  | some n => n
  | none => match g.toInt? with
    | some g => g
    | none => 2

theorem sizeBiased_lt {f : List ℤ → List ℕ} (hf : IsArgsort f) (d : List ℕ) : ∀ x ∈ sizeBiased f d, x < (npUnique d).length := by
  intro x hx
  unfold sizeBiased at hx
  obtain ⟨i, hi, rfl⟩ := List.mem_map.1 hx
  have h1 := (hf ((npUnique d).map fun x => -(d.count x : ℤ))).1
  rw [List.length_map] at h1
  have h2 := (hf ((f ((npUnique d).map fun x => -(d.count x : ℤ))).map fun i : ℕ => (i : ℤ))).1
  rw [List.length_map, h1.length_eq, List.length_range] at h2
  have hil := npInverse_lt i hi
  have hr : i < (f ((f ((npUnique d).map fun x => -(d.count x : ℤ))).map fun i : ℕ => (i : ℤ))).length := by rw [h2.length_eq, List.length_range]; exact hil
  rw [List.getElem?_eq_getElem hr, Option.getD_some]
  exact List.mem_range.1 (h2.subset (List.getElem_mem hr))

theorem sizeBiased_length (f : List ℤ → List ℕ) (d : List ℕ) : (sizeBiased f d).length = d.length := by simp [sizeBiased, npInverse]

/-- **`fit_gibbs` from scratch**: it returns an object whose loops can run again, or the loop of `tail` does not end. -/
theorem fit_cold_total (hω : ω.Legal) {R0 R : C.State → Prop} {grows slow : Prop} (hR : Robust C ω R0 R grows slow) (hW : SlicesOk W) {N : ℕ} (ys : List (Fin m → K)) (hn : 2 ≤ ys.length)
    (g : PySize) (method : InitMethod) (s : GM C m Atom × ℕ)
    (hg : (g = .none ∧ StartsTail C ω R0 grows slow N s.1.wst.1) ∨ (g ≠ .none ∧ StartsComplete C ω R0 grows N s.1.wst.1 g))
    (hfull : method = .variational → ∀ t, R0 t → C.getW t ≠ []) (hsub : s.1.subsample ≠ 0) (hst : GoodStart W ys grows N (clustersAsked s.1.nAttr g) method) :
    wp ω (fitGibbs W (.rows ys) g false method) (fun _ t => ReadyGM R ys.length t.1 ∧ t.1.gibbsFitted = true) (fun e _ => Slow slow e) s := by
  unfold fitGibbs initCommon
  rw [wp_bind, wp_assign, wp_bind, wp_whenM]
  refine ⟨fun _ => ?_, fun h => absurd rfl h⟩
  rw [wp_bind]
  unfold initGibbs
  rw [wp_bind, wp_assign, wp_bind, wp_self, wp_bind, wp_draws, wp_bind, wp_assign, wp_bind]
  have hus : (List.range ys.length).map (fun i => W.unif (s.2 + i) W.eps 1) ≠ [] := by
    rintro h
    have := congrArg List.length h
    rw [List.length_map, List.length_range, List.length_nil] at this
    omega
  obtain ⟨u0, hu0, hmin⟩ := minK_attained hus
  have h0 : 0 < u0 ∧ u0 ≤ 1 := by
    obtain ⟨i, -, rfl⟩ := List.mem_map.1 hu0
    exact hW.first _
  unfold initWeights
  rw [wp_bind, wp_self]
  have key : ∀ t : C.State × ℕ, R0 t.1 → (grows ∨ N ≤ (C.getW t.1).length) → ∀ o : GM C m Atom × ℕ, o.1.y = ys → o.1.affinity.length = ys.length → o.1.thetaDefault = true →
      o.1.subsample = s.1.subsample → o.1.nAttr = s.1.nAttr → o.1.wst = t →
      wp ω (do
        let d ← initLabels W g method
        M.assign (fun s => { s with d := d }) : M K (GM C m Atom) Unit) (fun _ a => wp ω (updateMap W) (fun _ a => wp ω (do
        let s ← M.self
        burn W s.burnIn.toNat
        record W (s.totalIter - s.burnIn).toNat 0
        M.assign (fun s => { s with gibbsFitted := true }) : M K (GM C m Atom) Unit) (fun _ t => ReadyGM R ys.length t.1 ∧ t.1.gibbsFitted = true)
          (fun e _ => Slow slow e) a) (fun e _ => Slow slow e) a) (fun e _ => Slow slow e) o := by
    intro t ht hN o hoy hoa hod hos hon how
    have fin : ∀ (d : List ℕ) (o' : GM C m Atom × ℕ), d.length = ys.length → (∀ x ∈ d, grows ∨ x < (C.getW t.1).length) →
        o'.1.y = ys → o'.1.affinity.length = ys.length → o'.1.thetaDefault = true → o'.1.subsample = s.1.subsample → o'.1.wst.1 = t.1 →
        wp ω (M.assign (fun s => { s with d := d }) : M K (GM C m Atom) Unit) (fun _ a => wp ω (updateMap W) (fun _ a => wp ω (do
        let s ← M.self
        burn W s.burnIn.toNat
        record W (s.totalIter - s.burnIn).toNat 0
        M.assign (fun s => { s with gibbsFitted := true }) : M K (GM C m Atom) Unit) (fun _ t => ReadyGM R ys.length t.1 ∧ t.1.gibbsFitted = true)
          (fun e _ => Slow slow e) a) (fun e _ => Slow slow e) a) (fun e _ => Slow slow e) o' := by
      intro d o' hd hlow h1 h2 h3 h4 h5
      rw [wp_assign]
      refine wp_mono (updateMap_total W hR hn _ (by show o'.1.y.length = _; rw [h1]) hd h2 (by show R0 o'.1.wst.1; rw [h5]; exact ht) h3 (by show o'.1.subsample ≠ 0; rw [h4]; exact hsub)
        (by show ∀ x ∈ d, grows ∨ x < (C.getW o'.1.wst.1).length; rw [h5]; exact hlow)) (fun _ a ha => ?_) fun _ _ h => h.elim
      rw [wp_bind, wp_self, wp_bind]
      refine wp_mono (burn_total W hR hW hn _ a ha) (fun _ b hb => ?_) fun _ _ h => h
      rw [wp_bind]
      refine wp_mono (record_total W hR hW hn _ _ b hb) (fun _ c hc => ?_) fun _ _ h => h
      rw [wp_assign]
      exact ⟨⟨hc.y, hc.d, hc.aff, hc.low, hc.weights, hc.atoms, hc.sub⟩, rfl⟩
    rw [wp_bind]
    cases method with
    | kmeans =>
      obtain ⟨hf, hk⟩ := hst
      obtain ⟨l, hl, hlen, hgl⟩ := hk o.2
      unfold initLabels
      rw [wp_bind, wp_self, wp_bind, wp_draw1]
      have e : W.kmeans o.2 o.1.y (match o.1.nAttr with | some n => n | none => match g.toInt? with | some g => g | none => 2) = .ok l := by
        rw [hoy, hon]; exact hl
      rw [wp_bind, wp_lift]
      refine ⟨fun a ha => ?_, fun x hx => absurd (e.symm.trans hx) nofun⟩
      cases e.symm.trans ha
      rw [wp_pure]
      refine fin _ _ (by rw [sizeBiased_length, hlen]) (fun x hx => ?_) hoy hoa hod hos (by show o.1.wst.1 = _; rw [how])
      rcases hgl with h | h
      · exact .inl h
      · rcases hN with h' | h'
        · exact .inl h'
        · have := sizeBiased_lt hf l x hx; exact .inr (by omega)
    | random =>
      unfold initLabels
      rw [wp_bind, wp_self, wp_callW]
      unfold BaseWeight.randomAssignment
      rw [wp_bind, wp_unifVec]
      refine ⟨fun h => by omega, fun _ => ?_⟩
      rw [wp_bind, wp_self, wp_pure]
      refine fin _ _ (by simp [hoy]) (fun x hx => ?_) hoy hoa hod hos (by show o.1.wst.1 = _; rw [how])
      by_cases hgr : grows
      · exact .inl hgr
      · right
        obtain ⟨u, hu, rfl⟩ := List.mem_map.1 hx
        obtain ⟨i, -, rfl⟩ := List.mem_map.1 hu
        have hw1 := hR.total _ ht hgr
        show BaseWeight.invCdf (BaseWeight.normalizedCumulative (C.getW o.1.wst.1)) _ < _
        rw [how]
        exact (invCdf_quantile (hR.sub _ ht).1 (by rw [hw1]; exact one_pos) (hω.unif_lt_one _)).lt
    | variational =>
      unfold initLabels
      rw [wp_bind, wp_self, wp_bind, wp_draw1]
      obtain ⟨l, hl, hlen, hlt⟩ := hst o.2 (C.getW o.1.wst.1).length (by rw [how]; exact List.length_pos_iff.2 (hfull rfl _ ht))
      rw [wp_lift, hoy, hl]
      refine ⟨fun a ha => ?_, nofun⟩
      cases ha
      exact fin _ _ hlen (fun x hx => .inr (by rw [← how]; exact hlt x hx)) hoy hoa hod hos (by show o.1.wst.1 = _; rw [how])
    | unknown => exact hst.elim
  rcases hg with ⟨rfl, hs⟩ | ⟨hne, hs⟩
  · simp only []
    rw [wp_bind, wp_lift, hmin]
    refine ⟨fun a ha => ?_, nofun⟩
    cases ha
    rw [wp_bind, wp_callW]
    refine wp_mono (hs s.1.wst.2 W.fuel (1 - u0) (by linarith) (by linarith)) (fun _ t ht => ?_) fun _ _ h => h
    rw [wp_pure]
    exact key t ht.1 ht.2 _ rfl (by show (List.replicate _ _).length = _; simp) rfl rfl rfl rfl
  · split
    · exact absurd rfl hne
    · rw [wp_bind, wp_callW]
      refine wp_mono (hs s.1.wst.2) (fun _ t ht => ?_) fun _ _ h => h.elim
      rw [wp_pure]
      exact key t ht.1 ht.2 _ rfl (by show (List.replicate _ _).length = _; simp) rfl rfl rfl rfl

/-- **`fit_gibbs` continued** with as many observations as before. -/
theorem fit_warm_total {R0 R : C.State → Prop} {grows slow : Prop} (hR : Robust C ω R0 R grows slow) (hW : SlicesOk W) (ys : List (Fin m → K)) (hn : 2 ≤ ys.length) (g : PySize)
    (method : InitMethod) (s : GM C m Atom × ℕ) (hs : ReadyGM R ys.length s.1) :
    wp ω (fitGibbs W (.rows ys) g true method) (fun _ t => ReadyGM R ys.length t.1 ∧ t.1.gibbsFitted = true) (fun e _ => Slow slow e) s := by
  unfold fitGibbs initCommon
  rw [wp_bind, wp_assign, wp_bind, wp_whenM]
  refine ⟨fun h => Bool.noConfusion h, fun _ => ?_⟩
  rw [wp_bind, wp_self, wp_bind]
  refine wp_mono (burn_total W hR hW hn _ _ ⟨rfl, hs.d, hs.aff, hs.low, hs.weights, hs.atoms, hs.sub⟩) (fun _ b hb => ?_) fun _ _ h => h
  rw [wp_bind]
  refine wp_mono (record_total W hR hW hn _ _ b hb) (fun _ c hc => ?_) fun _ _ h => h
  rw [wp_assign]
  exact ⟨⟨hc.y, hc.d, hc.aff, hc.low, hc.weights, hc.atoms, hc.sub⟩, rfl⟩
end
end Verif.Mix
