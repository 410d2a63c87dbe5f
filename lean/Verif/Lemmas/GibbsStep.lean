import Verif.Lemmas.GibbsBook
import Verif.Lemmas.Tidy
import Verif.Props.C64

/-! # What one Gibbs step does -/

set_option linter.unusedSectionVars false

namespace Verif.Mix
open Verif.Spec
variable {K : Type} [Field K] [LinearOrder K] [IsStrictOrderedRing K] {C : WeightClass K} {m : ℕ} {Atom : Type} {ω : Oracle K}

namespace GM

/-- Only atoms were added. -/
structure Grown (s t : GM C m Atom) : Prop where
  wst : t.wst = s.wst
  d : t.d = s.d
  u : t.u = s.u
  pre : s.theta <+: t.theta
  frame : frame t = frame s
  map : t.mapLL = s.mapLL ∧ t.mapParams = s.mapParams

theorem Grown.rfl (s : GM C m Atom) : Grown s s := ⟨_root_.rfl, _root_.rfl, _root_.rfl, List.prefix_rfl, _root_.rfl, _root_.rfl, _root_.rfl⟩

theorem Grown.trans {r s t : GM C m Atom} (h : Grown r s) (h' : Grown s t) : Grown r t :=
  ⟨h'.wst.trans h.wst, h'.d.trans h.d, h'.u.trans h.u, h.pre.trans h'.pre, h'.frame.trans h.frame, h'.map.1.trans h.map.1, h'.map.2.trans h.map.2⟩

theorem lookup_prefix {th th' : List (ℕ × Atom)} (h : th <+: th') {j : ℕ} {a : Atom} (hj : th.lookup j = some a) : th'.lookup j = some a := by
  obtain ⟨r, rfl⟩ := h
  rw [List.lookup_append, hj]; rfl

theorem lookup_setAtom (th : List (ℕ × Atom)) (j k : ℕ) (a : Atom) :
    (setAtom th j a).lookup k = if k = j then some a else th.lookup k := by
  unfold setAtom
  have hmap : ∀ l : List (ℕ × Atom), (l.map (fun p => if p.1 = j then (j, a) else p)).lookup k
      = if k = j then (l.lookup k).map (fun _ => a) else l.lookup k := by
    intro l
    induction l with
    | nil => simp
    | cons p l ih =>
      rw [List.map_cons, List.lookup_cons, List.lookup_cons, ih]
      by_cases hp : p.1 = j
      · rw [if_pos hp]
        by_cases hk : k = j
        · subst hk; simp [hp]
        · have h1 : (k == j) = false := by simpa using hk
          have h2 : (k == p.1) = false := by rw [hp]; exact h1
          simp [h1, h2]
      · rw [if_neg hp]
        by_cases hk : k = j
        · subst hk
          have h2 : (k == p.1) = false := by simpa using fun h => hp h.symm
          simp [h2]
        · simp [hk]
  split
  · rename_i h
    rw [hmap]
    obtain ⟨b, hb⟩ := Option.isSome_iff_exists.1 h
    split
    · rename_i hk; rw [hk, hb]; rfl
    · rfl
  · rename_i h
    rw [List.lookup_append]
    have hn : th.lookup j = none := Option.not_isSome_iff_eq_none.1 h
    by_cases hk : k = j
    · subst hk; simp [hn]
    · have h1 : (k == j) = false := by simpa using hk
      simp [hk, List.lookup_cons, h1]

theorem setAtom_length (th : List (ℕ × Atom)) (j : ℕ) (a : Atom) : th.length ≤ (setAtom th j a).length := by
  unfold setAtom
  split <;> simp

variable (W : World K m Atom)

theorem getAtom_spec (j : ℕ) (s : GM C m Atom × ℕ) :
    wp ω (getAtom W j) (fun a t => Grown s.1 t.1 ∧ t.1.theta.lookup j = some a) (fun _ t => t = s) s := by
  unfold getAtom
  rw [wp_bind, wp_self]
  split
  · rename_i a ha
    exact ⟨Grown.rfl _, ha⟩
  · rename_i hn
    rw [wp_ite]
    refine ⟨fun _ => ?_, fun _ => rfl⟩
    rw [wp_bind, wp_draw1, wp_bind, wp_assign, wp_pure]
    refine ⟨⟨rfl, rfl, rfl, ?_, rfl, rfl, rfl⟩, ?_⟩
    · show s.1.theta <+: setAtom s.1.theta j _
      unfold setAtom
      rw [hn]
      exact List.prefix_append _ _
    · show (setAtom s.1.theta j _).lookup j = _
      rw [lookup_setAtom, if_pos rfl]

theorem getAtoms_spec (js : List ℕ) (s : GM C m Atom × ℕ) :
    wp ω (getAtoms W js) (fun as t => Grown s.1 t.1 ∧ as.length = js.length ∧
        ∀ (i : ℕ) (j : ℕ), js[i]? = some j → ∃ a, as[i]? = some a ∧ t.1.theta.lookup j = some a) (fun _ t => Grown s.1 t.1) s := by
  induction js generalizing s with
  | nil => exact ⟨Grown.rfl _, rfl, by simp⟩
  | cons j js ih =>
    unfold getAtoms
    rw [wp_bind]
    refine wp_mono (getAtom_spec W j s) (fun a t h => ?_) fun _ t h => by rw [h]; exact Grown.rfl _
    rw [wp_bind]
    refine wp_mono (ih t) (fun as t' h' => ?_) fun _ t' h' => h.1.trans h'
    rw [wp_pure]
    refine ⟨h.1.trans h'.1, by simp [h'.2.1], fun i j' hi => ?_⟩
    cases i with
    | zero =>
      simp only [List.getElem?_cons_zero, Option.some.injEq] at hi
      subst hi
      exact ⟨a, rfl, lookup_prefix h'.1.pre h.2⟩
    | succ i =>
      simp only [List.getElem?_cons_succ] at hi ⊢
      exact h'.2.2 i j' hi

theorem yLogLik_spec (js : List ℕ) (acc : WithBot K) (s : GM C m Atom × ℕ) :
    wp ω (yLogLik W js acc) (fun _ t => Grown s.1 t.1) (fun _ t => Grown s.1 t.1) s := by
  induction js generalizing acc s with
  | nil => exact Grown.rfl _
  | cons j js ih =>
    unfold yLogLik
    rw [wp_bind, wp_self, wp_bind, wp_lift]
    refine ⟨fun rows _ => ?_, fun _ _ => Grown.rfl _⟩
    rw [wp_bind]
    refine wp_mono (getAtom_spec W j s) (fun a t h => ?_) fun _ t h => by rw [h]; exact Grown.rfl _
    exact wp_mono (ih _ t) (fun _ _ h' => h.1.trans h') fun _ _ h' => h.1.trans h'

/-- What `_update_d` computed: the atoms `as` of the components, the noise `ns`, the labels. -/
structure Assigned (W : World K m Atom) (w : List K) (y : List (Fin m → K)) (u : List K) (theta : List (ℕ × Atom)) (d : List ℕ) (as : List Atom)
    (ns : List (List K)) : Prop where
  ne : w ≠ []
  atoms_len : as.length = w.length
  atoms : ∀ j < w.length, theta.lookup j = as[j]?
  u_len : u.length = y.length
  noise_len : ns.length = y.length
  noise : ∀ g ∈ ns, g.length = w.length
  labels : gumbelMaxSampling (List.zipWith (column W w as) y u) ns = .ok d

theorem updateD_spec (s : GM C m Atom × ℕ) :
    wp ω (updateD W) (fun _ t => t.1.wst = s.1.wst ∧ t.1.u = s.1.u ∧ s.1.theta <+: t.1.theta ∧ frame t.1 = frame s.1 ∧
        ∃ as ns, Assigned W (C.getW s.1.wst.1) s.1.y s.1.u t.1.theta t.1.d as ns) (fun _ _ => True) s := by
  unfold updateD
  rw [wp_bind, wp_self, wp_bind]
  refine wp_mono (getAtoms_spec W _ s) (fun as t h => ?_) fun _ _ _ => trivial
  rw [wp_ite]
  refine ⟨fun _ => trivial, fun hc => ?_⟩
  push Not at hc
  rw [wp_bind, wp_drawNoise, wp_bind, wp_lift]
  refine ⟨fun d hd => ?_, fun _ _ => trivial⟩
  rw [wp_assign]
  obtain ⟨hg, hl, ha⟩ := h
  refine ⟨hg.wst, hg.u, hg.pre, hg.frame, as, _, ?_, by simpa using hl, fun j hj => ?_, hc.2.2, by simp, ?_, hd⟩
  · intro h0; exact hc.2.1 (by rw [h0]; rfl)
  · obtain ⟨a, h1, h2⟩ := ha j j (List.getElem?_range hj)
    rw [h1]; exact h2
  · intro g hg'
    obtain ⟨i, _, rfl⟩ := List.mem_map.1 hg'
    simp [noise]

theorem Assigned.covered {w : List K} {y : List (Fin m → K)} {u : List K} {theta : List (ℕ × Atom)} {d : List ℕ} {as : List Atom}
    {ns : List (List K)} (h : Assigned W w y u theta d as ns) : ∀ j < w.length, (theta.lookup j).isSome := fun j hj => by
  rw [h.atoms j hj, List.getElem?_eq_getElem (by rw [h.atoms_len]; exact hj)]; rfl

theorem column_length {w : List K} {as : List Atom} (h : as.length = w.length) (x : Fin m → K) (ui : K) : (column W w as x ui).length = w.length := by
  simp [column, h]

theorem Assigned.choice {w : List K} {y : List (Fin m → K)} {u : List K} {theta : List (ℕ × Atom)} {d : List ℕ} {as : List Atom}
    {ns : List (List K)} (h : Assigned W w y u theta d as ns) : d.length = y.length ∧ ∀ (i : ℕ) (x : Fin m → K) (ui : K),
      y[i]? = some x → u[i]? = some ui → ∃ j g, d[i]? = some j ∧ ns[i]? = some g ∧ GumbelChoice (column W w as x ui) g j := by
  have hcols : (List.zipWith (column W w as) y u).length = y.length := by simp [h.u_len]
  have hc : ∀ (i : ℕ) (c : List (WithBot K)) (g : List K), (List.zipWith (column W w as) y u)[i]? = some c → ns[i]? = some g →
      c ≠ [] ∧ g.length = c.length := by
    intro i c g h1 h2
    rw [List.getElem?_zipWith] at h1
    have hg := h.noise g (List.mem_of_getElem? h2)
    have hcl : c.length = w.length := by
      rcases hy : y[i]? with _ | x <;> rcases hu : u[i]? with _ | ui <;> rw [hy, hu] at h1 <;> simp at h1
      rw [← h1]; exact column_length W h.atoms_len _ _
    refine ⟨fun h0 => h.ne ?_, by rw [hg, hcl]⟩
    rw [h0] at hcl
    exact List.length_eq_zero_iff.1 hcl.symm
  obtain ⟨is, e, hl, hch⟩ := C64_matrix (by rw [hcols, h.noise_len]) hc
  rw [h.labels] at e
  cases e
  refine ⟨by rw [hl, hcols], fun i x ui hx hu => ?_⟩
  have hi : i < y.length := (List.getElem?_eq_some_iff.1 hx).1
  have h1 : (List.zipWith (column W w as) y u)[i]? = some (column W w as x ui) := by rw [List.getElem?_zipWith, hx, hu]
  have h2 : ns[i]? = some (ns[i]'(by rw [h.noise_len]; exact hi)) := List.getElem?_eq_getElem _
  have h3 : d[i]? = some (d[i]'(by rw [hl, hcols]; exact hi)) := List.getElem?_eq_getElem _
  exact ⟨_, _, h3, h2, hch i _ _ _ h1 h2 h3⟩

theorem Assigned.lt {w : List K} {y : List (Fin m → K)} {u : List K} {theta : List (ℕ × Atom)} {d : List ℕ} {as : List Atom}
    {ns : List (List K)} (h : Assigned W w y u theta d as ns) : ∀ j ∈ d, j < w.length := by
  intro j hj
  obtain ⟨i, hi, rfl⟩ := List.mem_iff_getElem.1 hj
  obtain ⟨hl, hc⟩ := h.choice
  have hy : i < y.length := by rw [← hl]; exact hi
  have hu : i < u.length := by rw [h.u_len]; exact hy
  obtain ⟨j', g, h1, _, h3⟩ := hc i _ _ (List.getElem?_eq_getElem hy) (List.getElem?_eq_getElem hu)
  rw [List.getElem?_eq_getElem hi, Option.some.injEq] at h1
  rw [h1]
  have := h3.lt
  rwa [column_length W h.atoms_len] at this

/-- The state is what a Gibbs step leaves. -/
def Stepped (s : GM C m Atom) : Prop := ∃ as ns, Assigned W (C.getW s.wst.1) s.y s.u s.theta s.d as ns

theorem Stepped.grow {s t : GM C m Atom} (h : Stepped W s) (hw : C.getW t.wst.1 = C.getW s.wst.1) (hy : t.y = s.y) (hu : t.u = s.u) (hd : t.d = s.d)
    (hp : s.theta <+: t.theta) : Stepped W t := by
  obtain ⟨as, ns, h⟩ := h
  refine ⟨as, ns, ?_⟩
  rw [hw, hy, hu, hd]
  refine ⟨h.ne, h.atoms_len, fun j hj => ?_, h.u_len, h.noise_len, h.noise, h.labels⟩
  have h1 := h.atoms j hj
  rw [List.getElem?_eq_getElem (by rw [h.atoms_len]; exact hj)] at h1 ⊢
  exact lookup_prefix hp h1

/-- `_update_weights` leaves a state of the weight object in `I`. -/
theorem updateWeights_tidy {I : C.State → Prop} (hI : Tidy C ω I) (s : GM C m Atom × ℕ) :
    wp ω (updateWeights W) (fun _ t => I t.1.wst.1) (fun _ _ => True) s := by
  unfold updateWeights
  rw [wp_bind, wp_self, wp_bind, wp_callW]
  unfold BaseWeight.fit
  rw [wp_assign, wp_bind, wp_callW]
  have hnn : NonNegLabels (labels s.1.d) := by
    intro x hx
    obtain ⟨n, _, rfl⟩ := List.mem_map.1 hx
    omega
  refine wp_mono (hI.random _ hnn s.1.wst) (fun w t ht => ?_) fun _ _ _ => trivial
  rw [wp_bind, wp_lift]
  refine ⟨fun ws _ => ?_, fun _ _ => trivial⟩
  rw [wp_bind, wp_drawSlices, wp_bind, wp_assign, wp_bind, wp_lift]
  refine ⟨fun u _ => ?_, fun _ _ => trivial⟩
  rw [wp_bind, wp_callW]
  exact wp_mono (hI.tail _ _ t ht) (fun _ t' ht' => ht') fun _ _ _ => trivial

/-- The state after a Gibbs step that returned. -/
theorem gibbsStep_spec {I : C.State → Prop} (hI : Tidy C ω I) (s : GM C m Atom × ℕ) :
    wp ω (gibbsStep W) (fun _ t => I t.1.wst.1 ∧ frame t.1 = frame s.1 ∧ Stepped W t.1) (fun _ _ => True) s := by
  unfold gibbsStep
  rw [wp_bind, wp_self, wp_bind]
  refine wp_mono ((updateAtoms_frame (frame s.1) W _).wp rfl) (fun _ t ht => ?_) fun _ _ _ => trivial
  rw [wp_bind]
  refine wp_mono (wp_and (updateWeights_tidy W hI t) ((updateWeights_frame (frame s.1) W).wp ht.1)) (fun _ t' ht' => ?_) fun _ _ _ => trivial
  refine wp_mono (updateD_spec W t') (fun _ t'' h => ?_) fun _ _ _ => trivial
  obtain ⟨h1, h2, _, h4, as, ns, h5⟩ := h
  refine ⟨by rw [h1]; exact ht'.1, h4.trans ht'.2.1, as, ns, ?_⟩
  have hy : t''.1.y = t'.1.y := congrArg Frame.y h4
  rw [h1, h2, hy]; exact h5

theorem maxInt_labels {d : List ℕ} {k : ℤ} (h : Py.maxInt (labels d) = .ok k) : ∃ x ∈ d, k = (x : ℤ) := by
  cases d with
  | nil => cases h
  | cons x xs =>
    have hk : k ∈ labels (x :: xs) := by
      unfold labels at h ⊢
      rw [List.map_cons] at h ⊢
      exact (maxInt_eq_ok_iff.1 h).1
    obtain ⟨n, hn, rfl⟩ := List.mem_map.1 hk
    exact ⟨n, hn, rfl⟩

/-- `_update_map_params` evaluates the state after a step without changing it, except that atoms may be added. -/
theorem updateMap_stepped {I : C.State → Prop} (hI : Tidy C ω I) (s : GM C m Atom × ℕ) (hs : I s.1.wst.1) (hc : Stepped W s.1) :
    wp ω (updateMap W) (fun _ t => Stepped W t.1 ∧ (t.1.mapParams = s.1.mapParams ∨ t.1.mapParams = some (runParams t.1)))
      (fun _ t => t.1.mapParams = s.1.mapParams) s := by
  unfold updateMap runLogLik
  rw [wp_bind, wp_bind, wp_self, wp_bind]
  refine wp_mono (yLogLik_spec W _ _ s) (fun _ t ht => ?_) fun _ t ht => ht.map.2
  rw [wp_bind, wp_callW, ht.wst]
  unfold BaseWeight.assignationLogLikelihood
  rw [wp_bind, wp_self, wp_bind, wp_lift]
  refine ⟨fun k hk => ?_, fun _ _ => ht.map.2⟩
  obtain ⟨x, hx, rfl⟩ := maxInt_labels hk
  rw [wp_bind]
  have hx' : x < (C.getW s.1.wst.1).length := by obtain ⟨as, ns, h⟩ := hc; exact h.lt W x hx
  have hcomp := hI.complete ((x : ℤ) + 1) s.1.wst hs (by omega) (by omega)
  refine wp_mono (Q' := fun _ t => C.getW t.1 = C.getW s.1.wst.1) (E' := fun _ _ => True) hcomp (fun _ v hv => ?_) fun _ _ _ => ht.map.2
  rw [wp_bind, wp_self, wp_bind, wp_lift]
  refine ⟨fun ws _ => ?_, fun _ _ => ht.map.2⟩
  rw [wp_pure, wp_pure, wp_assign]
  dsimp only
  split
  · exact ⟨hc.grow W hv (congrArg Frame.y ht.frame) ht.u ht.d ht.pre, .inr rfl⟩
  · split
    · exact ⟨hc.grow W hv (congrArg Frame.y ht.frame) ht.u ht.d ht.pre, .inr rfl⟩
    · exact ⟨hc.grow W hv (congrArg Frame.y ht.frame) ht.u ht.d ht.pre, .inl ht.map.2⟩

theorem gibbsStep_map (c : Option (RunParams K Atom)) : KeepsR ω (fun s : GM C m Atom => s.mapParams = c) (gibbsStep W) (fun _ => True) := by
  have hA : ∀ js : List ℕ, KeepsR ω (fun s : GM C m Atom => s.mapParams = c) (updateAtoms W js) (fun _ => True) := by
    intro js
    induction js with
    | nil => exact KeepsR.pure trivial
    | cons j js ih =>
      unfold updateAtoms
      refine KeepsR.bind KeepsR.self fun s _ => KeepsR.bind (KeepsR.lift _) fun rows _ => KeepsR.bind (keeps_draw1 _) fun a _ => ?_
      exact KeepsR.bind (KeepsR.assign fun s h => h) fun _ _ => ih
  unfold gibbsStep
  refine KeepsR.bind KeepsR.self fun s _ => KeepsR.bind (hA _) fun _ _ => KeepsR.bind (R := fun _ => True) ?_ fun _ _ => ?_
  · unfold updateWeights
    refine KeepsR.bind KeepsR.self fun s _ => KeepsR.bind (keeps_callW (fun s t h => h) _) fun _ _ => ?_
    refine KeepsR.bind (keeps_callW (fun s t h => h) _) fun w _ => KeepsR.bind (KeepsR.lift _) fun ws _ => ?_
    refine KeepsR.bind (keeps_slices W ws) fun us _ => KeepsR.bind (KeepsR.assign fun s h => h) fun _ _ => ?_
    refine KeepsR.bind (KeepsR.lift _) fun u _ => KeepsR.bind (keeps_callW (fun s t h => h) _) fun _ _ => KeepsR.pure trivial
  · unfold updateD
    refine KeepsR.bind KeepsR.self fun s _ => ?_
    refine KeepsR.bind (R := fun _ => True) (KeepsR.of_wp fun s hs => wp_mono (getAtoms_spec W _ s) (fun _ t h => ⟨h.1.map.2.trans hs, trivial⟩)
      fun _ t h => h.map.2.trans hs) fun as _ => KeepsR.ite (fun _ => KeepsR.raise _) fun _ => ?_
    refine KeepsR.bind (R := fun _ => True) (fun _ hs => ⟨hs, trivial⟩) fun ns _ => ?_
    exact KeepsR.bind (KeepsR.lift _) fun d _ => KeepsR.assign fun s h => h

/-- One iteration of the sampler. -/
theorem iter_spec {I : C.State → Prop} (hI : Tidy C ω I) (s : GM C m Atom × ℕ) :
    wp ω (iter W) (fun _ t => frame t.1 = frame s.1 ∧ Stepped W t.1 ∧ (t.1.mapParams = s.1.mapParams ∨ t.1.mapParams = some (runParams t.1)))
      (fun _ t => frame t.1 = frame s.1 ∧ t.1.mapParams = s.1.mapParams) s := by
  unfold iter
  rw [wp_bind]
  refine wp_mono (wp_and (wp_and (gibbsStep_spec W hI s) ((gibbsStep_frame (frame s.1) W).wp rfl)) ((gibbsStep_map W s.1.mapParams).wp rfl))
    (fun _ t h => ?_) fun _ t h => ⟨h.1.2, h.2⟩
  obtain ⟨⟨⟨h1, _, h2⟩, h3, _⟩, h4, _⟩ := h
  refine wp_mono (wp_and (updateMap_stepped W hI t h1 h2) ((updateMap_frame (frame s.1) W).wp h3)) (fun _ t' h' => ?_)
    fun _ t' h' => ⟨h'.2, h'.1.trans h4⟩
  refine ⟨h'.2.1, h'.1.1, ?_⟩
  rw [← h4]; exact h'.1.2
/-- A property of the saved states and the MAP state that saving and storing a state after a step keep. -/
structure Stored (P : GM C m Atom → Prop) : Prop where
  same : ∀ s t : GM C m Atom, t.saved = s.saved → t.mapParams = s.mapParams → P s → P t
  save : ∀ s t : GM C m Atom, Stepped W s → t.saved = s.saved ++ [runParams s] → t.mapParams = s.mapParams → P s → P t
  map : ∀ s t : GM C m Atom, Stepped W t → t.saved = s.saved → t.mapParams = some (runParams t) → P s → P t

/-- All saved states satisfy `Q`. -/
def SavedAll (Q : RunParams K Atom → Prop) (s : GM C m Atom) : Prop := ∀ p ∈ s.saved, Q p

/-- The MAP state, if there is one, satisfies `Q`. -/
def MapAll (Q : RunParams K Atom → Prop) (s : GM C m Atom) : Prop := ∀ p, s.mapParams = some p → Q p

theorem SavedAll.stored {Q : RunParams K Atom → Prop} (hQ : ∀ s : GM C m Atom, Stepped W s → Q (runParams s)) : Stored W (SavedAll Q : GM C m Atom → Prop) where
  same := fun s t h _ hs p hp => hs p (by rw [← h]; exact hp)
  save := fun s t hc h _ hs p hp => by
    rw [h] at hp
    rcases List.mem_append.1 hp with hp | hp
    · exact hs p hp
    · rw [List.mem_singleton.1 hp]; exact hQ s hc
  map := fun s t _ h _ hs p hp => hs p (by rw [← h]; exact hp)

theorem MapAll.stored {Q : RunParams K Atom → Prop} (hQ : ∀ s : GM C m Atom, Stepped W s → Q (runParams s)) : Stored W (MapAll Q : GM C m Atom → Prop) where
  same := fun s t _ h hs p hp => hs p (by rw [← h]; exact hp)
  save := fun s t _ _ h hs p hp => hs p (by rw [← h]; exact hp)
  map := fun s t hc _ h _ p hp => by rw [h] at hp; cases hp; exact hQ t hc

theorem iter_stored {P : GM C m Atom → Prop} (hP : Stored W P) {I : C.State → Prop} (hI : Tidy C ω I) (s : GM C m Atom × ℕ) (hs : P s.1) :
    wp ω (iter W) (fun _ t => P t.1 ∧ Stepped W t.1) (fun _ t => P t.1) s := by
  refine wp_mono (iter_spec W hI s) (fun _ t h => ?_) fun _ t h => hP.same _ _ (congrArg Frame.saved h.1) h.2 hs
  obtain ⟨h1, h2, h3 | h3⟩ := h
  · exact ⟨hP.same _ _ (congrArg Frame.saved h1) h3 hs, h2⟩
  · exact ⟨hP.map _ _ h2 (congrArg Frame.saved h1) h3 hs, h2⟩

theorem burn_stored {P : GM C m Atom → Prop} (hP : Stored W P) {I : C.State → Prop} (hI : Tidy C ω I) (n : ℕ) :
    KeepsR ω P (burn W n) (fun _ => True) := by
  induction n with
  | zero => exact KeepsR.pure trivial
  | succ n ih =>
    refine KeepsR.of_wp fun s hs => ?_
    show wp ω (do gibbsStep W; updateMap W; burn W n) _ _ s
    have h := iter_stored W hP hI s hs
    unfold iter at h
    rw [wp_bind] at h ⊢
    refine wp_mono h (fun _ t ht => ?_) fun _ _ h => h
    rw [wp_bind]
    exact wp_mono ht (fun _ t' ht' => ih.wp ht'.1) fun _ _ h => h

theorem save_stored {P : GM C m Atom → Prop} (hP : Stored W P) (s : GM C m Atom × ℕ) (hs : P s.1) (hc : Stepped W s.1) :
    wp ω (saveParams (C := C)) (fun _ t => P t.1) (fun _ t => P t.1) s := by
  unfold saveParams
  rw [wp_bind, wp_assign, wp_bind, wp_self, wp_bind, wp_lift]
  exact ⟨fun _ _ => hP.save s.1 _ hc rfl rfl hs, fun _ _ => hP.save s.1 _ hc rfl rfl hs⟩

theorem record_stored {P : GM C m Atom → Prop} (hP : Stored W P) {I : C.State → Prop} (hI : Tidy C ω I) (n i : ℕ) :
    KeepsR ω P (record W n i) (fun _ => True) := by
  induction n generalizing i with
  | zero => exact KeepsR.pure trivial
  | succ n ih =>
    refine KeepsR.of_wp fun s hs => ?_
    show wp ω (do gibbsStep W; updateMap W; maybeSave (i : ℤ); record W n (i + 1)) _ _ s
    have h := iter_stored W hP hI s hs
    unfold iter at h
    rw [wp_bind] at h ⊢
    refine wp_mono h (fun _ t ht => ?_) fun _ _ h => h
    rw [wp_bind]
    refine wp_mono ht (fun _ t' ht' => ?_) fun _ _ h => h
    rw [wp_bind]
    refine wp_mono (Q' := fun _ t => P t.1) (E' := fun _ t => P t.1) ?_ (fun _ t'' h => (ih (i + 1)).wp h) fun _ _ h => h
    unfold maybeSave
    rw [wp_bind, wp_self, wp_ite]
    refine ⟨fun _ => ht'.1, fun _ => ?_⟩
    rw [wp_whenM]
    exact ⟨fun _ => save_stored W hP t' ht'.1 ht'.2, fun _ => ht'.1⟩

/-- The loops of `fit_gibbs` after the initialisation. -/
def loops : M K (GM C m Atom) Unit := do
  let s ← M.self
  burn W s.burnIn.toNat
  record W (s.totalIter - s.burnIn).toNat 0
  M.assign (fun s => { s with gibbsFitted := true })

theorem loops_stored {P : GM C m Atom → Prop} (hP : Stored W P) {I : C.State → Prop} (hI : Tidy C ω I) :
    KeepsR ω P (loops W) (fun _ => True) :=
  KeepsR.bind KeepsR.self fun _ _ => KeepsR.bind (burn_stored W hP hI _) fun _ _ => KeepsR.bind (record_stored W hP hI _ _) fun _ _ =>
    KeepsR.assign fun s h => hP.same s _ rfl rfl h

/-- The start of a cold fit: initialisation and evaluation of the initial state. -/
def coldStart (y : YArg K m) (g : PySize) (method : InitMethod) : M K (GM C m Atom) Unit := do
  initCommon y
  initGibbs W g method
  updateMap W

theorem fitGibbs_cold (y : YArg K m) (g : PySize) (method : InitMethod) {s : GM C m Atom × ℕ} {Q : Unit → GM C m Atom × ℕ → Prop}
    {E : PyErr → GM C m Atom × ℕ → Prop}
    (h : wp ω (coldStart W y g method) (fun _ t => wp ω (loops W) Q E t) E s) : wp ω (fitGibbs W y g false method) Q E s := by
  unfold coldStart at h
  rw [wp_bind] at h
  unfold fitGibbs
  rw [wp_bind]
  refine wp_mono h (fun _ t ht => ?_) fun _ _ h => h
  rw [wp_bind, wp_whenM]
  exact ⟨fun _ => ht, fun h => absurd rfl h⟩

theorem coldStart_saved (Q : RunParams K Atom → Prop) (y : YArg K m) (g : PySize) (method : InitMethod) (s : GM C m Atom × ℕ) (hs : SavedAll Q s.1) :
    wp ω (coldStart W y g method) (fun _ t => SavedAll Q t.1) (fun _ t => SavedAll Q t.1) s := by
  unfold coldStart
  rw [wp_bind]
  cases y with
  | invalid => exact hs
  | rows ys =>
    unfold initCommon
    rw [wp_assign, wp_bind]
    refine wp_mono (initGibbs_frame W g method _) (fun _ t ht => ?_) fun _ t ht => ?_
    · have h0 : t.1.saved = [] := congrArg Frame.saved ht
      refine wp_mono ((updateMap_frame (frame t.1) W).wp rfl) (fun _ t' h => ?_) fun _ t' h => ?_
      · intro p hp
        rw [show t'.1.saved = t.1.saved from congrArg Frame.saved h.1, h0] at hp
        cases hp
      · intro p hp
        rw [show t'.1.saved = t.1.saved from congrArg Frame.saved h, h0] at hp
        cases hp
    · intro p hp
      rw [show t.1.saved = [] from congrArg Frame.saved ht] at hp
      cases hp

theorem fit_saved {I : C.State → Prop} (hI : Tidy C ω I) {Q : RunParams K Atom → Prop} (hQ : ∀ s : GM C m Atom, Stepped W s → Q (runParams s)) (y : YArg K m) (g : PySize) (warm : Bool) (method : InitMethod) :
    KeepsR ω (SavedAll Q : GM C m Atom → Prop) (fitGibbs W y g warm method) (fun _ => True) := by
  refine KeepsR.of_wp fun s hs => ?_
  cases warm with
  | false => exact fitGibbs_cold W y g method (wp_mono (coldStart_saved W Q y g method s hs) (fun _ t h => (loops_stored W (SavedAll.stored W hQ) hI).wp h) fun _ _ h => h)
  | true =>
    unfold fitGibbs
    rw [wp_bind]
    cases y with
    | invalid => exact hs
    | rows ys =>
      unfold initCommon
      rw [wp_assign, wp_bind, wp_whenM]
      exact ⟨fun h => (by cases h), fun _ => (loops_stored W (SavedAll.stored W hQ) hI).wp ((SavedAll.stored W hQ).same s.1 _ rfl rfl hs)⟩

/-- A property of the states after a step holds for all saved states after every history of fits on an object without saved states. -/
theorem run_saved {I : C.State → Prop} (hI : Tidy C ω I) {Q : RunParams K Atom → Prop} (hQ : ∀ s : GM C m Atom, Stepped W s → Q (runParams s))
    (s : GM C m Atom × ℕ) (hs : s.1.saved = []) (ops : List (FitArgs K m)) : ∀ p ∈ (run W ω s ops).1.saved, Q p := by
  have : ∀ s : GM C m Atom × ℕ, SavedAll Q s.1 → SavedAll Q (run W ω s ops).1 := by
    induction ops with
    | nil => exact fun s hs => hs
    | cons a ops ih =>
      intro s hs
      refine ih _ ?_
      have h := (fit_saved W hI hQ a.y a.initGroups a.warm a.method) s hs
      show SavedAll Q (fitGibbs W a.y a.initGroups a.warm a.method ω s).2.1
      revert h
      rcases fitGibbs W a.y a.initGroups a.warm a.method ω s with ⟨e | v, t⟩
      · exact fun h => h
      · exact fun h => h.1
  exact this s (by intro p hp; rw [hs] at hp; cases hp)

/-- The MAP state after a fit, from the one at the start of the loops. -/
theorem fit_map {I : C.State → Prop} (hI : Tidy C ω I) {Q : RunParams K Atom → Prop} (hQ : ∀ s : GM C m Atom, Stepped W s → Q (runParams s))
    (y : YArg K m) (g : PySize) (method : InitMethod) (s : GM C m Atom × ℕ) :
    (MapAll Q s.1 → MapAll Q (fitGibbs W y g true method ω s).2.1) ∧
    (MapAll Q (coldStart W y g method ω s).2.1 → MapAll Q (fitGibbs W y g false method ω s).2.1) := by
  have out : ∀ (x : M K (GM C m Atom) Unit), wp ω x (fun _ t => MapAll Q t.1) (fun _ t => MapAll Q t.1) s → MapAll Q (x ω s).2.1 := by
    intro x h
    unfold wp at h
    revert h
    rcases x ω s with ⟨e | v, t⟩ <;> exact fun h => h
  constructor
  · intro hs
    refine out _ ?_
    unfold fitGibbs
    rw [wp_bind]
    cases y with
    | invalid => exact hs
    | rows ys =>
      unfold initCommon
      rw [wp_assign, wp_bind, wp_whenM]
      exact ⟨fun h => (by cases h), fun _ => wp_mono ((loops_stored W (MapAll.stored W hQ) hI).wp ((MapAll.stored W hQ).same s.1 _ rfl rfl hs))
        (fun _ _ h => h.1) fun _ _ h => h⟩
  · intro hs
    refine out _ (fitGibbs_cold W y g method ?_)
    unfold wp
    revert hs
    rcases coldStart W y g method ω s with ⟨e | v, t⟩
    · exact fun h => h
    · exact fun h => wp_mono ((loops_stored W (MapAll.stored W hQ) hI).wp h) (fun _ _ h => h.1) fun _ _ h => h
end GM

/-- The weight classes of the library, each with what its `random`, `tail` and `complete` guarantee. -/
inductive Library : ∀ {K : Type} [Field K] [LinearOrder K] [IsStrictOrderedRing K], WeightClass K → Prop
  | dp {K : Type} [Field K] [LinearOrder K] [IsStrictOrderedRing K] : Library (DP.cls : WeightClass K)
  | py {K : Type} [Field K] [LinearOrder K] [IsStrictOrderedRing K] : Library (PY.cls : WeightClass K)
  | geo : Library Geo.cls
  | bib {K : Type} [Field K] [LinearOrder K] [IsStrictOrderedRing K] : Library (BIB.cls : WeightClass K)
  | bid {K : Type} [Field K] [LinearOrder K] [IsStrictOrderedRing K] (F : SpecFun K) : Library (BID.cls F)
  | bber {K : Type} [Field K] [LinearOrder K] [IsStrictOrderedRing K] : Library (BBer.cls : WeightClass K)
  | bbin {K : Type} [Field K] [LinearOrder K] [IsStrictOrderedRing K] : Library (BBin.cls : WeightClass K)
  | dirDist {K : Type} [Field K] [LinearOrder K] [IsStrictOrderedRing K] : Library (DirDist.cls : WeightClass K)
  | equal {K : Type} [Field K] [LinearOrder K] [IsStrictOrderedRing K] : Library (Equal.cls : WeightClass K)
  | freq {K : Type} [Field K] [LinearOrder K] [IsStrictOrderedRing K] : Library (Freq.cls : WeightClass K)

theorem Library.tidy {C : WeightClass K} (h : Library C) (ω : Oracle K) : ∃ I, Tidy C ω I := by
  cases h
  · exact ⟨_, DP.tidy⟩
  · exact ⟨_, PY.tidy⟩
  · exact ⟨_, Geo.tidy⟩
  · exact ⟨_, BIB.tidy⟩
  · exact ⟨_, BID.tidy _⟩
  · exact ⟨_, BBer.tidy⟩
  · exact ⟨_, BBin.tidy⟩
  · exact ⟨_, DirDist.tidy⟩
  · exact ⟨_, Equal.tidy⟩
  · exact ⟨_, Freq.tidy⟩

end Verif.Mix
