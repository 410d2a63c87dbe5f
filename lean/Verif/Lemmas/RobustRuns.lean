import Verif.Lemmas.RobustClasses
import Verif.Lemmas.GibbsDemo

/-!
# Sequences of fits that do not raise

The settings of a mixture survive every fit, and a cold fit followed by any fits on legal input returns.
-/

set_option linter.unusedSectionVars false

namespace Verif.Mix
open GM Spec
variable {K : Type} [Field K] [LinearOrder K] [IsStrictOrderedRing K] {C : WeightClass K} {m : ℕ} {Atom : Type} {ω : Oracle K}

/-- The attributes no fit changes. -/
def settings (s : GM C m Atom) : ℤ × ℤ × ℤ × Option ℤ := (s.totalIter, s.burnIn, s.subsample, s.nAttr)

section
variable (W : World K m Atom) (P : ℤ × ℤ × ℤ × Option ℤ → Prop)

theorem settings_of_frame {α : Type} {x : M K (GM C m Atom) α} (h : ∀ c, KeepsR ω (fun s : GM C m Atom => frame s = c) x (fun _ => True)) :
    KeepsR ω (fun s : GM C m Atom => P (settings s)) x (fun _ => True) := by
  refine KeepsR.of_wp fun s hs => ?_
  have key : ∀ t : GM C m Atom, frame t = frame s.1 → P (settings t) := fun t ht => by
    have e : settings t = settings s.1 := by
      have := congrArg (fun f : Frame K m Atom => (f.totalIter, f.burnIn, f.subsample, f.nAttr)) ht
      exact this
    rw [e]; exact hs
  have h' := wp_of_keeps (h (frame s.1)).keeps (s := s) rfl
  exact wp_mono h' (fun _ t ht => ⟨key t.1 ht, trivial⟩) fun _ t ht => key t.1 ht

theorem maybeSave_settings (i : ℤ) : KeepsR ω (fun s : GM C m Atom => P (settings s)) (maybeSave i) (fun _ => True) := by
  unfold maybeSave saveParams
  refine KeepsR.bind KeepsR.self fun _ _ => KeepsR.ite (fun _ => KeepsR.raise _) fun _ => KeepsR.whenM fun _ => ?_
  refine KeepsR.bind (KeepsR.assign fun s h => h) fun _ _ => KeepsR.bind KeepsR.self fun _ _ => KeepsR.bind (KeepsR.lift _) fun _ _ => ?_
  exact KeepsR.assign fun s h => h

theorem record_settings (n i : ℕ) : KeepsR ω (fun s : GM C m Atom => P (settings s)) (record W n i) (fun _ => True) := by
  induction n generalizing i with
  | zero => exact KeepsR.pure trivial
  | succ n ih =>
    exact KeepsR.bind (settings_of_frame P (fun c => gibbsStep_frame c W)) fun _ _ => KeepsR.bind (settings_of_frame P (fun c => updateMap_frame c W)) fun _ _ =>
      KeepsR.bind (maybeSave_settings P _) fun _ _ => ih _

theorem initLabels_settings (g : PySize) (method : InitMethod) : KeepsR ω (fun s : GM C m Atom => P (settings s)) (initLabels W g method) (fun _ => True) := by
  cases method with
  | kmeans => exact KeepsR.bind KeepsR.self fun _ _ => KeepsR.bind (keeps_draw1 _) fun _ _ => KeepsR.bind (KeepsR.lift _) fun _ _ => KeepsR.pure trivial
  | random => exact KeepsR.bind KeepsR.self fun _ _ => keeps_callW (fun _ _ h => h) _
  | variational => exact KeepsR.bind KeepsR.self fun _ _ => KeepsR.bind (keeps_draw1 _) fun _ _ => (KeepsR.lift _).true_of
  | unknown => exact KeepsR.raise _

theorem initWeights_settings (g : PySize) : KeepsR ω (fun s : GM C m Atom => P (settings s)) (initWeights W g) (fun _ => True) := by
  unfold initWeights
  refine KeepsR.bind KeepsR.self fun _ _ => ?_
  split
  · exact KeepsR.bind (KeepsR.lift _) fun _ _ => KeepsR.bind (keeps_callW (fun _ _ h => h) _) fun _ _ => KeepsR.pure trivial
  · exact KeepsR.bind (keeps_callW (fun _ _ h => h) _) fun _ _ => KeepsR.pure trivial

theorem fitGibbs_settings (y : YArg K m) (g : PySize) (warm : Bool) (method : InitMethod) :
    KeepsR ω (fun s : GM C m Atom => P (settings s)) (fitGibbs W y g warm method) (fun _ => True) := by
  unfold fitGibbs
  refine KeepsR.bind (R := fun _ => True) ?_ fun _ _ => KeepsR.bind (R := fun _ => True) (KeepsR.whenM fun _ => KeepsR.bind (R := fun _ => True) ?_ fun _ _ => ?_) fun _ _ =>
    KeepsR.bind KeepsR.self fun _ _ => KeepsR.bind (settings_of_frame P fun c => burn_frame c W _) fun _ _ => KeepsR.bind (record_settings W P _ _) fun _ _ => ?_
  · unfold initCommon
    split
    · exact KeepsR.raise _
    · exact KeepsR.assign fun s h => h
  · unfold initGibbs
    refine KeepsR.bind (KeepsR.assign fun s h => h) fun _ _ => KeepsR.bind KeepsR.self fun _ _ => KeepsR.bind (keeps_draws _ _) fun _ _ =>
      KeepsR.bind (KeepsR.assign fun s h => h) fun _ _ => KeepsR.bind (initWeights_settings W P _) fun _ _ => KeepsR.bind (initLabels_settings W P _ _) fun _ _ => ?_
    exact KeepsR.assign fun s h => h
  · exact settings_of_frame P (fun c => updateMap_frame c W)
  · exact KeepsR.assign fun s h => h
end

/-! ## Sessions -/

/-- One call of `fit_gibbs` with the data as rows. -/
structure Call (K : Type) (m : ℕ) where
  rows : List (Fin m → K)
  groups : PySize
  warm : Bool
  method : InitMethod

/-- Calls of `fit_gibbs` one after the other; an exception ends the session. -/
def session (W : World K m Atom) : List (Call K m) → M K (GM C m Atom) Unit
  | [] => pure ()
  | c :: cs => do
    fitGibbs W (.rows c.rows) c.groups c.warm c.method
    session W cs

/-- The surroundings do what numpy and scikit-learn promise: `rng.uniform` stays in its range, `argsort` sorts, k-means with `1 ≤ k ≤ n` labels `n` rows with
labels below `k`, so does the variational start. -/
structure Faithful (W : World K m Atom) : Prop where
  slices : SlicesOk W
  argsort : IsArgsort W.argsort
  kmeans : ∀ p (ys : List (Fin m → K)) (k : ℤ), 1 ≤ k → k ≤ ys.length → ∃ l, W.kmeans p ys k = .ok l ∧ l.length = ys.length ∧ ∀ x ∈ l, (x : ℤ) < k
  varLabels : ∀ p (ys : List (Fin m → K)) (k : ℕ), 1 ≤ k → ∃ l, W.varLabels p ys k = .ok l ∧ l.length = ys.length ∧ ∀ x ∈ l, x < k

/-- Legal arguments of a cold fit: `init_groups` is `None` or at least one, a known `init_method`, k-means is not asked for more clusters than rows. -/
structure ColdOk (nAttr : Option ℤ) (early : Prop) (c : Call K m) : Prop where
  groups : c.groups = .none ∨ ∃ n, c.groups.toInt? = some n ∧ 1 ≤ n
  known : c.method ≠ .unknown
  clusters : c.method = .kmeans → 1 ≤ clustersAsked nAttr c.groups ∧ clustersAsked nAttr c.groups ≤ c.rows.length
  early : c.method = .variational → c.groups = .none → early

/-- Legal sessions: at least two rows in each call; a warm fit follows a fit with as many rows; with `again` cold fits may follow other fits. -/
def Legal (nAttr : Option ℤ) (again early : Prop) : Option ℕ → List (Call K m) → Prop
  | _, [] => True
  | prev, c :: cs => 2 ≤ c.rows.length ∧ (if c.warm then prev = some c.rows.length else ColdOk nAttr early c ∧ (again ∨ prev = none)) ∧
      Legal nAttr again early (some c.rows.length) cs

theorem Robust.strong {R0 R : C.State → Prop} {grows slow : Prop} (h : Robust C ω R0 R grows slow) : Robust C ω R R grows slow where
  redraw := h.redraw
  tail := h.tail
  complete := fun n s hs => h.complete n s (h.weak _ hs)
  sub := fun s hs => h.sub s (h.weak _ hs)
  total := fun s hs => h.total s (h.weak _ hs)
  ne := h.ne
  weak := fun _ h => h

theorem npUnique_le {l : List ℕ} {k : ℕ} (h : ∀ x ∈ l, x < k) : (npUnique l).length ≤ k := by
  have h1 : npUnique l ⊆ List.range k := fun x hx => List.mem_range.2 (h x (mem_npUnique.1 hx))
  simpa using ((npUnique_nodup l).subperm h1).length_le

theorem goodStart {W : World K m Atom} (hW : Faithful W) {nAttr : Option ℤ} {early grows : Prop} {c : Call K m} (h : ColdOk nAttr early c) {N : ℕ}
    (hN : grows ∨ (clustersAsked nAttr c.groups).toNat ≤ N) : GoodStart W c.rows grows N (clustersAsked nAttr c.groups) c.method := by
  rcases hm : c.method with _ | _ | _ | _
  · refine ⟨hW.argsort, fun p => ?_⟩
    obtain ⟨l, h1, h2, h3⟩ := hW.kmeans p c.rows _ (h.clusters hm).1 (h.clusters hm).2
    exact ⟨l, h1, h2, hN.imp id fun hN => (npUnique_le fun x hx => by have := h3 x hx; omega).trans hN⟩
  · trivial
  · exact fun p k hk => hW.varLabels p c.rows k hk
  · exact h.known hm

/-- What a session needs of the weight class. -/
structure Starts (C : WeightClass K) (ω : Oracle K) (R0 R : C.State → Prop) (grows slow again early : Prop) (N : ℕ) (s0 : C.State) : Prop where
  robust : Robust C ω R0 R grows slow
  tail : ∀ t, (t = s0 ∨ (again ∧ R t)) → StartsTail C ω R0 grows slow N t
  complete : ∀ t, (t = s0 ∨ (again ∧ R t)) → ∀ g n, PySize.toInt? g = some n → 1 ≤ n → StartsComplete C ω R grows N t g
  early : early → ∀ t, R0 t → C.getW t ≠ []

theorem session_total {W : World K m Atom} (hω : ω.Legal) (hW : Faithful W) {R0 R : C.State → Prop} {grows slow again early : Prop} {N : ℕ} {s0 : C.State}
    (hS : Starts C ω R0 R grows slow again early N s0) {nAttr : Option ℤ} (hN : ∀ g, grows ∨ (clustersAsked nAttr g).toNat ≤ N) (cs : List (Call K m)) :
    ∀ (prev : Option ℕ) (s : GM C m Atom × ℕ), s.1.nAttr = nAttr → s.1.subsample ≠ 0 →
      ((prev = none ∧ s.1.wst.1 = s0) ∨ ∃ n, prev = some n ∧ ReadyGM R n s.1) → Legal nAttr again early prev cs →
      wp ω (session W cs) (fun _ t => cs ≠ [] → t.1.gibbsFitted = true) (fun e _ => Slow slow e) s := by
  suffices h : ∀ (prev : Option ℕ) (s : GM C m Atom × ℕ), s.1.nAttr = nAttr → s.1.subsample ≠ 0 →
      ((prev = none ∧ s.1.wst.1 = s0) ∨ ∃ n, prev = some n ∧ ReadyGM R n s.1) → Legal nAttr again early prev cs →
      wp ω (session W cs) (fun _ t => (cs ≠ [] ∨ s.1.gibbsFitted = true) → t.1.gibbsFitted = true) (fun e _ => Slow slow e) s from
    fun prev s h1 h2 h3 h4 => wp_mono (h prev s h1 h2 h3 h4) (fun _ _ h5 h6 => h5 (.inl h6)) fun _ _ h => h
  induction cs with
  | nil => exact fun prev s _ _ _ _ h => h.resolve_left fun h => h rfl
  | cons c cs ih =>
    intro prev s hn hsub hs ⟨h2, hc, hcs⟩
    unfold session
    rw [wp_bind]
    have key : wp ω (fitGibbs W (.rows c.rows) c.groups c.warm c.method) (fun _ t => ReadyGM R c.rows.length t.1 ∧ t.1.gibbsFitted = true) (fun e _ => Slow slow e) s := by
      rcases hw : c.warm with _ | _
      · rw [hw] at hc
        simp only [Bool.false_eq_true, if_false] at hc
        obtain ⟨hcold, hag⟩ := hc
        have hst : s.1.wst.1 = s0 ∨ (again ∧ R s.1.wst.1) := by
          rcases hs with ⟨-, h⟩ | ⟨n, e, h⟩
          · exact .inl h
          · rcases hag with h' | h'
            · exact .inr ⟨h', h.weights⟩
            · rw [h'] at e; cases e
        have hgood := goodStart hW hcold (hN c.groups)
        rw [← hn] at hgood
        rcases hcold.groups with hg | ⟨n, hg, hn1⟩
        · exact fit_cold_total W hω hS.robust hW.slices c.rows h2 c.groups c.method s (.inl ⟨hg, hS.tail _ hst⟩)
            (fun hm => hS.early (hcold.early hm hg)) hsub hgood
        · exact fit_cold_total W hω hS.robust.strong hW.slices c.rows h2 c.groups c.method s
            (.inr ⟨(by rintro h; rw [h] at hg; cases hg), hS.complete _ hst _ n hg hn1⟩) (fun _ => hS.robust.ne) hsub hgood
      · rw [hw] at hc
        simp only [if_true] at hc
        rcases hs with ⟨h, -⟩ | ⟨n, e, h⟩
        · rw [hc] at h; cases h
        · rw [hc] at e
          cases e
          exact fit_warm_total W hS.robust hW.slices c.rows h2 c.groups c.method s h
    have hset := wp_of_keeps (fitGibbs_settings (ω := ω) W (· = settings s.1) (.rows c.rows) c.groups c.warm c.method).keeps (s := s) rfl
    refine wp_mono (wp_and key hset) (fun _ t ht => ?_) fun _ _ h => h.1
    obtain ⟨⟨hr, hfit⟩, hset⟩ := ht
    simp only [settings, Prod.mk.injEq] at hset
    refine wp_mono (ih _ t (hset.2.2.2.trans hn) (by rw [hset.2.2.1]; exact hsub) (.inr ⟨_, rfl, hr⟩) hcs) (fun _ u hu _ => hu (.inr hfit)) fun _ _ h => h

/-- Always returns. -/
theorem returns_of_wp {α σ : Type} {x : M K σ α} {s : σ × ℕ} {Q : α → σ × ℕ → Prop} (h : wp ω x Q (fun e _ => Slow False e) s) : ∃ a, (x ω s).1 = .ok a ∧ Q a (x ω s).2 := by
  unfold wp at h
  rcases hr : x ω s with ⟨e | a, t⟩
  · rw [hr] at h; exact absurd h.1 id
  · rw [hr] at h; exact ⟨a, rfl, h⟩

/-- Returns or does not end. -/
theorem returns_or_of_wp {α σ : Type} {x : M K σ α} {s : σ × ℕ} {Q : α → σ × ℕ → Prop} (h : wp ω x Q (fun e _ => Slow True e) s) :
    (∃ a, (x ω s).1 = .ok a ∧ Q a (x ω s).2) ∨ (x ω s).1 = .error .outOfFuel := by
  unfold wp at h
  rcases hr : x ω s with ⟨e | a, t⟩
  · rw [hr] at h; exact .inr (by rw [h.2])
  · rw [hr] at h; exact .inl ⟨a, rfl, h⟩

end Verif.Mix
