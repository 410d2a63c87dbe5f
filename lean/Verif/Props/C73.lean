import Verif.Lemmas.Phantom
import Verif.Lemmas.Wp
import Verif.Lemmas.Stick

/-!
# C73: the sticks of an unfitted `BetaInDirichlet` follow the Pólya urn

`random(n)` without data starts its urn with an inner stick that counts one although no stick of the structure uses it
(`_beta_in_dirichlet.py:105-107`).  For every generator: the `n` sticks are inner sticks chosen by `rng.choice` with probabilities `n_b / (a + sum)`
and `a / (a + sum)` from these counts, and every inner stick is one answer of `rng.beta(1, alpha)` (`C73_path`).  The law of the pattern of ties
that results is that of the urn without the extra stick, for every number of sticks and every pattern (`C73_law`): the extra inner stick is harmless.
-/

set_option linter.unusedSectionVars false

namespace Verif
open Crp Spec

/-- The answers of the generator to requests for a choice; `c` holds the counts of the urn. -/
def Chosen (ω : Oracle ℝ) (a : ℝ) : List ℕ → List ℕ → Prop
  | _, [] => True
  | c, j :: js => (∃ i p, j = ω.choice i p ∧ p.length = c.length + 1 ∧ ∀ b, b ≤ c.length → p[b]? = some (prob a c b)) ∧ j ≤ c.length ∧
      Chosen ω a (seat c j) js

/-- State of the urn: one count per inner stick. -/
structure Urn (ω : Oracle ℝ) (a alpha : ℝ) (c : List ℕ) (s : BID ℝ) : Prop where
  ha : s.a = a
  hal : s.alpha = alpha
  count : s.countBase = c
  len : s.vBase.length = c.length
  pos : 0 < c.sum
  draw : ∀ x ∈ s.vBase, ∃ i, x = ω.beta i 1 alpha

theorem urn_get {c : List ℕ} {a : ℝ} {b : ℕ} (hb : b ≤ c.length) : (BID.urn c a)[b]? = some (prob a c b) := by
  unfold BID.urn prob
  have hs : (c.map (fun (c : ℕ) => (c : ℝ)) ++ [a]).sum = a + ((c.sum : ℕ) : ℝ) := by
    rw [List.sum_append, ← Nat.cast_list_sum]; simp [add_comm]
  simp only [hs, List.map_append, List.map_map, List.map_cons, List.map_nil]
  by_cases h : b < c.length
  · rw [List.getElem?_append_left (by simpa using h), if_pos h]
    simp [h]
  · have : b = c.length := by omega
    subst this
    rw [List.getElem?_append_right (by simp), if_neg h]
    simp

theorem urn_length (c : List ℕ) (a : ℝ) : (BID.urn c a).length = c.length + 1 := by simp [BID.urn]

theorem urn_nonneg {c : List ℕ} {a : ℝ} (ha : 0 ≤ a) : ∀ x ∈ BID.urn c a, 0 ≤ x := by
  intro x hx
  obtain ⟨b, hb⟩ := List.getElem?_of_mem hx
  have hlt : b < (BID.urn c a).length := (List.getElem?_eq_some_iff.1 hb).1
  rw [urn_length] at hlt
  rw [urn_get (by omega)] at hb
  injection hb with hb
  rw [← hb, prob]
  have hn : (0 : ℝ) ≤ ((c.sum : ℕ) : ℝ) := Nat.cast_nonneg _
  refine div_nonneg ?_ (by linarith)
  split
  · exact Nat.cast_nonneg _
  · exact ha

theorem urn_sum_pos {c : List ℕ} {a : ℝ} (ha : 0 ≤ a) (hc : 0 < c.sum) : 0 < (BID.urn c a).sum := by
  have hpos : 0 < a + ((c.sum : ℕ) : ℝ) := by
    have : (0 : ℝ) < ((c.sum : ℕ) : ℝ) := by exact_mod_cast hc
    linarith
  have : (BID.urn c a).sum = 1 := by
    unfold BID.urn
    have hs : (c.map (fun (c : ℕ) => (c : ℝ)) ++ [a]).sum = a + ((c.sum : ℕ) : ℝ) := by
      rw [List.sum_append, ← Nat.cast_list_sum]; simp [add_comm]
    simp only [hs, div_eq_mul_inv]
    rw [List.sum_map_mul_right, List.map_id', hs, mul_inv_cancel₀ hpos.ne']
  rw [this]; exact one_pos

theorem growOne_urn {ω : Oracle ℝ} (hω : ω.Legal) {a alpha : ℝ} (ha : 0 ≤ a) (hal : 0 < alpha) {c : List ℕ} (s : BID ℝ × ℕ) (h : Urn ω a alpha c s.1) :
    wp ω BID.growOne (fun _ t => ∃ j, (∃ i p, j = ω.choice i p ∧ p.length = c.length + 1 ∧ ∀ b, b ≤ c.length → p[b]? = some (prob a c b)) ∧ j ≤ c.length ∧
      Urn ω a alpha (seat c j) t.1 ∧ s.1.vBase <+: t.1.vBase ∧ (∃ x, t.1.vBase[j]? = some x ∧ t.1.v = s.1.v ++ [x]) ∧ t.1.dBase = s.1.dBase ++ [j])
      (fun _ _ => False) s := by
  obtain ⟨x0, hx0, _⟩ := hω.choice_pos s.2 (BID.urn c a) (urn_nonneg ha) (urn_sum_pos ha h.pos)
  have hjl : ω.choice s.2 (BID.urn c a) ≤ c.length := by
    have := (List.getElem?_eq_some_iff.1 hx0).1
    rw [urn_length] at this
    omega
  unfold BID.growOne
  rw [wp_bind, wp_self, wp_ite, h.ha, h.count]
  refine ⟨fun hne => hne (by rw [urn_length, h.len]), fun _ => ?_⟩
  rw [wp_bind, wp_choice]
  refine ⟨fun ⟨x, hx, hlt⟩ => absurd (urn_nonneg ha x hx) (not_le.2 hlt), fun _ => ?_⟩
  generalize hj : ω.choice s.2 (BID.urn c a) = j at hjl
  have hreq : ∃ i p, j = ω.choice i p ∧ p.length = c.length + 1 ∧ ∀ b, b ≤ c.length → p[b]? = some (prob a c b) :=
    ⟨s.2, _, hj.symm, urn_length _ _, fun b hb => urn_get hb⟩
  rw [wp_bind]
  unfold BID.useStick
  rw [wp_bind, wp_self, wp_ite]
  refine ⟨fun hlt => ?_, fun hlt => ?_⟩
  · dsimp only at hlt
    rw [wp_bind, wp_lift]
    have hlt' : j < c.length := h.len ▸ hlt
    rw [show Py.index s.1.vBase j = .ok s.1.vBase[j] from by simp [Py.index, hlt]]
    refine ⟨?_, nofun⟩
    rintro _ ⟨⟩
    rw [wp_bind, wp_assign, wp_assign, wp_assign]
    refine ⟨j, hreq, hjl, ⟨h.ha, h.hal, ?_, ?_, ?_, h.draw⟩, List.prefix_refl _, ⟨_, List.getElem?_eq_getElem hlt, rfl⟩, rfl⟩
    · show s.1.countBase.modify j (· + 1) = _
      rw [h.count, seat, if_pos hlt']
    · rw [length_seat, if_pos hlt']; exact h.len
    · rw [sum_seat]; omega
  · dsimp only at hlt
    have hlt' : ¬ j < c.length := h.len ▸ hlt
    have hjc : j = s.1.vBase.length := by rw [h.len]; omega
    rw [wp_bind, wp_beta, h.hal]
    refine ⟨fun hc => ?_, fun _ _ => ?_⟩
    · rcases hc with hc | hc <;> linarith
    · rw [wp_bind, wp_assign, wp_bind, wp_assign, wp_assign, wp_assign]
      refine ⟨j, hreq, hjl, ⟨h.ha, h.hal, ?_, ?_, ?_, ?_⟩, List.prefix_append _ _, ⟨_, by rw [hjc]; exact List.getElem?_concat_length, rfl⟩, rfl⟩
      · show s.1.countBase ++ [1] = _
        rw [h.count, seat, if_neg hlt']
      · rw [length_seat, if_neg hlt']
        show (s.1.vBase ++ [_]).length = _
        rw [List.length_append, h.len]; rfl
      · rw [sum_seat]; omega
      · intro x hx
        rcases List.mem_append.1 hx with hx | hx
        · exact h.draw x hx
        · rw [List.mem_singleton] at hx
          exact ⟨_, hx⟩

theorem grow_urn {ω : Oracle ℝ} (hω : ω.Legal) {a alpha : ℝ} (ha : 0 ≤ a) (hal : 0 < alpha) : ∀ (k : ℕ) (c : List ℕ) (s : BID ℝ × ℕ), Urn ω a alpha c s.1 →
    wp ω (BID.grow k) (fun _ t => ∃ js, js.length = k ∧ Chosen ω a c js ∧ Urn ω a alpha (blocks c js) t.1 ∧ s.1.vBase <+: t.1.vBase ∧
      (∃ xs, t.1.v = s.1.v ++ xs ∧ js.map (fun j => t.1.vBase[j]?) = xs.map some) ∧ t.1.dBase = s.1.dBase ++ js) (fun _ _ => False) s
  | 0, c, s, h => ⟨[], rfl, trivial, h, List.prefix_refl _, ⟨[], by simp, rfl⟩, by simp⟩
  | k + 1, c, s, h => by
    rw [BID.grow, wp_bind]
    refine wp_mono (growOne_urn hω ha hal s h) ?_ (fun _ _ h => h)
    rintro _ s1 ⟨j, hreq, hj, h1, hp1, ⟨x, hx, hv1⟩, hd1⟩
    refine wp_mono (grow_urn hω ha hal k _ s1 h1) ?_ (fun _ _ h => h)
    rintro _ s2 ⟨js, hlen, hch, h2, hp2, ⟨xs, hv2, hm⟩, hd2⟩
    refine ⟨j :: js, by simp [hlen], ⟨hreq, hj, hch⟩, h2, hp1.trans hp2, ⟨x :: xs, by rw [hv2, hv1]; simp, ?_⟩, by rw [hd2, hd1]; simp⟩
    rw [List.map_cons, List.map_cons, hm]
    congr 1
    obtain ⟨l, hl⟩ := hp2
    rw [← hl, List.getElem?_append_left (List.getElem?_eq_some_iff.1 hx).1, hx]

/-- A draw without data, from any state. -/
theorem C73_path (F : SpecFun ℝ) {ω : Oracle ℝ} (hω : ω.Legal) (s : BID ℝ × ℕ) (hd : s.1.d = []) (ha : 0 ≤ s.1.a) (hal : 0 < s.1.alpha) (n : ℕ) :
    ∃ w t js, BID.random F (.int n) ω s = (.ok w, t) ∧ js.length = n ∧ Chosen ω s.1.a [1] js ∧ IsStick t.1.v w ∧
      js.map (fun j => t.1.vBase[j]?) = t.1.v.map some ∧ (∀ x ∈ t.1.vBase, ∃ i, x = ω.beta i 1 s.1.alpha) := by
  suffices h : wp ω (BID.random F (.int n)) (fun w t => ∃ js, js.length = n ∧ Chosen ω s.1.a [1] js ∧ IsStick t.1.v w ∧
      js.map (fun j => t.1.vBase[j]?) = t.1.v.map some ∧ (∀ x ∈ t.1.vBase, ∃ i, x = ω.beta i 1 s.1.alpha)) (fun _ _ => False) s by
    unfold wp at h
    rcases hr : BID.random F (.int n) ω s with ⟨e | w, t⟩
    · rw [hr] at h; exact h.elim
    · rw [hr] at h
      obtain ⟨js, h⟩ := h
      exact ⟨w, t, js, rfl, h⟩
  unfold BID.random
  rw [wp_bind, wp_self, wp_ite]
  refine ⟨fun h => (nomatch h.1), fun _ => ?_⟩
  dsimp only
  rw [wp_bind, wp_assign, wp_ite]
  refine ⟨fun _ => ?_, fun h => absurd (by rw [hd]; rfl) h⟩
  rw [wp_bind]
  unfold BID.complete
  rw [wp_bind, wp_self, wp_bind, wp_whenM]
  refine ⟨fun _ => ?_, fun h => absurd rfl h⟩
  rw [wp_bind, wp_betaRep]
  refine ⟨fun h => ?_, fun _ _ _ => ?_⟩
  · rcases h with h | h | h
    · linarith
    · exact absurd hal (not_lt.2 h)
    · omega
  rw [wp_bind, wp_assign, wp_assign]
  simp only [PySize.toInt?]
  rw [wp_bind, wp_self, wp_bind]
  refine wp_mono (grow_urn hω ha hal _ [1] _ ⟨rfl, rfl, rfl, by simp [M.betaValues], by simp, ?_⟩) ?_ (fun _ _ h => h)
  · intro x hx
    simp [M.betaValues] at hx
    exact ⟨_, hx⟩
  · rintro _ t ⟨js, hlen, hch, hu, _, ⟨xs, hv, hm⟩, _⟩
    rw [wp_assign, wp_bind, wp_self, wp_pure]
    refine ⟨js, by simpa using hlen, hch, stickWeights_isStick _, ?_, hu.draw⟩
    rw [hm, hv]
    rfl

/-- The urn with the extra inner stick gives each pattern of ties the probability of the urn that starts empty. -/
theorem C73_law {a : ℝ} (ha : 0 < a) (js : List ℕ) (hl : js ∈ all js.length []) :
    (((all js.length [1]).filter (fun s => decide (ties [] s = js))).map (seqProb a [1])).sum = seqProb a [] js := by
  refine phantom_law ha js ?_
  suffices ∀ (n : ℕ) (c js : List ℕ), js ∈ all n c → legal c.length js from this _ _ _ hl
  intro n
  induction n with
  | zero => intro c js h; simp [all] at h; subst h; trivial
  | succ n ih =>
    intro c js h
    rw [all, List.mem_flatMap] at h
    obtain ⟨j, hj, h⟩ := h
    rw [List.mem_map] at h
    obtain ⟨js', h', rfl⟩ := h
    rw [List.mem_range] at hj
    refine ⟨by omega, ?_⟩
    have := ih _ _ h'
    rwa [length_seat] at this

/-- Two sticks are tied with probability `1/(1+a)`; with `a = 1` the urn reaches the tie as `0, 0` (probability 1/3) and as `1, 1` (1/6). -/
example : ((all 2 [1]).filter (fun s => decide (ties [] s = [0, 0]))) = [[0, 0], [1, 1]] := by decide
example : seqProb 1 [1] [0, 0] + seqProb 1 [1] [1, 1] = seqProb 1 [] [0, 0] := by norm_num [seqProb, prob, seat]
example : [0, 1, 0, 2] ∈ all 4 [] := by decide

end Verif
