import Verif.Model.Cast

/-!
# C62: the rng argument

* `C62_fresh`: `None` and a non-negative int give a generator that did not exist before, at its start; no other generator changes.
* `C62_same_seed`: two objects built with the same int, at any time, read the same values from then on, however the draws are divided into calls and
  whatever other generators exist.
* `C62_generator`, `C62_shared`: a `Generator` is used as it is; the mixture and its weights then share it: what one draws the other does not see again.
* `C62_type_error`: anything else raises `TypeError`; nothing is created.
* `C62_negative_refuted`: a negative int raises `ValueError`.
* `C62_int_twins`: (not in the claim) with an int the mixture and its weights have two generators that read the same stream from its start, so the
  random numbers of the weights are those of the sampler.
-/

namespace Verif.Mix.Gens
variable {K : Type}

/-- Successive draws from one generator. -/
def draws (h : Gens K) (id : ℕ) : List ℕ → List (List K)
  | [] => []
  | k :: ks => (h.draw id k).1 :: draws (h.draw id k).2 id ks

theorem draw_at {h : Gens K} {id : ℕ} {g : Gen K} (hg : h.all[id]? = some g) (k : ℕ) :
    (h.draw id k).1 = (List.range k).map (fun i => g.stream (g.pos + i)) ∧ (h.draw id k).2.all = h.all.set id { g with pos := g.pos + k } := by
  unfold draw
  rw [hg]
  exact ⟨rfl, rfl⟩

theorem draw_next {h : Gens K} {id : ℕ} {g : Gen K} (hg : h.all[id]? = some g) (k : ℕ) : (h.draw id k).2.all[id]? = some { g with pos := g.pos + k } := by
  rw [(draw_at hg k).2, List.getElem?_set_self (List.getElem?_eq_some_iff.1 hg).1]

/-- What is drawn depends on the stream and the position only. -/
theorem draws_eq (ks : List ℕ) : ∀ {h h' : Gens K} {id id' : ℕ} {g : Gen K}, h.all[id]? = some g → h'.all[id']? = some g → h.draws id ks = h'.draws id' ks := by
  induction ks with
  | nil => intros; rfl
  | cons k ks ih =>
    intro h h' id id' g hg hg'
    rw [draws, draws, (draw_at hg k).1, (draw_at hg' k).1, ih (draw_next hg k) (draw_next hg' k)]

theorem parse_int {h h1 : Gens K} {n : ℤ} {id : ℕ} (hp : h.parse (.int n) = .ok (id, h1)) :
    0 ≤ n ∧ id = h.all.length ∧ h1 = { h with all := h.all ++ [⟨h.seeded n.toNat, 0⟩] } := by
  unfold parse at hp
  simp only [] at hp
  split at hp
  · cases hp
  · next hn =>
    cases hp
    exact ⟨not_lt.1 hn, rfl, rfl⟩

/-- **Fresh generators**: `None` and non-negative ints. -/
theorem C62_fresh (h : Gens K) (a : RngArg) (ha : a = .none ∨ ∃ n : ℤ, 0 ≤ n ∧ a = .int n) :
    ∃ (id : ℕ) (h1 : Gens K) (g : Gen K), h.parse a = .ok (id, h1) ∧ h.all[id]? = none ∧ h1.all[id]? = some g ∧ g.pos = 0 ∧ ∀ (j : ℕ) (g' : Gen K), h.all[j]? = some g' → h1.all[j]? = some g' := by
  have key : ∀ s : ℕ → K, ∃ g, (h.alloc s).2.all[(h.alloc s).1]? = some g ∧ g.pos = 0 ∧ ∀ (j : ℕ) (g' : Gen K), h.all[j]? = some g' → (h.alloc s).2.all[j]? = some g' := by
    intro s
    refine ⟨⟨s, 0⟩, by simp [alloc], rfl, fun j g' hj => ?_⟩
    have := (List.getElem?_eq_some_iff.1 hj).1
    show (h.all ++ [_])[j]? = _
    rw [List.getElem?_append_left this, hj]
  rcases ha with rfl | ⟨n, hn, rfl⟩
  · obtain ⟨g, h1, h2, h3⟩ := key (h.entropy h.all.length)
    exact ⟨_, _, g, rfl, by simp [alloc], h1, h2, h3⟩
  · obtain ⟨g, h1, h2, h3⟩ := key (h.seeded n.toNat)
    refine ⟨_, _, g, if_neg (not_lt.2 hn), by simp [alloc], h1, h2, h3⟩

/-- **The same seed gives the same stream**, in every environment (`seeded` is numpy's table of streams). -/
theorem C62_same_seed {h h' h1 h1' : Gens K} {n : ℤ} {id id' : ℕ} (hs : h.seeded = h'.seeded) (hp : h.parse (.int n) = .ok (id, h1))
    (hp' : h'.parse (.int n) = .ok (id', h1')) (ks : List ℕ) : h1.draws id ks = h1'.draws id' ks := by
  obtain ⟨-, rfl, rfl⟩ := parse_int hp
  obtain ⟨-, rfl, rfl⟩ := parse_int hp'
  refine draws_eq (g := ⟨h.seeded n.toNat, 0⟩) ks ?_ ?_
  · simp
  · simp [hs]

/-- Two mixtures with the same seed: weights like weights, mixture like mixture. -/
theorem C62_same_seed_mixture {h h' h1 h1' : Gens K} {n : ℤ} {w x w' x' : ℕ} (hs : h.seeded = h'.seeded) (hp : h.mixture (.int n) = .ok ((w, x), h1))
    (hp' : h'.mixture (.int n) = .ok ((w', x'), h1')) (ks : List ℕ) : h1.draws w ks = h1'.draws w' ks ∧ h1.draws x ks = h1'.draws x' ks := by
  have key : ∀ {h h1 : Gens K} {w x : ℕ}, h.mixture (.int n) = .ok ((w, x), h1) →
      h1.all[w]? = some ⟨h.seeded n.toNat, 0⟩ ∧ h1.all[x]? = some ⟨h.seeded n.toNat, 0⟩ := by
    intro h h1 w x hm
    unfold mixture parse at hm
    simp only [] at hm
    by_cases hn : n < 0
    · rw [if_pos hn] at hm; cases hm
    · rw [if_neg hn] at hm
      simp only [alloc] at hm
      rw [if_neg hn] at hm
      cases hm
      constructor
      · simp
      · simp
  obtain ⟨h1, h2⟩ := key hp
  obtain ⟨h3, h4⟩ := key hp'
  rw [hs] at h1 h2
  exact ⟨draws_eq ks h1 h3, draws_eq ks h2 h4⟩

/-- **A generator is used as it is**, by the mixture and by its weights. -/
theorem C62_generator (h : Gens K) (id : ℕ) : h.parse (.generator id) = .ok (id, h) ∧ h.mixture (.generator id) = .ok ((id, id), h) := ⟨rfl, rfl⟩

/-- **Sharing**: `k` values for the weights and then `l` for the mixture are the next `k + l` values of the stream. -/
theorem C62_shared {h h1 : Gens K} {id w x : ℕ} {g : Gen K} (hg : h.all[id]? = some g) (hm : h.mixture (.generator id) = .ok ((w, x), h1)) (k l : ℕ) :
    (h1.draw w k).1 ++ ((h1.draw w k).2.draw x l).1 = (List.range (k + l)).map (fun i => g.stream (g.pos + i)) := by
  cases hm
  rw [(draw_at hg k).1, (draw_at (draw_next hg k) l).1, List.range_add, List.map_append, List.map_map]
  simp [Function.comp_def, Nat.add_assoc]

/-- **Anything else** raises `TypeError`. -/
theorem C62_type_error (h : Gens K) : h.parse .other = .error .typeError ∧ h.parse .subclass = .error .typeError ∧
    h.mixture .other = .error .typeError ∧ h.mixture .subclass = .error .typeError := ⟨rfl, rfl, rfl, rfl⟩

/-- **Refuted for negative ints**. -/
theorem C62_negative_refuted (h : Gens K) (n : ℤ) (hn : n < 0) : h.parse (.int n) = .error .valueError := if_pos hn

/-- With an int the two generators of a mixture are different objects which give the same numbers. -/
theorem C62_int_twins (h : Gens K) {n : ℤ} (hn : 0 ≤ n) (ks : List ℕ) :
    ∃ w x h1, h.mixture (.int n) = .ok ((w, x), h1) ∧ w ≠ x ∧ h1.draws w ks = h1.draws x ks := by
  have hn' : ¬ n < 0 := not_lt.2 hn
  refine ⟨h.all.length, h.all.length + 1, { h with all := (h.all ++ [⟨h.seeded n.toNat, 0⟩]) ++ [⟨h.seeded n.toNat, 0⟩] }, ?_, by omega, ?_⟩
  · unfold mixture parse
    simp [hn', alloc]
  · exact draws_eq (g := ⟨h.seeded n.toNat, 0⟩) ks (by simp) (by simp)

/-! Two mixtures with seed `3` in different environments. -/
example : let h : Gens ℕ := ⟨[⟨fun i => i, 4⟩], fun n i => 100 * n + i, fun _ i => i⟩
    let h' : Gens ℕ := ⟨[], fun n i => 100 * n + i, fun _ i => i⟩
    (∃ p, h.mixture (.int 3) = .ok p) ∧ (∃ p, h'.mixture (.int 3) = .ok p) ∧ h.all[0]? ≠ none := by
  exact ⟨⟨_, rfl⟩, ⟨_, rfl⟩, by simp⟩
end Verif.Mix.Gens
