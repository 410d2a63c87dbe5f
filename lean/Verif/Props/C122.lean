import Verif.Lemmas.MemoryFacts

/-!
C122. Arrays handed out by the library stay as they are, arrays handed in are not changed, and treating arrays as values is right.

Everywhere else in this development an array is a value. Python arrays are objects that can be held under several names and written into. The theorems say
that for every program that uses any number of objects of the library, whatever numbers are computed, whichever branches are taken, however often loops
run, and wherever calls raise:

* the contents seen through every attribute are those of the value reading, in which a write changes only the name written through (`C122_values`);
* an array returned by a method, an array of a saved state or of the best state, and an array kept from the caller are never written into again
  (`C122_results_kept`);
* a call does not write into any array of the caller (`C122_arguments`);
* the caller may write into arrays that the methods copy or only read, and into results that are new arrays, without any effect on the objects
  (`C122_private_writes`), and after a fit also into `mu_prior` (`C122_mu`).

The converse is false for five kinds of array. `get_weights`, `random`, `complete` and `tail` return the array of the object: a write into it changes the
object (`C122_weights_refuted`). `fit_variational` of a weighting structure (`C122_matrix_refuted`), the argument `psi_prior` (`C122_psi_refuted`) and a data
frame (`C122_frame_refuted`) are kept without a copy. The lists returned by `get_sim_params`, `get_n_groups` and `get_n_theta` are those of the object and
grow with every later warm fit (`C122_list_live`, `C122_list_refuted`), though not with a cold one (`C122_list_cold`).
-/

set_option linter.unusedSectionVars false

namespace Verif.Memory

variable {C : Type}

/-! ### Specification -/

/-- The value reading: a name has contents, and a write changes the contents of the name written through and of no other. -/
def plain (v : Name → Option C) : Act C → Name → Option C
  | .new x f => Function.update v x (some (f (fun z => if isList z then none else v z)))
  | .bind x y => Function.update v x (v y)
  | .move x y => Function.update (Function.update v x (v y)) y none
  | .store x f => Function.update v x ((v x).map (fun _ => f (fun z => if isList z then none else v z)))

/-- The value reading of a program. -/
def plains (es : List (Event C)) : Name → Option C := es.foldl (fun v e => e.acts.foldl plain v) (fun _ => none)

/-- The arrays that are not to change any more: results that are arrays of an object, arrays of saved states and of the best state, the current weights and
labels, and arrays kept from the caller. -/
inductive Lasting : Name → Prop
  | got (k) : Lasting (.got k)
  | kept (k) : Lasting (.kept k)
  | savedW (o i) : Lasting (.obj o (.savedW i))
  | savedU (o i) : Lasting (.obj o (.savedU i))
  | savedD (o i) : Lasting (.obj o (.savedD i))
  | savedAtom (o i j) : Lasting (.obj o (.savedAtom i j))
  | mapW (o) : Lasting (.obj o .mapW)
  | mapU (o) : Lasting (.obj o .mapU)
  | mapD (o) : Lasting (.obj o .mapD)
  | mapAtom (o j) : Lasting (.obj o (.mapAtom j))
  | w (o) : Lasting (.obj o .w)
  | labels (o) : Lasting (.obj o .labels)
  | y (o) : Lasting (.obj o .y)
  | varD (o) : Lasting (.obj o .varD)

/-- The arrays of the caller. -/
inductive Mine : Name → Prop
  | kept (k) : Mine (.kept k)
  | given (k) : Mine (.given k)
  | got (k) : Mine (.got k)
  | made (k) : Mine (.made k)

/-! ### Values -/

private theorem role_watch {x : Name} (hx : isList x = false) : x.role ≠ .watch := by
  cases x with
  | obj o f => simp only [Name.role, Field.role]; split_ifs <;> simp
  | list k => simp [isList] at hx
  | _ => simp [Name.role]

private theorem plain_step {m : Mem C} (h : Sound m) {v : Name → Option C} (hv : ∀ x, isList x = false → m.get x = v x) (a : Act C) (ha : a.Ok) :
    ∀ x, isList x = false → (m.step a).get x = plain v a x := by
  have hr : m.read = (fun z => if isList z then none else v z) := by
    funext z; simp only [Mem.read]; cases hz : isList z <;> simp [hv z, hz]
  intro x hx
  cases a with
  | new y f =>
    simp only [Mem.get, Mem.step, plain, Function.update_apply, hr]
    by_cases e : x = y
    · simp [e]
    · simp only [if_neg e]
      rw [← hv x hx, Mem.get]
      cases hb : m.env x with
      | none => rfl
      | some b => simp [Nat.ne_of_lt (h.lt _ _ hb)]
  | bind y z =>
    simp only [Mem.get, Mem.step, plain, Function.update_apply]
    by_cases e : x = y
    · subst e
      have hz : isList z = false := by
        rcases ha with ⟨-, h2⟩ | ⟨h1, -⟩
        · cases z <;> simp_all [Name.role, isList]
        · exact (role_watch hx h1).elim
      simpa [Mem.get] using hv z hz
    · simpa [if_neg e, Mem.get] using hv x hx
  | move y z =>
    have hz : isList z = false := by
      have := ha.2.2
      cases z <;> simp_all [Name.role, isList]
    simp only [Mem.get, Mem.step, plain, Function.update_apply]
    by_cases e : x = z
    · simp [e]
    · simp only [if_neg e]
      by_cases e' : x = y
      · simpa [e', Mem.get] using hv z hz
      · simpa [if_neg e', Mem.get] using hv x hx
  | store y f =>
    have hy : isList y = false := by
      rcases ha with h1 | h1 <;> (cases y <;> simp_all [Name.role, isList])
    simp only [Mem.step, plain, Function.update_apply, ← hr]
    cases hb : m.env y with
    | none =>
      by_cases e : x = y
      · subst e
        have : m.get x = none := by simp [Mem.get, hb]
        simp only [if_true]
        rw [this, ← hv x hx, this]; rfl
      · simp only [if_neg e]; exact hv x hx
    | some b =>
      by_cases e : x = y
      · subst e
        simp only [Mem.get, hb, Option.bind_some, Function.update_self, if_true]
        have h1 : m.get x = m.cell b := by simp [Mem.get, hb]
        obtain ⟨d, hd⟩ := Option.isSome_iff_exists.1 (h.full b (h.lt _ _ hb))
        rw [← hv x hx, h1, hd]; rfl
      · simp only [if_neg e]
        rw [← hv x hx, Mem.get, Mem.get]
        cases hc : m.env x with
        | none => rfl
        | some c =>
          have : c ≠ b := by
            rintro rfl
            have := h.may _ _ _ e hc hb
            rcases ha with h1 | h1
            · rw [h1] at this; cases hr : x.role <;> simp_all [May]
            · rw [h1] at this
              have hw : x.role ≠ .watch := role_watch hx
              cases hr : x.role <;> simp_all [May]
          simp [this]

private theorem plain_run {m : Mem C} (h : Sound m) {v : Name → Option C} (hv : ∀ x, isList x = false → m.get x = v x) (l : List (Act C)) (hl : ∀ a ∈ l, a.Ok) :
    ∀ x, isList x = false → (m.run l).get x = l.foldl plain v x := by
  induction l generalizing m v with
  | nil => exact hv
  | cons a l ih =>
    exact ih (sound_step h a (hl a (by simp))) (plain_step h hv a (hl a (by simp))) (fun b hb => hl b (by simp [hb]))

/-- After every program the contents of every attribute, and of every variable of the caller other than the lists of the getters, are those of the value
reading. -/
theorem C122_values (es : List (Event C)) (x : Name) (hx : isList x = false) : ((Mem.empty : Mem C).runs es).get x = plains es x := by
  have main : ∀ (es : List (Event C)) (m : Mem C) (v : Name → Option C), Sound m → (∀ x, isList x = false → m.get x = v x) →
      ∀ x, isList x = false → (m.runs es).get x = es.foldl (fun v e => e.acts.foldl plain v) v x := by
    intro es
    induction es with
    | nil => intro m v _ hv; exact hv
    | cons e es ih =>
      intro m v h hv
      exact ih _ _ (sound_run h _ (event_ok e)) (plain_run h hv _ (event_ok e))
  exact main es _ _ sound_empty (by simp [Mem.get, Mem.empty]) x hx

/-! ### Results -/

private theorem lasting_shared {x : Name} (h : Lasting x) : x.role = .shared := by cases h <;> rfl

/-- What has been returned, saved or kept is never written into again: the array held by the name at some moment has the same contents after every
continuation of the program, whether or not the name still holds it. -/
theorem C122_results_kept (es es' : List (Event C)) (x : Name) (hx : Lasting x) (a : ℕ) (ha : ((Mem.empty : Mem C).runs es).env x = some a) :
    (((Mem.empty : Mem C).runs es).runs es').cell a = ((Mem.empty : Mem C).runs es).cell a ∧ (((Mem.empty : Mem C).runs es).cell a).isSome := by
  have h := sound_runs (sound_empty (C := C)) es
  exact ⟨(frozen_runs (shared_frozen h (lasting_shared hx) ha) es').2, h.full a (h.lt _ _ ha)⟩

/-! ### Arguments -/

/-- No statement of the library will write into the array. -/
private def Safe (m : Mem C) (a : ℕ) : Prop := a < m.top ∧ ∀ x, (x.role = .own ∨ x.role = .ledger) → ¬ x.ofCaller → m.env x ≠ some a

private theorem safe_step {m : Mem C} {a : ℕ} (h : Safe m a) (s : Act C) (hs : s.Good) : Safe (m.step s) a ∧ (m.step s).cell a = m.cell a := by
  obtain ⟨hlt, hn⟩ := h
  obtain ⟨hs, hl⟩ := hs
  cases s with
  | new x f =>
    refine ⟨⟨by simp [Mem.step]; omega, fun z hz hc => ?_⟩, ?_⟩
    · simp only [Mem.step, Function.update_apply]
      split
      · simp only [ne_eq, Option.some.injEq]; omega
      · exact hn z hz hc
    · simp only [Mem.step, Function.update_apply, if_neg (Nat.ne_of_lt hlt)]
  | bind x y =>
    refine ⟨⟨hlt, fun z hz hc => ?_⟩, rfl⟩
    simp only [Mem.step, Function.update_apply]
    split
    · rename_i e; subst e
      rcases hs with ⟨h1, -⟩ | ⟨h1, -⟩ <;> simp [h1] at hz
    · exact hn z hz hc
  | move x y =>
    refine ⟨⟨hlt, fun z hz hc => ?_⟩, rfl⟩
    simp only [Mem.step, Function.update_apply]
    split
    · simp
    · split
      · exact hn y (.inl hs.2.2) hl.2
      · exact hn z hz hc
  | store x f =>
    simp only [Mem.step]
    cases hx : m.env x with
    | none => exact ⟨⟨hlt, hn⟩, rfl⟩
    | some b =>
      have hb : b ≠ a := fun e => hn x hs hl (by rw [hx, e])
      exact ⟨⟨hlt, hn⟩, by simp only [Function.update_apply, if_neg hb.symm]⟩

private theorem safe_run {m : Mem C} {a : ℕ} (h : Safe m a) (l : List (Act C)) (hl : ∀ s ∈ l, s.Good) : (m.run l).cell a = m.cell a := by
  induction l generalizing m with
  | nil => rfl
  | cons s l ih =>
    obtain ⟨h1, h2⟩ := safe_step h s (hl s (by simp))
    exact (ih h1 (fun b hb => hl b (by simp [hb]))).trans h2

/-- A call, whether it returns or raises, does not write into any array held by the caller: arguments and earlier results keep their contents. -/
theorem C122_arguments (es : List (Event C)) (o : ℕ) (c : Call) (W : Way C) (cut : Option ℕ) (x : Name) (hx : Mine x) (a : ℕ)
    (ha : ((Mem.empty : Mem C).runs es).env x = some a) :
    (((Mem.empty : Mem C).runs es).run (Event.call o c W cut).acts).cell a = ((Mem.empty : Mem C).runs es).cell a := by
  have h := sound_runs (sound_empty (C := C)) es
  refine safe_run ⟨h.lt _ _ ha, fun z hz hc hza => ?_⟩ _ ?_
  · have hne : x ≠ z := by rintro rfl; cases hx <;> simp [Name.ofCaller] at hc
    have := h.may _ _ _ hne ha hza
    rcases hz with h1 | h1 <;> (rw [h1] at this; cases hx <;> simp [Name.role, May] at this)
  · cases cut with
    | none => exact call_good o c W
    | some l => exact fun s hs => call_good o c W s (List.mem_of_mem_take hs)

/-! ### Writes by the caller -/

/-- A write by the caller into an array that was handed to a method that copies or reads it, or into a result that is a new array, changes nothing but what
is seen through that variable. -/
theorem C122_private_writes (es : List (Event C)) (k : ℕ) (x : C) (z : Name) :
    (z ≠ .given k → (((Mem.empty : Mem C).runs es).run (Event.writeGiven k x).acts).get z = ((Mem.empty : Mem C).runs es).get z) ∧
    (z ≠ .made k → (((Mem.empty : Mem C).runs es).run (Event.writeMade k x).acts).get z = ((Mem.empty : Mem C).runs es).get z) := by
  have h := sound_runs (sound_empty (C := C)) es
  have main : ∀ n : Name, n.role = .own → z ≠ n → ((((Mem.empty : Mem C).runs es).step (.store n (fun _ => x)))).get z = ((Mem.empty : Mem C).runs es).get z := by
    intro n hn hne
    simp only [Mem.step]
    cases hb : ((Mem.empty : Mem C).runs es).env n with
    | none => rfl
    | some b =>
      simp only [Mem.get]
      cases hc : ((Mem.empty : Mem C).runs es).env z with
      | none => rfl
      | some c =>
        have : c ≠ b := by
          rintro rfl
          have := h.may _ _ _ hne hc hb
          rw [hn] at this; cases hr : z.role <;> simp_all [May]
        simp [this]
  exact ⟨main _ rfl, main _ rfl⟩

/-! ### Names that a call leaves alone -/

/-- The statement gives the name another array. -/
private def Act.hits (z : Name) : Act C → Prop
  | .new x _ => x = z
  | .bind x _ => x = z
  | .move x y => x = z ∨ y = z
  | .store _ _ => False

private theorem env_step {m : Mem C} {z : Name} (a : Act C) (h : ¬ a.hits z) : (m.step a).env z = m.env z := by
  cases a with
  | new x f => simp only [Mem.step, Function.update_apply, if_neg (fun e => h (Eq.symm e))]
  | bind x y => simp only [Mem.step, Function.update_apply, if_neg (fun e => h (Eq.symm e))]
  | move x y =>
    have h1 : z ≠ x := fun e => h (.inl e.symm)
    have h2 : z ≠ y := fun e => h (.inr e.symm)
    simp only [Mem.step, Function.update_apply, if_neg h1, if_neg h2]
  | store x f => simp only [Mem.step]; cases m.env x <;> rfl

private theorem env_run {m : Mem C} {z : Name} (l : List (Act C)) (h : ∀ a ∈ l, ¬ a.hits z) : (m.run l).env z = m.env z := by
  induction l generalizing m with
  | nil => rfl
  | cons a l ih => exact (ih (fun b hb => h b (by simp [hb]))).trans (env_step a (h a (by simp)))

private theorem run_append (m : Mem C) (l r : List (Act C)) : m.run (l ++ r) = (m.run l).run r := by simp [Mem.run]

/-- Names that the iterations of a fit do not touch. -/
private def Quiet (o : ℕ) (z : Name) : Prop :=
  z = .obj o .psi ∨ z = .obj o .y ∨ z = .obj o .mu ∨ z = .obj o .simParams ∨ z = .obj o .nGroups ∨ z = .obj o .nAtoms ∨ (∃ k, z = .kept k) ∨ (∃ k, z = .list k)

private theorem complete_quiet {o : ℕ} {z : Name} (hz : Quiet o z) (c : Cls) (W : Way C) : ∀ a ∈ complete o c W, ¬ a.hits z := by
  rcases hz with rfl | rfl | rfl | rfl | rfl | rfl | ⟨k, rfl⟩ | ⟨k, rfl⟩ <;> (cases c <;> (simp only [complete]; acts) <;> simp [Act.hits])

private theorem random_quiet {o : ℕ} {z : Name} (hz : Quiet o z) (c : Cls) (W : Way C) : ∀ a ∈ random o c W, ¬ a.hits z := by
  have h := fun c W => complete_quiet (C := C) hz c W
  rcases hz with rfl | rfl | rfl | rfl | rfl | rfl | ⟨k, rfl⟩ | ⟨k, rfl⟩ <;>
    (cases c <;> (simp only [random, bernoulliPath]; acts) <;> first | exact h _ _ | simp [Act.hits])

private theorem tail_quiet {o : ℕ} {z : Name} (hz : Quiet o z) (c : Cls) (W : Way C) : ∀ a ∈ tail o c W, ¬ a.hits z := by
  simp only [tail]; acts <;> first | exact random_quiet hz _ _ | exact complete_quiet hz _ _

private theorem updateMap_quiet {o : ℕ} {z : Name} (hz : Quiet o z) (c : Cls) (ks : List ℕ) (W : Way C) : ∀ a ∈ updateMap o c ks W, ¬ a.hits z := by
  have h := fun c W => complete_quiet (C := C) hz c W
  rcases hz with rfl | rfl | rfl | rfl | rfl | rfl | ⟨k, rfl⟩ | ⟨k, rfl⟩ <;> ((simp only [updateMap]; acts) <;> first | exact h _ _ | simp [Act.hits])

private theorem gibbsStep_quiet {o : ℕ} {z : Name} (hz : Quiet o z) (c : Cls) (ks : List ℕ) (W : Way C) : ∀ a ∈ gibbsStep o c ks W, ¬ a.hits z := by
  have h := fun c W => random_quiet (C := C) hz c W
  have h' := fun c W => tail_quiet (C := C) hz c W
  rcases hz with rfl | rfl | rfl | rfl | rfl | rfl | ⟨k, rfl⟩ | ⟨k, rfl⟩ <;>
    ((simp only [gibbsStep, fitLabels]; acts) <;> first | exact h _ _ | exact h' _ _ | simp [Act.hits])

private theorem save_quiet {o : ℕ} {z : Name} (hz : Quiet o z) (i : ℕ) (ks : List ℕ) (W : Way C) : ∀ a ∈ save o i ks W, ¬ a.hits z := by
  rcases hz with rfl | rfl | rfl | rfl | rfl | rfl | ⟨k, rfl⟩ | ⟨k, rfl⟩ <;> ((simp only [save]; acts) <;> simp [Act.hits])

private theorem gibbsLoop_quiet {o : ℕ} {z : Name} (hz : Quiet o z) (c : Cls) (ks : ℕ → List ℕ) (pos : ℕ → ℕ) (W : Way C) :
    ∀ a ∈ each W 2 (List.range (W.ct 0)) (fun t W => gibbsStep o c (ks (t + 1)) (W.sub 0) ++ updateMap o c (ks (t + 1)) (W.sub 1) ++
      (if W.br 0 then save o (pos t) (ks (t + 1)) (W.sub 2) else [])), ¬ a.hits z := by
  acts <;> first | exact gibbsStep_quiet hz _ _ _ | exact updateMap_quiet hz _ _ _ | exact save_quiet hz _ _ _

/-! ### What the object shares with the caller -/

/-- A write by the caller through one of its variables. -/
def poke (m : Mem C) (n : Name) (x : C) : Mem C := m.step (.store n (fun _ => x))

private theorem poke_alias {m : Mem C} {n z : Name} {a : ℕ} (hn : m.env n = some a) (hz : m.env z = some a) (x : C) : (poke m n x).get z = some x := by
  simp [poke, Mem.step, hn, Mem.get, hz]

/-- False for the arrays returned by `random`, `complete`, `tail` and `get_weights`: after every program that holds weights, a write into the array returned
changes the weights of the object. -/
theorem C122_weights_refuted (es : List (Event C)) (o k : ℕ) (W : Way C) (x : C) (a : ℕ) (h : ((Mem.empty : Mem C).runs es).env (.obj o .w) = some a) :
    (poke (((Mem.empty : Mem C).runs es).run ((Call.getWeights k).acts o W)) (.got k) x).get (.obj o .w) = some x := by
  refine poke_alias (a := a) ?_ ?_ x <;> simp [Call.acts, Mem.run, Mem.step, h]

/-- False for the matrix handed to `fit_variational` of the six weighting structures that have it: it is kept, so a later write by the caller changes what
the object computes from it, for FrequencyWeighting the expected weights themselves. -/
theorem C122_matrix_refuted (es : List (Event C)) (o k : ℕ) (c : Cls) (W : Way C) (x : C) (a : ℕ)
    (hc : c = .dp ∨ c = .py ∨ c = .geo ∨ c = .dirichlet ∨ c = .equal ∨ c = .frequency) (h : ((Mem.empty : Mem C).runs es).env (.kept k) = some a) :
    (poke (((Mem.empty : Mem C).runs es).run ((Call.fitVariational c k).acts o W)) (.kept k) x).get (.obj o .varMatrix) = some x := by
  refine poke_alias (a := a) ?_ ?_ x <;>
    (rcases hc with rfl | rfl | rfl | rfl | rfl | rfl <;> simp [Call.acts, fitMatrix, Mem.run, Mem.step, h])

/-- A data frame is kept: after `fit_gibbs(frame)` that starts at random or with k-means, warm or cold, a write into the memory of the frame changes the data
of the object. -/
theorem C122_frame_refuted (es : List (Event C)) (o k : ℕ) (c : Cls) (warm : Bool) (ks : ℕ → List ℕ) (pos : ℕ → ℕ) (W : Way C) (x : C) (a : ℕ)
    (hv : W.b [0, 1] = false) (h : ((Mem.empty : Mem C).runs es).env (.kept k) = some a) :
    (poke (((Mem.empty : Mem C).runs es).run ((Call.fitGibbs c (.frame k) warm ks pos).acts o W)) (.kept k) x).get (.obj o .y) = some x := by
  have hquiet : ∀ z, (z = .obj o .y ∨ z = .kept k) → ∀ m : Mem C,
      (m.run ((if warm then [] else initGibbs o c (W.sub 0) ++ updateMap o c (ks 0) (W.sub 1)) ++
        each W 2 (List.range (W.ct 0)) (fun t W => gibbsStep o c (ks (t + 1)) (W.sub 0) ++ updateMap o c (ks (t + 1)) (W.sub 1) ++
      (if W.br 0 then save o (pos t) (ks (t + 1)) (W.sub 2) else [])))).env z = m.env z := by
    intro z hz m
    have hq : Quiet o z := by rcases hz with rfl | rfl <;> simp [Quiet]
    refine env_run _ (all_append (all_ite all_nil (all_append ?_ (updateMap_quiet hq _ _ _))) (gibbsLoop_quiet hq _ _ _ _))
    have hb : (W.sub 0).br 1 = false := hv
    have h1 := fun c W => tail_quiet (C := C) hq c W
    have h2 := fun c W => complete_quiet (C := C) hq c W
    simp only [initGibbs, hb, Bool.false_eq_true, if_false]
    rcases hz with rfl | rfl <;> (acts <;> first | exact h1 _ _ | exact h2 _ _ | simp [Act.hits])
  have hc1 : (((Mem.empty : Mem C).runs es).run (common o (.frame k) W)).env (.obj o .y) = some a := by
    have : ∀ a ∈ ([.new (.obj o .mu) (W.fn 1)] ++ (if W.br 0 then [.new (.obj o .psi) (W.fn 2)] else []) : List (Act C)), ¬ a.hits (.obj o .y) := by
      acts <;> simp [Act.hits]
    simp only [common, List.append_assoc, run_append _ [Act.bind _ _]]
    rw [env_run _ this]; simp [Mem.run, Mem.step, h]
  have hc2 : (((Mem.empty : Mem C).runs es).run (common o (.frame k) W)).env (.kept k) = some a := by
    rw [env_run, h]; simp only [common]; acts <;> simp [Act.hits]
  refine poke_alias (a := a) ?_ ?_ x <;> (simp only [Call.acts, fitGibbs]; rw [List.append_assoc, run_append, hquiet _ (by simp)]; assumption)

/-- A matrix `psi_prior` is kept by the constructor and by every fit: after a constructor that is given one and any number of fits of arrays that find it in
place (`np.atleast_2d` of a matrix is that matrix), whether they return or raise, a write by the caller changes the prior of the object. -/
theorem C122_psi_refuted (es : List (Event C)) (o k : ℕ) (c : Cls) (mu : Bool) (W : Way C) (x : C) (a : ℕ)
    (h : ((Mem.empty : Mem C).runs es).env (.kept (k + 1)) = some a) (fits : List (ℕ × Bool × (ℕ → List ℕ) × (ℕ → ℕ) × Way C × Option ℕ))
    (hf : ∀ f ∈ fits, f.2.2.2.2.1.b [0] = false ∧ f.2.2.2.2.1.b [0, 1] = false) :
    (poke ((((Mem.empty : Mem C).runs es).run ((Call.mixCtor c mu true k).acts o W)).runs
      (fits.map (fun f => .call o (.fitGibbs c (.array f.1) f.2.1 f.2.2.1 f.2.2.2.1) f.2.2.2.2.1 f.2.2.2.2.2))) (.kept (k + 1)) x).get (.obj o .psi) = some x := by
  have hctor : ∀ z, (z = .obj o .psi ∨ z = .kept (k + 1)) → (((Mem.empty : Mem C).runs es).run ((Call.mixCtor c mu true k).acts o W)).env z = some a := by
    intro z hz
    have e1 : ∀ m : Mem C, ∀ z, (z = .obj o .psi ∨ z = .kept (k + 1)) →
        (m.run (ctor o c (W.sub 7) ++ (if mu then [.bind (.obj o .mu) (.kept k)] else []))).env z = m.env z := by
      intro m z hz
      refine env_run _ (all_append ?_ (all_ite (all_cons ?_ all_nil) all_nil))
      · rcases hz with rfl | rfl <;> (cases c <;> (simp only [ctor]; acts) <;> simp [Act.hits])
      · rcases hz with rfl | rfl <;> simp [Act.hits]
    have e2 : ∀ m : Mem C, (m.run [.new (.obj o .y) (W.fn 0), .new (.obj o .d) (W.fn 1), .new (.obj o .u) (W.fn 2), .new (.obj o .affinity) (W.fn 3),
        .new (.obj o .simParams) (W.fn 4), .new (.obj o .nGroups) (W.fn 5), .new (.obj o .nAtoms) (W.fn 6)]).env z = m.env z := by
      intro m
      refine env_run _ ?_
      rcases hz with rfl | rfl <;> (acts <;> simp [Act.hits])
    simp only [Call.acts, mixCtor, if_true]
    rw [run_append, e2, run_append]
    have e3 := e1 ((Mem.empty : Mem C).runs es) (.kept (k + 1)) (.inr rfl)
    rcases hz with rfl | rfl <;> simp [Mem.run, Mem.step] at e3 ⊢ <;> rw [← h, ← e3]
  have hfit : ∀ fits : List (ℕ × Bool × (ℕ → List ℕ) × (ℕ → ℕ) × Way C × Option ℕ), (∀ f ∈ fits, f.2.2.2.2.1.b [0] = false ∧ f.2.2.2.2.1.b [0, 1] = false) →
      ∀ z, (z = .obj o .psi ∨ z = .kept (k + 1)) → ∀ m : Mem C, (m.runs
      (fits.map (fun f => .call o (.fitGibbs c (.array f.1) f.2.1 f.2.2.1 f.2.2.2.1) f.2.2.2.2.1 f.2.2.2.2.2))).env z = m.env z := by
    intro fits hf z hz
    have hq : Quiet o z := by rcases hz with rfl | rfl <;> simp [Quiet]
    induction fits with
    | nil => intro m; rfl
    | cons f fits ih =>
      intro m
      obtain ⟨i, warm, ks, pos, W, cut⟩ := f
      obtain ⟨hb0, hb1⟩ := hf (i, warm, ks, pos, W, cut) (by simp)
      have hall : ∀ a ∈ fitGibbs o c (.array i) warm ks pos W, ¬ a.hits z := by
        have hb : W.br 0 = false := hb0
        have hb' : (W.sub 0).br 1 = false := hb1
        have h1 := fun c W => tail_quiet (C := C) hq c W
        have h2 := fun c W => complete_quiet (C := C) hq c W
        refine all_append (all_append ?_ (all_ite all_nil (all_append ?_ (updateMap_quiet hq _ _ _)))) (gibbsLoop_quiet hq _ _ _ _)
        · simp only [common, hb, Bool.false_eq_true, if_false]
          rcases hz with rfl | rfl <;> (acts <;> simp [Act.hits])
        · simp only [initGibbs, hb', Bool.false_eq_true, if_false]
          rcases hz with rfl | rfl <;> (acts <;> first | exact h1 _ _ | exact h2 _ _ | simp [Act.hits])
      have : (m.run (Event.call o (.fitGibbs c (.array i) warm ks pos) W cut).acts).env z = m.env z := by
        cases cut with
        | none => exact env_run _ hall
        | some l => exact env_run _ (fun a ha => hall a (List.mem_of_mem_take ha))
      exact (ih (fun g hg => hf g (by simp [hg])) _).trans this
  refine poke_alias (a := a) ?_ ?_ x <;> (rw [hfit fits hf _ (by simp)]; exact hctor _ (by simp))

/-- The prior mean is copied by every fit: after a fit that returns, a write by the caller into any of its arrays does not change it. -/
theorem C122_mu (es : List (Event C)) (o : ℕ) (c : Cls) (D : Data) (warm : Bool) (ks : ℕ → List ℕ) (pos : ℕ → ℕ) (W : Way C) (hv : W.b [0, 1] = false)
    (n : Name) (hn : Mine n) (x : C) :
    (poke (((Mem.empty : Mem C).runs es).run ((Call.fitGibbs c D warm ks pos).acts o W)) n x).get (.obj o .mu) =
      (((Mem.empty : Mem C).runs es).run ((Call.fitGibbs c D warm ks pos).acts o W)).get (.obj o .mu) := by
  have hs := sound_runs (sound_empty (C := C)) es
  have hgood := fitGibbs_good o c D warm ks pos W
  -- the statements after the copy
  obtain ⟨pre, post, hsplit, hhit⟩ : ∃ pre post : List (Act C), fitGibbs o c D warm ks pos W = pre ++ .new (.obj o .mu) (W.fn 1) :: post ∧
      (∀ s ∈ post, ¬ s.hits (.obj o .mu)) := by
    have hq : Quiet o (.obj o .mu) := by simp [Quiet]
    refine ⟨(match D with | .array _ => [.new (.obj o .y) (W.fn 0)] | .frame k => [.bind (.obj o .y) (.kept k)]),
      (if W.br 0 then [.new (.obj o .psi) (W.fn 2)] else []) ++ (if warm then [] else initGibbs o c (W.sub 0) ++ updateMap o c (ks 0) (W.sub 1)) ++
        each W 2 (List.range (W.ct 0)) (fun t W => gibbsStep o c (ks (t + 1)) (W.sub 0) ++ updateMap o c (ks (t + 1)) (W.sub 1) ++
          (if W.br 0 then save o (pos t) (ks (t + 1)) (W.sub 2) else [])), ?_, ?_⟩
    · cases D <;> simp [fitGibbs, common]
    · refine all_append (all_append (all_ite (all_cons (by simp [Act.hits]) all_nil) all_nil) (all_ite all_nil (all_append ?_ (updateMap_quiet hq _ _ _))))
        (gibbsLoop_quiet hq _ _ _ _)
      have hb : (W.sub 0).br 1 = false := hv
      simp only [initGibbs, hb, Bool.false_eq_true, if_false]
      acts <;> first | exact tail_quiet hq _ _ | exact complete_quiet hq _ _ | simp [Act.hits]
  have hpost : ∀ s ∈ post, s.Good := fun s h => hgood s (by rw [hsplit]; simp [h])
  have hpre : ∀ s ∈ pre, s.Ok := fun s h => (hgood s (by rw [hsplit]; simp [h])).1
  -- nobody else holds the copy
  have alone : ∀ (l : List (Act C)), (∀ s ∈ l, s.Good) → (∀ s ∈ l, ¬ s.hits (.obj o .mu)) → ∀ m : Mem C, Sound m →
      (∀ z a, z ≠ .obj o .mu → m.env (.obj o .mu) = some a → m.env z ≠ some a) →
      ∀ z a, z ≠ .obj o .mu → (m.run l).env (.obj o .mu) = some a → (m.run l).env z ≠ some a := by
    intro l
    induction l with
    | nil => intro _ _ m _ h; exact h
    | cons s l ih =>
      intro hl hh m hm h
      refine ih (fun b hb => hl b (by simp [hb])) (fun b hb => hh b (by simp [hb])) (m.step s) (sound_step hm s (hl s (by simp)).1) ?_
      intro z a hz ha
      have hsg := hl s (by simp)
      have hsh := hh s (by simp)
      rw [env_step s hsh] at ha
      cases s with
      | new y f =>
        simp only [Mem.step, Function.update_apply]
        split
        · have := hm.lt _ _ ha; simp only [ne_eq, Option.some.injEq]; omega
        · exact h z a hz ha
      | bind y y' =>
        simp only [Mem.step, Function.update_apply]
        split
        · exact h y' a (hsg.2 o) ha
        · exact h z a hz ha
      | move y y' =>
        simp only [Mem.step, Function.update_apply]
        split
        · simp
        split
        · exact h y' a (fun e => hsh (.inr e)) ha
        · exact h z a hz ha
      | store y f =>
        simp only [Mem.step]
        cases m.env y <;> exact h z a hz ha
  have hfinal : ∀ z a, z ≠ .obj o .mu → (((Mem.empty : Mem C).runs es).run (fitGibbs o c D warm ks pos W)).env (.obj o .mu) = some a →
      (((Mem.empty : Mem C).runs es).run (fitGibbs o c D warm ks pos W)).env z ≠ some a := by
    have e : pre ++ Act.new (.obj o .mu) (W.fn 1) :: post = (pre ++ [.new (.obj o .mu) (W.fn 1)]) ++ post := by simp
    rw [hsplit, e, run_append]
    have hsp := sound_run hs pre hpre
    have hsn : Sound (((Mem.empty : Mem C).runs es).run (pre ++ [.new (.obj o .mu) (W.fn 1)])) := by
      rw [run_append]; exact sound_step hsp (.new (.obj o .mu) (W.fn 1)) (by simp [Act.Ok, Name.role, Field.role])
    refine alone post hpost hhit _ hsn ?_
    intro z a hz ha
    rw [run_append] at ha ⊢
    simp only [Mem.run, List.foldl_cons, List.foldl_nil] at ha ⊢
    simp only [Mem.step, Function.update_self, Option.some.injEq] at ha
    simp only [Mem.step, Function.update_apply, if_neg hz, ← ha]
    intro hh
    have := hsp.lt _ _ hh
    simp [Mem.run] at this
  simp only [Call.acts, poke, Mem.step]
  have hne : n ≠ .obj o .mu := by rintro rfl; cases hn
  cases hb : (((Mem.empty : Mem C).runs es).run (fitGibbs o c D warm ks pos W)).env n with
  | none => rfl
  | some b =>
    simp only [Mem.get]
    cases hc : (((Mem.empty : Mem C).runs es).run (fitGibbs o c D warm ks pos W)).env (.obj o .mu) with
    | none => rfl
    | some d =>
      have : d ≠ b := by rintro rfl; exact hfinal n d hne hc hb
      simp [this]

/-! ### The lists of the getters -/

/-- The list obtained with `get_n_groups()` (the other two likewise) is that of the object, and remains so in every warm fit, whether it returns or raises:
the caller sees the entries of the later fit. -/
theorem C122_list_live (es : List (Event C)) (o k : ℕ) (c : Cls) (D : Data) (ks : ℕ → List ℕ) (pos : ℕ → ℕ) (V W : Way C) (cut : Option ℕ) :
    let m := (((Mem.empty : Mem C).runs es).run ((Call.getNGroups k).acts o V)).run (Event.call o (.fitGibbs c D true ks pos) W cut).acts
    m.get (.list k) = m.get (.obj o .nGroups) := by
  intro m
  have hall : ∀ z, (z = .obj o .nGroups ∨ z = .list k) → ∀ a ∈ fitGibbs o c D true ks pos W, ¬ a.hits z := by
    intro z hz
    have hq : Quiet o z := by rcases hz with rfl | rfl <;> simp [Quiet]
    refine all_append (all_append ?_ (by simp)) (gibbsLoop_quiet hq _ _ _ _)
    cases D <;> (simp only [common]; rcases hz with rfl | rfl <;> (acts <;> simp [Act.hits]))
  have henv : ∀ z, (z = .obj o .nGroups ∨ z = .list k) → m.env z = (((Mem.empty : Mem C).runs es).run ((Call.getNGroups k).acts o V)).env z := by
    intro z hz
    cases cut with
    | none => exact env_run _ (hall z hz)
    | some l => exact env_run _ (fun a ha => hall z hz a (List.mem_of_mem_take ha))
  have : m.env (.list k) = m.env (.obj o .nGroups) := by
    rw [henv _ (.inr rfl), henv _ (.inl rfl)]; simp [Call.acts, Mem.run, Mem.step]
  simp only [Mem.get, this]

private theorem run_cell_lt {m : Mem C} {a : ℕ} (l : List (Act C)) (hn : ∀ s ∈ l, ∀ x f, s ≠ .store x f) (ha : a < m.top) :
    (m.run l).cell a = m.cell a ∧ a < (m.run l).top := by
  induction l generalizing m with
  | nil => exact ⟨rfl, ha⟩
  | cons s l ih =>
    have h1 : (m.step s).cell a = m.cell a ∧ a < (m.step s).top := by
      cases s with
      | new x f => exact ⟨by simp [Mem.step, Nat.ne_of_lt ha], by simp [Mem.step]; omega⟩
      | bind x y => exact ⟨rfl, ha⟩
      | move x y => exact ⟨rfl, ha⟩
      | store x f => exact (hn _ (by simp) x f rfl).elim
    obtain ⟨h2, h3⟩ := ih (fun b hb => hn b (by simp [hb])) h1.2
    exact ⟨h2.trans h1.1, h3⟩

private theorem ledger_step {m : Mem C} {o : ℕ} {a : ℕ} (hlt : a < m.top)
    (hn : ∀ x, x.role = .own ∨ x.role = .ledger → m.env x = some a → x = .obj o .nGroups) (f : (Name → Option C) → C) :
    Frozen (m.step (.new (.obj o .nGroups) f)) a := by
  refine ⟨by simp [Mem.step]; omega, fun x hx => ?_⟩
  simp only [Mem.step, Function.update_apply]
  split
  · simp only [ne_eq, Option.some.injEq]; omega
  · rename_i e; exact fun he => e (hn x hx he)

/-- A cold fit makes new lists: the list obtained before it keeps its contents in the fit, whether it returns or raises, and in everything after it when it
got past its start. -/
theorem C122_list_cold (es : List (Event C)) (o k : ℕ) (c : Cls) (D : Data) (ks : ℕ → List ℕ) (pos : ℕ → ℕ) (V W : Way C) (cut : Option ℕ) (a : ℕ)
    (h : (((Mem.empty : Mem C).runs es).run ((Call.getNGroups k).acts o V)).env (.list k) = some a) :
    ((((Mem.empty : Mem C).runs es).run ((Call.getNGroups k).acts o V)).run (Event.call o (.fitGibbs c D false ks pos) W cut).acts).cell a =
      (((Mem.empty : Mem C).runs es).run ((Call.getNGroups k).acts o V)).cell a ∧
    (cut = none → ∀ es', (((((Mem.empty : Mem C).runs es).run ((Call.getNGroups k).acts o V)).run (Event.call o (.fitGibbs c D false ks pos) W cut).acts).runs es').cell a =
      (((Mem.empty : Mem C).runs es).run ((Call.getNGroups k).acts o V)).cell a) := by
  set m := ((Mem.empty : Mem C).runs es).run ((Call.getNGroups k).acts o V) with hm
  have hs : Sound m := sound_run (sound_runs sound_empty es) _ (fun a ha => (call_good o _ _ a ha).1)
  have hng : m.env (.obj o .nGroups) = some a := by
    rw [← h]; simp [hm, Call.acts, Mem.run, Mem.step]
  have hlt := hs.lt _ _ h
  -- the statements up to the new lists
  obtain ⟨pre, post, hsplit, hpre, hpreq, hok, hhit⟩ : ∃ pre post : List (Act C), fitGibbs o c D false ks pos W = pre ++ .new (.obj o .nGroups) ((W.sub 0).fn 1) :: post ∧
      (∀ s ∈ pre, ∀ x f, s ≠ .store x f) ∧ (∀ s ∈ pre, s.Ok) ∧ (∀ s ∈ post, s.Ok) ∧ (∀ s ∈ pre, ¬ s.hits (.obj o .nGroups)) := by
    have hgood := fun a ha => (fitGibbs_good o c D false ks pos W a ha).1
    have e : fitGibbs o c D false ks pos W = (common o D W ++ [.new (.obj o .simParams) ((W.sub 0).fn 0)]) ++
        .new (.obj o .nGroups) ((W.sub 0).fn 1) :: (List.drop (common o D W).length (fitGibbs o c D false ks pos W)).drop 2 := by
      simp [fitGibbs, initGibbs]
    refine ⟨_, _, e, ?_, ?_, ?_, ?_⟩
    · refine all_append ?_ (all_cons (by simp) all_nil)
      cases D <;> (simp only [common]; acts <;> simp)
    · exact fun s hs => hgood s (by rw [e]; exact List.mem_append_left _ hs)
    · exact fun s hs => hgood s (by rw [e]; exact List.mem_append_right _ (List.mem_cons_of_mem _ hs))
    · refine all_append ?_ (all_cons (by simp [Act.hits]) all_nil)
      cases D <;> (simp only [common]; acts <;> simp [Act.hits])
  have hfreeze : Frozen (m.run (pre ++ [.new (.obj o .nGroups) ((W.sub 0).fn 1)])) a ∧
      (m.run (pre ++ [.new (.obj o .nGroups) ((W.sub 0).fn 1)])).cell a = m.cell a := by
    rw [run_append]
    obtain ⟨h1, h2⟩ := run_cell_lt pre hpre hlt
    have hsp := sound_run hs pre hpreq
    refine ⟨ledger_step h2 (fun x hx hxa => ?_) _, ?_⟩
    · have hg : (m.run pre).env (.obj o .nGroups) = some a := by rw [env_run pre hhit, hng]
      by_contra hne
      have := hsp.may _ _ _ hne hxa hg
      rcases hx with h1 | h1 <;> (rw [h1] at this; simp [Name.role, Field.role, May] at this)
    · change ((m.run pre).step (.new (.obj o .nGroups) ((W.sub 0).fn 1))).cell a = m.cell a
      simp only [Mem.step, Function.update_apply, if_neg (Nat.ne_of_lt h2)]; exact h1
  have hfull : Frozen (m.run (fitGibbs o c D false ks pos W)) a ∧ (m.run (fitGibbs o c D false ks pos W)).cell a = m.cell a := by
    have e : pre ++ Act.new (.obj o .nGroups) ((W.sub 0).fn 1) :: post = (pre ++ [.new (.obj o .nGroups) ((W.sub 0).fn 1)]) ++ post := by simp
    rw [hsplit, e, run_append]
    obtain ⟨h1, h2⟩ := frozen_run hfreeze.1 post hok
    exact ⟨h1, h2.trans hfreeze.2⟩
  refine ⟨?_, ?_⟩
  · cases cut with
    | none => exact hfull.2
    | some l =>
      show (m.run ((fitGibbs o c D false ks pos W).take l)).cell a = m.cell a
      rw [hsplit]
      by_cases hl : l ≤ pre.length
      · rw [List.take_append_of_le_length hl]
        exact (run_cell_lt _ (fun s hs => hpre s (List.mem_of_mem_take hs)) hlt).1
      · obtain ⟨d, rfl⟩ : ∃ d, l = pre.length + (d + 1) := ⟨l - pre.length - 1, by omega⟩
        rw [List.take_length_add_append, List.take_succ_cons]
        have e : pre ++ Act.new (.obj o .nGroups) ((W.sub 0).fn 1) :: post.take d = (pre ++ [.new (.obj o .nGroups) ((W.sub 0).fn 1)]) ++ post.take d := by simp
        rw [e, run_append]
        exact (frozen_run hfreeze.1 _ (fun s hs => hok s (List.mem_of_mem_take hs))).2.trans hfreeze.2
  · rintro rfl es'
    exact (frozen_runs hfull.1 es').2.trans hfull.2

/-- A run of a fit with one state per call: the entries appended to `n_groups` are ones, every other array is empty. -/
def oneState : Way (List ℕ) :=
  ⟨fun p r => if p = [2, 0, 2, 1] then (r (.obj 0 .nGroups)).getD [] ++ [1] else [], fun p => p = [2, 0, 0], fun p => if p = [0] then 1 else 0⟩

/-- A program: constructor, a cold fit to the caller's array 0, `get_n_groups()`. -/
def program : List (Event (List ℕ)) :=
  [.makeGiven 0 [5, 7], .call 0 (.mixCtor .dp false false 0) oneState none,
   .call 0 (.fitGibbs .dp (.array 0) false (fun _ => [0]) (fun _ => 0)) oneState none, .call 0 (.getNGroups 3) oneState none, .call 0 (.getSaved 0 0) oneState none]

/-- The list obtained after the first fit has one entry, and two after a warm fit. -/
theorem C122_list_refuted :
    ((Mem.empty : Mem (List ℕ)).runs program).get (.list 3) = some [1] ∧
    (((Mem.empty : Mem (List ℕ)).runs program).runs [.call 0 (.fitGibbs .dp (.array 0) true (fun _ => [0]) (fun _ => 1)) oneState none]).get (.list 3) = some [1, 1] := by
  decide +kernel

/-! ### The hypotheses are met -/

/-- The program of `C122_list_refuted` holds data, weights, a saved state and results. -/
example : (((Mem.empty : Mem (List ℕ)).runs program).env (.obj 0 .w)).isSome ∧ (((Mem.empty : Mem (List ℕ)).runs program).env (.obj 0 (.savedD 0))).isSome ∧
    ((Mem.empty : Mem (List ℕ)).runs program).env (.got 2) = ((Mem.empty : Mem (List ℕ)).runs program).env (.obj 0 (.savedD 0)) ∧
    ((Mem.empty : Mem (List ℕ)).runs program).get (.given 0) = some [5, 7] := by
  decide +kernel

/-- The array of a saved state is the array of labels of the object at that moment: there is something to protect. -/
example : ((Mem.empty : Mem (List ℕ)).runs program).env (.obj 0 (.savedD 0)) = ((Mem.empty : Mem (List ℕ)).runs program).env (.obj 0 .d) := by
  decide +kernel

/-- A matrix for `fit_variational` and a prior matrix can be there. -/
example : ((Mem.empty : Mem (List ℕ)).runs [.makeKept 0 [1], .makeKept 1 [2]]).env (.kept 1) = some 1 := by decide +kernel

end Verif.Memory
