import Verif.Model.Memory

/-! Facts about the memory model: which statements the methods contain, and what sequences of such statements keep. -/

set_option linter.unusedSectionVars false

namespace Verif.Memory

variable {C : Type}

/-- The role of a name: written into in place and held by nobody else (`own`), possibly held under several names and never written into (`shared`), a list
that is appended to and handed out (`ledger`), and a variable of the caller for such a list (`watch`). -/
inductive Role | own | shared | ledger | watch
  deriving DecidableEq

/-- The role of each attribute. -/
def Field.role (f : Field) : Role :=
  if f = .bernoullis ∨ f = .dBase ∨ f = .countBase ∨ f = .varParams ∨ f = .affinity then .own
  else if f = .simParams ∨ f = .nGroups ∨ f = .nAtoms then .ledger else .shared

/-- The role of each name. -/
def Name.role : Name → Role
  | .obj _ f => f.role
  | .tmp _ _ => .own
  | .kept _ => .shared
  | .given _ => .own
  | .got _ => .shared
  | .made _ => .own
  | .list _ => .watch

/-- The statements that respect the roles. -/
def Act.Ok : Act C → Prop
  | .new x _ => x.role ≠ .watch
  | .bind x y => (x.role = .shared ∧ y.role = .shared) ∨ (x.role = .watch ∧ y.role = .ledger)
  | .move x y => x ≠ y ∧ (x.role = .shared ∨ x.role = .own) ∧ y.role = .own
  | .store x _ => x.role = .own ∨ x.role = .ledger

/-- Variables of the caller. -/
def Name.ofCaller : Name → Prop
  | .kept _ | .given _ | .got _ | .made _ | .list _ => True
  | _ => False

/-- Statements of the library do not write into the arrays of the caller and do not take them over, and do not hand on the prior mean. -/
def Act.Lib : Act C → Prop
  | .store x _ => ¬ x.ofCaller
  | .bind _ y => ∀ o, y ≠ .obj o .mu
  | .move x y => ¬ x.ofCaller ∧ ¬ y.ofCaller
  | _ => True

/-- Both. -/
def Act.Good (a : Act C) : Prop := a.Ok ∧ a.Lib

theorem all_loop {P : Act C → Prop} {W : Way C} {k : ℕ} {body : Way C → List (Act C)} (h : ∀ W, ∀ a ∈ body W, P a) : ∀ a ∈ loop W k body, P a := by
  intro a ha
  obtain ⟨i, -, hi⟩ := List.mem_flatMap.1 ha
  exact h _ a hi

theorem all_each {P : Act C → Prop} {W : Way C} {k : ℕ} {ks : List ℕ} {body : ℕ → Way C → List (Act C)} (h : ∀ j W, ∀ a ∈ body j W, P a) :
    ∀ a ∈ each W k ks body, P a := by
  intro a ha
  obtain ⟨i, -, hi⟩ := List.mem_flatMap.1 ha
  exact h _ _ a hi

theorem all_append {P : Act C → Prop} {l r : List (Act C)} (h : ∀ a ∈ l, P a) (h' : ∀ a ∈ r, P a) : ∀ a ∈ l ++ r, P a := by
  intro a ha; rcases List.mem_append.1 ha with h1 | h1
  exacts [h a h1, h' a h1]

theorem all_ite {P : Act C → Prop} {b : Bool} {l r : List (Act C)} (h : ∀ a ∈ l, P a) (h' : ∀ a ∈ r, P a) : ∀ a ∈ (if b then l else r), P a := by
  cases b <;> simpa

theorem all_nil {P : Act C → Prop} : ∀ a ∈ ([] : List (Act C)), P a := by simp

theorem all_cons {P : Act C → Prop} {b : Act C} {l : List (Act C)} (h : P b) (h' : ∀ a ∈ l, P a) : ∀ a ∈ b :: l, P a := by
  intro a ha; rcases List.mem_cons.1 ha with rfl | h1
  exacts [h, h' a h1]

theorem all_binds {P : Act C → Prop} {ks : List ℕ} {f g : ℕ → Name} (h : ∀ j, P (.bind (f j) (g j))) : ∀ a ∈ ks.map (fun j => Act.bind (f j) (g j)), P a := by
  intro a ha; obtain ⟨j, -, rfl⟩ := List.mem_map.1 ha; exact h j

/-- Goes through the statements of a method one by one. -/
macro "acts" : tactic => `(tactic| with_reducible (repeat' (first
  | exact all_nil | refine all_cons ?_ ?_ | refine all_append ?_ ?_ | refine all_ite ?_ ?_ | refine all_loop (fun _ => ?_)
  | refine all_each (fun _ _ => ?_) | refine all_binds (fun _ => ?_))))

/-- One statement. -/
macro "one" : tactic => `(tactic| (simp [Act.Good, Act.Ok, Act.Lib, Name.role, Field.role, Name.ofCaller]; done))

variable (o : ℕ)

theorem ctor_good (c : Cls) (W : Way C) : ∀ a ∈ ctor o c W, a.Good := by
  cases c <;> (simp only [ctor]; acts) <;> one

theorem complete_good (c : Cls) (W : Way C) : ∀ a ∈ complete o c W, a.Good := by
  cases c <;> (simp only [complete]; acts) <;> one

theorem bernoulliPath_good (W : Way C) : ∀ a ∈ bernoulliPath o W, a.Good := by
  simp only [bernoulliPath]; acts <;> one

theorem random_good (c : Cls) (W : Way C) : ∀ a ∈ random o c W, a.Good := by
  cases c <;> (simp only [random]; acts) <;> first | one | exact complete_good o _ _ | exact bernoulliPath_good o _

theorem tail_good (c : Cls) (W : Way C) : ∀ a ∈ tail o c W, a.Good := by
  simp only [tail]; acts <;> first | exact random_good o _ _ | exact complete_good o _ _

theorem fitLabels_good (W : Way C) : ∀ a ∈ fitLabels o W, a.Good := by
  exact all_cons (by one) all_nil

theorem fitMatrix_good (c : Cls) (q : Name) (hq : q.role = .shared) (hq' : ∀ o, q ≠ .obj o .mu) (W : Way C) : ∀ a ∈ fitMatrix o c q W, a.Good := by
  cases c <;> (simp only [fitMatrix]; acts) <;> first | exact ⟨.inl ⟨rfl, hq⟩, hq'⟩ | one

theorem meanLogPd_good (c : Cls) (q : Name) (hq : q.role = .shared) (hq' : ∀ o, q ≠ .obj o .mu) : ∀ a ∈ (meanLogPd o c q : List (Act C)), a.Good := by
  unfold meanLogPd; split
  · exact all_cons ⟨.inl ⟨rfl, hq⟩, hq'⟩ all_nil
  · exact all_nil

theorem mixCtor_good (c : Cls) (a b : Bool) (k : ℕ) (W : Way C) : ∀ x ∈ mixCtor o c a b k W, x.Good := by
  simp only [mixCtor]; acts <;> first | one | exact ctor_good o _ _

theorem common_good (D : Data) (W : Way C) : ∀ a ∈ common o D W, a.Good := by
  cases D <;> (simp only [common]; acts) <;> one

theorem save_good (i : ℕ) (ks : List ℕ) (W : Way C) : ∀ a ∈ save o i ks W, a.Good := by
  simp only [save]; acts <;> one

theorem updateMap_good (c : Cls) (ks : List ℕ) (W : Way C) : ∀ a ∈ updateMap o c ks W, a.Good := by
  simp only [updateMap]; acts <;> first | one | exact complete_good o _ _

theorem gibbsStep_good (c : Cls) (ks : List ℕ) (W : Way C) : ∀ a ∈ gibbsStep o c ks W, a.Good := by
  simp only [gibbsStep]; acts <;> first | one | exact fitLabels_good o _ | exact random_good o _ _ | exact tail_good o _ _

theorem updateVarD_good (W : Way C) : ∀ a ∈ updateVarD o W, a.Good := by
  simp only [updateVarD]; acts <;> one

theorem updateVarTheta_good (W : Way C) : ∀ a ∈ updateVarTheta o W, a.Good := by
  exact all_each (fun _ _ => all_cons (by one) all_nil)

theorem initVar_good (c : Cls) (W : Way C) : ∀ a ∈ initVar o c W, a.Good := by
  simp only [initVar, initVar.initFit]
  acts <;> first | one | exact updateVarD_good o _ | exact updateVarTheta_good o _ | exact fitMatrix_good o c _ rfl (by simp) _

theorem varLoop_good (c : Cls) (W : Way C) : ∀ a ∈ varLoop o c W, a.Good := by
  simp only [varLoop]
  acts <;> first | exact updateVarD_good o _ | exact updateVarTheta_good o _ | exact fitMatrix_good o c _ rfl (by simp) _ | exact meanLogPd_good o c _ rfl (by simp)

theorem fitVar_good (c : Cls) (D : Data) (warm : Bool) (W : Way C) : ∀ a ∈ fitVar o c D warm W, a.Good := by
  simp only [fitVar]; acts <;> first | exact common_good o _ _ | exact initVar_good o _ _ | exact varLoop_good o _ _

theorem initGibbs_good (c : Cls) (W : Way C) : ∀ a ∈ initGibbs o c W, a.Good := by
  simp only [initGibbs]
  acts <;> first | one | exact tail_good o _ _ | exact complete_good o _ _ | exact common_good o _ _ | exact initVar_good o _ _ | exact varLoop_good o _ _

theorem fitGibbs_good (c : Cls) (D : Data) (warm : Bool) (ks : ℕ → List ℕ) (pos : ℕ → ℕ) (W : Way C) : ∀ a ∈ fitGibbs o c D warm ks pos W, a.Good := by
  simp only [fitGibbs]
  acts <;> first | exact common_good o _ _ | exact initGibbs_good o _ _ | exact updateMap_good o _ _ _ | exact gibbsStep_good o _ _ _ | exact save_good o _ _ _

/-- Every statement of every method is of the four kinds. -/
theorem call_good (c : Call) (W : Way C) : ∀ a ∈ c.acts o W, a.Good := by
  cases c with
  | ctor c => exact ctor_good o c W
  | fit k => exact fitLabels_good o W
  | reset => exact fitLabels_good o W
  | random c k => exact all_append (random_good o c W) (all_cons (by one) all_nil)
  | complete c k =>
    refine all_append (complete_good o c W) ?_
    split
    · exact all_nil
    · exact all_cons (by one) all_nil
  | tail c k => exact all_append (tail_good o c W) (all_cons (by one) all_nil)
  | getWeights k => exact all_cons (by one) all_nil
  | result k => exact all_cons (by one) all_nil
  | assignationLogLik c => exact complete_good o c W
  | fitVariational c k => exact fitMatrix_good o c _ rfl (by simp) W
  | meanLogPd c k => exact meanLogPd_good o c _ rfl (by simp)
  | mixCtor c a b k => exact mixCtor_good o c a b k W
  | fitGibbs c D warm ks pos => exact fitGibbs_good o c D warm ks pos W
  | fitVar c D warm => exact fitVar_good o c D warm W
  | getSimParams k => exact all_cons (by one) all_nil
  | getSaved i k => simp only [Call.acts]; acts <;> one
  | getNGroups k => exact all_cons (by one) all_nil
  | getNTheta k => exact all_cons (by one) all_nil

theorem event_ok (e : Event C) : ∀ a ∈ e.acts, a.Ok := by
  cases e with
  | call o c W cut =>
    cases cut with
    | none => exact fun a ha => (call_good o c W a ha).1
    | some l => exact fun a ha => (call_good o c W a (List.mem_of_mem_take ha)).1
  | makeKept k x => simp [Event.acts, Act.Ok, Name.role]
  | makeGiven k x => simp [Event.acts, Act.Ok, Name.role]
  | writeGiven k x => simp [Event.acts, Act.Ok, Name.role]
  | writeMade k x => simp [Event.acts, Act.Ok, Name.role]

/-! ### What is kept -/

/-- Which two names may hold one array. -/
def May : Role → Role → Prop
  | .shared, .shared | .ledger, .watch | .watch, .ledger | .watch, .watch => True
  | _, _ => False

/-- Arrays exist, and two names hold the same array only if their roles allow it. -/
structure Sound (m : Mem C) : Prop where
  lt : ∀ x a, m.env x = some a → a < m.top
  full : ∀ a, a < m.top → (m.cell a).isSome
  may : ∀ x y a, x ≠ y → m.env x = some a → m.env y = some a → May x.role y.role

theorem sound_empty : Sound (Mem.empty : Mem C) := ⟨by simp [Mem.empty], by simp [Mem.empty], by simp [Mem.empty]⟩

theorem sound_step {m : Mem C} (h : Sound m) (a : Act C) (ha : a.Ok) : Sound (m.step a) := by
  cases a with
  | new x f =>
    refine ⟨fun z b hz => ?_, fun b hb => ?_, fun z y b hne hz hy => ?_⟩
    · simp only [Mem.step, Function.update_apply] at hz ⊢
      split at hz
      · simp only [Option.some.injEq] at hz; omega
      · exact Nat.lt_succ_of_lt (h.lt _ _ hz)
    · simp only [Mem.step, Function.update_apply] at hb ⊢
      split
      · rfl
      · exact h.full _ (by omega)
    · simp only [Mem.step, Function.update_apply] at hz hy
      split at hz <;> split at hy
      · simp_all
      · simp only [Option.some.injEq] at hz; have := h.lt _ _ hy; omega
      · simp only [Option.some.injEq] at hy; have := h.lt _ _ hz; omega
      · exact h.may _ _ _ hne hz hy
  | bind x y =>
    have key : ∀ z b, z ≠ x → m.env z = some b → m.env y = some b → May x.role z.role := by
      intro z b hzx hz hy
      by_cases hzy : z = y
      · subst hzy; rcases ha with ⟨h1, h2⟩ | ⟨h1, h2⟩ <;> simp [h1, h2, May]
      · have := h.may _ _ _ hzy hz hy
        rcases ha with ⟨h1, h2⟩ | ⟨h1, h2⟩ <;> (rw [h2] at this; rw [h1]; cases hr : z.role <;> simp_all [May])
    have sym : ∀ r s, May r s → May s r := by intro r s; cases r <;> cases s <;> simp [May]
    refine ⟨fun z b hz => ?_, fun b hb => h.full b hb, fun z z' b hne hz hz' => ?_⟩
    · simp only [Mem.step, Function.update_apply] at hz ⊢
      split at hz <;> exact h.lt _ _ hz
    · simp only [Mem.step, Function.update_apply] at hz hz'
      split at hz <;> split at hz'
      · simp_all
      · rename_i e1 e2; subst e1; exact key z' b e2 hz' hz
      · rename_i e1 e2; subst e2; exact sym _ _ (key z b e1 hz hz')
      · exact h.may _ _ _ hne hz hz'
  | move x y =>
    obtain ⟨hxy, hx, hy⟩ := ha
    have key : ∀ z b, z ≠ y → m.env z = some b → m.env y = some b → False := by
      intro z b hzy hz hyb
      have := h.may _ _ _ hzy hz hyb
      rw [hy] at this; cases hr : z.role <;> simp_all [May]
    refine ⟨fun z b hz => ?_, fun b hb => h.full b hb, fun z z' b hne hz hz' => ?_⟩
    · simp only [Mem.step, Function.update_apply] at hz ⊢
      split at hz
      · simp at hz
      · split at hz <;> exact h.lt _ _ hz
    · simp only [Mem.step, Function.update_apply] at hz hz'
      split at hz
      · simp at hz
      split at hz'
      · simp at hz'
      rename_i e1 e2
      split at hz <;> split at hz'
      · simp_all
      · exact (key z' b e2 hz' hz).elim
      · exact (key z b e1 hz hz').elim
      · exact h.may _ _ _ hne hz hz'
  | store x f =>
    simp only [Mem.step]
    cases hx : m.env x with
    | none => exact h
    | some b =>
      refine ⟨h.lt, fun d hd => ?_, h.may⟩
      simp only [Function.update_apply]
      split
      · rfl
      · exact h.full d hd

theorem sound_run {m : Mem C} (h : Sound m) (l : List (Act C)) (hl : ∀ a ∈ l, a.Ok) : Sound (m.run l) := by
  induction l generalizing m with
  | nil => exact h
  | cons a l ih => exact ih (sound_step h a (hl a (by simp))) (fun b hb => hl b (by simp [hb]))

theorem sound_runs {m : Mem C} (h : Sound m) (es : List (Event C)) : Sound (m.runs es) := by
  induction es generalizing m with
  | nil => exact h
  | cons e es ih => exact ih (sound_run h _ (event_ok e))

/-- An array into which no statement will write any more: no name through which one writes holds it. -/
def Frozen (m : Mem C) (a : ℕ) : Prop := a < m.top ∧ ∀ x, x.role = .own ∨ x.role = .ledger → m.env x ≠ some a

theorem frozen_step {m : Mem C} {a : ℕ} (h : Frozen m a) (s : Act C) (hs : s.Ok) : Frozen (m.step s) a ∧ (m.step s).cell a = m.cell a := by
  obtain ⟨hlt, hn⟩ := h
  cases s with
  | new x f =>
    refine ⟨⟨by simp [Mem.step]; omega, fun z hz => ?_⟩, ?_⟩
    · simp only [Mem.step, Function.update_apply]
      split
      · simp only [ne_eq, Option.some.injEq]; omega
      · exact hn z hz
    · simp only [Mem.step, Function.update_apply, if_neg (Nat.ne_of_lt hlt)]
  | bind x y =>
    refine ⟨⟨hlt, fun z hz => ?_⟩, rfl⟩
    simp only [Mem.step, Function.update_apply]
    split
    · rename_i e; subst e
      rcases hs with ⟨h1, -⟩ | ⟨h1, -⟩ <;> simp [h1] at hz
    · exact hn z hz
  | move x y =>
    refine ⟨⟨hlt, fun z hz => ?_⟩, rfl⟩
    simp only [Mem.step, Function.update_apply]
    split
    · simp
    · split
      · exact hn y (.inl hs.2.2)
      · exact hn z hz
  | store x f =>
    simp only [Mem.step]
    cases hx : m.env x with
    | none => exact ⟨⟨hlt, hn⟩, rfl⟩
    | some b =>
      have hb : b ≠ a := fun e => hn x hs (by rw [hx, e])
      exact ⟨⟨hlt, hn⟩, by simp only [Function.update_apply, if_neg hb.symm]⟩

theorem frozen_run {m : Mem C} {a : ℕ} (h : Frozen m a) (l : List (Act C)) (hl : ∀ s ∈ l, s.Ok) : Frozen (m.run l) a ∧ (m.run l).cell a = m.cell a := by
  induction l generalizing m with
  | nil => exact ⟨h, rfl⟩
  | cons s l ih =>
    obtain ⟨h1, h2⟩ := frozen_step h s (hl s (by simp))
    obtain ⟨h3, h4⟩ := ih h1 (fun b hb => hl b (by simp [hb]))
    exact ⟨h3, h4.trans h2⟩

theorem frozen_runs {m : Mem C} {a : ℕ} (h : Frozen m a) (es : List (Event C)) : Frozen (m.runs es) a ∧ (m.runs es).cell a = m.cell a := by
  induction es generalizing m with
  | nil => exact ⟨h, rfl⟩
  | cons e es ih =>
    obtain ⟨h1, h2⟩ := frozen_run h _ (event_ok e)
    obtain ⟨h3, h4⟩ := ih h1
    exact ⟨h3, h4.trans h2⟩

/-- What a shared name holds is never written into. -/
theorem shared_frozen {m : Mem C} (h : Sound m) {x : Name} (hx : x.role = .shared) {a : ℕ} (ha : m.env x = some a) : Frozen m a := by
  refine ⟨h.lt _ _ ha, fun z hz hza => ?_⟩
  have hne : x ≠ z := by rintro rfl; simp [hx] at hz
  have := h.may _ _ _ hne ha hza
  rw [hx] at this
  rcases hz with h1 | h1 <;> simp [h1, May] at this

end Verif.Memory
