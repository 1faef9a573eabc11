import Verif.Props.Endless
/-
Endless executions exist: executions driven by a strategy, a function that says what is to happen next. (For C44 and the weak-memory form of C09: their
hypotheses are met by executions in which a lot happens.)
-/
set_option linter.unusedSectionVars false
namespace Contrie
variable {K P : Type} [DecidableEq K]

/-! ### Weak memory, arbitrary user code -/

/-- What the strategy wants, if it is possible; otherwise nothing happens. Nothing is destroyed. -/
def wpick (s : CState K P) (x : WLabel K P) : WLabel K P :=
  match x.1 with
  | .free _ => (.idle, noAnswers, 0)
  | _ => if x.1.enabledb s ∧ (wstep s x.2.1 x.2.2 x.1).isSome then x else (.idle, noAnswers, 0)

theorem wpick_ok (s : CState K P) (x : WLabel K P) : (∀ a, (wpick s x).1 ≠ .free a) ∧ (wpick s x).1.enabledb s = true ∧
    (wstep s (wpick s x).2.1 (wpick s x).2.2 (wpick s x).1).isSome = true := by
  have hi : (∀ a, (CLabel.idle : CLabel K P) ≠ .free a) ∧ (CLabel.idle : CLabel K P).enabledb s = true ∧
      (wstep s noAnswers 0 (.idle : CLabel K P)).isSome = true := ⟨fun a => by simp, rfl, rfl⟩
  unfold wpick
  split
  · exact hi
  · next hx =>
    split
    · next h => exact ⟨hx, h.1, h.2⟩
    · exact hi

theorem wpick_eq {s : CState K P} {x : WLabel K P} (hx : ∀ a, x.1 ≠ .free a) (h1 : x.1.enabledb s = true)
    (h2 : (wstep s x.2.1 x.2.2 x.1).isSome = true) : wpick s x = x := by
  unfold wpick
  split
  · next a e => exact absurd e (hx a)
  · simp [h1, h2]

/-- The states the strategy leads to. -/
def wstrat (f : Nat → CState K P → WLabel K P) : Nat → CState K P
  | 0 => CState.init
  | i + 1 =>
    let s := wstrat f i
    let x := wpick s (f i s)
    match wstep s x.2.1 x.2.2 x.1 with
    | some (s', _) => s'
    | none => s

/-- The execution driven by a strategy. -/
def WEndless.ofStrategy (f : Nat → CState K P → WLabel K P) : WEndless K P where
  st := wstrat f
  lab := fun i => (wpick (wstrat f i) (f i (wstrat f i))).1
  ans := fun i => (wpick (wstrat f i) (f i (wstrat f i))).2.1
  hash := fun i => (wpick (wstrat f i) (f i (wstrat f i))).2.2
  ev := fun i => match wstep (wstrat f i) (wpick (wstrat f i) (f i (wstrat f i))).2.1 (wpick (wstrat f i) (f i (wstrat f i))).2.2
      (wpick (wstrat f i) (f i (wstrat f i))).1 with
    | some (_, e) => e
    | none => none
  init := rfl
  step := by
    intro i
    have h := (wpick_ok (wstrat f i) (f i (wstrat f i))).2.2
    cases he : wstep (wstrat f i) (wpick (wstrat f i) (f i (wstrat f i))).2.1 (wpick (wstrat f i) (f i (wstrat f i))).2.2
        (wpick (wstrat f i) (f i (wstrat f i))).1 with
    | none => rw [he] at h; cases h
    | some x => simp only [wstrat, he]
  enabled := fun i => enabled_of_check (wpick_ok (wstrat f i) (f i (wstrat f i))).2.1
  gc := fun i a e => absurd e ((wpick_ok (wstrat f i) (f i (wstrat f i))).1 a)

/-- Answers that change all the time: nonsense. -/
def exLies (i : Nat) : Answers (Nat × Nat) :=
  ⟨fun _ => decide (i % 4 ≠ 0), fun _ _ => decide (i % 3 = 0), fun _ _ => decide (i % 13 = 12), fun p => BitVec.ofNat 64 (p.2 * p.2 + i % 2),
    BitVec.ofNat 64 i, fun n p => (p.1 + n, p.2 + i)⟩

/-- Two sessions insert and remove forever, each whenever it is its turn; one turn each. Whoever can still see the memory as it was one instant ago does so. User
code gives lies that change all the time. -/
def exChurn (i : Nat) (s : CState Nat (Nat × Nat)) : WLabel Nat (Nat × Nat) :=
  if (s.thr 0).pin.isNone then (.pin 0, noAnswers, 0)
  else if (s.thr 1).pin.isNone then (.pin 1, noAnswers, 0)
  else if (s.thr (i % 2)).run.isNone then (.call (i % 2) (.op (if i % 5 < 2 then .remove (i % 3) else .insert (i / 3, i))), noAnswers, BitVec.ofNat 64 (i * i))
  else if (CLabel.tick (i % 2) false (i - 1)).enabledb s then (.tick (i % 2) false (i - 1), exLies i, 0)
  else (.tick (i % 2) false i, exLies i, 0)

/-- How far the two sessions are from both being in a call. -/
def CState.off (s : CState K P) : Nat :=
  (if (s.thr 0).pin.isNone then 4 else 0) + (if (s.thr 1).pin.isNone then 4 else 0) +
  (if (s.thr 0).run.isNone then 1 else 0) + (if (s.thr 1).run.isNone then 1 else 0)

def exChurning : WEndless Nat (Nat × Nat) := .ofStrategy exChurn

theorem exChurning_lab {i : Nat} {x : WLabel Nat (Nat × Nat)} (h : exChurn i (exChurning.st i) = x) (hx : ∀ a, x.1 ≠ .free a)
    (h1 : x.1.enabledb (exChurning.st i) = true) (h2 : (wstep (exChurning.st i) x.2.1 x.2.2 x.1).isSome = true) : exChurning.lab i = x.1 := by
  show (wpick (exChurning.st i) (exChurn i (exChurning.st i))).1 = x.1
  rw [h, wpick_eq hx h1 h2]

theorem isNone_eq {α : Type} {o : Option α} (h : o.isNone = true) : o = none := by cases o <;> simp_all

/-- Every step is a step of a call, or brings the sessions nearer to being in a call. -/
theorem exChurning_goes (i : Nat) : (∃ t τ, t < 2 ∧ exChurning.lab i = .tick t false τ) ∨
    ((∀ t w τ, exChurning.lab i ≠ .tick t w τ) ∧ (exChurning.st (i + 1)).off < (exChurning.st i).off) := by
  have hb := (exChurning.upto i).base (n := i) (Nat.le_refl _)
  have hck : (exChurning.st i).m.clock = i := hb.clock
  have hf : ∀ t, ((exChurning.st i).thr t).failed = none := fun t => C43_no_failure (exChurning.upto i) (n := i) (Nat.le_refl _) t
  have hst := exChurning.step i
  have pin : ∀ t, t = 0 ∨ t = 1 → ((exChurning.st i).thr t).pin.isNone = true → exChurn i (exChurning.st i) = (.pin t, noAnswers, 0) →
      (∃ t τ, t < 2 ∧ exChurning.lab i = .tick t false τ) ∨
      ((∀ t w τ, exChurning.lab i ≠ .tick t w τ) ∧ (exChurning.st (i + 1)).off < (exChurning.st i).off) := by
    intro t ht hp h
    right
    have hp' := isNone_eq hp
    have hl := exChurning_lab h (by simp) rfl (by simp only [wstep, hp', hf]; rfl)
    refine ⟨by rw [hl]; simp, ?_⟩
    rw [hl] at hst
    simp only [wstep, hp', hf, Option.some.injEq, Prod.mk.injEq] at hst
    rw [← hst.1]
    rcases ht with rfl | rfl <;> simp [CState.off, CState.next, upd, hp'] <;> omega
  by_cases c0 : ((exChurning.st i).thr 0).pin.isNone = true
  · exact pin 0 (Or.inl rfl) c0 (by simp [exChurn, c0])
  by_cases c1 : ((exChurning.st i).thr 1).pin.isNone = true
  · exact pin 1 (Or.inr rfl) c1 (by simp only [exChurn, c0, c1]; rfl)
  have ht : i % 2 = 0 ∨ i % 2 = 1 := by omega
  generalize e2 : i % 2 = t at ht
  have hpin : ∃ p, ((exChurning.st i).thr t).pin = some p := by
    rcases ht with rfl | rfl
    · cases h : ((exChurning.st i).thr 0).pin with
      | none => rw [h] at c0; exact absurd rfl c0
      | some p => exact ⟨p, rfl⟩
    · cases h : ((exChurning.st i).thr 1).pin with
      | none => rw [h] at c1; exact absurd rfl c1
      | some p => exact ⟨p, rfl⟩
  obtain ⟨p, hp⟩ := hpin
  by_cases c2 : ((exChurning.st i).thr t).run.isNone = true
  · right
    have hr := isNone_eq c2
    have h : exChurn i (exChurning.st i) = (.call t (.op (if i % 5 < 2 then .remove (i % 3) else .insert (i / 3, i))), noAnswers, BitVec.ofNat 64 (i * i)) := by
      simp only [exChurn, c0, c1, e2, c2]; rfl
    have hl := exChurning_lab h (by simp) rfl (by simp only [wstep, hp, hr, hf]; rfl)
    refine ⟨by rw [hl]; simp, ?_⟩
    rw [hl] at hst
    simp only [wstep, hp, hr, hf, Option.some.injEq, Prod.mk.injEq] at hst
    rw [← hst.1]
    rcases ht with rfl | rfl <;> simp [CState.off, CState.next, upd, hr, c0, c1]
  · left
    have hr : ∃ c, ((exChurning.st i).thr t).run = some c := by
      cases h : ((exChurning.st i).thr t).run with
      | none => rw [h] at c2; exact absurd rfl c2
      | some c => exact ⟨c, rfl⟩
    obtain ⟨c, hr⟩ := hr
    by_cases c3 : (CLabel.tick t false (i - 1)).enabledb (exChurning.st i) = true
    · have h : exChurn i (exChurning.st i) = (.tick t false (i - 1), exLies i, 0) := by
        simp only [exChurn, c0, c1, e2, c2, c3]; rfl
      exact ⟨t, i - 1, by omega, exChurning_lab h (by simp) c3 (by simp only [wstep, hr]; rfl)⟩
    · have h : exChurn i (exChurning.st i) = (.tick t false i, exLies i, 0) := by
        simp only [exChurn, c0, c1, e2, c2, c3]; rfl
      exact ⟨t, i, by omega, exChurning_lab h (by simp) (by simp [CLabel.enabledb, hck]) (by simp only [wstep, hr]; rfl)⟩

theorem exChurning_ticks (n : Nat) : ∃ i, n ≤ i ∧ ∃ t w τ, exChurning.lab i = .tick t w τ := by
  have main : ∀ x n, (exChurning.st n).off = x → ∃ i, n ≤ i ∧ ∃ t w τ, exChurning.lab i = .tick t w τ := by
    intro x
    induction x using Nat.strong_induction_on with
    | _ x ih =>
      intro n hx
      rcases exChurning_goes n with ⟨t, τ, -, h⟩ | ⟨-, h⟩
      · exact ⟨n, Nat.le_refl _, t, _, τ, h⟩
      · obtain ⟨i, h1, h2⟩ := ih _ (by omega) (n + 1) rfl
        exact ⟨i, by omega, h2⟩
  exact main _ n rfl

/-- The hypotheses of `C44_lock_free_weak` are met by `exChurning`; so calls end in it again and again. -/
example : (∀ n, ∃ i, n ≤ i ∧ ∃ t, exChurning.Ends i t) := by
  refine C44_lock_free_weak exChurning 2 ?_ ⟨0, ?_⟩ exChurning_ticks
  · intro i t w τ h
    rcases exChurning_goes i with ⟨t', τ', h1, h2⟩ | ⟨h1, -⟩
    · rw [h] at h2; cases h2; exact h1
    · exact absurd h (h1 t w τ)
  · intro i _ t τ h
    rcases exChurning_goes i with ⟨t', τ', h1, h2⟩ | ⟨h1, -⟩
    · rw [h] at h2; cases h2
    · exact absurd h (h1 t true τ)

/-- Session 0 inserts something and stops between finding the place and storing (it never goes on); then session 1 inserts, seeing old values for as
long as it can, and after that nothing happens any more. -/
def exAlone (i : Nat) (s : CState Nat (Nat × Nat)) : WLabel Nat (Nat × Nat) :=
  if i < 5 then [(.pin 0, noAnswers, 0), (.pin 1, noAnswers, 0), (.call 0 (.op (.insert (7, 1))), noAnswers, 3), (.tick 0 false 3, exLies 3, 0),
    (.call 1 (.op (.insert (8, 2))), noAnswers, 5)].getD i (.idle, noAnswers, 0)
  else if (s.thr 1).run.isNone then (.idle, noAnswers, 0)
  else if (CLabel.tick 1 false (i - 1)).enabledb s then (.tick 1 false (i - 1), exLies i, 0)
  else (.tick 1 false i, exLies i, 0)

def exLone : WEndless Nat (Nat × Nat) := .ofStrategy exAlone

theorem exLone_lab {i : Nat} {x : WLabel Nat (Nat × Nat)} (h : exAlone i (exLone.st i) = x) (hx : ∀ a, x.1 ≠ .free a)
    (h1 : x.1.enabledb (exLone.st i) = true) (h2 : (wstep (exLone.st i) x.2.1 x.2.2 x.1).isSome = true) : exLone.lab i = x.1 := by
  show (wpick (exLone.st i) (exAlone i (exLone.st i))).1 = x.1
  rw [h, wpick_eq hx h1 h2]

theorem exLone_goes {i : Nat} (hi : 5 ≤ i) : (((exLone.st i).thr 1).run = none ∧ exLone.lab i = .idle) ∨
    (((exLone.st i).thr 1).run ≠ none ∧ ∃ τ, exLone.lab i = .tick 1 false τ) := by
  have hck : (exLone.st i).m.clock = i := ((exLone.upto i).base (n := i) (Nat.le_refl _)).clock
  have h5 : ¬ i < 5 := by omega
  cases hr : ((exLone.st i).thr 1).run with
  | none =>
    exact Or.inl ⟨rfl, exLone_lab (x := (.idle, noAnswers, 0)) (by simp [exAlone, h5, hr]) (by simp) rfl rfl⟩
  | some c =>
    right
    refine ⟨by simp, ?_⟩
    by_cases c3 : (CLabel.tick 1 false (i - 1)).enabledb (exLone.st i) = true
    · exact ⟨i - 1, exLone_lab (x := (.tick 1 false (i - 1), exLies i, 0)) (by simp [exAlone, h5, hr, c3]) (by simp) c3
        (by simp only [wstep, hr]; rfl)⟩
    · exact ⟨i, exLone_lab (x := (.tick 1 false i, exLies i, 0)) (by simp [exAlone, h5, hr, c3]) (by simp) (by simp [CLabel.enabledb, hck])
        (by simp only [wstep, hr]; rfl)⟩

/-- The hypotheses of `C44_solo_weak` are met: the call of session 1 ends, while session 0 is stuck in the middle of its own. -/
example : ((exLone.st 5).thr 0).run ≠ none ∧ ∃ i, 5 ≤ i ∧ exLone.Ends i 1 := by
  refine ⟨by decide, C44_solo_weak exLone (n := 5) (t := 1) (by decide) ?_ ?_⟩
  · intro i hi u w τ h
    rcases exLone_goes hi with ⟨-, h1⟩ | ⟨-, τ', h1⟩ <;> rw [h] at h1 <;> cases h1
    exact ⟨rfl, rfl⟩
  · intro m hm hr
    rcases exLone_goes hm with ⟨h1, -⟩ | ⟨-, τ', h1⟩
    · exact absurd h1 (hr m hm (Nat.le_refl _))
    · exact ⟨m, Nat.le_refl _, _, _, h1⟩

/-- The hypotheses of `C44_finite_work_weak` are met. -/
example : (∃ i t w τ, 5 ≤ i ∧ exLone.lab i = .tick t w τ) ∧ ∃ n, ∀ i, n ≤ i → ∀ t w τ, exLone.lab i ≠ .tick t w τ := by
  have h5 : ∀ i, i < 5 → ∀ t w τ, exLone.lab i = .tick t w τ → t < 2 := by
    intro i hi t w τ h
    match i, hi with
    | 0, _ => cases h
    | 1, _ => cases h
    | 2, _ => cases h
    | 3, _ => cases h; decide
    | 4, _ => cases h
  constructor
  · rcases exLone_goes (Nat.le_refl 5) with ⟨h1, -⟩ | ⟨-, τ, h1⟩
    · exact absurd h1 (by decide)
    · exact ⟨5, 1, _, τ, Nat.le_refl _, h1⟩
  · refine C44_finite_work_weak exLone 2 ?_ ⟨5, ?_⟩ ⟨5, ?_⟩
    · intro i t w τ h
      by_cases hi : i < 5
      · exact h5 i hi t w τ h
      · rcases exLone_goes (i := i) (by omega) with ⟨-, h1⟩ | ⟨-, τ', h1⟩ <;> rw [h] at h1 <;> cases h1
        decide
    · intro i hi t τ h
      rcases exLone_goes hi with ⟨-, h1⟩ | ⟨-, τ', h1⟩ <;> rw [h] at h1 <;> cases h1
    · intro i hi t r h
      rcases exLone_goes hi with ⟨-, h1⟩ | ⟨-, τ', h1⟩ <;> rw [h] at h1 <;> cases h1

/-! ### Arbitrary user code, sequential consistency -/

/-- What the strategy wants, if it is possible; otherwise nothing happens. Nothing is destroyed. -/
def hpick (s : State K P) (l : HLabel K P) : HLabel K P :=
  match l with
  | .free _ => .idle
  | l => if (hStep s l).isSome then l else .idle

theorem hpick_ok (s : State K P) (l : HLabel K P) : (hpick s l).enabled s ∧ (hStep s (hpick s l)).isSome = true := by
  have hi : (HLabel.idle : HLabel K P).enabled s ∧ (hStep s (.idle : HLabel K P)).isSome = true := ⟨trivial, rfl⟩
  unfold hpick
  split
  · exact hi
  · next hx =>
    split
    · next h =>
      refine ⟨?_, h⟩
      cases l with
      | free a => exact absurd rfl (hx a)
      | _ => trivial
    · exact hi

theorem hpick_eq {s : State K P} {l : HLabel K P} (hx : ∀ a, l ≠ .free a) (h2 : (hStep s l).isSome = true) : hpick s l = l := by
  unfold hpick
  split
  · next a => exact absurd rfl (hx a)
  · simp [h2]

/-- The states the strategy leads to. -/
def hstrat (f : Nat → State K P → HLabel K P) : Nat → State K P
  | 0 => State.init
  | i + 1 =>
    let s := hstrat f i
    (hStep s (hpick s (f i s))).getD s

/-- The execution driven by a strategy. -/
def HExec.ofStrategy (f : Nat → State K P → HLabel K P) : HExec K P where
  st := hstrat f
  lab := fun i => hpick (hstrat f i) (f i (hstrat f i))
  init := rfl
  step := by
    intro i
    have h := (hpick_ok (hstrat f i) (f i (hstrat f i))).2
    cases he : hStep (hstrat f i) (hpick (hstrat f i) (f i (hstrat f i))) with
    | none => rw [he] at h; cases h
    | some x => simp only [hstrat, he, Option.getD_some]
  enabled := fun i => (hpick_ok (hstrat f i) (f i (hstrat f i))).1

/-- As `exChurn`. -/
def exHChurn (i : Nat) (s : State Nat (Nat × Nat)) : HLabel Nat (Nat × Nat) :=
  if (s.thr 0).pin.isNone then .pin 0
  else if (s.thr 1).pin.isNone then .pin 1
  else if (s.thr (i % 2)).run.isNone then
    .call (i % 2) (.op (if i % 5 < 2 then .remove (i % 3) else .insert (i / 3, i))) (BitVec.ofNat 64 (i * i))
  else .tick (i % 2) false (exLies i)

/-- How far the two sessions are from both being in a call. -/
def State.off (s : State K P) : Nat :=
  (if (s.thr 0).pin.isNone then 4 else 0) + (if (s.thr 1).pin.isNone then 4 else 0) +
  (if (s.thr 0).run.isNone then 1 else 0) + (if (s.thr 1).run.isNone then 1 else 0)

def exHChurning : HExec Nat (Nat × Nat) := .ofStrategy exHChurn

theorem exHChurning_lab {i : Nat} {l : HLabel Nat (Nat × Nat)} (h : exHChurn i (exHChurning.st i) = l) (hx : ∀ a, l ≠ .free a)
    (h2 : (hStep (exHChurning.st i) l).isSome = true) : exHChurning.lab i = l := by
  show hpick (exHChurning.st i) (exHChurn i (exHChurning.st i)) = l
  rw [h, hpick_eq hx h2]

theorem exHChurning_goes (i : Nat) : (∃ t o, t < 2 ∧ exHChurning.lab i = .tick t false o) ∨
    ((∀ t w o, exHChurning.lab i ≠ .tick t w o) ∧ (exHChurning.st (i + 1)).off < (exHChurning.st i).off) := by
  have hf : ∀ t, ((exHChurning.st i).thr t).failed = none := fun t => C38_no_failure exHChurning i t
  have hst := exHChurning.step i
  have pin : ∀ t, t = 0 ∨ t = 1 → ((exHChurning.st i).thr t).pin.isNone = true → exHChurn i (exHChurning.st i) = .pin t →
      (∃ t o, t < 2 ∧ exHChurning.lab i = .tick t false o) ∨
      ((∀ t w o, exHChurning.lab i ≠ .tick t w o) ∧ (exHChurning.st (i + 1)).off < (exHChurning.st i).off) := by
    intro t ht hp h
    right
    have hp' := isNone_eq hp
    have hl := exHChurning_lab h (by simp) (by simp only [hStep, hp', hf]; rfl)
    refine ⟨by rw [hl]; simp, ?_⟩
    rw [hl] at hst
    simp only [hStep, hp', hf, Option.some.injEq] at hst
    rw [← hst]
    rcases ht with rfl | rfl <;> simp [State.off, upd, hp'] <;> omega
  by_cases c0 : ((exHChurning.st i).thr 0).pin.isNone = true
  · exact pin 0 (Or.inl rfl) c0 (by simp [exHChurn, c0])
  by_cases c1 : ((exHChurning.st i).thr 1).pin.isNone = true
  · exact pin 1 (Or.inr rfl) c1 (by simp only [exHChurn, c0, c1]; rfl)
  have ht : i % 2 = 0 ∨ i % 2 = 1 := by omega
  generalize e2 : i % 2 = t at ht
  have hpin : ∃ p, ((exHChurning.st i).thr t).pin = some p := by
    rcases ht with rfl | rfl
    · cases h : ((exHChurning.st i).thr 0).pin with
      | none => rw [h] at c0; exact absurd rfl c0
      | some p => exact ⟨p, rfl⟩
    · cases h : ((exHChurning.st i).thr 1).pin with
      | none => rw [h] at c1; exact absurd rfl c1
      | some p => exact ⟨p, rfl⟩
  obtain ⟨p, hp⟩ := hpin
  by_cases c2 : ((exHChurning.st i).thr t).run.isNone = true
  · right
    have hr := isNone_eq c2
    have h : exHChurn i (exHChurning.st i) =
        .call t (.op (if i % 5 < 2 then .remove (i % 3) else .insert (i / 3, i))) (BitVec.ofNat 64 (i * i)) := by
      simp only [exHChurn, c0, c1, e2, c2]; rfl
    have hl := exHChurning_lab h (by simp) (by simp only [hStep, hp, hr, hf]; rfl)
    refine ⟨by rw [hl]; simp, ?_⟩
    rw [hl] at hst
    simp only [hStep, hp, hr, hf, Option.some.injEq] at hst
    rw [← hst]
    rcases ht with rfl | rfl <;> simp [State.off, upd, hr, c0, c1]
  · left
    have hr : ∃ c, ((exHChurning.st i).thr t).run = some c := by
      cases h : ((exHChurning.st i).thr t).run with
      | none => rw [h] at c2; exact absurd rfl c2
      | some c => exact ⟨c, rfl⟩
    obtain ⟨c, hr⟩ := hr
    have h : exHChurn i (exHChurning.st i) = .tick t false (exLies i) := by simp only [exHChurn, c0, c1, e2, c2]; rfl
    exact ⟨t, _, by omega, exHChurning_lab h (by simp) (by simp only [hStep, hr]; rfl)⟩

theorem exHChurning_ticks (n : Nat) : ∃ i, n ≤ i ∧ ∃ t w o, exHChurning.lab i = .tick t w o := by
  have main : ∀ x n, (exHChurning.st n).off = x → ∃ i, n ≤ i ∧ ∃ t w o, exHChurning.lab i = .tick t w o := by
    intro x
    induction x using Nat.strong_induction_on with
    | _ x ih =>
      intro n hx
      rcases exHChurning_goes n with ⟨t, o, -, h⟩ | ⟨-, h⟩
      · exact ⟨n, Nat.le_refl _, t, _, o, h⟩
      · obtain ⟨i, h1, h2⟩ := ih _ (by omega) (n + 1) rfl
        exact ⟨i, by omega, h2⟩
  exact main _ n rfl

/-- The hypotheses of `C44_lock_free` are met by `exHChurning`. -/
example : (∀ n, ∃ i, n ≤ i ∧ ∃ t, exHChurning.Ends i t) := by
  refine C44_lock_free exHChurning 2 ?_ ⟨0, ?_⟩ exHChurning_ticks
  · intro i t w o h
    rcases exHChurning_goes i with ⟨t', o', h1, h2⟩ | ⟨h1, -⟩
    · rw [h] at h2; cases h2; exact h1
    · exact absurd h (h1 t w o)
  · intro i _ t o h
    rcases exHChurning_goes i with ⟨t', o', h1, h2⟩ | ⟨h1, -⟩
    · rw [h] at h2; cases h2
    · exact absurd h (h1 t true o)

/-- As `exAlone`. -/
def exHAlone (i : Nat) (s : State Nat (Nat × Nat)) : HLabel Nat (Nat × Nat) :=
  if i < 5 then [.pin 0, .pin 1, .call 0 (.op (.insert (7, 1))) 3, .tick 0 false (exLies 3), .call 1 (.op (.insert (8, 2))) 5].getD i .idle
  else if (s.thr 1).run.isNone then .idle
  else .tick 1 false (exLies i)

def exHLone : HExec Nat (Nat × Nat) := .ofStrategy exHAlone

theorem exHLone_lab {i : Nat} {l : HLabel Nat (Nat × Nat)} (h : exHAlone i (exHLone.st i) = l) (hx : ∀ a, l ≠ .free a)
    (h2 : (hStep (exHLone.st i) l).isSome = true) : exHLone.lab i = l := by
  show hpick (exHLone.st i) (exHAlone i (exHLone.st i)) = l
  rw [h, hpick_eq hx h2]

theorem exHLone_goes {i : Nat} (hi : 5 ≤ i) : (((exHLone.st i).thr 1).run = none ∧ exHLone.lab i = .idle) ∨
    (((exHLone.st i).thr 1).run ≠ none ∧ ∃ o, exHLone.lab i = .tick 1 false o) := by
  have h5 : ¬ i < 5 := by omega
  cases hr : ((exHLone.st i).thr 1).run with
  | none => exact Or.inl ⟨rfl, exHLone_lab (by simp [exHAlone, h5, hr]) (by simp) rfl⟩
  | some c =>
    exact Or.inr ⟨by simp, _, exHLone_lab (l := .tick 1 false (exLies i)) (by simp [exHAlone, h5, hr]) (by simp)
      (by simp only [hStep, hr]; rfl)⟩

/-- The hypotheses of `C44_solo` are met. -/
example : ((exHLone.st 5).thr 0).run ≠ none ∧ ∃ i, 5 ≤ i ∧ exHLone.Ends i 1 := by
  refine ⟨by decide, C44_solo exHLone (n := 5) (t := 1) (by decide) ?_ ?_⟩
  · intro i hi u w o h
    rcases exHLone_goes hi with ⟨-, h1⟩ | ⟨-, o', h1⟩ <;> rw [h] at h1 <;> cases h1
    exact ⟨rfl, rfl⟩
  · intro m hm hr
    rcases exHLone_goes hm with ⟨h1, -⟩ | ⟨-, o', h1⟩
    · exact absurd h1 (hr m hm (Nat.le_refl _))
    · exact ⟨m, Nat.le_refl _, _, _, h1⟩

/-- The hypotheses of `C44_finite_work` are met. -/
example : (∃ i t w o, 5 ≤ i ∧ exHLone.lab i = .tick t w o) ∧ ∃ n, ∀ i, n ≤ i → ∀ t w o, exHLone.lab i ≠ .tick t w o := by
  have h5 : ∀ i, i < 5 → ∀ t w o, exHLone.lab i = .tick t w o → t < 2 := by
    intro i hi t w o h
    match i, hi with
    | 0, _ => cases h
    | 1, _ => cases h
    | 2, _ => cases h
    | 3, _ => cases h; decide
    | 4, _ => cases h
  constructor
  · rcases exHLone_goes (Nat.le_refl 5) with ⟨h1, -⟩ | ⟨-, o, h1⟩
    · exact absurd h1 (by decide)
    · exact ⟨5, 1, _, o, Nat.le_refl _, h1⟩
  · refine C44_finite_work exHLone 2 ?_ ⟨5, ?_⟩ ⟨5, ?_⟩
    · intro i t w o h
      by_cases hi : i < 5
      · exact h5 i hi t w o h
      · rcases exHLone_goes (i := i) (by omega) with ⟨-, h1⟩ | ⟨-, o', h1⟩ <;> rw [h] at h1 <;> cases h1
        decide
    · intro i hi t o h
      rcases exHLone_goes hi with ⟨-, h1⟩ | ⟨-, o', h1⟩ <;> rw [h] at h1 <;> cases h1
    · intro i hi t r hh h
      rcases exHLone_goes hi with ⟨-, h1⟩ | ⟨-, o', h1⟩ <;> rw [h] at h1 <;> cases h1

/-! ### Weak memory, user code that behaves -/

section
variable (cfg : Config K P)

def cpick (s : CState K P) (l : CLabel K P) : CLabel K P :=
  match l with
  | .free _ => .idle
  | l => if l.enabledb s ∧ l.wfb cfg ∧ (cstep cfg s l).isSome then l else .idle

theorem cpick_ok (s : CState K P) (l : CLabel K P) : (∀ a, cpick cfg s l ≠ .free a) ∧ (cpick cfg s l).enabledb s = true ∧
    (cpick cfg s l).wfb cfg = true ∧ (cstep cfg s (cpick cfg s l)).isSome = true := by
  have hi : (∀ a, (CLabel.idle : CLabel K P) ≠ .free a) ∧ (CLabel.idle : CLabel K P).enabledb s = true ∧
      (CLabel.idle : CLabel K P).wfb cfg = true ∧ (cstep cfg s (.idle : CLabel K P)).isSome = true := ⟨fun a => by simp, rfl, rfl, rfl⟩
  unfold cpick
  split
  · exact hi
  · next hx =>
    split
    · next h => exact ⟨hx, h⟩
    · exact hi

theorem cpick_eq {s : CState K P} {l : CLabel K P} (hx : ∀ a, l ≠ .free a) (h1 : l.enabledb s = true) (h2 : l.wfb cfg = true)
    (h3 : (cstep cfg s l).isSome = true) : cpick cfg s l = l := by
  unfold cpick
  split
  · next a => exact absurd rfl (hx a)
  · simp [h1, h2, h3]

/-- The states the strategy leads to. -/
def cstrat (f : Nat → CState K P → CLabel K P) : Nat → CState K P
  | 0 => CState.init
  | i + 1 =>
    let s := cstrat f i
    match cstep cfg s (cpick cfg s (f i s)) with
    | some (s', _) => s'
    | none => s

/-- The execution driven by a strategy. -/
def CEndless.ofStrategy (f : Nat → CState K P → CLabel K P) : CEndless cfg where
  st := cstrat cfg f
  lab := fun i => cpick cfg (cstrat cfg f i) (f i (cstrat cfg f i))
  ev := fun i => match cstep cfg (cstrat cfg f i) (cpick cfg (cstrat cfg f i) (f i (cstrat cfg f i))) with
    | some (_, e) => e
    | none => none
  init := rfl
  step := by
    intro i
    have h := (cpick_ok cfg (cstrat cfg f i) (f i (cstrat cfg f i))).2.2.2
    cases he : cstep cfg (cstrat cfg f i) (cpick cfg (cstrat cfg f i) (f i (cstrat cfg f i))) with
    | none => rw [he] at h; cases h
    | some x => simp only [cstrat, he]
  enabled := fun i => enabled_of_check (cpick_ok cfg (cstrat cfg f i) (f i (cstrat cfg f i))).2.1
  wf := fun i => wf_of_check (cpick_ok cfg (cstrat cfg f i) (f i (cstrat cfg f i))).2.2.1
  gc := fun i a e => absurd e ((cpick_ok cfg (cstrat cfg f i) (f i (cstrat cfg f i))).1 a)
end

/-- One session inserts and removes the keys 0 to 4 forever, another looks them up; both see what was one instant ago as long as they can. -/
def exCChurn (i : Nat) (s : CState Nat (Nat × Nat)) : CLabel Nat (Nat × Nat) :=
  if (s.thr 0).pin.isNone then .pin 0
  else if (s.thr 1).pin.isNone then .pin 1
  else if (s.thr (i % 2)).run.isNone then
    .call (i % 2) (.op (if i % 2 = 0 then (if i % 5 < 2 then .remove (i % 3) else .insert (i % 5, i)) else .get (i % 5)))
  else if (CLabel.tick (i % 2) false (i - 1)).enabledb s then .tick (i % 2) false (i - 1)
  else .tick (i % 2) false i

def exCChurning : CEndless exCfg := .ofStrategy exCfg exCChurn

theorem exCChurning_lab {i : Nat} {l : CLabel Nat (Nat × Nat)} (h : exCChurn i (exCChurning.st i) = l) (hx : ∀ a, l ≠ .free a)
    (h1 : l.enabledb (exCChurning.st i) = true) (h2 : l.wfb exCfg = true) (h3 : (cstep exCfg (exCChurning.st i) l).isSome = true) :
    exCChurning.lab i = l := by
  show cpick exCfg (exCChurning.st i) (exCChurn i (exCChurning.st i)) = l
  rw [h, cpick_eq exCfg hx h1 h2 h3]

theorem exCChurning_goes (i : Nat) : (∃ t τ, t < 2 ∧ exCChurning.lab i = .tick t false τ) ∨
    ((∀ t w τ, exCChurning.lab i ≠ .tick t w τ) ∧ (exCChurning.st (i + 1)).off < (exCChurning.st i).off) := by
  have hck : (exCChurning.st i).m.clock = i := ((exCChurning.upto i).base (n := i) (Nat.le_refl _)).clock
  have hf : ∀ t, ((exCChurning.st i).thr t).failed = none := fun t => C40_no_failure (exCChurning.upto i) (n := i) (Nat.le_refl _) t
  have hst := exCChurning.step i
  have pin : ∀ t, t = 0 ∨ t = 1 → ((exCChurning.st i).thr t).pin.isNone = true → exCChurn i (exCChurning.st i) = .pin t →
      (∃ t τ, t < 2 ∧ exCChurning.lab i = .tick t false τ) ∨
      ((∀ t w τ, exCChurning.lab i ≠ .tick t w τ) ∧ (exCChurning.st (i + 1)).off < (exCChurning.st i).off) := by
    intro t ht hp h
    right
    have hp' := isNone_eq hp
    have hl := exCChurning_lab h (by simp) rfl rfl (by simp only [cstep, hp', hf]; rfl)
    refine ⟨by rw [hl]; simp, ?_⟩
    rw [hl] at hst
    simp only [cstep, hp', hf, Option.some.injEq, Prod.mk.injEq] at hst
    rw [← hst.1]
    rcases ht with rfl | rfl <;> simp [CState.off, CState.next, upd, hp'] <;> omega
  by_cases c0 : ((exCChurning.st i).thr 0).pin.isNone = true
  · exact pin 0 (Or.inl rfl) c0 (by simp [exCChurn, c0])
  by_cases c1 : ((exCChurning.st i).thr 1).pin.isNone = true
  · exact pin 1 (Or.inr rfl) c1 (by simp only [exCChurn, c0, c1]; rfl)
  have ht : i % 2 = 0 ∨ i % 2 = 1 := by omega
  generalize e2 : i % 2 = t at ht
  have hpin : ∃ p, ((exCChurning.st i).thr t).pin = some p := by
    rcases ht with rfl | rfl
    · cases h : ((exCChurning.st i).thr 0).pin with
      | none => rw [h] at c0; exact absurd rfl c0
      | some p => exact ⟨p, rfl⟩
    · cases h : ((exCChurning.st i).thr 1).pin with
      | none => rw [h] at c1; exact absurd rfl c1
      | some p => exact ⟨p, rfl⟩
  obtain ⟨p, hp⟩ := hpin
  by_cases c2 : ((exCChurning.st i).thr t).run.isNone = true
  · right
    have hr := isNone_eq c2
    have h : exCChurn i (exCChurning.st i) =
        .call t (.op (if t = 0 then (if i % 5 < 2 then .remove (i % 3) else .insert (i % 5, i)) else .get (i % 5))) := by
      simp only [exCChurn, c0, c1, e2, c2]; rfl
    have hl := exCChurning_lab h (by simp) rfl (by
      split
      · split <;> rfl
      · rfl) (by simp only [cstep, hp, hr, hf]; rfl)
    refine ⟨by rw [hl]; simp, ?_⟩
    rw [hl] at hst
    simp only [cstep, hp, hr, hf, Option.some.injEq, Prod.mk.injEq] at hst
    rw [← hst.1]
    rcases ht with rfl | rfl <;> simp [CState.off, CState.next, upd, hr, c0, c1]
  · left
    have hr : ∃ c, ((exCChurning.st i).thr t).run = some c := by
      cases h : ((exCChurning.st i).thr t).run with
      | none => rw [h] at c2; exact absurd rfl c2
      | some c => exact ⟨c, rfl⟩
    obtain ⟨c, hr⟩ := hr
    by_cases c3 : (CLabel.tick t false (i - 1)).enabledb (exCChurning.st i) = true
    · have h : exCChurn i (exCChurning.st i) = .tick t false (i - 1) := by simp only [exCChurn, c0, c1, e2, c2, c3]; rfl
      exact ⟨t, i - 1, by omega, exCChurning_lab h (by simp) c3 rfl (by simp only [cstep, hr]; rfl)⟩
    · have h : exCChurn i (exCChurning.st i) = .tick t false i := by simp only [exCChurn, c0, c1, e2, c2, c3]; rfl
      exact ⟨t, i, by omega, exCChurning_lab h (by simp) (by simp [CLabel.enabledb, hck]) rfl (by simp only [cstep, hr]; rfl)⟩

theorem exCChurning_ticks (n : Nat) : ∃ i, n ≤ i ∧ ∃ t w τ, exCChurning.lab i = .tick t w τ := by
  have main : ∀ x n, (exCChurning.st n).off = x → ∃ i, n ≤ i ∧ ∃ t w τ, exCChurning.lab i = .tick t w τ := by
    intro x
    induction x using Nat.strong_induction_on with
    | _ x ih =>
      intro n hx
      rcases exCChurning_goes n with ⟨t, τ, -, h⟩ | ⟨-, h⟩
      · exact ⟨n, Nat.le_refl _, t, _, τ, h⟩
      · obtain ⟨i, h1, h2⟩ := ih _ (by omega) (n + 1) rfl
        exact ⟨i, by omega, h2⟩
  exact main _ n rfl

/-- The hypotheses of `C09_lock_free_weak` are met: infinitely many calls return (none is abandoned here). -/
example : ∀ n, ∃ i, n ≤ i ∧ ∃ id r, exCChurning.ev i = some (.res id r) := by
  intro n
  obtain ⟨i, hi, h | ⟨t, h⟩⟩ := C09_lock_free_weak exCChurning 2 (by
    intro i t w τ h
    rcases exCChurning_goes i with ⟨t', τ', h1, h2⟩ | ⟨h1, -⟩
    · rw [h] at h2; cases h2; exact h1
    · exact absurd h (h1 t w τ)) ⟨0, by
    intro i _ t τ h
    rcases exCChurning_goes i with ⟨t', τ', h1, h2⟩ | ⟨h1, -⟩
    · rw [h] at h2; cases h2
    · exact absurd h (h1 t true τ)⟩ exCChurning_ticks n
  · exact ⟨i, hi, h⟩
  · exfalso
    have hx : ∀ x, cpick exCfg (exCChurning.st i) x = .abort t → x = .abort t := by
      intro x hx
      unfold cpick at hx
      split at hx
      · cases hx
      · split at hx
        · exact hx
        · cases hx
    have := hx _ h
    revert this
    simp only [exCChurn]
    repeat' split
    all_goals simp

/-- As `exAlone`, with user code that behaves. -/
def exCAlone (i : Nat) (s : CState Nat (Nat × Nat)) : CLabel Nat (Nat × Nat) :=
  if i < 5 then [.pin 0, .pin 1, .call 0 (.op (.insert (7, 1))), .tick 0 false 3, .call 1 (.op (.insert (8, 2)))].getD i .idle
  else if (s.thr 1).run.isNone then .idle
  else if (CLabel.tick 1 false (i - 1)).enabledb s then .tick 1 false (i - 1)
  else .tick 1 false i

def exCLone : CEndless exCfg := .ofStrategy exCfg exCAlone

theorem exCLone_goes {i : Nat} (hi : 5 ≤ i) : exCLone.lab i = .idle ∨ ∃ τ, exCLone.lab i = .tick 1 false τ := by
  have h5 : ¬ i < 5 := by omega
  have key : ∀ l, exCAlone i (exCLone.st i) = l → exCLone.lab i = l ∨ exCLone.lab i = .idle := by
    intro l h
    show cpick exCfg (exCLone.st i) (exCAlone i (exCLone.st i)) = l ∨ cpick exCfg (exCLone.st i) (exCAlone i (exCLone.st i)) = .idle
    rw [h]
    unfold cpick
    split
    · exact Or.inr rfl
    · split
      · exact Or.inl rfl
      · exact Or.inr rfl
  by_cases hr : ((exCLone.st i).thr 1).run.isNone = true
  · rcases key .idle (by simp [exCAlone, h5, hr]) with h | h <;> exact Or.inl h
  by_cases c3 : (CLabel.tick 1 false (i - 1)).enabledb (exCLone.st i) = true
  · rcases key (.tick 1 false (i - 1)) (by simp [exCAlone, h5, hr, c3]) with h | h
    · exact Or.inr ⟨_, h⟩
    · exact Or.inl h
  · rcases key (.tick 1 false i) (by simp [exCAlone, h5, hr, c3]) with h | h
    · exact Or.inr ⟨_, h⟩
    · exact Or.inl h

/-- The hypotheses of `C09_finite_work_weak` are met. -/
example : (exCLone.lab 3 = .tick 0 false 3 ∧ exCLone.lab 5 = .tick 1 false 4) ∧
    ∃ n, ∀ i, n ≤ i → ∀ t w τ, exCLone.lab i ≠ .tick t w τ := by
  refine ⟨⟨rfl, rfl⟩, C09_finite_work_weak exCLone 2 ?_ ⟨5, ?_⟩ ⟨5, ?_⟩⟩
  · intro i t w τ h
    by_cases hi : i < 5
    · match i, hi with
      | 0, _ => cases h
      | 1, _ => cases h
      | 2, _ => cases h
      | 3, _ => cases h; decide
      | 4, _ => cases h
    · rcases exCLone_goes (i := i) (by omega) with h1 | ⟨τ', h1⟩ <;> rw [h] at h1 <;> cases h1
      decide
  · intro i hi t τ h
    rcases exCLone_goes hi with h1 | ⟨τ', h1⟩ <;> rw [h] at h1 <;> cases h1
  · intro i hi t r h
    rcases exCLone_goes hi with h1 | ⟨τ', h1⟩ <;> rw [h] at h1 <;> cases h1
end Contrie
