import Verif.Proof.CanRun
import Verif.Spec.Wrappers
/-
The meaning of the methods of the wrapper types.
-/
set_option linter.unusedSectionVars false
namespace Contrie
variable {K P α β : Type} [DecidableEq K] {key : P → K}

theorem Prog.Means.of_ret {A A' : Nat → AMap K P} {a b : α} (h : (Prog.ret a).Means key A b A') : b = a ∧ A' = A := by
  cases h; exact ⟨rfl, rfl⟩

theorem Prog.Means.of_opt {A A' : Nat → AMap K P} {m : Nat} {o : Op K P} {f : Option P → α} {a : α} (h : (Prog.opt m o f).Means key A a A') :
    ∃ y A1, (A m).apply key o = (A1, .opt y) ∧ a = f y ∧ A' = upd A m A1 := by
  cases h with
  | @call _ _ A1 _ _ x k _ h hk =>
    cases x with
    | op r =>
      cases r with
      | opt y => obtain ⟨e1, e2⟩ := hk.of_ret; exact ⟨y, A1, h, e1, e2⟩
      | eon y => cases hk
    | bool b => cases hk
    | list l => cases hk

theorem Prog.Means.of_eon {A A' : Nat → AMap K P} {m : Nat} {o : Op K P} {f : ExistingOrNew P → α} {a : α} (h : (Prog.eon m o f).Means key A a A') :
    ∃ y A1, (A m).apply key o = (A1, .eon y) ∧ a = f y ∧ A' = upd A m A1 := by
  cases h with
  | @call _ _ A1 _ _ x k _ h hk =>
    cases x with
    | op r =>
      cases r with
      | eon y => obtain ⟨e1, e2⟩ := hk.of_ret; exact ⟨y, A1, h, e1, e2⟩
      | opt y => cases hk
    | bool b => cases hk
    | list l => cases hk

theorem upd_self' {γ : Type} (A : Nat → γ) (m : Nat) : upd A m (A m) = A := by
  funext x
  by_cases e : x = m
  · subst e; simp
  · rw [upd_other _ _ e]

theorem Prog.Means.of_isEmpty {A A' : Nat → AMap K P} {m : Nat} {f : Bool → α} {a : α} (h : (Prog.isEmpty m f).Means key A a A') :
    ∃ b, (b = true ↔ ∀ k, A m k = none) ∧ a = f b ∧ A' = A := by
  cases h with
  | @call _ _ A1 _ _ x k _ h hk =>
    cases x with
    | op r => cases hk
    | bool b =>
      obtain ⟨e1, e2⟩ := hk.of_ret
      obtain ⟨h1, h2⟩ := h
      exact ⟨b, h2, e1, by rw [e2, h1, upd_self']⟩
    | list l => cases hk

theorem Prog.Means.of_iter {A A' : Nat → AMap K P} {m : Nat} {f : List P → α} {a : α} (h : (Prog.iter m f).Means key A a A') :
    ∃ l, (l.map key).Nodup ∧ (∀ p, p ∈ l ↔ A m (key p) = some p) ∧ a = f l ∧ A' = A := by
  cases h with
  | @call _ _ A1 _ _ x k _ h hk =>
    cases x with
    | op r => cases hk
    | bool b => cases hk
    | list l =>
      obtain ⟨e1, e2⟩ := hk.of_ret
      obtain ⟨h1, h2, h3⟩ := h
      exact ⟨l, h2, h3, e1, by rw [e2, h1, upd_self']⟩

theorem lastWith_cons (a : P) (l : List P) (k : K) :
    lastWith key (a :: l) k = (lastWith key l k).or (if key a = k then some a else none) := by
  simp only [lastWith, List.filter_cons]
  by_cases e : key a = k
  · simp only [e, decide_true, if_true, List.getLast?_cons]
    cases (List.filter (fun p => decide (key p = k)) l).getLast? <;> rfl
  · simp [e]

theorem lastWith_none {l : List P} {k : K} : lastWith key l k = none ↔ ∀ p ∈ l, key p ≠ k := by
  simp [lastWith, List.getLast?_eq_none_iff]

theorem lastWith_some {l : List P} {k : K} {p : P} (h : lastWith key l k = some p) : p ∈ l ∧ key p = k := by
  have := List.mem_of_getLast? h
  simpa using this

/-- Inserting one by one: the last one wins. -/
theorem Prog.Means.of_inserts {A A' : Nat → AMap K P} {m : Nat} {l : List P} {a : Unit}
    (h : (Prog.forEach (fun p => Prog.opt m (.insert p) (fun r => r)) l).Means key A a A') :
    A' = upd A m (fun k => (lastWith key l k).or (A m k)) := by
  induction l generalizing A with
  | nil =>
    obtain ⟨-, e⟩ := h.of_ret
    rw [e]
    exact (upd_self' A m).symm
  | cons p l ih =>
    obtain ⟨b, A1, h1, h2⟩ := Prog.Means.bind h
    obtain ⟨y, B, e1, -, e3⟩ := h1.of_opt
    have := ih h2
    rw [this, e3]
    funext x
    by_cases e : x = m
    · subst e
      simp only [upd_same]
      funext k
      simp only [AMap.apply, Prod.mk.injEq] at e1
      rw [lastWith_cons, Option.or_assoc, ← e1.1]
      congr 1
      simp only [AMap.set]
      by_cases e : k = key p
      · simp [e]
      · simp [e, Ne.symm e]
    · simp only [upd_other _ _ e]

theorem World.keyed (W : World key) (i m : Nat) : (W.content i m).Keyed key := fun _ _ h => ((W.ex m).content_offered h).1

theorem AMap.Keyed.set {M : AMap K P} (h : M.Keyed key) {k : K} {p : Option P} (hp : ∀ q, p = some q → key q = k) : (M.set k p).Keyed key := by
  intro k' p' e
  simp only [AMap.set] at e
  split at e
  · rename_i e'; rw [e', hp _ e]
  · exact h _ _ e

/-- What a session that runs alone does is not disturbed. -/
theorem World.Solo.undisturbed {W : World key} {t i : Nat} (h : W.Solo t i) (h1 : ∀ m, (((W.ex m).st i).thr t).run = none) (m j : Nat) :
    W.Undisturbed m t i j where
  idle := h1 m
  alone := by
    intro n a b t' w c hl _ _
    rcases h n a m with g | g | ⟨r, g⟩ | g <;> rw [g] at hl <;> cases hl
    rfl

/-- If other sessions are not in the middle of an update, they will not be while a session runs alone. -/
theorem World.Solo.noneElse {W : World key} {t i m : Nat} (h : W.Solo t i)
    (h2 : ∀ t' c, (((W.ex m).st i).thr t').run = some c → c.req.isUpdate = true → t' = t) (j : Nat) : W.NoneElse m t i j := by
    intro n
    induction n with
    | zero => intro a b t' c; have : i = 0 := by omega
              subst this; exact h2 t' c
    | succ n ih =>
      intro a b t' c hc hu
      by_cases e : i = n + 1
      · subst e; exact h2 t' c hc hu
      · rcases step_run ((W.ex m).step n) hc with ⟨c0, e1, e2, e3⟩ | ⟨e1, e2, e3⟩
        · exact ih (by omega) (by omega) t' c0 e1 (by rw [e3]; exact hu)
        · rcases h n (by omega) m with g | g | ⟨r, g⟩ | g <;> rw [g] at e3 <;> cases e3
          rfl

/-- Serial up to `i`, and then only one session is active: serial. -/
theorem World.Solo.serial {W : World key} {t i m : Nat} (h : W.Solo t i)
    (h2 : ∀ t' c, (((W.ex m).st i).thr t').run = some c → c.req.isUpdate = true → t' = t) (hs : (W.ex m).RemovalsAlone i) (j : Nat) :
    (W.ex m).RemovalsAlone j where
  alone := by
    intro n hn u u' c c' hc hc' hu hu'
    by_cases e : n ≤ i
    · exact hs.alone n e u u' c c' hc hc' hu hu'
    · have := h.noneElse h2 n n (by omega) (Nat.le_refl _)
      rw [this u c hc (isRemove_upd hu), this u' c' hc' (isRemove_upd hu')]
  finished := by
    intro n hn u c hl hc
    by_cases e : n < i
    · exact hs.finished n e u c hl hc
    · rcases h n (by omega) m with g | g | ⟨r, g⟩ | g <;> rw [g] at hl <;> cases hl

/-- Total correctness: when nobody else is updating, a session running alone finishes the program, and the program does what it means. -/
theorem Prog.run_alone {p : Prog K P α} (hp : p.Typed key) (W : World key) (i t : Nat) (h1 : ∀ m, (((W.ex m).st i).thr t).run = none)
    (h2 : ∀ m t' c, (((W.ex m).st i).thr t').run = some c → c.req.isUpdate = true → t' = t)
    (h3 : p.AsksEmpty → ∀ m, (W.ex m).RemovalsAlone i) :
    ∃ W' j a, W.Same W' i ∧ W'.Solo t i ∧ W'.Runs t p i j a ∧ (∀ m, W'.Undisturbed m t i j) ∧ (∀ m, W'.NoneElse m t i j) ∧ (p.AsksEmpty → ∀ m, (W'.ex m).RemovalsAlone j) := by
  obtain ⟨W', j, a, g1, g2, g3⟩ := p.can_run hp W i t h1
  have h1' : ∀ m, (((W'.ex m).st i).thr t).run = none := by intro m; rw [g1.st m i (Nat.le_refl _)]; exact h1 m
  have h2' : ∀ m t' c, (((W'.ex m).st i).thr t').run = some c → c.req.isUpdate = true → t' = t := by
    intro m t' c; rw [g1.st m i (Nat.le_refl _)]; exact h2 m t' c
  refine ⟨W', j, a, g1, g2, g3, fun m => g2.undisturbed h1' m j, fun m => g2.noneElse (h2' m) j, fun e m => g2.serial (h2' m) ?_ j⟩
  exact
    { alone := fun n hn u u' c c' => by rw [g1.st m n hn]; exact (h3 e m).alone n hn u u' c c'
      finished := fun n hn u c => by rw [g1.st m n (by omega), g1.lab m n hn]; exact (h3 e m).finished n hn u c }

end Contrie
