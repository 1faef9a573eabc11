import Verif.Proof.WildFixed
import Verif.Props.Endless
/-
The machine with weak memory and arbitrary user code: iterations come to an end, whatever the others do.
-/
set_option linter.unusedSectionVars false
namespace Contrie
variable {K P : Type} [DecidableEq K]

/-- The program points of an iteration. -/
def PC.iterates : PC K P → Prop
  | .iterNew => True
  | .iterNext _ _ => True
  | _ => False

/-- What an iteration has still to do at most. -/
def PC.left (m : Mem P) (tk : Nat) (pc : PC K P) : Nat × Nat := (pc.loc1 tk, pc.loc2 m)

/-- Every step of an iteration brings it nearer to its end. -/
theorem hIter_tick {o : Answers P} {m m' : Mem P} {weak : Bool} {tk : Nat} {pc pc' : PC K P} {ran : Bool} (hi : pc.iterates)
    (h : hTick o m weak pc = (m', .goto pc' ran)) : m' = m ∧ pc'.iterates ∧
      Prod.Lex (· < ·) (· < ·) (pc'.left m (tk + 1)) (pc.left m tk) := by
  have key : m' = m ∧ pc'.iterates ∧ Good m m tk pc pc' ∧ pc.ell m = 0 ∧ pc.rank = 2 := by
    cases pc with
    | iterNew =>
      simp only [hTick] at h
      have g := good_iterNew (K := K) (tk := tk) h
      simp only [Prod.mk.injEq] at h
      obtain ⟨rfl, h⟩ := h
      refine ⟨rfl, ?_, g, rfl, rfl⟩
      simp only [tickIterNew, Next.goto.injEq] at h
      rw [← h.1]; trivial
    | iterNext lv out =>
      simp only [hTick] at h
      have g := good_iterNext (K := K) (tk := tk) h
      simp only [Prod.mk.injEq] at h
      obtain ⟨rfl, h⟩ := h
      refine ⟨rfl, ?_, g, rfl, rfl⟩
      unfold tickIterNext at h
      repeat' split at h
      all_goals first
        | (simp only [Next.goto.injEq] at h; rw [← h.1]; trivial)
        | cases h
    | _ => cases hi
  obtain ⟨h1, h2, h3, h4, h5⟩ := key
  refine ⟨h1, h2, ?_⟩
  have h6 : pc'.rank = 2 := by
    cases pc' <;> first | rfl | cases h2
  rcases h3.2.llt h4 with g | ⟨-, g⟩
  · omega
  rcases g with g | ⟨g1, g⟩
  · exact Prod.Lex.left _ _ g
  · simp only [PC.left, g1]
    exact Prod.Lex.right _ g

/-- An iteration ends by returning the list of what it found. -/
theorem hIter_ret {o : Answers P} {m : Mem P} {weak : Bool} {pc : PC K P} (hi : pc.iterates) {r : Res P} {refs : List Nat}
    (h : (hTick o m weak pc).2 = .ret r refs) : ∃ out, r = .list out := by
  cases pc with
  | iterNew => simp only [hTick, tickIterNew] at h; cases h
  | iterNext lv out =>
    simp only [hTick] at h
    unfold tickIterNext at h
    repeat' split at h
    all_goals first
      | (simp only [Next.ret.injEq] at h; exact ⟨_, h.1.symm⟩)
      | cases h
  | _ => cases hi

theorem loadData_not_shallow {m : Mem P} {w : Word} : m.loadData w ≠ .error .shallowCollision := by
  intro h
  unfold Mem.loadData at h
  repeat' split at h
  all_goals cases h

theorem hIter_not_shallow {o : Answers P} {m : Mem P} {weak : Bool} {pc : PC K P} (hi : pc.iterates) :
    (hTick o m weak pc).2 ≠ .fail .shallowCollision := by
  intro h
  cases pc with
  | iterNew => simp only [hTick, tickIterNew] at h; cases h
  | iterNext lv out =>
    simp only [hTick] at h
    unfold tickIterNext at h
    repeat' split at h
    all_goals first
      | (cases h; next hh => exact loadData_not_shallow hh)
      | cases h
  | _ => cases hi

namespace WEndless
variable (E : WEndless K P)

/-- The memory as the sequentially consistent machine would have it, in a step of an iteration. -/
theorem iter_left {i t : Nat} {c : Call K P} (hc : ((E.st i).thr t).run = some c) (tk : Nat) :
    c.pc.left (E.st (i + 1)).m tk = c.pc.left (E.st i).m tk := by
  have hi := (((E.upto (i + 1)).winv (n := i) (Nat.le_succ i)).sess t).run c hc
  have he := ((E.upto (i + 1)).winv (n := i + 1) (Nat.le_refl _)).hist.evo i (Nat.lt_succ_self i)
  have e := hloc2_evo hi.pc he
  have e1 := loc2_ghost (K := K) (m := (E.st i).m) (m' := (E.upto (i + 1)).M i) rfl c.pc
  have e2 := loc2_ghost (K := K) (m := (E.st (i + 1)).m) (m' := (E.upto (i + 1)).M (i + 1)) rfl c.pc
  simp only [PC.left]
  rw [← e1, ← e2, e]

theorem iter_next {i t : Nat} {c : Call K P} (hc : ((E.st i).thr t).run = some c) (hi : c.pc.iterates) :
    (((E.st (i + 1)).thr t).run = none ∧ (E.lab i = .abort t ∨ ∃ out, E.ev i = some (.res c.inv (.list out)))) ∨
    ∃ c', ((E.st (i + 1)).thr t).run = some c' ∧ c'.pc.iterates ∧ c'.inv = c.inv ∧
      (Prod.Lex (· < ·) (· < ·) (c'.pc.left (E.st (i + 1)).m c'.ticks) (c.pc.left (E.st i).m c.ticks) ∨
        (c'.pc.left (E.st (i + 1)).m c'.ticks = c.pc.left (E.st i).m c.ticks ∧ ∀ w τ, E.lab i ≠ .tick t w τ)) := by
  have hs := E.step i
  by_cases ha : (E.lab i).actor = some t
  · cases hl : E.lab i with
    | tick t0 w τ =>
      rw [hl] at ha hs
      cases ha
      obtain ⟨c0, h0, g1, g2⟩ := wstep_tick hs
      rw [hc] at h0; cases h0
      cases hn : (hTick (E.ans i) ((E.st i).seen c.pc τ) w c.pc).2 with
      | ret r refs =>
        left
        refine ⟨g2 (by intro pc ran e; rw [hn] at e; cases e), Or.inr ?_⟩
        obtain ⟨out, rfl⟩ := hIter_ret hi hn
        simp only [wstep, hc, hn, Option.some.injEq, Prod.mk.injEq] at hs
        exact ⟨out, hs.2.symm⟩
      | fail f =>
        have := C43_only_panic (E.upto (i + 1)) (n := i) (Nat.lt_succ_self i) hl hc f hn
        subst this
        exact absurd hn (hIter_not_shallow hi)
      | goto pc ran =>
        right
        refine ⟨_, g1 pc ran hn, ?_⟩
        obtain ⟨k1, k2, k3⟩ := hIter_tick (tk := c.ticks) hi (show hTick (E.ans i) ((E.st i).seen c.pc τ) w c.pc = (_, .goto pc ran) from Prod.ext rfl hn)
        refine ⟨k2, rfl, Or.inl ?_⟩
        have hseen : ∀ (q : PC K P) tk, q.left ((E.st i).seen c.pc τ) tk = q.left (E.st i).m tk := by
          intro q tk
          simp only [PC.left, CState.seen]
          cases (c.pc.access .code).bind (fun x => (((E.st i).memAt τ).read x.1).map (fun w => (x.1, w))) with
          | none => rfl
          | some y => obtain ⟨ℓ, v⟩ := y; simp only [Mem.see, loc2_write]
        rw [hseen, hseen] at k3
        have hm : (E.st (i + 1)).m.mem = (E.st i).m.mem := by
          simp only [wstep, hc, Option.some.injEq, Prod.mk.injEq] at hs
          rw [← hs.1]
          simp only [CState.next]
          split
          · next e =>
            have k0 : (hTick (E.ans i) ((E.st i).seen c.pc τ) w c.pc).1 = (E.st i).seen c.pc τ := by
              cases hpc : c.pc <;> rw [hpc] at hi <;> first | rfl | cases hi
            rw [k0]
            have : (E.st i).seen c.pc τ = (E.st i).m := by
              simp only [CState.seen, CState.memAt, e, if_true]
              cases hx : c.pc.access .code with
              | none => rfl
              | some x =>
                obtain ⟨ℓ, ord⟩ := x
                simp only [Option.bind]
                cases hr : (E.st i).m.read ℓ with
                | none => rfl
                | some v => exact write_same hr
            rw [this]; rfl
          · rfl
        have : pc.left (E.st (i + 1)).m (c.ticks + 1) = pc.left (E.st i).m (c.ticks + 1) := by
          simp only [PC.left, loc2_ghost hm]
        simp only [this]
        exact k3
    | abort t0 =>
      rw [hl] at ha hs; cases ha
      exact Or.inl ⟨(wstep_abort hs).2, Or.inl rfl⟩
    | call t0 r =>
      rw [hl] at ha hs
      cases ha
      have := (wstep_call hs).1
      rw [hc] at this; cases this
    | _ => rw [hl] at ha; cases ha
  · right
    refine ⟨c, by rw [wstep_other hs ha, hc], hi, rfl, Or.inr ⟨E.iter_left hc _, ?_⟩⟩
    intro w τ e
    rw [e] at ha; exact ha rfl

end WEndless

end Contrie
