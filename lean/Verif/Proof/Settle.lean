import Verif.Proof.HostileProgress
/-
Steps of a machine come to an end: the argument common to the sequentially consistent machine and the one with weak memory, both with arbitrary
user code.
-/
set_option linter.unusedSectionVars false
namespace Contrie
variable {K P : Type} [DecidableEq K]
open scoped BigOperators

/-- What can only go down does not go down forever. -/
theorem settle {α : Type} {r : α → α → Prop} (wf : WellFounded r) (g : Nat → α) (Q : Nat → Prop) (n0 : Nat)
    (h : ∀ i, n0 ≤ i → r (g (i + 1)) (g i) ∨ (g (i + 1) = g i ∧ Q i)) : ∃ n, n0 ≤ n ∧ ∀ i, n ≤ i → g i = g n ∧ Q i := by
  have main : ∀ x n, n0 ≤ n → g n = x → ∃ n', n ≤ n' ∧ ∀ i, n' ≤ i → g i = g n' ∧ Q i := by
    intro x
    induction x using wf.induction with
    | _ x ih =>
      intro n hn hx
      by_cases hc : ∃ i, n ≤ i ∧ r (g (i + 1)) x
      · obtain ⟨i, h1, h2⟩ := hc
        obtain ⟨n', h3, h4⟩ := ih _ h2 (i + 1) (by omega) rfl
        exact ⟨n', by omega, h4⟩
      · have heq : ∀ d, g (n + d) = x := by
          intro d
          induction d with
          | zero => exact hx
          | succ d ihd =>
            rcases h (n + d) (by omega) with h1 | ⟨h1, -⟩
            · rw [ihd] at h1
              exact absurd ⟨n + d, by omega, h1⟩ hc
            · rw [← Nat.add_assoc, h1, ihd]
        refine ⟨n, Nat.le_refl _, ?_⟩
        intro i hi
        have e1 : g i = x := by have := heq (i - n); rwa [show n + (i - n) = i by omega] at this
        refine ⟨by rw [e1, hx], ?_⟩
        rcases h i (by omega) with h1 | ⟨-, h1⟩
        · rw [e1] at h1; exact absurd ⟨i, hi, h1⟩ hc
        · exact h1
  exact main _ n0 (Nat.le_refl _) rfl

/-! ### The order -/

abbrev Work := Nat × Nat × Nat × Nat × Nat × Nat

def workWF : WellFoundedRelation Work := inferInstance

/-- Lexicographic order. -/
def Work.lt (x y : Work) : Prop := workWF.rel x y

theorem Work.wf : WellFounded Work.lt := workWF.wf

theorem Work.lt_of {a1 a2 a3 a4 a5 a6 b1 b2 b3 b4 b5 b6 : Nat}
    (h : a1 < b1 ∨ (a1 = b1 ∧ (a2 < b2 ∨ (a2 = b2 ∧ (a3 < b3 ∨ (a3 = b3 ∧ (a4 < b4 ∨ (a4 = b4 ∧ (a5 < b5 ∨
      (a5 = b5 ∧ a6 < b6)))))))))) :
    Work.lt (a1, a2, a3, a4, a5, a6) (b1, b2, b3, b4, b5, b6) := by
  rcases h with h | ⟨rfl, h⟩
  · exact Prod.Lex.left _ _ h
  refine Prod.Lex.right _ ?_
  rcases h with h | ⟨rfl, h⟩
  · exact Prod.Lex.left _ _ h
  refine Prod.Lex.right _ ?_
  rcases h with h | ⟨rfl, h⟩
  · exact Prod.Lex.left _ _ h
  refine Prod.Lex.right _ ?_
  rcases h with h | ⟨rfl, h⟩
  · exact Prod.Lex.left _ _ h
  refine Prod.Lex.right _ ?_
  rcases h with h | ⟨rfl, h⟩
  · exact Prod.Lex.left _ _ h
  exact Prod.Lex.right _ h

/-- The part of the measure that no load can make larger, whatever it returns. -/
noncomputable def State.work (T : Finset Nat) (s : State K P) : Work :=
  (∑ u ∈ T, (s.thr u).rank, ∑ u ∈ T, (s.thr u).loc1, ∑ u ∈ T, (s.thr u).loc2 s.m, s.m.dmg, s.m.room, s.m.clean)

/-- The rest. -/
def State.ells (T : Finset Nat) (s : State K P) : Nat := ∑ u ∈ T, (s.thr u).ell s.m

/-! ### The steps -/

/-- A step of session `t`, as far as the others are concerned. -/
structure Apart (s s' : State K P) (t : Nat) : Prop where
  run : ∀ u, u ≠ t → (s'.thr u).run = (s.thr u).run
  loc2 : ∀ u c, (s.thr u).run = some c → c.pc.loc2 s'.m = c.pc.loc2 s.m

variable {s s' : State K P} {t : Nat} {T : Finset Nat} {c : Call K P}

theorem Apart.rank (h : Apart s s' t) : ∀ u, u ≠ t → (s'.thr u).rank = (s.thr u).rank := by
  intro u hu; simp only [Thread.rank, h.run u hu]

theorem Apart.loc1 (h : Apart s s' t) : ∀ u, u ≠ t → (s'.thr u).loc1 = (s.thr u).loc1 := by
  intro u hu; simp only [Thread.loc1, h.run u hu]

theorem Apart.loc2' (h : Apart s s' t) : ∀ u, u ≠ t → (s'.thr u).loc2 s'.m = (s.thr u).loc2 s.m := by
  intro u hu
  simp only [Thread.loc2, h.run u hu]
  cases hcu : (s.thr u).run with
  | none => rfl
  | some cu => exact h.loc2 u cu hcu

theorem Apart.ell (h : Apart s s' t) (hm : s'.m.mem = s.m.mem) (hr : s'.m.root = s.m.root) :
    ∀ u, u ≠ t → (s'.thr u).ell s'.m = (s.thr u).ell s.m := by
  intro u hu
  simp only [Thread.ell, h.run u hu]
  cases (s.thr u).run with
  | none => rfl
  | some cu => exact ell_mem hm hr _

/-- The call in progress ends. -/
theorem work_end (ht : t ∈ T) (h : Apart s s' t) (hc : (s.thr t).run = some c) (hr : (s'.thr t).run = none) :
    Work.lt (s'.work T) (s.work T) := by
  apply Work.lt_of
  left
  refine sum_lt_of ht h.rank ?_
  simp only [Thread.rank, hr, hc, PC.rank]
  split <;> omega

/-- Nothing happens to the calls. -/
theorem work_same (hm : s'.m.mem = s.m.mem) (hr : s'.m.root = s.m.root) (hn : s'.m.next = s.m.next)
    (ht : s'.m.retired = s.m.retired) (hrun : ∀ u ∈ T, (s'.thr u).run = (s.thr u).run)
    (h2 : ∀ u c, (s.thr u).run = some c → c.pc.loc2 s'.m = c.pc.loc2 s.m) :
    s'.work T = s.work T ∧ s'.ells T = s.ells T := by
  obtain ⟨d1, d2, d3⟩ := mem_measures hm hr hn ht
  constructor
  · simp only [State.work, d1, d2, d3]
    congr 1
    · exact Finset.sum_congr rfl (fun u hu => by simp only [Thread.rank, hrun u hu])
    congr 1
    · exact Finset.sum_congr rfl (fun u hu => by simp only [Thread.loc1, hrun u hu])
    simp only [Prod.mk.injEq, and_true]
    refine Finset.sum_congr rfl (fun u hu => ?_)
    simp only [Thread.loc2, hrun u hu]
    cases hcu : (s.thr u).run with
    | none => rfl
    | some cu => exact h2 u cu hcu
  · refine Finset.sum_congr rfl (fun u hu => ?_)
    simp only [Thread.ell, hrun u hu]
    cases (s.thr u).run with
    | none => rfl
    | some cu => exact ell_mem hm hr _

theorem loc2_ghost {m m' : Mem P} (h : m'.mem = m.mem) (pc : PC K P) : pc.loc2 m' = pc.loc2 m := by
  have hl : m'.left = m.left := by funext w i; simp only [Mem.left, h]
  cases pc with
  | iterNext lv out =>
    simp only [PC.loc2]
    induction lv with
    | nil => rfl
    | cons y lv ih => obtain ⟨w, idx⟩ := y; simp only [rho, ih, hl]
  | _ => rfl

/-- What a step of a call does to its own part, whatever memory it sees. -/
def LLe (m : Mem P) (tk : Nat) (pc pc' : PC K P) : Prop :=
  pc'.rank < pc.rank ∨ (pc'.rank = pc.rank ∧ (pc'.loc1 (tk + 1) < pc.loc1 tk ∨
    (pc'.loc1 (tk + 1) = pc.loc1 tk ∧ pc'.loc2 m ≤ pc.loc2 m)))

theorem TDec.lle {m : Mem P} {tk : Nat} {pc pc' : PC K P} (h : TDec m m tk pc pc') : LLe m tk pc pc' := by
  rcases h with h | ⟨h, h1⟩
  · exact Or.inl h
  refine Or.inr ⟨h, ?_⟩
  rcases h1 with h1 | ⟨h1, h2⟩
  · exact Or.inl h1
  refine Or.inr ⟨h1, ?_⟩
  rcases h2 with h2 | ⟨h2, -⟩ <;> omega

theorem enterClean_lle {m : Mem P} {deleted : P} {ref : Nat} {levels : List (Loc × Word)} {pc' : PC K P} {ran : Bool}
    (h : (enterClean deleted ref levels : Next K P) = .goto pc' ran) : pc'.rank = 1 ∧ pc'.loc2 m = 0 ∧
      ∀ tk, pc'.loc1 tk < levels.length * 40 := by
  unfold enterClean at h
  split at h
  · cases h
  · split at h
    · cases h
    · cases h
      exact ⟨rfl, rfl, fun tk => by simp only [PC.loc1, List.length_cons]; simp; omega⟩

theorem hTick_local {m : Mem P} (o : Answers P) (weak : Bool) {pc pc' : PC K P} {ran : Bool} (tk : Nat)
    (hg : ∀ key hash cur, pc = .get key hash cur → tk ≤ 16)
    (h : (hTick o m weak pc).2 = .goto pc' ran) : LLe m tk pc pc' := by
  cases pc with
  | get key hash cur =>
    exact (hgood_get o (m' := m) (hg _ _ _ rfl) (by simp only [hTick] at h ⊢; rw [h])).2.lle
  | isEmpty => simp [hTick] at h
  | iterNew => exact (good_iterNew (m' := m) (by simp only [hTick] at h ⊢; rw [h])).2.lle
  | iterNext lv out => exact (good_iterNext (m' := m) (by simp only [hTick] at h ⊢; rw [h])).2.lle
  | trav st hash mode shift cur parent =>
    simp only [hTick] at h
    unfold hTickTrav at h
    simp only [enterPrune, finishTrav] at h
    repeat' split at h
    all_goals first
      | cases h; done
      | (cases h; exact Or.inr ⟨rfl, Or.inr ⟨rfl, Nat.le_refl _⟩⟩)
      | skip
    all_goals
      (dsimp only at h
       repeat' split at h
       all_goals first
         | cases h; done
         | (cases h; exact Or.inr ⟨rfl, Or.inr ⟨rfl, Nat.le_refl _⟩⟩))
  | travCas st hash mode shift cur parent node new kind =>
    simp only [hTick] at h
    unfold tickTravCas at h
    repeat' split at h
    all_goals first
      | cases h; done
      | (cases h; exact Or.inr ⟨rfl, Or.inr ⟨rfl, Nat.le_refl _⟩⟩)
      | (simp only [finishTrav] at h
         repeat' split at h
         all_goals cases h)
  | rem key shift cur levels =>
    simp only [hTick] at h
    unfold hTickRem at h
    simp only [enterPrune] at h
    repeat' split at h
    all_goals first
      | cases h; done
      | (cases h; exact Or.inr ⟨rfl, Or.inr ⟨rfl, Nat.le_refl _⟩⟩)
  | remCas key shift cur levels node new deleted =>
    simp only [hTick] at h
    unfold tickRemCas at h
    repeat' split at h
    all_goals first
      | cases h; done
      | (left; rw [(enterClean_lle (m := m) h).1]; exact Nat.lt_succ_self 1)
      | (cases h; exact Or.inr ⟨rfl, Or.inr ⟨rfl, Nat.le_refl _⟩⟩)
  | count deleted ref parent child rest i cnt =>
    exact (good_count (m' := m) (by simp only [hTick] at h ⊢; rw [h])).2.lle
  | prune parent child i acc k =>
    simp only [hTick, tickPrune] at h
    cases hp : child.ptr with
    | none => simp [hp] at h
    | some a =>
      simp only [hp] at h
      cases hr : m.read (.slot a i) with
      | none => simp [hr] at h
      | some gc =>
        simp only [hr] at h
        cases hpush : acc.push (m.write gc.condemn (.slot a i)) i gc with
        | error f => simp [hpush] at h
        | ok acc' =>
          simp only [hpush] at h
          by_cases h1 : i.val + 1 < 16
          · simp only [h1, dite_true] at h; cases h
            cases k with
            | clean => exact Or.inr ⟨rfl, Or.inl (by simp only [PC.loc1]; omega)⟩
            | _ => exact Or.inr ⟨rfl, Or.inr ⟨rfl, Nat.le_refl _⟩⟩
          · simp only [h1, dite_false] at h
            split at h
            · cases h
            · cases h
              cases k with
              | clean => exact Or.inr ⟨rfl, Or.inl (by simp only [PC.loc1]; omega)⟩
              | _ => exact Or.inr ⟨rfl, Or.inr ⟨rfl, Nat.le_refl _⟩⟩
  | pruneCas parent child acc k =>
    have key : ∀ res, (afterPrune res k : Next K P) = .goto pc' ran → LLe m tk (.pruneCas parent child acc k) pc' := by
      intro res h
      cases k with
      | trav => simp only [afterPrune] at h; cases h; exact Or.inr ⟨rfl, Or.inr ⟨rfl, Nat.le_refl _⟩⟩
      | rem => simp only [afterPrune] at h; cases h; exact Or.inr ⟨rfl, Or.inr ⟨rfl, Nat.le_refl _⟩⟩
      | clean deleted ref rest =>
        simp only [afterPrune] at h
        split at h
        · cases h
        · obtain ⟨h1, h2, h3⟩ := enterClean_lle (m := m) h
          refine Or.inr ⟨by rw [h1]; rfl, Or.inl ?_⟩
          have := h3 (tk + 1)
          show _ < rest.length * 40 + 1
          omega
    simp only [hTick] at h
    unfold tickPruneCas at h
    repeat' split at h
    all_goals first
      | cases h; done
      | exact key _ h

/-- A step of a call that stores nothing: the work cannot become more. -/
theorem work_load (ht : t ∈ T) (h : Apart s s' t) (hc : (s.thr t).run = some c) (hm : s'.m.mem = s.m.mem) (hr : s'.m.root = s.m.root)
    (hn : s'.m.next = s.m.next) (hret : s'.m.retired = s.m.retired) {pc : PC K P} {x : Nat}
    (hrun : (s'.thr t).run = some { c with pc := pc, calls := x, ticks := c.ticks + 1 })
    (hl : LLe s.m c.ticks c.pc pc) : Work.lt (s'.work T) (s.work T) ∨ s'.work T = s.work T := by
  obtain ⟨d1, d2, d3⟩ := mem_measures hm hr hn hret
  have t0 : (s'.thr t).rank = pc.rank := by simp only [Thread.rank, hrun]
  have t0' : (s.thr t).rank = c.pc.rank := by simp only [Thread.rank, hc]
  have t1 : (s'.thr t).loc1 = pc.loc1 (c.ticks + 1) := by simp only [Thread.loc1, hrun]
  have t1' : (s.thr t).loc1 = c.pc.loc1 c.ticks := by simp only [Thread.loc1, hc]
  have t2 : (s'.thr t).loc2 s'.m = pc.loc2 s.m := by simp only [Thread.loc2, hrun]; exact loc2_ghost hm pc
  have t2' : (s.thr t).loc2 s.m = c.pc.loc2 s.m := by simp only [Thread.loc2, hc]
  rcases hl with g | ⟨g, hl⟩
  · exact Or.inl (Work.lt_of (Or.inl (sum_lt_of ht h.rank (by omega))))
  have e0 := sum_eq_of (T := T) h.rank (show (s'.thr t).rank = (s.thr t).rank by omega)
  rcases hl with g1 | ⟨g1, hl⟩
  · exact Or.inl (Work.lt_of (Or.inr ⟨e0, Or.inl (sum_lt_of ht h.loc1 (by omega))⟩))
  have e1 := sum_eq_of (T := T) h.loc1 (show (s'.thr t).loc1 = (s.thr t).loc1 by omega)
  rcases Nat.lt_or_eq_of_le hl with g2 | g2
  · exact Or.inl (Work.lt_of (Or.inr ⟨e0, Or.inr ⟨e1, Or.inl (sum_lt_of ht h.loc2' (by omega))⟩⟩))
  have e2 := sum_eq_of (T := T) h.loc2' (show (s'.thr t).loc2 s'.m = (s.thr t).loc2 s.m by omega)
  right
  simp only [State.work, e0, e1, e2, d1, d2, d3]

/-- A step of a call that sees the present and does not fail spuriously: there is less work, or everything stays as it is and the call
comes nearer to changing something. -/
theorem work_tick (ht : t ∈ T) (h : Apart s s' t) (hc : (s.thr t).run = some c) {m' : Mem P} (hm : s'.m = m'.bump) {pc : PC K P} {x : Nat}
    (hrun : (s'.thr t).run = some { c with pc := pc, calls := x, ticks := c.ticks + 1 })
    (hd : TDec s.m m' c.ticks c.pc pc) : Work.lt (s'.work T) (s.work T) ∨
      (s'.work T = s.work T ∧ s'.m.mem = s.m.mem ∧ s'.m.root = s.m.root ∧ s'.ells T < s.ells T) := by
  obtain ⟨b1, b2, b3⟩ := bump_measures m'
  have t0 : (s'.thr t).rank = pc.rank := by simp only [Thread.rank, hrun]
  have t0' : (s.thr t).rank = c.pc.rank := by simp only [Thread.rank, hc]
  have t1 : (s'.thr t).loc1 = pc.loc1 (c.ticks + 1) := by simp only [Thread.loc1, hrun]
  have t1' : (s.thr t).loc1 = c.pc.loc1 c.ticks := by simp only [Thread.loc1, hc]
  have t2 : (s'.thr t).loc2 s'.m = pc.loc2 m' := by
    simp only [Thread.loc2, hrun]; exact loc2_ghost (by rw [hm]; rfl) pc
  have t2' : (s.thr t).loc2 s.m = c.pc.loc2 s.m := by simp only [Thread.loc2, hc]
  have d1 : s'.m.dmg = m'.dmg := by rw [hm, b1]
  have d2 : s'.m.room = m'.room := by rw [hm, b2]
  have d3 : s'.m.clean = m'.clean := by rw [hm, b3]
  rcases hd with g | ⟨g, hd⟩
  · exact Or.inl (Work.lt_of (Or.inl (sum_lt_of ht h.rank (by omega))))
  have e0 := sum_eq_of (T := T) h.rank (show (s'.thr t).rank = (s.thr t).rank by omega)
  rcases hd with g1 | ⟨g1, hd⟩
  · exact Or.inl (Work.lt_of (Or.inr ⟨e0, Or.inl (sum_lt_of ht h.loc1 (by omega))⟩))
  have e1 := sum_eq_of (T := T) h.loc1 (show (s'.thr t).loc1 = (s.thr t).loc1 by omega)
  rcases hd with g2 | ⟨g2, hd⟩
  · exact Or.inl (Work.lt_of (Or.inr ⟨e0, Or.inr ⟨e1, Or.inl (sum_lt_of ht h.loc2' (by omega))⟩⟩))
  have e2 := sum_eq_of (T := T) h.loc2' (show (s'.thr t).loc2 s'.m = (s.thr t).loc2 s.m by omega)
  rcases hd with g3 | ⟨g3, hd⟩
  · exact Or.inl (Work.lt_of (Or.inr ⟨e0, Or.inr ⟨e1, Or.inr ⟨e2, Or.inl (by omega)⟩⟩⟩))
  rcases hd with g4 | ⟨g4, hd⟩
  · exact Or.inl (Work.lt_of (Or.inr ⟨e0, Or.inr ⟨e1, Or.inr ⟨e2, Or.inr ⟨by omega, Or.inl (by omega)⟩⟩⟩⟩))
  rcases hd with g5 | ⟨g5, hmm, hmr, g6⟩
  · exact Or.inl (Work.lt_of (Or.inr ⟨e0, Or.inr ⟨e1, Or.inr ⟨e2, Or.inr ⟨by omega, Or.inr ⟨by omega, by omega⟩⟩⟩⟩⟩))
  right
  have em : s'.m.mem = s.m.mem := by rw [hm]; exact hmm
  have er : s'.m.root = s.m.root := by rw [hm]; exact hmr
  refine ⟨?_, em, er, ?_⟩
  · simp only [State.work, e0, e1, e2, d1, d2, d3, g3, g4, g5]
  · refine sum_lt_of ht (h.ell em er) ?_
    simp only [Thread.ell, hrun, hc]
    rw [ell_mem (m' := s'.m) (m := m') (by rw [hm]; rfl) (by rw [hm]; rfl)]
    exact g6

/-- The iterator's stack looks the same whatever the others do. -/
theorem hrho_evo {m m' : Mem P} {n : Nat} {lv : List (Word × Nat)} (h : HStack m n lv) (he : Evo m m') : rho m' lv = rho m lv := by
  have left : ∀ {w : Word} {q : List (Fin 16)} (idx : Nat), HWordOK m w q → m'.left w idx = m.left w idx := by
    intro w q idx hw
    simp only [Mem.left]
    cases hp : w.ptr with
    | none => rfl
    | some a =>
      cases hd : w.data with
      | true => obtain ⟨l, h1, -⟩ := hw.of_data hp hd; simp only [h1, he.data a l h1]
      | false =>
        obtain ⟨c, h1⟩ := hw.of_inner hp hd
        obtain ⟨c', h2, -⟩ := he.inner a c q h1
        simp only [h1, h2]
  induction lv with
  | nil => rfl
  | cons y lv ih =>
    obtain ⟨w, idx⟩ := y
    obtain ⟨⟨q, h1, -, -⟩, h2⟩ := h
    simp only [rho, ih h2, left idx h1]

theorem hloc2_evo {m m' : Mem P} {n tk : Nat} {pc : PC K P} (hi : HPCInv m n tk pc) (he : Evo m m') : pc.loc2 m' = pc.loc2 m := by
  cases pc with
  | iterNext lv out => exact hrho_evo hi.1 he
  | _ => rfl

/-! ### Sequences -/

/-- Number of sessions below `N` that are not in a call. -/
def State.idlers (N : Nat) (s : State K P) : Nat := ∑ u ∈ Finset.range N, (if (s.thr u).run.isNone then 1 else 0)

/-- A sequence of states in which each step may bring the work down, or leave everything as it is; `tick i`: step `i` is a step of a call. If the
memory has not changed since `n`, steps that see the memory of `n` or later see the present. -/
theorem comes_to_rest (S : Nat → State K P) (T : Finset Nat) (tick : Nat → Prop) (fresh : Nat → Nat → Prop) (n0 : Nat)
    (hvis : ∀ τ, ∃ n, ∀ i, n ≤ i → tick i → fresh i τ)
    (h : ∀ i, n0 ≤ i → Work.lt ((S (i + 1)).work T) ((S i).work T) ∨ ((S (i + 1)).work T = (S i).work T ∧
      (S (i + 1)).m.mem = (S i).m.mem ∧ (S (i + 1)).m.root = (S i).m.root ∧ (¬ tick i → (S (i + 1)).ells T = (S i).ells T)))
    (h' : ∀ i n, n0 ≤ n → n ≤ i → tick i → fresh i n → (∀ j, n ≤ j → j ≤ i → (S j).m.mem = (S n).m.mem ∧ (S j).m.root = (S n).m.root) →
      Work.lt ((S (i + 1)).work T) ((S i).work T) ∨ (S (i + 1)).ells T < (S i).ells T) :
    ∃ n, ∀ i, n ≤ i → ¬ tick i := by
  obtain ⟨n1, h1, h2⟩ := settle Work.wf (fun i => (S i).work T) (fun i => (S (i + 1)).m.mem = (S i).m.mem ∧
    (S (i + 1)).m.root = (S i).m.root ∧ (¬ tick i → (S (i + 1)).ells T = (S i).ells T)) n0 (fun i hi => h i hi)
  have hmem : ∀ d, (S (n1 + d)).m.mem = (S n1).m.mem ∧ (S (n1 + d)).m.root = (S n1).m.root := by
    intro d
    induction d with
    | zero => exact ⟨rfl, rfl⟩
    | succ d ih =>
      obtain ⟨-, g1, g2, -⟩ := h2 (n1 + d) (by omega)
      exact ⟨by rw [← Nat.add_assoc, g1, ih.1], by rw [← Nat.add_assoc, g2, ih.2]⟩
  obtain ⟨n2, h3⟩ := hvis n1
  obtain ⟨n3, h4, h5⟩ := settle (r := (· < ·)) Nat.lt_wfRel.wf (fun i => (S i).ells T) (fun i => ¬ tick i) (max n1 n2) (by
    intro i hi
    by_cases ht : tick i
    · left
      rcases h' i n1 h1 (by omega) ht (h3 i (by omega) ht) (fun j hj _ => by
        have := hmem (j - n1)
        rwa [show n1 + (j - n1) = j by omega] at this) with g | g
      · have e1 : (S i).work T = (S n1).work T := (h2 i (by omega)).1
        have e2 : (S (i + 1)).work T = (S n1).work T := (h2 (i + 1) (by omega)).1
        rw [e1, e2] at g
        have hirr : ∀ x : Work, ¬ Work.lt x x := fun x hx => Work.wf.asymmetric x x hx hx
        exact absurd g (hirr _)
      · exact g
    · exact Or.inr ⟨(h2 i (by omega)).2.2.2 ht, ht⟩)
  exact ⟨n3, fun i hi => (h5 i hi).2⟩

end Contrie
