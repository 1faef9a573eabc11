import Verif.Proof.Progress
import Mathlib.Algebra.Order.BigOperators.Group.Finset
/-
The progress measure along an execution.
-/
set_option linter.unusedSectionVars false
namespace Contrie
variable {K P : Type} [DecidableEq K]
open scoped BigOperators

/-! ### Sums -/

theorem sum_lt_of {T : Finset Nat} {f g : Nat → Nat} {t : Nat} (ht : t ∈ T) (h : ∀ u, u ≠ t → f u = g u) (hlt : f t < g t) :
    ∑ u ∈ T, f u < ∑ u ∈ T, g u := by
  apply Finset.sum_lt_sum
  · intro u _
    by_cases e : u = t
    · subst e; omega
    · rw [h u e]
  · exact ⟨t, ht, hlt⟩

theorem sum_eq_of {T : Finset Nat} {f g : Nat → Nat} {t : Nat} (h : ∀ u, u ≠ t → f u = g u) (heq : f t = g t) :
    ∑ u ∈ T, f u = ∑ u ∈ T, g u := by
  apply Finset.sum_congr rfl
  intro u _
  by_cases e : u = t
  · subst e; exact heq
  · exact h u e

/-! ### The order -/

abbrev Meas := Nat × Nat × Nat × Nat × Nat × Nat × Nat

def measWF : WellFoundedRelation Meas := inferInstance

/-- Lexicographic order. -/
def Meas.lt (x y : Meas) : Prop := measWF.rel x y

theorem Meas.wf : WellFounded Meas.lt := measWF.wf

theorem Meas.lt_of {a1 a2 a3 a4 a5 a6 a7 b1 b2 b3 b4 b5 b6 b7 : Nat}
    (h : a1 < b1 ∨ (a1 = b1 ∧ (a2 < b2 ∨ (a2 = b2 ∧ (a3 < b3 ∨ (a3 = b3 ∧ (a4 < b4 ∨ (a4 = b4 ∧ (a5 < b5 ∨
      (a5 = b5 ∧ (a6 < b6 ∨ (a6 = b6 ∧ a7 < b7)))))))))))) :
    Meas.lt (a1, a2, a3, a4, a5, a6, a7) (b1, b2, b3, b4, b5, b6, b7) := by
  rcases h with h | ⟨rfl, h⟩
  · exact Prod.Lex.left _ _ h
  refine Prod.Lex.right _ ?_
  rcases h with h | ⟨rfl, h⟩
  · exact Prod.Lex.left _ _ h
  refine Prod.Lex.right _ ?_
  rcases h with h | ⟨rfl, h⟩
  · exact Prod.Lex.left _ _ h
  refine Prod.Lex.right _ ?_
  rcases h with h | ⟨rfl, h⟩
  · exact Prod.Lex.left _ _ h
  refine Prod.Lex.right _ ?_
  rcases h with h | ⟨rfl, h⟩
  · exact Prod.Lex.left _ _ h
  refine Prod.Lex.right _ ?_
  rcases h with h | ⟨rfl, h⟩
  · exact Prod.Lex.left _ _ h
  exact Prod.Lex.right _ h

/-! ### The measure of a state -/

def Thread.rank (th : Thread K P) : Nat := match th.run with | none => 0 | some c => c.pc.rank
def Thread.loc1 (th : Thread K P) : Nat := match th.run with | none => 0 | some c => c.pc.loc1 c.ticks
def Thread.loc2 (m : Mem P) (th : Thread K P) : Nat := match th.run with | none => 0 | some c => c.pc.loc2 m
def Thread.ell (m : Mem P) (th : Thread K P) : Nat := match th.run with | none => 0 | some c => c.pc.ell m

/-- The measure of a state, for the sessions in `T`. -/
noncomputable def State.meas (T : Finset Nat) (s : State K P) : Meas :=
  (∑ u ∈ T, (s.thr u).rank, ∑ u ∈ T, (s.thr u).loc1, ∑ u ∈ T, (s.thr u).loc2 s.m, s.m.dmg, s.m.room, s.m.clean,
    ∑ u ∈ T, (s.thr u).ell s.m)

/-- What a step other than a tick does. -/
theorem step_quiet {cfg : Config K P} {s s' : State K P} {l : Label K P} {e : Option (Event K P)}
    (h : Contrie.step cfg s l = some (s', e)) (hl : ∀ t w, l ≠ .tick t w) :
    s'.m.mem = s.m.mem ∧ s'.m.root = s.m.root ∧ s'.m.next = s.m.next ∧ s'.m.retired = s.m.retired := by
  cases l with
  | tick t w => exact absurd rfl (hl t w)
  | pin t0 => simp only [Contrie.step] at h; split at h <;> cases h; exact ⟨rfl, rfl, rfl, rfl⟩
  | unpin t0 => simp only [Contrie.step] at h; split at h <;> cases h; exact ⟨rfl, rfl, rfl, rfl⟩
  | call t0 r => simp only [Contrie.step] at h; split at h <;> cases h; exact ⟨rfl, rfl, rfl, rfl⟩
  | abort t0 => simp only [Contrie.step] at h; split at h <;> cases h; exact ⟨rfl, rfl, rfl, rfl⟩
  | free a => simp only [Contrie.step] at h; cases h; exact ⟨rfl, rfl, rfl, rfl⟩
  | idle => simp only [Contrie.step] at h; cases h; exact ⟨rfl, rfl, rfl, rfl⟩

/-- The session a step belongs to. -/
def Label.actor : Label K P → Option Nat
  | .call t _ => some t
  | .tick t _ => some t
  | .abort t => some t
  | _ => none

/-- A step changes the call in progress of its own session only. -/
theorem step_other {cfg : Config K P} {s s' : State K P} {l : Label K P} {e : Option (Event K P)}
    (h : Contrie.step cfg s l = some (s', e)) {u : Nat} (hu : l.actor ≠ some u) : (s'.thr u).run = (s.thr u).run := by
  cases l with
  | pin t0 =>
    simp only [Contrie.step] at h
    split at h <;> cases h
    by_cases e : u = t0
    · subst e; simp
    · simp [upd_other _ _ e]
  | unpin t0 =>
    simp only [Contrie.step] at h
    split at h
    · next hr _ =>
      cases h
      by_cases e : u = t0
      · subst e; simp
      · simp [upd_other _ _ e]
    · cases h
  | call t0 r =>
    have e : u ≠ t0 := by intro e; exact hu (by rw [e]; rfl)
    simp only [Contrie.step] at h
    split at h <;> cases h
    simp [upd_other _ _ e]
  | tick t0 w =>
    have e : u ≠ t0 := by intro e; exact hu (by rw [e]; rfl)
    simp only [Contrie.step] at h
    split at h <;> cases h
    simp [upd_other _ _ e]
  | abort t0 =>
    have e : u ≠ t0 := by intro e; exact hu (by rw [e]; rfl)
    simp only [Contrie.step] at h
    split at h <;> cases h
    simp [upd_other _ _ e]
  | free a => simp only [Contrie.step] at h; cases h; rfl
  | idle => simp only [Contrie.step] at h; cases h; rfl

theorem rho_evo {cfg : Config K P} {m m' : Mem P} {s : Nat} {lv : List (Word × Nat)} {qs : List (List (Fin 16))}
    (h : StackOK cfg m s lv qs) (he : Evo m m') : rho m' lv = rho m lv := by
  have left : ∀ {w : Word} {q : List (Fin 16)} (idx : Nat), WordOK cfg m w q → m'.left w idx = m.left w idx := by
    intro w q idx hw
    simp only [Mem.left]
    cases hp : w.ptr with
    | none => rfl
    | some a =>
      cases hd : w.data with
      | true => obtain ⟨l, h1, -⟩ := hw.of_data hp hd; simp only [h1, he.data a l h1]
      | false =>
        obtain ⟨c, h1⟩ := hw.of_inner hp hd
        obtain ⟨c', h2, -⟩ := he.inner a c q h1
        simp only [h1, h2]
  induction h with
  | nil => rfl
  | root w idx hw hh => simp only [rho, left idx hw]
  | push w idx w1 i q rest qs _ h1 hw hh ih =>
    simp only [rho, left idx hw] at ih ⊢
    omega

theorem loc2_evo {cfg : Config K P} {A : Nat → AMap K P} {m m' : Mem P} {c : Call K P} (hi : PCInv cfg A m c) (he : Evo m m') :
    c.pc.loc2 m' = c.pc.loc2 m := by
  cases hpc : c.pc with
  | iterNext lv out =>
    simp only [PCInv, hpc] at hi
    obtain ⟨-, -, qs, h⟩ := hi
    exact rho_evo h.stack he
  | _ => rfl

/-- How `Thread.apply` looks in the next state. -/
theorem step_tick {cfg : Config K P} {s s' : State K P} {t : Nat} {weak : Bool} {e : Option (Event K P)}
    (h : Contrie.step cfg s (.tick t weak) = some (s', e)) : ∃ c, (s.thr t).run = some c ∧
      s'.m = (tick cfg s.m weak c.pc).1.bump ∧ (s'.thr t) = (s.thr t).apply c (tick cfg s.m weak c.pc).2 ∧
      e = (tick cfg s.m weak c.pc).2.event c.inv := by
  simp only [Contrie.step] at h
  split at h
  · cases h
  · next c hr =>
    cases h
    exact ⟨c, hr, rfl, by simp, rfl⟩

namespace Exec
variable {cfg : Config K P} (E : Exec cfg)

theorem helps (i : Nat) : ∀ t c, ((E.st i).thr t).run = some c → Helps (E.st i).m c.pc := by
  induction i with
  | zero => intro t c hc; rw [E.init] at hc; cases hc
  | succ i ih =>
    intro t c hc
    have hevo := (E.stepOK i).evo
    rcases step_run_full (E.step i) hc with ⟨h1, -⟩ | ⟨c0, pc, ran, weak, h1, h2, h3, rfl⟩ | ⟨r, h1, rfl, h2⟩
    · exact (ih t c h1).evo hevo
    · have hst := E.step i
      rw [h2] at hst
      obtain ⟨c1, g1, g2, -⟩ := step_tick hst
      rw [h1] at g1; cases g1
      have htk : tick cfg (E.st i).m weak c0.pc = ((tick cfg (E.st i).m weak c0.pc).1, .goto pc ran) := by rw [← h3]
      generalize (tick cfg (E.st i).m weak c0.pc).1 = m' at g2 htk
      have key : Helps m' pc := by
        cases weak with
        | false => exact (tick_good ((E.inv i).ctx h1) (E.run_pcinv h1) (ih t c0 h1) htk).1
        | true =>
          rcases tick_weak htk with h4 | ⟨rfl, -, h4⟩
          · exact (tick_good ((E.inv i).ctx h1) (E.run_pcinv h1) (ih t c0 h1) h4).1
          · exact h4 (ih t c0 h1)
      rw [g2]
      exact key.evo (Evo.bump m')
    · cases r with
      | op o => cases o <;> simp [Helps, startPC]
      | isEmpty => trivial
      | iter => trivial

/-- A step of a call that is not a spurious failure makes the measure smaller. -/
theorem meas_tick {T : Finset Nat} {i t : Nat} (ht : t ∈ T) (hl : E.lab i = .tick t false) :
    Meas.lt ((E.st (i + 1)).meas T) ((E.st i).meas T) := by
  have hst := E.step i
  rw [hl] at hst
  have hevo := (E.stepOK i).evo
  obtain ⟨c, hc, hm, hth, -⟩ := step_tick hst
  have hoth : ∀ u, u ≠ t → ((E.st (i + 1)).thr u).run = ((E.st i).thr u).run := by
    intro u hu
    exact step_other hst (by simp only [Label.actor]; intro e; cases e; exact hu rfl)
  have hr : ∀ u, u ≠ t → ((E.st (i + 1)).thr u).rank = ((E.st i).thr u).rank := by
    intro u hu; simp only [Thread.rank, hoth u hu]
  have h1 : ∀ u, u ≠ t → ((E.st (i + 1)).thr u).loc1 = ((E.st i).thr u).loc1 := by
    intro u hu; simp only [Thread.loc1, hoth u hu]
  have h2 : ∀ u, u ≠ t → ((E.st (i + 1)).thr u).loc2 (E.st (i + 1)).m = ((E.st i).thr u).loc2 (E.st i).m := by
    intro u hu
    simp only [Thread.loc2, hoth u hu]
    cases hcu : ((E.st i).thr u).run with
    | none => rfl
    | some cu => exact loc2_evo (E.run_pcinv hcu) hevo
  apply Meas.lt_of
  cases hn : (tick cfg (E.st i).m false c.pc).2 with
  | ret r refs =>
    left
    refine sum_lt_of ht hr ?_
    rw [hth, hn]
    simp only [Thread.rank, Thread.apply, hc, PC.rank]
    split <;> omega
  | fail f =>
    have := ((E.inv (i + 1)).thr t).noFail
    rw [hth, hn] at this
    cases this
  | goto pc ran =>
    have htk : tick cfg (E.st i).m false c.pc = ((tick cfg (E.st i).m false c.pc).1, .goto pc ran) := by rw [← hn]
    generalize (tick cfg (E.st i).m false c.pc).1 = m' at hm htk
    obtain ⟨-, hdec⟩ := tick_good ((E.inv i).ctx hc) (E.run_pcinv hc) (E.helps i t c hc) htk
    obtain ⟨b1, b2, b3⟩ := bump_measures m'
    have hrun : ((E.st (i + 1)).thr t).run =
        some { c with pc := pc, calls := c.calls + (if ran then 1 else 0), ticks := c.ticks + 1 } := by
      rw [hth, hn]; rfl
    have hl2 : pc.loc2 (E.st (i + 1)).m = pc.loc2 m' := by
      have hx := loc2_evo (E.run_pcinv hrun) (Evo.bump (E.st (i + 1)).m)
      rw [hm]
      cases pc with
      | iterNext lv out =>
        simp only [PC.loc2]
        clear hx hrun hn htk hdec
        induction lv with
        | nil => rfl
        | cons y lv ih => obtain ⟨w, idx⟩ := y; simp only [rho, ih]; rfl
      | _ => rfl
    have t0 : ((E.st (i + 1)).thr t).rank = pc.rank := by simp only [Thread.rank, hrun]
    have t0' : ((E.st i).thr t).rank = c.pc.rank := by simp only [Thread.rank, hc]
    have t1 : ((E.st (i + 1)).thr t).loc1 = pc.loc1 (c.ticks + 1) := by simp only [Thread.loc1, hrun]
    have t1' : ((E.st i).thr t).loc1 = c.pc.loc1 c.ticks := by simp only [Thread.loc1, hc]
    have t2 : ((E.st (i + 1)).thr t).loc2 (E.st (i + 1)).m = pc.loc2 m' := by simp only [Thread.loc2, hrun, hl2]
    have t2' : ((E.st i).thr t).loc2 (E.st i).m = c.pc.loc2 (E.st i).m := by simp only [Thread.loc2, hc]
    rcases hdec with g | ⟨g, g'⟩
    · exact Or.inl (sum_lt_of ht hr (by omega))
    refine Or.inr ⟨sum_eq_of hr (by omega), ?_⟩
    rcases g' with g1 | ⟨g1, g'⟩
    · exact Or.inl (sum_lt_of ht h1 (by omega))
    refine Or.inr ⟨sum_eq_of h1 (by omega), ?_⟩
    rcases g' with g2 | ⟨g2, g'⟩
    · exact Or.inl (sum_lt_of ht h2 (by omega))
    refine Or.inr ⟨sum_eq_of h2 (by omega), ?_⟩
    have e1 : (E.st (i + 1)).m.dmg = m'.dmg := by rw [hm, b1]
    have e2 : (E.st (i + 1)).m.room = m'.room := by rw [hm, b2]
    have e3 : (E.st (i + 1)).m.clean = m'.clean := by rw [hm, b3]
    rcases g' with g3 | ⟨g3, g'⟩
    · exact Or.inl (by omega)
    refine Or.inr ⟨by omega, ?_⟩
    rcases g' with g4 | ⟨g4, g'⟩
    · exact Or.inl (by omega)
    refine Or.inr ⟨by omega, ?_⟩
    rcases g' with g5 | ⟨g5, hmm, hmr, g6⟩
    · exact Or.inl (by omega)
    refine Or.inr ⟨by omega, ?_⟩
    have em : (E.st (i + 1)).m.mem = (E.st i).m.mem := by rw [hm]; exact hmm
    have er : (E.st (i + 1)).m.root = (E.st i).m.root := by rw [hm]; exact hmr
    refine sum_lt_of ht ?_ ?_
    · intro u hu
      simp only [Thread.ell, hoth u hu]
      cases ((E.st i).thr u).run with
      | none => rfl
      | some cu => exact ell_mem em er _
    · simp only [Thread.ell, hrun, hc]
      rw [ell_mem (m' := (E.st (i + 1)).m) (m := m') (by rw [hm]; rfl) (by rw [hm]; rfl)]
      exact g6

/-- Steps that do not belong to a call change nothing. -/
theorem meas_same {T : Finset Nat} {i : Nat} (hl : ∀ t ∈ T, (E.lab i).actor ≠ some t) (hl' : ∀ t w, E.lab i ≠ .tick t w) :
    (E.st (i + 1)).meas T = (E.st i).meas T := by
  obtain ⟨q1, q2, q3, q4⟩ := step_quiet (E.step i) hl'
  obtain ⟨d1, d2, d3⟩ := mem_measures q1 q2 q3 q4
  have hevo := (E.stepOK i).evo
  have hoth : ∀ u ∈ T, ((E.st (i + 1)).thr u).run = ((E.st i).thr u).run := fun u hu => step_other (E.step i) (hl u hu)
  simp only [State.meas, d1, d2, d3]
  congr 1
  · exact Finset.sum_congr rfl (fun u hu => by simp only [Thread.rank, hoth u hu])
  congr 1
  · exact Finset.sum_congr rfl (fun u hu => by simp only [Thread.loc1, hoth u hu])
  congr 1
  · refine Finset.sum_congr rfl (fun u hu => ?_)
    simp only [Thread.loc2, hoth u hu]
    cases hcu : ((E.st i).thr u).run with
    | none => rfl
    | some cu => exact loc2_evo (E.run_pcinv hcu) hevo
  · simp only [Prod.mk.injEq, true_and]
    refine Finset.sum_congr rfl (fun u hu => ?_)
    simp only [Thread.ell, hoth u hu]
    cases ((E.st i).thr u).run with
    | none => rfl
    | some cu => exact ell_mem q1 q2 _

/-- A session running alone finishes its call. -/
theorem solo_finishes {t : Nat} : ∀ (x : Meas) (E : Exec cfg) (i : Nat) (c : Call K P), (E.st i).meas {t} = x →
    ((E.st i).thr t).run = some c →
      ∃ n s' r, RunOK cfg (E.st i) (List.replicate n (.tick t false)) ∧
        runList cfg (E.st i) (List.replicate n (.tick t false)) = some (s', [.res c.inv r]) ∧ (s'.thr t).run = none := by
  intro x
  induction x using Meas.wf.induction with
  | _ x ih =>
    intro E i c hx hc
    obtain ⟨E', h1, h2, h3, h4⟩ := E.tick_cases hc false
    have hs := E'.step i
    rw [h3, h1 i (Nat.le_refl i)] at hs
    have hlt := E'.meas_tick (T := {t}) (i := i) (by simp) h3
    rw [h1 i (Nat.le_refl i), hx] at hlt
    rcases h4 with ⟨pc, ran, g1, g2, g3⟩ | ⟨r, refs, g1, g2, g3⟩
    · rw [g2] at hs
      obtain ⟨n, s', r, k2, k3, k4⟩ := ih _ hlt E' (i + 1) _ rfl g3
      refine ⟨n + 1, s', r, ?_, ?_, k4⟩
      · simp only [List.replicate_succ, RunOK, hs]
        exact ⟨trivial, trivial, k2⟩
      · simp only [List.replicate_succ, runList, hs, k3]
        rfl
    · rw [g2] at hs
      refine ⟨1, E'.st (i + 1), r, ?_, ?_, g3⟩
      · simp only [List.replicate, RunOK, hs]
        exact ⟨trivial, trivial, trivial⟩
      · simp only [List.replicate, runList, hs]
        rfl

end Exec
end Contrie
