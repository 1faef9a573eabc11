import Verif.Proof.Settle
/-
The sequentially consistent machine with arbitrary user code comes to rest.
-/
set_option linter.unusedSectionVars false
namespace Contrie
variable {K P : Type} [DecidableEq K]

/-- The session whose call a step concerns. -/
def HLabel.actor : HLabel K P → Option Nat
  | .call t _ _ => some t
  | .tick t _ _ => some t
  | .abort t => some t
  | _ => none

theorem hstep_other {s s' : State K P} {l : HLabel K P} (h : hStep s l = some s') {u : Nat} (hu : l.actor ≠ some u) :
    (s'.thr u).run = (s.thr u).run := by
  cases l with
  | pin t0 =>
    simp only [hStep] at h
    split at h <;> cases h
    by_cases e : u = t0
    · subst e; simp
    · simp [upd_other _ _ e]
  | unpin t0 =>
    simp only [hStep] at h
    split at h
    · next hr _ =>
      cases h
      by_cases e : u = t0
      · subst e; simp
      · simp [upd_other _ _ e]
    · cases h
  | call t0 r hh =>
    have e : u ≠ t0 := by intro e; exact hu (by rw [e]; rfl)
    simp only [hStep] at h
    split at h <;> cases h
    simp [upd_other _ _ e]
  | tick t0 w o =>
    have e : u ≠ t0 := by intro e; exact hu (by rw [e]; rfl)
    simp only [hStep] at h
    split at h <;> cases h
    simp [upd_other _ _ e]
  | abort t0 =>
    have e : u ≠ t0 := by intro e; exact hu (by rw [e]; rfl)
    simp only [hStep] at h
    split at h <;> cases h
    simp [upd_other _ _ e]
  | free a => simp only [hStep] at h; cases h; rfl
  | idle => simp only [hStep] at h; cases h; rfl

theorem hstep_quiet {s s' : State K P} {l : HLabel K P} (h : hStep s l = some s') (hl : ∀ t w o, l ≠ .tick t w o) :
    s'.m.mem = s.m.mem ∧ s'.m.root = s.m.root ∧ s'.m.next = s.m.next ∧ s'.m.retired = s.m.retired := by
  cases l with
  | tick t w o => exact absurd rfl (hl t w o)
  | pin t0 => simp only [hStep] at h; split at h <;> cases h; exact ⟨rfl, rfl, rfl, rfl⟩
  | unpin t0 => simp only [hStep] at h; split at h <;> cases h; exact ⟨rfl, rfl, rfl, rfl⟩
  | call t0 r hh => simp only [hStep] at h; split at h <;> cases h; exact ⟨rfl, rfl, rfl, rfl⟩
  | abort t0 => simp only [hStep] at h; split at h <;> cases h; exact ⟨rfl, rfl, rfl, rfl⟩
  | free a => simp only [hStep] at h; cases h; exact ⟨rfl, rfl, rfl, rfl⟩
  | idle => simp only [hStep] at h; cases h; exact ⟨rfl, rfl, rfl, rfl⟩

theorem hstep_tick {s s' : State K P} {t : Nat} {weak : Bool} {o : Answers P}
    (h : hStep s (.tick t weak o) = some s') : ∃ c, (s.thr t).run = some c ∧
      s'.m = (hTick o s.m weak c.pc).1.bump ∧ (s'.thr t) = (s.thr t).happly c (hTick o s.m weak c.pc).2 := by
  simp only [hStep] at h
  split at h
  · cases h
  · next c hr =>
    cases h
    exact ⟨c, hr, rfl, by simp⟩

theorem happly_none (th : Thread K P) (c : Call K P) {n : Next K P} (h : ∀ pc ran, n ≠ .goto pc ran) : (th.happly c n).run = none := by
  cases n with
  | goto pc ran => exact absurd rfl (h pc ran)
  | ret => rfl
  | fail f => cases f <;> rfl

theorem helps_start {m : Mem P} (h : BitVec 64) (r : Req K P) : Helps m (hStartPC h r) := by
  cases r with
  | op o => cases o <;> simp [Helps, hStartPC]
  | isEmpty => trivial
  | iter => trivial

namespace HExec
variable (E : HExec K P)

theorem helps (i : Nat) : ∀ t c, ((E.st i).thr t).run = some c → Helps (E.st i).m c.pc := by
  induction i with
  | zero => intro t c hc; rw [E.init] at hc; cases hc
  | succ i ih =>
    intro t c hc
    have hevo := E.evo i
    have hst := E.step i
    by_cases ha : (E.lab i).actor = some t
    · cases hl : E.lab i with
      | tick t0 w o =>
        rw [hl] at ha hst
        cases ha
        obtain ⟨c0, g1, g2, g3⟩ := hstep_tick hst
        cases hn : (hTick o (E.st i).m w c0.pc).2 with
        | goto pc ran =>
          rw [g3, hn] at hc
          simp only [Thread.happly, Thread.apply, Option.some.injEq] at hc
          subst hc
          exact (hTick_helps (ih t c0 g1) hn).evo hevo
        | ret r refs => rw [g3, hn, happly_none _ _ (by intro pc ran e; cases e)] at hc; cases hc
        | fail f => rw [g3, hn, happly_none _ _ (by intro pc ran e; cases e)] at hc; cases hc
      | call t0 r hh =>
        rw [hl] at ha hst
        cases ha
        simp only [hStep] at hst
        split at hst
        · simp only [Option.some.injEq] at hst
          rw [← hst] at hc
          simp only [upd_same, Option.some.injEq] at hc
          subst hc
          exact helps_start hh r
        · cases hst
      | abort t0 =>
        rw [hl] at ha hst
        cases ha
        simp only [hStep] at hst
        split at hst
        · cases hst
        · simp only [Option.some.injEq] at hst
          rw [← hst] at hc
          simp at hc
      | _ => rw [hl] at ha; cases ha
    · rw [hstep_other hst ha] at hc
      exact (ih t c hc).evo hevo

theorem apart {i t : Nat} (hl : ∀ u, u ≠ t → (E.lab i).actor ≠ some u) : Apart (E.st i) (E.st (i + 1)) t where
  run := fun u hu => hstep_other (E.step i) (hl u hu)
  loc2 := fun u c hc => hloc2_evo (((E.inv i).thr u).run c hc).2.2 (E.evo i)

/-- A step of a call. -/
theorem work_step {T : Finset Nat} {i t : Nat} (ht : t ∈ T) {o : Answers P} (hl : E.lab i = .tick t false o) :
    Work.lt ((E.st (i + 1)).work T) ((E.st i).work T) ∨ ((E.st (i + 1)).work T = (E.st i).work T ∧
      (E.st (i + 1)).m.mem = (E.st i).m.mem ∧ (E.st (i + 1)).m.root = (E.st i).m.root ∧
      (E.st (i + 1)).ells T < (E.st i).ells T) := by
  have hst := E.step i
  rw [hl] at hst
  obtain ⟨c, hc, hm, hth⟩ := hstep_tick hst
  have hap : Apart (E.st i) (E.st (i + 1)) t := E.apart (by
    intro u hu; rw [hl]; simp only [HLabel.actor]; intro e; cases e; exact hu rfl)
  cases hn : (hTick o (E.st i).m false c.pc).2 with
  | ret r refs => exact Or.inl (work_end ht hap hc (by rw [hth, hn]; rfl))
  | fail f => exact Or.inl (work_end ht hap hc (by rw [hth, hn, happly_none _ _ (by intro pc ran e; cases e)]))
  | goto pc ran =>
    have htk : hTick o (E.st i).m false c.pc = ((hTick o (E.st i).m false c.pc).1, .goto pc ran) := by rw [← hn]
    generalize (hTick o (E.st i).m false c.pc).1 = m' at hm htk
    have hd := (hTick_good ((E.inv i).ctx hc) o (((E.inv i).thr t).run c hc).2.2 (E.helps i t c hc) htk).2
    exact work_tick ht hap hc hm (x := c.calls + if ran = true then 1 else 0) (by rw [hth, hn]; rfl) hd

/-- A step of another kind. -/
theorem work_other {T : Finset Nat} {i : Nat} (hl : ∀ t w o, E.lab i ≠ .tick t w o) (hc : ∀ t ∈ T, ∀ r h, E.lab i ≠ .call t r h) :
    Work.lt ((E.st (i + 1)).work T) ((E.st i).work T) ∨ ((E.st (i + 1)).work T = (E.st i).work T ∧
      (E.st (i + 1)).m.mem = (E.st i).m.mem ∧ (E.st (i + 1)).m.root = (E.st i).m.root ∧
      (E.st (i + 1)).ells T = (E.st i).ells T) := by
  obtain ⟨q1, q2, q3, q4⟩ := hstep_quiet (E.step i) hl
  by_cases ha : ∃ t ∈ T, E.lab i = .abort t
  · obtain ⟨t, ht, ha⟩ := ha
    have hst := E.step i
    rw [ha] at hst
    have hap : Apart (E.st i) (E.st (i + 1)) t := E.apart (by
      intro u hu; rw [ha]; simp only [HLabel.actor]; intro e; cases e; exact hu rfl)
    simp only [hStep] at hst
    split at hst
    · cases hst
    · next c hr => exact Or.inl (work_end ht hap hr (by simp only [Option.some.injEq] at hst; rw [← hst]; simp))
  · right
    have hact : ∀ u ∈ T, (E.lab i).actor ≠ some u := by
      intro u hu e
      cases hlab : E.lab i with
      | tick t w o => exact hl t w o hlab
      | call t r h => rw [hlab] at e; cases e; exact hc u hu r h hlab
      | abort t => rw [hlab] at e; cases e; exact ha ⟨u, hu, hlab⟩
      | _ => rw [hlab] at e; cases e
    obtain ⟨h1, h2⟩ := work_same (T := T) q1 q2 q3 q4 (fun u hu => hstep_other (E.step i) (hact u hu))
      (fun u c hc => hloc2_evo (((E.inv i).thr u).run c hc).2.2 (E.evo i))
    exact ⟨h1, q1, q2, h2⟩

/-- If no more calls begin and no compare-exchange fails spuriously any more, there are only finitely many steps. -/
theorem rest (T : Finset Nat) (n0 : Nat) (hN : ∀ i, n0 ≤ i → ∀ t w o, E.lab i = .tick t w o → t ∈ T)
    (hw : ∀ i, n0 ≤ i → ∀ t o, E.lab i ≠ .tick t true o) (hc : ∀ i, n0 ≤ i → ∀ t, t ∈ T → ∀ r h, E.lab i ≠ .call t r h) :
    ∃ n, ∀ i, n ≤ i → ∀ t w o, E.lab i ≠ .tick t w o := by
  have key : ∀ i, n0 ≤ i → (∃ t w o, E.lab i = .tick t w o) → ∃ t ∈ T, ∃ o, E.lab i = .tick t false o := by
    rintro i hi ⟨t, w, o, h⟩
    cases w with
    | true => exact absurd h (hw i hi t o)
    | false => exact ⟨t, hN i hi t _ o h, o, h⟩
  obtain ⟨n, h⟩ := comes_to_rest E.st (T) (fun i => ∃ t w o, E.lab i = .tick t w o) (fun _ _ => True) n0
    (fun _ => ⟨0, fun _ _ _ => trivial⟩) (by
      intro i hi
      by_cases h : ∃ t w o, E.lab i = .tick t w o
      · obtain ⟨t, ht, o, hl⟩ := key i hi h
        rcases E.work_step ht hl with h1 | ⟨h1, h2, h3, h4⟩
        · exact Or.inl h1
        · exact Or.inr ⟨h1, h2, h3, fun hx => absurd h hx⟩
      · rcases E.work_other (T := T) (i := i) (fun t w o e => h ⟨t, w, o, e⟩)
          (fun t ht r hh => hc i hi t ht r hh) with h1 | ⟨h1, h2, h3, h4⟩
        · exact Or.inl h1
        · exact Or.inr ⟨h1, h2, h3, fun _ => h4⟩) (by
      intro i n hn hi h _ _
      obtain ⟨t, ht, o, hl⟩ := key i (by omega) h
      rcases E.work_step ht hl with h1 | ⟨h1, h2, h3, h4⟩
      · exact Or.inl h1
      · exact Or.inr h4)
  exact ⟨n, fun i hi t w o e => h i hi ⟨t, w, o, e⟩⟩

/-- A session below `N` that starts a call is one idler less; if no call ends, there are never more. -/
theorem idlers_step (N : Nat) {i : Nat} (hend : ∀ t, ((E.st i).thr t).run ≠ none → ((E.st (i + 1)).thr t).run ≠ none) :
    (E.st (i + 1)).idlers N < (E.st i).idlers N ∨ ((E.st (i + 1)).idlers N = (E.st i).idlers N ∧
      ∀ t, t < N → ∀ r h, E.lab i ≠ .call t r h) := by
  have hst := E.step i
  by_cases hx : ∃ t, t < N ∧ ∃ r h, E.lab i = .call t r h
  · obtain ⟨t, ht, r, h, hl⟩ := hx
    rw [hl] at hst
    left
    refine sum_lt_of (t := t) (by simpa using ht) ?_ ?_
    · intro u hu
      rw [hstep_other hst (u := u) (by simp only [HLabel.actor]; intro e; cases e; exact hu rfl)]
    · simp only [hStep] at hst
      split at hst
      · next hp hr hf =>
        simp only [Option.some.injEq] at hst
        rw [← hst]; simp [hr]
      · cases hst
  · right
    refine ⟨?_, fun t ht r h e => hx ⟨t, ht, r, h, e⟩⟩
    refine Finset.sum_congr rfl (fun u hu => ?_)
    by_cases ha : (E.lab i).actor = some u
    · cases hl : E.lab i with
      | tick t w o =>
        rw [hl] at ha hst
        cases ha
        obtain ⟨c, hc, -⟩ := hstep_tick hst
        have := hend u (by rw [hc]; simp)
        cases hr : ((E.st (i + 1)).thr u).run with
        | none => exact absurd hr this
        | some c' => rw [hc]; rfl
      | abort t =>
        rw [hl] at ha hst
        cases ha
        simp only [hStep] at hst
        split at hst
        · cases hst
        · next c hr =>
          have := hend u (by rw [hr]; simp)
          simp only [Option.some.injEq] at hst
          rw [← hst] at this; simp at this
      | call t r h => rw [hl] at ha; cases ha; exact absurd ⟨u, by simpa using hu, r, h, hl⟩ hx
      | _ => rw [hl] at ha; cases ha
    · rw [hstep_other hst ha]
end HExec
end Contrie
