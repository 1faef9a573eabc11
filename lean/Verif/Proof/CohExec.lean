import Verif.Proof.CohMain
/-
The invariant of the coherent machine holds in all executions.
-/
set_option linter.unusedSectionVars false
namespace Contrie
variable {K P : Type} [DecidableEq K]

theorem upd_self {α : Type} (f : Nat → α) (t : Nat) : upd f t (f t) = f := by
  funext x
  by_cases e : x = t
  · subst e; simp
  · rw [upd_other _ _ e]

namespace CExec
variable {cfg : Config K P} (E : CExec cfg)

theorem OutOK.refs {j t : Nat} {c : Call K P} {r : Res P} {refs refs' : List Nat} (h : E.OutOK j t c r refs)
    (hr : ∀ a ∈ refs, a ∈ refs') : E.OutOK j t c r refs' := by
  unfold OutOK at h ⊢
  split at h
  · next o ho =>
    obtain ⟨ret, h1, h2, h3, h4⟩ := h
    refine ⟨ret, h1, h2, ?_, h4⟩
    intro p hp
    obtain ⟨a, h5, h6⟩ := h3 p hp
    exact ⟨a, hr a h5, h6⟩
  · exact h
  · exact h

/-- The invariant after a step that is not one of a call. -/
theorem CInv.plain {n : Nat} (h : E.CInv n) (hm : E.M (n + 1) = (E.M n).bump) (hW : E.W n = none)
    (hnt : ∀ t weak τ, E.lab n ≠ .tick t weak τ) (hev : ∀ id r, E.ev n ≠ some (.res id r))
    (hs : ∀ t, E.SessInv (n + 1) t) : E.CInv (n + 1) where
  hist := hist_bump h.hist rfl hm
  sess := hs
  obit := by
    intro r tr weak τ a hr hl
    by_cases e : r = n
    · subst e; exact absurd hl (hnt _ _ _)
    · exact h.obit r tr weak τ a (by omega) hl
  keep := by
    intro i hi hw
    by_cases e : i = n
    · subst e; show (E.M (i + 1)).abs cfg = _; rw [hm, abs_bump]; rfl
    · exact h.keep i (by omega) hw
  upd := by
    intro i lp hi hw
    by_cases e : i = n
    · subst e; rw [hW] at hw; cases hw
    · exact h.upd i lp (by omega) hw
  rets := by
    intro j id r hj hr
    by_cases e : j = n
    · subst e; exact absurd hr (hev _ _)
    · exact h.rets j id r (by omega) hr

/-- Sessions that a step is not about. -/
theorem SessInv.other {n : Nat} (h : ∀ t, E.SessInv n t) (hn : n < E.len) (he : Evo (E.M n) (E.M (n + 1))) {m' : Mem P}
    {t0 : Nat} {th : CThread K P} (hs : E.st (n + 1) = (E.st n).next m' t0 th) (hW : E.W n = none) {t : Nat} (ht : t ≠ t0) :
    E.SessInv (n + 1) t := by
  have : (E.st (n + 1)).thr t = (E.st n).thr t := by rw [hs]; simp [CState.next, upd_other _ _ ht]
  refine (h t).keep E hn he (by rw [this]) (by rw [this]) (by rw [this]) (by rw [this]) ?_
  intro c _ lp hlp; rw [hW] at hlp; cases hlp

theorem CInv.zero : E.CInv 0 where
  hist := by
    have h0 : E.M 0 = Mem.init := by simp [M, E.init, CState.init]; rfl
    refine ⟨?_, fun _ _ => rfl, ?_, (by intro τ h; omega), (by intro τ h; omega), (by intro τ h; omega)⟩
    · intro τ hτ
      have : τ = 0 := by omega
      subst this
      rw [h0]; exact MemInv.init cfg _
    · intro τ hτ
      have : τ = 0 := by omega
      subst this
      rw [h0]; rfl
  sess := by
    intro t
    have : (E.st 0).thr t = CThread.init := by rw [E.init]; rfl
    refine ⟨by rw [this]; rfl, ?_, ?_, ?_⟩
    · intro p hp; rw [this] at hp; cases hp
    · intro p hp; rw [this] at hp; cases hp
    · intro p hp; rw [this] at hp; cases hp
  obit := by intro r _ _ _ _ h; omega
  keep := by intro r h; omega
  upd := by intro r _ h; omega
  rets := by intro r _ _ h; omega

theorem CInv.tickStep {n : Nat} (h : E.CInv n) (hn : n < E.len) {t : Nat} {weak : Bool} {τ : Nat}
    (hl : E.lab n = .tick t weak τ) : E.CInv (n + 1) := by
  have hs := E.step n hn
  rw [hl] at hs
  cases hc : ((E.st n).thr t).run with
  | none => simp only [cstep, hc] at hs; cases hs
  | some c =>
  have ci := (h.sess t).run c hc
  have d := h.did E hn hl hc
  have sc := d.step h ci hn
  simp only [cstep, hc, Option.some.injEq, Prod.mk.injEq] at hs
  obtain ⟨hs1, hs2⟩ := hs
  generalize hnx : (tick cfg ((E.st n).seen c.pc τ) weak c.pc).2 = nx at d sc hs1 hs2
  have hb := E.base (Nat.le_of_lt hn)
  have H1 := sc.hist
  have he : Evo (E.M n) (E.M (n + 1)) := H1.evo n (by omega)
  have hthr : (E.st (n + 1)).thr t = ({ (E.st n).thr t with
      view := c.pc.look ((E.st n).seen c.pc τ) weak τ (E.st n).m.clock ((E.st n).thr t).view } : CThread K P).apply c nx := by
    rw [← hs1]; simp only [CState.next, upd_same, hc]
  have hoth : ∀ t', t' ≠ t → (E.st (n + 1)).thr t' = (E.st n).thr t' := by
    intro t' ht'
    rw [← hs1]; simp only [CState.next]; rw [upd_other _ _ ht']
  have hpin : ((E.st (n + 1)).thr t).pin = ((E.st n).thr t).pin := by rw [hthr, apply_pin]
  refine ⟨H1, ?_, ?_, ?_, ?_, ?_⟩
  · intro t'
    by_cases e : t' = t
    · subst e
      have hsess := h.sess t'
      obtain ⟨p0, hp0, hp1⟩ := ci.pin
      have hlt := ci.lt
      have hrefs0 : ∀ a ∈ ((E.st n).thr t').refs, ∃ p, ((E.st (n + 1)).thr t').pin = some p ∧
          SeenLive cfg E.M (n + 1) (E.V t' (p + 1)) a := by
        intro a ha
        obtain ⟨p, h1, h2⟩ := hsess.refs a ha
        exact ⟨p, by rw [hpin]; exact h1, h2.mono (Nat.le_succ _)⟩
      have hpinlt : ∀ p, ((E.st (n + 1)).thr t').pin = some p → p < n + 1 := by
        intro p hp; rw [hpin] at hp; have := hsess.pinlt p hp; omega
      have hok := sc.next
      cases nx with
      | fail f => exact hok.elim
      | goto pc ran =>
        obtain ⟨h1, h2⟩ := hok
        have hf : ((E.st (n + 1)).thr t').failed = none := by rw [hthr]; exact hsess.noFail
        refine ⟨hf, hpinlt, ?_, ?_⟩
        · intro c' hc'
          rw [hthr] at hc'
          simp only [CThread.apply, Option.some.injEq] at hc'
          subst hc'
          refine ⟨by rw [hpin]; exact ci.pin, by simp only; omega, ci.lab, h1, ?_, ?_, h2⟩
          · intro ℓ hℓ
            exact d.locs ci hn rfl hℓ
          · intro a ha
            exact d.holds ci h.hist rfl ha
        · have : ((E.st (n + 1)).thr t').refs = ((E.st n).thr t').refs := by rw [hthr]; rfl
          rw [this]; exact hrefs0
      | ret r refs =>
        obtain ⟨h1, h2⟩ := hok
        have hf : ((E.st (n + 1)).thr t').failed = none := by rw [hthr]; exact hsess.noFail
        refine ⟨hf, hpinlt, ?_, ?_⟩
        · intro c' hc'
          rw [hthr] at hc'
          cases hc'
        · have : ((E.st (n + 1)).thr t').refs = refs ++ ((E.st n).thr t').refs := by rw [hthr]; rfl
          rw [this]
          intro a ha
          rcases List.mem_append.mp ha with ha | ha
          · refine ⟨p0, by rw [hpin]; exact hp0, ?_⟩
            exact (d.refs ci H1 hn rfl h2 ha).anti (E.V_mono t' (by omega) (by omega))
          · exact hrefs0 a ha
    · have hth := hoth t' e
      refine (h.sess t').keep E hn he (by rw [hth]) (by rw [hth]) (by rw [hth]) (by rw [hth]) ?_
      intro c' hc' lp hlp hid
      have h1 := (sc.upd lp hlp).1
      have h2 := ((h.sess t').run c' hc').lab
      rw [← hid, h1, ci.lab] at h2
      injection h2 with h2
      exact e h2.symm
  · intro r tr weak' τ' a hr hl' h1 h2
    by_cases e : r = n
    · subst e
      rw [hl] at hl'
      cases hl'
      exact sc.obit a h1 h2
    · exact h.obit r tr weak' τ' a (by omega) hl' h1 h2
  · intro i hi hw
    by_cases e : i = n
    · subst e; exact sc.keep hw
    · exact h.keep i (by omega) hw
  · intro i lp hi hw
    by_cases e : i = n
    · subst e
      obtain ⟨h1, h2, h3, h4, h5⟩ := sc.upd lp hw
      have hτ : τ = i := by
        simp only [W, hl] at hw
        split at hw
        · assumption
        · cases hw
      subst hτ
      exact ⟨t, weak, c, hl, hc, h1.symm, h3, by rw [h1]; exact ci.lt, by rw [h1, ← h2]; exact ci.lab, h4, h5⟩
    · exact h.upd i lp (by omega) hw
  · intro j id r hj hr
    by_cases e : j = n
    · subst e
      rw [← hs2] at hr
      cases nx with
      | fail f => cases hr
      | goto pc ran => cases hr
      | ret r' refs =>
        cases hr
        obtain ⟨h1, -⟩ := sc.next
        refine ⟨t, weak, τ, c, hl, hc, rfl, ci.lt, ci.lab, by rw [hthr]; rfl, OutOK.refs E h1 ?_⟩
        intro a ha
        rw [hthr]
        exact List.mem_append.mpr (Or.inl ha)
    · exact h.rets j id r (by omega) hr

theorem CInv.step {n : Nat} (h : E.CInv n) (hn : n < E.len) : E.CInv (n + 1) := by
  have hs := E.step n hn
  have hb := E.base (Nat.le_of_lt hn)
  have hVV : ∀ t ℓ, E.V t n ℓ ≤ E.V t (n + 1) ℓ := fun t => E.V_mono t (Nat.le_succ _) hn
  cases hl : E.lab n with
  | tick t weak τ => exact h.tickStep E hn hl
  | pin t =>
    rw [hl] at hs
    simp only [cstep] at hs
    split at hs
    · next hp hf =>
      simp only [Option.some.injEq, Prod.mk.injEq] at hs
      obtain ⟨hs1, hs2⟩ := hs
      have hm : E.M (n + 1) = (E.M n).bump := by simp only [M]; rw [← hs1]; rfl
      have hW : E.W n = none := by simp only [W, hl]
      have he : Evo (E.M n) (E.M (n + 1)) := by rw [hm]; exact Evo.bump _
      refine h.plain E hm hW (by intro t weak τ e; rw [hl] at e; cases e) (by intro id r e; rw [← hs2] at e; cases e) ?_
      intro t'
      by_cases e : t' = t
      · subst e
        have hthr : (E.st (n + 1)).thr t' = { (E.st n).thr t' with pin := some (E.st n).m.clock, refs := [] } := by
          rw [← hs1]; simp only [CState.next, upd_same]
        refine ⟨by rw [hthr]; exact hf, ?_, ?_, ?_⟩
        · intro p hp; rw [hthr] at hp; injection hp with hp; rw [hb.clock] at hp; omega
        · intro c hc
          rw [hthr] at hc
          obtain ⟨p, hp', -⟩ := ((h.sess t').run c hc).pin
          rw [hp] at hp'; cases hp'
        · intro a ha; rw [hthr] at ha; cases ha
      · exact SessInv.other E h.sess hn he hs1.symm hW e
    · cases hs
  | unpin t =>
    rw [hl] at hs
    simp only [cstep] at hs
    split at hs
    · next hp hr hf =>
      simp only [Option.some.injEq, Prod.mk.injEq] at hs
      obtain ⟨hs1, hs2⟩ := hs
      have hm : E.M (n + 1) = (E.M n).bump := by simp only [M]; rw [← hs1]; rfl
      have hW : E.W n = none := by simp only [W, hl]
      have he : Evo (E.M n) (E.M (n + 1)) := by rw [hm]; exact Evo.bump _
      refine h.plain E hm hW (by intro t weak τ e; rw [hl] at e; cases e) (by intro id r e; rw [← hs2] at e; cases e) ?_
      intro t'
      by_cases e : t' = t
      · subst e
        have hthr : (E.st (n + 1)).thr t' = { (E.st n).thr t' with pin := none, refs := [] } := by
          rw [← hs1]; simp only [CState.next, upd_same]
        refine ⟨by rw [hthr]; exact hf, ?_, ?_, ?_⟩
        · intro p hp; rw [hthr] at hp; cases hp
        · intro c hc; rw [hthr] at hc; simp only [hr] at hc; cases hc
        · intro a ha; rw [hthr] at ha; cases ha
      · exact SessInv.other E h.sess hn he hs1.symm hW e
    · cases hs
  | call t r =>
    rw [hl] at hs
    simp only [cstep] at hs
    split at hs
    · next p hp hr hf =>
      simp only [Option.some.injEq, Prod.mk.injEq] at hs
      obtain ⟨hs1, hs2⟩ := hs
      have hm : E.M (n + 1) = (E.M n).bump := by simp only [M]; rw [← hs1]; rfl
      have hW : E.W n = none := by simp only [W, hl]
      have he : Evo (E.M n) (E.M (n + 1)) := by rw [hm]; exact Evo.bump _
      refine h.plain E hm hW (by intro t weak τ e; rw [hl] at e; cases e) (by intro id r e; rw [← hs2] at e; cases e) ?_
      intro t'
      by_cases e : t' = t
      · subst e
        have hthr : (E.st (n + 1)).thr t' = { (E.st n).thr t' with run := some ⟨(E.st n).m.clock, r, startPC cfg r, 0, 0⟩ } := by
          rw [← hs1]; simp only [CState.next, upd_same]
        have hp1 : ((E.st (n + 1)).thr t').pin = some p := by rw [hthr]; exact hp
        have hwf : ∀ o, r = .op o → o.WF cfg.key := by
          rintro o rfl
          have := E.wf n hn
          rw [hl] at this; exact this
        refine ⟨by rw [hthr]; exact hf, ?_, ?_, ?_⟩
        · intro p' hp'; rw [hthr] at hp'; have := (h.sess t').pinlt p' hp'; omega
        · intro c hc
          rw [hthr] at hc
          simp only [Option.some.injEq, hb.clock] at hc
          subst hc
          refine ⟨⟨p, hp1, (h.sess t').pinlt p hp⟩, Nat.lt_succ_self n, hl, ?_, ?_, ?_, ?_⟩
          · refine pcok_of (startPC_ok hwf) ?_
            intro lv out e
            cases r with
            | op o => cases o <;> cases e
            | isEmpty => cases e
            | iter => cases e
          · intro ℓ hℓ
            have := startPC_loc hℓ
            subst this
            exact ⟨[], Reached.root (hVV t')⟩
          · intro a ha; exact (startPC_holds ha).elim
          · simp only [LinInv, startPC_taken]
            intro i lp hi hlp e
            by_cases e' : i = n
            · subst e'; rw [hW] at hlp; cases hlp
            · obtain ⟨_, _, _, -, -, -, -, h1, -⟩ := h.upd i lp (by omega) hlp
              omega
        · intro a ha
          rw [hthr] at ha
          obtain ⟨p', h1, h2⟩ := (h.sess t').refs a ha
          exact ⟨p', by rw [hthr]; exact h1, h2.mono (Nat.le_succ _)⟩
      · exact SessInv.other E h.sess hn he hs1.symm hW e
    · cases hs
  | abort t =>
    rw [hl] at hs
    simp only [cstep] at hs
    split at hs
    · cases hs
    · next c0 hr =>
      simp only [Option.some.injEq, Prod.mk.injEq] at hs
      obtain ⟨hs1, hs2⟩ := hs
      have hm : E.M (n + 1) = (E.M n).bump := by simp only [M]; rw [← hs1]; rfl
      have hW : E.W n = none := by simp only [W, hl]
      have he : Evo (E.M n) (E.M (n + 1)) := by rw [hm]; exact Evo.bump _
      refine h.plain E hm hW (by intro t weak τ e; rw [hl] at e; cases e) (by intro id r e; rw [← hs2] at e; cases e) ?_
      intro t'
      by_cases e : t' = t
      · subst e
        have hthr : (E.st (n + 1)).thr t' = { (E.st n).thr t' with pin := none, refs := [], run := none } := by
          rw [← hs1]; simp only [CState.next, upd_same]
        refine ⟨by rw [hthr]; exact (h.sess t').noFail, ?_, ?_, ?_⟩
        · intro p hp; rw [hthr] at hp; cases hp
        · intro c hc; rw [hthr] at hc; cases hc
        · intro a ha; rw [hthr] at ha; cases ha
      · exact SessInv.other E h.sess hn he hs1.symm hW e
  | sync t t2 τ =>
    rw [hl] at hs
    simp only [cstep, Option.some.injEq, Prod.mk.injEq] at hs
    obtain ⟨hs1, hs2⟩ := hs
    have hm : E.M (n + 1) = (E.M n).bump := by simp only [M]; rw [← hs1]; rfl
    have hW : E.W n = none := by simp only [W, hl]
    have he : Evo (E.M n) (E.M (n + 1)) := by rw [hm]; exact Evo.bump _
    refine h.plain E hm hW (by intro t weak τ e; rw [hl] at e; cases e) (by intro id r e; rw [← hs2] at e; cases e) ?_
    intro t'
    by_cases e : t' = t
    · subst e
      have hthr : (E.st (n + 1)).thr t' = { (E.st n).thr t' with
          view := fun l => max (((E.st n).thr t').view l) ((E.st n).viewAt τ t2 l) } := by
        rw [← hs1]; simp only [CState.next, upd_same]
      refine (h.sess t').keep E hn he (by rw [hthr]) (by rw [hthr]) (by rw [hthr]) (by rw [hthr]) ?_
      intro c _ lp hlp; rw [hW] at hlp; cases hlp
    · exact SessInv.other E h.sess hn he hs1.symm hW e
  | free a =>
    rw [hl] at hs
    simp only [cstep, Option.some.injEq, Prod.mk.injEq] at hs
    obtain ⟨hs1, hs2⟩ := hs
    have hm : E.M (n + 1) = (E.M n).bump := by simp only [M]; rw [← hs1]; rfl
    have hW : E.W n = none := by simp only [W, hl]
    have he : Evo (E.M n) (E.M (n + 1)) := by rw [hm]; exact Evo.bump _
    refine h.plain E hm hW (by intro t weak τ e; rw [hl] at e; cases e) (by intro id r e; rw [← hs2] at e; cases e) ?_
    intro t'
    have hthr : (E.st (n + 1)).thr t' = (E.st n).thr t' := by
      rw [← hs1]; simp only [CState.next, upd_self]
    refine (h.sess t').keep E hn he (by rw [hthr]) (by rw [hthr]) (by rw [hthr]) (by rw [hthr]) ?_
    intro c _ lp hlp; rw [hW] at hlp; cases hlp
  | idle =>
    rw [hl] at hs
    simp only [cstep, Option.some.injEq, Prod.mk.injEq] at hs
    obtain ⟨hs1, hs2⟩ := hs
    have hm : E.M (n + 1) = (E.M n).bump := by simp only [M]; rw [← hs1]; rfl
    have hW : E.W n = none := by simp only [W, hl]
    have he : Evo (E.M n) (E.M (n + 1)) := by rw [hm]; exact Evo.bump _
    refine h.plain E hm hW (by intro t weak τ e; rw [hl] at e; cases e) (by intro id r e; rw [← hs2] at e; cases e) ?_
    intro t'
    have hthr : (E.st (n + 1)).thr t' = (E.st n).thr t' := by
      rw [← hs1]; simp only [CState.next, upd_self]
    refine (h.sess t').keep E hn he (by rw [hthr]) (by rw [hthr]) (by rw [hthr]) (by rw [hthr]) ?_
    intro c _ lp hlp; rw [hW] at hlp; cases hlp

theorem cinv {n : Nat} (hn : n ≤ E.len) : E.CInv n := by
  induction n with
  | zero => exact CInv.zero E
  | succ n ih => exact (ih (by omega)).step E hn
end CExec
end Contrie
