import Verif.Proof.WildInv
import Verif.Proof.CohExec
/-
The invariant of the coherent machine with misbehaving user code holds in all executions; cf. `Verif/Proof/CohMain.lean`, `Verif/Proof/CohExec.lean`.
-/
set_option linter.unusedSectionVars false
namespace Contrie
variable {K P : Type} [DecidableEq K]

theorem hStartPC_loc {h : BitVec 64} {r : Req K P} {ℓ : Loc} (h : (hStartPC h r).HasLoc ℓ) : ℓ = .root := by
  cases r with
  | op o =>
    cases o with
    | get k => exact h
    | insert p => rcases h with h | ⟨x, h, -⟩ <;> first | exact h | cases h
    | getOrInsert k f => rcases h with h | ⟨x, h, -⟩ <;> first | exact h | cases h
    | remove k => rcases h with h | ⟨x, h, -⟩ <;> first | exact h | cases h
  | isEmpty => cases h
  | iter => cases h

theorem hStartPC_holds {h : BitVec 64} {r : Req K P} {a : Nat} (h : (hStartPC h r).Holds a) : False := by
  cases r with
  | op o =>
    cases o with
    | get k => cases h
    | insert p => rcases h with h | ⟨x, h, -⟩ <;> cases h
    | getOrInsert k f => rcases h with h | ⟨x, h, -⟩ <;> cases h
    | remove k => rcases h with h | ⟨x, h, -⟩ <;> cases h
  | isEmpty => cases h
  | iter => cases h

namespace WExec
variable (E : WExec K P)

theorem CallInv.keep {n t : Nat} {c : Call K P} (h : E.CallInv n t c) (hn : n < E.len) (he : Evo (E.M n) (E.M (n + 1)))
    (hpin : ((E.st (n + 1)).thr t).pin = ((E.st n).thr t).pin) :
    E.CallInv (n + 1) t c where
  pin := by rw [hpin]; exact h.pin
  lt := by have := h.lt; omega
  lab := h.lab
  pc := h.pc.evo he (Nat.zero_le _)
  locs := by
    intro ℓ hℓ
    obtain ⟨p, hp⟩ := h.locs ℓ hℓ
    exact ⟨p, hp.mono (E.V_mono t (Nat.le_succ _) hn) (Nat.le_succ _)⟩
  holds := fun a ha => (h.holds a ha).mono (Nat.le_succ _)

theorem SessInv.keep {n t : Nat} (h : E.SessInv n t) (hn : n < E.len) (he : Evo (E.M n) (E.M (n + 1)))
    (hpin : ((E.st (n + 1)).thr t).pin = ((E.st n).thr t).pin) (hrefs : ((E.st (n + 1)).thr t).refs = ((E.st n).thr t).refs)
    (hrun : ((E.st (n + 1)).thr t).run = ((E.st n).thr t).run)
    (hfail : ((E.st (n + 1)).thr t).failed = ((E.st n).thr t).failed) : E.SessInv (n + 1) t where
  noFail := by rw [hfail]; exact h.noFail
  pinlt := by intro p hp; rw [hpin] at hp; have := h.pinlt p hp; omega
  run := by
    intro c hc
    rw [hrun] at hc
    exact (h.run c hc).keep E hn he hpin
  refs := by
    intro a ha
    rw [hrefs] at ha
    obtain ⟨p, h1, h2⟩ := h.refs a ha
    exact ⟨p, by rw [hpin]; exact h1, h2.mono (Nat.le_succ _)⟩

variable {E}

section
variable {n t : Nat} {weak : Bool} {τ : Nat} {c : Call K P} {nx : Next K P}

/-- The value loaded. -/
theorem Did.learnt (d : E.Did n t weak τ c nx) : ∃ mx, nx = (hTick (E.ans n) mx weak c.pc).2 ∧
    (c.pc.writes mx weak = true → mx = E.M n) ∧
    ∀ w, Loads mx c.pc w → ∃ p ℓ τ' σ, τ' ≤ n ∧ WLearnt E.M n (E.V t c.inv) (E.V t (n + 1)) p ℓ w τ' σ := by
  cases d with
  | store ℓ o p w σ ha hτ hw hnx hm hv hread hch hl =>
    refine ⟨_, hnx, fun _ => rfl, ?_⟩
    rintro w' ⟨ℓ', o', h1, h2⟩
    rw [ha] at h1; cases h1
    rw [hread] at h2; cases h2
    exact ⟨p, ℓ, n, σ, Nat.le_refl _, hl⟩
  | load ℓ o p w mw σ ha hτ hw hnx hm hs hloc hl hmw hrd =>
    refine ⟨_, hnx, ?_, ?_⟩
    · intro h; rw [hw] at h; cases h
    rintro w' ⟨ℓ', o', h1, h2⟩
    rw [ha] at h1; cases h1
    rw [hs.seen] at h2; cases h2
    exact ⟨p, ℓ, τ, σ, hτ, hl⟩
  | silent ha hnx hm hq =>
    refine ⟨_, hnx, fun _ => rfl, ?_⟩
    rintro w' ⟨ℓ', o', h1, h2⟩
    rw [ha] at h1; cases h1

theorem Did.locs (d : E.Did n t weak τ c nx) (ci : E.CallInv n t c) (hn : n < E.len) {pc : PC K P} {ran : Bool}
    (hg : nx = .goto pc ran) {ℓ : Loc} (hl : pc.HasLoc ℓ) :
    ∃ p, WReached E.M (n + 1) (E.V t c.inv) (E.V t (n + 1)) p ℓ := by
  obtain ⟨mx, h1, -, h2⟩ := d.learnt
  rw [hg] at h1
  have hlt := ci.lt
  rcases hTick_locs _ mx weak c.pc h1.symm hl with rfl | h3 | ⟨w, a, i, h3, h4, h5, rfl⟩
  · exact ⟨[], WReached.root (E.V_mono t (by omega) hn)⟩
  · obtain ⟨p, hp⟩ := ci.locs ℓ h3
    exact ⟨p, hp.mono (E.V_mono t (Nat.le_succ _) hn) (Nat.le_succ _)⟩
  · obtain ⟨p, ℓ, τ', σ, -, h6⟩ := h2 w h3
    exact ⟨_, (h6.wdown a i h4 h5).mono (fun _ => Nat.le_refl _) (Nat.le_succ _)⟩

theorem Did.holds (d : E.Did n t weak τ c nx) (ci : E.CallInv n t c) (H : HHist E.M n) {pc : PC K P} {ran : Bool}
    (hg : nx = .goto pc ran) {a : Nat} (hl : pc.Holds a) : WSeen E.M (n + 1) (E.V t c.inv) a := by
  obtain ⟨mx, h1, -, h2⟩ := d.learnt
  rw [hg] at h1
  rcases hTick_holds _ mx weak c.pc h1.symm hl with h3 | ⟨w, h3, h4⟩
  · exact (ci.holds a h3).mono (Nat.le_succ _)
  · obtain ⟨p, ℓ, τ', σ, h5, h6⟩ := h2 w h3
    exact (h6.seen H h5 h4).mono (Nat.le_succ _)

theorem Did.refs (d : E.Did n t weak τ c nx) (ci : E.CallInv n t c) (H : HHist E.M (n + 1)) (hn : n < E.len)
    {r : Res P} {refs : List Nat}
    (hg : nx = .ret r refs) (hm : ∀ a ∈ refs, (E.M (n + 1)).mem a ≠ none) {a : Nat} (ha : a ∈ refs) :
    WSeen E.M (n + 1) (E.V t c.inv) a := by
  obtain ⟨mx, h1, hmx, h2⟩ := d.learnt
  rw [hg] at h1
  rcases hTick_refs _ mx weak c.pc h1.symm ha with h3 | ⟨w, h3, h4⟩ | ⟨rfl, h3⟩
  · exact (ci.holds a h3).mono (Nat.le_succ _)
  · obtain ⟨p, ℓ, τ', σ, h5, h6⟩ := h2 w h3
    exact (h6.seen (H.mono (Nat.le_succ _)) h5 h4).mono (Nat.le_succ _)
  · have e := hmx h3
    subst e
    have hfr := (H.inv n (by omega)).fresh _ (Nat.le_refl (E.M n).next)
    have hb := H.born n (by omega) _ hfr
    cases hnd : (E.M (n + 1)).mem (E.M n).next with
    | none => exact absurd hnd (hm _ ha)
    | some nd =>
      refine WSeen.new ?_ ((H.inv (n + 1) (Nat.le_refl _)).linked _ nd hnd hb)
      intro ℓ
      have h1 := ci.lt
      have := E.V_le (n := c.inv) (by omega) t ℓ
      omega

/-- Everything about a step of a call. -/
structure StepW (n t : Nat) (c : Call K P) (nx : Next K P) : Prop where
  hist : HHist E.M (n + 1)
  obit : ∀ a, (E.M n).retired a = none → (E.M (n + 1)).retired a ≠ none →
    ∃ p, LinkedAt (E.M n) p a ∧ Trail E.M (E.V t (n + 1)) [] p .root (n + 1)
  next : HNextInv (E.M (n + 1)) 0 c.ticks nx

theorem Did.step (d : E.Did n t weak τ c nx) (h : E.WInv n) (ci : E.CallInv n t c) (hn : n < E.len) :
    StepW (E := E) n t c nx := by
  have H := h.hist
  have hinv := H.inv n (Nat.le_refl _)
  have hlt := ci.lt
  have x : HCtx (E.M n) 0 := by
    refine ⟨hinv, ?_, fun a _ => rfl⟩
    rw [H.clock n (Nat.le_refl _)]; omega
  cases d with
  | store ℓ o p w σ ha hτ hw hnx hm hv hread hch hl =>
    have hok := hTick_ok x (E.ans n) weak ci.pc
    have hst := hTick_stored (E.ans n) x ci.pc ha hw
    rw [← hm] at hst
    have h1 := hok.inv
    have h2 := hok.evo
    have h3 := hok.next
    rw [← hm] at h1 h2 h3
    have hVV : ∀ ℓ, E.V t n ℓ ≤ E.V t (n + 1) ℓ := E.V_mono t (Nat.le_succ _) hn
    have hch1 := hch.mono hVV
    have hlocp : LocAt (E.M n) 0 ℓ p := hch.hlocAt H (E.V_le (Nat.le_of_lt hn) t)
    refine ⟨hhist_step H h1 h2 hst.still hst.born hst.moves, ?_, by rw [hnx]; exact h3⟩
    intro a h4 h5
    obtain ⟨q, w', h6, h7, h8⟩ := hst.gone a h4 h5
    have := h6.unique hlocp
    subst this
    exact ⟨q, h8, by simpa using hch1.trail (.stop q ℓ (n + 1) w' (by omega) h7)⟩
  | load ℓ o p w mw σ ha hτ hw hnx hm hs hloc hl hmw hrd =>
    refine ⟨hhist_bump H hm, ?_, ?_⟩
    · intro a h1 h2; rw [hm] at h2; exact absurd h1 h2
    · rw [hnx, hm]; exact lTick (E.ans n) ci.pc ha hs hw
  | silent ha hnx hm hq =>
    refine ⟨hhist_bump H hm, ?_, ?_⟩
    · intro a h1 h2; rw [hm] at h2; exact absurd h1 h2
    · have h3 := (hTick_ok x (E.ans n) weak ci.pc).next
      rw [hq, ← hm] at h3
      rw [hnx]; exact h3
end

variable (E)

/-- The invariant after a step that is not one of a call. -/
theorem WInv.plain {n : Nat} (h : E.WInv n) (hm : E.M (n + 1) = (E.M n).bump)
    (hnt : ∀ t weak τ, E.lab n ≠ .tick t weak τ)
    (hs : ∀ t, E.SessInv (n + 1) t) : E.WInv (n + 1) where
  hist := hhist_bump h.hist hm
  sess := hs
  obit := by
    intro r tr weak τ a hr hl
    by_cases e : r = n
    · subst e; exact absurd hl (hnt _ _ _)
    · exact h.obit r tr weak τ a (by omega) hl

/-- Sessions that a step is not about. -/
theorem SessInv.other {n : Nat} (h : ∀ t, E.SessInv n t) (hn : n < E.len) (he : Evo (E.M n) (E.M (n + 1))) {m' : Mem P}
    {t0 : Nat} {th : CThread K P} (hs : E.st (n + 1) = (E.st n).next m' t0 th) {t : Nat} (ht : t ≠ t0) :
    E.SessInv (n + 1) t := by
  have : (E.st (n + 1)).thr t = (E.st n).thr t := by rw [hs]; simp [CState.next, upd_other _ _ ht]
  exact (h t).keep E hn he (by rw [this]) (by rw [this]) (by rw [this]) (by rw [this])

theorem WInv.zero : E.WInv 0 where
  hist := by
    have h0 : E.M 0 = Mem.init := by simp [M, E.init, CState.init]; rfl
    refine ⟨?_, ?_, (by intro τ h; omega), (by intro τ h; omega), (by intro τ h; omega), (by intro τ h; omega)⟩
    · intro τ hτ
      have : τ = 0 := by omega
      subst this
      rw [h0]; exact HMemInv.init
    · intro τ hτ
      have : τ = 0 := by omega
      subst this
      rw [h0]; rfl
  sess := by
    intro t
    have : (E.st 0).thr t = CThread.init := by rw [E.init]; rfl
    refine ⟨by rw [this]; rfl, ?_, ?_, ?_⟩
    · intro p hp; rw [this] at hp; cases hp
    · intro p hp; rw [this] at hp; cases hp
    · intro p hp; rw [this] at hp; cases hp
  obit := by intro r _ _ _ _ h; omega

theorem WInv.tickStep {n : Nat} (h : E.WInv n) (hn : n < E.len) {t : Nat} {weak : Bool} {τ : Nat}
    (hl : E.lab n = .tick t weak τ) : E.WInv (n + 1) := by
  have hs := E.step n hn
  rw [hl] at hs
  cases hc : ((E.st n).thr t).run with
  | none => simp only [wstep, hc] at hs; cases hs
  | some c =>
  have ci := (h.sess t).run c hc
  have d := (h.did E hn hl hc).1
  have sc := d.step h ci hn
  simp only [wstep, hc, Option.some.injEq, Prod.mk.injEq] at hs
  obtain ⟨hs1, hs2⟩ := hs
  generalize hnx : (hTick (E.ans n) ((E.st n).seen c.pc τ) weak c.pc).2 = nx at d sc hs1 hs2
  have hb := E.base (Nat.le_of_lt hn)
  have H1 := sc.hist
  have he : Evo (E.M n) (E.M (n + 1)) := H1.evo n (by omega)
  have hthr : (E.st (n + 1)).thr t = ({ (E.st n).thr t with
      view := c.pc.look ((E.st n).seen c.pc τ) weak τ (E.st n).m.clock ((E.st n).thr t).view } : CThread K P).wapply c nx := by
    rw [← hs1]; simp only [CState.next, upd_same, hc]
  have hoth : ∀ t', t' ≠ t → (E.st (n + 1)).thr t' = (E.st n).thr t' := by
    intro t' ht'
    rw [← hs1]; simp only [CState.next]; rw [upd_other _ _ ht']
  refine ⟨H1, ?_, ?_⟩
  · intro t'
    by_cases e : t' = t
    · subst e
      have hsess := h.sess t'
      obtain ⟨p0, hp0, hp1⟩ := ci.pin
      have hlt := ci.lt
      have hok := sc.next
      cases nx with
      | fail f =>
        have hf : f = .shallowCollision := hok
        subst hf
        have hthr' : (E.st (n + 1)).thr t' = ({ (E.st n).thr t' with
            pin := none, refs := [], run := none, view := c.pc.look ((E.st n).seen c.pc τ) weak τ (E.st n).m.clock ((E.st n).thr t').view } : CThread K P) := hthr
        refine ⟨by rw [hthr']; exact hsess.noFail, ?_, ?_, ?_⟩
        · intro p hp; rw [hthr'] at hp; cases hp
        · intro c hc; rw [hthr'] at hc; cases hc
        · intro a ha; rw [hthr'] at ha; cases ha
      | goto pc ran =>
        have hpin : ((E.st (n + 1)).thr t').pin = ((E.st n).thr t').pin := by rw [hthr]; rfl
        have hf : ((E.st (n + 1)).thr t').failed = none := by rw [hthr]; exact hsess.noFail
        refine ⟨hf, ?_, ?_, ?_⟩
        · intro p hp; rw [hpin] at hp; have := hsess.pinlt p hp; omega
        · intro c' hc'
          rw [hthr] at hc'
          simp only [CThread.wapply, CThread.apply, Option.some.injEq] at hc'
          subst hc'
          refine ⟨by rw [hpin]; exact ci.pin, by simp only; omega, ci.lab, hok, ?_, ?_⟩
          · intro ℓ hℓ
            exact d.locs ci hn rfl hℓ
          · intro a ha
            exact d.holds ci h.hist rfl ha
        · have : ((E.st (n + 1)).thr t').refs = ((E.st n).thr t').refs := by rw [hthr]; rfl
          rw [this]
          intro a ha
          obtain ⟨p, h1, h2⟩ := hsess.refs a ha
          exact ⟨p, by rw [hpin]; exact h1, h2.mono (Nat.le_succ _)⟩
      | ret r refs =>
        have hpin : ((E.st (n + 1)).thr t').pin = ((E.st n).thr t').pin := by rw [hthr]; rfl
        have hf : ((E.st (n + 1)).thr t').failed = none := by rw [hthr]; exact hsess.noFail
        refine ⟨hf, ?_, ?_, ?_⟩
        · intro p hp; rw [hpin] at hp; have := hsess.pinlt p hp; omega
        · intro c' hc'
          rw [hthr] at hc'
          cases hc'
        · have : ((E.st (n + 1)).thr t').refs = refs ++ ((E.st n).thr t').refs := by rw [hthr]; rfl
          rw [this]
          intro a ha
          rcases List.mem_append.mp ha with ha | ha
          · refine ⟨p0, by rw [hpin]; exact hp0, ?_⟩
            exact (d.refs ci H1 hn rfl (fun b hb => (hok.1 b hb).1) ha).anti (E.V_mono t' (by omega) (by omega))
          · obtain ⟨p, h1, h2⟩ := hsess.refs a ha
            exact ⟨p, by rw [hpin]; exact h1, h2.mono (Nat.le_succ _)⟩
    · have hth := hoth t' e
      exact (h.sess t').keep E hn he (by rw [hth]) (by rw [hth]) (by rw [hth]) (by rw [hth])
  · intro r tr weak' τ' a hr hl' h1 h2
    by_cases e : r = n
    · subst e
      rw [hl] at hl'
      cases hl'
      exact sc.obit a h1 h2
    · exact h.obit r tr weak' τ' a (by omega) hl' h1 h2

theorem WInv.step {n : Nat} (h : E.WInv n) (hn : n < E.len) : E.WInv (n + 1) := by
  have hs := E.step n hn
  have hb := E.base (Nat.le_of_lt hn)
  have hVV : ∀ t ℓ, E.V t n ℓ ≤ E.V t (n + 1) ℓ := fun t => E.V_mono t (Nat.le_succ _) hn
  cases hl : E.lab n with
  | tick t weak τ => exact h.tickStep E hn hl
  | pin t =>
    rw [hl] at hs
    simp only [wstep] at hs
    split at hs
    · next hp hf =>
      simp only [Option.some.injEq, Prod.mk.injEq] at hs
      obtain ⟨hs1, hs2⟩ := hs
      have hm : E.M (n + 1) = (E.M n).bump := by simp only [M]; rw [← hs1]; rfl
      have he : Evo (E.M n) (E.M (n + 1)) := by rw [hm]; exact Evo.bump _
      refine h.plain E hm (by intro t weak τ e; rw [hl] at e; cases e) ?_
      intro t'
      by_cases e : t' = t
      · subst e
        have hthr : (E.st (n + 1)).thr t' = { (E.st n).thr t' with pin := some (E.st n).m.clock, refs := [] } := by
          rw [← hs1]; simp only [CState.next, upd_same]
        refine ⟨by rw [hthr]; exact hf, ?_, ?_, ?_⟩
        · intro p hp; rw [hthr] at hp; injection hp with hp; rw [hb.clock] at hp; omega
        · intro c hc
          rw [hthr] at hc
          obtain ⟨p, hp', -⟩ := ((h.sess t').run c hc).pin
          rw [hp] at hp'; cases hp'
        · intro a ha; rw [hthr] at ha; cases ha
      · exact SessInv.other E h.sess hn he hs1.symm e
    · cases hs
  | unpin t =>
    rw [hl] at hs
    simp only [wstep] at hs
    split at hs
    · next hp hr hf =>
      simp only [Option.some.injEq, Prod.mk.injEq] at hs
      obtain ⟨hs1, hs2⟩ := hs
      have hm : E.M (n + 1) = (E.M n).bump := by simp only [M]; rw [← hs1]; rfl
      have he : Evo (E.M n) (E.M (n + 1)) := by rw [hm]; exact Evo.bump _
      refine h.plain E hm (by intro t weak τ e; rw [hl] at e; cases e) ?_
      intro t'
      by_cases e : t' = t
      · subst e
        have hthr : (E.st (n + 1)).thr t' = { (E.st n).thr t' with pin := none, refs := [] } := by
          rw [← hs1]; simp only [CState.next, upd_same]
        refine ⟨by rw [hthr]; exact hf, ?_, ?_, ?_⟩
        · intro p hp; rw [hthr] at hp; cases hp
        · intro c hc; rw [hthr] at hc; simp only [hr] at hc; cases hc
        · intro a ha; rw [hthr] at ha; cases ha
      · exact SessInv.other E h.sess hn he hs1.symm e
    · cases hs
  | call t r =>
    rw [hl] at hs
    simp only [wstep] at hs
    split at hs
    · next p hp hr hf =>
      simp only [Option.some.injEq, Prod.mk.injEq] at hs
      obtain ⟨hs1, hs2⟩ := hs
      have hm : E.M (n + 1) = (E.M n).bump := by simp only [M]; rw [← hs1]; rfl
      have he : Evo (E.M n) (E.M (n + 1)) := by rw [hm]; exact Evo.bump _
      refine h.plain E hm (by intro t weak τ e; rw [hl] at e; cases e) ?_
      intro t'
      by_cases e : t' = t
      · subst e
        have hthr : (E.st (n + 1)).thr t' = { (E.st n).thr t' with run := some ⟨(E.st n).m.clock, r, hStartPC (E.hash n) r, 0, 0⟩ } := by
          rw [← hs1]; simp only [CState.next, upd_same]
        have hp1 : ((E.st (n + 1)).thr t').pin = some p := by rw [hthr]; exact hp
        refine ⟨by rw [hthr]; exact hf, ?_, ?_, ?_⟩
        · intro p' hp'; rw [hthr] at hp'; have := (h.sess t').pinlt p' hp'; omega
        · intro c hc
          rw [hthr] at hc
          simp only [Option.some.injEq, hb.clock] at hc
          subst hc
          refine ⟨⟨p, hp1, (h.sess t').pinlt p hp⟩, Nat.lt_succ_self n, hl, hStartPC_ok _ r, ?_, ?_⟩
          · intro ℓ hℓ
            have := hStartPC_loc hℓ
            subst this
            exact ⟨[], WReached.root (hVV t')⟩
          · intro a ha; exact (hStartPC_holds ha).elim
        · intro a ha
          rw [hthr] at ha
          obtain ⟨p', h1, h2⟩ := (h.sess t').refs a ha
          exact ⟨p', by rw [hthr]; exact h1, h2.mono (Nat.le_succ _)⟩
      · exact SessInv.other E h.sess hn he hs1.symm e
    · cases hs
  | abort t =>
    rw [hl] at hs
    simp only [wstep] at hs
    split at hs
    · cases hs
    · next c0 hr =>
      simp only [Option.some.injEq, Prod.mk.injEq] at hs
      obtain ⟨hs1, hs2⟩ := hs
      have hm : E.M (n + 1) = (E.M n).bump := by simp only [M]; rw [← hs1]; rfl
      have he : Evo (E.M n) (E.M (n + 1)) := by rw [hm]; exact Evo.bump _
      refine h.plain E hm (by intro t weak τ e; rw [hl] at e; cases e) ?_
      intro t'
      by_cases e : t' = t
      · subst e
        have hthr : (E.st (n + 1)).thr t' = { (E.st n).thr t' with pin := none, refs := [], run := none } := by
          rw [← hs1]; simp only [CState.next, upd_same]
        refine ⟨by rw [hthr]; exact (h.sess t').noFail, ?_, ?_, ?_⟩
        · intro p hp; rw [hthr] at hp; cases hp
        · intro c hc; rw [hthr] at hc; cases hc
        · intro a ha; rw [hthr] at ha; cases ha
      · exact SessInv.other E h.sess hn he hs1.symm e
  | sync t t2 τ =>
    rw [hl] at hs
    simp only [wstep, Option.some.injEq, Prod.mk.injEq] at hs
    obtain ⟨hs1, hs2⟩ := hs
    have hm : E.M (n + 1) = (E.M n).bump := by simp only [M]; rw [← hs1]; rfl
    have he : Evo (E.M n) (E.M (n + 1)) := by rw [hm]; exact Evo.bump _
    refine h.plain E hm (by intro t weak τ e; rw [hl] at e; cases e) ?_
    intro t'
    by_cases e : t' = t
    · subst e
      have hthr : (E.st (n + 1)).thr t' = { (E.st n).thr t' with
          view := fun l => max (((E.st n).thr t').view l) ((E.st n).viewAt τ t2 l) } := by
        rw [← hs1]; simp only [CState.next, upd_same]
      exact (h.sess t').keep E hn he (by rw [hthr]) (by rw [hthr]) (by rw [hthr]) (by rw [hthr])
    · exact SessInv.other E h.sess hn he hs1.symm e
  | free a =>
    rw [hl] at hs
    simp only [wstep, Option.some.injEq, Prod.mk.injEq] at hs
    obtain ⟨hs1, hs2⟩ := hs
    have hm : E.M (n + 1) = (E.M n).bump := by simp only [M]; rw [← hs1]; rfl
    have he : Evo (E.M n) (E.M (n + 1)) := by rw [hm]; exact Evo.bump _
    refine h.plain E hm (by intro t weak τ e; rw [hl] at e; cases e) ?_
    intro t'
    have hthr : (E.st (n + 1)).thr t' = (E.st n).thr t' := by
      rw [← hs1]; simp only [CState.next, upd_self]
    exact (h.sess t').keep E hn he (by rw [hthr]) (by rw [hthr]) (by rw [hthr]) (by rw [hthr])
  | idle =>
    rw [hl] at hs
    simp only [wstep, Option.some.injEq, Prod.mk.injEq] at hs
    obtain ⟨hs1, hs2⟩ := hs
    have hm : E.M (n + 1) = (E.M n).bump := by simp only [M]; rw [← hs1]; rfl
    have he : Evo (E.M n) (E.M (n + 1)) := by rw [hm]; exact Evo.bump _
    refine h.plain E hm (by intro t weak τ e; rw [hl] at e; cases e) ?_
    intro t'
    have hthr : (E.st (n + 1)).thr t' = (E.st n).thr t' := by
      rw [← hs1]; simp only [CState.next, upd_self]
    exact (h.sess t').keep E hn he (by rw [hthr]) (by rw [hthr]) (by rw [hthr]) (by rw [hthr])

theorem winv {n : Nat} (hn : n ≤ E.len) : E.WInv n := by
  induction n with
  | zero => exact WInv.zero E
  | succ n ih => exact (ih (by omega)).step E hn
end WExec
end Contrie
