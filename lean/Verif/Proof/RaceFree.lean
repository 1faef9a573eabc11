import Verif.Proof.PrintRest
import Verif.Proof.CohSolo
import Verif.Proof.Extra
/-
The coherent machine: when every step knows of all steps of updates before it, the execution is one of the sequentially consistent machine.
-/
set_option linter.unusedSectionVars false
namespace Contrie
variable {K P : Type} [DecidableEq K] {cfg : Config K P}

/-- A session without its view. -/
def CThread.strong (th : CThread K P) : Thread K P := ⟨th.pin, th.refs, th.run, th.failed⟩

/-- The state without views and past. -/
def CState.strong (s : CState K P) : State K P := ⟨s.m, fun t => (s.thr t).strong⟩

/-- The label without the choice of the value loaded; nothing is left of synchronisation. -/
def CLabel.strong : CLabel K P → Label K P
  | .pin t => .pin t
  | .unpin t => .unpin t
  | .call t r => .call t r
  | .tick t weak _ => .tick t weak
  | .abort t => .abort t
  | .sync _ _ _ => .idle
  | .free a => .free a
  | .idle => .idle

theorem strong_next (s : CState K P) (m' : Mem P) (t : Nat) (th : CThread K P) :
    (s.next m' t th).strong = ⟨m'.bump, upd s.strong.thr t th.strong⟩ := by
  simp only [CState.next, CState.strong]
  congr 1
  funext t'
  by_cases e : t' = t
  · subst e; simp
  · simp [upd_other _ _ e]

theorem strong_upd_self (s : CState K P) (t : Nat) (th : CThread K P) (h : th.strong = (s.thr t).strong) : upd s.strong.thr t th.strong = s.strong.thr := by
  funext t'
  by_cases e : t' = t
  · subst e; simp [h, CState.strong]
  · simp [upd_other _ _ e]

theorem strong_apply (th : CThread K P) (c : Call K P) (n : Next K P) : (th.apply c n).strong = th.strong.apply c n := by
  cases n <;> rfl

/-- A storing step belongs to an update. -/
theorem writes_update {A : Nat → AMap K P} {m : Mem P} {weak : Bool} {c : Call K P} (hi : PCInv cfg A m c) (hw : c.pc.writes m weak = true) :
    c.req.isUpdate = true := by
  have cont : ∀ {k : Cont K P} {s n}, ContOK cfg m s c.req n k → c.req.isUpdate = true := by
    intro k s n h
    cases k with
    | clean deleted ref rest => obtain ⟨⟨⟨k, hk⟩, -⟩, -⟩ := h; rw [hk]; rfl
    | trav => exact TravReq.upd h.1
    | rem => rw [h.1]; rfl
  cases hpc : c.pc with
  | travCas st hash mode shift cur parent node new kind =>
    simp only [PCInv, hpc] at hi
    obtain ⟨d, -, ht, -⟩ := hi
    exact ht.req.upd
  | remCas key shift cur levels node new deleted =>
    simp only [PCInv, hpc] at hi
    rw [hi.1]; rfl
  | prune parent child i acc k =>
    simp only [PCInv, hpc] at hi
    exact cont hi.1
  | pruneCas parent child acc k =>
    simp only [PCInv, hpc] at hi
    exact cont hi.1
  | _ =>
    rw [hpc] at hw
    simp only [PC.writes] at hw
    split at hw
    · cases hw
    · split at hw <;> cases hw

namespace CExec
variable (E : CExec cfg)

/-- At instant `i`, session `t` knows of all the steps of updates made so far. -/
def UpToDate (t i : Nat) : Prop :=
  ∀ r t' weak τ c, r < i → E.lab r = .tick t' weak τ → ((E.st r).thr t').run = some c → c.req.isUpdate = true → HB E.lab E.len (t', r + 1) (t, i)

/-- A cell that is changed is changed by an update, and the session that changes it has seen the change. -/
theorem cell_kept_upd {i : Nat} (hi : i < E.len) {ℓ : Loc} {w : Word} (h : (E.M i).read ℓ = some w) :
    (E.M (i + 1)).read ℓ = some w ∨ ∃ t weak τ c, E.lab i = .tick t weak τ ∧ ((E.st i).thr t).run = some c ∧ c.req.isUpdate = true ∧ E.V t (i + 1) ℓ = i + 1 := by
  rcases E.cell_kept hi h with h' | ⟨t, weak, τ, c, h1, h2, h3⟩
  · exact .inl h'
  · have hI := E.cinv (Nat.le_of_lt hi)
    cases hI.did E hi h1 h2 with
    | store ℓ' o p w' σ ha hτ hw hnx hm hv hW hread hch hl' =>
      have ci := (hI.sess t).run c h2
      have hp : PCInv cfg E.A (E.M i) { c with inv := 0 } := by
        refine PCOK.inv (E := E) ci.pc ?_
        intro lv out e
        rw [e] at hw
        simp only [PC.writes] at hw
        split at hw
        · cases hw
        · split at hw <;> cases hw
      exact .inr ⟨t, weak, τ, c, h1, h2, writes_update (c := { c with inv := 0 }) hp hw, h3⟩
    | load ℓ' o p w' mw σ ha hτ hw hnx hm => left; rw [hm, read_bump]; exact h
    | silent ha hnx hm => left; rw [hm, read_bump]; exact h

/-- Who is up to date sees the present. -/
theorem UpToDate.read {t i : Nat} (hk : E.UpToDate t i) (hi : i ≤ E.len) {ℓ : Loc} {τ : Nat} (hv : E.V t i ℓ ≤ τ) (hτ : τ ≤ i) {w : Word}
    (h : (E.M τ).read ℓ = some w) : (E.M i).read ℓ = some w := by
  have : ∀ n, τ ≤ n → n ≤ i → (E.M n).read ℓ = some w := by
    intro n hn
    induction hn with
    | refl => intro _; exact h
    | @step n hn ih =>
      intro hle
      rcases E.cell_kept_upd (i := n) (by omega) (ih (by omega)) with h' | ⟨t', weak, τ', c, h1, h2, h3, h4⟩
      · exact h'
      · exfalso
        obtain ⟨-, b⟩ := E.hb (hk n t' weak τ' c (by omega) h1 h2 h3) hi
        have := b ℓ
        have hn' : τ ≤ n := hn
        simp only at this
        omega
  exact this i hτ (Nat.le_refl _)

/-- Then its step is one of the sequentially consistent machine. -/
theorem UpToDate.seen {t i : Nat} (hk : E.UpToDate t i) (hi : i < E.len) {weak : Bool} {τ : Nat} (hl : E.lab i = .tick t weak τ) {c : Call K P}
    (hc : ((E.st i).thr t).run = some c) : (E.st i).seen c.pc τ = (E.st i).m := by
  have hb := E.base (Nat.le_of_lt hi)
  have hI := E.cinv (Nat.le_of_lt hi)
  have ci := (hI.sess t).run c hc
  simp only [CState.seen]
  cases ha : c.pc.access .code with
  | none => rfl
  | some x =>
    obtain ⟨ℓ, o⟩ := x
    obtain ⟨hτn, hVτ⟩ := E.looks hi hb hl hc ha
    simp only [Option.bind_some, hb.memAt E hτn]
    cases hr : (E.st τ).m.read ℓ with
    | none => rfl
    | some w =>
      have hM : ∀ {n}, (∀ a, ℓ.node = some a → (E.st n).m.freed a = false) → (E.M n).read ℓ = (E.st n).m.read ℓ := fun h => (thaw_read h).symm
      have h1 : (E.M τ).read ℓ = some w := by
        rw [hM, hr]
        intro a hna
        cases ℓ with
        | root => cases hna
        | slot b j =>
          cases hna
          cases hf : (E.st τ).m.freed a with
          | false => rfl
          | true => simp [Mem.read, Mem.deref, hf] at hr
      have h2 := hk.read E (Nat.le_of_lt hi) hVτ hτn h1
      rw [hM] at h2
      · exact write_same h2
      · intro a hna
        obtain ⟨p0, hp0, hp1⟩ := ci.pin
        have hclt : c.inv ≤ E.len := by have := ci.lt; omega
        exact hI.alive E (Nat.le_of_lt hi) hp0 ((ci.holds a (access_holds ha hna)).anti (E.V_mono t (by omega) hclt))

theorem step_strong {i : Nat} (hi : i < E.len) (hk : ∀ t weak τ, E.lab i = .tick t weak τ → E.UpToDate t i) :
    Contrie.step cfg (E.st i).strong (E.lab i).strong = some ((E.st (i + 1)).strong, E.ev i) := by
  have hs := E.step i hi
  cases hl : E.lab i with
  | pin t =>
    rw [hl] at hs
    simp only [cstep] at hs
    split at hs
    · next h1 h2 =>
      simp only [Option.some.injEq, Prod.mk.injEq] at hs
      rw [← hs.1, ← hs.2, strong_next]
      simp only [CLabel.strong, Contrie.step, CState.strong, CThread.strong, h1, h2]
    · cases hs
  | unpin t =>
    rw [hl] at hs
    simp only [cstep] at hs
    split at hs
    · next h1 h2 h3 =>
      simp only [Option.some.injEq, Prod.mk.injEq] at hs
      rw [← hs.1, ← hs.2, strong_next]
      simp only [CLabel.strong, Contrie.step, CState.strong, CThread.strong, h1, h2, h3]
    · cases hs
  | call t r =>
    rw [hl] at hs
    simp only [cstep] at hs
    split at hs
    · next h1 h2 h3 =>
      simp only [Option.some.injEq, Prod.mk.injEq] at hs
      rw [← hs.1, ← hs.2, strong_next]
      simp only [CLabel.strong, Contrie.step, CState.strong, CThread.strong, h1, h2, h3]
    · cases hs
  | tick t weak τ =>
    rw [hl] at hs
    simp only [cstep] at hs
    split at hs
    · cases hs
    · next c hc =>
      simp only [Option.some.injEq, Prod.mk.injEq] at hs
      have hseen := (hk t weak τ hl).seen E hi hl hc
      rw [hseen] at hs
      rw [← hs.1, ← hs.2, strong_next, strong_apply]
      have hm : (if τ = (E.st i).m.clock then (tick cfg (E.st i).m weak c.pc).1 else (E.st i).m) = (tick cfg (E.st i).m weak c.pc).1 := by
        split
        · rfl
        · next hne =>
          have he := E.enabled i hi
          rw [hl] at he
          rcases he with he | ⟨-, c', ℓ', o', h2, h3, -, -, h6⟩
          · exact absurd he hne
          · rw [hc] at h2; cases h2
            rw [hseen] at h6
            rw [tick_quiet cfg _ weak h6]
      rw [hm]
      simp only [CLabel.strong, Contrie.step, CState.strong, CThread.strong, hc]
  | abort t =>
    rw [hl] at hs
    simp only [cstep] at hs
    split at hs
    · cases hs
    · next c hc =>
      simp only [Option.some.injEq, Prod.mk.injEq] at hs
      rw [← hs.1, ← hs.2, strong_next]
      simp only [CLabel.strong, Contrie.step, CState.strong, CThread.strong, hc]
  | sync t t' τ =>
    rw [hl] at hs
    simp only [cstep, Option.some.injEq, Prod.mk.injEq] at hs
    rw [← hs.1, ← hs.2, strong_next, strong_upd_self]
    · rfl
    · rfl
  | free a =>
    rw [hl] at hs
    simp only [cstep, Option.some.injEq, Prod.mk.injEq] at hs
    rw [← hs.1, ← hs.2, strong_next, strong_upd_self]
    · rfl
    · rfl
  | idle =>
    rw [hl] at hs
    simp only [cstep, Option.some.injEq, Prod.mk.injEq] at hs
    rw [← hs.1, ← hs.2, strong_next, strong_upd_self]
    · rfl
    · rfl

theorem pin_lab {n : Nat} (hn : n ≤ E.len) {t p : Nat} (hp : ((E.st n).thr t).pin = some p) : E.lab p = .pin t := by
  induction n with
  | zero => rw [E.init] at hp; cases hp
  | succ n ih =>
    have hs := E.step n (by omega)
    have key : ∀ t0 m' th, E.st (n + 1) = (E.st n).next m' t0 th → (th.pin = ((E.st n).thr t0).pin ∨ th.pin = none) → E.lab p = .pin t := by
      intro t0 m' th e h
      rw [e] at hp
      simp only [CState.next] at hp
      by_cases e' : t = t0
      · subst e'
        rw [upd_same] at hp
        rcases h with h | h
        · exact ih (by omega) (by rw [← h, hp])
        · rw [h] at hp; cases hp
      · rw [upd_other _ _ e'] at hp; exact ih (by omega) hp
    cases hl : E.lab n with
    | pin t0 =>
      rw [hl] at hs
      simp only [cstep] at hs
      split at hs
      · simp only [Option.some.injEq, Prod.mk.injEq] at hs
        rw [← hs.1] at hp
        simp only [CState.next] at hp
        by_cases e' : t = t0
        · subst e'
          rw [upd_same] at hp
          simp only [Option.some.injEq] at hp
          rw [← hp, (E.base (n := n) (by omega)).clock, hl]
        · rw [upd_other _ _ e'] at hp; exact ih (by omega) hp
      · cases hs
    | unpin t0 =>
      rw [hl] at hs
      simp only [cstep] at hs
      split at hs
      · simp only [Option.some.injEq, Prod.mk.injEq] at hs
        exact key _ _ _ hs.1.symm (.inr rfl)
      · cases hs
    | call t0 r =>
      rw [hl] at hs
      simp only [cstep] at hs
      split at hs
      · simp only [Option.some.injEq, Prod.mk.injEq] at hs
        exact key _ _ _ hs.1.symm (.inl rfl)
      · cases hs
    | tick t0 weak τ =>
      rw [hl] at hs
      simp only [cstep] at hs
      split at hs
      · cases hs
      · simp only [Option.some.injEq, Prod.mk.injEq] at hs
        exact key _ _ _ hs.1.symm (.inl (apply_pin _ _ _))
    | abort t0 =>
      rw [hl] at hs
      simp only [cstep] at hs
      split at hs
      · cases hs
      · simp only [Option.some.injEq, Prod.mk.injEq] at hs
        exact key _ _ _ hs.1.symm (.inr rfl)
    | sync t0 t' τ =>
      rw [hl] at hs
      simp only [cstep, Option.some.injEq, Prod.mk.injEq] at hs
      exact key _ _ _ hs.1.symm (.inl rfl)
    | free a =>
      rw [hl] at hs
      simp only [cstep, Option.some.injEq, Prod.mk.injEq] at hs
      exact key _ _ _ hs.1.symm (.inl rfl)
    | idle =>
      rw [hl] at hs
      simp only [cstep, Option.some.injEq, Prod.mk.injEq] at hs
      exact key _ _ _ hs.1.symm (.inl rfl)

theorem enabled_strong {i : Nat} (hi : i < E.len) : (E.lab i).strong.enabled (E.st i).strong := by
  cases hl : E.lab i with
  | free a =>
    obtain ⟨r, tr, weak, τ, h1, h2, h3, h4, h5⟩ := E.gc i a hi hl
    have H := (E.cinv (n := i) (by omega)).hist
    have hr : (E.M (r + 1)).retired a = some r := by
      cases hr : (E.M (r + 1)).retired a with
      | none => exact absurd hr h4
      | some r' =>
        have := (H.evo r (by omega)).retNew a r' h3 hr
        rw [H.clock r (by omega)] at this
        rw [this]
    refine ⟨r, H.retired (by omega) (Nat.le_refl i) hr, ?_⟩
    intro t p hp
    have hp' : ((E.st i).thr t).pin = some p := hp
    have hlt := ((E.cinv (n := i) (by omega)).sess t).pinlt p hp'
    obtain ⟨b, -⟩ := E.hb (h5 i t p (Nat.le_refl _) (Nat.le_of_lt hi) hp') (by simp only; omega)
    simp only at b
    by_cases e : r = p
    · subst e
      rw [E.pin_lab (Nat.le_of_lt hi) hp'] at h2; cases h2
    · omega
  | _ => trivial

/-- An execution in which every step is up to date is sequentially consistent. -/
theorem strong (hk : ∀ i t weak τ, i < E.len → E.lab i = .tick t weak τ → E.UpToDate t i) : ∃ E' : Exec cfg,
    (∀ i, i ≤ E.len → E'.st i = (E.st i).strong) ∧ (∀ i, i < E.len → E'.lab i = (E.lab i).strong ∧ E'.ev i = E.ev i) ∧
    (∀ i, E.len ≤ i → E'.lab i = .idle ∧ E'.ev i = none) := by
  let sti : Nat → State K P := fun i => if i ≤ E.len then (E.st i).strong else
    ⟨{ (E.st E.len).m with clock := (E.st E.len).m.clock + (i - E.len) }, (E.st E.len).strong.thr⟩
  have hlast : ∀ i, E.len ≤ i → sti i = ⟨{ (E.st E.len).m with clock := (E.st E.len).m.clock + (i - E.len) }, (E.st E.len).strong.thr⟩ := by
    intro i hi
    by_cases e : i = E.len
    · subst e; simp only [sti, Nat.le_refl, if_true, Nat.sub_self, Nat.add_zero]; rfl
    · simp only [sti]; rw [if_neg (by omega)]
  refine ⟨⟨sti, fun i => if i < E.len then (E.lab i).strong else .idle, fun i => if i < E.len then E.ev i else none, ?_, ?_, ?_, ?_⟩, ?_, ?_, ?_⟩
  · simp only [sti, Nat.zero_le, if_true, E.init]; rfl
  · intro i
    by_cases hi : i < E.len
    · simp only [hi, if_true]
      have h1 : sti i = (E.st i).strong := by simp only [sti]; rw [if_pos (by omega)]
      have h2 : sti (i + 1) = (E.st (i + 1)).strong := by simp only [sti]; rw [if_pos (by omega)]
      rw [h1, h2]
      exact E.step_strong hi (fun t weak τ hl => hk i t weak τ hi hl)
    · simp only [hi, if_false]
      rw [hlast i (by omega), hlast (i + 1) (by omega)]
      simp only [Contrie.step, Mem.bump, Nat.add_assoc]
      rw [show i + 1 - E.len = i - E.len + 1 by omega]
  · intro i
    by_cases hi : i < E.len
    · simp only [hi, if_true]
      have h1 : sti i = (E.st i).strong := by simp only [sti]; rw [if_pos (by omega)]
      rw [h1]; exact E.enabled_strong hi
    · simp only [hi, if_false]; trivial
  · intro i
    by_cases hi : i < E.len
    · simp only [hi, if_true]
      have := E.wf i hi
      cases hl : E.lab i with
      | call t r => rw [hl] at this; cases r <;> exact this
      | _ => trivial
    · simp only [hi, if_false]; trivial
  · intro i hi
    simp only [sti]; rw [if_pos hi]
  · intro i hi; simp [hi]
  · intro i hi; simp [Nat.not_lt.2 hi]
end CExec
end Contrie
