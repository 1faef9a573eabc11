import Verif.Proof.FineWeakKeep
/-
The fine machine under weak memory is simulated by the coarse one: the coarse machine makes its step when the fine one makes the access.
-/
set_option linter.unusedSectionVars false
set_option linter.unusedSimpArgs false
set_option linter.unusedVariables false
namespace Contrie
variable {K P : Type} [DecidableEq K] {cfg : Config K P}

/-- The access has been made in step `r`, the rest has not yet been done at instant `n`; `th` is the session in the fine machine. -/
structure Pend (cfg : Config K P) (A : Nat → CState K P) (L : Nat → CLabel K P) (EV : Nat → Option (Event K P)) (n t : Nat) (th : CThread K P) (w : Word) (ok : Bool) (own : Option Nat)
    (r : Nat) (c : Call K P) (weak : Bool) (τ p0 : Nat) : Prop where
  lt : r < n
  lab : L r = .tick t weak τ
  run : ((A r).thr t).run = some c
  pin : ((A r).thr t).pin = some p0
  frun : th.run = some c
  fpin : th.pin = some p0
  split : ∃ mf mf', Split cfg ((A r).seen c.pc τ) mf weak own c.pc (tick cfg ((A r).seen c.pc τ) weak c.pc).1 (tick cfg ((A r).seen c.pc τ) weak c.pc).2 mf' w ok
  now : ok = true → τ = (A r).m.clock
  own : ∀ a, own = some a → a = (A r).m.next
  ev : EV r = (tick cfg ((A r).seen c.pc τ) weak c.pc).2.event c.inv
  thr : (A n).thr t = th.apply c (tick cfg ((A r).seen c.pc τ) weak c.pc).2

theorem CExec.tick_mem (E : CExec cfg) {r t τ : Nat} {weak : Bool} {c : Call K P} (hr : r < E.len) (hl : E.lab r = .tick t weak τ) (hc : ((E.st r).thr t).run = some c)
    (hτ : τ = (E.st r).m.clock) : (E.st (r + 1)).m = (tick cfg ((E.st r).seen c.pc τ) weak c.pc).1.bump := by
  have hs := E.step r hr
  rw [hl] at hs
  simp only [cstep, hc, if_pos hτ, Option.some.injEq, Prod.mk.injEq] at hs
  rw [← hs.1]; rfl

section
variable {E : CExec cfg} {EV : Nat → Option (Event K P)} {t : Nat} {th : CThread K P} {w : Word} {ok : Bool} {own : Option Nat} {r : Nat} {c : Call K P} {weak : Bool} {τ p0 : Nat}

/-- The rest of the step does what the coarse machine did at once. -/
theorem Pend.rest {n : Nat} (hn : n ≤ E.len) (h : Pend cfg E.st E.lab EV n t th w ok own r c weak τ p0) {m : Mem P} (hm : MEq (E.st n).m m) :
    c.pc.fineNext cfg m w ok own = (tick cfg ((E.st r).seen c.pc τ) weak c.pc).2 := by
  obtain ⟨mf, mf', hs⟩ := h.split
  have hlt := h.lt
  have hrl : r < E.len := by omega
  have hpn : ((E.st n).thr t).pin = some p0 := by rw [h.thr, apply_pin]; exact h.fpin
  have hpl := ((E.cinv (n := r) (by omega)).sess t).pinlt p0 h.pin
  have hb := E.blank (n := r) (by omega)
  have hbs : Blank ((E.st r).seen c.pc τ) := hb.see _
  have hst := (seen_stay (E.st r) c.pc τ).trans (tick_stay cfg hbs.mem weak c.pc)
  have H := (E.cinv hn).hist
  refine hs.next m ?_ ?_
  · intro a items ha hd
    obtain ⟨k1, k2⟩ := E.found_kept hrl (Nat.le_of_lt hlt) hn h.lab h.run h.pin hpn hs.word ha
    rw [hm.deref]
    obtain ⟨-, hd⟩ := deref_some.mp hd
    obtain ⟨nd, hnd⟩ := Option.ne_none_iff_exists'.mp k2
    cases nd with
    | data l =>
      rw [hst.1 a l hnd] at hd
      cases hd
      have : (E.st n).m.mem a = some (.data items) := H.data (Nat.le_of_lt hlt) (Nat.le_refl n) hnd
      exact deref_some.mpr ⟨k1, this⟩
    | inner c' q =>
      obtain ⟨c'', h1⟩ := hst.2 a c' q hnd
      rw [h1] at hd; cases hd
  · intro hok a items ha hd
    have ha : own = some a := ha
    rw [hm.deref]
    obtain ⟨-, hd⟩ := deref_some.mp hd
    have hmem := E.tick_mem hrl h.lab h.run (h.now hok)
    have h1 : (E.st (r + 1)).m.mem a = some (.data items) := by rw [hmem]; exact hd
    have h2 : (E.st n).m.mem a = some (.data items) := H.data (show r + 1 ≤ n by omega) (Nat.le_refl n) h1
    refine deref_some.mpr ⟨E.own_kept (r := r) (by omega) hn hpl hpn ?_, h2⟩
    rw [h.own a ha]; exact hb.retired

/-- What the fine machine has to hand over was retired by the coarse machine in the access. -/
theorem Pend.retire {n : Nat} (hn : n ≤ E.len) (h : Pend cfg E.st E.lab EV n t th w ok own r c weak τ p0) (hok : ok = true) {a : Nat} (ha : c.pc.unlinks = some a) :
    (E.st r).m.retired a = none ∧ (E.st (r + 1)).m.retired a ≠ none := by
  obtain ⟨mf, mf', hs⟩ := h.split
  have hlt := h.lt
  have hrl : r < E.len := by omega
  have h1 := hs.unl hok a ha
  have hcl : ((E.st r).seen c.pc τ).clock = r := by
    simp only [CState.seen]; rw [see_clock, (E.base (n := r) (by omega)).clock]
  rw [hcl] at h1
  have hmem := E.tick_mem hrl h.lab h.run (h.now hok)
  have h2 : (E.st (r + 1)).m.retired a = some r := by rw [hmem]; exact h1
  refine ⟨?_, by rw [h2]; simp⟩
  cases hv : (E.st r).m.retired a with
  | none => rfl
  | some v =>
    exfalso
    have h3 := E.ret_lt (Nat.le_of_lt hrl) hv
    have h4 : (E.st (r + 1)).m.retired a = some v := ((E.cinv hn).hist.evo r (by omega)).retOld a v hv
    rw [h2] at h4
    cases h4
    omega

end

namespace FCExec
variable (R : FCExec cfg)

/-- What the coarse machine does: its step when the access is made, nothing when the rest is done. (If a call is abandoned after its last access, it has returned in the coarse machine.) -/
def coarseLab (f : FCState K P) (sa : CState K P) : CLabel K P → CLabel K P
  | .tick t weak τ => if (f.got t).isSome then .idle else .tick t weak τ
  | .abort t => if (sa.thr t).run.isNone then .unpin t else .abort t
  | l => l

/-- The coarse machine. -/
def absSt : Nat → CState K P
  | 0 => CState.init
  | n + 1 => match cstep cfg (absSt n) (coarseLab (R.st n) (absSt n) (R.lab n)) with
    | some (s, _) => s
    | none => absSt n

def absLab (n : Nat) : CLabel K P := coarseLab (R.st n) (R.absSt n) (R.lab n)

def absEv (n : Nat) : Option (Event K P) :=
  match cstep cfg (R.absSt n) (R.absLab n) with
  | some (_, e) => e
  | none => none

/-- The coarse and the fine machine at instant `n`. -/
structure Rel (n : Nat) : Prop where
  mem : MEq (R.absSt n).m (R.st n).s.m
  past : ∀ τ, τ < n → MEq ((R.absSt n).past τ) ((R.st n).s.past τ)
  pastView : ∀ τ, τ < n → (R.absSt n).pastView τ = (R.st n).s.pastView τ
  thr : ∀ t, (R.st n).got t = none → (R.absSt n).thr t = (R.st n).s.thr t
  pend : ∀ t w ok own, (R.st n).got t = some (w, ok, own) → ∃ r c weak τ p0, Pend cfg R.absSt R.absLab R.absEv n t ((R.st n).s.thr t) w ok own r c weak τ p0 ∧
    ∀ i, r < i → i ≤ n → (R.st i).got t ≠ none

variable {R} {n : Nat}

theorem Rel.view (h : R.Rel n) (t : Nat) : ((R.absSt n).thr t).view = ((R.st n).s.thr t).view := by
  cases hg : (R.st n).got t with
  | none => rw [h.thr t hg]
  | some x =>
    obtain ⟨w, ok, own⟩ := x
    obtain ⟨r, c, weak, τ, p0, hp, hbt⟩ := h.pend t w ok own hg
    rw [hp.thr, apply_view]

theorem Rel.pin (h : R.Rel n) (t : Nat) : ((R.absSt n).thr t).pin = ((R.st n).s.thr t).pin := by
  cases hg : (R.st n).got t with
  | none => rw [h.thr t hg]
  | some x =>
    obtain ⟨w, ok, own⟩ := x
    obtain ⟨r, c, weak, τ, p0, hp, hbt⟩ := h.pend t w ok own hg
    rw [hp.thr, apply_pin]

theorem Rel.idle (h : R.Rel n) {t : Nat} (ht : ((R.st n).s.thr t).pin = none ∨ ((R.st n).s.thr t).run = none) : (R.st n).got t = none := by
  cases hg : (R.st n).got t with
  | none => rfl
  | some x =>
    obtain ⟨w, ok, own⟩ := x
    obtain ⟨r, c, weak, τ, p0, hp, hbt⟩ := h.pend t w ok own hg
    rcases ht with e | e
    · rw [hp.fpin] at e; cases e
    · rw [hp.frun] at e; cases e

theorem Rel.next (h : R.Rel n) (hcl : (R.absSt n).m.clock = n) {ma mf : Mem P} {t : Nat} {tha thf : CThread K P} {got' : Nat → Option (Word × Bool × Option Nat)}
    (hA : R.absSt (n + 1) = (R.absSt n).next ma t tha) (hF : R.st (n + 1) = ⟨(R.st n).s.next mf t thf, got'⟩) (hm : MEq ma mf)
    (hg : ∀ t', t' ≠ t → got' t' = (R.st n).got t') (ht : got' t = none → tha = thf)
    (hp : ∀ w ok own, got' t = some (w, ok, own) → ∃ r c weak τ p0, Pend cfg R.absSt R.absLab R.absEv (n + 1) t thf w ok own r c weak τ p0 ∧
      ∀ i, r < i → i ≤ n → (R.st i).got t ≠ none) : R.Rel (n + 1) := by
  have hclf : (R.st n).s.m.clock = n := by rw [h.mem.clock, hcl]
  refine ⟨?_, ?_, ?_, ?_, ?_⟩
  · rw [hA, hF]; exact hm.bump
  · intro τ hτ
    rw [hA, hF]
    simp only [CState.next, hcl, hclf]
    by_cases e : τ = n
    · subst e; simp only [upd_same]; exact h.mem
    · simp only [upd_other _ _ e]; exact h.past τ (by omega)
  · intro τ hτ
    rw [hA, hF]
    simp only [CState.next, hcl, hclf]
    by_cases e : τ = n
    · subst e; simp only [upd_same]; funext t; exact h.view t
    · simp only [upd_other _ _ e]; exact h.pastView τ (by omega)
  · intro t' h'
    rw [hF] at h'
    simp only at h'
    rw [hA, hF]
    simp only [CState.next]
    by_cases e : t' = t
    · subst e; simp only [upd_same]; exact ht h'
    · simp only [upd_other _ _ e]; exact h.thr t' (by rw [← hg t' e]; exact h')
  · intro t' w ok own h'
    rw [hF] at h'
    simp only at h'
    have hthf : (R.st (n + 1)).s.thr = upd (R.st n).s.thr t thf := by rw [hF]; rfl
    have htha : (R.absSt (n + 1)).thr = upd (R.absSt n).thr t tha := by rw [hA]; rfl
    by_cases e : t' = t
    · subst e
      rw [hthf, upd_same]
      obtain ⟨r, c, weak, τ, p0, hpd, hbt⟩ := hp w ok own h'
      refine ⟨r, c, weak, τ, p0, hpd, fun i h1 h2 => ?_⟩
      by_cases e : i ≤ n
      · exact hbt i h1 e
      · have : i = n + 1 := by omega
        subst this
        rw [hF]; simp only; rw [h']; simp
    · rw [hthf, upd_other _ _ e]
      obtain ⟨r, c, weak, τ, p0, hpd, hbt⟩ := h.pend t' w ok own (by rw [← hg t' e]; exact h')
      have hlt := hpd.lt
      refine ⟨r, c, weak, τ, p0, ⟨by omega, hpd.lab, hpd.run, hpd.pin, hpd.frun, hpd.fpin, hpd.split, hpd.now, hpd.own, hpd.ev, by
        rw [htha, upd_other _ _ e]; exact hpd.thr⟩, fun i h1 h2 => ?_⟩
      by_cases ei : i ≤ n
      · exact hbt i h1 ei
      · have : i = n + 1 := by omega
        subst this
        rw [hF]; simp only; rw [h']; simp

theorem Rel.memAt (h : R.Rel n) (hcl : (R.absSt n).m.clock = n) {τ : Nat} (hτ : τ ≤ n) : MEq ((R.absSt n).memAt τ) ((R.st n).s.memAt τ) := by
  have hclf : (R.st n).s.m.clock = n := by rw [h.mem.clock, hcl]
  simp only [CState.memAt, hcl, hclf]
  split
  · exact h.mem
  · exact h.past τ (by omega)

theorem Rel.viewAt (h : R.Rel n) (hcl : (R.absSt n).m.clock = n) {τ : Nat} (hτ : τ ≤ n) (t : Nat) : (R.absSt n).viewAt τ t = (R.st n).s.viewAt τ t := by
  have hclf : (R.st n).s.m.clock = n := by rw [h.mem.clock, hcl]
  simp only [CState.viewAt, hcl, hclf]
  split
  · exact h.view t
  · rw [h.pastView τ (by omega)]

theorem Rel.seen (h : R.Rel n) (hcl : (R.absSt n).m.clock = n) {τ : Nat} (hτ : τ ≤ n) (pc : PC K P) : MEq ((R.absSt n).seen pc τ) ((R.st n).s.seen pc τ) := by
  have := h.memAt hcl hτ
  simp only [CState.seen]
  have e : ((pc.access .code).bind fun x => (((R.st n).s.memAt τ).read x.1).map fun w => (x.1, w)) =
      ((pc.access .code).bind fun x => (((R.absSt n).memAt τ).read x.1).map fun w => (x.1, w)) := by
    cases pc.access .code with
    | none => rfl
    | some x => simp only [Option.bind, this.read]
  rw [e]
  exact h.mem.see _

/-- What is enabled in the fine machine is enabled in the coarse one. -/
theorem Rel.enabled_tick (h : R.Rel n) (hcl : (R.absSt n).m.clock = n) {t τ : Nat} {weak : Bool} (hg : (R.st n).got t = none)
    (he : (CLabel.tick t weak τ : CLabel K P).enabled (R.st n).s) : (CLabel.tick t weak τ : CLabel K P).enabled (R.absSt n) ∧ τ ≤ n := by
  have hclf : (R.st n).s.m.clock = n := by rw [h.mem.clock, hcl]
  rcases he with e | ⟨e1, c, loc, o, e2, e3, e4, e5, e6⟩
  · rw [hclf] at e
    exact ⟨.inl (by rw [hcl]; exact e), Nat.le_of_eq e⟩
  · rw [hclf] at e1
    refine ⟨.inr ⟨by rw [hcl]; exact e1, c, loc, o, ?_, e3, ?_, ?_, ?_⟩, Nat.le_of_lt e1⟩
    · rw [h.thr t hg]; exact e2
    · rw [← (h.memAt hcl (Nat.le_of_lt e1)).read]; exact e4
    · rw [h.view]; exact e5
    · rw [← (h.seen hcl (Nat.le_of_lt e1) c.pc).writes]; exact e6

/-- The coarse machine does a step, too. -/
theorem Rel.go {sa' : CState K P} {e : Option (Event K P)} (h : cstep cfg (R.absSt n) (R.absLab n) = some (sa', e)) : R.absSt (n + 1) = sa' ∧ R.absEv n = e := by
  constructor
  · show (match cstep cfg (R.absSt n) (R.absLab n) with | some (s, _) => s | none => R.absSt n) = sa'
    rw [h]
  · simp only [absEv, h]

theorem sim_step (hn : n < R.len) (E : CExec cfg) (e1 : E.len = n) (e2 : E.st = R.absSt) (e3 : E.lab = R.absLab) (h : R.Rel n) :
    cstep cfg (R.absSt n) (R.absLab n) = some (R.absSt (n + 1), R.absEv n) ∧ (R.absLab n).enabled (R.absSt n) ∧ (R.absLab n).WF cfg ∧ R.Rel (n + 1) := by
  have hcl : (R.absSt n).m.clock = n := by
    have := (E.base (n := n) (by omega)).clock
    rwa [e2] at this
  have hclf : (R.st n).s.m.clock = n := by rw [h.mem.clock, hcl]
  have hs := R.step n hn
  have hen := R.enabled n hn
  have hwf := R.wf n hn
  -- it is enough to know the step
  have fin : ∀ sa' e, cstep cfg (R.absSt n) (R.absLab n) = some (sa', e) → (R.absLab n).enabled (R.absSt n) → (R.absLab n).WF cfg → (R.absSt (n + 1) = sa' → R.absEv n = e → R.Rel (n + 1)) →
      cstep cfg (R.absSt n) (R.absLab n) = some (R.absSt (n + 1), R.absEv n) ∧ (R.absLab n).enabled (R.absSt n) ∧ (R.absLab n).WF cfg ∧ R.Rel (n + 1) := by
    intro sa' e h1 h2 h3 h4
    obtain ⟨g1, g2⟩ := Rel.go h1
    exact ⟨by rw [h1, g1, g2], h2, h3, h4 g1 g2⟩
  cases hl : R.lab n with
  | pin t =>
    rw [hl] at hs
    have hla : R.absLab n = .pin t := by simp only [absLab, hl, coarseLab]
    simp only [fcstep, cstep] at hs
    split at hs
    · next h1 h2 =>
      simp only [Option.map_some, Option.some.injEq, Prod.mk.injEq] at hs
      have hg := h.idle (.inl h1)
      have ht := h.thr t hg
      refine fin _ _ (by rw [hla]; simp only [cstep, ht, h1, h2]; rfl) (by rw [hla]; trivial) (by rw [hla]; trivial) (fun g1 _ => ?_)
      refine h.next hcl g1 hs.1.symm h.mem (fun _ _ => rfl) (fun _ => by rw [hcl, hclf, h2]) (fun w ok own e => ?_)
      rw [hg] at e; cases e
    · cases hs
  | unpin t =>
    rw [hl] at hs
    have hla : R.absLab n = .unpin t := by simp only [absLab, hl, coarseLab]
    simp only [fcstep, cstep] at hs
    split at hs
    · next p h1 h2 h3 =>
      simp only [Option.map_some, Option.some.injEq, Prod.mk.injEq] at hs
      have hg := h.idle (.inr h2)
      have ht := h.thr t hg
      refine fin _ _ (by rw [hla]; simp only [cstep, ht, h1, h2, h3]; rfl) (by rw [hla]; trivial) (by rw [hla]; trivial) (fun g1 _ => ?_)
      refine h.next hcl g1 hs.1.symm h.mem (fun _ _ => rfl) (fun _ => by rw [h2, h3]) (fun w ok own e => ?_)
      rw [hg] at e; cases e
    · cases hs
  | call t r =>
    rw [hl] at hs hwf
    have hla : R.absLab n = .call t r := by simp only [absLab, hl, coarseLab]
    simp only [fcstep, cstep] at hs
    split at hs
    · next p h1 h2 h3 =>
      simp only [Option.map_some, Option.some.injEq, Prod.mk.injEq] at hs
      have hg := h.idle (.inr h2)
      have ht := h.thr t hg
      refine fin _ _ (by rw [hla]; simp only [cstep, ht, h1, h2, h3]; rfl) (by rw [hla]; trivial) (by rw [hla]; exact hwf) (fun g1 _ => ?_)
      refine h.next hcl g1 hs.1.symm h.mem (fun _ _ => rfl) (fun _ => by rw [hcl, hclf, h1, h3]) (fun w ok own e => ?_)
      rw [hg] at e; cases e
    · cases hs
  | sync t t' τ =>
    rw [hl] at hs hen
    have hla : R.absLab n = .sync t t' τ := by simp only [absLab, hl, coarseLab]
    simp only [fcstep, cstep, Option.map_some, Option.some.injEq, Prod.mk.injEq] at hs
    have hτ : τ ≤ n := by
      have : τ ≤ (R.st n).s.m.clock := hen
      rwa [hclf] at this
    refine fin _ _ (by rw [hla]; rfl) (by rw [hla]; show τ ≤ _; rw [hcl]; exact hτ) (by rw [hla]; trivial) (fun g1 _ => ?_)
    refine h.next hcl g1 hs.1.symm h.mem (fun _ _ => rfl) (fun e => ?_) (fun w ok own e => ?_)
    · have e : (R.st n).got t = none := e
      rw [h.thr t e, h.viewAt hcl hτ]
    · obtain ⟨r, c, weak, τ', p0, hp, hbt⟩ := h.pend t w ok own e
      have hlt := hp.lt
      refine ⟨r, c, weak, τ', p0, ⟨by omega, hp.lab, hp.run, hp.pin, hp.frun, hp.fpin, hp.split, hp.now, hp.own, hp.ev, ?_⟩, hbt⟩
      rw [g1]
      simp only [CState.next, upd_same]
      rw [h.viewAt hcl hτ, hp.thr, apply_view]
      cases (tick cfg ((R.absSt r).seen c.pc τ') weak c.pc).2 <;> rfl
  | free a =>
    rw [hl] at hs
    have hla : R.absLab n = .free a := by simp only [absLab, hl, coarseLab]
    simp only [fcstep, cstep, Option.map_some, Option.some.injEq, Prod.mk.injEq] at hs
    refine fin _ _ (by rw [hla]; rfl) (by rw [hla]; trivial) (by rw [hla]; trivial) (fun g1 _ => ?_)
    refine h.next hcl g1 hs.1.symm ⟨h.mem.root, fun b => ?_, h.mem.next, h.mem.clock⟩ (fun _ _ => rfl) (fun e => h.thr 0 e) (fun w ok own e => ?_)
    · by_cases e : b = a
      · subst e; simp [Mem.deref]
      · simpa [Mem.deref, upd_other _ _ e] using h.mem.deref b
    · obtain ⟨r, c, weak, τ', p0, hp, hbt⟩ := h.pend 0 w ok own e
      have hlt := hp.lt
      exact ⟨r, c, weak, τ', p0, ⟨by omega, hp.lab, hp.run, hp.pin, hp.frun, hp.fpin, hp.split, hp.now, hp.own, hp.ev, by rw [g1]; simp only [CState.next, upd_same]; exact hp.thr⟩, hbt⟩
  | idle =>
    rw [hl] at hs
    have hla : R.absLab n = .idle := by simp only [absLab, hl, coarseLab]
    simp only [fcstep, cstep, Option.map_some, Option.some.injEq, Prod.mk.injEq] at hs
    refine fin _ _ (by rw [hla]; rfl) (by rw [hla]; trivial) (by rw [hla]; trivial) (fun g1 _ => ?_)
    refine h.next hcl g1 hs.1.symm h.mem (fun _ _ => rfl) (fun e => h.thr 0 e) (fun w ok own e => ?_)
    obtain ⟨r, c, weak, τ', p0, hp, hbt⟩ := h.pend 0 w ok own e
    have hlt := hp.lt
    exact ⟨r, c, weak, τ', p0, ⟨by omega, hp.lab, hp.run, hp.pin, hp.frun, hp.fpin, hp.split, hp.now, hp.own, hp.ev, by rw [g1]; simp only [CState.next, upd_same]; exact hp.thr⟩, hbt⟩
  | abort t =>
    rw [hl] at hs
    simp only [fcstep] at hs
    split at hs
    · cases hs
    · simp only [cstep] at hs
      split at hs
      · cases hs
      · next c hc =>
        simp only [Option.map_some, Option.some.injEq, Prod.mk.injEq] at hs
        have hth : ∃ r ev p0, cstep cfg (R.absSt n) (R.absLab n) = some ((R.absSt n).next (R.absSt n).m t { (R.absSt n).thr t with pin := none, refs := [], run := none }, none) ∧
            (R.absLab n).enabled (R.absSt n) ∧ (R.absLab n).WF cfg ∧
            ({ (R.absSt n).thr t with pin := none, refs := [], run := none } : CThread K P) = { (R.st n).s.thr t with pin := none, refs := [], run := none } ∧ (r : Nat) = (ev : Nat) + (p0 : Nat) := by
          refine ⟨0, 0, 0, ?_⟩
          cases hr : ((R.absSt n).thr t).run with
          | some c' =>
            have hla : R.absLab n = .abort t := by simp only [absLab, hl, coarseLab, hr]; rfl
            rw [hla]
            refine ⟨by simp only [cstep, hr], trivial, trivial, ?_, rfl⟩
            cases hg : (R.st n).got t with
            | none => rw [h.thr t hg]
            | some x =>
              obtain ⟨w, ok, own⟩ := x
              obtain ⟨r, c, weak, τ', p0, hp, hbt⟩ := h.pend t w ok own hg
              rw [hp.thr] at hr ⊢
              cases hnx : (tick cfg ((R.absSt r).seen c.pc τ') weak c.pc).2 with
              | goto => rfl
              | ret => rfl
              | fail f => rw [hnx] at hr; cases hr
          | none =>
            have hla : R.absLab n = .unpin t := by simp only [absLab, hl, coarseLab, hr]; rfl
            rw [hla]
            have hf : ((R.absSt n).thr t).failed = none := by
              have := C40_no_failure E (n := n) (by omega) t
              rwa [e2] at this
            cases hg : (R.st n).got t with
            | none => rw [h.thr t hg, hc] at hr; cases hr
            | some x =>
              obtain ⟨w, ok, own⟩ := x
              obtain ⟨r, c, weak, τ', p0, hp, hbt⟩ := h.pend t w ok own hg
              have hpin : ((R.absSt n).thr t).pin = some p0 := by rw [h.pin]; exact hp.fpin
              refine ⟨by simp only [cstep, hpin, hr, hf], trivial, trivial, ?_, rfl⟩
              rw [hp.thr] at hf ⊢
              cases hnx : (tick cfg ((R.absSt r).seen c.pc τ') weak c.pc).2 with
              | goto => rfl
              | ret => rfl
              | fail f => rw [hnx] at hf; cases hf
        obtain ⟨-, -, -, g1, g2, g3, g4, -⟩ := hth
        refine fin _ _ g1 g2 g3 (fun g5 _ => ?_)
        refine h.next hcl g5 hs.1.symm h.mem (fun t' e => by rw [upd_other _ _ e]) (fun _ => g4) (fun w ok own e => ?_)
        rw [upd_same] at e; cases e
  | tick t weak τ =>
    rw [hl] at hs hen
    simp only [fcstep] at hs
    split at hs
    · cases hs
    · next c hc =>
      cases hg : (R.st n).got t with
      | none =>
        have hla : R.absLab n = .tick t weak τ := by simp only [absLab, hl, coarseLab, hg]; rfl
        have hen' : (CLabel.tick t weak τ : CLabel K P).enabled (R.st n).s := by
          rcases hen with e | e
          · exact absurd hg e
          · exact e
        obtain ⟨ha, hτ⟩ := h.enabled_tick hcl hg hen'
        have hct : ((R.absSt n).thr t).run = some c := by rw [h.thr t hg]; exact hc
        have hcE : ((E.st E.len).thr t).run = some c := by rw [e1, e2]; exact hct
        have htok : (tick cfg ((R.absSt n).seen c.pc τ) weak c.pc).2.ok := by
          have := E.tick_ok hcE weak (τ := τ) (by rw [e1, e2]; exact ha)
          rwa [e1, e2] at this
        have hbl : Blank (R.absSt n).m := by
          have := E.blank (n := n) (by omega)
          rwa [e2] at this
        have hno : c.pc.newOK := E.newOK (Nat.le_refl _) hcE
        obtain ⟨m', w, ok, a1, a2, a3, a4⟩ := access_step (cfg := cfg) (sa := R.absSt n) (sf := (R.st n).s) h.mem hbl (pc := c.pc) (τ := τ) (weak := weak) (h.seen hcl hτ c.pc) hno htok (by
          intro hne
          rcases ha with e | ⟨-, c', loc, o, b1, -, -, -, b2⟩
          · exact absurd e hne
          · rw [hct] at b1; cases b1; exact b2)
        rw [hg] at hs
        simp only [a1, Option.some.injEq, Prod.mk.injEq] at hs
        refine fin _ _ (by rw [hla]; simp only [cstep, hct]; rfl) (by rw [hla]; exact ha) (by rw [hla]; trivial) (fun g1 g2 => ?_)
        refine h.next hcl g1 hs.1.symm a3 (fun t' e => by rw [upd_other _ _ e]) (fun e => ?_) (fun w' ok' own' e => ?_)
        · rw [upd_same] at e; cases e
        · rw [upd_same] at e
          simp only [Option.some.injEq, Prod.mk.injEq] at e
          obtain ⟨rfl, rfl, rfl⟩ := e
          obtain ⟨p0, hp0, -⟩ := ((((E.cinv (n := n) (by omega)).sess t).run c (by rw [e2]; exact hct))).pin
          rw [e2] at hp0
          refine ⟨n, c, weak, τ, p0, ⟨Nat.lt_succ_self n, hla, hct, hp0, hc, ?_, a4, a2, ?_, g2, ?_⟩, fun i h1 h2 => by omega⟩
          · rw [← h.thr t hg]; exact hp0
          · intro a e
            rw [h.mem.next] at e
            obtain ⟨_, -, e⟩ := Option.map_eq_some_iff.mp e
            exact e.symm
          · rw [g1]
            simp only [CState.next, upd_same]
            rw [h.thr t hg, (h.seen hcl hτ c.pc).look, h.mem.clock]
            cases (tick cfg ((R.absSt n).seen c.pc τ) weak c.pc).2 <;> rfl
      | some x =>
        obtain ⟨w, ok, own⟩ := x
        have hla : R.absLab n = .idle := by simp only [absLab, hl, coarseLab, hg]; rfl
        rw [hg] at hs
        simp only [Option.some.injEq, Prod.mk.injEq] at hs
        obtain ⟨r, c', weak', τ', p0, hp, hbt⟩ := h.pend t w ok own hg
        have hcc : c' = c := by have := hp.frun; rw [hc] at this; exact (Option.some.inj this).symm
        subst hcc
        have hnx := Pend.rest (E := E) (EV := R.absEv) (n := n) (by omega) (by rw [e2, e3]; exact hp) (m := (R.st n).s.m) (by rw [e2]; exact h.mem)
        rw [e2] at hnx
        have hst : R.absLab n = .idle → cstep cfg (R.absSt n) (R.absLab n) = some ((R.absSt n).next (R.absSt n).m t ((R.absSt n).thr t), none) := by
          intro e
          rw [e]
          simp only [cstep, CState.next]
          congr 2
          congr 1
          funext u
          have : ∀ v, upd (R.absSt n).thr v ((R.absSt n).thr v) u = (R.absSt n).thr u := by
            intro v
            by_cases e : u = v
            · subst e; rw [upd_same]
            · rw [upd_other _ _ e]
          rw [this, this]
        refine fin _ _ (hst hla) (by rw [hla]; trivial) (by rw [hla]; trivial) (fun g1 g2 => ?_)
        refine h.next hcl g1 hs.1.symm ?_ (fun t' e => by rw [upd_other _ _ e]) (fun _ => ?_) (fun w' ok' own' e => ?_)
        · split
          · exact ⟨by rw [handOver_root]; exact h.mem.root, fun a => by rw [handOver_deref]; exact h.mem.deref a, by
              cases c'.pc.unlinks <;> exact h.mem.next, by rw [handOver_clock]; exact h.mem.clock⟩
          · exact h.mem
        · rw [hp.thr, hnx]
        · rw [upd_same] at e; cases e

end FCExec
end Contrie
