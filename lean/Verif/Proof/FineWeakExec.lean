import Verif.Proof.FineWeakSim
/-
The fine machine under weak memory: the coarse execution.
-/
set_option linter.unusedSectionVars false
set_option linter.unusedSimpArgs false
namespace Contrie
variable {K P : Type} [DecidableEq K] {cfg : Config K P}

theorem fineAccess_retired {m m' : Mem P} {weak ok : Bool} {own : Option Nat} {pc : PC K P} {w : Word} (h : pc.fineAccess m weak own = some (m', w, ok)) : m'.retired = m.retired := by
  simp only [PC.fineAccess] at h
  split at h
  · simp only [Option.some.injEq, Prod.mk.injEq] at h; rw [← h.1]
  · split at h
    · cases h
    · split at h <;> simp only [Option.some.injEq, Prod.mk.injEq] at h <;> rw [← h.1]
      rw [write_retired]

theorem see_retired (m : Mem P) (x : Option (Loc × Word)) : (m.see x).retired = m.retired := by
  cases x with
  | none => rfl
  | some y => exact write_retired _ _ _

/-- What is handed to the collector in a step was unlinked by the session, in an earlier step. -/
theorem fcstep_retire {f f' : FCState K P} {t τ : Nat} {weak : Bool} {e : Option (Event K P)} (h : fcstep cfg f (.tick t weak τ) = some (f', e)) {a : Nat}
    (h1 : f.s.m.retired a = none) (h2 : f'.s.m.retired a ≠ none) : ∃ c w own, (f.s.thr t).run = some c ∧ f.got t = some (w, true, own) ∧ c.pc.unlinks = some a := by
  simp only [fcstep] at h
  split at h
  · cases h
  · next c hc =>
    split at h
    · split at h
      · simp only [Option.some.injEq, Prod.mk.injEq] at h
        rw [← h.1] at h2
        exact absurd h1 h2
      · next m' w ok hacc =>
        simp only [Option.some.injEq, Prod.mk.injEq] at h
        rw [← h.1] at h2
        have h3 : (f.s.m.stored m' ok ((c.pc.builds (f.s.seen c.pc τ)).map (fun _ => f.s.m.next))).retired a ≠ none := h2
        exfalso
        simp only [Mem.stored] at h3
        split at h3
        · have := fineAccess_retired hacc
          have h3 : m'.retired a ≠ none := h3
          rw [this] at h3
          have hs : (f.s.seen c.pc τ).retired a = none := by simp only [CState.seen]; rw [see_retired]; exact h1
          cases hb : c.pc.builds (f.s.seen c.pc τ) with
          | none => rw [hb] at h3; exact h3 hs
          | some nd =>
            rw [hb, create_retired] at h3
            split at h3
            · exact h3 rfl
            · exact h3 hs
        · exact h3 h1
    · next w ok own hg =>
      simp only [Option.some.injEq, Prod.mk.injEq] at h
      rw [← h.1] at h2
      have h3 : (if ok then f.s.m.handOver c.pc.unlinks else f.s.m).retired a ≠ none := h2
      split at h3
      · next hok =>
        rw [handOver_retired] at h3
        split at h3
        · next hu => exact ⟨c, w, own, hc, by rw [hg, hok], hu⟩
        · exact absurd h1 h3
      · exact absurd h1 h3

theorem cstep_clock {s s' : CState K P} {l : CLabel K P} {e : Option (Event K P)} (h : cstep cfg s l = some (s', e)) : s'.m.clock = s.m.clock + 1 := by
  obtain ⟨m', t, th, h1, h2, -⟩ := cstep_next h
  rw [h1, next_clock, h2]

theorem stored_clock {f : FCState K P} {c : Call K P} {τ : Nat} {weak ok : Bool} {w : Word} {m' : Mem P} {own : Option Nat} {x : Option (Node P)}
    (h : c.pc.fineAccess ((f.s.seen c.pc τ).create f.s.m.next x) weak own = some (m', w, ok)) : (f.s.m.stored m' ok own).clock = f.s.m.clock := by
  have hc : ((f.s.seen c.pc τ).create f.s.m.next x).clock = f.s.m.clock := by
    have : (f.s.seen c.pc τ).clock = f.s.m.clock := by simp only [CState.seen]; rw [see_clock]
    cases x <;> exact this
  simp only [Mem.stored]
  split
  · show m'.clock = _
    simp only [PC.fineAccess] at h
    split at h
    · simp only [Option.some.injEq, Prod.mk.injEq] at h; rw [← h.1]; exact hc
    · split at h
      · cases h
      · split at h <;> simp only [Option.some.injEq, Prod.mk.injEq] at h <;> rw [← h.1]
        · rw [(write_frame _ _ _).2.1]; exact hc
        · exact hc
  · rfl

theorem fcstep_clock {f f' : FCState K P} {l : CLabel K P} {e : Option (Event K P)} (h : fcstep cfg f l = some (f', e)) : f'.s.m.clock = f.s.m.clock + 1 := by
  have other : ∀ {g : Nat → Option (Word × Bool × Option Nat)}, (cstep cfg f.s l).map (fun r => ((⟨r.1, g⟩ : FCState K P), r.2)) = some (f', e) → f'.s.m.clock = f.s.m.clock + 1 := by
    intro g h
    obtain ⟨r, h1, h2⟩ := Option.map_eq_some_iff.mp h
    simp only [Prod.mk.injEq] at h2
    rw [← h2.1]
    exact cstep_clock (e := r.2) h1
  cases l with
  | tick t weak τ =>
    simp only [fcstep] at h
    split at h
    · cases h
    · next c hc =>
      split at h
      · split at h
        · simp only [Option.some.injEq, Prod.mk.injEq] at h
          rw [← h.1]; rfl
        · next hacc =>
          simp only [Option.some.injEq, Prod.mk.injEq] at h
          rw [← h.1]
          simp only [next_clock]
          rw [stored_clock hacc]
      · simp only [Option.some.injEq, Prod.mk.injEq] at h
        rw [← h.1]
        simp only [next_clock]
        split
        · rw [handOver_clock]
        · rfl
  | abort t =>
    simp only [fcstep] at h
    split at h
    · cases h
    · exact other h
  | _ => exact other h

namespace FCExec
variable (R : FCExec cfg)

theorem clock {n : Nat} (hn : n ≤ R.len) : (R.st n).s.m.clock = n := by
  induction n with
  | zero => rw [R.init]; rfl
  | succ n ih => rw [fcstep_clock (R.step n (by omega)), ih (by omega)]

theorem absLab_free {i a : Nat} (h : R.absLab i = .free a) : R.lab i = .free a := by
  simp only [absLab] at h
  cases hl : R.lab i with
  | tick t weak τ => rw [hl] at h; simp only [coarseLab] at h; split at h <;> cases h
  | abort t => rw [hl] at h; simp only [coarseLab] at h; split at h <;> cases h
  | _ => rw [hl] at h; exact h

theorem absLab_sync {i t t' τ : Nat} : R.absLab i = .sync t t' τ ↔ R.lab i = .sync t t' τ := by
  simp only [absLab]
  cases hl : R.lab i with
  | tick t weak τ => simp only [coarseLab]; split <;> simp
  | abort t => simp only [coarseLab]; split <;> simp
  | _ => exact Iff.rfl

theorem absLab_call {i t : Nat} {r : Req K P} : R.absLab i = .call t r ↔ R.lab i = .call t r := by
  simp only [absLab]
  cases hl : R.lab i with
  | tick t weak τ => simp only [coarseLab]; split <;> simp
  | abort t => simp only [coarseLab]; split <;> simp
  | _ => exact Iff.rfl

theorem absLab_tick {i t : Nat} {weak : Bool} {τ : Nat} : R.absLab i = .tick t weak τ ↔ R.lab i = .tick t weak τ ∧ (R.st i).got t = none := by
  simp only [absLab]
  cases hl : R.lab i with
  | tick t' weak' τ' =>
    simp only [coarseLab]
    split
    · next h =>
      constructor
      · intro e; cases e
      · rintro ⟨e, e'⟩; cases e; rw [e'] at h; cases h
    · next h =>
      constructor
      · intro e
        cases e
        refine ⟨rfl, ?_⟩
        cases hg : (R.st i).got t with
        | none => rfl
        | some x => rw [hg] at h; exact absurd rfl h
      · rintro ⟨e, -⟩; exact e
  | abort t => simp only [coarseLab]; split <;> simp
  | _ => simp [coarseLab]

theorem abs_prefix {n : Nat} (hn : n ≤ R.len) : (∃ E : CExec cfg, E.len = n ∧ E.st = R.absSt ∧ E.lab = R.absLab ∧ E.ev = R.absEv) ∧ ∀ i, i ≤ n → R.Rel i := by
  induction n with
  | zero =>
    refine ⟨⟨⟨0, R.absSt, R.absLab, R.absEv, rfl, fun i h => by omega, fun i h => by omega, fun i h => by omega, fun i a h => by omega⟩, rfl, rfl, rfl, rfl⟩, ?_⟩
    intro i hi
    have : i = 0 := by omega
    subst this
    refine ⟨?_, fun τ h => by omega, fun τ h => by omega, ?_, ?_⟩
    · rw [R.init]; exact MEq.refl _
    · intro t _; rw [R.init]; rfl
    · intro t w ok own h; rw [R.init] at h; cases h
  | succ n ih =>
    obtain ⟨⟨E, e1, e2, e3, e4⟩, hrel⟩ := ih (by omega)
    have hnl : n < R.len := hn
    obtain ⟨g1, g2, g3, g4⟩ := sim_step hnl E e1 e2 e3 (hrel n (Nat.le_refl n))
    have hrel' : ∀ i, i ≤ n + 1 → R.Rel i := by
      intro i hi
      by_cases e : i ≤ n
      · exact hrel i e
      · have : i = n + 1 := by omega
        subst this; exact g4
    refine ⟨⟨⟨n + 1, R.absSt, R.absLab, R.absEv, rfl, ?_, ?_, ?_, ?_⟩, rfl, rfl, rfl, rfl⟩, hrel'⟩
    · intro i hi
      by_cases e : i < n
      · have := E.step i (by omega)
        rw [e2, e3, e4] at this
        exact this
      · have : i = n := by omega
        subst this; exact g1
    · intro i hi
      by_cases e : i < n
      · have := E.enabled i (by omega)
        rw [e2, e3] at this
        exact this
      · have : i = n := by omega
        subst this; exact g2
    · intro i hi
      by_cases e : i < n
      · have := E.wf i (by omega)
        rw [e3] at this
        exact this
      · have : i = n := by omega
        subst this; exact g3
    · intro i a hi hl
      obtain ⟨r, tr, weak, τ, b1, b2, b3, b4, b5⟩ := R.gc i a (by omega) (R.absLab_free hl)
      have hs := R.step r (by omega)
      rw [b2] at hs
      obtain ⟨c, w, own, k1, k2, k3⟩ := fcstep_retire hs b3 b4
      obtain ⟨r0, c0, weak0, τ0, p0, hp, -⟩ := (hrel r (by omega)).pend tr w true own k2
      have hlt := hp.lt
      have hcc : c0 = c := by have := hp.frun; rw [k1] at this; exact (Option.some.inj this).symm
      subst hcc
      have hret := Pend.retire (E := E) (EV := R.absEv) (n := r) (by omega) (by rw [e2, e3]; exact hp) rfl k3
      rw [e2] at hret
      refine ⟨r0, tr, weak0, τ0, by omega, hp.lab, hret.1, hret.2, ?_⟩
      intro j t p hj1 hj2 hpp
      have hp' : ((R.st j).s.thr t).pin = some p := by rw [← (hrel' j hj2).pin]; exact hpp
      have hb := b5 j t p hj1 (by omega) hp'
      refine .trans (.po tr (show r0 + 1 ≤ r + 1 by omega)) (hb.restrict (n := n + 1) ?_ ?_).1
      · intro j' t1 t2 τ' hj' hl'
        refine ⟨?_, R.absLab_sync.mpr hl'⟩
        have hen := R.enabled j' hj'
        rw [hl'] at hen
        have hen : τ' ≤ (R.st j').s.m.clock := hen
        have hck : (R.st j').s.m.clock = j' := R.clock (Nat.le_of_lt hj')
        omega
      · show p + 1 ≤ n + 1
        have hpl : ∀ k, k ≤ n → ∀ q, ((R.absSt k).thr t).pin = some q → q < k := by
          intro k hk q hq
          exact ((E.cinv (n := k) (by omega)).sess t).pinlt q (by rw [e2]; exact hq)
        by_cases e : j ≤ n
        · have := hpl j e p hpp
          omega
        · have ej : j = n + 1 := by omega
          subst ej
          have hcl : (R.absSt n).m.clock = n := by
            have := (E.base (n := n) (by omega)).clock
            rwa [e2] at this
          rcases cstep_pin g1 hpp with h | h
          · have := hpl n (Nat.le_refl n) p h; omega
          · rw [hcl] at h; omega

end FCExec
end Contrie
