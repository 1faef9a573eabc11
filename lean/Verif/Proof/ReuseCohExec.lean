import Verif.Proof.ReuseCohSim
import Verif.Proof.FineKeep
/-
Weak memory with reuse of memory: the execution without reuse.
-/
set_option linter.unusedSectionVars false
set_option linter.unusedSimpArgs false
namespace Contrie
variable {K P : Type} [DecidableEq K] {cfg : Config K P} {ρ : Nat → Nat}

theorem cstep_mem_none {s s' : CState K P} {l : CLabel K P} {e : Option (Event K P)} (h : cstep cfg s l = some (s', e)) {a : Nat} (ha : s.m.mem a = none) (hne : a ≠ s.m.next) :
    s'.m.mem a = none := by
  cases l with
  | tick t weak τ =>
    simp only [cstep] at h
    split at h
    · cases h
    · next c hc =>
      simp only [Option.some.injEq, Prod.mk.injEq] at h
      rw [← h.1]
      simp only [CState.next, Mem.bump]
      split
      · have hs : (s.seen c.pc τ).mem a = none := by
          simp only [CState.seen]
          cases (c.pc.access .code).bind (fun x => ((s.memAt τ).read x.1).map (fun w => (x.1, w))) with
          | none => exact ha
          | some y => exact ((write_frame s.m y.2 y.1).2.2.2.2.2.2 a).mpr ha
        exact tick_mem_none cfg weak c.pc hs (by
          have : (s.seen c.pc τ).next = s.m.next := see_next _ _
          rw [this]; exact hne)
      · exact ha
  | pin t =>
    simp only [cstep] at h
    split at h <;> simp only [Option.some.injEq, Prod.mk.injEq, reduceCtorEq] at h
    rw [← h.1]; exact ha
  | unpin t =>
    simp only [cstep] at h
    split at h <;> simp only [Option.some.injEq, Prod.mk.injEq, reduceCtorEq] at h
    rw [← h.1]; exact ha
  | call t r =>
    simp only [cstep] at h
    split at h <;> simp only [Option.some.injEq, Prod.mk.injEq, reduceCtorEq] at h
    rw [← h.1]; exact ha
  | abort t =>
    simp only [cstep] at h
    split at h <;> simp only [Option.some.injEq, Prod.mk.injEq, reduceCtorEq] at h
    rw [← h.1]; exact ha
  | sync t t' τ => simp only [cstep, Option.some.injEq, Prod.mk.injEq] at h; rw [← h.1]; exact ha
  | free b => simp only [cstep, Option.some.injEq, Prod.mk.injEq] at h; rw [← h.1]; exact ha
  | idle => simp only [cstep, Option.some.injEq, Prod.mk.injEq] at h; rw [← h.1]; exact ha

theorem cstep_pin {s s' : CState K P} {l : CLabel K P} {e : Option (Event K P)} (h : cstep cfg s l = some (s', e)) {t p : Nat} (hp : (s'.thr t).pin = some p) :
    (s.thr t).pin = some p ∨ p = s.m.clock := by
  have key : ∀ t0 (th : CThread K P), (th.pin = (s.thr t0).pin ∨ th.pin = none ∨ th.pin = some s.m.clock) → (upd s.thr t0 th t).pin = some p →
      (s.thr t).pin = some p ∨ p = s.m.clock := by
    intro t0 th hth hx
    by_cases e : t = t0
    · subst e
      rw [upd_same] at hx
      rcases hth with h | h | h
      · rw [h] at hx; exact .inl hx
      · rw [h] at hx; cases hx
      · rw [h] at hx; injection hx with hx; exact .inr hx.symm
    · rw [upd_other _ _ e] at hx; exact .inl hx
  cases l with
  | tick t0 weak τ =>
    simp only [cstep] at h
    split at h
    · cases h
    · simp only [Option.some.injEq, Prod.mk.injEq] at h
      rw [← h.1] at hp
      refine key t0 _ (.inl ?_) hp
      rw [apply_pin]
  | pin t0 =>
    simp only [cstep] at h
    split at h <;> simp only [Option.some.injEq, Prod.mk.injEq, reduceCtorEq] at h
    rw [← h.1] at hp; exact key t0 _ (.inr (.inr rfl)) hp
  | unpin t0 =>
    simp only [cstep] at h
    split at h <;> simp only [Option.some.injEq, Prod.mk.injEq, reduceCtorEq] at h
    rw [← h.1] at hp; exact key t0 _ (.inr (.inl rfl)) hp
  | call t0 r =>
    simp only [cstep] at h
    split at h <;> simp only [Option.some.injEq, Prod.mk.injEq, reduceCtorEq] at h
    rw [← h.1] at hp; exact key t0 _ (.inl (by simp [*])) hp
  | abort t0 =>
    simp only [cstep] at h
    split at h <;> simp only [Option.some.injEq, Prod.mk.injEq, reduceCtorEq] at h
    rw [← h.1] at hp; exact key t0 _ (.inr (.inl rfl)) hp
  | sync t0 t' τ => simp only [cstep, Option.some.injEq, Prod.mk.injEq] at h; rw [← h.1] at hp; refine key t0 _ (.inl ?_) hp; rfl
  | free b => simp only [cstep, Option.some.injEq, Prod.mk.injEq] at h; rw [← h.1] at hp; exact key 0 _ (.inl rfl) hp
  | idle => simp only [cstep, Option.some.injEq, Prod.mk.injEq] at h; rw [← h.1] at hp; exact key 0 _ (.inl rfl) hp

/-- A node that was not there and is there now was created in between. -/
theorem CExec.created_in (E : CExec cfg) {τ n : Nat} (hτ : τ ≤ n) (hn : n ≤ E.len) {a : Nat} (h1 : (E.st τ).m.mem a = none) (h2 : (E.st n).m.mem a ≠ none) :
    ∃ j, τ ≤ j ∧ j < n ∧ (E.st j).m.next = a ∧ (E.st (j + 1)).m.next ≠ a := by
  induction hτ with
  | refl => exact absurd h1 h2
  | @step n hτ ih =>
    have hτ' : τ ≤ n := hτ
    by_cases hm : (E.st n).m.mem a = none
    · refine ⟨n, hτ', Nat.lt_succ_self n, ?_, ?_⟩
      · apply Classical.byContradiction
        intro hne
        exact h2 (cstep_mem_none (E.step n hn) hm (fun e => hne e.symm))
      · intro e
        exact h2 (((E.cinv hn).hist.inv _ (Nat.le_refl _)).fresh a (Nat.le_of_eq e))
    · obtain ⟨j, g1, g2, g3⟩ := ih (by omega) hm
      exact ⟨j, g1, by omega, g3⟩

/-- Happens-before up to an instant does not depend on what comes later. -/
theorem HB.restrict {lab lab' : Nat → CLabel K P} {len n : Nat} (hs : ∀ j t t' τ, j < len → lab j = .sync t t' τ → τ ≤ j ∧ lab' j = .sync t t' τ) {x y : Nat × Nat}
    (h : HB lab len x y) (hy : y.2 ≤ n) : HB lab' n x y ∧ x.2 ≤ y.2 := by
  induction h with
  | po t hij => exact ⟨.po t hij, hij⟩
  | @sync t t' τ j hj hl =>
    obtain ⟨h1, h2⟩ := hs j t t' τ hj hl
    exact ⟨.sync (by simp only at hy; omega) h2, by simp only; omega⟩
  | @trans x y z _ _ ih1 ih2 =>
    obtain ⟨a1, a2⟩ := ih2 hy
    obtain ⟨b1, b2⟩ := ih1 (by omega)
    exact ⟨.trans b1 a1, by omega⟩

namespace CRExec
variable (R : CRExec cfg)

/-- Step `i` allocates. -/
def allocates (i : Nat) : Bool := (R.st (i + 1)).m.next != R.addr i

/-- How many nodes were created before instant `n`. -/
def created : Nat → Nat
  | 0 => 0
  | n + 1 => created n + (if R.allocates n then 1 else 0)

theorem created_mono {i j : Nat} (h : i < j) (hi : R.allocates i = true) : R.created i < R.created j := by
  induction j with
  | zero => omega
  | succ j ih =>
    by_cases e : i = j
    · subst e; simp [created, hi]
    · have := ih (by omega)
      simp only [created]; omega

open Classical in
/-- The address of the `k`-th node. -/
noncomputable def address (k : Nat) : Nat :=
  if h : ∃ i, R.allocates i = true ∧ R.created i = k then R.addr h.choose else 0

theorem address_eq {i : Nat} (h : R.allocates i = true) : R.address (R.created i) = R.addr i := by
  have hex : ∃ j, R.allocates j = true ∧ R.created j = R.created i := ⟨i, h, rfl⟩
  simp only [address, dif_pos hex]
  have hs := hex.choose_spec
  generalize hex.choose = j at hs
  have : j = i := by
    rcases Nat.lt_trichotomy j i with g | g | g
    · have := R.created_mono g hs.1; omega
    · exact g
    · have := R.created_mono g h; omega
  rw [this]

noncomputable def absSt : Nat → CState K P
  | 0 => CState.init
  | n + 1 => ((cstep cfg (absSt n) ((R.lab n).unre R.address (absSt n))).map Prod.fst).getD CState.init

noncomputable def absLab (n : Nat) : CLabel K P := (R.lab n).unre R.address (R.absSt n)

theorem absLab_free {i a : Nat} (h : R.absLab i = .free a) : R.lab i = .free (R.address a) ∧ (R.absSt i).m.deref a ≠ none := by
  simp only [absLab] at h
  cases hl : R.lab i with
  | free x =>
    rw [hl] at h
    simp only [CLabel.unre] at h
    split at h
    · next hx =>
      injection h with h
      have := hx.choose_spec
      rw [h] at this
      exact ⟨by rw [this.2], this.1⟩
    · cases h
  | _ => rw [hl] at h; simp [CLabel.unre] at h

theorem absLab_iff (i : Nat) {l : CLabel K P} (h1 : ∀ x, l ≠ .free x) (h2 : l ≠ .idle) : R.absLab i = l ↔ R.lab i = l := by
  simp only [absLab]
  cases hl : R.lab i with
  | free x =>
    simp only [CLabel.unre]
    constructor
    · intro h
      split at h
      · exact absurd h.symm (h1 _)
      · exact absurd h.symm h2
    · intro h; exact absurd h.symm (h1 x)
  | _ => exact Iff.rfl

theorem clock {n : Nat} (hn : n ≤ R.len) : (R.st n).m.clock = n := by
  induction n with
  | zero => rw [R.init]; rfl
  | succ n ih =>
    have hs := R.step n (by omega)
    simp only [crstep] at hs
    split at hs
    · cases hs
    · obtain ⟨m', t, th, h1, h2, -⟩ := cstep_next hs
      rw [h1, next_clock, h2]
      have := ih (by omega)
      simp only [CState.offer, Mem.offer]
      omega

theorem sync_le {j t t' τ : Nat} (hj : j < R.len) (h : R.lab j = .sync t t' τ) : τ ≤ j := by
  have := R.enabled j hj
  rw [h] at this
  have h1 : τ ≤ ((R.st j).offer (R.addr j)).m.clock := this
  have h2 : ((R.st j).offer (R.addr j)).m.clock = (R.st j).m.clock := rfl
  rw [h2, R.clock (Nat.le_of_lt hj)] at h1
  exact h1

theorem abs_prefix {n : Nat} (hn : n ≤ R.len) : (∃ E : CExec cfg, E.len = n ∧ E.st = R.absSt ∧ E.lab = R.absLab ∧ E.ev = R.ev) ∧
    ∀ i, i ≤ n → CStRel R.address (R.absSt i) (R.st i) ∧ (R.absSt i).m.next = R.created i := by
  induction n with
  | zero =>
    refine ⟨⟨⟨0, R.absSt, R.absLab, R.ev, rfl, fun i h => by omega, fun i h => by omega, fun i h => by omega, fun i a h => by omega⟩, rfl, rfl, rfl, rfl⟩, ?_⟩
    intro i hi
    have : i = 0 := by omega
    subst this
    rw [R.init]
    refine ⟨⟨⟨rfl, by simp [absSt, CState.init, Mem.init, Mem.deref], by simp [absSt, CState.init, Mem.init, Mem.deref],
      by simp [CState.init, Mem.init, Mem.deref], rfl⟩, fun t => ⟨rfl, rfl, rfl, rfl, fun _ => Nat.le_refl _⟩, fun t ℓ => Nat.zero_le _, ?_, ?_, ?_⟩, rfl⟩
    · intro τ h; exact absurd h (Nat.not_lt_zero τ)
    · intro τ h; exact absurd h (Nat.not_lt_zero τ)
    · intro τ h; exact absurd h (Nat.not_lt_zero τ)
  | succ n ih =>
    obtain ⟨⟨E, e1, e2, e3, e4⟩, hrel⟩ := ih (by omega)
    have hnl : n < R.len := hn
    obtain ⟨h3, h4⟩ := hrel n (Nat.le_refl n)
    have hst : E.st E.len = R.absSt n := by rw [e1, e2]
    obtain ⟨sa', g1, g2, g3, g4, g5⟩ := cstep_ren E (ρ := R.address) (by rw [hst]; exact h3) (R.step n hnl) (R.enabled n hnl) (R.wf n hnl) (by
      intro hne
      rw [hst, h4]
      exact R.address_eq (by simpa [allocates] using hne)) (by
      intro t weak τ c a i o hl hc ha hd hτ hno
      rw [e1] at hτ hd hc
      obtain ⟨j, j1, j2, j3, j4⟩ := E.created_in (Nat.le_of_lt hτ) (by omega) hno (by
        intro h; exact hd (by simp [Mem.deref, h]))
      rw [e2] at j3 j4 hc
      have hja := (hrel j (by omega)).2
      have hjb := (hrel (j + 1) (by omega)).2
      have hal : R.allocates j = true := by
        cases hx : R.allocates j with
        | true => rfl
        | false => exfalso; apply j4; rw [hjb, ← j3, hja]; simp [created, hx]
      have hadd := R.address_eq hal
      rw [← hja, j3] at hadd
      have hcc : ((R.st n).thr t).run = some (c.ren R.address) := by rw [(h3.thr t).run, hc]; rfl
      have := R.fresh n t weak τ (c.ren R.address) (R.address a) i o hnl hl hcc (by
        show (c.pc.ren R.address).access .code = _
        rw [access_renamed, ha]; rfl) j j1 j2 hadd.symm
      simp [allocates, this, hadd] at hal)
    rw [hst] at g1 g2 g3 g5
    have hsa : R.absSt (n + 1) = sa' := by simp [absSt, g1]
    have hrel' : ∀ i, i ≤ n + 1 → CStRel R.address (R.absSt i) (R.st i) ∧ (R.absSt i).m.next = R.created i := by
      intro i hi
      by_cases e : i ≤ n
      · exact hrel i e
      · have : i = n + 1 := by omega
        subst this
        rw [hsa]
        refine ⟨g4, ?_⟩
        simp only [created]
        rcases g5 with ⟨a1, a2⟩ | ⟨a1, a2⟩
        · simp [allocates, a1, a2, h4]
        · simp [allocates, a1, a2, h4]
    refine ⟨⟨⟨n + 1, R.absSt, R.absLab, R.ev, rfl, ?_, ?_, ?_, ?_⟩, rfl, rfl, rfl, rfl⟩, hrel'⟩
    · intro i hi
      by_cases e : i < n
      · have := E.step i (by omega)
        rw [e2, e3, e4] at this
        exact this
      · have : i = n := by omega
        subst this
        rw [hsa]; exact g1
    · intro i hi
      by_cases e : i < n
      · have := E.enabled i (by omega)
        rw [e2, e3] at this
        exact this
      · have : i = n := by omega
        subst this
        exact g2
    · intro i hi
      by_cases e : i < n
      · have := E.wf i (by omega)
        rw [e3] at this
        exact this
      · have : i = n := by omega
        subst this
        exact g3
    · intro i a hi hl
      obtain ⟨l1, l2⟩ := R.absLab_free hl
      obtain ⟨r, tr, weak, τ, b1, b2, b3, b4, b5, b6⟩ := R.gc i _ (by omega) l1
      have hi' : i ≤ n := by omega
      -- the node was there when it was retired
      have hfr : (R.absSt i).m.freed a = false := by
        obtain ⟨nd, hnd⟩ := Option.ne_none_iff_exists'.mp l2
        exact (deref_some.mp hnd).1
      have hthere : ∀ k, r ≤ k → k ≤ i → (R.absSt k).m.deref a ≠ none := by
        intro k k1 k2
        have hf : (R.absSt k).m.freed a = false := by
          have := E.freed_mono k2 (by omega) (a := a) (by rw [e2]; exact hfr)
          rwa [e2] at this
        have hm : (R.absSt k).m.mem a ≠ none := by
          intro hno
          obtain ⟨j, j1, j2, j3, j4⟩ := E.created_in k2 (by omega) (a := a) (by rw [e2]; exact hno) (by
            rw [e2]; intro h; exact l2 (by simp [Mem.deref, h]))
          rw [e2] at j3 j4
          have hja := (hrel j (by omega)).2
          have hjb := (hrel (j + 1) (by omega)).2
          have hal : R.allocates j = true := by
            cases hx : R.allocates j with
            | true => rfl
            | false => exfalso; apply j4; rw [hjb, ← j3, hja]; simp [created, hx]
          have hadd := R.address_eq hal
          rw [← hja, j3] at hadd
          have := b5 j (by omega) j2 hadd.symm
          simp [allocates, this, hadd] at hal
        simpa [Mem.deref, hf] using hm
      have hret : ∀ k, r ≤ k → k ≤ i → (R.absSt k).m.retired a = (R.st k).m.retired (R.address a) := by
        intro k k1 k2
        obtain ⟨nd, hnd⟩ := Option.ne_none_iff_exists'.mp (hthere k k1 k2)
        exact ((hrel k (by omega)).1.mem.live a nd hnd).2.symm
      refine ⟨r, tr, weak, τ, b1, (R.absLab_iff r (by simp) (by simp)).mpr b2, by rw [hret r (Nat.le_refl r) (by omega)]; exact b3,
        by rw [hret (r + 1) (by omega) (by omega)]; exact b4, ?_⟩
      intro j t p hj1 hj2 hp
      rw [← (((hrel' j hj2).1).thr t).pin] at hp
      have hb := b6 j t p hj1 (by omega) hp
      refine (hb.restrict (n := n + 1) ?_ ?_).1
      · intro j' t1 t2 τ' hj' hl'
        exact ⟨R.sync_le hj' hl', (R.absLab_iff j' (by simp) (by simp)).mpr hl'⟩
      · -- a guard in force was taken before
        show p + 1 ≤ n + 1
        have hpl : ∀ k, k ≤ n → ∀ q, ((R.absSt k).thr t).pin = some q → q < k := by
          intro k hk q hq
          have := ((E.cinv (n := k) (by omega)).sess t).pinlt q (by rw [e2]; exact hq)
          exact this
        by_cases e : j ≤ n
        · have := hpl j e p (by rw [← ((hrel j e).1.thr t).pin]; exact hp)
          omega
        · have ej : j = n + 1 := by omega
          subst ej
          rw [((hrel' (n + 1) (Nat.le_refl _)).1.thr t).pin, hsa] at hp
          -- either it was in force before, or it was taken in this very step
          have hcl : (R.absSt n).m.clock = n := by
            have := (E.base (n := n) (by omega)).clock
            rwa [e2] at this
          have := cstep_pin g1 hp
          rcases this with h | h
          · have := hpl n (Nat.le_refl n) p h; omega
          · rw [hcl] at h; omega

end CRExec
end Contrie
