import Verif.Proof.FineObs
/-
Runs of the fine machine: what a step leaves alone, how a run can be continued, and what becomes of a call.
-/
set_option linter.unusedSectionVars false
set_option linter.unusedSimpArgs false
namespace Contrie
open scoped List
variable {K P : Type} [DecidableEq K] {cfg : Config K P}

theorem fstep_thread {s s' : FState K P} {a : Nat} {l : Label K P} {e : Option (Event K P)} (h : fstep cfg s a l = some (s', e)) {t : Nat} (ht : l.thread ≠ some t) :
    s'.thr t = s.thr t := by
  have hne : ∀ t0, l.thread = some t0 → t ≠ t0 := fun t0 h0 e => ht (by rw [h0, e])
  simp only [fstep] at h
  split at h
  · cases h
  · cases l with
    | pin t0 =>
      simp only at h
      split at h <;> cases h
      exact upd_other _ _ (hne t0 rfl)
    | unpin t0 =>
      simp only at h
      split at h <;> cases h
      exact upd_other _ _ (hne t0 rfl)
    | call t0 r =>
      simp only at h
      split at h <;> cases h
      exact upd_other _ _ (hne t0 rfl)
    | tick t0 weak =>
      simp only at h
      split at h
      · cases h
      · split at h
        · split at h <;> cases h <;> exact upd_other _ _ (hne t0 rfl)
        · cases h; exact upd_other _ _ (hne t0 rfl)
    | abort t0 =>
      simp only at h
      split at h <;> cases h
      exact upd_other _ _ (hne t0 rfl)
    | free x => cases h; rfl
    | idle => cases h; rfl

theorem giveBack_mem_none {m : Mem P} {o : Option Nat} {a : Nat} (h : m.mem a = none) : (m.giveBack o).mem a = none := by
  cases o with
  | none => exact h
  | some b => simp only [Mem.giveBack, upd]; split <;> [rfl; exact h]

theorem handOver_mem (m : Mem P) (o : Option Nat) : (m.handOver o).mem = m.mem := by cases o <;> rfl

theorem fstep_finite {s s' : FState K P} {x : Nat} {l : Label K P} {e : Option (Event K P)} (hs : fstep cfg s x l = some (s', e)) (h : ∃ b, ∀ a, b ≤ a → s.m.mem a = none) :
    ∃ b, ∀ a, b ≤ a → s'.m.mem a = none := by
  obtain ⟨b, hb⟩ := h
  refine ⟨b + x + 1, fun a ha => ?_⟩
  have h0 := hb a (by omega)
  have hx : a ≠ x := by omega
  simp only [fstep] at hs
  split at hs
  · cases hs
  · cases l with
    | tick t weak =>
      simp only at hs
      split at hs
      · cases hs
      · split at hs
        · split at hs
          · cases hs; exact h0
          · next m' w ok ha =>
            cases hs
            show m'.mem a = none
            simp only [PC.fineAccess] at ha
            split at ha
            · cases ha; exact h0
            · split at ha
              · cases ha
              · split at ha <;> cases ha
                · exact write_mem_none _ _ h0
                · exact h0
        · next c _ _ w ok hg =>
          cases hs
          show (Mem.create _ _ _).mem a = none
          have h1 : (if ok = true then s.m.handOver c.pc.unlinks else s.m.giveBack (s.thr t).own).mem a = none := by
            split
            · rw [handOver_mem]; exact h0
            · exact giveBack_mem_none h0
          cases Next.builds s.m (c.pc.fineNext cfg s.m w ok (s.thr t).own) with
          | none => exact h1
          | some nd => simp only [Mem.create, upd_other _ _ hx]; exact h1
    | abort t =>
      simp only at hs
      split at hs <;> cases hs
      exact giveBack_mem_none h0
    | pin t => simp only at hs; split at hs <;> cases hs; exact h0
    | unpin t => simp only at hs; split at hs <;> cases hs; exact h0
    | call t r => simp only at hs; split at hs <;> cases hs; exact h0
    | free y => cases hs; exact h0
    | idle => cases hs; exact h0

theorem FExec.finite (F : FExec cfg) (n : Nat) : ∃ b, ∀ a, b ≤ a → (F.st n).m.mem a = none := by
  induction n with
  | zero => rw [F.init]; exact ⟨0, fun a _ => rfl⟩
  | succ n ih => exact fstep_finite (F.step n) ih

theorem FExec.free_addr (F : FExec cfg) (n : Nat) : ∃ x, (F.st n).m.inUse x = false := by
  obtain ⟨b, hb⟩ := F.finite n
  exact ⟨b, by simp [Mem.inUse, Mem.deref, hb b (Nat.le_refl _)]⟩

/-- A finite run can be continued (by doing nothing). -/
theorem FExec.ofPrefix {st : Nat → FState K P} {lab : Nat → Label K P} {addr : Nat → Nat} {ev : Nat → Option (Event K P)} (n : Nat) (h0 : st 0 = FState.init)
    (hs : ∀ i, i < n → fstep cfg (st i) (addr i) (lab i) = some (st (i + 1), ev i) ∧ (lab i).enabled (st i).plain ∧ (lab i).WF cfg) :
    ∃ R : FExec cfg, (∀ i, i ≤ n → R.st i = st i) ∧ ∀ i, i < n → R.lab i = lab i ∧ R.addr i = addr i ∧ R.ev i = ev i := by
  have hfin : ∀ i, i ≤ n → ∃ b, ∀ a, b ≤ a → (st i).m.mem a = none := by
    intro i hi
    induction i with
    | zero => rw [h0]; exact ⟨0, fun a _ => rfl⟩
    | succ i ih => exact fstep_finite (hs i (by omega)).1 (ih (by omega))
  obtain ⟨b, hb⟩ := hfin n (Nat.le_refl _)
  let go : Nat → FState K P := fun k => Nat.rec (st n) (fun _ s => ⟨s.m.bump, s.thr⟩) k
  have hgo0 : go 0 = st n := rfl
  have hgo : ∀ k, go (k + 1) = ⟨(go k).m.bump, (go k).thr⟩ := fun k => rfl
  have hfree : ∀ k, (go k).m.inUse b = false := by
    intro k
    induction k with
    | zero => rw [hgo0]; simp [Mem.inUse, Mem.deref, hb b (Nat.le_refl _)]
    | succ k ih => rw [hgo]; exact ih
  let st' : Nat → FState K P := fun i => if i ≤ n then st i else go (i - n)
  have hst : ∀ i, i ≤ n → st' i = st i := fun i hi => by simp [st', hi]
  have hst2 : ∀ i, n ≤ i → st' i = go (i - n) := by
    intro i hi
    by_cases e : i = n
    · subst e; rw [hst i (Nat.le_refl _), Nat.sub_self]; exact hgo0.symm
    · simp only [st']; rw [if_neg (by omega)]
  refine ⟨⟨st', fun i => if i < n then lab i else .idle, fun i => if i < n then addr i else b, fun i => if i < n then ev i else none, ?_, ?_, ?_, ?_⟩, hst, ?_⟩
  · rw [hst 0 (Nat.zero_le _), h0]
  · intro i
    by_cases hi : i < n
    · simp only [hi, ↓reduceIte]
      rw [hst i (by omega), hst (i + 1) (by omega)]
      exact (hs i hi).1
    · simp only [hi, ↓reduceIte]
      rw [hst2 i (by omega), hst2 (i + 1) (by omega), show i + 1 - n = (i - n) + 1 by omega, hgo]
      simp [fstep, hfree]
  · intro i
    by_cases hi : i < n
    · simp only [hi, ↓reduceIte]; rw [hst i (by omega)]; exact (hs i hi).2.1
    · simp only [hi, ↓reduceIte]; trivial
  · intro i
    by_cases hi : i < n
    · simp only [hi, ↓reduceIte]; exact (hs i hi).2.2
    · simp only [hi, ↓reduceIte]; trivial
  · intro i hi
    simp [hi]

/-! ### Labels -/

theorem FExec.coarse_tick (F : FExec cfg) {i t : Nat} {w : Bool} : F.coarse.lab i = .tick t w ↔ F.lab i = .tick t w ∧ ((F.st i).thr t).got = none := by
  show F.coarseLab i (F.cSt i) = _ ↔ _
  simp only [FExec.coarseLab]
  cases F.lab i with
  | tick t' w' =>
    simp only
    cases hg : ((F.st i).thr t').got with
    | none =>
      constructor
      · intro h; injection h with h1 h2; subst h1 h2; exact ⟨rfl, hg⟩
      · rintro ⟨h, -⟩; exact h
    | some x =>
      constructor
      · intro h; cases h
      · rintro ⟨h, h2⟩; injection h with h1 _; rw [h1, h2] at hg; cases hg
  | abort t' =>
    simp only
    constructor
    · intro h; split at h <;> cases h
    · rintro ⟨h, -⟩; cases h
  | free x => simp only; split <;> simp
  | _ => simp

theorem FExec.coarse_unpin (F : FExec cfg) {i t : Nat} (h : F.coarse.lab i = .unpin t) : F.lab i = .unpin t ∨ F.lab i = .abort t := by
  have h : F.coarseLab i (F.cSt i) = .unpin t := h
  simp only [FExec.coarseLab] at h
  cases hl : F.lab i with
  | tick t' w' => simp only [hl] at h; split at h <;> cases h
  | abort t' =>
    simp only [hl] at h
    split at h
    · injection h with h; exact .inr (by rw [h])
    · cases h
  | unpin t' => simp only [hl] at h; injection h with h; exact .inl (by rw [h])
  | free x => simp only [hl] at h; split at h <;> cases h
  | _ => simp only [hl] at h; cases h

theorem FExec.coarse_abort (F : FExec cfg) {i t : Nat} (h : F.coarse.lab i = .abort t) : F.lab i = .abort t := by
  have h : F.coarseLab i (F.cSt i) = .abort t := h
  simp only [FExec.coarseLab] at h
  cases hl : F.lab i with
  | tick t' w' => simp only [hl] at h; split at h <;> cases h
  | abort t' =>
    simp only [hl] at h
    split at h
    · cases h
    · exact h
  | free x => simp only [hl] at h; split at h <;> cases h
  | _ => simp only [hl] at h; cases h

/-! ### What becomes of a call -/

/-- The steps of session `t` from instant `s` on and before instant `e`. -/
def FExec.steps (F : FExec cfg) (t s e : Nat) : Nat := ((List.range e).filter (fun i => decide (s ≤ i) && (F.lab i).isTick t)).length

theorem FExec.steps_succ (F : FExec cfg) (t s e : Nat) : F.steps t s (e + 1) = F.steps t s e + if s ≤ e ∧ (F.lab e).isTick t = true then 1 else 0 := by
  simp only [FExec.steps, List.range_succ, List.filter_append, List.length_append]
  congr 1
  by_cases h1 : s ≤ e <;> cases h2 : (F.lab e).isTick t <;> simp [h1, h2]

theorem FExec.steps_self (F : FExec cfg) (t s : Nat) : F.steps t s s = 0 := by
  simp only [FExec.steps, List.length_eq_zero_iff, List.filter_eq_nil_iff, List.mem_range]
  intro i hi
  simp [show ¬ s ≤ i by omega]

theorem isTick_iff {l : Label K P} {t : Nat} : l.isTick t = true ↔ ∃ w, l = .tick t w := by
  cases l <;> simp [Label.isTick]

theorem FExec.coarse_run (F : FExec cfg) {n t : Nat} (hg : ((F.st n).thr t).got = none) : (F.coarse.st n).thr t = ((F.st n).thr t).th := (((F.rel n).thr t).1 hg).1

/-- A session in a call can only go on with it, or be unwound. -/
theorem FExec.running_lab (F : FExec cfg) {n t : Nat} {c : Call K P} (h1 : ((F.st n).thr t).th.run = some c) (ht : (F.lab n).thread = some t) :
    (∃ w, F.lab n = .tick t w) ∨ F.lab n = .abort t := by
  have hs := F.step n
  simp only [fstep, F.addr_free n, Bool.false_eq_true, ↓reduceIte] at hs
  have hpin : ((F.st n).thr t).th.pin ≠ none := fun hp => by
    have := (F.rel n).no_run (R := F.coarse) hp
    rw [h1] at this; cases this
  cases hl : F.lab n with
  | pin t' =>
    rw [hl] at hs ht
    injection ht with ht
    subst ht
    simp only at hs
    split at hs
    · next hp _ => exact absurd hp hpin
    · cases hs
  | unpin t' =>
    rw [hl] at hs ht
    injection ht with ht
    subst ht
    simp only [h1] at hs
    split at hs
    · next hr _ => cases hr
    · cases hs
  | call t' r' =>
    rw [hl] at hs ht
    injection ht with ht
    subst ht
    simp only [h1] at hs
    split at hs
    · next hr _ => cases hr
    · cases hs
  | tick t' w => rw [hl] at ht; injection ht with ht; subst ht; exact .inl ⟨w, rfl⟩
  | abort t' => rw [hl] at ht; injection ht with ht; subst ht; exact .inr rfl
  | free x => rw [hl] at ht; cases ht
  | idle => rw [hl] at ht; cases ht

/-- Only a step of the session begins an access. -/
theorem FExec.got_none (F : FExec cfg) {n t : Nat} (hg : ((F.st n).thr t).got = none) (hl : ∀ w, F.lab n ≠ .tick t w) : ((F.st (n + 1)).thr t).got = none := by
  by_cases ht : (F.lab n).thread = some t
  · have hs := F.step n
    simp only [fstep, F.addr_free n, Bool.false_eq_true, ↓reduceIte] at hs
    cases hlab : F.lab n with
    | pin t' =>
      rw [hlab] at hs ht
      injection ht with ht
      subst ht
      simp only at hs
      split at hs
      · simp only [Option.some.injEq, Prod.mk.injEq] at hs
        rw [← hs.1]
        simp only [upd_same, hg]
      · cases hs
    | unpin t' =>
      rw [hlab] at hs ht
      injection ht with ht
      subst ht
      simp only at hs
      split at hs
      · simp only [Option.some.injEq, Prod.mk.injEq] at hs
        rw [← hs.1]
        simp only [upd_same, hg]
      · cases hs
    | call t' r' =>
      rw [hlab] at hs ht
      injection ht with ht
      subst ht
      simp only at hs
      split at hs
      · simp only [Option.some.injEq, Prod.mk.injEq] at hs
        rw [← hs.1]
        simp only [upd_same, hg]
      · cases hs
    | tick t' w => rw [hlab] at ht; injection ht with ht; subst ht; exact absurd hlab (hl w)
    | abort t' =>
      rw [hlab] at hs ht
      injection ht with ht
      subst ht
      simp only at hs
      split at hs
      · simp only [Option.some.injEq, Prod.mk.injEq] at hs
        rw [← hs.1]
        simp only [upd_same]
      · cases hs
    | free x => rw [hlab] at ht; cases ht
    | idle => rw [hlab] at ht; cases ht
  · rw [fstep_thread (F.step n) ht]; exact hg


/-- The result of a call is known when it makes its last access; it returns in the next step of its session. -/
theorem FExec.coarse_res (F : FExec cfg) {q id : Nat} {r : Res P} (h : F.coarse.ev q = some (.res id r)) : ∃ t w c, F.lab q = .tick t w ∧ ((F.st (q + 1)).thr t).th.run = some c ∧
    ∀ j, q < j → (∀ i, q < i → i < j → (F.lab i).thread ≠ some t) → ((F.st j).thr t).th.run = some c ∧ ∀ w', F.lab j = .tick t w' → F.ev j = some (.res id r) := by
  obtain ⟨t, c0, refs, weak, h1, -⟩ := F.coarse.fresh.res (show F.coarse.fresh.ev q = some (.res id r) from h)
  have h1 := (F.coarse.fresh_lab_iff q (by simp) (by simp)).mp h1
  obtain ⟨hl, hg⟩ := F.coarse_tick.mp h1
  obtain ⟨c, g1, ⟨g2, g3, w, ok, g4⟩ | ⟨w, ok, p, q', nx, g2, -⟩⟩ := F.step_tick hl
  · refine ⟨t, weak, c, hl, by rw [g4]; exact g1, ?_⟩
    intro j hj hno
    have hk : ∀ k, q + 1 + k ≤ j → (F.st (q + 1 + k)).thr t = (F.st (q + 1)).thr t := by
      intro k
      induction k with
      | zero => intro _; rfl
      | succ k ih =>
        intro hk
        rw [← ih (by omega)]
        exact fstep_thread (F.step (q + 1 + k)) (hno _ (by omega) (by omega))
    have hj' : (F.st j).thr t = (F.st (q + 1)).thr t := by
      have := hk (j - (q + 1)) (by omega)
      rwa [show q + 1 + (j - (q + 1)) = j by omega] at this
    refine ⟨by rw [hj', g4]; exact g1, ?_⟩
    intro w' hlj
    obtain ⟨c', k1, ⟨k2, -⟩ | ⟨w2, ok2, p, q', nx, k2, k3, k4, -⟩⟩ := F.step_tick hlj
    · rw [hj', g4] at k2; cases k2
    · have hq : q' = q := by
        rcases Nat.lt_trichotomy q' q with e | e | e
        · exact absurd hg (k3.between q e (by omega))
        · exact e
        · obtain ⟨w3, k5⟩ := k3.lab
          exact absurd (by rw [k5]; rfl) (hno q' e k3.lt)
      subst hq
      rw [k4, ← k3.ev]
      exact h
  · rw [hg] at g2; cases g2

/-- A call in progress: when it was invoked, and how many steps it has made. -/
theorem FExec.run_inv (F : FExec cfg) (n : Nat) : ∀ {t : Nat} {c : Call K P}, ((F.st n).thr t).th.run = some c → c.inv < n ∧ F.lab c.inv = .call t c.req ∧
    F.steps t c.inv n = 2 * c.ticks + (if ((F.st n).thr t).got.isSome then 1 else 0) := by
  induction n with
  | zero => intro t c hc; rw [F.init] at hc; cases hc
  | succ n ih =>
    intro t c hc
    by_cases htick : ∃ w, F.lab n = .tick t w
    · obtain ⟨w, htick⟩ := htick
      have hst : ∀ s, s ≤ n → F.steps t s (n + 1) = F.steps t s n + 1 := fun s hs => by
        rw [F.steps_succ, if_pos ⟨hs, isTick_iff.mpr ⟨w, htick⟩⟩]
      obtain ⟨c', g1, ⟨g2, -, w, ok, g4⟩ | ⟨_, _, _, _, nx, g2, g3, -, g5, g6⟩⟩ := F.step_tick htick
      · rw [g4] at hc ⊢
        obtain ⟨k1, k2, k3⟩ := ih hc
        refine ⟨by omega, k2, ?_⟩
        rw [hst _ (by omega), k3, g2]
        simp
      · rw [g5] at hc
        rw [g6]
        cases nx with
        | goto pc ran =>
          simp only [Thread.apply, Option.some.injEq] at hc
          obtain ⟨k1, k2, k3⟩ := ih g1
          rw [g2] at k3
          rw [← hc]
          refine ⟨by simp only; omega, k2, ?_⟩
          simp only [Option.isSome_some, Option.isSome_none, Bool.false_eq_true, ↓reduceIte] at k3 ⊢
          rw [hst _ (by omega), k3]
          omega
        | ret r refs => cases hc
        | fail f => cases hc
    · have hst : ∀ s, F.steps t s (n + 1) = F.steps t s n := fun s => by
        rw [F.steps_succ, if_neg (fun h => htick (isTick_iff.mp h.2)), Nat.add_zero]
      by_cases hth : (F.lab n).thread = some t
      · cases hrun : ((F.st n).thr t).th.run with
        | some c' =>
          rcases F.running_lab hrun hth with e | e
          · exact absurd e htick
          · have hs := F.step n
            simp only [fstep, F.addr_free n, Bool.false_eq_true, ↓reduceIte, e] at hs
            split at hs
            · simp only [Option.some.injEq, Prod.mk.injEq] at hs
              rw [← hs.1] at hc
              simp only [upd_same] at hc
              cases hc
            · cases hs
        | none =>
          obtain ⟨hg, -, ho⟩ := ((F.rel n).thr t).idle hrun
          have hs := F.step n
          simp only [fstep, F.addr_free n, Bool.false_eq_true, ↓reduceIte] at hs
          have hg' : ((F.st (n + 1)).thr t).got = none := F.got_none hg (fun w e => htick ⟨w, e⟩)
          cases hl : F.lab n with
          | call t' r =>
            rw [hl] at hs hth
            injection hth with hth
            subst hth
            simp only at hs
            split at hs
            · simp only [Option.some.injEq, Prod.mk.injEq] at hs
              rw [hst, hg']
              rw [← hs.1] at hc
              simp only [upd_same, Option.some.injEq] at hc
              have hclk := (F.rel n).clk
              rw [← hc]
              simp only [hclk, hl, F.steps_self]
              exact ⟨by omega, trivial, rfl⟩
            · cases hs
          | pin t' =>
            rw [hl] at hs hth
            injection hth with hth
            subst hth
            simp only at hs
            split at hs
            · simp only [Option.some.injEq, Prod.mk.injEq] at hs
              rw [← hs.1] at hc
              simp only [upd_same, hrun] at hc
              cases hc
            · cases hs
          | unpin t' =>
            rw [hl] at hs hth
            injection hth with hth
            subst hth
            simp only at hs
            split at hs
            · simp only [Option.some.injEq, Prod.mk.injEq] at hs
              rw [← hs.1] at hc
              simp only [upd_same, hrun] at hc
              cases hc
            · cases hs
          | abort t' =>
            rw [hl] at hs hth
            injection hth with hth
            subst hth
            simp only [hrun] at hs
            cases hs
          | tick t' w => rw [hl] at hth; injection hth with hth; subst hth; exact absurd ⟨w, hl⟩ htick
          | free x => rw [hl] at hth; cases hth
          | idle => rw [hl] at hth; cases hth
      · have hk := fstep_thread (F.step n) hth
        rw [hk] at hc
        obtain ⟨k1, k2, k3⟩ := ih hc
        rw [hk, hst]
        exact ⟨by omega, k2, k3⟩

/-- What became of a call: still running, returned, or unwound. -/
theorem FExec.fate (F : FExec cfg) {id t : Nat} {r : Req K P} (h : F.lab id = .call t r) (n : Nat) (hn : id < n) :
    (∃ c, ((F.st n).thr t).th.run = some c ∧ c.inv = id ∧ c.req = r) ∨
    (∃ j, id < j ∧ j < n ∧ ∃ r, F.ev j = some (.res id r)) ∨ ∃ j, id < j ∧ j < n ∧ F.lab j = .abort t := by
  induction n with
  | zero => omega
  | succ n ih =>
    by_cases e : id = n
    · subst e
      have hs := F.step id
      simp only [fstep, F.addr_free id, Bool.false_eq_true, ↓reduceIte, h] at hs
      left
      split at hs
      · simp only [Option.some.injEq, Prod.mk.injEq] at hs
        rw [← hs.1]
        simp only [upd_same]
        exact ⟨_, rfl, (F.rel id).clk, rfl⟩
      · cases hs
    · rcases ih (by omega) with ⟨c, h1, h2, h3⟩ | ⟨j, h1, h2, h3⟩ | ⟨j, h1, h2, h3⟩
      · by_cases htick : ∃ weak, F.lab n = .tick t weak
        · obtain ⟨weak, htick⟩ := htick
          obtain ⟨c', g1, ⟨g2, g3, w, ok, g4⟩ | ⟨w, ok, p, q, nx, g2, g3, g4, g5, g6⟩⟩ := F.step_tick htick
          · exact .inl ⟨c, by rw [g4]; exact h1, h2, h3⟩
          · rw [h1] at g1; cases g1
            cases nx with
            | goto pc ran =>
              exact .inl ⟨{ c with pc := pc, calls := c.calls + (if ran then 1 else 0), ticks := c.ticks + 1 }, by rw [g5]; rfl, h2, h3⟩
            | ret r' refs => exact .inr (.inl ⟨n, by omega, by omega, r', by rw [g4, ← h2]; rfl⟩)
            | fail f => exact g3.nok.elim
        · by_cases habort : F.lab n = .abort t
          · exact .inr (.inr ⟨n, by omega, by omega, habort⟩)
          · left
            rw [fstep_thread (F.step n) (fun ht => (F.running_lab h1 ht).elim htick habort)]
            exact ⟨c, h1, h2, h3⟩
      · exact .inr (.inl ⟨j, h1, by omega, h3⟩)
      · exact .inr (.inr ⟨j, h1, by omega, h3⟩)

end Contrie
