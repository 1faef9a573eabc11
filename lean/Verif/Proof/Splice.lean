import Verif.Proof.Extra
import Verif.Proof.Finite
/-
Continuing an execution in another way from some instant on; running a session alone.
-/
set_option linter.unusedSectionVars false
namespace Contrie
variable {K P : Type} [DecidableEq K]

/-- A call in progress stays as it is unless its session takes a step or unwinds. -/
theorem step_run_keep {cfg : Config K P} {s s' : State K P} {l : Label K P} {e : Option (Event K P)}
    (h : Contrie.step cfg s l = some (s', e)) {t : Nat} {c : Call K P} (hc : (s.thr t).run = some c)
    (h1 : ∀ weak, l ≠ .tick t weak) (h2 : l ≠ .abort t) : (s'.thr t).run = some c := by
  cases l with
  | pin t0 =>
    simp only [Contrie.step] at h
    split at h <;> cases h
    by_cases e : t = t0
    · subst e; simpa using hc
    · simpa [upd_other _ _ e] using hc
  | unpin t0 =>
    simp only [Contrie.step] at h
    split at h <;> cases h
    by_cases e : t = t0
    · subst e; simpa using hc
    · simpa [upd_other _ _ e] using hc
  | call t0 r0 =>
    simp only [Contrie.step] at h
    split at h <;> cases h
    by_cases e : t = t0
    · subst e; simp_all
    · simpa [upd_other _ _ e] using hc
  | tick t0 weak =>
    have : t ≠ t0 := by intro e; exact h1 weak (by rw [e])
    simp only [Contrie.step] at h
    split at h <;> cases h
    simpa [upd_other _ _ this] using hc
  | abort t0 =>
    have : t ≠ t0 := by intro e; exact h2 (by rw [e])
    simp only [Contrie.step] at h
    split at h <;> cases h
    simpa [upd_other _ _ this] using hc
  | free a =>
    simp only [Contrie.step] at h
    cases h
    exact hc
  | idle =>
    simp only [Contrie.step] at h
    cases h
    exact hc

theorem step_call {cfg : Config K P} {s s' : State K P} {t : Nat} {r : Req K P} {e : Option (Event K P)}
    (h : Contrie.step cfg s (.call t r) = some (s', e)) :
    (s'.thr t).run = some ⟨s.m.clock, r, startPC cfg r, 0, 0⟩ ∧ e = some (.inv s.m.clock r) ∧ s'.m = s.m.bump ∧
      (s'.thr t).pin = (s.thr t).pin ∧ (s.thr t).run = none := by
  simp only [Contrie.step] at h
  split at h <;> cases h
  exact ⟨by simp, rfl, rfl, by simp, ‹_›⟩

/-- From instant `i` on, the execution `E` can be continued by any run that is possible from its state. -/
theorem Exec.splice {cfg : Config K P} (E : Exec cfg) (i : Nat) {ls : List (Label K P)} (h : RunOK cfg (E.st i) ls) :
    ∃ E' : Exec cfg, (∀ j, j ≤ i → E'.st j = E.st j) ∧ (∀ j, j < i → E'.lab j = E.lab j ∧ E'.ev j = E.ev j) ∧
      runList cfg (E.st i) ls =
        some (E'.st (i + ls.length), (List.range ls.length).filterMap (fun j => E'.ev (i + j))) ∧
      ∀ j, E'.lab (i + j) = ls.getD j .idle := by
  obtain ⟨st, lab, ev, g0, g1, g2, g3, g4, g5⟩ := extend_run ls (E.st i) h
  have hst : ∀ j, (if j ≤ i then E.st j else st (j - i)) = if j < i then E.st j else st (j - i) := by
    intro j
    by_cases h1 : j < i
    · simp [h1, Nat.le_of_lt h1]
    · by_cases h2 : j = i
      · subst h2; simp [g0]
      · simp [h1, show ¬ j ≤ i by omega]
  refine ⟨⟨fun j => if j ≤ i then E.st j else st (j - i), fun j => if j < i then E.lab j else lab (j - i),
    fun j => if j < i then E.ev j else ev (j - i), ?_, ?_, ?_, ?_⟩, ?_, ?_, ?_, ?_⟩
  · simp [E.init]
  · intro j
    by_cases h1 : j < i
    · simp only [h1, if_true, Nat.le_of_lt h1, show j + 1 ≤ i by omega]; exact E.step j
    · simp only [hst j, h1, if_false, show ¬ j + 1 ≤ i by omega]
      have := g1 (j - i)
      rwa [show j - i + 1 = j + 1 - i by omega] at this
  · intro j
    by_cases h1 : j < i
    · simp only [h1, if_true, Nat.le_of_lt h1]; exact E.enabled j
    · simp only [hst j, h1, if_false]; exact g2 (j - i)
  · intro j
    by_cases h1 : j < i
    · simp only [h1, if_true]; exact E.wf j
    · simp only [h1, if_false]; exact g3 (j - i)
  · intro j hj; simp [hj]
  · intro j hj; simp [hj]
  · simp only [g4]
    congr 2
    · by_cases h0 : ls.length = 0
      · simp [h0, g0]
      · rw [if_neg (by omega)]; simp
    · congr 1; funext j; rw [if_neg (by omega)]; simp
  · intro j; simp only [Nat.not_lt.mpr (Nat.le_add_right i j), if_false]
    rw [g5]; simp

theorem runList_append {cfg : Config K P} {s s1 s2 : State K P} {l1 l2 : List (Label K P)} {e1 e2 : List (Event K P)}
    (h1 : runList cfg s l1 = some (s1, e1)) (h2 : runList cfg s1 l2 = some (s2, e2)) :
    runList cfg s (l1 ++ l2) = some (s2, e1 ++ e2) := by
  induction l1 generalizing s e1 with
  | nil => simp only [runList] at h1; cases h1; simpa using h2
  | cons l l1 ih =>
    simp only [runList, List.cons_append] at h1 ⊢
    cases hs : step cfg s l with
    | none => simp [hs] at h1
    | some x =>
      obtain ⟨s', e⟩ := x
      simp only [hs] at h1 ⊢
      cases hr : runList cfg s' l1 with
      | none => simp [hr] at h1
      | some y =>
        obtain ⟨s'', es⟩ := y
        simp only [hr] at h1
        cases h1
        simp [ih hr]

theorem RunOK_append {cfg : Config K P} {s s1 : State K P} {l1 l2 : List (Label K P)} {e1 : List (Event K P)}
    (h1 : RunOK cfg s l1) (hr : runList cfg s l1 = some (s1, e1)) (h2 : RunOK cfg s1 l2) : RunOK cfg s (l1 ++ l2) := by
  induction l1 generalizing s e1 with
  | nil => simp only [runList] at hr; cases hr; simpa using h2
  | cons l l1 ih =>
    simp only [RunOK, List.cons_append] at h1 ⊢
    simp only [runList] at hr
    refine ⟨h1.1, h1.2.1, ?_⟩
    cases hs : step cfg s l with
    | none => simp [hs] at hr
    | some x =>
      obtain ⟨s', e⟩ := x
      simp only [hs] at hr h1 ⊢
      cases hr' : runList cfg s' l1 with
      | none => simp [hr'] at hr
      | some y =>
        obtain ⟨s'', es⟩ := y
        simp only [hr'] at hr
        cases hr
        exact ih h1.2.2 hr'

/-- A running call can always take a step; it goes on or returns (it does not fail). -/
theorem Exec.tick_cases {cfg : Config K P} (E : Exec cfg) {i t : Nat} {c : Call K P} (hc : ((E.st i).thr t).run = some c)
    (weak : Bool) : ∃ E' : Exec cfg, (∀ j, j ≤ i → E'.st j = E.st j) ∧
      (∀ j, j < i → E'.lab j = E.lab j ∧ E'.ev j = E.ev j) ∧ E'.lab i = .tick t weak ∧
      ((∃ pc ran, (tick cfg (E.st i).m weak c.pc).2 = .goto pc ran ∧ E'.ev i = none ∧
        ((E'.st (i + 1)).thr t).run =
          some { c with pc := pc, calls := c.calls + (if ran then 1 else 0), ticks := c.ticks + 1 }) ∨
       (∃ r refs, (tick cfg (E.st i).m weak c.pc).2 = .ret r refs ∧ E'.ev i = some (.res c.inv r) ∧
        ((E'.st (i + 1)).thr t).run = none)) := by
  have hok : RunOK cfg (E.st i) [.tick t weak] := by
    refine ⟨trivial, trivial, ?_⟩
    simp only [Contrie.step, hc]
    trivial
  obtain ⟨E', h1, h2, h3, h4⟩ := E.splice i hok
  have hl : E'.lab i = .tick t weak := by simpa using h4 0
  refine ⟨E', h1, h2, hl, ?_⟩
  have hs := E'.step i
  rw [hl, h1 i (Nat.le_refl i)] at hs
  have hf := ((E'.inv (i + 1)).thr t).noFail
  simp only [Contrie.step, hc, Option.some.injEq, Prod.mk.injEq] at hs
  obtain ⟨hs1, hs2⟩ := hs
  rw [← hs1] at hf ⊢
  simp only [upd_same] at hf ⊢
  rw [← hs2]
  cases hn : (tick cfg (E.st i).m weak c.pc).2 with
  | goto pc ran => exact Or.inl ⟨pc, ran, rfl, rfl, by simp [Thread.apply]⟩
  | ret r refs => exact Or.inr ⟨r, refs, rfl, rfl, rfl⟩
  | fail f => rw [hn] at hf; simp [Thread.apply] at hf

/-- If some measure of a call in progress goes down in every step of the session running alone, then the call
returns, after at most as many steps. -/
theorem Exec.solo_returns {cfg : Config K P} {t : Nat} {rq : Req K P} (μ : State K P → Call K P → Nat)
    (hμ : ∀ (E : Exec cfg) (i : Nat) (c c' : Call K P), c.req = rq → ((E.st i).thr t).run = some c → E.lab i = .tick t false →
      ((E.st (i + 1)).thr t).run = some c' → μ (E.st (i + 1)) c' < μ (E.st i) c) (N : Nat) :
    ∀ (E : Exec cfg) (i : Nat) (c : Call K P), c.req = rq → ((E.st i).thr t).run = some c → μ (E.st i) c < N →
      ∃ n s' r, n ≤ N ∧ RunOK cfg (E.st i) (List.replicate n (.tick t false)) ∧
        runList cfg (E.st i) (List.replicate n (.tick t false)) = some (s', [.res c.inv r]) ∧ (s'.thr t).run = none := by
  induction N with
  | zero => intro E i c _ _ h; omega
  | succ N ih =>
    intro E i c hq hc hlt
    obtain ⟨E', h1, h2, h3, h4⟩ := E.tick_cases hc false
    have hs := E'.step i
    rw [h3, h1 i (Nat.le_refl i)] at hs
    rcases h4 with ⟨pc, ran, g1, g2, g3⟩ | ⟨r, refs, g1, g2, g3⟩
    · rw [g2] at hs
      have hm := hμ E' i c _ hq (by rw [h1 i (Nat.le_refl i)]; exact hc) h3 g3
      rw [h1 i (Nat.le_refl i)] at hm
      obtain ⟨n, s', r, k1, k2, k3, k4⟩ := ih E' (i + 1) _ (by exact hq) g3 (by omega)
      refine ⟨n + 1, s', r, by omega, ?_, ?_, k4⟩
      · simp only [List.replicate_succ, RunOK, hs]
        exact ⟨trivial, trivial, k2⟩
      · simp only [List.replicate_succ, runList, hs, k3]
        rfl
    · rw [g2] at hs
      refine ⟨1, E'.st (i + 1), r, by omega, ?_, ?_, g3⟩
      · simp only [List.replicate, RunOK, hs]
        exact ⟨trivial, trivial, trivial⟩
      · simp only [List.replicate, runList, hs]
        rfl

/-- The run of a strategy: the states reached by doing `f i s` in step `i` in state `s`. -/
def stratSt (cfg : Config K P) (f : Nat → State K P → Label K P) : Nat → State K P
  | 0 => State.init
  | i + 1 => match step cfg (stratSt cfg f i) (f i (stratSt cfg f i)) with
    | none => stratSt cfg f i
    | some x => x.1

/-- A strategy that never gets stuck yields an infinite execution. -/
theorem Exec.ofStrategy {cfg : Config K P} (f : Nat → State K P → Label K P)
    (hf : ∀ (E : Exec cfg) (i : Nat), (∀ j, j < i → E.lab j = f j (E.st j)) → RunOK cfg (E.st i) [f i (E.st i)]) :
    ∃ E : Exec cfg, ∀ i, E.lab i = f i (E.st i) := by
  have hpre : ∀ n, ∃ E : Exec cfg, (∀ j, j ≤ n → E.st j = stratSt cfg f j) ∧ ∀ j, j < n → E.lab j = f j (E.st j) := by
    intro n
    induction n with
    | zero =>
      obtain ⟨E, -⟩ := Exec.ofList (cfg := cfg) (ls := []) trivial
      exact ⟨E, fun j hj => by rw [show j = 0 by omega, E.init]; rfl, fun j hj => by omega⟩
    | succ n ih =>
      obtain ⟨E, h1, h2⟩ := ih
      obtain ⟨E', g1, g2, g3, g4⟩ := E.splice n (hf E n h2)
      have hl : E'.lab n = f n (E'.st n) := by
        have := g4 0
        simp only [Nat.add_zero, List.getD_cons_zero] at this
        rw [this, g1 n (Nat.le_refl n)]
      refine ⟨E', ?_, ?_⟩
      · intro j hj
        by_cases e : j ≤ n
        · rw [g1 j e, h1 j e]
        · have : j = n + 1 := by omega
          subst this
          have hs := E'.step n
          rw [hl] at hs
          rw [g1 n (Nat.le_refl n), h1 n (Nat.le_refl n)] at hs
          simp only [stratSt, hs]
      · intro j hj
        by_cases e : j < n
        · rw [(g2 j e).1, h2 j e, g1 j (Nat.le_of_lt e)]
        · have : j = n := by omega
          subst this
          exact hl
  refine ⟨⟨stratSt cfg f, fun i => f i (stratSt cfg f i),
    fun i => ((Contrie.step cfg (stratSt cfg f i) (f i (stratSt cfg f i))).bind Prod.snd), rfl, ?_, ?_, ?_⟩, fun i => rfl⟩
  · intro i
    obtain ⟨E, h1, h2⟩ := hpre (i + 1)
    have hs := E.step i
    rw [h2 i (by omega), h1 i (by omega), h1 (i + 1) (by omega)] at hs
    rw [hs]
    rfl
  · intro i
    obtain ⟨E, h1, h2⟩ := hpre (i + 1)
    have := E.enabled i
    rw [h2 i (by omega), h1 i (by omega)] at this
    exact this
  · intro i
    obtain ⟨E, h1, h2⟩ := hpre (i + 1)
    have := E.wf i
    rw [h2 i (by omega), h1 i (by omega)] at this
    exact this

end Contrie
