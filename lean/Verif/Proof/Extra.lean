import Verif.Proof.Finite
/-
Additional facts about executions: runs of the closure, elements held by iterators, counting of steps.
-/
set_option linter.unusedSectionVars false
namespace Contrie
variable {K P : Type} [DecidableEq K]

section
variable {cfg : Config K P} {A : Nat → AMap K P} {m : Mem P}

/-- Only `traverse` runs the closure. -/
theorem tick_ran {weak : Bool} {pc pc' : PC K P} (h : (tick cfg m weak pc).2 = .goto pc' true) :
    ∃ st hash mode shift cur parent, pc = .trav st hash mode shift cur parent := by
  have hpr : ∀ {p c k}, (enterPrune p c k : Next K P) ≠ .goto pc' true := by
    intro p c k h; simp only [enterPrune] at h; repeat' split at h
    all_goals cases h
  have hcl : ∀ {d r l}, (enterClean d r l : Next K P) ≠ .goto pc' true := by
    intro d r l h; cases l with
    | nil => cases h
    | cons x l => simp only [enterClean] at h; split at h <;> cases h
  have hfi : ∀ {mode r refs}, (finishTrav mode r refs : Next K P) ≠ .goto pc' true := by
    intro mode r refs h; simp only [finishTrav] at h; repeat' split at h
    all_goals cases h
  have haf : ∀ {r k}, (afterPrune r k : Next K P) ≠ .goto pc' true := by
    intro r k h; cases k with
    | trav => cases h
    | rem => cases h
    | clean => simp only [afterPrune] at h; split at h
               · cases h
               · exact hcl h
  cases pc with
  | get key hash cur => simp only [tick, tickGet] at h; repeat' split at h
                        all_goals cases h
  | isEmpty => cases h
  | iterNew => cases h
  | iterNext levels out => simp only [tick, tickIterNext] at h; repeat' split at h
                           all_goals cases h
  | trav st hash mode shift cur parent => exact ⟨_, _, _, _, _, _, rfl⟩
  | travCas st hash mode shift cur parent node new kind =>
    simp only [tick, tickTravCas] at h
    repeat' split at h
    all_goals first
      | exact absurd h hfi
      | cases h
  | rem key shift cur levels =>
    simp only [tick, tickRem] at h
    repeat' split at h
    all_goals first
      | exact absurd h hpr
      | cases h
  | remCas key shift cur levels node new deleted =>
    simp only [tick, tickRemCas] at h
    repeat' split at h
    all_goals first
      | exact absurd h hcl
      | cases h
  | count deleted ref parent child rest i cnt =>
    simp only [tick, tickCount] at h
    repeat' split at h
    all_goals first
      | exact absurd h hpr
      | cases h
  | prune parent child i acc k =>
    simp only [tick, tickPrune] at h
    repeat' split at h
    all_goals cases h
  | pruneCas parent child acc k =>
    simp only [tick, tickPruneCas] at h
    repeat' split at h
    all_goals first
      | exact absurd h haf
      | cases h

/-- When the closure runs, the key was missing at some instant of the call. -/
theorem tick_ran_absent {weak : Bool} {c : Call K P} (x : Ctx cfg A m c.inv) (hi : PCInv cfg A m c) {pc' : PC K P}
    (h : (tick cfg m weak c.pc).2 = .goto pc' true) :
    ∃ k f, c.req = .op (.getOrInsert k f) ∧ c.calls = 0 ∧ ∃ τ, c.inv ≤ τ ∧ τ ≤ m.clock ∧ A τ k = none := by
  obtain ⟨st, hash, mode, shift, cur, parent, hpc⟩ := tick_ran h
  rw [hpc] at h
  simp only [PCInv, hpc] at hi
  obtain ⟨d, rfl, hat⟩ := hi
  obtain ⟨w, hr, hA, hheld, hok⟩ := x.read hat.loc
  simp only [tick, tickTrav, hr] at h
  have hkey : pre hash d <+: nibs (cfg.hash (st.key cfg)) := by rw [hat.hashEq]; exact pre_prefix _ _
  have fin : st.runsClosure = true → m.leafVal cfg (st.key cfg) w = some none →
      ∃ k f, c.req = .op (.getOrInsert k f) ∧ c.calls = 0 ∧ ∃ τ, c.inv ≤ τ ∧ τ ≤ m.clock ∧ A τ k = none := by
    intro hrun hv
    have hl := x.leaf hat.loc hA hkey hv
    have hq := hat.req
    cases st with
    | created p => cases hrun
    | future k f =>
      generalize c.req = rq at hq ⊢
      generalize c.calls = nc at hq ⊢
      cases hq with
      | fut _ _ wf => exact ⟨k, f, rfl, rfl, hl⟩
  split at h
  · split at h
    · cases h
    · simp only [enterPrune] at h; repeat' split at h
      all_goals cases h
  · cases hp : w.ptr with
    | none =>
      simp only [hp] at h
      injection h with _ h
      exact fin h (leafVal_null hp)
    | some a =>
      simp only [hp] at h
      cases hd : w.data with
      | true =>
        obtain ⟨items, h1, h2, h3⟩ := x.load hok hheld hp hd
        simp only [hd, if_true, h1] at h
        cases items with
        | nil => cases h
        | cons d0 rest =>
          simp only at h
          split at h
          · split at h <;> cases h
          · split at h
            · next hcond =>
              injection h with _ h
              have hmode : mode ≠ .overwrite := by
                intro e; subst e
                have hq := hat.req
                generalize c.req = rq at hq
                generalize c.calls = nc at hq
                cases hq; cases h
              have hnone : (d0 :: rest).find? (fun l => decide (cfg.key l = st.key cfg)) = none := by
                rcases hcond with hc | hc
                · simpa only [Option.isNone_iff_eq_none] using hc
                · exact absurd hc hmode
              refine fin h ?_
              rw [leafVal_data hp hd h2, hnone]
            · simp only [finishTrav] at h; repeat' split at h
              all_goals cases h
      | false =>
        simp only [hd] at h
        simp at h
        split at h <;> cases h

/-- The elements an iterator has yielded sit in nodes that were not retired before the iterator was created. -/
def OutHeld (m : Mem P) (c : Call K P) : Prop :=
  ∀ lv out, c.pc = .iterNext lv out → ∀ p ∈ out, ∃ a items, Held m c.inv a ∧ m.mem a = some (.data items) ∧ p ∈ items

theorem OutHeld.evo {m' : Mem P} {c : Call K P} (h : OutHeld m c) (he : Evo m m') (hs : c.inv ≤ m.clock) :
    OutHeld m' c := by
  intro lv out hpc p hp
  obtain ⟨a, items, h1, h2, h3⟩ := h lv out hpc p hp
  exact ⟨a, items, h1.evo he hs, he.data _ _ h2, h3⟩

theorem enterPrune_noIter {p : Loc} {ch : Word} {k : Cont K P} {lv : List (Word × Nat)} {out : List P} {ran : Bool} :
    (enterPrune p ch k : Next K P) ≠ .goto (.iterNext lv out) ran := by
  intro h; simp only [enterPrune] at h; repeat' split at h
  all_goals cases h

theorem enterClean_noIter {d : P} {r : Nat} {l : List (Loc × Word)} {lv : List (Word × Nat)} {out : List P} {ran : Bool} :
    (enterClean d r l : Next K P) ≠ .goto (.iterNext lv out) ran := by
  intro h; cases l with
  | nil => cases h
  | cons x l => simp only [enterClean] at h; split at h <;> cases h

/-- What an iterator step does to the list of yielded elements. -/
theorem tick_iter {weak : Bool} {c : Call K P} (x : Ctx cfg A m c.inv) (hi : PCInv cfg A m c)
    (ho : OutHeld m c) {lv : List (Word × Nat)} {out : List P} {ran : Bool}
    (h : (tick cfg m weak c.pc).2 = .goto (.iterNext lv out) ran) :
    ∀ p ∈ out, ∃ a items, Held m c.inv a ∧ m.mem a = some (.data items) ∧ p ∈ items := by
  cases hpc : c.pc with
  | iterNext lv0 out0 =>
    have ho := ho lv0 out0 hpc
    rw [hpc] at h
    simp only [PCInv, hpc] at hi
    obtain ⟨hreq, -, qs, hok⟩ := hi
    simp only [tick, tickIterNext] at h
    split at h
    · cases h
    · next w idx rest =>
      split at h
      · cases h; exact ho
      · next a hp =>
        split at h
        · next hd =>
          have hst := hok.stack
          have : ∃ q, WordOK cfg m w q ∧ WHeld m c.inv w := by cases hst <;> exact ⟨_, ‹_›, ‹_›⟩
          obtain ⟨q, hw, hh⟩ := this
          obtain ⟨items, h1, h2, h3⟩ := x.load hw hh hp hd
          simp only [h1] at h
          split at h
          · next p hp' =>
            cases h
            intro p' hp2
            rcases List.mem_append.mp hp2 with h4 | h4
            · exact ho p' h4
            · simp at h4; subst h4
              exact ⟨a, items, hh a hp, h2, List.mem_of_getElem? hp'⟩
          · cases h; exact ho
        · split at h
          · split at h
            · cases h
            · split at h
              · cases h
              · cases h; exact ho
          · cases h; exact ho
  | iterNew => rw [hpc] at h; cases h; intro p hp; cases hp
  | get key hash cur => rw [hpc] at h; simp only [tick, tickGet] at h; repeat' split at h
                        all_goals cases h
  | isEmpty => rw [hpc] at h; cases h
  | trav st hash mode shift cur parent =>
    rw [hpc] at h
    simp only [tick, tickTrav, finishTrav] at h
    repeat' split at h
    all_goals first
      | exact absurd h enterPrune_noIter
      | cases h
  | travCas st hash mode shift cur parent node new kind =>
    rw [hpc] at h
    simp only [tick, tickTravCas, finishTrav] at h
    repeat' split at h
    all_goals cases h
  | rem key shift cur levels =>
    rw [hpc] at h
    simp only [tick, tickRem] at h
    repeat' split at h
    all_goals first
      | exact absurd h enterPrune_noIter
      | cases h
  | remCas key shift cur levels node new deleted =>
    rw [hpc] at h
    simp only [tick, tickRemCas] at h
    repeat' split at h
    all_goals first
      | exact absurd h enterClean_noIter
      | cases h
  | count deleted ref parent child rest i cnt =>
    rw [hpc] at h
    simp only [tick, tickCount] at h
    repeat' split at h
    all_goals first
      | exact absurd h enterPrune_noIter
      | cases h
  | prune parent child i acc k =>
    rw [hpc] at h
    simp only [tick, tickPrune] at h
    repeat' split at h
    all_goals cases h
  | pruneCas parent child acc k =>
    rw [hpc] at h
    simp only [tick, tickPruneCas, afterPrune] at h
    repeat' split at h
    all_goals first
      | exact absurd h enterClean_noIter
      | cases h
end

/-- Full version of `step_run`: where the running calls of the next state come from. -/
theorem step_run_full {cfg : Config K P} {s s' : State K P} {l : Label K P} {e : Option (Event K P)}
    (h : Contrie.step cfg s l = some (s', e)) {t : Nat} {c' : Call K P} (hc : (s'.thr t).run = some c') :
    ((s.thr t).run = some c' ∧ ∀ weak, l ≠ .tick t weak) ∨
    (∃ c pc ran weak, (s.thr t).run = some c ∧ l = .tick t weak ∧ (tick cfg s.m weak c.pc).2 = .goto pc ran ∧
      c' = { c with pc := pc, calls := c.calls + (if ran then 1 else 0), ticks := c.ticks + 1 }) ∨
    (∃ r, l = .call t r ∧ c' = ⟨s.m.clock, r, startPC cfg r, 0, 0⟩ ∧ (s.thr t).run = none) := by
  cases l with
  | pin t0 =>
    simp only [Contrie.step] at h
    split at h <;> cases h
    by_cases e : t = t0
    · subst e; simp only [upd_same] at hc; exact Or.inl ⟨hc, by simp⟩
    · simp only [upd_other _ _ e] at hc; exact Or.inl ⟨hc, by simp⟩
  | unpin t0 =>
    simp only [Contrie.step] at h
    split at h <;> cases h
    by_cases e : t = t0
    · subst e; simp only [upd_same] at hc; exact Or.inl ⟨hc, by simp⟩
    · simp only [upd_other _ _ e] at hc; exact Or.inl ⟨hc, by simp⟩
  | call t0 r =>
    simp only [Contrie.step] at h
    split at h
    · next hp hr hf =>
      cases h
      by_cases e : t = t0
      · subst e; simp only [upd_same] at hc; cases hc; exact Or.inr (Or.inr ⟨r, rfl, rfl, hr⟩)
      · simp only [upd_other _ _ e] at hc; exact Or.inl ⟨hc, by simp⟩
    · cases h
  | tick t0 weak =>
    simp only [Contrie.step] at h
    split at h
    · cases h
    · next c hr =>
      cases h
      by_cases e : t = t0
      · subst e
        simp only [upd_same] at hc
        generalize hn : (tick cfg s.m weak c.pc).2 = n at hc
        cases n with
        | goto pc ran => cases hc; exact Or.inr (Or.inl ⟨c, pc, ran, weak, hr, rfl, hn, rfl⟩)
        | ret r refs => cases hc
        | fail f => cases hc
      · simp only [upd_other _ _ e] at hc
        exact Or.inl ⟨hc, by intro weak' h; injection h with h; exact e h.symm⟩
  | abort t0 =>
    simp only [Contrie.step] at h
    split at h <;> cases h
    by_cases e : t = t0
    · subst e; simp only [upd_same] at hc; cases hc
    · simp only [upd_other _ _ e] at hc; exact Or.inl ⟨hc, by simp⟩
  | free a => simp only [Contrie.step] at h; cases h; exact Or.inl ⟨hc, by simp⟩
  | idle => simp only [Contrie.step] at h; cases h; exact Or.inl ⟨hc, by simp⟩

namespace Exec
variable {cfg : Config K P} (E : Exec cfg)

theorem run_pcinv {i t : Nat} {c : Call K P} (hc : ((E.st i).thr t).run = some c) : PCInv cfg E.A (E.st i).m c :=
  (((E.inv i).thr t).run c hc).2.2.1

theorem outHeld (i : Nat) : ∀ t c, ((E.st i).thr t).run = some c → OutHeld (E.st i).m c := by
  induction i with
  | zero => intro t c hc; rw [E.init] at hc; cases hc
  | succ i ih =>
    intro t c hc
    have hevo := (E.stepOK i).evo
    rcases step_run_full (E.step i) hc with ⟨h1, -⟩ | ⟨c0, pc, ran, weak, h1, h2, h3, rfl⟩ | ⟨r, h1, rfl, h2⟩
    · exact (ih t c h1).evo hevo (by have := (E.run_inv i h1).1; rw [E.clock]; omega)
    · have hlt := (E.run_inv i h1).1
      intro lv out hpc p hp
      simp only at hpc
      subst hpc
      obtain ⟨a, items, g1, g2, g3⟩ := tick_iter ((E.inv i).ctx h1) (E.run_pcinv h1) (ih t c0 h1) h3 p hp
      exact ⟨a, items, g1.evo hevo (by rw [E.clock]; omega), hevo.data _ _ g2, g3⟩
    · intro lv out hpc
      cases r with
      | op o => cases o <;> cases hpc
      | isEmpty => cases hpc
      | iter => cases hpc

/-- The closure of call `id` runs in step `i`. -/
def ClosureRuns (i id : Nat) : Prop :=
  ∃ t weak c pc, E.lab i = .tick t weak ∧ ((E.st i).thr t).run = some c ∧ c.inv = id ∧
    (tick cfg (E.st i).m weak c.pc).2 = .goto pc true

theorem calls_le_one {i t : Nat} {c : Call K P} (hc : ((E.st i).thr t).run = some c) : c.calls ≤ 1 := by
  have h := E.run_pcinv hc
  have hT : ∀ {rq mode st n}, TravReq cfg rq mode st n → n ≤ 1 := by
    intro rq mode st n h; cases h <;> omega
  simp only [PCInv] at h
  have hC : ∀ {m s rq n k}, ContOK cfg m s rq n k → n ≤ 1 := by
    intro m s rq n k h
    cases k with
    | trav => exact hT h.1
    | rem => have := h.2; omega
    | clean => have := h.1.2; omega
  split at h
  · omega
  · omega
  · omega
  · omega
  · obtain ⟨d, -, h⟩ := h; exact hT h.req
  · obtain ⟨d, -, h, -⟩ := h; exact hT h.req
  · omega
  · omega
  · omega
  · exact hC h.1
  · exact hC h.1

/-- The counter of closure runs counts the runs of the closure. -/
theorem calls_pos_iff (i : Nat) : ∀ t c, ((E.st i).thr t).run = some c →
    (0 < c.calls ↔ ∃ j, j < i ∧ E.ClosureRuns j c.inv) := by
  induction i with
  | zero => intro t c hc; rw [E.init] at hc; cases hc
  | succ i ih =>
    intro t c hc
    rcases step_run_full (E.step i) hc with ⟨h1, h2⟩ | ⟨c0, pc, ran, weak, h1, h2, h3, rfl⟩ | ⟨r, h1, rfl, h2⟩
    · rw [ih t c h1]
      constructor
      · rintro ⟨j, hj, hr⟩; exact ⟨j, by omega, hr⟩
      · rintro ⟨j, hj, hr⟩
        by_cases e : j = i
        · subst e
          obtain ⟨t', weak, c', pc, g1, g2, g3, g4⟩ := hr
          have := (E.inv j).inj t' t c' c g2 h1 g3
          subst this
          exact absurd g1 (h2 weak)
        · exact ⟨j, by omega, hr⟩
    · simp only
      constructor
      · intro hpos
        cases ran with
        | true => exact ⟨i, by omega, t, weak, c0, pc, h2, h1, rfl, h3⟩
        | false =>
          obtain ⟨j, hj, hr⟩ := (ih t c0 h1).mp (by simpa using hpos)
          exact ⟨j, by omega, hr⟩
      · rintro ⟨j, hj, hr⟩
        by_cases e : j = i
        · subst e
          obtain ⟨t', weak', c', pc', g1, g2, g3, g4⟩ := hr
          have := (E.inv j).inj t' t c' c0 g2 h1 g3
          subst this
          rw [g1] at h2; cases h2
          rw [g2] at h1; cases h1
          rw [g4] at h3; cases h3
          simp
        · have := (ih t c0 h1).mpr ⟨j, by omega, hr⟩
          omega
    · simp only [Nat.lt_irrefl, false_iff]
      rintro ⟨j, hj, t', weak, c', pc, g1, g2, g3, g4⟩
      rw [E.clock] at g3
      have := (E.run_inv j g2).1
      omega

/-- The closure of a call runs at most once. -/
theorem closure_once {i j id : Nat} (h : E.ClosureRuns i id) (h' : E.ClosureRuns j id) : i = j := by
  have key : ∀ {i j}, E.ClosureRuns i id → E.ClosureRuns j id → ¬ i < j := by
    intro i j h h' hlt
    obtain ⟨t, weak, c, pc, g1, g2, g3, g4⟩ := h'
    obtain ⟨k, f, -, h0, -⟩ := tick_ran_absent ((E.inv j).ctx g2) (E.run_pcinv g2) g4
    have := (E.calls_pos_iff j t c g2).mpr ⟨i, hlt, by rw [g3]; exact h⟩
    omega
  have h1 := key h h'
  have h2 := key h' h
  omega

/-! ### Counting the steps of a call -/

/-- Is this a step of session `t` inside a call? -/
def _root_.Contrie.Label.isTick (t : Nat) : Label K P → Bool
  | .tick t' _ => decide (t' = t)
  | _ => false

/-- Number of steps (accesses to shared memory) of session `t` from instant `s` on and before instant `e`. -/
def accesses (t s e : Nat) : Nat := ((List.range e).filter (fun i => decide (s ≤ i) && (E.lab i).isTick t)).length

theorem accesses_succ (t s e : Nat) :
    E.accesses t s (e + 1) = E.accesses t s e + if s ≤ e ∧ (E.lab e).isTick t = true then 1 else 0 := by
  simp only [accesses, List.range_succ, List.filter_append, List.length_append]
  congr 1
  simp only [List.filter_cons, List.filter_nil, Bool.and_eq_true, decide_eq_true_eq]
  split <;> rfl

theorem ticks_eq (i : Nat) : ∀ t c, ((E.st i).thr t).run = some c → c.ticks = E.accesses t c.inv i := by
  induction i with
  | zero => intro t c hc; rw [E.init] at hc; cases hc
  | succ i ih =>
    intro t c hc
    rw [accesses_succ]
    rcases step_run_full (E.step i) hc with ⟨h1, h2⟩ | ⟨c0, pc, ran, weak, h1, h2, h3, rfl⟩ | ⟨r, h1, rfl, h2⟩
    · rw [ih t c h1]
      have : (E.lab i).isTick t = false := by
        cases hl : E.lab i <;> simp [Label.isTick]
        next t' w => intro e; subst e; exact h2 _ hl
      simp [this]
    · simp only
      have := (E.run_inv i h1).1
      rw [ih t c0 h1]
      simp [h2, Label.isTick]; omega
    · simp only [E.clock]
      have h0 : E.accesses t i i = 0 := by
        simp only [accesses, List.length_eq_zero_iff, List.filter_eq_nil_iff, List.mem_range]
        intro a ha; simp; intro hle; omega
      rw [h0]; simp [h1, Label.isTick]

end Exec
end Contrie
