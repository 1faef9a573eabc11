import Verif.Proof.Inv
/-
The invariant along an execution.
-/
set_option linter.unusedSectionVars false
namespace Contrie
variable {K P : Type} [DecidableEq K]

/-- Where do running calls come from? -/
theorem step_run {cfg : Config K P} {s s' : State K P} {l : Label K P} {e : Option (Event K P)}
    (h : Contrie.step cfg s l = some (s', e)) {t : Nat} {c' : Call K P} (hc : (s'.thr t).run = some c') :
    (∃ c, (s.thr t).run = some c ∧ c.inv = c'.inv ∧ c.req = c'.req) ∨
    (c'.inv = s.m.clock ∧ e = some (.inv s.m.clock c'.req) ∧ l = .call t c'.req) := by
  cases l with
  | pin t0 =>
    simp only [Contrie.step] at h
    split at h <;> cases h
    by_cases e : t = t0
    · subst e; simp only [upd_same] at hc; exact Or.inl ⟨c', hc, rfl, rfl⟩
    · simp only [upd_other _ _ e] at hc; exact Or.inl ⟨c', hc, rfl, rfl⟩
  | unpin t0 =>
    simp only [Contrie.step] at h
    split at h <;> cases h
    by_cases e : t = t0
    · subst e; simp only [upd_same] at hc; exact Or.inl ⟨c', hc, rfl, rfl⟩
    · simp only [upd_other _ _ e] at hc; exact Or.inl ⟨c', hc, rfl, rfl⟩
  | call t0 r =>
    simp only [Contrie.step] at h
    split at h <;> cases h
    by_cases e : t = t0
    · subst e; simp only [upd_same] at hc; cases hc; exact Or.inr ⟨rfl, rfl, rfl⟩
    · simp only [upd_other _ _ e] at hc; exact Or.inl ⟨c', hc, rfl, rfl⟩
  | tick t0 weak =>
    simp only [Contrie.step] at h
    split at h
    · cases h
    · next c hr =>
      cases h
      by_cases e : t = t0
      · subst e
        simp only [upd_same] at hc
        generalize (tick cfg s.m weak c.pc).2 = n at hc
        cases n with
        | goto pc ran => cases hc; exact Or.inl ⟨c, hr, rfl, rfl⟩
        | ret r refs => cases hc
        | fail f => cases hc
      · simp only [upd_other _ _ e] at hc; exact Or.inl ⟨c', hc, rfl, rfl⟩
  | abort t0 =>
    simp only [Contrie.step] at h
    split at h <;> cases h
    by_cases e : t = t0
    · subst e; simp only [upd_same] at hc; cases hc
    · simp only [upd_other _ _ e] at hc; exact Or.inl ⟨c', hc, rfl, rfl⟩
  | free a =>
    simp only [Contrie.step] at h
    cases h
    exact Or.inl ⟨c', hc, rfl, rfl⟩
  | idle =>
    simp only [Contrie.step] at h
    cases h
    exact Or.inl ⟨c', hc, rfl, rfl⟩

namespace Exec
variable {cfg : Config K P} (E : Exec cfg)

/-- The abstract map at instant `i`. -/
def A (i : Nat) : AMap K P := (E.st i).m.abs cfg
/-- The update that takes effect in step `i`. -/
def W (i : Nat) : Option (LP K P) := lpStep cfg (E.st i) (E.lab i)

theorem inv_clock (i : Nat) : Inv cfg E.A E.W (E.st i) ∧ (E.st i).m.clock = i := by
  induction i with
  | zero =>
    rw [E.init]
    refine ⟨Inv.init ?_, rfl⟩
    simp [A, E.init]
  | succ i ih =>
    obtain ⟨h1, h2⟩ := ih
    have := h1.step (E.step i) (E.enabled i) (E.wf i) (by rw [h2]; rfl) (by rw [h2]; rfl)
    exact ⟨this.1, by rw [this.2.evo.clock, h2]⟩

theorem clock (i : Nat) : (E.st i).m.clock = i := (E.inv_clock i).2
theorem inv (i : Nat) : Inv cfg E.A E.W (E.st i) := (E.inv_clock i).1

theorem stepOK (i : Nat) : StepOK cfg E.A E.W (E.st i) (E.st (i + 1)) (E.lab i) (E.ev i) :=
  ((E.inv i).step (E.step i) (E.enabled i) (E.wf i) (by rw [E.clock]; rfl) (by rw [E.clock]; rfl)).2

theorem A_zero : E.A 0 = AMap.empty := by
  funext k
  simp only [A, E.init, State.init, Mem.abs, AMap.empty]
  exact look_leaf _ (leafVal_null rfl)

theorem A_none {i : Nat} (h : E.W i = none) : E.A (i + 1) = E.A i := by
  have := (E.stepOK i).abs
  rw [E.clock, h] at this
  exact this

theorem A_some {i : Nat} {lp : LP K P} (h : E.W i = some lp) : (E.A i).apply cfg.key lp.op = (E.A (i + 1), lp.ret) := by
  have := (E.stepOK i).abs
  rw [E.clock, h] at this
  exact this.1

/-- The call that performs an update. -/
theorem W_call {i : Nat} {lp : LP K P} (h : E.W i = some lp) :
    ∃ t c, ((E.st i).thr t).run = some c ∧ lp.id = c.inv ∧ c.req = .op lp.op ∧ c.pc.taken = none ∧
      ∃ weak, E.lab i = .tick t weak := by
  have := (E.stepOK i).abs
  rw [E.clock, h] at this
  exact this.2

/-- A running call was invoked. -/
theorem run_inv (i : Nat) {t : Nat} {c : Call K P} (hc : ((E.st i).thr t).run = some c) :
    c.inv < i ∧ E.ev c.inv = some (.inv c.inv c.req) ∧ E.lab c.inv = .call t c.req := by
  induction i generalizing t c with
  | zero => rw [E.init] at hc; cases hc
  | succ i ih =>
    rcases step_run (E.step i) hc with ⟨c0, h1, h2, h3⟩ | ⟨h1, h2, h3⟩
    · have := ih h1
      rw [h2, h3] at this
      exact ⟨by omega, this.2⟩
    · rw [E.clock] at h1 h2
      rw [h1]
      exact ⟨by omega, h2, h3⟩

theorem ev_inv {i id : Nat} {r : Req K P} (h : E.ev i = some (.inv id r)) : id = i := by
  have := (E.stepOK i).inv id r h
  rw [E.clock] at this
  exact this.1

/-- Nobody runs call `id`. -/
def Gone (i id : Nat) : Prop := ∀ t c, ((E.st i).thr t).run = some c → c.inv ≠ id

theorem Gone.mono {i j id : Nat} (h : E.Gone i id) (hid : id < i) (hij : i ≤ j) : E.Gone j id := by
  induction hij with
  | refl => exact h
  | step hij ih =>
    intro t c hc
    rcases step_run (E.step _) hc with ⟨c0, h1, h2, h3⟩ | ⟨h1, -⟩
    · rw [← h2]; exact ih t c0 h1
    · rw [E.clock] at h1; have := hij; simp only [Nat.le_eq] at this; omega

/-- All about a return. -/
theorem res {j id : Nat} {r : Res P} (h : E.ev j = some (.res id r)) : ∃ t c refs weak, E.lab j = .tick t weak ∧
    ((E.st j).thr t).run = some c ∧ c.inv = id ∧ RetOK cfg E.A E.W (E.st (j + 1)).m c r refs ∧
    (tick cfg (E.st j).m weak c.pc).2 = .ret r refs ∧ ((E.st (j + 1)).thr t).run = none ∧
    id < j ∧ E.ev id = some (.inv id c.req) := by
  obtain ⟨t, c, refs, weak, h1, h2, h3, h4, h5, h6⟩ := (E.stepOK j).res id r h
  have := E.run_inv j h2
  rw [h3] at this
  exact ⟨t, c, refs, weak, h1, h2, h3, h4, h6, h5, this.1, this.2.1⟩

theorem res_gone {j id : Nat} {r : Res P} (h : E.ev j = some (.res id r)) : E.Gone (j + 1) id := by
  obtain ⟨t, c, refs, weak, h1, h2, h3, h4, h5, h6, h7, h8⟩ := E.res h
  intro t' c' hc' he
  rcases step_run (E.step j) hc' with ⟨c0, g1, g2, g3⟩ | ⟨g1, -⟩
  · have : t' = t := (E.inv j).inj t' t c0 c g1 h2 (by omega)
    subst this
    rw [h6] at hc'; cases hc'
  · rw [E.clock] at g1; omega

/-- A call returns only once. -/
theorem res_unique {j j' id : Nat} {r r' : Res P} (h : E.ev j = some (.res id r)) (h' : E.ev j' = some (.res id r')) :
    j = j' := by
  have key : ∀ {j j' : Nat} {r r' : Res P}, E.ev j = some (.res id r) → E.ev j' = some (.res id r') → ¬ j < j' := by
    intro j j' r r' h h' hlt
    obtain ⟨t, c, refs, weak, h1, h2, h3, h4, h5, h6, h7, h8⟩ := E.res h'
    obtain ⟨_, _, _, _, _, _, _, _, _, _, g, _⟩ := E.res h
    exact (E.res_gone h).mono E (by omega) (by omega : j + 1 ≤ j') t c h2 h3
  have h1 := key h h'
  have h2 := key h' h
  omega

/-- An update takes effect only once. -/
theorem W_unique {i j : Nat} {lp lp' : LP K P} (h : E.W i = some lp) (h' : E.W j = some lp') (he : lp.id = lp'.id) :
    i = j := by
  have key : ∀ {i j : Nat} {lp lp' : LP K P}, E.W i = some lp → E.W j = some lp' → lp.id = lp'.id → ¬ i < j := by
    intro i j lp lp' h h' he hlt
    obtain ⟨t, c, h1, h2, h3, h4, -⟩ := E.W_call h'
    have := (((E.inv j).thr t).run c h1).2.2.2
    simp only [LinInv, h4] at this
    exact this i lp (by rw [E.clock]; exact hlt) h (by omega)
  have h1 := key h h' he
  have h2 := key h' h he.symm
  omega

/-- An update takes effect during the call. -/
theorem W_in {i : Nat} {lp : LP K P} (h : E.W i = some lp) :
    lp.id < i ∧ E.ev lp.id = some (.inv lp.id (.op lp.op)) ∧
    ∀ j r, E.ev j = some (.res lp.id r) → i ≤ j := by
  obtain ⟨t, c, h1, h2, h3, h4, -⟩ := E.W_call h
  have := E.run_inv i h1
  rw [← h2, h3] at this
  refine ⟨this.1, this.2.1, ?_⟩
  intro j r hr
  obtain ⟨_, _, _, _, _, _, _, _, _, _, g, _⟩ := E.res hr
  by_cases hij : i ≤ j
  · exact hij
  · exact absurd h2.symm ((E.res_gone hr).mono E (by omega) (by omega : j + 1 ≤ i) t c h1)

/-- The result of a map operation. -/
theorem res_op {j id : Nat} {o : Op K P} {ret : Ret P} (hi : E.ev id = some (.inv id (.op o)))
    (h : E.ev j = some (.res id (.op ret))) : id < j ∧
    ((∃ τ, id ≤ τ ∧ τ ≤ j ∧ E.W τ = some ⟨id, o, ret⟩) ∨
     ((∀ τ lp, E.W τ = some lp → lp.id ≠ id) ∧ ∃ τ, id ≤ τ ∧ τ ≤ j ∧ (E.A τ).apply cfg.key o = (E.A τ, ret))) := by
  obtain ⟨t, c, refs, weak, h1, h2, h3, h4, h5, h6, h7, h8⟩ := E.res h
  refine ⟨h7, ?_⟩
  rw [hi] at h8
  have hreq : c.req = .op o := by injection h8 with h8; injection h8 with _ h8; exact h8.symm
  obtain ⟨-, h4⟩ := h4
  rw [hreq] at h4
  simp only at h4
  obtain ⟨ret', hr, hl, -⟩ := h4
  cases hr
  rw [E.clock, h3] at hl
  rcases hl with ⟨τ, a1, a2, a3⟩ | ⟨a0, τ, a1, a2, a3⟩
  · exact Or.inl ⟨τ, a1, by omega, a3⟩
  · refine Or.inr ⟨?_, τ, a1, by omega, a3⟩
    intro τ' lp hw he
    by_cases hlt : τ' < j + 1
    · exact a0 τ' lp hlt hw he
    · obtain ⟨t', c', g1, g2, -⟩ := E.W_call hw
      exact (E.res_gone h).mono E (by omega) (by omega : j + 1 ≤ τ') t' c' g1 (by omega)

end Exec
end Contrie
