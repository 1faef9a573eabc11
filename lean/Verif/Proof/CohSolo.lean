import Verif.Proof.CohRun
import Verif.Proof.Liveness
/-
The coherent machine: a call that runs alone, and whose loads see the present, comes to its end.
-/
set_option linter.unusedSectionVars false
namespace Contrie
variable {K P : Type} [DecidableEq K] {cfg : Config K P}

theorem helps_enterClean {m : Mem P} {deleted : P} {ref : Nat} {levels : List (Loc × Word)} {pc' : PC K P} {ran : Bool}
    (h : (enterClean deleted ref levels : Next K P) = .goto pc' ran) : Helps m pc' := by
  unfold enterClean at h
  split at h
  · cases h
  · split at h
    · cases h
    · cases h; trivial

theorem helps_afterPrune {m : Mem P} {r : PruneResult} {k : Cont K P} {pc' : PC K P} {ran : Bool}
    (h : (afterPrune r k : Next K P) = .goto pc' ran) : Helps m pc' := by
  unfold afterPrune at h
  split at h
  · cases h; intro p ch e; cases e
  · cases h; intro p ch e; cases e
  · split at h
    · cases h
    · exact helps_enterClean h

/-- What a call knows of the need to help. -/
theorem tick_helps {m : Mem P} {weak : Bool} {pc pc' : PC K P} {ran : Bool} (hh : Helps m pc)
    (h : (tick cfg m weak pc).2 = .goto pc' ran) : Helps m pc' := by
  cases pc with
  | get key hash cur =>
    simp only [tick] at h
    unfold tickGet at h
    repeat' split at h
    all_goals first
      | cases h; done
      | (cases h; trivial)
  | isEmpty => simp [tick] at h
  | iterNew =>
    simp only [tick, tickIterNew] at h
    cases h; trivial
  | iterNext lv out =>
    simp only [tick] at h
    unfold tickIterNext at h
    repeat' split at h
    all_goals first
      | cases h; done
      | (cases h; trivial)
  | trav st hash mode shift cur parent =>
    cases weak <;> exact (good_trav (m' := m) (tk := 0) hh (by simp only [tick] at h ⊢; rw [h])).1
  | travCas st hash mode shift cur parent node new kind =>
    simp only [tick] at h
    unfold tickTravCas at h
    repeat' split at h
    all_goals first
      | cases h; done
      | exact helps_afterPrune h
      | (simp only [finishTrav] at h; split at h <;> cases h)
      | (cases h; exact hh)
      | skip
  | rem key shift cur levels =>
    cases weak <;> exact (good_rem (m' := m) (tk := 0) hh (by simp only [tick] at h ⊢; rw [h])).1
  | remCas key shift cur levels node new deleted =>
    simp only [tick] at h
    unfold tickRemCas at h
    repeat' split at h
    all_goals first
      | cases h; done
      | exact helps_enterClean h
      | (cases h; exact hh)
  | count deleted ref parent child rest i cnt =>
    cases weak <;> exact (good_count (m' := m) (tk := 0) (by simp only [tick] at h ⊢; rw [h])).1
  | prune parent child i acc k =>
    simp only [tick, tickPrune] at h
    cases hp : child.ptr with
    | none => simp [hp] at h
    | some a =>
      simp only [hp] at h
      cases hr : m.read (.slot a i) with
      | none => simp [hr] at h
      | some gc =>
        simp only [hr] at h
        cases hpush : acc.push (m.write gc.condemn (.slot a i)) i gc with
        | error f => simp [hpush] at h
        | ok acc' =>
          simp only [hpush] at h
          by_cases h1 : i.val + 1 < 16
          · simp only [h1, dite_true] at h; cases h; cases k <;> exact hh
          · simp only [h1, dite_false] at h
            split at h
            · cases h
            · cases h; trivial
  | pruneCas parent child acc k =>
    simp only [tick] at h
    unfold tickPruneCas at h
    repeat' split at h
    all_goals first
      | cases h; done
      | exact helps_afterPrune h

/-- Helping is not based on illusions. -/
theorem Helps.unwrite {m : Mem P} {w : Word} {ℓ : Loc} {pc : PC K P} (h : Helps (m.write w ℓ) pc)
    (hw : w.cond = true → m.read ℓ = some w) : Helps m pc := by
  have key : ∀ (ch : Word), (∃ a c q i, ch.ptr = some a ∧ (m.write w ℓ).mem a = some (.inner c q) ∧ (c i).cond = true) →
      ∃ a c q i, ch.ptr = some a ∧ m.mem a = some (.inner c q) ∧ (c i).cond = true := by
    rintro ch ⟨a, c, q, i, h1, h2, h3⟩
    by_cases hc : w.cond = true
    · rw [write_same (hw hc)] at h2
      exact ⟨a, c, q, i, h1, h2, h3⟩
    · cases ℓ with
      | root => exact ⟨a, c, q, i, h1, h2, h3⟩
      | slot b j =>
        simp only [Mem.write] at h2
        split at h2
        · next c0 q0 hm0 =>
          by_cases e : a = b
          · subst e
            simp only [upd_same, Option.some.injEq, Node.inner.injEq] at h2
            obtain ⟨rfl, rfl⟩ := h2
            refine ⟨a, c0, q0, i, h1, hm0, ?_⟩
            by_cases e : i = j
            · subst e; rw [upd_same] at h3; exact absurd h3 hc
            · rw [upd_other _ _ e] at h3; exact h3
          · simp only [upd_other _ _ e] at h2
            exact ⟨a, c, q, i, h1, h2, h3⟩
        · exact ⟨a, c, q, i, h1, h2, h3⟩
  cases pc with
  | prune p ch i acc k =>
    cases k with
    | trav => exact key ch h
    | rem => exact key ch h
    | clean => trivial
  | _ => exact h

theorem Helps.other {m m' : Mem P} {pc : PC K P} (h : Helps m pc) (hp : ∀ p ch i acc k, pc ≠ .prune p ch i acc k) : Helps m' pc := by
  cases pc with
  | prune p ch i acc k => exact absurd rfl (hp p ch i acc k)
  | _ => exact h

namespace CExec
variable (E : CExec cfg)

theorem ctx0 {n : Nat} (h : E.CInv n) (hn : 0 < n) : Ctx cfg E.A (E.M n) 0 :=
  ⟨h.hist.inv n (Nat.le_refl _), by rw [h.hist.clock n (Nat.le_refl _)]; rfl, by rw [h.hist.clock n (Nat.le_refl _)]; exact hn, fun _ _ => rfl⟩

theorem helps {n : Nat} (hn : n ≤ E.len) : ∀ t c, ((E.st n).thr t).run = some c → Helps (E.M n) c.pc := by
  induction n with
  | zero => intro t c hc; rw [E.init] at hc; cases hc
  | succ n ih =>
    intro t c' hc'
    have h := E.cinv (n := n) (by omega)
    have h1 := E.cinv hn
    have hevo : Evo (E.M n) (E.M (n + 1)) := h1.hist.evo n (by omega)
    rcases cstep_run_full (E.step n hn) hc' with ⟨h1, -⟩ | ⟨c, pc, ran, weak, τ, h1, h2, h3, rfl⟩ | ⟨r, h1, rfl, h2⟩
    · exact (ih (by omega) t c' h1).evo hevo
    · have hh := ih (by omega) t c h1
      have d := h.did E hn h2 h1
      rw [h3] at d
      refine Helps.evo ?_ hevo
      cases d with
      | store ℓ o p w σ ha hτ hw hnx => exact tick_helps hh hnx.symm
      | silent ha hnx => exact tick_helps hh hnx.symm
      | load ℓ o p w mw σ ha hτ hw hnx hm hW hs hloc hl hmw hrd =>
        have hp : ∀ p ch i acc k, c.pc ≠ .prune p ch i acc k := by
          intro p ch i acc k e
          rw [e] at hw ha
          simp only [PC.writes, ha, hs.read] at hw
          simp [PC.stores] at hw
        have hx : Helps mw pc := tick_helps (hh.other hp) hnx.symm
        rw [hmw] at hx
        refine hx.unwrite ?_
        intro hcond
        have hat := h.hist.at_read hτ hloc hrd
        cases ℓ with
        | root =>
          have := hs.clean rfl
          rw [hcond] at this; cases this
        | slot a i =>
          obtain ⟨cs, q, g1, g2, g3⟩ := hat
          obtain ⟨cs', g4, g5⟩ := h.hist.inner hτ (Nat.le_refl _) g1
          have : (E.M n).freed a = false := rfl
          simp only [Mem.read, Mem.deref, this, g4]
          rw [← g3] at hcond
          have := g5 i hcond
          simp [this, g3]
    · cases r with
      | op o => cases o <;> simp [Helps, startPC]
      | isEmpty => trivial
      | iter => trivial

/-- A step that sees the present is a step of the sequentially consistent machine. -/
theorem Did.present {n t : Nat} {weak : Bool} {c : Call K P} {nx : Next K P} (d : E.Did n t weak n c nx) :
    nx = (tick cfg (E.M n) weak c.pc).2 ∧ E.M (n + 1) = (tick cfg (E.M n) weak c.pc).1.bump := by
  cases d with
  | store ℓ o p w σ ha hτ hw hnx hm => exact ⟨hnx, hm⟩
  | silent ha hnx hm =>
    refine ⟨hnx, ?_⟩
    rw [hm, tick_quiet cfg _ weak (by simp [PC.writes, ha])]
  | load ℓ o p w mw σ ha hτ hw hnx hm hW hs hloc hl hmw hrd =>
    rw [write_same hrd] at hmw
    subst hmw
    exact ⟨hnx, by rw [hm, tick_quiet cfg _ weak hw]⟩

/-- How far a call has still to go, if it runs alone. -/
noncomputable def measOf (m : Mem P) (c : Call K P) : Meas :=
  (c.pc.rank, c.pc.loc1 c.ticks, c.pc.loc2 m, m.dmg, m.room, m.clean, c.pc.ell m)

theorem meas_present {n t : Nat} {c : Call K P} {pc : PC K P} {ran : Bool} (hn : n < E.len)
    (hl : E.lab n = .tick t false n) (hc : ((E.st n).thr t).run = some c)
    (hx : (tick cfg ((E.st n).seen c.pc n) false c.pc).2 = .goto pc ran) :
    Meas.lt (measOf (E.M (n + 1)) { c with pc := pc, calls := c.calls + (if ran then 1 else 0), ticks := c.ticks + 1 })
      (measOf (E.M n) c) := by
  have h := E.cinv (n := n) (by omega)
  have ci := (h.sess t).run c hc
  obtain ⟨h1, h2⟩ := (h.did E hn hl hc).present
  rw [hx] at h1
  have htk : tick cfg (E.M n) false c.pc = ((tick cfg (E.M n) false c.pc).1, .goto pc ran) := by rw [h1]
  generalize (tick cfg (E.M n) false c.pc).1 = m' at h2 htk
  have hg : Good (E.M n) m' c.ticks c.pc pc := by
    have hh := E.helps (Nat.le_of_lt hn) t c hc
    by_cases hit : ∃ lv out, c.pc = .iterNext lv out
    · obtain ⟨lv, out, e⟩ := hit
      rw [e] at htk ⊢
      exact good_iterNext htk
    · have hp := ci.pc.inv (fun lv out e => hit ⟨lv, out, e⟩)
      exact tick_good (c := { c with inv := 0 }) (E.ctx0 h (by have := ci.lt; omega)) hp hh htk
  obtain ⟨b1, b2, b3⟩ := bump_measures m'
  have hl2 : pc.loc2 (E.M (n + 1)) = pc.loc2 m' := by
    rw [h2]
    cases pc with
    | iterNext lv out =>
      simp only [PC.loc2]
      clear hx hg htk h1
      induction lv with
      | nil => rfl
      | cons y lv ih => obtain ⟨w, idx⟩ := y; simp only [rho, ih]; rfl
    | _ => rfl
  have he : pc.ell (E.M (n + 1)) = pc.ell m' := ell_mem (by rw [h2]; rfl) (by rw [h2]; rfl) pc
  apply Meas.lt_of
  rw [hl2, he, h2, b1, b2, b3]
  rcases hg.2 with g | ⟨g, g'⟩
  · exact Or.inl g
  refine Or.inr ⟨g, ?_⟩
  rcases g' with g | ⟨g, g'⟩
  · exact Or.inl g
  refine Or.inr ⟨g, ?_⟩
  rcases g' with g | ⟨g, g'⟩
  · exact Or.inl g
  refine Or.inr ⟨g, ?_⟩
  rcases g' with g | ⟨g, g'⟩
  · exact Or.inl g
  refine Or.inr ⟨g, ?_⟩
  rcases g' with g | ⟨g, g'⟩
  · exact Or.inl g
  refine Or.inr ⟨g, ?_⟩
  rcases g' with g | ⟨g, -, -, g'⟩
  · exact Or.inl g
  exact Or.inr ⟨g, g'⟩

theorem _root_.Contrie.HB.mono {lab lab' : Nat → CLabel K P} {n n' : Nat} (h : n ≤ n') (hl : ∀ i, i < n → lab' i = lab i) {x y : Nat × Nat}
    (hb : HB lab n x y) : HB lab' n' x y := by
  induction hb with
  | po t h => exact .po t h
  | sync hj h' => exact .sync (by omega) (by rw [hl _ hj]; exact h')
  | trans _ _ h1 h2 => exact .trans h1 h2

/-- `E'` goes on where `E` ends. -/
structure GoesOn (E E' : CExec cfg) : Prop where
  len : E.len ≤ E'.len
  st : ∀ i, i ≤ E.len → E'.st i = E.st i
  lab : ∀ i, i < E.len → E'.lab i = E.lab i
  ev : ∀ i, i < E.len → E'.ev i = E.ev i

/-- The call in progress makes one more step, and sees the present. -/
theorem one_more {t : Nat} {c : Call K P} (hc : ((E.st E.len).thr t).run = some c) (weak : Bool) :
    ∃ E' : CExec cfg, GoesOn E E' ∧ E'.len = E.len + 1 ∧ E'.lab E.len = .tick t weak E.len := by
  have hcl := (E.base (Nat.le_refl _)).clock
  have hs : ∃ s' e, cstep cfg (E.st E.len) (.tick t weak E.len) = some (s', e) ∧
      ∀ u, (s'.thr u).pin = ((E.st E.len).thr u).pin := by
    simp only [cstep, hc]
    refine ⟨_, _, rfl, fun u => ?_⟩
    simp only [CState.next]
    by_cases e : u = t
    · subst e; rw [upd_same, apply_pin]
    · rw [upd_other _ _ e]
  obtain ⟨s', e, hs, hpin⟩ := hs
  let st' : Nat → CState K P := fun i => if i ≤ E.len then E.st i else s'
  let lab' : Nat → CLabel K P := fun i => if i < E.len then E.lab i else .tick t weak E.len
  let ev' : Nat → Option (Event K P) := fun i => if i < E.len then E.ev i else e
  have hst : ∀ i, i ≤ E.len → st' i = E.st i := fun i hi => by simp [st', hi]
  have hst1 : st' (E.len + 1) = s' := by simp [st']
  have hlab : ∀ i, i < E.len → lab' i = E.lab i := fun i hi => by simp [lab', hi]
  have hlab1 : lab' E.len = .tick t weak E.len := by simp [lab']
  have hev : ∀ i, i < E.len → ev' i = E.ev i := fun i hi => by simp [ev', hi]
  have hev1 : ev' E.len = e := by simp [ev']
  refine ⟨⟨E.len + 1, st', lab', ev', ?_, ?_, ?_, ?_, ?_⟩, ⟨Nat.le_succ _, hst, hlab, hev⟩, rfl, hlab1⟩
  · rw [hst 0 (Nat.zero_le _)]; exact E.init
  · intro i hi
    by_cases hi' : i < E.len
    · rw [hst i (by omega), hlab i hi', hst (i + 1) hi', hev i hi']; exact E.step i hi'
    · obtain rfl : i = E.len := by omega
      rw [hst _ (Nat.le_refl _), hlab1, hst1, hev1]; exact hs
  · intro i hi
    by_cases hi' : i < E.len
    · rw [hst i (by omega), hlab i hi']; exact E.enabled i hi'
    · obtain rfl : i = E.len := by omega
      rw [hst _ (Nat.le_refl _), hlab1]; exact Or.inl hcl.symm
  · intro i hi
    by_cases hi' : i < E.len
    · rw [hlab i hi']; exact E.wf i hi'
    · obtain rfl : i = E.len := by omega
      rw [hlab1]; trivial
  · intro i a hi hl
    have hi' : i < E.len := by
      by_cases hi' : i < E.len
      · exact hi'
      · obtain rfl : i = E.len := by omega
        rw [hlab1] at hl; cases hl
    rw [hlab i hi'] at hl
    obtain ⟨r, tr, wk, τ, h1, h2, h3, h4, h5⟩ := E.gc i a hi' hl
    refine ⟨r, tr, wk, τ, h1, by rw [hlab r (by omega)]; exact h2, by rw [hst r (by omega)]; exact h3,
      by rw [hst (r + 1) (by omega)]; exact h4, ?_⟩
    intro j u p hj1 hj2 hp
    refine HB.mono (Nat.le_succ _) hlab ?_
    by_cases hj : j ≤ E.len
    · rw [hst j hj] at hp; exact h5 j u p hj1 hj hp
    · obtain rfl : j = E.len + 1 := by omega
      rw [hst1, hpin u] at hp
      exact h5 E.len u p (by omega) (Nat.le_refl _) hp

theorem GoesOn.refl (E : CExec cfg) : GoesOn E E := ⟨Nat.le_refl _, fun _ _ => rfl, fun _ _ => rfl, fun _ _ => rfl⟩
theorem GoesOn.trans {E1 E2 E3 : CExec cfg} (h : GoesOn E1 E2) (h' : GoesOn E2 E3) : GoesOn E1 E3 :=
  ⟨Nat.le_trans h.len h'.len, fun i hi => by rw [h'.st i (Nat.le_trans hi h.len), h.st i hi],
   fun i hi => by rw [h'.lab i (Nat.lt_of_lt_of_le hi h.len), h.lab i hi],
   fun i hi => by rw [h'.ev i (Nat.lt_of_lt_of_le hi h.len), h.ev i hi]⟩

theorem solo_finishes {t : Nat} : ∀ (x : Meas) (E : CExec cfg) (c : Call K P), measOf (E.M E.len) c = x →
    ((E.st E.len).thr t).run = some c →
      ∃ E' : CExec cfg, GoesOn E E' ∧ (∀ i, E.len ≤ i → i < E'.len → E'.lab i = .tick t false i) ∧
        ∃ r, E.len < E'.len ∧ E'.ev (E'.len - 1) = some (.res c.inv r) ∧ ((E'.st E'.len).thr t).run = none := by
  intro x
  induction x using Meas.wf.induction with
  | _ x ih =>
    intro E c hx hc
    obtain ⟨E1, h1, h2, h3⟩ := E.one_more hc false
    have hlt : E.len < E1.len := by omega
    have hc1 : ((E1.st E.len).thr t).run = some c := by rw [h1.st _ (Nat.le_refl _)]; exact hc
    have hs := E1.step E.len hlt
    rw [h3] at hs
    simp only [cstep, hc1, Option.some.injEq, Prod.mk.injEq] at hs
    have hM : E1.M E.len = E.M E.len := by simp only [M]; rw [h1.st _ (Nat.le_refl _)]
    cases hn : (tick cfg ((E1.st E.len).seen c.pc E.len) false c.pc).2 with
    | fail f =>
      have hf := ((E1.cinv (n := E.len + 1) hlt).sess t).noFail
      rw [← hs.1] at hf
      simp [CState.next, hn, CThread.apply] at hf
    | ret r refs =>
      refine ⟨E1, h1, ?_, r, hlt, ?_, ?_⟩
      · intro i hi1 hi2
        obtain rfl : i = E.len := by omega
        exact h3
      · rw [h2, Nat.add_sub_cancel, ← hs.2, hn]; rfl
      · rw [h2, ← hs.1]; simp [CState.next, hn, CThread.apply]
    | goto pc ran =>
      have hd := E1.meas_present hlt h3 hc1 hn
      rw [hM, hx] at hd
      have hrun : ((E1.st E1.len).thr t).run = some { c with pc := pc, calls := c.calls + (if ran then 1 else 0), ticks := c.ticks + 1 } := by
        rw [h2, ← hs.1]; simp [CState.next, hn, CThread.apply]
      rw [← h2] at hd
      obtain ⟨E2, k1, k2, r, k3, k4, k5⟩ := ih _ hd E1 _ rfl hrun
      refine ⟨E2, h1.trans k1, ?_, r, by omega, k4, k5⟩
      intro i hi1 hi2
      by_cases e : i = E.len
      · subst e; rw [k1.lab _ hlt]; exact h3
      · exact k2 i (by omega) hi2
end CExec
end Contrie
