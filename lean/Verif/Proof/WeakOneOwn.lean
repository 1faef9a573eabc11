import Verif.Proof.WeakOneKnow
/-
Cleaning up on weak memory: everything that has gone away is known to the removal in progress.
-/
set_option linter.unusedSectionVars false
namespace Contrie
variable {K P : Type} [DecidableEq K]

/-- The (cell, child) pair of the node a removal in its clean-up phase is pruning. -/
def PC.spot : PC K P → Option (Loc × Word)
  | .prune parent child _ _ (.clean ..) => some (parent, child)
  | .pruneCas parent child _ (.clean ..) => some (parent, child)
  | _ => none

theorem PC.spot_levels {pc : PC K P} {x : Loc × Word} (h : pc.spot = some x) : x ∈ pc.levels := by
  unfold PC.spot at h
  split at h <;> cases h <;> simp [PC.levels]

namespace CExec
variable {cfg : Config K P} (E : CExec cfg)

/-- The state, regardless of what is destroyed. -/
def T (n : Nat) : State K P := ⟨E.M n, fun t => ((E.st n).thr t).strong⟩

/-- Any two removals are ordered by synchronisation, and so are removals and `get_or_insert`s of the same key; no update is abandoned. -/
structure Ordered (N : Nat) : Prop where
  rem : ∀ x y k k', x < N → y < N → x ≠ y → E.ev x = some (.inv x (.op (.remove k))) → E.ev y = some (.inv y (.op (.remove k'))) →
    E.Precedes x y ∨ E.Precedes y x
  goi : ∀ x y k f, x < N → y < N → E.ev x = some (.inv x (.op (.getOrInsert k f))) → E.ev y = some (.inv y (.op (.remove k))) →
    E.Precedes x y ∨ E.Precedes y x
  ab : ∀ i t c, i < N → E.lab i = .abort t → ((E.st i).thr t).run = some c → c.req.isUpdate = false

variable {E}

theorem Ends.same {x t j t' j' : Nat} (h : E.Ends x t j) (h' : E.Ends x t' j') : j = j' ∧ t = t' := by
  have key : ∀ {t j t' j' : Nat}, E.Ends x t j → E.Ends x t' j' → ¬ j < j' := by
    intro t j t' j' h h' hlt
    obtain ⟨h1, ⟨c, h2, h3⟩, -⟩ := h'
    exact absurd h3 (h.over (Nat.le_of_lt h1) hlt h2)
  have e : j = j' := by
    have := key h h'
    have := key h' h
    omega
  refine ⟨e, ?_⟩
  obtain ⟨h1, ⟨c, h2, h3⟩, -⟩ := h'
  have hl := (CExec.run_ev (Nat.le_of_lt h1) h2).2.1
  rw [h3] at hl
  exact (h.session hl).1.symm

/-- Calls ordered with a call in progress, and invoked before, precede it. -/
theorem Precedes.of_running {x y n t : Nat} (hn : n ≤ E.len) {c : Call K P} (hc : ((E.st n).thr t).run = some c) (hx : c.inv = x) (hy : y < n)
    (h : E.Precedes x y ∨ E.Precedes y x) : E.Precedes y x := by
  rcases h with h | h
  · obtain ⟨s, j, h1, h2⟩ := h.time
    exact absurd hx (h1.over hn (by omega) hc)
  · exact h

theorem Ordered.alone {N : Nat} (ho : E.Ordered N) {n : Nat} (hN : n ≤ N) (hn : n ≤ E.len) {t t' : Nat} {c c' : Call K P}
    (hc : ((E.st n).thr t).run = some c) (hc' : ((E.st n).thr t').run = some c') (hr : c.req.isRemove = true) (hr' : c'.req.isRemove = true) : t = t' := by
  obtain ⟨a1, a2, a3⟩ := CExec.run_ev hn hc
  obtain ⟨b1, b2, b3⟩ := CExec.run_ev hn hc'
  obtain ⟨k, hk⟩ := isRemove_key hr
  obtain ⟨k', hk'⟩ := isRemove_key hr'
  rw [hk] at a3
  rw [hk'] at b3
  by_cases e : c.inv = c'.inv
  · rw [e, b2] at a2; injection a2 with a2; exact a2.symm
  · rcases ho.rem c.inv c'.inv k k' (by omega) (by omega) e a3 b3 with h | h
    · obtain ⟨s, j, g1, g2⟩ := h.time
      exact absurd rfl (g1.over hn (by omega) hc)
    · obtain ⟨s, j, g1, g2⟩ := h.time
      exact absurd rfl (g1.over hn (by omega) hc')

variable (E)

/-- A removal is responsible for what went away from cell `ℓ` in step `i`: it knows, or it will know. -/
def Owned (n i : Nat) (ℓ : Loc) : Prop := ∃ t s k, E.lab s = .call t (.op (.remove k)) ∧ s < n ∧
  ((∃ c, ((E.st n).thr t).run = some c ∧ c.inv = s ∧ (i + 1 ≤ E.V t n ℓ ∨ ∃ child, c.pc.spot = some (ℓ, child) ∧ (E.M i).read ℓ = some child)) ∨
   ∃ j, j < n ∧ E.Ends s t j ∧ i + 1 ≤ E.V t (j + 1) ℓ)

variable {E}

/-- A removal that is not pruning knows of everything that has gone away. -/
theorem Ordered.knows {N : Nat} (ho : E.Ordered N) {n : Nat} (hN : n ≤ N) (hn : n ≤ E.len) {t : Nat} {c : Call K P} (hc : ((E.st n).thr t).run = some c)
    (hr : c.req.isRemove = true) (hs : c.pc.spot = none) {i : Nat} {ℓ : Loc} (h : E.Owned n i ℓ) : i + 1 ≤ E.V t n ℓ := by
  obtain ⟨t', s, k, h1, h2, h3⟩ := h
  obtain ⟨a1, a2, a3⟩ := CExec.run_ev hn hc
  rcases h3 with ⟨c', e1, e2, e3⟩ | ⟨j, hj, he, hv⟩
  · obtain ⟨b1, b2, b3⟩ := CExec.run_ev hn e1
    rw [e2, h1] at b2
    injection b2 with _ b2
    have := ho.alone hN hn hc e1 hr (by rw [← b2]; rfl)
    subst this
    rw [hc] at e1; cases e1
    rcases e3 with e3 | ⟨child, e3, -⟩
    · exact e3
    · rw [hs] at e3; cases e3
  · have hne : c.inv ≠ s := he.over hn hj hc
    obtain ⟨k', hk⟩ := isRemove_key hr
    have hp := Precedes.of_running hn hc rfl h2
      (ho.rem c.inv s k' k (by omega) (by omega) hne (by rw [← hk]; exact a3) (E.ev_call (by omega) h1))
    obtain ⟨u, u', r, j', g1, g2, g3, g4⟩ := hp
    obtain ⟨rfl, rfl⟩ := g1.same he
    rw [a2] at g3; injection g3 with g3 _; subst g3
    have := (E.hb g4 (by simp only; omega)).2 ℓ
    simp only at this
    have := E.V_mono t (i := c.inv) (j := n) (by omega) hn ℓ
    omega

/-- The outcome of a step. -/
theorem tick_after {n : Nat} (hn : n < E.len) {t : Nat} {weak : Bool} {τ : Nat} (hl : E.lab n = .tick t weak τ) {c : Call K P}
    (hc : ((E.st n).thr t).run = some c) : (∃ pc ran, (tick cfg ((E.st n).seen c.pc τ) weak c.pc).2 = .goto pc ran ∧
        ((E.st (n + 1)).thr t).run = some { c with pc := pc, calls := c.calls + (if ran then 1 else 0), ticks := c.ticks + 1 }) ∨
      (∃ r refs, (tick cfg ((E.st n).seen c.pc τ) weak c.pc).2 = .ret r refs ∧ ((E.st (n + 1)).thr t).run = none) := by
  have hs := E.step n hn
  rw [hl] at hs
  simp only [cstep, hc, Option.some.injEq, Prod.mk.injEq] at hs
  have hs1 := hs.1
  have hnf := ((E.cinv (n := n + 1) hn).sess t).noFail
  rw [← hs1] at hnf ⊢
  simp only [CState.next, upd_same] at hnf ⊢
  cases hx : (tick cfg ((E.st n).seen c.pc τ) weak c.pc).2 with
  | goto pc ran => exact .inl ⟨pc, ran, rfl, rfl⟩
  | ret r refs => exact .inr ⟨r, refs, rfl, rfl⟩
  | fail f => rw [hx] at hnf; cases hnf

/-- What the removal saw of the cell it wants to change was there until it went. -/
theorem spot_fresh {n : Nat} (hn : n < E.len) {t : Nat} {weak : Bool} {τ : Nat} (hl : E.lab n = .tick t weak τ) {c : Call K P}
    (hc : ((E.st n).thr t).run = some c) {ℓ : Loc} {o : LoadOrd} (ha : c.pc.access .code = some (ℓ, o)) {p : List (Fin 16)} (hloc : LocAt (E.M n) 0 ℓ p)
    {a : Nat} (hsp : c.pc.spot = some (ℓ, ⟨some a, false, false⟩)) {w : Word} (hrd : (E.M τ).read ℓ = some w) (hw : w ≠ ⟨some a, false, false⟩)
    {i : Nat} (hi : i ≤ n) (hr : (E.M i).read ℓ = some ⟨some a, false, false⟩) : i + 1 ≤ τ := by
  apply Classical.byContradiction
  intro hlt
  obtain ⟨τ0, h1, h2⟩ := E.levels_seen (Nat.le_of_lt hn) t c hc _ (PC.spot_levels hsp)
  obtain ⟨hτ, hv⟩ := E.looks hn (E.base (Nat.le_of_lt hn)) hl hc ha
  have H := (E.cinv (Nat.le_of_lt hn)).hist
  have e1 := H.at_read (by simp only at h1; omega) hloc h2
  have e2 := H.at_read hi hloc hr
  have e3 := H.at_between e1 e2 (z := τ) (by simp only at h1; omega) (by omega) hi
  have e4 := H.at_read hτ hloc hrd
  apply hw
  cases ℓ with
  | root => rw [← e3.2]; exact e4.2.symm
  | slot b j =>
    obtain ⟨c1, p1, f1, f2, f3⟩ := e3
    obtain ⟨c2, p2, f4, f5, f6⟩ := e4
    rw [f1] at f4; cases f4
    rw [← f6]; exact f3

theorem tick_spot {m : Mem P} {weak : Bool} {parent : Loc} {child : Word} {i : Fin 16} {acc : PAcc} {k : Cont K P} {pc' : PC K P} {ran : Bool}
    (h : (tick cfg m weak (.prune parent child i acc k)).2 = .goto pc' ran) : pc'.spot = (PC.prune parent child i acc k : PC K P).spot := by
  simp only [tick, tickPrune] at h
  split at h
  · cases h
  · split at h
    · cases h
    · split at h
      · cases h
      · split at h
        · cases h; cases k <;> rfl
        · split at h
          · cases h
          · cases h; cases k <;> rfl

theorem tick_prune_ret {m : Mem P} {weak : Bool} {parent : Loc} {child : Word} {i : Fin 16} {acc : PAcc} {k : Cont K P} {r : Res P} {refs : List Nat} :
    (tick cfg m weak (.prune parent child i acc k)).2 ≠ .ret r refs := by
  intro h
  simp only [tick, tickPrune] at h
  split at h
  · cases h
  · split at h
    · cases h
    · split at h
      · cases h
      · split at h
        · cases h
        · split at h <;> cases h

/-- Responsibility is passed on. -/
theorem Ordered.own_step {N : Nat} (ho : E.Ordered N) {n : Nat} (hN : n < N) (hn : n < E.len) {R : Option (BitVec 64 × PC K P)} (h1 : (E.T n).One cfg R)
    (hown : ∀ i ℓ, i < n → E.Shrinks i ℓ → E.Owned n i ℓ) : ∀ i ℓ, i < n + 1 → E.Shrinks i ℓ → E.Owned (n + 1) i ℓ := by
  have hI := E.cinv (Nat.le_of_lt hn)
  have hs := E.step n hn
  -- a removal that knows goes on knowing
  have go : ∀ {t : Nat} {c : Call K P} {i : Nat} {ℓ : Loc}, ((E.st n).thr t).run = some c → c.req.isRemove = true → i + 1 ≤ E.V t (n + 1) ℓ →
      E.Owned (n + 1) i ℓ := by
    intro t c i ℓ hc hr hv
    obtain ⟨a1, a2, a3⟩ := CExec.run_ev (Nat.le_of_lt hn) hc
    obtain ⟨k, hk⟩ := isRemove_key hr
    refine ⟨t, c.inv, k, by rw [a2, hk], by omega, ?_⟩
    by_cases htick : ∃ weak τ, E.lab n = .tick t weak τ
    · obtain ⟨weak, τ, hl⟩ := htick
      rcases tick_after hn hl hc with ⟨pc, ran, -, e⟩ | ⟨r, refs, -, e⟩
      · exact .inl ⟨_, e, rfl, .inl hv⟩
      · exact .inr ⟨n, by omega, ⟨hn, ⟨c, hc, rfl⟩, e⟩, hv⟩
    · refine .inl ⟨c, cstep_run_keep hs hc (fun w τ e => htick ⟨w, τ, e⟩) ?_, rfl, .inl hv⟩
      intro e
      have := ho.ab n t c hN e hc
      rw [isRemove_upd hr] at this; cases this
  intro i ℓ hi hsh
  by_cases hin : i < n
  · obtain ⟨t, s, k, e1, e2, e3⟩ := hown i ℓ hin hsh
    rcases e3 with ⟨c, e3, e4, e5⟩ | ⟨j, e3, e4, e5⟩
    · obtain ⟨a1, a2, a3⟩ := CExec.run_ev (Nat.le_of_lt hn) e3
      have hreq : c.req = .op (.remove k) := by
        rw [e4, e1] at a2; injection a2 with _ a2; exact a2.symm
      have hrm : c.req.isRemove = true := by rw [hreq]; rfl
      rcases e5 with e5 | ⟨child, e5, e6⟩
      · exact go e3 hrm (Nat.le_trans e5 (E.V_mono t (Nat.le_succ n) hn ℓ))
      · by_cases htick : ∃ weak τ, E.lab n = .tick t weak τ
        · obtain ⟨weak, τ, hl⟩ := htick
          have hda := tick_after hn hl e3
          have d := hI.did E hn hl e3
          have hR : ∃ h, R = some (h, c.pc) := by
            cases R with
            | none => have := h1.is t c e3; rw [hrm] at this; cases this
            | some y =>
              obtain ⟨h, pc⟩ := y
              obtain ⟨u, c', k', g1, g2, g3, g4⟩ := h1.is
              have g1' : ((E.st n).thr u).run = some c' := g1
              have := ho.alone (Nat.le_of_lt hN) (Nat.le_of_lt hn) e3 g1' hrm (by rw [g2]; rfl)
              subst this
              rw [e3] at g1'; cases g1'
              exact ⟨h, by rw [g4]⟩
          obtain ⟨h, rfl⟩ := hR
          have hrp := h1.inv.r _ _ rfl
          cases hpc : c.pc with
          | prune parent child' j acc kk =>
            cases kk with
            | clean deleted ref rest =>
              rw [hpc] at e5
              cases e5
              rcases hda with ⟨pc, ran, e7, e8⟩ | ⟨r, refs, e7, -⟩
              · rw [hpc] at e7
                refine ⟨t, s, k, e1, by omega, .inl ⟨_, e8, e4, .inr ⟨child, ?_, e6⟩⟩⟩
                rw [tick_spot e7]; rfl
              · rw [hpc] at e7; exact absurd e7 tick_prune_ret
            | trav => rw [hpc] at e5; cases e5
            | rem => rw [hpc] at e5; cases e5
          | pruneCas parent child' acc kk =>
            cases kk with
            | clean deleted ref rest =>
              have e5' := e5
              rw [hpc] at e5 hrp
              cases e5
              obtain ⟨-, -, a, cs, rfl, -⟩ := hrp
              cases d with
              | store ℓ' o p w σ ha hτ hw hnx hm hv =>
                rw [hpc] at ha; cases ha
                exact go e3 hrm (by rw [hv]; omega)
              | silent ha => rw [hpc] at ha; cases ha
              | load ℓ' o p w mw σ ha hτ hw hnx hm hW hs hloc hl' hmw hrd hv =>
                have ha' := ha
                rw [hpc] at ha; cases ha
                refine go e3 hrm ?_
                rw [hv]
                refine spot_fresh hn hl e3 ha' hloc e5' hrd ?_ (by omega) e6
                intro e
                rw [hpc] at hw
                simp [PC.writes, PC.access, hs.read, PC.stores, e] at hw
            | trav => rw [hpc] at e5; cases e5
            | rem => rw [hpc] at e5; cases e5
          | _ => rw [hpc] at e5; cases e5
        · refine ⟨t, s, k, e1, by omega, .inl ⟨c, cstep_run_keep hs e3 (fun w τ e => htick ⟨w, τ, e⟩) ?_, e4, .inr ⟨child, e5, e6⟩⟩⟩
          intro e
          have := ho.ab n t c hN e e3
          rw [isRemove_upd hrm] at this; cases this
    · exact ⟨t, s, k, e1, by omega, .inr ⟨j, by omega, e4, e5⟩⟩
  · have : i = n := by omega
    subst this
    obtain ⟨t, weak, c, hl, hc, hv, hx⟩ := E.shrinker hn hsh
    rcases hx with hx | ⟨hu, hnr, child, acc, st, hash, mode, hpc, hread⟩
    · exact go hc hx (by rw [hv])
    · -- a helper
      have hp := E.pcinv_of (Nat.le_of_lt hn) hc hu
      simp only [PCInv, hpc] at hp
      obtain ⟨-, a, cs, q, f1, f2, f3, f4, -⟩ := hp
      obtain ⟨k, hk⟩ : ∃ k, c.req.insKey cfg = some k := by
        rcases Req.kinds cfg c.req with ⟨g1, -, -⟩ | ⟨k, g1, -⟩ | ⟨k, g1⟩
        · rw [hu] at g1; cases g1
        · exact ⟨k, g1⟩
        · rw [g1] at hnr; cases hnr
      have hh := h1.help t c k hc hk
      rw [hpc] at hh
      obtain ⟨a', c', q', g1, g2, g3, -⟩ := hh
      subst g1
      cases f1
      have hmi := hI.hist.inv i (Nat.le_refl i)
      have hat := hI.hist.at_read (Nat.le_refl i) f4 hread
      have hlive : (E.M i).retired a = none := hmi.live _ _ a (hmi.at_follow hat rfl) rfl
      obtain ⟨h, pc, rfl, hon⟩ := g3 hlive
      have hrp := h1.inv.r _ _ rfl
      obtain ⟨u, c2, k2, r1, r2, r3, r4⟩ := h1.is
      have r1' : ((E.st i).thr u).run = some c2 := r1
      have hspot : pc.spot = some (ℓ, ⟨some a, false, false⟩) := by
        have key : ∀ {parent : Loc} {child : Word} {rest : List (Loc × Word)} {x : Nat} {acc : PAcc}, OnNode (E.M i) h parent child rest x acc →
            child.ptr = some a → (parent, child) = (ℓ, ⟨some a, false, false⟩) := by
          rintro parent child rest x acc ⟨-, -, b, cb, rfl, o1, o2, -⟩ hb
          cases hb
          have o1' : (E.M i).mem a = some (.inner cb (pre h rest.length)) := o1
          rw [f2] at o1'; cases o1'
          rw [hmi.cell_unique hat (o2 hlive) rfl rfl]
        unfold PC.on at hon
        split at hon
        · simp only [PC.spot]; rw [key hrp hon]
        · simp only [PC.spot]; rw [key hrp hon]
        · cases hon
      obtain ⟨a1, a2, a3⟩ := CExec.run_ev (Nat.le_of_lt hn) r1'
      refine ⟨u, c2.inv, k2, by rw [a2, r2], by omega, .inl ⟨c2, cstep_run_keep hs r1' ?_ ?_, rfl, .inr ⟨_, by rw [← r4]; exact hspot, hread⟩⟩⟩
      · intro w τ e
        rw [hl] at e; cases e
        rw [hc] at r1'; cases r1'
        rw [r2] at hnr; cases hnr
      · intro e; rw [hl] at e; cases e
end CExec
end Contrie
