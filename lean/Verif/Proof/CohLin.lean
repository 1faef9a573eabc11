import Verif.Proof.CohExec
import Verif.Proof.Lin
import Verif.Spec.Causal
/-
Causal linearizations of the executions of the coherent machine.
-/
set_option linter.unusedSectionVars false
namespace Contrie
open scoped List
variable {K P : Type} [DecidableEq K]

/-- A call that changes nothing is not an update. -/
theorem not_updates {key : P → K} {x : SOp K P} (hni : ∀ p, x.op ≠ .insert p) {v : Option P}
    (hv : ∀ B : AMap K P, B (x.op.key key) = v → B.apply key x.op = (B, x.ret)) : ¬ x.Updates := by
  intro hu
  have h1 := hv (fun _ => v) rfl
  obtain ⟨id, op, ret⟩ := x
  simp only at h1 hni
  cases op with
  | get k => exact hu
  | insert p => exact hni p rfl
  | getOrInsert k f =>
    simp only [AMap.apply] at h1
    cases v with
    | none =>
      simp only [Prod.mk.injEq] at h1
      have := congrFun h1.1 k
      simp [AMap.set] at this
    | some e =>
      simp only [Prod.mk.injEq] at h1
      rw [← h1.2] at hu
      exact hu
  | remove k =>
    simp only [AMap.apply, Prod.mk.injEq] at h1
    have := congrFun h1.1 k
    simp only [AMap.set, if_true] at this
    rw [← this] at h1
    rw [← h1.2] at hu
    exact hu

namespace CExec
variable {cfg : Config K P} (E : CExec cfg)

/-! ### Events -/

theorem ev_inv {i id : Nat} {r : Req K P} (hi : i < E.len) (h : E.ev i = some (.inv id r)) : i = id ∧ ∃ t, E.lab i = .call t r := by
  have hs := E.step i hi
  have hb := E.base (Nat.le_of_lt hi)
  rw [h] at hs
  cases hl : E.lab i with
  | call t r' =>
    rw [hl] at hs
    simp only [cstep] at hs
    split at hs
    · simp only [Option.some.injEq, Prod.mk.injEq, Event.inv.injEq, hb.clock] at hs
      obtain ⟨-, h1, h2⟩ := hs
      subst h2
      exact ⟨h1, t, rfl⟩
    · cases hs
  | tick t weak τ =>
    rw [hl] at hs
    simp only [cstep] at hs
    split at hs
    · cases hs
    · simp only [Option.some.injEq, Prod.mk.injEq] at hs
      have hs2 := hs.2
      unfold Next.event at hs2
      split at hs2 <;> cases hs2
  | _ =>
    rw [hl] at hs
    simp only [cstep] at hs
    first
      | (split at hs <;> simp at hs)
      | simp at hs

theorem ev_call {i t : Nat} {r : Req K P} (hi : i < E.len) (h : E.lab i = .call t r) : E.ev i = some (.inv i r) := by
  have hs := E.step i hi
  have hb := E.base (Nat.le_of_lt hi)
  rw [h] at hs
  simp only [cstep] at hs
  split at hs
  · simp only [Option.some.injEq, Prod.mk.injEq, hb.clock] at hs
    exact hs.2.symm
  · cases hs

theorem ret {j id : Nat} {r : Res P} (hj : j < E.len) (h : E.ev j = some (.res id r)) : E.RetC j id r :=
  (E.cinv (Nat.succ_le_of_lt hj)).rets j id r (Nat.lt_succ_self j) h

/-- A call in progress has been so since it started. -/
theorem run_back {n t : Nat} {c : Call K P} (hn : n ≤ E.len) (hc : ((E.st n).thr t).run = some c) {m : Nat}
    (hm : c.inv < m) (hmn : m ≤ n) : ∃ c', ((E.st m).thr t).run = some c' ∧ c'.inv = c.inv := by
  induction hmn generalizing c with
  | refl => exact ⟨c, hc, rfl⟩
  | @step n hmn ih =>
    suffices h : ∃ c1, ((E.st n).thr t).run = some c1 ∧ c1.inv = c.inv by
      obtain ⟨c1, h1, h2⟩ := h
      obtain ⟨c2, h3, h4⟩ := ih (by omega) h1 (by omega)
      exact ⟨c2, h3, by omega⟩
    have hs := E.step n hn
    have hb := E.base (n := n) (by omega)
    cases hl : E.lab n with
    | tick t0 weak τ =>
      rw [hl] at hs
      simp only [cstep] at hs
      split at hs
      · cases hs
      · next c0 hc0 =>
        simp only [Option.some.injEq, Prod.mk.injEq] at hs
        rw [← hs.1] at hc
        simp only [CState.next] at hc
        by_cases e : t = t0
        · subst e
          rw [upd_same] at hc
          generalize (tick cfg ((E.st n).seen c0.pc τ) weak c0.pc).2 = nx at hc
          cases nx with
          | goto pc ran =>
            simp only [CThread.apply, Option.some.injEq] at hc
            subst hc
            exact ⟨c0, hc0, rfl⟩
          | ret r refs => cases hc
          | fail f => cases hc
        · rw [upd_other _ _ e] at hc; exact ⟨c, hc, rfl⟩
    | call t0 r =>
      rw [hl] at hs
      simp only [cstep] at hs
      split at hs
      · simp only [Option.some.injEq, Prod.mk.injEq] at hs
        rw [← hs.1] at hc
        simp only [CState.next] at hc
        by_cases e : t = t0
        · subst e
          rw [upd_same] at hc
          simp only [Option.some.injEq] at hc
          subst hc
          simp only [hb.clock] at hm
          have hmn' : m ≤ n := hmn
          omega
        · rw [upd_other _ _ e] at hc; exact ⟨c, hc, rfl⟩
      · cases hs
    | pin t0 =>
      rw [hl] at hs
      simp only [cstep] at hs
      split at hs
      · simp only [Option.some.injEq, Prod.mk.injEq] at hs
        rw [← hs.1] at hc
        simp only [CState.next] at hc
        by_cases e : t = t0
        · subst e; rw [upd_same] at hc; exact ⟨c, hc, rfl⟩
        · rw [upd_other _ _ e] at hc; exact ⟨c, hc, rfl⟩
      · cases hs
    | unpin t0 =>
      rw [hl] at hs
      simp only [cstep] at hs
      split at hs
      · simp only [Option.some.injEq, Prod.mk.injEq] at hs
        rw [← hs.1] at hc
        simp only [CState.next] at hc
        by_cases e : t = t0
        · subst e; rw [upd_same] at hc; exact ⟨c, hc, rfl⟩
        · rw [upd_other _ _ e] at hc; exact ⟨c, hc, rfl⟩
      · cases hs
    | abort t0 =>
      rw [hl] at hs
      simp only [cstep] at hs
      split at hs
      · cases hs
      · simp only [Option.some.injEq, Prod.mk.injEq] at hs
        rw [← hs.1] at hc
        simp only [CState.next] at hc
        by_cases e : t = t0
        · subst e; rw [upd_same] at hc; cases hc
        · rw [upd_other _ _ e] at hc; exact ⟨c, hc, rfl⟩
    | sync t0 t' τ =>
      rw [hl] at hs
      simp only [cstep, Option.some.injEq, Prod.mk.injEq] at hs
      rw [← hs.1] at hc
      simp only [CState.next] at hc
      by_cases e : t = t0
      · subst e; rw [upd_same] at hc; exact ⟨c, hc, rfl⟩
      · rw [upd_other _ _ e] at hc; exact ⟨c, hc, rfl⟩
    | free a =>
      rw [hl] at hs
      simp only [cstep, Option.some.injEq, Prod.mk.injEq] at hs
      rw [← hs.1] at hc
      simp only [CState.next, upd_self] at hc
      exact ⟨c, hc, rfl⟩
    | idle =>
      rw [hl] at hs
      simp only [cstep, Option.some.injEq, Prod.mk.injEq] at hs
      rw [← hs.1] at hc
      simp only [CState.next, upd_self] at hc
      exact ⟨c, hc, rfl⟩

/-- After its return a call is not in progress. -/
theorem not_running {j id : Nat} {r : Res P} (hj : j < E.len) (h : E.ev j = some (.res id r)) {n t : Nat} {c : Call K P}
    (hn : n ≤ E.len) (hjn : j < n) (hc : ((E.st n).thr t).run = some c) : c.inv ≠ id := by
  intro e
  obtain ⟨t', weak, τ, c', h1, h2, h3, h4, h5, h6, -⟩ := E.ret hj h
  have hl := (((E.cinv hn).sess t).run c hc).lab
  rw [e, h5] at hl
  injection hl with hl
  subst hl
  obtain ⟨c'', h7, -⟩ := E.run_back hn hc (m := j + 1) (by omega) (by omega)
  rw [h6] at h7; cases h7

theorem res_unique {i j id : Nat} {r r' : Res P} (hi : i < E.len) (hj : j < E.len) (h : E.ev i = some (.res id r))
    (h' : E.ev j = some (.res id r')) : i = j := by
  have key : ∀ {i j : Nat} {r r' : Res P}, i < E.len → j < E.len → E.ev i = some (.res id r) →
      E.ev j = some (.res id r') → ¬ i < j := by
    intro i j r r' hi hj h h' hlt
    obtain ⟨t', weak, τ, c', h1, h2, h3, h4, h5, h6, -⟩ := E.ret hj h'
    exact E.not_running hi h (by omega) hlt h2 h3
  have h1 := key hi hj h h'
  have h2 := key hj hi h' h
  omega

/-! ### Updates -/

theorem W_ok {i : Nat} {lp : LP K P} (hi : i < E.len) (h : E.W i = some lp) : E.UpdOK i lp :=
  (E.cinv (Nat.succ_le_of_lt hi)).upd i lp (Nat.lt_succ_self i) h

theorem W_res {i j : Nat} {lp : LP K P} {r : Res P} (hi : i < E.len) (h : E.W i = some lp) (hj : j < E.len)
    (hr : E.ev j = some (.res lp.id r)) : i ≤ j := by
  obtain ⟨t, weak, c, h1, h2, h3, -⟩ := E.W_ok hi h
  by_cases hlt : j < i
  · exact absurd h3 (E.not_running hj hr (by omega) hlt h2)
  · omega

theorem W_unique {i j : Nat} {lp lp' : LP K P} (hi : i < E.len) (hj : j < E.len) (h : E.W i = some lp) (h' : E.W j = some lp')
    (he : lp.id = lp'.id) : i = j := by
  have key : ∀ {i j : Nat} {lp lp' : LP K P}, j < E.len → E.W i = some lp → E.W j = some lp' → lp.id = lp'.id → ¬ i < j := by
    intro i j lp lp' hj h h' he hlt
    obtain ⟨t, weak, c, h1, h2, h3, h4, -⟩ := E.W_ok hj h'
    have hl := (((E.cinv (Nat.le_of_lt hj)).sess t).run c h2).lin
    simp only [LinInv, h4] at hl
    exact hl i lp hlt h (by omega)
  have h1 := key hj h h' he
  have h2 := key hi h' h he.symm
  omega

/-! ### Happens-before -/

/-- Call `x` happens before call `y`. -/
def Hb (x y : Nat) : Prop :=
  ∃ t t' j r req weak τ, j < E.len ∧ E.lab j = .tick t weak τ ∧ E.ev j = some (.res x r) ∧
    y < E.len ∧ E.lab y = .call t' req ∧ HB E.lab E.len (t, j + 1) (t', y)

theorem Hb.views {x y : Nat} (h : E.Hb x y) {j : Nat} {r : Res P} (hj : j < E.len) (hr : E.ev j = some (.res x r))
    {t t' : Nat} {req req' : Req K P} (hx : E.lab x = .call t req) (hy : E.lab y = .call t' req') :
    j < y ∧ ∀ ℓ, E.V t (j + 1) ℓ ≤ E.V t' y ℓ := by
  obtain ⟨t1, t2, j1, r1, req1, weak, τ, h1, h2, h3, h4, h5, h6⟩ := h
  have e := E.res_unique hj h1 hr h3
  subst e
  rw [hy] at h5
  injection h5 with h5 _
  subst h5
  obtain ⟨t3, weak3, τ3, c, g1, g2, g3, g4, g5, -⟩ := E.ret hj hr
  rw [g1] at h2; cases h2
  rw [hx] at g5; cases g5
  obtain ⟨h7, h8⟩ := E.hb h6 (by simp only; omega)
  exact ⟨by simp only at h7; omega, h8⟩

theorem Hb.ret {x y : Nat} (h : E.Hb x y) : ∃ j r, j < E.len ∧ E.ev j = some (.res x r) ∧ x < j ∧ j < y := by
  obtain ⟨t1, t2, j1, r1, req1, weak, τ, h1, h2, h3, h4, h5, h6⟩ := h
  obtain ⟨t3, weak3, τ3, c, g1, g2, g3, g4, g5, -⟩ := E.ret h1 h3
  obtain ⟨h7, h8⟩ := E.hb h6 (by simp only; omega)
  exact ⟨j1, r1, h1, h3, g4, by simp only at h7; omega⟩

theorem Hb.call {x y : Nat} (h : E.Hb x y) : ∃ t req, E.lab y = .call t req := by
  obtain ⟨t1, t2, j1, r1, req1, weak, τ, h1, h2, h3, h4, h5, h6⟩ := h
  exact ⟨_, _, h5⟩

/-- Somebody who saw the key as of instant `σ`. -/
structure SawIt (n id : Nat) (k : K) (v : Option P) (σ : Nat) : Prop where
  ex : ∃ t j r req, E.lab id = .call t req ∧ id < j ∧ j < n ∧ E.ev j = some (.res id r) ∧ E.Saw t id (j + 1) k v σ

variable {E}

theorem SawIt.lt {n id : Nat} {k : K} {v : Option P} {σ : Nat} (h : E.SawIt n id k v σ) : σ < n ∧ id < n := by
  obtain ⟨t, j, r, req, h1, h2, h3, h4, h5⟩ := h
  have := h5.lt
  exact ⟨by omega, by omega⟩

/-- One who knew what another one saw does not see anything older. -/
theorem SawIt.order {n id id' : Nat} {k : K} {v v' : Option P} {σ σ' : Nat} (hn : n ≤ E.len) (h : E.SawIt n id k v σ)
    (h' : E.SawIt n id' k v' σ') (hb : E.Hb id id') : σ ≤ σ' := by
  obtain ⟨t, j, r, req, h1, h2, h3, h4, h5⟩ := h
  obtain ⟨t', j', r', req', g1, g2, g3, g4, g5⟩ := h'
  obtain ⟨-, hv⟩ := hb.views E (by omega) h4 h1 g1
  exact g5.fresh σ (h5.trail.mono hv)

/-- One who knew of an update sees it. -/
theorem SawIt.after {n i id : Nat} {k : K} {v : Option P} {σ : Nat} {lp : LP K P} (hn : n ≤ E.len) (hi : i < E.len)
    (hw : E.W i = some lp) (hk : lp.op.key cfg.key = k) (h : E.SawIt n id k v σ) (hb : E.Hb lp.id id) : i + 1 ≤ σ := by
  obtain ⟨t, weak, c, h1, h2, h3, h4, h5, h6, h7, h8⟩ := E.W_ok hi hw
  obtain ⟨t', j', r', req', g1, g2, g3, g4, g5⟩ := h
  obtain ⟨j, r, a1, a2, -, a4⟩ := hb.ret E
  obtain ⟨-, hv⟩ := hb.views E a1 a2 h6 g1
  have hij := E.W_res hi hw a1 a2
  refine g5.fresh (i + 1) ?_
  rw [hk] at h8
  exact (h8.mono (E.V_mono t (by omega) a1)).mono hv

/-- Nobody sees a later update. -/
theorem SawIt.before {n i id : Nat} {k : K} {v : Option P} {σ : Nat} {lp : LP K P} (hn : n ≤ E.len) (hi : i < E.len)
    (hw : E.W i = some lp) (h : E.SawIt n id k v σ) (hb : E.Hb id lp.id) : σ ≤ i := by
  obtain ⟨t, weak, c, h1, h2, h3, h4, h5, h6, h7, h8⟩ := E.W_ok hi hw
  obtain ⟨t', j', r', req', g1, g2, g3, g4, g5⟩ := h
  obtain ⟨j, r, a1, a2, -, a4⟩ := hb.ret E
  have := E.res_unique a1 (by omega) a2 g4
  subst this
  have := g5.lt
  omega

variable (E)

/-! ### The history -/

/-- The history of the first `n` steps of an execution. -/
def history (n : Nat) : List (HEv K P) := (List.range n).filterMap (fun i => (E.ev i).bind Event.hev)

section
variable {n : Nat} (hn : n ≤ E.len)
include hn

theorem hev_at_inv {i id : Nat} {o : Op K P} (hi : i < n) : (E.ev i).bind Event.hev = some (.inv id o) ↔
    i = id ∧ E.ev id = some (.inv id (.op o)) := by
  constructor
  · intro h
    obtain ⟨e, h1, h2⟩ := Option.bind_eq_some_iff.mp h
    rw [hev_inv.mp h2] at h1
    have := (E.ev_inv (by omega) h1).1
    subst this
    exact ⟨rfl, h1⟩
  · rintro ⟨rfl, h⟩; rw [h]; rfl

theorem hev_at_res {i id : Nat} {r : Ret P} : (E.ev i).bind Event.hev = some (.res id r) ↔
    E.ev i = some (.res id (.op r)) := by
  constructor
  · intro h
    obtain ⟨e, h1, h2⟩ := Option.bind_eq_some_iff.mp h
    rw [hev_res.mp h2] at h1
    exact h1
  · intro h; rw [h]; rfl

theorem mem_history_inv {id : Nat} {o : Op K P} : .inv id o ∈ E.history n ↔
    id < n ∧ E.ev id = some (.inv id (.op o)) := by
  simp only [history, List.mem_filterMap, List.mem_range]
  constructor
  · rintro ⟨i, h1, h2⟩
    obtain ⟨rfl, h3⟩ := (E.hev_at_inv hn h1).mp h2
    exact ⟨h1, h3⟩
  · rintro ⟨h1, h2⟩; exact ⟨id, h1, (E.hev_at_inv hn h1).mpr ⟨rfl, h2⟩⟩

theorem mem_history_res {id : Nat} {r : Ret P} : .res id r ∈ E.history n ↔
    ∃ j, j < n ∧ E.ev j = some (.res id (.op r)) := by
  simp only [history, List.mem_filterMap, List.mem_range, E.hev_at_res hn]

theorem before_history {a b : Nat} (h : Before (E.history n) a b) :
    ∃ j r o, j < b ∧ b < n ∧ E.ev j = some (.res a (.op r)) ∧ E.ev b = some (.inv b (.op o)) := by
  simp only [Before, history, pair_sublist_filterMap_range] at h
  obtain ⟨r, o, i, j, h1, h2, h3, h4⟩ := h
  obtain ⟨rfl, h5⟩ := (E.hev_at_inv hn h2).mp h4
  exact ⟨i, r, o, h1, h2, (E.hev_at_res hn).mp h3, h5⟩

theorem wellFormed : WellFormed (E.history n) where
  invOnce := by
    rw [List.pairwise_iff_forall_sublist]
    intro a b hs id o o' h1 h2
    subst h1 h2
    obtain ⟨i, j, h1, h2, h3, h4⟩ := pair_sublist_filterMap_range.mp hs
    have := ((E.hev_at_inv hn (by omega)).mp h3).1
    have := ((E.hev_at_inv hn h2).mp h4).1
    omega
  resOnce := by
    rw [List.pairwise_iff_forall_sublist]
    intro a b hs id o o' h1 h2
    subst h1 h2
    obtain ⟨i, j, h1, h2, h3, h4⟩ := pair_sublist_filterMap_range.mp hs
    have := E.res_unique (by omega) (by omega) ((E.hev_at_res hn).mp h3) ((E.hev_at_res hn).mp h4)
    omega
  resAfter := by
    intro id r h
    obtain ⟨j, h1, h2⟩ := (E.mem_history_res hn).mp h
    obtain ⟨t, weak, τ, c, g1, g2, g3, g4, g5, g6, g7⟩ := E.ret (by omega) h2
    cases hreq : c.req with
    | op o =>
      rw [hreq] at g5
      exact ⟨o, pair_sublist_filterMap_range.mpr ⟨id, j, g4, h1,
        (E.hev_at_inv hn (by omega)).mpr ⟨rfl, E.ev_call (by omega) g5⟩, (E.hev_at_res hn).mpr h2⟩⟩
    | isEmpty => simp only [OutOK, hreq] at g7; obtain ⟨b, hb, -⟩ := g7; cases hb
    | iter => simp only [OutOK, hreq] at g7; obtain ⟨b, hb, -⟩ := g7; cases hb
end

/-! ### The sequence -/

/-- A completed call that changed nothing, with its instant. -/
structure ReadAt (n τ : Nat) (x : SOp K P) : Prop where
  ev : E.ev x.id = some (.inv x.id (.op x.op))
  res : ∃ j, j < n ∧ E.ev j = some (.res x.id (.op x.ret))
  notYet : ∀ i lp, i < E.len → E.W i = some lp → lp.id ≠ x.id
  noins : ∀ p, x.op ≠ .insert p
  saw : ∃ v, E.SawIt n x.id (x.op.key cfg.key) v τ ∧ E.A τ (x.op.key cfg.key) = v ∧
    ∀ B : AMap K P, B (x.op.key cfg.key) = v → B.apply cfg.key x.op = (B, x.ret)

open Classical in
/-- The read with a given identity and its instant. -/
noncomputable def readOf (n id : Nat) : Option (Nat × SOp K P) :=
  if h : ∃ y : Nat × SOp K P, y.2.id = id ∧ E.ReadAt n y.1 y.2 then some h.choose else none

theorem readOf_some {n id τ : Nat} {x : SOp K P} (h : E.readOf n id = some (τ, x)) : x.id = id ∧ E.ReadAt n τ x := by
  simp only [readOf] at h
  split at h
  · next hh =>
    injection h with h
    have := hh.choose_spec
    rw [h] at this
    exact this
  · cases h

/-- The reads among some calls that are of instant `τ`. -/
noncomputable def readsAt (n τ : Nat) (ids : List Nat) : List (SOp K P) :=
  ids.filterMap (fun id => match E.readOf n id with
    | some (τ', x) => if τ' = τ then some x else none
    | none => none)

theorem mem_readsAt {n τ : Nat} {ids : List Nat} {x : SOp K P} : x ∈ E.readsAt n τ ids ↔
    x.id ∈ ids ∧ E.readOf n x.id = some (τ, x) := by
  simp only [readsAt, List.mem_filterMap]
  constructor
  · rintro ⟨id, h1, h2⟩
    split at h2
    · next τ' y hy =>
      split at h2
      · next e => cases h2; subst e; have := (E.readOf_some hy).1; subst this; exact ⟨h1, hy⟩
      · cases h2
    · cases h2
  · rintro ⟨h1, h2⟩
    refine ⟨x.id, h1, ?_⟩; rw [h2]; simp

/-- Calls that take effect at instant `τ`. -/
noncomputable def linAt (n τ : Nat) : List (SOp K P) :=
  E.readsAt n τ (List.range n) ++ ((E.W τ).map (fun lp => (⟨lp.id, lp.op, lp.ret⟩ : SOp K P))).toList

/-- The linearization of the first `n` steps. -/
noncomputable def lin (n : Nat) : List (SOp K P) := (List.range n).flatMap (E.linAt n)

theorem mem_linAt {n τ : Nat} {x : SOp K P} : x ∈ E.linAt n τ ↔
    (x.id < n ∧ E.readOf n x.id = some (τ, x)) ∨ E.W τ = some ⟨x.id, x.op, x.ret⟩ := by
  simp only [linAt, List.mem_append, mem_readsAt, List.mem_range, Option.mem_toList, Option.map_eq_some_iff]
  constructor
  · rintro (h | ⟨lp, h1, h2⟩)
    · exact Or.inl h
    · subst h2; exact Or.inr h1
  · rintro (h | h1)
    · exact Or.inl h
    · exact Or.inr ⟨_, h1, rfl⟩

/-- What can be in the sequence. -/
inductive Item (n τ : Nat) (x : SOp K P) : Prop
  | read (h : E.ReadAt n τ x)
  | upd (h : E.W τ = some ⟨x.id, x.op, x.ret⟩)

theorem linAt_item {n τ : Nat} {x : SOp K P} (h : x ∈ E.linAt n τ) : E.Item n τ x := by
  rcases E.mem_linAt.mp h with ⟨-, h⟩ | h
  · exact .read (E.readOf_some h).2
  · exact .upd h

section
variable {n : Nat} (hn : n ≤ E.len)
include hn

theorem linAt_facts {τ : Nat} {x : SOp K P} (hτ : τ < n) (h : E.Item n τ x) :
    x.id < n ∧ E.ev x.id = some (.inv x.id (.op x.op)) ∧ (∀ j r, j < n → E.ev j = some (.res x.id r) → τ ≤ j) ∧
    (x.Updates → x.id < τ) := by
  cases h with
  | read h =>
    obtain ⟨h1, ⟨j, h2, h3⟩, h4, h5, v, hs, h6⟩ := h
    refine ⟨hs.lt.2, h1, ?_, ?_⟩
    · intro j' r hj' hr
      obtain ⟨t, j2, r2, req, a1, a2, a3, a4, a5⟩ := hs
      have := E.res_unique (by omega) (by omega) hr a4
      have := a5.lt
      omega
    · intro hu
      exact absurd hu (not_updates h5 h6.2)
  | upd h =>
    obtain ⟨t, weak, c, h1, h2, h3, h4, h5, h6, h7, h8⟩ := E.W_ok (by omega) h
    simp only at h5 h6
    refine ⟨by omega, E.ev_call (by omega) h6, ?_, fun _ => h5⟩
    intro j r hj hr
    exact E.W_res (by omega) h (by omega) hr

theorem linAt_disjoint {τ τ' : Nat} {x y : SOp K P} (hτ : τ < n) (hτ' : τ' < n) (hx : x ∈ E.linAt n τ) (hy : y ∈ E.linAt n τ')
    (he : x.id = y.id) : τ = τ' := by
  rcases E.mem_linAt.mp hx with ⟨h1, h2⟩ | h1 <;> rcases E.mem_linAt.mp hy with ⟨g1, g2⟩ | g1
  · rw [he, g2] at h2; cases h2; rfl
  · exact absurd he.symm ((E.readOf_some h2).2.notYet τ' _ (by omega) g1)
  · exact absurd he ((E.readOf_some g2).2.notYet τ _ (by omega) h1)
  · exact E.W_unique (by omega) (by omega) h1 g1 he

/-- The sequence is sorted by time, and reads of one instant by identity. -/
theorem lin_pairwise (R : SOp K P → SOp K P → Prop)
    (hrr : ∀ τ x y, τ < n → x.id < y.id → E.ReadAt n τ x → E.ReadAt n τ y → R x y)
    (hru : ∀ τ x y, τ < n → E.ReadAt n τ x → E.W τ = some ⟨y.id, y.op, y.ret⟩ → R x y)
    (h1 : ∀ τ τ' x y, τ < τ' → τ' < n → x ∈ E.linAt n τ → y ∈ E.linAt n τ' → R x y) : (E.lin n).Pairwise R := by
  rw [lin, List.pairwise_flatMap]
  refine ⟨?_, ?_⟩
  · intro τ hτ
    have hτ' := List.mem_range.mp hτ
    rw [linAt, List.pairwise_append]
    refine ⟨?_, ?_, ?_⟩
    · refine List.Pairwise.filterMap _ (R := (· < ·)) ?_ List.pairwise_lt_range
      intro a a' hlt b hb b' hb'
      split at hb
      · next τ1 x1 e1 =>
        split at hb
        · next e =>
          cases hb
          subst e
          split at hb'
          · next τ2 x2 e2 =>
            split at hb'
            · next e =>
              cases hb'
              subst e
              obtain ⟨a1, a2⟩ := E.readOf_some e1
              obtain ⟨b1, b2⟩ := E.readOf_some e2
              exact hrr _ _ _ hτ' (by omega) a2 b2
            · cases hb'
          · cases hb'
        · cases hb
      · cases hb
    · cases E.W τ <;> simp
    · intro x hx y hy
      obtain ⟨-, hx⟩ := E.mem_readsAt.mp hx
      simp only [Option.mem_toList, Option.map_eq_some_iff] at hy
      obtain ⟨lp, hw, rfl⟩ := hy
      exact hru τ x _ hτ' (E.readOf_some hx).2 hw
  · refine List.pairwise_lt_range.imp_of_mem ?_
    intro a b ha hb hab x hx y hy
    exact h1 a b x y hab (List.mem_range.mp hb) hx hy

theorem A_none {i : Nat} (hi : i < n) (h : E.W i = none) : E.A (i + 1) = E.A i :=
  (E.cinv hn).keep i hi h

theorem A_some {i : Nat} {lp : LP K P} (hi : i < n) (h : E.W i = some lp) : (E.A i).apply cfg.key lp.op = (E.A (i + 1), lp.ret) := by
  obtain ⟨t, weak, c, h1, h2, h3, h4, h5, h6, h7, h8⟩ := (E.cinv hn).upd i lp hi h
  exact h7

omit hn in
theorem A_zero : E.A 0 = AMap.empty := by
  have h0 : E.M 0 = Mem.init := by simp [M, E.init, CState.init]; rfl
  funext k
  show (E.M 0).abs cfg k = none
  rw [h0]
  exact look_leaf _ (leafVal_null rfl)

omit hn in
theorem reads_legal (τ : Nat) (ids : List Nat) : Legal cfg.key (E.A τ) (E.readsAt n τ ids) (E.A τ) := by
  refine Legal.const ?_
  intro x hx
  obtain ⟨v, -, h2, h3⟩ := (E.readOf_some (E.mem_readsAt.mp hx).2).2.saw
  exact h3 _ h2

theorem legal_aux (m : Nat) (hm : m ≤ n) :
    Legal cfg.key AMap.empty ((List.range m).flatMap (E.linAt n)) (E.A m) := by
  induction m with
  | zero => rw [E.A_zero]; exact .nil _
  | succ m ih =>
    rw [List.range_succ, List.flatMap_append]
    refine (ih (by omega)).append ?_
    simp only [List.flatMap_cons, List.flatMap_nil, List.append_nil, linAt]
    refine Legal.append (m1 := E.A m) (E.reads_legal _ _) ?_
    cases hw : E.W m with
    | none => simp only [Option.map_none, Option.toList_none]; rw [E.A_none hn (by omega) hw]; exact .nil _
    | some lp => exact .cons (E.A_some hn (by omega) hw) (.nil _)

/-- A later item does not happen before an earlier one with the same key. -/
theorem item_causal {τ τ' : Nat} {x y : SOp K P} (hlt : τ < τ') (hτ' : τ' < n) (hx : E.Item n τ x) (hy : E.Item n τ' y)
    (hk : x.op.key cfg.key = y.op.key cfg.key) : ¬ E.Hb y.id x.id := by
  intro hb
  cases hx with
  | read hx =>
    obtain ⟨v, hs, -⟩ := hx.saw
    cases hy with
    | read hy =>
      obtain ⟨v', hs', -⟩ := hy.saw
      rw [hk] at hs
      have := SawIt.order hn hs' hs hb
      omega
    | upd hy =>
      have := SawIt.after hn (by omega) hy hk.symm hs hb
      omega
  | upd hx =>
    cases hy with
    | read hy =>
      obtain ⟨v', hs', -⟩ := hy.saw
      have := SawIt.before hn (by omega) hx hs' hb
      omega
    | upd hy =>
      obtain ⟨j, r, a1, a2, a3, a4⟩ := hb.ret E
      have h1 := E.W_res (by omega) hy a1 a2
      obtain ⟨_, _, _, -, -, -, -, h2, -⟩ := E.W_ok (by omega) hx
      simp only at h2
      omega

/-- Every finite prefix of every execution has a causal linearization that leads to the current abstract map. -/
theorem lin_causal : IsCausalLinearization cfg.key (E.history n) E.Hb (E.lin n) (E.A n) where
  invoked := by
    intro x hx
    obtain ⟨τ, hτ, hx⟩ := List.mem_flatMap.mp hx
    have := E.linAt_facts hn (List.mem_range.mp hτ) (E.linAt_item hx)
    exact (E.mem_history_inv hn).mpr ⟨this.1, this.2.1⟩
  once := by
    rw [List.Nodup, List.pairwise_map]
    refine E.lin_pairwise hn _ ?_ ?_ ?_
    · intro τ x y _ hlt _ _; omega
    · intro τ x y hτ hx hy e
      exact hx.notYet τ _ (by omega) hy e.symm
    · intro τ τ' x y hlt hτ' hx hy he
      have := E.linAt_disjoint hn (by omega) hτ' hx hy he
      omega
  complete := by
    intro id o r hi hr
    obtain ⟨h1, h2⟩ := (E.mem_history_inv hn).mp hi
    obtain ⟨j, h3, h4⟩ := (E.mem_history_res hn).mp hr
    simp only [lin, List.mem_flatMap, List.mem_range]
    obtain ⟨t, weak, τ, c, g1, g2, g3, g4, g5, g6, g7⟩ := E.ret (by omega) h4
    have hreq : c.req = .op o := by
      have := E.ev_call (by omega) g5
      rw [h2] at this
      simp only [Option.some.injEq, Event.inv.injEq, true_and] at this
      exact this.symm
    simp only [OutOK, hreq] at g7
    obtain ⟨ret, e, h5, -⟩ := g7
    injection e with e
    subst e
    rw [g3] at h5
    rcases h5 with ⟨i, a1, a2⟩ | ⟨a1, a2, v, σ, a3, a4⟩
    · exact ⟨i, by omega, E.mem_linAt.mpr (Or.inr a2)⟩
    · have hra : E.ReadAt n σ ⟨id, o, r⟩ := by
        refine ⟨h2, ⟨j, h3, h4⟩, ?_, a2, v, ⟨t, j, _, _, g5, g4, h3, h4, a3⟩, a3.val, a4⟩
        intro i lp hi' hw e
        have e' : lp.id = id := e
        have hle := E.W_res (j := j) (r := .op r) hi' hw (by omega) (by rw [e']; exact h4)
        exact a1 i lp (by omega) hw e'
      have hex : ∃ y : Nat × SOp K P, y.2.id = id ∧ E.ReadAt n y.1 y.2 := ⟨(σ, _), rfl, hra⟩
      have hro : E.readOf n id = some (hex.choose.1, hex.choose.2) := by
        simp only [readOf, hex, dif_pos]
      obtain ⟨b1, b2⟩ := E.readOf_some hro
      obtain ⟨j', b3, b4⟩ := b2.res
      have hj := E.res_unique (by omega) (by omega) (b1 ▸ b4) h4
      subst hj
      obtain ⟨v', hs, -⟩ := b2.saw
      refine ⟨hex.choose.1, hs.lt.1, ?_⟩
      have : hex.choose.2 = ⟨id, o, r⟩ := by
        have b5 := b2.ev
        generalize hex.choose.2 = z at *
        subst b1
        rw [h2] at b5
        rw [h4] at b4
        cases z
        simp only [Option.some.injEq, Event.inv.injEq, Event.res.injEq, Req.op.injEq, Res.op.injEq, true_and] at b5 b4
        simp [b5, b4]
      rw [this] at hro
      exact E.mem_linAt.mpr (Or.inl ⟨h1, hro⟩)
  realtime := by
    have key : ∀ τ τ' x y, τ ≤ τ' → τ' < n → E.Item n τ x → E.Item n τ' y → x.Updates → ¬ Before (E.history n) y.id x.id := by
      intro τ τ' x y hle hτ' hx hy hu hb
      obtain ⟨j, r, o, b1, b2, b3, b4⟩ := E.before_history hn hb
      have h1 := (E.linAt_facts hn (by omega) hx).2.2.2 hu
      have h2 := (E.linAt_facts hn hτ' hy).2.2.1 j _ (by omega) b3
      omega
    refine E.lin_pairwise hn _ ?_ ?_ ?_
    · intro τ x y hτ _ hx hy; exact key τ τ x y (Nat.le_refl _) hτ (.read hx) (.read hy)
    · intro τ x y hτ hx hy; exact key τ τ x y (Nat.le_refl _) hτ (.read hx) (.upd hy)
    · intro τ τ' x y hlt hτ' hx hy
      exact key τ τ' x y (by omega) hτ' (E.linAt_item hx) (E.linAt_item hy)
  causal := by
    refine E.lin_pairwise hn _ ?_ ?_ ?_
    · intro τ x y hτ hlt hx hy hk hb
      obtain ⟨j, r, -, -, a3, a4⟩ := hb.ret E
      omega
    · intro τ x y hτ hx hy hk hb
      obtain ⟨v, hs, -⟩ := hx.saw
      have := SawIt.after hn (by omega) hy hk.symm hs hb
      omega
    · intro τ τ' x y hlt hτ' hx hy hk
      exact E.item_causal hn hlt hτ' (E.linAt_item hx) (E.linAt_item hy) hk
  legal := E.legal_aux hn n (Nat.le_refl _)

/-- The calls in the linearization before the look of call `id` at what was there at instant `σ`. -/
noncomputable def lookPrefix (n σ id : Nat) : List (SOp K P) := (List.range σ).flatMap (E.linAt n) ++ E.readsAt n σ (List.range id)

/-- What a call that saw some keys as of one instant had a look at. -/
theorem glimpse_at {id j : Nat} {r : Res P} (hj : j < n) (hr : E.ev j = some (.res id r)) {keys : K → Prop} {v : K → Option P} {σ : Nat}
    {t : Nat} {req : Req K P} (hc : E.lab id = .call t req) (hid : id < j) (hσ : σ ≤ j)
    (hs : ∀ k, keys k → E.Saw t id (j + 1) k (v k) σ) : ∃ L2, E.lin n = E.lookPrefix n σ id ++ L2 ∧ Legal cfg.key AMap.empty (E.lookPrefix n σ id) (E.A σ) ∧
      (∀ y ∈ L2, keys (y.op.key cfg.key) → ¬ E.Hb y.id id) ∧ (∀ x ∈ E.lookPrefix n σ id, keys (x.op.key cfg.key) → ¬ E.Hb id x.id) ∧
      (∀ x ∈ E.lookPrefix n σ id, x.Updates → x.id < j) := by
  have hlt : σ < n := by omega
  have hsaw : ∀ k, keys k → E.SawIt n id k (v k) σ := fun k hk => ⟨t, j, r, req, hc, hid, hj, hr, hs k hk⟩
  have e1 : List.range n = List.range σ ++ (σ :: (List.range (n - (σ + 1))).map (fun x => (σ + 1) + x)) := by
    have : List.range n = List.range (σ + 1) ++ (List.range (n - (σ + 1))).map (fun x => (σ + 1) + x) := by
      rw [← List.range_add]; congr 1; omega
    rw [this, List.range_succ, List.append_assoc]; rfl
  have e2 : List.range n = List.range id ++ (List.range (n - id)).map (fun x => id + x) := by
    rw [← List.range_add]; congr 1; omega
  refine ⟨(E.readsAt n σ ((List.range (n - id)).map (fun x => id + x)) ++
      ((E.W σ).map (fun lp => (⟨lp.id, lp.op, lp.ret⟩ : SOp K P))).toList) ++
    ((List.range (n - (σ + 1))).map (fun x => (σ + 1) + x)).flatMap (E.linAt n), ?_, ?_, ?_, ?_, ?_⟩
  · rw [lin, lookPrefix]
    have e3 : (List.range n).flatMap (E.linAt n) =
        (List.range σ ++ (σ :: (List.range (n - (σ + 1))).map (fun x => (σ + 1) + x))).flatMap (E.linAt n) := by rw [← e1]
    rw [e3, List.flatMap_append, List.flatMap_cons]
    have : E.linAt n σ = E.readsAt n σ (List.range id) ++ (E.readsAt n σ ((List.range (n - id)).map (fun x => id + x)) ++
      ((E.W σ).map (fun lp => (⟨lp.id, lp.op, lp.ret⟩ : SOp K P))).toList) := by
      have e4 : E.linAt n σ = E.readsAt n σ (List.range id ++ (List.range (n - id)).map (fun x => id + x)) ++
          ((E.W σ).map (fun lp => (⟨lp.id, lp.op, lp.ret⟩ : SOp K P))).toList := by rw [← e2]; rfl
      rw [e4, readsAt, List.filterMap_append, List.append_assoc]; rfl
    rw [this]
    simp only [List.append_assoc]
  · exact (E.legal_aux hn σ (by omega)).append (E.reads_legal _ _)
  · intro y hy hk hb
    have hsk := hsaw _ hk
    obtain ⟨j', r', -, -, a3, a4⟩ := hb.ret E
    have later : ∀ τ', σ < τ' → τ' < n → E.Item n τ' y → False := by
      intro τ' h1 h2 hi
      cases hi with
      | read h =>
        obtain ⟨v', hs', -⟩ := h.saw
        have := SawIt.order hn hs' hsk hb
        omega
      | upd h =>
        have := SawIt.after hn (by omega) h rfl hsk hb
        omega
    rcases List.mem_append.mp hy with hy | hy
    · rcases List.mem_append.mp hy with hy | hy
      · have := (E.mem_readsAt.mp hy).1
        simp only [List.mem_map, List.mem_range] at this
        obtain ⟨x, -, hx⟩ := this
        omega
      · simp only [Option.mem_toList, Option.map_eq_some_iff] at hy
        obtain ⟨lp, hw, rfl⟩ := hy
        have := SawIt.after hn (by omega) hw rfl hsk hb
        omega
    · obtain ⟨τ', h1, h2⟩ := List.mem_flatMap.mp hy
      simp only [List.mem_map, List.mem_range] at h1
      obtain ⟨x, h3, h4⟩ := h1
      exact later τ' (by omega) (by omega) (E.linAt_item h2)
  · intro x hx hk hb
    have hsk := hsaw _ hk
    obtain ⟨j', r', -, -, a3, a4⟩ := hb.ret E
    rcases List.mem_append.mp hx with hx | hx
    · obtain ⟨τ', h1, h2⟩ := List.mem_flatMap.mp hx
      have h1 := List.mem_range.mp h1
      cases E.linAt_item h2 with
      | read h =>
        obtain ⟨v', hs', -⟩ := h.saw
        have := SawIt.order hn hsk hs' hb
        omega
      | upd h =>
        have := SawIt.before hn (by omega) h hsk hb
        omega
    · have := (E.mem_readsAt.mp hx).1
      have := List.mem_range.mp this
      omega
  · intro x hx hu
    have : ∃ τ', τ' ≤ σ ∧ E.Item n τ' x := by
      rcases List.mem_append.mp hx with hx | hx
      · obtain ⟨τ', h1, h2⟩ := List.mem_flatMap.mp hx
        have h1 := List.mem_range.mp h1
        exact ⟨τ', by omega, E.linAt_item h2⟩
      · exact ⟨σ, Nat.le_refl _, .read (E.readOf_some (E.mem_readsAt.mp hx).2).2⟩
    obtain ⟨τ', h1, h2⟩ := this
    have := (E.linAt_facts hn (by omega) h2).2.2.2 hu
    omega

theorem glimpse {id j : Nat} {r : Res P} (hj : j < n) (hr : E.ev j = some (.res id r)) {keys : K → Prop} {v : K → Option P} {σ : Nat}
    {t : Nat} {req : Req K P} (hc : E.lab id = .call t req) (hid : id < j) (hσ : σ ≤ j)
    (hs : ∀ k, keys k → E.Saw t id (j + 1) k (v k) σ) : Glimpse cfg.key E.Hb (E.lin n) id j keys (E.A σ) := by
  obtain ⟨L2, h⟩ := E.glimpse_at hn hj hr hc hid hσ hs
  exact ⟨_, L2, h⟩
end
end CExec
end Contrie
