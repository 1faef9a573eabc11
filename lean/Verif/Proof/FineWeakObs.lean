import Verif.Proof.FineWeakExec
import Verif.Proof.FineObs
import Verif.Props.ReuseWeak
/-
The fine machine under weak memory: what is observable.
-/
set_option linter.unusedSectionVars false
set_option linter.unusedSimpArgs false
namespace Contrie
variable {K P : Type} [DecidableEq K] {cfg : Config K P}

theorem MEq.sub {ma mf : Mem P} (h : MEq ma mf) : Sub ma mf := ⟨h.root, fun a n hd => by rw [h.deref]; exact hd⟩

namespace FCExec
variable (R : FCExec cfg)

/-- The coarse execution. -/
theorem coarse : ∃ E : CExec cfg, E.len = R.len ∧ E.st = R.absSt ∧ E.lab = R.absLab ∧ E.ev = R.absEv := (R.abs_prefix (Nat.le_refl _)).1

theorem rel {n : Nat} (hn : n ≤ R.len) : R.Rel n := (R.abs_prefix hn).2 n (Nat.le_refl n)

theorem abs_step {n : Nat} (hn : n < R.len) : cstep cfg (R.absSt n) (R.absLab n) = some (R.absSt (n + 1), R.absEv n) := by
  obtain ⟨E, e1, e2, e3, e4⟩ := R.coarse
  have := E.step n (by omega)
  rwa [e2, e3, e4] at this

theorem abs_clock {n : Nat} (hn : n ≤ R.len) : (R.absSt n).m.clock = n := by
  rw [← (R.rel hn).mem.clock, R.clock hn]

/-- The rest of a step: what it returns, the coarse machine has returned in the access. -/
theorem step_tick {i t : Nat} {weak : Bool} {τ : Nat} (hi : i < R.len) (hl : R.lab i = .tick t weak τ) :
    ((R.st i).got t = none ∧ R.ev i = none) ∨
    (∃ w ok own q c weak' τ' p0, (R.st i).got t = some (w, ok, own) ∧ R.absEv i = none ∧ R.ev i = R.absEv q ∧
      Pend cfg R.absSt R.absLab R.absEv i t ((R.st i).s.thr t) w ok own q c weak' τ' p0 ∧ (∀ j, q < j → j ≤ i → (R.st j).got t ≠ none) ∧ (R.st (i + 1)).got t = none) := by
  have hs := R.step i hi
  rw [hl] at hs
  simp only [fcstep] at hs
  split at hs
  · cases hs
  · next c hc =>
    cases hg : (R.st i).got t with
    | none =>
      refine .inl ⟨rfl, ?_⟩
      rw [hg] at hs
      simp only at hs
      split at hs <;> simp only [Option.some.injEq, Prod.mk.injEq] at hs <;> exact hs.2.symm
    | some x =>
      obtain ⟨w, ok, own⟩ := x
      obtain ⟨E, e1, e2, e3, e4⟩ := R.coarse
      have hr := R.rel (Nat.le_of_lt hi)
      obtain ⟨q, c', weak', τ', p0, hp, hbt⟩ := hr.pend t w ok own hg
      have hcc : c' = c := by have := hp.frun; rw [hc] at this; exact (Option.some.inj this).symm
      subst hcc
      rw [hg] at hs
      simp only [Option.some.injEq, Prod.mk.injEq] at hs
      have hnx := Pend.rest (E := E) (EV := R.absEv) (n := i) (by omega) (by rw [e2, e3]; exact hp) (m := (R.st i).s.m) (by rw [e2]; exact hr.mem)
      rw [e2] at hnx
      refine .inr ⟨w, ok, own, q, c', weak', τ', p0, rfl, ?_, ?_, hp, hbt, ?_⟩
      · have ha := R.abs_step hi
        have hla : R.absLab i = .idle := by simp only [absLab, hl, coarseLab, hg]; rfl
        rw [hla] at ha
        simp only [cstep, Option.some.injEq, Prod.mk.injEq] at ha
        exact ha.2.symm
      · rw [← hs.2, hp.ev, hnx]
      · rw [← hs.1]; simp only [upd_same]

/-- A step that is not a session's: it is an invocation, or nothing is observable. -/
theorem step_other {i : Nat} (hi : i < R.len) (hl : ∀ t weak τ, R.lab i ≠ .tick t weak τ) :
    (∃ t r, R.lab i = .call t r ∧ R.ev i = some (.inv i r) ∧ R.absEv i = some (.inv i r)) ∨ (R.ev i = none ∧ R.absEv i = none) := by
  have hs := R.step i hi
  have ha := R.abs_step hi
  have hcl := R.clock (Nat.le_of_lt hi)
  have hcla := R.abs_clock (Nat.le_of_lt hi)
  cases hlab : R.lab i with
  | tick t weak τ => exact absurd hlab (hl t weak τ)
  | call t r =>
    refine .inl ⟨t, r, rfl, ?_⟩
    have hla : R.absLab i = .call t r := R.absLab_call.mpr hlab
    rw [hlab] at hs
    rw [hla] at ha
    simp only [fcstep, cstep] at hs ha
    constructor
    · split at hs
      · simp only [Option.map_some, Option.some.injEq, Prod.mk.injEq, hcl] at hs; exact hs.2.symm
      · cases hs
    · split at ha
      · simp only [Option.some.injEq, Prod.mk.injEq, hcla] at ha; exact ha.2.symm
      · cases ha
  | pin t =>
    have hla : R.absLab i = .pin t := by simp only [absLab, hlab, coarseLab]
    rw [hlab] at hs; rw [hla] at ha
    simp only [fcstep, cstep] at hs ha
    refine .inr ⟨?_, ?_⟩
    · split at hs
      · simp only [Option.map_some, Option.some.injEq, Prod.mk.injEq] at hs; exact hs.2.symm
      · cases hs
    · split at ha
      · simp only [Option.some.injEq, Prod.mk.injEq] at ha; exact ha.2.symm
      · cases ha
  | unpin t =>
    have hla : R.absLab i = .unpin t := by simp only [absLab, hlab, coarseLab]
    rw [hlab] at hs; rw [hla] at ha
    simp only [fcstep, cstep] at hs ha
    refine .inr ⟨?_, ?_⟩
    · split at hs
      · simp only [Option.map_some, Option.some.injEq, Prod.mk.injEq] at hs; exact hs.2.symm
      · cases hs
    · split at ha
      · simp only [Option.some.injEq, Prod.mk.injEq] at ha; exact ha.2.symm
      · cases ha
  | sync t t' τ =>
    have hla : R.absLab i = .sync t t' τ := by simp only [absLab, hlab, coarseLab]
    rw [hlab] at hs; rw [hla] at ha
    simp only [fcstep, cstep, Option.map_some, Option.some.injEq, Prod.mk.injEq] at hs ha
    exact .inr ⟨hs.2.symm, ha.2.symm⟩
  | free a =>
    have hla : R.absLab i = .free a := by simp only [absLab, hlab, coarseLab]
    rw [hlab] at hs; rw [hla] at ha
    simp only [fcstep, cstep, Option.map_some, Option.some.injEq, Prod.mk.injEq] at hs ha
    exact .inr ⟨hs.2.symm, ha.2.symm⟩
  | idle =>
    have hla : R.absLab i = .idle := by simp only [absLab, hlab, coarseLab]
    rw [hlab] at hs; rw [hla] at ha
    simp only [fcstep, cstep, Option.map_some, Option.some.injEq, Prod.mk.injEq] at hs ha
    exact .inr ⟨hs.2.symm, ha.2.symm⟩
  | abort t =>
    rw [hlab] at hs
    refine .inr ⟨?_, ?_⟩
    · simp only [fcstep] at hs
      split at hs
      · cases hs
      · simp only [cstep] at hs
        split at hs
        · cases hs
        · simp only [Option.map_some, Option.some.injEq, Prod.mk.injEq] at hs; exact hs.2.symm
    · have hla : R.absLab i = .abort t ∨ R.absLab i = .unpin t := by
        simp only [absLab, hlab, coarseLab]; split <;> simp
      rcases hla with e | e <;> rw [e] at ha <;> simp only [cstep] at ha <;> split at ha
      · cases ha
      · simp only [Option.some.injEq, Prod.mk.injEq] at ha; exact ha.2.symm
      · simp only [Option.some.injEq, Prod.mk.injEq] at ha; exact ha.2.symm
      · cases ha

theorem inv_iff {i id : Nat} {r : Req K P} (hi : i < R.len) : R.ev i = some (.inv id r) ↔ R.absEv i = some (.inv id r) := by
  by_cases ht : ∃ t weak τ, R.lab i = .tick t weak τ
  · obtain ⟨t, weak, τ, hl⟩ := ht
    obtain ⟨E, e1, e2, e3, e4⟩ := R.coarse
    have hno : ∀ q, q < R.len → R.absLab q ≠ .call t r → (∃ t' w τ', R.absLab q = .tick t' w τ' ∨ R.absLab q = .idle) → R.absEv q ≠ some (.inv id r) := by
      intro q hq _ hx e
      obtain ⟨-, t1, h1⟩ := E.ev_inv (i := q) (id := id) (r := r) (by omega) (by rw [e4]; exact e)
      rw [e3] at h1
      obtain ⟨t', w, τ', hx⟩ := hx
      rcases hx with hx | hx <;> rw [h1] at hx <;> cases hx
    have hlast : R.absEv i ≠ some (.inv id r) := by
      refine hno i hi ?_ ?_
      · intro e; rw [R.absLab_call.mp e] at hl; cases hl
      · refine ⟨t, weak, τ, ?_⟩
        simp only [absLab, hl, coarseLab]; split <;> simp
    rcases R.step_tick hi hl with ⟨-, h⟩ | ⟨w, ok, own, q, c, weak', τ', p0, -, h1, h2, hp, -⟩
    · rw [h]; exact ⟨(fun e => by cases e), fun e => absurd e hlast⟩
    · rw [h2, h1]
      refine ⟨fun e => ?_, (fun e => by cases e)⟩
      exact absurd e (hno q (by have := hp.lt; omega) (by rw [hp.lab]; simp) ⟨t, weak', τ', .inl hp.lab⟩)
  · rcases R.step_other hi (fun t weak τ e => ht ⟨t, weak, τ, e⟩) with ⟨t, r', -, h1, h2⟩ | ⟨h1, h2⟩ <;> rw [h1, h2]

/-- A return: the coarse machine has returned before, in the access. -/
theorem res {j id : Nat} {r : Res P} (hj : j < R.len) (h : R.ev j = some (.res id r)) : ∃ t q weak τ weak' τ', R.lab j = .tick t weak τ ∧ q < j ∧ R.lab q = .tick t weak' τ' ∧
    R.absLab q = .tick t weak' τ' ∧ R.absEv q = some (.res id r) ∧ (∀ i, q < i → i ≤ j → (R.st i).got t ≠ none) ∧ (R.st (j + 1)).got t = none := by
  by_cases ht : ∃ t weak τ, R.lab j = .tick t weak τ
  · obtain ⟨t, weak, τ, hl⟩ := ht
    rcases R.step_tick hj hl with ⟨-, h'⟩ | ⟨w, ok, own, q, c, weak', τ', p0, -, h1, h2, hp, h3, h4⟩
    · rw [h] at h'; cases h'
    · exact ⟨t, q, weak, τ, weak', τ', hl, hp.lt, (R.absLab_tick.mp hp.lab).1, hp.lab, by rw [← h2, h], h3, h4⟩
  · rcases R.step_other hj (fun t weak τ e => ht ⟨t, weak, τ, e⟩) with ⟨t, r', -, h1, -⟩ | ⟨h1, -⟩ <;> rw [h] at h1 <;> cases h1

theorem res_unique {j j' id : Nat} {r r' : Res P} (hj : j < R.len) (hj' : j' < R.len) (h : R.ev j = some (.res id r)) (h' : R.ev j' = some (.res id r')) : j = j' := by
  obtain ⟨E, e1, e2, e3, e4⟩ := R.coarse
  have key : ∀ {j j' : Nat} {r r' : Res P}, j < R.len → j' < R.len → R.ev j = some (.res id r) → R.ev j' = some (.res id r') → ¬ j < j' := by
    intro j j' r r' hj hj' h h' hlt
    obtain ⟨t, q, w, τ, w1, τ1, h1, h2, h3, h3a, h4, h5, h6⟩ := R.res hj h
    obtain ⟨t', q', w', τ', w1', τ1', h1', h2', h3', h3a', h4', h5', h6'⟩ := R.res hj' h'
    have hq : q = q' := E.res_unique (i := q) (j := q') (by omega) (by omega) (by rw [e4]; exact h4) (by rw [e4]; exact h4')
    subst hq
    rw [h3] at h3'
    cases h3'
    exact h5' (j + 1) (by omega) (by omega) h6
  rcases Nat.lt_trichotomy j j' with g | g | g
  · exact absurd g (key hj hj' h h')
  · exact g
  · exact absurd g (key hj' hj h' h)

/-! ### Histories -/

/-- The content of the map at instant `i`. -/
def content (i : Nat) : AMap K P := (R.st i).s.m.abs cfg

/-- The history of the map operations until instant `n`. -/
def history (n : Nat) : List (HEv K P) := (List.range n).filterMap (fun i => (R.ev i).bind Event.hev)

/-- Call `x` returns before call `y` is invoked, and its session synchronises with that of `y` in between. -/
def Hb (x y : Nat) : Prop :=
  ∃ t t' j r req weak τ, j < R.len ∧ R.lab j = .tick t weak τ ∧ R.ev j = some (.res x r) ∧
    y < R.len ∧ R.lab y = .call t' req ∧ HB R.lab R.len (t, j + 1) (t', y)

/-- Session `t` keeps its guard from instant `i` until instant `n`. -/
def KeepsGuard (t i n : Nat) : Prop := ∀ j, i ≤ j → j < n → R.lab j ≠ .unpin t ∧ R.lab j ≠ .abort t

theorem content_eq {n : Nat} (hn : n ≤ R.len) {E : CExec cfg} (e1 : E.len = R.len) (e2 : E.st = R.absSt) : E.content n = R.content n := by
  have h := (R.rel hn).mem
  have hlive : ∀ a, Linked (R.absSt n).m a → (R.absSt n).m.deref a ≠ none := by
    intro a ha
    have := E.linked_live (n := n) (by omega) (a := a) (by rw [e2]; exact ha)
    rwa [e2] at this
  funext k
  simp only [CExec.content, content, Mem.abs]
  rw [e2, h.root]
  exact (h.sub.look k hlive _ _ (fun a ha => .root ha)).symm

theorem hb_sub {E : CExec cfg} (e1 : E.len = R.len) (e3 : E.lab = R.absLab) (e4 : E.ev = R.absEv) {x y : Nat} (h : R.Hb x y) : E.Hb x y := by
  obtain ⟨t, t', j, r, req, weak, τ, h1, h2, h3, h4, h5, h6⟩ := h
  obtain ⟨t1, q, w, τ1, w1, τ2, g1, g2, g3, g3a, g4, -⟩ := R.res h1 h3
  rw [h2] at g1
  cases g1
  refine ⟨t, t', q, r, req, w1, τ2, by omega, by rw [e3]; exact g3a, by rw [e4]; exact g4, by omega, by rw [e3]; exact R.absLab_call.mpr h5, ?_⟩
  rw [e3, e1]
  exact .trans (.po t (by omega)) (h6.relabel (fun j t t' τ h => R.absLab_sync.mpr h))

theorem fhev_inv {n i id : Nat} {o : Op K P} (hn : n ≤ R.len) (hi : i < n) {E : CExec cfg} (e1 : E.len = R.len) (e4 : E.ev = R.absEv) :
    (R.ev i).bind Event.hev = some (.inv id o) ↔ (E.ev i).bind Event.hev = some (.inv id o) := by
  constructor
  · intro h
    obtain ⟨e, h1, h2⟩ := Option.bind_eq_some_iff.mp h
    rw [hev_inv.mp h2] at h1
    rw [e4, (R.inv_iff (by omega)).mp h1]; rfl
  · intro h
    obtain ⟨e, h1, h2⟩ := Option.bind_eq_some_iff.mp h
    rw [hev_inv.mp h2, e4] at h1
    rw [(R.inv_iff (by omega)).mpr h1]; rfl

theorem fhev_res {i id : Nat} {r : Ret P} : (R.ev i).bind Event.hev = some (.res id r) ↔ R.ev i = some (.res id (.op r)) := by
  constructor
  · intro h
    obtain ⟨e, h1, h2⟩ := Option.bind_eq_some_iff.mp h
    rw [hev_res.mp h2] at h1
    exact h1
  · intro h; rw [h]; rfl

section
variable {n : Nat} (hn : n ≤ R.len) {E : CExec cfg} (e1 : E.len = R.len) (e4 : E.ev = R.absEv)
include hn e1 e4

theorem inv_history {id : Nat} {o : Op K P} : HEv.inv id o ∈ R.history n ↔ HEv.inv id o ∈ E.history n := by
  simp only [history, CExec.history, List.mem_filterMap, List.mem_range]
  constructor
  · rintro ⟨i, h1, h2⟩; exact ⟨i, h1, (R.fhev_inv hn h1 e1 e4).mp h2⟩
  · rintro ⟨i, h1, h2⟩; exact ⟨i, h1, (R.fhev_inv hn h1 e1 e4).mpr h2⟩

theorem res_history {id : Nat} {r : Ret P} (h : HEv.res id r ∈ R.history n) : HEv.res id r ∈ E.history n := by
  simp only [history, List.mem_filterMap, List.mem_range, R.fhev_res] at h
  obtain ⟨j, h1, h2⟩ := h
  obtain ⟨t, q, _, _, _, _, -, g2, -, -, g4, -⟩ := R.res (by omega) h2
  exact (E.mem_history_res (n := n) (by omega)).mpr ⟨q, by omega, by rw [e4]; exact g4⟩

theorem before_sub {a b : Nat} (h : Before (R.history n) a b) : Before (E.history n) a b := by
  obtain ⟨r, o, hs⟩ := h
  obtain ⟨i, j, h1, h2, h3, h4⟩ := pair_sublist_filterMap_range.mp hs
  obtain ⟨t, q, _, _, _, _, -, g2, -, -, g4, -⟩ := R.res (by omega) (R.fhev_res.mp h3)
  refine ⟨r, o, pair_sublist_filterMap_range.mpr ⟨q, j, by omega, h2, ?_, (R.fhev_inv hn h2 e1 e4).mp h4⟩⟩
  exact (E.hev_at_res (n := n) (by omega)).mpr (by rw [e4]; exact g4)

theorem wellFormed : WellFormed (R.history n) where
  invOnce := by
    rw [List.pairwise_iff_forall_sublist]
    intro a b hs id o o' h1 h2
    subst h1 h2
    obtain ⟨i, j, h1, h2, h3, h4⟩ := pair_sublist_filterMap_range.mp hs
    have := ((E.hev_at_inv (n := n) (by omega) (by omega)).mp ((R.fhev_inv hn (by omega) e1 e4).mp h3)).1
    have := ((E.hev_at_inv (n := n) (by omega) h2).mp ((R.fhev_inv hn h2 e1 e4).mp h4)).1
    omega
  resOnce := by
    rw [List.pairwise_iff_forall_sublist]
    intro a b hs id o o' h1 h2
    subst h1 h2
    obtain ⟨i, j, h1, h2, h3, h4⟩ := pair_sublist_filterMap_range.mp hs
    have := R.res_unique (by omega) (by omega) (R.fhev_res.mp h3) (R.fhev_res.mp h4)
    omega
  resAfter := by
    intro id r h
    have hc := R.res_history hn e1 e4 h
    obtain ⟨o, ho⟩ := (E.wellFormed (n := n) (by omega)).resAfter id r hc
    simp only [history, List.mem_filterMap, List.mem_range, R.fhev_res] at h
    obtain ⟨j, h1, h2⟩ := h
    obtain ⟨t, q, _, _, _, _, -, g2, -, -, g4, -⟩ := R.res (by omega) h2
    obtain ⟨i, i', k1, k2, k3, k4⟩ := pair_sublist_filterMap_range.mp ho
    have k4 := (E.hev_at_res (n := n) (by omega)).mp k4
    have : i' = q := E.res_unique (i := i') (j := q) (by omega) (by omega) k4 (by rw [e4]; exact g4)
    exact ⟨o, pair_sublist_filterMap_range.mpr ⟨i, j, by omega, h1, (R.fhev_inv hn (by omega) e1 e4).mpr k3, R.fhev_res.mpr h2⟩⟩

end

/-! ### Sessions and nodes -/

theorem no_failure {n : Nat} (hn : n ≤ R.len) (t : Nat) : ((R.st n).s.thr t).failed = none := by
  obtain ⟨E, e1, e2, e3, e4⟩ := R.coarse
  have hf : ((R.absSt n).thr t).failed = none := by
    have := C40_no_failure E (n := n) (by omega) t
    rwa [e2] at this
  cases hg : (R.st n).got t with
  | none => rw [← (R.rel hn).thr t hg]; exact hf
  | some x =>
    obtain ⟨w, ok, own⟩ := x
    obtain ⟨q, c, weak, τ, p0, hp, -⟩ := (R.rel hn).pend t w ok own hg
    rw [hp.thr] at hf
    cases hnx : (tick cfg ((R.absSt q).seen c.pc τ) weak c.pc).2 with
    | goto => rw [hnx] at hf; exact hf
    | ret => rw [hnx] at hf; exact hf
    | fail f => rw [hnx] at hf; cases hf

/-- What the access has found is there when the rest is done. -/
theorem found {n t : Nat} (hn : n ≤ R.len) {w : Word} {ok : Bool} {own : Option Nat} (hg : (R.st n).got t = some (w, ok, own)) {a : Nat} (ha : w.ptr = some a) :
    (R.st n).s.m.deref a ≠ none := by
  obtain ⟨E, e1, e2, e3, e4⟩ := R.coarse
  obtain ⟨q, c, weak, τ, p0, hp, -⟩ := (R.rel hn).pend t w ok own hg
  obtain ⟨mf, mf', hs⟩ := hp.split
  have hlt := hp.lt
  have hpin : ((R.absSt n).thr t).pin = some p0 := by rw [(R.rel hn).pin]; exact hp.fpin
  obtain ⟨k1, k2⟩ := E.found_kept (i := q) (n := n) (t := t) (p0 := p0) (τ := τ) (weak := weak) (c := c) (by omega) (by omega) (by omega) (by rw [e3]; exact hp.lab)
    (by rw [e2]; exact hp.run) (by rw [e2]; exact hp.pin) (by rw [e2]; exact hpin) (w := w) (by rw [e2]; exact hs.word) ha
  rw [(R.rel hn).mem.deref]
  have H := (E.cinv (n := n) (by omega)).hist
  obtain ⟨nd, hnd⟩ := Option.ne_none_iff_exists'.mp k2
  have : (E.st n).m.mem a ≠ none := by
    cases nd with
    | data l => rw [show (E.st n).m.mem a = _ from H.data (by omega) (Nat.le_refl n) hnd]; simp
    | inner c p => obtain ⟨c', h', -⟩ := H.inner (by omega) (Nat.le_refl n) hnd; rw [show (E.st n).m.mem a = _ from h']; simp
  rw [e2] at this k1
  simpa [Mem.deref, k1] using this

theorem unlinked_iff {n t a : Nat} : (R.st n).unlinked t = some a ↔ ∃ w own c, (R.st n).got t = some (w, true, own) ∧ ((R.st n).s.thr t).run = some c ∧ c.pc.unlinks = some a := by
  simp only [FCState.unlinked]
  constructor
  · intro h
    split at h
    · next w own c h1 h2 => exact ⟨w, own, c, h1, h2, h⟩
    · cases h
  · rintro ⟨w, own, c, h1, h2, h3⟩
    simp only [h1, h2, h3]

/-- What a session has unlinked and not yet handed over was retired by the coarse machine in the access. -/
theorem unlinked_retired {n t a : Nat} (hn : n ≤ R.len) (h : (R.st n).unlinked t = some a) : ∃ q weak τ, q < n ∧ R.lab q = .tick t weak τ ∧ (R.absSt q).m.retired a = none ∧
    (R.absSt (q + 1)).m.retired a ≠ none ∧ ∀ i, q < i → i ≤ n → (R.st i).got t ≠ none := by
  obtain ⟨E, e1, e2, e3, e4⟩ := R.coarse
  obtain ⟨w, own, c, h1, h2, h3⟩ := R.unlinked_iff.mp h
  obtain ⟨q, c', weak, τ, p0, hp, hbt⟩ := (R.rel hn).pend t w true own h1
  have hcc : c' = c := by have := hp.frun; rw [h2] at this; exact (Option.some.inj this).symm
  subst hcc
  have hret := Pend.retire (E := E) (EV := R.absEv) (n := n) (by omega) (by rw [e2, e3]; exact hp) rfl h3
  rw [e2] at hret
  exact ⟨q, weak, τ, hp.lt, (R.absLab_tick.mp hp.lab).1, hret.1, hret.2, hbt⟩

theorem cstep_retired {s s' : CState K P} {l : CLabel K P} {e : Option (Event K P)} (h : cstep cfg s l = some (s', e)) (hl : ∀ t weak τ, l ≠ .tick t weak τ) : s'.m.retired = s.m.retired := by
  cases l with
  | tick t weak τ => exact absurd rfl (hl t weak τ)
  | pin t => simp only [cstep] at h; split at h <;> simp only [Option.some.injEq, Prod.mk.injEq, reduceCtorEq] at h; rw [← h.1]; rfl
  | unpin t => simp only [cstep] at h; split at h <;> simp only [Option.some.injEq, Prod.mk.injEq, reduceCtorEq] at h; rw [← h.1]; rfl
  | call t r => simp only [cstep] at h; split at h <;> simp only [Option.some.injEq, Prod.mk.injEq, reduceCtorEq] at h; rw [← h.1]; rfl
  | abort t => simp only [cstep] at h; split at h <;> simp only [Option.some.injEq, Prod.mk.injEq, reduceCtorEq] at h; rw [← h.1]; rfl
  | sync t t' τ => simp only [cstep, Option.some.injEq, Prod.mk.injEq] at h; rw [← h.1]; rfl
  | free b => simp only [cstep, Option.some.injEq, Prod.mk.injEq] at h; rw [← h.1]; rfl
  | idle => simp only [cstep, Option.some.injEq, Prod.mk.injEq] at h; rw [← h.1]; rfl

/-- What has been handed over was handed over in the rest of a step, after it had been unlinked. -/
theorem retired_at {n a : Nat} (hn : n ≤ R.len) (h : (R.st n).s.m.retired a ≠ none) : ∃ r t, r < n ∧ (R.st r).unlinked t = some a ∧ (R.st (r + 1)).got t = none := by
  induction n with
  | zero => rw [R.init] at h; exact absurd rfl h
  | succ n ih =>
    by_cases h0 : (R.st n).s.m.retired a = none
    · have hs := R.step n hn
      by_cases ht : ∃ t weak τ, R.lab n = .tick t weak τ
      · obtain ⟨t, weak, τ, hl⟩ := ht
        rw [hl] at hs
        obtain ⟨c, w, own, k1, k2, k3⟩ := fcstep_retire hs h0 h
        refine ⟨n, t, Nat.lt_succ_self n, R.unlinked_iff.mpr ⟨w, own, c, k2, k1, k3⟩, ?_⟩
        rcases R.step_tick hn hl with ⟨h', -⟩ | ⟨_, _, _, _, _, _, _, _, -, -, -, -, -, h'⟩
        · rw [k2] at h'; cases h'
        · exact h'
      · exfalso
        have other : ∀ {g : Nat → Option (Word × Bool × Option Nat)}, (cstep cfg (R.st n).s (R.lab n)).map (fun r => ((⟨r.1, g⟩ : FCState K P), r.2)) = some (R.st (n + 1), R.ev n) → False := by
          intro g hs
          obtain ⟨r, h1, h2⟩ := Option.map_eq_some_iff.mp hs
          simp only [Prod.mk.injEq] at h2
          rw [← h2.1] at h
          have := cstep_retired (e := r.2) h1 (fun t weak τ e => ht ⟨t, weak, τ, e⟩)
          rw [this] at h
          exact h h0
        cases hl : R.lab n with
        | tick t weak τ => exact ht ⟨t, weak, τ, hl⟩
        | abort t =>
          rw [hl] at hs other
          simp only [fcstep] at hs
          split at hs
          · cases hs
          · exact other hs
        | _ => rw [hl] at hs other; exact other hs
    · obtain ⟨r, t, h1, h2⟩ := ih (by omega) h0
      exact ⟨r, t, by omega, h2⟩

theorem linked_coarse {n a : Nat} (hn : n ≤ R.len) (h : Linked (R.st n).s.m a) : Linked (R.absSt n).m a := by
  obtain ⟨E, e1, e2, e3, e4⟩ := R.coarse
  have hm := (R.rel hn).mem
  induction h with
  | root h => exact .root (by rw [← hm.root]; exact h)
  | @cell a b c q i _ h1 h2 ih =>
    have hd := E.linked_live (n := n) (by omega) (a := b) (by rw [e2]; exact ih)
    rw [e2] at hd
    obtain ⟨nd, hnd⟩ := Option.ne_none_iff_exists'.mp hd
    have h3 := hm.deref b
    rw [hnd] at h3
    have h4 := (deref_some.mp h3).2
    rw [h1] at h4
    injection h4 with h4
    subst h4
    exact .cell ih (deref_some.mp hnd).2 h2

theorem retired_unlinked {n r a : Nat} (hn : n ≤ R.len) (hr : r ≤ n) (h : (R.absSt r).m.retired a ≠ none) : ¬ Linked (R.st n).s.m a := by
  intro hl
  obtain ⟨E, e1, e2, e3, e4⟩ := R.coarse
  replace hl := R.linked_coarse hn hl
  have hi := (E.cinv (n := n) (by omega)).hist.inv n (Nat.le_refl n)
  have hl' : Linked (E.M n) a := by
    rw [← e2] at hl
    clear h
    induction hl with
    | root h => exact .root h
    | cell _ h1 h2 ih => exact .cell ih h1 h2
  obtain ⟨q, w, hf, hw⟩ := (linked_iff hi).mp hl'
  obtain ⟨x, hx⟩ := Option.ne_none_iff_exists'.mp h
  rw [← e2] at hx
  have := (E.cinv (n := n) (by omega)).hist.retired (x := r) (y := n) hr (Nat.le_refl n) hx
  rw [hi.live q w a hf hw] at this
  cases this

end FCExec
end Contrie
