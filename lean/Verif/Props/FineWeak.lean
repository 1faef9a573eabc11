import Verif.Proof.FineWeakObs
import Verif.Props.Synchronised
/-
C67: what users see under weak memory, and memory safety there, at the granularity of the code.

The machine is that of `Verif/Model/FineWeak.lean`: an access to shared memory, which may see an old value, and what the code does after it are separate steps, and anything can happen in between: data nodes are
read, unlinked nodes handed to the collector and results returned some time after the access.
-/
set_option linter.unusedSectionVars false
namespace Contrie
open scoped List
variable {K P : Type} [DecidableEq K] {cfg : Config K P} (R : FCExec cfg)

/-- **C67.** Every execution under weak memory at the granularity of the code is an execution of the weak memory machine with larger steps, of the same length: the content is the same at every instant, the
same calls are invoked at the same instants, every result is that of a call of the same session that has returned there in the step of its last access, a bit earlier; what happens before in the one happens
before in the other; the guards are the same at every instant, and so is the whole session whenever it is not between an access and what follows it. -/
theorem C67_refines : ∃ E : CExec cfg, E.len = R.len ∧ (∀ i, i ≤ R.len → E.content i = R.content i) ∧
    (∀ i id r, i < R.len → (E.ev i = some (.inv id r) ↔ R.ev i = some (.inv id r))) ∧
    (∀ j id r, j < R.len → R.ev j = some (.res id r) → ∃ q t weak τ weak' τ', q < j ∧ E.ev q = some (.res id r) ∧ E.lab q = .tick t weak τ ∧ R.lab q = .tick t weak τ ∧ R.lab j = .tick t weak' τ') ∧
    (∀ x y, R.Hb x y → E.Hb x y) ∧ (∀ i t, i ≤ R.len → ((E.st i).thr t).pin = ((R.st i).s.thr t).pin) ∧
    (∀ i t, i ≤ R.len → (R.st i).got t = none → (E.st i).thr t = (R.st i).s.thr t) ∧ (∀ i a, i ≤ R.len → (E.st i).m.deref a = (R.st i).s.m.deref a) := by
  obtain ⟨E, e1, e2, e3, e4⟩ := R.coarse
  refine ⟨E, e1, fun i hi => R.content_eq hi e1 e2, ?_, ?_, fun x y h => R.hb_sub e1 e3 e4 h, ?_, ?_, ?_⟩
  · intro i id r hi; rw [e4]; exact (R.inv_iff hi).symm
  · intro j id r hj h
    obtain ⟨t, q, w, τ, w', τ', g1, g2, g3, g4, g5, -⟩ := R.res hj h
    exact ⟨q, t, w', τ', w, τ, g2, by rw [e4]; exact g5, by rw [e3]; exact g4, g3, g1⟩
  · intro i t hi; rw [e2]; exact (R.rel hi).pin t
  · intro i t hi hg; rw [e2]; exact (R.rel hi).thr t hg
  · intro i a hi; rw [e2]; exact ((R.rel hi).mem.deref a).symm

/-- **C67.** What users see under weak memory (C39), at the granularity of the code: every prefix of every execution has a causal linearization that leads to the present content; `is_empty` is right at some
point of it, and so is an iteration, for every key. -/
theorem C67_causal {n : Nat} (hn : n ≤ R.len) : WellFormed (R.history n) ∧
    ∃ L, IsCausalLinearization cfg.key (R.history n) R.Hb L (R.content n) ∧
      (∀ id j, j < n → R.ev j = some (.res id (.bool true)) → Glimpse cfg.key R.Hb L id j (fun _ => True) AMap.empty) ∧
      (∀ id j out, j < n → R.ev j = some (.res id (.list out)) → ∀ k, ∃ m,
        Glimpse cfg.key R.Hb L id j (fun k' => k' = k) m ∧ out.filter (fun p => decide (cfg.key p = k)) = (m k).toList) := by
  obtain ⟨E, e1, e2, e3, e4⟩ := R.coarse
  obtain ⟨-, L, hL, h1, h2⟩ := C39_causal E (n := n) (by omega)
  have glimpse : ∀ {id q j keys m}, q < j → Glimpse cfg.key E.Hb L id q keys m → Glimpse cfg.key R.Hb L id j keys m := by
    rintro id q j keys m hq ⟨L1, L2, g1, g2, g3, g4, g5⟩
    exact ⟨L1, L2, g1, g2, fun y hy hk hb => g3 y hy hk (R.hb_sub e1 e3 e4 hb), fun x hx hk hb => g4 x hx hk (R.hb_sub e1 e3 e4 hb), fun x hx hu => by have := g5 x hx hu; omega⟩
  refine ⟨R.wellFormed hn e1 e4, L, ⟨?_, hL.once, ?_, ?_, ?_, ?_⟩, ?_, ?_⟩
  · intro x hx; exact (R.inv_history hn e1 e4).mpr (hL.invoked x hx)
  · intro id o r hi hr; exact hL.complete id o r ((R.inv_history hn e1 e4).mp hi) (R.res_history hn e1 e4 hr)
  · exact hL.realtime.imp (fun h hu hb => h hu (R.before_sub hn e1 e4 hb))
  · exact hL.causal.imp (fun h hk hb => h hk (R.hb_sub e1 e3 e4 hb))
  · rw [← R.content_eq hn e1 e2]; exact hL.legal
  · intro id j hj hr
    obtain ⟨t, q, w, τ, w', τ', -, g2, -, -, g5, -⟩ := R.res (by omega) hr
    exact glimpse g2 (h1 id q (by omega) (by rw [e4]; exact g5))
  · intro id j out hj hr k
    obtain ⟨t, q, w, τ, w', τ', -, g2, -, -, g5, -⟩ := R.res (by omega) hr
    obtain ⟨m, g6, g7⟩ := h2 id q out (by omega) (by rw [e4]; exact g5) k
    exact ⟨m, glimpse g2 g6, g7⟩

/-- **C67.** Programs that synchronise need not know about weak memory (C41), nor about the granularity of the code. -/
theorem C67_synchronised_linearizable {n : Nat} (hn : n ≤ R.len)
    (hs : ∀ x y o o', HEv.inv x o ∈ R.history n → HEv.inv y o' ∈ R.history n → o.key cfg.key = o'.key cfg.key → Before (R.history n) x y → R.Hb x y) :
    ∃ L, IsLinearization cfg.key (R.history n) L (R.content n) := by
  obtain ⟨wf, L, h, -, -⟩ := C67_causal R hn
  obtain ⟨L', -, h'⟩ := h.linearizable wf hs
  exact ⟨L', h'⟩

/-- **C67.** No call ever fails: whenever a pointer is followed, now or a while after it was loaded, and be it an old one, what the code relies on is there. -/
theorem C67_no_failure {n : Nat} (hn : n ≤ R.len) (t : Nat) : ((R.st n).s.thr t).failed = none := R.no_failure hn t

/-- **C67**, at every single access: the cell a call is about to access lies in an inner node that is not destroyed; and what the access has found is not destroyed before the call has made its next step,
however long that takes. -/
theorem C67_access {n : Nat} (hn : n ≤ R.len) {t : Nat} {c : Call K P} (hc : ((R.st n).s.thr t).run = some c) :
    ((R.st n).got t = none → ∀ a i o, c.pc.access .code = some (.slot a i, o) → ∃ cells path, (R.st n).s.m.deref a = some (.inner cells path)) ∧
    (∀ w ok own a, (R.st n).got t = some (w, ok, own) → w.ptr = some a → (R.st n).s.m.deref a ≠ none) := by
  obtain ⟨E, e1, e2, e3, e4⟩ := R.coarse
  refine ⟨fun hg a i o ha => ?_, fun w ok own a hg ha => R.found hn hg ha⟩
  obtain ⟨cells, path, h⟩ := C40_access E (n := n) (t := t) (c := c) (by omega) (by rw [e2, (R.rel hn).thr t hg]; exact hc) ha
  rw [e2] at h
  exact ⟨cells, path, by rw [(R.rel hn).mem.deref]; exact h⟩

/-- **C67.** The elements a call returns (references to) stay where they are, intact, for as long as the session keeps the guard under which it made the call. -/
theorem C67_returned_references {j id t : Nat} {r : Res P} {weak : Bool} {τ : Nat} (hj : j < R.len) (hr : R.ev j = some (.res id r))
    (hl : R.lab j = .tick t weak τ) {p : P} (hp : p ∈ r.elements) : ∃ a items, p ∈ items ∧
      ∀ n, j < n → n ≤ R.len → R.KeepsGuard t (j + 1) n → (R.st n).s.m.deref a = some (.data items) := by
  obtain ⟨E, e1, e2, e3, e4⟩ := R.coarse
  obtain ⟨t', q, w, τ1, w', τ', g1, g2, g3, g4, g5, g6, -⟩ := R.res hj hr
  rw [hl] at g1
  cases g1
  obtain ⟨a, items, h1, h2⟩ := C40_returned_references E (j := q) (id := id) (t := t) (r := r) (weak := w') (τ := τ') (by omega) (by rw [e4]; exact g5) (by rw [e3]; exact g4) hp
  refine ⟨a, items, h1, fun n hn hn' hk => ?_⟩
  have hd := h2 n (by omega) (by omega) (by
    intro i hi hi'
    have key : R.lab i ≠ .unpin t ∧ R.lab i ≠ .abort t := by
      by_cases hij : i ≤ j
      · have hgi := g6 i (by omega) hij
        have hil : i < R.len := by omega
        constructor
        · intro e
          have hs := R.step i hil
          rw [e] at hs
          simp only [fcstep, cstep] at hs
          split at hs
          · next _ hrn _ => exact hgi ((R.rel (Nat.le_of_lt hil)).idle (.inr hrn))
          · cases hs
        · intro e
          by_cases hij' : i = j
          · rw [hij', hl] at e; cases e
          · have hs := R.step i hil
            rw [e] at hs
            simp only [fcstep] at hs
            split at hs
            · cases hs
            · obtain ⟨y, -, h4⟩ := Option.map_eq_some_iff.mp hs
              simp only [Prod.mk.injEq] at h4
              refine g6 (i + 1) (by omega) (by omega) ?_
              rw [← h4.1]
              simp only [upd_same]
      · exact hk i (by omega) hi'
    rw [e3]
    constructor
    · intro e
      simp only [FCExec.absLab] at e
      cases hli : R.lab i with
      | tick t1 w1 τ1 => rw [hli] at e; simp only [FCExec.coarseLab] at e; split at e <;> cases e
      | abort t1 =>
        rw [hli] at e
        simp only [FCExec.coarseLab] at e
        split at e
        · cases e; exact key.2 hli
        · cases e
      | unpin t1 => rw [hli] at e; cases e; exact key.1 hli
      | _ => rw [hli] at e; cases e
    · intro e
      simp only [FCExec.absLab] at e
      cases hli : R.lab i with
      | tick t1 w1 τ1 => rw [hli] at e; simp only [FCExec.coarseLab] at e; split at e <;> cases e
      | abort t1 =>
        rw [hli] at e
        simp only [FCExec.coarseLab] at e
        split at e
        · cases e
        · cases e; exact key.2 hli
      | _ => rw [hli] at e; cases e)
  rw [e2] at hd
  rw [(R.rel hn').mem.deref]
  exact hd

/-- **C67.** What has been unlinked and not yet handed to the collector: it is not reachable from the root, not destroyed and not (twice) handed over, and exactly one session is about to hand it over. -/
theorem C67_unlinked {n t a : Nat} (hn : n ≤ R.len) (h : (R.st n).unlinked t = some a) : ¬ Linked (R.st n).s.m a ∧ (R.st n).s.m.deref a ≠ none ∧ (R.st n).s.m.retired a = none ∧
    ∀ t', (R.st n).unlinked t' = some a → t' = t := by
  obtain ⟨E, e1, e2, e3, e4⟩ := R.coarse
  obtain ⟨q, weak, τ, h1, h2, h3, h4, h5⟩ := R.unlinked_retired hn h
  -- a node is retired once
  have once : ∀ {q q'}, q < R.len → q' < R.len → (R.absSt q).m.retired a = none → (R.absSt (q + 1)).m.retired a ≠ none → (R.absSt q').m.retired a = none →
      (R.absSt (q' + 1)).m.retired a ≠ none → ¬ q < q' := by
    intro q q' k1 k1' k2 k3 k2' k3' hlt
    obtain ⟨x, hx⟩ := Option.ne_none_iff_exists'.mp k3
    rw [← e2] at hx
    have := (E.cinv (n := q') (by omega)).hist.retired (x := q + 1) (y := q') hlt (Nat.le_refl _) hx
    rw [show (E.M q').retired a = (E.st q').m.retired a from rfl, e2, k2'] at this
    cases this
  have same : ∀ {n' t'}, n' ≤ R.len → (R.st n').unlinked t' = some a → ∃ q', q' < n' ∧ q' = q ∧ t' = t ∧ ∀ i, q' < i → i ≤ n' → (R.st i).got t' ≠ none := by
    intro n' t' hn' h'
    obtain ⟨q', weak', τ', h1', h2', h3', h4', h5'⟩ := R.unlinked_retired hn' h'
    have hq : q' = q := by
      have a1 := once (q := q) (q' := q') (by omega) (by omega) h3 h4 h3' h4'
      have a2 := once (q := q') (q' := q) (by omega) (by omega) h3' h4' h3 h4
      omega
    refine ⟨q', h1', hq, ?_, h5'⟩
    subst hq
    rw [h2] at h2'
    cases h2'
    rfl
  refine ⟨R.retired_unlinked hn (show q + 1 ≤ n by omega) h4, ?_, ?_, ?_⟩
  · -- destroyed only after it was handed over
    obtain ⟨w, own, c, k1, k2, k3⟩ := R.unlinked_iff.mp h
    obtain ⟨q1, c', weak', τ', p0, hp, -⟩ := (R.rel hn).pend t w true own k1
    have hcc : c' = c := by have := hp.frun; rw [k2] at this; exact (Option.some.inj this).symm
    subst hcc
    obtain ⟨mf, mf', hs⟩ := hp.split
    have hw : w.ptr = some a := by
      have hacc := hs.acc
      simp only [PC.fineAccess] at hacc
      cases hpc : c'.pc with
      | travCas st hash mode shift cur parent node new kind =>
        rw [hpc] at hacc k3
        cases kind with
        | replace _ =>
          simp only [PC.unlinks] at k3
          simp only [PC.access] at hacc
          split at hacc
          · cases hacc
          · next w1 _ =>
            split at hacc
            · next hst =>
              simp only [Option.some.injEq, Prod.mk.injEq] at hacc
              rw [← hacc.2.1]
              simp only [PC.storesIf, Bool.and_eq_true, decide_eq_true_eq, beq_iff_eq] at hst
              rw [hst.1]; exact k3
            · simp at hacc
        | _ => simp [PC.unlinks] at k3
      | remCas k shift cur lv node new del =>
        rw [hpc] at hacc k3
        simp only [PC.unlinks] at k3
        simp only [PC.access] at hacc
        split at hacc
        · cases hacc
        · next w1 _ =>
          split at hacc
          · next hst =>
            simp only [Option.some.injEq, Prod.mk.injEq] at hacc
            rw [← hacc.2.1]
            simp only [PC.storesIf, Bool.and_eq_true, decide_eq_true_eq, beq_iff_eq] at hst
            rw [hst.1]; exact k3
          · simp at hacc
      | pruneCas parent child acc k =>
        rw [hpc] at hacc k3
        simp only [PC.unlinks] at k3
        simp only [PC.access] at hacc
        split at hacc
        · cases hacc
        · next w1 _ =>
          split at hacc
          · next hst =>
            simp only [Option.some.injEq, Prod.mk.injEq] at hacc
            rw [← hacc.2.1]
            simp only [PC.storesIf, Bool.and_eq_true, decide_eq_true_eq, beq_iff_eq] at hst
            rw [hst]; exact k3
          · simp at hacc
      | _ => rw [hpc] at k3; simp [PC.unlinks] at k3
    exact R.found hn k1 hw
  · apply Classical.byContradiction
    intro hr
    obtain ⟨r, t', g1, g2, g3⟩ := R.retired_at hn hr
    obtain ⟨q', k1, k2, k3, k4⟩ := same (n' := r) (t' := t') (by omega) g2
    subst k2 k3
    exact h5 (r + 1) (by omega) (by omega) g3
  · intro t' h'
    obtain ⟨q', -, -, k3, -⟩ := same hn h'
    exact k3

/-- **C67.** A call in progress can always make its next step: the access, of which it may always see the present value, or what follows it. -/
theorem C67_never_blocked {n t : Nat} {c : Call K P} (hn : n ≤ R.len) (hc : ((R.st n).s.thr t).run = some c) (weak : Bool) :
    (fcstep cfg (R.st n) (.tick t weak n)).isSome ∧ (CLabel.tick t weak n : CLabel K P).fenabled (R.st n) := by
  constructor
  · simp only [fcstep, hc]
    split
    · split <;> rfl
    · rfl
  · exact .inr (.inl (R.clock hn).symm)

/-! ### Example -/

/-- State after `i` steps of a concrete run. -/
def fcStAt (cfg : Config K P) (ls : List (CLabel K P)) : Nat → FCState K P
  | 0 => FCState.init
  | i + 1 => match fcstep cfg (fcStAt cfg ls i) (ls.getD i .idle) with
    | some (s, _) => s
    | none => fcStAt cfg ls i

/-- What is observable of step `i` of a concrete run. -/
def fcEvAt (cfg : Config K P) (ls : List (CLabel K P)) (i : Nat) : Option (Event K P) :=
  match fcstep cfg (fcStAt cfg ls i) (ls.getD i .idle) with
  | some (_, e) => e
  | none => none

def CLabel.fenabledb (f : FCState K P) (l : CLabel K P) : Bool :=
  match l with
  | .tick t _ _ => (f.got t).isSome || l.enabledb f.s
  | l => l.enabledb f.s

theorem fenabled_of_check {f : FCState K P} {l : CLabel K P} (h : l.fenabledb f = true) : l.fenabled f := by
  cases l with
  | tick t weak τ =>
    simp only [CLabel.fenabledb, Bool.or_eq_true] at h
    rcases h with h | h
    · refine .inl ?_
      intro e; rw [e] at h; cases h
    · exact .inr (enabled_of_check h)
  | sync t t' τ => exact enabled_of_check (l := .sync t t' τ) h
  | _ => trivial

/-- Check of a concrete run, from state `s` on. -/
def fcRunOKb (cfg : Config K P) : FCState K P → List (CLabel K P) → Bool
  | _, [] => true
  | s, l :: ls => l.fenabledb s && l.wfb cfg && match fcstep cfg s l with
    | none => false
    | some (s', _) => fcRunOKb cfg s' ls

theorem fcRun_check {cfg : Config K P} {ls : List (CLabel K P)} : ∀ {l1 l2 : List (CLabel K P)}, ls = l1 ++ l2 →
    fcRunOKb cfg (fcStAt cfg ls l1.length) l2 = true → ∀ i, l1.length ≤ i → i < ls.length →
    (ls.getD i .idle).fenabledb (fcStAt cfg ls i) = true ∧ (ls.getD i .idle).wfb cfg = true ∧ (fcstep cfg (fcStAt cfg ls i) (ls.getD i .idle)).isSome = true := by
  intro l1 l2
  induction l2 generalizing l1 with
  | nil =>
    intro hl _ i h1 h2
    simp only [List.append_nil] at hl
    subst hl
    omega
  | cons l l2 ih =>
    intro hl h i h1 h2
    have hget : ls.getD l1.length .idle = l := by rw [hl]; simp
    simp only [fcRunOKb, Bool.and_eq_true] at h
    obtain ⟨⟨h3, h4⟩, h5⟩ := h
    split at h5
    · cases h5
    · next s' e he =>
      by_cases e1 : i = l1.length
      · subst e1
        rw [hget, he]
        exact ⟨h3, h4, rfl⟩
      · refine ih (l1 := l1 ++ [l]) (by rw [hl]; simp) ?_ i (by simp; omega) h2
        have : fcStAt cfg ls (l1 ++ [l]).length = s' := by
          simp only [List.length_append, List.length_cons, List.length_nil, Nat.zero_add, fcStAt, hget, he]
        rw [this]; exact h5

theorem fcstep_thread {cfg : Config K P} {f f' : FCState K P} {l : CLabel K P} {e : Option (Event K P)} (h : fcstep cfg f l = some (f', e)) {t : Nat} (ht : l.thread ≠ some t) :
    f'.s.thr t = f.s.thr t := by
  have other : ∀ {g : Nat → Option (Word × Bool × Option Nat)}, (cstep cfg f.s l).map (fun r => ((⟨r.1, g⟩ : FCState K P), r.2)) = some (f', e) → f'.s.thr t = f.s.thr t := by
    intro g h
    obtain ⟨r, h1, h2⟩ := Option.map_eq_some_iff.mp h
    simp only [Prod.mk.injEq] at h2
    rw [← h2.1]
    exact cstep_thread (e := r.2) h1 ht
  cases l with
  | tick t0 weak τ =>
    have hne : t ≠ t0 := by intro e; exact ht (by rw [e]; rfl)
    simp only [fcstep] at h
    split at h
    · cases h
    · split at h
      · split at h <;> simp only [Option.some.injEq, Prod.mk.injEq] at h <;> rw [← h.1] <;> exact upd_other _ _ hne
      · simp only [Option.some.injEq, Prod.mk.injEq] at h
        rw [← h.1]; exact upd_other _ _ hne
  | abort t0 =>
    simp only [fcstep] at h
    split at h
    · cases h
    · exact other h
  | _ => exact other h

/-- Session 0 inserts (7, 1). Session 1 learns of it and looks 7 up: it loads the root; then session 0 overwrites the element by (7, 2) in a compare-and-set; then session 1 reads the node it has found, which is
unlinked, but not yet handed over, and returns (7, 1); then session 0 hands it over and returns. Both release their guards, the node is destroyed; session 1 learns what session 0 has done, pins itself again,
and finds (7, 2). -/
def exFineWeakRun : List (CLabel Nat (Nat × Nat)) :=
  [.pin 0, .call 0 (.op (.insert (7, 1))), .tick 0 false 2, .tick 0 false 3, .tick 0 false 4, .tick 0 false 5, .sync 1 0 6, .pin 1, .call 1 (.op (.get 7)), .tick 1 false 9,
   .call 0 (.op (.insert (7, 2))), .tick 0 false 11, .tick 0 false 12, .tick 0 false 13, .tick 1 false 0, .tick 0 false 0, .unpin 1, .unpin 0, .free 0,
   .sync 1 0 19, .pin 1, .call 1 (.op (.get 7)), .tick 1 false 22, .tick 1 false 0]

theorem exFineWeak_check : fcRunOKb exCfg FCState.init exFineWeakRun = true := by decide

theorem exFineWeak_thread (t : Nat) (ht : 2 ≤ t) : ∀ i, i ≤ 24 → (fcStAt exCfg exFineWeakRun i).s.thr t = CThread.init := by
  intro i
  induction i with
  | zero => intro _; rfl
  | succ i ih =>
    intro hi
    simp only [fcStAt]
    split
    · next s e he =>
      rw [fcstep_thread he ?_]
      · exact ih (by omega)
      · intro hth
        have hmem : ∀ l ∈ exFineWeakRun, ∀ t, l.thread = some t → t < 2 := by
          intro l hl t h
          simp only [exFineWeakRun, List.mem_cons, List.not_mem_nil, or_false] at hl
          rcases hl with rfl | rfl | rfl | rfl | rfl | rfl | rfl | rfl | rfl | rfl | rfl | rfl | rfl | rfl | rfl | rfl | rfl | rfl | rfl | rfl | rfl | rfl | rfl | rfl <;>
            simp only [CLabel.thread, Option.some.injEq, reduceCtorEq] at h <;> omega
        have hl : i < exFineWeakRun.length := by show i < 24; omega
        have := hmem (exFineWeakRun.getD i .idle) (by
          rw [List.getD_eq_getElem?_getD, List.getElem?_eq_getElem hl]
          exact List.getElem_mem hl) t hth
        omega
    · exact ih (by omega)

def exFineWeak : FCExec exCfg where
  len := 24
  st := fcStAt exCfg exFineWeakRun
  lab := fun i => exFineWeakRun.getD i .idle
  ev := fcEvAt exCfg exFineWeakRun
  init := rfl
  step := by
    intro i hi
    obtain ⟨-, -, h3⟩ := fcRun_check (ls := exFineWeakRun) (l1 := []) (l2 := exFineWeakRun) rfl exFineWeak_check i (Nat.zero_le _) hi
    cases he : fcstep exCfg (fcStAt exCfg exFineWeakRun i) (exFineWeakRun.getD i .idle) with
    | none => rw [he] at h3; cases h3
    | some x => simp only [fcStAt, fcEvAt, he]
  enabled := fun i hi => fenabled_of_check (fcRun_check (ls := exFineWeakRun) (l1 := []) (l2 := exFineWeakRun) rfl exFineWeak_check i (Nat.zero_le _) hi).1
  wf := fun i hi => wf_of_check (fcRun_check (ls := exFineWeakRun) (l1 := []) (l2 := exFineWeakRun) rfl exFineWeak_check i (Nat.zero_le _) hi).2.1
  gc := by
    intro i a hi e
    have hia : i = 18 ∧ a = 0 := by
      match i, hi with
      | 18, _ => injection e with e; exact ⟨rfl, e.symm⟩
      | 0, _ | 1, _ | 2, _ | 3, _ | 4, _ | 5, _ | 6, _ | 7, _ | 8, _ | 9, _ | 10, _ | 11, _ | 12, _ | 13, _ | 14, _ | 15, _ | 16, _ | 17, _ | 19, _ | 20, _ | 21, _ | 22, _ | 23, _ => cases e
    obtain ⟨rfl, rfl⟩ := hia
    refine ⟨15, 0, false, 0, by decide, rfl, by decide, by decide, ?_⟩
    intro j t p h1 h2 hp
    have hj : j = 18 ∨ j = 19 ∨ j = 20 ∨ j = 21 ∨ j = 22 ∨ j = 23 ∨ j = 24 := by omega
    have hN : t = 0 ∨ t = 1 ∨ 2 ≤ t := by omega
    rcases hN with rfl | rfl | ht
    · exfalso
      rcases hj with rfl | rfl | rfl | rfl | rfl | rfl | rfl <;> cases hp
    · have : p = 20 := by
        rcases hj with rfl | rfl | rfl | rfl | rfl | rfl | rfl <;> first | (injection hp with hp; exact hp.symm) | cases hp
      subst this
      exact .trans (.po 0 (by decide : 16 ≤ 19)) (.trans (.sync (t := 1) (t' := 0) (τ := 19) (j := 19) (by decide) rfl) (.po 1 (by decide : 20 ≤ 21)))
    · exfalso
      rw [exFineWeak_thread t ht j h2] at hp
      cases hp

/-- The first lookup reads a node that is unlinked and not handed over yet; it is handed over, and destroyed. -/
example : (exFineWeak.st 14).unlinked 0 = some 0 ∧ exFineWeak.ev 14 = some (.res 8 (.op (.opt (some (7, 1))))) ∧ (exFineWeak.st 15).s.m.retired 0 = none ∧
    exFineWeak.ev 15 = some (.res 10 (.op (.opt (some (7, 1))))) ∧ (exFineWeak.st 16).s.m.retired 0 ≠ none ∧ (exFineWeak.st 19).s.m.deref 0 = none ∧
    exFineWeak.ev 23 = some (.res 21 (.op (.opt (some (7, 2))))) := by
  refine ⟨rfl, rfl, rfl, rfl, ?_, rfl, rfl⟩
  decide

/-- Non-vacuity of C67_unlinked. -/
example : ¬ Linked (exFineWeak.st 15).s.m 0 ∧ (exFineWeak.st 15).s.m.deref 0 ≠ none ∧ (exFineWeak.st 15).s.m.retired 0 = none ∧ ∀ t', (exFineWeak.st 15).unlinked t' = some 0 → t' = 0 :=
  C67_unlinked exFineWeak (n := 15) (t := 0) (by decide) rfl

/-- Non-vacuity of C67_returned_references. -/
example : ∃ a items, (7, 1) ∈ items ∧ ∀ n, 14 < n → n ≤ 24 → exFineWeak.KeepsGuard 1 15 n → (exFineWeak.st n).s.m.deref a = some (.data items) :=
  C67_returned_references exFineWeak (j := 14) (id := 8) (t := 1) (weak := false) (τ := 0) (by decide) rfl rfl (List.mem_singleton.mpr rfl)

/-- A call may not be abandoned while it has a node to hand over: there is no place in the code between the two where it could unwind. -/
example : fcstep exCfg (exFineWeak.st 14) (.abort 0) = none := by rfl

/-- The history, with the results when they are returned. -/
theorem exFineWeak_history : exFineWeak.history 24 = [.inv 1 (.insert (7, 1)), .res 1 (.opt none), .inv 8 (.get 7), .inv 10 (.insert (7, 2)), .res 8 (.opt (some (7, 1))),
    .res 10 (.opt (some (7, 1))), .inv 21 (.get 7), .res 21 (.opt (some (7, 2)))] := rfl

/-- Non-vacuity of C67_synchronised_linearizable: calls that do not overlap are synchronised. -/
example : ∃ L, IsLinearization exCfg.key (exFineWeak.history 24) L (exFineWeak.content 24) := by
  refine C67_synchronised_linearizable exFineWeak (n := 24) (by decide) ?_
  intro x y o o' hx hy _ hb
  have h01 : HB exFineWeak.lab exFineWeak.len (0, 6) (1, 8) := .trans (.sync (t := 1) (t' := 0) (τ := 6) (j := 6) (by decide) rfl) (.po 1 (by decide : 7 ≤ 8))
  have h1021 : HB exFineWeak.lab exFineWeak.len (0, 16) (1, 21) :=
    .trans (.po 0 (by decide : 16 ≤ 19)) (.trans (.sync (t := 1) (t' := 0) (τ := 19) (j := 19) (by decide) rfl) (.po 1 (by decide : 20 ≤ 21)))
  have e18 : exFineWeak.Hb 1 8 := ⟨0, 1, 5, _, _, false, 5, by decide, rfl, rfl, by decide, rfl, h01⟩
  have e110 : exFineWeak.Hb 1 10 := ⟨0, 0, 5, _, _, false, 5, by decide, rfl, rfl, by decide, rfl, .po 0 (by decide)⟩
  have e121 : exFineWeak.Hb 1 21 := ⟨0, 1, 5, _, _, false, 5, by decide, rfl, rfl, by decide, rfl, .trans h01 (.po 1 (by decide))⟩
  have e821 : exFineWeak.Hb 8 21 := ⟨1, 1, 14, _, _, false, 0, by decide, rfl, rfl, by decide, rfl, .po 1 (by decide)⟩
  have e1021 : exFineWeak.Hb 10 21 := ⟨0, 1, 15, _, _, false, 0, by decide, rfl, rfl, by decide, rfl, h1021⟩
  have hbef : ∀ a b, Before (exFineWeak.history 24) a b → a = 1 ∧ (b = 8 ∨ b = 10 ∨ b = 21) ∨ (a = 8 ∨ a = 10) ∧ b = 21 := by
    rintro a b ⟨r, o, hs⟩
    obtain ⟨i, j, h1, h2, h3, h4⟩ := pair_sublist_filterMap_range.mp hs
    have ha : i = 5 ∧ a = 1 ∨ i = 14 ∧ a = 8 ∨ i = 15 ∧ a = 10 ∨ i = 23 ∧ a = 21 := by
      match i, (show i < 24 by omega) with
      | 5, _ => cases h3; exact .inl ⟨rfl, rfl⟩
      | 14, _ => cases h3; exact .inr (.inl ⟨rfl, rfl⟩)
      | 15, _ => cases h3; exact .inr (.inr (.inl ⟨rfl, rfl⟩))
      | 23, _ => cases h3; exact .inr (.inr (.inr ⟨rfl, rfl⟩))
      | 0, _ | 1, _ | 2, _ | 3, _ | 4, _ | 6, _ | 7, _ | 8, _ | 9, _ | 10, _ | 11, _ | 12, _ | 13, _ | 16, _ | 17, _ | 18, _ | 19, _ | 20, _ | 21, _ | 22, _ => cases h3
    have hb : j = 1 ∧ b = 1 ∨ j = 8 ∧ b = 8 ∨ j = 10 ∧ b = 10 ∨ j = 21 ∧ b = 21 := by
      match j, h2 with
      | 1, _ => cases h4; exact .inl ⟨rfl, rfl⟩
      | 8, _ => cases h4; exact .inr (.inl ⟨rfl, rfl⟩)
      | 10, _ => cases h4; exact .inr (.inr (.inl ⟨rfl, rfl⟩))
      | 21, _ => cases h4; exact .inr (.inr (.inr ⟨rfl, rfl⟩))
      | 0, _ | 2, _ | 3, _ | 4, _ | 5, _ | 6, _ | 7, _ | 9, _ | 11, _ | 12, _ | 13, _ | 14, _ | 15, _ | 16, _ | 17, _ | 18, _ | 19, _ | 20, _ | 22, _ | 23, _ => cases h4
    omega
  rcases hbef x y hb with ⟨rfl, rfl | rfl | rfl⟩ | ⟨rfl | rfl, rfl⟩
  · exact e18
  · exact e110
  · exact e121
  · exact e821
  · exact e1021

end Contrie
