import Verif.Model.Lifetimes
import Verif.Props.Wild
/-
For C68: what `insert` and `remove` return references to has been retired.
-/
set_option linter.unusedSectionVars false
namespace Contrie
variable {K P : Type}

/-- What `prune` goes on with belongs to an `insert`. -/
def Cont.OfInsert : Cont K P → Prop
  | .trav _ _ mode => mode = .overwrite
  | _ => False

/-- The call is an `insert`. -/
def PC.OfInsert : PC K P → Prop
  | .trav _ _ mode _ _ _ => mode = .overwrite
  | .travCas _ _ mode _ _ _ _ _ _ => mode = .overwrite
  | .prune _ _ _ _ k => k.OfInsert
  | .pruneCas _ _ _ k => k.OfInsert
  | _ => False

/-- What `prune` goes on with belongs to a `remove`; what it has removed is retired. -/
def Cont.OfRemove (ret : Nat → Option Nat) : Cont K P → Prop
  | .rem _ => True
  | .clean _ ref _ => ret ref ≠ none
  | _ => False

/-- The call is a `remove`; what it has removed is retired. -/
def PC.OfRemove (ret : Nat → Option Nat) : PC K P → Prop
  | .rem _ _ _ _ => True
  | .remCas _ _ _ _ _ _ _ => True
  | .count _ ref _ _ _ _ _ => ret ref ≠ none
  | .prune _ _ _ _ k => k.OfRemove ret
  | .pruneCas _ _ _ k => k.OfRemove ret
  | _ => False

def Next.OfInsert (ret : Nat → Option Nat) : Next K P → Prop
  | .goto pc _ => pc.OfInsert
  | .ret _ refs => ∀ a ∈ refs, ret a ≠ none
  | .fail _ => True

def Next.OfRemove (ret : Nat → Option Nat) : Next K P → Prop
  | .goto pc _ => pc.OfRemove ret
  | .ret _ refs => ∀ a ∈ refs, ret a ≠ none
  | .fail _ => True

theorem enterPrune_ofInsert {ret : Nat → Option Nat} (p : Loc) (child : Word) {k : Cont K P} (h : k.OfInsert) : (enterPrune p child k).OfInsert ret := by
  simp only [enterPrune]
  split
  · trivial
  · split
    · trivial
    · exact h

theorem enterPrune_ofRemove {ret : Nat → Option Nat} (p : Loc) (child : Word) {k : Cont K P} (h : k.OfRemove ret) : (enterPrune p child k).OfRemove ret := by
  simp only [enterPrune]
  split
  · trivial
  · split
    · trivial
    · exact h

theorem enterClean_ofRemove {ret : Nat → Option Nat} (d : P) {ref : Nat} (h : ret ref ≠ none) (l : List (Loc × Word)) : (enterClean d ref l : Next K P).OfRemove ret := by
  cases l with
  | nil => intro a ha; simp only [List.mem_singleton] at ha; subst ha; exact h
  | cons x l =>
    obtain ⟨p, child⟩ := x
    simp only [enterClean]
    split
    · trivial
    · exact h

theorem afterPrune_ofInsert {ret : Nat → Option Nat} (r : PruneResult) {k : Cont K P} (h : k.OfInsert) : (afterPrune r k).OfInsert ret := by
  cases k with
  | trav st hash mode => exact h
  | rem key => exact h.elim
  | clean d ref rest => exact h.elim

theorem afterPrune_ofRemove {ret : Nat → Option Nat} (r : PruneResult) {k : Cont K P} (h : k.OfRemove ret) : (afterPrune r k).OfRemove ret := by
  cases k with
  | trav st hash mode => exact h.elim
  | rem key => trivial
  | clean d ref rest =>
    simp only [afterPrune]
    split
    · intro a ha; simp only [List.mem_singleton] at ha; subst ha; exact h
    · exact enterClean_ofRemove d h rest

theorem retire_self (m : Mem P) (a : Nat) : (m.retire a).retired a ≠ none := by
  simp [Mem.retire]

theorem hTick_ofInsert (o : Answers P) (m : Mem P) (weak : Bool) {pc : PC K P} (h : pc.OfInsert) :
    (hTick o m weak pc).2.OfInsert (hTick o m weak pc).1.retired := by
  cases pc with
  | trav st hash mode shift cur parent =>
    have h' : mode = .overwrite := h
    subst h'
    simp only [hTick, hTickTrav]
    split
    · trivial
    · split
      · split
        · trivial
        · exact enterPrune_ofInsert _ _ rfl
      · split
        · rfl
        · split
          · split
            · trivial
            · trivial
            · split
              · split
                · trivial
                · rfl
              · simp only [or_true, if_true]; rfl
          · split
            · trivial
            · rfl
  | travCas st hash mode shift cur parent node new kind =>
    have h' : mode = .overwrite := h
    subst h'
    simp only [hTick, tickTravCas]
    split
    · trivial
    · split
      · cases kind with
        | split => rfl
        | fresh => simp [finishTrav, Next.OfInsert]
        | replace found =>
          dsimp only
          split
          · trivial
          · split
            · trivial
            · cases found with
              | none => simp [finishTrav, Next.OfInsert]
              | some e =>
                dsimp only [finishTrav]
                intro a ha
                simp only [List.mem_singleton] at ha
                subst ha
                exact retire_self _ _
      · rfl
  | prune parent child i acc k =>
    simp only [hTick, tickPrune]
    split
    · trivial
    · split
      · trivial
      · split
        · trivial
        · split
          · exact h
          · split
            · trivial
            · exact h
  | pruneCas parent child acc k =>
    simp only [hTick, tickPruneCas]
    split
    · trivial
    · split
      · split
        · exact afterPrune_ofInsert _ h
        · exact afterPrune_ofInsert _ h
      · trivial
  | _ => exact h.elim

/-- Retirements are not taken back. -/
theorem Cont.OfRemove.mono {r r' : Nat → Option Nat} (hr : ∀ a, r a ≠ none → r' a ≠ none) {k : Cont K P} (h : k.OfRemove r) : k.OfRemove r' := by
  cases k with
  | clean d ref rest => exact hr _ h
  | rem key => trivial
  | trav => exact h

theorem PC.OfRemove.mono {r r' : Nat → Option Nat} (hr : ∀ a, r a ≠ none → r' a ≠ none) {pc : PC K P} (h : pc.OfRemove r) : pc.OfRemove r' := by
  cases pc with
  | rem => trivial
  | remCas => trivial
  | count d ref p c rest i cnt => exact hr _ h
  | prune p c i acc k => exact Cont.OfRemove.mono hr h
  | pruneCas p c acc k => exact Cont.OfRemove.mono hr h
  | _ => exact h.elim

theorem hTick_ofRemove (o : Answers P) (m : Mem P) (weak : Bool) {pc : PC K P} (h : pc.OfRemove m.retired) :
    (hTick o m weak pc).2.OfRemove (hTick o m weak pc).1.retired := by
  cases pc with
  | rem key shift cur levels =>
    simp only [hTick, hTickRem]
    split
    · trivial
    · split
      · intro a ha; cases ha
      · split
        · split
          · trivial
          · exact enterPrune_ofRemove _ _ trivial
        · split
          · split
            · trivial
            · split
              · intro a ha; cases ha
              · trivial
          · split
            · trivial
            · split
              · trivial
              · trivial
  | remCas key shift cur levels node new deleted =>
    simp only [hTick, tickRemCas]
    split
    · trivial
    · split
      · split
        · trivial
        · split
          · trivial
          · exact enterClean_ofRemove _ (retire_self _ _) _
      · trivial
  | count d ref p c rest i cnt =>
    have h' : m.retired ref ≠ none := h
    simp only [hTick, tickCount]
    split
    · trivial
    · split
      · trivial
      · split
        · exact h'
        · have fin : ∀ x : Nat, (if 1 < x then Next.ret (Res.op (Ret.opt (some d))) [ref] else enterPrune p c (Cont.clean d ref rest) : Next K P).OfRemove m.retired := by
            intro x
            split
            · intro a ha; simp only [List.mem_singleton] at ha; subst ha; exact h'
            · exact enterPrune_ofRemove _ _ (show m.retired ref ≠ none from h')
          exact fin _
  | prune parent child i acc k =>
    have hw : ∀ w l, (m.write w l).retired = m.retired := by
      intro w l
      cases l <;> simp only [Mem.write]
      split <;> rfl
    simp only [hTick, tickPrune]
    split
    · trivial
    · split
      · trivial
      · split
        · trivial
        · split
          · simp only [hw]; exact h
          · split
            · trivial
            · simp only [hw]; exact h
  | pruneCas parent child acc k =>
    have hw : ∀ (m : Mem P) w l, (m.write w l).retired = m.retired := by
      intro m w l
      cases l <;> simp only [Mem.write]
      split <;> rfl
    simp only [hTick, tickPruneCas]
    split
    · trivial
    · split
      · split
        · refine afterPrune_ofRemove _ (Cont.OfRemove.mono ?_ h)
          intro a ha
          simp only [Mem.retire]
          split
          all_goals
            simp only [hw, upd]
            split
            · simp
            · exact ha
        · exact afterPrune_ofRemove _ h
      · trivial
  | _ => exact h.elim

namespace WExec
variable [DecidableEq K] (E : WExec K P)

variable {E} in
theorem Did.retires {n t : Nat} {weak : Bool} {τ : Nat} {c : Call K P} {nx : Next K P} (d : E.Did n t weak τ c nx) :
    ∃ mx, nx = (hTick (E.ans n) mx weak c.pc).2 ∧ mx.retired = (E.M n).retired ∧ (E.M (n + 1)).retired = (hTick (E.ans n) mx weak c.pc).1.retired := by
  have hw : ∀ (m : Mem P) w l, (m.write w l).retired = m.retired := by
    intro m w l
    cases l <;> simp only [Mem.write]
    split <;> rfl
  cases d with
  | store ℓ o p w σ ha hτ hwr hnx hm hv hread hch hl => exact ⟨_, hnx, rfl, by rw [hm]; rfl⟩
  | load ℓ o p w mw σ ha hτ hwr hnx hm hs hloc hl hmw hrd =>
    refine ⟨_, hnx, by rw [hmw, hw], ?_⟩
    rw [hTick_quiet _ _ _ hwr, hm, hmw, hw]
    rfl
  | silent ha hnx hm hq => exact ⟨_, hnx, rfl, by rw [hm, hq]; rfl⟩

/-- Where a call in progress comes from. -/
theorem run_from {n t : Nat} (hn : n < E.len) {c' : Call K P} (h : ((E.st (n + 1)).thr t).run = some c') :
    ((E.st n).thr t).run = some c' ∨ (∃ hh, c'.pc = hStartPC hh c'.req) ∨
    ∃ weak τ c ran, E.lab n = .tick t weak τ ∧ ((E.st n).thr t).run = some c ∧ c'.req = c.req ∧
      (hTick (E.ans n) ((E.st n).seen c.pc τ) weak c.pc).2 = .goto c'.pc ran := by
  have hs := E.step n hn
  cases hl : E.lab n with
  | tick t0 weak τ =>
    rw [hl] at hs
    cases hc : ((E.st n).thr t0).run with
    | none => simp only [wstep, hc] at hs; cases hs
    | some c =>
      simp only [wstep, hc, Option.some.injEq, Prod.mk.injEq] at hs
      by_cases e : t = t0
      · subst e
        rw [← hs.1] at h
        simp only [CState.next, upd_same] at h
        cases hx : (hTick (E.ans n) ((E.st n).seen c.pc τ) weak c.pc).2 with
        | fail f =>
          rw [hx] at h
          cases f with
          | shallowCollision => cases h
          | _ => simp only [CThread.wapply, CThread.apply] at h; cases h
        | ret r refs => rw [hx] at h; cases h
        | goto pc ran =>
          rw [hx] at h
          simp only [CThread.wapply, CThread.apply, Option.some.injEq] at h
          subst h
          exact Or.inr (Or.inr ⟨weak, τ, c, ran, rfl, hc, rfl, hx⟩)
      · rw [← hs.1] at h
        simp only [CState.next] at h
        rw [upd_other _ _ e] at h
        exact Or.inl h
  | pin t0 =>
    rw [hl] at hs
    simp only [wstep] at hs
    split at hs
    · simp only [Option.some.injEq, Prod.mk.injEq] at hs
      rw [← hs.1] at h
      simp only [CState.next] at h
      by_cases e : t = t0
      · subst e; rw [upd_same] at h; exact Or.inl h
      · rw [upd_other _ _ e] at h; exact Or.inl h
    · cases hs
  | unpin t0 =>
    rw [hl] at hs
    simp only [wstep] at hs
    split at hs
    · simp only [Option.some.injEq, Prod.mk.injEq] at hs
      rw [← hs.1] at h
      simp only [CState.next] at h
      by_cases e : t = t0
      · subst e; rw [upd_same] at h; exact Or.inl h
      · rw [upd_other _ _ e] at h; exact Or.inl h
    · cases hs
  | call t0 r =>
    rw [hl] at hs
    simp only [wstep] at hs
    split at hs
    · simp only [Option.some.injEq, Prod.mk.injEq] at hs
      rw [← hs.1] at h
      simp only [CState.next] at h
      by_cases e : t = t0
      · subst e
        rw [upd_same] at h
        simp only [Option.some.injEq] at h
        subst h
        exact Or.inr (Or.inl ⟨_, rfl⟩)
      · rw [upd_other _ _ e] at h; exact Or.inl h
    · cases hs
  | abort t0 =>
    rw [hl] at hs
    simp only [wstep] at hs
    split at hs
    · cases hs
    · simp only [Option.some.injEq, Prod.mk.injEq] at hs
      rw [← hs.1] at h
      simp only [CState.next] at h
      by_cases e : t = t0
      · subst e; rw [upd_same] at h; cases h
      · rw [upd_other _ _ e] at h; exact Or.inl h
  | sync t0 t2 τ =>
    rw [hl] at hs
    simp only [wstep, Option.some.injEq, Prod.mk.injEq] at hs
    rw [← hs.1] at h
    simp only [CState.next] at h
    by_cases e : t = t0
    · subst e; rw [upd_same] at h; exact Or.inl h
    · rw [upd_other _ _ e] at h; exact Or.inl h
  | free a =>
    rw [hl] at hs
    simp only [wstep, Option.some.injEq, Prod.mk.injEq] at hs
    rw [← hs.1] at h
    simp only [CState.next, upd_self] at h
    exact Or.inl h
  | idle =>
    rw [hl] at hs
    simp only [wstep, Option.some.injEq, Prod.mk.injEq] at hs
    rw [← hs.1] at h
    simp only [CState.next, upd_self] at h
    exact Or.inl h

theorem ofInsert {n t : Nat} (hn : n ≤ E.len) {c : Call K P} (hc : ((E.st n).thr t).run = some c) (hf : c.req.fn = some .insert) : c.pc.OfInsert := by
  induction n generalizing c with
  | zero => rw [E.init] at hc; cases hc
  | succ n ih =>
    rcases E.run_from hn hc with h | ⟨hh, h⟩ | ⟨weak, τ, c0, ran, h1, h2, h3, h4⟩
    · exact ih (by omega) h hf
    · rw [h]
      cases hr : c.req with
      | op o => rw [hr] at hf; cases o <;> first | rfl | cases hf
      | isEmpty => rw [hr] at hf; cases hf
      | iter => rw [hr] at hf; cases hf
    · have := hTick_ofInsert (E.ans n) ((E.st n).seen c0.pc τ) weak (ih (by omega) h2 (by rw [← h3]; exact hf))
      rw [h4] at this
      exact this

theorem ofRemove {n t : Nat} (hn : n ≤ E.len) {c : Call K P} (hc : ((E.st n).thr t).run = some c) (hf : c.req.fn = some .remove) :
    c.pc.OfRemove (E.M n).retired := by
  induction n generalizing c with
  | zero => rw [E.init] at hc; cases hc
  | succ n ih =>
    have mono : ∀ a, (E.M n).retired a ≠ none → (E.M (n + 1)).retired a ≠ none := by
      intro a ha
      cases hx : (E.M n).retired a with
      | none => exact absurd hx ha
      | some τ => rw [(E.winv hn).hist.retired (Nat.le_succ _) (Nat.le_refl _) hx]; simp
    rcases E.run_from hn hc with h | ⟨hh, h⟩ | ⟨weak, τ, c0, ran, h1, h2, h3, h4⟩
    · exact (ih (by omega) h hf).mono mono
    · rw [h]
      cases hr : c.req with
      | op o => rw [hr] at hf; cases o <;> first | trivial | cases hf
      | isEmpty => rw [hr] at hf; cases hf
      | iter => rw [hr] at hf; cases hf
    · obtain ⟨mx, h5, h6, h7⟩ := ((E.winv (Nat.le_of_lt hn)).did E hn h1 h2).1.retires
      have h8 := ih (by omega) h2 (by rw [← h3]; exact hf)
      rw [← h6] at h8
      have := hTick_ofRemove (E.ans n) mx weak h8
      rw [← h5, ← h7, h4] at this
      exact this

/-- What `insert` and `remove` return references to is in nodes that were retired. -/
theorem returned_retired {n t : Nat} (hn : n < E.len) {weak : Bool} {τ : Nat} (hl : E.lab n = .tick t weak τ) {c : Call K P} (hc : ((E.st n).thr t).run = some c)
    (hf : c.req.fn = some .insert ∨ c.req.fn = some .remove) {r : Res P} {refs : List Nat} (h : (hTick (E.ans n) ((E.st n).seen c.pc τ) weak c.pc).2 = .ret r refs) :
    ∀ a ∈ refs, (E.st (n + 1)).m.retired a ≠ none := by
  obtain ⟨mx, h5, h6, h7⟩ := ((E.winv (Nat.le_of_lt hn)).did E hn hl hc).1.retires
  have h9 : (E.M (n + 1)).retired = (E.st (n + 1)).m.retired := rfl
  rcases hf with hf | hf
  · have := hTick_ofInsert (E.ans n) mx weak (E.ofInsert (Nat.le_of_lt hn) hc hf)
    rw [← h5, ← h7, h] at this
    exact this
  · have h8 := E.ofRemove (Nat.le_of_lt hn) hc hf
    rw [← h6] at h8
    have := hTick_ofRemove (E.ans n) mx weak h8
    rw [← h5, ← h7, h] at this
    exact this

end WExec
end Contrie
