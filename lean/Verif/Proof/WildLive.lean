import Verif.Proof.WildExec
import Verif.Proof.HostileDrop
/-
Consequences of the invariant: nodes stay intact while a guard is kept; what iterations have yielded.
-/
set_option linter.unusedSectionVars false
namespace Contrie
variable {K P : Type} [DecidableEq K]

/-- Where the elements come from that an iteration yields. -/
theorem hTick_yields (o : Answers P) (m : Mem P) (weak : Bool) (pc : PC K P) {lv : List (Word × Nat)} {out : List P} {ran : Bool}
    (h : (hTick o m weak pc).2 = .goto (.iterNext lv out) ran) {p : P} (hp : p ∈ out) :
    ∃ lv0 out0, pc = .iterNext lv0 out0 ∧ (p ∈ out0 ∨
      ∃ w a items, pc.Holds a ∧ w.ptr = some a ∧ m.loadData w = .ok items ∧ p ∈ items) := by
  cases pc with
  | iterNext lv0 out0 =>
    refine ⟨lv0, out0, rfl, ?_⟩
    simp only [hTick, tickIterNext] at h
    cases lv0 with
    | nil => cases h
    | cons x rest =>
      obtain ⟨w, idx⟩ := x
      simp only at h
      cases hw : w.ptr with
      | none =>
        rw [hw] at h
        simp only [Next.goto.injEq, PC.iterNext.injEq] at h
        rw [← h.1.2] at hp; exact Or.inl hp
      | some a =>
        rw [hw] at h
        simp only at h
        cases hd : w.data with
        | true =>
          rw [hd] at h
          simp only [if_true] at h
          cases hl : m.loadData w with
          | error f => rw [hl] at h; cases h
          | ok items =>
            rw [hl] at h
            simp only at h
            cases hi : items[idx]? with
            | none =>
              rw [hi] at h
              simp only [Next.goto.injEq, PC.iterNext.injEq] at h
              rw [← h.1.2] at hp; exact Or.inl hp
            | some q =>
              rw [hi] at h
              simp only [Next.goto.injEq, PC.iterNext.injEq] at h
              rw [← h.1.2] at hp
              rcases List.mem_append.mp hp with hp | hp
              · exact Or.inl hp
              · simp only [List.mem_singleton] at hp
                subst hp
                exact Or.inr ⟨w, a, items, ⟨(w, idx), by simp, hw⟩, hw, hl, List.mem_of_getElem? hi⟩
        | false =>
          rw [hd] at h
          simp only [Bool.false_eq_true, if_false] at h
          split at h
          · split at h
            · cases h
            · split at h
              · cases h
              · simp only [Next.goto.injEq, PC.iterNext.injEq] at h
                rw [← h.1.2] at hp; exact Or.inl hp
          · simp only [Next.goto.injEq, PC.iterNext.injEq] at h
            rw [← h.1.2] at hp; exact Or.inl hp
  | iterNew =>
    simp only [hTick, tickIterNew, Next.goto.injEq, PC.iterNext.injEq] at h
    rw [← h.1.2] at hp; cases hp
  | get =>
    exfalso
    simp only [hTick, hTickGet] at h
    repeat' split at h
    all_goals cases h
  | isEmpty => cases h
  | trav =>
    exfalso
    simp only [hTick, hTickTrav, enterPrune, finishTrav] at h
    repeat' split at h
    all_goals cases h
  | travCas =>
    exfalso
    simp only [hTick, tickTravCas, finishTrav] at h
    repeat' split at h
    all_goals cases h
  | rem =>
    exfalso
    simp only [hTick, hTickRem, enterPrune] at h
    repeat' split at h
    all_goals cases h
  | remCas =>
    exfalso
    simp only [hTick, tickRemCas, enterClean] at h
    repeat' split at h
    all_goals cases h
  | count =>
    exfalso
    simp only [hTick, tickCount, enterPrune] at h
    repeat' split at h
    all_goals cases h
  | prune =>
    exfalso
    simp only [hTick, tickPrune, afterPrune, enterClean] at h
    repeat' split at h
    all_goals cases h
  | pruneCas =>
    exfalso
    simp only [hTick, tickPruneCas, afterPrune, enterClean] at h
    repeat' split at h
    all_goals cases h

/-- Only iterations return lists: what they have yielded. -/
theorem hTick_list (o : Answers P) (m : Mem P) (weak : Bool) (pc : PC K P) {out : List P} {refs : List Nat}
    (h : (hTick o m weak pc).2 = .ret (.list out) refs) : ∃ lv, pc = .iterNext lv out := by
  cases pc with
  | iterNext lv0 out0 =>
    simp only [hTick, tickIterNext] at h
    cases lv0 with
    | nil =>
      simp only [Next.ret.injEq, Res.list.injEq] at h
      exact ⟨[], by rw [h.1]⟩
    | cons x rest =>
      exfalso
      obtain ⟨w, idx⟩ := x
      simp only at h
      repeat' split at h
      all_goals cases h
  | iterNew => cases h
  | get =>
    exfalso
    simp only [hTick, hTickGet] at h
    repeat' split at h
    all_goals cases h
  | isEmpty => cases h
  | trav =>
    exfalso
    simp only [hTick, hTickTrav, enterPrune, finishTrav] at h
    repeat' split at h
    all_goals cases h
  | travCas =>
    exfalso
    simp only [hTick, tickTravCas, finishTrav] at h
    repeat' split at h
    all_goals cases h
  | rem =>
    exfalso
    simp only [hTick, hTickRem, enterPrune] at h
    repeat' split at h
    all_goals cases h
  | remCas =>
    exfalso
    simp only [hTick, tickRemCas, enterClean] at h
    repeat' split at h
    all_goals cases h
  | count =>
    exfalso
    simp only [hTick, tickCount, enterPrune] at h
    repeat' split at h
    all_goals cases h
  | prune =>
    exfalso
    simp only [hTick, tickPrune, afterPrune, enterClean] at h
    repeat' split at h
    all_goals cases h
  | pruneCas =>
    exfalso
    simp only [hTick, tickPruneCas, afterPrune, enterClean] at h
    repeat' split at h
    all_goals cases h

theorem hStartPC_yields (h : BitVec 64) (r : Req K P) (a b n : Nat) : (Call.mk a r (hStartPC h r) b n : Call K P).yielded = [] := by
  cases r with
  | op o => cases o <;> rfl
  | isEmpty => rfl
  | iter => rfl

theorem loadData_mem {m : Mem P} {w : Word} {a : Nat} {items : List P} (hp : w.ptr = some a) (h : m.loadData w = .ok items) :
    m.mem a = some (.data items) := by
  simp only [Mem.loadData, hp, Mem.deref] at h
  split at h
  · cases h
  · split at h
    · next nd hd =>
      split at hd
      · cases hd
      · cases h; exact hd
    · cases h

namespace WExec
variable (E : WExec K P)

/-- Where a call in progress comes from. -/
theorem run_back {n t : Nat} (hn : n < E.len) {c' : Call K P} (h : ((E.st (n + 1)).thr t).run = some c') :
    ((E.st n).thr t).run = some c' ∨ c'.yielded = [] ∨
    ∃ weak τ c ran, E.lab n = .tick t weak τ ∧ ((E.st n).thr t).run = some c ∧ c'.inv = c.inv ∧
      (hTick (E.ans n) ((E.st n).seen c.pc τ) weak c.pc).2 = .goto c'.pc ran := by
  have hs := E.step n hn
  cases hl : E.lab n with
  | tick t0 weak τ =>
    rw [hl] at hs
    cases hc : ((E.st n).thr t0).run with
    | none => simp only [wstep, hc] at hs; cases hs
    | some c =>
      simp only [wstep, hc, Option.some.injEq, Prod.mk.injEq] at hs
      by_cases e : t = t0
      · subst e
        rw [← hs.1] at h
        simp only [CState.next, upd_same] at h
        cases hx : (hTick (E.ans n) ((E.st n).seen c.pc τ) weak c.pc).2 with
        | fail f =>
          rw [hx] at h
          cases f with
          | shallowCollision => cases h
          | _ => simp only [CThread.wapply, CThread.apply] at h; cases h
        | ret r refs => rw [hx] at h; cases h
        | goto pc ran =>
          rw [hx] at h
          simp only [CThread.wapply, CThread.apply, Option.some.injEq] at h
          subst h
          exact Or.inr (Or.inr ⟨weak, τ, c, ran, rfl, hc, rfl, hx⟩)
      · rw [← hs.1] at h
        simp only [CState.next] at h
        rw [upd_other _ _ e] at h
        exact Or.inl h
  | pin t0 =>
    rw [hl] at hs
    simp only [wstep] at hs
    split at hs
    · simp only [Option.some.injEq, Prod.mk.injEq] at hs
      rw [← hs.1] at h
      simp only [CState.next] at h
      by_cases e : t = t0
      · subst e; rw [upd_same] at h; exact Or.inl h
      · rw [upd_other _ _ e] at h; exact Or.inl h
    · cases hs
  | unpin t0 =>
    rw [hl] at hs
    simp only [wstep] at hs
    split at hs
    · simp only [Option.some.injEq, Prod.mk.injEq] at hs
      rw [← hs.1] at h
      simp only [CState.next] at h
      by_cases e : t = t0
      · subst e; rw [upd_same] at h; exact Or.inl h
      · rw [upd_other _ _ e] at h; exact Or.inl h
    · cases hs
  | call t0 r =>
    rw [hl] at hs
    simp only [wstep] at hs
    split at hs
    · simp only [Option.some.injEq, Prod.mk.injEq] at hs
      rw [← hs.1] at h
      simp only [CState.next] at h
      by_cases e : t = t0
      · subst e
        rw [upd_same] at h
        simp only [Option.some.injEq] at h
        subst h
        exact Or.inr (Or.inl (hStartPC_yields _ _ _ _ _))
      · rw [upd_other _ _ e] at h; exact Or.inl h
    · cases hs
  | abort t0 =>
    rw [hl] at hs
    simp only [wstep] at hs
    split at hs
    · cases hs
    · simp only [Option.some.injEq, Prod.mk.injEq] at hs
      rw [← hs.1] at h
      simp only [CState.next] at h
      by_cases e : t = t0
      · subst e; rw [upd_same] at h; cases h
      · rw [upd_other _ _ e] at h; exact Or.inl h
  | sync t0 t2 τ =>
    rw [hl] at hs
    simp only [wstep, Option.some.injEq, Prod.mk.injEq] at hs
    rw [← hs.1] at h
    simp only [CState.next] at h
    by_cases e : t = t0
    · subst e; rw [upd_same] at h; exact Or.inl h
    · rw [upd_other _ _ e] at h; exact Or.inl h
  | free a =>
    rw [hl] at hs
    simp only [wstep, Option.some.injEq, Prod.mk.injEq] at hs
    rw [← hs.1] at h
    simp only [CState.next, upd_self] at h
    exact Or.inl h
  | idle =>
    rw [hl] at hs
    simp only [wstep, Option.some.injEq, Prod.mk.injEq] at hs
    rw [← hs.1] at h
    simp only [CState.next, upd_self] at h
    exact Or.inl h

variable {E} in
theorem Did.source {n t : Nat} {weak : Bool} {τ : Nat} {c : Call K P} {nx : Next K P} (d : E.Did n t weak τ c nx) :
    ∃ mx, nx = (hTick (E.ans n) mx weak c.pc).2 ∧ ∀ w, mx.loadData w = (E.M n).loadData w := by
  cases d with
  | store ℓ o p w σ ha hτ hw hnx hm hv hread hch hl => exact ⟨_, hnx, fun _ => rfl⟩
  | load ℓ o p w mw σ ha hτ hw hnx hm hs hloc hl hmw hrd => exact ⟨_, hnx, hs.same⟩
  | silent ha hnx hm hq => exact ⟨_, hnx, fun _ => rfl⟩

/-- What an iteration has yielded it has seen alive. -/
theorem yielded_seen {n t : Nat} (hn : n ≤ E.len) {c : Call K P} (hc : ((E.st n).thr t).run = some c) {p : P} (hp : p ∈ c.yielded) :
    ∃ a items, (E.M n).mem a = some (.data items) ∧ p ∈ items ∧ WSeen E.M n (E.V t c.inv) a := by
  induction n generalizing c p with
  | zero => rw [E.init] at hc; cases hc
  | succ n ih =>
    have H := (E.winv hn).hist
    have keep : ∀ {c0 : Call K P}, ((E.st n).thr t).run = some c0 → p ∈ c0.yielded →
        ∃ a items, (E.M (n + 1)).mem a = some (.data items) ∧ p ∈ items ∧ WSeen E.M (n + 1) (E.V t c0.inv) a := by
      intro c0 h0 h1
      obtain ⟨a, items, h2, h3, h4⟩ := ih (by omega) h0 h1
      exact ⟨a, items, H.data (Nat.le_succ _) (Nat.le_refl _) h2, h3, h4.mono (Nat.le_succ _)⟩
    rcases E.run_back hn hc with h | h | ⟨weak, τ, c0, ran, h1, h2, h3, h4⟩
    · exact keep h hp
    · rw [h] at hp; cases hp
    · rw [h3]
      have hI := E.winv (Nat.le_of_lt hn)
      have ci := (hI.sess t).run c0 h2
      obtain ⟨mx, h5, h6⟩ := (hI.did E hn h1 h2).1.source
      rw [h4] at h5
      simp only [Call.yielded] at hp
      split at hp
      · next lv out hpc =>
        rw [hpc] at h5
        obtain ⟨lv0, out0, h7, h8⟩ := hTick_yields _ mx weak c0.pc h5.symm hp
        rcases h8 with h8 | ⟨w, a, items, h8, h9, h10, h11⟩
        · exact keep h2 (by simp only [Call.yielded, h7]; exact h8)
        · rw [h6] at h10
          exact ⟨a, items, H.data (Nat.le_succ _) (Nat.le_refl _) (loadData_mem h9 h10), h11, (ci.holds a h8).mono (Nat.le_succ _)⟩
      · cases hp

/-- Session `t` keeps, from instant `i` until instant `n`, the guard it has at `i`. -/
def KeepsGuard (t i n : Nat) : Prop := ∀ k, i ≤ k → k ≤ n → ((E.st k).thr t).pin = ((E.st i).thr t).pin

/-- A node a pinned session has seen alive stays intact while the session keeps the guard. -/
theorem seen_valid {i t p a : Nat} {items : List P} (hp : ((E.st i).thr t).pin = some p)
    (hs : WSeen E.M i (E.V t (p + 1)) a) (hm : (E.M i).mem a = some (.data items)) (n : Nat) (hn : i ≤ n) (hl : n ≤ E.len)
    (hk : E.KeepsGuard t i n) : (E.st n).m.deref a = some (.data items) := by
  have h1 : ((E.st n).thr t).pin = some p := by rw [hk n hn (Nat.le_refl _)]; exact hp
  have hI := E.winv hl
  have hf := hI.alive E hl h1 (hs.mono hn)
  have hm' : (E.st n).m.mem a = some (.data items) := hI.hist.data hn (Nat.le_refl _) hm
  simp [Mem.deref, hf, hm']

/-- The place a call is about to look at, and what it may find there. -/
theorem finds {i t : Nat} (hi : i ≤ E.len) {c : Call K P} (hc : ((E.st i).thr t).run = some c) {ℓ : Loc} {o : LoadOrd}
    (ha : c.pc.access .code = some (ℓ, o)) : (∃ w, (E.st i).m.read ℓ = some w) ∧
    ∃ p, LocAt (E.M i) 0 ℓ p ∧ ∀ τ w, E.V t i ℓ ≤ τ → τ ≤ i → (E.st τ).m.read ℓ = some w →
      (E.M i).write w ℓ = ((E.st i).seen c.pc τ).thaw ∧ ((E.st i).seen c.pc τ).read ℓ = some w ∧
      HWordOK (E.M i) w p ∧ ∀ a, w.ptr = some a → WSeen E.M i (E.V t c.inv) a := by
  have hb := E.base hi
  have h := E.winv hi
  have H := h.hist
  have ci := (h.sess t).run c hc
  have held : ∀ a, c.pc.Holds a → (E.st i).m.freed a = false := fun a ha => h.held E hi hc (ci.holds a ha)
  have hVle : ∀ ℓ, E.V t i ℓ ≤ i := hb.view t
  have hreach : ∃ p, WReached E.M i (E.V t c.inv) (E.V t i) p ℓ := by
    rcases access_hasLoc ha with rfl | h1
    · exact ⟨[], WReached.root (E.V_mono t (Nat.le_of_lt ci.lt) hi)⟩
    · exact ci.locs ℓ h1
  obtain ⟨p, hr⟩ := hreach
  have hloc := hr.chain.hlocAt H hVle
  refine ⟨?_, p, hloc, ?_⟩
  · cases ℓ with
    | root => exact ⟨_, rfl⟩
    | slot a i' =>
      obtain ⟨cs, q, h1, -⟩ := hloc
      have hfa := held a (access_holds ha rfl)
      have h1' : (E.st i).m.mem a = some (.inner cs q) := h1
      exact ⟨cs i', by simp [Mem.read, Mem.deref, hfa, h1']⟩
  · intro τ w hVτ hτn hrd
    have hrdM : (E.M τ).read ℓ = some w := by
      simp only [M]
      rw [← thaw_read]
      · exact hrd
      · intro a hna
        cases ℓ with
        | root => cases hna
        | slot b i =>
          cases hna
          cases hf : (E.st τ).m.freed a with
          | false => rfl
          | true => simp [Mem.read, Mem.deref, hf] at hrd
    have hat := H.at_read hτn hloc hrdM
    have hok : HWordOK (E.M i) w p := H.wordOK hτn (Nat.le_refl i) ((H.inv τ hτn).at_ok hat)
    have hclean : ℓ = .root → w.cond = false := by
      intro e; subst e
      have : (E.M τ).root = w := by simpa [Mem.read] using hrdM
      rw [← this]; exact (H.inv τ hτn).rootClean
    have h0 : 0 < (E.M i).clock := by rw [H.clock i (Nat.le_refl _)]; have := ci.lt; omega
    have hQ : HLook (E.M i) ((E.M i).write w ℓ) ℓ w := hLook_write (H.inv i (Nat.le_refl _)) h0 (fun a => rfl) hloc hok hclean
    have hseen : (E.st i).seen c.pc τ = (E.st i).m.write w ℓ := by
      simp [CState.seen, ha, hb.memAt E hτn, hrd, Mem.see]
    have hsthaw : ((E.st i).seen c.pc τ).thaw = (E.M i).write w ℓ := by rw [hseen, write_thaw]; rfl
    refine ⟨hsthaw.symm, ?_, hok, ?_⟩
    · rw [thaw_read]
      · rw [hsthaw]; exact hQ.seen
      · intro a hna
        rw [hseen, write_freed]
        exact held a (access_holds ha hna)
    · intro a hwa
      obtain ⟨σ, hlearn⟩ := hr.read H hVle (V' := fun x => max (E.V t i x) τ) (fun x => Nat.le_max_left _ _) hVτ hτn
        (Nat.le_max_right _ _) hat
      exact hlearn.seen H hτn hwa

/-- The memory itself (rather than the memory regardless of what is destroyed). -/
theorem memInv {i : Nat} (hi : i ≤ E.len) : HMemInv (E.st i).m := by
  have h := E.winv hi
  have hm : HMemInv (E.M i) := h.hist.inv i (Nat.le_refl _)
  have hf : ∀ w q, (E.M i).follow w q = (E.st i).m.follow w q := fun w q => follow_mem (m := (E.st i).m) (m' := E.M i) rfl w q
  refine ⟨hm.rootOK, hm.rootClean, hm.nodeOK, hm.fresh, ?_, ?_, hm.frozen, hm.hindPtr, hm.retTime, ?_, ?_⟩
  · intro a n h1 h2
    obtain ⟨q, w, h3, h4⟩ := hm.linked a n h1 h2
    exact ⟨q, w, by rw [← hf]; exact h3, h4⟩
  · intro q w a h1 h2
    exact hm.live q w a (by rw [hf]; exact h1) h2
  · intro a ha
    obtain ⟨j, hj, hl⟩ := E.freed_at hi ha
    obtain ⟨r, tr, weak, τ, h1, h2, h3, h4, -⟩ := E.gc j a (by omega) hl
    cases hr : (E.st (r + 1)).m.retired a with
    | none => exact absurd hr h4
    | some x => exact ⟨x, h.hist.retired (by omega : r + 1 ≤ i) (Nat.le_refl _) hr⟩
  · intro w w' q r a h1 h2 h3 h4
    exact hm.path_unique (by rw [hf]; exact h1) (by rw [hf]; exact h2) h3 h4
end WExec
end Contrie
