import Verif.Props.LooksSync
import Verif.Props.LooksWeak
import Verif.Props.FineWeak
/-
C71 under weak memory at the granularity of the code (C67).
-/
namespace Contrie
open scoped List
variable {K P : Type} [DecidableEq K] {cfg : Config K P}

/-- **C71** under weak memory, at the granularity of the code: the order of calls of C67 has places for what all the iterations look up, and those of an iteration that happens before another one are not
behind those of the other one. -/
theorem C71_fine_causal (R : FCExec cfg) {n : Nat} (hn : n ≤ R.len) :
    ∃ L pos, IsCausalLinearization cfg.key (R.history n) R.Hb L (R.content n) ∧ CausalLooksFit cfg.key R.ev n R.Hb L pos := by
  obtain ⟨E, e1, e2, e3, e4⟩ := R.coarse
  obtain ⟨L, pos, hL, h⟩ := C71_causal E (n := n) (by omega)
  have at' : ∀ {p id q j keys m}, q < j → GlimpseAt cfg.key E.Hb L p id q keys m → GlimpseAt cfg.key R.Hb L p id j keys m := by
    rintro p id q j keys m hq ⟨g2, g3, g4, g5⟩
    exact ⟨g2, fun y hy hk hb => g3 y hy hk (R.hb_sub e1 e3 e4 hb), fun x hx hk hb => g4 x hx hk (R.hb_sub e1 e3 e4 hb), fun x hx hu => by have := g5 x hx hu; omega⟩
  have res : ∀ {j id r}, j < n → R.ev j = some (.res id r) → ∃ q, q < j ∧ E.ev q = some (.res id r) := by
    intro j id r hj hr
    obtain ⟨t, q, w, τ, w', τ', -, g2, -, -, g5, -⟩ := R.res (by omega) hr
    exact ⟨q, g2, by rw [e4]; exact g5⟩
  refine ⟨L, pos, ⟨?_, hL.once, ?_, ?_, ?_, ?_⟩, ?_, ?_, ?_⟩
  · intro x hx; exact (R.inv_history hn e1 e4).mpr (hL.invoked x hx)
  · intro id o r hi hr; exact hL.complete id o r ((R.inv_history hn e1 e4).mp hi) (R.res_history hn e1 e4 hr)
  · exact hL.realtime.imp (fun h hu hb => h hu (R.before_sub hn e1 e4 hb))
  · exact hL.causal.imp (fun h hk hb => h hk (R.hb_sub e1 e3 e4 hb))
  · rw [← R.content_eq hn e1 e2]; exact hL.legal
  · intro id j out k hj hr
    obtain ⟨q, hq, hr⟩ := res hj hr
    obtain ⟨m, h1, h2⟩ := h.iter id q out k (by omega) hr
    exact ⟨m, at' hq h1, h2⟩
  · intro id j hj hr
    obtain ⟨q, hq, hr⟩ := res hj hr
    obtain ⟨p, h1, h2⟩ := h.empty id q (by omega) hr
    exact ⟨p, h1, at' hq h2⟩
  · have looked : ∀ {id}, Looked R.ev n id → Looked E.ev n id := by
      rintro id ⟨j, hj, ⟨out, hr⟩ | hr⟩
      · obtain ⟨q, hq, hr⟩ := res hj hr
        exact ⟨q, by omega, .inl ⟨out, hr⟩⟩
      · obtain ⟨q, hq, hr⟩ := res hj hr
        exact ⟨q, by omega, .inr hr⟩
    exact fun a b k ha hb hab => h.order a b k (looked ha) (looked hb) (R.hb_sub e1 e3 e4 hab)

/-- The events of the first `n` steps. -/
def FCExec.events (R : FCExec cfg) (n : Nat) : List (Event K P) := (List.range n).filterMap R.ev

theorem FCExec.timeline (R : FCExec cfg) {n : Nat} (hn : n ≤ R.len) : Timeline R.ev n where
  inv_id := by
    obtain ⟨E, e1, e2, e3, e4⟩ := R.coarse
    intro i id r hi h
    exact (E.ev_inv (i := i) (by omega) (by rw [e4]; exact (R.inv_iff (by omega)).mp h)).1
  ret := by
    obtain ⟨E, e1, e2, e3, e4⟩ := R.coarse
    intro j id r hj hr
    obtain ⟨t, q, w, τ, w', τ', -, g2, -, -, g5, -⟩ := R.res (by omega) hr
    obtain ⟨h1, x, h2, h3⟩ := (E.timeline (n := n) (by omega)).ret q id r (by omega) (by rw [e4]; exact g5)
    exact ⟨by omega, x, (R.inv_iff (by omega)).mpr (by rw [← e4]; exact h2), h3⟩
  once := fun _ _ _ _ _ hi hj h h' => R.res_unique (by omega) (by omega) h h'

/-- **C71** for programs that synchronise, under weak memory and at the granularity of the code: as `C71_synchronised`, of the steps in which the code invokes, accesses and returns. -/
theorem C71_fine_synchronised (R : FCExec cfg) {n : Nat} (hn : n ≤ R.len)
    (hs : ∀ x y r r', R.ev x = some (.inv x r) → R.ev y = some (.inv y r') → (∀ o o', r = .op o → r' = .op o' → o.key cfg.key = o'.key cfg.key) →
      EvBefore (R.events n) x y → R.Hb x y) :
    ∃ L pos, IsLinearization cfg.key (R.history n) L (R.content n) ∧ KeywiseLooksFit cfg.key (R.events n) L pos := by
  obtain ⟨L, pos, h1, h2⟩ := C71_fine_causal R hn
  exact (R.timeline hn).looksSync (C67_causal R hn).1 h1 h2 hs

/-! ### Example -/

/-- Session 0 inserts (7, 1). Session 1 learns of it and iterates; it loads the root; then session 0 overwrites the element by (7, 2); the iteration reads the node it has found, which is unlinked by now,
and yields (7, 1); then session 0 hands this node over and returns. -/
def exFineIterRun : List (CLabel Nat (Nat × Nat)) :=
  [.pin 0, .call 0 (.op (.insert (7, 1))), .tick 0 false 2, .tick 0 false 3, .tick 0 false 4, .tick 0 false 5, .sync 1 0 6, .pin 1, .call 1 .iter, .tick 1 false 9,
   .call 0 (.op (.insert (7, 2))), .tick 0 false 11, .tick 0 false 12, .tick 0 false 13, .tick 1 false 0, .tick 1 false 15, .tick 1 false 0, .tick 1 false 17, .tick 1 false 0, .tick 1 false 19,
   .tick 1 false 0, .tick 0 false 0]

theorem exFineIter_check : fcRunOKb exCfg FCState.init exFineIterRun = true := by decide

def exFineIter : FCExec exCfg where
  len := 22
  st := fcStAt exCfg exFineIterRun
  lab := fun i => exFineIterRun.getD i .idle
  ev := fcEvAt exCfg exFineIterRun
  init := rfl
  step := by
    intro i hi
    obtain ⟨-, -, h3⟩ := fcRun_check (ls := exFineIterRun) (l1 := []) (l2 := exFineIterRun) rfl exFineIter_check i (Nat.zero_le _) hi
    cases he : fcstep exCfg (fcStAt exCfg exFineIterRun i) (exFineIterRun.getD i .idle) with
    | none => rw [he] at h3; cases h3
    | some x => simp only [fcStAt, fcEvAt, he]
  enabled := fun i hi => fenabled_of_check (fcRun_check (ls := exFineIterRun) (l1 := []) (l2 := exFineIterRun) rfl exFineIter_check i (Nat.zero_le _) hi).1
  wf := fun i hi => wf_of_check (fcRun_check (ls := exFineIterRun) (l1 := []) (l2 := exFineIterRun) rfl exFineIter_check i (Nat.zero_le _) hi).2.1
  gc := by
    intro i a hi e
    exfalso
    have h : ∀ l ∈ exFineIterRun, ∀ b, l ≠ .free b := by
      intro l hl b e
      subst e
      simp [exFineIterRun] at hl
    have hl : i < exFineIterRun.length := hi
    refine h (exFineIterRun.getD i .idle) ?_ a e
    rw [List.getD_eq_getElem?_getD, List.getElem?_eq_getElem hl]
    exact List.getElem_mem hl

/-- The iteration yields the overwritten element, before the overwriting call has returned. -/
example : exFineIter.ev 20 = some (.res 8 (.list [(7, 1)])) ∧ exFineIter.ev 21 = some (.res 10 (.op (.opt (some (7, 1))))) := ⟨rfl, rfl⟩

/-- Non-vacuity of C71_fine_causal: it applies to this run. -/
example : ∃ L pos, IsCausalLinearization exCfg.key (exFineIter.history 22) exFineIter.Hb L (exFineIter.content 22) ∧ CausalLooksFit exCfg.key exFineIter.ev 22 exFineIter.Hb L pos :=
  C71_fine_causal exFineIter (n := 22) (by decide)

theorem exFineIter_events : exFineIter.events 22 =
    [.inv 1 (.op (.insert (7, 1))), .res 1 (.op (.opt none)), .inv 8 .iter, .inv 10 (.op (.insert (7, 2))), .res 8 (.list [(7, 1)]), .res 10 (.op (.opt (some (7, 1))))] := by rfl

/-- Non-vacuity of C71_fine_synchronised: only the first insertion returns before other calls are invoked, and they know of it. -/
example : ∃ L pos, IsLinearization exCfg.key (exFineIter.history 22) L (exFineIter.content 22) ∧ KeywiseLooksFit exCfg.key (exFineIter.events 22) L pos := by
  refine C71_fine_synchronised exFineIter (n := 22) (by decide) ?_
  intro x y r r' hx hy _ hb
  have T := exFineIter.timeline (n := 22) (by decide)
  have g1 : exFineIter.Hb 1 8 := ⟨0, 1, 5, _, _, false, 5, by decide, rfl, rfl, by decide, rfl, .trans (.sync (t := 1) (t' := 0) (τ := 6) (j := 6) (by decide) rfl) (.po 1 (by decide))⟩
  have g2 : exFineIter.Hb 1 10 := ⟨0, 0, 5, _, _, false, 5, by decide, rfl, rfl, by decide, rfl, .po 0 (by decide)⟩
  obtain ⟨j, a, b, h1, h2, h3, h4⟩ := T.evBefore_iff.mp hb
  have m1 : Event.res x a ∈ exFineIter.events 22 := List.mem_filterMap.mpr ⟨j, List.mem_range.mpr (by omega), h3⟩
  have m2 : Event.inv y b ∈ exFineIter.events 22 := List.mem_filterMap.mpr ⟨y, List.mem_range.mpr h2, h4⟩
  have j8 : exFineIter.ev 20 = some (.res 8 (.list [(7, 1)])) := rfl
  have j10 : exFineIter.ev 21 = some (.res 10 (.op (.opt (some (7, 1))))) := rfl
  have late : x = 8 ∨ x = 10 → 20 ≤ j := by
    rintro (rfl | rfl)
    · have := T.once _ _ _ _ _ (by omega) (by decide) h3 j8; omega
    · have := T.once _ _ _ _ _ (by omega) (by decide) h3 j10; omega
  have hlt := (T.ret _ _ _ (by omega) h3).1
  rw [exFineIter_events] at m1 m2
  simp only [List.mem_cons, Event.inv.injEq, Event.res.injEq, reduceCtorEq, List.not_mem_nil, or_false, false_or] at m1 m2
  rcases m1 with ⟨rfl, -⟩ | ⟨rfl, -⟩ | ⟨rfl, -⟩ <;> rcases m2 with ⟨rfl, -⟩ | ⟨rfl, -⟩ | ⟨rfl, -⟩ <;>
    first | exact g1 | exact g2 | omega | (have := late (by omega); omega)

end Contrie
