import Verif.Proof.CohLive
import Verif.Proof.CohFinite
import Verif.Props.Memory
/-
C39 (what users see under weak memory orderings), C40 (memory safety under weak memory orderings).
-/
set_option linter.unusedSectionVars false
namespace Contrie
open scoped List
variable {K P : Type} [DecidableEq K] {cfg : Config K P} (E : CExec cfg)

/-- The content of the trie at instant `i`. -/
def CExec.content (i : Nat) : AMap K P := (E.st i).m.abs cfg

theorem CExec.A_content (i : Nat) : E.A i = E.content i := abs_mem rfl rfl

/-! ### C39 -/

/-- **C39.** Every prefix of every execution of the weak memory machine has a causal linearization, which leads to the present content of the
trie: one legal order of all completed calls, in which those that change the map are in real-time order, and calls about one key
are never in an order that contradicts happens-before. `is_empty` returns `true` only if the map was empty somewhere in this order, not before any call that
happens before it; and an iteration gives for every key what a `get` might have returned. -/
theorem C39_causal {n : Nat} (hn : n ≤ E.len) : WellFormed (E.history n) ∧
    ∃ L, IsCausalLinearization cfg.key (E.history n) E.Hb L (E.content n) ∧
      (∀ id j, j < n → E.ev j = some (.res id (.bool true)) →
        Glimpse cfg.key E.Hb L id j (fun _ => True) AMap.empty) ∧
      (∀ id j out, j < n → E.ev j = some (.res id (.list out)) → ∀ k, ∃ m,
        Glimpse cfg.key E.Hb L id j (fun k' => k' = k) m ∧ out.filter (fun p => decide (cfg.key p = k)) = (m k).toList) := by
  refine ⟨E.wellFormed hn, E.lin n, ?_, ?_, ?_⟩
  · rw [← E.A_content]; exact E.lin_causal hn
  · intro id j hj hr
    obtain ⟨t, weak, τ, c, g1, g2, g3, g4, g5, g6, g7⟩ := E.ret (by omega) hr
    cases hreq : c.req with
    | op o => simp only [CExec.OutOK, hreq] at g7; obtain ⟨_, h, -⟩ := g7; cases h
    | iter => simp only [CExec.OutOK, hreq] at g7; obtain ⟨_, h, -⟩ := g7; cases h
    | isEmpty =>
      simp only [CExec.OutOK, hreq] at g7
      obtain ⟨b, hb, h⟩ := g7
      injection hb with hb
      obtain ⟨σ, hlt, hs⟩ := h hb.symm
      rw [g3] at hs
      have hA : E.A σ = AMap.empty := by funext k; exact (hs k).val
      rw [← hA]
      exact E.glimpse hn hj hr g5 g4 (by omega) (fun k _ => hs k)
  · intro id j out hj hr k
    obtain ⟨t, weak, τ, c, g1, g2, g3, g4, g5, g6, g7⟩ := E.ret (by omega) hr
    cases hreq : c.req with
    | op o => simp only [CExec.OutOK, hreq] at g7; obtain ⟨_, h, -⟩ := g7; cases h
    | isEmpty => simp only [CExec.OutOK, hreq] at g7; obtain ⟨_, h, -⟩ := g7; cases h
    | iter =>
      simp only [CExec.OutOK, hreq] at g7
      obtain ⟨out', ho, h⟩ := g7
      injection ho with ho
      subst ho
      obtain ⟨v, σ, hs, hv⟩ := h k
      rw [g3] at hs
      refine ⟨E.A σ, E.glimpse hn hj hr g5 g4 (by have := hs.lt; omega) (v := fun _ => v) ?_, ?_⟩
      · intro k' e; subst e; exact hs
      · rw [hs.val]; exact hv

theorem apply_elsewhere {key : P → K} {B : AMap K P} {o : Op K P} {k : K} (h : o.key key ≠ k) : (B.apply key o).1 k = B k := by
  have h' : k ≠ o.key key := fun e => h e.symm
  cases o with
  | get k' => rfl
  | insert p => simp only [AMap.apply, AMap.set]; exact if_neg h'
  | getOrInsert k' f =>
    simp only [AMap.apply]
    split
    · rfl
    · simp only [AMap.set]; exact if_neg h'
  | remove k' => simp only [AMap.apply, AMap.set]; exact if_neg h'

/-- A key that is not updated keeps its value. -/
theorem CExec.A_const {k : K} {a b : Nat} (hab : a ≤ b) (hb : b ≤ E.len)
    (h : ∀ i lp, a ≤ i → i < b → E.W i = some lp → lp.op.key cfg.key = k → ∃ k', lp.op = .get k') : E.A a k = E.A b k := by
  induction hab with
  | refl => rfl
  | @step b hab ih =>
    rw [ih (by omega) (fun i lp h1 h2 => h i lp h1 (by omega))]
    have hab' : a ≤ b := hab
    cases hw : E.W b with
    | none => rw [E.A_none hb (Nat.lt_succ_self b) hw]
    | some lp =>
      have h1 := congrArg Prod.fst (E.A_some hb (Nat.lt_succ_self b) hw)
      simp only at h1
      rw [← h1]
      by_cases hk : lp.op.key cfg.key = k
      · obtain ⟨k', e⟩ := h b lp hab' (Nat.lt_succ_self b) hw hk
        rw [e]; rfl
      · exact (apply_elsewhere hk).symm

/-- **C39** for programs that synchronise: if all the calls that may have changed key `k`, and that were invoked before a `get(k)` returned, happen before
it, then this `get` returns the content of the map (which was the same all the time). -/
theorem C39_synchronised_get {id j : Nat} {k : K} {r : Ret P} (hj : j < E.len) (hc : E.ev id = some (.inv id (.op (.get k))))
    (hr : E.ev j = some (.res id (.op r)))
    (hs : ∀ x o, x < j → E.ev x = some (.inv x (.op o)) → o.key cfg.key = k → (∀ k', o ≠ .get k') → E.Hb x id) :
    ∀ i, id ≤ i → i ≤ j → r = .opt (E.content i k) := by
  intro i hi1 hi2
  obtain ⟨t, weak, τ, c, g1, g2, g3, g4, g5, g6, g7⟩ := E.ret hj hr
  have hreq : c.req = .op (.get k) := by
    have := E.ev_call (by omega) g5
    rw [hc] at this
    simp only [Option.some.injEq, Event.inv.injEq, true_and] at this
    exact this.symm
  have upd : ∀ i lp, i < j → E.W i = some lp → lp.op.key cfg.key = k → (∀ k', lp.op ≠ .get k') → E.Hb lp.id id ∧ i < id := by
    intro i lp hi hw hk hg
    obtain ⟨t', weak', c', h1, h2, h3, h4, h5, h6, h7, h8⟩ := E.W_ok (by omega) hw
    have hb := hs lp.id lp.op (by omega) (E.ev_call (by omega) h6) hk hg
    refine ⟨hb, ?_⟩
    obtain ⟨j', r', a1, a2, a3, a4⟩ := hb.ret E
    have := E.W_res (by omega) hw a1 a2
    omega
  have const : ∀ a b, id ≤ a → a ≤ b → b ≤ j → E.A a k = E.A b k := by
    intro a b h1 h2 h3
    refine E.A_const h2 (by omega) ?_
    intro i lp h4 h5 hw hk
    apply Classical.byContradiction
    intro hn
    have := (upd i lp (by omega) hw hk (fun k' e => hn ⟨k', e⟩)).2
    omega
  rw [← E.A_content]
  simp only [CExec.OutOK, hreq] at g7
  obtain ⟨ret, e, h5, -⟩ := g7
  injection e with e
  subst e
  rw [g3] at h5
  rcases h5 with ⟨i', a1, a2⟩ | ⟨a1, a2, v, σ, a3, a4⟩
  · obtain ⟨t', weak', c', h1, h2, h3, h4, h5, h6, h7, h8⟩ := E.W_ok (by omega) a2
    simp only [AMap.apply, Prod.mk.injEq] at h7
    simp only at h5
    rw [← h7.2]
    rcases Nat.le_total i i' with hle | hle
    · rw [const i i' hi1 hle a1]
    · rw [const i' i (by omega) hle hi2]
  · have h1 := a4 (fun _ => v) rfl
    simp only [AMap.apply, Prod.mk.injEq] at h1
    rw [← h1.2]
    have hval : E.A σ k = v := a3.val
    congr 1
    rw [← hval]
    rcases Nat.le_total i σ with hle | hle
    · have hσ := a3.lt
      exact (const i σ hi1 hle (by omega)).symm
    · refine E.A_const hle (by omega) ?_
      intro i' lp h4 h5 hw hk
      apply Classical.byContradiction
      intro hn
      have hb := (upd i' lp (by omega) hw hk (fun k' e => hn ⟨k', e⟩)).1
      have := CExec.SawIt.after (n := j + 1) (by omega) (by omega) hw hk ⟨t, j, _, _, g5, g4, by omega, hr, a3⟩ hb
      omega

/-! ### C40 -/

/-- **C40.** Under weak memory, too, no call ever fails: no node is accessed that is destroyed, was never allocated or is of the
wrong kind, and none of the assertions of the code fails. -/
theorem C40_no_failure {n : Nat} (hn : n ≤ E.len) (t : Nat) : ((E.st n).thr t).failed = none :=
  ((E.cinv hn).sess t).noFail

/-- **C40**, at every single access: the cell a call is about to access lies in an inner node that is not destroyed. -/
theorem C40_access {n : Nat} (hn : n ≤ E.len) {t : Nat} {c : Call K P} (hc : ((E.st n).thr t).run = some c) {a : Nat} {i : Fin 16}
    {o : LoadOrd} (ha : c.pc.access .code = some (.slot a i, o)) :
    ∃ cells path, (E.st n).m.deref a = some (.inner cells path) := by
  have h := E.cinv hn
  have ci := (h.sess t).run c hc
  obtain ⟨p0, hp0, hp1⟩ := ci.pin
  have hlt := ci.lt
  have hf := h.alive E hn hp0 ((ci.holds a (access_holds ha rfl)).anti (E.V_mono t (by omega) (by omega)))
  rcases access_hasLoc ha with e | hl
  · cases e
  · obtain ⟨p, hr⟩ := ci.locs _ hl
    obtain ⟨cs, q, h1, -⟩ := hr.chain.locAt h.hist (E.V_le hn t)
    have h1' : (E.st n).m.mem a = some (.inner cs q) := h1
    exact ⟨cs, q, by simp [Mem.deref, hf, h1']⟩

/-- **C40.** The elements a call returns (references to) live in nodes that stay intact for as long as the session keeps the guard under which
it made the call. -/
theorem C40_returned_references {j id t : Nat} {r : Res P} {weak : Bool} {τ : Nat} (hj : j < E.len) (hr : E.ev j = some (.res id r))
    (hl : E.lab j = .tick t weak τ) {p : P} (hp : p ∈ r.elements) : ∃ a items, p ∈ items ∧
      ∀ n, j < n → n ≤ E.len → E.KeepsGuard t (j + 1) n → (E.st n).m.deref a = some (.data items) := by
  obtain ⟨p0, c, h1, h2, h3, h4, h5, h6⟩ := E.ret_pin hj hr hl
  have h := E.cinv (Nat.succ_le_of_lt hj)
  cases hreq : c.req with
  | op o =>
    simp only [CExec.OutOK, hreq] at h6
    obtain ⟨ret, rfl, -, hpl, -⟩ := h6
    have hp' : p ∈ ret.payloads := by
      cases ret with
      | opt v => exact hp
      | eon e => cases e <;> simpa [Res.elements, Ret.payloads, ExistingOrNew.intoInner] using hp
    obtain ⟨a, ha, items, hm, hpi⟩ := hpl p hp'
    obtain ⟨p1, hp1, hs⟩ := (h.sess t).refs a ha
    rw [h1] at hp1; cases hp1
    exact ⟨a, items, hpi, fun n hn hn' hk => E.seen_valid h1 hs hm n hn hn' hk⟩
  | isEmpty =>
    simp only [CExec.OutOK, hreq] at h6
    obtain ⟨b, rfl, -⟩ := h6
    cases hp
  | iter =>
    simp only [CExec.OutOK, hreq] at h6
    obtain ⟨out, rfl, h7⟩ := h6
    obtain ⟨v, σ, hs, hv⟩ := h7 (cfg.key p)
    have hmem : p ∈ ofKey cfg (cfg.key p) out := by
      have hp' : p ∈ out := hp
      simp [ofKey, hp']
    rw [hv] at hmem
    have : v = some p := by simpa using hmem
    subst this
    have hσ := hs.lt
    obtain ⟨a, items, b1, b2, b3⟩ := hs.live h.hist (by omega)
    refine ⟨a, items, b2, fun n hn hn' hk => E.seen_valid h1 (b3.anti (E.V_mono t (by omega) (by omega))) ?_ n hn hn' hk⟩
    exact h.hist.data (by omega) (Nat.le_refl _) b1

/-- **C40** for iterators: what an iteration has yielded stays intact while the iterator's guard is kept. -/
theorem C40_yielded_references {i t : Nat} {c : Call K P} (hi : i ≤ E.len) (hc : ((E.st i).thr t).run = some c) {p : P}
    (hp : p ∈ c.yielded) : ∃ a items, p ∈ items ∧
      ∀ n, i ≤ n → n ≤ E.len → E.KeepsGuard t i n → (E.st n).m.deref a = some (.data items) := by
  simp only [Call.yielded] at hp
  split at hp
  · next lv out hpc =>
    have h := E.cinv hi
    have ci := (h.sess t).run c hc
    obtain ⟨p0, hp0, hp1⟩ := ci.pin
    have hlt := ci.lt
    obtain ⟨σ, hs⟩ := E.yielded_saw hi hc hpc hp
    have hσ := hs.lt
    obtain ⟨a, items, b1, b2, b3⟩ := hs.live h.hist (by omega)
    refine ⟨a, items, b2, fun n hn hn' hk => E.seen_valid hp0 (b3.anti (E.V_mono t (by omega) (by omega))) ?_ n hn hn' hk⟩
    exact h.hist.data (by omega) (Nat.le_refl _) b1
  · cases hp

/-! ### Examples -/

/-- The collector's contract is met when it does nothing. -/
theorem no_free {cfg : Config K P} {ls : List (CLabel K P)}
    (h : ls.all (fun l => match l with | .free _ => false | _ => true) = true) {i a : Nat} (hi : i < ls.length) :
    ls.getD i .idle ≠ .free a := by
  intro e
  have hmem : ls.getD i .idle ∈ ls := by
    rw [List.getD_eq_getElem?_getD, List.getElem?_eq_getElem hi]
    exact List.getElem_mem hi
  have := (List.all_eq_true.mp h) _ hmem
  rw [e] at this
  cases this

/-- Session 0 inserts (7, 1). Later session 1, which has not synchronised with it, looks 7 up and sees the root as it was at the beginning. -/
def exStaleRun : List (CLabel Nat (Nat × Nat)) :=
  [.pin 0, .pin 1, .call 0 (.op (.insert (7, 1))), .tick 0 false 3, .tick 0 false 4, .call 1 (.op (.get 7)), .tick 1 false 0]

def exStale : CExec exCfg :=
  .ofRun exCfg exStaleRun (by decide) (fun i a hi e => absurd e (no_free (cfg := exCfg) (by decide) hi))

/-- The insertion returned in step 4, the lookup was invoked in step 5 and finds nothing. -/
example : exStale.ev 4 = some (.res 2 (.op (.opt none))) ∧ exStale.ev 6 = some (.res 5 (.op (.opt none))) := by
  constructor <;> rfl

theorem exStale_history : exStale.history 7 =
    [.inv 2 (.insert (7, 1)), .res 2 (.opt none), .inv 5 (.get 7), .res 5 (.opt none)] := by rfl

/-- So weak memory is visible: this history is not linearizable. (C39 says what remains.) -/
theorem exStale_not_linearizable : ¬ Linearizable exCfg.key (exStale.history 7) := by
  rintro ⟨L, final, h⟩
  rw [exStale_history] at h
  have hin : ∀ x ∈ L, (x.id = 2 ∧ x.op = .insert (7, 1)) ∨ (x.id = 5 ∧ x.op = .get 7) := by
    intro x hx
    have := h.invoked x hx
    simp only [List.mem_cons, HEv.inv.injEq, reduceCtorEq, List.not_mem_nil, or_false, false_or] at this
    exact this
  have h2 := h.complete 2 (.insert (7, 1)) (.opt none) (by simp) (by simp)
  have h5 := h.complete 5 (.get 7) (.opt none) (by simp) (by simp)
  have hb : Before ([.inv 2 (.insert (7, 1)), .res 2 (.opt none), .inv 5 (.get 7), .res 5 (.opt none)] :
      List (HEv Nat (Nat × Nat))) 2 5 := ⟨.opt none, .get 7, by
    refine List.Sublist.cons _ (List.Sublist.cons_cons _ (List.Sublist.cons_cons _ ?_))
    exact List.nil_sublist _⟩
  have hnd := h.once
  have hrt := h.realtime
  have hlg := h.legal
  match L, hin, h2, h5, hnd, hrt, hlg with
  | [], _, h2, _, _, _, _ => cases h2
  | [x], _, h2, h5, _, _, _ =>
    simp only [List.mem_singleton] at h2 h5
    rw [← h2] at h5
    injection h5 with h5
    cases h5
  | [x, y], hin, h2, h5, hnd, hrt, hlg =>
    have h1 : x = ⟨2, .insert (7, 1), .opt none⟩ := by
      simp only [List.mem_cons, List.not_mem_nil, or_false] at h2 h5
      rcases h2 with h2 | h2
      · exact h2.symm
      · rcases h5 with h5 | h5
        · subst h2 h5
          simp only [List.pairwise_cons, List.mem_singleton, forall_eq] at hrt
          exact absurd hb hrt.1
        · rw [← h2] at h5; injection h5 with h5; cases h5
    have hy : y = ⟨5, .get 7, .opt none⟩ := by
      simp only [List.mem_cons, List.not_mem_nil, or_false] at h5
      rcases h5 with h5 | h5
      · rw [h1] at h5; injection h5 with h5; cases h5
      · exact h5.symm
    subst h1 hy
    cases hlg with
    | cons e1 hlg =>
      cases hlg with
      | cons e2 hlg =>
        simp only [AMap.apply, Prod.mk.injEq, and_true] at e1
        obtain ⟨e1, -⟩ := e1
        rw [← e1] at e2
        simp [AMap.apply, AMap.set, exCfg] at e2
  | x :: y :: z :: L, hin, _, _, hnd, _, _ =>
    have hx := hin x (by simp)
    have hy := hin y (by simp)
    have hz := hin z (by simp)
    simp only [List.map_cons, List.nodup_cons, List.mem_cons, not_or] at hnd
    obtain ⟨⟨n1, n2, -⟩, ⟨n3, -⟩, -⟩ := hnd
    rcases hx with ⟨hx, -⟩ | ⟨hx, -⟩ <;> rcases hy with ⟨hy, -⟩ | ⟨hy, -⟩ <;> rcases hz with ⟨hz, -⟩ | ⟨hz, -⟩ <;> omega

/-- If session 1 synchronises with session 0 after the insertion, it cannot be left behind: the same step is not possible ... -/
example : cRunOKb exCfg CState.init
    [.pin 0, .pin 1, .call 0 (.op (.insert (7, 1))), .tick 0 false 3, .tick 0 false 4, .sync 1 0 5, .call 1 (.op (.get 7)), .tick 1 false 0] = false := by
  decide

/-- ... only this one. -/
def exSyncRun : List (CLabel Nat (Nat × Nat)) :=
  [.pin 0, .pin 1, .call 0 (.op (.insert (7, 1))), .tick 0 false 3, .tick 0 false 4, .sync 1 0 5, .call 1 (.op (.get 7)), .tick 1 false 7]

def exSync : CExec exCfg :=
  .ofRun exCfg exSyncRun (by decide) (fun i a hi e => absurd e (no_free (cfg := exCfg) (by decide) hi))

example : exSync.ev 7 = some (.res 6 (.op (.opt (some (7, 1))))) := by rfl

/-- The insertion happens before the lookup. -/
theorem exSync_hb : exSync.Hb 2 6 :=
  ⟨0, 1, 4, .op (.opt none), .op (.get 7), false, 4, by decide, rfl, rfl, by decide, rfl,
    .trans (.sync (t := 1) (t' := 0) (τ := 5) (j := 5) (by decide) rfl) (.po 1 (by decide))⟩

/-- Non-vacuity of C39 for synchronised programs. -/
example : (Ret.opt (some (7, 1)) : Ret (Nat × Nat)) = .opt (exSync.content 7 7) := by
  refine C39_synchronised_get exSync (id := 6) (j := 7) (by decide) rfl rfl ?_ 7 (by decide) (by decide)
  intro x o hx hev _ hng
  match x, hx with
  | 0, _ => cases hev
  | 1, _ => cases hev
  | 2, _ => exact exSync_hb
  | 3, _ => cases hev
  | 4, _ => cases hev
  | 5, _ => cases hev
  | 6, _ => exact absurd (by injection hev with e; injection e with _ e; injection e with e; exact e.symm) (hng 7)

/-- Session 0 inserts (7, 1), overwrites it by (7, 2) and drops its guard. Session 1 synchronises with it before it pins itself. The node of (7, 1) is
destroyed while session 1 is pinned. -/
def exFreeRun : List (CLabel Nat (Nat × Nat)) :=
  [.pin 0, .call 0 (.op (.insert (7, 1))), .tick 0 false 2, .tick 0 false 3, .call 0 (.op (.insert (7, 2))), .tick 0 false 5,
   .tick 0 false 6, .unpin 0, .sync 1 0 8, .pin 1, .free 0, .call 1 (.op (.get 7)), .tick 1 false 12]

def exFree : CExec exCfg :=
  .ofRun exCfg exFreeRun (by decide) (by
    intro i a hi e
    have hi : i < 13 := hi
    have hia : i = 10 ∧ a = 0 := by
      match i, hi with
      | 10, _ => injection e with e; exact ⟨rfl, e.symm⟩
      | 0, _ | 1, _ | 2, _ | 3, _ | 4, _ | 5, _ | 6, _ | 7, _ | 8, _ | 9, _ | 11, _ | 12, _ => cases e
    obtain ⟨rfl, rfl⟩ := hia
    refine ⟨6, 0, false, 6, by decide, rfl, by decide, by decide, ?_⟩
    intro j t p h1 h2 hp
    have h2 : j ≤ 13 := h2
    have hN : t = 0 ∨ t = 1 ∨ 2 ≤ t := by omega
    have hone : HB (fun i => exFreeRun.getD i .idle) exFreeRun.length (0, 6 + 1) (1, 9 + 1) :=
      .trans (.po 0 (by decide : 7 ≤ 8)) (.trans (.sync (t := 1) (t' := 0) (τ := 8) (j := 8) (by decide) rfl) (.po 1 (by decide : 9 ≤ 10)))
    have hj : j = 10 ∨ j = 11 ∨ j = 12 ∨ j = 13 := by omega
    rcases hN with rfl | rfl | ht
    · exfalso
      rcases hj with rfl | rfl | rfl | rfl <;> cases hp
    · have : p = 9 := by
        rcases hj with rfl | rfl | rfl | rfl <;> (injection hp with hp; exact hp.symm)
      subst this
      exact hone
    · exfalso
      rw [cstAt_thread (N := 2) (by decide) ht] at hp
      cases hp)

/-- The node is destroyed, and the lookup finds the new one. -/
example : (exFree.st 13).m.freed 0 = true ∧ exFree.ev 12 = some (.res 11 (.op (.opt (some (7, 2))))) := by
  constructor <;> rfl

/-- Non-vacuity of C40. -/
example : ∃ a items, (7, 2) ∈ items ∧ ∀ n, 12 < n → n ≤ 13 → exFree.KeepsGuard 1 13 n →
    (exFree.st n).m.deref a = some (.data items) :=
  C40_returned_references exFree (j := 12) (id := 11) (t := 1) (by decide) rfl rfl (List.mem_singleton.mpr rfl)

/-- Without the synchronisation, the collector's contract is not met; and session 1, which could still see the old root, would access the
destroyed node. -/
example : ((cstAt exCfg [.pin 0, .call 0 (.op (.insert (7, 1))), .tick 0 false 2, .tick 0 false 3, .call 0 (.op (.insert (7, 2))), .tick 0 false 5,
   .tick 0 false 6, .unpin 0, .idle, .pin 1, .free 0, .call 1 (.op (.get 7)), .tick 1 false 5] 13).thr 1).failed = some .badAccess := by
  decide

/-- Four sessions, two keys: session 2 finds 1 and not 2, session 3 finds 2 and not 1, although both insertions were over before. Sessions that do not
synchronise may disagree about the order of updates of different keys; hence the clause of C39 about causality cannot be about all keys. -/
def exIriwRun : List (CLabel Nat (Nat × Nat)) :=
  [.pin 0, .pin 1, .pin 2, .pin 3,
   .call 0 (.op (.insert (3, 0))), .tick 0 false 5, .tick 0 false 6,
   .call 0 (.op (.insert (4, 0))), .tick 0 false 8, .tick 0 false 9, .tick 0 false 10, .tick 0 false 11, .tick 0 false 12,
   .call 0 (.op (.insert (1, 0))), .tick 0 false 14, .tick 0 false 15, .tick 0 false 16,
   .call 1 (.op (.insert (2, 0))), .tick 1 false 18, .tick 1 false 19, .tick 1 false 20,
   .call 2 (.op (.get 1)), .tick 2 false 22, .tick 2 false 23,
   .call 2 (.op (.get 2)), .tick 2 false 25, .tick 2 false 13,
   .call 3 (.op (.get 2)), .tick 3 false 28, .tick 3 false 29,
   .call 3 (.op (.get 1)), .tick 3 false 31, .tick 3 false 13]

def exIriw : CExec exCfg :=
  .ofRun exCfg exIriwRun (by decide) (fun i a hi e => absurd e (no_free (cfg := exCfg) (by decide) hi))

example : exIriw.ev 16 = some (.res 13 (.op (.opt none))) ∧ exIriw.ev 20 = some (.res 17 (.op (.opt none))) ∧
    exIriw.ev 23 = some (.res 21 (.op (.opt (some (1, 0))))) ∧ exIriw.ev 26 = some (.res 24 (.op (.opt none))) ∧
    exIriw.ev 29 = some (.res 27 (.op (.opt (some (2, 0))))) ∧ exIriw.ev 32 = some (.res 30 (.op (.opt none))) := by
  refine ⟨?_, ?_, ?_, ?_, ?_, ?_⟩ <;> rfl

end Contrie
