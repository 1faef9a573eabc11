import Verif.Proof.HealRem
import Verif.Props.Cost
/-
C59: what overlapping removals (C17) or abandoned calls have left behind does not pile up: an insertion clears its way.
-/
set_option linter.unusedSectionVars false
namespace Contrie
open scoped List
variable {K P : Type} [DecidableEq K] {cfg : Config K P}

/-- No cell on the way from the root towards key `k` is condemned: an update of `k` that runs alone from here need not start over. -/
def Mem.WayClear (m : Mem P) (cfg : Config K P) (k : K) : Prop :=
  ∀ q w, q <+: nibs (cfg.hash k) → m.walk m.root q = some w → w.cond = false

theorem walk_append {m : Mem P} {w w1 : Word} {q : List (Fin 16)} {i : Fin 16} (h : m.walk w (q ++ [i]) = some w1) :
    ∃ w0 a c p, m.walk w q = some w0 ∧ w0.ptr = some a ∧ w0.data = false ∧ m.mem a = some (.inner c p) ∧ c i = w1 := by
  induction q generalizing w with
  | nil =>
    simp only [List.nil_append, Mem.walk] at h
    split at h
    · cases h
    · next a ha =>
      split at h
      · cases h
      · next hd =>
        split at h
        · next c p hm =>
          refine ⟨w, a, c, p, rfl, ha, by simpa using hd, ?_, by simpa using h⟩
          simp only [Mem.deref] at hm
          split at hm
          · cases hm
          · exact hm
        · cases h
  | cons j q ih =>
    simp only [List.cons_append, Mem.walk] at h
    split at h
    · cases h
    · next a ha =>
      split at h
      · cases h
      · next hd =>
        split at h
        · next c p hm =>
          obtain ⟨w0, b, c', p', h1, h2⟩ := ih h
          exact ⟨w0, b, c', p', by simp only [Mem.walk, ha, hd, hm]; exact h1, h2⟩
        · cases h

theorem walk_follow {m : Mem P} {w w1 : Word} {q : List (Fin 16)} (h : m.walk w q = some w1) : m.follow w q = some w1.erase := by
  induction q generalizing w with
  | nil => simp only [Mem.walk, Option.some.injEq] at h; subst h; rfl
  | cons j q ih =>
    simp only [Mem.walk] at h
    split at h
    · cases h
    · next a ha =>
      split at h
      · cases h
      · next hd =>
        split at h
        · next c p hm =>
          have hm' : m.mem a = some (.inner c p) := by
            simp only [Mem.deref] at hm
            split at hm
            · cases hm
            · exact hm
          have : m.cellsOf w = some c := by
            simp only [Bool.not_eq_true] at hd
            simp [Mem.cellsOf, ha, hd, hm']
          simp only [Mem.follow, this]
          exact ih h
        · cases h

theorem Mem.ClearTo.way {A : Nat → AMap K P} {m : Mem P} (h : MemInv cfg A m) {k : K} (hc : ∀ e, m.ClearTo (nibs (cfg.hash k)) e) : m.WayClear cfg k := by
  intro q w hq hw
  rcases List.eq_nil_or_concat q with rfl | ⟨q, i, rfl⟩
  · simp only [Mem.walk, Option.some.injEq] at hw
    subst hw; exact h.rootClean
  · rw [List.concat_eq_append] at hq hw
    obtain ⟨w0, a, c, p, h1, h2, h3, h4, rfl⟩ := walk_append hw
    have hf := walk_follow h1
    obtain ⟨c', hc'⟩ := (h.path_ok hf).of_inner h2 h3
    rw [h4] at hc'; cases hc'
    have hl := h.live _ _ _ hf h2
    exact hc (q.length + 2) a c q i h4 hl hq (by omega)

theorem startPC_heal {m : Mem P} {n : List (Fin 16)} (r : Req K P) : HealPC m n (startPC cfg r) := by
  cases r with
  | op o =>
    cases o with
    | insert p => intro d e; rw [← shift_inj (show LEVEL_BITS * 0 = LEVEL_BITS * d from e)]; exact Mem.ClearTo.zero _ _
    | getOrInsert k f => intro d e; rw [← shift_inj (show LEVEL_BITS * 0 = LEVEL_BITS * d from e)]; exact Mem.ClearTo.zero _ _
    | get k => trivial
    | remove k => trivial
  | isEmpty => trivial
  | iter => trivial

theorem Exec.noNew_of_no_tick (E : Exec cfg) {i : Nat} (h : ∀ t weak, E.lab i ≠ .tick t weak) : NoNewCond (E.st i).m (E.st (i + 1)).m := by
  intro a n h1
  have hs := E.step i
  cases hl : E.lab i with
  | tick t weak => exact absurd hl (h t weak)
  | _ =>
    rw [hl] at hs
    simp only [Contrie.step] at hs
    repeat' split at hs
    all_goals first
      | (cases hs; done)
      | (simp only [Option.some.injEq, Prod.mk.injEq] at hs; rw [← hs.1] at h1; exact h1)

theorem Exec.heal_running (E : Exec cfg) {id j t : Nat} {k : K}
    (hno : ∀ i, id < i → i < j → (∃ weak, E.lab i = .tick t weak) ∨ NoNewCond (E.st i).m (E.st (i + 1)).m) {i : Nat} {c : Call K P} (hi : i ≤ j)
    (hc : E.Running i t c) (hid : c.inv = id) (hk : c.req.insKey cfg = some k) : HealPC (E.st i).m (nibs (cfg.hash k)) c.pc := by
  induction i generalizing c with
  | zero => rw [Exec.Running, E.init] at hc; cases hc
  | succ i ih =>
    rcases step_run_full (E.step i) hc with ⟨g1, g2⟩ | ⟨c0, pc, ran, weak, g1, g2, g3, rfl⟩ | ⟨r, g1, rfl, -⟩
    · have h0 := ih (by omega) g1 hid hk
      rcases hno i (by have := (E.run_inv i g1).1; omega) (by omega) with ⟨weak, e⟩ | h1
      · exact absurd e (g2 weak)
      · exact h0.keep (E.stepOK i).evo h1
    · have h0 := ih (by omega) g1 hid hk
      have hs := E.step i
      rw [g2] at hs
      obtain ⟨c1, hc1, hm, -⟩ := step_tick hs
      rw [g1] at hc1; cases hc1
      have hevo := (E.stepOK i).evo
      have hinv := (E.inv (i + 1)).mem
      rw [hm] at hevo hinv ⊢
      have := tick_heal ((E.inv i).ctx g1) (E.run_pcinv g1) (E.tidy i t c0 g1) hk hevo hinv h0
      rw [g3] at this
      exact this
    · exact startPC_heal r

/-- If the other sessions condemn nothing during an insertion, it leaves its way clear. -/
theorem Exec.heal_returns (E : Exec cfg) {id j : Nat} {req : Req K P} {k : K} (hk : req.insKey cfg = some k) (hinv : E.Invoked id req) {r : Res P}
    (hr : E.Returns j id r) (hno : ∀ t, E.lab id = .call t req → ∀ i, id < i → i < j → (∃ weak, E.lab i = .tick t weak) ∨ NoNewCond (E.st i).m (E.st (i + 1)).m) :
    ∀ e, (E.st (j + 1)).m.ClearTo (nibs (cfg.hash k)) e := by
  obtain ⟨t, c, refs, weak, h1, h2, h3, -, -, h4⟩ := (E.stepOK j).res id r hr
  obtain ⟨g1, g2, g3⟩ := E.run_inv j h2
  rw [h3] at g2 g3
  rw [Exec.Invoked] at hinv
  have hreq : c.req = req := by
    rw [hinv] at g2; cases g2; rfl
  rw [hreq] at g3
  have hp := E.heal_running (hno t g3) (Nat.le_refl _) h2 h3 (by rw [hreq]; exact hk)
  have hs := E.step j
  rw [h1] at hs
  obtain ⟨c1, hc1, hm, -⟩ := step_tick hs
  rw [h2] at hc1; cases hc1
  have hevo := (E.stepOK j).evo
  have hmi := (E.inv (j + 1)).mem
  rw [hm] at hevo hmi ⊢
  have := tick_heal ((E.inv j).ctx h2) (E.run_pcinv h2) (E.tidy j t c h2) (by rw [hreq]; exact hk) hevo hmi hp
  rw [h4] at this
  exact this

/-- A removal is in progress at instant `i`. -/
def Exec.Removing (E : Exec cfg) (i : Nat) : Prop := ∃ t c k, E.Running i t c ∧ c.req = .op (.remove k)

/-- Before instant `i`, no removal is abandoned half way (by a panic of user code). -/
def Exec.RemovalsFinish (E : Exec cfg) (i : Nat) : Prop := ∀ i', i' < i → ∀ t c k, E.lab i' = .abort t → E.Running i' t c → c.req ≠ .op (.remove k)

/-- A removal that has begun to condemn node `a`. -/
def Exec.Condemning (E : Exec cfg) (i a : Nat) : Prop :=
  ∃ t c k p ch n acc d r l, E.Running i t c ∧ c.req = .op (.remove k) ∧ c.pc = .prune p ch n acc (.clean d r l) ∧ ch.ptr = some a

theorem Mem.CondAt.evo {m m' : Mem P} {a : Nat} {n : Fin 16} (h : m.CondAt a n) (he : Evo m m') : m'.CondAt a n := by
  obtain ⟨c, p, h1, h2⟩ := h
  obtain ⟨c', h3, h4⟩ := he.inner a c p h1
  exact ⟨c', p, h3, by rw [h4 n h2]; exact h2⟩

/-- Who condemns the first cell of a node? -/
theorem Exec.first_condemning (E : Exec cfg) {i a : Nat} (h0 : ∀ n, ¬ (E.st i).m.CondAt a n) {n : Fin 16} (h1 : (E.st (i + 1)).m.CondAt a n) :
    E.Condemning i a := by
  have hs := E.step i
  cases hl : E.lab i with
  | tick t weak =>
    rw [hl] at hs
    obtain ⟨c, hc, hm, -⟩ := step_tick hs
    rw [hm] at h1
    have h1 : (tick cfg (E.st i).m weak c.pc).1.CondAt a n := h1
    rcases tick_condAt (E.tidy i t c hc) h1 with h | ⟨p, ch, acc, k, hpc, ha⟩
    · exact absurd h (h0 n)
    · have hi := E.run_pcinv hc
      have hh := E.helps i t c hc
      cases k with
      | trav st hash mode =>
        rw [hpc] at hh
        obtain ⟨a', cs, q, j, e1, e2, e3⟩ := hh
        rw [ha] at e1; cases e1
        exact absurd ⟨cs, q, e2, e3⟩ (h0 j)
      | rem key =>
        rw [hpc] at hh
        obtain ⟨a', cs, q, j, e1, e2, e3⟩ := hh
        rw [ha] at e1; cases e1
        exact absurd ⟨cs, q, e2, e3⟩ (h0 j)
      | clean d r rest =>
        simp only [PCInv, hpc] at hi
        obtain ⟨k, hk⟩ := hi.1.1.1
        exact ⟨t, c, k, p, ch, n, acc, d, r, rest, hc, hk, hpc, ha⟩
  | _ => exact absurd (E.noNew_of_no_tick (by rw [hl]; intro t weak e; cases e) a n h1) (h0 n)

/-- A removal that condemns a node goes on, or has condemned it all. -/
theorem Exec.condemning_step (E : Exec cfg) {i a : Nat} (hf : E.RemovalsFinish (i + 1)) (h : E.Condemning i a) :
    E.Condemning (i + 1) a ∨ ∀ n, (E.st (i + 1)).m.CondAt a n := by
  obtain ⟨t, c, k, p, ch, n, acc, d, r, l, h1, h2, h3, h4⟩ := h
  have hs := E.step i
  by_cases hl : ∃ weak, E.lab i = .tick t weak
  · obtain ⟨weak, hl⟩ := hl
    rw [hl] at hs
    obtain ⟨c1, hc1, hm, hthr, -⟩ := step_tick hs
    rw [h1] at hc1; cases hc1
    have hevo := (E.stepOK i).evo
    have hi := E.run_pcinv h1
    have hnf := C05_no_failing_step E i t c h1
    have x := (E.inv i).ctx h1
    simp only [PCInv, h3] at hi
    obtain ⟨-, b, cs, q, rfl, e2, e3, e4, e5⟩ := hi
    obtain rfl : b = a := by cases h4; rfl
    have hend : ∀ n', n.val + 1 ≥ 16 → (E.st (i + 1)).m.CondAt b n' := by
      intro n' hn
      by_cases e : n' = n
      · subst e
        have hnf' := hnf weak
        rw [hm, h3]
        rw [h3] at hnf'
        simp only [tick, tickPrune] at hnf' ⊢
        have hr : (E.st i).m.read (.slot b n') = some (cs n') := by
          rcases hrd : (E.st i).m.read (.slot b n') with _ | gc
          · rw [hrd] at hnf'; exact absurd rfl (hnf' _)
          · simp only [Mem.read, Mem.deref] at hrd
            split at hrd
            · next cells path hd =>
              split at hd
              · cases hd
              · rw [e2] at hd; cases hd; exact hrd.symm
            · cases hrd
        simp only [hr]
        have hw : ((E.st i).m.write (cs n').condemn (.slot b n')).CondAt b n' := by
          refine ⟨upd cs n' (cs n').condemn, q, ?_, by simp [Word.condemn]⟩
          simp [Mem.write, e2]
        repeat' split
        all_goals exact hw
      · exact Mem.CondAt.evo ⟨cs, q, e2, e5.cond n' (by have := n'.isLt; have : n'.val ≠ n.val := fun h => e (Fin.ext h); omega)⟩ hevo
    have hthr' : ((E.st (i + 1)).thr t).run = (((E.st i).thr t).apply c (tick cfg (E.st i).m weak c.pc).2).run := by rw [hthr]
    have hnf' := hnf weak
    rw [h3] at hthr' hnf'
    simp only [tick, tickPrune] at hthr' hnf'
    split at hthr'
    · next e => simp only [e] at hnf'; exact absurd rfl (hnf' _)
    · next gc hr =>
      simp only [hr] at hnf'
      split at hthr'
      · next f e => simp only [e] at hnf'; exact absurd rfl (hnf' _)
      · next acc' he =>
        split at hthr'
        · next hlt =>
          left
          exact ⟨t, _, k, p, _, ⟨n.val + 1, hlt⟩, acc', d, r, l, hthr', h2, rfl, rfl⟩
        · next hlt => exact .inr (fun n' => hend n' (by omega))
  · left
    refine ⟨t, c, k, p, ch, n, acc, d, r, l, step_run_keep hs h1 (fun weak e => hl ⟨weak, e⟩) (fun e => ?_), h2, h3, h4⟩
    exact hf i (by omega) t c k e h1 h2

/-- All the cells of a node are condemned, or none, unless a removal is at work on it. -/
theorem Exec.all_or_none (E : Exec cfg) {i : Nat} (hf : E.RemovalsFinish i) {a : Nat} {n : Fin 16} (h : (E.st i).m.CondAt a n) :
    (∀ n', (E.st i).m.CondAt a n') ∨ E.Condemning i a := by
  induction i generalizing n with
  | zero => rw [E.init] at h; obtain ⟨c, p, h, -⟩ := h; cases h
  | succ i ih =>
    have hf' : E.RemovalsFinish i := fun i' hi => hf i' (by omega)
    by_cases h0 : ∃ n, (E.st i).m.CondAt a n
    · obtain ⟨n', h0⟩ := h0
      rcases ih hf' h0 with h1 | h1
      · exact .inl (fun n' => (h1 n').evo (E.stepOK i).evo)
      · exact (E.condemning_step hf h1).symm
    · exact (E.condemning_step hf (E.first_condemning (fun n hn => h0 ⟨n, hn⟩) h)).symm

theorem Exec.Condemning.removing {E : Exec cfg} {i a : Nat} (h : E.Condemning i a) : E.Removing i := by
  obtain ⟨t, c, k, p, ch, n, acc, d, r, l, h1, h2, -⟩ := h
  exact ⟨t, c, k, h1, h2⟩

/-- While no removal is in progress, nothing is condemned. -/
theorem Exec.noNew (E : Exec cfg) {i : Nat} (hf : E.RemovalsFinish i) (hn : ¬ E.Removing i) : NoNewCond (E.st i).m (E.st (i + 1)).m := by
  intro a n h
  by_cases h0 : ∃ n, (E.st i).m.CondAt a n
  · obtain ⟨n', h0⟩ := h0
    rcases E.all_or_none hf h0 with h1 | h1
    · exact h1 n
    · exact absurd h1.removing hn
  · exact absurd (E.first_condemning (fun n hn => h0 ⟨n, hn⟩) h).removing hn

/-- The removal of session `t` is the only one in progress: cells get condemned only in the node it is condemning. -/
theorem Exec.newCond_in (E : Exec cfg) {i t : Nat} {c : Call K P} (hf : E.RemovalsFinish i) (hc : E.Running i t c)
    (ho : ∀ u c' k, E.Running i u c' → c'.req = .op (.remove k) → u = t) : NewCondIn (E.st i).m (E.st (i + 1)).m c.pc.condemns := by
  have key : ∀ a, E.Condemning i a → c.pc.condemns a := by
    rintro a ⟨u, c', k, p, ch, n, acc, d, r, l, h1, h2, h3, h4⟩
    obtain rfl := ho u c' k h1 h2
    rw [Exec.Running, hc] at h1; cases h1
    rw [h3]; exact h4
  intro a n h
  by_cases h0 : ∃ n, (E.st i).m.CondAt a n
  · obtain ⟨n', h0⟩ := h0
    exact (E.all_or_none hf h0).imp (fun h1 => h1 n) (key a)
  · exact .inr (key a (E.first_condemning (fun n hn => h0 ⟨n, hn⟩) h))

theorem Exec.heal_removing (E : Exec cfg) {id j t : Nat} {k : K} (hf : E.RemovalsFinish j)
    (ho : ∀ i, id < i → i ≤ j → ∀ u c k, E.Running i u c → c.req = .op (.remove k) → u = t) {i : Nat} {c : Call K P} (hi : i ≤ j)
    (hc : E.Running i t c) (hid : c.inv = id) (hk : c.req = .op (.remove k)) : RemHealPC (E.st i).m (cfg.hash k) c.pc := by
  induction i generalizing c with
  | zero => rw [Exec.Running, E.init] at hc; cases hc
  | succ i ih =>
    rcases step_run_full (E.step i) hc with ⟨g1, g2⟩ | ⟨c0, pc, ran, weak, g1, g2, g3, rfl⟩ | ⟨r, g1, rfl, -⟩
    · have h0 := ih (by omega) g1 hid hk
      refine h0.keep (E.run_pcinv g1) (E.inv (i + 1)).mem (E.stepOK i).evo (E.newCond_in (fun i' hi' => hf i' (by omega)) g1 ?_)
      exact ho i (by have := (E.run_inv i g1).1; omega) (by omega)
    · have h0 := ih (by omega) g1 hid hk
      have hs := E.step i
      rw [g2] at hs
      obtain ⟨c1, hc1, hm, -⟩ := step_tick hs
      rw [g1] at hc1; cases hc1
      have hevo := (E.stepOK i).evo
      have hinv := (E.inv (i + 1)).mem
      rw [hm] at hevo hinv ⊢
      have := tick_remHeal ((E.inv i).ctx g1) (E.run_pcinv g1) (E.tidy i t c0 g1) hk hevo hinv h0
      rw [g3] at this
      exact this
    · have hk : r = .op (.remove k) := hk
      subst hk
      refine ⟨fun d e => ?_, trivial⟩
      rw [← shift_inj (show LEVEL_BITS * 0 = LEVEL_BITS * d from e)]; exact Mem.ClearTo.zero _ _

/-- A removal that finds its key leaves its way clear, if no other one is in progress with it. -/
theorem Exec.heal_removed (E : Exec cfg) {id j : Nat} {k : K} (hinv : E.Invoked id (.op (.remove k))) {p : P}
    (hr : E.Returns j id (.op (.opt (some p)))) (hf : E.RemovalsFinish j)
    (ho : ∀ i, id < i → i ≤ j → ∀ u c k', E.Running i u c → c.req = .op (.remove k') → c.inv = id) :
    (∀ e, (E.st (j + 1)).m.ClearTo (nibs (cfg.hash k)) e) ∧ ¬ E.Removing (j + 1) := by
  obtain ⟨t, c, refs, weak, h1, h2, h3, -, h5, h4⟩ := (E.stepOK j).res id _ hr
  obtain ⟨g1, g2, g3⟩ := E.run_inv j h2
  rw [h3] at g2 g3
  rw [Exec.Invoked] at hinv
  have hreq : c.req = .op (.remove k) := by
    rw [hinv] at g2
    simp only [Option.some.injEq, Event.inv.injEq, true_and] at g2
    exact g2.symm
  rw [hreq] at g3
  have ho' : ∀ i, id < i → i ≤ j → ∀ u c k, E.Running i u c → c.req = .op (.remove k) → u = t := by
    intro i i1 i2 u c' k' hc' hk'
    have e := ho i i1 i2 u c' k' hc' hk'
    have := (E.run_inv i hc').2.2
    rw [e, hk', g3] at this
    cases this; rfl
  refine ⟨?_, ?_⟩
  · have hp := E.heal_removing hf ho' (Nat.le_refl _) h2 h3 hreq
    have hs := E.step j
    rw [h1] at hs
    obtain ⟨c1, hc1, hm, -⟩ := step_tick hs
    rw [h2] at hc1; cases hc1
    have hevo := (E.stepOK j).evo
    have hmi := (E.inv (j + 1)).mem
    rw [hm] at hevo hmi ⊢
    have := tick_remHeal ((E.inv j).ctx h2) (E.run_pcinv h2) (E.tidy j t c h2) hreq hevo hmi hp
    rw [h4] at this
    rcases this with e | h
    · cases e
    · exact h
  · rintro ⟨u, c', k', f1, f2⟩
    rcases step_run_full (E.step j) f1 with ⟨e1, -⟩ | ⟨c0, pc, ran, weak', e1, e2, -, rfl⟩ | ⟨r, e1, -, -⟩
    · have := ho' j (by omega) (Nat.le_refl _) u c' k' e1 f2
      subst this
      rw [Exec.Running, h5] at f1; cases f1
    · have := ho' j (by omega) (Nat.le_refl _) u c0 k' e1 f2
      subst this
      rw [Exec.Running, h5] at f1; cases f1
    · rw [h1] at e1; cases e1

/-- No removal is in progress at any instant from `i` to `n`. -/
def Exec.NoRemoval (E : Exec cfg) (i n : Nat) : Prop := ∀ τ, i ≤ τ → τ ≤ n → ¬ E.Removing τ

theorem Exec.clear_stays (E : Exec cfg) {i n : Nat} (hin : i ≤ n) (hf : E.RemovalsFinish n) (hn : E.NoRemoval i n) {ns : List (Fin 16)} {e : Nat}
    (h : (E.st i).m.ClearTo ns e) : (E.st n).m.ClearTo ns e := by
  induction n, hin using Nat.le_induction with
  | base => exact h
  | succ n hin ih =>
    have hf' : E.RemovalsFinish n := fun i' hi => hf i' (by omega)
    exact (ih hf' (fun τ h1 h2 => hn τ h1 (by omega))).keep (E.stepOK n).evo (E.noNew hf' (hn n hin (by omega)))

theorem Exec.nothing_condemned (E : Exec cfg) {n : Nat} (hf : E.RemovalsFinish n) (hn : ¬ E.Removing n) {k : K}
    (h : ∀ e, (E.st n).m.ClearTo (nibs (cfg.hash k)) e) : (E.st n).m.condemnedOnWay cfg k = 0 := by
  unfold Mem.condemnedOnWay cnt
  classical
  rw [Finset.card_eq_zero, Finset.filter_eq_empty_iff]
  rintro a - ⟨c, q, g1, g2, g3, i, g4⟩
  rcases E.all_or_none hf ⟨c, q, g1, g4⟩ with hall | hc
  · obtain ⟨r, hr⟩ := g3
    have hlen : q.length < 16 := ((E.inv n).mem.nodeOK a c q g1).1
    cases r with
    | nil =>
      have := congrArg List.length hr
      simp [nibs_length] at this
      omega
    | cons i0 r =>
      obtain ⟨c', p', e1, e2⟩ := hall i0
      rw [g1] at e1; cases e1
      rw [h (q.length + 2) a c q i0 g1 g2 ⟨r, by rw [List.append_assoc]; exact hr⟩ (by omega)] at e2
      cases e2
  · exact hn hc.removing

/-- The insertions: `insert` and `get_or_insert_with`. -/
def Op.inserts : Op K P → Prop
  | .insert _ => True
  | .getOrInsert _ _ => True
  | _ => False

theorem Op.inserts.insKey {o : Op K P} (h : o.inserts) : Req.insKey cfg (.op o) = some (o.key cfg.key) := by
  cases o with
  | insert p => rfl
  | getOrInsert k f => rfl
  | get k => cases h
  | remove k => cases h

/-- **C59.** Leftovers heal: an insertion during which no removal is in progress leaves nothing condemned on the way to its key, whatever overlapping removals
(C17) have left there before, and whoever else inserts and reads at the same time; and so it stays until a removal is called. -/
theorem C59_insert_heals (E : Exec cfg) {id j n : Nat} {o : Op K P} (ho : o.inserts) (hinv : E.Invoked id (.op o)) {r : Res P} (hr : E.Returns j id r)
    (hjn : j < n) (hf : E.RemovalsFinish n) (hn : E.NoRemoval id n) :
    (E.st n).m.WayClear cfg (o.key cfg.key) ∧ (E.st n).m.condemnedOnWay cfg (o.key cfg.key) = 0 := by
  have hid : id ≤ j := by
    obtain ⟨t, c, refs, weak, h1, h2, h3, -⟩ := (E.stepOK j).res id r hr
    have := (E.run_inv j h2).1; omega
  have h0 := E.heal_returns ho.insKey hinv hr
    (fun t _ i h1 h2 => .inr (E.noNew (fun i' hi => hf i' (by omega)) (hn i (by omega) (by omega))))
  have h1 : ∀ e, (E.st n).m.ClearTo (nibs (cfg.hash (o.key cfg.key))) e := fun e =>
    E.clear_stays (by omega) hf (fun τ a b => hn τ (by omega) b) (h0 e)
  exact ⟨Mem.ClearTo.way (E.inv n).mem h1, E.nothing_condemned hf (hn n (by omega) (Nat.le_refl _)) h1⟩

/-- **C59**, alone: from any reachable state, even with removals abandoned or stopped half way, an insertion whose session is the only one to take steps
leaves no condemned cell on the way to its key. -/
theorem C59_insert_alone_heals (E : Exec cfg) {id j t : Nat} {o : Op K P} (ho : o.inserts) (hinv : E.lab id = .call t (.op o)) {r : Res P} (hr : E.Returns j id r)
    (ha : ∀ i u weak, id < i → i < j → E.lab i = .tick u weak → u = t) : (E.st (j + 1)).m.WayClear cfg (o.key cfg.key) := by
  obtain ⟨t', c, refs, weak, h1, h2, h3, -⟩ := (E.stepOK j).res id r hr
  obtain ⟨g1, g2, g3⟩ := E.run_inv j h2
  rw [h3] at g2 g3
  rw [hinv] at g3
  have hreq : c.req = .op o := by
    simp only [Label.call.injEq] at g3
    exact g3.2.symm
  rw [hreq] at g2
  refine Mem.ClearTo.way (E.inv (j + 1)).mem (E.heal_returns ho.insKey g2 hr ?_)
  intro t1 e i i1 i2
  rw [hinv] at e; cases e
  by_cases h : ∃ u weak, E.lab i = .tick u weak
  · obtain ⟨u, weak, h⟩ := h
    obtain rfl := ha i u weak i1 i2 h
    exact .inl ⟨weak, h⟩
  · exact .inr (E.noNew_of_no_tick (fun u weak e => h ⟨u, weak, e⟩))

/-- **C59**, removals heal, too: a removal that finds its key, and is the only removal in progress meanwhile, leaves nothing condemned on its way - neither what
it found there nor what it condemned itself. -/
theorem C59_remove_heals (E : Exec cfg) {id j n : Nat} {k : K} (hinv : E.Invoked id (.op (.remove k))) {p : P}
    (hr : E.Returns j id (.op (.opt (some p)))) (hjn : j < n) (hf : E.RemovalsFinish n)
    (ho : ∀ i, id < i → i ≤ j → ∀ u c k', E.Running i u c → c.req = .op (.remove k') → c.inv = id) (hn : E.NoRemoval (j + 1) n) :
    (E.st n).m.WayClear cfg k ∧ (E.st n).m.condemnedOnWay cfg k = 0 := by
  obtain ⟨h0, -⟩ := E.heal_removed hinv hr (fun i' hi => hf i' (by omega)) ho
  have h1 : ∀ e, (E.st n).m.ClearTo (nibs (cfg.hash k)) e := fun e => E.clear_stays (by omega) hf hn (h0 e)
  exact ⟨Mem.ClearTo.way (E.inv n).mem h1, E.nothing_condemned hf (hn n (by omega) (Nat.le_refl _)) h1⟩

/-- **C59**, leftovers do not spread: while no removal is in progress, no cell gets condemned; the condemned nodes in the collection only get fewer. -/
theorem C59_never_more (E : Exec cfg) {i n : Nat} (hin : i ≤ n) (hf : E.RemovalsFinish n) (hn : E.NoRemoval i n) {a : Nat} {x : Fin 16}
    (hc : (E.st n).m.CondAt a x) (hl : (E.st n).m.retired a = none) : (E.st i).m.CondAt a x ∧ (E.st i).m.retired a = none := by
  induction n, hin using Nat.le_induction with
  | base => exact ⟨hc, hl⟩
  | succ n hin ih =>
    have hf' : E.RemovalsFinish n := fun i' hi => hf i' (by omega)
    refine ih hf' (fun τ h1 h2 => hn τ h1 (by omega)) (E.noNew hf' (hn n hin (by omega)) a x hc) ?_
    cases hr : (E.st n).m.retired a with
    | none => rfl
    | some τ => rw [(E.stepOK n).evo.retOld a τ hr] at hl; cases hl

/-- **C59**, only the first one pays: once an insertion of the key has returned, an update of the key that runs alone, called before any new removal, is as
fast as if nothing had ever been removed. -/
theorem C59_second_is_cheap (E : Exec cfg) {id j n : Nat} {o : Op K P} (ho : o.inserts) (hinv : E.Invoked id (.op o)) {r : Res P} (hr : E.Returns j id r)
    (hjn : j < n) (hf : E.RemovalsFinish n) (hn : E.NoRemoval id n) (t : Nat) {p : Nat} (hp : ((E.st n).thr t).pin = some p)
    (hrun : ((E.st n).thr t).run = none) (o' : Op K P) (hwf : (Label.call t (.op o')).WF cfg) (hk : o'.key cfg.key = o.key cfg.key) :
    ∃ x s' r, x ≤ o'.soloBound 0 ∧
      runList cfg (E.st n) (.call t (.op o') :: List.replicate x (.tick t false)) = some (s', [.inv n (.op o'), .res n r]) := by
  obtain ⟨x, s', r, h1, -, h2, -⟩ := C54_solo_bound E n t hp hrun o' hwf
  rw [hk, (C59_insert_heals E ho hinv hr hjn hf hn).2] at h1
  exact ⟨x, s', r, h1, h2⟩

/-! ### Examples -/

theorem Exec.noRemoval_of (E : Exec cfg) {i n : Nat} (hq : E.Quiescent i) (hl : ∀ τ, i ≤ τ → τ < n → ∀ t k, E.lab τ ≠ .call t (.op (.remove k))) :
    E.NoRemoval i n := by
  rintro τ h1 h2 ⟨t, c, k, h3, h4⟩
  obtain ⟨g1, -, g3⟩ := E.run_inv τ h3
  by_cases h : c.inv < i
  · obtain ⟨c', e, -⟩ := E.running_since h3 h h1
    rw [Exec.Running, hq t] at e; cases e
  · exact hl c.inv (by omega) (by omega) t k (by rw [g3, h4])

/-- The run of `exLeftover`; then session 0 inserts under key 0 again. -/
def exHeal : List (Label Nat (Nat × Nat)) := exLeftover ++ [.call 0 (.op (.insert (0, 9)))] ++ ticks 0 23

/-- The run of `exLeftover2`, where key 16 is left in a condemned node; then session 0 removes it. -/
def exHealRem : List (Label Nat (Nat × Nat)) := exLeftover2 ++ [.call 0 (.op (.remove 16))] ++ ticks 0 56

/-- The run of `exLeftover`; then session 0 tries to remove key 0, which is not there. -/
def exNoHeal : List (Label Nat (Nat × Nat)) := exLeftover ++ [.call 0 (.op (.remove 0))] ++ ticks 0 3

theorem no_abort_of {E : Exec exCfg} {ls : List (Label Nat (Nat × Nat))} (h3 : ∀ i, E.lab i = ls.getD i .idle)
    (h : ls.all (fun l => match l with | .abort _ => false | _ => true) = true) (n : Nat) : E.RemovalsFinish n := by
  intro i _ t c k e
  exfalso
  rw [h3] at e
  by_cases hi : i < ls.length
  · simp only [List.all_eq_true] at h
    have := h (ls.getD i .idle) (by simp [List.getD, List.getElem?_eq_getElem hi])
    rw [e] at this; cases this
  · simp [List.getD, List.getElem?_eq_none (Nat.le_of_not_lt hi)] at e

theorem lab_of_drop {E : Exec exCfg} {ls : List (Label Nat (Nat × Nat))} (h3 : ∀ i, E.lab i = ls.getD i .idle) (i0 : Nat)
    (h : (ls.drop i0).all (fun l => match l with | .call _ (.op (.remove _)) => false | _ => true) = true) :
    ∀ τ, i0 ≤ τ → ∀ t k, E.lab τ ≠ .call t (.op (.remove k)) := by
  intro τ hτ t k e
  rw [h3] at e
  by_cases hi : τ < ls.length
  · simp only [List.all_eq_true] at h
    have := h (ls.getD τ .idle) (by
      simp only [List.getD, List.getElem?_eq_getElem hi, Option.getD_some]
      rw [List.mem_drop_iff_getElem]
      exact ⟨τ - i0, by omega, by congr 1; omega⟩)
    rw [e] at this; cases this
  · simp [List.getD, List.getElem?_eq_none (Nat.le_of_not_lt hi)] at e

set_option maxRecDepth 40000 in
/-- Non-vacuity of `C59_insert_heals`: the leftovers of `C17_refuted` lie on the way to key 0 at instant 201, and are gone when the insertion of key 0 has
returned. -/
example : ∃ E : Exec exCfg, ¬ (E.st 201).m.WayClear exCfg 0 ∧ E.Invoked 201 (.op (.insert (0, 9))) ∧ E.Returns 224 201 (.op (.opt none)) ∧
    E.RemovalsFinish 225 ∧ E.NoRemoval 201 225 ∧ (E.st 225).m.WayClear exCfg 0 ∧ (E.st 225).m.condemnedOnWay exCfg 0 = 0 := by
  obtain ⟨E, h1, h2, h3⟩ := Exec.ofCheck' (cfg := exCfg) 4 (ls := exHeal) (by decide)
  have i1 : E.Invoked 201 (.op (.insert (0, 9))) := by simp only [Exec.Invoked, h2]; rfl
  have i2 : E.Returns 224 201 (.op (.opt none)) := by simp only [Exec.Returns, h2]; rfl
  have i3 : E.RemovalsFinish 225 := no_abort_of h3 (by decide) 225
  have hq : E.Quiescent 201 := by
    refine E.quiescent_of_list 4 h3 (by decide) ?_
    simp only [h1]; decide
  have i4 : E.NoRemoval 201 225 := E.noRemoval_of hq (fun τ h _ => lab_of_drop h3 201 (by decide) τ h)
  refine ⟨E, ?_, i1, i2, i3, i4, C59_insert_heals E (o := .insert (0, 9)) trivial i1 i2 (by omega) i3 i4⟩
  intro h
  have := h [0, 0] ⟨none, true, false⟩ (by decide) (by rw [h1]; decide)
  cases this

set_option maxRecDepth 40000 in
/-- Non-vacuity of `C59_remove_heals`: key 16 lies in a node that was left behind condemned; its removal clears the way. -/
example : ∃ E : Exec exCfg, ¬ (E.st 127).m.WayClear exCfg 16 ∧ E.Invoked 127 (.op (.remove 16)) ∧ E.Returns 183 127 (.op (.opt (some (16, 2)))) ∧
    (E.st 184).m.WayClear exCfg 16 := by
  obtain ⟨E, h1, h2, h3⟩ := Exec.ofCheck' (cfg := exCfg) 3 (ls := exHealRem) (by decide)
  have i1 : E.Invoked 127 (.op (.remove 16)) := by simp only [Exec.Invoked, h2]; rfl
  have i2 : E.Returns 183 127 (.op (.opt (some (16, 2)))) := by simp only [Exec.Returns, h2]; rfl
  have hq : E.Quiescent 127 := by
    refine E.quiescent_of_list 3 h3 (by decide) ?_
    simp only [h1]; decide
  have hq' : E.Quiescent 184 := by
    refine E.quiescent_of_list 3 h3 (by decide) ?_
    simp only [h1]; decide
  have ho : ∀ i, 127 < i → i ≤ 183 → ∀ u c k', E.Running i u c → c.req = .op (.remove k') → c.inv = 127 := by
    intro i a1 a2 u c k' hc hk
    obtain ⟨g1, -, g3⟩ := E.run_inv i hc
    by_cases h : c.inv < 127
    · obtain ⟨c', e, -⟩ := E.running_since hc h (by omega)
      rw [Exec.Running, hq u] at e; cases e
    · by_contra hne
      exact lab_of_drop h3 128 (by decide) c.inv (by omega) u k' (by rw [g3, hk])
  refine ⟨E, ?_, i1, i2, (C59_remove_heals E i1 i2 (Nat.lt_succ_self _) (no_abort_of h3 (by decide) _) ho ?_).1⟩
  · intro h
    have := h [0, 1] ⟨some 3, true, true⟩ (by decide) (by rw [h1]; decide)
    cases this
  · exact E.noRemoval_of hq' (fun τ h _ => lab_of_drop h3 128 (by decide) τ (by omega))

set_option maxRecDepth 40000 in
/-- A removal that does not find its key need not clear its way, even if it runs alone: the hypothesis of `C59_remove_heals` that it does cannot be dropped. -/
theorem C59_missing_key_need_not_heal : ∃ E : Exec exCfg, E.Quiescent 201 ∧ E.Invoked 201 (.op (.remove 0)) ∧ E.Returns 204 201 (.op (.opt none)) ∧
    ¬ (E.st 205).m.WayClear exCfg 0 := by
  obtain ⟨E, h1, h2, h3⟩ := Exec.ofCheck' (cfg := exCfg) 4 (ls := exNoHeal) (by decide)
  refine ⟨E, ?_, by simp only [Exec.Invoked, h2]; rfl, by simp only [Exec.Returns, h2]; rfl, ?_⟩
  · refine E.quiescent_of_list 4 h3 (by decide) ?_
    simp only [h1]; decide
  · intro h
    have := h [0, 0] ⟨none, true, false⟩ (by decide) (by rw [h1]; decide)
    cases this

end Contrie
