import Verif.Proof.Cost
import Mathlib.Data.List.GetD
import Verif.Props.Progress
import Verif.Props.Retry
/-
C54: what an undisturbed call costs. A call that runs alone needs at most a constant number of accesses to shared memory, however many elements the
collection holds and wherever the calls of other sessions have been stopped.
-/
set_option linter.unusedSectionVars false
namespace Contrie
variable {K P : Type} [DecidableEq K] {cfg : Config K P}

/-- Number of inner nodes in the collection, on the way to key `k`, that some call has begun to condemn and nobody has cleared away yet. -/
noncomputable def Mem.condemnedOnWay (m : Mem P) (cfg : Config K P) (k : K) : Nat :=
  cnt (Finset.range m.next) (fun a => ∃ c p, m.mem a = some (.inner c p) ∧ m.retired a = none ∧ p <+: nibs (cfg.hash k) ∧ ∃ i, (c i).cond = true)

/-- The accesses to shared memory an undisturbed call makes at most, when `x` nodes on its way are condemned: looking up reads one cell per level (16 levels
of inner nodes and the leaf); an insertion also pushes leaves down, publishes the element, and clears every condemned node away; a removal also looks through
the nodes above its leaf (16 cells to count and 16 to condemn in each) to prune them. -/
def Op.soloBound : Op K P → Nat → Nat
  | .get _, _ => 17
  | .insert _, x => 69 + 40 * x
  | .getOrInsert _ _, x => 69 + 40 * x
  | .remove _, x => 565 + 40 * x

/-- A session running alone finishes its call within `cost + 1` steps. -/
theorem Exec.solo_within {o : Op K P} {t : Nat} : ∀ (x : Nat) (E : Exec cfg) (i : Nat) (c : Call K P),
    c.pc.cost (E.st i).m (nibs (cfg.hash (o.key cfg.key))) c.ticks ≤ x → ((E.st i).thr t).run = some c → c.req = .op o →
      ∃ n s' r, 1 ≤ n ∧ n ≤ x + 1 ∧ RunOK cfg (E.st i) (List.replicate n (.tick t false)) ∧
        runList cfg (E.st i) (List.replicate n (.tick t false)) = some (s', [.res c.inv r]) ∧ (s'.thr t).run = none := by
  intro x
  have hlast : ∀ (E' : Exec cfg) (i : Nat) (c : Call K P) (pc : PC K P) {n : Nat}, ((E'.st (i + 1)).thr t).run = some { c with pc := pc, calls := n, ticks := c.ticks + 1 } →
      ∀ k h l, pc = .get k h l → c.ticks + 1 ≤ 16 := by
    intro E' i c pc n g3 k h l e
    subst e
    have := E'.run_pcinv g3
    simp only [PCInv] at this
    obtain ⟨-, -, d, h1, h2, -⟩ := this
    omega
  induction x with
  | zero =>
    intro E i c hx hc ho
    obtain ⟨E', h1, h2, h3, h4⟩ := E.tick_cases hc false
    have hs := E'.step i
    rw [h3, h1 i (Nat.le_refl i)] at hs
    rcases h4 with ⟨pc, ran, g1, g2, g3⟩ | ⟨r, refs, g1, g2, g3⟩
    · have hlt := tick_cost (m' := (tick cfg (E.st i).m false c.pc).1) ((E.inv i).ctx hc) (E.run_pcinv hc) (E.helps i t c hc) ho
        (E.pairs_path i t c o hc ho) (Prod.ext rfl g1) (hlast E' i c pc g3)
      omega
    · rw [g2] at hs
      refine ⟨1, E'.st (i + 1), r, by omega, by omega, ?_, ?_, g3⟩
      · simp only [List.replicate, RunOK, hs]
        exact ⟨trivial, trivial, trivial⟩
      · simp only [List.replicate, runList, hs]
        rfl
  | succ x ih =>
    intro E i c hx hc ho
    obtain ⟨E', h1, h2, h3, h4⟩ := E.tick_cases hc false
    have hs := E'.step i
    rw [h3, h1 i (Nat.le_refl i)] at hs
    rcases h4 with ⟨pc, ran, g1, g2, g3⟩ | ⟨r, refs, g1, g2, g3⟩
    · have hlt := tick_cost (m' := (tick cfg (E.st i).m false c.pc).1) ((E.inv i).ctx hc) (E.run_pcinv hc) (E.helps i t c hc) ho
        (E.pairs_path i t c o hc ho) (Prod.ext rfl g1) (hlast E' i c pc g3)
      obtain ⟨c0, k1, k2, -, -⟩ := step_tick hs
      rw [hc] at k1; cases k1
      rw [g2] at hs
      obtain ⟨n, s', r, m1, m2, n2, n3, n4⟩ := ih E' (i + 1) _ (by rw [k2, cost_bump]; simp only; omega) g3 ho
      refine ⟨n + 1, s', r, by omega, by omega, ?_, ?_, n4⟩
      · simp only [List.replicate_succ, RunOK, hs]
        exact ⟨trivial, trivial, n2⟩
      · simp only [List.replicate_succ, runList, hs, n3]
        rfl
    · rw [g2] at hs
      refine ⟨1, E'.st (i + 1), r, by omega, by omega, ?_, ?_, g3⟩
      · simp only [List.replicate, RunOK, hs]
        exact ⟨trivial, trivial, trivial⟩
      · simp only [List.replicate, runList, hs]
        rfl

theorem late_le (m : Mem P) (x : Loc × Word) : late m x ≤ 40 := by unfold late; split <;> omega

theorem lateOpt_le (m : Mem P) (x : Option (Loc × Word)) : lateOpt m x ≤ 40 := by
  cases x with
  | none => exact Nat.zero_le _
  | some x => exact late_le m x

/-- The nodes on the way to a key that are condemned number at most sixteen. -/
theorem Exec.condemnedOnWay_le (E : Exec cfg) (i : Nat) (k : K) : (E.st i).m.condemnedOnWay cfg k ≤ 16 :=
  (sick_le_solid _ _).trans ((E.inv i).mem.solid_le _)

theorem TravReq.soloBound {o : Op K P} {mode : Mode} {st : TState K P} {n : Nat} (h : TravReq cfg (.op o) mode st n) (x : Nat) :
    o.soloBound x = 69 + 40 * x := by cases h <;> rfl

/-- A call remembers at most one pair per level. -/
theorem Exec.pairs_length (E : Exec cfg) {i t : Nat} {c : Call K P} (hc : ((E.st i).thr t).run = some c) : c.pc.pairs.length ≤ 16 := by
  have h1 := E.chain i t c hc
  have h2 : ∀ y ∈ c.pc.pairs, (E.st i).m.depth y.1 < 16 := by
    intro y hy
    obtain ⟨a, cs, q, -, g2, -, g4⟩ := (E.run_pcinv hc).pairs_ok y hy
    rw [g4.depth]
    exact ((E.inv i).mem.nodeOK a cs q g2).1
  unfold DepthChain PC.locs at h1
  rw [List.map_append, List.pairwise_append] at h1
  have h3 : (c.pc.pairs.map (fun y => (E.st i).m.depth y.1)).Nodup := by
    have := h1.2.1
    rw [List.map_map] at this
    exact this.imp (fun h e => by omega)
  have h4 := List.Nodup.length_le_card (α := Fin 16) (l := c.pc.pairs.map (fun y => (⟨(E.st i).m.depth y.1 % 16, Nat.mod_lt _ (by omega)⟩ : Fin 16))) ?_
  · simpa using h4
  · have := List.Nodup.map_on (f := fun n : Nat => (⟨n % 16, Nat.mod_lt _ (by omega)⟩ : Fin 16)) ?_ h3
    · rwa [List.map_map] at this
    · intro x hx y hy e
      simp only [List.mem_map] at hx hy
      obtain ⟨x', hx', rfl⟩ := hx
      obtain ⟨y', hy', rfl⟩ := hy
      have := h2 _ hx'; have := h2 _ hy'
      simp only [Fin.mk.injEq] at e
      omega

/-- **C54**, in the middle of a call: from any reachable state, wherever the calls of the other sessions have been stopped, a call in progress that runs
alone from now on returns within a constant number of its own steps: the bound of a whole call, and 42 more for what it read before others changed it. -/
theorem C54_solo_bound_midway (E : Exec cfg) {i t : Nat} {c : Call K P} (hc : E.Running i t c) {o : Op K P} (ho : c.req = .op o) :
    ∃ n s' r, n ≤ o.soloBound ((E.st i).m.condemnedOnWay cfg (o.key cfg.key)) + 42 ∧
      RunOK cfg (E.st i) (List.replicate n (.tick t false)) ∧
      runList cfg (E.st i) (List.replicate n (.tick t false)) = some (s', [.res c.inv r]) ∧ (s'.thr t).run = none := by
  obtain ⟨n, s', r, -, h1, h2⟩ := Exec.solo_within (o := o) (t := t) _ E i c (Nat.le_refl _) hc ho
  refine ⟨n, s', r, h1.trans ?_, h2⟩
  have hi := E.run_pcinv hc
  have e : (E.st i).m.condemnedOnWay cfg (o.key cfg.key) = (E.st i).m.sick (nibs (cfg.hash (o.key cfg.key))) := rfl
  rw [e]
  have hp := E.pairs_length hc
  unfold PC.cost
  generalize (E.st i).m = m at *
  cases hpc : c.pc with
  | get key hash cur =>
    simp only [PCInv, hpc] at hi
    have := hi.1; rw [ho] at this; cases this
    simp only [PC.near, PC.far, Op.soloBound]; omega
  | isEmpty => simp only [PCInv, hpc] at hi; rw [ho] at hi; cases hi.1
  | iterNew => simp only [PCInv, hpc] at hi; rw [ho] at hi; cases hi.1
  | iterNext lv out => simp only [PCInv, hpc] at hi; rw [ho] at hi; cases hi.1
  | trav st hash mode shift cur parent =>
    simp only [PCInv, hpc] at hi
    obtain ⟨d, -, h⟩ := hi
    have h := h.req
    rw [ho] at h
    have := lateOpt_le m parent
    rw [h.soloBound]; simp only [PC.near, PC.far]; omega
  | travCas st hash mode shift cur parent node new kind =>
    simp only [PCInv, hpc] at hi
    obtain ⟨d, -, h, -⟩ := hi
    have h := h.req
    rw [ho] at h
    have := lateOpt_le m parent
    rw [h.soloBound]; simp only [PC.near, PC.far]; split <;> omega
  | rem key shift cur levels =>
    simp only [PCInv, hpc] at hi
    have := hi.1; rw [ho] at this; cases this
    have := lateOpt_le m levels.head?
    simp only [PC.near, PC.far, Op.soloBound]; omega
  | remCas key shift cur levels node new deleted =>
    simp only [PCInv, hpc] at hi
    have := hi.1; rw [ho] at this; cases this
    have := lateOpt_le m levels.head?
    simp only [PC.near, PC.far, Op.soloBound]; split <;> omega
  | count deleted ref parent child rest i cn =>
    simp only [PCInv, hpc] at hi
    obtain ⟨k, hk⟩ := hi.1; rw [ho] at hk; cases hk
    simp only [hpc, PC.pairs, List.length_cons] at hp
    simp only [PC.near, PC.far, Op.soloBound]; omega
  | prune parent child i acc k =>
    simp only [PCInv, hpc] at hi
    obtain ⟨hk, -⟩ := hi
    have := late_le m (parent, child)
    cases k with
    | trav st hash mode =>
      have h := hk.1
      rw [ho] at h
      rw [h.soloBound]; simp only [PC.near, PC.far]; omega
    | rem key =>
      have h := hk.1
      rw [ho] at h; cases h
      simp only [PC.near, PC.far, Op.soloBound]; omega
    | clean deleted ref rest =>
      obtain ⟨k, h⟩ := hk.1.1
      rw [ho] at h; cases h
      simp only [hpc, PC.pairs, Cont.pairs, List.length_cons] at hp
      simp only [PC.near, PC.far, Op.soloBound]; omega
  | pruneCas parent child acc k =>
    simp only [PCInv, hpc] at hi
    obtain ⟨hk, -⟩ := hi
    have := late_le m (parent, child)
    cases k with
    | trav st hash mode =>
      have h := hk.1
      rw [ho] at h
      rw [h.soloBound]; simp only [PC.near, PC.far]; omega
    | rem key =>
      have h := hk.1
      rw [ho] at h; cases h
      simp only [PC.near, PC.far, Op.soloBound]; omega
    | clean deleted ref rest =>
      obtain ⟨k, h⟩ := hk.1.1
      rw [ho] at h; cases h
      simp only [hpc, PC.pairs, Cont.pairs, List.length_cons] at hp
      simp only [PC.near, PC.far, Op.soloBound]; omega

/-- **C54**, a whole call: in any reachable state, wherever the calls of the other sessions have been stopped and however many elements there are, a session
that holds a guard and is not in a call can start any map operation and, running alone, gets its result within `soloBound` steps. -/
theorem C54_solo_bound (E : Exec cfg) (i t : Nat) {p : Nat} (hp : ((E.st i).thr t).pin = some p)
    (hr : ((E.st i).thr t).run = none) (o : Op K P) (hwf : (Label.call t (.op o)).WF cfg) :
    ∃ n s' r, n ≤ o.soloBound ((E.st i).m.condemnedOnWay cfg (o.key cfg.key)) ∧
      RunOK cfg (E.st i) (.call t (.op o) :: List.replicate n (.tick t false)) ∧
      runList cfg (E.st i) (.call t (.op o) :: List.replicate n (.tick t false)) = some (s', [.inv i (.op o), .res i r]) ∧
      (s'.thr t).run = none := by
  have hf := ((E.inv i).thr t).noFail
  have hok1 : RunOK cfg (E.st i) [.call t (.op o)] := by
    refine ⟨trivial, hwf, ?_⟩
    simp only [Contrie.step, hp, hr, hf]
    trivial
  obtain ⟨E1, a1, a2, a3, a4⟩ := E.splice i hok1
  have hl1 : E1.lab i = .call t (.op o) := by simpa using a4 0
  have hs1 := E1.step i
  rw [hl1, a1 i (Nat.le_refl i)] at hs1
  obtain ⟨b1, b2, b3⟩ := step_call hs1
  rw [E.clock] at b1 b2
  have hm : (E1.st (i + 1)).m = (E.st i).m.bump := by
    simp only [Contrie.step, hp, hr, hf, Option.some.injEq, Prod.mk.injEq] at hs1
    rw [← hs1.1]
  obtain ⟨n, s', r, c0, c1, c2, c3, c4⟩ := Exec.solo_within (o := o) (t := t) _ E1 (i + 1) _ (Nat.le_refl _) b1 rfl
  refine ⟨n, s', r, ?_, ?_, ?_, c4⟩
  · refine c1.trans ?_
    rw [hm, cost_bump]
    have e : (E.st i).m.condemnedOnWay cfg (o.key cfg.key) = (E.st i).m.sick (nibs (cfg.hash (o.key cfg.key))) := rfl
    rw [e]
    cases o <;> (simp only [startPC, PC.cost, PC.near, PC.far, lateOpt, Op.soloBound, List.head?_nil]; omega)
  · exact ⟨trivial, hwf, by simp only [hs1]; exact c2⟩
  · rw [b2] at hs1
    simp only [runList, hs1, c3]
    rfl

/-- **C54**, one number: no map operation that runs alone makes more than 1205 accesses to shared memory. -/
theorem C54_solo_constant (E : Exec cfg) (i t : Nat) {p : Nat} (hp : ((E.st i).thr t).pin = some p)
    (hr : ((E.st i).thr t).run = none) (o : Op K P) (hwf : (Label.call t (.op o)).WF cfg) :
    ∃ n s' r, n ≤ 1205 ∧
      runList cfg (E.st i) (.call t (.op o) :: List.replicate n (.tick t false)) = some (s', [.inv i (.op o), .res i r]) := by
  obtain ⟨n, s', r, h1, -, h2, -⟩ := C54_solo_bound E i t hp hr o hwf
  refine ⟨n, s', r, h1.trans ?_, h2⟩
  have := E.condemnedOnWay_le i (o.key cfg.key)
  cases o <;> simp only [Op.soloBound] <;> omega

/-- **C54**, nothing condemned: as long as no removal has been called there is nothing to clear away, and an insertion that runs alone makes at most 69
accesses, a lookup at most 17. -/
theorem C54_without_removals (E : Exec cfg) (i t : Nat) (hno : ∀ j u k, j < i → E.lab j ≠ .call u (.op (.remove k)))
    {p : Nat} (hp : ((E.st i).thr t).pin = some p)
    (hr : ((E.st i).thr t).run = none) (o : Op K P) (hwf : (Label.call t (.op o)).WF cfg) :
    ∃ n s' r, n ≤ o.soloBound 0 ∧
      runList cfg (E.st i) (.call t (.op o) :: List.replicate n (.tick t false)) = some (s', [.inv i (.op o), .res i r]) := by
  obtain ⟨n, s', r, h1, -, h2, -⟩ := C54_solo_bound E i t hp hr o hwf
  have : (E.st i).m.condemnedOnWay cfg (o.key cfg.key) = 0 := by
    unfold Mem.condemnedOnWay cnt
    classical
    rw [Finset.card_eq_zero, Finset.filter_eq_empty_iff]
    rintro a - ⟨c, q, g1, -, -, n, g2⟩
    rw [(E.calm hno).1.2 a c q n g1] at g2
    cases g2
  rw [this] at h1
  exact ⟨n, s', r, h1, h2⟩

set_option maxRecDepth 8000 in
/-- Non-vacuity: in the run `exHelp`, session 0 has been stopped while it clears away the inner node on the way to key 7 (one condemned node). Session 1 then
inserts 7 anew, alone: it is back after 23 accesses, and not after 22. -/
example : ∃ E : Exec exCfg, ((E.st 36).thr 1).pin ≠ none ∧ ((E.st 36).thr 1).run = none ∧ ((E.st 36).thr 0).run ≠ none ∧
    0 < (E.st 36).m.condemnedOnWay exCfg 7 ∧ E.lab 36 = .call 1 (.op (.insert (7, 5))) ∧ (∀ j, 37 ≤ j → j < 60 → E.lab j = .tick 1 false) ∧
    ((E.st 59).thr 1).run ≠ none ∧ ((E.st 60).thr 1).run = none := by
  obtain ⟨E, h1, -, h3⟩ := Exec.ofCheck' (cfg := exCfg) 4 (ls := exHelp) (by decide)
  have hx : (match (stAt exCfg exHelp 36).m.mem 2 with
      | some (.inner c p) => decide (p = [7]) && (c 0).cond
      | _ => false) = true ∧ (stAt exCfg exHelp 36).m.retired 2 = none ∧ 2 < (stAt exCfg exHelp 36).m.next := by decide
  have hcase : ∃ c, (stAt exCfg exHelp 36).m.mem 2 = some (.inner c [7]) ∧ (c 0).cond = true := by
    obtain ⟨h, -⟩ := hx
    split at h
    · next c p e => simp only [Bool.and_eq_true, decide_eq_true_eq] at h; obtain ⟨rfl, h⟩ := h; exact ⟨c, e, h⟩
    · cases h
  refine ⟨E, by rw [h1]; decide, by rw [h1]; rfl, ?_, ?_, by rw [h3]; rfl, ?_, ?_, ?_⟩
  · have e : ((stAt exCfg exHelp 36).thr 0).run.isSome = true := by decide
    rw [h1]; intro h; rw [h] at e; cases e
  · obtain ⟨c, hc, hc0⟩ := hcase
    rw [h1]
    unfold Mem.condemnedOnWay cnt
    refine Finset.card_pos.mpr ⟨2, ?_⟩
    simp only [Finset.mem_filter, Finset.mem_range]
    exact ⟨hx.2.2, c, [7], hc, hx.2.1, by decide, 0, hc0⟩
  · intro j hj1 hj2
    rw [h3]
    unfold exHelp
    rw [List.getD_append_right _ _ _ _ (by simpa [ticks] using hj1)]
    simp only [ticks, List.length_append, List.length_cons, List.length_nil, List.length_replicate]
    rw [List.getD_replicate _ (by omega)]
  · have e : ((stAt exCfg exHelp 59).thr 1).run.isSome = true := by decide
    rw [h1]; intro h; rw [h] at e; cases e
  · have e : ((stAt exCfg exHelp 60).thr 1).run.isNone = true := by decide
    rw [h1]; simpa using e

end Contrie
