import Verif.Proof.ReuseTick
/-
Every execution with reuse of memory is, but for the names of the nodes, an execution without.
-/
set_option linter.unusedSectionVars false
set_option linter.unusedSimpArgs false
namespace Contrie
variable {K P : Type} [DecidableEq K] {cfg : Config K P} {ρ : Nat → Nat}

theorem startPC_ren (r : Req K P) : (startPC cfg r).ren ρ = startPC cfg r := by
  cases r with
  | op o => cases o <;> rfl
  | isEmpty => rfl
  | iter => rfl

theorem apply_ren (th : Thread K P) (c : Call K P) (n : Next K P) : (th.ren ρ).apply (c.ren ρ) (n.ren ρ) = (th.apply c n).ren ρ := by
  cases n with
  | goto pc ran => rfl
  | ret r refs => simp [Thread.apply, Thread.ren, Next.ren]
  | fail f => rfl

theorem event_ren (id : Nat) (n : Next K P) : (n.ren ρ).event id = n.event id := by cases n <;> rfl

/-- The states agree but for the names of the nodes. -/
structure StRel (ρ : Nat → Nat) (sa sc : State K P) : Prop where
  mem : MemRel ρ sa.m sc.m
  thr : ∀ t, sc.thr t = (sa.thr t).ren ρ

theorem StRel.upd {sa sc : State K P} (h : ∀ t, sc.thr t = (sa.thr t).ren ρ) (t : Nat) {th th' : Thread K P} (e : th' = th.ren ρ) (t' : Nat) :
    upd sc.thr t th' t' = (upd sa.thr t th t').ren ρ := by
  simp only [Contrie.upd]
  split
  · exact e
  · exact h t'

open Classical in
/-- What the step is in the execution without reuse: the collector destroys the node that is at the address, if there is one. -/
noncomputable def Label.unre (ρ : Nat → Nat) (sa : State K P) : Label K P → Label K P
  | .free x => if h : ∃ a, sa.m.deref a ≠ none ∧ ρ a = x then .free h.choose else .idle
  | l => l

theorem Exec.blank (E : Exec cfg) (n : Nat) : Blank (E.st n).m := by
  have h := (E.inv n).mem
  have h1 := h.fresh (E.st n).m.next (Nat.le_refl _)
  have h2 : (E.st n).m.retired (E.st n).m.next = none := by
    cases hr : (E.st n).m.retired (E.st n).m.next with
    | none => rfl
    | some τ => exact absurd h1 (h.retTime _ τ hr).2
  refine ⟨h1, h2, ?_⟩
  cases hf : (E.st n).m.freed (E.st n).m.next with
  | false => rfl
  | true => obtain ⟨τ, hτ⟩ := h.freedRet _ hf; rw [h2] at hτ; cases hτ

theorem step_ren (E : Exec cfg) (n : Nat) {sc sc' : State K P} {x : Nat} {l : Label K P} {e : Option (Event K P)} (h : StRel ρ (E.st n) sc)
    (hs : rstep cfg sc x l = some (sc', e)) (hen : l.enabled sc) (hwf : l.WF cfg) (hρ : sc'.m.next ≠ x → ρ (E.st n).m.next = x) :
    ∃ sa', Contrie.step cfg (E.st n) (l.unre ρ (E.st n)) = some (sa', e) ∧ (l.unre ρ (E.st n)).enabled (E.st n) ∧ (l.unre ρ (E.st n)).WF cfg ∧ StRel ρ sa' sc' ∧
      ((sa'.m.next = (E.st n).m.next ∧ sc'.m.next = x) ∨ (sa'.m.next = (E.st n).m.next + 1 ∧ sc'.m.next = x + 1)) := by
  simp only [rstep] at hs
  split at hs
  · cases hs
  · next hu =>
    have hx : sc.m.deref x = none := by simpa [Mem.inUse] using hu
    have hm := h.mem.offer hx
    have hth := h.thr
    generalize hsa : E.st n = sa at *
    have hpin : ∀ t, (sc.thr t).pin = (sa.thr t).pin := fun t => by rw [hth]; rfl
    have hfail : ∀ t, (sc.thr t).failed = (sa.thr t).failed := fun t => by rw [hth]; rfl
    have hrun : ∀ t, (sc.thr t).run = (sa.thr t).run.map (Call.ren ρ) := fun t => by rw [hth]; rfl
    cases l with
    | pin t =>
      simp only [Contrie.step, Label.unre, hpin t, hfail t] at hs ⊢
      cases hp : (sa.thr t).pin with
      | some p => simp [hp] at hs
      | none =>
        cases hf : (sa.thr t).failed with
        | some f => simp [hp, hf] at hs
        | none =>
          simp only [hp, hf, Option.some.injEq, Prod.mk.injEq] at hs
          obtain ⟨rfl, rfl⟩ := hs
          refine ⟨_, rfl, trivial, trivial, ⟨hm.bump, StRel.upd hth t ?_⟩, .inl ⟨rfl, rfl⟩⟩
          have : (sc.m.offer x).clock = sa.m.clock := hm.clock
          simp only [this, hth t]
          simp [Thread.ren, hf]
    | unpin t =>
      simp only [Contrie.step, Label.unre, hpin t, hfail t, hrun t] at hs ⊢
      cases hp : (sa.thr t).pin with
      | none => simp [hp] at hs
      | some p =>
        cases hr : (sa.thr t).run with
        | some c => simp [hp, hr] at hs
        | none =>
          cases hf : (sa.thr t).failed with
          | some f => simp [hp, hf, hr] at hs
          | none =>
            simp only [hp, hf, hr, Option.map, Option.some.injEq, Prod.mk.injEq] at hs
            obtain ⟨rfl, rfl⟩ := hs
            refine ⟨_, rfl, trivial, trivial, ⟨hm.bump, StRel.upd hth t ?_⟩, .inl ⟨rfl, rfl⟩⟩
            simp [Thread.ren, hf, hr]
    | call t r =>
      simp only [Contrie.step, Label.unre, hpin t, hfail t, hrun t] at hs ⊢
      cases hp : (sa.thr t).pin with
      | none => simp [hp] at hs
      | some p =>
        cases hr : (sa.thr t).run with
        | some c => simp [hp, hr] at hs
        | none =>
          cases hf : (sa.thr t).failed with
          | some f => simp [hp, hf, hr] at hs
          | none =>
            have hcl : (sc.m.offer x).clock = sa.m.clock := hm.clock
            simp only [hp, hf, hr, Option.map, Option.some.injEq, Prod.mk.injEq, hcl] at hs
            obtain ⟨rfl, rfl⟩ := hs
            refine ⟨_, rfl, trivial, hwf, ⟨hm.bump, StRel.upd hth t ?_⟩, .inl ⟨rfl, rfl⟩⟩
            simp only [hth t]
            simp [Thread.ren, Call.ren, startPC_ren, hf, hp]
    | tick t weak =>
      simp only [Contrie.step, Label.unre, hrun t] at hs ⊢
      cases hr : (sa.thr t).run with
      | none => simp [hr] at hs
      | some c =>
        simp only [hr, Option.map, Option.some.injEq, Prod.mk.injEq] at hs
        obtain ⟨rfl, rfl⟩ := hs
        have hrun' : E.Running n t c := by simp only [Exec.Running, hsa, hr]
        have hok : (tick cfg sa.m weak c.pc).2.ok := by
          cases hn : (tick cfg sa.m weak c.pc).2 with
          | fail f => exact absurd (by rw [hsa]; exact hn) (C05_no_failing_step E n t c hrun' weak f)
          | goto => trivial
          | ret => trivial
        have haddr : ∀ a b, sa.m.mem a ≠ none → sa.m.mem b ≠ none → sa.m.freed a = false → sa.m.freed b = false → ρ a = ρ b → a = b :=
          fun a b ha hb fa fb e => hm.inj a b (by simpa [Mem.deref, fa] using ha) (by simpa [Mem.deref, fb] using hb) e
        have hcas : ∀ l e w, c.pc.cas = some (l, e) → sa.m.read l = some w → (w.ren ρ = e.ren ρ ↔ w = e) := by
          intro l e w hc hw
          obtain ⟨w', g1, g2⟩ := C34_no_aba E hrun' hc ρ (by rw [hsa]; exact haddr)
          rw [hsa, hw] at g1
          cases g1
          rw [← g2]
          simp [Word.ren, Word.phys]
        have hlive : ∀ l e a, c.pc.cas = some (l, e) → e.ptr = some a → sa.m.deref a ≠ none := by
          intro l e a hc ha
          have hh := (E.cas_held hrun' hc).2 a ha
          have hf := ((E.inv n).ctx hrun').hfree a hh
          rw [hsa] at hf hh
          simpa [Mem.deref, hf] using hh.1
        have hb := E.blank n
        rw [hsa] at hb
        obtain ⟨g1, g2, g3⟩ := tick_ren (cfg := cfg) hm hb (Mem.offer_blank sc.m x) (weak := weak) (pc := c.pc) hok hcas hlive hρ
        refine ⟨⟨(tick cfg sa.m weak c.pc).1.bump, upd sa.thr t ((sa.thr t).apply c (tick cfg sa.m weak c.pc).2)⟩, ?_, trivial, trivial, ⟨g2.bump, StRel.upd hth t ?_⟩, g3⟩
        · show some (_, _) = some (_, Next.event c.inv (tick cfg (sc.m.offer x) weak (c.pc.ren ρ)).2)
          rw [g1, event_ren]
        · rw [hth t]
          show Thread.apply _ _ (tick cfg (sc.m.offer x) weak (c.pc.ren ρ)).2 = _
          rw [g1]
          exact apply_ren _ _ _
    | abort t =>
      simp only [Contrie.step, Label.unre, hrun t] at hs ⊢
      cases hr : (sa.thr t).run with
      | none => simp [hr] at hs
      | some c =>
        simp only [hr, Option.map, Option.some.injEq, Prod.mk.injEq] at hs
        obtain ⟨rfl, rfl⟩ := hs
        refine ⟨_, rfl, trivial, trivial, ⟨hm.bump, StRel.upd hth t ?_⟩, .inl ⟨rfl, rfl⟩⟩
        simp [Thread.ren, hfail t]
    | free y =>
      simp only [Contrie.step, Option.some.injEq, Prod.mk.injEq] at hs
      obtain ⟨rfl, rfl⟩ := hs
      simp only [Label.unre]
      split
      · next hy =>
        have hsp := hy.choose_spec
        generalize hy.choose = a at hsp ⊢
        obtain ⟨h1, rfl⟩ := hsp
        obtain ⟨τ, e1, e2⟩ := hen
        obtain ⟨nd, hnd⟩ := Option.ne_none_iff_exists'.mp h1
        refine ⟨_, rfl, ⟨τ, ?_, fun t p hp => e2 t p (by rw [hpin]; exact hp)⟩, trivial, ⟨hm.bump.free h1, hth⟩, .inl ⟨rfl, rfl⟩⟩
        rw [← (h.mem.live a nd hnd).2]; exact e1
      · next hy =>
        refine ⟨_, rfl, trivial, trivial, ⟨hm.bump.free_none ?_, hth⟩, .inl ⟨rfl, rfl⟩⟩
        cases hd : (sc.m.offer x).bump.deref y with
        | none => rfl
        | some nd => exact absurd (hm.only y (by rw [show (sc.m.offer x).deref y = some nd from hd]; simp)) hy
    | idle =>
      simp only [Contrie.step, Option.some.injEq, Prod.mk.injEq] at hs
      obtain ⟨rfl, rfl⟩ := hs
      exact ⟨_, rfl, trivial, trivial, ⟨hm.bump, hth⟩, .inl ⟨rfl, rfl⟩⟩

/-! ### The execution without reuse -/

/-- Step `i` allocates. -/
def RExec.allocates (R : RExec cfg) (i : Nat) : Bool := (R.st (i + 1)).m.next != R.addr i

/-- How many nodes were created before instant `n`. -/
def RExec.created (R : RExec cfg) : Nat → Nat
  | 0 => 0
  | n + 1 => R.created n + (if R.allocates n then 1 else 0)

theorem RExec.created_mono (R : RExec cfg) {i j : Nat} (h : i < j) (hi : R.allocates i = true) : R.created i < R.created j := by
  induction j with
  | zero => omega
  | succ j ih =>
    by_cases e : i = j
    · subst e; simp [RExec.created, hi]
    · have := ih (by omega)
      simp only [RExec.created]; omega

open Classical in
/-- The address of the `k`-th node. -/
noncomputable def RExec.address (R : RExec cfg) (k : Nat) : Nat :=
  if h : ∃ i, R.allocates i = true ∧ R.created i = k then R.addr h.choose else 0

theorem RExec.address_eq (R : RExec cfg) {i : Nat} (h : R.allocates i = true) : R.address (R.created i) = R.addr i := by
  have hex : ∃ j, R.allocates j = true ∧ R.created j = R.created i := ⟨i, h, rfl⟩
  simp only [RExec.address, dif_pos hex]
  have hs := hex.choose_spec
  generalize hex.choose = j at hs
  have : j = i := by
    rcases Nat.lt_trichotomy j i with g | g | g
    · have := R.created_mono g hs.1; omega
    · exact g
    · have := R.created_mono g h; omega
  rw [this]

noncomputable def RExec.absSt (R : RExec cfg) : Nat → State K P
  | 0 => State.init
  | n + 1 => ((Contrie.step cfg (R.absSt n) ((R.lab n).unre R.address (R.absSt n))).map Prod.fst).getD State.init

noncomputable def RExec.absLab (R : RExec cfg) (n : Nat) : Label K P := (R.lab n).unre R.address (R.absSt n)

theorem RExec.abs_run (R : RExec cfg) (n : Nat) :
    RunOK cfg State.init ((List.range n).map R.absLab) ∧ (∃ es, runList cfg State.init ((List.range n).map R.absLab) = some (R.absSt n, es)) ∧
    StRel R.address (R.absSt n) (R.st n) ∧ (R.absSt n).m.next = R.created n := by
  induction n with
  | zero =>
    refine ⟨trivial, ⟨[], rfl⟩, ?_, rfl⟩
    rw [R.init]
    exact ⟨⟨rfl, by simp [RExec.absSt, State.init, Mem.init, Mem.deref], by simp [RExec.absSt, State.init, Mem.init, Mem.deref],
      by simp [State.init, Mem.init, Mem.deref], rfl⟩, fun t => rfl⟩
  | succ n ih =>
    obtain ⟨h1, ⟨es, h2⟩, h3, h4⟩ := ih
    obtain ⟨E, e1, e2⟩ := Exec.ofList h1
    have hlen : ((List.range n).map R.absLab).length = n := by simp
    rw [hlen, h2] at e1
    have hst : E.st n = R.absSt n := by
      simp only [Option.some.injEq, Prod.mk.injEq] at e1; exact e1.1.symm
    obtain ⟨sa', g1, g2, g3, g4, g5⟩ := step_ren E n (ρ := R.address) (by rw [hst]; exact h3) (R.step n) (R.enabled n) (R.wf n) (by
      intro hne
      rw [hst, h4]
      exact R.address_eq (by simpa [RExec.allocates] using hne))
    rw [hst] at g1 g2 g3 g5
    have hsa : R.absSt (n + 1) = sa' := by simp [RExec.absSt, g1]
    have hok1 : RunOK cfg (R.absSt n) [R.absLab n] := by
      refine ⟨g2, g3, ?_⟩
      simp only [RExec.absLab, g1]
      trivial
    have hr1 : runList cfg (R.absSt n) [R.absLab n] = some (sa', (R.ev n).toList) := by
      simp only [runList, RExec.absLab, g1, List.append_nil]
    rw [List.range_succ, List.map_append, hsa]
    refine ⟨RunOK_append h1 h2 hok1, ⟨_, runList_append h2 hr1⟩, g4, ?_⟩
    simp only [RExec.created]
    rcases g5 with ⟨a1, a2⟩ | ⟨a1, a2⟩
    · simp [RExec.allocates, a1, a2, h4]
    · simp [RExec.allocates, a1, a2, h4]

/-- The execution without reuse. -/
theorem RExec.abs_step (R : RExec cfg) (n : Nat) : Contrie.step cfg (R.absSt n) (R.absLab n) = some (R.absSt (n + 1), R.ev n) ∧
    (R.absLab n).enabled (R.absSt n) ∧ (R.absLab n).WF cfg := by
  obtain ⟨h1, ⟨es, h2⟩, h3, h4⟩ := R.abs_run n
  obtain ⟨E, e1, e2⟩ := Exec.ofList h1
  have hlen : ((List.range n).map R.absLab).length = n := by simp
  rw [hlen, h2] at e1
  have hst : E.st n = R.absSt n := by
    simp only [Option.some.injEq, Prod.mk.injEq] at e1; exact e1.1.symm
  obtain ⟨sa', g1, g2, g3, g4, g5⟩ := step_ren E n (ρ := R.address) (by rw [hst]; exact h3) (R.step n) (R.enabled n) (R.wf n) (by
    intro hne
    rw [hst, h4]
    exact R.address_eq (by simpa [RExec.allocates] using hne))
  rw [hst] at g1 g2 g3 g5
  have hsa : R.absSt (n + 1) = sa' := by simp [RExec.absSt, g1]
  exact ⟨by rw [hsa]; exact g1, g2, g3⟩

noncomputable def RExec.fresh (R : RExec cfg) : Exec cfg where
  st := R.absSt
  lab := R.absLab
  ev := R.ev
  init := rfl
  step := fun n => (R.abs_step n).1
  enabled := fun n => (R.abs_step n).2.1
  wf := fun n => (R.abs_step n).2.2

theorem RExec.rel (R : RExec cfg) (n : Nat) : StRel R.address (R.fresh.st n) (R.st n) := (R.abs_run n).2.2.1

/-! ### The content -/

theorem MemRel.cellsOf {ma mc : Mem P} (h : MemRel ρ ma mc) {w : Word} (hl : ∀ a, w.ptr = some a → ma.deref a ≠ none) :
    mc.cellsOf (w.ren ρ) = (ma.cellsOf w).map (fun c i => (c i).ren ρ) := by
  simp only [Mem.cellsOf, Word.ren_ptr]
  cases hp : w.ptr with
  | none => rfl
  | some a =>
    obtain ⟨n, hn⟩ := Option.ne_none_iff_exists'.mp (hl a hp)
    have h1 := (deref_some.mp hn).2
    have h2 := (deref_some.mp (h.live a n hn).1).2
    simp only [Option.map, Word.ren_data, h1, h2]
    cases w.data
    · cases n <;> rfl
    · rfl

theorem MemRel.leafVal {ma mc : Mem P} (h : MemRel ρ ma mc) (k : K) {w : Word} (hl : ∀ a, w.ptr = some a → ma.deref a ≠ none) :
    mc.leafVal cfg k (w.ren ρ) = ma.leafVal cfg k w := by
  simp only [Mem.leafVal, Word.ren_ptr]
  cases hp : w.ptr with
  | none => rfl
  | some a =>
    obtain ⟨n, hn⟩ := Option.ne_none_iff_exists'.mp (hl a hp)
    have h1 := (deref_some.mp hn).2
    have h2 := (deref_some.mp (h.live a n hn).1).2
    simp only [Option.map, Word.ren_data, h1, h2]
    cases w.data
    · rfl
    · cases n <;> rfl

theorem MemRel.look {ma mc : Mem P} (h : MemRel ρ ma mc) (k : K) (hlive : ∀ a, Linked ma a → ma.deref a ≠ none) :
    ∀ (ns : List (Fin 16)) (w : Word), (∀ a, w.ptr = some a → Linked ma a) → mc.look cfg k (w.ren ρ) ns = ma.look cfg k w ns := by
  intro ns
  induction ns with
  | nil => intro w hw; simp only [Mem.look, h.leafVal k (fun a ha => hlive a (hw a ha))]
  | cons n ns ih =>
    intro w hw
    simp only [Mem.look, h.leafVal k (fun a ha => hlive a (hw a ha)), h.cellsOf (fun a ha => hlive a (hw a ha))]
    cases ma.leafVal cfg k w with
    | some v => rfl
    | none =>
      simp only
      cases hc : ma.cellsOf w with
      | none => rfl
      | some c =>
        simp only [Option.map]
        refine ih (c n) ?_
        intro a ha
        simp only [Mem.cellsOf] at hc
        cases hp : w.ptr with
        | none => simp [hp] at hc
        | some b =>
          simp only [hp] at hc
          split at hc
          · cases hc
          · split at hc
            · next c' q' hm => cases hc; exact .cell (hw b hp) hm ha
            · cases hc

theorem RExec.live (R : RExec cfg) (n a : Nat) (h : Linked (R.fresh.st n).m a) : (R.fresh.st n).m.deref a ≠ none := by
  have hmem : (R.fresh.st n).m.mem a ≠ none := by
    obtain ⟨q, w, hf, hw⟩ := (linked_iff (R.fresh.inv n).mem).mp h
    have hok := (R.fresh.inv n).mem.path_ok hf
    cases hd : w.data with
    | true => obtain ⟨l, hl, -⟩ := hok.of_data hw hd; rw [hl]; simp
    | false => obtain ⟨c, hl⟩ := hok.of_inner hw hd; rw [hl]; simp
  cases hf : (R.fresh.st n).m.freed a with
  | true => exact absurd h (C07_destroyed_unlinked R.fresh hf)
  | false => simpa [Mem.deref, hf] using hmem

theorem RExec.content_eq (R : RExec cfg) (n : Nat) : (R.st n).m.abs cfg = (R.fresh.st n).m.abs cfg := by
  funext k
  simp only [Mem.abs]
  rw [(R.rel n).mem.root]
  exact (R.rel n).mem.look k (R.live n) _ _ (fun a ha => .root ha)

end Contrie
