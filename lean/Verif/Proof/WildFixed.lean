import Verif.Proof.WildRest
/-
Weak memory and arbitrary user code: calls come to an end without any assumption on when stores become visible. What a session sees of a
location can only become newer; if the memory does not change any more, it becomes newer only finitely often, and then the session works
on an image of the memory that does not change.
-/
set_option linter.unusedSectionVars false
namespace Contrie
variable {K P : Type} [DecidableEq K]
open scoped BigOperators

/-! ### A call that works on a fixed image -/

/-- A remembered pair is out of date, according to an image. -/
def staleIn (v : Loc → Option Word) (x : Loc × Word) : Nat := if v x.1 = some x.2 then 0 else 100

def staleOptIn (v : Loc → Option Word) : Option (Loc × Word) → Nat
  | none => 0
  | some x => staleIn v x

/-- `PC.ell` for an image of the memory. -/
def PC.ellIn (v : Loc → Option Word) : PC K P → Nat
  | .trav _ _ _ shift _ parent => 20 + (16 - shift / 4) + staleOptIn v parent
  | .travCas _ _ _ _ cur parent node _ _ => (if v cur = some node then 1 else 200) + staleOptIn v parent
  | .rem _ shift _ levels => 20 + (16 - shift / 4) + staleOptIn v levels.head?
  | .remCas _ _ cur levels node _ _ => (if v cur = some node then 1 else 200) + staleOptIn v levels.head?
  | .prune p ch i _ (.trav ..) => (17 - i.val) + staleIn v (p, ch)
  | .prune p ch i _ (.rem ..) => (17 - i.val) + staleIn v (p, ch)
  | .pruneCas p ch _ (.trav ..) => 1 + staleIn v (p, ch)
  | .pruneCas p ch _ (.rem ..) => 1 + staleIn v (p, ch)
  | _ => 0

/-- A step that brings a call forward whatever the others do. -/
def LLt (m : Mem P) (tk : Nat) (pc pc' : PC K P) : Prop :=
  pc'.rank < pc.rank ∨ (pc'.rank = pc.rank ∧ (pc'.loc1 (tk + 1) < pc.loc1 tk ∨
    (pc'.loc1 (tk + 1) = pc.loc1 tk ∧ pc'.loc2 m < pc.loc2 m)))

theorem TDec.llt {m : Mem P} {tk : Nat} {pc pc' : PC K P} (h : TDec m m tk pc pc') (h0 : pc.ell m = 0) : LLt m tk pc pc' := by
  rcases h with h | ⟨h, h1⟩
  · exact Or.inl h
  refine Or.inr ⟨h, ?_⟩
  rcases h1 with h1 | ⟨h1, h2⟩
  · exact Or.inl h1
  refine Or.inr ⟨h1, ?_⟩
  rcases h2 with h2 | ⟨h2, h3⟩
  · exact h2
  · exfalso
    rcases h3 with h3 | ⟨-, h3 | ⟨-, h3 | ⟨-, -, -, h3⟩⟩⟩ <;> omega

/-- A step on a fixed image that stores nothing, or only condemns. -/
theorem hTick_nearer (v : Loc → Option Word) (o : Answers P) {m : Mem P} {pc pc' : PC K P} {ran : Bool} (tk : Nat)
    (hg : ∀ key hash cur, pc = .get key hash cur → tk ≤ 16)
    (hv : (∃ p ch i acc k, pc = .prune p ch i acc k) ∨
      (pc.writes m false = false ∧ ∀ ℓ ord w, pc.access .code = some (ℓ, ord) → m.read ℓ = some w → v ℓ = some w))
    (h : (hTick o m false pc).2 = .goto pc' ran) : LLt m tk pc pc' ∨ pc'.ellIn v < pc.ellIn v := by
  cases pc with
  | get key hash cur =>
    exact Or.inl ((hgood_get o (m' := m) (hg _ _ _ rfl) (by simp only [hTick] at h ⊢; rw [h])).2.llt rfl)
  | isEmpty => simp [hTick] at h
  | iterNew => exact Or.inl ((good_iterNew (m' := m) (by simp only [hTick] at h ⊢; rw [h])).2.llt rfl)
  | iterNext lv out => exact Or.inl ((good_iterNext (m' := m) (by simp only [hTick] at h ⊢; rw [h])).2.llt rfl)
  | count deleted ref parent child rest i cnt =>
    exact Or.inl ((good_count (m' := m) (by simp only [hTick] at h ⊢; rw [h])).2.llt rfl)
  | trav st hash mode shift cur parent =>
    right
    rcases hv with ⟨_, _, _, _, _, e⟩ | ⟨-, hv⟩
    · cases e
    simp only [hTick] at h
    unfold hTickTrav at h
    split at h
    · cases h
    · next node hr =>
      have hraw := hv cur _ node rfl hr
      split at h
      · next hcond =>
        split at h
        · cases h
        · next p child =>
          simp only [enterPrune] at h
          split at h
          · cases h
          split at h
          · cases h
          cases h
          simp only [PC.ellIn, staleOptIn]; simp; omega
      · have cas : ∀ st' new kind, (PC.travCas st' hash mode shift cur parent node new kind : PC K P).ellIn v <
            (PC.trav st hash mode shift cur parent : PC K P).ellIn v := by
          intro st' new kind
          simp only [PC.ellIn, hraw, if_true]; omega
        split at h
        · cases h; exact cas _ _ _
        · next a hp =>
          split at h
          · split at h
            · cases h
            · cases h
            · split at h
              · split at h <;> cases h
                exact cas _ _ _
              · simp only at h
                split at h
                · cases h; exact cas _ _ _
                · simp only [finishTrav] at h
                  split at h
                  · cases h
                  · split at h <;> cases h
          · split at h
            · cases h
            · next hsh =>
              cases h
              simp only [PC.ellIn, staleOptIn, staleIn, hraw, if_true, HASH_BITS, LEVEL_BITS] at hsh ⊢; omega
  | travCas st hash mode shift cur parent node new kind =>
    right
    rcases hv with ⟨_, _, _, _, _, e⟩ | ⟨hw, hv⟩
    · cases e
    simp only [hTick] at h
    unfold tickTravCas at h
    split at h
    · cases h
    · next w hr =>
      have hraw := hv cur _ w rfl hr
      have hne : w ≠ node := by
        intro e
        simp [PC.writes, PC.access, hr, PC.stores, e] at hw
      simp only [hne, false_and, if_false] at h
      cases h
      simp only [PC.ellIn, hraw, Option.some.injEq, hne, if_false]; omega
  | rem key shift cur levels =>
    right
    rcases hv with ⟨_, _, _, _, _, e⟩ | ⟨-, hv⟩
    · cases e
    simp only [hTick] at h
    unfold hTickRem at h
    split at h
    · cases h
    · next node hr =>
      have hraw := hv cur _ node rfl hr
      split at h
      · cases h
      · next a hp =>
        split at h
        · next hcond =>
          split at h
          · cases h
          · next p child rest =>
            simp only [enterPrune] at h
            split at h
            · cases h
            split at h
            · cases h
            cases h
            simp only [PC.ellIn, staleOptIn, List.head?_cons]; simp; omega
        · split at h
          · split at h
            · cases h
            · split at h
              · cases h
              · cases h
                simp only [PC.ellIn, hraw, if_true]; omega
          · split at h
            · cases h
            split at h
            · cases h
            · next hsh =>
              cases h
              simp only [PC.ellIn, staleOptIn, List.head?_cons, staleIn, hraw, if_true, HASH_BITS, LEVEL_BITS] at hsh ⊢; omega
  | remCas key shift cur levels node new deleted =>
    right
    rcases hv with ⟨_, _, _, _, _, e⟩ | ⟨hw, hv⟩
    · cases e
    simp only [hTick] at h
    unfold tickRemCas at h
    split at h
    · cases h
    · next w hr =>
      have hraw := hv cur _ w rfl hr
      have hne : w ≠ node := by
        intro e
        simp [PC.writes, PC.access, hr, PC.stores, e] at hw
      simp only [hne, false_and, if_false] at h
      cases h
      simp only [PC.ellIn, hraw, Option.some.injEq, hne, if_false]; omega
  | prune parent child i acc k =>
    simp only [hTick, tickPrune] at h
    cases hp : child.ptr with
    | none => simp [hp] at h
    | some a =>
      simp only [hp] at h
      cases hr : m.read (.slot a i) with
      | none => simp [hr] at h
      | some gc =>
        simp only [hr] at h
        cases hpush : acc.push (m.write gc.condemn (.slot a i)) i gc with
        | error f => simp [hpush] at h
        | ok acc' =>
          simp only [hpush] at h
          by_cases h1 : i.val + 1 < 16
          · simp only [h1, dite_true] at h; cases h
            cases k with
            | clean => exact Or.inl (Or.inr ⟨rfl, Or.inl (by simp only [PC.loc1]; omega)⟩)
            | _ => exact Or.inr (by simp only [PC.ellIn]; omega)
          · simp only [h1, dite_false] at h
            split at h
            · cases h
            · cases h
              cases k with
              | clean => exact Or.inl (Or.inr ⟨rfl, Or.inl (by simp only [PC.loc1]; omega)⟩)
              | _ => exact Or.inr (by simp only [PC.ellIn]; omega)
  | pruneCas parent child acc k =>
    rcases hv with ⟨_, _, _, _, _, e⟩ | ⟨hw, hv⟩
    · cases e
    simp only [hTick] at h
    unfold tickPruneCas at h
    cases hr : m.read parent with
    | none =>
      simp only [hr] at h
      split at h <;> cases h
    | some w =>
      have hraw := hv parent _ w rfl hr
      have hne : w ≠ child := by
        intro e
        simp [PC.writes, PC.access, hr, PC.stores, e] at hw
      have key : (afterPrune .casFail k : Next K P) = .goto pc' ran := by
        simp only [hr] at h
        split at h
        · cases h
        · split at h
          · next e _ =>
            cases e
            simp only [hne, if_false] at h
            exact h
          · cases h
      cases k with
      | trav =>
        simp only [afterPrune] at key; cases key
        right
        simp only [PC.ellIn, staleIn, staleOptIn, hraw, Option.some.injEq, hne, if_false]; omega
      | rem =>
        simp only [afterPrune] at key; cases key
        right
        simp only [PC.ellIn, staleIn, staleOptIn, hraw, Option.some.injEq, hne, if_false, List.head?_nil]; omega
      | clean deleted ref rest =>
        simp only [afterPrune] at key
        split at key
        · cases key
        · obtain ⟨h1, h2, h3⟩ := enterClean_lle (m := m) key
          refine Or.inl (Or.inr ⟨by rw [h1]; rfl, Or.inl ?_⟩)
          have := h3 (tk + 1)
          show _ < rest.length * 40 + 1
          omega

/-- A compare-exchange that succeeds and after which the call goes on takes it back to where it started. -/
theorem cas_back {o : Answers P} {m : Mem P} {pc pc' : PC K P} {ran : Bool} (hw : pc.writes m false = true)
    (hp : ∀ p ch i acc k, pc ≠ .prune p ch i acc k) (h : (hTick o m false pc).2 = .goto pc' ran) :
    pc'.rank < pc.rank ∨ pc.ell m ≤ pc'.ell m := by
  cases pc with
  | travCas st hash mode shift cur parent node new kind =>
    right
    cases hr : m.read cur with
    | none => simp [PC.writes, PC.access, hr] at hw
    | some w =>
      have hraw := raw_of_read hr
      have e : w = node := by simpa [PC.writes, PC.access, hr, PC.stores] using hw
      subst e
      simp only [hTick] at h
      unfold tickTravCas at h
      simp only [hr, and_self, if_true, finishTrav] at h
      repeat' split at h
      all_goals first
        | cases h; done
        | (cases h; simp only [PC.ell, hraw, if_true]; omega)
  | remCas key shift cur levels node new deleted =>
    left
    cases hr : m.read cur with
    | none => simp [PC.writes, PC.access, hr] at hw
    | some w =>
      have e : w = node := by simpa [PC.writes, PC.access, hr, PC.stores] using hw
      subst e
      simp only [hTick] at h
      unfold tickRemCas at h
      simp only [hr, and_self, if_true] at h
      repeat' split at h
      all_goals first
        | cases h; done
        | (rw [(enterClean_lle (m := m) h).1]; exact Nat.lt_succ_self 1)
  | prune p ch i acc k => exact absurd rfl (hp p ch i acc k)
  | pruneCas parent child acc k =>
    right
    cases k with
    | clean => exact Nat.zero_le _
    | _ =>
      cases hr : m.read parent with
      | none => simp [PC.writes, PC.access, hr] at hw
      | some w =>
        have hraw := raw_of_read hr
        have e : w = child := by simpa [PC.writes, PC.access, hr, PC.stores] using hw
        subst e
        simp only [hTick] at h
        unfold tickPruneCas at h
        simp only [hr, afterPrune] at h
        repeat' split at h
        all_goals first
          | cases h; done
          | (cases h; simp only [PC.ell, stale, hraw, if_true]; omega)
  | get key hash cur => exact Or.inr (Nat.zero_le _)
  | trav st hash mode shift cur parent => exfalso; revert hw; simp only [PC.writes, PC.access, PC.stores]; split <;> simp
  | rem key shift cur levels => exfalso; revert hw; simp only [PC.writes, PC.access, PC.stores]; split <;> simp
  | isEmpty => simp [hTick] at h
  | iterNew => exfalso; revert hw; simp only [PC.writes, PC.access, PC.stores]; split <;> simp
  | iterNext lv out => exact Or.inr (Nat.zero_le _)
  | count => exact Or.inr (Nat.zero_le _)

/-- A step that brings a call forward is work done. -/
theorem work_llt {s s' : State K P} {t : Nat} {T : Finset Nat} {c : Call K P} (ht : t ∈ T) (h : Apart s s' t) (hc : (s.thr t).run = some c)
    (hm : s'.m.mem = s.m.mem) {pc : PC K P} {x : Nat}
    (hrun : (s'.thr t).run = some { c with pc := pc, calls := x, ticks := c.ticks + 1 })
    (hl : LLt s.m c.ticks c.pc pc) : Work.lt (s'.work T) (s.work T) := by
  have t0 : (s'.thr t).rank = pc.rank := by simp only [Thread.rank, hrun]
  have t0' : (s.thr t).rank = c.pc.rank := by simp only [Thread.rank, hc]
  have t1 : (s'.thr t).loc1 = pc.loc1 (c.ticks + 1) := by simp only [Thread.loc1, hrun]
  have t1' : (s.thr t).loc1 = c.pc.loc1 c.ticks := by simp only [Thread.loc1, hc]
  have t2 : (s'.thr t).loc2 s'.m = pc.loc2 s.m := by simp only [Thread.loc2, hrun]; exact loc2_ghost hm pc
  have t2' : (s.thr t).loc2 s.m = c.pc.loc2 s.m := by simp only [Thread.loc2, hc]
  rcases hl with g | ⟨g, g1 | ⟨g1, g2⟩⟩
  · exact Work.lt_of (Or.inl (sum_lt_of ht h.rank (by omega)))
  · exact Work.lt_of (Or.inr ⟨sum_eq_of h.rank (by omega), Or.inl (sum_lt_of ht h.loc1 (by omega))⟩)
  · exact Work.lt_of (Or.inr ⟨sum_eq_of h.rank (by omega), Or.inr ⟨sum_eq_of h.loc1 (by omega),
      Or.inl (sum_lt_of ht h.loc2' (by omega))⟩⟩)

/-! ### Executions -/

namespace WExec
variable (E : WExec K P)

/-- A compare-exchange that succeeds is work done. -/
theorem work_cas {T : Finset Nat} {n t : Nat} (ht : t ∈ T) (hn : n < E.len) (hl : E.lab n = .tick t false n) {c : Call K P}
    (hc : ((E.st n).thr t).run = some c) (hw : c.pc.writes (E.M n) false = true)
    (hp : ∀ p ch i acc k, c.pc ≠ .prune p ch i acc k) : Work.lt ((E.S (n + 1)).work T) ((E.S n).work T) := by
  rcases E.work_present ht hn hl (fun _ => rfl) with g | ⟨g1, g2, g3, g4⟩
  · exact g
  exfalso
  have hst := E.step n hn
  rw [hl] at hst
  obtain ⟨c', hc', h2, h3⟩ := wstep_tick hst
  rw [hc] at hc'; cases hc'
  have hap : Apart (E.S n) (E.S (n + 1)) t := E.apart hn (by
    intro u hu; rw [hl]; simp only [CLabel.actor]; intro e; cases e; exact hu rfl)
  have hirr : ∀ x : Work, ¬ Work.lt x x := fun x hx => Work.wf.asymmetric x x hx hx
  have d := ((E.winv (Nat.le_of_lt hn)).did E hn hl hc).1
  cases hx : (hTick (E.ans n) ((E.st n).seen c.pc n) false c.pc).2 with
  | ret r refs =>
    have := work_end ht hap hc (h3 (by intro pc ran e; rw [hx] at e; cases e))
    rw [g1] at this; exact hirr _ this
  | fail f =>
    have := work_end ht hap hc (h3 (by intro pc ran e; rw [hx] at e; cases e))
    rw [g1] at this; exact hirr _ this
  | goto pc ran =>
    obtain ⟨e1, -⟩ := d.present E (fun _ => rfl)
    rw [hx] at e1
    have hrun : ((E.S (n + 1)).thr t).run = _ := h2 pc ran hx
    have hc : ((E.S n).thr t).run = some c := hc
    rcases cas_back hw hp e1.symm with h | h
    · have h1 : ∑ u ∈ T, ((E.S (n + 1)).thr u).rank < ∑ u ∈ T, ((E.S n).thr u).rank := by
        refine sum_lt_of ht hap.rank ?_
        simp only [Thread.rank, hrun, hc]; exact h
      have h2 := congrArg Prod.fst g1
      simp only [State.work] at h2
      omega
    · have h1 : (E.S n).ells T ≤ (E.S (n + 1)).ells T := by
        refine Finset.sum_le_sum (fun u _ => ?_)
        by_cases e : u = t
        · subst e
          simp only [Thread.ell, hrun, hc]
          rw [ell_mem g2 g3]
          exact h
        · rw [hap.ell g2 g3 u e]
      omega

end WExec

namespace WEndless
variable (E : WEndless K P)

/-- Session's part of the measure on an image. -/
def ellIn (v : Nat → Loc → Option Word) (i t : Nat) : Nat := match ((E.st i).thr t).run with
  | none => 0
  | some c => c.pc.ellIn (v t)

/-- If no more calls begin and no compare-exchange fails spuriously any more, there are only finitely many steps. -/
theorem rest (T : Finset Nat) (n0 : Nat) (hN : ∀ i, n0 ≤ i → ∀ t w τ, E.lab i = .tick t w τ → t ∈ T)
    (hw : ∀ i, n0 ≤ i → ∀ t τ, E.lab i ≠ .tick t true τ) (hc : ∀ i, n0 ≤ i → ∀ t, t ∈ T → ∀ r, E.lab i ≠ .call t r) :
    ∃ n, ∀ i, n ≤ i → ∀ t w τ, E.lab i ≠ .tick t w τ := by
  have key : ∀ i, n0 ≤ i → (∃ t w τ, E.lab i = .tick t w τ) → ∃ t ∈ T, ∃ τ, E.lab i = .tick t false τ := by
    rintro i hi ⟨t, w, τ, h⟩
    cases w with
    | true => exact absurd h (hw i hi t τ)
    | false => exact ⟨t, hN i hi t _ τ h, τ, h⟩
  have hirr : ∀ x : Work, ¬ Work.lt x x := fun x hx => Work.wf.asymmetric x x hx hx
  -- the work settles, and the memory with it
  obtain ⟨n1, h1, h2⟩ := settle Work.wf (fun i => (E.S i).work T) (fun i => (E.S (i + 1)).m.mem = (E.S i).m.mem ∧
    (E.S (i + 1)).m.root = (E.S i).m.root) n0 (by
      intro i hi
      by_cases h : ∃ t w τ, E.lab i = .tick t w τ
      · obtain ⟨t, ht, τ, hl⟩ := key i hi h
        exact (E.upto (i + 2)).work_step ht (n := i) (show i < i + 2 by omega) hl
      · rcases (E.upto (i + 2)).work_other (T := T) (n := i) (show i < i + 2 by omega) (fun t w τ e => h ⟨t, w, τ, e⟩)
          (fun t ht r => hc i hi t ht r) with h1 | ⟨h1, h2, h3, -⟩
        · exact Or.inl h1
        · exact Or.inr ⟨h1, h2, h3⟩)
  have hno : ∀ i, n1 ≤ i → ¬ Work.lt ((E.S (i + 1)).work T) ((E.S i).work T) := by
    intro i hi h
    have e1 : (E.S i).work T = (E.S n1).work T := (h2 i hi).1
    have e2 : (E.S (i + 1)).work T = (E.S n1).work T := (h2 (i + 1) (by omega)).1
    rw [e1, e2] at h
    exact hirr _ h
  have hmem : ∀ i, n1 ≤ i → (E.S i).m.mem = (E.S n1).m.mem ∧ (E.S i).m.root = (E.S n1).m.root := by
    intro i hi
    obtain ⟨d, rfl⟩ := Nat.exists_eq_add_of_le hi
    clear hi
    induction d with
    | zero => exact ⟨rfl, rfl⟩
    | succ d ih =>
      obtain ⟨-, g1, g2⟩ := h2 (n1 + d) (by omega)
      exact ⟨by rw [← Nat.add_assoc, g1, ih.1], by rw [← Nat.add_assoc, g2, ih.2]⟩
  have hread : ∀ i j ℓ, n1 ≤ i → n1 ≤ j → (E.st i).m.thaw.read ℓ = (E.st j).m.thaw.read ℓ := by
    intro i j ℓ hi hj
    obtain ⟨a1, a2⟩ := hmem i hi
    obtain ⟨b1, b2⟩ := hmem j hj
    have g1 : (E.st i).m.thaw.mem = (E.st j).m.thaw.mem := a1.trans b1.symm
    have g2 : (E.st i).m.thaw.root = (E.st j).m.thaw.root := a2.trans b2.symm
    cases ℓ with
    | root => simp only [Mem.read, g2]
    | slot a k =>
      have f1 : (E.st i).m.thaw.freed a = false := rfl
      have f2 : (E.st j).m.thaw.freed a = false := rfl
      simp only [Mem.read, Mem.deref, g1, f1, f2]
  -- the views settle
  let V : Nat → Nat → Loc → Nat := fun t i => ((E.st i).thr t).view
  have hVm : ∀ t i ℓ, V t i ℓ ≤ V t (i + 1) ℓ := fun t i ℓ => (E.upto (i + 1)).V_mono t (Nat.le_succ i) (Nat.le_refl _) ℓ
  have hVm' : ∀ t i j ℓ, i ≤ j → V t i ℓ ≤ V t j ℓ := fun t i j ℓ h => (E.upto j).V_mono t h (Nat.le_refl _) ℓ
  let L : Finset Loc := insert .root ((Finset.range (E.S n1).m.next ×ˢ (Finset.univ : Finset (Fin 16))).image (fun x => .slot x.1 x.2))
  have hL : ∀ i ℓ p, n1 ≤ i → LocAt (E.st i).m.thaw 0 ℓ p → ℓ ∈ L := by
    intro i ℓ p hi h
    cases ℓ with
    | root => exact Finset.mem_insert_self _ _
    | slot a k =>
      obtain ⟨c, q, g1, -, -⟩ := h
      refine Finset.mem_insert_of_mem (Finset.mem_image.2 ⟨(a, k), ?_, rfl⟩)
      simp only [Finset.mem_product, Finset.mem_range, Finset.mem_univ, and_true]
      have g2 : (E.S n1).m.mem a = some (.inner c q) := by rw [← (hmem i hi).1]; exact g1
      exact (((E.upto n1).winv (n := n1) (Nat.le_refl _)).hist.inv n1 (Nat.le_refl _)).lt_next g2
  obtain ⟨n2, h3, h4⟩ := settle (r := (· < ·)) Nat.lt_wfRel.wf (fun i => ∑ x ∈ T ×ˢ L, (n1 - V x.1 i x.2))
    (fun i => ∀ t ∈ T, ∀ ℓ ∈ L, n1 - V t (i + 1) ℓ = n1 - V t i ℓ) n1 (by
      intro i hi
      have hle : ∀ x ∈ T ×ˢ L, n1 - V x.1 (i + 1) x.2 ≤ n1 - V x.1 i x.2 := by
        intro x _; have := hVm x.1 i x.2; omega
      by_cases h : ∃ t ∈ T, ∃ ℓ ∈ L, n1 - V t (i + 1) ℓ ≠ n1 - V t i ℓ
      · obtain ⟨t, ht, ℓ, hℓ, hne⟩ := h
        left
        refine Finset.sum_lt_sum hle ⟨(t, ℓ), Finset.mem_product.2 ⟨ht, hℓ⟩, ?_⟩
        have := hle (t, ℓ) (Finset.mem_product.2 ⟨ht, hℓ⟩)
        simp only at this ⊢
        omega
      · right
        have h' : ∀ t ∈ T, ∀ ℓ ∈ L, n1 - V t (i + 1) ℓ = n1 - V t i ℓ := by
          intro t ht ℓ hℓ
          by_contra hne
          exact h ⟨t, ht, ℓ, hℓ, hne⟩
        refine ⟨Finset.sum_congr rfl (fun x hx => ?_), h'⟩
        obtain ⟨hx1, hx2⟩ := Finset.mem_product.1 hx
        exact h' x.1 hx1 x.2 hx2)
  have hfix : ∀ t ∈ T, ∀ ℓ ∈ L, ∀ i, n2 ≤ i → n1 - V t i ℓ = n1 - V t n2 ℓ := by
    intro t ht ℓ hℓ i hi
    obtain ⟨d, rfl⟩ := Nat.exists_eq_add_of_le hi
    clear hi
    induction d with
    | zero => rfl
    | succ d ih => rw [← Nat.add_assoc, (h4 (n2 + d) (by omega)).2 t ht ℓ hℓ, ih]
  let v : Nat → Loc → Option Word := fun t ℓ => (E.st (V t n2 ℓ)).m.thaw.read ℓ
  have hsee : ∀ t ∈ T, ∀ ℓ ∈ L, ∀ i τ, n2 ≤ i → V t i ℓ = τ → (E.st τ).m.thaw.read ℓ = v t ℓ := by
    intro t ht ℓ hℓ i τ hi hτ
    have e := hfix t ht ℓ hℓ i hi
    have hm := hVm' t n2 i ℓ hi
    by_cases hlt : V t n2 ℓ < n1
    · have : V t n2 ℓ = τ := by omega
      simp only [v, this]
    · exact hread _ _ _ (by omega) (by omega)
  -- every step comes nearer
  obtain ⟨n3, -, h6⟩ := settle (r := (· < ·)) Nat.lt_wfRel.wf (fun i => ∑ t ∈ T, E.ellIn v i t)
    (fun i => ∀ t w τ, E.lab i ≠ .tick t w τ) n2 (by
      intro i hi
      have hst := E.step i
      by_cases h : ∃ t w τ, E.lab i = .tick t w τ
      · left
        obtain ⟨t, ht, τ, hl⟩ := key i (by omega) h
        have hlen : i < (E.upto (i + 2)).len := by show i < i + 2; omega
        have hst' := hst
        rw [hl] at hst'
        obtain ⟨c, hc, g2, g3⟩ := wstep_tick hst'
        have W := (E.upto (i + 2)).winv (Nat.le_of_lt hlen)
        have ci := (W.sess t).run c hc
        have hap : Apart (E.S i) (E.S (i + 1)) t := (E.upto (i + 2)).apart hlen (by
          intro u hu
          show (E.lab i).actor ≠ some u
          rw [hl]; simp only [CLabel.actor]; intro e; cases e; exact hu rfl)
        have hg : ∀ key hash cur, c.pc = .get key hash cur → c.ticks ≤ 16 := by
          intro key hash cur e
          have := ci.pc
          rw [e] at this
          obtain ⟨_, d, h1, h2, -⟩ := this
          omega
        have d := (W.did _ hlen hl hc).1
        cases hx : (hTick (E.ans i) ((E.st i).seen c.pc τ) false c.pc).2 with
        | ret r refs => exact absurd (work_end ht hap hc (g3 (by intro pc ran e; rw [hx] at e; cases e))) (hno i (by omega))
        | fail f => exact absurd (work_end ht hap hc (g3 (by intro pc ran e; rw [hx] at e; cases e))) (hno i (by omega))
        | goto pc ran =>
          have hrun := g2 pc ran hx
          change (E.upto (i + 2)).Did i t false τ c (hTick (E.ans i) ((E.st i).seen c.pc τ) false c.pc).2 at d
          rw [hx] at d
          -- it is enough that the call comes nearer
          have fin : LLt (E.st i).m.thaw c.ticks c.pc pc ∨ pc.ellIn (v t) < c.pc.ellIn (v t) →
              ∑ t ∈ T, E.ellIn v (i + 1) t < ∑ t ∈ T, E.ellIn v i t := by
            rintro (hlt | hlt)
            · exact absurd (work_llt ht hap hc (h2 i (by omega)).2.1 hrun hlt) (hno i (by omega))
            · refine sum_lt_of ht (fun u hu => ?_) ?_
              · simp only [ellIn, show ((E.st (i + 1)).thr u).run = ((E.st i).thr u).run from hap.run u hu]
              · simp only [ellIn, hrun, hc]; exact hlt
          cases d with
          | store ℓ o p w σ ha hτ hw' hnx hm' hv' =>
            rw [hτ] at hl
            by_cases hp : ∃ p ch i acc k, c.pc = .prune p ch i acc k
            · exact fin (hTick_nearer (v t) _ _ hg (Or.inl hp) hnx.symm)
            · exact absurd ((E.upto (i + 2)).work_cas ht hlen hl hc hw' (fun p ch j acc k e => hp ⟨p, ch, j, acc, k, e⟩)) (hno i (by omega))
          | silent ha hnx hm' hq =>
            refine fin (hTick_nearer (v t) _ _ hg (Or.inr ⟨?_, ?_⟩) hnx.symm)
            · simp [PC.writes, ha]
            · intro ℓ ord w e; rw [ha] at e; cases e
          | load ℓ o p w mw σ ha hτ hw' hnx hm' hs hloc hl' hmw hrd hv' =>
            have := hTick_nearer (v t) _ (pc := c.pc) c.ticks hg (Or.inr ⟨hw', by
              intro ℓ' ord w' e1 e2
              rw [ha] at e1; cases e1
              rw [hs.seen] at e2; cases e2
              rw [← hsee t ht ℓ (hL i ℓ p (by omega) hloc) (i + 1) τ (by omega) hv']
              exact hrd⟩) hnx.symm
            rw [hmw] at this
            refine fin ?_
            unfold LLt at this ⊢
            rw [loc2_write, loc2_write] at this
            exact this
      · right
        refine ⟨Finset.sum_congr rfl (fun u hu => ?_), fun t w τ e => h ⟨t, w, τ, e⟩⟩
        simp only [ellIn]
        by_cases ha : (E.lab i).actor = some u
        · exfalso
          cases hl : E.lab i with
          | tick t w τ => exact h ⟨t, w, τ, hl⟩
          | call t r => rw [hl] at ha; cases ha; exact hc i (by omega) u hu r hl
          | abort t =>
            rw [hl] at ha hst
            cases ha
            obtain ⟨⟨c, hr⟩, hr'⟩ := wstep_abort hst
            have hap : Apart (E.S i) (E.S (i + 1)) u := (E.upto (i + 2)).apart (show i < i + 2 by omega) (by
              intro u' hu'
              show (E.lab i).actor ≠ some u'
              rw [hl]; simp only [CLabel.actor]; intro e; cases e; exact hu' rfl)
            exact hno i (by omega) (work_end hu hap hr hr')
          | _ => rw [hl] at ha; cases ha
        · rw [wstep_other hst ha])
  exact ⟨n3, fun i hi => (h6 i hi).2⟩
end WEndless
end Contrie
