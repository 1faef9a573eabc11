import Verif.Proof.WeakInv
import Verif.Props.Common
/-
C35: publication under weak memory orderings.
-/
set_option linter.unusedSectionVars false
set_option linter.unusedSimpArgs false
namespace Contrie
variable {K P : Type} [DecidableEq K] {cfg : Config K P} {s : WState K P}

/-- **C35.** In every execution of the weak memory machine with the orderings of the code - any number of sessions and steps, every load returning any
value ever written to the location - no session dereferences a pointer to a node whose initialisation it does not see, and none of the
code's assertions fails. What the references handed out to users point to is an initialised data node, and its initialisation is visible to the holder. -/
theorem C35_publication (h : WReachable cfg .code s) (t : Nat) :
    (s.thr t).failed = none ∧
    ∀ a ∈ (s.thr t).refs, (s.thr t).Knows a ∧ ∃ items, s.m.nodes a = some (.data items) :=
  ⟨(h.inv.thr t).ok, (h.inv.thr t).refs⟩

/-- The executions C35 is about include those in which calls unwind: at any moment, any call may be abandoned. -/
theorem C35_with_unwinding (h : WReachable cfg .code s) (t : Nat) : ∃ s', WReachable cfg .code s' ∧ (s'.thr t).run = none ∧ s'.m = s.m ∧ ∀ t', t' ≠ t → s'.thr t' = s.thr t' :=
  ⟨_, .step _ _ h (.abort s t (h.inv.thr t).ok), by simp, rfl, fun t' ht => upd_other _ _ ht⟩

/-- **C35**, at every single access: the cell a call is about to load from or store to lies in an inner node whose initialisation the session sees. -/
theorem C35_access (h : WReachable cfg .code s) {t : Nat} {c : Call K P} (hc : (s.thr t).run = some c) {a : Nat} {i : Fin 16} {o : LoadOrd}
    (ha : c.pc.access .code = some (.slot a i, o)) :
    (s.thr t).Knows a ∧ ∃ cells path, s.m.nodes a = some (.inner cells path) := by
  obtain ⟨hi, hh⟩ := (h.inv.thr t).run c hc
  obtain ⟨⟨q, hq⟩, hk⟩ := access_loc h.inv.mem hi ha
  obtain ⟨cs, p, h1, -⟩ := hq
  exact ⟨hh a (hk a rfl), cs, p, h1⟩

/-- **C35**, no reader is left behind for good: whatever pointer is written anywhere, the node it points to has been initialised by then. -/
theorem C35_messages (h : WReachable cfg .code s) {loc : Loc} {msg : Msg} (hm : s.m.msgs loc msg) {a : Nat} (ha : msg.word.ptr = some a) :
    msg.view a ∧ ∃ n, s.m.nodes a = some n := by
  have hok := h.inv.mem.msgOK loc msg hm
  have hv := hok.known a ha
  cases hn : s.m.nodes a with
  | none => exact absurd hn (hok.view.alloc a hv)
  | some n => exact ⟨hv, n, rfl⟩

/-! ### Examples -/

/-- The orderings of the code, with the load of `get` relaxed. -/
def exRelaxedGet : Orders := { Orders.code with get := .relaxed }
/-- The orderings of the code, with a CAS of `traverse` that is not a release. -/
def exRelaxedCas : Orders := { Orders.code with travRel := false }
/-- The orderings of the code on a machine where consume means no more than what the C11 standard promises. -/
def exLetter : Orders := { Orders.code with deep := false }

/-- After session 0 has inserted (7, 1). -/
theorem ex_inserted (O : Orders) : ∃ s : WState Nat (Nat × Nat), WReachable exCfg O s ∧
    s.m.nodes = upd (fun _ => none) 0 (some (.data [(7, 1)])) ∧ s.m.next = 1 ∧
    (∃ v, s.m.msgs .root ⟨⟨some 0, false, true⟩, v⟩ ∧ (v 0 ↔ O.travRel = true)) ∧
    (∀ t, t ≠ 0 → s.thr t = WThread.init) := by
  have r1 := WReachable.step _ _ .init (WStep.call (cfg := exCfg) (O := O) .init 0 (.op (.insert (7, 1))) rfl rfl (by intro o h; cases h; trivial))
  have r2 := WReachable.step _ _ r1 (WStep.tick (cfg := exCfg) (O := O) _ 0 false ⟨Word.null, fun _ => False⟩ _ (by simp; rfl)
    (by intro loc o h; left; right; cases h; exact ⟨rfl, rfl⟩))
  have r3 := WReachable.step _ _ r2 (WStep.tick (cfg := exCfg) (O := O) _ 0 false ⟨Word.null, fun _ => False⟩ _ 
    (by simp [WState.tick, WState.exec, WState.finish, startPC, PC.access, WMem.seen, Mem.write, tick, tickTrav, Mem.read, Word.null]; rfl)
    (by intro loc o h; left; right; cases h; exact ⟨rfl, rfl⟩))
  refine ⟨_, r3, ?_⟩
  simp [WState.tick, WState.exec, WState.finish, WState.init, startPC, PC.access, WMem.seen, Mem.write, Mem.alloc, Mem.deref, tick, tickTrav, tickTravCas, Mem.read, Word.null,
    TState.payload, newNode, WMem.after, WMem.init, WMem.stored, PC.stores, WThread.init]
  refine ⟨⟨fun h => h.1, fun h => ⟨h, ?_⟩⟩, fun t ht => by simp [upd, ht]⟩
  exact Or.inr ⟨Or.inr ⟨rfl, rfl⟩, 0, rfl, Or.inl rfl, .refl 0⟩

/-- Session 1 then looks 7 up, and reads what session 0 has stored into the root. -/
theorem ex_lookup (O : Orders) : ∃ (s : WState Nat (Nat × Nat)), WReachable exCfg O s ∧
    (s.thr 1).failed = (if O.travRel = true ∧ O.get ≠ .relaxed then none else some .badAccess) ∧
    (s.thr 1).refs = (if O.travRel = true ∧ O.get ≠ .relaxed then [0] else []) := by
  obtain ⟨s, r, hn, hx, ⟨v, hm, hv⟩, ht⟩ := ex_inserted O
  have h1 := ht 1 (by decide)
  have r1 := WReachable.step _ _ r (WStep.call (cfg := exCfg) (O := O) s 1 (.op (.get 7)) (by rw [h1]; rfl) (by rw [h1]; rfl)
    (by intro o h; cases h; trivial))
  have r2 := WReachable.step _ _ r1 (WStep.tick (cfg := exCfg) (O := O) _ 1 false ⟨⟨some 0, false, true⟩, v⟩ _ (by simp; rfl)
    (by intro loc o h; left; left; cases h; exact hm))
  refine ⟨_, r2, ?_⟩
  by_cases hK : O.travRel = true ∧ O.get ≠ .relaxed
  · have : acquired (some O.get) ⟨⟨some 0, false, true⟩, v⟩ 0 ∨ consumed (some O.get) ⟨⟨some 0, false, true⟩, v⟩ 0 := by
      cases hg : O.get with
      | relaxed => exact absurd hg hK.2
      | consume => exact Or.inr ⟨rfl, hv.2 hK.1⟩
      | acquire => exact Or.inl ⟨rfl, hv.2 hK.1⟩
    simp [WState.tick, WState.exec, WState.finish, startPC, PC.access, WMem.seen, Mem.write, Mem.deref, tick, tickGet, Mem.read,
      Mem.loadData, h1, WThread.init, hn, hK, exCfg, this, WThread.apply]
  · have : ¬ (acquired (some O.get) ⟨⟨some 0, false, true⟩, v⟩ 0 ∨ consumed (some O.get) ⟨⟨some 0, false, true⟩, v⟩ 0) := by
      rintro (⟨h2, h3⟩ | ⟨h2, h3⟩)
      · exact hK ⟨hv.1 h3, by intro h; rw [h] at h2; cases h2⟩
      · exact hK ⟨hv.1 h3, by intro h; rw [h] at h2; cases h2⟩
    simp [WState.tick, WState.exec, WState.finish, startPC, PC.access, WMem.seen, Mem.write, Mem.deref, tick, tickGet, Mem.read,
      Mem.loadData, h1, WThread.init, hn, exCfg, this, WThread.apply]
    intro h; exact Classical.byContradiction (fun h' => hK ⟨h, h'⟩)

/-- The hypotheses of C35 are met by an execution in which one session receives a reference into a node created by another one ... -/
example : ∃ s : WState Nat (Nat × Nat), WReachable exCfg .code s ∧ (s.thr 1).refs = [0] := by
  obtain ⟨s, h1, -, h2⟩ := ex_lookup .code
  exact ⟨s, h1, h2⟩

/-- ... and the orderings matter: with a relaxed load in `get` the same execution ends in an access to an uninitialised node, ... -/
theorem C35_needs_consume : ∃ s : WState Nat (Nat × Nat), WReachable exCfg exRelaxedGet s ∧ (s.thr 1).failed = some .badAccess := by
  obtain ⟨s, h1, h2, -⟩ := ex_lookup exRelaxedGet
  exact ⟨s, h1, h2⟩

/-- ... and so it does with a CAS in `traverse` that is not a release. -/
theorem C35_needs_release : ∃ s : WState Nat (Nat × Nat), WReachable exCfg exRelaxedCas s ∧ (s.thr 1).failed = some .badAccess := by
  obtain ⟨s, h1, h2, -⟩ := ex_lookup exRelaxedCas
  exact ⟨s, h1, h2⟩

/-- After session 1 has begun to insert (8, 2) and split the leaf. -/
theorem ex_split : ∃ s : WState Nat (Nat × Nat), WReachable exCfg exLetter s ∧
    s.m.nodes = upd (upd (fun _ => none) 0 (some (.data [(7, 1)]))) 1
      (some (.inner (upd (fun _ => Word.null) 7 ⟨some 0, false, true⟩) [])) ∧
    (∃ v, s.m.msgs .root ⟨⟨some 1, false, false⟩, v⟩ ∧ v 1 ∧ ¬ v 0) ∧ s.thr 2 = WThread.init := by
  obtain ⟨s, r, hn, hx, ⟨v, hm, hv⟩, ht⟩ := ex_inserted exLetter
  have h1 := ht 1 (by decide)
  have h2 := ht 2 (by decide)
  have hv0 : v 0 := hv.2 rfl
  have hb : bitsAt 7 0 = 7 := by decide
  have r1 := WReachable.step _ _ r (WStep.call (cfg := exCfg) (O := exLetter) s 1 (.op (.insert (8, 2))) (by rw [h1]; rfl) (by rw [h1]; rfl)
    (by intro o h; cases h; trivial))
  have r2 := WReachable.step _ _ r1 (WStep.tick (cfg := exCfg) (O := exLetter) _ 1 false ⟨⟨some 0, false, true⟩, v⟩ _ (by simp; rfl)
    (by intro loc o h; left; left; cases h; exact hm))
  simp [WState.tick, WState.exec, WState.finish, startPC, PC.access, WMem.seen, Mem.write, Mem.deref, tick, tickTrav, Mem.read,
      Mem.loadData, h1, WThread.init, hn, exCfg, WThread.apply, consumed, acquired, exLetter, Orders.code, hv0, TState.key, HASH_BITS, hb, pathTo,
      newNode, WMem.after, hx, withNew, WMem.stored, PC.stores] at r2
  have r3 := WReachable.step _ _ r2 (WStep.tick (cfg := exCfg) (O := exLetter) _ 1 false ⟨⟨some 0, false, true⟩, v⟩ _ (by simp; rfl)
    (by intro loc o h; left; left; cases h; exact hm))
  simp [WState.tick, WState.exec, WState.finish, startPC, PC.access, WMem.seen, Mem.write, Mem.deref, tick, tickTrav, tickTravCas, Mem.read, Mem.alloc,
      Mem.loadData, h1, WThread.init, hn, exCfg, WThread.apply, consumed, acquired, exLetter, Orders.code, hv0, TState.key, HASH_BITS, hb, pathTo,
      newNode, WMem.after, hx, withNew, WMem.stored, PC.stores] at r3
  refine ⟨_, r3, rfl, ⟨_, Or.inr ⟨rfl, rfl⟩, ?_, ?_⟩, ?_⟩
  · exact ⟨rfl, Or.inr ⟨Or.inr ⟨rfl, rfl⟩, 1, rfl, Or.inl rfl, .refl 1⟩⟩
  · rintro ⟨-, h | ⟨-, b, h, h' | h', -⟩⟩
    · exact h
    · subst h'; cases h
    · cases h'
  · simp [upd, h2, WThread.init]

/-- On a machine that orders nothing beyond the letter of C11's consume, publishing a new inner node would not publish the leaf that is reached through
it: `get` of a third session would end in an access to an uninitialised node. The code relies on what crossbeam's `load_consume` provides
in practice (dependency ordering by hardware, or acquire). -/
theorem C35_letter_of_consume : ∃ s : WState Nat (Nat × Nat), WReachable exCfg exLetter s ∧ (s.thr 2).failed = some .badAccess := by
  obtain ⟨s, r, hn, ⟨v, hm, hv1, hv0⟩, h2⟩ := ex_split
  have r1 := WReachable.step _ _ r (WStep.call (cfg := exCfg) (O := exLetter) s 2 (.op (.get 7)) (by rw [h2]; rfl) (by rw [h2]; rfl)
    (by intro o h; cases h; trivial))
  have r2 := WReachable.step _ _ r1 (WStep.tick (cfg := exCfg) (O := exLetter) _ 2 false ⟨⟨some 1, false, false⟩, v⟩ _ (by simp; rfl)
    (by intro loc o h; left; left; cases h; exact hm))
  have hb : bitsAt 7 0 = 7 := by decide
  simp [WState.tick, WState.exec, WState.finish, startPC, PC.access, WMem.seen, Mem.write, Mem.deref, tick, tickGet, Mem.read, Mem.alloc,
      Mem.loadData, h2, WThread.init, hn, exCfg, WThread.apply, consumed, acquired, exLetter, Orders.code, hv0, hv1, hb,
      newNode, WMem.after, withNew, WMem.stored, PC.stores] at r2
  generalize hd : WMem.kept _ _ _ _ = dep at r2
  have hd0 : ¬ dep 0 := by rw [← hd]; exact fun h => h.1.elim hv0 (fun h => by cases h.1)
  have hd1 : dep 1 := by rw [← hd]; exact ⟨Or.inl hv1, 1, Or.inl rfl, .refl 1⟩
  have r3 := WReachable.step _ _ r2 (WStep.tick (cfg := exCfg) (O := exLetter) _ 2 false ⟨⟨some 0, false, true⟩, fun _ => False⟩ _ (by simp; rfl)
    (by
      intro loc o h; left; right; cases h
      exact ⟨rfl, _, _, rfl, by rfl⟩))
  refine ⟨_, r3, ?_⟩
  clear r r1 r2 r3 hd
  simp [WState.tick, WState.exec, WState.finish, PC.access, WMem.seen, Mem.write, Mem.deref, tick, tickGet, Mem.read,
      Mem.loadData, WThread.apply, consumed, acquired, exLetter, Orders.code, hd0, hd1, upd]

end Contrie
