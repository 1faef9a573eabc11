import Verif.Proof.ReuseSim
import Verif.Props.Linear
import Verif.Props.Progress
/-
C34, second part: the claims hold with an allocator that reuses the memory of destroyed nodes.

The machine is that of `Verif/Model/Reuse.lean`: every allocation may get any address that is not in use, what a pointer points to is whatever is at the address, and a compare-and-set compares
addresses. It cannot notice that a pointer is stale.
-/
set_option linter.unusedSectionVars false
namespace Contrie
open scoped List
variable {K P : Type} [DecidableEq K] {cfg : Config K P}

/-- The content of the map at instant `i`. -/
def RExec.content (R : RExec cfg) (i : Nat) : AMap K P := (R.st i).content cfg

/-- Call `id` is invoked with request `r` (at instant `id`). -/
def RExec.Invoked (R : RExec cfg) (id : Nat) (r : Req K P) : Prop := R.ev id = some (.inv id r)

/-- Call `id` returns `r` in step `j`. -/
def RExec.Returns (R : RExec cfg) (j id : Nat) (r : Res P) : Prop := R.ev j = some (.res id r)

/-- Session `t` keeps its guard from instant `i` until instant `n`. -/
def RExec.KeepsGuard (R : RExec cfg) (t i n : Nat) : Prop := ∀ j, i ≤ j → j < n → R.lab j ≠ .unpin t ∧ R.lab j ≠ .abort t

/-- The history of the map operations until instant `n`. -/
def RExec.history (R : RExec cfg) (n : Nat) : List (HEv K P) := opHistory ((List.range n).filterMap R.ev)

theorem RExec.fresh_lab (R : RExec cfg) (i : Nat) : R.fresh.lab i = R.lab i ∨ ∃ x, R.lab i = .free x := by
  show (R.lab i).unre R.address (R.absSt i) = R.lab i ∨ _
  cases R.lab i with
  | free x => exact .inr ⟨x, rfl⟩
  | _ => exact .inl rfl

/-- **C34.** Every execution with reuse of memory is, but for the addresses, an execution in which every node has an address of its own: the same steps, invocations and results at the same instants, the
same content at every instant, the same calls in progress; every node that is not destroyed is intact at its address (`ρ`). So all claims about executions hold with reuse of memory, too. -/
theorem C34_refines (R : RExec cfg) : ∃ (ρ : Nat → Nat) (E : Exec cfg), (∀ i, E.ev i = R.ev i) ∧ (∀ i, E.lab i = R.lab i ∨ ∃ x, R.lab i = .free x) ∧
    (∀ i, E.content i = R.content i) ∧
    (∀ i t, ((R.st i).thr t).pin = ((E.st i).thr t).pin ∧ ((R.st i).thr t).failed = ((E.st i).thr t).failed ∧
      ((R.st i).thr t).refs = ((E.st i).thr t).refs.map ρ ∧
      ((R.st i).thr t).run.map (fun c => (c.inv, c.req, c.calls, c.ticks)) = ((E.st i).thr t).run.map (fun c => (c.inv, c.req, c.calls, c.ticks))) ∧
    (∀ i a items, (E.st i).m.deref a = some (.data items) → (R.st i).m.deref (ρ a) = some (.data items)) ∧
    (∀ i a b, (E.st i).m.deref a ≠ none → (E.st i).m.deref b ≠ none → ρ a = ρ b → a = b) := by
  refine ⟨R.address, R.fresh, fun i => rfl, R.fresh_lab, fun i => (R.content_eq i).symm, ?_, ?_, fun i => (R.rel i).mem.inj⟩
  · intro i t
    rw [(R.rel i).thr t]
    refine ⟨rfl, rfl, rfl, ?_⟩
    simp only [Thread.ren, Option.map_map]
    rfl
  · intro i a items h
    exact ((R.rel i).mem.live a _ h).1

/-- **C34.** Linearizability, with reuse of memory. -/
theorem C34_linearizable (R : RExec cfg) (n : Nat) : WellFormed (R.history n) ∧ ∃ L, IsLinearization cfg.key (R.history n) L (R.content n) := by
  have h := C01_linearizable_content R.fresh n
  rw [← R.fresh.opHistory_ofList] at h
  have hc : R.fresh.content n = R.content n := (R.content_eq n).symm
  rw [hc] at h
  exact h

/-- **C34.** No call ever fails: in particular no stale pointer is ever followed to an address where nothing, or something of the wrong kind, is. -/
theorem C34_no_failure (R : RExec cfg) (i t : Nat) : ((R.st i).thr t).failed = none := by
  rw [(R.rel i).thr t]
  exact ((R.fresh.inv i).thr t).noFail

/-- **C34.** What a call has returned a reference to stays where it is, untouched, for as long as the session keeps the guard under which it made the call: its memory is not given to anybody else. -/
theorem C34_returned_references (R : RExec cfg) {j id t : Nat} {r : Ret P} {weak : Bool} (hr : R.Returns j id (.op r)) (hl : R.lab j = .tick t weak)
    {p : P} (hp : p ∈ (Res.op r).elements) : ∃ x items, p ∈ items ∧
      ∀ n, j < n → R.KeepsGuard t (j + 1) n → (R.st n).m.deref x = some (.data items) ∧ (R.st n).m.inUse x = true := by
  have hl' : R.fresh.lab j = .tick t weak := by
    rcases R.fresh_lab j with e | ⟨x, e⟩
    · rw [e, hl]
    · rw [hl] at e; cases e
  obtain ⟨a, items, h1, h2⟩ := C06_returned_references R.fresh (r := r) hr hl' hp
  refine ⟨R.address a, items, h1, fun n hn hk => ?_⟩
  have := h2 n hn (fun i hi hi' => by
    rcases R.fresh_lab i with e | ⟨x, e⟩
    · rw [e]; exact hk i hi hi'
    · have : R.fresh.lab i = (R.lab i).unre R.address (R.absSt i) := rfl
      rw [e] at this
      simp only [Label.unre] at this
      split at this <;> rw [this] <;> simp)
  have hd := ((R.rel n).mem.live a _ this).1
  exact ⟨hd, by simp [Mem.inUse, show (R.st n).m.deref (R.address a) = _ from hd]⟩

/-- **C34.** Memory of a node that is linked is never given to another node: a node whose address is offered in a step is not reachable from the root at that moment. -/
theorem C34_linked_not_offered (R : RExec cfg) (i x : Nat) (h : Linked (R.st i).m x) : (R.st i).m.inUse x = true ∧ R.addr i ≠ x := by
  have key : ∃ a, Linked (R.fresh.st i).m a ∧ R.address a = x := by
    induction h with
    | @root y hy =>
      rw [(R.rel i).mem.root] at hy
      simp only [Word.ren_ptr, Option.map_eq_some_iff] at hy
      obtain ⟨a, ha, rfl⟩ := hy
      exact ⟨a, .root ha, rfl⟩
    | @cell y z c q j hz hm hp ih =>
      obtain ⟨b, hb, rfl⟩ := ih
      obtain ⟨nd, hnd⟩ := Option.ne_none_iff_exists'.mp (R.live i b hb)
      have h1 := (deref_some.mp ((R.rel i).mem.live b nd hnd).1).2
      rw [hm] at h1
      cases nd with
      | data l => simp [Node.ren] at h1
      | inner c' q' =>
        simp only [Node.ren, Option.some.injEq, Node.inner.injEq] at h1
        obtain ⟨rfl, rfl⟩ := h1
        simp only [Word.ren_ptr, Option.map_eq_some_iff] at hp
        obtain ⟨a, ha, rfl⟩ := hp
        exact ⟨a, .cell hb (deref_some.mp hnd).2 ha, rfl⟩
  obtain ⟨a, ha, rfl⟩ := key
  obtain ⟨nd, hnd⟩ := Option.ne_none_iff_exists'.mp (R.live i a ha)
  have hd := ((R.rel i).mem.live a nd hnd).1
  have hu : (R.st i).m.inUse (R.address a) = true := by simp [Mem.inUse, hd]
  refine ⟨hu, ?_⟩
  intro e
  have hs := R.step i
  simp only [rstep, e, hu, if_true] at hs
  cases hs

/-- **C34.** There is always memory for the next node (as long as the address space does not end), and a call in progress can always take its next step, whichever free address the allocator offers. -/
theorem C34_never_blocked (R : RExec cfg) (i : Nat) : (∃ x, (R.st i).m.inUse x = false) ∧
    ∀ x t c weak, (R.st i).m.inUse x = false → ((R.st i).thr t).run = some c → (rstep cfg (R.st i) x (.tick t weak)).isSome := by
  constructor
  · -- beyond the addresses of all nodes created so far
    have hbound : ∀ n, ∃ b, ∀ a, a < n → R.address a < b := by
      intro n
      induction n with
      | zero => exact ⟨0, fun a h => by omega⟩
      | succ n ih =>
        obtain ⟨b, hb⟩ := ih
        refine ⟨b + R.address n + 1, fun a ha => ?_⟩
        by_cases e : a = n
        · subst e; omega
        · have := hb a (by omega); omega
    obtain ⟨b, hb⟩ := hbound (R.fresh.st i).m.next
    refine ⟨b, ?_⟩
    cases hu : (R.st i).m.inUse b with
    | false => rfl
    | true =>
      exfalso
      have hne : (R.st i).m.deref b ≠ none := by intro h; simp [Mem.inUse, h] at hu
      obtain ⟨a, ha, e⟩ := (R.rel i).mem.only b hne
      have : a < (R.fresh.st i).m.next := by
        rcases Nat.lt_or_ge a (R.fresh.st i).m.next with h | h
        · exact h
        · have := (R.fresh.inv i).mem.fresh a h
          exact absurd (by simp [Mem.deref, this]) ha
      have := hb a this
      omega
  · intro x t c weak hx hc
    simp [rstep, hx, step, hc]

theorem RExec.fresh_lab_iff (R : RExec cfg) (i : Nat) {l : Label K P} (h1 : ∀ x, l ≠ .free x) (h2 : l ≠ .idle) : R.fresh.lab i = l ↔ R.lab i = l := by
  show (R.lab i).unre R.address (R.absSt i) = l ↔ _
  cases hl : R.lab i with
  | free x =>
    simp only [Label.unre]
    constructor
    · intro h
      split at h
      · exact absurd h.symm (h1 _)
      · exact absurd h.symm h2
    · intro h; exact absurd h.symm (h1 x)
  | _ => exact Iff.rfl

/-- **C34.** Lock-freedom, with reuse of memory: as C09. -/
theorem C34_lock_free (R : RExec cfg) (N : Nat) (hN : ∀ i t w, R.lab i = .tick t w → t < N) (hw : ∃ n, ∀ i, n ≤ i → ∀ t, R.lab i ≠ .tick t true)
    (hinf : ∀ n, ∃ i, n ≤ i ∧ ∃ t, R.lab i = .tick t false) : ∀ n, ∃ i, n ≤ i ∧ ((∃ id r, R.Returns i id r) ∨ ∃ t, R.lab i = .abort t) := by
  have tk : ∀ i t w, R.fresh.lab i = .tick t w ↔ R.lab i = .tick t w := fun i t w => R.fresh_lab_iff i (by simp) (by simp)
  have ab : ∀ i t, R.fresh.lab i = .abort t ↔ R.lab i = .abort t := fun i t => R.fresh_lab_iff i (by simp) (by simp)
  intro n
  obtain ⟨i, h1, h2⟩ := C09_lock_free R.fresh N (fun i t w h => hN i t w ((tk i t w).mp h))
    (by obtain ⟨n, h⟩ := hw; exact ⟨n, fun i hi t e => h i hi t ((tk i t true).mp e)⟩)
    (fun n => by obtain ⟨i, h1, t, h2⟩ := hinf n; exact ⟨i, h1, t, (tk i t false).mpr h2⟩) n
  refine ⟨i, h1, ?_⟩
  rcases h2 with h2 | ⟨t, h2⟩
  · exact .inl h2
  · exact .inr ⟨t, (ab i t).mp h2⟩

/-- The machine without reuse is the special case in which the allocator always offers a new address. -/
theorem C34_general (E : Exec cfg) : ∃ R : RExec cfg, (∀ i, R.st i = E.st i) ∧ (∀ i, R.lab i = E.lab i) ∧ ∀ i, R.ev i = E.ev i := by
  have hoff : ∀ i, (E.st i).m.offer (E.st i).m.next = (E.st i).m := by
    intro i
    have hb := E.blank i
    have hu : ∀ {β : Type} (f : Nat → β) (a : Nat) (b : β), f a = b → upd f a b = f := by
      intro β f a b h
      funext x
      simp only [upd]
      split
      · next e => rw [e, h]
      · rfl
    simp only [Mem.offer, hu _ _ _ hb.mem, hu _ _ _ hb.retired, hu _ _ _ hb.freed]
  refine ⟨⟨E.st, E.lab, fun i => (E.st i).m.next, E.ev, E.init, ?_, E.enabled, E.wf⟩, fun _ => rfl, fun _ => rfl, fun _ => rfl⟩
  intro i
  have hd := (E.blank i).deref
  simp only [rstep, Mem.inUse, hd, hoff]
  exact E.step i

/-! ### Concrete runs -/

/-- The check: every label can be executed, obeys its contract, and the address offered is free. Only sessions below `N` are used. -/
def rRunOKb (cfg : Config K P) (N : Nat) (far : Nat) : State K P → List (Label K P × Nat) → Bool
  | s, [] => !s.m.inUse far
  | s, (l, x) :: ls => l.enabledb N s && l.wfb cfg && (match l.thread with | none => true | some t => decide (t < N)) &&
    match rstep cfg s x l with
    | none => false
    | some (s', _) => rRunOKb cfg N far s' ls

/-- State after `i` steps of a concrete run. -/
def rStAt (cfg : Config K P) (far : Nat) (ls : List (Label K P × Nat)) : Nat → State K P
  | 0 => State.init
  | i + 1 => ((rstep cfg (rStAt cfg far ls i) (ls.getD i (.idle, far)).2 (ls.getD i (.idle, far)).1).map (·.1)).getD State.init

/-- What is observable of step `i` of a concrete run. -/
def rEvAt (cfg : Config K P) (far : Nat) (ls : List (Label K P × Nat)) (i : Nat) : Option (Event K P) :=
  ((rstep cfg (rStAt cfg far ls i) (ls.getD i (.idle, far)).2 (ls.getD i (.idle, far)).1).map (·.2)).getD none

theorem reuse_enabled_of_check {N : Nat} {s : State K P} (hs : ∀ t, N ≤ t → (s.thr t).pin = none) {l : Label K P} (h1 : l.enabledb N s = true) : l.enabled s := by
  cases l with
  | free a =>
    simp only [Label.enabledb] at h1
    cases hr : s.m.retired a with
    | none => simp [hr] at h1
    | some τ =>
      refine ⟨τ, hr, ?_⟩
      intro t p hp
      by_cases ht : t < N
      · simp only [hr, List.all_eq_true, List.mem_range] at h1
        have := h1 t ht
        simpa [hp] using this
      · rw [hs t (by omega)] at hp; cases hp
  | _ => trivial

theorem reuse_wf_of_check {l : Label K P} (h : l.wfb cfg = true) : l.WF cfg := by
  cases l with
  | call t r =>
    cases r with
    | op o => cases o <;> simp_all [Label.wfb, Label.WF, Op.WF]
    | _ => trivial
  | _ => trivial

theorem RExec.ofCheck (N far : Nat) {ls : List (Label K P × Nat)} (h : rRunOKb cfg N far State.init ls = true) :
    ∃ R : RExec cfg, (∀ i, R.st i = rStAt cfg far ls i) ∧ (∀ i, R.lab i = (ls.getD i (.idle, far)).1) ∧ (∀ i, R.addr i = (ls.getD i (.idle, far)).2) ∧
      ∀ i, R.ev i = rEvAt cfg far ls i := by
  have key : ∀ (ls : List (Label K P × Nat)) (s : State K P), (∀ t, N ≤ t → (s.thr t).pin = none) → rRunOKb cfg N far s ls = true →
      ∀ i (f : Nat → State K P), f 0 = s →
      (∀ j, f (j + 1) = ((rstep cfg (f j) (ls.getD j (.idle, far)).2 (ls.getD j (.idle, far)).1).map (·.1)).getD State.init) →
      (∃ e, rstep cfg (f i) (ls.getD i (.idle, far)).2 (ls.getD i (.idle, far)).1 = some (f (i + 1), e)) ∧ (ls.getD i (.idle, far)).1.WF cfg ∧
        (ls.getD i (.idle, far)).1.enabled (f i) := by
    intro ls
    induction ls with
    | nil =>
      intro s _ hs i f h0 hf
      have hi : ∀ i, ([] : List (Label K P × Nat)).getD i (.idle, far) = (.idle, far) := fun i => by simp
      have hfree : ∀ i, (f i).m.inUse far = false := by
        intro i
        induction i with
        | zero => rw [h0]; simpa [rRunOKb] using hs
        | succ i ih =>
          have e : rstep cfg (f i) far (.idle : Label K P) = some (⟨((f i).m.offer far).bump, (f i).thr⟩, none) := by simp [rstep, ih, Contrie.step]
          rw [hf i, hi i, e]
          simp [Mem.inUse, Mem.deref, Mem.bump, Mem.offer]
      have := hf i
      rw [hi i] at this ⊢
      refine ⟨⟨none, ?_⟩, trivial, trivial⟩
      simp only [rstep, hfree i, Contrie.step] at this ⊢
      rw [this]; rfl
    | cons l ls ih =>
      intro s hpin hs i f h0 hf
      obtain ⟨l, x⟩ := l
      simp only [rRunOKb, Bool.and_eq_true] at hs
      obtain ⟨⟨⟨h1, h2⟩, h3⟩, h4⟩ := hs
      split at h4
      · cases h4
      · next s' e hs' =>
        have h5 := hf 0
        rw [h0] at h5
        simp only [List.getD_cons_zero, hs', Option.map, Option.getD_some] at h5
        cases i with
        | zero =>
          simp only [List.getD_cons_zero, h0]
          exact ⟨⟨e, by rw [hs', h5]⟩, reuse_wf_of_check h2, reuse_enabled_of_check hpin h1⟩
        | succ i =>
          have hpin' : ∀ t, N ≤ t → (s'.thr t).pin = none := by
            intro t ht
            simp only [rstep] at hs'
            split at hs'
            · cases hs'
            · rw [step_thread hs' (by
                intro e
                rw [e] at h3
                simp at h3
                omega)]
              exact hpin t ht
          have := ih s' hpin' h4 i (fun j => f (j + 1)) h5 (by intro j; have := hf (j + 1); simpa using this)
          simpa using this
  have k := fun i => key ls _ (fun _ _ => rfl) h i (rStAt cfg far ls) rfl (fun _ => rfl)
  refine ⟨⟨rStAt cfg far ls, fun i => (ls.getD i (.idle, far)).1, fun i => (ls.getD i (.idle, far)).2, rEvAt cfg far ls, rfl, ?_, fun i => (k i).2.2, fun i => (k i).2.1⟩,
    fun _ => rfl, fun _ => rfl, fun _ => rfl, fun _ => rfl⟩
  intro i
  obtain ⟨⟨e, he⟩, -⟩ := k i
  have : rEvAt cfg far ls i = e := by simp only [rEvAt, he]; rfl
  rw [this]; exact he

/-- Memory is reused while another session reads. Session 0 inserts `(7,1)` (address 5), replaces it by `(7,2)` (address 6) and lets go of its guard; the node at address 5 is destroyed;
session 1 looks up `7` in an iteration that is on its way when session 0 replaces the element once more, by `(7,3)`: the new node gets the address 5 again. -/
def exReuse : List (Label Nat (Nat × Nat) × Nat) :=
  [(.pin 0, 0), (.call 0 (.op (.insert (7, 1))), 0), (.tick 0 false, 0), (.tick 0 false, 5),
   (.call 0 (.op (.insert (7, 2))), 0), (.tick 0 false, 0), (.tick 0 false, 6), (.unpin 0, 0),
   (.free 5, 0), (.pin 1, 0), (.call 1 .iter, 0), (.tick 1 false, 0), (.pin 0, 0), (.call 0 (.op (.insert (7, 3))), 0),
   (.tick 0 false, 0), (.tick 0 false, 5), (.tick 1 false, 0), (.tick 1 false, 0), (.tick 1 false, 0),
   (.call 1 (.op (.get 7)), 0), (.tick 1 false, 0)]

set_option maxRecDepth 20000 in
/-- C34 applies to `exReuse`: the node created in step 15 has the address of the node created in step 3; the iteration yields what it has come upon before, the `get` after it the new element. -/
example : ∃ R : RExec exCfg, (R.st 4).m.deref 5 = some (.data [(7, 1)]) ∧ (R.st 9).m.inUse 5 = false ∧ (R.st 16).m.deref 5 = some (.data [(7, 3)]) ∧
    (R.st 16).m.deref 6 = some (.data [(7, 2)]) ∧ R.Returns 18 10 (.list [(7, 2)]) ∧ R.Returns 20 19 (.op (.opt (some (7, 3)))) := by
  obtain ⟨R, h1, h2, h3, h4⟩ := RExec.ofCheck (cfg := exCfg) 2 0 (ls := exReuse) (by decide)
  refine ⟨R, ?_⟩
  simp only [RExec.Returns, h1, h4]
  exact ⟨rfl, rfl, rfl, rfl, rfl, rfl⟩

end Contrie
