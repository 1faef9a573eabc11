import Verif.Proof.ReuseCohExec
import Verif.Props.Synchronised
/-
C56: under weak memory, too, it makes no difference whether the allocator reuses the memory of destroyed nodes.

The machine is that of `Verif/Model/ReuseWeak.lean`.
-/
set_option linter.unusedSectionVars false
namespace Contrie
open scoped List
variable {K P : Type} [DecidableEq K] {cfg : Config K P}

namespace CRExec
variable (R : CRExec cfg)

/-- The content of the trie at instant `i`. -/
def content (i : Nat) : AMap K P := (R.st i).m.abs cfg

/-- The history of the map operations until instant `n`. -/
def history (n : Nat) : List (HEv K P) := (List.range n).filterMap (fun i => (R.ev i).bind Event.hev)

/-- Call `x` returns before call `y` is invoked, and its session synchronises with that of `y` in between. -/
def Hb (x y : Nat) : Prop :=
  ∃ t t' j r req weak τ, j < R.len ∧ R.lab j = .tick t weak τ ∧ R.ev j = some (.res x r) ∧
    y < R.len ∧ R.lab y = .call t' req ∧ HB R.lab R.len (t, j + 1) (t', y)

/-- Session `t` keeps its guard from instant `i` until instant `n`. -/
def KeepsGuard (t i n : Nat) : Prop := ∀ j, i ≤ j → j < n → R.lab j ≠ .unpin t ∧ R.lab j ≠ .abort t

end CRExec

theorem HB.relabel {lab lab' : Nat → CLabel K P} {n : Nat} (h : ∀ j t t' τ, lab j = .sync t t' τ → lab' j = .sync t t' τ) {x y : Nat × Nat} (hb : HB lab n x y) :
    HB lab' n x y := by
  induction hb with
  | po t hij => exact .po t hij
  | sync hj hl => exact .sync hj (h _ _ _ _ hl)
  | trans _ _ h1 h2 => exact .trans h1 h2

/-- The execution without reuse, with all there is to know about it. -/
theorem CRExec.fresh_exec (R : CRExec cfg) : ∃ E : CExec cfg, E.len = R.len ∧ E.ev = R.ev ∧ E.lab = R.absLab ∧
    (∀ i, i ≤ R.len → CStRel R.address (E.st i) (R.st i)) ∧ (∀ i, i ≤ R.len → E.content i = R.content i) ∧ (∀ x y, E.Hb x y ↔ R.Hb x y) ∧
    (∀ n, E.history n = R.history n) := by
  obtain ⟨⟨E, e1, e2, e3, e4⟩, hrel⟩ := R.abs_prefix (Nat.le_refl R.len)
  have hst : ∀ i, i ≤ R.len → CStRel R.address (E.st i) (R.st i) := fun i hi => by rw [e2]; exact (hrel i hi).1
  refine ⟨E, e1, e4, e3, hst, ?_, ?_, ?_⟩
  · intro i hi
    funext k
    simp only [CExec.content, CRExec.content, Mem.abs]
    rw [(hst i hi).mem.root]
    exact ((hst i hi).mem.look k (fun a ha => E.linked_live (by omega) ha) _ _ (fun a ha => .root ha)).symm
  · intro x y
    have hl : ∀ j {l : CLabel K P}, (∀ x, l ≠ .free x) → l ≠ .idle → (E.lab j = l ↔ R.lab j = l) := by
      intro j l h1 h2; rw [e3]; exact R.absLab_iff j h1 h2
    simp only [CExec.Hb, CRExec.Hb, e1, e4]
    constructor
    · rintro ⟨t, t', j, r, req, weak, τ, a1, a2, a3, a4, a5, a6⟩
      exact ⟨t, t', j, r, req, weak, τ, a1, (hl j (by simp) (by simp)).mp a2, a3, a4, (hl y (by simp) (by simp)).mp a5,
        a6.relabel (fun j t t' τ h => (hl j (by simp) (by simp)).mp h)⟩
    · rintro ⟨t, t', j, r, req, weak, τ, a1, a2, a3, a4, a5, a6⟩
      exact ⟨t, t', j, r, req, weak, τ, a1, (hl j (by simp) (by simp)).mpr a2, a3, a4, (hl y (by simp) (by simp)).mpr a5,
        a6.relabel (fun j t t' τ h => (hl j (by simp) (by simp)).mpr h)⟩
  · intro n; simp only [CExec.history, CRExec.history, e4]

variable (R : CRExec cfg)

/-- **C56.** Every execution under weak memory with reuse of memory is, but for the addresses, an execution under weak memory in which every node has an address of its own: the same steps, invocations and
results at the same instants, the same content at every instant, the same calls in progress, the same happens-before; every node that is not destroyed is intact at its address (`ρ`). So all claims about
executions under weak memory hold with reuse of memory, too. -/
theorem C56_refines : ∃ (ρ : Nat → Nat) (E : CExec cfg), E.len = R.len ∧ (∀ i, E.ev i = R.ev i) ∧ (∀ i, E.lab i = R.lab i ∨ ∃ x, R.lab i = .free x) ∧
    (∀ i, i ≤ R.len → E.content i = R.content i) ∧ (∀ x y, E.Hb x y ↔ R.Hb x y) ∧
    (∀ i t, i ≤ R.len → ((R.st i).thr t).pin = ((E.st i).thr t).pin ∧ ((R.st i).thr t).failed = ((E.st i).thr t).failed ∧
      ((R.st i).thr t).refs = ((E.st i).thr t).refs.map ρ ∧
      ((R.st i).thr t).run.map (fun c => (c.inv, c.req, c.calls, c.ticks)) = ((E.st i).thr t).run.map (fun c => (c.inv, c.req, c.calls, c.ticks))) ∧
    (∀ i a items, i ≤ R.len → (E.st i).m.deref a = some (.data items) → (R.st i).m.deref (ρ a) = some (.data items)) ∧
    (∀ i a b, i ≤ R.len → (E.st i).m.deref a ≠ none → (E.st i).m.deref b ≠ none → ρ a = ρ b → a = b) := by
  obtain ⟨E, e1, e2, e3, e4, e5, e6, e7⟩ := R.fresh_exec
  refine ⟨R.address, E, e1, fun i => by rw [e2], ?_, e5, e6, ?_, ?_, fun i a b hi => (e4 i hi).mem.inj a b⟩
  · intro i
    rw [e3]
    simp only [CRExec.absLab]
    cases R.lab i with
    | free x => exact .inr ⟨x, rfl⟩
    | _ => exact .inl rfl
  · intro i t hi
    have h := (e4 i hi).thr t
    refine ⟨h.pin, h.failed, h.refs, ?_⟩
    rw [h.run, Option.map_map]
    rfl
  · intro i a items hi h
    exact ((e4 i hi).mem.live a _ h).1

/-- **C56.** What users see (C39), with reuse of memory. -/
theorem C56_causal {n : Nat} (hn : n ≤ R.len) : WellFormed (R.history n) ∧
    ∃ L, IsCausalLinearization cfg.key (R.history n) R.Hb L (R.content n) ∧
      (∀ id j, j < n → R.ev j = some (.res id (.bool true)) → Glimpse cfg.key R.Hb L id j (fun _ => True) AMap.empty) ∧
      (∀ id j out, j < n → R.ev j = some (.res id (.list out)) → ∀ k, ∃ m,
        Glimpse cfg.key R.Hb L id j (fun k' => k' = k) m ∧ out.filter (fun p => decide (cfg.key p = k)) = (m k).toList) := by
  obtain ⟨E, e1, e2, e3, e4, e5, e6, e7⟩ := R.fresh_exec
  have h := C39_causal E (n := n) (by omega)
  have hb : E.Hb = R.Hb := by funext x y; exact propext (e6 x y)
  rw [e7, e5 n hn, e2, hb] at h
  exact h

/-- **C56.** Programs that synchronise need not know about weak memory (C41), nor about reuse of memory. -/
theorem C56_synchronised_linearizable {n : Nat} (hn : n ≤ R.len)
    (hs : ∀ x y o o', HEv.inv x o ∈ R.history n → HEv.inv y o' ∈ R.history n → o.key cfg.key = o'.key cfg.key → Before (R.history n) x y → R.Hb x y) :
    ∃ L, IsLinearization cfg.key (R.history n) L (R.content n) := by
  obtain ⟨E, e1, e2, e3, e4, e5, e6, e7⟩ := R.fresh_exec
  have h := C41_synchronised_linearizable E (n := n) (by omega)
  have hb : E.Hb = R.Hb := by funext x y; exact propext (e6 x y)
  rw [e7, e5 n hn, hb] at h
  exact h hs

/-- **C56.** No call ever fails: no stale pointer is ever followed. -/
theorem C56_no_failure {n : Nat} (hn : n ≤ R.len) (t : Nat) : ((R.st n).thr t).failed = none := by
  obtain ⟨E, e1, e2, e3, e4, -⟩ := R.fresh_exec
  rw [((e4 n hn).thr t).failed]
  exact C40_no_failure E (by omega) t

/-- **C56**, at every single access: the cell a call is about to access lies in an inner node that is in use; and so does, at a compare-and-set, what the word it expects points to: while a session is
about to compare with a pointer, the memory behind that pointer is not given to another node. -/
theorem C56_access {n : Nat} (hn : n ≤ R.len) {t : Nat} {c : Call K P} (hc : ((R.st n).thr t).run = some c) :
    (∀ x i o, c.pc.access .code = some (.slot x i, o) → ∃ cells path, (R.st n).m.deref x = some (.inner cells path)) ∧
    (∀ loc expected x, c.pc.cas = some (loc, expected) → expected.ptr = some x → (R.st n).m.inUse x = true) := by
  obtain ⟨E, e1, e2, e3, e4, -⟩ := R.fresh_exec
  have h := e4 n hn
  rw [(h.thr t).run] at hc
  obtain ⟨ca, hca, rfl⟩ := Option.map_eq_some_iff.mp hc
  constructor
  · intro x i o ha
    have ha' : (ca.pc.ren R.address).access .code = some (.slot x i, o) := ha
    rw [access_renamed, Option.map_eq_some_iff] at ha'
    obtain ⟨⟨l, o'⟩, h1, h2⟩ := ha'
    simp only [Prod.mk.injEq] at h2
    obtain ⟨h2, rfl⟩ := h2
    cases l with
    | root => cases h2
    | slot a i' =>
      simp only [Loc.ren, Loc.slot.injEq] at h2
      obtain ⟨rfl, rfl⟩ := h2
      obtain ⟨cs, q, hd⟩ := C40_access E (by omega) hca h1
      exact ⟨_, _, (h.mem.live a _ hd).1⟩
  · intro loc expected x hcas hx
    have key : ∃ l e, ca.pc.cas = some (l, e) ∧ expected = e.ren R.address := by
      have hcas' : (ca.pc.ren R.address).cas = some (loc, expected) := hcas
      cases hpc : ca.pc with
      | travCas st hash mode shift cur parent node new kind => rw [hpc] at hcas'; simp only [PC.ren, PC.cas, Option.some.injEq, Prod.mk.injEq] at hcas'; exact ⟨_, _, rfl, hcas'.2.symm⟩
      | remCas k shift cur lv node new del => rw [hpc] at hcas'; simp only [PC.ren, PC.cas, Option.some.injEq, Prod.mk.injEq] at hcas'; exact ⟨_, _, rfl, hcas'.2.symm⟩
      | pruneCas parent child acc k => rw [hpc] at hcas'; simp only [PC.ren, PC.cas, Option.some.injEq, Prod.mk.injEq] at hcas'; exact ⟨_, _, rfl, hcas'.2.symm⟩
      | _ => rw [hpc] at hcas'; cases hcas'
    obtain ⟨l, e, h1, rfl⟩ := key
    simp only [Word.ren_ptr, Option.map_eq_some_iff] at hx
    obtain ⟨a, ha, rfl⟩ := hx
    obtain ⟨nd, hnd⟩ := Option.ne_none_iff_exists'.mp (E.held_live (by omega) hca (cas_holds_it h1 ha))
    simp [Mem.inUse, (h.mem.live a nd hnd).1]

/-- **C56.** The elements a call returns (references to) stay where they are, intact, for as long as the session keeps the guard under which it made the call: their memory is not given to anybody else. -/
theorem C56_returned_references {j id t : Nat} {r : Res P} {weak : Bool} {τ : Nat} (hj : j < R.len) (hr : R.ev j = some (.res id r))
    (hl : R.lab j = .tick t weak τ) {p : P} (hp : p ∈ r.elements) : ∃ x items, p ∈ items ∧
      ∀ n, j < n → n ≤ R.len → R.KeepsGuard t (j + 1) n → (R.st n).m.deref x = some (.data items) ∧ (R.st n).m.inUse x = true := by
  obtain ⟨E, e1, e2, e3, e4, -⟩ := R.fresh_exec
  obtain ⟨a, items, h1, h2⟩ := C40_returned_references E (j := j) (id := id) (t := t) (r := r) (weak := weak) (τ := τ) (by omega) (by rw [e2]; exact hr)
    (by rw [e3]; exact (R.absLab_iff j (by simp) (by simp)).mpr hl) hp
  refine ⟨R.address a, items, h1, fun n hn hn' hk => ?_⟩
  have hd := h2 n hn (by omega) (by
    intro i hi hi'
    rw [e3]
    have := hk i hi hi'
    exact ⟨fun e => this.1 ((R.absLab_iff i (by simp) (by simp)).mp e), fun e => this.2 ((R.absLab_iff i (by simp) (by simp)).mp e)⟩)
  have := ((e4 n hn').mem.live a _ hd).1
  exact ⟨this, by simp [Mem.inUse, this, Node.ren]⟩

/-- The machine without reuse is the special case in which the allocator always offers a new address. -/
theorem C56_general (E : CExec cfg) : ∃ R : CRExec cfg, R.len = E.len ∧ (∀ i, R.st i = E.st i) ∧ (∀ i, R.lab i = E.lab i) ∧ ∀ i, R.ev i = E.ev i := by
  have hoff : ∀ i, i ≤ E.len → (E.st i).offer (E.st i).m.next = E.st i := by
    intro i hi
    have hb := E.blank hi
    have hu : ∀ {β : Type} (f : Nat → β) (a : Nat) (b : β), f a = b → upd f a b = f := by
      intro β f a b h
      funext x
      simp only [upd]
      split
      · next e => rw [e, h]
      · rfl
    simp only [CState.offer, Mem.offer, hu _ _ _ hb.mem, hu _ _ _ hb.retired, hu _ _ _ hb.freed]
  -- a node that was created before is not created again
  have hnew : ∀ {a τ j i}, τ ≤ j → j < i → i ≤ E.len → (E.st j).m.next = a → (E.st τ).m.mem a ≠ none → False := by
    intro a τ j i h1 h2 h3 h4 h5
    have hm : (E.st j).m.mem a ≠ none := by
      have H := (E.cinv (n := j) (by omega)).hist
      obtain ⟨nd, hnd⟩ := Option.ne_none_iff_exists'.mp h5
      cases nd with
      | data l => rw [show (E.st j).m.mem a = _ from H.data h1 (Nat.le_refl j) hnd]; simp
      | inner c p => obtain ⟨c', h', -⟩ := H.inner h1 (Nat.le_refl j) hnd; rw [show (E.st j).m.mem a = _ from h']; simp
    rw [← h4] at hm
    exact hm (E.blank (by omega)).mem
  refine ⟨⟨E.len, E.st, E.lab, fun i => (E.st i).m.next, E.ev, E.init, ?_, ?_, ?_, E.wf, ?_⟩, rfl, fun _ => rfl, fun _ => rfl, fun _ => rfl⟩
  · intro i hi
    have hd := (E.blank (Nat.le_of_lt hi)).deref
    simp only [crstep, Mem.inUse, hd, hoff i (Nat.le_of_lt hi)]
    exact E.step i hi
  · intro i hi
    rw [hoff i (Nat.le_of_lt hi)]; exact E.enabled i hi
  · intro i t weak τ c x k o hi hl hc ha j h1 h2 h3
    exfalso
    have hen := E.enabled i hi
    rw [hl] at hen
    have hb := E.base (Nat.le_of_lt hi)
    rcases hen with e | ⟨e1, c', ℓ, o', e2, e3, e4, e5, e6⟩
    · rw [hb.clock] at e; omega
    · rw [hc] at e2; cases e2
      rw [ha] at e3; cases e3
      rw [hb.memAt E (by rw [hb.clock] at e1; omega)] at e4
      refine hnew h1 h2 (Nat.le_of_lt hi) h3 ?_
      intro h
      exact e4 (by simp [Mem.read, Mem.deref, h])
  · intro i a hi hl
    obtain ⟨r, tr, weak, τ, b1, b2, b3, b4, b5⟩ := E.gc i a hi hl
    refine ⟨r, tr, weak, τ, b1, b2, b3, b4, ?_, b5⟩
    intro j h1 h2 h3
    exfalso
    obtain ⟨nd, hm, -⟩ := (E.cinv (n := r + 1) (by omega)).obit r tr weak τ a (by omega) b2 b3 b4
    refine hnew h1 h2 (Nat.le_of_lt hi) h3 ?_
    rw [show (E.st r).m.mem a = _ from hm]; simp

/-! ### Examples -/

/-- State after `i` steps of a concrete run with reuse of memory; every step with the address that the allocator offers. -/
def crStAt (cfg : Config K P) (ls : List (CLabel K P × Nat)) : Nat → CState K P
  | 0 => CState.init
  | i + 1 => match crstep cfg (crStAt cfg ls i) (ls.getD i (.idle, 0)).2 (ls.getD i (.idle, 0)).1 with
    | some (s, _) => s
    | none => crStAt cfg ls i

/-- What is observable of step `i` of a concrete run. -/
def crEvAt (cfg : Config K P) (ls : List (CLabel K P × Nat)) (i : Nat) : Option (Event K P) :=
  match crstep cfg (crStAt cfg ls i) (ls.getD i (.idle, 0)).2 (ls.getD i (.idle, 0)).1 with
  | some (_, e) => e
  | none => none

/-- Check of a concrete run, from state `s` on. -/
def crRunOKb (cfg : Config K P) : CState K P → List (CLabel K P × Nat) → Bool
  | _, [] => true
  | s, l :: ls => l.1.enabledb (s.offer l.2) && l.1.wfb cfg && match crstep cfg s l.2 l.1 with
    | none => false
    | some (s', _) => crRunOKb cfg s' ls

theorem crRun_check {cfg : Config K P} {ls : List (CLabel K P × Nat)} : ∀ {l1 l2 : List (CLabel K P × Nat)}, ls = l1 ++ l2 →
    crRunOKb cfg (crStAt cfg ls l1.length) l2 = true → ∀ i, l1.length ≤ i → i < ls.length →
    (ls.getD i (.idle, 0)).1.enabledb ((crStAt cfg ls i).offer (ls.getD i (.idle, 0)).2) = true ∧ (ls.getD i (.idle, 0)).1.wfb cfg = true ∧
    (crstep cfg (crStAt cfg ls i) (ls.getD i (.idle, 0)).2 (ls.getD i (.idle, 0)).1).isSome = true := by
  intro l1 l2
  induction l2 generalizing l1 with
  | nil =>
    intro hl _ i h1 h2
    simp only [List.append_nil] at hl
    subst hl
    omega
  | cons l l2 ih =>
    intro hl h i h1 h2
    have hget : ls.getD l1.length (.idle, 0) = l := by rw [hl]; simp
    simp only [crRunOKb, Bool.and_eq_true] at h
    obtain ⟨⟨h3, h4⟩, h5⟩ := h
    split at h5
    · cases h5
    · next s' e he =>
      by_cases e1 : i = l1.length
      · subst e1
        rw [hget, he]
        exact ⟨h3, h4, rfl⟩
      · refine ih (l1 := l1 ++ [l]) (by rw [hl]; simp) ?_ i (by simp; omega) h2
        have : crStAt cfg ls (l1 ++ [l]).length = s' := by
          simp only [List.length_append, List.length_cons, List.length_nil, Nat.zero_add, crStAt, hget, he]
        rw [this]; exact h5

/-- Session 0 inserts (7, 1), overwrites it by (7, 2) and drops its guard. Session 1 synchronises with it before it pins itself. Then the node of (7, 1) is destroyed, and session 0 overwrites again: the
node of (7, 3) is given the address 5, which the node of (7, 1) had. Session 1 looks the key up twice: the first time it still sees the old root, the second time the new one. -/
def exReuseWeakRun : List (CLabel Nat (Nat × Nat) × Nat) :=
  [(.pin 0, 0), (.call 0 (.op (.insert (7, 1))), 0), (.tick 0 false 2, 0), (.tick 0 false 3, 5), (.call 0 (.op (.insert (7, 2))), 0), (.tick 0 false 5, 0), (.tick 0 false 6, 6),
   (.unpin 0, 0), (.sync 1 0 8, 0), (.pin 1, 0), (.free 5, 0), (.pin 0, 0), (.call 0 (.op (.insert (7, 3))), 0), (.tick 0 false 13, 0), (.tick 0 false 14, 5),
   (.call 1 (.op (.get 7)), 0), (.tick 1 false 12, 0), (.call 1 (.op (.get 7)), 0), (.tick 1 false 18, 0)]

theorem exReuseWeak_check : crRunOKb exCfg CState.init exReuseWeakRun = true := by decide

/-- What a session looks at is never older than its own step, but for step 16, which reads the root. -/
theorem exReuseWeak_fresh (i t : Nat) (weak : Bool) (τ : Nat) (hi : i < 19) (h : (exReuseWeakRun.getD i (.idle, 0)).1 = .tick t weak τ) :
    i ≤ τ ∨ (i = 16 ∧ t = 1) := by
  match i, hi with
  | 16, _ => injection h with h1 h2 h3; exact .inr ⟨rfl, h1.symm⟩
  | 2, _ | 3, _ | 5, _ | 6, _ | 13, _ | 14, _ | 18, _ => injection h with h1 h2 h3; subst h3; exact .inl (by decide)
  | 0, _ | 1, _ | 4, _ | 7, _ | 8, _ | 9, _ | 10, _ | 11, _ | 12, _ | 15, _ | 17, _ => cases h

theorem exReuseWeak_thread (t : Nat) (ht : 2 ≤ t) : ∀ i, i ≤ 19 → (crStAt exCfg exReuseWeakRun i).thr t = CThread.init := by
  intro i
  induction i with
  | zero => intro _; rfl
  | succ i ih =>
    intro hi
    simp only [crStAt]
    split
    · next s e he =>
      simp only [crstep] at he
      split at he
      · cases he
      · rw [cstep_thread he ?_]
        · exact ih (by omega)
        · intro hth
          have hmem : ∀ l ∈ exReuseWeakRun, ∀ t, l.1.thread = some t → t < 2 := by
            intro l hl t h
            simp only [exReuseWeakRun, List.mem_cons, List.not_mem_nil, or_false] at hl
            rcases hl with rfl | rfl | rfl | rfl | rfl | rfl | rfl | rfl | rfl | rfl | rfl | rfl | rfl | rfl | rfl | rfl | rfl | rfl | rfl <;>
              simp only [CLabel.thread, Option.some.injEq, reduceCtorEq] at h <;> omega
          have hl : i < exReuseWeakRun.length := by show i < 19; omega
          have := hmem (exReuseWeakRun.getD i (.idle, 0)) (by
            rw [List.getD_eq_getElem?_getD, List.getElem?_eq_getElem hl]
            exact List.getElem_mem hl) t hth
          omega
    · exact ih (by omega)

def exReuseWeak : CRExec exCfg where
  len := 19
  st := crStAt exCfg exReuseWeakRun
  lab := fun i => (exReuseWeakRun.getD i (.idle, 0)).1
  addr := fun i => (exReuseWeakRun.getD i (.idle, 0)).2
  ev := crEvAt exCfg exReuseWeakRun
  init := rfl
  step := by
    intro i hi
    obtain ⟨-, -, h3⟩ := crRun_check (ls := exReuseWeakRun) (l1 := []) (l2 := exReuseWeakRun) rfl exReuseWeak_check i (Nat.zero_le _) hi
    cases he : crstep exCfg (crStAt exCfg exReuseWeakRun i) (exReuseWeakRun.getD i (.idle, 0)).2 (exReuseWeakRun.getD i (.idle, 0)).1 with
    | none => rw [he] at h3; cases h3
    | some x => simp only [crStAt, crEvAt, he]
  enabled := fun i hi => enabled_of_check (crRun_check (ls := exReuseWeakRun) (l1 := []) (l2 := exReuseWeakRun) rfl exReuseWeak_check i (Nat.zero_le _) hi).1
  fresh := by
    intro i t weak τ c x k o hi hl hc ha j h1 h2 _
    rcases exReuseWeak_fresh i t weak τ hi hl with h | ⟨rfl, rfl⟩
    · omega
    · exfalso
      have hr : ((crStAt exCfg exReuseWeakRun 16).thr 1).run.map (fun c => (c.pc.access .code).map Prod.fst) = some (some .root) := by decide
      rw [hc] at hr
      simp [ha] at hr
  wf := fun i hi => wf_of_check (crRun_check (ls := exReuseWeakRun) (l1 := []) (l2 := exReuseWeakRun) rfl exReuseWeak_check i (Nat.zero_le _) hi).2.1
  gc := by
    intro i a hi e
    have hia : i = 10 ∧ a = 5 := by
      match i, hi with
      | 10, _ => injection e with e; exact ⟨rfl, e.symm⟩
      | 0, _ | 1, _ | 2, _ | 3, _ | 4, _ | 5, _ | 6, _ | 7, _ | 8, _ | 9, _ | 11, _ | 12, _ | 13, _ | 14, _ | 15, _ | 16, _ | 17, _ | 18, _ => cases e
    obtain ⟨rfl, rfl⟩ := hia
    refine ⟨6, 0, false, 6, by decide, rfl, by decide, by decide, ?_, ?_⟩
    · intro j h1 h2 h3
      have hj : j = 6 ∨ j = 7 ∨ j = 8 ∨ j = 9 := by omega
      rcases hj with rfl | rfl | rfl | rfl <;> cases h3
    · intro j t p h1 h2 hp
      have hj : j = 10 ∨ j = 11 ∨ j = 12 ∨ j = 13 ∨ j = 14 ∨ j = 15 ∨ j = 16 ∨ j = 17 ∨ j = 18 ∨ j = 19 := by omega
      have hN : t = 0 ∨ t = 1 ∨ 2 ≤ t := by omega
      rcases hN with rfl | rfl | ht
      · have : p = 11 := by
          rcases hj with rfl | rfl | rfl | rfl | rfl | rfl | rfl | rfl | rfl | rfl <;> first | (injection hp with hp; exact hp.symm) | cases hp
        subst this
        exact .po 0 (by decide)
      · have : p = 9 := by
          rcases hj with rfl | rfl | rfl | rfl | rfl | rfl | rfl | rfl | rfl | rfl <;> (injection hp with hp; exact hp.symm)
        subst this
        exact .trans (.po 0 (by decide : 7 ≤ 8)) (.trans (.sync (t := 1) (t' := 0) (τ := 8) (j := 8) (by decide) rfl) (.po 1 (by decide : 9 ≤ 10)))
      · exfalso
        rw [exReuseWeak_thread t ht j h2] at hp
        cases hp

/-- Two nodes were at address 5, one after the other; the lookups find the second and the third element. -/
example : (exReuseWeak.st 4).m.deref 5 = some (.data [(7, 1)]) ∧ (exReuseWeak.st 11).m.inUse 5 = false ∧ (exReuseWeak.st 15).m.deref 5 = some (.data [(7, 3)]) ∧
    exReuseWeak.ev 16 = some (.res 15 (.op (.opt (some (7, 2))))) ∧ exReuseWeak.ev 18 = some (.res 17 (.op (.opt (some (7, 3))))) := by
  refine ⟨?_, ?_, ?_, ?_, ?_⟩ <;> rfl

/-- Non-vacuity of C56: the element found last is at an address that was used before. -/
example : ∃ x items, (7, 3) ∈ items ∧ ∀ n, 18 < n → n ≤ 19 → exReuseWeak.KeepsGuard 1 19 n →
    (exReuseWeak.st n).m.deref x = some (.data items) ∧ (exReuseWeak.st n).m.inUse x = true :=
  C56_returned_references exReuseWeak (j := 18) (id := 17) (t := 1) (weak := false) (τ := 18) (by decide) rfl rfl (List.mem_singleton.mpr rfl)

/-- The allocator offers no address in use. -/
example : crstep exCfg (exReuseWeak.st 6) 5 (.tick 0 false 6) = none := by rfl

end Contrie
