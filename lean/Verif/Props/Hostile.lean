import Verif.Proof.HostileInv
import Verif.Proof.HostileDrop
import Verif.Proof.Finite
/-
C38: memory safety does not rest on the good behaviour of user code. `HExec` (`Verif/Model/Hostile.lean`) is an execution in which every
comparison and every hashing of keys is answered arbitrarily, and any call of user code may panic.
-/
set_option linter.unusedSectionVars false
namespace Contrie
open scoped List
variable {K P : Type}

section
variable (E : HExec K P)

/-- **C38.** Whatever the user's `Hash`, `Eq`, `Borrow` and closures do, no session ever gets into a failure: no access to
destroyed memory, no access to a null pointer or through a pointer of the wrong kind, no stepping below the last level, no overflow of a fixed-size array,
no data node without an element, no condemned root. -/
theorem C38_no_failure (i t : Nat) : ((E.st i).thr t).failed = none := ((E.inv i).thr t).noFail

/-- **C38.** The only failure the next step of a call may end in, whatever the answers, is the panic of the assertion "Collision node not deep
enough" (which unwinds; the execution goes on with the call abandoned). -/
theorem C38_only_panic {i t : Nat} {c : Call K P} (hc : ((E.st i).thr t).run = some c) (weak : Bool) (o : Answers P) (f : Failure)
    (h : (hTick o (E.st i).m weak c.pc).2 = .fail f) : f = .shallowCollision := by
  have hok := (hTick_ok ((E.inv i).ctx hc) o weak (((E.inv i).thr t).run c hc).2.2).next
  rw [h] at hok
  exact hok

/-- **C38.** No call is ever blocked by what others did, or by lies it was told. -/
theorem C38_never_blocked {i t : Nat} {c : Call K P} (hc : ((E.st i).thr t).run = some c) (weak : Bool) (o : Answers P) :
    ∃ s', hStep (E.st i) (.tick t weak o) = some s' := by
  simp only [hStep, hc]
  exact ⟨_, rfl⟩

/-- Session `t` keeps, from instant `i` until instant `n`, the guard it has at `i`. -/
def HExec.KeepsGuard (t i n : Nat) : Prop := ∀ k, i ≤ k → k ≤ n → ((E.st k).thr t).pin = ((E.st i).thr t).pin

theorem HExec.held_valid {i t p s a : Nat} {items : List P} (hp : ((E.st i).thr t).pin = some p) (hps : p ≤ s) (hsi : s ≤ i)
    (hh : Held (E.st i).m s a) (hm : (E.st i).m.mem a = some (.data items)) (n : Nat) (hn : i ≤ n)
    (hk : E.KeepsGuard t i n) : (E.st n).m.deref a = some (.data items) := by
  have key : ∀ k, Held (E.st (i + k)).m s a ∧ (E.st (i + k)).m.mem a = some (.data items) := by
    intro k
    induction k with
    | zero => exact ⟨hh, hm⟩
    | succ k ih => exact ⟨ih.1.evo (E.evo (i + k)) (by rw [E.clock]; omega), (E.evo (i + k)).data _ _ ih.2⟩
  have hpn := hk n hn (Nat.le_refl _)
  rw [hp] at hpn
  obtain ⟨h2, h3⟩ := key (n - i)
  rw [show i + (n - i) = n by omega] at h2 h3
  cases hf : (E.st n).m.freed a with
  | false => simp [Mem.deref, hf, h3]
  | true =>
    obtain ⟨τ, g1, g2⟩ := (E.inv n).freed a hf
    have := g2 t p hpn
    have := h2.2 τ g1
    omega

/-- **C38.** The elements a call returns references to live in nodes that stay intact (not destroyed, not changed) for as long as the
session keeps the guard under which it made the call. -/
theorem C38_returned_references {j t : Nat} {weak : Bool} {o : Answers P} {c : Call K P} (hl : E.lab j = .tick t weak o)
    (hc : ((E.st j).thr t).run = some c) {r : Res P} {refs : List Nat} (hr : (hTick o (E.st j).m weak c.pc).2 = .ret r refs)
    {p : P} (hp : p ∈ r.elements) :
    ∃ a items, p ∈ items ∧ ∀ n, j ≤ n → E.KeepsGuard t j n → j < n → (E.st n).m.deref a = some (.data items) := by
  obtain ⟨⟨q, hq1, hq2⟩, hlt, hpc⟩ := ((E.inv j).thr t).run c hc
  rw [E.clock] at hlt
  have hok := (hTick_ok ((E.inv j).ctx hc) o weak hpc).next
  rw [hr] at hok
  have hs := E.step j
  rw [hl] at hs
  simp only [hStep, hc, Option.some.injEq] at hs
  have hm : (E.st (j + 1)).m = (hTick o (E.st j).m weak c.pc).1.bump := by rw [← hs]
  have hpin : ((E.st (j + 1)).thr t).pin = some q := by
    rw [← hs]
    simp only [upd_same, hr]
    exact hq1
  rw [← hm] at hok
  have fin : ∀ a items, Held (E.st (j + 1)).m c.inv a → (E.st (j + 1)).m.mem a = some (.data items) → p ∈ items →
      ∃ a items, p ∈ items ∧ ∀ n, j ≤ n → E.KeepsGuard t j n → j < n → (E.st n).m.deref a = some (.data items) := by
    intro a items h1 h2 h3
    refine ⟨a, items, h3, fun n _ hk hjn => E.held_valid hpin hq2 (by omega) h1 h2 n (by omega) ?_⟩
    intro k h4 h5
    rw [hk k (by omega) h5, hpin, hq1]
  obtain ⟨hheld, hok⟩ := hok
  cases r with
  | op ret =>
    have hp' : p ∈ ret.payloads := by
      cases ret with
      | opt v => exact hp
      | eon e => cases e <;> simpa [Res.elements, Ret.payloads, ExistingOrNew.intoInner] using hp
    obtain ⟨a, ha, items, h1, h2⟩ := hok p hp'
    exact fin a items (hheld a ha) h1 h2
  | bool b => cases hp
  | list l =>
    obtain ⟨a, items, h1, h2, h3⟩ := hok p hp
    exact fin a items h1 h2 h3

/-- **C38.** The same for what an iteration in progress has yielded. -/
theorem C38_yielded_references {i t : Nat} {c : Call K P} (hc : ((E.st i).thr t).run = some c) {p : P} (hp : p ∈ c.yielded) :
    ∃ a items, p ∈ items ∧ ∀ n, i ≤ n → E.KeepsGuard t i n → (E.st n).m.deref a = some (.data items) := by
  obtain ⟨⟨q, hq1, hq2⟩, hlt, hpc⟩ := ((E.inv i).thr t).run c hc
  rw [E.clock] at hlt
  simp only [Call.yielded] at hp
  split at hp
  · next lv out he =>
    rw [he] at hpc
    obtain ⟨a, items, h1, h2, h3⟩ := hpc.2 p hp
    exact ⟨a, items, h3, fun n hn hk => E.held_valid hq1 hq2 (by omega) h1 h2 n hn hk⟩
  · cases hp

theorem hlinked_iff {m : Mem P} (h : HMemInv m) {a : Nat} :
    Linked m a ↔ ∃ q w, m.follow m.root q = some w ∧ w.ptr = some a := by
  constructor
  · intro hl
    induction hl with
    | root hr => exact ⟨[], m.root.erase, rfl, hr⟩
    | @cell a b c q i hb hm hp ih =>
      obtain ⟨q', w, hf, hw⟩ := ih
      have hok := h.path_ok hf
      cases hd : w.data with
      | true => obtain ⟨l, hl, -⟩ := hok.of_data hw hd; rw [hm] at hl; cases hl
      | false =>
        refine ⟨q' ++ [i], (c i).erase, ?_, hp⟩
        rw [follow_append' hf]
        simp [Mem.follow, cellsOf_inner hw hd hm]
  · rintro ⟨q, w, hf, hw⟩
    have key : ∀ (q : List (Fin 16)) (w0 w : Word) (a : Nat), (∀ b, w0.ptr = some b → Linked m b) →
        m.follow w0 q = some w → w.ptr = some a → Linked m a := by
      intro q
      induction q with
      | nil => intro w0 w a h0 hf hw; simp [Mem.follow] at hf; subst hf; exact h0 a hw
      | cons i q ih =>
        intro w0 w a h0 hf hw
        simp only [Mem.follow] at hf
        cases hc : m.cellsOf w0 with
        | none => simp [hc] at hf
        | some c =>
          simp only [hc] at hf
          refine ih (c i) w a ?_ hf hw
          intro b hb
          simp only [Mem.cellsOf] at hc
          cases hp : w0.ptr with
          | none => simp [hp] at hc
          | some b0 =>
            simp only [hp] at hc
            split at hc
            · cases hc
            · split at hc
              · next c' q' hm => cases hc; exact .cell (h0 b0 hp) hm hb
              · cases hc
    exact key q m.root w a (fun b hb => .root hb) hf hw

/-- **C38.** At every instant, a node that was ever put into the trie is handed over for destruction if and only if it is not
linked any more (no double free, no leak of a replaced node). -/
theorem C38_retired_iff_unlinked (i a : Nat) (ha : (E.st i).m.mem a ≠ none) :
    (E.st i).m.retired a ≠ none ↔ ¬ Linked (E.st i).m a := by
  rw [hlinked_iff (E.inv i).mem]
  constructor
  · rintro hr ⟨q, w, hf, hw⟩
    exact hr ((E.inv i).mem.live q w a hf hw)
  · intro hl hr
    cases hm : (E.st i).m.mem a with
    | none => exact ha hm
    | some n => exact hl ((E.inv i).mem.linked a n hm hr)

theorem HExec.retire_allocated {τ a : Nat} (h1 : (E.st τ).m.retired a = none) {x : Nat}
    (h2 : (E.st (τ + 1)).m.retired a = some x) : (E.st τ).m.mem a ≠ none := by
  have hs := E.step τ
  generalize hl : E.lab τ = l at hs
  have other : (E.st (τ + 1)).m.retired = (E.st τ).m.retired → (E.st τ).m.mem a ≠ none := by
    intro e; rw [e, h1] at h2; cases h2
  cases l with
  | tick t weak o =>
    simp only [hStep] at hs
    split at hs
    · cases hs
    · next c hc =>
      simp only [Option.some.injEq] at hs
      have : (hTick o (E.st τ).m weak c.pc).1.retired a ≠ (E.st τ).m.retired a := by
        rw [← hs] at h2
        simp only [Mem.bump] at h2
        rw [h2, h1]; simp
      obtain ⟨loc, w, g1, g2⟩ := hTick_retires o _ weak c.pc this
      exact (((((E.inv τ).thr t).run c hc).2.2.cas_held g1).2 a g2).1
  | pin t =>
    simp only [hStep] at hs
    split at hs <;> simp only [Option.some.injEq, reduceCtorEq] at hs
    exact other (by rw [← hs]; rfl)
  | unpin t =>
    simp only [hStep] at hs
    split at hs <;> simp only [Option.some.injEq, reduceCtorEq] at hs
    exact other (by rw [← hs]; rfl)
  | call t r h =>
    simp only [hStep] at hs
    split at hs <;> simp only [Option.some.injEq, reduceCtorEq] at hs
    exact other (by rw [← hs]; rfl)
  | abort t =>
    simp only [hStep] at hs
    split at hs <;> simp only [Option.some.injEq, reduceCtorEq] at hs
    exact other (by rw [← hs]; rfl)
  | free b =>
    simp only [hStep, Option.some.injEq] at hs
    exact other (by rw [← hs]; rfl)
  | idle =>
    simp only [hStep, Option.some.injEq] at hs
    exact other (by rw [← hs]; rfl)

/-- **C38.** A node is handed over at most once, in the very step that unlinks it. -/
theorem C38_retired_once {i a τ : Nat} (h : (E.st i).m.retired a = some τ) :
    τ < i ∧ Linked (E.st τ).m a ∧ (∀ n, n ≤ τ → (E.st n).m.retired a = none) ∧
    (∀ n, τ < n → (E.st n).m.retired a = some τ ∧ ¬ Linked (E.st n).m a) := by
  have hfirst : ∀ i, (E.st i).m.retired a = some τ → τ < i ∧ (E.st (τ + 1)).m.retired a = some τ ∧ (E.st τ).m.retired a = none := by
    intro i
    induction i with
    | zero => intro h; rw [E.init] at h; cases h
    | succ i ih =>
      intro h
      cases hr : (E.st i).m.retired a with
      | none =>
        have := (E.evo i).retNew a τ hr h
        rw [E.clock] at this
        subst this
        exact ⟨by omega, h, hr⟩
      | some τ' =>
        have := (E.evo i).retOld a τ' hr
        rw [h] at this; cases this
        obtain ⟨g1, g2⟩ := ih hr
        exact ⟨by omega, g2⟩
  obtain ⟨h1, h2, h3⟩ := hfirst i h
  have hafter : ∀ n, τ < n → (E.st n).m.retired a = some τ := by
    intro n hn
    induction n with
    | zero => omega
    | succ n ih =>
      by_cases e : τ = n
      · subst e; exact h2
      · exact (E.evo n).retOld a τ (ih (by omega))
  have hbefore : ∀ n, n ≤ τ → (E.st n).m.retired a = none := by
    intro n hn
    cases hr : (E.st n).m.retired a with
    | none => rfl
    | some τ' =>
      exfalso
      have : ∀ k, (E.st (n + k)).m.retired a = some τ' := by
        intro k
        induction k with
        | zero => exact hr
        | succ k ih => exact (E.evo (n + k)).retOld a τ' ih
      have := this (τ - n)
      rw [show n + (τ - n) = τ by omega, h3] at this
      cases this
  refine ⟨h1, ?_, hbefore, fun n hn => ⟨hafter n hn, ?_⟩⟩
  · have hmem : (E.st τ).m.mem a ≠ none := E.retire_allocated h3 h2
    by_cases hl : Linked (E.st τ).m a
    · exact hl
    · exact absurd h3 ((C38_retired_iff_unlinked E τ a hmem).mpr hl)
  · have hr := hafter n hn
    have := (E.inv n).mem.retTime a τ hr
    exact (C38_retired_iff_unlinked E n a this.2).mp (by rw [hr]; simp)

/-- **C38.** Only unlinked nodes are ever destroyed. -/
theorem C38_destroyed_unlinked {i a : Nat} (h : (E.st i).m.freed a = true) : ¬ Linked (E.st i).m a := by
  obtain ⟨τ, h1, -⟩ := (E.inv i).freed a h
  exact ((C38_retired_once E h1).2.2.2 i (C38_retired_once E h1).1).2

/-- **C38.** The linked nodes form a tree at most sixteen inner nodes deep: a node is linked from one place only. -/
theorem C38_tree (i : Nat) {q r : List (Fin 16)} {w w' : Word} {a : Nat}
    (h1 : (E.st i).m.follow (E.st i).m.root q = some w) (h2 : (E.st i).m.follow (E.st i).m.root r = some w')
    (h3 : w.ptr = some a) (h4 : w'.ptr = some a) : q = r ∧ q.length ≤ 16 := by
  refine ⟨(E.inv i).mem.path_unique h1 h2 h3 h4, ?_⟩
  rcases List.eq_nil_or_concat q with rfl | ⟨q0, x, rfl⟩
  · simp
  · rw [List.concat_eq_append, follow_append] at h1
    cases hw1 : (E.st i).m.follow (E.st i).m.root q0 with
    | none => simp [hw1] at h1
    | some w1 =>
      have hok := (E.inv i).mem.path_ok hw1
      cases hc : (E.st i).m.cellsOf w1 with
      | none => simp [hw1, hc] at h1
      | some c =>
        simp only [Mem.cellsOf] at hc
        cases hp : w1.ptr with
        | none => simp [hp] at hc
        | some b =>
          simp only [hp] at hc
          split at hc
          · cases hc
          · next hd =>
            obtain ⟨c', hc'⟩ := hok.of_inner hp (by simpa using hd)
            have := ((E.inv i).mem.nodeOK _ _ _ hc').1
            simp only [List.concat_eq_append, List.length_append, List.length_cons, List.length_nil]
            omega

/-- **C38.** Dropping the trie, after whatever happened: `drop` runs to its end without touching memory that is gone, and of all the nodes that were
ever part of the trie it releases exactly those that were not handed over to the collector, each of them once. (Of which type, and that elements are
not destructed, is another matter: C31.) -/
theorem C38_drop (fix : Bool) (i : Nat) :
    ∃ m' l, (E.st i).m.drop fix = some (m', l) ∧ (released l).Nodup ∧
      (∀ a, (E.st i).m.mem a ≠ none → (a ∈ released l ↔ (E.st i).m.retired a = none)) ∧
      (∀ a ∈ released l, (E.st i).m.mem a ≠ none ∧ (E.st i).m.freed a = false ∧ m'.freed a = true) := by
  have hb : ∀ a, Below (E.st i).m (E.st i).m.root a → (E.st i).m.retired a = none := by
    rintro a ⟨q, w, g1, g2⟩; exact (E.inv i).mem.live q w a g1 g2
  have hfr : ∀ a, Below (E.st i).m (E.st i).m.root a → (E.st i).m.freed a = false := by
    intro a ha
    cases hx : (E.st i).m.freed a with
    | false => rfl
    | true =>
      obtain ⟨τ, hτ⟩ := (E.inv i).mem.freedRet a hx
      rw [hb a ha] at hτ; cases hτ
  obtain ⟨m', l, h1, h2⟩ := hdropRec_spec fix (E.inv i).mem (MAX_LEVELS + 1) (E.st i).m (E.st i).m.root [] rfl rfl (by decide) hfr
  refine ⟨m', l, h1, h2.nodup, ?_, ?_⟩
  · intro a ha
    rw [h2.mem]
    constructor
    · exact hb a
    · intro hr
      cases hm : (E.st i).m.mem a with
      | none => exact (ha hm).elim
      | some n => exact (E.inv i).mem.linked a n hm hr
  · intro a ha
    obtain ⟨k, hk⟩ := mem_released.1 ha
    obtain ⟨n, hn, -⟩ := h2.kind a k hk
    exact ⟨by rw [hn]; exact Option.some_ne_none n, hfr a ((h2.mem a).1 ha), (h2.freed a).2 (Or.inr ((h2.mem a).1 ha))⟩

/-- **C38.** Reuse of addresses cannot fool a compare-and-set; cf. `C34_no_aba`. -/
theorem C38_no_aba {i t : Nat} {c : Call K P} (h : ((E.st i).thr t).run = some c) {loc : Loc} {expected : Word}
    (hc : c.pc.cas = some (loc, expected)) (addr : Nat → Nat)
    (haddr : ∀ a b, (E.st i).m.mem a ≠ none → (E.st i).m.mem b ≠ none → (E.st i).m.freed a = false →
      (E.st i).m.freed b = false → addr a = addr b → a = b) :
    ∃ w, (E.st i).m.read loc = some w ∧ (w.phys addr = expected.phys addr ↔ w = expected) := by
  have x := (E.inv i).ctx h
  obtain ⟨⟨q, hl⟩, he⟩ := ((((E.inv i).thr t).run c h).2.2).cas_held hc
  obtain ⟨w, h1, h2, h3, h4⟩ := x.read hl
  refine ⟨w, h1, ?_, fun e => by rw [e]⟩
  intro hw
  obtain ⟨wp, wc, wd⟩ := w
  obtain ⟨ep, ec, ed⟩ := expected
  simp only [Word.phys, Prod.mk.injEq] at hw
  obtain ⟨e1, rfl, rfl⟩ := hw
  cases wp with
  | none =>
    cases ep with
    | none => rfl
    | some b => simp at e1
  | some a =>
    cases ep with
    | none => simp at e1
    | some b =>
      simp at e1
      have ha := h3 a rfl
      have hb := he b rfl
      rw [haddr a b ha.1 hb.1 (x.hfree a ha) (x.hfree b hb) e1]

/-- **C38.** A lookup makes at most seventeen loads, whatever it is told. -/
theorem C38_get_bounded {i t : Nat} {c : Call K P} (h : ((E.st i).thr t).run = some c) {key : K} {hash : BitVec 64} {cur : Loc}
    (hc : c.pc = .get key hash cur) : c.ticks ≤ 16 := by
  have := (((E.inv i).thr t).run c h).2.2
  rw [hc] at this
  obtain ⟨_, d, h1, h2, -⟩ := this
  omega
end

/-! ### Well-behaved user code is a special case -/

section
variable [DecidableEq K]

theorem findAns_const (f : P → Bool) (n : Nat) (l : List P) : findAns (fun _ => f) n l = l.find? f := by
  induction l generalizing n with
  | nil => rfl
  | cons x l ih => simp only [findAns, List.find?_cons, ih]; cases f x <;> rfl

theorem filterAns_const (f : P → Bool) (n : Nat) (l : List P) : filterAns (fun _ => f) n l = l.filter f := by
  induction l generalizing n with
  | nil => rfl
  | cons x l ih => simp only [filterAns, List.filter_cons, ih]

theorem cloneAns_id (n : Nat) (l : List P) : cloneAns (fun _ p => p) n l = l := by
  induction l generalizing n with
  | nil => rfl
  | cons x l ih => simp only [cloneAns, ih]

/-- The key a call in progress looks for. -/
def PC.soughtKey (cfg : Config K P) : PC K P → Option K
  | .get k _ _ => some k
  | .trav st _ _ _ _ _ => some (st.key cfg)
  | .rem k _ _ _ => some k
  | _ => none

/-- With the answers of well-behaved user code the two machines make the same steps. -/
theorem hTick_honest (cfg : Config K P) (o : Answers P) (m : Mem P) (weak : Bool) (pc : PC K P)
    (ho : ∀ k, pc.soughtKey cfg = some k → o = Answers.honest cfg k) : hTick o m weak pc = tick cfg m weak pc := by
  cases pc with
  | get key hash cur =>
    rw [ho key rfl]
    simp only [hTick, tick, hTickGet, tickGet, Answers.honest, findAns_const]
    rfl
  | trav st hash mode shift cur parent =>
    rw [ho (st.key cfg) rfl]
    simp only [hTick, tick, hTickTrav, tickTrav, Answers.honest, findAns_const, filterAns_const, cloneAns_id, decide_eq_true_eq]
    rfl
  | rem key shift cur levels =>
    rw [ho key rfl]
    simp only [hTick, tick, hTickRem, tickRem, Answers.honest, filterAns_const, cloneAns_id, ← decide_not]
    rfl
  | _ => rfl

/-- The machine is as general as it says: in every loop over the elements of a node, whatever the answers of the comparisons (any one element found, or none; any selection kept) and
whatever the clones (a different answer for equal elements included), user code that gives these answers is among those C38 is about. -/
theorem C38_answers_arbitrary (items : List P) :
    (∀ x ∈ items, ∃ f, findAns f 0 items = some x) ∧ (∃ f, findAns f 0 items = none) ∧
    (∀ kept, kept <+ items → ∃ f, filterAns f 0 items = kept) ∧ (∀ clones : List P, clones.length = items.length → ∃ f, cloneAns f 0 items = clones) := by
  have hfind : ∀ (items : List P) n, ∀ x ∈ items, ∃ f, findAns f n items = some x := by
    intro items
    induction items with
    | nil => intro n x hx; cases hx
    | cons y l ih =>
      intro n x hx
      rcases List.mem_cons.mp hx with rfl | hx
      · exact ⟨fun _ _ => true, rfl⟩
      · obtain ⟨f, hf⟩ := ih (n + 1) x hx
        refine ⟨fun m z => if m = n then false else f m z, ?_⟩
        have : ∀ (l : List P) k, n < k → findAns (fun m z => if m = n then false else f m z) k l = findAns f k l := by
          intro l
          induction l with
          | nil => intro k _; rfl
          | cons z l ih =>
            intro k hk
            have hkn : k ≠ n := by omega
            simp only [findAns, hkn, if_false]
            rw [ih (k + 1) (by omega)]
        simp only [findAns, if_true]
        rw [this l (n + 1) (by omega)]
        exact hf
  have hnone : ∀ (items : List P) n, findAns (fun _ _ => false) n items = none := by
    intro items
    induction items with
    | nil => intro n; rfl
    | cons y l ih => intro n; simp only [findAns]; exact ih (n + 1)
  have hfilter : ∀ {kept items : List P}, kept <+ items → ∀ n, ∃ f, filterAns f n items = kept := by
    intro kept items h
    induction h with
    | slnil => intro n; exact ⟨fun _ _ => false, rfl⟩
    | @cons k l y h ih =>
      intro n
      obtain ⟨f, hf⟩ := ih (n + 1)
      refine ⟨fun m z => if m = n then false else f m z, ?_⟩
      have : ∀ (l : List P) k, n < k → filterAns (fun m z => if m = n then false else f m z) k l = filterAns f k l := by
        intro l
        induction l with
        | nil => intro k _; rfl
        | cons z l ih =>
          intro k hk
          have hkn : k ≠ n := by omega
          simp only [filterAns, hkn, if_false]
          rw [ih (k + 1) (by omega)]
      simp only [filterAns, if_true]
      rw [this l (n + 1) (by omega)]
      exact hf
    | @cons_cons k l y h ih =>
      intro n
      obtain ⟨f, hf⟩ := ih (n + 1)
      refine ⟨fun m z => if m = n then true else f m z, ?_⟩
      have : ∀ (l : List P) k, n < k → filterAns (fun m z => if m = n then true else f m z) k l = filterAns f k l := by
        intro l
        induction l with
        | nil => intro k _; rfl
        | cons z l ih =>
          intro k hk
          have hkn : k ≠ n := by omega
          simp only [filterAns, hkn, if_false]
          rw [ih (k + 1) (by omega)]
      simp only [filterAns, if_true]
      rw [this l (n + 1) (by omega), hf]
  have hclone : ∀ (items clones : List P) n, clones.length = items.length → ∃ f, cloneAns f n items = clones := by
    intro items
    induction items with
    | nil => intro clones n h; cases clones with
      | nil => exact ⟨fun _ z => z, rfl⟩
      | cons => simp at h
    | cons y l ih =>
      intro clones n h
      cases clones with
      | nil => simp at h
      | cons c cs =>
        obtain ⟨f, hf⟩ := ih cs (n + 1) (by simpa using h)
        refine ⟨fun m z => if m = n then c else f m z, ?_⟩
        have : ∀ (l : List P) k, n < k → cloneAns (fun m z => if m = n then c else f m z) k l = cloneAns f k l := by
          intro l
          induction l with
          | nil => intro k _; rfl
          | cons z l ih =>
            intro k hk
            have hkn : k ≠ n := by omega
            simp only [cloneAns, hkn, if_false]
            rw [ih (k + 1) (by omega)]
        simp only [cloneAns, if_true]
        rw [this l (n + 1) (by omega), hf]
  exact ⟨hfind items 0, ⟨_, hnone items 0⟩, fun kept h => hfilter h 0, fun clones h => hclone items clones 0 h⟩

/-- **C38** covers the machine of the other claims: every execution with well-behaved user code is one of the executions above (with the
same states). -/
theorem C38_honest_is_special_case {cfg : Config K P} (E : Exec cfg) : ∃ H : HExec K P, (∀ i, H.st i = E.st i) ∧
    ∀ i t w, (∃ o, H.lab i = .tick t w o) ↔ E.lab i = .tick t w := by
  have hex : ∀ i, ∃ l : HLabel K P, hStep (E.st i) l = some (E.st (i + 1)) ∧ l.enabled (E.st i) ∧
      ∀ t w, (∃ o, l = .tick t w o) ↔ E.lab i = .tick t w := by
    intro i
    have hs := E.step i
    have hen := E.enabled i
    generalize hl : E.lab i = l at hs hen
    cases l with
    | pin t =>
      refine ⟨.pin t, ?_, trivial, by simp [hl]⟩
      simp only [Contrie.step] at hs
      simp only [hStep]
      split at hs <;> simp only [Option.some.injEq, Prod.mk.injEq, reduceCtorEq] at hs
      next h1 h2 => simp only [h2] at hs; simp only [h1, h2, hs.1]
    | unpin t =>
      refine ⟨.unpin t, ?_, trivial, by simp [hl]⟩
      simp only [Contrie.step] at hs
      simp only [hStep]
      split at hs <;> simp only [Option.some.injEq, Prod.mk.injEq, reduceCtorEq] at hs
      next h1 h2 h3 => simp only [h2, h3] at hs; simp only [h1, h2, h3, hs.1]
    | call t r =>
      have hp : ∃ h, hStartPC h r = startPC cfg r := by
        cases r with
        | op o =>
          cases o with
          | get k => exact ⟨_, rfl⟩
          | insert p => exact ⟨_, rfl⟩
          | getOrInsert k f => exact ⟨_, rfl⟩
          | remove k => exact ⟨0, rfl⟩
        | isEmpty => exact ⟨0, rfl⟩
        | iter => exact ⟨0, rfl⟩
      obtain ⟨h, hh⟩ := hp
      refine ⟨.call t r h, ?_, trivial, by simp [hl]⟩
      simp only [Contrie.step] at hs
      simp only [hStep]
      split at hs <;> simp only [Option.some.injEq, Prod.mk.injEq, reduceCtorEq] at hs
      next h1 h2 h3 => simp only [h1, h3] at hs; simp only [h1, h2, h3, hs.1, hh]
    | tick t weak =>
      simp only [Contrie.step] at hs
      split at hs
      · cases hs
      · next c hc =>
        simp only [Option.some.injEq, Prod.mk.injEq] at hs
        have ho : ∃ o : Answers P, ∀ k, c.pc.soughtKey cfg = some k → o = Answers.honest cfg k := by
          cases hk : c.pc.soughtKey cfg with
          | none => exact ⟨⟨fun _ => false, fun _ _ => false, fun _ _ => false, fun _ => 0, 0, fun _ p => p⟩, by intro k h; cases h⟩
          | some k => exact ⟨_, by intro k' h; cases h; rfl⟩
        obtain ⟨o, ho⟩ := ho
        refine ⟨.tick t weak o, ?_, trivial, by simp [hl]⟩
        simp only [hStep, hc, hTick_honest cfg o _ weak c.pc ho]
        rw [← hs.1]
        have : ∀ f, (tick cfg (E.st i).m weak c.pc).2 ≠ .fail f := C05_no_failing_step E i t c hc weak
        generalize (tick cfg (E.st i).m weak c.pc).2 = n at this
        cases n with
        | fail f => exact absurd rfl (this f)
        | goto => rfl
        | ret => rfl
    | abort t =>
      refine ⟨.abort t, ?_, trivial, by simp [hl]⟩
      simp only [Contrie.step] at hs
      simp only [hStep]
      split at hs <;> simp only [Option.some.injEq, Prod.mk.injEq, reduceCtorEq] at hs
      next h1 => simp only [h1, hs.1]
    | free a =>
      simp only [Contrie.step, Option.some.injEq, Prod.mk.injEq] at hs
      exact ⟨.free a, by simp only [hStep, hs.1], hen, by simp [hl]⟩
    | idle =>
      simp only [Contrie.step, Option.some.injEq, Prod.mk.injEq] at hs
      exact ⟨.idle, by simp only [hStep, hs.1], trivial, by simp [hl]⟩
  refine ⟨⟨E.st, fun i => Classical.choose (hex i), E.init, fun i => (Classical.choose_spec (hex i)).1,
    fun i => (Classical.choose_spec (hex i)).2.1⟩, fun i => rfl, fun i => (Classical.choose_spec (hex i)).2.2⟩
end

/-! ### Concrete executions -/

/-- State after the first `i` labels. -/
def hStAt (ls : List (HLabel K P)) : Nat → State K P
  | 0 => State.init
  | i + 1 => (hStep (hStAt ls i) (ls.getD i .idle)).getD State.init

/-- The check: every label can be executed, and none is a destruction. -/
def hRunOKb (s : State K P) : List (HLabel K P) → Bool
  | [] => true
  | l :: ls => (match l with | .free _ => false | _ => true) &&
      match hStep s l with
      | none => false
      | some s' => hRunOKb s' ls

theorem HExec.ofCheck {ls : List (HLabel K P)} (h : hRunOKb State.init ls = true) :
    ∃ E : HExec K P, (∀ i, E.st i = hStAt ls i) ∧ ∀ i, E.lab i = ls.getD i .idle := by
  have key : ∀ (ls : List (HLabel K P)) (s : State K P), hRunOKb s ls = true →
      ∀ i (f : Nat → State K P), f 0 = s → (∀ j, f (j + 1) = (hStep (f j) (ls.getD j .idle)).getD State.init) →
      hStep (f i) (ls.getD i .idle) = some (f (i + 1)) ∧ (ls.getD i .idle).enabled (f i) := by
    intro ls
    induction ls with
    | nil =>
      intro s _ i f _ hf
      have hi : ([] : List (HLabel K P)).getD i .idle = .idle := by simp
      have := hf i
      rw [hi] at this ⊢
      exact ⟨by rw [this]; rfl, trivial⟩
    | cons l ls ih =>
      intro s hs i f h0 hf
      simp only [hRunOKb, Bool.and_eq_true] at hs
      obtain ⟨h1, h2⟩ := hs
      split at h2
      · cases h2
      · next s' hs' =>
        have h3 := hf 0
        rw [h0] at h3
        simp only [List.getD_cons_zero, hs', Option.getD_some] at h3
        cases i with
        | zero =>
          simp only [List.getD_cons_zero, h0]
          refine ⟨by rw [hs', h3], ?_⟩
          cases l with
          | free a => cases h1
          | _ => trivial
        | succ i =>
          have := ih s' h2 i (fun j => f (j + 1)) h3 (by intro j; have := hf (j + 1); simpa using this)
          simpa using this
  refine ⟨⟨hStAt ls, fun i => ls.getD i .idle, rfl, ?_, ?_⟩, fun _ => rfl, fun _ => rfl⟩
  · intro i; exact (key ls _ h i (hStAt ls) rfl (fun _ => rfl)).1
  · intro i; exact (key ls _ h i (hStAt ls) rfl (fun _ => rfl)).2

/-- User code that says "different" at the first comparison and everywhere else, and hashes everything to `h`. -/
def liar (h : BitVec 64) : Answers (Nat × Nat) :=
  ⟨fun _ => false, fun _ _ => false, fun _ _ => true, fun _ => h, h, fun _ p => p⟩

/-- The same, but the first comparison of `traverse` is answered by "different". -/
def liar' (h : BitVec 64) : Answers (Nat × Nat) :=
  ⟨fun _ => true, fun _ _ => false, fun _ _ => true, fun _ => h, h, fun _ p => p⟩

/-- Two insertions of the same key by a session whose `Eq` first says "equal" (so there is no split), then "not equal": a collision
node with two elements at the root. Session 1 has an iterator half-way through it. The third insertion runs into the assertion. -/
def exLiar : List (HLabel Nat (Nat × Nat)) :=
  [.pin 0, .pin 1, .call 0 (.op (.insert (7, 1))) 0, .tick 0 false (liar 0), .tick 0 false (liar 0),
   .call 1 .iter 0, .tick 1 false (liar 0),
   .call 0 (.op (.insert (7, 2))) 5, .tick 0 false (liar 3), .tick 0 false (liar 4),
   .call 0 (.op (.insert (7, 3))) 9, .tick 0 false (liar' 1),
   .pin 0, .call 0 (.op (.remove 7)) 2, .tick 0 false { liar 3 with equal := fun n _ => n == 1 }, .tick 0 false (liar 3),
   .tick 1 false (liar 0)]

set_option maxRecDepth 20000 in
/-- In `exLiar` the assertion is hit in step 11 (the guard of session 0 is gone then), the trie then holds two elements under the same key at the root;
the session goes on and removes one of them; session 1 has meanwhile been holding the replaced node. -/
example : ∃ E : HExec Nat (Nat × Nat), (∃ c, ((E.st 11).thr 0).run = some c ∧
      (hTick (liar' 1) (E.st 11).m false c.pc).2 = .fail .shallowCollision) ∧
    ((E.st 12).thr 0).pin = none ∧ (E.st 12).m.deref 1 = some (.data [(7, 1), (7, 2)]) ∧
    (E.st 12).m.root = ⟨some 1, false, true⟩ ∧ (E.st 12).m.retired 0 = some 9 ∧
    (E.st 16).m.deref 2 = some (.data [(7, 1)]) ∧ (E.st 16).m.root = ⟨some 2, false, true⟩ ∧
    ((E.st 16).m.drop false).map (·.2) = some [.dealloc 2 .inner] := by
  obtain ⟨E, h1, h2⟩ := HExec.ofCheck (ls := exLiar) (by decide)
  refine ⟨E, ⟨_, by rw [h1]; rfl, by rw [h1]; rfl⟩, ?_, ?_, ?_, ?_, ?_, ?_, ?_⟩ <;> rw [h1] <;> rfl

set_option maxRecDepth 20000 in
/-- `C38_returned_references`, `C38_yielded_references`: in `exLiar`, step 15 is the return of `(7, 2)` from `remove`, and the guard is kept afterwards; the
iteration of session 1 yields `(7, 1)` from the node that was replaced in step 9. -/
example : ∃ E : HExec Nat (Nat × Nat),
    (∃ c, ((E.st 15).thr 0).run = some c ∧ E.lab 15 = .tick 0 false (liar 3) ∧
      (hTick (liar 3) (E.st 15).m false c.pc).2 = .ret (.op (.opt (some (7, 2)))) [1]) ∧ E.KeepsGuard 0 15 17 ∧
    (∃ c, ((E.st 17).thr 1).run = some c ∧ c.yielded = [(7, 1)]) ∧ (E.st 17).m.retired 0 = some 9 := by
  obtain ⟨E, h1, h2⟩ := HExec.ofCheck (ls := exLiar) (by decide)
  refine ⟨E, ⟨_, by rw [h1]; rfl, by rw [h2]; rfl, by rw [h1]; rfl⟩, ?_, ⟨_, by rw [h1]; rfl, rfl⟩, by rw [h1]; rfl⟩
  intro k hk1 hk2
  have : k = 15 ∨ k = 16 ∨ k = 17 := by omega
  have h15 : ((hStAt exLiar 15).thr 0).pin = some 12 := rfl
  have h16 : ((hStAt exLiar 16).thr 0).pin = some 12 := rfl
  have h17 : ((hStAt exLiar 17).thr 0).pin = some 12 := rfl
  rcases this with rfl | rfl | rfl <;> simp only [h1, h15, h16, h17]

end Contrie
