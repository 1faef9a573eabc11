import Verif.Props.Lookup
/-
C05 (no internal panic), C06 (no use of destroyed memory), C07 (retirement), C34 (reuse of addresses).
-/
set_option linter.unusedSectionVars false
namespace Contrie
variable {K P : Type} [DecidableEq K]

/-- **C05**, and the first half of **C06.** No schedule makes a call fail: none of the assertions, `expect`s,
`unreachable`s, index or shift overflows, capacity overflows of the code is ever hit (all the constructors of `Failure`), and
no node is ever dereferenced that was destroyed, never allocated or of the wrong kind (`Failure.badAccess`). -/
theorem C05_no_failure (cfg : Config K P) (ls : List (Label K P)) (hok : RunOK cfg State.init ls) :
    ∃ s es, runList cfg State.init ls = some (s, es) ∧ ∀ t, (s.thr t).failed = none := by
  obtain ⟨E, h1, -⟩ := Exec.ofList hok
  exact ⟨_, _, h1, fun t => ((E.inv _).thr t).noFail⟩

/-- **C05** for a single step: in any reachable state, whatever the step of whatever session, it is not a failure. -/
theorem C05_no_failing_step {cfg : Config K P} (E : Exec cfg) (i t : Nat) (c : Call K P) (h : E.Running i t c)
    (weak : Bool) (f : Failure) : (tick cfg (E.st i).m weak c.pc).2 ≠ .fail f := by
  intro hf
  obtain ⟨E', -, -, -, ⟨pc, ran, g, -⟩ | ⟨r, refs, g, -⟩⟩ := E.tick_cases h weak
  · rw [hf] at g; cases g
  · rw [hf] at g; cases g

/-- A call in progress can always take its next step (no step of the code ever waits for another thread). -/
theorem C05_never_blocked {cfg : Config K P} (E : Exec cfg) (i t : Nat) (c : Call K P) (h : E.Running i t c)
    (weak : Bool) : (step cfg (E.st i) (.tick t weak)).isSome := by
  simp only [Exec.Running] at h
  simp [step, h]

/-- The constants fit together: the index into the array of cells, made of `LEVEL_BITS` bits of the hash, is never out of bounds, every cell is the index of some hash at every level, and `MAX_LEVELS`
levels use up exactly the bits of the hash. -/
theorem C05_index_in_bounds : (∀ (h : BitVec 64) (shift : Nat), (bitsAt h shift).val < LEVEL_CELLS) ∧
    (∀ (i : Nat), i < LEVEL_CELLS → ∀ d, d < MAX_LEVELS → ∃ h : BitVec 64, (bitsAt h (LEVEL_BITS * d)).val = i) ∧ MAX_LEVELS * LEVEL_BITS = HASH_BITS := by
  refine ⟨fun h s => (bitsAt h s).isLt, ?_, rfl⟩
  intro i hi d hd
  refine ⟨BitVec.ofNat 64 (i * 2 ^ (LEVEL_BITS * d)), ?_⟩
  have hd' : LEVEL_BITS * d ≤ 60 := by simp only [LEVEL_BITS, MAX_LEVELS] at *; omega
  have hi' : i < 16 := hi
  have hlt : i * 2 ^ (LEVEL_BITS * d) < 2 ^ 64 := by
    have h1 : 2 ^ (LEVEL_BITS * d) ≤ 2 ^ 60 := Nat.pow_le_pow_right (by omega) hd'
    calc i * 2 ^ (LEVEL_BITS * d) ≤ 15 * 2 ^ 60 := Nat.mul_le_mul (by omega) h1
      _ < 2 ^ 64 := by decide
  simp only [bitsAt, BitVec.toNat_and, BitVec.toNat_ushiftRight, BitVec.toNat_ofNat, Nat.mod_eq_of_lt hlt]
  rw [Nat.shiftRight_eq_div_pow, Nat.mul_div_cancel _ (Nat.pow_pos (by omega))]
  have : LEVEL_MASK.toNat = 2 ^ 4 - 1 := by decide
  rw [this, Nat.and_two_pow_sub_one_eq_mod]
  omega

/-- Non-vacuity: a race with spurious CAS failures, an aborted call and a collector at work satisfies the hypotheses. -/
example : ∃ s es, runList exCfg State.init exRace = some (s, es) ∧ ∀ t, (s.thr t).failed = none :=
  C05_no_failure exCfg exRace exRace_ok

/-! ### C06 -/

/-- The elements in a result. -/
def Res.elements : Res P → List P
  | .op (.opt r) => r.toList
  | .op (.eon (.existing p)) => [p]
  | .op (.eon (.new p)) => [p]
  | .bool _ => []
  | .list l => l

/-- Elements an iteration in progress has yielded. -/
def Call.yielded (c : Call K P) : List P :=
  match c.pc with
  | .iterNext _ out => out
  | _ => []

/-- Session `t` keeps its guard from instant `i` until instant `n`. -/
def Exec.KeepsGuard {cfg : Config K P} (E : Exec cfg) (t i n : Nat) : Prop :=
  ∀ j, i ≤ j → j < n → E.lab j ≠ .unpin t ∧ E.lab j ≠ .abort t

theorem step_pin_keep {cfg : Config K P} {s s' : State K P} {l : Label K P} {e : Option (Event K P)}
    (h : Contrie.step cfg s l = some (s', e)) {t p : Nat} (hp : (s.thr t).pin = some p)
    (h1 : l ≠ .unpin t) (h2 : l ≠ .abort t) : (s'.thr t).pin = some p := by
  cases l with
  | pin t0 =>
    simp only [Contrie.step] at h
    split at h <;> cases h
    by_cases e : t = t0
    · subst e; simp_all
    · simpa [upd_other _ _ e] using hp
  | unpin t0 =>
    have : t ≠ t0 := by intro e; exact h1 (by rw [e])
    simp only [Contrie.step] at h
    split at h <;> cases h
    simpa [upd_other _ _ this] using hp
  | call t0 r0 =>
    simp only [Contrie.step] at h
    split at h <;> cases h
    by_cases e : t = t0
    · subst e; simpa using hp
    · simpa [upd_other _ _ e] using hp
  | tick t0 weak =>
    simp only [Contrie.step] at h
    split at h
    · cases h
    · next c hc =>
      cases h
      by_cases e : t = t0
      · subst e
        simp only [upd_same]
        generalize (tick cfg s.m weak c.pc).2 = n
        cases n <;> exact hp
      · simpa [upd_other _ _ e] using hp
  | abort t0 =>
    have : t ≠ t0 := by intro e; exact h2 (by rw [e])
    simp only [Contrie.step] at h
    split at h <;> cases h
    simpa [upd_other _ _ this] using hp
  | free a =>
    simp only [Contrie.step] at h
    cases h
    exact hp
  | idle =>
    simp only [Contrie.step] at h
    cases h
    exact hp

section
variable {cfg : Config K P} (E : Exec cfg)

/-- A node held by a pinned session stays intact while the session keeps the guard. -/
theorem Exec.held_valid {i t p s a : Nat} {items : List P} (hp : ((E.st i).thr t).pin = some p) (hps : p ≤ s) (hsi : s ≤ i)
    (hh : Held (E.st i).m s a) (hm : (E.st i).m.mem a = some (.data items)) (n : Nat) (hn : i ≤ n)
    (hk : E.KeepsGuard t i n) : (E.st n).m.deref a = some (.data items) := by
  have key : ∀ k, i + k ≤ n → ((E.st (i + k)).thr t).pin = some p ∧ Held (E.st (i + k)).m s a ∧
      (E.st (i + k)).m.mem a = some (.data items) := by
    intro k
    induction k with
    | zero => intro _; exact ⟨hp, hh, hm⟩
    | succ k ih =>
      intro hk'
      obtain ⟨h1, h2, h3⟩ := ih (by omega)
      have hg := hk (i + k) (by omega) (by omega)
      have hevo := (E.stepOK (i + k)).evo
      exact ⟨step_pin_keep (E.step (i + k)) h1 hg.1 hg.2, h2.evo hevo (by rw [E.clock]; omega), hevo.data _ _ h3⟩
  have := key (n - i) (by omega)
  rw [show i + (n - i) = n by omega] at this
  obtain ⟨h1, h2, h3⟩ := this
  cases hf : (E.st n).m.freed a with
  | false => simp [Mem.deref, hf, h3]
  | true =>
    obtain ⟨τ, g1, g2⟩ := (E.inv n).freed a hf
    have := g2 t p h1
    have := h2.2 τ g1
    omega

/-- **C06.** The elements a call returns references to live in nodes that stay intact (not destroyed, not
changed) for as long as the session keeps the guard under which it made the call, whatever others do meanwhile. -/
theorem C06_returned_references {j id t : Nat} {r : Ret P} {weak : Bool} (hr : E.Returns j id (.op r)) (hl : E.lab j = .tick t weak)
    {p : P} (hp : p ∈ (Res.op r).elements) : ∃ a items, p ∈ items ∧
      ∀ n, j < n → E.KeepsGuard t (j + 1) n → (E.st n).m.deref a = some (.data items) := by
  obtain ⟨t', c, refs, weak', h1, h2, h3, h4, h5, h6, h7, h8⟩ := E.res hr
  rw [hl] at h1
  injection h1 with h1 _
  subst h1
  obtain ⟨hheld, h4⟩ := h4
  cases hreq : c.req with
  | op o =>
    simp only [hreq] at h4
    obtain ⟨ret, hret, -, hpl, -⟩ := h4
    cases hret
    have hp' : p ∈ r.payloads := by
      cases r with
      | opt v => exact hp
      | eon e => cases e <;> simpa [Res.elements, Ret.payloads, ExistingOrNew.intoInner] using hp
    obtain ⟨a, ha, items, hm, hpi⟩ := hpl p hp'
    obtain ⟨⟨q, hq1, hq2⟩, hlt, -, -⟩ := ((E.inv j).thr t).run c h2
    rw [E.clock] at hlt
    have hq : ((E.st (j + 1)).thr t).pin = some q := step_pin_keep (E.step j) hq1 (by simp [hl]) (by simp [hl])
    exact ⟨a, items, hpi, fun n hn hk =>
      E.held_valid hq hq2 (by omega) (hheld a ha) hm n (by omega) hk⟩
  | isEmpty => simp only [hreq] at h4; obtain ⟨b, hb, -⟩ := h4; cases hb
  | iter => simp only [hreq] at h4; obtain ⟨b, hb, -⟩ := h4; cases hb

/-- **C06** for iterators: what an iteration has yielded stays intact while the iterator's guard is kept. -/
theorem C06_yielded_references {i t : Nat} {c : Call K P} (h : E.Running i t c) {p : P} (hp : p ∈ c.yielded) :
    ∃ a items, p ∈ items ∧ ∀ n, i ≤ n → E.KeepsGuard t i n → (E.st n).m.deref a = some (.data items) := by
  simp only [Call.yielded] at hp
  split at hp
  · next lv out hpc =>
    obtain ⟨a, items, h1, h2, h3⟩ := E.outHeld i t c h lv out hpc p hp
    obtain ⟨⟨q, hq1, hq2⟩, hlt, -, -⟩ := ((E.inv i).thr t).run c h
    rw [E.clock] at hlt
    exact ⟨a, items, h3, fun n hn hk => E.held_valid hq1 hq2 (by omega) h1 h2 n hn hk⟩
  · cases hp

/-- The compare-and-set a session is about to do: where, and the word it expects. -/
def PC.cas : PC K P → Option (Loc × Word)
  | .travCas _ _ _ _ cur _ node _ _ => some (cur, node)
  | .remCas _ _ cur _ node _ _ => some (cur, node)
  | .pruneCas parent child _ _ => some (parent, child)
  | _ => none

/-- Both sides of a compare-and-set refer to nodes the session may access. -/
theorem Exec.cas_held {i t : Nat} {c : Call K P} (h : E.Running i t c) {loc : Loc} {expected : Word}
    (hc : c.pc.cas = some (loc, expected)) :
    (∃ q, LocAt (E.st i).m c.inv loc q) ∧ WHeld (E.st i).m c.inv expected := by
  have hi := E.run_pcinv h
  cases hpc : c.pc with
  | travCas st hash mode shift cur parent node new kind =>
    simp only [PC.cas, hpc, Option.some.injEq, Prod.mk.injEq] at hc
    obtain ⟨rfl, rfl⟩ := hc
    simp only [PCInv, hpc] at hi
    obtain ⟨d, -, hat, hcas⟩ := hi
    refine ⟨⟨_, hat.loc⟩, ?_⟩
    intro b hb
    cases hcas with
    | fresh p hst => cases hb
    | split a d0 hh => cases hb; exact hh
    | replace a p items hst hh => cases hb; exact hh
  | remCas key shift cur levels node new deleted =>
    simp only [PC.cas, hpc, Option.some.injEq, Prod.mk.injEq] at hc
    obtain ⟨rfl, rfl⟩ := hc
    simp only [PCInv, hpc] at hi
    obtain ⟨-, -, d, a, items, -, hat, rfl, hh, -⟩ := hi
    refine ⟨⟨_, hat.loc⟩, ?_⟩
    intro b hb
    cases hb; exact hh
  | pruneCas parent child acc k =>
    simp only [PC.cas, hpc, Option.some.injEq, Prod.mk.injEq] at hc
    obtain ⟨rfl, rfl⟩ := hc
    simp only [PCInv, hpc] at hi
    obtain ⟨-, a, cs, q, rfl, -, hh, hl, -⟩ := hi
    refine ⟨⟨_, hl⟩, ?_⟩
    intro b hb
    cases hb; exact hh
  | get => simp [PC.cas, hpc] at hc
  | isEmpty => simp [PC.cas, hpc] at hc
  | iterNew => simp [PC.cas, hpc] at hc
  | iterNext => simp [PC.cas, hpc] at hc
  | trav => simp [PC.cas, hpc] at hc
  | rem => simp [PC.cas, hpc] at hc
  | count => simp [PC.cas, hpc] at hc
  | prune => simp [PC.cas, hpc] at hc

theorem write_retired (m : Mem P) (w : Word) (l : Loc) : (m.write w l).retired = m.retired := by
  cases l with
  | root => rfl
  | slot a i => simp only [Mem.write]; split <;> rfl

/-- Only a compare-and-set retires, and only the node it expected. -/
theorem tick_retires (cfg : Config K P) (m : Mem P) (weak : Bool) (pc : PC K P) {a : Nat}
    (h : (tick cfg m weak pc).1.retired a ≠ m.retired a) : ∃ loc w, pc.cas = some (loc, w) ∧ w.ptr = some a := by
  have key : ∀ (m1 : Mem P) (old : Nat), m1.retired = m.retired → (m1.retire old).retired a ≠ m.retired a → old = a := by
    intro m1 old h1 h2
    by_cases e : a = old
    · exact e.symm
    · exact absurd (by simp [Mem.retire, upd_other _ _ e, h1]) h2
  cases pc with
  | travCas st hash mode shift cur parent node new kind =>
    refine ⟨cur, node, rfl, ?_⟩
    simp only [tick, tickTravCas] at h
    repeat' split at h
    all_goals first
      | exact absurd rfl h
      | (have e := key _ _ (by simp only [write_retired, Mem.alloc]) h; subst e; assumption)
      | (refine absurd ?_ h; simp only [write_retired, Mem.alloc]; done)
  | remCas key' shift cur levels node new deleted =>
    refine ⟨cur, node, rfl, ?_⟩
    simp only [tick, tickRemCas] at h
    repeat' split at h
    all_goals first
      | exact absurd rfl h
      | (have e := key _ _ (by simp only [write_retired, Mem.alloc]) h; subst e; assumption)
      | (refine absurd ?_ h; simp only [write_retired, Mem.alloc]; done)
  | pruneCas parent child acc k =>
    refine ⟨parent, child, rfl, ?_⟩
    simp only [tick, tickPruneCas] at h
    repeat' split at h
    all_goals first
      | exact absurd rfl h
      | (have e := key _ _ (by simp only [write_retired, Mem.alloc]) h; subst e; assumption)
  | prune parent child i acc k =>
    simp only [tick, tickPrune] at h
    repeat' split at h
    all_goals first
      | exact absurd rfl h
      | exact absurd (by simp [write_retired]) h
  | get => exact absurd rfl h
  | isEmpty => exact absurd rfl h
  | iterNew => exact absurd rfl h
  | iterNext => exact absurd rfl h
  | trav => exact absurd rfl h
  | rem => exact absurd rfl h
  | count => exact absurd rfl h

theorem Exec.retire_allocated {τ a : Nat} (h1 : (E.st τ).m.retired a = none) {x : Nat}
    (h2 : (E.st (τ + 1)).m.retired a = some x) : (E.st τ).m.mem a ≠ none := by
  have hs := E.step τ
  generalize hl : E.lab τ = l at hs
  have other : (E.st (τ + 1)).m.retired = (E.st τ).m.retired → (E.st τ).m.mem a ≠ none := by
    intro e; rw [e, h1] at h2; cases h2
  cases l with
  | tick t weak =>
    simp only [Contrie.step] at hs
    split at hs
    · cases hs
    · next c hc =>
      simp only [Option.some.injEq, Prod.mk.injEq] at hs
      have : (tick cfg (E.st τ).m weak c.pc).1.retired a ≠ (E.st τ).m.retired a := by
        rw [← hs.1] at h2
        simp only [Mem.bump] at h2
        rw [h2, h1]; simp
      obtain ⟨loc, w, g1, g2⟩ := tick_retires cfg _ weak c.pc this
      exact ((E.cas_held hc g1).2 a g2).1
  | pin t =>
    simp only [Contrie.step] at hs
    split at hs <;> simp only [Option.some.injEq, Prod.mk.injEq, reduceCtorEq] at hs
    exact other (by rw [← hs.1]; rfl)
  | unpin t =>
    simp only [Contrie.step] at hs
    split at hs <;> simp only [Option.some.injEq, Prod.mk.injEq, reduceCtorEq] at hs
    exact other (by rw [← hs.1]; rfl)
  | call t r =>
    simp only [Contrie.step] at hs
    split at hs <;> simp only [Option.some.injEq, Prod.mk.injEq, reduceCtorEq] at hs
    exact other (by rw [← hs.1]; rfl)
  | abort t =>
    simp only [Contrie.step] at hs
    split at hs <;> simp only [Option.some.injEq, Prod.mk.injEq, reduceCtorEq] at hs
    exact other (by rw [← hs.1]; rfl)
  | free b =>
    simp only [Contrie.step, Option.some.injEq, Prod.mk.injEq] at hs
    exact other (by rw [← hs.1]; rfl)
  | idle =>
    simp only [Contrie.step, Option.some.injEq, Prod.mk.injEq] at hs
    exact other (by rw [← hs.1]; rfl)

/-! ### C07 -/

/-- Node `a` can be reached from the root by following pointers. -/
inductive Linked (m : Mem P) : Nat → Prop
  | root {a : Nat} (h : m.root.ptr = some a) : Linked m a
  | cell {a b : Nat} {c : Fin 16 → Word} {q : List (Fin 16)} {i : Fin 16} (hb : Linked m b)
      (hm : m.mem b = some (.inner c q)) (h : (c i).ptr = some a) : Linked m a

theorem linked_iff {A : Nat → AMap K P} {m : Mem P} (h : MemInv cfg A m) {a : Nat} :
    Linked m a ↔ ∃ q w, m.follow m.root q = some w ∧ w.ptr = some a := by
  constructor
  · intro hl
    induction hl with
    | root hr => exact ⟨[], m.root.erase, rfl, hr⟩
    | @cell a b c q i hb hm hp ih =>
      obtain ⟨q', w, hf, hw⟩ := ih
      have hok := h.path_ok hf
      cases hd : w.data with
      | true => obtain ⟨l, hl, -⟩ := hok.of_data hw hd; rw [hm] at hl; cases hl
      | false =>
        refine ⟨q' ++ [i], (c i).erase, ?_, hp⟩
        rw [follow_append' hf]
        simp [Mem.follow, cellsOf_inner hw hd hm]
  · rintro ⟨q, w, hf, hw⟩
    have key : ∀ (q : List (Fin 16)) (w0 w : Word) (a : Nat), (∀ b, w0.ptr = some b → Linked m b) →
        m.follow w0 q = some w → w.ptr = some a → Linked m a := by
      intro q
      induction q with
      | nil => intro w0 w a h0 hf hw; simp [Mem.follow] at hf; subst hf; exact h0 a hw
      | cons i q ih =>
        intro w0 w a h0 hf hw
        simp only [Mem.follow] at hf
        cases hc : m.cellsOf w0 with
        | none => simp [hc] at hf
        | some c =>
          simp only [hc] at hf
          refine ih (c i) w a ?_ hf hw
          intro b hb
          simp only [Mem.cellsOf] at hc
          cases hp : w0.ptr with
          | none => simp [hp] at hc
          | some b0 =>
            simp only [hp] at hc
            split at hc
            · cases hc
            · split at hc
              · next c' q' hm => cases hc; exact .cell (h0 b0 hp) hm hb
              · cases hc
    exact key q m.root w a (fun b hb => .root hb) hf hw

/-- **C07.** At every instant, a node that was ever put into the trie is handed over for destruction if and only if it is
not linked any more. -/
theorem C07_retired_iff_unlinked (i a : Nat) (ha : (E.st i).m.mem a ≠ none) :
    (E.st i).m.retired a ≠ none ↔ ¬ Linked (E.st i).m a := by
  rw [linked_iff (E.inv i).mem]
  constructor
  · rintro hr ⟨q, w, hf, hw⟩
    exact hr ((E.inv i).mem.live q w a hf hw)
  · intro hl hr
    cases hm : (E.st i).m.mem a with
    | none => exact ha hm
    | some n => exact hl ((E.inv i).mem.linked a n hm hr)

/-- **C07.** A node is handed over at most once: a hand-over is never repeated (it would change the recorded instant), and it
happens in the very step that unlinks the node. -/
theorem C07_retired_once {i a τ : Nat} (h : (E.st i).m.retired a = some τ) :
    τ < i ∧ Linked (E.st τ).m a ∧ (∀ n, n ≤ τ → (E.st n).m.retired a = none) ∧
    (∀ n, τ < n → (E.st n).m.retired a = some τ ∧ ¬ Linked (E.st n).m a) := by
  have hfirst : ∀ i, (E.st i).m.retired a = some τ → τ < i ∧ (E.st (τ + 1)).m.retired a = some τ ∧ (E.st τ).m.retired a = none := by
    intro i
    induction i with
    | zero => intro h; rw [E.init] at h; cases h
    | succ i ih =>
      intro h
      cases hr : (E.st i).m.retired a with
      | none =>
        have := (E.stepOK i).evo.retNew a τ hr h
        rw [E.clock] at this
        subst this
        exact ⟨by omega, h, hr⟩
      | some τ' =>
        have := (E.stepOK i).evo.retOld a τ' hr
        rw [h] at this; cases this
        obtain ⟨g1, g2⟩ := ih hr
        exact ⟨by omega, g2⟩
  obtain ⟨h1, h2, h3⟩ := hfirst i h
  have hafter : ∀ n, τ < n → (E.st n).m.retired a = some τ := by
    intro n hn
    induction n with
    | zero => omega
    | succ n ih =>
      by_cases e : τ = n
      · subst e; exact h2
      · exact (E.stepOK n).evo.retOld a τ (ih (by omega))
  have hbefore : ∀ n, n ≤ τ → (E.st n).m.retired a = none := by
    intro n hn
    cases hr : (E.st n).m.retired a with
    | none => rfl
    | some τ' =>
      exfalso
      have : ∀ k, (E.st (n + k)).m.retired a = some τ' := by
        intro k
        induction k with
        | zero => exact hr
        | succ k ih => exact (E.stepOK (n + k)).evo.retOld a τ' ih
      have := this (τ - n)
      rw [show n + (τ - n) = τ by omega, h3] at this
      cases this
  refine ⟨h1, ?_, hbefore, fun n hn => ⟨hafter n hn, ?_⟩⟩
  · -- the node existed at the moment of its retirement
    have hmem : (E.st τ).m.mem a ≠ none := E.retire_allocated h3 h2
    by_cases hl : Linked (E.st τ).m a
    · exact hl
    · exact absurd h3 ((C07_retired_iff_unlinked E τ a hmem).mpr hl)
  · have hr := hafter n hn
    have := (E.inv n).mem.retTime a τ hr
    exact (C07_retired_iff_unlinked E n a this.2).mp (by rw [hr]; simp)

/-- **C07.** Only unlinked nodes are ever destroyed. -/
theorem C07_destroyed_unlinked {i a : Nat} (h : (E.st i).m.freed a = true) : ¬ Linked (E.st i).m a := by
  obtain ⟨τ, h1, -⟩ := (E.inv i).freed a h
  exact ((C07_retired_once E h1).2.2.2 i (C07_retired_once E h1).1).2

/-! ### C34 -/

/-- The machine word: the identity of a node is replaced by the address it has in memory. -/
def Word.phys (addr : Nat → Nat) (w : Word) : Option Nat × Bool × Bool := (w.ptr.map addr, w.cond, w.data)

/-- **C34.** Reuse of addresses cannot fool a compare-and-set (no ABA): let `addr` be the address each node ever
published has or had; the allocator only guarantees that two nodes neither of which is destroyed have different addresses.
Then at every compare-and-set of every execution, comparing the machine words gives the same answer as comparing the
identities of the nodes (which is what the model does). -/
theorem C34_no_aba {i t : Nat} {c : Call K P} (h : E.Running i t c) {loc : Loc} {expected : Word}
    (hc : c.pc.cas = some (loc, expected)) (addr : Nat → Nat)
    (haddr : ∀ a b, (E.st i).m.mem a ≠ none → (E.st i).m.mem b ≠ none → (E.st i).m.freed a = false →
      (E.st i).m.freed b = false → addr a = addr b → a = b) :
    ∃ w, (E.st i).m.read loc = some w ∧ (w.phys addr = expected.phys addr ↔ w = expected) := by
  have x := (E.inv i).ctx h
  obtain ⟨⟨q, hl⟩, he⟩ := E.cas_held h hc
  obtain ⟨w, h1, h2, h3, h4⟩ := x.read hl
  refine ⟨w, h1, ?_, fun e => by rw [e]⟩
  intro hw
  obtain ⟨wp, wc, wd⟩ := w
  obtain ⟨ep, ec, ed⟩ := expected
  simp only [Word.phys, Prod.mk.injEq] at hw
  obtain ⟨e1, rfl, rfl⟩ := hw
  cases wp with
  | none =>
    cases ep with
    | none => rfl
    | some b => simp at e1
  | some a =>
    cases ep with
    | none => simp at e1
    | some b =>
      simp at e1
      have ha := h3 a rfl
      have hb := he b rfl
      rw [haddr a b ha.1 hb.1 (x.hfree a ha) (x.hfree b hb) e1]

end

/-! ### The hypotheses can be met -/

/-- C06, C07: in `exRace` session 2 gets `(7,1)` from `remove` in step 16; the node is retired in that step, and destroyed in
step 22, after all guards are gone. -/
example : ∃ E : Exec exCfg, E.Returns 16 12 (.op (.opt (some (7, 1)))) ∧ E.lab 16 = .tick 2 false ∧
    E.KeepsGuard 2 17 19 ∧ (E.st 17).m.retired 1 = some 16 ∧ Linked (E.st 16).m 1 ∧ (E.st 23).m.freed 1 = true := by
  obtain ⟨E, h1, h2, h3⟩ := Exec.ofCheck' (cfg := exCfg) 4 (ls := exRace) (by decide)
  refine ⟨E, ?_, ?_, ?_, ?_, ?_, ?_⟩
  · simp only [Exec.Returns, h2]; rfl
  · simp only [h3]; rfl
  · intro j hj1 hj2
    have : j = 17 ∨ j = 18 := by omega
    rcases this with rfl | rfl <;> simp only [h3] <;> exact ⟨by simp [exRace], by simp [exRace]⟩
  · simp only [h1]; rfl
  · exact .root (by simp only [h1]; rfl)
  · simp only [h1]; rfl

/-- An insertion under the same key by session 1 while session 0 has read the node and is about to replace it; session 2
holds no guard, so nothing protects the node but the guards of 0 and 1. -/
def exCas : List (Label Nat (Nat × Nat)) :=
  [.pin 0, .pin 1, .call 0 (.op (.insert (7, 1)))] ++ ticks 0 2 ++
  [.call 0 (.op (.insert (7, 2))), .tick 0 false, .call 1 (.op (.insert (7, 3))), .tick 1 false, .tick 1 false]

/-- C06 for iterators: an iteration that has yielded `(7,1)`, whose node another session then replaces. -/
example : ∃ (E : Exec exCfg) (c : Call Nat (Nat × Nat)), E.Running 8 1 c ∧ c.yielded = [(7, 1)] := by
  obtain ⟨E, h1, h2, h3⟩ := Exec.ofCheck' (cfg := exCfg) 2
    (ls := [.pin 0, .pin 1, .call 0 (.op (.insert (7, 1)))] ++ ticks 0 2 ++ [.call 1 .iter] ++ ticks 1 2 ++
      [.call 0 (.op (.insert (7, 2)))] ++ ticks 0 2) (by decide)
  refine ⟨E, ?_⟩
  simp only [Exec.Running, h1]
  exact ⟨_, rfl, rfl⟩

/-- C34: session 0 is about to compare-and-set the root, expecting node 0, which is not linked any more. -/
example : ∃ (E : Exec exCfg) (c : Call Nat (Nat × Nat)), E.Running 10 0 c ∧
    c.pc.cas = some (.root, ⟨some 0, false, true⟩) ∧ (E.st 10).m.read .root = some ⟨some 1, false, true⟩ := by
  obtain ⟨E, h1, h2, h3⟩ := Exec.ofCheck' (cfg := exCfg) 2 (ls := exCas) (by decide)
  refine ⟨E, ?_⟩
  simp only [Exec.Running, h1]
  exact ⟨_, rfl, rfl, rfl⟩

end Contrie
