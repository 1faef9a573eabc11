import Verif.Proof.WildLive
import Verif.Props.Hostile
import Verif.Props.Coherent
import Verif.Props.Granularity
/-
C43: soundness under weak memory and with arbitrary user code at the same time. `WExec` (`Verif/Model/Wild.lean`) is an execution in which loads
may return old values, sessions learn from each other only by synchronising, the collector obeys crossbeam-epoch's contract only, every comparison
and every hashing of keys is answered arbitrarily, and any call of user code may panic.
-/
set_option linter.unusedSectionVars false
namespace Contrie
variable {K P : Type}

section
variable [DecidableEq K] (E : WExec K P)

/-- **C43.** No session ever gets into a failure: no access to destroyed memory, to a null pointer or through a pointer of the wrong kind, no
stepping below the last level, no overflow of a fixed-size array, no data node without an element, no condemned root. -/
theorem C43_no_failure {n : Nat} (hn : n ≤ E.len) (t : Nat) : ((E.st n).thr t).failed = none :=
  ((E.winv hn).sess t).noFail

/-- **C43**, at every single access: the cell a call is about to access lies in an inner node that is not destroyed. -/
theorem C43_access {n : Nat} (hn : n ≤ E.len) {t : Nat} {c : Call K P} (hc : ((E.st n).thr t).run = some c) {a : Nat} {i : Fin 16}
    {o : LoadOrd} (ha : c.pc.access .code = some (.slot a i, o)) :
    ∃ cells path, (E.st n).m.deref a = some (.inner cells path) := by
  obtain ⟨⟨w, hw⟩, -⟩ := E.finds hn hc ha
  simp only [Mem.read] at hw
  split at hw
  · next cs p hd => exact ⟨cs, p, hd⟩
  · cases hw

/-- **C43.** The only failure a step of a call may end in, whatever it sees and whatever it is told, is the panic of the assertion "Collision node not
deep enough" (which unwinds; the execution goes on with the call abandoned). -/
theorem C43_only_panic {n t : Nat} {weak : Bool} {τ : Nat} (hn : n < E.len) (hl : E.lab n = .tick t weak τ) {c : Call K P}
    (hc : ((E.st n).thr t).run = some c) (f : Failure)
    (h : (hTick (E.ans n) ((E.st n).seen c.pc τ) weak c.pc).2 = .fail f) : f = .shallowCollision := by
  have hI := E.winv (Nat.le_of_lt hn)
  have hok := ((hI.did E hn hl hc).1.step hI ((hI.sess t).run c hc) hn).next
  rw [h] at hok
  exact hok

/-- **C43.** No call is ever blocked by what others did, or by lies it was told. -/
theorem C43_never_blocked {n t : Nat} {c : Call K P} (hc : ((E.st n).thr t).run = some c) (weak : Bool) (o : Answers P)
    (h : BitVec 64) : (CLabel.tick t weak (E.st n).m.clock).enabled (E.st n) ∧
    ∃ x, wstep (E.st n) o h (.tick t weak (E.st n).m.clock) = some x := by
  refine ⟨Or.inl rfl, ?_⟩
  simp only [wstep, hc]
  exact ⟨_, rfl⟩

/-- **C43.** The elements a call returns references to live in nodes that stay intact (not destroyed, not changed) for as long as the
session keeps the guard under which it made the call. -/
theorem C43_returned_references {j id t : Nat} {r : Res P} {weak : Bool} {τ : Nat} (hj : j < E.len) (hr : E.ev j = some (.res id r))
    (hl : E.lab j = .tick t weak τ) {p : P} (hp : p ∈ r.elements) : ∃ a items, p ∈ items ∧
      ∀ n, j < n → n ≤ E.len → E.KeepsGuard t j n → (E.st n).m.deref a = some (.data items) := by
  have hI := E.winv (Nat.le_of_lt hj)
  have hs := E.step j hj
  rw [hl] at hs
  cases hc : ((E.st j).thr t).run with
  | none => simp only [wstep, hc] at hs; cases hs
  | some c =>
  simp only [wstep, hc, Option.some.injEq, Prod.mk.injEq] at hs
  obtain ⟨hs1, hs2⟩ := hs
  have ci := (hI.sess t).run c hc
  have d := (hI.did E hj hl hc).1
  have sc := d.step hI ci hj
  rw [hr] at hs2
  generalize hnx : (hTick (E.ans j) ((E.st j).seen c.pc τ) weak c.pc).2 = nx at d sc hs1 hs2
  cases nx with
  | goto pc ran => cases hs2
  | fail f => cases hs2
  | ret r' refs =>
    simp only [Next.event, Option.some.injEq, Event.res.injEq] at hs2
    obtain ⟨-, rfl⟩ := hs2
    obtain ⟨q, hq1, hq2⟩ := ci.pin
    have hpin : ((E.st (j + 1)).thr t).pin = some q := by
      rw [← hs1]; simp only [CState.next, upd_same]; exact hq1
    obtain ⟨hheld, hok⟩ := sc.next
    have hlt := ci.lt
    have fin : ∀ a items, WSeen E.M (j + 1) (E.V t c.inv) a → (E.M (j + 1)).mem a = some (.data items) → p ∈ items →
        ∃ a items, p ∈ items ∧ ∀ n, j < n → n ≤ E.len → E.KeepsGuard t j n → (E.st n).m.deref a = some (.data items) := by
      intro a items h1 h2 h3
      refine ⟨a, items, h3, fun n hjn hn hk => E.seen_valid hpin (h1.anti (E.V_mono t (by omega) (by omega))) h2 n hjn hn ?_⟩
      intro k h4 h5
      rw [hk k (by omega) h5, hpin, hq1]
    cases r' with
    | op ret =>
      have hp' : p ∈ ret.payloads := by
        cases ret with
        | opt v => exact hp
        | eon e => cases e <;> simpa [Res.elements, Ret.payloads, ExistingOrNew.intoInner] using hp
      obtain ⟨a, ha, items, h1, h2⟩ := hok p hp'
      exact fin a items (d.refs ci sc.hist hj rfl (fun b hb => (hheld b hb).1) ha) h1 h2
    | bool b => cases hp
    | list l =>
      have hp' : p ∈ l := hp
      obtain ⟨lv, hpc⟩ := hTick_list _ _ weak c.pc hnx
      obtain ⟨a, items, h1, h2, h3⟩ := E.yielded_seen (Nat.le_of_lt hj) hc (p := p) (by simp only [Call.yielded, hpc]; exact hp')
      exact fin a items (h3.mono (Nat.le_succ _)) (sc.hist.data (Nat.le_succ _) (Nat.le_refl _) h1) h2

/-- **C43.** The same for what an iteration in progress has yielded. -/
theorem C43_yielded_references {i t : Nat} {c : Call K P} (hi : i ≤ E.len) (hc : ((E.st i).thr t).run = some c) {p : P}
    (hp : p ∈ c.yielded) : ∃ a items, p ∈ items ∧
      ∀ n, i ≤ n → n ≤ E.len → E.KeepsGuard t i n → (E.st n).m.deref a = some (.data items) := by
  obtain ⟨a, items, h1, h2, h3⟩ := E.yielded_seen hi hc hp
  have ci := ((E.winv hi).sess t).run c hc
  obtain ⟨q, hq1, hq2⟩ := ci.pin
  have hlt := ci.lt
  exact ⟨a, items, h2, fun n hn hn' hk => E.seen_valid hq1 (h3.anti (E.V_mono t (by omega) (by omega))) h1 n hn hn' hk⟩

/-- **C43.** What a call finds in the cell it looks at, however old and however it was lied to on its way, leads to a node that stays what it is
for as long as the session keeps its guard: a data node keeps its elements, an inner node its place. -/
theorem C43_found_stays {i t τ : Nat} {weak : Bool} (hi : i < E.len) {c : Call K P}
    (hc : ((E.st i).thr t).run = some c) (hlab : E.lab i = .tick t weak τ) {loc : Loc}
    (hl : c.pc.cell = some loc) : ∃ w, ((E.st i).seen c.pc τ).read loc = some w ∧ ∀ a, w.ptr = some a →
      ∃ items path, ∀ n, i ≤ n → n ≤ E.len → E.KeepsGuard t i n → (E.st n).m.Shows w a items path := by
  have hn : i ≤ E.len := Nat.le_of_lt hi
  have hb := E.base hn
  obtain ⟨⟨ℓ, o⟩, ha, rfl⟩ := Option.map_eq_some_iff.mp hl
  obtain ⟨⟨w0, hw0⟩, p, hloc, hf⟩ := E.finds hn hc ha
  obtain ⟨hτn, hVτ⟩ := E.looks hi hb hlab hc ha
  have hread : ∃ w, (E.st τ).m.read ℓ = some w := by
    have hen := E.enabled i hi
    rw [hlab] at hen
    rcases hen with he | ⟨-, c', ℓ', o', h2, h3, h4, -⟩
    · rw [hb.clock] at he
      subst he
      exact ⟨w0, hw0⟩
    · rw [hc] at h2; cases h2
      rw [ha] at h3; cases h3
      rw [hb.memAt E hτn] at h4
      cases hrd : (E.st τ).m.read ℓ with
      | none => exact absurd hrd h4
      | some w => exact ⟨w, rfl⟩
  obtain ⟨w, hrd⟩ := hread
  obtain ⟨-, h1, h2, h3⟩ := hf τ w hVτ hτn hrd
  refine ⟨w, h1, fun a hwa => ?_⟩
  have ci := ((E.winv hn).sess t).run c hc
  obtain ⟨q, hq1, hq2⟩ := ci.pin
  have hlt := ci.lt
  have hs : WSeen E.M i (E.V t (q + 1)) a := (h3 a hwa).anti (E.V_mono t (by omega) (by omega))
  have alive : ∀ n, i ≤ n → n ≤ E.len → E.KeepsGuard t i n → (E.st n).m.freed a = false := by
    intro n h4 h5 hk
    exact (E.winv h5).alive E h5 (p := q) (by rw [hk n h4 (Nat.le_refl _)]; exact hq1) (hs.mono h4)
  cases hd : w.data with
  | true =>
    obtain ⟨l, hl, -⟩ := h2.of_data hwa hd
    refine ⟨l, [], fun n h4 h5 hk => ?_⟩
    have hm : (E.st n).m.mem a = some (.data l) := (E.winv h5).hist.data h4 (Nat.le_refl _) hl
    simp [Mem.Shows, hd, Mem.deref, alive n h4 h5 hk, hm]
  | false =>
    refine ⟨[], p, fun n h4 h5 hk => ?_⟩
    obtain ⟨cs, hcs⟩ := h2.of_inner hwa hd
    obtain ⟨cs', hm, -⟩ := (E.winv h5).hist.inner h4 (Nat.le_refl _) hcs
    have hm' : (E.st n).m.mem a = some (.inner cs' p) := hm
    simp [Mem.Shows, hd, Mem.deref, alive n h4 h5 hk, hm']

/-- **C43.** At every instant, a node that was ever put into the trie is handed over for destruction if and only if it is not
linked any more (no double free, no leak of a replaced node). -/
theorem C43_retired_iff_unlinked {i : Nat} (hi : i ≤ E.len) (a : Nat) (ha : (E.st i).m.mem a ≠ none) :
    (E.st i).m.retired a ≠ none ↔ ¬ Linked (E.st i).m a := by
  have hm := E.memInv hi
  rw [hlinked_iff hm]
  constructor
  · rintro hr ⟨q, w, hf, hw⟩
    exact hr (hm.live q w a hf hw)
  · intro hl hr
    cases hx : (E.st i).m.mem a with
    | none => exact ha hx
    | some n => exact hl (hm.linked a n hx hr)

/-- **C43.** A node is handed over at most once, in the very step that unlinks it. -/
theorem C43_retired_once {i a τ : Nat} (hi : i ≤ E.len) (h : (E.st i).m.retired a = some τ) :
    τ < i ∧ Linked (E.st τ).m a ∧ (∀ n, n ≤ τ → (E.st n).m.retired a = none) ∧
    (∀ n, τ < n → n ≤ E.len → (E.st n).m.retired a = some τ ∧ ¬ Linked (E.st n).m a) := by
  have H := (E.winv hi).hist
  obtain ⟨h1, h2⟩ := H.retired_at (Nat.le_refl i) h
  have after : ∀ n, τ < n → n ≤ E.len → (E.st n).m.retired a = some τ := by
    intro n h3 h4
    by_cases e : n ≤ i
    · exact H.retired_from (Nat.le_refl i) h h3 e
    · exact (E.winv h4).hist.retired (by omega : i ≤ n) (Nat.le_refl _) h
  refine ⟨h1, ?_, h2, fun n h3 h4 => ⟨after n h3 h4, ?_⟩⟩
  · have hr1 := after (τ + 1) (by omega) (by omega)
    have hmem : (E.st τ).m.mem a ≠ none := by
      intro e
      have := H.born τ (by omega) a e
      have hr1' : (E.M (τ + 1)).retired a = some τ := hr1
      rw [hr1'] at this; cases this
    exact Classical.not_not.mp (fun hl => ((C43_retired_iff_unlinked E (by omega) a hmem).mpr hl) (h2 τ (Nat.le_refl _)))
  · have hm := E.memInv h4
    exact (C43_retired_iff_unlinked E h4 a (hm.retTime a τ (after n h3 h4)).2).mp (by rw [after n h3 h4]; simp)

/-- **C43.** Only unlinked nodes are ever destroyed. -/
theorem C43_destroyed_unlinked {i a : Nat} (hi : i ≤ E.len) (h : (E.st i).m.freed a = true) : ¬ Linked (E.st i).m a := by
  obtain ⟨τ, hτ⟩ := (E.memInv hi).freedRet a h
  obtain ⟨h1, -, -, h2⟩ := C43_retired_once E hi hτ
  exact (h2 i h1 hi).2

/-- **C43.** Dropping the trie, after whatever happened; cf. `C38_drop`. -/
theorem C43_drop (fix : Bool) {i : Nat} (hi : i ≤ E.len) :
    ∃ m' l, (E.st i).m.drop fix = some (m', l) ∧ (released l).Nodup ∧
      (∀ a, (E.st i).m.mem a ≠ none → (a ∈ released l ↔ (E.st i).m.retired a = none)) ∧
      (∀ a ∈ released l, (E.st i).m.mem a ≠ none ∧ (E.st i).m.freed a = false ∧ m'.freed a = true) := by
  have hm := E.memInv hi
  have hb : ∀ a, Below (E.st i).m (E.st i).m.root a → (E.st i).m.retired a = none := by
    rintro a ⟨q, w, g1, g2⟩; exact hm.live q w a g1 g2
  have hfr : ∀ a, Below (E.st i).m (E.st i).m.root a → (E.st i).m.freed a = false := by
    intro a ha
    cases hx : (E.st i).m.freed a with
    | false => rfl
    | true =>
      obtain ⟨τ, hτ⟩ := hm.freedRet a hx
      rw [hb a ha] at hτ; cases hτ
  obtain ⟨m', l, h1, h2⟩ := hdropRec_spec fix hm (MAX_LEVELS + 1) (E.st i).m (E.st i).m.root [] rfl rfl (by decide) hfr
  refine ⟨m', l, h1, h2.nodup, ?_, ?_⟩
  · intro a ha
    rw [h2.mem]
    constructor
    · exact hb a
    · intro hr
      cases hx : (E.st i).m.mem a with
      | none => exact (ha hx).elim
      | some n => exact hm.linked a n hx hr
  · intro a ha
    obtain ⟨k, hk⟩ := mem_released.1 ha
    obtain ⟨n, hn, -⟩ := h2.kind a k hk
    exact ⟨by rw [hn]; exact Option.some_ne_none n, hfr a ((h2.mem a).1 ha), (h2.freed a).2 (Or.inr ((h2.mem a).1 ha))⟩

/-- What a compare-and-set expects is held. -/
theorem cas_holds {pc : PC K P} {loc : Loc} {expected : Word} (hc : pc.cas = some (loc, expected)) {a : Nat}
    (ha : expected.ptr = some a) : pc.Holds a := by
  cases pc <;> simp only [PC.cas, Option.some.injEq, Prod.mk.injEq, reduceCtorEq] at hc
  case travCas => obtain ⟨rfl, rfl⟩ := hc; exact Or.inr (Or.inl ha)
  case remCas => obtain ⟨rfl, rfl⟩ := hc; exact Or.inr ha
  case pruneCas => obtain ⟨rfl, rfl⟩ := hc; exact Or.inr (Or.inl (Or.inr ha))

theorem cas_access {pc : PC K P} {loc : Loc} {expected : Word} (hc : pc.cas = some (loc, expected)) :
    ∃ o, pc.access .code = some (loc, o) := by
  cases pc <;> simp only [PC.cas, Option.some.injEq, Prod.mk.injEq, reduceCtorEq] at hc
  all_goals (obtain ⟨rfl, rfl⟩ := hc; exact ⟨_, rfl⟩)

/-- **C43.** Reuse of addresses cannot fool a compare-and-set (which compares with the current value of the cell, however old the values are that loads
return); cf. `C34_no_aba`. -/
theorem C43_no_aba {i t : Nat} (hi : i ≤ E.len) {c : Call K P} (h : ((E.st i).thr t).run = some c) {loc : Loc} {expected : Word}
    (hc : c.pc.cas = some (loc, expected)) (addr : Nat → Nat)
    (haddr : ∀ a b, (E.st i).m.mem a ≠ none → (E.st i).m.mem b ≠ none → (E.st i).m.freed a = false →
      (E.st i).m.freed b = false → addr a = addr b → a = b) :
    ∃ w, (E.st i).m.read loc = some w ∧ (w.phys addr = expected.phys addr ↔ w = expected) := by
  have hI := E.winv hi
  have ci := (hI.sess t).run c h
  obtain ⟨o, ha⟩ := cas_access hc
  obtain ⟨⟨w, hw⟩, p, -, hf⟩ := E.finds hi h ha
  obtain ⟨-, -, hok, hsn⟩ := hf i w ((E.base hi).view t loc) (Nat.le_refl _) hw
  have hmem : ∀ {a}, WSeen E.M i (E.V t c.inv) a → (E.st i).m.mem a ≠ none := by
    rintro a ⟨σ, q, w, h1, h2, h3, -⟩
    exact hI.hist.mem_ne h1 (Nat.le_refl _) (LinkedAt.mem (hI.hist.inv σ h1) ⟨w, h2, h3⟩)
  refine ⟨w, hw, ?_, fun e => by rw [e]⟩
  intro hw'
  obtain ⟨wp, wc, wd⟩ := w
  obtain ⟨ep, ec, ed⟩ := expected
  simp only [Word.phys, Prod.mk.injEq] at hw'
  obtain ⟨e1, rfl, rfl⟩ := hw'
  cases wp with
  | none =>
    cases ep with
    | none => rfl
    | some b => simp at e1
  | some a =>
    cases ep with
    | none => simp at e1
    | some b =>
      simp at e1
      have h1 := hsn a rfl
      have h2 := ci.holds b (cas_holds hc rfl)
      rw [haddr a b (hmem h1) (hmem h2) (hI.held E hi h h1) (hI.held E hi h h2) e1]

/-- **C43.** A lookup makes at most seventeen loads, whatever it sees and whatever it is told. -/
theorem C43_get_bounded {i t : Nat} (hi : i ≤ E.len) {c : Call K P} (h : ((E.st i).thr t).run = some c) {key : K} {hash : BitVec 64}
    {cur : Loc} (hc : c.pc = .get key hash cur) : c.ticks ≤ 16 := by
  have := (((E.winv hi).sess t).run c h).pc
  rw [hc] at this
  obtain ⟨_, d, h1, h2, -⟩ := this
  omega

/-! ### The other machines are special cases -/

/-- **C43** covers the machine of C39-C41: every execution with well-behaved user code is one of the executions above (with the
same steps, states and events). -/
theorem C43_honest_is_special_case {cfg : Config K P} (E : CExec cfg) :
    ∃ W : WExec K P, W.len = E.len ∧ W.st = E.st ∧ W.lab = E.lab ∧ W.ev = E.ev := by
  have hex : ∀ i, ∃ x : Answers P × BitVec 64, i < E.len → wstep (E.st i) x.1 x.2 (E.lab i) = some (E.st (i + 1), E.ev i) := by
    intro i
    by_cases hi : i < E.len
    · have hs := E.step i hi
      have o0 : Answers P := ⟨fun _ => false, fun _ _ => false, fun _ _ => false, fun _ => 0, 0, fun _ p => p⟩
      generalize hl : E.lab i = l at hs
      cases l with
      | call t r =>
        have hp : ∃ h, hStartPC h r = startPC cfg r := by
          cases r with
          | op o =>
            cases o with
            | get k => exact ⟨_, rfl⟩
            | insert p => exact ⟨_, rfl⟩
            | getOrInsert k f => exact ⟨_, rfl⟩
            | remove k => exact ⟨0, rfl⟩
          | isEmpty => exact ⟨0, rfl⟩
          | iter => exact ⟨0, rfl⟩
        obtain ⟨h, hh⟩ := hp
        refine ⟨(o0, h), fun _ => ?_⟩
        simp only [cstep] at hs
        simp only [wstep, hh]
        exact hs
      | tick t weak τ =>
        simp only [cstep] at hs
        split at hs
        · cases hs
        · next c hc =>
          have ho : ∃ o : Answers P, ∀ k, c.pc.soughtKey cfg = some k → o = Answers.honest cfg k := by
            cases hk : c.pc.soughtKey cfg with
            | none => exact ⟨o0, by intro k h; cases h⟩
            | some k => exact ⟨_, by intro k' h; cases h; rfl⟩
          obtain ⟨o, ho⟩ := ho
          refine ⟨(o, 0), fun _ => ?_⟩
          simp only [wstep, hc, hTick_honest cfg o _ weak c.pc ho]
          rw [← hs]
          have hnf := C40_no_failure E (Nat.succ_le_of_lt hi) t
          simp only [Option.some.injEq, Prod.mk.injEq] at hs
          rw [← hs.1] at hnf
          simp only [CState.next, upd_same] at hnf
          generalize (tick cfg ((E.st i).seen c.pc τ) weak c.pc).2 = nx at hnf
          cases nx with
          | fail f => cases hnf
          | goto => rfl
          | ret => rfl
      | pin t => exact ⟨(o0, 0), fun _ => hs⟩
      | unpin t => exact ⟨(o0, 0), fun _ => hs⟩
      | abort t => exact ⟨(o0, 0), fun _ => hs⟩
      | sync t t' τ => exact ⟨(o0, 0), fun _ => hs⟩
      | free a => exact ⟨(o0, 0), fun _ => hs⟩
      | idle => exact ⟨(o0, 0), fun _ => hs⟩
    · exact ⟨(⟨fun _ => false, fun _ _ => false, fun _ _ => false, fun _ => 0, 0, fun _ p => p⟩, 0), fun h => absurd h hi⟩
  exact ⟨⟨E.len, E.st, E.lab, fun i => (Classical.choose (hex i)).1, fun i => (Classical.choose (hex i)).2, E.ev, E.init,
    fun i hi => Classical.choose_spec (hex i) hi, E.enabled, E.gc⟩, rfl, rfl, rfl, rfl⟩
end

/-! ### Concrete executions -/

/-- What one step of a concrete run is given: the label, the answers of user code, the hash. -/
abbrev WLabel (K P : Type) := CLabel K P × Answers P × BitVec 64

def noAnswers : Answers P := ⟨fun _ => false, fun _ _ => false, fun _ _ => false, fun _ => 0, 0, fun _ p => p⟩

/-- State after the first `i` steps. -/
def wstAt (ls : List (WLabel K P)) : Nat → CState K P
  | 0 => CState.init
  | i + 1 => let x := ls.getD i (.idle, noAnswers, 0)
    match wstep (wstAt ls i) x.2.1 x.2.2 x.1 with
    | some (s, _) => s
    | none => wstAt ls i

/-- What is observable of step `i`. -/
def wevAt (ls : List (WLabel K P)) (i : Nat) : Option (Event K P) :=
  let x := ls.getD i (.idle, noAnswers, 0)
  match wstep (wstAt ls i) x.2.1 x.2.2 x.1 with
  | some (_, e) => e
  | none => none

/-- Check of a concrete run in which the collector does nothing. -/
def wRunOKb : CState K P → List (WLabel K P) → Bool
  | _, [] => true
  | s, x :: ls => (match x.1 with | .free _ => false | _ => true) && x.1.enabledb s && match wstep s x.2.1 x.2.2 x.1 with
    | none => false
    | some (s', _) => wRunOKb s' ls

theorem wRun_check {ls : List (WLabel K P)} : ∀ {l1 l2 : List (WLabel K P)}, ls = l1 ++ l2 →
    wRunOKb (wstAt ls l1.length) l2 = true → ∀ i, l1.length ≤ i → i < ls.length →
    (∀ a, (ls.getD i (.idle, noAnswers, 0)).1 ≠ .free a) ∧ (ls.getD i (.idle, noAnswers, 0)).1.enabledb (wstAt ls i) = true ∧
    (wstep (wstAt ls i) (ls.getD i (.idle, noAnswers, 0)).2.1 (ls.getD i (.idle, noAnswers, 0)).2.2
      (ls.getD i (.idle, noAnswers, 0)).1).isSome = true := by
  intro l1 l2
  induction l2 generalizing l1 with
  | nil =>
    intro hl _ i h1 h2
    simp only [List.append_nil] at hl
    subst hl
    omega
  | cons l l2 ih =>
    intro hl h i h1 h2
    have hget : ls.getD l1.length (.idle, noAnswers, 0) = l := by rw [hl]; simp
    simp only [wRunOKb, Bool.and_eq_true] at h
    obtain ⟨⟨h3, h4⟩, h5⟩ := h
    split at h5
    · cases h5
    · next s' e he =>
      by_cases e1 : i = l1.length
      · subst e1
        rw [hget, he]
        refine ⟨?_, h4, rfl⟩
        intro a e; rw [e] at h3; cases h3
      · refine ih (l1 := l1 ++ [l]) (by rw [hl]; simp) ?_ i (by simp; omega) h2
        have : wstAt ls (l1 ++ [l]).length = s' := by
          simp only [List.length_append, List.length_cons, List.length_nil, Nat.zero_add, wstAt, hget, he]
        rw [this]; exact h5

/-- A checked run as an execution. -/
def WExec.ofRun [DecidableEq K] (ls : List (WLabel K P)) (h : wRunOKb CState.init ls = true) : WExec K P where
  len := ls.length
  st := wstAt ls
  lab := fun i => (ls.getD i (.idle, noAnswers, 0)).1
  ans := fun i => (ls.getD i (.idle, noAnswers, 0)).2.1
  hash := fun i => (ls.getD i (.idle, noAnswers, 0)).2.2
  ev := wevAt ls
  init := rfl
  step := by
    intro i hi
    obtain ⟨-, -, h3⟩ := wRun_check (ls := ls) (l1 := []) (l2 := ls) rfl h i (Nat.zero_le _) hi
    cases he : wstep (wstAt ls i) (ls.getD i (.idle, noAnswers, 0)).2.1 (ls.getD i (.idle, noAnswers, 0)).2.2
        (ls.getD i (.idle, noAnswers, 0)).1 with
    | none => rw [he] at h3; cases h3
    | some x => simp only [wstAt, wevAt, he]
  enabled := fun i hi => enabled_of_check (wRun_check (ls := ls) (l1 := []) (l2 := ls) rfl h i (Nat.zero_le _) hi).2.1
  gc := fun i a hi e => absurd e ((wRun_check (ls := ls) (l1 := []) (l2 := ls) rfl h i (Nat.zero_le _) hi).1 a)

/-- Session 0 inserts the key 7 twice, being told "the same hash, but a different key": a collision node at the root. Session 1 starts an iteration, sees
the root as it was between the two insertions (which is stale), and yields (7, 1) from the node that was replaced. Session 2 sees the new root, tries
to insert the same key once more, is told "not the same hash", and hits the assertion. Session 3 pins itself after all this, looks up the key 8,
sees the stale root nevertheless, and is told that 8 equals 7. -/
def exWildRun : List (WLabel Nat (Nat × Nat)) :=
  [(.pin 0, noAnswers, 0), (.pin 1, noAnswers, 0), (.pin 2, noAnswers, 0),
   (.call 0 (.op (.insert (7, 1))), noAnswers, 0), (.tick 0 false 4, liar 0, 0), (.tick 0 false 5, liar 0, 0),
   (.call 0 (.op (.insert (7, 2))), noAnswers, 5), (.tick 0 false 7, liar 3, 0), (.tick 0 false 8, liar 4, 0),
   (.call 1 .iter, noAnswers, 0), (.tick 1 false 6, liar 0, 0), (.tick 1 false 11, liar 0, 0), (.tick 1 false 12, liar 0, 0),
   (.call 2 (.op (.insert (7, 3))), noAnswers, 9), (.tick 2 false 14, liar' 1, 0),
   (.pin 3, noAnswers, 0), (.call 3 (.op (.get 8)), noAnswers, 77), (.tick 3 false 6, { liar 0 with equal := fun _ _ => true }, 0)]

def exWild : WExec Nat (Nat × Nat) := .ofRun exWildRun (by decide)

set_option maxRecDepth 20000 in
/-- The collision node, the replaced node, the stale iteration, the panic (step 14; the guard of session 2 is gone then). -/
example : (exWild.st 9).m.root = ⟨some 1, false, true⟩ ∧ (exWild.st 9).m.deref 1 = some (.data [(7, 1), (7, 2)]) ∧
    (exWild.st 9).m.retired 0 = some 8 ∧
    (∃ c, ((exWild.st 13).thr 1).run = some c ∧ c.yielded = [(7, 1)]) ∧
    (∃ c, ((exWild.st 14).thr 2).run = some c ∧
      (hTick (exWild.ans 14) ((exWild.st 14).seen c.pc 14) false c.pc).2 = .fail .shallowCollision) ∧
    ((exWild.st 15).thr 2).pin = none ∧ ((exWild.st 15).thr 2).failed = none := by
  refine ⟨?_, ?_, ?_, ⟨_, rfl, rfl⟩, ⟨_, rfl, rfl⟩, ?_, ?_⟩ <;> rfl

set_option maxRecDepth 20000 in
/-- Non-vacuity of `C43_yielded_references`: the guard of session 1 is kept from 13 until 15. -/
example : exWild.KeepsGuard 1 13 15 ∧ ∃ a items, (7, 1) ∈ items ∧ (exWild.st 15).m.deref a = some (.data items) := by
  have hk : exWild.KeepsGuard 1 13 15 := by
    intro k h1 h2
    have : k = 13 ∨ k = 14 ∨ k = 15 := by omega
    rcases this with rfl | rfl | rfl <;> rfl
  refine ⟨hk, ?_⟩
  obtain ⟨a, items, h1, h2⟩ := C43_yielded_references exWild (i := 13) (t := 1) (c := _) (p := (7, 1)) (by decide) rfl
    (List.mem_singleton.mpr rfl)
  exact ⟨a, items, h1, h2 15 (by decide) (by decide) hk⟩

set_option maxRecDepth 20000 in
/-- Non-vacuity of `C43_returned_references`: the last step returns (7, 1), which lives in the replaced node. -/
example : exWild.ev 17 = some (.res 16 (.op (.opt (some (7, 1))))) ∧ exWild.KeepsGuard 3 17 18 ∧
    ∃ a items, (7, 1) ∈ items ∧ (exWild.st 18).m.deref a = some (.data items) := by
  have hk : exWild.KeepsGuard 3 17 18 := by
    intro k h1 h2
    have : k = 17 ∨ k = 18 := by omega
    have h17 : ((exWild.st 17).thr 3).pin = some 15 := rfl
    have h18 : ((exWild.st 18).thr 3).pin = some 15 := rfl
    rcases this with rfl | rfl
    · rfl
    · exact h18.trans h17.symm
  have hr : exWild.ev 17 = some (.res 16 (.op (.opt (some (7, 1))))) := rfl
  refine ⟨hr, hk, ?_⟩
  obtain ⟨a, items, h1, h2⟩ := C43_returned_references exWild (j := 17) (t := 3) (weak := false) (τ := 6) (by decide) hr rfl
    (p := (7, 1)) (List.mem_singleton.mpr rfl)
  exact ⟨a, items, h1, h2 18 (by decide) (by decide) hk⟩

set_option maxRecDepth 20000 in
/-- Non-vacuity of `C43_no_aba`, `C43_access`: the compare-and-set of session 0 in step 8; in `exIriw` (which is one of the executions of C43), the load of a cell
in step 15. -/
example : (∃ c w, ((exWild.st 8).thr 0).run = some c ∧ c.pc.cas = some (.root, w) ∧ w.ptr = some 0 ∧
    exWild.lab 8 = .tick 0 false 8) ∧
    ∃ W : WExec Nat (Nat × Nat), W.len = 33 ∧ ∃ c a i o, ((W.st 15).thr 0).run = some c ∧ c.pc.access .code = some (.slot a i, o) := by
  refine ⟨⟨_, _, rfl, rfl, rfl, rfl⟩, ?_⟩
  obtain ⟨W, h1, h2, h3, h4⟩ := C43_honest_is_special_case exIriw
  exact ⟨W, h1, _, _, _, _, by rw [h2]; rfl, rfl⟩

/-- The execution `exFree` of C40 (in which a node is really destroyed) is one of those of C43. -/
example : ∃ W : WExec Nat (Nat × Nat), W.len = 13 ∧ (W.st 13).m.freed 0 = true ∧ ((W.st 13).thr 1).failed = none := by
  obtain ⟨W, h1, h2, h3, h4⟩ := C43_honest_is_special_case exFree
  exact ⟨W, h1, by rw [h2]; rfl, C43_no_failure W (by rw [h1]; decide) 1⟩

end Contrie
