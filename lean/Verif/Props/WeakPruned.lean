import Verif.Props.Locking
import Verif.Props.Since
import Verif.Proof.WeakOneExec
/-
C63: cleaning up on weak memory.
-/
set_option linter.unusedSectionVars false
namespace Contrie
variable {K P : Type} [DecidableEq K] {cfg : Config K P}

/-- At instant `n` no update is in progress. -/
def CExec.NoUpdate (E : CExec cfg) (n : Nat) : Prop := ∀ t c, ((E.st n).thr t).run = some c → c.req.isUpdate = false

/-- No update is abandoned before instant `n`. -/
def CExec.NoneAbandoned (E : CExec cfg) (n : Nat) : Prop := ∀ i t c, i < n → E.lab i = .abort t → ((E.st i).thr t).run = some c → c.req.isUpdate = false

/-- Only keys that calls are about can be in the map. -/
theorem CExec.content_named (E : CExec cfg) {n : Nat} (hn : n ≤ E.len) {k : K} (h : E.content n k ≠ none) :
    ∃ x t o, x < n ∧ E.lab x = .call t (.op o) ∧ o.key cfg.key = k := by
  apply Classical.byContradiction
  intro hno
  apply h
  rw [← E.A_content, ← E.A_const (k := k) (a := 0) (Nat.zero_le n) hn ?_, E.A_content]
  · simp only [CExec.content, E.init]; rfl
  · intro i lp _ hi hw hk
    exfalso
    apply hno
    obtain ⟨t', weak', c', h1, h2, h3, h4, h5, h6, h7, h8⟩ := E.W_ok (by omega) hw
    exact ⟨lp.id, t', lp.op, by omega, h6, hk⟩

/-! ### Without synchronisation -/

/-- Gives the steps marked with the instant 1000 the current instant: they see the memory as it is. -/
def stamp : Nat → List (CLabel K P) → List (CLabel K P)
  | _, [] => []
  | i, .tick t weak 1000 :: ls => .tick t weak i :: stamp (i + 1) ls
  | i, l :: ls => l :: stamp (i + 1) ls

/-- `n` steps of session `t` that see the memory as it is. -/
def nows (t n : Nat) : List (CLabel Nat (Nat × Nat)) := List.replicate n (.tick t false 1000)

/-- Session 0 inserts the keys 0, 1, 2, which are then in one node below the root, and starts three threads (sessions 1, 2, 3: they know what session 0 knew). One after the other, they remove
one key each: session 1 removes key 0, and sees that there are two left. Then session 2 removes key 1; when it counts what is left, it still sees key 0, and key 2. Then session 3
removes key 2; it still sees the keys 0 and 1. Session 0 joins the three threads and asks whether the map is empty. -/
def exUnseenRun : List (CLabel Nat (Nat × Nat)) := stamp 0 (
  [.pin 0, .pin 1, .pin 2, .pin 3, .call 0 (.op (.insert (0, 1)))] ++ nows 0 2 ++ [.call 0 (.op (.insert (1, 2)))] ++ nows 0 5 ++ [.call 0 (.op (.insert (2, 3)))] ++ nows 0 3 ++
  [.sync 1 0 17, .sync 2 0 17, .sync 3 0 17, .call 1 (.op (.remove 0))] ++ nows 1 19 ++
  [.call 2 (.op (.remove 1))] ++ nows 2 3 ++ [.tick 2 false 20] ++ nows 2 15 ++
  [.call 3 (.op (.remove 2))] ++ nows 3 3 ++ [.tick 3 false 20, .tick 3 false 20] ++ nows 3 14 ++ [.sync 0 1 80, .sync 0 2 80, .sync 0 3 80, .call 0 .isEmpty] ++ nows 0 1)

set_option maxRecDepth 20000 in
def exUnseen : CExec exCfg :=
  .ofRun exCfg exUnseenRun (by decide) (fun i a hi e => absurd e (no_free (cfg := exCfg) (by decide) hi))

set_option maxRecDepth 20000 in
theorem exUnseen_calls : ∀ x t r, x < 85 → exUnseen.lab x = .call t r → (x = 4 ∨ x = 7 ∨ x = 13 ∨ x = 20 ∨ x = 40 ∨ x = 60 ∨ x = 83) ∧
    (∀ o, r = .op o → o.key exCfg.key = 0 ∨ o.key exCfg.key = 1 ∨ o.key exCfg.key = 2) := by
  intro x t r hx hl
  have key : (List.range 85).all (fun x => match exUnseenRun.getD x .idle with
      | .call _ r => decide (x = 4 ∨ x = 7 ∨ x = 13 ∨ x = 20 ∨ x = 40 ∨ x = 60 ∨ x = 83) &&
        (match r with | .op o => decide (o.key exCfg.key = 0 ∨ o.key exCfg.key = 1 ∨ o.key exCfg.key = 2) | _ => true)
      | _ => true) = true := by decide
  have := (List.all_eq_true.mp key) x (List.mem_range.mpr hx)
  have hl' : exUnseenRun.getD x .idle = .call t r := hl
  rw [hl'] at this
  simp only [Bool.and_eq_true, decide_eq_true_eq] at this
  refine ⟨this.1, ?_⟩
  rintro o rfl
  simpa using this.2

set_option maxRecDepth 20000 in
theorem exUnseen_empty : ∀ n, 80 ≤ n → n ≤ 85 → ∀ k, exUnseen.content n k = none := by
  intro n h1 h2 k
  apply Classical.byContradiction
  intro e
  obtain ⟨x, t, o, g1, g2, g3⟩ := exUnseen.content_named (n := n) h2 e
  have := (exUnseen_calls x t _ (by omega) g2).2 o rfl
  rw [g3] at this
  apply e
  have hn : n = 80 ∨ n = 81 ∨ n = 82 ∨ n = 83 ∨ n = 84 ∨ n = 85 := by omega
  rcases this with rfl | rfl | rfl <;> rcases hn with rfl | rfl | rfl | rfl | rfl | rfl <;> decide

set_option maxRecDepth 20000 in
/-- **C63**, what goes wrong without synchronisation: there is an execution on weak memory in which no two calls ever overlap and no call is abandoned; afterwards no call is in progress and the
map is empty; but the trie is not pruned. Even a session that has synchronised with all others after all their calls (it has joined the threads) and then asks `is_empty` is told `false`. (The three
removals happened one after the other, but nothing made the later ones aware of the earlier ones.) -/
theorem C63_unsynchronised_refuted : ∃ (E : CExec exCfg) (n : Nat), n ≤ E.len ∧
    (∀ i t t' c c', i ≤ n → ((E.st i).thr t).run = some c → ((E.st i).thr t').run = some c' → t = t') ∧
    (∀ i t, i < E.len → E.lab i ≠ .abort t) ∧ (∀ t, ((E.st n).thr t).run = none) ∧ (∀ i, n ≤ i → i ≤ E.len → ∀ k, E.content i k = none) ∧ ¬ (E.st n).m.AssertPruned ∧
    ∃ id j, n ≤ id ∧ j < E.len ∧ E.ev id = some (.inv id .isEmpty) ∧ E.ev j = some (.res id (.bool false)) ∧
      ∀ x r, x < id → E.ev x = some (.inv x r) → E.Precedes x id := by
  have hthr : ∀ i t, 4 ≤ t → (exUnseen.st i).thr t = CThread.init := fun i t ht => cstAt_thread (N := 4) (by decide) ht i
  refine ⟨exUnseen, 80, by decide, ?_, ?_, ?_, exUnseen_empty, ?_, 83, 84, by decide, by decide, rfl, rfl, ?_⟩
  · have key : (List.range 81).all (fun i => (List.range 4).all (fun t => (List.range 4).all (fun t' => t == t' ||
        ((cstAt exCfg exUnseenRun i).thr t).run.isNone || ((cstAt exCfg exUnseenRun i).thr t').run.isNone))) = true := by decide
    intro i t t' c c' hi h1 h2
    by_cases ht : t < 4
    · by_cases ht' : t' < 4
      · have := (List.all_eq_true.mp ((List.all_eq_true.mp ((List.all_eq_true.mp key) i (List.mem_range.mpr (by omega)))) t (List.mem_range.mpr ht))) t' (List.mem_range.mpr ht')
        have h1' : ((cstAt exCfg exUnseenRun i).thr t).run = some c := h1
        have h2' : ((cstAt exCfg exUnseenRun i).thr t').run = some c' := h2
        rw [h1', h2'] at this
        simpa using this
      · rw [hthr i t' (by omega)] at h2; cases h2
    · rw [hthr i t (by omega)] at h1; cases h1
  · intro i t hi hl
    have key : (List.range 85).all (fun x => match exUnseenRun.getD x .idle with | .abort _ => false | _ => true) = true := by decide
    have := (List.all_eq_true.mp key) i (List.mem_range.mpr hi)
    have hl' : exUnseenRun.getD i .idle = .abort t := hl
    rw [hl'] at this
    cases this
  · intro t
    match t with
    | 0 => rfl
    | 1 => rfl
    | 2 => rfl
    | 3 => rfl
    | t + 4 => rw [hthr 80 (t + 4) (by omega)]; rfl
  · intro h
    have hroot : (exUnseen.st 80).m.root = ⟨some 1, false, false⟩ := by decide
    have hall : ∀ i, (exUnseen.st 80).m.read (.slot 1 i) = some Word.null := by decide
    cases h with
    | null _ hp => rw [hroot] at hp; cases hp
    | data _ _ hd => rw [hroot] at hd; cases hd
    | @inner w a cs q hc hp hd hm hsub hcnt =>
      rw [hroot] at hp
      injection hp with hp
      subst hp
      have hnull : ∀ i, cs i = Word.null := by
        intro i
        have := hall i
        simpa [Mem.read, hm] using this
      rcases hcnt with hcnt | ⟨i, hi⟩
      · simp [hnull, Mem.dataCnt, Word.null] at hcnt
      · rw [hnull] at hi; simp [Word.isInner, Word.null] at hi
  · intro x r hx hev
    have e4 : exUnseen.Ends 4 0 6 := ⟨by decide, ⟨_, rfl, rfl⟩, rfl⟩
    have e7 : exUnseen.Ends 7 0 12 := ⟨by decide, ⟨_, rfl, rfl⟩, rfl⟩
    have e13 : exUnseen.Ends 13 0 16 := ⟨by decide, ⟨_, rfl, rfl⟩, rfl⟩
    have e20 : exUnseen.Ends 20 1 39 := ⟨by decide, ⟨_, rfl, rfl⟩, rfl⟩
    have e40 : exUnseen.Ends 40 2 59 := ⟨by decide, ⟨_, rfl, rfl⟩, rfl⟩
    have e60 : exUnseen.Ends 60 3 79 := ⟨by decide, ⟨_, rfl, rfl⟩, rfl⟩
    have b1 : HB exUnseen.lab exUnseen.len (1, 80) (0, 81) := .sync (t := 0) (t' := 1) (τ := 80) (j := 80) (by decide) rfl
    have b2 : HB exUnseen.lab exUnseen.len (2, 80) (0, 82) := .sync (t := 0) (t' := 2) (τ := 80) (j := 81) (by decide) rfl
    have b3 : HB exUnseen.lab exUnseen.len (3, 80) (0, 83) := .sync (t := 0) (t' := 3) (τ := 80) (j := 82) (by decide) rfl
    obtain ⟨-, t, hl⟩ := exUnseen.ev_inv (i := x) (by have : exUnseen.len = 85 := rfl; omega) hev
    rcases (exUnseen_calls x t r (by omega) hl).1 with rfl | rfl | rfl | rfl | rfl | rfl | rfl
    · exact ⟨0, 0, _, 6, e4, by decide, rfl, .po 0 (by decide)⟩
    · exact ⟨0, 0, _, 12, e7, by decide, rfl, .po 0 (by decide)⟩
    · exact ⟨0, 0, _, 16, e13, by decide, rfl, .po 0 (by decide)⟩
    · exact ⟨1, 0, _, 39, e20, by decide, rfl, .trans (.po 1 (by decide : 40 ≤ 80)) (.trans b1 (.po 0 (by decide)))⟩
    · exact ⟨2, 0, _, 59, e40, by decide, rfl, .trans (.po 2 (by decide : 60 ≤ 80)) (.trans b2 (.po 0 (by decide)))⟩
    · exact ⟨3, 0, _, 79, e60, by decide, rfl, .trans (.po 3 (by decide : 80 ≤ 80)) b3⟩
    · omega

/-! ### With locks -/

/-- **C63** for programs that use locks: whenever no update is in progress (and none was abandoned), the trie is pruned; the root is null exactly if the map is empty, and a call of `is_empty` that
returns then is exact. -/
theorem C63_locked (E : CExec cfg) (hf : E.RaceFree) {n : Nat} (hn : n ≤ E.len) (ha : E.NoneAbandoned n) (hq : E.NoUpdate n) :
    (E.st n).m.AssertPruned ∧ ((E.st n).m.root.ptr = none ↔ ∀ k, E.content n k = none) ∧
    ∀ id b, n < E.len → E.ev n = some (.res id (.bool b)) → (b = true ↔ ∀ k, E.content n k = none) := by
  obtain ⟨E', h1, h2, h3⟩ := E.strong (fun i t weak τ hi hl => hf.upToDate hi hl)
  have hrun : ∀ i t, i ≤ E.len → ((E'.st i).thr t).run = ((E.st i).thr t).run := fun i t hi => by rw [h1 i hi]; rfl
  have hcont : ∀ i, i ≤ E.len → E'.content i = E.content i := fun i hi => by simp only [Exec.content, State.content, CExec.content, h1 i hi]; rfl
  have hmem : (E'.st n).m = (E.st n).m := by rw [h1 n hn]; rfl
  have hal : E'.RemovalsAlone n := by
    refine ⟨?_, ?_⟩
    · intro i hi t t' c c' e1 e2 e3 e4
      rw [hrun i _ (by omega)] at e1 e2
      exact hf.apart (by omega) e1 e2 (.inl (isRemove_upd e3))
    · intro i hi t c e1 e2
      rw [(h2 i (by omega)).1] at e1
      rw [hrun i _ (by omega)] at e2
      refine ha i t c hi ?_ e2
      cases hlab : E.lab i <;> rw [hlab] at e1 <;> simp only [CLabel.strong] at e1 <;> cases e1
      rfl
  have hq' : E'.NoUpdate n := by
    intro t c e
    rw [hrun n t hn] at e
    exact hq t c e
  obtain ⟨g1, g2, g3⟩ := C17_pruned_partial E' hal hq'
  rw [hmem, hcont n hn] at g2
  rw [hmem] at g1
  refine ⟨g1, g2, ?_⟩
  intro id b hlt hr
  have hr' : E'.Returns n id (.bool b) := by rw [Exec.Returns, (h2 n hlt).2, hr]
  obtain ⟨u, weak, τ, c0, f1, f2, f3, f4, f5, -, f7⟩ := E.ret hlt hr
  have hreq : c0.req = .isEmpty := by
    cases e : c0.req with
    | isEmpty => rfl
    | iter =>
      simp only [CExec.OutOK, e] at f7
      obtain ⟨out, f8, -⟩ := f7
      cases f8
    | op o =>
      simp only [CExec.OutOK, e] at f7
      obtain ⟨out, f8, -⟩ := f7
      cases f8
  rw [hreq] at f5
  rw [← hcont n hn]
  refine g3 id b ?_ hr'
  rw [Exec.Invoked, (h2 id (by omega)).2]
  exact E.ev_call (by omega) f5

/-- Non-vacuity of `C63_locked`: the run of C61, when `is_empty` returns. -/
example : (exLock.st 12).m.AssertPruned ∧ ((exLock.st 12).m.root.ptr = none ↔ ∀ k, exLock.content 12 k = none) ∧ (true = true ↔ ∀ k, exLock.content 12 k = none) := by
  have h := C63_locked exLock exLock_raceFree (n := 12) (by decide) ?_ ?_
  · exact ⟨h.1, h.2.1, h.2.2 11 true (by decide) rfl⟩
  · intro i t c hi hl _
    have key : (List.range 12).all (fun x => match exLockRun.getD x .idle with | .abort _ => false | _ => true) = true := by decide
    have := (List.all_eq_true.mp key) i (List.mem_range.mpr hi)
    have hl' : exLockRun.getD i .idle = .abort t := hl
    rw [hl'] at this
    cases this
  · intro t c hc
    match t with
    | 0 => cases hc
    | 1 => injection hc with hc; subst hc; rfl
    | t + 2 =>
      have : (exLock.st 12).thr (t + 2) = CThread.init := cstAt_thread (cfg := exCfg) (ls := exLockRun) (N := 2) (by decide) (by omega) 12
      rw [this] at hc; cases hc

/-! ### With the removals ordered -/

/-- The check on the memory with nothing destroyed and on the memory. -/
theorem CExec.pruned_thaw (E : CExec cfg) {n : Nat} (hn : n ≤ E.len) {w : Word} (h : HandlePtr (E.M n) w) : ∀ {q : List (Fin 16)},
    (E.M n).follow (E.M n).root q = some w.erase → HandlePtr (E.st n).m w := by
  have deref : ∀ {q : List (Fin 16)} {w : Word} {a : Nat} {nd : Node P}, (E.M n).follow (E.M n).root q = some w.erase → w.ptr = some a → (E.M n).deref a = some nd →
      (E.st n).m.deref a = some nd ∧ (E.M n).mem a = some nd := by
    intro q w a nd hf hp hm
    have h1 := E.not_freed hn hf (w := w.erase) (a := a) hp
    have h2 : (E.M n).mem a = some nd := by
      simp only [Mem.deref] at hm
      split at hm
      · cases hm
      · exact hm
    have h3 : (E.st n).m.mem a = some nd := h2
    exact ⟨by simp [Mem.deref, h1, h3], h2⟩
  induction h with
  | null hc hp => intro q hf; exact .null hc hp
  | data hc hp hd hm hl => intro q hf; exact .data hc hp hd (deref hf hp hm).1 hl
  | @inner w a c p hc hp hd hm hsub hcnt ih =>
    intro q hf
    obtain ⟨h1, h2⟩ := deref hf hp hm
    have hf' : ∀ i, (E.M n).follow (E.M n).root (q ++ [i]) = some (c i).erase := by
      intro i
      rw [follow_append, hf]
      have : (E.M n).cellsOf w.erase = some c := by simp [Mem.cellsOf, Word.erase, hp, hd, h2]
      simp only [this, Mem.follow]
    have hcnts : ∀ i, (E.st n).m.dataCnt (c i) = (E.M n).dataCnt (c i) := by
      intro i
      simp only [Mem.dataCnt]
      cases hp' : (c i).ptr with
      | none => rfl
      | some b =>
        have e1 := E.not_freed hn (hf' i) (a := b) hp'
        have e2 : (E.M n).freed b = false := rfl
        have e3 : (E.M n).mem b = (E.st n).m.mem b := rfl
        simp [Mem.deref, e1, e2, e3]
    refine .inner hc hp hd h1 (fun i => ih i (q := q ++ [i]) (hf' i)) ?_
    simpa only [hcnts] using hcnt

/-- **C63**: on weak memory, if any two removals are ordered by synchronisation, and so are any removal and any `get_or_insert` of the same key, and no update is abandoned, then whenever no
update is in progress the trie is pruned, and the root is null exactly if the map is empty. (Insertions, and lookups and iterations, need not be ordered with anything.) -/
theorem C63_ordered (E : CExec cfg) {n : Nat} (hn : n ≤ E.len)
    (hrem : ∀ x y k k', x < n → y < n → x ≠ y → E.ev x = some (.inv x (.op (.remove k))) → E.ev y = some (.inv y (.op (.remove k'))) → E.Precedes x y ∨ E.Precedes y x)
    (hgoi : ∀ x y k f, x < n → y < n → E.ev x = some (.inv x (.op (.getOrInsert k f))) → E.ev y = some (.inv y (.op (.remove k))) → E.Precedes x y ∨ E.Precedes y x)
    (ha : E.NoneAbandoned n) (hq : E.NoUpdate n) : (E.st n).m.AssertPruned ∧ ((E.st n).m.root.ptr = none ↔ ∀ k, E.content n k = none) := by
  have hs := CExec.Ordered.quiet (E := E) (n := n) ⟨hrem, hgoi, ha⟩ hn hq
  have hi := (E.cinv hn).hist.inv n (Nat.le_refl n)
  obtain ⟨h1, T, h2, h3⟩ := tidy hs hi 16 .root [] _ (by simp) ⟨rfl, rfl⟩ trivial
  refine ⟨E.pruned_thaw hn h1 (q := []) rfl, ?_⟩
  have hroot : (E.M n).root = (E.st n).m.root := rfl
  have hcon : ∀ k, E.content n k = (E.M n).abs cfg k := fun k => by rw [← E.A_content, (E.cinv hn).hist.abs n (Nat.le_refl n)]
  simp only [hcon]
  rw [hroot] at h2
  constructor
  · intro hp
    cases h2 with
    | null => exact fun k => h3 k ⟨by simp, by intro d h; simp at h⟩
    | leaf hp' => rw [hp] at hp'; cases hp'
    | node hp' => rw [hp] at hp'; cases hp'
  · intro he
    cases h2 with
    | null hp => exact hp
    | leaf =>
      obtain ⟨g1, -, -, g4⟩ := h3
      obtain ⟨p, hp⟩ := List.exists_mem_of_ne_nil _ g1
      have := ((g4 p).mp hp).2
      rw [he] at this; cases this
    | node =>
      obtain ⟨-, ⟨k, k', -, -, -, e4, -⟩, -⟩ := h3
      exact absurd (he k) e4

/-- `is_empty` tells whether the root was null when it looked. -/
theorem CExec.isEmpty_root (E : CExec cfg) {id j : Nat} {b : Bool} (hj : j < E.len) (hr : E.ev j = some (.res id (.bool b))) :
    ∃ t τ w, E.lab id = .call t .isEmpty ∧ id < j ∧ E.V t id .root ≤ τ ∧ τ ≤ j ∧ (E.M τ).read .root = some w ∧ b = w.ptr.isNone := by
  obtain ⟨t, weak, τ, c, f1, f2, f3, f4, f5, -, f7⟩ := E.ret hj hr
  have hI := E.cinv (Nat.le_of_lt hj)
  have ci := (hI.sess t).run c f2
  have hreq : c.req = .isEmpty := by
    cases e : c.req with
    | isEmpty => rfl
    | iter =>
      simp only [CExec.OutOK, e] at f7
      obtain ⟨out, f8, -⟩ := f7
      cases f8
    | op o =>
      simp only [CExec.OutOK, e] at f7
      obtain ⟨out, f8, -⟩ := f7
      cases f8
  have hpc : c.pc = .isEmpty := by
    have hiter : ∀ lv out, c.pc ≠ .iterNext lv out := by
      intro lv out e
      have := ci.pc
      simp only [CExec.PCOK, e] at this
      rw [hreq] at this; cases this.1
    have hi := CExec.PCOK.inv (E := E) ci.pc (fun lv out e => absurd e (hiter lv out))
    unfold PCInv at hi
    cases hp : c.pc with
    | isEmpty => rfl
    | get => simp only [hp] at hi; rw [hi.1] at hreq; cases hreq
    | iterNew => simp only [hp] at hi; rw [hi.1] at hreq; cases hreq
    | iterNext lv out => exact absurd hp (hiter lv out)
    | trav => simp only [hp] at hi; obtain ⟨d, -, ht⟩ := hi; have := ht.req.upd; simp only [hreq] at this; cases this
    | travCas => simp only [hp] at hi; obtain ⟨d, -, ht, -⟩ := hi; have := ht.req.upd; simp only [hreq] at this; cases this
    | rem => simp only [hp] at hi; rw [hi.1] at hreq; cases hreq
    | remCas => simp only [hp] at hi; rw [hi.1] at hreq; cases hreq
    | count => simp only [hp] at hi; obtain ⟨⟨k, e⟩, -⟩ := hi; rw [e] at hreq; cases hreq
    | prune parent child i acc k =>
      simp only [hp] at hi
      have := hi.1
      cases k with
      | trav => have := this.1.upd; simp only [hreq] at this; cases this
      | rem => rw [this.1] at hreq; cases hreq
      | clean => obtain ⟨⟨⟨k, e⟩, -⟩, -⟩ := this; rw [e] at hreq; cases hreq
    | pruneCas parent child acc k =>
      simp only [hp] at hi
      have := hi.1
      cases k with
      | trav => have := this.1.upd; simp only [hreq] at this; cases this
      | rem => rw [this.1] at hreq; cases hreq
      | clean => obtain ⟨⟨⟨k, e⟩, -⟩, -⟩ := this; rw [e] at hreq; cases hreq
  rw [hreq] at f5
  have ha : c.pc.access .code = some (.root, .relaxed) := by rw [hpc]; rfl
  obtain ⟨g1, g2⟩ := E.looks hj (E.base (Nat.le_of_lt hj)) f1 f2 ha
  have hv := E.V_mono t (i := id) (j := j) (by omega) (Nat.le_of_lt hj) .root
  have hs := E.step j hj
  rw [f1] at hs
  simp only [cstep, f2, Option.some.injEq, Prod.mk.injEq] at hs
  have hev := hs.2
  rw [hr] at hev
  have d := hI.did E hj f1 f2
  cases d with
  | store ℓ o p w σ ha' hτ hw =>
    exfalso
    rw [hpc] at hw
    simp [PC.writes, PC.access, PC.stores, Mem.read] at hw
  | silent ha' => rw [ha] at ha'; cases ha'
  | load ℓ o p w mw σ ha' hτ hw hnx hm hW hs' hloc hl hmw hrd =>
    rw [ha] at ha'
    cases ha'
    refine ⟨t, τ, w, f5, by omega, by omega, hτ, hrd, ?_⟩
    have hnx' : (tick cfg ((E.st j).seen c.pc τ) weak c.pc).2 = .ret (.bool w.ptr.isNone) [] := by
      rw [hnx, hpc]
      have : mw.root = w := by simpa [Mem.read] using hs'.read
      simp [tick, this]
    rw [hnx'] at hev
    simp only [Next.event, Option.some.injEq, Event.res.injEq, Res.bool.injEq] at hev
    exact hev.2.symm

/-- Whoever knows of all updates sees the present contents of the cells. -/
theorem CExec.fresh_updates (E : CExec cfg) {y n : Nat} (hn : n ≤ E.len) {t : Nat} {ry : Req K P} (hy : E.lab y = .call t ry)
    (hk : ∀ x o, x < n → E.ev x = some (.inv x (.op o)) → (Req.op o).isUpdate = true → E.Precedes x y) {ℓ : Loc} {τ : Nat} (hv : E.V t y ℓ ≤ τ) (hτ : τ ≤ n) {w : Word}
    (h : (E.M τ).read ℓ = some w) : (E.M n).read ℓ = some w := by
  have key : ∀ i, τ ≤ i → i ≤ n → (E.M i).read ℓ = some w := by
    intro i hi
    induction i, hi using Nat.le_induction with
    | base => intro _; exact h
    | succ i hi ih =>
      intro hin
      have hr := ih (by omega)
      rcases E.cell_kept (i := i) (by omega) hr with h' | ⟨t', weak, τ', c, h1, h2, h3⟩
      · exact h'
      · have ci := ((E.cinv (n := i) (by omega)).sess t').run c h2
        have hlt := ci.lt
        have hlab := ci.lab
        by_cases hu : c.req.isUpdate = true
        · exfalso
          obtain ⟨o, ho⟩ : ∃ o, c.req = .op o := by
            cases e : c.req with
            | op o => exact ⟨o, rfl⟩
            | isEmpty => rw [e] at hu; cases hu
            | iter => rw [e] at hu; cases hu
          rw [ho] at hlab hu
          obtain ⟨u, u', r, j, g1, g2, g3, g4⟩ := hk c.inv o (by omega) (E.ev_call (by omega) hlab) hu
          obtain ⟨rfl, -⟩ := g1.session hlab
          rw [hy] at g3; injection g3 with g3 _; subst g3
          obtain ⟨b1, b2⟩ := E.hb g4 (by simp only; omega)
          simp only at b1 b2
          have hij : i ≤ j := by
            apply Classical.byContradiction
            intro hlt'
            exact absurd rfl (g1.over (i := i) (by omega) (by omega) h2)
          have := b2 ℓ
          have := E.V_mono t' (i := i + 1) (j := j + 1) (by omega) g1.1 ℓ
          omega
        · have d := (E.cinv (n := i) (by omega)).did E (by omega) h1 h2
          have hm : E.M (i + 1) = (E.M i).bump := by
            cases d with
            | load ℓ' o p w' mw σ ha hτ hw hnx hm => exact hm
            | silent ha hnx hm => exact hm
            | store ℓ o p w σ ha hτ hw hnx hm =>
              exfalso
              have hp : PCInv cfg E.A (E.M i) { c with inv := 0 } := by
                refine CExec.PCOK.inv (E := E) ci.pc ?_
                intro lv out e
                rw [e] at hw
                simp only [PC.writes] at hw
                split at hw
                · cases hw
                · split at hw <;> cases hw
              exact hu (writes_update (c := { c with inv := 0 }) hp hw)
          rw [hm, read_bump]; exact hr
  exact key n hτ (Nat.le_refl n)

/-- **C63**, `is_empty`: if moreover all updates (invoked before it returns) precede the call of `is_empty`, then it is exact. -/
theorem C63_is_empty_ordered (E : CExec cfg) {id n : Nat} {b : Bool} (hn : n < E.len)
    (hrem : ∀ x y k k', x < n → y < n → x ≠ y → E.ev x = some (.inv x (.op (.remove k))) → E.ev y = some (.inv y (.op (.remove k'))) → E.Precedes x y ∨ E.Precedes y x)
    (hgoi : ∀ x y k f, x < n → y < n → E.ev x = some (.inv x (.op (.getOrInsert k f))) → E.ev y = some (.inv y (.op (.remove k))) → E.Precedes x y ∨ E.Precedes y x)
    (ha : E.NoneAbandoned n) (hb : ∀ x o, x < n → E.ev x = some (.inv x (.op o)) → (Req.op o).isUpdate = true → E.Precedes x id)
    (hr : E.ev n = some (.res id (.bool b))) : b = true ↔ ∀ k, E.content n k = none := by
  obtain ⟨t, τ, w, h1, h2, h3, h4, h5, rfl⟩ := E.isEmpty_root hn hr
  have hq : E.NoUpdate n := by
    intro u c hc
    cases hu : c.req.isUpdate with
    | false => rfl
    | true =>
      exfalso
      obtain ⟨a1, a2, a3⟩ := CExec.run_ev (Nat.le_of_lt hn) hc
      cases e : c.req with
      | isEmpty => rw [e] at hu; cases hu
      | iter => rw [e] at hu; cases hu
      | op o =>
        rw [e] at hu a3
        obtain ⟨s, j, g1, g2⟩ := (hb c.inv o a1 a3 hu).time
        exact absurd rfl (g1.over (Nat.le_of_lt hn) (by omega) hc)
  rw [← (C63_ordered E (Nat.le_of_lt hn) hrem hgoi ha hq).2]
  have := E.fresh_updates (Nat.le_of_lt hn) h1 hb h3 h4 h5
  simp only [Mem.read, Option.some.injEq] at this
  have e : (E.M n).root = (E.st n).m.root := rfl
  rw [← e, this]
  cases w.ptr <;> simp

/-- Session 0 inserts the keys 0 and 1; meanwhile, and without synchronisation, session 1 inserts key 2 into the same node (its first look at the root is stale). Then session 0 tells session 2 to remove
key 0. When session 2 counts what is left in the node it does not see key 2 yet (step 25): it tries to prune the node. Session 0 hears of that and removes key 1; it joins session 1,
removes key 2, and asks whether the map is empty. -/
def exOrderedRun : List (CLabel Nat (Nat × Nat)) := stamp 0 (
  [.pin 0, .pin 1, .pin 2, .call 0 (.op (.insert (0, 1)))] ++ nows 0 2 ++ [.call 1 (.op (.insert (2, 3))), .tick 1 false 4, .call 0 (.op (.insert (1, 2)))] ++ nows 0 5 ++ nows 1 4 ++
  [.sync 2 0 18, .call 2 (.op (.remove 0))] ++ nows 2 5 ++ [.tick 2 false 16] ++ nows 2 30 ++ [.sync 0 2 56, .call 0 (.op (.remove 1))] ++ nows 0 36 ++
  [.sync 0 1 94, .call 0 (.op (.remove 2))] ++ nows 0 2 ++ [.call 0 .isEmpty] ++ nows 0 1)

set_option maxRecDepth 20000 in
def exOrdered : CExec exCfg :=
  .ofRun exCfg exOrderedRun (by decide) (fun i a hi e => absurd e (no_free (cfg := exCfg) (by decide) hi))

set_option maxRecDepth 20000 in
theorem exOrdered_calls : ∀ x r, x < 100 → exOrdered.ev x = some (.inv x r) → x = 3 ∨ x = 6 ∨ x = 8 ∨ (x = 19 ∧ r = .op (.remove 0)) ∨ (x = 57 ∧ r = .op (.remove 1)) ∨
    (x = 95 ∧ r = .op (.remove 2)) ∨ (x = 98 ∧ r = .isEmpty) := by
  intro x r hx hev
  obtain ⟨-, t, hl⟩ := exOrdered.ev_inv (i := x) (by have : exOrdered.len = 100 := rfl; omega) hev
  have key : (List.range 100).all (fun x => match exOrderedRun.getD x .idle with
      | .call _ r => decide (x = 3 ∨ x = 6 ∨ x = 8) || (match r with | .op (.remove k) => decide ((x = 19 ∧ k = 0) ∨ (x = 57 ∧ k = 1) ∨ (x = 95 ∧ k = 2)) | .isEmpty => decide (x = 98) | _ => false)
      | _ => true) = true := by decide
  have := (List.all_eq_true.mp key) x (List.mem_range.mpr hx)
  have hl' : exOrderedRun.getD x .idle = .call t r := hl
  rw [hl'] at this
  simp only [Bool.or_eq_true, decide_eq_true_eq] at this
  rcases this with h | h
  · rcases h with h | h | h <;> simp [h]
  · cases r with
    | isEmpty => have : x = 98 := by simpa using h
                 simp [this]
    | iter => cases h
    | op o =>
      cases o with
      | remove k =>
        have : (x = 19 ∧ k = 0) ∨ (x = 57 ∧ k = 1) ∨ (x = 95 ∧ k = 2) := by simpa using h
        rcases this with ⟨rfl, rfl⟩ | ⟨rfl, rfl⟩ | ⟨rfl, rfl⟩ <;> simp
      | get => cases h
      | insert => cases h
      | getOrInsert => cases h

theorem CExec.ends_of (E : CExec cfg) {x t j : Nat} (h1 : j < E.len) (h2 : ((E.st j).thr t).run.map (·.inv) = some x) (h3 : ((E.st (j + 1)).thr t).run.isNone = true) : E.Ends x t j := by
  refine ⟨h1, ?_, by simpa using h3⟩
  cases h : ((E.st j).thr t).run with
  | none => rw [h] at h2; cases h2
  | some c => rw [h] at h2; exact ⟨c, rfl, by simpa using h2⟩

set_option maxRecDepth 20000 in
theorem exOrdered_e3 : exOrdered.Ends 3 0 5 := exOrdered.ends_of (by decide) (by decide) (by decide)
set_option maxRecDepth 20000 in
theorem exOrdered_e8 : exOrdered.Ends 8 0 13 := exOrdered.ends_of (by decide) (by decide) (by decide)
set_option maxRecDepth 20000 in
theorem exOrdered_e6 : exOrdered.Ends 6 1 17 := exOrdered.ends_of (by decide) (by decide) (by decide)
set_option maxRecDepth 20000 in
theorem exOrdered_e19 : exOrdered.Ends 19 2 55 := exOrdered.ends_of (by decide) (by decide) (by decide)
set_option maxRecDepth 20000 in
theorem exOrdered_e57 : exOrdered.Ends 57 0 93 := exOrdered.ends_of (by decide) (by decide) (by decide)
set_option maxRecDepth 20000 in
theorem exOrdered_e95 : exOrdered.Ends 95 0 97 := exOrdered.ends_of (by decide) (by decide) (by decide)

set_option maxRecDepth 20000 in
theorem exOrdered_quiet : exOrdered.NoUpdate 99 := by
  intro t c hc
  match t with
  | 0 => injection hc with hc; subst hc; rfl
  | 1 => cases hc
  | 2 => cases hc
  | t + 3 =>
    have : (exOrdered.st 99).thr (t + 3) = CThread.init := cstAt_thread (cfg := exCfg) (ls := exOrderedRun) (N := 3) (by decide) (by omega) 99
    rw [this] at hc; cases hc

set_option maxRecDepth 20000 in
theorem exOrdered_res : exOrdered.ev 99 = some (.res 98 (.bool true)) := rfl

set_option maxRecDepth 20000 in
/-- Non-vacuity of `C63_ordered` and `C63_is_empty_ordered`: the insertion of key 2 (6) and the removal of key 0 (19) are not ordered; `is_empty` says `true`. -/
example : ((exOrdered.st 99).m.AssertPruned ∧ ((exOrdered.st 99).m.root.ptr = none ↔ ∀ k, exOrdered.content 99 k = none)) ∧ (true = true ↔ ∀ k, exOrdered.content 99 k = none) := by
  have e3 := exOrdered_e3
  have e8 := exOrdered_e8
  have e6 := exOrdered_e6
  have e19 := exOrdered_e19
  have e57 := exOrdered_e57
  have e95 := exOrdered_e95
  have b1 : HB exOrdered.lab exOrdered.len (2, 56) (0, 57) := .sync (t := 0) (t' := 2) (τ := 56) (j := 56) (by decide) rfl
  have b2 : HB exOrdered.lab exOrdered.len (1, 94) (0, 95) := .sync (t := 0) (t' := 1) (τ := 94) (j := 94) (by decide) rfl
  have p19 : ∀ y, 57 ≤ y → (∃ r, exOrdered.lab y = .call 0 r) → y < 100 → exOrdered.Precedes 19 y := by
    rintro y h ⟨r, hr⟩ hy
    exact ⟨2, 0, r, 55, e19, hy, hr, .trans b1 (.po 0 h)⟩
  have p57 : ∀ y, 94 ≤ y → (∃ r, exOrdered.lab y = .call 0 r) → y < 100 → exOrdered.Precedes 57 y := by
    rintro y h ⟨r, hr⟩ hy
    exact ⟨0, 0, r, 93, e57, hy, hr, .po 0 h⟩
  have hrem : ∀ x y k k', x < 99 → y < 99 → x ≠ y → exOrdered.ev x = some (.inv x (.op (.remove k))) → exOrdered.ev y = some (.inv y (.op (.remove k'))) →
      exOrdered.Precedes x y ∨ exOrdered.Precedes y x := by
    intro x y k k' hx hy hne h1 h2
    have a1 : x = 19 ∨ x = 57 ∨ x = 95 := by
      rcases exOrdered_calls x _ (by omega) h1 with rfl | rfl | rfl | ⟨rfl, -⟩ | ⟨rfl, -⟩ | ⟨rfl, -⟩ | ⟨rfl, h⟩ <;> first | (simp; done) | cases h | cases h1
    have a2 : y = 19 ∨ y = 57 ∨ y = 95 := by
      rcases exOrdered_calls y _ (by omega) h2 with rfl | rfl | rfl | ⟨rfl, -⟩ | ⟨rfl, -⟩ | ⟨rfl, -⟩ | ⟨rfl, h⟩ <;> first | (simp; done) | cases h | cases h2
    rcases a1 with rfl | rfl | rfl <;> rcases a2 with rfl | rfl | rfl
    · exact absurd rfl hne
    · exact .inl (p19 57 (by decide) ⟨_, rfl⟩ (by decide))
    · exact .inl (p19 95 (by decide) ⟨_, rfl⟩ (by decide))
    · exact .inr (p19 57 (by decide) ⟨_, rfl⟩ (by decide))
    · exact absurd rfl hne
    · exact .inl (p57 95 (by decide) ⟨_, rfl⟩ (by decide))
    · exact .inr (p19 95 (by decide) ⟨_, rfl⟩ (by decide))
    · exact .inr (p57 95 (by decide) ⟨_, rfl⟩ (by decide))
    · exact absurd rfl hne
  have hgoi : ∀ x y k f, x < 99 → y < 99 → exOrdered.ev x = some (.inv x (.op (.getOrInsert k f))) → exOrdered.ev y = some (.inv y (.op (.remove k))) →
      exOrdered.Precedes x y ∨ exOrdered.Precedes y x := by
    intro x y k f hx hy h1 h2
    rcases exOrdered_calls x _ (by omega) h1 with rfl | rfl | rfl | ⟨rfl, h⟩ | ⟨rfl, h⟩ | ⟨rfl, h⟩ | ⟨rfl, h⟩ <;> first | cases h | cases h1
  have ha : exOrdered.NoneAbandoned 99 := by
    intro i t c hi hl _
    have key : (List.range 99).all (fun x => match exOrderedRun.getD x .idle with | .abort _ => false | _ => true) = true := by decide
    have := (List.all_eq_true.mp key) i (List.mem_range.mpr hi)
    have hl' : exOrderedRun.getD i .idle = .abort t := hl
    rw [hl'] at this
    cases this
  have hb : ∀ x o, x < 99 → exOrdered.ev x = some (.inv x (.op o)) → (Req.op o).isUpdate = true → exOrdered.Precedes x 98 := by
    intro x o hx h1 _
    rcases exOrdered_calls x _ (by omega) h1 with rfl | rfl | rfl | ⟨rfl, h⟩ | ⟨rfl, h⟩ | ⟨rfl, h⟩ | ⟨rfl, h⟩
    · exact ⟨0, 0, _, 5, e3, by decide, rfl, .po 0 (by decide)⟩
    · exact ⟨1, 0, _, 17, e6, by decide, rfl, .trans (.po 1 (by decide : 18 ≤ 94)) (.trans b2 (.po 0 (by decide)))⟩
    · exact ⟨0, 0, _, 13, e8, by decide, rfl, .po 0 (by decide)⟩
    · exact p19 98 (by decide) ⟨_, rfl⟩ (by decide)
    · exact p57 98 (by decide) ⟨_, rfl⟩ (by decide)
    · exact ⟨0, 0, _, 97, e95, by decide, rfl, .po 0 (by decide)⟩
    · cases h
  exact ⟨C63_ordered exOrdered (n := 99) (by decide) hrem hgoi ha exOrdered_quiet, C63_is_empty_ordered exOrdered (id := 98) (n := 99) (b := true) (by decide) hrem hgoi ha hb exOrdered_res⟩

end Contrie
