import Verif.Props.Pruned
import Verif.Props.Footprint
import Verif.Props.Heal
/-
C16, C17, C18, C33, C48 without assumptions about all of the past: what the check `assert_pruned` says about any state, however it came about; and
once the trie is pruned, it stays so as long as removals do not overlap.
-/
set_option linter.unusedSectionVars false
open scoped List
namespace Contrie
variable {K P : Type} [DecidableEq K] {cfg : Config K P}

theorem HandlePtr.cond {m : Mem P} {w : Word} (h : HandlePtr m w) : w.cond = false := by
  cases h <;> assumption

theorem HandlePtr.follow {m : Mem P} {q : List (Fin 16)} : ∀ {w w' : Word}, HandlePtr m w → m.follow w q = some w' → HandlePtr m w' := by
  induction q with
  | nil =>
    intro w w' h hw
    have : w.erase = w := by
      have := h.cond
      cases w; simp_all [Word.erase]
    simp only [Mem.follow, this, Option.some.injEq] at hw
    rw [← hw]; exact h
  | cons i q ih =>
    intro w w' h hw
    simp only [Mem.follow] at hw
    cases h with
    | null hc hp => simp [Mem.cellsOf, hp] at hw
    | data hc hp hd => simp [Mem.cellsOf, hp, hd] at hw
    | inner hc hp hd hm hsub =>
      simp only [Mem.cellsOf, hp, hd, deref_mem hm] at hw
      exact ih (hsub i) hw

theorem HandlePtr.two {A : Nat → AMap K P} {m : Mem P} (hi : MemInv cfg A m) {w : Word} (h : HandlePtr m w) : ∀ {a : Nat} {c : Fin 16 → Word} {p : List (Fin 16)},
    w.ptr = some a → m.mem a = some (.inner c p) → m.retired a = none → Two cfg (m.abs cfg) p := by
  induction h with
  | null hc hp => intro a c p h; rw [hp] at h; cases h
  | data hc hp hd hm' => intro a c p h hm; rw [hp] at h; cases h; rw [deref_mem hm'] at hm; cases hm
  | @inner w a c p hc hp hd hm hsub hcnt ih =>
    intro a' c' p' h1 h2 hr
    rw [hp] at h1; cases h1
    rw [deref_mem hm] at h2; cases h2
    have hat' : ∀ i, m.At (.slot a i) (p ++ [i]) (c i) := fun i => ⟨c, p, deref_mem hm, rfl, rfl⟩
    have hleaf : ∀ i, 0 < m.dataCnt (c i) → ∃ b l, (c i).ptr = some b ∧ (c i).data = true ∧ m.mem b = some (.data l) ∧ l.length = m.dataCnt (c i) := by
      intro i hi
      simp only [Mem.dataCnt] at hi ⊢
      cases hp' : (c i).ptr with
      | none => simp [hp'] at hi
      | some b =>
        cases hd' : (c i).data with
        | false => simp [hp', hd'] at hi
        | true =>
          cases hm' : m.deref b with
          | none => simp [hp', hd', hm'] at hi
          | some n =>
            cases n with
            | inner c2 p2 => simp [hp', hd', hm'] at hi
            | data l => exact ⟨b, l, rfl, rfl, deref_mem hm', by simp [hm']⟩
    rcases hcnt with hcnt | ⟨i, hin⟩
    · rcases sum_ge_two (List.nodup_finRange 16) hcnt with ⟨i, h2⟩ | ⟨i, j, hij, h2, h3⟩
      · obtain ⟨b, l, e1, e2, e3, e4⟩ := hleaf i (by omega)
        obtain ⟨l', f1, f2⟩ := (hi.at_ok (hat' i)).of_data e1 e2
        rw [e3] at f1; cases f1
        match l, e4 with
        | [], e4 => simp only [List.length_nil] at e4; omega
        | [_], e4 => simp only [List.length_cons, List.length_nil] at e4; omega
        | x :: y :: l, e4 =>
          have hx := hi.item_under (hat' i) hr e1 e2 e3 (x := x) (by simp)
          have hy := hi.item_under (hat' i) hr e1 e2 e3 (x := y) (by simp)
          refine ⟨cfg.key x, cfg.key y, ?_, ⟨(List.prefix_append _ _).trans hx.1, hx.2⟩, ⟨(List.prefix_append _ _).trans hy.1, hy.2⟩⟩
          have := f2.nodup
          simp only [List.map_cons, List.nodup_cons, List.mem_cons, not_or] at this
          exact this.1.1
      · obtain ⟨b, l, e1, e2, e3, e4⟩ := hleaf i h2
        obtain ⟨b', l', e1', e2', e3', e4'⟩ := hleaf j h3
        obtain ⟨x, hx⟩ := List.exists_mem_of_length_pos (l := l) (by omega)
        obtain ⟨y, hy⟩ := List.exists_mem_of_length_pos (l := l') (by omega)
        have hx := hi.item_under (hat' i) hr e1 e2 e3 hx
        have hy := hi.item_under (hat' j) hr e1' e2' e3' hy
        exact ⟨cfg.key x, cfg.key y, under_ne hx hy hij, ⟨(List.prefix_append _ _).trans hx.1, hx.2⟩, ⟨(List.prefix_append _ _).trans hy.1, hy.2⟩⟩
    · cases hp' : (c i).ptr with
      | none => exact absurd hp' hin.1
      | some b =>
        obtain ⟨c2, h1⟩ := (hi.at_ok (hat' i)).of_inner hp' hin.2
        exact (ih i hp' h1 (hi.live _ _ b (hi.live_follow (hat' i) hr) hp')).up (List.prefix_append _ _)

/-- A state that passes the check is tidy. -/
theorem SInv.of_pruned {A : Nat → AMap K P} {m : Mem P} (hi : MemInv cfg A m) (h : m.AssertPruned) : SInv cfg m noEx noCd := by
  have key : ∀ a c p, m.mem a = some (.inner c p) → m.retired a = none → HandlePtr m ⟨some a, false, false⟩ :=
    fun a c p hm hr => HandlePtr.follow h (hi.inner_at hm hr)
  refine ⟨fun a c p hm hr => .inl ((key a c p hm hr).two hi rfl hm hr), ?_⟩
  intro a c p i hm hr hc
  have := key a c p hm hr
  cases this with
  | null _ hp => cases hp
  | data _ _ hd => cases hd
  | inner _ hp _ hm' hsub =>
    cases hp
    rw [deref_mem hm'] at hm; cases hm
    rw [(hsub i).cond] at hc; cases hc

/-- **C33**, in any state of any execution: what `assert_pruned` accepts has the canonical shape - the shape is determined by the keys in the map. (`assert_pruned` looks at
local conditions only; and it does not matter whether calls are in progress, or what happened before.) -/
theorem C33_pruned_is_canonical (E : Exec cfg) {n : Nat} (h : (E.st n).m.AssertPruned) :
    Uncondemned (E.st n).m (E.st n).m.root ∧ ∃ T, HasShape (E.st n).m (E.st n).m.root T ∧ Canonical cfg (E.content n) [] T :=
  ⟨((C18_assert_pruned_iff _).mp h).1, (tidy (SInv.of_pruned (E.inv n).mem h) (E.inv n).mem 16 .root [] _ (by simp) ⟨rfl, rfl⟩ trivial).2⟩

/-- **C33**, history independence, in any states that `assert_pruned` accepts. -/
theorem C33_pruned_same (E E' : Exec cfg) {n n' : Nat} (h : (E.st n).m.AssertPruned) (h' : (E'.st n').m.AssertPruned)
    (hkeys : ∀ k, E.content n k = none ↔ E'.content n' k = none) {T T' : Shape P} (hT : HasShape (E.st n).m (E.st n).m.root T)
    (hT' : HasShape (E'.st n').m (E'.st n').m.root T') : Shape.Same cfg.key T T' := by
  obtain ⟨-, T1, h1, h2⟩ := C33_pruned_is_canonical E h
  obtain ⟨-, T1', h1', h2'⟩ := C33_pruned_is_canonical E' h'
  rw [hT.unique h1, hT'.unique h1']
  exact Canonical.same (fun k p h => (E.content_offered h).1) (fun k p h => (E'.content_offered h).1) hkeys h2 h2'

/-- **C18.** Once the trie is pruned (`assert_pruned` accepts it while no update is in progress) it stays so, whenever no update is in progress, as long as removals
do not overlap with each other and none is abandoned. What happened before does not matter. -/
theorem C18_stays_pruned (E : Exec cfg) {s n : Nat} (hsn : s ≤ n) (hp : (E.st s).m.AssertPruned) (hs : E.NoUpdate s) (ha : E.RemovalsAloneSince s n)
    (hq : E.NoUpdate n) : (E.st n).m.AssertPruned :=
  (tidy (E.quiet_since hsn (SInv.of_pruned (E.inv s).mem hp) hs ha hq) (E.inv n).mem 16 .root [] _ (by simp) ⟨rfl, rfl⟩ trivial).1

/-- **C16**, in any state that `assert_pruned` accepts: `is_empty` is exact. -/
theorem C16_exact_if_pruned (E : Exec cfg) {id j : Nat} {r : Res P} (hi : E.Invoked id .isEmpty) (hr : E.Returns j id r) (h : (E.st j).m.AssertPruned) :
    ∃ b, r = .bool b ∧ (b = true ↔ ∀ k, E.content j k = none) := by
  obtain ⟨b, h1, h2⟩ := E.isEmpty_root hi hr
  obtain ⟨-, T, h3, h4⟩ := C33_pruned_is_canonical E h
  exact ⟨b, h1, h2.trans (E.root_null_canonical h3 h4)⟩

/-- **C48**, in any state that `assert_pruned` accepts. -/
theorem C48_footprint_if_pruned (E : Exec cfg) {n : Nat} (h : (E.st n).m.AssertPruned) (ks : List K)
    (hks : ∀ k, E.content n k ≠ none → k ∈ ks) : ∃ inn dat : List Nat, inn.length ≤ 8 * ks.length ∧ dat.length ≤ ks.length ∧
      ∀ a, Linked (E.st n).m a → (∃ c q, (E.st n).m.mem a = some (.inner c q) ∧ a ∈ inn) ∨
        (∃ l, (E.st n).m.mem a = some (.data l) ∧ a ∈ dat) := by
  obtain ⟨-, T, h3, h4⟩ := C33_pruned_is_canonical E h
  exact E.footprint_canonical h3 h4 ks hks

/-- **C17**, the part that is true of the code: whatever happened before, if the trie is pruned at some instant `s` at which no update is in progress (in particular if
the root is null then, or if `s` is the beginning), and from then on no two removals overlap and none is abandoned, then the trie is pruned and `is_empty` is exact
whenever no update is in progress. Missing: executions with overlapping removals after `s`, see `C17_refuted` and `C17_two_removals_refuted`. -/
theorem C17_pruned_since_partial (E : Exec cfg) {s n : Nat} (hsn : s ≤ n) (hp : (E.st s).m.AssertPruned) (hs : E.NoUpdate s) (ha : E.RemovalsAloneSince s n)
    (hq : E.NoUpdate n) : (E.st n).m.AssertPruned ∧ ((E.st n).m.root.ptr = none ↔ ∀ k, E.content n k = none) ∧
    ∀ id b, E.Invoked id .isEmpty → E.Returns n id (.bool b) → (b = true ↔ ∀ k, E.content n k = none) := by
  have h := C18_stays_pruned E hsn hp hs ha hq
  obtain ⟨-, T, h3, h4⟩ := C33_pruned_is_canonical E h
  refine ⟨h, E.root_null_canonical h3 h4, ?_⟩
  intro id b h1 h2
  obtain ⟨b', e1, e2⟩ := C16_exact_if_pruned E h1 h2 h
  cases e1
  exact e2

/-- An empty root is pruned. -/
theorem C17_null_is_pruned (E : Exec cfg) {n : Nat} (h : (E.st n).m.root.ptr = none) : (E.st n).m.AssertPruned :=
  .null (E.inv n).mem.rootClean h

/-! ### Non-vacuity -/

theorem Exec.removals_since_of_list (E : Exec cfg) (u s : Nat) {ls : List (Label K P)} (hl : ∀ i, E.lab i = ls.getD i .idle) (hq : E.Quiescent s)
    (h : singleRemover u (ls.drop s) = true) (n : Nat) : E.RemovalsAloneSince s n := by
  have hmem : ∀ i, s ≤ i → E.lab i = .idle ∨ E.lab i ∈ ls.drop s := by
    intro i hs
    rw [hl]
    by_cases hi : i < ls.length
    · right
      simp only [List.getD, List.getElem?_eq_getElem hi, Option.getD_some]
      rw [List.mem_drop_iff_getElem]
      exact ⟨i - s, by omega, by congr 1; omega⟩
    · left; simp [List.getD, List.getElem?_eq_none (Nat.le_of_not_lt hi)]
  simp only [singleRemover, List.all_eq_true] at h
  have hcall : ∀ i t c, s ≤ i → ((E.st i).thr t).run = some c → c.req.isRemove = true → t = u := by
    intro i t c hs hc hu
    obtain ⟨g1, -, g3⟩ := E.run_inv i hc
    by_cases hlt : c.inv < s
    · obtain ⟨c', e, -⟩ := E.running_since hc hlt hs
      rw [Exec.Running, hq t] at e; cases e
    · rcases hmem c.inv (by omega) with e | e
      · rw [g3] at e; cases e
      · have := h _ e
        rw [g3] at this
        simpa [hu] using this
  constructor
  · intro i hs hi t t' c c' hc hc' hu hu'
    rw [hcall i _ _ hs hc hu, hcall i _ _ hs hc' hu']
  · intro i hs _ t c ha
    rcases hmem i hs with e | e
    · rw [ha] at e; cases e
    · have := h _ e
      rw [ha] at this
      simp at this

/-- The run of `exLeftover`, with overlapping removals that leave a condemned node behind; session 0 inserts under key 0, session 1 removes it again, and the root is null.
Then session 0 inserts two keys and removes one of them. -/
def exSince : List (Label Nat (Nat × Nat)) :=
  exHeal ++ [.call 1 (.op (.remove 0))] ++ ticks 1 36 ++ [.call 0 (.op (.insert (7, 1)))] ++ ticks 0 2 ++ [.call 0 (.op (.insert (23, 2)))] ++ ticks 0 8 ++
  [.call 0 (.op (.remove 7))] ++ ticks 0 70

set_option maxRecDepth 100000 in
/-- Non-vacuity of `C17_pruned_since_partial` and what follows from it: removals overlap in the beginning, the trie is not pruned at instant 199, but it is at 262, and stays so. -/
example : ∃ E : Exec exCfg, E.Quiescent 199 ∧ ¬ (E.st 199).m.AssertPruned ∧ (E.st 262).m.AssertPruned ∧ E.NoUpdate 262 ∧ E.RemovalsAloneSince 262 345 ∧ E.NoUpdate 345 ∧
    (E.st 345).m.AssertPruned ∧ E.content 345 23 = some (23, 2) := by
  obtain ⟨E, h1, h2, h3⟩ := Exec.ofCheck' (cfg := exCfg) 4 (ls := exSince) (by decide)
  have hq : E.Quiescent 262 := E.quiescent_of_list 4 h3 (by decide) (by simp only [h1]; decide)
  have hp : (E.st 262).m.AssertPruned := C17_null_is_pruned E (by rw [h1]; decide)
  have hs : E.NoUpdate 262 := fun t c hc => by rw [hq t] at hc; cases hc
  have ha := E.removals_since_of_list 0 262 h3 hq (by decide) 345
  have hn : E.NoUpdate 345 := E.noUpdate_of_list 4 h3 (by decide) (by simp only [h1]; decide)
  refine ⟨E, E.quiescent_of_list 4 h3 (by decide) (by simp only [h1]; decide), ?_, hp, hs, ha, hn, (C17_pruned_since_partial E (by decide) hp hs ha hn).1, ?_⟩
  · intro h
    have := h.clean (q := [0, 0]) (w' := ⟨none, true, false⟩) (by rw [h1]; decide)
    cases this
  · simp only [Exec.content, h1]; rfl

end Contrie
