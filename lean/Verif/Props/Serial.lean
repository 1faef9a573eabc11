import Verif.Props.Lookup
import Verif.Proof.Tidy
import Verif.Proof.OneRemExec
/-
C16 (`is_empty` is exact), C18 (pruned), C33 (canonical shape), and what remains of C17: executions in which removals do not overlap with
each other (`Exec.RemovalsAlone` in `Verif/Proof/OneRemExec.lean`). Insertions, lookups, `is_empty` calls and iterations may run in parallel
with everything; purely sequential use, or updates that do not overlap (`Exec.SerialUpdates` in `Verif/Proof/SerialExec.lean`), are special
cases (`Exec.SerialUpdates.removalsAlone`). The conclusions hold whenever no update is in progress (`Exec.NoUpdate`).
-/
set_option linter.unusedSectionVars false
namespace Contrie
variable {K P : Type} [DecidableEq K] {cfg : Config K P}

/-- If only one session issues updates, and it never abandons one, then updates do not overlap. -/
theorem Exec.serial_of_single (E : Exec cfg) (u n : Nat)
    (h1 : ∀ i, i < n → ∀ t r, E.lab i = .call t r → r.isUpdate = true → t = u)
    (h2 : ∀ i, i < n → E.lab i ≠ .abort u) : E.SerialUpdates n where
  alone := by
    intro i hi t t' c c' hc hc' hu hu'
    obtain ⟨e1, -, e3⟩ := E.run_inv i hc
    obtain ⟨f1, -, f3⟩ := E.run_inv i hc'
    rw [h1 _ (by omega) _ _ e3 hu, h1 _ (by omega) _ _ f3 hu']
  finished := by
    intro i hi t c hl hc
    cases hu : c.req.isUpdate with
    | false => rfl
    | true =>
      obtain ⟨e1, -, e3⟩ := E.run_inv i hc
      have := h1 _ (by omega) _ _ e3 hu
      subst this
      exact absurd hl (h2 i hi)

/-- **C18.** If removals have not overlapped with each other up to instant `n`, and no update is in progress at `n`, then the trie is in the
fully pruned state that `assert_pruned` checks for. -/
theorem C18_pruned (E : Exec cfg) {n : Nat} (hs : E.RemovalsAlone n) (hq : E.NoUpdate n) :
    (E.st n).m.AssertPruned :=
  (tidy (E.one_quiet hs hq) (E.inv n).mem 16 .root [] _ (by simp) ⟨rfl, rfl⟩ trivial).1

/-- **C33**, what the shape is: branches are exactly as long as needed to tell the hashes of the keys apart. -/
theorem C33_canonical_shape (E : Exec cfg) {n : Nat} (hs : E.RemovalsAlone n) (hq : E.NoUpdate n) :
    ∃ T, HasShape (E.st n).m (E.st n).m.root T ∧ Canonical cfg (E.content n) [] T :=
  (tidy (E.one_quiet hs hq) (E.inv n).mem 16 .root [] _ (by simp) ⟨rfl, rfl⟩ trivial).2

/-- **C33**, history independence: two maps that hold the same keys have the same shape (up to the elements bound to
the keys and the order inside a collision node), whatever has been done to them before. -/
theorem C33_history_independent (E E' : Exec cfg) {n n' : Nat} (hs : E.RemovalsAlone n) (hq : E.NoUpdate n)
    (hs' : E'.RemovalsAlone n') (hq' : E'.NoUpdate n') (hkeys : ∀ k, E.content n k = none ↔ E'.content n' k = none)
    {T T' : Shape P} (hT : HasShape (E.st n).m (E.st n).m.root T) (hT' : HasShape (E'.st n').m (E'.st n').m.root T') :
    Shape.Same cfg.key T T' := by
  obtain ⟨T1, h1, h2⟩ := C33_canonical_shape E hs hq
  obtain ⟨T1', h1', h2'⟩ := C33_canonical_shape E' hs' hq'
  rw [hT.unique h1, hT'.unique h1']
  exact Canonical.same (fun k p h => (E.content_offered h).1) (fun k p h => (E'.content_offered h).1) hkeys h2 h2'

/-- The root is null exactly if the map is empty. -/
theorem Exec.root_null_canonical (E : Exec cfg) {n : Nat} {T : Shape P} (h1 : HasShape (E.st n).m (E.st n).m.root T) (h2 : Canonical cfg (E.content n) [] T) :
    (E.st n).m.root.ptr = none ↔ ∀ k, E.content n k = none := by
  constructor
  · intro hp
    cases h1 with
    | null => exact fun k => h2 k ⟨by simp, by intro d h; simp at h⟩
    | leaf hp' => rw [hp] at hp'; cases hp'
    | node hp' => rw [hp] at hp'; cases hp'
  · intro he
    cases h1 with
    | null hp => exact hp
    | leaf =>
      obtain ⟨g1, -, -, g4⟩ := h2
      obtain ⟨p, hp⟩ := List.exists_mem_of_ne_nil _ g1
      have := ((g4 p).mp hp).2
      rw [he] at this; cases this
    | node =>
      obtain ⟨-, ⟨k, k', -, -, -, e4, -⟩, -⟩ := h2
      exact absurd (he k) e4

theorem Exec.root_null_iff (E : Exec cfg) {n : Nat} (hs : E.RemovalsAlone n) (hq : E.NoUpdate n) :
    (E.st n).m.root.ptr = none ↔ ∀ k, E.content n k = none := by
  obtain ⟨T, h1, h2⟩ := C33_canonical_shape E hs hq
  exact E.root_null_canonical h1 h2

/-- `is_empty` tells whether the root is null. -/
theorem Exec.isEmpty_root (E : Exec cfg) {id j : Nat} {r : Res P} (hi : E.Invoked id .isEmpty) (hr : E.Returns j id r) :
    ∃ b, r = .bool b ∧ (b = true ↔ (E.st j).m.root.ptr = none) := by
  obtain ⟨t, c, refs, weak, h1, h2, h3, h4, h5, h6, h7, h8⟩ := E.res hr
  have hreq : c.req = .isEmpty := by
    rw [Exec.Invoked] at hi; rw [hi] at h8; injection h8 with h8; injection h8 with _ h8; exact h8.symm
  have hpc : c.pc = .isEmpty := by
    have hi := E.run_pcinv h2
    unfold PCInv at hi
    cases hp : c.pc with
    | isEmpty => rfl
    | get => simp only [hp] at hi; rw [hi.1] at hreq; cases hreq
    | iterNew => simp only [hp] at hi; rw [hi.1] at hreq; cases hreq
    | iterNext => simp only [hp] at hi; rw [hi.1] at hreq; cases hreq
    | trav => simp only [hp] at hi; obtain ⟨d, -, ht⟩ := hi; have := ht.req.upd; rw [hreq] at this; cases this
    | travCas => simp only [hp] at hi; obtain ⟨d, -, ht, -⟩ := hi; have := ht.req.upd; rw [hreq] at this; cases this
    | rem => simp only [hp] at hi; rw [hi.1] at hreq; cases hreq
    | remCas => simp only [hp] at hi; rw [hi.1] at hreq; cases hreq
    | count => simp only [hp] at hi; obtain ⟨⟨k, e⟩, -⟩ := hi; rw [e] at hreq; cases hreq
    | prune parent child i acc k =>
      simp only [hp] at hi
      have := hi.1
      cases k with
      | trav => have := this.1.upd; rw [hreq] at this; cases this
      | rem => rw [this.1] at hreq; cases hreq
      | clean => obtain ⟨⟨⟨k, e⟩, -⟩, -⟩ := this; rw [e] at hreq; cases hreq
    | pruneCas parent child acc k =>
      simp only [hp] at hi
      have := hi.1
      cases k with
      | trav => have := this.1.upd; rw [hreq] at this; cases this
      | rem => rw [this.1] at hreq; cases hreq
      | clean => obtain ⟨⟨⟨k, e⟩, -⟩, -⟩ := this; rw [e] at hreq; cases hreq
  rw [hpc] at h5
  simp only [tick, Next.ret.injEq] at h5
  refine ⟨_, h5.1.symm, ?_⟩
  cases (E.st j).m.root.ptr <;> simp

/-- **C16.** If removals have not overlapped with each other, `is_empty` returns (while no update is in progress) `true` exactly when
the map holds no element. -/
theorem C16_is_empty_exact (E : Exec cfg) {id j : Nat} {r : Res P} (hi : E.Invoked id .isEmpty) (hr : E.Returns j id r)
    (hs : E.RemovalsAlone j) (hq : E.NoUpdate j) : ∃ b, r = .bool b ∧ (b = true ↔ ∀ k, E.content j k = none) := by
  obtain ⟨b, h1, h2⟩ := E.isEmpty_root hi hr
  exact ⟨b, h1, h2.trans (E.root_null_iff hs hq)⟩

/-! ### The hypotheses can be met -/

/-- All updates in a list of labels are by session `u`, which never abandons a call. -/
def singleUpdater (u : Nat) (ls : List (Label K P)) : Bool :=
  ls.all (fun l => match l with
    | .call t r => !r.isUpdate || decide (t = u)
    | .abort t => decide (t ≠ u)
    | _ => true)

theorem Exec.serial_of_list (E : Exec cfg) (u : Nat) {ls : List (Label K P)} (hl : ∀ i, E.lab i = ls.getD i .idle)
    (h : singleUpdater u ls = true) (n : Nat) : E.SerialUpdates n := by
  have hmem : ∀ i, E.lab i = .idle ∨ E.lab i ∈ ls := by
    intro i
    rw [hl]
    by_cases hi : i < ls.length
    · right; simp [List.getD, List.getElem?_eq_getElem hi]
    · left; simp [List.getD, List.getElem?_eq_none (Nat.le_of_not_lt hi)]
  simp only [singleUpdater, List.all_eq_true] at h
  apply E.serial_of_single u n
  · intro i _ t r hr hu
    rcases hmem i with e | e
    · rw [hr] at e; cases e
    · have := h _ e
      rw [hr] at this
      simpa [hu] using this
  · intro i _ ha
    rcases hmem i with e | e
    · rw [ha] at e; cases e
    · have := h _ e
      rw [ha] at this
      simp at this

/-- All removals in a list of labels are by session `u`, and no call is abandoned. -/
def singleRemover (u : Nat) (ls : List (Label K P)) : Bool :=
  ls.all (fun l => match l with
    | .call t r => !r.isRemove || decide (t = u)
    | .abort _ => false
    | _ => true)

theorem Exec.removals_of_list (E : Exec cfg) (u : Nat) {ls : List (Label K P)} (hl : ∀ i, E.lab i = ls.getD i .idle)
    (h : singleRemover u ls = true) (n : Nat) : E.RemovalsAlone n := by
  have hmem : ∀ i, E.lab i = .idle ∨ E.lab i ∈ ls := by
    intro i
    rw [hl]
    by_cases hi : i < ls.length
    · right; simp [List.getD, List.getElem?_eq_getElem hi]
    · left; simp [List.getD, List.getElem?_eq_none (Nat.le_of_not_lt hi)]
  simp only [singleRemover, List.all_eq_true] at h
  have hcall : ∀ i t r, E.lab i = .call t r → r.isRemove = true → t = u := by
    intro i t r hr hu
    rcases hmem i with e | e
    · rw [hr] at e; cases e
    · have := h _ e
      rw [hr] at this
      simpa [hu] using this
  constructor
  · intro i hi t t' c c' hc hc' hu hu'
    obtain ⟨-, -, e3⟩ := E.run_inv i hc
    obtain ⟨-, -, f3⟩ := E.run_inv i hc'
    rw [hcall _ _ _ e3 hu, hcall _ _ _ f3 hu']
  · intro i _ t c ha
    rcases hmem i with e | e
    · rw [ha] at e; cases e
    · have := h _ e
      rw [ha] at this
      simp at this

/-- If only sessions below `N` ever call, then it is enough to look at these. -/
theorem Exec.noUpdate_of_list (E : Exec cfg) (N : Nat) {ls : List (Label K P)} (hl : ∀ i, E.lab i = ls.getD i .idle)
    (h : ls.all (fun l => match l with | .call t _ => decide (t < N) | _ => true) = true) {n : Nat}
    (hn : ∀ t, t < N → ((E.st n).thr t).run.all (fun c => !c.req.isUpdate) = true) : E.NoUpdate n := by
  intro t c hc
  have h3 := (E.run_inv n hc).2.2
  have : t < N := by
    rw [hl] at h3
    by_cases hi : c.inv < ls.length
    · simp only [List.all_eq_true] at h
      have := h (ls.getD c.inv .idle) (by simp [List.getD, List.getElem?_eq_getElem hi])
      rw [h3] at this
      simpa using this
    · simp [List.getD, List.getElem?_eq_none (Nat.le_of_not_lt hi)] at h3
  have := hn t this
  rw [hc] at this
  simpa using this

/-- Session 0 inserts keys 7, 23 (they share the lowest four bits) and 0x107 (shares with 7 the lowest eight), then removes
them again; session 1 looks up in between; at the end `is_empty` is called twice, once before the last removal. -/
def exSerial : List (Label Nat (Nat × Nat)) :=
  [.pin 0, .pin 1, .call 0 (.op (.insert (7, 1)))] ++ ticks 0 2 ++ [.call 0 (.op (.insert (23, 2)))] ++ ticks 0 4 ++
  [.call 1 (.op (.get 23))] ++ ticks 0 4 ++ ticks 1 3 ++ [.call 0 (.op (.insert (0x107, 3)))] ++ ticks 0 7 ++
  [.call 0 (.op (.remove 23))] ++ ticks 0 37 ++ [.call 0 (.op (.remove 7))] ++ ticks 0 104 ++
  [.call 1 .isEmpty, .tick 1 false, .call 0 (.op (.remove 0x107))] ++ ticks 0 2 ++ [.call 1 .isEmpty, .tick 1 false]

set_option maxRecDepth 20000 in
/-- In this run the hypotheses of C16, C18 and C33 are met for both calls of `is_empty`; the first one (one element
left) returns `false`, the second one `true`. -/
example : ∃ E : Exec exCfg, E.RemovalsAlone 176 ∧ E.NoUpdate 170 ∧ E.NoUpdate 175 ∧
    E.Invoked 169 .isEmpty ∧ E.Returns 170 169 (.bool false) ∧ E.content 170 0x107 = some (0x107, 3) ∧
    E.Invoked 174 .isEmpty ∧ E.Returns 175 174 (.bool true) := by
  obtain ⟨E, h1, h2, h3⟩ := Exec.ofCheck' (cfg := exCfg) 2 (ls := exSerial) (by decide)
  refine ⟨E, (E.serial_of_list 0 h3 (by decide) _).removalsAlone, E.noUpdate_of_list 2 h3 (by decide) ?_,
    E.noUpdate_of_list 2 h3 (by decide) ?_, ?_, ?_, ?_, ?_, ?_⟩
  · simp only [h1]; decide
  · simp only [h1]; decide
  all_goals simp only [Exec.Invoked, Exec.Returns, Exec.content, h1, h2]
  all_goals rfl

/-- Session 1 removes key 0; after it has marked five cells of the inner node that is to go away, sessions 0 and 2 insert other keys whose
place is in that node. Both help to prune it, session 0 finishes this first. -/
def exOverlap : List (Label Nat (Nat × Nat)) :=
  [.pin 0, .pin 1, .pin 2, .call 0 (.op (.insert (0, 1)))] ++ ticks 0 2 ++
  [.call 0 (.op (.insert (0x10, 2)))] ++ ticks 0 8 ++ [.call 0 (.op (.insert (1, 3)))] ++ ticks 0 3 ++
  [.call 1 (.op (.remove 0))] ++ ticks 1 25 ++
  [.call 0 (.op (.insert (0x20, 4))), .call 2 (.op (.getOrInsert 0x30 (fun k => (k, 5))))] ++
  ticks 2 10 ++ ticks 0 26 ++ ticks 1 28 ++ ticks 2 14

set_option maxRecDepth 40000 in
/-- The hypotheses are met by this run: three updates in progress at the same time, one of them a removal. -/
example : ∃ E : Exec exCfg, E.RemovalsAlone 125 ∧ E.NoUpdate 125 ∧
    ((E.st 60).thr 0).run.isSome ∧ ((E.st 60).thr 1).run.isSome ∧ ((E.st 60).thr 2).run.isSome ∧
    E.content 125 0 = none ∧ E.content 125 0x30 = some (0x30, 5) := by
  obtain ⟨E, h1, h2, h3⟩ := Exec.ofCheck' (cfg := exCfg) 3 (ls := exOverlap) (by decide)
  refine ⟨E, E.removals_of_list 1 h3 (by decide) _, E.noUpdate_of_list 3 h3 (by decide) ?_, ?_, ?_, ?_, ?_, ?_⟩
  · simp only [h1]; decide
  all_goals simp only [Exec.content, h1]
  all_goals rfl

/-- Two histories that end with the keys 7 and 23 in the map, in both cases bound to different values, ... -/
def exHist1 : List (Label Nat (Nat × Nat)) :=
  [.pin 0, .call 0 (.op (.insert (7, 1)))] ++ ticks 0 2 ++ [.call 0 (.op (.insert (23, 2)))] ++ ticks 0 8
/-- ... one of them having gone through a deeper trie. -/
def exHist2 : List (Label Nat (Nat × Nat)) :=
  [.pin 0, .call 0 (.op (.insert (0x107, 3)))] ++ ticks 0 2 ++ [.call 0 (.op (.insert (7, 4)))] ++ ticks 0 11 ++
  [.call 0 (.op (.insert (23, 9)))] ++ ticks 0 4 ++ [.call 0 (.op (.remove 0x107))] ++ ticks 0 54

/-- The map holds only keys that were named in a call. -/
theorem Exec.content_named (E : Exec cfg) {ls : List (Label K P)} (hl : ∀ i, E.lab i = ls.getD i .idle) {n : Nat} {k : K}
    (h : E.content n k ≠ none) :
    k ∈ ls.filterMap (fun l => match l with | .call _ (.op o) => some (o.key cfg.key) | _ => none) := by
  obtain ⟨p, hp⟩ := Option.ne_none_iff_exists'.mp h
  obtain ⟨-, id, o, -, h2, h3, -⟩ := E.content_offered hp
  obtain ⟨-, t, h4⟩ := (E.stepOK id).inv id _ h2
  rw [List.mem_filterMap]
  refine ⟨.call t (.op o), ?_, by simp [h3]⟩
  rw [hl] at h4
  by_cases hi : id < ls.length
  · simp only [List.getD, List.getElem?_eq_getElem hi, Option.getD_some] at h4
    rw [← h4]; exact List.getElem_mem hi
  · simp [List.getD, List.getElem?_eq_none (Nat.le_of_not_lt hi)] at h4

set_option maxRecDepth 20000 in
/-- The hypotheses of `C33_history_independent` are met by these two histories. -/
example : ∃ E E' : Exec exCfg, E.RemovalsAlone 13 ∧ E.NoUpdate 13 ∧ E'.RemovalsAlone 76 ∧ E'.NoUpdate 76 ∧
    (∀ k, E.content 13 k = none ↔ E'.content 76 k = none) ∧ E.content 13 7 = some (7, 1) ∧
    E'.content 76 7 = some (7, 4) := by
  obtain ⟨E, h1, h2, h3⟩ := Exec.ofCheck' (cfg := exCfg) 2 (ls := exHist1) (by decide)
  obtain ⟨E', h1', h2', h3'⟩ := Exec.ofCheck' (cfg := exCfg) 2 (ls := exHist2) (by decide)
  refine ⟨E, E', (E.serial_of_list 0 h3 (by decide) _).removalsAlone, E.noUpdate_of_list 2 h3 (by decide) ?_,
    (E'.serial_of_list 0 h3' (by decide) _).removalsAlone, E'.noUpdate_of_list 2 h3' (by decide) ?_, ?_, ?_, ?_⟩
  · simp only [h1]; decide
  · simp only [h1']; decide
  · intro k
    by_cases hk : k = 7 ∨ k = 23 ∨ k = 0x107
    · rcases hk with rfl | rfl | rfl
      all_goals simp only [Exec.content, h1, h1']
      all_goals decide
    · have e1 : E.content 13 k = none := by
        apply Classical.byContradiction
        intro e
        have := E.content_named h3 e
        simp [exHist1, ticks, exCfg, Op.key] at this
        omega
      have e2 : E'.content 76 k = none := by
        apply Classical.byContradiction
        intro e
        have := E'.content_named h3' e
        simp [exHist2, ticks, exCfg, Op.key] at this
        omega
      simp [e1, e2]
  all_goals simp only [Exec.content, h1, h1']
  all_goals rfl

end Contrie
