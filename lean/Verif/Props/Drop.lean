import Verif.Proof.Drop
/-
C31: dropping a map.
-/
set_option linter.unusedSectionVars false
namespace Contrie
variable {K P : Type} [DecidableEq K] {cfg : Config K P}

theorem Exec.drop_spec (E : Exec cfg) (fix : Bool) (i : Nat) :
    ∃ m' l, (E.st i).m.drop fix = some (m', l) ∧ Dropped cfg fix (E.st i).m (E.st i).m m' l (Below (E.st i).m (E.st i).m.root) (ElemBelow (E.st i).m (E.st i).m.root) := by
  refine dropRec_spec fix (E.inv i).mem _ _ _ [] rfl rfl (by decide) ?_
  rintro a ⟨q, w, h1, h2⟩
  have := (E.inv i).mem.live q w a h1 h2
  cases hx : (E.st i).m.freed a with
  | false => rfl
  | true =>
    obtain ⟨τ, hτ⟩ := (E.inv i).mem.freedRet a hx
    rw [this] at hτ; cases hτ

/-- **C31**, the part that holds of the code. In every reachable state, `drop` runs to its end without touching memory that is gone, and without releasing
a node twice. Of all the nodes that were ever part of the trie, it releases exactly those that were not handed over to the collector (which are the
linked ones, `C07_retired_iff_unlinked`): together, every node is released exactly once.
Missing: that nodes are released as the type they were allocated with, and that elements are destructed. Both are false (`C31_refuted`). -/
theorem C31_nodes_released_once_partial (E : Exec cfg) (i : Nat) :
    ∃ m' l, (E.st i).m.drop false = some (m', l) ∧ (released l).Nodup ∧
      (∀ a, (E.st i).m.mem a ≠ none → (a ∈ released l ↔ (E.st i).m.retired a = none)) ∧
      (∀ a ∈ released l, (E.st i).m.mem a ≠ none ∧ (E.st i).m.freed a = false ∧ m'.freed a = true) := by
  obtain ⟨m', l, h1, h2⟩ := E.drop_spec false i
  have hb : ∀ a, Below (E.st i).m (E.st i).m.root a → (E.st i).m.retired a = none := by
    rintro a ⟨q, w, g1, g2⟩; exact (E.inv i).mem.live q w a g1 g2
  refine ⟨m', l, h1, h2.nodup, ?_, ?_⟩
  · intro a ha
    rw [h2.mem]
    constructor
    · exact hb a
    · intro hr
      cases hm : (E.st i).m.mem a with
      | none => exact (ha hm).elim
      | some n => exact (E.inv i).mem.linked a n hm hr
  · intro a ha
    obtain ⟨k, hk⟩ := mem_released.1 ha
    obtain ⟨n, hn, -⟩ := h2.kind a k hk
    refine ⟨by rw [hn]; exact Option.some_ne_none n, ?_, (h2.freed a).2 (Or.inr ((h2.mem a).1 ha))⟩
    cases hx : (E.st i).m.freed a with
    | false => rfl
    | true =>
      obtain ⟨τ, hτ⟩ := (E.inv i).mem.freedRet a hx
      rw [hb a ((h2.mem a).1 ha)] at hτ; cases hτ

/-- **C31** is false of the code, and not only in odd cases: dropping *any* map that is not empty releases every data node as if it were an `Inner`
(there is at least one), and runs the destructor of no element at all. -/
theorem C31_refuted (E : Exec cfg) (i : Nat) {k : K} {p : P} (hk : E.content i k = some p) :
    ∃ m' l, (E.st i).m.drop false = some (m', l) ∧ destructed l = [] ∧
      (∃ a items, (E.st i).m.mem a = some (.data items) ∧ p ∈ items ∧ .dealloc a .inner ∈ l) ∧
      (∀ a items k, (E.st i).m.mem a = some (.data items) → .dealloc a k ∈ l → k = .inner) := by
  obtain ⟨m', l, h1, h2⟩ := E.drop_spec false i
  refine ⟨m', l, h1, ?_, ?_, ?_⟩
  · rw [List.eq_nil_iff_forall_not_mem]
    intro q hq
    have := ((h2.elems q).1 hq).1
    cases this
  · obtain ⟨⟨r, w, a, items, g1, g2, g3, g4, g5⟩, -⟩ := look_some (cfg := cfg) _ _ hk
    refine ⟨a, items, g4, g5, ?_⟩
    obtain ⟨k', hk'⟩ := mem_released.1 ((h2.mem a).2 ⟨r, w, g1, g2⟩)
    obtain ⟨n, -, e⟩ := h2.kind a k' hk'
    simp only [Bool.false_eq_true, if_false] at e
    rw [← e]; exact hk'
  · intro a items k' _ hk'
    obtain ⟨n, -, e⟩ := h2.kind a k' hk'
    simpa using e

/-- **C31** for the code with `drop_data` repaired (`fix = true`: the pointer is cast to `Data` before it is dropped): dropping a map in any reachable state
releases every node of the trie exactly once, as the type it was allocated with, and destructs every element that the map holds exactly once.
(This is not a theorem about the code at hand; it shows that the cast is all that is wrong with it.) -/
theorem C31_repaired (E : Exec cfg) (i : Nat) :
    ∃ m' l, (E.st i).m.drop true = some (m', l) ∧ (released l).Nodup ∧
      (∀ a, (E.st i).m.mem a ≠ none → (a ∈ released l ↔ (E.st i).m.retired a = none)) ∧
      (∀ a k, .dealloc a k ∈ l → ∃ n, (E.st i).m.mem a = some n ∧ k = n.kind) ∧
      ((destructed l).map cfg.key).Nodup ∧ (∀ p, p ∈ destructed l ↔ E.content i (cfg.key p) = some p) := by
  obtain ⟨m', l, h1, h2⟩ := E.drop_spec true i
  refine ⟨m', l, h1, h2.nodup, ?_, ?_, h2.keys, ?_⟩
  · intro a ha
    rw [h2.mem]
    constructor
    · rintro ⟨q, w, g1, g2⟩; exact (E.inv i).mem.live q w a g1 g2
    · intro hr
      cases hm : (E.st i).m.mem a with
      | none => exact (ha hm).elim
      | some n => exact (E.inv i).mem.linked a n hm hr
  · intro a k hk; simpa using h2.kind a k hk
  · intro p
    rw [h2.elems]
    simp only [true_and]
    exact elemBelow_root (E.inv i).mem p

/-- A run for C31: insert two elements, overwrite one of them. -/
def exDrop : List (Label Nat (Nat × Nat)) :=
  [.pin 0, .call 0 (.op (.insert (3, 0)))] ++ ticks 0 2 ++ [.call 0 (.op (.insert (4, 0)))] ++ ticks 0 5 ++ [.call 0 (.op (.insert (3, 1)))] ++ ticks 0 3 ++ [.unpin 0]

set_option maxRecDepth 20000 in
/-- What the code does when the map is dropped after that run: three nodes are released (node 1 is inner; 2 and 3 are data), node 0 was handed over to
the collector. -/
example : ∃ E : Exec exCfg, E.content 15 3 = some (3, 1) ∧ ((E.st 15).m.drop false).map Prod.snd = some [.dealloc 3 .inner, .dealloc 2 .inner, .dealloc 1 .inner] ∧
    ((E.st 15).m.drop true).map Prod.snd = some [.destruct (3, 1), .dealloc 3 .data, .destruct (4, 0), .dealloc 2 .data, .dealloc 1 .inner] ∧
    (E.st 15).m.retired 0 ≠ none := by
  obtain ⟨E, h1, h2, h3⟩ := Exec.ofCheck' (cfg := exCfg) 1 (ls := exDrop) (by decide)
  refine ⟨E, ?_, ?_, ?_, ?_⟩
  · simp only [Exec.content, h1]; rfl
  · rw [h1]; rfl
  · rw [h1]; rfl
  · rw [h1]; decide

end Contrie
