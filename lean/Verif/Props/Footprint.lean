import Verif.Proof.Size
import Verif.Props.Quiescent
/-
C48: the memory in use is proportional to the content of the map.
-/
set_option linter.unusedSectionVars false
namespace Contrie
variable {K P : Type} [DecidableEq K] {cfg : Config K P}

theorem Exec.footprint_canonical (E : Exec cfg) {n : Nat} {T : Shape P} (h1 : HasShape (E.st n).m (E.st n).m.root T) (h2 : Canonical cfg (E.content n) [] T) (ks : List K)
    (hks : ∀ k, E.content n k ≠ none → k ∈ ks) : ∃ inn dat : List Nat, inn.length ≤ 8 * ks.length ∧ dat.length ≤ ks.length ∧
      ∀ a, Linked (E.st n).m a → (∃ c q, (E.st n).m.mem a = some (.inner c q) ∧ a ∈ inn) ∨
        (∃ l, (E.st n).m.mem a = some (.data l) ∧ a ∈ dat) := by
  have hA : ∀ k p, E.content n k = some p → cfg.key p = k := fun k p h => (E.content_offered h).1
  obtain ⟨inn, dat, e1, e2, e3⟩ := h1.addrs
  have hle : T.elems.length ≤ ks.length := by
    have := (h2.nodup_elems hA).subperm (l₂ := ks) (by
      intro k hk
      obtain ⟨p, hp, rfl⟩ := List.mem_map.1 hk
      exact hks _ (by rw [((h2.mem_elems hA p).mp hp).2]; simp))
    simpa using this.length_le
  refine ⟨inn, dat, ?_, ?_, fun a ha => e3 a ha.under⟩
  · have := h2.inners_le hA
    simp only [List.length_nil] at this
    omega
  · have := h2.leaves_le
    omega

/-- **C48.** If removals have not overlapped with each other up to instant `n`, and no update is in progress at `n`, then the nodes the trie consists of are few: if
the map holds no keys other than those in the list `ks`, there are at most `8 * ks.length` branching nodes and at most `ks.length` leaves,
whatever was inserted and removed before. -/
theorem C48_footprint (E : Exec cfg) {n : Nat} (hs : E.RemovalsAlone n) (hq : E.NoUpdate n) (ks : List K)
    (hks : ∀ k, E.content n k ≠ none → k ∈ ks) : ∃ inn dat : List Nat, inn.length ≤ 8 * ks.length ∧ dat.length ≤ ks.length ∧
      ∀ a, Linked (E.st n).m a → (∃ c q, (E.st n).m.mem a = some (.inner c q) ∧ a ∈ inn) ∨
        (∃ l, (E.st n).m.mem a = some (.data l) ∧ a ∈ dat) := by
  obtain ⟨T, h1, h2⟩ := C33_canonical_shape E hs hq
  exact E.footprint_canonical h1 h2 ks hks

/-- **C48**, all of the memory: if in addition everything that was handed over to the collector is destroyed, then there are at most
`9 * ks.length` nodes that are not destroyed. -/
theorem C48_all_memory (E : Exec cfg) {n : Nat} (hs : E.RemovalsAlone n) (hq : E.NoUpdate n) (ks : List K)
    (hks : ∀ k, E.content n k ≠ none → k ∈ ks)
    (hgc : ∀ a, (E.st n).m.retired a ≠ none → (E.st n).m.freed a = true) :
    ∃ l : List Nat, l.length ≤ 9 * ks.length ∧ ∀ a, (E.st n).m.mem a ≠ none → (E.st n).m.freed a = false → a ∈ l := by
  obtain ⟨inn, dat, h1, h2, h3⟩ := C48_footprint E hs hq ks hks
  refine ⟨inn ++ dat, by simp; omega, ?_⟩
  intro a ha hf
  have hl : Linked (E.st n).m a := by
    by_contra hl
    have := hgc a ((C07_retired_iff_unlinked E n a ha).mpr hl)
    rw [hf] at this; cases this
  rcases h3 a hl with ⟨_, _, _, h⟩ | ⟨_, _, h⟩
  · exact List.mem_append_left _ h
  · exact List.mem_append_right _ h

/-- An empty map occupies no memory. -/
theorem C48_empty (E : Exec cfg) {n : Nat} (hs : E.RemovalsAlone n) (hq : E.NoUpdate n) (he : ∀ k, E.content n k = none)
    (hgc : ∀ a, (E.st n).m.retired a ≠ none → (E.st n).m.freed a = true) (a : Nat) :
    (E.st n).m.mem a = none ∨ (E.st n).m.freed a = true := by
  obtain ⟨l, h1, h2⟩ := C48_all_memory E hs hq [] (fun k hk => absurd (he k) hk) hgc
  cases hm : (E.st n).m.mem a with
  | none => exact Or.inl rfl
  | some nd =>
    right
    cases hf : (E.st n).m.freed a with
    | true => rfl
    | false =>
      have := h2 a (by rw [hm]; simp) hf
      have : l = [] := List.length_eq_zero_iff.mp (by simpa using h1)
      subst this
      contradiction

/-- `exHist2`, after which the guard is dropped and the collector destroys what was removed. -/
def exSwept : List (Label Nat (Nat × Nat)) := exHist2 ++ [.unpin 0, .free 0, .free 3]

set_option maxRecDepth 40000 in
/-- Non-vacuity: four nodes remain for the two keys 7 and 23 of the map. -/
example : ∃ E : Exec exCfg, E.RemovalsAlone 79 ∧ E.NoUpdate 79 ∧ (∀ k, E.content 79 k ≠ none → k ∈ [7, 23]) ∧
    E.content 79 7 ≠ none ∧ E.content 79 23 ≠ none ∧
    (∀ a, (E.st 79).m.retired a ≠ none → (E.st 79).m.freed a = true) ∧
    (List.range 6).filter (fun a => ((E.st 79).m.mem a).isSome && !(E.st 79).m.freed a) = [1, 2, 4, 5] := by
  obtain ⟨E, h1, h2, h3⟩ := Exec.ofCheck' (cfg := exCfg) 2 (ls := exSwept) (by decide)
  refine ⟨E, (E.serial_of_list 0 h3 (by decide) _).removalsAlone, E.noUpdate_of_list 2 h3 (by decide) ?_, ?_, ?_, ?_, ?_, ?_⟩
  · simp only [h1]; decide
  · intro k hk
    have hn := E.content_named h3 hk
    by_cases e : k = 0x107
    · subst e
      exfalso
      apply hk
      simp only [Exec.content, h1]
      decide
    · simp [exSwept, exHist2, ticks, exCfg, Op.key] at hn
      simp
      omega
  · simp only [Exec.content, h1]; decide
  · simp only [Exec.content, h1]; decide
  · intro a ha
    by_cases hx : a < 6
    · have : ∀ a, a < 6 → (stAt exCfg exSwept 79).m.retired a ≠ none → (stAt exCfg exSwept 79).m.freed a = true := by decide
      rw [h1] at ha ⊢
      exact this a hx ha
    · exfalso
      obtain ⟨τ, hτ⟩ := Option.ne_none_iff_exists'.mp ha
      refine ((E.inv 79).mem.retTime a τ hτ).2 ((E.inv 79).mem.fresh a ?_)
      have : (stAt exCfg exSwept 79).m.next = 6 := by decide
      rw [h1, this]; omega
  · simp only [h1]; decide

/-- Without the hypothesis that removals do not overlap it is false of the code: branching nodes can stay forever in a map that is empty. -/
theorem C48_overlapping_removals : ∃ (E : Exec exCfg) (n : Nat), E.NoAbort n ∧ E.Quiescent n ∧ (∀ k, E.content n k = none) ∧
    ∃ a, Linked (E.st n).m a := by
  obtain ⟨E, n, h1, h2, h3, h4, -⟩ := C17_refuted
  refine ⟨E, n, h1, h2, h3, ?_⟩
  cases hp : (E.st n).m.root.ptr with
  | some a => exact ⟨a, .root hp⟩
  | none => exact absurd (HandlePtr.null (E.inv n).mem.rootClean hp) h4

end Contrie
