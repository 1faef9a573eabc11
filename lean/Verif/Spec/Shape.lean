import Verif.Model.Debug
import Verif.Spec.Map
/-
Specification of the shape of a trie: it is determined by the keys (and their hashes) alone. Nothing here refers to the
machine.
-/
namespace Contrie
variable {K P : Type} [DecidableEq K]

/-- The hash of `k`, cut into groups of four bits (lowest first), starts with `q`. -/
def HashStarts (cfg : Config K P) (q : List (Fin 16)) (k : K) : Prop :=
  q.length ≤ 16 ∧ ∀ d (h : d < q.length), q[d] = bitsAt (cfg.hash k) (LEVEL_BITS * d)

/-- The trie that the set of keys bound in `A` ought to have below the position `q`: nothing if no key belongs there;
one leaf if one key belongs there, or if the hash is used up; otherwise a branching node. -/
def Canonical (cfg : Config K P) (A : AMap K P) : List (Fin 16) → Shape P → Prop
  | q, .null => ∀ k, HashStarts cfg q k → A k = none
  | q, .leaf l => l ≠ [] ∧ (l.map cfg.key).Nodup ∧ (l.length = 1 ∨ q.length = 16) ∧
      ∀ p, p ∈ l ↔ HashStarts cfg q (cfg.key p) ∧ A (cfg.key p) = some p
  | q, .node ch => q.length < 16 ∧
      (∃ k k', k ≠ k' ∧ HashStarts cfg q k ∧ HashStarts cfg q k' ∧ A k ≠ none ∧ A k' ≠ none) ∧
      ∀ i, Canonical cfg A (q ++ [i]) (ch i)

/-- A trie is pruned: no empty leaf, and an inner node without inner nodes right below it holds two elements at least (in its leaves). -/
def Shape.Pruned : Shape P → Prop
  | .null => True
  | .leaf l => l ≠ []
  | .node ch => (∀ i, (ch i).Pruned) ∧
      ((∃ i sub, ch i = .node sub) ∨ (∃ i l, ch i = .leaf l ∧ 2 ≤ l.length) ∨
        ∃ i j l l', i ≠ j ∧ ch i = .leaf l ∧ ch j = .leaf l' ∧ l ≠ [] ∧ l' ≠ [])

/-- Equal up to the elements bound to the keys and the order of keys in a collision node. -/
inductive Shape.Same (key : P → K) : Shape P → Shape P → Prop
  | null : Shape.Same key .null .null
  | leaf {l l' : List P} (h : (l.map key).Perm (l'.map key)) : Shape.Same key (.leaf l) (.leaf l')
  | node {ch ch' : Fin 16 → Shape P} (h : ∀ i, Shape.Same key (ch i) (ch' i)) : Shape.Same key (.node ch) (.node ch')

end Contrie
