import Verif.Proof.Tidy
import Verif.Props.Memory
import Mathlib.Data.List.Nodup
import Mathlib.Data.List.Perm.Subperm
/-
How many nodes does a canonical trie have?
-/
set_option linter.unusedSectionVars false
namespace Contrie
variable {K P : Type} [DecidableEq K] {cfg : Config K P}

/-- All the elements, in the order of the iterator. -/
def Shape.elems : Shape P → List P
  | .null => []
  | .leaf l => l
  | .node ch => (List.finRange 16).flatMap (fun i => (ch i).elems)

/-- Number of branching nodes. -/
def Shape.inners : Shape P → Nat
  | .null => 0
  | .leaf _ => 0
  | .node ch => 1 + ((List.finRange 16).map (fun i => (ch i).inners)).sum

/-- Number of leaves. -/
def Shape.leaves : Shape P → Nat
  | .null => 0
  | .leaf _ => 1
  | .node ch => ((List.finRange 16).map (fun i => (ch i).leaves)).sum

theorem HashStarts.next {q : List (Fin 16)} {k : K} (h : HashStarts cfg q k) (hq : q.length < 16) :
    HashStarts cfg (q ++ [bitsAt (cfg.hash k) (LEVEL_BITS * q.length)]) k := by
  refine ⟨by simp; omega, ?_⟩
  intro d hd
  by_cases e : d < q.length
  · rw [List.getElem_append_left e]; exact h.2 d e
  · have : d = q.length := by simp at hd; omega
    subst this
    simp

theorem HashStarts.back {q : List (Fin 16)} {i : Fin 16} {k : K} (h : HashStarts cfg (q ++ [i]) k) :
    HashStarts cfg q k ∧ i = bitsAt (cfg.hash k) (LEVEL_BITS * q.length) := by
  obtain ⟨h1, h2⟩ := h
  simp only [List.length_append, List.length_singleton] at h1 h2
  refine ⟨⟨by omega, fun d hd => ?_⟩, ?_⟩
  · have := h2 d (by omega)
    rwa [List.getElem_append_left hd] at this
  · have := h2 q.length (by omega)
    simpa using this

variable {A : AMap K P}

/-- The elements of a canonical trie are those of the map. -/
theorem Canonical.mem_elems (hA : ∀ k p, A k = some p → cfg.key p = k) {T : Shape P} : ∀ {q : List (Fin 16)}, Canonical cfg A q T → ∀ p, p ∈ T.elems ↔
    HashStarts cfg q (cfg.key p) ∧ A (cfg.key p) = some p := by
  induction T with
  | null =>
    intro q h p
    simp only [Shape.elems, List.not_mem_nil, false_iff]
    rintro ⟨h1, h2⟩
    rw [h _ h1] at h2; cases h2
  | leaf l => intro q h p; exact h.2.2.2 p
  | node ch ih =>
    intro q h p
    simp only [Shape.elems, List.mem_flatMap, List.mem_finRange, true_and]
    constructor
    · rintro ⟨i, hi⟩
      obtain ⟨h1, h2⟩ := (ih i (h.2.2 i) p).mp hi
      exact ⟨h1.back.1, h2⟩
    · rintro ⟨h1, h2⟩
      exact ⟨_, (ih _ (h.2.2 _) p).mpr ⟨h1.next h.1, h2⟩⟩

theorem Canonical.nodup_elems (hA : ∀ k p, A k = some p → cfg.key p = k) {T : Shape P} : ∀ {q : List (Fin 16)}, Canonical cfg A q T →
    (T.elems.map cfg.key).Nodup := by
  induction T with
  | null => intro q h; simp [Shape.elems]
  | leaf l => intro q h; exact h.2.1
  | node ch ih =>
    intro q h
    simp only [Shape.elems, List.map_flatMap]
    rw [List.nodup_flatMap]
    refine ⟨fun i _ => ih i (h.2.2 i), ?_⟩
    refine List.Pairwise.imp ?_ (List.nodup_finRange 16)
    intro i j hij k hi hj
    simp only [List.mem_map] at hi hj
    obtain ⟨p, hp, rfl⟩ := hi
    obtain ⟨p', hp', e⟩ := hj
    have h1 := ((Canonical.mem_elems hA (h.2.2 i) p).mp hp).1.back.2
    have h2 := ((Canonical.mem_elems hA (h.2.2 j) p').mp hp').1.back.2
    rw [e] at h2
    exact hij (h1.trans h2.symm)

theorem sum_le_sum {α : Type} (l : List α) (f g : α → Nat) (h : ∀ x ∈ l, f x ≤ g x) : (l.map f).sum ≤ (l.map g).sum := by
  induction l with
  | nil => simp
  | cons a l ih =>
    simp only [List.map_cons, List.sum_cons]
    have := h a (by simp)
    have := ih (fun x hx => h x (by simp [hx]))
    omega

theorem sum_mul {α : Type} (l : List α) (f : α → Nat) (c : Nat) : (l.map (fun x => c * f x)).sum = c * (l.map f).sum := by
  induction l with
  | nil => simp
  | cons a l ih => simp only [List.map_cons, List.sum_cons, ih, Nat.mul_add]

theorem Canonical.two_elems (hA : ∀ k p, A k = some p → cfg.key p = k) {ch : Fin 16 → Shape P} {q : List (Fin 16)}
    (h : Canonical cfg A q (.node ch)) : 2 ≤ (Shape.node ch).elems.length := by
  obtain ⟨k, k', e1, e2, e3, e4, e5⟩ := h.2.1
  obtain ⟨p, hp⟩ := Option.ne_none_iff_exists'.mp e4
  obtain ⟨p', hp'⟩ := Option.ne_none_iff_exists'.mp e5
  have i1 := (h.mem_elems hA p).mpr ⟨by rw [hA k p hp]; exact e2, by rw [hA k p hp]; exact hp⟩
  have i2 := (h.mem_elems hA p').mpr ⟨by rw [hA k' p' hp']; exact e3, by rw [hA k' p' hp']; exact hp'⟩
  match hl : (Shape.node ch).elems with
  | [] => rw [hl] at i1; cases i1
  | [z] =>
    rw [hl] at i1 i2
    simp only [List.mem_singleton] at i1 i2
    exact absurd (by rw [← hA k p hp, ← hA k' p' hp', i1, i2]) e1
  | _ :: _ :: _ => simp

/-- Every branching node has two elements below it, at most 16 of them are above one another. -/
theorem Canonical.inners_le (hA : ∀ k p, A k = some p → cfg.key p = k) {T : Shape P} : ∀ {q : List (Fin 16)}, Canonical cfg A q T →
    2 * T.inners ≤ (16 - q.length) * T.elems.length := by
  induction T with
  | null => intro q h; simp [Shape.inners]
  | leaf l => intro q h; simp [Shape.inners]
  | node ch ih =>
    intro q h
    have h2 := h.two_elems hA
    have hlt := h.1
    have e : (Shape.node ch).elems.length = ((List.finRange 16).map (fun i => (ch i).elems.length)).sum := by
      simp [Shape.elems, List.length_flatMap]
    have h3 : ((List.finRange 16).map (fun i => 2 * (ch i).inners)).sum ≤
        ((List.finRange 16).map (fun i => (15 - q.length) * (ch i).elems.length)).sum := by
      refine sum_le_sum _ _ _ (fun i _ => ?_)
      have := ih i (h.2.2 i)
      rwa [show 16 - (q ++ [i]).length = 15 - q.length by simp] at this
    rw [sum_mul, sum_mul, ← e] at h3
    have e2 : (16 - q.length) * (Shape.node ch).elems.length =
        (15 - q.length) * (Shape.node ch).elems.length + (Shape.node ch).elems.length := by
      rw [show 16 - q.length = (15 - q.length) + 1 by omega, Nat.add_mul, Nat.one_mul]
    simp only [Shape.inners]
    omega

theorem Canonical.leaves_le {T : Shape P} : ∀ {q : List (Fin 16)}, Canonical cfg A q T → T.leaves ≤ T.elems.length := by
  induction T with
  | null => intro q h; simp [Shape.leaves]
  | leaf l =>
    intro q h
    have := h.1
    simp only [Shape.leaves, Shape.elems]
    exact List.length_pos_iff.mpr this
  | node ch ih =>
    intro q h
    have e : (Shape.node ch).elems.length = ((List.finRange 16).map (fun i => (ch i).elems.length)).sum := by
      simp [Shape.elems, List.length_flatMap]
    rw [e]
    exact sum_le_sum _ _ _ (fun i _ => ih i (h.2.2 i))

/-- The nodes below a cell. -/
inductive Hangs (m : Mem P) : Word → Nat → Prop
  | here {w : Word} {a : Nat} (h : w.ptr = some a) : Hangs m w a
  | down {w : Word} {a b : Nat} {c : Fin 16 → Word} {q : List (Fin 16)} {i : Fin 16} (h : w.ptr = some b)
      (hm : m.mem b = some (.inner c q)) (hb : Hangs m (c i) a) : Hangs m w a

theorem Hangs.trans {m : Mem P} {w : Word} {a b : Nat} {c : Fin 16 → Word} {q : List (Fin 16)} {i : Fin 16} (hb : Hangs m w b)
    (hm : m.mem b = some (.inner c q)) (h : (c i).ptr = some a) : Hangs m w a := by
  induction hb with
  | here h' => exact .down h' hm (.here h)
  | down h1 h2 _ ih => exact .down h1 h2 (ih hm)

theorem Linked.under {m : Mem P} {a : Nat} (h : Linked m a) : Hangs m m.root a := by
  induction h with
  | root h => exact .here h
  | cell _ hm h ih => exact ih.trans hm h

theorem deref_mem {m : Mem P} {a : Nat} {nd : Node P} (h : m.deref a = some nd) : m.mem a = some nd := by
  simp only [Mem.deref] at h
  split at h
  · cases h
  · exact h

/-- The addresses of the nodes of a trie. -/
theorem HasShape.addrs {m : Mem P} {w : Word} {T : Shape P} (h : HasShape m w T) : ∃ inn dat : List Nat,
    inn.length = T.inners ∧ dat.length = T.leaves ∧ ∀ a, Hangs m w a →
      (∃ c q, m.mem a = some (.inner c q) ∧ a ∈ inn) ∨ (∃ l, m.mem a = some (.data l) ∧ a ∈ dat) := by
  induction h with
  | null hp =>
    refine ⟨[], [], rfl, rfl, fun a ha => ?_⟩
    cases ha with
    | here h => rw [hp] at h; cases h
    | down h => rw [hp] at h; cases h
  | @leaf w a l hp hd hm =>
    have hm' := deref_mem hm
    refine ⟨[], [a], rfl, rfl, fun b hb => Or.inr ?_⟩
    cases hb with
    | here h => rw [hp] at h; cases h; exact ⟨l, hm', by simp⟩
    | down h h2 => rw [hp] at h; cases h; rw [hm'] at h2; cases h2
  | @node w a c p ch hp hd hm hsub ih =>
    have hm' := deref_mem hm
    choose inn dat h1 h2 h3 using ih
    refine ⟨a :: (List.finRange 16).flatMap inn, (List.finRange 16).flatMap dat, ?_, ?_, ?_⟩
    · simp only [List.length_cons, List.length_flatMap, Shape.inners, h1]; omega
    · simp only [List.length_flatMap, Shape.leaves, h2]
    · intro b hb
      cases hb with
      | here h => rw [hp] at h; cases h; exact Or.inl ⟨c, p, hm', by simp⟩
      | @down _ _ b' c' q' i h g hb =>
        rw [hp] at h; cases h
        rw [hm'] at g; cases g
        rcases h3 i b hb with ⟨c2, q2, e1, e2⟩ | ⟨l, e1, e2⟩
        · refine Or.inl ⟨c2, q2, e1, List.mem_cons_of_mem _ ?_⟩
          exact List.mem_flatMap.mpr ⟨i, List.mem_finRange i, e2⟩
        · exact Or.inr ⟨l, e1, List.mem_flatMap.mpr ⟨i, List.mem_finRange i, e2⟩⟩

end Contrie
