import Verif.Proof.Path
import Verif.Props.Serial
import Verif.Proof.Size
/-
C51: an operation only touches the cells on the hash path of its key.
-/
set_option linter.unusedSectionVars false
namespace Contrie
variable {K P : Type} [DecidableEq K] {cfg : Config K P}

/-- Node `a` hangs in the trie at position `q`: following the cells with the indices `q` from the root leads to it. -/
inductive HangsAt (m : Mem P) : Nat → List (Fin 16) → Prop
  | root {a : Nat} (h : m.root.ptr = some a) : HangsAt m a []
  | cell {a b : Nat} {c : Fin 16 → Word} {p q : List (Fin 16)} {i : Fin 16} (hb : HangsAt m b q) (hm : m.mem b = some (.inner c p))
      (h : (c i).ptr = some a) : HangsAt m a (q ++ [i])

theorem hangsAt_iff {A : Nat → AMap K P} {m : Mem P} (h : MemInv cfg A m) {a : Nat} {q : List (Fin 16)} :
    HangsAt m a q ↔ ∃ w, m.follow m.root q = some w ∧ w.ptr = some a := by
  constructor
  · intro hl
    induction hl with
    | root hr => exact ⟨m.root.erase, rfl, hr⟩
    | @cell a b c p q i hb hm hp ih =>
      obtain ⟨w, hf, hw⟩ := ih
      have hok := h.path_ok hf
      cases hd : w.data with
      | true => obtain ⟨l, hl, -⟩ := hok.of_data hw hd; rw [hm] at hl; cases hl
      | false =>
        refine ⟨(c i).erase, ?_, hp⟩
        rw [follow_append' hf]
        simp [Mem.follow, cellsOf_inner hw hd hm]
  · rintro ⟨w, hf, hw⟩
    have key : ∀ (q q0 : List (Fin 16)) (w0 w : Word) (a : Nat), (∀ b, w0.ptr = some b → HangsAt m b q0) →
        m.follow w0 q = some w → w.ptr = some a → HangsAt m a (q0 ++ q) := by
      intro q
      induction q with
      | nil => intro q0 w0 w a h0 hf hw; simp [Mem.follow] at hf; subst hf; simpa using h0 a hw
      | cons i q ih =>
        intro q0 w0 w a h0 hf hw
        simp only [Mem.follow] at hf
        cases hc : m.cellsOf w0 with
        | none => simp [hc] at hf
        | some c =>
          simp only [hc] at hf
          have := ih (q0 ++ [i]) (c i) w a ?_ hf hw
          · simpa using this
          intro b hb
          simp only [Mem.cellsOf] at hc
          cases hp : w0.ptr with
          | none => simp [hp] at hc
          | some b0 =>
            simp only [hp] at hc
            split at hc
            · cases hc
            · split at hc
              · next c' q' hm => cases hc; exact .cell (h0 b0 hp) hm hb
              · cases hc
    simpa using key q [] m.root w a (fun b hb => .root hb) hf hw

/-- An inner node was linked, at its path, at some instant. -/
theorem Exec.inner_linked (E : Exec cfg) {i a : Nat} {c : Fin 16 → Word} {q : List (Fin 16)} (h : (E.st i).m.mem a = some (.inner c q)) :
    ∃ τ, τ ≤ i ∧ HangsAt (E.st τ).m a q := by
  cases hr : (E.st i).m.retired a with
  | none => exact ⟨i, Nat.le_refl _, (hangsAt_iff (E.inv i).mem).mpr ⟨_, (E.inv i).mem.inner_at h hr, rfl⟩⟩
  | some τ =>
    obtain ⟨h1, h2, h3, -⟩ := C07_retired_once E hr
    obtain ⟨q', w, hf, hw⟩ := (linked_iff (E.inv τ).mem).mp h2
    have hok := (E.inv τ).mem.path_ok hf
    have hkeep : ∀ k, (∃ l, (E.st τ).m.mem a = some (.data l) ∧ (E.st (τ + k)).m.mem a = some (.data l)) ∨
        (∃ c c', (E.st τ).m.mem a = some (.inner c q') ∧ (E.st (τ + k)).m.mem a = some (.inner c' q')) := by
      intro k
      induction k with
      | zero =>
        cases hd : w.data with
        | true => obtain ⟨l, hl, -⟩ := hok.of_data hw hd; exact .inl ⟨l, hl, hl⟩
        | false => obtain ⟨c, hc⟩ := hok.of_inner hw hd; exact .inr ⟨c, c, hc, hc⟩
      | succ k ih =>
        rcases ih with ⟨l, g1, g2⟩ | ⟨c1, c2, g1, g2⟩
        · exact .inl ⟨l, g1, (E.stepOK (τ + k)).evo.data _ _ g2⟩
        · obtain ⟨c3, g3, -⟩ := (E.stepOK (τ + k)).evo.inner _ _ _ g2
          exact .inr ⟨c1, c3, g1, g3⟩
    have := hkeep (i - τ)
    rw [show τ + (i - τ) = i by omega] at this
    rcases this with ⟨l, -, g2⟩ | ⟨c1, c2, g1, g2⟩
    · rw [h] at g2; cases g2
    · rw [h] at g2; cases g2
      exact ⟨τ, by omega, (hangsAt_iff (E.inv τ).mem).mpr ⟨w, hf, hw⟩⟩

theorem Exec.inner_keep (E : Exec cfg) {i a : Nat} {c : Fin 16 → Word} {q : List (Fin 16)} (h : (E.st i).m.mem a = some (.inner c q))
    {j : Nat} (hij : i ≤ j) : ∃ c', (E.st j).m.mem a = some (.inner c' q) := by
  obtain ⟨k, rfl⟩ := Nat.exists_eq_add_of_le hij
  clear hij
  induction k with
  | zero => exact ⟨c, h⟩
  | succ k ih =>
    obtain ⟨c', g⟩ := ih
    obtain ⟨c'', g', -⟩ := (E.stepOK (i + k)).evo.inner _ _ _ g
    exact ⟨c'', g'⟩

/-- The cell is the one the hash of `k` leads to: the root, or the cell of an inner node. -/
def Exec.CellOnPath (E : Exec cfg) (i : Nat) (k : K) : Loc → Prop
  | .root => True
  | .slot a j => ∃ q, HashStarts cfg (q ++ [j]) k ∧ ∃ τ, τ ≤ i ∧ HangsAt (E.st τ).m a q

/-- Is the call sweeping over all the sixteen cells of a node: counting what is left in it, or condemning its cells? -/
def PC.sweeps : PC K P → Bool
  | .count .. => true
  | .prune .. => true
  | _ => false

theorem LocAt.onPath (E : Exec cfg) {i s : Nat} {k : K} {loc : Loc} {q : List (Fin 16)} (h : LocAt (E.st i).m s loc q)
    (hq : q <+: nibs (cfg.hash k)) : E.CellOnPath i k loc := by
  cases loc with
  | root => trivial
  | slot a j =>
    obtain ⟨c, p, hm, rfl, -⟩ := h
    exact ⟨p, hashStarts_iff.mpr hq, E.inner_linked hm⟩

/-- **C51**, exact cells: apart from sweeping over the cells of a node that may have to be cleared away, a call about key `k` (searching its
key, replacing what it found, replacing an inner node) accesses the root and the very cells on the hash path of `k` only: cell `j` of a node
that hangs (or hung) at position `q` in the trie, where the hash of `k` starts with `q` and `j`. -/
theorem C51_exact_cells (E : Exec cfg) {i t : Nat} {c : Call K P} (hc : E.Running i t c) {o : Op K P} (ho : c.req = .op o)
    (hs : c.pc.sweeps = false) {O : Orders} {loc : Loc} {ord : LoadOrd} (ha : c.pc.access O = some (loc, ord)) :
    E.CellOnPath i (o.key cfg.key) loc := by
  have hi := E.run_pcinv hc
  cases hpc : c.pc with
  | get key hash cur =>
    simp only [PCInv, hpc] at hi
    simp only [hpc, PC.access, Option.some.injEq, Prod.mk.injEq] at ha
    obtain ⟨h1, -, d, -, -, -, hl⟩ := hi
    rw [ho] at h1; cases h1
    rw [ha.1] at hl
    exact hl.onPath E (pre_prefix _ _)
  | isEmpty => simp only [PCInv, hpc] at hi; rw [ho] at hi; cases hi.1
  | iterNew => simp only [PCInv, hpc] at hi; rw [ho] at hi; cases hi.1
  | iterNext lv out => simp only [PCInv, hpc] at hi; rw [ho] at hi; cases hi.1
  | trav st hash mode shift cur parent =>
    simp only [PCInv, hpc] at hi
    simp only [hpc, PC.access, Option.some.injEq, Prod.mk.injEq] at ha
    obtain ⟨d, -, hat⟩ := hi
    obtain ⟨o', ho', hk⟩ := hat.req.key
    rw [ho] at ho'; cases ho'
    rw [← ha.1]
    exact hat.loc.onPath E (by rw [hk, hat.hashEq]; exact pre_prefix _ _)
  | travCas st hash mode shift cur parent node new kind =>
    simp only [PCInv, hpc] at hi
    simp only [hpc, PC.access, Option.some.injEq, Prod.mk.injEq] at ha
    obtain ⟨d, -, hat, -⟩ := hi
    obtain ⟨o', ho', hk⟩ := hat.req.key
    rw [ho] at ho'; cases ho'
    rw [← ha.1]
    exact hat.loc.onPath E (by rw [hk, hat.hashEq]; exact pre_prefix _ _)
  | rem key shift cur levels =>
    simp only [PCInv, hpc] at hi
    simp only [hpc, PC.access, Option.some.injEq, Prod.mk.injEq] at ha
    obtain ⟨h1, -, d, -, hat⟩ := hi
    rw [ho] at h1; cases h1
    rw [← ha.1]
    exact hat.loc.onPath E (pre_prefix _ _)
  | remCas key shift cur levels node new deleted =>
    simp only [PCInv, hpc] at hi
    simp only [hpc, PC.access, Option.some.injEq, Prod.mk.injEq] at ha
    obtain ⟨h1, -, d, a, items, -, hat, -⟩ := hi
    rw [ho] at h1; cases h1
    rw [← ha.1]
    exact hat.loc.onPath E (pre_prefix _ _)
  | count => rw [hpc] at hs; cases hs
  | prune => rw [hpc] at hs; cases hs
  | pruneCas parent child acc k =>
    simp only [hpc, PC.access, Option.some.injEq, Prod.mk.injEq] at ha
    simp only [PCInv, hpc] at hi
    obtain ⟨-, b, c', q, h1, h2, -, h4, -⟩ := hi
    have hp := E.pairs_path i t c o hc ho
    rw [hpc] at hp
    obtain ⟨b', c'', q', g1, g2, g3⟩ := hp (parent, child) (by simp [PC.pairs])
    simp only [h1, Option.some.injEq] at g1
    subst g1
    rw [h2] at g2; cases g2
    rw [← ha.1]
    exact h4.onPath E g3

/-- **C51.** Every access of a call about key `k`, also while it clears away inner nodes, goes to the root or to a cell of a node on the hash
path of `k`: a node that hangs (or hung) at a position `q` the hash of `k` starts with. -/
theorem C51_path_only (E : Exec cfg) {i t : Nat} {c : Call K P} (hc : E.Running i t c) {o : Op K P} (ho : c.req = .op o) {O : Orders}
    {a : Nat} {j : Fin 16} {ord : LoadOrd} (ha : c.pc.access O = some (.slot a j, ord)) :
    ∃ q, HashStarts cfg q (o.key cfg.key) ∧ ∃ τ, τ ≤ i ∧ HangsAt (E.st τ).m a q := by
  have hpairs := E.pairs_path i t c o hc ho
  have fin : ∀ w, OnPath cfg (E.st i).m (o.key cfg.key) w → w.ptr = some a →
      ∃ q, HashStarts cfg q (o.key cfg.key) ∧ ∃ τ, τ ≤ i ∧ HangsAt (E.st τ).m a q := by
    rintro w ⟨a', c', q, h1, h2, h3⟩ hw
    rw [hw] at h1; cases h1
    exact ⟨q, hashStarts_iff.mpr h3, E.inner_linked h2⟩
  cases hs : c.pc.sweeps with
  | false =>
    obtain ⟨q, h1, h2⟩ := C51_exact_cells E hc ho hs ha
    exact ⟨q, HashStarts.back h1 |>.1, h2⟩
  | true =>
    cases hpc : c.pc with
    | count deleted ref parent child rest i' cnt =>
      simp only [hpc, PC.access, Option.map_eq_some_iff, Prod.mk.injEq, Loc.slot.injEq] at ha
      obtain ⟨b, hb, ⟨rfl, -⟩, -⟩ := ha
      rw [hpc] at hpairs
      exact fin child (hpairs (parent, child) (by simp [PC.pairs])) hb
    | prune parent child i' acc k =>
      simp only [hpc, PC.access, Option.map_eq_some_iff, Prod.mk.injEq, Loc.slot.injEq] at ha
      obtain ⟨b, hb, ⟨rfl, -⟩, -⟩ := ha
      rw [hpc] at hpairs
      exact fin child (hpairs (parent, child) (by simp [PC.pairs])) hb
    | _ => rw [hpc] at hs; cases hs

/-- **C51**, places are fixed: an inner node never moves. (A leaf does: down when an inner node is put above it, up when its inner node is
cleared away.) -/
theorem C51_place_fixed (E : Exec cfg) {i i' a : Nat} {c c' : Fin 16 → Word} {p p' q q' : List (Fin 16)}
    (hl : HangsAt (E.st i).m a q) (hm : (E.st i).m.mem a = some (.inner c p))
    (hl' : HangsAt (E.st i').m a q') (hm' : (E.st i').m.mem a = some (.inner c' p')) : q = q' := by
  have key : ∀ {i : Nat} {c p q}, HangsAt (E.st i).m a q → (E.st i).m.mem a = some (.inner c p) → p = q := by
    intro i c p q hl hm
    obtain ⟨w, hf, hw⟩ := (hangsAt_iff (E.inv i).mem).mp hl
    have hok := (E.inv i).mem.path_ok hf
    cases hd : w.data with
    | true => obtain ⟨l, hl, -⟩ := hok.of_data hw hd; rw [hm] at hl; cases hl
    | false => obtain ⟨c, hc⟩ := hok.of_inner hw hd; rw [hm] at hc; cases hc; rfl
  have e1 := key hl hm
  have e2 := key hl' hm'
  subst e1 e2
  rcases Nat.le_total i i' with h | h
  · obtain ⟨c2, h2⟩ := E.inner_keep hm h
    rw [hm'] at h2; cases h2; rfl
  · obtain ⟨c2, h2⟩ := E.inner_keep hm' h
    rw [hm] at h2; cases h2; rfl

/-- An access to a slot is an access to an inner node. -/
theorem Exec.access_inner (E : Exec cfg) {i t : Nat} {c : Call K P} (hc : E.Running i t c) {O : Orders} {a : Nat} {j : Fin 16} {ord : LoadOrd}
    (ha : c.pc.access O = some (.slot a j, ord)) : ∃ cells q, (E.st i).m.mem a = some (.inner cells q) := by
  have hi := E.run_pcinv hc
  have loc : ∀ {s : Nat} {l : Loc} {q : List (Fin 16)}, LocAt (E.st i).m s l q → l = .slot a j →
      ∃ cells q, (E.st i).m.mem a = some (.inner cells q) := by
    rintro s l q h rfl
    obtain ⟨c, p, hm, -⟩ := h
    exact ⟨c, p, hm⟩
  cases hpc : c.pc with
  | get key hash cur =>
    simp only [PCInv, hpc] at hi
    simp only [hpc, PC.access, Option.some.injEq, Prod.mk.injEq] at ha
    obtain ⟨-, -, d, -, -, -, hl⟩ := hi
    exact loc hl ha.1
  | isEmpty => rw [hpc] at ha; simp [PC.access] at ha
  | iterNew => rw [hpc] at ha; simp [PC.access] at ha
  | iterNext lv out =>
    simp only [PCInv, hpc] at hi
    obtain ⟨-, -, qs, hit⟩ := hi
    rw [hpc] at ha
    simp only [PC.access] at ha
    cases lv with
    | nil => cases ha
    | cons x rest =>
      obtain ⟨w, idx⟩ := x
      simp only at ha
      cases hp : w.ptr with
      | none => simp [hp] at ha
      | some b =>
        cases hd : w.data with
        | true => simp [hp, hd] at ha
        | false =>
          simp only [hp, hd, Bool.false_eq_true, ↓reduceIte] at ha
          split at ha
          · simp only [Option.some.injEq, Prod.mk.injEq, Loc.slot.injEq] at ha
            obtain ⟨⟨rfl, -⟩, -⟩ := ha
            have : ∃ q, WordOK cfg (E.st i).m w q := by
              have hst := hit.stack
              cases hst <;> exact ⟨_, ‹_›⟩
            obtain ⟨q, hw⟩ := this
            obtain ⟨c', hc'⟩ := hw.of_inner hp hd
            exact ⟨c', q, hc'⟩
          · cases ha
  | trav st hash mode shift cur parent =>
    simp only [PCInv, hpc] at hi
    simp only [hpc, PC.access, Option.some.injEq, Prod.mk.injEq] at ha
    obtain ⟨d, -, hat⟩ := hi
    exact loc hat.loc ha.1
  | travCas st hash mode shift cur parent node new kind =>
    simp only [PCInv, hpc] at hi
    simp only [hpc, PC.access, Option.some.injEq, Prod.mk.injEq] at ha
    obtain ⟨d, -, hat, -⟩ := hi
    exact loc hat.loc ha.1
  | rem key shift cur levels =>
    simp only [PCInv, hpc] at hi
    simp only [hpc, PC.access, Option.some.injEq, Prod.mk.injEq] at ha
    obtain ⟨-, -, d, -, hat⟩ := hi
    exact loc hat.loc ha.1
  | remCas key shift cur levels node new deleted =>
    simp only [PCInv, hpc] at hi
    simp only [hpc, PC.access, Option.some.injEq, Prod.mk.injEq] at ha
    obtain ⟨-, -, d, a', items, -, hat, -⟩ := hi
    exact loc hat.loc ha.1
  | count deleted ref parent child rest i' cnt =>
    simp only [PCInv, hpc] at hi
    simp only [hpc, PC.access, Option.map_eq_some_iff, Prod.mk.injEq, Loc.slot.injEq] at ha
    obtain ⟨b, hb, ⟨rfl, -⟩, -⟩ := ha
    obtain ⟨-, -, -, b', c', q, h1, h2, -⟩ := hi
    simp only at h1
    subst h1
    simp only [Option.some.injEq] at hb
    subst hb
    exact ⟨c', q, h2⟩
  | prune parent child i' acc k =>
    simp only [PCInv, hpc] at hi
    simp only [hpc, PC.access, Option.map_eq_some_iff, Prod.mk.injEq, Loc.slot.injEq] at ha
    obtain ⟨b, hb, ⟨rfl, -⟩, -⟩ := ha
    obtain ⟨-, b', c', q, h1, h2, -⟩ := hi
    subst h1
    simp only [Option.some.injEq] at hb
    subst hb
    exact ⟨c', q, h2⟩
  | pruneCas parent child acc k =>
    simp only [PCInv, hpc] at hi
    simp only [hpc, PC.access, Option.some.injEq, Prod.mk.injEq] at ha
    obtain ⟨-, b', c', q, h1, h2, -, h4, -⟩ := hi
    exact loc h4 ha.1

theorem Exec.place (E : Exec cfg) {i i' τ τ' a : Nat} {c c' : Fin 16 → Word} {p p' q q' : List (Fin 16)}
    (hm : (E.st i).m.mem a = some (.inner c p)) (hm' : (E.st i').m.mem a = some (.inner c' p'))
    (hτ : τ ≤ i) (hτ' : τ' ≤ i') (hl : HangsAt (E.st τ).m a q) (hl' : HangsAt (E.st τ').m a q') : q = q' := by
  have key : ∀ {i τ : Nat} {c p q}, τ ≤ i → (E.st i).m.mem a = some (.inner c p) → HangsAt (E.st τ).m a q → ∃ c p, (E.st τ).m.mem a = some (.inner c p) := by
    intro i τ c p q hτ hm hl
    obtain ⟨w, hf, hw⟩ := (hangsAt_iff (E.inv τ).mem).mp hl
    have hok := (E.inv τ).mem.path_ok hf
    cases hd : w.data with
    | false => obtain ⟨c, hc⟩ := hok.of_inner hw hd; exact ⟨c, _, hc⟩
    | true =>
      exfalso
      obtain ⟨l, hl, -⟩ := hok.of_data hw hd
      have : ∀ k, (E.st (τ + k)).m.mem a = some (.data l) := by
        intro k
        induction k with
        | zero => exact hl
        | succ k ih => exact (E.stepOK (τ + k)).evo.data _ _ ih
      have := this (i - τ)
      rw [show τ + (i - τ) = i by omega, hm] at this
      cases this
  obtain ⟨c1, p1, h1⟩ := key hτ hm hl
  obtain ⟨c2, p2, h2⟩ := key hτ' hm' hl'
  exact C51_place_fixed E hl h1 hl' h2

/-- **C51**, disjointness: if two calls, about keys whose hashes differ in group `d` of four bits, ever access the same inner node (at whatever
instants), then this node hangs (or hung) at depth `d` at most in the trie. So below the depth where their hashes part, two operations never
touch the same memory. -/
theorem C51_disjoint (E : Exec cfg) {i i' t t' : Nat} {c c' : Call K P} (hc : E.Running i t c) (hc' : E.Running i' t' c') {o o' : Op K P}
    (ho : c.req = .op o) (ho' : c'.req = .op o') {O : Orders} {a : Nat} {j j' : Fin 16} {ord ord' : LoadOrd}
    (ha : c.pc.access O = some (.slot a j, ord)) (ha' : c'.pc.access O = some (.slot a j', ord')) {d : Nat}
    (hd : bitsAt (cfg.hash (o.key cfg.key)) (LEVEL_BITS * d) ≠ bitsAt (cfg.hash (o'.key cfg.key)) (LEVEL_BITS * d)) :
    ∃ q, q.length ≤ d ∧ HashStarts cfg q (o.key cfg.key) ∧ HashStarts cfg q (o'.key cfg.key) ∧ ∃ τ, τ ≤ i ∧ HangsAt (E.st τ).m a q := by
  obtain ⟨q, h1, τ, h2, h3⟩ := C51_path_only E hc ho ha
  obtain ⟨q', h1', τ', h2', h3'⟩ := C51_path_only E hc' ho' ha'
  obtain ⟨c1, p1, hm1⟩ := E.access_inner hc ha
  obtain ⟨c2, p2, hm2⟩ := E.access_inner hc' ha'
  have e := E.place hm1 hm2 h2 h2' h3 h3'
  subst e
  refine ⟨q, ?_, h1, h1', τ, h2, h3⟩
  rcases Nat.lt_or_ge d q.length with hlt | hge
  · exact absurd ((h1.2 d hlt).symm.trans (h1'.2 d hlt)) hd
  · exact hge

/-- **C51**, disjointness of cells: if moreover neither call is sweeping over the cells of a node, then they access the same cell only if the
node hangs at a depth less than `d`. In particular, if already the first group of bits differs, they meet at the root only. -/
theorem C51_disjoint_cells (E : Exec cfg) {i i' t t' : Nat} {c c' : Call K P} (hc : E.Running i t c) (hc' : E.Running i' t' c') {o o' : Op K P}
    (ho : c.req = .op o) (ho' : c'.req = .op o') (hs : c.pc.sweeps = false) (hs' : c'.pc.sweeps = false) {O : Orders} {a : Nat} {j : Fin 16}
    {ord ord' : LoadOrd} (ha : c.pc.access O = some (.slot a j, ord)) (ha' : c'.pc.access O = some (.slot a j, ord')) {d : Nat}
    (hd : bitsAt (cfg.hash (o.key cfg.key)) (LEVEL_BITS * d) ≠ bitsAt (cfg.hash (o'.key cfg.key)) (LEVEL_BITS * d)) :
    ∃ q, q.length < d ∧ HashStarts cfg (q ++ [j]) (o.key cfg.key) ∧ HashStarts cfg (q ++ [j]) (o'.key cfg.key) ∧
      ∃ τ, τ ≤ i ∧ HangsAt (E.st τ).m a q := by
  obtain ⟨q, h1, τ, h2, h3⟩ := C51_exact_cells E hc ho hs ha
  obtain ⟨q', h1', τ', h2', h3'⟩ := C51_exact_cells E hc' ho' hs' ha'
  obtain ⟨c1, p1, hm1⟩ := E.access_inner hc ha
  obtain ⟨c2, p2, hm2⟩ := E.access_inner hc' ha'
  have e := E.place hm1 hm2 h2 h2' h3 h3'
  subst e
  refine ⟨q, ?_, h1, h1', τ, h2, h3⟩
  rcases Nat.lt_or_ge d (q ++ [j]).length with hlt | hge
  · exact absurd ((h1.2 d hlt).symm.trans (h1'.2 d hlt)) hd
  · simp at hge; omega

/-- Calls that change nothing: lookups, `is_empty` and iterations. -/
def PC.readsOnly : PC K P → Bool
  | .get .. => true
  | .isEmpty => true
  | .iterNew => true
  | .iterNext .. => true
  | _ => false

/-- A cell changes only in a step of an update. -/
theorem Exec.updater_of_change (E : Exec cfg) {i : Nat} {l : Loc} {w w' : Word} (h : (E.st i).m.read l = some w)
    (h' : (E.st (i + 1)).m.read l = some w') (hne : w ≠ w') :
    ∃ t weak c o, E.lab i = .tick t weak ∧ E.Running i t c ∧ c.req = .op o ∧ c.req.isUpdate = true := by
  obtain ⟨t, weak, c, ord, h1, h2, h3⟩ := E.cell_changed h h' hne .code
  have hi := E.run_pcinv h2
  have hro : c.pc.readsOnly = false := by
    cases hr : c.pc.readsOnly with
    | false => rfl
    | true =>
      exfalso
      have hm : (tick cfg (E.st i).m weak c.pc).1 = (E.st i).m := by
        cases hpc : c.pc <;> rw [hpc] at hr <;> first | rfl | cases hr
      have hs := E.step i
      rw [h1] at hs
      simp only [Contrie.step, h2, Option.some.injEq, Prod.mk.injEq] at hs
      have : (E.st (i + 1)).m.read l = (E.st i).m.read l := by
        rw [← hs.1, hm]; cases l <;> rfl
      rw [h, h'] at this
      cases this
      exact hne rfl
  have : ∃ o, c.req = .op o ∧ c.req.isUpdate = true := by
    have trav : ∀ {mode st}, TravReq cfg c.req mode st c.calls → ∃ o, c.req = .op o ∧ c.req.isUpdate = true := by
      intro mode st ht
      generalize c.req = r at ht
      generalize c.calls = n at ht
      cases ht <;> exact ⟨_, rfl, rfl⟩
    have cont : ∀ {k : Cont K P}, ContOK cfg (E.st i).m c.inv c.req c.calls k → ∃ o, c.req = .op o ∧ c.req.isUpdate = true := by
      intro k hk
      cases k with
      | trav st hash mode => exact trav hk.1
      | rem key => rw [hk.1]; exact ⟨_, rfl, rfl⟩
      | clean d r rest => obtain ⟨⟨⟨k, hk⟩, -⟩, -⟩ := hk; rw [hk]; exact ⟨_, rfl, rfl⟩
    cases hpc : c.pc with
    | get => rw [hpc] at hro; cases hro
    | isEmpty => rw [hpc] at hro; cases hro
    | iterNew => rw [hpc] at hro; cases hro
    | iterNext => rw [hpc] at hro; cases hro
    | trav st hash mode shift cur parent => simp only [PCInv, hpc] at hi; obtain ⟨d, -, hat⟩ := hi; exact trav hat.req
    | travCas st hash mode shift cur parent node new kind => simp only [PCInv, hpc] at hi; obtain ⟨d, -, hat, -⟩ := hi; exact trav hat.req
    | rem key shift cur levels => simp only [PCInv, hpc] at hi; rw [hi.1]; exact ⟨_, rfl, rfl⟩
    | remCas key shift cur levels node new deleted => simp only [PCInv, hpc] at hi; rw [hi.1]; exact ⟨_, rfl, rfl⟩
    | count deleted ref parent child rest i' cnt => simp only [PCInv, hpc] at hi; obtain ⟨⟨k, hk⟩, -⟩ := hi; rw [hk]; exact ⟨_, rfl, rfl⟩
    | prune parent child i' acc k => simp only [PCInv, hpc] at hi; exact cont hi.1
    | pruneCas parent child acc k => simp only [PCInv, hpc] at hi; exact cont hi.1
  obtain ⟨o, ho, hu⟩ := this
  exact ⟨t, weak, c, o, h1, h2, ho, hu⟩

/-- **C51**, only the path is written: if the contents of a cell of an inner node changes in a step, then this is a step of an insertion,
`get_or_insert_with` or removal, and the node lies on the hash path of its key. -/
theorem C51_writes_on_path (E : Exec cfg) {i a : Nat} {j : Fin 16} {w w' : Word} (h : (E.st i).m.read (.slot a j) = some w)
    (h' : (E.st (i + 1)).m.read (.slot a j) = some w') (hne : w ≠ w') :
    ∃ t weak c o, E.lab i = .tick t weak ∧ E.Running i t c ∧ c.req = .op o ∧ c.req.isUpdate = true ∧
      ∃ q, HashStarts cfg q (o.key cfg.key) ∧ ∃ τ, τ ≤ i ∧ HangsAt (E.st τ).m a q := by
  obtain ⟨t, weak, c, ord, h1, h2, h3⟩ := E.cell_changed h h' hne .code
  obtain ⟨t', weak', c', o, g1, g2, ho, hu⟩ := E.updater_of_change h h' hne
  rw [h1] at g1; cases g1
  rw [Exec.Running, h2] at g2; cases g2
  exact ⟨t, weak, c, o, h1, h2, ho, hu, C51_path_only E h2 ho h3⟩

theorem Exec.inner_of_slot (E : Exec cfg) {i a : Nat} {n : Fin 16} {w : Word} (h : (E.st i).m.read (.slot a n) = some w) :
    ∃ c p, (E.st i).m.mem a = some (.inner c p) := by
  simp only [Mem.read] at h
  split at h
  · next c p hd =>
    refine ⟨c, p, ?_⟩
    simp only [Mem.deref] at hd
    split at hd <;> first | exact hd | cases hd
  · cases h

/-- Non-vacuity: in the run `exLook`, `get(7)` accesses cell 0, and later `remove(23)` cell 1 (searching) and cell 0 (sweeping), of the same inner
node 2. The hashes of 7 and 23 differ in the second group of bits: the node is at depth 1, and so it hangs at `[7]`. -/
example : ∃ (E : Exec exCfg) (c c' : Call Nat (Nat × Nat)), E.Running 23 1 c ∧ E.Running 25 2 c' ∧ c.req = .op (.get 7) ∧ c'.req = .op (.remove 23) ∧
    c.pc.access .code = some (.slot 2 0, .consume) ∧ c'.pc.access .code = some (.slot 2 1, .consume) ∧
    bitsAt (exCfg.hash 7) (LEVEL_BITS * 1) ≠ bitsAt (exCfg.hash 23) (LEVEL_BITS * 1) ∧ c.pc.sweeps = false ∧
    (∃ c'', E.Running 27 2 c'' ∧ c''.pc.sweeps = true ∧ c''.pc.access .code = some (.slot 2 0, .relaxed)) ∧ HangsAt (E.st 23).m 2 [7] := by
  obtain ⟨E, h1, -, -⟩ := Exec.ofCheck' (cfg := exCfg) 4 (ls := exLook) (by decide)
  refine ⟨E, ((stAt exCfg exLook 23).thr 1).run.get (by rfl), ((stAt exCfg exLook 25).thr 2).run.get (by rfl), (by rw [Exec.Running, h1]; exact (Option.some_get _).symm),
    (by rw [Exec.Running, h1]; exact (Option.some_get _).symm), rfl, rfl, rfl, rfl, by decide, rfl,
    ⟨((stAt exCfg exLook 27).thr 2).run.get (by rfl), (by rw [Exec.Running, h1]; exact (Option.some_get _).symm), rfl, rfl⟩, ?_⟩
  rw [h1]
  exact HangsAt.cell (b := 1) (q := []) (i := 7) (.root rfl) rfl rfl

end Contrie
