import Verif.Model.Drop
import Verif.Props.Memory
/-
Dropping a trie.
-/
set_option linter.unusedSectionVars false
namespace Contrie
variable {K P : Type} [DecidableEq K]

theorem released_append (l l' : List (Release P)) : released (l ++ l') = released l ++ released l' := List.filterMap_append
theorem destructed_append (l l' : List (Release P)) : destructed (l ++ l') = destructed l ++ destructed l' := List.filterMap_append

theorem mem_released {l : List (Release P)} {a : Nat} : a ∈ released l ↔ ∃ k, .dealloc a k ∈ l := by
  simp only [released, List.mem_filterMap]
  constructor
  · rintro ⟨x, h1, h2⟩
    cases x with
    | dealloc b k => cases h2; exact ⟨k, h1⟩
    | destruct p => cases h2
  · rintro ⟨k, h⟩; exact ⟨_, h, rfl⟩

theorem mem_destructed {l : List (Release P)} {p : P} : p ∈ destructed l ↔ .destruct p ∈ l := by
  simp only [destructed, List.mem_filterMap]
  constructor
  · rintro ⟨x, h1, h2⟩
    cases x with
    | dealloc b k => cases h2
    | destruct p => cases h2; exact h1
  · intro h; exact ⟨_, h, rfl⟩

theorem released_dropData (fix : Bool) (a : Nat) (items : List P) : released (dropData fix a items) = [a] := by
  cases fix with
  | false => rfl
  | true =>
    simp only [dropData, if_true, released_append]
    have : released (items.map Release.destruct) = [] := by
      induction items with
      | nil => rfl
      | cons x l ih => simpa [released] using ih
    rw [this]; rfl

theorem destructed_dropData (fix : Bool) (a : Nat) (items : List P) : destructed (dropData fix a items) = if fix then items else [] := by
  cases fix with
  | false => rfl
  | true =>
    simp only [dropData, if_true, destructed_append]
    have : destructed (items.map Release.destruct) = items := by
      induction items with
      | nil => rfl
      | cons x l ih => simpa [destructed] using ih
    rw [this]; simp [destructed]

/-- Node `a` hangs below a cell containing `w`. -/
def Below (m : Mem P) (w : Word) (a : Nat) : Prop := ∃ r w', m.follow w r = some w' ∧ w'.ptr = some a

/-- `p` is in a data node below a cell containing `w`. -/
def ElemBelow (m : Mem P) (w : Word) (p : P) : Prop :=
  ∃ r w' a l, m.follow w r = some w' ∧ w'.ptr = some a ∧ w'.data = true ∧ m.mem a = some (.data l) ∧ p ∈ l

variable {cfg : Config K P} {A : Nat → AMap K P}

theorem below_null {m : Mem P} {w : Word} (hp : w.ptr = none) (a : Nat) : ¬ Below m w a := by
  rintro ⟨r, w', h1, h2⟩
  cases r with
  | nil => simp [Mem.follow] at h1; subst h1; simp [hp] at h2
  | cons i r => simp [Mem.follow, Mem.cellsOf, hp] at h1

theorem elemBelow_null {m : Mem P} {w : Word} (hp : w.ptr = none) (p : P) : ¬ ElemBelow m w p := by
  rintro ⟨r, w', a, l, h1, h2, -⟩
  exact below_null hp a ⟨r, w', h1, h2⟩

theorem below_data {m : Mem P} {w : Word} {b : Nat} (hp : w.ptr = some b) (hd : w.data = true) (a : Nat) : Below m w a ↔ a = b := by
  constructor
  · rintro ⟨r, w', h1, h2⟩
    cases r with
    | nil => simp [Mem.follow] at h1; subst h1; simp [hp] at h2; exact h2.symm
    | cons i r => simp [Mem.follow, Mem.cellsOf, hp, hd] at h1
  · rintro rfl; exact ⟨[], w.erase, rfl, hp⟩

theorem elemBelow_data {m : Mem P} {w : Word} {b : Nat} {l : List P} (hp : w.ptr = some b) (hd : w.data = true) (hm : m.mem b = some (.data l)) (p : P) :
    ElemBelow m w p ↔ p ∈ l := by
  constructor
  · rintro ⟨r, w', a, l', h1, h2, h3, h4, h5⟩
    have := (below_data hp hd a).1 ⟨r, w', h1, h2⟩
    subst this
    rw [hm] at h4; cases h4; exact h5
  · intro h; exact ⟨[], w.erase, b, l, rfl, hp, hd, hm, h⟩

theorem below_inner {m : Mem P} {w : Word} {b : Nat} {c : Fin 16 → Word} {q : List (Fin 16)} (hp : w.ptr = some b) (hd : w.data = false)
    (hm : m.mem b = some (.inner c q)) (a : Nat) : Below m w a ↔ a = b ∨ ∃ i, Below m (c i) a := by
  have hc := cellsOf_inner hp hd hm
  constructor
  · rintro ⟨r, w', h1, h2⟩
    cases r with
    | nil => simp [Mem.follow] at h1; subst h1; simp [hp] at h2; exact Or.inl h2.symm
    | cons i r => simp only [Mem.follow, hc] at h1; exact Or.inr ⟨i, r, w', h1, h2⟩
  · rintro (rfl | ⟨i, r, w', h1, h2⟩)
    · exact ⟨[], w.erase, rfl, hp⟩
    · exact ⟨i :: r, w', by simp only [Mem.follow, hc, h1], h2⟩

theorem elemBelow_inner {m : Mem P} {w : Word} {b : Nat} {c : Fin 16 → Word} {q : List (Fin 16)} (hp : w.ptr = some b) (hd : w.data = false)
    (hm : m.mem b = some (.inner c q)) (p : P) : ElemBelow m w p ↔ ∃ i, ElemBelow m (c i) p := by
  have hc := cellsOf_inner hp hd hm
  constructor
  · rintro ⟨r, w', a, l, h1, h2, h3, h4, h5⟩
    cases r with
    | nil => simp [Mem.follow] at h1; subst h1; simp [hd] at h3
    | cons i r => simp only [Mem.follow, hc] at h1; exact ⟨i, r, w', a, l, h1, h2, h3, h4, h5⟩
  · rintro ⟨i, r, w', a, l, h1, h2⟩
    exact ⟨i :: r, w', a, l, by simp only [Mem.follow, hc, h1], h2⟩

/-- What a (partial) drop has done. `B` are the nodes and `D` the elements it was responsible for. -/
structure Dropped (cfg : Config K P) (fix : Bool) (m0 m m' : Mem P) (l : List (Release P)) (B : Nat → Prop) (D : P → Prop) : Prop where
  rest : m' = { m with freed := m'.freed }
  freed : ∀ a, m'.freed a = true ↔ m.freed a = true ∨ B a
  nodup : (released l).Nodup
  mem : ∀ a, a ∈ released l ↔ B a
  kind : ∀ a k, .dealloc a k ∈ l → ∃ n, m0.mem a = some n ∧ k = if fix then n.kind else .inner
  elems : ∀ p, p ∈ destructed l ↔ fix = true ∧ D p
  keys : ((destructed l).map cfg.key).Nodup

theorem Dropped.append {fix : Bool} {m0 m m1 m2 : Mem P} {l1 l2 : List (Release P)} {B1 B2 : Nat → Prop} {D1 D2 : P → Prop}
    (h1 : Dropped cfg fix m0 m m1 l1 B1 D1) (h2 : Dropped cfg fix m0 m1 m2 l2 B2 D2) (hB : ∀ a, B1 a → ¬ B2 a)
    (hD : ∀ p p', D1 p → D2 p' → cfg.key p ≠ cfg.key p') :
    Dropped cfg fix m0 m m2 (l1 ++ l2) (fun a => B1 a ∨ B2 a) (fun p => D1 p ∨ D2 p) where
  rest := by rw [h2.rest, h1.rest]
  freed := by intro a; rw [h2.freed, h1.freed, or_assoc]
  nodup := by
    rw [released_append, List.nodup_append]
    refine ⟨h1.nodup, h2.nodup, ?_⟩
    rintro a ha b hb rfl
    exact hB a ((h1.mem a).1 ha) ((h2.mem a).1 hb)
  mem := by intro a; rw [released_append, List.mem_append, h1.mem, h2.mem]
  kind := by
    intro a k h
    rcases List.mem_append.1 h with h | h
    · exact h1.kind a k h
    · exact h2.kind a k h
  elems := by
    intro p; rw [destructed_append, List.mem_append, h1.elems, h2.elems]; exact and_or_left.symm
  keys := by
    rw [destructed_append, List.map_append, List.nodup_append]
    refine ⟨h1.keys, h2.keys, ?_⟩
    intro x hx y hy e
    obtain ⟨p, hp, rfl⟩ := List.mem_map.1 hx
    obtain ⟨p', hp', rfl⟩ := List.mem_map.1 hy
    exact hD p p' ((h1.elems p).1 hp).2 ((h2.elems p').1 hp').2 e

theorem Dropped.congr {fix : Bool} {m0 m m' : Mem P} {l : List (Release P)} {B B' : Nat → Prop} {D D' : P → Prop}
    (h : Dropped cfg fix m0 m m' l B D) (hB : ∀ a, B a ↔ B' a) (hD : ∀ p, D p ↔ D' p) : Dropped cfg fix m0 m m' l B' D' := by
  have e1 : B = B' := funext fun a => propext (hB a)
  have e2 : D = D' := funext fun a => propext (hD a)
  subst e1; subst e2; exact h

theorem Dropped.nil {fix : Bool} {m0 m : Mem P} : Dropped cfg fix m0 m m [] (fun _ => False) (fun _ => False) where
  rest := rfl
  freed := by simp
  nodup := List.nodup_nil
  mem := by simp [released]
  kind := by simp
  elems := by simp [destructed]
  keys := List.nodup_nil

theorem elemBelow_prefix {m : Mem P} (h : MemInv cfg A m) {w : Word} {q : List (Fin 16)} (hf : m.follow m.root q = some w.erase) {p : P}
    (hp : ElemBelow m w p) : q <+: nibs (cfg.hash (cfg.key p)) := by
  obtain ⟨r, w', a, l, h1, h2, h3, h4, h5⟩ := hp
  have h6 : m.follow m.root (q ++ r) = some w' := by
    rw [follow_append' hf, follow_congr (erase_erase w), h1]
  obtain ⟨l', h7, h8⟩ := (h.path_ok h6).of_data h2 h3
  rw [h4] at h7; cases h7
  exact (List.prefix_append q r).trans (h8.pre p h5)

theorem deref_of {m0 m : Mem P} (hm : m.mem = m0.mem) {a : Nat} (hf : m.freed a = false) : m.deref a = m0.mem a := by
  simp [Mem.deref, hf, hm]

theorem dropRec_leaf (fix : Bool) (fuel : Nat) (m : Mem P) (w : Word) (hw : w.isLeaf) (rec : Mem P → Word → Option (Mem P × List (Release P))) :
    Mem.dropRec fix fuel m w = m.dropNode fix rec w := by
  have key : ∀ rec' : Mem P → Word → Option (Mem P × List (Release P)), m.dropNode fix rec' w = m.dropNode fix rec w := by
    intro rec'
    rcases hw with hw | hw
    · simp only [Mem.dropNode, hw]
    · simp only [Mem.dropNode, hw, if_true]
  cases fuel with
  | zero => exact key _
  | succ n => exact key _

theorem dropRec_null (fix : Bool) {m0 : Mem P} (fuel : Nat) (m : Mem P) (w : Word) (hp : w.ptr = none) :
    ∃ m' l, Mem.dropRec fix fuel m w = some (m', l) ∧ Dropped cfg fix m0 m m' l (Below m0 w) (ElemBelow m0 w) := by
  refine ⟨m, [], ?_, Dropped.nil.congr (fun a => ?_) (fun p => ?_)⟩
  · rw [dropRec_leaf fix fuel m w (Or.inl hp) (fun _ _ => none)]; simp only [Mem.dropNode, hp]
  · exact iff_of_false not_false (below_null hp a)
  · exact iff_of_false not_false (elemBelow_null hp p)

theorem dropped_one (fix : Bool) {m0 m : Mem P} {a : Nat} {n : Node P} {l : List (Release P)} {D : P → Prop} (hm : m0.mem a = some n)
    (hr : released l = [a]) (hk : ∀ b k, .dealloc b k ∈ l → k = if fix then n.kind else .inner) (he : ∀ p, p ∈ destructed l ↔ fix = true ∧ D p)
    (hn : ((destructed l).map cfg.key).Nodup) : Dropped cfg fix m0 m (m.destroy a) l (fun b => b = a) D where
  rest := rfl
  freed := by
    intro b
    simp only [Mem.destroy, upd]
    by_cases e : b = a <;> simp [e]
  nodup := by rw [hr]; simp
  mem := by intro b; rw [hr]; simp
  kind := by
    intro b k hb
    have : b ∈ released l := mem_released.2 ⟨k, hb⟩
    rw [hr, List.mem_singleton] at this
    subst this
    exact ⟨n, hm, hk b k hb⟩
  elems := he
  keys := hn

theorem dropRec_data (fix : Bool) {m0 : Mem P} (h : MemInv cfg A m0) (fuel : Nat) (m : Mem P) (w : Word) (q : List (Fin 16)) (hm : m.mem = m0.mem)
    (hf : m0.follow m0.root q = some w.erase) (hfree : ∀ a, Below m0 w a → m.freed a = false) {a : Nat} (hp : w.ptr = some a) (hd : w.data = true) :
    ∃ m' l, Mem.dropRec fix fuel m w = some (m', l) ∧ Dropped cfg fix m0 m m' l (Below m0 w) (ElemBelow m0 w) := by
  obtain ⟨items, h1, h2⟩ := (h.path_ok hf).of_data (a := a) hp hd
  have h3 : m.deref a = some (.data items) := by rw [deref_of hm (hfree a ((below_data hp hd a).2 rfl)), h1]
  refine ⟨m.destroy a, dropData fix a items, ?_, ?_⟩
  · rw [dropRec_leaf fix fuel m w (Or.inr hd) (fun _ _ => none)]; simp only [Mem.dropNode, hp, hd, if_true, h3]
  refine (dropped_one (cfg := cfg) (D := fun p => p ∈ items) fix h1 (released_dropData _ _ _) ?_ ?_ ?_).congr (fun b => (below_data hp hd b).symm)
    (fun p => (elemBelow_data hp hd h1 p).symm)
  · intro b k hb
    cases fix with
    | false => simp [dropData] at hb; exact hb.2
    | true => simp [dropData] at hb; exact hb.2
  · intro p; rw [destructed_dropData]; cases fix <;> simp
  · rw [destructed_dropData]; cases fix
    · exact List.nodup_nil
    · exact h2.nodup

/-- The loop over the cells. -/
theorem dropCells_spec (fix : Bool) {m0 : Mem P} (h : MemInv cfg A m0) (fuel : Nat)
    (ih : ∀ (m : Mem P) (w : Word) (q : List (Fin 16)), m.mem = m0.mem → m0.follow m0.root q = some w.erase → 17 ≤ fuel + q.length →
      (∀ a, Below m0 w a → m.freed a = false) →
      ∃ m' l, Mem.dropRec fix fuel m w = some (m', l) ∧ Dropped cfg fix m0 m m' l (Below m0 w) (ElemBelow m0 w))
    {a : Nat} {c : Fin 16 → Word} {q : List (Fin 16)} (hn : m0.mem a = some (.inner c q)) (hl : ∀ i, m0.follow m0.root (q ++ [i]) = some (c i).erase)
    (ha : ∀ i, ¬ Below m0 (c i) a) (hdis : ∀ i j b, Below m0 (c i) b → Below m0 (c j) b → i = j) (hfuel : 17 ≤ fuel + 1 + q.length) :
    ∀ (is : List (Fin 16)) (m : Mem P), is.Nodup → m.mem = m0.mem → m.freed a = false → (∀ i ∈ is, ∀ b, Below m0 (c i) b → m.freed b = false) →
      ∃ m' l, m.dropCells (Mem.dropRec fix fuel) a is = some (m', l) ∧
        Dropped cfg fix m0 m m' l (fun b => ∃ i ∈ is, Below m0 (c i) b) (fun p => ∃ i ∈ is, ElemBelow m0 (c i) p) := by
  intro is
  induction is with
  | nil =>
    intro m _ _ _ _
    exact ⟨m, [], rfl, Dropped.nil.congr (fun b => by simp) (fun p => by simp)⟩
  | cons i is ihl =>
    intro m hnd hm hfa hfb
    have hnd' := List.nodup_cons.1 hnd
    have hrd : m.read (.slot a i) = some (c i) := by
      simp only [Mem.read, deref_of hm hfa, hn]
    obtain ⟨m1, l1, g1, g2⟩ := ih m (c i) (q ++ [i]) hm (hl i) (by simp; omega) (fun b hb => hfb i List.mem_cons_self b hb)
    have hm1 : m1.mem = m0.mem := by rw [g2.rest]; exact hm
    have hfr : ∀ b, m.freed b = false → ¬ Below m0 (c i) b → m1.freed b = false := by
      intro b hb1 hb2
      cases hx : m1.freed b with
      | false => rfl
      | true =>
        rcases (g2.freed b).1 hx with h1 | h1
        · rw [hb1] at h1; cases h1
        · exact (hb2 h1).elim
    obtain ⟨m2, l2, g3, g4⟩ := ihl m1 hnd'.2 hm1 (hfr a hfa (ha i)) (fun j hj b hb => hfr b (hfb j (List.mem_cons_of_mem _ hj) b hb) (fun hb' => by
      have := hdis i j b hb' hb
      subst this
      exact hnd'.1 hj))
    refine ⟨m2, l1 ++ l2, by simp only [Mem.dropCells, hrd, g1, g3], ?_⟩
    refine (g2.append g4 ?_ ?_).congr (fun b => by simp) (fun b => by simp)
    · rintro b h1 ⟨j, hj, h2⟩
      have := hdis i j b h1 h2
      subst this
      exact hnd'.1 hj
    · rintro p p' h1 ⟨j, hj, h2⟩ e
      have p1 := elemBelow_prefix h (hl i) h1
      have p2 := elemBelow_prefix h (hl j) h2
      rw [e] at p1
      have := List.prefix_of_prefix_length_le p1 p2 (by simp)
      have := this.eq_of_length (by simp)
      simp at this
      subst this
      exact hnd'.1 hj

theorem dropRec_spec (fix : Bool) {m0 : Mem P} (h : MemInv cfg A m0) (fuel : Nat) : ∀ (m : Mem P) (w : Word) (q : List (Fin 16)),
    m.mem = m0.mem → m0.follow m0.root q = some w.erase → 17 ≤ fuel + q.length → (∀ a, Below m0 w a → m.freed a = false) →
    ∃ m' l, Mem.dropRec fix fuel m w = some (m', l) ∧ Dropped cfg fix m0 m m' l (Below m0 w) (ElemBelow m0 w) := by
  induction fuel with
  | zero =>
    intro m w q hm hf hfuel hfree
    cases hp : w.ptr with
    | none => exact dropRec_null fix 0 m w hp
    | some a =>
      cases hd : w.data with
      | true => exact dropRec_data fix h 0 m w q hm hf hfree hp hd
      | false =>
        obtain ⟨c, hc⟩ := (h.path_ok hf).of_inner (a := a) hp hd
        have := (h.nodeOK a c q hc).1
        omega
  | succ fuel ih =>
    intro m w q hm hf hfuel hfree
    cases hp : w.ptr with
    | none => exact dropRec_null fix _ m w hp
    | some a =>
      cases hd : w.data with
      | true => exact dropRec_data fix h _ m w q hm hf hfree hp hd
      | false =>
        obtain ⟨c, hc⟩ := (h.path_ok hf).of_inner (a := a) hp hd
        have hl : ∀ i, m0.follow m0.root (q ++ [i]) = some (c i).erase := by
          intro i
          rw [follow_append' hf]
          simp [Mem.follow, cellsOf_inner (w := w.erase) hp hd hc]
        have hpos : ∀ i b, Below m0 (c i) b → ∃ r w', m0.follow m0.root (q ++ i :: r) = some w' ∧ w'.ptr = some b := by
          rintro i b ⟨r, w', h1, h2⟩
          refine ⟨r, w', ?_, h2⟩
          rw [show q ++ i :: r = (q ++ [i]) ++ r by simp, follow_append' (hl i), follow_congr (erase_erase _), h1]
        have ha : ∀ i, ¬ Below m0 (c i) a := by
          intro i hb
          obtain ⟨r, w', h1, h2⟩ := hpos i a hb
          have := h.path_unique hf h1 (a := a) hp h2
          have := congrArg List.length this
          simp at this
        have hdis : ∀ i j b, Below m0 (c i) b → Below m0 (c j) b → i = j := by
          intro i j b h1 h2
          obtain ⟨r, w', g1, g2⟩ := hpos i b h1
          obtain ⟨r', w'', g3, g4⟩ := hpos j b h2
          have := h.path_unique g1 g3 g2 g4
          simp at this
          exact this.1
        have hbel := below_inner hp hd hc
        have hfa : m.freed a = false := hfree a ((hbel a).2 (Or.inl rfl))
        obtain ⟨m1, l1, g1, g2⟩ := dropCells_spec fix h fuel ih hc hl ha hdis (by omega) (List.finRange 16) m (List.nodup_finRange 16)
          hm hfa (fun i _ b hb => hfree b ((hbel b).2 (Or.inr ⟨i, hb⟩)))
        have hfa1 : m1.freed a = false := by
          cases hx : m1.freed a with
          | false => rfl
          | true =>
            rcases (g2.freed a).1 hx with h1 | ⟨j, -, h1⟩
            · rw [hfa] at h1; cases h1
            · exact (ha j h1).elim
        have hm1 : m1.mem = m0.mem := by rw [g2.rest]; exact hm
        have hda : m1.deref a = some (.inner c q) := by rw [deref_of hm1 hfa1, hc]
        refine ⟨m1.destroy a, l1 ++ [.dealloc a .inner], ?_, ?_⟩
        · simp only [Mem.dropRec, Mem.dropNode, hp, hd, Bool.false_eq_true, if_false, g1, hda]
        · refine (g2.append (dropped_one (m := m1) (D := fun _ => False) (l := [.dealloc a .inner]) fix hc rfl ?_ ?_ List.nodup_nil) ?_ ?_).congr ?_ ?_
          · intro b k hb
            simp at hb
            rw [hb.2]; cases fix <;> rfl
          · simp [destructed]
          · rintro b ⟨i, -, h1⟩ rfl; exact ha i h1
          · rintro p p' - h1; exact h1.elim
          · intro b
            rw [hbel b]
            simp only [List.mem_finRange, true_and]
            exact or_comm
          · intro p
            rw [elemBelow_inner hp hd hc]
            simp

/-- An element found by a lookup is in a data node on the way. -/
theorem look_some {m : Mem P} {k : K} {p : P} : ∀ (ns : List (Fin 16)) (w : Word), m.look cfg k w ns = some p → ElemBelow m w p ∧ cfg.key p = k := by
  have leaf : ∀ w, m.leafVal cfg k w = some (some p) → ElemBelow m w p ∧ cfg.key p = k := by
    intro w h
    simp only [Mem.leafVal] at h
    cases hp : w.ptr with
    | none => simp [hp] at h
    | some a =>
      simp only [hp] at h
      cases hd : w.data with
      | false => simp [hd] at h
      | true =>
        simp only [hd, if_true] at h
        split at h
        · next l hl =>
          simp only [Option.some.injEq] at h
          have h1 := List.find?_some h
          exact ⟨(elemBelow_data hp hd hl p).2 (List.mem_of_find?_eq_some h), by simpa using h1⟩
        · cases h
  intro ns
  induction ns with
  | nil =>
    intro w h
    simp only [Mem.look] at h
    cases hl : m.leafVal cfg k w with
    | none => simp [hl] at h
    | some v => simp only [hl, Option.getD_some] at h; subst h; exact leaf w hl
  | cons n ns ih =>
    intro w h
    simp only [Mem.look] at h
    cases hl : m.leafVal cfg k w with
    | some v => simp only [hl] at h; subst h; exact leaf w hl
    | none =>
      simp only [hl] at h
      cases hc : m.cellsOf w with
      | none => simp [hc] at h
      | some c =>
        simp only [hc] at h
        obtain ⟨⟨r, w', a, l, h1, h2⟩, hk⟩ := ih (c n) h
        exact ⟨⟨n :: r, w', a, l, by simp only [Mem.follow, hc, h1], h2⟩, hk⟩

theorem nodup_find {l : List P} (h : (l.map cfg.key).Nodup) {p : P} (hp : p ∈ l) : l.find? (fun x => decide (cfg.key x = cfg.key p)) = some p := by
  induction l with
  | nil => cases hp
  | cons x l ih =>
    simp only [List.map_cons, List.nodup_cons] at h
    rcases List.mem_cons.1 hp with rfl | hp
    · simp
    · have : cfg.key x ≠ cfg.key p := fun e => h.1 (e ▸ List.mem_map_of_mem hp)
      rw [List.find?_cons_of_neg (by simpa using this)]
      exact ih h.2 hp

/-- The elements in the nodes are the content. -/
theorem elemBelow_root {m : Mem P} (h : MemInv cfg A m) (p : P) : ElemBelow m m.root p ↔ m.abs cfg (cfg.key p) = some p := by
  constructor
  · rintro ⟨r, w, a, l, h1, h2, h3, h4, h5⟩
    obtain ⟨l', h6, h7⟩ := (h.path_ok h1).of_data h2 h3
    rw [h4] at h6; cases h6
    obtain ⟨ns, hns⟩ := h7.pre p h5
    rw [Mem.abs, ← hns, look_follow h1, look_leaf ns (leafVal_data h2 h3 h4), nodup_find h7.nodup h5]
  · intro hp
    exact (look_some _ _ hp).1

end Contrie
