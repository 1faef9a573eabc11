import Verif.Proof.HostileInv
import Verif.Proof.Drop
/-
Dropping the trie after an execution with misbehaving user code; cf. `Verif/Proof/Drop.lean`.
-/
set_option linter.unusedSectionVars false
namespace Contrie
variable {K P : Type}

/-- What a (partial) drop has done. `B` are the nodes it was responsible for. -/
structure HDropped (fix : Bool) (m0 m m' : Mem P) (l : List (Release P)) (B : Nat → Prop) : Prop where
  rest : m' = { m with freed := m'.freed }
  freed : ∀ a, m'.freed a = true ↔ m.freed a = true ∨ B a
  nodup : (released l).Nodup
  mem : ∀ a, a ∈ released l ↔ B a
  kind : ∀ a k, .dealloc a k ∈ l → ∃ n, m0.mem a = some n ∧ k = if fix then n.kind else .inner

theorem HDropped.append {fix : Bool} {m0 m m1 m2 : Mem P} {l1 l2 : List (Release P)} {B1 B2 : Nat → Prop}
    (h1 : HDropped fix m0 m m1 l1 B1) (h2 : HDropped fix m0 m1 m2 l2 B2) (hB : ∀ a, B1 a → ¬ B2 a) :
    HDropped fix m0 m m2 (l1 ++ l2) (fun a => B1 a ∨ B2 a) where
  rest := by rw [h2.rest, h1.rest]
  freed := by intro a; rw [h2.freed, h1.freed, or_assoc]
  nodup := by
    rw [released_append, List.nodup_append]
    refine ⟨h1.nodup, h2.nodup, ?_⟩
    rintro a ha b hb rfl
    exact hB a ((h1.mem a).1 ha) ((h2.mem a).1 hb)
  mem := by intro a; rw [released_append, List.mem_append, h1.mem, h2.mem]
  kind := by
    intro a k h
    rcases List.mem_append.1 h with h | h
    · exact h1.kind a k h
    · exact h2.kind a k h

theorem HDropped.congr {fix : Bool} {m0 m m' : Mem P} {l : List (Release P)} {B B' : Nat → Prop}
    (h : HDropped fix m0 m m' l B) (hB : ∀ a, B a ↔ B' a) : HDropped fix m0 m m' l B' := by
  have e1 : B = B' := funext fun a => propext (hB a)
  subst e1; exact h

theorem HDropped.nil {fix : Bool} {m0 m : Mem P} : HDropped fix m0 m m [] (fun _ => False) where
  rest := rfl
  freed := by simp
  nodup := List.nodup_nil
  mem := by simp [released]
  kind := by simp

theorem hdropRec_null (fix : Bool) {m0 : Mem P} (fuel : Nat) (m : Mem P) (w : Word) (hp : w.ptr = none) :
    ∃ m' l, Mem.dropRec fix fuel m w = some (m', l) ∧ HDropped fix m0 m m' l (Below m0 w) := by
  refine ⟨m, [], ?_, HDropped.nil.congr (fun a => ?_)⟩
  · rw [dropRec_leaf fix fuel m w (Or.inl hp) (fun _ _ => none)]; simp only [Mem.dropNode, hp]
  · exact iff_of_false not_false (below_null hp a)

theorem hdropped_one (fix : Bool) {m0 m : Mem P} {a : Nat} {n : Node P} {l : List (Release P)} (hm : m0.mem a = some n)
    (hr : released l = [a]) (hk : ∀ b k, .dealloc b k ∈ l → k = if fix then n.kind else .inner) :
    HDropped fix m0 m (m.destroy a) l (fun b => b = a) where
  rest := rfl
  freed := by
    intro b
    simp only [Mem.destroy, upd]
    by_cases e : b = a <;> simp [e]
  nodup := by rw [hr]; simp
  mem := by intro b; rw [hr]; simp
  kind := by
    intro b k hb
    have : b ∈ released l := mem_released.2 ⟨k, hb⟩
    rw [hr, List.mem_singleton] at this
    subst this
    exact ⟨n, hm, hk b k hb⟩

theorem hdropRec_data (fix : Bool) {m0 : Mem P} (h : HMemInv m0) (fuel : Nat) (m : Mem P) (w : Word) (q : List (Fin 16)) (hm : m.mem = m0.mem)
    (hf : m0.follow m0.root q = some w.erase) (hfree : ∀ a, Below m0 w a → m.freed a = false) {a : Nat} (hp : w.ptr = some a) (hd : w.data = true) :
    ∃ m' l, Mem.dropRec fix fuel m w = some (m', l) ∧ HDropped fix m0 m m' l (Below m0 w) := by
  obtain ⟨items, h1, h2⟩ := (h.path_ok hf).of_data (a := a) hp hd
  have h3 : m.deref a = some (.data items) := by rw [deref_of hm (hfree a ((below_data hp hd a).2 rfl)), h1]
  refine ⟨m.destroy a, dropData fix a items, ?_, ?_⟩
  · rw [dropRec_leaf fix fuel m w (Or.inr hd) (fun _ _ => none)]; simp only [Mem.dropNode, hp, hd, if_true, h3]
  refine (hdropped_one fix h1 (released_dropData _ _ _) ?_).congr (fun b => (below_data hp hd b).symm)
  · intro b k hb
    cases fix with
    | false => simp [dropData] at hb; exact hb.2
    | true => simp [dropData] at hb; exact hb.2

/-- The loop over the cells. -/
theorem hdropCells_spec (fix : Bool) {m0 : Mem P} (h : HMemInv m0) (fuel : Nat)
    (ih : ∀ (m : Mem P) (w : Word) (q : List (Fin 16)), m.mem = m0.mem → m0.follow m0.root q = some w.erase → 17 ≤ fuel + q.length →
      (∀ a, Below m0 w a → m.freed a = false) →
      ∃ m' l, Mem.dropRec fix fuel m w = some (m', l) ∧ HDropped fix m0 m m' l (Below m0 w))
    {a : Nat} {c : Fin 16 → Word} {q : List (Fin 16)} (hn : m0.mem a = some (.inner c q)) (hl : ∀ i, m0.follow m0.root (q ++ [i]) = some (c i).erase)
    (ha : ∀ i, ¬ Below m0 (c i) a) (hdis : ∀ i j b, Below m0 (c i) b → Below m0 (c j) b → i = j) (hfuel : 17 ≤ fuel + 1 + q.length) :
    ∀ (is : List (Fin 16)) (m : Mem P), is.Nodup → m.mem = m0.mem → m.freed a = false → (∀ i ∈ is, ∀ b, Below m0 (c i) b → m.freed b = false) →
      ∃ m' l, m.dropCells (Mem.dropRec fix fuel) a is = some (m', l) ∧
        HDropped fix m0 m m' l (fun b => ∃ i ∈ is, Below m0 (c i) b) := by
  intro is
  induction is with
  | nil =>
    intro m _ _ _ _
    exact ⟨m, [], rfl, HDropped.nil.congr (fun b => by simp)⟩
  | cons i is ihl =>
    intro m hnd hm hfa hfb
    have hnd' := List.nodup_cons.1 hnd
    have hrd : m.read (.slot a i) = some (c i) := by
      simp only [Mem.read, deref_of hm hfa, hn]
    obtain ⟨m1, l1, g1, g2⟩ := ih m (c i) (q ++ [i]) hm (hl i) (by simp; omega) (fun b hb => hfb i List.mem_cons_self b hb)
    have hm1 : m1.mem = m0.mem := by rw [g2.rest]; exact hm
    have hfr : ∀ b, m.freed b = false → ¬ Below m0 (c i) b → m1.freed b = false := by
      intro b hb1 hb2
      cases hx : m1.freed b with
      | false => rfl
      | true =>
        rcases (g2.freed b).1 hx with h1 | h1
        · rw [hb1] at h1; cases h1
        · exact (hb2 h1).elim
    obtain ⟨m2, l2, g3, g4⟩ := ihl m1 hnd'.2 hm1 (hfr a hfa (ha i)) (fun j hj b hb => hfr b (hfb j (List.mem_cons_of_mem _ hj) b hb) (fun hb' => by
      have := hdis i j b hb' hb
      subst this
      exact hnd'.1 hj))
    refine ⟨m2, l1 ++ l2, by simp only [Mem.dropCells, hrd, g1, g3], ?_⟩
    refine (g2.append g4 ?_).congr (fun b => by simp)
    · rintro b h1 ⟨j, hj, h2⟩
      have := hdis i j b h1 h2
      subst this
      exact hnd'.1 hj

theorem hdropRec_spec (fix : Bool) {m0 : Mem P} (h : HMemInv m0) (fuel : Nat) : ∀ (m : Mem P) (w : Word) (q : List (Fin 16)),
    m.mem = m0.mem → m0.follow m0.root q = some w.erase → 17 ≤ fuel + q.length → (∀ a, Below m0 w a → m.freed a = false) →
    ∃ m' l, Mem.dropRec fix fuel m w = some (m', l) ∧ HDropped fix m0 m m' l (Below m0 w) := by
  induction fuel with
  | zero =>
    intro m w q hm hf hfuel hfree
    cases hp : w.ptr with
    | none => exact hdropRec_null fix 0 m w hp
    | some a =>
      cases hd : w.data with
      | true => exact hdropRec_data fix h 0 m w q hm hf hfree hp hd
      | false =>
        obtain ⟨c, hc⟩ := (h.path_ok hf).of_inner (a := a) hp hd
        have := (h.nodeOK a c q hc).1
        omega
  | succ fuel ih =>
    intro m w q hm hf hfuel hfree
    cases hp : w.ptr with
    | none => exact hdropRec_null fix _ m w hp
    | some a =>
      cases hd : w.data with
      | true => exact hdropRec_data fix h _ m w q hm hf hfree hp hd
      | false =>
        obtain ⟨c, hc⟩ := (h.path_ok hf).of_inner (a := a) hp hd
        have hl : ∀ i, m0.follow m0.root (q ++ [i]) = some (c i).erase := by
          intro i
          rw [follow_append' hf]
          simp [Mem.follow, cellsOf_inner (w := w.erase) hp hd hc]
        have hpos : ∀ i b, Below m0 (c i) b → ∃ r w', m0.follow m0.root (q ++ i :: r) = some w' ∧ w'.ptr = some b := by
          rintro i b ⟨r, w', h1, h2⟩
          refine ⟨r, w', ?_, h2⟩
          rw [show q ++ i :: r = (q ++ [i]) ++ r by simp, follow_append' (hl i), follow_congr (erase_erase _), h1]
        have ha : ∀ i, ¬ Below m0 (c i) a := by
          intro i hb
          obtain ⟨r, w', h1, h2⟩ := hpos i a hb
          have := h.path_unique hf h1 (a := a) hp h2
          have := congrArg List.length this
          simp at this
        have hdis : ∀ i j b, Below m0 (c i) b → Below m0 (c j) b → i = j := by
          intro i j b h1 h2
          obtain ⟨r, w', g1, g2⟩ := hpos i b h1
          obtain ⟨r', w'', g3, g4⟩ := hpos j b h2
          have := h.path_unique g1 g3 g2 g4
          simp at this
          exact this.1
        have hbel := below_inner hp hd hc
        have hfa : m.freed a = false := hfree a ((hbel a).2 (Or.inl rfl))
        obtain ⟨m1, l1, g1, g2⟩ := hdropCells_spec fix h fuel ih hc hl ha hdis (by omega) (List.finRange 16) m (List.nodup_finRange 16)
          hm hfa (fun i _ b hb => hfree b ((hbel b).2 (Or.inr ⟨i, hb⟩)))
        have hfa1 : m1.freed a = false := by
          cases hx : m1.freed a with
          | false => rfl
          | true =>
            rcases (g2.freed a).1 hx with h1 | ⟨j, -, h1⟩
            · rw [hfa] at h1; cases h1
            · exact (ha j h1).elim
        have hm1 : m1.mem = m0.mem := by rw [g2.rest]; exact hm
        have hda : m1.deref a = some (.inner c q) := by rw [deref_of hm1 hfa1, hc]
        refine ⟨m1.destroy a, l1 ++ [.dealloc a .inner], ?_, ?_⟩
        · simp only [Mem.dropRec, Mem.dropNode, hp, hd, Bool.false_eq_true, if_false, g1, hda]
        · refine (g2.append (hdropped_one (m := m1) (l := [.dealloc a .inner]) fix hc rfl ?_) ?_).congr ?_
          · intro b k hb
            simp at hb
            rw [hb.2]; cases fix <;> rfl
          · rintro b ⟨i, -, h1⟩ rfl; exact ha i h1
          · intro b
            rw [hbel b]
            simp only [List.mem_finRange, true_and]
            exact or_comm

end Contrie
