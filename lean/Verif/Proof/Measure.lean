import Verif.Proof.Splice
import Mathlib.Data.Finset.Card
import Mathlib.Data.Finset.Prod
import Mathlib.Data.Fintype.Basic
/-
The progress measure: a tuple of natural numbers that goes down lexicographically in every step of a call
(other than a spurious failure of a weak CAS), whoever takes it.
-/
set_option linter.unusedSectionVars false
namespace Contrie
variable {K P : Type} [DecidableEq K]

/-! ### Local parts -/

/-- 2: has not taken effect yet; 1: a removal that only cleans up. -/
def PC.rank (pc : PC K P) : Nat := match pc.taken with | none => 2 | some _ => 1

/-- Bound for the number of cells the iterator still has to enter. -/
def phi : List (Word × Nat) → Nat
  | [] => 0
  | (w, idx) :: rest =>
    (if w.ptr.isSome ∧ w.data = false then (16 - idx) * 17 ^ (17 - rest.length) else 0) + phi rest

/-- Steps left, for the calls that can count them without looking at the shared memory. -/
def PC.loc1 (tk : Nat) : PC K P → Nat
  | .get .. => 17 - tk
  | .iterNew => 17 ^ 18
  | .iterNext lv _ => phi lv
  | .count _ _ _ _ rest i _ => rest.length * 40 + 18 + (16 - i.val)
  | .prune _ _ i _ (.clean _ _ rest) => rest.length * 40 + 1 + (16 - i.val)
  | .pruneCas _ _ _ (.clean _ _ rest) => rest.length * 40 + 1
  | _ => 0

/-- Items left in the data node of a level. -/
def Mem.left (m : Mem P) (w : Word) (idx : Nat) : Nat :=
  match w.ptr with
  | none => 0
  | some a => match m.mem a with
    | some (.data l) => l.length - idx
    | _ => 0

/-- Steps of the iterator without entering a new cell. -/
def rho (m : Mem P) : List (Word × Nat) → Nat
  | [] => 0
  | (w, idx) :: rest => 1 + m.left w idx + rho m rest

def PC.loc2 (m : Mem P) : PC K P → Nat
  | .iterNext lv _ => rho m lv
  | _ => 0

/-! ### The shared memory -/

open Classical in
/-- Number of elements of `s` with property `p`. -/
noncomputable def cnt {α : Type} (s : Finset α) (p : α → Prop) : Nat := (s.filter p).card

theorem cnt_congr {α : Type} {s : Finset α} {p p' : α → Prop} (h : ∀ a ∈ s, p a ↔ p' a) : cnt s p = cnt s p' := by
  classical
  unfold cnt
  congr 1
  ext a
  simp only [Finset.mem_filter]
  constructor
  · rintro ⟨h1, h2⟩; exact ⟨h1, (h a h1).mp h2⟩
  · rintro ⟨h1, h2⟩; exact ⟨h1, (h a h1).mpr h2⟩

theorem cnt_le {α : Type} {s s' : Finset α} {p p' : α → Prop} (h : ∀ a ∈ s, p a → a ∈ s' ∧ p' a) :
    cnt s p ≤ cnt s' p' := by
  classical
  unfold cnt
  apply Finset.card_le_card
  intro a ha
  simp only [Finset.mem_filter] at ha ⊢
  exact h a ha.1 ha.2

theorem cnt_lt {α : Type} {s s' : Finset α} {p p' : α → Prop} (h : ∀ a ∈ s, p a → a ∈ s' ∧ p' a) (b : α) (hb : b ∈ s')
    (hb' : p' b) (hn : ¬ p b) : cnt s p < cnt s' p' := by
  classical
  unfold cnt
  apply Finset.card_lt_card
  rw [Finset.ssubset_iff_of_subset]
  · exact ⟨b, by simp [hb, hb'], by simp [hn]⟩
  · intro a ha
    simp only [Finset.mem_filter] at ha ⊢
    exact h a ha.1 ha.2

/-- Number of linked inner nodes that somebody has begun to condemn. -/
noncomputable def Mem.dmg (m : Mem P) : Nat :=
  cnt (Finset.range m.next) (fun a => ∃ c p, m.mem a = some (.inner c p) ∧ m.retired a = none ∧
    ∃ i, (c i).cond = true)

/-- Node `a` is a data node linked at depth at most `d`. -/
def Mem.dataAt (m : Mem P) (a d : Nat) : Prop :=
  ∃ q w, q.length ≤ d ∧ m.follow m.root q = some w ∧ w.ptr = some a ∧ w.data = true

/-- How far data nodes can still be pushed down. -/
noncomputable def Mem.room (m : Mem P) : Nat :=
  cnt (Finset.range m.next ×ˢ Finset.range 17) (fun x => m.dataAt x.1 x.2)

/-- Number of cells not condemned. -/
noncomputable def Mem.clean (m : Mem P) : Nat :=
  cnt (Finset.range m.next ×ˢ (Finset.univ : Finset (Fin 16)))
    (fun x => ∃ c p, m.mem x.1 = some (.inner c p) ∧ (c x.2).cond = false)

/-! ### Retries -/

/-- The content of a cell, destroyed or not. -/
def Mem.raw (m : Mem P) : Loc → Option Word
  | .root => some m.root
  | .slot a i => match m.mem a with
    | some (.inner c _) => some (c i)
    | _ => none

theorem raw_of_read {m : Mem P} {l : Loc} {w : Word} (h : m.read l = some w) : m.raw l = some w := by
  cases l with
  | root => exact h
  | slot a i =>
    simp only [Mem.read, Mem.deref] at h
    simp only [Mem.raw]
    split at h
    · next e =>
      split at e
      · cases e
      · rw [e]; exact h
    · cases h

/-- A remembered pair is out of date. -/
def stale (m : Mem P) (x : Loc × Word) : Nat := if m.raw x.1 = some x.2 then 0 else 100

def staleOpt (m : Mem P) : Option (Loc × Word) → Nat
  | none => 0
  | some x => stale m x

/-- Steps left before the call changes the memory, if nobody else does. -/
def PC.ell (m : Mem P) : PC K P → Nat
  | .trav _ _ _ shift _ parent => 20 + (16 - shift / 4) + staleOpt m parent
  | .travCas _ _ _ _ cur parent node _ _ => (if m.raw cur = some node then 1 else 200) + staleOpt m parent
  | .rem _ shift _ levels => 20 + (16 - shift / 4) + staleOpt m levels.head?
  | .remCas _ _ cur levels node _ _ => (if m.raw cur = some node then 1 else 200) + staleOpt m levels.head?
  | .prune p ch i _ (.trav ..) => (17 - i.val) + stale m (p, ch)
  | .prune p ch i _ (.rem ..) => (17 - i.val) + stale m (p, ch)
  | .pruneCas p ch _ (.trav ..) => 1 + stale m (p, ch)
  | .pruneCas p ch _ (.rem ..) => 1 + stale m (p, ch)
  | _ => 0

/-! ### The measure goes down -/

/-- The shared memory comes nearer to rest, or stays as it is and the call comes nearer to changing it. -/
def GDec (m m' : Mem P) (pc pc' : PC K P) : Prop :=
  m'.dmg < m.dmg ∨ (m'.dmg = m.dmg ∧ (m'.room < m.room ∨ (m'.room = m.room ∧ (m'.clean < m.clean ∨
    (m'.clean = m.clean ∧ m'.mem = m.mem ∧ m'.root = m.root ∧ pc'.ell m' < pc.ell m)))))

/-- Progress made by a step. -/
def TDec (m m' : Mem P) (tk : Nat) (pc pc' : PC K P) : Prop :=
  pc'.rank < pc.rank ∨ (pc'.rank = pc.rank ∧ (pc'.loc1 (tk + 1) < pc.loc1 tk ∨
    (pc'.loc1 (tk + 1) = pc.loc1 tk ∧ (pc'.loc2 m' < pc.loc2 m ∨ (pc'.loc2 m' = pc.loc2 m ∧ GDec m m' pc pc')))))

/-- What the steps towards helping know. -/
def Helps (m : Mem P) : PC K P → Prop
  | .trav _ _ _ _ cur parent => ∀ p ch, parent = some (p, ch) → ∃ a i, cur = .slot a i ∧ ch.ptr = some a
  | .travCas _ _ _ _ cur parent _ _ _ => ∀ p ch, parent = some (p, ch) → ∃ a i, cur = .slot a i ∧ ch.ptr = some a
  | .rem _ _ cur levels => ∀ p ch, levels.head? = some (p, ch) → ∃ a i, cur = .slot a i ∧ ch.ptr = some a
  | .remCas _ _ cur levels _ _ _ => ∀ p ch, levels.head? = some (p, ch) → ∃ a i, cur = .slot a i ∧ ch.ptr = some a
  | .prune _ _ _ _ (.clean ..) => True
  | .prune _ ch _ _ _ => ∃ a c q i, ch.ptr = some a ∧ m.mem a = some (.inner c q) ∧ (c i).cond = true
  | _ => True

theorem Helps.evo {m m' : Mem P} {pc : PC K P} (h : Helps m pc) (he : Evo m m') : Helps m' pc := by
  have key : ∀ (ch : Word), (∃ a c q i, ch.ptr = some a ∧ m.mem a = some (.inner c q) ∧ (c i).cond = true) →
      ∃ a c q i, ch.ptr = some a ∧ m'.mem a = some (.inner c q) ∧ (c i).cond = true := by
    rintro ch ⟨a, c, q, i, h1, h2, h3⟩
    obtain ⟨c', h4, h5⟩ := he.inner a c q h2
    exact ⟨a, c', q, i, h1, h4, by rw [h5 i h3]; exact h3⟩
  cases pc with
  | prune p ch i acc k =>
    cases k with
    | trav => exact key ch h
    | rem => exact key ch h
    | clean => trivial
  | _ => exact h

/-! ### The memory measures -/

theorem mem_measures {m m' : Mem P} (hm : m'.mem = m.mem) (hr : m'.root = m.root) (hn : m'.next = m.next)
    (ht : m'.retired = m.retired) : m'.dmg = m.dmg ∧ m'.room = m.room ∧ m'.clean = m.clean := by
  refine ⟨?_, ?_, ?_⟩
  · simp only [Mem.dmg, hm, hn, ht]
  · have : m'.dataAt = m.dataAt := by
      funext a d
      simp only [Mem.dataAt, hr, follow_mem hm]
    simp only [Mem.room, hn, this]
  · simp only [Mem.clean, hn, hm]

theorem ell_mem {m m' : Mem P} (hm : m'.mem = m.mem) (hr : m'.root = m.root) (pc : PC K P) : pc.ell m' = pc.ell m := by
  have h1 : m'.raw = m.raw := by
    funext l; cases l <;> simp only [Mem.raw, hm, hr]
  have h2 : stale m' = stale m := by funext x; simp only [stale, h1]
  have h3 : staleOpt m' = staleOpt m := by funext x; cases x <;> simp only [staleOpt, h2]
  unfold PC.ell
  simp only [h1, h2, h3]

theorem GDec.quiet {m m' : Mem P} {pc pc' : PC K P} (hm : m'.mem = m.mem) (hr : m'.root = m.root) (hn : m'.next = m.next)
    (ht : m'.retired = m.retired) (h : pc'.ell m < pc.ell m) : GDec m m' pc pc' := by
  obtain ⟨h1, h2, h3⟩ := mem_measures hm hr hn ht
  exact Or.inr ⟨h1, Or.inr ⟨h2, Or.inr ⟨h3, hm, hr, by rw [ell_mem hm hr]; exact h⟩⟩⟩

theorem GDec.of_room {m m' : Mem P} {pc pc' : PC K P} (h1 : m'.dmg ≤ m.dmg) (h2 : m'.room < m.room) : GDec m m' pc pc' := by
  rcases Nat.lt_or_eq_of_le h1 with h | h
  · exact Or.inl h
  · exact Or.inr ⟨h, Or.inl h2⟩

theorem MemInv.lt_next {cfg : Config K P} {A : Nat → AMap K P} {m : Mem P} (h : MemInv cfg A m) {a : Nat} {n : Node P}
    (hm : m.mem a = some n) : a < m.next := by
  by_contra hx
  rw [h.fresh a (by omega)] at hm; cases hm

/-- Condemning one more cell of a node that is already being condemned. -/
theorem condemn_measures {cfg : Config K P} {A : Nat → AMap K P} {m : Mem P} (h : MemInv cfg A m)
    {a : Nat} {c : Fin 16 → Word} {p : List (Fin 16)} {i j : Fin 16}
    (hm : m.mem a = some (.inner c p)) (hc : (c i).cond = false) (hj : (c j).cond = true) :
    (m.write (c i).condemn (.slot a i)).dmg = m.dmg ∧ (m.write (c i).condemn (.slot a i)).room = m.room ∧
    (m.write (c i).condemn (.slot a i)).clean < m.clean := by
  have hsh := sameShape_condemn i hm
  have hw := write_condemn i hm
  generalize hm1 : m.write (c i).condemn (.slot a i) = m1 at *
  have hn : m1.next = m.next := by rw [hw]
  have hroot : m1.root = m.root := by rw [hw]
  have hret : m1.retired = m.retired := by rw [hw]
  have hma : m1.mem a = some (.inner (upd c i (c i).condemn) p) := by rw [hw]; simp
  have hmo : ∀ b, b ≠ a → m1.mem b = m.mem b := by intro b hb; rw [hw]; simp [upd_other _ _ hb]
  refine ⟨?_, ?_, ?_⟩
  · simp only [Mem.dmg, hn, hret]
    apply cnt_congr
    intro b _
    by_cases hb : b = a
    · subst hb
      rw [hma, hm]
      constructor
      · rintro ⟨c', p', e, h1, h2⟩
        exact ⟨c, p, rfl, h1, j, hj⟩
      · rintro ⟨c', p', e, h1, h2⟩
        refine ⟨_, _, rfl, h1, i, by simp⟩
    · rw [hmo b hb]
  · have : m1.dataAt = m.dataAt := by
      funext b d
      simp only [Mem.dataAt]
      have hf : ∀ q, m1.follow m1.root q = m.follow m.root q := by
        intro q; rw [hroot]; exact (hsh.follow rfl q).symm
      simp only [hf]
    simp only [Mem.room, hn, this]
  · simp only [Mem.clean, hn]
    refine cnt_lt ?_ (a, i) ?_ ?_ ?_
    · intro x hx0 hx
      refine ⟨hx0, ?_⟩
      obtain ⟨c', p', h1, h2⟩ := hx
      by_cases hb : x.1 = a
      · rw [hb, hma] at h1; cases h1
        refine ⟨c, p, by rw [hb]; exact hm, ?_⟩
        by_cases e : x.2 = i
        · rw [e] at h2; simp at h2
        · rwa [upd_other _ _ e] at h2
      · rw [hmo _ hb] at h1
        exact ⟨c', p', h1, h2⟩
    · simpa using h.lt_next hm
    · exact ⟨c, p, hm, hc⟩
    · rintro ⟨c', p', h1, h2⟩
      simp only at h1 h2
      rw [hma] at h1; cases h1
      simp at h2

/-- A leaf is pushed down. -/
theorem split_measures {cfg : Config K P} {A : Nat → AMap K P} {m m' : Mem P} {loc : Loc} {q : List (Fin 16)}
    (h : MemInv cfg A m) (h' : MemInv cfg A m') {a : Nat} {i : Fin 16}
    (hat : m.At loc q ⟨some a, false, true⟩) (hq : q.length < 16)
    (hs : Swung m m' loc ⟨some m.next, false, false⟩
      (some (.inner (upd (fun _ => Word.null) i ⟨some a, false, true⟩) q)) none) :
    m'.dmg ≤ m.dmg ∧ m'.room < m.room := by
  have hnn := h.fresh _ (Nat.le_refl m.next)
  have hnm : m'.mem m.next = some (.inner (upd (fun _ => Word.null) i ⟨some a, false, true⟩) q) := by
    rw [hs.fresh _ hnn]; simp
  have hroot := hs.follow_root_at h hat rfl rfl
  constructor
  · apply cnt_le
    rintro b - ⟨c', p', h1, h2, j, h3⟩
    rw [Finset.mem_range]
    cases hmb : m.mem b with
    | none =>
      rw [hs.fresh b hmb] at h1
      split at h1
      · cases h1
        by_cases e : j = i
        · subst e; simp at h3
        · simp [upd_other _ _ e] at h3
      · cases h1
    | some n =>
      cases n with
      | data l => rw [hs.data b l hmb] at h1; cases h1
      | inner c p =>
        rw [hs.node b c p hmb] at h1; cases h1
        refine ⟨h.lt_next hmb, c, p', rfl, ?_, j, ?_⟩
        · have := hs.retired b; simp at this; rw [← this]; exact h2
        · simp only at h3
          split at h3
          · cases h3
          · exact h3
  · refine cnt_lt ?_ (a, q.length) ?_ ?_ ?_
    · rintro x hx0 ⟨r, w, h1, h2, h3, h4⟩
      simp only [Finset.mem_product, Finset.mem_range] at hx0 ⊢
      have hd : m.dataAt x.1 x.2 := by
        by_cases hqr : q <+: r
        · obtain ⟨t, rfl⟩ := hqr
          rw [follow_append' hroot] at h2
          cases t with
          | nil => simp [Mem.follow] at h2; subst h2; cases h4
          | cons j t =>
            simp only [Mem.follow, Mem.cellsOf, hnm] at h2
            by_cases e : j = i
            · subst e
              simp only [Bool.false_eq_true, if_false, upd_same] at h2
              obtain ⟨rfl, rfl⟩ := Word.isLeaf.follow (Or.inr rfl) h2
              refine ⟨q, _, ?_, h.at_follow hat rfl, ?_, rfl⟩
              · simp at h1; omega
              · simpa using h3
            · simp only [Bool.false_eq_true, if_false, upd_other _ _ e] at h2
              obtain ⟨rfl, rfl⟩ := isLeaf_null.follow h2
              simp at h3
        · rw [hs.follow_root_frame h hat hqr] at h2
          exact ⟨r, w, h1, h2, h3, h4⟩
      refine ⟨⟨?_, hx0.2⟩, hd⟩
      obtain ⟨r, w, h1, h2, h3, h4⟩ := hd
      obtain ⟨l, hl, -⟩ := (h.path_ok h2).of_data h3 h4
      exact h.lt_next hl
    · simp only [Finset.mem_product, Finset.mem_range]
      obtain ⟨l, hl, -⟩ := (h.at_ok hat).of_data rfl rfl
      exact ⟨h.lt_next hl, by omega⟩
    · exact ⟨q, _, Nat.le_refl _, h.at_follow hat rfl, rfl, rfl⟩
    · rintro ⟨r, w, h1, h2, h3, h4⟩
      have hf : m'.follow m'.root (q ++ [i]) = some ⟨some a, false, true⟩ := by
        rw [follow_append' hroot]
        simp [Mem.follow, Mem.cellsOf, hnm, Word.erase]
      have := h'.path_unique h2 hf h3 rfl
      subst this
      simp only [List.length_append, List.length_singleton] at h1
      omega

/-- A condemned node is unlinked. -/
theorem prune_measures {cfg : Config K P} {A : Nat → AMap K P} {m m' : Mem P} {loc : Loc} {q : List (Fin 16)}
    (h : MemInv cfg A m) {a : Nat} {c : Fin 16 → Word}
    (hat : m.At loc q ⟨some a, false, false⟩) (hm : m.mem a = some (.inner c q)) (hfr : ∀ i, (c i).cond = true)
    {w' : Word} {new : Option (Node P)} (hc' : w'.cond = false) (hok : PruneOK m q c w' new)
    (hs : Swung m m' loc w' new (some a)) : m'.dmg < m.dmg := by
  have hnn := h.fresh _ (Nat.le_refl m.next)
  refine cnt_lt ?_ a ?_ ?_ ?_
  · rintro b - ⟨c', p', h1, h2, j, h3⟩
    rw [Finset.mem_range]
    cases hmb : m.mem b with
    | none =>
      rw [hs.fresh b hmb] at h1
      split at h1
      · cases hok with
        | null => cases h1
        | single => cases h1
        | copy => cases h1; simp at h3
      · cases h1
    | some n =>
      cases n with
      | data l => rw [hs.data b l hmb] at h1; cases h1
      | inner c p =>
        rw [hs.node b c p hmb] at h1; cases h1
        refine ⟨h.lt_next hmb, c, p', rfl, ?_, j, ?_⟩
        · have := hs.retired b
          rw [this] at h2
          split at h2
          · cases h2
          · exact h2
        · simp only at h3
          split at h3
          · rw [hc'] at h3; cases h3
          · exact h3
  · rw [Finset.mem_range]; exact h.lt_next hm
  · exact ⟨c, q, hm, h.live q _ a (h.at_follow hat rfl) rfl, 0, hfr 0⟩
  · rintro ⟨c', p', h1, h2, -⟩
    rw [hs.retired] at h2; simp at h2

end Contrie
