import Verif.Proof.ExecInv
import Verif.Spec.Linearizable
/-
From linearization points to a linearization.
-/
set_option linter.unusedSectionVars false
namespace Contrie
open scoped List
variable {K P : Type} [DecidableEq K]

/-- The map operations among the events. -/
def Event.hev : Event K P → Option (HEv K P)
  | .inv id (.op o) => some (.inv id o)
  | .res id (.op r) => some (.res id r)
  | _ => none

/-- The history of the map operations of the events of a run. -/
def opHistory (es : List (Event K P)) : List (HEv K P) := es.filterMap Event.hev

theorem hev_inv {e : Event K P} {id : Nat} {o : Op K P} : e.hev = some (.inv id o) ↔ e = .inv id (.op o) := by
  cases e with
  | inv id' r => cases r <;> simp [Event.hev]
  | res id' r => cases r <;> simp [Event.hev]

theorem hev_res {e : Event K P} {id : Nat} {r : Ret P} : e.hev = some (.res id r) ↔ e = .res id (.op r) := by
  cases e with
  | inv id' r => cases r <;> simp [Event.hev]
  | res id' r => cases r <;> simp [Event.hev]

theorem pair_sublist_filterMap_range {α : Type} {f : Nat → Option α} {n : Nat} {a b : α} :
    [a, b] <+ (List.range n).filterMap f ↔ ∃ i j, i < j ∧ j < n ∧ f i = some a ∧ f j = some b := by
  constructor
  · intro h
    obtain ⟨l', hl', he⟩ := List.sublist_filterMap_iff.mp h
    have hlt : l'.Pairwise (· < ·) := List.pairwise_lt_range.sublist hl'
    have hmem : ∀ x ∈ l', x < n := fun x hx => List.mem_range.mp (hl'.subset hx)
    clear h hl'
    -- find the first
    induction l' with
    | nil => simp at he
    | cons x l ih =>
      simp only [List.filterMap_cons] at he
      cases hx : f x with
      | none => rw [hx] at he; exact ih he hlt.of_cons (fun y hy => hmem y (by simp [hy]))
      | some v =>
        rw [hx] at he
        injection he with h1 h2
        subst h1
        have hb : b ∈ l.filterMap f := by rw [← h2]; simp
        obtain ⟨y, hy, hfy⟩ := List.mem_filterMap.mp hb
        exact ⟨x, y, (List.pairwise_cons.mp hlt).1 y hy, hmem y (by simp [hy]), hx, hfy⟩
  · rintro ⟨i, j, hij, hj, hi, hb⟩
    have h1 : [i, j] <+ List.range n := by
      have : List.range n = List.range (i + 1) ++ (List.range (n - (i + 1))).map (fun x => (i + 1) + x) := by
        rw [← List.range_add]; congr 1; omega
      rw [this]
      refine List.Sublist.append (l₁ := [i]) (r₁ := [j]) ?_ ?_
      · exact List.singleton_sublist.mpr (by simp)
      · refine List.singleton_sublist.mpr ?_
        simp only [List.mem_map, List.mem_range]
        exact ⟨j - (i + 1), by omega, by omega⟩
    have := h1.filterMap f
    simpa [hi, hb] using this

namespace Exec
variable {cfg : Config K P} (E : Exec cfg)

/-- The history of the first `n` steps of an execution. -/
def history (n : Nat) : List (HEv K P) := (List.range n).filterMap (fun i => (E.ev i).bind Event.hev)

theorem hev_at_inv {i id : Nat} {o : Op K P} : (E.ev i).bind Event.hev = some (.inv id o) ↔
    i = id ∧ E.ev id = some (.inv id (.op o)) := by
  constructor
  · intro h
    obtain ⟨e, h1, h2⟩ := Option.bind_eq_some_iff.mp h
    rw [hev_inv.mp h2] at h1
    have := E.ev_inv h1
    subst this
    exact ⟨rfl, h1⟩
  · rintro ⟨rfl, h⟩; rw [h]; rfl

theorem hev_at_res {i id : Nat} {r : Ret P} : (E.ev i).bind Event.hev = some (.res id r) ↔
    E.ev i = some (.res id (.op r)) := by
  constructor
  · intro h
    obtain ⟨e, h1, h2⟩ := Option.bind_eq_some_iff.mp h
    rw [hev_res.mp h2] at h1
    exact h1
  · intro h; rw [h]; rfl

theorem mem_history_inv {n id : Nat} {o : Op K P} : .inv id o ∈ E.history n ↔
    id < n ∧ E.ev id = some (.inv id (.op o)) := by
  simp only [history, List.mem_filterMap, List.mem_range, hev_at_inv]
  constructor
  · rintro ⟨i, h1, rfl, h2⟩; exact ⟨h1, h2⟩
  · rintro ⟨h1, h2⟩; exact ⟨id, h1, rfl, h2⟩

theorem mem_history_res {n id : Nat} {r : Ret P} : .res id r ∈ E.history n ↔
    ∃ j, j < n ∧ E.ev j = some (.res id (.op r)) := by
  simp only [history, List.mem_filterMap, List.mem_range, hev_at_res]

theorem before_history {n a b : Nat} : Before (E.history n) a b ↔
    ∃ j r o, j < b ∧ b < n ∧ E.ev j = some (.res a (.op r)) ∧ E.ev b = some (.inv b (.op o)) := by
  simp only [Before, history, pair_sublist_filterMap_range, hev_at_inv, hev_at_res]
  constructor
  · rintro ⟨r, o, i, j, h1, h2, h3, rfl, h4⟩; exact ⟨i, r, o, h1, h2, h3, h4⟩
  · rintro ⟨i, r, o, h1, h2, h3, h4⟩; exact ⟨r, o, i, b, h1, h2, h3, rfl, h4⟩

theorem wellFormed (n : Nat) : WellFormed (E.history n) where
  invOnce := by
    rw [List.pairwise_iff_forall_sublist]
    intro a b hs id o o' h1 h2
    subst h1 h2
    obtain ⟨i, j, h1, h2, h3, h4⟩ := pair_sublist_filterMap_range.mp hs
    have := (E.hev_at_inv.mp h3).1
    have := (E.hev_at_inv.mp h4).1
    omega
  resOnce := by
    rw [List.pairwise_iff_forall_sublist]
    intro a b hs id o o' h1 h2
    subst h1 h2
    obtain ⟨i, j, h1, h2, h3, h4⟩ := pair_sublist_filterMap_range.mp hs
    have := E.res_unique (E.hev_at_res.mp h3) (E.hev_at_res.mp h4)
    omega
  resAfter := by
    intro id r h
    obtain ⟨j, h1, h2⟩ := E.mem_history_res.mp h
    obtain ⟨t, c, refs, weak, g1, g2, g3, g4, g5, g6, g7, g8⟩ := E.res h2
    cases hreq : c.req with
    | op o =>
      rw [hreq] at g8
      exact ⟨o, pair_sublist_filterMap_range.mpr ⟨id, j, g7, h1, E.hev_at_inv.mpr ⟨rfl, g8⟩, E.hev_at_res.mpr h2⟩⟩
    | isEmpty => simp only [RetOK, hreq] at g4; obtain ⟨-, b, hb, -⟩ := g4; cases hb
    | iter => simp only [RetOK, hreq] at g4; obtain ⟨-, b, hb, -⟩ := g4; cases hb

/-- A completed call that changed nothing, with its instant. -/
def ReadAt (n τ : Nat) (x : SOp K P) : Prop :=
  E.ev x.id = some (.inv x.id (.op x.op)) ∧ (∃ j, j < n ∧ E.ev j = some (.res x.id (.op x.ret)) ∧ τ ≤ j) ∧
  (∀ τ' lp, E.W τ' = some lp → lp.id ≠ x.id) ∧ x.id ≤ τ ∧ (E.A τ).apply cfg.key x.op = (E.A τ, x.ret)

open Classical in
/-- The read with a given identity and its instant. -/
noncomputable def readOf (n id : Nat) : Option (Nat × SOp K P) :=
  if h : ∃ y : Nat × SOp K P, y.2.id = id ∧ E.ReadAt n y.1 y.2 then some h.choose else none

theorem readOf_some {n id τ : Nat} {x : SOp K P} (h : E.readOf n id = some (τ, x)) : x.id = id ∧ E.ReadAt n τ x := by
  simp only [readOf] at h
  split at h
  · next hh =>
    injection h with h
    have := hh.choose_spec
    rw [h] at this
    exact this
  · cases h

/-- Calls that take effect at instant `τ`. -/
noncomputable def linAt (n τ : Nat) : List (SOp K P) :=
  ((List.range n).filterMap (fun id => match E.readOf n id with
    | some (τ', x) => if τ' = τ then some x else none
    | none => none)) ++ ((E.W τ).map (fun lp => (⟨lp.id, lp.op, lp.ret⟩ : SOp K P))).toList

/-- The linearization of the first `n` steps. -/
noncomputable def lin (n : Nat) : List (SOp K P) := (List.range n).flatMap (E.linAt n)

theorem mem_linAt {n τ : Nat} {x : SOp K P} : x ∈ E.linAt n τ ↔
    (x.id < n ∧ E.readOf n x.id = some (τ, x)) ∨ E.W τ = some ⟨x.id, x.op, x.ret⟩ := by
  simp only [linAt, List.mem_append, List.mem_filterMap, List.mem_range, Option.mem_toList, Option.map_eq_some_iff]
  constructor
  · rintro (⟨id, h1, h2⟩ | ⟨lp, h1, h2⟩)
    · split at h2
      · next τ' y hy =>
        split at h2
        · next e => cases h2; subst e; have := (E.readOf_some hy).1; subst this; exact Or.inl ⟨h1, hy⟩
        · cases h2
      · cases h2
    · subst h2; exact Or.inr h1
  · rintro (⟨h1, h2⟩ | h1)
    · refine Or.inl ⟨x.id, h1, ?_⟩; rw [h2]; simp
    · exact Or.inr ⟨_, h1, rfl⟩

/-- Basic facts about the members. -/
theorem linAt_facts {n τ : Nat} {x : SOp K P} (hτ : τ < n) (h : x ∈ E.linAt n τ) :
    x.id < n ∧ x.id ≤ τ ∧ E.ev x.id = some (.inv x.id (.op x.op)) ∧
    ∀ j r, E.ev j = some (.res x.id r) → τ ≤ j := by
  rcases E.mem_linAt.mp h with ⟨h1, h2⟩ | h1
  · obtain ⟨-, h3, ⟨j, h4, h5, h6⟩, h7, h8, h9⟩ := E.readOf_some h2
    refine ⟨h1, h8, h3, ?_⟩
    intro j' r hr
    have := E.res_unique hr h5
    omega
  · obtain ⟨h2, h3, h4⟩ := E.W_in h1
    simp only at h2 h3 h4
    exact ⟨by omega, by omega, h3, h4⟩

theorem linAt_disjoint {n τ τ' : Nat} {x y : SOp K P} (hx : x ∈ E.linAt n τ) (hy : y ∈ E.linAt n τ')
    (he : x.id = y.id) : τ = τ' ∧ x = y := by
  rcases E.mem_linAt.mp hx with ⟨h1, h2⟩ | h1 <;> rcases E.mem_linAt.mp hy with ⟨g1, g2⟩ | g1
  · rw [he, g2] at h2; cases h2; exact ⟨rfl, rfl⟩
  · exact absurd he.symm ((E.readOf_some h2).2.2.2.1 τ' _ g1)
  · exact absurd he ((E.readOf_some g2).2.2.2.1 τ _ h1)
  · have := E.W_unique h1 g1 he
    subst this
    rw [h1] at g1
    cases x; cases y
    simp at g1
    exact ⟨rfl, by simp [g1]⟩

theorem linAt_nodup (n τ : Nat) : ((E.linAt n τ).map SOp.id).Nodup := by
  simp only [linAt, List.map_append, List.nodup_append]
  refine ⟨?_, ?_, ?_⟩
  · rw [List.Nodup, List.pairwise_map]
    refine List.Pairwise.filterMap _ (R := (· ≠ ·)) ?_ List.nodup_range
    intro a a' hne b hb b' hb' he
    split at hb
    · next τ1 x1 e1 =>
      split at hb
      · cases hb
        split at hb'
        · next τ2 x2 e2 =>
          split at hb'
          · cases hb'
            have h1 := (E.readOf_some e1).1
            have h2 := (E.readOf_some e2).1
            omega
          · cases hb'
        · cases hb'
      · cases hb
    · cases hb
  · cases E.W τ <;> simp
  · intro a ha b hb he
    subst he
    simp only [List.mem_map] at ha hb
    obtain ⟨x, hx, rfl⟩ := ha
    obtain ⟨y, hy, he⟩ := hb
    simp only [Option.mem_toList, Option.map_eq_some_iff] at hy
    obtain ⟨lp, h1, rfl⟩ := hy
    simp only [List.mem_filterMap] at hx
    obtain ⟨id, -, hx⟩ := hx
    split at hx
    · next τ1 x1 e1 =>
      split at hx
      · cases hx
        exact (E.readOf_some e1).2.2.2.1 τ lp h1 he
      · cases hx
    · cases hx

theorem lin_pairwise (n : Nat) (R : SOp K P → SOp K P → Prop)
    (h0 : ∀ τ, τ < n → (E.linAt n τ).Pairwise R)
    (h1 : ∀ τ τ' x y, τ < τ' → τ' < n → x ∈ E.linAt n τ → y ∈ E.linAt n τ' → R x y) : (E.lin n).Pairwise R := by
  rw [lin, List.pairwise_flatMap]
  refine ⟨fun τ hτ => h0 τ (List.mem_range.mp hτ), ?_⟩
  refine List.pairwise_lt_range.imp_of_mem ?_
  intro a b ha hb hab x hx y hy
  exact h1 a b x y hab (List.mem_range.mp hb) hx hy

theorem legal_aux (n m : Nat) (hm : m ≤ n) :
    Legal cfg.key AMap.empty ((List.range m).flatMap (E.linAt n)) (E.A m) := by
  induction m with
  | zero => rw [E.A_zero]; exact .nil _
  | succ m ih =>
    rw [List.range_succ, List.flatMap_append]
    refine (ih (by omega)).append ?_
    simp only [List.flatMap_cons, List.flatMap_nil, List.append_nil, linAt]
    refine Legal.append (m1 := E.A m) (Legal.const ?_) ?_
    · intro x hx
      simp only [List.mem_filterMap] at hx
      obtain ⟨id, -, hx⟩ := hx
      split at hx
      · next τ1 x1 e1 =>
        split at hx
        · next e => cases hx; subst e; exact (E.readOf_some e1).2.2.2.2.2
        · cases hx
      · cases hx
    · cases hw : E.W m with
      | none => simp only [Option.map_none, Option.toList_none]; rw [E.A_none hw]; exact .nil _
      | some lp => exact .cons (E.A_some hw) (.nil _)

/-- Every finite prefix of every execution has a linearization that leads to the current abstract map. -/
theorem lin_isLinearization (n : Nat) : IsLinearization cfg.key (E.history n) (E.lin n) (E.A n) where
  invoked := by
    intro x hx
    obtain ⟨τ, hτ, hx⟩ := List.mem_flatMap.mp hx
    have := E.linAt_facts (List.mem_range.mp hτ) hx
    exact E.mem_history_inv.mpr ⟨this.1, this.2.2.1⟩
  once := by
    rw [List.Nodup, List.pairwise_map]
    refine E.lin_pairwise n _ ?_ ?_
    · intro τ _
      have := E.linAt_nodup n τ
      rw [List.Nodup, List.pairwise_map] at this
      exact this
    · intro τ τ' x y hlt hτ' hx hy he
      have := (E.linAt_disjoint hx hy he).1
      omega
  complete := by
    intro id o r hi hr
    obtain ⟨h1, h2⟩ := E.mem_history_inv.mp hi
    obtain ⟨j, h3, h4⟩ := E.mem_history_res.mp hr
    simp only [lin, List.mem_flatMap, List.mem_range]
    rcases E.res_op h2 h4 with ⟨h5, ⟨τ, a1, a2, a3⟩ | ⟨a0, τ, a1, a2, a3⟩⟩
    · exact ⟨τ, by omega, E.mem_linAt.mpr (Or.inr a3)⟩
    · have hra : E.ReadAt n τ ⟨id, o, r⟩ := ⟨h2, ⟨j, h3, h4, a2⟩, a0, a1, a3⟩
      have hex : ∃ y : Nat × SOp K P, y.2.id = id ∧ E.ReadAt n y.1 y.2 := ⟨(τ, _), rfl, hra⟩
      have hro : E.readOf n id = some (hex.choose.1, hex.choose.2) := by
        simp only [readOf, hex, dif_pos]
      obtain ⟨g1, g2, ⟨j', g3, g4, g5⟩, g6, g7, g8⟩ := E.readOf_some hro
      have hj := E.res_unique (g1 ▸ g4) h4
      subst hj
      refine ⟨hex.choose.1, by omega, ?_⟩
      have : hex.choose.2 = ⟨id, o, r⟩ := by
        generalize hex.choose.2 = z at *
        subst g1
        rw [h2] at g2
        rw [h4] at g4
        cases z
        simp only [Option.some.injEq, Event.inv.injEq, Event.res.injEq, Req.op.injEq, Res.op.injEq, true_and] at g2 g4
        simp [g2, g4]
      rw [this] at hro
      exact E.mem_linAt.mpr (Or.inl ⟨h1, hro⟩)
  realtime := by
    have key : ∀ τ τ' x y, τ ≤ τ' → τ' < n → x ∈ E.linAt n τ → y ∈ E.linAt n τ' → ¬ Before (E.history n) y.id x.id := by
      intro τ τ' x y hle hτ' hx hy hb
      obtain ⟨j, r, o, b1, b2, b3, b4⟩ := E.before_history.mp hb
      have h1 := E.linAt_facts (by omega) hx
      have h2 := (E.linAt_facts hτ' hy).2.2.2 j _ b3
      omega
    refine E.lin_pairwise n _ ?_ ?_
    · intro τ hτ
      rw [List.pairwise_iff_forall_sublist]
      intro x y hs
      exact key τ τ x y (Nat.le_refl _) hτ (hs.subset (by simp)) (hs.subset (by simp))
    · intro τ τ' x y hlt hτ' hx hy
      exact key τ τ' x y (by omega) hτ' hx hy
  legal := E.legal_aux n n (Nat.le_refl _)

end Exec
end Contrie
