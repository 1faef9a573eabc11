import Verif.Proof.PrintRest
import Verif.Props.Wild
/-
C58 (`PrintShape`: printing the structure of a trie in use).
-/
set_option linter.unusedSectionVars false
namespace Contrie
open scoped List
variable {K P : Type} [DecidableEq K]

/-! ### C58 -/

/-- **C58.** However the other sessions and the user code behave, printing the structure of the trie never touches a node that has been destroyed, nor takes a node for
one of the other kind. It takes at most 1 + 16 + … + 16¹⁶ loads, and at most 19 writes per load: it ends, whatever the others do meanwhile. -/
theorem C58_safe (E : WExec K P) {t s n : Nat} {x : Printer P} (h : E.PrintsShape t s n x) :
    x.failed = none ∧ x.loads ≤ (16 ^ 17 - 1) / 15 ∧ x.out.length ≤ 19 * x.loads := by
  have h1 := E.printInv h
  refine ⟨h1.ok, ?_, ?_⟩
  · have : x.loads ≤ cellsOfHeight 16 := by have := h1.left; omega
    exact this
  · have := h.run.texts; omega

/-- It never gets stuck: from wherever it is, it can get to the end without waiting for anybody. -/
theorem C58_finishes (E : WExec K P) {t s n : Nat} {x : Printer P} (h : E.PrintsShape t s n x) :
    ∃ y, E.PrintsShape t s n y ∧ y.todo = [] ∧ x.out <+: y.out := by
  suffices H : ∀ N (x : Printer P), E.PrintsShape t s n x → (cellsOfHeight 16 - x.loads) + x.todo.length + 40 * (cellsOfHeight 16 - x.loads) ≤ N →
      ∃ y, E.PrintsShape t s n y ∧ y.todo = [] ∧ x.out <+: y.out from H _ x h (Nat.le_refl _)
  intro N
  induction N with
  | zero =>
    intro x h hN
    have : x.todo.length = 0 := by omega
    exact ⟨x, h, List.length_eq_zero_iff.mp this, List.prefix_rfl⟩
  | succ N ih =>
    intro x h hN
    have h1 := E.printInv h
    cases ht : x.todo with
    | nil => exact ⟨x, h, ht, List.prefix_rfl⟩
    | cons a rest =>
      rw [ht] at hN
      simp only [List.length_cons] at hN
      cases a with
      | text k =>
        obtain ⟨y, a1, a2, a3⟩ := ih { x with todo := rest, out := x.out ++ [k] } ⟨h.le, h.guard, h.run.write h1.ok ht⟩ (by simp only; omega)
        exact ⟨y, a1, a2, (List.prefix_append _ _).trans a3⟩
      | cell ℓ =>
        obtain ⟨p, hp⟩ := h.guard
        obtain ⟨⟨w, hw⟩, -⟩ := h1.there E h.le h.run.ge hp (ℓ := ℓ) (by rw [ht]; exact List.mem_cons_self)
        have hrun := h.run.load h1.ok ht (w := w) (τ := n) (by simp only [hw]; exact fun e => by cases e) (Nat.le_refl _) (h1.le ℓ) hw
        have hnew : E.PrintsShape t s n (x.load (E.st n).m rest ℓ w n) := ⟨h.le, h.guard, hrun⟩
        have hok := (E.printInv hnew).ok
        have hleft := (E.printInv hnew).left
        have hpre : x.out <+: (x.load (E.st n).m rest ℓ w n).out ∧ (x.load (E.st n).m rest ℓ w n).loads = x.loads + 1 ∧
            (x.load (E.st n).m rest ℓ w n).todo.length ≤ rest.length + 33 := by
          simp only [Printer.load] at hok ⊢
          split
          · next hp => rw [hp] at hok; cases hok
          · next out todo hp =>
            refine ⟨List.prefix_append _ _, rfl, ?_⟩
            simp only [List.length_append]
            have : todo.length ≤ 33 := by
              simp only [printWord] at hp
              split at hp
              · cases hp; simp
              · split at hp
                · split at hp
                  · cases hp
                  · cases hp; simp
                · split at hp
                  · cases hp; simp [loopOver, List.length_flatMap]
                  · cases hp
            omega
        obtain ⟨y, a1, a2, a3⟩ := ih _ hnew (by omega)
        exact ⟨y, a1, a2, hpre.1.trans a3⟩

/-- **C58.** What has been printed in the end is the text of a tree. -/
theorem C58_wellformed (E : WExec K P) {t s n : Nat} {x : Printer P} (h : E.PrintsShape t s n x) (hd : x.todo = []) :
    ∃ T : PTree P, x.out = T.toks := by
  obtain ⟨T, hT⟩ := h.run.text (E.printInv h).ok [] (by rw [hd]; exact .nil)
  exact ⟨T, by simpa using hT⟩

section
variable {cfg : Config K P} (E : CExec cfg)

/-- The weak memory machine is a special case of the one with misbehaving user code. -/
theorem CExec.PrintsShape.wild {t s n : Nat} {x : Printer P} (h : E.PrintsShape t s n x) : ∃ W : WExec K P, W.PrintsShape t s n x := by
  obtain ⟨W, h1, h2, h3, h4⟩ := C43_honest_is_special_case E
  exact ⟨W, by rw [h1]; exact h.le, by rw [h2]; exact h.guard, by rw [h2]; exact h.run⟩

/-- **C58.** What is printed is true. There is one causal linearization of all the calls (see C39) such that the elements printed for a key, whatever the key is, are those that the map
contained at some point of it: one element or none; not before any call that the one who prints knew to have returned when the printing began, and not after the end of the printing. -/
theorem C58_shows {t s n : Nat} {x : Printer P} (h : E.PrintsShape t s n x) (hd : x.todo = []) :
    ∃ L, IsCausalLinearization cfg.key (E.history n) E.Hb L (E.content n) ∧
      ∀ k, ∃ m, GlimpseBy cfg.key (E.Knows t s) L n (fun k' => k' = k) m ∧ (printed x.out).filter (fun p => decide (cfg.key p = k)) = (m k).toList := by
  obtain ⟨W, hW⟩ := h.wild E
  have hinv := E.printInv h (W.printInv hW).ok
  refine ⟨E.lin n, ?_, ?_⟩
  · rw [← E.A_content]; exact E.lin_causal h.le
  · intro k
    rcases hinv.keys k with ⟨h1, -⟩ | ⟨-, v, σ, h2, h3⟩
    · rw [hd] at h1; cases h1
    · exact ⟨E.A σ, E.glimpseBy h.le h.run.ge h2, by rw [h2.val]; exact h3⟩

/-- **C58** for programs that synchronise: if the one who prints knows that all the calls that may have changed key `k`, of those invoked before the end of the printing, have returned, then the
map's element for `k` is printed if there is one, once, and no other with this key. -/
theorem C58_synchronised {t s n : Nat} {x : Printer P} (h : E.PrintsShape t s n x) (hd : x.todo = []) {k : K}
    (hk : ∀ y o, y < n → E.ev y = some (.inv y (.op o)) → o.key cfg.key = k → (∀ k', o ≠ .get k') → E.Knows t s y) :
    ∀ i, s ≤ i → i ≤ n → (printed x.out).filter (fun p => decide (cfg.key p = k)) = (E.content i k).toList := by
  intro i hi1 hi2
  obtain ⟨W, hW⟩ := h.wild E
  have hinv := E.printInv h (W.printInv hW).ok
  have hn := h.le
  have hs := h.run.ge
  rcases hinv.keys k with ⟨h1, -⟩ | ⟨-, v, σ, h2, h3⟩
  · rw [hd] at h1; cases h1
  · have upd : ∀ i lp, i < n → E.W i = some lp → lp.op.key cfg.key = k → (∀ k', lp.op ≠ .get k') → i < σ ∧ i < s := by
      intro i lp hi hw hk' hg
      obtain ⟨t', weak', c', b1, b2, b3, b4, b5, b6, b7, b8⟩ := E.W_ok (by omega) hw
      exact h2.after hn hs (by omega) hw hk' (hk lp.id lp.op (by omega) (E.ev_call (by omega) b6) hk' hg)
    have const : ∀ a, σ ≤ a ∨ s ≤ a → a ≤ n → E.A a k = E.A n k := by
      intro a ha han
      refine E.A_const han hn ?_
      intro i lp h4 h5 hw hk'
      apply Classical.byContradiction
      intro hno
      have := upd i lp h5 hw hk' (fun k' e => hno ⟨k', e⟩)
      omega
    rw [← E.A_content, const i (.inr hi1) hi2, ← const σ (.inl (Nat.le_refl _)) h2.le, h2.val]
    exact h3

/-- **C58** at rest: if the one who prints knows that all calls made before the end of the printing have returned, then the structure of the trie is printed as it is: pointers and flags of all the cells, and all the
elements, in the right places. -/
theorem C58_exact {t s n : Nat} {x : Printer P} (h : E.PrintsShape t s n x) (hd : x.todo = []) (hk : ∀ y r, y < n → E.ev y = some (.inv y r) → E.Knows t s y) :
    ∃ T : PTree P, x.out = T.toks ∧ T.Shows (E.st n).m (E.st n).m.root ∧ HasShape (E.st n).m (E.st n).m.root T.shape := by
  obtain ⟨W, hW⟩ := h.wild E
  obtain ⟨T, h1, h2⟩ := E.prints_exactly h.le hk h.run (Nat.le_refl _) (W.printInv hW).ok [] (by rw [hd]; exact .nil)
  have h3 := E.shows_thaw h.le h1 (q := []) rfl
  exact ⟨T, by simpa using h2, h3, h3.hasShape⟩

/-- With user code that behaves, too, the printing can get to the end. -/
theorem C58_finishes_honest {t s n : Nat} {x : Printer P} (h : E.PrintsShape t s n x) : x.failed = none ∧
    ∃ y, E.PrintsShape t s n y ∧ y.todo = [] ∧ x.out <+: y.out := by
  obtain ⟨W, h1, h2, h3, h4⟩ := C43_honest_is_special_case E
  have hW : W.PrintsShape t s n x := ⟨by rw [h1]; exact h.le, by rw [h2]; exact h.guard, by rw [h2]; exact h.run⟩
  refine ⟨(C58_safe W hW).1, ?_⟩
  obtain ⟨y, a1, a2, a3⟩ := C58_finishes W hW
  exact ⟨y, ⟨by rw [← h1]; exact a1.le, by rw [← h2]; exact a1.guard, by rw [← h2]; exact a1.run⟩, a2, a3⟩

end

/-! ### Examples -/

/-- Somebody who has a guard can begin to print. -/
theorem CExec.PrintsShape.begin {cfg : Config K P} (E : CExec cfg) {t s p : Nat} (hs : s ≤ E.len) (hp : ((E.st s).thr t).pin = some p) :
    E.PrintsShape t s s ⟨[.cell .root], [], ((E.st s).thr t).view, 0, none⟩ :=
  ⟨hs, ⟨p, fun i h1 h2 => by have : i = s := by omega
                             subst this; exact hp⟩, .start⟩

/-- In the execution `exStale` of C39 the map contains (7, 1) at instant 5. Session 1, which has not synchronised with the one who inserted it, may print an empty trie. -/
example : exStale.content 5 7 = some (7, 1) ∧ ∃ x, exStale.PrintsShape 1 5 5 x ∧ x.todo = [] ∧ x.out = [.word Word.null] := by
  refine ⟨rfl, _, ⟨by decide, ⟨1, fun i h1 h2 => ?_⟩, Prints.load (τ := 0) (w := Word.null) .start rfl rfl (fun e => by cases e) (by decide) (Nat.le_refl _) rfl⟩, rfl, rfl⟩
  have : i = 5 := by omega
  subst this; rfl

/-- Session 0 inserts (7, 1) and (23, 2), whose hashes differ in the second group of bits; then session 1 synchronises with it. -/
def exTwoRun : List (CLabel Nat (Nat × Nat)) :=
  [.pin 0, .pin 1, .call 0 (.op (.insert (7, 1))), .tick 0 false 3, .tick 0 false 4, .call 0 (.op (.insert (23, 2))), .tick 0 false 6, .tick 0 false 7, .tick 0 false 8,
   .tick 0 false 9, .tick 0 false 10, .tick 0 false 11, .tick 0 false 12, .tick 0 false 13, .sync 1 0 14]

def exTwo : CExec exCfg :=
  .ofRun exCfg exTwoRun (by decide) (fun i a hi e => absurd e (no_free (cfg := exCfg) (by decide) hi))

/-- Session 1 knows of both insertions. -/
theorem exTwo_knows : ∀ y r, y < 15 → exTwo.ev y = some (.inv y r) → exTwo.Knows 1 15 y := by
  intro y r hy hev
  have hb : HB exTwo.lab exTwo.len (0, 14) (1, 15) := .sync (t := 1) (t' := 0) (τ := 14) (j := 14) (by decide) rfl
  match y, hy with
  | 2, _ => exact ⟨0, 4, .op (.opt none), false, 4, by decide, rfl, rfl, .trans (.po 0 (by decide)) hb⟩
  | 5, _ => exact ⟨0, 13, .op (.opt none), false, 13, by decide, rfl, rfl, hb⟩
  | 0, _ => cases hev
  | 1, _ => cases hev
  | 3, _ => cases hev
  | 4, _ => cases hev
  | 6, _ => cases hev
  | 7, _ => cases hev
  | 8, _ => cases hev
  | 9, _ => cases hev
  | 10, _ => cases hev
  | 11, _ => cases hev
  | 12, _ => cases hev
  | 13, _ => cases hev
  | 14, _ => cases hev

/-- Non-vacuity of C58: session 1 can print this trie, and what it prints then is the text of a tree with the elements (7, 1) and (23, 2), each once, in two levels of nodes. -/
example : ∃ x T, exTwo.PrintsShape 1 15 15 x ∧ x.todo = [] ∧ x.out = PTree.toks T ∧
    (printed x.out).filter (fun p => decide (p.1 = 7)) = [(7, 1)] ∧ (printed x.out).filter (fun p => decide (p.1 = 23)) = [(23, 2)] ∧
    ∃ sub sub', T.shape = .node sub ∧ sub 7 = .node sub' ∧ sub' 0 = .leaf [(7, 1)] ∧ sub' 1 = .leaf [(23, 2)] := by
  obtain ⟨-, x, h1, h2, -⟩ := C58_finishes_honest exTwo (CExec.PrintsShape.begin exTwo (t := 1) (s := 15) (p := 1) (by decide) rfl)
  obtain ⟨T, h3, -, h4⟩ := C58_exact exTwo h1 h2 exTwo_knows
  refine ⟨x, T, h1, h2, h3, C58_synchronised exTwo h1 h2 (k := 7) (fun y o hy hev _ _ => exTwo_knows y _ hy hev) 15 (by decide) (by decide),
    C58_synchronised exTwo h1 h2 (k := 23) (fun y o hy hev _ _ => exTwo_knows y _ hy hev) 15 (by decide) (by decide), ?_⟩
  generalize T.shape = S at h4
  cases h4 with
  | null hp => cases hp
  | leaf hp hd hm => cases hd
  | @node _ a c p sub hp hd hm hsub =>
    cases hp
    cases hm
    have h7 := hsub 7
    refine ⟨sub, ?_⟩
    generalize sub 7 = S7 at h7
    cases h7 with
    | null hp => cases hp
    | leaf hp hd hm => cases hd
    | @node _ a c p sub' hp hd hm hsub' =>
      cases hp
      cases hm
      have h70 := hsub' 0
      have h71 := hsub' 1
      refine ⟨sub', rfl, rfl, ?_, ?_⟩
      · generalize sub' 0 = S70 at h70
        cases h70 with
        | null hp => cases hp
        | node hp hd hm => cases hd
        | leaf hp hd hm => cases hp; cases hm; rfl
      · generalize sub' 1 = S71 at h71
        cases h71 with
        | null hp => cases hp
        | node hp hd hm => cases hd
        | leaf hp hd hm => cases hp; cases hm; rfl

end Contrie
