import Verif.Proof.PrintCoh
import Verif.Proof.Path
/-
`PrintShape`: what is printed while the trie is at rest.
-/
set_option linter.unusedSectionVars false
namespace Contrie
variable {K P : Type} [DecidableEq K]
open scoped List

theorem read_bump (m : Mem P) (ℓ : Loc) : m.bump.read ℓ = m.read ℓ := by cases ℓ <;> rfl

/-- The text of the tree below each cell that remains to be printed. -/
inductive CompletesIn (m : Mem P) : List (Todo P) → List (Tok P) → Prop
  | nil : CompletesIn m [] []
  | text (x : Tok P) {l : List (Todo P)} {c : List (Tok P)} (h : CompletesIn m l c) : CompletesIn m (.text x :: l) (x :: c)
  | cell {ℓ : Loc} {w : Word} {T : PTree P} {l : List (Todo P)} {c : List (Tok P)} (hr : m.read ℓ = some w) (hT : T.Shows m w) (h : CompletesIn m l c) :
      CompletesIn m (.cell ℓ :: l) (T.toks ++ c)

theorem CompletesIn.split {m : Mem P} {l l' : List (Todo P)} : ∀ {c : List (Tok P)}, CompletesIn m (l ++ l') c →
    ∃ c1 c2, c = c1 ++ c2 ∧ CompletesIn m l c1 ∧ CompletesIn m l' c2 := by
  induction l with
  | nil => intro c h; exact ⟨[], c, rfl, .nil, h⟩
  | cons x l ih =>
    intro c h
    cases h with
    | text x h =>
      obtain ⟨c1, c2, rfl, h1, h2⟩ := ih h
      exact ⟨_ :: c1, c2, rfl, .text _ h1, h2⟩
    | @cell _ w T _ _ hr hT h =>
      obtain ⟨c1, c2, rfl, h1, h2⟩ := ih h
      exact ⟨T.toks ++ c1, c2, by simp, .cell hr hT h1, h2⟩

theorem CompletesIn.loop {m : Mem P} {a : Nat} {c : List (Tok P)} (h : CompletesIn m (loopOver a) c) :
    ∃ sub : Fin 16 → PTree P, c = (List.finRange 16).flatMap (fun i => Tok.idx i :: (sub i).toks) ++ [.closing] ∧
      ∀ i, ∃ w, m.read (.slot a i) = some w ∧ (sub i).Shows m w := by
  obtain ⟨c1, c2, rfl, h1, h2⟩ := h.split
  cases h2 with
  | text x h2 =>
    cases h2
    have key : ∀ l : List (Fin 16), l.Nodup → ∀ c1, CompletesIn m (l.flatMap (fun i => [Todo.text (.idx i), .cell (.slot a i)])) c1 →
        ∃ sub : Fin 16 → PTree P, c1 = l.flatMap (fun i => Tok.idx i :: (sub i).toks) ∧ ∀ i ∈ l, ∃ w, m.read (.slot a i) = some w ∧ (sub i).Shows m w := by
      intro l
      induction l with
      | nil => intro _ c1 h; cases h; exact ⟨fun _ => .null Word.null, rfl, fun i hi => by cases hi⟩
      | cons i l ih =>
        intro hn c1 h
        simp only [List.flatMap_cons, List.cons_append, List.nil_append] at h
        cases h with
        | text _ h =>
          cases h with
          | @cell _ w T _ _ hr hT h =>
            have hn := List.nodup_cons.1 hn
            obtain ⟨sub, rfl, hsub⟩ := ih hn.2 _ h
            have hne : ∀ j, j ∈ l → j ≠ i := by rintro j hj rfl; exact hn.1 hj
            refine ⟨upd sub i T, ?_, ?_⟩
            · simp only [List.flatMap_cons, upd_same, List.cons_append]
              congr 2
              simp only [List.flatMap_def]
              congr 1
              refine List.map_congr_left (fun j hj => ?_)
              rw [upd_other _ _ (hne j hj)]
            · intro j hj
              rcases List.mem_cons.1 hj with rfl | hj
              · rw [upd_same]; exact ⟨w, hr, hT⟩
              · rw [upd_other _ _ (hne j hj)]; exact hsub j hj
    obtain ⟨sub, rfl, hsub⟩ := key _ (List.nodup_finRange 16) _ h1
    exact ⟨sub, rfl, fun i => hsub i (List.mem_finRange i)⟩

/-- A session's view only grows. -/
theorem Prints.view_ge {mem : Nat → Mem P} {s : Nat} {V : Loc → Nat} {n : Nat} {x : Printer P} (h : Prints mem s V n x) (ℓ : Loc) : V ℓ ≤ x.view ℓ := by
  induction h with
  | start => exact Nat.le_refl _
  | wait h ih => exact ih
  | write h hf ht ih => exact ih
  | crash h hf ht hm ih => exact ih
  | @load n τ x ℓ' w rest h hf ht hm hτ hv hw ih =>
    simp only [Printer.load]
    split
    · exact ih
    · simp only
      by_cases e : ℓ = ℓ'
      · subst e; rw [upd_same]; omega
      · rw [upd_other _ _ e]; exact ih

namespace CExec
variable {cfg : Config K P} (E : CExec cfg)

/-- Where the change of a cell comes from. -/
theorem cell_kept {i : Nat} (hi : i < E.len) {ℓ : Loc} {w : Word} (h : (E.M i).read ℓ = some w) :
    (E.M (i + 1)).read ℓ = some w ∨ ∃ t weak τ c, E.lab i = .tick t weak τ ∧ ((E.st i).thr t).run = some c ∧ E.V t (i + 1) ℓ = i + 1 := by
  have hI := E.cinv (Nat.le_of_lt hi)
  have hs := E.step i hi
  have plain : (E.st (i + 1)).m.thaw = (E.st i).m.thaw.bump → (E.M (i + 1)).read ℓ = some w := by
    intro e
    have : E.M (i + 1) = (E.M i).bump := e
    rw [this, read_bump]; exact h
  cases hl : E.lab i with
  | tick t weak τ =>
    cases hc : ((E.st i).thr t).run with
    | none => rw [hl] at hs; simp only [cstep, hc] at hs; cases hs
    | some c =>
      cases hI.did E hi hl hc with
      | store ℓ' o p w' σ ha hτ hw hnx hm hv hW hread hch hl' =>
        by_cases e : ℓ = ℓ'
        · subst e; exact .inr ⟨t, weak, τ, c, rfl, hc, hv⟩
        · left
          rw [hm, read_bump]
          refine tick_read ((hI.hist.inv i (Nat.le_refl _)).fresh _ (Nat.le_refl _)) (O := .code) h ?_
          intro ord e'
          rw [ha] at e'
          cases e'
          exact e rfl
      | load ℓ' o p w' mw σ ha hτ hw hnx hm => left; rw [hm, read_bump]; exact h
      | silent ha hnx hm => left; rw [hm, read_bump]; exact h
  | pin t =>
    rw [hl] at hs
    simp only [cstep] at hs
    split at hs
    · simp only [Option.some.injEq, Prod.mk.injEq] at hs; left; apply plain; rw [← hs.1]; rfl
    · cases hs
  | unpin t =>
    rw [hl] at hs
    simp only [cstep] at hs
    split at hs
    · simp only [Option.some.injEq, Prod.mk.injEq] at hs; left; apply plain; rw [← hs.1]; rfl
    · cases hs
  | call t r =>
    rw [hl] at hs
    simp only [cstep] at hs
    split at hs
    · simp only [Option.some.injEq, Prod.mk.injEq] at hs; left; apply plain; rw [← hs.1]; rfl
    · cases hs
  | abort t =>
    rw [hl] at hs
    simp only [cstep] at hs
    split at hs
    · cases hs
    · simp only [Option.some.injEq, Prod.mk.injEq] at hs; left; apply plain; rw [← hs.1]; rfl
  | sync t t' τ =>
    rw [hl] at hs
    simp only [cstep, Option.some.injEq, Prod.mk.injEq] at hs
    left; apply plain; rw [← hs.1]; rfl
  | free a =>
    rw [hl] at hs
    simp only [cstep, Option.some.injEq, Prod.mk.injEq] at hs
    left; apply plain; rw [← hs.1]; rfl
  | idle =>
    rw [hl] at hs
    simp only [cstep, Option.some.injEq, Prod.mk.injEq] at hs
    left; apply plain; rw [← hs.1]; rfl

/-- All calls ever made have returned, and session `t` knew it at instant `s`. -/
def AllKnown (t s n : Nat) : Prop := ∀ x r, x < n → E.ev x = some (.inv x r) → E.Knows t s x

/-- Then it sees the present contents of the cells. -/
theorem fresh_cells {t s n : Nat} (hn : n ≤ E.len) (hs : s ≤ n) (hk : E.AllKnown t s n) {ℓ : Loc} {τ : Nat} (hv : E.V t s ℓ ≤ τ) (hτ : τ ≤ n) {w : Word}
    (h : (E.M τ).read ℓ = some w) : (E.M n).read ℓ = some w := by
  induction hτ with
  | refl => exact h
  | @step n hτ ih =>
    -- the changes are known
    have key : ∀ i, i ≤ n → ∀ w, (E.M i).read ℓ = some w → τ ≤ i → (E.M (i + 1)).read ℓ = some w := by
      intro i hi w' hr hle
      rcases E.cell_kept (by omega) hr with h' | ⟨t', weak, τ', c, h1, h2, h3⟩
      · exact h'
      · exfalso
        have ci := ((E.cinv (n := i) (by omega)).sess t').run c h2
        have hlt := ci.lt
        have hlab := ci.lab
        obtain ⟨t'', j, r, weak', τ'', a1, a2, a3, a4⟩ := hk c.inv _ (by omega) (E.ev_call (by omega) hlab)
        obtain ⟨b1, b2⟩ := E.hb a4 (by simp only; omega)
        simp only at b1 b2
        obtain ⟨t3, weak3, τ3, c3, g1, g2, g3, g4, g5, -⟩ := E.ret a1 a3
        rw [a2] at g1; cases g1
        rw [hlab] at g5
        injection g5 with g5 _
        subst g5
        have hij : i ≤ j := by
          apply Classical.byContradiction
          intro hlt'
          exact E.not_running a1 a3 (by omega) (by omega) h2 rfl
        have := b2 ℓ
        have := E.V_mono t' (i := i + 1) (j := j + 1) (by omega) a1 ℓ
        omega
    have : ∀ i, τ ≤ i → i ≤ n + 1 → (E.M i).read ℓ = some w := by
      intro i hi
      induction hi with
      | refl => intro _; exact h
      | @step i hi ih' => intro hle; exact key i (by omega) w (ih' (by omega)) hi
    exact this (n + 1) (Nat.le_succ_of_le hτ) (Nat.le_refl _)

/-- Nothing that hangs in the trie is destroyed. -/
theorem not_freed {n : Nat} (hn : n ≤ E.len) {q : List (Fin 16)} {w : Word} {a : Nat} (hf : (E.M n).follow (E.M n).root q = some w) (hp : w.ptr = some a) :
    (E.st n).m.freed a = false := by
  have H := (E.cinv hn).hist
  cases hfr : (E.st n).m.freed a with
  | false => rfl
  | true =>
    exfalso
    obtain ⟨i, hi, hl⟩ := E.freed_at hn hfr
    obtain ⟨r, tr, weak, τ, h1, h2, h3, h4, -⟩ := E.gc i a (by omega) hl
    have h4' : (E.M (r + 1)).retired a ≠ none := h4
    cases hr : (E.M (r + 1)).retired a with
    | none => exact h4' hr
    | some τ' =>
      have := H.retired (x := r + 1) (y := n) (by omega) (Nat.le_refl _) hr
      rw [(H.inv n (Nat.le_refl _)).live q w a hf hp] at this
      cases this

theorem shows_thaw {n : Nat} (hn : n ≤ E.len) {w : Word} {T : PTree P} (h : T.Shows (E.M n) w) : ∀ {q : List (Fin 16)},
    (E.M n).follow (E.M n).root q = some w.erase → T.Shows (E.st n).m w := by
  have deref : ∀ {q : List (Fin 16)} {w : Word} {a : Nat} {nd : Node P}, (E.M n).follow (E.M n).root q = some w.erase → w.ptr = some a → (E.M n).deref a = some nd →
      (E.st n).m.deref a = some nd ∧ (E.M n).mem a = some nd := by
    intro q w a nd hf hp hm
    have h1 := E.not_freed hn hf (w := w.erase) (a := a) hp
    have h2 : (E.M n).mem a = some nd := by
      simp only [Mem.deref] at hm
      split at hm
      · cases hm
      · exact hm
    have h3 : (E.st n).m.mem a = some nd := h2
    exact ⟨by simp [Mem.deref, h1, h3], h2⟩
  induction h with
  | null hp => intro q hf; exact .null hp
  | leaf hp hd hm => intro q hf; exact .leaf hp hd (deref hf hp hm).1
  | @node w a c p sub hp hd hm hsub ih =>
    intro q hf
    obtain ⟨h1, h2⟩ := deref hf hp hm
    refine .node hp hd h1 (fun i => ih i (q := q ++ [i]) ?_)
    rw [follow_append, hf]
    have : (E.M n).cellsOf w.erase = some c := by simp [Mem.cellsOf, Word.erase, hp, hd, h2]
    simp only [this, Mem.follow]

/-- While the trie is at rest, the tree is printed as it is. -/
theorem prints_exactly {t s n : Nat} (hn : n ≤ E.len) (hk : E.AllKnown t s n) {n' : Nat} {x : Printer P}
    (h : Prints (fun i => (E.st i).m) s ((E.st s).thr t).view n' x) (hn' : n' ≤ n) (hf : x.failed = none) :
    ∀ c, CompletesIn (E.M n) x.todo c → ∃ T : PTree P, T.Shows (E.M n) (E.M n).root ∧ x.out ++ c = T.toks := by
  have H := (E.cinv hn).hist
  induction h with
  | start =>
    intro c h
    cases h with
    | @cell _ w T _ _ hr hT h =>
      cases h
      simp only [Mem.read, Option.some.injEq] at hr
      subst hr
      exact ⟨T, hT, by simp⟩
  | wait h ih => exact ih (by omega) hf
  | @write n' x k rest h hf' ht ih =>
    intro c hc
    obtain ⟨T, hS, hT⟩ := ih hn' hf' (k :: c) (by rw [ht]; exact .text k hc)
    exact ⟨T, hS, by simpa using hT⟩
  | crash h hf' ht hm ih => cases hf
  | @load n' τ x ℓ w rest h hf' ht hm hτ hv hw ih =>
    intro c hc
    have hrdM : (E.M τ).read ℓ = some w := by
      simp only [M]
      rw [← thaw_read]
      · exact hw
      · intro a hna
        cases ℓ with
        | root => cases hna
        | slot b i =>
          cases hna
          cases hf : (E.st τ).m.freed a with
          | false => rfl
          | true => simp [Mem.read, Mem.deref, hf] at hw
    have hnow : (E.M n).read ℓ = some w :=
      E.fresh_cells hn (by have := h.ge; omega) hk (Nat.le_trans (h.view_ge ℓ) hv) (by omega) hrdM
    have mem_of : ∀ {a : Nat} {nd : Node P}, (E.st n').m.deref a = some nd → (E.M n').mem a = some nd := by
      intro a nd hd
      simp only [Mem.deref] at hd
      split at hd
      · cases hd
      · exact hd
    simp only [Printer.load] at hf hc ⊢
    cases hp : printWord (E.st n').m w with
    | error f => rw [hp] at hf; cases hf
    | ok r =>
      obtain ⟨out, todo⟩ := r
      rw [hp] at hc
      simp only at hc ⊢
      obtain ⟨c1, c2, rfl, h1, h2⟩ := hc.split
      have fin : ∀ T : PTree P, T.Shows (E.M n) w → out ++ c1 = T.toks →
          ∃ T : PTree P, T.Shows (E.M n) (E.M n).root ∧ x.out ++ out ++ (c1 ++ c2) = T.toks := by
        intro T hS hT
        obtain ⟨T', hS', hT'⟩ := ih hn' hf' (T.toks ++ c2) (by rw [ht]; exact .cell hnow hS h2)
        exact ⟨T', hS', by rw [← hT', ← hT]; simp⟩
      simp only [printWord] at hp
      split at hp
      · next hw0 =>
        cases hp
        cases h1
        exact fin (.null w) (.null hw0) rfl
      · next a ha =>
        split at hp
        · next hd =>
          split at hp
          · cases hp
          · next items hld =>
            cases hp
            cases h1
            refine fin (.leaf w items) (.leaf ha hd ?_) rfl
            simp only [Mem.loadData, hd, ha, Bool.true_eq_false, if_false] at hld
            split at hld
            · next l hdr =>
              cases hld
              have := H.data hn' (Nat.le_refl _) (mem_of hdr)
              simp only [Mem.deref, M] at this ⊢
              exact this
            · cases hld
        · next hd =>
          split at hp
          · next cs p hdr =>
            cases hp
            obtain ⟨sub, rfl, hsub⟩ := h1.loop
            obtain ⟨c', hm', -⟩ := H.inner hn' (Nat.le_refl _) (mem_of hdr)
            have hdr' : (E.M n).deref a = some (.inner c' p) := by
              simp only [Mem.deref, M] at hm' ⊢
              exact hm'
            refine fin (.node w sub) (.node ha (by simpa using hd) hdr' ?_) (by simp [PTree.toks])
            intro i
            obtain ⟨w', hr', hS'⟩ := hsub i
            simp only [Mem.read, hdr', Option.some.injEq] at hr'
            subst hr'
            exact hS'
          · cases hp

end CExec
end Contrie
