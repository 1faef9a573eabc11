import Verif.Proof.WeakOne
import Verif.Proof.CohSolo
import Verif.Proof.WeakCas
import Verif.Props.Locking
/-
Cleaning up on weak memory: what the removals know about each other, if any two of them are ordered by some synchronisation.
-/
set_option linter.unusedSectionVars false
namespace Contrie
variable {K P : Type} [DecidableEq K]

/-- What was there is not gone. -/
def Word.Keeps (w w' : Word) : Prop := w.ptr ≠ none → w'.ptr ≠ none ∧ (w.data = false → w'.ptr = w.ptr ∧ w'.data = false)

theorem Word.Keeps.refl (w : Word) : w.Keeps w := fun h => ⟨h, fun h' => ⟨rfl, h'⟩⟩

theorem Word.Keeps.trans {w w' w'' : Word} (h : w.Keeps w') (h' : w'.Keeps w'') : w.Keeps w'' := by
  intro e
  obtain ⟨e1, e2⟩ := h e
  obtain ⟨e3, e4⟩ := h' e1
  refine ⟨e3, fun hd => ?_⟩
  obtain ⟨f1, f2⟩ := e2 hd
  obtain ⟨f3, f4⟩ := e4 f2
  exact ⟨f3.trans f1, f4⟩

/-- The (cell, child) pairs a removal has on its stack. -/
def PC.levels : PC K P → List (Loc × Word)
  | .rem _ _ _ levels => levels
  | .remCas _ _ _ levels _ _ _ => levels
  | .count _ _ parent child rest _ _ => (parent, child) :: rest
  | .prune parent child _ _ (.clean _ _ rest) => (parent, child) :: rest
  | .pruneCas parent child _ (.clean _ _ rest) => (parent, child) :: rest
  | _ => []

section
variable {cfg : Config K P}

theorem enterPrune_levels {parent : Loc} {child : Word} {k : Cont K P} {pc' : PC K P} {ran : Bool} (h : enterPrune parent child k = .goto pc' ran)
    {x : Loc × Word} (hx : x ∈ pc'.levels) : ∃ deleted ref rest, k = .clean deleted ref rest ∧ (x = (parent, child) ∨ x ∈ rest) := by
  simp only [enterPrune] at h
  split at h
  · cases h
  · split at h <;> cases h
    cases k with
    | clean deleted ref rest => exact ⟨deleted, ref, rest, rfl, by simpa [PC.levels] using hx⟩
    | trav => cases hx
    | rem => cases hx

theorem enterClean_levels {deleted : P} {ref : Nat} {levels : List (Loc × Word)} {pc' : PC K P} {ran : Bool}
    (h : (enterClean deleted ref levels : Next K P) = .goto pc' ran) {x : Loc × Word} (hx : x ∈ pc'.levels) : x ∈ levels := by
  cases levels with
  | nil => cases h
  | cons y rest =>
    simp only [enterClean] at h
    split at h <;> cases h
    exact hx

theorem afterPrune_levels {r : PruneResult} {k : Cont K P} {pc' : PC K P} {ran : Bool} (h : afterPrune r k = .goto pc' ran)
    {x : Loc × Word} (hx : x ∈ pc'.levels) : ∃ deleted ref rest, k = .clean deleted ref rest ∧ x ∈ rest := by
  cases k with
  | trav => cases h; cases hx
  | rem => cases h; cases hx
  | clean deleted ref rest =>
    simp only [afterPrune] at h
    split at h
    · cases h
    · exact ⟨deleted, ref, rest, rfl, enterClean_levels h hx⟩

/-- Where the pairs come from. -/
theorem tick_levels {m : Mem P} {weak : Bool} {pc pc' : PC K P} {ran : Bool} {key : K} {shift : Nat} {cur : Loc} {lv : List (Loc × Word)}
    (h : (tick cfg m weak pc).2 = .goto pc' ran) (hpc : pc = .rem key shift cur lv)
    {x : Loc × Word} (hx : x ∈ pc'.levels) : x ∈ pc.levels ∨ x.1 = cur ∧ m.read cur = some x.2 := by
  subst hpc
  simp only [tick, tickRem] at h
  split at h
  · cases h
  · next node hr =>
    split at h
    · cases h
    · next a hp =>
      split at h
      · split at h
        · cases h
        · obtain ⟨_, _, _, e, -⟩ := enterPrune_levels h hx
          cases e
      · split at h
        · split at h
          · cases h
          · split at h
            · cases h
            · cases h; exact .inl hx
        · split at h
          · cases h
          · split at h
            · cases h
            · cases h
              simp only [PC.levels, List.mem_cons] at hx
              rcases hx with rfl | hx
              · exact .inr ⟨rfl, hr⟩
              · exact .inl hx

theorem tick_levels' {m : Mem P} {weak : Bool} {pc pc' : PC K P} {ran : Bool}
    (h : (tick cfg m weak pc).2 = .goto pc' ran)
    {x : Loc × Word} (hx : x ∈ pc'.levels) : x ∈ pc.levels ∨ ∃ o, pc.access .code = some (x.1, o) ∧ m.read x.1 = some x.2 := by
  cases pc with
  | rem key shift cur lv =>
    rcases tick_levels h rfl hx with e | ⟨e1, e2⟩
    · exact .inl e
    · exact .inr ⟨_, by rw [e1]; rfl, by rw [e1]; exact e2⟩
  | remCas key shift cur lv node new deleted =>
    left
    simp only [tick, tickRemCas] at h
    split at h
    · cases h
    · split at h
      · split at h
        · cases h
        · split at h
          · cases h
          · exact enterClean_levels h hx
      · cases h; exact hx
  | count deleted ref parent child rest i cnt =>
    left
    simp only [tick, tickCount] at h
    split at h
    · cases h
    · split at h
      · cases h
      · next w hr =>
        generalize (if w.ptr.isSome = true then cnt + 1 else cnt : Nat) = cnt' at h
        split at h
        · cases h; exact hx
        · split at h
          · cases h
          · obtain ⟨_, _, _, e, e'⟩ := enterPrune_levels h hx
            cases e
            simpa [PC.levels] using e'
  | prune parent child i acc k =>
    left
    simp only [tick, tickPrune] at h
    split at h
    · cases h
    · split at h
      · cases h
      · split at h
        · cases h
        · split at h
          · cases h; cases k <;> exact hx
          · split at h
            · cases h
            · cases h; cases k <;> exact hx
  | pruneCas parent child acc k =>
    left
    have key : ∀ r, afterPrune r k = .goto pc' ran → x ∈ (PC.pruneCas parent child acc k : PC K P).levels := by
      intro r h
      obtain ⟨_, _, _, rfl, e'⟩ := afterPrune_levels h hx
      simp [PC.levels, e']
    simp only [tick, tickPruneCas] at h
    split at h
    · cases h
    · split at h
      · split at h <;> exact key _ h
      · cases h
  | get key hash cur =>
    simp only [tick, tickGet] at h
    split at h
    · cases h
    · split at h
      · cases h
      · split at h
        · split at h
          · cases h
          · split at h <;> cases h
        · cases h; cases hx
  | isEmpty => cases h
  | iterNew => cases h; cases hx
  | iterNext levels out =>
    simp only [tick, tickIterNext] at h
    split at h
    · cases h
    · split at h
      · cases h; cases hx
      · split at h
        · split at h
          · cases h
          · split at h <;> cases h <;> cases hx
        · split at h
          · split at h
            · cases h
            · split at h <;> cases h
              cases hx
          · cases h; cases hx
  | trav st hash mode shift cur parent =>
    simp only [tick, tickTrav] at h
    split at h
    · cases h
    · split at h
      · split at h
        · cases h
        · obtain ⟨_, _, _, e, -⟩ := enterPrune_levels h hx
          cases e
      · split at h
        · cases h; cases hx
        · split at h
          · split at h
            · cases h
            · cases h
            · split at h
              · split at h
                · cases h
                · cases h; cases hx
              · split at h
                · cases h; cases hx
                · simp only [finishTrav] at h
                  split at h
                  · cases h
                  · split at h <;> cases h
          · split at h
            · cases h
            · cases h; cases hx
  | travCas st hash mode shift cur parent node new kind =>
    have fin : ∀ {m1 : Mem P} {r : Option (ExistingOrNew P)} {refs : List Nat},
        ((m1, finishTrav mode r refs) : Mem P × Next K P).2 = .goto pc' ran → False := by
      intro m1 r refs h
      simp only [finishTrav] at h
      split at h
      · cases h
      · split at h <;> cases h
    simp only [tick, tickTravCas] at h
    split at h
    · cases h
    · split at h
      · split at h
        · cases h; cases hx
        · split at h <;> exact (fin h).elim
        · split at h
          · cases h
          · split at h
            · cases h
            · split at h <;> exact (fin h).elim
      · cases h; cases hx
end

/-! ### No reuse -/

section
variable {cfg : Config K P} {A : Nat → AMap K P} {M : Nat → Mem P} {n : Nat}

/-- A cell that points to an inner node, and later still does, did so all the time. -/
theorem Hist.at_between (H : Hist cfg A M n) {x y z : Nat} {ℓ : Loc} {q : List (Fin 16)} {a : Nat} (hx : (M x).At ℓ q ⟨some a, false, false⟩)
    (hy : (M y).At ℓ q ⟨some a, false, false⟩) (hxz : x ≤ z) (hzy : z ≤ y) (hyn : y ≤ n) : (M z).At ℓ q ⟨some a, false, false⟩ := by
  have nx := nodeAt_of_follow (H.inv x (by omega)) ((H.inv x (by omega)).at_follow hx rfl) rfl rfl
  have ny := nodeAt_of_follow (H.inv y (by omega)) ((H.inv y (by omega)).at_follow hy rfl) rfl rfl
  have nz := (H.node_between nx ny hxz hzy hyn).follow (H.inv z (by omega))
  cases ℓ with
  | root =>
    obtain ⟨rfl, hx⟩ := hx
    refine ⟨rfl, ?_⟩
    have hc := (H.inv z (by omega)).rootClean
    simpa [Mem.follow, erase_of_clean hc] using nz
  | slot b i =>
    have hret := (H.inv y hyn).at_live hy rfl b i rfl
    obtain ⟨c, p, h1, rfl, h3⟩ := hx
    obtain ⟨cz, h4, -⟩ := H.inner hxz (by omega) h1
    have hretz : (M z).retired b = none := by
      cases hr : (M z).retired b with
      | none => rfl
      | some τ => rw [H.retired hzy hyn hr] at hret; cases hret
    have hl : LiveAt (M z) (.slot b i) (p ++ [i]) (cz i) := ⟨⟨cz, p, h4, rfl, rfl⟩, by intro a' i' e; cases e; exact hretz⟩
    have hf := hl.follow (H.inv z (by omega))
    rw [nz] at hf
    refine ⟨cz, p, h4, rfl, ?_⟩
    have hc : (cz i).cond = false := by
      cases e : (cz i).cond with
      | false => rfl
      | true =>
        obtain ⟨cy, h5, h6⟩ := H.inner hzy hyn h4
        obtain ⟨cy', p', h7, -, h8⟩ := hy
        rw [h5] at h7; cases h7
        rw [h6 i e] at h8
        rw [h8] at e; cases e
    rw [erase_of_clean hc] at hf
    injection hf with hf
    exact hf.symm

/-- The cell of a path is unique. -/
theorem MemInv.cell_unique {m : Mem P} (h : MemInv cfg A m) {ℓ ℓ' : Loc} {q : List (Fin 16)} {w w' : Word} (h1 : m.At ℓ q w) (h2 : m.At ℓ' q w')
    (hc : w.cond = false) (hc' : w'.cond = false) : ℓ = ℓ' := by
  have l1 := h.at_live h1 hc
  have l2 := h.at_live h2 hc'
  cases ℓ with
  | root =>
    obtain ⟨rfl, -⟩ := h1
    cases ℓ' with
    | root => rfl
    | slot b j => obtain ⟨c, p, -, e, -⟩ := h2; simp at e
  | slot a i =>
    obtain ⟨c, p, e1, rfl, -⟩ := h1
    cases ℓ' with
    | root => obtain ⟨e, -⟩ := h2; simp at e
    | slot b j =>
      obtain ⟨c', p', e2, e3, -⟩ := h2
      obtain ⟨rfl, e4⟩ := List.append_inj' e3 rfl
      cases e4
      have : a = b := NodeAt.unique h ⟨⟨c, e1⟩, l1 a i rfl⟩ ⟨⟨c', e2⟩, l2 b i rfl⟩
      rw [this]
end

namespace CExec
variable {cfg : Config K P} (E : CExec cfg)

/-- In step `i`, something that was in cell `ℓ` goes away. -/
def Shrinks (i : Nat) (ℓ : Loc) : Prop := ∃ w w', (E.M i).read ℓ = some w ∧ (E.M (i + 1)).read ℓ = some w' ∧ ¬ w.Keeps w'

theorem read_next {i : Nat} (hi : i < E.len) {ℓ : Loc} {w : Word} (h : (E.M i).read ℓ = some w) : ∃ w', (E.M (i + 1)).read ℓ = some w' := by
  cases ℓ with
  | root => exact ⟨_, rfl⟩
  | slot a j =>
    have hf : ∀ n, (E.M n).freed a = false := fun _ => rfl
    simp only [Mem.read, Mem.deref, hf] at h ⊢
    cases hm : (E.M i).mem a with
    | none => simp [hm] at h
    | some nd =>
      cases nd with
      | data l => simp [hm] at h
      | inner c p =>
        obtain ⟨c', h1, -⟩ := ((E.cinv (n := i + 1) hi).hist.evo i (by omega)).inner a c p hm
        simp [h1]

/-- What is seen of a cell is still there, if nothing has gone away since. -/
theorem seen_now {n τ : Nat} (hn : n ≤ E.len) (hτ : τ ≤ n) {ℓ : Loc} {w : Word} (h : (E.M τ).read ℓ = some w)
    (hs : ∀ i, i < n → E.Shrinks i ℓ → i + 1 ≤ τ) : ∃ w2, (E.M n).read ℓ = some w2 ∧ w.Keeps w2 := by
  induction hτ with
  | refl => exact ⟨w, h, .refl w⟩
  | @step n hτ ih =>
    obtain ⟨w2, h1, h2⟩ := ih (by omega) (fun i hi => hs i (by omega))
    obtain ⟨w3, h3⟩ := E.read_next (i := n) (by omega) h1
    refine ⟨w3, h3, h2.trans ?_⟩
    apply Classical.byContradiction
    intro hk
    have := hs n (by omega) ⟨w2, w3, h1, h3, hk⟩
    have hτ' : τ ≤ n := hτ
    omega

theorem pcinv_of {n t : Nat} (hn : n ≤ E.len) {c : Call K P} (hc : ((E.st n).thr t).run = some c) (hu : c.req.isUpdate = true) :
    PCInv cfg E.A (E.M n) { c with inv := 0 } := by
  have ci := ((E.cinv hn).sess t).run c hc
  refine PCOK.inv (E := E) ci.pc ?_
  intro lv out e
  have := ci.pc
  simp only [PCOK, e] at this
  rw [this.1] at hu; cases hu

/-- Only removals, and those who help them, make something go away; and they have seen it. -/
theorem shrinker {i : Nat} (hi : i < E.len) {ℓ : Loc} (h : E.Shrinks i ℓ) : ∃ t weak c, E.lab i = .tick t weak i ∧ ((E.st i).thr t).run = some c ∧
    E.V t (i + 1) ℓ = i + 1 ∧ (c.req.isRemove = true ∨
      c.req.isUpdate = true ∧ c.req.isRemove = false ∧ ∃ child acc st hash mode, c.pc = .pruneCas ℓ child acc (.trav st hash mode) ∧ (E.M i).read ℓ = some child) := by
  obtain ⟨w, w', h1, h2, h3⟩ := h
  have hI := E.cinv (Nat.le_of_lt hi)
  rcases E.cell_kept_upd hi h1 with e | ⟨t, weak, τ, c, hl, hc, hu, hv⟩
  · rw [h2] at e; cases e; exact absurd (.refl w) h3
  have hp := E.pcinv_of (Nat.le_of_lt hi) hc hu
  have same : E.M (i + 1) = (E.M i).bump → False := by
    intro e
    rw [e, read_bump, h1] at h2; cases h2
    exact h3 (.refl w)
  cases hI.did E hi hl hc with
  | load ℓ' o p w' mw σ ha hτ hw hnx hm => exact (same hm).elim
  | silent ha hnx hm => exact (same hm).elim
  | store ℓ' o p w1 σ ha hτ hw hnx hm hv' hW hread hch hl' =>
    subst hτ
    by_cases el : ℓ = ℓ'
    swap
    · exfalso
      rw [hm, read_bump] at h2
      rw [tick_read ((hI.hist.inv τ (Nat.le_refl _)).fresh _ (Nat.le_refl _)) (O := .code) h1 ?_] at h2
      · cases h2; exact h3 (.refl w)
      · intro ord e'
        rw [ha] at e'; cases e'; exact el rfl
    subst el
    rw [h1] at hread; cases hread
    refine ⟨t, weak, c, hl, hc, hv, ?_⟩
    rw [hm, read_bump] at h2
    have hfresh := (hI.hist.inv τ (Nat.le_refl _)).fresh _ (Nat.le_refl _)
    unfold PCInv at hp
    cases hpc : c.pc with
    | remCas => simp only [hpc] at hp; left; rw [hp.1]; rfl
    | travCas st hash mode shift cur parent node new kind =>
      exfalso
      rw [hpc] at ha; cases ha
      simp only [hpc] at hp
      obtain ⟨d, -, ht, hcas⟩ := hp
      have hwn : w = node ∧ weak = false := by
        rw [hpc] at hw
        simp only [PC.writes, PC.access, h1, PC.stores] at hw
        split at hw
        · assumption
        · cases hw
      obtain ⟨rfl, rfl⟩ := hwn
      have hw2 : w'.ptr ≠ none := by
        have hr := fun (w2 : Word) => (read_write (read_alloc_old hfresh (nd := new) h1) w2).1
        rw [hpc] at h2
        simp only [tick, tickTravCas, h1, and_self, if_true] at h2
        split at h2
        · rw [hr] at h2; cases h2; simp
        · split at h2 <;> (rw [hr] at h2; cases h2; simp)
        · split at h2
          · rw [hr] at h2; cases h2; simp
          · split at h2
            · rw [hr] at h2; cases h2; simp
            · split at h2 <;> (rw [read_retire, hr] at h2; cases h2; simp)
      apply h3
      intro hne
      refine ⟨hw2, fun hd => ?_⟩
      cases hcas with
      | fresh => exact absurd rfl hne
      | split => cases hd
      | replace => cases hd
    | prune parent child j acc k =>
      exfalso
      rw [hpc] at ha
      simp only [PC.access] at ha
      cases hcp : child.ptr with
      | none => simp [hcp] at ha
      | some a =>
        simp [hcp] at ha
        obtain ⟨rfl, -⟩ := ha
        rw [hpc] at h2
        simp only [tick, tickPrune, hcp, h1] at h2
        have hr := (read_write h1 w.condemn).1
        have : w' = w.condemn := by
          split at h2
          · rw [hr] at h2; cases h2; rfl
          · split at h2
            · rw [hr] at h2; cases h2; rfl
            · split at h2 <;> (rw [hr] at h2; cases h2; rfl)
        subst this
        exact h3 (Word.Keeps.refl w)
    | pruneCas parent child acc k =>
      rw [hpc] at ha; cases ha
      simp only [hpc] at hp
      have hwn : w = child := by
        rw [hpc] at hw
        simp only [PC.writes, PC.access, h1, PC.stores] at hw
        split at hw
        · assumption
        · cases hw
      cases k with
      | rem => left; rw [hp.1.1]; rfl
      | clean => obtain ⟨⟨⟨⟨k, e⟩, -⟩, -⟩, -⟩ := hp; left; rw [e]; rfl
      | trav st hash mode =>
        cases hrm : c.req.isRemove with
        | true => exact .inl rfl
        | false => exact .inr ⟨hu, rfl, child, acc, st, hash, mode, rfl, by rw [h1, hwn]⟩
    | _ =>
      rw [hpc] at hw
      simp only [PC.writes] at hw
      split at hw
      · cases hw
      · split at hw <;> cases hw

/-- The pairs on the stack of a call have been seen. -/
theorem levels_seen {n : Nat} (hn : n ≤ E.len) : ∀ t c, ((E.st n).thr t).run = some c → ∀ x ∈ c.pc.levels,
    ∃ τ, τ ≤ E.V t n x.1 ∧ (E.M τ).read x.1 = some x.2 := by
  induction n with
  | zero => intro t c hc; rw [E.init] at hc; cases hc
  | succ n ih =>
    intro t c' hc' x hx
    have h := E.cinv (n := n) (by omega)
    rcases cstep_run_full (E.step n hn) hc' with ⟨h1, -⟩ | ⟨c, pc, ran, weak, τ, h1, h2, h3, rfl⟩ | ⟨r, h1, rfl, h2⟩
    · obtain ⟨τ, e1, e2⟩ := ih (by omega) t c' h1 x hx
      exact ⟨τ, Nat.le_trans e1 (E.V_mono t (Nat.le_succ n) hn x.1), e2⟩
    · have d := h.did E hn h2 h1
      rw [h3] at d
      have old : x ∈ c.pc.levels → ∃ τ, τ ≤ E.V t (n + 1) x.1 ∧ (E.M τ).read x.1 = some x.2 := by
        intro hx
        obtain ⟨τ, e1, e2⟩ := ih (by omega) t c h1 x hx
        exact ⟨τ, Nat.le_trans e1 (E.V_mono t (Nat.le_succ n) hn x.1), e2⟩
      cases d with
      | store ℓ o p w σ ha hτ hw hnx hm hv =>
        rcases tick_levels' hnx.symm hx with e | ⟨o', e1, e2⟩
        · exact old e
        · rw [ha] at e1; cases e1
          exact ⟨n, by rw [hv]; omega, e2⟩
      | silent ha hnx =>
        rcases tick_levels' hnx.symm hx with e | ⟨o', e1, e2⟩
        · exact old e
        · rw [ha] at e1; cases e1
      | load ℓ o p w mw σ ha hτ hw hnx hm hW hs hloc hl hmw hrd hv =>
        rcases tick_levels' hnx.symm hx with e | ⟨o', e1, e2⟩
        · exact old e
        · rw [ha] at e1; cases e1
          rw [hs.read] at e2; cases e2
          exact ⟨τ, by rw [hv], hrd⟩
    · exfalso
      cases r with
      | op o => cases o <;> cases hx
      | isEmpty => cases hx
      | iter => cases hx
end CExec
end Contrie
