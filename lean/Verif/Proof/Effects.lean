import Verif.Proof.Struct
/-
Effects of the machine on the shared memory and their preservation of the memory invariant.
-/
set_option linter.unusedSectionVars false
namespace Contrie
variable {K P : Type} [DecidableEq K]

/-! ### Frame: functions that only look at `mem` -/

theorem cellsOf_mem {m m' : Mem P} (h : m'.mem = m.mem) (w : Word) : m'.cellsOf w = m.cellsOf w := by
  simp [Mem.cellsOf, h]

theorem follow_mem {m m' : Mem P} (h : m'.mem = m.mem) (w : Word) (q : List (Fin 16)) :
    m'.follow w q = m.follow w q := by
  induction q generalizing w with
  | nil => rfl
  | cons i q ih => simp only [Mem.follow, cellsOf_mem h]; cases m.cellsOf w <;> simp [ih]

theorem leafVal_mem {cfg : Config K P} {m m' : Mem P} (h : m'.mem = m.mem) (k : K) (w : Word) :
    m'.leafVal cfg k w = m.leafVal cfg k w := by
  simp [Mem.leafVal, h]

theorem look_mem {cfg : Config K P} {m m' : Mem P} (h : m'.mem = m.mem) (k : K) (w : Word) (q : List (Fin 16)) :
    m'.look cfg k w q = m.look cfg k w q := by
  induction q generalizing w with
  | nil => simp [Mem.look, leafVal_mem h]
  | cons i q ih => simp only [Mem.look, leafVal_mem h, cellsOf_mem h]; cases m.cellsOf w <;> simp [ih]

theorem wordOK_mem {cfg : Config K P} {m m' : Mem P} (h : m'.mem = m.mem) {w : Word} {q : List (Fin 16)} :
    WordOK cfg m' w q ↔ WordOK cfg m w q := by
  simp [WordOK, h]

theorem abs_mem {cfg : Config K P} {m m' : Mem P} (h : m'.mem = m.mem) (hr : m'.root = m.root) :
    m'.abs cfg = m.abs cfg := by
  funext k; simp [Mem.abs, look_mem h, hr]

/-- Changing only clock (forwards) and `freed` (retired nodes only). -/
theorem MemInv.of_ghost {cfg : Config K P} {A : Nat → AMap K P} {m m' : Mem P} (h : MemInv cfg A m)
    (hm : m'.mem = m.mem) (hr : m'.root = m.root) (hn : m'.next = m.next) (ht : m'.retired = m.retired)
    (hc : m.clock ≤ m'.clock) (hf : ∀ a, m'.freed a = true → ∃ τ, m.retired a = some τ) :
    MemInv cfg A m' where
  rootOK := by rw [wordOK_mem hm, hr]; exact h.rootOK
  rootClean := by rw [hr]; exact h.rootClean
  nodeOK := by
    intro a c p hmem; rw [hm] at hmem
    exact ⟨(h.nodeOK a c p hmem).1, fun i => (wordOK_mem hm).mpr ((h.nodeOK a c p hmem).2 i)⟩
  fresh := by intro a ha; rw [hm]; exact h.fresh a (by rw [← hn]; exact ha)
  linked := by
    intro a n hmem hret; rw [hm] at hmem; rw [ht] at hret
    obtain ⟨q, w, h1, h2⟩ := h.linked a n hmem hret
    exact ⟨q, w, by rw [follow_mem hm, hr]; exact h1, h2⟩
  live := by intro q w a h1 h2; rw [follow_mem hm, hr] at h1; rw [ht]; exact h.live q w a h1 h2
  frozen := by intro a c p τ h1 h2; rw [hm] at h1; rw [ht] at h2; exact h.frozen a c p τ h1 h2
  hind := by
    intro a c p τ h1 h2 i k v h3 h4; rw [hm] at h1; rw [ht] at h2; rw [leafVal_mem hm] at h4
    exact h.hind a c p τ h1 h2 i k v h3 h4
  hindPtr := by
    intro a c p τ h1 h2 i b τ' h3 h4; rw [hm] at h1; rw [ht] at h2 h4
    exact h.hindPtr a c p τ h1 h2 i b τ' h3 h4
  retTime := by
    intro a τ h1; rw [ht] at h1; rw [hm]
    have := h.retTime a τ h1
    exact ⟨by omega, this.2⟩
  freedRet := by intro a ha; rw [ht]; exact hf a ha

theorem MemInv.bump {cfg : Config K P} {A : Nat → AMap K P} {m : Mem P} (h : MemInv cfg A m) :
    MemInv cfg A m.bump :=
  h.of_ghost rfl rfl rfl rfl (Nat.le_succ _) h.freedRet

/-! ### fetch_or(CONDEMNED) -/

/-- Same nodes up to the marks. -/
def SameShape (m m' : Mem P) : Prop :=
  ∀ a, match m.mem a, m'.mem a with
    | some (.inner c p), some (.inner c' p') => p = p' ∧ ∀ i, (c i).erase = (c' i).erase
    | some (.data l), some (.data l') => l = l'
    | none, none => True
    | _, _ => False

theorem SameShape.data {m m' : Mem P} (h : SameShape m m') {a : Nat} {l : List P} :
    m.mem a = some (.data l) ↔ m'.mem a = some (.data l) := by
  have := h a
  constructor
  · intro h1; rw [h1] at this
    cases h2 : m'.mem a with
    | none => simp [h2] at this
    | some n => cases n <;> simp [h2] at this; subst this; rfl
  · intro h1; rw [h1] at this
    cases h2 : m.mem a with
    | none => simp [h2] at this
    | some n => cases n <;> simp [h2] at this; subst this; rfl

theorem SameShape.inner {m m' : Mem P} (h : SameShape m m') {a : Nat} {c : Fin 16 → Word} {p : List (Fin 16)}
    (h1 : m.mem a = some (.inner c p)) :
    ∃ c', m'.mem a = some (.inner c' p) ∧ ∀ i, (c i).erase = (c' i).erase := by
  have := h a
  rw [h1] at this
  cases h2 : m'.mem a with
  | none => simp [h2] at this
  | some n =>
    cases n with
    | data l => simp [h2] at this
    | inner c' p' => simp [h2] at this; obtain ⟨rfl, h3⟩ := this; exact ⟨c', rfl, h3⟩

theorem SameShape.symm {m m' : Mem P} (h : SameShape m m') : SameShape m' m := by
  intro a
  have := h a
  cases h1 : m.mem a with
  | none => cases h2 : m'.mem a <;> simp_all
  | some n =>
    cases h2 : m'.mem a with
    | none => cases n <;> simp_all
    | some n' =>
      cases n <;> cases n' <;> simp_all

theorem SameShape.none_iff {m m' : Mem P} (h : SameShape m m') {a : Nat} : m.mem a = none ↔ m'.mem a = none := by
  have := h a
  cases h1 : m.mem a with
  | none => cases h2 : m'.mem a <;> simp_all
  | some n =>
    cases h2 : m'.mem a with
    | none => cases n <;> simp_all
    | some n' => simp

theorem SameShape.cellsOf {m m' : Mem P} (h : SameShape m m') {w w' : Word} (hw : w.erase = w'.erase)
    {c : Fin 16 → Word} (hc : m.cellsOf w = some c) :
    ∃ c', m'.cellsOf w' = some c' ∧ ∀ i, (c i).erase = (c' i).erase := by
  rw [cellsOf_congr hw] at hc
  simp only [Mem.cellsOf] at hc ⊢
  cases hp : w'.ptr with
  | none => simp [hp] at hc
  | some a =>
    simp only [hp] at hc
    cases hd : w'.data with
    | true => simp [hd] at hc
    | false =>
      simp only [hd] at hc
      cases hm : m.mem a with
      | none => simp [hm] at hc
      | some n =>
        cases n with
        | data l => simp [hm] at hc
        | inner c0 p =>
          simp [hm] at hc; subst hc
          obtain ⟨c', h1, h2⟩ := h.inner hm
          exact ⟨c', by simp [h1], h2⟩

theorem SameShape.follow {m m' : Mem P} (h : SameShape m m') {w w' : Word} (hw : w.erase = w'.erase)
    (q : List (Fin 16)) : m.follow w q = m'.follow w' q := by
  induction q generalizing w w' with
  | nil => simp [Mem.follow, hw]
  | cons i q ih =>
    simp only [Mem.follow]
    cases hc : m.cellsOf w with
    | some c =>
      obtain ⟨c', h1, h2⟩ := h.cellsOf hw hc
      simp only [h1]
      exact ih (h2 i)
    | none =>
      cases hc' : m'.cellsOf w' with
      | none => rfl
      | some c' =>
        obtain ⟨c, h1, -⟩ := h.symm.cellsOf hw.symm hc'
        rw [hc] at h1; cases h1

theorem SameShape.leafVal {cfg : Config K P} {m m' : Mem P} (h : SameShape m m') {w w' : Word}
    (hw : w.erase = w'.erase) (k : K) : m.leafVal cfg k w = m'.leafVal cfg k w' := by
  rw [leafVal_congr hw]
  simp only [Mem.leafVal]
  cases w'.ptr with
  | none => rfl
  | some a =>
    cases w'.data with
    | false => rfl
    | true =>
      simp only [if_true]
      have := h a
      cases h1 : m.mem a with
      | none => rw [h.none_iff] at h1; simp [h1]
      | some n =>
        cases n with
        | data l => rw [h.data] at h1; simp [h1]
        | inner c p => obtain ⟨c', h2, -⟩ := h.inner h1; simp [h2]

theorem SameShape.look {cfg : Config K P} {m m' : Mem P} (h : SameShape m m') {w w' : Word}
    (hw : w.erase = w'.erase) (k : K) (q : List (Fin 16)) : m.look cfg k w q = m'.look cfg k w' q := by
  induction q generalizing w w' with
  | nil => simp [Mem.look, h.leafVal hw]
  | cons i q ih =>
    simp only [Mem.look, h.leafVal hw]
    cases hl : m'.leafVal cfg k w' with
    | some v => rfl
    | none =>
      simp only
      cases hc : m.cellsOf w with
      | some c =>
        obtain ⟨c', h1, h2⟩ := h.cellsOf hw hc
        simp only [h1]
        exact ih (h2 i)
      | none =>
        cases hc' : m'.cellsOf w' with
        | none => rfl
        | some c' =>
          obtain ⟨c, h1, -⟩ := h.symm.cellsOf hw.symm hc'
          rw [hc] at h1; cases h1

theorem SameShape.wordOK {cfg : Config K P} {m m' : Mem P} (h : SameShape m m') {w w' : Word}
    (hw : w.erase = w'.erase) {q : List (Fin 16)} (hok : WordOK cfg m w q) : WordOK cfg m' w' q := by
  have hok := hok.congr hw
  simp only [WordOK] at hok ⊢
  cases hp : w'.ptr with
  | none => simpa [hp] using hok
  | some a =>
    simp only [hp] at hok ⊢
    cases hd : w'.data with
    | true => simp only [hd, if_true] at hok ⊢; obtain ⟨l, h1, h2⟩ := hok; exact ⟨l, h.data.mp h1, h2⟩
    | false =>
      simp only [hd] at hok ⊢
      obtain ⟨c, h1⟩ := hok
      obtain ⟨c', h2, -⟩ := h.inner h1
      exact ⟨c', h2⟩

/-- Memory after `fetch_or(CONDEMNED)` on cell `i` of node `a`. -/
theorem write_condemn {m : Mem P} {a : Nat} {c : Fin 16 → Word} {p : List (Fin 16)} (i : Fin 16)
    (hm : m.mem a = some (.inner c p)) :
    m.write (c i).condemn (.slot a i)
      = { m with mem := upd m.mem a (some (.inner (upd c i (c i).condemn) p)) } := by
  simp [Mem.write, hm]

theorem sameShape_condemn {m : Mem P} {a : Nat} {c : Fin 16 → Word} {p : List (Fin 16)} (i : Fin 16)
    (hm : m.mem a = some (.inner c p)) : SameShape m (m.write (c i).condemn (.slot a i)) := by
  rw [write_condemn i hm]
  intro b
  by_cases hb : b = a
  · subst hb
    simp only [hm, upd_same, true_and]
    intro j
    by_cases hj : j = i
    · subst hj; simp
    · simp [upd_other _ _ hj]
  · simp only [upd_other _ _ hb]
    cases hmb : m.mem b with
    | none => trivial
    | some n => cases n <;> simp

theorem MemInv.condemn {cfg : Config K P} {A : Nat → AMap K P} {m : Mem P} (h : MemInv cfg A m)
    {a : Nat} {c : Fin 16 → Word} {p : List (Fin 16)} (i : Fin 16) (hm : m.mem a = some (.inner c p)) :
    MemInv cfg A (m.write (c i).condemn (.slot a i)) := by
  have hs := sameShape_condemn i hm
  have hw := write_condemn i hm
  generalize hm' : m.write (c i).condemn (.slot a i) = m' at *
  have hroot : m'.root = m.root := by rw [hw]
  have hnext : m'.next = m.next := by rw [hw]
  have hret : m'.retired = m.retired := by rw [hw]
  have hclk : m'.clock = m.clock := by rw [hw]
  have hfr : m'.freed = m.freed := by rw [hw]
  have hmem : m'.mem = upd m.mem a (some (.inner (upd c i (c i).condemn) p)) := by rw [hw]
  have hfol : ∀ q, m'.follow m'.root q = m.follow m.root q := fun q => by
    rw [hroot]; exact (hs.follow rfl q).symm
  refine ⟨?_, ?_, ?_, ?_, ?_, ?_, ?_, ?_, ?_, ?_, ?_⟩
  · rw [hroot]; exact hs.wordOK rfl h.rootOK
  · rw [hroot]; exact h.rootClean
  · intro b c' p' hb
    obtain ⟨c0, h1, h2⟩ := hs.symm.inner hb
    exact ⟨(h.nodeOK b c0 p' h1).1, fun j => hs.wordOK (h2 j).symm ((h.nodeOK b c0 p' h1).2 j)⟩
  · intro b hb; exact hs.none_iff.mp (h.fresh b (by rw [← hnext]; exact hb))
  · intro b n hb hr
    rw [hret] at hr
    cases hmb : m.mem b with
    | none => rw [hs.none_iff] at hmb; rw [hmb] at hb; cases hb
    | some n' =>
      obtain ⟨q, w, h1, h2⟩ := h.linked b n' hmb hr
      exact ⟨q, w, by rw [hfol]; exact h1, h2⟩
  · intro q w b h1 h2; rw [hfol] at h1; rw [hret]; exact h.live q w b h1 h2
  · intro b c' p' τ hb hr j
    rw [hret] at hr
    rw [hmem] at hb
    by_cases hba : b = a
    · subst hba
      simp at hb
      obtain ⟨rfl, rfl⟩ := hb
      by_cases hj : j = i
      · subst hj; simp
      · rw [upd_other _ _ hj]; exact h.frozen b c p τ hm hr j
    · rw [upd_other _ _ hba] at hb; exact h.frozen b c' p' τ hb hr j
  · intro b c' p' τ hb hr j k v h3 h4
    rw [hret] at hr
    obtain ⟨c0, h1, h2⟩ := hs.symm.inner hb
    rw [hs.symm.leafVal (h2 j) k] at h4
    exact h.hind b c0 p' τ h1 hr j k v h3 h4
  · intro b c' p' τ hb hr j b' τ' h3 h4
    rw [hret] at hr h4
    obtain ⟨c0, h1, h2⟩ := hs.symm.inner hb
    refine h.hindPtr b c0 p' τ h1 hr j b' τ' ?_ h4
    rw [← (erase_eq_iff.mp (h2 j)).1]; exact h3
  · intro b τ hr; rw [hret] at hr; rw [hclk]
    refine ⟨(h.retTime b τ hr).1, ?_⟩
    rw [Ne, ← hs.none_iff]; exact (h.retTime b τ hr).2
  · intro b hb; rw [hfr] at hb; rw [hret]; exact h.freedRet b hb

theorem abs_condemn {cfg : Config K P} {m : Mem P} {a : Nat} {c : Fin 16 → Word} {p : List (Fin 16)} (i : Fin 16)
    (hm : m.mem a = some (.inner c p)) : (m.write (c i).condemn (.slot a i)).abs cfg = m.abs cfg := by
  funext k
  simp only [Mem.abs]
  have hr : (m.write (c i).condemn (.slot a i)).root = m.root := by rw [write_condemn i hm]
  rw [hr]
  exact ((sameShape_condemn i hm).look rfl k _).symm

end Contrie
