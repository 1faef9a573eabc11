import Verif.Model.Hostile
import Verif.Proof.PCInv
/-
The machine with misbehaving user code (`Verif/Model/Hostile.lean`): structure of the shared memory. Nothing here mentions keys.
-/
set_option linter.unusedSectionVars false
namespace Contrie
variable {K P : Type}

/-- A word is fit for the cell at path `q`. -/
def HWordOK (m : Mem P) (w : Word) (q : List (Fin 16)) : Prop :=
  match w.ptr with
  | none => w.data = false
  | some a =>
    if w.data then ∃ l, m.mem a = some (.data l) ∧ l ≠ []
    else ∃ c, m.mem a = some (.inner c q)

theorem HWordOK.congr {m : Mem P} {w w' : Word} {q : List (Fin 16)} (h : w.erase = w'.erase)
    (hw : HWordOK m w q) : HWordOK m w' q := by
  obtain ⟨h1, h2⟩ := erase_eq_iff.mp h
  simpa only [HWordOK, h1, h2] using hw

theorem HWordOK.null (m : Mem P) (q : List (Fin 16)) : HWordOK m Word.null q := by
  simp [HWordOK]

theorem HWordOK.of_data {m : Mem P} {w : Word} {q : List (Fin 16)} {a : Nat}
    (h : HWordOK m w q) (hp : w.ptr = some a) (hd : w.data = true) :
    ∃ l, m.mem a = some (.data l) ∧ l ≠ [] := by
  simpa [HWordOK, hp, hd] using h

theorem HWordOK.of_inner {m : Mem P} {w : Word} {q : List (Fin 16)} {a : Nat}
    (h : HWordOK m w q) (hp : w.ptr = some a) (hd : w.data = false) :
    ∃ c, m.mem a = some (.inner c q) := by
  simpa [HWordOK, hp, hd] using h

theorem HWordOK.cellsOf {m : Mem P} {w : Word} {q : List (Fin 16)} {c : Fin 16 → Word}
    (h : HWordOK m w q) (hc : m.cellsOf w = some c) :
    ∃ a, w.ptr = some a ∧ w.data = false ∧ m.mem a = some (.inner c q) := by
  simp only [Mem.cellsOf] at hc
  cases hp : w.ptr with
  | none => simp [hp] at hc
  | some a =>
    simp only [hp] at hc
    cases hd : w.data with
    | true => simp [hd] at hc
    | false =>
      obtain ⟨c', hc'⟩ := h.of_inner hp hd
      simp [hd, hc'] at hc
      subst hc
      exact ⟨a, rfl, rfl, hc'⟩

/-- The memory invariant. -/
structure HMemInv (m : Mem P) : Prop where
  rootOK : HWordOK m m.root []
  rootClean : m.root.cond = false
  nodeOK : ∀ a c p, m.mem a = some (.inner c p) → p.length < 16 ∧ ∀ i, HWordOK m (c i) (p ++ [i])
  fresh : ∀ a, m.next ≤ a → m.mem a = none
  /-- every published node that was not retired is linked -/
  linked : ∀ a n, m.mem a = some n → m.retired a = none →
    ∃ q w, m.follow m.root q = some w ∧ w.ptr = some a
  /-- nothing linked is retired -/
  live : ∀ q w a, m.follow m.root q = some w → w.ptr = some a → m.retired a = none
  /-- the cells of a retired inner node are all condemned -/
  frozen : ∀ a c p τ, m.mem a = some (.inner c p) → m.retired a = some τ → ∀ i, (c i).cond = true
  hindPtr : ∀ a c p τ, m.mem a = some (.inner c p) → m.retired a = some τ → ∀ i b τ',
    (c i).ptr = some b → m.retired b = some τ' → τ ≤ τ'
  retTime : ∀ a τ, m.retired a = some τ → τ < m.clock ∧ m.mem a ≠ none
  freedRet : ∀ a, m.freed a = true → ∃ τ, m.retired a = some τ
  /-- every node is linked from one place only -/
  path_unique : ∀ {w w' : Word} {q r : List (Fin 16)} {a : Nat}, m.follow m.root q = some w →
    m.follow m.root r = some w' → w.ptr = some a → w'.ptr = some a → q = r

theorem HMemInv.init : HMemInv (Mem.init : Mem P) where
  rootOK := by simp [Mem.init, HWordOK]
  rootClean := rfl
  nodeOK := by simp [Mem.init]
  fresh := by simp [Mem.init]
  linked := by simp [Mem.init]
  live := by simp [Mem.init]
  frozen := by simp [Mem.init]
  hindPtr := by simp [Mem.init]
  retTime := by simp [Mem.init]
  freedRet := by simp [Mem.init]
  path_unique := by
    intro w w' q r a h1 _ h3
    cases q with
    | nil => simp [Mem.init, Mem.follow] at h1; subst h1; cases h3
    | cons i q => simp [Mem.init, Mem.follow, Mem.cellsOf] at h1

theorem HMemInv.follow_ok {m : Mem P} (h : HMemInv m)
    {w w' : Word} {q0 q : List (Fin 16)} (hw : HWordOK m w q0) (hf : m.follow w q = some w') :
    HWordOK m w' (q0 ++ q) := by
  induction q generalizing w q0 with
  | nil =>
    simp [Mem.follow] at hf
    subst hf
    simpa using hw.congr (by simp)
  | cons i q ih =>
    simp only [Mem.follow] at hf
    cases hc : m.cellsOf w with
    | none => simp [hc] at hf
    | some c =>
      simp only [hc] at hf
      obtain ⟨a, -, -, hm⟩ := hw.cellsOf hc
      have := ih ((h.nodeOK a c q0 hm).2 i) hf
      simpa using this

theorem HMemInv.path_ok {m : Mem P} (h : HMemInv m)
    {w : Word} {q : List (Fin 16)} (hf : m.follow m.root q = some w) : HWordOK m w q := by
  simpa using h.follow_ok h.rootOK hf

/-- Every published inner node that is not retired sits at its path. -/
theorem HMemInv.inner_at {m : Mem P} (h : HMemInv m)
    {a : Nat} {c : Fin 16 → Word} {p : List (Fin 16)} (hm : m.mem a = some (.inner c p))
    (hr : m.retired a = none) : m.follow m.root p = some ⟨some a, false, false⟩ := by
  obtain ⟨q, w, hf, hp⟩ := h.linked a _ hm hr
  have hw := h.path_ok hf
  have he := follow_erased hf
  cases hd : w.data with
  | true =>
    obtain ⟨l, hl, -⟩ := hw.of_data hp hd
    rw [hm] at hl; cases hl
  | false =>
    obtain ⟨c', hc'⟩ := hw.of_inner hp hd
    rw [hm] at hc'; cases hc'
    rw [hf]; congr 1
    cases w; simp_all [Word.erase]

theorem hwordOK_mem {m m' : Mem P} (h : m'.mem = m.mem) {w : Word} {q : List (Fin 16)} :
    HWordOK m' w q ↔ HWordOK m w q := by
  simp [HWordOK, h]

/-- Changing only clock (forwards) and `freed` (retired nodes only). -/
theorem HMemInv.of_ghost {m m' : Mem P} (h : HMemInv m)
    (hm : m'.mem = m.mem) (hr : m'.root = m.root) (hn : m'.next = m.next) (ht : m'.retired = m.retired)
    (hc : m.clock ≤ m'.clock) (hf : ∀ a, m'.freed a = true → ∃ τ, m.retired a = some τ) :
    HMemInv m' where
  rootOK := by rw [hwordOK_mem hm, hr]; exact h.rootOK
  rootClean := by rw [hr]; exact h.rootClean
  nodeOK := by
    intro a c p hmem; rw [hm] at hmem
    exact ⟨(h.nodeOK a c p hmem).1, fun i => (hwordOK_mem hm).mpr ((h.nodeOK a c p hmem).2 i)⟩
  fresh := by intro a ha; rw [hm]; exact h.fresh a (by rw [← hn]; exact ha)
  linked := by
    intro a n hmem hret; rw [hm] at hmem; rw [ht] at hret
    obtain ⟨q, w, h1, h2⟩ := h.linked a n hmem hret
    exact ⟨q, w, by rw [follow_mem hm, hr]; exact h1, h2⟩
  live := by intro q w a h1 h2; rw [follow_mem hm, hr] at h1; rw [ht]; exact h.live q w a h1 h2
  frozen := by intro a c p τ h1 h2; rw [hm] at h1; rw [ht] at h2; exact h.frozen a c p τ h1 h2
  hindPtr := by
    intro a c p τ h1 h2 i b τ' h3 h4; rw [hm] at h1; rw [ht] at h2 h4
    exact h.hindPtr a c p τ h1 h2 i b τ' h3 h4
  retTime := by
    intro a τ h1; rw [ht] at h1; rw [hm]
    have := h.retTime a τ h1
    exact ⟨by omega, this.2⟩
  freedRet := by intro a ha; rw [ht]; exact hf a ha
  path_unique := by
    intro w w' q r a h1 h2; rw [follow_mem hm, hr] at h1 h2; exact h.path_unique h1 h2

theorem HMemInv.bump {m : Mem P} (h : HMemInv m) :
    HMemInv m.bump :=
  h.of_ghost rfl rfl rfl rfl (Nat.le_succ _) h.freedRet

theorem SameShape.hwordOK {m m' : Mem P} (h : SameShape m m') {w w' : Word}
    (hw : w.erase = w'.erase) {q : List (Fin 16)} (hok : HWordOK m w q) : HWordOK m' w' q := by
  have hok := hok.congr hw
  simp only [HWordOK] at hok ⊢
  cases hp : w'.ptr with
  | none => simpa [hp] using hok
  | some a =>
    simp only [hp] at hok ⊢
    cases hd : w'.data with
    | true => simp only [hd, if_true] at hok ⊢; obtain ⟨l, h1, h2⟩ := hok; exact ⟨l, h.data.mp h1, h2⟩
    | false =>
      simp only [hd] at hok ⊢
      obtain ⟨c, h1⟩ := hok
      obtain ⟨c', h2, -⟩ := h.inner h1
      exact ⟨c', h2⟩

theorem HMemInv.condemn {m : Mem P} (h : HMemInv m)
    {a : Nat} {c : Fin 16 → Word} {p : List (Fin 16)} (i : Fin 16) (hm : m.mem a = some (.inner c p)) :
    HMemInv (m.write (c i).condemn (.slot a i)) := by
  have hs := sameShape_condemn i hm
  have hw := write_condemn i hm
  generalize hm' : m.write (c i).condemn (.slot a i) = m' at *
  have hroot : m'.root = m.root := by rw [hw]
  have hnext : m'.next = m.next := by rw [hw]
  have hret : m'.retired = m.retired := by rw [hw]
  have hclk : m'.clock = m.clock := by rw [hw]
  have hfr : m'.freed = m.freed := by rw [hw]
  have hmem : m'.mem = upd m.mem a (some (.inner (upd c i (c i).condemn) p)) := by rw [hw]
  have hfol : ∀ q, m'.follow m'.root q = m.follow m.root q := fun q => by
    rw [hroot]; exact (hs.follow rfl q).symm
  refine ⟨?_, ?_, ?_, ?_, ?_, ?_, ?_, ?_, ?_, ?_, ?_⟩
  · rw [hroot]; exact hs.hwordOK rfl h.rootOK
  · rw [hroot]; exact h.rootClean
  · intro b c' p' hb
    obtain ⟨c0, h1, h2⟩ := hs.symm.inner hb
    exact ⟨(h.nodeOK b c0 p' h1).1, fun j => hs.hwordOK (h2 j).symm ((h.nodeOK b c0 p' h1).2 j)⟩
  · intro b hb; exact hs.none_iff.mp (h.fresh b (by rw [← hnext]; exact hb))
  · intro b n hb hr
    rw [hret] at hr
    cases hmb : m.mem b with
    | none => rw [hs.none_iff] at hmb; rw [hmb] at hb; cases hb
    | some n' =>
      obtain ⟨q, w, h1, h2⟩ := h.linked b n' hmb hr
      exact ⟨q, w, by rw [hfol]; exact h1, h2⟩
  · intro q w b h1 h2; rw [hfol] at h1; rw [hret]; exact h.live q w b h1 h2
  · intro b c' p' τ hb hr j
    rw [hret] at hr
    rw [hmem] at hb
    by_cases hba : b = a
    · subst hba
      simp at hb
      obtain ⟨rfl, rfl⟩ := hb
      by_cases hj : j = i
      · subst hj; simp
      · rw [upd_other _ _ hj]; exact h.frozen b c p τ hm hr j
    · rw [upd_other _ _ hba] at hb; exact h.frozen b c' p' τ hb hr j
  · intro b c' p' τ hb hr j b' τ' h3 h4
    rw [hret] at hr h4
    obtain ⟨c0, h1, h2⟩ := hs.symm.inner hb
    refine h.hindPtr b c0 p' τ h1 hr j b' τ' ?_ h4
    rw [← (erase_eq_iff.mp (h2 j)).1]; exact h3
  · intro b τ hr; rw [hret] at hr; rw [hclk]
    refine ⟨(h.retTime b τ hr).1, ?_⟩
    rw [Ne, ← hs.none_iff]; exact (h.retTime b τ hr).2
  · intro b hb; rw [hfr] at hb; rw [hret]; exact h.freedRet b hb
  · intro w w' q r b h1 h2; rw [hfol] at h1 h2; exact h.path_unique h1 h2

section
variable {m m' : Mem P} {loc : Loc} {q : List (Fin 16)} {w0 w' : Word}
  {new : Option (Node P)} {ret : Option Nat}

/-- The cell belongs to a node that is still linked. -/
theorem HMemInv.at_live (h : HMemInv m) (hat : m.At loc q w0) (hc : w0.cond = false) :
    ∀ a i, loc = .slot a i → m.retired a = none := by
  intro a i hl
  subst hl
  obtain ⟨c, p, hm, -, hci⟩ := hat
  cases hr : m.retired a with
  | none => rfl
  | some τ => have := h.frozen a c p τ hm hr i; rw [hci, hc] at this; cases this

theorem HMemInv.at_follow (h : HMemInv m) (hat : m.At loc q w0) (hc : w0.cond = false) :
    m.follow m.root q = some w0 := by
  cases loc with
  | root => obtain ⟨rfl, rfl⟩ := hat; simp [Mem.follow, erase_of_clean hc]
  | slot a i =>
    have hl := h.at_live hat hc a i rfl
    obtain ⟨c, p, hm, rfl, rfl⟩ := hat
    rw [follow_append' (h.inner_at hm hl)]
    simp [Mem.follow, Mem.cellsOf, hm, erase_of_clean hc]

theorem HMemInv.at_ok (h : HMemInv m) (hat : m.At loc q w0) : HWordOK m w0 q := by
  cases loc with
  | root => obtain ⟨rfl, rfl⟩ := hat; exact h.rootOK
  | slot a i => obtain ⟨c, p, hm, rfl, rfl⟩ := hat; exact (h.nodeOK a c p hm).2 i

theorem HMemInv.at_len (h : HMemInv m) (hat : m.At loc q w0) : q.length ≤ 16 := by
  cases loc with
  | root => obtain ⟨rfl, rfl⟩ := hat; simp
  | slot a i => obtain ⟨c, p, hm, rfl, rfl⟩ := hat; have := (h.nodeOK a c p hm).1; simp; omega

/-- Away from the changed cell nothing changes. -/
theorem HSwung.follow_frame (hs : Swung m m' loc w' new ret) (h : HMemInv m) (hat : m.At loc q w0)
    {w : Word} {q0 r : List (Fin 16)} (hw : HWordOK m w q0)
    (hq : ¬ (q <+: q0 ++ r ∧ q0.length < q.length)) : m'.follow w r = m.follow w r := by
  induction r generalizing w q0 with
  | nil => rfl
  | cons i r ih =>
    simp only [Mem.follow]
    cases hp : w.ptr with
    | none => simp [Mem.cellsOf, hp]
    | some b =>
      cases hd : w.data with
      | true => simp [Mem.cellsOf, hp, hd]
      | false =>
        obtain ⟨c, hm⟩ := hw.of_inner hp hd
        rw [cellsOf_inner hp hd hm, cellsOf_inner hp hd (hs.node b c q0 hm)]
        have hne : loc ≠ .slot b i := by
          intro e
          subst e
          obtain ⟨c', p', hm', rfl, -⟩ := hat
          rw [hm] at hm'; cases hm'
          exact hq ⟨by simp, by simp⟩
        simp only [hne, if_false]
        refine ih (q0 := q0 ++ [i]) ((h.nodeOK b c q0 hm).2 i) ?_
        intro ⟨h1, h2⟩
        refine hq ⟨by simpa using h1, ?_⟩
        simp at h2; omega

theorem HSwung.root_other (hs : Swung m m' loc w' new ret) (hl : loc ≠ .root) : m'.root = m.root := by
  rw [hs.root, if_neg hl]

theorem HSwung.follow_root_frame (hs : Swung m m' loc w' new ret) (h : HMemInv m) (hat : m.At loc q w0)
    {r : List (Fin 16)} (hq : ¬ q <+: r) : m'.follow m'.root r = m.follow m.root r := by
  have hl : loc ≠ .root := by
    intro e; subst e; obtain ⟨rfl, -⟩ := hat; exact hq (List.nil_prefix)
  rw [HSwung.root_other hs hl]
  exact HSwung.follow_frame hs h hat h.rootOK (fun hh => hq (by simpa using hh.1))

theorem HSwung.follow_root_at (hs : Swung m m' loc w' new ret) (h : HMemInv m) (hat : m.At loc q w0)
    (hc : w0.cond = false) (hc' : w'.cond = false) : m'.follow m'.root q = some w' := by
  cases loc with
  | root =>
    obtain ⟨rfl, -⟩ := hat
    rw [hs.root]; simp [Mem.follow, erase_of_clean hc']
  | slot a i =>
    have hl := h.at_live hat hc a i rfl
    have hat' := hat
    obtain ⟨c, p, hm, rfl, rfl⟩ := hat
    have hp : m'.follow m'.root p = some ⟨some a, false, false⟩ := by
      rw [HSwung.follow_root_frame hs h hat' (r := p) ?_]
      · exact h.inner_at hm hl
      · intro hh; have := hh.length_le; simp at this; omega
    rw [follow_append' hp]
    simp [Mem.follow, Mem.cellsOf, hs.node a c p hm, erase_of_clean hc']

theorem HSwung.hwordOK_mono (hs : Swung m m' loc w' new ret) {w : Word} {r : List (Fin 16)}
    (hw : HWordOK m w r) : HWordOK m' w r := by
  simp only [HWordOK] at hw ⊢
  cases hp : w.ptr with
  | none => simpa [hp] using hw
  | some b =>
    simp only [hp] at hw ⊢
    cases hd : w.data with
    | true => simp only [hd, if_true] at hw ⊢; obtain ⟨l, hl, hok⟩ := hw; exact ⟨l, hs.data b l hl, hok⟩
    | false =>
      simp only [hd] at hw ⊢
      obtain ⟨c, hm⟩ := hw
      exact ⟨_, hs.node b c r hm⟩

/-- Preservation of the memory invariant by a successful CAS. -/
theorem HSwung.inv (hs : Swung m m' loc w' new ret) (h : HMemInv m) (hat : m.At loc q w0)
    (hc : w0.cond = false) (hc' : w'.cond = false)
    (hok : HWordOK m' w' q)
    (hnew : ∀ c p, new = some (.inner c p) → p.length < 16 ∧ ∀ i, HWordOK m' (c i) (p ++ [i]))
    (hlink : new.isSome → w'.ptr = some m.next)
    (hret : ∀ a, ret = some a → w0.ptr = some a)
    (hsub1 : ∀ r w b, m'.follow w' r = some w → w.ptr = some b →
      (new.isSome ∧ b = m.next) ∨ (ret ≠ some b ∧ ∃ r0 w1, m.follow w0 r0 = some w1 ∧ w1.ptr = some b))
    (hsub2 : ∀ r0 w1 b, m.follow w0 r0 = some w1 → w1.ptr = some b →
      ret = some b ∨ ∃ r w, m'.follow w' r = some w ∧ w.ptr = some b)
    (huniq : ∀ r r' w w1 b, m'.follow w' r = some w → m'.follow w' r' = some w1 → w.ptr = some b → w1.ptr = some b → r = r')
    (hfroz : ∀ a c p, ret = some a → m.mem a = some (.inner c p) → ∀ i, (c i).cond = true) :
    HMemInv m' := by
  have hfol0 := h.at_follow hat hc
  have hfol1 := HSwung.follow_root_at hs h hat hc hc'
  have hnn : m.mem m.next = none := h.fresh _ (Nat.le_refl _)
  have hnr : m.retired m.next = none := by
    cases hr : m.retired m.next with
    | none => rfl
    | some τ => exact absurd hnn (h.retTime _ _ hr).2
  -- nodes of m' in terms of m
  have hinner : ∀ b c' p, m'.mem b = some (.inner c' p) →
      (∃ c, m.mem b = some (.inner c p) ∧ c' = fun j => if loc = .slot b j then w' else c j) ∨
      (b = m.next ∧ new = some (.inner c' p)) := by
    intro b c' p hb
    cases hmb : m.mem b with
    | none =>
      rw [hs.fresh b hmb] at hb
      split at hb
      · exact Or.inr ⟨‹_›, hb⟩
      · cases hb
    | some n =>
      cases n with
      | data l => rw [hs.data b l hmb] at hb; cases hb
      | inner c p' => rw [hs.node b c p' hmb] at hb; cases hb; exact Or.inl ⟨c, rfl, rfl⟩
  -- retired nodes are untouched
  have hretd : ∀ b c' p τ, m'.mem b = some (.inner c' p) → m.retired b = some τ →
      m.mem b = some (.inner c' p) := by
    intro b c' p τ hb hr
    rcases hinner b c' p hb with ⟨c, hm, rfl⟩ | ⟨rfl, -⟩
    · rw [hm]
      have : ∀ j, loc ≠ .slot b j := by
        intro j e; have := h.at_live hat hc b j e; rw [hr] at this; cases this
      simp [this]
    · rw [hnr] at hr; cases hr
  have hwok : ∀ {w : Word} {r}, HWordOK m w r → ∀ b, w.ptr = some b → b ≠ m.next := by
    intro w r hw b hp e
    subst e
    cases hd : w.data with
    | true => obtain ⟨l, hl, -⟩ := hw.of_data hp hd; rw [hnn] at hl; cases hl
    | false => obtain ⟨c, hl⟩ := hw.of_inner hp hd; rw [hnn] at hl; cases hl
  refine ⟨?_, ?_, ?_, ?_, ?_, ?_, ?_, ?_, ?_, ?_, ?_⟩
  · -- rootOK
    rw [hs.root]
    split
    · next e => subst e; obtain ⟨rfl, -⟩ := hat; exact hok
    · exact HSwung.hwordOK_mono hs h.rootOK
  · rw [hs.root]; split
    · exact hc'
    · exact h.rootClean
  · -- nodeOK
    intro b c' p hb
    rcases hinner b c' p hb with ⟨c, hm, rfl⟩ | ⟨rfl, hn⟩
    · refine ⟨(h.nodeOK b c p hm).1, fun i => ?_⟩
      simp only
      split
      · next e =>
        subst e
        obtain ⟨c2, p2, hm2, rfl, -⟩ := hat
        rw [hm] at hm2; cases hm2
        exact hok
      · exact HSwung.hwordOK_mono hs ((h.nodeOK b c p hm).2 i)
    · exact hnew c' p hn
  · -- fresh
    intro b hb
    rw [hs.next] at hb
    have hge : m.next ≤ b := by split at hb <;> omega
    rw [hs.fresh b (h.fresh b hge)]
    split
    · next e =>
      subst e
      cases new with
      | none => rfl
      | some n => simp at hb; omega
    · rfl
  · -- linked
    intro b n hb hr
    rw [hs.retired] at hr
    split at hr
    · cases hr
    · next hne =>
      by_cases hbn : b = m.next ∧ new.isSome
      · obtain ⟨rfl, hn⟩ := hbn
        exact ⟨q, w', hfol1, hlink hn⟩
      · have hmb : ∃ n', m.mem b = some n' := by
          cases hmb : m.mem b with
          | some n' => exact ⟨n', rfl⟩
          | none =>
            rw [hs.fresh b hmb] at hb
            split at hb
            · next e => exact absurd ⟨e, by rw [hb]; rfl⟩ hbn
            · cases hb
        obtain ⟨n', hmb⟩ := hmb
        obtain ⟨r, w, hf, hp⟩ := h.linked b n' hmb hr
        by_cases hqr : q <+: r
        · obtain ⟨t, rfl⟩ := hqr
          rw [follow_append' hfol0] at hf
          rcases hsub2 t w b hf hp with hx | ⟨r', w1, hf1, hp1⟩
          · exact absurd hx hne
          · exact ⟨q ++ r', w1, by rw [follow_append' hfol1]; exact hf1, hp1⟩
        · exact ⟨r, w, by rw [HSwung.follow_root_frame hs h hat hqr]; exact hf, hp⟩
  · -- live
    intro r w b hf hp
    rw [hs.retired]
    by_cases hqr : q <+: r
    · obtain ⟨t, rfl⟩ := hqr
      rw [follow_append' hfol1] at hf
      rcases hsub1 t w b hf hp with ⟨-, rfl⟩ | ⟨hne, r0, w1, hf0, hp0⟩
      · have : ret ≠ some m.next := by
          intro e
          exact hwok (h.at_ok hat) m.next (hret _ e) rfl
        simp [this, hnr]
      · simp only [if_neg hne]
        exact h.live (q ++ r0) w1 b (by rw [follow_append' hfol0]; exact hf0) hp0
    · rw [HSwung.follow_root_frame hs h hat hqr] at hf
      have hne : ret ≠ some b := by
        intro e
        exact hqr (h.path_unique hfol0 hf (hret b e) hp ▸ List.prefix_refl _)
      simp only [if_neg hne]
      exact h.live r w b hf hp
  · -- frozen
    intro b c' p τ hb hr i
    rw [hs.retired] at hr
    split at hr
    · next e =>
      rcases hinner b c' p hb with ⟨c, hm, rfl⟩ | ⟨rfl, -⟩
      · have hne : loc ≠ .slot b i := by
          intro e2; subst e2
          obtain ⟨c2, p2, hm2, rfl, rfl⟩ := hat
          rw [hm] at hm2; cases hm2
          rw [hfroz b c p e hm i] at hc; cases hc
        simp only [if_neg hne]
        exact hfroz b c p e hm i
      · exact absurd rfl (hwok (h.at_ok hat) m.next (hret _ e))
    · exact h.frozen b c' p τ (hretd b c' p τ hb hr) hr i
  · -- hindPtr
    intro b c' p τ hb hr i b' τ' hp hr'
    rw [hs.retired] at hr hr'
    split at hr
    · next e =>
      cases hr
      split at hr'
      · cases hr'; exact Nat.le_refl _
      · exfalso
        rcases hinner b c' p hb with ⟨c, hm, rfl⟩ | ⟨rfl, -⟩
        · have hne : loc ≠ .slot b i := by
            intro e2; subst e2
            obtain ⟨c2, p2, hm2, rfl, rfl⟩ := hat
            rw [hm] at hm2; cases hm2
            rw [hfroz b c p e hm i] at hc; cases hc
          simp only [if_neg hne] at hp
          have hd0 : w0.data = false := by
            cases hd : w0.data with
            | false => rfl
            | true => obtain ⟨l, hl, -⟩ := (h.at_ok hat).of_data (hret b e) hd; rw [hm] at hl; cases hl
          have hf : m.follow m.root (q ++ [i]) = some (c i).erase := by
            rw [follow_append' hfol0]
            simp [Mem.follow, cellsOf_inner (hret b e) hd0 hm]
          have := h.live _ _ b' hf (by simpa using hp)
          rw [hr'] at this; cases this
        · exact absurd rfl (hwok (h.at_ok hat) m.next (hret _ e))
    · have hm := hretd b c' p τ hb hr
      split at hr'
      · cases hr'; exact Nat.le_of_lt (h.retTime b τ hr).1
      · exact h.hindPtr b c' p τ hm hr i b' τ' hp hr'
  · -- retTime
    intro b τ hr
    rw [hs.retired] at hr
    rw [hs.clock]
    have hmem : ∀ b, m.mem b ≠ none → m'.mem b ≠ none := by
      intro b hb hb'
      cases hmb : m.mem b with
      | none => exact hb hmb
      | some n =>
        cases n with
        | data l => rw [hs.data b l hmb] at hb'; cases hb'
        | inner c p => rw [hs.node b c p hmb] at hb'; cases hb'
    split at hr
    · next e =>
      cases hr
      refine ⟨by omega, hmem b ?_⟩
      intro hb
      have h0 := h.at_ok hat
      cases hd : w0.data with
      | true => obtain ⟨l, hl, -⟩ := h0.of_data (hret b e) hd; rw [hb] at hl; cases hl
      | false => obtain ⟨c, hl⟩ := h0.of_inner (hret b e) hd; rw [hb] at hl; cases hl
    · have := h.retTime b τ hr
      exact ⟨by omega, hmem b this.2⟩
  · intro b hb
    rw [hs.freed] at hb
    obtain ⟨τ, hτ⟩ := h.freedRet b hb
    rw [hs.retired]
    split
    · exact ⟨_, rfl⟩
    · exact ⟨τ, hτ⟩
  · -- path_unique
    have one : ∀ {t r : List (Fin 16)} {w w1 : Word} {b : Nat}, ¬ q <+: r → m'.follow m'.root (q ++ t) = some w →
        m'.follow m'.root r = some w1 → w.ptr = some b → w1.ptr = some b → False := by
      intro t r w w1 b hqr h1 h2 h3 h4
      rw [follow_append' hfol1] at h1
      rw [HSwung.follow_root_frame hs h hat hqr] at h2
      rcases hsub1 t w b h1 h3 with ⟨-, rfl⟩ | ⟨-, r0, w2, hf0, hp0⟩
      · exact hwok (h.path_ok h2) _ h4 rfl
      · have := h.path_unique (q := q ++ r0) (by rw [follow_append' hfol0]; exact hf0) h2 hp0 h4
        exact hqr (this ▸ List.prefix_append _ _)
    intro w w1 r r' b h1 h2 h3 h4
    by_cases hq1 : q <+: r
    · obtain ⟨t, rfl⟩ := hq1
      by_cases hq2 : q <+: r'
      · obtain ⟨t', rfl⟩ := hq2
        rw [follow_append' hfol1] at h1 h2
        rw [huniq t t' w w1 b h1 h2 h3 h4]
      · exact (one hq2 h1 h2 h3 h4).elim
    · by_cases hq2 : q <+: r'
      · obtain ⟨t', rfl⟩ := hq2
        exact (one hq1 h2 h1 h4 h3).elim
      · rw [HSwung.follow_root_frame hs h hat hq1] at h1
        rw [HSwung.follow_root_frame hs h hat hq2] at h2
        exact h.path_unique h1 h2 h3 h4

end
end Contrie
