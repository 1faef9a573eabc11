import Verif.Proof.Effects
/-
The effect of a successful CAS: one live cell is changed, possibly a node is allocated, possibly one is retired.
-/
set_option linter.unusedSectionVars false
namespace Contrie
variable {K P : Type} [DecidableEq K]

/-- Successful CAS: allocate `new` (if any), store `w'` at `loc`, retire `ret` (if any). -/
def Mem.swing (m : Mem P) (loc : Loc) (w' : Word) (new : Option (Node P)) (ret : Option Nat) : Mem P :=
  let m1 := match new with | none => m | some n => m.alloc n
  let m2 := m1.write w' loc
  match ret with | none => m2 | some a => m2.retire a

/-- Description of the memory after a successful CAS. -/
structure SwungC (cc : Nat) (m m' : Mem P) (loc : Loc) (w' : Word) (new : Option (Node P)) (ret : Option Nat) : Prop where
  root : m'.root = if loc = .root then w' else m.root
  node : ∀ b c p, m.mem b = some (.inner c p) →
    m'.mem b = some (.inner (fun j => if loc = .slot b j then w' else c j) p)
  data : ∀ b l, m.mem b = some (.data l) → m'.mem b = some (.data l)
  fresh : ∀ b, m.mem b = none → m'.mem b = if b = m.next then new else none
  next : m'.next = if new.isSome then m.next + 1 else m.next
  retired : ∀ b, m'.retired b = if ret = some b then some m.clock else m.retired b
  clock : m'.clock = m.clock + cc
  freed : m'.freed = m.freed

/-- Memory after the whole step (the clock has advanced). -/
abbrev Swung (m m' : Mem P) (loc : Loc) (w' : Word) (new : Option (Node P)) (ret : Option Nat) : Prop :=
  SwungC 1 m m' loc w' new ret

/-- `loc` is the cell of path `q` and holds `w0`. -/
def Mem.At (m : Mem P) (loc : Loc) (q : List (Fin 16)) (w0 : Word) : Prop :=
  match loc with
  | .root => q = [] ∧ m.root = w0
  | .slot a i => ∃ c p, m.mem a = some (.inner c p) ∧ q = p ++ [i] ∧ c i = w0

theorem swing_swung {m : Mem P} {loc : Loc} {q : List (Fin 16)} {w0 : Word} (hat : m.At loc q w0)
    (hfresh : m.mem m.next = none) (w' : Word) (new : Option (Node P)) (ret : Option Nat) :
    Swung m (m.swing loc w' new ret).bump loc w' new ret := by
  have fin : SwungC 0 m (m.swing loc w' new ret) loc w' new ret →
      Swung m (m.swing loc w' new ret).bump loc w' new ret := by
    intro h
    exact ⟨h.root, h.node, h.data, h.fresh, h.next, h.retired, congrArg (· + 1) h.clock, h.freed⟩
  refine fin ?_
  clear fin
  have key : ∀ m2 : Mem P, SwungC 0 m m2 loc w' new none →
      SwungC 0 m (match ret with | none => m2 | some a => m2.retire a) loc w' new ret := by
    intro m2 h
    cases ret with
    | none => exact h
    | some a =>
      refine ⟨h.root, h.node, h.data, h.fresh, h.next, ?_, h.clock, h.freed⟩
      intro b
      simp only [Mem.retire, upd, h.clock, Nat.add_zero]
      have := h.retired b
      simp at this
      by_cases hb : b = a
      · subst hb; simp
      · have hb' : ¬ a = b := fun e => hb e.symm
        simp [hb, hb', this]
  refine key _ ?_
  cases loc with
  | root =>
    cases new with
    | none =>
      exact ⟨by simp [Mem.write], by intro b c p h; simp [Mem.write, h], by intro b l h; simp [Mem.write, h],
        by intro b h; simp [Mem.write, h], rfl, by simp [Mem.write], rfl, rfl⟩
    | some n =>
      refine ⟨by simp [Mem.write], ?_, ?_, ?_, by simp [Mem.write, Mem.alloc], by simp [Mem.write, Mem.alloc], rfl, rfl⟩
      · intro b c p h
        have : b ≠ m.next := by intro e; rw [e, hfresh] at h; cases h
        simp [Mem.write, Mem.alloc, upd_other _ _ this, h]
      · intro b l h
        have : b ≠ m.next := by intro e; rw [e, hfresh] at h; cases h
        simp [Mem.write, Mem.alloc, upd_other _ _ this, h]
      · intro b h
        by_cases hb : b = m.next
        · simp [Mem.write, Mem.alloc, hb]
        · simp [Mem.write, Mem.alloc, upd_other _ _ hb, h, hb]
  | slot a i =>
    obtain ⟨c0, p0, hm, -, -⟩ := hat
    have han : a ≠ m.next := by intro e; rw [e, hfresh] at hm; cases hm
    cases new with
    | none =>
      refine ⟨by simp [Mem.write, hm], ?_, ?_, ?_, by simp [Mem.write, hm], by simp [Mem.write, hm],
        by simp [Mem.write, hm], by simp [Mem.write, hm]⟩
      · intro b c p h
        simp only [Mem.write, hm]
        by_cases hb : b = a
        · subst hb
          rw [hm] at h; cases h
          simp only [upd_same, Option.some.injEq, Node.inner.injEq, and_true]
          funext j
          by_cases hj : j = i
          · subst hj; simp
          · have : ¬ i = j := fun e => hj e.symm
            simp [upd_other _ _ hj, this]
        · have : ¬ a = b := fun e => hb e.symm
          simp [upd_other _ _ hb, h, this]
      · intro b l h
        have hb : b ≠ a := by intro e; rw [e, hm] at h; cases h
        simp [Mem.write, hm, upd_other _ _ hb, h]
      · intro b h
        have hb : b ≠ a := by intro e; rw [e, hm] at h; cases h
        simp [Mem.write, hm, upd_other _ _ hb, h]
    | some n =>
      have hm' : (m.alloc n).mem a = some (.inner c0 p0) := by simp [Mem.alloc, upd_other _ _ han, hm]
      refine ⟨by simp [Mem.write, hm']; rfl, ?_, ?_, ?_, by simp [Mem.write, hm']; rfl,
        by simp [Mem.write, hm']; intro b; rfl, by simp [Mem.write, hm']; rfl, by simp [Mem.write, hm']; rfl⟩
      · intro b c p h
        have hbn : b ≠ m.next := by intro e; rw [e, hfresh] at h; cases h
        simp only [Mem.write, hm']
        by_cases hb : b = a
        · subst hb
          rw [hm] at h; cases h
          simp only [upd_same, Option.some.injEq, Node.inner.injEq, and_true]
          funext j
          by_cases hj : j = i
          · subst hj; simp
          · have : ¬ i = j := fun e => hj e.symm
            simp [upd_other _ _ hj, this]
        · have : ¬ a = b := fun e => hb e.symm
          simp [upd_other _ _ hb, this, Mem.alloc, upd_other _ _ hbn, h]
      · intro b l h
        have hbn : b ≠ m.next := by intro e; rw [e, hfresh] at h; cases h
        have hb : b ≠ a := by intro e; rw [e, hm] at h; cases h
        simp only [Mem.write, hm', upd_other _ _ hb]; simp [Mem.alloc, upd_other _ _ hbn, h]
      · intro b h
        have hb : b ≠ a := by intro e; rw [e, hm] at h; cases h
        simp only [Mem.write, hm', upd_other _ _ hb]
        by_cases hbn : b = m.next
        · simp [Mem.alloc, hbn]
        · simp [Mem.alloc, upd_other _ _ hbn, hbn, h]

section
variable {cfg : Config K P} {A : Nat → AMap K P} {m m' : Mem P} {loc : Loc} {q : List (Fin 16)} {w0 w' : Word}
  {new : Option (Node P)} {ret : Option Nat}

/-- The cell belongs to a node that is still linked. -/
theorem MemInv.at_live (h : MemInv cfg A m) (hat : m.At loc q w0) (hc : w0.cond = false) :
    ∀ a i, loc = .slot a i → m.retired a = none := by
  intro a i hl
  subst hl
  obtain ⟨c, p, hm, -, hci⟩ := hat
  cases hr : m.retired a with
  | none => rfl
  | some τ => have := h.frozen a c p τ hm hr i; rw [hci, hc] at this; cases this

theorem MemInv.at_follow (h : MemInv cfg A m) (hat : m.At loc q w0) (hc : w0.cond = false) :
    m.follow m.root q = some w0 := by
  cases loc with
  | root => obtain ⟨rfl, rfl⟩ := hat; simp [Mem.follow, erase_of_clean hc]
  | slot a i =>
    have hl := h.at_live hat hc a i rfl
    obtain ⟨c, p, hm, rfl, rfl⟩ := hat
    rw [follow_append' (h.inner_at hm hl)]
    simp [Mem.follow, Mem.cellsOf, hm, erase_of_clean hc]

theorem MemInv.at_ok (h : MemInv cfg A m) (hat : m.At loc q w0) : WordOK cfg m w0 q := by
  cases loc with
  | root => obtain ⟨rfl, rfl⟩ := hat; exact h.rootOK
  | slot a i => obtain ⟨c, p, hm, rfl, rfl⟩ := hat; exact (h.nodeOK a c p hm).2 i

theorem MemInv.at_len (h : MemInv cfg A m) (hat : m.At loc q w0) : q.length ≤ 16 := by
  cases loc with
  | root => obtain ⟨rfl, rfl⟩ := hat; simp
  | slot a i => obtain ⟨c, p, hm, rfl, rfl⟩ := hat; have := (h.nodeOK a c p hm).1; simp; omega

/-- Away from the changed cell nothing changes. -/
theorem Swung.follow_frame (hs : Swung m m' loc w' new ret) (h : MemInv cfg A m) (hat : m.At loc q w0)
    {w : Word} {q0 r : List (Fin 16)} (hw : WordOK cfg m w q0)
    (hq : ¬ (q <+: q0 ++ r ∧ q0.length < q.length)) : m'.follow w r = m.follow w r := by
  induction r generalizing w q0 with
  | nil => rfl
  | cons i r ih =>
    simp only [Mem.follow]
    cases hp : w.ptr with
    | none => simp [Mem.cellsOf, hp]
    | some b =>
      cases hd : w.data with
      | true => simp [Mem.cellsOf, hp, hd]
      | false =>
        obtain ⟨c, hm⟩ := hw.of_inner hp hd
        rw [cellsOf_inner hp hd hm, cellsOf_inner hp hd (hs.node b c q0 hm)]
        have hne : loc ≠ .slot b i := by
          intro e
          subst e
          obtain ⟨c', p', hm', rfl, -⟩ := hat
          rw [hm] at hm'; cases hm'
          exact hq ⟨by simp, by simp⟩
        simp only [hne, if_false]
        refine ih (q0 := q0 ++ [i]) ((h.nodeOK b c q0 hm).2 i) ?_
        intro ⟨h1, h2⟩
        refine hq ⟨by simpa using h1, ?_⟩
        simp at h2; omega

theorem Swung.leafVal_frame (hs : Swung m m' loc w' new ret) {w : Word} {q0 : List (Fin 16)}
    (hw : WordOK cfg m w q0) (k : K) : m'.leafVal cfg k w = m.leafVal cfg k w := by
  simp only [Mem.leafVal]
  cases hp : w.ptr with
  | none => rfl
  | some b =>
    cases hd : w.data with
    | false => rfl
    | true =>
      obtain ⟨l, hl, -⟩ := hw.of_data hp hd
      simp [hl, hs.data b l hl]

theorem Swung.look_frame (hs : Swung m m' loc w' new ret) (h : MemInv cfg A m) (hat : m.At loc q w0)
    {k : K} {w : Word} {q0 r : List (Fin 16)} (hw : WordOK cfg m w q0)
    (hq : ¬ (q <+: q0 ++ r ∧ q0.length < q.length)) : m'.look cfg k w r = m.look cfg k w r := by
  induction r generalizing w q0 with
  | nil => simp [Mem.look, hs.leafVal_frame hw]
  | cons i r ih =>
    simp only [Mem.look, hs.leafVal_frame hw]
    cases hp : w.ptr with
    | none => simp [leafVal_null hp]
    | some b =>
      cases hd : w.data with
      | true => obtain ⟨l, hl, -⟩ := hw.of_data hp hd; simp [leafVal_data hp hd hl]
      | false =>
        obtain ⟨c, hm⟩ := hw.of_inner hp hd
        rw [leafVal_inner hp hd, cellsOf_inner hp hd hm, cellsOf_inner hp hd (hs.node b c q0 hm)]
        have hne : loc ≠ .slot b i := by
          intro e
          subst e
          obtain ⟨c', p', hm', rfl, -⟩ := hat
          rw [hm] at hm'; cases hm'
          exact hq ⟨by simp, by simp⟩
        simp only [hne, if_false]
        refine ih (q0 := q0 ++ [i]) ((h.nodeOK b c q0 hm).2 i) ?_
        intro ⟨h1, h2⟩
        refine hq ⟨by simpa using h1, ?_⟩
        simp at h2; omega

theorem Swung.root_other (hs : Swung m m' loc w' new ret) (hl : loc ≠ .root) : m'.root = m.root := by
  rw [hs.root, if_neg hl]

theorem Swung.follow_root_frame (hs : Swung m m' loc w' new ret) (h : MemInv cfg A m) (hat : m.At loc q w0)
    {r : List (Fin 16)} (hq : ¬ q <+: r) : m'.follow m'.root r = m.follow m.root r := by
  have hl : loc ≠ .root := by
    intro e; subst e; obtain ⟨rfl, -⟩ := hat; exact hq (List.nil_prefix)
  rw [hs.root_other hl]
  exact hs.follow_frame h hat h.rootOK (fun hh => hq (by simpa using hh.1))

theorem Swung.follow_root_at (hs : Swung m m' loc w' new ret) (h : MemInv cfg A m) (hat : m.At loc q w0)
    (hc : w0.cond = false) (hc' : w'.cond = false) : m'.follow m'.root q = some w' := by
  cases loc with
  | root =>
    obtain ⟨rfl, -⟩ := hat
    rw [hs.root]; simp [Mem.follow, erase_of_clean hc']
  | slot a i =>
    have hl := h.at_live hat hc a i rfl
    have hat' := hat
    obtain ⟨c, p, hm, rfl, rfl⟩ := hat
    have hp : m'.follow m'.root p = some ⟨some a, false, false⟩ := by
      rw [hs.follow_root_frame h hat' (r := p) ?_]
      · exact h.inner_at hm hl
      · intro hh; have := hh.length_le; simp at this; omega
    rw [follow_append' hp]
    simp [Mem.follow, Mem.cellsOf, hs.node a c p hm, erase_of_clean hc']

theorem Swung.abs_frame (hs : Swung m m' loc w' new ret) (h : MemInv cfg A m) (hat : m.At loc q w0)
    {k : K} (hq : ¬ q <+: nibs (cfg.hash k)) : m'.abs cfg k = m.abs cfg k := by
  have hl : loc ≠ .root := by
    intro e; subst e; obtain ⟨rfl, -⟩ := hat; exact hq (List.nil_prefix)
  simp only [Mem.abs]
  rw [hs.root_other hl]
  exact hs.look_frame h hat h.rootOK (fun hh => hq (by simpa using hh.1))

theorem Swung.abs_at (hs : Swung m m' loc w' new ret) (h : MemInv cfg A m) (hat : m.At loc q w0)
    (hc : w0.cond = false) (hc' : w'.cond = false) {k : K} {ns : List (Fin 16)}
    (hq : nibs (cfg.hash k) = q ++ ns) : m'.abs cfg k = m'.look cfg k w' ns := by
  simp only [Mem.abs, hq]
  exact look_follow (hs.follow_root_at h hat hc hc')

theorem MemInv.abs_at (h : MemInv cfg A m) (hat : m.At loc q w0)
    (hc : w0.cond = false) {k : K} {ns : List (Fin 16)}
    (hq : nibs (cfg.hash k) = q ++ ns) : m.abs cfg k = m.look cfg k w0 ns := by
  simp only [Mem.abs, hq]
  exact look_follow (h.at_follow hat hc)

theorem Swung.wordOK_mono (hs : Swung m m' loc w' new ret) {w : Word} {r : List (Fin 16)}
    (hw : WordOK cfg m w r) : WordOK cfg m' w r := by
  simp only [WordOK] at hw ⊢
  cases hp : w.ptr with
  | none => simpa [hp] using hw
  | some b =>
    simp only [hp] at hw ⊢
    cases hd : w.data with
    | true => simp only [hd, if_true] at hw ⊢; obtain ⟨l, hl, hok⟩ := hw; exact ⟨l, hs.data b l hl, hok⟩
    | false =>
      simp only [hd] at hw ⊢
      obtain ⟨c, hm⟩ := hw
      exact ⟨_, hs.node b c r hm⟩

/-- Preservation of the memory invariant by a successful CAS. -/
theorem Swung.inv (hs : Swung m m' loc w' new ret) (h : MemInv cfg A m) (hat : m.At loc q w0)
    (hA : A m.clock = m.abs cfg)
    (hc : w0.cond = false) (hc' : w'.cond = false)
    (hok : WordOK cfg m' w' q)
    (hnew : ∀ c p, new = some (.inner c p) → p.length < 16 ∧ ∀ i, WordOK cfg m' (c i) (p ++ [i]))
    (hlink : new.isSome → w'.ptr = some m.next)
    (hret : ∀ a, ret = some a → w0.ptr = some a)
    (hsub1 : ∀ r w b, m'.follow w' r = some w → w.ptr = some b →
      (new.isSome ∧ b = m.next) ∨ (ret ≠ some b ∧ ∃ r0 w1, m.follow w0 r0 = some w1 ∧ w1.ptr = some b))
    (hsub2 : ∀ r0 w1 b, m.follow w0 r0 = some w1 → w1.ptr = some b →
      ret = some b ∨ ∃ r w, m'.follow w' r = some w ∧ w.ptr = some b)
    (hfroz : ∀ a c p, ret = some a → m.mem a = some (.inner c p) → ∀ i, (c i).cond = true) :
    MemInv cfg A m' := by
  have hfol0 := h.at_follow hat hc
  have hfol1 := hs.follow_root_at h hat hc hc'
  have hnn : m.mem m.next = none := h.fresh _ (Nat.le_refl _)
  have hnr : m.retired m.next = none := by
    cases hr : m.retired m.next with
    | none => rfl
    | some τ => exact absurd hnn (h.retTime _ _ hr).2
  -- nodes of m' in terms of m
  have hinner : ∀ b c' p, m'.mem b = some (.inner c' p) →
      (∃ c, m.mem b = some (.inner c p) ∧ c' = fun j => if loc = .slot b j then w' else c j) ∨
      (b = m.next ∧ new = some (.inner c' p)) := by
    intro b c' p hb
    cases hmb : m.mem b with
    | none =>
      rw [hs.fresh b hmb] at hb
      split at hb
      · exact Or.inr ⟨‹_›, hb⟩
      · cases hb
    | some n =>
      cases n with
      | data l => rw [hs.data b l hmb] at hb; cases hb
      | inner c p' => rw [hs.node b c p' hmb] at hb; cases hb; exact Or.inl ⟨c, rfl, rfl⟩
  -- retired nodes are untouched
  have hretd : ∀ b c' p τ, m'.mem b = some (.inner c' p) → m.retired b = some τ →
      m.mem b = some (.inner c' p) := by
    intro b c' p τ hb hr
    rcases hinner b c' p hb with ⟨c, hm, rfl⟩ | ⟨rfl, -⟩
    · rw [hm]
      have : ∀ j, loc ≠ .slot b j := by
        intro j e; have := h.at_live hat hc b j e; rw [hr] at this; cases this
      simp [this]
    · rw [hnr] at hr; cases hr
  have hwok : ∀ {w : Word} {r}, WordOK cfg m w r → ∀ b, w.ptr = some b → b ≠ m.next := by
    intro w r hw b hp e
    subst e
    cases hd : w.data with
    | true => obtain ⟨l, hl, -⟩ := hw.of_data hp hd; rw [hnn] at hl; cases hl
    | false => obtain ⟨c, hl⟩ := hw.of_inner hp hd; rw [hnn] at hl; cases hl
  refine ⟨?_, ?_, ?_, ?_, ?_, ?_, ?_, ?_, ?_, ?_, ?_⟩
  · -- rootOK
    rw [hs.root]
    split
    · next e => subst e; obtain ⟨rfl, -⟩ := hat; exact hok
    · exact hs.wordOK_mono h.rootOK
  · rw [hs.root]; split
    · exact hc'
    · exact h.rootClean
  · -- nodeOK
    intro b c' p hb
    rcases hinner b c' p hb with ⟨c, hm, rfl⟩ | ⟨rfl, hn⟩
    · refine ⟨(h.nodeOK b c p hm).1, fun i => ?_⟩
      simp only
      split
      · next e =>
        subst e
        obtain ⟨c2, p2, hm2, rfl, -⟩ := hat
        rw [hm] at hm2; cases hm2
        exact hok
      · exact hs.wordOK_mono ((h.nodeOK b c p hm).2 i)
    · exact hnew c' p hn
  · -- fresh
    intro b hb
    rw [hs.next] at hb
    have hge : m.next ≤ b := by split at hb <;> omega
    rw [hs.fresh b (h.fresh b hge)]
    split
    · next e =>
      subst e
      cases new with
      | none => rfl
      | some n => simp at hb; omega
    · rfl
  · -- linked
    intro b n hb hr
    rw [hs.retired] at hr
    split at hr
    · cases hr
    · next hne =>
      by_cases hbn : b = m.next ∧ new.isSome
      · obtain ⟨rfl, hn⟩ := hbn
        exact ⟨q, w', hfol1, hlink hn⟩
      · have hmb : ∃ n', m.mem b = some n' := by
          cases hmb : m.mem b with
          | some n' => exact ⟨n', rfl⟩
          | none =>
            rw [hs.fresh b hmb] at hb
            split at hb
            · next e => exact absurd ⟨e, by rw [hb]; rfl⟩ hbn
            · cases hb
        obtain ⟨n', hmb⟩ := hmb
        obtain ⟨r, w, hf, hp⟩ := h.linked b n' hmb hr
        by_cases hqr : q <+: r
        · obtain ⟨t, rfl⟩ := hqr
          rw [follow_append' hfol0] at hf
          rcases hsub2 t w b hf hp with hx | ⟨r', w1, hf1, hp1⟩
          · exact absurd hx hne
          · exact ⟨q ++ r', w1, by rw [follow_append' hfol1]; exact hf1, hp1⟩
        · exact ⟨r, w, by rw [hs.follow_root_frame h hat hqr]; exact hf, hp⟩
  · -- live
    intro r w b hf hp
    rw [hs.retired]
    by_cases hqr : q <+: r
    · obtain ⟨t, rfl⟩ := hqr
      rw [follow_append' hfol1] at hf
      rcases hsub1 t w b hf hp with ⟨-, rfl⟩ | ⟨hne, r0, w1, hf0, hp0⟩
      · have : ret ≠ some m.next := by
          intro e
          exact hwok (h.at_ok hat) m.next (hret _ e) rfl
        simp [this, hnr]
      · simp only [if_neg hne]
        exact h.live (q ++ r0) w1 b (by rw [follow_append' hfol0]; exact hf0) hp0
    · rw [hs.follow_root_frame h hat hqr] at hf
      have hne : ret ≠ some b := by
        intro e
        exact hqr (h.path_unique hfol0 hf (hret b e) hp ▸ List.prefix_refl _)
      simp only [if_neg hne]
      exact h.live r w b hf hp
  · -- frozen
    intro b c' p τ hb hr i
    rw [hs.retired] at hr
    split at hr
    · next e =>
      rcases hinner b c' p hb with ⟨c, hm, rfl⟩ | ⟨rfl, -⟩
      · have hne : loc ≠ .slot b i := by
          intro e2; subst e2
          obtain ⟨c2, p2, hm2, rfl, rfl⟩ := hat
          rw [hm] at hm2; cases hm2
          rw [hfroz b c p e hm i] at hc; cases hc
        simp only [if_neg hne]
        exact hfroz b c p e hm i
      · exact absurd rfl (hwok (h.at_ok hat) m.next (hret _ e))
    · exact h.frozen b c' p τ (hretd b c' p τ hb hr) hr i
  · -- hind
    intro b c' p τ hb hr i k v hpre hv
    rw [hs.retired] at hr
    split at hr
    · next e =>
      cases hr
      rcases hinner b c' p hb with ⟨c, hm, rfl⟩ | ⟨rfl, -⟩
      · have hne : loc ≠ .slot b i := by
          intro e2; subst e2
          obtain ⟨c2, p2, hm2, rfl, rfl⟩ := hat
          rw [hm] at hm2; cases hm2
          rw [hfroz b c p e hm i] at hc; cases hc
        simp only [if_neg hne] at hv
        rw [hs.leafVal_frame ((h.nodeOK b c p hm).2 i)] at hv
        have hpq : p = q := by
          have h0 := h.at_ok hat
          have hp0 := hret b e
          cases hd : w0.data with
          | true => obtain ⟨l, hl, -⟩ := h0.of_data hp0 hd; rw [hm] at hl; cases hl
          | false => obtain ⟨c2, hl⟩ := h0.of_inner hp0 hd; rw [hm] at hl; cases hl; rfl
        subst hpq
        obtain ⟨ns, hns⟩ := hpre
        rw [hA]
        have hq : nibs (cfg.hash k) = p ++ (i :: ns) := by rw [← hns]; simp
        rw [h.abs_at hat hc hq]
        have hd0 : w0.data = false := by
          cases hd : w0.data with
          | false => rfl
          | true => obtain ⟨l, hl, -⟩ := (h.at_ok hat).of_data (hret b e) hd; rw [hm] at hl; cases hl
        simp only [Mem.look, leafVal_inner (hret b e) hd0, cellsOf_inner (hret b e) hd0 hm]
        exact look_leaf ns hv
      · exact absurd rfl (hwok (h.at_ok hat) m.next (hret _ e))
    · have hm := hretd b c' p τ hb hr
      rw [hs.leafVal_frame ((h.nodeOK b c' p hm).2 i)] at hv
      exact h.hind b c' p τ hm hr i k v hpre hv
  · -- hindPtr
    intro b c' p τ hb hr i b' τ' hp hr'
    rw [hs.retired] at hr hr'
    split at hr
    · next e =>
      cases hr
      split at hr'
      · cases hr'; exact Nat.le_refl _
      · exfalso
        rcases hinner b c' p hb with ⟨c, hm, rfl⟩ | ⟨rfl, -⟩
        · have hne : loc ≠ .slot b i := by
            intro e2; subst e2
            obtain ⟨c2, p2, hm2, rfl, rfl⟩ := hat
            rw [hm] at hm2; cases hm2
            rw [hfroz b c p e hm i] at hc; cases hc
          simp only [if_neg hne] at hp
          have hd0 : w0.data = false := by
            cases hd : w0.data with
            | false => rfl
            | true => obtain ⟨l, hl, -⟩ := (h.at_ok hat).of_data (hret b e) hd; rw [hm] at hl; cases hl
          have hf : m.follow m.root (q ++ [i]) = some (c i).erase := by
            rw [follow_append' hfol0]
            simp [Mem.follow, cellsOf_inner (hret b e) hd0 hm]
          have := h.live _ _ b' hf (by simpa using hp)
          rw [hr'] at this; cases this
        · exact absurd rfl (hwok (h.at_ok hat) m.next (hret _ e))
    · have hm := hretd b c' p τ hb hr
      split at hr'
      · cases hr'; exact Nat.le_of_lt (h.retTime b τ hr).1
      · exact h.hindPtr b c' p τ hm hr i b' τ' hp hr'
  · -- retTime
    intro b τ hr
    rw [hs.retired] at hr
    rw [hs.clock]
    have hmem : ∀ b, m.mem b ≠ none → m'.mem b ≠ none := by
      intro b hb hb'
      cases hmb : m.mem b with
      | none => exact hb hmb
      | some n =>
        cases n with
        | data l => rw [hs.data b l hmb] at hb'; cases hb'
        | inner c p => rw [hs.node b c p hmb] at hb'; cases hb'
    split at hr
    · next e =>
      cases hr
      refine ⟨by omega, hmem b ?_⟩
      intro hb
      have h0 := h.at_ok hat
      cases hd : w0.data with
      | true => obtain ⟨l, hl, -⟩ := h0.of_data (hret b e) hd; rw [hb] at hl; cases hl
      | false => obtain ⟨c, hl⟩ := h0.of_inner (hret b e) hd; rw [hb] at hl; cases hl
    · have := h.retTime b τ hr
      exact ⟨by omega, hmem b this.2⟩
  · intro b hb
    rw [hs.freed] at hb
    obtain ⟨τ, hτ⟩ := h.freedRet b hb
    rw [hs.retired]
    split
    · exact ⟨_, rfl⟩
    · exact ⟨τ, hτ⟩
end
end Contrie
