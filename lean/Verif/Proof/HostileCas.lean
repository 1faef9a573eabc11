import Verif.Proof.HostileMem
/-
The machine with misbehaving user code: the successful CASes.
-/
set_option linter.unusedSectionVars false
namespace Contrie
variable {K P : Type}

section
variable {m m' : Mem P} {loc : Loc} {q : List (Fin 16)} {w0 w' : Word}
  {new : Option (Node P)} {ret : Option Nat}

theorem hleaf_not_inner (hw : HWordOK m w0 q) (hl : w0.isLeaf) {a : Nat} (hp : w0.ptr = some a)
    {c : Fin 16 → Word} {p : List (Fin 16)} (hm : m.mem a = some (.inner c p)) : False := by
  rcases hl with hl | hl
  · rw [hl] at hp; cases hp
  · obtain ⟨l, h1, -⟩ := hw.of_data hp hl
    rw [hm] at h1; cases h1

theorem leaf_uniq {w : Word} (hl : w.isLeaf) : ∀ r r' w1 w2 b, m'.follow w r = some w1 → m'.follow w r' = some w2 →
    w1.ptr = some b → w2.ptr = some b → r = r' := by
  intro r r' w1 w2 b h1 h2 _ _
  rw [(hl.follow h1).1, (hl.follow h2).1]

/-- A leaf is replaced by a fresh data node. -/
theorem HMemInv.setLeaf (h : HMemInv m) (hat : m.At loc q w0)
    (hc : w0.cond = false) (hl : w0.isLeaf) {l : List P} (hok : l ≠ [])
    (hs : Swung m m' loc ⟨some m.next, false, true⟩ (some (.data l)) w0.ptr) : HMemInv m' := by
  have hnm : m'.mem m.next = some (.data l) := by
    rw [hs.fresh _ (h.fresh _ (Nat.le_refl _))]; simp
  have hl' : (⟨some m.next, false, true⟩ : Word).isLeaf := Or.inr rfl
  refine HSwung.inv hs h hat hc rfl ?_ ?_ ?_ ?_ ?_ ?_ (leaf_uniq hl') ?_
  · simp only [HWordOK]; exact ⟨l, hnm, hok⟩
  · intro c p e; cases e
  · intro _; rfl
  · intro a e; exact e
  · intro r w b hf hb
    obtain ⟨rfl, rfl⟩ := hl'.follow hf
    simp at hb
    exact Or.inl ⟨rfl, hb.symm⟩
  · intro r w b hf hb
    obtain ⟨rfl, rfl⟩ := hl.follow hf
    exact Or.inl (by simpa using hb)
  · intro a c p e hm
    exact (hleaf_not_inner (h.at_ok hat) hl e hm).elim

/-- A leaf is replaced by null. -/
theorem HMemInv.clearLeaf (h : HMemInv m) (hat : m.At loc q w0)
    (hc : w0.cond = false) (hl : w0.isLeaf) (hs : Swung m m' loc Word.null none w0.ptr) : HMemInv m' := by
  refine HSwung.inv hs h hat hc rfl ?_ ?_ ?_ ?_ ?_ ?_ (leaf_uniq isLeaf_null) ?_
  · exact HWordOK.null _ _
  · intro c p e; cases e
  · intro e; cases e
  · intro a e; exact e
  · intro r w b hf hb
    obtain ⟨rfl, rfl⟩ := isLeaf_null.follow hf
    simp at hb
  · intro r w b hf hb
    obtain ⟨rfl, rfl⟩ := hl.follow hf
    exact Or.inl (by simpa using hb)
  · intro a c p e hm
    exact (hleaf_not_inner (h.at_ok hat) hl e hm).elim

/-- A data node is pushed one level down, below any cell. -/
theorem HMemInv.split (h : HMemInv m) (hat : m.At loc q w0)
    (hc : w0.cond = false) (hq : q.length < 16) {a : Nat} (hp : w0.ptr = some a) (hd : w0.data = true) (i : Fin 16)
    (hs : Swung m m' loc ⟨some m.next, false, false⟩
      (some (.inner (upd (fun _ => Word.null) i w0) q)) none) : HMemInv m' := by
  have hl : w0.isLeaf := Or.inr hd
  generalize hcells : upd (fun _ : Fin 16 => Word.null) i w0 = cells at hs
  have hci : cells i = w0 := by simp [← hcells]
  have hcj : ∀ j, j ≠ i → cells j = Word.null := by intro j hj; simp [← hcells, upd_other _ _ hj]
  have hnn : m.mem m.next = none := h.fresh _ (Nat.le_refl _)
  have hnm : m'.mem m.next = some (.inner cells q) := by
    rw [hs.fresh _ hnn]; simp
  obtain ⟨l, hm, hlok⟩ := (h.at_ok hat).of_data hp hd
  have hane : a ≠ m.next := by intro e; rw [e, hnn] at hm; cases hm
  have hcw : m'.cellsOf ⟨some m.next, false, false⟩ = some cells := cellsOf_inner rfl rfl hnm
  have hcases : ∀ r w b, m'.follow ⟨some m.next, false, false⟩ r = some w → w.ptr = some b →
      (b = m.next ∧ r = []) ∨ (w0.ptr = some b ∧ r = [i]) := by
    intro r w b hf hb
    cases r with
    | nil => simp [Mem.follow] at hf; subst hf; simp at hb; exact Or.inl ⟨hb.symm, rfl⟩
    | cons j r =>
      simp only [Mem.follow, hcw] at hf
      by_cases hj : j = i
      · subst hj
        rw [hci] at hf
        obtain ⟨rfl, rfl⟩ := hl.follow hf
        exact Or.inr ⟨by simpa using hb, rfl⟩
      · rw [hcj j hj] at hf
        obtain ⟨rfl, rfl⟩ := isLeaf_null.follow hf
        simp at hb
  refine HSwung.inv hs h hat hc rfl ?_ ?_ ?_ ?_ ?_ ?_ ?_ ?_
  · simp only [HWordOK]; exact ⟨_, hnm⟩
  · intro c p e; cases e
    refine ⟨hq, fun j => ?_⟩
    by_cases hj : j = i
    · subst hj
      rw [hci]
      simp only [HWordOK, hp, hd, if_true]
      exact ⟨l, hs.data a _ hm, hlok⟩
    · rw [hcj j hj]; exact HWordOK.null _ _
  · intro _; rfl
  · intro a e; cases e
  · intro r w b hf hb
    rcases hcases r w b hf hb with hx | hx
    · exact Or.inl ⟨rfl, hx.1⟩
    · exact Or.inr ⟨by simp, [], w0.erase, rfl, by simpa using hx.1⟩
  · intro r w b hf hb
    obtain ⟨rfl, rfl⟩ := hl.follow hf
    refine Or.inr ⟨[i], w0.erase, ?_, hb⟩
    simp [Mem.follow, hcw, hci]
  · intro r r' w1 w2 b h1 h2 h3 h4
    rcases hcases r w1 b h1 h3 with hx | hx <;> rcases hcases r' w2 b h2 h4 with hy | hy
    · rw [hx.2, hy.2]
    · rw [hx.1, hp] at hy; cases hy.1; exact absurd rfl hane
    · rw [hy.1, hp] at hx; cases hx.1; exact absurd rfl hane
    · rw [hx.2, hy.2]
  · intro a c p e; cases e

/-- An inner node is pruned. -/
theorem HMemInv.pruned (h : HMemInv m) (hat : m.At loc q w0)
    (hc : w0.cond = false) {a : Nat} (hp : w0.ptr = some a) (hd : w0.data = false) {c : Fin 16 → Word}
    (hm : m.mem a = some (.inner c q)) (hfr : ∀ i, (c i).cond = true)
    (hok : PruneOK m q c w' new)
    (hs : Swung m m' loc w' new (some a)) : HMemInv m' := by
  have hq16 := (h.nodeOK a c q hm).1
  have hcw : m.cellsOf w0 = some c := cellsOf_inner hp hd hm
  have hret : ∀ b, some a = some b → w0.ptr = some b := by intro b e; cases e; exact hp
  have hfroz : ∀ b c' p, some a = some b → m.mem b = some (.inner c' p) → ∀ i, (c' i).cond = true := by
    intro b c' p e hb; cases e; rw [hm] at hb; cases hb; exact hfr
  have hnn : m.mem m.next = none := h.fresh _ (Nat.le_refl _)
  cases hok with
  | null hn =>
    refine HSwung.inv hs h hat hc rfl (HWordOK.null _ _) (by intro c p e; cases e) (by intro e; cases e) hret ?_ ?_
      (leaf_uniq isLeaf_null) hfroz
    · intro r w b hf hb
      obtain ⟨rfl, rfl⟩ := isLeaf_null.follow hf
      simp at hb
    · intro r w b hf hb
      cases r with
      | nil => simp [Mem.follow] at hf; subst hf; left; rw [← hb]; simpa using hp.symm
      | cons j r =>
        simp only [Mem.follow, hcw] at hf
        obtain ⟨rfl, rfl⟩ := (show (c j).isLeaf from Or.inl (hn j)).follow hf
        simp [hn j] at hb
  | single i b d hpi hdi hmb hn =>
    have hli : (c i).isLeaf := Or.inr hdi
    have hli' : (c i).erase.isLeaf := Or.inr hdi
    refine HSwung.inv hs h hat hc rfl ?_ (by intro c p e; cases e) (by intro e; cases e) hret ?_ ?_ (leaf_uniq hli') hfroz
    · simp only [HWordOK, erase_ptr, erase_data, hpi, hdi, if_true]
      exact ⟨[d], hs.data b _ hmb, by simp⟩
    · intro r w b' hf hb
      obtain ⟨rfl, rfl⟩ := hli'.follow hf
      simp [hpi] at hb; subst hb
      refine Or.inr ⟨?_, [i], (c i).erase, ?_, by simpa using hpi⟩
      · intro e; cases e; rw [hm] at hmb; cases hmb
      · simp [Mem.follow, hcw]
    · intro r w b' hf hb
      cases r with
      | nil => simp [Mem.follow] at hf; subst hf; left; rw [← hb]; simpa using hp.symm
      | cons j r =>
        simp only [Mem.follow, hcw] at hf
        by_cases hj : j = i
        · subst hj
          obtain ⟨rfl, rfl⟩ := hli.follow hf
          exact Or.inr ⟨[], (c j).erase, by simp [Mem.follow], hb⟩
        · obtain ⟨rfl, rfl⟩ := (show (c j).isLeaf from Or.inl (hn j hj)).follow hf
          simp [hn j hj] at hb
  | copy =>
    have hnm : m'.mem m.next = some (.inner (fun i => (c i).erase) q) := by
      rw [hs.fresh _ hnn]; simp
    have hcw' : m'.cellsOf ⟨some m.next, false, false⟩ = some (fun i => (c i).erase) := cellsOf_inner rfl rfl hnm
    have hfr' : ∀ j r, m'.follow (c j).erase r = m.follow (c j) r := by
      intro j r
      rw [follow_congr (w' := c j) (by simp)]
      exact HSwung.follow_frame hs h hat ((h.nodeOK a c q hm).2 j) (by simp)
    have hfol0 := h.at_follow hat hc
    have hdown : ∀ j r w, m'.follow ⟨some m.next, false, false⟩ (j :: r) = some w →
        m.follow m.root (q ++ j :: r) = some w := by
      intro j r w hf
      simp only [Mem.follow, hcw'] at hf
      rw [hfr'] at hf
      rw [follow_append' hfol0]
      simpa only [Mem.follow, hcw] using hf
    have hnx : ∀ j r w, m'.follow ⟨some m.next, false, false⟩ (j :: r) = some w → w.ptr ≠ some m.next := by
      intro j r w hf e
      have hw := h.path_ok (hdown j r w hf)
      cases hd : w.data with
      | true => obtain ⟨l, hl, -⟩ := hw.of_data e hd; rw [hnn] at hl; cases hl
      | false => obtain ⟨c, hl⟩ := hw.of_inner e hd; rw [hnn] at hl; cases hl
    refine HSwung.inv hs h hat hc rfl ?_ ?_ (by intro _; rfl) hret ?_ ?_ ?_ hfroz
    · simp only [HWordOK]; exact ⟨_, hnm⟩
    · intro c' p e; cases e
      refine ⟨hq16, fun i => ?_⟩
      exact HSwung.hwordOK_mono hs (((h.nodeOK a c q hm).2 i).congr (by simp))
    · intro r w b hf hb
      cases r with
      | nil => simp [Mem.follow] at hf; subst hf; simp at hb; exact Or.inl ⟨rfl, hb.symm⟩
      | cons j r =>
        have h1 := hdown j r w hf
        have hf0 : m.follow w0 (j :: r) = some w := by rw [follow_append' hfol0] at h1; exact h1
        refine Or.inr ⟨?_, j :: r, w, hf0, hb⟩
        intro e; cases e
        have := h.path_unique hfol0 h1 hp hb
        simp at this
    · intro r w b hf hb
      cases r with
      | nil => simp [Mem.follow] at hf; subst hf; left; rw [← hb]; simpa using hp.symm
      | cons j r =>
        simp only [Mem.follow, hcw] at hf
        refine Or.inr ⟨j :: r, w, ?_, hb⟩
        simp only [Mem.follow, hcw']
        rw [hfr']; exact hf
    · intro r r' w1 w2 b h1 h2 h3 h4
      cases r with
      | nil =>
        have : b = m.next := by simp [Mem.follow] at h1; subst h1; simpa using h3.symm
        subst this
        cases r' with
        | nil => rfl
        | cons j r' => exact absurd h4 (hnx j r' w2 h2)
      | cons i r =>
        cases r' with
        | nil =>
          have : b = m.next := by simp [Mem.follow] at h2; subst h2; simpa using h4.symm
          subst this
          exact absurd h3 (hnx i r w1 h1)
        | cons j r' =>
          have := h.path_unique (hdown i r w1 h1) (hdown j r' w2 h2) h3 h4
          exact List.append_cancel_left this

theorem HSwung.evo (hs : Swung m m' loc w' new ret) (h : HMemInv m)
    (hat : m.At loc q w0) (hc : w0.cond = false) (hret : ∀ a, ret = some a → w0.ptr = some a) : Evo m m' where
  data := hs.data
  inner := by
    intro a c p hm
    refine ⟨_, hs.node a c p hm, fun i hi => ?_⟩
    have : loc ≠ .slot a i := by
      intro e; subst e
      obtain ⟨c2, p2, hm2, -, rfl⟩ := hat
      rw [hm] at hm2; cases hm2
      rw [hc] at hi; cases hi
    simp [this]
  retOld := by
    intro a τ hr
    rw [hs.retired]
    split
    · next e =>
      have := h.live q w0 a (h.at_follow hat hc) (hret a e)
      rw [hr] at this; cases this
    · exact hr
  retNew := by
    intro a τ hr hr'
    rw [hs.retired] at hr'
    split at hr'
    · cases hr'; rfl
    · rw [hr] at hr'; cases hr'
  clock := hs.clock
end
end Contrie
