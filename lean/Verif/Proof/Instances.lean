import Verif.Proof.Swing
/-
The successful CASes of the code: replacing a leaf, clearing a leaf, splitting a leaf, pruning an inner node.
-/
set_option linter.unusedSectionVars false
namespace Contrie
variable {K P : Type} [DecidableEq K]

/-- A word that ends every path: null or data. -/
def Word.isLeaf (w : Word) : Prop := w.ptr = none ∨ w.data = true

theorem Word.isLeaf.cellsOf {w : Word} (h : w.isLeaf) (m : Mem P) : m.cellsOf w = none := by
  simp only [Mem.cellsOf]
  rcases h with h | h
  · simp [h]
  · cases w.ptr <;> simp [h]

theorem Word.isLeaf.follow {w w1 : Word} (h : w.isLeaf) {m : Mem P} {r : List (Fin 16)}
    (hf : m.follow w r = some w1) : r = [] ∧ w1 = w.erase := by
  cases r with
  | nil => simp [Mem.follow] at hf; exact ⟨rfl, hf.symm⟩
  | cons i r => simp [Mem.follow, h.cellsOf m] at hf

theorem Word.isLeaf.look {w : Word} (h : w.isLeaf) {cfg : Config K P} {m : Mem P} {k : K} (ns : List (Fin 16)) :
    m.look cfg k w ns = (m.leafVal cfg k w).getD none := by
  cases ns with
  | nil => rfl
  | cons i ns => simp only [Mem.look, h.cellsOf m]; cases m.leafVal cfg k w <;> rfl

theorem isLeaf_null : Word.null.isLeaf := Or.inl rfl

section
variable {cfg : Config K P} {A : Nat → AMap K P} {m m' : Mem P} {loc : Loc} {q : List (Fin 16)} {w0 w' : Word}
  {new : Option (Node P)} {ret : Option Nat}

theorem leaf_not_inner (hw : WordOK cfg m w0 q) (hl : w0.isLeaf) {a : Nat} (hp : w0.ptr = some a)
    {c : Fin 16 → Word} {p : List (Fin 16)} (hm : m.mem a = some (.inner c p)) : False := by
  rcases hl with hl | hl
  · rw [hl] at hp; cases hp
  · obtain ⟨l, h1, -⟩ := hw.of_data hp hl
    rw [hm] at h1; cases h1

/-- A leaf is replaced by a fresh data node. -/
theorem MemInv.setLeaf (h : MemInv cfg A m) (hat : m.At loc q w0) (hA : A m.clock = m.abs cfg)
    (hc : w0.cond = false) (hl : w0.isLeaf) {l : List P} (hok : DataOK cfg l q)
    (hs : Swung m m' loc ⟨some m.next, false, true⟩ (some (.data l)) w0.ptr) :
    MemInv cfg A m' ∧ ∀ k, m'.abs cfg k =
      if q <+: nibs (cfg.hash k) then l.find? (fun x => decide (cfg.key x = k)) else m.abs cfg k := by
  have hnm : m'.mem m.next = some (.data l) := by
    rw [hs.fresh _ (h.fresh _ (Nat.le_refl _))]; simp
  have hl' : (⟨some m.next, false, true⟩ : Word).isLeaf := Or.inr rfl
  constructor
  · refine hs.inv h hat hA hc rfl ?_ ?_ ?_ ?_ ?_ ?_ ?_
    · simp only [WordOK]; exact ⟨l, hnm, hok⟩
    · intro c p e; cases e
    · intro _; rfl
    · intro a e; exact e
    · intro r w b hf hb
      obtain ⟨rfl, rfl⟩ := hl'.follow hf
      simp at hb
      exact Or.inl ⟨rfl, hb.symm⟩
    · intro r w b hf hb
      obtain ⟨rfl, rfl⟩ := hl.follow hf
      exact Or.inl (by simpa using hb)
    · intro a c p e hm
      exact (leaf_not_inner (h.at_ok hat) hl e hm).elim
  · intro k
    split
    · next hq =>
      obtain ⟨ns, hns⟩ := hq
      rw [hs.abs_at h hat hc rfl hns.symm, hl'.look, leafVal_data rfl rfl hnm]; rfl
    · next hq => exact hs.abs_frame h hat hq

/-- A leaf is replaced by null. -/
theorem MemInv.clearLeaf (h : MemInv cfg A m) (hat : m.At loc q w0) (hA : A m.clock = m.abs cfg)
    (hc : w0.cond = false) (hl : w0.isLeaf)
    (hs : Swung m m' loc Word.null none w0.ptr) :
    MemInv cfg A m' ∧ ∀ k, m'.abs cfg k =
      if q <+: nibs (cfg.hash k) then none else m.abs cfg k := by
  constructor
  · refine hs.inv h hat hA hc rfl ?_ ?_ ?_ ?_ ?_ ?_ ?_
    · exact WordOK.null _ _ _
    · intro c p e; cases e
    · intro e; cases e
    · intro a e; exact e
    · intro r w b hf hb
      obtain ⟨rfl, rfl⟩ := isLeaf_null.follow hf
      simp at hb
    · intro r w b hf hb
      obtain ⟨rfl, rfl⟩ := hl.follow hf
      exact Or.inl (by simpa using hb)
    · intro a c p e hm
      exact (leaf_not_inner (h.at_ok hat) hl e hm).elim
  · intro k
    split
    · next hq =>
      obtain ⟨ns, hns⟩ := hq
      rw [hs.abs_at h hat hc rfl hns.symm, isLeaf_null.look, leafVal_null rfl]; rfl
    · next hq => exact hs.abs_frame h hat hq

/-- A data node is pushed one level down. -/
theorem MemInv.split (h : MemInv cfg A m) (hat : m.At loc q w0) (hA : A m.clock = m.abs cfg)
    (hc : w0.cond = false) (hq : q.length < 16) {a : Nat} (hp : w0.ptr = some a) (hd : w0.data = true) {d0 : P}
    (hm : m.mem a = some (.data [d0]))
    (hs : Swung m m' loc ⟨some m.next, false, false⟩
      (some (.inner (upd (fun _ => Word.null) (bitsAt (cfg.hash (cfg.key d0)) (LEVEL_BITS * q.length)) w0) q)) none) :
    MemInv cfg A m' ∧ m'.abs cfg = m.abs cfg := by
  have hl : w0.isLeaf := Or.inr hd
  generalize hi : bitsAt (cfg.hash (cfg.key d0)) (LEVEL_BITS * q.length) = i at hs
  generalize hcells : upd (fun _ : Fin 16 => Word.null) i w0 = cells at hs
  have hci : cells i = w0 := by simp [← hcells]
  have hcj : ∀ j, j ≠ i → cells j = Word.null := by intro j hj; simp [← hcells, upd_other _ _ hj]
  have hnm : m'.mem m.next = some (.inner cells q) := by
    rw [hs.fresh _ (h.fresh _ (Nat.le_refl _))]; simp
  obtain ⟨l, hl1, hlok⟩ := (h.at_ok hat).of_data hp hd
  rw [hm] at hl1; cases hl1
  have hpre := hlok.pre d0 (by simp)
  have hpre' : q ++ [i] <+: nibs (cfg.hash (cfg.key d0)) := by
    have h1 : q = pre (cfg.hash (cfg.key d0)) q.length := pre_of_prefix hpre
    have h2 : q ++ [i] = pre (cfg.hash (cfg.key d0)) (q.length + 1) := by
      rw [pre_succ _ hq, hi, ← h1]
    rw [h2]; exact pre_prefix _ _
  have hcw : m'.cellsOf ⟨some m.next, false, false⟩ = some cells := cellsOf_inner rfl rfl hnm
  have hcases : ∀ r w b, m'.follow ⟨some m.next, false, false⟩ r = some w → w.ptr = some b →
      b = m.next ∨ (w0.ptr = some b) := by
    intro r w b hf hb
    cases r with
    | nil => simp [Mem.follow] at hf; subst hf; simp at hb; exact Or.inl hb.symm
    | cons j r =>
      simp only [Mem.follow, hcw] at hf
      by_cases hj : j = i
      · subst hj
        rw [hci] at hf
        obtain ⟨rfl, rfl⟩ := hl.follow hf
        exact Or.inr (by simpa using hb)
      · rw [hcj j hj] at hf
        obtain ⟨rfl, rfl⟩ := isLeaf_null.follow hf
        simp at hb
  constructor
  · refine hs.inv h hat hA hc rfl ?_ ?_ ?_ ?_ ?_ ?_ ?_
    · simp only [WordOK]; exact ⟨_, hnm⟩
    · intro c p e; cases e
      refine ⟨hq, fun j => ?_⟩
      by_cases hj : j = i
      · subst hj
        rw [hci]
        simp only [WordOK, hp, hd, if_true]
        refine ⟨[d0], hs.data a _ hm, ⟨by simp, ?_, by simp, Or.inl rfl⟩⟩
        intro x hx; simp at hx; subst hx; exact hpre'
      · rw [hcj j hj]; exact WordOK.null _ _ _
    · intro _; rfl
    · intro a e; cases e
    · intro r w b hf hb
      rcases hcases r w b hf hb with hx | hx
      · exact Or.inl ⟨rfl, hx⟩
      · exact Or.inr ⟨by simp, [], w0.erase, rfl, by simpa using hx⟩
    · intro r w b hf hb
      obtain ⟨rfl, rfl⟩ := hl.follow hf
      refine Or.inr ⟨[i], w0.erase, ?_, hb⟩
      simp [Mem.follow, hcw, hci]
    · intro a c p e; cases e
  · funext k
    by_cases hk : q <+: nibs (cfg.hash k)
    · obtain ⟨ns, hns⟩ := hk
      rw [hs.abs_at h hat hc rfl hns.symm, h.abs_at hat hc hns.symm, hl.look, leafVal_data hp hd hm]
      cases ns with
      | nil => have := congrArg List.length hns; simp at this; omega
      | cons j ns =>
        simp only [Mem.look, leafVal_inner (cfg := cfg) (m := m') (k := k) (w := ⟨some m.next, false, false⟩) rfl rfl, hcw]
        by_cases hj : j = i
        · subst hj
          rw [hci, hl.look, leafVal_data hp hd (hs.data a _ hm)]
        · rw [hcj j hj, isLeaf_null.look, leafVal_null rfl]
          have hne : cfg.key d0 ≠ k := by
            intro e
            subst e
            have h1 : q ++ [i] <+: q ++ j :: ns := by rw [hns]; exact hpre'
            obtain ⟨t, ht⟩ := h1
            simp at ht
            exact hj ht.1.symm
          simp [hne]
    · exact hs.abs_frame h hat hk

/-- What pruning may put in place of a fully condemned inner node with cells `c`. -/
inductive PruneOK (m : Mem P) (q : List (Fin 16)) (c : Fin 16 → Word) : Word → Option (Node P) → Prop
  | null (hn : ∀ i, (c i).ptr = none) : PruneOK m q c Word.null none
  | single (i : Fin 16) (b : Nat) (d : P) (hp : (c i).ptr = some b) (hd : (c i).data = true)
      (hm : m.mem b = some (.data [d])) (hn : ∀ j, j ≠ i → (c j).ptr = none) : PruneOK m q c (c i).erase none
  | copy : PruneOK m q c ⟨some m.next, false, false⟩ (some (.inner (fun i => (c i).erase) q))

/-- An inner node is pruned. -/
theorem MemInv.pruned (h : MemInv cfg A m) (hat : m.At loc q w0) (hA : A m.clock = m.abs cfg)
    (hc : w0.cond = false) {a : Nat} (hp : w0.ptr = some a) (hd : w0.data = false) {c : Fin 16 → Word}
    (hm : m.mem a = some (.inner c q)) (hfr : ∀ i, (c i).cond = true)
    (hok : PruneOK m q c w' new)
    (hs : Swung m m' loc w' new (some a)) :
    MemInv cfg A m' ∧ m'.abs cfg = m.abs cfg := by
  have hq16 := (h.nodeOK a c q hm).1
  have hcw : m.cellsOf w0 = some c := cellsOf_inner hp hd hm
  have hret : ∀ b, some a = some b → w0.ptr = some b := by intro b e; cases e; exact hp
  have hfroz : ∀ b c' p, some a = some b → m.mem b = some (.inner c' p) → ∀ i, (c' i).cond = true := by
    intro b c' p e hb; cases e; rw [hm] at hb; cases hb; exact hfr
  have hlook : ∀ k ns, nibs (cfg.hash k) = q ++ ns → ∃ j ns', ns = j :: ns' ∧
      m.abs cfg k = m.look cfg k (c j) ns' := by
    intro k ns hns
    cases ns with
    | nil => have := congrArg List.length hns; simp at this; omega
    | cons j ns' =>
      refine ⟨j, ns', rfl, ?_⟩
      rw [h.abs_at hat hc hns]
      simp only [Mem.look, leafVal_inner hp hd, hcw]
  cases hok with
  | null hn =>
    constructor
    · refine hs.inv h hat hA hc rfl (WordOK.null _ _ _) (by intro c p e; cases e) (by intro e; cases e) hret ?_ ?_ hfroz
      · intro r w b hf hb
        obtain ⟨rfl, rfl⟩ := isLeaf_null.follow hf
        simp at hb
      · intro r w b hf hb
        cases r with
        | nil => simp [Mem.follow] at hf; subst hf; left; rw [← hb]; simpa using hp.symm
        | cons j r =>
          simp only [Mem.follow, hcw] at hf
          obtain ⟨rfl, rfl⟩ := (show (c j).isLeaf from Or.inl (hn j)).follow hf
          simp [hn j] at hb
    · funext k
      by_cases hk : q <+: nibs (cfg.hash k)
      · obtain ⟨ns, hns⟩ := hk
        obtain ⟨j, ns', rfl, he⟩ := hlook k ns hns.symm
        rw [hs.abs_at h hat hc rfl hns.symm, he, isLeaf_null.look, (show (c j).isLeaf from Or.inl (hn j)).look,
          leafVal_null rfl, leafVal_null (hn j)]
      · exact hs.abs_frame h hat hk
  | single i b d hpi hdi hmb hn =>
    have hli : (c i).isLeaf := Or.inr hdi
    have hli' : (c i).erase.isLeaf := Or.inr hdi
    have hciok := (h.nodeOK a c q hm).2 i
    obtain ⟨l, hl1, hlok⟩ := hciok.of_data hpi hdi
    rw [hmb] at hl1; cases hl1
    have hpre : q ++ [i] <+: nibs (cfg.hash (cfg.key d)) := hlok.pre d (by simp)
    constructor
    · refine hs.inv h hat hA hc rfl ?_ (by intro c p e; cases e) (by intro e; cases e) hret ?_ ?_ hfroz
      · simp only [WordOK, erase_ptr, erase_data, hpi, hdi, if_true]
        refine ⟨[d], hs.data b _ hmb, ⟨by simp, ?_, by simp, Or.inl rfl⟩⟩
        intro x hx; simp at hx; subst hx
        exact (List.prefix_append q [i]).trans hpre
      · intro r w b' hf hb
        obtain ⟨rfl, rfl⟩ := hli'.follow hf
        simp [hpi] at hb; subst hb
        refine Or.inr ⟨?_, [i], (c i).erase, ?_, by simpa using hpi⟩
        · intro e; cases e; rw [hm] at hmb; cases hmb
        · simp [Mem.follow, hcw]
      · intro r w b' hf hb
        cases r with
        | nil => simp [Mem.follow] at hf; subst hf; left; rw [← hb]; simpa using hp.symm
        | cons j r =>
          simp only [Mem.follow, hcw] at hf
          by_cases hj : j = i
          · subst hj
            obtain ⟨rfl, rfl⟩ := hli.follow hf
            exact Or.inr ⟨[], (c j).erase, by simp [Mem.follow], hb⟩
          · obtain ⟨rfl, rfl⟩ := (show (c j).isLeaf from Or.inl (hn j hj)).follow hf
            simp [hn j hj] at hb
    · funext k
      by_cases hk : q <+: nibs (cfg.hash k)
      · obtain ⟨ns, hns⟩ := hk
        obtain ⟨j, ns', rfl, he⟩ := hlook k ns hns.symm
        rw [hs.abs_at h hat hc rfl hns.symm, he, hli'.look]
        rw [leafVal_data (w := (c i).erase) hpi hdi (hs.data b _ hmb)]
        by_cases hj : j = i
        · subst hj
          rw [hli.look, leafVal_data hpi hdi hmb]
        · rw [(show (c j).isLeaf from Or.inl (hn j hj)).look, leafVal_null (hn j hj)]
          have hne : cfg.key d ≠ k := by
            intro e; subst e
            have h1 : q ++ [i] <+: q ++ j :: ns' := by rw [hns]; exact hpre
            obtain ⟨t, ht⟩ := h1
            simp at ht
            exact hj ht.1.symm
          simp [hne]
      · exact hs.abs_frame h hat hk
  | copy =>
    have hnm : m'.mem m.next = some (.inner (fun i => (c i).erase) q) := by
      rw [hs.fresh _ (h.fresh _ (Nat.le_refl _))]; simp
    have hcw' : m'.cellsOf ⟨some m.next, false, false⟩ = some (fun i => (c i).erase) := cellsOf_inner rfl rfl hnm
    have hfr' : ∀ j r, m'.follow (c j).erase r = m.follow (c j) r := by
      intro j r
      rw [follow_congr (w' := c j) (by simp)]
      exact hs.follow_frame h hat ((h.nodeOK a c q hm).2 j) (by simp)
    have hfol0 := h.at_follow hat hc
    constructor
    · refine hs.inv h hat hA hc rfl ?_ ?_ (by intro _; rfl) hret ?_ ?_ hfroz
      · simp only [WordOK]; exact ⟨_, hnm⟩
      · intro c' p e; cases e
        refine ⟨hq16, fun i => ?_⟩
        exact hs.wordOK_mono (((h.nodeOK a c q hm).2 i).congr (by simp))
      · intro r w b hf hb
        cases r with
        | nil => simp [Mem.follow] at hf; subst hf; simp at hb; exact Or.inl ⟨rfl, hb.symm⟩
        | cons j r =>
          simp only [Mem.follow, hcw'] at hf
          rw [hfr'] at hf
          have hf0 : m.follow w0 (j :: r) = some w := by simpa only [Mem.follow, hcw] using hf
          refine Or.inr ⟨?_, j :: r, w, hf0, hb⟩
          intro e; cases e
          have h1 : m.follow m.root (q ++ j :: r) = some w := by rw [follow_append' hfol0]; exact hf0
          have := h.path_unique hfol0 h1 hp hb
          simp at this
      · intro r w b hf hb
        cases r with
        | nil => simp [Mem.follow] at hf; subst hf; left; rw [← hb]; simpa using hp.symm
        | cons j r =>
          simp only [Mem.follow, hcw] at hf
          refine Or.inr ⟨j :: r, w, ?_, hb⟩
          simp only [Mem.follow, hcw']
          rw [hfr']; exact hf
    · funext k
      by_cases hk : q <+: nibs (cfg.hash k)
      · obtain ⟨ns, hns⟩ := hk
        obtain ⟨j, ns', rfl, he⟩ := hlook k ns hns.symm
        rw [hs.abs_at h hat hc rfl hns.symm, he]
        simp only [Mem.look, leafVal_inner (cfg := cfg) (m := m') (k := k) (w := ⟨some m.next, false, false⟩) rfl rfl, hcw']
        rw [look_congr (w' := c j) (by simp)]
        exact hs.look_frame h hat ((h.nodeOK a c q hm).2 j) (by simp)
      · exact hs.abs_frame h hat hk
end
end Contrie
