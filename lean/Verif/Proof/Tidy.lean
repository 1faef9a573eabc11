import Verif.Proof.SerialExec
import Verif.Spec.Shape
/-
A tidy trie passes `assert_pruned` and has the canonical shape.
-/
set_option linter.unusedSectionVars false
namespace Contrie
variable {K P : Type} [DecidableEq K]
variable {cfg : Config K P} {A : Nat → AMap K P} {m : Mem P}

theorem hashStarts_iff {q : List (Fin 16)} {k : K} : HashStarts cfg q k ↔ q <+: nibs (cfg.hash k) := by
  constructor
  · rintro ⟨h1, h2⟩
    rw [List.prefix_iff_eq_take]
    apply List.ext_getElem
    · simp; omega
    · intro d hd hd'
      rw [h2 d hd, List.getElem_take, nibs_getElem]
  · intro h
    refine ⟨prefix_length_le h, ?_⟩
    intro d hd
    have h2 := h.length_le
    rw [h.getElem hd, nibs_getElem]

/-- Sum with one big or two non-zero terms. -/
theorem sum_two {f : Fin 16 → Nat} {i j : Fin 16} (hij : i ≠ j) (hi : 0 < f i) (hj : 0 < f j) :
    1 < ((List.finRange 16).map f).sum := by
  have h := List.sum_map_erase f (List.mem_finRange i)
  have h2 := List.sum_map_erase (l := (List.finRange 16).erase i) f (a := j)
    ((List.mem_erase_of_ne hij.symm).mpr (List.mem_finRange j))
  omega

theorem sum_one {f : Fin 16 → Nat} {i : Fin 16} (hi : 1 < f i) : 1 < ((List.finRange 16).map f).sum := by
  have h := List.sum_map_erase f (List.mem_finRange i)
  omega

theorem deref_live (h : MemInv cfg A m) {a : Nat} (ha : m.retired a = none) : m.deref a = m.mem a := by
  simp only [Mem.deref]
  cases hf : m.freed a with
  | false => simp
  | true => obtain ⟨τ, e⟩ := h.freedRet a hf; rw [ha] at e; cases e

/-- A key below a live cell that holds no inner node is in its data node. -/
theorem MemInv.under_item (h : MemInv cfg A m) {loc : Loc} {q : List (Fin 16)} {w : Word} (hat : m.At loc q w)
    (hl : LiveLoc m loc) (hin : ¬ w.isInner) {k : K} (hk : q <+: nibs (cfg.hash k)) {p : P} (hp : m.abs cfg k = some p) :
    ∃ b l, w.ptr = some b ∧ w.data = true ∧ m.mem b = some (.data l) ∧ p ∈ l ∧ cfg.key p = k := by
  cases hb : w.ptr with
  | none => rw [h.live_abs hat hl hk (leafVal_null hb)] at hp; cases hp
  | some b =>
    cases hd : w.data with
    | false => exact absurd ⟨by rw [hb]; simp, hd⟩ hin
    | true =>
      obtain ⟨l, h1, h2⟩ := (h.at_ok hat).of_data hb hd
      rw [h.live_abs hat hl hk (leafVal_data hb hd h1)] at hp
      exact ⟨b, l, rfl, rfl, h1, List.mem_of_find?_eq_some hp, by simpa using List.find?_some hp⟩

theorem next_nib {p : List (Fin 16)} {h : BitVec 64} (hp : p <+: nibs h) (hlt : p.length < 16) :
    ∃ i, p ++ [i] <+: nibs h := by
  have e := pre_of_prefix hp
  refine ⟨bitsAt h (LEVEL_BITS * p.length), ?_⟩
  have := pre_succ h hlt
  rw [← e] at this
  rw [← this]
  exact pre_prefix _ _

theorem tidy (hs : SInv cfg m noEx noCd) (h : MemInv cfg A m) (n : Nat) : ∀ (loc : Loc) (q : List (Fin 16)) (w : Word),
    16 - q.length ≤ n → m.At loc q w → LiveLoc m loc →
    HandlePtr m w ∧ ∃ T, HasShape m w T ∧ Canonical cfg (m.abs cfg) q T := by
  induction n with
  | zero =>
    intro loc q w hn hat hl
    have hclean := hs.cell_clean h hat hl
    have hlen := h.at_len hat
    have hq : q.length = 16 := by omega
    cases hb : w.ptr with
    | none =>
      refine ⟨.null hclean hb, .null, .null hb, ?_⟩
      intro k hk
      exact h.live_abs hat hl (hashStarts_iff.mp hk) (leafVal_null hb)
    | some b =>
      have hlive : m.retired b = none := h.live _ _ b (h.live_follow hat hl) hb
      cases hd : w.data with
      | false =>
        obtain ⟨c, h1⟩ := (h.at_ok hat).of_inner hb hd
        have := (h.nodeOK b c q h1).1
        omega
      | true =>
        obtain ⟨l, h1, h2⟩ := (h.at_ok hat).of_data hb hd
        have hder : m.deref b = some (.data l) := by rw [deref_live h hlive, h1]
        refine ⟨.data hclean hb hd hder h2.ne, .leaf l, .leaf hb hd hder, h2.ne, h2.nodup, Or.inr hq, ?_⟩
        intro p
        constructor
        · intro hp
          refine ⟨hashStarts_iff.mpr (h2.pre p hp), ?_⟩
          rw [h.live_abs hat hl (h2.pre p hp) (leafVal_data hb hd h1)]
          exact find_of_mem cfg.key h2.nodup hp
        · rintro ⟨g1, g2⟩
          obtain ⟨b', l', e1, e2, e3, e4, -⟩ := h.under_item hat hl (fun e => by have := e.2; rw [hd] at this; cases this)
            (hashStarts_iff.mp g1) g2
          rw [hb] at e1; cases e1; rw [h1] at e3; cases e3
          exact e4
  | succ n ih =>
    intro loc q w hn hat hl
    have hclean := hs.cell_clean h hat hl
    have hlen := h.at_len hat
    cases hb : w.ptr with
    | none =>
      refine ⟨.null hclean hb, .null, .null hb, ?_⟩
      intro k hk
      exact h.live_abs hat hl (hashStarts_iff.mp hk) (leafVal_null hb)
    | some b =>
      have hlive : m.retired b = none := h.live _ _ b (h.live_follow hat hl) hb
      cases hd : w.data with
      | true =>
        obtain ⟨l, h1, h2⟩ := (h.at_ok hat).of_data hb hd
        have hder : m.deref b = some (.data l) := by rw [deref_live h hlive, h1]
        refine ⟨.data hclean hb hd hder h2.ne, .leaf l, .leaf hb hd hder, h2.ne, h2.nodup, h2.short, ?_⟩
        intro p
        constructor
        · intro hp
          refine ⟨hashStarts_iff.mpr (h2.pre p hp), ?_⟩
          rw [h.live_abs hat hl (h2.pre p hp) (leafVal_data hb hd h1)]
          exact find_of_mem cfg.key h2.nodup hp
        · rintro ⟨g1, g2⟩
          obtain ⟨b', l', e1, e2, e3, e4, -⟩ := h.under_item hat hl (fun e => by have := e.2; rw [hd] at this; cases this)
            (hashStarts_iff.mp g1) g2
          rw [hb] at e1; cases e1; rw [h1] at e3; cases e3
          exact e4
      | false =>
        obtain ⟨c, h1⟩ := (h.at_ok hat).of_inner hb hd
        have hlt := (h.nodeOK b c q h1).1
        have hder : m.deref b = some (.inner c q) := by rw [deref_live h hlive, h1]
        have hati : ∀ i, m.At (.slot b i) (q ++ [i]) (c i) := fun i => ⟨c, q, h1, rfl, rfl⟩
        have hli : ∀ i, LiveLoc m (.slot b i) := fun i => hlive
        have hsub := fun i => ih (.slot b i) (q ++ [i]) (c i) (by simp; omega) (hati i) (hli i)
        have htwo : Two cfg (m.abs cfg) q := by
          rcases hs.two b c q h1 hlive with e | e
          · exact e
          · exact e.elim
        choose hh T hT hC using hsub
        refine ⟨.inner hclean hb hd hder hh ?_, .node T, .node hb hd hder hT, hlt, ?_, hC⟩
        · apply Classical.byContradiction
          intro hno
          simp only [not_or, not_exists] at hno
          obtain ⟨hno1, hno2⟩ := hno
          obtain ⟨k1, k2, hne, ⟨u1, v1⟩, ⟨u2, v2⟩⟩ := htwo
          obtain ⟨p1, v1⟩ := Option.ne_none_iff_exists'.mp v1
          obtain ⟨p2, v2⟩ := Option.ne_none_iff_exists'.mp v2
          obtain ⟨i1, u1⟩ := next_nib u1 hlt
          obtain ⟨i2, u2⟩ := next_nib u2 hlt
          obtain ⟨b1, l1, x1, x2, x3, x4, x5⟩ := h.under_item (hati i1) (hli i1) (hno2 i1) u1 v1
          obtain ⟨b2, l2, y1, y2, y3, y4, y5⟩ := h.under_item (hati i2) (hli i2) (hno2 i2) u2 v2
          have c1 : m.dataCnt (c i1) = l1.length := by
            have := h.live _ _ b1 (h.live_follow (hati i1) (hli i1)) x1
            simp [Mem.dataCnt, x1, x2, deref_live h this, x3]
          have c2 : m.dataCnt (c i2) = l2.length := by
            have := h.live _ _ b2 (h.live_follow (hati i2) (hli i2)) y1
            simp [Mem.dataCnt, y1, y2, deref_live h this, y3]
          apply hno1
          by_cases hi : i1 = i2
          · subst hi
            rw [x1] at y1; cases y1; rw [x3] at y3; cases y3
            refine sum_one (i := i1) ?_
            rw [c1]
            match l1, x4, y4 with
            | [], x4, _ => cases x4
            | [z], x4, y4 =>
              simp only [List.mem_singleton] at x4 y4
              exact absurd (by rw [← x5, ← y5, x4, y4]) hne
            | _ :: _ :: _, _, _ => simp
          · exact sum_two hi (by rw [c1]; exact List.length_pos_of_mem x4) (by rw [c2]; exact List.length_pos_of_mem y4)
        · obtain ⟨k1, k2, hne, ⟨u1, v1⟩, ⟨u2, v2⟩⟩ := htwo
          exact ⟨k1, k2, hne, hashStarts_iff.mpr u1, hashStarts_iff.mpr u2, v1, v2⟩

/-- The canonical shape is determined by the set of keys. -/
theorem Canonical.same {A B : AMap K P} (hA : ∀ k p, A k = some p → cfg.key p = k) (hB : ∀ k p, B k = some p → cfg.key p = k)
    (hAB : ∀ k, A k = none ↔ B k = none) {T T' : Shape P} : ∀ {q : List (Fin 16)}, Canonical cfg A q T →
      Canonical cfg B q T' → Shape.Same cfg.key T T' := by
  have leafNode : ∀ {A B : AMap K P} (hA : ∀ k p, A k = some p → cfg.key p = k)
      (hAB : ∀ k, A k = none ↔ B k = none) {l : List P} {ch : Fin 16 → Shape P} {q : List (Fin 16)},
      Canonical cfg A q (.leaf l) → Canonical cfg B q (.node ch) → False := by
    intro A B hA hAB l ch q h h'
    obtain ⟨h1, h2, h3, h4⟩ := h
    obtain ⟨g1, ⟨k, k', e1, e2, e3, e4, e5⟩, g3⟩ := h'
    have hlen : l.length = 1 := by rcases h3 with h | h <;> omega
    obtain ⟨p, hp⟩ := Option.ne_none_iff_exists'.mp (fun e => e4 ((hAB k).mp e))
    obtain ⟨p', hp'⟩ := Option.ne_none_iff_exists'.mp (fun e => e5 ((hAB k').mp e))
    have i1 := (h4 p).mpr ⟨by rw [hA k p hp]; exact e2, by rw [hA k p hp]; exact hp⟩
    have i2 := (h4 p').mpr ⟨by rw [hA k' p' hp']; exact e3, by rw [hA k' p' hp']; exact hp'⟩
    obtain ⟨z, rfl⟩ := List.length_eq_one_iff.mp hlen
    simp only [List.mem_singleton] at i1 i2
    exact e1 (by rw [← hA k p hp, ← hA k' p' hp', i1, i2])
  induction T generalizing T' with
  | null =>
    intro q h h'
    cases T' with
    | null => exact .null
    | leaf l =>
      obtain ⟨h1, -, -, h4⟩ := h'
      obtain ⟨p, hp⟩ := List.exists_mem_of_ne_nil l h1
      obtain ⟨e1, e2⟩ := (h4 p).mp hp
      rw [(hAB _).mp (h _ e1)] at e2; cases e2
    | node ch =>
      obtain ⟨-, ⟨k, k', -, e2, -, e4, -⟩, -⟩ := h'
      exact absurd ((hAB _).mp (h _ e2)) e4
  | leaf l =>
    intro q h h'
    cases T' with
    | null =>
      obtain ⟨h1, -, -, h4⟩ := h
      obtain ⟨p, hp⟩ := List.exists_mem_of_ne_nil l h1
      obtain ⟨e1, e2⟩ := (h4 p).mp hp
      rw [(hAB _).mpr (h' _ e1)] at e2; cases e2
    | leaf l' =>
      refine .leaf ?_
      obtain ⟨h1, h2, h3, h4⟩ := h
      obtain ⟨g1, g2, g3, g4⟩ := h'
      rw [List.perm_ext_iff_of_nodup h2 g2]
      have dir : ∀ {A B : AMap K P} (hB : ∀ k p, B k = some p → cfg.key p = k)
          (hAB : ∀ k, A k = none ↔ B k = none) {l l' : List P}
          (h4 : ∀ p, p ∈ l ↔ HashStarts cfg q (cfg.key p) ∧ A (cfg.key p) = some p)
          (g4 : ∀ p, p ∈ l' ↔ HashStarts cfg q (cfg.key p) ∧ B (cfg.key p) = some p) (k : K),
          k ∈ l.map cfg.key → k ∈ l'.map cfg.key := by
        intro A B hB hAB l l' h4 g4 k hk
        obtain ⟨p, hp, rfl⟩ := List.mem_map.mp hk
        obtain ⟨e1, e2⟩ := (h4 p).mp hp
        obtain ⟨p', hp'⟩ := Option.ne_none_iff_exists'.mp (show B (cfg.key p) ≠ none from fun e => by rw [(hAB _).mpr e] at e2; cases e2)
        have hk' := hB _ _ hp'
        refine List.mem_map.mpr ⟨p', (g4 p').mpr ⟨by rw [hk']; exact e1, by rw [hk']; exact hp'⟩, hk'⟩
      exact fun k => ⟨dir hB hAB h4 g4 k, dir hA (fun k => (hAB k).symm) g4 h4 k⟩
    | node ch => exact (leafNode hA hAB h h').elim
  | node ch ih =>
    intro q h h'
    cases T' with
    | null =>
      obtain ⟨-, ⟨k, k', -, e2, -, e4, -⟩, -⟩ := h
      exact absurd ((hAB _).mpr (h' _ e2)) e4
    | leaf l => exact (leafNode hB (fun k => (hAB k).symm) h' h).elim
    | node ch' => exact .node (fun i => ih i (h.2.2 i) (h'.2.2 i))

end Contrie
