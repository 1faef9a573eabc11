import Verif.Proof.CohTick
import Verif.Proof.CohCmp
/-
Iteration that may see old values: key by key, it is like a lookup.
-/
set_option linter.unusedSectionVars false
namespace Contrie
variable {K P : Type} [DecidableEq K]

/-- The elements of a list with key `k`. -/
def ofKey (cfg : Config K P) (k : K) (l : List P) : List P := l.filter (fun p => decide (cfg.key p = k))

/-- How far has the iterator got with key `k`? `S k v`: it has seen that the value of `k` is `v`. -/
inductive CIterK (cfg : Config K P) (m : Mem P) (S : K → Option P → Prop) (lv : List (Word × Nat))
    (qs : List (List (Fin 16))) (out : List P) (k : K) : Prop
  | ahead (ha : Ahead lv qs (nibs (cfg.hash k))) (ho : ofKey cfg k out = [])
  | top (w : Word) (idx : Nat) (rest : List (Word × Nat)) (q : List (Fin 16)) (qs' : List (List (Fin 16)))
      (hlv : lv = (w, idx) :: rest) (hqs : qs = q :: qs') (hq : q <+: nibs (cfg.hash k)) (v : Option P) (hs : S k v)
      (hv : m.leafVal cfg k w = some v) (h0 : w.ptr = none → ofKey cfg k out = [])
      (ho : ∀ items, TopItems m w items → ofKey cfg k out = ofKey cfg k (items.take idx))
  | done (v : Option P) (hs : S k v) (ho : ofKey cfg k out = v.toList) (hna : ¬ Ahead lv qs (nibs (cfg.hash k)))
      (hnt : ∀ w idx rest q qs', lv = (w, idx) :: rest → qs = q :: qs' → w.isLeaf → ¬ q <+: nibs (cfg.hash k))

structure CIter (cfg : Config K P) (m : Mem P) (S : K → Option P → Prop) (lv : List (Word × Nat))
    (qs : List (List (Fin 16))) (out : List P) : Prop where
  stack : StackOK cfg m 0 lv qs
  key : ∀ k, CIterK cfg m S lv qs out k

section
variable {cfg : Config K P} {A : Nat → AMap K P} {m mw : Mem P} {ℓ : Loc} {w : Word} {c : Call K P}
  {S S' : K → Option P → Prop} {lv : List (Word × Nat)} {qs : List (List (Fin 16))} {out : List P}

theorem leafVal_leaf {k : K} {w : Word} {v : Option P} (h : m.leafVal cfg k w = some v) : w.isLeaf := by
  rcases leaf_or_inner w with h1 | ⟨a, h1, h2⟩
  · exact h1
  · simp [Mem.leafVal, h1, h2] at h

theorem leafVal_of_leaf {k : K} {w : Word} {q : List (Fin 16)} (hw : w.isLeaf) (hok : WordOK cfg m w q) :
    ∃ v, m.leafVal cfg k w = some v := by
  cases hp : w.ptr with
  | none => exact ⟨_, leafVal_null hp⟩
  | some a =>
    rcases hw with h | h
    · rw [hp] at h; cases h
    · obtain ⟨l, h1, -⟩ := hok.of_data hp h
      exact ⟨_, leafVal_data hp h h1⟩

theorem leafVal_evo {m' : Mem P} {k : K} {w : Word} {v : Option P} {q : List (Fin 16)} (hok : WordOK cfg m w q) (he : Evo m m')
    (h : m.leafVal cfg k w = some v) : m'.leafVal cfg k w = some v := by
  cases hp : w.ptr with
  | none => rw [leafVal_null hp] at h ⊢; exact h
  | some a =>
    rcases leafVal_leaf h with h1 | h1
    · rw [hp] at h1; cases h1
    · obtain ⟨l, h2, -⟩ := hok.of_data hp h1
      rw [leafVal_data hp h1 h2] at h
      rw [leafVal_data hp h1 (he.data _ _ h2)]
      exact h

theorem CIter.evo {m' : Mem P} (h : CIter cfg m S lv qs out) (he : Evo m m') (hS : ∀ k v, S k v → S' k v) :
    CIter cfg m' S' lv qs out where
  stack := h.stack.evo he (Nat.zero_le _)
  key := by
    intro k
    cases h.key k with
    | ahead ha ho => exact .ahead ha ho
    | top w idx rest q qs' hlv hqs hq v hs hv h0 ho =>
      have hst := h.stack
      rw [hlv] at hst
      obtain ⟨q1, qs1, e, hok, -⟩ := hst.word
      refine .top w idx rest q qs' hlv hqs hq v (hS _ _ hs) (leafVal_evo hok he hv) h0 ?_
      intro items ht
      refine ho items ?_
      obtain ⟨hd, a, hp, hm⟩ := ht
      refine ⟨hd, a, hp, ?_⟩
      obtain ⟨l, hl, -⟩ := hok.of_data hp hd
      rw [he.data a l hl] at hm; cases hm; exact hl
    | done v hs ho hna hnt => exact .done v (hS _ _ hs) ho hna hnt

theorem CIter.mono (h : CIter cfg m S lv qs out) (hS : ∀ k v, S k v → S' k v) : CIter cfg m S' lv qs out where
  stack := h.stack
  key := by
    intro k
    cases h.key k with
    | ahead ha ho => exact .ahead ha ho
    | top w idx rest q qs' hlv hqs hq v hs hv h0 ho => exact .top w idx rest q qs' hlv hqs hq v (hS _ _ hs) hv h0 ho
    | done v hs ho hna hnt => exact .done v (hS _ _ hs) ho hna hnt

theorem ofKey_append (k : K) (l l' : List P) : ofKey cfg k (l ++ l') = ofKey cfg k l ++ ofKey cfg k l' := by
  simp [ofKey]

theorem ofKey_find {k : K} {l : List P} (hn : (l.map cfg.key).Nodup) :
    ofKey cfg k l = (l.find? (fun p => decide (cfg.key p = k))).toList := by
  induction l with
  | nil => rfl
  | cons x l ih =>
    simp only [List.map_cons, List.nodup_cons] at hn
    by_cases e : cfg.key x = k
    · have : ofKey cfg k l = [] := by
        simp only [ofKey, List.filter_eq_nil_iff]
        intro y hy h
        have h' : cfg.key y = k := by simpa using h
        exact hn.1 (by rw [e, ← h']; exact List.mem_map_of_mem hy)
      simp only [ofKey] at this
      simp [ofKey, e, this]
    · have := ih hn.2
      simp only [ofKey] at this
      simp [ofKey, e, this]

/-- The top of the stack is exhausted. -/
theorem CIter.pop {w : Word} {idx : Nat} (h : CIter cfg m S ((w, idx) :: lv) qs out)
    (hex : (w.ptr ≠ none ∧ w.data = false) → 16 ≤ idx)
    (hleaf : ∀ items, TopItems m w items → items.length ≤ idx) :
    CIter cfg m S lv qs.tail out := by
  obtain ⟨hst, hinner⟩ := h.stack.pop
  obtain ⟨q, qs', rfl, hw, -⟩ := h.stack.word
  simp only [List.tail_cons] at hst ⊢
  refine ⟨hst, ?_⟩
  intro k
  have nt : ∀ w1 idx1 rest q1 qs1, lv = (w1, idx1) :: rest → qs' = q1 :: qs1 → w1.isLeaf → ¬ q1 <+: nibs (cfg.hash k) := by
    intro w1 i1 rest q1 qs1 e1 e2 hl
    exact (leaf_not_both hl (hinner w1 i1 rest e1)).elim
  cases h.key k with
  | ahead ha ho =>
    rcases Ahead.cons.mp ha with ⟨hin, j, hj, -⟩ | h2
    · have := hex hin; omega
    · exact .ahead h2 ho
  | top w1 idx1 rest q1 qs1 hlv hqs hq v hs hv h0 ho =>
    cases hlv; cases hqs
    refine .done v hs ?_ (h.stack.not_ahead hq) nt
    cases hp : w.ptr with
    | none =>
      rw [leafVal_null hp] at hv; cases hv
      exact h0 hp
    | some a =>
      rcases leafVal_leaf hv with h1 | h1
      · rw [hp] at h1; cases h1
      · obtain ⟨l, h2, h3⟩ := hw.of_data hp h1
        have ht : TopItems m w l := ⟨h1, a, hp, h2⟩
        rw [ho l ht, List.take_of_length_le (hleaf l ht), ofKey_find h3.nodup]
        rw [leafVal_data hp h1 h2] at hv
        cases hv; rfl
  | done v hs ho hna hnt =>
    exact .done v hs ho (fun ha => hna (Ahead.cons.mpr (Or.inr ha))) nt

/-- A pair is yielded. -/
theorem CIter.yield {w : Word} {idx : Nat} (h : CIter cfg m S ((w, idx) :: lv) qs out) {items : List P}
    (ht : TopItems m w items) {p : P} (hp : items[idx]? = some p) : CIter cfg m S ((w, idx + 1) :: lv) qs (out ++ [p]) := by
  obtain ⟨q, qs', rfl, hw, -⟩ := h.stack.word
  have hdok := ht.ok hw
  have hleaf : w.isLeaf := Or.inr ht.1
  have hmem : p ∈ items := List.mem_of_getElem? hp
  have hq : q <+: nibs (cfg.hash (cfg.key p)) := hdok.pre p hmem
  have hne : ∀ k, cfg.key p ≠ k → ofKey cfg k (out ++ [p]) = ofKey cfg k out := by
    intro k hk; simp [ofKey, hk]
  refine ⟨h.stack.setIdx _, ?_⟩
  intro k
  cases h.key k with
  | ahead ha ho =>
    rcases Ahead.cons.mp ha with ⟨hin, -⟩ | h2
    · exact (leaf_not_both hleaf hin).elim
    · refine .ahead (Ahead.cons.mpr (Or.inr h2)) ?_
      rw [hne k, ho]
      intro e; subst e
      exact h.stack.not_ahead hq h2
  | top w1 idx1 rest q1 qs1 hlv hqs hq1 v hs hv h0 ho =>
    cases hlv; cases hqs
    refine .top w (idx + 1) _ q _ rfl rfl hq1 v hs hv ?_ ?_
    · intro hn
      obtain ⟨-, a, h1, -⟩ := ht
      rw [hn] at h1; cases h1
    · intro items' ht'
      have := ht'.unique ht; subst this
      rw [ofKey_append, ho items' ht, List.take_add_one, hp, ofKey_append]
      rfl
  | done v hs ho hna hnt =>
    have hk : cfg.key p ≠ k := by
      intro e; subst e
      exact hnt w idx lv q qs' rfl rfl hleaf hq
    refine .done v hs (by rw [hne k hk]; exact ho) ?_ ?_
    · intro ha
      rcases Ahead.cons.mp ha with ⟨hin, -⟩ | h2
      · exact leaf_not_both hleaf hin
      · exact hna (Ahead.cons.mpr (Or.inr h2))
    · intro w1 i1 rest q1 qs1 e1 e2 hl
      cases e1; cases e2
      exact hnt w idx lv q qs' rfl rfl hl

/-- A word just loaded: either there is something below, or it tells the value. -/
theorem fresh_word (h : MemInv cfg A m) {w : Word} {q : List (Fin 16)} (hok : WordOK cfg m w q) {k : K}
    (hq : q <+: nibs (cfg.hash k)) (hS : ∀ v, m.leafVal cfg k w = some v → S k v) :
    ((w.ptr ≠ none ∧ w.data = false) ∧ ∃ j, q ++ [j] <+: nibs (cfg.hash k)) ∨
    ∃ v, S k v ∧ m.leafVal cfg k w = some v := by
  rcases leaf_or_inner w with hl | ⟨a, hp, hd⟩
  · obtain ⟨v, hv⟩ := leafVal_of_leaf (cfg := cfg) (k := k) hl hok
    exact Or.inr ⟨v, hS v hv, hv⟩
  · left
    refine ⟨⟨by rw [hp]; simp, hd⟩, ?_⟩
    obtain ⟨cs, h1⟩ := hok.of_inner hp hd
    have hlen := (h.nodeOK a cs q h1).1
    obtain ⟨ns, hns⟩ := hq
    cases ns with
    | nil => have := congrArg List.length hns; simp at this; omega
    | cons j ns => exact ⟨j, ns, by rw [← hns]; simp⟩

theorem CIter.start (h : MemInv cfg A m) {w : Word} (hok : WordOK cfg m w [])
    (hS : ∀ k v, m.leafVal cfg k w = some v → S k v) : CIter cfg m S [(w, 0)] [[]] [] where
  stack := .root _ _ hok (fun _ hp => held_word hok hp)
  key := by
    intro k
    rcases fresh_word h hok (k := k) List.nil_prefix (hS k) with ⟨h1, j, hj⟩ | ⟨v, h1, h2⟩
    · exact .ahead (Ahead.cons.mpr (Or.inl ⟨h1, j, Nat.zero_le _, hj⟩)) rfl
    · exact .top w 0 [] [] [] rfl rfl List.nil_prefix v h1 h2 (fun _ => rfl) (fun _ _ => rfl)

/-- A child is entered. -/
theorem CIter.enter (h : MemInv cfg A m) {w : Word} {idx : Nat} {q : List (Fin 16)}
    (hi : CIter cfg m S ((w, idx) :: lv) (q :: qs) out) (hin : w.ptr ≠ none ∧ w.data = false) (h16 : idx < 16)
    {w' : Word} (hok : WordOK cfg m w' (q ++ [⟨idx, h16⟩]))
    (hS : ∀ k v, q ++ [⟨idx, h16⟩] <+: nibs (cfg.hash k) → m.leafVal cfg k w' = some v → S k v) :
    CIter cfg m S ((w', 0) :: (w, idx + 1) :: lv) ((q ++ [⟨idx, h16⟩]) :: q :: qs) out := by
  refine ⟨.push w' 0 w ⟨idx, h16⟩ q lv qs (hi.stack.setIdx _) hin hok (fun _ hp => held_word hok hp), ?_⟩
  intro k
  cases hi.key k with
  | ahead ha ho =>
    by_cases hq : q ++ [⟨idx, h16⟩] <+: nibs (cfg.hash k)
    · rcases fresh_word h hok hq (hS k · hq) with ⟨h1, j, hj⟩ | ⟨v, h1, h2⟩
      · exact .ahead (Ahead.cons.mpr (Or.inl ⟨h1, j, Nat.zero_le _, hj⟩)) ho
      · exact .top w' 0 _ _ _ rfl rfl hq v h1 h2 (fun _ => ho) (fun _ _ => by rw [ho]; rfl)
    · refine .ahead ?_ ho
      rcases Ahead.cons.mp ha with ⟨-, j, hj, hjn⟩ | h2
      · refine Ahead.cons.mpr (Or.inr (Ahead.cons.mpr (Or.inl ⟨hin, j, ?_, hjn⟩)))
        apply Classical.byContradiction
        intro hlt
        have : j = ⟨idx, h16⟩ := Fin.ext (by simp only; omega)
        subst this
        exact hq hjn
      · exact Ahead.cons.mpr (Or.inr (Ahead.cons.mpr (Or.inr h2)))
  | top w1 idx1 rest q1 qs1 hlv hqs hq1 v hs hv h0 ho =>
    cases hlv
    exact (leaf_not_both (leafVal_leaf hv) hin).elim
  | done v hs ho hna hnt =>
    have hq : ¬ q ++ [⟨idx, h16⟩] <+: nibs (cfg.hash k) := fun hq =>
      hna (Ahead.cons.mpr (Or.inl ⟨hin, ⟨idx, h16⟩, Nat.le_refl _, hq⟩))
    refine .done v hs ho ?_ ?_
    · intro ha
      rcases Ahead.cons.mp ha with ⟨-, j, -, hj⟩ | ha
      · exact hq ((List.prefix_append _ [j]).trans hj)
      · rcases Ahead.cons.mp ha with ⟨-, j, hj, hjn⟩ | ha
        · exact hna (Ahead.cons.mpr (Or.inl ⟨hin, j, by omega, hjn⟩))
        · exact hna (Ahead.cons.mpr (Or.inr ha))
    · intro w1 i1 rest q1 qs1 e1 e2 _
      cases e1; cases e2
      exact hq

/-- What a step of the iterator leaves. -/
def QIter (cfg : Config K P) (m : Mem P) (S : K → Option P → Prop) (out : List P) : Next K P → Prop
  | .goto (.iterNext lv' out') ran => ran = false ∧ ∃ qs', CIter cfg m S lv' qs' out'
  | .goto _ _ => False
  | .ret r refs => refs = [] ∧ r = .list out ∧ ∀ k, ∃ v, S k v ∧ ofKey cfg k out = v.toList
  | .fail _ => False

theorem qTickIterNext (h : MemInv cfg A m) (hi : CIter cfg m S lv qs out)
    (hfree : ∀ a, m.freed a = false) (hload : ∀ w', mw.loadData w' = m.loadData w')
    (hr : ∀ ℓ o, (PC.iterNext lv out : PC K P).access .code = some (ℓ, o) → ∃ w, mw.read ℓ = some w ∧
      (∀ q, LocAt m 0 ℓ q → WordOK cfg m w q) ∧
      ∀ q k v, LocAt m 0 ℓ q → q <+: nibs (cfg.hash k) → m.leafVal cfg k w = some v → S k v) :
    QIter cfg m S out (tickIterNext mw lv out : Next K P) := by
  cases lv with
  | nil =>
    refine ⟨rfl, rfl, ?_⟩
    intro k
    cases hi.key k with
    | ahead ha ho => obtain ⟨x, hx, -⟩ := ha; cases hx
    | top w1 idx1 rest q1 qs1 hlv hqs hq1 v hs hv h0 ho => cases hlv
    | done v hs ho hna hnt => exact ⟨v, hs, ho⟩
  | cons y rest =>
    obtain ⟨w1, idx⟩ := y
    obtain ⟨q, qs', rfl, hok, hheld, hlen⟩ := hi.stack.word
    simp only [tickIterNext]
    cases hp : w1.ptr with
    | none =>
      refine ⟨rfl, _, hi.pop ?_ ?_⟩
      · intro hin; exact absurd hp hin.1
      · rintro items ⟨-, a, h1, -⟩; rw [hp] at h1; cases h1
    | some a =>
      simp only
      cases hd : w1.data with
      | true =>
        obtain ⟨items, h1, h2⟩ := hok.of_data hp hd
        have ht : TopItems m w1 items := ⟨hd, a, hp, h1⟩
        have hl : mw.loadData w1 = .ok items := by
          rw [hload]; simp [Mem.loadData, hd, hp, Mem.deref, hfree a, h1]
        simp only [if_true, hl]
        cases hg : items[idx]? with
        | some p => exact ⟨rfl, _, hi.yield ht hg⟩
        | none =>
          refine ⟨rfl, _, hi.pop ?_ ?_⟩
          · intro hin; rw [hd] at hin; cases hin.2
          · intro items' ht'
            have := ht'.unique ht; subst this
            exact List.getElem?_eq_none_iff.mp hg
      | false =>
        simp only [Bool.false_eq_true, if_false]
        obtain ⟨cs, hm⟩ := hok.of_inner hp hd
        have hq16 := (h.nodeOK a cs q hm).1
        split
        · next hidx =>
          have hacc : PC.access (K := K) .code (.iterNext ((w1, idx) :: rest) out) = some (.slot a ⟨idx, hidx⟩, Orders.code.iter) := by
            simp [PC.access, hp, hd, hidx]
          obtain ⟨w', hr1, hr2, hr3⟩ := hr _ _ hacc
          have hloc : LocAt m 0 (.slot a ⟨idx, hidx⟩) (q ++ [⟨idx, hidx⟩]) :=
            ⟨cs, q, hm, rfl, held_zero (by rw [hm]; simp)⟩
          have hml : ¬ MAX_LEVELS + 1 ≤ ((w1, idx) :: rest).length := by
            simp [MAX_LEVELS, LEVEL_BITS]; omega
          simp only [hr1, hml, if_false]
          exact ⟨rfl, _, hi.enter h ⟨by rw [hp]; simp, hd⟩ hidx (hr2 _ hloc) (fun k v hq hv => hr3 _ k v hloc hq hv)⟩
        · next hidx =>
          refine ⟨rfl, _, hi.pop ?_ ?_⟩
          · intro _; omega
          · intro items ht; have := ht.1; rw [hd] at this; cases this
end
end Contrie
