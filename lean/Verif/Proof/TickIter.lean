import Verif.Proof.TickRem
/-
Steps of the iterator.
-/
set_option linter.unusedSectionVars false
namespace Contrie
variable {K P : Type} [DecidableEq K]
variable {cfg : Config K P} {A : Nat → AMap K P} {W : Nat → Option (LP K P)} {m : Mem P} {s : Nat} {weak : Bool}

theorem find_of_mem (key : P → K) {l : List P} (hn : (l.map key).Nodup) {p : P} (hp : p ∈ l) :
    l.find? (fun x => decide (key x = key p)) = some p := by
  induction l with
  | nil => cases hp
  | cons y l ih =>
    simp only [List.map_cons, List.nodup_cons] at hn
    by_cases h : key y = key p
    · have : y = p := by
        rcases List.mem_cons.mp hp with e | e
        · exact e.symm
        · exact absurd (List.mem_map_of_mem (f := key) e) (by rw [← h]; exact hn.1)
      subst this
      simp
    · have : p ∈ l := by
        rcases List.mem_cons.mp hp with e | e
        · subst e; exact absurd rfl h
        · exact e
      simp [h, ih hn.2 this]

theorem TopItems.unique {w : Word} {l l' : List P} (h : TopItems m w l) (h' : TopItems m w l') : l = l' := by
  obtain ⟨-, a, h1, h2⟩ := h
  obtain ⟨-, b, h3, h4⟩ := h'
  rw [h1] at h3; cases h3
  rw [h2] at h4; cases h4; rfl

theorem TopItems.ok {w : Word} {l : List P} {q : List (Fin 16)} (h : TopItems m w l) (hw : WordOK cfg m w q) :
    DataOK cfg l q := by
  obtain ⟨hd, a, h1, h2⟩ := h
  obtain ⟨l', h3, h4⟩ := hw.of_data h1 hd
  rw [h2] at h3; cases h3; exact h4

/-- What a word just read says about the map. -/
theorem Ctx.freshTop (x : Ctx cfg A m s) {loc : Loc} {q : List (Fin 16)} {w : Word} (hl : LocAt m s loc q)
    (hat : m.At loc q w) (hok : WordOK cfg m w q) :
    (∀ items, TopItems m w items → ∀ p ∈ items, WasIn cfg A s m.clock p) ∧
    (∀ k, (∀ τ, s ≤ τ → τ ≤ m.clock → A τ k ≠ none) → q <+: nibs (cfg.hash k) →
      ((w.ptr ≠ none ∧ w.data = false) ∧ ∃ j, q ++ [j] <+: nibs (cfg.hash k)) ∨
      ∃ items, TopItems m w items ∧ k ∈ items.map cfg.key) := by
  constructor
  · intro items ht p hp
    have hdok := ht.ok hok
    obtain ⟨hd, a, h1, h2⟩ := ht
    obtain ⟨τ, t1, t2, t3⟩ := x.leaf hl hat (k := cfg.key p) (hdok.pre p hp) (leafVal_data h1 hd h2)
    refine ⟨τ, t1, t2, ?_⟩
    rw [t3, find_of_mem cfg.key hdok.nodup hp]
  · intro k hk hq
    cases hp : w.ptr with
    | none =>
      obtain ⟨τ, t1, t2, t3⟩ := x.leaf hl hat hq (leafVal_null hp)
      exact absurd t3 (hk τ t1 t2)
    | some a =>
      cases hd : w.data with
      | true =>
        right
        obtain ⟨l, h1, h2⟩ := hok.of_data hp hd
        refine ⟨l, ⟨hd, a, hp, h1⟩, ?_⟩
        obtain ⟨τ, t1, t2, t3⟩ := x.leaf hl hat hq (leafVal_data hp hd h1)
        cases hf : l.find? (fun x => decide (cfg.key x = k)) with
        | none => rw [hf] at t3; exact absurd t3 (hk τ t1 t2)
        | some p =>
          have h3 := List.find?_some hf
          simp at h3
          rw [← h3]
          exact List.mem_map_of_mem (List.mem_of_find?_eq_some hf)
      | false =>
        left
        refine ⟨⟨by simp, rfl⟩, ?_⟩
        obtain ⟨c, h1⟩ := hok.of_inner hp hd
        have hlen := (x.h.nodeOK a c q h1).1
        obtain ⟨ns, hns⟩ := hq
        cases ns with
        | nil => have := congrArg List.length hns; simp at this; omega
        | cons j ns => exact ⟨j, ns, by rw [← hns]; simp⟩

theorem StackOK.word {lv : List (Word × Nat)} {qs : List (List (Fin 16))} {w : Word} {idx : Nat}
    (h : StackOK cfg m s ((w, idx) :: lv) qs) : ∃ q qs', qs = q :: qs' ∧ WordOK cfg m w q ∧ WHeld m s w ∧
      q.length = lv.length := by
  generalize hL : (w, idx) :: lv = L at h
  induction h generalizing w idx lv with
  | nil => cases hL
  | root w idx hw hh => cases hL; exact ⟨_, _, rfl, hw, hh, rfl⟩
  | push w idx w1 i q rest qs hs h1 hw hh ih =>
    cases hL
    obtain ⟨q', qs', e, -, -, h3⟩ := ih rfl
    cases e
    exact ⟨_, _, rfl, hw, hh, by simp [h3]⟩

theorem StackOK.setIdx {lv : List (Word × Nat)} {qs : List (List (Fin 16))} {w : Word} {idx : Nat}
    (h : StackOK cfg m s ((w, idx) :: lv) qs) (idx' : Nat) : StackOK cfg m s ((w, idx') :: lv) qs := by
  cases h with
  | root _ _ hw hh => exact .root w idx' hw hh
  | push _ _ w1 i q rest qs hs h1 hw hh => exact .push w idx' w1 i q rest qs hs h1 hw hh

/-- After a pop the top is an inner node (or the stack is empty). -/
theorem StackOK.pop {lv : List (Word × Nat)} {qs : List (List (Fin 16))} {w : Word} {idx : Nat}
    (h : StackOK cfg m s ((w, idx) :: lv) qs) : StackOK cfg m s lv qs.tail ∧
      ∀ w1 i rest, lv = (w1, i) :: rest → w1.ptr ≠ none ∧ w1.data = false := by
  cases h with
  | root _ _ hw hh => exact ⟨.nil, by intro _ _ _ e; cases e⟩
  | push _ _ w1 i q rest qs hs h1 hw hh =>
    exact ⟨hs, by intro _ _ _ e; cases e; exact h1⟩

/-- Whatever is below the top word is not ahead with respect to the lower levels. -/
theorem StackOK.not_ahead {lv : List (Word × Nat)} {qs : List (List (Fin 16))} {w : Word} {idx : Nat}
    {q : List (Fin 16)} {n : List (Fin 16)}
    (h : StackOK cfg m s ((w, idx) :: lv) (q :: qs)) (hq : q <+: n) : ¬ Ahead lv qs n := by
  generalize hL : (w, idx) :: lv = L at h
  generalize hQ : q :: qs = Q at h
  induction h generalizing w idx lv q qs with
  | nil => cases hL
  | root w idx hw hh => cases hL; cases hQ; rintro ⟨x, hx, -⟩; cases hx
  | push w' idx' w1 i q1 rest qs1 hs h1 hw hh ih =>
    cases hL; cases hQ
    rintro ⟨x, hx, hin, j, hj, hjn⟩
    simp only [List.zip_cons_cons, List.mem_cons] at hx
    rcases hx with rfl | hx
    · simp only at hj hjn
      have h2 : q1 ++ [i] = q1 ++ [j] := by
        have := List.prefix_of_prefix_length_le hq hjn (by simp)
        exact this.eq_of_length (by simp)
      simp at h2
      subst h2
      omega
    · exact ih ((List.prefix_append q1 [i]).trans hq) rfl rfl ⟨x, hx, hin, j, hj, hjn⟩

theorem Ahead.cons {w : Word} {idx : Nat} {lv : List (Word × Nat)} {q : List (Fin 16)} {qs : List (List (Fin 16))}
    {n : List (Fin 16)} : Ahead ((w, idx) :: lv) (q :: qs) n ↔
      ((w.ptr ≠ none ∧ w.data = false) ∧ ∃ j : Fin 16, idx ≤ j.val ∧ q ++ [j] <+: n) ∨ Ahead lv qs n := by
  simp only [Ahead, List.zip_cons_cons, List.mem_cons]
  constructor
  · rintro ⟨x, rfl | hx, h⟩
    · exact Or.inl h
    · exact Or.inr ⟨x, hx, h⟩
  · rintro (h | ⟨x, hx, h⟩)
    · exact ⟨_, Or.inl rfl, h⟩
    · exact ⟨x, Or.inr hx, h⟩

theorem leaf_not_both {w : Word} (hl : w.isLeaf) (h : w.ptr ≠ none ∧ w.data = false) : False := by
  rcases hl with h1 | h1
  · exact h.1 h1
  · rw [h.2] at h1; cases h1

/-- The top of the stack is exhausted. -/
theorem IterOK.pop {w : Word} {idx : Nat} {lv : List (Word × Nat)} {qs : List (List (Fin 16))} {out : List P}
    (h : IterOK cfg A m s ((w, idx) :: lv) qs out)
    (hex : (w.ptr ≠ none ∧ w.data = false) → 16 ≤ idx)
    (hleaf : ∀ items, TopItems m w items → items.length ≤ idx) :
    IterOK cfg A m s lv qs.tail out := by
  obtain ⟨hst, hinner⟩ := h.stack.pop
  obtain ⟨q, qs', rfl, hw, -⟩ := h.stack.word
  simp only [List.tail_cons] at hst ⊢
  refine ⟨hst, h.nodup, h.real, ?_, ?_, ?_, ?_⟩
  · intro p hp ha
    exact h.behind p hp (Ahead.cons.mpr (Or.inr ha))
  · intro w1 i rest q1 qs1 e1 e2 hl
    exact (leaf_not_both hl (hinner w1 i rest e1)).elim
  · intro w1 i rest items e1 ht
    have h1 := ht.1
    rw [(hinner w1 i rest e1).2] at h1; cases h1
  · intro k hk
    rcases h.cover k hk with h1 | h1 | ⟨w1, i, rest, items, e, ht, hk'⟩
    · exact Or.inl h1
    · rcases Ahead.cons.mp h1 with ⟨hin, j, hj, -⟩ | h2
      · have := hex hin; omega
      · exact Or.inr (Or.inl h2)
    · cases e
      have := hleaf items ht
      rw [List.drop_eq_nil_of_le this] at hk'
      cases hk'

/-- A pair is yielded. -/
theorem IterOK.yield {w : Word} {idx : Nat} {lv : List (Word × Nat)} {qs : List (List (Fin 16))} {out : List P}
    (h : IterOK cfg A m s ((w, idx) :: lv) qs out) {items : List P} (ht : TopItems m w items) {p : P}
    (hp : items[idx]? = some p) : IterOK cfg A m s ((w, idx + 1) :: lv) qs (out ++ [p]) := by
  obtain ⟨q, qs', rfl, hw, -⟩ := h.stack.word
  have hdok := ht.ok hw
  have hleaf : w.isLeaf := Or.inr ht.1
  have hmem : p ∈ items := List.mem_of_getElem? hp
  have hnotin : ∀ l, ¬ (l.ptr ≠ none ∧ l.data = false) ∨ l ≠ w := by
    intro l
    by_cases e : l = w
    · subst e; exact Or.inl (leaf_not_both hleaf)
    · exact Or.inr e
  have hq : q <+: nibs (cfg.hash (cfg.key p)) := hdok.pre p hmem
  have hlt : idx < items.length := by
    rcases List.getElem?_eq_some_iff.mp hp with ⟨h1, -⟩; exact h1
  refine ⟨h.stack.setIdx _, ?_, ?_, ?_, ?_, ?_, ?_⟩
  · rw [List.map_append, List.nodup_append]
    refine ⟨h.nodup, by simp, ?_⟩
    intro k1 h1 k2 h2 e
    simp at h2
    subst h2; subst e
    obtain ⟨p', hp', hk⟩ := List.mem_map.mp h1
    obtain ⟨items', ht', hin⟩ := h.topOut w idx lv q qs' rfl rfl hleaf p' hp' (by rw [hk]; exact hq)
    have := ht'.unique ht; subst this
    obtain ⟨i, hi, hi2⟩ := List.getElem_of_mem hin
    rw [List.length_take] at hi
    rw [List.getElem_take] at hi2
    obtain ⟨h3, h4⟩ := List.getElem?_eq_some_iff.mp hp
    have hn := hdok.nodup
    have h5 : (items'.map cfg.key)[i]'(by simp; omega) = (items'.map cfg.key)[idx]'(by simp; omega) := by
      simp [hi2, h4, hk]
    have h6 := (List.pairwise_iff_getElem.mp hn) i idx (by simp; omega) (by simp; omega) (by omega)
    exact h6 h5
  · intro p' hp'
    rcases List.mem_append.mp hp' with h1 | h1
    · exact h.real p' h1
    · simp at h1; subst h1; exact h.topReal w idx lv items rfl ht p' hmem
  · intro p' hp' ha
    rcases Ahead.cons.mp ha with ⟨hin, -⟩ | h2
    · exact leaf_not_both hleaf hin
    · rcases List.mem_append.mp hp' with h1 | h1
      · exact h.behind p' h1 (Ahead.cons.mpr (Or.inr h2))
      · simp at h1; subst h1
        exact h.stack.not_ahead hq h2
  · intro w1 i rest q1 qs1 e1 e2 hl p' hp' hq'
    cases e1; cases e2
    rcases List.mem_append.mp hp' with h1 | h1
    · obtain ⟨items', ht', hin⟩ := h.topOut w idx lv q qs' rfl rfl hl p' h1 hq'
      exact ⟨items', ht', List.Sublist.subset (List.take_sublist_take_left (by omega)) hin⟩
    · simp at h1; subst h1
      refine ⟨items, ht, ?_⟩
      rw [List.take_add_one, hp]
      simp
  · intro w1 i rest items' e1 ht' p' hp'
    cases e1
    exact h.topReal w idx lv items' rfl ht' p' hp'
  · intro k hk
    rcases h.cover k hk with h1 | h1 | ⟨w1, i, rest, items', e, ht', hk'⟩
    · left; simp at h1 ⊢; obtain ⟨a, h2, h3⟩ := h1; exact Or.inl ⟨a, h2, h3⟩
    · rcases Ahead.cons.mp h1 with ⟨hin, -⟩ | h2
      · exact (leaf_not_both hleaf hin).elim
      · exact Or.inr (Or.inl (Ahead.cons.mpr (Or.inr h2)))
    · cases e
      have := ht'.unique ht; subst this
      obtain ⟨h3, h4⟩ := List.getElem?_eq_some_iff.mp hp
      rw [List.drop_eq_getElem_cons h3, h4] at hk'
      simp only [List.map_cons, List.mem_cons] at hk'
      rcases hk' with rfl | hk'
      · left; simp
      · exact Or.inr (Or.inr ⟨w, idx + 1, lv, items', rfl, ht, hk'⟩)

/-- A child is entered. -/
theorem IterOK.enter (x : Ctx cfg A m s) {w : Word} {idx : Nat} {lv : List (Word × Nat)}
    {q : List (Fin 16)} {qs : List (List (Fin 16))} {out : List P}
    (h : IterOK cfg A m s ((w, idx) :: lv) (q :: qs) out) (hin : w.ptr ≠ none ∧ w.data = false) (hi : idx < 16)
    {loc : Loc} {w' : Word} (hl : LocAt m s loc (q ++ [⟨idx, hi⟩])) (hat : m.At loc (q ++ [⟨idx, hi⟩]) w')
    (hheld : WHeld m s w') (hok : WordOK cfg m w' (q ++ [⟨idx, hi⟩])) :
    IterOK cfg A m s ((w', 0) :: (w, idx + 1) :: lv) ((q ++ [⟨idx, hi⟩]) :: q :: qs) out := by
  obtain ⟨hf1, hf2⟩ := x.freshTop hl hat hok
  have hbh : ∀ p ∈ out, ¬ q ++ [⟨idx, hi⟩] <+: nibs (cfg.hash (cfg.key p)) := by
    intro p hp hq
    exact h.behind p hp (Ahead.cons.mpr (Or.inl ⟨hin, ⟨idx, hi⟩, Nat.le_refl _, hq⟩))
  refine ⟨.push w' 0 w ⟨idx, hi⟩ q lv qs (h.stack.setIdx _) hin hok hheld, h.nodup, h.real, ?_, ?_, ?_, ?_⟩
  · intro p hp ha
    rcases Ahead.cons.mp ha with ⟨-, j, -, hj⟩ | ha
    · exact hbh p hp ((List.prefix_append _ [j]).trans hj)
    · rcases Ahead.cons.mp ha with ⟨-, j, hj, hjn⟩ | ha
      · exact h.behind p hp (Ahead.cons.mpr (Or.inl ⟨hin, j, by omega, hjn⟩))
      · exact h.behind p hp (Ahead.cons.mpr (Or.inr ha))
  · intro w1 i rest q1 qs1 e1 e2 hl p hp hq
    cases e1; cases e2
    exact absurd hq (hbh p hp)
  · intro w1 i rest items e1 ht
    cases e1
    exact hf1 items ht
  · intro k hk
    have fresh : q ++ [⟨idx, hi⟩] <+: nibs (cfg.hash k) →
        Ahead ((w', 0) :: (w, idx + 1) :: lv) ((q ++ [⟨idx, hi⟩]) :: q :: qs) (nibs (cfg.hash k)) ∨
        ∃ w1 i rest items, (w', 0) :: (w, idx + 1) :: lv = (w1, i) :: rest ∧ TopItems m w1 items ∧
          k ∈ (items.drop i).map cfg.key := by
      intro hq
      rcases hf2 k hk hq with ⟨h1, j, hj⟩ | ⟨items, ht, hk'⟩
      · exact Or.inl (Ahead.cons.mpr (Or.inl ⟨h1, j, Nat.zero_le _, hj⟩))
      · exact Or.inr ⟨w', 0, _, items, rfl, ht, by simpa using hk'⟩
    rcases h.cover k hk with h1 | h1 | ⟨w1, i, rest, items', e, ht', hk'⟩
    · exact Or.inl h1
    · right
      rcases Ahead.cons.mp h1 with ⟨-, j, hj, hjn⟩ | h2
      · by_cases e : j.val = idx
        · have : j = ⟨idx, hi⟩ := Fin.ext e
          subst this
          exact fresh hjn
        · exact Or.inl (Ahead.cons.mpr (Or.inr (Ahead.cons.mpr (Or.inl ⟨hin, j, by omega, hjn⟩))))
      · exact Or.inl (Ahead.cons.mpr (Or.inr (Ahead.cons.mpr (Or.inr h2))))
    · cases e
      have := ht'.1
      rw [hin.2] at this; cases this

theorem tickIterNew_ok {c : Call K P} (x : Ctx cfg A m c.inv)
    (hpc : c.pc = .iterNew) (hi : PCInv cfg A m c) (hl : LinInv W m.clock c)
    (hW : W m.clock = lpOf cfg m weak c) : TickOK cfg A W m c (tick cfg m weak c.pc) := by
  have hWn : W m.clock = none := by rw [hW]; simp only [lpOf, hpc]; split <;> rfl
  simp only [PCInv, hpc] at hi
  simp only [LinInv, hpc, PC.taken] at hl
  have hl' : NotYet W m.bump.clock c.inv := NotYet.succ hl hWn
  have hs := Nat.le_of_lt x.hs
  simp only [hpc, tick]
  refine .quiet x hWn ?_
  simp only [tickIterNew, NextInv, PCInv, LinInv, PC.taken]
  refine ⟨⟨hi.1, by simpa using hi.2, [[]], ?_⟩, hl'⟩
  refine IterOK.evo ?_ (Evo.bump m) hs
  obtain ⟨w, hr, hat, hheld, hok⟩ := x.read (loc := .root) (q := []) rfl
  have hwr : w = m.root := by simp [Mem.read] at hr; exact hr.symm
  subst hwr
  obtain ⟨hf1, hf2⟩ := x.freshTop (loc := .root) (q := []) rfl hat hok
  refine ⟨.root _ _ hok hheld, by simp, by simp, by simp, ?_, ?_, ?_⟩
  · intro _ _ _ _ _ _ _ _ p hp; cases hp
  · intro w1 i rest items e1 ht
    cases e1; exact hf1 items ht
  · intro k hk
    rcases hf2 k hk List.nil_prefix with ⟨h1, j, hj⟩ | ⟨items, ht, hk'⟩
    · exact Or.inr (Or.inl (Ahead.cons.mpr (Or.inl ⟨h1, j, Nat.zero_le _, hj⟩)))
    · exact Or.inr (Or.inr ⟨m.root, 0, [], items, rfl, ht, by simpa using hk'⟩)

theorem tickIterNext_ok {c : Call K P} (x : Ctx cfg A m c.inv) {lv : List (Word × Nat)} {out : List P}
    (hpc : c.pc = .iterNext lv out) (hi : PCInv cfg A m c) (hl : LinInv W m.clock c)
    (hW : W m.clock = lpOf cfg m weak c) : TickOK cfg A W m c (tick cfg m weak c.pc) := by
  have hWn : W m.clock = none := by rw [hW]; simp only [lpOf, hpc]; split <;> rfl
  simp only [PCInv, hpc] at hi
  simp only [LinInv, hpc, PC.taken] at hl
  have hl' : NotYet W m.bump.clock c.inv := NotYet.succ hl hWn
  have hs := Nat.le_of_lt x.hs
  obtain ⟨hreq, hcalls, qs, hit⟩ := hi
  simp only [hpc, tick]
  refine .quiet x hWn ?_
  have go : ∀ lv' qs' out', IterOK cfg A m c.inv lv' qs' out' →
      NextInv cfg A W m.bump c (.goto (.iterNext lv' out') false) := by
    intro lv' qs' out' h
    simp only [NextInv, PCInv, LinInv, PC.taken]
    exact ⟨⟨hreq, by simpa using hcalls, qs', h.evo (Evo.bump m) hs⟩, hl'⟩
  cases lv with
  | nil =>
    simp only [tickIterNext, NextInv, RetOK, hreq]
    refine ⟨by simp, out, rfl, hl', hit.nodup, ?_, ?_⟩
    · intro p hp
      obtain ⟨τ, t1, t2, t3⟩ := hit.real p hp
      exact ⟨τ, t1, Nat.lt_succ_of_le t2, t3⟩
    · intro k hk
      rcases hit.cover k (fun τ h1 h2 => hk τ h1 (Nat.lt_succ_of_le h2)) with h1 | ⟨y, hy, -⟩ | ⟨w, i, rest, items, e, -⟩
      · exact h1
      · simp at hy
      · cases e
  | cons y rest =>
    obtain ⟨w, idx⟩ := y
    obtain ⟨q, qs', rfl, hok, hheld, hlen⟩ := hit.stack.word
    simp only [tickIterNext]
    cases hp : w.ptr with
    | none =>
      refine go rest qs' out (hit.pop ?_ ?_)
      · intro h; exact absurd hp h.1
      · rintro items ⟨-, a, h1, -⟩; rw [hp] at h1; cases h1
    | some a =>
      cases hd : w.data with
      | true =>
        obtain ⟨items, h1, h2, h3⟩ := x.load hok hheld hp hd
        have ht : TopItems m w items := ⟨hd, a, hp, h2⟩
        simp only [if_true, h1]
        cases hg : items[idx]? with
        | some p => exact go _ _ _ (hit.yield ht hg)
        | none =>
          refine go rest qs' out (hit.pop ?_ ?_)
          · intro h; rw [hd] at h; cases h.2
          · intro items' ht'
            have := ht'.unique ht; subst this
            exact List.getElem?_eq_none_iff.mp hg
      | false =>
        simp only [Bool.false_eq_true, if_false]
        obtain ⟨cs, hm⟩ := hok.of_inner hp hd
        have hq := (x.h.nodeOK a cs q hm).1
        split
        · next hi16 =>
          have hloc : LocAt m c.inv (.slot a ⟨idx, hi16⟩) (q ++ [⟨idx, hi16⟩]) := ⟨cs, q, hm, rfl, hheld a hp⟩
          obtain ⟨w', hr, hat, hheld', hok'⟩ := x.read hloc
          simp only [hr]
          have hml : ¬ MAX_LEVELS + 1 ≤ ((w, idx) :: rest).length := by
            simp [MAX_LEVELS, LEVEL_BITS]; omega
          rw [if_neg hml]
          exact go _ _ _ (hit.enter x ⟨by simp [hp], hd⟩ hi16 hloc hat hheld' hok')
        · next hi16 =>
          refine go rest qs' out (hit.pop ?_ ?_)
          · intro _; omega
          · intro items ht; have := ht.1; rw [hd] at this; cases this

/-- One step of a call, whatever it is doing. -/
theorem tick_ok {c : Call K P} (x : Ctx cfg A m c.inv) (hi : PCInv cfg A m c) (hl : LinInv W m.clock c)
    (hW : W m.clock = lpOf cfg m weak c) : TickOK cfg A W m c (tick cfg m weak c.pc) := by
  cases hpc : c.pc with
  | get key hash cur => rw [← hpc]; exact tickGet_ok x hpc hi hl hW
  | isEmpty => rw [← hpc]; exact tickIsEmpty_ok x hpc hi hl hW
  | iterNew => rw [← hpc]; exact tickIterNew_ok x hpc hi hl hW
  | iterNext lv out => rw [← hpc]; exact tickIterNext_ok x hpc hi hl hW
  | trav st hash mode shift cur parent => rw [← hpc]; exact tickTrav_ok x hpc hi hl hW
  | travCas st hash mode shift cur parent node new kind => rw [← hpc]; exact tickTravCas_ok x hpc hi hl hW
  | rem key shift cur levels => rw [← hpc]; exact tickRem_ok x hpc hi hl hW
  | remCas key shift cur levels node new deleted => rw [← hpc]; exact tickRemCas_ok x hpc hi hl hW
  | count deleted ref parent child rest i cnt => rw [← hpc]; exact tickCount_ok x hpc hi hl hW
  | prune parent child i acc k => rw [← hpc]; exact tickPrune_ok x hpc hi hl hW
  | pruneCas parent child acc k => rw [← hpc]; exact tickPruneCas_ok x hpc hi hl hW
end Contrie
