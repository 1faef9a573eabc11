import Verif.Proof.HostileInv
import Verif.Proof.CohSolo
/-
The machine with misbehaving user code: every step of a call makes progress. Copies of the proofs of `Verif/Proof/Measure.lean` and
`Verif/Proof/Progress.lean` in which nothing is known about keys.
-/
set_option linter.unusedSectionVars false
namespace Contrie
variable {K P : Type} [DecidableEq K]
variable {m m' : Mem P}

section
omit [DecidableEq K]
theorem HMemInv.lt_next {m : Mem P} (h : HMemInv m) {a : Nat} {n : Node P}
    (hm : m.mem a = some n) : a < m.next := by
  by_contra hx
  rw [h.fresh a (by omega)] at hm; cases hm

/-- Condemning one more cell of a node that is already being condemned. -/
theorem hcondemn_measures {m : Mem P} (h : HMemInv m)
    {a : Nat} {c : Fin 16 → Word} {p : List (Fin 16)} {i j : Fin 16}
    (hm : m.mem a = some (.inner c p)) (hc : (c i).cond = false) (hj : (c j).cond = true) :
    (m.write (c i).condemn (.slot a i)).dmg = m.dmg ∧ (m.write (c i).condemn (.slot a i)).room = m.room ∧
    (m.write (c i).condemn (.slot a i)).clean < m.clean := by
  have hsh := sameShape_condemn i hm
  have hw := write_condemn i hm
  generalize hm1 : m.write (c i).condemn (.slot a i) = m1 at *
  have hn : m1.next = m.next := by rw [hw]
  have hroot : m1.root = m.root := by rw [hw]
  have hret : m1.retired = m.retired := by rw [hw]
  have hma : m1.mem a = some (.inner (upd c i (c i).condemn) p) := by rw [hw]; simp
  have hmo : ∀ b, b ≠ a → m1.mem b = m.mem b := by intro b hb; rw [hw]; simp [upd_other _ _ hb]
  refine ⟨?_, ?_, ?_⟩
  · simp only [Mem.dmg, hn, hret]
    apply cnt_congr
    intro b _
    by_cases hb : b = a
    · subst hb
      rw [hma, hm]
      constructor
      · rintro ⟨c', p', e, h1, h2⟩
        exact ⟨c, p, rfl, h1, j, hj⟩
      · rintro ⟨c', p', e, h1, h2⟩
        refine ⟨_, _, rfl, h1, i, by simp⟩
    · rw [hmo b hb]
  · have : m1.dataAt = m.dataAt := by
      funext b d
      simp only [Mem.dataAt]
      have hf : ∀ q, m1.follow m1.root q = m.follow m.root q := by
        intro q; rw [hroot]; exact (hsh.follow rfl q).symm
      simp only [hf]
    simp only [Mem.room, hn, this]
  · simp only [Mem.clean, hn]
    refine cnt_lt ?_ (a, i) ?_ ?_ ?_
    · intro x hx0 hx
      refine ⟨hx0, ?_⟩
      obtain ⟨c', p', h1, h2⟩ := hx
      by_cases hb : x.1 = a
      · rw [hb, hma] at h1; cases h1
        refine ⟨c, p, by rw [hb]; exact hm, ?_⟩
        by_cases e : x.2 = i
        · rw [e] at h2; simp at h2
        · rwa [upd_other _ _ e] at h2
      · rw [hmo _ hb] at h1
        exact ⟨c', p', h1, h2⟩
    · simpa using h.lt_next hm
    · exact ⟨c, p, hm, hc⟩
    · rintro ⟨c', p', h1, h2⟩
      simp only at h1 h2
      rw [hma] at h1; cases h1
      simp at h2

/-- A leaf is pushed down. -/
theorem hsplit_measures {m m' : Mem P} {loc : Loc} {q : List (Fin 16)}
    (h : HMemInv m) (h' : HMemInv m') {a : Nat} {i : Fin 16}
    (hat : m.At loc q ⟨some a, false, true⟩) (hq : q.length < 16)
    (hs : Swung m m' loc ⟨some m.next, false, false⟩
      (some (.inner (upd (fun _ => Word.null) i ⟨some a, false, true⟩) q)) none) :
    m'.dmg ≤ m.dmg ∧ m'.room < m.room := by
  have hnn := h.fresh _ (Nat.le_refl m.next)
  have hnm : m'.mem m.next = some (.inner (upd (fun _ => Word.null) i ⟨some a, false, true⟩) q) := by
    rw [hs.fresh _ hnn]; simp
  have hroot := HSwung.follow_root_at hs h hat rfl rfl
  constructor
  · apply cnt_le
    rintro b - ⟨c', p', h1, h2, j, h3⟩
    rw [Finset.mem_range]
    cases hmb : m.mem b with
    | none =>
      rw [hs.fresh b hmb] at h1
      split at h1
      · cases h1
        by_cases e : j = i
        · subst e; simp at h3
        · simp [upd_other _ _ e] at h3
      · cases h1
    | some n =>
      cases n with
      | data l => rw [hs.data b l hmb] at h1; cases h1
      | inner c p =>
        rw [hs.node b c p hmb] at h1; cases h1
        refine ⟨h.lt_next hmb, c, p', rfl, ?_, j, ?_⟩
        · have := hs.retired b; simp at this; rw [← this]; exact h2
        · simp only at h3
          split at h3
          · cases h3
          · exact h3
  · refine cnt_lt ?_ (a, q.length) ?_ ?_ ?_
    · rintro x hx0 ⟨r, w, h1, h2, h3, h4⟩
      simp only [Finset.mem_product, Finset.mem_range] at hx0 ⊢
      have hd : m.dataAt x.1 x.2 := by
        by_cases hqr : q <+: r
        · obtain ⟨t, rfl⟩ := hqr
          rw [follow_append' hroot] at h2
          cases t with
          | nil => simp [Mem.follow] at h2; subst h2; cases h4
          | cons j t =>
            simp only [Mem.follow, Mem.cellsOf, hnm] at h2
            by_cases e : j = i
            · subst e
              simp only [Bool.false_eq_true, if_false, upd_same] at h2
              obtain ⟨rfl, rfl⟩ := Word.isLeaf.follow (Or.inr rfl) h2
              refine ⟨q, _, ?_, h.at_follow hat rfl, ?_, rfl⟩
              · simp at h1; omega
              · simpa using h3
            · simp only [Bool.false_eq_true, if_false, upd_other _ _ e] at h2
              obtain ⟨rfl, rfl⟩ := isLeaf_null.follow h2
              simp at h3
        · rw [HSwung.follow_root_frame hs h hat hqr] at h2
          exact ⟨r, w, h1, h2, h3, h4⟩
      refine ⟨⟨?_, hx0.2⟩, hd⟩
      obtain ⟨r, w, h1, h2, h3, h4⟩ := hd
      obtain ⟨l, hl, -⟩ := (h.path_ok h2).of_data h3 h4
      exact h.lt_next hl
    · simp only [Finset.mem_product, Finset.mem_range]
      obtain ⟨l, hl, -⟩ := (h.at_ok hat).of_data rfl rfl
      exact ⟨h.lt_next hl, by omega⟩
    · exact ⟨q, _, Nat.le_refl _, h.at_follow hat rfl, rfl, rfl⟩
    · rintro ⟨r, w, h1, h2, h3, h4⟩
      have hf : m'.follow m'.root (q ++ [i]) = some ⟨some a, false, true⟩ := by
        rw [follow_append' hroot]
        simp [Mem.follow, Mem.cellsOf, hnm, Word.erase]
      have := h'.path_unique h2 hf h3 rfl
      subst this
      simp only [List.length_append, List.length_singleton] at h1
      omega

/-- A condemned node is unlinked. -/
theorem hprune_measures {m m' : Mem P} {loc : Loc} {q : List (Fin 16)}
    (h : HMemInv m) {a : Nat} {c : Fin 16 → Word}
    (hat : m.At loc q ⟨some a, false, false⟩) (hm : m.mem a = some (.inner c q)) (hfr : ∀ i, (c i).cond = true)
    {w' : Word} {new : Option (Node P)} (hc' : w'.cond = false) (hok : PruneOK m q c w' new)
    (hs : Swung m m' loc w' new (some a)) : m'.dmg < m.dmg := by
  have hnn := h.fresh _ (Nat.le_refl m.next)
  refine cnt_lt ?_ a ?_ ?_ ?_
  · rintro b - ⟨c', p', h1, h2, j, h3⟩
    rw [Finset.mem_range]
    cases hmb : m.mem b with
    | none =>
      rw [hs.fresh b hmb] at h1
      split at h1
      · cases hok with
        | null => cases h1
        | single => cases h1
        | copy => cases h1; simp at h3
      · cases h1
    | some n =>
      cases n with
      | data l => rw [hs.data b l hmb] at h1; cases h1
      | inner c p =>
        rw [hs.node b c p hmb] at h1; cases h1
        refine ⟨h.lt_next hmb, c, p', rfl, ?_, j, ?_⟩
        · have := hs.retired b
          rw [this] at h2
          split at h2
          · cases h2
          · exact h2
        · simp only at h3
          split at h3
          · rw [hc'] at h3; cases h3
          · exact h3
  · rw [Finset.mem_range]; exact h.lt_next hm
  · exact ⟨c, q, hm, h.live q _ a (h.at_follow hat rfl) rfl, 0, hfr 0⟩
  · rintro ⟨c', p', h1, h2, -⟩
    rw [hs.retired] at h2; simp at h2

end

theorem hgood_get (o : Answers P) {tk : Nat} {key : K} {hash : BitVec 64} {cur : Loc} {pc' : PC K P} {ran : Bool} (htk : tk ≤ 16)
    (h : (m, hTickGet o m key hash cur) = (m', .goto pc' ran)) : Good m m' tk (.get key hash cur) pc' := by
  simp only [Prod.mk.injEq] at h
  obtain ⟨rfl, h⟩ := h
  simp only [hTickGet] at h
  split at h
  · cases h
  split at h
  · cases h
  split at h
  · split at h
    · cases h
    · split at h <;> cases h
  · cases h
    exact ⟨trivial, .local1 rfl (by simp only [PC.loc1]; omega)⟩

theorem hgood_trav (o : Answers P) {tk : Nat} {st : TState K P} {hash : BitVec 64} {mode : Mode} {shift : Nat} {cur : Loc}
    {parent : Option (Loc × Word)} {pc' : PC K P} {ran : Bool}
    (hh : Helps m (.trav st hash mode shift cur parent : PC K P))
    (h : (m, hTickTrav o m st hash mode shift cur parent) = (m', .goto pc' ran)) :
    Good m m' tk (.trav st hash mode shift cur parent) pc' := by
  simp only [Prod.mk.injEq] at h
  obtain ⟨rfl, h⟩ := h
  simp only [Helps] at hh
  unfold hTickTrav at h
  split at h
  · cases h
  · next node hr =>
    have hraw := raw_of_read hr
    split at h
    · next hcond =>
      split at h
      · cases h
      · next p child =>
        simp only [enterPrune] at h
        split at h
        · cases h
        split at h
        · cases h
        cases h
        refine ⟨head_help hh hr hcond, .retry rfl rfl rfl ?_⟩
        simp only [PC.ell, staleOpt]; simp; omega
    · have cas : ∀ st' new kind, Good m m tk (.trav st hash mode shift cur parent)
          (.travCas st' hash mode shift cur parent node new kind) := by
        intro st' new kind
        refine ⟨hh, .retry rfl rfl rfl ?_⟩
        simp only [PC.ell, hraw, if_true]; omega
      split at h
      · cases h; exact cas _ _ _
      · next a hp =>
        split at h
        · split at h
          · cases h
          · cases h
          · split at h
            · split at h <;> cases h
              exact cas _ _ _
            · simp only at h
              split at h
              · cases h; exact cas _ _ _
              · simp only [finishTrav] at h
                split at h
                · cases h
                · split at h <;> cases h
        · split at h
          · cases h
          · next hsh =>
            cases h
            refine ⟨?_, .retry rfl rfl rfl ?_⟩
            · rintro p ch e; cases e; exact ⟨a, _, rfl, hp⟩
            · simp only [PC.ell, staleOpt, stale, hraw, if_true, HASH_BITS, LEVEL_BITS] at hsh ⊢; omega

theorem hgood_rem (o : Answers P) {tk : Nat} {key : K} {shift : Nat} {cur : Loc}
    {levels : List (Loc × Word)} {pc' : PC K P} {ran : Bool}
    (hh : Helps m (.rem key shift cur levels : PC K P))
    (h : (m, hTickRem o m key shift cur levels) = (m', .goto pc' ran)) :
    Good m m' tk (.rem key shift cur levels) pc' := by
  simp only [Prod.mk.injEq] at h
  obtain ⟨rfl, h⟩ := h
  simp only [Helps] at hh
  unfold hTickRem at h
  split at h
  · cases h
  · next node hr =>
    have hraw := raw_of_read hr
    split at h
    · cases h
    · next a hp =>
      split at h
      · next hcond =>
        split at h
        · cases h
        · next p child rest =>
          simp only [enterPrune] at h
          split at h
          · cases h
          split at h
          · cases h
          cases h
          refine ⟨head_help hh hr hcond, .retry rfl rfl rfl ?_⟩
          simp only [PC.ell, staleOpt, List.head?_cons]; simp; omega
      · split at h
        · split at h
          · cases h
          · split at h
            · cases h
            · cases h
              refine ⟨hh, .retry rfl rfl rfl ?_⟩
              simp only [PC.ell, hraw, if_true]; omega
        · split at h
          · cases h
          split at h
          · cases h
          · next hsh =>
            cases h
            refine ⟨?_, .retry rfl rfl rfl ?_⟩
            · rintro p ch e; cases e; exact ⟨a, _, rfl, hp⟩
            · simp only [PC.ell, staleOpt, List.head?_cons, stale, hraw, if_true, HASH_BITS, LEVEL_BITS] at hsh ⊢; omega

theorem hgood_travCas {tk : Nat} {s n : Nat} (x : HCtx m s) {st : TState K P} {hash : BitVec 64} {mode : Mode} {shift : Nat} {cur : Loc}
    {parent : Option (Loc × Word)} {node : Word} {new : Node P} {kind : TKind P} {pc' : PC K P} {ran : Bool}
    (hi : HPCInv m s n (.travCas st hash mode shift cur parent node new kind))
    (hh : Helps m (.travCas st hash mode shift cur parent node new kind : PC K P))
    (h : tickTravCas m false st hash mode shift cur parent node new kind = (m', .goto pc' ran)) :
    Good m m' tk (.travCas st hash mode shift cur parent node new kind) pc' := by
  obtain ⟨d, rfl, ht, hcas⟩ := hi
  obtain ⟨w, hr, hat, hheld, hok⟩ := x.read ht.loc
  have hraw := raw_of_read hr
  unfold tickTravCas at h
  rw [hr] at h
  simp only at h
  split at h
  · next hsucc =>
    have fin : ∀ {m1 : Mem P} {r refs}, (m1, finishTrav mode r refs) = (m', .goto pc' ran) → False := by
      intro m1 r refs h
      simp only [finishTrav] at h
      split at h
      · cases h
      · split at h <;> cases h
    cases hcas with
    | fresh p q hst =>
      simp only at h
      split at h <;> exact (fin h).elim
    | replace a p q items new found hst hh hm hfound =>
      simp only [Bool.true_eq_false, if_false] at h
      split at h <;> exact (fin h).elim
    | split a j hh' hd =>
      obtain ⟨rfl, -⟩ := hsucc
      simp only [Prod.mk.injEq, Next.goto.injEq] at h
      obtain ⟨h1, rfl, -⟩ := h
      refine ⟨hh, .global rfl rfl rfl ?_⟩
      have hnn := x.h.fresh _ (Nat.le_refl _)
      have hlen : (pre hash d).length = d := pre_length _ ht.len
      have hsw := swing_swung hat hnn ⟨some m.next, false, false⟩ (some (Node.inner (upd (fun _ => Word.null)
        j ⟨some a, false, true⟩) (pre hash d))) none
      have hinv := x.h.split hat rfl (by omega) rfl rfl j hsw
      obtain ⟨g1, g2⟩ := hsplit_measures x.h hinv hat (by omega) hsw
      have e : m.swing cur ⟨some m.next, false, false⟩ (some (Node.inner (upd (fun _ => Word.null)
        j ⟨some a, false, true⟩) (pre hash d))) none = m' := h1
      rw [e] at g1 g2
      obtain ⟨b1, b2, -⟩ := bump_measures m'
      exact .of_room (by omega) (by omega)
  · next hne =>
    simp only [Prod.mk.injEq, Next.goto.injEq] at h
    obtain ⟨rfl, rfl, -⟩ := h
    refine ⟨hh, .retry rfl rfl rfl ?_⟩
    have : w ≠ node := by intro e; exact hne ⟨e, trivial⟩
    simp only [PC.ell, hraw, Option.some.injEq, this, if_false]; omega

theorem hgood_prune {tk : Nat} {s n : Nat} (x : HCtx m s) {parent : Loc} {child : Word}
    {i : Fin 16} {acc : PAcc} {k : Cont K P} {pc' : PC K P} {ran : Bool}
    (hi : HPCInv m s n (.prune parent child i acc k))
    (hh : Helps m (.prune parent child i acc k : PC K P))
    (h : tickPrune m parent child i acc k = (m', .goto pc' ran)) :
    Good m m' tk (.prune parent child i acc k) pc' := by
  obtain ⟨hk, a, cs, q, rfl, hm, hhd, hloc, hacc⟩ := hi
  obtain ⟨w, hr, hat, hheld, hok⟩ := x.read (loc := .slot a i) (q := q ++ [i]) ⟨cs, q, hm, rfl, hhd⟩
  obtain ⟨cs', q', hm', -, rfl⟩ := hat
  rw [hm] at hm'; cases hm'
  have hevo := Evo.condemn i hm
  unfold tickPrune at h
  simp only [hr] at h
  have key : m' = m.write (cs i).condemn (.slot a i) ∧
      ((∃ hlt acc', pc' = .prune parent ⟨some a, false, false⟩ ⟨i.val + 1, hlt⟩ acc' k) ∨
       (i.val = 15 ∧ ∃ acc', pc' = .pruneCas parent ⟨some a, false, false⟩ acc' k)) := by
    split at h
    · simp at h
    · split at h
      · simp only [Prod.mk.injEq, Next.goto.injEq] at h
        exact ⟨h.1.symm, Or.inl ⟨_, _, h.2.1.symm⟩⟩
      · split at h
        · simp at h
        · simp only [Prod.mk.injEq, Next.goto.injEq] at h
          exact ⟨h.1.symm, Or.inr ⟨by omega, _, h.2.1.symm⟩⟩
  clear h
  obtain ⟨rfl, key⟩ := key
  cases k with
  | clean deleted ref rest =>
    rcases key with ⟨hlt, acc', rfl⟩ | ⟨h15, acc', rfl⟩
    · exact ⟨trivial, .local1 rfl (by simp only [PC.loc1]; omega)⟩
    · exact ⟨trivial, .local1 rfl (by simp only [PC.loc1]; omega)⟩
  | trav st hash mode =>
    have hh' : Helps (m.write (cs i).condemn (.slot a i)) (.prune parent ⟨some a, false, false⟩ i acc (.trav st hash mode) : PC K P) :=
      Helps.evo (m' := (m.write (cs i).condemn (.slot a i)).bump) hh hevo
    obtain ⟨a', c', q', j, e1, e2, e3⟩ := hh
    simp only [Option.some.injEq] at e1
    subst e1
    rw [hm] at e2; cases e2
    have g : ∀ pc', pc'.ell m < PC.ell m (.prune parent ⟨some a, false, false⟩ i acc (.trav st hash mode) : PC K P) →
        GDec m (m.write (cs i).condemn (.slot a i)) (.prune parent ⟨some a, false, false⟩ i acc (.trav st hash mode)) pc' := by
      intro pc' hlt
      cases hc : (cs i).cond with
      | false =>
        obtain ⟨g1, g2, g3⟩ := hcondemn_measures x.h hm hc e3
        exact Or.inr ⟨g1, Or.inr ⟨g2, Or.inl g3⟩⟩
      | true =>
        have : m.write (cs i).condemn (.slot a i) = m := by
          rw [write_condemn i hm]
          have e : upd cs i (cs i).condemn = cs := by
            funext j; by_cases e : j = i
            · subst e; simp only [upd_same]; cases hw : cs j; simp_all [Word.condemn]
            · simp [upd_other _ _ e]
          rw [e]
          have : upd m.mem a (some (.inner cs q)) = m.mem := by
            funext b; by_cases e : b = a
            · subst e; simp [hm]
            · simp [upd_other _ _ e]
          rw [this]
        rw [this]
        exact .quiet rfl rfl rfl rfl hlt
    rcases key with ⟨hlt, acc', rfl⟩ | ⟨h15, acc', rfl⟩
    · exact ⟨hh', .global rfl rfl rfl (g _ (by simp only [PC.ell]; omega))⟩
    · exact ⟨trivial, .global rfl rfl rfl (g _ (by simp only [PC.ell]; omega))⟩
  | rem rkey =>
    have hh' : Helps (m.write (cs i).condemn (.slot a i)) (.prune parent ⟨some a, false, false⟩ i acc (.rem rkey) : PC K P) :=
      Helps.evo (m' := (m.write (cs i).condemn (.slot a i)).bump) hh hevo
    obtain ⟨a', c', q', j, e1, e2, e3⟩ := hh
    simp only [Option.some.injEq] at e1
    subst e1
    rw [hm] at e2; cases e2
    have g : ∀ pc', pc'.ell m < PC.ell m (.prune parent ⟨some a, false, false⟩ i acc (.rem rkey) : PC K P) →
        GDec m (m.write (cs i).condemn (.slot a i)) (.prune parent ⟨some a, false, false⟩ i acc (.rem rkey)) pc' := by
      intro pc' hlt
      cases hc : (cs i).cond with
      | false =>
        obtain ⟨g1, g2, g3⟩ := hcondemn_measures x.h hm hc e3
        exact Or.inr ⟨g1, Or.inr ⟨g2, Or.inl g3⟩⟩
      | true =>
        have : m.write (cs i).condemn (.slot a i) = m := by
          rw [write_condemn i hm]
          have e : upd cs i (cs i).condemn = cs := by
            funext j; by_cases e : j = i
            · subst e; simp only [upd_same]; cases hw : cs j; simp_all [Word.condemn]
            · simp [upd_other _ _ e]
          rw [e]
          have : upd m.mem a (some (.inner cs q)) = m.mem := by
            funext b; by_cases e : b = a
            · subst e; simp [hm]
            · simp [upd_other _ _ e]
          rw [this]
        rw [this]
        exact .quiet rfl rfl rfl rfl hlt
    rcases key with ⟨hlt, acc', rfl⟩ | ⟨h15, acc', rfl⟩
    · exact ⟨hh', .global rfl rfl rfl (g _ (by simp only [PC.ell]; omega))⟩
    · exact ⟨trivial, .global rfl rfl rfl (g _ (by simp only [PC.ell]; omega))⟩

theorem hgood_pruneCas {tk : Nat} {s n : Nat} (x : HCtx m s) {parent : Loc} {child : Word}
    {acc : PAcc} {k : Cont K P} {pc' : PC K P} {ran : Bool}
    (hi : HPCInv m s n (.pruneCas parent child acc k))
    (h : tickPruneCas m parent child acc k = (m', .goto pc' ran)) :
    Good m m' tk (.pruneCas parent child acc k) pc' := by
  obtain ⟨hk, a, cs, q, rfl, hm, hh, hloc, hacc⟩ := hi
  obtain ⟨w, hr, hat, hheld, hok⟩ := x.read hloc
  have hraw := raw_of_read hr
  have hnn := x.h.fresh _ (Nat.le_refl _)
  have hderef : m.deref a = some (.inner cs q) := by simp [Mem.deref, x.hfree a hh, hm]
  -- the outcome
  have key : ∃ res, Next.goto pc' ran = afterPrune res k ∧
      ((w = ⟨some a, false, false⟩ ∧ m'.dmg < m.dmg) ∨ (w ≠ ⟨some a, false, false⟩ ∧ m' = m)) := by
    by_cases hsucc : w = ⟨some a, false, false⟩
    · subst hsucc
      have hsw := fun w' new ret => swing_swung hat hnn w' new ret
      have hdec := PAcc.decide_ok hacc q
      have hcl := decide_clean hacc
      cases hd : acc.decide with
      | mk ins res =>
        rw [hd] at hdec hcl
        refine ⟨res, ?_⟩
        cases ins with
        | word w' =>
          have htick : tickPruneCas m parent ⟨some a, false, false⟩ acc k = (m.swing parent w' none (some a), afterPrune res k) := by
            simp [tickPruneCas, hr, hderef, hd]; rfl
          rw [htick] at h
          simp only [Prod.mk.injEq] at h
          refine ⟨h.2.symm, Or.inl ⟨rfl, ?_⟩⟩
          rw [← h.1, ← (bump_measures _).1]
          exact hprune_measures x.h hat hm (fun i => hacc.cond i i.isLt) hcl hdec (hsw _ _ _)
        | copy cells =>
          have htick : tickPruneCas m parent ⟨some a, false, false⟩ acc k = (m.swing parent ⟨some m.next, false, false⟩ (some (.inner cells q)) (some a),
              afterPrune res k) := by
            simp [tickPruneCas, hr, hderef, hd]; rfl
          rw [htick] at h
          simp only [Prod.mk.injEq] at h
          refine ⟨h.2.symm, Or.inl ⟨rfl, ?_⟩⟩
          rw [← h.1, ← (bump_measures _).1]
          exact hprune_measures x.h hat hm (fun i => hacc.cond i i.isLt) rfl hdec (hsw _ _ _)
    · have htick : tickPruneCas m parent ⟨some a, false, false⟩ acc k = (m, afterPrune .casFail k) := by
        simp [tickPruneCas, hr, hderef, hsucc]
      rw [htick] at h
      simp only [Prod.mk.injEq] at h
      exact ⟨.casFail, h.2.symm, Or.inr ⟨hsucc, h.1.symm⟩⟩
  clear h
  obtain ⟨res, h1, h2⟩ := key
  cases k with
  | clean deleted ref rest =>
    simp only [afterPrune] at h1
    split at h1
    · cases h1
    · cases rest with
      | nil => simp [enterClean] at h1
      | cons y rest =>
        simp only [enterClean] at h1
        split at h1
        · cases h1
        · cases h1
          exact ⟨trivial, .local1 rfl (by simp only [PC.loc1, List.length_cons]; simp; omega)⟩
  | trav st hash mode =>
    simp only [afterPrune] at h1
    cases h1
    refine ⟨(by intro p ch e; cases e), .global rfl rfl rfl ?_⟩
    rcases h2 with ⟨-, h2⟩ | ⟨h2, rfl⟩
    · exact Or.inl h2
    · refine .quiet rfl rfl rfl rfl ?_
      simp only [PC.ell, stale, hraw, Option.some.injEq, h2, if_false, staleOpt]; omega
  | rem key =>
    simp only [afterPrune] at h1
    cases h1
    refine ⟨(by intro p ch e; cases e), .global rfl rfl rfl ?_⟩
    rcases h2 with ⟨-, h2⟩ | ⟨h2, rfl⟩
    · exact Or.inl h2
    · refine .quiet rfl rfl rfl rfl ?_
      simp only [PC.ell, stale, hraw, Option.some.injEq, h2, if_false, staleOpt, List.head?_nil]; omega


/-- Every step of a call that is not a spurious failure makes progress. -/
theorem hTick_good {s n : Nat} (x : HCtx m s) (o : Answers P) {pc : PC K P} (hi : HPCInv m s n pc) (hh : Helps m pc) {pc' : PC K P} {ran : Bool}
    (h : hTick o m false pc = (m', .goto pc' ran)) : Good m m' n pc pc' := by
  cases pc with
  | get key hash cur =>
    refine hgood_get o ?_ h
    obtain ⟨-, d, h1, h2, -⟩ := hi
    omega
  | isEmpty => simp [hTick] at h
  | iterNew => exact good_iterNew h
  | iterNext lv out => exact good_iterNext h
  | trav st hash mode shift cur parent => exact hgood_trav o hh h
  | travCas st hash mode shift cur parent node new kind => exact hgood_travCas x hi hh h
  | rem key shift cur levels => exact hgood_rem o hh h
  | remCas key shift cur levels node new deleted => exact good_remCas hh h
  | count deleted ref parent child rest i cn => exact good_count h
  | prune parent child i acc k => exact hgood_prune x hi hh h
  | pruneCas parent child acc k => exact hgood_pruneCas x hi h

/-- What a call knows of the need to help. -/
theorem hTick_helps {weak : Bool} {o : Answers P} {pc pc' : PC K P} {ran : Bool} (hh : Helps m pc)
    (h : (hTick o m weak pc).2 = .goto pc' ran) : Helps m pc' := by
  cases pc with
  | get key hash cur =>
    simp only [hTick] at h
    unfold hTickGet at h
    repeat' split at h
    all_goals first
      | cases h; done
      | (cases h; trivial)
  | isEmpty => simp [hTick] at h
  | iterNew =>
    simp only [hTick, tickIterNew] at h
    cases h; trivial
  | iterNext lv out =>
    simp only [hTick] at h
    unfold tickIterNext at h
    repeat' split at h
    all_goals first
      | cases h; done
      | (cases h; trivial)
  | trav st hash mode shift cur parent =>
    exact (hgood_trav o (m' := m) (tk := 0) hh (by simp only [hTick] at h ⊢; rw [h])).1
  | travCas st hash mode shift cur parent node new kind =>
    simp only [hTick] at h
    unfold tickTravCas at h
    repeat' split at h
    all_goals first
      | cases h; done
      | exact helps_afterPrune h
      | (simp only [finishTrav] at h; split at h <;> cases h)
      | (cases h; exact hh)
      | skip
  | rem key shift cur levels =>
    exact (hgood_rem o (m' := m) (tk := 0) hh (by simp only [hTick] at h ⊢; rw [h])).1
  | remCas key shift cur levels node new deleted =>
    simp only [hTick] at h
    unfold tickRemCas at h
    repeat' split at h
    all_goals first
      | cases h; done
      | exact helps_enterClean h
      | (cases h; exact hh)
  | count deleted ref parent child rest i cnt =>
    exact (good_count (m' := m) (tk := 0) (by simp only [hTick] at h ⊢; rw [h])).1
  | prune parent child i acc k =>
    simp only [hTick, tickPrune] at h
    cases hp : child.ptr with
    | none => simp [hp] at h
    | some a =>
      simp only [hp] at h
      cases hr : m.read (.slot a i) with
      | none => simp [hr] at h
      | some gc =>
        simp only [hr] at h
        cases hpush : acc.push (m.write gc.condemn (.slot a i)) i gc with
        | error f => simp [hpush] at h
        | ok acc' =>
          simp only [hpush] at h
          by_cases h1 : i.val + 1 < 16
          · simp only [h1, dite_true] at h; cases h; cases k <;> exact hh
          · simp only [h1, dite_false] at h
            split at h
            · cases h
            · cases h; trivial
  | pruneCas parent child acc k =>
    simp only [hTick] at h
    unfold tickPruneCas at h
    repeat' split at h
    all_goals first
      | cases h; done
      | exact helps_afterPrune h

end Contrie
