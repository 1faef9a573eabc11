import Verif.Proof.ZoneTick
/-
Executions in which removals of keys below `g` do not overlap: the steps of all calls but the removals of such keys.
-/
set_option linter.unusedSectionVars false
namespace Contrie
variable {K P : Type} [DecidableEq K]
variable {cfg : Config K P} {A : Nat → AMap K P} {W : Nat → Option (LP K P)} {m m' : Mem P} {weak : Bool}
  {I : K → Prop} {R : Option (BitVec 64 × PC K P)} {g : List (Fin 16)}

theorem finishTrav_zone {mode : Mode} {r : Option (ExistingOrNew P)} {refs : List Nat} {ok : Prop}
    (h : ZInv cfg g m I R) (hk : ok) : ZOut cfg g m I R ok (finishTrav mode r refs : Next K P) := by
  unfold finishTrav
  split
  · exact ⟨h, hk⟩
  · split
    · trivial
    · exact ⟨h, hk⟩

theorem zoneTrav {c : Call K P} (x : Ctx cfg A m c.inv) {st : TState K P} {hash : BitVec 64} {mode : Mode}
    {shift : Nat} {cur : Loc} {parent : Option (Loc × Word)}
    (hpc : c.pc = .trav st hash mode shift cur parent) (hi : PCInv cfg A m c) (hh : Helps m c.pc)
    (ho : ZInv cfg g m I R) :
    ZOut cfg g (tick cfg m weak c.pc).1.bump I R ((tick cfg m weak c.pc).1.bump.abs cfg (st.key cfg) ≠ none) (tick cfg m weak c.pc).2 := by
  simp only [PCInv, hpc] at hi
  simp only [Helps, hpc] at hh
  obtain ⟨d, rfl, ht⟩ := hi
  simp only [hpc, tick]
  obtain ⟨w, hr, hat, hheld, hok⟩ := x.read ht.loc
  cases hcond : w.cond with
  | true =>
    simp only [tickTrav, hr, hcond, if_true]
    cases hpar : parent with
    | none => trivial
    | some y =>
      obtain ⟨p, child⟩ := y
      obtain ⟨a, i, rfl, e2⟩ := hh p child hpar
      obtain ⟨a2, cs2, q2, h1, h2, h3, h4⟩ := ht.par _ hpar
      simp only at h1
      subst h1
      cases e2
      simp only [enterPrune, Bool.false_eq_true, if_false, ZOut]
      exact ⟨ho.bump, (HelpZ.enter ho hat hcond h2).bump⟩
  | false =>
    have hl := (x.h.clean_live hat hcond).liveLoc
    simp only [tickTrav, hr, hcond, Bool.false_eq_true, if_false]
    cases hp : w.ptr with
    | none => exact ⟨ho.bump, trivial⟩
    | some a =>
      cases hdt : w.data with
      | true =>
        obtain ⟨items, h1, h2, h3⟩ := x.load hok hheld hp hdt
        simp only [if_true, h1]
        cases items with
        | nil => trivial
        | cons d0 rest =>
          simp only
          split
          · split
            · trivial
            · exact ⟨ho.bump, trivial⟩
          · split
            · exact ⟨ho.bump, trivial⟩
            · next hm =>
              cases hf : (d0 :: rest).find? (fun l => decide (cfg.key l = st.key cfg)) with
              | none => rw [hf] at hm; simp at hm
              | some e =>
                refine finishTrav_zone ho.bump ?_
                have : m.bump.abs cfg = m.abs cfg := abs_mem rfl rfl
                rw [this, x.h.live_abs hat hl (by rw [ht.hashEq]; exact pre_prefix _ _) (leafVal_data hp hdt h2), hf]
                simp
      | false =>
        simp only [Bool.false_eq_true, if_false]
        split
        · trivial
        · exact ⟨ho.bump, trivial⟩

theorem zoneTravCas {c : Call K P} (x : Ctx cfg A m c.inv) {st : TState K P} {hash : BitVec 64} {mode : Mode}
    {shift : Nat} {cur : Loc} {parent : Option (Loc × Word)} {node : Word} {new : Node P} {kind : TKind P}
    (hpc : c.pc = .travCas st hash mode shift cur parent node new kind) (hi : PCInv cfg A m c)
    (hI : I (st.key cfg)) (ho : ZInv cfg g m I R) :
    ZOut cfg g (tick cfg m weak c.pc).1.bump I R ((tick cfg m weak c.pc).1.bump.abs cfg (st.key cfg) ≠ none) (tick cfg m weak c.pc).2 := by
  simp only [PCInv, hpc] at hi
  obtain ⟨d, rfl, ht, hcas⟩ := hi
  obtain ⟨w, hr, hat, hheld, hok⟩ := x.read ht.loc
  have hnn := x.h.fresh _ (Nat.le_refl _)
  by_cases hsucc : w = node ∧ weak = false
  · obtain ⟨rfl, rfl⟩ := hsucc
    have hkpre : pre hash d <+: nibs (cfg.hash (st.key cfg)) := by rw [ht.hashEq]; exact pre_prefix _ _
    have hsw := fun w' new ret => swing_swung hat hnn w' new ret
    have hnc : w.cond = false := by cases hcas <;> rfl
    have hlf : w.isLeaf := by
      cases hcas
      · exact isLeaf_null
      · exact Or.inr rfl
      · exact Or.inr rfl
    have hl := (x.h.clean_live hat hnc).liveLoc
    -- a new data node with `k` and whatever was there
    have fin : ∀ (l : List P) (ret : Option Nat), (∃ p ∈ l, cfg.key p = st.key cfg) → (∀ a, ret = some a → w.ptr = some a) →
        (∀ k', m'Abs cfg m cur l ret k' = if pre hash d <+: nibs (cfg.hash k') then
          l.find? (fun y => decide (cfg.key y = k')) else m.abs cfg k') →
        (∀ k', pre hash d <+: nibs (cfg.hash k') → m.abs cfg k' ≠ none → ∃ p ∈ l, cfg.key p = k') →
        ZInv cfg g (m.swing cur ⟨some m.next, false, true⟩ (some (.data l)) ret).bump I R ∧
        (m.swing cur ⟨some m.next, false, true⟩ (some (.data l)) ret).bump.abs cfg (st.key cfg) ≠ none := by
      intro l ret hk hret habs hmono
      have hfind : ∀ k', (∃ p ∈ l, cfg.key p = k') → l.find? (fun y => decide (cfg.key y = k')) ≠ none := by
        rintro k' ⟨p, hp, rfl⟩ hn
        rw [List.find?_eq_none] at hn
        exact hn p hp (by simp)
      have hmono' : ∀ k', m.abs cfg k' ≠ none → m'Abs cfg m cur l ret k' ≠ none := by
        intro k' hk'
        rw [habs]
        split
        · next hq => exact hfind _ (hmono k' hq hk')
        · exact hk'
      have hin : m'Abs cfg m cur l ret (st.key cfg) ≠ none := by
        rw [habs, if_pos hkpre]; exact hfind _ hk
      exact ⟨ho.swung x.h (hsw _ _ _) hat hnc rfl hret (Or.inr ⟨hlf, by simp⟩) (fun k' _ => hmono' k') (by intro c p e; cases e), hin⟩
    cases hcas with
    | fresh p hst =>
      subst hst
      obtain ⟨hinv, habs⟩ := x.h.setLeaf hat x.hA rfl isLeaf_null (l := [p])
        ⟨by simp, by intro y hy; simp at hy; subst hy; exact hkpre, by simp, Or.inl rfl⟩ (hsw _ _ _)
      obtain ⟨hfin, hin⟩ := fin [p] none ⟨p, by simp, rfl⟩ (by intro a e; cases e) habs (by
        intro k' hq hk'
        exact absurd (x.h.live_abs hat hl hq (leafVal_null rfl)) hk')
      have h1 : ∀ n, tickTravCas m false (.created p) hash mode (LEVEL_BITS * d) cur parent Word.null (.data [p]) .fresh =
            (m.swing cur ⟨some m.next, false, true⟩ (some (.data [p])) none, n) →
            ZOut cfg g (m.swing cur ⟨some m.next, false, true⟩ (some (.data [p])) none).bump I R ((m.swing cur ⟨some m.next, false, true⟩ (some (.data [p])) none).bump.abs cfg (cfg.key p) ≠ none) n →
            ZOut cfg g (tick cfg m false c.pc).1.bump I R ((tick cfg m false c.pc).1.bump.abs cfg (cfg.key p) ≠ none) (tick cfg m false c.pc).2 := by
          intro n h1 h2
          rw [hpc]; simp only [tick]; rw [h1]; exact h2
      cases mode with
      | overwrite => exact h1 _ (by simp [tickTravCas, hr]; exact ⟨rfl, rfl⟩) (finishTrav_zone hfin hin)
      | ifMissing => exact h1 _ (by simp [tickTravCas, hr]; exact ⟨rfl, rfl⟩) (finishTrav_zone hfin hin)
    | split a d0 hh hm hd16 hne =>
      have hlen : (pre hash d).length = d := pre_length _ ht.len
      have h1 := hsw ⟨some m.next, false, false⟩ (some (Node.inner (upd (fun _ => Word.null)
        (bitsAt (cfg.hash (cfg.key d0)) (LEVEL_BITS * d)) ⟨some a, false, true⟩) (pre hash d))) none
      obtain ⟨hinv, habs⟩ := x.h.split hat x.hA rfl (by omega) rfl rfl hm (by rw [hlen]; exact h1)
      have htick : tick cfg m false c.pc = (m.swing cur ⟨some m.next, false, false⟩ (some (Node.inner (upd (fun _ => Word.null)
        (bitsAt (cfg.hash (cfg.key d0)) (LEVEL_BITS * d)) ⟨some a, false, true⟩) (pre hash d))) none,
          .goto (.trav st hash mode (LEVEL_BITS * d) cur parent) false) := by
        simp [hpc, tick, tickTravCas, hr]; rfl
      rw [htick]
      refine ⟨ho.swung x.h h1 hat hnc rfl (by intro a e; cases e) (Or.inr ⟨hlf, by simp⟩) (by intro k _ hk; rw [habs]; exact hk) ?_, trivial⟩
      intro c p e
      cases e
      refine ⟨fun _ => Or.inr ⟨st.key cfg, hI, hkpre, cfg.key d0, hne, ?_⟩, ?_⟩
      · rw [habs]; exact x.h.item_under hat hl rfl rfl hm (by simp)
      · intro i
        by_cases e : i = bitsAt (cfg.hash (cfg.key d0)) (LEVEL_BITS * d)
        · rw [e, upd_same]
        · rw [upd_other _ _ e]; rfl
    | replace a p items hst hh hm hdok hdeep hmode =>
      subst hst
      have hkp : TState.key cfg (TState.created (K := K) p) = cfg.key p := rfl
      simp only [hkp] at hkpre hdeep hmode hpc fin
      generalize hl2 : items.filter (fun l => decide (cfg.key l ≠ cfg.key p)) ++ [p] = l2 at *
      have hdok2 : DataOK cfg l2 (pre hash d) := by
        subst hl2
        refine ⟨by simp, ?_, ?_, ?_⟩
        · intro y hy
          simp at hy
          rcases hy with hy | hy
          · exact hdok.pre y hy.1
          · subst hy; exact hkpre
        · rw [List.map_append, List.nodup_append]
          refine ⟨?_, by simp, ?_⟩
          · exact List.Nodup.sublist (List.Sublist.map _ List.filter_sublist) hdok.nodup
          · intro k1 h1 k2 h2
            simp at h1 h2
            obtain ⟨y, ⟨-, hy⟩, rfl⟩ := h1
            subst h2
            exact hy
        · rcases hdeep with h | ⟨d1, rfl, h1⟩
          · right; rw [pre_length _ ht.len]; exact h
          · left; simp [h1]
      obtain ⟨hinv, habs⟩ := x.h.setLeaf hat x.hA rfl hlf (l := l2) hdok2 (hsw _ _ _)
      obtain ⟨hfin, hin⟩ := fin l2 (some a) ⟨p, by rw [← hl2]; simp, rfl⟩ (by intro b e; cases e; rfl) habs (by
        intro k' hq hk'
        rw [x.h.live_abs hat hl hq (leafVal_data rfl rfl hm)] at hk'
        by_cases e : k' = cfg.key p
        · exact ⟨p, by rw [← hl2]; simp, e.symm⟩
        · cases hf : items.find? (fun y => decide (cfg.key y = k')) with
          | none => exact absurd hf hk'
          | some y =>
            have h1 := List.mem_of_find?_eq_some hf
            have h2 := List.find?_some hf
            simp at h2
            refine ⟨y, ?_, h2⟩
            rw [← hl2]
            simp only [List.mem_append, List.mem_filter, decide_eq_true_eq, List.mem_singleton]
            exact Or.inl ⟨h1, by rw [h2]; exact e⟩)
      have h1 : ∀ n, tickTravCas m false (.created p) hash mode (LEVEL_BITS * d) cur parent ⟨some a, false, true⟩ (.data l2)
            (.replace (items.find? (fun l => decide (cfg.key l = cfg.key p)))) =
          (m.swing cur ⟨some m.next, false, true⟩ (some (.data l2)) (some a), n) →
          ZOut cfg g (m.swing cur ⟨some m.next, false, true⟩ (some (.data l2)) (some a)).bump I R ((m.swing cur ⟨some m.next, false, true⟩ (some (.data l2)) (some a)).bump.abs cfg (cfg.key p) ≠ none) n →
          ZOut cfg g (tick cfg m false c.pc).1.bump I R ((tick cfg m false c.pc).1.bump.abs cfg (cfg.key p) ≠ none) (tick cfg m false c.pc).2 := by
        intro n h1 h2
        rw [hpc]; simp only [tick]; rw [h1]; exact h2
      cases hf : items.find? (fun l => decide (cfg.key l = cfg.key p)) with
      | none =>
        rw [hf] at h1
        cases mode with
        | overwrite => exact h1 _ (by simp [tickTravCas, hr]; exact ⟨rfl, rfl⟩) (finishTrav_zone hfin hin)
        | ifMissing => exact h1 _ (by simp [tickTravCas, hr]; exact ⟨rfl, rfl⟩) (finishTrav_zone hfin hin)
      | some e =>
        rw [hf] at h1
        exact h1 _ (by simp [tickTravCas, hr]; exact ⟨rfl, rfl⟩) (finishTrav_zone hfin hin)
  · have htick : tick cfg m weak c.pc = (m, .goto (.trav st hash mode (LEVEL_BITS * d) cur parent) false) := by
      simp [hpc, tick, tickTravCas, hr, hsucc]
    rw [htick]
    exact ⟨ho.bump, trivial⟩


/-! ### Removals of other keys -/

theorem zoneRem {c : Call K P} (x : Ctx cfg A m c.inv) {key : K} {shift : Nat} {cur : Loc} {levels : List (Loc × Word)}
    (hpc : c.pc = .rem key shift cur levels) (hi : PCInv cfg A m c) (hh : Helps m c.pc) (ho : ZInv cfg g m I R) :
    ZOut cfg g (tick cfg m weak c.pc).1.bump I R True (tick cfg m weak c.pc).2 := by
  simp only [PCInv, hpc] at hi
  simp only [Helps, hpc] at hh
  obtain ⟨hreq, hcalls, d, rfl, ht⟩ := hi
  obtain ⟨w, hr, hat, hheld, hok⟩ := x.read ht.loc
  simp only [hpc, tick, tickRem, hr]
  cases hp : w.ptr with
  | none => exact ⟨ho.bump, trivial⟩
  | some b =>
    simp only
    cases hcond : w.cond with
    | true =>
      simp only [if_true]
      cases hlv : levels with
      | nil => trivial
      | cons y rest =>
        obtain ⟨p, child⟩ := y
        obtain ⟨a, i, rfl, e2⟩ := hh p child (by rw [hlv]; rfl)
        obtain ⟨a2, cs2, q2, h1, h2, h3, h4⟩ := ht.levels_ok (p, child) (by rw [hlv]; simp)
        simp only at h1
        subst h1
        cases e2
        simp only [enterPrune, Bool.false_eq_true, if_false, ZOut]
        exact ⟨ho.bump, (HelpZ.enter ho hat hcond h2).bump⟩
    | false =>
      simp only [Bool.false_eq_true, if_false]
      split
      · split
        · trivial
        · split
          · exact ⟨ho.bump, trivial⟩
          · exact ⟨ho.bump, trivial⟩
      · split
        · trivial
        · split
          · trivial
          · exact ⟨ho.bump, trivial⟩

theorem zoneRemCas {c : Call K P} (x : Ctx cfg A m c.inv) {key : K} {shift : Nat} {cur : Loc}
    {levels : List (Loc × Word)} {node : Word} {new : List P} {deleted : P}
    (hpc : c.pc = .remCas key shift cur levels node new deleted) (hi : PCInv cfg A m c)
    (hok' : TickOK cfg A W m c (tick cfg m weak c.pc)) (hW : W m.clock = lpOf cfg m weak c)
    (ho : ZInv cfg g m I R) (hg : ¬ g <+: nibs (cfg.hash key)) :
    ZOut cfg g (tick cfg m weak c.pc).1.bump I R True (tick cfg m weak c.pc).2 := by
  simp only [PCInv, hpc] at hi
  obtain ⟨hreq, hcalls, d, a, items, rfl, ht, rfl, hh, hm, hdok, hnew, hf⟩ := hi
  obtain ⟨w, hr, hat, hheld, hok⟩ := x.read ht.loc
  have hnn := x.h.fresh _ (Nat.le_refl _)
  by_cases hsucc : w = ⟨some a, false, true⟩ ∧ weak = false
  · obtain ⟨rfl, rfl⟩ := hsucc
    have hWs : W m.clock = some ⟨c.inv, .remove key, .opt (some deleted)⟩ := by
      rw [hW]; simp [lpOf, hpc, hreq, hr]
    have hlp := hok'.lp
    rw [hWs] at hlp
    simp only [AMap.apply, Prod.mk.injEq] at hlp
    have habs := hlp.2.2.1
    have fin : ∀ w' new, w'.cond = false → (∀ c p, new ≠ some (.inner c p)) →
        tick cfg m false c.pc = (m.swing cur w' new (some a), enterClean deleted a levels) →
        ZOut cfg g (tick cfg m false c.pc).1.bump I R True (tick cfg m false c.pc).2 := by
      intro w' new hw' hn htick
      have hsw := swing_swung hat hnn w' new (some a)
      rw [htick] at habs ⊢
      simp only at habs ⊢
      have habs' : (m.swing cur w' new (some a)).bump.abs cfg = (m.abs cfg).set key none := by
        rw [habs]; exact abs_mem rfl rfl
      have hz : ZInv cfg g (m.swing cur w' new (some a)).bump I R := by
        refine ho.swung x.h hsw hat rfl hw' (by intro b e; cases e; rfl) (Or.inl ?_) ?_ (fun c p e => absurd e (hn c p))
        · intro e
          exact hg (e.1.trans (pre_prefix _ _))
        · intro k hk h
          have : k ≠ key := by intro e; subst e; exact hg hk
          rw [habs']
          simp only [AMap.set, this, if_false]; exact h
      unfold enterClean
      split
      · exact ⟨hz, trivial⟩
      · split
        · trivial
        · exact ⟨hz, trivial⟩
    cases hn : new with
    | nil =>
      refine fin Word.null none rfl (by intro c p e; cases e) ?_
      simp [hpc, tick, tickRemCas, hr, hn]; rfl
    | cons y rest =>
      refine fin ⟨some m.next, false, true⟩ (some (.data new)) rfl (by intro c p e; cases e) ?_
      subst hn
      simp [hpc, tick, tickRemCas, hr]; rfl
  · have htick : tick cfg m weak c.pc = (m, .goto (.rem key (LEVEL_BITS * d) cur levels) false) := by
      simp [hpc, tick, tickRemCas, hr, hsucc]
    rw [htick]
    exact ⟨ho.bump, trivial⟩

theorem zoneCount {c : Call K P} (x : Ctx cfg A m c.inv) {deleted : P} {ref : Nat} {parent : Loc} {child : Word}
    {rest : List (Loc × Word)} {i : Fin 16} {cnt : Nat} {key : K}
    (hpc : c.pc = .count deleted ref parent child rest i cnt) (hi : PCInv cfg A m c) (ho : ZInv cfg g m I R) (hg : ¬ g <+: nibs (cfg.hash key))
    (hpath : ∀ y ∈ c.pc.pairs, OnPath cfg m key y.2) :
    ZOut cfg g (tick cfg m weak c.pc).1.bump I R True (tick cfg m weak c.pc).2 := by
  simp only [PCInv, hpc] at hi
  obtain ⟨hreq, hcalls, hcl, a2, cs2, q2, h1, h2, h3, h4⟩ := hi
  simp only at h1
  subst h1
  obtain ⟨w, hr, hatw, -, -⟩ := x.read (loc := .slot a2 i) (q := q2 ++ [i]) ⟨cs2, q2, h2, rfl, h3⟩
  obtain ⟨a3, c3, q3, e1, e2, e3⟩ := hpath (parent, ⟨some a2, false, false⟩) (by rw [hpc]; simp [PC.pairs])
  cases e1
  rw [h2] at e2; cases e2
  simp only [hpc, tick, tickCount, hr]
  generalize (if w.ptr.isSome = true then cnt + 1 else cnt) = cnt'
  split
  · exact ⟨ho.bump, trivial⟩
  · split
    · exact ⟨ho.bump, trivial⟩
    · simp only [enterPrune, Bool.false_eq_true, if_false, ZOut]
      refine ⟨ho.bump, a2, cs2, q2, rfl, h2, ?_, Acc2.init _ cs2, by intro j hj; simp at hj⟩
      intro e
      exact absurd (e.trans e3) hg

/-- A step of a removal of a key that is not below `g`. -/
theorem zoneRemoval {c : Call K P} (x : Ctx cfg A m c.inv) (hi : PCInv cfg A m c) (hh : Helps m c.pc) (hl : LinInv W m.clock c)
    (hW : W m.clock = lpOf cfg m weak c) {k : K} (hreq : c.req = .op (.remove k)) (hg : ¬ g <+: nibs (cfg.hash k))
    (hpath : ∀ y ∈ c.pc.pairs, OnPath cfg m k y.2) (ho : ZInv cfg g m I R) (hp : HelpZPC g m R c.pc) :
    ZOut cfg g (tick cfg m weak c.pc).1.bump I R True (tick cfg m weak c.pc).2 := by
  have h := hi
  unfold PCInv at h
  have hcas : ∀ res kk, ZInv cfg g (tick cfg m weak c.pc).1.bump I R →
      ZOut cfg g (tick cfg m weak c.pc).1.bump I R True (afterPrune res kk : Next K P) := by
    intro res kk hz
    unfold afterPrune
    split
    · exact ⟨hz, trivial⟩
    · exact ⟨hz, trivial⟩
    · split
      · exact ⟨hz, trivial⟩
      · unfold enterClean
        split
        · exact ⟨hz, trivial⟩
        · split
          · trivial
          · exact ⟨hz, trivial⟩
  cases hpc : c.pc with
  | get => simp only [hpc] at h; rw [h.1] at hreq; cases hreq
  | isEmpty => simp only [hpc] at h; rw [h.1] at hreq; cases hreq
  | iterNew => simp only [hpc] at h; rw [h.1] at hreq; cases hreq
  | iterNext => simp only [hpc] at h; rw [h.1] at hreq; cases hreq
  | trav st hash mode shift cur parent =>
    simp only [hpc] at h
    obtain ⟨d, -, ht⟩ := h
    have := ht.req.insKey
    rw [hreq] at this; cases this
  | travCas st hash mode shift cur parent node new kind =>
    simp only [hpc] at h
    obtain ⟨d, -, ht, -⟩ := h
    have := ht.req.insKey
    rw [hreq] at this; cases this
  | rem => rw [← hpc]; exact zoneRem x hpc hi hh ho
  | remCas key shift cur levels node new deleted =>
    have hk : key = k := by
      simp only [hpc] at h
      rw [hreq] at h
      have := h.1
      injection this with this; injection this with this; exact this.symm
    subst hk
    rw [← hpc]; exact zoneRemCas x hpc hi (tick_ok x hi hl hW) hW ho hg
  | count => rw [← hpc]; exact zoneCount x hpc hi ho hg hpath
  | prune parent child i acc kk => rw [← hpc]; exact zonePrune x hpc hi ho hp
  | pruneCas parent child acc kk =>
    rw [← hpc]
    obtain ⟨a, q, cs, res, -, -, -, e, hz, -⟩ := zonePruneCas (weak := weak) x hpc hi ho hp
    rw [e]
    exact hcas res kk hz

/-- A step of an insertion. -/
theorem zoneInsert {c : Call K P} (x : Ctx cfg A m c.inv) (hi : PCInv cfg A m c) (hh : Helps m c.pc)
    {k : K} (hreq : c.req.insKey cfg = some k) (hI : I k) (ho : ZInv cfg g m I R) (hp : HelpZPC g m R c.pc) :
    ZOut cfg g (tick cfg m weak c.pc).1.bump I R ((tick cfg m weak c.pc).1.bump.abs cfg k ≠ none) (tick cfg m weak c.pc).2 := by
  have h := hi
  unfold PCInv at h
  cases hpc : c.pc with
  | get => simp only [hpc] at h; rw [h.1] at hreq; cases hreq
  | isEmpty => simp only [hpc] at h; rw [h.1] at hreq; cases hreq
  | iterNew => simp only [hpc] at h; rw [h.1] at hreq; cases hreq
  | iterNext => simp only [hpc] at h; rw [h.1] at hreq; cases hreq
  | rem => simp only [hpc] at h; rw [h.1] at hreq; cases hreq
  | remCas => simp only [hpc] at h; rw [h.1] at hreq; cases hreq
  | count => simp only [hpc] at h; obtain ⟨⟨k, e⟩, -⟩ := h; rw [e] at hreq; cases hreq
  | trav st hash mode shift cur parent =>
    simp only [hpc] at h
    obtain ⟨d, -, ht⟩ := h
    rw [ht.req.insKey] at hreq; cases hreq
    rw [← hpc]
    exact zoneTrav x hpc hi hh ho
  | travCas st hash mode shift cur parent node new kind =>
    simp only [hpc] at h
    obtain ⟨d, -, ht, -⟩ := h
    rw [ht.req.insKey] at hreq; cases hreq
    rw [← hpc]
    exact zoneTravCas x hpc hi hI ho
  | prune parent child i acc kk => rw [← hpc]; exact zonePrune x hpc hi ho hp
  | pruneCas parent child acc kk =>
    have hkk : ∃ st hash mode, kk = .trav st hash mode := by
      simp only [hpc] at h
      cases kk with
      | trav => exact ⟨_, _, _, rfl⟩
      | rem => rw [h.1.1] at hreq; cases hreq
      | clean => obtain ⟨⟨⟨⟨k, e⟩, -⟩, -⟩, -⟩ := h; rw [e] at hreq; cases hreq
    obtain ⟨st, hash, mode, rfl⟩ := hkk
    rw [← hpc]
    obtain ⟨a, q, cs, res, -, -, -, e, hz, -⟩ := zonePruneCas (weak := weak) x hpc hi ho hp
    rw [e]
    exact ⟨hz, trivial⟩

end Contrie
