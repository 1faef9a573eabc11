import Verif.Proof.OneRemTick
import Verif.Proof.Progress
/-
Executions in which removals do not overlap with each other: the steps of insertions.
-/
set_option linter.unusedSectionVars false
namespace Contrie
variable {K P : Type} [DecidableEq K]
variable {cfg : Config K P} {A : Nat → AMap K P} {W : Nat → Option (LP K P)} {m m' : Mem P} {weak : Bool}
  {I : K → Prop} {R : Option (BitVec 64 × PC K P)}

/-- The invariant after a step of an insertion of `k`. -/
def InsNext (cfg : Config K P) (m : Mem P) (I : K → Prop) (R : Option (BitVec 64 × PC K P)) (k : K) : Next K P → Prop
  | .goto pc _ => OInv cfg m I R ∧ HelpPC m R pc
  | .ret _ _ => OInv cfg m I R ∧ m.abs cfg k ≠ none
  | .fail _ => True

theorem finishTrav_one {mode : Mode} {r : Option (ExistingOrNew P)} {refs : List Nat} {k : K}
    (h : OInv cfg m I R) (hk : m.abs cfg k ≠ none) : InsNext cfg m I R k (finishTrav mode r refs : Next K P) := by
  unfold finishTrav
  split
  · exact ⟨h, hk⟩
  · split
    · trivial
    · exact ⟨h, hk⟩

theorem oneTrav {c : Call K P} (x : Ctx cfg A m c.inv) {st : TState K P} {hash : BitVec 64} {mode : Mode}
    {shift : Nat} {cur : Loc} {parent : Option (Loc × Word)}
    (hpc : c.pc = .trav st hash mode shift cur parent) (hi : PCInv cfg A m c) (hh : Helps m c.pc)
    (ho : OInv cfg m I R) :
    InsNext cfg (tick cfg m weak c.pc).1.bump I R (st.key cfg) (tick cfg m weak c.pc).2 := by
  simp only [PCInv, hpc] at hi
  simp only [Helps, hpc] at hh
  obtain ⟨d, rfl, ht⟩ := hi
  simp only [hpc, tick]
  obtain ⟨w, hr, hat, hheld, hok⟩ := x.read ht.loc
  cases hcond : w.cond with
  | true =>
    simp only [tickTrav, hr, hcond, if_true]
    cases hpar : parent with
    | none => trivial
    | some y =>
      obtain ⟨p, child⟩ := y
      obtain ⟨a, i, rfl, e2⟩ := hh p child hpar
      obtain ⟨a2, cs2, q2, h1, h2, h3, h4⟩ := ht.par _ hpar
      simp only at h1
      subst h1
      cases e2
      simp only [enterPrune, Bool.false_eq_true, if_false, InsNext]
      refine ⟨ho.bump, a, cs2, q2, rfl, h2, ?_, Acc2.init _ cs2, by intro j hj; simp at hj⟩
      intro hlive
      obtain ⟨c3, p3, g1, g2, g3⟩ := hat
      exact ho.s.clean a c3 p3 i g1 hlive (by rw [g3]; exact hcond)
  | false =>
    have hl := (x.h.clean_live hat hcond).liveLoc
    simp only [tickTrav, hr, hcond, Bool.false_eq_true, if_false]
    cases hp : w.ptr with
    | none => exact ⟨ho.bump, trivial⟩
    | some a =>
      cases hdt : w.data with
      | true =>
        obtain ⟨items, h1, h2, h3⟩ := x.load hok hheld hp hdt
        simp only [if_true, h1]
        cases items with
        | nil => trivial
        | cons d0 rest =>
          simp only
          split
          · split
            · trivial
            · exact ⟨ho.bump, trivial⟩
          · split
            · exact ⟨ho.bump, trivial⟩
            · next hm =>
              cases hf : (d0 :: rest).find? (fun l => decide (cfg.key l = st.key cfg)) with
              | none => rw [hf] at hm; simp at hm
              | some e =>
                refine finishTrav_one ho.bump ?_
                have : m.bump.abs cfg = m.abs cfg := abs_mem rfl rfl
                rw [this, x.h.live_abs hat hl (by rw [ht.hashEq]; exact pre_prefix _ _) (leafVal_data hp hdt h2), hf]
                simp
      | false =>
        simp only [Bool.false_eq_true, if_false]
        split
        · trivial
        · exact ⟨ho.bump, trivial⟩

theorem oneTravCas {c : Call K P} (x : Ctx cfg A m c.inv) {st : TState K P} {hash : BitVec 64} {mode : Mode}
    {shift : Nat} {cur : Loc} {parent : Option (Loc × Word)} {node : Word} {new : Node P} {kind : TKind P}
    (hpc : c.pc = .travCas st hash mode shift cur parent node new kind) (hi : PCInv cfg A m c)
    (hI : I (st.key cfg)) (ho : OInv cfg m I R) :
    InsNext cfg (tick cfg m weak c.pc).1.bump I R (st.key cfg) (tick cfg m weak c.pc).2 := by
  simp only [PCInv, hpc] at hi
  obtain ⟨d, rfl, ht, hcas⟩ := hi
  obtain ⟨w, hr, hat, hheld, hok⟩ := x.read ht.loc
  have hnn := x.h.fresh _ (Nat.le_refl _)
  by_cases hsucc : w = node ∧ weak = false
  · obtain ⟨rfl, rfl⟩ := hsucc
    have hkpre : pre hash d <+: nibs (cfg.hash (st.key cfg)) := by rw [ht.hashEq]; exact pre_prefix _ _
    have hsw := fun w' new ret => swing_swung hat hnn w' new ret
    have hnc : w.cond = false := by cases hcas <;> rfl
    have hlf : w.isLeaf := by
      cases hcas
      · exact isLeaf_null
      · exact Or.inr rfl
      · exact Or.inr rfl
    have hl := (x.h.clean_live hat hnc).liveLoc
    -- a new data node with `k` and whatever was there
    have fin : ∀ (l : List P) (ret : Option Nat), (∃ p ∈ l, cfg.key p = st.key cfg) → (∀ a, ret = some a → w.ptr = some a) →
        (∀ k', m'Abs cfg m cur l ret k' = if pre hash d <+: nibs (cfg.hash k') then
          l.find? (fun y => decide (cfg.key y = k')) else m.abs cfg k') →
        (∀ k', pre hash d <+: nibs (cfg.hash k') → m.abs cfg k' ≠ none → ∃ p ∈ l, cfg.key p = k') →
        OInv cfg (m.swing cur ⟨some m.next, false, true⟩ (some (.data l)) ret).bump I R ∧
        (m.swing cur ⟨some m.next, false, true⟩ (some (.data l)) ret).bump.abs cfg (st.key cfg) ≠ none := by
      intro l ret hk hret habs hmono
      have hfind : ∀ k', (∃ p ∈ l, cfg.key p = k') → l.find? (fun y => decide (cfg.key y = k')) ≠ none := by
        rintro k' ⟨p, hp, rfl⟩ hn
        rw [List.find?_eq_none] at hn
        exact hn p hp (by simp)
      have hmono' : ∀ k', m.abs cfg k' ≠ none → m'Abs cfg m cur l ret k' ≠ none := by
        intro k' hk'
        rw [habs]
        split
        · next hq => exact hfind _ (hmono k' hq hk')
        · exact hk'
      have hin : m'Abs cfg m cur l ret (st.key cfg) ≠ none := by
        rw [habs, if_pos hkpre]; exact hfind _ hk
      exact ⟨ho.leaf x.h (hsw _ _ _) hat hnc hlf (by simp) rfl hret hmono' (by intro c p e; cases e), hin⟩
    cases hcas with
    | fresh p hst =>
      subst hst
      obtain ⟨hinv, habs⟩ := x.h.setLeaf hat x.hA rfl isLeaf_null (l := [p])
        ⟨by simp, by intro y hy; simp at hy; subst hy; exact hkpre, by simp, Or.inl rfl⟩ (hsw _ _ _)
      obtain ⟨hfin, hin⟩ := fin [p] none ⟨p, by simp, rfl⟩ (by intro a e; cases e) habs (by
        intro k' hq hk'
        exact absurd (x.h.live_abs hat hl hq (leafVal_null rfl)) hk')
      have h1 : ∀ n, tickTravCas m false (.created p) hash mode (LEVEL_BITS * d) cur parent Word.null (.data [p]) .fresh =
            (m.swing cur ⟨some m.next, false, true⟩ (some (.data [p])) none, n) →
            InsNext cfg (m.swing cur ⟨some m.next, false, true⟩ (some (.data [p])) none).bump I R (cfg.key p) n →
            InsNext cfg (tick cfg m false c.pc).1.bump I R (cfg.key p) (tick cfg m false c.pc).2 := by
          intro n h1 h2
          rw [hpc]; simp only [tick]; rw [h1]; exact h2
      cases mode with
      | overwrite => exact h1 _ (by simp [tickTravCas, hr]; exact ⟨rfl, rfl⟩) (finishTrav_one hfin hin)
      | ifMissing => exact h1 _ (by simp [tickTravCas, hr]; exact ⟨rfl, rfl⟩) (finishTrav_one hfin hin)
    | split a d0 hh hm hd16 hne =>
      have hlen : (pre hash d).length = d := pre_length _ ht.len
      have h1 := hsw ⟨some m.next, false, false⟩ (some (Node.inner (upd (fun _ => Word.null)
        (bitsAt (cfg.hash (cfg.key d0)) (LEVEL_BITS * d)) ⟨some a, false, true⟩) (pre hash d))) none
      obtain ⟨hinv, habs⟩ := x.h.split hat x.hA rfl (by omega) rfl rfl hm (by rw [hlen]; exact h1)
      have htick : tick cfg m false c.pc = (m.swing cur ⟨some m.next, false, false⟩ (some (Node.inner (upd (fun _ => Word.null)
        (bitsAt (cfg.hash (cfg.key d0)) (LEVEL_BITS * d)) ⟨some a, false, true⟩) (pre hash d))) none,
          .goto (.trav st hash mode (LEVEL_BITS * d) cur parent) false) := by
        simp [hpc, tick, tickTravCas, hr]; rfl
      rw [htick]
      refine ⟨ho.leaf x.h h1 hat hnc hlf (by simp) rfl (by intro a e; cases e) (by intro k hk; rw [habs]; exact hk) ?_, trivial⟩
      intro c p e
      cases e
      refine ⟨Or.inr ⟨st.key cfg, hI, hkpre, cfg.key d0, hne, ?_⟩, ?_⟩
      · rw [habs]; exact x.h.item_under hat hl rfl rfl hm (by simp)
      · intro i
        by_cases e : i = bitsAt (cfg.hash (cfg.key d0)) (LEVEL_BITS * d)
        · rw [e, upd_same]
        · rw [upd_other _ _ e]; rfl
    | replace a p items hst hh hm hdok hdeep hmode =>
      subst hst
      have hkp : TState.key cfg (TState.created (K := K) p) = cfg.key p := rfl
      simp only [hkp] at hkpre hdeep hmode hpc fin
      generalize hl2 : items.filter (fun l => decide (cfg.key l ≠ cfg.key p)) ++ [p] = l2 at *
      have hdok2 : DataOK cfg l2 (pre hash d) := by
        subst hl2
        refine ⟨by simp, ?_, ?_, ?_⟩
        · intro y hy
          simp at hy
          rcases hy with hy | hy
          · exact hdok.pre y hy.1
          · subst hy; exact hkpre
        · rw [List.map_append, List.nodup_append]
          refine ⟨?_, by simp, ?_⟩
          · exact List.Nodup.sublist (List.Sublist.map _ List.filter_sublist) hdok.nodup
          · intro k1 h1 k2 h2
            simp at h1 h2
            obtain ⟨y, ⟨-, hy⟩, rfl⟩ := h1
            subst h2
            exact hy
        · rcases hdeep with h | ⟨d1, rfl, h1⟩
          · right; rw [pre_length _ ht.len]; exact h
          · left; simp [h1]
      obtain ⟨hinv, habs⟩ := x.h.setLeaf hat x.hA rfl hlf (l := l2) hdok2 (hsw _ _ _)
      obtain ⟨hfin, hin⟩ := fin l2 (some a) ⟨p, by rw [← hl2]; simp, rfl⟩ (by intro b e; cases e; rfl) habs (by
        intro k' hq hk'
        rw [x.h.live_abs hat hl hq (leafVal_data rfl rfl hm)] at hk'
        by_cases e : k' = cfg.key p
        · exact ⟨p, by rw [← hl2]; simp, e.symm⟩
        · cases hf : items.find? (fun y => decide (cfg.key y = k')) with
          | none => exact absurd hf hk'
          | some y =>
            have h1 := List.mem_of_find?_eq_some hf
            have h2 := List.find?_some hf
            simp at h2
            refine ⟨y, ?_, h2⟩
            rw [← hl2]
            simp only [List.mem_append, List.mem_filter, decide_eq_true_eq, List.mem_singleton]
            exact Or.inl ⟨h1, by rw [h2]; exact e⟩)
      have h1 : ∀ n, tickTravCas m false (.created p) hash mode (LEVEL_BITS * d) cur parent ⟨some a, false, true⟩ (.data l2)
            (.replace (items.find? (fun l => decide (cfg.key l = cfg.key p)))) =
          (m.swing cur ⟨some m.next, false, true⟩ (some (.data l2)) (some a), n) →
          InsNext cfg (m.swing cur ⟨some m.next, false, true⟩ (some (.data l2)) (some a)).bump I R (cfg.key p) n →
          InsNext cfg (tick cfg m false c.pc).1.bump I R (cfg.key p) (tick cfg m false c.pc).2 := by
        intro n h1 h2
        rw [hpc]; simp only [tick]; rw [h1]; exact h2
      cases hf : items.find? (fun l => decide (cfg.key l = cfg.key p)) with
      | none =>
        rw [hf] at h1
        cases mode with
        | overwrite => exact h1 _ (by simp [tickTravCas, hr]; exact ⟨rfl, rfl⟩) (finishTrav_one hfin hin)
        | ifMissing => exact h1 _ (by simp [tickTravCas, hr]; exact ⟨rfl, rfl⟩) (finishTrav_one hfin hin)
      | some e =>
        rw [hf] at h1
        exact h1 _ (by simp [tickTravCas, hr]; exact ⟨rfl, rfl⟩) (finishTrav_one hfin hin)
  · have htick : tick cfg m weak c.pc = (m, .goto (.trav st hash mode (LEVEL_BITS * d) cur parent) false) := by
      simp [hpc, tick, tickTravCas, hr, hsucc]
    rw [htick]
    exact ⟨ho.bump, trivial⟩

/-- A helper marks a cell. -/
theorem helpPrune {c : Call K P} (x : Ctx cfg A m c.inv) {parent : Loc} {child : Word} {i : Fin 16} {acc : PAcc}
    {st : TState K P} {hash : BitVec 64} {mode : Mode} {k : K}
    (hpc : c.pc = .prune parent child i acc (.trav st hash mode)) (hi : PCInv cfg A m c) (ho : OInv cfg m I R)
    (hh : HelpPC m R c.pc) :
    InsNext cfg (tick cfg m weak c.pc).1.bump I R k (tick cfg m weak c.pc).2 := by
  simp only [PCInv, hpc] at hi
  rw [hpc] at hh
  obtain ⟨hk, a2, cs2, q2, h1, h2, h3, h4, h5⟩ := hi
  have hh' : Help m R child i.val acc := hh
  obtain ⟨a, cs, q, rfl, hm, hlive, hacc, hcond⟩ := hh
  have ea : a = a2 := by cases h1; rfl
  subst ea
  have ec : cs = cs2 := by rw [hm] at h2; cases h2; rfl
  have eq2 : q = q2 := by rw [hm] at h2; cases h2; rfl
  subst ec
  subst eq2
  obtain ⟨w, hr, hatw, hheld, hok⟩ := x.read (loc := .slot a i) (q := q ++ [i]) ⟨cs, _, hm, rfl, h3⟩
  obtain ⟨c3, p3, hm3, -, rfl⟩ := hatw
  rw [hm] at hm3; cases hm3
  have ho' := ho.condemn x.h i hm hlive
  have hnext := fun acc' => hacc.next (acc' := acc') x.h hm
  have hret : (m.write (cs i).condemn (.slot a i)).bump.retired = m.retired := by rw [write_condemn i hm]; rfl
  have hm1a : (m.write (cs i).condemn (.slot a i)).bump.mem a = some (.inner (upd cs i (cs i).condemn) q) := by
    rw [write_condemn i hm]; simp [Mem.bump]
  simp only [hpc, tick, tickPrune, hr]
  generalize hm1 : m.write (cs i).condemn (.slot a i) = m1 at *
  have hfin : ∀ acc', acc.push m1 i (cs i) = .ok acc' → Help m1.bump R ⟨some a, false, false⟩ (i.val + 1) acc' := by
    intro acc' hp
    exact ⟨a, _, q, rfl, hm1a, by rw [hret]; exact hlive, hnext acc' hp, cond_next hcond⟩
  split
  · trivial
  · next acc' hpush =>
    split
    · exact ⟨ho', hfin acc' hpush⟩
    · next hlast =>
      simp only [Bool.false_eq_true, or_self, if_false]
      refine ⟨ho', ?_⟩
      have : i.val + 1 = 16 := by omega
      have h := hfin acc' hpush
      rw [this] at h
      exact h

/-- A node being pruned by the removal has been replaced by a helper. -/
theorem OInv.helped {h : BitVec 64} {pc : PC K P} {a : Nat}
    (ho : OInv cfg m I (some (h, pc))) (hi : MemInv cfg A m) (hA : A m.clock = m.abs cfg) (hpcon : pc.on = some a)
    {c : Fin 16 → Word} {p : List (Fin 16)} (hm : m.mem a = some (.inner c p))
    {loc : Loc} (hat : m.At loc p ⟨some a, false, false⟩)
    {acc : PAcc} (hacc : AccOK m c 16 acc) (hacc2 : Acc2 m c 16 acc) {w' : Word} {new : Option (Node P)}
    (hdec : acc.decide.1 = .word w' ∧ new = none ∨
      ∃ cells, acc.decide.1 = .copy cells ∧ w' = ⟨some m.next, false, false⟩ ∧ new = some (.inner cells p))
    (hsw : Swung m m' loc w' new (some a)) : OInv cfg m' I (some (h, pc)) := by
  have key : ∀ parent child rest n acc0, OnNode m h parent child rest n acc0 →
      (∀ m0 : Mem P, pc.todo m0 = rest.length + liveBit m0 child) → pc.on = child.ptr →
      (∀ m0, OnNode m0 h parent child rest n acc0 → RemPC m0 h pc) → OInv cfg m' I (some (h, pc)) := by
    intro parent child rest n acc0 hon htodo hpo hrem
    have ha : child.ptr = some a := by rw [← hpo]; exact hpcon
    obtain ⟨g0, g1, g2, g3, g4, g5⟩ := ho.pruned hi hA hon (htodo m) hpo hm ha hat hacc hacc2 hdec hsw
    have hbit : liveBit m' child = 0 := by simp [liveBit, ha, g5]
    refine ⟨?_, ?_⟩
    · refine g1.change ?_ (fun _ _ _ e => e.elim)
      rintro b cb pb - - (e | e | e)
      · exact Or.inl e
      · exact Or.inr (Or.inl e)
      · exact Or.inr (Or.inr ⟨h, pc, rfl, by rw [htodo, hbit]; exact e⟩)
    · rintro h' pc' e
      cases e
      apply hrem
      obtain ⟨e1, e2, a', c', e3, e4, e5, e6, e7⟩ := hon
      subst e3
      cases ha
      obtain ⟨c2, f1, f2⟩ := g4.inner a c' _ e4
      have hc : ∀ j : Fin 16, j.val < n → c2 j = c' j := fun j hj => f2 j (e7 j hj)
      exact ⟨g2, e2, a, c2, rfl, f1, fun e => absurd e g5, e6.evo g4.data hc, fun j hj => by rw [hc j hj]; exact e7 j hj⟩
  have hr := ho.r h pc rfl
  unfold PC.on at hpcon
  split at hpcon
  · exact key _ _ _ _ _ hr (fun _ => rfl) rfl (fun _ h => h)
  · exact key _ _ _ _ _ hr (fun _ => rfl) rfl (fun _ h => h)
  · cases hpcon

/-- The CAS of a helper. -/
theorem helpPruneCas {c : Call K P} (x : Ctx cfg A m c.inv) {parent : Loc} {child : Word} {acc : PAcc}
    {st : TState K P} {hash : BitVec 64} {mode : Mode} {k : K}
    (hpc : c.pc = .pruneCas parent child acc (.trav st hash mode)) (hi : PCInv cfg A m c) (ho : OInv cfg m I R)
    (hh : HelpPC m R c.pc) :
    InsNext cfg (tick cfg m weak c.pc).1.bump I R k (tick cfg m weak c.pc).2 := by
  simp only [PCInv, hpc] at hi
  rw [hpc] at hh
  obtain ⟨hk, a2, cs2, q2, h1, h2, h3, h4, haccok⟩ := hi
  obtain ⟨a, cs, q, rfl, hm, hlive, hacc, hcond⟩ := hh
  have ea : a = a2 := by cases h1; rfl
  subst ea
  have ec : cs = cs2 := by rw [hm] at h2; cases h2; rfl
  have eq2 : q = q2 := by rw [hm] at h2; cases h2; rfl
  subst ec
  subst eq2
  obtain ⟨w, hr, hatw, hheld, hok⟩ := x.read h4
  have hnn := x.h.fresh _ (Nat.le_refl _)
  have hderef : m.deref a = some (.inner cs q) := by simp [Mem.deref, x.hfree a h3, hm]
  by_cases hw : w = ⟨some a, false, false⟩
  · subst hw
    have hret : m.retired a = none := x.h.live _ _ a (x.h.at_follow hatw rfl) rfl
    obtain ⟨h, pc, rfl, hon⟩ := hlive hret
    cases hd : acc.decide with
    | mk ins res =>
      cases ins with
      | word w' =>
        have htick : tick cfg m weak c.pc = (m.swing parent w' none (some a), afterPrune res (.trav st hash mode)) := by
          simp [hpc, tick, tickPruneCas, hr, hderef, hd]; rfl
        have := ho.helped x.h x.hA hon hm hatw haccok hacc (Or.inl ⟨by rw [hd], rfl⟩) (swing_swung hatw hnn w' none (some a))
        rw [htick]
        exact ⟨this, trivial⟩
      | copy cells =>
        have htick : tick cfg m weak c.pc = (m.swing parent ⟨some m.next, false, false⟩ (some (.inner cells q)) (some a),
            afterPrune res (.trav st hash mode)) := by
          simp [hpc, tick, tickPruneCas, hr, hderef, hd]; rfl
        have := ho.helped x.h x.hA hon hm hatw haccok hacc
          (Or.inr ⟨cells, by rw [hd], rfl, rfl⟩) (swing_swung hatw hnn _ _ (some a))
        rw [htick]
        exact ⟨this, trivial⟩
  · have htick : tick cfg m weak c.pc = (m, afterPrune .casFail (.trav st hash mode)) := by
      simp [hpc, tick, tickPruneCas, hr, hderef, hw]
    rw [htick]
    exact ⟨ho.bump, trivial⟩

end Contrie
