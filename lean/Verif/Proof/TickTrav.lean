import Verif.Proof.Tick
/-
Steps of `traverse` (insert, get_or_insert_with).
-/
set_option linter.unusedSectionVars false
namespace Contrie
variable {K P : Type} [DecidableEq K]
variable {cfg : Config K P} {A : Nat → AMap K P} {W : Nat → Option (LP K P)} {m : Mem P} {s : Nat} {weak : Bool}

theorem find_filter_ne (key : P → K) (k k' : K) (l : List P) :
    (l.filter (fun x => decide (key x ≠ k))).find? (fun x => decide (key x = k')) =
      if k' = k then none else l.find? (fun x => decide (key x = k')) := by
  induction l with
  | nil => simp
  | cons y l ih =>
    simp only [List.filter_cons, List.find?_cons]
    by_cases h1 : key y = k
    · simp only [h1, ne_eq, not_true, decide_false, Bool.false_eq_true, if_false]
      simp only [ne_eq] at ih
      rw [ih]
      by_cases h2 : k' = k
      · simp [h2]
      · have : ¬ k = k' := fun e => h2 e.symm
        simp [h2, this]
    · simp only [h1, ne_eq, not_false_iff, decide_true, if_true, List.find?_cons]
      by_cases h2 : key y = k'
      · have : ¬ k' = k := by rw [← h2]; exact h1
        simp [h2, this]
      · simp only [h2, decide_false]
        exact ih

theorem find_append_one (key : P → K) (k' : K) (l : List P) (p : P) :
    (l ++ [p]).find? (fun x => decide (key x = k')) =
      (l.find? (fun x => decide (key x = k'))).or (if key p = k' then some p else none) := by
  rw [List.find?_append]
  congr 1
  by_cases h : key p = k' <;> simp [h]

theorem word_eq_data {w : Word} {a : Nat} (hp : w.ptr = some a) (hd : w.data = true) (hc : w.cond = false) :
    w = ⟨some a, false, true⟩ := by cases w; simp_all

theorem word_eq_inner {w : Word} {a : Nat} (hp : w.ptr = some a) (hd : w.data = false) (hc : w.cond = false) :
    w = ⟨some a, false, false⟩ := by cases w; simp_all

theorem word_eq_null {w : Word} {q : List (Fin 16)} (hw : WordOK cfg m w q) (hp : w.ptr = none) (hc : w.cond = false) :
    w = Word.null := by
  simp only [WordOK, hp] at hw
  cases w; simp_all [Word.null]

theorem tickTrav_ok {c : Call K P} (x : Ctx cfg A m c.inv) {st : TState K P} {hash : BitVec 64} {mode : Mode}
    {shift : Nat} {cur : Loc} {parent : Option (Loc × Word)}
    (hpc : c.pc = .trav st hash mode shift cur parent) (hi : PCInv cfg A m c) (hl : LinInv W m.clock c)
    (hW : W m.clock = lpOf cfg m weak c) : TickOK cfg A W m c (tick cfg m weak c.pc) := by
  have hWn : W m.clock = none := by rw [hW]; simp only [lpOf, hpc]; split <;> rfl
  simp only [PCInv, hpc] at hi
  simp only [LinInv, hpc, PC.taken] at hl
  have hl' : NotYet W m.bump.clock c.inv := NotYet.succ hl hWn
  obtain ⟨d, rfl, ht⟩ := hi
  have hs := Nat.le_of_lt x.hs
  have ev := Evo.bump m
  simp only [hpc, tick]
  refine .quiet x hWn ?_
  obtain ⟨w, hr, hat, hheld, hok⟩ := x.read ht.loc
  simp only [tickTrav, hr]
  have hbits : ∀ {d : Nat}, LEVEL_BITS * d < HASH_BITS ↔ d < 16 := by
    intro d; simp only [LEVEL_BITS, HASH_BITS]; omega
  cases hcond : w.cond with
  | true =>
    simp only [if_true]
    cases hpar : parent with
    | none =>
      have := ht.par0 hpar
      subst this
      obtain ⟨-, rfl⟩ := hat
      rw [x.h.rootClean] at hcond; cases hcond
    | some y =>
      obtain ⟨pl, child⟩ := y
      refine enterPrune_next ((ht.par _ hpar).evo ev hs) ⟨ht.req, ht.hashEq⟩ ?_
      intro i acc
      exact hl'
  | false =>
    simp only [Bool.false_eq_true, if_false]
    have hmake := ht.req.make
    have hkey := ht.req.key_payload
    cases hp : w.ptr with
    | none =>
      simp only [NextInv, PCInv, LinInv, PC.taken]
      refine ⟨⟨d, rfl, ⟨hmake, ?_, ht.len, ht.loc.evo ev hs, ht.par0, fun y hy => (ht.par y hy).evo ev hs⟩, ?_⟩, hl'⟩
      · rw [ht.hashEq]; exact congrArg cfg.hash hkey.symm
      · rw [word_eq_null hok hp hcond]; exact .fresh _ rfl
    | some a =>
      cases hdt : w.data with
      | true =>
        obtain ⟨items, h1, h2, h3⟩ := x.load hok hheld hp hdt
        simp only [if_true, h1]
        cases items with
        | nil => exact absurd rfl h3.ne
        | cons d0 rest =>
          simp only
          have hshort : rest = [] ∨ d = 16 := by
            rcases h3.short with h4 | h4
            · left; simpa using h4
            · right; rw [pre_length _ ht.len] at h4; exact h4
          split
          · next hsp =>
            obtain ⟨hne, hd16⟩ := hsp
            rw [hbits] at hd16
            have hrest : rest = [] := by
              rcases hshort with h4 | h4
              · exact h4
              · omega
            subst hrest
            simp only [List.length_singleton, ne_eq, not_true, if_false]
            simp only [NextInv, PCInv, LinInv, PC.taken]
            refine ⟨⟨d, rfl, (ht.evo ev hs), ?_⟩, hl'⟩
            rw [pathTo_eq_take hash ht.len, word_eq_data hp hdt hcond]
            exact .split a d0 ((hheld a hp).evo ev hs) h2 hd16 hne
          · next hsp =>
            have hdeep : d = 16 ∨ ∃ d1, d0 :: rest = [d1] ∧ cfg.key d1 = st.key cfg := by
              by_cases hd16 : d < 16
              · right
                have hk : cfg.key d0 = st.key cfg := by
                  apply Classical.byContradiction
                  intro hne
                  exact hsp ⟨hne, hbits.mpr hd16⟩
                rcases hshort with h4 | h4
                · subst h4; exact ⟨d0, rfl, hk⟩
                · omega
              · left; have := ht.len; omega
            split
            · next hm =>
              simp only [NextInv, PCInv, LinInv, PC.taken]
              refine ⟨⟨d, rfl, ⟨hmake, ?_, ht.len, ht.loc.evo ev hs, ht.par0, fun y hy => (ht.par y hy).evo ev hs⟩, ?_⟩, hl'⟩
              · rw [ht.hashEq]; exact congrArg cfg.hash hkey.symm
              · rw [word_eq_data hp hdt hcond]
                have hk2 : TState.key cfg (TState.created (K := K) st.payload) = st.key cfg := hkey
                rw [← hk2] at hdeep hm ⊢
                exact .replace a _ (d0 :: rest) rfl ((hheld a hp).evo ev hs) h2 h3 hdeep hm
            · next hm =>
              have hk := x.leaf ht.loc hat (k := st.key cfg) (by rw [ht.hashEq]; exact pre_prefix _ _)
                (leafVal_data hp hdt h2)
              obtain ⟨τ, t1, t2, t3⟩ := hk
              cases hf : (d0 :: rest).find? (fun l => decide (cfg.key l = st.key cfg)) with
              | none => rw [hf] at hm; simp at hm
              | some e =>
                rw [hf] at hm t3
                have hmode : mode = .ifMissing := by
                  cases mode with
                  | ifMissing => rfl
                  | overwrite => simp at hm
                subst hmode
                simp only [finishTrav, Option.map_some, NextInv, RetOK]
                refine ⟨by simpa using (hheld a hp).evo ev hs, ?_⟩
                have hmem := List.mem_of_find?_eq_some hf
                have hreq := ht.req
                generalize hcr : c.req = req at hreq
                generalize hcc : c.calls = calls at hreq
                cases hreq with
                | fut k f wf =>
                  simp only [TState.key] at t3
                  refine ⟨_, rfl, Or.inr ⟨hl', τ, t1, Nat.lt_succ_of_le t2, by simp [AMap.apply, t3]⟩, ?_, by omega, ?_⟩
                  · intro p hp
                    simp [Ret.payloads, ExistingOrNew.intoInner] at hp
                    subst hp
                    exact ⟨a, by simp, _, h2, hmem⟩
                  · rintro ⟨p, hp⟩; cases hp
                | made k f wf =>
                  simp only [TState.key, wf] at t3
                  refine ⟨_, rfl, Or.inr ⟨hl', τ, t1, Nat.lt_succ_of_le t2, by simp [AMap.apply, t3]⟩, ?_, by omega, ?_⟩
                  · intro p hp
                    simp [Ret.payloads, ExistingOrNew.intoInner] at hp
                    subst hp
                    exact ⟨a, by simp, _, h2, hmem⟩
                  · rintro ⟨p, hp⟩; cases hp
      | false =>
        simp only [Bool.false_eq_true, if_false]
        obtain ⟨h1, h2, ⟨cs, h3⟩, h4⟩ := x.descend ht.len hok hheld hp hdt
        have hsh : ¬ HASH_BITS ≤ LEVEL_BITS * d := by have := hbits.mpr h1; omega
        simp only [hsh, if_false, NextInv, PCInv, LinInv, PC.taken]
        refine ⟨⟨d + 1, rfl, ⟨by simpa using ht.req, ht.hashEq, by omega, h4.evo ev hs, (by intro h; cases h), ?_⟩⟩, hl'⟩
        intro y hy
        cases hy
        exact PairOK.evo ⟨a, cs, _, word_eq_inner hp hdt hcond, h3, h2, ht.loc⟩ ev hs

/-! ### The CAS -/

/-- A leaf replaced by one that differs in the binding of `k` only: the abstract map changes at `k` only. -/
theorem abs_set_of {m' : Mem P} {q : List (Fin 16)} {k : K} {v : Option P} {f g : K → Option P}
    (hk : q <+: nibs (cfg.hash k))
    (h1 : ∀ k', m'.abs cfg k' = if q <+: nibs (cfg.hash k') then f k' else m.abs cfg k')
    (h2 : ∀ k', q <+: nibs (cfg.hash k') → m.abs cfg k' = g k')
    (h3 : ∀ k', f k' = if k' = k then v else g k') : m'.abs cfg = (m.abs cfg).set k v := by
  funext k'
  rw [h1]
  simp only [AMap.set]
  split
  · next hq =>
    rw [h3]
    by_cases e : k' = k
    · simp [e]
    · simp [e, h2 k' hq]
  · next hq =>
    have : k' ≠ k := by intro e; subst e; exact hq hk
    simp [this]

/-- The update a returning traversal has performed. -/
def Next.lp (id : Nat) (o : Op K P) : Next K P → Option (LP K P)
  | .ret (.op r) _ => some ⟨id, o, r⟩
  | _ => none

theorem lpOf_trav {c : Call K P} {st : TState K P} {hash : BitVec 64} {mode : Mode} {shift : Nat} {cur : Loc}
    {parent : Option (Loc × Word)} {node : Word} {new : Node P} {kind : TKind P}
    (hpc : c.pc = .travCas st hash mode shift cur parent node new kind) {o : Op K P} (hreq : c.req = .op o)
    {m1 : Mem P} {n : Next K P} (ht : tick cfg m weak c.pc = (m1, n)) :
    lpOf cfg m weak c = n.lp c.inv o := by
  simp only [lpOf, hreq]
  rw [ht]
  rw [hpc]
  cases n with
  | ret r refs => cases r <;> rfl
  | _ => rfl

theorem TravReq.op {r : Req K P} {mode : Mode} {st : TState K P} {n : Nat}
    (h : TravReq cfg r mode st n) : ∃ o, r = .op o := by
  cases h <;> exact ⟨_, rfl⟩

theorem NotYet.done {id : Nat} {o : Op K P} {r : Ret P} {m1 : Mem P} (hs : id < m.clock) (hc : m1.clock = m.clock + 1)
    (hW : W m.clock = some ⟨id, o, r⟩) : LinRet cfg A W m1.clock id o r :=
  Or.inl ⟨m.clock, Nat.le_of_lt hs, by omega, hW⟩

theorem tickTravCas_ok {c : Call K P} (x : Ctx cfg A m c.inv) {st : TState K P} {hash : BitVec 64} {mode : Mode}
    {shift : Nat} {cur : Loc} {parent : Option (Loc × Word)} {node : Word} {new : Node P} {kind : TKind P}
    (hpc : c.pc = .travCas st hash mode shift cur parent node new kind) (hi : PCInv cfg A m c)
    (hl : LinInv W m.clock c)
    (hW : W m.clock = lpOf cfg m weak c) : TickOK cfg A W m c (tick cfg m weak c.pc) := by
  simp only [PCInv, hpc] at hi
  simp only [LinInv, hpc, PC.taken] at hl
  obtain ⟨d, rfl, ht, hcas⟩ := hi
  have hs := Nat.le_of_lt x.hs
  obtain ⟨o, ho⟩ := ht.req.op
  obtain ⟨w, hr, hat, hheld, hok⟩ := x.read ht.loc
  have hnn := x.h.fresh _ (Nat.le_refl _)
  by_cases hsucc : w = node ∧ weak = false
  · obtain ⟨rfl, rfl⟩ := hsucc
    have hkpre : pre hash d <+: nibs (cfg.hash (st.key cfg)) := by rw [ht.hashEq]; exact pre_prefix _ _
    have hsw := fun w' new ret => swing_swung hat hnn w' new ret
    cases hcas with
    | fresh p hst =>
      subst hst
      have hkp : cfg.key p = TState.key cfg (TState.created (K := K) p) := rfl
      obtain ⟨hinv, habs⟩ := x.h.setLeaf hat x.hA rfl isLeaf_null (l := [p])
        ⟨by simp, by intro y hy; simp at hy; subst hy; exact hkpre, by simp, Or.inl rfl⟩ (hsw _ _ _)
      have hset : (m.swing cur ⟨some m.next, false, true⟩ (some (.data [p])) none).bump.abs cfg =
          (m.abs cfg).set (cfg.key p) (some p) := by
        refine abs_set_of hkpre habs (g := fun _ => none) ?_ ?_
        · intro k' ⟨ns, hns⟩
          rw [x.h.abs_at hat rfl hns.symm, isLeaf_null.look, leafVal_null rfl]; rfl
        · intro k'
          by_cases e : cfg.key p = k' <;> simp [e, eq_comm]
      have hold : m.abs cfg (cfg.key p) = none := by
        obtain ⟨ns, hns⟩ := hkpre
        rw [hkp, x.h.abs_at hat rfl hns.symm, isLeaf_null.look, leafVal_null rfl]; rfl
      have hevo : Evo m (m.swing cur ⟨some m.next, false, true⟩ (some (.data [p])) none).bump :=
        (hsw _ _ _).evo x.h hat rfl (by intro a e; cases e)
      have hmn : (m.swing cur ⟨some m.next, false, true⟩ (some (.data [p])) none).bump.mem m.next = some (.data [p]) := by
        rw [(hsw _ _ _).fresh _ hnn]; simp
      have hrn : (m.swing cur ⟨some m.next, false, true⟩ (some (.data [p])) none).bump.retired m.next = none := by
        rw [(hsw _ _ _).retired]; simp
        cases hrr : m.retired m.next with
        | none => rfl
        | some τ => exact absurd hnn (x.h.retTime _ _ hrr).2
      have hreq := ht.req
      generalize hcr : c.req = req at hreq
      generalize hcc : c.calls = calls at hreq
      cases hreq with
      | ins _ =>
        have htick : tick cfg m false c.pc = (m.swing cur ⟨some m.next, false, true⟩ (some (.data [p])) none,
            .ret (.op (.opt none)) []) := by
          simp [hpc, tick, tickTravCas, hr, finishTrav]; rfl
        have hlp := lpOf_trav hpc (by rw [hcr]) htick
        simp only [Next.lp] at hlp
        rw [hlp] at hW
        rw [htick]
        refine ⟨hinv, hevo, ?_, ?_⟩
        · rw [hW]
          simp only
          refine ⟨trivial, hcr, ?_⟩
          simp only [AMap.apply, hold]
          rw [← hset]; rfl
        · simp only [NextInv, RetOK, hcr]
          refine ⟨by simp, _, rfl, NotYet.done x.hs hevo.clock hW, by simp [Ret.payloads], hcc⟩
      | made k f wf =>
        have htick : tick cfg m false c.pc = (m.swing cur ⟨some m.next, false, true⟩ (some (.data [f k])) none,
            .ret (.op (.eon (.new (f k)))) [m.next]) := by
          simp [hpc, tick, tickTravCas, hr, finishTrav, TState.payload]; rfl
        have hlp := lpOf_trav hpc (by rw [hcr]) htick
        simp only [Next.lp] at hlp
        rw [hlp] at hW
        rw [htick]
        refine ⟨hinv, hevo, ?_, ?_⟩
        · rw [hW]
          simp only
          refine ⟨trivial, hcr, ?_⟩
          rw [wf] at hold hset
          simp only [AMap.apply, hold]
          rw [← hset]; rfl
        · simp only [NextInv, RetOK, hcr]
          refine ⟨?_, _, rfl, NotYet.done x.hs hevo.clock hW, ?_, by omega, fun _ => hcc⟩
          · intro a ha
            simp at ha; subst ha
            exact ⟨by rw [hmn]; simp, by intro τ hτ; rw [hrn] at hτ; cases hτ⟩
          · intro y hy
            simp [Ret.payloads, ExistingOrNew.intoInner] at hy
            subst hy
            exact ⟨m.next, by simp, _, hmn, by simp⟩
    | split a d0 hh hm hd16 hne =>
      have hlen : (pre hash d).length = d := pre_length _ ht.len
      have h1 := hsw ⟨some m.next, false, false⟩ (some (Node.inner (upd (fun _ => Word.null)
        (bitsAt (cfg.hash (cfg.key d0)) (LEVEL_BITS * d)) ⟨some a, false, true⟩) (pre hash d))) none
      obtain ⟨hinv, habs⟩ := x.h.split hat x.hA rfl (by omega) rfl rfl hm (by rw [hlen]; exact h1)
      have hevo := h1.evo x.h hat rfl (by intro a e; cases e)
      have htick : tick cfg m false c.pc = (m.swing cur ⟨some m.next, false, false⟩ (some (Node.inner (upd (fun _ => Word.null)
        (bitsAt (cfg.hash (cfg.key d0)) (LEVEL_BITS * d)) ⟨some a, false, true⟩) (pre hash d))) none,
          .goto (.trav st hash mode (LEVEL_BITS * d) cur parent) false) := by
        simp [hpc, tick, tickTravCas, hr]; rfl
      have hlp := lpOf_trav hpc ho htick
      simp only [Next.lp] at hlp
      rw [hlp] at hW
      rw [htick]
      refine ⟨hinv, hevo, ?_, ?_⟩
      · rw [hW]; exact habs
      · simp only [NextInv, PCInv, LinInv, PC.taken]
        refine ⟨⟨d, rfl, by simpa using ht.evo hevo hs⟩, ?_⟩
        intro τ lp hτ he
        rw [hevo.clock] at hτ
        by_cases e : τ = m.clock
        · subst e; rw [hW] at he; cases he
        · exact hl τ lp (by omega) he
    | replace a p items hst hh hm hdok hdeep hmode =>
      subst hst
      have hkp : TState.key cfg (TState.created (K := K) p) = cfg.key p := rfl
      simp only [hkp] at hkpre hdeep hmode hpc
      have hlf : (⟨some a, false, true⟩ : Word).isLeaf := Or.inr rfl
      generalize hl2 : items.filter (fun l => decide (cfg.key l ≠ cfg.key p)) ++ [p] = l2 at *
      have hdok2 : DataOK cfg l2 (pre hash d) := by
        subst hl2
        refine ⟨by simp, ?_, ?_, ?_⟩
        · intro y hy
          simp at hy
          rcases hy with hy | hy
          · exact hdok.pre y hy.1
          · subst hy; exact hkpre
        · rw [List.map_append, List.nodup_append]
          refine ⟨?_, by simp, ?_⟩
          · exact List.Nodup.sublist (List.Sublist.map _ List.filter_sublist) hdok.nodup
          · intro k1 h1 k2 h2
            simp at h1 h2
            obtain ⟨y, ⟨-, hy⟩, rfl⟩ := h1
            subst h2
            exact hy
        · rcases hdeep with h | ⟨d1, rfl, h1⟩
          · right; rw [pre_length _ ht.len]; exact h
          · left; simp [h1]
      obtain ⟨hinv, habs⟩ := x.h.setLeaf hat x.hA rfl hlf (l := l2) hdok2 (hsw _ _ _)
      have habsOld : ∀ k', pre hash d <+: nibs (cfg.hash k') → m.abs cfg k' =
          items.find? (fun y => decide (cfg.key y = k')) := by
        intro k' ⟨ns, hns⟩
        rw [x.h.abs_at hat rfl hns.symm, hlf.look, leafVal_data rfl rfl hm]; rfl
      have hset : (m.swing cur ⟨some m.next, false, true⟩ (some (.data l2)) (some a)).bump.abs cfg =
          (m.abs cfg).set (cfg.key p) (some p) := by
        refine abs_set_of hkpre habs habsOld ?_
        intro k'
        subst hl2
        rw [find_append_one, find_filter_ne]
        by_cases e : k' = cfg.key p
        · simp [e]
        · have : ¬ cfg.key p = k' := fun e2 => e e2.symm
          simp [e, this]
      have hold := habsOld (cfg.key p) hkpre
      have hevo : Evo m (m.swing cur ⟨some m.next, false, true⟩ (some (.data l2)) (some a)).bump :=
        (hsw _ _ _).evo x.h hat rfl (by intro b e; cases e; rfl)
      have hmn : (m.swing cur ⟨some m.next, false, true⟩ (some (.data l2)) (some a)).bump.mem m.next = some (.data l2) := by
        rw [(hsw _ _ _).fresh _ hnn]; simp
      have hrn : (m.swing cur ⟨some m.next, false, true⟩ (some (.data l2)) (some a)).bump.retired m.next = none := by
        rw [(hsw _ _ _).retired]
        have : ¬ a = m.next := by intro e; subst e; rw [hnn] at hm; cases hm
        simp [this]
        cases hrr : m.retired m.next with
        | none => rfl
        | some τ => exact absurd hnn (x.h.retTime _ _ hrr).2
      have hma : (m.swing cur ⟨some m.next, false, true⟩ (some (.data l2)) (some a)).bump.mem a = some (.data items) :=
        hevo.data a items hm
      have hha := hh.evo hevo hs
      have hreq := ht.req
      generalize hcr : c.req = req at hreq
      generalize hcc : c.calls = calls at hreq
      cases hreq with
      | ins _ =>
        cases hf : items.find? (fun l => decide (cfg.key l = cfg.key p)) with
        | none =>
          have htick : tick cfg m false c.pc = (m.swing cur ⟨some m.next, false, true⟩ (some (.data l2)) (some a),
              .ret (.op (.opt none)) []) := by
            simp [hpc, tick, tickTravCas, hr, finishTrav, hf]; rfl
          have hlp := lpOf_trav hpc (by rw [hcr]) htick
          simp only [Next.lp] at hlp
          rw [hlp] at hW
          rw [htick]
          refine ⟨hinv, hevo, ?_, ?_⟩
          · rw [hW]
            simp only
            refine ⟨trivial, hcr, ?_⟩
            rw [hf] at hold
            simp only [AMap.apply, hold]
            rw [← hset]; rfl
          · simp only [NextInv, RetOK, hcr]
            refine ⟨by simp, _, rfl, NotYet.done x.hs hevo.clock hW, by simp [Ret.payloads], hcc⟩
        | some e =>
          have htick : tick cfg m false c.pc = (m.swing cur ⟨some m.next, false, true⟩ (some (.data l2)) (some a),
              .ret (.op (.opt (some e))) [a]) := by
            simp [hpc, tick, tickTravCas, hr, finishTrav, hf, ExistingOrNew.intoInner]; rfl
          have hlp := lpOf_trav hpc (by rw [hcr]) htick
          simp only [Next.lp] at hlp
          rw [hlp] at hW
          rw [htick]
          refine ⟨hinv, hevo, ?_, ?_⟩
          · rw [hW]
            simp only
            refine ⟨trivial, hcr, ?_⟩
            rw [hf] at hold
            simp only [AMap.apply, hold]
            rw [← hset]; rfl
          · simp only [NextInv, RetOK, hcr]
            refine ⟨by simpa using hha, _, rfl, NotYet.done x.hs hevo.clock hW, ?_, hcc⟩
            intro y hy
            simp [Ret.payloads] at hy
            subst hy
            exact ⟨a, by simp, _, hma, List.mem_of_find?_eq_some hf⟩
      | made k f wf =>
        have hf : items.find? (fun l => decide (cfg.key l = cfg.key (f k))) = none := by
          rcases hmode with h | h
          · simpa using h
          · cases h
        have htick : tick cfg m false c.pc = (m.swing cur ⟨some m.next, false, true⟩ (some (.data l2)) (some a),
            .ret (.op (.eon (.new (f k)))) [m.next]) := by
          simp only [hf] at hpc
          have hnw : (Node.data l2).newest (f k) = f k := by rw [← hl2]; exact Node.newest_snoc _ _ _
          simp [hpc, tick, tickTravCas, hr, finishTrav, TState.payload, hnw]; rfl
        have hlp := lpOf_trav hpc (by rw [hcr]) htick
        simp only [Next.lp] at hlp
        rw [hlp] at hW
        rw [htick]
        refine ⟨hinv, hevo, ?_, ?_⟩
        · rw [hW]
          simp only
          refine ⟨trivial, hcr, ?_⟩
          rw [hf, wf] at hold
          rw [wf] at hset
          simp only [AMap.apply, hold]
          rw [← hset]; rfl
        · simp only [NextInv, RetOK, hcr]
          refine ⟨?_, _, rfl, NotYet.done x.hs hevo.clock hW, ?_, by omega, fun _ => hcc⟩
          · intro b hb
            simp at hb; subst hb
            exact ⟨by rw [hmn]; simp, by intro τ hτ; rw [hrn] at hτ; cases hτ⟩
          · intro y hy
            simp [Ret.payloads, ExistingOrNew.intoInner] at hy
            subst hy
            exact ⟨m.next, by simp, _, hmn, by rw [← hl2]; simp⟩
  · have htick : tick cfg m weak c.pc = (m, .goto (.trav st hash mode (LEVEL_BITS * d) cur parent) false) := by
      simp [hpc, tick, tickTravCas, hr, hsucc]
    have hlp := lpOf_trav hpc ho htick
    simp only [Next.lp] at hlp
    rw [hlp] at hW
    rw [htick]
    refine .quiet x hW ?_
    simp only [NextInv, PCInv, LinInv, PC.taken]
    exact ⟨⟨d, rfl, by simpa using ht.evo (Evo.bump m) hs⟩, NotYet.succ hl hW⟩

end Contrie
