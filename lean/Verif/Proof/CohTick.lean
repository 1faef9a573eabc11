import Verif.Proof.CohSyn
import Verif.Proof.WeakTick
/-
Steps that store nothing, and may have seen an old value of their location.
-/
set_option linter.unusedSectionVars false
namespace Contrie
variable {K P : Type} [DecidableEq K]

/-- What a step sees: the memory `m`, but for the value `w` of location `ℓ`. -/
structure QSeen (cfg : Config K P) (m mw : Mem P) (ℓ : Loc) (w : Word) : Prop where
  read : mw.read ℓ = some w
  ok : ∀ q, LocAt m 0 ℓ q → WordOK cfg m w q
  clean : ℓ = .root → w.cond = false
  load : ∀ w', mw.loadData w' = m.loadData w'
  inner : ∀ a c p, m.mem a = some (.inner c p) → ∃ c', mw.mem a = some (.inner c' p)
  freed : ∀ a, m.freed a = false
  freedw : ∀ a, mw.freed a = false

/-- A result which is justified by a word that was loaded. -/
structure QRead (cfg : Config K P) (m : Mem P) (ℓ : Loc) (w : Word) (o : Op K P) (ret : Ret P) : Prop where
  path : ∃ q, LocAt m 0 ℓ q ∧ q <+: nibs (cfg.hash (o.key cfg.key))
  noins : ∀ p, o ≠ .insert p
  val : ∃ v, m.leafVal cfg (o.key cfg.key) w = some v ∧
    ∀ B : AMap K P, B (o.key cfg.key) = v → B.apply cfg.key o = (B, ret)

/-- What a step that stores nothing leaves. -/
def QNext (cfg : Config K P) (A : Nat → AMap K P) (m : Mem P) (c : Call K P) (ℓ : Loc) (w : Word) : Next K P → Prop
  | .goto pc ran => PCInv cfg A m { c with
      pc := pc, calls := c.calls + (if ran then 1 else 0), ticks := c.ticks + 1 } ∧ pc.taken = c.pc.taken
  | .ret r refs => ∃ o ret, c.req = .op o ∧ r = .op ret ∧
      (∀ p ∈ ret.payloads, ∃ a ∈ refs, ∃ items, m.mem a = some (.data items) ∧ p ∈ items) ∧
      (∀ a ∈ refs, ∃ items, m.mem a = some (.data items)) ∧
      (match o with
        | .getOrInsert _ _ => c.calls ≤ 1 ∧ ((∃ p, ret = .eon (.new p)) → c.calls = 1)
        | _ => c.calls = 0) ∧
      ((∃ p, c.pc.taken = some p ∧ ret = .opt (some p)) ∨ c.pc.taken = none ∧ QRead cfg m ℓ w o ret)
  | .fail _ => False

section
variable {cfg : Config K P} {A : Nat → AMap K P} {m mw : Mem P} {ℓ : Loc} {w : Word} {c : Call K P}

theorem held_zero {a : Nat} (h : m.mem a ≠ none) : Held m 0 a := ⟨h, fun _ _ => Nat.zero_le _⟩

theorem held_word {w : Word} {q : List (Fin 16)} (hw : WordOK cfg m w q) {a : Nat} (hp : w.ptr = some a) : Held m 0 a := by
  refine held_zero ?_
  cases hd : w.data with
  | true => obtain ⟨l, h1, -⟩ := hw.of_data hp hd; rw [h1]; simp
  | false => obtain ⟨l, h1⟩ := hw.of_inner hp hd; rw [h1]; simp

theorem QSeen.data (x : QSeen cfg m mw ℓ w) {w' : Word} {q : List (Fin 16)} (hw : WordOK cfg m w' q) {a : Nat}
    (hp : w'.ptr = some a) (hd : w'.data = true) :
    ∃ items, mw.loadData w' = .ok items ∧ m.mem a = some (.data items) ∧ DataOK cfg items q := by
  obtain ⟨l, h1, h2⟩ := hw.of_data hp hd
  refine ⟨l, ?_, h1, h2⟩
  rw [x.load]
  simp [Mem.loadData, hd, hp, Mem.deref, x.freed a, h1]

theorem MemInv.down (h : MemInv cfg A m) {w : Word} {hs : BitVec 64} {d : Nat} (hd16 : d ≤ 16)
    (hw : WordOK cfg m w (pre hs d)) {a : Nat} (hp : w.ptr = some a) (hd : w.data = false) :
    d < 16 ∧ Held m 0 a ∧ (∃ c, m.mem a = some (.inner c (pre hs d))) ∧
      LocAt m 0 (.slot a (bitsAt hs (LEVEL_BITS * d))) (pre hs (d + 1)) := by
  obtain ⟨c, hm⟩ := hw.of_inner hp hd
  have h1 := (h.nodeOK a c _ hm).1
  rw [pre_length hs hd16] at h1
  have hh : Held m 0 a := held_zero (by rw [hm]; simp)
  exact ⟨h1, hh, ⟨c, hm⟩, c, _, hm, pre_succ hs h1, hh⟩

/-! ### Continuations -/

theorem qEnterPrune (h0 : c.inv = 0) {pl : Loc} {child : Word} {k : Cont K P} (hp : PairOK m 0 (pl, child))
    (hk : ContOK cfg m 0 c.req c.calls k) (ht : k.taken = c.pc.taken) :
    QNext cfg A m c ℓ w (enterPrune pl child k) := by
  obtain ⟨a, cs, q, h1, h2, h3, h4⟩ := hp
  simp only at h1
  subst h1
  simp only [enterPrune, QNext, PCInv, h0]
  refine ⟨⟨hk, a, cs, q, rfl, h2, h3, h4, AccOK.init m cs⟩, ?_⟩
  rw [← ht]
  cases k <;> rfl

theorem qEnterClean (h0 : c.inv = 0) {deleted : P} {ref : Nat} {levels : List (Loc × Word)}
    (hreq : ∃ k, c.req = .op (.remove k)) (hcalls : c.calls = 0) (hc : CleanOK m 0 deleted ref levels)
    (ht : c.pc.taken = some deleted) : QNext cfg A m c ℓ w (enterClean deleted ref levels) := by
  obtain ⟨k, hk⟩ := hreq
  obtain ⟨l, h1, h2⟩ := hc.items
  cases levels with
  | nil =>
    simp only [enterClean, QNext]
    refine ⟨_, _, hk, rfl, ?_, ?_, hcalls, Or.inl ⟨_, ht, rfl⟩⟩
    · intro p hp
      simp [Ret.payloads] at hp
      subst hp
      exact ⟨ref, by simp, l, h1, h2⟩
    · intro a ha
      simp at ha; subst ha
      exact ⟨l, h1⟩
  | cons y rest =>
    obtain ⟨parent, child⟩ := y
    obtain ⟨a, cs, q, h1, h2, h3, h4⟩ := hc.levels_ok (parent, child) (by simp)
    simp only at h1
    subst h1
    simp only [enterClean, QNext, PCInv, h0]
    exact ⟨⟨⟨k, hk⟩, by simpa using hcalls, ⟨hc.held, hc.items, fun x hx => hc.levels_ok x (by simp [hx])⟩,
      a, cs, q, rfl, h2, h3, h4⟩, ht.symm⟩

theorem qAfterPrune (h0 : c.inv = 0) {k : Cont K P} {r : PruneResult} (hk : ContOK cfg m 0 c.req c.calls k)
    (ht : k.taken = c.pc.taken) : QNext cfg A m c ℓ w (afterPrune r k) := by
  cases k with
  | trav st hash mode =>
    simp only [afterPrune, QNext, PCInv, h0]
    exact ⟨⟨0, rfl, ⟨by simpa using hk.1, hk.2, by omega, rfl, fun _ => rfl, by intro x hx; cases hx⟩⟩, ht⟩
  | rem key =>
    simp only [afterPrune, QNext, PCInv, h0]
    exact ⟨⟨hk.1, by simpa using hk.2, 0, rfl, ⟨by omega, rfl, rfl, by intro x hx; cases hx⟩⟩, ht⟩
  | clean deleted ref rest =>
    simp only [afterPrune]
    have ht' : c.pc.taken = some deleted := ht.symm
    split
    · obtain ⟨⟨⟨kk, h1⟩, h00⟩, h2⟩ := hk
      obtain ⟨l, h3, h4⟩ := h2.items
      simp only [QNext]
      refine ⟨_, _, h1, rfl, ?_, ?_, h00, Or.inl ⟨_, ht', rfl⟩⟩
      · intro p hp
        simp [Ret.payloads] at hp
        subst hp
        exact ⟨ref, by simp, l, h3, h4⟩
      · intro a ha
        simp at ha; subst ha
        exact ⟨l, h3⟩
    · exact qEnterClean h0 hk.1.1 hk.1.2 hk.2 ht'

/-! ### get -/

theorem qTickGet (h : MemInv cfg A m) (h0 : c.inv = 0) {key : K} {hash : BitVec 64} {cur : Loc}
    (hpc : c.pc = .get key hash cur) (hi : PCInv cfg A m c) (x : QSeen cfg m mw cur w) :
    QNext cfg A m c cur w (tick cfg mw weak c.pc).2 := by
  simp only [PCInv, hpc, h0] at hi
  obtain ⟨hreq, hcalls, d, hd, htk, rfl, hloc⟩ := hi
  have hok := x.ok _ hloc
  have ht : c.pc.taken = none := by rw [hpc]; rfl
  have : (tick cfg mw weak c.pc).2 = tickGet cfg mw key (cfg.hash key >>> (LEVEL_BITS * d)) cur := by rw [hpc]; rfl
  rw [this]
  simp only [tickGet, x.read]
  have retok : ∀ v refs, m.leafVal cfg key w = some v →
      (∀ p ∈ v.toList, ∃ a ∈ refs, ∃ items, m.mem a = some (.data items) ∧ p ∈ items) →
      (∀ a ∈ refs, ∃ items, m.mem a = some (.data items)) →
      QNext cfg A m c cur w (.ret (.op (.opt v)) refs) := by
    intro v refs hv h1 h2
    refine ⟨_, _, hreq, rfl, h1, h2, hcalls, Or.inr ⟨ht, ⟨_, hloc, pre_prefix _ _⟩, (by intro p e; cases e), v, hv, ?_⟩⟩
    intro B hB
    have hB' : B key = v := hB
    simp [AMap.apply, hB']
  cases hp : w.ptr with
  | none => exact retok none [] (leafVal_null hp) (by simp) (by simp)
  | some a =>
    cases hdt : w.data with
    | true =>
      obtain ⟨items, h1, h2, h3⟩ := x.data hok hp hdt
      simp only [if_true, h1]
      have hlv := leafVal_data (cfg := cfg) (k := key) hp hdt h2
      cases hf : items.find? (fun l => decide (cfg.key l = key)) with
      | none => rw [hf] at hlv; exact retok none [] hlv (by simp) (by simp)
      | some p =>
        rw [hf] at hlv
        refine retok (some p) [a] hlv ?_ ?_
        · intro p' hp'
          simp at hp'; subst hp'
          exact ⟨a, by simp, items, h2, List.mem_of_find?_eq_some hf⟩
        · intro b hb
          simp at hb; subst hb
          exact ⟨items, h2⟩
    | false =>
      obtain ⟨h1, h2, h3, h4⟩ := h.down hd hok hp hdt
      simp only [Bool.false_eq_true, if_false, QNext, PCInv, h0]
      refine ⟨⟨hreq, hcalls, d + 1, by omega, by omega, shift_succ _ _, ?_⟩, ht.symm⟩
      rw [bitsAt_shift]
      exact h4

theorem qTickCount (h0 : c.inv = 0) {deleted : P} {ref : Nat} {parent : Loc} {child : Word}
    {rest : List (Loc × Word)} {i : Fin 16} {cnt : Nat}
    (hpc : c.pc = .count deleted ref parent child rest i cnt) (hi : PCInv cfg A m c)
    (hr : ∀ a, child.ptr = some a → mw.read (.slot a i) = some w) :
    QNext cfg A m c ℓ w (tick cfg mw weak c.pc).2 := by
  simp only [PCInv, hpc, h0] at hi
  obtain ⟨hreq, hcalls, hc, hp⟩ := hi
  have ht : c.pc.taken = some deleted := by rw [hpc]; rfl
  have : (tick cfg mw weak c.pc).2 = tickCount mw deleted ref parent child rest i cnt := by rw [hpc]; rfl
  rw [this]
  have hp0 := hp
  obtain ⟨a, cs, q, h1, h2, h3, h4⟩ := hp
  simp only at h1
  subst h1
  simp only [tickCount, hr a rfl]
  generalize (if w.ptr.isSome = true then cnt + 1 else cnt) = cnt'
  split
  · simp only [QNext, PCInv, h0]
    exact ⟨⟨hreq, by simpa using hcalls, hc, hp0⟩, ht.symm⟩
  · by_cases hcnt : 1 < cnt'
    · simp only [hcnt, if_true, QNext]
      obtain ⟨l, hl1, hl2⟩ := hc.items
      obtain ⟨k, hk⟩ := hreq
      refine ⟨_, _, hk, rfl, ?_, ?_, hcalls, Or.inl ⟨_, ht, rfl⟩⟩
      · intro p hp
        simp [Ret.payloads] at hp
        subst hp
        exact ⟨ref, by simp, l, hl1, hl2⟩
      · intro b hb
        simp at hb; subst hb
        exact ⟨l, hl1⟩
    · simp only [hcnt, if_false]
      exact qEnterPrune h0 (k := .clean deleted ref rest) hp0 ⟨⟨hreq, hcalls⟩, hc⟩ ht.symm

/-! ### traverse -/

theorem qTickTrav (h : MemInv cfg A m) (h0 : c.inv = 0) {st : TState K P} {hash : BitVec 64} {mode : Mode}
    {shift : Nat} {cur : Loc} {parent : Option (Loc × Word)}
    (hpc : c.pc = .trav st hash mode shift cur parent) (hi : PCInv cfg A m c) (x : QSeen cfg m mw cur w) :
    QNext cfg A m c cur w (tick cfg mw weak c.pc).2 := by
  simp only [PCInv, hpc, h0] at hi
  obtain ⟨d, rfl, ht⟩ := hi
  have htk : c.pc.taken = none := by rw [hpc]; rfl
  have : (tick cfg mw weak c.pc).2 = tickTrav cfg mw st hash mode (LEVEL_BITS * d) cur parent := by rw [hpc]; rfl
  rw [this]
  have hok := x.ok _ ht.loc
  simp only [tickTrav, x.read]
  have hbits : ∀ {d : Nat}, LEVEL_BITS * d < HASH_BITS ↔ d < 16 := by
    intro d; simp only [LEVEL_BITS, HASH_BITS]; omega
  cases hcond : w.cond with
  | true =>
    simp only [if_true]
    cases hpar : parent with
    | none =>
      have := ht.par0 hpar
      subst this
      rw [x.clean rfl] at hcond; cases hcond
    | some y =>
      obtain ⟨pl, child⟩ := y
      exact qEnterPrune h0 (ht.par _ hpar) ⟨ht.req, ht.hashEq⟩ htk.symm
  | false =>
    simp only [Bool.false_eq_true, if_false]
    have hmake := ht.req.make
    have hkey := ht.req.key_payload
    cases hp : w.ptr with
    | none =>
      simp only [QNext, PCInv, h0]
      refine ⟨⟨d, rfl, ⟨hmake, ?_, ht.len, ht.loc, ht.par0, ht.par⟩, ?_⟩, htk.symm⟩
      · rw [ht.hashEq]; exact congrArg cfg.hash hkey.symm
      · rw [word_eq_null hok hp hcond]; exact .fresh _ rfl
    | some a =>
      cases hdt : w.data with
      | true =>
        obtain ⟨items, h1, h2, h3⟩ := x.data hok hp hdt
        have hheld := held_word hok hp
        simp only [if_true, h1]
        cases items with
        | nil => exact absurd rfl h3.ne
        | cons d0 rest =>
          simp only
          have hshort : rest = [] ∨ d = 16 := by
            rcases h3.short with h4 | h4
            · left; simpa using h4
            · right; rw [pre_length _ ht.len] at h4; exact h4
          split
          · next hsp =>
            obtain ⟨hne, hd16⟩ := hsp
            rw [hbits] at hd16
            have hrest : rest = [] := by
              rcases hshort with h4 | h4
              · exact h4
              · omega
            subst hrest
            simp only [List.length_singleton, ne_eq, not_true, if_false]
            simp only [QNext, PCInv, h0]
            refine ⟨⟨d, rfl, by simpa using ht, ?_⟩, htk.symm⟩
            rw [pathTo_eq_take hash ht.len, word_eq_data hp hdt hcond]
            exact .split a d0 hheld h2 hd16 hne
          · next hsp =>
            have hdeep : d = 16 ∨ ∃ d1, d0 :: rest = [d1] ∧ cfg.key d1 = st.key cfg := by
              by_cases hd16 : d < 16
              · right
                have hk : cfg.key d0 = st.key cfg := by
                  apply Classical.byContradiction
                  intro hne
                  exact hsp ⟨hne, hbits.mpr hd16⟩
                rcases hshort with h4 | h4
                · subst h4; exact ⟨d0, rfl, hk⟩
                · omega
              · left; have := ht.len; omega
            split
            · next hm =>
              simp only [QNext, PCInv, h0]
              refine ⟨⟨d, rfl, ⟨hmake, ?_, ht.len, ht.loc, ht.par0, ht.par⟩, ?_⟩, htk.symm⟩
              · rw [ht.hashEq]; exact congrArg cfg.hash hkey.symm
              · rw [word_eq_data hp hdt hcond]
                have hk2 : TState.key cfg (TState.created (K := K) st.payload) = st.key cfg := hkey
                rw [← hk2] at hdeep hm ⊢
                exact .replace a _ (d0 :: rest) rfl hheld h2 h3 hdeep hm
            · next hm =>
              cases hf : (d0 :: rest).find? (fun l => decide (cfg.key l = st.key cfg)) with
              | none => rw [hf] at hm; simp at hm
              | some e =>
                rw [hf] at hm
                have hmode : mode = .ifMissing := by
                  cases mode with
                  | ifMissing => rfl
                  | overwrite => simp at hm
                subst hmode
                simp only [finishTrav, Option.map_some, QNext]
                have hreq := ht.req
                have hlv := leafVal_data (cfg := cfg) (k := st.key cfg) hp hdt h2
                rw [hf] at hlv
                have hpre : pre hash d <+: nibs (cfg.hash (st.key cfg)) := by rw [ht.hashEq]; exact pre_prefix _ _
                have common : ∀ k f, c.req = .op (.getOrInsert k f) → st.key cfg = k → c.calls ≤ 1 →
                    ∃ o ret, c.req = .op o ∧ Res.op (Ret.eon (ExistingOrNew.existing e)) = .op ret ∧
                    (∀ p ∈ ret.payloads, ∃ b ∈ [a], ∃ items, m.mem b = some (.data items) ∧ p ∈ items) ∧
                    (∀ b ∈ [a], ∃ items, m.mem b = some (.data items)) ∧
                    (match o with
                      | .getOrInsert _ _ => c.calls ≤ 1 ∧ ((∃ p, ret = .eon (.new p)) → c.calls = 1)
                      | _ => c.calls = 0) ∧
                    ((∃ p, c.pc.taken = some p ∧ ret = .opt (some p)) ∨ c.pc.taken = none ∧ QRead cfg m cur w o ret) := by
                  intro k f hk hkk hcl
                  refine ⟨_, _, hk, rfl, ?_, ?_, ⟨hcl, ?_⟩, Or.inr ⟨htk, ⟨_, ht.loc, ?_⟩, (by intro p e; cases e), some e, ?_, ?_⟩⟩
                  · intro p hp'
                    simp [Ret.payloads, ExistingOrNew.intoInner] at hp'
                    subst hp'
                    exact ⟨a, by simp, _, h2, List.mem_of_find?_eq_some hf⟩
                  · intro b hb
                    simp at hb; subst hb
                    exact ⟨_, h2⟩
                  · rintro ⟨p, hp⟩; cases hp
                  · rw [hkk] at hpre; exact hpre
                  · rw [hkk] at hlv; exact hlv
                  · intro B hB
                    have hB' : B k = some e := hB
                    simp [AMap.apply, hB']
                generalize hcr : c.req = req at hreq
                generalize hcc : c.calls = calls at hreq
                rw [hcr, hcc] at common
                cases hreq with
                | fut k f wf => exact common k f rfl rfl (by omega)
                | made k f wf => exact common k f rfl wf (by omega)
      | false =>
        simp only [Bool.false_eq_true, if_false]
        obtain ⟨h1, h2, ⟨cs, h3⟩, h4⟩ := h.down ht.len hok hp hdt
        have hsh : ¬ HASH_BITS ≤ LEVEL_BITS * d := by have := hbits.mpr h1; omega
        simp only [hsh, if_false, QNext, PCInv, h0]
        refine ⟨⟨d + 1, rfl, ⟨by simpa using ht.req, ht.hashEq, by omega, h4, (by intro h; cases h), ?_⟩⟩, htk.symm⟩
        intro y hy
        cases hy
        exact ⟨a, cs, _, word_eq_inner hp hdt hcond, h3, h2, ht.loc⟩

/-! ### remove -/

theorem qTickRem (h : MemInv cfg A m) (h0 : c.inv = 0) {key : K} {shift : Nat} {cur : Loc} {levels : List (Loc × Word)}
    (hpc : c.pc = .rem key shift cur levels) (hi : PCInv cfg A m c) (x : QSeen cfg m mw cur w) :
    QNext cfg A m c cur w (tick cfg mw weak c.pc).2 := by
  simp only [PCInv, hpc, h0] at hi
  obtain ⟨hreq, hcalls, d, rfl, ht⟩ := hi
  have htk : c.pc.taken = none := by rw [hpc]; rfl
  have : (tick cfg mw weak c.pc).2 = tickRem cfg mw key (LEVEL_BITS * d) cur levels := by rw [hpc]; rfl
  rw [this]
  have hok := x.ok _ ht.loc
  simp only [tickRem, x.read]
  have none_ok : m.leafVal cfg key w = some none → QNext cfg A m c cur w (.ret (.op (.opt none)) []) := by
    intro hv
    refine ⟨_, _, hreq, rfl, by simp [Ret.payloads], by simp, hcalls,
      Or.inr ⟨htk, ⟨_, ht.loc, pre_prefix _ _⟩, (by intro p e; cases e), none, hv, ?_⟩⟩
    intro B hB
    have hB' : B key = none := hB
    simp only [AMap.apply, hB']
    congr 1
    funext k'
    simp only [AMap.set]
    split
    · next e => rw [e, hB']
    · rfl
  cases hp : w.ptr with
  | none => exact none_ok (leafVal_null hp)
  | some a =>
    simp only
    cases hcond : w.cond with
    | true =>
      simp only [if_true]
      cases hlv : levels with
      | nil =>
        have hd0 : d = 0 := by rw [← ht.levels_len, hlv]; rfl
        subst hd0
        have hroot : cur = .root := by
          have := ht.loc
          cases cur with
          | root => rfl
          | slot b i =>
            obtain ⟨cs, p, -, h2, -⟩ := this
            simp [pre_zero] at h2
        subst hroot
        rw [x.clean rfl] at hcond; cases hcond
      | cons y rest =>
        obtain ⟨pl, child⟩ := y
        exact qEnterPrune h0 (ht.levels_ok _ (by rw [hlv]; simp)) ⟨hreq, hcalls⟩ htk.symm
    | false =>
      simp only [Bool.false_eq_true, if_false]
      cases hdt : w.data with
      | true =>
        obtain ⟨items, h1, h2, h3⟩ := x.data hok hp hdt
        simp only [if_true, h1]
        have hlv := leafVal_data (cfg := cfg) (k := key) hp hdt h2
        cases hf : (items.filter (fun l => decide (cfg.key l = key))).getLast? with
        | none =>
          refine none_ok ?_
          rw [filter_getLast _ _ _ h3.nodup] at hf
          rw [hlv, hf]
        | some deleted =>
          simp only [QNext, PCInv, h0]
          rw [filter_getLast _ _ _ h3.nodup] at hf
          exact ⟨⟨hreq, by simpa using hcalls, d, a, items, rfl, ht, word_eq_data hp hdt hcond, held_word hok hp,
            h2, h3, rfl, hf⟩, htk.symm⟩
      | false =>
        simp only [Bool.false_eq_true, if_false]
        obtain ⟨h1, h2, ⟨cs, h3⟩, h4⟩ := h.down ht.len hok hp hdt
        have hml : ¬ MAX_LEVELS ≤ levels.length := by rw [ht.levels_len]; simp [MAX_LEVELS, LEVEL_BITS]; omega
        have hsh : ¬ HASH_BITS ≤ LEVEL_BITS * d := by simp only [LEVEL_BITS, HASH_BITS]; omega
        simp only [hml, hsh, if_false, QNext, PCInv, h0]
        refine ⟨⟨hreq, by simpa using hcalls, d + 1, rfl, ⟨by omega, by simp [ht.levels_len], h4, ?_⟩⟩, htk.symm⟩
        intro y hy
        simp at hy
        rcases hy with rfl | hy
        · exact ⟨a, cs, _, word_eq_inner hp hdt hcond, h3, h2, ht.loc⟩
        · exact ht.levels_ok y hy

/-! ### Failing CASes -/

theorem qTickTravCas (h0 : c.inv = 0) {st : TState K P} {hash : BitVec 64} {mode : Mode}
    {shift : Nat} {cur : Loc} {parent : Option (Loc × Word)} {node : Word} {new : Node P} {kind : TKind P}
    (hpc : c.pc = .travCas st hash mode shift cur parent node new kind) (hi : PCInv cfg A m c)
    (x : QSeen cfg m mw cur w) (hw : c.pc.writes mw weak = false) :
    QNext cfg A m c cur w (tick cfg mw weak c.pc).2 := by
  simp only [PCInv, hpc, h0] at hi
  obtain ⟨d, rfl, ht, -⟩ := hi
  have hn : ¬ (w = node ∧ weak = false) := by
    intro e
    simp [hpc, PC.writes, PC.access, PC.stores, x.read, e] at hw
  have : (tick cfg mw weak c.pc).2 = .goto (.trav st hash mode (LEVEL_BITS * d) cur parent) false := by
    rw [hpc]; simp only [tick, tickTravCas, x.read, hn, if_false]
  rw [this]
  simp only [QNext, PCInv, h0]
  exact ⟨⟨d, rfl, by simpa using ht⟩, by rw [hpc]; rfl⟩

theorem qTickRemCas (h0 : c.inv = 0) {key : K} {shift : Nat} {cur : Loc} {levels : List (Loc × Word)}
    {node : Word} {new : List P} {deleted : P}
    (hpc : c.pc = .remCas key shift cur levels node new deleted) (hi : PCInv cfg A m c)
    (x : QSeen cfg m mw cur w) (hw : c.pc.writes mw weak = false) :
    QNext cfg A m c cur w (tick cfg mw weak c.pc).2 := by
  simp only [PCInv, hpc, h0] at hi
  obtain ⟨hreq, hcalls, d, a, items, rfl, ht, -⟩ := hi
  have hn : ¬ (w = node ∧ weak = false) := by
    intro e
    simp [hpc, PC.writes, PC.access, PC.stores, x.read, e] at hw
  have : (tick cfg mw weak c.pc).2 = .goto (.rem key (LEVEL_BITS * d) cur levels) false := by
    rw [hpc]; simp only [tick, tickRemCas, x.read, hn, if_false]
  rw [this]
  simp only [QNext, PCInv, h0]
  exact ⟨⟨hreq, by simpa using hcalls, d, rfl, ht⟩, by rw [hpc]; rfl⟩

theorem qTickPruneCas (h0 : c.inv = 0) {parent : Loc} {child : Word} {acc : PAcc} {k : Cont K P}
    (hpc : c.pc = .pruneCas parent child acc k) (hi : PCInv cfg A m c)
    (x : QSeen cfg m mw parent w) (hw : c.pc.writes mw weak = false) :
    QNext cfg A m c parent w (tick cfg mw weak c.pc).2 := by
  simp only [PCInv, hpc, h0] at hi
  obtain ⟨hk, a, cs, q, rfl, hm, -⟩ := hi
  have hn : ¬ (w = ⟨some a, false, false⟩) := by
    intro e
    simp [hpc, PC.writes, PC.access, PC.stores, x.read, e] at hw
  obtain ⟨c', hc'⟩ := x.inner a cs q hm
  have : (tick cfg mw weak c.pc).2 = afterPrune .casFail k := by
    rw [hpc]; simp [tick, tickPruneCas, x.read, Mem.deref, x.freedw, hc', hn]
  rw [this]
  exact qAfterPrune h0 hk (by rw [hpc]; cases k <;> rfl)

/-- Steps that store nothing, but those of `is_empty` and iteration. -/
theorem qTick (h : MemInv cfg A m) (h0 : c.inv = 0) (hi : PCInv cfg A m c) {o : LoadOrd}
    (ha : c.pc.access .code = some (ℓ, o)) (x : QSeen cfg m mw ℓ w) (hw : c.pc.writes mw weak = false)
    (h1 : c.pc ≠ .isEmpty) (h2 : c.pc ≠ .iterNew) (h3 : ∀ lv out, c.pc ≠ .iterNext lv out) :
    QNext cfg A m c ℓ w (tick cfg mw weak c.pc).2 := by
  cases hpc : c.pc with
  | isEmpty => exact absurd hpc h1
  | iterNew => exact absurd hpc h2
  | iterNext lv out => exact absurd hpc (h3 lv out)
  | get key hash cur =>
    rw [hpc] at ha; cases ha; rw [← hpc]; exact qTickGet h h0 hpc hi x
  | trav st hash mode shift cur parent =>
    rw [hpc] at ha; cases ha; rw [← hpc]; exact qTickTrav h h0 hpc hi x
  | travCas st hash mode shift cur parent node new kind =>
    rw [hpc] at ha; cases ha; rw [← hpc]; exact qTickTravCas h0 hpc hi x hw
  | rem key shift cur levels =>
    rw [hpc] at ha; cases ha; rw [← hpc]; exact qTickRem h h0 hpc hi x
  | remCas key shift cur levels node new deleted =>
    rw [hpc] at ha; cases ha; rw [← hpc]; exact qTickRemCas h0 hpc hi x hw
  | count deleted ref parent child rest i cnt =>
    rw [← hpc]
    refine qTickCount h0 hpc hi ?_
    intro a hp
    rw [hpc] at ha
    simp only [PC.access, hp, Option.map_some, Option.some.injEq, Prod.mk.injEq] at ha
    rw [ha.1]; exact x.read
  | prune parent child i acc k =>
    exfalso
    rw [hpc] at ha hw
    simp [PC.writes, ha, x.read, PC.stores] at hw
  | pruneCas parent child acc k =>
    rw [hpc] at ha; cases ha; rw [← hpc]; exact qTickPruneCas h0 hpc hi x hw

/-! ### What a step sees -/

/-- Replacing the value of a location. -/
theorem write_frame (m : Mem P) (w : Word) (ℓ : Loc) :
    (m.write w ℓ).next = m.next ∧ (m.write w ℓ).clock = m.clock ∧ (m.write w ℓ).retired = m.retired ∧
    (m.write w ℓ).freed = m.freed ∧
    (∀ a l, (m.write w ℓ).mem a = some (.data l) ↔ m.mem a = some (.data l)) ∧
    (∀ a c p, m.mem a = some (.inner c p) → ∃ c', (m.write w ℓ).mem a = some (.inner c' p)) ∧
    (∀ a, (m.write w ℓ).mem a = none ↔ m.mem a = none) := by
  cases ℓ with
  | root => exact ⟨rfl, rfl, rfl, rfl, fun _ _ => Iff.rfl, fun _ c _ h => ⟨c, h⟩, fun _ => Iff.rfl⟩
  | slot b i =>
    simp only [Mem.write]
    split
    · next cs path hb =>
      refine ⟨rfl, rfl, rfl, rfl, ?_, ?_, ?_⟩
      · intro a l
        by_cases e : a = b
        · subst e; simp [hb]
        · simp [upd_other _ _ e]
      · intro a c p ha
        by_cases e : a = b
        · subst e; rw [hb] at ha; cases ha; exact ⟨_, by simp; rfl⟩
        · exact ⟨c, by simp [upd_other _ _ e, ha]⟩
      · intro a
        by_cases e : a = b
        · subst e; simp [hb]
        · simp [upd_other _ _ e]
    · exact ⟨rfl, rfl, rfl, rfl, fun _ _ => Iff.rfl, fun _ c _ h => ⟨c, h⟩, fun _ => Iff.rfl⟩

theorem write_thaw (m : Mem P) (w : Word) (ℓ : Loc) : (m.write w ℓ).thaw = m.thaw.write w ℓ := by
  cases ℓ with
  | root => rfl
  | slot a i =>
    simp only [Mem.write, Mem.thaw]
    split <;> rfl

theorem write_loadData (m : Mem P) (w : Word) (ℓ : Loc) (w' : Word) : (m.write w ℓ).loadData w' = m.loadData w' := by
  obtain ⟨-, -, -, h4, h5, -, -⟩ := write_frame m w ℓ
  simp only [Mem.loadData]
  split
  · rfl
  · split
    · rfl
    · next a hp =>
      simp only [Mem.deref, h4]
      split
      · next hf =>
        have := (h5 a _).mp (by split at hf <;> first | exact hf | cases hf)
        split at hf
        · cases hf
        · next hfr => simp [hfr, this]
      · next hno =>
        split
        · next items hf =>
          exfalso
          split at hf
          · cases hf
          · next hfr => exact hno items (by simp [hfr, (h5 a _).mpr hf])
        · rfl

/-- Writing back what is there. -/
theorem write_same {m : Mem P} {w : Word} {ℓ : Loc} (h : m.read ℓ = some w) : m.write w ℓ = m := by
  cases ℓ with
  | root => cases h; rfl
  | slot a i =>
    simp only [Mem.read, Mem.deref] at h
    split at h
    · next cs path hd =>
      split at hd
      · cases hd
      · cases h
        simp only [Mem.write, hd]
        have hu : upd cs i (cs i) = cs := by
          funext j
          by_cases e : j = i
          · subst e; simp
          · simp [upd_other _ _ e]
        have hu2 : upd m.mem a (some (.inner cs path)) = m.mem := by
          funext b
          by_cases e : b = a
          · subst e; simp [hd]
          · simp [upd_other _ _ e]
        rw [hu, hu2]
    · cases h

theorem qSeen_write (hf : ∀ a, m.freed a = false) {q : List (Fin 16)} (hq : LocAt m 0 ℓ q) (hok : WordOK cfg m w q)
    (hc : ℓ = .root → w.cond = false) : QSeen cfg m (m.write w ℓ) ℓ w where
  read := by
    cases ℓ with
    | root => rfl
    | slot a i =>
      obtain ⟨c, p, h1, -⟩ := hq
      simp [Mem.write, h1, Mem.read, Mem.deref, hf a]
  ok := by intro q' hq'; rw [hq'.unique hq]; exact hok
  clean := hc
  load := write_loadData m w ℓ
  inner := (write_frame m w ℓ).2.2.2.2.2.1
  freed := hf
  freedw := by intro a; rw [(write_frame m w ℓ).2.2.2.1]; exact hf a
end
end Contrie
