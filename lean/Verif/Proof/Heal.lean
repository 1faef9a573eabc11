import Verif.Props.Tidy
import Verif.Props.Quiescent
/-
What overlapping removals have left behind on the way of an insertion is gone when the insertion returns.
-/
set_option linter.unusedSectionVars false
namespace Contrie
open scoped List
variable {K P : Type} [DecidableEq K] {cfg : Config K P} {A : Nat → AMap K P} {m m' : Mem P} {weak : Bool}

/-- The cells at depths below `d` on the path `n` are not condemned. -/
def Mem.ClearTo (m : Mem P) (n : List (Fin 16)) (d : Nat) : Prop :=
  ∀ a c p i, m.mem a = some (.inner c p) → m.retired a = none → p ++ [i] <+: n → p.length + 1 < d → (c i).cond = false

theorem Mem.ClearTo.zero (m : Mem P) (n : List (Fin 16)) : m.ClearTo n 0 := fun _ _ _ _ _ _ _ h => by omega

theorem Mem.ClearTo.mono {n : List (Fin 16)} {d d' : Nat} (h : m.ClearTo n d) (hd : d' ≤ d) : m.ClearTo n d' :=
  fun a c p i h1 h2 h3 h4 => h a c p i h1 h2 h3 (by omega)

/-- Nothing is condemned in a step. -/
def NoNewCond (m m' : Mem P) : Prop := ∀ a n, m'.CondAt a n → m.CondAt a n

theorem Mem.ClearTo.keep {n : List (Fin 16)} {d : Nat} (h : m.ClearTo n d) (he : Evo m m') (hk : NoNewCond m m') : m'.ClearTo n d := by
  intro a c p i h1 h2 h3 h4
  cases hc : (c i).cond with
  | false => rfl
  | true =>
    obtain ⟨c0, p0, g1, g2⟩ := hk a i ⟨c, p, h1, hc⟩
    obtain ⟨c', g3, -⟩ := he.inner a c0 p0 g1
    rw [h1] at g3; cases g3
    have hr : m.retired a = none := by
      cases hr : m.retired a with
      | none => rfl
      | some τ => rw [he.retOld a τ hr] at h2; cases h2
    rw [h a c0 p i g1 hr h3 h4] at g2; cases g2

theorem Mem.ClearTo.bump {n : List (Fin 16)} {d : Nat} (h : m.ClearTo n d) : m.bump.ClearTo n d := h

/-- Two linked inner nodes with the same path are the same. -/
theorem MemInv.same_path (h : MemInv cfg A m) {a b : Nat} {c c' : Fin 16 → Word} {p : List (Fin 16)} (h1 : m.mem a = some (.inner c p))
    (h2 : m.retired a = none) (h1' : m.mem b = some (.inner c' p)) (h2' : m.retired b = none) : a = b := by
  have e1 := h.inner_at h1 h2
  have e2 := h.inner_at h1' h2'
  rw [e1] at e2; cases e2; rfl

/-- The cell found is clear, too. -/
theorem Mem.ClearTo.cell {hash : BitVec 64} {d : Nat} (h : m.ClearTo (nibs hash) d) (hi : MemInv cfg A m) (hd : d ≤ 16) {cur : Loc} {w : Word}
    (hat : m.At cur (pre hash d) w) (hc : w.cond = false) : m.ClearTo (nibs hash) (d + 1) := by
  intro a c p i h1 h2 h3 h4
  by_cases hlt : p.length + 1 < d
  · exact h a c p i h1 h2 h3 hlt
  have hlen : p.length + 1 = d := by omega
  have hq : p ++ [i] = pre hash d := by
    have := pre_of_prefix h3
    rw [this]
    congr 1
    simpa using hlen
  cases cur with
  | root => obtain ⟨e, -⟩ := hat; rw [← hq] at e; simp at e
  | slot b j =>
    have hl := hi.at_live hat hc b j rfl
    obtain ⟨c', p', g1, g2, g3⟩ := hat
    rw [← hq] at g2
    obtain ⟨rfl, e⟩ := List.append_inj' g2 rfl
    cases e
    obtain rfl := hi.same_path h1 h2 g1 hl
    rw [h1] at g1; cases g1
    rw [g3]; exact hc

/-- Below a leaf there is nothing. -/
theorem Mem.ClearTo.leaf {hash : BitVec 64} {d : Nat} (h : m.ClearTo (nibs hash) (d + 1)) (hi : MemInv cfg A m) (hd : d ≤ 16) {w : Word}
    (hf : m.follow m.root (pre hash d) = some w) (hw : w.isLeaf) (e : Nat) : m.ClearTo (nibs hash) e := by
  intro a c p i h1 h2 h3 h4
  by_cases hlt : p.length < d
  · exact h a c p i h1 h2 h3 (by omega)
  exfalso
  have hp : p <+: nibs hash := (List.prefix_append p [i]).trans h3
  have h5 : pre hash d <+: p := by
    rw [pre_of_prefix hp]; exact List.take_prefix_take_left (by omega)
  obtain ⟨t, rfl⟩ := h5
  have h6 := hi.inner_at h1 h2
  rw [follow_append' hf] at h6
  have e1 := (hw.follow h6).2
  have e2 : some a = w.ptr := congrArg Word.ptr e1
  have e3 : false = w.data := congrArg Word.data e1
  rcases hw with h | h
  · rw [h] at e2; cases e2
  · rw [h] at e3; cases e3

theorem at_write {cur : Loc} {q : List (Fin 16)} {w0 : Word} (hat : m.At cur q w0) (hn : m.mem m.next = none) (w' : Word) (new : Option (Node P))
    (ret : Option Nat) : (m.swing cur w' new ret).bump.At cur q w' := by
  have hs := swing_swung hat hn w' new ret
  cases cur with
  | root => obtain ⟨rfl, -⟩ := hat; exact ⟨rfl, by rw [hs.root]; simp⟩
  | slot a i =>
    obtain ⟨c, p, h1, h2, -⟩ := hat
    exact ⟨_, p, hs.node a c p h1, h2, by simp⟩

/-- The cells an insertion has passed are clear. -/
def HealPC (m : Mem P) (n : List (Fin 16)) : PC K P → Prop
  | .trav _ _ _ shift _ _ => ∀ d, shift = LEVEL_BITS * d → m.ClearTo n d
  | .travCas _ _ _ shift _ _ _ _ _ => ∀ d, shift = LEVEL_BITS * d → m.ClearTo n d
  | _ => True

theorem HealPC.keep {n : List (Fin 16)} {pc : PC K P} (h : HealPC m n pc) (he : Evo m m') (hk : NoNewCond m m') : HealPC m' n pc := by
  cases pc with
  | trav st hash mode shift cur parent => exact fun d e => (h d e).keep he hk
  | travCas st hash mode shift cur parent node new kind => exact fun d e => (h d e).keep he hk
  | _ => trivial

theorem enterPrune_heal {n : List (Fin 16)} {p : Loc} {ch : Word} {k : Cont K P} {pc : PC K P} {ran : Bool} (h : enterPrune p ch k = .goto pc ran) : HealPC m n pc := by
  simp only [enterPrune] at h
  repeat' split at h
  all_goals (cases h; try trivial)

theorem shift_inj {d d' : Nat} (h : LEVEL_BITS * d = LEVEL_BITS * d') : d = d' := by
  simp only [LEVEL_BITS] at h; omega

/-- What a step of an insertion leads to. -/
def HealNext (m : Mem P) (n : List (Fin 16)) : Next K P → Prop
  | .goto pc _ => HealPC m n pc
  | .ret _ _ => ∀ e, m.ClearTo n e
  | .fail _ => True

theorem enterPrune_healNext {n : List (Fin 16)} {p : Loc} {ch : Word} {k : Cont K P} : HealNext m n (enterPrune p ch k) := by
  simp only [enterPrune]
  repeat' split
  all_goals trivial

theorem finishTrav_healNext {n : List (Fin 16)} {mode : Mode} {r : Option (ExistingOrNew P)} {refs : List Nat} (h : ∀ e, m.ClearTo n e) :
    HealNext m n (finishTrav (K := K) mode r refs) := by
  simp only [finishTrav]
  repeat' split
  all_goals first
    | exact h
    | trivial

theorem noNew_of_tick {pc : PC K P} (hq : pc.tidy) (hp : ∀ p ch i acc k, pc ≠ .prune p ch i acc k) : NoNewCond m (tick cfg m weak pc).1.bump := by
  intro a n h
  rcases tick_condAt hq (show (tick cfg m weak pc).1.CondAt a n from h) with h | ⟨p, ch, acc, k, e, -⟩
  · exact h
  · exact absurd e (hp _ _ _ _ _)

theorem tick_heal {c : Call K P} (x : Ctx cfg A m c.inv) (hi : PCInv cfg A m c) (htd : c.pc.tidy) {k : K} (hk : c.req.insKey cfg = some k)
    (he : Evo m (tick cfg m weak c.pc).1.bump) (hinv : MemInv cfg A (tick cfg m weak c.pc).1.bump)
    (h : HealPC m (nibs (cfg.hash k)) c.pc) : HealNext (tick cfg m weak c.pc).1.bump (nibs (cfg.hash k)) (tick cfg m weak c.pc).2 := by
  cases hpc : c.pc with
  | trav st hash mode shift cur parent =>
    rw [hpc] at h
    simp only [PCInv, hpc] at hi
    obtain ⟨d, rfl, ht⟩ := hi
    have hk' := ht.req.insKey
    rw [hk] at hk'; cases hk'
    have hh := ht.hashEq
    subst hh
    have hd := h d rfl
    obtain ⟨w, hr, hat, -, hok⟩ := x.read ht.loc
    simp only [tick, tickTrav, hr]
    by_cases hc : w.cond = true
    · rw [if_pos hc]
      split
      · trivial
      · exact enterPrune_healNext
    · rw [if_neg hc]
      simp only [Bool.not_eq_true] at hc
      have hcell := hd.cell x.h ht.len hat hc
      have hcas : HealPC (K := K) m.bump (nibs (cfg.hash (st.key cfg))) (.travCas (.created st.payload) (cfg.hash (st.key cfg)) mode (LEVEL_BITS * d) cur parent w (.data [st.payload]) .fresh) :=
        fun d' e => by rw [← shift_inj e]; exact hd
      cases hp : w.ptr with
      | none => exact hcas
      | some a =>
        simp only
        cases hdt : w.data with
        | true =>
          simp only [if_true]
          split
          · trivial
          · trivial
          · split
            · split
              · trivial
              · exact hcas
            · split
              · exact hcas
              · refine finishTrav_healNext (fun e => ?_)
                exact hcell.leaf x.h ht.len (x.h.at_follow hat hc) (Or.inr hdt) e
        | false =>
          simp only [Bool.false_eq_true, if_false]
          split
          · trivial
          · intro d' e
            have : d + 1 = d' := shift_inj (by rw [← e]; simp only [LEVEL_BITS]; omega)
            rw [← this]; exact hcell
  | travCas st hash mode shift cur parent node new kind =>
    have hkeep := (h.keep he (noNew_of_tick (weak := weak) htd (by intro p ch i acc k e; rw [hpc] at e; cases e)))
    rw [hpc] at hkeep hinv
    simp only [PCInv, hpc] at hi
    obtain ⟨d, rfl, ht, hcas⟩ := hi
    have hk' := ht.req.insKey
    rw [hk] at hk'; cases hk'
    have hh := ht.hashEq
    subst hh
    obtain ⟨w, hr, hat, -, hok⟩ := x.read ht.loc
    have hnn := x.h.fresh _ (Nat.le_refl _)
    have hd := hkeep d rfl
    by_cases hsucc : w = node ∧ weak = false
    · obtain ⟨rfl, rfl⟩ := hsucc
      have fin : ∀ (l : List P) (ret : Option Nat) (nx : Next K P),
          tick cfg m false (.travCas st (cfg.hash (st.key cfg)) mode (LEVEL_BITS * d) cur parent w new kind) =
            (m.swing cur ⟨some m.next, false, true⟩ (some (.data l)) ret, nx) →
          ∀ e, (m.swing cur ⟨some m.next, false, true⟩ (some (.data l)) ret).bump.ClearTo (nibs (cfg.hash (st.key cfg))) e := by
        intro l ret nx ht' e
        rw [ht'] at hd hinv
        have hat' := at_write hat hnn ⟨some m.next, false, true⟩ (some (.data l)) ret
        exact (hd.cell hinv ht.len hat' rfl).leaf hinv ht.len (hinv.at_follow hat' rfl) (Or.inr rfl) e
      have done : ∀ (l : List P) (ret : Option Nat) (md : Mode) (r : Option (ExistingOrNew P)) (refs : List Nat),
          tick cfg m false (.travCas st (cfg.hash (st.key cfg)) mode (LEVEL_BITS * d) cur parent w new kind) =
            (m.swing cur ⟨some m.next, false, true⟩ (some (.data l)) ret, finishTrav md r refs) →
          HealNext (tick cfg m false (.travCas st (cfg.hash (st.key cfg)) mode (LEVEL_BITS * d) cur parent w new kind)).1.bump
            (nibs (cfg.hash (st.key cfg))) (tick cfg m false (.travCas st (cfg.hash (st.key cfg)) mode (LEVEL_BITS * d) cur parent w new kind)).2 := by
        intro l ret md r refs ht'
        have := fin l ret _ ht'
        rw [ht']
        exact finishTrav_healNext this
      cases hcas with
      | fresh p hst =>
        cases mode with
        | overwrite => exact done [p] none .overwrite none [] (by simp [tick, tickTravCas, hr]; rfl)
        | ifMissing => exact done [p] none .ifMissing (some (.new ((Node.data [p]).newest st.payload))) [m.next] (by simp [tick, tickTravCas, hr]; rfl)
      | split a d0 hh hm hd16 hne =>
        have : (tick cfg m false (.travCas st (cfg.hash (st.key cfg)) mode (LEVEL_BITS * d) cur parent ⟨some a, false, true⟩
            (.inner (upd (fun _ => Word.null) (bitsAt (cfg.hash (cfg.key d0)) (LEVEL_BITS * d)) ⟨some a, false, true⟩) (pre (cfg.hash (st.key cfg)) d)) .split)).2 =
            .goto (.trav st (cfg.hash (st.key cfg)) mode (LEVEL_BITS * d) cur parent) false := by
          simp [tick, tickTravCas, hr]
        rw [this]
        intro d' e
        rw [← shift_inj e]; exact hd
      | replace a p items hst hh hm hdok hdeep hmode =>
        cases hf : items.find? (fun l => decide (cfg.key l = st.key cfg)) with
        | none =>
          rw [hf] at done
          cases mode with
          | overwrite => exact done _ (some a) .overwrite none [] (by simp [tick, tickTravCas, hr]; rfl)
          | ifMissing =>
            exact done _ (some a) .ifMissing (some (.new ((Node.data (items.filter (fun l => decide (cfg.key l ≠ st.key cfg)) ++ [p])).newest st.payload))) [m.next]
              (by simp [tick, tickTravCas, hr]; rfl)
        | some e =>
          rw [hf] at done
          exact done _ (some a) mode (some (.existing e)) [a] (by simp [tick, tickTravCas, hr]; rfl)
    · have htick : (tick cfg m weak (.travCas st (cfg.hash (st.key cfg)) mode (LEVEL_BITS * d) cur parent node new kind)).2 =
          .goto (.trav st (cfg.hash (st.key cfg)) mode (LEVEL_BITS * d) cur parent) false := by
        simp [tick, tickTravCas, hr, hsucc]
      rw [htick]
      intro d' e
      rw [← shift_inj e]; exact hd
  | prune parent child i acc k =>
    simp only [tick, tickPrune]
    repeat' split
    all_goals trivial
  | pruneCas parent child acc k' =>
    simp only [PCInv, hpc] at hi
    have hback : ∀ (mm : Mem P) r, HealNext mm (nibs (cfg.hash k)) (afterPrune r k') := by
      intro mm r
      cases k' with
      | trav st hash mode => intro d e; rw [← shift_inj (show LEVEL_BITS * 0 = LEVEL_BITS * d from e)]; exact Mem.ClearTo.zero _ _
      | rem key => rw [hi.1.1] at hk; cases hk
      | clean del ref rest => obtain ⟨⟨⟨k1, e⟩, -⟩, -⟩ := hi.1; rw [e] at hk; cases hk
    simp only [tick, tickPruneCas]
    repeat' split
    all_goals first
      | trivial
      | exact hback _ _
  | get key hash cur => simp only [PCInv, hpc] at hi; rw [hi.1] at hk; cases hk
  | isEmpty => simp only [PCInv, hpc] at hi; rw [hi.1] at hk; cases hk
  | iterNew => simp only [PCInv, hpc] at hi; rw [hi.1] at hk; cases hk
  | iterNext levels out => simp only [PCInv, hpc] at hi; rw [hi.1] at hk; cases hk
  | rem key shift cur levels => simp only [PCInv, hpc] at hi; rw [hi.1] at hk; cases hk
  | remCas key shift cur levels node new deleted => simp only [PCInv, hpc] at hi; rw [hi.1] at hk; cases hk
  | count deleted ref parent child rest i cn => simp only [PCInv, hpc] at hi; obtain ⟨⟨k1, e⟩, -⟩ := hi; rw [e] at hk; cases hk

end Contrie
