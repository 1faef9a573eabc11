import Verif.Proof.Thread
/-
The invariant of a call in progress, for every program counter.
-/
set_option linter.unusedSectionVars false
namespace Contrie
variable {K P : Type} [DecidableEq K]

/-! ### Iteration -/

/-- The stack of the iterator (top first) and the paths of its words. -/
inductive StackOK (cfg : Config K P) (m : Mem P) (s : Nat) : List (Word × Nat) → List (List (Fin 16)) → Prop
  | nil : StackOK cfg m s [] []
  | root (w : Word) (idx : Nat) (hw : WordOK cfg m w []) (hh : WHeld m s w) : StackOK cfg m s [(w, idx)] [[]]
  | push (w : Word) (idx : Nat) (w1 : Word) (i : Fin 16) (q : List (Fin 16)) (rest : List (Word × Nat))
      (qs : List (List (Fin 16))) (hs : StackOK cfg m s ((w1, i.val + 1) :: rest) (q :: qs))
      (h1 : w1.ptr ≠ none ∧ w1.data = false) (hw : WordOK cfg m w (q ++ [i])) (hh : WHeld m s w) :
      StackOK cfg m s ((w, idx) :: (w1, i.val + 1) :: rest) ((q ++ [i]) :: q :: qs)

theorem StackOK.evo {cfg : Config K P} {m m' : Mem P} {s : Nat} {lv : List (Word × Nat)}
    {qs : List (List (Fin 16))} (h : StackOK cfg m s lv qs) (he : Evo m m') (hs : s ≤ m.clock) :
    StackOK cfg m' s lv qs := by
  induction h with
  | nil => exact .nil
  | root w idx hw hh => exact .root w idx (hw.evo he) (hh.evo he hs)
  | push w idx w1 i q rest qs _ h1 hw hh ih => exact .push w idx w1 i q rest qs ih h1 (hw.evo he) (hh.evo he hs)

/-- Hash path `n` lies ahead of the iterator: below a cell not yet visited of an inner node on the stack. -/
def Ahead (lv : List (Word × Nat)) (qs : List (List (Fin 16))) (n : List (Fin 16)) : Prop :=
  ∃ x ∈ lv.zip qs, (x.1.1.ptr ≠ none ∧ x.1.1.data = false) ∧ ∃ j : Fin 16, x.1.2 ≤ j.val ∧ x.2 ++ [j] <+: n

/-- Items of the data node on top of the stack. -/
def TopItems (m : Mem P) (w : Word) (items : List P) : Prop :=
  w.data = true ∧ ∃ a, w.ptr = some a ∧ m.mem a = some (.data items)

/-- Was `p` in the map at some instant between `s` and `e`? -/
def WasIn (cfg : Config K P) (A : Nat → AMap K P) (s e : Nat) (p : P) : Prop :=
  ∃ τ, s ≤ τ ∧ τ ≤ e ∧ A τ (cfg.key p) = some p

/-- Invariant of the iterator. -/
structure IterOK (cfg : Config K P) (A : Nat → AMap K P) (m : Mem P) (s : Nat) (lv : List (Word × Nat))
    (qs : List (List (Fin 16))) (out : List P) : Prop where
  stack : StackOK cfg m s lv qs
  nodup : (out.map cfg.key).Nodup
  real : ∀ p ∈ out, WasIn cfg A s m.clock p
  behind : ∀ p ∈ out, ¬ Ahead lv qs (nibs (cfg.hash (cfg.key p)))
  topOut : ∀ w idx rest q qs', lv = (w, idx) :: rest → qs = q :: qs' → w.isLeaf → ∀ p ∈ out,
    q <+: nibs (cfg.hash (cfg.key p)) → ∃ items, TopItems m w items ∧ p ∈ items.take idx
  topReal : ∀ w idx rest items, lv = (w, idx) :: rest → TopItems m w items → ∀ p ∈ items, WasIn cfg A s m.clock p
  cover : ∀ k, (∀ τ, s ≤ τ → τ ≤ m.clock → A τ k ≠ none) →
    k ∈ out.map cfg.key ∨ Ahead lv qs (nibs (cfg.hash k)) ∨
    ∃ w idx rest items, lv = (w, idx) :: rest ∧ TopItems m w items ∧ k ∈ (items.drop idx).map cfg.key

theorem TopItems.evo {m m' : Mem P} {w : Word} {items : List P} (h : TopItems m w items) (he : Evo m m') :
    TopItems m' w items := by
  obtain ⟨h1, a, h2, h3⟩ := h
  exact ⟨h1, a, h2, he.data a items h3⟩

theorem WasIn.mono {cfg : Config K P} {A : Nat → AMap K P} {s e e' : Nat} {p : P} (h : WasIn cfg A s e p)
    (he : e ≤ e') : WasIn cfg A s e' p := by
  obtain ⟨τ, h1, h2, h3⟩ := h
  exact ⟨τ, h1, by omega, h3⟩

theorem IterOK.evo {cfg : Config K P} {A : Nat → AMap K P} {m m' : Mem P} {s : Nat} {lv : List (Word × Nat)}
    {qs : List (List (Fin 16))} {out : List P} (h : IterOK cfg A m s lv qs out) (he : Evo m m') (hs : s ≤ m.clock) :
    IterOK cfg A m' s lv qs out where
  stack := h.stack.evo he hs
  nodup := h.nodup
  real := by intro p hp; refine (h.real p hp).mono ?_; rw [he.clock]; omega
  behind := h.behind
  topOut := by
    intro w idx rest q qs' e1 e2 hl p hp hq
    obtain ⟨items, h1, h2⟩ := h.topOut w idx rest q qs' e1 e2 hl p hp hq
    exact ⟨items, h1.evo he, h2⟩
  topReal := by
    intro w idx rest items e1 ht p hp
    have h1 : TopItems m w items := by
      obtain ⟨hd, a, hp', hm⟩ := ht
      refine ⟨hd, a, hp', ?_⟩
      -- the word was fine before
      have hst := h.stack
      subst e1
      have : ∃ q, WordOK cfg m w q := by cases hst <;> exact ⟨_, ‹_›⟩
      obtain ⟨q, hw⟩ := this
      obtain ⟨l, hl, -⟩ := hw.of_data hp' hd
      rw [he.data a l hl] at hm; cases hm; exact hl
    refine (h.topReal w idx rest items e1 h1 p hp).mono ?_; rw [he.clock]; omega
  cover := by
    intro k hk
    rcases h.cover k (fun τ h1 h2 => hk τ h1 (by rw [he.clock]; omega)) with h1 | h1 | ⟨w, idx, rest, items, h1, h2, h3⟩
    · exact Or.inl h1
    · exact Or.inr (Or.inl h1)
    · exact Or.inr (Or.inr ⟨w, idx, rest, items, h1, h2.evo he, h3⟩)

/-! ### insert / get_or_insert_with -/

/-- The request a traversal works for; the last index is the number of times the closure has run. -/
inductive TravReq (cfg : Config K P) : Req K P → Mode → TState K P → Nat → Prop
  | ins (p : P) : TravReq cfg (.op (.insert p)) .overwrite (.created p) 0
  | fut (k : K) (f : K → P) (wf : cfg.key (f k) = k) :
      TravReq cfg (.op (.getOrInsert k f)) .ifMissing (.future k f) 0
  | made (k : K) (f : K → P) (wf : cfg.key (f k) = k) :
      TravReq cfg (.op (.getOrInsert k f)) .ifMissing (.created (f k)) 1

theorem TravReq.make {cfg : Config K P} {r : Req K P} {mode : Mode} {st : TState K P} {n : Nat}
    (h : TravReq cfg r mode st n) :
    TravReq cfg r mode (.created st.payload) (n + if st.runsClosure then 1 else 0) := by
  cases h with
  | ins p => exact .ins p
  | fut k f wf => exact .made k f wf
  | made k f wf => exact .made k f wf

theorem TravReq.key_payload {cfg : Config K P} {r : Req K P} {mode : Mode} {st : TState K P} {n : Nat}
    (h : TravReq cfg r mode st n) : cfg.key st.payload = st.key cfg := by
  cases h with
  | ins p => rfl
  | fut k f wf => exact wf
  | made k f wf => rfl

/-- Position of a traversal. -/
structure TravAt (cfg : Config K P) (m : Mem P) (s : Nat) (req : Req K P) (calls : Nat) (st : TState K P)
    (hash : BitVec 64) (mode : Mode) (d : Nat) (cur : Loc) (parent : Option (Loc × Word)) : Prop where
  req : TravReq cfg req mode st calls
  hashEq : hash = cfg.hash (st.key cfg)
  len : d ≤ 16
  loc : LocAt m s cur (pre hash d)
  par0 : parent = none → cur = .root
  par : ∀ x, parent = some x → PairOK m s x

theorem TravAt.evo {cfg : Config K P} {m m' : Mem P} {s : Nat} {req : Req K P} {calls : Nat} {st : TState K P}
    {hash : BitVec 64} {mode : Mode} {d : Nat} {cur : Loc} {parent : Option (Loc × Word)}
    (h : TravAt cfg m s req calls st hash mode d cur parent) (he : Evo m m') (hs : s ≤ m.clock) :
    TravAt cfg m' s req calls st hash mode d cur parent :=
  ⟨h.req, h.hashEq, h.len, h.loc.evo he hs, h.par0, fun x hx => (h.par x hx).evo he hs⟩

/-- The pending CAS of a traversal. -/
inductive CasOK (cfg : Config K P) (m : Mem P) (s : Nat) (st : TState K P) (hash : BitVec 64) (mode : Mode) (d : Nat) :
    Word → Node P → TKind P → Prop
  | fresh (p : P) (hst : st = .created p) : CasOK cfg m s st hash mode d Word.null (.data [p]) .fresh
  | split (a : Nat) (d0 : P) (hh : Held m s a) (hm : m.mem a = some (.data [d0])) (hd : d < 16)
      (hne : cfg.key d0 ≠ st.key cfg) :
      CasOK cfg m s st hash mode d ⟨some a, false, true⟩
        (.inner (upd (fun _ => Word.null) (bitsAt (cfg.hash (cfg.key d0)) (LEVEL_BITS * d)) ⟨some a, false, true⟩)
          (pre hash d)) .split
  | replace (a : Nat) (p : P) (items : List P) (hst : st = .created p) (hh : Held m s a)
      (hm : m.mem a = some (.data items)) (hok : DataOK cfg items (pre hash d))
      (hdeep : d = 16 ∨ ∃ d0, items = [d0] ∧ cfg.key d0 = st.key cfg)
      (hmode : (items.find? (fun l => decide (cfg.key l = st.key cfg))).isNone ∨ mode = .overwrite) :
      CasOK cfg m s st hash mode d ⟨some a, false, true⟩
        (.data (items.filter (fun l => decide (cfg.key l ≠ st.key cfg)) ++ [p]))
        (.replace (items.find? (fun l => decide (cfg.key l = st.key cfg))))

theorem CasOK.evo {cfg : Config K P} {m m' : Mem P} {s : Nat} {st : TState K P} {hash : BitVec 64} {mode : Mode} {d : Nat}
    {w : Word} {new : Node P} {kind : TKind P} (h : CasOK cfg m s st hash mode d w new kind) (he : Evo m m')
    (hs : s ≤ m.clock) : CasOK cfg m' s st hash mode d w new kind := by
  cases h with
  | fresh p hst => exact .fresh p hst
  | split a d0 hh hm hd hne => exact .split a d0 (hh.evo he hs) (he.data _ _ hm) hd hne
  | replace a p items hst hh hm hok hdeep hmode => exact .replace a p items hst (hh.evo he hs) (he.data _ _ hm) hok hdeep hmode

/-! ### remove -/

/-- Position of a removal. -/
structure RemAt (cfg : Config K P) (m : Mem P) (s : Nat) (key : K) (d : Nat) (cur : Loc)
    (levels : List (Loc × Word)) : Prop where
  len : d ≤ 16
  levels_len : levels.length = d
  loc : LocAt m s cur (pre (cfg.hash key) d)
  levels_ok : ∀ x ∈ levels, PairOK m s x

theorem RemAt.evo {cfg : Config K P} {m m' : Mem P} {s : Nat} {key : K} {d : Nat} {cur : Loc}
    {levels : List (Loc × Word)} (h : RemAt cfg m s key d cur levels) (he : Evo m m') (hs : s ≤ m.clock) :
    RemAt cfg m' s key d cur levels :=
  ⟨h.len, h.levels_len, h.loc.evo he hs, fun x hx => (h.levels_ok x hx).evo he hs⟩

/-- The clean-up of a removal: what is still remembered. -/
structure CleanOK (m : Mem P) (s : Nat) (deleted : P) (ref : Nat) (rest : List (Loc × Word)) : Prop where
  held : Held m s ref
  items : ∃ l, m.mem ref = some (.data l) ∧ deleted ∈ l
  levels_ok : ∀ x ∈ rest, PairOK m s x

theorem CleanOK.evo {m m' : Mem P} {s : Nat} {deleted : P} {ref : Nat} {rest : List (Loc × Word)}
    (h : CleanOK m s deleted ref rest) (he : Evo m m') (hs : s ≤ m.clock) : CleanOK m' s deleted ref rest := by
  obtain ⟨l, h1, h2⟩ := h.items
  exact ⟨h.held.evo he hs, ⟨l, he.data _ _ h1, h2⟩, fun x hx => (h.levels_ok x hx).evo he hs⟩

/-- What `prune` returns to. -/
def ContOK (cfg : Config K P) (m : Mem P) (s : Nat) (req : Req K P) (calls : Nat) : Cont K P → Prop
  | .trav st hash mode => TravReq cfg req mode st calls ∧ hash = cfg.hash (st.key cfg)
  | .rem key => req = .op (.remove key) ∧ calls = 0
  | .clean deleted ref rest => ((∃ k, req = .op (.remove k)) ∧ calls = 0) ∧ CleanOK m s deleted ref rest

theorem ContOK.evo {cfg : Config K P} {m m' : Mem P} {s : Nat} {req : Req K P} {calls : Nat} {k : Cont K P}
    (h : ContOK cfg m s req calls k) (he : Evo m m') (hs : s ≤ m.clock) : ContOK cfg m' s req calls k := by
  cases k with
  | trav st hash mode => exact h
  | rem key => exact h
  | clean deleted ref rest => exact ⟨h.1, h.2.evo he hs⟩

/-- `prune` at work on a pair, `n` cells done. -/
def PruneAt (m : Mem P) (s : Nat) (parent : Loc) (child : Word) (n : Nat) (acc : PAcc) : Prop :=
  ∃ a c q, child = ⟨some a, false, false⟩ ∧ m.mem a = some (.inner c q) ∧ Held m s a ∧ LocAt m s parent q ∧
    AccOK m c n acc

theorem PruneAt.evo {m m' : Mem P} {s : Nat} {parent : Loc} {child : Word} {n : Nat} {acc : PAcc}
    (h : PruneAt m s parent child n acc) (he : Evo m m') (hs : s ≤ m.clock) : PruneAt m' s parent child n acc := by
  obtain ⟨a, c, q, h1, h2, h3, h4, h5⟩ := h
  obtain ⟨c', hc', hc⟩ := he.inner a c q h2
  exact ⟨a, c', q, h1, hc', h3.evo he hs, h4.evo he hs, h5.evo he hc⟩

/-! ### All program counters -/

/-- The invariant of a call in progress. -/
def PCInv (cfg : Config K P) (A : Nat → AMap K P) (m : Mem P) (c : Call K P) : Prop :=
  match c.pc with
  | .get key hash cur => c.req = .op (.get key) ∧ c.calls = 0 ∧ ∃ d, d ≤ 16 ∧ c.ticks = d ∧
      hash = cfg.hash key >>> (LEVEL_BITS * d) ∧ LocAt m c.inv cur (pre (cfg.hash key) d)
  | .isEmpty => c.req = .isEmpty ∧ c.calls = 0
  | .iterNew => c.req = .iter ∧ c.calls = 0
  | .iterNext lv out => c.req = .iter ∧ c.calls = 0 ∧ ∃ qs, IterOK cfg A m c.inv lv qs out
  | .trav st hash mode shift cur parent => ∃ d, shift = LEVEL_BITS * d ∧
      TravAt cfg m c.inv c.req c.calls st hash mode d cur parent
  | .travCas st hash mode shift cur parent node new kind => ∃ d, shift = LEVEL_BITS * d ∧
      TravAt cfg m c.inv c.req c.calls st hash mode d cur parent ∧ CasOK cfg m c.inv st hash mode d node new kind
  | .rem key shift cur levels => c.req = .op (.remove key) ∧ c.calls = 0 ∧ ∃ d, shift = LEVEL_BITS * d ∧
      RemAt cfg m c.inv key d cur levels
  | .remCas key shift cur levels node new deleted => c.req = .op (.remove key) ∧ c.calls = 0 ∧
      ∃ d a items, shift = LEVEL_BITS * d ∧ RemAt cfg m c.inv key d cur levels ∧ node = ⟨some a, false, true⟩ ∧
        Held m c.inv a ∧ m.mem a = some (.data items) ∧ DataOK cfg items (pre (cfg.hash key) d) ∧
        new = items.filter (fun l => decide (cfg.key l ≠ key)) ∧
        items.find? (fun l => decide (cfg.key l = key)) = some deleted
  | .count deleted ref parent child rest _ _ => (∃ k, c.req = .op (.remove k)) ∧ c.calls = 0 ∧
      CleanOK m c.inv deleted ref rest ∧ PairOK m c.inv (parent, child)
  | .prune parent child i acc k => ContOK cfg m c.inv c.req c.calls k ∧ PruneAt m c.inv parent child i.val acc
  | .pruneCas parent child acc k => ContOK cfg m c.inv c.req c.calls k ∧ PruneAt m c.inv parent child 16 acc

theorem PCInv.evo {cfg : Config K P} {A : Nat → AMap K P} {m m' : Mem P} {c : Call K P}
    (h : PCInv cfg A m c) (he : Evo m m') (hs : c.inv ≤ m.clock) : PCInv cfg A m' c := by
  unfold PCInv at h ⊢
  split <;> simp only [*] at h
  · obtain ⟨h1, h0, d, h2, h3, h4, h5⟩ := h; exact ⟨h1, h0, d, h2, h3, h4, h5.evo he hs⟩
  · exact h
  · exact h
  · obtain ⟨h1, h0, qs, h2⟩ := h; exact ⟨h1, h0, qs, h2.evo he hs⟩
  · obtain ⟨d, h1, h2⟩ := h; exact ⟨d, h1, h2.evo he hs⟩
  · obtain ⟨d, h1, h2, h3⟩ := h; exact ⟨d, h1, h2.evo he hs, h3.evo he hs⟩
  · obtain ⟨h1, h0, d, h2, h3⟩ := h; exact ⟨h1, h0, d, h2, h3.evo he hs⟩
  · obtain ⟨h1, h0, d, a, items, h2, h3, h4, h5, h6, h7, h8⟩ := h
    exact ⟨h1, h0, d, a, items, h2, h3.evo he hs, h4, h5.evo he hs, he.data _ _ h6, h7, h8⟩
  · obtain ⟨h1, h0, h2, h3⟩ := h; exact ⟨h1, h0, h2.evo he hs, h3.evo he hs⟩
  · exact ⟨h.1.evo he hs, h.2.evo he hs⟩
  · exact ⟨h.1.evo he hs, h.2.evo he hs⟩

/-! ### Linearization bookkeeping -/

/-- A linearized update. -/
structure LP (K P : Type) where
  id : Nat
  op : Op K P
  ret : Ret P

/-- Which update takes effect in a step of call `c`? -/
def lpOf (cfg : Config K P) (m : Mem P) (weak : Bool) (c : Call K P) : Option (LP K P) :=
  match c.req with
  | .op o => match c.pc with
    | .travCas .. => match (tick cfg m weak c.pc).2 with
      | .ret (.op r) _ => some ⟨c.inv, o, r⟩
      | _ => none
    | .remCas _ _ cur _ node _ deleted =>
      if m.read cur = some node ∧ weak = false then some ⟨c.inv, o, .opt (some deleted)⟩ else none
    | _ => none
  | _ => none

/-- The payload a removal has already taken out. -/
def PC.taken : PC K P → Option P
  | .count deleted .. => some deleted
  | .prune _ _ _ _ (.clean deleted ..) => some deleted
  | .pruneCas _ _ _ (.clean deleted ..) => some deleted
  | _ => none

/-- Has the call taken effect already? `W τ`: the update that took effect in step `τ`. -/
def LinInv (W : Nat → Option (LP K P)) (n : Nat) (c : Call K P) : Prop :=
  match c.pc.taken with
  | none => ∀ τ lp, τ < n → W τ = some lp → lp.id ≠ c.inv
  | some p => ∃ τ o, c.inv ≤ τ ∧ τ < n ∧ c.req = .op o ∧ W τ = some ⟨c.inv, o, .opt (some p)⟩

end Contrie
