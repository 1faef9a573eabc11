import Verif.Model.Fine
import Verif.Proof.ReuseSim
/-
One step of the coarse machine is an access and the rest.
-/
set_option linter.unusedSectionVars false
set_option linter.unusedSimpArgs false
namespace Contrie
variable {K P : Type} [DecidableEq K] {cfg : Config K P}

/-! ### Memories: the fine one has more nodes -/

/-- Everything in `mr` is in `mf`, too. -/
structure Sub (mr mf : Mem P) : Prop where
  root : mf.root = mr.root
  live : ∀ a nd, mr.deref a = some nd → mf.deref a = some nd

theorem Sub.read {mr mf : Mem P} (h : Sub mr mf) {l : Loc} {w : Word} (hr : mr.read l = some w) : mf.read l = some w := by
  cases l with
  | root => simp only [Mem.read] at hr ⊢; rw [h.root]; exact hr
  | slot a i =>
    simp only [Mem.read] at hr ⊢
    cases hd : mr.deref a with
    | none => simp [hd] at hr
    | some n => rw [h.live a n hd]; rw [hd] at hr; exact hr

theorem Sub.write {mr mf : Mem P} (h : Sub mr mf) {l : Loc} {w0 : Word} (hr : mr.read l = some w0) (w : Word) : Sub (mr.write w l) (mf.write w l) := by
  cases l with
  | root => exact ⟨rfl, h.live⟩
  | slot a i =>
    simp only [Mem.read] at hr
    cases hd : mr.deref a with
    | none => simp [hd] at hr
    | some n =>
      cases n with
      | data l => simp [hd] at hr
      | inner c q =>
        have hc := h.live a _ hd
        obtain ⟨hf, hm⟩ := deref_some.mp hd
        obtain ⟨hf', hm'⟩ := deref_some.mp hc
        simp only [Mem.write, hm, hm']
        refine ⟨h.root, ?_⟩
        intro b nd hb
        rw [deref_some] at hb ⊢
        obtain ⟨g1, g2⟩ := hb
        by_cases e : b = a
        · subst e
          simp only [upd_same] at g2 ⊢
          exact ⟨hf', g2⟩
        · simp only [upd_other _ _ e] at g2 ⊢
          exact deref_some.mp (h.live b nd (deref_some.mpr ⟨g1, g2⟩))

theorem Sub.alloc {mr mf : Mem P} (h : Sub mr mf) {nd : Node P} (hn : mf.deref mr.next = some nd) : Sub (mr.alloc nd) mf := by
  refine ⟨h.root, ?_⟩
  intro b x hb
  by_cases e : b = mr.next
  · subst e
    rw [deref_some] at hb
    simp only [Mem.alloc, upd_same, Option.some.injEq] at hb
    rw [hn, hb.2]
  · refine h.live b x ?_
    simpa [Mem.deref, Mem.alloc, upd_other _ _ e] using hb

theorem Sub.retire {mr mf : Mem P} (h : Sub mr mf) (a : Nat) : Sub (mr.retire a) mf := ⟨h.root, h.live⟩

/-- What the word `w` points to, if it is a data node, is the same in `m`. -/
def Sees (mr m : Mem P) (w : Word) : Prop := ∀ a items, w.ptr = some a → mr.deref a = some (.data items) → m.deref a = some (.data items)

theorem Sees.loadData {mr m : Mem P} {w : Word} (h : Sees mr m w) {l : List P} (hl : mr.loadData w = .ok l) : m.loadData w = .ok l := by
  by_cases hd : w.data = false
  · simp [Mem.loadData, hd] at hl
  · have hd' : w.data = true := by simpa using hd
    cases hp : w.ptr with
    | none => simp [Mem.loadData, hp] at hl
    | some a =>
      cases hn : mr.deref a with
      | none => simp [Mem.loadData, hp, hn, hd'] at hl
      | some n =>
        cases n with
        | inner c q => simp [Mem.loadData, hp, hn, hd'] at hl
        | data l' =>
          simp [Mem.loadData, hp, hn, hd'] at hl
          subst hl
          simp [Mem.loadData, hp, hd', h a _ hp hn]

/-- The node that the compare-and-set is to publish is of the right kind. -/
def PC.newOK : PC K P → Prop
  | .travCas _ _ _ _ _ _ _ new .fresh => ∃ p, new = .data [p]
  | .travCas _ _ _ _ _ _ _ new (.replace _) => ∃ l p, new = .data (l ++ [p])
  | _ => True

/-- The conclusion: `pc` does in two steps, from `mf`, what it does in one from `mr`. -/
structure Split (cfg : Config K P) (mr mf : Mem P) (weak : Bool) (own : Option Nat) (pc : PC K P) (mr' : Mem P) (nx : Next K P) (mf' : Mem P) (w : Word) (ok : Bool) : Prop where
  acc : pc.fineAccess mf weak own = some (mf', w, ok)
  next : ∀ m, Sees mr' m w → (ok = true → Sees mr' m ⟨own, false, true⟩) → pc.fineNext cfg m w ok own = nx
  unl : ok = true → ∀ a, pc.unlinks = some a → mr'.retired a = some mr.clock
  sub : Sub mr' mf'
  ret : mf'.retired = mf.retired
  dom : ∀ a, mf'.deref a = none ↔ mf.deref a = none
  rdom : ∀ a, mr'.deref a ≠ none ↔ mr.deref a ≠ none ∨ (ok = true ∧ own = some a)
  clock : mf'.clock = mf.clock ∧ mr'.clock = mr.clock
  word : (∃ loc o, pc.access .code = some (loc, o) ∧ mr.read loc = some w) ∨ pc.access .code = none ∧ w = pc.top

/-- The step changes nothing in the memory. -/
theorem Split.pure {mr mf : Mem P} {weak : Bool} {own : Option Nat} {pc : PC K P} {nx : Next K P} {w : Word} (h : Sub mr mf)
    (hacc : (∃ loc o, pc.access .code = some (loc, o) ∧ mr.read loc = some w ∧ pc.storesIf weak w = false) ∨ pc.access .code = none ∧ w = pc.top)
    (hn : ∀ m, Sees mr m w → pc.fineNext cfg m w false own = nx) : Split cfg mr mf weak own pc mr nx mf w false := by
  refine ⟨?_, fun m hm _ => hn m hm, by simp, h, rfl, fun _ => Iff.rfl, by simp, ⟨rfl, rfl⟩, ?_⟩
  · rcases hacc with ⟨loc, o, h1, h2, h3⟩ | ⟨h1, h2⟩
    · simp [PC.fineAccess, h1, h.read h2, h3]
    · simp [PC.fineAccess, h1, h2]
  · rcases hacc with ⟨loc, o, h1, h2, h3⟩ | ⟨h1, h2⟩
    · exact .inl ⟨loc, o, h1, h2⟩
    · exact .inr ⟨h1, h2⟩

variable {mr mf : Mem P} {weak : Bool} {own : Option Nat}

theorem split_get (h : Sub mr mf) {key : K} {hash : BitVec 64} {cur : Loc} (ok : (tickGet cfg mr key hash cur).ok) :
    ∃ w, Split cfg mr mf weak own (.get key hash cur) mr (tickGet cfg mr key hash cur) mf w false := by
  simp only [tickGet] at ok ⊢
  cases hr : mr.read cur with
  | none => simp [hr, Next.ok] at ok
  | some w =>
    refine ⟨w, Split.pure h (.inl ⟨cur, _, rfl, hr, rfl⟩) ?_⟩
    intro m hm
    simp only [hr] at ok ⊢
    simp only [PC.fineNext, fineGet]
    cases hp : w.ptr with
    | none => rfl
    | some a =>
      simp only [hp] at ok ⊢
      by_cases hd : w.data = true
      · simp only [hd, Bool.false_eq_true, ↓reduceIte] at ok ⊢
        cases hl : mr.loadData w with
        | error f => simp [hl, Next.ok] at ok
        | ok items => rw [hm.loadData hl]; rfl
      · simp only [hd, Bool.false_eq_true, ↓reduceIte]

theorem split_trav (h : Sub mr mf) {st : TState K P} {hash : BitVec 64} {mode : Mode} {shift : Nat} {cur : Loc} {parent : Option (Loc × Word)}
    (ok : (tickTrav cfg mr st hash mode shift cur parent).ok) :
    ∃ w, Split cfg mr mf weak own (.trav st hash mode shift cur parent) mr (tickTrav cfg mr st hash mode shift cur parent) mf w false := by
  simp only [tickTrav] at ok ⊢
  cases hr : mr.read cur with
  | none => simp [hr, Next.ok] at ok
  | some w =>
    refine ⟨w, Split.pure h (.inl ⟨cur, _, rfl, hr, rfl⟩) ?_⟩
    intro m hm
    simp only [hr] at ok ⊢
    simp only [PC.fineNext, fineTrav]
    by_cases hc : w.cond = true
    · simp only [hc, ↓reduceIte] at ok ⊢; rfl
    · simp only [hc, Bool.false_eq_true, ↓reduceIte] at ok ⊢
      cases hp : w.ptr with
      | none => rfl
      | some a =>
        simp only [hp] at ok ⊢
        by_cases hd : w.data = true
        · simp only [hd, Bool.false_eq_true, ↓reduceIte] at ok ⊢
          cases hl : mr.loadData w with
          | error f => simp [hl, Next.ok] at ok
          | ok items => rw [hm.loadData hl]; rfl
        · simp only [hd, Bool.false_eq_true, ↓reduceIte]

theorem split_rem (h : Sub mr mf) {key : K} {shift : Nat} {cur : Loc} {lv : List (Loc × Word)} (ok : (tickRem cfg mr key shift cur lv).ok) :
    ∃ w, Split cfg mr mf weak own (.rem key shift cur lv) mr (tickRem cfg mr key shift cur lv) mf w false := by
  simp only [tickRem] at ok ⊢
  cases hr : mr.read cur with
  | none => simp [hr, Next.ok] at ok
  | some w =>
    refine ⟨w, Split.pure h (.inl ⟨cur, _, rfl, hr, rfl⟩) ?_⟩
    intro m hm
    simp only [hr] at ok ⊢
    simp only [PC.fineNext, fineRem]
    cases hp : w.ptr with
    | none => rfl
    | some a =>
      simp only [hp] at ok ⊢
      by_cases hc : w.cond = true
      · simp only [hc, ↓reduceIte] at ok ⊢; rfl
      · simp only [hc, Bool.false_eq_true, ↓reduceIte] at ok ⊢
        by_cases hd : w.data = true
        · simp only [hd, Bool.false_eq_true, ↓reduceIte] at ok ⊢
          cases hl : mr.loadData w with
          | error f => simp [hl, Next.ok] at ok
          | ok items => rw [hm.loadData hl]; rfl
        · simp only [hd, Bool.false_eq_true, ↓reduceIte]

theorem split_count (h : Sub mr mf) {d : P} {ref : Nat} {parent : Loc} {child : Word} {rest : List (Loc × Word)} {i : Fin 16} {cnt : Nat}
    (ok : (tickCount (K := K) mr d ref parent child rest i cnt).ok) :
    ∃ w, Split cfg mr mf weak own (.count d ref parent child rest i cnt) mr (tickCount mr d ref parent child rest i cnt) mf w false := by
  simp only [tickCount] at ok ⊢
  cases hp : child.ptr with
  | none => simp [hp, Next.ok] at ok
  | some a =>
    simp only [hp] at ok ⊢
    cases hr : mr.read (.slot a i) with
    | none => simp [hr, Next.ok] at ok
    | some w =>
      refine ⟨w, Split.pure h (.inl ⟨_, _, by simp only [PC.access, hp, Option.map]; rfl, hr, rfl⟩) ?_⟩
      intro m hm
      simp only [PC.fineNext, fineCount, hp]

theorem split_iterNext (h : Sub mr mf) {lv : List (Word × Nat)} {out : List P} (ok : (tickIterNext (K := K) mr lv out).ok) :
    ∃ w, Split cfg mr mf weak own (.iterNext lv out) mr (tickIterNext mr lv out) mf w false := by
  cases lv with
  | nil => exact ⟨_, Split.pure h (.inr ⟨rfl, rfl⟩) (fun m _ => rfl)⟩
  | cons x rest =>
    obtain ⟨top, idx⟩ := x
    simp only [tickIterNext] at ok ⊢
    cases hp : top.ptr with
    | none =>
      refine ⟨_, Split.pure h (.inr ⟨by simp [PC.access, hp], rfl⟩) (fun m _ => ?_)⟩
      simp [PC.fineNext, fineIterNext, hp]
    | some a =>
      simp only [hp] at ok ⊢
      by_cases hd : top.data = true
      · simp only [hd, Bool.false_eq_true, ↓reduceIte] at ok ⊢
        refine ⟨_, Split.pure h (.inr ⟨by simp [PC.access, hp, hd], rfl⟩) (fun m hm => ?_)⟩
        simp only [PC.fineNext, fineIterNext, hp, hd, ↓reduceIte, PC.top]
        cases hl : mr.loadData top with
        | error f => simp [hl, Next.ok] at ok
        | ok items => rw [show m.loadData top = .ok items from hm.loadData hl]; rfl
      · simp only [hd, Bool.false_eq_true, ↓reduceIte] at ok ⊢
        by_cases hi : idx < 16
        · simp only [hi, ↓reduceDIte] at ok ⊢
          cases hr : mr.read (.slot a ⟨idx, hi⟩) with
          | none => simp [hr, Next.ok] at ok
          | some w =>
            refine ⟨w, Split.pure h (.inl ⟨_, _, by simp only [PC.access, hp, hd, hi, Bool.false_eq_true, ↓reduceIte, ↓reduceDIte]; rfl, hr, rfl⟩) ?_⟩
            intro m hm
            simp only [PC.fineNext, fineIterNext, hp, hd, hi, Bool.false_eq_true, ↓reduceIte]
        · simp only [hi, ↓reduceDIte]
          refine ⟨_, Split.pure h (.inr ⟨by simp [PC.access, hp, hd, hi], rfl⟩) (fun m _ => ?_)⟩
          simp only [PC.fineNext, fineIterNext, hp, hd, hi, Bool.false_eq_true, ↓reduceIte]

theorem Sees.push {mr m : Mem P} {gc : Word} (h : Sees mr m gc) {acc acc' : PAcc} {i : Fin 16} (hp : acc.push mr i gc = .ok acc') : acc.push m i gc = .ok acc' := by
  simp only [PAcc.push] at hp ⊢
  cases hq : gc.erase.ptr with
  | none => simpa only [hq] using hp
  | some a =>
    simp only [hq] at hp ⊢
    by_cases hd : gc.erase.data = true
    · simp only [hd, ↓reduceIte] at hp ⊢
      cases hl : mr.loadData gc.erase with
      | error f => simp [hl] at hp
      | ok items =>
        have : m.loadData gc.erase = .ok items := Sees.loadData (w := gc.erase) (fun a items h1 h2 => h a items h1 h2) hl
        rw [this]
        simpa only [hl] using hp
    · simpa only [hd, Bool.false_eq_true, ↓reduceIte] using hp

theorem write_clock (m : Mem P) (w : Word) (l : Loc) : (m.write w l).clock = m.clock := by
  cases l with
  | root => rfl
  | slot a i => simp only [Mem.write]; split <;> rfl

theorem split_prune (h : Sub mr mf) (ho : own = none) {parent : Loc} {child : Word} {i : Fin 16} {acc : PAcc} {k : Cont K P} (ok : (tickPrune mr parent child i acc k).2.ok) :
    ∃ mf' w, Split cfg mr mf weak own (.prune parent child i acc k) (tickPrune mr parent child i acc k).1 (tickPrune mr parent child i acc k).2 mf' w true := by
  subst ho
  simp only [tickPrune] at ok ⊢
  cases hp : child.ptr with
  | none => simp [hp, Next.ok] at ok
  | some a =>
    simp only [hp] at ok ⊢
    cases hr : mr.read (.slot a i) with
    | none => simp [hr, Next.ok] at ok
    | some gc =>
      simp only [hr] at ok ⊢
      cases hpu : acc.push (mr.write gc.condemn (.slot a i)) i gc with
      | error f => simp [hpu, Next.ok] at ok
      | ok acc' =>
        simp only [hpu] at ok ⊢
        have key : ∀ nx : Next K P, (∀ m, acc.push m i gc = .ok acc' → finePrune m gc parent child i acc k = nx) →
            Split cfg mr mf weak none (.prune parent child i acc k) (mr.write gc.condemn (.slot a i)) nx (mf.write gc.condemn (.slot a i)) gc true := by
          intro nx hn
          refine ⟨?_, fun m hm _ => hn m (hm.push hpu), (by intro _ a h; cases h), h.write hr _, write_retired _ _ _, deref_write _ _ _, ?_, ⟨write_clock _ _ _, write_clock _ _ _⟩,
            .inl ⟨_, _, by simp only [PC.access, hp, Option.map]; rfl, hr⟩⟩
          · simp [PC.fineAccess, PC.access, hp, h.read hr, PC.storesIf, PC.newWord]
          · intro b; rw [Ne, deref_write]; simp
        by_cases hi : i.val + 1 < 16
        · simp only [hi, ↓reduceDIte]
          refine ⟨_, _, key _ (fun m hm => ?_)⟩
          simp only [finePrune, hp, hm, hi, ↓reduceDIte]
        · simp only [hi, ↓reduceDIte] at ok ⊢
          by_cases hcd : child.cond = true ∨ child.data = true
          · simp [hcd, Next.ok] at ok
          · simp only [hcd, Bool.false_eq_true, ↓reduceIte] at ok ⊢
            refine ⟨_, _, key _ (fun m hm => ?_)⟩
            simp only [finePrune, hp, hm, hi, ↓reduceDIte, hcd, ↓reduceIte]

/-- The memory after a node has been published. -/
theorem publish_facts (h : Sub mr mf) (hb : mr.deref mr.next = none) (hbf : mr.freed mr.next = false) {nd : Node P} (hn : mf.deref mr.next = some nd) {loc : Loc} {w0 : Word} (hr : mr.read loc = some w0) (w : Word) :
    Sub ((mr.alloc nd).write w loc) (mf.write w loc) ∧ (∀ a, ((mr.alloc nd).write w loc).deref a ≠ none ↔ mr.deref a ≠ none ∨ some mr.next = some a) ∧
    ((mr.alloc nd).write w loc).clock = mr.clock ∧ ((mr.alloc nd).write w loc).retired = mr.retired := by
  refine ⟨(h.alloc hn).write (read_alloc nd hb hr) w, ?_, write_clock _ _ _, write_retired _ _ _⟩
  intro a
  rw [Ne, deref_write]
  by_cases e : a = mr.next
  · subst e; simp [Mem.deref, Mem.alloc, hbf]
  · have : (mr.alloc nd).deref a = mr.deref a := by simp [Mem.deref, Mem.alloc, upd_other _ _ e]
    rw [this]
    simp only [Option.some.injEq]
    exact ⟨.inl, fun x => x.resolve_right (fun y => e y.symm)⟩

theorem newest_seen (hb : mr.freed mr.next = false) {l : List P} {p : P} {w : Word} {loc : Loc} {w0 : Word} (hr : mr.read loc = some w0) (hbd : mr.deref mr.next = none) {mr' : Mem P}
    (hmr : mr'.deref = ((mr.alloc (.data (l ++ [p]))).write w loc).deref) {m : Mem P} (hs : Sees mr' m ⟨some mr.next, false, true⟩)
    (mode : Mode) (pick : List P → Option P) (hpick : pick (l ++ [p]) = some p) (q : P) :
    (fineNewest m (some mr.next) mode pick : Next K P) = finishTrav mode (some (.new ((Node.data (l ++ [p])).newest q))) [mr.next] := by
  have hd : (mr.alloc (.data (l ++ [p]))).deref mr.next = some (.data (l ++ [p])) := by simp [Mem.deref, Mem.alloc, hb]
  have hd2 : mr'.deref mr.next = some (.data (l ++ [p])) := by
    rw [hmr]
    cases loc with
    | root => exact hd
    | slot a i =>
      simp only [Mem.write]
      split
      · next c q hm =>
        have hne : mr.next ≠ a := by
          rintro rfl
          rw [deref_some] at hd
          rw [hd.2] at hm; cases hm
        rw [deref_some] at hd ⊢
        exact ⟨hd.1, by simpa [upd_other _ _ hne] using hd.2⟩
      · exact hd
  have := hs mr.next _ rfl hd2
  simp only [fineNewest, Mem.loadData, this]
  simp [hpick]

theorem tickTravCas_isData (m : Mem P) (weak : Bool) (st : TState K P) (hash : BitVec 64) (mode : Mode)
    (shift : Nat) (cur : Loc) (parent : Option (Loc × Word)) (node : Word) (new : Node P) (kind : TKind P) :
    tickTravCas m weak st hash mode shift cur parent node new kind =
  match m.read cur with
  | none => (m, .fail .badAccess)
  | some w =>
    if w = node ∧ weak = false then
      let m1 := (m.alloc new).write ⟨some m.next, false, new.isData⟩ cur
      match kind with
      | .split => (m1, .goto (.trav st hash mode shift cur parent) false)
      | .fresh =>
        match mode with
        | .overwrite => (m1, finishTrav mode none [])
        | .ifMissing => (m1, finishTrav mode (some (.new (new.newest st.payload))) [m.next])
      | .replace found =>
        match node.ptr with
        | none => (m1, .fail .badAccess)
        | some old =>
          if node.data = false then (m1, .fail .retireNonData)
          else
            let m2 := m1.retire old
            match found, mode with
            | none, .ifMissing => (m2, finishTrav mode (some (.new (new.newest st.payload))) [m.next])
            | some e, _ => (m2, finishTrav mode (some (.existing e)) [old])
            | none, .overwrite => (m2, finishTrav mode none [])
    else (m, .goto (.trav st hash mode shift cur parent) false) := by
  cases new <;> rfl

theorem split_travCas (h : Sub mr mf) (hb : Blank mr) {st : TState K P} {hash : BitVec 64} {mode : Mode} {shift : Nat} {cur : Loc}
    {parent : Option (Loc × Word)} {node : Word} {new : Node P} {kind : TKind P} (hnew : (PC.travCas st hash mode shift cur parent node new kind).newOK)
    (hown : own = some mr.next) (hn : mf.deref mr.next = some new)
    (ok : (tickTravCas mr weak st hash mode shift cur parent node new kind).2.ok) :
    ∃ mf' w b, Split cfg mr mf weak own (.travCas st hash mode shift cur parent node new kind) (tickTravCas mr weak st hash mode shift cur parent node new kind).1
      (tickTravCas mr weak st hash mode shift cur parent node new kind).2 mf' w b := by
  subst hown
  simp only [tickTravCas_isData] at ok ⊢
  cases hr : mr.read cur with
  | none => simp [hr, Next.ok] at ok
  | some w =>
    simp only [hr] at ok ⊢
    by_cases hc : w = node ∧ weak = false
    · rw [if_pos hc] at ok ⊢
      have hst : (PC.travCas st hash mode shift cur parent node new kind).storesIf weak w = true := by simp [PC.storesIf, hc]
      obtain ⟨p1, p2, p3, p4⟩ := publish_facts h hb.deref hb.freed hn hr ⟨some mr.next, false, new.isData⟩
      have key : ∀ (mr' : Mem P) (nx : Next K P), mr'.deref = ((mr.alloc new).write ⟨some mr.next, false, new.isData⟩ cur).deref → mr'.root = ((mr.alloc new).write ⟨some mr.next, false, new.isData⟩ cur).root →
          mr'.clock = mr.clock → (∀ a, (PC.travCas st hash mode shift cur parent node new kind).unlinks = some a → mr'.retired a = some mr.clock) →
          (∀ m, Sees mr' m ⟨some mr.next, false, true⟩ → fineTravCas m true (some mr.next) st hash mode shift cur parent node kind = nx) →
          Split cfg mr mf weak (some mr.next) (.travCas st hash mode shift cur parent node new kind) mr' nx (mf.write ⟨some mr.next, false, new.isData⟩ cur) w true := by
        intro mr' nx e1 e2 e3 e4 e5
        refine ⟨?_, fun m _ hm => e5 m (hm rfl), fun _ => e4, ?_, write_retired _ _ _, deref_write _ _ _, ?_, ⟨write_clock _ _ _, e3⟩, .inl ⟨cur, _, rfl, hr⟩⟩
        · simp [PC.fineAccess, PC.access, h.read hr, hst, PC.newWord]
        · exact ⟨by rw [e2]; exact p1.root, by rw [e1]; exact p1.live⟩
        · intro a; rw [e1, p2 a]; simp
      cases kind with
      | split => exact ⟨_, _, _, key _ _ rfl rfl p3 (by intro a h; cases h) (fun m _ => rfl)⟩
      | fresh =>
        obtain ⟨p, rfl⟩ := hnew
        cases mode with
        | overwrite => exact ⟨_, _, _, key _ _ rfl rfl p3 (by intro a h; cases h) (fun m _ => rfl)⟩
        | ifMissing =>
          refine ⟨_, _, _, key _ _ rfl rfl p3 (by intro a h; cases h) (fun m hm => ?_)⟩
          exact newest_seen (l := []) hb.freed hr hb.deref rfl hm .ifMissing List.head? rfl _
      | replace found =>
        obtain ⟨l, p, rfl⟩ := hnew
        simp only at ok ⊢
        cases hp : node.ptr with
        | none => simp [hp, Next.ok] at ok
        | some old =>
          simp only [hp] at ok ⊢
          by_cases hd : node.data = false
          · simp [hd, Next.ok] at ok
          · simp only [hd, ↓reduceIte] at ok ⊢
            have hu : ∀ a, (PC.travCas st hash mode shift cur parent node (.data (l ++ [p])) (.replace found)).unlinks = some a →
                ((((mr.alloc (.data (l ++ [p]))).write ⟨some mr.next, false, (Node.data (l ++ [p])).isData⟩ cur).retire old).retired a = some mr.clock) := by
              intro a ha
              simp only [PC.unlinks, hp, Option.some.injEq] at ha
              subst ha
              simp only [Mem.retire, upd_same, p3]
            cases found with
            | none =>
              cases mode with
              | overwrite =>
                refine ⟨_, _, _, key _ _ rfl rfl p3 hu (fun m hm => ?_)⟩
                simp [fineTravCas, hp, hd]
              | ifMissing =>
                refine ⟨_, _, _, key _ _ rfl rfl p3 hu (fun m hm => ?_)⟩
                simp only [fineTravCas, hp, hd, ↓reduceIte]
                exact newest_seen (l := l) hb.freed hr hb.deref rfl hm .ifMissing List.getLast? (by simp) _
            | some e =>
              cases mode with
              | _ =>
                refine ⟨_, _, _, key _ _ rfl rfl p3 hu (fun m hm => ?_)⟩
                simp only [fineTravCas, hp, hd, ↓reduceIte]
                rfl
    · rw [if_neg hc]
      refine ⟨mf, w, false, Split.pure h (.inl ⟨cur, _, rfl, hr, ?_⟩) (fun m _ => rfl)⟩
      simp only [PC.storesIf]
      cases weak <;> simp_all

theorem split_remCas (h : Sub mr mf) (hb : Blank mr) {key : K} {shift : Nat} {cur : Loc} {lv : List (Loc × Word)} {node : Word} {new : List P} {del : P}
    (hown : own = if new.isEmpty then none else some mr.next) (hn : new.isEmpty = false → mf.deref mr.next = some (.data new))
    (ok : (tickRemCas mr weak key shift cur lv node new del).2.ok) :
    ∃ mf' w b, Split cfg mr mf weak own (.remCas key shift cur lv node new del) (tickRemCas mr weak key shift cur lv node new del).1
      (tickRemCas mr weak key shift cur lv node new del).2 mf' w b := by
  simp only [tickRemCas] at ok ⊢
  cases hr : mr.read cur with
  | none => simp [hr, Next.ok] at ok
  | some w =>
    simp only [hr] at ok ⊢
    by_cases hc : w = node ∧ weak = false
    · rw [if_pos hc] at ok ⊢
      have hst : (PC.remCas key shift cur lv node new del).storesIf weak w = true := by simp [PC.storesIf, hc]
      cases hp : node.ptr with
      | none => simp [hp, Next.ok] at ok
      | some old =>
        simp only [hp] at ok ⊢
        by_cases hd : node.data = false
        · simp [hd, Next.ok] at ok
        · simp only [hd, ↓reduceIte] at ok ⊢
          have hfn : ∀ m : Mem P, (PC.remCas key shift cur lv node new del).fineNext cfg m w true own = enterClean del old lv := by
            intro m; simp [PC.fineNext, fineRemCas, hp, hd]
          cases new with
          | nil =>
            simp only [List.isEmpty_nil, ↓reduceIte] at hown
            subst hown
            refine ⟨mf.write Word.null cur, w, true, ⟨?_, fun m _ _ => hfn m, ?_, (h.write hr _).retire old, write_retired _ _ _, deref_write _ _ _, ?_, ⟨write_clock _ _ _, write_clock _ _ _⟩, .inl ⟨cur, _, rfl, hr⟩⟩⟩
            · simp [PC.fineAccess, PC.access, h.read hr, hst, PC.newWord]
            · intro _ a ha
              simp only [PC.unlinks, hp, Option.some.injEq] at ha
              subst ha
              show ((mr.write Word.null cur).retire old).retired old = some mr.clock
              simp only [Mem.retire, upd_same, write_clock]
            · intro a
              show ¬ ((mr.write Word.null cur).deref a = none) ↔ _
              rw [deref_write]; simp
          | cons x new =>
            simp only [List.isEmpty_cons, Bool.false_eq_true, ↓reduceIte] at hown
            subst hown
            obtain ⟨p1, p2, p3, p4⟩ := publish_facts h hb.deref hb.freed (hn rfl) hr ⟨some mr.next, false, true⟩
            refine ⟨mf.write ⟨some mr.next, false, true⟩ cur, w, true, ⟨?_, fun m _ _ => hfn m, ?_, p1.retire old, write_retired _ _ _, deref_write _ _ _, ?_, ⟨write_clock _ _ _, p3⟩, .inl ⟨cur, _, rfl, hr⟩⟩⟩
            · simp [PC.fineAccess, PC.access, h.read hr, hst, PC.newWord]
            · intro _ a ha
              simp only [PC.unlinks, hp, Option.some.injEq] at ha
              subst ha
              show (Mem.retire _ old).retired old = some mr.clock
              simp only [Mem.retire, upd_same, p3]
            · intro a; exact (p2 a).trans (by simp)
    · rw [if_neg hc]
      refine ⟨mf, w, false, Split.pure h (.inl ⟨cur, _, rfl, hr, ?_⟩) (fun m _ => rfl)⟩
      simp only [PC.storesIf]
      cases weak <;> simp_all

theorem split_pruneCas (h : Sub mr mf) (hb : Blank mr) {parent : Loc} {child : Word} {acc : PAcc} {k : Cont K P}
    (hown : own = if ((PC.pruneCas parent child acc k).builds mr).isSome then some mr.next else none)
    (hn : ∀ nd, (PC.pruneCas parent child acc k).builds mr = some nd → mf.deref mr.next = some nd)
    (ok : (tickPruneCas mr parent child acc k).2.ok) :
    ∃ mf' w b, Split cfg mr mf weak own (.pruneCas parent child acc k) (tickPruneCas mr parent child acc k).1 (tickPruneCas mr parent child acc k).2 mf' w b := by
  simp only [tickPruneCas] at ok ⊢
  cases hp : child.ptr with
  | none => simp [hp, Next.ok] at ok
  | some a =>
    simp only [hp] at ok ⊢
    cases hr : mr.read parent with
    | none => simp [hr, Next.ok] at ok
    | some w =>
      cases hd : mr.deref a with
      | none => simp [hr, hd, Next.ok] at ok
      | some nd =>
        cases nd with
        | data l => simp [hr, hd, Next.ok] at ok
        | inner c q =>
          simp only [hr, hd] at ok ⊢
          by_cases hc : w = child
          · rw [if_pos hc] at ok ⊢
            have hst : (PC.pruneCas parent child acc k).storesIf weak w = true := by simp [PC.storesIf, hc]
            have hfn : ∀ m : Mem P, (PC.pruneCas parent child acc k).fineNext cfg m w true own = afterPrune acc.decide.2 k := by
              intro m; simp [PC.fineNext, finePruneCas, hp]
            cases hi : acc.decide.1 with
            | word w' =>
              simp only [PC.builds, hi, Option.isSome_none, Bool.false_eq_true, ↓reduceIte] at hown
              subst hown
              simp only [hi]
              refine ⟨mf.write w' parent, w, true, ⟨?_, fun m _ _ => hfn m, ?_, (h.write hr _).retire a, write_retired _ _ _, deref_write _ _ _, ?_, ⟨write_clock _ _ _, write_clock _ _ _⟩, .inl ⟨parent, _, rfl, hr⟩⟩⟩
              · simp [PC.fineAccess, PC.access, h.read hr, hst, PC.newWord, hi]
              · intro _ b hb
                simp only [PC.unlinks, hp, Option.some.injEq] at hb
                subst hb
                simp only [Mem.retire, upd_same, write_clock]
              · intro b
                show ¬ ((mr.write w' parent).deref b = none) ↔ _
                rw [deref_write]; simp
            | copy cells =>
              have hpath : mr.pathOf child = q := by simp [Mem.pathOf, hp, hd]
              simp only [PC.builds, hi, Option.isSome_some, ↓reduceIte] at hown
              subst hown
              have hn' := hn (.inner cells q) (by simp [PC.builds, hi, hpath])
              simp only [hi]
              obtain ⟨p1, p2, p3, p4⟩ := publish_facts h hb.deref hb.freed hn' hr ⟨some mr.next, false, false⟩
              refine ⟨mf.write ⟨some mr.next, false, false⟩ parent, w, true, ⟨?_, fun m _ _ => hfn m, ?_, p1.retire a, write_retired _ _ _, deref_write _ _ _, ?_, ⟨write_clock _ _ _, p3⟩, .inl ⟨parent, _, rfl, hr⟩⟩⟩
              · simp [PC.fineAccess, PC.access, h.read hr, hst, PC.newWord, hi]
              · intro _ b hb
                simp only [PC.unlinks, hp, Option.some.injEq] at hb
                subst hb
                simp only [Mem.retire, upd_same, p3]
              · intro b; exact (p2 b).trans (by simp)
          · rw [if_neg hc]
            refine ⟨mf, w, false, Split.pure h (.inl ⟨parent, _, rfl, hr, by simp [PC.storesIf, hc]⟩) (fun m _ => ?_)⟩
            simp [PC.fineNext, finePruneCas, hp]

/-- One step is an access and the rest. -/
theorem tick_split (h : Sub mr mf) (hb : Blank mr) {pc : PC K P} (hnew : pc.newOK)
    (hown : own = if (pc.builds mr).isSome then some mr.next else none) (hn : ∀ nd, pc.builds mr = some nd → mf.deref mr.next = some nd)
    (ok : (tick cfg mr weak pc).2.ok) : ∃ mf' w b, Split cfg mr mf weak own pc (tick cfg mr weak pc).1 (tick cfg mr weak pc).2 mf' w b := by
  cases pc with
  | get key hash cur => obtain ⟨w, hs⟩ := split_get (weak := weak) (own := own) h ok; exact ⟨_, _, _, hs⟩
  | isEmpty => exact ⟨mf, mr.root, false, Split.pure h (.inl ⟨.root, _, rfl, rfl, rfl⟩) (fun m _ => rfl)⟩
  | iterNew => exact ⟨mf, mr.root, false, Split.pure h (.inl ⟨.root, _, rfl, rfl, rfl⟩) (fun m _ => rfl)⟩
  | iterNext lv out => obtain ⟨w, hs⟩ := split_iterNext (cfg := cfg) (weak := weak) (own := own) h ok; exact ⟨_, _, _, hs⟩
  | trav st hash mode shift cur parent => obtain ⟨w, hs⟩ := split_trav (weak := weak) (own := own) h ok; exact ⟨_, _, _, hs⟩
  | travCas st hash mode shift cur parent node new kind =>
    exact split_travCas h hb hnew (by simpa [PC.builds] using hown) (hn new rfl) ok
  | rem key shift cur lv => obtain ⟨w, hs⟩ := split_rem (weak := weak) (own := own) h ok; exact ⟨_, _, _, hs⟩
  | remCas key shift cur lv node new del =>
    refine split_remCas h hb ?_ ?_ ok
    · cases new <;> simpa [PC.builds] using hown
    · intro he; exact hn _ (by simp [PC.builds, he])
  | count d ref parent child rest i cnt => obtain ⟨w, hs⟩ := split_count (cfg := cfg) (weak := weak) (own := own) h ok; exact ⟨_, _, _, hs⟩
  | prune parent child i acc k =>
    obtain ⟨mf', w, hs⟩ := split_prune (cfg := cfg) (weak := weak) (own := own) h (by simpa [PC.builds] using hown) ok; exact ⟨_, _, _, hs⟩
  | pruneCas parent child acc k => exact split_pruneCas h hb hown hn ok

end Contrie
