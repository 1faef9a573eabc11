import Verif.Proof.Reuse
/-
One step of a call does the same in related memories.
-/
set_option linter.unusedSectionVars false
set_option linter.unusedSimpArgs false
namespace Contrie
variable {K P : Type} [DecidableEq K] {cfg : Config K P} {ρ : Nat → Nat}

def Next.ok : Next K P → Prop
  | .fail _ => False
  | _ => True

theorem enterPrune_ren (parent : Loc) (child : Word) (k : Cont K P) :
    enterPrune (parent.ren ρ) (child.ren ρ) (k.ren ρ) = (enterPrune parent child k).ren ρ := by
  simp only [enterPrune, Word.ren_data, Word.ren_ptr]
  by_cases hd : child.data = true
  · simp only [hd, Bool.false_eq_true, ↓reduceIte]; rfl
  · simp only [hd, Bool.false_eq_true, ↓reduceIte]
    cases child.ptr <;> rfl

theorem enterClean_ren (d : P) (ref : Nat) (l : List (Loc × Word)) :
    enterClean (K := K) d (ρ ref) (renLevels ρ l) = (enterClean d ref l).ren ρ := by
  cases l with
  | nil => rfl
  | cons x l =>
    obtain ⟨p, c⟩ := x
    simp only [renLevels, List.map_cons, enterClean, Word.ren_ptr]
    cases c.ptr <;> rfl

theorem afterPrune_ren (r : PruneResult) (k : Cont K P) : afterPrune r (k.ren ρ) = (afterPrune r k).ren ρ := by
  cases k with
  | trav => rfl
  | rem => rfl
  | clean d ref rest =>
    simp only [Cont.ren, afterPrune]
    by_cases hr : r = .copy
    · simp only [hr, Bool.false_eq_true, ↓reduceIte]; rfl
    · simp only [hr, Bool.false_eq_true, ↓reduceIte]
      exact enterClean_ren d ref rest

theorem finishTrav_ren (mode : Mode) (r : Option (ExistingOrNew P)) (refs : List Nat) :
    finishTrav (K := K) mode r (refs.map ρ) = (finishTrav mode r refs).ren ρ := by
  cases mode with
  | overwrite => rfl
  | ifMissing => cases r <;> rfl

variable {ma mc : Mem P}

theorem tickGet_ren (h : MemRel ρ ma mc) {k : K} {hash : BitVec 64} {cur : Loc} (ok : (tickGet cfg ma k hash cur).ok) :
    tickGet cfg mc k hash (cur.ren ρ) = (tickGet cfg ma k hash cur).ren ρ := by
  simp only [tickGet] at ok ⊢
  cases hr : ma.read cur with
  | none => simp [hr, Next.ok] at ok
  | some node =>
    rw [h.read hr]
    simp only [hr] at ok
    simp only [Word.ren_data, Word.ren_ptr]
    cases hp : node.ptr with
    | none => rfl
    | some a =>
      simp only [hp] at ok
      simp only [Option.map]
      by_cases hd : node.data = true
      · simp only [hd, Bool.false_eq_true, ↓reduceIte] at ok ⊢
        cases hl : ma.loadData node with
        | error f => simp [hl, Next.ok] at ok
        | ok items =>
          rw [h.loadData hl]
          simp only
          cases items.find? (fun l => decide (cfg.key l = k)) <;> rfl
      · simp only [hd, Bool.false_eq_true, ↓reduceIte]; rfl

theorem newest_ren (p : P) (n : Node P) : (n.ren ρ).newest p = n.newest p := by cases n <;> rfl

theorem tickTrav_ren (h : MemRel ρ ma mc) {st : TState K P} {hash : BitVec 64} {mode : Mode} {shift : Nat} {cur : Loc} {parent : Option (Loc × Word)}
    (ok : (tickTrav cfg ma st hash mode shift cur parent).ok) :
    tickTrav cfg mc st hash mode shift (cur.ren ρ) (renParent ρ parent) = (tickTrav cfg ma st hash mode shift cur parent).ren ρ := by
  simp only [tickTrav] at ok ⊢
  cases hr : ma.read cur with
  | none => simp [hr, Next.ok] at ok
  | some node =>
    rw [h.read hr]
    simp only [hr] at ok
    simp only [Word.ren_data, Word.ren_ptr, Word.ren_cond]
    by_cases hc : node.cond = true
    · simp only [hc, Bool.false_eq_true, ↓reduceIte]
      cases parent with
      | none => rfl
      | some x => exact enterPrune_ren x.1 x.2 (.trav st hash mode)
    · simp only [hc, Bool.false_eq_true, ↓reduceIte] at ok ⊢
      cases hp : node.ptr with
      | none => rfl
      | some a =>
        simp only [hp] at ok
        simp only [Option.map]
        by_cases hd : node.data = true
        · simp only [hd, Bool.false_eq_true, ↓reduceIte] at ok ⊢
          cases hl : ma.loadData node with
          | error f => simp [hl, Next.ok] at ok
          | ok items =>
            rw [h.loadData hl]
            cases items with
            | nil => rfl
            | cons d0 rest =>
              simp only
              by_cases h1 : cfg.key d0 ≠ st.key cfg ∧ shift < HASH_BITS
              · rw [if_pos h1, if_pos h1]
                by_cases h2 : (d0 :: rest).length ≠ 1
                · rw [if_pos h2, if_pos h2]; rfl
                · rw [if_neg h2, if_neg h2]
                  simp only [Next.ren, PC.ren, Node.ren]
                  congr 3
                  funext i
                  simp only [upd]
                  split <;> rfl
              · rw [if_neg h1, if_neg h1]
                by_cases h2 : ((d0 :: rest).find? (fun l => decide (cfg.key l = st.key cfg))).isNone = true ∨ mode = .overwrite
                · rw [if_pos h2, if_pos h2]; rfl
                · rw [if_neg h2, if_neg h2]
                  exact finishTrav_ren mode _ [a]
        · simp only [hd, Bool.false_eq_true, ↓reduceIte] at ok ⊢
          by_cases h1 : HASH_BITS ≤ shift
          · simp only [h1, Bool.false_eq_true, ↓reduceIte]; rfl
          · simp only [h1, Bool.false_eq_true, ↓reduceIte]; rfl

theorem tickRem_ren (h : MemRel ρ ma mc) {k : K} {shift : Nat} {cur : Loc} {lv : List (Loc × Word)} (ok : (tickRem cfg ma k shift cur lv).ok) :
    tickRem cfg mc k shift (cur.ren ρ) (renLevels ρ lv) = (tickRem cfg ma k shift cur lv).ren ρ := by
  simp only [tickRem] at ok ⊢
  cases hr : ma.read cur with
  | none => simp [hr, Next.ok] at ok
  | some node =>
    rw [h.read hr]
    simp only [hr] at ok
    simp only [Word.ren_data, Word.ren_ptr, Word.ren_cond]
    cases hp : node.ptr with
    | none => rfl
    | some a =>
      simp only [hp] at ok
      simp only [Option.map]
      by_cases hc : node.cond = true
      · simp only [hc, Bool.false_eq_true, ↓reduceIte]
        cases lv with
        | nil => rfl
        | cons x l => exact enterPrune_ren x.1 x.2 (.rem k)
      · simp only [hc, Bool.false_eq_true, ↓reduceIte] at ok ⊢
        by_cases hd : node.data = true
        · simp only [hd, Bool.false_eq_true, ↓reduceIte] at ok ⊢
          cases hl : ma.loadData node with
          | error f => simp [hl, Next.ok] at ok
          | ok items =>
            rw [h.loadData hl]
            simp only
            cases (items.filter (fun l => decide (cfg.key l = k))).getLast? <;> rfl
        · simp only [hd, Bool.false_eq_true, ↓reduceIte, renLevels, List.length_map]
          by_cases h1 : MAX_LEVELS ≤ lv.length
          · simp only [h1, Bool.false_eq_true, ↓reduceIte]; rfl
          · simp only [h1, Bool.false_eq_true, ↓reduceIte]
            by_cases h2 : HASH_BITS ≤ shift
            · simp only [h2, Bool.false_eq_true, ↓reduceIte]; rfl
            · simp only [h2, Bool.false_eq_true, ↓reduceIte]; rfl

theorem tickCount_ren (h : MemRel ρ ma mc) {d : P} {ref : Nat} {parent : Loc} {child : Word} {rest : List (Loc × Word)} {i : Fin 16} {cnt : Nat}
    (ok : (tickCount (K := K) ma d ref parent child rest i cnt).ok) :
    tickCount (K := K) mc d (ρ ref) (parent.ren ρ) (child.ren ρ) (renLevels ρ rest) i cnt = (tickCount ma d ref parent child rest i cnt).ren ρ := by
  simp only [tickCount, Word.ren_ptr] at ok ⊢
  cases hp : child.ptr with
  | none => rfl
  | some a =>
    simp only [hp] at ok
    simp only [Option.map]
    cases hr : ma.read (.slot a i) with
    | none => simp [hr, Next.ok] at ok
    | some w =>
      have := h.read hr
      simp only [Loc.ren] at this
      rw [this]
      have e : (w.ren ρ).ptr.isSome = w.ptr.isSome := by simp
      simp only [e]
      by_cases hi : i.val + 1 < 16
      · simp only [hi, ↓reduceDIte]; rfl
      · simp only [hi, ↓reduceDIte]
        generalize (if w.ptr.isSome = true then cnt + 1 else cnt) = cnt'
        by_cases hcn : 1 < cnt'
        · simp only [hcn, if_true]; rfl
        · simp only [hcn, if_false]
          exact enterPrune_ren parent child (.clean d ref rest)

theorem tickIterNext_ren (h : MemRel ρ ma mc) {lv : List (Word × Nat)} {out : List P} (ok : (tickIterNext (K := K) ma lv out).ok) :
    tickIterNext (K := K) mc (renIter ρ lv) out = (tickIterNext ma lv out).ren ρ := by
  cases lv with
  | nil => rfl
  | cons x rest =>
    obtain ⟨w, idx⟩ := x
    simp only [tickIterNext, renIter, List.map_cons, Word.ren_ptr, Word.ren_data] at ok ⊢
    cases hp : w.ptr with
    | none => rfl
    | some a =>
      simp only [hp] at ok
      simp only [Option.map]
      by_cases hd : w.data = true
      · simp only [hd, Bool.false_eq_true, ↓reduceIte] at ok ⊢
        cases hl : ma.loadData w with
        | error f => simp [hl, Next.ok] at ok
        | ok items =>
          rw [h.loadData hl]
          simp only
          cases items[idx]? <;> rfl
      · simp only [hd, Bool.false_eq_true, ↓reduceIte] at ok ⊢
        by_cases hi : idx < 16
        · simp only [hi, dif_pos] at ok ⊢
          cases hr : ma.read (.slot a ⟨idx, hi⟩) with
          | none => simp [hr, Next.ok] at ok
          | some w' =>
            have := h.read hr
            simp only [Loc.ren] at this
            rw [this]
            simp only [List.length_cons, List.length_map]
            by_cases h1 : MAX_LEVELS + 1 ≤ rest.length + 1
            · simp only [h1, Bool.false_eq_true, ↓reduceIte]; rfl
            · simp only [h1, Bool.false_eq_true, ↓reduceIte]; rfl
        · simp only [hi, dif_neg, not_false_eq_true]; rfl

theorem push_ren (h : MemRel ρ ma mc) {acc acc' : PAcc} {i : Fin 16} {gc : Word} (hp : acc.push ma i gc = .ok acc') :
    (acc.ren ρ).push mc i (gc.ren ρ) = .ok (acc'.ren ρ) := by
  have hu : ∀ w : Word, (fun j => (upd acc.newChild i w j).ren ρ) = upd (fun j => (acc.newChild j).ren ρ) i (w.ren ρ) := by
    intro w; funext j; simp only [upd]; split <;> rfl
  simp only [PAcc.push, Word.ren_ptr, erase_ptr, erase_data, Word.ren_data] at hp ⊢
  cases hq : gc.ptr with
  | none =>
    simp only [hq] at hp
    cases hp
    simp only [Option.map, PAcc.ren, hu, Word.ren_erase]
  | some a =>
    simp only [hq] at hp
    simp only [Option.map]
    by_cases hd : gc.data = true
    · simp only [hd, Bool.false_eq_true, ↓reduceIte] at hp ⊢
      cases hl : ma.loadData gc.erase with
      | error f => simp [hl] at hp
      | ok items =>
        have := h.loadData hl
        simp only [Word.ren_erase] at this
        rw [this]
        simp only [hl] at hp
        cases hp
        simp only [PAcc.ren, hu, Word.ren_erase, Option.map]
    · simp only [hd, Bool.false_eq_true, ↓reduceIte] at hp ⊢
      cases hp
      simp only [PAcc.ren, hu, Word.ren_erase]

theorem tickPrune_ren (h : MemRel ρ ma mc) {parent : Loc} {child : Word} {i : Fin 16} {acc : PAcc} {k : Cont K P} (ok : (tickPrune ma parent child i acc k).2.ok) :
    (tickPrune mc (parent.ren ρ) (child.ren ρ) i (acc.ren ρ) (k.ren ρ)).2 = (tickPrune ma parent child i acc k).2.ren ρ ∧
    MemRel ρ (tickPrune ma parent child i acc k).1 (tickPrune mc (parent.ren ρ) (child.ren ρ) i (acc.ren ρ) (k.ren ρ)).1 := by
  simp only [tickPrune, Word.ren_ptr, Word.ren_data, Word.ren_cond] at ok ⊢
  cases hp : child.ptr with
  | none => simp [hp, Next.ok] at ok
  | some a =>
    simp only [hp] at ok
    simp only [Option.map]
    cases hr : ma.read (.slot a i) with
    | none => simp [hr, Next.ok] at ok
    | some gc =>
      have h1 := h.read hr
      simp only [Loc.ren] at h1
      rw [h1]
      simp only [hr] at ok
      have hw := h.write hr gc.condemn
      simp only [Loc.ren, Word.ren_condemn] at hw
      cases hpu : acc.push (ma.write gc.condemn (.slot a i)) i gc with
      | error f => simp [hpu, Next.ok] at ok
      | ok acc' =>
        simp only [hpu] at ok
        simp only [push_ren hw hpu, hpu]
        by_cases hi : i.val + 1 < 16
        · simp only [hi, ↓reduceDIte]; exact ⟨rfl, hw⟩
        · simp only [hi, ↓reduceDIte] at ok ⊢
          by_cases hcd : child.cond = true ∨ child.data = true
          · simp [hcd, Bool.false_eq_true, ↓reduceIte, Next.ok] at ok
          · simp only [hcd, Bool.false_eq_true, ↓reduceIte]; exact ⟨rfl, hw⟩

theorem reuse_write_next (m : Mem P) (w : Word) (l : Loc) : (m.write w l).next = m.next := by
  cases l with
  | root => rfl
  | slot a i => simp only [Mem.write]; split <;> rfl

/-- Both sides allocate, or neither. -/
def SameAlloc (ma ma' mc mc' : Mem P) : Prop :=
  (ma'.next = ma.next ∧ mc'.next = mc.next) ∨ (ma'.next = ma.next + 1 ∧ mc'.next = mc.next + 1)

theorem MemRel.publish (h : MemRel ρ ma mc) (ba : Blank ma) (bc : Blank mc) (hρ : ρ ma.next = mc.next) {l : Loc} {w0 : Word} (hr : ma.read l = some w0) (n : Node P) (cond data : Bool) :
    MemRel ρ ((ma.alloc n).write ⟨some ma.next, cond, data⟩ l) ((mc.alloc (n.ren ρ)).write ⟨some mc.next, cond, data⟩ (l.ren ρ)) := by
  have := (h.alloc ba bc hρ n).write (read_alloc n ba.deref hr) ⟨some ma.next, cond, data⟩
  have e : Word.ren ρ ⟨some ma.next, cond, data⟩ = ⟨some mc.next, cond, data⟩ := by simp [Word.ren, hρ]
  rw [e] at this
  exact this

theorem deref_publish (m : Mem P) (n : Node P) (w : Word) (l : Loc) {a : Nat} (ha : m.deref a ≠ none) : ((m.alloc n).write w l).deref a ≠ none := by
  rw [Ne, deref_write]
  exact deref_alloc m n ha

theorem tickTravCas_ren (h : MemRel ρ ma mc) (ba : Blank ma) (bc : Blank mc) {weak : Bool} {st : TState K P} {hash : BitVec 64} {mode : Mode} {shift : Nat} {cur : Loc}
    {parent : Option (Loc × Word)} {node : Word} {new : Node P} {kind : TKind P}
    (ok : (tickTravCas ma weak st hash mode shift cur parent node new kind).2.ok)
    (hcas : ∀ w, ma.read cur = some w → (w.ren ρ = node.ren ρ ↔ w = node)) (hlive : ∀ a, node.ptr = some a → ma.deref a ≠ none)
    (hρ : (tickTravCas mc weak st hash mode shift (cur.ren ρ) (renParent ρ parent) (node.ren ρ) (new.ren ρ) kind).1.next ≠ mc.next → ρ ma.next = mc.next) :
    (tickTravCas mc weak st hash mode shift (cur.ren ρ) (renParent ρ parent) (node.ren ρ) (new.ren ρ) kind).2 =
      (tickTravCas ma weak st hash mode shift cur parent node new kind).2.ren ρ ∧
    MemRel ρ (tickTravCas ma weak st hash mode shift cur parent node new kind).1
      (tickTravCas mc weak st hash mode shift (cur.ren ρ) (renParent ρ parent) (node.ren ρ) (new.ren ρ) kind).1 ∧
    SameAlloc ma (tickTravCas ma weak st hash mode shift cur parent node new kind).1 mc
      (tickTravCas mc weak st hash mode shift (cur.ren ρ) (renParent ρ parent) (node.ren ρ) (new.ren ρ) kind).1 := by
  simp only [tickTravCas] at ok hρ ⊢
  cases hr : ma.read cur with
  | none => simp [hr, Next.ok] at ok
  | some w =>
    simp only [h.read hr] at hρ ⊢
    simp only [hr] at ok
    have hw := hcas w hr
    by_cases hc : w = node ∧ weak = false
    · have hc' : w.ren ρ = node.ren ρ ∧ weak = false := ⟨hw.mpr hc.1, hc.2⟩
      rw [if_pos hc] at ok ⊢
      rw [if_pos hc'] at hρ ⊢
      have hnext : ∀ (n : Node P) (w' : Word), ((mc.alloc n).write w' (cur.ren ρ)).next = mc.next + 1 := fun n w' => by rw [reuse_write_next]; rfl
      have hnexta : ∀ (n : Node P) (w' : Word), ((ma.alloc n).write w' cur).next = ma.next + 1 := fun n w' => by rw [reuse_write_next]; rfl
      have hnext' : ∀ (n : Node P) (w' : Word) (o : Nat), (((mc.alloc n).write w' (cur.ren ρ)).retire o).next = mc.next + 1 := fun n w' o => hnext n w'
      have hnexta' : ∀ (n : Node P) (w' : Word) (o : Nat), (((ma.alloc n).write w' cur).retire o).next = ma.next + 1 := fun n w' o => hnexta n w'
      have hrel : ∀ (n : Node P) (b : Bool) (old : Nat), node.ptr = some old → ρ ma.next = mc.next → MemRel ρ (((ma.alloc n).write ⟨some ma.next, false, b⟩ cur).retire old)
          (((mc.alloc (n.ren ρ)).write ⟨some mc.next, false, b⟩ (cur.ren ρ)).retire (ρ old)) :=
        fun n b old hp e => (h.publish ba bc e hr n _ _).retire (deref_publish _ _ _ _ (hlive old hp))
      cases new
      all_goals
        cases kind with
        | split =>
          simp only at ok hρ ⊢
          have hρ' := hρ (by rw [hnext]; omega)
          exact ⟨rfl, h.publish ba bc hρ' hr _ _ _, .inr ⟨hnexta _ _, hnext _ _⟩⟩
        | fresh =>
          simp only at ok hρ ⊢
          cases mode with
          | overwrite =>
            simp only at ok hρ ⊢
            have hρ' := hρ (by rw [hnext]; omega)
            exact ⟨finishTrav_ren _ _ [], h.publish ba bc hρ' hr _ _ _, .inr ⟨hnexta _ _, hnext _ _⟩⟩
          | ifMissing =>
            simp only at ok hρ ⊢
            have hρ' := hρ (by rw [hnext]; omega)
            refine ⟨?_, h.publish ba bc hρ' hr _ _ _, .inr ⟨hnexta _ _, hnext _ _⟩⟩
            rw [newest_ren, ← hρ']
            exact finishTrav_ren _ _ [ma.next]
        | replace found =>
          simp only [Word.ren_ptr, Word.ren_data] at ok hρ ⊢
          cases hp : node.ptr with
          | none => simp [hp, Next.ok] at ok
          | some old =>
            simp only [hp, Option.map] at ok hρ ⊢
            by_cases hd : node.data = false
            · simp [hd, Next.ok] at ok
            · have hd' : node.data = true := by simpa using hd
              simp only [hd', Bool.true_eq_false, ↓reduceIte] at ok hρ ⊢
              cases found with
              | some e =>
                simp only at ok hρ ⊢
                exact ⟨finishTrav_ren _ _ [old], hrel _ _ _ hp (hρ (by rw [hnext']; omega)), .inr ⟨hnexta' _ _ _, hnext' _ _ _⟩⟩
              | none =>
                cases mode with
                | overwrite =>
                  simp only at ok hρ ⊢
                  exact ⟨finishTrav_ren _ _ [], hrel _ _ _ hp (hρ (by rw [hnext']; omega)), .inr ⟨hnexta' _ _ _, hnext' _ _ _⟩⟩
                | ifMissing =>
                  simp only at ok hρ ⊢
                  have hρ' := hρ (by rw [hnext']; omega)
                  refine ⟨?_, hrel _ _ _ hp hρ', .inr ⟨hnexta' _ _ _, hnext' _ _ _⟩⟩
                  rw [newest_ren, ← hρ']
                  exact finishTrav_ren _ _ [ma.next]
    · have hc' : ¬ (w.ren ρ = node.ren ρ ∧ weak = false) := fun x => hc ⟨hw.mp x.1, x.2⟩
      rw [if_neg hc, if_neg hc']
      exact ⟨rfl, h, .inl ⟨rfl, rfl⟩⟩

theorem tickRemCas_ren (h : MemRel ρ ma mc) (ba : Blank ma) (bc : Blank mc) {weak : Bool} {k : K} {shift : Nat} {cur : Loc}
    {lv : List (Loc × Word)} {node : Word} {new : List P} {del : P}
    (ok : (tickRemCas ma weak k shift cur lv node new del).2.ok)
    (hcas : ∀ w, ma.read cur = some w → (w.ren ρ = node.ren ρ ↔ w = node)) (hlive : ∀ a, node.ptr = some a → ma.deref a ≠ none)
    (hρ : (tickRemCas mc weak k shift (cur.ren ρ) (renLevels ρ lv) (node.ren ρ) new del).1.next ≠ mc.next → ρ ma.next = mc.next) :
    (tickRemCas mc weak k shift (cur.ren ρ) (renLevels ρ lv) (node.ren ρ) new del).2 = (tickRemCas ma weak k shift cur lv node new del).2.ren ρ ∧
    MemRel ρ (tickRemCas ma weak k shift cur lv node new del).1 (tickRemCas mc weak k shift (cur.ren ρ) (renLevels ρ lv) (node.ren ρ) new del).1 ∧
    SameAlloc ma (tickRemCas ma weak k shift cur lv node new del).1 mc (tickRemCas mc weak k shift (cur.ren ρ) (renLevels ρ lv) (node.ren ρ) new del).1 := by
  simp only [tickRemCas] at ok hρ ⊢
  cases hr : ma.read cur with
  | none => simp [hr, Next.ok] at ok
  | some w =>
    simp only [h.read hr] at hρ ⊢
    simp only [hr] at ok
    have hw := hcas w hr
    by_cases hc : w = node ∧ weak = false
    · have hc' : w.ren ρ = node.ren ρ ∧ weak = false := ⟨hw.mpr hc.1, hc.2⟩
      rw [if_pos hc] at ok ⊢
      rw [if_pos hc'] at hρ ⊢
      simp only [Word.ren_ptr, Word.ren_data] at ok hρ ⊢
      cases hp : node.ptr with
      | none => simp [hp, Next.ok] at ok
      | some old =>
        simp only [hp, Option.map] at ok hρ ⊢
        by_cases hd : node.data = false
        · simp [hd, Next.ok] at ok
        · have hd' : node.data = true := by simpa using hd
          simp only [hd', Bool.true_eq_false, ↓reduceIte] at ok hρ ⊢
          refine ⟨enterClean_ren del old lv, ?_⟩
          cases new with
          | nil =>
            simp only
            refine ⟨(h.write hr Word.null).retire (by rw [Ne, deref_write]; exact hlive old hp), .inl ⟨?_, ?_⟩⟩
            · exact reuse_write_next ma Word.null cur
            · exact reuse_write_next mc Word.null (cur.ren ρ)
          | cons x l =>
            simp only at hρ ⊢
            have hnext : (((mc.alloc (.data (x :: l))).write ⟨some mc.next, false, true⟩ (cur.ren ρ)).retire (ρ old)).next = mc.next + 1 :=
              reuse_write_next _ _ _
            have hnexta : (((ma.alloc (.data (x :: l))).write ⟨some ma.next, false, true⟩ cur).retire old).next = ma.next + 1 :=
              reuse_write_next _ _ _
            exact ⟨(h.publish ba bc (hρ (by rw [hnext]; omega)) hr (.data (x :: l)) _ _).retire (deref_publish _ _ _ _ (hlive old hp)), .inr ⟨hnexta, hnext⟩⟩
    · have hc' : ¬ (w.ren ρ = node.ren ρ ∧ weak = false) := fun x => hc ⟨hw.mp x.1, x.2⟩
      rw [if_neg hc, if_neg hc']
      exact ⟨rfl, h, .inl ⟨rfl, rfl⟩⟩

theorem decide_ren (acc : PAcc) : (acc.ren ρ).decide = (match acc.decide.1 with | .word w => .word (w.ren ρ) | .copy c => .copy (fun i => (c i).ren ρ), acc.decide.2) := by
  obtain ⟨a, n, l, c⟩ := acc
  simp only [PAcc.ren, PAcc.decide]
  cases a <;> cases l <;> (try rcases n with _ | _ | n) <;> rfl

theorem tickPruneCas_ren (h : MemRel ρ ma mc) (ba : Blank ma) (bc : Blank mc) {parent : Loc} {child : Word} {acc : PAcc} {k : Cont K P}
    (ok : (tickPruneCas ma parent child acc k).2.ok)
    (hcas : ∀ w, ma.read parent = some w → (w.ren ρ = child.ren ρ ↔ w = child))
    (hρ : (tickPruneCas mc (parent.ren ρ) (child.ren ρ) (acc.ren ρ) (k.ren ρ)).1.next ≠ mc.next → ρ ma.next = mc.next) :
    (tickPruneCas mc (parent.ren ρ) (child.ren ρ) (acc.ren ρ) (k.ren ρ)).2 = (tickPruneCas ma parent child acc k).2.ren ρ ∧
    MemRel ρ (tickPruneCas ma parent child acc k).1 (tickPruneCas mc (parent.ren ρ) (child.ren ρ) (acc.ren ρ) (k.ren ρ)).1 ∧
    SameAlloc ma (tickPruneCas ma parent child acc k).1 mc (tickPruneCas mc (parent.ren ρ) (child.ren ρ) (acc.ren ρ) (k.ren ρ)).1 := by
  simp only [tickPruneCas, Word.ren_ptr] at ok hρ ⊢
  cases hp : child.ptr with
  | none => simp [hp, Next.ok] at ok
  | some a =>
    simp only [hp, Option.map] at ok hρ ⊢
    cases hr : ma.read parent with
    | none => simp [hr, Next.ok] at ok
    | some w =>
      cases hd : ma.deref a with
      | none => simp [hr, hd, Next.ok] at ok
      | some n =>
        cases n with
        | data l => simp [hr, hd, Next.ok] at ok
        | inner c q =>
          have hd' : mc.deref (ρ a) = some (.inner (fun i => (c i).ren ρ) q) := (h.live a _ hd).1
          simp only [h.read hr, hd'] at hρ ⊢
          simp only [hr, hd] at ok
          have hw := hcas w hr
          by_cases hc : w = child
          · rw [if_pos (hw.mpr hc)] at hρ ⊢
            rw [if_pos hc] at ok ⊢
            simp only [decide_ren] at hρ ⊢
            refine ⟨afterPrune_ren _ _, ?_⟩
            cases hi : acc.decide.1 with
            | word w' =>
              simp only [hi] at hρ ⊢
              refine ⟨(h.write hr w').retire (by rw [Ne, deref_write, hd]; simp), .inl ⟨?_, ?_⟩⟩
              · exact reuse_write_next ma w' parent
              · exact reuse_write_next mc (w'.ren ρ) (parent.ren ρ)
            | copy cells =>
              simp only [hi] at hρ ⊢
              have hnext : (((mc.alloc (.inner (fun i => (cells i).ren ρ) q)).write ⟨some mc.next, false, false⟩ (parent.ren ρ)).retire (ρ a)).next = mc.next + 1 :=
                reuse_write_next _ _ _
              have hnexta : (((ma.alloc (.inner cells q)).write ⟨some ma.next, false, false⟩ parent).retire a).next = ma.next + 1 :=
                reuse_write_next _ _ _
              exact ⟨(h.publish ba bc (hρ (by rw [hnext]; omega)) hr (.inner cells q) _ _).retire (deref_publish _ _ _ _ (by rw [hd]; simp)), .inr ⟨hnexta, hnext⟩⟩
          · rw [if_neg hc, if_neg (fun x => hc (hw.mp x))]
            exact ⟨afterPrune_ren _ _, h, .inl ⟨rfl, rfl⟩⟩

theorem tick_ren (h : MemRel ρ ma mc) (ba : Blank ma) (bc : Blank mc) {weak : Bool} {pc : PC K P} (ok : (tick cfg ma weak pc).2.ok)
    (hcas : ∀ l e w, pc.cas = some (l, e) → ma.read l = some w → (w.ren ρ = e.ren ρ ↔ w = e))
    (hlive : ∀ l e a, pc.cas = some (l, e) → e.ptr = some a → ma.deref a ≠ none)
    (hρ : (tick cfg mc weak (pc.ren ρ)).1.next ≠ mc.next → ρ ma.next = mc.next) :
    (tick cfg mc weak (pc.ren ρ)).2 = (tick cfg ma weak pc).2.ren ρ ∧ MemRel ρ (tick cfg ma weak pc).1 (tick cfg mc weak (pc.ren ρ)).1 ∧
    SameAlloc ma (tick cfg ma weak pc).1 mc (tick cfg mc weak (pc.ren ρ)).1 := by
  cases pc with
  | get k hash cur => exact ⟨tickGet_ren h ok, h, .inl ⟨rfl, rfl⟩⟩
  | isEmpty =>
    refine ⟨?_, h, .inl ⟨rfl, rfl⟩⟩
    simp only [tick, PC.ren, Next.ren, h.root]
    simp
  | iterNew =>
    refine ⟨?_, h, .inl ⟨rfl, rfl⟩⟩
    simp only [tick, PC.ren, Next.ren, tickIterNew, h.root]
    rfl
  | iterNext lv out => exact ⟨tickIterNext_ren h ok, h, .inl ⟨rfl, rfl⟩⟩
  | trav st hash mode shift cur parent => exact ⟨tickTrav_ren h ok, h, .inl ⟨rfl, rfl⟩⟩
  | travCas st hash mode shift cur parent node new kind =>
    exact tickTravCas_ren h ba bc ok (fun w hr => hcas _ _ w rfl hr) (fun a ha => hlive _ _ a rfl ha) hρ
  | rem k shift cur lv => exact ⟨tickRem_ren h ok, h, .inl ⟨rfl, rfl⟩⟩
  | remCas k shift cur lv node new del =>
    exact tickRemCas_ren h ba bc ok (fun w hr => hcas _ _ w rfl hr) (fun a ha => hlive _ _ a rfl ha) hρ
  | count d ref parent child rest i cnt => exact ⟨tickCount_ren h ok, h, .inl ⟨rfl, rfl⟩⟩
  | prune parent child i acc k =>
    obtain ⟨h1, h2⟩ := tickPrune_ren h ok
    refine ⟨h1, h2, .inl ⟨?_, ?_⟩⟩
    · simp only [tick, tickPrune]
      repeat' split
      all_goals first | rfl | exact reuse_write_next _ _ _
    · simp only [tick, PC.ren, tickPrune]
      repeat' split
      all_goals first | rfl | exact reuse_write_next _ _ _
  | pruneCas parent child acc k => exact tickPruneCas_ren h ba bc ok (fun w hr => hcas _ _ w rfl hr) hρ

end Contrie
