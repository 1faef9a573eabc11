import Verif.Model.Reuse
import Verif.Proof.Splice
import Verif.Props.Memory
/-
The machine with reuse of memory does what the machine without does: renaming of nodes.
-/
set_option linter.unusedSectionVars false
namespace Contrie
variable {K P : Type} [DecidableEq K] {cfg : Config K P}

/-! ### Renaming: `ρ` is the address of each node ever created -/

def Word.ren (ρ : Nat → Nat) (w : Word) : Word := ⟨w.ptr.map ρ, w.cond, w.data⟩

def Loc.ren (ρ : Nat → Nat) : Loc → Loc
  | .root => .root
  | .slot a i => .slot (ρ a) i

def Node.ren (ρ : Nat → Nat) : Node P → Node P
  | .inner c q => .inner (fun i => (c i).ren ρ) q
  | .data l => .data l

def PAcc.ren (ρ : Nat → Nat) (acc : PAcc) : PAcc :=
  ⟨acc.allowContract, acc.childCnt, acc.lastLeaf.map (Word.ren ρ), fun i => (acc.newChild i).ren ρ⟩

def renLevels (ρ : Nat → Nat) (l : List (Loc × Word)) : List (Loc × Word) := l.map (fun x => (x.1.ren ρ, x.2.ren ρ))

def renIter (ρ : Nat → Nat) (l : List (Word × Nat)) : List (Word × Nat) := l.map (fun x => (x.1.ren ρ, x.2))

def renParent (ρ : Nat → Nat) (l : Option (Loc × Word)) : Option (Loc × Word) := l.map (fun x => (x.1.ren ρ, x.2.ren ρ))

def Cont.ren (ρ : Nat → Nat) : Cont K P → Cont K P
  | .trav st h mode => .trav st h mode
  | .rem k => .rem k
  | .clean d ref rest => .clean d (ρ ref) (renLevels ρ rest)

def PC.ren (ρ : Nat → Nat) : PC K P → PC K P
  | .get k h cur => .get k h (cur.ren ρ)
  | .isEmpty => .isEmpty
  | .iterNew => .iterNew
  | .iterNext lv out => .iterNext (renIter ρ lv) out
  | .trav st h mode shift cur parent => .trav st h mode shift (cur.ren ρ) (renParent ρ parent)
  | .travCas st h mode shift cur parent node new kind =>
    .travCas st h mode shift (cur.ren ρ) (renParent ρ parent) (node.ren ρ) (new.ren ρ) kind
  | .rem k shift cur lv => .rem k shift (cur.ren ρ) (renLevels ρ lv)
  | .remCas k shift cur lv node new del => .remCas k shift (cur.ren ρ) (renLevels ρ lv) (node.ren ρ) new del
  | .count del ref parent child rest i cnt => .count del (ρ ref) (parent.ren ρ) (child.ren ρ) (renLevels ρ rest) i cnt
  | .prune parent child i acc k => .prune (parent.ren ρ) (child.ren ρ) i (acc.ren ρ) (k.ren ρ)
  | .pruneCas parent child acc k => .pruneCas (parent.ren ρ) (child.ren ρ) (acc.ren ρ) (k.ren ρ)

def Next.ren (ρ : Nat → Nat) : Next K P → Next K P
  | .goto pc ran => .goto (pc.ren ρ) ran
  | .ret r refs => .ret r (refs.map ρ)
  | .fail f => .fail f

def Call.ren (ρ : Nat → Nat) (c : Call K P) : Call K P := { c with pc := c.pc.ren ρ }

def Thread.ren (ρ : Nat → Nat) (th : Thread K P) : Thread K P :=
  ⟨th.pin, th.refs.map ρ, th.run.map (Call.ren ρ), th.failed⟩

variable {ρ : Nat → Nat}

@[simp] theorem Word.ren_data (w : Word) : (w.ren ρ).data = w.data := rfl
@[simp] theorem Word.ren_cond (w : Word) : (w.ren ρ).cond = w.cond := rfl
@[simp] theorem Word.ren_ptr (w : Word) : (w.ren ρ).ptr = w.ptr.map ρ := rfl
@[simp] theorem Word.ren_null : Word.null.ren ρ = Word.null := rfl
@[simp] theorem Word.ren_erase (w : Word) : w.erase.ren ρ = (w.ren ρ).erase := rfl
@[simp] theorem Word.ren_condemn (w : Word) : w.condemn.ren ρ = (w.ren ρ).condemn := rfl

/-! ### Related memories -/

/-- `mc` is `ma` with every node at its address: nodes not destroyed are there, with the content (but for the renaming) and the time of retirement they have in `ma`; no two of them at the same address;
no other address is in use. -/
structure MemRel (ρ : Nat → Nat) (ma mc : Mem P) : Prop where
  root : mc.root = ma.root.ren ρ
  live : ∀ a n, ma.deref a = some n → mc.deref (ρ a) = some (n.ren ρ) ∧ mc.retired (ρ a) = ma.retired a
  inj : ∀ a b, ma.deref a ≠ none → ma.deref b ≠ none → ρ a = ρ b → a = b
  only : ∀ x, mc.deref x ≠ none → ∃ a, ma.deref a ≠ none ∧ ρ a = x
  clock : mc.clock = ma.clock

theorem deref_some {m : Mem P} {a : Nat} {n : Node P} : m.deref a = some n ↔ m.freed a = false ∧ m.mem a = some n := by
  simp only [Mem.deref]
  cases m.freed a <;> simp

theorem MemRel.read {ma mc : Mem P} (h : MemRel ρ ma mc) {l : Loc} {w : Word} (hr : ma.read l = some w) : mc.read (l.ren ρ) = some (w.ren ρ) := by
  cases l with
  | root => simp only [Mem.read, Loc.ren] at hr ⊢; cases hr; rw [h.root]
  | slot a i =>
    simp only [Mem.read, Loc.ren] at hr ⊢
    cases hd : ma.deref a with
    | none => simp [hd] at hr
    | some n =>
      rw [(h.live a n hd).1]
      cases n with
      | data l => simp [hd] at hr
      | inner c q => simp only [hd] at hr; cases hr; rfl

theorem MemRel.loadData {ma mc : Mem P} (h : MemRel ρ ma mc) {w : Word} {l : List P} (hr : ma.loadData w = .ok l) : mc.loadData (w.ren ρ) = .ok l := by
  by_cases hd : w.data = false
  · simp [Mem.loadData, hd] at hr
  · have hd' : w.data = true := by simpa using hd
    cases hp : w.ptr with
    | none => simp [Mem.loadData, hp] at hr
    | some a =>
      cases hn : ma.deref a with
      | none => simp [Mem.loadData, hp, hn, hd'] at hr
      | some n =>
        cases n with
        | inner c q => simp [Mem.loadData, hp, hn, hd'] at hr
        | data l' =>
          simp [Mem.loadData, hp, hn, hd'] at hr
          subst hr
          simp [Mem.loadData, hp, hd', (h.live a _ hn).1, Node.ren]

theorem deref_write (m : Mem P) (w : Word) (l : Loc) (a : Nat) : (m.write w l).deref a = none ↔ m.deref a = none := by
  cases l with
  | root => rfl
  | slot b i =>
    simp only [Mem.write]
    split
    · next c q hm =>
      simp only [Mem.deref]
      by_cases e : a = b
      · subst e; simp [hm]
      · simp [upd_other _ _ e]
    · rfl

theorem MemRel.write {ma mc : Mem P} (h : MemRel ρ ma mc) {l : Loc} {w0 : Word} (hr : ma.read l = some w0) (w : Word) :
    MemRel ρ (ma.write w l) (mc.write (w.ren ρ) (l.ren ρ)) := by
  cases l with
  | root => exact ⟨rfl, h.live, h.inj, h.only, h.clock⟩
  | slot a i =>
    simp only [Mem.read] at hr
    cases hd : ma.deref a with
    | none => simp [hd] at hr
    | some n =>
      cases n with
      | data l => simp [hd] at hr
      | inner c q =>
        have hc := (h.live a _ hd)
        obtain ⟨hf, hm⟩ := deref_some.mp hd
        obtain ⟨hf', hm'⟩ := deref_some.mp hc.1
        have e1 : ma.write w (.slot a i) = { ma with mem := upd ma.mem a (some (.inner (upd c i w) q)) } := by simp [Mem.write, hm]
        have e2 : mc.write (w.ren ρ) (Loc.ren ρ (.slot a i)) =
            { mc with mem := upd mc.mem (ρ a) (some (.inner (upd (fun i => (c i).ren ρ) i (w.ren ρ)) q)) } := by
          simp [Mem.write, Loc.ren, hm', Node.ren]
        have hu : (fun j => (upd c i w j).ren ρ) = upd (fun i => (c i).ren ρ) i (w.ren ρ) := by
          funext j; simp only [upd]; split <;> rfl
        have hnone1 : ∀ b, (ma.write w (.slot a i)).deref b ≠ none ↔ ma.deref b ≠ none := fun b => not_congr (deref_write ma w _ b)
        have hnone2 : ∀ b, (mc.write (w.ren ρ) (Loc.ren ρ (.slot a i))).deref b ≠ none ↔ mc.deref b ≠ none :=
          fun b => not_congr (deref_write mc _ _ b)
        refine ⟨?_, ?_, ?_, ?_, ?_⟩
        · rw [e1, e2]; exact h.root
        · intro b n hb
          rw [e1] at hb
          rw [e2, e1]
          rw [deref_some] at hb
          obtain ⟨g1, g2⟩ := hb
          by_cases e : b = a
          · subst e
            simp only [upd_same] at g2
            cases g2
            refine ⟨deref_some.mpr ⟨hf', ?_⟩, hc.2⟩
            simp [Node.ren, hu]
          · simp only [upd_other _ _ e] at g2
            have g3 : ma.deref b = some n := deref_some.mpr ⟨g1, g2⟩
            have hl := h.live b n g3
            have hne : ρ b ≠ ρ a := fun x => e (h.inj b a (by rw [g3]; simp) (by rw [hd]; simp) x)
            refine ⟨?_, hl.2⟩
            rw [deref_some] at hl ⊢
            exact ⟨hl.1.1, by simpa [upd_other _ _ hne] using hl.1.2⟩
        · intro x y hx hy
          exact h.inj x y ((hnone1 x).mp hx) ((hnone1 y).mp hy)
        · intro x hx
          obtain ⟨b, hb, e⟩ := h.only x ((hnone2 x).mp hx)
          exact ⟨b, (hnone1 b).mpr hb, e⟩
        · rw [e1, e2]; exact h.clock

theorem deref_alloc (m : Mem P) (n : Node P) {a : Nat} (h : m.deref a ≠ none) : (m.alloc n).deref a ≠ none := by
  simp only [Mem.deref, Mem.alloc] at h ⊢
  by_cases e : a = m.next
  · subst e
    by_cases hf : m.freed m.next = true
    · simp [hf] at h
    · simp [hf]
  · simpa [upd_other _ _ e] using h

theorem read_alloc {m : Mem P} (n : Node P) {l : Loc} {w : Word} (hfresh : m.deref m.next = none) (hr : m.read l = some w) : (m.alloc n).read l = some w := by
  cases l with
  | root => exact hr
  | slot a i =>
    simp only [Mem.read] at hr ⊢
    have hne : a ≠ m.next := by rintro rfl; simp [hfresh] at hr
    have : (m.alloc n).deref a = m.deref a := by simp [Mem.deref, Mem.alloc, upd_other _ _ hne]
    rw [this]; exact hr

/-- The address of the next node is really free. -/
structure Blank (m : Mem P) : Prop where
  mem : m.mem m.next = none
  retired : m.retired m.next = none
  freed : m.freed m.next = false

theorem Blank.deref {m : Mem P} (h : Blank m) : m.deref m.next = none := by simp [Mem.deref, h.mem]

theorem MemRel.alloc {ma mc : Mem P} (h : MemRel ρ ma mc) (ha : Blank ma) (hc : Blank mc) (hρ : ρ ma.next = mc.next) (n : Node P) :
    MemRel ρ (ma.alloc n) (mc.alloc (n.ren ρ)) := by
  have hda : ∀ b, b ≠ ma.next → (ma.alloc n).deref b = ma.deref b := fun b e => by simp [Mem.deref, Mem.alloc, upd_other _ _ e]
  have hdc : ∀ b, b ≠ mc.next → (mc.alloc (n.ren ρ)).deref b = mc.deref b := fun b e => by simp [Mem.deref, Mem.alloc, upd_other _ _ e]
  have hnew : (ma.alloc n).deref ma.next = some n := by simp [Mem.deref, Mem.alloc, ha.freed]
  have hnew' : (mc.alloc (n.ren ρ)).deref mc.next = some (n.ren ρ) := by simp [Mem.deref, Mem.alloc, hc.freed]
  have hne : ∀ b, ma.deref b ≠ none → ρ b ≠ mc.next := by
    intro b hb e
    obtain ⟨x, hx⟩ := Option.ne_none_iff_exists'.mp hb
    have := (h.live b x hx).1
    rw [e, hc.deref] at this
    cases this
  refine ⟨h.root, ?_, ?_, ?_, h.clock⟩
  · intro b x hb
    by_cases e : b = ma.next
    · subst e
      rw [hnew] at hb; cases hb
      rw [hρ, hnew']
      refine ⟨rfl, ?_⟩
      show mc.retired mc.next = ma.retired ma.next
      rw [ha.retired, hc.retired]
    · rw [hda b e] at hb
      have := h.live b x hb
      rw [hdc _ (hne b (by rw [hb]; simp))]
      exact this
  · intro x y hx hy e
    by_cases ex : x = ma.next
    · by_cases ey : y = ma.next
      · rw [ex, ey]
      · rw [hda y ey] at hy
        rw [ex, hρ] at e
        exact absurd e.symm (hne y hy)
    · rw [hda x ex] at hx
      by_cases ey : y = ma.next
      · rw [ey, hρ] at e
        exact absurd e (hne x hx)
      · rw [hda y ey] at hy
        exact h.inj x y hx hy e
  · intro x hx
    by_cases e : x = mc.next
    · exact ⟨ma.next, by rw [hnew]; simp, by rw [hρ, e]⟩
    · rw [hdc x e] at hx
      obtain ⟨b, hb, hb'⟩ := h.only x hx
      exact ⟨b, deref_alloc ma n hb, hb'⟩

theorem MemRel.retire {ma mc : Mem P} (h : MemRel ρ ma mc) {a : Nat} (ha : ma.deref a ≠ none) : MemRel ρ (ma.retire a) (mc.retire (ρ a)) := by
  refine ⟨h.root, ?_, h.inj, h.only, h.clock⟩
  intro b n hb
  have hb' : ma.deref b = some n := hb
  have := h.live b n hb'
  refine ⟨this.1, ?_⟩
  simp only [Mem.retire]
  by_cases e : b = a
  · subst e; simp [h.clock]
  · have hne : ρ b ≠ ρ a := fun x => e (h.inj b a (by rw [hb']; simp) ha x)
    rw [upd_other _ _ hne, upd_other _ _ e]
    exact this.2

theorem MemRel.bump {ma mc : Mem P} (h : MemRel ρ ma mc) : MemRel ρ ma.bump mc.bump :=
  ⟨h.root, h.live, h.inj, h.only, by simp [Mem.bump, h.clock]⟩

theorem MemRel.free {ma mc : Mem P} (h : MemRel ρ ma mc) {a : Nat} (ha : ma.deref a ≠ none) :
    MemRel ρ { ma with freed := upd ma.freed a true } { mc with freed := upd mc.freed (ρ a) true } := by
  have hda : ∀ b, b ≠ a → ({ ma with freed := upd ma.freed a true } : Mem P).deref b = ma.deref b := fun b e => by
    simp [Mem.deref, upd_other _ _ e]
  have hdc : ∀ b, b ≠ ρ a → ({ mc with freed := upd mc.freed (ρ a) true } : Mem P).deref b = mc.deref b := fun b e => by
    simp [Mem.deref, upd_other _ _ e]
  have hna : ({ ma with freed := upd ma.freed a true } : Mem P).deref a = none := by simp [Mem.deref]
  have hnc : ({ mc with freed := upd mc.freed (ρ a) true } : Mem P).deref (ρ a) = none := by simp [Mem.deref]
  refine ⟨h.root, ?_, ?_, ?_, h.clock⟩
  · intro b n hb
    by_cases e : b = a
    · subst e; rw [hna] at hb; cases hb
    · rw [hda b e] at hb
      have hne : ρ b ≠ ρ a := fun x => e (h.inj b a (by rw [hb]; simp) ha x)
      rw [hdc _ hne]
      exact h.live b n hb
  · intro x y hx hy
    have ex : x ≠ a := by rintro rfl; exact hx hna
    have ey : y ≠ a := by rintro rfl; exact hy hna
    rw [hda x ex] at hx
    rw [hda y ey] at hy
    exact h.inj x y hx hy
  · intro x hx
    have ex : x ≠ ρ a := by rintro rfl; exact hx hnc
    rw [hdc x ex] at hx
    obtain ⟨b, hb, rfl⟩ := h.only x hx
    have : b ≠ a := by rintro rfl; exact ex rfl
    exact ⟨b, by rw [hda b this]; exact hb, rfl⟩

/-- Destroying what is destroyed already. -/
theorem MemRel.free_none {ma mc : Mem P} (h : MemRel ρ ma mc) {x : Nat} (hx : mc.deref x = none) :
    MemRel ρ ma { mc with freed := upd mc.freed x true } := by
  have hd : ∀ b, ({ mc with freed := upd mc.freed x true } : Mem P).deref b = mc.deref b := by
    intro b
    by_cases e : b = x
    · subst e; rw [hx]; simp [Mem.deref]
    · simp [Mem.deref, upd_other _ _ e]
  exact ⟨h.root, fun a n ha => by rw [hd]; exact h.live a n ha, h.inj, fun b hb => h.only b (by rw [← hd]; exact hb), h.clock⟩

theorem MemRel.offer {ma mc : Mem P} (h : MemRel ρ ma mc) {x : Nat} (hx : mc.deref x = none) : MemRel ρ ma (mc.offer x) := by
  have hd : ∀ b, (mc.offer x).deref b = mc.deref b := by
    intro b
    by_cases e : b = x
    · subst e; rw [hx]; simp [Mem.deref, Mem.offer]
    · simp [Mem.deref, Mem.offer, upd_other _ _ e]
  refine ⟨h.root, ?_, h.inj, fun b hb => h.only b (by rw [← hd]; exact hb), h.clock⟩
  intro a n ha
  have := h.live a n ha
  rw [hd]
  refine ⟨this.1, ?_⟩
  have hne : ρ a ≠ x := by rintro rfl; rw [this.1] at hx; cases hx
  simp only [Mem.offer, upd_other _ _ hne]
  exact this.2

theorem Mem.offer_blank (m : Mem P) (x : Nat) : Blank (m.offer x) := ⟨by simp [Mem.offer], by simp [Mem.offer], by simp [Mem.offer]⟩

end Contrie
