import Verif.Model.Format
import Verif.Spec.Format
import Verif.Props.WrapperRuns
/-
C60: formatting a map or a set (`{:?}`).
-/
set_option linter.unusedSectionVars false
namespace Contrie
variable {K P O V T α β σ : Type} [DecidableEq K]

/-! ### The builders -/

/-- The writer took all these strings, in this order. -/
inductive Writer.Took (w : Writer σ) : σ → List String → σ → Prop
  | nil {s : σ} : w.Took s [] s
  | cons {s s' s'' : σ} {x : String} {xs : List String} (h : w.write s x = (s', true)) (hs : w.Took s' xs s'') : w.Took s (x :: xs) s''

/-- What it means to have written a text given in pieces: either the writer took them all and the result is `Ok`, or it took the first ones, refused the next one,
was not asked again, and the result is an error. -/
def Writer.Outcome (w : Writer σ) (s : σ) (xs : List String) (r : σ × Bool) : Prop :=
  (r.2 = true ∧ w.Took s xs r.1) ∨ (r.2 = false ∧ ∃ done x rest s', xs = done ++ x :: rest ∧ w.Took s done s' ∧ w.write s' x = (r.1, false))

theorem Writer.writeAll_outcome (w : Writer σ) (s : σ) (xs : List String) : w.Outcome s xs (w.writeAll s xs) := by
  induction xs generalizing s with
  | nil => exact .inl ⟨rfl, .nil⟩
  | cons x xs ih =>
    unfold Writer.writeAll
    cases h : w.write s x with
    | mk s' b =>
      cases b with
      | true =>
        rcases ih s' with ⟨a, b⟩ | ⟨a, done, y, rest, s2, e, b, c⟩
        · exact .inl ⟨a, .cons h b⟩
        · exact .inr ⟨a, x :: done, y, rest, s2, by rw [e]; rfl, .cons h b, c⟩
      | false => exact .inr ⟨rfl, [], x, xs, s, rfl, .nil, h⟩

theorem Writer.writeAll_true {w : Writer σ} {s s' : σ} {x : String} {xs : List String} (h : w.write s x = (s', true)) :
    w.writeAll s (x :: xs) = w.writeAll s' xs := by
  simp only [Writer.writeAll, h]

theorem Writer.writeAll_false {w : Writer σ} {s s' : σ} {x : String} {xs : List String} (h : w.write s x = (s', false)) :
    w.writeAll s (x :: xs) = (s', false) := by
  simp only [Writer.writeAll, h]

theorem Writer.writeAll_append (w : Writer σ) (s : σ) (xs ys : List String) :
    w.writeAll s (xs ++ ys) = if (w.writeAll s xs).2 then w.writeAll (w.writeAll s xs).1 ys else w.writeAll s xs := by
  induction xs generalizing s with
  | nil => simp [Writer.writeAll]
  | cons x xs ih =>
    rcases h : w.write s x with ⟨s', b⟩
    cases b with
    | true => rw [List.cons_append, Writer.writeAll_true h, Writer.writeAll_true h, ih]
    | false => rw [List.cons_append, Writer.writeAll_false h, Writer.writeAll_false h]; simp

theorem Writer.string_writeAll (s : String) (xs : List String) : Writer.string.writeAll s xs = (s ++ String.join xs, true) := by
  induction xs generalizing s with
  | nil => simp [Writer.writeAll]
  | cons x xs ih =>
    simp only [Writer.writeAll, Writer.string]
    have := ih (s ++ x)
    simp only [Writer.string] at this
    rw [this]; simp [String.append_assoc]

/-- Where the builder is after having been given the pieces `xs`. -/
theorem Builder.fold (w : Writer σ) (s : σ) (g : β → List String) (l : List β) :
    ∀ (b : Builder σ) (xs : List String), (b.out, b.ok) = w.writeAll s xs →
      ((l.foldl (fun d n => d.put w (g n)) b).finish w) =
        w.writeAll s (xs ++ (if b.hasFields then l.flatMap (fun n => ", " :: g n) else [", "].intercalate (l.map g)) ++ ["}"]) := by
  induction l with
  | nil =>
    intro b xs h
    simp only [List.foldl_nil, Builder.finish, List.map_nil, List.flatMap_nil, List.intercalate_nil, ite_self, List.append_nil]
    rw [Writer.writeAll_append, ← h]
    rcases b with ⟨o, k, f⟩
    cases k <;> simp
  | cons a l ih =>
    intro b xs h
    rw [List.foldl_cons]
    have key : ((b.put w (g a)).out, (b.put w (g a)).ok) = w.writeAll s (xs ++ if b.hasFields then ", " :: g a else g a) := by
      rw [Writer.writeAll_append, ← h]
      unfold Builder.put
      cases hb : b.ok <;> simp
    have hf : (b.put w (g a)).hasFields = true := by
      unfold Builder.put; split <;> rfl
    rw [ih _ _ key, hf]
    cases hb : b.hasFields with
    | true => simp
    | false =>
      simp only [Bool.false_eq_true, if_false, if_true, List.map_cons]
      congr 1
      congr 1
      rw [List.append_assoc]
      congr 1
      clear key ih hf h
      induction l generalizing a with
      | nil => simp [List.intercalate]
      | cons c l ih2 =>
        have := ih2 c
        simp only [List.intercalate, List.map_cons, List.intersperse_cons_cons, List.flatten_cons, List.flatMap_cons] at this ⊢
        rw [← this]; simp

/-- A builder started, given entries and finished writes the entries in braces, separated by commas. -/
theorem Builder.text (w : Writer σ) (s : σ) (g : β → List String) (l : List β) :
    (l.foldl (fun d n => d.put w (g n)) (Builder.new w s)).finish w = w.writeAll s (bracesPieces (l.map g)) := by
  have := Builder.fold w s g l (Builder.new w s) ["{"] (by simp [Builder.new])
  rw [this]
  simp [Builder.new, bracesPieces]

theorem String.join_append' (xs ys : List String) : String.join (xs ++ ys) = String.join xs ++ String.join ys := by
  induction xs with
  | nil => simp
  | cons x xs ih => simp [ih, String.append_assoc]

theorem join_intercalate (l : List (List String)) : String.join ([", "].intercalate l) = ", ".intercalate (l.map String.join) := by
  cases l with
  | nil => rfl
  | cons a l =>
    induction l generalizing a with
    | nil => simp [List.intercalate]
    | cons b l ih =>
      have := ih b
      simp only [List.intercalate, List.map_cons, List.intersperse_cons_cons, List.flatten_cons, String.join_append', String.intercalate_cons_cons] at this ⊢
      rw [this]; simp [String.append_assoc]

theorem bracesPieces_text (l : List (List String)) : String.join (bracesPieces l) = bracesText (l.map String.join) := by
  unfold bracesPieces bracesText
  rw [← List.singleton_append, List.append_assoc, String.join_append', String.join_append', join_intercalate]
  simp [String.append_assoc]

/-! ### C60 -/

/-- What a pass over map `m` between the instants `i` and `j` may show: no key twice; only what the map contained at some moment meanwhile; and everything that was
in it all the time. -/
structure World.Shows {key : P → K} (W : World key) (m i j : Nat) (l : List P) : Prop where
  nodup : (l.map key).Nodup
  present : ∀ p ∈ l, ∃ τ, i ≤ τ ∧ τ ≤ j ∧ W.content τ m (key p) = some p
  stable : ∀ k p, (∀ τ, i ≤ τ → τ ≤ j → W.content τ m k = some p) → p ∈ l

theorem World.Runs.ret_eq {key : P → K} {W : World key} {t i j : Nat} {a b : α} (h : W.Runs t (.ret a) i j b) : b = a := by
  cases h; rfl

theorem World.formats {key : P → K} (W : World key) {t i j m : Nat} {f : List P → α} {r : α}
    (h : W.Runs t ((Prog.iter m (fun l => l)).bind (fun l => .ret (f l))) i j r) : ∃ l, W.Shows m i j l ∧ r = f l := by
  obtain ⟨l, j1, h1, h2⟩ := h.bind
  have hle1 := h1.le
  have hle2 := h2.le
  obtain ⟨a, b, c⟩ := W.iterates h1
  refine ⟨l, ⟨a, ?_, ?_⟩, h2.ret_eq⟩
  · intro p hp
    obtain ⟨τ, x, y, z⟩ := b p hp
    exact ⟨τ, x, by omega, z⟩
  · intro k p hp
    exact c k p (fun τ x y => hp τ x (by omega))

/-- If the map is not modified meanwhile, exactly its content is shown. -/
theorem World.Shows.exact {key : P → K} {W : World key} {m i j : Nat} {l : List P} (h : W.Shows m i j l)
    (hs : ∀ n, i ≤ n → n ≤ j → W.content n m = W.content i m) (p : P) : p ∈ l ↔ W.content i m (key p) = some p := by
  constructor
  · intro hp
    obtain ⟨τ, a, b, c⟩ := h.present p hp
    rwa [hs τ a b] at c
  · intro hp
    exact h.stable _ p (fun τ a b => by rw [hs τ a b]; exact hp)

theorem Prog.Calls.iter_ret {m m' : Nat} {f : List P → α} {r : Req K P} (h : ((Prog.iter (K := K) m (fun l => l)).bind (fun l => .ret (f l))).Calls m' r) :
    r.isUpdate = false := by
  rcases Prog.Calls.bind h with h | ⟨_, h⟩
  · exact h.iter
  · exact h.elim

/-- **C60** for `ConMap`: `{:?}` into a string. Whatever other sessions do with the map meanwhile, the text consists of entries `key: value` in braces, separated by
commas; no key is printed twice, each entry printed was in the map at some moment during the formatting, and each element that was in the map all the time is
printed. -/
theorem C60_conmap {eqv : O → K} (W : World (ConMap.keyOf (V := V) eqv)) {t i j m : Nat} {sk : O → List String} {sv : V → List String} {s s' : String} {ok : Bool}
    (h : W.Runs t (ConMap.debug sk sv .string s m) i j (s', ok)) :
    ok = true ∧ ∃ l, W.Shows m i j l ∧ s' = s ++ bracesText (l.map (fun e => entryText (sk e.key) (sv e.val))) := by
  obtain ⟨l, h1, h2⟩ := W.formats h
  simp only [Builder.entry] at h2
  rw [Builder.text _ _ (fun n : Arc O V => sk n.key ++ ": " :: sv n.val), Writer.string_writeAll, bracesPieces_text] at h2
  cases h2
  refine ⟨rfl, l, h1, ?_⟩
  simp [List.map_map, Function.comp_def, entryText, String.append_assoc]

/-- **C60** for `CloneConMap`. -/
theorem C60_cloneconmap {eqv : O → K} (W : World (CloneConMap.keyOf (V := V) eqv)) {t i j m : Nat} {sk : O → List String} {sv : V → List String} {s s' : String}
    {ok : Bool} (h : W.Runs t (CloneConMap.debug sk sv .string s m) i j (s', ok)) :
    ok = true ∧ ∃ l, W.Shows m i j l ∧ s' = s ++ bracesText (l.map (fun e => entryText (sk e.1) (sv e.2))) := by
  obtain ⟨l, h1, h2⟩ := W.formats h
  simp only [Builder.entry] at h2
  rw [Builder.text _ _ (fun n : O × V => sk n.1 ++ ": " :: sv n.2), Writer.string_writeAll, bracesPieces_text] at h2
  cases h2
  refine ⟨rfl, l, h1, ?_⟩
  simp [List.map_map, Function.comp_def, entryText, String.append_assoc]

/-- **C60** for `ConSet`. -/
theorem C60_conset {eqv : T → K} (W : World eqv) {t i j m : Nat} {st : T → List String} {s s' : String} {ok : Bool}
    (h : W.Runs t (ConSet.debug st .string s m) i j (s', ok)) :
    ok = true ∧ ∃ l, W.Shows m i j l ∧ s' = s ++ bracesText (l.map (fun x => String.join (st x))) := by
  obtain ⟨l, h1, h2⟩ := W.formats h
  simp only [Builder.setEntry] at h2
  rw [Builder.text, Writer.string_writeAll, bracesPieces_text] at h2
  cases h2
  exact ⟨rfl, l, h1, by simp [List.map_map, Function.comp_def]⟩

/-- **C60**, a map or set that is not modified meanwhile: the list of entries printed contains exactly the map's elements, each of them once. (`W.Shows` is what
the theorems above say about the entries printed.) -/
theorem C60_at_rest {key : P → K} (W : World key) {m i j : Nat} {l : List P} (h : W.Shows m i j l)
    (hs : ∀ n, i ≤ n → n ≤ j → W.content n m = W.content i m) : l.Nodup ∧ ∀ p, p ∈ l ↔ W.content i m (key p) = some p :=
  ⟨h.nodup.of_map, h.exact hs⟩

/-- **C60**: formatting modifies nothing (also not other maps): a map that nobody else updates meanwhile keeps its content, at every moment. So the hypothesis of
`C60_at_rest` is met if nobody else updates the map. -/
theorem C60_modifies_nothing {eqv : O → K} (W : World (ConMap.keyOf (V := V) eqv)) {t i j m : Nat} {sk : O → List String} {sv : V → List String} {w : Writer σ}
    {s : σ} {r : σ × Bool} (h : W.Runs t (ConMap.debug sk sv w s m) i j r) {m' : Nat} (hu : W.Undisturbed m' t i j) :
    ∀ n, i ≤ n → n ≤ j → W.content n m' = W.content i m' := fun _ a b => h.unchanged (fun _ h => Prog.Calls.iter_ret h) hu a b

theorem C60_cloneconmap_modifies_nothing {eqv : O → K} (W : World (CloneConMap.keyOf (V := V) eqv)) {t i j m : Nat} {sk : O → List String} {sv : V → List String}
    {w : Writer σ} {s : σ} {r : σ × Bool} (h : W.Runs t (CloneConMap.debug sk sv w s m) i j r) {m' : Nat} (hu : W.Undisturbed m' t i j) :
    ∀ n, i ≤ n → n ≤ j → W.content n m' = W.content i m' := fun _ a b => h.unchanged (fun _ h => Prog.Calls.iter_ret h) hu a b

theorem C60_conset_modifies_nothing {eqv : T → K} (W : World eqv) {t i j m : Nat} {st : T → List String} {w : Writer σ} {s : σ} {r : σ × Bool}
    (h : W.Runs t (ConSet.debug st w s m) i j r) {m' : Nat} (hu : W.Undisturbed m' t i j) :
    ∀ n, i ≤ n → n ≤ j → W.content n m' = W.content i m' := fun _ a b => h.unchanged (fun _ h => Prog.Calls.iter_ret h) hu a b

/-- **C60**, an empty map is printed as `{}`. -/
theorem C60_empty {eqv : O → K} (W : World (ConMap.keyOf (V := V) eqv)) {t i j m : Nat} {sk : O → List String} {sv : V → List String} {s s' : String} {ok : Bool}
    (h : W.Runs t (ConMap.debug sk sv .string s m) i j (s', ok)) (he : ∀ n, i ≤ n → n ≤ j → ∀ k, W.content n m k = none) : s' = s ++ "{}" := by
  obtain ⟨-, l, h1, rfl⟩ := C60_conmap W h
  cases l with
  | nil => rfl
  | cons p l =>
    obtain ⟨τ, a, b, c⟩ := h1.present p (by simp)
    rw [he τ a b] at c; cases c

/-- **C60**, a writer that may refuse (any `fmt::Write`): the strings of the same text are given to it one after the other, up to the first one it refuses; nothing is
written afterwards, and the error is reported. -/
theorem C60_conmap_writer {eqv : O → K} (W : World (ConMap.keyOf (V := V) eqv)) {t i j m : Nat} {sk : O → List String} {sv : V → List String} {w : Writer σ} {s : σ}
    {r : σ × Bool} (h : W.Runs t (ConMap.debug sk sv w s m) i j r) :
    ∃ l, W.Shows m i j l ∧ w.Outcome s (bracesPieces (l.map (fun e => sk e.key ++ [": "] ++ sv e.val))) r := by
  obtain ⟨l, h1, h2⟩ := W.formats h
  simp only [Builder.entry] at h2
  rw [Builder.text _ _ (fun n : Arc O V => sk n.key ++ ": " :: sv n.val)] at h2
  refine ⟨l, h1, ?_⟩
  subst h2
  simpa using w.writeAll_outcome s (bracesPieces (l.map (fun n : Arc O V => sk n.key ++ ": " :: sv n.val)))

theorem C60_cloneconmap_writer {eqv : O → K} (W : World (CloneConMap.keyOf (V := V) eqv)) {t i j m : Nat} {sk : O → List String} {sv : V → List String}
    {w : Writer σ} {s : σ} {r : σ × Bool} (h : W.Runs t (CloneConMap.debug sk sv w s m) i j r) :
    ∃ l, W.Shows m i j l ∧ w.Outcome s (bracesPieces (l.map (fun e => sk e.1 ++ [": "] ++ sv e.2))) r := by
  obtain ⟨l, h1, h2⟩ := W.formats h
  simp only [Builder.entry] at h2
  rw [Builder.text _ _ (fun n : O × V => sk n.1 ++ ": " :: sv n.2)] at h2
  refine ⟨l, h1, ?_⟩
  subst h2
  simpa using w.writeAll_outcome s (bracesPieces (l.map (fun n : O × V => sk n.1 ++ ": " :: sv n.2)))

theorem C60_conset_writer {eqv : T → K} (W : World eqv) {t i j m : Nat} {st : T → List String} {w : Writer σ} {s : σ} {r : σ × Bool}
    (h : W.Runs t (ConSet.debug st w s m) i j r) : ∃ l, W.Shows m i j l ∧ w.Outcome s (bracesPieces (l.map st)) r := by
  obtain ⟨l, h1, h2⟩ := W.formats h
  simp only [Builder.setEntry] at h2
  rw [Builder.text] at h2
  subst h2
  exact ⟨l, h1, w.writeAll_outcome _ _⟩

/-- **C60**, the two map types print the same: maps with the same bindings that are not modified are printed with the same entries, in some order. -/
theorem C60_agree {eqv : O → K} (W : World (ConMap.keyOf (V := V) eqv)) (W' : World (CloneConMap.keyOf (V := V) eqv)) {t i j m t' i' j' m' : Nat}
    {sk : O → List String} {sv : V → List String} {s s' : String} {ok ok' : Bool}
    (h : W.Runs t (ConMap.debug sk sv .string "" m) i j (s, ok)) (h' : W'.Runs t' (CloneConMap.debug sk sv .string "" m') i' j' (s', ok'))
    (hs : ∀ n, i ≤ n → n ≤ j → W.content n m = W.content i m) (hs' : ∀ n, i' ≤ n → n ≤ j' → W'.content n m' = W'.content i' m')
    (heq : ∀ k, W'.content i' m' k = (W.content i m k).map (fun e => (e.key, e.val))) :
    ∃ es es' : List String, es.Perm es' ∧ s = bracesText es ∧ s' = bracesText es' := by
  obtain ⟨-, l, h1, e⟩ := C60_conmap W h
  obtain ⟨-, l', h1', e'⟩ := C60_cloneconmap W' h'
  rw [String.empty_append] at e e'
  refine ⟨_, _, ?_, e, e'⟩
  have : (l.map (fun e : Arc O V => (e.key, e.val))).Perm l' := by
    refine (List.perm_ext_iff_of_nodup ?_ h1'.nodup.of_map).2 ?_
    · have : ((l.map (fun e : Arc O V => (e.key, e.val))).map (CloneConMap.keyOf (V := V) eqv)).Nodup := by
        rw [List.map_map]; exact h1.nodup
      exact this.of_map
    · intro q
      rw [h1'.exact hs', heq]
      constructor
      · intro hq
        obtain ⟨e, he, rfl⟩ := List.mem_map.1 hq
        have := (h1.exact hs e).1 he
        show Option.map _ (W.content i m (ConMap.keyOf eqv e)) = _
        rw [this]; rfl
      · intro hq
        cases hc : W.content i m (CloneConMap.keyOf eqv q) with
        | none => rw [hc] at hq; cases hq
        | some e =>
          rw [hc] at hq
          cases hq
          exact List.mem_map.2 ⟨e, (h1.exact hs e).2 hc, rfl⟩
  have h3 := this.map (fun e : O × V => entryText (sk e.1) (sv e.2))
  rwa [List.map_map] at h3

theorem ConMap.debug_typed {eqv : O → K} {sk : O → List String} {sv : V → List String} {w : Writer σ} {s : σ} {m : Nat} :
    (ConMap.debug (K := K) sk sv w s m).Typed (ConMap.keyOf eqv) := Prog.Typed.iter.bind (fun _ => trivial)
theorem CloneConMap.debug_typed {eqv : O → K} {sk : O → List String} {sv : V → List String} {w : Writer σ} {s : σ} {m : Nat} :
    (CloneConMap.debug (K := K) sk sv w s m).Typed (CloneConMap.keyOf eqv) := Prog.Typed.iter.bind (fun _ => trivial)
theorem ConSet.debug_typed {eqv : T → K} {st : T → List String} {w : Writer σ} {s : σ} {m : Nat} :
    (ConSet.debug (K := K) st w s m).Typed eqv := Prog.Typed.iter.bind (fun _ => trivial)

/-- **C60**: formatting terminates if it is not interfered with, in any state of the map. -/
theorem C60_terminates {eqv : O → K} (W : World (ConMap.keyOf (V := V) eqv)) (i t m : Nat) (hi : ∀ m, (((W.ex m).st i).thr t).run = none)
    (sk : O → List String) (sv : V → List String) (w : Writer σ) (s : σ) :
    ∃ W' j r, W.Same W' i ∧ W'.Solo t i ∧ W'.Runs t (ConMap.debug sk sv w s m) i j r :=
  Prog.can_run ConMap.debug_typed W i t hi

theorem C60_cloneconmap_terminates {eqv : O → K} (W : World (CloneConMap.keyOf (V := V) eqv)) (i t m : Nat) (hi : ∀ m, (((W.ex m).st i).thr t).run = none)
    (sk : O → List String) (sv : V → List String) (w : Writer σ) (s : σ) :
    ∃ W' j r, W.Same W' i ∧ W'.Solo t i ∧ W'.Runs t (CloneConMap.debug sk sv w s m) i j r :=
  Prog.can_run CloneConMap.debug_typed W i t hi

theorem C60_conset_terminates {eqv : T → K} (W : World eqv) (i t m : Nat) (hi : ∀ m, (((W.ex m).st i).thr t).run = none)
    (st : T → List String) (w : Writer σ) (s : σ) : ∃ W' j r, W.Same W' i ∧ W'.Solo t i ∧ W'.Runs t (ConSet.debug st w s m) i j r :=
  Prog.can_run ConSet.debug_typed W i t hi

/-! ### Concrete cases -/

/-- C60: two elements are inserted into a new map, then it is formatted. -/
example : ∃ (W : World (CloneConMap.keyOf (V := String) (fun n : Nat => n))) (i j : Nat) (s : String),
    W.Runs 0 (CloneConMap.debug (fun n => [toString n]) (fun v => [v]) .string "m = " 0) i j (s, true) ∧
      (∀ n, i ≤ n → n ≤ j → W.content n 0 = W.content i 0) ∧ (s = "m = {1: a, 2: b}" ∨ s = "m = {2: b, 1: a}") := by
  obtain ⟨W, j, ⟨s, ok⟩, h1, h2, h3, h4, h5, h6⟩ := Prog.run_new (K := Nat)
    (p := (CloneConMap.extend 0 [(1, "a"), (2, "b")]).bind
      (fun _ => CloneConMap.debug (fun n => [toString n]) (fun v => [v]) .string "m = " 0))
    ((Prog.Typed.forEach (key := CloneConMap.keyOf (V := String) (fun n : Nat => n)) (fun _ => Prog.Typed.opt trivial) _).bind (fun _ => CloneConMap.debug_typed))
    (fun _ k => BitVec.ofNat 64 k)
  obtain ⟨u, i, g1, g2⟩ := h2.bind
  have hle1 := g1.le
  have hle2 := g2.le
  have hidle := g1.idle_end (m := 0) (h3 0).idle
  have hu1 := (h3 0).sub (h3 0).idle (Nat.le_refl _) hle2
  have hu2 := (h3 0).sub hidle hle1 (Nat.le_refl _)
  have hc := C26_cloneconmap W g1 hu1
  have hmod := C60_cloneconmap_modifies_nothing W g2 hu2
  obtain ⟨rfl, l, k1, rfl⟩ := C60_cloneconmap W g2
  refine ⟨W, i, j, _, g2, hmod, ?_⟩
  obtain ⟨hnd, hmem⟩ := C60_at_rest W k1 hmod
  have : l.Perm [(1, "a"), (2, "b")] := by
    refine (List.perm_ext_iff_of_nodup hnd (by decide)).2 ?_
    intro p
    rw [hmem, hc, h4, Option.or_none, lastWith_nodup (by decide)]
    simp [CloneConMap.keyOf]
  have h2 : l = [(1, "a"), (2, "b")] ∨ l = [(2, "b"), (1, "a")] := by
    match l, this.length_eq with
    | [a, b], _ =>
      have ha := this.mem_iff (a := a)
      have hb := this.mem_iff (a := b)
      simp only [List.mem_cons, List.not_mem_nil, or_false, true_or, or_true, true_iff, List.nodup_cons, not_false_eq_true, and_true, List.nodup_nil] at ha hb hnd
      rcases ha with rfl | rfl <;> rcases hb with rfl | rfl
      · exact absurd rfl hnd
      · exact .inl rfl
      · exact .inr rfl
      · exact absurd rfl hnd
  rcases h2 with rfl | rfl
  · left; decide
  · right; decide

/-- C60, a writer with too little room: the entry that does not fit is refused, nothing is written afterwards and the error is reported. -/
example : ([1, 2, 3].foldl (fun d n => d.setEntry (.bounded 4) [toString n]) (Builder.new (.bounded 4) "")).finish (.bounded 4) = ("{1, ", false) := by decide

example : ([1, 2, 3].foldl (fun d n => d.setEntry .string [toString n]) (Builder.new .string "s: ")).finish .string = ("s: {1, 2, 3}", true) := by decide

end Contrie
