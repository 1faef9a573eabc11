import Verif.Model.Basic
/-
C30 (`ExistingOrNew`).
-/
namespace Contrie
variable {T U : Type}

/-- **C30.** A value of the type is determined by the value it holds and whether it is new; `into_inner` and `deref` give the value held, `is_new`
whether it is new; `map` applies the function to the value held and keeps whether it is new; an assignment through `deref_mut` replaces the value held and nothing else. -/
theorem C30_existing_or_new (e : ExistingOrNew T) (f : T → U) (v : T) :
    (e = .existing e.intoInner ∧ e.isNew = false ∨ e = .new e.intoInner ∧ e.isNew = true) ∧
    e.deref = e.intoInner ∧
    (e.map f).intoInner = f e.intoInner ∧ (e.map f).isNew = e.isNew ∧
    (e.assign v).intoInner = v ∧ (e.assign v).isNew = e.isNew := by
  cases e <;> simp [ExistingOrNew.intoInner, ExistingOrNew.isNew, ExistingOrNew.deref, ExistingOrNew.map, ExistingOrNew.assign]

/-- **C30**, the constructors: what goes in comes out. -/
theorem C30_constructors (v : T) :
    (ExistingOrNew.existing v).intoInner = v ∧ (ExistingOrNew.new v).intoInner = v ∧
    (ExistingOrNew.existing v).isNew = false ∧ (ExistingOrNew.new v).isNew = true := ⟨rfl, rfl, rfl, rfl⟩

/-- **C30**, `map` is transparent: it composes, and mapping nothing changes nothing. -/
theorem C30_map {V : Type} (e : ExistingOrNew T) (f : T → U) (g : U → V) :
    (e.map f).map g = e.map (g ∘ f) ∧ e.map id = e := by
  cases e <;> simp [ExistingOrNew.map]

example : (ExistingOrNew.new 3).map (· + 1) = ExistingOrNew.new 4 ∧ (ExistingOrNew.existing 3).map (· + 1) = ExistingOrNew.existing 4 :=
  ⟨rfl, rfl⟩

end Contrie
