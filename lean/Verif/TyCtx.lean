import Verif.Syntax
import Mathlib.Data.List.Nodup
import Mathlib.Data.List.Perm.Subperm

/-!
# Model of the symbol table: fresh identifiers

Models `src/tyctx.rs:51-111`.
-/

namespace Caesar

/-- `TyCtx` (`src/tyctx.rs:20-41`): the declared identifiers and the counters for fresh names.
Declarations are reduced to their identifier (the type of a variable is part of `Var`);
`globals` and `spec_ty` play no role for name generation. -/
structure TyCtx where
  decls : List Ident
  fresh : Ident → Option Nat

namespace TyCtx

/-- `TyCtx::new` (`src/tyctx.rs:42-49`). -/
def new : TyCtx := ⟨[], fun _ => none⟩

/-- `TyCtx::declare` (`src/tyctx.rs:52-57`): panics (`none`) if there already is a declaration. -/
def declare (c : TyCtx) (x : Ident) : Option TyCtx :=
  if x ∈ c.decls then none else some { c with decls := x :: c.decls }

/-- `TyCtx::undeclare` (`src/tyctx.rs:62-65`): panics (`none`) if there is no declaration. -/
def undeclare (c : TyCtx) (x : Ident) : Option TyCtx :=
  if x ∈ c.decls then some { c with decls := c.decls.filter (· ≠ x) } else none

/-- The name `"{name}_{index}"` with the given span (`src/tyctx.rs:81-85`). -/
def freshName (x : Ident) (span : Nat) (i : Nat) : Ident := ⟨x.name ++ "_" ++ toString i, span⟩

/-- The next value of the counter, `entry(ident).and_modify(|e| *e += 1).or_insert(0)`
(`src/tyctx.rs:80`). -/
def nextIdx (c : TyCtx) (x : Ident) : Nat :=
  match c.fresh x with
  | some i => i + 1
  | none => 0

/-- State after the counter of `x` has been advanced (`src/tyctx.rs:80`). -/
def bump (c : TyCtx) (x : Ident) : TyCtx :=
  { c with fresh := fun y => if y = x then some (c.nextIdx x) else c.fresh y }

/-- The loop of `TyCtx::fresh_ident` (`src/tyctx.rs:75-88`). The loop of the code is unbounded; here `fuel` bounds
the number of rounds and `none` means that it was not enough. `C37_terminates` shows that
`decls.length + 1` rounds always suffice and that more rounds do not change the result. -/
def freshLoop (c : TyCtx) (x : Ident) (span : Nat) : (fuel : Nat) → Option (Ident × TyCtx)
  | 0 => none
  | fuel + 1 =>
      let new := freshName x span (c.nextIdx x)
      if new ∈ c.decls then freshLoop (c.bump x) x span fuel else some (new, c.bump x)

/-- `TyCtx::fresh_ident` (`src/tyctx.rs:75-88`). -/
def freshIdent (c : TyCtx) (x : Ident) (span : Nat) : Option (Ident × TyCtx) :=
  c.freshLoop x span (c.decls.length + 1)

/-- `TyCtx::clone_var` (`src/tyctx.rs:92-111`) for a variable with its type: a fresh identifier which is
declared with the same type. Panics (`none`) if the old variable is not declared. -/
def cloneVar (c : TyCtx) (v : Var) (span : Nat) : Option (Var × TyCtx) := do
  let (new, c) ← c.freshIdent v.id span
  if v.id ∈ c.decls then
    let c ← c.declare new
    return (⟨new, v.ty⟩, c)
  else none

/-! ## Helper lemmas -/

theorem toString_inj {i j : Nat} (h : toString i = toString j) : i = j := by
  have h' : i.repr = j.repr := h
  have h2 := congrArg (fun s => Nat.ofDigitChars 10 s.toList 0) h'
  simpa [Nat.toList_repr, Nat.ofDigitChars_ten_toDigits] using h2

theorem freshName_inj {x : Ident} {span i j : Nat} (h : freshName x span i = freshName x span j) : i = j := by
  have h1 : x.name ++ "_" ++ toString i = x.name ++ "_" ++ toString j := congrArg Ident.name h
  have h2 : (x.name ++ "_" ++ toString i).toList = (x.name ++ "_" ++ toString j).toList := congrArg _ h1
  simp only [String.toList_append] at h2
  exact toString_inj (String.ext (List.append_cancel_left h2))

theorem bump_decls (c : TyCtx) (x : Ident) : (c.bump x).decls = c.decls := rfl
theorem bump_nextIdx (c : TyCtx) (x : Ident) : (c.bump x).nextIdx x = c.nextIdx x + 1 := by
  simp [bump, nextIdx]

/-- What the loop returns: the first unused name starting from the current counter. -/
theorem freshLoop_spec {c : TyCtx} {x : Ident} {span fuel : Nat} {new : Ident} {c' : TyCtx}
    (h : c.freshLoop x span fuel = some (new, c')) :
    ∃ i, c.nextIdx x ≤ i ∧ new = freshName x span i ∧ new ∉ c.decls ∧ c'.decls = c.decls ∧
      c'.nextIdx x = i + 1 ∧ (∀ y, y ≠ x → c'.fresh y = c.fresh y) ∧
      ∀ j, c.nextIdx x ≤ j → j < i → freshName x span j ∈ c.decls := by
  induction fuel generalizing c with
  | zero => cases h
  | succ fuel ih =>
    unfold freshLoop at h
    simp only at h
    split at h
    next hmem =>
      obtain ⟨i, h1, h2, h3, h4, h5, h6, h7⟩ := ih h
      rw [bump_nextIdx] at h1 h7
      refine ⟨i, by omega, h2, h3, h4, h5, fun y hy => ?_, fun j hj hji => ?_⟩
      · rw [h6 y hy]; simp [bump, hy]
      · by_cases hje : j = c.nextIdx x
        · subst hje; exact hmem
        · exact h7 j (by omega) hji
    next hmem =>
      simp only [Option.some.injEq, Prod.mk.injEq] at h
      obtain ⟨rfl, rfl⟩ := h
      refine ⟨c.nextIdx x, le_refl _, rfl, hmem, rfl, bump_nextIdx c x, fun y hy => by simp [bump, hy],
        fun j hj hji => by omega⟩

theorem freshLoop_none {c : TyCtx} {x : Ident} {span fuel : Nat} (h : c.freshLoop x span fuel = none) :
    ∀ j, j < fuel → freshName x span (c.nextIdx x + j) ∈ c.decls := by
  induction fuel generalizing c with
  | zero => intro j hj; omega
  | succ fuel ih =>
    unfold freshLoop at h
    simp only at h
    split at h
    next hmem =>
      intro j hj
      cases j with
      | zero => simpa using hmem
      | succ j =>
        have := ih h j (by omega)
        rw [bump_nextIdx] at this
        rwa [show c.nextIdx x + (j + 1) = c.nextIdx x + 1 + j by omega]
    · cases h

theorem freshLoop_terminates (c : TyCtx) (x : Ident) (span : Nat) {fuel : Nat} (hf : c.decls.length < fuel) :
    c.freshLoop x span fuel ≠ none := by
  intro h
  have h1 := freshLoop_none h
  let l := (List.range fuel).map fun j => freshName x span (c.nextIdx x + j)
  have hnd : l.Nodup := by
    apply List.Nodup.map_on _ List.nodup_range
    intro a _ b _ hab
    have := freshName_inj hab
    omega
  have hsub : l ⊆ c.decls := by
    intro n hn
    simp only [l, List.mem_map, List.mem_range] at hn
    obtain ⟨j, hj, rfl⟩ := hn
    exact h1 j hj
  have := (List.Nodup.subperm hnd hsub).length_le
  simp [l] at this
  omega

theorem freshLoop_mono {c : TyCtx} {x : Ident} {span fuel : Nat} {r} (h : c.freshLoop x span fuel = some r)
    (k : Nat) : c.freshLoop x span (fuel + k) = some r := by
  induction fuel generalizing c with
  | zero => cases h
  | succ fuel ih =>
    rw [show fuel + 1 + k = fuel + k + 1 by omega]
    unfold freshLoop at h ⊢
    simp only at h ⊢
    split
    next hmem => rw [if_pos hmem] at h; exact ih h
    next hmem => rw [if_neg hmem] at h; exact h

theorem freshIdent_some (c : TyCtx) (x : Ident) (span : Nat) :
    ∃ new c', c.freshIdent x span = some (new, c') := by
  have := freshLoop_terminates c x span (fuel := c.decls.length + 1) (by omega)
  cases h : c.freshLoop x span (c.decls.length + 1) with
  | none => exact absurd h this
  | some r => exact ⟨r.1, r.2, h⟩

/-- Cloning a declared variable succeeds; the clone has the same type and an undeclared name, which is
declared afterwards. -/
theorem cloneVar_some (c : TyCtx) (v : Var) (span : Nat) (hv : v.id ∈ c.decls) :
    ∃ w c', c.cloneVar v span = some (⟨w, v.ty⟩, c') ∧ w ∉ c.decls ∧ c'.decls = w :: c.decls := by
  obtain ⟨new, c1, h1⟩ := c.freshIdent_some v.id span
  obtain ⟨i, -, -, hn, hd, -⟩ := freshLoop_spec h1
  refine ⟨new, { c1 with decls := new :: c1.decls }, ?_, hn, by simp [hd]⟩
  simp [cloneVar, h1, hd, hv, declare, hn]

theorem cloneVar_spec {c c' : TyCtx} {v w : Var} {span : Nat} (h : c.cloneVar v span = some (w, c')) :
    w.ty = v.ty ∧ w.id ∉ c.decls ∧ c'.decls = w.id :: c.decls ∧ v.id ∈ c.decls := by
  by_cases hv : v.id ∈ c.decls
  · obtain ⟨w', c'', h1, h2, h3⟩ := cloneVar_some c v span hv
    rw [h1] at h
    simp only [Option.some.injEq, Prod.mk.injEq] at h
    obtain ⟨rfl, rfl⟩ := h
    exact ⟨rfl, h2, h3, hv⟩
  · obtain ⟨new, c1, h1⟩ := c.freshIdent_some v.id span
    obtain ⟨i, -, -, hn, hd, -⟩ := freshLoop_spec h1
    simp [cloneVar, h1, hd, hv] at h

end TyCtx
end Caesar
