import Verif.Smt.EURealLemmas

/-!
# C14: the SMT axioms for infimum and supremum characterise them uniquely
-/

open scoped ENNReal NNReal

namespace Caesar.Smt

/-- An encoding `α` of a complete linear order `L`: `abs` is the number represented by a term, `Valid` are the terms
which occur as operands, the invariant of variables implies `Valid`, and each number is the value of some variable. -/
structure Encoding (α L : Type) [Lat α] [Invariant α] [CompleteLinearOrder L] (Valid : α → Prop) (abs : α → L) : Prop where
  valid {x : α} : Invariant.inv x → Valid x
  onto (y : L) : ∃ x : α, Invariant.inv x ∧ abs x = y
  le {x y : α} : Valid x → Valid y → (PartialOrd.cmp x y .lessOrEqual ↔ abs x ≤ abs y)
  ge {x y : α} : Valid x → Valid y → (PartialOrd.cmp x y .greaterOrEqual ↔ abs y ≤ abs x)

section
variable {α L A Q : Type} [Lat α] [Invariant α] [CompleteLinearOrder L] {Valid : α → Prop} {abs : α → L}

/-- The infimum axioms hold of a Skolem function exactly if its values are invariant and equal to the infimum of the body
over all values of the quantified variables which satisfy the constraints of their scope. In particular the
solution is unique. -/
theorem C14_infimum_unique (E : Encoding α L Valid abs) (cA : A → Prop) (cQ : A → Q → Prop)
    (body : A → Q → α) (hbody : ∀ a q, cA a → cQ a q → Valid (body a q)) (ext : A → α) :
    InfimumAxioms cA cQ body ext ↔
      ∀ a, cA a → Invariant.inv (ext a) ∧ abs (ext a) = sInf {y | ∃ q, cQ a q ∧ y = abs (body a q)} := by
  constructor
  · rintro ⟨h1, h2, h3⟩ a ha
    refine ⟨h1 a ha, le_antisymm (le_sInf ?_) ?_⟩
    · rintro y ⟨q, hq, rfl⟩
      exact (E.le (E.valid (h1 a ha)) (hbody a q ha hq)).1 (h2 a ha q hq)
    · obtain ⟨c, hc, hy⟩ := E.onto (sInf {y | ∃ q, cQ a q ∧ y = abs (body a q)})
      rw [← hy]
      refine (E.le (E.valid hc) (E.valid (h1 a ha))).1 (h3 a c ⟨ha, hc⟩ fun q hq => ?_)
      refine (E.le (E.valid hc) (hbody a q ha hq)).2 ?_
      rw [hy]
      exact sInf_le ⟨q, hq, rfl⟩
  · intro h
    refine ⟨fun a ha => (h a ha).1, fun a ha q hq => ?_, fun a c hac hq => ?_⟩
    · refine (E.le (E.valid (h a ha).1) (hbody a q ha hq)).2 ?_
      rw [(h a ha).2]
      exact sInf_le ⟨q, hq, rfl⟩
    · refine (E.le (E.valid hac.2) (E.valid (h a hac.1).1)).2 ?_
      rw [(h a hac.1).2]
      refine le_sInf ?_
      rintro y ⟨q, hq', rfl⟩
      exact (E.le (E.valid hac.2) (hbody a q hac.1 hq')).1 (hq q hq')

/-- The infimum axioms are satisfiable for each body. -/
theorem C14_infimum_exists (E : Encoding α L Valid abs) (cA : A → Prop) (cQ : A → Q → Prop)
    (body : A → Q → α) (hbody : ∀ a q, cA a → cQ a q → Valid (body a q)) :
    ∃ ext, InfimumAxioms cA cQ body ext := by
  choose f hf using E.onto
  exact ⟨fun a => f (sInf {y | ∃ q, cQ a q ∧ y = abs (body a q)}),
    (C14_infimum_unique E cA cQ body hbody _).2 fun a _ => hf _⟩

/-- The opposite order is encoded by the opposite encoding. -/
theorem Encoding.opp (E : Encoding α L Valid abs) :
    Encoding (Opp α) Lᵒᵈ (fun a => Valid a.val) (fun a => OrderDual.toDual (abs a.val)) where
  valid h := E.valid h
  onto y := (E.onto (OrderDual.ofDual y)).elim fun x hx => ⟨⟨x⟩, hx.1, congrArg OrderDual.toDual hx.2⟩
  le hx hy := E.ge hx hy
  ge hx hy := E.le hx hy

/-- The supremum axioms hold of a Skolem function exactly if its values are the suprema. -/
theorem C14_supremum_unique (E : Encoding α L Valid abs) (cA : A → Prop) (cQ : A → Q → Prop)
    (body : A → Q → α) (hbody : ∀ a q, cA a → cQ a q → Valid (body a q)) (ext : A → α) :
    SupremumAxioms cA cQ body ext ↔
      ∀ a, cA a → Invariant.inv (ext a) ∧ abs (ext a) = sSup {y | ∃ q, cQ a q ∧ y = abs (body a q)} :=
  C14_infimum_unique E.opp cA cQ (fun a q => ⟨body a q⟩) hbody (fun a => ⟨ext a⟩)

/-- The supremum axioms are satisfiable for each body. -/
theorem C14_supremum_exists (E : Encoding α L Valid abs) (cA : A → Prop) (cQ : A → Q → Prop)
    (body : A → Q → α) (hbody : ∀ a q, cA a → cQ a q → Valid (body a q)) :
    ∃ ext, SupremumAxioms cA cQ body ext := by
  choose f hf using E.onto
  exact ⟨fun a => f (sSup {y | ∃ q, cQ a q ∧ y = abs (body a q)}),
    (C14_supremum_unique E cA cQ body hbody _).2 fun a _ => hf _⟩

end

/-- The pair encoding is an encoding of the extended reals. -/
theorem C14_pair : Encoding Pair ℝ≥0∞ (fun p => 0 ≤ p.num) Pair.abs where
  valid h := h.1
  onto y := by
    cases y with
    | top => exact ⟨Pair.infinity, ⟨zero_le_one (α := ℝ), fun _ => rfl⟩, Pair.abs_inf trivial⟩
    | coe r => exact ⟨Pair.fromUReal r, ⟨r.2, fun h => h.elim⟩, (Pair.abs_fin id).trans ENNReal.ofReal_coe_nnreal⟩
  le hx hy := Pair.cmp_iff hx hy _
  ge hx hy := Pair.cmp_iff hx hy _

/-- The datatype encoding is an encoding of the extended reals, provided that the SMT model chooses a nonnegative value
for the accessor applied to the infinite constructor. (The invariant of variables, `get_ureal(x) >= 0`, excludes `∞`
in all other models.) -/
theorem C14_data [Data.Junk] (h0 : 0 ≤ Data.Junk.junk) : Encoding Data ℝ≥0∞ Data.Valid Data.abs where
  valid {x} h := by
    cases x with
    | inf => trivial
    | real r => exact h
  onto y := by
    cases y with
    | top => exact ⟨.inf, h0, rfl⟩
    | coe r => exact ⟨.real r, r.2, ENNReal.ofReal_coe_nnreal⟩
  le hx hy := Data.cmp_iff hx hy _
  ge hx hy := Data.cmp_iff hx hy _

/-- The Booleans. -/
theorem C14_bool : Encoding Prop Prop (fun _ => True) id where
  valid _ := trivial
  onto y := ⟨y, trivial, rfl⟩
  le _ _ := Iff.rfl
  ge _ _ := Iff.rfl

/-- The infimum over an empty scope is `∞`, the one over `x ↦ x` is `0`. -/
example (ext : Unit → Pair) :
    InfimumAxioms (fun _ => True) (fun _ (q : Pair) => Invariant.inv q) (fun _ q => q) ext ↔
      Invariant.inv (ext ()) ∧ (ext ()).abs = 0 := by
  rw [C14_infimum_unique C14_pair _ _ _ fun _ _ _ h => h.1]
  have : sInf {y | ∃ q : Pair, Invariant.inv q ∧ y = q.abs} = 0 :=
    le_antisymm (sInf_le ⟨Pair.zero, ⟨le_refl (0 : ℝ), fun h => h.elim⟩, Pair.abs_zero.symm⟩) bot_le
  exact ⟨fun h => this ▸ h () trivial, fun h _ _ => this.symm ▸ h⟩

end Caesar.Smt
