import Verif.ProofRules.Unpack
import Verif.Front.TyStmt

/-!
# C92: the arguments of annotations reach the encoders as they are written
-/

namespace Caesar
namespace ProofRules
namespace Unpack

open Front

/-! ## Specification -/

mutual

/-- The annotated statements, inner ones first: the annotation, its arguments, and the statement that it annotates. -/
def calls : RStmt → List (Ident × List RExpr × RStmt)
  | .annot f args s => calls s ++ [(f, args, s)]
  | .ite _ a b | .demonic a b | .angelic a b | .additive a b => callsB a ++ callsB b
  | .seq ss => callsB ss
  | .while _ b => callsB b
  | _ => []

/-- `calls` for blocks. -/
def callsB : List RStmt → List (Ident × List RExpr × RStmt)
  | [] => []
  | s :: ss => calls s ++ callsB ss

end

/-- What the arguments of a proof rule mean: the number `k` is a numeral, and the free variable is a variable. -/
def written : AnnKind → List RExpr → Option Rule
  | .invariant, [inv] => some (.invariant inv)
  | .kInduction, [.lit _ (.uint n), inv] => some (.kInduction n inv)
  | .unroll, [.lit _ (.uint n), t] => some (.unroll n t)
  | .omegaInvariant, [.var _ x, inv] => some (.omegaInvariant x inv)
  | .past, [inv, eps, k] => some (.past inv eps k)
  | .ost, [inv, pastInv, c, post] => some (.ost inv pastInv c post)
  | .ast, [inv, variant, .var _ x, prob, decrease] => some (.ast inv variant x prob decrease)
  | _, _ => none

/-- Slicing annotations are not proof rules. -/
def isRule : AnnKind → Bool
  | .slice _ _ => false
  | _ => true

/-- The proof rules of a block as they are written. -/
def asWritten (Γ : Ctx) (ss : List RStmt) : List (Option Rule) :=
  (callsB ss).filterMap fun c =>
    match Γ c.1 with
    | some (.annot k) => if isRule k then some (written k c.2.1) else none
    | _ => none

/-- Arguments without types and casts. -/
def Rule.strip : Rule → Rule
  | .invariant i => .invariant i.strip
  | .kInduction k i => .kInduction k i.strip
  | .unroll k t => .unroll k t.strip
  | .omegaInvariant x i => .omegaInvariant x i.strip
  | .past i eps k => .past i.strip eps.strip k.strip
  | .ost i p c q => .ost i.strip p.strip c.strip q.strip
  | .ast i v x p d => .ast i.strip v.strip x p.strip d.strip

/-- The number that a literal stands for. -/
def numeral : RExpr → Option ℚ≥0
  | .lit _ (.uint n) => some n
  | .lit _ (.frac q) => some q
  | _ => none

/-- The documented conditions on the arguments: `k` is positive and representable, and `eps < k`. -/
def Rule.Fine : Rule → Prop
  | .kInduction k _ => 0 < k ∧ k < 2 ^ 128
  | .unroll k _ => k < 2 ^ 128
  | .past _ eps k => ∃ p q, numeral eps.strip = some p ∧ numeral k.strip = some q ∧ p < q
  | _ => True

/-- The annotation has a numeral that is too large. -/
def TooLarge (k : AnnKind) (args : List RExpr) : Prop :=
  (k = .kInduction ∨ k = .unroll) ∧ ∃ t n rest, args = .lit t (.uint n) :: rest ∧ 2 ^ 128 ≤ n

/-- The full property: a body that passes name resolution and the type checker does not make the encoders panic. -/
def C92_full : Prop :=
  ∀ (Γ Γ' : Ctx) (ss ss' : List RStmt), InScopeB Γ ss → checkSL ss Γ = some (ss', Γ') → encB Γ' ss' .start ≠ .error .panic

/-! ## What the type checker guarantees for a call -/

theorem check_lit {pre imp : Bool} : ∀ {e : RExpr} {Γ Γ' : Ctx} {e' : RExpr}, check pre imp e Γ = some (e', Γ') →
    e'.isLit = true → ∃ l, e' = .lit (some (litTy l)) l
  | .var ty x, Γ, Γ', e', h, hl => by
    simp only [check] at h
    split at h
    · split at h
      · cases h
      · simp only [Option.bind_eq_bind, Option.bind_eq_some_iff, Option.pure_def, Option.some.injEq, Prod.mk.injEq] at h
        obtain ⟨e, he, rfl, rfl⟩ := h
        rw [finish_some he] at hl
        cases hl
    · cases h
  | .call ty f args, Γ, Γ', e', h, hl => by
    simp only [check, Option.bind_eq_bind, Option.bind_eq_some_iff, Prod.exists] at h
    obtain ⟨args', Γ₁, hL, d, hd, h⟩ := h
    split at h
    · simp at h
    cases d <;>
      simp only [Option.bind_eq_some_iff, Option.pure_def, Option.some.injEq, Prod.mk.injEq, Prod.exists, reduceCtorEq] at h
    case proc => obtain ⟨as, has, e, he, rfl, rfl⟩ := h; rw [finish_some he] at hl; cases hl
    case func => obtain ⟨as, has, e, he, rfl, rfl⟩ := h; rw [finish_some he] at hl; cases hl
    case dist => obtain ⟨as, has, e, he, rfl, rfl⟩ := h; rw [finish_some he] at hl; cases hl
    case listOp => obtain ⟨as, t, has, e, he, rfl, rfl⟩ := h; rw [finish_some he] at hl; cases hl
  | .ite ty c a b, Γ, Γ', e', h, hl => by
    simp only [check, Option.bind_eq_bind, Option.bind_eq_some_iff, Prod.exists, Option.pure_def, Option.some.injEq,
      Prod.mk.injEq] at h
    obtain ⟨c', Γ₁, hc, a', Γ₂, ha, b', Γ₃, hb, c'', hcc, t, a'', b'', hab, e, he, rfl, rfl⟩ := h
    rw [finish_some he] at hl
    cases hl
  | .bin ty op a b, Γ, Γ', e', h, hl => by
    simp only [check, Option.bind_eq_bind, Option.bind_eq_some_iff, Prod.exists, Option.pure_def, Option.some.injEq,
      Prod.mk.injEq] at h
    obtain ⟨a', Γ₂, ha, b', Γ₃, hb, t, a'', b'', hab, e, he, rfl, rfl⟩ := h
    rw [finish_some he] at hl
    cases hl
  | .un ty op a, Γ, Γ', e', h, hl => by
    simp only [check, Option.bind_eq_bind, Option.bind_eq_some_iff, Prod.exists, Option.pure_def, Option.some.injEq,
      Prod.mk.injEq] at h
    obtain ⟨a', Γ₂, ha, t, a'', hab, e, he, rfl, rfl⟩ := h
    rw [finish_some he] at hl
    cases hl
  | .cast ty a, Γ, Γ', e', h, hl => by
    simp only [check, Option.bind_eq_bind, Option.bind_eq_some_iff, Prod.exists, Option.pure_def, Option.some.injEq,
      Prod.mk.injEq] at h
    obtain ⟨a', Γ₂, ha, t, -, e, he, rfl, rfl⟩ := h
    rw [finish_some he] at hl
    cases hl
  | .quant ty op vs tr a, Γ, Γ', e', h, hl => by
    simp only [check, Option.bind_eq_bind, Option.bind_eq_some_iff, Prod.exists] at h
    obtain ⟨tr', Γ₁, ht, a', Γ₂, ha, -, -, h⟩ := h
    split at h
    · simp at h
    simp only [Option.bind_eq_some_iff, Option.pure_def, Option.some.injEq, Prod.mk.injEq] at h
    obtain ⟨e, he, rfl, rfl⟩ := h
    rw [finish_some he] at hl
    cases hl
  | .subst ty x v a, Γ, Γ', e', h, hl => by
    simp only [check, Option.bind_eq_bind, Option.bind_eq_some_iff, Prod.exists, Option.pure_def, Option.some.injEq,
      Prod.mk.injEq] at h
    obtain ⟨v', Γ₁, hv, Γ₂, hx, a', Γ₃, ha, t, -, e, he, rfl, rfl⟩ := h
    rw [finish_some he] at hl
    cases hl
  | .lit ty l, Γ, Γ', e', h, hl => by
    simp only [check, Option.bind_eq_bind, Option.bind_eq_some_iff, Option.pure_def, Option.some.injEq, Prod.mk.injEq] at h
    obtain ⟨e, he, rfl, rfl⟩ := h
    exact ⟨l, finish_some he⟩

theorem checkL_lit {pre : Bool} : ∀ {es es' : List RExpr} {Γ Γ' : Ctx}, checkL pre es Γ = some (es', Γ') →
    ∀ e ∈ es', e.isLit = true → ∃ l, e = .lit (some (litTy l)) l
  | [], es', Γ, Γ', h, e, he, _ => by
    simp only [checkL, Option.some.injEq, Prod.mk.injEq] at h
    obtain ⟨rfl, rfl⟩ := h
    cases he
  | e :: es, es', Γ, Γ', h, x, hx, hl => by
    simp only [checkL, Option.bind_eq_bind, Option.bind_eq_some_iff, Prod.exists, Option.pure_def, Option.some.injEq,
      Prod.mk.injEq] at h
    obtain ⟨e', Γ₁, he, es'', Γ₂, hes, rfl, rfl⟩ := h
    rcases List.mem_cons.1 hx with rfl | hx
    · exact check_lit he hl
    · exact checkL_lit hes x hx hl

theorem check_var {pre imp : Bool} {ty : Option RTy} {x : Ident} {Γ Γ' : Ctx} {e' : RExpr} {t : RTy} {k : VarKind} (hx : Γ x = some (.var t k))
    (h : check pre imp (.var ty x) Γ = some (e', Γ')) : e' = .var (some t) x := by
  simp only [check, hx] at h
  split at h
  · cases h
  · simp only [Option.bind_eq_bind, Option.bind_eq_some_iff, Option.pure_def, Option.some.injEq, Prod.mk.injEq] at h
    obtain ⟨e, he, rfl, rfl⟩ := h
    exact finish_some he

/-- An argument that passes `check_call`. -/
def Passed (p : RParam × RExpr) (b : RExpr) : Prop := (p.1.2 = true → p.2.isLit = true) ∧ Front.tryCast p.1.1 p.2 = some b

theorem checkArgs_passed : ∀ {ps : List RParam} {as bs : List RExpr}, as.length = ps.length → checkArgs ps as = some bs →
    List.Forall₂ Passed (ps.zip as) bs
  | [], [], bs, _, h => by
    simp only [checkArgs, Option.some.injEq] at h
    subst h
    exact .nil
  | (t, l) :: ps, a :: as, bs, hn, h => by
    simp only [checkArgs, Option.bind_eq_bind] at h
    split at h
    · simp at h
    · rename_i hl
      simp only [Option.bind_eq_some_iff, Option.pure_def, Option.some.injEq] at h
      obtain ⟨a', ha, as', has, rfl⟩ := h
      refine .cons ⟨fun h => ?_, ha⟩ (checkArgs_passed (by simpa using hn) has)
      simp only at h
      simpa [h] using hl

theorem checkCall_passed {ps : List RParam} {as bs : List RExpr} (h : checkCall ps as = some bs) :
    as.length = ps.length ∧ List.Forall₂ Passed (ps.zip as) bs := by
  unfold checkCall at h
  split at h
  · cases h
  · rename_i hn
    have hn : as.length = ps.length := by simpa using hn
    exact ⟨hn, checkArgs_passed hn h⟩

theorem cast_uint {l : RLit} {b : RExpr} (h : Front.tryCast (.val .uint) (.lit (some (litTy l)) l) = some b) : ∃ n, b = uintLit n := by
  cases l <;> first | (cases h; exact ⟨_, rfl⟩) | cases h

theorem cast_ureal {l : RLit} {b : RExpr} (h : Front.tryCast (.val .ureal) (.lit (some (litTy l)) l) = some b) :
    ∃ q, litRational b = .ok q ∧ numeral b.strip = some q := by
  cases l <;> first | (cases h; exact ⟨_, rfl, rfl⟩) | cases h

theorem cast_string {l : RLit} {b : RExpr} (h : Front.tryCast .string (.lit (some (litTy l)) l) = some b) : ∃ s, b = .lit (some .string) (.str s) := by
  cases l <;> first | (cases h; exact ⟨_, rfl⟩) | cases h

theorem cast_same {t : Ty} {x : Ident} {b : RExpr} (ht : RTy.partialCmp (.val t) (.val t) = some .eq)
    (h : Front.tryCast (.val t) (.var (some (.val t)) x) = some b) : b = .var (some (.val t)) x := by
  obtain ⟨s, hs, ⟨-, rfl⟩ | ⟨h1, -⟩⟩ := tryCast_some h
  · rfl
  · cases hs
    rw [ht] at h1
    cases h1

/-- What is known about the arguments of an annotation after type checking. -/
def Typed (Γ : Ctx) (k : AnnKind) (args : List RExpr) : Prop :=
  ∃ args₀ args₁ Γ₁ Γ₂, AnnShape Γ k args₀ ∧ Ext Γ Γ₁ ∧ checkL false args₀ Γ₁ = some (args₁, Γ₂) ∧ checkCall k.params args₁ = some args

theorem Typed.invariant {Γ : Ctx} {args : List RExpr} (h : Typed Γ .invariant args) : ∃ i, args = [i] := by
  obtain ⟨args₀, args₁, Γ₁, Γ₂, -, -, -, h⟩ := h
  obtain ⟨hn, h⟩ := checkCall_passed h
  obtain ⟨a, rfl⟩ := List.length_eq_one_iff.1 hn
  rcases h with _ | ⟨-, _ | _⟩
  exact ⟨_, rfl⟩

theorem Typed.number {Γ : Ctx} {k : AnnKind} (hk : k = .kInduction ∨ k = .unroll) {args : List RExpr} (h : Typed Γ k args) :
    ∃ n i, args = [uintLit n, i] := by
  obtain ⟨args₀, args₁, Γ₁, Γ₂, -, -, hL, h⟩ := h
  obtain ⟨hn, h⟩ := checkCall_passed h
  have hp : k.params = [(.val .uint, true), (.val .eureal, false)] := by rcases hk with rfl | rfl <;> rfl
  rw [hp] at hn h
  obtain ⟨a, b, rfl⟩ := List.length_eq_two.1 hn
  rcases h with _ | ⟨h1, _ | ⟨-, _ | _⟩⟩
  obtain ⟨l, rfl⟩ := checkL_lit hL a (.head _) (h1.1 rfl)
  obtain ⟨n, rfl⟩ := cast_uint h1.2
  exact ⟨n, _, rfl⟩

theorem Typed.omega {Γ : Ctx} {args : List RExpr} (h : Typed Γ .omegaInvariant args) : ∃ t x i, args = [.var t x, i] := by
  obtain ⟨args₀, args₁, Γ₁, Γ₂, ⟨ty, x, as, rfl, k, hx, -⟩, hΓ, hL, h⟩ := h
  have hx : Γ₁ x = some (.var (.val .uint) k) := by
    rcases hΓ x with h | ⟨k', t, h, -⟩
    · rw [h, hx]
    · rw [hx] at h
      cases h
  simp only [checkL, Option.bind_eq_bind, Option.bind_eq_some_iff, Prod.exists, Option.pure_def, Option.some.injEq, Prod.mk.injEq] at hL
  obtain ⟨e', Γ₃, he, es, Γ₄, hes, rfl, rfl⟩ := hL
  obtain rfl := check_var hx he
  obtain ⟨hn, h⟩ := checkCall_passed h
  obtain ⟨a, b, hab⟩ := List.length_eq_two.1 hn
  cases hab
  rcases h with _ | ⟨h1, _ | ⟨-, _ | _⟩⟩
  obtain rfl := cast_same rfl h1.2
  exact ⟨_, _, _, rfl⟩

theorem Typed.past {Γ : Ctx} {args : List RExpr} (h : Typed Γ .past args) : ∃ i eps k p q, args = [i, eps, k] ∧
    (litRational eps = .ok p ∧ numeral eps.strip = some p) ∧ litRational k = .ok q ∧ numeral k.strip = some q := by
  obtain ⟨args₀, args₁, Γ₁, Γ₂, -, -, hL, h⟩ := h
  obtain ⟨hn, h⟩ := checkCall_passed h
  obtain ⟨a, b, c, rfl⟩ := List.length_eq_three.1 hn
  rcases h with _ | ⟨-, _ | ⟨h2, _ | ⟨h3, _ | _⟩⟩⟩
  obtain ⟨l, rfl⟩ := checkL_lit hL b (.tail _ (.head _)) (h2.1 rfl)
  obtain ⟨l', rfl⟩ := checkL_lit hL c (.tail _ (.tail _ (.head _))) (h3.1 rfl)
  obtain ⟨p, hp⟩ := cast_ureal h2.2
  obtain ⟨q, hq⟩ := cast_ureal h3.2
  exact ⟨_, _, _, p, q, rfl, hp, hq⟩

theorem Typed.ost {Γ : Ctx} {args : List RExpr} (h : Typed Γ .ost args) : ∃ i p c q, args = [i, p, c, q] := by
  obtain ⟨args₀, args₁, Γ₁, Γ₂, -, -, -, h⟩ := h
  obtain ⟨hn, h⟩ := checkCall_passed h
  rcases args₁ with _ | ⟨a, _ | ⟨b, _ | ⟨c, _ | ⟨d, _ | _⟩⟩⟩⟩ <;> try (simp [AnnKind.params] at hn; done)
  rcases h with _ | ⟨-, _ | ⟨-, _ | ⟨-, _ | ⟨-, _ | _⟩⟩⟩⟩
  exact ⟨_, _, _, _, rfl⟩

theorem Typed.ast {Γ : Ctx} {args : List RExpr} (h : Typed Γ .ast args) : ∃ i v t x p d, args = [i, v, .var t x, p, d] := by
  obtain ⟨args₀, args₁, Γ₁, Γ₂, ⟨i, v, ty, x, as, rfl, k, hx, -⟩, hΓ, hL, h⟩ := h
  simp only [checkL, Option.bind_eq_bind, Option.bind_eq_some_iff, Prod.exists, Option.pure_def, Option.some.injEq, Prod.mk.injEq] at hL
  obtain ⟨i', Γ₃, hi, es, Γ₄, ⟨v', Γ₅, hv, es', Γ₆, ⟨e', Γ₇, he, es'', Γ₈, hes, rfl, rfl⟩, rfl, rfl⟩, rfl, rfl⟩ := hL
  have hΓ := (hΓ.trans (check_frame _ _ hi).1.1).trans (check_frame _ _ hv).1.1
  have hx : Γ₅ x = some (.var (.val .ureal) k) := by
    rcases hΓ x with h | ⟨k', t, h, -⟩
    · rw [h, hx]
    · rw [hx] at h
      cases h
  obtain rfl := check_var hx he
  obtain ⟨hn, h⟩ := checkCall_passed h
  rcases es'' with _ | ⟨p, _ | ⟨d, _ | _⟩⟩ <;> try (simp [AnnKind.params] at hn; done)
  rcases h with _ | ⟨-, _ | ⟨-, _ | ⟨h3, _ | ⟨-, _ | ⟨-, _ | _⟩⟩⟩⟩⟩
  obtain rfl := cast_same rfl h3.2
  exact ⟨_, _, _, _, _, _, rfl⟩

theorem Typed.transform {Γ : Ctx} {k : AnnKind} {args : List RExpr} (h : Typed Γ k args) {inner : RStmt} (hw : isWhile inner = true) :
    (transform k args inner = .error .panic ↔ TooLarge k args) ∧ (∀ r, transform k args inner = .ok (some r) → r.Fine) := by
  cases k with
  | invariant =>
    obtain ⟨i, rfl⟩ := h.invariant
    simp [Unpack.transform, oneArg, iter, hw, TooLarge, Rule.Fine, pure, Except.pure, bind, Except.bind]
  | kInduction =>
    obtain ⟨n, i, rfl⟩ := h.number (.inl rfl)
    have ht : Unpack.transform .kInduction [uintLit n, i] inner =
        if n < 2 ^ 128 then (if n = 0 then .error (.wrongArgument (uintLit n)) else .ok (some (.kInduction n i))) else .error .panic := by
      have hl : litU128 (uintLit n) = if n < 2 ^ 128 then .ok n else .error .panic := rfl
      have hi : iter inner = .ok () := if_pos hw
      change (do
        let m ← litU128 (uintLit n)
        refuse (m = 0) (uintLit n)
        iter inner
        return some (Rule.kInduction m i)) = _
      rw [hl, hi]
      by_cases hn : n < 2 ^ 128
      · rw [if_pos hn, if_pos hn]
        by_cases h0 : n = 0
        · subst h0
          rfl
        · simp [h0, refuse, pure, Except.pure, bind, Except.bind]
      · rw [if_neg hn, if_neg hn]
        rfl
    rw [ht]
    refine ⟨⟨fun h => ?_, fun ⟨_, t, m, rest, h1, h2⟩ => ?_⟩, fun r hr => ?_⟩
    · split at h
      · split at h <;> cases h
      · exact ⟨.inl rfl, _, n, _, rfl, Nat.le_of_not_lt ‹_›⟩
    · cases h1
      rw [if_neg (Nat.not_lt.2 h2)]
    · split at hr
      · split at hr
        · cases hr
        · cases hr
          exact ⟨Nat.pos_of_ne_zero ‹_›, ‹_›⟩
      · cases hr
  | unroll =>
    obtain ⟨n, i, rfl⟩ := h.number (.inr rfl)
    have ht : Unpack.transform .unroll [uintLit n, i] inner = if n < 2 ^ 128 then .ok (some (.unroll n i)) else .error .panic := by
      have hl : litU128 (uintLit n) = if n < 2 ^ 128 then .ok n else .error .panic := rfl
      have hi : iter inner = .ok () := if_pos hw
      change (do
        let m ← litU128 (uintLit n)
        iters m inner
        return some (Rule.unroll m i)) = _
      unfold iters
      rw [hl, hi]
      by_cases hn : n < 2 ^ 128
      · rw [if_pos hn, if_pos hn]
        by_cases h0 : n = 0
        · subst h0
          rfl
        · simp [h0, pure, Except.pure, bind, Except.bind]
      · rw [if_neg hn, if_neg hn]
        rfl
    rw [ht]
    refine ⟨⟨fun h => ?_, fun ⟨_, t, m, rest, h1, h2⟩ => ?_⟩, fun r hr => ?_⟩
    · split at h
      · cases h
      · exact ⟨.inr rfl, _, n, _, rfl, Nat.le_of_not_lt ‹_›⟩
    · cases h1
      rw [if_neg (Nat.not_lt.2 h2)]
    · split at hr
      · cases hr
        exact ‹_›
      · cases hr
  | omegaInvariant =>
    obtain ⟨t, x, i, rfl⟩ := h.omega
    simp [Unpack.transform, twoArgs, freeVar, iter, hw, TooLarge, Rule.Fine, pure, Except.pure, bind, Except.bind]
  | past =>
    obtain ⟨i, eps, k, p, q, rfl, ⟨hp, hp'⟩, hq, hq'⟩ := h.past
    by_cases hpq : q ≤ p
    · simp [Unpack.transform, threeArgs, hp, hq, hpq, TooLarge, refuse, bind, Except.bind]
    · refine ⟨by simp [Unpack.transform, threeArgs, hp, hq, hpq, TooLarge, refuse, theLoop, hw, pure, Except.pure, bind, Except.bind], fun r hr => ?_⟩
      simp [Unpack.transform, threeArgs, hp, hq, hpq, refuse, theLoop, hw, pure, Except.pure, bind, Except.bind] at hr
      subst hr
      exact ⟨p, q, hp', hq', lt_of_not_ge hpq⟩
  | ost =>
    obtain ⟨i, p, c, q, rfl⟩ := h.ost
    simp [Unpack.transform, fourArgs, theLoop, hw, TooLarge, Rule.Fine, pure, Except.pure, bind, Except.bind]
  | ast =>
    obtain ⟨i, v, t, x, p, d, rfl⟩ := h.ast
    simp [Unpack.transform, fiveArgs, freeVar, theLoop, hw, TooLarge, Rule.Fine, pure, Except.pure, bind, Except.bind]
  | slice a b => simp [Unpack.transform, TooLarge, pure, Except.pure]

theorem ok_bind {α β : Type} {m : M α} {f : α → M β} {b : β} (h : (m >>= f) = .ok b) : ∃ a, m = .ok a ∧ f a = .ok b := by
  cases m with
  | error e => cases h
  | ok a => exact ⟨a, rfl, h⟩

theorem panic_bind {α β : Type} {m : M α} {f : α → M β} {e : Stop} (h : (m >>= f) = .error e) : m = .error e ∨ ∃ a, m = .ok a ∧ f a = .error e := by
  cases m with
  | error e' => cases h; exact .inl rfl
  | ok a => exact .inr ⟨a, rfl, h⟩

theorem oneArg_ok {args : List RExpr} {a : RExpr} (h : oneArg args = .ok a) : args = [a] := by
  unfold oneArg at h
  split at h <;> cases h
  rfl

theorem twoArgs_ok {args : List RExpr} {p : RExpr × RExpr} (h : twoArgs args = .ok p) : args = [p.1, p.2] := by
  unfold twoArgs at h
  split at h <;> cases h
  rfl

theorem threeArgs_ok {args : List RExpr} {p : RExpr × RExpr × RExpr} (h : threeArgs args = .ok p) : args = [p.1, p.2.1, p.2.2] := by
  unfold threeArgs at h
  split at h <;> cases h
  rfl

theorem fourArgs_ok {args : List RExpr} {p : RExpr × RExpr × RExpr × RExpr} (h : fourArgs args = .ok p) : args = [p.1, p.2.1, p.2.2.1, p.2.2.2] := by
  unfold fourArgs at h
  split at h <;> cases h
  rfl

theorem fiveArgs_ok {args : List RExpr} {p : RExpr × RExpr × RExpr × RExpr × RExpr} (h : fiveArgs args = .ok p) :
    args = [p.1, p.2.1, p.2.2.1, p.2.2.2.1, p.2.2.2.2] := by
  unfold fiveArgs at h
  split at h <;> cases h
  rfl

theorem litU128_ok {a : RExpr} {n : Nat} (h : litU128 a = .ok n) : ∃ t, a = .lit t (.uint n) := by
  unfold litU128 at h
  split at h
  · split at h <;> cases h
    exact ⟨_, rfl⟩
  · cases h

theorem freeVar_ok {a : RExpr} {x : Ident} (h : freeVar a = .ok x) : ∃ t, a = .var t x := by
  unfold freeVar at h
  split at h <;> cases h
  exact ⟨_, rfl⟩

theorem transform_written {k : AnnKind} {args : List RExpr} {inner : RStmt} {r : Rule} (h : transform k args inner = .ok (some r)) :
    written k (stripL args) = some r.strip := by
  cases k with
  | invariant =>
    obtain ⟨i, hi, h⟩ := ok_bind h
    obtain ⟨_, -, h⟩ := ok_bind h
    cases h
    rw [oneArg_ok hi]
    rfl
  | kInduction =>
    obtain ⟨⟨k, i⟩, hi, h⟩ := ok_bind h
    obtain ⟨n, hn, h⟩ := ok_bind h
    obtain ⟨_, -, h⟩ := ok_bind h
    obtain ⟨_, -, h⟩ := ok_bind h
    cases h
    obtain ⟨t, rfl⟩ := litU128_ok hn
    rw [twoArgs_ok hi]
    rfl
  | unroll =>
    obtain ⟨⟨k, i⟩, hi, h⟩ := ok_bind h
    obtain ⟨n, hn, h⟩ := ok_bind h
    obtain ⟨_, -, h⟩ := ok_bind h
    cases h
    obtain ⟨t, rfl⟩ := litU128_ok hn
    rw [twoArgs_ok hi]
    rfl
  | omegaInvariant =>
    obtain ⟨⟨x, i⟩, hi, h⟩ := ok_bind h
    obtain ⟨y, hn, h⟩ := ok_bind h
    obtain ⟨_, -, h⟩ := ok_bind h
    cases h
    obtain ⟨t, rfl⟩ := freeVar_ok hn
    rw [twoArgs_ok hi]
    rfl
  | past =>
    obtain ⟨⟨i, eps, k⟩, hi, h⟩ := ok_bind h
    obtain ⟨_, -, h⟩ := ok_bind h
    obtain ⟨_, -, h⟩ := ok_bind h
    obtain ⟨_, -, h⟩ := ok_bind h
    obtain ⟨_, -, h⟩ := ok_bind h
    cases h
    rw [threeArgs_ok hi]
    rfl
  | ost =>
    obtain ⟨⟨i, p, c, q⟩, hi, h⟩ := ok_bind h
    obtain ⟨_, -, h⟩ := ok_bind h
    cases h
    rw [fourArgs_ok hi]
    rfl
  | ast =>
    obtain ⟨⟨i, v, x, p, d⟩, hi, h⟩ := ok_bind h
    obtain ⟨_, -, h⟩ := ok_bind h
    obtain ⟨y, hn, h⟩ := ok_bind h
    cases h
    obtain ⟨t, rfl⟩ := freeVar_ok hn
    rw [fiveArgs_ok hi]
    rfl
  | slice a b => cases h

theorem transform_some {k : AnnKind} (hk : isRule k = true) {args : List RExpr} {inner : RStmt} {r : Option Rule} (h : transform k args inner = .ok r) :
    ∃ r', r = some r' := by
  cases k with
  | slice a b => cases hk
  | invariant =>
    obtain ⟨i, hi, h⟩ := ok_bind h
    obtain ⟨_, -, h⟩ := ok_bind h
    cases h
    exact ⟨_, rfl⟩
  | kInduction =>
    obtain ⟨⟨k, i⟩, hi, h⟩ := ok_bind h
    obtain ⟨n, hn, h⟩ := ok_bind h
    obtain ⟨_, -, h⟩ := ok_bind h
    obtain ⟨_, -, h⟩ := ok_bind h
    cases h
    exact ⟨_, rfl⟩
  | unroll =>
    obtain ⟨⟨k, i⟩, hi, h⟩ := ok_bind h
    obtain ⟨n, hn, h⟩ := ok_bind h
    obtain ⟨_, -, h⟩ := ok_bind h
    cases h
    exact ⟨_, rfl⟩
  | omegaInvariant =>
    obtain ⟨⟨x, i⟩, hi, h⟩ := ok_bind h
    obtain ⟨y, hn, h⟩ := ok_bind h
    obtain ⟨_, -, h⟩ := ok_bind h
    cases h
    exact ⟨_, rfl⟩
  | past =>
    obtain ⟨⟨i, eps, k⟩, hi, h⟩ := ok_bind h
    obtain ⟨_, -, h⟩ := ok_bind h
    obtain ⟨_, -, h⟩ := ok_bind h
    obtain ⟨_, -, h⟩ := ok_bind h
    obtain ⟨_, -, h⟩ := ok_bind h
    cases h
    exact ⟨_, rfl⟩
  | ost =>
    obtain ⟨⟨i, p, c, q⟩, hi, h⟩ := ok_bind h
    obtain ⟨_, -, h⟩ := ok_bind h
    cases h
    exact ⟨_, rfl⟩
  | ast =>
    obtain ⟨⟨i, v, x, p, d⟩, hi, h⟩ := ok_bind h
    obtain ⟨_, -, h⟩ := ok_bind h
    obtain ⟨y, hn, h⟩ := ok_bind h
    cases h
    exact ⟨_, rfl⟩

/-! ## The visitor -/

/-- The annotations of proof rules among the annotated statements. -/
def ruleCalls (Γ : Ctx) (cs : List (Ident × List RExpr × RStmt)) : List (Ident × List RExpr × RStmt) :=
  cs.filter fun c =>
    match Γ c.1 with
    | some (.annot k) => isRule k
    | _ => false

theorem ruleCalls_append (Γ : Ctx) (a b : List (Ident × List RExpr × RStmt)) : ruleCalls Γ (a ++ b) = ruleCalls Γ a ++ ruleCalls Γ b :=
  List.filter_append ..

/-- `r` comes from the annotated statement `c`. -/
def From (Γ : Ctx) (c : Ident × List RExpr × RStmt) (r : Rule) : Prop :=
  ∃ k, Γ c.1 = some (.annot k) ∧ isRule k = true ∧ isWhile c.2.2 = true ∧ transform k c.2.1 c.2.2 = .ok (some r)

/-- What a visit of statements with the annotated statements `cs` does. -/
structure Visited (Γ : Ctx) (cs : List (Ident × List RExpr × RStmt)) (st st' : VState) : Prop where
  nesting : st'.nesting = st.nesting
  inProc : st'.inProc = st.inProc
  rules : ∃ new, st'.rules = st.rules ++ new ∧ List.Forall₂ (From Γ) (ruleCalls Γ cs) new

theorem Visited.refl (Γ : Ctx) (st : VState) : Visited Γ [] st st := ⟨rfl, rfl, [], (List.append_nil _).symm, .nil⟩

theorem Visited.trans {Γ : Ctx} {cs cs' : List (Ident × List RExpr × RStmt)} {st st' st'' : VState} (h : Visited Γ cs st st')
    (h' : Visited Γ cs' st' st'') : Visited Γ (cs ++ cs') st st'' := by
  obtain ⟨a, ha, hf⟩ := h.rules
  obtain ⟨b, hb, hg⟩ := h'.rules
  refine ⟨h'.nesting.trans h.nesting, h'.inProc.trans h.inProc, a ++ b, by rw [hb, ha, List.append_assoc], ?_⟩
  rw [ruleCalls_append]
  exact List.rel_append hf hg

theorem Visited.inner {Γ : Ctx} {cs : List (Ident × List RExpr × RStmt)} {st st' : VState} (h : Visited Γ cs { st with nesting := st.nesting + 1 } st') :
    Visited Γ cs st { st' with nesting := st'.nesting - 1 } :=
  ⟨by rw [h.nesting]; rfl, h.inProc, h.rules⟩

theorem apply_visited {Γ : Ctx} {f : Ident} {k : AnnKind} (hf : Γ f = some (.annot k)) {args : List RExpr} {s : RStmt} {st st' : VState}
    (h : apply k args s st = .ok st') : Visited Γ [(f, args, s)] st st' := by
  by_cases hk : isRule k = true
  · have h : (if st.inProc = false then (.error .notInProcedure : M VState)
        else if isWhile s = false then .error .notOnWhile
        else if isTerminator k = true ∧ 0 < st.nesting then .error .notTerminator
        else do
          let r ← transform k args s
          return { st with rules := st.rules ++ r.toList, ended := st.ended || isTerminator k }) = .ok st' := by
      cases k <;> first | exact h | cases hk
    split at h
    · cases h
    split at h
    · cases h
    split at h
    · cases h
    rename_i hw _
    obtain ⟨r, hr, h⟩ := ok_bind h
    obtain ⟨r, rfl⟩ := transform_some hk hr
    cases h
    refine ⟨rfl, rfl, [r], rfl, ?_⟩
    have : ruleCalls Γ [(f, args, s)] = [(f, args, s)] := by simp [ruleCalls, hf, hk]
    rw [this]
    exact .cons ⟨k, hf, hk, by simpa using hw, hr⟩ .nil
  · have : st' = st := by
      cases k with
      | slice a b => cases h; rfl
      | _ => exact absurd rfl hk
    subst this
    have : ruleCalls Γ [(f, args, s)] = [] := by simp [ruleCalls, hf, hk]
    refine ⟨rfl, rfl, [], (List.append_nil _).symm, ?_⟩
    rw [this]
    exact .nil

theorem ended_ok {b : Bool} {m : M VState} {st : VState} (h : (if b = true then (.error .notTerminator : M VState) else m) = .ok st) :
    b = false ∧ m = .ok st := by
  cases b
  · exact ⟨rfl, h⟩
  · cases h

mutual

theorem encS_visited (Γ : Ctx) : ∀ (s : RStmt) {st st' : VState}, encS Γ s st = .ok st' → Visited Γ (calls s) st st'
  | .annot f args s, st, st', h => by
    simp only [encS] at h
    obtain ⟨st₁, h₁, h⟩ := ok_bind h
    have hv := (encS_visited Γ s h₁).inner
    simp only [calls]
    split at h
    · rename_i k hf
      exact hv.trans (apply_visited hf h)
    · rename_i d hd hf
      cases h
      refine hv.trans ⟨rfl, rfl, [], (List.append_nil _).symm, ?_⟩
      have : ruleCalls Γ [(f, args, s)] = [] := by
        simp only [ruleCalls, List.filter_cons, List.filter_nil]
        rw [hf]
        cases d <;> first | rfl | exact absurd rfl (hd _)
      rw [this]
      exact .nil
    · cases h
  | .ite c a b, st, st', h => by
    simp only [encS] at h
    obtain ⟨-, h⟩ := ended_ok h
    obtain ⟨st₁, h₁, h⟩ := ok_bind h
    obtain ⟨st₂, h₂, h⟩ := ok_bind h
    cases h
    exact ((encB_visited Γ a h₁).trans (encB_visited Γ b h₂)).inner
  | .demonic a b, st, st', h => by
    simp only [encS] at h
    obtain ⟨-, h⟩ := ended_ok h
    obtain ⟨st₁, h₁, h⟩ := ok_bind h
    obtain ⟨st₂, h₂, h⟩ := ok_bind h
    cases h
    exact ((encB_visited Γ a h₁).trans (encB_visited Γ b h₂)).inner
  | .angelic a b, st, st', h => by
    simp only [encS] at h
    obtain ⟨-, h⟩ := ended_ok h
    obtain ⟨st₁, h₁, h⟩ := ok_bind h
    obtain ⟨st₂, h₂, h⟩ := ok_bind h
    cases h
    exact ((encB_visited Γ a h₁).trans (encB_visited Γ b h₂)).inner
  | .additive a b, st, st', h => by
    simp only [encS] at h
    obtain ⟨-, h⟩ := ended_ok h
    obtain ⟨st₁, h₁, h⟩ := ok_bind h
    obtain ⟨st₂, h₂, h⟩ := ok_bind h
    cases h
    exact ((encB_visited Γ a h₁).trans (encB_visited Γ b h₂)).inner
  | .seq ss, st, st', h => by
    simp only [encS] at h
    obtain ⟨-, h⟩ := ended_ok h
    obtain ⟨st₁, h₁, h⟩ := ok_bind h
    cases h
    exact (encB_visited Γ ss h₁).inner
  | .while c b, st, st', h => by
    simp only [encS] at h
    obtain ⟨-, h⟩ := ended_ok h
    exact encB_visited Γ b h
  | .var _ _ _, st, st', h | .assign _ _, st, st', h | .havoc _ _, st, st', h | .assert _ _, st, st', h | .assume _ _, st, st', h
  | .compare _ _, st, st', h | .negate _, st, st', h | .validate _, st, st', h | .tick _, st, st', h | .weigh _, st, st', h
  | .label _, st, st', h => by
    simp only [encS] at h
    obtain ⟨-, h⟩ := ended_ok h
    cases h
    exact .refl _ _

theorem encB_visited (Γ : Ctx) : ∀ (ss : List RStmt) {st st' : VState}, encB Γ ss st = .ok st' → Visited Γ (callsB ss) st st'
  | [], st, st', h => by
    simp only [encB] at h
    cases h
    exact .refl _ _
  | s :: ss, st, st', h => by
    simp only [encB] at h
    obtain ⟨st₁, h₁, h⟩ := ok_bind h
    exact (encS_visited Γ s h₁).trans (encB_visited Γ ss h)

end

/-! ## Panics -/

/-- A reason for a panic. -/
def Panics (Γ : Ctx) (c : Ident × List RExpr × RStmt) : Prop :=
  Γ c.1 = none ∨ ∃ k, Γ c.1 = some (.annot k) ∧ isWhile c.2.2 = true ∧ transform k c.2.1 c.2.2 = .error .panic

theorem apply_panic {k : AnnKind} {args : List RExpr} {s : RStmt} {st : VState} (h : apply k args s st = .error .panic) :
    isWhile s = true ∧ transform k args s = .error .panic := by
  by_cases hk : isRule k = true
  · have h : (if st.inProc = false then (.error .notInProcedure : M VState)
        else if isWhile s = false then .error .notOnWhile
        else if isTerminator k = true ∧ 0 < st.nesting then .error .notTerminator
        else do
          let r ← transform k args s
          return { st with rules := st.rules ++ r.toList, ended := st.ended || isTerminator k }) = .error .panic := by
      cases k <;> first | exact h | cases hk
    split at h
    · cases h
    split at h
    · cases h
    split at h
    · cases h
    rename_i hw _
    refine ⟨by simpa using hw, ?_⟩
    rcases panic_bind h with h | ⟨r, -, h⟩
    · exact h
    · cases h
  · cases k <;> first | cases h | exact absurd rfl hk

theorem ended_panic {b : Bool} {m : M VState} (h : (if b = true then (.error .notTerminator : M VState) else m) = .error .panic) : m = .error .panic := by
  cases b
  · exact h
  · cases h

theorem encTwo_panic {Γ : Ctx} {a b : List RStmt}
    (ha : ∀ {st : VState}, encB Γ a st = .error .panic → ∃ c ∈ callsB a, Panics Γ c)
    (hb : ∀ {st : VState}, encB Γ b st = .error .panic → ∃ c ∈ callsB b, Panics Γ c)
    {st : VState} (h : (if st.ended = true then (.error .notTerminator : M VState) else do
      let st ← encB Γ a { st with nesting := st.nesting + 1 }
      let st ← encB Γ b st
      return { st with nesting := st.nesting - 1 }) = .error .panic) : ∃ c ∈ callsB a ++ callsB b, Panics Γ c := by
  rcases panic_bind (ended_panic h) with h | ⟨st₁, -, h⟩
  · obtain ⟨c, hc, hp⟩ := ha h
    exact ⟨c, List.mem_append_left _ hc, hp⟩
  rcases panic_bind h with h | ⟨st₂, -, h⟩
  · obtain ⟨c, hc, hp⟩ := hb h
    exact ⟨c, List.mem_append_right _ hc, hp⟩
  · cases h

mutual

theorem encS_panic (Γ : Ctx) : ∀ (s : RStmt) {st : VState}, encS Γ s st = .error .panic → ∃ c ∈ calls s, Panics Γ c
  | .annot f args s, st, h => by
    simp only [encS] at h
    simp only [calls]
    rcases panic_bind h with h | ⟨st₁, -, h⟩
    · obtain ⟨c, hc, hp⟩ := encS_panic Γ s h
      exact ⟨c, List.mem_append_left _ hc, hp⟩
    · refine ⟨_, List.mem_append_right _ (.head _), ?_⟩
      split at h
      · rename_i k hf
        exact .inr ⟨k, hf, apply_panic h⟩
      · cases h
      · exact .inl ‹_›
  | .ite c a b, st, h => by
    simp only [encS] at h
    exact encTwo_panic (encB_panic Γ a) (encB_panic Γ b) h
  | .demonic a b, st, h => by
    simp only [encS] at h
    exact encTwo_panic (encB_panic Γ a) (encB_panic Γ b) h
  | .angelic a b, st, h => by
    simp only [encS] at h
    exact encTwo_panic (encB_panic Γ a) (encB_panic Γ b) h
  | .additive a b, st, h => by
    simp only [encS] at h
    exact encTwo_panic (encB_panic Γ a) (encB_panic Γ b) h
  | .seq ss, st, h => by
    simp only [encS] at h
    rcases panic_bind (ended_panic h) with h | ⟨st₁, -, h⟩
    · exact encB_panic Γ ss h
    · cases h
  | .while c b, st, h => by
    simp only [encS] at h
    exact encB_panic Γ b (ended_panic h)
  | .var _ _ _, st, h | .assign _ _, st, h | .havoc _ _, st, h | .assert _ _, st, h | .assume _ _, st, h
  | .compare _ _, st, h | .negate _, st, h | .validate _, st, h | .tick _, st, h | .weigh _, st, h
  | .label _, st, h => by
    simp only [encS] at h
    cases ended_panic h

theorem encB_panic (Γ : Ctx) : ∀ (ss : List RStmt) {st : VState}, encB Γ ss st = .error .panic → ∃ c ∈ callsB ss, Panics Γ c
  | [], st, h => by
    simp only [encB] at h
    cases h
  | s :: ss, st, h => by
    simp only [encB] at h
    simp only [callsB]
    rcases panic_bind h with h | ⟨st₁, -, h⟩
    · obtain ⟨c, hc, hp⟩ := encS_panic Γ s h
      exact ⟨c, List.mem_append_left _ hc, hp⟩
    · obtain ⟨c, hc, hp⟩ := encB_panic Γ ss h
      exact ⟨c, List.mem_append_right _ hc, hp⟩

end

/-! ## The type checker -/

/-- What is known about an annotated statement after type checking. -/
def CallOk (Γ : Ctx) (c : Ident × List RExpr × RStmt) : Prop := ∃ k, Γ c.1 = some (.annot k) ∧ Typed Γ k c.2.1

mutual

theorem checkS_calls (Γ₀ : Ctx) : ∀ (s : RStmt) {Γ Γ' : Ctx} {s' : RStmt}, checkS s Γ = some (s', Γ') → Ext Γ₀ Γ → s.InScope Γ₀ →
    ∀ c ∈ calls s', CallOk Γ₀ c
  | .seq ss, Γ, Γ', s', h, hx, hs => by
    simp only [checkS, Option.bind_eq_bind, Option.bind_eq_some_iff, Prod.exists, Option.pure_def, Option.some.injEq,
      Prod.mk.injEq] at h
    obtain ⟨ss', Γ₁, h, rfl, rfl⟩ := h
    exact checkSL_calls Γ₀ ss h hx hs
  | .var x t init, Γ, Γ', s', h, hx, hs => by
    simp only [checkS, Option.bind_eq_bind, Option.bind_eq_some_iff, Prod.exists, Option.pure_def, Option.some.injEq,
      Prod.mk.injEq] at h
    obtain ⟨i₁, Γ₁, h₁, i₂, Γ₂, h₂, rfl, rfl⟩ := h
    exact fun c hc => nomatch hc
  | .assign lhs rhs, Γ, Γ', s', h, hx, hs => by
    simp only [checkS, Option.bind_eq_bind, Option.bind_eq_some_iff, Prod.exists, Option.pure_def, Option.some.injEq,
      Prod.mk.injEq] at h
    obtain ⟨e₁, Γ₁, h₁, e₂, h₂, rfl, rfl⟩ := h
    exact fun c hc => nomatch hc
  | .havoc d xs, Γ, Γ', s', h, hx, hs => by
    simp only [checkS] at h
    split at h
    · cases h; exact fun c hc => nomatch hc
    · cases h
  | .assert d e, Γ, Γ', s', h, hx, hs | .assume d e, Γ, Γ', s', h, hx, hs | .compare d e, Γ, Γ', s', h, hx, hs
  | .tick e, Γ, Γ', s', h, hx, hs | .weigh e, Γ, Γ', s', h, hx, hs => by
    simp only [checkS, Option.bind_eq_bind, Option.bind_eq_some_iff, Prod.exists, Option.pure_def, Option.some.injEq,
      Prod.mk.injEq] at h
    obtain ⟨e₁, Γ₁, h₁, rfl, rfl⟩ := h
    exact fun c hc => nomatch hc
  | .negate d, Γ, Γ', s', h, hx, hs | .validate d, Γ, Γ', s', h, hx, hs | .label d, Γ, Γ', s', h, hx, hs => by
    simp only [checkS, Option.some.injEq, Prod.mk.injEq] at h
    obtain ⟨rfl, rfl⟩ := h
    exact fun c hc => nomatch hc
  | .demonic a b, Γ, Γ', s', h, hx, hs | .angelic a b, Γ, Γ', s', h, hx, hs | .additive a b, Γ, Γ', s', h, hx, hs => by
    simp only [checkS, Option.bind_eq_bind, Option.bind_eq_some_iff, Prod.exists, Option.pure_def, Option.some.injEq,
      Prod.mk.injEq] at h
    obtain ⟨a', Γ₁, ha, b', Γ₂, hb, rfl, rfl⟩ := h
    intro c hc
    rcases List.mem_append.1 hc with hc | hc
    · exact checkSL_calls Γ₀ a ha hx hs.1 c hc
    · exact checkSL_calls Γ₀ b hb (hx.trans (checkSL_frame a ha).1.1) hs.2 c hc
  | .ite e a b, Γ, Γ', s', h, hx, hs => by
    simp only [checkS, Option.bind_eq_bind, Option.bind_eq_some_iff, Prod.exists, Option.pure_def, Option.some.injEq,
      Prod.mk.injEq] at h
    obtain ⟨e', Γ₀', he, a', Γ₁, ha, b', Γ₂, hb, e'', he', rfl, rfl⟩ := h
    have hx := hx.trans (check_frame _ _ he).1.1
    intro c hc
    rcases List.mem_append.1 hc with hc | hc
    · exact checkSL_calls Γ₀ a ha hx hs.2.1 c hc
    · exact checkSL_calls Γ₀ b hb (hx.trans (checkSL_frame a ha).1.1) hs.2.2 c hc
  | .while e b, Γ, Γ', s', h, hx, hs => by
    simp only [checkS, Option.bind_eq_bind, Option.bind_eq_some_iff, Prod.exists, Option.pure_def, Option.some.injEq,
      Prod.mk.injEq] at h
    obtain ⟨e', Γ₀', he, b', Γ₂, hb, e'', he', rfl, rfl⟩ := h
    exact checkSL_calls Γ₀ b hb (hx.trans (check_frame _ _ he).1.1) hs.2
  | .annot f args s, Γ, Γ', s', h, hx, hs => by
    simp only [checkS, Option.bind_eq_bind, Option.bind_eq_some_iff, Prod.exists, Option.pure_def] at h
    obtain ⟨as, Γ₁, has, s₁, Γ₂, h₁, h⟩ := h
    obtain ⟨⟨k, hk, hshape⟩, -, hs⟩ := hs
    have hx₁ := hx.trans (checkL_frame _ _ has).1.1
    have hf : Γ₂ f = some (.annot k) := by
      rcases (hx₁.trans (checkS_frame s h₁).1.1) f with h | ⟨k', t, h, -⟩
      · rw [h, hk]
      · rw [hk] at h
        cases h
    rw [hf] at h
    simp only [Option.bind_eq_some_iff, Option.some.injEq, Prod.mk.injEq] at h
    obtain ⟨as', has', rfl, rfl⟩ := h
    intro c hc
    rcases List.mem_append.1 hc with hc | hc
    · exact checkS_calls Γ₀ s h₁ hx₁ hs c hc
    · rcases List.mem_singleton.1 hc with rfl
      exact ⟨k, hk, args, as, Γ, Γ₁, hshape, hx, has, has'⟩

theorem checkSL_calls (Γ₀ : Ctx) : ∀ (ss : List RStmt) {Γ Γ' : Ctx} {ss' : List RStmt}, checkSL ss Γ = some (ss', Γ') → Ext Γ₀ Γ → InScopeB Γ₀ ss →
    ∀ c ∈ callsB ss', CallOk Γ₀ c
  | [], Γ, Γ', ss', h, hx, hs => by
    simp only [checkSL, Option.some.injEq, Prod.mk.injEq] at h
    obtain ⟨rfl, rfl⟩ := h
    exact fun c hc => nomatch hc
  | s :: ss, Γ, Γ', ss', h, hx, hs => by
    simp only [checkSL, Option.bind_eq_bind, Option.bind_eq_some_iff, Prod.exists, Option.pure_def, Option.some.injEq,
      Prod.mk.injEq] at h
    obtain ⟨s', Γ₁, h₁, ss'', Γ₂, h₂, rfl, rfl⟩ := h
    intro c hc
    rcases List.mem_append.1 hc with hc | hc
    · exact checkS_calls Γ₀ s h₁ hx hs.1 c hc
    · exact checkSL_calls Γ₀ ss h₂ (hx.trans (checkS_frame s h₁).1.1) hs.2 c hc

end

mutual

theorem calls_strip : ∀ s : RStmt, calls s.strip = (calls s).map fun c => (c.1, stripL c.2.1, c.2.2.strip)
  | .annot f args s => by simp only [RStmt.strip, calls, calls_strip s, List.map_append, List.map_cons, List.map_nil]
  | .ite _ a b | .demonic a b | .angelic a b | .additive a b => by simp only [RStmt.strip, calls, callsB_strip a, callsB_strip b, List.map_append]
  | .seq ss => by simp only [RStmt.strip, calls, callsB_strip ss]
  | .while _ b => by simp only [RStmt.strip, calls, callsB_strip b]
  | .var _ _ none | .var _ _ (some _) | .assign _ _ | .havoc _ _ | .assert _ _ | .assume _ _ | .compare _ _ | .negate _ | .validate _ | .tick _
  | .weigh _ | .label _ => by simp only [RStmt.strip, calls, List.map_nil]

theorem callsB_strip : ∀ ss : List RStmt, callsB (stripB ss) = (callsB ss).map fun c => (c.1, stripL c.2.1, c.2.2.strip)
  | [] => rfl
  | s :: ss => by simp only [stripB, callsB, calls_strip s, callsB_strip ss, List.map_append]

end

theorem annot_ext {Γ Γ' : Ctx} (h : Ext Γ Γ') {f : Ident} {k : AnnKind} (hf : Γ f = some (.annot k)) : Γ' f = some (.annot k) := by
  rcases h f with h | ⟨k', t, h, -⟩
  · rw [h, hf]
  · rw [hf] at h
    cases h

theorem from_written {Γ Γ' : Ctx} (hx : Ext Γ Γ') : ∀ {cs : List (Ident × List RExpr × RStmt)} {rs : List Rule}, (∀ c ∈ cs, CallOk Γ c) →
    List.Forall₂ (From Γ') (ruleCalls Γ' cs) rs →
    ((cs.map fun c => (c.1, stripL c.2.1, c.2.2.strip)).filterMap fun c : Ident × List RExpr × RStmt =>
      match Γ c.1 with
      | some (.annot k) => if isRule k then some (written k c.2.1) else none
      | _ => none) = rs.map fun r => some r.strip
  | [], rs, hc, h => by
    cases h
    rfl
  | c :: cs, rs, hc, h => by
    obtain ⟨k, hk, -⟩ := hc c (.head _)
    have hk' := annot_ext hx hk
    have hc := fun c h => hc c (.tail _ h)
    rw [List.map_cons, List.filterMap_cons]
    simp only [hk]
    by_cases hr : isRule k = true
    · have he : ruleCalls Γ' (c :: cs) = c :: ruleCalls Γ' cs := List.filter_cons_of_pos (by simp only [hk', hr])
      rw [he] at h
      rcases h with _ | ⟨⟨k', hk'', -, -, hr'⟩, h⟩
      rw [hk'] at hk''
      cases hk''
      rw [if_pos hr, List.map_cons, transform_written hr', from_written hx hc h]
    · have he : ruleCalls Γ' (c :: cs) = ruleCalls Γ' cs := List.filter_cons_of_neg (by simp [hk', hr])
      rw [he] at h
      rw [if_neg hr]
      exact from_written hx hc h

theorem forall₂_left {α β : Type} {R : α → β → Prop} : ∀ {as : List α} {bs : List β}, List.Forall₂ R as bs → ∀ {b : β}, b ∈ bs → ∃ a ∈ as, R a b
  | _, _, .cons h _, _, .head _ => ⟨_, .head _, h⟩
  | _, _, .cons _ h, _, .tail _ hb => by
    obtain ⟨a, ha, hr⟩ := forall₂_left h hb
    exact ⟨a, .tail _ ha, hr⟩

theorem forall₂_right {α β : Type} {R : α → β → Prop} : ∀ {as : List α} {bs : List β}, List.Forall₂ R as bs → ∀ {a : α}, a ∈ as → ∃ b ∈ bs, R a b
  | _, _, .cons h _, _, .head _ => ⟨_, .head _, h⟩
  | _, _, .cons _ h, _, .tail _ hb => by
    obtain ⟨b, hb, hr⟩ := forall₂_right h hb
    exact ⟨b, .tail _ hb, hr⟩

/-! ## The theorems -/

/-- After name resolution and type checking, the encoders only panic for the numbers of `@k_induction` and `@unroll` that are not representable in
128 bits. -/
theorem C92_partial {Γ Γ' : Ctx} {ss ss' : List RStmt} (hs : InScopeB Γ ss) (h : checkSL ss Γ = some (ss', Γ')) {st : VState}
    (hp : encB Γ' ss' st = .error .panic) : ∃ c ∈ callsB ss', ∃ k, Γ c.1 = some (.annot k) ∧ TooLarge k c.2.1 := by
  obtain ⟨c, hc, hp⟩ := encB_panic Γ' ss' hp
  obtain ⟨k, hk, ht⟩ := checkSL_calls Γ ss h (Ext.refl Γ) hs c hc
  have hk' := annot_ext (checkSL_frame ss h).1.1 hk
  refine ⟨c, hc, k, hk, ?_⟩
  rcases hp with hn | ⟨k', hk'', hw, hp⟩
  · rw [hk'] at hn
    cases hn
  · rw [hk'] at hk''
    cases hk''
    exact (ht.transform hw).1.1 hp

/-- If the body is accepted, then the encoders got exactly the proof rules that are written in the program, in order and inner ones first: the same
number `k`, the same free variable, and the same expressions up to types and casts. -/
theorem C92_written {Γ Γ' : Ctx} {ss ss' : List RStmt} (hs : InScopeB Γ ss) (h : checkSL ss Γ = some (ss', Γ')) {st : VState}
    (ha : encB Γ' ss' .start = .ok st) : asWritten Γ (stripB ss) = st.rules.map fun r => some r.strip := by
  obtain ⟨-, -, rs, hr, hf⟩ := encB_visited Γ' ss' ha
  have hr : st.rules = rs := hr
  obtain ⟨hx, he⟩ := checkSL_frame ss h
  rw [asWritten, ← he, callsB_strip, from_written hx.1 (checkSL_calls Γ ss h (Ext.refl Γ) hs) hf, hr]

/-- If the body is accepted, then the documented conditions on the arguments hold. -/
theorem C92_fine {Γ Γ' : Ctx} {ss ss' : List RStmt} (hs : InScopeB Γ ss) (h : checkSL ss Γ = some (ss', Γ')) {st : VState}
    (ha : encB Γ' ss' .start = .ok st) : ∀ r ∈ st.rules, r.Fine := by
  obtain ⟨-, -, rs, hr, hf⟩ := encB_visited Γ' ss' ha
  have hr : st.rules = rs := hr
  rw [hr]
  intro r hm
  obtain ⟨c, hc, k, hk, -, hw, ht⟩ := forall₂_left hf hm
  have hc := (List.mem_filter.1 hc).1
  obtain ⟨k', hk', hty⟩ := checkSL_calls Γ ss h (Ext.refl Γ) hs c hc
  rw [annot_ext (checkSL_frame ss h).1.1 hk'] at hk
  cases hk
  exact (hty.transform hw).2 r ht

/-- If the body is accepted, then every statement with a proof rule is a loop. -/
theorem C92_loops {Γ Γ' : Ctx} {ss ss' : List RStmt} (hs : InScopeB Γ ss) (h : checkSL ss Γ = some (ss', Γ')) {st : VState}
    (ha : encB Γ' ss' .start = .ok st) : ∀ f args s k, (f, args, s) ∈ callsB ss' → Γ f = some (.annot k) → isRule k = true → ∃ g b, s = .while g b := by
  obtain ⟨-, -, rs, hr, hf⟩ := encB_visited Γ' ss' ha
  intro f args s k hc hk hrule
  have hk' := annot_ext (checkSL_frame ss h).1.1 hk
  obtain ⟨r, -, k', -, -, hw, -⟩ := forall₂_right hf (a := (f, args, s)) (List.mem_filter.2 ⟨hc, by simp only [hk', hrule]⟩)
  cases s <;> first | exact ⟨_, _, rfl⟩ | cases hw

/-- The panic for numbers that are too large happens: for every context with `@unroll`, every such number and every loop. -/
theorem C92_panics {Γ : Ctx} {f : Ident} (hf : Γ f = some (.annot .unroll)) {n : Nat} (hn : 2 ^ 128 ≤ n) (t g : RExpr)
    (ty : Option RTy) : encB Γ [.annot f [.lit ty (.uint n), t] (.while g [])] .start = .error .panic := by
  have ht : transform .unroll [.lit ty (.uint n), t] (.while g []) = .error .panic := by
    have : litU128 (.lit ty (.uint n)) = .error .panic := by
      change (if n < 2 ^ 128 then _ else _) = _
      rw [if_neg (Nat.not_lt.2 hn)]
    change (litU128 (.lit ty (.uint n)) >>= _) = _
    rw [this]
    rfl
  change ((match Γ f with
    | some (.annot k) => apply k [.lit ty (.uint n), t] (.while g []) .start
    | some _ => .ok .start
    | none => .error .panic) >>= _) = _
  rw [hf]
  change ((transform .unroll [.lit ty (.uint n), t] (.while g []) >>= _) >>= _) = _
  rw [ht]
  rfl

theorem Typed.message {Γ : Ctx} {n : Nat} {m : Bool} {args : List RExpr} (h : Typed Γ (.slice n m) args) :
    (m = false → args = []) ∧ (m = true → ∃ s, args = [.lit (some .string) (.str s)]) := by
  obtain ⟨args₀, args₁, Γ₁, Γ₂, -, -, hL, h⟩ := h
  cases m with
  | false =>
    refine ⟨fun _ => ?_, nofun⟩
    obtain ⟨hn, h⟩ := checkCall_passed h
    obtain rfl := List.length_eq_zero_iff.1 hn
    cases h
    rfl
  | true =>
    refine ⟨nofun, fun _ => ?_⟩
    obtain ⟨hn, h⟩ := checkCall_passed h
    obtain ⟨a, rfl⟩ := List.length_eq_one_iff.1 hn
    rcases h with _ | ⟨h1, _ | _⟩
    obtain ⟨l, rfl⟩ := checkL_lit hL a (.head _) (h1.1 rfl)
    obtain ⟨s, rfl⟩ := cast_string h1.2
    exact ⟨s, rfl⟩

/-- After type checking, the messages of slicing annotations are read without a panic: there is a message if the annotation has one, and it is the
string literal that is written. -/
theorem C92_message {Γ Γ' : Ctx} {ss ss' : List RStmt} (hs : InScopeB Γ ss) (h : checkSL ss Γ = some (ss', Γ')) {f : Ident} {args : List RExpr}
    {s : RStmt} (hc : (f, args, s) ∈ callsB ss') {n : Nat} {m : Bool} (hf : Γ f = some (.annot (.slice n m))) :
    (m = false → message m args = .ok none) ∧
    (m = true → ∃ str, message m args = .ok (some str) ∧ ∃ s₀, (f, [.lit none (.str str)], s₀) ∈ callsB (stripB ss)) := by
  obtain ⟨k, hk, ht⟩ := checkSL_calls Γ ss h (Ext.refl Γ) hs _ hc
  rw [hf] at hk
  cases hk
  refine ⟨fun hm => ?_, fun hm => ?_⟩
  · obtain rfl : args = [] := ht.message.1 hm
    rw [hm]
    rfl
  · obtain ⟨str, rfl⟩ : ∃ s, args = [.lit (some .string) (.str s)] := ht.message.2 hm
    refine ⟨str, by rw [hm]; rfl, s.strip, ?_⟩
    rw [← (checkSL_frame ss h).2, callsB_strip]
    exact List.mem_map.2 ⟨_, hc, rfl⟩

/-! ## Programs -/

/-- A context with the annotations and a variable. -/
def c92Ctx : Ctx := fun f =>
  if f = ⟨"unroll", 0⟩ then some (.annot .unroll)
  else if f = ⟨"k_induction", 0⟩ then some (.annot .kInduction)
  else if f = ⟨"omega_invariant", 0⟩ then some (.annot .omegaInvariant)
  else if f = ⟨"past", 0⟩ then some (.annot .past)
  else if f = ⟨"error_msg", 0⟩ then some (.annot (.slice 0 true))
  else if f = ⟨"n", 0⟩ then some (.var (.val .uint) .mut)
  else none

/-- `@unroll(2^128, 1) while true {}` -/
def c92Large : List RStmt :=
  [.annot ⟨"unroll", 0⟩ [.lit none (.uint (2 ^ 128)), .lit none (.uint 1)] (.while (.lit none (.bool true)) [])]

/-- `@unroll(2^128, 1) while true {}` passes name resolution and the type checker, and makes the encoder panic. -/
theorem C92_not_full : ¬ C92_full := by
  intro h
  refine h c92Ctx c92Ctx c92Large _ ?_ rfl (C92_panics rfl le_rfl _ _ _)
  exact ⟨⟨⟨_, rfl, trivial⟩, ⟨trivial, trivial, trivial⟩, trivial, trivial⟩, trivial⟩

/-- `@k_induction(3, n) while true { @error_msg("m") assert n; @omega_invariant(n, n) while true {} }; @past(1, 0, 2) while true {}` -/
def c92Body : List RStmt :=
  [.annot ⟨"k_induction", 0⟩ [.lit none (.uint 3), .var none ⟨"n", 0⟩] (.while (.lit none (.bool true))
    [.annot ⟨"error_msg", 0⟩ [.lit none (.str "m")] (.assert .down (.var none ⟨"n", 0⟩)),
      .annot ⟨"omega_invariant", 0⟩ [.var none ⟨"n", 0⟩, .var none ⟨"n", 0⟩] (.while (.lit none (.bool true)) [])]),
    .annot ⟨"past", 0⟩ [.lit none (.uint 1), .lit none (.uint 0), .lit none (.uint 2)] (.while (.lit none (.bool true)) [])]

theorem c92Body_scope : InScopeB c92Ctx c92Body := by
  simp [c92Body, InScopeB, RStmt.InScope, InScopeL, RExpr.InScope, c92Ctx, AnnShape, Assignable]

theorem c92Body_accepted : ∃ ss' st, checkSL c92Body c92Ctx = some (ss', c92Ctx) ∧ encB c92Ctx ss' .start = .ok st ∧
    st.rules.map (fun r => some r.strip) = [some (.omegaInvariant ⟨"n", 0⟩ (.var none ⟨"n", 0⟩)), some (.kInduction 3 (.var none ⟨"n", 0⟩)),
      some (.past (.lit none (.uint 1)) (.lit none (.uint 0)) (.lit none (.uint 2)))] :=
  ⟨_, _, rfl, rfl, rfl⟩

/-- The assumptions of `C92_written`, `C92_fine` and `C92_loops` hold for a body with nested loops, a message and three proof rules. -/
example : asWritten c92Ctx (stripB c92Body) = [some (.omegaInvariant ⟨"n", 0⟩ (.var none ⟨"n", 0⟩)), some (.kInduction 3 (.var none ⟨"n", 0⟩)),
    some (.past (.lit none (.uint 1)) (.lit none (.uint 0)) (.lit none (.uint 2)))] := by
  obtain ⟨ss', st, h, ha, hr⟩ := c92Body_accepted
  rw [C92_written c92Body_scope h ha, hr]

/-- The assumptions of `C92_partial` hold for the witness. -/
example : ∃ ss', checkSL c92Large c92Ctx = some (ss', c92Ctx) ∧ ∃ c ∈ callsB ss', ∃ k, c92Ctx c.1 = some (.annot k) ∧ TooLarge k c.2.1 :=
  ⟨_, rfl, C92_partial (Γ' := c92Ctx) (ss := c92Large) (st := .start) ⟨⟨⟨_, rfl, trivial⟩, ⟨trivial, trivial, trivial⟩, trivial, trivial⟩, trivial⟩ rfl
    (C92_panics rfl le_rfl _ _ _)⟩

/-- `@k_induction(0, n) while true {}` is refused with an error. -/
example : ∃ ss', checkSL [.annot ⟨"k_induction", 0⟩ [.lit none (.uint 0), .var none ⟨"n", 0⟩] (.while (.lit none (.bool true)) [])] c92Ctx =
    some (ss', c92Ctx) ∧ encB c92Ctx ss' .start = .error (.wrongArgument (.lit (some (.val .uint)) (.uint 0))) := ⟨_, rfl, rfl⟩

/-- `@past(1, 2, 2) while true {}` is refused. -/
example : ∃ ss' e, checkSL [.annot ⟨"past", 0⟩ [.lit none (.uint 1), .lit none (.uint 2), .lit none (.uint 2)] (.while (.lit none (.bool true)) [])]
    c92Ctx = some (ss', c92Ctx) ∧ encB c92Ctx ss' .start = .error (.wrongArgument e) := ⟨_, _, rfl, rfl⟩

end Unpack
end ProofRules
end Caesar
